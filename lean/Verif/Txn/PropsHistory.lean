import Verif.Txn.Exact
import Verif.Txn.Sample

/-! # Transaction histories: properties C12, C13, C15 and C16 -/

namespace Verif.Txn
open Verif.Codec

/-! ## C12 -/

/-- C12 (partial): under the discipline, what happened to a transaction on a key is
final.  A committed transaction stays committed at that timestamp and only at that
one, with the value it wrote, and is never rolled back there; a rolled-back one stays
rolled back and is never committed.
Missing: histories without the discipline (`C12_false`, `C12_false_late_prewrite`). -/
theorem C12_outcome_final_partial {D : Bytes → TsOwner} {st : State} (h : GcReachable D st) {rs : List Req}
    (hd : Disciplined D st rs) (k : Bytes) (s : Int) :
    (∀ c, CommittedOn st k s c → CommittedOn (run st rs) k s c ∧ ¬ RolledBackOn (run st rs) k s ∧
      (∀ c', CommittedOn (run st rs) k s c' → c' = c) ∧ ∀ v, Wrote st k s c v → Wrote (run st rs) k s c v) ∧
    (RolledBackOn st k s → RolledBackOn (run st rs) k s ∧ ∀ c, ¬ CommittedOn (run st rs) k s c) := by
  have hg := h.good
  have hg' := hg.run hd
  have huniq := (hg'.dinv k).unique
  constructor
  · intro c hc
    obtain ⟨w, h1, h2, h3⟩ := committedOn_iff.1 hc
    have h1' := run_keep hg hd h1
    refine ⟨committedOn_iff.2 ⟨w, h1', h2, h3⟩, ?_, ?_, fun v hv => run_wrote hg hd hv⟩
    · intro hr
      obtain ⟨w', a1, a2, a3⟩ := rolledBackOn_iff.1 hr
      have := huniq c s w w' h1' a1 (by omega)
      subst this
      rw [h1'] at a1; cases a1
      rcases h3 with h | h <;> rw [h] at a3 <;> cases a3
    · intro c' hc'
      obtain ⟨w', a1, a2, a3⟩ := committedOn_iff.1 hc'
      exact huniq c' c w' w a1 h1' (by omega)
  · intro hr
    obtain ⟨w, h1, h2, h3⟩ := rolledBackOn_iff.1 hr
    have h1' := run_keep hg hd h1
    refine ⟨rolledBackOn_iff.2 ⟨w, h1', h2, h3⟩, ?_⟩
    intro c hc
    obtain ⟨w', a1, a2, a3⟩ := committedOn_iff.1 hc
    have := huniq c s w' w a1 h1' (by omega)
    subst this
    rw [h1'] at a1; cases a1
    rcases a3 with h | h <;> rw [h] at h3 <;> cases h3

/-- C12, hypotheses met: in the sample state transaction 10 is committed on `kB` with
a long value, transaction 20 rolled back on `kA`, and more follows. -/
example : Reachable sampleRoles.spec sampleState ∧ CommittedOn sampleState kB 10 15 ∧
    Wrote sampleState kB 10 15 (some vLong) ∧ RolledBackOn sampleState kA 20 ∧
    Disciplined sampleRoles.spec sampleState [.commit 40 45 [kB], .batchRollback 20 [kA], .commit 10 15 [kB]] :=
  ⟨sample_reachable, ⟨⟨10, .put, []⟩, by decide +kernel, rfl, Or.inl rfl⟩,
    ⟨⟨10, .put, []⟩, by decide +kernel, rfl, rfl, Or.inr ⟨rfl, by decide +kernel⟩⟩,
    ⟨⟨20, .rollback, []⟩, by decide +kernel, rfl, rfl⟩, disciplinedB_sound (by decide +kernel)⟩

/-- One-phase commit of transaction 10, then a rollback of transaction 11 (whose
start timestamp is the commit timestamp the store chose for transaction 10). -/
def overwriteHist : List Req :=
  [.prewrite { mutations := [{ op := .put, key := kA, value := vA }], primary := kA, startTs := 10, tryOnePc := true }]

/-- The full claim C12 is false without the discipline: `BatchRollback` of a
transaction that never wrote the key destroys the commit record of another one, and
its value is no longer read. -/
theorem C12_false : AllValid (overwriteHist ++ [.batchRollback 11 [kA]]) ∧
    CommittedOn (run State.init overwriteHist) kA 10 11 ∧
    (step (run State.init overwriteHist) (.get .si 50 [] [kA])).2 = .get (.ok { kvs := [(kA, vA)] }) ∧
    (step (run State.init overwriteHist) (.batchRollback 11 [kA])).2 = .basic (.ok none) ∧
    (∀ s c, ¬ CommittedOn (run State.init (overwriteHist ++ [.batchRollback 11 [kA]])) kA s c) ∧
    (step (run State.init (overwriteHist ++ [.batchRollback 11 [kA]])) (.get .si 50 [] [kA])).2
      = .get (.ok { kvs := [(kA, [])] }) := by
  refine ⟨by unfold AllValid; decide, ⟨⟨10, .put, vA⟩, by decide +kernel, rfl, Or.inl rfl⟩, by decide +kernel,
    by decide +kernel, ?_, by decide +kernel⟩
  rintro s c ⟨w, h1, h2, h3⟩
  have he : (run State.init (overwriteHist ++ [.batchRollback 11 [kA]])).write.l
      = [(⟨kA, 11⟩, ⟨11, .rollback, []⟩)] := by decide +kernel
  rw [he] at h1
  simp only [List.mem_singleton, Prod.mk.injEq] at h1
  obtain ⟨_, rfl⟩ := h1
  rcases h3 with h | h <;> cases h

/-- Pessimistic transaction 10 commits at 15; a delayed copy of its prewrite
arrives and locks the key again; a reader finds the lock expired and rolls it back. -/
def lateHist : List Req :=
  [.pessimisticLock { mutations := [⟨.lock, kA, []⟩], primary := kA, startTs := 10, ttl := 0, forUpdateTs := 10,
                      returnValues := false },
   .prewrite { mutations := [{ op := .put, key := kA, value := vLong, pess := true }], primary := kA, startTs := 10 },
   .commit 10 15 [kA]]

/-- The requests after `lateHist`. -/
def lateHist2 : List Req :=
  [.prewrite { mutations := [{ op := .put, key := kA, value := vLong, pess := true }], primary := kA, startTs := 10 },
   .checkTxnStatus { primaryKey := kA, lockTs := 10, callerStartTs := 50, currentTs := 2 ^ 40 }]

/-- C12 also fails when a pessimistic prewrite is delivered again after the commit:
the transaction ends up both committed and rolled back on the key, and the value it
committed is gone. -/
theorem C12_false_late_prewrite : AllValid (lateHist ++ lateHist2) ∧
    (step (run State.init lateHist) (.get .si 50 [] [kA])).2 = .get (.ok { kvs := [(kA, vLong)] }) ∧
    CommittedOn (run State.init (lateHist ++ lateHist2)) kA 10 15 ∧
    RolledBackOn (run State.init (lateHist ++ lateHist2)) kA 10 ∧
    (step (run State.init (lateHist ++ lateHist2)) (.get .si 50 [] [kA])).2 = .get (.ok { kvs := [(kA, [])] }) := by
  refine ⟨by unfold AllValid; decide, by decide +kernel, ⟨⟨10, .put, []⟩, by decide +kernel, rfl, Or.inl rfl⟩,
    ⟨⟨10, .rollback, []⟩, by decide +kernel, rfl, rfl⟩, by decide +kernel⟩

/-! ## C13 -/

theorem OInv.init (k : Bytes) : OInv (view State.init k) := by
  constructor <;> simp [view, State.init, CF.get_empty]

/-- C13: in any history of valid requests of optimistic transactions (no assumption
on the timestamps), two transactions that commit on the same key do not overlap. -/
theorem C13_no_lost_update {rs : List Req} (hv : AllValid rs) (ho : Optimistic rs) {k : Bytes} {s c s' c' : Int}
    (h : CommittedOn (run State.init rs) k s c) (h' : CommittedOn (run State.init rs) k s' c') :
    (s = s' ∧ c = c') ∨ c < s' ∨ c' < s := by
  have hO : OInv (view (run State.init rs) k) :=
    run_preserve_any Inv.init hv k (P := OInv) (C := Ev.Opt)
      (fun st r hr e hc => opt_of_caused ho hr hc) (fun _ _ _ _ _ hc hs hp => hs.oinv hp hc) (OInv.init k)
  obtain ⟨w, a1, a2, a3⟩ := committedOn_iff.1 h
  obtain ⟨w', b1, b2, b3⟩ := committedOn_iff.1 h'
  rcases Int.lt_trichotomy c c' with hlt | rfl | hlt
  · have := hO.order c w c' w' a1 a3 b1 b3 hlt; right; left; omega
  · rw [a1] at b1; cases b1; left; exact ⟨by omega, rfl⟩
  · have := hO.order c' w' c w b1 b3 a1 a3 hlt; right; right; omega

/-- C13, hypotheses met: two optimistic transactions commit on the same key, and a
third one that overlaps is refused. -/
example : ∃ rs, AllValid rs ∧ Optimistic rs ∧ CommittedOn (run State.init rs) kA 10 15 ∧
    CommittedOn (run State.init rs) kA 20 25 ∧
    (step (run State.init rs) (.prewrite
        { mutations := [{ op := .put, key := kA, value := vA }], primary := kA, startTs := 22 })).2 = .prewrite (.ok { results := [.writeConflict .optimistic 22 25 kA] }) := by
  refine ⟨[.prewrite { mutations := [{ op := .put, key := kA, value := vA }], primary := kA, startTs := 10 },
    .commit 10 15 [kA],
    .prewrite { mutations := [{ op := .put, key := kA, value := [8] }], primary := kA, startTs := 20 },
    .commit 20 25 [kA]], by unfold AllValid; decide, ?_, ⟨⟨10, .put, vA⟩, by decide +kernel, rfl, Or.inl rfl⟩,
    ⟨⟨20, .put, [8]⟩, by decide +kernel, rfl, Or.inl rfl⟩, by decide +kernel⟩
  intro r hr
  simp only [List.mem_cons, List.not_mem_nil, or_false] at hr
  rcases hr with rfl | rfl | rfl | rfl <;> simp

/-- Transaction 10 commits with one phase at 11; pessimistic transaction 5 locks the
key with `for_update_ts` 12, so it has seen that commit, and commits with one phase
at 6. -/
def pessOnePcHist : List Req :=
  [.prewrite { mutations := [{ op := .put, key := kA, value := [1] }], primary := kA, startTs := 10, tryOnePc := true },
   .pessimisticLock { mutations := [⟨.lock, kA, []⟩], primary := kA, startTs := 5, ttl := 0, forUpdateTs := 12,
                      returnValues := true },
   .prewrite { mutations := [{ op := .put, key := kA, value := [2], pess := true }], primary := kA, startTs := 5,
               tryOnePc := true }]

/-- The same for pessimistic transactions is false: the update of transaction 5,
made after it had read transaction 10's value under its lock, is lost. -/
theorem C13_pessimistic_false : AllValid pessOnePcHist ∧
    (step (run State.init (pessOnePcHist.take 1)) (pessOnePcHist[1])).2 = .pess (.ok { kvs := [(kA, [1])] }) ∧
    (step (run State.init (pessOnePcHist.take 2)) (pessOnePcHist[2])).2 = .prewrite (.ok { onePcTs := 6 }) ∧
    CommittedOn (run State.init pessOnePcHist) kA 10 11 ∧ CommittedOn (run State.init pessOnePcHist) kA 5 6 ∧
    (step (run State.init pessOnePcHist) (.get .si 50 [] [kA])).2 = .get (.ok { kvs := [(kA, [1])] }) := by
  refine ⟨by unfold AllValid; decide, by decide +kernel, by decide +kernel,
    ⟨⟨10, .put, [1]⟩, by decide +kernel, rfl, Or.inl rfl⟩,
    ⟨⟨5, .put, [2]⟩, by decide +kernel, rfl, Or.inl rfl⟩, by decide +kernel⟩

/-! ## C15 -/

/-- C15: a key carries at most one lock. -/
theorem C15_one_lock {st : State} {k : Bytes} {l l' : LockInfo} (h : LockOn st k l) (h' : LockOn st k l') :
    l = l' := by
  rw [lockOn_iff] at h h'
  rw [h] at h'; cases h'; rfl

theorem KStep.lockOwner {k : Bytes} {mx : Int} {x y : KS} {e : Ev} (h : KStep k mx x e y) {s : Int}
    (hx : ∀ l, x.lock = some l → l.lockTs = s) (hne : x.lock ≠ none ∨ e = .nop ∨ (∃ s c, e = .commit s c true) ∨ ∃ s, e = .rollback s) :
    ∀ l, y.lock = some l → l.lockTs = s := by
  have hcontra : x.lock = none → e = .nop ∨ (∃ s c, e = .commit s c true) ∨ ∃ s, e = .rollback s :=
    fun hn => hne.resolve_left (fun hh => hh hn)
  cases h with
  | nop => exact hx
  | prewrite s' pess l d hfree hrb hconf hok hts =>
    intro l' hl'
    simp only [Option.some.injEq] at hl'; subst hl'
    rcases hfree with hf | ⟨_, l0, hf, h2, _⟩
    · rcases hcontra hf with h | ⟨_, _, h⟩ | ⟨_, h⟩ <;> cases h
    · rw [hts, ← h2]; exact hx l0 hf
  | pessLock s' fu l hpre hfresh hok hts =>
    intro l' hl'
    simp only [Option.some.injEq] at hl'; subst hl'
    rcases hpre with hf | ⟨l0, hf, h2, _⟩
    · rcases hcontra hf.1 with h | ⟨_, _, h⟩ | ⟨_, h⟩ <;> cases h
    · rw [hts, ← h2]; exact hx l0 hf
  | commit => intro l hl; cases hl
  | rollback => intro l hl; cases hl
  | mark => exact hx
  | onePc => intro l hl; cases hl
  | update l ttl mc hlock =>
    intro l' hl'
    simp only [Option.some.injEq] at hl'; subst hl'
    exact hx l hlock
  | unlock => intro l hl; cases hl

theorem step_lockOwner {st : State} (hI : Inv st) {r : Req} (hv : r.Valid) {k : Bytes} {l : LockInfo}
    (hl : (view st k).lock = some l) : ∀ l', (view (step st r).1 k).lock = some l' → l'.lockTs = l.lockTs := by
  obtain ⟨es, h1, _, h3⟩ := step_path hI hv k
  have hx : ∀ l', (view st k).lock = some l' → l'.lockTs = l.lockTs := by
    intro l' h; rw [hl] at h; cases h; rfl
  rcases h3 with ⟨e, rfl⟩ | h3
  · generalize view (step st r).1 k = y at h1
    cases h1 with
    | cons h t =>
      cases t with
      | nil => exact h.lockOwner hx (Or.inl (by rw [hl]; simp))
  · exact h1.preserve (hI k) (P := fun x => ∀ l', x.lock = some l' → l'.lockTs = l.lockTs)
      (C := fun e => e = .nop ∨ (∃ s c, e = .commit s c true) ∨ ∃ s, e = .rollback s) h3
      (fun x e y _ hc hs hp => hs.lockOwner hp (Or.inr hc)) hx

/-- C15: in every state reached by valid requests (whatever the clients and their
timestamps), a lock is left alone by requests that do not act for its transaction;
while it is there, nobody else's lock replaces it in one request and only its own
transaction can become committed on the key. -/
theorem C15_lock_exclusive {st : State} (hst : ValidReachable st)
    {k : Bytes} {l : LockInfo} (hl : LockOn st k l) {r : Req} (hv : r.Valid) :
    (¬ r.actsFor l.lockTs → LockOn (step st r).1 k l) ∧
    (∀ l', LockOn (step st r).1 k l' → l'.lockTs = l.lockTs) ∧
    (∀ s c, CommittedOn (step st r).1 k s c → CommittedOn st k s c ∨ s = l.lockTs) := by
  have hI : Inv st := hst.inv
  obtain ⟨h1, h2⟩ := step_locked hI hv (lockOn_iff.1 hl)
  refine ⟨fun hn => lockOn_iff.2 (h1.resolve_right hn), ?_, ?_⟩
  · intro l' hl'
    exact step_lockOwner hI hv (lockOn_iff.1 hl) l' (lockOn_iff.1 hl')
  · intro s c hc
    obtain ⟨w, a1, a2, a3⟩ := committedOn_iff.1 hc
    rcases h2 c w a1 a3 with h | h
    · exact Or.inl (committedOn_iff.2 ⟨w, h, a2, a3⟩)
    · exact Or.inr (by omega)

/-- C15, hypotheses met: transaction 40 holds `kB`; a prewrite and a rollback of
transaction 50 do not act for it. -/
example : AllValid sampleHist ∧ (∃ l, LockOn sampleState kB l ∧ l.lockTs = 40 ∧
    ¬ (Req.batchRollback 50 [kB]).actsFor l.lockTs) ∧ (Req.batchRollback 50 [kB]).Valid := by
  refine ⟨?_, ⟨(sampleState.lock.get kB).get (by decide +kernel), by decide +kernel, by decide +kernel, ?_⟩, by decide⟩
  · unfold AllValid; decide +kernel
  · have : ((sampleState.lock.get kB).get (by decide +kernel)).lockTs = 40 := by decide +kernel
    rw [this]; simp [Req.actsFor]

/-! ## C16 -/

theorem commitOne_not_fatal {st : State} (h : Inv st) {s c : Int} {k : Bytes} : commitOne st s c k ≠ .fatal := by
  simp only [commitOne]
  split
  · split
    · simp
    · split
      · simp
      · split <;> simp
  · rcases getRollback_spec h s k with ⟨hr, _⟩ | ⟨hr, _⟩
    · rw [hr]; split
      · split <;> simp
      · simp
    · rw [hr]; split
      · split <;> simp
      · simp only; split <;> simp

theorem commitLoop_ret {st : State} (h : Inv st) {s c : Int} (ks : List Bytes) (ls : List LockInfo)
    {k : Bytes} (hk : k ∈ ks) (hr : ∃ r, commitOne st s c k = .ret r) :
    ∃ r, commitLoop st s c ks ls = .ok (.inr r) := by
  induction ks generalizing ls with
  | nil => cases hk
  | cons k' ks ih =>
    simp only [commitLoop]
    cases hx : commitOne st s c k' with
    | lock l =>
      rcases List.mem_cons.1 hk with rfl | hk
      · obtain ⟨r, hr⟩ := hr; rw [hr] at hx; cases hx
      · exact ih _ hk
    | already =>
      rcases List.mem_cons.1 hk with rfl | hk
      · obtain ⟨r, hr⟩ := hr; rw [hr] at hx; cases hx
      · exact ih _ hk
    | ret r => exact ⟨r, rfl⟩
    | fatal => exact absurd hx (commitOne_not_fatal h)

theorem commitOne_rolledBack {D : TsOwner} {st : State} (h : Inv st) {k : Bytes} (hd : DInv D (view st k)) {s c : Int} (hs : 0 < s)
    (hr : RolledBackOn st k s) : ∃ r, commitOne st s c k = .ret r := by
  obtain ⟨w, h1, h2, h3⟩ := rolledBackOn_iff.1 hr
  simp only [commitOne]
  split
  · rename_i hts
    obtain ⟨a1, a2⟩ := getLock_of_ts h hs hts
    split
    · exact ⟨_, rfl⟩
    · rename_i hty
      have := (hd.lock _ a1).2.2 hty
      rw [hts] at this
      exact absurd h2 (this s w h1)
  · generalize hg : getWriteInfo st s c s k false true true = g
    rcases g with _ | ⟨w', t⟩
    · rcases getRollback_spec h s k with ⟨hr, _⟩ | ⟨hr, hno⟩
      · simp only [hr]; exact ⟨_, rfl⟩
      · exact absurd ⟨h2, h3⟩ (hno w h1)
    · exfalso
      obtain ⟨a1, _, a3, a4, _⟩ := getWriteInfo_some hg
      rw [wiMatch_start hs] at a4
      have := hd.unique t s w' w a3 h1 (by omega)
      omega

/-- C16, Commit: once a transaction is rolled back on a key, any later Commit
naming the key fails (whatever disciplined requests come in between) and changes
nothing. -/
theorem C16_commit_fails {D : Bytes → TsOwner} {st : State} (h : GcReachable D st) {k : Bytes} {s : Int}
    (hr : RolledBackOn st k s) {rs : List Req} (hd : Disciplined D st rs) {c : Int} {keys : List Bytes}
    (hv : (Req.commit s c keys).Valid) (hk : k ∈ keys) :
    (∃ r, (step (run st rs) (.commit s c keys)).2 = .basic (.ok (some r)) ∨
      (step (run st rs) (.commit s c keys)).2 = .basic (.err .illegalParameters)) ∧
    (step (run st rs) (.commit s c keys)).1 = (run st rs).access c := by
  have hg := h.good.run hd
  have hr' := ((C12_outcome_final_partial h hd k s).2 hr).1
  generalize run st rs = st1 at hg hr'
  have hfail : (∃ r, (commit (st1.access c) s c keys).2 = .ok (some r)) ∨
      (commit (st1.access c) s c keys).2 = .err .illegalParameters := by
    simp only [commit]
    split
    · exact Or.inr rfl
    · left
      obtain ⟨r, hloop⟩ := commitLoop_ret (hg.inv.access c) keys [] hk
        (commitOne_rolledBack (c := c) (hg.inv.access c) (hg.dinv k) hv.1.1 (k := k) hr')
      rw [hloop]; exact ⟨r, rfl⟩
  constructor
  · rcases hfail with ⟨r, hf⟩ | hf
    · exact ⟨r, Or.inl (by simp only [step, hf])⟩
    · exact ⟨.txnNotFound 0 [], Or.inr (by simp only [step, hf])⟩
  · simp only [step]
    refine commit_fail ?_
    rcases hfail with ⟨r, hf⟩ | hf <;> rw [hf] <;> simp

/-- C16, Prewrite (partial: missing is the refusal when another key of the request is
already committed): once a transaction is rolled back on a key, any later Prewrite
with a mutation of the key writes nothing, and it is refused, unless another of its
keys was committed before (the request is then answered as a late copy). -/
theorem C16_prewrite_fails_partial {D : Bytes → TsOwner} {st : State} (h : GcReachable D st) {k : Bytes} {s : Int}
    (hr : RolledBackOn st k s) {rs : List Req} (hd : Disciplined D st rs) {q : PrewriteReq}
    (hv : (Req.prewrite q).Valid) (hq : q.startTs = s) {m : Mut} (hm : m ∈ q.mutations) (hk : m.key = k) :
    (step (run st rs) (.prewrite q)).1 = run st rs ∧
    ((∀ resp, (step (run st rs) (.prewrite q)).2 = .prewrite (.ok resp) → resp.results ≠ [] ∨ resp.exist ≠ []) ∨
      ∃ m' ∈ q.mutations, ∃ c, CommittedOn (run st rs) m'.key s c) := by
  have hg := h.good.run hd
  have hr' := ((C12_outcome_final_partial h hd k s).2 hr).1
  generalize run st rs = st1 at hg hr'
  subst hk hq
  have hend := prewrite_end hg.inv hv.1 hv.2.1 hv.2.2.1
  have hno : ∀ a, AccOk st1 q q.mutations a → a.results = [] → False := by
    intro a ha hres
    obtain ⟨w, h1, h2, h3⟩ := rolledBackOn_iff.1 hr'
    exact ha.rb hres m hm w h1 ⟨h2, h3⟩
  simp only [step]
  generalize hp : prewrite st1 q = p at hend
  cases hend with
  | none o ho =>
    refine ⟨rfl, ?_⟩
    by_cases hex : ∃ m' ∈ q.mutations, ∃ c, CommittedOn st1 m'.key q.startTs c
    · exact Or.inr hex
    · left
      intro resp hresp
      simp only [Resp.prewrite.injEq] at hresp
      by_cases hre : resp.results = []
      · right
        intro he
        obtain ⟨m', hm', w, t, hc⟩ := ho resp hresp hre he
        obtain ⟨_, a2, a3, a4⟩ := checkCommitted_some hc
        refine hex ⟨m', hm', t, committedOn_iff.2 ⟨w, a2, a3, ?_⟩⟩
        rcases ((hg.inv m'.key).write t w a2).2.2 with ⟨b, _⟩ | ⟨b, _⟩
        · exact absurd b a4
        · exact b
      · exact Or.inl hre
  | onePc a ha hres => exact absurd hres (fun hh => hno a ha hh)
  | locks a ha hres => exact absurd hres (fun hh => hno a ha hh)

/-- C16 (partial: missing are keys already committed, see `C16_false`): where rollback
records come from.  A successful `BatchRollback` leaves every
key rolled back, except keys on which the transaction had already committed; no key
carries a lock afterwards. -/
theorem C16_batchRollback_partial {D : Bytes → TsOwner} {st : State} (h : GcReachable D st) {s : Int} {keys : List Bytes}
    (hv : (Req.batchRollback s keys).Valid) (hr : (step st (.batchRollback s keys)).2 = .basic (.ok none))
    {k : Bytes} (hk : k ∈ keys) :
    (RolledBackOn (step st (.batchRollback s keys)).1 k s ∨ ∃ c, CommittedOn st k s c) ∧
    ¬ ∃ l, LockOn (step st (.batchRollback s keys)).1 k l := by
  simp only [step, Resp.basic.injEq] at hr ⊢
  have hx := (batchRollback_exact h.good.inv hv.1 hr k).1 hk
  rw [← noLock_iff]
  rcases hx with ⟨l, h1, h2, h3⟩ | ⟨h1, h2, h3⟩ | ⟨h1, h2, h3⟩
  · refine ⟨Or.inl (rolledBackOn_iff.2 ⟨rollbackRec s, by rw [h3]; exact upd_same _ _ _, rfl, rfl⟩), by rw [h3]⟩
  · refine ⟨Or.inl (rolledBackOn_iff.2 ⟨rollbackRec s, by rw [h3]; exact upd_same _ _ _, rfl, rfl⟩), by rw [h3]⟩
  · rw [h3]
    refine ⟨?_, h1⟩
    rcases h2 with h2 | h2
    · left; rw [rolledBackOn_iff, h3, ← rolledBackOn_iff]; exact h2
    · exact Or.inr h2

/-- C16, hypotheses met. -/
example : Reachable sampleRoles.spec sampleState ∧ RolledBackOn sampleState kA 20 ∧
    (Req.commit 20 25 [kA]).Valid ∧
    (step sampleState (.commit 20 25 [kA])).2 = .basic (.ok (some (.writeConflict .selfRolledBack 20 20 kA))) ∧
    (step sampleState (.batchRollback 60 [kA])).2 = .basic (.ok none) :=
  ⟨sample_reachable, ⟨⟨20, .rollback, []⟩, by decide +kernel, rfl, rfl⟩, by decide, by decide +kernel, by decide +kernel⟩

/-- The full claim C16 is false for a transaction that had committed: `BatchRollback`
reports success, and a later Commit succeeds too. -/
theorem C16_false : ∃ rs : List Req, AllValid rs ∧ Disciplined sampleRoles.spec State.init rs ∧
    (step (run State.init rs) (.batchRollback 10 [kA])).2 = .basic (.ok none) ∧
    (step (step (run State.init rs) (.batchRollback 10 [kA])).1 (.commit 10 15 [kA])).2 = .basic (.ok none) ∧
    CommittedOn (step (run State.init rs) (.batchRollback 10 [kA])).1 kA 10 15 := by
  refine ⟨[.prewrite { mutations := [{ op := .put, key := kA, value := vA }], primary := kA, startTs := 10 },
    .commit 10 15 [kA]], by unfold AllValid; decide, disciplinedB_sound (by decide +kernel), by decide +kernel,
    by decide +kernel, ⟨⟨10, .put, vA⟩, by decide +kernel, rfl, Or.inl rfl⟩⟩

end Verif.Txn
