import Verif.Txn.PropsCommit
import Verif.Txn.PropsHistory

/-! # Pessimistic locks, heart beats and status checks: properties C18, C20, C21 -/

namespace Verif.Txn
open Verif.Codec

/-! ## C18 -/

/-- What a `PessimisticLock` without complaints knows about one of its keys. -/
def PessGrant (st : State) (r : PessReq) (a : PessAcc) (k : Bytes) : Prop :=
  (st.lock.get k = none ∧ ∃ l, (k, l) ∈ a.locks) ∨
  ∃ l0, st.lock.get k = some l0 ∧ l0.lockTs = r.startTs ∧ 0 < l0.forUpdateTs ∧
    (l0.forUpdateTs = r.forUpdateTs ∨ l0.forUpdateTs < r.forUpdateTs ∧ ∃ l, (k, l) ∈ a.locks)

theorem PessGrant.mono {st : State} {r : PessReq} {a a' : PessAcc} {k : Bytes} (h : PessGrant st r a k)
    (hl : ∀ e ∈ a.locks, e ∈ a'.locks) : PessGrant st r a' k := by
  rcases h with ⟨h1, l, h2⟩ | ⟨l0, h1, h2, h3, h4⟩
  · exact Or.inl ⟨h1, l, hl _ h2⟩
  · refine Or.inr ⟨l0, h1, h2, h3, ?_⟩
    rcases h4 with h4 | ⟨h4, l, h5⟩
    · exact Or.inl h4
    · exact Or.inr ⟨h4, l, hl _ h5⟩

theorem pessOne_grant {st : State} (h : Inv st) {r : PessReq} {m : PessMut} {a : PessAcc} :
    ((pessOne st r m a).results = [] → a.results = [] ∧ PessGrant st r (pessOne st r m a) m.key) ∧
    ∀ e ∈ a.locks, e ∈ (pessOne st r m a).locks := by
  have hmem : ∀ (x : Bytes × LockInfo), ∀ e ∈ a.locks, e ∈ a.locks ++ [x] := fun x e he => List.mem_append_left _ he
  simp only [pessOne]
  split
  · rename_i hpr
    have hl : st.lock.get m.key = some (getLock st m.key) ∧ LockOk m.key (getLock st m.key) := by
      rcases getLock_cases h m.key with ⟨_, h2⟩ | h2
      · rw [h2] at hpr; exact absurd rfl hpr
      · exact h2
    have hfu0 := hl.2.fu0
    split
    · exact ⟨by simp, fun e he => he⟩
    · rename_i hne0
      split
      · rename_i hts
        split
        · rename_i hfu
          have key : PessGrant st r a m.key := Or.inr ⟨_, hl.1, hts, by omega, Or.inl hfu⟩
          split
          · exact ⟨fun hr => ⟨hr, key.mono (fun e he => he)⟩, fun e he => he⟩
          · exact ⟨fun hr => ⟨hr, key⟩, fun e he => he⟩
        · split
          · rename_i hlt
            have key : ∀ (x : LockInfo) (kvs : List (Bytes × Bytes)),
                PessGrant st r { a with locks := a.locks ++ [(m.key, x)], kvs := kvs } m.key :=
              fun x kvs => Or.inr ⟨_, hl.1, hts, by omega, Or.inr ⟨hlt, x, List.mem_append_right _ List.mem_cons_self⟩⟩
            split
            · exact ⟨fun hr => ⟨hr, key _ _⟩, hmem _⟩
            · exact ⟨fun hr => ⟨hr, key _ a.kvs⟩, hmem _⟩
          · exact ⟨by simp, fun e he => he⟩
      · exact ⟨by simp, fun e he => he⟩
  · rename_i hpr
    have hl : st.lock.get m.key = none := (getLock_primary h m.key).1 (by simpa using hpr)
    generalize getWriteInfo st (if r.returnValues = true then 0 else r.startTs) maxVer 0 m.key false true true = gw
    split
    · exact ⟨by simp, fun e he => he⟩
    · have key : ∀ (x : LockInfo) (kvs : List (Bytes × Bytes)),
          PessGrant st r { a with locks := a.locks ++ [(m.key, x)], kvs := kvs } m.key :=
        fun x kvs => Or.inl ⟨hl, x, List.mem_append_right _ List.mem_cons_self⟩
      split
      · exact ⟨fun hr => ⟨hr, key _ _⟩, hmem _⟩
      · exact ⟨fun hr => ⟨hr, key _ a.kvs⟩, hmem _⟩

theorem pessLoop_grant {st : State} (h : Inv st) {r : PessReq} (ms : List PessMut) {a a' : PessAcc}
    (he : pessLoop st r ms a = .ok a') (hr : a'.results = []) :
    a.results = [] ∧ (∀ e ∈ a.locks, e ∈ a'.locks) ∧ ∀ m ∈ ms, PessGrant st r a' m.key := by
  induction ms generalizing a with
  | nil =>
    simp only [pessLoop, Out.ok.injEq] at he; subst he
    exact ⟨hr, fun e he => he, fun m hm => by cases hm⟩
  | cons m ms ih =>
    simp only [pessLoop] at he
    split at he
    · cases he
    · obtain ⟨h1, h2, h3⟩ := ih he
      obtain ⟨h4, h5⟩ := pessOne_grant h (r := r) (m := m) (a := a)
      obtain ⟨h6, h7⟩ := h4 h1
      refine ⟨h6, fun e he => h2 e (h5 e he), fun m' hm' => ?_⟩
      rcases List.mem_cons.1 hm' with rfl | hm'
      · exact h7.mono h2
      · exact h3 m' hm'

/-- The effect of a granted `PessimisticLock` on its keys. -/
theorem pessimisticLock_granted {st : State} (h : Inv st) {r : PessReq} (hv : (Req.pessimisticLock r).Valid)
    {resp : PessResp} (hok : (pessimisticLock st r).2 = .ok resp) (hr : resp.results = []) {m : PessMut}
    (hm : m ∈ r.mutations) :
    (st.lock.get m.key = none ∨ ∃ l0, st.lock.get m.key = some l0 ∧ l0.lockTs = r.startTs ∧ 0 < l0.forUpdateTs ∧
      l0.forUpdateTs ≤ r.forUpdateTs) ∧
    (∃ l, (pessimisticLock st r).1.lock.get m.key = some l ∧ l.lockTs = r.startTs ∧ l.forUpdateTs = r.forUpdateTs) ∧
    (st.lock.get m.key = none → ∀ t w, (if r.returnValues then 0 else r.startTs) < t →
      st.write.get ⟨m.key, t⟩ = some w → w.committed → t < r.forUpdateTs) := by
  simp only [pessimisticLock] at hok ⊢
  split at hok
  · cases hok
  · cases hok
  · rename_i a ha
    have hra : a.results = [] := by
      split at hok
      · simp only [Out.ok.injEq] at hok; subst hok; exact hr
      · rename_i hh; simpa using hh
    rw [if_neg (by simpa using hra)]
    have hok' := pessLoop_ok h hv.1 hv.2.1.1 hv.2.2.1 r.mutations (fun m hm => hm) (a := {}) (fun e he => (by cases he)) ha
    have hg := (pessLoop_grant h r.mutations ha hra).2.2 m hm
    have hput : ∀ l, (m.key, l) ∈ a.locks →
        ∃ l, (st.apply { putLock := a.locks }).lock.get m.key = some l ∧ l.lockTs = r.startTs ∧ l.forUpdateTs = r.forUpdateTs := by
      intro l hl
      rw [lock_apply, if_neg (by simp)]
      cases hlp : CF.lastPut a.locks m.key with
      | none => exact absurd rfl (CF.lastPut_none.1 hlp _ hl)
      | some l' =>
        have := hok' _ (CF.lastPut_mem hlp)
        exact ⟨l', rfl, this.2.2.1, this.2.2.2.2.1⟩
    refine ⟨?_, ?_, ?_⟩
    · rcases hg with ⟨h1, _⟩ | ⟨l0, h1, h2, h3, h4⟩
      · exact Or.inl h1
      · exact Or.inr ⟨l0, h1, h2, h3, by rcases h4 with h4 | h4 <;> omega⟩
    · rcases hg with ⟨h1, l, hl⟩ | ⟨l0, h1, h2, h3, h4 | ⟨h4, l, hl⟩⟩
      · exact hput l hl
      · cases hlp : CF.lastPut a.locks m.key with
        | none =>
          refine ⟨l0, ?_, h2, h4⟩
          rw [lock_apply, if_neg (by simp), hlp, Option.none_or, h1]
        | some l' => exact hput l' (CF.lastPut_mem hlp)
      · exact hput l hl
    · intro hn t w ht hw hc
      rcases hg with ⟨_, l, hl⟩ | ⟨l0, h1, _⟩
      · obtain ⟨_, _, _, _, _, _, h6⟩ := hok' _ hl
        rcases h6 with ⟨_, _, h6⟩ | ⟨l0, h6, _⟩
        · exact h6 t w ht hw hc
        · rw [hn] at h6; cases h6
      · rw [hn] at h1; cases h1

/-- C18: a granted PessimisticLock found no lock of another transaction on its keys,
and leaves its own lock there with the requested `for_update_ts`.  (`AllValid`: any
history whatsoever of valid requests.) -/
theorem C18_grant {st : State} (hst : ValidReachable st) {q : PessReq}
    (hv : (Req.pessimisticLock q).Valid) {resp : PessResp}
    (hok : (step st (.pessimisticLock q)).2 = .pess (.ok resp)) (hr : resp.results = []) {m : PessMut}
    (hm : m ∈ q.mutations) :
    (∀ l, LockOn st m.key l → l.lockTs = q.startTs ∧ 0 < l.forUpdateTs ∧ l.forUpdateTs ≤ q.forUpdateTs) ∧
    ∃ l, LockOn (step st (.pessimisticLock q)).1 m.key l ∧ l.lockTs = q.startTs ∧ l.forUpdateTs = q.forUpdateTs := by
  have hI : Inv st := hst.inv
  simp only [step, Resp.pess.injEq] at hok ⊢
  obtain ⟨h1, ⟨l, h2, h3, h4⟩, _⟩ := pessimisticLock_granted hI hv hok hr hm
  refine ⟨fun l' hl' => ?_, l, lockOn_iff.2 h2, h3, h4⟩
  have hl' : st.lock.get m.key = some l' := lockOn_iff.1 hl'
  rcases h1 with h1 | ⟨l0, h1, a, b, c⟩
  · rw [h1] at hl'; cases hl'
  · rw [h1] at hl'; cases hl'; exact ⟨a, b, c⟩

/-- C18: a refused PessimisticLock changes nothing. -/
theorem C18_refused {st : State} {q : PessReq}
    (hno : ∀ resp, (step st (.pessimisticLock q)).2 = .pess (.ok resp) → resp.results ≠ []) :
    (step st (.pessimisticLock q)).1 = st := by
  simp only [step, pessimisticLock] at hno ⊢
  split
  · rfl
  · rfl
  · rename_i a ha
    by_cases hr : a.results ≠ []
    · rw [if_pos hr]
    · exfalso
      rw [ha] at hno
      simp only [if_neg hr, Resp.pess.injEq, Out.ok.injEq] at hno
      exact hno _ rfl (by simpa using hr)

/-- A transaction locks with a `for_update_ts` not below its `start_ts`. -/
def ForUpdateAbove (rs : List Req) : Prop :=
  ∀ q, Req.pessimisticLock q ∈ rs → q.startTs ≤ q.forUpdateTs

/-- Nothing newer than the `for_update_ts` of the lock has been committed. -/
def KS.fresh (x : KS) : Prop :=
  ∀ l, x.lock = some l → 0 < l.forUpdateTs → ∀ t w, x.write t = some w → w.committed → t ≤ l.forUpdateTs

theorem KStep.fresh {k : Bytes} {mx : Int} {x y : KS} {e : Ev} (h : KStep k mx x e y)
    (hC : ∀ s fu, e = .pessLock s fu → s ≤ fu) (hx : x.fresh) : y.fresh := by
  cases h with
  | nop => exact hx
  | prewrite s pess l d hfree hrb hconf hok hts htype hval hfu =>
    intro l' hl hpos t w hw hc
    simp only [Option.some.injEq] at hl
    subst hl
    cases hl0 : x.lock with
    | none => rw [hfu.2 hl0] at hpos; omega
    | some l0 =>
      rw [hfu.1 l0 hl0] at hpos ⊢
      exact hx l0 hl0 hpos t w hw hc
  | pessLock s fu l hpre hfresh hok hts htype hfu =>
    intro l' hl hpos t w hw hc
    simp only [Option.some.injEq] at hl
    subst hl
    rw [hfu]
    rcases hpre with ⟨h1, _⟩ | ⟨l0, h1, _, _, h4, h5, _⟩
    · exact hfresh h1 (hC s fu rfl) t w hw hc
    · have := hx l0 h1 h4 t w hw hc
      omega
  | commit => intro l' hl; cases hl
  | rollback => intro l' hl; cases hl
  | mark s hs hlock hno =>
    intro l' hl hpos t w hw hc
    simp only [upd] at hw
    split at hw
    · cases hw; rcases hc with hc | hc <;> cases hc
    · exact hx l' hl hpos t w hw hc
  | onePc => intro l' hl; cases hl
  | update l ttl mc hlock hmc =>
    intro l' hl hpos t w hw hc
    simp only [Option.some.injEq] at hl
    subst hl
    exact hx l hlock hpos t w hw hc
  | unlock => intro l' hl; cases hl

/-- C18: when it is granted, nothing newer than `for_update_ts` is committed on the
key.  Assumes that transactions lock with `for_update_ts ≥ start_ts`; see
`C18_false` for what happens otherwise. -/
theorem C18_no_newer_commit_partial {rs : List Req} (hrs : AllValid rs) {st : State} (hst : st = run State.init rs)
    {q : PessReq} (hv : (Req.pessimisticLock q).Valid) (hfu : ForUpdateAbove (rs ++ [.pessimisticLock q]))
    {resp : PessResp} (hok : (step st (.pessimisticLock q)).2 = .pess (.ok resp)) (hr : resp.results = [])
    {m : PessMut} (hm : m ∈ q.mutations) {s c : Int} (hc : CommittedOn st m.key s c) : c ≤ q.forUpdateTs := by
  have hI : Inv st := by rw [hst]; exact run_inv Inv.init hrs
  have hfresh : (view st m.key).fresh := by
    rw [hst]
    refine run_preserve_any Inv.init hrs m.key (P := KS.fresh) (C := fun e => ∀ s fu, e = .pessLock s fu → s ≤ fu)
      ?_ (fun _ _ _ _ _ hc hs hp => hs.fresh hc hp) ?_
    · rintro st' r hr' e hca s fu rfl
      obtain ⟨q', rfl, rfl, rfl, _⟩ := hca
      exact hfu q' (List.mem_append_left _ hr')
    · intro l hl; simp [view, State.init, CF.get_empty] at hl
  simp only [step, Resp.pess.injEq] at hok
  obtain ⟨h1, _, h3⟩ := pessimisticLock_granted hI hv hok hr hm
  obtain ⟨w, a1, a2, a3⟩ := committedOn_iff.1 hc
  rcases h1 with h1 | ⟨l0, h1, b1, b2, b3⟩
  · have hle := hfu q (List.mem_append_right _ List.mem_cons_self)
    have hpos := ((hI m.key).write c w a1).1
    by_cases ht : (if q.returnValues then 0 else q.startTs) < c
    · have := h3 h1 c w ht a1 a3; omega
    · split at ht <;> omega
  · have := hfresh l0 h1 b2 c w a1 a3
    omega

/-- C18 is false for requests with `for_update_ts < start_ts`, which the store
accepts: transaction 20 locks with `for_update_ts` 12 although 15 is committed. -/
theorem C18_false : ∃ rs : List Req, ∃ q : PessReq, AllValid rs ∧ (Req.pessimisticLock q).Valid ∧
    (step (run State.init rs) (.pessimisticLock q)).2 = .pess (.ok {}) ∧
    CommittedOn (run State.init rs) kA 10 15 ∧ q.mutations = [⟨.lock, kA, []⟩] ∧ q.forUpdateTs = 12 := by
  refine ⟨[.prewrite { mutations := [{ op := .put, key := kA, value := vA }], primary := kA, startTs := 10 },
    .commit 10 15 [kA]],
    { mutations := [⟨.lock, kA, []⟩], primary := kA, startTs := 20, ttl := 100, forUpdateTs := 12, returnValues := false },
    by unfold AllValid; decide, by decide, by decide +kernel, ⟨⟨10, .put, vA⟩, by decide +kernel, rfl, Or.inl rfl⟩,
    rfl, rfl⟩

/-- C18, hypotheses met: transaction 40 of the sample history takes a lock on a key
with a committed version; a second request raises `for_update_ts`. -/
example : AllValid sampleHist ∧
    ForUpdateAbove (sampleHist ++ [.pessimisticLock ⟨[⟨.lock, [9], []⟩, ⟨.lock, kA, []⟩], [9], 50, 100, 52, true⟩]) ∧
    (step sampleState (.pessimisticLock ⟨[⟨.lock, [9], []⟩, ⟨.lock, kA, []⟩], [9], 50, 100, 52, true⟩)).2
      = .pess (.ok { kvs := [([9], []), (kA, [])] }) ∧
    CommittedOn sampleState kA 30 31 := by
  refine ⟨by unfold AllValid; decide, ?_, by decide +kernel, ⟨⟨30, .delete, []⟩, by decide +kernel, rfl, Or.inr rfl⟩⟩
  intro q hq
  simp only [sampleHist, List.cons_append, List.nil_append, List.mem_cons, List.not_mem_nil, or_false, reduceCtorEq,
    false_or, Req.pessimisticLock.injEq] at hq
  rcases hq with rfl | rfl <;> decide

/-! ### Values returned with the lock -/

theorem getOldValue_some (st : State) (k : Bytes) (s : Int) (w : WriteInfo) :
    getOldValue st k s (some w) =
      if w.op = .put then
        if w.shortValue ≠ [] then w.shortValue
        else match st.data.get ⟨k, w.startTs⟩ with
          | some v => v
          | none => []
      else [] := rfl

theorem oldValue_latest {D : Bytes → TsOwner} {st : State} (h : Good D st) (k : Bytes) (s : Int) :
    Snapshot st k maxVer
      (valueOf (getOldValue st k s (some (wiOf (getWriteInfo st 0 maxVer 0 k false true true))))) := by
  cases hg : getWriteInfo st 0 maxVer 0 k false true true with
  | none =>
    left
    refine ⟨by simp [getOldValue_some, wiOf, valueOf], fun s' c hc => ?_⟩
    obtain ⟨w, h1, _, h3⟩ := committedOn_iff.1 hc
    have hb := (h.inv k).write c w h1
    have := getWriteInfo_none hg c w hb.1 hb.2.1 h1
    rw [wiMatch_all.2 h3] at this; cases this
  | some x =>
    obtain ⟨w, t⟩ := x
    obtain ⟨a1, a2, a3, a4, a5⟩ := getWriteInfo_some hg
    have hc := wiMatch_all.1 a4
    right
    refine ⟨w.startTs, t, a2, ?_, ?_⟩
    · simp only [wiOf]
      rw [getOldValue_some]
      rcases hc with hop | hop
      · rw [if_pos hop]
        split
        · rename_i hs
          rw [show valueOf w.shortValue = some w.shortValue by simp [valueOf, hs]]
          exact wrote_some_iff.2 ⟨w, a3, rfl, hop, Or.inl ⟨hs, rfl⟩⟩
        · rename_i hs
          have hs : w.shortValue = [] := by simpa using hs
          have hd := (h.dinv k).writeData t w a3 hop hs
          cases hv : st.data.get ⟨k, w.startTs⟩ with
          | none =>
            have : (st.data.get ⟨k, w.startTs⟩).isSome := hd
            rw [hv] at this; cases this
          | some v =>
            have hne := (h.inv k).data w.startTs v hv
            rw [show valueOf v = some v by simp [valueOf, hne]]
            exact wrote_some_iff.2 ⟨w, a3, rfl, hop, Or.inr ⟨hs, hv⟩⟩
      · rw [if_neg (by rw [hop]; decide)]
        exact wrote_none_iff.2 ⟨w, a3, rfl, hop⟩
    · intro s' c' hc' hle
      obtain ⟨w', b1, _, b3⟩ := committedOn_iff.1 hc'
      by_cases hlt : t < c'
      · have := a5 c' w' hlt hle b1
        rw [wiMatch_all.2 b3] at this; cases this
      · omega

theorem pessOne_kvs {st : State} (h : Inv st) {r : PessReq} (hrv : r.returnValues = true) {m : PessMut}
    (hl : st.lock.get m.key = none) {a : PessAcc} (hr : (pessOne st r m a).results = []) :
    (pessOne st r m a).kvs = a.kvs ++
      [(m.key, getOldValue st m.key r.startTs (some (wiOf (getWriteInfo st 0 maxVer 0 m.key false true true))))] := by
  have hp := (getLock_primary h m.key).2 hl
  simp only [pessOne, hp, ne_eq, not_true_eq_false, if_false, hrv, if_true] at hr ⊢
  split
  · rename_i hge; rw [if_pos hge] at hr; simp at hr
  · rfl

theorem pessLoop_kvs {D : Bytes → TsOwner} {st : State} (h : Good D st) {r : PessReq} (hrv : r.returnValues = true)
    (ms : List PessMut) (hl : ∀ m ∈ ms, st.lock.get m.key = none) {a a' : PessAcc}
    (he : pessLoop st r ms a = .ok a') (hr : a'.results = [])
    (ha : ∀ e ∈ a.kvs, Snapshot st e.1 maxVer (valueOf e.2)) :
    (∀ e ∈ a'.kvs, Snapshot st e.1 maxVer (valueOf e.2)) ∧
      a'.kvs.map (·.1) = a.kvs.map (·.1) ++ ms.map (·.key) := by
  induction ms generalizing a with
  | nil =>
    simp only [pessLoop, Out.ok.injEq] at he; subst he
    exact ⟨ha, by simp⟩
  | cons m ms ih =>
    have hres := (pessLoop_grant h.inv (m :: ms) he hr)
    simp only [pessLoop] at he
    split at he
    · cases he
    · have hr' := (pessLoop_grant h.inv ms he hr).1
      have hk := pessOne_kvs h.inv hrv (hl m List.mem_cons_self) hr'
      obtain ⟨h1, h2⟩ := ih (fun m hm => hl m (List.mem_cons_of_mem _ hm)) he (by
        rw [hk]
        intro e he
        rcases List.mem_append.1 he with he | he
        · exact ha e he
        · simp only [List.mem_singleton] at he
          subst he
          exact oldValue_latest h _ r.startTs)
      refine ⟨h1, ?_⟩
      rw [h2, hk]
      simp

/-- C18, `return_values`: the values returned with a first lock are the newest
committed ones, in the order of the request. -/
theorem C18_values_partial {D : Bytes → TsOwner} {st : State} (h : GcReachable D st) {q : PessReq}
    (hfree : ∀ m ∈ q.mutations, ¬ ∃ l, LockOn st m.key l) (hrv : q.returnValues = true)
    {resp : PessResp} (hok : (step st (.pessimisticLock q)).2 = .pess (.ok resp)) (hr : resp.results = []) :
    resp.kvs.map (·.1) = q.mutations.map (·.key) ∧
    ∀ e ∈ resp.kvs, Snapshot st e.1 maxVer (valueOf e.2) := by
  have hl : ∀ m ∈ q.mutations, st.lock.get m.key = none := fun m hm => noLock_iff.2 (hfree m hm)
  simp only [step, pessimisticLock, Resp.pess.injEq] at hok
  split at hok
  · cases hok
  · cases hok
  · rename_i a ha
    have hresp : resp = { results := a.results, kvs := a.kvs } := by
      split at hok <;> (simp only [Out.ok.injEq] at hok; exact hok.symm)
    subst hresp
    obtain ⟨h1, h2⟩ := pessLoop_kvs h.good hrv q.mutations hl ha hr (by simp)
    exact ⟨by simpa using h2, h1⟩

/-- C18, `return_values` is wrong when the lock is already held: transaction 10 locks
after 25 was committed and is given the new value; when it asks again it is given
the value as of its `start_ts`, here: none. -/
theorem C18_values_false : ∃ rs : List Req, ∃ q : PessReq, AllValid rs ∧ (Req.pessimisticLock q).Valid ∧
    (step (run State.init rs) (.pessimisticLock q)).2 = .pess (.ok { kvs := [(kA, vA)] }) ∧
    (step (step (run State.init rs) (.pessimisticLock q)).1 (.pessimisticLock q)).2 = .pess (.ok { kvs := [(kA, [])] }) := by
  refine ⟨[.prewrite { mutations := [{ op := .put, key := kA, value := vA }], primary := kA, startTs := 20 },
    .commit 20 25 [kA]],
    { mutations := [⟨.lock, kA, []⟩], primary := kA, startTs := 10, ttl := 100, forUpdateTs := 30, returnValues := true },
    by unfold AllValid; decide, by decide, by decide +kernel, by decide +kernel⟩

/-! ## C20 -/

/-- C20: a heart beat of a transaction that holds the lock of the key raises its
`lock_ttl` to the advised value (never lowers it), reports it, and changes nothing
else; otherwise it reports `txn_not_found` and changes nothing. -/
theorem C20_heartBeat {st : State} (hst : ValidReachable st) {p : Bytes}
    {s t : Int} (hv : (Req.heartBeat p s t).Valid) :
    (∀ l, LockOn st p l → l.lockTs = s →
      (step st (.heartBeat p s t)).2 = .heart (.ok { lockTtl := max l.ttl t }) ∧
      LockOn (step st (.heartBeat p s t)).1 p { l with ttl := max l.ttl t }) ∧
    ((∀ l, LockOn st p l → l.lockTs ≠ s) →
      (step st (.heartBeat p s t)).2 = .heart (.ok { result := some (.txnNotFound s []) }) ∧
      (step st (.heartBeat p s t)).1 = st) ∧
    (∀ k, k ≠ p → ∀ l, LockOn (step st (.heartBeat p s t)).1 k l ↔ LockOn st k l) ∧
    (step st (.heartBeat p s t)).1.write = st.write ∧ (step st (.heartBeat p s t)).1.data = st.data ∧
    (step st (.heartBeat p s t)).1.maxTs = st.maxTs := by
  have hI : Inv st := hst.inv
  have hpos : 0 < s := hv.1.1
  refine ⟨?_, ?_, ?_, ?_⟩
  · intro l hl hts
    have hl' : st.lock.get p = some l := lockOn_iff.1 hl
    have hg := getLock_of_some hl'
    have hok := (hI p).lock l hl'
    simp only [step, heartBeat, hg, if_neg hok.primary]
    rw [if_neg (by omega)]
    split
    · rename_i hge
      have : max l.ttl t = l.ttl := by omega
      rw [this]
      exact ⟨rfl, hl⟩
    · rename_i hge
      have : max l.ttl t = t := by omega
      rw [this]
      refine ⟨rfl, lockOn_iff.2 ?_⟩
      simp only [view]
      rw [lock_apply, if_neg (by simp)]
      simp [CF.lastPut]
  · intro hno
    have hg : (getLock st p).primary = [] ∨ (getLock st p).lockTs ≠ s := by
      rcases getLock_cases hI p with ⟨h1, h2⟩ | ⟨h1, h2⟩
      · left; rw [h2]
      · right; exact hno _ (lockOn_iff.2 h1)
    simp only [step, heartBeat]
    rcases hg with hg | hg
    · rw [if_pos hg]; exact ⟨rfl, rfl⟩
    · split
      · exact ⟨rfl, rfl⟩
      · exact ⟨rfl, rfl⟩
  · intro k hk l
    simp only [step, heartBeat]
    split
    · rfl
    · split
      · rfl
      · split
        · rfl
        · simp only [LockOn, CF.mem_iff_get]
          rw [lock_apply, if_neg (by simp), CF.lastPut_none.2 (by simp; exact Ne.symm hk), Option.none_or]
  · simp only [step, heartBeat]
    split
    · exact ⟨rfl, rfl, rfl⟩
    · split
      · exact ⟨rfl, rfl, rfl⟩
      · split <;> exact ⟨rfl, rfl, rfl⟩

/-- C20, hypotheses met: transaction 40 holds a lock on `kB`. -/
example : LockOn sampleState kB (getLock sampleState kB) ∧ (getLock sampleState kB).lockTs = 40 ∧
    (getLock sampleState kB).ttl = 100 ∧
    (step sampleState (.heartBeat kB 40 150)).2 = .heart (.ok { lockTtl := 150 }) ∧
    (step sampleState (.heartBeat kB 40 50)).2 = .heart (.ok { lockTtl := 100 }) := by
  decide +kernel

/-! ## C21 -/

/-- The status check of a transaction without a lock on the key, by its record. -/
theorem check_noLock {st : State} (h : Inv st) {q : CheckReq} (hs : 0 < q.lockTs)
    (hl : ∀ l, st.lock.get q.primaryKey = some l → l.lockTs ≠ q.lockTs) :
    checkTxnStatus st q =
      match getRollback st q.lockTs q.primaryKey with
      | .fatal => (st, .fatal)
      | .err _ => (st, .fatal)
      | .ok true => (st, .ok { action := .lockNotExistRollback })
      | .ok false =>
        match getWriteInfo st q.lockTs maxVer q.lockTs q.primaryKey false true true with
        | some (_, t) => (st, .ok { commitTs := t, action := .lockNotExistDoNothing })
        | none =>
          if q.rollbackIfNotExist then
            (st.apply (markRollbackBatch q.primaryKey q.lockTs), .ok { action := .lockNotExistRollback })
          else (st, .ok { result := some (.txnNotFound q.lockTs q.primaryKey) }) := by
  have hne : (getLock st q.primaryKey).lockTs ≠ q.lockTs := by
    rcases getLock_cases h q.primaryKey with ⟨h1, h2⟩ | ⟨h1, h2⟩
    · rw [h2]; simp only; omega
    · exact hl _ h1
  simp only [checkTxnStatus, if_neg hne]
  rcases getRollback_spec h q.lockTs q.primaryKey with ⟨hr, _⟩ | ⟨hr, _⟩
  · rw [hr]
  · rw [hr]
    cases getWriteInfo st q.lockTs maxVer q.lockTs q.primaryKey false true true <;> rfl

/-- C21: on a committed transaction it returns the commit timestamp and changes
nothing (but the largest timestamp seen). -/
theorem C21_committed {D : Bytes → TsOwner} {st : State} (h : GcReachable D st) {q : CheckReq}
    (hv : (Req.checkTxnStatus q).Valid) {c : Int} (hc : CommittedOn st q.primaryKey q.lockTs c) :
    step st (.checkTxnStatus q) = (st.access (max q.lockTs q.callerStartTs),
      .check (.ok { commitTs := c, action := .lockNotExistDoNothing })) := by
  have hg := h.good
  have hI : Inv (st.access (max q.lockTs q.callerStartTs)) := hg.inv
  obtain ⟨w, h1, h2, h3⟩ := committedOn_iff.1 hc
  have hl : ∀ l, st.lock.get q.primaryKey = some l → l.lockTs ≠ q.lockTs := by
    intro l hl hts
    exact ((hg.dinv q.primaryKey).lock l hl).2.1 c w h1 h3 (by omega)
  simp only [step, check_noLock hI hv.1.1 hl]
  have hb := (hg.inv q.primaryKey).write c w h1
  have hsc : q.lockTs < c := by
    rcases hb.2.2 with ⟨a, _⟩ | ⟨_, _, a⟩
    · rcases h3 with h3 | h3 <;> rw [h3] at a <;> cases a
    · omega
  rcases getRollback_spec hI q.lockTs q.primaryKey with ⟨_, w', b1, b2, b3⟩ | ⟨hr, _⟩
  · have := (hg.dinv q.primaryKey).unique _ _ w w' h1 b1 (by omega)
    omega
  · rw [hr]
    simp only
    cases hgw : getWriteInfo (st.access (max q.lockTs q.callerStartTs)) q.lockTs maxVer q.lockTs q.primaryKey false true true with
    | none =>
      have := getWriteInfo_none hgw c w hsc hb.2.1 h1
      rw [(wiMatch_start hv.1.1).2 ⟨h2, h3⟩] at this; cases this
    | some x =>
      obtain ⟨w', t⟩ := x
      obtain ⟨a1, a2, a3, a4, a5⟩ := getWriteInfo_some hgw
      have hm := (wiMatch_start hv.1.1).1 a4
      have := (hg.dinv q.primaryKey).unique t c w' w a3 h1 (by omega)
      subst this
      rfl

/-- C21: on a rolled back transaction that holds no lock it reports the rollback and
changes nothing. -/
theorem C21_rolledBack_partial {D : Bytes → TsOwner} {st : State} (h : GcReachable D st) {q : CheckReq}
    (hv : (Req.checkTxnStatus q).Valid) (hr : RolledBackOn st q.primaryKey q.lockTs)
    (hl : ∀ l, LockOn st q.primaryKey l → l.lockTs ≠ q.lockTs) :
    step st (.checkTxnStatus q) = (st.access (max q.lockTs q.callerStartTs),
      .check (.ok { action := .lockNotExistRollback })) := by
  have hI : Inv (st.access (max q.lockTs q.callerStartTs)) := h.good.inv
  simp only [step, check_noLock hI hv.1.1 (fun l h => hl l (lockOn_iff.2 h))]
  obtain ⟨w, h1, h2, h3⟩ := rolledBackOn_iff.1 hr
  rcases getRollback_spec hI q.lockTs q.primaryKey with ⟨hr, _⟩ | ⟨_, hn⟩
  · rw [hr]
  · exact absurd ⟨h2, h3⟩ (hn w h1)

/-- C21: without the assumption on the lock it is false.  Transaction 20 is rolled back,
a late PessimisticLock of it is still granted, and CheckTxnStatus then reports a live
transaction. -/
theorem C21_rolledBack_false : ∃ rs : List Req, Disciplined sampleRoles.spec State.init rs ∧
    RolledBackOn (run State.init rs) kA 20 ∧
    ∃ l, (step (run State.init rs) (.checkTxnStatus ⟨kA, 20, 33, 0, false, true⟩)).2
      = .check (.ok { result := some (.locked l), lockTtl := 100, action := .minCommitTsPushed }) := by
  refine ⟨[.checkTxnStatus ⟨kA, 20, 31, 0, false, true⟩,
    .pessimisticLock { mutations := [⟨.lock, kA, []⟩], primary := kA, startTs := 20, ttl := 100, forUpdateTs := 20,
                       returnValues := false }],
    disciplinedB_sound (by decide +kernel), ⟨rollbackRec 20, by decide +kernel, rfl, rfl⟩,
    { primary := kA, lockTs := 20, key := kA, ttl := 100, type := .lock, forUpdateTs := 20 }, by decide +kernel⟩

/-- C21: what CheckTxnStatus does.  Other keys are untouched.  On the key it removes a
lock only if that is the lock of the transaction asked for, its TTL has expired, and
then the transaction is marked as rolled back.  It reports a rollback only if the
transaction is rolled back afterwards. -/
theorem C21_effect {st : State} (hst : ValidReachable st) {q : CheckReq}
    (hv : (Req.checkTxnStatus q).Valid) {resp : CheckResp}
    (hok : (step st (.checkTxnStatus q)).2 = .check (.ok resp)) :
    (∀ k, k ≠ q.primaryKey → SameKey st (step st (.checkTxnStatus q)).1 k) ∧
    (∀ l, LockOn st q.primaryKey l → (¬ ∃ l', LockOn (step st (.checkTxnStatus q)).1 q.primaryKey l') →
      l.lockTs = q.lockTs ∧ l.ttl < q.currentTs / 2 ^ 18 ∧ resp.action = .ttlExpireRollback) ∧
    (∀ l, LockOn st q.primaryKey l → ∀ l', LockOn (step st (.checkTxnStatus q)).1 q.primaryKey l' →
      l' = l ∨ (l.lockTs = q.lockTs ∧ resp.action = .minCommitTsPushed ∧ l.minCommitTs < q.callerStartTs ∧
        l' = { l with minCommitTs := q.callerStartTs })) ∧
    (resp.action = .ttlExpireRollback ∨ resp.action = .lockNotExistRollback →
      RolledBackOn (step st (.checkTxnStatus q)).1 q.primaryKey q.lockTs) ∧
    (resp.commitTs ≠ 0 → CommittedOn st q.primaryKey q.lockTs resp.commitTs) ∧
    ((∀ l, LockOn st q.primaryKey l → l.lockTs ≠ q.lockTs) → q.rollbackIfNotExist = false →
      SameKey st (step st (.checkTxnStatus q)).1 q.primaryKey) := by
  have hI0 : Inv st := hst.inv
  have hI : Inv (st.access (max q.lockTs q.callerStartTs)) := hI0
  have hsame : ∀ (k : Bytes), SameKey st (st.access (max q.lockTs q.callerStartTs)) k := fun k => sameKey_of rfl
  have hlk : ∀ k l, LockOn (st.access (max q.lockTs q.callerStartTs)) k l ↔ LockOn st k l := fun k l => Iff.rfl
  by_cases hown : ∃ l, LockOn st q.primaryKey l ∧ l.lockTs = q.lockTs
  · obtain ⟨l, hl, hts⟩ := hown
    have hl' : (st.access (max q.lockTs q.callerStartTs)).lock.get q.primaryKey = some l := lockOn_iff.1 hl
    have hg := getLock_of_some hl'
    have hlok := (hI0 q.primaryKey).lock l hl'
    have hun : ∀ l', LockOn st q.primaryKey l' → l' = l := fun l' h => C15_one_lock h hl
    simp only [step, checkTxnStatus, hg, if_pos hts] at hok ⊢
    have trivialCase : ∀ (resp' : CheckResp), resp'.action = .noAction → resp'.commitTs = 0 → resp' = resp →
        (∀ k, k ≠ q.primaryKey → SameKey st (st.access (max q.lockTs q.callerStartTs)) k) ∧
        (∀ l, LockOn st q.primaryKey l → (¬ ∃ l', LockOn (st.access (max q.lockTs q.callerStartTs)) q.primaryKey l') →
          l.lockTs = q.lockTs ∧ l.ttl < q.currentTs / 2 ^ 18 ∧ resp.action = .ttlExpireRollback) ∧
        (∀ l, LockOn st q.primaryKey l → ∀ l', LockOn (st.access (max q.lockTs q.callerStartTs)) q.primaryKey l' →
          l' = l ∨ (l.lockTs = q.lockTs ∧ resp.action = .minCommitTsPushed ∧ l.minCommitTs < q.callerStartTs ∧
            l' = { l with minCommitTs := q.callerStartTs })) ∧
        (resp.action = .ttlExpireRollback ∨ resp.action = .lockNotExistRollback →
          RolledBackOn (st.access (max q.lockTs q.callerStartTs)) q.primaryKey q.lockTs) ∧
        (resp.commitTs ≠ 0 → CommittedOn st q.primaryKey q.lockTs resp.commitTs) ∧
        ((∀ l, LockOn st q.primaryKey l → l.lockTs ≠ q.lockTs) → q.rollbackIfNotExist = false →
          SameKey st (st.access (max q.lockTs q.callerStartTs)) q.primaryKey) := by
      rintro resp' h1 h2 rfl
      refine ⟨fun k _ => hsame k, fun l0 hl0 hno => absurd ⟨l0, (hlk _ _).2 hl0⟩ hno,
        fun l0 hl0 l1 hl1 => Or.inl (C15_one_lock ((hlk _ _).1 hl1) hl0), ?_, fun h => absurd h2 h, fun _ _ => hsame _⟩
      rw [h1]; rintro (h | h) <;> cases h
    generalize hS : st.access (max q.lockTs q.callerStartTs) = S at *
    generalize hres : (if l.type = Op.lock then some (TxnResult.locked l) else Option.none) = res at hok ⊢
    split at hok
    · rename_i hc
      rw [if_pos hc]
      simp only [Resp.check.injEq, Out.ok.injEq] at hok
      exact trivialCase _ rfl rfl hok
    rename_i hc; rw [if_neg hc]
    split at hok
    · rename_i hc
      rw [if_pos hc]
      simp only [Resp.check.injEq, Out.ok.injEq] at hok
      exact trivialCase _ rfl rfl hok
    rename_i hc2; rw [if_neg hc2]
    split at hok
    · rename_i hc
      rw [if_pos hc]
      simp only [Resp.check.injEq, Out.ok.injEq] at hok
      exact trivialCase _ rfl rfl hok
    rename_i hc3; rw [if_neg hc3]
    split at hok
    · rename_i hc4
      rw [if_pos hc4]
      split at hok
      · rename_i hc5
        rw [if_pos hc5]
        simp only [Resp.check.injEq, Out.ok.injEq] at hok
        subst hok
        have hlock : (S.apply { putLock := [(l.key, { l with minCommitTs := q.callerStartTs })] }).lock.get q.primaryKey
            = some { l with minCommitTs := q.callerStartTs } := by
          rw [lock_apply, if_neg (by simp), hlok.key]
          simp [CF.lastPut]
        refine ⟨?_, ?_, ?_, ?_, ?_, ?_⟩
        · intro k hk
          refine sameKey_of ?_
          rw [view_apply_untouched _ _ _ (by simp [hlok.key, Ne.symm hk]) (by simp) (by simp) (by simp) (by simp), ← hS]
          rfl
        · intro l0 _ hno
          exact absurd ⟨_, lockOn_iff.2 hlock⟩ hno
        · intro l0 hl0 l1 hl1
          have e0 := hun l0 hl0
          subst e0
          have : (S.apply { putLock := [(l0.key, { l0 with minCommitTs := q.callerStartTs })] }).lock.get q.primaryKey = some l1 :=
            lockOn_iff.1 hl1
          rw [hlock] at this
          cases this
          exact Or.inr ⟨hts, rfl, hc5, rfl⟩
        · rintro (h | h) <;> cases h
        · intro h; exact absurd rfl h
        · intro h; exact absurd hts (h l hl)
      · rename_i hc5
        rw [if_neg hc5]
        simp only [Resp.check.injEq, Out.ok.injEq] at hok
        exact trivialCase _ rfl rfl hok
    · rename_i hc4
      rw [if_neg hc4]
      simp only [Resp.check.injEq, Out.ok.injEq] at hok
      subst hok
      have key : ∀ wd wo, (wd = [q.primaryKey] ∧ wo = [] ∨ wd = [] ∧ wo = [q.primaryKey]) →
          (∀ k, k ≠ q.primaryKey → SameKey st (S.apply (rollbackBatch wd wo [] q.lockTs)) k) ∧
          (S.apply (rollbackBatch wd wo [] q.lockTs)).lock.get q.primaryKey = none ∧
          (S.apply (rollbackBatch wd wo [] q.lockTs)).write.get ⟨q.primaryKey, q.lockTs⟩ = some (rollbackRec q.lockTs) := by
        intro wd wo hw
        refine ⟨fun k hk => sameKey_of ?_, ?_, ?_⟩
        · rw [view_apply_untouched, ← hS]
          · rfl
          · simp [rollbackBatch]
          · rcases hw with ⟨rfl, rfl⟩ | ⟨rfl, rfl⟩ <;> simp [rollbackBatch, hk]
          · rcases hw with ⟨rfl, rfl⟩ | ⟨rfl, rfl⟩ <;> simp [rollbackBatch, Ne.symm hk]
          · simp [rollbackBatch]
          · rcases hw with ⟨rfl, rfl⟩ | ⟨rfl, rfl⟩ <;> simp [rollbackBatch, Ne.symm hk]
        · rw [lock_apply, if_pos]
          rcases hw with ⟨rfl, rfl⟩ | ⟨rfl, rfl⟩ <;> simp [rollbackBatch]
        · rw [write_apply]
          rcases hw with ⟨rfl, rfl⟩ | ⟨rfl, rfl⟩ <;> simp [rollbackBatch, CF.lastPut]
      have key' : ∀ b : Batch, (b = rollbackBatch [q.primaryKey] [] [] q.lockTs ∨ b = rollbackBatch [] [q.primaryKey] [] q.lockTs) →
          (∀ k, k ≠ q.primaryKey → SameKey st (S.apply b) k) ∧ (S.apply b).lock.get q.primaryKey = none ∧
          (S.apply b).write.get ⟨q.primaryKey, q.lockTs⟩ = some (rollbackRec q.lockTs) := by
        rintro b (rfl | rfl)
        · exact key _ _ (Or.inl ⟨rfl, rfl⟩)
        · exact key _ _ (Or.inr ⟨rfl, rfl⟩)
      obtain ⟨k1, k2, k3⟩ := key' (if l.shortValue = [] then rollbackBatch [q.primaryKey] [] [] q.lockTs
                 else rollbackBatch [] [q.primaryKey] [] q.lockTs) (by split <;> simp)
      generalize (if l.shortValue = [] then rollbackBatch [q.primaryKey] [] [] q.lockTs
                 else rollbackBatch [] [q.primaryKey] [] q.lockTs) = b at k1 k2 k3 ⊢
      have hnl : ∀ l', ¬ LockOn (S.apply b) q.primaryKey l' := by
        intro l' hl'
        have : (S.apply b).lock.get q.primaryKey = some l' := lockOn_iff.1 hl'
        rw [k2] at this; cases this
      refine ⟨k1, ?_, fun _ _ l1 hl1 => absurd hl1 (hnl l1), ?_, fun h => absurd rfl h, fun h => absurd hts (h l hl)⟩
      · intro l0 hl0 _
        rw [hun l0 hl0]
        exact ⟨hts, by omega, rfl⟩
      · intro _
        exact rolledBackOn_iff.2 ⟨_, k3, rfl, rfl⟩
  · have hno : ∀ l, (st.access (max q.lockTs q.callerStartTs)).lock.get q.primaryKey = some l → l.lockTs ≠ q.lockTs :=
      fun l h1 h2 => hown ⟨l, lockOn_iff.2 h1, h2⟩
    simp only [step, check_noLock hI hv.1.1 hno] at hok ⊢
    generalize hS : st.access (max q.lockTs q.callerStartTs) = S at *
    have triv : (∀ l, LockOn st q.primaryKey l → (¬ ∃ l', LockOn S q.primaryKey l') →
          l.lockTs = q.lockTs ∧ l.ttl < q.currentTs / 2 ^ 18 ∧ resp.action = .ttlExpireRollback) ∧
        (∀ l, LockOn st q.primaryKey l → ∀ l', LockOn S q.primaryKey l' →
          l' = l ∨ (l.lockTs = q.lockTs ∧ resp.action = .minCommitTsPushed ∧ l.minCommitTs < q.callerStartTs ∧
            l' = { l with minCommitTs := q.callerStartTs })) :=
      ⟨fun l0 hl0 hno => absurd ⟨l0, (hlk _ _).2 hl0⟩ hno, fun l0 hl0 l1 hl1 => Or.inl (C15_one_lock ((hlk _ _).1 hl1) hl0)⟩
    rcases getRollback_spec hI q.lockTs q.primaryKey with ⟨hr, w, b1, b2, b3⟩ | ⟨hr, hnr⟩
    · rw [hr] at hok ⊢
      simp only [Resp.check.injEq, Out.ok.injEq] at hok ⊢
      subst hok
      refine ⟨fun k _ => hsame k, triv.1, triv.2, fun _ => rolledBackOn_iff.2 ⟨w, b1, b2, b3⟩,
        fun h => absurd rfl h, fun _ _ => hsame _⟩
    · rw [hr] at hok ⊢
      simp only at hok ⊢
      cases hgw : getWriteInfo S q.lockTs maxVer q.lockTs q.primaryKey false true true with
      | some x =>
        obtain ⟨w, t⟩ := x
        rw [hgw] at hok
        simp only [Resp.check.injEq, Out.ok.injEq] at hok ⊢
        subst hok
        obtain ⟨a1, a2, a3, a4, a5⟩ := getWriteInfo_some hgw
        have hm := (wiMatch_start hv.1.1).1 a4
        refine ⟨fun k _ => hsame k, triv.1, triv.2, ?_, fun _ => ?_, fun _ _ => hsame _⟩
        · rintro (h | h) <;> cases h
        · rw [← hS] at a3
          exact committedOn_iff.2 ⟨w, a3, hm.1, hm.2⟩
      | none =>
        rw [hgw] at hok
        simp only at hok ⊢
        split at hok
        · rename_i hrb
          rw [if_pos hrb]
          simp only [Resp.check.injEq, Out.ok.injEq] at hok ⊢
          subst hok
          have hlock : ∀ k, (S.apply (markRollbackBatch q.primaryKey q.lockTs)).lock.get k = S.lock.get k := by
            intro k; rw [lock_apply]; simp [markRollbackBatch, CF.lastPut]
          have hlk' : ∀ l, LockOn (S.apply (markRollbackBatch q.primaryKey q.lockTs)) q.primaryKey l ↔ LockOn st q.primaryKey l := by
            intro l
            rw [← hlk]
            simp only [LockOn, CF.mem_iff_get, hlock]
          refine ⟨?_, ?_, ?_, ?_, fun h => absurd rfl h, fun _ h => by rw [hrb] at h; cases h⟩
          · intro k hk
            refine sameKey_of ?_
            rw [view_apply_untouched, ← hS]
            · rfl
            all_goals simp [markRollbackBatch, Ne.symm hk]
          · intro l0 hl0 hno; exact absurd ⟨l0, (hlk' l0).2 hl0⟩ hno
          · intro l0 hl0 l1 hl1; exact Or.inl (C15_one_lock ((hlk' _).1 hl1) hl0)
          · intro _
            refine rolledBackOn_iff.2 ⟨rollbackRec q.lockTs, ?_, rfl, rfl⟩
            simp only [view]
            rw [write_apply]
            simp [markRollbackBatch, CF.lastPut]
        · rename_i hrb
          rw [if_neg hrb]
          simp only [Resp.check.injEq, Out.ok.injEq] at hok ⊢
          subst hok
          refine ⟨fun k _ => hsame k, triv.1, triv.2, ?_, fun h => absurd rfl h, fun _ _ => hsame _⟩
          rintro (h | h) <;> cases h

/-! ### Pushing a live lock -/

/-- The transaction has a lock whose `min_commit_ts` is at least `f`, or has ended:
rolled back, or committed at or above `f`. -/
def KS.pushed (x : KS) (s f : Int) : Prop :=
  (∃ l, x.lock = some l ∧ l.lockTs = s ∧ f ≤ l.minCommitTs) ∨ x.rolled s ∨
    ∃ c w, x.write c = some w ∧ w.startTs = s ∧ w.committed ∧ f ≤ c

theorem KStep.pushed {D : TsOwner} {k : Bytes} {mx : Int} {x y : KS} {e : Ev} (h : KStep k mx x e y)
    (hk : KInv k x) (hx : DInv D x) (hd : e.Disc D x) {s f : Int}
    (hC : e ≠ .unlock s ∧ ∀ c, e = .commit s c true → 0 < c → f ≤ c) (hw : x.pushed s f) : y.pushed s f := by
  rcases hw with ⟨l, hl, hts, hmc⟩ | ⟨w, h1, h2, h3⟩ | ⟨c, w, h1, h2, h3, h4⟩
  rotate_left
  · exact Or.inr (Or.inl ⟨w, h.keep hk hx hd h1, h2, h3⟩)
  · exact Or.inr (Or.inr ⟨c, w, h.keep hk hx hd h1, h2, h3, h4⟩)
  cases h with
  | nop => exact Or.inl ⟨l, hl, hts, hmc⟩
  | prewrite s' pess l' d hfree hrb hconf hok hts' htype hval hfu hdn hmc' =>
    have := hmc' l hl
    rcases hfree with hf | ⟨_, l0, hf, a, _⟩
    · rw [hl] at hf; cases hf
    · rw [hl] at hf; cases hf
      exact Or.inl ⟨l', rfl, by omega, by omega⟩
  | pessLock s' fu l' hpre hfresh hok hts' htype hfu =>
    rcases hpre with ⟨hf, _⟩ | ⟨l0, hf, a, _, _, _, b⟩
    · rw [hl] at hf; cases hf
    · rw [hl] at hf; cases hf
      exact Or.inl ⟨l', rfl, by omega, by omega⟩
  | commit s' c rs l' hlock hts' htype hmin hc =>
    have he := hlock
    rw [hl] at he; cases he
    have : s' = s := by omega
    subst this
    refine Or.inr (Or.inr ⟨c, _, upd_same _ _ _, rfl, ?_, ?_⟩)
    · rcases (hk.lock l hl).type with h | h | h
      · exact Or.inl h
      · exact Or.inr h
      · exact absurd h htype
    · cases rs with
      | false => have := hmin rfl; omega
      | true =>
        have := (hk.lock l hl).ts
        exact hC.2 c rfl (by omega)
  | rollback s' l' hlock hts' =>
    rw [hl] at hlock; cases hlock
    have : s' = s := by omega
    subst this
    exact Or.inr (Or.inl ⟨_, upd_same _ _ _, rfl, rfl⟩)
  | mark s' => exact Or.inl ⟨l, hl, hts, hmc⟩
  | onePc s' c pess op short d hfree hrb hconf hop hval hdn hmc' hs hc =>
    have := hmc' l hl
    rcases hfree with hf | ⟨_, l0, hf, a, _⟩
    · rw [hl] at hf; cases hf
    · rw [hl] at hf; cases hf
      have : s' = s := by omega
      subst this
      exact Or.inr (Or.inr ⟨c, _, upd_same _ _ _, rfl, hop, by omega⟩)
  | update l' ttl mc hlock hmc' =>
    rw [hl] at hlock; cases hlock
    exact Or.inl ⟨_, rfl, hts, by simp only; omega⟩
  | unlock s' l' hlock hts' =>
    rw [hl] at hlock; cases hlock
    have : s' = s := by omega
    subst this
    exact absurd rfl hC.1

/-- No request gives up the pessimistic lock of `s` on `k`, and resolving `s` as
committed carries a timestamp of at least `f`. -/
def KeepsPush (s f : Int) (rs : List Req) : Prop :=
  ∀ r ∈ rs, match r with
    | .pessimisticRollback s' _ _ => s' ≠ s
    | .resolveLock s' c _ => s' = s → 0 < c → f ≤ c
    | .batchResolve infos => ∀ i ∈ infos, i.1 = s → 0 < i.2 → f ≤ i.2
    | _ => True

/-- C21, pushing: after CheckTxnStatus has met a live lock and pushed it, the
transaction is not committed below the caller's timestamp, and not at it either
when that is a start timestamp (so that the oracle never hands it out as a commit
timestamp).  Assumes that the transaction does not give up a pessimistic lock on
the key, and that ResolveLock, which checks nothing, is only sent with a commit
timestamp that the primary's transaction could have been committed at. -/
theorem C21_push_partial {D : Bytes → TsOwner} {st : State} (h : GcReachable D st) {q : CheckReq}
    (hv : (Req.checkTxnStatus q).Valid) (hd : (Req.checkTxnStatus q).Disc D st) {resp : CheckResp}
    (hok : (step st (.checkTxnStatus q)).2 = .check (.ok resp)) (hpush : resp.action = .minCommitTsPushed)
    {rs : List Req} (hrs : Disciplined D (step st (.checkTxnStatus q)).1 rs) (hkeep : KeepsPush q.lockTs q.callerStartTs rs)
    {c : Int} (hc : CommittedOn (run (step st (.checkTxnStatus q)).1 rs) q.primaryKey q.lockTs c) :
    q.callerStartTs ≤ c ∧ ((D q.primaryKey).start q.callerStartTs → q.callerStartTs < c) := by
  have hg := h.good.step hv hd
  -- the lock after the push
  have hlock : ∃ l, (view (step st (.checkTxnStatus q)).1 q.primaryKey).lock = some l ∧ l.lockTs = q.lockTs ∧
      q.callerStartTs ≤ l.minCommitTs := by
    obtain ⟨_, h2, h3, _⟩ := C21_effect h.valid hv hok
    by_cases hown : ∃ l, LockOn st q.primaryKey l ∧ l.lockTs = q.lockTs
    · obtain ⟨l, hl, hts⟩ := hown
      by_cases hex : ∃ l', LockOn (step st (.checkTxnStatus q)).1 q.primaryKey l'
      · obtain ⟨l', hl'⟩ := hex
        rcases h3 l hl l' hl' with rfl | ⟨_, _, _, rfl⟩
        · refine ⟨l', lockOn_iff.1 hl', hts, ?_⟩
          -- the push branch writes the lock, so an unchanged lock was there already
          have hg' := getLock_of_some (st := st.access (max q.lockTs q.callerStartTs)) (lockOn_iff.1 hl)
          by_cases hm : l'.minCommitTs < q.callerStartTs
          · exfalso
            simp only [step, checkTxnStatus, hg', if_pos hts] at hok hl'
            have hlok := h.good.inv q.primaryKey |>.lock l' (lockOn_iff.1 hl)
            split at hok
            · simp only [Resp.check.injEq, Out.ok.injEq] at hok; subst hok; cases hpush
            rename_i c1; rw [if_neg c1] at hl'
            split at hok
            · simp only [Resp.check.injEq, Out.ok.injEq] at hok; subst hok; cases hpush
            rename_i c2; rw [if_neg c2] at hl'
            split at hok
            · simp only [Resp.check.injEq, Out.ok.injEq] at hok; subst hok; cases hpush
            rename_i c3; rw [if_neg c3] at hl'
            split at hok
            · rename_i c4
              rw [if_pos c4, if_pos hm] at hl'
              have := lockOn_iff.1 hl'
              simp only [view] at this
              rw [lock_apply, if_neg (by simp), hlok.key] at this
              simp only [CF.lastPut, List.foldl_cons, List.foldl_nil, if_true, Option.some_or, Option.some.injEq] at this
              have := congrArg LockInfo.minCommitTs this
              simp only at this
              omega
            · simp only [Resp.check.injEq, Out.ok.injEq] at hok; subst hok; cases hpush
          · omega
        · exact ⟨_, lockOn_iff.1 hl', hts, Int.le_refl _⟩
      · have := (h2 l hl hex).2.2
        rw [hpush] at this; cases this
    · exfalso
      have hI : Inv (st.access (max q.lockTs q.callerStartTs)) := by
        show Inv st
        exact h.good.inv
      have hno : ∀ l, (st.access (max q.lockTs q.callerStartTs)).lock.get q.primaryKey = some l → l.lockTs ≠ q.lockTs :=
        fun l h1 h2 => hown ⟨l, lockOn_iff.2 h1, h2⟩
      simp only [step, check_noLock hI hv.1.1 hno] at hok
      repeat' split at hok
      all_goals (simp only [Resp.check.injEq, Out.ok.injEq, reduceCtorEq] at hok)
      all_goals (subst hok; cases hpush)
  have hp : (view (run (step st (.checkTxnStatus q)).1 rs) q.primaryKey).pushed q.lockTs q.callerStartTs := by
    refine run_preserve hg hrs q.primaryKey (P := fun x => x.pushed q.lockTs q.callerStartTs)
      (C := fun _ e => e ≠ .unlock q.lockTs ∧ ∀ c, e = .commit q.lockTs c true → 0 < c → q.callerStartTs ≤ c) ?_
      (fun _ _ _ _ hk hx hd hC hs hp => hs.pushed hk hx hd hC hp) (Or.inl hlock)
    intro st' r hr _ e hca
    have hkr := hkeep r hr
    refine ⟨?_, ?_⟩
    · rintro rfl
      obtain ⟨fu, keys, rfl, _⟩ := hca
      exact hkr rfl
    · rintro c rfl hc0
      rcases hca with ⟨keys, rfl, _⟩ | ⟨infos, rfl, hi⟩
      · exact hkr rfl hc0
      · exact hkr _ hi rfl hc0
  have hgr := hg.run hrs
  obtain ⟨w, h1, h2, h3⟩ := committedOn_iff.1 hc
  have hne : w.op ≠ .rollback := by rcases h3 with h | h <;> rw [h] <;> decide
  have hle : q.callerStartTs ≤ c := by
    rcases hp with ⟨l, hl, hts, _⟩ | ⟨w', b1, b2, b3⟩ | ⟨c', w', b1, b2, b3, b4⟩
    · exact absurd (h2.trans hts.symm) ((hgr.dinv q.primaryKey).lock l hl |>.2.1 c w h1 h3)
    · have := (hgr.dinv q.primaryKey).unique _ _ w w' h1 b1 (by omega)
      subst this
      rw [h1] at b1; cases b1
      exact absurd b3 hne
    · have := (hgr.dinv q.primaryKey).unique _ _ w w' h1 b1 (by omega)
      omega
  refine ⟨hle, fun hstart => ?_⟩
  have := ((hgr.dinv q.primaryKey).commit c w h1 hne).1
  by_cases heq : q.callerStartTs = c
  · rw [heq] at hstart; exact absurd hstart this
  · omega

/-- C21, pushing is undone by giving up and taking again a pessimistic lock:
transaction 10 is pushed to 30 by a reader at 30, and commits at 15 all the same.
The reader's snapshot changes. -/
theorem C21_push_false : ∃ rs rs' : List Req, Disciplined sampleRoles.spec State.init (rs ++ rs') ∧
    (∃ l, (step (run State.init (rs ++ [.get .si 30 [] [kA]])) (.checkTxnStatus ⟨kA, 10, 30, 0, false, false⟩)).2
      = .check (.ok { result := some (.locked l), lockTtl := 100, action := .minCommitTsPushed })) ∧
    rs'[0]? = some (.checkTxnStatus ⟨kA, 10, 30, 0, false, false⟩) ∧
    CommittedOn (run State.init (rs ++ rs')) kA 10 15 := by
  refine ⟨[.pessimisticLock ⟨[⟨.lock, kA, []⟩], kA, 10, 100, 10, false⟩],
    [.checkTxnStatus ⟨kA, 10, 30, 0, false, false⟩, .pessimisticRollback 10 10 [kA],
     .pessimisticLock ⟨[⟨.lock, kA, []⟩], kA, 10, 100, 10, false⟩,
     .prewrite { mutations := [{ op := .put, key := kA, value := vA, pess := true, fuCheck := some 10 }], primary := kA, startTs := 10 },
     .commit 10 15 [kA]],
    disciplinedB_sound (by decide +kernel),
    ⟨{ primary := kA, lockTs := 10, key := kA, ttl := 100, type := .lock, forUpdateTs := 10 }, by decide +kernel⟩,
    rfl, ⟨⟨10, .put, vA⟩, by decide +kernel, rfl, Or.inl rfl⟩⟩

/-- C21: the push is to the caller's timestamp, not above it.  So a reader at 33 that has
pushed the lock of transaction 10 is refused as before, and transaction 10 may
still commit at 33. -/
theorem C21_push_equal : ∃ rs : List Req, AllValid rs ∧
    (step (run State.init rs) (.checkTxnStatus ⟨kA, 10, 33, 0, false, false⟩)).2
      = .check (.ok { lockTtl := 100, action := .minCommitTsPushed }) ∧
    (∃ l, (step (step (run State.init rs) (.checkTxnStatus ⟨kA, 10, 33, 0, false, false⟩)).1 (.get .si 33 [] [kA])).2
      = .get (.ok { result := some (.locked l) })) ∧
    (step (step (run State.init rs) (.checkTxnStatus ⟨kA, 10, 33, 0, false, false⟩)).1 (.commit 10 33 [kA])).2
      = .basic (.ok none) := by
  refine ⟨[.prewrite { mutations := [{ op := .put, key := kA, value := vA }], primary := kA, startTs := 10, ttl := 100 }],
    by unfold AllValid; decide, by decide +kernel,
    ⟨{ primary := kA, lockTs := 10, key := kA, ttl := 100, type := .put, shortValue := vA, minCommitTs := 33 },
      by decide +kernel⟩, by decide +kernel⟩

/-- C21, hypotheses met: the committed transaction 10, the rolled back 20, the live 40
(pushed by 50, committed at 55) and its expired lock. -/
example : CommittedOn sampleState kA 10 15 ∧ RolledBackOn sampleState kA 20 ∧
    (∀ l, LockOn sampleState kA l → l.lockTs ≠ 20) ∧
    (step sampleState (.checkTxnStatus ⟨kB, 40, 50, 0, false, false⟩)).2
      = .check (.ok { lockTtl := 100, action := .minCommitTsPushed }) ∧
    Disciplined (Roles.spec ⟨fun t => t % 10 == 0, fun t => if t = 55 then 40 else t / 10 * 10⟩)
      sampleState [.checkTxnStatus ⟨kB, 40, 50, 0, false, false⟩, .get .si 50 [] [kA], .commit 40 55 [kB]] ∧
    CommittedOn (run sampleState [.checkTxnStatus ⟨kB, 40, 50, 0, false, false⟩, .get .si 50 [] [kA], .commit 40 55 [kB]]) kB 40 55 ∧
    (step sampleState (.checkTxnStatus ⟨kB, 40, 50, 2 ^ 30, false, false⟩)).2
      = .check (.ok { action := .ttlExpireRollback }) := by
  refine ⟨⟨⟨10, .put, vA⟩, by decide +kernel, rfl, Or.inl rfl⟩, ⟨rollbackRec 20, by decide +kernel, rfl, rfl⟩, ?_,
    by decide +kernel, disciplinedB_sound (by decide +kernel), ⟨⟨40, .put, [3]⟩, by decide +kernel, rfl, Or.inl rfl⟩,
    by decide +kernel⟩
  intro l hl
  have hno : ∀ e ∈ sampleState.lock.l, e.2.lockTs ≠ 20 := by decide +kernel
  exact hno _ hl

/-! ## C49: CheckSecondaryLocks -/

/-- C49: CheckSecondaryLocks tells the truth.  Locks it returns are locks of the
transaction on the listed keys; a commit timestamp it returns is one at which the
transaction is committed on a listed key; when it reports the transaction as missing
on a key, the transaction is rolled back there from now on; and unless it says so it
changes nothing. -/
theorem C49_checkSecondary {st : State} (hst : ValidReachable st) {s : Int}
    {keys : List Bytes} (hv : (Req.checkSecondary s keys).Valid) :
    ∃ resp, (step st (.checkSecondary s keys)).2 = .secondary (.ok resp) ∧
      (∀ l ∈ resp.locks, ∃ k ∈ keys, LockOn st k l ∧ l.lockTs = s) ∧
      (resp.commitTs ≠ 0 → ∃ k ∈ keys, CommittedOn st k s resp.commitTs) ∧
      (∀ s' k, resp.result = some (.txnNotFound s' k) → s' = s ∧ k ∈ keys ∧
        RolledBackOn (step st (.checkSecondary s keys)).1 k s) ∧
      ((∀ s' k, resp.result ≠ some (.txnNotFound s' k)) → (step st (.checkSecondary s keys)).1 = st.access s) ∧
      (resp.result = none → resp.commitTs = 0 → (∀ k ∈ keys, ∃ l ∈ resp.locks, LockOn st k l) ∨
        ∃ k ∈ keys, RolledBackOn st k s) := by
  have hI0 : Inv st := hst.inv
  have hI : Inv (st.access s) := hI0
  have hpos := hv.1.1
  have key : ∀ (ks : List Bytes), (∀ k ∈ ks, k ∈ keys) → ∀ acc : List LockInfo,
      (∀ l ∈ acc, ∃ k ∈ keys, LockOn st k l ∧ l.lockTs = s) →
      ∃ resp, (checkSecondaryLoop (st.access s) s ks acc).2 = .ok resp ∧
      (∀ l ∈ acc, l ∈ resp.locks) ∧
      (∀ l ∈ resp.locks, ∃ k ∈ keys, LockOn st k l ∧ l.lockTs = s) ∧
      (resp.commitTs ≠ 0 → ∃ k ∈ keys, CommittedOn st k s resp.commitTs) ∧
      (∀ s' k, resp.result = some (.txnNotFound s' k) → s' = s ∧ k ∈ keys ∧
        RolledBackOn (checkSecondaryLoop (st.access s) s ks acc).1 k s) ∧
      ((∀ s' k, resp.result ≠ some (.txnNotFound s' k)) →
        (checkSecondaryLoop (st.access s) s ks acc).1 = st.access s) ∧
      (resp.result = none → resp.commitTs = 0 → (∀ k ∈ ks, ∃ l ∈ resp.locks, LockOn st k l) ∨
        ∃ k ∈ keys, RolledBackOn st k s) := by
    intro ks
    induction ks with
    | nil =>
      intro _ acc hacc
      exact ⟨{ locks := acc }, rfl, fun l hl => hl, hacc, fun h => absurd rfl h, fun _ _ h => (by cases h), fun _ => rfl,
        fun _ _ => Or.inl (fun k hk => by cases hk)⟩
    | cons k ks ih =>
      intro hks acc hacc
      have hk := hks k List.mem_cons_self
      simp only [checkSecondaryLoop]
      by_cases hts : (getLock (st.access s) k).lockTs = s
      · obtain ⟨hl, hlok⟩ := getLock_of_ts hI hpos hts
        simp only [if_pos hts]
        have hlon : LockOn st k (getLock (st.access s) k) := lockOn_iff.2 hl
        by_cases hty : (getLock (st.access s) k).type ≠ .put ∧ (getLock (st.access s) k).type ≠ .delete ∧
            (getLock (st.access s) k).type ≠ .putIfAbsent
        · simp only [if_pos hty]
          exact ⟨_, rfl, fun l hl => hl, hacc, fun h => absurd rfl h, fun _ _ h => (by cases h), fun _ => trivial,
            fun h => (by cases h)⟩
        · simp only [if_neg hty]
          obtain ⟨resp, h1, h2, h3, h4, h5, h6, h7⟩ := ih (fun k hk => hks k (List.mem_cons_of_mem _ hk))
            (acc ++ [getLock (st.access s) k]) (by
              intro l hl
              rcases List.mem_append.1 hl with hl | hl
              · exact hacc l hl
              · simp only [List.mem_singleton] at hl; subst hl; exact ⟨k, hk, hlon, hts⟩)
          refine ⟨resp, h1, fun l hl => h2 l (List.mem_append_left _ hl), h3, h4, h5, h6, fun a b => ?_⟩
          rcases h7 a b with h7 | h7
          · left
            intro k' hk'
            rcases List.mem_cons.1 hk' with rfl | hk'
            · exact ⟨_, h2 _ (List.mem_append_right _ List.mem_cons_self), hlon⟩
            · exact h7 k' hk'
          · exact Or.inr h7
      · simp only [if_neg hts]
        rcases getRollback_spec hI s k with ⟨hr, w, b1, b2, b3⟩ | ⟨hr, hnr⟩
        · rw [hr]
          exact ⟨_, rfl, fun l hl => hl, hacc, fun h => absurd rfl h, fun _ _ h => (by cases h), fun _ => rfl,
            fun _ _ => Or.inr ⟨k, hk, rolledBackOn_iff.2 ⟨w, b1, b2, b3⟩⟩⟩
        · rw [hr]
          simp only
          cases hgw : getWriteInfo (st.access s) s maxVer s k false true true with
          | none =>
            refine ⟨{ locks := acc, result := some (.txnNotFound s k) }, rfl, fun l hl => hl, hacc, fun h => absurd rfl h, ?_,
              fun h => (h s k rfl).elim, fun h => (by cases h)⟩
            intro s' k' he
            simp only [Option.some.injEq, TxnResult.txnNotFound.injEq] at he
            obtain ⟨rfl, rfl⟩ := he
            refine ⟨rfl, hk, rolledBackOn_iff.2 ⟨rollbackRec s, ?_, rfl, rfl⟩⟩
            simp only [view]
            rw [write_apply]
            simp [markRollbackBatch, CF.lastPut]
          | some x =>
            obtain ⟨w, t⟩ := x
            obtain ⟨a1, a2, a3, a4, _⟩ := getWriteInfo_some hgw
            have hm := (wiMatch_start hpos).1 a4
            refine ⟨_, rfl, fun l hl => hl, hacc, fun _ => ⟨k, hk, committedOn_iff.2 ⟨w, a3, hm.1, hm.2⟩⟩,
              fun _ _ h => (by cases h), fun _ => rfl, fun _ h => ?_⟩
            simp only at h; omega
  obtain ⟨resp, h1, _, h3, h4, h5, h6, h7⟩ := key keys (fun k hk => hk) [] (fun l hl => by cases hl)
  exact ⟨resp, by simp only [step, checkSecondary, h1], h3, h4, h5, h6, h7⟩

/-- C49, answers of the sample history. -/
example : (Req.checkSecondary 10 [kA, kB]).Valid ∧
    (step sampleState (.checkSecondary 10 [kA, kB])).2 = .secondary (.ok { commitTs := 15 }) ∧
    (step sampleState (.checkSecondary 40 [kB])).2 = .secondary (.ok { locks := [getLock sampleState kB] }) ∧
    (step sampleState (.checkSecondary 40 [kB, kA])).2
      = .secondary (.ok { locks := [getLock sampleState kB], result := some (.txnNotFound 40 kA) }) := by
  decide +kernel

end Verif.Txn
