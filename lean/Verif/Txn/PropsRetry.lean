import Verif.Txn.PropsLock
import Verif.Txn.PropsCommit

/-! # Retried requests: property C14 -/

namespace Verif.Txn
open Verif.Codec

/-- Handling the request a second time, right after the first, answers the same and
leaves the store as the first time left it. -/
def RetrySame (st : State) (r : Req) : Prop := step (step st r).1 r = step st r

theorem apply_empty (st : State) : st.apply {} = st := rfl

theorem access_access (st : State) (t : Int) : (st.access t).access t = st.access t := by
  simp only [State.access, State.mk.injEq, true_and]
  omega

theorem access_noop {st : State} {t : Int} (h : t ≤ st.maxTs) : st.access t = st := by
  unfold State.access
  have : max st.maxTs t = st.maxTs := by omega
  rw [this]

theorem le_access (st : State) (t : Int) : t ≤ (st.access t).maxTs := by
  simp only [State.access]; omega

theorem retry_of_same {st : State} {r : Req} (h : (step st r).1 = st) : RetrySame st r := by
  unfold RetrySame; rw [h]

theorem commit_retry_ok {st : State} {s c : Int} {keys : List Bytes} (hs : 0 < s) (hc : s < c)
    (h : ∀ k ∈ keys, (∀ l, st.lock.get k = some l → l.lockTs ≠ s) ∧
      ∃ w, st.write.get ⟨k, c⟩ = some w ∧ w.startTs = s ∧ w.committed) :
    commit st s c keys = (st, .ok none) := by
  have := commitLoop_already (st := st) (s := s) (c := c) (ks := keys) (ls := []) (fun k hk => by
    obtain ⟨h1, w, h2, h3, h4⟩ := h k hk
    exact commitOne_of_committed hs hc h1 h2 h3 h4)
  simp only [commit, this, if_neg (show ¬ c ≤ s by omega)]
  rfl

/-- What a successful commit has recorded. -/
theorem commit_recorded {st : State} (hI : Inv st) {s c : Int} {keys : List Bytes} (hs : 0 < s) (hc : c ≤ maxVer)
    (hok : (commit st s c keys).2 = .ok none) : s < c ∧ ∀ k ∈ keys,
      (∀ l, (commit st s c keys).1.lock.get k = some l → l.lockTs ≠ s) ∧
      ∃ w, (commit st s c keys).1.write.get ⟨k, c⟩ = some w ∧ w.startTs = s ∧ w.committed := by
  obtain ⟨h1, h2⟩ := commit_exact hI hs hc hok
  refine ⟨h1, fun k hk => ?_⟩
  rcases (h2 k).1 hk with ⟨l, a1, a2, a3, a4, a5⟩ | ⟨a1, a2, a3⟩
  · have hw : (commit st s c keys).1.write.get ⟨k, c⟩ = (view (commit st s c keys).1 k).write c := rfl
    have hl : (commit st s c keys).1.lock.get k = (view (commit st s c keys).1 k).lock := rfl
    rw [hw, hl, a5]
    refine ⟨fun l hl => (by cases hl), _, upd_same _ _ _, rfl, ?_⟩
    rcases ((hI k).lock l a1).type with h | h | h
    · exact Or.inl h
    · exact Or.inr h
    · exact absurd h a3
  · have hw : (commit st s c keys).1.write.get ⟨k, c⟩ = (view (commit st s c keys).1 k).write c := rfl
    have hl : (commit st s c keys).1.lock.get k = (view (commit st s c keys).1 k).lock := rfl
    rw [hw, hl, a3]
    exact ⟨a1, a2⟩

/-- C14: a repeated Commit is answered as the first one and changes nothing more. -/
theorem C14_commit {st : State} (hst : ValidReachable st) {s c : Int}
    {keys : List Bytes} (hv : (Req.commit s c keys).Valid) : RetrySame st (.commit s c keys) := by
  have hI0 : Inv st := hst.inv
  have hI : Inv (st.access c) := hI0
  unfold RetrySame
  simp only [step]
  by_cases hok : (commit (st.access c) s c keys).2 = .ok none
  · obtain ⟨h1, h2⟩ := commit_recorded hI hv.1.1 hv.2.1.2 hok
    have hmax : (commit (st.access c) s c keys).1.access c = (commit (st.access c) s c keys).1 := by
      have : (commit (st.access c) s c keys).1.maxTs = (st.access c).maxTs := by
        simp only [commit]
        split
        · rfl
        · split <;> rfl
      exact access_noop (by rw [this]; exact le_access st c)
    rw [hmax, commit_retry_ok hv.1.1 h1 h2, ← hok]
  · rw [commit_fail hok, access_access, commit_fail hok]

/-- C14: a Commit that succeeded is answered with success whenever it is repeated
later, and changes nothing any more. -/
theorem C14_commit_later {D : Bytes → TsOwner} {st : State} (h : GcReachable D st) {s c : Int} {keys : List Bytes}
    (hv : (Req.commit s c keys).Valid) (hd : (Req.commit s c keys).Disc D st)
    (hok : (step st (.commit s c keys)).2 = .basic (.ok none)) {rs : List Req}
    (hrs : Disciplined D (step st (.commit s c keys)).1 rs) :
    step (run (step st (.commit s c keys)).1 rs) (.commit s c keys) =
      ((run (step st (.commit s c keys)).1 rs).access c, .basic (.ok none)) := by
  have hI : Inv (st.access c) := h.good.inv
  have hg' := h.good.step hv hd
  have hgood := hg'.run hrs
  simp only [step, Resp.basic.injEq] at hok
  obtain ⟨h1, h2⟩ := commit_recorded hI hv.1.1 hv.2.1.2 hok
  have h3 : ∀ k ∈ keys, (∀ l, (run (step st (.commit s c keys)).1 rs).lock.get k = some l → l.lockTs ≠ s) ∧
      ∃ w, (run (step st (.commit s c keys)).1 rs).write.get ⟨k, c⟩ = some w ∧ w.startTs = s ∧ w.committed := by
    intro k hk
    obtain ⟨_, w, hw, hws, hwc⟩ := h2 k hk
    have hw' : (view (step st (.commit s c keys)).1 k).write c = some w := hw
    have hw2 := run_keep hg' hrs hw'
    refine ⟨?_, w, hw2, hws, hwc⟩
    intro l hl hls
    exact ((hgood.dinv k).lock l hl).2.1 c w hw2 hwc (by rw [hls, hws])
  generalize run (step st (.commit s c keys)).1 rs = S at h3
  simp only [step]
  rw [commit_retry_ok (st := S.access c) hv.1.1 h1 h3]

/-! ### BatchRollback -/

theorem batchRollbackLoop_noop {st : State} (hI : Inv st) {s : Int} (hs : 0 < s) {keys : List Bytes} {a : RbAcc}
    (h : ∀ k ∈ keys, st.lock.get k = none ∧ (RolledBackOn st k s ∨ ∃ c, CommittedOn st k s c)) :
    batchRollbackLoop st s keys a = .cont a := by
  induction keys with
  | nil => rfl
  | cons k ks ih =>
    obtain ⟨h1, h2⟩ := h k List.mem_cons_self
    have hone : batchRollbackOne st s k a = .cont a := by
      simp only [batchRollbackOne]
      rw [if_pos ((getLock_primary hI k).2 h1)]
      rcases getRollback_spec hI s k with ⟨h3, _⟩ | ⟨h3, h4⟩
      · rw [h3]
      · rw [h3]
        simp only
        generalize hg : getWriteInfo st s maxVer s k false true true = g
        cases g with
        | some x => rfl
        | none =>
          exfalso
          rcases h2 with h2 | ⟨c, h2⟩
          · obtain ⟨w, a1, a2, a3⟩ := rolledBackOn_iff.1 h2
            exact h4 w a1 ⟨a2, a3⟩
          · obtain ⟨w, a1, a2, a3⟩ := committedOn_iff.1 h2
            exact noRecord_of_none hI hs h4 hg c w a1 a2
    simp only [batchRollbackLoop, hone]
    exact ih (fun k hk => h k (List.mem_cons_of_mem _ hk))

theorem batchRollback_noop {st : State} (hI : Inv st) {s : Int} (hs : 0 < s) {keys : List Bytes}
    (h : ∀ k ∈ keys, st.lock.get k = none ∧ (RolledBackOn st k s ∨ ∃ c, CommittedOn st k s c)) :
    batchRollback st s keys = (st, .ok none) := by
  simp only [batchRollback, batchRollbackLoop_noop hI hs h]
  rfl

/-- After a successful rollback no key is locked and every key has a final record. -/
theorem batchRollback_recorded {st : State} (hI : Inv st) {s : Int} (hs : 0 < s ∧ s ≤ maxVer) {keys : List Bytes}
    (hok : (batchRollback st s keys).2 = .ok none) : ∀ k ∈ keys, (batchRollback st s keys).1.lock.get k = none ∧
      (RolledBackOn (batchRollback st s keys).1 k s ∨ ∃ c, CommittedOn (batchRollback st s keys).1 k s c) := by
  intro k hk
  have hl : (batchRollback st s keys).1.lock.get k = (view (batchRollback st s keys).1 k).lock := rfl
  simp only [hl, rolledBackOn_iff, committedOn_iff]
  rcases (batchRollback_exact hI hs hok k).1 hk with ⟨l, _, _, h3⟩ | ⟨_, _, h3⟩ | ⟨h1, h2, h3⟩
  · rw [h3]; exact ⟨rfl, Or.inl ⟨_, upd_same _ _ _, rfl, rfl⟩⟩
  · rw [h3]; exact ⟨rfl, Or.inl ⟨_, upd_same _ _ _, rfl, rfl⟩⟩
  · rw [h3]
    simp only [rolledBackOn_iff, committedOn_iff] at h2
    exact ⟨h1, h2⟩

/-- C14: a repeated BatchRollback is answered as the first one and changes nothing
more. -/
theorem C14_batchRollback {st : State} (hst : ValidReachable st) {s : Int}
    {keys : List Bytes} (hv : (Req.batchRollback s keys).Valid) : RetrySame st (.batchRollback s keys) := by
  have hI : Inv st := hst.inv
  have hI' := step_inv hI hv
  unfold RetrySame
  simp only [step] at hI' ⊢
  by_cases hok : (batchRollback st s keys).2 = .ok none
  · rw [batchRollback_noop hI' hv.1.1 (batchRollback_recorded hI hv.1 hok), ← hok]
  · rw [batchRollback_fail hok, batchRollback_fail hok]

/-- C14: a BatchRollback that succeeded is answered with success when it is repeated
later, and changes nothing any more, provided no key is locked at that time. -/
theorem C14_batchRollback_later_partial {D : Bytes → TsOwner} {st : State} (h : GcReachable D st) {s : Int}
    {keys : List Bytes} (hv : (Req.batchRollback s keys).Valid) (hd : (Req.batchRollback s keys).Disc D st)
    (hok : (step st (.batchRollback s keys)).2 = .basic (.ok none)) {rs : List Req}
    (hrs : Disciplined D (step st (.batchRollback s keys)).1 rs)
    (hfree : ∀ k ∈ keys, ¬ ∃ l, LockOn (run (step st (.batchRollback s keys)).1 rs) k l) :
    step (run (step st (.batchRollback s keys)).1 rs) (.batchRollback s keys) =
      (run (step st (.batchRollback s keys)).1 rs, .basic (.ok none)) := by
  have hg' := h.good.step hv hd
  have hgood := hg'.run hrs
  simp only [step, Resp.basic.injEq] at hok
  have hrec := batchRollback_recorded h.good.inv hv.1 hok
  have h3 : ∀ k ∈ keys, (run (step st (.batchRollback s keys)).1 rs).lock.get k = none ∧
      (RolledBackOn (run (step st (.batchRollback s keys)).1 rs) k s ∨
        ∃ c, CommittedOn (run (step st (.batchRollback s keys)).1 rs) k s c) := by
    intro k hk
    refine ⟨noLock_iff.2 (hfree k hk), ?_⟩
    simp only [rolledBackOn_iff, committedOn_iff]
    rcases (hrec k hk).2 with h1 | ⟨c, h1⟩
    · obtain ⟨w, a1, a2, a3⟩ := rolledBackOn_iff.1 h1
      exact Or.inl ⟨w, run_keep hg' hrs a1, a2, a3⟩
    · obtain ⟨w, a1, a2, a3⟩ := committedOn_iff.1 h1
      exact Or.inr ⟨c, w, run_keep hg' hrs a1, a2, a3⟩
  generalize run (step st (.batchRollback s keys)).1 rs = S at h3 hgood
  simp only [step]
  rw [batchRollback_noop hgood.inv hv.1.1 h3]

/-- C14 is false for a BatchRollback repeated after another transaction has locked the
key: it is refused with that transaction's lock. -/
theorem C14_batchRollback_later_false : ∃ st : State, ∃ rs : List Req, Reachable sampleRoles.spec st ∧
    Disciplined sampleRoles.spec (step st (.batchRollback 50 [[9]])).1 rs ∧
    (step st (.batchRollback 50 [[9]])).2 = .basic (.ok none) ∧
    ∃ l, (step (run (step st (.batchRollback 50 [[9]])).1 rs) (.batchRollback 50 [[9]])).2 = .basic (.ok (some (.locked l))) ∧
      l.lockTs = 60 := by
  refine ⟨sampleState, [.prewrite { mutations := [{ op := .put, key := [9], value := vA }], primary := [9], startTs := 60 }],
    sample_reachable, disciplinedB_sound (by decide +kernel), by decide +kernel,
    { primary := [9], lockTs := 60, key := [9], type := .put, shortValue := vA }, by decide +kernel, rfl⟩

/-! ### HeartBeat -/

/-- C14: a repeated HeartBeat is answered as the first one. -/
theorem C14_heartBeat {st : State} {p : Bytes} {s t : Int} : RetrySame st (.heartBeat p s t) := by
  unfold RetrySame
  simp only [step]
  have hcases : (heartBeat st p s t).1 = st ∨
      ((getLock st p).primary ≠ [] ∧ (getLock st p).lockTs = s ∧ (getLock st p).ttl < t ∧
        heartBeat st p s t = (st.apply { putLock := [(p, { getLock st p with ttl := t })] }, .ok { lockTtl := t })) := by
    simp only [heartBeat]
    split
    · exact Or.inl rfl
    · rename_i h1
      split
      · exact Or.inl rfl
      · rename_i h2
        split
        · exact Or.inl rfl
        · rename_i h3
          exact Or.inr ⟨h1, by simpa using h2, by omega, rfl⟩
  rcases hcases with h1 | ⟨h1, h2, h3, h4⟩
  · rw [h1, h1]
  · rw [h4]
    simp only
    have hget : getLock (st.apply { putLock := [(p, { getLock st p with ttl := t })] }) p = { getLock st p with ttl := t } := by
      apply getLock_of_some
      rw [lock_apply, if_neg (by simp)]
      simp [CF.lastPut]
    generalize st.apply { putLock := [(p, { getLock st p with ttl := t })] } = S at hget
    simp only [heartBeat, hget]
    rw [if_neg h1, if_neg (by simpa using h2), if_pos (Int.le_refl t)]

/-! ### PessimisticLock and PessimisticRollback -/

theorem pessLoop_op {st : State} {r : PessReq} {ms : List PessMut} {a a' : PessAcc} (h : pessLoop st r ms a = .ok a') :
    ∀ m ∈ ms, m.op = .lock := by
  induction ms generalizing a with
  | nil => simp
  | cons m ms ih =>
    simp only [pessLoop] at h
    split at h
    · cases h
    · rename_i hop
      intro m' hm'
      rcases List.mem_cons.1 hm' with rfl | hm'
      · simpa using hop
      · exact ih h m' hm'

theorem pessLoop_noKvs {st : State} {r : PessReq} (hr : r.returnValues = false) {ms : List PessMut} {a a' : PessAcc}
    (h : pessLoop st r ms a = .ok a') : a'.kvs = a.kvs := by
  induction ms generalizing a with
  | nil => simp only [pessLoop, Out.ok.injEq] at h; rw [h]
  | cons m ms ih =>
    simp only [pessLoop] at h
    split at h
    · cases h
    · rw [ih h]
      simp only [pessOne, hr]
      repeat' split
      all_goals first | rfl | contradiction

theorem pessLoop_noop {st : State} {r : PessReq} (hr : r.returnValues = false) {ms : List PessMut} {a : PessAcc}
    (hop : ∀ m ∈ ms, m.op = .lock)
    (h : ∀ m ∈ ms, ∃ l, st.lock.get m.key = some l ∧ l.lockTs = r.startTs ∧ l.forUpdateTs = r.forUpdateTs ∧
      l.primary ≠ [] ∧ l.forUpdateTs ≠ 0) : pessLoop st r ms a = .ok a := by
  induction ms with
  | nil => rfl
  | cons m ms ih =>
    obtain ⟨l, h1, h2, h3, h4, h5⟩ := h m List.mem_cons_self
    have hone : pessOne st r m a = a := by
      simp only [pessOne, getLock_of_some h1]
      rw [if_pos h4, if_neg h5, if_pos h2, if_pos h3, hr]
      rfl
    simp only [pessLoop, hop m List.mem_cons_self, hone, ne_eq, not_true, if_false]
    exact ih (fun m hm => hop m (List.mem_cons_of_mem _ hm)) (fun m hm => h m (List.mem_cons_of_mem _ hm))

/-- C14: a repeated PessimisticLock that does not ask for values is answered as the
first one and changes nothing more. -/
theorem C14_pessimisticLock_partial {st : State} (hst : ValidReachable st)
    {q : PessReq} (hv : (Req.pessimisticLock q).Valid) (hr : q.returnValues = false) :
    RetrySame st (.pessimisticLock q) := by
  have hI : Inv st := hst.inv
  by_cases hok : ∃ resp, (pessimisticLock st q).2 = .ok resp ∧ resp.results = []
  · obtain ⟨resp, hok, hres⟩ := hok
    have hI' : Inv (step st (.pessimisticLock q)).1 := step_inv hI hv
    have hgr := fun m hm => (pessimisticLock_granted hI hv hok hres (m := m) hm).2.1
    have hops : (∀ m ∈ q.mutations, m.op = .lock) ∧ resp = {} := by
      simp only [pessimisticLock] at hok
      split at hok
      · cases hok
      · cases hok
      · rename_i a ha
        refine ⟨pessLoop_op ha, ?_⟩
        have hk := pessLoop_noKvs hr ha
        have : resp = { results := a.results, kvs := a.kvs } := by
          split at hok <;> (simp only [Out.ok.injEq] at hok; exact hok.symm)
        subst this
        simp only at hres
        rw [hres, hk]
    unfold RetrySame
    simp only [step] at hI' ⊢
    have hloop : pessLoop (pessimisticLock st q).1 q q.mutations {} = .ok {} := by
      refine pessLoop_noop hr hops.1 (fun m hm => ?_)
      obtain ⟨l, h1, h2, h3⟩ := hgr m hm
      refine ⟨l, h1, h2, h3, ((hI' m.key).lock l h1).primary, ?_⟩
      have := hv.2.1.1
      omega
    have h2 : pessimisticLock (pessimisticLock st q).1 q = ((pessimisticLock st q).1, .ok {}) := by
      generalize (pessimisticLock st q).1 = S at hloop
      simp only [pessimisticLock, hloop]
      rfl
    rw [h2, hok, hops.2]
  · refine retry_of_same (C18_refused (fun resp h hres => hok ⟨resp, ?_, hres⟩))
    simpa only [step, Resp.pess.injEq] using h

/-- C14 is false for a PessimisticLock that asks for values: transaction 10 locks a
key after a newer commit and is given the committed value; asked again, the store
returns what was visible at 10. -/
theorem C14_pessimisticLock_false : ∃ rs : List Req, ∃ q : PessReq, AllValid rs ∧ (Req.pessimisticLock q).Valid ∧
    ¬ RetrySame (run State.init rs) (.pessimisticLock q) := by
  refine ⟨[.prewrite { mutations := [{ op := .put, key := kA, value := vA }], primary := kA, startTs := 20 },
    .commit 20 25 [kA]],
    { mutations := [⟨.lock, kA, []⟩], primary := kA, startTs := 10, ttl := 100, forUpdateTs := 30, returnValues := true },
    by unfold AllValid; decide, by decide, ?_⟩
  unfold RetrySame
  decide +kernel

theorem pessRollback_cov {st : State} {s f : Int} (ks : List Bytes) (a : List TxnResult × List Bytes)
    (h : (ks.foldl (fun a k => pessRollbackOne st s f k a) a).1 = []) :
    a.1 = [] ∧ (∀ k ∈ a.2, k ∈ (ks.foldl (fun a k => pessRollbackOne st s f k a) a).2) ∧
    ∀ k ∈ ks, (getLock st k).primary = [] ∨ k ∈ (ks.foldl (fun a k => pessRollbackOne st s f k a) a).2 := by
  induction ks generalizing a with
  | nil => exact ⟨h, fun k hk => hk, by simp⟩
  | cons k ks ih =>
    simp only [List.foldl_cons] at h ⊢
    obtain ⟨h1, h2, h3⟩ := ih _ h
    have hone : a.1 = [] ∧ (∀ x ∈ a.2, x ∈ (pessRollbackOne st s f k a).2) ∧
        ((getLock st k).primary = [] ∨ k ∈ (pessRollbackOne st s f k a).2) := by
      simp only [pessRollbackOne] at h1 ⊢
      split at h1
      · split at h1
        · simp at h1
        · split at h1
          · split at h1
            · rename_i a1 a2 a3 a4
              rw [if_pos a1, if_neg a2, if_pos a3, if_pos a4]
              exact ⟨h1, fun x hx => List.mem_append_left _ hx, Or.inr (by simp)⟩
            · simp at h1
          · simp at h1
      · rename_i hp
        rw [if_neg hp]
        exact ⟨h1, fun x hx => hx, Or.inl (by simpa using hp)⟩
    refine ⟨hone.1, fun x hx => h2 x (hone.2.1 x hx), ?_⟩
    intro k' hk'
    rcases List.mem_cons.1 hk' with rfl | hk'
    · exact hone.2.2.imp id (h2 _)
    · exact h3 k' hk'

theorem pessRollback_noop {st : State} {s f : Int} (ks : List Bytes) (h : ∀ k ∈ ks, (getLock st k).primary = [])
    (a : List TxnResult × List Bytes) : ks.foldl (fun a k => pessRollbackOne st s f k a) a = a := by
  induction ks generalizing a with
  | nil => rfl
  | cons k ks ih =>
    rw [List.foldl_cons]
    have : pessRollbackOne st s f k a = a := by
      simp only [pessRollbackOne, h k List.mem_cons_self, ne_eq, not_true, if_false]
    rw [this]
    exact ih (fun k hk => h k (List.mem_cons_of_mem _ hk)) a

/-- C14: a repeated PessimisticRollback is answered as the first one and changes
nothing more. -/
theorem C14_pessimisticRollback {st : State} (hst : ValidReachable st)
    {s f : Int} {keys : List Bytes} : RetrySame st (.pessimisticRollback s f keys) := by
  have hI : Inv st := hst.inv
  by_cases hres : (keys.foldl (fun a k => pessRollbackOne st s f k a) ([], [])).1 = []
  · obtain ⟨_, _, h3⟩ := pessRollback_cov keys ([], []) hres
    have hfirst : pessimisticRollback st s f keys =
        (st.apply { delLock := (keys.foldl (fun a k => pessRollbackOne st s f k a) ([], [])).2 }, .ok {}) := by
      simp only [pessimisticRollback, hres, ne_eq, not_true, if_false]
    generalize (keys.foldl (fun a k => pessRollbackOne st s f k a) ([], [])).2 = D at h3 hfirst
    have hnone : ∀ k ∈ keys, (getLock (st.apply { delLock := D }) k).primary = [] := by
      intro k hk
      have : (st.apply { delLock := D }).lock.get k = none := by
        rw [lock_apply]
        split
        · rfl
        · rename_i hn
          rcases h3 k hk with h | h
          · rw [(getLock_primary hI k).1 h]; rfl
          · exact absurd h hn
      simp only [getLock, this]
    unfold RetrySame
    simp only [step, hfirst]
    generalize st.apply { delLock := D } = S at hnone
    simp only [pessimisticRollback, pessRollback_noop keys hnone, ne_eq, not_true, if_false]
    rfl
  · refine retry_of_same ?_
    simp only [step, pessimisticRollback]
    rw [if_pos hres]

/-! ### ResolveLock -/

theorem resolveLoop_noop {st : State} (hI : Inv st) {s c : Int} {keys : List Bytes} {a : RsAcc}
    (h : ∀ k ∈ keys, ∀ l, st.lock.get k = some l → l.lockTs ≠ s) : resolveLoop st s c keys a = .inl a := by
  induction keys with
  | nil => rfl
  | cons k ks ih =>
    simp only [resolveLoop]
    rcases getLock_cases hI k with ⟨_, h2⟩ | ⟨h1, h2⟩
    · rw [h2, if_pos rfl]; exact ih (fun k hk => h k (List.mem_cons_of_mem _ hk))
    · rw [if_neg h2.primary, if_pos (h k List.mem_cons_self _ h1)]
      exact ih (fun k hk => h k (List.mem_cons_of_mem _ hk))

/-- C14: a repeated ResolveLock is answered as the first one and changes nothing
more. -/
theorem C14_resolveLock {st : State} (hst : ValidReachable st) {s c : Int}
    {keys : List Bytes} (hv : (Req.resolveLock s c keys).Valid) : RetrySame st (.resolveLock s c keys) := by
  have hI0 : Inv st := hst.inv
  have hI : Inv (st.access c) := hI0
  have hI' : Inv (step st (.resolveLock s c keys)).1 := step_inv hI0 hv
  unfold RetrySame
  simp only [step] at hI' ⊢
  by_cases hok : (resolveLock (st.access c) s c keys).2 = .ok none
  · obtain ⟨h0, h1, h2⟩ := resolveLock_exact hI hv.1 hv.2.1 hok
    have hmax : (resolveLock (st.access c) s c keys).1.access c = (resolveLock (st.access c) s c keys).1 := by
      have : (resolveLock (st.access c) s c keys).1.maxTs = (st.access c).maxTs := by
        simp only [resolveLock]
        split
        · rfl
        · split
          · rfl
          · split <;> rfl
      exact access_noop (by rw [this]; exact le_access st c)
    have hno : ∀ k ∈ keys, ∀ l, (resolveLock (st.access c) s c keys).1.lock.get k = some l → l.lockTs ≠ s := by
      intro k hk l hl
      have hl : (view (resolveLock (st.access c) s c keys).1 k).lock = some l := hl
      rcases (h2 k).1 hk with ⟨a1, a2⟩ | ⟨l', a1, a2, a3, a4⟩
      · rw [a2] at hl; exact a1 l hl
      · rw [a4] at hl; split at hl <;> cases hl
    rw [hmax, hok]
    generalize (resolveLock (st.access c) s c keys).1 = S at hno hI'
    simp only [resolveLock, resolveLoop_noop hI' hno]
    rw [if_neg (by omega), if_neg (by omega)]
    rfl
  · rw [resolveLock_fail hok, access_access, resolveLock_fail hok]

theorem batchResolveOne_sub {st : State} {s c : Int} {k : Bytes} {l : LockInfo}
    (h : (batchResolveOne st s c).1.lock.get k = some l) : st.lock.get k = some l := by
  simp only [batchResolveOne] at h
  split at h
  · exact h
  · simp only [resolveApply] at h
    rw [lock_apply] at h
    split at h
    · cases h
    · rw [lock_apply] at h
      split at h
      · simp [CF.lastPut, rollbackBatch] at h
      · simpa [CF.lastPut, rollbackBatch, commitBatch] using h

theorem batchResolveRun_sub {infos : List (Int × Int)} {st : State} {k : Bytes} {l : LockInfo}
    (h : (batchResolveRun st infos).1.lock.get k = some l) : st.lock.get k = some l := by
  induction infos generalizing st with
  | nil => exact h
  | cons i infos ih =>
    obtain ⟨s, c⟩ := i
    simp only [batchResolveRun] at h
    have hs := @batchResolveOne_sub st s c k l
    generalize batchResolveOne st s c = p at h hs
    obtain ⟨st', o⟩ := p
    cases o with
    | some r => exact hs h
    | none => exact hs (ih h)

theorem batchResolveOne_noop {st : State} {s c : Int} (h : ∀ k l, st.lock.get k = some l → l.lockTs ≠ s) :
    batchResolveOne st s c = (st, none) := by
  have : scanLocksOf st s = [] := by
    simp only [scanLocksOf, List.filter_eq_nil_iff, decide_eq_true_eq]
    intro e he hh
    have := h e.1 e.2 ((CF.mem_iff_get _ _ _).1 he)
    omega
  simp only [batchResolveOne, this, batchResolveLoop]
  rfl

theorem batchResolveRun_twice {infos : List (Int × Int)} {st : State} (hI : Inv st)
    (hv : ∀ i ∈ infos, (0 < i.1 ∧ i.1 ≤ maxVer) ∧ (0 < i.2 → i.1 < i.2 ∧ i.2 ≤ maxVer)) :
    batchResolveRun (batchResolveRun st infos).1 infos = batchResolveRun st infos := by
  induction infos generalizing st with
  | nil => rfl
  | cons i infos ih =>
    obtain ⟨s, c⟩ := i
    obtain ⟨hs, hc⟩ := hv (s, c) List.mem_cons_self
    have hinv : Inv (batchResolveOne st s c).1 := by
      intro k'
      obtain ⟨e', h1', _⟩ := batchResolveOne_view hI hs hc k'
      exact h1'.inv (hI k')
    have hex := batchResolveOne_exact hI (s := s) (c := c) hs hc
    have hfail : ∀ r, (batchResolveOne st s c).2 = some r → (batchResolveOne st s c).1 = st := by
      intro r hr
      simp only [batchResolveOne] at hr ⊢
      split
      · rfl
      · rename_i hg; rw [hg] at hr; cases hr
    cases ho : batchResolveOne st s c with
    | mk st' o =>
    rw [ho] at hinv hex hfail
    have hrun : batchResolveRun st ((s, c) :: infos) =
        match o with
        | some r => (st', some r)
        | none => batchResolveRun st' infos := by
      simp only [batchResolveRun, ho]
      cases o <;> rfl
    cases o with
    | some r =>
      have hst : st' = st := hfail r rfl
      subst hst
      rw [hrun]
      simp only [batchResolveRun, ho]
    | none =>
      simp only at hrun
      rw [hrun]
      have hno : ∀ k l, (batchResolveRun st' infos).1.lock.get k = some l → l.lockTs ≠ s := by
        intro k l hl
        have hl : (view st' k).lock = some l := batchResolveRun_sub hl
        rcases hex rfl k with ⟨a1, a2⟩ | ⟨l', a1, a2, a3, a4⟩
        · simp only at a2; rw [a2] at hl; exact a1 l hl
        · simp only at a4; rw [a4] at hl; split at hl <;> cases hl
      conv => lhs; unfold batchResolveRun
      rw [batchResolveOne_noop hno]
      exact ih hinv (fun i hi => hv i (List.mem_cons_of_mem _ hi))

/-- C14: a repeated ResolveLock without keys is answered as the first one and changes
nothing more, also when the first one failed half-way. -/
theorem C14_batchResolve {st : State} (hst : ValidReachable st)
    {infos : List (Int × Int)} (hv : (Req.batchResolve infos).Valid) : RetrySame st (.batchResolve infos) := by
  have hI : Inv st := hst.inv
  by_cases hbad : infos.any (fun i => i.2 < 0 ∨ (i.2 > 0 ∧ i.2 ≤ i.1)) = true
  · refine retry_of_same ?_
    simp only [step, batchResolve]
    rw [if_pos hbad]
  · have hv' : ∀ i ∈ infos, (0 < i.1 ∧ i.1 ≤ maxVer) ∧ (0 < i.2 → i.1 < i.2 ∧ i.2 ≤ maxVer) := by
      intro i hi
      refine ⟨(hv i hi).1, fun h0 => ⟨?_, (hv i hi).2⟩⟩
      simp only [List.any_eq_true, decide_eq_true_eq, not_exists, not_and] at hbad
      have := hbad i hi
      omega
    unfold RetrySame
    simp only [step, batchResolve]
    rw [if_neg hbad, if_neg hbad]
    simp only [batchResolveRun_twice hI hv']

/-! ### Prewrite -/

/-- The part of the checks of one mutation that does not look at locks. -/
structure MutPass (st : State) (r : PrewriteReq) (m : Mut) : Prop where
  rb : getRollback st r.startTs m.key = .ok false
  conf : ¬ (ctsOf (getWriteInfo st 0 maxVer 0 m.key false true true) ≥ r.startTs ∧ m.pess = false)
  absent : ¬ (m.op = .putIfAbsent ∧ (wiOf (getWriteInfo st 0 maxVer 0 m.key false true true)).op = .put)
  cnePess : ¬ (m.op = .checkNotExists ∧ m.pess = true)
  cne : ¬ (m.op = .checkNotExists ∧ (wiOf (getWriteInfo st 0 maxVer 0 m.key false true true)).op = .put)

theorem finishLock_keep {st : State} {r : PrewriteReq} {m : Mut} {l : LockInfo} {a a' : PwAcc} {f : Int}
    (h : finishLock st r m l a = some (a', f)) : a'.results = a.results ∧ a'.exist = a.exist := by
  simp only [finishLock] at h
  split at h
  · split at h
    · cases h
    · split at h
      · simp only [Option.some.injEq, Prod.mk.injEq] at h; rw [← h.1]; exact ⟨rfl, rfl⟩
      · split at h
        · simp only [Option.some.injEq, Prod.mk.injEq] at h; rw [← h.1]; exact ⟨rfl, rfl⟩
        · simp only [Option.some.injEq, Prod.mk.injEq] at h; rw [← h.1]; exact ⟨rfl, rfl⟩
  · simp only [Option.some.injEq, Prod.mk.injEq] at h; rw [← h.1]; exact ⟨rfl, rfl⟩

theorem genPut_keep {st : State} {r : PrewriteReq} {m : Mut} {l : LockInfo} {a a' : PwAcc} {f : Int}
    (h : genPut st r m l a = .ok (a', f)) : a'.results = a.results ∧ a'.exist = a.exist := by
  simp only [genPut] at h
  split at h
  · cases h
  · split at h
    · cases h
    · rename_i x hx
      simp only [Out.ok.injEq] at h
      subst h
      obtain ⟨h1, h2⟩ := finishLock_keep hx
      rw [h1, h2]
      split <;> exact ⟨rfl, rfl⟩

theorem genPrewrite_keep {st : State} {r : PrewriteReq} {m : Mut} {l : LockInfo} {w : WriteInfo} {a a' : PwAcc}
    {f : Int} (h : genPrewrite st r m l w a = .ok (a', f)) : a'.results = a.results ∧ a'.exist = a.exist := by
  have hfin : ∀ l, (match finishLock st r m l a with
      | none => Out.fatal
      | some x => .ok x) = .ok (a', f) → a'.results = a.results ∧ a'.exist = a.exist := by
    intro l hl
    split at hl
    · cases hl
    · rename_i x hx
      simp only [Out.ok.injEq] at hl
      subst hl
      exact finishLock_keep hx
  simp only [genPrewrite] at h
  split at h
  · exact genPut_keep h
  · split at h
    · exact hfin _ h
    · exact genPut_keep h
  · split at h
    · split at h
      · cases h
      · simp only [Out.ok.injEq, Prod.mk.injEq] at h; rw [← h.1]; exact ⟨rfl, rfl⟩
    · simp only [Out.ok.injEq, Prod.mk.injEq] at h; rw [← h.1]; exact ⟨rfl, rfl⟩
  · exact hfin _ h
  · cases h

theorem prewriteOne_pass {st : State} {r : PrewriteReq} {m : Mut} {a a' : PwAcc} :
    (prewriteOne st r m a = .cont a' → a'.results = [] → a'.exist = [] → a.results = [] ∧ a.exist = [] ∧
      MutPass st r m ∧ ∃ b, prewriteLockCheck st r m = .pass b) ∧
    (prewriteOne st r m a = .brk a' → a'.results ≠ [] ∨ a'.exist ≠ []) := by
  simp only [prewriteOne]
  split
  · exact ⟨fun h => (by cases h), fun h => (by cases h)⟩
  · refine ⟨fun h hr => ?_, fun h => (by cases h)⟩
    simp only [PwStep.cont.injEq] at h
    subst h
    simp at hr
  · rename_i b hb
    split
    · exact ⟨fun h => (by cases h), fun h => (by cases h)⟩
    · exact ⟨fun h => (by cases h), fun h => (by cases h)⟩
    · refine ⟨fun h => (by cases h), fun h => ?_⟩
      simp only [PwStep.brk.injEq] at h
      subst h
      simp
    · rename_i hrb
      split
      · split
        · exact ⟨fun h => (by cases h), fun h => (by cases h)⟩
        · refine ⟨fun h => (by cases h), fun h => ?_⟩
          simp only [PwStep.brk.injEq] at h
          subst h
          simp
      · rename_i hconf
        split
        · refine ⟨fun h => (by cases h), fun h => ?_⟩
          simp only [PwStep.brk.injEq] at h
          subst h
          simp
        · rename_i habs
          split
          · exact ⟨fun h => (by cases h), fun h => (by cases h)⟩
          · rename_i hcp
            have hdone : ∀ c : PwAcc, c = (if m.op = .checkNotExists ∧
                  (wiOf (getWriteInfo st 0 maxVer 0 m.key false true true)).op = .put then
                  { a with exist := a.exist ++ [m.key] } else a) → c.results = [] → c.exist = [] →
                a.results = [] ∧ a.exist = [] ∧ MutPass st r m ∧ ∃ b', LockCheck.pass b = .pass b' := by
              intro c h3 h1 h2
              split at h3
              · subst h3; simp at h2
              · rename_i hcne
                subst h3
                exact ⟨h1, h2, ⟨hrb, hconf, habs, hcp, hcne⟩, b, rfl⟩
            refine ⟨fun h hr he => ?_, fun h => ?_⟩
            · split at h
              · simp only [PwStep.cont.injEq] at h
                subst h
                rw [hb]; exact hdone _ rfl hr he
              · split at h
                · cases h
                · cases h
                · rename_i a2 f hg
                  obtain ⟨g1, g2⟩ := genPrewrite_keep hg
                  have : a2.results = a'.results ∧ a2.exist = a'.exist := by
                    split at h <;> (simp only [PwStep.cont.injEq] at h; rw [← h]; exact ⟨rfl, rfl⟩)
                  rw [hb]
                  exact hdone _ rfl (by rw [← g1, this.1, hr]) (by rw [← g2, this.2, he])
            · split at h
              · cases h
              · split at h
                · cases h
                · cases h
                · split at h <;> cases h

theorem prewriteLoop_pass {st : State} {r : PrewriteReq} (ms : List Mut) {a a' : PwAcc}
    (h : prewriteLoop st r ms a = .brk a') (hr : a'.results = []) (he : a'.exist = []) :
    a.results = [] ∧ a.exist = [] ∧ ∀ m ∈ ms, MutPass st r m ∧ ∃ b, prewriteLockCheck st r m = .pass b := by
  induction ms generalizing a with
  | nil =>
    simp only [prewriteLoop, PwStep.brk.injEq] at h
    subst h
    exact ⟨hr, he, by simp⟩
  | cons m ms ih =>
    simp only [prewriteLoop] at h
    split at h
    · rename_i a1 h1
      obtain ⟨i1, i2, i3⟩ := ih h
      obtain ⟨j1, j2, j3⟩ := (prewriteOne_pass (st := st)).1 h1 i1 i2
      refine ⟨j1, j2, fun m' hm' => ?_⟩
      rcases List.mem_cons.1 hm' with h2 | h2
      · rw [h2]; exact j3
      · exact i3 m' h2
    · rcases (prewriteOne_pass (st := st)).2 h with h1 | h1
      · exact absurd hr h1
      · exact absurd he h1

/-- Nothing collected yet. -/
structure PwAcc.Empty (a : PwAcc) : Prop where
  data : a.data = []
  locks : a.locks = []
  onePc : a.onePc = []
  results : a.results = []
  exist : a.exist = []

theorem prewriteLoop_retry {st : State} {r : PrewriteReq} (hs : r.startTs < maxVer) (ms : List Mut)
    (hp : ∀ m ∈ ms, MutPass st r m ∧ (prewriteLockCheck st r m = .pass true ∨
      (m.op = .checkNotExists ∧ prewriteLockCheck st r m = .pass false))) {a : PwAcc} (ha : a.Empty) :
    ∃ a', prewriteLoop st r ms a = .brk a' ∧ a'.Empty ∧
      ((a.tryOnePc = false ∧ a.async = false) ∨ (∃ m ∈ ms, prewriteLockCheck st r m = .pass true) →
        a'.tryOnePc = false ∧ a'.async = false) := by
  induction ms generalizing a with
  | nil =>
    refine ⟨a, rfl, ha, fun h => ?_⟩
    rcases h with h | ⟨m, hm, _⟩
    · exact h
    · cases hm
  | cons m ms ih =>
    obtain ⟨hm, hl⟩ := hp m List.mem_cons_self
    have hone : ∃ a1, prewriteOne st r m a = .cont a1 ∧ a1.Empty ∧
        ((a.tryOnePc = false ∧ a.async = false) ∨ prewriteLockCheck st r m = .pass true →
          a1.tryOnePc = false ∧ a1.async = false) := by
      rcases hl with hl | ⟨hop, hl⟩
      · refine ⟨{ a with tryOnePc := false, async := false }, ?_, ⟨ha.data, ha.locks, ha.onePc, ha.results, ha.exist⟩,
          fun _ => ⟨rfl, rfl⟩⟩
        simp only [prewriteOne, hl, hm.rb]
        rw [if_neg hm.conf, if_neg hm.absent, if_neg hm.cnePess, if_neg hm.cne]
        rfl
      · simp only [prewriteOne, hl, hm.rb]
        rw [if_neg hm.conf, if_neg hm.absent, if_neg hm.cnePess, if_neg hm.cne]
        simp only [genPrewrite, hop, Bool.false_eq_true, if_false]
        by_cases hf : a.tryOnePc = true ∨ a.async = true
        · simp only [hf, if_true, if_neg (show ¬ r.startTs ≥ maxVer by omega)]
          refine ⟨_, rfl, ⟨ha.data, ha.locks, ha.onePc, ha.results, ha.exist⟩, ?_⟩
          rintro (⟨h1, h2⟩ | h)
          · simp [h1, h2] at hf
          · cases h
        · simp only [hf, if_false]
          refine ⟨_, rfl, ⟨ha.data, ha.locks, ha.onePc, ha.results, ha.exist⟩, ?_⟩
          rintro (⟨h1, h2⟩ | h)
          · exact ⟨h1, h2⟩
          · cases h
    obtain ⟨a1, h1, h2, h3⟩ := hone
    obtain ⟨a', i1, i2, i3⟩ := ih (fun m hm => hp m (List.mem_cons_of_mem _ hm)) h2
    refine ⟨a', by simp only [prewriteLoop, h1]; exact i1, i2, fun h => ?_⟩
    apply i3
    rcases h with h | ⟨m', hm', h⟩
    · exact Or.inl (h3 (Or.inl h))
    · rcases List.mem_cons.1 hm' with h4 | h4
      · rw [h4] at h; exact Or.inl (h3 (Or.inr h))
      · exact Or.inr ⟨m', h4, h⟩

/-- A prewritten lock of the transaction makes the lock check report a repetition. -/
theorem pass_true_of {st : State} {r : PrewriteReq} {m : Mut} {l : LockInfo} (hl : st.lock.get m.key = some l)
    (h1 : l.lockTs = r.startTs) (h2 : l.type ≠ .lock) (h3 : l.primary ≠ []) :
    prewriteLockCheck st r m = .pass true := by
  simp only [prewriteLockCheck, getLock_of_some hl]
  simp [h1, h2, h3]

theorem getRollback_apply (st : State) (a : PwAcc) (s : Int) (k : Bytes) :
    getRollback (st.apply (prewriteBatch a)) s k = getRollback st s k := rfl

/-- Repeating a prewrite that has left its locks. -/
theorem prewrite_twice {st : State} {r : PrewriteReq} (hp0 : r.primary ≠ []) (hs : r.startTs < maxVer)
    {a : PwAcc} (hl : prewriteLoop st r r.mutations { tryOnePc := r.tryOnePc, async := decide (r.secondaries ≠ []) } = .brk a)
    (ha : AccOk st r r.mutations a) (hr : a.results = []) (he : a.exist = []) :
    st.apply (prewriteBatch a) = st ∨
      prewrite (st.apply (prewriteBatch a)) r = (st.apply (prewriteBatch a), .ok {}) := by
  obtain ⟨_, _, hpass⟩ := prewriteLoop_pass _ hl hr he
  have hput : ∀ k l, (k, l) ∈ (prewriteBatch a).putLock → ∃ m ∈ r.mutations, k = m.key ∧ Ent st r m l := by
    intro k l h
    simp only [prewriteBatch, List.mem_append, List.mem_map] at h
    rcases h with h | ⟨e, h1, h2⟩
    · obtain ⟨m, h1, h2, h3, _⟩ := ha.locks _ h
      exact ⟨m, h1, h2, h3⟩
    · obtain ⟨m, h3, h4, _, _, h5, _⟩ := ha.onePc _ h1
      simp only [Prod.mk.injEq] at h2
      rw [← h2.1, ← h2.2]
      exact ⟨m, h3, h4, h5⟩
  have hent : ∀ m l, CF.lastPut (prewriteBatch a).putLock m.key = some l → 
      prewriteLockCheck (st.apply (prewriteBatch a)) r m = .pass true := by
    intro m l h
    obtain ⟨m', _, _, h3⟩ := hput _ _ (CF.lastPut_mem h)
    refine pass_true_of (l := l) ?_ h3.ts ?_ (by rw [h3.primary]; exact hp0)
    · rw [lock_apply, h]; rfl
    · rcases h3.op with h4 | h4
      · rw [h4.2.1]; decide
      · rw [h4.2.1]; decide
  by_cases hemp : (prewriteBatch a).putLock = []
  · left
    have hd : a.data = [] := by
      rcases hda : a.data with _ | ⟨e, es⟩
      · rfl
      · obtain ⟨m, _, _, _, _, l, h, _⟩ := ha.data e (by rw [hda]; exact List.mem_cons_self)
        simp only [prewriteBatch, List.append_eq_nil_iff, List.map_eq_nil_iff] at hemp
        rw [hemp.1, hemp.2] at h
        simp at h
    have : prewriteBatch a = {} := by
      have h2 : prewriteBatch a = { putData := a.data, putLock := (prewriteBatch a).putLock } := rfl
      rw [h2, hemp, hd]
    rw [this]; rfl
  · right
    have hp : ∀ m ∈ r.mutations, MutPass (st.apply (prewriteBatch a)) r m ∧
        (prewriteLockCheck (st.apply (prewriteBatch a)) r m = .pass true ∨
          (m.op = .checkNotExists ∧ prewriteLockCheck (st.apply (prewriteBatch a)) r m = .pass false)) := by
      intro m hm
      obtain ⟨h1, b, h2⟩ := hpass m hm
      refine ⟨⟨h1.rb, h1.conf, h1.absent, h1.cnePess, h1.cne⟩, ?_⟩
      cases hlp : CF.lastPut (prewriteBatch a).putLock m.key with
      | some l => exact Or.inl (hent m l hlp)
      | none =>
        have hget : getLock (st.apply (prewriteBatch a)) m.key = getLock st m.key := by
          have : (st.apply (prewriteBatch a)).lock.get m.key = st.lock.get m.key := by
            rw [lock_apply, hlp]; rfl
          simp only [getLock, this]
        have hchk : prewriteLockCheck (st.apply (prewriteBatch a)) r m = prewriteLockCheck st r m := by
          have hcc : checkCommitted (st.apply (prewriteBatch a)) r.startTs m.key = checkCommitted st r.startTs m.key := rfl
          simp only [prewriteLockCheck, hget, hcc]
        rw [hchk, h2]
        cases b with
        | true => exact Or.inl rfl
        | false =>
          refine Or.inr ⟨?_, rfl⟩
          by_cases hop : m.op = .checkNotExists
          · exact hop
          · exfalso
            rcases ha.cov hr m hm hop with ⟨l, h3, _⟩ | ⟨h3, _⟩
            · have : (m.key, l) ∈ (prewriteBatch a).putLock := by
                simp only [prewriteBatch, List.mem_append, List.mem_map]
                rcases h3 with h3 | h3
                · exact Or.inl h3
                · exact Or.inr ⟨_, h3, rfl⟩
              exact CF.lastPut_none.1 hlp _ this rfl
            · rw [h2] at h3; cases h3
    have hex : ∃ m ∈ r.mutations, prewriteLockCheck (st.apply (prewriteBatch a)) r m = .pass true := by
      rcases hpl : (prewriteBatch a).putLock with _ | ⟨e, es⟩
      · exact absurd hpl hemp
      · obtain ⟨m, hm, hk, _⟩ := hput e.1 e.2 (by rw [hpl]; exact List.mem_cons_self)
        refine ⟨m, hm, ?_⟩
        cases hlp : CF.lastPut (prewriteBatch a).putLock m.key with
        | some l => exact hent m l hlp
        | none => exact absurd hk (CF.lastPut_none.1 hlp e (by rw [hpl]; exact List.mem_cons_self))
    obtain ⟨a', h1, h2, h3⟩ := prewriteLoop_retry hs r.mutations hp
      (a := { tryOnePc := r.tryOnePc, async := decide (r.secondaries ≠ []) }) ⟨rfl, rfl, rfl, rfl, rfl⟩
    obtain ⟨h4, h5⟩ := h3 (Or.inr hex)
    generalize st.apply (prewriteBatch a) = S at h1
    have hb : prewriteBatch a' = {} := by simp only [prewriteBatch, h2.data, h2.locks, h2.onePc]; rfl
    simp only [prewrite, h1, h2.results, h2.exist, h4, h5, hb, ne_eq, not_true, if_false, Bool.false_eq_true]
    rfl

theorem prewriteLoop_ne_cont {st : State} {r : PrewriteReq} (ms : List Mut) (a b : PwAcc) :
    prewriteLoop st r ms a ≠ .cont b := by
  induction ms generalizing a with
  | nil => intro hh; simp [prewriteLoop] at hh
  | cons m ms ih =>
    intro hh
    simp only [prewriteLoop] at hh
    split at hh
    · exact ih _ hh
    · rename_i hno; exact hno b hh

/-- A prewrite with complaints writes nothing. -/
theorem prewrite_complaint {st : State} {r : PrewriteReq}
    (h : ∀ resp, (prewrite st r).2 = .ok resp → ¬ (resp.results = [] ∧ resp.exist = [])) : (prewrite st r).1 = st := by
  simp only [prewrite] at h ⊢
  cases hx : prewriteLoop st r r.mutations { tryOnePc := r.tryOnePc, async := decide (r.secondaries ≠ []) } with
  | err e => rfl
  | fatal => rfl
  | ret a t => rfl
  | cont a => exact absurd hx (prewriteLoop_ne_cont _ _ _)
  | brk a =>
    rw [hx] at h
    simp only at h ⊢
    by_cases h1 : a.results ≠ []
    · rw [if_pos h1]
    · rw [if_neg h1] at h ⊢
      by_cases h2 : a.exist ≠ []
      · rw [if_pos h2]
      · rw [if_neg h2] at h ⊢
        exfalso
        split at h
        · exact h _ rfl ⟨by simpa using h1, by simpa using h2⟩
        · exact h _ rfl ⟨by simpa using h1, by simpa using h2⟩

/-- The cases of a prewrite without complaints. -/
theorem prewrite_cases {st : State} (hI : Inv st) {r : PrewriteReq} (hv : (Req.prewrite r).Valid) {resp : PrewriteResp}
    (hok : (prewrite st r).2 = .ok resp) (hr : resp.results = []) (he : resp.exist = []) (h1 : resp.onePcTs = 0) :
    (prewrite st r).1 = st ∨ ∃ a, prewriteLoop st r r.mutations
        { tryOnePc := r.tryOnePc, async := decide (r.secondaries ≠ []) } = .brk a ∧ AccOk st r r.mutations a ∧
      a.results = [] ∧ a.exist = [] ∧ prewrite st r = (st.apply (prewriteBatch a), .ok resp) := by
  have hgood := prewriteLoop_ok hI hv.1 hv.2.1 hv.2.2.1 r.mutations []
    (AccOk.nil st r r.tryOnePc (decide (r.secondaries ≠ [])))
  simp only [prewrite] at hok ⊢
  cases hx : prewriteLoop st r r.mutations { tryOnePc := r.tryOnePc, async := decide (r.secondaries ≠ []) } with
  | err e => exact Or.inl rfl
  | fatal => exact Or.inl rfl
  | ret a t => exact Or.inl rfl
  | cont a => exact absurd hx (prewriteLoop_ne_cont _ _ _)
  | brk a =>
    rw [hx] at hgood hok
    simp only [PwStep.Good, List.nil_append] at hgood hok ⊢
    by_cases hra : a.results ≠ []
    · rw [if_pos hra]; exact Or.inl rfl
    · have hra' : a.results = [] := by simpa using hra
      rw [if_neg hra] at hok ⊢
      by_cases hea : a.exist ≠ []
      · rw [if_pos hea]; exact Or.inl rfl
      · have hea' : a.exist = [] := by simpa using hea
        rw [if_neg hea] at hok ⊢
        have hacc : AccOk st r r.mutations a := by
          rcases hgood with hg | hg | hg
          · exact hg
          · exact absurd hra' hg
          · exact absurd hea' hg
        by_cases ht : a.tryOnePc = true
        · rw [if_pos ht] at hok ⊢
          left
          simp only [Out.ok.injEq] at hok
          subst hok
          simp only at h1
          have h2 : a.onePc = [] := by
            rcases ho : a.onePc with _ | ⟨e, es⟩
            · rfl
            · have hm : e ∈ a.onePc := by rw [ho]; exact List.mem_cons_self
              have h3 := hacc.final ht e hm
              obtain ⟨_, _, _, _, _, _, _, _, h4⟩ := hacc.onePc e hm
              have := hv.1.1
              omega
          have h3 : a.data = [] := by
            rcases hda : a.data with _ | ⟨e, es⟩
            · rfl
            · obtain ⟨m, _, _, _, _, l, h, _⟩ := hacc.data e (by rw [hda]; exact List.mem_cons_self)
              rw [h2, hacc.noLocks ht] at h
              simp at h
          have : onePcBatch r.startTs a.finalMin a = {} := by
            simp only [onePcBatch, h2, h3, onePcWrites]; rfl
          rw [this]; rfl
        · rw [if_neg ht] at hok ⊢
          right
          refine ⟨a, rfl, hacc, hra', hea', ?_⟩
          rw [← hok]

/-- C14: when a Prewrite has left locks (or nothing), repeating it changes nothing more
and succeeds again; only `min_commit_ts` of the answer can be 0 the second time. -/
theorem C14_prewrite_partial {st : State} (hst : ValidReachable st)
    {q : PrewriteReq} (hv : (Req.prewrite q).Valid) (hmax : q.startTs < maxVer)
    (h1 : ∀ resp, (step st (.prewrite q)).2 = .prewrite (.ok resp) → resp.onePcTs = 0) :
    RetrySame st (.prewrite q) ∨
    ∃ resp, (step st (.prewrite q)).2 = .prewrite (.ok resp) ∧ resp.results = [] ∧ resp.exist = [] ∧
      step (step st (.prewrite q)).1 (.prewrite q) =
        ((step st (.prewrite q)).1, .prewrite (.ok { resp with minCommitTs := 0 })) := by
  have hI : Inv st := hst.inv
  by_cases hsame : (prewrite st q).1 = st
  · exact Or.inl (retry_of_same hsame)
  · cases ho : (prewrite st q).2 with
    | err e => exact absurd (prewrite_complaint (by rw [ho]; intro r hr; cases hr)) hsame
    | fatal => exact absurd (prewrite_complaint (by rw [ho]; intro r hr; cases hr)) hsame
    | ok resp =>
      have hr : resp.results = [] ∧ resp.exist = [] := by
        apply Classical.byContradiction
        intro hn
        refine hsame (prewrite_complaint (fun resp' h' => ?_))
        rw [ho] at h'; cases h'; exact hn
      have h1' : resp.onePcTs = 0 := h1 resp (by simp only [step, ho])
      rcases prewrite_cases hI hv ho hr.1 hr.2 h1' with h2 | ⟨a, h2, h3, h4, h5, h6⟩
      · exact absurd h2 hsame
      · right
        rw [h6] at hsame
        rcases prewrite_twice hv.2.1 hmax h2 h3 h4 h5 with h7 | h7
        · exact absurd h7 hsame
        · refine ⟨resp, by simp only [step, ho], hr.1, hr.2, ?_⟩
          simp only [step, h6, h7]
          rw [hr.1, hr.2, h1']

/-- C14: a Prewrite without one-phase or asynchronous commit is answered the second
time exactly as the first time. -/
theorem C14_prewrite_plain {st : State} (hst : ValidReachable st)
    {q : PrewriteReq} (hv : (Req.prewrite q).Valid) (hmax : q.startTs < maxVer)
    (h1 : ∀ resp, (step st (.prewrite q)).2 = .prewrite (.ok resp) → resp.onePcTs = 0 ∧ resp.minCommitTs = 0) :
    RetrySame st (.prewrite q) := by
  rcases C14_prewrite_partial hst hv hmax (fun resp h => (h1 resp h).1) with h | ⟨resp, a1, a2, a3, a4⟩
  · exact h
  · unfold RetrySame
    have := (h1 resp a1).2
    have hstep : step st (.prewrite q) = ((step st (.prewrite q)).1, .prewrite (.ok resp)) := by rw [← a1]
    rw [a4, ← this]
    exact hstep.symm

theorem committedLoop_complete {s : Int} {k : Bytes} {l : List (VKey × WriteInfo)} {mx : Int} (hasc : Asc l)
    (hge : ∀ e ∈ l, ¬ e.1 < ⟨k, mx⟩) {w : WriteInfo} {t : Int} (hm : ((⟨k, t⟩ : VKey), w) ∈ l) (hst : s ≤ t)
    (hws : w.startTs = s) (hop : w.op ≠ .rollback)
    (hun : ∀ t' w', ((⟨k, t'⟩ : VKey), w') ∈ l → w'.startTs = s → t' = t) :
    committedLoop s k l = some (w, t) := by
  induction l with
  | nil => cases hm
  | cons e l ih =>
    obtain ⟨vk, w0⟩ := e
    have hx := List.pairwise_cons.1 hasc
    rw [committedLoop]
    have hle : ¬ (⟨k, s⟩ : VKey) < vk := by
      intro hlt
      rcases List.mem_cons.1 hm with h | h
      · have : vk = ⟨k, t⟩ := (congrArg Prod.fst h).symm
        rw [this, vkey_lt_same] at hlt
        omega
      · have := KeyOrder.trans hlt (hx.1 _ h)
        rw [vkey_lt_same] at this
        omega
    rw [if_neg hle]
    by_cases hw0 : w0.startTs = s
    · have hkey : vk.key = k := by
        have h2 : vk < ⟨k, s - 1⟩ := by
          rcases KeyOrder.tri (⟨k, s⟩ : VKey) vk with h | h | h
          · exact absurd h hle
          · rw [← h, vkey_lt_same]; omega
          · exact KeyOrder.trans h (vkey_lt_same.2 (by omega))
        exact (vkey_range (hge _ List.mem_cons_self) h2).1
      have hvk : vk = ⟨k, vk.ts⟩ := by rw [← hkey]
      have hts : vk.ts = t := hun vk.ts w0 (by rw [← hvk]; exact List.mem_cons_self) hw0
      have hwe : w = w0 := by
        rcases List.mem_cons.1 hm with h | h
        · exact congrArg Prod.snd h
        · have := hx.1 _ h
          simp only at this
          rw [hvk, hts, vkey_lt_same] at this
          omega
      rw [if_neg (by simpa using hw0), if_neg (by rw [← hwe]; exact hop), hts, hwe]
    · rw [if_pos hw0]
      refine ih hx.2 (fun e he => hge e (List.mem_cons_of_mem _ he)) ?_
        (fun t' w' h => hun t' w' (List.mem_cons_of_mem _ h))
      rcases List.mem_cons.1 hm with h | h
      · have hwe : w = w0 := congrArg Prod.snd h
        exact absurd (by rw [← hwe]; exact hws) hw0
      · exact h

theorem checkCommitted_of {D : Bytes → TsOwner} {st : State} (h : Good D st) {k : Bytes} {s c : Int}
    {w : WriteInfo} (hw : st.write.get ⟨k, c⟩ = some w) (hws : w.startTs = s) (hop : w.committed) :
    checkCommitted st s k = some (w, c) := by
  have hnr : w.op ≠ .rollback := by rcases hop with h | h <;> rw [h] <;> decide
  have hlt : s < c ∧ c ≤ maxVer := by
    obtain ⟨_, h2, h3⟩ := (h.inv k).write c w hw
    rcases h3 with h3 | h3
    · exact absurd h3.1 hnr
    · exact ⟨by omega, h2⟩
  refine committedLoop_complete (mx := maxVer) (CF.asc_seek st.write ⟨k, maxVer⟩)
    (fun e he => ((CF.mem_seek _ _ _).1 he).2) ((mem_seek_get _ _ _ _ _).2 ⟨hw, hlt.2⟩) (by omega) hws hnr ?_
  intro t' w' hm hs'
  exact (h.dinv k).unique t' c w' w ((mem_seek_get _ _ _ _ _).1 hm).1 hw (by rw [hs', hws])

/-- C14: a Prewrite that arrives when the transaction is already committed on its first
key (a late retry, or the retry of a one-phase commit) succeeds, reports the commit
timestamp and changes nothing, for a first key without a pessimistic lock. -/
theorem C14_prewrite_committed_partial {D : Bytes → TsOwner} {st : State} (h : GcReachable D st) {q : PrewriteReq} {m : Mut}
    {ms : List Mut} (hm : q.mutations = m :: ms) (hp : m.pess = false) {c : Int}
    (hc : CommittedOn st m.key q.startTs c) :
    step st (.prewrite q) = (st, .prewrite (.ok {
      minCommitTs := if q.secondaries ≠ [] then c else 0, onePcTs := if q.tryOnePc then c else 0 })) := by
  obtain ⟨w, h1, h2, h3⟩ := committedOn_iff.1 hc
  have hw : st.write.get ⟨m.key, c⟩ = some w := h1
  have hcc := checkCommitted_of h.good hw h2 h3
  obtain ⟨hpos, hcmax, hrec⟩ := (h.good.inv m.key).write c w hw
  have hnr : w.op ≠ .rollback := by rcases h3 with h | h <;> rw [h] <;> decide
  have hlt : q.startTs < c := by
    rcases hrec with h4 | h4
    · exact absurd h4.1 hnr
    · omega
  have hone : ∀ a, prewriteOne st q m a = .ret a c := by
    intro a
    have hlock : prewriteLockCheck st q m = .committed c ∨ prewriteLockCheck st q m = .pass false := by
      rcases getLock_cases h.good.inv m.key with ⟨_, h5⟩ | ⟨h5, h6⟩
      · right
        simp only [prewriteLockCheck, hp, h5]
        rfl
      · left
        have hne : (getLock st m.key).lockTs ≠ q.startTs := by
          intro he
          exact ((h.good.dinv m.key).lock _ h5).2.1 c w h1 h3 (by rw [he, h2])
        simp only [prewriteLockCheck, hp, hcc, if_true, h6.primary, ne_eq, not_false_eq_true, hne, if_false, ite_self]
    rcases hlock with h5 | h5
    · simp only [prewriteOne, h5]
    · simp only [prewriteOne, h5]
      rcases getRollback_spec h.good.inv q.startTs m.key with ⟨h6, w', a1, a2, a3⟩ | ⟨h6, _⟩
      · have := (h.good.dinv m.key).unique c q.startTs w w' h1 a1 (by rw [h2, a2])
        omega
      · rw [h6]
        simp only
        rw [if_pos, hcc]
        refine ⟨?_, hp⟩
        cases hg : getWriteInfo st 0 maxVer 0 m.key false true true with
        | none =>
          have := getWriteInfo_none hg c w hpos hcmax hw
          rw [wiMatch_all.2 h3] at this; cases this
        | some x =>
          obtain ⟨w', t⟩ := x
          obtain ⟨_, _, _, _, h5⟩ := getWriteInfo_some hg
          simp only [ctsOf]
          by_cases hct : t < c
          · have := h5 c w hct hcmax hw
            rw [wiMatch_all.2 h3] at this; cases this
          · omega
  simp only [step, prewrite, hm, prewriteLoop, hone]
  by_cases hs : q.secondaries = [] <;> simp [hs]

theorem finishLock_flags {st : State} {r : PrewriteReq} {m : Mut} {l : LockInfo} {a a' : PwAcc} {f : Int}
    (h : finishLock st r m l a = some (a', f)) (ht : a'.tryOnePc = true) : a.tryOnePc = true ∧ a'.async = a.async := by
  simp only [finishLock] at h
  split at h
  · split at h
    · cases h
    · split at h
      · simp only [Option.some.injEq, Prod.mk.injEq] at h; rw [← h.1] at ht; cases ht
      · split at h
        · simp only [Option.some.injEq, Prod.mk.injEq] at h; rw [← h.1] at ht ⊢; exact ⟨ht, rfl⟩
        · simp only [Option.some.injEq, Prod.mk.injEq] at h; rw [← h.1] at ht ⊢; exact ⟨ht, rfl⟩
  · simp only [Option.some.injEq, Prod.mk.injEq] at h; rw [← h.1] at ht ⊢; exact ⟨ht, rfl⟩

theorem genPut_flags {st : State} {r : PrewriteReq} {m : Mut} {l : LockInfo} {a a' : PwAcc} {f : Int}
    (h : genPut st r m l a = .ok (a', f)) (ht : a'.tryOnePc = true) : a.tryOnePc = true ∧ a'.async = a.async := by
  simp only [genPut] at h
  split at h
  · cases h
  · split at h
    · cases h
    · rename_i x hx
      simp only [Out.ok.injEq] at h
      subst h
      obtain ⟨h1, h2⟩ := finishLock_flags hx ht
      rw [h2]
      split at h1
      · rename_i hl; rw [if_pos hl]; exact ⟨h1, rfl⟩
      · rename_i hl; rw [if_neg hl]; exact ⟨h1, rfl⟩

theorem genPrewrite_flags {st : State} {r : PrewriteReq} {m : Mut} {l : LockInfo} {w : WriteInfo} {a a' : PwAcc}
    {f : Int} (h : genPrewrite st r m l w a = .ok (a', f)) (ht : a'.tryOnePc = true) :
    a.tryOnePc = true ∧ a'.async = a.async := by
  have hfin : ∀ l, (match finishLock st r m l a with
      | none => Out.fatal
      | some x => .ok x) = .ok (a', f) → a.tryOnePc = true ∧ a'.async = a.async := by
    intro l hl
    split at hl
    · cases hl
    · rename_i x hx
      simp only [Out.ok.injEq] at hl
      subst hl
      exact finishLock_flags hx ht
  simp only [genPrewrite] at h
  split at h
  · exact genPut_flags h ht
  · split at h
    · exact hfin _ h
    · exact genPut_flags h ht
  · split at h
    · split at h
      · cases h
      · simp only [Out.ok.injEq, Prod.mk.injEq] at h; rw [← h.1] at ht ⊢; exact ⟨ht, rfl⟩
    · simp only [Out.ok.injEq, Prod.mk.injEq] at h; rw [← h.1] at ht ⊢; exact ⟨ht, rfl⟩
  · exact hfin _ h
  · cases h

theorem prewriteOne_flags {st : State} {r : PrewriteReq} {m : Mut} {a a' : PwAcc}
    (h : prewriteOne st r m a = .cont a' ∨ prewriteOne st r m a = .brk a') (ht : a'.tryOnePc = true) :
    a.tryOnePc = true ∧ a'.async = a.async := by
  simp only [prewriteOne] at h
  split at h
  · rcases h with h | h <;> cases h
  · rcases h with h | h
    · simp only [PwStep.cont.injEq] at h; subst h; exact ⟨ht, rfl⟩
    · cases h
  · split at h
    · rcases h with h | h <;> cases h
    · rcases h with h | h <;> cases h
    · rcases h with h | h
      · cases h
      · simp only [PwStep.brk.injEq] at h; subst h; exact ⟨ht, rfl⟩
    · split at h
      · split at h
        · rcases h with h | h <;> cases h
        · rcases h with h | h
          · cases h
          · simp only [PwStep.brk.injEq] at h; subst h; exact ⟨ht, rfl⟩
      · split at h
        · rcases h with h | h
          · cases h
          · simp only [PwStep.brk.injEq] at h; subst h; exact ⟨ht, rfl⟩
        · split at h
          · rcases h with h | h <;> cases h
          · generalize hb : (if m.op = .checkNotExists ∧ (wiOf (getWriteInfo st 0 maxVer 0 m.key false true true)).op = .put then
                  { a with exist := a.exist ++ [m.key] } else a) = b at h
            have hab : b.tryOnePc = a.tryOnePc ∧ b.async = a.async := by
              rw [← hb]; split <;> exact ⟨rfl, rfl⟩
            rw [← hab.1, ← hab.2]
            split at h
            · rcases h with h | h
              · simp only [PwStep.cont.injEq] at h; subst h; cases ht
              · cases h
            · split at h
              · rcases h with h | h <;> cases h
              · rcases h with h | h <;> cases h
              · rename_i a2 f hg
                split at h
                · rcases h with h | h
                  · simp only [PwStep.cont.injEq] at h; subst h; have hgf := genPrewrite_flags hg ht; exact hgf
                  · cases h
                · rcases h with h | h
                  · simp only [PwStep.cont.injEq] at h; subst h; have hgf := genPrewrite_flags hg ht; exact hgf
                  · cases h

theorem prewriteLoop_flags {st : State} {r : PrewriteReq} (ms : List Mut) {a a' : PwAcc}
    (h : prewriteLoop st r ms a = .brk a') (ht : a'.tryOnePc = true) : a.tryOnePc = true ∧ a'.async = a.async := by
  induction ms generalizing a with
  | nil =>
    simp only [prewriteLoop, PwStep.brk.injEq] at h
    subst h
    exact ⟨ht, rfl⟩
  | cons m ms ih =>
    simp only [prewriteLoop] at h
    split at h
    · rename_i a1 h1
      obtain ⟨i1, i2⟩ := ih h
      obtain ⟨j1, j2⟩ := prewriteOne_flags (Or.inl h1) i1
      exact ⟨j1, i2.trans j2⟩
    · exact prewriteOne_flags (Or.inr h) ht

/-- A one-phase commit that has happened. -/
theorem prewrite_onePc {st : State} (hI : Inv st) {r : PrewriteReq} (hv : (Req.prewrite r).Valid) {resp : PrewriteResp}
    (hok : (prewrite st r).2 = .ok resp) (hr : resp.results = []) (he : resp.exist = []) (h1 : resp.onePcTs ≠ 0)
    (hno : ∀ m ∈ r.mutations, ∀ c, ¬ CommittedOn st m.key r.startTs c) :
    ∃ a, AccOk st r r.mutations a ∧ a.results = [] ∧ a.tryOnePc = true ∧ r.tryOnePc = true ∧
      (prewrite st r).1 = st.apply (onePcBatch r.startTs a.finalMin a) ∧
      resp = { minCommitTs := if r.secondaries ≠ [] then a.finalMin else 0, onePcTs := a.finalMin } := by
  have hgood := prewriteLoop_ok hI hv.1 hv.2.1 hv.2.2.1 r.mutations []
    (AccOk.nil st r r.tryOnePc (decide (r.secondaries ≠ [])))
  simp only [prewrite] at hok ⊢
  cases hx : prewriteLoop st r r.mutations { tryOnePc := r.tryOnePc, async := decide (r.secondaries ≠ []) } with
  | err e => rw [hx] at hok; cases hok
  | fatal => rw [hx] at hok; cases hok
  | ret a t =>
    exfalso
    obtain ⟨m, hm, w, h2⟩ := prewriteLoop_ret _ hx
    obtain ⟨_, h4, h5, h6⟩ := checkCommitted_some h2
    refine hno m hm t (committedOn_iff.2 ⟨w, h4, h5, ?_⟩)
    rcases ((hI m.key).write t w h4).2.2 with h7 | h7
    · exact absurd h7.1 h6
    · exact h7.1
  | cont a => exact absurd hx (prewriteLoop_ne_cont _ _ _)
  | brk a =>
    rw [hx] at hgood hok
    simp only [PwStep.Good, List.nil_append] at hgood hok ⊢
    by_cases hra : a.results ≠ []
    · rw [if_pos hra] at hok
      simp only [Out.ok.injEq] at hok; subst hok; exact absurd hr hra
    · have hra' : a.results = [] := by simpa using hra
      rw [if_neg hra] at hok ⊢
      by_cases hea : a.exist ≠ []
      · rw [if_pos hea] at hok
        simp only [Out.ok.injEq] at hok; subst hok; exact absurd he hea
      · have hea' : a.exist = [] := by simpa using hea
        rw [if_neg hea] at hok ⊢
        have hacc : AccOk st r r.mutations a := by
          rcases hgood with hg | hg | hg
          · exact hg
          · exact absurd hra' hg
          · exact absurd hea' hg
        by_cases ht : a.tryOnePc = true
        · rw [if_pos ht] at hok ⊢
          simp only [Out.ok.injEq] at hok
          obtain ⟨h2, h3⟩ := prewriteLoop_flags _ hx ht
          refine ⟨a, hacc, hra', ht, h2, rfl, ?_⟩
          rw [← hok, hra', hea', h3]
          simp only [decide_eq_true_eq]
        · rw [if_neg ht] at hok
          simp only [Out.ok.injEq] at hok; subst hok; exact absurd rfl h1

/-- C14, one-phase commit: after a Prewrite that committed in one phase, the repeated
request reports the same commit timestamp and changes nothing, whatever happened in
between.  (Requests whose first mutation is an optimistic write.) -/
theorem C14_onePc_partial {D : Bytes → TsOwner} {st : State} (h : GcReachable D st) {q : PrewriteReq} {m : Mut}
    {ms : List Mut} (hv : (Req.prewrite q).Valid) (hd : (Req.prewrite q).Disc D st) (hm : q.mutations = m :: ms)
    (hp : m.pess = false) (hop : m.op ≠ .checkNotExists) {resp : PrewriteResp}
    (hok : (step st (.prewrite q)).2 = .prewrite (.ok resp)) (hr : resp.results = []) (he : resp.exist = [])
    (hone : resp.onePcTs ≠ 0) (hno : ∀ m ∈ q.mutations, ∀ c, ¬ CommittedOn st m.key q.startTs c) {rs : List Req}
    (hrs : Disciplined D (step st (.prewrite q)).1 rs) :
    step (run (step st (.prewrite q)).1 rs) (.prewrite q) =
      (run (step st (.prewrite q)).1 rs, .prewrite (.ok resp)) := by
  have hg' := h.good.step hv hd
  have hreach : GcReachable D (run (step st (.prewrite q)).1 rs) := by
    have : run (step st (.prewrite q)).1 rs = run st (.prewrite q :: rs) := rfl
    rw [this]
    exact h.run ⟨hv, hd, hrs⟩
  have hok' : (prewrite st q).2 = .ok resp := by simpa only [step, Resp.prewrite.injEq] using hok
  obtain ⟨a, h1, h2, h3, h4, h5, h6⟩ := prewrite_onePc h.good.inv hv hok' hr he hone hno
  have hcom : CommittedOn (step st (.prewrite q)).1 m.key q.startTs a.finalMin := by
    have hmem : m ∈ q.mutations := by rw [hm]; exact List.mem_cons_self
    rcases h1.cov h2 m hmem hop with ⟨l, hl, hent⟩ | ⟨_, hf, _⟩
    · have hl : (m.key, m.value, l, m.pess) ∈ a.onePc := by
        rcases hl with hl | hl
        · rw [h1.noLocks h3] at hl; cases hl
        · exact hl
      have hb5 : ∀ x ∈ a.onePc, x.2.2.1.type = .put ∨ x.2.2.1.type = .delete := by
        intro x hx
        obtain ⟨_, _, _, _, _, b5, _⟩ := h1.onePc x hx
        rcases b5.op with ⟨_, h2, _⟩ | ⟨_, h2, _⟩
        · exact Or.inl h2
        · exact Or.inr h2
      have hne : ∀ x ∈ a.onePc, x.2.2.1.type ≠ .putIfAbsent := by
        intro x hx; rcases hb5 x hx with h | h <;> rw [h] <;> decide
      refine committedOn_iff.2 ?_
      simp only [step, view]
      rw [h5, write_apply]
      cases hlp : CF.lastPut (onePcBatch q.startTs a.finalMin a).putWrite ⟨m.key, a.finalMin⟩ with
      | none =>
        exact absurd rfl (CF.lastPut_none.1 hlp (⟨m.key, a.finalMin⟩, _) (mem_onePcWrites.2 ⟨_, hl, hne _ hl, rfl⟩))
      | some w =>
        obtain ⟨x, hx, _, hx2⟩ := mem_onePcWrites.1 (CF.lastPut_mem hlp)
        simp only [Prod.mk.injEq] at hx2
        refine ⟨w, rfl, by rw [hx2.2], ?_⟩
        rw [hx2.2]
        exact hb5 x hx
    · rw [h3] at hf; cases hf
  have hcom' : CommittedOn (run (step st (.prewrite q)).1 rs) m.key q.startTs a.finalMin := by
    obtain ⟨w, b1, b2, b3⟩ := committedOn_iff.1 hcom
    exact committedOn_iff.2 ⟨w, run_keep hg' hrs b1, b2, b3⟩
  rw [C14_prewrite_committed_partial hreach hm hp hcom', h6, h4]
  rfl

/-! ### Negations for Prewrite -/

/-- C14: the repetition of an asynchronous-commit Prewrite is answered with
`min_commit_ts` 0 although the locks carry one. -/
theorem C14_async_false : ∃ q : PrewriteReq, (Req.prewrite q).Valid ∧
    (step State.init (.prewrite q)).2 = .prewrite (.ok { minCommitTs := 11 }) ∧
    (step (step State.init (.prewrite q)).1 (.prewrite q)).2 = .prewrite (.ok { minCommitTs := 0 }) := by
  refine ⟨{ mutations := [{ op := .put, key := kA, value := vA }, { op := .put, key := kB, value := vA }], primary := kA,
            startTs := 10, secondaries := [kB] }, by decide, by decide +kernel, by decide +kernel⟩

/-- C14: a one-phase commit of a pessimistic transaction that is repeated commits a
second time, at a later timestamp. -/
theorem C14_onePc_false : ∃ rs : List Req, ∃ q : PrewriteReq, AllValid rs ∧ (Req.prewrite q).Valid ∧
    (step (run State.init rs) (.prewrite q)).2 = .prewrite (.ok { onePcTs := 13 }) ∧
    (step (run (step (run State.init rs) (.prewrite q)).1 [.get .si 40 [] [kA]]) (.prewrite q)).2 =
      .prewrite (.ok { onePcTs := 41 }) ∧
    CommittedOn (step (run (step (run State.init rs) (.prewrite q)).1 [.get .si 40 [] [kA]]) (.prewrite q)).1 kA 10 13 ∧
    CommittedOn (step (run (step (run State.init rs) (.prewrite q)).1 [.get .si 40 [] [kA]]) (.prewrite q)).1 kA 10 41 := by
  refine ⟨[.pessimisticLock ⟨[⟨.lock, kA, []⟩], kA, 10, 100, 12, false⟩],
    { mutations := [{ op := .put, key := kA, value := vA, pess := true, fuCheck := some 12 }], primary := kA,
      startTs := 10, tryOnePc := true }, by unfold AllValid; decide, by decide, by decide +kernel, by decide +kernel,
    ⟨⟨10, .put, vA⟩, by decide +kernel, rfl, Or.inl rfl⟩, ⟨⟨10, .put, vA⟩, by decide +kernel, rfl, Or.inl rfl⟩⟩

/-! ### The hypotheses are met -/

/-- C14, hypotheses met: the repeated requests of the sample history change the store
the first time they are handled. -/
example : AllValid sampleHist ∧ sampleState = run State.init sampleHist ∧
    (Req.prewrite c17Req).Valid ∧ c17Req.startTs < maxVer ∧
    (step sampleState (.prewrite c17Req)).2 = .prewrite (.ok {}) ∧ (step sampleState (.prewrite c17Req)).1 ≠ sampleState ∧
    (step sampleState (.batchRollback 50 [[9]])).2 = .basic (.ok none) ∧
    (step sampleState (.batchRollback 50 [[9]])).1 ≠ sampleState ∧
    (step (step sampleState (.prewrite c17Req)).1 (.resolveLock 50 55 [kA, [2]])).2 = .basic (.ok none) ∧
    (step (step sampleState (.prewrite c17Req)).1 (.commit 50 55 [kA, [2]])).2 = .basic (.ok none) := by
  refine ⟨by unfold AllValid; decide, rfl, by decide, by decide, by decide +kernel, by decide +kernel, by decide +kernel,
    by decide +kernel, by decide +kernel, by decide +kernel⟩

/-- A one-phase commit of a long value. -/
def c14OnePc : PrewriteReq :=
  { mutations := [{ op := .put, key := [9], value := vLong }], primary := [9], startTs := 50, tryOnePc := true }

/-- C14, hypotheses of the one-phase theorem met. -/
example : ∃ q : PrewriteReq, ∃ resp, (Req.prewrite q).Valid ∧ (Req.prewrite q).Disc sampleRoles.spec sampleState ∧
    (step sampleState (.prewrite q)).2 = .prewrite (.ok resp) ∧ resp.results = [] ∧ resp.exist = [] ∧ resp.onePcTs ≠ 0 ∧
    (∀ m ∈ q.mutations, ∀ c, ¬ CommittedOn sampleState m.key q.startTs c) := by
  refine ⟨c14OnePc, { onePcTs := 51 }, by decide, ?_, by decide +kernel, rfl, rfl, by decide, ?_⟩
  · have hd : Disciplined sampleRoles.spec sampleState [.prewrite c14OnePc] := disciplinedB_sound (by decide +kernel)
    exact hd.2.1
  · intro m hm c hc
    have hno : ∀ e ∈ sampleState.write.l, e.2.startTs ≠ 50 := by decide +kernel
    obtain ⟨w, h1, h2, _⟩ := hc
    exact hno _ h1 h2

end Verif.Txn
