import Verif.Txn.PropsRetry

/-! # Pessimistic prewrite and rollback: properties C50 and C51 -/

namespace Verif.Txn
open Verif.Codec

/-- C50: a Prewrite that expects `for_update_ts = f` on a key, while the transaction's
lock there carries another one, changes nothing; and it does not report success unless
the transaction is already committed on one of the keys. -/
theorem C50_lock_changed {st : State} (hst : ValidReachable st)
    {q : PrewriteReq} {m : Mut} (hm : m ∈ q.mutations) (hp : m.pess = true) {f : Int}
    (hf : m.fuCheck = some f) {l : LockInfo} (hl : LockOn st m.key l) (hlt : l.type = .lock) (hne : l.forUpdateTs ≠ f) :
    (step st (.prewrite q)).1 = st ∧
    ∀ resp, (step st (.prewrite q)).2 = .prewrite (.ok resp) → resp.results = [] → resp.exist = [] →
      ∃ m' ∈ q.mutations, ∃ c, CommittedOn st m'.key q.startTs c := by
  have hI : Inv st := hst.inv
  have hget := getLock_of_some (lockOn_iff.1 hl)
  have hok := (hI m.key).lock l (lockOn_iff.1 hl)
  have hnot : ∀ b, prewriteLockCheck st q m ≠ .pass b := by
    intro b
    simp only [prewriteLockCheck, hget, hp, hf]
    simp only [Bool.true_eq_false, if_false, ne_eq, hok.primary, not_false_eq_true, if_true, hlt, not_true, hne]
    split
    · simp
    · split <;> simp
  simp only [step, Resp.prewrite.injEq]
  have hbrk : ∀ a, prewriteLoop st q q.mutations { tryOnePc := q.tryOnePc, async := decide (q.secondaries ≠ []) } = .brk a →
      ¬ (a.results = [] ∧ a.exist = []) := by
    rintro a ha ⟨h1, h2⟩
    obtain ⟨_, b, hb⟩ := (prewriteLoop_pass _ ha h1 h2).2.2 m hm
    exact hnot b hb
  simp only [prewrite]
  cases hx : prewriteLoop st q q.mutations { tryOnePc := q.tryOnePc, async := decide (q.secondaries ≠ []) } with
  | err e => exact ⟨rfl, fun resp h => by cases h⟩
  | fatal => exact ⟨rfl, fun resp h => by cases h⟩
  | ret a t =>
    refine ⟨rfl, fun resp _ _ _ => ?_⟩
    obtain ⟨m', hm', w, h2⟩ := prewriteLoop_ret _ hx
    obtain ⟨_, h4, h5, h6⟩ := checkCommitted_some h2
    refine ⟨m', hm', t, committedOn_iff.2 ⟨w, h4, h5, ?_⟩⟩
    rcases ((hI m'.key).write t w h4).2.2 with h7 | h7
    · exact absurd h7.1 h6
    · exact h7.1
  | cont a => exact absurd hx (prewriteLoop_ne_cont _ _ _)
  | brk a =>
    have hb := hbrk a hx
    simp only
    by_cases hra : a.results ≠ []
    · rw [if_pos hra]
      refine ⟨rfl, fun resp h hr he => ?_⟩
      simp only [Out.ok.injEq] at h; subst h; exact absurd hr hra
    · rw [if_neg hra]
      by_cases hea : a.exist ≠ []
      · rw [if_pos hea]
        refine ⟨rfl, fun resp h hr he => ?_⟩
        simp only [Out.ok.injEq] at h; subst h; exact absurd he hea
      · exact absurd ⟨by simpa using hra, by simpa using hea⟩ hb

/-- C50: likewise when the key is locked by another transaction. -/
theorem C50_foreign_lock {st : State} (hst : ValidReachable st)
    {q : PrewriteReq} {m : Mut} (hm : m ∈ q.mutations) {l : LockInfo} (hl : LockOn st m.key l)
    (hne : l.lockTs ≠ q.startTs) :
    (step st (.prewrite q)).1 = st ∧
    ∀ resp, (step st (.prewrite q)).2 = .prewrite (.ok resp) → resp.results = [] → resp.exist = [] →
      ∃ m' ∈ q.mutations, ∃ c, CommittedOn st m'.key q.startTs c := by
  have hI : Inv st := hst.inv
  have hget := getLock_of_some (lockOn_iff.1 hl)
  have hok := (hI m.key).lock l (lockOn_iff.1 hl)
  have hnot : ∀ b, prewriteLockCheck st q m ≠ .pass b := by
    intro b
    simp only [prewriteLockCheck, hget]
    simp only [ne_eq, hok.primary, not_false_eq_true, if_true, hne, if_false]
    intro h
    split at h
    · split at h <;> (split at h <;> cases h)
    · split at h <;> cases h
  simp only [step, Resp.prewrite.injEq]
  have hbrk : ∀ a, prewriteLoop st q q.mutations { tryOnePc := q.tryOnePc, async := decide (q.secondaries ≠ []) } = .brk a →
      ¬ (a.results = [] ∧ a.exist = []) := by
    rintro a ha ⟨h1, h2⟩
    obtain ⟨_, b, hb⟩ := (prewriteLoop_pass _ ha h1 h2).2.2 m hm
    exact hnot b hb
  simp only [prewrite]
  cases hx : prewriteLoop st q q.mutations { tryOnePc := q.tryOnePc, async := decide (q.secondaries ≠ []) } with
  | err e => exact ⟨rfl, fun resp h => by cases h⟩
  | fatal => exact ⟨rfl, fun resp h => by cases h⟩
  | ret a t =>
    refine ⟨rfl, fun resp _ _ _ => ?_⟩
    obtain ⟨m', hm', w, h2⟩ := prewriteLoop_ret _ hx
    obtain ⟨_, h4, h5, h6⟩ := checkCommitted_some h2
    refine ⟨m', hm', t, committedOn_iff.2 ⟨w, h4, h5, ?_⟩⟩
    rcases ((hI m'.key).write t w h4).2.2 with h7 | h7
    · exact absurd h7.1 h6
    · exact h7.1
  | cont a => exact absurd hx (prewriteLoop_ne_cont _ _ _)
  | brk a =>
    have hb := hbrk a hx
    simp only
    by_cases hra : a.results ≠ []
    · rw [if_pos hra]
      refine ⟨rfl, fun resp h hr he => ?_⟩
      simp only [Out.ok.injEq] at h; subst h; exact absurd hr hra
    · rw [if_neg hra]
      by_cases hea : a.exist ≠ []
      · rw [if_pos hea]
        refine ⟨rfl, fun resp h hr he => ?_⟩
        simp only [Out.ok.injEq] at h; subst h; exact absurd he hea
      · exact absurd ⟨by simpa using hra, by simpa using hea⟩ hb

/-- C50 does not extend to a lock that is gone: transaction 10 locks `kA`, the lock is
rolled back, transaction 20 commits a newer value, and the prewrite and commit of 10
still succeed, over the newer value. -/
theorem C50_lost_lock_false : ∃ rs : List Req, ∃ q : PrewriteReq, AllValid rs ∧ (Req.prewrite q).Valid ∧
    (∃ m ∈ q.mutations, m.key = kA ∧ m.pess = true ∧ m.fuCheck = some 12) ∧
    (¬ ∃ l, LockOn (run State.init rs) kA l) ∧ CommittedOn (run State.init rs) kA 20 25 ∧
    (step (run State.init rs) (.prewrite q)).2 = .prewrite (.ok {}) ∧
    (step (step (run State.init rs) (.prewrite q)).1 (.commit 10 30 [kA])).2 = .basic (.ok none) := by
  refine ⟨[.pessimisticLock ⟨[⟨.lock, kA, []⟩], kA, 10, 100, 12, false⟩, .pessimisticRollback 10 12 [kA],
    .prewrite { mutations := [{ op := .put, key := kA, value := vA }], primary := kA, startTs := 20 },
    .commit 20 25 [kA]],
    { mutations := [{ op := .put, key := kA, value := vA, pess := true, fuCheck := some 12 }], primary := kA,
      startTs := 10 }, by unfold AllValid; decide, by decide, ⟨_, List.mem_cons_self, rfl, rfl, rfl⟩, ?_,
    ⟨⟨20, .put, vA⟩, by decide +kernel, rfl, Or.inl rfl⟩, by decide +kernel, by decide +kernel⟩
  rw [← noLock_iff]
  decide +kernel

/-- C50, hypotheses met: the lock of transaction 10 was retaken with another
`for_update_ts`. -/
example : ∃ rs : List Req, ∃ l, AllValid rs ∧ LockOn (run State.init rs) kA l ∧ l.type = .lock ∧ l.forUpdateTs ≠ 12 ∧
    l.lockTs = 10 := by
  refine ⟨[.pessimisticLock ⟨[⟨.lock, kA, []⟩], kA, 10, 100, 12, false⟩,
    .pessimisticLock ⟨[⟨.lock, kA, []⟩], kA, 10, 100, 15, false⟩],
    { primary := kA, lockTs := 10, key := kA, ttl := 100, type := .lock, forUpdateTs := 15 },
    by unfold AllValid; decide, by decide +kernel, rfl, by decide, rfl⟩

/-! ## PessimisticRollback -/

/-- The lock PessimisticRollback may remove. -/
def OwnPess (s f : Int) (l : LockInfo) : Prop := l.lockTs = s ∧ l.type = .lock ∧ l.forUpdateTs ≤ f

theorem pessRollback_spec {st : State} (hI : Inv st) {s f : Int} (ks : List Bytes) (a : List TxnResult × List Bytes) :
    (∀ r ∈ (ks.foldl (fun a k => pessRollbackOne st s f k a) a).1, r ∈ a.1 ∨
      ∃ k ∈ ks, ∃ l, st.lock.get k = some l ∧ ¬ OwnPess s f l ∧ r = .locked l) ∧
    (∀ k ∈ (ks.foldl (fun a k => pessRollbackOne st s f k a) a).2, k ∈ a.2 ∨
      (k ∈ ks ∧ ∃ l, st.lock.get k = some l ∧ OwnPess s f l)) ∧
    (∀ r ∈ a.1, r ∈ (ks.foldl (fun a k => pessRollbackOne st s f k a) a).1) ∧
    ∀ k ∈ ks, ∀ l, st.lock.get k = some l → ¬ OwnPess s f l →
      .locked l ∈ (ks.foldl (fun a k => pessRollbackOne st s f k a) a).1 := by
  induction ks generalizing a with
  | nil => exact ⟨fun r h => Or.inl h, fun k h => Or.inl h, fun r h => h, by simp⟩
  | cons k ks ih =>
    simp only [List.foldl_cons]
    obtain ⟨i1, i2, i3, i4⟩ := ih (pessRollbackOne st s f k a)
    have hone : pessRollbackOne st s f k a = a ∧ st.lock.get k = none ∨
        (∃ l, st.lock.get k = some l ∧ OwnPess s f l ∧ pessRollbackOne st s f k a = (a.1, a.2 ++ [k])) ∨
        ∃ l, st.lock.get k = some l ∧ ¬ OwnPess s f l ∧ pessRollbackOne st s f k a = (a.1 ++ [.locked l], a.2) := by
      rcases getLock_cases hI k with ⟨h1, h2⟩ | ⟨h1, h2⟩
      · left; simp [pessRollbackOne, h2, h1]
      · right
        simp only [pessRollbackOne, OwnPess]
        rw [if_pos h2.primary]
        by_cases ht : (getLock st k).type = .lock
        · by_cases hts : (getLock st k).lockTs = s
          · by_cases hfu : (getLock st k).forUpdateTs ≤ f
            · left; exact ⟨_, h1, ⟨hts, ht, hfu⟩, by simp [ht, hts, hfu]⟩
            · right; exact ⟨_, h1, fun h => hfu h.2.2, by simp [ht, hts, hfu]⟩
          · right; exact ⟨_, h1, fun h => hts h.1, by simp [ht, hts]⟩
        · right; exact ⟨_, h1, fun h => ht h.2.1, by simp [ht]⟩
    rcases hone with ⟨h1, h0⟩ | ⟨l, h0, hown, h1⟩ | ⟨l, h0, hown, h1⟩
    · rw [h1] at i1 i2 i3 i4 ⊢
      refine ⟨fun r hr => ?_, fun k' hk' => ?_, i3, ?_⟩
      · rcases i1 r hr with h | ⟨k', hk', h⟩
        · exact Or.inl h
        · exact Or.inr ⟨k', List.mem_cons_of_mem _ hk', h⟩
      · rcases i2 k' hk' with h | ⟨h, h'⟩
        · exact Or.inl h
        · exact Or.inr ⟨List.mem_cons_of_mem _ h, h'⟩
      · intro k' hk' l hl hn
        rcases List.mem_cons.1 hk' with h | h
        · rw [h, h0] at hl; cases hl
        · exact i4 k' h l hl hn
    · rw [h1] at i1 i2 i3 i4 ⊢
      refine ⟨fun r hr => ?_, fun k' hk' => ?_, i3, ?_⟩
      · rcases i1 r hr with h | ⟨k', hk', h⟩
        · exact Or.inl h
        · exact Or.inr ⟨k', List.mem_cons_of_mem _ hk', h⟩
      · rcases i2 k' hk' with h | ⟨h, h'⟩
        · rcases List.mem_append.1 h with h | h
          · exact Or.inl h
          · rw [List.mem_singleton] at h
            subst h
            exact Or.inr ⟨List.mem_cons_self, l, h0, hown⟩
        · exact Or.inr ⟨List.mem_cons_of_mem _ h, h'⟩
      · intro k' hk' l' hl hn
        rcases List.mem_cons.1 hk' with h | h
        · rw [h, h0] at hl; cases hl; exact absurd hown hn
        · exact i4 k' h l' hl hn
    · rw [h1] at i1 i2 i3 i4 ⊢
      refine ⟨fun r hr => ?_, fun k' hk' => ?_, fun r hr => i3 r (List.mem_append_left _ hr), ?_⟩
      · rcases i1 r hr with h | ⟨k', hk', h⟩
        · rcases List.mem_append.1 h with h | h
          · exact Or.inl h
          · rw [List.mem_singleton] at h
            exact Or.inr ⟨k, List.mem_cons_self, l, h0, hown, h⟩
        · exact Or.inr ⟨k', List.mem_cons_of_mem _ hk', h⟩
      · rcases i2 k' hk' with h | ⟨h, h'⟩
        · exact Or.inl h
        · exact Or.inr ⟨List.mem_cons_of_mem _ h, h'⟩
      · intro k' hk' l' hl hn
        rcases List.mem_cons.1 hk' with h | h
        · rw [h, h0] at hl; cases hl; exact i3 _ (by simp)
        · exact i4 k' h l' hl hn

/-- C51: PessimisticRollback succeeds exactly when every listed key is unlocked or holds
the transaction's own pessimistic lock with `for_update_ts` not above the given one; it
then removes exactly those locks.  Otherwise it returns the offending locks and changes
nothing.  Records and values are never touched. -/
theorem C51_pessimisticRollback {st : State} (hst : ValidReachable st)
    {s f : Int} {keys : List Bytes} :
    ∃ resp, (step st (.pessimisticRollback s f keys)).2 = .pess (.ok resp) ∧
      (∀ k ∈ keys, ∀ l, LockOn st k l → ¬ (l.lockTs = s ∧ l.type = .lock ∧ l.forUpdateTs ≤ f) →
        .locked l ∈ resp.results) ∧
      (∀ r ∈ resp.results, ∃ k ∈ keys, ∃ l, LockOn st k l ∧ ¬ (l.lockTs = s ∧ l.type = .lock ∧ l.forUpdateTs ≤ f) ∧
        r = .locked l) ∧
      (resp.results ≠ [] → (step st (.pessimisticRollback s f keys)).1 = st) ∧
      (resp.results = [] →
        (∀ k l, LockOn (step st (.pessimisticRollback s f keys)).1 k l ↔ LockOn st k l ∧ k ∉ keys) ∧
        (step st (.pessimisticRollback s f keys)).1.write = st.write ∧
        (step st (.pessimisticRollback s f keys)).1.data = st.data) := by
  have hI : Inv st := hst.inv
  obtain ⟨h1, h2, _, h4⟩ := pessRollback_spec hI (s := s) (f := f) keys ([], [])
  simp only [step, pessimisticRollback]
  generalize hA : keys.foldl (fun a k => pessRollbackOne st s f k a) ([], []) = A at h1 h2 h4
  by_cases hr : A.1 = []
  · refine ⟨{}, ?_, ?_, fun r hr => (by cases hr), fun h => absurd rfl h, fun _ => ?_⟩
    · rw [if_neg (by simpa using hr)]
    · intro k hk l hl hn
      have := h4 k hk l (lockOn_iff.1 hl) hn
      rw [hr] at this; cases this
    · rw [if_neg (by simpa using hr)]
      refine ⟨?_, rfl, rfl⟩
      intro k l
      simp only [lockOn_iff, view]
      rw [lock_apply]
      by_cases hk : k ∈ A.2
      · simp only [hk, if_true, reduceCtorEq, false_iff]
        rintro ⟨_, hnk⟩
        rcases h2 k hk with h | h
        · cases h
        · exact hnk h.1
      · simp only [hk, if_false, CF.lastPut, List.foldl_nil, Option.none_or]
        constructor
        · intro hl
          refine ⟨hl, fun hkk => ?_⟩
          by_cases hown : OwnPess s f l
          · obtain ⟨_, _, h5⟩ := pessRollback_cov keys ([], []) (st := st) (s := s) (f := f) (by rw [hA]; exact hr)
            rw [hA] at h5
            rcases h5 k hkk with h5 | h5
            · rw [(getLock_primary hI k).1 h5] at hl; cases hl
            · exact hk h5
          · have := h4 k hkk l hl hown
            rw [hr] at this; cases this
        · exact fun h => h.1
  · refine ⟨{ results := A.1 }, ?_, ?_, ?_, fun _ => ?_, fun h => absurd h hr⟩
    · rw [if_pos hr]
    · intro k hk l hl hn
      exact h4 k hk l (lockOn_iff.1 hl) hn
    · intro r h
      rcases h1 r h with h | ⟨k, hk, l, hl, hn, he⟩
      · cases h
      · exact ⟨k, hk, l, lockOn_iff.2 hl, hn, he⟩
    · rw [if_pos hr]

/-- C51, hypotheses met: one rollback that succeeds and one that is refused. -/
example : (step (run State.init [.pessimisticLock ⟨[⟨.lock, kA, []⟩, ⟨.lock, kB, []⟩], kA, 10, 100, 12, false⟩])
      (.pessimisticRollback 10 12 [kA])).2 = .pess (.ok {}) ∧
    (step (run State.init [.pessimisticLock ⟨[⟨.lock, kA, []⟩, ⟨.lock, kB, []⟩], kA, 10, 100, 12, false⟩])
      (.pessimisticRollback 10 11 [kA])).2 ≠ .pess (.ok {}) := by
  refine ⟨by decide +kernel, by decide +kernel⟩

end Verif.Txn
