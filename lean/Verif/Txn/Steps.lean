import Verif.Txn.KeyStep

/-!
# Transaction engine: requests only perform the transitions of `KStep`
-/

namespace Verif.Txn
open Verif.Codec

/-- The state invariant: every key is well formed. -/
def Inv (st : State) : Prop := ∀ k, KInv k (view st k)

theorem Inv.init : Inv State.init := by
  intro k
  refine ⟨?_, ?_, ?_, ?_⟩
  · intro l hl; simp [view, State.init, CF.get_empty] at hl
  · intro t w hw; simp [view, State.init, CF.get_empty] at hw
  · intro t v hv; simp [view, State.init, CF.get_empty] at hv
  · intro t w hw; simp [view, State.init, CF.get_empty] at hw

theorem Inv.access {st : State} (h : Inv st) (t : Int) : Inv (st.access t) := h

/-! ## Readers under the invariant -/

theorem getLock_cases {st : State} (h : Inv st) (k : Bytes) :
    (st.lock.get k = none ∧ getLock st k = {}) ∨
      (st.lock.get k = some (getLock st k) ∧ LockOk k (getLock st k)) := by
  unfold getLock
  cases hl : st.lock.get k with
  | none => exact Or.inl ⟨rfl, rfl⟩
  | some l => exact Or.inr ⟨rfl, (h k).lock l hl⟩

theorem getLock_primary {st : State} (h : Inv st) (k : Bytes) :
    (getLock st k).primary = [] ↔ st.lock.get k = none := by
  rcases getLock_cases h k with ⟨h1, h2⟩ | ⟨h1, h2⟩
  · simp [h1, h2]
  · rw [h1]; simp [h2.primary]

theorem getLock_of_ts {st : State} (h : Inv st) {k : Bytes} {s : Int} (hs : 0 < s)
    (hl : (getLock st k).lockTs = s) : st.lock.get k = some (getLock st k) ∧ LockOk k (getLock st k) := by
  rcases getLock_cases h k with ⟨h1, h2⟩ | h1
  · rw [h2] at hl; simp at hl; omega
  · exact h1

theorem getLock_of_some {st : State} {k : Bytes} {l : LockInfo} (hl : st.lock.get k = some l) :
    getLock st k = l := by simp [getLock, hl]

theorem getRollback_spec {st : State} (h : Inv st) (s : Int) (k : Bytes) :
    (getRollback st s k = .ok true ∧ ∃ w, st.write.get ⟨k, s⟩ = some w ∧ w.startTs = s ∧ w.op = .rollback) ∨
    (getRollback st s k = .ok false ∧ (view st k).noRollback s) := by
  unfold getRollback
  cases hw : st.write.get ⟨k, s⟩ with
  | none =>
    right
    refine ⟨rfl, ?_⟩
    intro w hw'; simp only [view] at hw'; rw [hw] at hw'; cases hw'
  | some w =>
    simp only
    have hi := ((h k).write s w hw).2.2
    split
    · rename_i hne
      right
      refine ⟨rfl, ?_⟩
      intro w' hw' hc; simp only [view] at hw'; rw [hw] at hw'; cases hw'; exact hne hc.1
    · rename_i he
      have he : w.startTs = s := by simpa using he
      split
      · rename_i hop; exact Or.inl ⟨rfl, w, rfl, he, hop⟩
      · rename_i hop
        rcases hi with hi | hi
        · exact absurd hi.1 hop
        · omega

theorem wiMatch_all {w : WriteInfo} : wiMatch 0 false true true w = true ↔ w.committed := by
  simp only [wiMatch, WriteInfo.committed]
  cases w.op <;> simp

theorem wiMatch_start {s : Int} (hs : 0 < s) {w : WriteInfo} :
    wiMatch s false true true w = true ↔ w.startTs = s ∧ w.committed := by
  simp only [wiMatch, WriteInfo.committed]
  cases w.op <;> simp [hs]

/-- No committed record of `s` found above `start_ts`: none at all. -/
theorem noRecord_of_none {st : State} (h : Inv st) {s : Int} (hs : 0 < s) {k : Bytes}
    (hrb : (view st k).noRollback s)
    (hw : getWriteInfo st s maxVer s k false true true = none) : (view st k).noRecord s := by
  intro t w hw' he
  obtain ⟨h1, h2, h3⟩ := (h k).write t w hw'
  rcases h3 with ⟨h3, h4⟩ | ⟨h3, h4, h5⟩
  · have : t = s := by omega
    subst this
    exact hrb w hw' ⟨h4, h3⟩
  · have := getWriteInfo_none hw t w (by omega) h2 hw'
    rw [(wiMatch_start hs).2 ⟨he, h3⟩] at this
    cases this

/-- The newest committed record as `Prewrite` sees it. -/
theorem commitsBelow_of {st : State} (h : Inv st) {k : Bytes} {s : Int}
    (hlt : ¬ ctsOf (getWriteInfo st 0 maxVer 0 k false true true) ≥ s) : (view st k).commitsBelow s := by
  intro t w hw hc
  obtain ⟨h1, h2, _⟩ := (h k).write t w hw
  cases hg : getWriteInfo st 0 maxVer 0 k false true true with
  | none =>
    have := getWriteInfo_none hg t w (by omega) h2 hw
    rw [wiMatch_all.2 hc] at this
    cases this
  | some x =>
    obtain ⟨w0, t0⟩ := x
    rw [hg] at hlt
    simp only [ctsOf] at hlt
    obtain ⟨_, _, _, _, h5⟩ := getWriteInfo_some hg
    by_cases ht : t0 < t
    · have := h5 t w ht h2 hw
      rw [wiMatch_all.2 hc] at this
      cases this
    · omega

/-! ## Which requests cause which transitions -/

/-- The transition `e` on key `k` can stem from request `r` sent in state `st`. -/
def Caused (st : State) (r : Req) (k : Bytes) : Ev → Prop
  | .nop => True
  | .prewrite s pess => ∃ q, r = .prewrite q ∧ q.startTs = s ∧ ∃ m ∈ q.mutations, m.key = k ∧ m.pess = pess
  | .pessLock s fu => ∃ q, r = .pessimisticLock q ∧ q.startTs = s ∧ q.forUpdateTs = fu ∧
      ∃ m ∈ q.mutations, m.key = k
  | .commit s c false => ∃ keys, r = .commit s c keys ∧ k ∈ keys
  | .commit s c true => (∃ keys, r = .resolveLock s c keys ∧ k ∈ keys) ∨
      ∃ infos, r = .batchResolve infos ∧ (s, c) ∈ infos
  | .rollback s => (∃ keys, r = .batchRollback s keys ∧ k ∈ keys) ∨
      (∃ q, r = .checkTxnStatus q ∧ q.lockTs = s ∧ q.primaryKey = k) ∨
      (∃ keys, r = .resolveLock s 0 keys ∧ k ∈ keys) ∨
      (∃ infos c, r = .batchResolve infos ∧ (s, c) ∈ infos ∧ c ≤ 0)
  | .mark s => (∃ keys, r = .batchRollback s keys ∧ k ∈ keys) ∨
      (∃ q, r = .checkTxnStatus q ∧ q.lockTs = s ∧ q.primaryKey = k) ∨
      (∃ keys, r = .checkSecondary s keys ∧ k ∈ keys)
  | .onePc s c pess => ∃ q, r = .prewrite q ∧ q.startTs = s ∧
      (∃ resp, (step st r).2 = .prewrite (.ok resp) ∧ resp.onePcTs = c) ∧
      ∃ m ∈ q.mutations, m.key = k ∧ m.pess = pess
  | .update => ∃ l, st.lock.get k = some l ∧
      ((∃ q, r = .checkTxnStatus q ∧ q.primaryKey = k ∧ q.lockTs = l.lockTs) ∨
        ∃ t, r = .heartBeat k l.lockTs t)
  | .unlock s => ∃ fu keys, r = .pessimisticRollback s fu keys ∧ k ∈ keys

/-- What is to be shown for every request: each key makes allowed transitions. -/
def Allowed (st : State) (r : Req) (st' : State) : Prop :=
  ∀ k, ∃ e, KStep k st.maxTs (view st k) e (view st' k) ∧ Caused st r k e

theorem Allowed.refl (st : State) (r : Req) (st' : State) (h : ∀ k, view st' k = view st k) :
    Allowed st r st' := fun k => ⟨.nop, by rw [h k]; exact KStep.nop _, trivial⟩

theorem KStep.to {k : Bytes} {mx : Int} {x y y' : KS} {e : Ev} (h : KStep k mx x e y) (he : y' = y) :
    KStep k mx x e y' := he ▸ h

theorem view_apply_untouched (st : State) (b : Batch) (k : Bytes)
    (h1 : ∀ e ∈ b.putLock, e.1 ≠ k) (h2 : k ∉ b.delLock) (h3 : ∀ e ∈ b.putWrite, e.1.key ≠ k)
    (h4 : ∀ e ∈ b.putData, e.1.key ≠ k) (h5 : ∀ e ∈ b.delData, e.key ≠ k) :
    view (st.apply b) k = view st k := by
  apply KS.ext
  · simp only [view]
    rw [lock_apply, if_neg h2, CF.lastPut_none.2 h1, Option.none_or]
  · intro t
    simp only [view]
    rw [write_apply, CF.lastPut_none.2 (fun e he hh => h3 e he (by rw [hh])), Option.none_or]
  · intro t
    simp only [view]
    rw [data_apply, if_neg (fun hh => h5 _ hh rfl),
      CF.lastPut_none.2 (fun e he hh => h4 e he (by rw [hh])), Option.none_or]

/-! ## Heart beat -/

theorem heartBeat_allowed {st : State} (h : Inv st) (p : Bytes) (s t : Int) :
    Allowed st (.heartBeat p s t) (heartBeat st p s t).1 := by
  simp only [heartBeat]
  split
  · exact Allowed.refl _ _ _ (fun _ => rfl)
  · rename_i hp
    split
    · exact Allowed.refl _ _ _ (fun _ => rfl)
    · rename_i hts
      split
      · exact Allowed.refl _ _ _ (fun _ => rfl)
      · intro k
        have hok : st.lock.get p = some (getLock st p) := by
          rcases getLock_cases h p with ⟨_, h2⟩ | h2
          · rw [h2] at hp; exact absurd rfl hp
          · exact h2.1
        by_cases hk : k = p
        · subst hk
          refine ⟨.update, ?_, ⟨_, hok, Or.inr ⟨t, by rw [show (getLock st k).lockTs = s by simpa using hts]⟩⟩⟩
          refine (KStep.update (k := k) (mx := st.maxTs) (view st k) (getLock st k) t
            (getLock st k).minCommitTs hok ⟨Int.le_refl _, ((h k).lock _ hok).minTs⟩).to ?_
          apply KS.ext
          · simp only [view]
            rw [lock_apply, if_neg (by simp)]
            simp [CF.lastPut]
          · intro t'; simp only [view, write_apply, CF.lastPut]; simp
          · intro t'; simp only [view, data_apply, CF.lastPut]; simp
        · refine ⟨.nop, (KStep.nop _).to ?_, trivial⟩
          apply view_apply_untouched <;> simp [Ne.symm hk]

/-! ## Rollbacks -/

/-- A rollback batch on one key: with a lock of the transaction, or as a mark. -/
theorem rollback_view {st : State} {wd wo ms : List Bytes} {s : Int} {k : Bytes} (hs : 0 < s ∧ s ≤ maxVer)
    (hwd : k ∈ wd → ∃ l, st.lock.get k = some l ∧ l.lockTs = s ∧ l.shortValue = [])
    (hwo : k ∈ wo → ∃ l, st.lock.get k = some l ∧ l.lockTs = s ∧ l.shortValue ≠ [])
    (hms : k ∈ ms → (∀ l, st.lock.get k = some l → l.lockTs ≠ s) ∧ (view st k).noRecord s) :
    ∃ e, KStep k st.maxTs (view st k) e (view (st.apply (rollbackBatch wd wo ms s)) k) ∧
      (e = .nop ∨ (e = .rollback s ∧ (k ∈ wd ∨ k ∈ wo)) ∨ (e = .mark s ∧ k ∈ ms)) := by
  have hput : ∀ t, CF.lastPut (rollbackBatch wd wo ms s).putWrite ⟨k, t⟩ =
      if t = s ∧ (k ∈ wd ∨ k ∈ wo ∨ k ∈ ms) then some (rollbackRec s) else none := by
    intro t
    split
    · rename_i ht
      obtain ⟨rfl, hm⟩ := ht
      cases hl : CF.lastPut (rollbackBatch wd wo ms t).putWrite ⟨k, t⟩ with
      | none =>
        exfalso
        have := CF.lastPut_none.1 hl (⟨k, t⟩, rollbackRec t) (by
          simp only [rollbackBatch, List.mem_map, List.mem_append]
          refine ⟨k, ?_, rfl⟩
          rcases hm with hm | hm | hm
          · exact Or.inl (Or.inr hm)
          · exact Or.inl (Or.inl hm)
          · exact Or.inr hm)
        exact this rfl
      | some w =>
        have := CF.lastPut_mem hl
        simp only [rollbackBatch, List.mem_map] at this
        obtain ⟨k', _, he⟩ := this
        exact congrArg some (congrArg Prod.snd he).symm
    · rename_i ht
      rw [CF.lastPut_none]
      intro e he hh
      simp only [rollbackBatch, List.mem_map, List.mem_append] at he
      obtain ⟨k', hk', rfl⟩ := he
      simp only [VKey.mk.injEq] at hh
      obtain ⟨rfl, rfl⟩ := hh
      apply ht
      refine ⟨rfl, ?_⟩
      rcases hk' with (hk' | hk') | hk'
      · exact Or.inr (Or.inl hk')
      · exact Or.inl hk'
      · exact Or.inr (Or.inr hk')
  have hdel : k ∈ (rollbackBatch wd wo ms s).delLock ↔ k ∈ wd ∨ k ∈ wo := by
    simp only [rollbackBatch, List.mem_append]; exact Or.comm
  have hdd : ∀ t, (⟨k, t⟩ : VKey) ∈ (rollbackBatch wd wo ms s).delData ↔ t = s ∧ k ∈ wd := by
    intro t
    simp only [rollbackBatch, List.mem_map, VKey.mk.injEq]
    constructor
    · rintro ⟨k', hk', rfl, rfl⟩; exact ⟨rfl, hk'⟩
    · rintro ⟨rfl, hk'⟩; exact ⟨k, hk', rfl, rfl⟩
  have hpl : (rollbackBatch wd wo ms s).putLock = [] := rfl
  have hpd : (rollbackBatch wd wo ms s).putData = [] := rfl
  by_cases hlk : k ∈ wd ∨ k ∈ wo
  · have hl : ∃ l, st.lock.get k = some l ∧ l.lockTs = s := by
      rcases hlk with hk | hk
      · obtain ⟨l, a, b, _⟩ := hwd hk; exact ⟨l, a, b⟩
      · obtain ⟨l, a, b, _⟩ := hwo hk; exact ⟨l, a, b⟩
    obtain ⟨l, hl, hts⟩ := hl
    refine ⟨.rollback s, (KStep.rollback (view st k) s l hl hts).to ?_, Or.inr (Or.inl ⟨rfl, hlk⟩)⟩
    apply KS.ext
    · simp only [view]; rw [lock_apply, if_pos (hdel.2 hlk)]
    · intro t
      simp only [view]; rw [write_apply, hput]
      simp only [upd]
      by_cases ht : t = s
      · have : k ∈ wd ∨ k ∈ wo ∨ k ∈ ms := by
          rcases hlk with h | h
          · exact Or.inl h
          · exact Or.inr (Or.inl h)
        simp [ht, this]
      · simp [ht]
    · intro t
      simp only [view]; rw [data_apply, hpd]
      have hiff : k ∈ wd ↔ l.shortValue = [] := by
        constructor
        · intro hk; obtain ⟨l', a, _, c⟩ := hwd hk; rw [hl] at a; cases a; exact c
        · intro hsv
          rcases hlk with hk | hk
          · exact hk
          · obtain ⟨l', a, _, c⟩ := hwo hk; rw [hl] at a; cases a; exact absurd hsv c
      by_cases ht : t = s
      · by_cases hw : k ∈ wd
        · rw [if_pos ((hdd t).2 ⟨ht, hw⟩), if_pos (hiff.1 hw)]; simp [upd, ht]
        · rw [if_neg (fun hh => hw ((hdd t).1 hh).2), if_neg (fun hh => hw (hiff.2 hh))]
          simp [CF.lastPut]
      · rw [if_neg (fun hh => ht ((hdd t).1 hh).1)]
        simp only [CF.lastPut, List.foldl_nil, Option.none_or]
        split
        · simp [upd, ht]
        · rfl
  · have hnd : k ∉ wd := fun h => hlk (Or.inl h)
    have hno : k ∉ wo := fun h => hlk (Or.inr h)
    by_cases hm : k ∈ ms
    · obtain ⟨h1, h2⟩ := hms hm
      refine ⟨.mark s, (KStep.mark (view st k) s hs h1 h2).to ?_, Or.inr (Or.inr ⟨rfl, hm⟩)⟩
      apply KS.ext
      · simp only [view]; rw [lock_apply, if_neg (fun hh => hlk (hdel.1 hh)), hpl]; simp [CF.lastPut]
      · intro t
        simp only [view]; rw [write_apply, hput]
        simp only [upd]
        by_cases ht : t = s
        · simp [ht, hm]
        · simp [ht]
      · intro t
        simp only [view]; rw [data_apply, hpd, if_neg (fun hh => hnd ((hdd t).1 hh).2)]
        simp [CF.lastPut]
    · refine ⟨.nop, (KStep.nop _).to ?_, Or.inl rfl⟩
      apply KS.ext
      · simp only [view]; rw [lock_apply, if_neg (fun hh => hlk (hdel.1 hh)), hpl]; simp [CF.lastPut]
      · intro t
        simp only [view]; rw [write_apply, hput]
        simp [hnd, hno, hm]
      · intro t
        simp only [view]; rw [data_apply, hpd, if_neg (fun hh => hnd ((hdd t).1 hh).2)]
        simp [CF.lastPut]

/-- What `BatchRollback` knows about the keys it has collected. -/
def RbOk (st : State) (s : Int) (keys : List Bytes) (a : RbAcc) : Prop :=
  (∀ k ∈ a.withData, k ∈ keys ∧ ∃ l, st.lock.get k = some l ∧ l.lockTs = s ∧ l.shortValue = []) ∧
  (∀ k ∈ a.withoutData, k ∈ keys ∧ ∃ l, st.lock.get k = some l ∧ l.lockTs = s ∧ l.shortValue ≠ []) ∧
  (∀ k ∈ a.missLock, k ∈ keys ∧ st.lock.get k = none ∧ (view st k).noRecord s)

theorem batchRollbackOne_ok {st : State} (h : Inv st) {s : Int} (hs : 0 < s) {keys : List Bytes} {k : Bytes}
    (hk : k ∈ keys) {a a' : RbAcc} (ha : RbOk st s keys a) (he : batchRollbackOne st s k a = .cont a') :
    RbOk st s keys a' := by
  simp only [batchRollbackOne] at he
  split at he
  · rename_i hp
    have hl := (getLock_primary h k).1 hp
    rcases getRollback_spec h s k with ⟨hr, _⟩ | ⟨hr, hrb⟩
    · rw [hr] at he; simp only [RbStep.cont.injEq] at he; exact he ▸ ha
    · rw [hr] at he
      simp only at he
      split at he
      · simp only [RbStep.cont.injEq] at he; exact he ▸ ha
      · rename_i hw
        simp only [RbStep.cont.injEq] at he
        subst he
        refine ⟨ha.1, ha.2.1, ?_⟩
        intro k' hk'
        rcases List.mem_append.1 hk' with hk' | hk'
        · exact ha.2.2 k' hk'
        · simp only [List.mem_singleton] at hk'
          subst hk'
          exact ⟨hk, hl, noRecord_of_none h hs hrb hw⟩
  · rename_i hp
    have hl : st.lock.get k = some (getLock st k) := by
      rcases getLock_cases h k with ⟨_, h2⟩ | h2
      · rw [h2] at hp; exact absurd rfl hp
      · exact h2.1
    split at he
    · cases he
    · rename_i hts
      have hts : (getLock st k).lockTs = s := by simpa using hts
      split at he
      · cases he
      · split at he
        · cases he
        · split at he
          · rename_i hsv
            simp only [RbStep.cont.injEq] at he
            subst he
            refine ⟨?_, ha.2.1, ha.2.2⟩
            intro k' hk'
            rcases List.mem_append.1 hk' with hk' | hk'
            · exact ha.1 k' hk'
            · simp only [List.mem_singleton] at hk'
              subst hk'
              exact ⟨hk, _, hl, hts, hsv⟩
          · rename_i hsv
            simp only [RbStep.cont.injEq] at he
            subst he
            refine ⟨ha.1, ?_, ha.2.2⟩
            intro k' hk'
            rcases List.mem_append.1 hk' with hk' | hk'
            · exact ha.2.1 k' hk'
            · simp only [List.mem_singleton] at hk'
              subst hk'
              exact ⟨hk, _, hl, hts, hsv⟩

theorem batchRollbackLoop_ok {st : State} (h : Inv st) {s : Int} (hs : 0 < s) {keys : List Bytes}
    (ks : List Bytes) (hks : ∀ k ∈ ks, k ∈ keys) {a a' : RbAcc} (ha : RbOk st s keys a)
    (he : batchRollbackLoop st s ks a = .cont a') : RbOk st s keys a' := by
  induction ks generalizing a with
  | nil => simp only [batchRollbackLoop, RbStep.cont.injEq] at he; exact he ▸ ha
  | cons k ks ih =>
    simp only [batchRollbackLoop] at he
    split at he
    · rename_i a1 h1
      exact ih (fun k hk => hks k (List.mem_cons_of_mem _ hk))
        (batchRollbackOne_ok h hs (hks k List.mem_cons_self) ha h1) he
    · rename_i h1
      rw [he] at h1
      exact absurd rfl (h1 a')

theorem batchRollback_allowed {st : State} (h : Inv st) {s : Int} (hs : 0 < s ∧ s ≤ maxVer)
    (keys : List Bytes) : Allowed st (.batchRollback s keys) (batchRollback st s keys).1 := by
  simp only [batchRollback]
  split
  · exact Allowed.refl _ _ _ (fun _ => rfl)
  · exact Allowed.refl _ _ _ (fun _ => rfl)
  · rename_i a ha
    have hok := batchRollbackLoop_ok h hs.1 keys (fun k hk => hk) (a := {}) ⟨by simp, by simp, by simp⟩ ha
    intro k
    obtain ⟨e, h1, h2⟩ := rollback_view (wd := a.withData) (wo := a.withoutData) (ms := a.missLock) (k := k)
      hs (fun hk => (hok.1 k hk).2) (fun hk => (hok.2.1 k hk).2)
      (fun hk => ⟨fun l hl => (by rw [(hok.2.2 k hk).2.1] at hl; cases hl), (hok.2.2 k hk).2.2⟩)
    refine ⟨e, h1, ?_⟩
    rcases h2 with rfl | ⟨rfl, hk⟩ | ⟨rfl, hk⟩
    · trivial
    · rcases hk with hk | hk
      · exact Or.inl ⟨keys, rfl, (hok.1 k hk).1⟩
      · exact Or.inl ⟨keys, rfl, (hok.2.1 k hk).1⟩
    · exact Or.inl ⟨keys, rfl, (hok.2.2 k hk).1⟩

/-- Marking a missing lock as rolled back. -/
theorem mark_view {st : State} {s : Int} (hs : 0 < s ∧ s ≤ maxVer) {p : Bytes}
    (h1 : ∀ l, st.lock.get p = some l → l.lockTs ≠ s) (h2 : (view st p).noRecord s) (k : Bytes) :
    ∃ e, KStep k st.maxTs (view st k) e (view (st.apply (markRollbackBatch p s)) k) ∧
      (e = .nop ∨ (e = .mark s ∧ k = p)) := by
  have := rollback_view (wd := []) (wo := []) (ms := [p]) (s := s) (k := k) hs (by simp) (by simp)
    (fun hk => by simp only [List.mem_singleton] at hk; subst hk; exact ⟨h1, h2⟩)
  obtain ⟨e, a, b⟩ := this
  refine ⟨e, a, ?_⟩
  rcases b with b | b | b
  · exact Or.inl b
  · simp at b
  · exact Or.inr ⟨b.1, by simpa using b.2⟩

theorem checkSecondaryLoop_allowed {st : State} (h : Inv st) {s : Int} (hs : 0 < s ∧ s ≤ maxVer)
    (keys ks : List Bytes) (hks : ∀ k ∈ ks, k ∈ keys) (acc : List LockInfo) :
    Allowed st (.checkSecondary s keys) (checkSecondaryLoop st s ks acc).1 := by
  induction ks generalizing acc with
  | nil => exact Allowed.refl _ _ _ (fun _ => rfl)
  | cons p ks ih =>
    have ih := ih (fun k hk => hks k (List.mem_cons_of_mem _ hk))
    simp only [checkSecondaryLoop]
    split
    · split
      · exact Allowed.refl _ _ _ (fun _ => rfl)
      · exact ih _
    · rename_i hne
      rcases getRollback_spec h s p with ⟨hr, _⟩ | ⟨hr, hrb⟩
      · rw [hr]; exact Allowed.refl _ _ _ (fun _ => rfl)
      · rw [hr]
        simp only
        split
        · rename_i hw
          intro k
          obtain ⟨e, h1, h2⟩ := mark_view hs (p := p)
            (fun l hl => by rw [getLock_of_some hl] at hne; exact hne) (noRecord_of_none h hs.1 hrb hw) k
          refine ⟨e, h1, ?_⟩
          rcases h2 with rfl | ⟨rfl, rfl⟩
          · trivial
          · exact Or.inr (Or.inr ⟨keys, rfl, hks k List.mem_cons_self⟩)
        · exact Allowed.refl _ _ _ (fun _ => rfl)

theorem checkTxnStatus_allowed {st : State} (h : Inv st) (r : CheckReq) (hs : 0 < r.lockTs ∧ r.lockTs ≤ maxVer)
    (hc : r.callerStartTs ≤ maxVer) :
    Allowed st (.checkTxnStatus r) (checkTxnStatus st r).1 := by
  simp only [checkTxnStatus]
  split
  · rename_i hts
    obtain ⟨hl, hok⟩ := getLock_of_ts h hs.1 hts
    split
    · exact Allowed.refl _ _ _ (fun _ => rfl)
    · split
      · exact Allowed.refl _ _ _ (fun _ => rfl)
      · split
        · exact Allowed.refl _ _ _ (fun _ => rfl)
        · split
          · split
            · rename_i hlt
              intro k
              by_cases hk : k = r.primaryKey
              · subst hk
                refine ⟨.update, ?_, ⟨_, hl, Or.inl ⟨r, rfl, rfl, hts.symm⟩⟩⟩
                refine (KStep.update (k := r.primaryKey) (mx := st.maxTs) (view st r.primaryKey)
                  (getLock st r.primaryKey) (getLock st r.primaryKey).ttl r.callerStartTs hl ⟨by omega, hc⟩).to ?_
                apply KS.ext
                · simp only [view]
                  rw [lock_apply, if_neg (by simp)]
                  simp [CF.lastPut, hok.key]
                · intro t'; simp only [view, write_apply, CF.lastPut]; simp
                · intro t'; simp only [view, data_apply, CF.lastPut]; simp
              · refine ⟨.nop, (KStep.nop _).to ?_, trivial⟩
                apply view_apply_untouched <;> simp [hok.key, Ne.symm hk]
            · exact Allowed.refl _ _ _ (fun _ => rfl)
          · intro k
            have : ∃ e, KStep k st.maxTs (view st k) e (view (st.apply
                (if (getLock st r.primaryKey).shortValue = [] then rollbackBatch [r.primaryKey] [] [] r.lockTs
                 else rollbackBatch [] [r.primaryKey] [] r.lockTs)) k) ∧
                (e = .nop ∨ (e = .rollback r.lockTs ∧ k = r.primaryKey)) := by
              split
              · rename_i hsv
                obtain ⟨e, a, b⟩ := rollback_view (wd := [r.primaryKey]) (wo := []) (ms := []) (k := k) hs
                  (fun hk => by
                    simp only [List.mem_singleton] at hk; subst hk
                    exact ⟨_, hl, hts, hsv⟩) (by simp) (by simp)
                refine ⟨e, a, ?_⟩
                rcases b with b | b | b
                · exact Or.inl b
                · exact Or.inr ⟨b.1, by simpa using b.2⟩
                · simp at b
              · rename_i hsv
                obtain ⟨e, a, b⟩ := rollback_view (wd := []) (wo := [r.primaryKey]) (ms := []) (k := k) hs
                  (by simp) (fun hk => by
                    simp only [List.mem_singleton] at hk; subst hk
                    exact ⟨_, hl, hts, hsv⟩) (by simp)
                refine ⟨e, a, ?_⟩
                rcases b with b | b | b
                · exact Or.inl b
                · exact Or.inr ⟨b.1, by simpa using b.2⟩
                · simp at b
            obtain ⟨e, a, b⟩ := this
            refine ⟨e, a, ?_⟩
            rcases b with rfl | ⟨rfl, rfl⟩
            · trivial
            · exact Or.inr (Or.inl ⟨r, rfl, rfl, rfl⟩)
  · rename_i hne
    rcases getRollback_spec h r.lockTs r.primaryKey with ⟨hr, _⟩ | ⟨hr, hrb⟩
    · rw [hr]; exact Allowed.refl _ _ _ (fun _ => rfl)
    · rw [hr]
      simp only
      split
      · exact Allowed.refl _ _ _ (fun _ => rfl)
      · rename_i hw
        split
        · intro k
          obtain ⟨e, h1, h2⟩ := mark_view hs (p := r.primaryKey)
            (fun l hl => by rw [getLock_of_some hl] at hne; exact hne) (noRecord_of_none h hs.1 hrb hw) k
          refine ⟨e, h1, ?_⟩
          rcases h2 with rfl | ⟨rfl, rfl⟩
          · trivial
          · exact Or.inr (Or.inl ⟨r, rfl, rfl, rfl⟩)
        · exact Allowed.refl _ _ _ (fun _ => rfl)

/-! ## Commits -/

theorem mem_commitWrites {s c : Int} {ls : List LockInfo} {e : VKey × WriteInfo} :
    e ∈ commitWrites s c ls ↔ ∃ l ∈ ls, l.type ≠ .putIfAbsent ∧
      e = (⟨l.key, c⟩, { startTs := s, op := l.type, shortValue := l.shortValue }) := by
  induction ls with
  | nil => simp [commitWrites]
  | cons l ls ih =>
    simp only [commitWrites]
    split
    · rename_i hl
      rw [ih]
      simp [hl]
    · rename_i hl
      rw [List.mem_cons, ih]
      simp only [List.mem_cons, exists_eq_or_imp]
      constructor
      · rintro (h | h)
        · exact Or.inl ⟨hl, h⟩
        · exact Or.inr h
      · rintro (h | h)
        · exact Or.inl h.2
        · exact Or.inr h

theorem commit_view {st : State} {s c : Int} {ls : List LockInfo} {k : Bytes} {rs : Bool}
    (hc : s < c ∧ c ≤ maxVer)
    (hls : ∀ l ∈ ls, st.lock.get l.key = some l ∧ l.lockTs = s ∧ l.type ≠ .lock ∧ LockOk l.key l ∧
      (rs = false → l.minCommitTs ≤ c)) :
    ∃ e, KStep k st.maxTs (view st k) e (view (st.apply (commitBatch s c ls)) k) ∧
      (e = .nop ∨ (e = .commit s c rs ∧ ∃ l ∈ ls, l.key = k)) := by
  by_cases hk : ∃ l ∈ ls, l.key = k
  · obtain ⟨l, hl, hkey⟩ := hk
    obtain ⟨h1, h2, h3, h4, h5⟩ := hls l hl
    subst hkey
    refine ⟨.commit s c rs, (KStep.commit (view st l.key) s c rs l h1 h2 h3 h5 hc).to ?_, Or.inr ⟨rfl, l, hl, rfl⟩⟩
    have hpia : l.type ≠ .putIfAbsent := by
      rcases h4.type with h | h | h <;> rw [h] <;> decide
    apply KS.ext
    · simp only [view]
      rw [lock_apply, if_pos]
      simp only [commitBatch, List.mem_map]
      exact ⟨l, hl, rfl⟩
    · intro t
      simp only [view, write_apply, commitBatch, upd]
      by_cases ht : t = c
      · subst ht
        cases hp : CF.lastPut (commitWrites s t ls) ⟨l.key, t⟩ with
        | none => exact absurd rfl (CF.lastPut_none.1 hp _ (mem_commitWrites.2 ⟨l, hl, hpia, rfl⟩))
        | some w =>
          obtain ⟨l', hl', _, he⟩ := mem_commitWrites.1 (CF.lastPut_mem hp)
          simp only [Prod.mk.injEq, VKey.mk.injEq] at he
          obtain ⟨⟨hkey, _⟩, rfl⟩ := he
          have := (hls l' hl').1
          rw [← hkey, h1] at this
          cases this
          simp
      · have : CF.lastPut (commitWrites s c ls) ⟨l.key, t⟩ = none := by
          rw [CF.lastPut_none]
          intro e he hh
          obtain ⟨l', _, _, rfl⟩ := mem_commitWrites.1 he
          simp only [VKey.mk.injEq] at hh
          exact ht hh.2.symm
        rw [this]; simp [ht]
    · intro t
      simp only [view, data_apply, commitBatch, CF.lastPut]; simp
  · refine ⟨.nop, (KStep.nop _).to ?_, Or.inl rfl⟩
    apply view_apply_untouched
    · simp [commitBatch]
    · simp only [commitBatch, List.mem_map]; exact hk
    · intro e he hh
      obtain ⟨l', h1, _, rfl⟩ := mem_commitWrites.1 he
      exact hk ⟨l', h1, hh⟩
    · simp [commitBatch]
    · simp [commitBatch]

/-- What `Commit` knows about the locks it has collected. -/
def CmOk (st : State) (s c : Int) (keys : List Bytes) (ls : List LockInfo) : Prop :=
  ∀ l ∈ ls, l.key ∈ keys ∧ st.lock.get l.key = some l ∧ l.lockTs = s ∧ l.type ≠ .lock ∧ LockOk l.key l ∧
    l.minCommitTs ≤ c

theorem commitOne_lock {st : State} (h : Inv st) {s c : Int} (hs : 0 < s) (hc : s < c) {k : Bytes} {l : LockInfo}
    (he : commitOne st s c k = .lock l) :
    l.key = k ∧ st.lock.get k = some l ∧ l.lockTs = s ∧ l.type ≠ .lock ∧ LockOk k l ∧ l.minCommitTs ≤ c := by
  simp only [commitOne] at he
  split at he
  · rename_i hts
    obtain ⟨h1, h2⟩ := getLock_of_ts h hs hts
    split at he
    · cases he
    · rename_i h3
      split at he
      · cases he
      · split at he
        · cases he
        · rename_i h4
          simp only [CmStep.lock.injEq] at he
          subst he
          refine ⟨h2.key, h1, hts, h3, h2, ?_⟩
          simp only [not_and] at h4
          omega
  · rcases getRollback_spec h s k with ⟨hr, _⟩ | ⟨hr, _⟩
    · rw [hr] at he; split at he
      · split at he <;> cases he
      · cases he
    · rw [hr] at he; split at he
      · split at he <;> cases he
      · simp only at he; split at he <;> cases he

theorem commitLoop_ok {st : State} (h : Inv st) {s c : Int} (hs : 0 < s) (hc : s < c) {keys : List Bytes}
    (ks : List Bytes) (hks : ∀ k ∈ ks, k ∈ keys) {ls ls' : List LockInfo} (ha : CmOk st s c keys ls)
    (he : commitLoop st s c ks ls = .ok (.inl ls')) : CmOk st s c keys ls' := by
  induction ks generalizing ls with
  | nil =>
    simp only [commitLoop, Out.ok.injEq, Sum.inl.injEq] at he
    exact he ▸ ha
  | cons k ks ih =>
    have ih := @ih (fun k hk => hks k (List.mem_cons_of_mem _ hk))
    simp only [commitLoop] at he
    split at he
    · rename_i l h1
      refine ih ?_ he
      intro l' hl'
      rcases List.mem_append.1 hl' with hl' | hl'
      · exact ha l' hl'
      · simp only [List.mem_singleton] at hl'
        subst hl'
        obtain ⟨a1, a2⟩ := commitOne_lock h hs hc h1
        subst a1
        exact ⟨hks _ List.mem_cons_self, a2⟩
    · exact ih ha he
    · cases he
    · cases he

theorem commit_allowed {st : State} (h : Inv st) {s c : Int} (hs : 0 < s) (hc : c ≤ maxVer) (keys : List Bytes) :
    Allowed st (.commit s c keys) (commit st s c keys).1 := by
  simp only [commit]
  split
  · exact Allowed.refl _ _ _ (fun _ => rfl)
  · rename_i hlt
    split
    · exact Allowed.refl _ _ _ (fun _ => rfl)
    · exact Allowed.refl _ _ _ (fun _ => rfl)
    · exact Allowed.refl _ _ _ (fun _ => rfl)
    · rename_i ls hl
      have hok := commitLoop_ok h hs (by omega) keys (fun k hk => hk) (ls := []) (by intro l hl; cases hl) hl
      intro k
      obtain ⟨e, h1, h2⟩ := commit_view (st := st) (s := s) (c := c) (ls := ls) (k := k) (rs := false) ⟨by omega, hc⟩
        (fun l hl => by
          obtain ⟨_, a⟩ := hok l hl
          exact ⟨a.1, a.2.1, a.2.2.1, a.2.2.2.1, fun _ => a.2.2.2.2⟩)
      refine ⟨e, h1, ?_⟩
      rcases h2 with rfl | ⟨rfl, l, hl, hk⟩
      · trivial
      · exact ⟨keys, rfl, hk ▸ (hok l hl).1⟩

/-! ## Resolving locks -/

theorem Batch.apply_nil (st : State) : st.apply {} = st := rfl

/-- What `ResolveLock` knows about what it has collected; `P` holds of every key. -/
def RsOk (st : State) (s c : Int) (P : Bytes → Prop) (a : RsAcc) : Prop :=
  (∀ l ∈ a.commits, 0 < c ∧ P l.key ∧ st.lock.get l.key = some l ∧ l.lockTs = s ∧ l.type ≠ .lock ∧ LockOk l.key l) ∧
  (∀ k ∈ a.withData, ¬ 0 < c ∧ P k ∧ ∃ l, st.lock.get k = some l ∧ l.lockTs = s ∧ l.shortValue = []) ∧
  (∀ k ∈ a.withoutData, ¬ 0 < c ∧ P k ∧ ∃ l, st.lock.get k = some l ∧ l.lockTs = s ∧ l.shortValue ≠ [])

theorem resolveOne_ok {st : State} {s c : Int} {P : Bytes → Prop} {k : Bytes} {l : LockInfo} (hP : P k)
    (hl : st.lock.get k = some l) (hok : LockOk k l) (hts : l.lockTs = s) {a a' : RsAcc}
    (ha : RsOk st s c P a) (he : resolveOne c k l a = .inl a') : RsOk st s c P a' := by
  simp only [resolveOne] at he
  split at he
  · cases he
  · rename_i h1
    split at he
    · cases he
    · split at he
      · rename_i hc
        cases he
        refine ⟨?_, ha.2⟩
        intro l' hl'
        rcases List.mem_append.1 hl' with hl' | hl'
        · exact ha.1 l' hl'
        · simp only [List.mem_singleton] at hl'
          subst hl'
          have := hok.key
          subst this
          exact ⟨hc, hP, hl, hts, h1, hok⟩
      · rename_i hc
        split at he
        · rename_i hsv
          cases he
          refine ⟨ha.1, ?_, ha.2.2⟩
          intro k' hk'
          rcases List.mem_append.1 hk' with hk' | hk'
          · exact ha.2.1 k' hk'
          · simp only [List.mem_singleton] at hk'
            subst hk'
            exact ⟨hc, hP, l, hl, hts, hsv⟩
        · rename_i hsv
          cases he
          refine ⟨ha.1, ha.2.1, ?_⟩
          intro k' hk'
          rcases List.mem_append.1 hk' with hk' | hk'
          · exact ha.2.2 k' hk'
          · simp only [List.mem_singleton] at hk'
            subst hk'
            exact ⟨hc, hP, l, hl, hts, hsv⟩

theorem resolveLoop_ok {st : State} (h : Inv st) {s c : Int} {keys : List Bytes}
    (ks : List Bytes) (hks : ∀ k ∈ ks, k ∈ keys) {a a' : RsAcc} (ha : RsOk st s c (· ∈ keys) a)
    (he : resolveLoop st s c ks a = .inl a') : RsOk st s c (· ∈ keys) a' := by
  induction ks generalizing a with
  | nil => simp only [resolveLoop, Sum.inl.injEq] at he; exact he ▸ ha
  | cons k ks ih =>
    have ih := @ih (fun k hk => hks k (List.mem_cons_of_mem _ hk))
    simp only [resolveLoop] at he
    split at he
    · exact ih ha he
    · rename_i hp
      split at he
      · exact ih ha he
      · rename_i hts
        split at he
        · rename_i a1 h1
          refine ih ?_ he
          rcases getLock_cases h k with ⟨_, h2⟩ | ⟨h2, h3⟩
          · rw [h2] at hp; exact absurd rfl hp
          · exact resolveOne_ok (P := (· ∈ keys)) (hks k List.mem_cons_self) h2 h3 (by simpa using hts) ha h1
        · cases he

theorem resolveApply_view {st : State} {s c : Int} (hs : 0 < s ∧ s ≤ maxVer)
    (hc : 0 < c → s < c ∧ c ≤ maxVer) {P : Bytes → Prop} {a : RsAcc} (ha : RsOk st s c P a) (k : Bytes) :
    ∃ e, KStep k st.maxTs (view st k) e (view (resolveApply st s c a) k) ∧
      (e = .nop ∨ (e = .commit s c true ∧ P k) ∨ (e = .rollback s ∧ P k ∧ c ≤ 0)) := by
  simp only [resolveApply]
  by_cases hpos : 0 < c
  · have h1 : a.withData = [] := by
      cases hw : a.withData with
      | nil => rfl
      | cons x l => exact absurd hpos (ha.2.1 x (by rw [hw]; exact List.mem_cons_self)).1
    have h2 : a.withoutData = [] := by
      cases hw : a.withoutData with
      | nil => rfl
      | cons x l => exact absurd hpos (ha.2.2 x (by rw [hw]; exact List.mem_cons_self)).1
    rw [h1, h2]
    have : rollbackBatch [] [] [] s = {} := rfl
    rw [this, Batch.apply_nil]
    obtain ⟨e, h3, h4⟩ := commit_view (st := st) (s := s) (c := c) (ls := a.commits) (k := k) (rs := true) (hc hpos)
      (fun l hl => by
        obtain ⟨_, _, b⟩ := ha.1 l hl
        exact ⟨b.1, b.2.1, b.2.2.1, b.2.2.2, fun hh => by cases hh⟩)
    refine ⟨e, h3, ?_⟩
    rcases h4 with h4 | ⟨h4, l, hl, hk⟩
    · exact Or.inl h4
    · exact Or.inr (Or.inl ⟨h4, hk ▸ (ha.1 l hl).2.1⟩)
  · have h1 : a.commits = [] := by
      cases hw : a.commits with
      | nil => rfl
      | cons x l => exact absurd (ha.1 x (by rw [hw]; exact List.mem_cons_self)).1 hpos
    rw [h1]
    have : commitBatch s c [] = {} := rfl
    rw [this, Batch.apply_nil]
    obtain ⟨e, h3, h4⟩ := rollback_view (st := st) (wd := a.withData) (wo := a.withoutData) (ms := []) (k := k) hs
      (fun hk => (ha.2.1 k hk).2.2) (fun hk => (ha.2.2 k hk).2.2) (by simp)
    refine ⟨e, h3, ?_⟩
    rcases h4 with h4 | ⟨h4, hk⟩ | h4
    · exact Or.inl h4
    · refine Or.inr (Or.inr ⟨h4, ?_, by omega⟩)
      rcases hk with hk | hk
      · exact (ha.2.1 k hk).2.1
      · exact (ha.2.2 k hk).2.1
    · simp at h4

theorem RsOk.nil (st : State) (s c : Int) (P : Bytes → Prop) : RsOk st s c P {} :=
  ⟨fun l hl => (by cases hl), fun l hl => (by cases hl), fun l hl => (by cases hl)⟩

theorem resolveLock_allowed {st : State} (h : Inv st) {s c : Int} (hs : 0 < s ∧ s ≤ maxVer) (hc : c ≤ maxVer)
    (keys : List Bytes) : Allowed st (.resolveLock s c keys) (resolveLock st s c keys).1 := by
  simp only [resolveLock]
  split
  · exact Allowed.refl _ _ _ (fun _ => rfl)
  · rename_i hneg
    split
    · exact Allowed.refl _ _ _ (fun _ => rfl)
    · rename_i hle
      split
      · exact Allowed.refl _ _ _ (fun _ => rfl)
      · rename_i a ha
        have hok := resolveLoop_ok h keys (fun k hk => hk) (RsOk.nil st s c (· ∈ keys)) ha
        intro k
        obtain ⟨e, h1, h2⟩ := resolveApply_view hs (fun hp => ⟨by omega, hc⟩) hok k
        refine ⟨e, h1, ?_⟩
        rcases h2 with rfl | ⟨rfl, hk⟩ | ⟨rfl, hk, hc0⟩
        · trivial
        · exact Or.inl ⟨keys, rfl, hk⟩
        · have : c = 0 := by omega
          subst this
          exact Or.inr (Or.inr (Or.inl ⟨keys, rfl, hk⟩))

theorem batchResolveLoop_ok {st : State} {s c : Int} (es : List (Bytes × LockInfo))
    (hes : ∀ e ∈ es, st.lock.get e.2.key = some e.2 ∧ LockOk e.2.key e.2 ∧ e.2.lockTs = s)
    {a a' : RsAcc} (ha : RsOk st s c (fun _ => True) a)
    (he : batchResolveLoop c es a = .inl a') : RsOk st s c (fun _ => True) a' := by
  induction es generalizing a with
  | nil => simp only [batchResolveLoop, Sum.inl.injEq] at he; exact he ▸ ha
  | cons e es ih =>
    simp only [batchResolveLoop] at he
    split at he
    · rename_i a1 h1
      obtain ⟨b1, b2, b3⟩ := hes e List.mem_cons_self
      exact ih (fun e he => hes e (List.mem_cons_of_mem _ he)) (resolveOne_ok trivial b1 b2 b3 ha h1) he
    · cases he

theorem scanLocksOf_ok {st : State} (h : Inv st) {s : Int} :
    ∀ e ∈ scanLocksOf st s, st.lock.get e.2.key = some e.2 ∧ LockOk e.2.key e.2 ∧ e.2.lockTs = s := by
  intro e he
  simp only [scanLocksOf, List.mem_filter, decide_eq_true_eq] at he
  obtain ⟨h1, _, h3, h4⟩ := he
  have hg := (CF.mem_iff_get st.lock e.1 e.2).1 h1
  have hok := (h e.1).lock e.2 hg
  have hk := hok.key
  rw [hk]
  exact ⟨hg, hok, by omega⟩

theorem batchResolveOne_view {st : State} (h : Inv st) {s c : Int} (hs : 0 < s ∧ s ≤ maxVer)
    (hc : 0 < c → s < c ∧ c ≤ maxVer) (k : Bytes) :
    ∃ e, KStep k st.maxTs (view st k) e (view (batchResolveOne st s c).1 k) ∧
      (e = .nop ∨ e = .commit s c true ∨ (e = .rollback s ∧ c ≤ 0)) := by
  simp only [batchResolveOne]
  split
  · exact ⟨.nop, KStep.nop _, Or.inl rfl⟩
  · rename_i a ha
    have hok := batchResolveLoop_ok _ (scanLocksOf_ok h) (RsOk.nil st s c _) ha
    obtain ⟨e, h1, h2⟩ := resolveApply_view hs hc hok k
    refine ⟨e, h1, ?_⟩
    rcases h2 with h2 | ⟨h2, _⟩ | ⟨h2, _, h3⟩
    · exact Or.inl h2
    · exact Or.inr (Or.inl h2)
    · exact Or.inr (Or.inr ⟨h2, h3⟩)

theorem maxTs_resolveApply (st : State) (s c : Int) (a : RsAcc) : (resolveApply st s c a).maxTs = st.maxTs := rfl

theorem maxTs_batchResolveOne (st : State) (s c : Int) : (batchResolveOne st s c).1.maxTs = st.maxTs := by
  simp only [batchResolveOne]; split <;> rfl

theorem batchResolveRun_path (st0 : State) (all : List (Int × Int)) (infos : List (Int × Int))
    (hin : ∀ i ∈ infos, i ∈ all) (hv : ∀ i ∈ infos, (0 < i.1 ∧ i.1 ≤ maxVer) ∧ (0 < i.2 → i.1 < i.2 ∧ i.2 ≤ maxVer))
    {st : State} (h : Inv st) (k : Bytes) :
    ∃ es, KPath k st.maxTs (view st k) es (view (batchResolveRun st infos).1 k) ∧
      ∀ e ∈ es, Caused st0 (.batchResolve all) k e ∧
        (e = .nop ∨ (∃ s c, e = .commit s c true) ∨ ∃ s, e = .rollback s) := by
  induction infos generalizing st with
  | nil => exact ⟨[], KPath.nil _, fun e he => (by cases he)⟩
  | cons i infos ih =>
    obtain ⟨s, c⟩ := i
    obtain ⟨hs, hc⟩ := hv (s, c) List.mem_cons_self
    obtain ⟨e, h1, h2⟩ := batchResolveOne_view h hs hc k
    have hcaused : Caused st0 (.batchResolve all) k e ∧
        (e = .nop ∨ (∃ s c, e = .commit s c true) ∨ ∃ s, e = .rollback s) := by
      rcases h2 with rfl | rfl | ⟨rfl, h3⟩
      · exact ⟨trivial, Or.inl rfl⟩
      · exact ⟨Or.inr ⟨all, rfl, hin _ List.mem_cons_self⟩, Or.inr (Or.inl ⟨s, c, rfl⟩)⟩
      · exact ⟨Or.inr (Or.inr (Or.inr ⟨all, c, rfl, hin _ List.mem_cons_self, h3⟩)), Or.inr (Or.inr ⟨s, rfl⟩)⟩
    have hinv : Inv (batchResolveOne st s c).1 := by
      intro k'
      obtain ⟨e', h1', _⟩ := batchResolveOne_view h hs hc k'
      exact h1'.inv (h k')
    simp only [batchResolveRun]
    split
    · rename_i st' r hr
      rw [hr] at h1
      refine ⟨[e], KPath.cons h1 (KPath.nil _), ?_⟩
      intro e' he'
      simp only [List.mem_singleton] at he'
      subst he'; exact hcaused
    · rename_i st' hr
      rw [hr] at h1 hinv
      obtain ⟨es, h3, h4⟩ := ih (fun i hi => hin i (List.mem_cons_of_mem _ hi))
        (fun i hi => hv i (List.mem_cons_of_mem _ hi)) hinv
      have hmx : st'.maxTs = st.maxTs := by
        have := maxTs_batchResolveOne st s c
        rw [hr] at this; exact this
      simp only at h1 h3
      rw [hmx] at h3
      refine ⟨e :: es, KPath.cons h1 h3, ?_⟩
      intro e' he'
      rcases List.mem_cons.1 he' with rfl | he'
      · exact hcaused
      · exact h4 e' he'

/-! ## Pessimistic locks -/

theorem pessRollback_ok {st : State} (h : Inv st) (s fu : Int) (keys ks : List Bytes) (hks : ∀ k ∈ ks, k ∈ keys)
    (a : List TxnResult × List Bytes)
    (ha : ∀ k ∈ a.2, k ∈ keys ∧ ∃ l, st.lock.get k = some l ∧ l.lockTs = s ∧ l.type = .lock) :
    ∀ k ∈ (ks.foldl (fun a k => pessRollbackOne st s fu k a) a).2,
      k ∈ keys ∧ ∃ l, st.lock.get k = some l ∧ l.lockTs = s ∧ l.type = .lock := by
  induction ks generalizing a with
  | nil => exact ha
  | cons p ks ih =>
    simp only [List.foldl_cons]
    apply ih (fun k hk => hks k (List.mem_cons_of_mem _ hk))
    intro k hk
    simp only [pessRollbackOne] at hk
    split at hk
    · rename_i hp
      have hl : st.lock.get p = some (getLock st p) := by
        rcases getLock_cases h p with ⟨_, h2⟩ | h2
        · rw [h2] at hp; exact absurd rfl hp
        · exact h2.1
      split at hk
      · exact ha k hk
      · rename_i hty
        split at hk
        · rename_i hts
          split at hk
          · rcases List.mem_append.1 hk with hk | hk
            · exact ha k hk
            · simp only [List.mem_singleton] at hk
              subst hk
              exact ⟨hks _ List.mem_cons_self, _, hl, hts, by simpa using hty⟩
          · exact ha k hk
        · exact ha k hk
    · exact ha k hk

theorem pessimisticRollback_allowed {st : State} (h : Inv st) (s fu : Int) (keys : List Bytes) :
    Allowed st (.pessimisticRollback s fu keys) (pessimisticRollback st s fu keys).1 := by
  simp only [pessimisticRollback]
  split
  · exact Allowed.refl _ _ _ (fun _ => rfl)
  · have hok := pessRollback_ok h s fu keys keys (fun k hk => hk) ([], []) (fun k hk => (by cases hk))
    intro k
    by_cases hk : k ∈ (keys.foldl (fun a k => pessRollbackOne st s fu k a) ([], [])).2
    · obtain ⟨h1, l, h2, h3, h4⟩ := hok k hk
      refine ⟨.unlock s, (KStep.unlock (view st k) s l h2 h3 h4).to ?_, ⟨fu, keys, rfl, h1⟩⟩
      apply KS.ext
      · simp only [view]; rw [lock_apply, if_pos hk]
      · intro t; simp only [view, write_apply, CF.lastPut]; simp
      · intro t; simp only [view, data_apply, CF.lastPut]; simp
    · refine ⟨.nop, (KStep.nop _).to ?_, trivial⟩
      apply view_apply_untouched
      · simp
      · exact hk
      · simp
      · simp
      · simp

/-- What `PessimisticLock` knows about a lock it is going to write. -/
def PessOk (st : State) (r : PessReq) (k : Bytes) (l : LockInfo) : Prop :=
  (∃ m ∈ r.mutations, m.key = k) ∧ LockOk k l ∧ l.lockTs = r.startTs ∧ l.type = .lock ∧
  l.forUpdateTs = r.forUpdateTs ∧ l.primary = r.primary ∧
  (st.lock.get k = none ∧ l.shortValue = [] ∧
      (∀ t w, (if r.returnValues then 0 else r.startTs) < t → st.write.get ⟨k, t⟩ = some w → w.committed →
        t < r.forUpdateTs) ∨
    ∃ l0, st.lock.get k = some l0 ∧ l0.lockTs = r.startTs ∧ l.shortValue = l0.shortValue ∧ 0 < l0.forUpdateTs ∧
      l0.forUpdateTs < r.forUpdateTs ∧ l0.minCommitTs ≤ l.minCommitTs)

theorem pessOne_ok {st : State} (h : Inv st) {r : PessReq} (hs : 0 < r.startTs ∧ r.startTs ≤ maxVer)
    (hf : 0 < r.forUpdateTs) (hp : r.primary ≠ []) {m : PessMut} (hm : m ∈ r.mutations) {a : PessAcc}
    (ha : ∀ e ∈ a.locks, PessOk st r e.1 e.2) : ∀ e ∈ (pessOne st r m a).locks, PessOk st r e.1 e.2 := by
  intro e he
  simp only [pessOne] at he
  split at he
  · rename_i hpr
    have hl : st.lock.get m.key = some (getLock st m.key) ∧ LockOk m.key (getLock st m.key) := by
      rcases getLock_cases h m.key with ⟨_, h2⟩ | h2
      · rw [h2] at hpr; exact absurd rfl hpr
      · exact h2
    split at he
    · exact ha e he
    · split at he
      · rename_i h0 hts
        split at he
        · split at he
          · exact ha e he
          · exact ha e he
        · split at he
          · rename_i hne hlt
            have key : e ∈ a.locks ++ [(m.key,
                { (getLock st m.key) with
                  primary := r.primary, lockTs := r.startTs, forUpdateTs := r.forUpdateTs, key := m.key, ttl := r.ttl, type := .lock, extra := m.value })] := by
              split at he
              · exact he
              · exact he
            rcases List.mem_append.1 key with hk | hk
            · exact ha e hk
            · simp only [List.mem_singleton] at hk
              subst hk
              have hfu0 := hl.2.fu0
              refine ⟨⟨m, hm, rfl⟩, ⟨rfl, hp, hs, Or.inr (Or.inr rfl), Int.le_of_lt hf, fun _ => hf, hl.2.minTs⟩, rfl, rfl, rfl, rfl, ?_⟩
              right
              exact ⟨_, hl.1, hts, rfl, by omega, hlt, Int.le_refl _⟩
          · exact ha e he
      · exact ha e he
  · rename_i hpr
    have hl : st.lock.get m.key = none := (getLock_primary h m.key).1 (by simpa using hpr)
    generalize hgw : getWriteInfo st (if r.returnValues = true then 0 else r.startTs) maxVer 0 m.key
      false true true = gw at he
    split at he
    · exact ha e he
    · rename_i hlt
      have key : e ∈ a.locks ++ [(m.key,
          { primary := r.primary, lockTs := r.startTs, forUpdateTs := r.forUpdateTs,
            key := m.key, ttl := r.ttl, type := .lock, extra := m.value : LockInfo })] := by
        split at he
        · exact he
        · exact he
      rcases List.mem_append.1 key with hk | hk
      · exact ha e hk
      · simp only [List.mem_singleton] at hk
        subst hk
        refine ⟨⟨m, hm, rfl⟩, ⟨rfl, hp, hs, Or.inr (Or.inr rfl), Int.le_of_lt hf, fun _ => hf, by simp [maxVer]⟩, rfl, rfl, rfl, rfl, ?_⟩
        left
        refine ⟨hl, rfl, ?_⟩
        intro t w ht hw hc
        have hb := (h m.key).write t w hw
        cases gw with
        | none =>
          have := getWriteInfo_none hgw t w ht hb.2.1 hw
          rw [wiMatch_all.2 hc] at this
          cases this
        | some x =>
          obtain ⟨w0, t0⟩ := x
          simp only [ctsOf] at hlt
          obtain ⟨_, _, _, _, h5⟩ := getWriteInfo_some hgw
          by_cases ht0 : t0 < t
          · have := h5 t w ht0 hb.2.1 hw
            rw [wiMatch_all.2 hc] at this
            cases this
          · omega

theorem pessLoop_ok {st : State} (h : Inv st) {r : PessReq} (hs : 0 < r.startTs ∧ r.startTs ≤ maxVer)
    (hf : 0 < r.forUpdateTs) (hp : r.primary ≠ []) (ms : List PessMut) (hms : ∀ m ∈ ms, m ∈ r.mutations)
    {a a' : PessAcc} (ha : ∀ e ∈ a.locks, PessOk st r e.1 e.2) (he : pessLoop st r ms a = .ok a') :
    ∀ e ∈ a'.locks, PessOk st r e.1 e.2 := by
  induction ms generalizing a with
  | nil => simp only [pessLoop, Out.ok.injEq] at he; exact he ▸ ha
  | cons m ms ih =>
    simp only [pessLoop] at he
    split at he
    · cases he
    · exact ih (fun m hm => hms m (List.mem_cons_of_mem _ hm))
        (pessOne_ok h hs hf hp (hms m List.mem_cons_self) ha) he

theorem pessimisticLock_allowed {st : State} (h : Inv st) (r : PessReq) (hs : 0 < r.startTs ∧ r.startTs ≤ maxVer)
    (hf : 0 < r.forUpdateTs) (hp : r.primary ≠ []) :
    Allowed st (.pessimisticLock r) (pessimisticLock st r).1 := by
  simp only [pessimisticLock]
  split
  · exact Allowed.refl _ _ _ (fun _ => rfl)
  · exact Allowed.refl _ _ _ (fun _ => rfl)
  · rename_i a ha
    split
    · exact Allowed.refl _ _ _ (fun _ => rfl)
    · have hok := pessLoop_ok h hs hf hp r.mutations (fun m hm => hm) (a := {}) (fun e he => (by cases he)) ha
      intro k
      cases hl : CF.lastPut a.locks k with
      | none =>
        refine ⟨.nop, (KStep.nop _).to ?_, trivial⟩
        apply view_apply_untouched
        · exact CF.lastPut_none.1 hl
        · simp
        · simp
        · simp
        · simp
      | some l =>
        obtain ⟨h1, h2, h3, h4, h5, _, h6⟩ := hok (k, l) (CF.lastPut_mem hl)
        refine ⟨.pessLock r.startTs r.forUpdateTs,
          (KStep.pessLock (view st k) r.startTs r.forUpdateTs l ?_ ?_ h2 h3 h4 h5).to ?_, ⟨r, rfl, rfl, rfl, h1⟩⟩
        · rcases h6 with h6 | ⟨l0, h6, h7, h8⟩
          · exact Or.inl ⟨h6.1, h6.2.1⟩
          · exact Or.inr ⟨l0, h6, h7, h8⟩
        · intro hnone hle t w hw hc
          rcases h6 with ⟨_, _, h6⟩ | ⟨l0, h6, _⟩
          · by_cases ht : (if r.returnValues then 0 else r.startTs) < t
            · have := h6 t w ht hw hc
              omega
            · have := ((h k).write t w hw).1
              split at ht <;> omega
          · simp only [view] at hnone; rw [h6] at hnone; cases hnone
        · apply KS.ext
          · simp only [view]
            rw [lock_apply, if_neg (by simp), hl]; rfl
          · intro t; simp only [view, write_apply, CF.lastPut]; simp
          · intro t; simp only [view, data_apply, CF.lastPut]; simp

end Verif.Txn
