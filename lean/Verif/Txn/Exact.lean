import Verif.Txn.Outcome

/-!
# Transaction engine: exact effects of successful requests, key by key
-/

namespace Verif.Txn
open Verif.Codec

/-! ## Inversion of transitions -/

theorem KStep.nop_eq {k : Bytes} {mx : Int} {x y : KS} (h : KStep k mx x .nop y) : y = x := by
  cases h; rfl

theorem KStep.commit_eq {k : Bytes} {mx : Int} {x y : KS} {s c : Int} {r : Bool}
    (h : KStep k mx x (.commit s c r) y) :
    ∃ l, x.lock = some l ∧ l.lockTs = s ∧ l.type ≠ .lock ∧ (r = false → l.minCommitTs ≤ c) ∧ s < c ∧ c ≤ maxVer ∧
      y = ⟨none, upd x.write c (some { startTs := s, op := l.type, shortValue := l.shortValue }), x.data⟩ := by
  cases h with
  | commit s c r l h1 h2 h3 h4 h5 => exact ⟨l, h1, h2, h3, h4, h5.1, h5.2, rfl⟩

theorem KStep.rollback_eq {k : Bytes} {mx : Int} {x y : KS} {s : Int} (h : KStep k mx x (.rollback s) y) :
    ∃ l, x.lock = some l ∧ l.lockTs = s ∧
      y = ⟨none, upd x.write s (some (rollbackRec s)), if l.shortValue = [] then upd x.data s none else x.data⟩ := by
  cases h with
  | rollback s l h1 h2 => exact ⟨l, h1, h2, rfl⟩

theorem KStep.mark_eq {k : Bytes} {mx : Int} {x y : KS} {s : Int} (h : KStep k mx x (.mark s) y) :
    (∀ l, x.lock = some l → l.lockTs ≠ s) ∧ x.noRecord s ∧
      y = ⟨x.lock, upd x.write s (some (rollbackRec s)), x.data⟩ := by
  cases h with
  | mark s h1 h2 h3 => exact ⟨h2, h3, rfl⟩

/-! ## Commit -/

theorem commit_view_hit {st : State} {s c : Int} {ls : List LockInfo} {rs : Bool}
    (hc : s < c ∧ c ≤ maxVer)
    (hls : ∀ l ∈ ls, st.lock.get l.key = some l ∧ l.lockTs = s ∧ l.type ≠ .lock ∧ LockOk l.key l ∧
      (rs = false → l.minCommitTs ≤ c)) {l : LockInfo} (hl : l ∈ ls) :
    view (st.apply (commitBatch s c ls)) l.key =
      ⟨none, upd (view st l.key).write c (some { startTs := s, op := l.type, shortValue := l.shortValue }),
        (view st l.key).data⟩ := by
  obtain ⟨e, h1, h2⟩ := commit_view (k := l.key) hc hls
  have h0 : (view st l.key).lock = some l := (hls l hl).1
  have hn : (view (st.apply (commitBatch s c ls)) l.key).lock = none := by
    simp only [view, lock_apply]
    rw [if_pos]
    exact List.mem_map.2 ⟨l, hl, rfl⟩
  rcases h2 with rfl | ⟨rfl, _⟩
  · rw [h1.nop_eq, h0] at hn; cases hn
  · obtain ⟨l', a1, _, _, _, _, _, a2⟩ := h1.commit_eq
    rw [h0] at a1; cases a1
    exact a2

theorem commit_view_miss {st : State} {s c : Int} {ls : List LockInfo} {k : Bytes}
    (hk : ∀ l ∈ ls, l.key ≠ k) : view (st.apply (commitBatch s c ls)) k = view st k := by
  refine view_apply_untouched _ _ _ (by simp [commitBatch]) ?_ ?_ (by simp [commitBatch]) (by simp [commitBatch])
  · intro hm
    obtain ⟨l, h1, h2⟩ := List.mem_map.1 hm
    exact hk l h1 h2
  · intro e he hh
    obtain ⟨l, h1, _, rfl⟩ := mem_commitWrites.1 he
    exact hk l h1 hh

theorem commitOne_already {st : State} {s c : Int} {k : Bytes} (hs : 0 < s)
    (he : commitOne st s c k = .already) :
    (∀ l, st.lock.get k = some l → l.lockTs ≠ s) ∧
      ∃ w, st.write.get ⟨k, c⟩ = some w ∧ w.startTs = s ∧ w.committed := by
  simp only [commitOne] at he
  split at he
  · split at he
    · cases he
    · split at he
      · cases he
      · split at he <;> cases he
  · rename_i hne
    refine ⟨fun l hl => by rw [getLock_of_some hl] at hne; exact hne, ?_⟩
    generalize hg : getWriteInfo st s c s k false true true = g at he
    rcases g with _ | ⟨w, t⟩
    · simp only at he
      split at he
      · cases he
      · cases he
      · cases he
      · split at he <;> cases he
    · simp only at he
      split at he
      · rename_i ht
        subst ht
        obtain ⟨_, _, h3, h4, _⟩ := getWriteInfo_some hg
        rw [wiMatch_start hs] at h4
        exact ⟨w, h3, h4⟩
      · split at he <;> cases he

theorem commitOne_of_committed {st : State} {s c : Int} {k : Bytes} (hs : 0 < s) (hc : s < c)
    (hl : ∀ l, st.lock.get k = some l → l.lockTs ≠ s)
    {w : WriteInfo} (hw : st.write.get ⟨k, c⟩ = some w) (hws : w.startTs = s) (hwc : w.committed) :
    commitOne st s c k = .already := by
  have h1 : (getLock st k).lockTs ≠ s := by
    cases h : st.lock.get k with
    | none => simp only [getLock, h]; omega
    | some l => rw [getLock_of_some h]; exact hl l h
  simp only [commitOne, h1, if_false]
  generalize hg : getWriteInfo st s c s k false true true = g
  rcases g with _ | ⟨w', t⟩
  · have := getWriteInfo_none hg c w hc (Int.le_refl _) hw
    rw [(wiMatch_start hs).2 ⟨hws, hwc⟩] at this; cases this
  · obtain ⟨_, h2, _, _, h5⟩ := getWriteInfo_some hg
    have : t = c := by
      by_cases hlt : t < c
      · have := h5 c w hlt (Int.le_refl _) hw
        rw [(wiMatch_start hs).2 ⟨hws, hwc⟩] at this; cases this
      · omega
    simp only [this, if_true]

theorem commitLoop_cov {st : State} {s c : Int} (ks : List Bytes) {ls ls' : List LockInfo}
    (he : commitLoop st s c ks ls = .ok (.inl ls')) :
    (∀ l ∈ ls, l ∈ ls') ∧
      ∀ k ∈ ks, (∃ l ∈ ls', commitOne st s c k = .lock l) ∨ commitOne st s c k = .already := by
  induction ks generalizing ls with
  | nil =>
    simp only [commitLoop, Out.ok.injEq, Sum.inl.injEq] at he
    subst he
    exact ⟨fun l hl => hl, by simp⟩
  | cons k ks ih =>
    simp only [commitLoop] at he
    split at he
    · rename_i l h1
      obtain ⟨a, b⟩ := ih he
      refine ⟨fun l hl => a l (List.mem_append_left _ hl), ?_⟩
      intro k' hk'
      rcases List.mem_cons.1 hk' with rfl | hk'
      · exact Or.inl ⟨l, a l (by simp), h1⟩
      · exact b k' hk'
    · rename_i h1
      obtain ⟨a, b⟩ := ih he
      refine ⟨a, ?_⟩
      intro k' hk'
      rcases List.mem_cons.1 hk' with rfl | hk'
      · exact Or.inr h1
      · exact b k' hk'
    · cases he
    · cases he

theorem commitLoop_already {st : State} {s c : Int} {ks : List Bytes} {ls : List LockInfo}
    (h : ∀ k ∈ ks, commitOne st s c k = .already) : commitLoop st s c ks ls = .ok (.inl ls) := by
  induction ks with
  | nil => rfl
  | cons k ks ih =>
    simp only [commitLoop, h k List.mem_cons_self]
    exact ih (fun k hk => h k (List.mem_cons_of_mem _ hk))

/-- A successful commit: every key is turned from a prewritten lock into a commit
record, or was committed at that timestamp before; other keys are not touched. -/
theorem commit_exact {st : State} (h : Inv st) {s c : Int} (hs : 0 < s) (hc : c ≤ maxVer) {keys : List Bytes}
    (hr : (commit st s c keys).2 = .ok none) : s < c ∧ ∀ k,
      (k ∈ keys →
        (∃ l, (view st k).lock = some l ∧ l.lockTs = s ∧ l.type ≠ .lock ∧ l.minCommitTs ≤ c ∧
          view (commit st s c keys).1 k =
            ⟨none, upd (view st k).write c (some { startTs := s, op := l.type, shortValue := l.shortValue }),
              (view st k).data⟩) ∨
        ((∀ l, (view st k).lock = some l → l.lockTs ≠ s) ∧
          (∃ w, (view st k).write c = some w ∧ w.startTs = s ∧ w.committed) ∧
          view (commit st s c keys).1 k = view st k)) ∧
      (k ∉ keys → view (commit st s c keys).1 k = view st k) := by
  simp only [commit] at hr ⊢
  split at hr
  · cases hr
  · rename_i hlt
    rw [if_neg hlt]
    refine ⟨by omega, ?_⟩
    generalize hg : commitLoop st s c keys [] = g at hr
    rcases g with x | e | _
    · rcases x with ls | r
      · simp only
        have hok := commitLoop_ok h hs (by omega) keys (fun k hk => hk) (ls := []) (by intro l hl; cases hl) hg
        obtain ⟨_, hcov⟩ := commitLoop_cov keys hg
        have hls : ∀ l ∈ ls, st.lock.get l.key = some l ∧ l.lockTs = s ∧ l.type ≠ .lock ∧ LockOk l.key l ∧
            (false = false → l.minCommitTs ≤ c) := by
          intro l hl
          obtain ⟨_, a⟩ := hok l hl
          exact ⟨a.1, a.2.1, a.2.2.1, a.2.2.2.1, fun _ => a.2.2.2.2⟩
        intro k
        constructor
        · intro hk
          rcases hcov k hk with ⟨l, hl, h1⟩ | h1
          · obtain ⟨a1, a2, a3, a4, a5, a6⟩ := commitOne_lock h hs (by omega) h1
            left
            refine ⟨l, a2, a3, a4, a6, ?_⟩
            subst a1
            exact commit_view_hit ⟨by omega, hc⟩ hls hl
          · obtain ⟨a1, a2⟩ := commitOne_already hs h1
            right
            refine ⟨a1, a2, commit_view_miss ?_⟩
            rintro l hl rfl
            exact a1 l (hls l hl).1 (hls l hl).2.1
        · intro hk
          apply commit_view_miss
          rintro l hl rfl
          exact hk (hok l hl).1
      · cases hr
    · cases hr
    · cases hr

/-- A commit that does not succeed changes nothing. -/
theorem commit_fail {st : State} {s c : Int} {keys : List Bytes}
    (hr : (commit st s c keys).2 ≠ .ok none) : (commit st s c keys).1 = st := by
  simp only [commit] at hr ⊢
  split
  · rfl
  · rename_i hlt
    rw [if_neg hlt] at hr
    split
    · rfl
    · rfl
    · rfl
    · rename_i hg
      rw [hg] at hr; exact absurd rfl hr

/-! ## Rollback -/

theorem rollback_hit {st : State} {wd wo ms : List Bytes} {s : Int} {k : Bytes} (hs : 0 < s ∧ s ≤ maxVer)
    (hwd : k ∈ wd → ∃ l, st.lock.get k = some l ∧ l.lockTs = s ∧ l.shortValue = [])
    (hwo : k ∈ wo → ∃ l, st.lock.get k = some l ∧ l.lockTs = s ∧ l.shortValue ≠ [])
    (hms : k ∈ ms → (∀ l, st.lock.get k = some l → l.lockTs ≠ s) ∧ (view st k).noRecord s)
    (hk : k ∈ wd ∨ k ∈ wo) :
    ∃ l, (view st k).lock = some l ∧ l.lockTs = s ∧
      view (st.apply (rollbackBatch wd wo ms s)) k = ⟨none, upd (view st k).write s (some (rollbackRec s)),
        if l.shortValue = [] then upd (view st k).data s none else (view st k).data⟩ := by
  obtain ⟨e, h1, h2⟩ := rollback_view hs hwd hwo hms
  have hl : ∃ l, (view st k).lock = some l ∧ l.lockTs = s := by
    rcases hk with hk | hk
    · obtain ⟨l, a, b, _⟩ := hwd hk; exact ⟨l, a, b⟩
    · obtain ⟨l, a, b, _⟩ := hwo hk; exact ⟨l, a, b⟩
  obtain ⟨l, a, b⟩ := hl
  have hn : (view (st.apply (rollbackBatch wd wo ms s)) k).lock = none := by
    simp only [view, lock_apply]
    rw [if_pos]
    rcases hk with hk | hk <;> simp [rollbackBatch, hk]
  rcases h2 with rfl | ⟨rfl, _⟩ | ⟨rfl, _⟩
  · rw [h1.nop_eq, a] at hn; cases hn
  · obtain ⟨l', c1, c2, c3⟩ := h1.rollback_eq
    exact ⟨l', c1, c2, c3⟩
  · exact absurd b (h1.mark_eq.1 l a)

theorem rollback_miss {st : State} {wd wo ms : List Bytes} {s : Int} {k : Bytes}
    (h1 : k ∉ wd) (h2 : k ∉ wo) (h3 : k ∉ ms) :
    view (st.apply (rollbackBatch wd wo ms s)) k = view st k := by
  refine view_apply_untouched _ _ _ (by simp [rollbackBatch]) (by simp [rollbackBatch, h1, h2]) ?_
    (by simp [rollbackBatch]) ?_
  · intro e he hh
    simp only [rollbackBatch, List.mem_map, List.mem_append] at he
    obtain ⟨k', hk', rfl⟩ := he
    simp only at hh; subst hh
    rcases hk' with (hk' | hk') | hk'
    · exact h2 hk'
    · exact h1 hk'
    · exact h3 hk'
  · intro e he hh
    simp only [rollbackBatch, List.mem_map] at he
    obtain ⟨k', hk', rfl⟩ := he
    simp only at hh; subst hh
    exact h1 hk'

theorem rollback_mark {st : State} {wd wo ms : List Bytes} {s : Int} {k : Bytes} (hs : 0 < s ∧ s ≤ maxVer)
    (h1 : k ∉ wd) (h2 : k ∉ wo) (hk : k ∈ ms)
    (hms : (∀ l, st.lock.get k = some l → l.lockTs ≠ s) ∧ (view st k).noRecord s) :
    view (st.apply (rollbackBatch wd wo ms s)) k =
      ⟨(view st k).lock, upd (view st k).write s (some (rollbackRec s)), (view st k).data⟩ := by
  obtain ⟨e, a1, a2⟩ := rollback_view (wd := wd) (wo := wo) (ms := ms) hs (fun h => absurd h h1)
    (fun h => absurd h h2) (fun _ => hms)
  rcases a2 with rfl | ⟨rfl, hh⟩ | ⟨rfl, _⟩
  · exfalso
    have hw : (view (st.apply (rollbackBatch wd wo ms s)) k).write s = some (rollbackRec s) := by
      simp only [view, write_apply]
      have : CF.lastPut (rollbackBatch wd wo ms s).putWrite (⟨k, s⟩ : VKey) = some (rollbackRec s) := by
        cases hlp : CF.lastPut (rollbackBatch wd wo ms s).putWrite (⟨k, s⟩ : VKey) with
        | none =>
          have := CF.lastPut_none.1 hlp
          exact absurd rfl (this (⟨k, s⟩, rollbackRec s) (by simp [rollbackBatch, hk]))
        | some w =>
          have := CF.lastPut_mem hlp
          simp only [rollbackBatch, List.mem_map, Prod.mk.injEq] at this
          obtain ⟨_, _, _, rfl⟩ := this
          rfl
      rw [this]; rfl
    rw [a1.nop_eq] at hw
    exact hms.2 s _ hw rfl
  · rcases hh with hh | hh
    · exact absurd hh h1
    · exact absurd hh h2
  · exact a1.mark_eq.2.2

/-! ## BatchRollback -/

/-- Where `BatchRollback` puts a key. -/
theorem batchRollbackOne_cov {st : State} {s : Int} {k : Bytes} {a a' : RbAcc} (h : Inv st)
    (he : batchRollbackOne st s k a = .cont a') :
    ((∀ x ∈ a.withData, x ∈ a'.withData) ∧ (∀ x ∈ a.withoutData, x ∈ a'.withoutData) ∧
      (∀ x ∈ a.missLock, x ∈ a'.missLock)) ∧
    (k ∈ a'.withData ∨ k ∈ a'.withoutData ∨ k ∈ a'.missLock ∨
      (st.lock.get k = none ∧ (RolledBackOn st k s ∨ (0 < s → ∃ c, CommittedOn st k s c)))) := by
  simp only [batchRollbackOne] at he
  split at he
  · rename_i hp
    have hl := (getLock_primary h k).1 hp
    rcases getRollback_spec h s k with ⟨hr, hw⟩ | ⟨hr, hrb⟩
    · rw [hr] at he; simp only [RbStep.cont.injEq] at he; subst he
      refine ⟨⟨fun _ h => h, fun _ h => h, fun _ h => h⟩, ?_⟩
      right; right; right
      exact ⟨hl, Or.inl (rolledBackOn_iff.2 hw)⟩
    · rw [hr] at he
      simp only at he
      generalize hg : getWriteInfo st s maxVer s k false true true = g at he
      rcases g with _ | ⟨w, t⟩
      · simp only [RbStep.cont.injEq] at he; subst he
        refine ⟨⟨fun _ h => h, fun _ h => h, fun _ h => List.mem_append_left _ h⟩, ?_⟩
        right; right; left; simp
      · simp only [RbStep.cont.injEq] at he; subst he
        refine ⟨⟨fun _ h => h, fun _ h => h, fun _ h => h⟩, ?_⟩
        right; right; right
        refine ⟨hl, Or.inr fun hs => ?_⟩
        obtain ⟨_, _, h3, h4, _⟩ := getWriteInfo_some hg
        rw [wiMatch_start hs] at h4
        exact ⟨t, committedOn_iff.2 ⟨w, h3, h4⟩⟩
  · split at he
    · cases he
    · split at he
      · cases he
      · split at he
        · cases he
        · split at he
          · simp only [RbStep.cont.injEq] at he; subst he
            exact ⟨⟨fun _ h => List.mem_append_left _ h, fun _ h => h, fun _ h => h⟩, by simp⟩
          · simp only [RbStep.cont.injEq] at he; subst he
            exact ⟨⟨fun _ h => h, fun _ h => List.mem_append_left _ h, fun _ h => h⟩, by simp⟩

theorem batchRollbackLoop_cov {st : State} (h : Inv st) {s : Int} (ks : List Bytes) {a a' : RbAcc}
    (he : batchRollbackLoop st s ks a = .cont a') :
    ((∀ x ∈ a.withData, x ∈ a'.withData) ∧ (∀ x ∈ a.withoutData, x ∈ a'.withoutData) ∧
      (∀ x ∈ a.missLock, x ∈ a'.missLock)) ∧
    ∀ k ∈ ks, k ∈ a'.withData ∨ k ∈ a'.withoutData ∨ k ∈ a'.missLock ∨
      (st.lock.get k = none ∧ (RolledBackOn st k s ∨ (0 < s → ∃ c, CommittedOn st k s c))) := by
  induction ks generalizing a with
  | nil =>
    simp only [batchRollbackLoop, RbStep.cont.injEq] at he; subst he
    exact ⟨⟨fun _ h => h, fun _ h => h, fun _ h => h⟩, by simp⟩
  | cons k ks ih =>
    simp only [batchRollbackLoop] at he
    split at he
    · rename_i a1 h1
      obtain ⟨⟨b1, b2, b3⟩, b4⟩ := batchRollbackOne_cov h h1
      obtain ⟨⟨c1, c2, c3⟩, c4⟩ := ih he
      refine ⟨⟨fun x hx => c1 x (b1 x hx), fun x hx => c2 x (b2 x hx), fun x hx => c3 x (b3 x hx)⟩, ?_⟩
      intro k' hk'
      rcases List.mem_cons.1 hk' with rfl | hk'
      · rcases b4 with b4 | b4 | b4 | b4
        · exact Or.inl (c1 _ b4)
        · exact Or.inr (Or.inl (c2 _ b4))
        · exact Or.inr (Or.inr (Or.inl (c3 _ b4)))
        · exact Or.inr (Or.inr (Or.inr b4))
      · exact c4 k' hk'
    · rename_i h1
      rw [he] at h1
      exact absurd rfl (h1 a')

/-- A successful `BatchRollback`, key by key. -/
theorem batchRollback_exact {st : State} (h : Inv st) {s : Int} (hs : 0 < s ∧ s ≤ maxVer) {keys : List Bytes}
    (hr : (batchRollback st s keys).2 = .ok none) : ∀ k,
      (k ∈ keys →
        (∃ l, (view st k).lock = some l ∧ l.lockTs = s ∧
          view (batchRollback st s keys).1 k = ⟨none, upd (view st k).write s (some (rollbackRec s)),
            if l.shortValue = [] then upd (view st k).data s none else (view st k).data⟩) ∨
        ((view st k).lock = none ∧ (view st k).noRecord s ∧
          view (batchRollback st s keys).1 k =
            ⟨none, upd (view st k).write s (some (rollbackRec s)), (view st k).data⟩) ∨
        ((view st k).lock = none ∧ (RolledBackOn st k s ∨ ∃ c, CommittedOn st k s c) ∧
          view (batchRollback st s keys).1 k = view st k)) ∧
      (k ∉ keys → view (batchRollback st s keys).1 k = view st k) := by
  simp only [batchRollback] at hr ⊢
  generalize hg : batchRollbackLoop st s keys {} = g at hr
  cases g with
  | fatal => cases hr
  | ret r => cases hr
  | cont a =>
    simp only
    have hok := batchRollbackLoop_ok h hs.1 keys (fun k hk => hk) (a := {})
      ⟨fun k hk => (by cases hk), fun k hk => (by cases hk), fun k hk => (by cases hk)⟩ hg
    obtain ⟨_, hcov⟩ := batchRollbackLoop_cov h keys hg
    obtain ⟨o1, o2, o3⟩ := hok
    intro k
    have hnone : ∀ {x}, x ∈ a.missLock → x ∉ a.withData ∧ x ∉ a.withoutData := by
      intro x hx
      obtain ⟨_, hn, _⟩ := o3 x hx
      constructor
      · intro hh; obtain ⟨_, l, hl, _⟩ := o1 x hh; rw [hn] at hl; cases hl
      · intro hh; obtain ⟨_, l, hl, _⟩ := o2 x hh; rw [hn] at hl; cases hl
    have hms : k ∈ a.missLock → (∀ l, st.lock.get k = some l → l.lockTs ≠ s) ∧ (view st k).noRecord s := by
      intro hh
      obtain ⟨_, hn, hno⟩ := o3 k hh
      exact ⟨fun l hl => (by rw [hn] at hl; cases hl), hno⟩
    constructor
    · intro hk
      rcases hcov k hk with hk' | hk' | hk' | ⟨hk1, hk2⟩
      · exact Or.inl (rollback_hit hs (fun h => (o1 k h).2) (fun h => (o2 k h).2) hms (Or.inl hk'))
      · exact Or.inl (rollback_hit hs (fun h => (o1 k h).2) (fun h => (o2 k h).2) hms (Or.inr hk'))
      · right; left
        obtain ⟨_, hn, hno⟩ := o3 k hk'
        refine ⟨hn, hno, ?_⟩
        rw [rollback_mark hs (hnone hk').1 (hnone hk').2 hk' (hms hk')]
        simp only [view, hn]
      · have n1 : k ∉ a.withData := by
          intro hh; obtain ⟨_, l, hl, _⟩ := o1 k hh; rw [hk1] at hl; cases hl
        have n2 : k ∉ a.withoutData := by
          intro hh; obtain ⟨_, l, hl, _⟩ := o2 k hh; rw [hk1] at hl; cases hl
        by_cases n3 : k ∈ a.missLock
        · right; left
          obtain ⟨_, hn, hno⟩ := o3 k n3
          refine ⟨hn, hno, ?_⟩
          rw [rollback_mark hs n1 n2 n3 (hms n3)]
          simp only [view, hn]
        · right; right
          refine ⟨hk1, ?_, rollback_miss n1 n2 n3⟩
          rcases hk2 with h' | h'
          · exact Or.inl h'
          · exact Or.inr (h' hs.1)
    · intro hk
      exact rollback_miss (fun hh => hk (o1 k hh).1) (fun hh => hk (o2 k hh).1) (fun hh => hk (o3 k hh).1)

theorem batchRollback_fail {st : State} {s : Int} {keys : List Bytes}
    (hr : (batchRollback st s keys).2 ≠ .ok none) : (batchRollback st s keys).1 = st := by
  simp only [batchRollback] at hr ⊢
  split
  · rfl
  · rfl
  · rename_i hg; rw [hg] at hr; exact absurd rfl hr

/-! ## Resolve -/

/-- The effect of resolving transaction `s` with `c` on one key. -/
def Resolved (s c : Int) (x y : KS) : Prop :=
  ((∀ l, x.lock = some l → l.lockTs ≠ s) ∧ y = x) ∨
  ∃ l, x.lock = some l ∧ l.lockTs = s ∧ l.type ≠ .lock ∧
    y = if 0 < c then
        ⟨none, upd x.write c (some { startTs := s, op := l.type, shortValue := l.shortValue }), x.data⟩
      else ⟨none, upd x.write s (some (rollbackRec s)), if l.shortValue = [] then upd x.data s none else x.data⟩

theorem resolveOne_cov {c : Int} {k : Bytes} {l : LockInfo} {a a' : RsAcc}
    (he : resolveOne c k l a = .inl a') :
    ((∀ x ∈ a.commits, x ∈ a'.commits) ∧ (∀ x ∈ a.withData, x ∈ a'.withData) ∧
      (∀ x ∈ a.withoutData, x ∈ a'.withoutData)) ∧ l.type ≠ .lock ∧
    (if 0 < c then l ∈ a'.commits else (k ∈ a'.withData ∨ k ∈ a'.withoutData)) := by
  simp only [resolveOne] at he
  split at he
  · cases he
  · rename_i hty
    split at he
    · cases he
    · split at he
      · rename_i hc
        simp only [Sum.inl.injEq] at he; subst he
        exact ⟨⟨fun _ h => List.mem_append_left _ h, fun _ h => h, fun _ h => h⟩, hty, by rw [if_pos hc]; simp⟩
      · rename_i hc
        split at he
        · simp only [Sum.inl.injEq] at he; subst he
          exact ⟨⟨fun _ h => h, fun _ h => List.mem_append_left _ h, fun _ h => h⟩, hty, by rw [if_neg hc]; simp⟩
        · simp only [Sum.inl.injEq] at he; subst he
          exact ⟨⟨fun _ h => h, fun _ h => h, fun _ h => List.mem_append_left _ h⟩, hty, by rw [if_neg hc]; simp⟩

theorem resolveLoop_cov {st : State} (h : Inv st) {s c : Int} (ks : List Bytes) {a a' : RsAcc}
    (he : resolveLoop st s c ks a = .inl a') :
    ((∀ x ∈ a.commits, x ∈ a'.commits) ∧ (∀ x ∈ a.withData, x ∈ a'.withData) ∧
      (∀ x ∈ a.withoutData, x ∈ a'.withoutData)) ∧
    ∀ k ∈ ks, ∀ l, st.lock.get k = some l → l.lockTs = s → l.type ≠ .lock ∧
      (if 0 < c then l ∈ a'.commits else (k ∈ a'.withData ∨ k ∈ a'.withoutData)) := by
  induction ks generalizing a with
  | nil =>
    simp only [resolveLoop, Sum.inl.injEq] at he; subst he
    exact ⟨⟨fun _ h => h, fun _ h => h, fun _ h => h⟩, by simp⟩
  | cons k ks ih =>
    simp only [resolveLoop] at he
    split at he
    · rename_i hp
      obtain ⟨a1, a2⟩ := ih he
      refine ⟨a1, ?_⟩
      intro k' hk' l hl hts
      rcases List.mem_cons.1 hk' with rfl | hk'
      · rw [(getLock_primary h _).1 hp] at hl; cases hl
      · exact a2 k' hk' l hl hts
    · split at he
      · rename_i hts'
        obtain ⟨a1, a2⟩ := ih he
        refine ⟨a1, ?_⟩
        intro k' hk' l hl hts
        rcases List.mem_cons.1 hk' with rfl | hk'
        · rw [getLock_of_some hl] at hts'; exact absurd hts hts'
        · exact a2 k' hk' l hl hts
      · rename_i hp _
        have hlk : LockOk k (getLock st k) := by
          rcases getLock_cases h k with ⟨h1, h2⟩ | h2
          · rw [h2] at hp; exact absurd rfl hp
          · exact h2.2
        split at he
        · rename_i b hb
          obtain ⟨⟨b1, b2, b3⟩, b4, b5⟩ := resolveOne_cov hb
          obtain ⟨⟨c1, c2, c3⟩, c4⟩ := ih he
          refine ⟨⟨fun x hx => c1 x (b1 x hx), fun x hx => c2 x (b2 x hx), fun x hx => c3 x (b3 x hx)⟩, ?_⟩
          intro k' hk' l hl hts
          rcases List.mem_cons.1 hk' with rfl | hk'
          · rw [getLock_of_some hl] at b4 b5
            refine ⟨b4, ?_⟩
            split
            · rename_i hc; rw [if_pos hc] at b5; exact c1 _ b5
            · rename_i hc; rw [if_neg hc] at b5
              rcases b5 with b5 | b5
              · exact Or.inl (c2 _ b5)
              · exact Or.inr (c3 _ b5)
          · exact c4 k' hk' l hl hts
        · cases he

/-- `resolveApply` on one key. -/
theorem resolveApply_exact {st : State} {s c : Int} (hs : 0 < s ∧ s ≤ maxVer)
    (hc : 0 < c → s < c ∧ c ≤ maxVer) {P : Bytes → Prop} {a : RsAcc} (ha : RsOk st s c P a) (k : Bytes)
    (hcov : ∀ l, st.lock.get k = some l → l.lockTs = s → P k → l.type ≠ .lock ∧
      (if 0 < c then l ∈ a.commits else (k ∈ a.withData ∨ k ∈ a.withoutData))) (hkey : ∀ l, st.lock.get k = some l → l.key = k) :
    (P k → Resolved s c (view st k) (view (resolveApply st s c a) k)) ∧
      (¬ P k → view (resolveApply st s c a) k = view st k) := by
  obtain ⟨e, h1, h2⟩ := resolveApply_view hs hc ha k
  constructor
  · intro hP
    by_cases hl : ∃ l, (view st k).lock = some l ∧ l.lockTs = s
    · obtain ⟨l, hl, hts⟩ := hl
      obtain ⟨hty, hin⟩ := hcov l hl hts hP
      have hn : (view (resolveApply st s c a) k).lock = none := by
        simp only [view, resolveApply]
        rw [lock_apply, lock_apply]
        split at hin
        · have hd : k ∈ (commitBatch s c a.commits).delLock := List.mem_map.2 ⟨l, hin, hkey l hl⟩
          rw [if_pos hd]
          split
          · rfl
          · simp [rollbackBatch, CF.lastPut]
        · rw [if_pos]
          rcases hin with h | h <;> simp [rollbackBatch, h]
      right
      rcases h2 with rfl | ⟨rfl, _⟩ | ⟨rfl, _, hc0⟩
      · rw [h1.nop_eq, hl] at hn; cases hn
      · obtain ⟨l', a1, a2, a3, a4, a5, a6, a7⟩ := h1.commit_eq
        refine ⟨l', a1, a2, a3, ?_⟩
        rw [if_pos (by omega), a7]
      · obtain ⟨l', a1, a2, a3⟩ := h1.rollback_eq
        rw [hl] at a1; cases a1
        refine ⟨l, hl, a2, hty, ?_⟩
        rw [if_neg (by omega), a3]
    · left
      refine ⟨fun l h3 h4 => hl ⟨l, h3, h4⟩, ?_⟩
      rcases h2 with rfl | ⟨rfl, _⟩ | ⟨rfl, _, hc0⟩
      · exact h1.nop_eq
      · obtain ⟨l', a1, a2, _⟩ := h1.commit_eq; exact absurd ⟨l', a1, a2⟩ hl
      · obtain ⟨l', a1, a2, _⟩ := h1.rollback_eq; exact absurd ⟨l', a1, a2⟩ hl
  · intro hP
    rcases h2 with rfl | ⟨rfl, hp⟩ | ⟨rfl, hp, _⟩
    · exact h1.nop_eq
    · exact absurd hp hP
    · exact absurd hp hP

theorem resolveLock_exact {st : State} (h : Inv st) {s c : Int} (hs : 0 < s ∧ s ≤ maxVer) (hc : c ≤ maxVer)
    {keys : List Bytes} (hr : (resolveLock st s c keys).2 = .ok none) : 0 ≤ c ∧ (0 < c → s < c) ∧ ∀ k,
      (k ∈ keys → Resolved s c (view st k) (view (resolveLock st s c keys).1 k)) ∧
      (k ∉ keys → view (resolveLock st s c keys).1 k = view st k) := by
  simp only [resolveLock] at hr ⊢
  split at hr
  · cases hr
  · rename_i h1
    rw [if_neg h1]
    split at hr
    · cases hr
    · rename_i h2
      rw [if_neg h2]
      have hcc : 0 < c → s < c ∧ c ≤ maxVer := fun h => ⟨by omega, hc⟩
      refine ⟨by omega, fun h => (hcc h).1, fun k => ?_⟩
      generalize hg : resolveLoop st s c keys {} = g at hr
      rcases g with a | r
      · simp only
        have hok := resolveLoop_ok h keys (fun k hk => hk) (RsOk.nil _ _ _ _) hg
        obtain ⟨_, hcov⟩ := resolveLoop_cov h keys hg
        exact resolveApply_exact hs hcc hok k (fun l hl hts hk => hcov k hk l hl hts)
          (fun l hl => ((h k).lock l hl).key)
      · cases hr

theorem resolveLock_fail {st : State} {s c : Int} {keys : List Bytes}
    (hr : (resolveLock st s c keys).2 ≠ .ok none) : (resolveLock st s c keys).1 = st := by
  simp only [resolveLock] at hr ⊢
  split
  · rfl
  · rename_i h1
    rw [if_neg h1] at hr
    split
    · rfl
    · rename_i h2
      rw [if_neg h2] at hr
      split
      · rfl
      · rename_i hg; rw [hg] at hr; exact absurd rfl hr

theorem batchResolveLoop_cov {c : Int} (es : List (Bytes × LockInfo)) {a a' : RsAcc}
    (he : batchResolveLoop c es a = .inl a') :
    ((∀ x ∈ a.commits, x ∈ a'.commits) ∧ (∀ x ∈ a.withData, x ∈ a'.withData) ∧
      (∀ x ∈ a.withoutData, x ∈ a'.withoutData)) ∧
    ∀ e ∈ es, e.2.type ≠ .lock ∧
      (if 0 < c then e.2 ∈ a'.commits else (e.2.key ∈ a'.withData ∨ e.2.key ∈ a'.withoutData)) := by
  induction es generalizing a with
  | nil =>
    simp only [batchResolveLoop, Sum.inl.injEq] at he; subst he
    exact ⟨⟨fun _ h => h, fun _ h => h, fun _ h => h⟩, by simp⟩
  | cons e es ih =>
    simp only [batchResolveLoop] at he
    split at he
    · rename_i b hb
      obtain ⟨⟨b1, b2, b3⟩, b4, b5⟩ := resolveOne_cov hb
      obtain ⟨⟨c1, c2, c3⟩, c4⟩ := ih he
      refine ⟨⟨fun x hx => c1 x (b1 x hx), fun x hx => c2 x (b2 x hx), fun x hx => c3 x (b3 x hx)⟩, ?_⟩
      intro e' he'
      rcases List.mem_cons.1 he' with rfl | he'
      · refine ⟨b4, ?_⟩
        split
        · rename_i hc; rw [if_pos hc] at b5; exact c1 _ b5
        · rename_i hc; rw [if_neg hc] at b5
          rcases b5 with b5 | b5
          · exact Or.inl (c2 _ b5)
          · exact Or.inr (c3 _ b5)
      · exact c4 e' he'
    · cases he

theorem batchResolveOne_exact {st : State} (h : Inv st) {s c : Int} (hs : 0 < s ∧ s ≤ maxVer)
    (hc : 0 < c → s < c ∧ c ≤ maxVer) (hr : (batchResolveOne st s c).2 = none) (k : Bytes) :
    Resolved s c (view st k) (view (batchResolveOne st s c).1 k) := by
  simp only [batchResolveOne] at hr ⊢
  generalize hg : batchResolveLoop c (scanLocksOf st s) {} = g at hr
  rcases g with a | r
  · simp only
    have hok := batchResolveLoop_ok _ (scanLocksOf_ok h) (RsOk.nil _ _ _ _) hg
    obtain ⟨_, hcov⟩ := batchResolveLoop_cov _ hg
    refine (resolveApply_exact hs hc hok k (fun l hl hts _ => ?_) (fun l hl => ((h k).lock l hl).key)).1 trivial
    have hm : (k, l) ∈ scanLocksOf st s := by
      simp only [scanLocksOf, List.mem_filter, decide_eq_true_eq]
      exact ⟨(CF.mem_iff_get _ _ _).2 hl, by omega, by omega, by omega⟩
    have hk := ((h k).lock l hl).key
    have := hcov _ hm
    simp only [hk] at this
    exact this
  · cases hr

end Verif.Txn
