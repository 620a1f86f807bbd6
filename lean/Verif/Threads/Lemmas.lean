import Verif.Threads.Model

/-! # The threads that work on vector indexes (lemmas) -/

namespace Verif.Threads

theorem split_at {α : Type} : ∀ {l : List α} {k : Nat} {t : α}, l[k]? = some t →
    ∃ a b, l = a ++ t :: b ∧ (∀ x, l.set k x = a ++ x :: b) ∧ l.eraseIdx k = a ++ b
  | [], k, t, h => by simp at h
  | y :: l, 0, t, h => by
    have : y = t := by simpa using h
    subst this
    exact ⟨[], l, rfl, fun _ => rfl, rfl⟩
  | y :: l, k + 1, t, h => by
    obtain ⟨a, b, h1, h2, h3⟩ := split_at (l := l) (k := k) (t := t) (by simpa using h)
    refine ⟨y :: a, b, by rw [h1]; rfl, fun x => ?_, ?_⟩
    · rw [List.set_cons_succ, h2 x]
      rfl
    · rw [List.eraseIdx_cons_succ, h3]
      rfl

/-- Threads asleep. -/
def asleepN (l : List Worker) : Nat := l.countP (fun w => w.pc == .asleep)

/-- Threads about to look. -/
def lookN (l : List Worker) : Nat := l.countP (fun w => w.pc == .look)

/-- The task a thread runs. -/
def Worker.task (w : Worker) : Option Task :=
  match w.pc with
  | .run t => some t
  | _ => none

/-- Tasks that are run. -/
def running (s : St) : List Task := s.workers.filterMap Worker.task

/-- What holds at all times. -/
structure Inv (s : St) : Prop where
  /-- who has found nothing to do holds the lock, so there is nothing -/
  sleepy : ∀ w ∈ s.workers, w.pc = .sleepy → s.tasks = []
  /-- if threads sleep, there is a thread or a notice for each task -/
  wake : asleepN s.workers ≠ 0 → s.tasks.length ≤ s.notices + lookN s.workers
  exited : ∀ w ∈ s.workers, w.pc = .exited → w.stop = true

theorem inv_start (n : Nat) : Inv (start n) := by
  refine ⟨?_, ?_, ?_⟩
  · intro w _ _
    rfl
  · intro _
    exact Nat.zero_le _
  · intro w hw h
    have : w = ⟨.look, false⟩ := List.eq_of_mem_replicate hw
    subst this
    cases h

theorem free_iff {s : St} : free s = true ↔ ∀ w ∈ s.workers, w.pc ≠ .sleepy := by
  simp [free]

theorem all_awake {l : List Worker} (h : l.all (fun w => w.pc != .asleep) = true) : asleepN l = 0 := by
  unfold asleepN
  rw [List.countP_eq_zero]
  intro w hw
  have := List.all_eq_true.1 h w hw
  simpa using this

theorem asleepN_split (a b : List Worker) (w : Worker) :
    asleepN (a ++ w :: b) = asleepN (a ++ b) + (if w.pc = .asleep then 1 else 0) := by
  simp only [asleepN, List.countP_append, List.countP_cons, beq_iff_eq]
  omega

theorem lookN_split (a b : List Worker) (w : Worker) :
    lookN (a ++ w :: b) = lookN (a ++ b) + (if w.pc = .look then 1 else 0) := by
  simp only [lookN, List.countP_append, List.countP_cons, beq_iff_eq]
  omega

theorem mem_split' {α : Type} {a b : List α} {x y : α} (h : y ∈ a ++ x :: b) : y = x ∨ y ∈ a ++ b := by
  simp only [List.mem_append, List.mem_cons] at h ⊢
  rcases h with h | h | h
  · exact .inr (.inl h)
  · exact .inl h
  · exact .inr (.inr h)

theorem mem_split_of {α : Type} {a b : List α} {x y : α} (h : y ∈ a ++ b) : y ∈ a ++ x :: b := by
  simp only [List.mem_append, List.mem_cons] at h ⊢
  rcases h with h | h
  · exact .inl h
  · exact .inr (.inr h)

theorem woken_counts : ∀ l : List Worker, asleepN (l.map Worker.woken) = 0
  | [] => rfl
  | w :: l => by
    have ih := woken_counts l
    unfold asleepN at ih ⊢
    rw [List.map_cons, List.countP_cons, ih]
    unfold Worker.woken
    split
    · simp
    · rename_i h
      simp [h]

theorem inv_step {s : St} (h : Inv s) (e : Ev) : Inv (step s e) := by
  cases e with
  | submit t =>
    simp only [step]
    split
    · exact h
    · exact ⟨h.sleepy, h.wake, h.exited⟩
  | push k =>
    simp only [step]
    split
    · split
      · rename_i hf
        refine ⟨?_, ?_, h.exited⟩
        · intro w hw hp
          exact absurd hp (free_iff.1 hf w hw)
        · intro ha
          have := h.wake ha
          simp only [List.length_append, List.length_singleton]
          omega
      · exact h
    · exact h
  | notice i =>
    simp only [step]
    split
    · exact h
    · split
      · rename_i hall
        refine ⟨h.sleepy, ?_, h.exited⟩
        intro ha
        exact absurd (all_awake hall) ha
      · split
        · rename_i w hi
          split
          · rename_i hp
            obtain ⟨a, b, h1, h2, _⟩ := split_at hi
            have hw := h.wake
            rw [h1] at hw
            rw [asleepN_split, lookN_split] at hw
            simp only [hp] at hw
            simp only [h2]
            refine ⟨?_, ?_, ?_⟩
            · intro v hv hvp
              rcases mem_split' hv with rfl | hv
              · cases hvp
              · exact h.sleepy v (by rw [h1]; exact mem_split_of hv) hvp
            · intro _
              rw [lookN_split]
              have := hw (by simp)
              simp only [if_true] at this ⊢
              simp at this
              omega
            · intro v hv hvp
              rcases mem_split' hv with rfl | hv
              · cases hvp
              · exact h.exited v (by rw [h1]; exact mem_split_of hv) hvp
          · exact h
        · exact h
  | look i k =>
    simp only [step]
    split
    · rename_i w hi
      split
      · rename_i hc
        obtain ⟨hp, hf⟩ := hc
        obtain ⟨a, b, h1, h2, _⟩ := split_at hi
        split
        · rename_i ht
          simp only [h2]
          refine ⟨fun _ _ _ => ht, ?_, ?_⟩
          · intro _
            simp [ht]
          · intro v hv hvp
            rcases mem_split' hv with rfl | hv
            · simp only at hvp ⊢
              split at hvp
              · assumption
              · cases hvp
            · exact h.exited v (by rw [h1]; exact mem_split_of hv) hvp
        · split
          · rename_i t hk
            split
            · obtain ⟨c, d, g1, _, g3⟩ := split_at hk
              have hw := h.wake
              rw [h1, g1] at hw
              rw [asleepN_split, lookN_split] at hw
              simp only [hp] at hw
              simp only [h2, g3]
              refine ⟨?_, ?_, ?_⟩
              · intro v hv hvp
                rcases mem_split' hv with rfl | hv
                · cases hvp
                · exact absurd hvp (free_iff.1 hf v (by rw [h1]; exact mem_split_of hv))
              · rw [asleepN_split, lookN_split]
                intro ha
                have := hw (by simpa using ha)
                simp at this ⊢
                omega
              · intro v hv hvp
                rcases mem_split' hv with rfl | hv
                · cases hvp
                · exact h.exited v (by rw [h1]; exact mem_split_of hv) hvp
            · exact h
          · exact h
      · exact h
    · exact h
  | sleep i =>
    simp only [step]
    split
    · rename_i w hi
      split
      · rename_i hp
        obtain ⟨a, b, h1, h2, _⟩ := split_at hi
        have ht : s.tasks = [] := h.sleepy w (by rw [h1]; simp) hp
        simp only [h2]
        refine ⟨fun _ _ _ => ht, ?_, ?_⟩
        · intro _
          simp [ht]
        · intro v hv hvp
          rcases mem_split' hv with rfl | hv
          · cases hvp
          · exact h.exited v (by rw [h1]; exact mem_split_of hv) hvp
      · exact h
    · exact h
  | finish i =>
    simp only [step]
    split
    · rename_i w hi
      split
      · rename_i t hp
        obtain ⟨a, b, h1, h2, _⟩ := split_at hi
        have hw := h.wake
        rw [h1] at hw
        rw [asleepN_split, lookN_split] at hw
        simp only [hp] at hw
        simp only [h2]
        refine ⟨?_, ?_, ?_⟩
        · intro v hv hvp
          rcases mem_split' hv with rfl | hv
          · cases hvp
          · exact h.sleepy v (by rw [h1]; exact mem_split_of hv) hvp
        · rw [asleepN_split, lookN_split]
          intro ha
          have := hw (by simpa using ha)
          simp at this ⊢
          omega
        · intro v hv hvp
          rcases mem_split' hv with rfl | hv
          · cases hvp
          · exact h.exited v (by rw [h1]; exact mem_split_of hv) hvp
      · exact h
    · exact h
  | wake i =>
    simp only [step]
    split
    · rename_i w hi
      obtain ⟨a, b, h1, h2, _⟩ := split_at hi
      by_cases hp : w.pc = .asleep
      · have hw := h.wake
        rw [h1] at hw
        rw [asleepN_split, lookN_split] at hw
        simp only [hp] at hw
        simp only [h2, Worker.woken, hp, if_true]
        refine ⟨?_, ?_, ?_⟩
        · intro v hv hvp
          rcases mem_split' hv with rfl | hv
          · cases hvp
          · exact h.sleepy v (by rw [h1]; exact mem_split_of hv) hvp
        · intro _
          rw [lookN_split]
          have := hw (by simp)
          simp at this ⊢
          omega
        · intro v hv hvp
          rcases mem_split' hv with rfl | hv
          · cases hvp
          · exact h.exited v (by rw [h1]; exact mem_split_of hv) hvp
      · have : w.woken = w := by simp [Worker.woken, hp]
        rw [this, h2, ← h1]
        exact h
    · exact h
  | stop i =>
    simp only [step]
    split
    · rename_i w hi
      obtain ⟨a, b, h1, h2, _⟩ := split_at hi
      have hw := h.wake
      rw [h1] at hw
      rw [asleepN_split, lookN_split] at hw
      simp only [h2]
      refine ⟨?_, ?_, ?_⟩
      · intro v hv hvp
        rcases mem_split' hv with rfl | hv
        · exact h.sleepy w (by rw [h1]; simp) hvp
        · exact h.sleepy v (by rw [h1]; exact mem_split_of hv) hvp
      · rw [asleepN_split, lookN_split]
        exact hw
      · intro v hv hvp
        rcases mem_split' hv with rfl | hv
        · rfl
        · exact h.exited v (by rw [h1]; exact mem_split_of hv) hvp
    · exact h
  | noticeAll =>
    refine ⟨?_, ?_, ?_⟩
    · intro v hv hvp
      obtain ⟨w, hw, rfl⟩ := List.mem_map.1 hv
      refine h.sleepy w hw ?_
      unfold Worker.woken at hvp
      split at hvp
      · cases hvp
      · exact hvp
    · intro ha
      exact absurd (woken_counts _) ha
    · intro v hv hvp
      obtain ⟨w, hw, rfl⟩ := List.mem_map.1 hv
      unfold Worker.woken at hvp ⊢
      split at hvp
      · cases hvp
      · rename_i hn
        rw [if_neg hn]
        exact h.exited w hw hvp
  | destroy => exact ⟨h.sleepy, h.wake, h.exited⟩
  | grow =>
    refine ⟨?_, ?_, ?_⟩
    · intro v hv hvp
      rcases List.mem_append.1 hv with hv | hv
      · exact h.sleepy v hv hvp
      · have := List.mem_singleton.1 hv
        subst this
        cases hvp
    · have := h.wake
      simp only [step, asleepN, lookN, List.countP_append, List.countP_singleton] at this ⊢
      intro ha
      have := this (by simpa using ha)
      omega
    · intro v hv hvp
      rcases List.mem_append.1 hv with hv | hv
      · exact h.exited v hv hvp
      · have := List.mem_singleton.1 hv
        subst this
        cases hvp

theorem inv_exec {l : List Ev} : ∀ {s : St}, Inv s → Inv (exec s l) := by
  induction l with
  | nil => exact fun h => h
  | cons e l ih => exact fun h => ih (inv_step h e)

end Verif.Threads
