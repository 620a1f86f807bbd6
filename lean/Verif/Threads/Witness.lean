import Verif.Threads.Props

/-! # The threads that work on vector indexes: what does not hold, and cases (C113) -/

namespace Verif.Threads

/-- Only the steps at indexes there are need to be looked at. -/
theorem quiet_of {s : St} (h1 : s.arriving = []) (h2 : s.notices = 0)
    (h3 : ∀ w ∈ s.workers, w.pc = .asleep ∨ w.pc = .exited) : Quiet s := by
  have hw : ∀ {i : Nat} {w : Worker}, s.workers[i]? = some w → w.pc = .asleep ∨ w.pc = .exited :=
    fun hi => h3 _ (List.mem_of_getElem? hi)
  intro e he
  cases e with
  | push k => simp [step, h1]
  | notice i => simp [step, h2]
  | look i k =>
    simp only [step]
    split
    · rename_i w hi
      rcases hw hi with h | h <;> simp [h]
    · rfl
  | sleep i =>
    simp only [step]
    split
    · rename_i w hi
      rcases hw hi with h | h <;> simp [h]
    · rfl
  | finish i =>
    simp only [step]
    split
    · rename_i w hi
      rcases hw hi with h | h <;> simp [h]
    · rfl
  | _ => cases he

/-- A thread has found nothing to do and is told to stop before it sleeps: it misses the notice, and
who makes the pool smaller (or destroys it) waits for it for ever. -/
def missed : List Ev := [.look 0 0, .sleep 0, .look 1 0, .stop 1, .noticeAll, .sleep 1, .look 0 0, .sleep 0]

theorem C113_shrink_false : Quiet (exec (start 2) missed) ∧
    (exec (start 2) missed).workers[1]? = some ⟨.asleep, true⟩ := by
  refine ⟨quiet_of (by decide +kernel) (by decide +kernel) ?_, by decide +kernel⟩
  have : (exec (start 2) missed).workers = [⟨.asleep, false⟩, ⟨.asleep, true⟩] := by decide +kernel
  rw [this]
  decide +kernel

/-- A pool is made as small as nothing (the request to do so is not refused): tasks given afterwards
are taken and never run; who waits for them waits for ever. -/
def emptied : List Ev := [.stop 0, .noticeAll, .look 0 0, .submit ⟨1, 0⟩, .push 0, .notice 0]

theorem C113_empty_false : Quiet (exec (start 1) emptied) ∧ given emptied = [⟨1, 0⟩] ∧
    (exec (start 1) emptied).tasks = [⟨1, 0⟩] ∧ (exec (start 1) emptied).ended = [] ∧
    (exec (start 1) emptied).destroyed = false := by
  refine ⟨quiet_of (by decide +kernel) (by decide +kernel) ?_, by decide +kernel⟩
  have : (exec (start 1) emptied).workers = [⟨.exited, true⟩] := by decide +kernel
  rw [this]
  decide +kernel

/-- A task that is given while the pool is destroyed is taken and never run. -/
def late : List Ev := [.submit ⟨1, 0⟩, .destroy, .stop 0, .noticeAll, .look 0 0, .push 0, .notice 0]

theorem C113_destroy_false : Quiet (exec (start 1) late) ∧ given late = [⟨1, 0⟩] ∧
    (exec (start 1) late).tasks = [⟨1, 0⟩] ∧ (exec (start 1) late).ended = [] := by
  refine ⟨quiet_of (by decide +kernel) (by decide +kernel) ?_, by decide +kernel⟩
  have : (exec (start 1) late).workers = [⟨.exited, true⟩] := by decide +kernel
  rw [this]
  decide +kernel

/-- Tasks of one priority are not run in the order given: which is on top is not said. -/
theorem C113_order_false : ∃ l : List Ev, given l = [⟨1, 0⟩, ⟨2, 0⟩] ∧
    (exec (start 1) l).ended = [⟨2, 0⟩, ⟨1, 0⟩] :=
  ⟨[.submit ⟨1, 0⟩, .push 0, .submit ⟨2, 0⟩, .push 0, .look 0 1, .finish 0, .look 0 0, .finish 0], by decide +kernel⟩

/-! ## Cases of the theorems -/

/-- Two threads, three tasks, a task of high priority, a wake-up without reason, a pool made smaller. -/
def sample : List Ev :=
  [.look 0 0, .sleep 0, .look 1 0, .sleep 1, .submit ⟨1, 0⟩, .submit ⟨2, 1⟩, .push 0, .push 0, .notice 1, .look 1 1, .submit ⟨3, 0⟩,
    .wake 0, .look 0 0, .push 0, .notice 0, .notice 0, .stop 1, .noticeAll, .finish 1, .look 1 0, .finish 0, .finish 1, .look 1 0,
    .look 0 0, .sleep 0]

example : (exec (start 2) sample).workers = [⟨.asleep, false⟩, ⟨.exited, true⟩] ∧
    (exec (start 2) sample).ended = [⟨2, 1⟩, ⟨1, 0⟩, ⟨3, 0⟩] := by decide +kernel

example : Quiet (exec (start 2) sample) ∧ (⟨.asleep, false⟩ : Worker) ∈ (exec (start 2) sample).workers ∧
    given sample = [⟨1, 0⟩, ⟨2, 1⟩, ⟨3, 0⟩] := by
  have hw : (exec (start 2) sample).workers = [⟨.asleep, false⟩, ⟨.exited, true⟩] := by decide +kernel
  refine ⟨quiet_of (by decide +kernel) (by decide +kernel) ?_, ?_, by decide +kernel⟩
  · rw [hw]
    decide +kernel
  · rw [hw]
    decide +kernel

/-- A thread sleeps while tasks wait; a notice is on its way. -/
example : (exec (start 2) (sample.take 8)).workers = [⟨.asleep, false⟩, ⟨.asleep, false⟩] ∧
    (exec (start 2) (sample.take 8)).tasks.length = 2 ∧ (exec (start 2) (sample.take 8)).notices = 2 := by decide +kernel

/-- A task is begun. -/
example : (step (exec (start 2) (sample.take 9)) (.look 1 1)).workers[1]? = some ⟨.run ⟨2, 1⟩, false⟩ ∧
    step (exec (start 2) (sample.take 9)) (.look 1 0) = exec (start 2) (sample.take 9) ∧
    Ev.own (.look 1 1) = true := by decide +kernel

end Verif.Threads
