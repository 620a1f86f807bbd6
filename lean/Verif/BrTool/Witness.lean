import Verif.BrTool.Props

/-! # What does not hold of the backup tool (C109), and cases of the theorems -/

namespace Verif.BrTool

/-- Regions 1 and 2 of stores, region 3 of an index node, none of documents. -/
def kinds : List (List Nat × Bool) := [([1, 2], true), ([3], true), ([], false)]

/-- The request for region 2 fails; the other thread, which had no error, notes its status last. -/
def lostRun : List Ev :=
  [.thr 0 true, .thr 0 true, .thr 1 true, .thr 1 true, .thr 0 true, .thr 0 false, .thr 0 true, .thr 0 true,
    .thr 1 true, .thr 1 true, .thr 1 true, .main, .main]

/-- A backup can end with success though the request for a region failed and the region is not in the
backup: the status of the last thread replaces that of the one that failed. -/
theorem C109_lost_false :
    (exec (start kinds) lostRun).main = .fin true ∧
      (∃ t ∈ (exec (start kinds) lostRun).thr, t.failed = [2] ∧ t.saved = [1] ∧ t.regions = [1, 2]) ∧
      ∀ t ∈ (exec (start kinds) lostRun).thr, t.pc = .done := by
  refine ⟨?_, ?_, ?_⟩ <;> decide +kernel

/-- One thread only; its exit flag is seen before it notes its error. -/
def raceRun : List Ev := [.thr 0 true, .thr 0 false, .main, .thr 0 true, .main, .thr 0 true]

/-- Also with one thread: the flag that it has ended is set before its error is noted, so that the
main thread can end with success though no region was backed up. -/
theorem C109_race_false :
    (exec (start [([1], true)]) raceRun).main = .fin true ∧
      (exec (start [([1], true)]) raceRun).thr.map (fun t => (t.saved, t.failed)) = [([], [1])] ∧
      (exec (start [([1], true)]) raceRun).last = false := by
  refine ⟨?_, ?_, ?_⟩ <;> decide +kernel

/-- All requests succeed. -/
def goodRun : List Ev :=
  [.thr 0 true, .thr 0 true, .thr 1 true, .thr 1 true, .thr 0 true, .thr 0 true, .main, .thr 0 true, .thr 0 true,
    .thr 0 true, .thr 1 true, .thr 1 true, .thr 1 true, .main]

example : (exec (start kinds) goodRun).main = .fin true ∧ ∀ t ∈ (exec (start kinds) goodRun).thr, t.failed = [] := by
  refine ⟨?_, ?_⟩ <;> decide +kernel

/-- One thread fails and has noted it. -/
def badRun : List Ev := [.thr 0 true, .thr 0 true, .thr 0 true, .thr 0 false, .main, .thr 0 true, .thr 0 true]

example : (exec (start [([1, 2], true), ([], false)]) badRun).main = .join ∧
    (∀ t ∈ (exec (start [([1, 2], true), ([], false)]) badRun).thr, t.pc = .done) ∧
    (∀ t ∈ (exec (start [([1, 2], true), ([], false)]) badRun).thr, t.started = true → t.failed ≠ []) ∧
    (exec (start [([1, 2], true), ([], false)]) (badRun ++ [.main])).main = .fin false := by
  refine ⟨?_, ?_, ?_, ?_⟩ <;> decide +kernel

/-- Regions of documents, but no node for them. -/
example : ∃ t ∈ (exec (start [([1], true), ([7], false)]) [.thr 0 true, .thr 0 true, .thr 0 true, .main]).thr,
    t.started = false ∧ t.regions ≠ [] := by decide +kernel

/-- A restore with two threads. -/
def restoreRun : List REv :=
  [.thr 0 .ok, .thr 1 .ok, .thr 1 .ok, .thr 0 .ok, .thr 1 .ok, .thr 0 .ok, .thr 1 .ok, .main, .thr 1 .ok, .main]

example : (rexec 3 (rstart [1, 2, 3] [true, true]) restoreRun).main = .fin true ∧
    (rexec 3 (rstart [1, 2, 3] [true, true]) restoreRun).gaveUp = false ∧
    (rexec 3 (rstart [1, 2, 3] [true, true]) restoreRun).done = [2, 1, 3] := by
  refine ⟨?_, ?_, ?_⟩ <;> decide +kernel

/-- A restore of which one region fails and another is given up. -/
def restoreBad : List REv :=
  [.thr 0 .ok, .thr 1 .ok, .thr 0 .fail, .thr 1 .stop, .main, .thr 0 .ok, .main]

example : (rexec 3 (rstart [1, 2, 3] [true, true]) restoreBad).main = .fin false ∧
    (rexec 3 (rstart [1, 2, 3] [true, true]) restoreBad).failed = [1] ∧
    (rexec 3 (rstart [1, 2, 3] [true, true]) restoreBad).dropped = [2] := by
  refine ⟨?_, ?_, ?_⟩ <;> decide +kernel

end Verif.BrTool
