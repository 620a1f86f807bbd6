import Verif.Pool.Model

/-!
# Queues of tasks: what is claimed
-/

namespace Verif.Pool

/-- A state that is reached from the start, with so many callers. -/
def Reach (cfg : Cfg) (m : Nat) (s : State) : Prop := ∃ l, run cfg l (.init cfg m) = some s

/-- What threads do by themselves; not: a new task, a wake for no reason, `Destroy`. -/
def Ev.own : Ev → Bool
  | .submit _ _ => false
  | .wake _ => false
  | .destroy => false
  | _ => true

/-- No thread can take a step by itself. -/
def Still (cfg : Cfg) (s : State) : Prop := ∀ e, e.own = true → step cfg s e = none

/-- How often a task is being run: by a caller or by a worker. -/
def running (s : State) (t : Task) : Nat := s.calls.count (.running t) + s.workers.count (.running t)

/-- The tasks that are being run. -/
def runningAll (s : State) : Nat :=
  (s.calls.filter fun c => match c with | .running _ => true | _ => false).length +
  (s.workers.filter fun w => match w with | .running _ => true | _ => false).length

/-- Threads that have run a task and have not lowered the counter. -/
def lowering (s : State) : Nat :=
  (s.calls.filter fun c => match c with | .ran _ => true | _ => false).length +
  (s.workers.filter fun w => match w with | .ran _ => true | _ => false).length

/-- Threads that have read the counter and have not raised it. -/
def raising (s : State) : Nat :=
  (s.calls.filter fun c => match c with | .checked _ _ => true | _ => false).length

/-- The tasks of a caller, in order. -/
def ofCaller (c : Nat) (l : List Task) : List Task := l.filter fun t => t.1 == c

/-- A state of a store that applies the logs of `m` regions. -/
def AReach (cfg : Cfg) (g : Logs) (m : Nat) (s : State) : Prop := ∃ l, arun cfg g l (.init cfg m) = some s

/-- Nothing can happen any more (a wake for no reason aside). -/
def AStill (cfg : Cfg) (g : Logs) (s : State) : Prop :=
  ∀ e, (∀ w, e ≠ .wake w) → astep cfg g s e = none

end Verif.Pool
