/-!
# The threads that work on vector indexes (model)

`ThreadPool` of `common/threadpool.{h,cc}`: the threads of a store that carry out the pieces of
searches and writes of vector indexes (`ParallelFor`, `vector/vector_index_hnsw.cc:85-131`).

* The steps of threads are cut at the lock `task_mutex_`.  Between the test of the condition and
  going to sleep a thread holds the lock (`sleepy`), but `is_stop` is set and notices are given
  without the lock (`threadpool.cc:190-194, 239, 262-266`).
* Wake-ups without reason, which the condition of C++ allows, are steps (`wake`).
* What a task does is left out; each ends at some time (an exception of a task that is no
  `std::exception` would end the process, lines 163-176).
* Waiting for a task (`Join`) is waiting until it has ended (`WakeUp`, line 177).
-/

namespace Verif.Threads

/-- A task, `threadpool.h:46-61`. -/
structure Task where
  id : Nat
  prio : Int
deriving DecidableEq, Repr

/-- Where a thread is, `threadpool.cc:143-181`. -/
inductive PC
  /-- about to take the lock and test the condition -/
  | look
  /-- has found nothing to do, holds the lock still -/
  | sleepy
  /-- waits in `task_condition_` -/
  | asleep
  | run (t : Task)
  | exited
deriving DecidableEq, Repr

/-- `ThreadEntry`. -/
structure Worker where
  pc : PC
  stop : Bool
deriving DecidableEq, Repr

/-- The pool. -/
structure St where
  /-- all threads ever begun -/
  workers : List Worker
  /-- `tasks_` -/
  tasks : List Task
  /-- those in `ExecuteTask` that have passed the test of `is_destroied_`, line 218 -/
  arriving : List Task
  /-- calls of `notify_one` still to be made, line 239 -/
  notices : Nat
  /-- `is_destroied_` -/
  destroyed : Bool
  /-- tasks that have ended -/
  ended : List Task
deriving DecidableEq, Repr

/-- Nobody holds the lock. -/
def free (s : St) : Bool := s.workers.all (fun w => w.pc != .sleepy)

/-- What happens. -/
inductive Ev
  /-- `ExecuteTask` is called, lines 217-227 -/
  | submit (t : Task)
  /-- the task is put into the queue, lines 229-233 -/
  | push (k : Nat)
  /-- `notify_one` reaches thread `i`, line 239 -/
  | notice (i : Nat)
  /-- a thread tests the condition, and takes the `k`th task of the queue if it is on top, lines 146-161 -/
  | look (i k : Nat)
  /-- it goes to sleep -/
  | sleep (i : Nat)
  /-- its task has ended -/
  | finish (i : Nat)
  /-- it wakes up without reason -/
  | wake (i : Nat)
  /-- `is_stop` is set, lines 191, 263 -/
  | stop (i : Nat)
  /-- `notify_all`, lines 194, 266 -/
  | noticeAll
  /-- `is_destroied_` is set, lines 251-254 -/
  | destroy
  /-- a thread is begun, lines 207-209 -/
  | grow
deriving DecidableEq, Repr

/-- A sleeping thread is woken. -/
def Worker.woken (w : Worker) : Worker := if w.pc = .asleep then { w with pc := .look } else w

/-- A step; what cannot happen changes nothing. -/
def step (s : St) : Ev → St
  | .submit t => if s.destroyed then s else { s with arriving := s.arriving ++ [t] }
  | .push k =>
    match s.arriving[k]? with
    | some t =>
      if free s then
        { s with arriving := s.arriving.eraseIdx k, tasks := s.tasks ++ [t], notices := s.notices + 1 }
      else s
    | none => s
  | .notice i =>
    if s.notices = 0 then s
    else if s.workers.all (fun w => w.pc != .asleep) then { s with notices := s.notices - 1 }
    else
      match s.workers[i]? with
      | some w =>
        if w.pc = .asleep then
          { s with workers := s.workers.set i { w with pc := .look }, notices := s.notices - 1 }
        else s
      | none => s
  | .look i k =>
    match s.workers[i]? with
    | some w =>
      if w.pc = .look ∧ free s = true then
        if s.tasks = [] then
          { s with workers := s.workers.set i { w with pc := if w.stop then .exited else .sleepy } }
        else
          match s.tasks[k]? with
          | some t =>
            -- the queue gives one with the highest priority
            if s.tasks.all (fun u => decide (u.prio ≤ t.prio)) then
              { s with workers := s.workers.set i { w with pc := .run t }, tasks := s.tasks.eraseIdx k }
            else s
          | none => s
      else s
    | none => s
  | .sleep i =>
    match s.workers[i]? with
    | some w => if w.pc = .sleepy then { s with workers := s.workers.set i { w with pc := .asleep } } else s
    | none => s
  | .finish i =>
    match s.workers[i]? with
    | some w =>
      match w.pc with
      | .run t => { s with workers := s.workers.set i { w with pc := .look }, ended := s.ended ++ [t] }
      | _ => s
    | none => s
  | .wake i =>
    match s.workers[i]? with
    | some w => { s with workers := s.workers.set i w.woken }
    | none => s
  | .stop i =>
    match s.workers[i]? with
    | some w => { s with workers := s.workers.set i { w with stop := true } }
    | none => s
  | .noticeAll => { s with workers := s.workers.map Worker.woken }
  | .destroy => { s with destroyed := true }
  | .grow => { s with workers := s.workers ++ [⟨.look, false⟩] }

/-- A history. -/
def exec (s : St) (l : List Ev) : St := l.foldl step s

/-- A pool of `n` threads, lines 38-48. -/
def start (n : Nat) : St := ⟨List.replicate n ⟨.look, false⟩, [], [], 0, false, []⟩

end Verif.Threads
