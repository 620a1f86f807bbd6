/-!
# The queues in which a store runs its requests (model)

`common/runnable.cc`: `SimpleWorkerSet`, which stores and coordinators use for reads, writes, applied
log entries and metadata (`server/main.cc:728-750`, `882-910`), and `raft/store_state_machine.cc`, which
applies the log entries of a region through it.

Threads take steps in any order.  A step is what is done under the lock of the queue, one read or
write of the counter, or the run of a task.  Left out: `PriorWorkerSet`, which is used nowhere,
`ExecqWorkerSet`, and counters for printing.
-/

namespace Verif.Pool

/-- A task: the thread that has given it, and its number. -/
abbrev Task := Nat × Nat

/-- `SimpleWorkerSet::New`, `runnable.h:248-251`: the number of workers, the limit (`max_pending_task_count`,
not positive: none) and `is_inplace_run`. -/
structure Cfg where
  workers : Nat
  max : Int
  inplace : Bool

/-- Where a caller of `Execute` is, `runnable.cc:380-420`. -/
inductive Call
  | idle
  /-- The counter has been read and is not too large; true: the task will be run in place. -/
  | checked (t : Task) (here : Bool)
  /-- The counter has been raised. -/
  | counted (t : Task) (here : Bool)
  /-- The task is run in place. -/
  | running (t : Task)
  /-- It has been run; the counter is still to be lowered. -/
  | ran (t : Task)
  /-- The task is in the queue; a worker is still to be woken. -/
  | pushed
  deriving DecidableEq, Repr

/-- Where a worker is, `runnable.cc:297-351`. -/
inductive Work
  /-- About to take the lock. -/
  | look
  /-- In `bthread_cond_wait`. -/
  | waiting
  | running (t : Task)
  | ran (t : Task)
  /-- The thread has ended. -/
  | gone
  deriving DecidableEq, Repr

/-- The set of workers.  The last fields are what has happened: the tasks `Execute` has taken and those
it has refused, the tasks put into the queue, those taken out of it, and those that have been run. -/
structure State where
  calls : List Call
  workers : List Work
  queue : List Task
  pending : Int
  stop : Bool
  taken : List Task
  refused : List Task
  queued : List Task
  begun : List Task
  done : List Task
  deriving DecidableEq, Repr

/-- So many callers, and the workers just started. -/
def State.init (cfg : Cfg) (callers : Nat) : State :=
  ⟨.replicate callers .idle, .replicate cfg.workers .look, [], 0, false, [], [], [], [], []⟩

/-- A count as `uint64_t`. -/
def asU (p : Int) : Int := if p < 0 then p + 18446744073709551616 else p

/-- What may happen next. -/
inductive Ev
  | submit (c t : Nat)
  | count (c : Nat)
  | go (c : Nat)
  | finish (c : Nat)
  | settle (c : Nat)
  /-- `bthread_cond_signal`: one worker that waits is woken, if there is one. -/
  | signal (c : Nat) (w : Option Nat)
  | look (w : Nat)
  | wfinish (w : Nat)
  | wsettle (w : Nat)
  /-- A worker wakes by itself, or is woken by `Destroy` (366-369). -/
  | wake (w : Nat)
  /-- `Destroy`, `runnable.cc:353-364`. -/
  | destroy
  deriving DecidableEq, Repr

/-- `Execute`, `runnable.cc:380-389`, and the reading of the counter for 398. -/
def submit (cfg : Cfg) (s : State) (c t : Nat) : State :=
  if 0 < cfg.max ∧ cfg.max < asU s.pending then { s with refused := s.refused ++ [(c, t)] }
  else
    { s with calls := s.calls.set c (.checked (c, t) (cfg.inplace && decide (asU s.pending < cfg.workers)))
             taken := s.taken ++ [(c, t)] }

/-- `IncPendingTaskCount`, `runnable.cc:391`. -/
def countUp (s : State) (c : Nat) (t : Task) (here : Bool) : State :=
  { s with calls := s.calls.set c (.counted t here), pending := s.pending + 1 }

/-- `runnable.cc:398-415`: the task is run, or put into the queue. -/
def go (s : State) (c : Nat) (t : Task) (here : Bool) : State :=
  if here then { s with calls := s.calls.set c (.running t) }
  else { s with calls := s.calls.set c .pushed, queue := s.queue ++ [t], queued := s.queued ++ [t] }

/-- What a worker does under the lock, `runnable.cc:304-323`. -/
def look (s : State) (w : Nat) : State :=
  match s.queue with
  | [] => { s with workers := s.workers.set w (if s.stop then .gone else .waiting) }
  | t :: q => { s with workers := s.workers.set w (.running t), queue := q, begun := s.begun ++ [t] }

/-- One step; `none`: it cannot happen. -/
def step (cfg : Cfg) (s : State) : Ev → Option State
  | .submit c t => if s.calls[c]? = some .idle then some (submit cfg s c t) else none
  | .count c => match s.calls[c]? with
    | some (.checked t h) => some (countUp s c t h)
    | _ => none
  | .go c => match s.calls[c]? with
    | some (.counted t h) => some (go s c t h)
    | _ => none
  | .finish c => match s.calls[c]? with
    | some (.running t) => some { s with calls := s.calls.set c (.ran t), done := s.done ++ [t] }
    | _ => none
  | .settle c => match s.calls[c]? with
    | some (.ran _) => some { s with calls := s.calls.set c .idle, pending := s.pending - 1 }
    | _ => none
  | .signal c none =>
    if s.calls[c]? = some .pushed ∧ Work.waiting ∉ s.workers then some { s with calls := s.calls.set c .idle }
    else none
  | .signal c (some w) =>
    if s.calls[c]? = some .pushed ∧ s.workers[w]? = some .waiting then
      some { s with calls := s.calls.set c .idle, workers := s.workers.set w .look }
    else none
  | .look w => if s.workers[w]? = some .look then some (look s w) else none
  | .wfinish w => match s.workers[w]? with
    | some (.running t) => some { s with workers := s.workers.set w (.ran t), done := s.done ++ [t] }
    | _ => none
  | .wsettle w => match s.workers[w]? with
    | some (.ran _) => some { s with workers := s.workers.set w .look, pending := s.pending - 1 }
    | _ => none
  | .wake w => if s.workers[w]? = some .waiting then some { s with workers := s.workers.set w .look } else none
  | .destroy => some { s with stop := true }

/-- Steps one after the other. -/
def run (cfg : Cfg) : List Ev → State → Option State
  | [], s => some s
  | e :: l, s => (step cfg s e).bind (run cfg l)

/-! ## Applying the log of the regions of a store -/

/-- The logs: how many entries each region has to apply, and for an entry that commits a merge the
region that is merged (`raft_apply_handler.cc:923-941`). -/
structure Logs where
  len : Nat → Nat
  source : Nat → Nat → Option Nat

/-- The entries of a region in a list of tasks. -/
def ofRegion (r : Nat) (l : List Task) : List Nat := (l.filter fun t => t.1 == r).map fun t => t.2

/-- No entry of the region is being applied: `apply_mutex_` is free. -/
def free (s : State) (r : Nat) : Bool := (ofRegion r s.taken).length == (ofRegion r s.done).length

/-- `on_apply`, `store_state_machine.cc:110-226`, gives an entry to the workers and waits until it has
been run (203-213); the entry that commits a merge needs the mutex of the region merged
(`CatchUpApplyLog`, 253).  A thread for each region: its number is that of the region.  (In the code
the mutex is held for all the entries that braft delivers at once.) -/
def allowed (g : Logs) (s : State) : Ev → Bool
  | .submit c t => free s c && t == (ofRegion c s.taken).length && decide (t < g.len c)
  | .finish c => match s.calls[c]? with
    | some (.running t) => match g.source t.1 t.2 with
      | none => true
      | some r => free s r
    | _ => true
  | .wfinish w => match s.workers[w]? with
    | some (.running t) => match g.source t.1 t.2 with
      | none => true
      | some r => free s r
    | _ => true
  | .destroy => false
  | _ => true

/-- A step of a store that applies logs.  An entry that is refused ends the store
(`DINGO_LOG(FATAL)`, `store_state_machine.cc:205-209`): nothing happens after it. -/
def astep (cfg : Cfg) (g : Logs) (s : State) (e : Ev) : Option State :=
  if s.refused = [] ∧ allowed g s e = true then step cfg s e else none

/-- Steps one after the other. -/
def arun (cfg : Cfg) (g : Logs) : List Ev → State → Option State
  | [], s => some s
  | e :: l, s => (astep cfg g s e).bind (arun cfg g l)

end Verif.Pool
