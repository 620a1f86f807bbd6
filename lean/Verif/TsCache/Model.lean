/-!
# Timestamp cache of a store (model)

`src/mvcc/ts_provider.{h,cc}`: the lock-free list of timestamp batches, at the level of
single atomic operations.  Any number of threads ask for timestamps; one worker
(`TsProvider::worker_` runs its tasks one after the other) appends batches.

Simplifications: memory is sequentially consistent; `CleanDead` (which frees a removed
batch 3 s after its removal) is left out, so a pointer held by a thread stays valid:
assumed is that no thread is stopped for 3 s inside `GetTs`.  `Flush` has no caller.
The statistics counters are left out.  `int64_t` values do not overflow.
-/

namespace Verif.TsCache

/-- `BatchTs`, `mvcc/ts_provider.h:39-96`.  `first` is the initial value of
`start_ts_` (not stored in the code). -/
structure Batch where
  physical : Int := 0
  first : Int := 0
  /-- `start_ts_` -/
  cur : Int := 0
  /-- `end_ts_` -/
  last : Int := 0
  create : Int := 0
  next : Option Nat := none
deriving DecidableEq, Repr

/-- `ComposeTs`, `mvcc/ts_provider.cc:40`. -/
def composeTs (physical logical : Int) : Int := physical * 262144 + logical

/-- `BatchTs::BatchTs`, `mvcc/ts_provider.cc:42-45`, made at local time `now`. -/
def Batch.new (physical logical : Int) (count : Nat) (now : Int) : Batch :=
  { physical := physical, first := composeTs physical logical, cur := composeTs physical logical,
    last := composeTs physical (logical + count), create := now }

/-- `ts_provider_batch_ts_stale_interval_ms`, `mvcc/ts_provider.cc:34`. -/
def staleMs : Int := 3000

/-- Where a thread inside `BatchTsList::GetTs(after)` (`mvcc/ts_provider.cc:121-156`),
`PushDead` (`158-185`) or `SetMinValidTs` (`mvcc/ts_provider.h:114-118`) is; named after
the next atomic operation. -/
inductive Pc where
  | idle
  | loadHead (after : Int)
  | loadTail (after : Int) (h : Nat)
  | loadNext (after : Int) (h t : Nat)
  | stale (after : Int) (h t : Nat) (n : Option Nat)
  | fetch (after : Int) (h t : Nat) (n : Option Nat)
  | check (after : Int) (h t : Nat) (n : Option Nat) (ts : Int)
  | advance (after : Int) (h t : Nat) (n : Option Nat)
  | deadClear (after : Int) (h : Nat)
  | deadTail (after : Int) (h : Nat)
  | deadNext (after : Int) (h d : Nat)
  | deadAgain (after : Int) (h d : Nat) (n : Option Nat)
  | deadLink (after : Int) (h d : Nat) (n : Option Nat)
  | minLoad (v : Int)
  | minStore (v : Int)
deriving DecidableEq, Repr

/-- Where the worker is inside `BatchTsList::Push` of batch `b`
(`mvcc/ts_provider.cc:81-108`). -/
inductive Wpc where
  | idle
  | loadTail (b : Nat)
  | loadNext (b t : Nat)
  | again (b t : Nat) (n : Option Nat)
  | link (b t : Nat) (n : Option Nat)
  | physical (b : Nat)
deriving DecidableEq, Repr

structure Thread where
  pc : Pc := .idle
  /-- time of the call (not in the code) -/
  called : Nat := 0
deriving DecidableEq, Repr

/-- Batch 0 is the first element of the dead list, batch 1 of the live list
(`BatchTsList::BatchTsList`, `mvcc/ts_provider.cc:47-53`); the batches pushed are
2, 3, ….  `size` is the number of batches made.  Not in the code: `time` counts the
steps; `mins` lists the arguments of the finished `SetMinValidTs` calls and when they
finished. -/
structure State where
  batch : Nat → Batch := fun _ => {}
  size : Nat := 2
  head : Nat := 1
  tail : Nat := 1
  deadTail : Nat := 0
  lastPhysical : Int := 0
  minValid : Int := 0
  thread : Nat → Thread := fun _ => {}
  worker : Wpc := .idle
  time : Nat := 0
  mins : List (Int × Nat) := []

/-- A finished call of `GetTs`: `ts` is 0 if there was no timestamp; `batch`: the batch
it was taken from. -/
structure Ret where
  called : Nat
  returned : Nat
  after : Int
  ts : Int
  batch : Nat
deriving DecidableEq, Repr

inductive Event where
  /-- thread `i` calls `GetTs(after)` -/
  | call (i : Nat) (after : Int)
  /-- thread `i` calls `SetMinValidTs(v)` -/
  | setMin (i : Nat) (v : Int)
  /-- thread `i` makes its next atomic operation; the local clock is at `now`;
  `weak`: a weak compare-and-exchange fails without reason -/
  | act (i : Nat) (now : Int) (weak : Bool)
  /-- the worker has received a batch from the oracle (`SendTsoRequest`, `363-380`) -/
  | push (physical logical : Int) (count : Nat) (now : Int)
  /-- the worker makes its next atomic operation -/
  | work (weak : Bool)
deriving DecidableEq, Repr

def State.setPc (s : State) (i : Nat) (pc : Pc) : State :=
  { s with thread := fun j => if j = i then { s.thread i with pc := pc } else s.thread j }

def State.setBatch (s : State) (n : Nat) (b : Batch) : State :=
  { s with batch := fun m => if m = n then b else s.batch m }

/-- `IsStale`, `mvcc/ts_provider.cc:110-119`. -/
def State.isStale (s : State) (h : Nat) (now : Int) : Bool :=
  (s.batch h).create + staleMs < now || (s.batch h).physical + staleMs < s.lastPhysical

/-- The next atomic operation of thread `i`. -/
def State.act (s : State) (i : Nat) (now : Int) (weak : Bool) : State × Option Ret :=
  let ret (after ts : Int) (h : Nat) : State × Option Ret :=
    (s.setPc i .idle, some ⟨(s.thread i).called, s.time, after, ts, h⟩)
  match (s.thread i).pc with
  | .idle => (s, none)
  | .loadHead a => (s.setPc i (.loadTail a s.head), none)
  | .loadTail a h => (s.setPc i (.loadNext a h s.tail), none)
  | .loadNext a h t => (s.setPc i (.stale a h t (s.batch h).next), none)
  | .stale a h t n => (s.setPc i (if s.isStale h now then .advance a h t n else .fetch a h t n), none)
  | .fetch a h t n =>
    let b := s.batch h
    -- `BatchTs::GetTs`, `mvcc/ts_provider.h:66-69`
    ((s.setBatch h { b with cur := b.cur + 1 }).setPc i (.check a h t n (if b.cur < b.last then b.cur else 0)), none)
  | .check a h t n ts =>
    if ts > a ∧ ts > 0 ∧ ts > s.minValid then ret a ts h
    else (s.setPc i (.advance a h t n), none)
  | .advance a h t n =>
    match n with
    | none => ret a 0 h
    | some m =>
      if h = t then
        ((if s.tail = t ∧ ¬ weak then { s with tail := m } else s).setPc i (.loadHead a), none)
      else if s.head = h ∧ ¬ weak then
        ({ s with head := m }.setPc i (.deadClear a h), none)
      else (s.setPc i (.loadHead a), none)
  | .deadClear a h => ((s.setBatch h { s.batch h with next := none }).setPc i (.deadTail a h), none)
  | .deadTail a h => (s.setPc i (.deadNext a h s.deadTail), none)
  | .deadNext a h d => (s.setPc i (.deadAgain a h d (s.batch d).next), none)
  | .deadAgain a h d n => (s.setPc i (if d = s.deadTail then .deadLink a h d n else .deadTail a h), none)
  | .deadLink a h d n =>
    match n with
    | some m => ((if s.deadTail = d ∧ ¬ weak then { s with deadTail := m } else s).setPc i (.deadTail a h), none)
    | none =>
      if (s.batch d).next = none ∧ ¬ weak then
        ((s.setBatch d { s.batch d with next := some h }).setPc i (.loadHead a), none)
      else (s.setPc i (.deadTail a h), none)
  | .minLoad v =>
    if v > s.minValid then (s.setPc i (.minStore v), none)
    else ({ s with mins := s.mins ++ [(v, s.time)] }.setPc i .idle, none)
  | .minStore v => ({ s with minValid := v, mins := s.mins ++ [(v, s.time)] }.setPc i .idle, none)

/-- The next atomic operation of the worker. -/
def State.work (s : State) (weak : Bool) : State :=
  match s.worker with
  | .idle => s
  | .loadTail b => { s with worker := .loadNext b s.tail }
  | .loadNext b t => { s with worker := .again b t (s.batch t).next }
  | .again b t n => { s with worker := if t = s.tail then .link b t n else .loadTail b }
  | .link b t n =>
    match n with
    | some m => { s with tail := if s.tail = t ∧ ¬ weak then m else s.tail, worker := .loadTail b }
    | none =>
      if (s.batch t).next = none ∧ ¬ weak then
        { s.setBatch t { s.batch t with next := some b } with worker := .physical b }
      else { s with worker := .loadTail b }
  | .physical b => { s with lastPhysical := (s.batch b).physical, worker := .idle }

/-- One event.  An event that cannot happen leaves the state unchanged. -/
def step (s : State) (e : Event) : State × Option Ret :=
  let s' := { s with time := s.time + 1 }
  match e with
  | .call i after =>
    if (s.thread i).pc = .idle then
      ({ s' with thread := fun j => if j = i then ⟨.loadHead after, s.time⟩ else s.thread j }, none)
    else (s', none)
  | .setMin i v => (if (s.thread i).pc = .idle then s'.setPc i (.minLoad v) else s', none)
  | .act i now weak => ({ (s.act i now weak).1 with time := s.time + 1 }, (s.act i now weak).2)
  | .push p l c now =>
    if s.worker = .idle then
      ({ s'.setBatch s.size (.new p l c now) with size := s.size + 1, worker := .loadTail s.size }, none)
    else (s', none)
  | .work weak => ({ s.work weak with time := s.time + 1 }, none)

/-- The finished calls of a history, in the order in which they finish. -/
def returns (s : State) : List Event → List Ret
  | [] => []
  | e :: es => (step s e).2.toList ++ returns (step s e).1 es

def run (s : State) : List Event → State
  | [] => s
  | e :: es => run (step s e).1 es

end Verif.TsCache
