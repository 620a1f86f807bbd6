/-!
# The lock of indexes and logs (model)

`RWLock` of `common/synchronization.cc:186-237` with its guards (`common/synchronization.h:131-186`): what
keeps searches and writes of one vector index or document index, and reads and appends of the log, apart.

* Each function runs with the mutex held, so it is one step; waiting on the condition gives the mutex
  back and puts the request to sleep in the same step.
* A request that was woken looks again when it gets the mutex: the step `retry`, at any later time.
* A sleeping request may also be woken without cause (`spurious`).
-/

namespace Verif.RwLock

/-- Where a request is: before it asks (or after it has given the lock back), asking to read (awake or
asleep), reading, asking to write (awake or asleep), writing. -/
inductive PC
  | idle
  | rWait
  | rSleep
  | reading
  | wWait
  | wSleep
  | writing
deriving DecidableEq, Repr

/-- `active_readers_`, `waiting_writers_`, `active_writer_` (`common/synchronization.h:137-139`), and the
requests. -/
structure St where
  readers : Int := 0
  waiting : Int := 0
  writer : Bool := false
  req : List PC
deriving DecidableEq, Repr

/-- `CanRead`, `common/synchronization.cc:187-190`. -/
def St.canRead (s : St) : Bool := !s.writer && s.waiting == 0

/-- `CanWrite`, `common/synchronization.cc:192-195`. -/
def St.canWrite (s : St) : Bool := s.readers == 0 && !s.writer

/-- What waking does to a request. -/
def PC.wake : PC → PC
  | .rSleep => .rWait
  | .wSleep => .wWait
  | p => p

/-- `bthread_cond_broadcast`: all that sleep are woken. -/
def broadcast (s : St) : St := { s with req := s.req.map PC.wake }

/-- The loop of `LockRead`, `common/synchronization.cc:207-213`, from its check to the end or to sleep. -/
def tryRead (s : St) (i : Nat) : St :=
  if s.canRead then { s with readers := s.readers + 1, req := s.req.set i .reading }
  else { s with req := s.req.set i .rSleep }

/-- The loop of `LockWrite`, `common/synchronization.cc:226-231`, from its check to the end or to sleep. -/
def tryWrite (s : St) (i : Nat) : St :=
  if s.canWrite then { s with waiting := s.waiting - 1, writer := true, req := s.req.set i .writing }
  else { s with req := s.req.set i .wSleep }

/-- `UnlockRead`, `common/synchronization.cc:215-221`. -/
def unlockRead (s : St) (i : Nat) : St :=
  let s' := { s with readers := s.readers - 1, req := s.req.set i .idle }
  if s'.readers == 0 then broadcast s' else s'

/-- `UnlockWrite`, `common/synchronization.cc:233-237`. -/
def unlockWrite (s : St) (i : Nat) : St :=
  broadcast { s with writer := false, req := s.req.set i .idle }

/-- What happens: a request asks, looks again after it was woken, gives the lock back, or is woken
without cause. -/
inductive Ev
  | read (i : Nat)
  | write (i : Nat)
  | retry (i : Nat)
  | unlock (i : Nat)
  | spurious (i : Nat)
deriving DecidableEq, Repr

/-- A step.  Guards (`common/synchronization.cc:239-277`) see to it that only who has the lock gives it
back, in the way it was taken. -/
def step (s : St) (e : Ev) : St :=
  match e with
  | .read i => if s.req[i]? = some .idle then tryRead s i else s
  | .write i => if s.req[i]? = some .idle then tryWrite { s with waiting := s.waiting + 1 } i else s
  | .retry i =>
    if s.req[i]? = some .rWait then tryRead s i
    else if s.req[i]? = some .wWait then tryWrite s i else s
  | .unlock i =>
    if s.req[i]? = some .reading then unlockRead s i
    else if s.req[i]? = some .writing then unlockWrite s i else s
  | .spurious i =>
    if s.req[i]? = some .rSleep then { s with req := s.req.set i .rWait }
    else if s.req[i]? = some .wSleep then { s with req := s.req.set i .wWait } else s

/-- The beginning, for `n` requests. -/
def start (n : Nat) : St := { req := List.replicate n .idle }

/-- A history. -/
def exec (s : St) (l : List Ev) : St := l.foldl step s

end Verif.RwLock
