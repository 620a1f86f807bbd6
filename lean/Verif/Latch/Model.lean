/-!
# Latches of a region (model)

`src/common/latch.{h,cc}`, `src/common/synchronization.cc` (`BthreadCond`),
`Region::LatchesAcquire/LatchesRelease` (`src/meta/store_meta_manager.cc:387-402`) and
`ServiceHelper::LatchesAcquire/LatchesRelease` (`src/server/service_helper.cc:421-447`),
at the level of single critical sections: one slot mutex section of `Acquire` or
`Release`, one mutex section of a condition variable, one `bthread_cond_signal`.
Any number of requests run against the latches of one region; the schedule is arbitrary.

Simplifications.
* `bthread_cond_wait` does not fail (bRPC maps EINTR to a normal wake-up) and its
  spurious wake-ups are absorbed by the loop around it, so `IncreaseWait` is one step that
  is enabled when the counter allows it.
* A request is named by the address of its condition variable (`LatchContext::Cid`).
  An address may be used again once its request is over; it is never 0.
* `keep_latches_for_next_cmd` is always absent: the two callers of
  `Region::LatchesRelease` (`service_helper.cc:444-447`) leave the default.
* `assert` ends the process (a build without asserts throws `bad_optional_access` in the
  first case and pops the entry of another request in the second).
* `bthread_cond_signal` on a condition variable that was destroyed is recorded in
  `dangling` and otherwise has no effect.
-/

namespace Verif.Latch

/-- The address of a request's condition variable (`LatchContext::Cid`,
`server/service_helper.h:54`). -/
abbrev Cid := Nat

/-- What the latches depend on: the value of `std::hash<std::string>` (`Lock::Hash`,
`common/latch.cc:84-87`), any function into 64-bit words, and the flag
`latch_slot_num` (`common/latch.cc:25`). -/
structure Env where
  hash : List UInt8 → UInt64
  slotNum : Nat := 2048

/-- `Latches::NextPowerOfTwo`, `common/latch.cc:184-196`; `n` is a 64-bit word. -/
def nextPowerOfTwo (n : Nat) : Nat :=
  if n = 0 then 1
  else
    let n := n - 1
    let n := n ||| n >>> 1
    let n := n ||| n >>> 2
    let n := n ||| n >>> 4
    let n := n ||| n >>> 8
    let n := n ||| n >>> 16
    let n := n ||| n >>> 32
    (n + 1) % 2 ^ 64

/-- `Latches::GetSlot`, `common/latch.cc:198-201`: the index of the slot of a hash. -/
def slotOf (e : Env) (h : Nat) : Nat := h &&& (nextPowerOfTwo e.slotNum - 1)

/-- `Latch::waiting`, `common/latch.h:27`: pairs of hash and request. -/
abbrev Queue := List (Nat × Cid)

/-- `Latch::GetFirstReqByHash`, `common/latch.cc:30-37`. -/
def firstReq (q : Queue) (h : Nat) : Option Cid :=
  match q with
  | [] => none
  | (x, w) :: q => if x = h then some w else firstReq q h

/-- `Latch::MaybeShrink`, `common/latch.cc:60-67`.  The capacity change is left out. -/
def maybeShrink (q : Queue) : Queue := q.filter fun x => x.1 ≠ 0

/-- The loop of `Latch::PopFront`, `common/latch.cc:46-52`. -/
def eraseFirst (h : Nat) : Queue → Option (Cid × Queue)
  | [] => none
  | (x, w) :: q =>
    if x = h then some (w, q)
    else (eraseFirst h q).map fun r => (r.1, (x, w) :: r.2)

/-- `Latch::PopFront`, `common/latch.cc:39-54`. -/
def popFront (h : Nat) (q : Queue) : Option (Cid × Queue) :=
  match q with
  | (x, w) :: q' => if x = h then some (w, maybeShrink q') else eraseFirst h q
  | [] => none

/-- `Latch::WaitForWake`, `common/latch.cc:56`. -/
def waitForWake (h : Nat) (c : Cid) (q : Queue) : Queue := q ++ [(h, c)]

/-- Insertion into a sorted list. -/
def insertSorted (x : Nat) : List Nat → List Nat
  | [] => [x]
  | y :: l => if x ≤ y then x :: y :: l else y :: insertSorted x l

/-- `std::sort`. -/
def sort (l : List Nat) : List Nat := l.foldr insertSorted []

/-- `std::unique` followed by `erase`: of every run of equal elements one stays. -/
def unique : List Nat → List Nat
  | [] => []
  | x :: l => if l.head? = some x then unique l else x :: unique l

/-- `Lock::Lock`, `common/latch.cc:69-76`: `requiredHashes`. -/
def required (e : Env) (keys : List (List UInt8)) : List Nat :=
  unique (sort (keys.map fun k => (e.hash k).toNat))

/-- Where a request is. -/
inductive Pc where
  /-- no such request -/
  | idle
  /-- in the loop of `Latches::Acquire` at index `i`, with `acquired_count = n` -/
  | acq (i n : Nat)
  /-- in `SyncCond().IncreaseWait()` -/
  | wait
  /-- `LatchesAcquire` returned: the request is being executed -/
  | hold
  /-- in the loop of `Latches::Release` at index `i`, with the wake-up list so far -/
  | rel (i : Nat) (ws : List Cid)
  /-- in the loop of `Region::LatchesRelease` over the wake-up list -/
  | wake (ws : List Cid)
  /-- in `DecreaseSignal` after the unlock, before `bthread_cond_signal` on `w` -/
  | poke (w : Cid) (ws : List Cid)
deriving DecidableEq, Repr

/-- `LatchContext` (`server/service_helper.h:44-63`) and the position of its thread.
`keys` is what the request asked for; the code keeps the hashes only. -/
structure Thread where
  pc : Pc := .idle
  keys : List (List UInt8) := []
  /-- `Lock::requiredHashes` -/
  req : List Nat := []
  /-- `Lock::ownedCount` -/
  owned : Nat := 0
  /-- `BthreadCond::count_` -/
  count : Int := 0
deriving DecidableEq, Repr

/-- The latches of one region and the requests running against them. -/
structure State where
  slots : Nat → Queue := fun _ => []
  thr : Cid → Thread := fun _ => {}
  /-- an assertion failed, or a destroyed condition variable was decremented -/
  aborted : Bool := false
  /-- some request called `bthread_cond_signal` on a destroyed condition variable -/
  dangling : Bool := false

def State.init : State := {}

/-- Update of a function at one point. -/
def upd {α : Type} (f : Nat → α) (i : Nat) (x : α) : Nat → α := fun j => if j = i then x else f j

def State.setThr (s : State) (c : Cid) (t : Thread) : State := { s with thr := upd s.thr c t }
def State.setSlot (s : State) (k : Nat) (q : Queue) : State := { s with slots := upd s.slots k q }

/-- The end of `Latches::Acquire`, `common/latch.cc:128-130`, and the test of
`ServiceHelper::LatchesAcquire`, `service_helper.cc:426-431`. -/
def Thread.finish (t : Thread) (n : Nat) : Thread :=
  let owned := t.owned + n
  { t with owned := owned, pc := if t.req.length = owned then .hold else .wait }

/-- One step of the thread of request `c`, if it can move by itself. -/
def step (e : Env) (s : State) (c : Cid) : Option State :=
  let t := s.thr c
  if s.aborted then none else
  match t.pc with
  | .idle => none
  | .hold => none
  -- `common/latch.cc:109-127`: one turn of the loop of `Acquire`
  | .acq i n =>
    match t.req[i]? with
    | none => some (s.setThr c (t.finish n))
    | some h =>
      let q := s.slots (slotOf e h)
      match firstReq q h with
      | some w =>
        if w = c then some (s.setThr c { t with pc := .acq (i + 1) (n + 1) })
        else some ((s.setSlot (slotOf e h) (waitForWake h c q)).setThr c (t.finish n))
      | none =>
        some ((s.setSlot (slotOf e h) (waitForWake h c q)).setThr c
          { t with pc := .acq (i + 1) (n + 1) })
  -- `BthreadCond::IncreaseWait(0)`, `common/synchronization.cc:73-87`
  | .wait =>
    if t.count + 1 > 0 then none
    else some (s.setThr c { t with count := t.count + 1, pc := .acq t.owned 0 })
  -- `common/latch.cc:146-175`: one turn of the loop of `Release`
  | .rel i ws =>
    if i < t.owned then
      match t.req[i]? with
      | none => some { s with aborted := true }
      | some h =>
        match popFront h (s.slots (slotOf e h)) with
        | none => some { s with aborted := true }
        | some (w, q) =>
          if w = c then
            let ws := match firstReq q h with
              | some x => ws ++ [x]
              | none => ws
            some ((s.setSlot (slotOf e h) q).setThr c { t with pc := .rel (i + 1) ws })
          else some { s with aborted := true }
    else some (s.setThr c { t with pc := .wake ws })
  -- `Region::LatchesRelease`, `meta/store_meta_manager.cc:397-401`, and the first half of
  -- `BthreadCond::DecreaseSignal`, `common/synchronization.cc:42-46`
  | .wake (w :: ws) =>
    let u := s.thr w
    if u.pc = .idle then some { s with aborted := true }
    else some ((s.setThr w { u with count := u.count - 1 }).setThr c { t with pc := .poke w ws })
  -- `bthread_cond_signal`, `common/synchronization.cc:47`
  | .poke w ws =>
    some { (s.setThr c { t with pc := .wake ws }) with
      dangling := s.dangling || decide ((s.thr w).pc = .idle) }
  -- the request is over and its `LatchContext` destroyed
  | .wake [] => some (s.setThr c {})

/-- What can happen. -/
inductive Ev where
  /-- a request for `keys` arrives: `LatchContext latch_ctx(region, keys)` -/
  | start (c : Cid) (keys : List (List UInt8))
  /-- the thread of request `c` takes one step of `LatchesAcquire` or `LatchesRelease` -/
  | run (c : Cid)
  /-- request `c` has been executed and calls `LatchesRelease` -/
  | finish (c : Cid)
deriving DecidableEq, Repr

/-- One event; `none` if it cannot happen in `s`. -/
def event (e : Env) (s : State) : Ev → Option State
  | .start c keys =>
    if s.aborted = false ∧ (s.thr c).pc = .idle then
      some (s.setThr c { pc := .acq 0 0, keys := keys, req := required e keys })
    else none
  | .run c => step e s c
  | .finish c =>
    if s.aborted = false ∧ (s.thr c).pc = .hold then
      some (s.setThr c { s.thr c with pc := .rel 0 [] })
    else none

/-- A history of events. -/
def exec (e : Env) (s : State) : List Ev → Option State
  | [] => some s
  | v :: es => (event e s v).bind fun s' => exec e s' es

end Verif.Latch
