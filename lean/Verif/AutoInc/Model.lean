/-!
# Auto-increment service of the coordinators (model)

`src/coordinator/auto_increment_control.cc`, `src/server/meta_service.cc` (requests) and
`src/raft/meta_state_machine.cc` (replication).

Simplifications: raft is a growing list of committed entries, of which every replica
applies a prefix; a proposal is committed at most once or lost.  The leadership check
(`IsLeader`) is left out: every replica may think it is the leader, which only adds
histories.  `LoadAutoIncrement` and `SaveAutoIncrement` have no caller.
-/

namespace Verif.AutoInc

/-- `auto_increment_map_`, `coordinator/auto_increment_control.h:127`. -/
abbrev Map := Int → Option Int

def Map.set (m : Map) (t : Int) (v : Option Int) : Map := fun x => if x = t then v else m x

def maxI64 : Int := 9223372036854775807

/-- `GetRealStartId`, `coordinator/auto_increment_control.cc:409-419`.  `%` of C++
truncates. -/
def realStart (start : Int) (inc off : Nat) : Int :=
  let r := start.tmod inc
  if r < off then start - r + off
  else if r > off then start - r + inc + off
  else start

/-- `kAutoIncrementOffsetMax`, `coordinator/auto_increment_control.h:143`. -/
def offsetMax : Nat := 65535

/-- `kAutoIncrementGenerateCountMax`, `coordinator/auto_increment_control.h:142`. -/
def countMax : Nat := 100000

/-- `GetGenerateEndId`, `coordinator/auto_increment_control.cc:390-407`; `count * increment`
is a product of two `uint32_t`. -/
def endId (start : Int) (count inc off : Nat) : Int :=
  let inc := if inc = 0 ∨ inc > offsetMax then 1 else inc
  let off := if off = 0 ∨ off > offsetMax ∨ off > inc then 1 else off
  if inc = 1 ∧ off = 1 then start + count
  else realStart start inc off + ((count * inc) % 4294967296 : Nat)

/-- One element of a `MetaIncrement`. -/
inductive Op where
  | create (t start : Int)
  | update (t start : Int)
  | generate (t : Int) (count inc off : Nat)
  | delete (t : Int)
deriving DecidableEq, Repr

/-- The fields of a `GenerateAutoIncrementResponse`; `table`, `count`, `inc` and `off` are
those of the request. -/
structure Resp where
  table : Int
  count : Nat
  inc : Nat
  off : Nat
  start : Int
  stop : Int
deriving DecidableEq, Repr

/-- The body of the loop of `ApplyMetaIncrement`,
`coordinator/auto_increment_control.cc:343-386`; `none`: signed overflow. -/
def applyOp (m : Map) : Op → Option (Map × Option Resp)
  | .create t start => some (m.set t (some start), none)
  | .update t start =>
    match m t with
    | none => some (m, none)
    | some _ => some (m.set t (some start), none)
  | .generate t count inc off =>
    match m t with
    | none => some (m, none)
    | some v =>
      let e := endId v count inc off
      if e ≤ maxI64 then some (m.set t (some e), some ⟨t, count, inc, off, v, e⟩) else none
  | .delete t => some (m.set t none, none)

/-- `ApplyMetaIncrement`, `coordinator/auto_increment_control.cc:338-388`; the last response
wins. -/
def applyOps (m : Map) : List Op → Option (Map × Option Resp)
  | [] => some (m, none)
  | op :: ops =>
    match applyOp m op with
    | none => none
    | some (m', r) =>
      match applyOps m' ops with
      | none => none
      | some (m'', r') => some (m'', r'.or r)

inductive Request where
  | create (ts : List (Int × Int))
  | update (t start : Int) (force : Bool)
  | createOrUpdate (t start : Int)
  | generate (t : Int) (count inc off : Nat)
  | delete (t : Int)
deriving DecidableEq, Repr

/-- `CreateAutoIncrement`, `coordinator/auto_increment_control.cc:78-103`, called once per
element by `DoCreateAutoIncrements`, `server/meta_service.cc:825-869` (and once by
`DoCreateAutoIncrement`, `785-823`). -/
def proposeCreate (m : Map) : List (Int × Int) → Option (List Op)
  | [] => some []
  | (t, start) :: ts =>
    match m t with
    | some v => if v = start then proposeCreate m ts else none
    | none => (proposeCreate m ts).map (.create t start :: ·)

/-- What a replica with map `m` proposes for a request; `none`: the request is refused.
`UpdateAutoIncrement` 169-191, `GenerateAutoIncrement` 193-223, `DeleteAutoIncrement`
225-240, `CreateOrUpdateAutoIncrement` 259-297 of `coordinator/auto_increment_control.cc`.
Generate counts are `uint32_t`. -/
def propose (m : Map) : Request → Option (List Op)
  | .create ts => proposeCreate m ts
  | .update t start force =>
    match m t with
    | none => none
    | some v => if start ≤ v ∧ ¬ force then none else some [.update t start]
  | .createOrUpdate t start =>
    match m t with
    | none => some [.create t start]
    | some v => if start < v then none else if start = v then some [] else some [.update t start]
  | .generate t count inc off =>
    match m t with
    | none => none
    | some _ =>
      if count = 0 ∨ count > countMax ∨ inc = 0 ∨ inc > offsetMax ∨ off = 0 ∨ off > offsetMax then none
      else some [.generate t count inc off]
  | .delete t =>
    match m t with
    | none => some []
    | some _ => some [.delete t]

/-- A proposal.  `owner` and `epoch`: the replica (and its incarnation) that waits to
answer the client.  Not in the code: `req`, `seen` (number of entries applied by the owner
when it checked the request), `called` (time of the request). -/
structure Entry where
  ops : List Op
  owner : Nat
  epoch : Nat
  req : Request
  seen : Nat
  called : Nat
deriving DecidableEq, Repr

/-- A replica.  `snap`: its last snapshot and the number of entries in it; `dead`: it has
run into undefined behaviour. -/
structure Node where
  map : Map := fun _ => none
  applied : Nat := 0
  snap : Map := fun _ => none
  snapAt : Nat := 0
  epoch : Nat := 0
  dead : Bool := false

structure State where
  log : List Entry := []
  sent : List Entry := []
  node : Nat → Node := fun _ => {}
  time : Nat := 0

/-- An answered `GenerateAutoIncrement` request: its range is `[start, stop)`.  Not in the
code: `pos` (position in the log) and the times. -/
structure Grant where
  resp : Resp
  pos : Nat
  called : Nat
  returned : Nat
deriving DecidableEq, Repr

inductive Event where
  /-- replica `i` checks a request and proposes it -/
  | request (i : Nat) (r : Request)
  /-- the `k`-th outstanding proposal is committed -/
  | commit (k : Nat)
  /-- the `k`-th outstanding proposal is lost -/
  | lose (k : Nat)
  /-- replica `i` applies its next entry (`MetaStateMachine::on_apply`,
  `raft/meta_state_machine.cc:69-96`) -/
  | apply (i : Nat)
  /-- replica `i` saves a snapshot (`on_snapshot_save`, `147-169`) -/
  | save (i : Nat)
  /-- replica `i` restarts from its snapshot -/
  | restart (i : Nat)
  /-- replica `i` loads a newer snapshot of replica `j` (`on_snapshot_load`, `171-235`) -/
  | install (i j : Nat)
deriving DecidableEq, Repr

def State.setNode (s : State) (i : Nat) (n : Node) : State :=
  { s with node := fun j => if j = i then n else s.node j }

def State.applyNode (s : State) (i : Nat) : State × Option Grant :=
  let n := s.node i
  match s.log[n.applied]? with
  | none => (s, none)
  | some e =>
    match applyOps n.map e.ops with
    | none => (s.setNode i { n with dead := true }, none)
    | some (m, r) =>
      (s.setNode i { n with map := m, applied := n.applied + 1 },
        if e.owner = i ∧ e.epoch = n.epoch then r.map fun r => ⟨r, n.applied, e.called, s.time⟩ else none)

/-- One event.  An event that cannot happen leaves the state unchanged. -/
def stepAt (s : State) (e : Event) : State × Option Grant :=
  match e with
  | .request i r =>
    let n := s.node i
    if n.dead then (s, none)
    else match propose n.map r with
      | none => (s, none)
      | some ops => ({ s with sent := s.sent ++ [⟨ops, i, n.epoch, r, n.applied, s.time⟩] }, none)
  | .commit k =>
    match s.sent[k]? with
    | none => (s, none)
    | some e => ({ s with log := s.log ++ [e], sent := s.sent.eraseIdx k }, none)
  | .lose k => ({ s with sent := s.sent.eraseIdx k }, none)
  | .apply i => if (s.node i).dead then (s, none) else s.applyNode i
  | .save i =>
    let n := s.node i
    if n.dead then (s, none) else (s.setNode i { n with snap := n.map, snapAt := n.applied }, none)
  | .restart i =>
    let n := s.node i
    (s.setNode i { n with map := n.snap, applied := n.snapAt, epoch := n.epoch + 1, dead := false }, none)
  | .install i j =>
    let n := s.node i
    let p := s.node j
    if n.dead = false ∧ n.applied < p.snapAt then
      (s.setNode i { n with map := p.snap, applied := p.snapAt, snap := p.snap, snapAt := p.snapAt }, none)
    else (s, none)

def step (s : State) (e : Event) : State × Option Grant := stepAt { s with time := s.time + 1 } e

def run (s : State) : List Event → State
  | [] => s
  | e :: es => run (step s e).1 es

/-- The answers of a history, in order. -/
def grants (s : State) : List Event → List Grant
  | [] => []
  | e :: es => (step s e).2.toList ++ grants (step s e).1 es

end Verif.AutoInc
