/-!
# Timestamp oracle (model)

`src/coordinator/tso_control.cc` on the raft state machine
`src/raft/meta_state_machine.cc`.

The cluster is a committed raft log of oracle commands, the commands proposed by the
current leader and not yet committed, and the replicas.  Assumed of braft: entries
commit in the order proposed and only while no later leader has started; a replica
becomes leader (`on_leader_start`) after it has applied every committed entry; it is
told that it lost the leadership before it applies an entry of a later term, and may be
told late.  Terms in which no leader starts are skipped, so the terms are 1, 2, 3, ….

Assumed of the timer: it does not run while the first update of a new leader is
waiting.  (`OnLeaderStart` starts it after that update; but the bthread of an earlier,
failed, leadership may start it late, after `OnLeaderStop` stopped it.)
-/

namespace Verif.Tso

/-- `kUpdateTimestampIntervalMs`, `kUpdateTimestampGuardMs`, `kSaveIntervalMs`,
`kMaxLogical`, `coordinator/tso_control.h:32-37`. -/
def intervalMs : Int := 50
def guardMs : Int := 1
def saveMs : Int := 3000
def maxLogical : Int := 262144

/-- `TsoObj`, `coordinator/tso_control.h:86-89`. -/
structure Obj where
  physical : Int := 0
  logical : Int := 0
  lastSave : Int := 0
deriving DecidableEq, Repr

/-- `TsoRequest` as logged: `OP_UPDATE_TSO` or `OP_RESET_TSO`. -/
inductive Cmd where
  | update (physical logical save : Int)
  | reset (physical logical save : Int) (force : Bool)
deriving DecidableEq, Repr

/-- Who proposed an entry: `OnLeaderStart`, the timer, or a client request passed on
by `Process` (`coordinator/tso_control.cc:229-244`). -/
inductive Src where
  | start | timer | admin
deriving DecidableEq, Repr

structure Entry where
  term : Nat
  src : Src
  cmd : Cmd
deriving DecidableEq, Repr

/-- One replica.  `term` is `leader_term_` (`none`: not leader).  `busy`: a
`SyncTimestamp` of this replica is waiting.  `synced` is not in the code: it records
that since it became leader it has applied an update it had proposed.  `waiting`: the
counts of the requests inside the loop of `GenTso`. -/
structure Node where
  applied : Nat := 0
  obj : Obj := {}
  healthy : Bool := true
  term : Option Nat := none
  busy : Bool := false
  synced : Bool := false
  waiting : List Int := []
deriving DecidableEq, Repr

/-- `UpdateTso`, `coordinator/tso_control.cc:286-310`; `none`: rejected. -/
def updateTso (o : Obj) (physical logical save : Int) : Option Obj :=
  if save < o.lastSave ∨ physical < o.physical then none
  else some { physical := physical, logical := logical, lastSave := save }

/-- `ResetTso`, `coordinator/tso_control.cc:249-284`, for a request that has a current
timestamp. -/
def resetTso (o : Obj) (physical logical save : Int) (force : Bool) : Option Obj :=
  if save > 0 then
    if (save < o.lastSave ∨ physical < o.physical) ∧ ¬ force then none
    else some { physical := physical, logical := logical, lastSave := save }
  else none

/-- `ApplyMetaIncrement`, `coordinator/tso_control.cc:419-451`, on the oracle object. -/
def applyCmd (o : Obj) : Cmd → Option Obj
  | .update p l s => updateTso o p l s
  | .reset p l s f => resetTso o p l s f

/-- One entry applied by a replica (`MetaStateMachine::on_apply`,
`raft/meta_state_machine.cc:69-96`; the caller checks that a leader does not apply
entries of later terms).  A rejected first update makes the oracle unhealthy
(`coordinator/tso_control.cc:396-400`); `ResetTso` makes it healthy (`268`). -/
def Node.applyEntry (n : Node) (e : Entry) : Node :=
  let own := n.term = some e.term
  let wakes := own ∧ e.src ≠ .admin
  let r := applyCmd n.obj e.cmd
  { n with
    applied := n.applied + 1
    obj := r.getD n.obj
    healthy := match e.cmd, r with
      | .reset .., some _ => true
      | _, some _ => n.healthy
      | _, none => if own ∧ e.src = .start then false else n.healthy
    busy := if wakes then false else n.busy
    synced := if wakes ∧ r.isSome then true else n.synced }

/-- The update `OnLeaderStart` proposes, `coordinator/tso_control.cc:380-392`. -/
def startCmd (o : Obj) (now : Int) : Cmd :=
  let physical := if now < o.lastSave + intervalMs then o.lastSave + guardMs else now
  .update physical 0 (physical + saveMs)

/-- The update the timer proposes, `UpdateTimestamp`, `coordinator/tso_control.cc:61-99`.
Reading the object and proposing is one step here. -/
def timerCmd (o : Obj) (now : Int) : Option Cmd :=
  let delta := now - o.physical
  if delta > guardMs ∨ o.logical > maxLogical / 2 then
    let next := if delta > guardMs then now else o.physical + guardMs
    let save := if o.lastSave - next ≤ guardMs then next + saveMs else o.lastSave
    some (.update next 0 save)
  else none

/-- A range of timestamps handed out: `physical`, `logical ..< logical + count`, by a
replica that is leader of `term` at that moment (`none`: it is not leader any more);
`synced` as in `Node`. -/
structure Grant where
  term : Option Nat
  physical : Int
  logical : Int
  count : Int
  synced : Bool
deriving DecidableEq, Repr

/-- A request up to the loop of `GenTso`: leader check of `Process`
(`coordinator/tso_control.cc:215-223`), count and health (`139-150`).  A refused request
leaves the replica unchanged. -/
def Node.ask (n : Node) (count : Int) : Node :=
  if n.term = none ∨ count = 0 ∨ n.healthy = false then n
  else { n with waiting := n.waiting ++ [count] }

/-- One round of the loop of `GenTso`, `coordinator/tso_control.cc:153-177`, for the
`k`-th waiting request.  The loop does not look at the leadership again.  (The code
gives up after 50 rounds, 2.5 s; here a request may wait any time.) -/
def Node.gen (n : Node) (k : Nat) : Node × Option Grant :=
  match n.waiting[k]? with
  | none => (n, none)
  | some count =>
    if n.obj.physical = 0 then (n, none)
    else if n.obj.logical + count < maxLogical then
      ({ n with obj := { n.obj with logical := n.obj.logical + count }, waiting := n.waiting.eraseIdx k },
        some ⟨n.term, n.obj.physical, n.obj.logical, count, n.synced⟩)
    else (n, none)

structure Cluster where
  log : List Entry := []
  /-- proposed in term `term`, not committed -/
  pending : List Entry := []
  /-- the last term in which a leader started -/
  term : Nat := 0
  node : Nat → Node := fun _ => {}
  /-- snapshots: log position and saved `last_save_physical` -/
  snaps : List (Nat × Int) := []

def Cluster.set (c : Cluster) (i : Nat) (n : Node) : Cluster :=
  { c with node := fun j => if j = i then n else c.node j }

inductive Event where
  /-- `on_leader_start` with the wall clock at `now` -/
  | lead (i : Nat) (now : Int)
  /-- `on_leader_stop` -/
  | stop (i : Nat)
  | apply (i : Nat)
  /-- the first proposed entry commits -/
  | commit
  /-- timer with the wall clock at `now` -/
  | tick (i : Nat) (now : Int)
  /-- a request for timestamps arrives at replica `i` -/
  | ask (i : Nat) (count : Int)
  /-- the `k`-th waiting request of replica `i` tries once -/
  | gen (i : Nat) (k : Nat)
  /-- `OP_UPDATE_TSO` or `OP_RESET_TSO` sent by a client -/
  | admin (i : Nat) (cmd : Cmd)
  | snapshot (i : Nat)
  /-- a running follower loads snapshot number `s` -/
  | install (i : Nat) (s : Nat)
  /-- crash, restart, and load of snapshot `s`, if any -/
  | restart (i : Nat) (s : Option Nat)
deriving DecidableEq, Repr

/-- `AsyncWrite` of an entry by the leader of term `t`: lost if a later leader has
started. -/
def Cluster.propose (c : Cluster) (t : Nat) (e : Entry) : Cluster :=
  if t = c.term then { c with pending := c.pending ++ [e] } else c

/-- One event.  An event that cannot happen in `c` leaves it unchanged.
* `lead`, `stop`: `raft/meta_state_machine.cc:237-250`, `coordinator/tso_control.cc:380-413`.
  A leader that stops while its first update is waiting becomes unhealthy
  (`coordinator/tso_control.cc:35-43`, `396-400`).
* `snapshot`: `coordinator/tso_control.cc:461-489`.
* `install`, `restart`: `coordinator/tso_control.cc:322-330`, `491-502`; only
  `last_save_physical` is in the snapshot. -/
def step (c : Cluster) : Event → Cluster × Option Grant
  | .lead i now =>
    let n := c.node i
    if n.term = none ∧ n.applied = c.log.length then
      let t := c.term + 1
      ({ c.set i { n with term := some t, busy := true, synced := false } with
          term := t, pending := [⟨t, .start, startCmd n.obj now⟩] }, none)
    else (c, none)
  | .stop i =>
    let n := c.node i
    (c.set i { n with term := none, busy := false, synced := false,
                      healthy := if n.busy ∧ ¬ n.synced then false else n.healthy }, none)
  | .apply i =>
    let n := c.node i
    match c.log[n.applied]? with
    | none => (c, none)
    | some e =>
      match n.term with
      | some t => if t < e.term then (c, none) else (c.set i (n.applyEntry e), none)
      | none => (c.set i (n.applyEntry e), none)
  | .commit =>
    match c.pending with
    | [] => (c, none)
    | e :: rest => ({ c with log := c.log ++ [e], pending := rest }, none)
  | .tick i now =>
    let n := c.node i
    match n.term with
    | none => (c, none)
    | some t =>
      if n.busy then (c, none)
      else match timerCmd n.obj now with
        | none => (c, none)
        | some cmd => ((c.set i { n with busy := true }).propose t ⟨t, .timer, cmd⟩, none)
  | .ask i count => (c.set i ((c.node i).ask count), none)
  | .gen i k => (c.set i ((c.node i).gen k).1, ((c.node i).gen k).2)
  | .admin i cmd =>
    match (c.node i).term with
    | none => (c, none)
    | some t => (c.propose t ⟨t, .admin, cmd⟩, none)
  | .snapshot i => ({ c with snaps := c.snaps ++ [((c.node i).applied, (c.node i).obj.lastSave)] }, none)
  | .install i s =>
    let n := c.node i
    match c.snaps[s]? with
    | none => (c, none)
    | some (idx, save) =>
      if n.term = none ∧ n.applied ≤ idx then
        (c.set i { n with applied := idx, obj := { n.obj with lastSave := save } }, none)
      else (c, none)
  | .restart i s =>
    match s.bind (c.snaps[·]?) with
    | none => (c.set i {}, none)
    | some (idx, save) => (c.set i { applied := idx, obj := { lastSave := save } }, none)

/-- The grants of a history, in the order in which they are handed out. -/
def grants (c : Cluster) : List Event → List Grant
  | [] => []
  | e :: es => ((step c e).2.toList) ++ grants (step c e).1 es

/-- The cluster after a history. -/
def run (c : Cluster) : List Event → Cluster
  | [] => c
  | e :: es => run (step c e).1 es

end Verif.Tso
