import Verif.RegMap.Model

/-!
# Jobs of the coordinator (model)

`coordinator/coordinator_control_coor.cc` (`ProcessJobList` and what it calls, `ValidateJobConflict`,
the `...WithJob` requests and the `Add...Task` functions), `coordinator/coordinator_control_fsm.cc`
(`ApplyMetaIncrement`, jobs) and the maps of `coordinator/coordinator_meta_storage.h`.

A split, a merge, a change of peers, ... is a job: a list of steps (tasks), each with conditions on
what the stores reported and commands to stores.  A pass over the jobs, which the leader makes from
time to time, sends the commands of the current steps and writes what the stores answered.

Left out: names, times and error texts of jobs; the older list of store operations
(`store_operation_map_`), which is filled only by its own administrative request; failing disk
writes.  `DingoSafeMap::Exists` returns a `bool`, so that the tests `Exists(..) < 0` for a missing
store (`coordinator_control_coor.cc:5803`, `:6252`) are never true: stores are not looked up here.
-/

namespace Verif.Job
open Verif.Region (Range RState)
open Verif.RegMap (CState)

/-! ## What the coordinator knows of the cluster -/

/-- A region in `region_map_` (state and parts of the definition) with what `region_metrics_map_`
says of it: raft and heartbeat status, leader, the log ids of the vector index. -/
structure Rec where
  state : CState
  range : Range
  peers : List Nat
  vector : Bool
  version : Nat
  healthy : Bool
  online : Bool
  leader : Nat
  applyLog : Nat
  snapshotLog : Nat
  deriving DecidableEq

/-- What a store last reported of a region, `store_region_metrics_map_`. -/
structure Metric where
  state : RState
  hold : Bool
  ready : Bool
  version : Nat
  deriving DecidableEq

/-- What the coordinator knows: regions by id, and reports by store and region. -/
structure View where
  regions : Nat → Option Rec
  metric : Nat → Nat → Option Metric

/-! ## Jobs -/

/-- `RegionCmdType`, as far as jobs use it. -/
inductive CmdType where
  | create | delete | split | merge | changePeer | transferLeader | snapshotVector | holdVector
  deriving DecidableEq, Repr

/-- The commands that only the leader of a region takes, `store/region_controller.cc:501`, `:795`,
`:997`. -/
def CmdType.leader : CmdType → Bool
  | .split | .merge | .changePeer => true
  | _ => false

/-- `RegionCmd`: its id, type, region, the other region it names (`split_to_region_id`,
`target_region_id`), the stores it names (the peers of the new definition, the new leader), and
whether it is sent again after a failure.  Left out: the rest of definitions, the key of a split. -/
structure Cmd where
  id : Nat
  type : CmdType
  region : Nat
  other : Option Nat
  peers : List Nat
  retry : Bool
  deriving DecidableEq, Repr

/-- `TaskPreCheck` with `REGION_CHECK`: the fields that jobs set. -/
structure RegionCheck where
  region : Nat
  state : Option CState
  healthy : Bool
  range : Option Range
  peers : List Nat
  snapshotLog : Nat
  deriving DecidableEq

/-- `TaskPreCheck` with `STORE_REGION_CHECK`: the fields that jobs set.  `index`: the store must
hold the vector index, ready, and with this version if it is not 0. -/
structure StoreCheck where
  store : Nat
  region : Nat
  state : Option RState
  index : Option Nat
  deriving DecidableEq

/-- `TaskPreCheck`. -/
inductive Check where
  | none
  | region (c : RegionCheck)
  | store (c : StoreCheck)
  deriving DecidableEq

/-- `DoTaskPreCheck`, `coordinator_control_coor.cc:5446-5663`. -/
def Check.pass (v : View) : Check → Bool
  | .none => true
  | .region c =>
    match v.regions c.region with
    | .none => false
    | some r =>
      (match c.state with | .none => true | some st => decide (st = r.state)) &&
      (!c.healthy || r.healthy) &&
      (match c.range with | .none => true | some g => decide (g = r.range)) &&
      (c.peers.isEmpty || c.peers.isPerm r.peers) &&
      decide (c.snapshotLog ≤ r.snapshotLog)
  | .store c =>
    match v.metric c.store c.region with
    | .none => false
    | some m =>
      (match c.state with | .none => true | some st => decide (st = m.state)) &&
      (match c.index with | .none => true | some n => m.hold && m.ready && (decide (n = 0) || decide (n = m.version))) &&
      (v.regions c.region).isSome

/-- `StoreOperation`. -/
structure Op where
  store : Nat
  check : Check
  cmds : List Cmd
  success : Bool
  retries : Nat
  deriving DecidableEq

/-- `Task`: operations on stores, and regions the coordinator itself drops. -/
structure Task where
  ops : List Op
  drops : List Nat
  deriving DecidableEq

/-- The request a job was made for: its name, its parameters, and what the coordinator knew of the
region then (`index`: the version of the vector index, if there is one). -/
inductive Kind where
  | create (region : Nat) (stores : List Nat)
  | drop (region store : Nat)
  | split (region child : Nat) (byStore : Bool) (peers : List Nat) (index : Option Nat)
  | splitInto (region child : Nat)
  | merge (source target : Nat) (range : Range) (peers : List Nat) (index : Option Nat)
  | addPeer (region store : Nat) (old : List Nat)
  | removePeer (region store : Nat) (kept : List Nat)
  | movePeer (region new old : Nat) (kept : List Nat)
  | transfer (region store : Nat)
  deriving DecidableEq

/-- `Job`. -/
structure Job where
  id : Nat
  kind : Kind
  tasks : List Task
  next : Nat
  deriving DecidableEq

def Op.has (o : Op) (c : Nat) : Bool := o.cmds.any (fun x => x.id = c)
def Task.cmds (t : Task) : List Cmd := t.ops.flatMap Op.cmds
def Task.has (t : Task) (c : Nat) : Bool := t.ops.any (fun o => o.has c)

/-! ## What the state machine does with jobs -/

/-- `FindTaskByRegionCmd`, `coordinator_control_coor.cc:6325-6342`: the step of a command. -/
def Job.find (j : Job) (c : Nat) : Option Nat := j.tasks.findIdx? (fun t => t.has c)

/-- `UpdateJobNextStep`, the first loop, `:6413-6422`. -/
def Task.mark (t : Task) (c : Nat) : Task :=
  { t with ops := t.ops.map (fun o => if o.has c then { o with success := true } else o) }

/-- The second loop, `:6423-6429`. -/
def Task.finished (t : Task) : Bool := t.ops.all (fun o => o.success || o.cmds.isEmpty)

/-- `UpdateJobNextStep`, `:6410-6431`, for a command of step `i`. -/
def Job.done (j : Job) (i : Nat) (t : Task) (c : Nat) : Job :=
  { j with tasks := j.tasks.set i (t.mark c), next := if (t.mark c).finished then j.next + 1 else j.next }

/-- `NeedAutoCleanJob`, `:6306-6323`, with `FLAGS_task_retry_count` = 5. -/
def Job.needClean (j : Job) (o : Op) : Bool :=
  decide (5 < o.retries) &&
    (j.tasks.take j.next).all (fun t => t.cmds.all (fun c => decide (c.type ≠ .create)))

/-- `UpdateTaskRegionCmdStatus`, `:6397-6408`, and `:6511`. -/
def Op.failed (o : Op) (c : Nat) : Op :=
  { o with cmds := o.cmds.map (fun x => if x.id = c then { x with retry := true } else x), retries := o.retries + 1 }

/-- The first operation with the command, changed (`FindExecuteStoreOperation`, `:6344-6355`). -/
def Task.onFirst (f : Op → Op) (c : Nat) : List Op → List Op
  | [] => []
  | o :: os => if o.has c then f o :: os else o :: Task.onFirst f c os

/-- `UpdateJobProcess`, `:6482-6519`, for a failed command of step `i`. -/
def Job.failed (j : Job) (i : Nat) (t : Task) (c : Nat) : Job :=
  { j with tasks := j.tasks.set i { t with ops := Task.onFirst (fun o => o.failed c) c t.ops }, next := i }

/-- Adds a command to the first operation for a store, or to a new one at the end,
`:6365-6373`, `:6384-6388`. -/
def addTo (s : Nat) (c : Cmd) : List Op → List Op
  | [] => [⟨s, .none, [c], false, 0⟩]
  | o :: os => if o.store = s then { o with cmds := o.cmds ++ [c] } :: os else o :: addTo s c os

/-- `MoveRegionCmdInStoreOperation`, `:6375-6391`: the first command with the id, in the first
operation that has it, is added for the other store and then erased where it was. -/
def Task.move (t : Task) (c s : Nat) : Option Task :=
  match t.ops.findIdx? (fun o => o.has c) with
  | .none => .none
  | some i =>
    match t.ops[i]? with
    | .none => .none
    | some o =>
      match o.cmds.findIdx? (fun x => x.id = c) with
      | .none => .none
      | some k =>
        match o.cmds[k]? with
        | .none => .none
        | some x =>
          some { t with ops := (addTo s x t.ops).modify i (fun o => { o with cmds := o.cmds.eraseIdx k }) }

/-- `RegionCmdStatus`: `STATUS_DONE`, `STATUS_FAIL`. -/
inductive Status where
  | done | fail
  deriving DecidableEq

/-- An increment of jobs, `MetaIncrementJob`: `CREATE`, `UPDATE`, `DELETE`, and `MODIFY` with the
status of a command or with its move to another store.  `drop`: the increment that erases a
region. -/
inductive Inc where
  | create (j : Job)
  | update (j : Job)
  | delete (id : Nat)
  | status (id cmd : Nat) (st : Status)
  | move (id cmd store : Nat)
  | drop (region : Nat)

/-- `job_map_` and `job_archive_` (with the status: `true` for "success", `false` for "failed"). -/
structure Jobs where
  jobs : List Job
  archive : List (Job × Bool)

def Jobs.get (s : Jobs) (id : Nat) : Option Job := s.jobs.find? (fun j => j.id = id)

/-- `job_meta_->Put`. -/
def putJob (j : Job) : List Job → List Job
  | [] => [j]
  | x :: l => if x.id = j.id then j :: l else x :: putJob j l

/-- `job_meta_->Erase`. -/
def Jobs.erase (s : Jobs) (id : Nat) : List Job := s.jobs.filter (fun j => j.id ≠ id)

/-- `UpdateJobProcess`, `coordinator_control_coor.cc:6433-6530`, for one status. -/
def Jobs.onStatus (s : Jobs) (j : Job) (c : Nat) (st : Status) : Jobs :=
  match j.find c with
  | .none => s
  | some i =>
    match j.tasks[i]? with
    | .none => s
    | some t =>
      match st with
      | .done => if i = j.next then { s with jobs := putJob (j.done i t c) s.jobs } else s
      | .fail =>
        match t.ops.find? (fun o => o.has c) with
        | .none => s
        | some o =>
          if j.needClean o then ⟨s.erase j.id, (j, false) :: s.archive⟩
          else { s with jobs := putJob (j.failed i t c) s.jobs }

/-- `ApplyMetaIncrement`, jobs, `coordinator_control_fsm.cc:2413-2467`.  `none`: the process ends.
A `DELETE` reads the job with `MetaMemMapFlat::Get`, which says OK also when there is none
(`coordinator_meta_storage.h:784-787`) and leaves the job empty, with id 0; putting it into the
archive then fails the `CHECK(id == element.id())` of `MetaDiskMap::Put` (`:417-418`). -/
def Jobs.apply (s : Jobs) : Inc → Option Jobs
  | .create j => some { s with jobs := putJob j s.jobs }
  | .update j => some { s with jobs := putJob j s.jobs }
  | .delete id =>
    match s.get id with
    | .none => .none
    | some j => some ⟨s.erase id, (j, true) :: s.archive⟩
  | .status id c st =>
    match s.get id with
    | .none => some s
    | some j => some (s.onStatus j c st)
  | .move id c store =>
    match s.get id with
    | .none => some s
    | some j =>
      match j.find c with
      | .none => some s
      | some i =>
        match (j.tasks[i]?).bind (fun t => t.move c store) with
        | .none => some s
        | some t => some { s with jobs := putJob { j with tasks := j.tasks.set i t } s.jobs }
  | .drop _ => some s

/-- All increments of one entry. -/
def Jobs.applyAll (s : Jobs) : List Inc → Option Jobs
  | [] => some s
  | i :: is => (s.apply i).bind (fun s => s.applyAll is)

/-! ## Tasks, `coordinator_control_coor.cc:5113-5444` -/

/-- A step with a command for one store. -/
def one (store : Nat) (check : Check) (c : Cmd) : Task := ⟨[⟨store, check, [c], false, 0⟩], []⟩

/-- A step with conditions only. -/
def await (cs : List (Nat × Check)) : Task := ⟨cs.map (fun c => ⟨c.1, c.2, [], false, 0⟩), []⟩

/-- A step with a command for each of several stores. -/
def each (cs : List (Nat × Check × Cmd)) : Task := ⟨cs.map (fun c => ⟨c.1, c.2.1, [c.2.2], false, 0⟩), []⟩

/-- The ids `n`, `n + 1`, ... for a list. -/
def number {α : Type} (n : Nat) : List α → List (Nat × α)
  | [] => []
  | a :: l => (n, a) :: number (n + 1) l

def regionCheck (region : Nat) : RegionCheck := ⟨region, .none, false, .none, [], 0⟩

/-- `AddDeleteTask`, `GenDeleteRegionStoreOperation`, `:5129-5155`. -/
def deleteTask (n store region : Nat) (check : Check) : Task := one store check ⟨n, .delete, region, .none, [], false⟩

/-- `AddChangePeerTask`, `:5213-5227`. -/
def changePeerTask (n leader region : Nat) (peers : List Nat) : Task :=
  one leader .none ⟨n, .changePeer, region, .none, peers, false⟩

/-- `AddDeleteTaskWithCheck`, `:5157-5173`: the replica is deleted when the region has exactly the
other peers, is normal and healthy. -/
def removeCheck (region : Nat) (kept : List Nat) : Check :=
  .region { regionCheck region with peers := kept, state := some .normal, healthy := true }

/-- `AddCheckChangePeerResultTask`, `:5435-5444`. -/
def peersTask (leader region : Nat) (peers : List Nat) : Task :=
  await [(leader, .region { regionCheck region with peers := peers })]

/-- `AddCreateTask`, `:5113-5127`. -/
def createTask (n store region : Nat) : Task := one store .none ⟨n, .create, region, .none, [], false⟩

/-- `AddCheckStoreRegionTask`, `AddCheckSplitChildRegionTask`, `AddCheckSplitParentRegionTask`,
`AddCheckSplitResultTask`, `AddCheckTombstoneRegionTask`, `:5201-5211`, `:5327-5337`,
`:5396-5433`, for several stores. -/
def stateTask (stores : List Nat) (region : Nat) (state : Option RState) : Task :=
  await (stores.map (fun s => (s, .store ⟨s, region, state, .none⟩)))

/-- `AddLoadVectorIndexTask`, `:5372-5394`. -/
def holdTask (n : Nat) (stores : List Nat) (region : Nat) : Task :=
  each ((number n stores).map (fun x => (x.2, .store ⟨x.2, region, .none, .none⟩, ⟨x.1, .holdVector, region, .none, [], false⟩)))

/-- `AddCheckStoreVectorIndexTask`, `:5353-5370`. -/
def indexTask (stores : List Nat) (region version : Nat) : Task :=
  await (stores.map (fun s => (s, .store ⟨s, region, .none, some version⟩)))

/-- `AddSnapshotVectorIndexTask`, `:5266-5282`. -/
def snapshotTask (n : Nat) (stores : List Nat) (region : Nat) : Task :=
  each ((number n stores).map (fun x => (x.2, .none, ⟨x.1, .snapshotVector, region, .none, [], false⟩)))

/-- The version of the vector index, if there is one. -/
def Rec.indexVersion (r : Rec) : Option Nat := if r.vector then some r.version else .none

/-- The steps before a split of a region with a vector index, `:2821-2855`. -/
def splitVector (n region : Nat) (r : Rec) : List Task :=
  if r.vector then
    (if r.snapshotLog < r.applyLog then
      [snapshotTask n r.peers region,
       await [(r.leader, .region { regionCheck region with snapshotLog := r.applyLog })]]
     else []) ++
    [holdTask (n + r.peers.length) r.peers region, indexTask r.peers region r.version]
  else []

/-- The range of a merged region, `:3018-3034`. -/
def mergedRange (source target : Range) : Option Range :=
  if target.start = source.stop then some ⟨source.start, target.stop⟩
  else if source.start = target.stop then some ⟨target.start, source.stop⟩
  else .none

/-! ## Requests -/

/-- What clients and the balancing of regions ask for.  `split`: with the id of the new region. -/
inductive Req where
  | create (region : Nat) (stores : List Nat)
  | drop (region : Nat)
  | split (region child : Nat) (key : Codec.Bytes) (byStore : Bool)
  | splitInto (region child : Nat)
  | merge (source target : Nat)
  | addPeer (region store : Nat)
  | removePeer (region store : Nat)
  | movePeer (region new old : Nat)
  | transfer (region store : Nat)

/-- The regions a command names. -/
def Cmd.names (c : Cmd) : List Nat := c.region :: c.other.toList

/-- The regions the commands of a job name. -/
def Job.names (j : Job) : List Nat := j.tasks.flatMap (fun t => t.cmds.flatMap Cmd.names)

/-- `ValidateJobConflict`, `:3690-3733`. -/
def conflict (jobs : List Job) (a b : Nat) : Bool :=
  jobs.any (fun j => j.tasks.any (fun t => t.ops.any (fun o => o.cmds.any (fun c =>
    decide (c.region = a) || decide (c.region = b) || decide (c.other = some a) || decide (c.other = some b)))))

/-- A region that may be split, merged or changed: `:2766-2768` and the like. -/
def Rec.fit (r : Rec) : Bool := decide (r.state = .normal) && r.healthy && r.online && decide (r.leader ≠ 0)

/-- The jobs that delete the replicas of a dropped region, `DropRegionFinal`, `:2493-2506`. -/
def dropJobs (n region : Nat) (stores : List Nat) : List Job :=
  (number n stores).map (fun x => ⟨x.1, .drop region x.2, [deleteTask x.1 x.2 region .none], 0⟩)

/-- `DropRegionFinal`, `:2455-2530`. -/
def dropFinal (v : View) (n region : Nat) : Option (List Inc) :=
  match v.regions region with
  | .none => .none
  | some r =>
    if r.state = .deleted ∨ r.state = .delete ∨ r.state = .deleting then some []
    else some (.drop region :: (dropJobs n region r.peers).map Inc.create)

/-- The job a request makes: its id is `n`, and those of its commands are from `n` on.  (In the code
ids of commands are from a counter of their own, and differ from those of all other commands.)
`none`: refused.  Left out: the checks of store engines, store types, partitions, index parameters
and versions, snapshots and of stores being online; forced transfers of a leader.  The peers in the
metrics of a region (used once, `:2878`) are taken to be those of the region. -/
def plan (jobs : List Job) (v : View) (n : Nat) : Req → Option Job
  -- `CreateRegionWithJob`, `:3676-3688`
  | .create region stores =>
    some ⟨n, .create region stores, [each ((number n stores).map (fun x => (x.2, .none, ⟨x.1, .create, region, .none, [], false⟩)))], 0⟩
  | .drop _ => .none
  -- `SplitRegionWithJob`, `:2709-2893`
  | .split region child key byStore =>
    if conflict jobs region 0 then .none
    else match v.regions region with
      | .none => .none
      | some r =>
        if ¬ (r.range.start < key ∧ key < r.range.stop) ∨ r.fit = false ∨ (v.regions child).isSome then .none
        else
          let m := n + 2 * r.peers.length
          -- with `store_create_region` the stores create the child themselves
          let stores := if byStore then [] else r.peers
          some ⟨n, .split region child byStore r.peers r.indexVersion,
            splitVector n region r ++
            [each ((number m stores).map (fun x => (x.2, .none, ⟨x.1, .create, child, .none, [], false⟩))),
             stateTask stores child (some .standby),
             stateTask r.peers region (some .normal),
             one r.leader (if byStore then .none else .region { regionCheck child with state := some .standby })
               ⟨m + r.peers.length, .split, region, some child, [], false⟩,
             stateTask stores child (some .normal)], 0⟩
  -- `SplitRegion`, `:2679-2706`: no id is set in the command
  | .splitInto region child =>
    if conflict jobs region child then .none
    else match v.regions region, v.regions child with
      | some r, some q =>
        if r.fit = false ∨ q.state ≠ .standby ∨ r.peers.isPerm q.peers = false ∨ region = child then .none
        else some ⟨n, .splitInto region child, [one r.leader .none ⟨0, .split, region, some child, [], false⟩], 0⟩
      | _, _ => .none
  -- `MergeRegionWithJob`, `:2895-3147`
  | .merge source target =>
    if conflict jobs source target then .none
    else match v.regions source, v.regions target with
      | some r, some q =>
        match mergedRange r.range q.range with
        | .none => .none
        | some g =>
          if r.fit = false ∨ q.fit = false ∨ r.peers.isPerm q.peers = false ∨ source = target ∨ r.vector ≠ q.vector then .none
          else some ⟨n, .merge source target g r.peers r.indexVersion,
            (if r.vector then [holdTask n r.peers source, indexTask r.peers source r.version] else []) ++
            [one r.leader .none ⟨n + r.peers.length, .merge, source, some target, [], false⟩,
             stateTask r.peers source (some .tombstone),
             ⟨[⟨r.leader, .region { regionCheck source with state := some .tombstone }, [], false, 0⟩], [source]⟩,
             await [(r.leader, .region { regionCheck target with state := some .normal, range := some g })]], 0⟩
      | _, _ => .none
  -- `ChangePeerRegionWithJob`, `:3324-3387`
  | .addPeer region store =>
    if conflict jobs region region then .none
    else match v.regions region with
      | .none => .none
      | some r =>
        if r.fit = false ∨ store ∈ r.peers then .none
        else some ⟨n, .addPeer region store r.peers,
          [createTask n store region, stateTask [store] region .none, changePeerTask (n + 1) r.leader region (store :: r.peers),
           peersTask r.leader region (store :: r.peers)], 0⟩
  -- `ChangePeerRegionWithJob`, `:3288-3318`
  | .removePeer region store =>
    if conflict jobs region region then .none
    else match v.regions region with
      | .none => .none
      | some r =>
        let kept := r.peers.filter (fun p => p ≠ store)
        if r.fit = false ∨ store ∉ r.peers ∨ (r.leader = store ∧ kept.length < 3) then .none
        else some ⟨n, .removePeer region store kept,
          [changePeerTask n r.leader region kept, deleteTask (n + 1) store region (removeCheck region kept),
           peersTask r.leader region kept], 0⟩
  -- `ChangePairPeerRegionWithJob`, `:3397-3600`
  | .movePeer region new old =>
    if conflict jobs region region then .none
    else match v.regions region with
      | .none => .none
      | some r =>
        let kept := new :: r.peers.filter (fun p => p ≠ old)
        if r.fit = false ∨ new ∈ r.peers ∨ old ∉ r.peers ∨ (r.leader = old ∧ kept.length < 3) then .none
        else some ⟨n, .movePeer region new old kept,
          [createTask n new region, stateTask [new] region .none, changePeerTask (n + 1) r.leader region (new :: r.peers),
           peersTask r.leader region (new :: r.peers), changePeerTask (n + 2) r.leader region kept,
           deleteTask (n + 3) old region (removeCheck region kept), peersTask r.leader region kept], 0⟩
  -- `TransferLeaderRegionWithJob`, `:3602-3674`: no test for conflicts
  | .transfer region store =>
    match v.regions region with
    | .none => .none
    | some r =>
      if r.state ≠ .normal ∨ r.online = false ∨ r.leader = 0 ∨ r.leader = store ∨ store ∉ r.peers then .none
      else some ⟨n, .transfer region store, [one r.leader .none ⟨n, .transferLeader, region, .none, [store], false⟩], 0⟩

/-- The increments of a request; `DoDropRegion` tests for conflicts
(`server/coordinator_service.cc:1427`). -/
def request (jobs : List Job) (v : View) (n : Nat) : Req → List Inc
  | .drop region =>
    if conflict jobs region region then [] else (dropFinal v n region).getD []
  | q => ((plan jobs v n q).map Inc.create).toList

/-! ## A pass over the jobs -/

/-- A command that is sent: to which store, for which job and step. -/
structure Sent where
  store : Nat
  job : Nat
  step : Nat
  cmd : Cmd
  deriving DecidableEq

/-- `GenStoreOperation`, `:5799-5819`: a store is sent at most so many commands (`cap`) at once. -/
def gen (cap : Nat) (acc : List Sent) (x : Sent) : List Sent :=
  if cap < (acc.filter (fun y => y.store = x.store)).length then acc else acc ++ [x]

/-- The commands of a step. -/
def Task.sends (t : Task) (job step : Nat) : List Sent :=
  t.ops.flatMap (fun o => o.cmds.map (fun c => ⟨o.store, job, step, c⟩))

/-- `AddCoordinatorOperation`, `:6133-6163`, in a loop that ends with the first error; whether there
was none, and the increments so far. -/
def addDrops (v : View) (n : Nat) : List Nat → Bool × List Inc
  | [] => (true, [])
  | r :: rs =>
    match dropFinal v n r with
    | .none => (false, [])
    | some is => let x := addDrops v (n + is.length) rs; (x.1, is ++ x.2)

/-- `ProcessJob`, `:5665-5738`: the increments and the commands to send, added to those so far. -/
def processJob (v : View) (cap n : Nat) (j : Job) (acc : List Sent) : List Inc × List Sent :=
  if j.next = j.tasks.length then ([.delete j.id], acc)
  else match j.tasks[j.next]? with
    | .none => ([], acc)
    | some t =>
      if t.ops.all (fun o => o.check.pass v) = false then ([], acc)
      else
        let acc := (t.sends j.id j.next).foldl (gen cap) acc
        let d := addDrops v n t.drops
        if d.1 = false then (d.2, acc)
        else if t.cmds.isEmpty then (d.2 ++ [.update { j with next := j.next + 1 }], acc)
        else (d.2, acc)

/-- The loop over the jobs, `:5768-5775`, in the order of the hash map. -/
def processAll (v : View) (cap : Nat) (s : Jobs) : Nat → List Nat → List Sent → List Inc × List Sent
  | _, [], acc => ([], acc)
  | n, id :: ids, acc =>
    match s.get id with
    | .none => processAll v cap s n ids acc
    | some j =>
      let x := processJob v cap n j acc
      let y := processAll v cap s (n + x.1.length) ids x.2
      (x.1 ++ y.1, y.2)

/-- The error codes of a store's answer that are told apart. -/
inductive Code where
  | ok | repeated | exist | deleting | notFound | splitting | merging | peerChanging | other
  deriving DecidableEq

/-- `CheckStoreOperationResult`, `:6179-6245`. -/
def accepted (ty : CmdType) : Code → Bool
  | .ok | .repeated => true
  | .exist => decide (ty = .create)
  | .deleting | .notFound => decide (ty = .delete)
  | .splitting => decide (ty = .split)
  | .merging => decide (ty = .merge)
  | .peerChanging => decide (ty = .changePeer)
  | .other => false

/-- The answer to one command: a code, or the store is not the leader, but this one is (0: it does
not know). -/
inductive Res where
  | code (c : Code)
  | notLeader (store : Nat)
  deriving DecidableEq

/-- `SendStoreOperation`, `:6655-6740`, one result; `MoveTaskRegionCmd`, `:6264`, `UpdateTaskStatus`.
(Results are matched with commands by the id of the command; here each command has its own.) -/
def Sent.result (x : Sent) : Res → List Inc
  | .notLeader s => if s = 0 ∨ s = x.store ∨ x.cmd.id = 0 then [] else [.move x.job x.cmd.id s]
  | .code c => [.status x.job x.cmd.id (if accepted x.cmd.type c then .done else .fail)]

/-- The answer of a store to the commands sent at once: results of some of them (an answer without
errors is one with `ok` for each).  `none`: no answer, or the store is not online and nothing is
sent. -/
abbrev Reply := Option (Cmd → Option Res)

def Sent.answered (x : Sent) : Option Res → List Inc
  | .none => []
  | some r => x.result r

/-- `SendStoreOperation`, `:6594-6742`. -/
def sendTo (xs : List Sent) : Reply → List Inc
  | .none => []
  | some f => xs.flatMap (fun x => x.answered (f x.cmd))

def Sent.isCreate (x : Sent) : Bool := decide (x.cmd.type = .create)
def Sent.isDelete (x : Sent) : Bool := decide (x.cmd.type = .delete)

/-- `GetStoreOperationOfCreateForSend`, `GetStoreOperationOfNotCreateForSend`, `:6532-6592`: each
store is sent the creations first; then each store the rest, deletions last.  (In the code stores
in the order of their ids.) -/
def sendAll (acc : List Sent) (stores : List Nat) (reply : Nat → Bool → Reply) : List Inc :=
  stores.flatMap (fun s => sendTo (acc.filter (fun x => decide (x.store = s) && x.isCreate)) (reply s true)) ++
  stores.flatMap (fun s =>
    let xs := acc.filter (fun x => decide (x.store = s) && !x.isCreate)
    sendTo (xs.filter (fun x => !x.isDelete) ++ xs.filter (fun x => x.isDelete)) (reply s false))

/-- The stores commands are sent to, each once. -/
def storesOf : List Sent → List Nat
  | [] => []
  | x :: xs => if x.store ∈ storesOf xs then storesOf xs else x.store :: storesOf xs

/-- `ProcessJobList`, `:5743-5797`, with `cap` = `FLAGS_max_send_region_cmd_per_store`: the
increments, in one entry, and the commands sent. -/
def pass (v : View) (cap : Nat) (s : Jobs) (n : Nat) (order : List Nat) (reply : Nat → Bool → Reply) :
    List Inc × List Sent :=
  let x := processAll v cap s n order []
  (x.1 ++ sendAll x.2 (storesOf x.2) reply, x.2)

/-- `CleanJobList`, `:5821-5848`: one job, or all of them (0). -/
def clean (s : Jobs) (id : Nat) : List Inc :=
  (s.jobs.filter (fun j => decide (id = 0) || decide (j.id = id))).map (fun j => Inc.delete j.id)

/-! ## Runs -/

/-- The coordinator: jobs, the counter of ids, and entries that were prepared and are not applied
yet. -/
structure State where
  jobs : Jobs
  counter : Nat
  pending : List (List Inc)

/-- What happens: a request, a pass over the jobs, the report that a command failed
(`UpdateRegionCmdStatus`, `:6815-6844`), a request to clean jobs; each prepares an entry from the
jobs as they are now.  An entry is applied (`commit`) or lost. -/
inductive Ev where
  | request (v : View) (q : Req)
  | pass (v : View) (order : List Nat) (reply : Nat → Bool → Reply)
  | report (job cmd : Nat)
  | clean (id : Nat)
  | commit (i : Nat)
  | lose (i : Nat)

/-- The counter of ids after an entry is prepared (`GetNextId`): above the ids of its jobs. -/
def above (n : Nat) : List Inc → Nat
  | [] => n
  | .create j :: is => above (max n (j.id + 1)) is
  | _ :: is => above n is

/-- The entry an event prepares. -/
def State.prepare (cap : Nat) (s : State) : Ev → List Inc
  | .request v q => Job.request s.jobs.jobs v s.counter q
  | .pass v order reply => (Job.pass v cap s.jobs s.counter order reply).1
  | .report j c => if (s.jobs.get j).isSome then [.status j c .fail] else []
  | .clean id => Job.clean s.jobs id
  | _ => []

/-- The commands an event sends. -/
def State.sends (cap : Nat) (s : State) : Ev → List Sent
  | .pass v order reply => (Job.pass v cap s.jobs s.counter order reply).2
  | _ => []

/-- One event; `none`: the coordinator ends. -/
def State.step (cap : Nat) (s : State) : Ev → Option State
  | .commit i =>
    match s.pending[i]? with
    | .none => some s
    | some e => (s.jobs.applyAll e).map (fun j => { s with jobs := j, pending := s.pending.eraseIdx i })
  | .lose i => some { s with pending := s.pending.eraseIdx i }
  | e => some { s with counter := above s.counter (s.prepare cap e), pending := s.pending ++ [s.prepare cap e] }

end Verif.Job
