/-!
# GC safe points: coordinator replicas, update requests and the stores that collect garbage

Model of the path a GC safe point takes: `UpdateGCSafePoint` is evaluated by the coordinator that
leads (src/coordinator/coordinator_control_coor.cc:5921-6063), the resulting increment is proposed
through raft and applied by every coordinator (src/coordinator/coordinator_control_fsm.cc:1023-2600,
the parts on `idepochs`, `tenants` and `common_disk_s`), stores poll `GetGCSafePoint`
(coordinator_control_coor.cc:6065-6131, src/engine/txn_engine_helper.cc:5889-5937), keep the answer
in `GCSafePointManager` (src/engine/gc_safe_point.cc) and collect garbage with it
(txn_engine_helper.cc:5953-6171).

Timestamps are `Int` (int64 without overflow: they are only compared and copied).  Times of day,
revisions and meta events are left out.  The name and comment of a tenant are one opaque number.
-/
namespace Verif.SafePoint

/-- The two replicated numbers of the default tenant: `IdEpochType::ID_GC_SAFE_POINT` and
`ID_GC_RESOLVE_LOCK_SAFE_POINT`. -/
inductive Kind where
  | gc
  | rl
  deriving DecidableEq, Repr

/-- `TenantInternal`: name and comment, `safe_point_ts`, `resolve_lock_safe_point`
(coordinator_control_meta.cc:3710-3718 creates it with both points 0, the protobuf default). -/
structure Tenant where
  name : Nat
  sp : Int
  rl : Int
  deriving DecidableEq, Repr

/-- One element of `MetaIncrement.tenants` with its operation type. -/
inductive TInc where
  | create (id : Int) (name : Nat)
  | update (id : Int) (t : Tenant)
  | delete (id : Int)
  deriving DecidableEq, Repr

/-- The tenant an increment is about. -/
def TInc.id : TInc → Int
  | .create i _ => i
  | .update i _ => i
  | .delete i => i

/-- The parts of a `MetaIncrement` that concern safe points: `idepochs` (all of type UPDATE,
coordinator_control.cc:611-617), `tenants`, and the stop flag in `common_disk_s`. -/
structure Inc where
  ids : List (Kind × Int)
  tenants : List TInc
  stop : Option Bool
  deriving DecidableEq, Repr

/-- `meta_increment.ByteSizeLong() == 0`, coordinator_service.cc:2382. -/
def Inc.isEmpty (i : Inc) : Bool := i.ids.isEmpty && i.tenants.isEmpty && i.stop.isNone

/-- Point update of a map. -/
def put {α : Type} [DecidableEq α] {β : Type} (f : α → β) (a : α) (b : β) : α → β :=
  fun x => if x = a then b else f x

/-- `DingoSafeIdEpochMap::InnerUpdatePresentId`, src/coordinator/coordinator_meta_storage.h:203-221:
insert if absent, raise if larger, else leave. -/
def raise (m : Kind → Option Int) (k : Kind) (v : Int) : Kind → Option Int :=
  match m k with
  | none => put m k (some v)
  | some x => if x < v then put m k (some v) else m

/-- The loop over `idepochs`, coordinator_control_fsm.cc:1066-1106 (CREATE and UPDATE are alike,
nothing here makes a DELETE). -/
def applyIds (m : Kind → Option Int) (l : List (Kind × Int)) : Kind → Option Int :=
  l.foldl (fun m p => raise m p.1 p.2) m

/-- The UPDATE branch for a tenant that exists, coordinator_control_fsm.cc:1266-1321.  `none` is
`continue`: nothing is stored. -/
def applyUpdate (cur inc : Tenant) : Option Tenant :=
  let t :=
    if inc.sp > 0 then
      if inc.sp ≤ cur.sp then cur else { cur with sp := inc.sp }
    else { cur with name := inc.name }
  if inc.rl > 0 then
    if inc.rl ≤ t.rl then
      if inc.rl < t.rl then none
      else if t.sp ≤ cur.sp then none
      else some { t with rl := inc.rl }
    else some { t with rl := inc.rl }
  else some { t with name := inc.name }

/-- One round of the loop over `tenants`, coordinator_control_fsm.cc:1233-1358. -/
def applyTenant (m : Int → Option Tenant) (i : TInc) : Int → Option Tenant :=
  match i with
  | .create id name => put m id (some ⟨name, 0, 0⟩)
  | .update id t =>
    match m id with
    | none => m
    | some cur =>
      match applyUpdate cur t with
      | none => m
      | some t' => put m id (some t')
  | .delete id => put m id none

/-- A coordinator.  `disk` holds the numbers written at the end of an entry
(coordinator_control_fsm.cc:2585-2590), `ids` is `id_epoch_map_`, `temp` is
`id_epoch_map_safe_temp_`, `tenants` is `tenant_map_` and its copy on disk (`tenant_meta_->Put`
writes both), `stop` is the flag under `kGcStopKey` on disk.  `phase` is `some k` while entry
number `applied` is being applied and `k` of its tenant increments have been.  `leader` is
`leader_term_ > 0`. -/
structure Node where
  applied : Nat
  phase : Option Nat
  disk : Kind → Option Int
  ids : Kind → Option Int
  tenants : Int → Option Tenant
  stop : Bool
  temp : Kind → Option Int
  leader : Bool

/-- `UpdateGCSafePointRequest::GcFlagType`; `other` is any value the code does not know. -/
inductive Flag where
  | none
  | stop
  | start
  | other
  deriving DecidableEq, Repr

/-- `UpdateGCSafePointRequest`: the two points of the default tenant, the flag, and the two maps
from tenant to point. -/
structure Upd where
  sp : Int
  flag : Flag
  rl : Int
  tsp : List (Int × Int)
  trl : List (Int × Int)
  deriving DecidableEq, Repr

/-- The requests modelled: `UpdateGCSafePoint`, and `CreateTenant`, `DropTenant`, `UpdateTenant` of
the meta service. -/
inductive Req where
  | update (r : Upd)
  | create (id : Int) (name : Nat)
  | drop (id : Int)
  | rename (id : Int) (name : Nat)
  deriving DecidableEq, Repr

/-- What is left of the evaluation of a request.  One task touches the shared state once, so that
other requests and the apply thread may act between two tasks.  `see k v` is the read of a point of
the default tenant (coordinator_control_coor.cc:5974 and 5986), `lift k v` the following
`UpdatePresentId` (5982, 5994). -/
inductive Task where
  | flag (f : Flag)
  | see (k : Kind) (v : Int)
  | lift (k : Kind) (v : Int)
  | tsp (id v : Int)
  | trl (id v : Int)
  | create (id : Int) (name : Nat)
  | drop (id : Int)
  | rename (id : Int) (name : Nat)
  deriving DecidableEq, Repr

/-- The order of the parts of `UpdateGCSafePoint`, coordinator_control_coor.cc:5933-6060, and of the
three tenant requests, which are one part each. -/
def Req.tasks : Req → List Task
  | .update r => [.flag r.flag, .see .gc r.sp, .see .rl r.rl] ++
      r.tsp.map (fun p => .tsp p.1 p.2) ++ r.trl.map (fun p => .trl p.1 p.2)
  | .create id name => [.create id name]
  | .drop id => [.drop id]
  | .rename id name => [.rename id name]

/-- One value per tenant in each of the two maps of a request. -/
def Req.wf : Req → Bool
  | .update r => decide ((r.tsp.map (·.1)).Nodup) && decide ((r.trl.map (·.1)).Nodup)
  | _ => true

/-- Where a request stands: being evaluated, its increment handed to raft, committed as entry
number `i`, answered with success or with an error. -/
inductive Status where
  | eval
  | proposed
  | committed (i : Nat)
  | ok
  | err
  deriving DecidableEq, Repr

/-- A request in progress.  `newSp`, `newRl`, `gcStop` are the output variables of
`UpdateGCSafePoint`; `seen` and `seenT` are ghosts: what was read by `see` and
by the tasks `tsp`; `entry` is a ghost: the number under
which the increment was committed. -/
structure Thread where
  node : Nat
  req : Req
  todo : List Task
  inc : Inc
  newSp : Int
  newRl : Int
  gcStop : Bool
  seen : Kind → Option Int
  seenT : Int → Option Int
  status : Status
  entry : Option Nat

/-- The `new_safe_point` field of the response, coordinator_service.cc:2378-2380: set to the new GC
safe point and then, two lines below, to the new resolve-lock safe point. -/
def Thread.answerSp (t : Thread) : Int := t.newRl

/-- Adds a tenant increment. -/
def Inc.addTenant (i : Inc) (t : TInc) : Inc := { i with tenants := i.tenants ++ [t] }

/-- `std::find_if` over the increments made so far and `set_resolve_lock_safe_point` on the first
of that tenant, coordinator_control_coor.cc:6040-6049; `none` if there is none.  A request that asks
for points makes no increments other than updates, so the last two cases do not arise. -/
def setRl (id v : Int) : List TInc → Option (List TInc)
  | [] => none
  | .update i t :: l =>
    if i = id then some (.update i { t with rl := v } :: l)
    else (setRl id v l).map (.update i t :: ·)
  | .create i n :: l => if i = id then some (.create i n :: l) else (setRl id v l).map (.create i n :: ·)
  | .delete i :: l => if i = id then some (.delete i :: l) else (setRl id v l).map (.delete i :: ·)

/-- One task of a request on its coordinator.  `none` is an error answer.  Of the checks made by
the tenant requests, those on the tenant map are here (coordinator_control_meta.cc:3699-3708,
3725-3741, 3769-3784); the number of tenants, the schemas of a tenant and errors of the storage
engine are events `refuse`. -/
def doTask (n : Node) (th : Thread) : Task → Option (Node × Thread)
  | .flag .none => some (n, { th with gcStop := n.stop })
  | .flag .stop =>
    some (n, { th with gcStop := true,
                       inc := if n.stop then th.inc else { th.inc with stop := some true } })
  | .flag .start =>
    some (n, { th with gcStop := false,
                       inc := if n.stop then { th.inc with stop := some false } else th.inc })
  | .flag .other => none
  | .see .gc v =>
    let now := (n.temp .gc).getD 0
    let th := { th with seen := put th.seen .gc (some now) }
    if now ≥ v then some (n, { th with newSp := now })
    else some (n, { th with newSp := v, todo := .lift .gc v :: th.todo })
  | .see .rl v =>
    let now := (n.temp .rl).getD 0
    let th := { th with seen := put th.seen .rl (some now) }
    if now ≥ v then some (n, { th with newRl := now })
    else some (n, { th with newRl := v, todo := .lift .rl v :: th.todo })
  | .lift k v =>
    some ({ n with temp := raise n.temp k v },
          { th with inc := { th.inc with ids := th.inc.ids ++ [(k, v)] } })
  | .tsp id v =>
    if id = 0 then some (n, th) else
    match n.tenants id with
    | none => none
    | some t =>
      let th := { th with seenT := put th.seenT id (some t.sp) }
      if t.sp < v then some (n, { th with inc := th.inc.addTenant (.update id { t with sp := v }) })
      else some (n, th)
  | .trl id v =>
    if id = 0 then some (n, th) else
    match n.tenants id with
    | none => none
    | some t =>
      if t.rl < v then
        match setRl id v th.inc.tenants with
        | some l => some (n, { th with inc := { th.inc with tenants := l } })
        | none => some (n, { th with inc := th.inc.addTenant (.update id { t with rl := v }) })
      else some (n, th)
  | .create id name =>
    if id = 0 then some (n, th) else
    match n.tenants id with
    | some _ => none
    | none => some (n, { th with inc := th.inc.addTenant (.create id name) })
  | .drop id =>
    if id ≤ 0 then none else
    match n.tenants id with
    | none => none
    | some _ => some (n, { th with inc := th.inc.addTenant (.delete id) })
  | .rename id name =>
    if id ≤ 0 then none else
    match n.tenants id with
    | none => none
    | some _ => some (n, { th with inc := th.inc.addTenant (.update id ⟨name, 0, 0⟩) })

/-- What a store is told by `GetGCSafePoint` with `get_all_tenant`: the flag and a point for the
default tenant (number 0) and for every tenant of the coordinator. -/
structure Served where
  stop : Bool
  sp : Int → Option Int

/-- `CoordinatorControl::GetGCSafePoint`, coordinator_control_coor.cc:6071-6093 with
`GetAllTenants`, and the map the store builds of it, txn_engine_helper.cc:5925-5934. -/
def Node.served (n : Node) : Served :=
  ⟨n.stop, fun t => if t = 0 then some ((n.temp .gc).getD 0) else (n.tenants t).map (·.sp)⟩

/-- A `GCSafePoint` of the store. -/
structure Entry where
  stop : Bool
  ts : Int
  deriving DecidableEq, Repr

/-- `GCSafePointManager`: `active_safe_points_` and `all_safe_points_`. -/
structure Mgr where
  active : Int → Option Entry
  all : Int → Option Entry

/-- `GCSafePointManager::SetGcFlagAndSafePointTs`, gc_safe_point.cc:74-113.  The three loops act on
each tenant separately, so they are written for one tenant; `insert` of a tenant that is there
already leaves the map as it is. -/
def Mgr.set1 (a l : Option Entry) (stop : Bool) (v : Option Int) : Option Entry × Option Entry :=
  let p := match v with
    | none => (a, l)
    | some v =>
      match a with
      | some _ => (some ⟨stop, v⟩, l)
      | none =>
        match l with
        | some _ => (none, some ⟨stop, v⟩)
        | none => if stop then (none, some ⟨stop, v⟩) else (some ⟨stop, v⟩, none)
  let p := match p.2 with
    | some e => if e.stop then p else (p.1.or (some e), none)
    | none => p
  match p.1 with
  | some e => if e.stop then (none, p.2.or (some e)) else p
  | none => p

def Mgr.set (m : Mgr) (r : Served) : Mgr :=
  ⟨fun t => (Mgr.set1 (m.active t) (m.all t) r.stop (r.sp t)).1,
   fun t => (Mgr.set1 (m.active t) (m.all t) r.stop (r.sp t)).2⟩

/-- `GCSafePointManager::GetGcFlagAndSafePointTs`, gc_safe_point.cc:124-135. -/
def Mgr.get (m : Mgr) (t : Int) : Entry :=
  match m.active t with
  | some e => e
  | none =>
    match m.all t with
    | some e => e
    | none => ⟨true, 0⟩

/-- `RemoveSafePoint` of every active tenant whose point is not positive, gc_safe_point.cc:150-157
called from txn_engine_helper.cc:5995-6004. -/
def Mgr.dropZero (m : Mgr) : Mgr :=
  ⟨fun t => match m.active t with
     | some e => if e.ts ≤ 0 then none else some e
     | none => none,
   fun t => match m.active t with
     | some e => if e.ts ≤ 0 then (m.all t).or (some e) else m.all t
     | none => m.all t⟩

/-- `GCSafePointManager::SetGcStop`, gc_safe_point.cc:160-172, for every tenant `p` holds of. -/
def Mgr.setStop (m : Mgr) (p : Int → Bool) (stop : Bool) : Mgr :=
  ⟨fun t => if p t then (m.active t).map (fun e => { e with stop := stop }) else m.active t,
   fun t => if p t && (m.active t).isNone then (m.all t).map (fun e => { e with stop := stop })
     else m.all t⟩

/-- A store.  `poll` is an answer under way, `gc` the group of tenants and points of the garbage
collection that is running, with `true` once the flags of the group have been cleared
(txn_engine_helper.cc:6006-6010). -/
structure Store where
  mgr : Mgr
  poll : Option Served
  gc : Option ((Int → Option Int) × Bool)

/-- The numbers, tenants and flag of a snapshot file, and the number of entries it stands for. -/
structure Snap where
  applied : Nat
  ids : Kind → Option Int
  tenants : Int → Option Tenant
  stop : Bool

/-- Coordinators, raft log, requests, snapshot files, stores.  `runs` is a ghost: the garbage
collections started, newest last, as (store, tenant of the region, safe point). -/
structure Sys where
  log : List Inc
  nodes : Nat → Node
  threads : List Thread
  snaps : List Snap
  stores : Nat → Store
  runs : List (Nat × Int × Int)

def Node.init : Node :=
  ⟨0, none, fun _ => none, fun _ => none, fun _ => none, false, fun _ => none, false⟩

def Store.init : Store := ⟨⟨fun _ => none, fun _ => none⟩, none, none⟩

def Sys.init : Sys := ⟨[], fun _ => Node.init, [], [], fun _ => Store.init, []⟩

/-- Events.  `request n r` is a request received by coordinator `n`; `eval`, `refuse`, `propose`,
`commit`, `lose`, `answer` move request number `k` on; `begin`, `tenant`, `finish` are the parts of
applying one entry; `lead` is `OnLeaderStart`, `unlead` `OnLeaderStop`; `poll s n` is an answer of
coordinator `n` to store `s`, `recv s` its arrival, `drop s` its loss; `gcBegin s w` starts a
garbage collection, where tenant `w` is one whose flag is not set; `gcResume`, `gcRun`, `gcEnd` are
its further parts. -/
inductive Ev where
  | request (n : Nat) (r : Req)
  | eval (k : Nat)
  | refuse (k : Nat)
  | propose (k : Nat)
  | commit (k : Nat)
  | lose (k : Nat)
  | answer (k : Nat)
  | begin (n : Nat)
  | tenant (n : Nat)
  | finish (n : Nat)
  | lead (n : Nat)
  | unlead (n : Nat)
  | crash (n : Nat)
  | save (n : Nat)
  | install (n i : Nat)
  | poll (s n : Nat)
  | recv (s : Nat)
  | drop (s : Nat)
  | gcBegin (s : Nat) (w : Int)
  | gcResume (s : Nat)
  | gcRun (s : Nat) (t : Int)
  | gcEnd (s : Nat)
  deriving DecidableEq, Repr

def Sys.setNode (s : Sys) (n : Nat) (x : Node) : Sys := { s with nodes := put s.nodes n x }
def Sys.setThread (s : Sys) (k : Nat) (t : Thread) : Sys := { s with threads := s.threads.set k t }
def Sys.setStore (s : Sys) (i : Nat) (x : Store) : Sys := { s with stores := put s.stores i x }

/-- A request is received; it is turned away unless the coordinator takes itself for the leader
(`IsLeader`, coordinator_service.cc:2345-2348, meta_service.cc:4109-4111).  A protobuf map has one
value per key, so a request with two is not received. -/
def doRequest (s : Sys) (n : Nat) (r : Req) : Sys :=
  if (s.nodes n).leader ∧ r.wf then
    { s with threads := s.threads ++
        [⟨n, r, r.tasks, ⟨[], [], none⟩, 0, 0, false, fun _ => none, fun _ => none, .eval, none⟩] }
  else s

/-- One task of request `k`. -/
def doEval (s : Sys) (k : Nat) : Sys :=
  match s.threads[k]? with
  | none => s
  | some th =>
    if th.status = .eval then
      match th.todo with
      | [] => s
      | x :: rest =>
        match doTask (s.nodes th.node) { th with todo := rest } x with
        | none => s.setThread k { th with status := .err }
        | some (n', th') => (s.setNode th.node n').setThread k th'
    else s

/-- The evaluation fails for a reason outside the model. -/
def doRefuse (s : Sys) (k : Nat) : Sys :=
  match s.threads[k]? with
  | none => s
  | some th => if th.status = .eval then s.setThread k { th with status := .err } else s

/-- Evaluation over: answer at once if there is nothing to propose, else hand the increment to raft
(coordinator_service.cc:2382-2396). -/
def doPropose (s : Sys) (k : Nat) : Sys :=
  match s.threads[k]? with
  | none => s
  | some th =>
    if th.status = .eval ∧ th.todo = [] then
      s.setThread k { th with status := if th.inc.isEmpty then .ok else .proposed }
    else s

/-- Raft commits the increment of request `k` as the next entry. -/
def doCommit (s : Sys) (k : Nat) : Sys :=
  match s.threads[k]? with
  | none => s
  | some th =>
    if th.status = .proposed then
      { s with log := s.log ++ [th.inc],
               threads := s.threads.set k { th with status := .committed s.log.length,
                                                    entry := some s.log.length } }
    else s

/-- The client is answered with an error: the increment was not committed, or it was and the
coordinator stopped leading before it knew. -/
def doLose (s : Sys) (k : Nat) : Sys :=
  match s.threads[k]? with
  | none => s
  | some th =>
    match th.status with
    | .proposed => s.setThread k { th with status := .err }
    | .committed _ => s.setThread k { th with status := .err }
    | _ => s

/-- The write returns once its entry has been applied by the coordinator that proposed it. -/
def doAnswer (s : Sys) (k : Nat) : Sys :=
  match s.threads[k]? with
  | none => s
  | some th =>
    match th.status with
    | .committed i =>
      if i < (s.nodes th.node).applied then s.setThread k { th with status := .ok } else s
    | _ => s

/-- First part of `ApplyMetaIncrement`: the numbers, in memory (coordinator_control_fsm.cc:1066). -/
def doBegin (s : Sys) (n : Nat) : Sys :=
  let x := s.nodes n
  match x.phase, s.log[x.applied]? with
  | none, some e => s.setNode n { x with phase := some 0, ids := applyIds x.ids e.ids }
  | _, _ => s

/-- The next tenant increment of the entry. -/
def doTenant (s : Sys) (n : Nat) : Sys :=
  let x := s.nodes n
  match x.phase, s.log[x.applied]? with
  | some k, some e =>
    match e.tenants[k]? with
    | some i => s.setNode n { x with phase := some (k + 1), tenants := applyTenant x.tenants i }
    | none => s
  | _, _ => s

/-- The end of the entry: the flag (coordinator_control_fsm.cc:2514-2530), then the numbers and the
applied index in one write (2585-2590).  The flag is written first; a crash between the two is a
crash before both followed by the same write, and is left out. -/
def doFinish (s : Sys) (n : Nat) : Sys :=
  let x := s.nodes n
  match x.phase, s.log[x.applied]? with
  | some k, some e =>
    if k = e.tenants.length then
      s.setNode n { x with phase := none, applied := x.applied + 1, disk := x.ids,
                           stop := e.stop.getD x.stop }
    else s
  | _, _ => s

/-- `OnLeaderStart`, `BuildTempMaps`: coordinator_control_fsm.cc:65-72 and 130-136. -/
def doLead (s : Sys) (n : Nat) : Sys :=
  let x := s.nodes n
  s.setNode n { x with temp := x.ids, leader := true }

def doUnlead (s : Sys) (n : Nat) : Sys := s.setNode n { s.nodes n with leader := false }

/-- The process stops at any moment and recovers from disk (coordinator_control.cc:185-204).  The
requests it was evaluating may go on in the model, which allows more than the code does. -/
def doCrash (s : Sys) (n : Nat) : Sys :=
  let x := s.nodes n
  s.setNode n { x with phase := none, ids := x.disk, temp := x.disk, leader := false }

/-- `LoadMetaToSnapshotFile`, coordinator_control_fsm.cc:176-411, between two entries. -/
def doSave (s : Sys) (n : Nat) : Sys :=
  let x := s.nodes n
  if x.phase = none then { s with snaps := s.snaps ++ [⟨x.applied, x.disk, x.tenants, x.stop⟩] }
  else s

/-- `LoadMetaFromSnapshotFile`, coordinator_control_fsm.cc:417-955, on a coordinator that has applied
less than the file stands for (src/raft/meta_state_machine.cc, `on_snapshot_load`). -/
def doInstall (s : Sys) (n i : Nat) : Sys :=
  let x := s.nodes n
  match s.snaps[i]? with
  | none => s
  | some f =>
    if x.phase = none ∧ x.applied < f.applied then
      s.setNode n { x with applied := f.applied, disk := f.ids, ids := f.ids, temp := f.ids,
                           tenants := f.tenants, stop := f.stop }
    else s

/-- Coordinator `n` answers a poll of store `i`.  The handler runs once at a time
(txn_engine_helper.cc:5890-5898; two timer threads passing that check at the same instant are left
out). -/
def doPoll (s : Sys) (i n : Nat) : Sys :=
  let st := s.stores i
  if st.poll.isNone ∧ (s.nodes n).leader then
    s.setStore i { st with poll := some (s.nodes n).served }
  else s

def doRecv (s : Sys) (i : Nat) : Sys :=
  let st := s.stores i
  match st.poll with
  | none => s
  | some r => s.setStore i { st with poll := none, mgr := st.mgr.set r }

def doDrop (s : Sys) (i : Nat) : Sys := s.setStore i { s.stores i with poll := none }

/-- `RegularDoGcHandler` up to its line 6004: take the active tenants; return if the flag of each is
set (`w` is one whose flag is not); leave out those without a positive point. -/
def doGcBegin (s : Sys) (i : Nat) (w : Int) : Sys :=
  let st := s.stores i
  match st.gc, st.mgr.active w with
  | none, some e =>
    if e.stop then s
    else s.setStore i { st with
      mgr := st.mgr.dropZero,
      gc := some (fun t => match st.mgr.active t with
        | some e => if e.ts ≤ 0 then none else some e.ts
        | none => none, false) }
  | _, _ => s

/-- Lines 6006-6010: the flag of every tenant of the group is cleared. -/
def doGcResume (s : Sys) (i : Nat) : Sys :=
  let st := s.stores i
  match st.gc with
  | some (g, false) =>
    s.setStore i { st with mgr := st.mgr.setStop (fun t => (g t).isSome) false, gc := some (g, true) }
  | _ => s

/-- Lines 6094-6155, for one region of tenant `t`: the flag is looked at again; the point is the one
of the group. -/
def doGcRun (s : Sys) (i : Nat) (t : Int) : Sys :=
  let st := s.stores i
  match st.gc with
  | some (g, true) =>
    match g t with
    | none => s
    | some ts =>
      if (st.mgr.get t).stop then s
      else { s with runs := s.runs ++ [(i, t, ts)] }
  | _ => s

def doGcEnd (s : Sys) (i : Nat) : Sys := s.setStore i { s.stores i with gc := none }

def step (s : Sys) : Ev → Sys
  | .request n r => doRequest s n r
  | .eval k => doEval s k
  | .refuse k => doRefuse s k
  | .propose k => doPropose s k
  | .commit k => doCommit s k
  | .lose k => doLose s k
  | .answer k => doAnswer s k
  | .begin n => doBegin s n
  | .tenant n => doTenant s n
  | .finish n => doFinish s n
  | .lead n => doLead s n
  | .unlead n => doUnlead s n
  | .crash n => doCrash s n
  | .save n => doSave s n
  | .install n i => doInstall s n i
  | .poll i n => doPoll s i n
  | .recv i => doRecv s i
  | .drop i => doDrop s i
  | .gcBegin i w => doGcBegin s i w
  | .gcResume i => doGcResume s i
  | .gcRun i t => doGcRun s i t
  | .gcEnd i => doGcEnd s i

def run (s : Sys) (evs : List Ev) : Sys := evs.foldl step s

/-! ## Specification -/

/-- Someone asked for GC point (`.gc`) or resolve-lock point (`.rl`) `v` of tenant `t`, 0 being the
default tenant. -/
def Asked (evs : List Ev) : Kind → Int → Int → Prop
  | .gc, t, v => ∃ n r, Ev.request n (.update r) ∈ evs ∧
      if t = 0 then r.sp = v else (t, v) ∈ r.tsp
  | .rl, t, v => ∃ n r, Ev.request n (.update r) ∈ evs ∧
      if t = 0 then r.rl = v else (t, v) ∈ r.trl

/-- The event asks for tenant `t` to be created or dropped. -/
def Ev.remakes (t : Int) : Ev → Bool
  | .request _ (.create id _) => id == t
  | .request _ (.drop id) => id == t
  | _ => false

/-- The increment creates or deletes tenant `t`. -/
def TInc.remakes (t : Int) : TInc → Bool
  | .create id _ => id == t
  | .delete id => id == t
  | .update _ _ => false

/-- No creation or removal of tenant `t` is under way as far as coordinator `n` is concerned: none
among the entries it has yet to apply in full, none in a request that has not been committed. -/
def Sys.settled (s : Sys) (n : Nat) (t : Int) : Bool :=
  (s.log.drop (s.nodes n).applied).all (fun e => e.tenants.all (fun i => !i.remakes t)) &&
  s.threads.all (fun th => th.inc.tenants.all (fun i => !i.remakes t) &&
    th.todo.all (fun x => match x with
      | .create id _ => id != t
      | .drop id => id != t
      | _ => true) || th.status == .err || th.entry.isSome)

/-- A point of the default tenant on the disk of a coordinator. -/
def Node.onDisk (n : Node) (k : Kind) : Int := (n.disk k).getD 0

/-- A point of the default tenant as the coordinator answers `GetGCSafePoint`. -/
def Node.says (n : Node) (k : Kind) : Int := (n.temp k).getD 0

end Verif.SafePoint
