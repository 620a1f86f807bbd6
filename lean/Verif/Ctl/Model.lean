import Verif.Region.Model

/-!
# The commands a store carries out (model)

`store/region_controller.cc`, the entry point `server/push_service.cc:50-118`, the region table
`meta/store_meta_manager.cc:855-1161` and the restart `server/server.cc:923-940`.

The coordinator creates and deletes regions by sending commands.  A command is checked, written
to a table of commands that survives a restart, and put into the queue of its region; every
region has its own worker, so commands of different regions are carried out at the same time.
A command is carried out in several steps; the store may stop between any two of them.

Left out: the mono engine and the BDB raw engine (all regions are kept by raft on RocksDB),
the index of a vector or document region, metrics, heartbeats, the log of a raft node, and
commands of the debug service, which skip the check that precedes queueing.
-/

namespace Verif.Ctl
open Verif.Codec (Bytes)
open Verif.Region (RState Range canMove maxStartKey)

/-- The fields of a region's record (`meta/store_meta_manager.h`) the commands look at. -/
structure Rec where
  state : RState
  range : Range
  deriving DecidableEq, Repr

/-- `UpdateState`, `store_meta_manager.cc:901-975`: a transition that is not allowed is logged and
ignored. -/
def Rec.move (t : RState) (x : Rec) : Rec := if canMove x.state t then { x with state := t } else x

/-- The table of regions, `StoreRegionMeta::regions_`.  Each update of the map is written through
to the disk (`store_meta_manager.cc:871-899`); the two are taken as one. -/
abbrev Regs := List (Nat × Rec)

/-- `StoreRegionMeta::GetRegion`, `store_meta_manager.cc:1092-1099`. -/
def get (r : Nat) (l : Regs) : Option Rec := (l.find? fun a => a.1 == r).map (·.2)

/-- `regions_.Erase`, `store_meta_manager.cc:885-891`. -/
def del (r : Nat) (l : Regs) : Regs := l.filter fun a => a.1 != r

/-- `regions_.Put`, `store_meta_manager.cc:893-899`. -/
def put (r : Nat) (x : Rec) (l : Regs) : Regs := (r, x) :: del r l

/-- An update of a record that exists. -/
def on (r : Nat) (f : Rec → Rec) (l : Regs) : Regs :=
  match get r l with
  | none => l
  | some x => put r (f x) l

/-- `StoreRegionMeta::AddRegion`, `store_meta_manager.cc:871-883`: a region that is there is kept. -/
def add (r : Nat) (x : Rec) (l : Regs) : Regs :=
  match get r l with
  | none => put r x l
  | some _ => l

/-- `RegionCmdType` with the part of the request that is used.  `create`: the range of the
definition and `split_from_region_id` (0 for none).  `other` stands for splits, merges, changes
of peers, transfers of leaders, changes of definitions and switches: what they do to regions they
do through raft, see `Ev.split` and `Ev.merge`. -/
inductive Kind where
  | create (range : Range) (parent : Nat)
  | delete | stop | purge | destroy | other
  deriving DecidableEq, Repr

/-- `pb::coordinator::RegionCmd`; the region in `delete_request`, `purge_request` and
`stop_request` is the one of the command, as the coordinator sets it. -/
structure Cmd where
  id : Nat
  region : Nat
  kind : Kind
  retry : Bool
  deriving DecidableEq, Repr

/-- `RegionCmdStatus`. -/
inductive Status where
  | none | done | fail
  deriving DecidableEq, Repr

/-- A worker, `ControlExecutor` (`region_controller.h:330-363`): the command it is carrying out,
with the step it is at, and the commands waiting. -/
structure Exec where
  run : Option (Cmd × Nat)
  wait : List Cmd
  deriving DecidableEq, Repr

/-- What a command is answered. -/
inductive Resp where
  | ok | repeated | noExecutor | invalid
  deriving DecidableEq, Repr

/-- A store.  `metas` are the regions with a raft record on disk (`StoreRaftMeta`), `nodes` those
with a running raft node, `data` the keys in the raw engine, `cmds` the table of commands in the
order of their ids, `exec` the workers of the regions, `share` the queue of the shared worker.
`acks` and `outs` record what commands were answered and how they ended, latest first. -/
structure St where
  regs : Regs
  metas : Nat → Bool
  nodes : Nat → Bool
  data : List Bytes
  cmds : List (Cmd × Status)
  exec : Nat → Option Exec
  share : List Cmd
  acks : List (Nat × Resp)
  outs : List (Nat × Bool)

/-- A new store. -/
def St.init : St :=
  { regs := [], metas := fun _ => false, nodes := fun _ => false, data := [], cmds := []
    exec := fun _ => none, share := [], acks := [], outs := [] }

def upd {α : Type} (f : Nat → α) (r : Nat) (a : α) : Nat → α := fun x => if x = r then a else f x

/-- A key in a range. -/
def inRange (g : Range) (k : Bytes) : Bool := decide (g.start ≤ k) && decide (k < g.stop)

/-- `Helper::IsConflictRange`, `common/helper.cc:476-479`. -/
def conflict (a b : Range) : Bool := !(decide (b.stop ≤ a.start) || decide (a.stop ≤ b.start))

/-- `ValidateCreateRegion`, `region_controller.cc:87-113`.  A region in state `NEW` passes the
first check (91) and fails the second (99), so any region of that id is refused. -/
def createOk (l : Regs) (r : Nat) (g : Range) : Bool :=
  (match get r l with
    | some x => x.state == .new
    | none => true) &&
  l.all fun a => a.1 != r && !conflict a.2.range g

/-- `ValidateDeleteRegion`, `region_controller.cc:236-252`. -/
def deleteOk : Option Rec → Bool
  | none => false
  | some x => !(x.state == .deleting || x.state == .deleted || x.state == .splitting || x.state == .merging)

/-- `ValidatePurgeRegion`, `region_controller.cc:1230-1239`. -/
def purgeOk : Option Rec → Bool
  | none => false
  | some x => x.state == .deleted

/-- `ValidateStopRegion`, `region_controller.cc:1273-1282`. -/
def stopOk : Option Rec → Bool
  | none => false
  | some x => x.state == .orphan

/-- The checks before a command is queued, `region_controller.cc:2087-2100`; `ok` is the outcome of
the checks of `other` commands.  There is none for `CMD_DESTROY_EXECUTOR`, which is then unknown
(`push_service.cc:88-89`). -/
def validate (s : St) (c : Cmd) (ok : Bool) : Bool :=
  match c.kind with
  | .create g _ => createOk s.regs c.region g
  | .delete => deleteOk (get c.region s.regs)
  | .stop => stopOk (get c.region s.regs)
  | .purge => purgeOk (get c.region s.regs)
  | .destroy => false
  | .other => ok

/-- `IsExist`, `region_controller.cc:1754-1757`. -/
def known (l : List (Cmd × Status)) (id : Nat) : Bool := l.any fun e => e.1.id == id

/-- `meta_writer_->Put` of a command: the entry of the id is replaced, or added in its place in
the order of ids (the order `GetCommands` gives, 1796-1809). -/
def putCmd (c : Cmd) (t : Status) : List (Cmd × Status) → List (Cmd × Status)
  | [] => [(c, t)]
  | e :: l =>
    if e.1.id = c.id then (c, t) :: l
    else if c.id < e.1.id then (c, t) :: e :: l
    else e :: putCmd c t l

/-- `AddCommand`, `region_controller.cc:1759-1772`. -/
def addCmd (c : Cmd) (l : List (Cmd × Status)) : List (Cmd × Status) :=
  if known l c.id then l else putCmd c .none l

/-- `RegisterExecutor`, `region_controller.cc:1921-1934`. -/
def register (s : St) (r : Nat) : St :=
  match s.exec r with
  | some _ => s
  | none => { s with exec := upd s.exec r (some ⟨none, []⟩) }

/-- The worker a command goes to, `region_controller.cc:1972-1998`. -/
def enqueue (s : St) (c : Cmd) : St × Resp :=
  match c.kind with
  | .purge | .destroy => ({ s with share := s.share ++ [c] }, .ok)
  | _ =>
    match s.exec c.region with
    | none => (s, .noExecutor)
    | some x => ({ s with exec := upd s.exec c.region (some { x with wait := x.wait ++ [c] }) }, .ok)

/-- `DispatchRegionControlCommandImpl`, `region_controller.cc:1962-1999`. -/
def dispatchImpl (s : St) (c : Cmd) : St × Resp :=
  match c.kind with
  | .create _ _ => enqueue (register s c.region) c
  | _ => enqueue s c

/-- `DispatchRegionControlCommand`, `region_controller.cc:2001-2012`.  The look and the entry are
one step here; in the code another call may come between them. -/
def dispatch (s : St) (c : Cmd) : St × Resp :=
  if !c.retry && known s.cmds c.id then (s, .repeated)
  else dispatchImpl { s with cmds := addCmd c s.cmds } c

/-- `PushStoreOperation` for one command, `push_service.cc:83-106`; the check and the dispatch are
one step here. -/
def push (s : St) (c : Cmd) (ok : Bool) : St :=
  if validate s c ok then
    let d := dispatch s c
    { d.1 with acks := (c.id, d.2) :: s.acks }
  else { s with acks := (c.id, .invalid) :: s.acks }

/-- The command a worker carries out goes on to step `n`. -/
def goto (s : St) (r : Nat) (c : Cmd) (q : List Cmd) (n : Nat) : St :=
  { s with exec := upd s.exec r (some ⟨some (c, n), q⟩) }

/-- `UpdateCommandStatus`, `region_controller.cc:1774-1777`, and the end of the task. -/
def finish (s : St) (r : Nat) (c : Cmd) (q : List Cmd) (ok : Bool) : St :=
  { s with
    cmds := putCmd c (if ok then .done else .fail) s.cmds
    exec := upd s.exec r (some ⟨none, q⟩)
    outs := (c.id, ok) :: s.outs }

/-- The steps of `CreateRegion`, `region_controller.cc:115-228`; `ok` is the outcome of `AddNode`
(160). -/
def stepCreate (s : St) (r : Nat) (c : Cmd) (q : List Cmd) (g : Range) (parent : Nat) (ok : Bool) : Nat → St
  | 0 => if createOk s.regs r g then goto s r c q 1 else finish s r c q false
  | 1 => goto { s with regs := add r ⟨.new, g⟩ s.regs } r c q 2
  | 2 =>
    if ok then goto { s with nodes := upd s.nodes r true, metas := upd s.metas r true } r c q 3
    else finish s r c q false
  | 3 => goto { s with regs := on r (Rec.move (if parent = 0 then .normal else .standby)) s.regs } r c q 4
  | _ => finish s r c q true

/-- The steps of `DeleteRegion`, `region_controller.cc:254-403`; `id` is the id of the command that
removes the worker (`TimestampNs`, 368).  A range that is empty holds no key, so the check
`InvalidRange` (324) is left out. -/
def stepDelete (s : St) (r : Nat) (c : Cmd) (q : List Cmd) (id : Nat) : Nat → St
  | 0 => if deleteOk (get r s.regs) then goto s r c q 1 else finish s r c q false
  | 1 => goto { s with regs := on r (Rec.move .deleting) s.regs } r c q 2
  | 2 => goto { s with nodes := upd s.nodes r false } r c q 3
  | 3 => goto { s with regs := on r (Rec.move .deleted) s.regs } r c q 4
  | 4 => goto { s with metas := upd s.metas r false } r c q 5
  | 5 =>
    goto { s with
      data := match get r s.regs with
        | none => s.data
        | some x => s.data.filter fun k => !inRange x.range k } r c q 6
  | 6 => goto (dispatch s ⟨id, r, .destroy, false⟩).1 r c q 7
  | 7 => goto { s with regs := del r s.regs } r c q 8
  | _ => finish s r c q true

/-- The worker of region `r` takes the next command, or does the next step of the one it carries
out.  `StopRegion`: `region_controller.cc:1284-1317`. -/
def work (s : St) (r : Nat) (ok : Bool) (id : Nat) : St :=
  match s.exec r with
  | none => s
  | some ⟨none, []⟩ => s
  | some ⟨none, c :: q⟩ => goto s r c q 0
  | some ⟨some (c, n), q⟩ =>
    match c.kind with
    | .create g p => stepCreate s r c q g p ok n
    | .delete => stepDelete s r c q id n
    | .stop =>
      if stopOk (get r s.regs) then finish { s with nodes := upd s.nodes r false } r c q true
      else finish s r c q false
    | .other => finish s r c q ok
    | .purge | .destroy => s

/-- The shared worker: `PurgeRegion` (`region_controller.cc:1241-1265`), which checks nothing, and
`DestroyRegionExecutor` (1319-1341, 1936-1949).  The latter waits for the commands in the queue of
the worker it removes (`Worker::Destroy`, `common/runnable.cc:89-100`); in the code the worker
leaves the map before that wait, here after it. -/
def workShare (s : St) : St :=
  match s.share with
  | [] => s
  | c :: q =>
    match c.kind with
    | .purge =>
      { s with
        regs := del c.region s.regs, share := q, cmds := putCmd c .done s.cmds
        outs := (c.id, true) :: s.outs }
    | .destroy =>
      match s.exec c.region with
      | some ⟨some _, _⟩ => s
      | some ⟨none, _ :: _⟩ => s
      | _ =>
        { s with
          exec := upd s.exec c.region none, share := q, cmds := putCmd c .done s.cmds
          outs := (c.id, true) :: s.outs }
    | _ => s

/-- A region whose raft node is started on a restart, `engine/raft_store_engine.cc:99-107`. -/
def restarts (x : Rec) : Bool :=
  x.state == .normal || x.state == .standby || x.state == .splitting || x.state == .merging || x.state == .tombstone

/-- A region that gets a worker on a restart: `GetAllAliveRegion`, `store_meta_manager.cc:1113-1125`,
`region_controller.cc:1872-1879`. -/
def alive (x : Rec) : Bool := x.state != .deleted

def waits (x : Cmd × Status) : Bool := x.2 == .none

/-- The commands without an outcome, `GetCommands(STATUS_NONE)`. -/
def open' (l : List (Cmd × Status)) : List Cmd := (l.filter waits).map (·.1)

/-- `RegionController::Recover`, `region_controller.cc:1884-1899`. -/
def recover : List Cmd → St → St
  | [], s => s
  | c :: l, s => recover l (dispatchImpl s c).1

/-- A restart before its commands are dispatched again. -/
def reboot (s : St) : St :=
  { s with
    nodes := fun r => s.metas r && (match get r s.regs with
      | some x => restarts x
      | none => false)
    exec := fun r => match get r s.regs with
      | some x => if alive x then some ⟨none, []⟩ else none
      | none => none
    share := [] }

/-- The store stops and is started again: what is not on disk is lost. -/
def crash (s : St) : St := recover (open' s.cmds) (reboot s)

/-- A region whose raft node applies entries, `raft/store_state_machine.cc:154-166`; one that stands
by waits (127-130). -/
def applies (s : St) (r : Nat) (x : Rec) : Bool :=
  s.nodes r && !(x.state == .standby || x.state == .deleting || x.state == .deleted || x.state == .merging || x.state == .orphan ||
    x.state == .tombstone)

/-- A write is applied on region `r`; that its key is in the range was checked when it was proposed
(`server/service_helper.cc`), and the epoch check keeps entries from another range out. -/
def write (s : St) (r : Nat) (k : Bytes) : St :=
  match get r s.regs with
  | none => s
  | some x => if applies s r x && inRange x.range k then { s with data := k :: s.data } else s

/-- A split is applied on region `p` (`handler/raft_apply_handler.cc:235-342`, in steps in
`Verif.Region.Model`): the part below the key goes to `c`, which must be standing by.  The range
it was created with is empty (`coordinator/coordinator_control_coor.cc:1507`). -/
def splitEv (s : St) (p c : Nat) (key : Bytes) : St :=
  match get p s.regs, get c s.regs with
  | some x, some y =>
    if applies s p x && y.state == .standby && decide (y.range.stop ≤ y.range.start) && p != c &&
        decide (x.range.start < key) && decide (key < x.range.stop) then
      { s with
        regs := put p { (x.move .splitting).move .normal with range := ⟨key, x.range.stop⟩ }
          (put c { y.move .normal with range := ⟨x.range.start, key⟩ } s.regs) }
    else s
  | _, _ => s

/-- A merge of `p` into `t` is committed on `t` (`handler/raft_apply_handler.cc:880-986`): `t` gets
the range of both, `p` one that is empty.  The ranges of both are not empty and adjacent
(`region_controller.cc:756-759`), and the key above all others is really above that of `p`. -/
def mergeEv (s : St) (p t : Nat) : St :=
  match get p s.regs, get t s.regs with
  | some x, some y =>
    if applies s t y && s.nodes p && (x.state == .normal || x.state == .merging) && p != t &&
        decide (x.range.start < x.range.stop) && decide (y.range.start < y.range.stop) &&
        decide (x.range.stop ≤ maxStartKey) && (x.range.stop == y.range.start || x.range.start == y.range.stop) then
      { s with
        regs := put t { y with
            range := if x.range.stop = y.range.start then ⟨x.range.start, y.range.stop⟩ else ⟨y.range.start, x.range.stop⟩ }
          (put p { (x.move .merging).move .tombstone with range := ⟨maxStartKey, x.range.stop⟩ } s.regs) }
    else s
  | _, _ => s

/-- A region enters or leaves a split or merge (`raft_apply_handler.cc`, `UpdateState`). -/
def mark (s : St) (r : Nat) (t : RState) : St :=
  match get r s.regs with
  | none => s
  | some x =>
    if s.nodes r && (t == .normal || t == .splitting || t == .merging) then { s with regs := put r (x.move t) s.regs }
    else s

/-- What happens on a store. -/
inductive Ev where
  | push (c : Cmd) (ok : Bool)
  | work (r : Nat) (ok : Bool) (id : Nat)
  | share
  | crash
  | write (r : Nat) (k : Bytes)
  | split (p c : Nat) (key : Bytes)
  | merge (p t : Nat)
  | mark (r : Nat) (t : RState)
  deriving DecidableEq, Repr

def step (s : St) : Ev → St
  | .push c ok => push s c ok
  | .work r ok id => work s r ok id
  | .share => workShare s
  | .crash => crash s
  | .write r k => write s r k
  | .split p c key => splitEv s p c key
  | .merge p t => mergeEv s p t
  | .mark r t => mark s r t

/-- The store after a history. -/
def run (s : St) : List Ev → St
  | [] => s
  | e :: l => run (step s e) l

end Verif.Ctl
