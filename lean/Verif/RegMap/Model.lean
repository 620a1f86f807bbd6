import Verif.Region.Validate

/-!
# The coordinator's map of regions (model)

`coordinator/coordinator_control_coor.cc` (`ScanRegions`, `CheckRegionPrefix`,
`UpdateRegionMapAndStoreOperation`), `coordinator/coordinator_control_fsm.cc`
(`ApplyMetaIncrement`, regions; `BuildTempMaps`) and the maps of `common/safe_map.h`.
The coordinator keeps its regions twice: `region_map_`, by id, written to disk with every
increment, and `range_region_map_`, by start key, kept in memory only and used for every
lookup by key.  Left out: the other fields of a region's definition, the revision written
into it, region metrics (leader, statuses), watch events, failing disk writes.
-/

namespace Verif.RegMap
open Verif.Codec (Bytes)
open Verif.Region (Range Epoch RState)

/-- `pb::common::RegionState`. -/
inductive CState where
  | none | new | normal | splitting | merging | standby | tombstone | delete | deleting | deleted
  deriving DecidableEq, Repr

/-- `pb::common::RegionDefinition`: epoch, range, the store ids of the peers, and whether the
store engine is `STORE_ENG_MONO_STORE`. -/
structure Defn where
  epoch : Epoch
  range : Range
  peers : List Nat
  mono : Bool
  deriving DecidableEq, Repr

/-- `RegionInternal`. -/
structure Region where
  id : Nat
  state : CState
  d : Defn
  deriving DecidableEq, Repr

def Region.start (r : Region) : Bytes := r.d.range.start
def Region.stop (r : Region) : Bytes := r.d.range.stop

/-- A non-empty range, `start_key() < end_key()`. -/
def Region.live (r : Region) : Prop := r.start < r.stop

instance (r : Region) : Decidable r.live := inferInstanceAs (Decidable (r.start < r.stop))

/-! ## `range_region_map_`, a `std::map` by start key -/

/-- `std::map<std::string, RegionInternal>`, in key order. -/
abbrev RangeMap := List (Bytes × Region)

/-- `insert_or_assign`, `safe_map.h:1007-1011`. -/
def put (k : Bytes) (v : Region) : RangeMap → RangeMap
  | [] => [(k, v)]
  | e :: m => if k < e.1 then (k, v) :: e :: m else if k = e.1 then (k, v) :: m else e :: put k v m

/-- `map.erase(key)`. -/
def erase (m : RangeMap) (k : Bytes) : RangeMap := m.filter (fun e => e.1 ≠ k)

/-- `map.find(key)`. -/
def get (m : RangeMap) (k : Bytes) : Option Region := (m.find? (fun e => e.1 = k)).map Prod.snd

/-- `FindIntervalValues`, `safe_map.h:738-787`, with the `value_filter` given.  `before` and
`rest` are what is left and right of the iterator `lower_bound(lo)`. -/
def findInterval (m : RangeMap) (lo hi : Bytes) (f : Region → Bool) : List Region :=
  if m = [] ∨ hi ≤ lo then []
  else
    let before := m.takeWhile (fun e => e.1 < lo)
    let rest := m.dropWhile (fun e => e.1 < lo)
    match rest with
    | [] =>
      match before.getLast? with
      | .none => []
      | some e => if hi ≤ e.1 then [] else if f e.2 then [e.2] else []
    | e :: _ =>
      let from_ := if lo < e.1 then before.getLast?.toList ++ rest else rest
      ((from_.takeWhile (fun e => e.1 < hi)).map Prod.snd).filter f

/-! ## `ScanRegions` -/

/-- `Helper::GenMaxStartKey`, `helper.cc:1737`: nine bytes `0xff`. -/
def maxKey : Bytes := List.replicate 9 255

/-- The bound used by `ScanRegions`, `coordinator_control_coor.cc:5861-5870`: an end key of one
zero byte means no end, an empty one asks for the region of the key. -/
def upper (start stop : Bytes) : Bytes :=
  if stop = [0] then maxKey else if stop = [] then start ++ [0] else stop

/-- The loop of `ScanRegions`, `:5890-5911`; `none`: the `CHECK` at 5900 fails and the
coordinator stops. -/
def scanLoop (start stop : Bytes) (limit : Int) : List Region → List Region → Option (List Region)
  | [], acc => some acc
  | r :: rs, acc =>
    if stop = [] then
      if r.start ≤ start ∧ start < r.stop then some (acc ++ [r]) else scanLoop start stop limit rs acc
    else if r.start < upper start stop then
      if 0 < limit ∧ limit ≤ ((acc ++ [r]).length : Int) then some (acc ++ [r])
      else scanLoop start stop limit rs (acc ++ [r])
    else .none

/-- `ScanRegions`, `coordinator_control_coor.cc:5856-5919`. -/
def scanRegions (m : RangeMap) (start stop : Bytes) (limit : Int) : Option (List Region) :=
  scanLoop start stop limit
    (findInterval m start (upper start stop) (fun r => 0 < r.id && start < r.stop)) []

/-! ## Applying an increment -/

/-- What the coordinator holds: `region_map_` and `range_region_map_`. -/
structure Coor where
  regions : Nat → Option Region
  range : RangeMap

inductive Op where
  | create | update | delete
  deriving DecidableEq, Repr

/-- One element of `meta_increment.regions()`. -/
structure Inc where
  op : Op
  region : Region
  deriving DecidableEq, Repr

/-- The vectors filled by the loop at `coordinator_control_fsm.cc:1436-1443`:
`region_internal_to_write`, `region_id_to_delete`, `region_start_key_to_delete_for_update`,
`region_start_key_internal_to_write`, `region_start_key_to_delete`. -/
structure Batch where
  put : List Region := []
  del : List Nat := []
  eraseUpd : List Bytes := []
  index : List Region := []
  eraseDel : List Bytes := []

/-- `is_legal_delete`, `coordinator_control_fsm.cc:1509-1547`: the entry under the region's old
start key is not another region's that starts there. -/
def legalDelete (s : Coor) (old : Region) : Bool :=
  match get s.range old.start with
  | .none => true
  | some o =>
    if 0 < o.id && o.id ≠ old.id then
      match s.regions o.id with
      | .none => true
      | some t => !(0 < t.id && t.id = o.id && t.start = old.start)
    else true

/-- `need_delete`, `:1551-1557`: no region written earlier in the increment starts there. -/
def needDelete (b : Batch) (old : Region) : Bool := !(b.index.any (fun r => r.start = old.start))

/-- Writing a region: into the region map always, into the range map if its range is not empty
(`:1449-1468`, `:1572-1592`). -/
def Batch.write (b : Batch) (r : Region) : Batch :=
  { b with put := b.put ++ [r], index := if r.live then b.index ++ [r] else b.index }

/-- The `UPDATE` branch for a region found, `:1493-1592`. -/
def Batch.update (s : Coor) (b : Batch) (old r : Region) : Batch :=
  if r.d.epoch.version < old.d.epoch.version then b
  else if r.start ≠ old.start then
    if r.d.epoch.version = old.d.epoch.version then b
    else if needDelete b old && legalDelete s old then
      { b with eraseUpd := b.eraseUpd ++ [old.start] }.write r
    else b.write r
  else b.write r

/-- One round of the loop at `coordinator_control_fsm.cc:1445-1643`. -/
def Batch.add (s : Coor) (b : Batch) (i : Inc) : Batch :=
  match i.op with
  | .create => b.write i.region
  | .update =>
    match s.regions i.region.id with
    | .none => b
    | some old => b.update s old i.region
  | .delete =>
    match s.regions i.region.id with
    | .none => b
    | some old => { b with del := b.del ++ [i.region.id], eraseDel := b.eraseDel ++ [old.start] }

def putId (m : Nat → Option Region) (r : Region) : Nat → Option Region :=
  fun j => if j = r.id then some r else m j

def eraseId (m : Nat → Option Region) (i : Nat) : Nat → Option Region :=
  fun j => if j = i then .none else m j

/-- `map.insert`, which keeps the value already there: how `MultiEraseThenPut` collects the
values to put, `safe_map.h:915-918`. -/
def insertNew (m : RangeMap) (r : Region) : RangeMap :=
  match get m r.start with
  | some _ => m
  | .none => put r.start r m

/-- The range map after the batch: `MultiEraseThenPut`, then `MultiErase`
(`coordinator_control_fsm.cc:1668-1691`, `safe_map.h:910-924`, `:1029-1056`). -/
def Batch.index' (b : Batch) (m : RangeMap) : RangeMap :=
  b.eraseDel.foldl erase
    ((b.index.foldl insertNew []).foldl (fun m e => RegMap.put e.1 e.2 m) (b.eraseUpd.foldl erase m))

/-- `ApplyMetaIncrement`, the regions (`coordinator_control_fsm.cc:1430-1692`): the loop, then
`MultiPut` and `MultiErase` of the region map, then the range map.  The same puts and deletes
go to the disk, puts first. -/
def Coor.apply (s : Coor) (incs : List Inc) : Coor :=
  let b := incs.foldl (Batch.add s) {}
  { regions := b.del.foldl eraseId (b.put.foldl putId s.regions)
    range := b.index' s.range }

/-- `BuildTempMaps`, `coordinator_control_fsm.cc:118-126`, run by a coordinator that becomes
leader: the range map is made again from the region map, in the order `order` in which the hash
map lists the regions. -/
def Coor.lead (s : Coor) (order : List Nat) : Coor :=
  { s with range := (order.filterMap s.regions).foldl (fun m r => put r.start r m) [] }

/-- A coordinator that stops and starts again: the region map is read from disk, the range map
is empty until it becomes leader. -/
def Coor.restart (s : Coor) : Coor := { s with range := [] }

/-! ## What stores report -/

/-- `RegionMetrics`: `leader_store_id()`, whether `braft_status().raft_state()` is
`STATE_LEADER`, `store_region_state()` and `region_definition()`. -/
structure Metrics where
  id : Nat
  leaderStore : Nat
  raftLeader : Bool
  state : RState
  d : Defn
  deriving DecidableEq, Repr

/-- `StoreMetrics` of a heartbeat: `id()`, `is_partial_region_metrics()`,
`is_update_epoch_version()`, `region_metrics_map()` in the order the map lists them. -/
structure Report where
  store : Nat
  part : Bool
  epochUpdate : Bool
  regions : List Metrics
  deriving DecidableEq, Repr

def CState.dropping : CState → Bool
  | .delete | .deleting | .deleted => true
  | _ => false

/-- `GenRegionState`, `coordinator_control_coor.cc:4398-4443`. -/
def genState (m : Metrics) (r : Region) : CState :=
  if r.state.dropping then
    match m.state with
    | .deleted => .deleted
    | .deleting => .deleting
    | _ => .none
  else
    match m.state with
    | .normal => .normal
    | .splitting => .splitting
    | .merging => .merging
    | .standby => .standby
    | .tombstone => .tombstone
    | _ => .none

/-- `region_metrics_is_not_leader`, `:4575-4602`. -/
def notLeader (rep : Report) (m : Metrics) (r : Region) : Bool :=
  !r.d.mono && (!m.raftLeader || (0 < m.leaderStore && m.leaderStore ≠ rep.store))

/-- The report has a larger conf version or a larger version, `:4588-4598`. -/
def newer (m : Metrics) (r : Region) : Bool :=
  r.d.epoch.conf < m.d.epoch.conf || r.d.epoch.version < m.d.epoch.version

/-- `leader_has_old_epoch`, `:4617-4628`. -/
def oldLeader (rep : Report) (m : Metrics) (r : Region) : Bool :=
  !notLeader rep m r && (m.d.epoch.conf < r.d.epoch.conf || m.d.epoch.version < r.d.epoch.version)

/-- `need_update_region_definition` in the end, `:4588-4706`. -/
def needDef (rep : Report) (m : Metrics) (r : Region) : Bool :=
  (newer m r || (r.d.peers.length ≠ m.d.peers.length && !oldLeader rep m r)) &&
    !(rep.part && !rep.epochUpdate)

/-- `need_update_region_state`, `:4646-4656`. -/
def needState (m : Metrics) (r : Region) : Bool :=
  genState m r ≠ .none && genState m r ≠ r.state

/-- The body of the loop of `UpdateRegionMapAndStoreOperation`, `:4534-4737`: the region to
write, if any. -/
def reportOne (rep : Report) (m : Metrics) (r : Region) : Option Region :=
  if notLeader rep m r && !newer m r && !r.state.dropping then .none
  else if needDef rep m r || needState m r then
    some { r with
      d := if needDef rep m r then m.d else r.d
      state := if needState m r then genState m r else r.state }
  else .none

def reportInc (s : Coor) (rep : Report) (m : Metrics) : Option Inc :=
  match s.regions m.id with
  | .none => .none
  | some r => (reportOne rep m r).map (fun r' => ⟨.update, r'⟩)

/-- `UpdateRegionMapAndStoreOperation`, `:4503-4763`: the increment made of a report. -/
def reportIncs (s : Coor) (rep : Report) : List Inc :=
  if rep.part && rep.epochUpdate && rep.regions.length ≠ 2 then []
  else rep.regions.filterMap (reportInc s rep)

/-! ## Requests -/

/-- `CheckRegionPrefix`, `coordinator_control_coor.cc:1922-1984`; `none` when the scan stops the
coordinator.  `0x72 0x74 0x77 0x78` are `r`, `t`, `w`, `x` (`constant.h`). -/
def checkPrefix (s : Coor) (start stop : Bytes) : Option Bool :=
  if start.length < 8 ∨ stop.length < 8 then some false
  else if start.head? ≠ stop.head? ∧ start ≠ maxKey then some false
  else if start.head? = some 255 ∧ start ≠ maxKey then some false
  else match scanRegions s.range start stop 0 with
    | .none => .none
    | some rs =>
      if rs ≠ [] ∧ start ≠ maxKey then some false
      else some (start.head? ∈ [some 0x72, some 0x74, some 0x77, some 0x78, some 255])

/-- `CreateRegionFinal`, `:2176-2389`, as far as the region map goes: the prefix check, the id
not in use, the new region's record (epoch 1, 1). -/
def createRegion (s : Coor) (id : Nat) (q : Range) (peers : List Nat) (mono : Bool) : Option (List Inc) :=
  match checkPrefix s q.start q.stop with
  | some true =>
    if s.regions id = .none then some [⟨.create, ⟨id, .new, ⟨⟨1, 1⟩, q, peers, mono⟩⟩⟩] else .none
  | _ => .none

/-- A region to create: its id, range, the stores of its peers, the store engine. -/
structure CreateReq where
  id : Nat
  range : Range
  peers : List Nat
  mono : Bool

/-- `CreateTable`, `coordinator_control_meta.cc:752-774` (and `CreateIndex`, `:1421-1442`): one
region for each partition, each checked against the coordinator's regions; all of them are put
into one increment. -/
def createAll (s : Coor) : List CreateReq → Option (List Inc)
  | [] => some []
  | q :: qs =>
    match createRegion s q.id q.range q.peers q.mono with
    | .none => .none
    | some i => (createAll s qs).map (fun is => i ++ is)

/-- `DropRegionFinal`, `:2455-2530`, the region map: nothing for an unknown region or one
already being dropped. -/
def dropRegion (s : Coor) (id : Nat) : List Inc :=
  match s.regions id with
  | .none => []
  | some r => if r.state.dropping then [] else [⟨.delete, r⟩]

end Verif.RegMap
