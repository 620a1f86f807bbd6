/-!
# Balancing regions over the stores (model)

`coordinator/balance_region.cc`.  From time to time the coordinator compares how full the stores are
and asks for one replica to be moved from a store to another.

Simplified: what the coordinator knows does not change during a pass; scores are compared exactly
(they are single precision numbers in the code, equal if they differ by less than 1e-6); a store
whose total capacity is 0 has no score (in the code it is not a number: 0 / 0); regions of the same
size are taken in the order they are in the map (in the code in any order); the definition of a
region in its metrics is the one in the region map.  Left out: when a pass is due (`ShouldRun`), and
what is recorded for printing.
-/

namespace Verif.BalRegion

/-- What the coordinator knows of a store in `GetStoreMetrics`, `coordinator_control_coor.cc:319-379`:
its capacity, what is free of it, and the regions it has reported.  Of a store that has not reported
its regions since the coordinator has been the leader, the capacities are known and the regions are
taken to be none (346-358). -/
structure Load where
  total : Nat
  free : Nat
  regions : List Nat
  deriving DecidableEq, Repr

/-- `pb::common::Store`, with its metrics. -/
structure Node where
  id : Nat
  normal : Bool
  load : Option Load
  deriving DecidableEq, Repr

/-- A region in `GetRegionMapFull`, with the size in its metrics (`none`: no metrics).  `leader` is 0 if
not known; `fit`: its state is normal, raft healthy and the region online. -/
structure Reg where
  id : Nat
  leader : Nat
  peers : List Nat
  size : Option Nat
  fit : Bool
  busy : Bool
  deriving DecidableEq, Repr

/-- What the coordinator knows.  `ratio`: `balance_region_default_region_count_ratio`, in thousandths;
`unit`: the size a region is taken to have (`GetBalanceRegionDefaultStoreRegionSize`). -/
structure World where
  regions : List Reg
  nodes : List Node
  ratio : Nat
  unit : Nat
  deriving DecidableEq, Repr

/-- `StoreEntry`, `balance_region.h:143-193`. -/
structure Entry where
  id : Nat
  load : Load
  follows : List Nat
  deriving DecidableEq, Repr

/-- The regions of a store it does not lead, `GenerateStoreRegionMap`, `balance_region.cc:707-736`. -/
def followsOf (w : World) (s : Nat) : List Nat :=
  w.regions.flatMap fun r => if r.leader = 0 then [] else
    (r.peers.filter fun p => p == s && p != r.leader).map fun _ => r.id

/-- `GenerateStoreEntries`, `balance_region.cc:676-705`, `738-746`: the stores in a normal state that have
metrics. -/
def entries (w : World) : List Entry :=
  w.nodes.filterMap fun s => if s.id = 0 ∨ s.normal = false then none else
    s.load.map fun m => ⟨s.id, m, followsOf w s.id⟩

/-- `StoreEntry::Score`, `balance_region.cc:275-315`, times the capacity of the store and 10:
`ratio · count · unit / total + (1 - ratio) · (total - free) / total`, times 100. -/
def Entry.num (w : World) (e : Entry) : Int :=
  w.ratio * (e.load.regions.length * w.unit) + (1000 - w.ratio : Int) * (e.load.total - e.load.free : Int)

/-- The score is a number. -/
def Entry.known (e : Entry) : Bool := decide (0 < e.load.total)

/-- `a.Score() <= b.Score()`; false if one is not a number. -/
def scoreLe (w : World) (a b : Entry) : Bool :=
  a.known && b.known && decide (a.num w * b.load.total ≤ b.num w * a.load.total)

/-- `a.Score() - b.Score() <= d` in tenths; false if one is not a number. -/
def scoreNear (w : World) (d : Int) (a b : Entry) : Bool :=
  a.known && b.known && decide (a.num w * b.load.total - b.num w * a.load.total ≤ d * (a.load.total * b.load.total))

/-- `FLAGS_balance_region_limit_score_diff`, `balance_region.cc:39`, in tenths. -/
def limit : Int := 150

/-- `StoreEntry::Less` and `Greater`, `balance_region.cc:227-245`. -/
def before (w : World) (asc : Bool) (a b : Entry) : Bool :=
  if scoreLe w a b && scoreLe w b a then decide (b.id < a.id)
  else if asc then scoreLe w a b else scoreLe w b a

def insert (w : World) (asc : Bool) (a : Entry) : List Entry → List Entry
  | [] => [a]
  | b :: l => if before w asc b a then b :: insert w asc a l else a :: b :: l

/-- `CandidateStores::Sort`, `balance_region.cc:335-341`. -/
def sort (w : World) (asc : Bool) : List Entry → List Entry
  | [] => []
  | a :: l => insert w asc a (sort w asc l)

/-- `ChangeRegionTask`, `balance_region.h:226-231`. -/
structure Task where
  region : Nat
  source : Nat
  target : Nat
  stores : List Nat
  deriving DecidableEq, Repr

/-- `FilterRegion`, `balance_region.cc:748-767`.  The filter for the state of a region, `RegionStateFilter`
(137-199), answers for a store and a region; `FilterRegion` asks it for a region, which is the answer
of every filter that has none of its own: yes (`balance_region.h:84`). -/
def filterRegion (l : List Nat) : List Nat := l

def insertReg (a : Reg) : List Reg → List Reg
  | [] => [a]
  | b :: l => if a.size.getD 0 ≤ b.size.getD 0 then b :: insertReg a l else a :: b :: l

/-- By size, the largest first, `balance_region.cc:635-638`. -/
def sortReg : List Reg → List Reg
  | [] => []
  | a :: l => insertReg a (sortReg l)

/-- The regions of the source that have metrics, `balance_region.cc:624-633`. -/
def regsOf (w : World) (ids : List Nat) : List Reg :=
  ids.filterMap fun id => (w.regions.find? fun r => r.id == id).filter fun r => r.size.isSome

/-- `ResourceFilter::Check`, `balance_region.cc:87-135`. -/
def roomy (t : Entry) (r : Reg) : Bool :=
  decide (0 < t.load.free) && decide (0 < r.size.getD 0) && decide (r.size.getD 0 < t.load.free)

/-- `RegionPlacementSafeguard::Check`, `balance_region.cc:201-225`. -/
def placeable (t : Entry) (r : Reg) : Bool := !t.load.regions.contains r.id

/-- The new stores: the target, and the old ones without the source, `balance_region.cc:649-664`. -/
def taskOf (r : Reg) (s t : Nat) : Task := ⟨r.id, s, t, t :: r.peers.filter fun p => p != s⟩

/-- `GenerateChangeRegionTask`, `balance_region.cc:612-647`. -/
def gen (w : World) (s t : Entry) : Option Task :=
  if scoreLe w s t then none
  else
    ((sortReg (regsOf w (filterRegion s.follows))).find? fun r => roomy t r && placeable t r).map fun r => taskOf r s.id t.id

/-- What becomes of a pass; `crash`: the coordinator goes through a null pointer. -/
inductive Out
  | idle
  | task (t : Task)
  | crash
  deriving DecidableEq, Repr

/-- The loop of `Schedule`, `balance_region.cc:528-585`.  After a first attempt the next source is tried
with the same target, whether there is one or not (564, 573, 614-616); then both go on. -/
def walk (w : World) : List Entry → List Entry → Out
  | s :: src, t :: dst =>
    if scoreLe w s t then .idle
    else if scoreNear w limit s t then .idle
    else
      match gen w s t with
      | some k => .task k
      | none =>
        match src with
        | [] => .crash
        | s' :: _ =>
          match gen w s' t with
          | some k => .task k
          | none => walk w src dst
  | _, _ => .idle

/-- `Schedule`, `balance_region.cc:498-588`. -/
def schedule (w : World) : Out := walk w (sort w false (entries w)) (sort w true (entries w))

/-- `l` without as many of each element as `m` has: `std::set_difference` of sorted lists. -/
def diff (l m : List Nat) : List Nat := m.foldl (fun acc x => acc.erase x) l

/-- `ChangePairPeerRegionWithJob`, `coordinator_control_coor.cc:3397-3600`, as far as it looks at the region
and the stores it gets (left out: the leader and the new store are online and the same kind, the
epoch of the snapshot): the replicas the region will have, if the job is made. -/
def change (w : World) (k : Task) : Option (List Nat) :=
  match w.regions.find? fun r => r.id == k.region with
  | none => none
  | some r =>
    if r.busy || !r.fit || r.peers.isEmpty then none
    else
      match diff k.stores r.peers, diff r.peers k.stores with
      | [more], [less] =>
        if r.leader == less && decide (k.stores.length < 3) then none
        else some (more :: r.peers.filter fun p => p != less)
      | _, _ => none

/-- The job is carried out and the stores report it: the region has its new replicas, the source as
much more room as the region takes, and the target as much less. -/
def carry (w : World) (k : Task) (ps : List Nat) : World :=
  let sz := ((w.regions.find? fun r => r.id == k.region).bind fun r => r.size).getD 0
  { w with
    regions := w.regions.map fun r => if r.id = k.region then { r with peers := ps } else r
    nodes := w.nodes.map fun n => { n with
      load := n.load.map fun m =>
        if n.id = k.source then { m with free := m.free + sz, regions := m.regions.filter fun x => x != k.region }
        else if n.id = k.target then { m with free := m.free - sz, regions := k.region :: m.regions }
        else m } }

/-- A pass, carried out if the job is made. -/
def pass (w : World) : World :=
  match schedule w with
  | .task k =>
    match change w k with
    | some ps => carry w k ps
    | none => w
  | _ => w

/-- So many passes. -/
def passes (w : World) : Nat → World
  | 0 => w
  | n + 1 => passes (pass w) n

end Verif.BalRegion
