/-!
# Balancing leaders over the stores (model)

`coordinator/balance_leader.cc`.  From time to time the coordinator looks at which store leads
which region and asks for some leaders to be transferred.

Simplified: what the coordinator knows does not change during a pass (in the code a region is read
again when it is picked, 684, and its health is read again at the end, 538); scores are compared
exactly (they are single precision quotients in the code, equal if they differ by less than 1e-6).
Left out: when a pass is due (`ShouldRun`) and what is recorded for printing.
-/

namespace Verif.Balance

/-- `pb::common::Peer`. -/
structure Peer where
  store : Nat
  voter : Bool
  deriving DecidableEq, Repr

/-- A region as in `GetRegionMapFull`; `leader` is 0 if not known. -/
structure Reg where
  id : Nat
  leader : Nat
  peers : List Peer
  deriving DecidableEq, Repr

/-- `pb::common::Store`. -/
structure Store where
  id : Nat
  normal : Bool
  weight : Int
  deriving DecidableEq, Repr

/-- What `RegionHealthFilter` and `ResourceFilter` look at in `pb::common::RegionMetrics`; `memory` is
the memory of the vector index, for a region with one. -/
structure Metric where
  normal : Bool
  raft : Bool
  replica : Bool
  online : Bool
  unstable : Nat
  pending : Nat
  memory : Option Int
  deriving DecidableEq, Repr

/-- What the coordinator knows.  `metric`: `GetRegionMetrics`; `free`: the free memory in
`GetStoreRegionMetrics`; `busy`: a job that is not finished has a command for the region;
`batch`: `FLAGS_balacne_leader_task_batch_size`. -/
structure World where
  regions : List Reg
  stores : List Store
  metric : Nat → Option Metric
  free : Nat → Option Int
  busy : Nat → Bool
  batch : Nat

/-- `RegionHealthFilter::Check`, `balance_leader.cc:108-152`. -/
def healthy (w : World) (r : Nat) : Bool :=
  match w.metric r with
  | none => false
  | some m => m.normal && m.raft && m.replica && m.online && m.unstable == 0 && decide (m.pending ≤ 10)

/-- `ResourceFilter::Check`, `balance_leader.cc:56-106`. -/
def roomy (w : World) (s r : Nat) : Bool :=
  match w.free s, w.metric r with
  | some f, some m =>
    match m.memory with
    | none => true
    | some b => decide (0 < f) && decide (0 < b) && decide (b < f)
  | _, _ => false

/-- `TaskFilter::Check`, `balance_leader.cc:154-178`: what is found is recorded, and the region kept. -/
def taskCheck (_w : World) (_r : Nat) : Bool := true

/-- `StoreEntry`, `balance_leader.h:149-194`. -/
structure Entry where
  id : Nat
  weight : Int
  leads : List Nat
  follows : List Nat
  delta : Int
  deriving DecidableEq, Repr

/-- The leader regions of a store, `GenerateStoreRegionMap`, `balance_leader.cc:614-643`. -/
def leadsOf (w : World) (s : Nat) : List Nat :=
  w.regions.flatMap fun r => if r.leader = 0 then [] else
    (r.peers.filter fun p => p.store == s && p.store == r.leader).map fun _ => r.id

/-- The other regions of a store, `balance_leader.cc:634-638`. -/
def followsOf (w : World) (s : Nat) : List Nat :=
  w.regions.flatMap fun r => if r.leader = 0 then [] else
    (r.peers.filter fun p => p.store == s && p.store != r.leader).map fun _ => r.id

/-- `GenerateStoreEntries`, `balance_leader.cc:591-612`, for the stores in `GetStoreMap` (there is one
for each id): those in a normal state that have a replica of a region with a leader. -/
def entries (w : World) : List Entry :=
  w.stores.filterMap fun s =>
    if s.id ≠ 0 ∧ s.normal = true ∧ (leadsOf w s.id ≠ [] ∨ followsOf w s.id ≠ []) then
      some ⟨s.id, s.weight, leadsOf w s.id, followsOf w s.id, 0⟩
    else none

/-- `leader_num_weight`, `balance_leader.cc:269`. -/
def weightOf (i : Int) : Int := if 0 < i then i else 1

/-- The numerator of `LeaderScore(delta)`, `balance_leader.cc:267-271`. -/
def Entry.num (e : Entry) (d : Int) : Int := e.leads.length + e.delta + d

/-- The score of `a` with `d` more leaders is at most that of `b` with `d'` more. -/
def scoreLe (a : Entry) (d : Int) (b : Entry) (d' : Int) : Bool :=
  decide (a.num d * weightOf b.weight ≤ b.num d' * weightOf a.weight)

/-- `StoreEntry::Less` and `Greater`, `balance_leader.cc:211-229`: equal scores by descending id. -/
def before (asc : Bool) (a b : Entry) : Bool :=
  if scoreLe a 0 b 0 && scoreLe b 0 a 0 then decide (b.id < a.id)
  else if asc then scoreLe a 0 b 0 else scoreLe b 0 a 0

def insert (asc : Bool) (a : Entry) : List Entry → List Entry
  | [] => [a]
  | b :: l => if before asc b a then b :: insert asc a l else a :: b :: l

/-- `CandidateStores::Sort`, `balance_leader.cc:291-297`. -/
def sort (asc : Bool) : List Entry → List Entry
  | [] => []
  | a :: l => insert asc a (sort asc l)

/-- `CandidateStores::Store`, `balance_leader.cc:275-283`. -/
def find (es : List Entry) (s : Nat) : Option Entry := es.find? fun e => e.id == s

/-- `TransferLeaderTask`. -/
structure Task where
  region : Nat
  source : Nat
  target : Nat
  deriving DecidableEq, Repr

/-- `FilterUsedRegion`, `FilterRegion` and `PickOneRegion`, `balance_leader.cc:666-685`, `832-841`;
`k` is the random number. -/
def pick (w : World) (used ids : List Nat) (k : Nat) : Option Reg :=
  let l := ids.filter fun r => !used.contains r && healthy w r
  match l[k % l.length]? with
  | none => none
  | some id => w.regions.find? fun r => r.id == id

/-- `GetFollowerStores`, `balance_leader.cc:687-703`. -/
def followers (es : List Entry) (r : Reg) (leader : Nat) : List Entry :=
  sort true ((r.peers.filter fun p => p.voter && p.store != leader).filterMap fun p => find es p.store)

/-- `GetLeaderStore`, `balance_leader.cc:705-717`. -/
def leaderOf (es : List Entry) (r : Reg) : Option Entry :=
  ((r.peers.filter fun p => p.voter).filterMap fun p => find es p.store).find? fun e => e.leads.contains r.id

/-- `GenerateTransferOutLeaderTask`, `balance_leader.cc:751-784`. -/
def outTask (w : World) (es : List Entry) (used : List Nat) (k : Nat) (e : Entry) : Option Task :=
  match pick w used e.leads k with
  | none => none
  | some r =>
    match ((followers es r e.id).filter fun f => roomy w f.id r.id).filter fun f => scoreLe f 1 e (-1) with
    | [] => none
    | f :: _ => some ⟨r.id, e.id, f.id⟩

/-- `GenerateTransferInLeaderTask`, `balance_leader.cc:786-810`.  `FilterResource` is true for a store
that is to be left out (865-873); the region is given up if it is false (795-797). -/
def inTask (w : World) (es : List Entry) (used : List Nat) (k : Nat) (e : Entry) : Option Task :=
  match pick w used e.follows k with
  | none => none
  | some r =>
    if roomy w e.id r.id then none
    else
      match leaderOf es r with
      | none => none
      | some l => if scoreLe e 1 l (-1) then some ⟨r.id, l.id, e.id⟩ else none

/-- A pass: the stores, the places in the two sorted lists of them, the regions used and the tasks.
The two lists share their entries and are sorted again after every change (662-663), so they are
always those entries sorted. -/
structure Pass where
  es : List Entry
  i : Nat
  j : Nat
  used : List Nat
  tasks : List Task

/-- `ReadjustLeaderScore`, `balance_leader.cc:645-664`. -/
def adjust (t : Task) (es : List Entry) : List Entry :=
  es.map fun e => { e with
    delta := e.delta - (if e.id = t.source then 1 else 0) + (if e.id = t.target then 1 else 0) }

/-- A task is added, `balance_leader.cc:494-497`, `523-526`. -/
def Pass.push (p : Pass) (t : Task) : Pass :=
  { p with es := adjust t p.es, used := t.region :: p.used, tasks := p.tasks ++ [t] }

/-- The first half of a round, `balance_leader.cc:479-506`; true: the loop is left. -/
def outHalf (w : World) (k : Nat) (p : Pass) : Pass × Bool :=
  match (sort false p.es)[p.i]? with
  | none => (p, false)
  | some e =>
    match outTask w p.es p.used k e with
    | some t => (p.push t, decide (w.batch ≤ p.tasks.length + 1))
    | none => ({ p with i := p.i + 1 }, false)

/-- The second half of a round, `balance_leader.cc:508-534`. -/
def inHalf (w : World) (k : Nat) (p : Pass) : Pass × Bool :=
  match (sort true p.es)[p.j]? with
  | none => (p, false)
  | some e =>
    match inTask w p.es p.used k e with
    | some t => (p.push t, decide (w.batch ≤ p.tasks.length + 1))
    | none => ({ p with j := p.j + 1 }, false)

/-- The loop of `Schedule`, `balance_leader.cc:478-535`; `rnd` gives the random numbers.  `none`: more
rounds than `n`. -/
def loop (w : World) (rnd : Nat → Nat) : Nat → Pass → Option (List Task)
  | 0, _ => none
  | n + 1, p =>
    if p.i < p.es.length ∨ p.j < p.es.length then
      let a := outHalf w (rnd (2 * n)) p
      if a.2 then some a.1.tasks
      else
        let b := inHalf w (rnd (2 * n + 1)) a.1
        if b.2 then some b.1.tasks else loop w rnd n b.1
    else some p.tasks

/-- `FilterTask`, `balance_leader.cc:843-863`: the filters of regions are asked again, and not
`taskCheck`. -/
def filterTask (w : World) (l : List Task) : List Task := l.filter fun t => healthy w t.region

/-- `Schedule`, `balance_leader.cc:447-545`, allowed `n` rounds. -/
def schedule (w : World) (rnd : Nat → Nat) (n : Nat) : Option (List Task) :=
  (loop w rnd n ⟨entries w, 0, 0, [], []⟩).map (filterTask w)

/-- Where a launch is: before looking at `is_running`, after it has seen it false, and in its pass. -/
inductive Launch
  | start
  | seen
  | pass
  | refused
  deriving DecidableEq, Repr

/-- `LaunchBalanceLeader`, `balance_leader.cc:391-396`: the flag is read, and then set, in two steps; it
is cleared at the end.  One step of a launch, with the flag. -/
def launchStep (running : Bool) : Launch → Bool × Launch
  | .start => (running, if running then .refused else .seen)
  | .seen => (true, .pass)
  | .pass => (false, .start)
  | .refused => (running, .start)

/-- Two launches take steps in some order (true: the first). -/
def launches : List Bool → Bool × Launch × Launch → Bool × Launch × Launch
  | [], s => s
  | b :: l, (f, x, y) =>
    if b then launches l ((launchStep f x).1, (launchStep f x).2, y) else launches l ((launchStep f y).1, x, (launchStep f y).2)

/-- A leader is transferred: the region is led by the target. -/
def carryOne (rs : List Reg) (t : Task) : List Reg :=
  rs.map fun r => if r.id = t.region then { r with leader := t.target } else r

/-- The leaders are transferred as asked for (what the job does, see `Verif.Job`). -/
def carry (w : World) (l : List Task) : World := { w with regions := l.foldl carryOne w.regions }

end Verif.Balance
