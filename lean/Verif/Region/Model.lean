import Verif.Region.Validate

/-!
# Region split and merge (model of one store)

`handler/raft_apply_handler.cc:235-1097`, the apply loop `raft/store_state_machine.cc:110-301`
and the region record updates of `meta/store_meta_manager.cc:901-1088`.  A store holds a table
of regions, one key space shared by all of them and, per region, the index of the last entry
applied.  Left out: peers, snapshots, vector and document indexes, metrics, heartbeats.
-/

namespace Verif.Region
open Verif.Codec (Bytes)

/-- A region's record, `meta/store_meta_manager.h`: epoch, state and range are in the
persistent record, like `LastChangeJobId` (`job`) and `TemporaryDisableChange` (`disabled`);
`rawMax` and `accMax` are the in-memory `raw_applied_max_ts_` and `txn_access_max_ts_`. -/
structure Reg where
  epoch : Epoch
  state : RState
  range : Range
  job : Int
  disabled : Bool
  rawMax : Int
  accMax : Int
  deriving DecidableEq, Repr

/-- The commands of a region's raft log.  `write` stands for every data command; its `ts` is
`request.ts()`.  `split`: `SplitRequest` (`post` is `POST_CREATE_REGION`).  `commitMerge`
carries the copied source log entries `lo..hi`; since a committed log is the same everywhere
only the bounds are kept. -/
inductive Cmd where
  | write (k : Bytes) (v : Option Nat) (ts : Int)
  | split (job : Int) (child : Nat) (key : Bytes) (version : Int) (post : Bool)
  | prepareMerge (job : Int) (target : Nat) (tEpoch : Epoch) (minApplied : Nat)
  | commitMerge (job : Int) (source : Nat) (sEpoch : Epoch) (sRange : Range) (lo hi : Nat)
  | rollbackMerge
  deriving DecidableEq, Repr

/-- A raft log entry: the epoch in the header of `RaftCmdRequest` and one request. -/
structure Entry where
  epoch : Epoch
  cmd : Cmd
  deriving DecidableEq, Repr

/-- A `LaunchCommitMergeCommand` loop (`raft_apply_handler.cc:749-790`) started on a store. -/
structure Loop where
  source : Nat
  target : Nat
  job : Int
  entry : Entry
  deriving DecidableEq, Repr

/-- One store. -/
structure Store where
  regs : Nat → Option Reg
  data : Bytes → Option Nat
  applied : Nat → Nat
  loops : List Loop

/-- Why an entry is not applied: the apply thread waits, or the process ends
(`DINGO_LOG(FATAL)`), or the case is outside the model. -/
inductive Stop where
  | blocked | abort | unmodelled
  deriving DecidableEq, Repr

/-- The transitions allowed by `UpdateState`, `store_meta_manager.cc:901-975`. -/
def canMove : RState → RState → Bool
  | .new, t => t == .normal || t == .standby
  | .normal, t => t == .standby || t == .splitting || t == .merging || t == .deleting || t == .orphan || t == .tombstone
  | .standby, t => t == .normal || t == .tombstone || t == .orphan || t == .deleting
  | .splitting, t => t == .normal || t == .tombstone
  | .merging, t => t == .normal || t == .tombstone
  | .deleting, t => t == .deleted || t == .tombstone
  | .deleted, t => t == .tombstone
  | .orphan, t => t == .tombstone
  | .tombstone, _ => false

/-- `UpdateState`: a transition not allowed is logged and ignored. -/
def Reg.move (t : RState) (r : Reg) : Reg := if canMove r.state t then { r with state := t } else r

/-- `UpdateEpochVersionAndRange`, `store_meta_manager.cc:1011-1023`. -/
def Reg.setRange (v : Int) (q : Range) (r : Reg) : Reg :=
  if v ≤ r.epoch.version then r else { r with epoch := { r.epoch with version := v }, range := q }

/-- The same with the region's own version plus one, as all its callers but one have it. -/
def Reg.bump (q : Range) (r : Reg) : Reg := r.setRange (r.epoch.version + 1) q

/-- `SetRawAppliedMaxTs` and `SetTxnAccessMaxTs`, `store_meta_manager.h:175-197`. -/
def Reg.raise (raw acc : Int) (r : Reg) : Reg :=
  { r with rawMax := max r.rawMax raw, accMax := max r.accMax acc }

/-- `UpdateLastChangeJobId` and `UpdateTemporaryDisableChange`, `store_meta_manager.cc:1076-1088`. -/
def Reg.setJob (j : Int) (r : Reg) : Reg := { r with job := j }
def Reg.setDisabled (b : Bool) (r : Reg) : Reg := { r with disabled := b }

/-- Change one region's record, if the store has it. -/
def Store.on (s : Store) (i : Nat) (f : Reg → Reg) : Store :=
  { s with regs := fun j => if j = i then (s.regs i).map f else s.regs j }

/-- `AddRegion`, `store_meta_manager.cc:871-883`. -/
def Store.add (s : Store) (i : Nat) (r : Reg) : Store :=
  { s with regs := fun j => if j = i then some r else s.regs j }

/-- The updates of `HandlePreCreateRegionSplit` after its checks, in order
(`raft_apply_handler.cc:289-342`); each is one write of a region record.  `p` is the parent, `c`
the child, `pr` the parent's record on entry. -/
def preSteps (p c : Nat) (pr : Reg) (key : Bytes) : List (Store → Store) :=
  [ fun s => s.on p (Reg.setDisabled true),
    fun s => s.on c (Reg.setDisabled true),
    fun s => s.on c (Reg.raise pr.rawMax pr.accMax),
    fun s => s.on c (Reg.move .splitting),
    fun s => s.on p (Reg.move .splitting),
    fun s => s.on c (Reg.bump ⟨pr.range.start, key⟩),
    fun s => s.on p (Reg.bump ⟨key, pr.range.stop⟩),
    fun s => s.on p (Reg.move .normal),
    fun s => s.on c (Reg.move .normal) ]

/-- The updates of `HandlePostCreateRegionSplit` after its checks (`raft_apply_handler.cc:544-600`);
the third is `CreateNewRegion` (`443-483`). -/
def postSteps (p c : Nat) (pr : Reg) (key : Bytes) : List (Store → Store) :=
  [ fun s => s.on p (Reg.move .splitting),
    fun s => s.on p (Reg.setDisabled true),
    fun s => s.add c ⟨⟨1, 2⟩, .splitting, ⟨pr.range.start, key⟩, 0, false, 0, 0⟩,
    fun s => s.on c (Reg.raise pr.rawMax pr.accMax),
    fun s => s.on p (Reg.bump ⟨key, pr.range.stop⟩),
    fun s => s.on p (Reg.move .normal),
    fun s => s.on c (Reg.move .normal) ]

/-- The updates a split makes on a store, or why it stops (`raft_apply_handler.cc:235-280`,
`486-535`).  `CreateNewRegion` on an id the store already has fails, since the raft library
refuses a second node of the same group, and the process ends (`559-564`). -/
def splitPlan (s : Store) (p : Nat) (job : Int) (c : Nat) (key : Bytes) (version : Int) (post : Bool) :
    Except Stop (List (Store → Store)) :=
  match s.regs p with
  | none => .error .abort
  | some pr =>
    let first := fun s : Store => s.on p (Reg.setJob job)
    if version ≠ pr.epoch.version then .ok [first]
    else if ¬ post ∧ (s.regs c).map Reg.state ≠ some .standby then .error .abort
    else if ¬ pr.range.start < pr.range.stop then .error .abort
    else if key ≤ pr.range.start ∨ pr.range.stop ≤ key then .error .abort
    else if post then
      if (s.regs c).isSome then .error .abort else .ok (first :: postSteps p c pr key)
    else .ok (first :: preSteps p c pr key)

/-- Carry out updates in order. -/
def run (s : Store) : List (Store → Store) → Store
  | [] => s
  | f :: fs => run (f s) fs

/-- `Helper::CompareRegionEpoch`, `common/helper.cc:1759-1769`. -/
def cmpEpoch (a b : Epoch) : Ordering :=
  if a.conf = b.conf ∧ a.version = b.version then .eq
  else if a.conf < b.conf ∨ a.version < b.version then .lt
  else .gt

/-- The source's part of `PrepareMergeHandler`, `raft_apply_handler.cc:853-862`. -/
def startMerge (s : Store) (src : Nat) : Store :=
  s.on src (fun r => (r.move .merging).bump r.range)

/-- `PrepareMergeHandler::Handle`, `raft_apply_handler.cc:792-884`, for the entry with index `i`.
Simplified: while it waits for the target's epoch the two flags it has set on the source are
not shown. -/
def prepareMerge (s : Store) (src i : Nat) (job : Int) (target : Nat) (tEpoch : Epoch) (minApplied : Nat) :
    Except Stop Store :=
  let s := s.on src (fun r => (r.setJob job).setDisabled true)
  match s.regs target with
  | none => .ok (startMerge s src)
  | some t =>
    match cmpEpoch t.epoch tEpoch with
    | .lt => .error .blocked
    | .gt => .ok s
    | .eq =>
      match s.regs src with
      | none => .error .abort
      | some r =>
        let loop := { source := src, target, job,
                      entry := ⟨tEpoch, .commitMerge job src r.epoch r.range (minApplied + 1) i⟩ }
        .ok { startMerge s src with loops := s.loops ++ [loop] }

/-- The handlers other than `CommitMerge` (`DispatchEvent`, `store_state_machine.cc:97-108`,
to the handlers of `raft_apply_handler.cc`): no check of state or epoch. -/
def dispatch (s : Store) (r i : Nat) : Cmd → Except Stop Store
  | .write k v _ => .ok { s with data := fun k' => if k' = k then v else s.data k' }
  | .split job c key version post =>
    match splitPlan s r job c key version post with
    | .error e => .error e
    | .ok fs => .ok (run s fs)
  | .prepareMerge job t te m => prepareMerge s r i job t te m
  | .commitMerge .. => .error .unmodelled
  | .rollbackMerge => .ok s

/-- `applied_index_ = iter.index()`. -/
def Store.setApplied (s : Store) (r i : Nat) : Store :=
  { s with applied := fun j => if j = r then i else s.applied j }

/-- `StoreStateMachine::CatchUpApplyLog`, `store_state_machine.cc:240-301`. -/
def catchUp (src : Nat) : List (Entry × Nat) → Store → Except Stop Store
  | [], s => .ok s
  | (e, i) :: es, s =>
    if i ≤ s.applied src then catchUp src es s
    else
      match dispatch s src i e.cmd with
      | .error x => .error x
      | .ok s' => catchUp src es (s'.setApplied src i)

/-- `GetRaftLogEntries`, `raft_apply_handler.cc:734-747`: the entries `lo..hi` of a log whose
first entry has index 1. -/
def window (log : List Entry) (lo hi : Nat) : List (Entry × Nat) :=
  (log.zipIdx 1).filter fun p => decide (lo ≤ p.2) && decide (p.2 ≤ hi)

/-- The new range of the target, `raft_apply_handler.cc:948-961`. -/
def mergedRange (source target : Range) : Range :=
  if source.stop = target.start then ⟨source.start, target.stop⟩ else ⟨target.start, source.stop⟩

/-- `Helper::GenMaxStartKey`, `common/helper.cc:1737`. -/
def maxStartKey : Bytes := List.replicate 9 255

/-- `CommitMergeHandler::Handle`, `raft_apply_handler.cc:886-1089`, for a region that is neither
a vector nor a document index. -/
def commitMerge (logs : Nat → List Entry) (s : Store) (tgt : Nat) (job : Int) (src : Nat) (sEpoch : Epoch)
    (sRange : Range) (lo hi : Nat) : Except Stop Store :=
  let s := s.on tgt (fun r => (r.setJob job).setDisabled true)
  match s.regs src with
  | none => .error .abort
  | some _ =>
    match catchUp src (window (logs src) lo hi) s with
    | .error e => .error e
    | .ok s =>
      match s.regs src, s.regs tgt with
      | some sr, some _ =>
        let s := s.on src (Reg.move .merging)
        let s := s.on tgt fun t => t.setRange (max sEpoch.version t.epoch.version + 1) (mergedRange sRange t.range)
        let s := s.on src fun r => r.bump ⟨maxStartKey, r.range.stop⟩
        let s := s.on tgt (Reg.raise sr.rawMax sr.accMax)
        let s := s.on src (Reg.move .tombstone)
        .ok (s.on tgt (Reg.setDisabled false))
      | _, _ => .error .abort

/-- The commands with their handlers. -/
def handle (logs : Nat → List Entry) (s : Store) (r i : Nat) : Cmd → Except Stop Store
  | .commitMerge job src se sr lo hi => commitMerge logs s r job src se sr lo hi
  | c => dispatch s r i c

/-- The states in which an entry is abandoned, `store_state_machine.cc:153-158`. -/
def abandons : RState → Bool
  | .deleting | .deleted | .merging | .orphan | .tombstone => true
  | _ => false

/-- `request.ts()`: only data commands carry one. -/
def Cmd.ts : Cmd → Int
  | .write _ _ ts => ts
  | _ => 0

/-- A merge loop whose target has not yet seen the job (`raft_apply_handler.cc:766-784`). -/
def Loop.active (s : Store) (l : Loop) : Bool :=
  match s.regs l.target with
  | some t => decide (t.job < l.job)
  | none => false

/-- The body of `StoreStateMachine::on_apply` for one entry, `store_state_machine.cc:113-237`:
`i` is the entry's index.  The apply thread is inside the merge loop while one is active. -/
def applyEntry (logs : Nat → List Entry) (s : Store) (r i : Nat) (e : Entry) : Except Stop Store :=
  if i ≤ s.applied r then .ok s
  else
    match s.regs r with
    | none => .error .blocked
    | some g =>
      if g.state = .standby then .error .blocked
      else if s.loops.any (fun l => l.source == r && l.active s) then .error .blocked
      else
        let s := if 0 < e.cmd.ts then s.on r (fun x => x.raise e.cmd.ts x.accMax) else s
        if abandons g.state || (e.epoch ≠ g.epoch) then .ok (s.setApplied r i)
        else
          match handle logs s r i e.cmd with
          | .error x => .error x
          | .ok s' => .ok (s'.setApplied r i)

/-- A crash and restart: the region records survive (every update is written,
`store_meta_manager.cc`), the in-memory timestamps and the running loops do not. -/
def Store.restart (s : Store) : Store :=
  { s with
    regs := fun j => (s.regs j).map fun r => { r with rawMax := 0, accMax := 0 }
    loops := [] }

/-- The store after a crash inside the handling of a split, `n` updates having been made, and
a restart; nothing if the split is not carried out. -/
def crashInSplit (s : Store) (p : Nat) (job : Int) (c : Nat) (key : Bytes) (version : Int) (post : Bool)
    (n : Nat) : Option Store :=
  match splitPlan s p job c key version post with
  | .ok fs => some (run s (fs.take n)).restart
  | .error _ => none

end Verif.Region
