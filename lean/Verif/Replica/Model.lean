import Verif.Replica.Spec

/-!
# The replicas of a region

Several stores hold a replica of one region each.  They apply the region's log, write down how far
they got only now and then, crash and start again, take snapshots, and are sent snapshots by others.

Files: src/raft/store_state_machine.cc, src/handler/raft_apply_handler.cc,
src/handler/raft_apply_handler_txn.cc, src/handler/raft_snapshot_handler.cc,
src/raft/dingo_filesystem_adaptor.cc, src/store/region_controller.cc.

braft is not part of the repository.  Assumed of it: the committed log is the same everywhere; a
replica that has started is given first the last snapshot in its storage, then the entries after that
snapshot; a snapshot is installed only if it is newer than what the replica has applied; a leader sends
log entries if it still has the one that comes next, else a snapshot.

Simplifications: writes are durable once made (the process crashes, not the machine); an entry holds
one request, as all that the engine proposes do; keys and ranges are those of the storage engine (the
encoding of ranges is C03); a split is one step (its inner steps are the model of C39) and merges are
left out (C40); a batch names each column family once (the handler keeps only the last group of a
family, raft_apply_handler_txn.cc:75-92).
-/

namespace Verif.Replica

abbrev Data := Key → Option Nat

/-- A snapshot that was sent: `last_included_index` of braft's meta data, `log_index`, version and range
of the file `snapshot_region.meta`, and a file for every column family; `none` if there is no file. -/
structure Snap where
  last : Nat
  index : Nat
  version : Int
  range : Range
  files : Nat → Option (Bytes → Option Nat)

/-- Where `LoadSnapshotDingo` stands. -/
inductive Pc where
  | check
  | wipe
  | ingest (todo : List Nat)
  | clean (todo : List Nat)
  | done
  deriving DecidableEq, Repr

inductive Phase where
  | down
  | up
  | load (pc : Pc)
  deriving DecidableEq, Repr

/-- A replica.  On disk: the store's data, the region's version and range, `kids` (the ranges of the
regions split off on this store), `saved` (the applied index written by `UpdateRaftMeta`), `base` (index
of the last snapshot), `inst` (that snapshot, if it was sent by another replica: a snapshot of the
replica's own has no files, raft_snapshot_handler.cc:472-484), and the log from `first` to `have`.  In
memory: `applied` is `applied_index_`.  `blank`, for the proofs only: the replica was added later and
has not been given any data yet. -/
structure Node where
  data : Data
  version : Int
  range : Range
  kids : List Range
  saved : Nat
  base : Nat
  inst : Option Snap
  first : Nat
  have' : Nat
  applied : Nat
  phase : Phase
  blank : Bool

structure Cluster where
  cfs : List Nat
  log : List Entry
  nodes : List Node
  sent : List Snap

/-- `KvPut`, `KvBatchPut` and `KvBatchPutAndDelete` one write after the other: puts first, then deletes,
src/engine/rocks_raw_engine.cc. -/
def set (d : Data) (k : Key) (v : Option Nat) : Data := fun x => if x = k then v else d x

/-- `KvDeleteRange`. -/
def wipeRange (d : Data) (cfs : List Nat) (r : Range) : Data :=
  fun k => if cfs.contains k.1 = true ∧ r.has k.2 = true then none else d k

/-- The handlers of data commands: `PutHandler` and `DeleteBatchHandler` (a delete of a raw key is a put
of a tombstone), `DeleteRangeHandler`, raft_apply_handler.cc:64-167, and
`HandleMultiCfPutAndDeleteRequest`, `HandleTxnDeleteRangeRequest`, raft_apply_handler_txn.cc:40-292. -/
def exec (d : Data) : Cmd → Data
  | .write puts dels =>
    let d := puts.foldl (fun d p => set d p.1 (some p.2)) d
    dels.foldl (fun d k => set d k none) d
  | .deleteRange cf rs => rs.foldl (fun d r => wipeRange d [cf] r) d
  | .txnDeleteRange r => wipeRange d txnCfs r
  | _ => d

/-- The position in the log up to which entries have been delivered: entries up to the snapshot are not
delivered, those up to `applied_index_` are skipped (store_state_machine.cc:116-118). -/
def Node.pos (b : Node) : Nat := max b.applied b.base

/-- One entry of `on_apply`, store_state_machine.cc:110-237.  `own` says that the entry comes with the
closure of the request, as it does on the store that took the request.  A delete range request
dereferences the closure's response first (raft_apply_handler_txn.cc:266), which ends the process on
every other replica.  A split with a key that is not inside ends it too (raft_apply_handler.cc:274-280).
-/
def applyEntry (b : Node) (e : Entry) (own : Bool) : Node :=
  let done := b.pos + 1
  if e.version ≠ b.version then { b with applied := done }
  else
    match e.cmd with
    | .split key =>
      if b.range.lo < key ∧ key < b.range.hi then
        { b with
          version := b.version + 1
          range := ⟨key, b.range.hi⟩
          kids := b.kids ++ [⟨b.range.lo, key⟩]
          applied := done }
      else { b with phase := .down }
    | .txnDeleteRange r =>
      if own then { b with data := exec b.data (.txnDeleteRange r), applied := done }
      else { b with phase := .down }
    | c => { b with data := exec b.data c, applied := done }

/-- What services let through (C41): keys and ranges inside the region, a split key strictly inside. -/
def valid (cfs : List Nat) (r : Range) : Cmd → Bool
  | .write puts dels =>
    puts.all (fun p => cfs.contains p.1.1 && r.has p.1.2) && dels.all (fun k => cfs.contains k.1 && r.has k.2)
  | .deleteRange cf rs => cfs.contains cf && rs.all (fun q => decide (r.lo ≤ q.lo) && decide (q.hi ≤ r.hi))
  | .txnDeleteRange q => txnCfs.all (fun c => cfs.contains c) && decide (r.lo ≤ q.lo) && decide (q.hi ≤ r.hi)
  | .split key => decide (r.lo < key) && decide (key < r.hi)
  | .other => true

/-- `MakeSnapshotContext` (store_state_machine.cc:303-320) and what `DingoDataReaderAdaptor::read` then
delivers: the iterator is made without bounds (dingo_filesystem_adaptor.cc:714-720) and the loop only
looks at the lower one (189-192), so a file holds all the store has from the start of the range on. -/
def openSnap (b : Node) : Snap :=
  ⟨b.base, b.applied, b.version, b.range,
    fun c => some (fun x => if b.range.lo ≤ x then b.data (c, x) else none)⟩

/-- One step of `on_snapshot_load`, store_state_machine.cc:361-428, with `LoadSnapshotDingo` and
`HandleRaftSnapshotRegionMeta`, raft_snapshot_handler.cc:187-235, 359-455.  Each step changes one thing
on disk.  A snapshot with a lower version is not loaded, but counted as applied all the same. -/
def loadStep (cfs : List Nat) (b : Node) (sn : Snap) : Pc → Node
  | .check =>
    if sn.version < b.version then { b with phase := .load .done }
    else if b.version < sn.version then
      { b with version := sn.version, range := sn.range, phase := .load .wipe }
    else { b with phase := .load .wipe }
  | .wipe => { b with data := wipeRange b.data cfs b.range, phase := .load (.ingest cfs) }
  | .ingest (c :: cs) =>
    match sn.files c with
    | none => { b with phase := .load (.ingest cs) }
    | some f =>
      { b with
        data := fun k => if k.1 = c then (match f k.2 with | some v => some v | none => b.data k) else b.data k
        phase := .load (.ingest cs) }
  | .ingest [] => { b with phase := .load (.clean cfs), blank := false }
  | .clean (c :: cs) =>
    { b with
      inst := some { sn with files := fun x => if x = c then none else sn.files x }
      phase := .load (.clean cs) }
  | .clean [] => { b with phase := .load .done }
  | .done => { b with applied := sn.last, saved := sn.last, phase := .up }

/-- A replica starts again: `applied_index_` is the one written last (store_state_machine.cc:55), and
braft hands the snapshot over once more; it is loaded if its `log_index` is above
(store_state_machine.cc:403). -/
def start (b : Node) : Node :=
  match b.phase with
  | .down =>
    match b.inst with
    | none => { b with applied := b.saved, phase := .up }
    | some sn =>
      if b.saved < sn.index then { b with applied := b.saved, phase := .load .check }
      else { b with applied := b.saved, phase := .up }
  | _ => b

inductive Ev where
  /-- Replica `a`, the leader, takes a request. -/
  | propose (a : Nat) (c : Cmd)
  /-- Replica `a` sends log entries to `b`. -/
  | ship (a b : Nat)
  | apply (b : Nat) (own : Bool)
  /-- `UpdateRaftMeta`, on every tenth entry and after a snapshot. -/
  | save (b : Nat)
  /-- A snapshot of the replica's own is finished. -/
  | snapshot (b : Nat)
  /-- Entries before `n` are dropped from the log of `b`; they are in its snapshot. -/
  | trim (b n : Nat)
  | crash (b : Nat)
  | start (b : Nat)
  /-- Replica `a` opens its snapshot to send it. -/
  | openSnap (a : Nat)
  /-- Replica `b` has got the `i`-th snapshot opened, and braft installs it. -/
  | install (b i : Nat)
  | load (b : Nat)
  /-- Another region of the store of `b` changes its data. -/
  | foreign (b : Nat) (k : Key) (v : Option Nat)
  /-- A replica is added on a store with the data `d`: it is created with the version and the range
  `a` has (coordinator_control_coor.cc:3282-3374, region_controller.cc:115-185). -/
  | join (a : Nat) (d : Data)

def Cluster.onNode (s : Cluster) (b : Nat) (f : Node → Node) : Cluster :=
  { s with nodes := s.nodes.modify b f }

def canInstall (b : Node) (sn : Snap) : Bool :=
  decide (b.phase = .up) && decide (b.applied ≤ sn.last) && decide (b.base < sn.last)

def installSnap (b : Node) (sn : Snap) : Node :=
  { b with
    inst := some sn
    base := sn.last
    first := sn.last
    have' := max b.have' sn.last
    phase := if b.applied < sn.index then .load .check else .up }

def step (s : Cluster) : Ev → Cluster
  | .propose a c =>
    match s.nodes[a]? with
    | none => s
    | some n =>
      if n.phase = .up ∧ n.have' = s.log.length ∧ valid s.cfs n.range c = true then
        { s with
          log := s.log ++ [⟨n.version, c⟩]
          nodes := s.nodes.set a { n with have' := s.log.length + 1 } }
      else s
  | .ship a b =>
    match s.nodes[a]?, s.nodes[b]? with
    | some n, some m =>
      if n.first ≤ m.have' ∧ m.have' < n.have' then
        { s with nodes := s.nodes.set b { m with have' := n.have' } }
      else s
    | _, _ => s
  | .apply b own =>
    match s.nodes[b]? with
    | none => s
    | some n =>
      if n.phase = .up ∧ n.pos < n.have' then
        match s.log[n.pos]? with
        | none => s
        | some e => { s with nodes := s.nodes.set b (applyEntry n e own) }
      else s
  | .save b =>
    s.onNode b fun n => if n.phase = .up then { n with saved := n.applied } else n
  | .snapshot b =>
    s.onNode b fun n =>
      if n.phase = .up ∧ n.base < n.applied then { n with base := n.applied, inst := none } else n
  | .trim b k => s.onNode b fun n => if n.first < k ∧ k ≤ n.base then { n with first := k } else n
  | .crash b => s.onNode b fun n => { n with phase := .down }
  | .start b => s.onNode b Verif.Replica.start
  | .openSnap a =>
    match s.nodes[a]? with
    | none => s
    | some n =>
      if n.phase = .up ∧ 0 < n.base then { s with sent := s.sent ++ [Verif.Replica.openSnap n] } else s
  | .install b i =>
    match s.nodes[b]?, s.sent[i]? with
    | some n, some sn =>
      if canInstall n sn = true then { s with nodes := s.nodes.set b (installSnap n sn) } else s
    | _, _ => s
  | .load b =>
    s.onNode b fun n =>
      match n.phase, n.inst with
      | .load pc, some sn => loadStep s.cfs n sn pc
      | _, _ => n
  | .foreign b k v =>
    s.onNode b fun n =>
      if s.cfs.contains k.1 = true ∧ n.range.has k.2 = true then n else { n with data := set n.data k v }
  | .join a d =>
    match s.nodes[a]? with
    | none => s
    | some n =>
      { s with
        nodes := s.nodes ++
          [⟨wipeRange d s.cfs n.range, n.version, n.range, [], 0, 0, none, 0, 0, 0, .up, true⟩] }

def run (s : Cluster) (evs : List Ev) : Cluster := evs.foldl step s

/-- A region just created, or split off, with the same data in its range on all its stores. -/
def init (cfs : List Nat) (v : View) (ds : List Data) : Cluster :=
  ⟨cfs, [], ds.map (fun d => ⟨d, v.version, v.range, [], 0, 0, none, 0, 0, 0, .up, false⟩), []⟩

end Verif.Replica
