/-!
# Snapshots of vector indexes on disk

A vector index is saved to a directory named after the log entry it has applied; replicas send their
snapshots to each other; after a restart the newest snapshot is loaded and the log is applied from
there.  Saving lets the log be truncated.

Modelled: the end of `SaveVectorIndexSnapshot` and of `DownloadSnapshotFile` (from the second check
on; before, only temporary directories are written, which nothing reads),
`src/vector/vector_index_snapshot_manager.cc:464-498, 756-800`; `SnapshotMetaSet`,
`src/vector/vector_index_snapshot.cc:106-190`; `VectorIndexWrapper::Recover`,
`src/vector/vector_index.cc:417-448`; the checks of `LoadVectorIndexSnapshot`,
`src/vector/vector_index_snapshot_manager.cc:803-880`, on the log; the choice of
`PullLastSnapshotFromPeers`, lines 310-400.

Simplified: a directory is its log id and whether its meta file can be read; a removal of directories
is one step with the change of the set it belongs to (a directory half removed is one whose meta file
cannot be read); versions of regions are left out but for the choice of pulling.
-/

namespace Verif.VecSnap

/-- A snapshot directory: its log id and whether `Init` accepts it
(`src/vector/vector_index_snapshot.cc:39-80`). -/
abbrev Dir := Nat × Bool

/-- Where a save (`save`) or a download is: it has passed the second check; its directory has its
name; it is in the set and the log is to be truncated; over. -/
inductive Job where
  | ready (save : Bool) (id : Nat) (ok : Bool)
  | named (save : Bool) (id : Nat) (ok : Bool)
  | added (id : Nat)
  | done
  deriving DecidableEq, Repr

/-- Directories, the set in memory (`snapshots_`, ascending), the first log entry kept, the jobs. -/
structure St where
  disk : List Dir
  mem : List Nat
  first : Nat
  jobs : List Job
  deriving DecidableEq, Repr

/-- A new index with its whole log. -/
def St.init : St := ⟨[], [], 0, []⟩

/-- `IsExistSnapshot` (`src/vector/vector_index_snapshot.cc:158-165`): the last one is as new. -/
def exists_ (mem : List Nat) (id : Nat) : Bool :=
  match mem.getLast? with
  | none => false
  | some l => decide (id ≤ l)

/-- `AddSnapshot` (`src/vector/vector_index_snapshot.cc:121-135`): whatever else is in the set is
removed, also from the disk. -/
def add (disk : List Dir) (mem : List Nat) (id : Nat) : List Dir × List Nat :=
  if mem.contains id then (disk, mem)
  else (disk.filter fun d => !mem.contains d.1, [id])

/-- `Init`, then `AddSnapshot`: a directory that is not accepted is removed
(`src/vector/vector_index_snapshot.cc:65-72`). -/
def take (s : List Dir × List Nat) (d : Dir) : List Dir × List Nat :=
  if d.2 then add s.1 s.2 d.1 else (s.1.filter fun x => x.1 != d.1, s.2)

/-- Directories in the order of their names, which is that of the ids (`{:020}`): insertion, for
`std::sort` (`src/vector/vector_index_snapshot_manager.cc:128-142`). -/
def insert (d : Dir) : List Dir → List Dir
  | [] => [d]
  | e :: l => if d.1 ≤ e.1 then d :: e :: l else e :: insert d l

def sort : List Dir → List Dir
  | [] => []
  | d :: l => insert d (sort l)

/-- `Recover` (`src/vector/vector_index.cc:425-440`). -/
def recover (disk : List Dir) : List Dir × List Nat := (sort disk).foldl take (disk, [])

inductive Op where
  /-- the second check of a save or download, lines 466-472 and 756-764 -/
  | check (save : Bool) (id : Nat) (ok : Bool)
  /-- `Rename`, lines 476-485 and 767-774 (`src/common/helper.cc:1497-1530`,
  forced: what has the name is removed) -/
  | rename (i : Nat)
  /-- `Init` and `AddSnapshot`, lines 487-495 and 776-784 -/
  | add (i : Nat)
  /-- `TruncatePrefix`, lines 787-788; other users of the log may keep more -/
  | truncate (i keep : Nat)
  /-- the server stops anywhere and is started -/
  | restart
  deriving DecidableEq, Repr

/-- One step; a step that is not possible changes nothing.  A save has checked its result and meta
files (lines 716-751), so they can be read. -/
def step (s : St) : Op → St
  | .check save id ok =>
    if exists_ s.mem id then s else { s with jobs := s.jobs ++ [.ready save id (save || ok)] }
  | .rename i =>
    match s.jobs[i]? with
    | some (.ready save id ok) =>
      { s with disk := (s.disk.filter fun d => d.1 != id) ++ [(id, ok)],
               jobs := s.jobs.set i (.named save id ok) }
    | _ => s
  | .add i =>
    match s.jobs[i]? with
    | some (.named save id ok) =>
      let p := take (s.disk, s.mem) (id, ok)
      { s with disk := p.1, mem := p.2,
               jobs := s.jobs.set i (if save && ok && !s.mem.contains id then .added id else .done) }
    | _ => s
  | .truncate i keep =>
    match s.jobs[i]? with
    | some (.added id) => { s with first := max s.first (min keep id), jobs := s.jobs.set i .done }
    | _ => s
  | .restart =>
    let p := recover s.disk
    { s with disk := p.1, mem := p.2, jobs := [] }

def exec (s : St) (l : List Op) : St := l.foldl step s

/-- `LoadVectorIndexSnapshot` (lines 811-842): the last snapshot, if the log goes back to it and its
files are there. -/
def load (s : St) : Option Nat :=
  match s.mem.getLast? with
  | none => none
  | some id => if id < s.first then none else if s.disk.contains (id, true) then some id else none

/-- Whether `PullLastSnapshotFromPeers` pulls, a peer having a snapshot (lines 373-385): versions and
log ids of the last local snapshot, if any, and of the newest of the peers; the margin is
`kVectorIndexSnapshotCatchupMargin`. -/
def pulls (margin : Nat) (own : Option (Nat × Nat)) (peer : Nat × Nat) : Bool :=
  match own with
  | none => true
  | some (v, id) => !(decide (v > peer.1) || (decide (v = peer.1) && decide (id + margin < peer.2)))

end Verif.VecSnap
