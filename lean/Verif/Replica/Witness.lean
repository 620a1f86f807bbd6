import Verif.Replica.Props

/-!
# Cases of the theorems, and what goes wrong outside them

One column family; the region holds the keys from `[1]` up to `[9]`.
-/

namespace Verif.Replica

def v0 : View := ⟨1, ⟨[1], [9]⟩, fun _ => none⟩

def d0 : Data := fun _ => none

def put (k : UInt8) (x : Nat) : Cmd := .write [((0, [k]), x)] []

/-- Phase, position, version and values of some keys of a replica. -/
def look (s : Cluster) (i : Nat) (ks : List UInt8) : Option (Phase × Nat × Int × List (Option Nat)) :=
  (s.nodes[i]?).map fun b => (b.phase, b.pos, b.version, ks.map fun k => b.data (0, [k]))

/-- What the whole log says about some keys. -/
def says (v : View) (s : Cluster) (ks : List UInt8) : Nat × Int × List (Option Nat) :=
  (s.log.length, (v.after s.log).version, ks.map fun k => (v.after s.log).data (0, [k]))

def loads (b n : Nat) : List Ev := List.replicate n (.load b)

theorem sameStart0 : sameStart [0] v0 [d0, d0] := by
  intro d hd k _ _
  simp only [List.mem_cons, List.not_mem_nil, or_false, or_self] at hd
  subst hd; rfl

/-- Writes, a split, a replica that lags, crashes and starts again. -/
def runA : List Ev :=
  [.propose 0 (put 2 20), .propose 0 (put 6 60), .ship 0 1, .apply 0 true, .apply 0 true,
   .apply 1 false, .apply 1 false, .propose 0 (.split [5]), .propose 0 (put 6 61), .ship 0 1,
   .apply 1 false, .crash 1, .start 1, .apply 1 false, .apply 1 false, .apply 1 false, .apply 1 false]

example : okRun (init [0] v0 [d0, d0]) runA = true ∧
    look (run (init [0] v0 [d0, d0]) runA) 1 [2, 6] = some (.up, 4, 2, [some 20, some 60]) ∧
    says v0 (run (init [0] v0 [d0, d0]) runA) [2, 6] = (4, 2, [some 20, some 60]) := by decide +kernel

/-- A snapshot is sent to a replica that has nothing, with a crash in the middle of the load. -/
def runB : List Ev :=
  [.propose 0 (put 2 20), .propose 0 (put 3 30), .apply 0 true, .snapshot 0, .trim 0 1, .apply 0 true,
   .openSnap 0, .install 1 0] ++ loads 1 2 ++ [.crash 1, .start 1] ++ loads 1 7 ++ [.ship 0 1, .apply 1 false]

example : okRun (init [0] v0 [d0, d0]) runB = true ∧
    look (run (init [0] v0 [d0, d0]) runB) 1 [2, 3] = some (.up, 2, 1, [some 20, some 30]) ∧
    says v0 (run (init [0] v0 [d0, d0]) runB) [2, 3] = (2, 1, [some 20, some 30]) := by decide +kernel

/-- The load is going on. -/
example : (let s := run (init [0] v0 [d0, d0]) (runB.take 10)
    (s.nodes[1]?).map fun b => (b.phase, b.inst.isSome)) = some (.load (.ingest [0]), true) := by decide +kernel

/-- A split is about to be applied. -/
example : (let s := run (init [0] v0 [d0, d0]) (runA.take 10)
    (s.nodes[1]?).map fun b => (b.phase, b.pos, b.have', s.log[b.pos]?)) =
      some (.up, 2, 4, some ⟨1, .split [5]⟩) := by decide +kernel

/-- A replica added later gets a snapshot. -/
def runC : List Ev :=
  [.propose 0 (put 2 20), .apply 0 true, .snapshot 0, .join 0 d0, .openSnap 0, .install 2 0] ++ loads 2 7

example : okRun (init [0] v0 [d0, d0]) runC = true ∧
    look (run (init [0] v0 [d0, d0]) runC) 2 [2] = some (.up, 1, 1, [some 20]) := by decide +kernel

/-- **C67, false as it stands.**  The applied index on disk is set to the snapshot's
`last_included_index`, but a restart compares it with the snapshot's `log_index`: a replica that was
sent a snapshot and is started again loads it once more, without its files, and loses what it had. -/
def runRestart : List Ev :=
  [.propose 0 (put 2 20), .propose 0 (put 3 30), .apply 0 true, .snapshot 0, .trim 0 1, .apply 0 true,
   .openSnap 0, .install 1 0] ++ loads 1 7 ++ [.ship 0 1, .apply 1 false, .crash 1, .start 1] ++ loads 1 7 ++
  [.apply 1 false]

theorem C67_restart_false :
    look (run (init [0] v0 [d0, d0]) (runRestart.take 17)) 1 [2, 3] = some (.up, 2, 1, [some 20, some 30]) ∧
    look (run (init [0] v0 [d0, d0]) runRestart) 1 [2, 3] = some (.up, 2, 1, [none, some 30]) ∧
    says v0 (run (init [0] v0 [d0, d0]) runRestart) [2, 3] = (2, 1, [some 20, some 30]) := by
  refine ⟨?_, ?_, ?_⟩ <;> decide +kernel

/-- **C67, false as it stands.**  A crash after the files are removed and before the applied index is
written has the same effect. -/
def runCrash : List Ev :=
  [.propose 0 (put 2 20), .apply 0 true, .snapshot 0, .trim 0 1, .openSnap 0, .install 1 0] ++ loads 1 5 ++
  [.crash 1, .start 1] ++ loads 1 7

theorem C67_crash_false :
    look (run (init [0] v0 [d0, d0]) runCrash) 1 [2] = some (.up, 1, 1, [none]) ∧
    says v0 (run (init [0] v0 [d0, d0]) runCrash) [2] = (1, 1, [some 20]) := by decide +kernel

/-- A replica to which log entries are not enough any more, and that is sent a snapshot instead, would be
sent the lost data only with another snapshot: it has applied the log. -/
example : canInstall ((run (init [0] v0 [d0, d0]) runCrash).nodes[1]?.get (by decide +kernel))
    (openSnap ((run (init [0] v0 [d0, d0]) runCrash).nodes[0]?.get (by decide +kernel))) = false := by
  decide +kernel

/-- **C67, false as it stands.**  A snapshot holds all the sender's store has from the start of the range
on, also what belongs to other regions; the receiver's data of those are overwritten. -/
def runOthers : List Ev :=
  [.foreign 0 (0, [12]) (some 7), .foreign 1 (0, [12]) (some 9), .propose 0 (put 2 20), .apply 0 true,
   .snapshot 0, .trim 0 1, .openSnap 0, .install 1 0] ++ loads 1 7

theorem C67_others_false :
    okRun (init [0] v0 [d0, d0]) runOthers = true ∧ v0.range.has [12] = false ∧
    look (run (init [0] v0 [d0, d0]) (runOthers.take 8)) 1 [12] = some (.load .check, 1, 1, [some 9]) ∧
    look (run (init [0] v0 [d0, d0]) runOthers) 1 [2, 12] = some (.up, 1, 1, [some 20, some 7]) := by
  refine ⟨?_, ?_, ?_, ?_⟩ <;> decide +kernel

/-- **C67, false as it stands.**  A replica that is sent a snapshot from after a split never brings the
child to life on its store. -/
def runChild : List Ev :=
  [.propose 0 (put 2 20), .propose 0 (.split [5]), .apply 0 true, .apply 0 true, .snapshot 0, .trim 0 2,
   .openSnap 0, .install 1 0] ++ loads 1 7

theorem C67_child_false :
    okRun (init [0] v0 [d0, d0]) runChild = true ∧
    (run (init [0] v0 [d0, d0]) runChild).nodes.map (fun b => (b.phase, b.pos, b.version, b.kids)) =
      [(.up, 2, 2, [⟨[1], [5]⟩]), (.up, 2, 2, [])] := by
  decide +kernel

/-- **C67, false as it stands.**  A replica that was started again before its applied index was written
sends a snapshot with that lower `log_index`; the receiver, which is past it, does not load the snapshot,
but is not given the entries the snapshot covers either. -/
def runStale : List Ev :=
  [.propose 0 (put 2 20), .ship 0 1, .apply 1 false, .propose 0 (put 3 30), .apply 0 true, .apply 0 true,
   .snapshot 0, .trim 0 2, .crash 0, .start 0, .openSnap 0, .install 1 0, .propose 0 (put 4 40), .ship 0 1,
   .apply 1 false]

theorem C67_stale_false :
    look (run (init [0] v0 [d0, d0]) runStale) 1 [2, 3, 4] = some (.up, 3, 1, [some 20, none, some 40]) ∧
    says v0 (run (init [0] v0 [d0, d0]) runStale) [2, 3, 4] = (3, 1, [some 20, some 30, some 40]) := by
  decide +kernel

/-- **C67, false as it stands.**  A replica added with the region's new version, and sent a snapshot from
a replica that has not applied the split yet, drops the snapshot and counts it as applied. -/
def runOld : List Ev :=
  [.propose 0 (put 6 60), .ship 0 1, .apply 1 false, .snapshot 1, .propose 0 (.split [5]), .apply 0 true,
   .apply 0 true, .join 0 d0, .openSnap 1, .install 2 0] ++ loads 2 2 ++ [.ship 0 2, .apply 2 false]

theorem C67_old_false :
    look (run (init [0] v0 [d0, d0]) runOld) 2 [6] = some (.up, 2, 2, [none]) ∧
    says v0 (run (init [0] v0 [d0, d0]) runOld) [6] = (2, 2, [some 60]) := by decide +kernel

/-- **C48, false as it stands.**  A replica added after a split is created with the new version; sent the
log from its start, it skips what was written before the split. -/
def runJoin : List Ev :=
  [.propose 0 (put 6 60), .propose 0 (.split [5]), .apply 0 true, .apply 0 true, .join 0 d0, .ship 0 2,
   .apply 2 false, .apply 2 false]

theorem C48_new_peer_false :
    look (run (init [0] v0 [d0, d0]) runJoin) 2 [6] = some (.up, 2, 2, [none]) ∧
    look (run (init [0] v0 [d0, d0]) runJoin) 0 [6] = some (.up, 2, 2, [some 60]) ∧
    says v0 (run (init [0] v0 [d0, d0]) runJoin) [6] = (2, 2, [some 60]) := by
  refine ⟨?_, ?_, ?_⟩ <;> decide +kernel

/-- A delete range request without its closure ends the process, with nothing applied or written. -/
theorem C48_delete_range_kills (s : Cluster) (i : Nat) (b : Node) (r : Range) (hb : s.nodes[i]? = some b)
    (hup : b.phase = .up) (hlt : b.pos < b.have')
    (he : s.log[b.pos]? = some ⟨b.version, .txnDeleteRange r⟩) :
    (step s (.apply i false)).nodes[i]? = some { b with phase := .down } := by
  unfold step
  dsimp only
  rw [hb]
  dsimp only
  rw [if_pos ⟨hup, hlt⟩, he]
  dsimp only
  rw [List.getElem?_set_self (List.getElem?_eq_some_iff.1 hb).1]
  unfold applyEntry
  dsimp only
  rw [if_neg (by simp), if_neg (by simp)]

/-- **C48, false as it stands.**  After a delete range request of a transaction, the other replicas end,
and end again each time they are started. -/
def runDel : List Ev :=
  [.propose 0 (put 3 20), .propose 0 (.txnDeleteRange ⟨[2], [4]⟩), .ship 0 1, .apply 0 true, .apply 0 true,
   .apply 1 false, .apply 1 false]

def vT : View := ⟨1, ⟨[1], [9]⟩, fun _ => none⟩

theorem C48_delete_range_false :
    look (run (init [0, 3, 4, 5] vT [d0, d0]) runDel) 0 [3] = some (.up, 2, 1, [some 20]) ∧
    look (run (init [0, 3, 4, 5] vT [d0, d0]) runDel) 1 [3] = some (.down, 1, 1, [some 20]) ∧
    look (run (init [0, 3, 4, 5] vT [d0, d0]) (runDel ++ [.start 1, .apply 1 false, .apply 1 false])) 1 [3] =
      some (.down, 1, 1, [some 20]) := by
  refine ⟨?_, ?_, ?_⟩ <;> decide +kernel

end Verif.Replica
