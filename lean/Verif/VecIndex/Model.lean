import Verif.VecIndex.Kind

/-!
# The in-memory index of a vector region and the data it is for

One replica of one region.  The apply thread works off the raft log entry by entry: it writes the
data, then, if the region's index is ready, the index.  Background tasks build a new index from the
data or load one from a file, replay the log to it, and put it in place of the old one.  The two run
interleaved; `step` is one step of either.
-/

namespace Verif.VecIndex

/-- What a log entry asks for: `VECTOR_ADD` (src/handler/raft_apply_handler.cc:1115-1372),
`VECTOR_DELETE` (1374-1544), `VECTOR_BATCH_ADD` (1563-1880), a transaction's write that carries
vectors (src/handler/raft_apply_handler_txn.cc:105-175; its vectors are upserted, 135),
`REBUILD_VECTOR_INDEX` (src/handler/raft_apply_handler.cc:1546-1561), or anything that names no
vector. -/
inductive Cmd where
  | add (up : Bool) (vs : List (Nat × Nat))
  | del (ids : List Nat)
  | batch (up : Bool) (vs : List (Nat × Nat)) (ids : List Nat)
  | txn (vs : List (Nat × Nat)) (ids : List Nat)
  | rebuild
  | other
  deriving Repr, DecidableEq

/-- A log entry.  `valid` says whether the state machine applies it: an entry proposed under another
epoch of the region is skipped (src/raft/store_state_machine.cc:151-185).  All replicas decide the
same, so this is taken to be a property of the entry. -/
structure Entry where
  cmd : Cmd
  valid : Bool := true
  deriving Repr, DecidableEq

/-- How the apply thread decides whether a call into the index is made: `log` if the entry's id is
larger than the wrapper's (src/handler/raft_apply_handler.cc:1291, 1477, 1761); `always`, with
`INT64_MAX` for the entry's id (src/handler/raft_apply_handler_txn.cc:169); `same`, as for the call
before (src/handler/raft_apply_handler.cc:1799-1820). -/
inductive Chk where
  | log
  | always
  | same
  deriving Repr, DecidableEq

/-- The calls into the index an entry makes, in order.  Simplification: if the first call of a
transaction's entry fails, the leader leaves the second out
(src/handler/raft_apply_handler_txn.cc:138-141); here it is made. -/
def Cmd.calls : Cmd → List (Op × Chk)
  | .add up vs => [(.add up vs, .log)]
  | .del ids => if ids.isEmpty then [] else [(.del ids, .log)]
  | .batch up vs ids =>
    if vs.isEmpty then (if ids.isEmpty then [] else [(.del ids, .log)])
    else (.add up vs, .log) :: (if ids.isEmpty then [] else [(.del ids, .same)])
  | .txn vs ids =>
    if vs.isEmpty then (if ids.isEmpty then [] else [(.del ids, .log)])
    else (.add true vs, .log) :: (if ids.isEmpty then [] else [(.del ids, .always)])
  | .rebuild => []
  | .other => []

/-- The calls of an entry that is applied. -/
def Entry.calls (e : Entry) : List (Op × Chk) := if e.valid then e.cmd.calls else []

/-- What a call writes to the data: one version per id, the newest is the one read. -/
def Op.store (d : Content) : Op → Content
  | .add _ vs => vs.foldl addPoint d
  | .del ids => removeIds d ids

/-- The data after an entry: src/handler/raft_apply_handler.cc:1268-1278, 1459-1467, 1731-1740 and
src/handler/raft_apply_handler_txn.cc:60-103, one write batch. -/
def Entry.store (d : Content) (e : Entry) : Content := e.calls.foldl (fun d c => c.1.store d) d

/-- An index in memory: what it holds, and its own `apply_log_id` (src/vector/vector_index.h), which
only the tasks set. -/
structure Idx where
  content : Content
  applyLog : Nat
  deriving Repr, DecidableEq

/-- Where the apply thread is with the entry after `applied`.  The number is that of the call. -/
inductive Ph where
  /-- not in an entry -/
  | idle
  /-- the data is written; the next thing is to decide on the call; the flag is the last decision -/
  | at (p : Nat) (go : Bool)
  /-- waits until no index is being switched (src/vector/vector_index.cc:926-931, 973-978,
  1020-1025) -/
  | wait (p : Nat)
  /-- has seen that none is -/
  | passed (p : Nat)
  /-- holds the pointer to an index (933, 980, 1027) -/
  | got (p : Nat) (k : Nat)
  /-- the call has returned; the flag says `OK` -/
  | did (p : Nat) (ok : Bool)
  deriving Repr, DecidableEq

/-- Where a task is. -/
inductive TPh where
  /-- a new index, its `apply_log_id` set, the data not read
  (src/vector/vector_index_manager.cc:904-907) -/
  | fresh
  /-- has an index, replays the log to it (1186-1209) -/
  | rounds
  /-- has announced the switch (1216) -/
  | on
  /-- has replayed the last part (1220-1223) -/
  | last
  /-- has switched (1238) -/
  | swapped
  deriving Repr, DecidableEq

/-- A task that builds or loads an index. -/
structure Task where
  idx : Nat
  ph : TPh
  deriving Repr, DecidableEq

/-- The replica.
* `log`: the entries, entry `n` at position `n - 1`; committed entries only, none truncated;
* `data`, `dataLog`: what the store holds, one pair per id, and the largest entry written to it.  An
  entry written again after a restart writes the same versions with the same timestamps again and
  does not change what is read, so data only changes when a new entry is written;
* `applied`: `applied_index_` of the state machine, `disk`: the one in the stored meta;
* `ph`, `hot`: the apply thread; `hot` (not in the code) says that a call of the current entry has
  been made;
* `idxs`: all indexes in memory, by number; `own`: the region's index, `vector_index_`
  (src/vector/vector_index.h), `none` if not ready; `switching`: `is_switching_vector_index_`;
* `wapply`: the wrapper's `apply_log_id_`, `saved`: the one in its stored meta;
* `tasks`: the running tasks; `saving`: the index a task that saves holds
  (src/vector/vector_index_snapshot_manager.cc:505); `snap`: the newest file, here the last one saved
  (the code orders them by log id and ends a save early if it has one with that id, 541-544).
Shared and sibling indexes (after split and merge) are not part of this state. -/
structure St where
  log : List Entry := []
  data : Content := []
  dataLog : Nat := 0
  applied : Nat := 0
  disk : Nat := 0
  ph : Ph := .idle
  hot : Bool := false
  idxs : List Idx := []
  own : Option Nat := none
  switching : Bool := false
  wapply : Nat := 0
  saved : Nat := 0
  tasks : List Task := []
  saving : Option Nat := none
  snap : Option Idx := none
  deriving Repr, DecidableEq

/-- One step. -/
inductive Ev where
  /-- an entry is committed -/
  | commit (e : Entry)
  /-- the apply thread takes the next entry and writes the data -/
  | write
  /-- it decides on the next call -/
  | check
  /-- it looks whether an index is being switched -/
  | pass
  /-- it takes the pointer -/
  | take
  /-- it makes the call -/
  | call
  /-- it sets the wrapper's `apply_log_id_` -/
  | mark
  /-- it is done with the entry -/
  | done
  /-- a task starts to build, having read that `n` entries are applied -/
  | build (n : Nat)
  /-- task `t` fills its index from the data -/
  | fill (t : Nat)
  /-- a task loads the newest file -/
  | load
  /-- task `t` replays the log -/
  | replay (t : Nat)
  /-- task `t` announces the switch -/
  | on (t : Nat)
  /-- task `t` switches -/
  | swap (t : Nat)
  /-- task `t` ends the switch -/
  | off (t : Nat)
  /-- a task that saves takes the pointer -/
  | hold
  /-- it writes the file -/
  | save
  /-- the index is dropped -/
  | clear
  /-- the process ends and starts again -/
  | crash
  deriving Repr, DecidableEq

/-- The entry the apply thread is in or takes next. -/
def St.entry (s : St) : Option Entry := s.log[s.applied]?

/-- Its calls. -/
def St.calls (s : St) : List (Op × Chk) :=
  match s.entry with
  | some e => e.calls
  | none => []

/-- src/vector/vector_index_manager.cc:797-848, `ReplayWalToVectorIndex`: the calls made for a list of
entries.  Vectors are gathered until a delete comes or there are enough; deletes likewise.  An entry
is looked at whether or not it was applied, and only adds and deletes are. -/
def gather (n : Nat) : List Entry → List (Nat × Nat) → List Nat → List Op
  | [], vs, ids =>
    if !vs.isEmpty then [.add true vs] else if !ids.isEmpty then [.del ids] else []
  | e :: es, vs, ids =>
    match e.cmd with
    | .add _ ws =>
      let pre := if !ids.isEmpty then [Op.del ids] else []
      let vs' := vs ++ ws
      if n ≤ vs'.length then pre ++ .add true vs' :: gather n es [] []
      else pre ++ gather n es vs' []
    | .del js =>
      let pre := if !vs.isEmpty then [Op.add true vs] else []
      let ids' := ids ++ js
      if n ≤ ids'.length then pre ++ .del ids' :: gather n es [] []
      else pre ++ gather n es [] ids'
    | _ => gather n es vs ids

/-- The entries `a + 1, …, e - 1` of the log: `GetDataEntries(start, end)` stops before `end`
(src/log/rocks_log_storage.cc:1077-1121). -/
def span (log : List Entry) (a e : Nat) : List Entry := (log.take (e - 1)).drop a

/-- src/vector/vector_index_manager.cc:764-861: replay from the entry after the index's own
`apply_log_id` to the last one applied. -/
def replayTo (g : Cfg) (log : List Entry) (x : Idx) (e : Nat) : Idx :=
  if e ≤ x.applyLog + 1 then x
  else
    { content := (gather g.buildBatch (span log x.applyLog e) [] []).foldl
        (fun c o => (o.run g c).1) x.content
      applyLog := if span log x.applyLog e = [] then x.applyLog else x.applyLog + (span log x.applyLog e).length }

/-- src/vector/vector_index_manager.cc:942-1003: every pair of the data once, in batches. -/
def fillFrom (g : Cfg) (d : Content) : Content :=
  (pieces g.buildBatch d).foldl (fun c b => (addP g false c b).1) []

/-- One step of the replica.  An event that is not possible leaves the state as it is.
* `write`: src/raft/store_state_machine.cc:113-218; an entry that is not applied is passed over;
* `check`: src/handler/raft_apply_handler.cc:1287-1292, 1475-1478, 1757-1762;
* `pass`, `take`, `call`: src/vector/vector_index.cc:919-1054 (without sibling index);
* `mark`: src/handler/raft_apply_handler.cc:1311-1314, 1483-1486, 1783-1786, 1806-1809; with
  `INT64_MAX` nothing is set;
* `done`: src/raft/store_state_machine.cc:224-236; a rebuild entry sets and stores the wrapper's id
  (src/handler/raft_apply_handler.cc:1554), here in the same step;
* `build`, `fill`: src/vector/vector_index_manager.cc:864-1013; `known_applied_index` is at most the
  applied index;
* `load`: src/vector/vector_index_snapshot_manager.cc:800-887 (the log is not truncated, the epoch the
  same);
* `replay`, `on`, `off`: src/vector/vector_index_manager.cc:1149-1243;
* `swap`: src/vector/vector_index.cc:580-628, `UpdateVectorIndex`;
* `hold`, `save`: src/vector/vector_index_snapshot_manager.cc:501-552 and 767-790, then `SaveMeta`;
* `clear`: src/vector/vector_index.cc:630-639;
* `crash`: memory is lost; the wrapper's id comes from its stored meta
  (src/vector/vector_index.cc:492-520), the applied index from the stored one.  Data written is not
  lost. -/
def step (g : Cfg) (s : St) : Ev → St
  | .commit e => { s with log := s.log ++ [e] }
  | .write =>
    match s.ph, s.entry with
    | .idle, some e =>
      { s with
        ph := .at 0 false
        hot := false
        data := if s.dataLog ≤ s.applied then e.store s.data else s.data
        dataLog := max s.dataLog (s.applied + 1) }
    | _, _ => s
  | .check =>
    match s.ph with
    | .at p go =>
      match s.calls[p]? with
      | some (_, c) =>
        let ok := match c with
          | .log => s.own.isSome && decide (s.wapply < s.applied + 1)
          | .always => s.own.isSome
          | .same => go
        { s with ph := if ok then .wait p else .at (p + 1) ok }
      | none => s
    | _ => s
  | .pass =>
    match s.ph with
    | .wait p =>
      if s.own = none then { s with ph := .at (p + 1) true }
      else if s.switching then s
      else { s with ph := .passed p }
    | _ => s
  | .take =>
    match s.ph with
    | .passed p =>
      match s.own with
      | some k => { s with ph := .got p k }
      | none => { s with ph := .at (p + 1) true }
    | _ => s
  | .call =>
    match s.ph with
    | .got p k =>
      match s.calls[p]?, s.idxs[k]? with
      | some (o, _), some x =>
        let r := o.run g x.content
        { s with
          idxs := s.idxs.set k { x with content := r.1 }
          hot := true
          ph := .did p (r.2 == .ok) }
      | _, _ => s
    | _ => s
  | .mark =>
    match s.ph with
    | .did p ok =>
      match s.calls[p]? with
      | some (_, c) =>
        { s with
          ph := .at (p + 1) true
          wapply := if ok && c != .always then s.applied + 1 else s.wapply }
      | none => s
    | _ => s
  | .done =>
    match s.ph, s.entry with
    | .at p _, some e =>
      if p < s.calls.length then s
      else
        let isRebuild := e.valid && e.cmd == .rebuild
        { s with
          ph := .idle
          hot := false
          applied := s.applied + 1
          disk := if (s.applied + 1) % 10 = 0 then s.applied + 1 else s.disk
          wapply := if isRebuild then s.applied + 1 else s.wapply
          saved := if isRebuild then s.applied + 1 else s.saved }
    | _, _ => s
  | .build n =>
    if n ≤ s.applied then
      { s with
        idxs := s.idxs ++ [{ content := [], applyLog := n }]
        tasks := s.tasks ++ [{ idx := s.idxs.length, ph := .fresh }] }
    else s
  | .fill t =>
    match s.tasks[t]? with
    | some { idx := k, ph := .fresh } =>
      match s.idxs[k]? with
      | some x =>
        { s with
          idxs := s.idxs.set k { x with content := fillFrom g s.data }
          tasks := s.tasks.set t { idx := k, ph := .rounds } }
      | none => s
    | _ => s
  | .load =>
    match s.snap with
    | some x =>
      { s with
        idxs := s.idxs ++ [x]
        tasks := s.tasks ++ [{ idx := s.idxs.length, ph := .rounds }] }
    | none => s
  | .replay t =>
    match s.tasks[t]? with
    | some { idx := k, ph := .rounds } =>
      match s.idxs[k]? with
      | some x => { s with idxs := s.idxs.set k (replayTo g s.log x s.applied) }
      | none => s
    | some { idx := k, ph := .on } =>
      match s.idxs[k]? with
      | some x =>
        { s with
          idxs := s.idxs.set k (replayTo g s.log x s.applied)
          tasks := s.tasks.set t { idx := k, ph := .last } }
      | none => s
    | _ => s
  | .on t =>
    match s.tasks[t]? with
    | some { idx := k, ph := .rounds } =>
      match s.idxs[k]? with
      | some x =>
        if s.applied < x.applyLog + 1 + g.minGap then
          { s with switching := true, tasks := s.tasks.set t { idx := k, ph := .on } }
        else s
      | none => s
    | _ => s
  | .swap t =>
    match s.tasks[t]? with
    | some { idx := k, ph := .last } =>
      match s.idxs[k]? with
      | some x =>
        { s with
          own := some k
          wapply := max s.wapply x.applyLog
          saved := max s.wapply x.applyLog
          tasks := s.tasks.set t { idx := k, ph := .swapped } }
      | none => s
    | _ => s
  | .off t =>
    match s.tasks[t]? with
    | some { idx := _, ph := .swapped } => { s with switching := false, tasks := s.tasks.eraseIdx t }
    | _ => s
  | .hold => { s with saving := s.own }
  | .save =>
    match s.saving with
    | some k =>
      match s.idxs[k]? with
      | some x =>
        { s with
          saving := none
          snap := some { content := x.content, applyLog := s.wapply }
          saved := s.wapply }
      | none => s
    | none => s
  | .clear => { s with own := none }
  | .crash =>
    { s with
      applied := s.disk
      ph := .idle
      hot := false
      idxs := []
      own := none
      switching := false
      wapply := s.saved
      tasks := []
      saving := none }

/-- A run from the empty replica. -/
def run (g : Cfg) (evs : List Ev) : St := evs.foldl (step g) {}

end Verif.VecIndex
