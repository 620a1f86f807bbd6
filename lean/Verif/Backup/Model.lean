import Verif.Txn.Gc

/-!
# Backup and restore of a transactional region (model)

`TxnEngineHelper::BackupData` and `RestoreData`, `engine/txn_engine_helper.cc:6174-7153`
and `7714-7892`.

Simplifications:
* As in `Verif.Txn.Model`, records are keyed by decoded keys and messages parse back to
  themselves.
* A backup file is the list of the records written to it (`DoWriteSstFile`, `6775-6834`; a
  file without records is not written, which is the empty list here); files are read back
  as they were written.  Paths, checksums and errors of the file system are left out.
-/

namespace Verif.Backup
open Verif.Codec Verif.Txn

/-! ## Backup -/

/-- `kv_write` and `kv_data`, `engine/txn_engine_helper.cc:6197-6198`.  They are maps in
the code; no key is put into them twice. -/
structure Files where
  write : List (VKey × WriteInfo) := []
  data : List (VKey × Bytes) := []
deriving DecidableEq, Repr

/-- Outcome of `BackupData`: the files, or `EBACKUP_TXN_FOUND_LOCK` for a key. -/
inductive BackupOut where
  | ok (f : Files)
  | foundLock (k : Bytes)
deriving DecidableEq, Repr

/-- `DoWriteDataAndCheckForTxn`, `engine/txn_engine_helper.cc:6650-6706`: refused if the key
carries a lock of the very transaction that wrote the record; else the record is taken, with
its separate value if there is one. -/
def takeRecord (st : State) (f : Files) (e : VKey × WriteInfo) : Option Files :=
  match st.lock.get e.1.key with
  | some l =>
    if l.lockTs = e.2.startTs then none
    else some (addRecord f)
  | none => some (addRecord f)
where
  /-- Lines 6685-6704. -/
  addRecord (f : Files) : Files :=
    { write := f.write ++ [e]
      data := match st.data.get ⟨e.1.key, e.2.startTs⟩ with
        | some v => f.data ++ [(⟨e.1.key, e.2.startTs⟩, v)]
        | none => f.data }

/-- Loop of `DoBackupDataCoreTxn`, `engine/txn_engine_helper.cc:6314-6402`; `last` is
`last_write_key`, `more` is `is_continue_scan_in_this_write_key`. -/
def backupLoop (st : State) (tso : Int) :
    List (VKey × WriteInfo) → Bytes → Bool → Files → BackupOut
  | [], _, _, f => .ok f
  | e :: rest, last, more, f =>
    let more := if last ≠ e.1.key then true else more
    let last := e.1.key
    if e.1.ts > tso then backupLoop st tso rest last more f
    else if ¬ more then backupLoop st tso rest last more f
    else match e.2.op with
      | .put | .delete =>
        match takeRecord st f e with
        | some f => backupLoop st tso rest last false f
        | none => .foundLock e.1.key
      | _ => backupLoop st tso rest last more f

/-- `DoBackupDataCoreTxn`, `engine/txn_engine_helper.cc:6273-6414`, on the snapshot `st`: the
records between `EncodeKey(start, kMaxVer)` and `EncodeKey(end, kMaxVer)`. -/
def backup (st : State) (tso : Int) (start stop : Bytes) : BackupOut :=
  backupLoop st tso ((st.write.seek ⟨start, maxVer⟩).takeWhile (fun e => e.1 < ⟨stop, maxVer⟩)) [] false {}

/-! ## Restore -/

/-- What a region is to `RestoreTxn`, `engine/txn_engine_helper.cc:6966-7061`: a plain store
region, an index or document region that feeds a vector or document index, or one that does
not (an index region without vector parameters). -/
inductive Kind where
  | store
  | plainIndex
  | indexed
deriving DecidableEq, Repr

/-- Sizes and formats the restore depends on.  `maxSize` and `maxCount` are
`FLAGS_max_restore_data_memory_size` and `FLAGS_max_restore_count`; `key`, `write` and
`value` the sizes of what is put; `parses` whether a value parses as a vector or document,
`item` the size of the parsed message, `id` the id in a key (0: none). -/
structure Conf where
  maxSize : Nat
  maxCount : Nat
  key : VKey → Nat
  write : WriteInfo → Nat
  value : Bytes → Nat
  parses : Bytes → Bool
  item : Bytes → Nat
  id : Bytes → Nat

/-- A raft request of the restore: records for the two column families, and additions to and
deletions from the vector or document index.  An added item is the value itself, which holds
its id. -/
structure RReq where
  data : List (VKey × Bytes) := []
  write : List (VKey × WriteInfo) := []
  add : List Bytes := []
  del : List Nat := []
deriving DecidableEq, Repr

/-- What becomes of one `raft_engine->Write`: applied; answered with `EPERM`; answered with
another error (`ERAFT_NOTLEADER`, a lost proposal, …), possibly applied all the same. -/
inductive WRes where
  | ok
  | perm
  | failed (applied : Bool)
deriving DecidableEq, Repr

/-- Answer of `RestoreTxn`. -/
inductive ROut where
  | ok
  | notLeader     -- `ERAFT_NOTLEADER`
  | internal      -- `EINTERNAL`
  | writeError    -- the error of the last write
  | fatal         -- `DINGO_LOG(FATAL)`
deriving DecidableEq, Repr

/-- The request being filled, its size and number of items, the requests applied so far, and
the results of the writes still to come (`ok` when the list is used up). -/
structure RS where
  req : RReq := {}
  size : Nat := 0
  count : Nat := 0
  done : List RReq := []
  res : List WRes := []
deriving DecidableEq, Repr

/-- `raft_engine->Write` and what follows it, `engine/txn_engine_helper.cc:7064-7078`,
`7096-7108`, `7125-7137`: an error other than `EPERM` is not looked at, the request is
cleared.  An error carries what has been applied. -/
def flush (s : RS) : Except (ROut × List RReq) RS :=
  match s.res.headD .ok with
  | .ok => .ok { done := s.done ++ [s.req], res := s.res.tail }
  | .perm => .error (.notLeader, s.done)
  | .failed a => .ok { done := if a then s.done ++ [s.req] else s.done, res := s.res.tail }

/-- `flush` if the limits are passed (`7063`, `7095`, `7124`). -/
def flushIf (c : Conf) (s : RS) : Except (ROut × List RReq) RS :=
  if s.size > c.maxSize ∨ s.count > c.maxCount then flush s else .ok s

/-- The three loops of `RestoreTxn` have the same form: take up a record, then write the
request out if it has become large. -/
def loop {α : Type} (c : Conf) (put : RS → α → Except ROut RS) : List α → RS → Except (ROut × List RReq) RS
  | [], s => .ok s
  | e :: rest, s =>
    match put s e with
    | .error o => .error (o, s.done)
    | .ok s' =>
      match flushIf c s' with
      | .error x => .error x
      | .ok s'' => loop c put rest s''

/-- `GetDataValue`, `engine/txn_engine_helper.cc:6906-6925`. -/
def dataValue (f : Files) (e : VKey × WriteInfo) : Option Bytes :=
  if e.2.shortValue ≠ [] then some e.2.shortValue
  else CF.lastPut f.data ⟨e.1.key, e.2.startTs⟩

/-- One record of the loop for index and document regions,
`engine/txn_engine_helper.cc:6969-7061`. -/
def indexOne (c : Conf) (k : Kind) (f : Files) (s : RS) (e : VKey × WriteInfo) : Except ROut RS :=
  match dataValue f e with
  | none => .error .internal
  | some v =>
    match k with
    | .indexed =>
      match e.2.op with
      | .put =>
        if c.parses v then
          .ok { s with req := { s.req with add := s.req.add ++ [v] }, size := s.size + c.item v, count := s.count + 1 }
        else .error .internal
      | .delete =>
        if c.id e.1.key = 0 then .error .fatal
        else .ok { s with req := { s.req with del := s.req.del ++ [c.id e.1.key] }, count := s.count + 1 }
      | _ => .error .fatal
    | _ => .ok s

/-- One record of the loop over the data records, `engine/txn_engine_helper.cc:7087-7093`. -/
def putData (c : Conf) (s : RS) (e : VKey × Bytes) : Except ROut RS :=
  .ok { s with req := { s.req with data := s.req.data ++ [e] }
               size := s.size + c.key e.1 + c.value e.2
               count := s.count + 1 }

/-- One record of the loop over the write records, `engine/txn_engine_helper.cc:7116-7122`. -/
def putWrite (c : Conf) (s : RS) (e : VKey × WriteInfo) : Except ROut RS :=
  .ok { s with req := { s.req with write := s.req.write ++ [e] }
               size := s.size + c.key e.1 + c.write e.2
               count := s.count + 1 }

/-- The last write, `engine/txn_engine_helper.cc:7146-7152`. -/
def lastWrite (s : RS) : ROut × List RReq :=
  match s.res.headD .ok with
  | .ok => (.ok, s.done ++ [s.req])
  | .perm => (.notLeader, s.done)
  | .failed a => (.writeError, if a then s.done ++ [s.req] else s.done)

/-- `RestoreTxn`, `engine/txn_engine_helper.cc:6943-7153`: its answer, and the requests that
were applied, in order. -/
def restoreTxn (c : Conf) (k : Kind) (f : Files) (res : List WRes) : ROut × List RReq :=
  if f.data = [] ∧ f.write = [] then (.ok, [])
  else
    match (if k = .store then .ok { res := res } else loop c (indexOne c k f) f.write { res := res }) with
    | .error x => x
    | .ok s =>
      match loop c (putData c) f.data s with
      | .error x => x
      | .ok s =>
        match loop c (putWrite c) f.write s with
        | .error x => x
        | .ok s => lastWrite s

/-- Application of one request to the column families, `handler/raft_apply_handler_txn.cc:40-103`:
one atomic batch. -/
def RReq.apply (r : RReq) (st : State) : State := st.apply { putData := r.data, putWrite := r.write }

/-- All requests applied, one after the other. -/
def applyReqs (rs : List RReq) (st : State) : State := rs.foldl (fun st r => r.apply st) st

/-- `RestoreData` through `DoReadSstFileForTxn`, `engine/txn_engine_helper.cc:7714-7778` and
`7880-7892`: what the client is answered (`true`: success) and what was applied; `none` is an
abort of the process.  After `RestoreTxn` the status looked at (`7761`) is the one of opening
the last file, not `butil_status`. -/
def restoreData (c : Conf) (k : Kind) (f : Files) (res : List WRes) : Option Bool × List RReq :=
  if f.data = [] ∧ f.write = [] then (some true, [])
  else match restoreTxn c k f res with
    | (.fatal, d) => (none, d)
    | (_, d) => (some true, d)

end Verif.Backup
