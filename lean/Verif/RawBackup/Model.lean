import Verif.Mvcc.Gc
import Verif.Backup.Model

/-!
# Backup and restore of a region without transactions (model)

`TxnEngineHelper::DoBackupDataCoreNonTxn`, `RestoreNonTxnStore` and `RestoreNonTxnDocument`,
`engine/txn_engine_helper.cc:6416-6593` and `7155-7283`, on the stored bytes of
`Verif.Mvcc.Model`.  A backup file is the list of the records written to it, as in
`Verif.Backup.Model`.
-/

namespace Verif.RawBackup
open Verif.Codec Verif.Mvcc Verif.Backup

/-- Loop of `DoBackupDataCoreNonTxn`, `engine/txn_engine_helper.cc:6510-6579`; `last` is
`last_default_key`, `more` is `is_continue_scan_in_this_default_key`, `acc` is `kv_default`.
`none`: abort (`DINGO_LOG(FATAL)` for a key that does not decode, `CHECK` in `GetValueFlag`;
`GetValueFlag` gives one of the three flags, each of which is taken). -/
def rawLoop (tso : Int) : List Entry → Bytes → Bool → List Entry → Option (List Entry)
  | [], _, _, acc => some acc
  | e :: rest, last, more, acc =>
    match decodeKey e.1 with
    | .ok (key, ts) =>
      let more := if last ≠ key then true else more
      if ts > tso then rawLoop tso rest key more acc
      else if ¬ more then rawLoop tso rest key more acc
      else match getValueFlag e.2 with
        | none => none
        | some _ => rawLoop tso rest key false (acc ++ [e])
    | _ => none

/-- `DoBackupDataCoreNonTxn`, `engine/txn_engine_helper.cc:6416-6593`, for a store or document
region on the snapshot `st`.  The bounds (`6440-6442`) are those of `DoGcCoreNonTxn`. -/
def rawBackup (st : Store) (tso : Int) (start stop : Bytes) : Option (List Entry) :=
  rawLoop tso (rawGcEntries st start stop) [] false []

/-- Where the requests of a restore are cut, `engine/txn_engine_helper.cc:7174-7194` and
`7230-7272`: a record is taken up (`size` bytes, `items` items), the request is written if a
limit is passed, and what is left is written at the end.  In the code the writes are made in
this loop; where it cuts does not depend on their outcome. -/
def cut {α : Type} (maxSize maxCount : Nat) (size : α → Nat) (items : Nat) :
    List α → List α → Nat → Nat → List (List α)
  | [], req, _, _ => if req = [] then [] else [req]
  | e :: rest, req, sz, n =>
    if sz + size e > maxSize ∨ n + items > maxCount then
      (req ++ [e]) :: cut maxSize maxCount size items rest [] 0 0
    else cut maxSize maxCount size items rest (req ++ [e]) (sz + size e) (n + items)

/-- The writes, one after the other, `engine/txn_engine_helper.cc:7181-7190`, `7195-7204`: an
`EPERM` ends the restore, any other error is only remembered until the next write (`ret`).
The answer, and the requests that were applied. -/
def sendAll {α : Type} (ret : ROut) : List α → List WRes → ROut × List α
  | [], _ => (ret, [])
  | r :: rest, res =>
    match res.headD .ok with
    | .ok => let x := sendAll .ok rest res.tail; (x.1, r :: x.2)
    | .perm => (.notLeader, [])
    | .failed a => let x := sendAll .writeError rest res.tail; (x.1, if a then r :: x.2 else x.2)

/-- Limits and formats: as `Backup.Conf`. `parses` and `item` are of the unpacked value of a
document, `id` of the stored key. -/
structure RawConf where
  maxSize : Nat
  maxCount : Nat
  parses : Bytes → Bool
  item : Bytes → Nat
  id : Bytes → Nat

/-- `RestoreNonTxnStore`, `engine/txn_engine_helper.cc:7155-7205`.  A record is put as it is
(`PutHandler`). -/
def restoreStore (c : RawConf) (f : List Entry) (res : List WRes) : ROut × List (List Entry) :=
  sendAll .ok (cut c.maxSize c.maxCount (fun e => e.1.length + e.2.length) 1 f [] 0 0) res

/-- What `RestoreNonTxnDocument` gathers for one record, `engine/txn_engine_helper.cc:7231-7251`:
the record, and the document to add or the id to delete.  `none`: abort. -/
def document (c : RawConf) (e : Entry) : Option (Entry × (Bytes ⊕ Unit)) :=
  match unPackageValueTTL e.2 with
  | none => none
  | some (.delete, _, _) => some (e, .inr ())
  | some (_, _, v) => if c.parses v then some (e, .inl v) else none

/-- One request of `RestoreNonTxnDocument`: records, documents to add and ids to delete
(`send_kv_default`, `documents`, `delete_document_ids`). -/
structure DocReq where
  kvs : List Entry := []
  add : List (Nat × Bytes) := []
  del : List Nat := []
deriving DecidableEq, Repr

/-- `engine/txn_engine_helper.cc:7244-7251` for the records of one request. -/
def docReq (c : RawConf) (l : List (Entry × (Bytes ⊕ Unit))) : DocReq where
  kvs := l.map (·.1)
  add := l.filterMap (fun x => match x.2 with | .inl v => some (c.id x.1.1, v) | .inr _ => none)
  del := l.filterMap (fun x => match x.2 with | .inl _ => none | .inr _ => some (c.id x.1.1))

/-- `total_size` of one record, `engine/txn_engine_helper.cc:7246` and `7253-7254`. -/
def docSize (c : RawConf) (x : Entry × (Bytes ⊕ Unit)) : Nat :=
  (match x.2 with | .inl v => c.item v | .inr _ => 0) + x.1.1.length + x.1.2.length

/-- `RestoreNonTxnDocument`, `engine/txn_engine_helper.cc:7207-7283`: two items are counted for
every record.  A document that does not parse aborts the process (`7241-7243`); the requests
already written are not followed in that case. -/
def restoreDoc (c : RawConf) (f : List Entry) (res : List WRes) : ROut × List DocReq :=
  match f.mapM (document c) with
  | none => (.fatal, [])
  | some l => sendAll .ok ((cut c.maxSize c.maxCount (docSize c) 2 l [] 0 0).map (docReq c)) res

/-- Requests applied to the data of the region, one after the other. -/
def applyKvs (rs : List (List Entry)) (st : Store) : Store := rs.foldl batchPut st

/-- What `RestoreData` answers, `engine/txn_engine_helper.cc:7780-7892`: as in the transactional
case the status looked at after the restore (`7837`) is the one of opening the last file.
`none`: abort. -/
def answer (o : ROut) : Option Bool :=
  match o with
  | .fatal => none
  | _ => some true

end Verif.RawBackup
