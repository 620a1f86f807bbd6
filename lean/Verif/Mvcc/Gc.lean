import Verif.Mvcc.Model

/-!
# Garbage collection of raw versions (model)

`TxnEngineHelper::DoGcCoreNonTxn`, `engine/txn_engine_helper.cc:5104-5405`, for a store
or document region (one column family; the extra column families of an index region
are not modelled).
-/

namespace Verif.Mvcc
open Verif.Codec

/-- Loop variables of `DoGcCoreNonTxn` (`5168-5173`): `last_default_key`,
`is_exist_default_key_if_ts_gt_safe_point_ts` and
`is_first_put_key_if_ts_le_safe_point_ts`. -/
structure RawGcFlags where
  last : Bytes := []
  exist : Bool := false
  first : Bool := true
deriving DecidableEq, Repr

/-- Start of one turn, `engine/txn_engine_helper.cc:5243-5252`: the flags when the
iterator stands on a version of `key` written at `ts`. -/
def RawGcFlags.enter (g : RawGcFlags) (sp : Int) (key : Bytes) (ts : Int) : RawGcFlags :=
  if g.last ≠ key then
    if ts > sp then { last := key, exist := true, first := false }
    else { last := key, exist := false, first := true }
  else g

/-- One turn of the loop up to the batch check, `engine/txn_engine_helper.cc:5212-5310`.
`now` is `start_time_ms`, read once when the job starts.  Returns the flags and whether
the version is to be deleted.  `none`: abort (`DINGO_LOG(FATAL)`, `CHECK` in
`GetValueFlag` or `GetValueTTL`). -/
def rawGcEntry (sp now : Int) (g : RawGcFlags) (e : Entry) : Option (RawGcFlags × Bool) :=
  match decodeKey e.1 with
  | .ok (key, ts) =>
    let g := g.enter sp key ts
    if ts > sp then some (g, false)
    else match getValueFlag e.2 with
      | none => none
      | some .put =>
        if ¬ g.exist ∧ g.first then some ({ g with first := false, exist := true }, false)
        else some (g, true)
      | some .putTTL =>
        if ¬ g.exist ∧ g.first then
          match getValueTTL e.2 with
          | none => none
          | some ttl => some ({ g with first := false, exist := true }, ! decide (now ≤ ttl))
        else some (g, true)
      | some .delete =>
        some (if ¬ g.exist ∧ g.first then { g with first := false, exist := true } else g, true)
  | _ => none

/-- A write batch: stored keys to delete (`kv_deletes_default`). -/
abbrev RawGcBatch := List Bytes

/-- The batches of a job, in the order in which they are written, and whether the job
aborts the process after them. -/
structure RawGcPlan where
  batches : List RawGcBatch
  abort : Bool := false
deriving DecidableEq, Repr

/-- End of the job, `engine/txn_engine_helper.cc:5355-5384`. -/
def rawGcFinish (acc : RawGcBatch) (stops : List Bool) : RawGcPlan :=
  ⟨if stops.headD false then [] else [acc], false⟩

/-- Loop of `DoGcCoreNonTxn`, `engine/txn_engine_helper.cc:5212-5353`.  `n` is
`FLAGS_gc_delete_batch_count`; `stops` are the values of the stop flag each time it is
read (`5319`, `5357`), false afterwards.  The batch check is reached only after a
deletion. -/
def rawGcLoop (sp now : Int) (n : Nat) : List Entry → RawGcFlags → RawGcBatch → List Bool → RawGcPlan
  | [], _, acc, stops => rawGcFinish acc stops
  | e :: rest, g, acc, stops =>
    match rawGcEntry sp now g e with
    | none => ⟨[], true⟩
    | some (g, false) => rawGcLoop sp now n rest g acc stops
    | some (g, true) =>
      if n ≤ (acc ++ [e.1]).length then
        if stops.headD false then rawGcFinish (acc ++ [e.1]) stops.tail
        else
          let p := rawGcLoop sp now n rest g [] stops.tail
          ⟨(acc ++ [e.1]) :: p.batches, p.abort⟩
      else rawGcLoop sp now n rest g (acc ++ [e.1]) stops

/-- The versions `DoGcCoreNonTxn` iterates over, `engine/txn_engine_helper.cc:5148-5165`:
bounds `EncodeKey(start, kMaxVer)` and `EncodeKey(end, kMaxVer)`.  `EncodeKey` with
`kMaxVer` does not fail. -/
def rawGcEntries (st : Store) (start stop : Bytes) : List Entry :=
  match encodeKey start 9223372036854775807, encodeKey stop 9223372036854775807 with
  | some lo, some hi => seek st lo hi
  | _, _ => []

/-- `DoGcCoreNonTxn` on the snapshot `st`. -/
def rawGcPlan (st : Store) (sp now : Int) (n : Nat) (start stop : Bytes) (stops : List Bool) : RawGcPlan :=
  rawGcLoop sp now n (rawGcEntries st start stop) {} [] stops

/-- One batch applied: `RaftEngineWriteForNonTxnStoreAndDocumentGc` and the multi-cf
apply handler delete exactly these stored keys. -/
def RawGcBatch.apply (b : RawGcBatch) (st : Store) : Store := st.filter (fun e => ¬ e.1 ∈ b)

end Verif.Mvcc
