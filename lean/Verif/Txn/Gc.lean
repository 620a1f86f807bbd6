import Verif.Txn.Model

/-!
# Garbage collection of transaction records (model)

`TxnEngineHelper::DoGcCoreTxn`, `engine/txn_engine_helper.cc:4846-5102`, and
`DoFinalWorkForTxnGc`, `5770-5815`.
-/

namespace Verif.Txn
open Verif.Codec

/-- One record to delete: an entry of `kv_deletes_write` and, if its value is stored
separately, the entry of `kv_deletes_data` that goes with it (the code keeps two
vectors, filled in the same turn of the loop). -/
structure GcItem where
  wkey : VKey
  data : Option VKey
deriving DecidableEq, Repr

/-- The two deletions as counted by `gc_delete_batch_count`. -/
def GcItem.size (i : GcItem) : Nat := if i.data.isSome then 2 else 1

/-- A write batch; `RaftEngineWriteForTxnGc`, `engine/txn_engine_helper.cc:5560-5615`,
proposes it as one raft entry. -/
abbrev GcBatch := List GcItem

def GcBatch.size (b : GcBatch) : Nat := (b.map GcItem.size).sum

/-- Loop variables of `DoGcCoreTxn` (`4892-4897`): `last_write_key`,
`is_exist_put_or_delete_key_if_write_ts_gt_safe_point_ts` and
`is_first_put_key_if_write_ts_le_safe_point_ts`. -/
structure GcFlags where
  last : Bytes := []
  exist : Bool := false
  first : Bool := true
deriving DecidableEq, Repr

/-- What one turn of the loop does with a record. -/
inductive GcDo where
  | skip    -- `continue`
  | ignore  -- unknown kind of record
  | del (i : GcItem)
deriving DecidableEq, Repr

/-- One turn of the loop up to the batch check, `engine/txn_engine_helper.cc:4928-5035`.
`data` is the data column family in the snapshot of the job. -/
def gcEntry (sp : Int) (data : CF VKey Bytes) (g : GcFlags) (e : VKey × WriteInfo) : GcFlags × GcDo :=
  let g := if g.last ≠ e.1.key then { last := e.1.key, exist := false, first := true } else g
  if e.1.ts > sp then
    (if ¬ g.exist ∧ (e.2.op = .put ∨ e.2.op = .delete) then { g with exist := true } else g, .skip)
  else match e.2.op with
    | .put =>
      if ¬ g.exist ∧ g.first then ({ g with first := false }, .skip)
      else
        let dk : VKey := ⟨e.1.key, e.2.startTs⟩
        (g, .del ⟨e.1, if e.2.shortValue = [] ∧ (data.get dk).isSome then some dk else none⟩)
    | .delete => (if ¬ g.exist ∧ g.first then { g with first := false } else g, .del ⟨e.1, none⟩)
    | .rollback => (g, .del ⟨e.1, none⟩)
    | _ => (g, .ignore)

/-- End of the job, `engine/txn_engine_helper.cc:5063-5084`: the last batch is written
unless the stop flag is found set. -/
def gcFinish (acc : GcBatch) (stops : List Bool) : List GcBatch := if stops.headD false then [] else [acc]

/-- Loop of `DoGcCoreTxn`, `engine/txn_engine_helper.cc:4899-5061`: the batches in the
order in which they are written.  `n` is `FLAGS_gc_delete_batch_count`; `stops` are
the values of the stop flag each time it is read (`5038`, `5065`), false afterwards. -/
def gcLoop (sp : Int) (n : Nat) (data : CF VKey Bytes) :
    List (VKey × WriteInfo) → GcFlags → GcBatch → List Bool → List GcBatch
  | [], _, acc, stops => gcFinish acc stops
  | e :: rest, g, acc, stops =>
    match gcEntry sp data g e with
    | (g, .skip) => gcLoop sp n data rest g acc stops
    | (g, act) =>
      let acc := match act with | .del i => acc ++ [i] | _ => acc
      if n ≤ acc.size then
        if stops.headD false then gcFinish acc stops.tail
        else acc :: gcLoop sp n data rest g [] stops.tail
      else gcLoop sp n data rest g acc stops

/-- The records `DoGcCoreTxn` iterates over (`4875-4889`): those of the region. -/
def gcRecords (st : State) (start stop : Bytes) : List (VKey × WriteInfo) :=
  (st.write.seek ⟨start, maxVer⟩).takeWhile (fun e => e.1 < ⟨stop, maxVer⟩)

/-- `DoGcCoreTxn` on the snapshot `st`. -/
def gcPlan (st : State) (sp : Int) (n : Nat) (start stop : Bytes) (stops : List Bool) : List GcBatch :=
  gcLoop sp n st.data (gcRecords st start stop) {} [] stops

/-- Apply one batch (`engine/txn_engine_helper.cc:5560-5615`, applied as one write
batch, `handler/raft_apply_handler_txn.cc`). -/
def GcBatch.apply (b : GcBatch) (st : State) : State :=
  { st with write := st.write.delAll (b.map (·.wkey)), data := st.data.delAll (b.filterMap (·.data)) }

end Verif.Txn
