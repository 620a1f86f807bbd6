import Verif.RawBackup.Model
import Verif.Mvcc.Spec

/-!
# Backup and restore of a vector region without transactions (model)

The parts of `DoBackupDataCoreNonTxn`, `engine/txn_engine_helper.cc:6416-6593`, that are for index
regions, `GenScalarSpeedUpKeys`, `OptimizePreProcessVectorIndex`, `PreProcessVectorIndex` and
`RestoreNonTxnIndex`, `engine/txn_engine_helper.cc:7285-7694`, and the handlers that write vectors,
`handler/raft_apply_handler.cc:1130-1300`, `1380-1470`.

* The plain key of a vector (prefix, partition, id: `Verif.Codec.packageId`, C43) is any bytes
  here; the id is read off the key.
* A key of the speed-up family, `EncodeVectorKey(prefix, partition, id, field, ts)`, stands as the
  pair of the vector's stored key (id and timestamp) and the field; by C43 each determines the
  other.  In a backup no two stored keys are of the same vector, so the order of these keys (id,
  field, timestamp) is that of the pairs.
* Not modelled: the document index of scalar data (`WITH_VECTOR_INDEX_USE_DOCUMENT_SPEEDUP`), the
  abort for a key of another partition (`6527-6538`; the keys of a region are of its partition).
-/

namespace Verif.RawBackup
open Verif.Codec Verif.Mvcc Verif.Backup

/-- A key of the speed-up family. -/
abbrev SpeedKey := Bytes × Bytes

/-- The column families of a vector region.  Of the speed-up family only `KvGet` is used. -/
structure VStore where
  data : Store := []
  scalar : Store := []
  table : Store := []
  speed : SpeedKey → Option Bytes := fun _ => none

/-- `Reader::KvGet`. -/
def sget (st : Store) (k : Bytes) : Option Bytes := (st.find? (fun e => decide (e.1 = k))).map (·.2)

/-- What is written of a vector: plain key, timestamp, and in the four families. -/
structure VWrite where
  key : Bytes
  ts : Int
  vec : Ver
  scalar : Ver
  table : Ver
  speed : Bytes → Ver

/-- One vector of `VectorAddHandler`, `handler/raft_apply_handler.cc:1152-1224`, or one id of
`VectorDeleteHandler`, `1411-1440`.  (The families are apart, so it makes no difference that they
are written one after the other for all vectors of a request.) -/
def vput (fields : List Bytes) (st : VStore) (w : VWrite) : VStore :=
  let k := (Rec.enc ⟨w.key, w.ts, w.vec⟩).1
  { data := put st.data k w.vec.pkg
    scalar := put st.scalar k w.scalar.pkg
    table := put st.table k w.table.pkg
    speed := fun p => if p.1 = k ∧ p.2 ∈ fields then some (w.speed p.2).pkg else st.speed p }

/-- A vector to add: plain key, vector, scalar data, table data, and the values of the fields (the
request is refused if one is missing, `server/index_service.cc:511-524`). -/
structure VAdd where
  key : Bytes
  vec : Bytes
  scalar : Bytes
  table : Bytes
  field : Bytes → Bytes

inductive VOp where
  | add (ts ttl : Int) (vs : List VAdd)
  | delete (ts : Int) (keys : List Bytes)

/-- The flag and expiry of what is written, `handler/raft_apply_handler.cc:1161-1165`. -/
def addVer (ttl : Int) (v : Bytes) : Ver := if ttl = 0 then .put v else .putTTL ttl v

def VOp.writes : VOp → List VWrite
  | .add ts ttl vs => vs.map (fun v =>
      ⟨v.key, ts, addVer ttl v.vec, addVer ttl v.scalar, addVer ttl v.table, fun x => addVer ttl (v.field x)⟩)
  | .delete ts keys => keys.map (fun k => ⟨k, ts, .del, .del, .del, fun _ => .del⟩)

def vexec (fields : List Bytes) (st : VStore) (op : VOp) : VStore := op.writes.foldl (vput fields) st

/-! ## Backup -/

/-- A backup: `kv_default`, `kv_scalar`, `kv_table`, `kv_scalar_speedup`. -/
structure VFiles where
  data : List Entry := []
  scalar : List Entry := []
  table : List Entry := []
  speed : List (SpeedKey × Bytes) := []
deriving DecidableEq, Repr

/-- Order of the keys of the speed-up family. -/
def speedLt (p q : SpeedKey) : Bool := decide (p.1 < q.1) || (decide (p.1 = q.1) && decide (p.2 < q.2))

/-- `std::map::insert`. -/
def insSpeed (p : SpeedKey × Bytes) : List (SpeedKey × Bytes) → List (SpeedKey × Bytes)
  | [] => [p]
  | q :: l => if speedLt p.1 q.1 then p :: q :: l else if p.1 = q.1 then q :: l else q :: insSpeed p l

/-- `lambda_emplace_back_function`, `engine/txn_engine_helper.cc:6472-6508`, for the versions that
are taken: what the other families hold under the same key and timestamp. -/
def vecBackup (st : VStore) (fields : List Bytes) (tso : Int) (start stop : Bytes) : Option VFiles :=
  (rawBackup st.data tso start stop).map fun f =>
    { data := f
      scalar := f.filterMap (fun e => (sget st.scalar e.1).map (fun v => (e.1, v)))
      table := f.filterMap (fun e => (sget st.table e.1).map (fun v => (e.1, v)))
      speed := (f.flatMap (fun e => fields.filterMap (fun x =>
        (st.speed (e.1, x)).map (fun v => ((e.1, x), v))))).foldl (fun m p => insSpeed p m) [] }

/-! ## Restore -/

/-- A vector as the index is given it. -/
structure Vec where
  key : Bytes
  vec : Bytes
  scalar : Option Bytes
  table : Option Bytes
deriving DecidableEq, Repr

/-- Limits and formats. -/
structure VConf where
  maxSize : Nat
  maxCount : Nat
  parses : Bytes → Bool
  size : Vec → Nat

/-- `GenScalarSpeedUpKeys`, `engine/txn_engine_helper.cc:7285-7304`. -/
def genKeys : Option SpeedKey → List (SpeedKey × Bytes) → List Bytes
  | _, [] => []
  | prev, p :: l => if prev = some p.1 then genKeys (some p.1) l else p.1.1 :: genKeys (some p.1) l

/-- The value of a record that is not a deletion mark, parsed.  Outer `none`: abort. -/
def parsed (c : VConf) (b : Bytes) : Option (Option Bytes) :=
  match unPackageValueTTL b with
  | none => none
  | some (.delete, _, _) => some none
  | some (_, _, v) => if c.parses v then some (some v) else none

/-- One pass of `OptimizePreProcessVectorIndex` over scalar or table data,
`engine/txn_engine_helper.cc:7343-7376`: the `i`-th record belongs to the `i`-th vector. -/
def side (c : VConf) : List Bytes → List Entry → Option (List (Option Bytes))
  | _, [] => some []
  | [], _ :: _ => none
  | k :: ks, e :: es =>
    if e.1 ≠ k then none
    else match parsed c e.2, side c ks es with
      | some v, some vs => some (v :: vs)
      | _, _ => none

/-- `OptimizePreProcessVectorIndex`, `engine/txn_engine_helper.cc:7306-7396`: the vectors to add.
(The ids to delete are found as well and not used.)  `none`: abort. -/
def optimizePre (c : VConf) (f : VFiles) (keys : List Bytes) : Option (List Vec) :=
  match f.data.mapM (fun e => parsed c e.2) with
  | none => none
  | some vs =>
    match side c (f.data.map (·.1)) f.scalar, side c (f.data.map (·.1)) f.table with
    | some ss, some ts =>
      if keys <+: f.data.map (·.1) then
        some (((f.data.map (·.1)).zip (vs.zip (ss.zip ts))).filterMap (fun x =>
          x.2.1.map (fun v => ⟨x.1, v, x.2.2.1, x.2.2.2⟩)))
      else none
    | _, _ => none

/-- `scalar_map`, `table_map`, `engine/txn_engine_helper.cc:7415-7428`: unpacked values by key. -/
def unpacked (l : List Entry) : Option (List Entry) :=
  l.mapM (fun e => (unPackageValueTTL e.2).map (fun x => (e.1, x.2.2)))

/-- The loop of `PreProcessVectorIndex`, `engine/txn_engine_helper.cc:7436-7499`. -/
def preLoop (c : VConf) : List Entry → List Entry → List Entry → List Bytes → Option (List Vec)
  | [], sm, tm, ss => if sm = [] ∧ tm = [] ∧ ss = [] then some [] else none
  | e :: rest, sm, tm, ss =>
    let sm' := sm.filter (fun x => decide (x.1 ≠ e.1))
    let tm' := tm.filter (fun x => decide (x.1 ≠ e.1))
    let ss' := ss.filter (fun k => decide (k ≠ e.1))
    match parsed c e.2 with
    | none => none
    | some none => preLoop c rest sm' tm' ss'
    | some (some v) =>
      if (sget sm e.1).all c.parses && (sget tm e.1).all c.parses then
        (preLoop c rest sm' tm' ss').map (fun l => ⟨e.1, v, sget sm e.1, sget tm e.1⟩ :: l)
      else none

/-- `PreProcessVectorIndex`, `engine/txn_engine_helper.cc:7398-7502`. -/
def pre (c : VConf) (f : VFiles) (keys : List Bytes) : Option (List Vec) :=
  match unpacked f.scalar, unpacked f.table with
  | some sm, some tm => preLoop c f.data sm tm keys
  | _, _ => none

/-- A request of the restore. -/
inductive VReq where
  | vectors (l : List Vec)
  | data (l : List Entry)
  | scalar (l : List Entry)
  | table (l : List Entry)
  | speed (l : List (SpeedKey × Bytes))
deriving DecidableEq, Repr

/-- `RestoreNonTxnIndex`, `engine/txn_engine_helper.cc:7504-7694`: the vectors for the index, then
the families one after the other. -/
def vecRestore (c : VConf) (f : VFiles) (res : List WRes) : ROut × List VReq :=
  let keys := genKeys none f.speed
  let size := fun e : Entry => e.1.length + e.2.length
  let n := f.data.length
  let o := if n = f.scalar.length ∧ n = f.table.length ∧ (n = keys.length ∨ keys.length = 0) then optimizePre c f keys
    else pre c f keys
  match o with
  | none => (.fatal, [])
  | some vs =>
    sendAll .ok ((cut c.maxSize c.maxCount c.size 1 vs [] 0 0).map .vectors ++
      (cut c.maxSize c.maxCount size 1 f.data [] 0 0).map .data ++
      (cut c.maxSize c.maxCount size 1 f.scalar [] 0 0).map .scalar ++
      (cut c.maxSize c.maxCount size 1 f.table [] 0 0).map .table ++
      (cut c.maxSize c.maxCount (fun p => p.1.1.length + p.1.2.length + p.2.length) 1 f.speed [] 0 0).map .speed) res

/-- What a request brings, by family. -/
def VReq.vecs : VReq → List Vec
  | .vectors l => l
  | _ => []
def VReq.datas : VReq → List Entry
  | .data l => l
  | _ => []
def VReq.scalars : VReq → List Entry
  | .scalar l => l
  | _ => []
def VReq.tables : VReq → List Entry
  | .table l => l
  | _ => []
def VReq.speeds : VReq → List (SpeedKey × Bytes)
  | .speed l => l
  | _ => []

/-- Requests applied to a region, and the vectors its index was given
(`VectorBatchAddHandler`). -/
def applyV (rs : List VReq) (st : VStore) : VStore where
  data := batchPut st.data (rs.flatMap VReq.datas)
  scalar := batchPut st.scalar (rs.flatMap VReq.scalars)
  table := batchPut st.table (rs.flatMap VReq.tables)
  speed := (rs.flatMap VReq.speeds).foldl (fun m p k => if k = p.1 then some p.2 else m k) st.speed

end Verif.RawBackup
