/-!
# Vector queries: what is stored and how it is read (model)

Models the rows `VectorAdd`/`VectorDelete` write
(`src/handler/raft_apply_handler.cc:1115-1278`, `1374-1467`), the iterator and
reader over them (`src/mvcc/iterator.cc:29-166`, `src/mvcc/reader.cc:213-392`)
and the queries of `src/vector/vector_reader.cc`.

Simplifications, for the whole directory.  A stored key is a pair (vector id,
field): the bytes of keys, their order and ranges are C43, the iterator over
bytes is C06 and C07.  All regions of a store share the column families; all of
them belong to one partition here, and a region is a range of ids `[lo, hi)`
(`VectorCodec::DecodeRangeToVectorId`).  The names of scalar fields are numbers,
in the order of their bytes.  The numbers of a vector, of a scalar value and of
a distance are integers: a float that is not a number is not modelled.  A
protobuf that does not parse aborts; that does not happen to what was written by
the code.
-/

namespace Verif.VecQuery

/-! A vector id is an `Int` (`int64`). -/

/-- `pb::common::ScalarFieldType`, as listed in
`vector/vector_index_utils.cc:1258-1288`. -/
inductive FType where
  | none | bool | int8 | int16 | int32 | int64 | float32 | double | string | bytes | datetime
deriving DecidableEq, Repr

/-- `pb::common::ScalarValue`: its type and the fields of that type. -/
structure SVal where
  ftype : FType
  fields : List Int
deriving DecidableEq, Repr

/-- `pb::common::VectorScalardata`: a map from names to values. -/
abbrev Scalar := List (Nat × SVal)

/-- `pb::common::Vector`. -/
structure Vec where
  nums : List Int
deriving DecidableEq, Repr

/-- `pb::common::VectorTableData`: the bytes of a row. -/
structure Table where
  bytes : List Nat
deriving DecidableEq, Repr

/-- One vector of a `VectorAdd` request (`pb::common::VectorWithId`). -/
structure VecIn where
  id : Int
  vec : Vec
  scalar : Scalar
  table : Table
deriving DecidableEq, Repr

/-- `Helper::IsEqualVectorScalarValue`, `common/helper.cc:1580-1619`.  There is no
case for `DATETIME`: two such values are never equal. -/
def svalEq (a b : SVal) : Bool :=
  if a.ftype ≠ b.ftype then false
  else
    match a.ftype with
    | .bool | .int8 | .int16 | .int32 | .int64 | .float32 | .double | .string | .bytes =>
      decide (a.fields = b.fields)
    | .datetime | .none => false

/-- `VectorReader::ScalarCompareCore`, `vector/vector_reader.cc:1189-1203`, and the
loop of `CompareVectorScalarData`, `388-402`: every field asked for is there with
an equal value. -/
def scalarMatch (std internal : Scalar) : Bool :=
  std.all fun kv =>
    match internal.lookup kv.1 with
    | some v => svalEq kv.2 v
    | none => false

/-! ## Column families -/

/-- What a version says (`mvcc::ValueFlag`, `src/mvcc/codec.h`). -/
inductive Ver (α : Type) where
  | put (v : α)
  | putTTL (ttl : Int) (v : α)
  | del
deriving DecidableEq, Repr

/-- A key without its timestamp: the vector and, in the column family of single
scalar fields, the field (`0` elsewhere). -/
abbrev Key := Int × Nat

/-- Order of keys, `VectorCodec::PackageVectorKey`, `vector/codec.cc:44-75` (C43). -/
def Key.lt (a b : Key) : Prop := a.1 < b.1 ∨ (a.1 = b.1 ∧ a.2 < b.2)

instance (a b : Key) : Decidable (Key.lt a b) := by unfold Key.lt; infer_instance

/-- A stored row: key, timestamp, version. -/
structure Row (α : Type) where
  key : Key
  ts : Int
  ver : Ver α
deriving DecidableEq, Repr

/-- Order of rows: by key, the newest version first (`mvcc::Codec::EncodeKey`). -/
def Row.lt {α : Type} (a b : Row α) : Prop := Key.lt a.key b.key ∨ (a.key = b.key ∧ b.ts < a.ts)

instance {α : Type} (a b : Row α) : Decidable (Row.lt a b) := by unfold Row.lt; infer_instance

/-- A column family, ascending. -/
abbrev Cf (α : Type) := List (Row α)

/-- `rocksdb::DB::Put`: ordered insert, replacing a row of the same key and
timestamp. -/
def put {α : Type} (k : Key) (ts : Int) (v : Ver α) : Cf α → Cf α
  | [] => [⟨k, ts, v⟩]
  | r :: rs =>
    if Row.lt ⟨k, ts, v⟩ r then ⟨k, ts, v⟩ :: r :: rs
    else if k = r.key ∧ ts = r.ts then ⟨k, ts, v⟩ :: rs
    else r :: put k ts v rs

/-- Values whose serialised form may be empty. -/
class Blob (α : Type) where
  /-- the serialised value has no bytes -/
  empty : α → Bool

/-- A vector has a dimension and a value type. -/
instance : Blob Vec := ⟨fun _ => false⟩
/-- `VectorScalardata` without fields has no bytes. -/
instance : Blob Scalar := ⟨fun s => s.isEmpty⟩
/-- `VectorTableData` without contents has no bytes. -/
instance : Blob Table := ⟨fun t => t.bytes.isEmpty⟩
/-- The type of a stored field is that of the schema, never `NONE`. -/
instance : Blob SVal := ⟨fun _ => false⟩

/-- One stop of the loop `for (iter->Seek(..); iter->Valid(); iter->Next())`:
a row with its value, or the process aborts. -/
inductive Item (α : Type) where
  | row (k : Key) (v : α)
  | abort
deriving DecidableEq, Repr

/-- The stops of an MVCC iterator going forward over `rows`,
`Iterator::NextVisibleKey`, `mvcc/iterator.cc:91-120`; `prev` is
`prev_encode_key_`.  `GetValueTTL` aborts on a value with a TTL and no bytes
(`mvcc/codec.cc:379-387`). -/
def forward {α : Type} [Blob α] (ts now : Int) (prev : Option Key) : Cf α → List (Item α)
  | [] => []
  | r :: rest =>
    if some r.key = prev then forward ts now prev rest
    else if r.ts > ts then forward ts now prev rest
    else
      match r.ver with
      | .del => forward ts now (some r.key) rest
      | .putTTL ttl v =>
        if Blob.empty v then [.abort]
        else if ttl < now then forward ts now (some r.key) rest
        else .row r.key v :: forward ts now (some r.key) rest
      | .put v => .row r.key v :: forward ts now (some r.key) rest

/-- The body of the loop of `Iterator::PrevVisibleKey`, `mvcc/iterator.cc:140-161`,
for a row of the same key as the one held (`cur`, `prev_key`/`prev_value`):
what is held afterwards; `none`: abort. -/
def backStep {α : Type} [Blob α] (ts now : Int) (cur : Option (Key × α)) (r : Row α) :
    Option (Option (Key × α)) :=
  if r.ts > ts then some cur
  else
    match r.ver with
    | .del => some none
    | .putTTL ttl v =>
      if Blob.empty v then none
      else if ttl < now then some none
      else some (some (r.key, v))
    | .put v => some (some (r.key, v))

/-- The stops of an MVCC iterator going backward, `Iterator::PrevVisibleKey`,
`mvcc/iterator.cc:126-166`; the list is in the order the inner iterator visits.
When the key changes the row held is delivered, and the next call starts at the
row that has the other key with nothing held. -/
def backward {α : Type} [Blob α] (ts now : Int) (cur : Option (Key × α)) : List (Row α) → List (Item α)
  | [] =>
    match cur with
    | some c => [.row c.1 c.2]
    | none => []
  | r :: rest =>
    match cur with
    | some c =>
      if r.key = c.1 then
        match backStep ts now (some c) r with
        | some cur' => backward ts now cur' rest
        | none => [.abort]
      else
        .row c.1 c.2 ::
          (match backStep ts now none r with
          | some cur' => backward ts now cur' rest
          | none => [.abort])
    | none =>
      match backStep ts now none r with
      | some cur' => backward ts now cur' rest
      | none => [.abort]

/-- `ts > 0 ? ts : INT64_MAX`, `mvcc/reader.cc:224`, `391`. -/
def effTs (ts : Int) : Int := if ts > 0 then ts else 2 ^ 63 - 1

/-- Outcome of a point read. -/
inductive Get (α : Type) where
  | value (v : α)
  | notFound
  | abort
deriving DecidableEq, Repr

/-- `VectorReader::KvGet`, `mvcc/reader.cc:213-234`: the first stop of an iterator
over the rows of the key. -/
def kvGet {α : Type} [Blob α] (cf : Cf α) (now ts : Int) (k : Key) : Get α :=
  match forward (effTs ts) now none (cf.filter fun r => decide (r.key = k)) with
  | [] => .notFound
  | .row _ v :: _ => .value v
  | .abort :: _ => .abort

/-! ## What is written -/

/-- A field of the schema of a region (`pb::common::ScalarSchemaItem`). -/
structure Field where
  name : Nat
  ftype : FType
  speedUp : Bool
deriving DecidableEq, Repr

/-- The column families of vectors: `kVectorDataCF`, `kVectorScalarCF`,
`kVectorTableCF` and `kVectorScalarKeySpeedUpCF`. -/
structure Db where
  data : Cf Vec := []
  scalar : Cf Scalar := []
  table : Cf Table := []
  fast : Cf SVal := []
deriving DecidableEq, Repr

/-- The version a put writes, `raft_apply_handler.cc:1161-1165`. -/
def verOf {α : Type} (ttl : Int) (v : α) : Ver α := if ttl = 0 then .put v else .putTTL ttl v

/-- `VectorIndexUtils::SplitVectorScalarData`, `vector/vector_index_utils.cc:1325-1339`:
the fields of a vector that have their own rows. -/
def splitScalar (schema : List Field) (s : Scalar) : List (Nat × SVal) :=
  schema.filterMap fun f =>
    if f.speedUp then (s.lookup f.name).map (fun v => (f.name, v)) else none

/-- The rows of one vector, `VectorAddHandler::Handle`,
`raft_apply_handler.cc:1152-1253`. -/
def addOne (schema : List Field) (ts ttl : Int) (d : Db) (v : VecIn) : Db :=
  { data := put (v.id, 0) ts (verOf ttl v.vec) d.data
    scalar := put (v.id, 0) ts (verOf ttl v.scalar) d.scalar
    table := put (v.id, 0) ts (verOf ttl v.table) d.table
    fast := (splitScalar schema v.scalar).foldl (fun cf p => put (v.id, p.1) ts (verOf ttl p.2) cf) d.fast }

/-- The rows of one deleted id, `VectorDeleteHandler::Handle`,
`raft_apply_handler.cc:1411-1440`. -/
def delOne (schema : List Field) (ts : Int) (d : Db) (id : Int) : Db :=
  { data := put (id, 0) ts .del d.data
    scalar := put (id, 0) ts .del d.scalar
    table := put (id, 0) ts .del d.table
    fast := (schema.filter (·.speedUp)).foldl (fun cf f => put (id, f.name) ts .del cf) d.fast }

/-- A write: `VectorAdd` (timestamp, absolute time of expiry or 0, vectors) or
`VectorDelete`; `VectorImport` is one of the two
(`server/index_service.cc:1422-1467`). -/
inductive Op where
  | add (ts ttl : Int) (vs : List VecIn)
  | del (ts : Int) (ids : List Int)
deriving Repr

/-- Applying one write; it is atomic (one RocksDB batch). -/
def exec (schema : List Field) (d : Db) : Op → Db
  | .add ts ttl vs => vs.foldl (addOne schema ts ttl) d
  | .del ts ids => ids.foldl (delOne schema ts) d

/-- The rows after a history of writes, in the order of the log. -/
def run (schema : List Field) (ops : List Op) : Db := ops.foldl (exec schema) {}

/-- `VectorIndexUtils::ValidateVectorScalarData`,
`vector/vector_index_utils.cc:1296-1323`: called for every vector of a
`VectorAdd` (`server/index_service.cc:516-526`). -/
def validScalar (schema : List Field) (s : Scalar) : Bool :=
  schema.all fun f =>
    match s.lookup f.name with
    | some v => decide (f.ftype = v.ftype)
    | none => !f.speedUp

/-! ## Queries by id -/

/-- A region of vectors: its range of ids. -/
structure Region where
  lo : Int
  hi : Int
deriving DecidableEq, Repr

/-- The state a single read sees: the rows and the clock in milliseconds. -/
structure World where
  db : Db
  now : Int

/-- `VectorReader::QueryVectorWithId`, `vector/vector_reader.cc:80-101`. -/
def getVec (w : World) (ts : Int) (id : Int) : Get Vec := kvGet w.db.data w.now ts (id, 0)

/-- The read of `QueryVectorScalarData` and of `CompareVectorScalarData`,
`vector/vector_reader.cc:314-341`, `369-386`. -/
def getScalar (w : World) (ts : Int) (id : Int) : Get Scalar := kvGet w.db.scalar w.now ts (id, 0)

/-- The read of `QueryVectorTableData`, `vector/vector_reader.cc:271-287`. -/
def getTable (w : World) (ts : Int) (id : Int) : Get Table := kvGet w.db.table w.now ts (id, 0)

/-- An entry of a response, `pb::common::VectorWithId`: `none` in `id` is the
empty message (`ByteSizeLong() == 0`). -/
structure Entry where
  id : Option Int := none
  vec : Option Vec := none
  scalar : Option Scalar := none
  table : Option Table := none
deriving DecidableEq, Repr

/-- The reads of one query, each of which may see another state: opening the
iterator, the comparison of the `i`-th row, and the vector, scalar data and table
data of the `i`-th entry. -/
inductive Tick where
  | open
  | cmp (i : Nat)
  | vec (i : Nat)
  | scal (i : Nat)
  | tab (i : Nat)
deriving DecidableEq, Repr

/-- The states the reads of one query see. -/
abbrev Worlds := Tick → World

/-- What a query asks for besides the ids: the timestamp, whether it wants the
vector, the scalar data (and which fields; none: all) and the table data. -/
structure Want where
  ts : Int := 0
  vec : Bool := true
  scalar : Bool := true
  keys : List Nat := []
  table : Bool := true
deriving DecidableEq, Repr

/-- Outcome of a query. -/
inductive Out (α : Type) where
  | ok (a : α)
  | notFound
  | abort
deriving DecidableEq, Repr

/-- First loop, `vector/vector_reader.cc:470-481` and `547-558`: an entry is
pushed whatever the read returned. -/
def vecEntry (ws : Worlds) (w : Want) (i : Nat) (id : Int) : Option Entry :=
  match getVec (ws (.vec i)) w.ts id with
  | .value v => some { id := some id, vec := if w.vec then some v else none }
  | .notFound => some {}
  | .abort => none

/-- `selected_scalar_keys`, `vector/vector_reader.cc:331-338`. -/
def select (keys : List Nat) (s : Scalar) : Scalar :=
  if keys.isEmpty then s else s.filter fun p => keys.contains p.1

/-- Second loop, `vector/vector_reader.cc:483-496`: entries that are empty are left
alone, errors are logged. -/
def scalarEntry (ws : Worlds) (w : Want) (i : Nat) (e : Entry) : Option Entry :=
  if w.scalar then
    match e.id with
    | none => some e
    | some id =>
      match getScalar (ws (.scal i)) w.ts id with
      | .value s => some { e with scalar := some (select w.keys s) }
      | .notFound => some e
      | .abort => none
  else some e

/-- Third loop, `vector/vector_reader.cc:498-510`. -/
def tableEntry (ws : Worlds) (w : Want) (i : Nat) (e : Entry) : Option Entry :=
  if w.table then
    match e.id with
    | none => some e
    | some id =>
      match getTable (ws (.tab i)) w.ts id with
      | .value t => some { e with table := some t }
      | .notFound => some e
      | .abort => none
  else some e

/-- A loop over entries that may abort. -/
def loop {α β : Type} (f : Nat → α → Option β) : Nat → List α → Option (List β)
  | _, [] => some []
  | i, a :: as =>
    match f i a with
    | none => none
    | some b =>
      match loop f (i + 1) as with
      | none => none
      | some bs => some (b :: bs)

/-- `VectorReader::VectorBatchQuery`, `vector/vector_reader.cc:468-513`. -/
def batchQuery (ws : Worlds) (w : Want) (ids : List Int) : Out (List Entry) :=
  match loop (vecEntry ws w) 0 ids with
  | none => .abort
  | some es =>
    match loop (scalarEntry ws w) 0 es with
    | none => .abort
    | some es' =>
      match loop (tableEntry ws w) 0 es' with
      | none => .abort
      | some es'' => .ok es''

/-! ## Scans -/

/-- A `VectorScanQuery` request: first id, last id (0: none), direction, limit,
scalar filter. -/
structure ScanReq where
  start : Int
  stop : Int := 0
  reverse : Bool := false
  limit : Nat
  filter : Option Scalar := none
deriving DecidableEq, Repr

/-- The rows of the data column family an iterator of the region visits going
forward from `start`: bounded by the range of the region
(`vector/vector_reader.cc:736-751`). -/
def rowsFrom {α : Type} (g : Region) (start : Int) (cf : Cf α) : Cf α :=
  cf.filter fun r => decide (g.lo ≤ r.key.1 ∧ start ≤ r.key.1 ∧ r.key.1 < g.hi)

/-- The same going backward: `PrefixNext` of the key of `start` is behind all rows
of `start` and before those of the next id (`vector/vector_reader.cc:780-797`). -/
def rowsBack {α : Type} (g : Region) (start : Int) (cf : Cf α) : List (Row α) :=
  (cf.filter fun r => decide (g.lo ≤ r.key.1 ∧ r.key.1 ≤ start ∧ r.key.1 < g.hi)).reverse

/-- The loops of `VectorReader::ScanVectorId`, `vector/vector_reader.cc:751-778` and
`797-824`.  `past` is the test of the last id; `i` counts the rows visited, `acc`
holds the ids found, newest first.  `CHECK(vector_id > 0)` holds for the rows of
vectors that were added. -/
def scanLoop (ws : Worlds) (ts : Int) (past : Int → Bool) (limit : Nat) (filter : Option Scalar) :
    Nat → List Int → List (Item Vec) → Out (List Int)
  | _, acc, [] => .ok acc.reverse
  | _, _, .abort :: _ => .abort
  | i, acc, .row k _ :: rest =>
    if past k.1 then .ok acc.reverse
    else
      match filter with
      | none =>
        if acc.length + 1 ≥ limit then .ok (k.1 :: acc).reverse
        else scanLoop ws ts past limit filter (i + 1) (k.1 :: acc) rest
      | some want =>
        match getScalar (ws (.cmp i)) ts k.1 with
        | .abort => .abort
        | .notFound => .notFound
        | .value s =>
          if scalarMatch want s then
            if acc.length + 1 ≥ limit then .ok (k.1 :: acc).reverse
            else scanLoop ws ts past limit filter (i + 1) (k.1 :: acc) rest
          else scanLoop ws ts past limit filter (i + 1) acc rest

/-- `VectorReader::ScanVectorId`, `vector/vector_reader.cc:728-828`.
`PackageVectorKey` aborts on a negative id (`vector/codec.cc:47`). -/
def scanIds (ws : Worlds) (g : Region) (ts : Int) (q : ScanReq) : Out (List Int) :=
  if q.start < 0 then .abort
  else
    let w := ws .open
    if q.reverse then
      scanLoop ws ts (fun id => q.stop ≠ 0 && decide (id < q.stop)) q.limit q.filter 0 []
        (backward (effTs ts) w.now none (rowsBack g q.start w.db.data))
    else
      scanLoop ws ts (fun id => q.stop ≠ 0 && decide (id > q.stop)) q.limit q.filter 0 []
        (forward (effTs ts) w.now none (rowsFrom g q.start w.db.data))

/-- `VectorReader::VectorScanQuery`, `vector/vector_reader.cc:527-590`: the entries
of the ids found. -/
def scanQuery (ws : Worlds) (g : Region) (w : Want) (q : ScanReq) : Out (List Entry) :=
  match scanIds ws g w.ts q with
  | .ok ids => batchQuery ws w ids
  | .notFound => .notFound
  | .abort => .abort

/-- `ValidateVectorScanQueryRequest`, `server/index_service.cc:805-842`: the checks
of the request itself (`maxBatch` is `FLAGS_vector_max_batch_count`). -/
def scanAccepted (maxBatch : Nat) (ts : Int) (q : ScanReq) : Bool :=
  q.start ≠ 0 && q.limit ≠ 0 && decide (q.limit ≤ maxBatch) && decide (0 ≤ ts)

/-- `VectorReader::GetBorderId`, `vector/vector_reader.cc:677-699`, over `KvMinKey`
and `KvMaxKey` (`mvcc/reader.cc:334-388`): 0 if there is none. -/
def borderId (w : World) (g : Region) (ts : Int) (getMin : Bool) : Out Int :=
  let items :=
    if getMin then forward (effTs ts) w.now none (rowsFrom g g.lo w.db.data)
    else backward (effTs ts) w.now none (rowsBack g g.hi w.db.data)
  match items with
  | [] => .ok 0
  | .row k _ :: _ => .ok k.1
  | .abort :: _ => .abort

/-- `VectorReader::VectorCount`, `vector/vector_reader.cc:640-642`, over `KvCount`
(`mvcc/reader.cc:308-332`). -/
def countLoop : Nat → List (Item Vec) → Out Nat
  | n, [] => .ok n
  | _, .abort :: _ => .abort
  | n, .row _ _ :: rest => countLoop (n + 1) rest

/-- `VectorReader::VectorCount`. -/
def vectorCount (w : World) (g : Region) (ts : Int) : Out Nat :=
  countLoop 0 (forward (effTs ts) w.now none (rowsFrom g g.lo w.db.data))

/-- The key states of `Storage::VectorDelete`, `engine/storage.cc:510-519`: read
before the delete is proposed. -/
def deleteStates (w : World) (ids : List Int) : Option (List Bool) :=
  loop (fun _ id =>
    match getVec w 0 id with
    | .value _ => some true
    | .notFound => some false
    | .abort => none) 0 ids

/-! ## Scalar pre-filters -/

/-- The iterator of a whole region, `vector/vector_reader.cc:1215-1226`. -/
def regionRows {α : Type} (g : Region) (cf : Cf α) : Cf α := rowsFrom g g.lo cf

/-- `InternalVectorSearchForScalarPreFilterWithScalarCF`,
`vector/vector_reader.cc:1205-1243`: the ids whose scalar data satisfy `p`
(`ScalarCompareCore` or a coprocessor).  Reads the newest state. -/
def preScalar (p : Scalar → Bool) : List (Item Scalar) → Option (List Int)
  | [] => some []
  | .abort :: _ => none
  | .row k s :: rest =>
    match preScalar p rest with
    | none => none
    | some ids => some (if p s then k.1 :: ids else ids)

/-- `InternalVectorSearchForScalarPreFilterWithScalarKeySpeedUpCF`,
`vector/vector_reader.cc:1257-1321`: the rows of one vector follow each other; the
fields of `keys` are collected, and compared when the vector changes (`last` is
`last_vector_id`). -/
def preFast (p : Scalar → Bool) (keys : List Nat) :
    Option Int → Scalar → List (Item SVal) → Option (List Int)
  | last, cur, [] =>
    match last with
    | some l => some (if p cur then [l] else [])
    | none => some []
  | _, _, .abort :: _ => none
  | last, cur, .row k v :: rest =>
    let changed := last.isSome && last ≠ some k.1
    let cur0 : Scalar := if changed then [] else cur
    let cur1 : Scalar := if keys.contains k.2 then cur0 ++ [(k.2, v)] else cur0
    match preFast p keys (some k.1) cur1 rest with
    | none => none
    | some ids =>
      match last with
      | some l => some (if changed && p cur then l :: ids else ids)
      | none => some ids

/-- `VectorIndexUtils::IsNeedToScanKeySpeedUpCF`,
`vector/vector_index_utils.cc:1403-1444`: every field asked for has rows of its
own (an empty name is refused there; names are never empty here). -/
def useFast (schema : List Field) (std : Scalar) : Bool :=
  schema.any (·.speedUp) && !std.isEmpty &&
    std.all fun kv => schema.any fun f => f.speedUp && f.name == kv.1

/-- The ids of `DoVectorSearchForScalarPreFilter`, `vector/vector_reader.cc:853-964`,
without coprocessor; `none` in the option: abort.  An empty filter is refused
before (`884-888`). -/
def preFilterIds (schema : List Field) (g : Region) (w : World) (std : Scalar) : Option (List Int) :=
  if useFast schema std then
    preFast (scalarMatch std) (std.map (·.1)) none [] (forward (effTs 0) w.now none (regionRows g w.db.fast))
  else
    preScalar (scalarMatch std) (forward (effTs 0) w.now none (regionRows g w.db.scalar))

end Verif.VecQuery
