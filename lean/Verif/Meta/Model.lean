/-
Model of the metadata of the coordinator: tenants, schemas, tables, indexes, the names under which
they are found and the ids they are given.

Source: /repo/src/coordinator/coordinator_control_meta.cc, coordinator_control_fsm.cc,
coordinator_control.cc, coordinator_meta_storage.h, /repo/src/server/meta_service.cc,
/repo/src/raft/meta_state_machine.cc.

A request runs on the coordinator that leads.  It checks the metadata applied so far, reserves or
frees names and takes ids in maps that only this coordinator has in memory ("temp" maps), and
writes its changes as one entry of the raft log.  The entry changes the metadata of every
coordinator when it is applied.  A coordinator that starts to lead rebuilds its temp maps from the
applied metadata.
-/
namespace Verif.Meta

/-! ## Maps -/

/-- The byte string of a name.  (protobuf `string` fields.) -/
abbrev Name := List UInt8

/-- `DingoSafeMap` (common/safe_map.h:36-480): a map under one lock.  The order of the entries of
the hash map is not specified; here it is the order of the last writes. -/
abbrev Map (α β : Type) := List (α × β)

/-- `DingoSafeMap::Get` (common/safe_map.h:50-62). -/
def get {α β : Type} [DecidableEq α] : Map α β → α → Option β
  | [], _ => none
  | (k, v) :: m, a => if k = a then some v else get m a

/-- `DingoSafeMap::Erase` (common/safe_map.h, `InnerErase`). -/
def erase {α β : Type} [DecidableEq α] (m : Map α β) (a : α) : Map α β := m.filter (fun p => p.1 ≠ a)

/-- `DingoSafeMap::Put` (common/safe_map.h, `InnerPut`). -/
def put {α β : Type} [DecidableEq α] (m : Map α β) (a : α) (b : β) : Map α β := (a, b) :: erase m a

/-! ## Metadata -/

/-- Tables and indexes are kept alike, in two maps (`table_map_`, `index_map_`). -/
inductive Kind where
  | table
  | index
  deriving DecidableEq, Repr

/-- `SchemaInternal`: name, tenant and the ids of the tables (`table_ids`) and of the indexes
(`index_ids`) in the schema.  The revision is not modelled. -/
structure Schema where
  name : Name
  tenant : Int
  ids : Kind → List Int

/-- `TableInternal`, used for tables and for indexes: schema, name, the table the index belongs to
(`table_id`; 0 for an index without a table, its own id for a table) and the rest of the
definition, which is not looked into. -/
structure Obj where
  schema : Int
  name : Name
  owner : Int
  defn : Nat
  deriving DecidableEq, Repr

/-- The metadata every coordinator holds (coordinator_control.h:1040-1130): the last ids given
(`id_epoch_map_`, for `ID_NEXT_SCHEMA` and `ID_NEXT_TABLE`), `tenant_map_`, `schema_map_`,
`table_map_` and `index_map_`, and the indexes of each table (`table_index_map_`). -/
structure Data where
  nextSchema : Int
  nextTable : Int
  tenants : List Int
  schemas : Map Int Schema
  objs : Kind → Map Int Obj
  tidx : Map Int (List Int)

/-- Replace the map of one kind. -/
def setObjs (d : Data) (k : Kind) (m : Map Int Obj) : Data :=
  { d with objs := fun k' => if k' = k then m else d.objs k' }

/-- Replace the id list of one kind. -/
def setIds (s : Schema) (k : Kind) (l : List Int) : Schema :=
  { s with ids := fun k' => if k' = k then l else s.ids k' }

/-! ## Entries of the log -/

/-- The writes of applying an entry, each of them one `Put` or `Erase` of the store
(coordinator_meta_storage.h:787-806 `Put`, :873-885 `Erase`, each writing memory and RocksDB). -/
inductive Write where
  /-- `tenant_meta_->Put` (fsm.cc:1239). -/
  | tenantPut (id : Int)
  /-- `tenant_meta_->Erase` (fsm.cc:1340). -/
  | tenantErase (id : Int)
  /-- `schema_meta_->Put` (fsm.cc:1373). -/
  | schemaPut (id : Int) (s : Schema)
  /-- `schema_meta_->Erase` (fsm.cc:1409). -/
  | schemaErase (id : Int)
  /-- `table_index_meta_->Put` (fsm.cc:1744). -/
  | tidxPut (t : Int) (l : List Int)
  /-- `table_index_meta_->Put` of an update (fsm.cc:1763-1798). -/
  | tidxAddDel (t : Int) (add del : List Int)
  /-- `table_index_meta_->Erase` (fsm.cc:1818). -/
  | tidxErase (t : Int)
  /-- `index_meta_->Put` / `table_meta_->Put` (fsm.cc:1853, :1990). -/
  | objPut (k : Kind) (id : Int) (r : Obj)
  /-- The id is added to its schema (fsm.cc:1862-1881, :1999-2017). -/
  | schemaAdd (k : Kind) (sid id : Int)
  /-- The definition is replaced (fsm.cc:1895-1911, :2031-2048). -/
  | objUpdate (k : Kind) (id : Int) (name : Name) (defn : Nat)
  /-- The id is taken out of its schema (fsm.cc:1925-1953, :2062-2092). -/
  | schemaDel (k : Kind) (sid id : Int)
  /-- `index_meta_->Erase` / `table_meta_->Erase` (fsm.cc:1955, :2095). -/
  | objErase (k : Kind) (id : Int)
  /-- The last id given (`UpdatePresentId`, coordinator_meta_storage.h:205-222; fsm.cc:1068-1106).
  In the code it is set in memory first and written to RocksDB last, with the applied index
  (fsm.cc:2582-2594); here it is one write, the last. -/
  | nextSchema (v : Int)
  | nextTable (v : Int)

/-- Apply one write.  `none`: the process ends (`DINGO_LOG(FATAL)`, or a failed `CHECK`). -/
def Write.exec (d : Data) : Write → Option Data
  | .tenantPut id => if id = 0 then none else some { d with tenants := id :: d.tenants.filter (· ≠ id) }
  | .tenantErase id => some { d with tenants := d.tenants.filter (· ≠ id) }
  | .schemaPut id s => if id = 0 then none else some { d with schemas := put d.schemas id s }
  | .schemaErase id => some { d with schemas := erase d.schemas id }
  | .tidxPut t l => if t = 0 then none else some { d with tidx := put d.tidx t l }
  | .tidxAddDel t add del =>
    match get d.tidx t with
    | none => some d
    | some l =>
      -- a `std::map` by id in the code: no id twice, sorted; the order is not modelled
      some { d with tidx := put d.tidx t ((l ++ add.filter (· ∉ l)).filter (· ∉ del)) }
  | .tidxErase t => some { d with tidx := erase d.tidx t }
  | .objPut k id r => if id = 0 then none else some (setObjs d k (put (d.objs k) id r))
  | .schemaAdd k sid id =>
    match get d.schemas sid with
    | some s => if sid = 0 then none else
        some { d with schemas := put d.schemas sid (setIds s k (s.ids k ++ [id])) }
    | none => none
  | .objUpdate k id name defn =>
    match get (d.objs k) id with
    | some r => some (setObjs d k (put (d.objs k) id { r with name := name, defn := defn }))
    | none => some d
  | .schemaDel k sid id =>
    match get d.schemas sid with
    | some s => if sid = 0 then none else
        some { d with schemas := put d.schemas sid (setIds s k ((s.ids k).filter (· ≠ id))) }
    | none => none
  | .objErase k id => some (setObjs d k (erase (d.objs k) id))
  | .nextSchema v => some { d with nextSchema := max d.nextSchema v }
  | .nextTable v => some { d with nextTable := max d.nextTable v }

/-- The changes of a table or of an index in an entry (`MetaIncrementTable`, `MetaIncrementIndex`). -/
inductive ObjOp where
  | create (id : Int) (r : Obj)
  | update (id : Int) (name : Name) (defn : Nat)
  | delete (id : Int) (schema : Int)
  deriving DecidableEq, Repr

/-- The writes of one change, in the order of the code: fsm.cc:1852-1961 (indexes), :1989-2101
(tables). -/
def ObjOp.writes (k : Kind) : ObjOp → List Write
  | .create id r => [.objPut k id r, .schemaAdd k r.schema id]
  | .update id name defn => [.objUpdate k id name defn]
  | .delete id sid => [.schemaDel k sid id, .objErase k id]

/-- `MetaIncrement`, as far as it is about tenants, schemas, tables and indexes: the changes, and
the ids taken (`idepochs`). -/
structure Incr where
  heads : List Write := []
  indexes : List ObjOp := []
  tables : List ObjOp := []
  ids : List Write := []

/-- The changes of one kind. -/
def Incr.ops (i : Incr) : Kind → List ObjOp
  | .table => i.tables
  | .index => i.indexes

/-- The writes of an entry in the order of `ApplyMetaIncrement` (fsm.cc:1024-2603): tenants,
schemas and the indexes of tables (`heads`, in this order), indexes, tables, and last the ids. -/
def Incr.writes (i : Incr) : List Write :=
  i.heads ++ i.indexes.flatMap (ObjOp.writes .index) ++ i.tables.flatMap (ObjOp.writes .table) ++ i.ids

/-- Run writes. -/
def execAll (d : Data) : List Write → Option Data
  | [] => some d
  | w :: ws => match w.exec d with
    | some d' => execAll d' ws
    | none => none

/-- `ApplyMetaIncrement`. -/
def applyIncr (d : Data) (i : Incr) : Option Data := execAll d i.writes

/-! ## The maps of the leader -/

/-- `id_epoch_map_safe_temp_`, `schema_name_map_safe_temp_`, `table_name_map_safe_temp_` and
`index_name_map_safe_temp_` (coordinator_control.h:1049, :1070, :1105).  The names are stored under
the tenant or the schema followed by the name (helper.cc:897-907, eight bytes and the name, so two
pairs never share a key). -/
structure Temp where
  nextSchema : Option Int
  nextTable : Option Int
  schemaNames : Map (Int × Name) Int
  names : Kind → Map (Int × Name) Int

/-- A new process has empty maps (coordinator_control.cc:95-115). -/
def Temp.empty : Temp := ⟨none, none, [], fun _ => []⟩

/-- Replace the names of one kind. -/
def setNames (t : Temp) (k : Kind) (m : Map (Int × Name) Int) : Temp :=
  { t with names := fun k' => if k' = k then m else t.names k' }

/-- `BuildTempMaps` (fsm.cc:65-127). -/
def build (d : Data) : Temp where
  nextSchema := some d.nextSchema
  nextTable := some d.nextTable
  schemaNames := d.schemas.foldl (fun m p => put m (p.2.tenant, p.2.name) p.1) []
  names := fun k => (d.objs k).foldl (fun m p => put m (p.2.schema, p.2.name) p.1) []

/-- The last id given before the next one (`InnerGetNextId`, `InnerGetNextIds`,
coordinator_meta_storage.h:141-200): 1000 if the map has none. -/
def last : Option Int → Int
  | none => 1000
  | some v => v

/-- `count` ids after `v` (coordinator_meta_storage.h:178-195). -/
def idsAfter (v : Int) (count : Nat) : List Int := (List.range count).map (fun (i : Nat) => v + (i : Int) + 1)

/-! ## Requests -/

inductive Err where
  | illegal            -- EILLEGAL_PARAMTETERS
  | schemaExists
  | schemaNotFound
  | schemaNotEmpty
  | tableExists
  | tableNotFound
  | indexExists
  | indexNotFound
  | compat             -- EINDEX_COMPATIBILITY
  | internal           -- EINTERNAL
  | other (code : Nat) -- the refusals of the checks that are not modelled
  deriving DecidableEq, Repr

/-- What a request answers when its entry has been applied. -/
inductive Resp where
  | ok
  | ids (l : List Int)       -- new ids for tables, indexes and parts
  | made (l : List Int)      -- the ids the caller gave to what it created
  | schema (id : Int)
  deriving DecidableEq, Repr

/-- A table or an index to create.  `early` and `late` are refusals of checks that are not
modelled: those made before the name is reserved (limits, partitions, the definition) and those
made after (auto increment, engine, stores, regions). -/
structure New where
  id : Int
  name : Name
  defn : Nat
  early : Option Nat := none
  late : Option Nat := none
  deriving DecidableEq, Repr

/-- The requests of the meta service that are modelled. -/
inductive Req where
  | createTenant (id : Int)
  | dropTenant (id : Int)
  /-- `junk`: the value `new_schema_id` has before it is set (meta_service.cc:634, not
  initialised). -/
  | createSchema (tenant : Int) (name : Name) (junk : Int)
  | dropSchema (tenant schema : Int)
  | createTable (schema : Int) (n : New)
  /-- `none`: an entity that is neither a table nor an index. -/
  | createTables (schema : Int) (l : List (Option Kind × New))
  | dropTable (schema id : Int)
  | dropTables (l : List (Option Kind × Int × Int))
  | updateTable (k : Option Kind) (id : Int) (name : Name) (defn : Nat) (early : Option Nat)
  | addIndex (table : Int) (n : New)
  | dropIndexOn (table id : Int)
  | createIndex (schema : Int) (n : New)
  | dropIndex (schema id : Int)
  | createId (schema : Int)
  | createIds (schema : Int) (count : Int)
  | generateIds (schema : Int) (parts : List Nat)
  deriving DecidableEq, Repr

/-- What a request that passed its checks will do: the entry, the answer, and the names it frees
if the entry cannot be written (meta_service.cc:1566-1576). -/
structure Plan where
  incr : Incr
  resp : Resp
  back : List (Kind × Int × Name) := []

/-- The outcome of the checks. -/
abbrev Res (α : Type) := Temp × Except Err α

/-- `CreateSchema` (coordinator_control_meta.cc:174-248, called by meta_service.cc:621-664). -/
def createSchema (d : Data) (t : Temp) (tenant : Int) (name : Name) (junk : Int) : Res Plan :=
  if name = [] then (t, .error .illegal)
  else if tenant < 0 then (t, .error .illegal)
  else if tenant > 0 ∧ tenant ∉ d.tenants then (t, .error .illegal)
  else if (get t.schemaNames (tenant, name)).getD 0 ≠ 0 then (t, .error .schemaExists)
  else
    let id := if junk > 0 then junk else last t.nextSchema + 1
    let t := if junk > 0 then t else { t with nextSchema := some (last t.nextSchema + 1) }
    let ids := if junk > 0 then [] else [Write.nextSchema id]
    if (get t.schemaNames (tenant, name)).isSome then (t, .error .schemaExists)
    else ({ t with schemaNames := put t.schemaNames (tenant, name) id },
          .ok { incr := { heads := [.schemaPut id ⟨name, tenant, fun _ => []⟩], ids := ids },
                resp := .schema id })

/-- `DropSchema` (coordinator_control_meta.cc:255-307, called by meta_service.cc:577-619). -/
def dropSchema (d : Data) (t : Temp) (tenant schema : Int) : Res Plan :=
  if schema ≤ 1000 then (t, .error .illegal)
  else if tenant < 0 then (t, .error .illegal)
  else if tenant > 0 ∧ tenant ∉ d.tenants then (t, .error .illegal)
  else match get d.schemas schema with
    | none => (t, .error .schemaNotFound)
    | some s =>
      if (s.ids .table).length > 0 then (t, .error .schemaNotEmpty)
      else ({ t with schemaNames := erase t.schemaNames (tenant, s.name) },
            .ok { incr := { heads := [.schemaErase schema] }, resp := .ok })

/-- `CreateTenant` (coordinator_control_meta.cc:3689-3721).  The limit of the number of tenants is
not modelled. -/
def createTenant (d : Data) (t : Temp) (id : Int) : Res Plan :=
  if id = 0 then (t, .ok { incr := {}, resp := .ok })
  else if id ∈ d.tenants then (t, .error .illegal)
  else (t, .ok { incr := { heads := [.tenantPut id] }, resp := .ok })

/-- `DropTenant` (coordinator_control_meta.cc:3723-3765). -/
def dropTenant (d : Data) (t : Temp) (id : Int) : Res Plan :=
  if id = 0 then (t, .error .illegal)
  else if id < 0 then (t, .error .illegal)
  else if id ∉ d.tenants then (t, .error .illegal)
  else if (d.schemas.filter (fun p => p.2.tenant = id)).length > 0 then (t, .error .illegal)
  else (t, .ok { incr := { heads := [.tenantErase id] }, resp := .ok })

/-- `CoordinatorControl::CreateTable` (coordinator_control_meta.cc:548-822). -/
def mkTable (d : Data) (t : Temp) (schema : Int) (n : New) : Res ObjOp :=
  if schema < 0 ∨ schema = 0 then (t, .error .illegal)
  else match get d.schemas schema with
  | none => (t, .error .illegal)
  | some _ =>
    match n.early with
    | some e => (t, .error (.other e))
    | none =>
      if (get (t.names .table) (schema, n.name)).getD 0 ≠ 0 then (t, .error .tableExists)
      else if (get (t.names .table) (schema, n.name)).isSome then (t, .error .tableExists)
      else
        let t' := setNames t .table (put (t.names .table) (schema, n.name) n.id)
        let t'' := setNames t' .table (erase (t'.names .table) (schema, n.name))
        if n.id ≤ 0 then (t'', .error .illegal)
        else if (get (d.objs .table) n.id).isSome then (t'', .error .tableExists)
        else match n.late with
          | some e => (t'', .error (.other e))
          | none => (t', .ok (.create n.id ⟨schema, n.name, n.id, n.defn⟩))

/-- `CoordinatorControl::CreateIndex` (coordinator_control_meta.cc:1211-1490). -/
def mkIndex (d : Data) (t : Temp) (schema owner : Int) (n : New) : Res ObjOp :=
  if schema < 0 ∨ schema = 0 then (t, .error .illegal)
  else match get d.schemas schema with
  | none => (t, .error .illegal)
  | some _ =>
    match n.early with
    | some e => (t, .error (.other e))
    | none =>
      if (get (t.names .index) (schema, n.name)).getD 0 ≠ 0 then (t, .error .indexExists)
      else if n.id ≤ 0 then (t, .error .illegal)
      else if (get (d.objs .index) n.id).isSome then (t, .error .illegal)
      else if (get (t.names .index) (schema, n.name)).isSome then (t, .error .indexExists)
      else
        let t' := setNames t .index (put (t.names .index) (schema, n.name) n.id)
        match n.late with
        | some e => (setNames t' .index (erase (t'.names .index) (schema, n.name)), .error (.other e))
        | none => (t', .ok (.create n.id ⟨schema, n.name, owner, n.defn⟩))

/-- The `CreateTable` request (meta_service.cc:458-575).  An id that is not positive counts as no
id (:480-486). -/
def createTable (d : Data) (t : Temp) (schema : Int) (n : New) : Res Plan :=
  match mkTable d t schema { n with id := max n.id 0 } with
  | (t, .error e) => (t, .error e)
  | (t, .ok op) => (t, .ok { incr := { tables := [op] }, resp := .ok })

/-- The `CreateIndex` request (meta_service.cc:1230-1365). -/
def createIndex (d : Data) (t : Temp) (schema : Int) (n : New) : Res Plan :=
  match mkIndex d t schema 0 { n with id := max n.id 0 } with
  | (t, .error e) => (t, .error e)
  | (t, .ok op) => (t, .ok { incr := { indexes := [op] }, resp := .ok })

/-- `RollbackCreateTable`, `RollbackCreateIndex` (coordinator_control_meta.cc:503-518): free the
names. -/
def free (t : Temp) : List (Kind × Int × Name) → Temp
  | [] => t
  | (k, s, n) :: l => free (setNames t k (erase (t.names k) (s, n))) l

/-- The first loop of `DoCreateTables` (meta_service.cc:1579-1611): the table of the request, at
most one. -/
def createTheTable (d : Data) (schema : Int) :
    Temp → List (Option Kind × New) → Option (Int × ObjOp) → Res (Option (Int × ObjOp))
  | t, [], a => (t, .ok a)
  | t, (some .table, n) :: l, a =>
    match a with
    | some (_, .create _ r) => (free t [(.table, schema, r.name)], .error .illegal)
    | some _ => (t, .error .illegal)
    | none =>
      match mkTable d t schema n with
      | (t, .error e) => (t, .error e)
      | (t, .ok op) => createTheTable d schema t l (some (n.id, op))
  | t, _ :: l, a => createTheTable d schema t l a

/-- The second loop of `DoCreateTables` (meta_service.cc:1614-1664): the indexes of the request.
`back` are the names to free if it fails. -/
def createTheIndexes (d : Data) (schema owner : Int) :
    Temp → List (Option Kind × New) → List (Kind × Int × Name) → List ObjOp →
    Res (List ObjOp × List (Kind × Int × Name))
  | t, [], back, ops => (t, .ok (ops, back))
  | t, (some .table, _) :: l, back, ops => createTheIndexes d schema owner t l back ops
  | t, (none, _) :: _, back, _ => (free t back, .error .illegal)
  | t, (some .index, n) :: l, back, ops =>
    match mkIndex d t schema owner n with
    | (t, .error e) => (free t back, .error e)
    | (t, .ok op) =>
      createTheIndexes d schema owner t l (back ++ [(.index, schema, n.name)]) (ops ++ [op])

/-- The ids of the objects created. -/
def createdIds : List ObjOp → List Int
  | [] => []
  | .create id _ :: l => id :: createdIds l
  | _ :: l => createdIds l

/-- The name a change creates. -/
def ObjOp.backName (k : Kind) : ObjOp → List (Kind × Int × Name)
  | .create _ r => [(k, r.schema, r.name)]
  | _ => []

/-- The `CreateTables` request (meta_service.cc:1517-1747).  The limit of the number of
definitions is not modelled. -/
def createTables (d : Data) (t : Temp) (schema : Int) (l : List (Option Kind × New)) : Res Plan :=
  if l = [] then (t, .error .illegal)
  else if schema < 0 then (t, .error .illegal)
  else match get d.schemas schema with
  | none => (t, .error .schemaNotFound)
  | some _ =>
    match createTheTable d schema t l none with
    | (t, .error e) => (t, .error e)
    | (t, .ok a) =>
      let back := match a with
        | some (_, op) => op.backName .table
        | none => []
      let owner := match a with
        | some (id, _) => id
        | none => 0
      match createTheIndexes d schema owner t l back [] with
      | (t, .error e) => (t, .error e)
      | (t, .ok (ops, back)) =>
        (t, .ok {
          incr := {
            heads := match a with
              | some (id, _) => [.tidxPut id (createdIds ops)]
              | none => []
            indexes := ops
            tables := match a with
              | some (_, op) => [op]
              | none => [] }
          resp := .made (match a with
              | some (id, _) => id :: createdIds ops
              | none => createdIds ops)
          back := back })

/-! ### Reading -/

/-- `GetTable` (coordinator_control_meta.cc:2123-2164) and `GetIndex` (:2167-2212).  Neither looks
at the schema the object belongs to. -/
def getObj (d : Data) (k : Kind) (schema id : Int) : Except Err Obj :=
  if schema < 0 then .error .illegal
  else if id ≤ 0 then .error .illegal
  else match get d.schemas schema with
  | none => .error .schemaNotFound
  | some _ =>
    match get (d.objs k) id with
    | none => .error (match k with | .table => .tableNotFound | .index => .indexNotFound)
    | some r => .ok r

/-- `GetIndex` for every index of a list (coordinator_control_meta.cc:3037-3048). -/
def getAll (d : Data) (schema : Int) : List Int → Except Err (List (Int × Obj))
  | [] => .ok []
  | i :: l =>
    match getObj d .index schema i with
    | .error e => .error e
    | .ok r =>
      match getAll d schema l with
      | .error e => .error e
      | .ok rs => .ok ((i, r) :: rs)

/-- `GetTableIndexes` (coordinator_control_meta.cc:3019-3062): the table and its indexes. -/
def getTableIndexes (d : Data) (schema id : Int) : Except Err (List (Int × Obj)) :=
  match getObj d .table schema id with
  | .error e => .error e
  | .ok r =>
    match get d.tidx id with
    | none => .error .illegal
    | some l =>
      match getAll d schema l with
      | .error e => .error e
      | .ok rs => .ok ((id, r) :: rs)

/-- `GetTables` (coordinator_control_meta.cc:1946-1997) and `GetIndexes` (:2000-2057, which leaves
out the indexes of tables): the objects of a schema. -/
def listObjs (d : Data) (k : Kind) (schema : Int) : Except Err (List (Int × Obj)) :=
  if schema < 0 then .error .illegal
  else match get d.schemas schema with
  | none => .error .schemaNotFound
  | some s => .ok ((s.ids k).filterMap (fun i =>
      match get (d.objs k) i with
      | none => none
      | some r => if k = .index ∧ r.owner > 0 then none else some (i, r)))

/-- `GetTablesCount` (coordinator_control_meta.cc:2060-2083). -/
def countTables (d : Data) (schema : Int) : Except Err Nat :=
  if schema < 0 then .error .illegal
  else match get d.schemas schema with
  | none => .error .schemaNotFound
  | some s => .ok (s.ids .table).length

/-- `GetSchemas` (coordinator_control_meta.cc:314-373): a negative tenant stands for all. -/
def listSchemas (d : Data) (tenant : Int) : List (Int × Schema) :=
  d.schemas.filter (fun p => ¬ (tenant ≥ 0 ∧ p.2.tenant ≠ tenant))

/-- `GetSchema` (coordinator_control_meta.cc:378-425). -/
def getSchema (d : Data) (schema : Int) : Except Err Schema :=
  if schema < 0 then .error .illegal
  else match get d.schemas schema with
  | none => .error .schemaNotFound
  | some s => .ok s

/-- `GetTableByName` (coordinator_control_meta.cc:2215-2247), `GetIndexByName` (:2250-2282): the id
found under the name and the object with this id. -/
def getByName (d : Data) (t : Temp) (k : Kind) (schema : Int) (name : Name) : Except Err (Int × Obj) :=
  if schema < 0 then .error .illegal
  else if name = [] then .error .illegal
  else match get d.schemas schema with
  | none => .error .schemaNotFound
  | some _ =>
    match get (t.names k) (schema, name) with
    | none => .error (match k with | .table => .tableNotFound | .index => .indexNotFound)
    | some id =>
      match getObj d k schema id with
      | .error e => .error e
      | .ok r => .ok (id, r)

/-- `GetSchemaByName` (coordinator_control_meta.cc:430-448). -/
def getSchemaByName (d : Data) (t : Temp) (tenant : Int) (name : Name) : Except Err (Int × Schema) :=
  if name = [] then .error .illegal
  else match get t.schemaNames (tenant, name) with
  | none => .error .schemaNotFound
  | some id =>
    match getSchema d id with
    | .error e => .error e
    | .ok s => .ok (id, s)

/-! ### Dropping and changing -/

/-- `CoordinatorControl::DropTable` (coordinator_control_meta.cc:828-901). -/
def rmTable (d : Data) (t : Temp) (schema id : Int) : Res ObjOp :=
  if schema < 0 then (t, .error .illegal)
  else match get d.schemas schema with
  | none => (t, .error .illegal)
  | some _ =>
    match get (d.objs .table) id with
    | none => (t, .error .tableNotFound)
    | some r =>
      if r.schema ≠ schema then (t, .error .illegal)
      else (setNames t .table (erase (t.names .table) (schema, r.name)), .ok (.delete id schema))

/-- `CoordinatorControl::DropIndex` (coordinator_control_meta.cc:1866-1943). -/
def rmIndex (d : Data) (t : Temp) (schema id : Int) (check : Bool) : Res ObjOp :=
  if schema < 0 then (t, .error .illegal)
  else match get d.schemas schema with
  | none => (t, .error .illegal)
  | some _ =>
    match get (d.objs .index) id with
    | none => (t, .error .indexNotFound)
    | some r =>
      if r.schema ≠ schema then (t, .error .illegal)
      else if check ∧ r.owner > 0 then (t, .error .compat)
      else (setNames t .index (erase (t.names .index) (schema, r.name)), .ok (.delete id schema))

/-- `DropIndex` for every index of a list (coordinator_control_meta.cc:3080-3086). -/
def rmAll (d : Data) (schema : Int) : Temp → List Int → Res (List ObjOp)
  | t, [] => (t, .ok [])
  | t, i :: l =>
    match rmIndex d t schema i false with
    | (t, .error e) => (t, .error e)
    | (t, .ok op) =>
      match rmAll d schema t l with
      | (t, .error e) => (t, .error e)
      | (t, .ok ops) => (t, .ok (op :: ops))

/-- `DropTableIndexes` (coordinator_control_meta.cc:3064-3109). -/
def rmTableIndexes (d : Data) (t : Temp) (schema id : Int) : Res Incr :=
  match getObj d .table schema id with
  | .error e => (t, .error e)
  | .ok _ =>
    match get d.tidx id with
    | none => (t, .error .illegal)
    | some l =>
      match rmAll d schema t l with
      | (t, .error e) => (t, .error e)
      | (t, .ok ops) =>
        match rmTable d t schema id with
        | (t, .error e) => (t, .error e)
        | (t, .ok op) => (t, .ok { heads := [.tidxErase id], indexes := ops, tables := [op] })

/-- `RemoveTableIndex` (coordinator_control_meta.cc:3111-3148).  The id of the parent is used for
the schema and for the table. -/
def rmTableIndex (d : Data) (t : Temp) (parent id : Int) : Res Incr :=
  match rmIndex d t parent id false with
  | (t, .error e) => (t, .error e)
  | (t, .ok op) =>
    match get d.tidx parent with
    | none => (t, .ok { indexes := [op] })
    | some l =>
      if id ∈ l then (t, .ok { heads := [.tidxAddDel parent [] [id]], indexes := [op] })
      else (t, .ok { indexes := [op] })

/-- Two entries written as one. -/
def Incr.join (a b : Incr) : Incr :=
  ⟨a.heads ++ b.heads, a.indexes ++ b.indexes, a.tables ++ b.tables, a.ids ++ b.ids⟩

/-- The loop of `DoDropTables` (meta_service.cc:1798-1814). -/
def dropLoop (d : Data) : Temp → List (Option Kind × Int × Int) → Incr → Res Incr
  | t, [], a => (t, .ok a)
  | t, (none, _, _) :: _, _ => (t, .error .illegal)
  | t, (some .table, p, id) :: l, a =>
    match rmTableIndexes d t p id with
    | (t, .error e) => (t, .error e)
    | (t, .ok i) => dropLoop d t l (a.join i)
  | t, (some .index, p, id) :: l, a =>
    match rmTableIndex d t p id with
    | (t, .error e) => (t, .error e)
    | (t, .ok i) => dropLoop d t l (a.join i)

/-- The `DropTables` request (meta_service.cc:1785-1830). -/
def dropTables (d : Data) (t : Temp) (l : List (Option Kind × Int × Int)) : Res Plan :=
  match dropLoop d t l {} with
  | (t, .error e) => (t, .error e)
  | (t, .ok i) => (t, .ok { incr := i, resp := .ok })

/-- The `DropTable` request (meta_service.cc:666-728). -/
def dropTable (d : Data) (t : Temp) (schema id : Int) : Res Plan :=
  match getTableIndexes d schema id with
  | .error e => (t, .error e)
  | .ok l =>
    if l.length > 0 then (t, .error .illegal)
    else match rmTable d t schema id with
      | (t, .error e) => (t, .error e)
      | (t, .ok op) => (t, .ok { incr := { tables := [op] }, resp := .ok })

/-- The `DropIndex` request (meta_service.cc:1430-1471). -/
def dropIndex (d : Data) (t : Temp) (schema id : Int) : Res Plan :=
  match rmIndex d t schema id true with
  | (t, .error e) => (t, .error e)
  | (t, .ok op) => (t, .ok { incr := { indexes := [op] }, resp := .ok })

/-- The `UpdateTables` request (meta_service.cc:1832-1897) with `UpdateTableDefinition`
(coordinator_control_meta.cc:3407-3480).  `early` stands for the checks of the parts. -/
def updateTable (d : Data) (t : Temp) (k : Option Kind) (id : Int) (name : Name) (defn : Nat)
    (early : Option Nat) : Res Plan :=
  match k with
  | none => (t, .error .illegal)
  | some k =>
    match get (d.objs k) id with
    | none => (t, .error .tableNotFound)
    | some r =>
      if r.name ≠ name then (t, .error .illegal)
      else match early with
        | some e => (t, .error (.other e))
        | none => (t, .ok {
            incr := match k with
              | .table => { tables := [.update id name defn] }
              | .index => { indexes := [.update id name defn] }
            resp := .ok })

/-- The `AddIndexOnTable` request (meta_service.cc:1899-1946) with `AddIndexOnTable`
(coordinator_control_meta.cc:3482-3529). -/
def addIndex (d : Data) (t : Temp) (table : Int) (n : New) : Res Plan :=
  if table = 0 ∨ n.id = 0 then (t, .error .illegal)
  else match get (d.objs .table) table with
  | none => (t, .error .tableNotFound)
  | some r =>
    if (get (d.objs .index) n.id).isSome then (t, .error .indexExists)
    else if (get d.tidx table).isNone then (t, .error .tableNotFound)
    else match mkIndex d t r.schema table n with
      | (t, .error e) => (t, .error e)
      | (t, .ok op) =>
        (t, .ok { incr := { heads := [.tidxAddDel table [n.id] []], indexes := [op] }, resp := .ok })

/-- The `DropIndexOnTable` request (meta_service.cc:1948-1992) with `DropIndexOnTable`
(coordinator_control_meta.cc:3531-3586). -/
def dropIndexOn (d : Data) (t : Temp) (table id : Int) : Res Plan :=
  if table = 0 ∨ id = 0 then (t, .error .illegal)
  else match get (d.objs .table) table with
  | none => (t, .error .tableNotFound)
  | some r =>
    if (get (d.objs .index) id).isNone then (t, .error .indexNotFound)
    else match get d.tidx table with
    | none => (t, .error .tableNotFound)
    | some l =>
      if id ∉ l then (t, .error .indexNotFound)
      else match rmIndex d t r.schema id false with
        | (t, .error e) => (t, .error e)
        | (t, .ok op) =>
          (t, .ok { incr := { heads := [.tidxAddDel table [] [id]], indexes := [op] }, resp := .ok })

/-! ### Ids -/

/-- `GetNextIds` for `ID_NEXT_TABLE` (coordinator_control.cc:555-592, at most 100000 at once:
coordinator_meta_storage.h:110-113).  An id past `INT64_MAX` is not modelled. -/
def takeIds (t : Temp) (count : Int) : Temp × List Int :=
  if count ≤ 0 ∨ count > 100000 then (t, [])
  else ({ t with nextTable := some (last t.nextTable + count) }, idsAfter (last t.nextTable) count.toNat)

/-- `CreateTableId` (coordinator_control_meta.cc:454-471, meta_service.cc:348-396) and
`CreateIndexId` (:907-925). -/
def createId (d : Data) (t : Temp) (schema : Int) : Res Plan :=
  if (get d.schemas schema).isNone then (t, .error .illegal)
  else
    let id := last t.nextTable + 1
    ({ t with nextTable := some id }, .ok { incr := { ids := [.nextTable id] }, resp := .ids [id] })

/-- `CreateTableIds` (coordinator_control_meta.cc:473-500, meta_service.cc:398-456). -/
def createIds (d : Data) (t : Temp) (schema count : Int) : Res Plan :=
  if count ≤ 0 then (t, .error .illegal)
  else if (get d.schemas schema).isNone then (t, .error .illegal)
  else match takeIds t count with
    | (t, []) => (t, .error .internal)
    | (t, l) => (t, .ok { incr := { ids := [.nextTable (last t.nextTable)] }, resp := .ids l })

/-- The loop of `GenerateTableWithPartIds` (coordinator_control_meta.cc:2991-3005): one id and the
ids of the parts for each table or index. -/
def generateLoop : Temp → List Nat → List Int → List Write → Res (List Int × List Write)
  | t, [], l, ws => (t, .ok (l, ws))
  | t, n :: ns, l, ws =>
    match takeIds t (1 + n) with
    | (t, []) => (t, .error .internal)
    | (t, l') => generateLoop t ns (l ++ l') (ws ++ [.nextTable (last t.nextTable)])

/-- The `GenerateTableIds` request (meta_service.cc:1473-1515, coordinator_control_meta.cc:72-104,
:2976-3008). -/
def generateIds (d : Data) (t : Temp) (schema : Int) (parts : List Nat) : Res Plan :=
  if (get d.schemas schema).isNone then (t, .error .illegal)
  else match generateLoop t parts [] [] with
    | (t, .error e) => (t, .error e)
    | (t, .ok (l, ws)) => (t, .ok { incr := { ids := ws }, resp := .ids l })

/-- The checks of a request.  In the code they are several accesses to the maps, other requests
and the apply running between them; here they are one step.  A name that `CreateTable` or
`CreateIndex` reserves and frees again when a later check fails is not seen by others. -/
def prepare (d : Data) (t : Temp) : Req → Res Plan
  | .createTenant id => createTenant d t id
  | .dropTenant id => dropTenant d t id
  | .createSchema tn n j => createSchema d t tn n j
  | .dropSchema tn s => dropSchema d t tn s
  | .createTable s n => createTable d t s n
  | .createTables s l => createTables d t s l
  | .dropTable s id => dropTable d t s id
  | .dropTables l => dropTables d t l
  | .updateTable k id n df e => updateTable d t k id n df e
  | .addIndex tb n => addIndex d t tb n
  | .dropIndexOn tb id => dropIndexOn d t tb id
  | .createIndex s n => createIndex d t s n
  | .dropIndex s id => dropIndex d t s id
  | .createId s => createId d t s
  | .createIds s c => createIds d t s c
  | .generateIds s ps => generateIds d t s ps

/-! ## The group of coordinators -/

/-- Where a request is. -/
inductive Pc where
  /-- Past its checks, about to write its entry. -/
  | ready
  /-- The entry is in the log. -/
  | waiting
  | done
  deriving DecidableEq, Repr

/-- A request in progress: the coordinator it runs on and the term in which it was checked. -/
structure Th where
  node : Nat
  term : Nat
  req : Req
  plan : Plan
  pc : Pc

/-- The state.  `data` is the metadata applied by the coordinator that leads; `log` the entries of
the log it has not applied yet, each with the number of its request.  A coordinator leads only
after it applied all entries of earlier terms (raft), so one copy of the metadata is enough.
`fresh`: the leader has not rebuilt its maps yet. -/
structure State where
  data : Data
  log : List (Nat × Incr)
  temps : Nat → Temp
  leader : Option Nat
  term : Nat
  fresh : Bool
  ths : List Th
  dead : Bool

/-- What happens. -/
inductive Ev where
  /-- A request is taken by the leader and checked. -/
  | begin (r : Req)
  /-- The request writes its entry, the node accepts it and it will be committed.  The code sets no
  expected term (no use of `braft::Task::expected_term`), so a node accepts it whenever it leads. -/
  | submit (i : Nat)
  /-- Writing the entry fails, or the leader loses its role while the request waits: the request
  answers with an error.  In the second case the entry may be committed all the same. -/
  | fail (i : Nat)
  /-- The next entry is applied. -/
  | apply
  /-- The leader loses its role (meta_state_machine.cc:244-250). -/
  | stepDown
  /-- A coordinator starts to lead: `SetLeaderTerm` (meta_state_machine.cc:240).  From now on it
  takes requests. -/
  | elect (n : Nat)
  /-- `OnLeaderStart` (meta_state_machine.cc:241, fsm.cc:130-136). -/
  | build
  /-- A coordinator ends and starts again. -/
  | restart (n : Nat)
  deriving DecidableEq, Repr

/-- What is seen. -/
inductive Out where
  | none
  | redirect
  /-- Refused by the checks. -/
  | refused (i : Nat) (e : Err)
  | begun (i : Nat)
  /-- Answered after the entry was applied. -/
  | replied (i : Nat) (r : Resp)
  /-- Answered with an error of the log. -/
  | failed (i : Nat)
  /-- Every coordinator ends at this entry, and again each time it is started. -/
  | down
  deriving DecidableEq, Repr

/-- Replace the maps of one coordinator. -/
def setTemp (s : State) (n : Nat) (t : Temp) : State :=
  { s with temps := fun m => if m = n then t else s.temps m }

/-- Replace a request. -/
def setPc (s : State) (i : Nat) (pc : Pc) : State :=
  { s with ths := s.ths.modify i (fun th => { th with pc := pc }) }

/-- `IsLeader` and the checks (for example meta_service.cc:621-643). -/
def stepBegin (s : State) (r : Req) : State × Out :=
  match s.leader with
  | none => (s, .redirect)
  | some n =>
    match prepare s.data (s.temps n) r with
    | (t, .error e) => (setTemp s n t, .refused s.ths.length e)
    | (t, .ok p) =>
      (setTemp { s with ths := s.ths ++ [⟨n, s.term, r, p, .ready⟩] } n t, .begun s.ths.length)

/-- `raft_engine->Write` / `SubmitMetaIncrementSync` (fsm.cc:2605-2617). -/
def stepSubmit (s : State) (i : Nat) : State × Out :=
  match s.ths[i]? with
  | none => (s, .none)
  | some th =>
    if th.pc = .ready ∧ s.leader = some th.node then
      (setPc { s with log := s.log ++ [(i, th.plan.incr)] } i .waiting, .none)
    else (s, .none)

/-- The error path of a request: `CreateTables` frees its names (meta_service.cc:1566-1576,
:1674-1681), the others do nothing. -/
def stepFail (s : State) (i : Nat) : State × Out :=
  match s.ths[i]? with
  | none => (s, .none)
  | some th =>
    if th.pc = .ready ∨ (th.pc = .waiting ∧ (s.leader ≠ some th.node ∨ th.term ≠ s.term)) then
      (setPc (setTemp s th.node (free (s.temps th.node) th.plan.back)) i .done, .failed i)
    else (s, .none)

/-- `MetaStateMachine::on_apply` (meta_state_machine.cc:69-96). -/
def stepApply (s : State) : State × Out :=
  match s.log with
  | [] => (s, .none)
  | (i, inc) :: rest =>
    match applyIncr s.data inc with
    | none => ({ s with dead := true }, .down)
    | some d =>
      match s.ths[i]? with
      | some th =>
        if th.pc = .waiting then
          (setPc { s with data := d, log := rest } i .done, .replied i th.plan.resp)
        else ({ s with data := d, log := rest }, .none)
      | none => ({ s with data := d, log := rest }, .none)

/-- One step. -/
def step (s : State) (e : Ev) : State × Out :=
  if s.dead then (s, .none) else
  match e with
  | .begin r => stepBegin s r
  | .submit i => stepSubmit s i
  | .fail i => stepFail s i
  | .apply => stepApply s
  | .stepDown => ({ s with leader := none, fresh := false }, .none)
  | .elect n =>
    if s.leader = none ∧ s.log = [] then
      ({ s with leader := some n, term := s.term + 1, fresh := true }, .none)
    else (s, .none)
  | .build =>
    match s.leader with
    | some n => if s.fresh then ({ setTemp s n (build s.data) with fresh := false }, .none) else (s, .none)
    | none => (s, .none)
  | .restart n =>
    -- its requests end without an answer; what they wrote to the log stays
    let s := { s with ths := s.ths.map (fun th => if th.node = n then { th with pc := .done } else th) }
    let s := setTemp s n Temp.empty
    (if s.leader = some n then { s with leader := none, fresh := false } else s, .none)

/-- Run events, with what is seen. -/
def run (s : State) : List Ev → State × List Out
  | [] => (s, [])
  | e :: es =>
    let (s1, o) := step s e
    let (s2, os) := run s1 es
    (s2, o :: os)

/-- The schemas every coordinator has (coordinator_control_meta.cc:112-147,
coordinator_control.cc:440-452) and the first ids (coordinator_control.cc:150-181). -/
def Data.init : Data where
  nextSchema := 50000
  nextTable := 60000
  tenants := []
  schemas := [(0, ⟨[82], 0, fun _ => []⟩), (1, ⟨[77, 69], 0, fun _ => []⟩), (2, ⟨[68], 0, fun _ => []⟩),
    (3, ⟨[77, 89], 0, fun _ => []⟩), (4, ⟨[73], 0, fun _ => []⟩)]
  objs := fun _ => []
  tidx := []

/-- A new group. -/
def init : State := ⟨Data.init, [], fun _ => Temp.empty, none, 0, false, [], false⟩

end Verif.Meta
