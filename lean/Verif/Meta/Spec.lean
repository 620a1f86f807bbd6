/-
What the theorems about the metadata of the coordinator are stated with: entries on their way, and
the conditions on a run under which the claims hold.
-/
import Verif.Meta.Model

namespace Verif.Meta

/-! ## What is on its way -/

/-- A request of the present term that passed its checks and has not written its entry. -/
def Th.open (s : State) (th : Th) : Bool := th.pc = .ready && th.term = s.term && s.leader.isSome

/-- The entries on their way: in the log and not applied, or about to be written. -/
def pending (s : State) : List Incr :=
  s.log.map Prod.snd ++ (s.ths.filter (Th.open s)).map (fun th => th.plan.incr)

/-- A drop of the table or index is on its way. -/
def Dropping (s : State) (k : Kind) (id : Int) : Prop :=
  ∃ inc ∈ pending s, ∃ sid, ObjOp.delete id sid ∈ inc.ops k

/-- A drop of the schema is on its way. -/
def DroppingSchema (s : State) (id : Int) : Prop :=
  ∃ inc ∈ pending s, Write.schemaErase id ∈ inc.heads

/-- Nothing is on its way. -/
def Quiet (s : State) : Prop := pending s = []

/-! ## Conditions on a run -/

/-- The ids an entry creates or drops. -/
def ObjOp.touched : ObjOp → List Int
  | .create id _ => [id]
  | .update _ _ _ => []
  | .delete id _ => [id]

/-- The id an entry creates. -/
def ObjOp.created : ObjOp → List Int
  | .create id _ => [id]
  | _ => []

/-- The id of which an entry replaces the definition. -/
def ObjOp.updated : ObjOp → List Int
  | .update id _ _ => [id]
  | _ => []

/-- The id an entry drops. -/
def ObjOp.dropped : ObjOp → List Int
  | .delete id _ => [id]
  | _ => []

/-- The schema an entry puts something in or takes something out of. -/
def ObjOp.schemas : ObjOp → List Int
  | .create _ r => [r.schema]
  | .update _ _ _ => []
  | .delete _ sid => [sid]

/-- The schema a write drops. -/
def Write.dropsSchema : Write → List Int
  | .schemaErase id => [id]
  | _ => []

/-- The schemas an entry drops. -/
def Incr.dropsSchemas (i : Incr) : List Int := i.heads.flatMap Write.dropsSchema

/-- The schemas an entry uses. -/
def Incr.usesSchemas (i : Incr) : List Int :=
  i.indexes.flatMap ObjOp.schemas ++ i.tables.flatMap ObjOp.schemas

/-- No id twice. -/
def nodupB : List Int → Bool
  | [] => true
  | i :: l => i ∉ l && nodupB l

/-- The ids of the entry are not those of an entry on its way, nor twice in it. -/
def okIds (k : Kind) (i : Incr) (ps : List Incr) : Bool :=
  nodupB ((i.ops k).flatMap ObjOp.touched ++ ps.flatMap (fun p => (p.ops k).flatMap ObjOp.touched)) &&
  ((i.ops k).flatMap ObjOp.created).all (fun id =>
    id ∉ (i.ops k).flatMap ObjOp.updated ∧ id ∉ ps.flatMap (fun p => (p.ops k).flatMap ObjOp.updated))

/-- A schema is not dropped twice, nor while something is put in or taken out of it. -/
def okSchemas (i : Incr) (ps : List Incr) : Bool :=
  i.dropsSchemas.all (fun x => x ∉ ps.flatMap Incr.dropsSchemas ∧ x ∉ ps.flatMap Incr.usesSchemas) &&
  i.usesSchemas.all (fun x => x ∉ ps.flatMap Incr.dropsSchemas)

/-- The entry drops nothing. -/
def Incr.dropless (i : Incr) : Bool :=
  (i.dropsSchemas ++ i.indexes.flatMap ObjOp.dropped ++ i.tables.flatMap ObjOp.dropped).isEmpty

/-- The request names the tenant of the schema it drops, and a new schema gets its id from the
counter. -/
def okReq (d : Data) : Req → Bool
  | .dropSchema tn sid => match get d.schemas sid with
    | some s => s.tenant = tn
    | none => true
  | .createSchema _ _ junk => junk ≤ 0
  | _ => true

/-- The event is orderly:
* no request is taken before the new leader has rebuilt its maps;
* a request of an earlier term does not write its entry, and does not free names;
* a drop that passed its checks is written;
* a refused `DropTables` has freed no name;
* ids are not reused while something with the same id is on its way;
* a schema is dropped under its own tenant, and not while it is used or dropped by something on its
  way;
* a new schema gets its id from the counter. -/
def okEv (s : State) : Ev → Bool
  | .begin r =>
    match s.leader with
    | none => true
    | some n =>
      !s.fresh && okReq s.data r &&
      match prepare s.data (s.temps n) r with
      | (t, .error _) => (match r with | .dropTables _ => false | _ => true) ||
          (decide (t.names .table = (s.temps n).names .table) && decide (t.names .index = (s.temps n).names .index))
      | (_, .ok p) => okIds .table p.incr (pending s) && okIds .index p.incr (pending s) &&
          okSchemas p.incr (pending s)
  | .submit i =>
    match s.ths[i]? with
    | some th => th.term = s.term
    | none => true
  | .fail i =>
    match s.ths[i]? with
    | some th =>
      if th.open s then th.plan.incr.dropless
      else th.plan.back.isEmpty || s.leader ≠ some th.node || s.fresh
    | none => true
  | .stepDown => s.ths.all (fun th => !th.open s || th.plan.incr.dropless)
  | .restart n => s.leader ≠ some n || s.ths.all (fun th => !th.open s || th.plan.incr.dropless)
  | _ => true

/-- Every event of the run is orderly. -/
def okRun (s : State) : List Ev → Bool
  | [] => true
  | e :: es => okEv s e && okRun (step s e).1 es

/-! ## Answers -/

/-- The ids given out by an answer. -/
def Out.ids : Out → List Int
  | .replied _ (.ids l) => l
  | _ => []

/-- The schema id given out by an answer. -/
def Out.schemaIds : Out → List Int
  | .replied _ (.schema id) => [id]
  | _ => []

end Verif.Meta
