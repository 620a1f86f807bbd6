import Verif.Txn.CF
import Verif.Scan.Model

/-!
# Filters, projections and aggregates computed by the store (model)

Models `src/coprocessor/coprocessor.cc` (the coprocessor of the raw key-value scans),
`src/coprocessor/aggregation.cc`, `src/coprocessor/aggregation_manager.cc` and the
functions of `src/coprocessor/utils.cc` they use.

* Rows come from the iterator of the scan session (`Verif.Scan`, C68); here they are
  a list, the ones still ahead.
* Not in the repository, hence parameters (`Env`): the record codec (`RecordEncoder`,
  `RecordDecoder` of `serial/`), the expression runner (`expr::Runner` of `libexpr/`)
  and floating point arithmetic.  A codec call may fail or throw; nothing else is
  assumed of it in the model.
* `refused` is an error status; `crash` is undefined behaviour of the C++ program: an
  access outside a vector, a null dereference, a signed overflow.
* Not modelled: `selection_column_indexes_serial_` (only passed to the decoder), the
  attributes of a column other than its index and type, the debug output.
-/

namespace Verif.Coproc
open Verif.Codec Verif.Txn Verif.Scan

/-- How a call can end badly. -/
inductive Bad where
  | refused
  | crash
deriving DecidableEq, Repr

/-- `pb::common::Schema::Type` / `BaseSchema::Type`, `coprocessor/utils.cc:80-116`.  The six
list types the serial schemas know are `list`. -/
inductive Ty where
  | bool | int | float | long | double | str | decimal
  | list (k : Nat)
  | decimalList
deriving DecidableEq, Repr

/-- A `std::any` that holds a `std::optional<T>`: a column of a row.  `F`: the values of the
floating point types. -/
inductive Cell (F : Type) where
  | bool (v : Option Bool)
  | int (v : Option Int)
  | float (v : Option F)
  | long (v : Option Int)
  | double (v : Option F)
  | str (v : Option Bytes)
  | decimal (v : Option Bytes)
  | list (k : Nat) (v : Option Bytes)
deriving DecidableEq, Repr

/-- The type a column holds. -/
def Cell.ty {F : Type} : Cell F → Ty
  | .bool _ => .bool
  | .int _ => .int
  | .float _ => .float
  | .long _ => .long
  | .double _ => .double
  | .str _ => .str
  | .decimal _ => .decimal
  | .list k _ => .list k

/-- `has_value()` of the optional is false. -/
def Cell.isNull {F : Type} : Cell F → Bool
  | .bool v => v.isNone
  | .int v => v.isNone
  | .float v => v.isNone
  | .long v => v.isNone
  | .double v => v.isNone
  | .str v => v.isNone
  | .decimal v => v.isNone
  | .list _ v => v.isNone

/-- `Utils::CloneColumn`, `coprocessor/utils.cc:822-1017`: `any_cast` to the type asked for. -/
def clone {F : Type} (c : Cell F) (t : Ty) : Except Bad (Cell F) :=
  if c.ty = t then .ok c else .error .refused

/-- What is used of a floating point type. -/
structure Fl (F : Type) where
  zero : F
  add : F → F → F
  lt : F → F → Bool

/-- The result of `RecordEncoder::Encode`: a pair, a negative return value, an exception. -/
inductive Enc where
  | kv (p : KV)
  | neg
  | throws

/-- What is outside the repository. -/
structure Env (F : Type) where
  f32 : Fl F
  f64 : Fl F
  /-- `RecordDecoder::Decode` of the selected columns; `none`: negative or an exception -/
  decode : KV → Option (List (Cell F))
  /-- `expr::Runner` on the selected columns; `none`: an exception -/
  keep : List (Cell F) → Option Bool
  /-- `RecordEncoder::EncodeKey` for the group-by columns -/
  encKey : List (Cell F) → Option Bytes
  /-- `RecordDecoder::DecodeKey` for the group-by columns -/
  decKey : Bytes → Option (List (Cell F))
  /-- `RecordEncoder::Encode` for the result columns -/
  encRow : List (Cell F) → Enc

/-- `pb::store::AggregationType`. -/
inductive Op where
  | sum | sum0 | count | countNull | max | min | none
deriving DecidableEq, Repr

/-- A column of a schema: `index()` and `type()`. -/
structure Col where
  index : Int
  ty : Ty
deriving DecidableEq, Repr

/-- `pb::store::Coprocessor`: the parts that are used. -/
structure Req where
  orig : List Col
  sel : List Int
  groupBy : List Int
  ops : List (Op × Int)
  result : List Col
  expr : Bool
deriving DecidableEq, Repr

/-- `v[i]` for a vector `v`. -/
def idx {α : Type} (v : List α) (i : Int) : Except Bad α :=
  if i < 0 then .error .crash
  else match v[i.toNat]? with
    | some a => .ok a
    | none => .error .crash

/-- A loop that appends what it computes for each element. -/
def mapE {α β : Type} (f : α → Except Bad β) : List α → Except Bad (List β)
  | [] => .ok []
  | a :: l =>
    match f a with
    | .error e => .error e
    | .ok b =>
      match mapE f l with
      | .error e => .error e
      | .ok bs => .ok (b :: bs)

/-- `Utils::TransToSerialSchema`, `coprocessor/utils.cc:223-333`: all types but lists of
decimals have a serial schema. -/
def trans (l : List Col) : Except Bad Unit :=
  if l.any (fun c => c.ty = .decimalList) then .error .refused else .ok ()

/-- The loop of `Coprocessor::GetOriginalColumnIndexes`, `coprocessor/coprocessor.cc:785-791`;
`i` is the position. -/
def origLoop : List Col → Nat → List Int → Except Bad (List Int)
  | [], _, v => .ok v
  | c :: l, i, v =>
    if 0 ≤ c.index ∧ c.index < v.length then origLoop l (i + 1) (v.set c.index.toNat (i : Int))
    else .error .crash

/-- `Coprocessor::GetOriginalColumnIndexes`, `coprocessor/coprocessor.cc:784-799`. -/
def origIndexes (q : Req) : Except Bad (List Int) :=
  origLoop q.orig 0 (List.replicate q.orig.length (-1))

/-- `Coprocessor::GetSelectionColumnIndexes`, `coprocessor/coprocessor.cc:801-833`.  Without
selection columns the entry read for `selection_column_indexes_serial_` must exist. -/
def selIndexes (q : Req) (oi : List Int) : Except Bad (List Int) :=
  if q.sel = [] then
    mapE (fun i => match idx oi i with
      | .ok _ => .ok i
      | .error e => .error e) oi
  else mapE (idx oi) q.sel

/-- `Utils::CloneSerialSchema`, `coprocessor/utils.cc:335-431`: a null pointer for a decimal;
every caller modelled here dereferences it. -/
def cloneTy (t : Ty) : Except Bad Ty :=
  if t = .decimal then .error .crash else .ok t

/-- `Utils::CreateSerialSchema` with the selection, `coprocessor/utils.cc:458-482`. -/
def create (q : Req) (si : List Int) (cols : List Int) : Except Bad (List Ty) :=
  if q.orig = [] then .ok []
  else mapE (fun c => match idx si c with
    | .error e => .error e
    | .ok s => match idx q.orig s with
      | .error e => .error e
      | .ok o => cloneTy o.ty) cols

/-- `Utils::CheckGroupByColumns`, `coprocessor/utils.cc:170-183`. -/
def checkGroupBy (cols : List Int) (n : Nat) : Bool :=
  cols.all (fun i => decide (0 ≤ i ∧ i < n))

/-- `Utils::CheckGroupByOperators`, `coprocessor/utils.cc:185-221`. -/
def checkOp (n : Nat) (o : Op × Int) : Bool :=
  if o.1 = .none then false
  else if o.2 ≥ n then decide (o.1 = .countNull)
  else if o.2 < 0 then decide (o.1 = .count ∨ o.1 = .countNull)
  else true

/-- The column an aggregation reads, `coprocessor/coprocessor.cc:426-429`, `751-754`. -/
def opCol (n : Nat) (i : Int) : Int :=
  if i < 0 ∨ i ≥ n then 0 else i

/-- What `Coprocessor::Open` sets up. -/
structure Plan where
  /-- `group_by_key_serial_schemas_` -/
  keyTys : List Ty
  /-- `group_by_operator_serial_schemas_`; `none`: null -/
  opTys : Option (List Ty)
  /-- `result_serial_schemas_` -/
  result : List Ty
  /-- `result_serial_schemas_sorted_` -/
  sorted : List Ty
  /-- `end_of_group_by_` -/
  group : Bool
  /-- `selection_column_indexes_.size()` -/
  nsel : Nat
deriving DecidableEq, Repr

/-- Insertion into the columns sorted by index. -/
def insCol (c : Col) : List Col → List Col
  | [] => [c]
  | d :: l => if c.index < d.index then c :: d :: l else d :: insCol c l

/-- `Utils::SortSerialSchemaVector`, `coprocessor/utils.cc:1067-1074`. -/
def sortCols : List Col → List Col
  | [] => []
  | c :: l => insCol c (sortCols l)

/-- The indexes of a sorted schema are 0, 1, ...: `Utils::CheckSerialSchema`,
`coprocessor/utils.cc:118-148`. -/
def checkIdx : List Col → Nat → Bool
  | [], _ => true
  | c :: l, i => decide (c.index = (i : Int)) && checkIdx l (i + 1)

/-- `Coprocessor::InitGroupBySerialSchema`, `coprocessor/coprocessor.cc:713-782`. -/
def initGroupBy (q : Req) (si : List Int) : Except Bad (List Ty × Option (List Ty)) :=
  if checkGroupBy q.groupBy si.length = false then .error .refused
  else match (if q.groupBy = [] then .ok [] else create q si q.groupBy) with
    | .error e => .error e
    | .ok ks =>
      if q.ops.all (checkOp si.length) = false then .error .refused
      else if q.ops = [] then .ok (ks, none)
      else match create q si (q.ops.map (fun o => opCol si.length o.2)) with
        | .error e => .error e
        | .ok os => .ok (ks, some os)

/-- The part of `Coprocessor::Open` that reads the result schema, and
`Coprocessor::CompareSerialSchema`, `coprocessor/coprocessor.cc:177-207`, `676-711`. -/
def openResult (q : Req) (n : Nat) (ks : List Ty) (os : Option (List Ty)) : Except Bad Plan :=
  match trans q.result with
  | .error e => .error e
  | .ok _ =>
    match mapE (fun c : Col => cloneTy c.ty) (sortCols q.result) with
    | .error e => .error e
    | .ok st =>
      if checkIdx (sortCols q.result) 0 = false then .error .refused
      else
        let g := !(ks.isEmpty && (os.getD []).isEmpty)
        if g = true ∧ q.result.length ≠ ks.length + (os.getD []).length then .error .refused
        else .ok ⟨ks, os, q.result.map (·.ty), st, g, n⟩

/-- `Coprocessor::Open`, `coprocessor/coprocessor.cc:60-223`. -/
def openReq (q : Req) : Except Bad Plan :=
  match trans q.orig with
  | .error e => .error e
  | .ok _ =>
    match origIndexes q with
    | .error e => .error e
    | .ok oi =>
      match selIndexes q oi with
      | .error e => .error e
      | .ok si =>
        match initGroupBy q si with
        | .error e => .error e
        | .ok (ks, os) => openResult q si.length ks os

/-! ## Aggregation functions -/

/-- The template instances, `coprocessor/aggregation_manager.cc:31-219`. -/
inductive Fn where
  | sum (t : Ty)
  | count (t : Ty)
  | countNull
  | max (t : Ty)
  | min (t : Ty)
deriving DecidableEq, Repr

/-- The types `SUM` is instantiated for, `coprocessor/aggregation_manager.cc:381-402`. -/
def sumTy : Ty → Bool
  | .bool | .int | .float | .long | .double => true
  | _ => false

/-- The types the others are instantiated for, `coprocessor/aggregation_manager.cc:404-495`. -/
def plainTy : Ty → Bool
  | .bool | .int | .float | .long | .double | .str => true
  | _ => false

/-- `Add...Function` as chosen in `AggregationManager::Open`,
`coprocessor/aggregation_manager.cc:242-313`, `381-495`. -/
def addFn (op : Op) (index : Int) (pt rt : Ty) : Except Bad Fn :=
  match op with
  | .sum | .sum0 => if sumTy pt ∧ rt = pt then .ok (.sum pt) else .error .refused
  | .count =>
    if index = -1 then (if plainTy pt ∧ rt = .long then .ok .countNull else .error .refused)
    else if plainTy pt ∧ rt = .long then .ok (.count pt) else .error .refused
  | .countNull => if plainTy pt ∧ rt = .long then .ok .countNull else .error .refused
  | .max => if plainTy pt ∧ rt = pt then .ok (.max pt) else .error .refused
  | .min => if plainTy pt ∧ rt = pt then .ok (.min pt) else .error .refused
  | .none => .error .refused

/-- The loop of `AggregationManager::Open`, `coprocessor/aggregation_manager.cc:237-315`; `i`
counts the operators, `start` is the first result column of an operator. -/
def openFns (opTys : List Ty) (result : List Ty) (start : Int) : List (Op × Int) → Nat → Except Bad (List Fn)
  | [], _ => .ok []
  | o :: l, i =>
    match idx opTys (i : Int) with
    | .error e => .error e
    | .ok pt =>
      match idx result ((i : Int) + start) with
      | .error e => .error e
      | .ok rt =>
        match addFn o.1 o.2 pt rt with
        | .error e => .error e
        | .ok f =>
          match openFns opTys result start l (i + 1) with
          | .error e => .error e
          | .ok fs => .ok (f :: fs)

/-- The initial value of a result column, `coprocessor/aggregation.cc:46-100`. -/
def initCell {F : Type} (e : Env F) (op : Op) (t : Ty) : Except Bad (Cell F) :=
  let z := decide (op = .count ∨ op = .countNull ∨ op = .sum0)
  match t with
  | .bool => .ok (.bool (if z then some false else none))
  | .int => .ok (.int (if z then some 0 else none))
  | .float => .ok (.float (if z then some e.f32.zero else none))
  | .long => .ok (.long (if z then some 0 else none))
  | .double => .ok (.double (if z then some e.f64.zero else none))
  | .str => .ok (.str (if z then some [] else none))
  | _ => .error .refused

/-- `Aggregation::Open`, `coprocessor/aggregation.cc:31-104`: the result columns from `start` on,
as long as there are operators. -/
def openAgg {F : Type} (e : Env F) (p : Plan) (ops : List (Op × Int)) : Except Bad (List (Cell F)) :=
  match p.opTys with
  | none => .error .crash
  | some os =>
    if p.result.length < os.length then .error .crash
    else mapE (fun x => initCell e x.1.1 x.2) (ops.zip (p.result.drop (p.result.length - os.length)))

/-- The sum of two 32-bit integers. -/
def add32 (a b : Int) : Except Bad Int :=
  if -2147483648 ≤ a + b ∧ a + b ≤ 2147483647 then .ok (a + b) else .error .crash

/-- The sum of two 64-bit integers. -/
def add64 (a b : Int) : Except Bad Int :=
  if -9223372036854775808 ≤ a + b ∧ a + b ≤ 9223372036854775807 then .ok (a + b) else .error .crash

/-- `SUM::operator()`, `coprocessor/aggregation_manager.cc:31-60`, for an addition of its type. -/
def sumV {α : Type} (add : α → α → Except Bad α) (p r : Option α) : Except Bad (Option α) :=
  match p, r with
  | some x, none => .ok (some x)
  | some x, some y =>
    match add y x with
    | .ok z => .ok (some z)
    | .error e => .error e
  | none, r => .ok r

/-- `COUNT::operator()`, `coprocessor/aggregation_manager.cc:62-86`. -/
def countV (isNull : Bool) (r : Option Int) : Except Bad (Option Int) :=
  if isNull then .ok r
  else match r with
    | none => .ok (some 1)
    | some y =>
      match add64 y 1 with
      | .ok z => .ok (some z)
      | .error e => .error e

/-- `COUNTWITHNULL::operator()`, `coprocessor/aggregation_manager.cc:88-107`. -/
def countNullV (r : Option Int) : Except Bad (Option Int) :=
  match r with
  | none => .ok (some 1)
  | some y =>
    match add64 y 1 with
    | .ok z => .ok (some z)
    | .error e => .error e

/-- `MAX::operator()`, `coprocessor/aggregation_manager.cc:109-163`, `MIN::operator()`, `165-219`;
`worse r p`: the value kept gives way to the new one. -/
def bestV {α : Type} (worse : α → α → Bool) (p r : Option α) : Option α :=
  match p, r with
  | some x, none => some x
  | some x, some y => if worse y x then some x else some y
  | none, r => r

/-- Order of `bool`. -/
def boolLt (a b : Bool) : Bool := !a && b

/-- An aggregation function on a column of a row and the result column; `refused`: `any_cast`
throws, `coprocessor/aggregation_manager.cc:31-219`. -/
def Fn.apply {F : Type} (e : Env F) (f : Fn) (p r : Cell F) : Except Bad (Cell F) :=
  match f with
  | .sum .bool =>
    match p, r with
    | .bool x, .bool y => (sumV (fun a b => .ok (a || b)) x y).map .bool
    | _, _ => .error .refused
  | .sum .int =>
    match p, r with
    | .int x, .int y => (sumV add32 x y).map .int
    | _, _ => .error .refused
  | .sum .float =>
    match p, r with
    | .float x, .float y => (sumV (fun a b => .ok (e.f32.add a b)) x y).map .float
    | _, _ => .error .refused
  | .sum .long =>
    match p, r with
    | .long x, .long y => (sumV add64 x y).map .long
    | _, _ => .error .refused
  | .sum .double =>
    match p, r with
    | .double x, .double y => (sumV (fun a b => .ok (e.f64.add a b)) x y).map .double
    | _, _ => .error .refused
  | .sum _ => .error .refused
  | .count t =>
    match r with
    | .long y => if p.ty = t then (countV p.isNull y).map .long else .error .refused
    | _ => .error .refused
  | .countNull =>
    match r with
    | .long y => (countNullV y).map .long
    | _ => .error .refused
  | .max t =>
    if p.ty ≠ t then .error .refused
    else match p, r with
    | .bool x, .bool y => .ok (.bool (bestV boolLt x y))
    | .int x, .int y => .ok (.int (bestV (fun a b => decide (a < b)) x y))
    | .float x, .float y => .ok (.float (bestV e.f32.lt x y))
    | .long x, .long y => .ok (.long (bestV (fun a b => decide (a < b)) x y))
    | .double x, .double y => .ok (.double (bestV e.f64.lt x y))
    | .str x, .str y => .ok (.str (bestV (fun a b => decide (a < b)) x y))
    | _, _ => .error .refused
  | .min t =>
    if p.ty ≠ t then .error .refused
    else match p, r with
    | .bool x, .bool y => .ok (.bool (bestV (fun a b => boolLt b a) x y))
    | .int x, .int y => .ok (.int (bestV (fun a b => decide (b < a)) x y))
    | .float x, .float y => .ok (.float (bestV (fun a b => e.f32.lt b a) x y))
    | .long x, .long y => .ok (.long (bestV (fun a b => decide (b < a)) x y))
    | .double x, .double y => .ok (.double (bestV (fun a b => e.f64.lt b a) x y))
    | .str x, .str y => .ok (.str (bestV (fun a b => decide (b < a)) x y))
    | _, _ => .error .refused

/-- `Aggregation::Execute`, `coprocessor/aggregation.cc:106-119`. -/
def execAgg {F : Type} (e : Env F) : List Fn → List (Cell F) → List (Cell F) → Except Bad (List (Cell F))
  | _, [], res => .ok res
  | f :: fs, p :: ps, r :: rs =>
    match f.apply e p r with
    | .error x => .error x
    | .ok r' =>
      match execAgg e fs ps rs with
      | .error x => .error x
      | .ok rs' => .ok (r' :: rs')
  | _, _ :: _, _ => .error .crash

/-- `AggregationManager`: its functions and its map of groups. -/
structure Mgr (F : Type) where
  fns : List Fn
  groups : CF Bytes (List (Cell F))

/-- `AggregationManager::Open`, `coprocessor/aggregation_manager.cc:224-318`. -/
def openMgr {F : Type} (p : Plan) (ops : List (Op × Int)) : Except Bad (Mgr F) :=
  match openFns (p.opTys.getD []) p.result ((p.result.length : Int) - ops.length) ops 0 with
  | .error e => .error e
  | .ok fs => .ok ⟨fs, CF.empty⟩

/-- What there is, or else what is made. -/
def orElse {α : Type} (a : Option α) (mk : Except Bad α) : Except Bad α :=
  match a with
  | some a => .ok a
  | none => mk

/-- `AggregationManager::Execute`, `coprocessor/aggregation_manager.cc:320-352`. -/
def Mgr.exec {F : Type} (e : Env F) (p : Plan) (ops : List (Op × Int)) (m : Mgr F) (key : Bytes)
    (vals : List (Cell F)) : Except Bad (Mgr F) :=
  match orElse (m.groups.get key) (openAgg e p ops) with
  | .error x => .error x
  | .ok a =>
    match execAgg e m.fns vals a with
    | .error x => .error x
    | .ok a' => .ok { m with groups := m.groups.put key a' }

/-! ## Rows -/

/-- The values of columns of a row, cast to the types expected of them,
`coprocessor/coprocessor.cc:403-445`. -/
def pick {F : Type} (r : List (Cell F)) : List Int → List Ty → Except Bad (List (Cell F))
  | [], _ => .ok []
  | i :: l, ts =>
    match idx r i with
    | .error e => .error e
    | .ok c =>
      match ts with
      | [] => .error .crash
      | t :: ts =>
        match clone c t with
        | .error e => .error e
        | .ok c =>
          match pick r l ts with
          | .error e => .error e
          | .ok cs => .ok (c :: cs)

/-- The key of a row's group, `coprocessor/coprocessor.cc:447-465`. -/
def groupKey {F : Type} (e : Env F) (p : Plan) (ks : List (Cell F)) : Except Bad Bytes :=
  if p.keyTys = [] then .ok []
  else match e.encKey ks with
    | some b => .ok b
    | none => .error .refused

/-- A scan with a coprocessor: the coprocessor's state and the rows ahead of the iterator. -/
structure Ses (F : Type) where
  /-- `aggregation_manager_` -/
  mgr : Option (Mgr F)
  /-- `aggregation_iterator_`: the groups still to be returned -/
  it : Option (List (Bytes × List (Cell F)))
  /-- what the scan's iterator has ahead -/
  rows : List KV

/-- `Coprocessor::DoExecuteForAggregation`, `coprocessor/coprocessor.cc:394-485`. -/
def aggRow {F : Type} (e : Env F) (q : Req) (p : Plan) (m : Option (Mgr F)) (r : List (Cell F)) :
    Except Bad (Mgr F) :=
  match pick r q.groupBy p.keyTys with
  | .error x => .error x
  | .ok ks =>
    match pick r (q.ops.map (fun o => opCol p.nsel o.2)) (p.opTys.getD []) with
    | .error x => .error x
    | .ok vs =>
      match groupKey e p ks with
      | .error x => .error x
      | .ok key =>
        match orElse m (openMgr p q.ops) with
        | .error x => .error x
        | .ok m => m.exec e p q.ops key vs

/-- Decoding a row and the expression, `coprocessor/coprocessor.cc:295-370`: the columns of a
row that is kept. -/
def readRow {F : Type} (e : Env F) (q : Req) (kv : KV) : Except Bad (Option (List (Cell F))) :=
  match e.decode kv with
  | none => .error .refused
  | some r =>
    if q.expr then
      match e.keep r with
      | none => .error .refused
      | some true => .ok (some r)
      | some false => .ok none
    else .ok (some r)

/-- `Coprocessor::DoExecuteForSelection`, `coprocessor/coprocessor.cc:487-513`: a row that cannot
be encoded is skipped (the status returned is `OK`). -/
def selRow {F : Type} (e : Env F) (r : List (Cell F)) : Except Bad (Option KV) :=
  match e.encRow r with
  | .kv x => .ok (some x)
  | .neg => .ok none
  | .throws => .error .refused

/-- `Coprocessor::DoExecute`, `coprocessor/coprocessor.cc:291-392`: the manager afterwards and the
pair to return. -/
def doRow {F : Type} (e : Env F) (q : Req) (p : Plan) (m : Option (Mgr F)) (kv : KV) :
    Except Bad (Option (Mgr F) × Option KV) :=
  match readRow e q kv with
  | .error x => .error x
  | .ok none => .ok (m, none)
  | .ok (some r) =>
    if p.group then
      match aggRow e q p m r with
      | .error x => .error x
      | .ok m => .ok (some m, none)
    else
      match selRow e r with
      | .error x => .error x
      | .ok kv => .ok (m, kv)

/-- How much a request may return. -/
structure Lim where
  keyOnly : Bool
  maxCnt : Nat
  maxBytes : Int
deriving DecidableEq, Repr

/-- `result_key_value.set_value("")` if only keys are asked for. -/
def strip (l : Lim) (kv : KV) : KV := if l.keyOnly then (kv.1, []) else kv

/-- The loop of `Coprocessor::Execute`, `coprocessor/coprocessor.cc:234-268`: the pairs, whether
the limit was reached, the manager and the rows left. -/
def rowLoop {F : Type} (e : Env F) (q : Req) (p : Plan) (l : Lim) :
    List KV → Nat → Int → Option (Mgr F) → Except Bad (List KV × Bool × Option (Mgr F) × List KV)
  | [], _, _, m => .ok ([], false, m, [])
  | kv :: rows, cnt, bytes, m =>
    match doRow e q p m kv with
    | .error x => .error x
    | .ok (m, none) => rowLoop e q p l rows cnt bytes m
    | .ok (m, some out) =>
      if (uptoLimit l.keyOnly l.maxCnt l.maxBytes cnt bytes (strip l out)).1 then
        .ok ([strip l out], true, m, rows)
      else
        match rowLoop e q p l rows (uptoLimit l.keyOnly l.maxCnt l.maxBytes cnt bytes (strip l out)).2.1
            (uptoLimit l.keyOnly l.maxCnt l.maxBytes cnt bytes (strip l out)).2.2 m with
        | .error x => .error x
        | .ok (kvs, b, m, rows) => .ok (strip l out :: kvs, b, m, rows)

/-- The columns of a group's result, cast to the types of the result schema,
`coprocessor/coprocessor.cc:553-586`. -/
def castAll {F : Type} : List (Cell F) → List Ty → Except Bad (List (Cell F))
  | [], _ => .ok []
  | _ :: _, [] => .error .crash
  | c :: cs, t :: ts =>
    match clone c t with
    | .error e => .error e
    | .ok c =>
      match castAll cs ts with
      | .error e => .error e
      | .ok cs => .ok (c :: cs)

/-- One group of `Coprocessor::GetKeyValueFromAggregation`, `coprocessor/coprocessor.cc:530-601`. -/
def emit {F : Type} (e : Env F) (p : Plan) (g : Bytes × List (Cell F)) : Except Bad KV :=
  match (if p.keyTys = [] then some [] else e.decKey g.1) with
  | none => .error .refused
  | some ks =>
    match castAll (ks ++ g.2) p.sorted with
    | .error x => .error x
    | .ok r =>
      match e.encRow r with
      | .kv kv => .ok kv
      | _ => .error .refused

/-- The loop of `Coprocessor::GetKeyValueFromAggregation`, `coprocessor/coprocessor.cc:515-620`. -/
def emitLoop {F : Type} (e : Env F) (p : Plan) (l : Lim) :
    List (Bytes × List (Cell F)) → Nat → Int → Except Bad (List KV × List (Bytes × List (Cell F)))
  | [], _, _ => .ok ([], [])
  | g :: gs, cnt, bytes =>
    match emit e p g with
    | .error x => .error x
    | .ok out =>
      if (uptoLimit l.keyOnly l.maxCnt l.maxBytes cnt bytes (strip l out)).1 then
        .ok ([strip l out], gs)
      else
        match emitLoop e p l gs (uptoLimit l.keyOnly l.maxCnt l.maxBytes cnt bytes (strip l out)).2.1
            (uptoLimit l.keyOnly l.maxCnt l.maxBytes cnt bytes (strip l out)).2.2 with
        | .error x => .error x
        | .ok (kvs, gs) => .ok (strip l out :: kvs, gs)

/-- `Coprocessor::Execute`, `coprocessor/coprocessor.cc:225-275`: one page. -/
def page {F : Type} (e : Env F) (q : Req) (p : Plan) (l : Lim) (s : Ses F) : Except Bad (List KV × Ses F) :=
  match rowLoop e q p l s.rows 0 0 s.mgr with
  | .error x => .error x
  | .ok (kvs, true, m, rows) => .ok (kvs, { s with mgr := m, rows := rows })
  | .ok (kvs, false, m, rows) =>
    if p.group then
      match m with
      | none => .ok (kvs, { s with mgr := m, rows := rows })
      | some mg =>
        match emitLoop e p l (s.it.getD mg.groups.l) 0 0 with
        | .error x => .error x
        | .ok (out, gs) => .ok (kvs ++ out, { s with mgr := m, rows := rows, it := some gs })
    else .ok (kvs, { s with mgr := m, rows := rows })

/-- A scan session's requests one after the other (Begin, Continue, ...): the pages. -/
def pages {F : Type} (e : Env F) (q : Req) (p : Plan) : List Lim → Ses F → Except Bad (List (List KV) × Ses F)
  | [], s => .ok ([], s)
  | l :: ls, s =>
    match page e q p l s with
    | .error x => .error x
    | .ok (kvs, s) =>
      match pages e q p ls s with
      | .error x => .error x
      | .ok (r, s) => .ok (kvs :: r, s)

/-- The coprocessor after `Open`, over the rows of the scan. -/
def start {F : Type} (rows : List KV) : Ses F := ⟨none, none, rows⟩

end Verif.Coproc
