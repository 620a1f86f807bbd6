import Verif.Coproc.Model

/-!
# Filters, projections and aggregates computed by the store (specification)

What a query that groups rows and aggregates columns must return, stated on the rows
themselves.
-/

namespace Verif.Coproc
open Verif.Codec Verif.Scan

variable {F : Type}

/-- The rows that satisfy the expression, as records of the selected columns. -/
def kept (e : Env F) (q : Req) (rows : List KV) : List (List (Cell F)) :=
  rows.filterMap fun kv =>
    match e.decode kv with
    | none => none
    | some r => if q.expr = false ∨ e.keep r = some true then some r else none

/-- The number of columns selected: all of the table's if none are named. -/
def width (q : Req) : Nat := if q.sel = [] then q.orig.length else q.sel.length

/-- The group a row belongs to: the values of its group-by columns. -/
def keyOf (q : Req) (r : List (Cell F)) : List (Cell F) := q.groupBy.filterMap fun i => r[i.toNat]?

/-- What an aggregation computes. -/
inductive Agg where
  | sum | sum0 | count | rows | max | min
deriving DecidableEq

/-- `COUNT` of column -1 counts rows, and so does `COUNTWITHNULL`. -/
def meaning : Op → Int → Option Agg
  | .sum, _ => some .sum
  | .sum0, _ => some .sum0
  | .count, i => if i = -1 then some .rows else some .count
  | .countNull, _ => some .rows
  | .max, _ => some .max
  | .min, _ => some .min
  | .none, _ => none

/-- The column an aggregation is about: the one named if there is such a column, or else the
first. -/
def colOf (q : Req) (i : Int) : Nat := if 0 ≤ i ∧ i < width q then i.toNat else 0

/-- The column of some rows. -/
def column (i : Nat) (rows : List (List (Cell F))) : List (Cell F) := rows.filterMap (·[i]?)

/-- The values that are not null. -/
def there {α : Type} (l : List (Option α)) : List α := l.filterMap id

/-- A sum, from left to right: null (or zero, for `SUM0`) if there is nothing to add. -/
def total {α : Type} (add : α → α → α) (zero : α) (orZero : Bool) : List α → Option α
  | [] => if orZero then some zero else none
  | v :: vs => if orZero then some ((v :: vs).foldl add zero) else some (vs.foldl add v)

/-- `o` is the best of the values in an order: null if there are none. -/
def Best {α : Type} (le : α → α → Prop) (vs : List α) : Option α → Prop
  | none => vs = []
  | some m => m ∈ vs ∧ ∀ v ∈ vs, le v m

/-- The value kept by going through the values and taking those that are better. -/
def lastBetter {α : Type} (worse : α → α → Bool) : List α → Option α
  | [] => none
  | v :: vs => some (vs.foldl (fun m v => if worse m v then v else m) v)

/-- `out` is the sum of the column. -/
def SumIs (e : Env F) (orZero : Bool) (cells : List (Cell F)) (out : Cell F) : Prop :=
  (∃ l, cells = l.map .bool ∧ out = .bool (total (fun a b => a || b) false orZero (there l))) ∨
  (∃ l, cells = l.map .int ∧ out = .int (total (· + ·) 0 orZero (there l))) ∨
  (∃ l, cells = l.map .float ∧ out = .float (total e.f32.add e.f32.zero orZero (there l))) ∨
  (∃ l, cells = l.map .long ∧ out = .long (total (· + ·) 0 orZero (there l))) ∨
  (∃ l, cells = l.map .double ∧ out = .double (total e.f64.add e.f64.zero orZero (there l)))

/-- `out` is the greatest value of the column. -/
def MaxIs (e : Env F) (cells : List (Cell F)) (out : Cell F) : Prop :=
  (∃ l o, cells = l.map .bool ∧ out = .bool o ∧ Best (fun a b => a = true → b = true) (there l) o) ∨
  (∃ l o, cells = l.map .int ∧ out = .int o ∧ Best (fun a b => a ≤ b) (there l) o) ∨
  (∃ l, cells = l.map .float ∧ out = .float (lastBetter e.f32.lt (there l))) ∨
  (∃ l o, cells = l.map .long ∧ out = .long o ∧ Best (fun a b => a ≤ b) (there l) o) ∨
  (∃ l, cells = l.map .double ∧ out = .double (lastBetter e.f64.lt (there l))) ∨
  (∃ l o, cells = l.map .str ∧ out = .str o ∧ Best (fun a b => ¬ b < a) (there l) o)

/-- `out` is the least value of the column. -/
def MinIs (e : Env F) (cells : List (Cell F)) (out : Cell F) : Prop :=
  (∃ l o, cells = l.map .bool ∧ out = .bool o ∧ Best (fun a b => b = true → a = true) (there l) o) ∨
  (∃ l o, cells = l.map .int ∧ out = .int o ∧ Best (fun a b => b ≤ a) (there l) o) ∨
  (∃ l, cells = l.map .float ∧ out = .float (lastBetter (fun a b => e.f32.lt b a) (there l))) ∨
  (∃ l o, cells = l.map .long ∧ out = .long o ∧ Best (fun a b => b ≤ a) (there l) o) ∨
  (∃ l, cells = l.map .double ∧ out = .double (lastBetter (fun a b => e.f64.lt b a) (there l))) ∨
  (∃ l o, cells = l.map .str ∧ out = .str o ∧ Best (fun a b => ¬ a < b) (there l) o)

/-- `out` is what the aggregation must give for the column `cells`. -/
def AggIs (e : Env F) (cells : List (Cell F)) (out : Cell F) : Agg → Prop
  | .sum => SumIs e false cells out
  | .sum0 => SumIs e true cells out
  | .count => out = .long (some ((cells.filter (fun c => !c.isNull)).length : Int))
  | .rows => out = .long (some (cells.length : Int))
  | .max => MaxIs e cells out
  | .min => MinIs e cells out

/-- The rows of a group. -/
def groupOf [DecidableEq F] (q : Req) (recs : List (List (Cell F))) (k : List (Cell F)) : List (List (Cell F)) :=
  recs.filter (fun r => decide (keyOf q r = k))

/-- `r` is the result for the group `k`: the group-by columns, then one column for each
aggregation. -/
structure GroupRow [DecidableEq F] (e : Env F) (q : Req) (recs : List (List (Cell F))) (k r : List (Cell F)) :
    Prop where
  key : r.take q.groupBy.length = k
  len : r.length = q.groupBy.length + q.ops.length
  agg : ∀ (j : Nat) (o : Op × Int), q.ops[j]? = some o → ∃ m c, meaning o.1 o.2 = some m ∧
    r[q.groupBy.length + j]? = some c ∧ AggIs e (column (colOf q o.2) (groupOf q recs k)) c m

/-- `res` has one result for each group there is among the rows, in the order of the encoded keys. -/
structure Groups [DecidableEq F] (e : Env F) (q : Req) (recs : List (List (Cell F)))
    (res : List (List (Cell F))) : Prop where
  once : (res.map (·.take q.groupBy.length)).Nodup
  all : ∀ k, k ∈ res.map (·.take q.groupBy.length) ↔ ∃ r ∈ recs, keyOf q r = k
  row : ∀ r ∈ res, GroupRow e q recs (r.take q.groupBy.length) r
  order : res.Pairwise (fun a b => ∀ x y, e.encKey (a.take q.groupBy.length) = some x →
    e.encKey (b.take q.groupBy.length) = some y → x < y)

/-- A result as it is sent; only its key if only keys are asked for. -/
def sent (e : Env F) (ko : Bool) (r : List (Cell F)) : Option KV :=
  match e.encRow r with
  | .kv x => some (if ko then (x.1, []) else x)
  | _ => none

/-- The codec of group-by keys reads back what it wrote. -/
def KeyCodec (e : Env F) : Prop := ∀ l b, e.encKey l = some b → e.decKey b = some l

/-! ## Requests that make sense -/

/-- The type of the table's column with an index. -/
def byIndex (q : Req) (k : Int) : Option Ty := (q.orig.find? (fun c => decide (c.index = k))).map (·.ty)

/-- The type of the selected column at a position. -/
def colTy (q : Req) (i : Nat) : Option Ty :=
  if q.sel = [] then byIndex q i else q.sel[i]?.bind (byIndex q)

/-- The schema numbers its columns 0, 1, ..., and the selected columns are among them; no column
that is returned, grouped by or aggregated is a decimal. -/
structure WellFormed (q : Req) : Prop where
  range : ∀ c ∈ q.orig, 0 ≤ c.index ∧ c.index < q.orig.length
  once : (q.orig.map (·.index)).Nodup
  full : ∀ i : Nat, i < q.orig.length → ∃ c ∈ q.orig, c.index = (i : Int)
  sel : ∀ i ∈ q.sel, 0 ≤ i ∧ i < q.orig.length
  groupTy : ∀ i ∈ q.groupBy, colTy q i.toNat ≠ some .decimal
  opTy : ∀ o ∈ q.ops, colTy q (colOf q o.2) ≠ some .decimal
  resTy : ∀ c ∈ q.result, c.ty ≠ .decimal

/-- The columns an operator can be about: only `COUNT` and `COUNTWITHNULL` need no column. -/
def OpOk (n : Nat) (o : Op × Int) : Prop :=
  o.1 ≠ .none ∧ (o.2 ≥ n → o.1 = .countNull) ∧ (o.2 < 0 → o.1 = .count ∨ o.1 = .countNull)

/-- What the store demands of a request. -/
structure Acceptable (q : Req) : Prop where
  noLists : ∀ c ∈ q.orig ++ q.result, c.ty ≠ .decimalList
  groupBy : ∀ i ∈ q.groupBy, 0 ≤ i ∧ i < width q
  ops : ∀ o ∈ q.ops, OpOk (width q) o
  /-- the result's columns are numbered 0, 1, ..., in whatever order they are given -/
  result : (∀ c ∈ q.result, 0 ≤ c.index ∧ c.index < q.result.length) ∧ (q.result.map (·.index)).Nodup
  size : q.orig ≠ [] → q.groupBy ≠ [] ∨ q.ops ≠ [] → q.result.length = q.groupBy.length + q.ops.length

/-- The types an operator can be applied to, and the type of what it returns. -/
def Suits : Op → Ty → Ty → Prop
  | .sum, t, r | .sum0, t, r => t ∈ [.bool, .int, .float, .long, .double] ∧ r = t
  | .count, t, r | .countNull, t, r => t ∈ [.bool, .int, .float, .long, .double, .str] ∧ r = .long
  | .max, t, r | .min, t, r => t ∈ [.bool, .int, .float, .long, .double, .str] ∧ r = t
  | .none, _, _ => False

/-- The result schema has the types of the group-by columns and of the aggregates. -/
structure Fits (q : Req) : Prop where
  inOrder : ∀ (i : Nat) (c : Col), q.result[i]? = some c → c.index = (i : Int)
  keys : ∀ (i : Nat) (k : Int), q.groupBy[i]? = some k → ∃ c, q.result[i]? = some c ∧ colTy q k.toNat = some c.ty
  any : q.ops ≠ []
  aggs : ∀ (j : Nat) (o : Op × Int), q.ops[j]? = some o → ∃ t c, colTy q (colOf q o.2) = some t ∧
    q.result[q.groupBy.length + j]? = some c ∧ Suits o.1 t c.ty

/-- The absolute value of an integer; 0 for anything else. -/
def magnitude : Cell F → Nat
  | .int (some v) => v.natAbs
  | .long (some v) => v.natAbs
  | _ => 0

/-- The rows can be decoded to the types of the selected columns, the expression evaluated, the keys
of groups and the results encoded; the values that are summed up are not too large and there are
not too many rows. -/
structure Readable (e : Env F) (q : Req) (rows : List KV) : Prop where
  row : ∀ kv ∈ rows, ∃ r, e.decode kv = some r ∧ (q.expr = true → ∃ b, e.keep r = some b) ∧
    ∀ i, i < width q → ∃ c, r[i]? = some c ∧ colTy q i = some c.ty
  key : q.groupBy ≠ [] → ∀ r ∈ kept e q rows, ∃ b, e.encKey (keyOf q r) = some b
  result : ∀ r : List (Cell F), r.map Cell.ty = q.result.map (·.ty) → ∃ kv, e.encRow r = .kv kv
  sum32 : ∀ o ∈ q.ops, o.1 = .sum ∨ o.1 = .sum0 → colTy q (colOf q o.2) = some .int →
    ((column (colOf q o.2) (kept e q rows)).map magnitude).sum ≤ 2147483647
  sum64 : ∀ o ∈ q.ops, o.1 = .sum ∨ o.1 = .sum0 → colTy q (colOf q o.2) = some .long →
    ((column (colOf q o.2) (kept e q rows)).map magnitude).sum ≤ 9223372036854775807
  many : rows.length < 9223372036854775807

end Verif.Coproc
