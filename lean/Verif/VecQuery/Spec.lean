import Verif.VecQuery.Model

/-!
# Vector queries: specification

What a user means by the vectors of a region, in terms of the writes only.
-/

namespace Verif.VecQuery

/-- The timestamp of a write. -/
def Op.ts : Op → Int
  | .add ts _ _ => ts
  | .del ts _ => ts

/-- What a write says about a vector: nothing; that it is deleted; or what it is,
and when it expires (0: never).  Of several vectors with one id in a request the
last counts. -/
def Op.says (id : Int) : Op → Option (Option (Int × VecIn))
  | .add _ ttl vs => (vs.reverse.find? fun v => v.id = id).map fun v => some (ttl, v)
  | .del _ ids => if id ∈ ids then some none else none

/-- A write counts for a read at `ts` (0 or less: the newest state). -/
def Op.before (ts : Int) (o : Op) : Prop := ts > 0 → o.ts ≤ ts

/-- `o` is the write that decides about `id` for a read at `ts`: of the writes that
say something about it the one with the greatest timestamp, of several with that
timestamp the last. -/
def Decides (ops : List Op) (ts : Int) (id : Int) (o : Op) : Prop :=
  o.says id ≠ none ∧ o.before ts ∧
  ∃ a b, ops = a ++ o :: b ∧
    (∀ o' ∈ a, o'.says id ≠ none → o'.before ts → o'.ts ≤ o.ts) ∧
    (∀ o' ∈ b, o'.says id ≠ none → o'.before ts → o'.ts < o.ts)

/-- At `ts`, at the time `now`, there is a vector `v.id` and it is `v`, with time of
expiry `ttl` (0: never). -/
def Shows (ops : List Op) (ts now : Int) (ttl : Int) (v : VecIn) : Prop :=
  (∃ o, Decides ops ts v.id o ∧ o.says v.id = some (some (ttl, v))) ∧ (ttl = 0 ∨ now ≤ ttl)

/-- There is a vector `id`. -/
def Exists (ops : List Op) (ts now : Int) (id : Int) : Prop := ∃ ttl v, Shows ops ts now ttl v ∧ v.id = id

/-- A write the service accepts (`ValidateVectorAddRequest`,
`ValidateVectorDeleteRequest`): ids are positive, the names of scalar fields
differ and the schema is respected; timestamps are `int64`. -/
def Op.Valid (schema : List Field) : Op → Prop
  | .add ts ttl vs =>
    ts < 2 ^ 63 ∧ 0 ≤ ttl ∧ ∀ v ∈ vs, 0 < v.id ∧ (v.scalar.map (·.1)).Nodup ∧ validScalar schema v.scalar = true
  | .del ts ids => ts < 2 ^ 63 ∧ ∀ id ∈ ids, 0 ≤ id

/-- A history the service accepts. -/
def Valid (schema : List Field) (ops : List Op) : Prop := ∀ o ∈ ops, o.Valid schema

/-- Every field asked for is a field of the vector, with that value. -/
def Matches (std s : Scalar) : Prop := ∀ p ∈ std, p ∈ s

/-- A filter of fields that can be compared: none is a `DATETIME` or of no type. -/
def Comparable (std : Scalar) : Prop := ∀ p ∈ std, p.2.ftype ≠ .datetime ∧ p.2.ftype ≠ .none

/-- The entry of a response for a vector. -/
def entryOf (w : Want) (v : VecIn) : Entry :=
  { id := some v.id
    vec := if w.vec then some v.vec else none
    scalar := if w.scalar then some (if w.keys = [] then v.scalar else v.scalar.filter fun p => decide (p.1 ∈ w.keys)) else none
    table := if w.table then some v.table else none }

/-- All reads see the state after `ops`, at the time `now`. -/
def quiet (schema : List Field) (ops : List Op) (now : Int) : Worlds := fun _ => ⟨run schema ops, now⟩

/-- Every vector that expires has scalar data. -/
def ScalarKept (ops : List Op) : Prop :=
  ∀ o ∈ ops, ∀ ts ttl vs, o = .add ts ttl vs → ttl ≠ 0 → ∀ v ∈ vs, v.scalar ≠ []

/-- Every vector that expires has table data. -/
def TableKept (ops : List Op) : Prop :=
  ∀ o ∈ ops, ∀ ts ttl vs, o = .add ts ttl vs → ttl ≠ 0 → ∀ v ∈ vs, v.table.bytes ≠ []

/-- `id` is among those a scan asks for. -/
def ScanReq.Asks (q : ScanReq) (g : Region) (id : Int) : Prop :=
  g.lo ≤ id ∧ id < g.hi ∧
  if q.reverse then id ≤ q.start ∧ (q.stop = 0 ∨ q.stop ≤ id)
  else q.start ≤ id ∧ (q.stop = 0 ∨ id ≤ q.stop)

/-- The filter of a scan accepts `v`. -/
def ScanReq.Takes (q : ScanReq) (v : VecIn) : Prop := ∀ std, q.filter = some std → Matches std v.scalar

end Verif.VecQuery
