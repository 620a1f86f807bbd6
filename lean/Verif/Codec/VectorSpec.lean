import Verif.Codec.Vector

/-!
# Keys of vectors and documents (specification)
-/

namespace Verif.Codec

/-- A logical key of an index region: a partition, an id in a partition, or a scalar
field of an id. -/
inductive VKey where
  | part (p : Int)
  | id (p i : Int)
  | scalar (p i : Int) (s : Bytes)
  deriving DecidableEq

/-- Partition of a logical key. -/
def VKey.p : VKey → Int
  | .part p => p
  | .id p _ => p
  | .scalar p _ _ => p

/-- Arguments the API accepts: positive partition, non-negative id, non-empty field. -/
def VKey.Valid : VKey → Prop
  | .part p => 0 < p ∧ p < 2 ^ 63
  | .id p i => 0 < p ∧ p < 2 ^ 63 ∧ 0 ≤ i ∧ i < 2 ^ 63
  | .scalar p i s => 0 < p ∧ p < 2 ^ 63 ∧ 0 ≤ i ∧ i < 2 ^ 63 ∧ s ≠ []

/-- The intended order: by partition; within a partition the partition itself, then by id;
within an id the id itself, then by field. -/
def VKey.before : VKey → VKey → Prop
  | .part p, .part p' => p < p'
  | .part p, .id p' _ => p ≤ p'
  | .part p, .scalar p' _ _ => p ≤ p'
  | .id p _, .part p' => p < p'
  | .id p i, .id p' i' => p < p' ∨ p = p' ∧ i < i'
  | .id p i, .scalar p' i' _ => p < p' ∨ p = p' ∧ i ≤ i'
  | .scalar p _ _, .part p' => p < p'
  | .scalar p i _, .id p' i' => p < p' ∨ p = p' ∧ i < i'
  | .scalar p i s, .scalar p' i' s' => p < p' ∨ p = p' ∧ (i < i' ∨ i = i' ∧ s < s')

/-- The bytes the code makes for a logical key. -/
def VKey.bytes (pre : UInt8) : VKey → Option Bytes
  | .part p => packagePart pre p
  | .id p i => packageId pre p i
  | .scalar p i s => packageScalar pre p i s

/-- A region with this range holds this key. -/
def Holds (start stop key : Bytes) : Prop := start ≤ key ∧ key < stop

instance (start stop key : Bytes) : Decidable (Holds start stop key) :=
  inferInstanceAs (Decidable (_ ∧ _))

/-- The ranges a client creates regions with: `[p, stop)` or `[(p, a), stop)` where the
end is an id of the same partition, or another partition as a whole. -/
def Regular : VKey → VKey → Prop
  | .part p, .part p' => p ≤ p'
  | .part p, .id p' b => p = p' ∨ p < p' ∧ b = 0
  | .id p _, .part p' => p ≤ p'
  | .id p _, .id p' b => p = p' ∨ p < p' ∧ b = 0
  | _, _ => False

end Verif.Codec
