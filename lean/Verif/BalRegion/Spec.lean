import Verif.BalRegion.Model

/-!
# Balancing regions: what is claimed
-/

namespace Verif.BalRegion

/-- What a store has used, by the number of its regions and by its capacity, in thousandths. -/
def used (w : World) (m : Load) : Int :=
  w.ratio * (m.regions.length * w.unit) + (1000 - w.ratio : Int) * (m.total - m.free : Int)

/-- The share of its capacity that `a` has used is larger than that of `b`, by more than `d` thousandths. -/
def Fuller (w : World) (d : Int) (a b : Load) : Prop :=
  d * (a.total * b.total) < used w a * b.total - used w b * a.total

/-- The stores a pass looks at. -/
def Live (w : World) (s : Node) (m : Load) : Prop := s ∈ w.nodes ∧ s.id ≠ 0 ∧ s.normal = true ∧ s.load = some m

/-- All of them have reported their capacity. -/
def Known (w : World) : Prop := ∀ s m, Live w s m → 0 < m.total

/-- The region has a replica on the store that is not the leader. -/
def Follows (w : World) (r : Reg) (s : Node) : Prop := r ∈ w.regions ∧ r.leader ≠ 0 ∧ r.leader ≠ s.id ∧ s.id ∈ r.peers

/-- A replica of the region may go to a store with this load. -/
def Fits (m : Load) (r : Reg) (sz : Nat) : Prop := r.size = some sz ∧ 0 < sz ∧ sz < m.free ∧ r.id ∉ m.regions

end Verif.BalRegion
