import Verif.Balance.Model

/-!
# Balancing leaders: what is claimed
-/

namespace Verif.Balance

/-- The number of regions a store leads. -/
def count (rs : List Reg) (s : Nat) : Nat := (rs.filter fun r => r.leader == s).length

/-- What the coordinator knows is in order: ids are unique, no region has two replicas on a store,
a leader is one of the replicas, and there is no store 0. -/
structure Ok (w : World) : Prop where
  ids : (w.regions.map Reg.id).Nodup
  stores : (w.stores.map Store.id).Nodup
  peers : ∀ r ∈ w.regions, (r.peers.map Peer.store).Nodup
  leader : ∀ r ∈ w.regions, r.leader ≠ 0 → ∃ p ∈ r.peers, p.store = r.leader
  zero : ∀ s ∈ w.stores, s.id ≠ 0

/-- The region has reported that it is in order. -/
def Fit (w : World) (r : Nat) : Prop :=
  ∃ m, w.metric r = some m ∧ m.normal = true ∧ m.raft = true ∧ m.replica = true ∧ m.online = true ∧ m.unstable = 0 ∧ m.pending ≤ 10

/-- The store has more memory free than the vector index of the region takes, if it has one. -/
def Room (w : World) (s r : Nat) : Prop :=
  ∃ f m, w.free s = some f ∧ w.metric r = some m ∧ ∀ b, m.memory = some b → 0 < b ∧ b < f

/-- The product of the weights. -/
def weights : List Store → Int
  | [] => 1
  | s :: l => weightOf s.weight * weights l

/-- How far the leaders are from being balanced: the sum of the squares of the numbers of leaders,
each over the weight of its store (times the product of the weights, to have whole numbers). -/
def spread (w : World) : Int :=
  (w.stores.map fun s => (count w.regions s.id : Int) * count w.regions s.id * (weights w.stores / weightOf s.weight)).sum

/-- Passes one after the other, each carried out; what the coordinator knows of health, room and
jobs may change between them. -/
inductive Passes : World → List Task → World → Prop
  | nil (w) : Passes w [] w
  | cons {w w' w'' : World} {rnd : Nat → Nat} {n : Nat} {l l' : List Task} (h : schedule w rnd n = some l)
      (hr : w'.regions = (carry w l).regions) (hs : w'.stores = w.stores) (h' : Passes w' l' w'') :
      Passes w (l ++ l') w''

end Verif.Balance
