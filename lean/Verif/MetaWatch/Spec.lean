import Verif.MetaWatch.Model

/-!
What the claims about watches of metadata changes are stated with: what has been sent, what should
be, and what has happened.
-/

namespace Verif.MetaWatch

/-- All events sent, in the order of sending. -/
def delivered (s : St) : List (Nat × Nat) := s.out.flatMap (·.events)

/-- The events of watched types among some records. -/
def matching (types : List Nat) (l : List Rec) : List (Nat × Nat) :=
  l.flatMap fun r => (r.2.filter fun e => types.contains e).map fun e => (r.1, e)

/-- The changes recorded in a history of steps. -/
def puts : List Op → List Rec
  | [] => []
  | .put rev evs :: l => (rev, evs) :: puts l
  | _ :: l => puts l

end Verif.MetaWatch
