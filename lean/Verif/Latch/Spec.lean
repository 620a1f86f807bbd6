import Verif.Latch.Model

/-!
# Latches: what the theorems talk about
-/

namespace Verif.Latch

/-- The keys of every request of a history have a hash other than 0. -/
def NoZero (e : Env) (es : List Ev) : Prop :=
  ∀ c keys, Ev.start c keys ∈ es → ∀ k ∈ keys, e.hash k ≠ 0

/-- Request `c` is being executed: it was granted its latches and has not begun to release
them. -/
def Executing (s : State) (c : Cid) : Prop := (s.thr c).pc = .hold

/-- Request `c` exists. -/
def Live (s : State) (c : Cid) : Prop := (s.thr c).pc ≠ .idle

/-- The keys of the last request under the name `c`. -/
def lastAsked (c : Cid) (es : List Ev) : Option (List (List UInt8)) :=
  es.foldl (fun r v => match v with
    | .start d keys => if d = c then some keys else r
    | _ => r) none

/-- How many events of request `c` (other than its arrival) a history has. -/
def moves (c : Cid) (es : List Ev) : Nat :=
  es.countP fun v => v == .run c || v == .finish c

/-- How many keys the requests under the name `c` asked for, and how many such requests
there are. -/
def asked (c : Cid) : List Ev → Nat
  | [] => 0
  | .start d keys :: es => (if d = c then 6 * keys.length + 4 else 0) + asked c es
  | _ :: es => asked c es

/-- The requests that have asked for a hash and not given it back, in the order in which
they asked. -/
def line (e : Env) (s : State) (h : Nat) : List Cid :=
  (s.slots (slotOf e h)).filterMap fun x => if x.1 = h then some x.2 else none

end Verif.Latch
