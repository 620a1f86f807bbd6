import Verif.Ctl.Model

/-!
# The commands a store carries out (specification vocabulary)
-/

namespace Verif.Ctl
open Verif.Codec (Bytes)
open Verif.Region (RState Range)

/-- The command the worker of a region is carrying out, and its step. -/
def cur (s : St) (r : Nat) : Option (Cmd × Nat) := (s.exec r).bind (·.run)

/-- Two ranges without a common key. -/
def Apart (a b : Range) : Prop := ∀ k, inRange a k = true → inRange b k = false

/-- The worker of `r` has checked that a region may be created on `g` and has not yet entered
it into the table of regions. -/
def Entering (s : St) (r : Nat) (g : Range) : Prop := ∃ c p, cur s r = some (c, 1) ∧ c.kind = .create g p

/-- No two regions with a common key are being entered at the same time. -/
def OneByOne (s : St) : Prop :=
  ∀ r r' g g', r ≠ r' → Entering s r g → Entering s r' g' → Apart g g'

/-- The stores reached from a new one by a history in which no two regions with a common key are
ever being entered at the same time. -/
inductive Calm : St → Prop
  | init : Calm .init
  | step {s : St} (e : Ev) : Calm s → OneByOne (step s e) → Calm (step s e)

/-- Not a command to purge a region. -/
def Ev.plain : Ev → Bool
  | .push c _ => c.kind != .purge
  | _ => true

/-- The same, and no command to purge a region is sent. -/
inductive Plain : St → Prop
  | init : Plain .init
  | step {s : St} (e : Ev) : Plain s → OneByOne (step s e) → e.plain = true → Plain (step s e)

/-- What becomes of a store in such a history. -/
inductive Later (s : St) : St → Prop
  | refl : Later s s
  | step {s' : St} (e : Ev) : Later s s' → OneByOne (step s' e) → e.plain = true → Later s (step s' e)

/-- The region is marked as being deleted or deleted, and nobody is deleting it. -/
structure Left (s : St) (r : Nat) (x : Rec) : Prop where
  here : get r s.regs = some x
  state : x.state = .deleting ∨ x.state = .deleted
  node : s.nodes r = false
  idle : ∀ c n, cur s r = some (c, n) → n = 0

/-- The commands a worker has: the one it is carrying out and those waiting. -/
def pend (s : St) (r : Nat) : List Cmd :=
  match s.exec r with
  | none => []
  | some x => (x.run.map (·.1)).toList ++ x.wait

/-- A command is with a worker: waiting, or being carried out. -/
def Pending (s : St) (c : Cmd) : Prop := (∃ r, c ∈ pend s r) ∨ c ∈ s.share

/-- No command is sent that is marked as a retry. -/
def Ev.first : Ev → Bool
  | .push c _ => !c.retry
  | _ => true

/-- The stores reached from a new one when no command is marked as a retry. -/
inductive Tidy : St → Prop
  | init : Tidy .init
  | step {s : St} (e : Ev) : Tidy s → e.first = true → Tidy (step s e)

/-- All stores. -/
inductive Reach : St → Prop
  | init : Reach .init
  | step {s : St} (e : Ev) : Reach s → Reach (step s e)

theorem Plain.calm {s : St} (h : Plain s) : Calm s := by
  induction h with
  | init => exact .init
  | step e _ ho _ ih => exact .step e ih ho

theorem Calm.reach {s : St} (h : Calm s) : Reach s := by
  induction h with
  | init => exact .init
  | step e _ _ ih => exact .step e ih

end Verif.Ctl
