/-!
# What the log of a region says

The history of one region without crashes, restarts and snapshots: what its committed log, read from
the start, makes of its version, its range and its data.
-/

namespace Verif.Replica

abbrev Bytes := List UInt8

/-- A key of a column family. -/
abbrev Key := Nat × Bytes

structure Range where
  lo : Bytes
  hi : Bytes
  deriving DecidableEq, Repr

/-- `lo` is inside, `hi` is not. -/
def Range.has (r : Range) (x : Bytes) : Bool := decide (r.lo ≤ x) && decide (x < r.hi)

/-- The commands of a log. -/
inductive Cmd where
  | write (puts : List (Key × Nat)) (dels : List Key)
  | deleteRange (cf : Nat) (rs : List Range)
  | txnDeleteRange (r : Range)
  | split (key : Bytes)
  | other
  deriving DecidableEq, Repr

/-- A log entry carries the version of the region its sender knew. -/
structure Entry where
  version : Int
  cmd : Cmd
  deriving DecidableEq, Repr

structure View where
  version : Int
  range : Range
  data : Key → Option Nat

/-- The column families of transactions: data, lock and write. -/
def txnCfs : List Nat := [3, 4, 5]

/-- What a command says about a key: nothing, that it is gone (`some none`), or its value. -/
def effect (c : Cmd) (k : Key) : Option (Option Nat) :=
  match c with
  | .write puts dels =>
    if dels.contains k then some none
    else (puts.reverse.find? (fun p => p.1 == k)).map (fun p => some p.2)
  | .deleteRange cf rs => if k.1 = cf ∧ (rs.any fun r => r.has k.2) = true then some none else none
  | .txnDeleteRange r => if txnCfs.contains k.1 = true ∧ r.has k.2 = true then some none else none
  | .split _ => none
  | .other => none

/-- An entry counts if its version is the region's. -/
def View.next (v : View) (e : Entry) : View :=
  if e.version = v.version then
    match e.cmd with
    | .split key => { v with version := v.version + 1, range := ⟨key, v.range.hi⟩ }
    | c => { v with data := fun k => (effect c k).getD (v.data k) }
  else v

/-- The region after a log. -/
def View.after (v : View) (log : List Entry) : View := log.foldl View.next v

end Verif.Replica
