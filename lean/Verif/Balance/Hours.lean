/-!
# Hours of balancing (model)

`ParseTimePeriod` and `ShouldRun` of `coordinator/balance_leader.cc:319-379`; the same text is in
`coordinator/balance_region.cc:364-424`.  The text is a list of characters; `butil::SplitString` (of
brpc, not in the repository) splits at a character, takes white space off each piece, and gives nothing
for a text that is only white space.
-/

namespace Verif.Balance

/-- Pieces between occurrences of `c`. -/
def pieces (c : Char) : List Char → List (List Char)
  | [] => [[]]
  | x :: l =>
    if x = c then [] :: pieces c l
    else match pieces c l with
      | [] => [[x]]
      | p :: ps => (x :: p) :: ps

/-- White space. -/
def isSpace (c : Char) : Bool := c == ' ' || c == '\t' || c == '\n' || c == '\r' || c == '\x0b' || c == '\x0c'

/-- White space is taken off both ends. -/
def trim (l : List Char) : List Char := ((l.dropWhile isSpace).reverse.dropWhile isSpace).reverse

/-- `Helper::SplitString`, `common/helper.cc:1802-1804`. -/
def split (c : Char) (l : List Char) : List (List Char) :=
  let r := (pieces c l).map trim
  if r = [[]] then [] else r

/-- The value of digits, as `strtol` reads them: 64 bits, the largest value if it does not fit. -/
def digitsValue (l : List Char) : Int := ((l.foldl (fun n c => n * 10 + (c.toNat - 48)) 0 : Nat) : Int)

/-- What fits into 64 bits. -/
def clamp (x : Int) : Int := if x > 9223372036854775807 then 9223372036854775807
  else if x < -9223372036854775808 then -9223372036854775808 else x

/-- `int` from `long`: the lower 32 bits. -/
def toInt (x : Int) : Int := Int.bmod x 4294967296

/-- `std::strtol` of a piece, and whether all of it was read (lines 336-340).  White space in front was
taken off. -/
def hour (l : List Char) : Option Int :=
  let (neg, ds) := match l with
    | '-' :: r => (true, r)
    | '+' :: r => (false, r)
    | r => (false, r)
  if ds ≠ [] ∧ ds.all Char.isDigit = true then
    some (toInt (clamp (if neg then - digitsValue ds else digitsValue ds)))
  else none

/-- One period: lines 326-353.  What is not given is 0 and 23. -/
def period (l : List Char) : Option (Int × Int) :=
  match split ',' l with
  | [] => none
  | a :: r =>
    match (if a = [] then some 0 else hour a),
      (match r with
        | [] => some 23
        | b :: _ => if b = [] then some 23 else hour b) with
    | some x, some y => some (x, y)
    | _, _ => none

/-- `ParseTimePeriod`. -/
def periods (l : List Char) : List (Int × Int) := (split ';' l).filterMap period

/-- `ShouldRun` (lines 359-379) at an hour. -/
def shouldRun (l : List Char) (h : Int) : Bool := (periods l).any (fun p => decide (p.1 ≤ h) && decide (h ≤ p.2))

/-- Whether a pass begins: lines 385-388. -/
def passBegins (force : Bool) (l : List Char) (h : Int) : Bool := force || shouldRun l h

end Verif.Balance
