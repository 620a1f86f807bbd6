import Verif.Coproc.Select
import Verif.Coproc.PropsAgg

/-!
# C90: what a scan with a filter returns
-/

namespace Verif.Coproc
open Verif.Codec Verif.Scan

variable {F : Type}

/-- The request neither groups nor aggregates. -/
def Plain (q : Req) : Prop := q.groupBy = [] ∧ q.ops = []

theorem plain_group {q : Req} {p : Plan} (ho : openReq q = .ok p) (hq : Plain q) : p.group = false := by
  cases h : p.group with
  | false => rfl
  | true =>
    rcases ((openReq_group ho).1 h).2 with hx | hx
    · exact absurd hq.1 hx
    · exact absurd hq.2 hx

/-- A scan with a filter returns, over its pages, the selected columns of the rows that satisfy
it, in order and each once.  `u` are the rows read so far; once a page is empty they are all the
rows.  Missing: the rows that satisfy the filter but cannot be encoded (`C90_dropped_false`). -/
theorem C90_rows_partial {e : Env F} {q : Req} {p : Plan} {rows : List KV} {ls : List Lim} {ko : Bool}
    {out : List (List KV)} {s : Ses F} (ho : openReq q = .ok p) (hq : Plain q) (hk : ∀ l ∈ ls, l.keyOnly = ko)
    (hp : pages e q p ls (start rows) = .ok (out, s)) : ∃ u rest, rows = u ++ rest ∧
      out.flatten = (kept e q u).filterMap (sent e ko) ∧ ([] ∈ out → u = rows) := by
  obtain ⟨u, h1, h2, h3⟩ := pages_select (plain_group ho hq) hk hp
  refine ⟨u, s.rows, h1, h2, ?_⟩
  intro hx
  rw [h3 hx, List.append_nil] at h1
  exact h1.symm

/-- With an encoder that always succeeds, no row is missing. -/
theorem C90_rows {e : Env F} {q : Req} {p : Plan} {rows : List KV} {ls : List Lim} {ko : Bool}
    {out : List (List KV)} {s : Ses F} (ho : openReq q = .ok p) (hq : Plain q) (hk : ∀ l ∈ ls, l.keyOnly = ko)
    (henc : ∀ r, ∃ kv, e.encRow r = .kv kv) (hp : pages e q p ls (start rows) = .ok (out, s)) :
    ∃ u rest, rows = u ++ rest ∧ out.flatten.map some = (kept e q u).map (sent e ko) ∧ ([] ∈ out → u = rows) := by
  obtain ⟨u, rest, h1, h2, h3⟩ := C90_rows_partial ho hq hk hp
  refine ⟨u, rest, h1, ?_, h3⟩
  rw [h2]
  clear h1 h2 h3
  induction kept e q u with
  | nil => rfl
  | cons r l ih =>
    obtain ⟨kv, hkv⟩ := henc r
    have hs : sent e ko r = some (if ko then (kv.1, []) else kv) := by simp [sent, hkv]
    simp only [List.filterMap_cons, hs, List.map_cons, ih]

/-- A scan with a filter answers, whatever the limits of its pages, if every row can be decoded,
the expression can be evaluated on it and encoding it does not throw. -/
theorem C90_answers {e : Env F} {q : Req} {p : Plan} (ho : openReq q = .ok p) (hq : Plain q) (rows : List KV)
    (h : ∀ kv ∈ rows, ∃ r, e.decode kv = some r ∧ (q.expr = true → ∃ b, e.keep r = some b) ∧ e.encRow r ≠ .throws)
    (ls : List Lim) : ∃ out s, pages e q p ls (start rows) = .ok (out, s) :=
  pages_total (plain_group ho hq) ls (start rows) h

/-- `SELECT g, v ... WHERE g <> 9`. -/
def toySel : Req where
  orig := [⟨0, .int⟩, ⟨1, .long⟩]
  sel := [0, 1]
  groupBy := []
  ops := []
  result := [⟨0, .int⟩, ⟨1, .long⟩]
  expr := true

/-- A row that satisfies the filter and whose encoding reports an error is left out; the answer is
a success. -/
theorem C90_dropped_false : ∃ p s, openReq toySel = .ok p ∧ Plain toySel ∧
    kept toyEnv toySel [([1], [7, 10]), ([2], [3, 1])] =
      [[.int (some 7), .long (some 10)], [.int (some 3), .long (some 1)]] ∧
    pages toyEnv toySel p [⟨false, 5, 1000⟩, ⟨false, 5, 1000⟩] (start [([1], [7, 10]), ([2], [3, 1])]) =
      .ok ([[([3], [1])], []], s) :=
  ⟨_, _, rfl, ⟨rfl, rfl⟩, rfl, rfl⟩

/-- The hypotheses of `C90_rows_partial` and `C90_answers`. -/
example : ∃ p s, openReq toySel = .ok p ∧ Plain toySel ∧
    pages toyEnv toySel p [⟨false, 1, 1000⟩, ⟨false, 1, 1000⟩, ⟨false, 1, 1000⟩]
      (start [([1], [5, 10]), ([3], [9, 50]), ([2], [3, 1])]) = .ok ([[([5], [10])], [([3], [1])], []], s) :=
  ⟨_, _, rfl, ⟨rfl, rfl⟩, rfl⟩
example : ∀ kv ∈ [([1], [5, 10]), ([3], [9, 50]), ([2], [3, 1])], ∃ r, toyEnv.decode kv = some r ∧
    (toySel.expr = true → ∃ b, toyEnv.keep r = some b) ∧ toyEnv.encRow r ≠ .throws := by
  intro kv hkv
  simp only [List.mem_cons, List.not_mem_nil, or_false] at hkv
  rcases hkv with rfl | rfl | rfl
  · exact ⟨_, rfl, fun _ => ⟨_, rfl⟩, by simp [toyEnv]⟩
  · exact ⟨_, rfl, fun _ => ⟨_, rfl⟩, by simp [toyEnv]⟩
  · exact ⟨_, rfl, fun _ => ⟨_, rfl⟩, by simp [toyEnv]⟩

/-- The hypotheses of `C90_rows`: an encoder that always succeeds. -/
example : ∃ p s, openReq toySel = .ok p ∧ Plain toySel ∧
    (∀ r, ∃ kv, ({ toyEnv with encRow := fun r => .kv ([UInt8.ofNat r.length], []) } : Env Unit).encRow r = .kv kv) ∧
    pages { toyEnv with encRow := fun r => .kv ([UInt8.ofNat r.length], []) } toySel p [⟨false, 5, 1000⟩]
      (start [([1], [7, 10]), ([2], [3, 1])]) = .ok ([[([2], []), ([2], [])]], s) :=
  ⟨_, _, rfl, ⟨rfl, rfl⟩, fun _ => ⟨_, rfl⟩, rfl⟩

end Verif.Coproc
