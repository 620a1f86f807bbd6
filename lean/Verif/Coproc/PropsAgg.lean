import Verif.Coproc.Pages

/-!
# C89: what a scan with aggregates returns
-/

namespace Verif.Coproc
open Verif.Codec Verif.Scan

variable {F : Type}

/-- A scan that groups rows and aggregates columns returns, over its pages, one result for each
group there is among the rows that satisfy the expression, in the order of the encoded keys: the
group-by columns and then, for each operator, the aggregate of its column over the group's
rows.  What was returned so far is the beginning of that list, and once a page is empty it is the
whole list.  Nothing is assumed of the types of the columns: if they do not fit, there is no
answer. -/
theorem C89_groups [DecidableEq F] {e : Env F} {q : Req} {p : Plan} {rows : List KV} {ls : List Lim} {ko : Bool}
    {out : List (List KV)} {s : Ses F} (hc : KeyCodec e) (ho : openReq q = .ok p)
    (hg : q.orig ≠ [] ∧ (q.groupBy ≠ [] ∨ q.ops ≠ [])) (hl : ls ≠ []) (hk : ∀ l ∈ ls, l.keyOnly = ko)
    (hp : pages e q p ls (start rows) = .ok (out, s)) :
    ∃ done rest, Groups e q (kept e q rows) (done ++ rest) ∧ done.map (sent e ko) = out.flatten.map some ∧
      ([] ∈ out → rest = []) := by
  have hgr := (openReq_group ho).2 hg
  have hop := opened ho hgr
  cases ls with
  | nil => exact absurd rfl hl
  | cons l ls =>
    -- the first page reads all the rows
    have hsplit : ∃ m', foldRec e q p none (kept e q rows) = .ok m' ∧
        pages e q p (l :: ls) ⟨m', none, []⟩ = .ok (out, s) := by
      simp only [pages] at hp
      split at hp
      · cases hp
      · rename_i kvs s1 h1
        obtain ⟨m', hf, hpg⟩ := page_split hgr h1
        refine ⟨m', hf, ?_⟩
        simp only [pages, start] at hpg ⊢
        rw [hpg]
        exact hp
    obtain ⟨m', hf, hpg⟩ := hsplit
    obtain ⟨d, h1, h2, h3⟩ := pages_drain hop hgr hk rfl hpg
    have hi := foldRec_inv hop (ginv_nil e q p) hf
    rw [List.nil_append] at hi
    refine ⟨d.map (resRec e q), (rem s).map (resRec e q), ?_, ?_, ?_⟩
    · rw [← List.map_append, ← h1]
      cases m' with
      | none =>
        have hr := hi.non.1 rfl
        rw [hr]
        exact groups_nil e q
      | some mg => exact groups_of_inv hop hc hi
    · rw [List.map_map]
      exact h2
    · intro hx
      rw [h3 hx]; rfl

/-- Aggregates over no rows: without group-by columns there is no result either, not one with
counts of zero. -/
theorem C89_no_rows [DecidableEq F] {e : Env F} {q : Req} {p : Plan} {rows : List KV} {ls : List Lim} {ko : Bool}
    {out : List (List KV)} {s : Ses F} (hc : KeyCodec e) (ho : openReq q = .ok p)
    (hg : q.orig ≠ [] ∧ (q.groupBy ≠ [] ∨ q.ops ≠ [])) (hk : ∀ l ∈ ls, l.keyOnly = ko)
    (hn : kept e q rows = []) (hp : pages e q p ls (start rows) = .ok (out, s)) : out.flatten = [] := by
  by_cases hl : ls = []
  · subst hl
    simp only [pages, Except.ok.injEq, Prod.mk.injEq] at hp
    rw [← hp.1]; rfl
  · obtain ⟨d, r, h1, h2, _⟩ := C89_groups hc ho hg hl hk hp
    cases d with
    | nil => simpa using h2.symm
    | cons x d =>
      have := (h1.all (x.take q.groupBy.length)).1 (by simp)
      rw [hn] at this
      obtain ⟨y, hy, _⟩ := this
      cases hy

/-! ## A concrete scan -/

/-- A codec for tests: one byte each for a group number and a value. -/
def toyEnv : Env Unit where
  f32 := ⟨(), fun _ _ => (), fun _ _ => false⟩
  f64 := ⟨(), fun _ _ => (), fun _ _ => false⟩
  decode kv := match kv.2 with
    | [g] => some [.int (some g.toNat), .long none]
    | [g, v] => some [.int (some g.toNat), .long (some v.toNat)]
    | _ => none
  keep r := match r with
    | [.int (some g), _] => some (decide (g ≠ 9))
    | _ => none
  encKey l := match l with
    | [.int (some g)] => if 0 ≤ g ∧ g ≤ 255 then some [UInt8.ofNat g.toNat] else none
    | _ => none
  decKey b := match b with
    | [g] => some [.int (some g.toNat)]
    | _ => none
  encRow r := match r with
    | [.int (some g), .long a, .long (some b), .long (some c)] =>
      .kv ([UInt8.ofNat g.toNat], [match a with
        | none => 0
        | some v => UInt8.ofNat v.toNat, UInt8.ofNat b.toNat, UInt8.ofNat c.toNat])
    | [.long (some b)] => .kv ([], [UInt8.ofNat b.toNat])
    | [.int (some 7), _] => .neg
    | [.int (some g), .long (some v)] => .kv ([UInt8.ofNat g.toNat], [UInt8.ofNat v.toNat])
    | _ => .throws

theorem toy_codec : KeyCodec toyEnv := by
  intro l b h
  simp only [toyEnv] at h
  split at h
  · rename_i g
    split at h
    · rename_i hr
      rw [← Option.some.inj h]
      simp only [toyEnv]
      congr 4
      rw [UInt8.toNat_ofNat']
      omega
    · cases h
  · cases h

/-- `SELECT g, SUM(v), COUNT(v), COUNT(*) ... WHERE g <> 9 GROUP BY g`. -/
def toyReq : Req where
  orig := [⟨0, .int⟩, ⟨1, .long⟩]
  sel := []
  groupBy := [0]
  ops := [(.sum, 1), (.count, 1), (.count, -1)]
  result := [⟨0, .int⟩, ⟨1, .long⟩, ⟨2, .long⟩, ⟨3, .long⟩]
  expr := true

def toyRows : List KV := [([1], [5, 10]), ([2], [3, 1]), ([3], [9, 50]), ([4], [5]), ([5], [3, 2]), ([6], [4])]

/-- The hypotheses of `C89_groups`, and the pages: three groups, one of them with no values. -/
example : ∃ p s, openReq toyReq = .ok p ∧
    pages toyEnv toyReq p [⟨false, 2, 1000⟩, ⟨false, 2, 1000⟩, ⟨false, 2, 1000⟩] (start toyRows) =
      .ok ([[([3], [3, 2, 2]), ([4], [0, 0, 1])], [([5], [10, 1, 2])], []], s) :=
  ⟨_, _, rfl, rfl⟩

example : toyReq.orig ≠ [] ∧ (toyReq.groupBy ≠ [] ∨ toyReq.ops ≠ []) := by decide

/-- The hypotheses of `C89_no_rows`: every row is of the group that is filtered out. -/
example : ∃ p s, openReq toyReq = .ok p ∧ kept toyEnv toyReq [([3], [9, 50])] = [] ∧
    pages toyEnv toyReq p [⟨false, 2, 1000⟩] (start [([3], [9, 50])]) = .ok ([[]], s) :=
  ⟨_, _, rfl, rfl, rfl⟩

end Verif.Coproc
