import Verif.DocSearch.Props

/-! # Searching documents: cases that meet the hypotheses, and what does not hold (C107) -/

namespace Verif.DocSearch
open Verif.Codec

/-- A library that finds the documents whose first byte is that of the query, in the order of their
second byte: insertion of one more. -/
def putHit (h : Hit) : List Hit → List Hit
  | [] => [h]
  | q :: l => if q.score ≤ h.score then h :: q :: l else q :: putHit h l

/-- Such a library. -/
def exLib : Lib where
  rank q ds := (ds.filter (fun d => decide (d.2.head? = q.head?))).foldr
    (fun d l => putHit ⟨d.1, ((d.2.getD 1 0).toNat : Int)⟩ l) []

theorem putHit_mem (h : Hit) (l : List Hit) : ∀ q, q ∈ putHit h l → q = h ∨ q ∈ l := by
  induction l with
  | nil => intro q hq; simpa [putHit] using hq
  | cons a l ih =>
    intro q hq
    simp only [putHit] at hq
    split at hq
    · simpa using hq
    · rcases List.mem_cons.1 hq with rfl | hq
      · simp
      · rcases ih q hq with h | h
        · exact .inl h
        · exact .inr (List.mem_cons_of_mem _ h)

theorem putHit_desc (h : Hit) (l : List Hit) (hl : Desc l) : Desc (putHit h l) := by
  induction l with
  | nil => simp [putHit, Desc]
  | cons a l ih =>
    have ha := List.pairwise_cons.1 hl
    simp only [putHit]
    split
    · rename_i hle
      refine List.pairwise_cons.2 ⟨?_, hl⟩
      intro q hq
      rcases List.mem_cons.1 hq with rfl | hq
      · exact hle
      · have := ha.1 q hq
        omega
    · refine List.pairwise_cons.2 ⟨?_, ih ha.2⟩
      intro q hq
      rcases putHit_mem h l q hq with rfl | hq
      · omega
      · exact ha.1 q hq

/-- The library is one of those the theorems speak of. -/
theorem exLib_ranks : Ranks exLib where
  desc q ds := by
    show Desc ((ds.filter _).foldr _ [])
    generalize ds.filter (fun d => decide (d.2.head? = q.head?)) = l
    induction l with
    | nil => exact List.Pairwise.nil
    | cons d l ih => exact putHit_desc _ _ ih
  mem q ds h hh := by
    have key : ∀ l : List Doc, h ∈ l.foldr (fun d l => putHit ⟨d.1, ((d.2.getD 1 0).toNat : Int)⟩ l) [] →
        ∃ d ∈ l, d.1 = h.id := by
      intro l
      induction l with
      | nil => intro h; cases h
      | cons d l ih =>
        intro hm
        rcases putHit_mem _ _ _ hm with rfl | hm
        · exact ⟨d, by simp, rfl⟩
        · obtain ⟨e, he, h2⟩ := ih hm
          exact ⟨e, List.mem_cons_of_mem _ he, h2⟩
    obtain ⟨d, hd, e⟩ := key _ hh
    exact ⟨d, (List.mem_filter.1 hd).1, e⟩

/-- An index of the ids 1 to 99, with four documents. -/
def exIndex : Index := ⟨1, 100, [(5, [7, 2]), (60, [7, 9]), (70, [8, 1]), (20, [7, 4])], false⟩

/-- The region that has it. -/
def exW : Wrapper := ⟨some exIndex, none, none, true⟩

/-- A query, for two documents. -/
def exP : Param := { query := [7], topN := 2 }

theorem exIndex_in : ∀ d ∈ exIndex.docs, exIndex.lo ≤ d.1 ∧ d.1 < exIndex.hi := by decide

example : exW.search exLib 1 100 exP = some [⟨60, 9⟩, ⟨20, 4⟩] := by decide +kernel

example : Best 2 (wantedIn exLib exP 1 100 exIndex.docs) [⟨60, 9⟩, ⟨20, 4⟩] :=
  C107_search (w := exW) exLib_ranks rfl rfl exIndex_in (by decide +kernel)

/-- The part of the region below 50. -/
example : exW.search exLib 1 50 exP = some [⟨20, 4⟩, ⟨5, 2⟩] := by decide +kernel

/-- With ids, and without limit. -/
example : exW.search exLib 1 100 { query := [7], topN := 0, unlimited := true, ids := [5, 60] } =
    some [⟨60, 9⟩, ⟨5, 2⟩] := by decide +kernel

example : ∃ hits, exW.search exLib 1 100 exP = some hits :=
  (C107_answered exLib exW 1 100 exP rfl).2 ⟨rfl, ⟨exIndex, rfl, rfl⟩, by decide, .inr (by decide)⟩

/-- After a merge, with the speed-up. -/
def exMerged : Wrapper := mergeInto true exW ⟨some ⟨100, 200, [(150, [7, 5])], false⟩, none, none, true⟩

example : exMerged.search exLib 1 200 exP = some [⟨60, 9⟩, ⟨150, 5⟩] := by decide +kernel

example : Best 2 (wanted exLib exP exIndex.docs ++ wanted exLib exP [(150, [7, 5])]) [⟨60, 9⟩, ⟨150, 5⟩] :=
  C107_both (w := exMerged) (lo := 1) (hi := 200) (x := ⟨100, 200, [(150, [7, 5])], false⟩) (s := exIndex)
    exLib_ranks rfl rfl rfl (by decide +kernel)

example : exMerged.search exLib 1 200 { query := [7], topN := 0, unlimited := true } =
    some [⟨5, 2⟩, ⟨20, 4⟩, ⟨60, 9⟩, ⟨150, 5⟩] := by decide +kernel

/-- Writes after the merge: each document goes to the index of its range. -/
example : (exMerged.write true [(20, [7, 1]), (160, [7, 3])] {}).2 = true ∧
    ∀ i, ¬ (inside exIndex i = true ∧ inside ⟨100, 200, [(150, [7, 5])], false⟩ i = true) := by
  refine ⟨by decide +kernel, ?_⟩
  intro i
  rintro ⟨h1, h2⟩
  have h1' : (1 : Int) ≤ i ∧ i < 100 := by
    unfold inside at h1
    rw [Bool.and_eq_true, decide_eq_true_eq, decide_eq_true_eq] at h1
    exact h1
  have h2' : (100 : Int) ≤ i ∧ i < 200 := by
    unfold inside at h2
    rw [Bool.and_eq_true, decide_eq_true_eq, decide_eq_true_eq] at h2
    exact h2
  omega

example : (exMerged.delete [20, 150, 300] {}).2 = true ∧
    (exMerged.delete [20, 150, 300] {}).1.sibling.map (fun s => held s 20) = some [] := by
  refine ⟨?_, ?_⟩ <;> decide +kernel

example : (exW.write true [(5, [7, 8])] {}).2 = true ∧ (exW.delete [60] {}).2 = true :=
  C107_accepted rfl rfl rfl rfl true ⟨rfl, rfl⟩ (by decide) (by decide)

/-- Both parts after a split, with the speed-up. -/
example : (split true exW {}).1.search exLib 1 50 exP = some [⟨20, 4⟩, ⟨5, 2⟩] ∧
    (split true exW {}).2.search exLib 50 100 exP = some [⟨60, 9⟩] := by
  refine ⟨?_, ?_⟩ <;> decide +kernel

/-- And without: the region answered before, and no part does after. -/
example : exW.search exLib 1 100 exP ≠ none ∧ (split false exW {}).1.search exLib 1 50 exP = none ∧
    (split false exW {}).2.search exLib 50 100 exP = none := by
  refine ⟨?_, ?_, ?_⟩ <;> decide +kernel

example : (exW.write true [(5, [7, 8]), (6, [])] {}).2 = true ∧ (exW.delete [60] {}).2 = true := by
  refine ⟨?_, ?_⟩ <;> decide +kernel

/-- The documents stored: all but the one expired, which the index still has. -/
def exRead (i : Int) : Option Bytes := if i = 5 then some [7, 2] else if i = 20 then some [7, 4] else none

example : documentSearch exLib exW 1 50 exP exRead = some [⟨⟨20, 4⟩, some [7, 4]⟩, ⟨⟨5, 2⟩, some [7, 2]⟩] := by
  decide +kernel

/-- Documents 5 and 20 match and are stored; 60 matches, was stored with a time to live and is gone,
which nothing tells the index.  A search for two succeeds, has document 60 among its hits, and gives
neither of its hits a document. -/
theorem C107_expired_false :
    exRead 5 = some [7, 2] ∧ exRead 20 = some [7, 4] ∧ exRead 60 = none ∧
      documentSearch exLib exW 1 100 exP exRead = some [⟨⟨60, 9⟩, none⟩, ⟨⟨20, 4⟩, none⟩] := by
  refine ⟨?_, ?_, ?_, ?_⟩ <;> decide +kernel

/-- A search for all in pages succeeds as well, with no hit at all and the word that there is no more. -/
theorem C107_all_false :
    searchAll exLib exW 1 100 { query := [7], topN := 0, unlimited := true } exRead 10 40960 (fun _ => 8) =
      some ([], false, none) ∧
    exW.search exLib 1 100 { query := [7], topN := 0, unlimited := true } = some [⟨60, 9⟩, ⟨20, 4⟩, ⟨5, 2⟩] := by
  refine ⟨?_, ?_⟩ <;> decide +kernel

/-- Pages, while everything is stored: two, then one. -/
example : searchAll exLib exW 1 100 { query := [7], topN := 0, unlimited := true } (fun _ => some [7]) 2 40960
    (fun _ => 8) = some ([⟨⟨60, 9⟩, some [7]⟩, ⟨⟨20, 4⟩, some [7]⟩], true, some [⟨⟨5, 2⟩, some [7]⟩]) := by
  decide +kernel

/-- A write that fails in one of two indexes is undone in the other by deletion: a document that was
replaced is found no more, in its former version or the new one, and the write is refused. -/
theorem C107_undo_false :
    held exIndex 20 = [[7, 4]] ∧
    ((exMerged.write true [(20, [7, 1]), (160, [7, 3])] { a := true }).2 = false) ∧
    ((exMerged.write true [(20, [7, 1]), (160, [7, 3])] { a := true }).1.sibling.map (fun s => held s 20)) = some [] := by
  refine ⟨?_, ?_, ?_⟩ <;> decide +kernel

end Verif.DocSearch
