import Verif.DocSearch.Lemmas

/-! # Searching documents (C107) -/

namespace Verif.DocSearch
open Verif.Codec

/-- How many hits a search asks for, of `m` there are. -/
def asked (p : Param) (m : Nat) : Nat := if p.unlimited then m else p.topN

/-- A region with one index: when a search is answered. -/
theorem C107_answered (L : Lib) (w : Wrapper) (lo hi : Int) (p : Param) (hs : w.sibling = none) :
    (∃ hits, w.search L lo hi p = some hits) ↔
      w.ready = true ∧ (∃ x, w.index = some x ∧ x.destroyed = false) ∧ p.query ≠ [] ∧
        (p.unlimited = true ∨ 0 < p.topN) := by
  constructor
  · rintro ⟨hits, h⟩
    unfold Wrapper.search at h
    split at h
    · cases h
    · rename_i hr
      split at h
      · cases h
      · rename_i x hx
        rw [hs] at h
        simp only at h
        split at h
        all_goals
          obtain ⟨h1, h2, h3, _⟩ := index_search h
          exact ⟨by simpa using hr, ⟨x, hx, h1⟩, h2, h3⟩
  · rintro ⟨hr, ⟨x, hx, hd⟩, hq, ht⟩
    have ht' : (!p.unlimited && p.topN == 0) = false := by
      rcases ht with h | h
      · simp [h]
      · have : (p.topN == 0) = false := by simp; omega
        simp [this]
    have hq' : p.query.isEmpty = false := by simpa using hq
    unfold Wrapper.search
    simp only [hr, hx, hs, Bool.not_true, Bool.false_eq_true, if_false]
    split
    all_goals
      unfold Index.search
      simp only [hd, ht', hq', Bool.false_eq_true, if_false]
      exact ⟨_, rfl⟩

/-- A search of a region with one index gives the best of the documents of the region that match,
are among the ids asked for (if any are named), as many as asked for, best first. -/
theorem C107_search {L : Lib} (hL : Ranks L) {w : Wrapper} {lo hi : Int} {p : Param} {x : Index}
    {hits : List Hit} (hs : w.sibling = none) (hx : w.index = some x)
    (hin : ∀ d ∈ x.docs, x.lo ≤ d.1 ∧ d.1 < x.hi) (h : w.search L lo hi p = some hits) :
    Best (asked p (wantedIn L p lo hi x.docs).length) (wantedIn L p lo hi x.docs) hits := by
  have fin : ∀ l : List Hit, Desc l →
      Best (asked p l.length) l (if p.unlimited then l else l.take p.topN) := by
    intro l hl
    unfold asked
    split
    · have := best_take hl l.length
      rwa [List.take_length] at this
    · exact best_take hl _
  have hd : Desc (wantedIn L p lo hi x.docs) := (wanted_desc hL p x.docs).sublist List.filter_sublist
  unfold Wrapper.search at h
  split at h
  · cases h
  · rw [hx, hs] at h
    simp only at h
    split at h
    · rename_i he
      obtain ⟨_, _, _, e⟩ := index_search h
      have : (L.rank p.query x.docs).filter (keeps p none) = wantedIn L p lo hi x.docs := by
        rw [filter_keeps_none]
        show wanted L p x.docs = wantedIn L p lo hi x.docs
        unfold wantedIn
        symm
        rw [List.filter_eq_self]
        intro a ha
        obtain ⟨d, hd, ed⟩ := hL.mem _ _ _ (List.mem_filter.1 ha).1
        have := hin d hd
        simp only [decide_eq_true_eq]
        rw [← ed, ← he.1, ← he.2]
        exact this
      rw [this] at e
      rw [e]
      exact fin _ hd
    · obtain ⟨_, _, _, e⟩ := index_search h
      rw [filter_keeps_some] at e
      rw [e]
      exact fin _ hd

/-- A region with two indexes, after a merge: a search for the best gives the best of what both hold. -/
theorem C107_both {L : Lib} (hL : Ranks L) {w : Wrapper} {lo hi : Int} {p : Param} {x s : Index}
    {hits : List Hit} (hs : w.sibling = some s) (hx : w.index = some x) (hu : p.unlimited = false)
    (h : w.search L lo hi p = some hits) :
    Best p.topN (wanted L p s.docs ++ wanted L p x.docs) hits := by
  unfold Wrapper.search at h
  split at h
  · cases h
  · rw [hx, hs] at h
    simp only at h
    split at h
    · rename_i l m hl hm
      obtain ⟨_, _, ht, el⟩ := index_search hl
      obtain ⟨_, _, _, em⟩ := index_search hm
      rw [filter_keeps_none] at el em
      simp only [hu, Bool.false_eq_true, if_false, false_or] at el em ht
      simp only [Option.some.injEq] at h
      have : merge p.topN l m = mergeTop p.topN (wanted L p s.docs) (wanted L p x.docs) := by
        unfold merge
        rw [if_neg (by omega), el, em]
        exact mergeTop_take (Nat.le_refl _)
      rw [← h, this]
      exact mergeTop_best (wanted_desc hL p _) (wanted_desc hL p _)
    · cases h

/-- A search for all in both: each document that is found comes once, in the order of ids. -/
theorem C107_both_all {L : Lib} {w : Wrapper} {lo hi : Int} {p : Param} {x s : Index}
    {hits : List Hit} (hs : w.sibling = some s) (hx : w.index = some x) (ht : p.topN = 0)
    (h : w.search L lo hi p = some hits) :
    hits.Pairwise (fun a b => a.id < b.id) ∧
      (∀ q ∈ hits, q ∈ wanted L p s.docs ++ wanted L p x.docs) ∧
      ∀ q ∈ wanted L p s.docs ++ wanted L p x.docs, ∃ r ∈ hits, r.id = q.id := by
  unfold Wrapper.search at h
  split at h
  · cases h
  · rw [hx, hs] at h
    simp only at h
    split at h
    · rename_i l m hl hm
      obtain ⟨_, _, hu, el⟩ := index_search hl
      obtain ⟨_, _, _, em⟩ := index_search hm
      rw [filter_keeps_none] at el em
      have hu' : p.unlimited = true := by
        rcases hu with h | h
        · exact h
        · omega
      simp only [hu', if_true] at el em
      simp only [Option.some.injEq] at h
      have e : hits = mergeAll (wanted L p s.docs) (wanted L p x.docs) := by
        rw [← h, el, em]
        unfold merge
        rw [if_pos ht]
        rfl
      obtain ⟨h1, h2, h3⟩ := mergeAll_spec (wanted L p s.docs) (wanted L p x.docs)
      rw [e]
      refine ⟨h1, fun q hq => List.mem_append.2 (h2 q hq), ?_⟩
      intro q hq
      refine (h3 q.id).2 ?_
      rcases List.mem_append.1 hq with hq | hq
      · exact .inl ⟨q, hq, rfl⟩
      · exact .inr ⟨q, hq, rfl⟩
    · cases h

/-- With the speed-up built in, both regions of a split answer searches from the one index, each
with the best documents of its own range. -/
theorem C107_split_partial {L : Lib} (hL : Ranks L) {parent child : Wrapper} {x : Index} {p : Param}
    (lo mid hi : Int) (hown : parent.own = some x) (hsh : parent.share = none) (hsib : parent.sibling = none)
    (hcs : child.sibling = none) (hr : parent.ready = true) (hd : x.destroyed = false)
    (hin : ∀ d ∈ x.docs, x.lo ≤ d.1 ∧ d.1 < x.hi) (hq : p.query ≠ []) (ht : p.unlimited = true ∨ 0 < p.topN) :
    (∃ hits, (split true parent child).1.search L lo mid p = some hits ∧
      Best (asked p (wantedIn L p lo mid x.docs).length) (wantedIn L p lo mid x.docs) hits) ∧
    ∃ hits, (split true parent child).2.search L mid hi p = some hits ∧
      Best (asked p (wantedIn L p mid hi x.docs).length) (wantedIn L p mid hi x.docs) hits := by
  have e : ({ x with destroyed := x.destroyed || !true } : Index) = x := by
    cases x
    simp
  have e1 : split true parent child = ({ parent with own := some x }, { child with share := some x, ready := true }) := by
    unfold split
    rw [hown]
    simp only [e]
  rw [e1]
  have i1 : Wrapper.index { parent with own := some x } = some x := by simp [Wrapper.index, hsh]
  have i2 : Wrapper.index { child with share := some x, ready := true } = some x := by simp [Wrapper.index]
  constructor
  · obtain ⟨hits, hh⟩ := (C107_answered L { parent with own := some x } lo mid p hsib).2
      ⟨hr, ⟨x, i1, hd⟩, hq, ht⟩
    exact ⟨hits, hh, C107_search (w := { parent with own := some x }) hL hsib i1 hin hh⟩
  · obtain ⟨hits, hh⟩ := (C107_answered L { child with share := some x, ready := true } mid hi p hcs).2
      ⟨rfl, ⟨x, i2, hd⟩, hq, ht⟩
    exact ⟨hits, hh, C107_search (w := { child with share := some x, ready := true }) hL hcs i2 hin hh⟩

/-- Without it, which is the default, neither region answers any search after a split, however it
stood before, until an index is built anew. -/
theorem C107_split_false (L : Lib) {parent child : Wrapper} {x : Index} (hown : parent.own = some x)
    (hsh : parent.share = none) (lo hi : Int) (p : Param) :
    (split false parent child).1.search L lo hi p = none ∧ (split false parent child).2.search L lo hi p = none := by
  have e1 : split false parent child =
      ({ parent with own := some { x with destroyed := true } },
        { child with share := some { x with destroyed := true }, ready := true }) := by
    unfold split
    rw [hown]
    simp
  rw [e1]
  have hd : ∀ r, Index.search L { x with destroyed := true } p r = none := by
    intro r
    simp [Index.search]
  constructor
  · unfold Wrapper.search
    simp only [Wrapper.index, hsh, hd]
    split
    · rfl
    · split
      · split
        · rename_i h
          cases h
        · rfl
      · split <;> rfl
  · unfold Wrapper.search
    simp only [Wrapper.index, hd, Bool.not_true, Bool.false_eq_true, if_false]
    split
    · split
      · rename_i h
        cases h
      · rfl
    · split <;> rfl

/-- Nor does either index take a document or a deletion, so that what is stored meanwhile is not in
the index. -/
theorem C107_split_write_false {parent child : Wrapper} {x : Index} (hown : parent.own = some x)
    (hsh : parent.share = none) (hsib : parent.sibling = none) (hcs : child.sibling = none) (up : Bool)
    {ds : List Doc} (hds : ds ≠ []) {ids : List Int} (hids : ids ≠ []) (f : Fails) :
    ((split false parent child).1.write up ds f).2 = false ∧ ((split false parent child).2.write up ds f).2 = false ∧
      ((split false parent child).1.delete ids f).2 = false ∧ ((split false parent child).2.delete ids f).2 = false := by
  have e1 : split false parent child =
      ({ parent with own := some { x with destroyed := true } },
        { child with share := some { x with destroyed := true }, ready := true }) := by
    unfold split
    rw [hown]
    simp
  rw [e1]
  have hw : (Index.write up { x with destroyed := true } ds f.d f.a).2 = false := by
    cases up <;> simp [Index.write, Index.upsert, Index.add, Index.delete, hds]
  have hdel : (Index.delete { x with destroyed := true } ids f.d).2 = false := by
    simp [Index.delete, hids]
  refine ⟨?_, ?_, ?_, ?_⟩
  · unfold Wrapper.write
    simp only [Wrapper.index, hsh, hsib]
    split
    · rfl
    · exact hw
  · unfold Wrapper.write
    simp only [Wrapper.index, hcs, Bool.not_true, Bool.false_eq_true, if_false]
    exact hw
  · unfold Wrapper.delete
    simp only [Wrapper.index, hsh, hsib]
    split
    · rfl
    · exact hdel
  · unfold Wrapper.delete
    simp only [Wrapper.index, hcs, Bool.not_true, Bool.false_eq_true, if_false]
    exact hdel

/-- Nor does the target of a merge, which answered before. -/
theorem C107_merge_false (L : Lib) {source target : Wrapper} {x : Index} (hown : source.own = some x)
    (lo hi : Int) (p : Param) : (mergeInto false source target).search L lo hi p = none := by
  unfold mergeInto
  rw [hown]
  have hd : ∀ r, Index.search L { x with destroyed := x.destroyed || !false } p r = none := by
    intro r
    simp [Index.search]
  unfold Wrapper.search
  simp only [hd]
  split
  · rfl
  · split <;> rfl

/-! ## Documents -/

/-- The answer of a search has the hits, in their order, and a document that comes with a hit is the
one stored. -/
theorem C107_documents {L : Lib} {w : Wrapper} {lo hi : Int} {p : Param} {read : Int → Option Bytes}
    {rs : List Res} (h : documentSearch L w lo hi p read = some rs) :
    w.search L lo hi p = some (rs.map (·.hit)) ∧ ∀ r ∈ rs, ∀ d, r.data = some d → read r.hit.id = some d := by
  unfold documentSearch at h
  split at h
  · cases h
  · rename_i l hl
    simp only [Option.some.injEq] at h
    subst h
    unfold found
    split
    · exact ⟨by rw [fill_hits]; exact hl, fill_data read l⟩
    · refine ⟨?_, ?_⟩
      · rw [hl]
        simp only [List.map_map]
        exact congrArg some (List.map_id' l).symm
      · intro r hr d hd
        obtain ⟨q, _, rfl⟩ := List.mem_map.1 hr
        cases hd

/-- If documents are asked for, and the documents of all hits are stored, each comes with its
document.  (Missing: a hit whose document is not stored, or has expired, is to be left out and to
leave the others alone: `C107_expired_false`.) -/
theorem C107_documents_partial {L : Lib} {w : Wrapper} {lo hi : Int} {p : Param} {read : Int → Option Bytes}
    {hits : List Hit} (h : w.search L lo hi p = some hits) (hp : p.data = true)
    (hall : ∀ q ∈ hits, read q.id ≠ none) :
    documentSearch L w lo hi p read = some (hits.map (fun q => ⟨q, read q.id⟩)) := by
  unfold documentSearch
  rw [h]
  simp only [found, hp, if_true, (fill_ok hall).2]

/-! ## Pages -/

/-- A search for all in pages, as long as the documents of all hits are stored: the pages, one after
the other, are the answer of the search; none is longer than the limit; only the last says that
there is no more; there is a last. -/
theorem C107_pages_partial {L : Lib} {w : Wrapper} {lo hi : Int} {p : Param} {read : Int → Option Bytes}
    {hits : List Hit} {limit maxSize : Nat} (size : Res → Nat) (h : w.search L lo hi p = some hits)
    (hp : p.data = true) (hall : ∀ q ∈ hits, read q.id ≠ none) (hl : 0 < limit) (hm : 0 < maxSize) :
    ∃ first more left, searchAll L w lo hi p read limit maxSize size = some (first, more, some left) ∧
      (more = false ↔ left = []) ∧ first.length ≤ limit ∧
      ∃ ps : List (List Res × Bool), (left = [] → ps = []) ∧
        (left ≠ [] → ps = pages limit maxSize size left.length left) ∧
        first ++ (ps.map (·.1)).flatten = hits.map (fun q => ⟨q, read q.id⟩) ∧
        (∀ x ∈ ps, x.1 ≠ [] ∧ x.1.length ≤ limit) ∧
        (left ≠ [] → ∃ init last, ps = init ++ [last] ∧ last.2 = false ∧ ∀ x ∈ init, x.2 = true) := by
  have key : ∀ (n : Nat) (l : List Res), l ≠ [] → l.length ≤ n →
      ((pages limit maxSize size n l).map (·.1)).flatten = l ∧
      (∀ x ∈ pages limit maxSize size n l, x.1 ≠ [] ∧ x.1.length ≤ limit) ∧
      ∃ init last, pages limit maxSize size n l = init ++ [last] ∧ last.2 = false ∧ ∀ x ∈ init, x.2 = true := by
    intro n
    induction n with
    | zero =>
      intro l h0 hn
      exact absurd (List.length_eq_zero_iff.1 (by omega)) h0
    | succ n ih =>
      intro l h0 hn
      obtain ⟨b1, b2⟩ := batch_spec limit maxSize size l 0 0
      have b3 := batch_pos (size := size) hl hm h0
      simp only [pages]
      by_cases he : (batch limit maxSize size l 0 0).2 = []
      · rw [he, List.append_nil] at b1
        simp only [he, if_true]
        refine ⟨by simpa using b1, ?_, ⟨[], _, rfl, by simp, by simp⟩⟩
        intro x hx
        simp only [List.mem_singleton] at hx
        subst hx
        exact ⟨b3, by simpa using b2⟩
      · have hlen : (batch limit maxSize size l 0 0).2.length ≤ n := by
          have := congrArg List.length b1
          rw [List.length_append] at this
          have : 0 < (batch limit maxSize size l 0 0).1.length := List.length_pos_iff.2 b3
          omega
        obtain ⟨i1, i2, init, last, i3, i4, i5⟩ := ih _ he hlen
        simp only [he, if_false]
        refine ⟨?_, ?_, ⟨_ :: init, last, by rw [i3]; rfl, i4, ?_⟩⟩
        · rw [List.map_cons, List.flatten_cons, i1]
          exact b1
        · intro x hx
          rcases List.mem_cons.1 hx with rfl | hx
          · exact ⟨b3, by simpa using b2⟩
          · exact i2 x hx
        · intro x hx
          rcases List.mem_cons.1 hx with rfl | hx
          · simpa using he
          · exact i5 x hx
  obtain ⟨f1, f2⟩ := fill_ok hall
  obtain ⟨b1, b2⟩ := batch_spec limit maxSize size (fill read hits).1 0 0
  refine ⟨(batch limit maxSize size (fill read hits).1 0 0).1,
    !(batch limit maxSize size (fill read hits).1 0 0).2.isEmpty,
    (batch limit maxSize size (fill read hits).1 0 0).2, ?_, ?_, ?_, ?_⟩
  · unfold searchAll
    rw [h]
    simp only [found, hp, f1, if_true]
  · simp
  · simpa using b2
  · by_cases he : (batch limit maxSize size (fill read hits).1 0 0).2 = []
    · refine ⟨[], fun _ => rfl, fun h => absurd he h, ?_, by simp, fun h => absurd he h⟩
      rw [he, List.append_nil] at b1
      simp only [List.map_nil, List.flatten_nil, List.append_nil]
      rw [b1, f2]
    · obtain ⟨k1, k2, k3⟩ := key _ _ he (Nat.le_refl _)
      refine ⟨_, fun h => absurd h he, fun _ => rfl, ?_, k2, fun _ => k3⟩
      rw [k1, b1, f2]

/-! ## Writes -/

/-- A write that succeeds in a region with one index: what is given of a document replaces what was
held (`Upsert`) or comes beside it (`Add`); the rest is as before. -/
theorem C107_write {up : Bool} {w : Wrapper} {x : Index} {ds : List Doc} {f : Fails} (hs : w.sibling = none)
    (hx : w.index = some x) (h : (w.write up ds f).2 = true) :
    ∃ x', (w.write up ds f).1.index = some x' ∧ (w.write up ds f).1.sibling = none ∧ x'.lo = x.lo ∧ x'.hi = x.hi ∧
      ∀ i, held x' i =
        if i ∈ ds.map (·.1) then (if up then given ds i else held x i ++ given ds i) else held x i := by
  unfold Wrapper.write at h ⊢
  split at h
  · cases h
  · rename_i hr
    simp only [hr, hx, hs, Bool.false_eq_true, if_false] at h ⊢
    refine ⟨(x.write up ds f.d f.a).1, ?_, ?_, ?_, ?_, held_write h⟩
    · unfold Wrapper.setIndex Wrapper.index
      cases w.share <;> rfl
    · unfold Wrapper.setIndex
      cases w.share <;> exact hs
    · exact (range_write up x ds f.d f.a).1
    · exact (range_write up x ds f.d f.a).2

/-- A deletion that succeeds: nothing is held any more of what is deleted, the rest is as before. -/
theorem C107_delete {w : Wrapper} {x : Index} {ids : List Int} {f : Fails} (hs : w.sibling = none)
    (hx : w.index = some x) (h : (w.delete ids f).2 = true) :
    ∃ x', (w.delete ids f).1.index = some x' ∧ (w.delete ids f).1.sibling = none ∧ x'.lo = x.lo ∧ x'.hi = x.hi ∧
      ∀ i, held x' i = if i ∈ ids then [] else held x i := by
  unfold Wrapper.delete at h ⊢
  split at h
  · cases h
  · rename_i hr
    simp only [hr, hx, hs, Bool.false_eq_true, if_false] at h ⊢
    refine ⟨(x.delete ids f.d).1, ?_, ?_, (range_delete x ids f.d).1, (range_delete x ids f.d).2.1, held_delete h⟩
    · unfold Wrapper.setIndex Wrapper.index
      cases w.share <;> rfl
    · unfold Wrapper.setIndex
      cases w.share <;> exact hs

/-- A write that succeeds in a region with two indexes of ranges that do not meet: each document goes
to the index of its range, as above; one in neither range goes nowhere. -/
theorem C107_write_both {up : Bool} {w : Wrapper} {x s : Index} {ds : List Doc} {f : Fails}
    (hs : w.sibling = some s) (hx : w.index = some x) (hdis : ∀ i, ¬ (inside s i = true ∧ inside x i = true))
    (h : (w.write up ds f).2 = true) :
    ∃ x' s', (w.write up ds f).1.index = some x' ∧ (w.write up ds f).1.sibling = some s' ∧
      (∀ i, held s' i = if i ∈ ds.map (·.1) ∧ s.lo ≤ i ∧ i < s.hi then
        (if up then given ds i else held s i ++ given ds i) else held s i) ∧
      ∀ i, held x' i = if i ∈ ds.map (·.1) ∧ x.lo ≤ i ∧ i < x.hi then
        (if up then given ds i else held x i ++ given ds i) else held x i := by
  have hf : ∀ (y : Index) (i : Int), i ∈ (ds.filter (fun d => inside y d.1)).map (·.1) ↔
      i ∈ ds.map (·.1) ∧ y.lo ≤ i ∧ i < y.hi := by
    intro y i
    simp only [List.mem_map, List.mem_filter]
    constructor
    · rintro ⟨d, ⟨h1, h2⟩, rfl⟩
      exact ⟨⟨d, h1, rfl⟩, by simpa [inside] using h2⟩
    · rintro ⟨⟨d, h1, rfl⟩, h2⟩
      exact ⟨d, ⟨h1, by simpa [inside] using h2⟩, rfl⟩
  have hg : ∀ (y : Index) (i : Int), y.lo ≤ i ∧ i < y.hi → given (ds.filter (fun d => inside y d.1)) i = given ds i := by
    intro y i hi
    unfold given
    rw [List.filter_filter]
    congr 1
    apply List.filter_congr
    intro d _
    by_cases e : d.1 = i
    · simp [e, inside, hi]
    · simp [e]
  have hmv : (movedOut s ds).filter (fun d => inside x d.1) = ds.filter (fun d => inside x d.1) := by
    unfold movedOut
    clear h hf hg
    induction ds with
    | nil => rfl
    | cons d ds ih =>
      simp only [List.map_cons, List.filter_cons]
      by_cases h1 : inside s d.1 = true
      · have h2 : inside x d.1 = false := by
          cases h2 : inside x d.1
          · rfl
          · exact absurd ⟨h1, h2⟩ (hdis d.1)
        simp only [h1, if_true, h2, Bool.false_eq_true, if_false]
        exact ih
      · simp only [h1, Bool.false_eq_true, if_false]
        rw [ih]
  unfold Wrapper.write at h ⊢
  split at h
  · cases h
  · rename_i hr
    simp only [hr, hx, hs, Bool.false_eq_true, if_false, hmv] at h ⊢
    split at h
    · cases h
    · rename_i h1
      split at h
      · cases h
      · rename_i h2
        simp only [h1, h2, Bool.false_eq_true, if_false]
        refine ⟨(x.write up (ds.filter (fun d => inside x d.1)) f.d f.a).1,
          (s.write up (ds.filter (fun d => inside s d.1)) f.sd f.sa).1, ?_, rfl, ?_, ?_⟩
        · unfold Wrapper.setIndex Wrapper.index
          cases w.share <;> rfl
        · intro i
          rw [held_write (by simpa using h1)]
          simp only [hf s i]
          split
          · rename_i hc
            rw [hg s i hc.2]
          · rfl
        · intro i
          rw [held_write (by simpa using h2)]
          simp only [hf x i]
          split
          · rename_i hc
            rw [hg x i hc.2]
          · rfl

/-- A deletion that succeeds in a region with two indexes: neither holds any more what is deleted of
its range, the rest is as before. -/
theorem C107_delete_both {w : Wrapper} {x s : Index} {ids : List Int} {f : Fails} (hs : w.sibling = some s)
    (hx : w.index = some x) (h : (w.delete ids f).2 = true) :
    ∃ x' s', (w.delete ids f).1.index = some x' ∧ (w.delete ids f).1.sibling = some s' ∧
      (∀ i, held s' i = if i ∈ ids ∧ s.lo ≤ i ∧ i < s.hi then [] else held s i) ∧
      ∀ i, held x' i = if i ∈ ids ∧ x.lo ≤ i ∧ i < x.hi then [] else held x i := by
  have hf : ∀ (y : Index) (i : Int), i ∈ ids.filter (inside y) ↔ i ∈ ids ∧ y.lo ≤ i ∧ i < y.hi := by
    intro y i
    simp [List.mem_filter, inside]
  unfold Wrapper.delete at h ⊢
  split at h
  · cases h
  · rename_i hr
    simp only [hr, hx, hs, Bool.false_eq_true, if_false] at h ⊢
    split at h
    · cases h
    · rename_i h1
      simp only [h1, Bool.false_eq_true, if_false]
      refine ⟨(x.delete (ids.filter (inside x)) f.d).1, (s.delete (ids.filter (inside s)) f.sd).1, ?_, rfl, ?_, ?_⟩
      · unfold Wrapper.setIndex Wrapper.index
        cases w.share <;> rfl
      · intro i
        rw [held_delete (by simpa using h1)]
        simp only [hf s i]
      · intro i
        rw [held_delete h]
        simp only [hf x i]

/-- Writes and deletions succeed in a region with one index that is ready and not destroyed, if the
ids are valid and the library does not fail. -/
theorem C107_accepted {w : Wrapper} {x : Index} (hr : w.ready = true) (hs : w.sibling = none)
    (hx : w.index = some x) (hd : x.destroyed = false) (up : Bool) {ds : List Doc} {ids : List Int} {f : Fails}
    (hf : f.d = false ∧ f.a = false) (hds : ∀ d ∈ ds, 0 ≤ d.1 ∧ d.1 < 2 ^ 63 - 1)
    (hids : ∀ i ∈ ids, 0 ≤ i ∧ i < 2 ^ 63 - 1) :
    (w.write up ds f).2 = true ∧ (w.delete ids f).2 = true := by
  have hdel : ∀ l : List Int, (∀ i ∈ l, 0 ≤ i ∧ i < 2 ^ 63 - 1) →
      (x.delete l false).2 = true ∧ (x.delete l false).1.destroyed = false := by
    intro l hl
    refine ⟨?_, (range_delete x l false).2.2.trans hd⟩
    have hany : l.any (fun i => decide (i < 0) || decide (2 ^ 63 - 1 ≤ i)) = false := by
      rw [List.any_eq_false]
      intro i hi
      have := hl i hi
      simp only [Bool.or_eq_true, decide_eq_true_eq]
      omega
    unfold Index.delete
    simp only [hd, hany, Bool.false_eq_true, if_false]
    split <;> rfl
  have hadd : ∀ y : Index, y.destroyed = false → (y.add ds false).2 = true := by
    intro y hy
    unfold Index.add
    simp only [hy, Bool.false_eq_true, if_false]
    split <;> rfl
  constructor
  · unfold Wrapper.write
    simp only [hr, hx, hs, Bool.not_true, Bool.false_eq_true, if_false, hf.1, hf.2]
    unfold Index.write Index.upsert
    split
    · split
      · rfl
      · obtain ⟨h1, h2⟩ := hdel (ds.map (·.1)) (by
          intro i hi
          obtain ⟨d, hd, rfl⟩ := List.mem_map.1 hi
          exact hds d hd)
        simp only [h1, if_true]
        exact hadd _ h2
    · exact hadd _ hd
  · unfold Wrapper.delete
    simp only [hr, hx, hs, Bool.not_true, Bool.false_eq_true, if_false, hf.1]
    exact (hdel ids hids).1

/-- After a write that succeeds a region with one index still holds documents of its range only, if
those given are of the range. -/
theorem C107_in_range {up : Bool} {w : Wrapper} {x : Index} {ds : List Doc} {f : Fails} (hs : w.sibling = none)
    (hx : w.index = some x) (hin : ∀ d ∈ x.docs, x.lo ≤ d.1 ∧ d.1 < x.hi) (hds : ∀ d ∈ ds, x.lo ≤ d.1 ∧ d.1 < x.hi) :
    ∀ x', (w.write up ds f).1.index = some x' → ∀ d ∈ x'.docs, x'.lo ≤ d.1 ∧ d.1 < x'.hi := by
  intro x' h
  unfold Wrapper.write at h
  split at h
  · rw [hx] at h
    cases h
    exact hin
  · simp only [hx, hs] at h
    have e : x' = (x.write up ds f.d f.a).1 := by
      unfold Wrapper.setIndex Wrapper.index at h
      cases hsh : w.share <;> simp only [hsh] at h <;> exact (Option.some.inj h).symm
    rw [e, (range_write up x ds f.d f.a).1, (range_write up x ds f.d f.a).2]
    intro d hd
    rcases docs_write hd with h | h
    · exact hin d h
    · exact hds d h

end Verif.DocSearch
