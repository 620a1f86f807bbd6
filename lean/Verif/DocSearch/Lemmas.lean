import Verif.DocSearch.Model

/-! # Searching documents (specification and lemmas) -/

namespace Verif.DocSearch
open Verif.Codec

/-! ## Specification -/

/-- Best first. -/
def Desc (l : List Hit) : Prop := l.Pairwise (fun a b => b.score ≤ a.score)

/-- What is asked of the library: hits come best first, each once, and are of documents held. -/
structure Ranks (L : Lib) : Prop where
  desc : ∀ q ds, Desc (L.rank q ds)
  mem : ∀ q ds h, h ∈ L.rank q ds → ∃ d ∈ ds, d.1 = h.id

/-- `hits` are `n` best of `pool`, or all if there are fewer, best first. -/
def Best (n : Nat) (pool hits : List Hit) : Prop :=
  ∃ rest, (hits ++ rest).Perm pool ∧ Desc hits ∧ (∀ a ∈ hits, ∀ b ∈ rest, b.score ≤ a.score) ∧
    hits.length = min n pool.length

/-- The hits of a query among documents whose ids are wanted. -/
def wanted (L : Lib) (p : Param) (ds : List Doc) : List Hit :=
  (L.rank p.query ds).filter (fun h => decide (p.ids = [] ∨ h.id ∈ p.ids))

/-- Those in a region as well. -/
def wantedIn (L : Lib) (p : Param) (lo hi : Int) (ds : List Doc) : List Hit :=
  (wanted L p ds).filter (fun h => decide (lo ≤ h.id ∧ h.id < hi))

/-- What an index holds of a document. -/
def held (x : Index) (i : Int) : List Bytes := (x.docs.filter (fun d => decide (d.1 = i))).map (·.2)

/-- The documents of a request of one id that have anything to index. -/
def given (ds : List Doc) (i : Int) : List Bytes :=
  (ds.filter (fun d => decide (d.1 = i) && !d.2.isEmpty)).map (·.2)

/-! ## Lemmas -/

theorem mergeTop_mem {k : Nat} : ∀ {l m : List Hit} {h : Hit}, h ∈ mergeTop k l m → h ∈ l ∨ h ∈ m := by
  induction k with
  | zero => intro l m h hh; simp [mergeTop] at hh
  | succ k ih =>
    intro l m h hh
    cases l with
    | nil => exact .inr (List.mem_of_mem_take (by simpa [mergeTop] using hh))
    | cons a l =>
      cases m with
      | nil =>
        simp only [mergeTop] at hh
        exact .inl (List.mem_of_mem_take hh)
      | cons b m =>
        simp only [mergeTop] at hh
        split at hh
        · rcases List.mem_cons.1 hh with rfl | hh
          · simp
          · rcases ih hh with h | h
            · exact .inl (List.mem_cons_of_mem _ h)
            · exact .inr h
        · rcases List.mem_cons.1 hh with rfl | hh
          · simp
          · rcases ih hh with h | h
            · exact .inl h
            · exact .inr (List.mem_cons_of_mem _ h)

theorem best_take {l : List Hit} (hl : Desc l) (n : Nat) : Best n l (l.take n) := by
  refine ⟨l.drop n, ?_, ?_, ?_, by simp⟩
  · rw [List.take_append_drop]
  · exact hl.sublist (List.take_sublist n l)
  · intro a ha b hb
    have := hl
    unfold Desc at this
    rw [← List.take_append_drop n l, List.pairwise_append] at this
    exact this.2.2 a ha b hb

theorem mergeTop_best {k : Nat} : ∀ {l m : List Hit}, Desc l → Desc m → Best k (l ++ m) (mergeTop k l m) := by
  induction k with
  | zero =>
    intro l m _ _
    exact ⟨l ++ m, by simp [mergeTop], by simp [mergeTop, Desc], by simp [mergeTop], by simp [mergeTop]⟩
  | succ k ih =>
    intro l m hl hm
    cases l with
    | nil => simpa [mergeTop] using best_take hm (k + 1)
    | cons a l =>
      cases m with
      | nil => simpa [mergeTop] using best_take hl (k + 1)
      | cons b m =>
        have hl' := List.pairwise_cons.1 hl
        have hm' := List.pairwise_cons.1 hm
        simp only [mergeTop]
        split
        · rename_i hlt
          obtain ⟨rest, hp, hd, hr, hn⟩ := ih (l := l) (m := b :: m) hl'.2 hm
          have hle : ∀ h, h ∈ l ++ b :: m → h.score ≤ a.score := by
            intro h hh
            rcases List.mem_append.1 hh with hh | hh
            · exact hl'.1 h hh
            · rcases List.mem_cons.1 hh with rfl | hh
              · omega
              · have := hm'.1 h hh
                omega
          refine ⟨rest, ?_, ?_, ?_, ?_⟩
          · simpa using List.Perm.cons a hp
          · refine List.pairwise_cons.2 ⟨fun h hh => hle h (hp.mem_iff.1 (by simp [hh])), hd⟩
          · intro x hx y hy
            rcases List.mem_cons.1 hx with rfl | hx
            · exact hle y (hp.mem_iff.1 (by simp [hy]))
            · exact hr x hx y hy
          · simp only [List.length_cons, List.length_append] at hn ⊢
            omega
        · rename_i hlt
          obtain ⟨rest, hp, hd, hr, hn⟩ := ih (l := a :: l) (m := m) hl hm'.2
          have hle : ∀ h, h ∈ a :: l ++ m → h.score ≤ b.score := by
            intro h hh
            rcases List.mem_append.1 hh with hh | hh
            · rcases List.mem_cons.1 hh with rfl | hh
              · omega
              · have := hl'.1 h hh
                omega
            · exact hm'.1 h hh
          refine ⟨rest, ?_, ?_, ?_, ?_⟩
          · have h1 : (b :: (mergeTop k (a :: l) m ++ rest)).Perm (b :: (a :: l ++ m)) := List.Perm.cons b hp
            exact h1.trans (List.perm_middle).symm
          · refine List.pairwise_cons.2 ⟨fun h hh => hle h (hp.mem_iff.1 (by simp [hh])), hd⟩
          · intro x hx y hy
            rcases List.mem_cons.1 hx with rfl | hx
            · exact hle y (hp.mem_iff.1 (by simp [hy]))
            · exact hr x hx y hy
          · simp only [List.length_cons, List.length_append] at hn ⊢
            omega

theorem mergeTop_take {k : Nat} : ∀ {n : Nat} {l m : List Hit}, k ≤ n →
    mergeTop k (l.take n) (m.take n) = mergeTop k l m := by
  induction k with
  | zero => intro n l m _; simp [mergeTop]
  | succ k ih =>
    intro n l m h
    obtain ⟨n, rfl⟩ : ∃ j, n = j + 1 := ⟨n - 1, by omega⟩
    cases l with
    | nil =>
      simp only [List.take_nil, mergeTop, List.take_take, Nat.min_eq_left h]
    | cons a l =>
      cases m with
      | nil =>
        have : (a :: l).take (n + 1) = a :: l.take n := rfl
        simp only [List.take_nil, this, mergeTop]
        rw [← this, List.take_take, Nat.min_eq_left h]
      | cons b m =>
        have e1 : mergeTop k (l.take n) (b :: m.take n) = mergeTop k l (b :: m) := by
          have h1 := ih (n := n) (l := l) (m := b :: m) (by omega)
          have h2 := ih (n := n) (l := l.take n) (m := b :: m.take n) (by omega)
          rw [← h1, ← h2]
          congr 1
          · simp [List.take_take]
          · cases n with
            | zero => rfl
            | succ n => simp [List.take_take]
        have e2 : mergeTop k (a :: l.take n) (m.take n) = mergeTop k (a :: l) m := by
          have h1 := ih (n := n) (l := a :: l) (m := m) (by omega)
          have h2 := ih (n := n) (l := a :: l.take n) (m := m.take n) (by omega)
          rw [← h1, ← h2]
          congr 1
          · cases n with
            | zero => rfl
            | succ n => simp [List.take_take]
          · simp [List.take_take]
        simp only [List.take_succ_cons, mergeTop, e1, e2]

theorem exists_cons {P : Hit → Prop} {a : Hit} {l : List Hit} :
    (∃ q ∈ a :: l, P q) ↔ P a ∨ ∃ q ∈ l, P q := by
  simp

theorem insId_mem (h : Hit) (l : List Hit) : ∀ q, q ∈ insId h l → q = h ∨ q ∈ l := by
  induction l with
  | nil => intro q hq; simpa [insId] using hq
  | cons a l ih =>
    intro q hq
    simp only [insId] at hq
    split at hq
    · simpa using hq
    · split at hq
      · rcases List.mem_cons.1 hq with rfl | hq
        · simp
        · simp [hq]
      · rcases List.mem_cons.1 hq with rfl | hq
        · simp
        · rcases ih q hq with h | h
          · exact .inl h
          · exact .inr (List.mem_cons_of_mem _ h)

theorem insId_ids (h : Hit) (l : List Hit) (i : Int) :
    (∃ q ∈ insId h l, q.id = i) ↔ h.id = i ∨ ∃ q ∈ l, q.id = i := by
  induction l with
  | nil => simp [insId]
  | cons a l ih =>
    simp only [insId]
    split
    · simp
    · split
      · rename_i _ e
        simp [← e]
      · simp only [exists_cons, ih]
        constructor
        · rintro (h | h | h)
          · exact .inr (.inl h)
          · exact .inl h
          · exact .inr (.inr h)
        · rintro (h | h | h)
          · exact .inr (.inl h)
          · exact .inl h
          · exact .inr (.inr h)

theorem insId_sorted (h : Hit) (l : List Hit) (hl : l.Pairwise (fun a b => a.id < b.id)) :
    (insId h l).Pairwise (fun a b => a.id < b.id) := by
  induction l with
  | nil => simp [insId]
  | cons a l ih =>
    have ha := List.pairwise_cons.1 hl
    simp only [insId]
    split
    · rename_i hlt
      refine List.pairwise_cons.2 ⟨?_, hl⟩
      intro q hq
      rcases List.mem_cons.1 hq with rfl | hq
      · exact hlt
      · have := ha.1 q hq
        omega
    · split
      · rename_i _ e
        exact List.pairwise_cons.2 ⟨fun q hq => by have := ha.1 q hq; omega, ha.2⟩
      · refine List.pairwise_cons.2 ⟨?_, ih ha.2⟩
        intro q hq
        rcases insId_mem h l q hq with rfl | hq
        · omega
        · exact ha.1 q hq

theorem mergeAll_spec (l m : List Hit) :
    (mergeAll l m).Pairwise (fun a b => a.id < b.id) ∧ (∀ h ∈ mergeAll l m, h ∈ l ∨ h ∈ m) ∧
      ∀ i, (∃ q ∈ mergeAll l m, q.id = i) ↔ (∃ q ∈ l, q.id = i) ∨ ∃ q ∈ m, q.id = i := by
  have key : ∀ L : List Hit, (L.foldr insId []).Pairwise (fun a b => a.id < b.id) ∧
      (∀ h ∈ L.foldr insId [], h ∈ L) ∧ ∀ i, (∃ q ∈ L.foldr insId [], q.id = i) ↔ ∃ q ∈ L, q.id = i := by
    intro L
    induction L with
    | nil => simp
    | cons a L ih =>
      simp only [List.foldr_cons]
      refine ⟨insId_sorted a _ ih.1, ?_, ?_⟩
      · intro h hh
        rcases insId_mem a _ h hh with rfl | hh
        · simp
        · exact List.mem_cons_of_mem _ (ih.2.1 h hh)
      · intro i
        rw [insId_ids, ih.2.2, exists_cons]
  obtain ⟨h1, h2, h3⟩ := key (l ++ m)
  refine ⟨h1, fun h hh => List.mem_append.1 (h2 h hh), ?_⟩
  intro i
  rw [show (mergeAll l m) = (l ++ m).foldr insId [] from rfl, h3]
  constructor
  · rintro ⟨q, hq, e⟩
    rcases List.mem_append.1 hq with hq | hq
    · exact .inl ⟨q, hq, e⟩
    · exact .inr ⟨q, hq, e⟩
  · rintro (⟨q, hq, e⟩ | ⟨q, hq, e⟩)
    · exact ⟨q, by simp [hq], e⟩
    · exact ⟨q, by simp [hq], e⟩

theorem filter_keeps_none (p : Param) (l : List Hit) :
    l.filter (keeps p none) = l.filter (fun h => decide (p.ids = [] ∨ h.id ∈ p.ids)) := by
  congr 1
  funext h
  rw [Bool.eq_iff_iff]
  simp [keeps]

theorem filter_keeps_some (p : Param) (lo hi : Int) (l : List Hit) :
    l.filter (keeps p (some (lo, hi))) =
      (l.filter (fun h => decide (p.ids = [] ∨ h.id ∈ p.ids))).filter (fun h => decide (lo ≤ h.id ∧ h.id < hi)) := by
  rw [List.filter_filter]
  congr 1
  funext h
  rw [Bool.eq_iff_iff]
  simp [keeps, and_comm]

theorem wanted_desc {L : Lib} (hL : Ranks L) (p : Param) (ds : List Doc) : Desc (wanted L p ds) :=
  (hL.desc p.query ds).sublist List.filter_sublist

theorem index_search {L : Lib} {x : Index} {p : Param} {range : Option (Int × Int)} {hits : List Hit}
    (h : x.search L p range = some hits) :
    x.destroyed = false ∧ p.query ≠ [] ∧ (p.unlimited = true ∨ 0 < p.topN) ∧
      hits = (if p.unlimited then (L.rank p.query x.docs).filter (keeps p range)
        else ((L.rank p.query x.docs).filter (keeps p range)).take p.topN) := by
  unfold Index.search at h
  split at h
  · cases h
  · rename_i hd
    split at h
    · cases h
    · rename_i ht
      split at h
      · cases h
      · rename_i hq
        refine ⟨by simpa using hd, by simpa using hq, ?_, by simpa using h.symm⟩
        cases hu : p.unlimited
        · right
          simp [hu] at ht
          omega
        · exact .inl rfl

theorem batch_spec (limit maxSize : Nat) (size : Res → Nat) : ∀ (l : List Res) (c b : Nat),
    (batch limit maxSize size l c b).1 ++ (batch limit maxSize size l c b).2 = l ∧
      (batch limit maxSize size l c b).1.length ≤ limit - c := by
  intro l
  induction l with
  | nil => intro c b; simp [batch]
  | cons r l ih =>
    intro c b
    unfold batch
    split
    · rename_i h
      obtain ⟨h1, h2⟩ := ih (c + 1) (b + size r)
      refine ⟨by simpa using h1, ?_⟩
      simp only [List.length_cons]
      omega
    · simp

theorem batch_pos {limit maxSize : Nat} {size : Res → Nat} (h : 0 < limit) (hm : 0 < maxSize) {l : List Res}
    (hl : l ≠ []) : (batch limit maxSize size l 0 0).1 ≠ [] := by
  cases l with
  | nil => exact absurd rfl hl
  | cons r l => simp [batch, h, hm]

theorem fill_ok {read : Int → Option Bytes} : ∀ {l : List Hit}, (∀ h ∈ l, read h.id ≠ none) →
    (fill read l).2 = true ∧ (fill read l).1 = l.map (fun h => ⟨h, read h.id⟩) := by
  intro l
  induction l with
  | nil => simp [fill]
  | cons a l ih =>
    intro h
    obtain ⟨h1, h2⟩ := ih (fun q hq => h q (List.mem_cons_of_mem _ hq))
    cases e : read a.id with
    | none => exact absurd e (h a (by simp))
    | some d => simp [fill, e, h1, h2]

theorem fill_hits (read : Int → Option Bytes) : ∀ l : List Hit, (fill read l).1.map (·.hit) = l := by
  intro l
  induction l with
  | nil => simp [fill]
  | cons a l ih =>
    simp only [fill]
    split
    · simp only [List.map_map]
      exact List.map_id' _
    · simp [ih]

theorem fill_data (read : Int → Option Bytes) : ∀ l : List Hit, ∀ r ∈ (fill read l).1, ∀ d, r.data = some d →
    read r.hit.id = some d := by
  intro l
  induction l with
  | nil => simp [fill]
  | cons a l ih =>
    intro r hr d hd
    simp only [fill] at hr
    split at hr
    · obtain ⟨q, _, rfl⟩ := List.mem_map.1 hr
      cases hd
    · rename_i d' e
      rcases List.mem_cons.1 hr with rfl | hr
      · simp only [Option.some.injEq] at hd
        subst hd
        exact e
      · exact ih r hr d hd

/-! ## Writes -/

theorem held_delete {x : Index} {ids : List Int} {f : Bool} (h : (x.delete ids f).2 = true) (i : Int) :
    held (x.delete ids f).1 i = if i ∈ ids then [] else held x i := by
  unfold Index.delete at h ⊢
  split
  · rename_i h0
    simp [h0]
  · rename_i h0
    simp only [h0, if_false] at h
    split at h
    · cases h
    · rename_i h1
      split at h
      · cases h
      · rename_i h2
        split at h
        · cases h
        · rename_i h3
          simp only [h1, h2, h3, if_false, Bool.false_eq_true]
          unfold held
          rw [List.filter_filter]
          split
          · rename_i hi
            simp only [List.map_eq_nil_iff, List.filter_eq_nil_iff]
            intro d _
            simp only [Bool.and_eq_true, decide_eq_true_eq, Bool.not_eq_true', not_and]
            intro e
            simp [e, hi]
          · rename_i hi
            congr 1
            apply List.filter_congr
            intro d _
            by_cases e : d.1 = i
            · simp [e, hi]
            · simp [e]

theorem held_add {x : Index} {ds : List Doc} {f : Bool} (h : (x.add ds f).2 = true) (i : Int) :
    held (x.add ds f).1 i = held x i ++ given ds i := by
  unfold Index.add at h ⊢
  split
  · rename_i h0
    simp [h0, given]
  · rename_i h0
    simp only [h0, if_false] at h
    split at h
    · cases h
    · rename_i h1
      split at h
      · cases h
      · rename_i h2
        simp only [h1, h2, if_false, Bool.false_eq_true]
        simp [held, given, List.filter_append, List.filter_filter]

theorem given_nil {ds : List Doc} {i : Int} (h : i ∉ ds.map (·.1)) : given ds i = [] := by
  simp only [given, List.map_eq_nil_iff, List.filter_eq_nil_iff]
  intro d hd e
  simp only [Bool.and_eq_true, decide_eq_true_eq] at e
  exact h (List.mem_map.2 ⟨d, hd, e.1⟩)

theorem held_write {up : Bool} {x : Index} {ds : List Doc} {fd fa : Bool} (h : (x.write up ds fd fa).2 = true)
    (i : Int) :
    held (x.write up ds fd fa).1 i =
      if i ∈ ds.map (·.1) then (if up then given ds i else held x i ++ given ds i) else held x i := by
  unfold Index.write at h ⊢
  cases up with
  | false =>
    simp only [Bool.false_eq_true, if_false] at h ⊢
    rw [held_add h]
    split
    · rfl
    · rename_i hi
      rw [given_nil hi, List.append_nil]
  | true =>
    simp only [if_true] at h ⊢
    unfold Index.upsert at h ⊢
    split
    · rename_i h0
      simp [h0]
    · rename_i h0
      simp only [h0, if_false] at h
      split at h
      · rename_i h1
        simp only [h1, if_true]
        rw [held_add h, held_delete h1]
        split
        · simp
        · rename_i hi
          rw [given_nil hi, List.append_nil]
      · cases h

theorem range_delete (x : Index) (ids : List Int) (f : Bool) :
    (x.delete ids f).1.lo = x.lo ∧ (x.delete ids f).1.hi = x.hi ∧ (x.delete ids f).1.destroyed = x.destroyed := by
  unfold Index.delete
  repeat' split
  all_goals exact ⟨rfl, rfl, rfl⟩

theorem range_add (x : Index) (ds : List Doc) (f : Bool) :
    (x.add ds f).1.lo = x.lo ∧ (x.add ds f).1.hi = x.hi := by
  unfold Index.add
  repeat' split
  all_goals exact ⟨rfl, rfl⟩

theorem range_write (up : Bool) (x : Index) (ds : List Doc) (fd fa : Bool) :
    (x.write up ds fd fa).1.lo = x.lo ∧ (x.write up ds fd fa).1.hi = x.hi := by
  unfold Index.write Index.upsert
  split
  · split
    · exact ⟨rfl, rfl⟩
    · have h1 := range_delete x (ds.map (·.1)) fd
      simp only
      split
      · have h2 := range_add (x.delete (ds.map (·.1)) fd).1 ds fa
        exact ⟨h2.1.trans h1.1, h2.2.trans h1.2.1⟩
      · exact ⟨h1.1, h1.2.1⟩
  · exact ⟨(range_add x ds fa).1, (range_add x ds fa).2⟩

theorem docs_delete {x : Index} {ids : List Int} {f : Bool} {d : Doc} (h : d ∈ (x.delete ids f).1.docs) :
    d ∈ x.docs := by
  unfold Index.delete at h
  repeat' split at h
  all_goals first | exact h | exact (List.mem_filter.1 h).1

theorem docs_add {x : Index} {ds : List Doc} {f : Bool} {d : Doc} (h : d ∈ (x.add ds f).1.docs) :
    d ∈ x.docs ∨ d ∈ ds := by
  unfold Index.add at h
  repeat' split at h
  all_goals first
    | exact .inl h
    | (rcases List.mem_append.1 h with h | h
       · exact .inl h
       · exact .inr ((List.mem_filter.1 h).1))

theorem docs_write {up : Bool} {x : Index} {ds : List Doc} {fd fa : Bool} {d : Doc}
    (h : d ∈ (x.write up ds fd fa).1.docs) : d ∈ x.docs ∨ d ∈ ds := by
  unfold Index.write Index.upsert at h
  split at h
  · split at h
    · exact .inl h
    · simp only at h
      split at h
      · rcases docs_add h with h | h
        · exact .inl (docs_delete h)
        · exact .inr h
      · exact .inl (docs_delete h)
  · exact docs_add h

end Verif.DocSearch
