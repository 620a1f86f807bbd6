import Verif.LogStore.Lemmas

/-! # The term cache -/

namespace Verif.LogStore
open Verif.Codec

/-- The last entry at or below an index. -/
def lookup (l : TermMap) (i : Int) : Option Int :=
  ((l.filter (fun e => decide (e.1 ≤ i))).getLast?).map (·.2)

/-- Indexes and terms strictly ascend. -/
def AscTerms (l : TermMap) : Prop := l.Pairwise (fun a b => a.1 < b.1 ∧ a.2 < b.2)

theorem find?_reverse_eq {α : Type} (p : α → Bool) (l : List α) :
    l.reverse.find? p = (l.filter p).getLast? := by
  rw [← List.head?_filter, List.filter_reverse, List.head?_reverse]

theorem upperBound_spec (l : TermMap) (i : Int) (start len : Nat) (hle : start + len ≤ l.length)
    (h1 : ∀ j x, j < start → l[j]? = some x → x.1 ≤ i)
    (h2 : ∀ j x, start + len ≤ j → l[j]? = some x → i < x.1) (hs : AscTerms l) :
    upperBound l i start len ≤ l.length
    ∧ (∀ j x, j < upperBound l i start len → l[j]? = some x → x.1 ≤ i)
    ∧ (∀ j x, upperBound l i start len ≤ j → l[j]? = some x → i < x.1) := by
  have mono : ∀ (a b : Nat) (x y : Int × Int), a ≤ b → l[a]? = some x → l[b]? = some y → x.1 ≤ y.1 := by
    intro a b x y hab hx hy
    by_cases he : a = b
    · subst he; rw [hx] at hy; cases hy; exact Int.le_refl _
    · obtain ⟨ha, rfl⟩ := List.getElem?_eq_some_iff.1 hx
      obtain ⟨hb, rfl⟩ := List.getElem?_eq_some_iff.1 hy
      have := (List.pairwise_iff_getElem.1 hs) a b ha hb (by omega)
      omega
  induction hn : len using Nat.strongRecOn generalizing start len with
  | _ n ih =>
    subst hn
    rw [upperBound]
    by_cases h0 : len = 0
    · rw [dif_pos h0]
      subst h0
      exact ⟨by omega, h1, h2⟩
    · rw [dif_neg h0]
      simp only []
      cases he : l[start + len / 2]? with
      | none =>
        have := List.getElem?_eq_none_iff.1 he
        omega
      | some e =>
        simp only []
        by_cases hc : i < e.1
        · rw [if_pos hc]
          refine ih (len / 2) (by omega) start (len / 2) (by omega) h1 ?_ rfl
          intro j x hj hx
          have := mono _ _ _ _ hj he hx
          omega
        · rw [if_neg hc]
          refine ih (len - len / 2 - 1) (by omega) (start + len / 2 + 1) _ (by omega) ?_ ?_ rfl
          · intro j x hj hx
            have := mono _ _ _ _ (show j ≤ start + len / 2 by omega) hx he
            omega
          · intro j x hj hx
            exact h2 j x (by omega) hx

theorem filter_eq_take {α : Type} (p : α → Bool) (l : List α) (n : Nat)
    (h1 : ∀ j x, j < n → l[j]? = some x → p x = true)
    (h2 : ∀ j x, n ≤ j → l[j]? = some x → p x = false) : l.filter p = l.take n := by
  induction l generalizing n with
  | nil => simp
  | cons a l ih =>
    cases n with
    | zero =>
      have ha := h2 0 a (Nat.le_refl _) rfl
      rw [List.filter_cons_of_neg (by simp [ha]), List.take_zero]
      rw [ih 0 (by omega) (fun j x _ hx => h2 (j + 1) x (by omega) hx), List.take_zero]
    | succ n =>
      have ha := h1 0 a (by omega) rfl
      rw [List.filter_cons_of_pos ha, List.take_succ_cons]
      rw [ih n (fun j x hj hx => h1 (j + 1) x (by omega) hx) (fun j x hj hx => h2 (j + 1) x (by omega) hx)]

/-- Both searches of `GetTerm` find the last entry at or below the index. -/
theorem getTerm_eq {l : TermMap} (hs : AscTerms l) (i : Int) : l.getTerm i = (lookup l i).getD 0 := by
  unfold TermMap.getTerm lookup
  cases hb : l.getLast? with
  | none =>
    rw [List.getLast?_eq_none_iff] at hb
    subst hb; rfl
  | some b =>
    simp only []
    by_cases h1 : b.1 ≤ i
    · rw [if_pos h1]
      have hm : l.filter (fun e => decide (e.1 ≤ i)) = l := by
        rw [List.filter_eq_self]
        intro x hx
        obtain ⟨m, rfl⟩ := List.getLast?_eq_some_iff.1 hb
        simp only [List.mem_append, List.mem_singleton] at hx
        rcases hx with hx | rfl
        · have := (List.pairwise_append.1 hs).2.2 x hx b (by simp)
          simp only [decide_eq_true_eq]; omega
        · simpa using h1
      rw [hm, hb]; rfl
    · rw [if_neg h1]
      by_cases h2 : l.length < 15
      · rw [if_pos h2, find?_reverse_eq]
        cases (l.filter (fun e => decide (e.1 ≤ i))).getLast? <;> rfl
      · rw [if_neg h2]
        obtain ⟨g1, g2, g3⟩ := upperBound_spec l i 0 l.length (by omega) (by omega)
          (fun j x hj hx => by
            have := (List.getElem?_eq_some_iff.1 hx).1
            omega) hs
        generalize upperBound l i 0 l.length = p at g1 g2 g3
        rw [filter_eq_take _ l p (fun j x hj hx => by simpa using g2 j x hj hx)
          (fun j x hj hx => by simpa using g3 j x hj hx)]
        by_cases hp : p = 0
        · rw [if_pos hp]; subst hp; simp
        · rw [if_neg hp]
          rw [List.getLast?_take, if_neg hp]
          cases hx : l[p - 1]? with
          | some x => simp
          | none =>
            have := List.getElem?_eq_none_iff.1 hx
            omega

theorem lookup_append_one (l : TermMap) (i t j : Int) :
    lookup (l ++ [(i, t)]) j = if i ≤ j then some t else lookup l j := by
  simp only [lookup, List.filter_append]
  by_cases h : i ≤ j
  · rw [if_pos h, List.filter_cons_of_pos (by simpa using h)]
    simp
  · rw [if_neg h, List.filter_cons_of_neg (by simpa using h)]
    simp

theorem append_ok {l : TermMap} (hs : AscTerms l) {i t : Int} (h : ∀ x ∈ l, x.1 < i ∧ x.2 ≤ t) :
    ∃ l', l.append i t = some l' ∧ AscTerms l' ∧ (∀ x ∈ l', x ∈ l ∨ x = (i, t))
      ∧ (∀ j, j < i → lookup l' j = lookup l j) ∧ (∀ j, i ≤ j → lookup l' j = some t) := by
  unfold TermMap.append
  cases hb : l.getLast? with
  | none =>
    rw [List.getLast?_eq_none_iff] at hb
    subst hb
    refine ⟨_, rfl, List.pairwise_singleton _ _, fun x hx => .inr (by simpa using hx), ?_, ?_⟩
    · intro j hj
      have := lookup_append_one [] i t j
      rw [if_neg (by omega)] at this
      exact this
    · intro j hj
      have := lookup_append_one [] i t j
      rwa [if_pos hj] at this
  | some b =>
    simp only []
    obtain ⟨m, hm⟩ := List.getLast?_eq_some_iff.1 hb
    have hbl : b ∈ l := by rw [hm]; simp
    have hb1 := h b hbl
    rw [if_neg (by omega)]
    by_cases ht : t = b.2
    · rw [if_pos ht]
      refine ⟨l, rfl, hs, fun x hx => .inl hx, fun _ _ => rfl, ?_⟩
      intro j hj
      rw [hm]
      obtain ⟨b1, b2⟩ := b
      rw [lookup_append_one, if_pos (by simp only at hb1; omega)]
      simp only at ht
      rw [ht]
    · rw [if_neg ht]
      refine ⟨_, rfl, ?_, ?_, ?_, ?_⟩
      · refine List.pairwise_append.2 ⟨hs, List.pairwise_singleton _ _, ?_⟩
        intro x hx y hy
        simp only [List.mem_singleton] at hy
        subst hy
        have h1 := h x hx
        refine ⟨h1.1, ?_⟩
        rw [hm] at hx hs
        simp only [List.mem_append, List.mem_singleton] at hx
        rcases hx with hx | rfl
        · have := (List.pairwise_append.1 hs).2.2 x hx b (by simp)
          simp only; omega
        · simp only; omega
      · intro x hx
        simpa using hx
      · intro j hj
        rw [lookup_append_one, if_neg (by omega)]
      · intro j hj
        rw [lookup_append_one, if_pos hj]

/-- Entries in index order with terms that never decrease. -/
def AscEntries (es : List (Int × LogEntry)) : Prop :=
  es.Pairwise (fun a b => a.1 < b.1 ∧ a.2.term ≤ b.2.term)

theorem appendTerms_ok {es : List (Int × LogEntry)} (he : AscEntries es) {l : TermMap} (hs : AscTerms l)
    (h : ∀ x ∈ l, ∀ e ∈ es, x.1 < e.1 ∧ x.2 ≤ e.2.term) :
    ∃ l', appendTerms l es = some l' ∧ registerTerms l es = l' ∧ AscTerms l'
      ∧ (∀ x ∈ l', x ∈ l ∨ ∃ e ∈ es, x = (e.1, e.2.term))
      ∧ (∀ j, (∀ e ∈ es, j < e.1) → lookup l' j = lookup l j)
      ∧ (∀ e ∈ es, lookup l' e.1 = some e.2.term) := by
  induction es generalizing l with
  | nil => exact ⟨l, rfl, rfl, hs, fun x hx => .inl hx, fun _ _ => rfl, by simp⟩
  | cons e es ih =>
    obtain ⟨l1, a1, a2, a3, a4, a5⟩ := append_ok hs (i := e.1) (t := e.2.term) (fun x hx => h x hx e (by simp))
    have he' := List.pairwise_cons.1 he
    obtain ⟨l2, b1, b2, b3, b4, b5, b6⟩ := ih he'.2 a2 (by
      intro x hx y hy
      rcases a3 x hx with hx | rfl
      · exact h x hx y (by simp [hy])
      · exact he'.1 y hy)
    refine ⟨l2, ?_, ?_, b3, ?_, ?_, ?_⟩
    · simp only [appendTerms, a1]; exact b1
    · simp only [registerTerms, a1]; exact b2
    · intro x hx
      rcases b4 x hx with hx | ⟨y, hy, rfl⟩
      · rcases a3 x hx with hx | rfl
        · exact .inl hx
        · exact .inr ⟨e, by simp, rfl⟩
      · exact .inr ⟨y, by simp [hy], rfl⟩
    · intro j hj
      rw [b5 j (fun y hy => hj y (by simp [hy])), a4 j (hj e (by simp))]
    · intro y hy
      simp only [List.mem_cons] at hy
      rcases hy with rfl | hy
      · rw [b5 y.1 (fun z hz => (he'.1 z hz).1), a5 _ (Int.le_refl _)]
      · exact b6 y hy

theorem lookup_cons {a : Int × Int} {m : TermMap} {j : Int} (h : ∃ x ∈ m, x.1 ≤ j) :
    lookup (a :: m) j = lookup m j := by
  obtain ⟨x, hx, hj⟩ := h
  unfold lookup
  have hm : m.filter (fun e => decide (e.1 ≤ j)) ≠ [] := by
    intro h0
    have : x ∈ m.filter (fun e => decide (e.1 ≤ j)) := List.mem_filter.2 ⟨hx, by simpa using hj⟩
    rw [h0] at this; cases this
  by_cases ha : a.1 ≤ j
  · rw [List.filter_cons_of_pos (by simpa using ha), List.getLast?_cons]
    cases hl : (m.filter (fun e => decide (e.1 ≤ j))).getLast? with
    | none => rw [List.getLast?_eq_none_iff] at hl; exact absurd hl hm
    | some y => rfl
  · rw [List.filter_cons_of_neg (by simpa using ha)]

theorem lookup_cutPrefix (k : Int) (l : TermMap) (j : Int) (h : k ≤ j) :
    lookup (TermMap.cutPrefix k l) j = lookup l j := by
  fun_induction TermMap.cutPrefix k l with
  | case1 a b m hb ih =>
    exact ih.trans (lookup_cons ⟨b, by simp, by omega⟩).symm
  | case2 => rfl
  | case3 => rfl

theorem cutPrefix_suffix (k : Int) (l : TermMap) : TermMap.cutPrefix k l <:+ l := by
  fun_induction TermMap.cutPrefix k l with
  | case1 a b m hb ih => exact ih.trans (List.suffix_cons _ _)
  | case2 => exact List.suffix_refl _
  | case3 => exact List.suffix_refl _

theorem cutSuffix_split (k : Int) (l : TermMap) :
    ∃ d, l = TermMap.cutSuffix k l ++ d ∧ ∀ x ∈ d, k < x.1 := by
  refine ⟨(l.reverse.takeWhile (fun e => decide (k < e.1))).reverse, ?_, ?_⟩
  · rw [TermMap.cutSuffix, ← List.reverse_append, List.takeWhile_append_dropWhile, List.reverse_reverse]
  · intro x hx
    rw [List.mem_reverse] at hx
    have := List.all_takeWhile (p := fun e : Int × Int => decide (k < e.1)) (l := l.reverse)
    rw [List.all_eq_true] at this
    simpa using this x hx

theorem lookup_cutSuffix (k : Int) (l : TermMap) (j : Int) (h : j ≤ k) :
    lookup (TermMap.cutSuffix k l) j = lookup l j := by
  obtain ⟨d, h1, h2⟩ := cutSuffix_split k l
  have hd : d.filter (fun e => decide (e.1 ≤ j)) = [] := by
    rw [List.filter_eq_nil_iff]
    intro x hx
    have := h2 x hx
    simp only [decide_eq_true_eq]; omega
  have : lookup l j = lookup (TermMap.cutSuffix k l ++ d) j := by rw [← h1]
  rw [this]
  unfold lookup
  rw [List.filter_append, hd, List.append_nil]

/-- After cutting, nothing above the cut is left (the map ascends). -/
theorem cutSuffix_le {k : Int} {l : TermMap} (hs : AscTerms l) : ∀ x ∈ TermMap.cutSuffix k l, x.1 ≤ k := by
  intro x hx
  unfold TermMap.cutSuffix at hx
  rw [List.mem_reverse] at hx
  have hr : (l.reverse).Pairwise (fun a b => b.1 < a.1 ∧ b.2 < a.2) := List.pairwise_reverse.2 hs
  generalize l.reverse = m at hx hr
  induction m with
  | nil => cases hx
  | cons a m ih =>
    by_cases ha : k < a.1
    · rw [List.dropWhile_cons_of_pos (by simpa using ha)] at hx
      exact ih hx (List.pairwise_cons.1 hr).2
    · rw [List.dropWhile_cons_of_neg (by simpa using ha)] at hx
      simp only [List.mem_cons] at hx
      rcases hx with rfl | hx
      · omega
      · have := (List.pairwise_cons.1 hr).1 x hx
        omega

end Verif.LogStore
