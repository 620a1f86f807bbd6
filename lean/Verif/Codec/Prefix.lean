import Verif.Codec.Lemmas

/-! # Lemmas about `Helper::PrefixNext` -/

namespace Verif.Codec

theorem le_iff_lt_or_eq (l m : Bytes) : l ≤ m ↔ l < m ∨ l = m := by
  constructor
  · intro h
    rcases lt_trichotomy l m with h1 | h1 | h1
    · exact Or.inl h1
    · exact Or.inr h1
    · exact absurd h1 (List.not_lt.2 h)
  · rintro (h | h)
    · exact List.le_of_lt h
    · rw [h]; exact List.le_refl m

theorem cons_le_iff {a b : UInt8} {l m : Bytes} :
    a :: l ≤ b :: m ↔ a < b ∨ a = b ∧ l ≤ m := by
  rw [le_iff_lt_or_eq, cons_lt_iff, le_iff_lt_or_eq]
  constructor
  · rintro ((h | ⟨h1, h2⟩) | h)
    · exact Or.inl h
    · exact Or.inr ⟨h1, Or.inl h2⟩
    · cases h; exact Or.inr ⟨rfl, Or.inr rfl⟩
  · rintro (h | ⟨h1, h2 | h2⟩)
    · exact Or.inl (Or.inl h)
    · exact Or.inl (Or.inr ⟨h1, h2⟩)
    · exact Or.inr (by rw [h1, h2])

theorem not_lt_replicate_zero {n : Nat} {s : Bytes} (h : n ≤ s.length) :
    ¬ s < List.replicate n 0 := by
  induction n generalizing s with
  | zero => exact List.not_lt_nil s
  | succ n ih =>
    cases s with
    | nil => simp at h
    | cons b s =>
      rw [List.replicate_succ, cons_lt_iff]
      rintro (h1 | ⟨_, h1⟩)
      · rw [UInt8.lt_iff_toNat_lt] at h1; simp at h1
      · exact ih (by simpa using h) h1

theorem prefix_of_replicate_ff_le {n : Nat} {s : Bytes} (hl : n ≤ s.length)
    (h : List.replicate n (255 : UInt8) ≤ s) : List.replicate n (255 : UInt8) <+: s := by
  induction n generalizing s with
  | zero => simp
  | succ n ih =>
    cases s with
    | nil => simp at hl
    | cons b s =>
      rw [List.replicate_succ, cons_le_iff] at h
      rw [List.replicate_succ]
      rcases h with h | ⟨rfl, h⟩
      · rw [UInt8.lt_iff_toNat_lt] at h
        have := b.toNat_lt
        simp at h; omega
      · exact List.cons_prefix_cons.2 ⟨rfl, ih (by simpa using hl) h⟩

theorem le_of_prefix {p s : Bytes} (h : p <+: s) : p ≤ s := by
  obtain ⟨t, rfl⟩ := h
  exact le_append p t

/-- Full description of the carry loop. -/
theorem prefixNextAux_spec (p : Bytes) :
    ((prefixNextAux p).2 = true → p = List.replicate p.length 255 ∧
        (prefixNextAux p).1 = List.replicate p.length 0) ∧
    ((prefixNextAux p).2 = false → (prefixNextAux p).1.length = p.length ∧
        ∀ s : Bytes, p.length ≤ s.length →
          (p ≤ s ∧ s < (prefixNextAux p).1 ↔ p <+: s)) := by
  induction p with
  | nil => simp [prefixNextAux]
  | cons b bs ih =>
    obtain ⟨ih1, ih2⟩ := ih
    simp only [prefixNextAux]
    cases hc : (prefixNextAux bs).2 with
    | true =>
      obtain ⟨h1, h2⟩ := ih1 hc
      simp only [if_true]
      by_cases hb : b = 255
      · subst hb
        simp only [if_true]
        refine ⟨fun _ => ⟨?_, ?_⟩, fun h => (by cases h)⟩
        · rw [List.length_cons, List.replicate_succ, ← h1]
        · rw [List.length_cons, List.replicate_succ, ← h2]
      · simp only [if_neg hb]
        refine ⟨fun h => (by cases h), fun _ => ⟨by rw [h2]; simp, ?_⟩⟩
        have hbn : b.toNat ≠ 255 := fun h => hb (by rw [← UInt8.toNat_inj]; simpa using h)
        have hb1 : (b + 1).toNat = b.toNat + 1 := by
          have := b.toNat_lt
          simp; omega
        intro s hs
        cases s with
        | nil => simp at hs
        | cons c s =>
          simp only [List.length_cons, Nat.add_le_add_iff_right] at hs
          rw [cons_le_iff, cons_lt_iff, List.cons_prefix_cons, h2]
          simp only [UInt8.lt_iff_toNat_lt, ← UInt8.toNat_inj, hb1]
          constructor
          · rintro ⟨h3, h4⟩
            have hc : b.toNat = c.toNat := by
              rcases h4 with h4 | ⟨_, h4⟩
              · rcases h3 with h3 | ⟨h3, _⟩ <;> omega
              · exact absurd h4 (not_lt_replicate_zero hs)
            refine ⟨hc, ?_⟩
            rcases h3 with h3 | ⟨_, h3⟩
            · omega
            · rw [h1] at h3 ⊢
              exact prefix_of_replicate_ff_le hs h3
          · rintro ⟨h3, h4⟩
            exact ⟨Or.inr ⟨h3, le_of_prefix h4⟩, Or.inl (by omega)⟩
    | false =>
      obtain ⟨h1, h2⟩ := ih2 hc
      simp only [Bool.false_eq_true, if_false]
      refine ⟨fun h => (by cases h), fun _ => ⟨by simp [h1], ?_⟩⟩
      intro s hs
      cases s with
      | nil => simp at hs
      | cons c s =>
        simp only [List.length_cons, Nat.add_le_add_iff_right] at hs
        rw [cons_le_iff, cons_lt_iff, List.cons_prefix_cons, ← h2 s hs]
        simp only [UInt8.lt_iff_toNat_lt, ← UInt8.toNat_inj]
        constructor
        · rintro ⟨h3 | ⟨h3, h4⟩, h5 | ⟨h5, h6⟩⟩
          · omega
          · omega
          · omega
          · exact ⟨h3, h4, h6⟩
        · rintro ⟨h3, h4, h5⟩
          exact ⟨Or.inr ⟨h3, h4⟩, Or.inr ⟨h3.symm, h5⟩⟩

theorem prefixNext_of_not_all_ff {p : Bytes} (h : ∃ b ∈ p, b ≠ 255) :
    (prefixNextAux p).2 = false ∧ prefixNext p = (prefixNextAux p).1 := by
  cases hc : (prefixNextAux p).2 with
  | true =>
    exfalso
    obtain ⟨h1, _⟩ := (prefixNextAux_spec p).1 hc
    obtain ⟨b, hb, hne⟩ := h
    rw [h1] at hb
    exact hne (List.eq_of_mem_replicate hb)
  | false => exact ⟨rfl, by simp [prefixNext, hc]⟩

theorem prefixNext_spec {p s : Bytes} (h : ∃ b ∈ p, b ≠ 255) (hs : p.length ≤ s.length) :
    p ≤ s ∧ s < prefixNext p ↔ p <+: s := by
  obtain ⟨h1, h2⟩ := prefixNext_of_not_all_ff h
  rw [h2]
  exact ((prefixNextAux_spec p).2 h1).2 s hs

theorem prefixNext_length (p : Bytes) : (prefixNext p).length = p.length := by
  cases hc : (prefixNextAux p).2 with
  | true => simp [prefixNext, hc]
  | false =>
    have := ((prefixNextAux_spec p).2 hc).1
    simp [prefixNext, hc, this]

/-- When the last byte is not `0xff` only that byte is incremented. -/
theorem prefixNextAux_append (q : Bytes) {b : UInt8} (hb : b ≠ 255) :
    prefixNextAux (q ++ [b]) = (q ++ [b + 1], false) := by
  induction q with
  | nil => simp [prefixNextAux, hb]
  | cons a q ih => simp [prefixNextAux, ih]

theorem prefixNext_append (q : Bytes) {b : UInt8} (hb : b ≠ 255) :
    prefixNext (q ++ [b]) = q ++ [b + 1] := by
  simp [prefixNext, prefixNextAux_append q hb]

/-- Between `q ++ [b]` and `q ++ [b+1]` lie exactly the extensions of `q ++ [b]`. -/
theorem between_succ (q : Bytes) {b : UInt8} (hb : b ≠ 255) (s : Bytes) :
    q ++ [b] ≤ s ∧ s < q ++ [b + 1] ↔ q ++ [b] <+: s := by
  rcases Nat.lt_or_ge s.length (q ++ [b]).length with h | h
  · constructor
    · rintro ⟨h1, h2⟩
      exfalso
      -- a shorter string in between is impossible
      induction q generalizing s with
      | nil =>
        have : s = [] := by
          simp at h; exact h
        subst this
        exact absurd h1 (List.not_le.2 (List.nil_lt_cons _ _))
      | cons a q ih =>
        cases s with
        | nil => exact absurd h1 (List.not_le.2 (List.nil_lt_cons _ _))
        | cons c s =>
          rw [List.cons_append, cons_le_iff] at h1
          rw [List.cons_append, cons_lt_iff] at h2
          simp only [UInt8.lt_iff_toNat_lt, ← UInt8.toNat_inj] at h1 h2
          rcases h1 with h1 | ⟨h1, h1'⟩ <;> rcases h2 with h2 | ⟨h2, h2'⟩
          · omega
          · omega
          · omega
          · exact ih s (by simpa using h) h1' h2'
    · intro h'
      have := h'.length_le
      omega
  · have := prefixNext_spec (p := q ++ [b]) (s := s) ⟨b, by simp, hb⟩ h
    rwa [prefixNext_append q hb] at this

end Verif.Codec
