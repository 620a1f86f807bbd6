import Verif.Region.Validate
import Verif.Codec.Prefix

/-!
# Request validation (specification vocabulary and lemmas)
-/

namespace Verif.Region
open Verif.Codec

/-- A key lies in a range. -/
def Range.has (r : Range) (k : Bytes) : Prop := r.start ≤ k ∧ k < r.stop

/-- The states in which a region serves requests. -/
def Serving (s : RState) : Prop := s = .normal ∨ s = .splitting

theorem lt_of_lt_of_le {a b c : Bytes} (h : a < b) (h' : b ≤ c) : a < c := by
  rcases (le_iff_lt_or_eq b c).1 h' with e | e
  · exact lt_trans h e
  · rwa [← e]

theorem validateKeys_iff (r : Range) (ks : List Bytes) :
    validateKeys r ks = true ↔ ∀ k ∈ ks, r.has k := by
  induction ks with
  | nil => simp [validateKeys]
  | cons k ks ih =>
    unfold validateKeys
    by_cases h : (k < r.start || r.stop ≤ k) = true
    · rw [if_pos h]
      simp only [Bool.or_eq_true, decide_eq_true_eq] at h
      simp only [List.mem_cons, forall_eq_or_imp, Bool.false_eq_true, false_iff, not_and]
      intro hk
      rcases h with h | h
      · exact absurd h (List.not_lt.2 hk.1)
      · exact absurd hk.2 (List.not_lt.2 h)
    · rw [if_neg h, ih]
      simp only [Bool.or_eq_true, decide_eq_true_eq, not_or] at h
      simp only [List.mem_cons, forall_eq_or_imp]
      refine ⟨fun h' => ⟨⟨List.not_lt.1 h.1, List.not_le.1 h.2⟩, h'⟩, (·.2)⟩

theorem epoch_iff (e : Epoch) (r : Info) : validateEpoch e r = true ↔ e = r.epoch := by
  unfold validateEpoch
  obtain ⟨a, b⟩ := e
  cases hr : r.epoch with
  | mk c d =>
    simp
    constructor
    · rintro ⟨h1, h2⟩; exact ⟨h1.symm, h2.symm⟩
    · rintro ⟨h1, h2⟩; exact ⟨h1.symm, h2.symm⟩

theorem state_iff (r : Info) : validateState r = true ↔ Serving r.state := by
  unfold validateState Serving
  cases r.state <;> simp

theorem checks_iff (e : Epoch) (q : Range) (r : Info) :
    rangeChecks e q r = .ok () ↔
      e = r.epoch ∧ (q.start ≠ [] ∧ q.stop ≠ [] ∧ q.start < q.stop) ∧
        validateRangeInRange r.range q = true ∧ Serving r.state := by
  rw [← epoch_iff, ← state_iff]
  unfold rangeChecks validateRange
  cases h1 : validateEpoch e r with
  | false => simp
  | true =>
    simp only [Bool.not_true, Bool.false_eq_true, if_false, true_and]
    by_cases h2 : q.start = [] ∨ q.stop = []
    · rw [if_pos h2]
      simp only [reduceCtorEq, false_iff, not_and]
      intro h; rcases h2 with h2 | h2
      · exact absurd h2 h.1
      · exact absurd h2 h.2.1
    · rw [if_neg h2]
      simp only [not_or] at h2
      by_cases h3 : q.start < q.stop
      · rw [if_neg (by simpa using h3)]
        cases h4 : validateRangeInRange r.range q with
        | false => simp
        | true => cases h5 : validateState r <;> simp [h2, h3]
      · rw [if_pos h3]
        simp [h3]

theorem intersect_has (a b : Range) (k : Bytes) :
    (intersect a b).has k ↔ a.has k ∧ b.has k := by
  unfold intersect Range.has
  dsimp only
  constructor
  · rintro ⟨h1, h2⟩
    split at h1 <;> split at h2 <;> rename_i c d
    · exact ⟨⟨List.le_trans c h1, h2⟩, h1, lt_of_lt_of_le h2 d⟩
    · exact ⟨⟨List.le_trans c h1, lt_trans h2 (List.not_le.1 d)⟩, h1, h2⟩
    · exact ⟨⟨h1, h2⟩, List.le_trans (List.le_of_lt (List.not_le.1 c)) h1, lt_of_lt_of_le h2 d⟩
    · exact ⟨⟨h1, lt_trans h2 (List.not_le.1 d)⟩,
        List.le_trans (List.le_of_lt (List.not_le.1 c)) h1, h2⟩
  · rintro ⟨⟨h1, h2⟩, h3, h4⟩
    constructor
    · split
      · exact h3
      · exact h1
    · split
      · exact h2
      · exact h4

theorem take_le_take {a b : Bytes} (n : Nat) (h : a ≤ b) : a.take n ≤ b.take n := by
  induction n generalizing a b with
  | zero => simp
  | succ n ih =>
    cases a with
    | nil => simp
    | cons x a =>
      cases b with
      | nil => exact absurd h (by simp)
      | cons y b =>
        simp only [List.take_succ_cons]
        rw [cons_le_iff] at h ⊢
        rcases h with h | ⟨h1, h2⟩
        · exact Or.inl h
        · exact Or.inr ⟨h1, ih h2⟩

theorem le_of_take_lt {a b : Bytes} (n : Nat) (h : a.take n < b.take n) : a < b := by
  by_cases h' : a < b
  · exact h'
  · exact absurd h (List.not_lt.2 (take_le_take n (List.not_lt.1 h')))

theorem prefix_of_prefix_same {p s : Bytes} (h : p <+: s) (hl : s.length ≤ p.length) : p = s :=
  h.eq_of_length (Nat.le_antisymm h.length_le hl)

/-- The next string of the same length is above, unless all bytes are `0xff`. -/
theorem lt_prefixNext {p : Bytes} (h : ∃ b ∈ p, b ≠ 255) : p < prefixNext p :=
  ((prefixNext_spec h (Nat.le_refl _)).2 (List.prefix_refl p)).2

theorem all_ff {p : Bytes} (h : ¬ ∃ b ∈ p, b ≠ (255 : UInt8)) : p = List.replicate p.length 255 := by
  rw [List.eq_replicate_iff]
  refine ⟨rfl, fun b hb => ?_⟩
  by_cases hb' : b = 255
  · exact hb'
  · exact absurd ⟨b, hb, hb'⟩ h

theorem prefixNext_all_ff {p : Bytes} (h : ¬ ∃ b ∈ p, b ≠ (255 : UInt8)) : prefixNext p = p := by
  cases hc : (prefixNextAux p).2 with
  | true => simp [prefixNext, hc]
  | false =>
    obtain ⟨h1, h2⟩ := (prefixNextAux_spec p).2 hc
    -- then `p` itself lies below its successor, which is impossible for the largest string
    have hp := ((h2 p (Nat.le_refl _)).2 (List.prefix_refl p)).2
    have : List.replicate p.length (255 : UInt8) <+: (prefixNextAux p).1 :=
      prefix_of_replicate_ff_le (by omega) (by rw [← all_ff h]; exact List.le_of_lt hp)
    have e := this.eq_of_length (by simp [h1])
    rw [← e, ← all_ff h] at hp
    exact absurd hp (lt_irrefl p)

theorem le_prefixNext (p : Bytes) : p ≤ prefixNext p := by
  by_cases h : ∃ b ∈ p, b ≠ (255 : UInt8)
  · exact List.le_of_lt (lt_prefixNext h)
  · rw [prefixNext_all_ff h]; exact List.le_refl p

/-- Among strings of the same length `prefixNext` is the successor. -/
theorem prefixNext_le {p s : Bytes} (hl : s.length = p.length) (h : p < s) : prefixNext p ≤ s := by
  by_cases hf : ∃ b ∈ p, b ≠ (255 : UInt8)
  · rw [← List.not_lt]
    intro h'
    have := (prefixNext_spec hf (by omega)).1 ⟨List.le_of_lt h, h'⟩
    have e := this.eq_of_length hl.symm
    rw [e] at h
    exact lt_irrefl s h
  · rw [prefixNext_all_ff hf]; exact List.le_of_lt h

end Verif.Region
