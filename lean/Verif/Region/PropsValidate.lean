import Verif.Region.ValidateLemmas

/-!
# C41: requests outside the region are rejected

Vocabulary: `Range.has` (a key lies in a range) and `Serving` (the region states in which
requests are served) at the top of `ValidateLemmas.lean`.
-/

namespace Verif.Region
open Verif.Codec

/-- C41: a point request is accepted exactly when its epoch is the region's, its keys are
not empty, the region serves, and all its keys lie in the region's range. -/
theorem C41_keys (e : Epoch) (keys : List Bytes) (r : Info) :
    keyRequest e keys r = .ok () ↔
      e = r.epoch ∧ (∀ k ∈ keys, k ≠ []) ∧ Serving r.state ∧ ∀ k ∈ keys, r.range.has k := by
  rw [← epoch_iff, ← state_iff, ← validateKeys_iff]
  unfold keyRequest
  cases h1 : validateEpoch e r with
  | false => simp
  | true =>
    by_cases h2 : keys.any (· = []) = true
    · simp only [Bool.not_true, Bool.false_eq_true, if_false]
      rw [if_pos h2]
      simp only [List.any_eq_true, decide_eq_true_eq] at h2
      obtain ⟨k, hk, e⟩ := h2
      simp only [reduceCtorEq, true_and, false_iff, not_and]
      intro h; exact absurd e (h k hk)
    · simp only [Bool.not_true, Bool.false_eq_true, if_false]
      rw [if_neg h2]
      have h2' : ∀ k ∈ keys, k ≠ [] := by
        intro k hk e
        exact h2 (List.any_eq_true.2 ⟨k, hk, by simp [e]⟩)
      cases h3 : validateState r with
      | false => simp
      | true =>
        cases h4 : validateKeys r.range keys with
        | false => simp
        | true => simp only [Bool.not_true, Bool.false_eq_true, if_false]; simpa using h2'

example : keyRequest ⟨1, 1⟩ [[97, 98]] ⟨⟨1, 1⟩, .normal, ⟨[97], [98]⟩⟩ = .ok () := by decide

/-- C41: a scan or raw range delete accepted by a region concerns exactly the keys of the
(transformed) request that lie in the region's range as it is when the range is read the
second time, and the request's epoch was the region's. -/
theorem C41_scan (e : Epoch) (q : RangeOpt) (r r' : Info) (c : Range)
    (h : clippedRequest e q r r' = .ok c) :
    e = r.epoch ∧ Serving r.state ∧ ∀ k, c.has k ↔ r'.range.has k ∧ (transform q).has k := by
  unfold clippedRequest at h
  split at h
  · cases h
  · rename_i hc
    cases h
    rw [checks_iff] at hc
    exact ⟨hc.1, hc.2.2.2, fun k => intersect_has _ _ k⟩

example : clippedRequest ⟨1, 1⟩ ⟨⟨[97, 98], [97, 99]⟩, true, true⟩
    ⟨⟨1, 1⟩, .normal, ⟨[97], [98]⟩⟩ ⟨⟨1, 1⟩, .normal, ⟨[97], [98]⟩⟩ =
      .ok ⟨[97, 98], [97, 100]⟩ := by decide

/-- C41 (partial: bounds that are moved must not end in `0xff`, see C42): what the options
of a range mean.  Including the end takes in every key that starts with it; excluding the
start leaves out every key that starts with it. -/
theorem C41_options_partial (q : RangeOpt) (hs : q.withStart = false → ∃ p b, q.range.start = p ++ [b] ∧ b ≠ 255)
    (he : q.withEnd = true → ∃ p b, q.range.stop = p ++ [b] ∧ b ≠ 255) (k : Bytes) :
    (transform q).has k ↔
      (q.range.start ≤ k ∧ (q.withStart = true ∨ ¬ q.range.start <+: k)) ∧
      (k < q.range.stop ∨ q.withEnd = true ∧ q.range.stop <+: k) := by
  have key : ∀ (x : Bytes), (∃ p b, x = p ++ [b] ∧ b ≠ 255) →
      (k < prefixNext x ↔ k < x ∨ x <+: k) := by
    rintro x ⟨p, b, rfl, hb⟩
    rw [prefixNext_append p hb]
    have hlt : p ++ [b] < p ++ [b + 1] :=
      ((between_succ p hb (p ++ [b])).2 (List.prefix_refl _)).2
    constructor
    · intro h
      rcases lt_trichotomy k (p ++ [b]) with c | c | c
      · exact Or.inl c
      · exact Or.inr (c ▸ List.prefix_refl _)
      · exact Or.inr ((between_succ p hb k).1 ⟨List.le_of_lt c, h⟩)
    · rintro (h | h)
      · exact lt_trans h hlt
      · exact ((between_succ p hb k).2 h).2
  unfold Range.has transform
  dsimp only
  refine and_congr ?_ ?_
  · cases hw : q.withStart with
    | true => simp
    | false =>
      simp only [Bool.false_eq_true, if_false, false_or]
      rw [← List.not_lt, key _ (hs hw), not_or, List.not_lt]
  · cases hw : q.withEnd with
    | false => simp
    | true => simp [key _ (he hw)]

example : (transform ⟨⟨[97], [98, 7]⟩, false, true⟩) = ⟨[98], [98, 8]⟩ := by decide

/-- C41 is false for completeness of a scan that races with a split: the request carries
the current epoch and is accepted, yet the keys of the half that moved to the new region
are silently left out. -/
theorem C41_scan_race_false :
    ∃ (e : Epoch) (q : RangeOpt) (r r' : Info) (c : Range) (k : Bytes),
      e = r.epoch ∧ r'.epoch = ⟨r.epoch.conf, r.epoch.version + 1⟩ ∧
      r'.range = ⟨[98], r.range.stop⟩ ∧
      clippedRequest e q r r' = .ok c ∧ (transform q).has k ∧ r.range.has k ∧ ¬ c.has k := by
  refine ⟨⟨1, 1⟩, ⟨⟨[97], [99]⟩, true, false⟩, ⟨⟨1, 1⟩, .normal, ⟨[97], [99]⟩⟩,
    ⟨⟨1, 2⟩, .normal, ⟨[98], [99]⟩⟩, ⟨[98], [99]⟩, [97, 97], ?_⟩
  unfold Range.has
  refine ⟨?_, ?_, ?_, ?_, ?_, ?_, ?_⟩ <;> decide

/-! ## Unclipped range requests -/

/-- C41: a range request inside the region's range is never turned away as out of range. -/
theorem C41_accepts_inside (r q : Range) (h1 : r.start ≤ q.start) (h2 : q.stop ≤ r.stop) :
    validateRangeInRange r q = true := by
  unfold validateRangeInRange
  dsimp only
  rw [if_neg (List.not_lt.2 (take_le_take _ h1))]
  simp only [Bool.not_eq_true', decide_eq_false_iff_not, List.not_lt]
  have ht := take_le_take (min r.stop.length q.stop.length) h2
  by_cases c1 : q.stop.length > r.stop.length
  · rw [if_pos c1, if_neg (by omega)]
    have hn : min r.stop.length q.stop.length = r.stop.length := by omega
    rw [hn] at ht ⊢
    refine prefixNext_le (by simp; omega) ?_
    rcases (le_iff_lt_or_eq _ _).1 ht with h | h
    · exact h
    · exfalso
      rw [List.take_of_length_le (Nat.le_refl _)] at h
      have hp : r.stop <+: q.stop := by rw [← h]; exact List.take_prefix _ _
      have := List.le_antisymm h2 (le_of_prefix hp)
      rw [this] at c1
      omega
  · rw [if_neg c1]
    by_cases c2 : q.stop.length < r.stop.length
    · rw [if_pos c2]
      exact List.le_trans ht (le_prefixNext _)
    · rw [if_neg c2]; exact ht

/-- C41 (partial: only when the ends of the request are at least as long as the region's,
and the region's end is not all `0xff`): an accepted range lies in the region's range. -/
theorem C41_range_partial (r q : Range) (hs : r.start.length ≤ q.start.length)
    (he : r.stop.length ≤ q.stop.length) (hf : ∃ b ∈ r.stop, b ≠ 255)
    (h : validateRangeInRange r q = true) : ∀ k, q.has k → r.has k := by
  unfold validateRangeInRange at h
  dsimp only at h
  split at h
  · cases h
  rename_i hst
  simp only [Bool.not_eq_true', decide_eq_false_iff_not, List.not_lt] at h hst
  have a : r.start ≤ q.start := by
    have hm : min r.start.length q.start.length = r.start.length := by omega
    rw [hm, List.take_of_length_le (Nat.le_refl _)] at hst
    exact List.le_trans hst (le_of_prefix (List.take_prefix _ _))
  have b : q.stop ≤ r.stop := by
    have hn : min r.stop.length q.stop.length = r.stop.length := by omega
    have hc : ¬ q.stop.length < r.stop.length := by omega
    rw [hn, List.take_of_length_le (Nat.le_refl r.stop.length), if_neg hc] at h
    by_cases c1 : q.stop.length > r.stop.length
    · rw [if_pos c1] at h
      by_cases hq : ∃ b ∈ q.stop.take r.stop.length, b ≠ (255 : UInt8)
      · have := lt_of_lt_of_le (lt_prefixNext hq) h
        refine List.le_of_lt (le_of_take_lt r.stop.length ?_)
        rwa [List.take_of_length_le (Nat.le_refl r.stop.length)]
      · exfalso
        rw [prefixNext_all_ff hq, all_ff hq] at h
        have hl : (q.stop.take r.stop.length).length = r.stop.length := by simp; omega
        rw [hl] at h
        have := (prefix_of_replicate_ff_le (Nat.le_refl _) h).eq_of_length (by simp)
        obtain ⟨b, hb, hne⟩ := hf
        rw [← this] at hb
        exact hne (List.eq_of_mem_replicate hb)
    · rw [if_neg c1] at h
      rwa [List.take_of_length_le (by omega)] at h
  intro k hk
  exact ⟨List.le_trans a hk.1, lt_of_lt_of_le hk.2 b⟩

example : validateRangeInRange ⟨[97], [99]⟩ ⟨[97, 1], [98, 5]⟩ = true ∧
    (∃ b ∈ ([99] : Bytes), b ≠ 255) := by decide

/-- C41 is false for transactional range deletes: a region accepts a request whose ends are
shorter than its own, and the delete then removes keys of the neighbouring regions, before
its start as well as behind its end. -/
theorem C41_delete_range_false :
    ∃ (e : Epoch) (r : Info) (q d : Range) (k k' : Bytes), r.state = .normal ∧
      txnDeleteRange e q r = .ok d ∧ removes d k = true ∧ k < r.range.start ∧
      removes d k' = true ∧ r.range.stop ≤ k' := by
  refine ⟨⟨1, 1⟩, ⟨⟨1, 1⟩, .normal, ⟨[120, 97, 98], [120, 98, 98]⟩⟩, ⟨[120], [121]⟩,
    ⟨[120], [121]⟩, [120, 97], [120, 99], ?_⟩
  refine ⟨?_, ?_, ?_, ?_, ?_, ?_⟩ <;> decide

/-- C41 is false also for requests with longer ends: behind a region end of `0xff` bytes
everything is accepted. -/
theorem C41_delete_range_ff_false :
    ∃ (e : Epoch) (r : Info) (q d : Range) (k : Bytes), r.state = .normal ∧
      r.range.stop.length ≤ q.stop.length ∧ r.range.start = q.start ∧
      txnDeleteRange e q r = .ok d ∧ removes d k = true ∧ r.range.stop ≤ k := by
  refine ⟨⟨1, 1⟩, ⟨⟨1, 1⟩, .normal, ⟨[120], [255, 255]⟩⟩, ⟨[120], [255, 255, 9]⟩,
    ⟨[120], [255, 255, 9]⟩, [255, 255, 8], ?_⟩
  refine ⟨?_, ?_, ?_, ?_, ?_, ?_⟩ <;> decide

/-- C41 (partial, as `C41_range_partial`): a transactional range delete accepted by a region
removes keys of that region only. -/
theorem C41_delete_range_partial (e : Epoch) (r : Info) (q d : Range)
    (hs : r.range.start.length ≤ q.start.length) (he : r.range.stop.length ≤ q.stop.length)
    (hf : ∃ b ∈ r.range.stop, b ≠ 255) (h : txnDeleteRange e q r = .ok d) (k : Bytes)
    (hk : removes d k = true) : r.range.has k ∧ e = r.epoch ∧ Serving r.state := by
  unfold txnDeleteRange at h
  split at h
  · cases h
  · rename_i hc
    cases h
    rw [checks_iff] at hc
    refine ⟨C41_range_partial r.range q hs he hf hc.2.2.1 k ?_, hc.1, hc.2.2.2⟩
    simpa [removes, Range.has] using hk

end Verif.Region
