import Verif.AutoSplit.Spec
import Verif.Codec.Prefix

/-!
# What the merged iterator lists
-/

namespace Verif.AutoSplit
open Verif.Codec

theorem lt_of_le_lt {a b c : Bytes} (h : a ≤ b) (h' : b < c) : a < c := by
  rcases (le_iff_lt_or_eq a b).mp h with h | rfl
  · exact Codec.lt_trans h h'
  · exact h'

theorem lt_of_lt_le {a b c : Bytes} (h : a < b) (h' : b ≤ c) : a < c := by
  rcases (le_iff_lt_or_eq b c).mp h' with h' | rfl
  · exact Codec.lt_trans h h'
  · exact h

theorem le_trans' {a b c : Bytes} (h : a ≤ b) (h' : b ≤ c) : a ≤ c := List.le_trans h h'

theorem takeWhile_filter {stop : Bytes} : ∀ {l : List Ent}, l.Pairwise (fun a b => a.key < b.key) →
    l.takeWhile (fun e => decide (e.key < stop)) = l.filter (fun e => decide (e.key < stop)) := by
  intro l h
  induction l with
  | nil => rfl
  | cons e l ih =>
    obtain ⟨h1, h2⟩ := List.pairwise_cons.mp h
    by_cases he : e.key < stop
    · simp [List.takeWhile_cons, List.filter_cons, he, ih h2]
    · have : l.filter (fun e => decide (e.key < stop)) = [] := by
        rw [List.filter_eq_nil_iff]
        intro a ha hc
        simp only [decide_eq_true_eq] at hc
        exact he (Codec.lt_trans (h1 a ha) hc)
      simp [List.takeWhile_cons, List.filter_cons, he, this]

theorem dropWhile_filter {start : Bytes} : ∀ {l : List Ent}, l.Pairwise (fun a b => a.key < b.key) →
    l.dropWhile (fun e => decide (e.key < start)) = l.filter (fun e => decide (start ≤ e.key)) := by
  intro l h
  induction l with
  | nil => rfl
  | cons e l ih =>
    obtain ⟨h1, h2⟩ := List.pairwise_cons.mp h
    by_cases he : e.key < start
    · have : ¬ start ≤ e.key := fun hc => Codec.lt_irrefl _ (lt_of_le_lt hc he)
      simp [List.dropWhile_cons, List.filter_cons, he, this, ih h2]
    · have hs : start ≤ e.key := List.not_lt.mp he
      have : l.filter (fun e => decide (start ≤ e.key)) = l := by
        rw [List.filter_eq_self]
        intro a ha
        simp only [decide_eq_true_eq]
        exact le_trans' hs (List.le_of_lt (h1 a ha))
      simp [List.dropWhile_cons, List.filter_cons, he, hs, this]

theorem ahead_filter {start stop : Bytes} {l : List Ent} (h : l.Pairwise (fun a b => a.key < b.key)) :
    ahead (encodeBytes start) (encodeBytes stop) l = within start stop l := by
  unfold ahead within
  rw [dropWhile_filter h, takeWhile_filter (h.sublist List.filter_sublist), List.filter_filter]
  congr 1
  funext e
  rw [Bool.and_comm]

theorem within_append (start stop : Bytes) (a b : List Ent) :
    within start stop (a ++ b) = within start stop a ++ within start stop b := List.filter_append ..

theorem scan_perm {cfs : List (List Ent)} (h : Stored cfs) (start stop : Bytes) :
    (scan (encodeBytes start) (encodeBytes stop) cfs).Perm (content cfs start stop) := by
  unfold content scan
  induction cfs with
  | nil => exact List.Perm.refl _
  | cons cf cfs ih =>
    rw [List.foldr_cons, List.flatten_cons, within_append, ← ahead_filter (h cf (by simp)).1]
    refine (List.merge_perm_append _).trans ?_
    exact (List.Perm.append_left _ (ih (fun c hc => h c (by simp [hc]))))

theorem scan_sorted {cfs : List (List Ent)} (h : Stored cfs) (start stop : Bytes) :
    (scan (encodeBytes start) (encodeBytes stop) cfs).Pairwise (fun a b => a.key ≤ b.key) := by
  unfold scan
  induction cfs with
  | nil => exact List.Pairwise.nil
  | cons cf cfs ih =>
    rw [List.foldr_cons]
    have := List.pairwise_merge (le := fun a b : Ent => decide (a.key ≤ b.key))
      (fun a b c h1 h2 => by simp only [decide_eq_true_eq] at *; exact le_trans' h1 h2)
      (fun a b => by
        simp only [Bool.or_eq_true, decide_eq_true_eq]
        exact List.le_total _ _)
      (ahead (encodeBytes start) (encodeBytes stop) cf)
      (cfs.foldr (fun cf rest => List.merge (ahead (encodeBytes start) (encodeBytes stop) cf) rest
        (fun a b => decide (a.key ≤ b.key))) [])
      (by
        rw [ahead_filter (h cf (by simp)).1]
        refine ((h cf (by simp)).1.sublist List.filter_sublist).imp ?_
        intro a b hab
        simpa using List.le_of_lt hab)
      ((ih (fun c hc => h c (by simp [hc]))).imp (by intro a b hab; simpa using hab))
    exact this.imp (by intro a b hab; simpa using hab)

theorem total_perm {a b : List Ent} (h : a.Perm b) : total a = total b := (h.map _).sum_nat

theorem total_append (a b : List Ent) : total (a ++ b) = total a + total b := by
  simp [total]

theorem total_cons (e : Ent) (l : List Ent) : total (e :: l) = e.size + total l := by simp [total]

theorem total_sublist {a b : List Ent} (h : a.Sublist b) : total a ≤ total b := by
  induction h with
  | slnil => exact Nat.le_refl _
  | cons e _ ih => rw [total_cons]; omega
  | cons_cons e _ ih => rw [total_cons, total_cons]; omega

theorem mem_content {cfs : List (List Ent)} {start stop : Bytes} {e : Ent} :
    e ∈ content cfs start stop ↔ (∃ cf ∈ cfs, e ∈ cf) ∧ encodeBytes start ≤ e.key ∧ e.key < encodeBytes stop := by
  unfold content within
  rw [List.mem_filter, List.mem_flatten]
  simp only [Bool.and_eq_true, decide_eq_true_eq]

theorem of_content {cfs : List (List Ent)} (h : Stored cfs) {start stop : Bytes} {e : Ent}
    (he : e ∈ content cfs start stop) : ∃ k, Of e k ∧ start ≤ k ∧ k < stop := by
  obtain ⟨⟨cf, hc, hm⟩, h1, h2⟩ := mem_content.mp he
  obtain ⟨k, ts, ht, hk⟩ := (h cf hc).2 e hm
  exact ⟨k, ⟨ts, ht, hk⟩, (C03_range start stop k ts ht _ hk).1 ⟨h1, h2⟩⟩

theorem of_decode {e : Ent} {k : Bytes} (h : Of e k) : ∃ ts, decodeKey e.key = .ok (k, ts) := by
  obtain ⟨ts, ht, hk⟩ := h
  obtain ⟨e', h1, h2⟩ := C01_key_roundtrip k ts ht
  rw [hk] at h1
  cases h1
  exact ⟨ts, h2⟩

theorem of_ne_nil {e : Ent} {k : Bytes} (h : Of e k) : e.key ≠ [] := by
  obtain ⟨ts, h1⟩ := of_decode h
  intro hc
  rw [hc] at h1
  cases h1

theorem of_inj {e : Ent} {k k' : Bytes} (h : Of e k) (h' : Of e k') : k = k' := by
  obtain ⟨t, h1⟩ := of_decode h
  obtain ⟨t', h2⟩ := of_decode h'
  rw [h1] at h2
  cases h2
  rfl

theorem of_le {a b : Ent} {k k' : Bytes} (ha : Of a k) (hb : Of b k') (h : a.key ≤ b.key) : k ≤ k' := by
  obtain ⟨ts, ht, hk⟩ := ha
  obtain ⟨ts', ht', hk'⟩ := hb
  rw [← List.not_lt]
  intro hc
  have := (C02_order k' k ts' ts ht' ht _ _ hk' hk).2 (Or.inl hc)
  exact Codec.lt_irrefl _ (lt_of_le_lt h this)

/-- Where a version goes when a region is cut. -/
theorem of_cut {e : Ent} {k : Bytes} (h : Of e k) (c : Bytes) : encodeBytes c ≤ e.key ↔ c ≤ k := by
  obtain ⟨ts, ht, hk⟩ := h
  rw [encodeKey_eq ht] at hk
  cases hk' : e.key
  all_goals
    rw [← hk']
    have hk2 := (Option.some.inj hk).symm
    rw [hk2]
    constructor
    · intro h1
      rw [← List.not_lt]
      intro hc
      have := encodeBytes_lt hc (be64 (2 ^ 64 - 1 - ts.toNat)) []
      rw [List.append_nil] at this
      exact Codec.lt_irrefl _ (lt_of_le_lt h1 this)
    · intro h1
      rcases (le_iff_lt_or_eq c k).mp h1 with h1 | rfl
      · have := encodeBytes_lt h1 [] (be64 (2 ^ 64 - 1 - ts.toNat))
        rw [List.append_nil] at this
        exact List.le_of_lt this
      · exact le_append _ _

theorem of_prefix {e : Ent} {k : Bytes} (h : Of e k) (c : Bytes) :
    (encodeBytes c).isPrefixOf e.key = true ↔ c = k := by
  obtain ⟨ts, ht, hk⟩ := h
  rw [encodeKey_eq ht] at hk
  have hk2 := (Option.some.inj hk).symm
  rw [hk2, List.isPrefixOf_iff_prefix]
  constructor
  · rintro ⟨s, hs⟩
    exact (encodeBytes_append_inj hs).1
  · rintro rfl
    exact ⟨_, rfl⟩

end Verif.AutoSplit
