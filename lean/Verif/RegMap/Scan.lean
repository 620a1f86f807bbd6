import Verif.RegMap.Spec
import Verif.Codec.Lemmas

/-! # Lemmas: searching the range map -/

namespace Verif.RegMap
open Verif.Codec (Bytes)

theorem not_lt_of_le {a b : Bytes} (h : a ≤ b) : ¬ b < a := List.not_lt.mpr h
theorem le_of_not_lt {a b : Bytes} (h : ¬ b < a) : a ≤ b := List.not_lt.mp h
theorem not_le {a b : Bytes} : ¬ a ≤ b ↔ b < a := List.not_le
theorem lt_of_le_of_lt {a b c : Bytes} (h : a ≤ b) (h' : b < c) : a < c := List.lt_of_le_of_lt h h'
theorem lt_of_lt_of_le {a b c : Bytes} (h : a < b) (h' : b ≤ c) : a < c :=
  not_le.mp fun h2 => not_lt_of_le (List.le_trans h' h2) h

/-- Keys in order, and below `hi` live regions under their start keys, one after the other. -/
structure Tidy (hi : Bytes) (m : RangeMap) : Prop where
  sorted : m.Pairwise (fun a b => a.1 < b.1)
  own : ∀ e ∈ m, e.1 < hi → e.2.start = e.1 ∧ e.2.start < e.2.stop
  apart : m.Pairwise (fun a b => b.1 < hi → a.2.stop ≤ b.2.start)

theorem mem_takeWhile' {α : Type} {p : α → Bool} {a : α} : ∀ {l : List α}, a ∈ l.takeWhile p → p a = true
  | [], h => by cases h
  | x :: l, h => by
    by_cases hx : p x = true
    · rw [List.takeWhile_cons_of_pos hx, List.mem_cons] at h
      rcases h with rfl | h
      · exact hx
      · exact mem_takeWhile' h
    · rw [List.takeWhile_cons_of_neg hx] at h
      cases h

theorem takeWhile_eq_filter {hi : Bytes} : ∀ {m : RangeMap}, m.Pairwise (fun a b => a.1 < b.1) →
    m.takeWhile (fun e => decide (e.1 < hi)) = m.filter (fun e => decide (e.1 < hi))
  | [], _ => rfl
  | e :: m, h => by
    rw [List.pairwise_cons] at h
    by_cases he : e.1 < hi
    · rw [List.takeWhile_cons_of_pos (by simpa using he), List.filter_cons_of_pos (by simpa using he),
        takeWhile_eq_filter h.2]
    · rw [List.takeWhile_cons_of_neg (by simpa using he), List.filter_cons_of_neg (by simpa using he)]
      symm
      rw [List.filter_eq_nil_iff]
      intro a ha
      simp only [decide_eq_true_eq]
      exact fun h2 => he (List.lt_trans (h.1 a ha) h2)

theorem findInterval_eq {m : RangeMap} {lo hi : Bytes} (h : Tidy hi m) (hlt : lo < hi)
    {f : Region → Bool} (hf : ∀ r, f r = true → lo < r.stop) :
    findInterval m lo hi f = ((m.filter (fun e => decide (e.1 < hi))).map Prod.snd).filter f := by
  unfold findInterval
  by_cases hm : m = []
  · simp [hm]
  rw [if_neg (by rintro (h1 | h1); exact hm h1; exact not_lt_of_le h1 hlt)]
  have hsplit := List.takeWhile_append_dropWhile (p := fun e : Bytes × Region => decide (e.1 < lo)) (l := m)
  generalize hb : m.takeWhile (fun e => decide (e.1 < lo)) = before at hsplit
  generalize hr : m.dropWhile (fun e => decide (e.1 < lo)) = rest at hsplit
  have hbefore : ∀ e ∈ before, e.1 < lo := by
    intro e he
    rw [← hb] at he
    simpa using mem_takeWhile' he
  have hs := h.sorted
  have ha := h.apart
  rw [← hsplit, List.pairwise_append] at hs ha
  -- all of `before` but its last element are filtered out
  have hinit : ∀ (b0 : RangeMap) p, before = b0 ++ [p] → (b0.map Prod.snd).filter f = [] := by
    intro b0 p hp
    rw [List.filter_eq_nil_iff]
    intro r hr2 hfr
    rw [List.mem_map] at hr2
    obtain ⟨e, he, rfl⟩ := hr2
    have h1 := ha.1
    rw [hp, List.pairwise_append] at h1
    have hpl : p.1 < lo := hbefore p (by simp [hp])
    have h2 := h1.2.2 e he p (by simp) (List.lt_trans hpl hlt)
    have h3 := h.own p (by rw [← hsplit, hp]; simp) (List.lt_trans hpl hlt)
    rw [h3.1] at h2
    exact not_lt_of_le h2 (List.lt_trans hpl (hf _ hfr))
  have hbf : ∀ b0 : RangeMap, (∀ e ∈ b0, e ∈ before) → b0.filter (fun e => decide (e.1 < hi)) = b0 := by
    intro b0 h0
    rw [List.filter_eq_self]
    intro e he
    simpa using List.lt_trans (hbefore e (h0 e he)) hlt
  cases rest with
  | nil =>
    dsimp only
    rw [List.append_nil] at hsplit
    subst hsplit
    rw [hbf before (fun _ h => h)]
    cases hl : before.getLast? with
    | none => rw [List.getLast?_eq_none_iff] at hl; exact absurd hl hm
    | some e =>
      dsimp only
      rw [List.getLast?_eq_some_iff] at hl
      obtain ⟨b0, hl⟩ := hl
      have he : e.1 < hi := List.lt_trans (hbefore e (by simp [hl])) hlt
      rw [if_neg (not_lt_of_le · he), hl, List.map_append, List.filter_append, hinit b0 e hl]
      by_cases hfe : f e.2 = true <;> simp [hfe]
  | cons e rest =>
    dsimp only
    have hrs := hs.2.1
    have hnl : ¬ e.1 < lo := by
      have := List.head?_dropWhile_not (fun e : Bytes × Region => decide (e.1 < lo)) m
      rw [hr] at this
      simpa using this
    rw [← hsplit, List.filter_append, List.map_append, List.filter_append, hbf before (fun _ h => h),
      ← takeWhile_eq_filter hrs]
    by_cases hle : lo < e.1
    · rw [if_pos hle]
      cases hl : before.getLast? with
      | none =>
        rw [List.getLast?_eq_none_iff] at hl
        simp [hl]
      | some p =>
        rw [List.getLast?_eq_some_iff] at hl
        obtain ⟨b0, hl⟩ := hl
        have hp : p.1 < hi := List.lt_trans (hbefore p (by simp [hl])) hlt
        rw [hl, List.map_append, List.filter_append, hinit b0 p hl]
        simp only [Option.toList_some, List.cons_append, List.nil_append]
        rw [List.takeWhile_cons_of_pos (by simpa using hp), List.map_cons, ← List.filter_append]
        rfl
    · rw [if_neg hle]
      have hel : e.1 = lo := by
        rcases Codec.lt_trichotomy lo e.1 with h1 | h1 | h1
        · exact absurd h1 hle
        · exact h1.symm
        · exact absurd h1 hnl
      have : (before.map Prod.snd).filter f = [] := by
        rw [List.filter_eq_nil_iff]
        intro r hr2 hfr
        rw [List.mem_map] at hr2
        obtain ⟨b, hb2, rfl⟩ := hr2
        have h2 := ha.2.2 b hb2 e (by simp) (by rw [hel]; exact hlt)
        have h3 := h.own e (by rw [← hsplit]; simp) (by rw [hel]; exact hlt)
        rw [h3.1, hel] at h2
        exact not_lt_of_le h2 (hf _ hfr)
      rw [this, List.nil_append]

theorem findInterval_key {m : RangeMap} {lo hi : Bytes} {f : Region → Bool} {r : Region}
    (h : r ∈ findInterval m lo hi f) : ∃ k, (k, r) ∈ m ∧ k < hi ∧ f r = true := by
  unfold findInterval at h
  split at h
  · cases h
  · dsimp only at h
    split at h
    · split at h
      · cases h
      · rename_i e he
        split at h
        · cases h
        · split at h
          · rename_i h1 h2
            rw [List.mem_singleton] at h
            subst h
            refine ⟨e.1, ?_, not_le.mp h1, h2⟩
            have := List.mem_of_getLast? he
            exact (List.takeWhile_sublist _).subset this
          · cases h
    · rename_i e rest he
      rw [List.mem_filter, List.mem_map] at h
      obtain ⟨⟨e2, he2, rfl⟩, hf⟩ := h
      have hk := mem_takeWhile' he2
      have hmem := (List.takeWhile_sublist _).subset he2
      refine ⟨e2.1, ?_, by simpa using hk, hf⟩
      have hd : ∀ x ∈ m.dropWhile (fun e => decide (e.1 < lo)), x ∈ m := by
        intro x hx
        exact (List.dropWhile_sublist _).subset hx
      split at hmem
      · rw [List.mem_append] at hmem
        rcases hmem with h3 | h3
        · rw [Option.mem_toList] at h3
          exact (List.takeWhile_sublist _).subset (List.mem_of_getLast? h3)
        · exact hd _ h3
      · exact hd _ hmem

/-- The loop of a range lookup. -/
theorem scanLoop_range {start stop : Bytes} {limit : Int} (hs : stop ≠ []) (rs : List Region)
    (hr : ∀ r ∈ rs, r.start < upper start stop) (acc : List Region)
    (ha : 0 < limit → (acc.length : Int) < limit) :
    scanLoop start stop limit rs acc =
      some (if 0 < limit then (acc ++ rs).take limit.toNat else acc ++ rs) := by
  induction rs generalizing acc with
  | nil =>
    rw [scanLoop, List.append_nil]
    by_cases hl : 0 < limit
    · rw [if_pos hl, List.take_of_length_le]
      have := ha hl
      omega
    · rw [if_neg hl]
  | cons r rs ih =>
    rw [scanLoop, if_neg hs, if_pos (hr r (by simp))]
    by_cases hc : 0 < limit ∧ limit ≤ ((acc ++ [r]).length : Int)
    · rw [if_pos hc, if_pos hc.1]
      have h1 := ha hc.1
      have h2 : limit.toNat = (acc ++ [r]).length := by
        have := hc.2
        simp only [List.length_append, List.length_singleton] at this ⊢
        omega
      rw [show acc ++ r :: rs = (acc ++ [r]) ++ rs by simp, h2, List.take_left]
    · rw [if_neg hc, ih (fun q hq => hr q (by simp [hq])) (acc ++ [r]) (fun hl => by
        rcases Int.lt_or_le ((acc ++ [r]).length : Int) limit with h1 | h1
        · exact h1
        · exact absurd ⟨hl, h1⟩ hc)]
      simp [List.append_assoc]

/-- The loop of a point lookup. -/
theorem scanLoop_point {start : Bytes} {limit : Int} (rs : List Region) (acc : List Region) :
    scanLoop start [] limit rs acc =
      some (acc ++ (rs.find? (fun r => decide (r.start ≤ start) && decide (start < r.stop))).toList) := by
  induction rs generalizing acc with
  | nil => simp [scanLoop]
  | cons r rs ih =>
    rw [scanLoop, if_pos rfl]
    by_cases h : r.start ≤ start ∧ start < r.stop
    · rw [if_pos h, List.find?_cons_of_pos (by simp [h.1, h.2])]
      rfl
    · rw [if_neg h, ih, List.find?_cons_of_neg (by simpa using h)]

end Verif.RegMap
