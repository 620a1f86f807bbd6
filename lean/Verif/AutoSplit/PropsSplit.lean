import Verif.AutoSplit.Loop
import Verif.Codec.PropsVector
import Verif.Job.Model

/-!
# C92: where a store asks for a region to be split
-/

namespace Verif.AutoSplit
open Verif.Codec

/-! ## Lemmas -/

theorem large_perm {a b : List Ent} (h : a.Perm b) (p : Policy) : Large p a ↔ Large p b := by
  have hat : ∀ {x y : List Ent}, x.Perm y → ∀ n, AtLeast n x → AtLeast n y := by
    rintro x y hxy n ⟨ks, h1, h2, h3⟩
    refine ⟨ks, h1, fun k hk => ?_, h3⟩
    obtain ⟨e, he, hk⟩ := h2 k hk
    exact ⟨e, hxy.mem_iff.mp he, hk⟩
  cases p with
  | half C M => simp only [Large, total_perm h]
  | size C M => simp only [Large, total_perm h]
  | keys C M => exact ⟨hat h M, hat h.symm M⟩

theorem sane_perm {a b : List Ent} (h : a.Perm b) (p : Policy) (hs : p.Sane b) : p.Sane a := by
  cases p with
  | half C M => exact hs
  | size C M => exact ⟨hs.1, hs.2.1, fun e he => hs.2.2 e (h.mem_iff.mp he)⟩
  | keys C M => exact hs

theorem scan_of {cfs : List (List Ent)} (h : Stored cfs) {start stop : Bytes} {e : Ent}
    (he : e ∈ scan (encodeBytes start) (encodeBytes stop) cfs) : ∃ k, Of e k ∧ start ≤ k ∧ k < stop :=
  of_content h ((scan_perm h start stop).mem_iff.mp he)

theorem scan_ne {cfs : List (List Ent)} (h : Stored cfs) {start stop : Bytes} :
    ∀ e ∈ scan (encodeBytes start) (encodeBytes stop) cfs, e.key ≠ [] := by
  intro e he
  obtain ⟨k, hk, _⟩ := scan_of h he
  exact of_ne_nil hk

theorem allows_iff {n : Look} {v : Nat} {k : Bytes} :
    n.allows v k = true ↔ k ≠ [] ∧ (n.start ≤ k ∧ k < n.stop) ∧ n.Free v := by
  unfold Look.allows
  simp only [Bool.and_eq_true, Bool.not_eq_true', decide_eq_true_eq]
  constructor
  · rintro ⟨⟨⟨⟨⟨⟨⟨⟨h1, h2⟩, h3⟩, h4⟩, h5⟩, h6⟩, h7⟩, h8⟩, h9⟩
    exact ⟨h1, h3, h2, ⟨h4, h5⟩, h6, h7, h8, h9⟩
  · rintro ⟨h1, h3, h2, ⟨h4, h5⟩, h6, h7, h8, h9⟩
    exact ⟨⟨⟨⟨⟨⟨⟨⟨h1, h2⟩, h3⟩, h4⟩, h5⟩, h6⟩, h7⟩, h8⟩, h9⟩

/-- What is known when a key was asked for. -/
theorem asked {p : Policy} {cfs : List (List Ent)} (hst : Stored cfs) {v : Nat} {start stop : Bytes} {n : Look} {k : Bytes}
    (h : splitCheck p cfs v start stop n = some (some k)) :
    n.allows v k = true ∧ Large p (content cfs start stop) ∧
    ∃ a e b, scan (encodeBytes start) (encodeBytes stop) cfs = a ++ e :: b ∧
      e.key = splitKey (scan (encodeBytes start) (encodeBytes stop) cfs) p ∧ Of e k ∧
      p.lead ≤ p.weight (a ++ [e]) := by
  unfold splitCheck at h
  by_cases he : splitKey (scan (encodeBytes start) (encodeBytes stop) cfs) p = []
  · simp [he] at h
  · obtain ⟨h1, a, e, b, h2, h3, h4⟩ := chosen (scan_ne hst) (scan_sorted hst start stop) he
    obtain ⟨k', hk', _⟩ := scan_of hst (e := e) (by rw [h2]; simp)
    obtain ⟨ts, hd⟩ := of_decode hk'
    rw [h3] at hd
    simp only [he, if_false, hd, Option.some.injEq] at h
    split at h
    · rename_i hal
      cases h
      exact ⟨hal, (large_perm (scan_perm hst start stop) p).mp h1, a, e, b, h2, h3, hk', h4⟩
    · cases h

/-! ## Theorems -/

/-- A store asks for a split only of a large region with nothing against it, and at a key of the
region that is there. -/
theorem C92_key {p : Policy} {cfs : List (List Ent)} (hst : Stored cfs) {v : Nat} {start stop : Bytes} {n : Look} {k : Bytes}
    (h : splitCheck p cfs v start stop n = some (some k)) :
    n.Free v ∧ n.start ≤ k ∧ k < n.stop ∧ Large p (content cfs start stop) ∧
      ∃ e ∈ content cfs start stop, Of e k := by
  obtain ⟨h1, h2, a, e, b, h3, _, h5, _⟩ := asked hst h
  obtain ⟨_, ⟨g1, g2⟩, g3⟩ := allows_iff.mp h1
  exact ⟨g3, g1, g2, h2, e, (scan_perm hst start stop).mem_iff.mp (by rw [h3]; simp), h5⟩

/-- The check never ends the process. -/
theorem C92_no_abort {cfs : List (List Ent)} (hst : Stored cfs) (p : Policy) (v : Nat) (start stop : Bytes) (n : Look) :
    ∃ r, splitCheck p cfs v start stop n = some r := by
  unfold splitCheck
  by_cases he : splitKey (scan (encodeBytes start) (encodeBytes stop) cfs) p = []
  · exact ⟨none, by simp [he]⟩
  · obtain ⟨_, a, e, b, h2, h3, _⟩ := chosen (scan_ne hst) (scan_sorted hst start stop) he
    obtain ⟨k', hk', _⟩ := scan_of hst (e := e) (by rw [h2]; simp)
    obtain ⟨ts, hd⟩ := of_decode hk'
    rw [h3] at hd
    simp only [he, if_false, hd]
    exact ⟨_, rfl⟩

/-- A region that stays as it is while it is looked at is asked to be split exactly if it is large
and nothing speaks against it. -/
theorem C92_asks {p : Policy} {cfs : List (List Ent)} (hst : Stored cfs) {v : Nat} {start stop : Bytes} {n : Look}
    (hs : start ≠ []) (hp : p.Sane (content cfs start stop)) (h1 : n.start = start) (h2 : n.stop = stop) :
    (∃ k, splitCheck p cfs v start stop n = some (some k)) ↔ Large p (content cfs start stop) ∧ n.Free v := by
  constructor
  · rintro ⟨k, h⟩
    obtain ⟨g1, _, _, g2, _⟩ := C92_key hst h
    exact ⟨g2, g1⟩
  · rintro ⟨hl, hf⟩
    have hpm := scan_perm hst start stop
    have he := choose (scan_ne hst) (scan_sorted hst start stop) (sane_perm hpm p hp) ((large_perm hpm p).mpr hl)
    obtain ⟨_, a, e, b, h3, h4, _⟩ := chosen (scan_ne hst) (scan_sorted hst start stop) he
    obtain ⟨k, hk, hlo, hhi⟩ := scan_of hst (e := e) (by rw [h3]; simp)
    obtain ⟨ts, hd⟩ := of_decode hk
    rw [h4] at hd
    refine ⟨k, ?_⟩
    have hal : n.allows v k = true := by
      refine allows_iff.mpr ⟨?_, by rw [h1, h2]; exact ⟨hlo, hhi⟩, hf⟩
      rintro rfl
      apply hs
      cases start with
      | nil => rfl
      | cons x y => exact absurd (List.nil_lt_cons x y) (List.not_lt.mpr hlo)
    unfold splitCheck
    simp only [he, if_false, hd, hal, if_true]

/-- If no key has so many versions that they reach the place of the cut by themselves, both parts
get something, and the key is after the start of the region.  Missing: a region whose first key
does (`C92_stuck_false`). -/
theorem C92_inside_partial {p : Policy} {cfs : List (List Ent)} (hst : Stored cfs) {v : Nat} {start stop : Bytes} {n : Look} {k : Bytes}
    (h : splitCheck p cfs v start stop n = some (some k))
    (hv : ∀ u, p.weight (versions (content cfs start stop) u) < p.lead) :
    start < k ∧ k < stop ∧ content cfs start k ≠ [] ∧ content cfs k stop ≠ [] := by
  obtain ⟨_, _, a, e, b, h3, _, h5, h6⟩ := asked hst h
  have hpm := scan_perm hst start stop
  have hsort := scan_sorted hst start stop
  have hmem : e ∈ scan (encodeBytes start) (encodeBytes stop) cfs := by rw [h3]; simp
  obtain ⟨k', hk', hlo, hhi⟩ := scan_of hst hmem
  have := of_inj h5 hk'
  subst this
  obtain ⟨⟨cf, hcf, hecf⟩, hec1, hec2⟩ := mem_content.mp (hpm.mem_iff.mp hmem)
  -- the first entry
  obtain ⟨f, hf1, hf2⟩ : ∃ f, f ∈ a ++ [e] ∧ ∀ x ∈ a ++ [e], f.key ≤ x.key := by
    have hs' : (a ++ [e]).Pairwise (fun a b => a.key ≤ b.key) := by
      rw [h3] at hsort
      exact hsort.sublist (List.Sublist.append_left (List.singleton_sublist.mpr (by simp)) a)
    cases a with
    | nil => exact ⟨e, by simp, by intro x hx; simp at hx; rw [hx]; exact List.le_refl _⟩
    | cons f a =>
      refine ⟨f, by simp, ?_⟩
      intro x hx
      rcases List.mem_cons.mp hx with rfl | hx
      · exact List.le_refl _
      · exact (List.pairwise_cons.mp hs').1 x hx
  have hfm : f ∈ scan (encodeBytes start) (encodeBytes stop) cfs := by
    rw [h3]
    rcases List.mem_append.mp hf1 with hf1 | hf1
    · simp [hf1]
    · simp at hf1; simp [hf1]
  obtain ⟨u, hu, hulo, huhi⟩ := scan_of hst hfm
  have huk : u ≤ k := of_le hu h5 (hf2 e (by simp))
  have hne : u ≠ k := by
    rintro rfl
    -- then all of them are versions of the key
    have hall : ∀ x ∈ a ++ [e], (encodeBytes u).isPrefixOf x.key = true := by
      intro x hx
      have hxm : x ∈ scan (encodeBytes start) (encodeBytes stop) cfs := by
        rw [h3]
        rcases List.mem_append.mp hx with hx | hx
        · simp [hx]
        · simp at hx; simp [hx]
      obtain ⟨w, hw, _⟩ := scan_of hst hxm
      have h1 : u ≤ w := of_le hu hw (hf2 x hx)
      have h2 : w ≤ u := by
        refine of_le hw h5 ?_
        rcases List.mem_append.mp hx with hx | hx
        · rw [h3] at hsort
          exact (List.pairwise_append.mp hsort).2.2 x hx e (by simp)
        · simp at hx; rw [hx]; exact List.le_refl _
      rw [(of_prefix hw u).mpr (List.le_antisymm h1 h2)]
    have hsub : (a ++ [e]).Sublist (versions (scan (encodeBytes start) (encodeBytes stop) cfs) u) := by
      have : (a ++ [e]) = (a ++ [e]).filter (fun x => (encodeBytes u).isPrefixOf x.key) :=
        (List.filter_eq_self.mpr hall).symm
      rw [this]
      unfold versions
      refine List.Sublist.filter _ ?_
      rw [h3]
      exact List.Sublist.append_left (List.singleton_sublist.mpr (by simp)) a
    have hvp : (versions (scan (encodeBytes start) (encodeBytes stop) cfs) u).Perm (versions (content cfs start stop) u) :=
      hpm.filter _
    have hw := hv u
    cases p with
    | half C M =>
      have h7 : C ≤ total (a ++ [e]) := h6
      have h8 := total_sublist hsub
      rw [total_perm hvp] at h8
      have : total (versions (content cfs start stop) u) < C := hw
      omega
    | size C M =>
      have h7 : C ≤ total (a ++ [e]) := h6
      have h8 := total_sublist hsub
      rw [total_perm hvp] at h8
      have : total (versions (content cfs start stop) u) < C := hw
      omega
    | keys C M =>
      have h7 : C ≤ (a ++ [e]).length := h6
      have h8 := hsub.length_le
      rw [hvp.length_eq] at h8
      have : (versions (content cfs start stop) u).length < C := hw
      omega
  have hlt : u < k := by
    rcases (le_iff_lt_or_eq u k).mp huk with h | h
    · exact h
    · exact absurd h hne
  refine ⟨lt_of_le_lt hulo hlt, hhi, ?_, ?_⟩
  · obtain ⟨⟨cf', hcf', hfcf⟩, hfc1, hfc2⟩ := mem_content.mp (hpm.mem_iff.mp hfm)
    have : f ∈ content cfs start k := by
      refine mem_content.mpr ⟨⟨cf', hcf', hfcf⟩, hfc1, ?_⟩
      rw [← List.not_le]
      intro hc
      exact Codec.lt_irrefl _ (lt_of_lt_le hlt ((of_cut hu k).mp hc))
    exact List.ne_nil_of_mem this
  · have : e ∈ content cfs k stop :=
      mem_content.mpr ⟨⟨cf, hcf, hecf⟩, (of_cut h5 k).mpr (List.le_refl _), hec2⟩
    exact List.ne_nil_of_mem this

/-- Nothing is lost or doubled by a cut at a key in the range, and the versions of a key stay
together. -/
theorem C92_cut {cfs : List (List Ent)} (hst : Stored cfs) {start stop k : Bytes} (h1 : start ≤ k) (h2 : k ≤ stop) :
    (content cfs start k ++ content cfs k stop).Perm (content cfs start stop) ∧
    ∀ u, versions (content cfs start stop) u = versions (content cfs start k) u ∨
      versions (content cfs start stop) u = versions (content cfs k stop) u := by
  have hcut : ∀ e, (∃ u, Of e u) → ∀ c d : Bytes, c ≤ d → encodeBytes d ≤ e.key → encodeBytes c ≤ e.key := by
    rintro e ⟨u, hu⟩ c d hcd hd
    exact (of_cut hu c).mpr (le_trans' hcd ((of_cut hu d).mp hd))
  have hof : ∀ e ∈ cfs.flatten, ∃ u, Of e u := by
    intro e he
    obtain ⟨cf, hcf, hm⟩ := List.mem_flatten.mp he
    exact (hst cf hcf).2 e hm
  constructor
  · unfold content within
    generalize cfs.flatten = l at hof
    induction l with
    | nil => exact List.Perm.refl _
    | cons e l ih =>
      have ih := ih (fun x hx => hof x (by simp [hx]))
      have he := hcut e (hof e (by simp))
      by_cases hk : encodeBytes k ≤ e.key
      · have hs := he start k h1 hk
        have hn : ¬ e.key < encodeBytes k := List.not_lt.mpr hk
        by_cases hp : e.key < encodeBytes stop
        · simp only [List.filter_cons, hs, hk, hn, hp, decide_true, decide_false, Bool.and_self, Bool.and_false,
            if_true, Bool.false_eq_true, if_false]
          exact List.perm_middle.trans (List.Perm.cons e ih)
        · simp only [List.filter_cons, hs, hk, hn, hp, decide_true, decide_false, Bool.and_false,
            Bool.false_eq_true, if_false]
          exact ih
      · have hn : e.key < encodeBytes k := List.not_le.mp hk
        have hp : e.key < encodeBytes stop := by
          rw [← List.not_le]
          intro hc
          exact hk (he k stop h2 hc)
        by_cases hs : encodeBytes start ≤ e.key
        · simp only [List.filter_cons, hs, hk, hn, hp, decide_true, decide_false, Bool.and_self, Bool.false_and,
            if_true, Bool.false_eq_true, if_false, List.cons_append]
          exact List.Perm.cons e ih
        · simp only [List.filter_cons, hs, hk, decide_false, Bool.false_and, Bool.false_eq_true, if_false]
          exact ih
  · intro u
    by_cases hu : u < k
    · left
      unfold versions content within
      rw [List.filter_filter, List.filter_filter]
      refine List.filter_congr ?_
      intro e he
      obtain ⟨w, hw⟩ := hof e he
      by_cases hpre : (encodeBytes u).isPrefixOf e.key = true
      · have := (of_prefix hw u).mp hpre
        subst this
        have ha : e.key < encodeBytes k := by
          rw [← List.not_le]; intro hc
          exact Codec.lt_irrefl _ (lt_of_lt_le hu ((of_cut hw k).mp hc))
        have hb : e.key < encodeBytes stop := by
          rw [← List.not_le]; intro hc
          exact List.not_le.mpr ha (hcut e ⟨u, hw⟩ k stop h2 hc)
        simp [ha, hb]
      · simp [hpre]
    · right
      have hu : k ≤ u := List.not_lt.mp hu
      unfold versions content within
      rw [List.filter_filter, List.filter_filter]
      refine List.filter_congr ?_
      intro e he
      obtain ⟨w, hw⟩ := hof e he
      by_cases hpre : (encodeBytes u).isPrefixOf e.key = true
      · have := (of_prefix hw u).mp hpre
        subst this
        have ha : encodeBytes k ≤ e.key := (of_cut hw k).mpr hu
        have hb := hcut e ⟨u, hw⟩ start k h1 ha
        simp [ha, hb]
      · simp [hpre]

/-- What lies on the sides of a cut at the key of an entry. -/
theorem sides {cfs : List (List Ent)} (hst : Stored cfs) {start stop k : Bytes} {a b : List Ent} {e : Ent}
    (h : scan (encodeBytes start) (encodeBytes stop) cfs = a ++ e :: b) (hk : Of e k) (hlo : start ≤ k) (hhi : k ≤ stop) :
    total (content cfs start k) ≤ total a ∧
    total a + e.size ≤ total (content cfs start k) + total (versions (content cfs start stop) k) ∧
    total b ≤ total (content cfs k stop) := by
  have hpm := scan_perm hst start stop
  have hsort := scan_sorted hst start stop
  rw [h] at hpm hsort
  have hcut : ∀ x, (∃ u, Of x u) → ∀ c d : Bytes, c ≤ d → encodeBytes d ≤ x.key → encodeBytes c ≤ x.key := by
    rintro x ⟨u, hu⟩ c d hcd hd
    exact (of_cut hu c).mpr (le_trans' hcd ((of_cut hu d).mp hd))
  have hof : ∀ x ∈ cfs.flatten, ∃ u, Of x u := by
    intro x hx
    obtain ⟨cf, hcf, hm⟩ := List.mem_flatten.mp hx
    exact (hst cf hcf).2 x hm
  have hl : content cfs start k = (content cfs start stop).filter (fun x => decide (x.key < encodeBytes k)) := by
    unfold content within
    rw [List.filter_filter]
    refine List.filter_congr ?_
    intro x hx
    by_cases hxk : x.key < encodeBytes k
    · have : x.key < encodeBytes stop := by
        rw [← List.not_le]; intro hc
        exact List.not_le.mpr hxk (hcut x (hof x hx) k stop hhi hc)
      simp [hxk, this]
    · simp [hxk]
  have hr : content cfs k stop = (content cfs start stop).filter (fun x => decide (encodeBytes k ≤ x.key)) := by
    unfold content within
    rw [List.filter_filter]
    refine List.filter_congr ?_
    intro x hx
    by_cases hxk : encodeBytes k ≤ x.key
    · have := hcut x (hof x hx) start k hlo hxk
      simp [hxk, this]
    · simp [hxk]
  have hke : encodeBytes k ≤ e.key := (of_cut hk k).mpr (List.le_refl _)
  obtain ⟨hs1, hs2, hs3⟩ := List.pairwise_append.mp hsort
  obtain ⟨hs4, hs5⟩ := List.pairwise_cons.mp hs2
  have hb : ∀ x ∈ e :: b, encodeBytes k ≤ x.key := by
    intro x hx
    rcases List.mem_cons.mp hx with rfl | hx
    · exact hke
    · exact le_trans' hke (hs4 x hx)
  have hlp := total_perm (hpm.filter (fun x => decide (x.key < encodeBytes k)))
  have hrp := total_perm (hpm.filter (fun x => decide (encodeBytes k ≤ x.key)))
  have hvp := total_perm (hpm.filter (fun x => (encodeBytes k).isPrefixOf x.key))
  rw [List.filter_append, total_append] at hlp hrp hvp
  have hl0 : (e :: b).filter (fun x => decide (x.key < encodeBytes k)) = [] := by
    rw [List.filter_eq_nil_iff]
    intro x hx
    have := hb x hx
    simp [List.not_lt.mpr this]
  have hr0 : (e :: b).filter (fun x => decide (encodeBytes k ≤ x.key)) = e :: b := by
    rw [List.filter_eq_self]
    intro x hx
    simp [hb x hx]
  rw [hl0] at hlp
  rw [hr0, total_cons] at hrp
  rw [hl]
  have hve : (encodeBytes k).isPrefixOf e.key = true := (of_prefix hk k).mpr rfl
  rw [List.filter_cons, if_pos hve, total_cons] at hvp
  unfold versions
  have hsplit : total a ≤ total (a.filter (fun x => decide (x.key < encodeBytes k))) +
      total (a.filter (fun x => (encodeBytes k).isPrefixOf x.key)) := by
    have hall : ∀ x ∈ a, x.key < encodeBytes k ∨ (encodeBytes k).isPrefixOf x.key = true := by
      intro x hx
      have hxs : x ∈ scan (encodeBytes start) (encodeBytes stop) cfs := by rw [h]; simp [hx]
      obtain ⟨w, hw, _⟩ := scan_of hst hxs
      have hwk : w ≤ k := of_le hw hk (hs3 x hx e (by simp))
      rcases (le_iff_lt_or_eq w k).mp hwk with h1 | h1
      · left
        rw [← List.not_le]; intro hc
        exact Codec.lt_irrefl _ (lt_of_lt_le h1 ((of_cut hw k).mp hc))
      · right; exact (of_prefix hw k).mpr h1.symm
    clear hsort hs1 hs3 hlp hrp hvp hpm h
    induction a with
    | nil => simp [total]
    | cons x a ih =>
      have ih := ih (fun y hy => hall y (by simp [hy]))
      rcases hall x (by simp) with h1 | h1
      · rw [List.filter_cons, if_pos (by simp [h1]), total_cons, total_cons]
        have : total (a.filter (fun x => (encodeBytes k).isPrefixOf x.key)) ≤
            total ((x :: a).filter (fun x => (encodeBytes k).isPrefixOf x.key)) :=
          total_sublist ((List.sublist_cons_self x a).filter _)
        omega
      · rw [List.filter_cons (p := fun x : Ent => (encodeBytes k).isPrefixOf x.key), if_pos h1, total_cons, total_cons]
        have : total (a.filter (fun x => decide (x.key < encodeBytes k))) ≤
            total ((x :: a).filter (fun x => decide (x.key < encodeBytes k))) :=
          total_sublist ((List.sublist_cons_self x a).filter _)
        omega
  have h0 : total ([] : List Ent) = 0 := rfl
  have hal := total_sublist (List.filter_sublist (p := fun x => decide (x.key < encodeBytes k)) (l := a))
  refine ⟨?_, ?_, ?_⟩
  · omega
  · omega
  · rw [hr]; omega

/-- With the policy SIZE the part before the key is smaller than asked for, and with the versions
of the key it is not. -/
theorem C92_size {pos max : Nat} {cfs : List (List Ent)} (hst : Stored cfs) (hp : 0 < pos) {v : Nat} {start stop : Bytes} {n : Look} {k : Bytes}
    (h : splitCheck (.size pos max) cfs v start stop n = some (some k)) :
    total (content cfs start k) < pos ∧
    pos ≤ total (content cfs start k) + total (versions (content cfs start stop) k) := by
  obtain ⟨_, _, a', e', b', g3, g4, g5, _⟩ := asked hst h
  have hi := size_inv pos max (scan_ne hst (start := start) (stop := stop))
  have hne := scan_ne hst e' (by rw [g3]; simp)
  rw [g4] at hne
  have hkey : splitKey (scan (encodeBytes start) (encodeBytes stop) cfs) (.size pos max) =
      (List.foldl (One.sizeStep pos max) {} (scan (encodeBytes start) (encodeBytes stop) cfs)).key := by
    simp only [splitKey] at hne ⊢
    split
    · rfl
    · rename_i hx; simp [hx] at hne
  rw [hkey] at hne g4
  obtain ⟨a, e, b, h1, h2, h3, h4⟩ := hi.some hne
  have hk : Of e k := by
    obtain ⟨ts, hts, he⟩ := g5
    exact ⟨ts, hts, by rw [h2, ← g4]; exact he⟩
  obtain ⟨k', hk', hlo, hhi⟩ := scan_of hst (e := e) (by rw [h1]; simp)
  have := of_inj hk hk'
  subst this
  obtain ⟨s1, s2, _⟩ := sides hst h1 hk hlo (List.le_of_lt hhi)
  refine ⟨?_, by omega⟩
  rcases h3 with rfl | h3
  · have : total ([] : List Ent) = 0 := rfl
    omega
  · omega

/-- With the policy HALF both parts get about half of the samples a region consists of: `m` samples
of `chunk` or more bytes each, and less than `chunk` and the largest entry together. -/
theorem C92_half {chunk max : Nat} {cfs : List (List Ent)} (hst : Stored cfs) (hp : 0 < chunk) {v : Nat} {start stop : Bytes} {n : Look} {k : Bytes}
    {large : Nat} (hl : ∀ e ∈ content cfs start stop, e.size ≤ large)
    (h : splitCheck (.half chunk max) cfs v start stop n = some (some k)) :
    ∃ m, m * chunk ≤ total (content cfs start stop) ∧
      total (content cfs start stop) < m * (chunk + large) + chunk ∧
      (m + 1) * chunk ≤ 2 * (total (content cfs start k) + total (versions (content cfs start stop) k)) ∧
      (m - 2) * chunk ≤ 2 * total (content cfs k stop) := by
  have hpm := scan_perm hst start stop
  obtain ⟨_, _, a', e', b', g3, g4, g5, _⟩ := asked hst h
  have hi := half_inv chunk max (scan (encodeBytes start) (encodeBytes stop) cfs)
  have hne := scan_ne hst e' (by rw [g3]; simp)
  rw [g4] at hne
  simp only [splitKey] at hne g4
  generalize hs : List.foldl (Half.step chunk max) {} (scan (encodeBytes start) (encodeBytes stop) cfs) = s at hi hne g4
  by_cases ho : s.over = true
  · rw [if_pos ho] at hne g4
    cases hg : s.keys[s.keys.length / 2]? with
    | none => rw [hg] at hne; exact absurd rfl hne
    | some x =>
      rw [hg] at g4
      simp only [Option.getD_some] at g4
      obtain ⟨a, e, b, h1, h2, h3, h4⟩ := hi.place _ _ hg
      have hk : Of e k := by
        obtain ⟨ts, hts, he⟩ := g5
        exact ⟨ts, hts, by rw [h2, ← g4]; exact he⟩
      obtain ⟨k', hk', hlo, hhi⟩ := scan_of hst (e := e) (by rw [h1]; simp)
      have := of_inj hk hk'
      subst this
      obtain ⟨s1, s2, s3⟩ := sides hst h1 hk hlo (List.le_of_lt hhi)
      have t := total_perm hpm
      have hlow := hi.low
      have hroom := hi.room hp
      have hhigh := hi.high hp large (fun e he => hl e (hpm.mem_iff.mp he))
      rw [t] at hlow hhigh
      refine ⟨s.keys.length, by omega, by omega, ?_, ?_⟩
      · have : (s.keys.length + 1) * chunk ≤ (2 * (s.keys.length / 2 + 1)) * chunk :=
          Nat.mul_le_mul_right _ (by omega)
        rw [Nat.mul_assoc] at this
        omega
      · have : (s.keys.length - 2) * chunk ≤ (2 * (s.keys.length - 1 - s.keys.length / 2)) * chunk :=
          Nat.mul_le_mul_right _ (by omega)
        rw [Nat.mul_assoc] at this
        omega
  · rw [if_neg ho] at hne
    exact absurd rfl hne

/-! ## What does not hold -/

/-- A large region whose first key has many versions is never split: the store asks for a split at
the first key of the region, which the coordinator refuses, whatever else there is in the region
and however often the store asks. -/
theorem C92_stuck_false {pos max : Nat} {cfs : List (List Ent)} (hst : Stored cfs) {v : Nat} {start stop : Bytes} {n : Look}
    (hs : start ≠ []) (hp : (Policy.size pos max).Sane (content cfs start stop))
    (hl : Large (.size pos max) (content cfs start stop)) (hf : n.Free v) (h1 : n.start = start) (h2 : n.stop = stop)
    (hv : pos ≤ total (versions (content cfs start stop) start)) :
    splitCheck (.size pos max) cfs v start stop n = some (some start) ∧
    ∀ (jobs : List Job.Job) (view : Job.View) (id region child : Nat) (byStore : Bool) (r : Job.Rec),
      view.regions region = some r → r.range.start = start →
      Job.plan jobs view id (.split region child start byStore) = none := by
  refine ⟨?_, ?_⟩
  · obtain ⟨k, hk⟩ := (C92_asks hst hs hp h1 h2).mpr ⟨hl, hf⟩
    obtain ⟨h3, _⟩ := C92_size hst hp.1 hk
    obtain ⟨_, g1, g2, _⟩ := C92_key hst hk
    rw [h1] at g1
    rw [h2] at g2
    rcases (le_iff_lt_or_eq start k).mp g1 with h4 | h4
    · exfalso
      have : (versions (content cfs start stop) start).Sublist (content cfs start k) := by
        unfold versions content within
        rw [List.filter_filter]
        have : ∀ x ∈ cfs.flatten, ((encodeBytes start).isPrefixOf x.key && (decide (encodeBytes start ≤ x.key) && decide (x.key < encodeBytes stop))) = true →
            (decide (encodeBytes start ≤ x.key) && decide (x.key < encodeBytes k)) = true := by
          intro x hx hb
          simp only [Bool.and_eq_true, decide_eq_true_eq] at hb ⊢
          obtain ⟨cf, hcf, hm⟩ := List.mem_flatten.mp hx
          obtain ⟨u, hu⟩ := (hst cf hcf).2 x hm
          have := (of_prefix hu start).mp hb.1
          subst this
          refine ⟨hb.2.1, ?_⟩
          rw [← List.not_le]; intro hc
          exact Codec.lt_irrefl _ (lt_of_lt_le h4 ((of_cut hu k).mp hc))
        generalize cfs.flatten = l at this
        induction l with
        | nil => exact List.Sublist.refl _
        | cons x l ih =>
          have ih := ih (fun y hy => this y (by simp [hy]))
          have hx := this x (by simp)
          rw [List.filter_cons, List.filter_cons]
          split
          · rename_i hh
            rw [if_pos (hx hh)]
            exact ih.cons_cons x
          · split
            · exact ih.cons x
            · exact ih
      have := total_sublist this
      omega
    · rw [← h4] at hk; exact hk
  · intro jobs view id region child byStore r hr hrs
    simp only [Job.plan]
    split
    · rfl
    · rw [hr]
      simp only [hrs]
      rw [if_pos]
      exact Or.inl (fun hc => Codec.lt_irrefl _ hc.1)

/-- An entry with a version of a key. -/
def ent (k : Bytes) (ts : Int) (size : Nat) : Ent := ⟨(encodeKey k ts).getD [], size⟩

/-- Merging in a form that can be computed. -/
def merge1 (le : Ent → Ent → Bool) (a : Ent) (f : List Ent → List Ent) : List Ent → List Ent
  | [] => a :: f []
  | b :: r => if le a b then a :: f (b :: r) else b :: merge1 le a f r

def merge2 (le : Ent → Ent → Bool) : List Ent → List Ent → List Ent
  | [], r => r
  | a :: l, r => merge1 le a (merge2 le l) r

theorem merge_eq (le : Ent → Ent → Bool) : ∀ l r, List.merge l r le = merge2 le l r := by
  intro l
  induction l with
  | nil => intro r; simp [merge2]
  | cons a l ih =>
    intro r
    induction r with
    | nil => simp [merge2, merge1, ← ih]
    | cons b r ih' =>
      simp only [merge2] at ih' ⊢
      rw [List.cons_merge_cons, merge1, ih, ih']

theorem splitCheck_eq {p : Policy} {cfs : List (List Ent)} {v : Nat} {start stop : Bytes} {n : Look} {k : Bytes} {e : Ent}
    (h1 : splitKey (cfs.foldr (fun cf rest => merge2 (fun a b => decide (a.key ≤ b.key))
      (ahead (encodeBytes start) (encodeBytes stop) cf) rest) []) p = e.key)
    (h2 : Of e k) (h3 : n.allows v k = true) : splitCheck p cfs v start stop n = some (some k) := by
  have hs : scan (encodeBytes start) (encodeBytes stop) cfs = cfs.foldr (fun cf rest => merge2 (fun a b => decide (a.key ≤ b.key))
      (ahead (encodeBytes start) (encodeBytes stop) cf) rest) [] := by
    unfold scan
    congr 1
    funext cf rest
    exact merge_eq _ _ _
  obtain ⟨ts, hd⟩ := of_decode h2
  unfold splitCheck
  simp only [hs, h1, of_ne_nil h2, if_false, hd, h3, if_true]

theorem ent_of {k : Bytes} {ts : Int} (size : Nat) (h : ValidTs ts) : Of (ent k ts size) k :=
  ⟨ts, h, by rw [ent, encodeKey_eq h]; rfl⟩

/-- The policy KEYS counts versions: a region with one key is asked to be split once the key has
been written often enough, although its settings are numbers of keys ("base logic key, ignore
multi version", `split_checker.h:142`). -/
theorem C92_versions_false :
    ∃ (cfs : List (List Ent)) (n : Look) (k : Bytes), Stored cfs ∧
      (∀ e ∈ content cfs [1] [3], Of e [2]) ∧
      splitCheck (.keys 2 4) cfs 7 [1] [3] n = some (some k) ∧ k = [2] := by
  refine ⟨[[ent [2] 9 1, ent [2] 8 1, ent [2] 6 1, ent [2] 5 1]], ⟨7, [1], [3], false, false, true, true, false, false⟩, [2], ?_, ?_, ?_, rfl⟩
  · intro cf hcf
    simp only [List.mem_singleton] at hcf
    subst hcf
    refine ⟨by decide +kernel, ?_⟩
    intro e he
    simp only [List.mem_cons, List.not_mem_nil, or_false] at he
    rcases he with rfl | rfl | rfl | rfl <;> exact ⟨[2], ent_of _ (by constructor <;> decide)⟩
  · intro e he
    have he := (mem_content.mp he).1
    simp only [List.mem_singleton, exists_eq_left, List.mem_cons, List.not_mem_nil, or_false] at he
    rcases he with rfl | rfl | rfl | rfl <;> exact ent_of _ (by constructor <;> decide)
  · exact splitCheck_eq (e := ent [2] 8 1) (by decide +kernel) (ent_of _ (by constructor <;> decide)) rfl

/-- A region with a vector index may be asked to be split between a vector and its scalar data: at
the key of a scalar field (kept in a column family of its own), which the check of split keys
allows.  Afterwards the id of the vector is refused by the region that has the vector, and accepted
by the other one (`C43_scalar_split_false`). -/
theorem C92_vector_false :
    ∃ (cfs : List (List Ent)) (n : Look) (start cut stop key : Bytes), Stored cfs ∧
      VKey.bytes 114 (.part 1) = some start ∧ VKey.bytes 114 (.scalar 1 7 [97]) = some cut ∧
      VKey.bytes 114 (.part 2) = some stop ∧ packageId 114 1 7 = some key ∧
      splitCheck (.half 4 8) cfs 5 start stop n = some (some cut) ∧
      isValidKey cut = true ∧ Holds start cut key ∧ ¬ Holds cut stop key ∧
      idsAccepted start cut [7] = some false ∧ idsAccepted cut stop [7] = some true := by
  refine ⟨[[ent (114 :: writeLong 1 ++ writeLongComparable 7) 3 5],
      [ent (114 :: writeLong 1 ++ writeLongComparable 7 ++ [97]) 3 5]],
    ⟨5, 114 :: writeLong 1, 114 :: writeLong 2, false, false, true, true, false, false⟩,
    114 :: writeLong 1, 114 :: writeLong 1 ++ writeLongComparable 7 ++ [97],
    114 :: writeLong 2, 114 :: writeLong 1 ++ writeLongComparable 7, ?_⟩
  refine ⟨?_, ?_, ?_, ?_, ?_, ?_, ?_, ?_, ?_, ?_, ?_⟩
  · intro cf hcf
    simp only [List.mem_cons, List.not_mem_nil, or_false] at hcf
    rcases hcf with rfl | rfl
    · refine ⟨List.pairwise_singleton _ _, ?_⟩
      intro e he
      simp only [List.mem_singleton] at he
      subst he
      exact ⟨_, ent_of _ (by constructor <;> decide)⟩
    · refine ⟨List.pairwise_singleton _ _, ?_⟩
      intro e he
      simp only [List.mem_singleton] at he
      subst he
      exact ⟨_, ent_of _ (by constructor <;> decide)⟩
  case refine_6 =>
    exact splitCheck_eq (e := ent (114 :: writeLong 1 ++ writeLongComparable 7 ++ [97]) 3 5) (by decide +kernel)
      (ent_of _ (by constructor <;> decide)) (by decide +kernel)
  all_goals decide +kernel

/-! ## Cases -/

/-- A region with two column families and three keys. -/
def someCfs : List (List Ent) :=
  [[ent [1] 9 4, ent [1] 5 4, ent [2] 5 6], [ent [1] 3 1, ent [3] 9 5]]

theorem someCfs_stored : Stored someCfs := by
  intro cf hcf
  simp only [someCfs, List.mem_cons, List.not_mem_nil, or_false] at hcf
  rcases hcf with rfl | rfl
  · refine ⟨by decide +kernel, ?_⟩
    intro e he
    simp only [List.mem_cons, List.not_mem_nil, or_false] at he
    rcases he with rfl | rfl | rfl <;> exact ⟨_, ent_of _ (by constructor <;> decide)⟩
  · refine ⟨by decide +kernel, ?_⟩
    intro e he
    simp only [List.mem_cons, List.not_mem_nil, or_false] at he
    rcases he with rfl | rfl <;> exact ⟨_, ent_of _ (by constructor <;> decide)⟩

def someLook : Look := ⟨7, [1], [4], false, false, true, true, false, false⟩

/-- `C92_key`, `C92_size`, `C92_inside_partial`: a split in the middle. -/
example : splitCheck (.size 10 20) someCfs 7 [1] [4] someLook = some (some [2]) ∧ someLook.Free 7 ∧
    (Policy.size 10 20).Sane (content someCfs [1] [4]) ∧ Large (.size 10 20) (content someCfs [1] [4]) := by
  refine ⟨splitCheck_eq (e := ent [2] 5 6) (by decide +kernel) (ent_of _ (by constructor <;> decide)) rfl, ⟨rfl, ⟨rfl, rfl⟩, rfl, rfl, ⟨rfl, rfl⟩⟩, ⟨by decide, by decide, ?_⟩, ?_⟩
  · decide +kernel
  · show 20 ≤ total _
    decide +kernel

/-- `C92_half`. -/
example : splitCheck (.half 3 20) someCfs 7 [1] [4] someLook = some (some [2]) :=
  splitCheck_eq (e := ent [2] 5 6) (by decide +kernel) (ent_of _ (by constructor <;> decide)) rfl

/-- `C92_stuck_false`: the other keys of the region do not help. -/
example : splitCheck (.size 8 20) someCfs 7 [1] [4] someLook = some (some [1]) ∧
    8 ≤ total (versions (content someCfs [1] [4]) [1]) :=
  ⟨splitCheck_eq (e := ent [1] 5 4) (by decide +kernel) (ent_of _ (by constructor <;> decide)) rfl, by decide +kernel⟩

/-- `C92_inside_partial`: what it needs is met. -/
example : ∀ u, total (versions (content someCfs [1] [4]) u) < 10 := by
  intro u
  have h : ∀ e ∈ content someCfs [1] [4], (encodeBytes u).isPrefixOf e.key = true → u = [1] ∨ u = [2] ∨ u = [3] := by
    intro e he hp
    obtain ⟨cf, hcf, hm⟩ := (mem_content.mp he).1
    simp only [someCfs, List.mem_cons, List.not_mem_nil, or_false] at hcf
    have hv : ∀ t : Int, 0 ≤ t → t < 10 → ValidTs t := fun t h1 h2 => ⟨h1, Int.lt_trans h2 (by decide)⟩
    rcases hcf with rfl | rfl <;> simp only [List.mem_cons, List.not_mem_nil, or_false] at hm
    · rcases hm with rfl | rfl | rfl
      · exact Or.inl ((of_prefix (ent_of _ (hv _ (by decide) (by decide))) u).mp hp)
      · exact Or.inl ((of_prefix (ent_of _ (hv _ (by decide) (by decide))) u).mp hp)
      · exact Or.inr (Or.inl ((of_prefix (ent_of _ (hv _ (by decide) (by decide))) u).mp hp))
    · rcases hm with rfl | rfl
      · exact Or.inl ((of_prefix (ent_of _ (hv _ (by decide) (by decide))) u).mp hp)
      · exact Or.inr (Or.inr ((of_prefix (ent_of _ (hv _ (by decide) (by decide))) u).mp hp))
  by_cases hu : u = [1] ∨ u = [2] ∨ u = [3]
  · rcases hu with rfl | rfl | rfl <;> decide +kernel
  · have : versions (content someCfs [1] [4]) u = [] := by
      unfold versions
      rw [List.filter_eq_nil_iff]
      intro e he hp
      exact hu (h e he hp)
    rw [this]; decide

end Verif.AutoSplit
