import Verif.BalRegion.Spec

/-!
# Balancing regions: helper lemmas
-/

namespace Verif.BalRegion

theorem num_used (w : World) (e : Entry) : e.num w = used w e.load := rfl

theorem mem_follows {w : World} {s id : Nat} (h : id ∈ followsOf w s) :
    ∃ r ∈ w.regions, r.id = id ∧ r.leader ≠ 0 ∧ r.leader ≠ s ∧ s ∈ r.peers := by
  unfold followsOf at h
  obtain ⟨r, hr, h⟩ := List.mem_flatMap.1 h
  split at h
  · exact absurd h (by simp)
  · next h0 =>
    obtain ⟨p, hp, e⟩ := List.mem_map.1 h
    obtain ⟨hp, e'⟩ := List.mem_filter.1 hp
    simp only [Bool.and_eq_true, beq_iff_eq, bne_iff_ne, ne_eq] at e'
    exact ⟨r, hr, e, h0, fun e'' => e'.2 (e'.1.trans e''.symm), e'.1 ▸ hp⟩

theorem follows_mem {w : World} {r : Reg} {s : Nat} (hr : r ∈ w.regions) (h0 : r.leader ≠ 0) (h1 : r.leader ≠ s) (h2 : s ∈ r.peers) :
    r.id ∈ followsOf w s := by
  unfold followsOf
  refine List.mem_flatMap.2 ⟨r, hr, ?_⟩
  rw [if_neg h0]
  refine List.mem_map.2 ⟨s, List.mem_filter.2 ⟨h2, ?_⟩, rfl⟩
  simp only [beq_self_eq_true, Bool.true_and, bne_iff_ne, ne_eq]
  exact fun e => h1 e.symm

theorem mem_entries {w : World} {e : Entry} : e ∈ entries w ↔ ∃ s m, Live w s m ∧ e = ⟨s.id, m, followsOf w s.id⟩ := by
  unfold entries Live
  rw [List.mem_filterMap]
  constructor
  · rintro ⟨s, hs, h⟩
    split at h
    · exact absurd h (by simp)
    · next hc =>
      simp only [not_or] at hc
      cases hl : s.load with
      | none => rw [hl] at h; exact absurd h (by simp)
      | some m =>
        rw [hl] at h
        exact ⟨s, m, ⟨hs, hc.1, by simpa using hc.2, hl⟩, (Option.some.inj h).symm⟩
  · rintro ⟨s, m, ⟨h1, h2, h3, h4⟩, rfl⟩
    refine ⟨s, h1, ?_⟩
    rw [if_neg (by simp [h2, h3]), h4]
    rfl

/-! ### Scores -/

theorem scoreLe_iff {w : World} {a b : Entry} (ha : a.known = true) (hb : b.known = true) :
    scoreLe w a b = true ↔ a.num w * b.load.total ≤ b.num w * a.load.total := by
  unfold scoreLe
  simp [ha, hb]

theorem scoreLe_total {w : World} {a b : Entry} (ha : a.known = true) (hb : b.known = true) :
    scoreLe w a b = true ∨ scoreLe w b a = true := by
  rw [scoreLe_iff ha hb, scoreLe_iff hb ha]
  omega

theorem known_of_le {w : World} {a b : Entry} (h : scoreLe w a b = true) : a.known = true ∧ b.known = true := by
  unfold scoreLe at h
  simp only [Bool.and_eq_true] at h
  exact h.1

theorem mul_trans {x y z p q r : Int} (hp : 0 < p) (hq : 0 < q) (hr : 0 < r) (h1 : x * q ≤ y * p) (h2 : y * r ≤ z * q) :
    x * r ≤ z * p := by
  have a1 : x * q * r ≤ y * p * r := Int.mul_le_mul_of_nonneg_right h1 (Int.le_of_lt hr)
  have a2 : y * r * p ≤ z * q * p := Int.mul_le_mul_of_nonneg_right h2 (Int.le_of_lt hp)
  have e1 : x * q * r = x * r * q := by rw [Int.mul_assoc, Int.mul_comm _ _, Int.mul_assoc]; simp only [Int.mul_comm, Int.mul_left_comm]
  have e2 : y * p * r = y * r * p := by rw [Int.mul_assoc, Int.mul_comm _ _, Int.mul_assoc]; simp only [Int.mul_comm, Int.mul_left_comm]
  have e3 : z * q * p = z * p * q := by rw [Int.mul_assoc, Int.mul_comm _ _, Int.mul_assoc]; simp only [Int.mul_comm, Int.mul_left_comm]
  have : x * r * q ≤ z * p * q := by omega
  exact Int.le_of_mul_le_mul_right this hq

theorem total_pos {e : Entry} (h : e.known = true) : (0 : Int) < e.load.total := by
  unfold Entry.known at h
  simp only [decide_eq_true_eq] at h
  omega

theorem scoreLe_trans {w : World} {a b c : Entry} (h1 : scoreLe w a b = true) (h2 : scoreLe w b c = true) : scoreLe w a c = true := by
  obtain ⟨ka, kb⟩ := known_of_le h1
  obtain ⟨-, kc⟩ := known_of_le h2
  rw [scoreLe_iff ka kb] at h1
  rw [scoreLe_iff kb kc] at h2
  rw [scoreLe_iff ka kc]
  exact mul_trans (total_pos ka) (total_pos kb) (total_pos kc) h1 h2

/-! ### Sorting -/

theorem perm_insert (w : World) (asc : Bool) (a : Entry) (l : List Entry) : (insert w asc a l).Perm (a :: l) := by
  induction l with
  | nil => exact List.Perm.refl _
  | cons b l ih =>
    unfold insert
    split
    · exact (ih.cons b).trans (List.Perm.swap _ _ _)
    · exact List.Perm.refl _

theorem perm_sort (w : World) (asc : Bool) (l : List Entry) : (sort w asc l).Perm l := by
  induction l with
  | nil => exact List.Perm.refl _
  | cons a l ih => exact (perm_insert w asc a _).trans (ih.cons a)

theorem mem_sort {w : World} {asc : Bool} {l : List Entry} {e : Entry} : e ∈ sort w asc l ↔ e ∈ l := (perm_sort w asc l).mem_iff

/-- Up or down. -/
def rel (w : World) (asc : Bool) (a b : Entry) : Prop := if asc then scoreLe w a b = true else scoreLe w b a = true

theorem rel_trans {w : World} {asc : Bool} {a b c : Entry} (h1 : rel w asc a b) (h2 : rel w asc b c) : rel w asc a c := by
  unfold rel at *
  cases asc
  · simp only [Bool.false_eq_true, if_false] at *
    exact scoreLe_trans h2 h1
  · simp only [if_true] at *
    exact scoreLe_trans h1 h2

theorem rel_before {w : World} {asc : Bool} {a b : Entry} (ka : a.known = true) (kb : b.known = true) :
    (before w asc b a = true → rel w asc b a) ∧ (before w asc b a = false → rel w asc a b) := by
  have ht := scoreLe_total (w := w) ka kb
  unfold before rel
  cases asc <;> cases h1 : scoreLe w a b <;> cases h2 : scoreLe w b a <;> simp_all

theorem sorted_insert {w : World} {asc : Bool} {a : Entry} (ka : a.known = true) {l : List Entry} (kl : ∀ e ∈ l, e.known = true)
    (h : l.Pairwise (rel w asc)) : (insert w asc a l).Pairwise (rel w asc) := by
  induction l with
  | nil => simp [insert]
  | cons b l ih =>
    have kb := kl b List.mem_cons_self
    rw [List.pairwise_cons] at h
    have hb := rel_before (w := w) (asc := asc) ka kb
    unfold insert
    split
    · next hc =>
      rw [List.pairwise_cons]
      refine ⟨?_, ih (fun e he => kl e (List.mem_cons_of_mem _ he)) h.2⟩
      intro x hx
      rcases List.mem_cons.1 ((perm_insert w asc a l).mem_iff.1 hx) with e | hx
      · exact e ▸ hb.1 hc
      · exact h.1 x hx
    · next hc =>
      rw [List.pairwise_cons, List.pairwise_cons]
      have hab := hb.2 (by simpa using hc)
      refine ⟨?_, h⟩
      intro x hx
      rcases List.mem_cons.1 hx with e | hx
      · exact e ▸ hab
      · exact rel_trans hab (h.1 x hx)

theorem sorted_sort {w : World} {asc : Bool} {l : List Entry} (kl : ∀ e ∈ l, e.known = true) : (sort w asc l).Pairwise (rel w asc) := by
  induction l with
  | nil => exact List.Pairwise.nil
  | cons a l ih =>
    refine sorted_insert (kl a List.mem_cons_self) ?_ (ih fun e he => kl e (List.mem_cons_of_mem _ he))
    intro e he
    exact kl e (List.mem_cons_of_mem _ (mem_sort.1 he))

theorem entries_known {w : World} (h : Known w) : ∀ e ∈ entries w, e.known = true := by
  intro e he
  obtain ⟨s, m, hl, rfl⟩ := mem_entries.1 he
  unfold Entry.known
  exact decide_eq_true (h s m hl)

/-! ### Regions by size -/

theorem perm_insertReg (a : Reg) (l : List Reg) : (insertReg a l).Perm (a :: l) := by
  induction l with
  | nil => exact List.Perm.refl _
  | cons b l ih =>
    unfold insertReg
    split
    · exact (ih.cons b).trans (List.Perm.swap _ _ _)
    · exact List.Perm.refl _

theorem perm_sortReg (l : List Reg) : (sortReg l).Perm l := by
  induction l with
  | nil => exact List.Perm.refl _
  | cons a l ih => exact (perm_insertReg a _).trans (ih.cons a)

theorem sortedReg (l : List Reg) : (sortReg l).Pairwise fun a b => b.size.getD 0 ≤ a.size.getD 0 := by
  induction l with
  | nil => exact List.Pairwise.nil
  | cons a l ih =>
    show (insertReg a (sortReg l)).Pairwise _
    generalize sortReg l = m at ih
    induction m with
    | nil => simp [insertReg]
    | cons b m ih' =>
      rw [List.pairwise_cons] at ih
      unfold insertReg
      split
      · next hc =>
        rw [List.pairwise_cons]
        refine ⟨?_, ih' ih.2⟩
        intro x hx
        rcases List.mem_cons.1 ((perm_insertReg a m).mem_iff.1 hx) with e | hx
        · exact e ▸ hc
        · exact ih.1 x hx
      · next hc =>
        rw [List.pairwise_cons, List.pairwise_cons]
        refine ⟨?_, ih⟩
        intro x hx
        rcases List.mem_cons.1 hx with e | hx
        · rw [e]; omega
        · have := ih.1 x hx
          omega

theorem find_first {α} {p : α → Bool} {R : α → α → Prop} {l : List α} (h : l.Pairwise R) {x : α} (hx : l.find? p = some x) :
    ∀ y ∈ l, p y = true → y = x ∨ R x y := by
  induction l with
  | nil => exact absurd hx (by simp)
  | cons a l ih =>
    rw [List.pairwise_cons] at h
    intro y hy hp
    rw [List.find?_cons] at hx
    split at hx
    · have e := Option.some.inj hx
      subst e
      rcases List.mem_cons.1 hy with e | hy
      · exact Or.inl e
      · exact Or.inr (h.1 y hy)
    · next hf =>
      rcases List.mem_cons.1 hy with e | hy
      · rw [← e, hp] at hf; exact absurd hf (by simp)
      · exact ih h.2 hx y hy hp

theorem mem_regsOf {w : World} {ids : List Nat} {r : Reg} (h : r ∈ regsOf w ids) :
    r ∈ w.regions ∧ r.id ∈ ids ∧ ∃ sz, r.size = some sz := by
  unfold regsOf at h
  obtain ⟨id, hid, h⟩ := List.mem_filterMap.1 h
  rw [Option.filter_eq_some_iff] at h
  have e : r.id = id := by simpa using List.find?_some h.1
  exact ⟨List.mem_of_find?_eq_some h.1, e ▸ hid, Option.isSome_iff_exists.1 h.2⟩

theorem find_reg {rs : List Reg} (hn : (rs.map Reg.id).Nodup) {r : Reg} (h : r ∈ rs) : rs.find? (fun x => x.id == r.id) = some r := by
  induction rs with
  | nil => exact absurd h (by simp)
  | cons a l ih =>
    simp only [List.map_cons, List.nodup_cons] at hn
    rcases List.mem_cons.1 h with e' | h
    · subst e'; simp
    · have : a.id ≠ r.id := fun e' => hn.1 (e' ▸ List.mem_map_of_mem h)
      rw [List.find?_cons_of_neg (by simpa using this)]
      exact ih hn.2 h

theorem regsOf_mem {w : World} (hn : (w.regions.map Reg.id).Nodup) {ids : List Nat} {r : Reg} (hr : r ∈ w.regions) (hi : r.id ∈ ids)
    {sz : Nat} (hs : r.size = some sz) : r ∈ regsOf w ids := by
  unfold regsOf
  refine List.mem_filterMap.2 ⟨r.id, hi, ?_⟩
  rw [find_reg hn hr, Option.filter_eq_some_iff]
  exact ⟨rfl, by simp [hs]⟩

theorem fits_iff {t : Entry} {r : Reg} {sz : Nat} (hs : r.size = some sz) :
    (roomy t r && placeable t r) = true ↔ Fits t.load r sz := by
  unfold roomy placeable Fits
  simp only [hs, Option.getD_some, Bool.and_eq_true, decide_eq_true_eq, Bool.not_eq_true', List.contains_eq_mem, decide_eq_false_iff_not,
    true_and]
  constructor
  · rintro ⟨⟨⟨a, b⟩, c⟩, d⟩; exact ⟨b, c, d⟩
  · rintro ⟨b, c, d⟩; exact ⟨⟨⟨by omega, b⟩, c⟩, d⟩

theorem gen_sound {w : World} {s t : Entry} {k : Task} (h : gen w s t = some k) :
    scoreLe w s t = false ∧ ∃ r ∈ regsOf w s.follows, (∃ sz, r.size = some sz ∧ Fits t.load r sz) ∧ k = taskOf r s.id t.id ∧
      ∀ r' ∈ regsOf w s.follows, ∀ sz', Fits t.load r' sz' → sz' ≤ r.size.getD 0 := by
  unfold gen filterRegion at h
  split at h
  · exact absurd h (by simp)
  · next hc =>
    refine ⟨by simpa using hc, ?_⟩
    cases hf : (sortReg (regsOf w s.follows)).find? fun r => roomy t r && placeable t r with
    | none => rw [hf] at h; exact absurd h (by simp)
    | some r =>
      rw [hf] at h
      have hm := (perm_sortReg _).mem_iff.1 (List.mem_of_find?_eq_some hf)
      obtain ⟨-, -, sz, hs⟩ := mem_regsOf hm
      refine ⟨r, hm, ⟨sz, hs, (fits_iff hs).1 (by simpa using List.find?_some hf)⟩, (Option.some.inj h).symm, ?_⟩
      intro r' hr' sz' hfit
      have := find_first (sortedReg _) hf r' ((perm_sortReg _).mem_iff.2 hr') ((fits_iff hfit.1).2 hfit)
      rcases this with e | e
      · rw [← e, hfit.1]; exact Nat.le_refl _
      · rw [hfit.1] at e; exact e

theorem gen_some {w : World} {s t : Entry} (hs : scoreLe w s t = false) {r : Reg} (hr : r ∈ regsOf w s.follows) {sz : Nat}
    (hf : Fits t.load r sz) : ∃ k, gen w s t = some k := by
  unfold gen filterRegion
  rw [if_neg (by simp [hs])]
  cases hx : (sortReg (regsOf w s.follows)).find? fun r => roomy t r && placeable t r with
  | some r => exact ⟨_, rfl⟩
  | none =>
    exfalso
    have := List.find?_eq_none.1 hx r ((perm_sortReg _).mem_iff.2 hr)
    exact this ((fits_iff hf.1).2 hf)

/-! ### The walk -/

theorem walk_cons (w : World) (s : Entry) (src : List Entry) (t : Entry) (dst : List Entry) :
    walk w (s :: src) (t :: dst) =
    if scoreLe w s t then .idle
    else if scoreNear w limit s t then .idle
    else
      match gen w s t with
      | some k => .task k
      | none =>
        match src with
        | [] => .crash
        | s' :: _ =>
          match gen w s' t with
          | some k => .task k
          | none => walk w src dst := by
  cases src <;> rfl

theorem walk_ne_crash (w : World) : ∀ src dst : List Entry,
    (∀ t ∈ dst, ∀ a s, src = a ++ [s] → scoreLe w s t = true) → walk w src dst ≠ .crash := by
  intro src
  induction src with
  | nil => intro dst _; simp [walk]
  | cons s src ih =>
    intro dst h
    cases dst with
    | nil => simp [walk]
    | cons t dst =>
      rw [walk_cons]
      split
      · simp
      · next h1 =>
        split
        · simp
        · split
          · simp
          · cases src with
            | nil => exact absurd (h t List.mem_cons_self [] s rfl) h1
            | cons s' src =>
              simp only
              split
              · simp
              · refine ih dst fun t' ht' a s'' e => ?_
                exact h t' (List.mem_cons_of_mem _ ht') (s :: a) s'' (by rw [e]; rfl)

theorem walk_task (w : World) {k : Task} : ∀ src dst : List Entry, walk w src dst = .task k →
    ∃ s0 ∈ src, ∃ t ∈ dst, ∃ s ∈ src, (s = s0 ∨ ∃ a b c, src = a ++ s0 :: (b ++ s :: c)) ∧ gen w s t = some k ∧
      scoreLe w s0 t = false ∧ scoreNear w limit s0 t = false := by
  intro src
  induction src with
  | nil => intro dst h; exact absurd h (by simp [walk])
  | cons s src ih =>
    intro dst h
    cases dst with
    | nil => exact absurd h (by simp [walk])
    | cons t dst =>
      rw [walk_cons] at h
      split at h
      · exact absurd h (by simp)
      · next h1 =>
        split at h
        · exact absurd h (by simp)
        · next h2 =>
          split at h
          · next k' hk =>
            have e : k' = k := by simpa using h
            exact ⟨s, List.mem_cons_self, t, List.mem_cons_self, s, List.mem_cons_self, Or.inl rfl, e ▸ hk, by simpa using h1,
              by simpa using h2⟩
          · cases src with
            | nil => exact absurd h (by simp)
            | cons s' src =>
              simp only at h
              split at h
              · next k' hk =>
                have e : k' = k := by simpa using h
                exact ⟨s, List.mem_cons_self, t, List.mem_cons_self, s', by simp, Or.inr ⟨[], [], src, rfl⟩, e ▸ hk,
                  by simpa using h1, by simpa using h2⟩
              · obtain ⟨s0, a1, t', a2, s1, a3, a4, a5⟩ := ih dst h
                refine ⟨s0, List.mem_cons_of_mem _ a1, t', List.mem_cons_of_mem _ a2, s1, List.mem_cons_of_mem _ a3, ?_, a5⟩
                rcases a4 with a4 | ⟨a, b, c, e⟩
                · exact Or.inl a4
                · exact Or.inr ⟨s :: a, b, c, by rw [e]; rfl⟩

/-! ### Differences -/

theorem diff_filter {l : List Nat} (h : l.Nodup) (m : List Nat) : diff l m = l.filter fun x => !m.contains x := by
  unfold diff
  induction m generalizing l with
  | nil => exact (List.filter_eq_self.2 (by simp)).symm
  | cons a m ih =>
    rw [List.foldl_cons, h.erase_eq_filter, ih (h.filter _), List.filter_filter]
    refine List.filter_congr fun x _ => ?_
    simp only [List.contains_cons, Bool.not_or]
    cases hx : x == a <;> simp [bne, hx]

end Verif.BalRegion
