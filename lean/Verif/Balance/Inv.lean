import Verif.Balance.Spec

/-!
# Balancing leaders: helper lemmas
-/

namespace Verif.Balance

theorem weightOf_pos (i : Int) : 0 < weightOf i := by
  unfold weightOf
  split <;> omega

theorem weights_pos (l : List Store) : 0 < weights l := by
  induction l with
  | nil => exact Int.one_pos
  | cons s l ih => exact Int.mul_pos (weightOf_pos _) ih

theorem dvd_weights {l : List Store} {s : Store} (h : s ∈ l) : weightOf s.weight ∣ weights l := by
  induction l with
  | nil => exact absurd h (by simp)
  | cons a l ih =>
    rcases List.mem_cons.1 h with e | h
    · subst e; exact Int.dvd_mul_right _ _
    · exact Int.dvd_trans (ih h) (Int.dvd_mul_left _ _)

/-! ### Sorting keeps the entries -/

theorem perm_insert (asc : Bool) (a : Entry) (l : List Entry) : (insert asc a l).Perm (a :: l) := by
  induction l with
  | nil => exact List.Perm.refl _
  | cons b l ih =>
    unfold insert
    split
    · exact (ih.cons b).trans (List.Perm.swap _ _ _)
    · exact List.Perm.refl _

theorem perm_sort (asc : Bool) (l : List Entry) : (sort asc l).Perm l := by
  induction l with
  | nil => exact List.Perm.refl _
  | cons a l ih => exact (perm_insert asc a _).trans (ih.cons a)

theorem mem_sort {asc : Bool} {l : List Entry} {e : Entry} : e ∈ sort asc l ↔ e ∈ l := (perm_sort asc l).mem_iff

theorem length_sort (asc : Bool) (l : List Entry) : (sort asc l).length = l.length := (perm_sort asc l).length_eq

theorem find_mem {es : List Entry} {s : Nat} {e : Entry} (h : find es s = some e) : e ∈ es ∧ e.id = s := by
  unfold find at h
  exact ⟨List.mem_of_find?_eq_some h, by simpa using List.find?_some h⟩

theorem find_of_mem {es : List Entry} {e : Entry} (hn : (es.map Entry.id).Nodup) (h : e ∈ es) : find es e.id = some e := by
  unfold find
  induction es with
  | nil => exact absurd h (by simp)
  | cons a l ih =>
    simp only [List.map_cons, List.nodup_cons] at hn
    rcases List.mem_cons.1 h with e' | h
    · subst e'; simp
    · have : a.id ≠ e.id := fun e' => hn.1 (e' ▸ List.mem_map_of_mem h)
      rw [List.find?_cons_of_neg (by simpa using this)]
      exact ih hn.2 h

/-! ### What a store leads -/

theorem filter_one (s : Nat) : ∀ {l : List Peer}, (l.map Peer.store).Nodup →
    (l.filter fun p => p.store == s).length = if ∃ p ∈ l, p.store = s then 1 else 0 := by
  intro l
  induction l with
  | nil => simp
  | cons a l ih =>
    intro hn
    simp only [List.map_cons, List.nodup_cons] at hn
    by_cases h : a.store = s
    · have hz : l.filter (fun p => p.store == s) = [] := by
        rw [List.filter_eq_nil_iff]
        intro p hp e
        simp only [beq_iff_eq] at e
        exact hn.1 (h ▸ e ▸ List.mem_map_of_mem hp)
      rw [List.filter_cons_of_pos (by simpa using h), hz, if_pos ⟨a, List.mem_cons_self, h⟩]
      rfl
    · rw [List.filter_cons_of_neg (by simpa using h), ih hn.2]
      have : (∃ p ∈ a :: l, p.store = s) ↔ ∃ p ∈ l, p.store = s := by simp [h]
      simp only [this]

theorem leads_count {rs : List Reg} {s : Nat} (hs : s ≠ 0) (hp : ∀ r ∈ rs, (r.peers.map Peer.store).Nodup)
    (hl : ∀ r ∈ rs, r.leader ≠ 0 → ∃ p ∈ r.peers, p.store = r.leader) :
    (rs.flatMap fun r => if r.leader = 0 then [] else
      (r.peers.filter fun p => p.store == s && p.store == r.leader).map fun _ => r.id).length = count rs s := by
  unfold count
  induction rs with
  | nil => rfl
  | cons r rs ih =>
    rw [List.flatMap_cons, List.length_append, ih (fun x hx => hp x (List.mem_cons_of_mem _ hx))
      (fun x hx => hl x (List.mem_cons_of_mem _ hx))]
    by_cases h : r.leader = s
    · rw [List.filter_cons_of_pos (by simpa using h), List.length_cons]
      have h0 : r.leader ≠ 0 := h ▸ hs
      rw [if_neg h0, List.length_map]
      have : (fun p : Peer => p.store == s && p.store == r.leader) = fun p => p.store == s := by
        funext p; rw [h, Bool.and_self]
      rw [this, filter_one s (hp r List.mem_cons_self), if_pos]
      · omega
      · obtain ⟨p, hp1, hp2⟩ := hl r List.mem_cons_self h0
        exact ⟨p, hp1, hp2.trans h⟩
    · rw [List.filter_cons_of_neg (by simpa using h)]
      have : (if r.leader = 0 then [] else
          (r.peers.filter fun p => p.store == s && p.store == r.leader).map fun _ => r.id) = [] := by
        split
        · rfl
        · rw [List.map_eq_nil_iff, List.filter_eq_nil_iff]
          intro p _ e
          simp only [Bool.and_eq_true, beq_iff_eq] at e
          exact h (e.2.symm.trans e.1)
      rw [this]
      simp

theorem mem_leads {w : World} {s id : Nat} (h : id ∈ leadsOf w s) :
    ∃ r ∈ w.regions, r.id = id ∧ r.leader = s ∧ ∃ p ∈ r.peers, p.store = s := by
  unfold leadsOf at h
  obtain ⟨r, hr, h⟩ := List.mem_flatMap.1 h
  split at h
  · exact absurd h (by simp)
  · obtain ⟨p, hp, e⟩ := List.mem_map.1 h
    obtain ⟨hp, e'⟩ := List.mem_filter.1 hp
    simp only [Bool.and_eq_true, beq_iff_eq] at e'
    exact ⟨r, hr, e, e'.2.symm.trans e'.1, p, hp, e'.1⟩

theorem leads_mem {w : World} (hok : Ok w) {r : Reg} (hr : r ∈ w.regions) (h0 : r.leader ≠ 0) : r.id ∈ leadsOf w r.leader := by
  unfold leadsOf
  refine List.mem_flatMap.2 ⟨r, hr, ?_⟩
  rw [if_neg h0]
  obtain ⟨p, hp, e⟩ := hok.leader r hr h0
  exact List.mem_map.2 ⟨p, List.mem_filter.2 ⟨hp, by simp [e]⟩, rfl⟩

theorem mem_follows {w : World} {s id : Nat} (h : id ∈ followsOf w s) :
    ∃ r ∈ w.regions, r.id = id ∧ r.leader ≠ 0 ∧ r.leader ≠ s ∧ ∃ p ∈ r.peers, p.store = s := by
  unfold followsOf at h
  obtain ⟨r, hr, h⟩ := List.mem_flatMap.1 h
  split at h
  · exact absurd h (by simp)
  · next h0 =>
    obtain ⟨p, hp, e⟩ := List.mem_map.1 h
    obtain ⟨hp, e'⟩ := List.mem_filter.1 hp
    simp only [Bool.and_eq_true, beq_iff_eq, bne_iff_ne, ne_eq] at e'
    exact ⟨r, hr, e, h0, fun e'' => e'.2 (e'.1.trans e''.symm), p, hp, e'.1⟩

/-! ### The entries -/

theorem mem_entries {w : World} {e : Entry} (h : e ∈ entries w) :
    ∃ s ∈ w.stores, s.id ≠ 0 ∧ s.normal = true ∧ e = ⟨s.id, s.weight, leadsOf w s.id, followsOf w s.id, 0⟩ := by
  unfold entries at h
  obtain ⟨s, hs, h⟩ := List.mem_filterMap.1 h
  split at h
  · next hc => exact ⟨s, hs, hc.1, hc.2.1, (Option.some.inj h).symm⟩
  · exact absurd h (by simp)

theorem entries_ids {w : World} (hn : (w.stores.map Store.id).Nodup) : ((entries w).map Entry.id).Nodup := by
  unfold entries
  suffices h : ∀ l : List Store, (l.map Store.id).Nodup → ((l.filterMap fun s =>
      if s.id ≠ 0 ∧ s.normal = true ∧ (leadsOf w s.id ≠ [] ∨ followsOf w s.id ≠ []) then
        some (⟨s.id, s.weight, leadsOf w s.id, followsOf w s.id, 0⟩ : Entry) else none).map Entry.id).Nodup ∧
      ∀ x, x ∈ (l.filterMap fun s =>
        if s.id ≠ 0 ∧ s.normal = true ∧ (leadsOf w s.id ≠ [] ∨ followsOf w s.id ≠ []) then
          some (⟨s.id, s.weight, leadsOf w s.id, followsOf w s.id, 0⟩ : Entry) else none).map Entry.id → x ∈ l.map Store.id from
    (h _ hn).1
  intro l
  induction l with
  | nil => simp
  | cons a l ih =>
    intro hn
    simp only [List.map_cons, List.nodup_cons] at hn
    obtain ⟨h1, h2⟩ := ih hn.2
    rw [List.filterMap_cons]
    split
    · exact ⟨h1, fun x hx => List.mem_cons_of_mem _ (h2 x hx)⟩
    · next b hb =>
      split at hb
      · have e := Option.some.inj hb
        have : b.id = a.id := by rw [← e]
        simp only [List.map_cons, this]
        refine ⟨List.nodup_cons.2 ⟨fun hx => hn.1 (h2 _ hx), h1⟩, ?_⟩
        intro x hx
        rcases List.mem_cons.1 hx with e | hx
        · exact e ▸ List.mem_cons_self
        · exact List.mem_cons_of_mem _ (h2 x hx)
      · exact absurd hb (by simp)

/-! ### Transfers -/

theorem count_carry {rs : List Reg} {t : Task} (hn : (rs.map Reg.id).Nodup) (hr : ∃ r ∈ rs, r.id = t.region ∧ r.leader = t.source)
    (hd : t.source ≠ t.target) (x : Nat) :
    (count (carryOne rs t) x : Int) = count rs x - (if x = t.source then 1 else 0) + (if x = t.target then 1 else 0) := by
  unfold carryOne count
  have same : ∀ l : List Reg, (∀ r ∈ l, r.id ≠ t.region) →
      l.map (fun r => if r.id = t.region then { r with leader := t.target } else r) = l := by
    intro l hl
    induction l with
    | nil => rfl
    | cons a l ih =>
      rw [List.map_cons, if_neg (hl a List.mem_cons_self), ih (fun r hr => hl r (List.mem_cons_of_mem _ hr))]
  induction rs with
  | nil => obtain ⟨r, hr, -⟩ := hr; exact absurd hr (by simp)
  | cons a l ih =>
    simp only [List.map_cons, List.nodup_cons] at hn
    obtain ⟨r, hr, h1, h2⟩ := hr
    by_cases ha : a.id = t.region
    · have : a = r := by
        rcases List.mem_cons.1 hr with e | hr
        · exact e.symm
        · exact absurd (ha.trans h1.symm ▸ List.mem_map_of_mem hr) hn.1
      subst this
      have hl : ∀ r ∈ l, r.id ≠ t.region := fun r hr e => hn.1 (ha.trans e.symm ▸ List.mem_map_of_mem hr)
      rw [List.map_cons, same l hl, if_pos ha, List.filter_cons, List.filter_cons]
      simp only [h2, beq_iff_eq]
      by_cases e1 : x = t.source
      · rw [e1] at *
        rw [if_neg (fun e => hd e.symm), if_pos rfl, if_pos rfl, if_neg hd, List.length_cons]
        omega
      · by_cases e2 : x = t.target
        · rw [if_pos e2.symm, if_neg (fun e => e1 e.symm), if_neg e1, if_pos e2, List.length_cons]
          omega
        · rw [if_neg (fun e => e2 e.symm), if_neg (fun e => e1 e.symm), if_neg e1, if_neg e2]
          omega
    · have hr' : r ∈ l := by
        rcases List.mem_cons.1 hr with e | hr
        · exact absurd (e ▸ h1) ha
        · exact hr
      have := ih hn.2 ⟨r, hr', h1, h2⟩
      rw [List.map_cons, if_neg ha, List.filter_cons, List.filter_cons]
      split
      · rw [List.length_cons, List.length_cons]; omega
      · exact this

theorem carryOne_ids (rs : List Reg) (t : Task) : (carryOne rs t).map Reg.id = rs.map Reg.id := by
  unfold carryOne
  rw [List.map_map]
  refine List.map_congr_left fun r _ => ?_
  simp only [Function.comp]
  split <;> rfl

theorem carry_ids (l : List Task) (rs : List Reg) : (l.foldl carryOne rs).map Reg.id = rs.map Reg.id := by
  induction l generalizing rs with
  | nil => rfl
  | cons t l ih => exact (ih _).trans (carryOne_ids rs t)

/-- A region that is not in the tasks is as it was. -/
theorem carry_keeps (l : List Task) {rs : List Reg} {r : Reg} (hr : r ∈ rs) (h : r.id ∉ l.map Task.region) :
    r ∈ l.foldl carryOne rs := by
  induction l generalizing rs with
  | nil => exact hr
  | cons t l ih =>
    simp only [List.map_cons, List.mem_cons, not_or] at h
    refine ih ?_ h.2
    exact List.mem_map.2 ⟨r, hr, by rw [if_neg h.1]⟩

/-- A region in what is carried out has its peers from before; its leader is that from before or the
target of a task for it. -/
theorem carry_from (l : List Task) {rs : List Reg} {r : Reg} (hr : r ∈ l.foldl carryOne rs) :
    ∃ r' ∈ rs, r'.id = r.id ∧ r'.peers = r.peers ∧ (r.leader = r'.leader ∨ ∃ t ∈ l, t.region = r.id ∧ r.leader = t.target) := by
  induction l generalizing rs with
  | nil => exact ⟨r, hr, rfl, rfl, Or.inl rfl⟩
  | cons t l ih =>
    obtain ⟨r1, h1, h2, h3, h4⟩ := ih hr
    obtain ⟨r0, h5, h6⟩ := List.mem_map.1 h1
    refine ⟨r0, h5, ?_⟩
    by_cases e : r0.id = t.region
    · rw [if_pos e] at h6
      subst h6
      refine ⟨h2, h3, Or.inr ?_⟩
      rcases h4 with h4 | ⟨t', h4, h5⟩
      · exact ⟨t, List.mem_cons_self, e.symm.trans h2, h4⟩
      · exact ⟨t', List.mem_cons_of_mem _ h4, h5⟩
    · rw [if_neg e] at h6
      subst h6
      exact ⟨h2, h3, h4.imp id fun ⟨t', h, h'⟩ => ⟨t', List.mem_cons_of_mem _ h, h'⟩⟩

/-! ### The spread -/

theorem sum_at {l : List Store} (hn : (l.map Store.id).Nodup) {s : Store} (hs : s ∈ l) (d : Int) :
    (l.map fun x => if x.id = s.id then d else 0).sum = d := by
  have zero : ∀ l : List Store, s.id ∉ l.map Store.id → (l.map fun x => if x.id = s.id then d else 0).sum = 0 := by
    intro l hl
    induction l with
    | nil => rfl
    | cons a l ih =>
      simp only [List.map_cons, List.mem_cons, not_or] at hl
      rw [List.map_cons, List.sum_cons, if_neg (fun e => hl.1 e.symm), ih hl.2]
      rfl
  induction l with
  | nil => exact absurd hs (by simp)
  | cons a l ih =>
    simp only [List.map_cons, List.nodup_cons] at hn
    rw [List.map_cons, List.sum_cons]
    rcases List.mem_cons.1 hs with e | hs
    · subst e
      rw [if_pos rfl, zero l hn.1]
      omega
    · have : a.id ≠ s.id := fun e => hn.1 (e ▸ List.mem_map_of_mem hs)
      rw [if_neg this, ih hn.2 hs]
      omega

theorem sum_add (l : List Store) (f g : Store → Int) :
    (l.map fun x => f x + g x).sum = (l.map f).sum + (l.map g).sum := by
  induction l with
  | nil => rfl
  | cons a l ih => simp only [List.map_cons, List.sum_cons, ih]; omega

theorem cross {a b x y ws wt cs ct : Int} (hws : 0 < ws) (hwt : 0 < wt) (hcs : 0 < cs) (hct : 0 < ct)
    (hp : cs * ws = ct * wt) (h : a * ws ≤ b * wt) (ha : x = a * ct) (hb : y = b * cs) : x ≤ y := by
  subst ha hb
  have h1 : a * ws * (cs * ct) ≤ b * wt * (cs * ct) :=
    Int.mul_le_mul_of_nonneg_right h (Int.le_of_lt (Int.mul_pos hcs hct))
  have e1 : a * ws * (cs * ct) = a * ct * (cs * ws) := by
    simp only [Int.mul_assoc, Int.mul_left_comm, Int.mul_comm]
  have e2 : b * wt * (cs * ct) = b * cs * (ct * wt) := by
    simp only [Int.mul_assoc, Int.mul_left_comm, Int.mul_comm]
  rw [e1, e2, ← hp] at h1
  exact Int.le_of_mul_le_mul_right h1 (Int.mul_pos hcs hws)

theorem spread_less {l : List Store} (hn : (l.map Store.id).Nodup) {s t : Store} (hs : s ∈ l) (ht : t ∈ l) (hd : s.id ≠ t.id)
    {f f' : Nat → Int} (hf : ∀ x, f' x = f x - (if x = s.id then 1 else 0) + (if x = t.id then 1 else 0))
    (h : (f t.id + 1) * weightOf s.weight ≤ (f s.id - 1) * weightOf t.weight) :
    (l.map fun x => f' x.id * f' x.id * (weights l / weightOf x.weight)).sum + 1 ≤
      (l.map fun x => f x.id * f x.id * (weights l / weightOf x.weight)).sum := by
  have hu : ∀ x ∈ l, ∀ y ∈ l, x.id = y.id → x = y := by
    intro x hx y hy e
    clear hs ht h
    generalize weights l = W at *
    induction l with
    | nil => exact absurd hx (by simp)
    | cons a l ih =>
      simp only [List.map_cons, List.nodup_cons] at hn
      rcases List.mem_cons.1 hx with e1 | hx <;> rcases List.mem_cons.1 hy with e2 | hy
      · rw [e1, e2]
      · exact absurd (e1 ▸ e ▸ List.mem_map_of_mem hy) hn.1
      · exact absurd (e2 ▸ e ▸ List.mem_map_of_mem hx) hn.1
      · exact ih hn.2 hx hy
  have hws := weightOf_pos s.weight
  have hwt := weightOf_pos t.weight
  have hW := weights_pos l
  have es : weights l / weightOf s.weight * weightOf s.weight = weights l := Int.ediv_mul_cancel (dvd_weights hs)
  have et : weights l / weightOf t.weight * weightOf t.weight = weights l := Int.ediv_mul_cancel (dvd_weights ht)
  generalize hcs : weights l / weightOf s.weight = cs at es
  generalize hct : weights l / weightOf t.weight = ct at et
  have pcs : 0 < cs := hcs ▸ Int.ediv_pos_of_pos_of_dvd hW (Int.le_of_lt hws) (dvd_weights hs)
  have pct : 0 < ct := hct ▸ Int.ediv_pos_of_pos_of_dvd hW (Int.le_of_lt hwt) (dvd_weights ht)
  have hx := cross hws hwt pcs pct (es.trans et.symm) h rfl rfl
  have key : (l.map fun x => f' x.id * f' x.id * (weights l / weightOf x.weight)).sum =
      (l.map fun x => f x.id * f x.id * (weights l / weightOf x.weight)).sum +
        ((1 - 2 * f s.id) * cs + (1 + 2 * f t.id) * ct) := by
    have e1 : (l.map fun x => f' x.id * f' x.id * (weights l / weightOf x.weight)) =
        l.map fun x => (f x.id * f x.id * (weights l / weightOf x.weight) +
          ((if x.id = s.id then (1 - 2 * f s.id) * cs else 0) + (if x.id = t.id then (1 + 2 * f t.id) * ct else 0))) := by
      refine List.map_congr_left fun x hx => ?_
      rw [hf]
      by_cases h1 : x.id = s.id
      · have := hu x hx s hs h1
        subst this
        rw [if_pos rfl, if_neg hd, if_pos rfl, if_neg hd, hcs]
        simp only [Int.add_zero, Int.sub_mul, Int.mul_sub, Int.one_mul, Int.mul_one, Int.two_mul, Int.add_mul]
        omega
      · by_cases h2 : x.id = t.id
        · have := hu x hx t ht h2
          subst this
          rw [if_neg h1, if_pos rfl, if_neg h1, if_pos rfl, hct]
          simp only [Int.sub_zero, Int.zero_add, Int.add_mul, Int.mul_add, Int.one_mul, Int.mul_one, Int.two_mul]
          omega
        · rw [if_neg h1, if_neg h2, if_neg h1, if_neg h2]
          simp
    rw [e1, sum_add, sum_add, sum_at hn hs, sum_at hn ht]
  rw [key]
  simp only [Int.sub_mul, Int.add_mul, Int.one_mul, Int.mul_assoc, Int.two_mul] at hx ⊢
  omega

end Verif.Balance
