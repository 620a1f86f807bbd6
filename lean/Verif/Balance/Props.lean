import Verif.Balance.Pass

/-!
# Balancing leaders: theorems (C99)
-/

namespace Verif.Balance

theorem ok_carry {w w' : World} (hok : Ok w) {l : List Task} (hg : ∀ t ∈ l, Good w t)
    (hr : w'.regions = (carry w l).regions) (hs : w'.stores = w.stores) : Ok w' := by
  refine ⟨?_, hs ▸ hok.stores, ?_, ?_, hs ▸ hok.zero⟩
  · rw [hr]
    show ((l.foldl carryOne w.regions).map Reg.id).Nodup
    rw [carry_ids]
    exact hok.ids
  · intro r h
    rw [hr] at h
    obtain ⟨r', h1, -, h3, -⟩ := carry_from l h
    exact h3 ▸ hok.peers r' h1
  · intro r h h0
    rw [hr] at h
    obtain ⟨r', h1, h2, h3, h4⟩ := carry_from l h
    rcases h4 with h4 | ⟨t, ht, e1, e2⟩
    · rw [h4, ← h3]
      exact hok.leader r' h1 (h4 ▸ h0)
    · obtain ⟨r'', a1, a2, -, -, p, b1, b2, -⟩ := (hg t ht).region
      have := nodup_unique hok.ids a1 h1 (a2.trans (e1.trans h2.symm))
      rw [← h3, ← this]
      exact ⟨p, b1, b2.trans e2.symm⟩

/-- C99.  A pass comes to an end, whatever regions are picked. -/
theorem C99_ends (w : World) (rnd : Nat → Nat) {n : Nat} (h : 2 * w.stores.length + w.batch < n) :
    (schedule w rnd n).isSome = true := by
  unfold schedule
  rw [Option.isSome_map]
  refine loop_ends w rnd n _ ?_
  have : (entries w).length ≤ w.stores.length := List.length_filterMap_le _ _
  simp only [List.length_nil]
  omega

/-- C99.  A pass asks for no more transfers than it may. -/
theorem C99_batch {w : World} (hok : Ok w) {rnd : Nat → Nat} {n : Nat} {l : List Task} (h : schedule w rnd n = some l) :
    l.length ≤ max 1 w.batch :=
  loop_batch w rnd n _ (by simp only [List.length_nil]; omega) (schedule_eq hok h)

theorem fit_iff {w : World} {r : Nat} : healthy w r = true ↔ Fit w r := by
  unfold healthy Fit
  split
  · rename_i h; simp [h]
  · rename_i m h
    simp only [Bool.and_eq_true, beq_iff_eq, decide_eq_true_eq, h, Option.some.injEq]
    constructor
    · rintro ⟨⟨⟨⟨⟨h1, h2⟩, h3⟩, h4⟩, h5⟩, h6⟩
      exact ⟨m, rfl, h1, h2, h3, h4, h5, h6⟩
    · rintro ⟨m', e, h1, h2, h3, h4, h5, h6⟩
      subst e
      exact ⟨⟨⟨⟨⟨h1, h2⟩, h3⟩, h4⟩, h5⟩, h6⟩

theorem room_iff {w : World} {s r : Nat} : roomy w s r = true ↔ Room w s r := by
  unfold roomy Room
  split
  · rename_i f m hf hm
    simp only [hf, hm, Option.some.injEq]
    split
    · rename_i hn
      refine ⟨fun _ => ⟨f, m, rfl, rfl, by simp [hn]⟩, fun _ => rfl⟩
    · rename_i b hb
      simp only [Bool.and_eq_true, decide_eq_true_eq]
      constructor
      · rintro ⟨⟨_, h2⟩, h3⟩
        refine ⟨f, m, rfl, rfl, ?_⟩
        intro b' e
        rw [hb] at e
        cases e
        exact ⟨h2, h3⟩
      · rintro ⟨f', m', e1, e2, h⟩
        subst e1 e2
        have := h b hb
        omega
  · rename_i hno
    simp only [Bool.false_eq_true, false_iff]
    rintro ⟨f, m, h1, h2, _⟩
    exact hno f m h1 h2

/-- C99.  Every transfer that is asked for is of a region that is in order, from the store that
leads it to another that has a replica of it, both in a normal state; and each region is
transferred once. -/
theorem C99_moves {w : World} (hok : Ok w) {rnd : Nat → Nat} {n : Nat} {l : List Task} (h : schedule w rnd n = some l) :
    (l.map Task.region).Nodup ∧ ∀ t ∈ l, t.source ≠ t.target ∧
      (∃ s ∈ w.stores, s.id = t.source ∧ s.normal = true) ∧ (∃ s ∈ w.stores, s.id = t.target ∧ s.normal = true) ∧
      ∃ r ∈ w.regions, r.id = t.region ∧ r.leader = t.source ∧ (∃ p ∈ r.peers, p.store = t.target) ∧
        Fit w r.id := by
  obtain ⟨p, hp, rfl⟩ := schedule_inv hok h
  refine ⟨hp.nodup, fun t ht => ?_⟩
  obtain ⟨⟨r, h1, h2, h3, h4, q, hq, hq', -⟩, hne, hs, ht'⟩ := hp.good t ht
  exact ⟨hne, hs, ht', r, h1, h2, h3, ⟨q, hq, hq'⟩, fit_iff.1 h4⟩

/-- C99.  A transfer to a store with room is to a replica with a vote. -/
theorem C99_voter_partial {w : World} (hok : Ok w) {rnd : Nat → Nat} {n : Nat} {l : List Task} (h : schedule w rnd n = some l)
    {t : Task} (ht : t ∈ l) (hroom : Room w t.target t.region) :
    ∃ r ∈ w.regions, r.id = t.region ∧ ∃ p ∈ r.peers, p.store = t.target ∧ p.voter = true := by
  obtain ⟨p, hp, rfl⟩ := schedule_inv hok h
  obtain ⟨r, h1, h2, -, -, q, hq, hq', hv⟩ := (hp.good t ht).region
  exact ⟨r, h1, h2, q, hq, hq', hv (h2.symm ▸ room_iff.2 hroom)⟩

/-- C99.  At each transfer, with those before it carried out, the target leads so few regions for
its weight that after the transfer it is still no further up than the source. -/
theorem C99_helps {w : World} (hok : Ok w) {rnd : Nat → Nat} {n : Nat} {a b : List Task} {t : Task}
    (h : schedule w rnd n = some (a ++ t :: b)) {s u : Store} (hs : s ∈ w.stores) (hu : u ∈ w.stores)
    (es : s.id = t.source) (eu : u.id = t.target) :
    ((count (carry w a).regions u.id : Int) + 1) * weightOf s.weight ≤
      ((count (carry w a).regions s.id : Int) - 1) * weightOf u.weight := by
  obtain ⟨p, hp, e⟩ := schedule_inv hok h
  exact hp.helps a t b e s hs u hu es eu

/-- C99.  Each transfer makes the spread smaller. -/
theorem C99_closer {w : World} (hok : Ok w) {rnd : Nat → Nat} {n : Nat} {l : List Task} (h : schedule w rnd n = some l) :
    spread (carry w l) + l.length ≤ spread w := by
  obtain ⟨p, hp, rfl⟩ := schedule_inv hok h
  exact hp.spread

theorem spread_nonneg (w : World) : 0 ≤ spread w := by
  unfold spread
  suffices h : ∀ W : Int, 0 < W → ∀ l : List Store,
      0 ≤ (l.map fun s => (count w.regions s.id : Int) * count w.regions s.id * (W / weightOf s.weight)).sum from
    h _ (weights_pos _) _
  intro W hW l
  induction l with
  | nil => exact Int.le_refl _
  | cons a l ih =>
    rw [List.map_cons, List.sum_cons]
    have h1 : (0 : Int) ≤ (count w.regions a.id : Int) * count w.regions a.id * (W / weightOf a.weight) :=
      Int.mul_nonneg (Int.mul_nonneg (Int.natCast_nonneg _) (Int.natCast_nonneg _))
        (Int.ediv_nonneg (Int.le_of_lt hW) (Int.le_of_lt (weightOf_pos _)))
    omega

/-- C99.  However many passes there are, and whatever changes between them of health, room and jobs,
there are no more transfers than the spread at the start: in the end leaders stay where they are. -/
theorem C99_converges {w w' : World} {l : List Task} (hok : Ok w) (h : Passes w l w') : (l.length : Int) ≤ spread w := by
  suffices hs : spread w' + l.length ≤ spread w by
    have := spread_nonneg w'
    omega
  induction h with
  | nil w => simp
  | @cons w1 w2 w3 rnd n l l' h hr hs h' ih =>
    obtain ⟨p, hp, e⟩ := schedule_inv hok h
    have hok' : Ok w2 := ok_carry hok (fun t ht => hp.good t (e ▸ ht)) hr hs
    have h1 := ih hok'
    have h2 := C99_closer hok h
    have h3 : spread w2 = spread (carry w1 l) := by
      unfold spread
      rw [hr, hs]
      rfl
    rw [List.length_append]
    omega

/-- C99.  If a pass asks for nothing then, of every store that leads a region in order, there is one
such region that has no store to go to: each store in a normal state with a vote and room would be
further up than the leader. -/
theorem C99_idle {w : World} (hok : Ok w) {rnd : Nat → Nat} {n : Nat} (h : schedule w rnd n = some []) {s : Store} (hs : s ∈ w.stores)
    (hn : s.normal = true) {r0 : Reg} (hr0 : r0 ∈ w.regions) (hl0 : r0.leader = s.id) (hh0 : Fit w r0.id) :
    ∃ r ∈ w.regions, r.leader = s.id ∧ Fit w r.id ∧ ∀ p ∈ r.peers, p.voter = true → p.store ≠ s.id →
      ∀ u ∈ w.stores, u.id = p.store → u.normal = true → Room w u.id r.id →
        ((count w.regions s.id : Int) - 1) * weightOf u.weight < ((count w.regions u.id : Int) + 1) * weightOf s.weight := by
  replace hh0 := fit_iff.2 hh0
  have h1 := loop_idle w rnd n _ (fun x hx => absurd hx (Nat.not_lt_zero _)) (schedule_eq hok h)
  have s0 := hok.zero s hs
  have hinv := init_inv hok
  have hlead : r0.id ∈ leadsOf w s.id := hl0 ▸ leads_mem hok hr0 (hl0 ▸ s0)
  have ent : ∀ x ∈ w.stores, x.normal = true → (leadsOf w x.id ≠ [] ∨ followsOf w x.id ≠ []) →
      (⟨x.id, x.weight, leadsOf w x.id, followsOf w x.id, 0⟩ : Entry) ∈ entries w := by
    intro x hx hxn hxr
    exact List.mem_filterMap.2 ⟨x, hx, if_pos ⟨hok.zero x hx, hxn, hxr⟩⟩
  have hes := ent s hs hn (Or.inl (fun e => by rw [e] at hlead; exact absurd hlead (by simp)))
  obtain ⟨k, hk⟩ := h1 _ hes
  unfold outTask at hk
  split at hk
  · next hp =>
    exfalso
    unfold pick at hp
    simp only at hp
    have hm : r0.id ∈ (leadsOf w s.id).filter fun r => !([] : List Nat).contains r && healthy w r :=
      List.mem_filter.2 ⟨hlead, by simp [hh0]⟩
    have hlt : k % ((leadsOf w s.id).filter fun r => !([] : List Nat).contains r && healthy w r).length <
        ((leadsOf w s.id).filter fun r => !([] : List Nat).contains r && healthy w r).length :=
      Nat.mod_lt _ (List.length_pos_of_mem hm)
    rw [List.getElem?_eq_getElem hlt] at hp
    simp only at hp
    have hin := (List.mem_filter.1 (List.getElem_mem hlt)).1
    obtain ⟨r', hr1, hr2, -⟩ := mem_leads hin
    exact List.find?_eq_none.1 hp r' hr1 (by simp [hr2])
  · next r hr =>
    obtain ⟨a1, a2, -, a4⟩ := pick_sound hr
    obtain ⟨r', b1, b2, b3, -⟩ := mem_leads a2
    have := nodup_unique hok.ids b1 a1 b2
    subst this
    refine ⟨r', b1, b3, fit_iff.1 a4, ?_⟩
    intro p hp hv hne u hu hue hun hroom
    replace hroom := room_iff.2 hroom
    have hfollow : r'.id ∈ followsOf w u.id := by
      unfold followsOf
      refine List.mem_flatMap.2 ⟨r', b1, ?_⟩
      rw [if_neg (by rw [b3]; exact s0)]
      refine List.mem_map.2 ⟨p, List.mem_filter.2 ⟨hp, ?_⟩, rfl⟩
      simp only [Bool.and_eq_true, beq_iff_eq, bne_iff_ne, ne_eq]
      exact ⟨hue.symm, b3 ▸ hne⟩
    have heu := ent u hu hun (Or.inr (fun e => by rw [e] at hfollow; exact absurd hfollow (by simp)))
    split at hk
    · next hnil =>
      have hsc : ¬ scoreLe ⟨u.id, u.weight, leadsOf w u.id, followsOf w u.id, 0⟩ 1
          ⟨s.id, s.weight, leadsOf w s.id, followsOf w s.id, 0⟩ (-1) = true := by
        have := List.filter_eq_nil_iff.1 hnil ⟨u.id, u.weight, leadsOf w u.id, followsOf w u.id, 0⟩ (List.mem_filter.2 ⟨?_, hroom⟩)
        · exact this
        · unfold followers
          rw [mem_sort]
          refine List.mem_filterMap.2 ⟨p, List.mem_filter.2 ⟨hp, by simp [hv, hne]⟩, ?_⟩
          rw [← hue]
          exact find_of_mem (entries_ids hok.stores) heu
      unfold scoreLe Entry.num leadsOf at hsc
      simp only [decide_eq_true_eq] at hsc
      rw [leads_count (hok.zero u hu) hok.peers hok.leader, leads_count s0 hok.peers hok.leader] at hsc
      simp only [Int.add_zero] at hsc
      exact Int.lt_of_not_ge hsc
    · exact absurd hk (by simp)

/-- C99, partial: if all regions are in order and have voters with room on all stores, a pass that
asks for nothing means that the leaders are balanced: no store could give up a region to another
and be as far down as it. -/
theorem C99_balanced_partial {w : World} (hok : Ok w) {rnd : Nat → Nat} {n : Nat} (h : schedule w rnd n = some [])
    (hh : ∀ r ∈ w.regions, Fit w r.id)
    (hv : ∀ r ∈ w.regions, ∀ u ∈ w.stores, Room w u.id r.id ∧ ∃ p ∈ r.peers, p.store = u.id ∧ p.voter = true)
    {s u : Store} (hs : s ∈ w.stores) (hu : u ∈ w.stores) (hsn : s.normal = true) (hun : u.normal = true) (hne : s.id ≠ u.id)
    (hpos : 0 < count w.regions s.id) :
    ((count w.regions s.id : Int) - 1) * weightOf u.weight < ((count w.regions u.id : Int) + 1) * weightOf s.weight := by
  unfold count at hpos
  obtain ⟨r0, hr0⟩ := List.exists_mem_of_length_pos hpos
  obtain ⟨hr0, hl⟩ := List.mem_filter.1 hr0
  obtain ⟨r, h1, h2, h3, h4⟩ := C99_idle hok h hs hsn hr0 (by simpa using hl) (hh r0 hr0)
  obtain ⟨h5, p, h6, h7, h8⟩ := hv r h1 u hu
  exact h4 p h6 h8 (fun e => hne (e.symm.trans h7)) u hu h7.symm hun h5

end Verif.Balance
