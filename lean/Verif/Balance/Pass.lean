import Verif.Balance.Inv

/-!
# Balancing leaders: the invariant of a pass
-/

namespace Verif.Balance

/-- A task that may be asked for. -/
structure Good (w : World) (t : Task) : Prop where
  region : ∃ r ∈ w.regions, r.id = t.region ∧ r.leader = t.source ∧ healthy w r.id = true ∧
    ∃ p ∈ r.peers, p.store = t.target ∧ (roomy w t.target r.id = true → p.voter = true)
  ne : t.source ≠ t.target
  source : ∃ s ∈ w.stores, s.id = t.source ∧ s.normal = true
  target : ∃ s ∈ w.stores, s.id = t.target ∧ s.normal = true

structure PInv (w : World) (p : Pass) : Prop where
  base : p.es.map (fun e => { e with delta := 0 }) = entries w
  num : ∀ e ∈ p.es, e.num 0 = count (p.tasks.foldl carryOne w.regions) e.id
  used : ∀ r, r ∈ p.used ↔ r ∈ p.tasks.map Task.region
  nodup : (p.tasks.map Task.region).Nodup
  good : ∀ t ∈ p.tasks, Good w t
  spread : spread (carry w p.tasks) + p.tasks.length ≤ spread w
  helps : ∀ a t b, p.tasks = a ++ t :: b → ∀ s ∈ w.stores, ∀ u ∈ w.stores, s.id = t.source → u.id = t.target →
    ((count (carry w a).regions u.id : Int) + 1) * weightOf s.weight ≤ ((count (carry w a).regions s.id : Int) - 1) * weightOf u.weight

theorem store_unique {l : List Store} (hn : (l.map Store.id).Nodup) {a b : Store} (ha : a ∈ l) (hb : b ∈ l) (h : a.id = b.id) :
    a = b := by
  induction l with
  | nil => exact absurd ha (by simp)
  | cons c l ih =>
    simp only [List.map_cons, List.nodup_cons] at hn
    rcases List.mem_cons.1 ha with e1 | ha <;> rcases List.mem_cons.1 hb with e2 | hb
    · rw [e1, e2]
    · exact absurd (e1 ▸ h ▸ List.mem_map_of_mem hb) hn.1
    · exact absurd (e2 ▸ h ▸ List.mem_map_of_mem ha) hn.1
    · exact ih hn.2 ha hb

theorem nodup_unique {rs : List Reg} (hn : (rs.map Reg.id).Nodup) {a b : Reg} (ha : a ∈ rs) (hb : b ∈ rs) (h : a.id = b.id) :
    a = b := by
  induction rs with
  | nil => exact absurd ha (by simp)
  | cons c l ih =>
    simp only [List.map_cons, List.nodup_cons] at hn
    rcases List.mem_cons.1 ha with e1 | ha <;> rcases List.mem_cons.1 hb with e2 | hb
    · rw [e1, e2]
    · exact absurd (e1 ▸ h ▸ List.mem_map_of_mem hb) hn.1
    · exact absurd (e2 ▸ h ▸ List.mem_map_of_mem ha) hn.1
    · exact ih hn.2 ha hb

theorem PInv.entry {w : World} {p : Pass} (h : PInv w p) {e : Entry} (he : e ∈ p.es) :
    ∃ s ∈ w.stores, s.id ≠ 0 ∧ s.normal = true ∧ e.id = s.id ∧ e.weight = s.weight ∧ e.leads = leadsOf w s.id ∧
      e.follows = followsOf w s.id := by
  have : { e with delta := 0 } ∈ entries w := h.base ▸ List.mem_map_of_mem he
  obtain ⟨s, hs, h0, hn, e'⟩ := mem_entries this
  rw [Entry.mk.injEq] at e'
  exact ⟨s, hs, h0, hn, e'.1, e'.2.1, e'.2.2.1, e'.2.2.2.1⟩

theorem PInv.ids {w : World} (hok : Ok w) {p : Pass} (h : PInv w p) : (p.es.map Entry.id).Nodup := by
  have : p.es.map Entry.id = (entries w).map Entry.id := by
    rw [← h.base, List.map_map]
    rfl
  rw [this]
  exact entries_ids hok.stores

theorem pick_sound {w : World} {used ids : List Nat} {k : Nat} {r : Reg} (h : pick w used ids k = some r) :
    r ∈ w.regions ∧ r.id ∈ ids ∧ r.id ∉ used ∧ healthy w r.id = true := by
  unfold pick at h
  simp only at h
  split at h
  · exact absurd h (by simp)
  · next id hid =>
    have hm := List.mem_of_getElem? hid
    obtain ⟨h1, h2⟩ := List.mem_filter.1 hm
    simp only [Bool.and_eq_true, Bool.not_eq_true', List.contains_eq_mem, decide_eq_false_iff_not] at h2
    have e : r.id = id := by simpa using List.find?_some h
    exact ⟨List.mem_of_find?_eq_some h, e ▸ h1, e ▸ h2.1, e ▸ h2.2⟩

theorem out_sound {w : World} (hok : Ok w) {p : Pass} (hp : PInv w p) {k : Nat} {e : Entry} (he : e ∈ p.es) {t : Task}
    (h : outTask w p.es p.used k e = some t) :
    Good w t ∧ t.region ∉ p.used ∧ ∃ a ∈ p.es, ∃ b ∈ p.es, a.id = t.source ∧ b.id = t.target ∧ scoreLe b 1 a (-1) = true := by
  unfold outTask at h
  split at h
  · exact absurd h (by simp)
  · next r hr =>
    obtain ⟨h1, h2, h3, h4⟩ := pick_sound hr
    split at h
    · exact absurd h (by simp)
    · next f l hf =>
      have ht := Option.some.inj h
      have hf' : f ∈ f :: l := List.mem_cons_self
      rw [← hf] at hf'
      obtain ⟨hf', hs⟩ := List.mem_filter.1 hf'
      obtain ⟨hf', hroom⟩ := List.mem_filter.1 hf'
      unfold followers at hf'
      rw [mem_sort] at hf'
      obtain ⟨q, hq, hq'⟩ := List.mem_filterMap.1 hf'
      obtain ⟨hq, hv⟩ := List.mem_filter.1 hq
      simp only [Bool.and_eq_true, bne_iff_ne, ne_eq] at hv
      obtain ⟨hfe, hfid⟩ := find_mem hq'
      obtain ⟨s, hs1, hs2, hs3, hs4, -, hs6, -⟩ := hp.entry he
      obtain ⟨u, hu1, hu2, hu3, hu4, -, -, -⟩ := hp.entry hfe
      rw [hs6] at h2
      obtain ⟨r', hr1, hr2, hr3, -⟩ := mem_leads h2
      have : r' = r := nodup_unique hok.ids hr1 h1 hr2
      subst this
      subst ht
      refine ⟨⟨⟨r', h1, rfl, hr3.trans hs4.symm, h4, q, hq, hfid.symm, fun _ => hv.1⟩, ?_, ⟨s, hs1, hs4.symm, hs3⟩, ⟨u, hu1, hu4.symm, hu3⟩⟩,
        h3, e, he, f, hfe, rfl, rfl, hs⟩
      intro e'
      exact hv.2 (hfid.symm.trans e'.symm)

theorem in_sound {w : World} (hok : Ok w) {p : Pass} (hp : PInv w p) {k : Nat} {e : Entry} (he : e ∈ p.es) {t : Task}
    (h : inTask w p.es p.used k e = some t) :
    Good w t ∧ t.region ∉ p.used ∧ ∃ a ∈ p.es, ∃ b ∈ p.es, a.id = t.source ∧ b.id = t.target ∧ scoreLe b 1 a (-1) = true := by
  unfold inTask at h
  split at h
  · exact absurd h (by simp)
  · next r hr =>
    obtain ⟨h1, h2, h3, h4⟩ := pick_sound hr
    split at h
    · exact absurd h (by simp)
    · next hroom =>
      split at h
      · exact absurd h (by simp)
      · next l hl =>
        split at h
        · next hsc =>
          have ht := Option.some.inj h
          unfold leaderOf at hl
          have hc : r.id ∈ l.leads := by simpa using List.find?_some hl
          obtain ⟨q, -, hq'⟩ := List.mem_filterMap.1 (List.mem_of_find?_eq_some hl)
          obtain ⟨hle, -⟩ := find_mem hq'
          obtain ⟨s, hs1, hs2, hs3, hs4, -, -, hs7⟩ := hp.entry he
          obtain ⟨u, hu1, hu2, hu3, hu4, -, hu6, -⟩ := hp.entry hle
          rw [hs7] at h2
          rw [hu6] at hc
          obtain ⟨r', hr1, hr2, hr3, hr4, q', hq1, hq2⟩ := mem_follows h2
          have : r' = r := nodup_unique hok.ids hr1 h1 hr2
          subst this
          obtain ⟨r'', hr1', hr2', hr3', -⟩ := mem_leads hc
          have : r'' = r' := nodup_unique hok.ids hr1' h1 hr2'
          subst this
          subst ht
          refine ⟨⟨⟨r'', h1, rfl, hr3'.trans hu4.symm, h4, q', hq1, hq2.trans hs4.symm, fun hh => absurd hh hroom⟩, ?_,
            ⟨u, hu1, hu4.symm, hu3⟩, ⟨s, hs1, hs4.symm, hs3⟩⟩, h3, l, hle, e, he, rfl, rfl, hsc⟩
          intro e'
          exact hr4 (hr3'.trans (hu4.symm.trans (e'.trans hs4)))
        · exact absurd h (by simp)

theorem push_inv {w : World} (hok : Ok w) {p : Pass} (hp : PInv w p) {t : Task} (hg : Good w t) (hu : t.region ∉ p.used)
    (hs : ∃ a ∈ p.es, ∃ b ∈ p.es, a.id = t.source ∧ b.id = t.target ∧ scoreLe b 1 a (-1) = true) : PInv w (p.push t) := by
  obtain ⟨a, ha, b, hb, ha', hb', hsc⟩ := hs
  have hu' : t.region ∉ p.tasks.map Task.region := fun h => hu ((hp.used _).2 h)
  obtain ⟨r, hr, hr1, hr2, -⟩ := hg.region
  have hin : r ∈ p.tasks.foldl carryOne w.regions := carry_keeps _ hr (hr1 ▸ hu')
  have hcnt := count_carry (rs := p.tasks.foldl carryOne w.regions) (t := t) (by rw [carry_ids]; exact hok.ids)
    ⟨r, hin, hr1, hr2⟩ hg.ne
  obtain ⟨s, hs1, hs2, hs3, hs4, hs5, -, -⟩ := hp.entry ha
  obtain ⟨u, hu1, hu2, hu3, hu4, hu5, -, -⟩ := hp.entry hb
  have na := hp.num a ha
  have nb := hp.num b hb
  have hd : s.id ≠ u.id := by
    rw [← hs4, ← hu4, ha', hb']; exact hg.ne
  have hle : ((count (p.tasks.foldl carryOne w.regions) u.id : Int) + 1) * weightOf s.weight ≤
      ((count (p.tasks.foldl carryOne w.regions) s.id : Int) - 1) * weightOf u.weight := by
    unfold scoreLe at hsc
    simp only [decide_eq_true_eq] at hsc
    rw [hs5, hu5] at hsc
    have e1 : b.num 1 = b.num 0 + 1 := by unfold Entry.num; omega
    have e2 : a.num (-1) = a.num 0 - 1 := by unfold Entry.num; omega
    rw [e1, e2, na, nb, hs4, hu4] at hsc
    exact hsc
  refine ⟨?_, ?_, ?_, ?_, ?_, ?_, ?_⟩
  · show (adjust t p.es).map _ = _
    unfold adjust
    rw [List.map_map, ← hp.base]
    rfl
  · intro e he
    obtain ⟨e0, he0, rfl⟩ := List.mem_map.1 he
    show _ = ((count ((p.tasks ++ [t]).foldl carryOne w.regions) e0.id : Nat) : Int)
    rw [List.foldl_append]
    have := hp.num e0 he0
    have h2 := hcnt e0.id
    simp only [List.foldl_cons, List.foldl_nil, h2, ← this]
    unfold Entry.num
    simp only
    omega
  · intro x
    show x ∈ t.region :: p.used ↔ x ∈ (p.tasks ++ [t]).map Task.region
    rw [List.map_append, List.mem_append, List.mem_cons, hp.used]
    simp only [List.map_cons, List.map_nil, List.mem_singleton]
    exact Or.comm
  · show ((p.tasks ++ [t]).map Task.region).Nodup
    rw [List.map_append, List.nodup_append]
    refine ⟨hp.nodup, by simp, ?_⟩
    intro x hx y hy e
    simp only [List.map_cons, List.map_nil, List.mem_singleton] at hy
    exact hu' (hy ▸ e ▸ hx)
  · intro x hx
    rcases List.mem_append.1 hx with h | h
    · exact hp.good x h
    · rw [List.mem_singleton.1 h]; exact hg
  · show spread (carry w (p.tasks ++ [t])) + ((p.tasks ++ [t]).length : Nat) ≤ spread w
    have h1 := hp.spread
    have key := spread_less hok.stores hs1 hu1 hd (f := fun x => (count (p.tasks.foldl carryOne w.regions) x : Int))
      (f' := fun x => (count (carryOne (p.tasks.foldl carryOne w.regions) t) x : Int)) (by
        intro x
        have := hcnt x
        rw [← hs4, ← hu4, ha', hb']
        exact this) hle
    have e3 : spread (carry w (p.tasks ++ [t])) = (w.stores.map fun x =>
        (count (carryOne (p.tasks.foldl carryOne w.regions) t) x.id : Int) *
          (count (carryOne (p.tasks.foldl carryOne w.regions) t) x.id : Int) * (weights w.stores / weightOf x.weight)).sum := by
      unfold spread carry
      simp only [List.foldl_append, List.foldl_cons, List.foldl_nil]
    have e4 : spread (carry w p.tasks) = (w.stores.map fun x =>
        (count (p.tasks.foldl carryOne w.regions) x.id : Int) *
          (count (p.tasks.foldl carryOne w.regions) x.id : Int) * (weights w.stores / weightOf x.weight)).sum := rfl
    rw [e4] at h1
    rw [e3, List.length_append]
    simp only [List.length_cons, List.length_nil] at *
    omega
  · intro c t' d he x hx y hy ex ey
    have he : p.tasks ++ [t] = c ++ t' :: d := he
    rcases List.append_eq_append_iff.1 he with ⟨m, e1, e2⟩ | ⟨m, e1, e2⟩
    · cases m with
      | nil =>
        rw [List.nil_append] at e2
        have e3 := (List.cons.inj e2).1
        subst e3
        rw [List.append_nil] at e1
        subst e1
        rw [store_unique hok.stores hx hs1 (ex.trans (ha'.symm.trans hs4)), store_unique hok.stores hy hu1 (ey.trans (hb'.symm.trans hu4))]
        exact hle
      | cons z m => simp at e2
    · cases m with
      | nil =>
        rw [List.nil_append] at e2
        have e3 := (List.cons.inj e2).1
        subst e3
        rw [List.append_nil] at e1
        subst e1
        rw [store_unique hok.stores hx hs1 (ex.trans (ha'.symm.trans hs4)), store_unique hok.stores hy hu1 (ey.trans (hb'.symm.trans hu4))]
        exact hle
      | cons z m =>
        rw [List.cons_append, List.cons.injEq] at e2
        rw [← e2.1] at e1
        exact hp.helps c t' m e1 x hx y hy ex ey

theorem outHalf_inv {w : World} (hok : Ok w) {p : Pass} (hp : PInv w p) (k : Nat) : PInv w (outHalf w k p).1 := by
  unfold outHalf
  split
  · exact hp
  · next e he =>
    have he := mem_sort.1 (List.mem_of_getElem? he)
    split
    · next t ht =>
      obtain ⟨h1, h2, h3⟩ := out_sound hok hp he ht
      exact push_inv hok hp h1 h2 h3
    · exact ⟨hp.base, hp.num, hp.used, hp.nodup, hp.good, hp.spread, hp.helps⟩

theorem inHalf_inv {w : World} (hok : Ok w) {p : Pass} (hp : PInv w p) (k : Nat) : PInv w (inHalf w k p).1 := by
  unfold inHalf
  split
  · exact hp
  · next e he =>
    have he := mem_sort.1 (List.mem_of_getElem? he)
    split
    · next t ht =>
      obtain ⟨h1, h2, h3⟩ := in_sound hok hp he ht
      exact push_inv hok hp h1 h2 h3
    · exact ⟨hp.base, hp.num, hp.used, hp.nodup, hp.good, hp.spread, hp.helps⟩

theorem loop_inv {w : World} (hok : Ok w) (rnd : Nat → Nat) (n : Nat) {p : Pass} (hp : PInv w p) {l : List Task}
    (h : loop w rnd n p = some l) : ∃ p', PInv w p' ∧ p'.tasks = l := by
  induction n generalizing p with
  | zero => exact absurd h (by simp [loop])
  | succ n ih =>
    simp only [loop] at h
    have h1 := outHalf_inv hok hp (rnd (2 * n))
    have h2 := inHalf_inv hok h1 (rnd (2 * n + 1))
    split at h
    · split at h
      · exact ⟨_, h1, Option.some.inj h⟩
      · split at h
        · exact ⟨_, h2, Option.some.inj h⟩
        · exact ih h2 h
    · exact ⟨p, hp, Option.some.inj h⟩

theorem init_inv {w : World} (hok : Ok w) : PInv w ⟨entries w, 0, 0, [], []⟩ := by
  refine ⟨?_, ?_, ?_, List.nodup_nil, by simp, ?_, fun a t b h => absurd h (by simp)⟩
  · have : ∀ e ∈ entries w, ({ e with delta := 0 } : Entry) = e := by
      intro e he
      obtain ⟨s, -, -, -, rfl⟩ := mem_entries he
      rfl
    exact (List.map_congr_left this).trans (List.map_id _)
  · intro e he
    obtain ⟨s, hs, h0, -, rfl⟩ := mem_entries he
    unfold Entry.num
    show ((leadsOf w s.id).length : Int) + 0 + 0 = count w.regions s.id
    unfold leadsOf
    rw [leads_count h0 hok.peers hok.leader]
    omega
  · intro r
    simp
  · show spread (carry w []) + (0 : Nat) ≤ spread w
    have : spread (carry w []) = spread w := rfl
    omega

/-! ### The filter at the end keeps everything -/

theorem schedule_eq {w : World} (hok : Ok w) {rnd : Nat → Nat} {n : Nat} {l : List Task} (h : schedule w rnd n = some l) :
    loop w rnd n ⟨entries w, 0, 0, [], []⟩ = some l := by
  unfold schedule at h
  cases h1 : loop w rnd n ⟨entries w, 0, 0, [], []⟩ with
  | none => rw [h1] at h; exact absurd h (by simp)
  | some l' =>
    rw [h1] at h
    obtain ⟨p, hp, rfl⟩ := loop_inv hok rnd n (init_inv hok) h1
    have : filterTask w p.tasks = p.tasks := by
      unfold filterTask
      rw [List.filter_eq_self]
      intro t ht
      obtain ⟨r, -, e, -, hh, -⟩ := (hp.good t ht).region
      exact e ▸ hh
    rw [Option.map_some, this] at h
    exact h

theorem schedule_inv {w : World} (hok : Ok w) {rnd : Nat → Nat} {n : Nat} {l : List Task} (h : schedule w rnd n = some l) :
    ∃ p, PInv w p ∧ p.tasks = l := loop_inv hok rnd n (init_inv hok) (schedule_eq hok h)

/-! ### How many rounds and tasks -/

theorem outHalf_len (w : World) (k : Nat) (p : Pass) :
    (outHalf w k p).1.es.length = p.es.length ∧ (outHalf w k p).1.j = p.j ∧
    ((outHalf w k p).2 = false →
      ((outHalf w k p).1.i = p.i + 1 ∧ (outHalf w k p).1.tasks = p.tasks ∧ p.i < p.es.length) ∨
      ((outHalf w k p).1.i = p.i ∧ (outHalf w k p).1.tasks.length = p.tasks.length + 1 ∧ p.tasks.length + 1 < w.batch) ∨
      ((outHalf w k p).1 = p ∧ p.es.length ≤ p.i)) := by
  unfold outHalf
  split
  · next h =>
    refine ⟨rfl, rfl, fun _ => Or.inr (Or.inr ⟨rfl, ?_⟩)⟩
    rw [List.getElem?_eq_none_iff, length_sort] at h
    exact h
  · next e he =>
    have hlt : p.i < p.es.length := by
      have := (List.getElem?_eq_some_iff.1 he).1
      rwa [length_sort] at this
    split
    · refine ⟨?_, rfl, fun h => Or.inr (Or.inl ⟨rfl, ?_, ?_⟩)⟩
      · simp [Pass.push, adjust]
      · simp [Pass.push]
      · simpa using h
    · exact ⟨rfl, rfl, fun _ => Or.inl ⟨rfl, rfl, hlt⟩⟩

theorem inHalf_len (w : World) (k : Nat) (p : Pass) :
    (inHalf w k p).1.es.length = p.es.length ∧ (inHalf w k p).1.i = p.i ∧
    ((inHalf w k p).2 = false →
      ((inHalf w k p).1.j = p.j + 1 ∧ (inHalf w k p).1.tasks = p.tasks ∧ p.j < p.es.length) ∨
      ((inHalf w k p).1.j = p.j ∧ (inHalf w k p).1.tasks.length = p.tasks.length + 1 ∧ p.tasks.length + 1 < w.batch) ∨
      ((inHalf w k p).1 = p ∧ p.es.length ≤ p.j)) := by
  unfold inHalf
  split
  · next h =>
    refine ⟨rfl, rfl, fun _ => Or.inr (Or.inr ⟨rfl, ?_⟩)⟩
    rw [List.getElem?_eq_none_iff, length_sort] at h
    exact h
  · next e he =>
    have hlt : p.j < p.es.length := by
      have := (List.getElem?_eq_some_iff.1 he).1
      rwa [length_sort] at this
    split
    · refine ⟨?_, rfl, fun h => Or.inr (Or.inl ⟨rfl, ?_, ?_⟩)⟩
      · simp [Pass.push, adjust]
      · simp [Pass.push]
      · simpa using h
    · exact ⟨rfl, rfl, fun _ => Or.inl ⟨rfl, rfl, hlt⟩⟩

theorem loop_ends (w : World) (rnd : Nat → Nat) (n : Nat) (p : Pass)
    (h : (p.es.length - p.i) + (p.es.length - p.j) + (w.batch - p.tasks.length) < n) : (loop w rnd n p).isSome = true := by
  induction n generalizing p with
  | zero => omega
  | succ n ih =>
    simp only [loop]
    split
    · next hc =>
      obtain ⟨a1, a2, a3⟩ := outHalf_len w (rnd (2 * n)) p
      generalize outHalf w (rnd (2 * n)) p = a at a1 a2 a3 ⊢
      split
      · rfl
      · next ha =>
        obtain ⟨b1, b2, b3⟩ := inHalf_len w (rnd (2 * n + 1)) a.1
        generalize inHalf w (rnd (2 * n + 1)) a.1 = b at b1 b2 b3 ⊢
        split
        · rfl
        · next hb =>
          apply ih
          have a4 := a3 (by simpa using ha)
          have b4 := b3 (by simpa using hb)
          rw [b1, a1]
          have a5 : a.1.i = p.i + 1 ∧ a.1.tasks.length = p.tasks.length ∧ p.i < p.es.length ∨
              a.1.i = p.i ∧ a.1.tasks.length = p.tasks.length + 1 ∧ p.tasks.length + 1 < w.batch ∨
              a.1.i = p.i ∧ a.1.tasks.length = p.tasks.length ∧ p.es.length ≤ p.i := by
            rcases a4 with ⟨c1, c2, c3⟩ | c | ⟨c1, c3⟩
            · exact Or.inl ⟨c1, by rw [c2], c3⟩
            · exact Or.inr (Or.inl c)
            · rw [c1]; exact Or.inr (Or.inr ⟨rfl, rfl, c3⟩)
          have b5 : b.1.j = p.j + 1 ∧ b.1.tasks.length = a.1.tasks.length ∧ p.j < p.es.length ∨
              b.1.j = p.j ∧ b.1.tasks.length = a.1.tasks.length + 1 ∧ a.1.tasks.length + 1 < w.batch ∨
              b.1.j = p.j ∧ b.1.tasks.length = a.1.tasks.length ∧ p.es.length ≤ p.j := by
            rcases b4 with ⟨c1, c2, c3⟩ | ⟨c1, c2⟩ | ⟨c1, c3⟩
            · exact Or.inl ⟨by rw [c1, a2], by rw [c2], by rw [← a1, ← a2]; exact c3⟩
            · exact Or.inr (Or.inl ⟨by rw [c1, a2], c2⟩)
            · rw [c1]; exact Or.inr (Or.inr ⟨a2, rfl, by rw [← a1, ← a2]; exact c3⟩)
          omega
    · rfl

theorem loop_batch (w : World) (rnd : Nat → Nat) (n : Nat) (p : Pass) (hp : p.tasks.length < max 1 w.batch) {l : List Task}
    (h : loop w rnd n p = some l) : l.length ≤ max 1 w.batch := by
  have ho : ∀ k q, q.tasks.length < max 1 w.batch → (outHalf w k q).1.tasks.length ≤ max 1 w.batch := by
    intro k q hq
    unfold outHalf
    split
    · exact Nat.le_of_lt hq
    · split
      · simp only [Pass.push, List.length_append, List.length_cons, List.length_nil]; omega
      · simp only; omega
  have hi : ∀ k q, q.tasks.length < max 1 w.batch → (inHalf w k q).1.tasks.length ≤ max 1 w.batch := by
    intro k q hq
    unfold inHalf
    split
    · exact Nat.le_of_lt hq
    · split
      · simp only [Pass.push, List.length_append, List.length_cons, List.length_nil]; omega
      · simp only; omega
  induction n generalizing p with
  | zero => exact absurd h (by simp [loop])
  | succ n ih =>
    simp only [loop] at h
    have h1 := ho (rnd (2 * n)) p hp
    obtain ⟨-, -, a3⟩ := outHalf_len w (rnd (2 * n)) p
    generalize outHalf w (rnd (2 * n)) p = a at *
    split at h
    · split at h
      · rw [← Option.some.inj h]; exact h1
      · next ha =>
        have ha' : a.1.tasks.length < max 1 w.batch := by
          rcases a3 (by simpa using ha) with ⟨-, c, -⟩ | ⟨-, c, d⟩ | ⟨c, -⟩
          · rw [c]; exact hp
          · omega
          · rw [c]; exact hp
        have h2 := hi (rnd (2 * n + 1)) a.1 ha'
        obtain ⟨-, -, b3⟩ := inHalf_len w (rnd (2 * n + 1)) a.1
        generalize inHalf w (rnd (2 * n + 1)) a.1 = b at *
        split at h
        · rw [← Option.some.inj h]; exact h2
        · next hb =>
          refine ih b.1 ?_ h
          rcases b3 (by simpa using hb) with ⟨-, c, -⟩ | ⟨-, c, d⟩ | ⟨c, -⟩
          · rw [c]; exact ha'
          · omega
          · rw [c]; exact ha'
    · rw [← Option.some.inj h]; omega

/-! ### A pass that asks for nothing -/

theorem outHalf_grows (w : World) (k : Nat) (p : Pass) : ∃ m, (outHalf w k p).1.tasks = p.tasks ++ m := by
  unfold outHalf
  split
  · exact ⟨[], by simp⟩
  · split
    · exact ⟨_, rfl⟩
    · exact ⟨[], by simp⟩

theorem inHalf_grows (w : World) (k : Nat) (p : Pass) : ∃ m, (inHalf w k p).1.tasks = p.tasks ++ m := by
  unfold inHalf
  split
  · exact ⟨[], by simp⟩
  · split
    · exact ⟨_, rfl⟩
    · exact ⟨[], by simp⟩

theorem loop_grows (w : World) (rnd : Nat → Nat) (n : Nat) (p : Pass) {l : List Task} (h : loop w rnd n p = some l) :
    ∃ m, l = p.tasks ++ m := by
  induction n generalizing p with
  | zero => exact absurd h (by simp [loop])
  | succ n ih =>
    simp only [loop] at h
    obtain ⟨m1, e1⟩ := outHalf_grows w (rnd (2 * n)) p
    obtain ⟨m2, e2⟩ := inHalf_grows w (rnd (2 * n + 1)) (outHalf w (rnd (2 * n)) p).1
    split at h
    · split at h
      · exact ⟨m1, by rw [← Option.some.inj h, e1]⟩
      · split at h
        · exact ⟨m1 ++ m2, by rw [← Option.some.inj h, e2, e1, List.append_assoc]⟩
        · obtain ⟨m3, e3⟩ := ih _ h
          exact ⟨m1 ++ m2 ++ m3, by rw [e3, e2, e1]; simp only [List.append_assoc]⟩
    · exact ⟨[], by rw [← Option.some.inj h]; simp⟩

theorem outHalf_idle {w : World} {k : Nat} {p : Pass} (h : (outHalf w k p).1.tasks = [])
    (hi : ∀ x < p.i, ∀ e, (sort false p.es)[x]? = some e → ∃ k, outTask w p.es p.used k e = none) :
    (outHalf w k p).2 = false ∧ (outHalf w k p).1.es = p.es ∧ (outHalf w k p).1.used = p.used ∧
    ∀ x < (outHalf w k p).1.i, ∀ e, (sort false p.es)[x]? = some e → ∃ k, outTask w p.es p.used k e = none := by
  unfold outHalf at h ⊢
  split at h
  · exact ⟨rfl, rfl, rfl, hi⟩
  · next e he =>
    split at h
    · exact absurd h (by simp [Pass.push])
    · next h2 =>
      refine ⟨rfl, rfl, rfl, ?_⟩
      intro x hx e' he'
      rcases Nat.lt_succ_iff_lt_or_eq.1 hx with hx | hx
      · exact hi x hx e' he'
      · subst hx
        have := Option.some.inj (he.symm.trans he')
        exact ⟨_, this ▸ h2⟩

theorem inHalf_idle {w : World} {k : Nat} {p : Pass} (h : (inHalf w k p).1.tasks = []) :
    (inHalf w k p).2 = false ∧ (inHalf w k p).1.es = p.es ∧ (inHalf w k p).1.used = p.used ∧ (inHalf w k p).1.i = p.i := by
  unfold inHalf at h ⊢
  split at h
  · exact ⟨rfl, rfl, rfl, rfl⟩
  · split at h
    · exact absurd h (by simp [Pass.push])
    · exact ⟨rfl, rfl, rfl, rfl⟩

/-- Nothing asked for: every store was looked at as a source. -/
theorem loop_idle (w : World) (rnd : Nat → Nat) (n : Nat) (p : Pass)
    (hi : ∀ x < p.i, ∀ e, (sort false p.es)[x]? = some e → ∃ k, outTask w p.es p.used k e = none)
    (h : loop w rnd n p = some []) : ∀ e ∈ p.es, ∃ k, outTask w p.es p.used k e = none := by
  induction n generalizing p with
  | zero => exact absurd h (by simp [loop])
  | succ n ih =>
    simp only [loop] at h
    split at h
    · have ha : (outHalf w (rnd (2 * n)) p).1.tasks = [] := by
        split at h
        · exact Option.some.inj h
        · obtain ⟨m, e⟩ := inHalf_grows w (rnd (2 * n + 1)) (outHalf w (rnd (2 * n)) p).1
          split at h
          · rw [Option.some.inj h] at e
            exact (List.append_eq_nil_iff.1 e.symm).1
          · obtain ⟨m', e'⟩ := loop_grows _ _ _ _ h
            rw [(List.append_eq_nil_iff.1 e'.symm).1] at e
            exact (List.append_eq_nil_iff.1 e.symm).1
      obtain ⟨a0, a1, a2, a3⟩ := outHalf_idle ha hi
      generalize outHalf w (rnd (2 * n)) p = a at *
      rw [if_neg (by simp [a0])] at h
      have hb : (inHalf w (rnd (2 * n + 1)) a.1).1.tasks = [] := by
        split at h
        · exact Option.some.inj h
        · obtain ⟨m', e'⟩ := loop_grows _ _ _ _ h
          exact (List.append_eq_nil_iff.1 e'.symm).1
      obtain ⟨b0, b1, b2, b3⟩ := inHalf_idle hb
      generalize inHalf w (rnd (2 * n + 1)) a.1 = b at *
      rw [if_neg (by simp [b0])] at h
      have := ih b.1 (by rw [b1, b2, b3, a1, a2]; exact a3) h
      rw [b1, b2, a1, a2] at this
      exact this
    · next hc =>
      intro e he
      obtain ⟨x, hx⟩ := List.getElem?_of_mem ((mem_sort (asc := false)).2 he)
      have hl : x < p.es.length := by
        have := (List.getElem?_eq_some_iff.1 hx).1
        rwa [length_sort] at this
      exact hi x (by omega) e hx

end Verif.Balance
