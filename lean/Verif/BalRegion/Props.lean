import Verif.BalRegion.Inv

/-!
# Balancing regions: theorems (C100)
-/

namespace Verif.BalRegion

theorem fuller_of {w : World} {a b : Entry} (ka : a.known = true) (kb : b.known = true) (h : scoreLe w a b = false) :
    Fuller w 0 a.load b.load := by
  have h' : ¬ scoreLe w a b = true := by simp [h]
  rw [scoreLe_iff ka kb, num_used, num_used] at h'
  unfold Fuller
  omega

theorem not_fuller_of {w : World} {a b : Entry} (h : scoreLe w a b = true) : ¬ Fuller w 0 a.load b.load := by
  obtain ⟨ka, kb⟩ := known_of_le h
  rw [scoreLe_iff ka kb, num_used, num_used] at h
  unfold Fuller
  omega

theorem fuller_limit {w : World} {a b : Entry} (ka : a.known = true) (kb : b.known = true) (h : scoreNear w limit a b = false) :
    Fuller w limit a.load b.load := by
  unfold scoreNear at h
  simp only [ka, kb, Bool.true_and, num_used] at h
  exact Int.lt_of_not_ge (of_decide_eq_false h)

theorem near_of {w : World} {a b : Entry} (ka : a.known = true) (kb : b.known = true) (h : ¬ Fuller w limit a.load b.load) :
    scoreNear w limit a b = true := by
  unfold scoreNear
  simp only [ka, kb, Bool.true_and, num_used]
  exact decide_eq_true (Int.not_lt.1 h)

/-- C100.  If all stores have reported their capacity a pass does not bring the coordinator down. -/
theorem C100_no_crash {w : World} (h : Known w) : schedule w ≠ .crash := by
  have hk := entries_known h
  unfold schedule
  refine walk_ne_crash w _ _ fun t ht a s e => ?_
  have hs : (sort w false (entries w)).Pairwise (rel w false) := sorted_sort hk
  have hm : t ∈ sort w false (entries w) := mem_sort.2 (mem_sort.1 ht)
  rw [e] at hs hm
  rcases List.mem_append.1 hm with hm | hm
  · have := (List.pairwise_append.1 hs).2.2 t hm s (by simp)
    unfold rel at this
    simpa using this
  · rw [List.mem_singleton.1 hm]
    have ks : s.known = true := by
      have : s ∈ sort w false (entries w) := by rw [e]; simp
      exact hk s (mem_sort.1 this)
    rw [scoreLe_iff ks ks]
    exact Int.le_refl _

theorem reg_unique {rs : List Reg} (hn : (rs.map Reg.id).Nodup) {a b : Reg} (ha : a ∈ rs) (hb : b ∈ rs) (h : a.id = b.id) : a = b := by
  have h1 := find_reg hn ha
  have h2 := find_reg hn hb
  rw [h] at h1
  exact Option.some.inj (h1.symm.trans h2)

/-- C100.  What is asked for: a replica that is not the leader, on a store in a normal state, is moved
to another such store that has reported no replica of the region and more room than the region takes;
the new replicas are the old ones, with the target for the source.  Of the replicas the source could
give to the target it is one of the largest. -/
theorem C100_task {w : World} (hn : (w.regions.map Reg.id).Nodup) {k : Task} (h : schedule w = .task k) :
    ∃ s ms t mt r sz, Live w s ms ∧ Live w t mt ∧ Follows w r s ∧ Fits mt r sz ∧ k.region = r.id ∧ k.source = s.id ∧
      k.target = t.id ∧ (k.stores = t.id :: r.peers.filter fun p => p != s.id) ∧
      ∀ r' sz', Follows w r' s → Fits mt r' sz' → sz' ≤ sz := by
  obtain ⟨-, -, t, ht, s, hs, -, hg, -⟩ := walk_task w _ _ h
  obtain ⟨s', ms, l1, rfl⟩ := mem_entries.1 (mem_sort.1 hs)
  obtain ⟨t', mt, l2, rfl⟩ := mem_entries.1 (mem_sort.1 ht)
  obtain ⟨-, r, hr, ⟨sz, hsz, hf⟩, rfl, hmax⟩ := gen_sound hg
  obtain ⟨h1, h2, -⟩ := mem_regsOf hr
  obtain ⟨r', a1, a2, a3, a4, a5⟩ := mem_follows h2
  have e := reg_unique hn a1 h1 a2
  subst e
  refine ⟨s', ms, t', mt, r', sz, l1, l2, ⟨a1, a3, a4, a5⟩, hf, rfl, rfl, rfl, rfl, ?_⟩
  intro r2 sz2 hfo hfi
  have := hmax r2 (regsOf_mem hn hfo.1 (follows_mem hfo.1 hfo.2.1 hfo.2.2.1 hfo.2.2.2) hfi.1) sz2 hfi
  rwa [hsz] at this

/-- C100, partial: with all capacities known, the source is fuller than the target, and some store, no
less full than the source, is fuller than the target by more than the limit.  That the source is so
itself is not so, see `C100_limit_false`. -/
theorem C100_limit_partial {w : World} (hk : Known w) {k : Task} (h : schedule w = .task k) :
    ∃ s ms t mt s0 m0, Live w s ms ∧ Live w t mt ∧ Live w s0 m0 ∧ k.source = s.id ∧ k.target = t.id ∧ Fuller w 0 ms mt ∧
      Fuller w 150 m0 mt ∧ ¬ Fuller w 0 ms m0 := by
  have ke := entries_known hk
  obtain ⟨s0, hs0, t, ht, s, hs, hord, hg, hle, hnear⟩ := walk_task w _ _ h
  have k0 := ke s0 (mem_sort.1 hs0)
  have kt := ke t (mem_sort.1 ht)
  have ks := ke s (mem_sort.1 hs)
  have horder : scoreLe w s s0 = true := by
    rcases hord with e | ⟨a, b, c, e⟩
    · rw [e, scoreLe_iff k0 k0]; exact Int.le_refl _
    · have hp : (sort w false (entries w)).Pairwise (rel w false) := sorted_sort ke
      rw [e] at hp
      have := (List.pairwise_cons.1 (List.pairwise_append.1 hp).2.1).1 s (by simp)
      unfold rel at this
      simpa using this
  have f2 := fuller_limit k0 kt hnear
  have f3 := not_fuller_of horder
  obtain ⟨hlt, r, -, -, hk', -⟩ := gen_sound hg
  have f1 := fuller_of ks kt hlt
  obtain ⟨s', ms, l1, rfl⟩ := mem_entries.1 (mem_sort.1 hs)
  obtain ⟨t', mt, l2, rfl⟩ := mem_entries.1 (mem_sort.1 ht)
  obtain ⟨s0', m0, l3, rfl⟩ := mem_entries.1 (mem_sort.1 hs0)
  exact ⟨s', ms, t', mt, s0', m0, l1, l2, l3, by rw [hk']; rfl, by rw [hk']; rfl, f1, f2, f3⟩

/-- C100.  If no store is fuller than another by more than the limit nothing is moved. -/
theorem C100_close {w : World} (hk : Known w) (h : ∀ s ms t mt, Live w s ms → Live w t mt → ¬ Fuller w 150 ms mt) :
    schedule w = .idle := by
  cases hs : schedule w with
  | idle => rfl
  | crash => exact absurd hs (C100_no_crash hk)
  | task k =>
    obtain ⟨s, ms, t, mt, s0, m0, -, l2, l3, -, -, -, f, -⟩ := C100_limit_partial hk hs
    exact absurd f (h s0 m0 t mt l3 l2)

/-- C100.  If one store is the fullest and another the emptiest, they are apart by more than the limit,
and the first has a replica that fits the second, a replica is moved from the one to the other. -/
theorem C100_moves {w : World} (hn : (w.regions.map Reg.id).Nodup) (hk : Known w) {s t : Node} {ms mt : Load} (hs : Live w s ms)
    (ht : Live w t mt) (hmax : ∀ x m, Live w x m → x = s ∨ Fuller w 0 ms m) (hmin : ∀ x m, Live w x m → x = t ∨ Fuller w 0 m mt)
    (hf : Fuller w 150 ms mt) {r : Reg} {sz : Nat} (hfo : Follows w r s) (hfi : Fits mt r sz) :
    ∃ k, schedule w = .task k ∧ k.source = s.id ∧ k.target = t.id := by
  have ke := entries_known hk
  have es : (⟨s.id, ms, followsOf w s.id⟩ : Entry) ∈ entries w := mem_entries.2 ⟨s, ms, hs, rfl⟩
  have et : (⟨t.id, mt, followsOf w t.id⟩ : Entry) ∈ entries w := mem_entries.2 ⟨t, mt, ht, rfl⟩
  have ks := ke _ es
  have kt := ke _ et
  have head : ∀ asc e l, sort w asc (entries w) = e :: l → ∀ x ∈ entries w, rel w asc e x := by
    intro asc e l he x hx
    have hp : (sort w asc (entries w)).Pairwise (rel w asc) := sorted_sort ke
    have hx : x ∈ sort w asc (entries w) := mem_sort.2 hx
    have kx := ke e (mem_sort.1 (he ▸ List.mem_cons_self : e ∈ sort w asc (entries w)))
    rw [he] at hp hx
    rcases List.mem_cons.1 hx with e' | hx
    · rw [e']
      unfold rel
      have := (scoreLe_iff kx kx (w := w)).2 (Int.le_refl _)
      split <;> exact this
    · exact (List.pairwise_cons.1 hp).1 x hx
  have hsrc : ∃ l, sort w false (entries w) = ⟨s.id, ms, followsOf w s.id⟩ :: l := by
    cases hl : sort w false (entries w) with
    | nil => exact absurd (mem_sort.2 es : _ ∈ sort w false (entries w)) (by rw [hl]; simp)
    | cons e l =>
      have h1 := head false e l hl _ es
      unfold rel at h1
      have h1 := not_fuller_of (by simpa using h1)
      obtain ⟨x, m, hx, rfl⟩ := mem_entries.1 (mem_sort.1 (hl ▸ List.mem_cons_self : e ∈ sort w false (entries w)))
      rcases hmax x m hx with e | e
      · subst e
        have : m = ms := Option.some.inj (hx.2.2.2.symm.trans hs.2.2.2)
        exact ⟨l, by rw [this]⟩
      · exact absurd e h1
  have hdst : ∃ l, sort w true (entries w) = ⟨t.id, mt, followsOf w t.id⟩ :: l := by
    cases hl : sort w true (entries w) with
    | nil => exact absurd (mem_sort.2 et : _ ∈ sort w true (entries w)) (by rw [hl]; simp)
    | cons e l =>
      have h1 := head true e l hl _ et
      unfold rel at h1
      have h1 := not_fuller_of (by simpa using h1)
      obtain ⟨x, m, hx, rfl⟩ := mem_entries.1 (mem_sort.1 (hl ▸ List.mem_cons_self : e ∈ sort w true (entries w)))
      rcases hmin x m hx with e | e
      · subst e
        have : m = mt := Option.some.inj (hx.2.2.2.symm.trans ht.2.2.2)
        exact ⟨l, by rw [this]⟩
      · exact absurd e h1
  obtain ⟨l1, e1⟩ := hsrc
  obtain ⟨l2, e2⟩ := hdst
  have hle : scoreLe w ⟨s.id, ms, followsOf w s.id⟩ ⟨t.id, mt, followsOf w t.id⟩ = false := by
    cases hc : scoreLe w ⟨s.id, ms, followsOf w s.id⟩ ⟨t.id, mt, followsOf w t.id⟩ with
    | false => rfl
    | true =>
      exfalso
      refine not_fuller_of hc ?_
      unfold Fuller at hf ⊢
      have p1 := total_pos ks
      have p2 := total_pos kt
      have := Int.mul_pos p1 p2
      simp only at this
      simp only [Int.zero_mul]
      have h5 : (0 : Int) < 150 * (↑ms.total * ↑mt.total) := by omega
      omega
  have hnear : scoreNear w limit ⟨s.id, ms, followsOf w s.id⟩ ⟨t.id, mt, followsOf w t.id⟩ = false := by
    unfold scoreNear
    simp only [ks, kt, Bool.true_and, num_used]
    exact decide_eq_false (Int.not_le.2 hf)
  obtain ⟨k, hg⟩ := gen_some hle
    (regsOf_mem hn hfo.1 (follows_mem hfo.1 hfo.2.1 hfo.2.2.1 hfo.2.2.2) hfi.1 : r ∈ regsOf w (followsOf w s.id)) hfi
  refine ⟨k, ?_, ?_⟩
  · unfold schedule
    rw [e1, e2, walk_cons, hle, hnear, hg]
    rfl
  · obtain ⟨-, r', -, -, hk', -⟩ := gen_sound hg
    rw [hk']
    exact ⟨rfl, rfl⟩

/-- C100, partial: if the target has no replica, the job is made exactly if the region is in order and
has no other job; then the region has as many replicas as before, no two on a store, those before
with the target for the source.  Without that assumption it is not so, see `C100_twice_false`. -/
theorem C100_replicas_partial {w : World} (hn : (w.regions.map Reg.id).Nodup) {k : Task} (h : schedule w = .task k) {r : Reg}
    (hr : r ∈ w.regions) (hi : r.id = k.region) (hp : r.peers.Nodup) (ht : k.target ∉ r.peers) :
    (change w k = none ↔ r.busy = true ∨ r.fit = false) ∧
    ∀ ps, change w k = some ps → ps.length = r.peers.length ∧ ps.Nodup ∧
      ∀ p, p ∈ ps ↔ p = k.target ∨ p ∈ r.peers ∧ p ≠ k.source := by
  obtain ⟨s, ms, t, mt, r', sz, -, -, hfo, -, e1, e2, e3, e4, -⟩ := C100_task hn h
  have e := reg_unique hn hfo.1 hr (e1.symm.trans hi.symm)
  subst e
  rw [e3] at ht
  have hsp := hfo.2.2.2
  have hne : r'.peers ≠ [] := fun e => by rw [e] at hsp; exact absurd hsp (by simp)
  have hnd : (t.id :: r'.peers.filter fun p => p != s.id).Nodup :=
    List.nodup_cons.2 ⟨fun hm => ht (List.mem_filter.1 hm).1, hp.filter _⟩
  have hts : t.id ≠ s.id := fun e => ht (e ▸ hsp)
  have d1 : diff (t.id :: r'.peers.filter fun p => p != s.id) r'.peers = [t.id] := by
    rw [diff_filter hnd, List.filter_cons_of_pos (by simpa using ht)]
    congr 1
    rw [List.filter_eq_nil_iff]
    intro x hx
    simp [(List.mem_filter.1 hx).1]
  have d2 : diff r'.peers (t.id :: r'.peers.filter fun p => p != s.id) = [s.id] := by
    rw [diff_filter hp]
    have : (r'.peers.filter fun x => !(t.id :: r'.peers.filter fun p => p != s.id).contains x) = r'.peers.filter fun x => x == s.id := by
      refine List.filter_congr fun x hx => ?_
      by_cases hxs : x = s.id
      · rw [hxs]
        have : (t.id :: r'.peers.filter fun p => p != s.id).contains s.id = false := by
          simp only [List.contains_eq_mem, decide_eq_false_iff_not, List.mem_cons, not_or]
          exact ⟨fun e => hts e.symm, fun hm => by simpa using (List.mem_filter.1 hm).2⟩
        rw [this]
        simp
      · have h1 : (t.id :: r'.peers.filter fun p => p != s.id).contains x = true := by
          simp only [List.contains_eq_mem, decide_eq_true_eq, List.mem_cons]
          exact Or.inr (List.mem_filter.2 ⟨hx, by simpa using hxs⟩)
        rw [h1]
        simp [hxs]
    rw [this]
    clear this d1 hnd ht
    clear hn h hr hi e1 hfo hne
    generalize r'.peers = l at hp hsp
    induction l with
    | nil => exact absurd hsp (by simp)
    | cons a l ih =>
      rw [List.nodup_cons] at hp
      by_cases ha : a = s.id
      · rw [List.filter_cons_of_pos (by simpa using ha), ha]
        congr 1
        rw [List.filter_eq_nil_iff]
        intro x hx e
        simp only [beq_iff_eq] at e
        exact hp.1 (ha ▸ e ▸ hx)
      · rw [List.filter_cons_of_neg (by simpa using ha)]
        refine ih hp.2 ?_
        rcases List.mem_cons.1 hsp with e | hs
        · exact absurd e.symm ha
        · exact hs
  have hc : change w k = if r'.busy || !r'.fit then none else some (t.id :: r'.peers.filter fun p => p != s.id) := by
    unfold change
    rw [e1, find_reg hn hfo.1]
    simp only
    rw [e4, d1, d2]
    have hle : (r'.leader == s.id) = false := by simpa using hfo.2.2.1
    have hem : r'.peers.isEmpty = false := by simpa using hne
    simp only [hem, hle, Bool.or_false, Bool.false_and, Bool.false_eq_true, if_false]
  rw [hc]
  constructor
  · cases r'.busy <;> cases r'.fit <;> simp
  · intro ps hps
    split at hps
    · exact absurd hps (by simp)
    · have := Option.some.inj hps
      subst this
      refine ⟨?_, hnd, ?_⟩
      · have h2 := (hp.erase_eq_filter s.id)
        have h3 := List.length_erase_of_mem hsp
        rw [h2] at h3
        rw [List.length_cons, h3]
        have := List.length_pos_of_mem hsp
        omega
      · intro p
        rw [List.mem_cons, List.mem_filter, e3, e2]
        simp

/-- C100.  Whatever stores a region is to have: the job is made exactly if the region is in order, has
no other job, and gets one store for one of those it has; its leader is not taken from it if it is to
have fewer than three.  It then has the new store and the others. -/
theorem C100_job {w : World} (hn : (w.regions.map Reg.id).Nodup) {k : Task} (hk : k.stores.Nodup) {r : Reg} (hr : r ∈ w.regions)
    (hi : r.id = k.region) (hp : r.peers.Nodup) (ps : List Nat) :
    change w k = some ps ↔ r.busy = false ∧ r.fit = true ∧ ∃ more less,
      (∀ x, x ∈ k.stores ∧ x ∉ r.peers ↔ x = more) ∧ (∀ x, x ∈ r.peers ∧ x ∉ k.stores ↔ x = less) ∧
      ¬ (r.leader = less ∧ k.stores.length < 3) ∧ ps = more :: r.peers.filter fun p => p != less := by
  have one : ∀ (l m : List Nat), l.Nodup → ∀ a, diff l m = [a] ↔ ∀ x, x ∈ l ∧ x ∉ m ↔ x = a := by
    intro l m hl a
    rw [diff_filter hl]
    have hmem : ∀ x, x ∈ (l.filter fun x => !m.contains x) ↔ x ∈ l ∧ x ∉ m := by
      intro x; simp [List.mem_filter]
    constructor
    · intro e x
      rw [← hmem, e, List.mem_singleton]
    · intro h
      have hnd : (l.filter fun x => !m.contains x).Nodup := hl.filter _
      have hmem' : ∀ x, x ∈ (l.filter fun x => !m.contains x) ↔ x = a := fun x => (hmem x).trans (h x)
      clear hmem h
      generalize (l.filter fun x => !m.contains x) = q at hnd hmem'
      cases q with
      | nil => exact absurd ((hmem' a).2 rfl) (by simp)
      | cons b q =>
        have hb := (hmem' b).1 List.mem_cons_self
        subst hb
        cases q with
        | nil => rfl
        | cons c q =>
          have hc := (hmem' c).1 (by simp)
          subst hc
          simp at hnd
  have hc : change w k = if r.busy || !r.fit || r.peers.isEmpty then none else
      match diff k.stores r.peers, diff r.peers k.stores with
      | [more], [less] =>
        if r.leader == less && decide (k.stores.length < 3) then none
        else some (more :: r.peers.filter fun p => p != less)
      | _, _ => none := by
    unfold change
    rw [← hi, find_reg hn hr]
    rfl
  rw [hc]
  constructor
  · intro h
    split at h
    · cases h
    · rename_i hb
      split at h
      · rename_i more less h1 h2
        split at h
        · cases h
        · rename_i hl
          simp only [Bool.or_eq_true, not_or, Bool.not_eq_true, Bool.not_eq_true', Bool.not_eq_false] at hb
          refine ⟨hb.1.1, by simpa using hb.1.2, more, less, (one _ _ hk _).1 h1, (one _ _ hp _).1 h2, ?_, (Option.some.inj h).symm⟩
          simpa using hl
      · cases h
  · rintro ⟨h1, h2, more, less, h3, h4, h5, rfl⟩
    have hne : r.peers ≠ [] := fun e => by
      have := ((h4 less).2 rfl).1
      rw [e] at this
      exact absurd this (by simp)
    rw [(one _ _ hk _).2 h3, (one _ _ hp _).2 h4, if_neg (by simp [h1, h2, hne])]
    simp only
    rw [if_neg (by simpa using h5)]

/-- C100.  A task the job is refused for is asked for again and again, and nothing else is. -/
theorem C100_stuck {w : World} {k : Task} (h : schedule w = .task k) (hc : change w k = none) (n : Nat) :
    passes w n = w ∧ schedule (passes w n) = .task k := by
  have hp : pass w = w := by
    unfold pass
    rw [h]
    simp only
    rw [hc]
  have : passes w n = w := by
    induction n with
    | zero => rfl
    | succ n ih => rw [passes, hp, ih]
  exact ⟨this, this.symm ▸ h⟩

end Verif.BalRegion
