import Verif.RegMap.Index

/-! # Lemmas: lookups stay right -/

namespace Verif.RegMap
open Verif.Codec (Bytes)

/-- What an increment that writes the regions `W` does. -/
structure Wrote (s : Coor) (W : List Region) (t : Coor) : Prop where
  uniq : ∀ r ∈ W, ∀ q ∈ W, q.id = r.id → q = r
  here : ∀ r ∈ W, t.regions r.id = some r
  other : ∀ j, (∀ r ∈ W, r.id ≠ j) → t.regions j = s.regions j
  range : ∃ (E : List Bytes) (I : RangeMap),
    (∀ k r, (k, r) ∈ I → r ∈ W ∧ r.live ∧ r.start = k) ∧
    (∀ r ∈ W, r.live → ∃ q, (r.start, q) ∈ I) ∧
    (∀ k ∈ E, ∃ r ∈ W, ∃ old, s.regions r.id = some old ∧ old.start = k ∧ r.start ≠ k ∧
      legalDelete s old = true) ∧
    (∀ r ∈ W, ∀ old, s.regions r.id = some old → r.start ≠ old.start → legalDelete s old = true →
      old.start ∈ E ∨ ∃ q ∈ W, q.live ∧ q.start = old.start) ∧
    (∀ k r, (k, r) ∈ t.range ↔ (k, r) ∈ I ∨
      ((k, r) ∈ s.range ∧ k ∉ E ∧ ∀ q ∈ W, q.live → k ≠ q.start))

theorem ids_inj {incs : List Inc} (h : (incs.map (fun i => i.region.id)).Nodup) {i j : Inc} (hi : i ∈ incs)
    (hj : j ∈ incs) (he : i.region.id = j.region.id) : i = j := by
  induction incs with
  | nil => cases hi
  | cons x l ih =>
    rw [List.map_cons, List.nodup_cons, List.mem_map] at h
    rw [List.mem_cons] at hi hj
    rcases hi with rfl | hi <;> rcases hj with rfl | hj
    · rfl
    · exact absurd ⟨j, hj, he.symm⟩ h.1
    · exact absurd ⟨i, hi, he⟩ h.1
    · exact ih h.2 hi hj

theorem apply_updates {s : Coor} (hs : SortedMap s.range) {incs : List Inc} (hu : ∀ i ∈ incs, i.op = .update)
    (hn : (incs.map (fun i => i.region.id)).Nodup) :
    ∃ W, Wrote s W (s.apply incs) ∧ ∀ r, r ∈ W ↔ (∃ i ∈ incs, i.region = r) ∧ Taken s r := by
  have h := updates_fold incs (updates_init s) hu
  rw [List.nil_append] at h
  let b := incs.foldl (Batch.add s) {}
  have hb : Updates s (incs.map Inc.region) b := h
  have hreg : (s.apply incs).regions = b.put.foldl putId s.regions := by
    show b.del.foldl eraseId _ = _
    rw [hb.del.1]
    rfl
  have huniq : ∀ r ∈ b.put, ∀ q ∈ b.put, q.id = r.id → q = r := by
    intro r hr q hq he
    have h1 := ((hb.put r).mp hr).1
    have h2 := ((hb.put q).mp hq).1
    rw [List.mem_map] at h1 h2
    obtain ⟨i, hi, rfl⟩ := h1
    obtain ⟨j, hj, rfl⟩ := h2
    rw [ids_inj hn hj hi he]
  refine ⟨b.put, ⟨huniq, fun r hr => ?_, fun j hj => ?_, ?_⟩, fun r => ?_⟩
  · rw [hreg]
    exact putIds_mem _ hr (huniq r hr)
  · rw [hreg]
    exact putIds_other _ hj
  · have hidx : ∀ r, r ∈ b.index ↔ r ∈ b.put ∧ r.live := by
      intro r
      rw [hb.index, hb.put]
      constructor
      · rintro ⟨h1, h2, h3⟩
        exact ⟨⟨h1, h2⟩, h3⟩
      · rintro ⟨⟨h1, h2⟩, h3⟩
        exact ⟨h1, h2, h3⟩
    refine ⟨b.eraseUpd, b.index.foldl insertNew [], fun k r hk => ?_, fun r hr hl => ?_, fun k hk => ?_,
      fun r hr old ho hst hl => ?_, fun k r => ?_⟩
    · have h1 := (collected b.index).sound k r hk
      have h2 := (hidx r).mp h1.1
      exact ⟨h2.1, h2.2, h1.2⟩
    · exact (collected b.index).cover r ((hidx r).mpr ⟨hr, hl⟩)
    · obtain ⟨r, hr, ht, old, h1⟩ := hb.erase1 k hk
      exact ⟨r, (hb.put r).mpr ⟨hr, ht⟩, old, h1⟩
    · have h1 := (hb.put r).mp hr
      rcases hb.erase2 r h1.1 h1.2 old ho hst hl with h2 | ⟨q, hq, h2⟩
      · exact Or.inl h2
      · exact Or.inr ⟨q, ((hidx q).mp hq).1, ((hidx q).mp hq).2, h2⟩
    · show (k, r) ∈ b.index' s.range ↔ _
      rw [mem_index' b hs, hb.del.2]
      have : (∀ q ∈ b.index, k ≠ q.start) ↔ ∀ q ∈ b.put, q.live → k ≠ q.start := by
        constructor
        · exact fun h q hq hl => h q ((hidx q).mpr ⟨hq, hl⟩)
        · exact fun h q hq => h q ((hidx q).mp hq).1 ((hidx q).mp hq).2
      simp only [List.not_mem_nil, not_false_eq_true, true_and, this]
  · rw [hb.put, List.mem_map]

theorem apply_creates {s : Coor} (hs : SortedMap s.range) {incs : List Inc} (hu : ∀ i ∈ incs, i.op = .create)
    (hn : (incs.map (fun i => i.region.id)).Nodup)
    (hf : ∀ i ∈ incs, s.regions i.region.id = none) :
    Wrote s (incs.map Inc.region) (s.apply incs) := by
  have hb := creates_fold (s := s) incs (b := {}) hu
  have huniq : ∀ r ∈ incs.map Inc.region, ∀ q ∈ incs.map Inc.region, q.id = r.id → q = r := by
    intro r h1 q h2 he
    rw [List.mem_map] at h1 h2
    obtain ⟨i, hi, rfl⟩ := h1
    obtain ⟨j, hj, rfl⟩ := h2
    rw [ids_inj hn hj hi he]
  have hnew : ∀ r ∈ incs.map Inc.region, s.regions r.id = none := by
    intro r hr
    rw [List.mem_map] at hr
    obtain ⟨i, hi, rfl⟩ := hr
    exact hf i hi
  have hreg : (s.apply incs).regions = (incs.map Inc.region).foldl putId s.regions := by
    unfold Coor.apply
    rw [hb]
    simp
  refine ⟨huniq, fun r hr => ?_, fun j hj => ?_, [], ((incs.map Inc.region).filter (fun r => r.live)).foldl insertNew [],
    fun k r hk => ?_, fun r hr hl => ?_, (fun k hk => by cases hk), fun r hr old ho => ?_, fun k r => ?_⟩
  · rw [hreg]
    exact putIds_mem _ hr (huniq r hr)
  · rw [hreg]
    exact putIds_other _ hj
  · have h1 := (collected _).sound k r hk
    rw [List.mem_filter] at h1
    exact ⟨h1.1.1, by simpa using h1.1.2, h1.2⟩
  · exact (collected _).cover r (List.mem_filter.mpr ⟨hr, by simpa using hl⟩)
  · rw [hnew r hr] at ho
    cases ho
  · have : (s.apply incs).range = Batch.index' { index := (incs.map Inc.region).filter (fun r => r.live), put := incs.map Inc.region } s.range := by
      unfold Coor.apply
      rw [hb]
      simp
    rw [this, mem_index' _ hs]
    dsimp only
    have : (∀ q ∈ (incs.map Inc.region).filter (fun r => decide r.live), k ≠ q.start) ↔
        ∀ q ∈ incs.map Inc.region, q.live → k ≠ q.start := by
      constructor
      · exact fun h q hq hl => h q (List.mem_filter.mpr ⟨hq, by simpa using hl⟩)
      · intro h q hq
        rw [List.mem_filter] at hq
        exact h q hq.1 (by simpa using hq.2)
    simp only [List.not_mem_nil, not_false_eq_true, true_and, this]

theorem apply_sorted {s : Coor} (hs : SortedMap s.range) (incs : List Inc) : SortedMap (s.apply incs).range :=
  index'_sorted _ hs

/-- An entry under a key another region left to it. -/
theorem legal_of_own {s : Coor} (hs : SortedMap s.range) {old : Region} (h : (old.start, old) ∈ s.range) :
    legalDelete s old = true := by
  unfold legalDelete
  rw [(get_some hs).mpr h]
  simp

theorem not_legal {s : Coor} (hs : SortedMap s.range) {old q : Region} (h : (old.start, q) ∈ s.range)
    (hq : s.regions q.id = some q) (hst : q.start = old.start) (h0 : 0 < q.id) (hne : q.id ≠ old.id) :
    legalDelete s old = false := by
  unfold legalDelete
  rw [(get_some hs).mpr h]
  simp [hq, hst, h0, hne]

theorem found_write {O : Region → Region → Prop} (hO : ∀ a b, O a b → ¬ O b a) {s t : Coor} {W : List Region}
    (h : s.Found O) (hw : Wrote s W t) (ht : SortedMap t.range) (hpos : ∀ r ∈ W, 0 < r.id)
    (hpark : ∀ r ∈ W, r.live ∨ maxKey ≤ r.start)
    (htakes : ∀ r ∈ W, t.Live r → r.start < maxKey → ∀ q, t.Live q → q.start = r.start → q.id ≠ r.id → O q r)
    (hleaves : ∀ r ∈ W, ∀ old, s.regions r.id = some old → r.start ≠ old.start →
      old.start < old.stop → old.start < maxKey → ∀ q, s.Live q → t.Live q → q.start = old.start → q.id ≠ old.id → O old q) :
    t.Found O := by
  obtain ⟨E, I, hI1, hI2, hE1, hE2, hmem⟩ := hw.range
  refine ⟨fun i r hr => ?_, ht, fun k r hk hlt => ?_, fun r hr hlt => ?_⟩
  · by_cases hj : ∀ q ∈ W, q.id ≠ i
    · rw [hw.other i hj] at hr
      exact h.known i r hr
    · have : ∃ q ∈ W, q.id = i := Classical.byContradiction fun hne => hj fun q hq he => hne ⟨q, hq, he⟩
      obtain ⟨q, hq, rfl⟩ := this
      rw [hw.here q hq] at hr
      cases hr
      exact ⟨rfl, hpos _ hq⟩
  · rw [hmem] at hk
    rcases hk with hk | ⟨hk, hnE, hnW⟩
    · have h1 := hI1 k r hk
      exact ⟨⟨hw.here r h1.1, h1.2.1⟩, h1.2.2⟩
    · have h1 := h.sound k r hk hlt
      refine ⟨⟨?_, h1.1.2⟩, h1.2⟩
      by_cases hj : ∀ q ∈ W, q.id ≠ r.id
      · rw [hw.other _ hj]
        exact h1.1.1
      · have : ∃ q ∈ W, q.id = r.id := Classical.byContradiction fun hne => hj fun q hq he => hne ⟨q, hq, he⟩
        obtain ⟨q, hq, he⟩ := this
        exfalso
        have ho : s.regions q.id = some r := by rw [he]; exact h1.1.1
        by_cases hst : q.start = r.start
        · rcases hpark q hq with hl | hl
          · exact hnW q hq hl (by rw [hst, h1.2])
          · rw [hst, h1.2] at hl
            exact not_lt_of_le hl hlt
        · have hleg := legal_of_own h.sorted (old := r) (by rw [h1.2]; exact hk)
          rcases hE2 q hq r ho hst hleg with h2 | ⟨p, hp, hl, h2⟩
          · exact hnE (by rw [← h1.2]; exact h2)
          · exact hnW p hp hl (by rw [h2, h1.2])
  · -- some region written starts there, or nothing changed there
    by_cases hex : ∃ p ∈ W, p.live ∧ p.start = r.start
    · obtain ⟨p, hp, hl, hst⟩ := hex
      obtain ⟨q, hq⟩ := hI2 p hp hl
      rw [hst] at hq
      have h1 := hI1 _ q hq
      refine ⟨q, (hmem _ _).mpr (Or.inl hq), ?_⟩
      by_cases hid : r.id = q.id
      · left
        have := hw.here q h1.1
        rw [← hid, hr.1] at this
        exact (Option.some.inj this).symm
      · exact Or.inr (htakes q h1.1 ⟨hw.here q h1.1, h1.2.1⟩ (by rw [h1.2.2]; exact hlt) r hr h1.2.2.symm hid)
    · have hnW : ∀ q ∈ W, q.live → r.start ≠ q.start := fun q hq hl he => hex ⟨q, hq, hl, he.symm⟩
      have hrW : ∀ q ∈ W, q.id ≠ r.id := by
        intro q hq he
        have := hw.here q hq
        rw [he, hr.1] at this
        cases this
        exact hex ⟨r, hq, hr.2, rfl⟩
      have hrs : s.Live r := ⟨by rw [← hw.other _ hrW]; exact hr.1, hr.2⟩
      obtain ⟨q, hq, hrel⟩ := h.newest r hrs hlt
      refine ⟨q, (hmem _ _).mpr (Or.inr ⟨hq, fun hE => ?_, hnW⟩), hrel⟩
      obtain ⟨p, hp, old, ho, hst, hne, hleg⟩ := hE1 _ hE
      have hqs := h.sound _ q hq hlt
      by_cases hid : q.id = old.id
      · -- the region at the key moves away
        have hoid := (h.known _ _ ho).1
        have hqo : q = old := by
          have h1 := hqs.1.1
          rw [hid, hoid, ho] at h1
          exact (Option.some.inj h1).symm
        subst hqo
        have hpr : r.id ≠ q.id := by
          intro he
          exact hrW p hp (by rw [he, hoid])
        have h1 := hleaves p hp q ho (by rw [hst]; exact hne) hqs.1.2 (by rw [hst]; exact hlt) r hrs hr hst.symm hpr
        rcases hrel with h2 | h2
        · rw [h2] at hpr
          exact hpr rfl
        · exact hO _ _ h1 h2
      · have hkq := h.known _ _ hqs.1.1
        have := not_legal h.sorted (old := old) (q := q) (by rw [hst]; exact hq) hqs.1.1
          (by rw [hst]; exact hqs.2) hkq.2 hid
        rw [this] at hleg
        cases hleg

theorem found_delete {O : Region → Region → Prop} {s : Coor} {incs : List Inc} (h : s.Found O)
    (hu : ∀ i ∈ incs, i.op = .delete)
    (hd : ∀ i ∈ incs, ∀ old, s.regions i.region.id = some old → old.start < maxKey →
      ∀ q, (s.apply incs).Live q → q.start ≠ old.start) :
    (s.apply incs).Found O := by
  have hb := drops_fold incs (drops_init s) hu
  rw [List.nil_append] at hb
  let b := incs.foldl (Batch.add s) {}
  have hb : Drops s (incs.map (fun i => i.region.id)) b := hb
  have hreg : ∀ j, (s.apply incs).regions j = if j ∈ b.del then none else s.regions j := by
    intro j
    show b.del.foldl eraseId (b.put.foldl putId s.regions) j = _
    rw [hb.put.1, eraseIds]
    rfl
  have hrange : ∀ e, e ∈ (s.apply incs).range ↔ e.1 ∉ b.eraseDel ∧ e ∈ s.range := by
    intro e
    show e ∈ b.index' s.range ↔ _
    rw [mem_index' b h.sorted, hb.put.2.1, hb.put.2.2]
    simp
  have hsub : ∀ r, (s.apply incs).Live r → s.Live r := by
    rintro r ⟨h1, h2⟩
    rw [hreg] at h1
    split at h1
    · cases h1
    · exact ⟨h1, h2⟩
  refine ⟨fun i r hr => ?_, apply_sorted h.sorted _, fun k r hk hlt => ?_, fun r hr hlt => ?_⟩
  · rw [hreg] at hr
    split at hr
    · cases hr
    · exact h.known i r hr
  · rw [hrange] at hk
    have h1 := h.sound k r hk.2 hlt
    refine ⟨⟨?_, h1.1.2⟩, h1.2⟩
    rw [hreg, if_neg, h1.1.1]
    intro hdel
    exact hk.1 ((hb.eraseDel k).mpr ⟨r.id, ((hb.del _).mp hdel).1, r, h1.1.1, h1.2⟩)
  · obtain ⟨q, hq, hrel⟩ := h.newest r (hsub r hr) hlt
    refine ⟨q, (hrange _).mpr ⟨fun hE => ?_, hq⟩, hrel⟩
    obtain ⟨i, hi, old, ho, hst⟩ := (hb.eraseDel _).mp hE
    rw [List.mem_map] at hi
    obtain ⟨x, hx, rfl⟩ := hi
    exact hd x hx old ho (by rw [hst]; exact hlt) r hr hst.symm

theorem found_apply {O : Region → Region → Prop} (hO : ∀ a b, O a b → ¬ O b a) {s : Coor} {incs : List Inc}
    (h : s.Found O) (hc : Clean O s incs) : (s.apply incs).Found O := by
  rcases hc.kind with hk | hk | hk
  · have hw := apply_creates h.sorted hk hc.ids (fun i hi => (hc.fresh i hi (hk i hi)).1)
    have hne : ∀ i ∈ incs, i.op ≠ .delete := fun i hi => by rw [hk i hi]; simp
    refine found_write hO h hw (apply_sorted h.sorted _) (fun r hr => ?_) (fun r hr => ?_) (fun r hr => ?_)
      (fun r hr old ho => ?_) <;> (rw [List.mem_map] at hr; obtain ⟨i, hi, rfl⟩ := hr)
    · exact (hc.fresh i hi (hk i hi)).2
    · exact hc.parked i hi (hne i hi)
    · exact hc.takes i hi (hne i hi)
    · rw [(hc.fresh i hi (hk i hi)).1] at ho
      cases ho
  · obtain ⟨W, hw, hW⟩ := apply_updates h.sorted hk hc.ids
    have hne : ∀ i ∈ incs, i.op ≠ .delete := fun i hi => by rw [hk i hi]; simp
    refine found_write hO h hw (apply_sorted h.sorted _) (fun r hr => ?_) (fun r hr => ?_) (fun r hr => ?_)
      (fun r hr old ho => ?_) <;>
      (have hpost := hw.here r hr; obtain ⟨⟨i, hi, rfl⟩, ht⟩ := (hW r).mp hr)
    · obtain ⟨old, ho, _⟩ := ht
      exact (h.known _ _ ho).2
    · exact hc.parked i hi (hne i hi)
    · exact hc.takes i hi (hne i hi)
    · exact hc.leaves i hi (hk i hi) old ho hpost
  · exact found_delete h hk (fun i hi => hc.drops i hi (hk i hi))

/-! ## Becoming leader -/

theorem lead_fold {s : Coor} (hk : s.Known) (ha : s.Apart) (O : Region → Region → Prop) (l : List Nat) :
    ∀ {m : RangeMap} (done : List Nat), SortedMap m →
    (∀ k r, (k, r) ∈ m → s.regions r.id = some r ∧ r.start = k) →
    (∀ i ∈ done, ∀ r, s.regions i = some r → r.live → r.start < maxKey → (r.start, r) ∈ m) →
    let m' := (l.filterMap s.regions).foldl (fun m r => put r.start r m) m
    SortedMap m' ∧ (∀ k r, (k, r) ∈ m' → s.regions r.id = some r ∧ r.start = k) ∧
      (∀ i ∈ done ++ l, ∀ r, s.regions i = some r → r.live → r.start < maxKey → (r.start, r) ∈ m') := by
  induction l with
  | nil => intro m done h1 h2 h3; simpa using ⟨h1, h2, h3⟩
  | cons i l ih =>
    intro m done h1 h2 h3
    cases hr : s.regions i with
    | none =>
      rw [List.filterMap_cons_none hr]
      have := ih (done ++ [i]) h1 h2 (fun j hj r hjr => by
        rw [List.mem_append, List.mem_singleton] at hj
        rcases hj with hj | rfl
        · exact h3 j hj r hjr
        · rw [hr] at hjr; cases hjr)
      simpa using this
    | some r =>
      rw [List.filterMap_cons_some hr, List.foldl_cons]
      have hid := (hk i r hr).1
      have := ih (done ++ [i]) (m := put r.start r m) (put_sorted h1) (fun k q hq => by
          rw [mem_put h1] at hq
          rcases hq with hq | ⟨hq, _⟩
          · obtain ⟨rfl, rfl⟩ := Prod.mk.inj hq
            exact ⟨by rw [hid]; exact hr, rfl⟩
          · exact h2 k q hq) (fun j hj q hjq hl hlt => by
        rw [mem_put h1]
        rw [List.mem_append, List.mem_singleton] at hj
        rcases hj with hj | rfl
        · have hq := h3 j hj q hjq hl hlt
          have hjid := (hk j q hjq).1
          by_cases hst : q.start = r.start
          · left
            have hrl : r.live := by
              rcases ha.1 i r hr with h4 | h4
              · exact h4
              · rw [← hst] at h4
                exact absurd hlt (not_lt_of_le h4)
            by_cases he : q.id = r.id
            · have : q = r := by
                have h5 := hjq
                rw [← hjid, he, hid, hr] at h5
                exact (Option.some.inj h5).symm
              rw [this]
            · exact absurd hst (ha.2 q r ⟨by rw [hjid]; exact hjq, hl⟩ ⟨by rw [hid]; exact hr, hrl⟩ he)
          · exact Or.inr ⟨hq, hst⟩
        · rw [hr] at hjq
          cases hjq
          exact Or.inl rfl)
      simpa using this

theorem found_lead {O : Region → Region → Prop} {s : Coor} (hk : s.Known) (ha : s.Apart) {order : List Nat}
    (ho : s.Lists order) : (s.lead order).Found O := by
  have h := lead_fold hk ha O order (m := []) [] List.Pairwise.nil (by intro k r h; cases h)
    (by intro i h; cases h)
  refine ⟨hk, h.1, fun k r hkr hlt => ?_, fun r hr hlt => ?_⟩
  · have h1 := h.2.1 k r hkr
    refine ⟨⟨h1.1, ?_⟩, h1.2⟩
    rcases ha.1 _ _ h1.1 with h2 | h2
    · exact h2
    · rw [h1.2] at h2
      exact absurd hlt (not_lt_of_le h2)
  · exact ⟨r, h.2.2 r.id (by simpa using ho.2 _ _ hr.1) r hr.1 hr.2 hlt, Or.inl rfl⟩

theorem found_run {O : Region → Region → Prop} (hO : ∀ a b, O a b → ¬ O b a) (evs : List Ev) :
    ∀ {s : Coor}, s.Found O → s.CleanRun O evs → (s.run evs).Found O := by
  induction evs with
  | nil => intro s h _; exact h
  | cons e evs ih =>
    intro s h hc
    cases e with
    | apply incs => exact ih (found_apply hO h hc.1) hc.2
    | lead order => exact ih (found_lead h.known hc.1.2 hc.1.1) hc.2

/-! ## Lookups -/

theorem tidy {O : Region → Region → Prop} {s : Coor} (h : s.Found O) (hd : s.Disjoint) {hi : Bytes}
    (hhi : hi ≤ maxKey) : Tidy hi s.range := by
  have hs := h.sorted
  refine ⟨hs, fun e he hlt => ?_, ?_⟩
  · have := h.sound e.1 e.2 he (lt_of_lt_of_le hlt hhi)
    exact ⟨this.2, this.1.2⟩
  · have hall := h.sound
    generalize s.range = m at hs hall
    induction m with
    | nil => exact List.Pairwise.nil
    | cons x m ih =>
      rw [List.pairwise_cons] at hs
      rw [List.pairwise_cons]
      refine ⟨fun e he hlt => ?_, ih hs.2 (fun k r hk => hall k r (by simp [hk]))⟩
      have hlt' := lt_of_lt_of_le hlt hhi
      have h1 := hall e.1 e.2 (by simp [he]) hlt'
      have hxe := hs.1 e he
      have h2 := hall x.1 x.2 (by simp) (List.lt_trans hxe hlt')
      have hne : x.2.id ≠ e.2.id := by
        intro hid
        have := h2.1.1
        rw [hid, h1.1.1] at this
        have := Option.some.inj this
        rw [← h2.2, ← h1.2, this] at hxe
        exact List.lt_irrefl _ hxe
      rcases hd x.2 e.2 h2.1 h1.1 hne with h3 | h3
      · exact h3
      · exfalso
        have : e.2.start < x.2.start := lt_of_lt_of_le h1.1.2 h3
        rw [h1.2, h2.2] at this
        exact List.lt_irrefl _ (List.lt_trans this hxe)

theorem disjoint_start {s : Coor} (hd : s.Disjoint) {r q : Region} (hr : s.Live r) (hq : s.Live q)
    (hne : r.id ≠ q.id) : r.start ≠ q.start := by
  intro he
  rcases hd r q hr hq hne with h | h
  · rw [← he] at h
    exact not_lt_of_le h hr.2
  · rw [he] at h
    exact not_lt_of_le h hq.2

/-- Which region takes over from which does not matter once the regions are apart. -/
theorem found_exact {O : Region → Region → Prop} {s : Coor} (h : s.Found O) (hd : s.Disjoint)
    (P : Region → Region → Prop) : s.Found P := by
  refine ⟨h.known, h.sorted, h.sound, fun r hr hlt => ?_⟩
  obtain ⟨q, hq, _⟩ := h.newest r hr hlt
  refine ⟨q, hq, Or.inl ?_⟩
  have hqs := h.sound _ q hq hlt
  rcases Classical.em (r.id = q.id) with he | he
  · have := hr.1
    rw [he, hqs.1.1] at this
    exact Option.some.inj this
  · exact absurd hqs.2.symm (disjoint_start hd hr hqs.1 he)

/-- What a search finds. -/
theorem search_answer {O : Region → Region → Prop} {s : Coor} (h : s.Found O) (hd : s.Disjoint) {lo hi : Bytes}
    (hlt : lo < hi) (hhi : hi ≤ maxKey) :
    s.Answer lo hi (findInterval s.range lo hi (fun r => decide (0 < r.id) && decide (lo < r.stop))) := by
  have ht := tidy h hd hhi
  rw [findInterval_eq ht hlt (fun r hr => by simp at hr; exact hr.2)]
  constructor
  · refine List.Pairwise.filter _ ?_
    rw [List.pairwise_map]
    have hs := List.Pairwise.filter (fun e : Bytes × Region => decide (e.1 < hi)) h.sorted
    refine List.Pairwise.imp_of_mem ?_ hs
    intro a b ha hb hab
    rw [List.mem_filter] at ha hb
    rw [(ht.own a ha.1 (by simpa using ha.2)).1, (ht.own b hb.1 (by simpa using hb.2)).1]
    exact hab
  · intro r
    rw [List.mem_filter, List.mem_map]
    constructor
    · rintro ⟨⟨e, he, rfl⟩, hr⟩
      rw [List.mem_filter] at he
      have hk : e.1 < hi := by simpa using he.2
      have h1 := h.sound e.1 e.2 he.1 (lt_of_lt_of_le hk hhi)
      simp only [Bool.and_eq_true, decide_eq_true_eq] at hr
      exact ⟨h1.1, by rw [h1.2]; exact hk, hr.2⟩
    · rintro ⟨hl, h1, h2⟩
      obtain ⟨q, hq, hrel⟩ := h.newest r hl (lt_of_lt_of_le h1 hhi)
      have hqs := h.sound _ q hq (lt_of_lt_of_le h1 hhi)
      have hqr : q = r := by
        rcases Classical.em (r.id = q.id) with he | he
        · have := hl.1
          rw [he, hqs.1.1] at this
          exact Option.some.inj this
        · exact absurd hqs.2.symm (disjoint_start hd hl hqs.1 he)
      subst hqr
      refine ⟨⟨(q.start, q), List.mem_filter.mpr ⟨hq, by simpa using h1⟩, rfl⟩, ?_⟩
      simp only [Bool.and_eq_true, decide_eq_true_eq]
      exact ⟨(h.known _ _ hl.1).2, h2⟩

/-! ## Entries are under the start keys, whatever the increments -/

def Keyed (m : RangeMap) : Prop := ∀ k r, (k, r) ∈ m → r.start = k

theorem mem_put_sub {k : Bytes} {v : Region} {e : Bytes × Region} : ∀ {m : RangeMap}, e ∈ put k v m →
    e = (k, v) ∨ e ∈ m
  | [], h => by simpa [put] using h
  | x :: m, h => by
    unfold put at h
    split at h
    · rw [List.mem_cons] at h; exact h
    · split at h
      · rw [List.mem_cons] at h
        rcases h with h | h
        · exact Or.inl h
        · exact Or.inr (by simp [h])
      · rw [List.mem_cons] at h
        rcases h with h | h
        · exact Or.inr (by simp [h])
        · rcases mem_put_sub h with h | h
          · exact Or.inl h
          · exact Or.inr (by simp [h])

theorem keyed_putAll (es : RangeMap) (he : Keyed es) : ∀ {m : RangeMap}, Keyed m →
    Keyed (es.foldl (fun m e => put e.1 e.2 m) m) := by
  induction es with
  | nil => intro m h; exact h
  | cons e es ih =>
    intro m h
    refine ih (fun k r hk => he k r (by simp [hk])) (fun k r hk => ?_)
    rcases mem_put_sub hk with h1 | h1
    · obtain ⟨rfl, rfl⟩ := Prod.mk.inj h1
      exact he _ _ (by simp)
    · exact h k r h1

theorem keyed_index' (b : Batch) {m : RangeMap} (h : Keyed m) : Keyed (b.index' m) := by
  intro k r hk
  unfold Batch.index' at hk
  rw [mem_eraseAll] at hk
  refine keyed_putAll _ (fun k r hk => ((collected b.index).sound k r hk).2) ?_ k r hk.1
  intro k r hk
  rw [mem_eraseAll] at hk
  exact h k r hk.1

theorem keyed_lead (rs : List Region) : ∀ {m : RangeMap}, Keyed m →
    Keyed (rs.foldl (fun m r => put r.start r m) m) := by
  induction rs with
  | nil => intro m h; exact h
  | cons r rs ih =>
    intro m h
    refine ih (fun k q hq => ?_)
    rcases mem_put_sub hq with h1 | h1
    · obtain ⟨rfl, rfl⟩ := Prod.mk.inj h1
      rfl
    · exact h k q h1

theorem keyed_run (evs : List Ev) : ∀ {s : Coor}, Keyed s.range → Keyed (s.run evs).range := by
  induction evs with
  | nil => intro s h; exact h
  | cons e evs ih =>
    intro s h
    cases e with
    | apply incs => exact ih (s := s.apply incs) (keyed_index' _ h)
    | lead order => exact ih (s := s.lead order) (keyed_lead _ (by intro k r hk; cases hk))

end Verif.RegMap
