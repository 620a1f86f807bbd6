import Verif.RegMap.Inv

/-! # Lemmas: two regions change ranges -/

namespace Verif.RegMap
open Verif.Codec (Bytes)

def upd (r : Region) : Inc := ⟨.update, r⟩

theorem apply_taken {s : Coor} (hs : SortedMap s.range) {rs : List Region} (hn : (rs.map Region.id).Nodup)
    (ht : ∀ r ∈ rs, Taken s r) :
    (∀ r ∈ rs, (s.apply (rs.map upd)).regions r.id = some r) ∧
    ∀ j, (∀ r ∈ rs, r.id ≠ j) → (s.apply (rs.map upd)).regions j = s.regions j := by
  obtain ⟨W, hw, hW⟩ := apply_updates hs (incs := rs.map upd) (by simp [upd]) (by rw [List.map_map]; exact hn)
  have hmem : ∀ r, r ∈ W ↔ r ∈ rs := by
    intro r
    rw [hW]
    constructor
    · rintro ⟨⟨i, hi, rfl⟩, _⟩
      rw [List.mem_map] at hi
      obtain ⟨q, hq, rfl⟩ := hi
      exact hq
    · intro hr
      exact ⟨⟨upd r, List.mem_map.mpr ⟨r, hr, rfl⟩, rfl⟩, ht r hr⟩
  exact ⟨fun r hr => hw.here r ((hmem r).mpr hr), fun j hj => hw.other j fun r hr => hj r ((hmem r).mp hr)⟩

/-- `s` with the records of two regions replaced. -/
def two (s : Coor) (a b : Region) : Coor := ⟨putId (putId s.regions a) b, s.range⟩

theorem live_congr {s t : Coor} (h : ∀ j, s.regions j = t.regions j) (r : Region) : s.Live r ↔ t.Live r := by
  unfold Coor.Live
  rw [h]

theorem disjoint_congr {s t : Coor} (h : ∀ j, s.regions j = t.regions j) (hd : s.Disjoint) : t.Disjoint :=
  fun r q hr hq hne => hd r q ((live_congr h r).mpr hr) ((live_congr h q).mpr hq) hne

/-- What is needed of a pair of new records. -/
structure Pair (s : Coor) (a b : Region) : Prop where
  ne : a.id ≠ b.id
  newer : ∀ r, r = a ∨ r = b → ∃ old, s.regions r.id = some old ∧ old.d.epoch.version < r.d.epoch.version
  parked : ∀ r, r = a ∨ r = b → r.live ∨ maxKey ≤ r.start
  after : (two s a b).Disjoint

theorem Pair.swap {s : Coor} {a b : Region} (h : Pair s a b) : Pair s b a := by
  refine ⟨h.ne.symm, fun r hr => h.newer r hr.symm, fun r hr => h.parked r hr.symm, ?_⟩
  refine disjoint_congr ?_ h.after
  intro j
  show putId (putId s.regions a) b j = putId (putId s.regions b) a j
  unfold putId
  by_cases h1 : j = a.id
  · have h2 : j ≠ b.id := by rw [h1]; exact h.ne
    simp [h1, h.ne]
  · simp [h1]

theorem taken_newer {s : Coor} {r : Region}
    (h : ∃ old, s.regions r.id = some old ∧ old.d.epoch.version < r.d.epoch.version) : Taken s r := by
  obtain ⟨old, h1, h2⟩ := h
  exact ⟨old, h1, by omega, Or.inr h2⟩

/-- Both records in one increment. -/
theorem together {s : Coor} (h : s.Exact) (hd : s.Disjoint) {a b : Region} (hp : Pair s a b) :
    (s.apply [upd a, upd b]).Exact ∧ ∀ j, (s.apply [upd a, upd b]).regions j = (two s a b).regions j := by
  have hr := apply_taken h.sorted (rs := [a, b]) (by simp [hp.ne])
    (by intro r hr; simp at hr; exact taken_newer (hp.newer r hr))
  have hreg : ∀ j, (s.apply [upd a, upd b]).regions j = (two s a b).regions j := by
    intro j
    show _ = putId (putId s.regions a) b j
    unfold putId
    by_cases h2 : j = b.id
    · rw [if_pos h2, h2]; exact hr.1 b (by simp)
    · rw [if_neg h2]
      by_cases h1 : j = a.id
      · rw [if_pos h1, h1]; exact hr.1 a (by simp)
      · rw [if_neg h1]
        exact hr.2 j (by intro r hr; simp at hr; rcases hr with rfl | rfl <;> (intro he; simp_all))
  have hd' : (s.apply [upd a, upd b]).Disjoint := disjoint_congr (fun j => (hreg j).symm) hp.after
  refine ⟨?_, hreg⟩
  refine found_apply (fun _ _ h => h.elim) h ⟨by simp [upd, hp.ne], Or.inr (Or.inl (by simp [upd])), ?_, ?_, ?_, ?_, ?_⟩
  · intro i hi ho
    simp at hi
    rcases hi with rfl | rfl <;> cases ho
  · intro i hi _
    simp at hi
    rcases hi with rfl | rfl
    · exact hp.parked a (Or.inl rfl)
    · exact hp.parked b (Or.inr rfl)
  · intro i hi _ hl _ q hq hst hne
    exact disjoint_start hd' hq hl hne hst
  · intro i hi _ old ho _ _ hl _ q hq _ hst hne
    exact disjoint_start hd hq ⟨by rw [(h.known _ _ ho).1]; exact ho, hl⟩ hne hst
  · intro i hi ho
    simp at hi
    rcases hi with rfl | rfl <;> cases ho

/-- `a` takes over from `b`'s old record. -/
def Over (b a : Nat) (r q : Region) : Prop := r.id = b ∧ q.id = a

/-- First one record, then the other. -/
theorem one_by_one {s : Coor} (h : s.Exact) (hd : s.Disjoint) {a b : Region} (hp : Pair s a b) :
    ((s.apply [upd a]).apply [upd b]).Exact ∧
      ∀ j, ((s.apply [upd a]).apply [upd b]).regions j = (two s a b).regions j := by
  have hO : ∀ x y, Over b.id a.id x y → ¬ Over b.id a.id y x := by
    rintro x y ⟨h1, h2⟩ ⟨h3, h4⟩
    exact hp.ne (h2.symm.trans h3)
  have hf : s.Found (Over b.id a.id) := found_exact h hd _
  -- the first increment
  have hr1 := apply_taken h.sorted (rs := [a]) (by simp)
    (by intro r hr; simp at hr; exact taken_newer (hp.newer r (Or.inl hr)))
  have hother1 : ∀ j, j ≠ a.id → (s.apply [upd a]).regions j = s.regions j := fun j hj =>
    hr1.2 j (by intro r hr; simp at hr; subst hr; exact fun he => hj he.symm)
  have hhere1 : (s.apply [upd a]).regions a.id = some a := hr1.1 a (by simp)
  have hback : ∀ q, (s.apply [upd a]).Live q → q.id ≠ a.id → s.Live q := by
    rintro q ⟨h1, h2⟩ hne
    rw [hother1 _ hne] at h1
    exact ⟨h1, h2⟩
  have hafter : ∀ q, s.Live q → q.id ≠ a.id → q.id ≠ b.id → (two s a b).Live q := by
    rintro q ⟨h1, h2⟩ ha hb
    refine ⟨?_, h2⟩
    show putId (putId s.regions a) b q.id = some q
    simp [putId, ha, hb, h1]
  have haAfter : a.live → (two s a b).Live a := by
    intro hl
    refine ⟨?_, hl⟩
    show putId (putId s.regions a) b a.id = some a
    simp [putId, hp.ne]
  have hf1 : (s.apply [upd a]).Found (Over b.id a.id) := by
    refine found_apply hO hf ⟨by simp, Or.inr (Or.inl (by simp [upd])), ?_, ?_, ?_, ?_, ?_⟩ <;> intro i hi <;>
      simp at hi <;> subst hi
    · intro ho; cases ho
    · intro _; exact hp.parked a (Or.inl rfl)
    · intro _ hl _ q hq hst hne
      have hqs := hback q hq hne
      by_cases hqb : q.id = b.id
      · exact ⟨hqb, rfl⟩
      · exact absurd hst (disjoint_start hp.after (hafter q hqs hne hqb) (haAfter hl.2) hne)
    · intro _ old ho _ _ hl _ q hq _ hst hne
      exact absurd hst (disjoint_start hd hq ⟨by rw [(h.known _ _ ho).1]; exact ho, hl⟩ hne)
    · intro ho; cases ho
  -- the second
  obtain ⟨oldb, hob, hvb⟩ := hp.newer b (Or.inr rfl)
  have hob1 : (s.apply [upd a]).regions b.id = some oldb := by rw [hother1 _ hp.ne.symm]; exact hob
  have hr2 := apply_taken (s := s.apply [upd a]) hf1.sorted (rs := [b]) (by simp)
    (by intro r hr; simp at hr; subst hr; exact taken_newer ⟨oldb, hob1, hvb⟩)
  have hreg : ∀ j, ((s.apply [upd a]).apply [upd b]).regions j = (two s a b).regions j := by
    intro j
    show _ = putId (putId s.regions a) b j
    unfold putId
    by_cases h2 : j = b.id
    · rw [if_pos h2, h2]; exact hr2.1 b (by simp)
    · rw [if_neg h2]
      have h3 := hr2.2 j (by intro r hr; simp at hr; subst hr; exact fun he => h2 he.symm)
      have h3 : ((s.apply [upd a]).apply [upd b]).regions j = (s.apply [upd a]).regions j := h3
      rw [h3]
      by_cases h1 : j = a.id
      · rw [if_pos h1, h1]; exact hhere1
      · rw [if_neg h1, hother1 j h1]
  have hd2 : ((s.apply [upd a]).apply [upd b]).Disjoint := disjoint_congr (fun j => (hreg j).symm) hp.after
  refine ⟨?_, hreg⟩
  refine found_exact (O := Over b.id a.id) ?_ hd2 _
  refine found_apply hO hf1 ⟨by simp, Or.inr (Or.inl (by simp [upd])), ?_, ?_, ?_, ?_, ?_⟩ <;> intro i hi <;>
      simp at hi <;> subst hi
  · intro ho; cases ho
  · intro _; exact hp.parked b (Or.inr rfl)
  · intro _ hl _ q hq hst hne
    exact absurd hst (disjoint_start hd2 hq hl hne)
  · intro _ old ho _ _ hl _ q hq _ hst hne
    have ho : (s.apply [upd a]).regions b.id = some old := ho
    rw [hob1] at ho
    cases ho
    have hid : oldb.id = b.id := (h.known _ _ hob).1
    by_cases hqa : q.id = a.id
    · exact ⟨hid, hqa⟩
    · exact absurd hst (disjoint_start hd (hback q hq hqa) ⟨by rw [hid]; exact hob, hl⟩ hne)
  · intro ho; cases ho

end Verif.RegMap
