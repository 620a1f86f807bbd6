import Verif.Balance.Props

/-!
# Balancing leaders: cases that meet the hypotheses, and what does not hold
-/

namespace Verif.Balance

def fit : Metric := ⟨true, true, true, true, 0, 0, none⟩
def voters (l : List Nat) : List Peer := l.map fun s => ⟨s, true⟩

/-- Three stores, six regions with voters on all of them, all led by store 1; store 3 counts double. -/
def wA : World where
  regions := (List.range 6).map fun i => ⟨i + 1, 1, voters [1, 2, 3]⟩
  stores := [⟨1, true, 1⟩, ⟨2, true, 1⟩, ⟨3, true, 2⟩]
  metric := fun _ => some fit
  free := fun _ => some 100
  busy := fun r => r == 1
  batch := 20

theorem okA : Ok wA := by
  refine ⟨by decide, by decide, ?_, ?_, by decide⟩ <;> decide

/-- Four leaders are transferred, one to store 2 and three to store 3. -/
example : schedule wA (fun _ => 0) 30 = some [⟨1, 1, 3⟩, ⟨2, 1, 2⟩, ⟨3, 1, 3⟩, ⟨4, 1, 3⟩] := by decide +kernel
example : 2 * wA.stores.length + wA.batch < 30 := by decide
example : spread wA = 72 ∧ spread (carry wA [⟨1, 1, 3⟩, ⟨2, 1, 2⟩, ⟨3, 1, 3⟩, ⟨4, 1, 3⟩]) = 19 := by decide +kernel
example : (count (carry wA [⟨1, 1, 3⟩, ⟨2, 1, 2⟩]).regions 2 : Int) = 1 ∧
    (count (carry wA [⟨1, 1, 3⟩, ⟨2, 1, 2⟩]).regions 1 : Int) = 4 := by decide +kernel
example : Room wA 3 1 := room_iff.1 (by decide)

/-- The world after them. -/
def wB : World := carry wA [⟨1, 1, 3⟩, ⟨2, 1, 2⟩, ⟨3, 1, 3⟩, ⟨4, 1, 3⟩]

theorem okB : Ok wB := by
  refine ⟨by decide, by decide, ?_, ?_, by decide⟩ <;> decide

/-- The next pass asks for nothing: `C99_idle` and `C99_balanced_partial` apply. -/
example : schedule wB (fun _ => 0) 30 = some [] := by decide +kernel
example : (∀ r ∈ wB.regions, Fit wB r.id) ∧
    (∀ r ∈ wB.regions, ∀ u ∈ wB.stores, Room wB u.id r.id ∧ ∃ p ∈ r.peers, p.store = u.id ∧ p.voter = true) ∧
    0 < count wB.regions 1 := by
  simp only [← fit_iff, ← room_iff]
  decide +kernel

/-- Two passes, one after the other. -/
example : Passes wA [⟨1, 1, 3⟩, ⟨2, 1, 2⟩, ⟨3, 1, 3⟩, ⟨4, 1, 3⟩] wB := by
  have h1 : schedule wA (fun _ => 0) 30 = some [⟨1, 1, 3⟩, ⟨2, 1, 2⟩, ⟨3, 1, 3⟩, ⟨4, 1, 3⟩] := by decide +kernel
  have h2 : schedule wB (fun _ => 0) 30 = some [] := by decide +kernel
  exact Passes.cons h1 (w' := wB) rfl rfl (Passes.cons h2 (w' := wB) rfl rfl (Passes.nil wB))

/-- C99.  A region for which a job is not finished gets a transfer as well: the filter that looks at
the jobs keeps every region. -/
theorem C99_busy_false : ∃ (w : World) (rnd : Nat → Nat) (n : Nat) (l : List Task) (t : Task), Ok w ∧ schedule w rnd n = some l ∧
    t ∈ l ∧ w.busy t.region = true :=
  ⟨wA, fun _ => 0, 30, [⟨1, 1, 3⟩, ⟨2, 1, 2⟩, ⟨3, 1, 3⟩, ⟨4, 1, 3⟩], ⟨1, 1, 3⟩, okA, by decide +kernel, by decide, by decide⟩

/-- Store 1 leads three regions; only one of them has a replica elsewhere. -/
def wC : World where
  regions := [⟨1, 1, voters [1]⟩, ⟨2, 1, voters [1, 2]⟩, ⟨3, 1, voters [1]⟩]
  stores := [⟨1, true, 1⟩, ⟨2, true, 1⟩]
  metric := fun _ => some fit
  free := fun _ => some 100
  busy := fun _ => false
  batch := 20

theorem okC : Ok wC := by
  refine ⟨by decide, by decide, ?_, ?_, by decide⟩ <;> decide

/-- C99.  A pass may ask for nothing although a transfer is called for: of each store one region is
picked by chance, and if that one cannot be transferred no other is tried. -/
theorem C99_idle_false : ∃ (w : World) (rnd rnd' : Nat → Nat) (n : Nat) (t : Task), Ok w ∧ schedule w rnd n = some [] ∧
    schedule w rnd' n = some [t] :=
  ⟨wC, fun _ => 0, fun _ => 1, 30, ⟨2, 1, 2⟩, okC, by decide +kernel, by decide +kernel⟩

/-- Store 2 has no room for region 1, which has a replica without a vote there. -/
def wD : World where
  regions := [⟨1, 1, [⟨1, true⟩, ⟨2, false⟩]⟩, ⟨2, 1, voters [1]⟩]
  stores := [⟨1, true, 1⟩, ⟨2, true, 1⟩]
  metric := fun _ => some ⟨true, true, true, true, 0, 0, some 50⟩
  free := fun _ => some 10
  busy := fun _ => false
  batch := 20

theorem okD : Ok wD := by
  refine ⟨by decide, by decide, ?_, ?_, by decide⟩ <;> decide

/-- C99.  A leader is transferred to a store that has no memory for its index: where a store that
leads few regions looks for one, the answer about room is taken the wrong way round. -/
theorem C99_room_false : ∃ (w : World) (rnd : Nat → Nat) (n : Nat) (t : Task), Ok w ∧ schedule w rnd n = some [t] ∧
    ¬ Room w t.target t.region :=
  ⟨wD, fun _ => 0, 30, ⟨1, 1, 2⟩, okD, by decide +kernel, fun h => absurd (room_iff.2 h) (by decide)⟩

/-- C99.  So is one to a replica that has no vote. -/
theorem C99_learner_false : ∃ (w : World) (rnd : Nat → Nat) (n : Nat) (t : Task), Ok w ∧ schedule w rnd n = some [t] ∧
    ∀ r ∈ w.regions, r.id = t.region → ∀ p ∈ r.peers, p.store = t.target → p.voter = false :=
  ⟨wD, fun _ => 0, 30, ⟨1, 1, 2⟩, okD, by decide +kernel, by decide⟩

/-- C99.  A store with room is never given a leader at its own asking. -/
theorem C99_in_false {w : World} {es : List Entry} {used : List Nat} {k : Nat} {e : Entry} {t : Task}
    (h : inTask w es used k e = some t) : t.target = e.id ∧ ¬ Room w t.target t.region := by
  unfold inTask at h
  split at h
  · exact absurd h (by simp)
  · split at h
    · exact absurd h (by simp)
    · next hr =>
      split at h
      · exact absurd h (by simp)
      · split at h
        · have := Option.some.inj h
          subst this
          exact ⟨rfl, fun hh => hr (room_iff.2 hh)⟩
        · exact absurd h (by simp)

/-- C99.  Two launches may be in their passes at once. -/
theorem C99_running_false : ∃ l, launches l (false, .start, .start) = (true, .pass, .pass) :=
  ⟨[true, false, true, false], by decide⟩

end Verif.Balance
