import Verif.BalRegion.Props

/-!
# Balancing regions: cases that meet the hypotheses, and what does not hold
-/

namespace Verif.BalRegion

/-- Store 1 is nearly full; a third of it is region 1, which it does not lead. -/
def wP : World where
  regions := [⟨1, 3, [1, 3, 4], some 40, true, false⟩]
  nodes := [⟨1, true, some ⟨100, 20, [1]⟩⟩, ⟨2, true, some ⟨100, 70, []⟩⟩, ⟨3, true, some ⟨100, 50, [1]⟩⟩,
    ⟨4, true, some ⟨100, 50, [1]⟩⟩]
  ratio := 300
  unit := 1

def kP : Task := ⟨1, 1, 2, [2, 3, 4]⟩

example : schedule wP = .task kP ∧ change wP kP = some [2, 3, 4] := by decide +kernel

theorem knownP : Known wP := by
  rintro s m ⟨h1, -, -, h4⟩
  revert m
  revert s
  decide

/-- The hypotheses of `C100_moves`. -/
example : ∃ k, schedule wP = .task k ∧ k.source = 1 ∧ k.target = 2 := by
  refine C100_moves (s := ⟨1, true, some ⟨100, 20, [1]⟩⟩) (t := ⟨2, true, some ⟨100, 70, []⟩⟩) (ms := ⟨100, 20, [1]⟩)
    (mt := ⟨100, 70, []⟩) (by decide) knownP (by unfold Live; decide) (by unfold Live; decide) ?_ ?_ (by unfold Fuller; decide)
    (r := ⟨1, 3, [1, 3, 4], some 40, true, false⟩) (sz := 40) (by unfold Follows; decide) (by unfold Fits; decide)
  · rintro x m ⟨h1, -, -, h4⟩
    unfold Fuller
    revert m
    revert x
    decide
  · rintro x m ⟨h1, -, -, h4⟩
    unfold Fuller
    revert m
    revert x
    decide

/-- The hypotheses of `C100_replicas_partial`. -/
example : (wP.regions.map Reg.id).Nodup ∧ (⟨1, 3, [1, 3, 4], some 40, true, false⟩ : Reg) ∈ wP.regions ∧ [1, 3, 4].Nodup ∧
    kP.target ∉ [1, 3, 4] := by decide

/-- The hypotheses of `C100_job`, and its leader: store 3 gives up the region to store 2 if it is to have
three replicas, and not if it is to have two. -/
example : change wP ⟨1, 3, 2, [1, 2, 4]⟩ = some [2, 1, 4] ∧ [1, 2, 4].Nodup ∧
    change { wP with regions := [⟨1, 3, [1, 3], some 40, true, false⟩] } ⟨1, 3, 2, [1, 2]⟩ = none := by decide +kernel

/-- A world where nothing is to be moved: `C100_close`. -/
def wE : World := { wP with nodes := [⟨1, true, some ⟨100, 50, [1]⟩⟩, ⟨2, true, some ⟨100, 60, []⟩⟩] }

example : schedule wE = .idle := by
  refine C100_close ?_ ?_
  · rintro s m ⟨h1, -, -, h4⟩
    revert m
    revert s
    decide
  · rintro s ms t mt ⟨h1, -, -, h4⟩ ⟨h5, -, -, h8⟩
    unfold Fuller
    revert mt
    revert t
    revert ms
    revert s
    decide

/-- C100.  A region that is large for the difference goes to and fro for ever. -/
theorem C100_settles_false : ∃ w : World, (w.regions.map Reg.id).Nodup ∧ Known w ∧
    ∀ n, ∃ k, schedule (passes w n) = .task k ∧ (change (passes w n) k).isSome = true := by
  refine ⟨wP, by decide, knownP, ?_⟩
  have h2 : pass (pass wP) = wP := by decide +kernel
  have hall : ∀ n, passes wP n = wP ∨ passes wP n = pass wP := by
    have : ∀ n, (passes wP n = wP ∨ passes wP n = pass wP) ∧ (passes (pass wP) n = wP ∨ passes (pass wP) n = pass wP) := by
      intro n
      induction n with
      | zero => exact ⟨Or.inl rfl, Or.inr rfl⟩
      | succ n ih =>
        refine ⟨ih.2, ?_⟩
        rw [passes, h2]
        exact ih.1
    exact fun n => (this n).1
  intro n
  rcases hall n with h | h <;> rw [h]
  · exact ⟨kP, by decide +kernel⟩
  · exact ⟨⟨1, 2, 1, [1, 3, 4]⟩, by decide +kernel⟩

/-- The largest replica of store 1 is of a region that is not in order. -/
def wS : World where
  regions := [⟨1, 3, [1, 3, 4], some 40, false, false⟩, ⟨2, 3, [1, 3, 4], some 20, true, false⟩]
  nodes := [⟨1, true, some ⟨100, 20, [1, 2]⟩⟩, ⟨2, true, some ⟨100, 70, []⟩⟩, ⟨3, true, some ⟨100, 50, [1, 2]⟩⟩,
    ⟨4, true, some ⟨100, 50, [1, 2]⟩⟩]
  ratio := 300
  unit := 1

/-- C100.  The state of a region is not looked at when one is chosen: a region for which the job is
refused is chosen in every pass, and another that could be moved never is. -/
theorem C100_health_false : ∃ (w : World) (k k' : Task), (w.regions.map Reg.id).Nodup ∧ Known w ∧
    (∀ n, schedule (passes w n) = .task k ∧ change (passes w n) k = none) ∧
    k'.source = k.source ∧ k'.target = k.target ∧ (change w k').isSome = true := by
  have h1 : schedule wS = .task ⟨1, 1, 2, [2, 3, 4]⟩ := by decide +kernel
  have h2 : change wS ⟨1, 1, 2, [2, 3, 4]⟩ = none := by decide +kernel
  refine ⟨wS, ⟨1, 1, 2, [2, 3, 4]⟩, ⟨2, 1, 2, [2, 3, 4]⟩, by decide, ?_, ?_, rfl, rfl, by decide +kernel⟩
  · rintro s m ⟨ha, -, -, hb⟩
    revert m
    revert s
    decide
  · intro n
    obtain ⟨e, h⟩ := C100_stuck h1 h2 n
    exact ⟨h, e.symm ▸ h2⟩

/-- The fullest store leads what it has. -/
def wL : World where
  regions := [⟨1, 1, [1, 2], some 10, true, false⟩]
  nodes := [⟨1, true, some ⟨100, 10, [1]⟩⟩, ⟨2, true, some ⟨100, 45, [1]⟩⟩, ⟨3, true, some ⟨100, 50, []⟩⟩]
  ratio := 300
  unit := 1

/-- C100.  A replica may be moved from a store that is fuller by less than the limit: the second attempt
of a round does not ask for it. -/
theorem C100_limit_false : ∃ (w : World) (k : Task), Known w ∧ schedule w = .task k ∧
    ∀ s ms t mt, Live w s ms → Live w t mt → s.id = k.source → t.id = k.target → ¬ Fuller w 150 ms mt := by
  refine ⟨wL, ⟨1, 2, 3, [3, 1]⟩, ?_, by decide +kernel, ?_⟩
  · rintro s m ⟨ha, -, -, hb⟩
    revert m
    revert s
    decide
  · rintro s ms t mt ⟨h1, -, -, h4⟩ ⟨h5, -, -, h8⟩
    unfold Fuller
    revert mt
    revert t
    revert ms
    revert s
    decide

/-- Store 2 has a replica but has not reported it since the coordinator became the leader. -/
def wT : World where
  regions := [⟨1, 3, [1, 2, 3], some 10, true, false⟩]
  nodes := [⟨1, true, some ⟨100, 10, [1]⟩⟩, ⟨2, true, some ⟨100, 70, []⟩⟩, ⟨3, true, some ⟨100, 50, [1]⟩⟩]
  ratio := 300
  unit := 1

/-- C100.  A region may be moved to a store that has a replica of it: whether it has is asked of what
the store has reported, and the job is made.  The region is then to have two replicas on one store. -/
theorem C100_twice_false : ∃ (w : World) (k : Task) (ps : List Nat), (w.regions.map Reg.id).Nodup ∧ Known w ∧
    (∀ r ∈ w.regions, r.peers.Nodup) ∧ schedule w = .task k ∧ change w k = some ps ∧ ¬ ps.Nodup := by
  refine ⟨wT, ⟨1, 1, 2, [2, 2, 3]⟩, [2, 2, 3], by decide, ?_, by decide, by decide +kernel, by decide +kernel, by decide⟩
  rintro s m ⟨ha, -, -, hb⟩
  revert m
  revert s
  decide

/-- C100.  A pass brings the coordinator down if the stores have not reported their capacity. -/
theorem C100_crash_false : ∃ w : World, schedule w = .crash :=
  ⟨{ wT with nodes := [⟨1, true, some ⟨0, 0, []⟩⟩] }, by decide +kernel⟩

end Verif.BalRegion
