import Verif.Region.SplitLemmas

/-!
# C39: region split
-/

namespace Verif.Region
open Verif.Codec

/-! ### One split -/

/-- The checks of the apply loop and of the split handler all pass. -/
theorem plan_pre {s : Store} {p c : Nat} {pr cr : Reg} {key : Bytes} (job : Int) (hp : s.regs p = some pr)
    (hc : s.regs c = some cr) (hst : cr.state = .standby) (h1 : pr.range.start < key) (h2 : key < pr.range.stop) :
    splitPlan s p job c key pr.epoch.version false =
      .ok ((fun s => s.on p (Reg.setJob job)) :: preSteps p c pr key) := by
  unfold splitPlan
  rw [hp]
  dsimp only
  rw [if_neg (by simp), if_neg (by simp [hc, hst]), if_neg (by simpa using lt_trans h1 h2),
    if_neg (fun h => h.elim (List.not_le.2 h1) (List.not_le.2 h2)), if_neg (by simp)]

theorem plan_post {s : Store} {p c : Nat} {pr : Reg} {key : Bytes} (job : Int) (hp : s.regs p = some pr)
    (hc : s.regs c = none) (h1 : pr.range.start < key) (h2 : key < pr.range.stop) :
    splitPlan s p job c key pr.epoch.version true =
      .ok ((fun s => s.on p (Reg.setJob job)) :: postSteps p c pr key) := by
  unfold splitPlan
  rw [hp]
  dsimp only
  rw [if_neg (by simp), if_neg (by simp), if_neg (by simpa using lt_trans h1 h2),
    if_neg (fun h => h.elim (List.not_le.2 h1) (List.not_le.2 h2)), if_pos rfl, if_neg (by simp [hc])]

theorem apply_split {logs : Nat → List Entry} {s : Store} {p i c : Nat} {job : Int} {key : Bytes} {post : Bool}
    {pr : Reg} {fs : List (Store → Store)} (hi : s.applied p < i) (hp : s.regs p = some pr)
    (ha : abandons pr.state = false ∧ pr.state ≠ .standby)
    (hl : s.loops.any (fun l => l.source == p && l.active s) = false)
    (hf : splitPlan s p job c key pr.epoch.version post = .ok fs) :
    applyEntry logs s p i ⟨pr.epoch, .split job c key pr.epoch.version post⟩ = .ok ((run s fs).setApplied p i) := by
  have h0 : ¬ i ≤ s.applied p := by omega
  have ht : (Cmd.split job c key pr.epoch.version post).ts = 0 := rfl
  simp [applyEntry, h0, hp, ha.1, ha.2, hl, ht, handle, dispatch, hf]

/-- **A split cuts the region exactly at its key.**  A split entry carrying the region's
epoch, applied to a region that serves requests, with a key strictly inside the region's
range and a child prepared for it (or, for the other strategy, an unused id), is carried out:
the child serves the keys from the old start up to the split key, the region keeps those from
the split key on, both under a new version, no other region's record and no data change, and
the child takes over the region's write and read timestamps. -/
theorem C39_split (logs : Nat → List Entry) (s : Store) (p c i : Nat) (job : Int) (key : Bytes) (post : Bool)
    (pr : Reg) (hi : s.applied p < i) (hp : s.regs p = some pr) (hs : Serving pr.state)
    (hl : ∀ l ∈ s.loops, l.source ≠ p) (h1 : pr.range.start < key) (h2 : key < pr.range.stop)
    (hc : (post = false ∧ ∃ cr, s.regs c = some cr ∧ cr.state = .standby) ∨ (post = true ∧ s.regs c = none)) :
    ∃ s', applyEntry logs s p i ⟨pr.epoch, .split job c key pr.epoch.version post⟩ = .ok s' ∧
      s'.view p = some ⟨⟨pr.epoch.conf, pr.epoch.version + 1⟩, .normal, ⟨key, pr.range.stop⟩⟩ ∧
      (∃ ce, s'.view c = some ⟨ce, .normal, ⟨pr.range.start, key⟩⟩ ∧
        (∀ cr, s.regs c = some cr → ce = ⟨cr.epoch.conf, cr.epoch.version + 1⟩) ∧ (s.regs c = none → ce = ⟨1, 2⟩)) ∧
      (∃ g, s'.regs c = some g ∧ pr.rawMax ≤ g.rawMax ∧ pr.accMax ≤ g.accMax) ∧
      (∀ j, j ≠ p → j ≠ c → s'.regs j = s.regs j) ∧ s'.data = s.data := by
  have ha : abandons pr.state = false ∧ pr.state ≠ .standby := by
    rcases hs with h | h <;> rw [h] <;> decide
  have hl' : s.loops.any (fun l => l.source == p && l.active s) = false := by
    simp only [List.any_eq_false, Bool.and_eq_true, beq_iff_eq, not_and]
    exact fun l hx h => absurd h (hl l hx)
  have hplan : ∃ fs, splitPlan s p job c key pr.epoch.version post = .ok fs := by
    rcases hc with ⟨rfl, cr, hcr, hst⟩ | ⟨rfl, hcn⟩
    · exact ⟨_, plan_pre job hp hcr hst h1 h2⟩
    · exact ⟨_, plan_post job hp hcn h1 h2⟩
  obtain ⟨fs, hfs⟩ := hplan
  refine ⟨_, apply_split hi hp ha hl' hfs, ?_⟩
  rcases split_effect hp ha hfs with ⟨_, _, h⟩ | ⟨_, cv, h⟩
  · exact absurd rfl h
  · refine ⟨h.parent', ⟨cv, h.child', ?_, ?_⟩, h.ts, h.others, h.data⟩
    · intro cr hcr
      rcases h.childEpoch with ⟨e, _⟩ | ⟨cr', e, e'⟩
      · rw [e] at hcr; cases hcr
      · rw [e] at hcr; cases hcr; exact e'
    · intro hn
      rcases h.childEpoch with ⟨_, e⟩ | ⟨cr', e, e'⟩
      · exact e
      · rw [e] at hn; cases hn

/-- A store with one region `["b", "m")`, a prepared child 9 and a neighbour `["m", "z")`. -/
def exStore : Store :=
  { regs := fun j =>
      if j = 1 then some ⟨⟨1, 3⟩, .normal, ⟨[98], [109]⟩, 0, false, 70, 80⟩
      else if j = 2 then some ⟨⟨1, 1⟩, .normal, ⟨[109], [122]⟩, 0, false, 0, 0⟩
      else if j = 9 then some ⟨⟨1, 1⟩, .standby, ⟨[], []⟩, 0, false, 0, 0⟩ else none
    data := fun k => if k = [99] then some 5 else none
    applied := fun _ => 4
    loops := [] }

example : (exStore.applied 1 < 5 ∧ exStore.regs 1 = some ⟨⟨1, 3⟩, .normal, ⟨[98], [109]⟩, 0, false, 70, 80⟩) ∧
    (([98] : Bytes) < [101] ∧ ([101] : Bytes) < [109]) ∧ ((exStore.regs 9).map Reg.state = some .standby) := by decide

example : ((applyEntry (fun _ => []) exStore 1 5 ⟨⟨1, 3⟩, .split 7 9 [101] 3 false⟩).map fun s =>
      (s.view 1, s.view 9, s.view 2)).toOption =
    some (some ⟨⟨1, 4⟩, .normal, ⟨[101], [109]⟩⟩, some ⟨⟨1, 2⟩, .normal, ⟨[98], [101]⟩⟩,
      some ⟨⟨1, 1⟩, .normal, ⟨[109], [122]⟩⟩) := by decide

/-! ### Histories -/

/-- **No split, in any history, makes a key served twice or not at all.**  Take a store on
which no key is served by two regions and any sequence of write, split and rollback-merge
entries, on any regions, with any epochs and contents, that the store gets through.  A key is
served afterwards exactly if it was served before, and by exactly one region. -/
theorem C39_history (logs : Nat → List Entry) (es : List (Nat × Nat × Entry)) (s s' : Store)
    (hn : ∀ x ∈ es, x.2.2.cmd.noMerge = true) (h : applyAll logs s es = .ok s')
    (hnew : ∀ r g, s.view r = some g → g.state ≠ .new)
    (hone : ∀ r₁ r₂ k, s.serves r₁ k → s.serves r₂ k → r₁ = r₂) (k : Bytes) :
    ((∃ r, s.serves r k) → ∃ r, s'.serves r k ∧ ∀ r', s'.serves r' k → r' = r) ∧
      ((∃ r, s'.serves r k) → ∃ r, s.serves r k) := by
  obtain ⟨hd, hk⟩ := all_disjoint es hn h ⟨hnew, hone⟩
  refine ⟨fun hr => ?_, (hk k).2⟩
  obtain ⟨r, hr'⟩ := (hk k).1 hr
  exact ⟨r, hr', fun r' h' => hd.one r' r k h' hr'⟩

/-- A history with two splits of the same region, the second of which comes too late and is
abandoned, and a split of the child. -/
example : ((applyAll (fun _ => []) exStore
      [(1, 5, ⟨⟨1, 3⟩, .split 7 9 [101] 3 false⟩), (1, 6, ⟨⟨1, 3⟩, .split 8 10 [104] 3 true⟩),
       (9, 5, ⟨⟨1, 2⟩, .split 9 11 [100] 2 true⟩), (1, 7, ⟨⟨1, 4⟩, .write [105] (some 6) 90⟩)]).map fun s =>
      (s.view 1, s.view 9, s.view 11, s.view 10)).toOption =
    some (some ⟨⟨1, 4⟩, .normal, ⟨[101], [109]⟩⟩, some ⟨⟨1, 3⟩, .normal, ⟨[100], [101]⟩⟩,
      some ⟨⟨1, 2⟩, .normal, ⟨[98], [100]⟩⟩, none) := by decide

/-- **An entry under another epoch changes nothing.**  An entry, of whatever kind, whose
epoch is not the region's, or that reaches a region being merged or deleted, leaves every
region's record and all data as they were. -/
theorem C39_stale (logs : Nat → List Entry) (s s' : Store) (r i : Nat) (e : Entry) (g : Info)
    (hg : s.view r = some g) (h : applyEntry logs s r i e = .ok s')
    (hs : e.epoch ≠ g.epoch ∨ g.state = .merging ∨ g.state = .tombstone ∨ g.state = .deleting ∨
      g.state = .deleted ∨ g.state = .orphan) :
    (∀ j, s'.view j = s.view j) ∧ s'.data = s.data := by
  unfold applyEntry at h
  split at h
  · cases h; exact ⟨fun _ => rfl, rfl⟩
  split at h
  · cases h
  rename_i g' hg'
  have : g = g'.info := by unfold Store.view at hg; rw [hg'] at hg; cases hg; rfl
  subst this
  split at h
  · cases h
  split at h
  · cases h
  dsimp only at h
  rw [if_pos] at h
  · simp only [Except.ok.injEq] at h
    subst h
    exact ⟨fun j => ite_view _ _ _ _, ite_data _ _ _⟩
  · simp only [Bool.or_eq_true, decide_eq_true_eq]
    rcases hs with h | h | h | h | h | h
    · exact .inr h
    all_goals
      left
      change g'.state = _ at h
      rw [h]; rfl

example : (exStore.view 1).map Info.epoch = some ⟨1, 3⟩ ∧
    (applyEntry (fun _ => []) exStore 1 5 ⟨⟨1, 2⟩, .write [99] none 0⟩).toOption.isSome = true := by decide

/-- **A split key outside the range never goes through.**  The process stops rather than
give a region an empty or an inverted range. -/
theorem C39_bad_key (logs : Nat → List Entry) (s : Store) (p c i : Nat) (job : Int) (key : Bytes) (post : Bool)
    (pr : Reg) (hi : s.applied p < i) (hp : s.regs p = some pr) (hs : Serving pr.state)
    (hl : ∀ l ∈ s.loops, l.source ≠ p) (hk : key ≤ pr.range.start ∨ pr.range.stop ≤ key) :
    applyEntry logs s p i ⟨pr.epoch, .split job c key pr.epoch.version post⟩ = .error .abort := by
  have ha : abandons pr.state = false ∧ pr.state ≠ .standby := by
    rcases hs with h | h <;> rw [h] <;> decide
  have hl' : s.loops.any (fun l => l.source == p && l.active s) = false := by
    simp only [List.any_eq_false, Bool.and_eq_true, beq_iff_eq, not_and]
    exact fun l hx h => absurd h (hl l hx)
  have hplan : splitPlan s p job c key pr.epoch.version post = .error .abort := by
    unfold splitPlan
    rw [hp]
    dsimp only
    rw [if_neg (by simp)]
    simp only [if_pos hk]
    split
    · rfl
    split <;> rfl
  have h0 : ¬ i ≤ s.applied p := by omega
  have ht : (Cmd.split job c key pr.epoch.version post).ts = 0 := rfl
  simp [applyEntry, h0, hp, ha.1, ha.2, hl', ht, handle, dispatch, hplan]

example : (applyEntry (fun _ => []) exStore 1 5 ⟨⟨1, 3⟩, .split 7 9 [98] 3 false⟩).toOption.isSome = false := by decide

/-- **A version stands for one range.**  Whatever entries a store gets through, splits and
merges included, no region disappears, no region's version goes back, and while a region's
version stays the same so does its range. -/
theorem C39_versions (logs : Nat → List Entry) (es : List (Nat × Nat × Entry)) (s s' : Store)
    (h : applyAll logs s es = .ok s') (r : Nat) (g : Info) (hg : s.view r = some g) :
    ∃ g', s'.view r = some g' ∧ g.epoch.version ≤ g'.epoch.version ∧
      (g.epoch = g'.epoch → g.range = g'.range) := by
  obtain ⟨g', h1, _, h2, h3⟩ := Mono.all es h r g hg
  exact ⟨g', h1, h2, fun e => h3 (by rw [e])⟩

/-- **A write that passed the range check is applied inside the region's range.**  A key that
was in the region's range when the write was checked against the region's epoch is still in
it when the write is applied, whatever happened in between: if the region has been cut or
merged, the epochs differ and the write is not applied. -/
theorem C39_write_in_range (logs : Nat → List Entry) (es : List (Nat × Nat × Entry)) (s s' s'' : Store)
    (h : applyAll logs s es = .ok s') (r i : Nat) (k : Bytes) (v : Option Nat) (ts : Int) (g : Info)
    (hg : s.view r = some g) (hk : g.range.has k)
    (h' : applyEntry logs s' r i ⟨g.epoch, .write k v ts⟩ = .ok s'') :
    s''.data = s'.data ∨
      ((∃ g', s'.view r = some g' ∧ g'.range.has k) ∧ ∀ k', s''.data k' = if k' = k then v else s'.data k') := by
  obtain ⟨g', hg', _, h3⟩ := C39_versions logs es s s' h r g hg
  unfold applyEntry at h'
  split at h'
  · cases h'; exact .inl rfl
  split at h'
  · cases h'
  rename_i gr hgr
  split at h'
  · cases h'
  split at h'
  · cases h'
  dsimp only at h'
  split at h'
  · simp only [Except.ok.injEq] at h'
    subst h'
    exact .inl (ite_data _ _ _)
  rename_i hab
  simp only [Bool.or_eq_true, decide_eq_true_eq, not_or, Bool.not_eq_true, ne_eq, Decidable.not_not] at hab
  simp only [handle, dispatch, Except.ok.injEq] at h'
  subst h'
  right
  refine ⟨⟨g', hg', ?_⟩, fun k' => ?_⟩
  · have he : g.epoch = g'.epoch := by
      unfold Store.view at hg'
      rw [hgr] at hg'
      cases hg'
      exact hab.2
    rw [← h3 he]; exact hk
  · change (if k' = k then v else (if 0 < ts then s'.on r (fun x => x.raise ts x.accMax) else s').data k') = _
    rw [ite_data]

example : (exStore.view 1).map (fun g => decide (g.range.start ≤ [105] ∧ ([105] : Bytes) < g.range.stop)) = some true := by
  decide

/-! ### Crashes inside a split -/

/-- **A split interrupted by a crash, and then repeated.**  The updates of the region records
are written one by one.  If the store stops before the child's record has been changed, or
after the last update, then once the entry has been applied again every region's record is
what it would have been without the crash.  Missing: the crash points in between, where it
is false, see below. -/
theorem C39_crash_partial (logs : Nat → List Entry) (s s₁ : Store) (p c i n : Nat) (job : Int) (key : Bytes)
    (pr cr : Reg) (hi : s.applied p < i) (hp : s.regs p = some pr) (hs : Serving pr.state)
    (hc : s.regs c = some cr) (hst : cr.state = .standby)
    (h1 : pr.range.start < key) (h2 : key < pr.range.stop)
    (hn : n ≤ 6 ∨ 10 ≤ n) (hl : ∀ l ∈ s.loops, l.source ≠ p)
    (h : crashInSplit s p job c key pr.epoch.version false n = some s₁) :
    ∃ a b, applyEntry logs s p i ⟨pr.epoch, .split job c key pr.epoch.version false⟩ = .ok a ∧
      applyEntry logs s₁ p i ⟨pr.epoch, .split job c key pr.epoch.version false⟩ = .ok b ∧
      ∀ j, b.view j = a.view j := by
  obtain ⟨a, ha, hap, ⟨ce, hac, _, _⟩, _, hao, _⟩ :=
    C39_split logs s p c i job key false pr hi hp hs hl h1 h2 (.inl ⟨rfl, cr, hc, hst⟩)
  have hae : ∃ cv, SplitEff s (run s ((fun s => s.on p (Reg.setJob job)) :: preSteps p c pr key)) p c key pr cv := by
    rcases split_effect hp (by rcases hs with h | h <;> rw [h] <;> decide) (plan_pre job hp hc hst h1 h2) with ⟨_, _, h⟩ | ⟨_, h⟩
    · exact absurd rfl h
    · exact h
  obtain ⟨cv, hae⟩ := hae
  have hne : p ≠ c := hae.ne
  have hne' : c ≠ p := Ne.symm hne
  rw [crashInSplit, plan_pre job hp hc hst h1 h2] at h
  simp only [Option.some.injEq] at h
  have haeq : a = (run s ((fun s => s.on p (Reg.setJob job)) :: preSteps p c pr key)).setApplied p i := by
    have := apply_split (logs := logs) hi hp (by rcases hs with h | h <;> rw [h] <;> decide)
      (by simp only [List.any_eq_false, Bool.and_eq_true, beq_iff_eq, not_and]
          exact fun l hx h => absurd h (hl l hx)) (plan_pre job hp hc hst h1 h2)
    rw [this] at ha
    cases ha; rfl
  rcases hn with hn | hn
  · -- the child's record is untouched: the split is carried out again
    have key1 : (∃ pr₁, s₁.regs p = some pr₁ ∧ pr₁.epoch = pr.epoch ∧ pr₁.range = pr.range ∧ Serving pr₁.state) ∧
        (∃ cr₁, s₁.regs c = some cr₁ ∧ cr₁.epoch = cr.epoch ∧ cr₁.state = .standby) ∧
        (∀ j, j ≠ p → j ≠ c → s₁.view j = s.view j) ∧ s₁.applied = s.applied ∧ s₁.loops = [] := by
      have hcases : n = 0 ∨ n = 1 ∨ n = 2 ∨ n = 3 ∨ n = 4 ∨ n = 5 ∨ n = 6 := by omega
      rcases hcases with e | e | e | e | e | e | e <;> subst e <;> subst h <;>
      · refine ⟨?_, ?_, ?_, rfl, rfl⟩
        · simp only [preSteps, List.take, run, Store.restart, regs_on_same, regs_on_ne _ hne, hp, Option.map_some]
          refine ⟨_, rfl, ?_⟩
          rcases hs with hs | hs <;> simp [Reg.move, Reg.setDisabled, Reg.setJob, hs, canMove, Serving]
        · simp only [preSteps, List.take, run, Store.restart, regs_on_same, regs_on_ne _ hne', hc, Option.map_some]
          refine ⟨_, rfl, ?_⟩
          simp [Reg.move, Reg.setDisabled, Reg.raise, hst, canMove]
        · intro j g1 g2
          rw [view_restart]
          simp only [preSteps, List.take, run, Store.view, regs_on_ne _ g1, regs_on_ne _ g2]
    obtain ⟨⟨pr₁, k1, k2, k3, k4⟩, ⟨cr₁, k5, k6, k7⟩, k8, k9, k10⟩ := key1
    obtain ⟨b, hb, hbp, ⟨ce', hbc, hbv, _⟩, _, hbo, _⟩ :=
      C39_split logs s₁ p c i job key false pr₁ (by rw [k9]; exact hi) k1 k4 (by rw [k10]; simp)
        (by rw [k3]; exact h1) (by rw [k3]; exact h2) (.inl ⟨rfl, cr₁, k5, k7⟩)
    rw [k2] at hb
    refine ⟨a, b, ha, hb, ?_⟩
    have hbe : ∃ cv', SplitEff s₁ (run s₁ ((fun s => s.on p (Reg.setJob job)) :: preSteps p c pr₁ key)) p c key pr₁ cv' := by
      rcases split_effect k1 (by rcases k4 with h | h <;> rw [h] <;> decide)
        (plan_pre job k1 k5 k7 (by rw [k3]; exact h1) (by rw [k3]; exact h2)) with ⟨_, _, h⟩ | ⟨_, h⟩
      · exact absurd rfl h
      · exact h
    obtain ⟨cv', hbe⟩ := hbe
    have hbeq : b = (run s₁ ((fun s => s.on p (Reg.setJob job)) :: preSteps p c pr₁ key)).setApplied p i := by
      have := apply_split (logs := logs) (i := i) (s := s₁) (by rw [k9]; exact hi) k1 (by rcases k4 with h | h <;> rw [h] <;> decide)
        (by rw [k10]; rfl) (plan_pre job k1 k5 k7 (by rw [k3]; exact h1) (by rw [k3]; exact h2))
      rw [k2] at this
      rw [this] at hb
      cases hb; rfl
    intro j
    by_cases e1 : j = p
    · subst e1
      rw [hap, hbp, k2, k3]
    by_cases e2 : j = c
    · subst e2
      rw [haeq, hbeq, view_setApplied, view_setApplied, hae.child', hbe.child', k3]
      have : cv = cv' := by
        rcases hae.childEpoch with ⟨e, _⟩ | ⟨x, e, e'⟩
        · rw [hc] at e; cases e
        rcases hbe.childEpoch with ⟨f, _⟩ | ⟨y, f, f'⟩
        · rw [k5] at f; cases f
        rw [hc] at e; cases e
        rw [k5] at f; cases f
        rw [e', f', k6]
      rw [this]
    · have := k8 j e1 e2
      unfold Store.view at this ⊢
      rw [hbo j e1 e2, hao j e1 e2, this]
  · -- every update was made: the entry is abandoned
    have ht : (((fun s => s.on p (Reg.setJob job)) :: preSteps p c pr key).take n) =
        (fun s => s.on p (Reg.setJob job)) :: preSteps p c pr key :=
      List.take_of_length_le (by simp only [List.length_cons, preSteps, List.length_nil]; omega)
    rw [ht] at h
    subst h
    have hv : ∀ j, (run s ((fun s => s.on p (Reg.setJob job)) :: preSteps p c pr key)).restart.view j = a.view j := by
      intro j
      rw [haeq, view_setApplied, view_restart]
    generalize hx : (run s ((fun s => s.on p (Reg.setJob job)) :: preSteps p c pr key)).restart = x at hv ⊢
    have hxa : x.applied = s.applied := by rw [← hx]; rfl
    have hxl : x.loops = [] := by rw [← hx]; rfl
    have hxp := hv p
    rw [hap] at hxp
    unfold Store.view at hxp
    cases hr : x.regs p with
    | none => rw [hr] at hxp; cases hxp
    | some g =>
      rw [hr] at hxp
      simp only [Option.map_some, Reg.info, Option.some.injEq, Info.mk.injEq] at hxp
      obtain ⟨e1, e2, e3⟩ := hxp
      refine ⟨a, x.setApplied p i, ha, ?_, fun j => by rw [view_setApplied, hv]⟩
      have h0 : ¬ i ≤ x.applied p := by rw [hxa]; omega
      have hep : pr.epoch ≠ g.epoch := by
        rw [e1]; intro h
        have := congrArg Epoch.version h
        simp only at this
        omega
      have ht : (Cmd.split job c key pr.epoch.version false).ts = 0 := rfl
      simp [applyEntry, h0, hr, e2, hxl, ht, hep, abandons]

example : (crashInSplit exStore 1 7 9 [101] 3 false 6).isSome = true ∧
    (crashInSplit exStore 1 7 9 [101] 3 false 10).isSome = true := by decide

/-- **A crash between the child's and the parent's update leaves the child's replica one
version ahead.**  Repeating the split bumps the child's version a second time, so that this
store never applies what the other replicas of the child agree on. -/
theorem C39_crash_ahead_false :
    ∃ (s s₁ a b : Store) (e : Entry) (w : Entry),
      crashInSplit s 1 7 9 [101] 3 false 7 = some s₁ ∧
      applyEntry (fun _ => []) s 1 5 e = .ok a ∧ applyEntry (fun _ => []) s₁ 1 5 e = .ok b ∧
      (a.view 9).map Info.epoch = some ⟨1, 2⟩ ∧ (b.view 9).map Info.epoch = some ⟨1, 3⟩ ∧
      -- a write the other replicas accept and apply is not applied here
      w = ⟨⟨1, 2⟩, .write [99] (some 6) 0⟩ ∧
      (applyEntry (fun _ => []) a 9 5 w).toOption.map (fun s => s.data [99]) = some (some 6) ∧
      (applyEntry (fun _ => []) b 9 5 w).toOption.map (fun s => s.data [99]) = some (some 5) := by
  refine ⟨exStore, _, _, _, ⟨⟨1, 3⟩, .split 7 9 [101] 3 false⟩, _, rfl, rfl, rfl, ?_, ?_, rfl, ?_, ?_⟩ <;> decide

/-- **A crash after the parent's update leaves the child waiting for ever.**  The repeated
entry is abandoned, because the parent's version has moved on, and the child stays a
stand-by: this store serves the keys from the old start to the split key no more. -/
theorem C39_crash_lost_false (logs : Nat → List Entry) (s s₁ s₂ : Store) (p c i n : Nat) (job : Int) (key : Bytes)
    (pr cr : Reg) (hp : s.regs p = some pr) (hs : Serving pr.state)
    (hc : s.regs c = some cr) (hst : cr.state = .standby)
    (h1 : pr.range.start < key) (h2 : key < pr.range.stop) (hn : n = 8 ∨ n = 9)
    (h : crashInSplit s p job c key pr.epoch.version false n = some s₁)
    (h' : applyEntry logs s₁ p i ⟨pr.epoch, .split job c key pr.epoch.version false⟩ = .ok s₂) :
    (s₂.view c).map Info.state = some .standby ∧
      (∀ k, ¬ s₂.serves c k ∧ (k < key → ¬ s₂.serves p k)) ∧
      ∀ i' e, applyEntry logs s₂ c i' e = .ok s₂ ∨ applyEntry logs s₂ c i' e = .error .blocked := by
  have ha : abandons pr.state = false ∧ pr.state ≠ .standby := by rcases hs with h | h <;> rw [h] <;> decide
  have hae : ∃ cv, SplitEff s (run s ((fun s => s.on p (Reg.setJob job)) :: preSteps p c pr key)) p c key pr cv := by
    rcases split_effect hp ha (plan_pre job hp hc hst h1 h2) with ⟨_, _, h⟩ | ⟨_, h⟩
    · exact absurd rfl h
    · exact h
  obtain ⟨cv, hae⟩ := hae
  have hne : p ≠ c := hae.ne
  have hne' : c ≠ p := Ne.symm hne
  rw [crashInSplit, plan_pre job hp hc hst h1 h2] at h
  simp only [Option.some.injEq] at h
  have key1 : (∃ g, s₁.view p = some g ∧ g.epoch ≠ pr.epoch ∧ g.range = ⟨key, pr.range.stop⟩) ∧
      (∃ g, s₁.view c = some g ∧ g.state = .standby) := by
    rcases hn with e | e <;> subst e <;> subst h <;>
    · refine ⟨?_, ?_⟩
      · simp only [preSteps, List.take, run, Store.restart, Store.view, regs_on_same, regs_on_ne _ hne, hp, Option.map_some]
        refine ⟨_, rfl, ?_⟩
        simp only [bump_eq]
        rcases hs with hs | hs <;> simp [Reg.info, Reg.move, Reg.setDisabled, Reg.setJob, hs, canMove] <;>
        · intro h
          have := congrArg Epoch.version h
          simp only at this
          omega
      · simp only [preSteps, List.take, run, Store.restart, Store.view, regs_on_same, regs_on_ne _ hne', hc, Option.map_some]
        refine ⟨_, rfl, ?_⟩
        simp only [bump_eq]
        simp [Reg.info, Reg.move, Reg.setDisabled, Reg.raise, hst, canMove]
  obtain ⟨⟨gp, k1, k2, k3⟩, gc, k4, k5⟩ := key1
  obtain ⟨hv, _⟩ := C39_stale logs s₁ s₂ p i _ gp k1 h' (.inl (Ne.symm k2))
  have hvc := hv c
  have hvp := hv p
  rw [k4] at hvc
  rw [k1] at hvp
  refine ⟨by rw [hvc]; simp [k5], fun k => ⟨?_, ?_⟩, ?_⟩
  · rintro ⟨g, hg, hsv, _⟩
    rw [hvc] at hg
    cases hg
    rw [k5] at hsv
    rcases hsv with h | h <;> cases h
  · rintro hk ⟨g, hg, _, hr⟩
    rw [hvp] at hg
    cases hg
    rw [k3] at hr
    exact List.not_le.2 hk hr.1
  · intro i' e
    unfold applyEntry
    split
    · exact .inl rfl
    right
    unfold Store.view at hvc
    cases hr : s₂.regs c with
    | none => rfl
    | some g =>
      rw [hr] at hvc
      simp only [Option.map_some, Option.some.injEq] at hvc
      have : g.state = .standby := by
        have := congrArg Info.state hvc
        rw [k5] at this
        exact this
      simp [this]

example : ∃ s₁ s₂, crashInSplit exStore 1 7 9 [101] 3 false 8 = some s₁ ∧
    applyEntry (fun _ => []) s₁ 1 5 ⟨⟨1, 3⟩, .split 7 9 [101] 3 false⟩ = .ok s₂ := ⟨_, _, rfl, rfl⟩

/-- **With the other strategy a crash right after the child has been created cannot be
survived.**  After every restart the repeated split finds the child's id in use and stops the
process again. -/
theorem C39_crash_post_false (logs : Nat → List Entry) (s s₁ : Store) (p c i n : Nat) (job : Int) (key : Bytes)
    (pr : Reg) (hi : s.applied p < i) (hp : s.regs p = some pr) (hs : Serving pr.state)
    (hc : s.regs c = none) (h1 : pr.range.start < key) (h2 : key < pr.range.stop) (hn : n = 4 ∨ n = 5)
    (h : crashInSplit s p job c key pr.epoch.version true n = some s₁) :
    applyEntry logs s₁ p i ⟨pr.epoch, .split job c key pr.epoch.version true⟩ = .error .abort := by
  have hne : p ≠ c := by intro e; subst e; rw [hp] at hc; cases hc
  have hne' : c ≠ p := Ne.symm hne
  rw [crashInSplit, plan_post job hp hc h1 h2] at h
  simp only [Option.some.injEq] at h
  have key1 : (∃ g, s₁.regs p = some g ∧ g.epoch = pr.epoch ∧ g.range = pr.range ∧ g.state = .splitting) ∧
      (∃ g, s₁.regs c = some g) ∧ s₁.applied = s.applied ∧ s₁.loops = [] := by
    rcases hn with e | e <;> subst e <;> subst h <;>
    · refine ⟨?_, ?_, rfl, rfl⟩
      · simp only [postSteps, List.take, run, Store.restart, regs_on_same, regs_on_ne _ hne, regs_add_ne _ hne, hp, Option.map_some]
        refine ⟨_, rfl, ?_⟩
        rcases hs with hs | hs <;> simp [Reg.move, Reg.setDisabled, Reg.setJob, hs, canMove]
      · simp only [postSteps, List.take, run, Store.restart, regs_on_same, regs_add_same, Option.map_some]
        exact ⟨_, rfl⟩
  obtain ⟨⟨g, k1, k2, k3, k4⟩, ⟨g', k5⟩, k6, k7⟩ := key1
  have hplan : splitPlan s₁ p job c key pr.epoch.version true = .error .abort := by
    unfold splitPlan
    rw [k1]
    dsimp only
    rw [k2, k3, if_neg (by simp), if_neg (by simp), if_neg (by simpa using lt_trans h1 h2),
      if_neg (fun h => h.elim (List.not_le.2 h1) (List.not_le.2 h2)), if_pos rfl, if_pos (by simp [k5])]
  have h0 : ¬ i ≤ s₁.applied p := by rw [k6]; omega
  have ht : (Cmd.split job c key pr.epoch.version true).ts = 0 := rfl
  simp [applyEntry, h0, k1, k2, k4, k7, ht, abandons, handle, dispatch, hplan]

example : (crashInSplit exStore 1 7 10 [101] 3 true 4).isSome = true := by decide

end Verif.Region
