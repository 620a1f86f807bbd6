import Verif.Region.MergeLemmas
import Verif.Region.PropsSplit

/-!
# C40: region merge
-/

namespace Verif.Region
open Verif.Codec

/-! ### One store -/

/-- **A commit of a merge joins exactly the two ranges.**  If the store has applied the
source up to the prepare entry and the entry's copy of the source's range is right and next
to the target's, then the target ends up with exactly the keys of both, under a version above
both, still serving; the source is a tombstone and holds nothing; the target takes over the
larger of the two regions' timestamps; no other region and no data change. -/
theorem C40_commit (logs : Nat → List Entry) (s : Store) (tgt src i : Nat) (job : Int) (lo hi : Nat) (se : Epoch)
    (a b : Reg) (hi' : s.applied tgt < i) (ha : s.regs src = some a) (hb : s.regs tgt = some b) (hne : tgt ≠ src)
    (hst : a.state = .merging) (hbs : Serving b.state) (hhi : hi ≤ s.applied src)
    (hl : ∀ l ∈ s.loops, l.source ≠ tgt)
    (h1 : a.range.start < a.range.stop) (h2 : b.range.start < b.range.stop)
    (hadj : a.range.stop = b.range.start ∨ b.range.stop = a.range.start) :
    ∃ s', applyEntry logs s tgt i ⟨b.epoch, .commitMerge job src se a.range lo hi⟩ = .ok s' ∧
      (∀ k, s'.serves tgt k ↔ a.range.has k ∨ b.range.has k) ∧
      (∀ k, ¬ s'.serves src k) ∧ ((s'.view src).map Info.state = some .tombstone) ∧
      (∃ g, s'.regs tgt = some g ∧ se.version < g.epoch.version ∧ b.epoch.version < g.epoch.version ∧
        a.rawMax ≤ g.rawMax ∧ b.rawMax ≤ g.rawMax ∧ a.accMax ≤ g.accMax ∧ b.accMax ≤ g.accMax) ∧
      (∀ j, j ≠ tgt → j ≠ src → s'.regs j = s.regs j) ∧ s'.data = s.data := by
  obtain ⟨s', hs', heff⟩ := commit_effect (logs := logs) (job := job) (se := se) (lo := lo) hne ha hb hhi hst
  have hab : abandons b.state = false ∧ b.state ≠ .standby := by
    rcases hbs with h | h <;> rw [h] <;> decide
  have hl' : s.loops.any (fun l => l.source == tgt && l.active s) = false := by
    simp only [List.any_eq_false, Bool.and_eq_true, beq_iff_eq, not_and]
    exact fun l hx h => absurd h (hl l hx)
  have h0 : ¬ i ≤ s.applied tgt := by omega
  have ht : (Cmd.commitMerge job src se a.range lo hi).ts = 0 := rfl
  refine ⟨s'.setApplied tgt i, ?_, ?_, ?_, ?_, ?_, heff.others, heff.data⟩
  · simp [applyEntry, h0, hb, hab.1, hab.2, hl', ht, handle, hs']
  · intro k
    rw [← merged_has h1 h2 hadj]
    unfold Store.serves
    rw [view_setApplied, heff.tgt']
    constructor
    · rintro ⟨g, hg, _, hk⟩; cases hg; exact hk
    · exact fun hk => ⟨_, rfl, hbs, hk⟩
  · rintro k ⟨g, hg, hh, _⟩
    obtain ⟨g', hg', hs', _⟩ := heff.src'
    rw [view_setApplied, hg'] at hg
    cases hg
    rw [hs'] at hh
    rcases hh with e | e <;> cases e
  · obtain ⟨g', hg', hs', _⟩ := heff.src'
    rw [view_setApplied, hg', Option.map_some, hs']
  · obtain ⟨g, hg, e1, e2, _⟩ := heff.ts
    refine ⟨g, hg, ?_⟩
    have hv := heff.tgt'
    unfold Store.view at hv
    rw [hg] at hv
    simp only [Option.map_some, Reg.info, Option.some.injEq, Info.mk.injEq] at hv
    rw [hv.1, e1, e2]
    simp only
    omega

/-- Region 1 `["b", "m")` being merged into region 2 `["m", "z")`. -/
def mStore : Store :=
  { regs := fun j =>
      if j = 1 then some ⟨⟨1, 4⟩, .merging, ⟨[98], [109]⟩, 7, true, 70, 80⟩
      else if j = 2 then some ⟨⟨1, 1⟩, .normal, ⟨[109], [122]⟩, 0, false, 30, 90⟩ else none
    data := fun k => if k = [99] then some 5 else none
    applied := fun _ => 4
    loops := [] }

example : (mStore.applied 2 < 5 ∧ (mStore.regs 1).map Reg.state = some .merging ∧ 4 ≤ mStore.applied 1) ∧
    ((applyEntry (fun _ => []) mStore 2 5 ⟨⟨1, 1⟩, .commitMerge 7 1 ⟨1, 3⟩ ⟨[98], [109]⟩ 3 4⟩).map fun s =>
      (s.view 1, s.view 2)).toOption =
    some (some ⟨⟨1, 5⟩, .tombstone, ⟨[255, 255, 255, 255, 255, 255, 255, 255, 255], [109]⟩⟩,
      some ⟨⟨1, 4⟩, .normal, ⟨[98], [122]⟩⟩) := by decide

/-- **Through any history of splits and merges a store keeps every key in exactly one
region.**  Provided each commit of a merge that is let through finds the source as the entry
describes it (`CommitFits`), a key that some region held, serving or being merged, is held
afterwards by exactly one region, and no key is gained.  Missing: that commits always find
the source so; the entries written by the code do when the checks of the merge command are
made at one instant, but the claim that the keys go on being *served* is false, see below. -/
theorem C40_history_partial (logs : Nat → List Entry) (es : List (Nat × Nat × Entry)) (s s' : Store)
    (hf : AllFit logs s es) (h : applyAll logs s es = .ok s')
    (hnew : ∀ r g, s.view r = some g → g.state ≠ .new)
    (hone : ∀ r₁ r₂ k, s.holds r₁ k → s.holds r₂ k → r₁ = r₂) (k : Bytes) :
    ((∃ r, s.holds r k) → ∃ r, s'.holds r k ∧ ∀ r', s'.holds r' k → r' = r) ∧
      ((∃ r, s'.holds r k) → ∃ r, s.holds r k) := by
  obtain ⟨hd, hk⟩ := all_apart es hf h ⟨hnew, hone⟩
  refine ⟨fun hr => ?_, (hk k).2⟩
  obtain ⟨r, hr'⟩ := (hk k).1 hr
  exact ⟨r, hr', fun r' h' => hd.one r' r k h' hr'⟩

example : AllFit (fun _ => []) mStore [(2, 5, ⟨⟨1, 1⟩, .commitMerge 7 1 ⟨1, 3⟩ ⟨[98], [109]⟩ 3 4⟩)] := by
  refine ⟨?_, fun _ _ => trivial⟩
  intro job src se sr lo hi h g hg _
  cases h
  exact ⟨by decide, by decide, _, _, rfl, rfl, rfl, rfl, by decide, by decide, by decide⟩

/-- **What a prepare does.**  Applied to a serving region under its epoch while the target's
epoch is the one in the entry, the region stops serving, keeps its range under the next
version, and the store starts proposing a commit that carries the region's own epoch and
range. -/
theorem C40_prepare (logs : Nat → List Entry) (s : Store) (src tgt i m : Nat) (job : Int) (a b : Reg)
    (hi' : s.applied src < i) (hne : tgt ≠ src) (ha : s.regs src = some a) (hb : s.regs tgt = some b)
    (hst : a.state = .normal) (hl : ∀ l ∈ s.loops, l.source ≠ src) :
    ∃ s', applyEntry logs s src i ⟨a.epoch, .prepareMerge job tgt b.epoch m⟩ = .ok s' ∧
      s'.view src = some ⟨⟨a.epoch.conf, a.epoch.version + 1⟩, .merging, a.range⟩ ∧
      (∀ k, ¬ s'.serves src k) ∧
      s'.loops = s.loops ++ [⟨src, tgt, job, ⟨b.epoch, .commitMerge job src a.epoch a.range (m + 1) i⟩⟩] ∧
      (∀ j, j ≠ src → s'.regs j = s.regs j) ∧ s'.data = s.data ∧ s'.applied src = i := by
  have hl' : s.loops.any (fun l => l.source == src && l.active s) = false := by
    simp only [List.any_eq_false, Bool.and_eq_true, beq_iff_eq, not_and]
    exact fun l hx h => absurd h (hl l hx)
  have h0 : ¬ i ≤ s.applied src := by omega
  have ht : (Cmd.prepareMerge job tgt b.epoch m).ts = 0 := rfl
  have hcmp : cmpEpoch b.epoch b.epoch = .eq := by simp [cmpEpoch]
  have hap : applyEntry logs s src i ⟨a.epoch, .prepareMerge job tgt b.epoch m⟩ =
      .ok (Store.setApplied { startMerge (s.on src (fun r => (r.setJob job).setDisabled true)) src with
        loops := s.loops ++ [⟨src, tgt, job, ⟨b.epoch, .commitMerge job src a.epoch a.range (m + 1) i⟩⟩] } src i) := by
    simp [applyEntry, h0, ha, hst, abandons, hl', ht, handle, dispatch, prepareMerge, regs_on_ne _ hne, hb, hcmp, regs_on_same]
    rfl
  have hv : ∀ (s₁ : Store), s₁.regs = (startMerge (s.on src (fun r => (r.setJob job).setDisabled true)) src).regs →
      s₁.view src = some ⟨⟨a.epoch.conf, a.epoch.version + 1⟩, .merging, a.range⟩ := by
    intro s₁ h
    unfold Store.view
    rw [h, startMerge, regs_on_same, regs_on_same, ha]
    simp only [Option.map_some, bump_eq]
    simp [Reg.info, Reg.move, Reg.setDisabled, Reg.setJob, hst, canMove]
  refine ⟨_, hap, hv _ rfl, ?_, rfl, ?_, rfl, by simp [Store.setApplied]⟩
  · rintro k ⟨g, hg, hs, _⟩
    have h' := (hv _ rfl).symm.trans hg
    cases h'
    rcases hs with h | h <;> cases h
  · intro j hj
    change (startMerge (s.on src (fun r => (r.setJob job).setDisabled true)) src).regs j = _
    rw [startMerge, regs_on_ne _ hj, regs_on_ne _ hj]

example : (exStore.regs 1).map Reg.state = some .normal ∧
    ((applyEntry (fun _ => []) exStore 1 5 ⟨⟨1, 3⟩, .prepareMerge 8 2 ⟨1, 1⟩ 2⟩).map fun s => s.loops).toOption =
      some [⟨1, 2, 8, ⟨⟨1, 1⟩, .commitMerge 8 1 ⟨1, 3⟩ ⟨[98], [109]⟩ 3 5⟩⟩] := by decide

/-- **Entries copied along with the commit have the effect they have anywhere.**  When the
copied entries are writes under the source's epoch, applying them during the commit leaves the
same data, region records and applied index as applying them from the source's own log.
Missing: entries under another epoch, which the source's own log would abandon, see below; and
the timestamps of the writes, which are not recorded here. -/
theorem C40_catch_up_partial (logs : Nat → List Entry) (src : Nat) (g : Info) (es : List (Entry × Nat)) (s : Store)
    (hg : s.view src = some g) (hsv : Serving g.state) (hl : ∀ l ∈ s.loops, l.source ≠ src)
    (hw : ∀ x ∈ es, x.1.epoch = g.epoch ∧ ∃ k v ts, x.1.cmd = .write k v ts) :
    ∃ a b, catchUp src es s = .ok a ∧ applyAll logs s (es.map fun x => (src, x.2, x.1)) = .ok b ∧
      a.data = b.data ∧ (∀ j, a.view j = b.view j) ∧ a.applied = b.applied := by
  have hgen : ∀ (es : List (Entry × Nat)) (s t : Store), s.data = t.data → (∀ j, s.view j = t.view j) →
      s.applied = t.applied → s.view src = some g → (∀ l ∈ t.loops, l.source ≠ src) →
      (∀ x ∈ es, x.1.epoch = g.epoch ∧ ∃ k v ts, x.1.cmd = .write k v ts) →
      ∃ a b, catchUp src es s = .ok a ∧ applyAll logs t (es.map fun x => (src, x.2, x.1)) = .ok b ∧
        a.data = b.data ∧ (∀ j, a.view j = b.view j) ∧ a.applied = b.applied := by
    intro es
    induction es with
    | nil => exact fun s t h1 h2 h3 _ _ _ => ⟨s, t, rfl, rfl, h1, h2, h3⟩
    | cons x es ih =>
      obtain ⟨⟨ee, ec⟩, i⟩ := x
      intro s t h1 h2 h3 hg hl hw
      obtain ⟨he, k, v, ts, hc⟩ := hw _ (List.mem_cons_self ..)
      simp only at he hc
      subst he hc
      have hw' : ∀ x ∈ es, x.1.epoch = g.epoch ∧ ∃ k v ts, x.1.cmd = .write k v ts :=
        fun x hx => hw x (List.mem_cons_of_mem _ hx)
      unfold catchUp
      simp only [List.map_cons]
      unfold applyAll applyEntry
      rw [h3]
      by_cases hi : i ≤ t.applied src
      · rw [if_pos hi, if_pos hi]
        exact ih s t h1 h2 h3 hg hl hw'
      · rw [if_neg hi, if_neg hi]
        have hgt : t.view src = some g := by rw [← h2]; exact hg
        have hgt' := hgt
        unfold Store.view at hgt
        cases hr : t.regs src with
        | none => rw [hr] at hgt; cases hgt
        | some r =>
          rw [hr] at hgt
          simp only [Option.map_some, Option.some.injEq] at hgt
          subst hgt
          have hab : abandons r.state = false ∧ r.state ≠ .standby := by
            change Serving r.state at hsv
            rcases hsv with h | h <;> rw [h] <;> decide
          have hl' : t.loops.any (fun l => l.source == src && l.active t) = false := by
            simp only [List.any_eq_false, Bool.and_eq_true, beq_iff_eq, not_and]
            exact fun l hx h => absurd h (hl l hx)
          have hre : r.info.epoch = r.epoch := rfl
          simp only [hab.1, hab.2, hl', hre, if_false, Bool.false_or, ne_eq, not_true_eq_false, decide_false,
            Bool.false_eq_true, handle, dispatch]
          refine ih _ _ ?_ ?_ ?_ ?_ ?_ hw'
          · funext k'
            change (if k' = k then v else s.data k') = (if k' = k then v else (if 0 < ts then
              t.on src (fun x => x.raise ts x.accMax) else t).data k')
            rw [ite_data, h1]
          · intro j
            change s.view j = (if 0 < ts then t.on src (fun x => x.raise ts x.accMax) else t).view j
            rw [ite_view, h2]
          · change (fun j => if j = src then i else s.applied j) = (fun j => if j = src then i else
              (if 0 < ts then t.on src (fun x => x.raise ts x.accMax) else t).applied j)
            have : (if 0 < ts then t.on src (fun x => x.raise ts x.accMax) else t).applied = t.applied := by
              split <;> rfl
            rw [this, h3]
          · exact hg
          · intro l hx
            have : (if 0 < ts then t.on src (fun x => x.raise ts x.accMax) else t).loops = t.loops := by
              split <;> rfl
            refine hl l ?_
            rw [← this]; exact hx
  exact hgen es s s rfl (fun _ => rfl) rfl hg hl hw

example : (exStore.view 1).map Info.state = some .normal ∧
    ((catchUp 1 [(⟨⟨1, 3⟩, .write [99] (some 6) 50⟩, 5)] exStore).map fun s => (s.data [99], s.applied 1)).toOption =
      some (some 6, 5) := by decide

/-- **A store that lags catches up exactly.**  If the store has applied the source's log up to
`pre`, the commit copies at least the entries after `pre`, and these are writes `ws` followed by
the prepare, then after the commit the data are those after `ws`, each applied once and in order,
the source counts as applied up to the prepare, and the ranges are joined as usual. -/
theorem C40_commit_lagging (logs : Nat → List Entry) (s : Store) (tgt src i m lo : Nat) (job : Int) (se ep : Epoch)
    (a b : Reg) (pre ws post : List Entry) (hi' : s.applied tgt < i)
    (hlog : logs src = pre ++ ws ++ ⟨ep, .prepareMerge job tgt b.epoch m⟩ :: post) (hpre : s.applied src = pre.length)
    (hlo : lo ≤ pre.length + 1) (hws : ∀ e ∈ ws, ∃ k v ts, e.cmd = .write k v ts)
    (ha : s.regs src = some a) (hb : s.regs tgt = some b) (hne : tgt ≠ src)
    (hst : a.state = .normal) (hbs : Serving b.state) (hl : ∀ l ∈ s.loops, l.source ≠ tgt)
    (h1 : a.range.start < a.range.stop) (h2 : b.range.start < b.range.stop)
    (hadj : a.range.stop = b.range.start ∨ b.range.stop = a.range.start) :
    ∃ s', applyEntry logs s tgt i ⟨b.epoch, .commitMerge job src se a.range lo (pre.length + ws.length + 1)⟩ = .ok s' ∧
      s'.data = replay ws s.data ∧ s'.applied src = pre.length + ws.length + 1 ∧
      (∀ k, s'.serves tgt k ↔ a.range.has k ∨ b.range.has k) ∧ (∀ k, ¬ s'.serves src k) := by
  have hne' : src ≠ tgt := Ne.symm hne
  obtain ⟨old, hold, hwin⟩ := window_split pre ws ⟨ep, .prepareMerge job tgt b.epoch m⟩ post hlo
  rw [← hlog] at hwin
  have hcmp : cmpEpoch b.epoch b.epoch = .eq := by simp [cmpEpoch]
  -- the store after the catch-up
  let s₀ := s.on tgt (fun r => (r.setJob job).setDisabled true)
  let s₂ : Store := { s₀ with
    data := replay ws s₀.data
    applied := fun j => if j = src then pre.length + ws.length else s₀.applied j }
  let s₃ := s₂.on src (fun r => (r.setJob job).setDisabled true)
  let s₁ : Store := Store.setApplied { startMerge s₃ src with
    loops := s₃.loops ++ [⟨src, tgt, job, ⟨b.epoch, .commitMerge job src a.epoch a.range (m + 1) (pre.length + ws.length + 1)⟩⟩] }
    src (pre.length + ws.length + 1)
  have ht₀ : s₀.regs tgt = some ((b.setJob job).setDisabled true) := by
    change (s.on tgt _).regs tgt = _
    rw [regs_on_same, hb]; rfl
  have ha₀ : s₀.regs src = some a := by
    change (s.on tgt _).regs src = _
    rw [regs_on_ne _ hne', ha]
  have ht₃ : s₃.regs tgt = some ((b.setJob job).setDisabled true) := by
    change (s₂.on src _).regs tgt = _
    rw [regs_on_ne _ hne]; exact ht₀
  have ha₃ : s₃.regs src = some ((a.setJob job).setDisabled true) := by
    change (s₂.on src _).regs src = _
    rw [regs_on_same]; change (s₀.regs src).map _ = _; rw [ha₀]; rfl
  have hcatch : catchUp src (window (logs src) lo (pre.length + ws.length + 1)) s₀ = .ok s₁ := by
    rw [hwin, catchUp_skip _ _ _ fun x hx => by
      have := hold x hx
      change x.2 ≤ s.applied src
      omega]
    rw [catchUp_writes _ ws pre.length s₀ hpre hws]
    change catchUp src [(_, _)] s₂ = _
    have hs₂ : s₂.applied src = pre.length + ws.length := by
      change (if src = src then _ else _) = _
      rw [if_pos rfl]
    rw [catchUp, if_neg (by omega)]
    have : dispatch s₂ src (pre.length + ws.length + 1) (.prepareMerge job tgt b.epoch m) = .ok { startMerge s₃ src with
        loops := s₃.loops ++ [⟨src, tgt, job, ⟨b.epoch, .commitMerge job src a.epoch a.range (m + 1) (pre.length + ws.length + 1)⟩⟩] } := by
      simp only [dispatch, prepareMerge]
      change (match s₃.regs tgt with | none => _ | some t => _) = _
      rw [ht₃]
      have hc : cmpEpoch ((b.setJob job).setDisabled true).epoch b.epoch = .eq := hcmp
      simp only [hc]
      change (match s₃.regs src with | none => _ | some r => _) = _
      rw [ha₃]
      rfl
    simp only [this]
    rfl
  have hsm : ∀ j, s₁.regs j = (startMerge s₃ src).regs j := fun _ => rfl
  have ha₁ : ∃ a', s₁.regs src = some a' ∧ a'.state = .merging ∧ a'.range = a.range := by
    refine ⟨_, by rw [hsm, startMerge, regs_on_same, ha₃]; rfl, ?_, ?_⟩ <;> dsimp only <;> rw [bump_eq] <;>
      simp [Reg.move, Reg.setDisabled, Reg.setJob, hst, canMove]
  obtain ⟨a', ha₁, hst', hra⟩ := ha₁
  have ht₁ : s₁.regs tgt = some ((b.setJob job).setDisabled true) := by
    rw [hsm, startMerge, regs_on_ne _ hne]; exact ht₃
  have happ : s₁.applied src = pre.length + ws.length + 1 := by
    change (if src = src then _ else _) = _
    rw [if_pos rfl]
  have hid : s₁.on tgt (fun r => (r.setJob job).setDisabled true) = s₁ := by
    unfold Store.on
    congr 1
    funext j
    split
    · next h => subst h; rw [ht₁]; exact ht₁.symm
    · rfl
  have hcm := commit_catchUp (logs := logs) (se := se) (sr := a.range) (job := job) (s₁ := s₁) ha hne' hcatch
    (Nat.le_of_eq happ.symm) ha₁ hid
  obtain ⟨s', hs', heff⟩ := commit_effect (logs := logs) (job := job) (se := se) (lo := lo)
    (hi := pre.length + ws.length + 1) hne ha₁ ht₁ (Nat.le_of_eq happ.symm) hst'
  rw [hra, ← hcm] at hs'
  have hab : abandons b.state = false ∧ b.state ≠ .standby := by
    rcases hbs with h | h <;> rw [h] <;> decide
  have hl' : s.loops.any (fun l => l.source == tgt && l.active s) = false := by
    simp only [List.any_eq_false, Bool.and_eq_true, beq_iff_eq, not_and]
    exact fun l hx h => absurd h (hl l hx)
  have h0 : ¬ i ≤ s.applied tgt := by omega
  have hts : (Cmd.commitMerge job src se a.range lo (pre.length + ws.length + 1)).ts = 0 := rfl
  refine ⟨s'.setApplied tgt i, ?_, ?_, ?_, ?_, ?_⟩
  · simp [applyEntry, h0, hb, hab.1, hab.2, hl', hts, handle, hs']
  · exact heff.data
  · have : s'.applied = s₁.applied := by
      rw [hcm] at hs'
      unfold commitMerge at hs'
      dsimp only at hs'
      rw [hid, ha₁] at hs'
      dsimp only at hs'
      rw [catchUp_done _ _ fun x hx => Nat.le_trans (window_le x hx) (Nat.le_of_eq happ.symm)] at hs'
      dsimp only at hs'
      rw [ha₁, ht₁] at hs'
      cases hs'
      rfl
    simp only [Store.setApplied, if_neg hne']
    rw [this, happ]
  · intro k
    rw [← merged_has h1 h2 hadj]
    unfold Store.serves
    rw [view_setApplied, heff.tgt', hra]
    constructor
    · rintro ⟨g, hg, _, hk⟩; cases hg; exact hk
    · exact fun hk => ⟨_, rfl, hbs, hk⟩
  · rintro k ⟨g, hg, hh, _⟩
    obtain ⟨g', hg', hs', _⟩ := heff.src'
    rw [view_setApplied, hg'] at hg
    cases hg
    rw [hs'] at hh
    rcases hh with e | e <;> cases e

example : ((applyEntry (fun _ => [⟨⟨1, 3⟩, .write [99] (some 1) 1⟩, ⟨⟨1, 3⟩, .write [100] (some 2) 2⟩,
      ⟨⟨1, 3⟩, .write [100] (some 3) 3⟩, ⟨⟨1, 3⟩, .prepareMerge 8 2 ⟨1, 1⟩ 0⟩])
      { exStore with applied := fun _ => 1 } 2 2 ⟨⟨1, 1⟩, .commitMerge 8 1 ⟨1, 3⟩ ⟨[98], [109]⟩ 1 4⟩).map
      fun s => (s.data [100], s.applied 1, s.view 2)).toOption =
    some (some 3, 4, some ⟨⟨1, 4⟩, .normal, ⟨[98], [122]⟩⟩) := by decide

/-! ### Several stores -/

/-- Three stores with regions 1 `["b", "m")` and 2 `["m", "z")` and a prepared child 9. -/
def cStore : Store :=
  { regs := fun j =>
      if j = 1 then some ⟨⟨1, 1⟩, .normal, ⟨[98], [109]⟩, 0, false, 0, 0⟩
      else if j = 2 then some ⟨⟨1, 1⟩, .normal, ⟨[109], [122]⟩, 0, false, 0, 0⟩
      else if j = 9 then some ⟨⟨1, 1⟩, .standby, ⟨[], []⟩, 0, false, 0, 0⟩ else none
    data := fun _ => none
    applied := fun _ => 0
    loops := [] }

def cInit : Cluster := ⟨[cStore, cStore, cStore], fun _ => []⟩

/-- Everything in the logs has been applied everywhere and no merge loop runs. -/
def Cluster.quiet (c : Cluster) : Bool :=
  c.stores.all fun s => [1, 2, 9].all (fun r => s.applied r == (c.logs r).length) &&
    s.loops.all fun l => !l.active s

/-- A store accepts requests for a key in one of the regions. -/
def accepts (s : Store) (k : Bytes) : Bool :=
  [1, 2, 9].any fun r => (s.view r).any fun g => validateState g && validateKeys g.range [k]

/-- The merge that goes well: all three stores end up with one region. -/
example : (crun cInit
      [.write 0 1 ⟨1, 1⟩ [99] (some 7) 50, .merge 0 1 2 10, .apply 0 1, .apply 0 1, .apply 1 1, .apply 1 1, .launch 1 0,
       .apply 0 2, .apply 1 2, .apply 2 2]).map
      (fun c => (c.stores.map fun s => (s.view 2, s.data [99]), c.quiet)) =
    some ([(some ⟨⟨1, 2⟩, .normal, ⟨[98], [122]⟩⟩, some 7), (some ⟨⟨1, 2⟩, .normal, ⟨[98], [122]⟩⟩, some 7),
      (some ⟨⟨1, 2⟩, .normal, ⟨[98], [122]⟩⟩, some 7)], true) := by decide +kernel

/-- **A split of the target that slips in leaves the source's keys unserved for good.**  Only
the store that leads the source marks the target as busy; the store that leads the target
accepts a split after the merge was checked.  The commit then carries an epoch that no longer
holds, is abandoned everywhere, and the loop that would retry it ends because the target has
seen a newer job.  Every entry is applied on every store, nothing is left to run, and no
store serves the key. -/
theorem C40_stuck_false :
    ∃ evs c, crun cInit evs = some c ∧ c.quiet = true ∧
      accepts cStore [99] = true ∧ (c.stores.all fun s => !accepts s [99]) = true ∧
      (c.stores.all fun s => (s.view 1).map Info.state == some .merging) = true := by
  refine ⟨[.merge 0 1 2 10, .split 1 2 11 9 [116] false, .apply 0 1, .apply 1 1, .apply 2 1, .launch 1 0,
    .apply 0 2, .apply 0 2, .apply 1 2, .apply 1 2, .apply 2 2, .apply 2 2], _, rfl, ?_, ?_, ?_, ?_⟩ <;> decide +kernel

/-- **Replicas of the source can part ways.**  In the same situation a store that has already
split the target ignores the prepare and goes on serving the source under the old epoch,
while the others stop.  A write it accepts is applied there and abandoned by the others: all
entries are applied on all stores, and their data differ. -/
theorem C40_replicas_false :
    ∃ evs c, crun cInit evs = some c ∧ c.quiet = true ∧
      c.stores.map (fun s => s.data [99]) = [none, none, some 7] ∧
      c.stores.map (fun s => (s.view 1).map Info.state) = [some .merging, some .merging, some .normal] := by
  refine ⟨[.merge 0 1 2 10, .split 1 2 11 9 [116] false, .apply 2 2, .apply 0 1, .apply 1 1, .apply 2 1, .launch 1 0,
    .write 2 1 ⟨1, 1⟩ [99] (some 7) 50, .apply 2 1, .apply 0 2, .apply 0 2, .apply 1 2, .apply 1 2, .apply 2 2,
    .apply 0 1, .apply 1 1], _, rfl, ?_, ?_, ?_⟩ <;> decide +kernel

/-- **Entries copied with the commit are applied even if the region had refused them.**  A
write that came too late for a split, and was refused by the other stores, is applied by the
store that catches up during the commit: there it overwrites the newer value which the key's
new region has agreed on.  All merge checks were made at one instant. -/
theorem C40_catch_up_false :
    ∃ evs c, crun cInit evs = some c ∧ c.quiet = true ∧
      c.stores.map (fun s => s.data [99]) = [some 8, some 8, some 7] ∧
      c.stores.map (fun s => (s.view 9).map Info.range) =
        [some ⟨[98], [101]⟩, some ⟨[98], [101]⟩, some ⟨[98], [101]⟩] := by
  refine ⟨[.split 0 1 5 9 [101] false, .write 0 1 ⟨1, 1⟩ [99] (some 7) 50, .apply 0 1, .apply 1 1, .apply 2 1,
    .apply 0 1, .apply 1 1, .write 0 9 ⟨1, 2⟩ [99] (some 8) 60, .apply 0 9, .apply 1 9, .apply 2 9,
    .snapshotDone 0 1, .snapshotDone 1 1, .snapshotDone 2 1,
    .merge 0 1 2 6, .apply 0 1, .apply 1 1, .launch 1 0, .apply 0 2, .apply 1 2, .apply 2 2], _, rfl, ?_, ?_, ?_⟩ <;>
    decide +kernel

/-- **The timestamps of entries copied with the commit are not recorded.**  After a merge a
store can hold a write with timestamp 500 in a region whose record of the largest applied
timestamp is 0. -/
theorem C40_timestamps_false :
    ∃ evs c, crun cInit evs = some c ∧ c.quiet = true ∧
      c.stores.map (fun s => (s.data [99], (s.regs 2).map Reg.rawMax)) =
        [(some 7, some 500), (some 7, some 500), (some 7, some 0)] := by
  refine ⟨[.write 0 1 ⟨1, 1⟩ [99] (some 7) 500, .merge 0 1 2 6, .apply 0 1, .apply 0 1, .apply 1 1, .apply 1 1, .launch 1 0,
    .apply 0 2, .apply 1 2, .apply 2 2], _, rfl, ?_, ?_⟩ <;> decide +kernel

end Verif.Region
