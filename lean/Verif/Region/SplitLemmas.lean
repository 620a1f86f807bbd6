import Verif.Region.Model
import Verif.Region.ValidateLemmas

/-!
# Region split and merge: vocabulary and lemmas
-/

namespace Verif.Region
open Verif.Codec

/-- The part of a region's record that requests are checked against. -/
def Reg.info (r : Reg) : Info := ⟨r.epoch, r.state, r.range⟩

/-- What a store says of a region. -/
def Store.view (s : Store) (j : Nat) : Option Info := (s.regs j).map Reg.info

/-- A region serves a key on a store: requests for the key with the region's epoch are
accepted there. -/
def Store.serves (s : Store) (r : Nat) (k : Bytes) : Prop :=
  ∃ g, s.view r = some g ∧ Serving g.state ∧ g.range.has k

/-- An entry that is not about a merge. -/
def Cmd.noMerge : Cmd → Bool
  | .prepareMerge .. | .commitMerge .. => false
  | _ => true

theorem view_on (s : Store) (i j : Nat) (f : Reg → Reg) :
    (s.on i f).view j = if j = i then (s.regs i).map (fun r => (f r).info) else s.view j := by
  unfold Store.view Store.on
  by_cases h : j = i
  · simp [h, Option.map_map, Function.comp_def]
  · simp [h]

theorem view_on_info (s : Store) (i j : Nat) (f : Reg → Reg) (hf : ∀ r, (f r).info = r.info) :
    (s.on i f).view j = s.view j := by
  rw [view_on]
  by_cases h : j = i
  · subst h; simp [Store.view, hf]
  · simp [h]

theorem view_setApplied (s : Store) (r i j : Nat) : (s.setApplied r i).view j = s.view j := rfl

theorem view_restart (s : Store) (j : Nat) : s.restart.view j = s.view j := by
  unfold Store.view Store.restart
  simp only [Option.map_map]
  rfl

theorem info_raise (r : Reg) (a b : Int) : (r.raise a b).info = r.info := rfl
theorem info_setJob (r : Reg) (a : Int) : (r.setJob a).info = r.info := rfl
theorem info_setDisabled (r : Reg) (a : Bool) : (r.setDisabled a).info = r.info := rfl

theorem regs_on_same (s : Store) (i : Nat) (f : Reg → Reg) : (s.on i f).regs i = (s.regs i).map f := by
  simp [Store.on]

theorem regs_on_ne (s : Store) {i j : Nat} (h : j ≠ i) (f : Reg → Reg) : (s.on i f).regs j = s.regs j := by
  simp [Store.on, h]

theorem regs_add_same (s : Store) (i : Nat) (r : Reg) : (s.add i r).regs i = some r := by
  simp [Store.add]

theorem regs_add_ne (s : Store) {i j : Nat} (h : j ≠ i) (r : Reg) : (s.add i r).regs j = s.regs j := by
  simp [Store.add, h]

theorem setRange_gt (r : Reg) (v : Int) (q : Range) (h : r.epoch.version < v) :
    r.setRange v q = { r with epoch := { r.epoch with version := v }, range := q } := by
  unfold Reg.setRange; rw [if_neg (by omega)]

theorem bump_eq (r : Reg) (q : Range) :
    r.bump q = { r with epoch := { r.epoch with version := r.epoch.version + 1 }, range := q } :=
  setRange_gt _ _ _ (by omega)

/-- The effect of a split that is carried out. -/
structure SplitEff (s s' : Store) (p c : Nat) (key : Bytes) (pr : Reg) (cv : Epoch) : Prop where
  ne : p ≠ c
  parent : s.regs p = some pr
  alive : abandons pr.state = false ∧ pr.state ≠ .standby
  child : s.regs c = none ∨ ∃ cr, s.regs c = some cr ∧ cr.state = .standby
  childEpoch : (s.regs c = none ∧ cv = ⟨1, 2⟩) ∨ ∃ cr, s.regs c = some cr ∧ cv = ⟨cr.epoch.conf, cr.epoch.version + 1⟩
  inside : pr.range.start < key ∧ key < pr.range.stop
  parent' : s'.view p = some ⟨⟨pr.epoch.conf, pr.epoch.version + 1⟩, .normal, ⟨key, pr.range.stop⟩⟩
  child' : s'.view c = some ⟨cv, .normal, ⟨pr.range.start, key⟩⟩
  ts : ∃ g, s'.regs c = some g ∧ pr.rawMax ≤ g.rawMax ∧ pr.accMax ≤ g.accMax
  others : ∀ j, j ≠ p → j ≠ c → s'.regs j = s.regs j
  data : s'.data = s.data

theorem move_up {r : Reg} (h : abandons r.state = false ∧ r.state ≠ .standby) (f : Reg → Reg)
    (hf : ∀ x, (f x).state = x.state) : ((f (r.move .splitting)).move .normal).state = .normal := by
  obtain ⟨h1, h2⟩ := h
  unfold Reg.move
  cases hr : r.state <;> simp_all [abandons, canMove]

theorem move_splitting_epoch (r : Reg) (t : RState) : (r.move t).epoch = r.epoch ∧ (r.move t).range = r.range ∧
    (r.move t).rawMax = r.rawMax ∧ (r.move t).accMax = r.accMax := by
  unfold Reg.move; split <;> simp

theorem map_eq_some' {o : Option Reg} {t : RState} (h : ¬ (o.map Reg.state ≠ some t)) : ∃ r, o = some r ∧ r.state = t := by
  cases o with
  | none => simp at h
  | some r => exact ⟨r, rfl, by simpa using h⟩

/-- What a split does, from its plan. -/
theorem split_effect {s : Store} {p : Nat} {job : Int} {c : Nat} {key : Bytes} {v : Int} {post : Bool}
    {fs : List (Store → Store)} {pr : Reg} (hp : s.regs p = some pr)
    (ha : abandons pr.state = false ∧ pr.state ≠ .standby)
    (h : splitPlan s p job c key v post = .ok fs) :
    ((∀ j, (run s fs).view j = s.view j) ∧ (run s fs).data = s.data ∧ v ≠ pr.epoch.version) ∨
      v = pr.epoch.version ∧ ∃ cv, SplitEff s (run s fs) p c key pr cv := by
  unfold splitPlan at h
  rw [hp] at h
  dsimp only at h
  split at h
  · rename_i hv
    left
    simp only [Except.ok.injEq] at h
    subst h
    refine ⟨fun j => ?_, rfl, hv⟩
    simp only [run]
    exact view_on_info _ _ _ _ (fun r => rfl)
  rename_i hv
  split at h
  · cases h
  rename_i hc
  split at h
  · cases h
  split at h
  · cases h
  rename_i hk
  right
  refine ⟨by simpa using hv, ?_⟩
  have hin : pr.range.start < key ∧ key < pr.range.stop :=
    ⟨List.not_le.1 (fun h => hk (.inl h)), List.not_le.1 (fun h => hk (.inr h))⟩
  cases post with
  | false =>
    simp only [Bool.false_eq_true, not_false_eq_true, true_and, if_false, Except.ok.injEq] at h hc
    obtain ⟨cr, hcr, hst⟩ := map_eq_some' hc
    have hne : p ≠ c := by
      intro e; subst e; rw [hp] at hcr; cases hcr; exact ha.2 hst
    subst h
    have hne' : c ≠ p := Ne.symm hne
    refine ⟨⟨cr.epoch.conf, cr.epoch.version + 1⟩, hne, hp, ha, .inr ⟨cr, hcr, hst⟩, .inr ⟨cr, hcr, rfl⟩, hin, ?_, ?_, ?_, ?_, rfl⟩
    · simp only [run, preSteps, Store.view, regs_on_same, regs_on_ne _ hne, hp, Option.map_some]
      have := move_up (r := (pr.setJob job).setDisabled true) ha (Reg.bump ⟨key, pr.range.stop⟩) (fun x => by rw [bump_eq])
      simp only [Reg.info, this]
      simp only [move_splitting_epoch, bump_eq]
      simp [Reg.setDisabled, Reg.setJob]
    · simp only [run, preSteps, Store.view, regs_on_same, regs_on_ne _ hne', hcr, Option.map_some]
      simp only [Reg.info, move_splitting_epoch, bump_eq]
      simp [Reg.setDisabled, Reg.move, Reg.raise, hst, canMove]
    · simp only [run, preSteps, regs_on_same, regs_on_ne _ hne', hcr, Option.map_some]
      refine ⟨_, rfl, ?_⟩
      simp only [move_splitting_epoch, bump_eq]
      simp only [Reg.raise]
      omega
    · intro j h1 h2
      simp only [run, preSteps, regs_on_ne _ h1, regs_on_ne _ h2]
  | true =>
    simp only [if_true] at h
    split at h
    · cases h
    rename_i hn
    have hcn : s.regs c = none := by simpa using hn
    have hne : p ≠ c := by
      intro e; subst e; rw [hp] at hcn; cases hcn
    have hne' : c ≠ p := Ne.symm hne
    simp only [Except.ok.injEq] at h
    subst h
    refine ⟨⟨1, 2⟩, hne, hp, ha, .inl hcn, .inl ⟨hcn, rfl⟩, hin, ?_, ?_, ?_, ?_, rfl⟩
    · simp only [run, postSteps, Store.view, regs_on_same, regs_on_ne _ hne, regs_add_ne _ hne, hp, Option.map_some]
      have := move_up (r := pr.setJob job) ha (fun r => (r.setDisabled true).bump ⟨key, pr.range.stop⟩) (fun x => by rw [bump_eq]; rfl)
      simp only [Reg.info, this]
      simp only [move_splitting_epoch, bump_eq]
      simp [Reg.setDisabled, move_splitting_epoch, Reg.setJob]
    · simp only [run, postSteps, Store.view, regs_on_same, regs_on_ne _ hne', regs_add_same, Option.map_some]
      simp [Reg.info, Reg.move, Reg.raise, canMove]
    · simp only [run, postSteps, regs_on_same, regs_on_ne _ hne', regs_add_same, Option.map_some]
      refine ⟨_, rfl, ?_⟩
      simp only [move_splitting_epoch]
      simp only [Reg.raise]
      omega
    · intro j h1 h2
      simp only [run, postSteps, regs_on_ne _ h1, regs_on_ne _ h2, regs_add_ne _ h2]

/-- The commands other than a commit of a merge. -/
theorem handle_dispatch {logs : Nat → List Entry} {s : Store} {r i : Nat} {c : Cmd} (h : c.noMerge = true) :
    handle logs s r i c = dispatch s r i c := by
  cases c <;> first | rfl | cases h

theorem ite_view (s : Store) (r : Nat) (ts : Int) (j : Nat) :
    (if 0 < ts then s.on r (fun x => x.raise ts x.accMax) else s).view j = s.view j := by
  split
  · exact view_on_info _ _ _ _ (fun _ => rfl)
  · rfl

theorem ite_data (s : Store) (r : Nat) (ts : Int) :
    (if 0 < ts then s.on r (fun x => x.raise ts x.accMax) else s).data = s.data := by
  split <;> rfl

/-- What one entry that is not about a merge does to the region table. -/
theorem apply_effect {logs : Nat → List Entry} {s s' : Store} {r i : Nat} {e : Entry} (hn : e.cmd.noMerge = true)
    (h : applyEntry logs s r i e = .ok s') :
    (∀ j, s'.view j = s.view j) ∨
      ∃ job c key v post pr cv, e.cmd = .split job c key v post ∧ e.epoch = pr.epoch ∧ v = pr.epoch.version ∧
        SplitEff s s' r c key pr cv := by
  unfold applyEntry at h
  split at h
  · cases h; exact .inl fun _ => rfl
  split at h
  · cases h
  rename_i g hg
  split at h
  · cases h
  rename_i hst
  split at h
  · cases h
  dsimp only at h
  split at h
  · simp only [Except.ok.injEq] at h
    subst h
    exact .inl fun j => ite_view _ _ _ _
  rename_i hab
  simp only [Bool.or_eq_true, decide_eq_true_eq, not_or, Bool.not_eq_true, ne_eq, Decidable.not_not] at hab
  rw [handle_dispatch hn] at h
  split at h
  · cases h
  rename_i s₁ hd
  simp only [Except.ok.injEq] at h
  subst h
  obtain ⟨ee, ec⟩ := e
  cases ec with
  | write k v ts =>
    simp only [dispatch, Except.ok.injEq] at hd
    subst hd
    exact .inl fun j => ite_view s r ts j
  | split job c key v post =>
    have ht : (Cmd.split job c key v post).ts = 0 := rfl
    simp only [ht, Int.lt_irrefl, if_false, dispatch] at hd
    split at hd
    · cases hd
    rename_i fs hfs
    simp only [Except.ok.injEq] at hd
    subst hd
    rcases split_effect hg ⟨hab.1, hst⟩ hfs with h' | ⟨h1, cv, h2⟩
    · exact .inl fun j => h'.1 j
    · refine .inr ⟨job, c, key, v, post, g, cv, rfl, hab.2, h1, ?_⟩
      exact { h2 with }
  | rollbackMerge =>
    simp only [dispatch, Except.ok.injEq] at hd
    subst hd
    exact .inl fun j => ite_view s r _ j
  | prepareMerge => cases hn
  | commitMerge => cases hn

/-- Apply a sequence of entries, each with its region and index. -/
def applyAll (logs : Nat → List Entry) : Store → List (Nat × Nat × Entry) → Except Stop Store
  | s, [] => .ok s
  | s, (r, i, e) :: es =>
    match applyEntry logs s r i e with
    | .error x => .error x
    | .ok s' => applyAll logs s' es

/-- A store past the creation of its regions, no key of which is served twice. -/
structure Disjoint (s : Store) : Prop where
  noNew : ∀ r g, s.view r = some g → g.state ≠ .new
  one : ∀ r₁ r₂ k, s.serves r₁ k → s.serves r₂ k → r₁ = r₂

theorem serves_congr {s s' : Store} (h : ∀ j, s'.view j = s.view j) (r : Nat) (k : Bytes) :
    s'.serves r k ↔ s.serves r k := by
  unfold Store.serves; rw [h]

theorem le_trans' {a b c : Bytes} (h : a ≤ b) (h' : b ≤ c) : a ≤ c := List.le_trans h h'
theorem le_of_lt' {a b : Bytes} (h : a < b) : a ≤ b := List.le_of_lt h

theorem SplitEff.serving {s s' : Store} {p c : Nat} {key : Bytes} {pr : Reg} {cv : Epoch}
    (h : SplitEff s s' p c key pr cv) (hd : Disjoint s) : Serving pr.state := by
  have h1 := h.alive
  have h2 := hd.noNew p pr.info (by rw [Store.view, h.parent]; rfl)
  change pr.state ≠ .new at h2
  unfold Serving
  cases hs : pr.state <;> simp_all [abandons]

theorem SplitEff.serves_iff {s s' : Store} {p c : Nat} {key : Bytes} {pr : Reg} {cv : Epoch}
    (h : SplitEff s s' p c key pr cv) (hd : Disjoint s) (r : Nat) (k : Bytes) :
    s'.serves r k ↔
      (r = p ∧ s.serves p k ∧ key ≤ k) ∨ (r = c ∧ s.serves p k ∧ k < key) ∨ (r ≠ p ∧ r ≠ c ∧ s.serves r k) := by
  have hsv := h.serving hd
  have hp : s.serves p k ↔ pr.range.start ≤ k ∧ k < pr.range.stop := by
    unfold Store.serves Store.view
    rw [h.parent]
    constructor
    · rintro ⟨g, hg, _, hk⟩
      cases hg; exact hk
    · intro hk
      exact ⟨pr.info, rfl, hsv, hk⟩
  rw [hp]
  by_cases hr : r = p
  · subst hr
    have hrc := h.ne
    unfold Store.serves
    rw [h.parent']
    constructor
    · rintro ⟨g, hg, _, hk⟩
      cases hg
      exact .inl ⟨rfl, ⟨le_trans' (le_of_lt' h.inside.1) hk.1, hk.2⟩, hk.1⟩
    · rintro (⟨_, h1, h2⟩ | ⟨h1, _⟩ | ⟨h1, _⟩)
      · exact ⟨_, rfl, .inl rfl, h2, h1.2⟩
      · exact absurd h1 hrc
      · exact absurd rfl h1
  · by_cases hc : r = c
    · subst hc
      unfold Store.serves
      rw [h.child']
      constructor
      · rintro ⟨g, hg, _, hk⟩
        cases hg
        exact .inr (.inl ⟨rfl, ⟨hk.1, lt_trans hk.2 h.inside.2⟩, hk.2⟩)
      · rintro (⟨h1, _⟩ | ⟨_, h1, h2⟩ | ⟨_, h1, _⟩)
        · exact absurd h1 hr
        · exact ⟨_, rfl, .inl rfl, h1.1, h2⟩
        · exact absurd rfl h1
    · have : s'.serves r k ↔ s.serves r k := by
        unfold Store.serves Store.view
        rw [h.others r hr hc]
      rw [this]
      constructor
      · exact fun h' => .inr (.inr ⟨hr, hc, h'⟩)
      · rintro (⟨h1, _⟩ | ⟨h1, _⟩ | ⟨_, _, h1⟩)
        · exact absurd h1 hr
        · exact absurd h1 hc
        · exact h1

theorem SplitEff.child_idle {s s' : Store} {p c : Nat} {key : Bytes} {pr : Reg} {cv : Epoch}
    (h : SplitEff s s' p c key pr cv) (k : Bytes) : ¬ s.serves c k := by
  rintro ⟨g, hg, hs, _⟩
  unfold Store.view at hg
  rcases h.child with hc | ⟨cr, hc, hst⟩
  · rw [hc] at hg; cases hg
  · rw [hc] at hg; cases hg
    change Serving cr.state at hs
    rw [hst] at hs
    rcases hs with hs | hs <;> cases hs

theorem step_disjoint {logs : Nat → List Entry} {s s' : Store} {r i : Nat} {e : Entry} (hn : e.cmd.noMerge = true)
    (h : applyEntry logs s r i e = .ok s') (hd : Disjoint s) :
    Disjoint s' ∧ ∀ k, (∃ r, s.serves r k) ↔ ∃ r, s'.serves r k := by
  rcases apply_effect hn h with h | ⟨job, c, key, v, post, pr, cv, _, _, _, h⟩
  · refine ⟨⟨fun r g hg => hd.noNew r g (by rw [← h]; exact hg), fun r₁ r₂ k h1 h2 =>
      hd.one r₁ r₂ k ((serves_congr h _ _).1 h1) ((serves_congr h _ _).1 h2)⟩, fun k => ?_⟩
    constructor <;> rintro ⟨r, hr⟩
    · exact ⟨r, (serves_congr h _ _).2 hr⟩
    · exact ⟨r, (serves_congr h _ _).1 hr⟩
  · have hs := h.serves_iff hd
    refine ⟨⟨?_, ?_⟩, ?_⟩
    · intro j g hg
      by_cases hj : j = r
      · subst hj; rw [h.parent'] at hg; cases hg; simp
      by_cases hj' : j = c
      · subst hj'; rw [h.child'] at hg; cases hg; simp
      · exact hd.noNew j g (by unfold Store.view at hg ⊢; rwa [h.others j hj hj'] at hg)
    · intro r₁ r₂ k h1 h2
      rw [hs] at h1 h2
      rcases h1 with ⟨a1, b1, c1⟩ | ⟨a1, b1, c1⟩ | ⟨a1, b1, c1⟩ <;>
      rcases h2 with ⟨a2, b2, c2⟩ | ⟨a2, b2, c2⟩ | ⟨a2, b2, c2⟩
      · rw [a1, a2]
      · exact absurd c2 (List.not_lt.2 c1)
      · exact absurd (hd.one _ _ k c2 b1) a2
      · exact absurd c1 (List.not_lt.2 c2)
      · rw [a1, a2]
      · exact absurd (hd.one _ _ k c2 b1) a2
      · exact absurd (hd.one _ _ k c1 b2) a1
      · exact absurd (hd.one _ _ k c1 b2) a1
      · exact hd.one _ _ k c1 c2
    · intro k
      constructor
      · rintro ⟨j, hj⟩
        by_cases hjr : j = r
        · subst hjr
          by_cases hk : k < key
          · exact ⟨c, (hs c k).2 (.inr (.inl ⟨rfl, hj, hk⟩))⟩
          · exact ⟨j, (hs j k).2 (.inl ⟨rfl, hj, List.not_lt.1 hk⟩)⟩
        · have hjc : j ≠ c := by
            intro e; subst e; exact h.child_idle k hj
          exact ⟨j, (hs j k).2 (.inr (.inr ⟨hjr, hjc, hj⟩))⟩
      · rintro ⟨j, hj⟩
        rw [hs] at hj
        rcases hj with ⟨_, b, _⟩ | ⟨_, b, _⟩ | ⟨_, _, b⟩
        · exact ⟨r, b⟩
        · exact ⟨r, b⟩
        · exact ⟨j, b⟩

theorem all_disjoint {logs : Nat → List Entry} (es : List (Nat × Nat × Entry)) {s s' : Store}
    (hn : ∀ x ∈ es, x.2.2.cmd.noMerge = true) (h : applyAll logs s es = .ok s') (hd : Disjoint s) :
    Disjoint s' ∧ ∀ k, (∃ r, s.serves r k) ↔ ∃ r, s'.serves r k := by
  induction es generalizing s with
  | nil => cases h; exact ⟨hd, fun _ => Iff.rfl⟩
  | cons x es ih =>
    obtain ⟨r, i, e⟩ := x
    unfold applyAll at h
    split at h
    · cases h
    rename_i s₁ h₁
    obtain ⟨hd₁, hk₁⟩ := step_disjoint (hn _ (List.mem_cons_self ..)) h₁ hd
    obtain ⟨hd₂, hk₂⟩ := ih (fun x hx => hn x (List.mem_cons_of_mem _ hx)) h hd₁
    exact ⟨hd₂, fun k => (hk₁ k).trans (hk₂ k)⟩

/-! ### Versions -/

/-- No region is lost, no version goes back, and a region's range only changes together
with its version. -/
def Mono (s s' : Store) : Prop :=
  ∀ j g, s.view j = some g → ∃ g', s'.view j = some g' ∧ g.epoch.conf = g'.epoch.conf ∧
    g.epoch.version ≤ g'.epoch.version ∧ (g.epoch.version = g'.epoch.version → g.range = g'.range)

theorem Mono.refl (s : Store) : Mono s s := fun _ g h => ⟨g, h, rfl, Int.le_refl _, fun _ => rfl⟩

theorem Mono.of_view {s s' : Store} (h : ∀ j, s'.view j = s.view j) : Mono s s' :=
  fun j g hg => ⟨g, by rw [h]; exact hg, rfl, Int.le_refl _, fun _ => rfl⟩

theorem Mono.trans {a b c : Store} (h : Mono a b) (h' : Mono b c) : Mono a c := by
  intro j g hg
  obtain ⟨g1, h1, e1, h2, h3⟩ := h j g hg
  obtain ⟨g2, h4, e2, h5, h6⟩ := h' j g1 h1
  refine ⟨g2, h4, e1.trans e2, Int.le_trans h2 h5, fun h => ?_⟩
  rw [h3 (by omega), h6 (by omega)]

/-- An update of a record that keeps the same promise. -/
def Good (f : Reg → Reg) : Prop :=
  ∀ r, r.epoch.conf = (f r).epoch.conf ∧ r.epoch.version ≤ (f r).epoch.version ∧
    (r.epoch.version = (f r).epoch.version → r.range = (f r).range)

theorem Mono.on {f : Reg → Reg} (hf : Good f) (s : Store) (i : Nat) : Mono s (s.on i f) := by
  intro j g hg
  rw [view_on]
  by_cases h : j = i
  · subst h
    rw [if_pos rfl]
    unfold Store.view at hg
    cases hr : s.regs j with
    | none => rw [hr] at hg; cases hg
    | some r =>
      rw [hr] at hg
      cases hg
      exact ⟨(f r).info, rfl, hf r⟩
  · rw [if_neg h]
    exact ⟨g, hg, rfl, Int.le_refl _, fun _ => rfl⟩

theorem Good.setRange (v : Reg → Int) (q : Reg → Range) : Good (fun r => r.setRange (v r) (q r)) := by
  intro r
  unfold Reg.setRange
  by_cases h : v r ≤ r.epoch.version
  · simp [h]
  · simp only [h, if_false]
    refine ⟨trivial, by omega, fun _ => by omega⟩

theorem Good.move (t : RState) : Good (Reg.move t) := by
  intro r; unfold Reg.move; split <;> simp

theorem Good.raise (a b : Int) : Good (Reg.raise a b) := fun _ => ⟨rfl, Int.le_refl _, fun _ => rfl⟩
theorem Good.raise' (a : Int) : Good (fun r => r.raise a r.accMax) := fun _ => ⟨rfl, Int.le_refl _, fun _ => rfl⟩
theorem Good.setJob (a : Int) : Good (Reg.setJob a) := fun _ => ⟨rfl, Int.le_refl _, fun _ => rfl⟩
theorem Good.setDisabled (a : Bool) : Good (Reg.setDisabled a) := fun _ => ⟨rfl, Int.le_refl _, fun _ => rfl⟩
theorem Good.jobDis (a : Int) (b : Bool) : Good (fun r => (r.setJob a).setDisabled b) :=
  fun _ => ⟨rfl, Int.le_refl _, fun _ => rfl⟩
theorem Good.bump (q : Reg → Range) : Good (fun r => r.bump (q r)) := Good.setRange _ _
theorem Good.start : Good (fun r => (r.move .merging).bump r.range) := by
  intro r
  dsimp only
  rw [bump_eq]
  obtain ⟨h1, h2, _, _⟩ := move_splitting_epoch r .merging
  simp only [h1]
  refine ⟨trivial, by omega, by omega⟩

theorem Mono.add (s : Store) (i : Nat) (r : Reg) (h : s.regs i = none) : Mono s (s.add i r) := by
  intro j g hg
  by_cases e : j = i
  · subst e; unfold Store.view at hg; rw [h] at hg; cases hg
  · refine ⟨g, ?_, rfl, Int.le_refl _, fun _ => rfl⟩
    unfold Store.view at hg ⊢
    rwa [regs_add_ne _ e]

theorem Mono.split {s : Store} {p : Nat} {job : Int} {c : Nat} {key : Bytes} {v : Int} {post : Bool}
    {fs : List (Store → Store)} (h : splitPlan s p job c key v post = .ok fs) (n : Nat) :
    Mono s (run s (fs.take n)) := by
  have hon : ∀ (f : Reg → Reg) (i : Nat) (s : Store), Good f → Mono s (s.on i f) := fun f i s hf => Mono.on hf s i
  unfold splitPlan at h
  split at h
  · cases h
  rename_i pr hpr
  dsimp only at h
  split at h
  · cases h
    cases n with
    | zero => exact Mono.refl _
    | succ n => simp only [List.take_succ_cons, List.take_nil, run]; exact hon _ _ _ (Good.setJob _)
  split at h
  · cases h
  split at h
  · cases h
  split at h
  · cases h
  have htake : ∀ (fs : List (Store → Store)) (s : Store), (∀ f ∈ fs, ∀ s, Mono s (f s)) → ∀ n, Mono s (run s (fs.take n)) := by
    intro fs
    induction fs with
    | nil => intro s _ n; cases n <;> exact Mono.refl _
    | cons f fs ih =>
      intro s hf n
      cases n with
      | zero => exact Mono.refl _
      | succ n => exact (hf f (List.mem_cons_self ..) s).trans (ih _ (fun g hg => hf g (List.mem_cons_of_mem _ hg)) n)
  split at h
  · split at h
    · cases h
    rename_i hn
    have hcn : s.regs c = none := by simpa using hn
    simp only [Except.ok.injEq] at h
    subst h
    have hpc : c ≠ p := by intro e; subst e; rw [hpr] at hcn; cases hcn
    have h3 : ∀ s : Store, s.regs c = none → ∀ n, Mono s (run s ((postSteps p c pr key).take n)) := by
      intro s hcn n
      match n with
      | 0 => exact Mono.refl _
      | 1 => exact hon _ _ _ (Good.move _)
      | 2 => exact (hon _ _ _ (Good.move _)).trans (hon _ _ _ (Good.setDisabled _))
      | n + 3 =>
        refine (hon (Reg.move .splitting) p s (Good.move _)).trans ((hon _ p _ (Good.setDisabled true)).trans ?_)
        refine (Mono.add _ c ⟨⟨1, 2⟩, .splitting, ⟨pr.range.start, key⟩, 0, false, 0, 0⟩ ?_).trans ?_
        rotate_left
        · refine htake ((postSteps p c pr key).drop 3) _ ?_ n
          intro f hf s
          simp only [postSteps, List.drop_succ_cons, List.drop_zero] at hf
          simp only [List.mem_cons, List.not_mem_nil, or_false] at hf
          rcases hf with e | e | e | e <;> subst e
          · exact hon _ _ _ (Good.raise _ _)
          · exact hon _ _ _ (Good.bump _)
          · exact hon _ _ _ (Good.move _)
          · exact hon _ _ _ (Good.move _)
        · rw [regs_on_ne _ hpc, regs_on_ne _ hpc, hcn]
    cases n with
    | zero => exact Mono.refl _
    | succ n =>
      refine (hon _ p s (Good.setJob job)).trans ?_
      exact h3 _ (by rw [regs_on_ne _ hpc, hcn]) n
  · simp only [Except.ok.injEq] at h
    subst h
    refine htake _ _ ?_ n
    intro f hf s
    simp only [preSteps, List.mem_cons, List.not_mem_nil, or_false] at hf
    rcases hf with e | e | e | e | e | e | e | e | e | e <;> subst e
    · exact hon _ _ _ (Good.setJob _)
    · exact hon _ _ _ (Good.setDisabled _)
    · exact hon _ _ _ (Good.setDisabled _)
    · exact hon _ _ _ (Good.raise _ _)
    · exact hon _ _ _ (Good.move _)
    · exact hon _ _ _ (Good.move _)
    · exact hon _ _ _ (Good.bump _)
    · exact hon _ _ _ (Good.bump _)
    · exact hon _ _ _ (Good.move _)
    · exact hon _ _ _ (Good.move _)

theorem Mono.dispatch {s s' : Store} {r i : Nat} {c : Cmd} (h : dispatch s r i c = .ok s') : Mono s s' := by
  cases c with
  | write k v ts => cases h; exact Mono.of_view fun _ => rfl
  | split job c key v post =>
    unfold Region.dispatch at h
    dsimp only at h
    split at h
    · cases h
    rename_i fs hfs
    cases h
    have := Mono.split hfs fs.length
    rwa [List.take_length] at this
  | prepareMerge job t te m =>
    have h0 := Mono.on (Good.jobDis job true) s r
    have h1 : ∀ s : Store, Mono s (startMerge s r) := fun s => Mono.on Good.start s r
    simp only [Region.dispatch, Region.prepareMerge] at h
    split at h
    · cases h; exact h0.trans (h1 _)
    · split at h
      · cases h
      · cases h; exact h0
      · split at h
        · cases h
        · cases h
          exact h0.trans ((h1 _).trans (Mono.of_view fun _ => rfl))
  | commitMerge => cases h
  | rollbackMerge => cases h; exact Mono.refl _

theorem Mono.catchUp {src : Nat} (es : List (Entry × Nat)) {s s' : Store} (h : catchUp src es s = .ok s') : Mono s s' := by
  induction es generalizing s with
  | nil => cases h; exact Mono.refl _
  | cons x es ih =>
    obtain ⟨e, i⟩ := x
    unfold Region.catchUp at h
    split at h
    · exact ih h
    split at h
    · cases h
    rename_i s₁ h₁
    have h₂ : Mono s₁ (s₁.setApplied src i) := Mono.of_view fun _ => rfl
    exact (Mono.dispatch h₁).trans (h₂.trans (ih h))

theorem Mono.commit {logs : Nat → List Entry} {s s' : Store} {tgt : Nat} {job : Int} {src : Nat} {se : Epoch}
    {sr : Range} {lo hi : Nat} (h : commitMerge logs s tgt job src se sr lo hi = .ok s') : Mono s s' := by
  unfold Region.commitMerge at h
  dsimp only at h
  split at h
  · cases h
  split at h
  · cases h
  rename_i s₁ h₁
  split at h
  · simp only [Except.ok.injEq] at h
    subst h
    refine (Mono.on (Good.jobDis _ _) s tgt).trans ((Mono.catchUp _ h₁).trans ?_)
    refine Mono.trans ?_ (Mono.on (Good.setDisabled _) _ _)
    refine Mono.trans ?_ (Mono.on (Good.move _) _ _)
    refine Mono.trans ?_ (Mono.on (Good.raise _ _) _ _)
    refine Mono.trans ?_ (Mono.on (Good.bump _) _ _)
    refine Mono.trans ?_ (Mono.on (Good.setRange _ _) _ _)
    exact Mono.on (Good.move .merging) s₁ src
  · cases h

theorem Mono.apply {logs : Nat → List Entry} {s s' : Store} {r i : Nat} {e : Entry}
    (h : applyEntry logs s r i e = .ok s') : Mono s s' := by
  unfold applyEntry at h
  split at h
  · cases h; exact Mono.refl _
  split at h
  · cases h
  split at h
  · cases h
  split at h
  · cases h
  dsimp only at h
  have h0 : Mono s (if 0 < e.cmd.ts then s.on r (fun x => x.raise e.cmd.ts x.accMax) else s) :=
    Mono.of_view fun j => ite_view _ _ _ _
  split at h
  · simp only [Except.ok.injEq] at h
    subst h
    exact h0.trans (Mono.of_view fun _ => rfl)
  split at h
  · cases h
  rename_i s₁ h₁
  simp only [Except.ok.injEq] at h
  subst h
  have h2 : Mono s₁ (s₁.setApplied r i) := Mono.of_view fun _ => rfl
  refine h0.trans (Mono.trans ?_ h2)
  cases hc : e.cmd with
  | commitMerge job src se sr lo hi =>
    rw [hc] at h₁
    exact Mono.commit (by simpa only [handle] using h₁)
  | write => rw [hc] at h₁; exact Mono.dispatch (by simpa only [handle] using h₁)
  | split => rw [hc] at h₁; exact Mono.dispatch (by simpa only [handle] using h₁)
  | prepareMerge => rw [hc] at h₁; exact Mono.dispatch (by simpa only [handle] using h₁)
  | rollbackMerge => rw [hc] at h₁; exact Mono.dispatch (by simpa only [handle] using h₁)

theorem Mono.all {logs : Nat → List Entry} (es : List (Nat × Nat × Entry)) {s s' : Store}
    (h : applyAll logs s es = .ok s') : Mono s s' := by
  induction es generalizing s with
  | nil => cases h; exact Mono.refl _
  | cons x es ih =>
    obtain ⟨r, i, e⟩ := x
    unfold applyAll at h
    split at h
    · cases h
    rename_i s₁ h₁
    exact (Mono.apply h₁).trans (ih h)

end Verif.Region
