import Verif.Region.SplitLemmas
import Verif.Region.Cluster

/-!
# Region merge: vocabulary and lemmas
-/

namespace Verif.Region
open Verif.Codec

/-- The states in which a region is the home of its range; a merging region does not serve
but still holds it. -/
def Holding (t : RState) : Prop := t = .normal ∨ t = .splitting ∨ t = .merging

/-- A region holds a key on a store. -/
def Store.holds (s : Store) (r : Nat) (k : Bytes) : Prop :=
  ∃ g, s.view r = some g ∧ Holding g.state ∧ g.range.has k

structure Apart (s : Store) : Prop where
  noNew : ∀ r g, s.view r = some g → g.state ≠ .new
  one : ∀ r₁ r₂ k, s.holds r₁ k → s.holds r₂ k → r₁ = r₂

/-- What a commit of a merge says of the source is true on this store: the source has been
applied up to the prepare entry, is being merged, and has the range that the entry carries,
next to the target's. -/
def CommitFits (s : Store) (tgt src : Nat) (sRange : Range) (hi : Nat) : Prop :=
  tgt ≠ src ∧ hi ≤ s.applied src ∧
    ∃ a b, s.view src = some a ∧ s.view tgt = some b ∧ a.state = .merging ∧ a.range = sRange ∧
      a.range.start < a.range.stop ∧ b.range.start < b.range.stop ∧
      (a.range.stop = b.range.start ∨ b.range.stop = a.range.start)

/-- A catch-up with nothing to do. -/
theorem catchUp_done {src : Nat} (es : List (Entry × Nat)) (s : Store) (h : ∀ x ∈ es, x.2 ≤ s.applied src) :
    catchUp src es s = .ok s := by
  induction es with
  | nil => rfl
  | cons x es ih =>
    obtain ⟨e, i⟩ := x
    unfold catchUp
    rw [if_pos (h _ (List.mem_cons_self ..))]
    exact ih fun x hx => h x (List.mem_cons_of_mem _ hx)

theorem window_le {log : List Entry} {lo hi : Nat} : ∀ x ∈ window log lo hi, x.2 ≤ hi := by
  intro x hx
  unfold window at hx
  simp only [List.mem_filter, Bool.and_eq_true, decide_eq_true_eq] at hx
  exact hx.2.2

/-- The effect of a commit that fits. -/
structure MergeEff (s s' : Store) (tgt src : Nat) (a b : Reg) (sv : Int) : Prop where
  ne : tgt ≠ src
  tgt' : s'.view tgt = some ⟨⟨b.epoch.conf, max sv b.epoch.version + 1⟩, b.state, mergedRange a.range b.range⟩
  src' : ∃ g, s'.view src = some g ∧ g.state = .tombstone ∧ g.epoch.version = a.epoch.version + 1
  ts : ∃ g, s'.regs tgt = some g ∧ g.rawMax = max b.rawMax a.rawMax ∧ g.accMax = max b.accMax a.accMax ∧ g.disabled = false
  others : ∀ j, j ≠ tgt → j ≠ src → s'.regs j = s.regs j
  data : s'.data = s.data

theorem commit_effect {logs : Nat → List Entry} {s : Store} {tgt : Nat} {job : Int} {src : Nat} {se : Epoch}
    {lo hi : Nat} {a b : Reg} (hne : tgt ≠ src) (ha : s.regs src = some a) (hb : s.regs tgt = some b)
    (hhi : hi ≤ s.applied src) (hst : a.state = .merging) :
    ∃ s', commitMerge logs s tgt job src se a.range lo hi = .ok s' ∧ MergeEff s s' tgt src a b se.version := by
  have hne' : src ≠ tgt := Ne.symm hne
  unfold commitMerge
  dsimp only
  rw [regs_on_ne _ hne', ha]
  dsimp only
  rw [catchUp_done]
  rotate_left
  · intro x hx
    exact Nat.le_trans (window_le x hx) hhi
  dsimp only
  rw [regs_on_ne _ hne', ha, regs_on_same, hb]
  dsimp only [Option.map_some]
  refine ⟨_, rfl, hne, ?_, ?_, ?_, ?_, rfl⟩
  · simp only [Store.view, regs_on_same, regs_on_ne _ hne, hb, Option.map_some]
    rw [setRange_gt _ _ _ (by simp only [Reg.setDisabled, Reg.setJob]; omega)]
    simp [Reg.info, Reg.setDisabled, Reg.raise, Reg.setJob]
  · simp only [Store.view, regs_on_same, regs_on_ne _ hne', ha, Option.map_some]
    refine ⟨_, rfl, ?_⟩
    rw [bump_eq]
    simp [Reg.info, Reg.move, hst, canMove]
  · simp only [regs_on_same, regs_on_ne _ hne, hb, Option.map_some]
    refine ⟨_, rfl, ?_⟩
    rw [setRange_gt _ _ _ (by simp only [Reg.setDisabled, Reg.setJob]; omega)]
    simp [Reg.setDisabled, Reg.raise, Reg.setJob]
  · intro j h1 h2
    simp only [regs_on_ne _ h1, regs_on_ne _ h2]

/-- The data after the writes of a log. -/
def replay : List Entry → (Bytes → Option Nat) → Bytes → Option Nat
  | [], d => d
  | e :: es, d =>
    match e.cmd with
    | .write k v _ => replay es (fun k' => if k' = k then v else d k')
    | _ => replay es d

theorem catchUp_skip {src : Nat} (es fs : List (Entry × Nat)) (s : Store) (h : ∀ x ∈ es, x.2 ≤ s.applied src) :
    catchUp src (es ++ fs) s = catchUp src fs s := by
  induction es with
  | nil => rfl
  | cons x es ih =>
    obtain ⟨e, i⟩ := x
    rw [List.cons_append, catchUp, if_pos (h _ (List.mem_cons_self ..))]
    exact ih fun x hx => h x (List.mem_cons_of_mem _ hx)

theorem catchUp_writes {src : Nat} (fs : List (Entry × Nat)) (ws : List Entry) (n : Nat) (s : Store)
    (hn : s.applied src = n) (hw : ∀ e ∈ ws, ∃ k v ts, e.cmd = .write k v ts) :
    catchUp src (ws.zipIdx (n + 1) ++ fs) s =
      catchUp src fs { s with
        data := replay ws s.data
        applied := fun j => if j = src then n + ws.length else s.applied j } := by
  induction ws generalizing n s with
  | nil =>
    have : (fun j => if j = src then n + ([] : List Entry).length else s.applied j) = s.applied := by
      funext j; split
      · next h => subst h; exact hn.symm
      · rfl
    rw [this]
    rfl
  | cons e ws ih =>
    obtain ⟨k, v, ts, he⟩ := hw e (List.mem_cons_self ..)
    rw [List.zipIdx_cons, List.cons_append, catchUp, if_neg (by omega)]
    simp only [dispatch, he]
    rw [ih (n + 1) _ (by simp [Store.setApplied]) fun e h => hw e (List.mem_cons_of_mem _ h)]
    congr 1
    simp only [Store.setApplied, replay, he, List.length_cons, Store.mk.injEq, true_and, and_true]
    funext j
    split
    · omega
    · rfl

/-- The copied entries of a log: those already applied, some writes, and the last one. -/
theorem window_split (pre ws : List Entry) (p : Entry) (post : List Entry) {lo : Nat} (hlo : lo ≤ pre.length + 1) :
    ∃ old, (∀ x ∈ old, x.2 ≤ pre.length) ∧
      window (pre ++ ws ++ p :: post) lo (pre.length + ws.length + 1) =
        old ++ (ws.zipIdx (pre.length + 1) ++ [(p, pre.length + ws.length + 1)]) := by
  refine ⟨(pre.zipIdx 1).filter fun x => decide (lo ≤ x.2) && decide (x.2 ≤ pre.length + ws.length + 1), ?_, ?_⟩
  · intro x hx
    obtain ⟨e, i⟩ := x
    have := List.mem_zipIdx (List.mem_filter.1 hx).1
    simp only at this ⊢
    omega
  · unfold window
    rw [List.append_assoc, List.zipIdx_append, List.filter_append, List.zipIdx_append, List.filter_append,
      List.zipIdx_cons, List.filter_cons]
    congr 1
    have e1 : 1 + pre.length = pre.length + 1 := by omega
    have e2 : pre.length + 1 + ws.length = pre.length + ws.length + 1 := by omega
    rw [e1, e2]
    congr 1
    · refine List.filter_eq_self.2 ?_
      rintro ⟨e, i⟩ hx
      have := List.mem_zipIdx hx
      simp only [Bool.and_eq_true, decide_eq_true_eq] at this ⊢
      omega
    · rw [if_pos (by simp only [Bool.and_eq_true, decide_eq_true_eq]; omega)]
      congr 1
      refine List.filter_eq_nil_iff.2 ?_
      rintro ⟨e, i⟩ hx
      have := List.mem_zipIdx hx
      simp only [Bool.and_eq_true, decide_eq_true_eq] at this ⊢
      omega

/-- A commit that catches up is the commit of the store that has caught up. -/
theorem commit_catchUp {logs : Nat → List Entry} {s s₁ : Store} {tgt : Nat} {job : Int} {src : Nat} {se : Epoch}
    {sr : Range} {lo hi : Nat} {a : Reg} (ha : s.regs src = some a) (hne : src ≠ tgt)
    (h : catchUp src (window (logs src) lo hi) (s.on tgt (fun r => (r.setJob job).setDisabled true)) = .ok s₁)
    (h₁ : hi ≤ s₁.applied src) {a' : Reg} (ha' : s₁.regs src = some a')
    (hid : s₁.on tgt (fun r => (r.setJob job).setDisabled true) = s₁) :
    commitMerge logs s tgt job src se sr lo hi = commitMerge logs s₁ tgt job src se sr lo hi := by
  unfold commitMerge
  dsimp only
  rw [hid, regs_on_ne _ hne, ha, ha', h, catchUp_done _ _ fun x hx => Nat.le_trans (window_le x hx) h₁]

/-- Two neighbouring ranges and the range made of them. -/
theorem merged_has {p q : Range} (hp : p.start < p.stop) (hq : q.start < q.stop)
    (h : p.stop = q.start ∨ q.stop = p.start) (k : Bytes) :
    (mergedRange p q).has k ↔ p.has k ∨ q.has k := by
  unfold mergedRange Range.has
  by_cases hc : p.stop = q.start
  · rw [if_pos hc]
    dsimp only
    constructor
    · rintro ⟨h1, h2⟩
      by_cases hk : k < p.stop
      · exact .inl ⟨h1, hk⟩
      · exact .inr ⟨hc ▸ List.not_lt.1 hk, h2⟩
    · rintro (⟨h1, h2⟩ | ⟨h1, h2⟩)
      · exact ⟨h1, lt_trans (hc ▸ h2) hq⟩
      · exact ⟨le_trans' (le_of_lt' (hc ▸ hp)) h1, h2⟩
  · rw [if_neg hc]
    have h := h.resolve_left hc
    dsimp only
    constructor
    · rintro ⟨h1, h2⟩
      by_cases hk : k < q.stop
      · exact .inr ⟨h1, hk⟩
      · exact .inl ⟨h ▸ List.not_lt.1 hk, h2⟩
    · rintro (⟨h1, h2⟩ | ⟨h1, h2⟩)
      · exact ⟨le_trans' (le_of_lt' (h ▸ hq)) h1, h2⟩
      · exact ⟨h1, lt_trans (h ▸ h2) hp⟩

/-- Nothing moves: same holders, no new region. -/
def SameHold (s s' : Store) : Prop :=
  (∀ r k, s'.holds r k ↔ s.holds r k) ∧
    ((∀ r g, s.view r = some g → g.state ≠ .new) → ∀ r g, s'.view r = some g → g.state ≠ .new)

theorem SameHold.of_view {s s' : Store} (h : ∀ j, s'.view j = s.view j) : SameHold s s' :=
  ⟨fun r k => by unfold Store.holds; rw [h], fun hn r g hg => hn r g (by rw [← h]; exact hg)⟩

theorem SameHold.trans {a b c : Store} (h : SameHold a b) (h' : SameHold b c) : SameHold a c :=
  ⟨fun r k => (h'.1 r k).trans (h.1 r k), fun hn => h'.2 (h.2 hn)⟩

theorem SameHold.start (s : Store) (src : Nat) (hn : ∀ r g, s.view r = some g → g.state ≠ .new) :
    SameHold s (startMerge s src) := by
  have hv : ∀ j, j ≠ src → (startMerge s src).view j = s.view j := by
    intro j hj
    unfold startMerge
    rw [view_on, if_neg hj]
  have hvs : (startMerge s src).view src = (s.regs src).map (fun r => ((r.move .merging).bump r.range).info) := by
    unfold startMerge
    rw [view_on, if_pos rfl]
  have hst : ∀ g : Reg, g.state ≠ .new → (Holding (g.move .merging).state ↔ Holding g.state) ∧ (g.move .merging).state ≠ .new := by
    intro g hg
    unfold Reg.move Holding
    cases hs : g.state <;> simp_all [canMove]
  cases hr : s.regs src with
  | none =>
    refine SameHold.of_view fun j => ?_
    by_cases hj : j = src
    · subst hj; rw [hvs, hr, Store.view, hr]; rfl
    · exact hv j hj
  | some g =>
    have hg := hn src g.info (by rw [Store.view, hr]; rfl)
    obtain ⟨h1, h2⟩ := hst g hg
    rw [hr, Option.map_some, bump_eq] at hvs
    refine ⟨fun r k => ?_, fun _ r x hx => ?_⟩
    · by_cases hj : r = src
      · subst hj
        unfold Store.holds
        rw [hvs, Store.view, hr]
        constructor
        · rintro ⟨x, hx, hh, hk⟩
          cases hx
          exact ⟨_, rfl, h1.1 hh, hk⟩
        · rintro ⟨x, hx, hh, hk⟩
          cases hx
          exact ⟨_, rfl, h1.2 hh, hk⟩
      · unfold Store.holds
        rw [hv r hj]
    · by_cases hj : r = src
      · subst hj
        rw [hvs] at hx
        cases hx
        exact h2
      · rw [hv r hj] at hx
        exact hn r x hx

theorem prepare_same {s s' : Store} {src i : Nat} {job : Int} {t : Nat} {te : Epoch} {m : Nat}
    (hn : ∀ r g, s.view r = some g → g.state ≠ .new) (h : prepareMerge s src i job t te m = .ok s') : SameHold s s' := by
  have h0 : ∀ j, (s.on src (fun r => (r.setJob job).setDisabled true)).view j = s.view j :=
    fun j => view_on_info _ _ _ _ fun _ => rfl
  have h1 := SameHold.of_view h0
  have h2 := SameHold.start _ src (h1.2 hn)
  unfold prepareMerge at h
  dsimp only at h
  split at h
  · cases h; exact h1.trans h2
  · split at h
    · cases h
    · cases h; exact h1
    · split at h
      · cases h
      · cases h
        exact h1.trans (h2.trans (SameHold.of_view fun _ => rfl))

theorem SplitEff.apart {s s' : Store} {p c : Nat} {key : Bytes} {pr : Reg} {cv : Epoch}
    (h : SplitEff s s' p c key pr cv) (hd : Apart s) :
    Apart s' ∧ ∀ k, (∃ r, s.holds r k) ↔ ∃ r, s'.holds r k := by
  have hsv : Holding pr.state := by
    have h1 := h.alive
    have h2 := hd.noNew p pr.info (by rw [Store.view, h.parent]; rfl)
    change pr.state ≠ .new at h2
    unfold Holding
    cases hs : pr.state <;> simp_all [abandons]
  have hp : ∀ k, s.holds p k ↔ pr.range.start ≤ k ∧ k < pr.range.stop := by
    intro k
    unfold Store.holds Store.view
    rw [h.parent]
    constructor
    · rintro ⟨g, hg, _, hk⟩
      cases hg; exact hk
    · intro hk
      exact ⟨pr.info, rfl, hsv, hk⟩
  have hp' : ∀ k, s'.holds p k ↔ s.holds p k ∧ key ≤ k := by
    intro k
    rw [hp]
    unfold Store.holds
    rw [h.parent']
    constructor
    · rintro ⟨g, hg, _, hk⟩
      cases hg
      exact ⟨⟨le_trans' (le_of_lt' h.inside.1) hk.1, hk.2⟩, hk.1⟩
    · rintro ⟨h1, h2⟩
      exact ⟨_, rfl, .inl rfl, h2, h1.2⟩
  have hc' : ∀ k, s'.holds c k ↔ s.holds p k ∧ k < key := by
    intro k
    rw [hp]
    unfold Store.holds
    rw [h.child']
    constructor
    · rintro ⟨g, hg, _, hk⟩
      cases hg
      exact ⟨⟨hk.1, lt_trans hk.2 h.inside.2⟩, hk.2⟩
    · rintro ⟨h1, h2⟩
      exact ⟨_, rfl, .inl rfl, h1.1, h2⟩
  have ho : ∀ r, r ≠ p → r ≠ c → ∀ k, s'.holds r k ↔ s.holds r k := by
    intro r h1 h2 k
    unfold Store.holds Store.view
    rw [h.others r h1 h2]
  have hci : ∀ k, ¬ s.holds c k := by
    rintro k ⟨g, hg, hs, _⟩
    unfold Store.view at hg
    rcases h.child with hc | ⟨cr, hc, hst⟩
    · rw [hc] at hg; cases hg
    · rw [hc] at hg; cases hg
      change Holding cr.state at hs
      rw [hst] at hs
      rcases hs with hs | hs | hs <;> cases hs
  have hall : ∀ r k, s'.holds r k → (r = p ∧ s.holds p k ∧ key ≤ k) ∨ (r = c ∧ s.holds p k ∧ k < key) ∨
      (r ≠ p ∧ r ≠ c ∧ s.holds r k) := by
    intro r k hr
    by_cases h1 : r = p
    · subst h1; exact .inl ⟨rfl, (hp' k).1 hr⟩
    by_cases h2 : r = c
    · subst h2; exact .inr (.inl ⟨rfl, (hc' k).1 hr⟩)
    · exact .inr (.inr ⟨h1, h2, (ho r h1 h2 k).1 hr⟩)
  refine ⟨⟨?_, ?_⟩, ?_⟩
  · intro j g hg
    by_cases hj : j = p
    · subst hj; rw [h.parent'] at hg; cases hg; simp
    by_cases hj' : j = c
    · subst hj'; rw [h.child'] at hg; cases hg; simp
    · exact hd.noNew j g (by unfold Store.view at hg ⊢; rwa [h.others j hj hj'] at hg)
  · intro r₁ r₂ k h1 h2
    rcases hall _ _ h1 with ⟨a1, b1, c1⟩ | ⟨a1, b1, c1⟩ | ⟨a1, b1, c1⟩ <;>
    rcases hall _ _ h2 with ⟨a2, b2, c2⟩ | ⟨a2, b2, c2⟩ | ⟨a2, b2, c2⟩
    · rw [a1, a2]
    · exact absurd c2 (List.not_lt.2 c1)
    · exact absurd (hd.one _ _ k c2 b1) a2
    · exact absurd c1 (List.not_lt.2 c2)
    · rw [a1, a2]
    · exact absurd (hd.one _ _ k c2 b1) a2
    · exact absurd (hd.one _ _ k c1 b2) a1
    · exact absurd (hd.one _ _ k c1 b2) a1
    · exact hd.one _ _ k c1 c2
  · intro k
    constructor
    · rintro ⟨j, hj⟩
      by_cases hjr : j = p
      · subst hjr
        by_cases hk : k < key
        · exact ⟨c, (hc' k).2 ⟨hj, hk⟩⟩
        · exact ⟨j, (hp' k).2 ⟨hj, List.not_lt.1 hk⟩⟩
      · have hjc : j ≠ c := by
          intro e; subst e; exact hci k hj
        exact ⟨j, (ho j hjr hjc k).2 hj⟩
    · rintro ⟨j, hj⟩
      rcases hall _ _ hj with ⟨_, b, _⟩ | ⟨_, b, _⟩ | ⟨_, _, b⟩
      · exact ⟨p, b⟩
      · exact ⟨p, b⟩
      · exact ⟨j, b⟩

theorem MergeEff.apart {s s' : Store} {tgt src : Nat} {a b : Reg} {sv : Int} (h : MergeEff s s' tgt src a b sv)
    (ha : s.regs src = some a) (hb : s.regs tgt = some b) (hst : a.state = .merging) (hbs : Holding b.state)
    (h1 : a.range.start < a.range.stop) (h2 : b.range.start < b.range.stop)
    (hadj : a.range.stop = b.range.start ∨ b.range.stop = a.range.start) (hd : Apart s) :
    Apart s' ∧ ∀ k, (∃ r, s.holds r k) ↔ ∃ r, s'.holds r k := by
  have hsrc : ∀ k, s.holds src k ↔ a.range.has k := by
    intro k
    unfold Store.holds Store.view
    rw [ha]
    constructor
    · rintro ⟨g, hg, _, hk⟩; cases hg; exact hk
    · exact fun hk => ⟨a.info, rfl, .inr (.inr hst), hk⟩
  have htgt : ∀ k, s.holds tgt k ↔ b.range.has k := by
    intro k
    unfold Store.holds Store.view
    rw [hb]
    constructor
    · rintro ⟨g, hg, _, hk⟩; cases hg; exact hk
    · exact fun hk => ⟨b.info, rfl, hbs, hk⟩
  have htgt' : ∀ k, s'.holds tgt k ↔ s.holds src k ∨ s.holds tgt k := by
    intro k
    rw [hsrc, htgt, ← merged_has h1 h2 hadj]
    unfold Store.holds
    rw [h.tgt']
    constructor
    · rintro ⟨g, hg, _, hk⟩; cases hg; exact hk
    · exact fun hk => ⟨_, rfl, hbs, hk⟩
  have hsrc' : ∀ k, ¬ s'.holds src k := by
    rintro k ⟨g, hg, hh, _⟩
    obtain ⟨g', hg', hs', _⟩ := h.src'
    rw [hg'] at hg
    cases hg
    rw [hs'] at hh
    rcases hh with e | e | e <;> cases e
  have ho : ∀ r, r ≠ tgt → r ≠ src → ∀ k, s'.holds r k ↔ s.holds r k := by
    intro r e1 e2 k
    unfold Store.holds Store.view
    rw [h.others r e1 e2]
  have hall : ∀ r k, s'.holds r k → (r = tgt ∧ (s.holds src k ∨ s.holds tgt k)) ∨ (r ≠ tgt ∧ r ≠ src ∧ s.holds r k) := by
    intro r k hr
    by_cases e1 : r = tgt
    · subst e1; exact .inl ⟨rfl, (htgt' k).1 hr⟩
    by_cases e2 : r = src
    · subst e2; exact absurd hr (hsrc' k)
    · exact .inr ⟨e1, e2, (ho r e1 e2 k).1 hr⟩
  refine ⟨⟨?_, ?_⟩, ?_⟩
  · intro j g hg
    by_cases hj : j = tgt
    · subst hj
      rw [h.tgt'] at hg; cases hg
      intro e
      simp only at e
      rw [e] at hbs
      rcases hbs with e | e | e <;> cases e
    by_cases hj' : j = src
    · subst hj'
      obtain ⟨g', hg', hs', _⟩ := h.src'
      rw [hg'] at hg; cases hg; rw [hs']; simp
    · exact hd.noNew j g (by unfold Store.view at hg ⊢; rwa [h.others j hj hj'] at hg)
  · intro r₁ r₂ k k1 k2
    rcases hall _ _ k1 with ⟨e1, f1⟩ | ⟨e1, f1, g1⟩ <;> rcases hall _ _ k2 with ⟨e2, f2⟩ | ⟨e2, f2, g2⟩
    · rw [e1, e2]
    · rcases f1 with f1 | f1
      · exact absurd (hd.one _ _ k g2 f1) f2
      · exact absurd (hd.one _ _ k g2 f1) e2
    · rcases f2 with f2 | f2
      · exact absurd (hd.one _ _ k g1 f2) f1
      · exact absurd (hd.one _ _ k g1 f2) e1
    · exact hd.one _ _ k g1 g2
  · intro k
    constructor
    · rintro ⟨j, hj⟩
      by_cases e1 : j = tgt
      · subst e1; exact ⟨j, (htgt' k).2 (.inr hj)⟩
      by_cases e2 : j = src
      · subst e2; exact ⟨tgt, (htgt' k).2 (.inl hj)⟩
      · exact ⟨j, (ho j e1 e2 k).2 hj⟩
    · rintro ⟨j, hj⟩
      rcases hall _ _ hj with ⟨_, f | f⟩ | ⟨_, _, f⟩
      · exact ⟨src, f⟩
      · exact ⟨tgt, f⟩
      · exact ⟨j, f⟩

theorem SameHold.apart {s s' : Store} (h : SameHold s s') (hd : Apart s) :
    Apart s' ∧ ∀ k, (∃ r, s.holds r k) ↔ ∃ r, s'.holds r k :=
  ⟨⟨h.2 hd.noNew, fun r₁ r₂ k h1 h2 => hd.one r₁ r₂ k ((h.1 _ _).1 h1) ((h.1 _ _).1 h2)⟩, fun _ =>
    ⟨fun ⟨r, hr⟩ => ⟨r, (h.1 _ _).2 hr⟩, fun ⟨r, hr⟩ => ⟨r, (h.1 _ _).1 hr⟩⟩⟩

/-- The condition on an entry: if it is a commit of a merge under the region's epoch, it fits. -/
def Fits (s : Store) (r : Nat) (e : Entry) : Prop :=
  ∀ job src se sr lo hi, e.cmd = .commitMerge job src se sr lo hi →
    (∀ g, s.view r = some g → e.epoch = g.epoch → CommitFits s r src sr hi)

theorem step_apart {logs : Nat → List Entry} {s s' : Store} {r i : Nat} {e : Entry}
    (h : applyEntry logs s r i e = .ok s') (hf : Fits s r e) (hd : Apart s) :
    Apart s' ∧ ∀ k, (∃ r, s.holds r k) ↔ ∃ r, s'.holds r k := by
  by_cases hn : e.cmd.noMerge = true
  · rcases apply_effect hn h with h | ⟨job, c, key, v, post, pr, cv, _, _, _, h⟩
    · exact (SameHold.of_view h).apart hd
    · exact h.apart hd
  unfold applyEntry at h
  split at h
  · cases h; exact (SameHold.of_view fun _ => rfl).apart hd
  split at h
  · cases h
  rename_i g hg
  split at h
  · cases h
  rename_i hst
  split at h
  · cases h
  dsimp only at h
  split at h
  · simp only [Except.ok.injEq] at h
    subst h
    have hsame : SameHold s ((if 0 < e.cmd.ts then s.on r (fun x => x.raise e.cmd.ts x.accMax) else s).setApplied r i) :=
      SameHold.of_view fun j => ite_view _ _ _ _
    exact hsame.apart hd
  rename_i hab
  simp only [Bool.or_eq_true, decide_eq_true_eq, not_or, Bool.not_eq_true, ne_eq, Decidable.not_not] at hab
  split at h
  · cases h
  rename_i s₁ hh
  simp only [Except.ok.injEq] at h
  subst h
  have hsa : SameHold s₁ (s₁.setApplied r i) := SameHold.of_view fun _ => rfl
  obtain ⟨ee, ec⟩ := e
  cases ec with
  | write => exact absurd rfl hn
  | split => exact absurd rfl hn
  | rollbackMerge => exact absurd rfl hn
  | prepareMerge job t te m =>
    have ht : (Cmd.prepareMerge job t te m).ts = 0 := rfl
    simp only [ht, Int.lt_irrefl, if_false, handle, dispatch] at hh
    exact ((prepare_same hd.noNew hh).trans hsa).apart hd
  | commitMerge job src se sr lo hi =>
    have ht : (Cmd.commitMerge job src se sr lo hi).ts = 0 := rfl
    simp only [ht, Int.lt_irrefl, if_false, handle] at hh
    have hvr : s.view r = some g.info := by rw [Store.view, hg]; rfl
    obtain ⟨hne, hhi, a, b, ha, hb, h1, h2, h3, h4, h5⟩ := hf job src se sr lo hi rfl g.info hvr hab.2
    unfold Store.view at ha
    cases har : s.regs src with
    | none => rw [har] at ha; cases ha
    | some ar =>
      rw [har] at ha
      simp only [Option.map_some, Option.some.injEq] at ha
      subst ha
      rw [hvr] at hb
      cases hb
      obtain ⟨s₂, hs₂, heff⟩ := commit_effect (logs := logs) (job := job) (se := se) (lo := lo) hne har hg hhi h1
      change ar.range = sr at h2
      rw [h2] at hs₂
      rw [hh] at hs₂
      cases hs₂
      have hbs : Holding g.state := by
        have := hd.noNew r g.info hvr
        change g.state ≠ .new at this
        have h' := hab.1
        unfold Holding
        cases hs : g.state <;> simp_all [abandons]
      have := heff.apart har hg h1 hbs h3 h4 h5 hd
      exact ⟨(hsa.apart this.1).1, fun k => (this.2 k).trans ((hsa.apart this.1).2 k)⟩

/-- Every entry fits where it is applied. -/
def AllFit (logs : Nat → List Entry) : Store → List (Nat × Nat × Entry) → Prop
  | _, [] => True
  | s, (r, i, e) :: es => Fits s r e ∧ ∀ s', applyEntry logs s r i e = .ok s' → AllFit logs s' es

theorem all_apart {logs : Nat → List Entry} (es : List (Nat × Nat × Entry)) {s s' : Store}
    (hf : AllFit logs s es) (h : applyAll logs s es = .ok s') (hd : Apart s) :
    Apart s' ∧ ∀ k, (∃ r, s.holds r k) ↔ ∃ r, s'.holds r k := by
  induction es generalizing s with
  | nil => cases h; exact ⟨hd, fun _ => Iff.rfl⟩
  | cons x es ih =>
    obtain ⟨r, i, e⟩ := x
    unfold applyAll at h
    split at h
    · cases h
    rename_i s₁ h₁
    obtain ⟨hd₁, hk₁⟩ := step_apart h₁ hf.1 hd
    obtain ⟨hd₂, hk₂⟩ := ih (hf.2 s₁ h₁) h hd₁
    exact ⟨hd₂, fun k => (hk₁ k).trans (hk₂ k)⟩

end Verif.Region
