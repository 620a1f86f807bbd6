/-
C75: a crash between the writes of an entry.  The applied index is written last, so after a restart the whole entry is
applied again.
-/
import Verif.Meta.PropsApply
import Verif.Meta.WitnessNames

namespace Verif.Meta

/-! ## Specification -/

/-- The process ends after the first `n` writes of the entry, for every `n` of the list in turn; each time the entry is
applied again from its start on what was written (fsm.cc:1044-1048: entries up to the applied index are skipped;
fsm.cc:2582-2594: the applied index is written last). -/
def crashes (d : Data) (inc : Incr) : List Nat → Option Data
  | [] => applyIncr d inc
  | n :: ns => (execAll d (inc.writes.take n)).bind (fun d => crashes d inc ns)

/-- A log applied with crashes. -/
def crashesAll (d : Data) : List (Incr × List Nat) → Option Data
  | [] => some d
  | x :: xs => (crashes d x.1 x.2).bind (fun d => crashesAll d xs)

/-- The same tenants, schemas, tables and indexes; the same ids in the lists of schemas and tables, not counting how often
an id is in a list. -/
structure Same (d e : Data) : Prop where
  tenants : ∀ i, i ∈ d.tenants ↔ i ∈ e.tenants
  schemas : ∀ i, (get d.schemas i).map (fun s => (s.name, s.tenant)) = (get e.schemas i).map (fun s => (s.name, s.tenant))
  lists : ∀ i k x, (get d.schemas i).map (fun s => decide (x ∈ s.ids k)) = (get e.schemas i).map (fun s => decide (x ∈ s.ids k))
  tidx : ∀ t x, (get d.tidx t).map (fun l => decide (x ∈ l)) = (get e.tidx t).map (fun l => decide (x ∈ l))
  objs : ∀ k i, get (d.objs k) i = get (e.objs k) i
  nextSchema : d.nextSchema = e.nextSchema
  nextTable : d.nextTable = e.nextTable

/-! ## What writes do to what is seen -/

/-- Nothing, a fixed value, or a change of what is there. -/
def Norm {Y : Type} (fam : (Y → Y) → Prop) (F : Option Y → Option Y) : Prop :=
  (∀ x, F x = x) ∨ (∃ o, ∀ x, F x = o) ∨ ∃ g, fam g ∧ ∀ x, F x = x.map g

/-- The last change wins. -/
def Wins {Y : Type} (fam : (Y → Y) → Prop) : Prop := ∀ g g', fam g → fam g' → ∀ y, g (g' y) = g y

theorem Norm.comp {Y : Type} {fam : (Y → Y) → Prop} (hw : Wins fam) {F G : Option Y → Option Y} (hf : Norm fam F)
    (hg : Norm fam G) : Norm fam (fun x => G (F x)) := by
  rcases hg with hg | ⟨o, hg⟩ | ⟨g, gf, hg⟩
  · rcases hf with hf | ⟨o, hf⟩ | ⟨f, ff, hf⟩
    · exact Or.inl (fun x => by show G (F x) = _; rw [hg, hf])
    · exact Or.inr (Or.inl ⟨o, fun x => by show G (F x) = _; rw [hg, hf]⟩)
    · exact Or.inr (Or.inr ⟨f, ff, fun x => by show G (F x) = _; rw [hg, hf]⟩)
  · exact Or.inr (Or.inl ⟨o, fun x => hg _⟩)
  · rcases hf with hf | ⟨o, hf⟩ | ⟨f, ff, hf⟩
    · exact Or.inr (Or.inr ⟨g, gf, fun x => by show G (F x) = _; rw [hg, hf]⟩)
    · exact Or.inr (Or.inl ⟨o.map g, fun x => by show G (F x) = _; rw [hg, hf]⟩)
    · refine Or.inr (Or.inr ⟨g, gf, fun x => ?_⟩)
      show G (F x) = _
      rw [hg, hf]
      cases x with
      | none => rfl
      | some y => exact congrArg some (hw g f gf ff y)

theorem Norm.idem {Y : Type} {fam : (Y → Y) → Prop} (hw : Wins fam) {F : Option Y → Option Y} (hf : Norm fam F) (x : Option Y) :
    F (F x) = F x := by
  rcases hf with hf | ⟨o, hf⟩ | ⟨f, ff, hf⟩
  · rw [hf (F x)]
  · rw [hf, hf]
  · rw [hf (F x), hf x]
    cases x with
    | none => rfl
    | some y => exact congrArg some (hw f f ff ff y)

/-- What is seen of the metadata changes with every write in one of these ways. -/
def Seen {Y : Type} (fam : (Y → Y) → Prop) (obs : Data → Option Y) : Prop :=
  ∀ w : Write, ∃ F, Norm fam F ∧ ∀ d d', w.exec d = some d' → obs d' = F (obs d)

theorem Seen.all {Y : Type} {fam : (Y → Y) → Prop} (hw : Wins fam) {obs : Data → Option Y} (h : Seen fam obs) (ws : List Write) :
    ∃ F, Norm fam F ∧ ∀ d d', execAll d ws = some d' → obs d' = F (obs d) := by
  induction ws with
  | nil => exact ⟨fun x => x, Or.inl (fun _ => rfl), fun d d' h => (by cases h; rfl)⟩
  | cons w ws ih =>
    obtain ⟨F, hF, h1⟩ := h w
    obtain ⟨G, hG, h2⟩ := ih
    refine ⟨_, hF.comp hw hG, ?_⟩
    intro d d' hx
    rw [execAll] at hx
    cases he : w.exec d with
    | none => rw [he] at hx; cases hx
    | some d1 =>
      rw [he] at hx
      rw [h2 d1 d' hx, h1 d d1 he]

/-- Writing twice shows the same as writing once. -/
theorem Seen.twice {Y : Type} {fam : (Y → Y) → Prop} (hw : Wins fam) {obs : Data → Option Y} (h : Seen fam obs) {ws : List Write}
    {d d1 d2 : Data} (h1 : execAll d ws = some d1) (h2 : execAll d1 ws = some d2) : obs d1 = obs d2 := by
  obtain ⟨F, hF, hx⟩ := h.all hw ws
  rw [hx _ _ h2, hx _ _ h1, hF.idem hw]

/-- What shows the same before the writes shows the same after. -/
theorem Seen.congr {Y : Type} {fam : (Y → Y) → Prop} (hw : Wins fam) {obs : Data → Option Y} (h : Seen fam obs) {ws : List Write}
    {d d' e e' : Data} (h0 : obs d = obs e) (h1 : execAll d ws = some d') (h2 : execAll e ws = some e') : obs d' = obs e' := by
  obtain ⟨F, hF, hx⟩ := h.all hw ws
  rw [hx _ _ h1, hx _ _ h2, h0]

/-- No changes of what is there. -/
def noFam {Y : Type} : (Y → Y) → Prop := fun _ => False

theorem noFam_wins {Y : Type} : Wins (noFam (Y := Y)) := fun _ _ h => h.elim

/-- A fixed value if there is one. -/
def setFam : (Bool → Bool) → Prop := fun g => ∃ b, g = fun _ => b

theorem setFam_wins : Wins setFam := by
  rintro g g' ⟨b, rfl⟩ ⟨b', rfl⟩ y
  rfl

/-- Another name and another definition. -/
def defFam : (Obj → Obj) → Prop := fun g => ∃ n df, g = fun r => { r with name := n, defn := df }

theorem defFam_wins : Wins defFam := by
  rintro g g' ⟨n, df, rfl⟩ ⟨n', df', rfl⟩ y
  rfl

theorem norm_keep {Y : Type} {fam : (Y → Y) → Prop} : Norm fam (fun x => x) := Or.inl (fun _ => rfl)
theorem norm_set {Y : Type} {fam : (Y → Y) → Prop} (o : Option Y) : Norm fam (fun _ => o) := Or.inr (Or.inl ⟨o, fun _ => rfl⟩)
theorem norm_mod {Y : Type} {fam : (Y → Y) → Prop} {g : Y → Y} (h : fam g) : Norm fam (fun x => x.map g) :=
  Or.inr (Or.inr ⟨g, h, fun _ => rfl⟩)

/-- What a write leaves as it is. -/
theorem exec_frame {w : Write} {d d' : Data} (h : w.exec d = some d') :
    (d'.tenants = d.tenants ∨ (∃ i, w = .tenantPut i) ∨ ∃ i, w = .tenantErase i) ∧
    (d'.schemas = d.schemas ∨ (∃ i s, w = .schemaPut i s) ∨ (∃ i, w = .schemaErase i) ∨ (∃ k s i, w = .schemaAdd k s i) ∨
      ∃ k s i, w = .schemaDel k s i) ∧
    (d'.tidx = d.tidx ∨ (∃ t l, w = .tidxPut t l) ∨ (∃ t a b, w = .tidxAddDel t a b) ∨ ∃ t, w = .tidxErase t) ∧
    (d'.objs = d.objs ∨ (∃ k i r, w = .objPut k i r) ∨ (∃ k i n df, w = .objUpdate k i n df) ∨ ∃ k i, w = .objErase k i) := by
  cases w with
  | tenantPut id => dsimp only [Write.exec] at h; split at h <;> cases h; simp
  | tenantErase id => cases h; simp
  | schemaPut id s => dsimp only [Write.exec] at h; split at h <;> cases h; simp
  | schemaErase id => cases h; simp
  | tidxPut t l => dsimp only [Write.exec] at h; split at h <;> cases h; simp
  | tidxAddDel t a b => dsimp only [Write.exec] at h; split at h <;> cases h <;> simp
  | tidxErase t => cases h; simp
  | objPut k' id r => dsimp only [Write.exec] at h; split at h <;> cases h; simp [setObjs]
  | schemaAdd k' sid id =>
    dsimp only [Write.exec] at h
    split at h
    · split at h <;> cases h; simp
    · cases h
  | objUpdate k' id n df => dsimp only [Write.exec] at h; split at h <;> cases h <;> simp [setObjs]
  | schemaDel k' sid id =>
    dsimp only [Write.exec] at h
    split at h
    · split at h <;> cases h; simp
    · cases h
  | objErase k' id => cases h; simp [setObjs]
  | nextSchema v => cases h; simp
  | nextTable v => cases h; simp

theorem seen_tenant (i : Int) : Seen noFam (fun d => if i ∈ d.tenants then some () else none) := by
  intro w
  have other : (∀ j, w ≠ .tenantPut j) → (∀ j, w ≠ .tenantErase j) → ∃ F, Norm noFam F ∧ ∀ d d', w.exec d = some d' →
      (if i ∈ d'.tenants then some () else none) = F (if i ∈ d.tenants then some () else none) := by
    intro h1 h2
    refine ⟨_, norm_keep, fun d d' h => ?_⟩
    rcases (exec_frame h).1 with e | ⟨j, e⟩ | ⟨j, e⟩
    · rw [e]
    · exact absurd e (h1 j)
    · exact absurd e (h2 j)
  cases w with
  | tenantPut id =>
    by_cases e : i = id
    · refine ⟨_, norm_set (some ()), fun d d' h => ?_⟩
      dsimp only [Write.exec] at h
      split at h <;> cases h
      simp [e]
    · refine ⟨_, norm_keep, fun d d' h => ?_⟩
      dsimp only [Write.exec] at h
      split at h <;> cases h
      simp [e]
  | tenantErase id =>
    by_cases e : i = id
    · refine ⟨_, norm_set none, fun d d' h => ?_⟩
      cases h
      simp [e]
    · refine ⟨_, norm_keep, fun d d' h => ?_⟩
      cases h
      simp [e]
  | _ => exact other nofun nofun

theorem seen_schema (i : Int) : Seen noFam (fun d => (get d.schemas i).map (fun s => (s.name, s.tenant))) := by
  intro w
  have other : (∀ j s, w ≠ .schemaPut j s) → (∀ j, w ≠ .schemaErase j) → (∀ k s j, w ≠ .schemaAdd k s j) →
      (∀ k s j, w ≠ .schemaDel k s j) → ∃ F, Norm noFam F ∧ ∀ d d', w.exec d = some d' →
      (get d'.schemas i).map (fun s => (s.name, s.tenant)) = F ((get d.schemas i).map (fun s => (s.name, s.tenant))) := by
    intro h1 h2 h3 h4
    refine ⟨_, norm_keep, fun d d' h => ?_⟩
    rcases (exec_frame h).2.1 with e | ⟨j, s, e⟩ | ⟨j, e⟩ | ⟨k, s, j, e⟩ | ⟨k, s, j, e⟩
    · rw [e]
    · exact absurd e (h1 j s)
    · exact absurd e (h2 j)
    · exact absurd e (h3 k s j)
    · exact absurd e (h4 k s j)
  cases w with
  | schemaPut id s =>
    by_cases e : i = id
    · refine ⟨_, norm_set (some (s.name, s.tenant)), fun d d' h => ?_⟩
      dsimp only [Write.exec] at h
      split at h <;> cases h
      dsimp only
      rw [get_put, if_pos e]; rfl
    · refine ⟨_, norm_keep, fun d d' h => ?_⟩
      dsimp only [Write.exec] at h
      split at h <;> cases h
      dsimp only
      rw [get_put, if_neg e]
  | schemaErase id =>
    by_cases e : i = id
    · refine ⟨_, norm_set none, fun d d' h => ?_⟩
      cases h
      dsimp only
      rw [get_erase, if_pos e]; rfl
    · refine ⟨_, norm_keep, fun d d' h => ?_⟩
      cases h
      dsimp only
      rw [get_erase, if_neg e]
  | schemaAdd k sid id =>
    refine ⟨_, norm_keep, fun d d' h => ?_⟩
    dsimp only [Write.exec] at h
    split at h
    · rename_i s hs
      split at h <;> cases h
      dsimp only
      rw [get_put]
      split
      · rename_i e; rw [e, hs]; rfl
      · rfl
    · cases h
  | schemaDel k sid id =>
    refine ⟨_, norm_keep, fun d d' h => ?_⟩
    dsimp only [Write.exec] at h
    split at h
    · rename_i s hs
      split at h <;> cases h
      dsimp only
      rw [get_put]
      split
      · rename_i e; rw [e, hs]; rfl
      · rfl
    · cases h
  | _ => exact other nofun nofun nofun nofun

theorem seen_lists (i : Int) (k : Kind) (x : Int) : Seen setFam (fun d => (get d.schemas i).map (fun s => decide (x ∈ s.ids k))) := by
  intro w
  have other : (∀ j s, w ≠ .schemaPut j s) → (∀ j, w ≠ .schemaErase j) → (∀ k s j, w ≠ .schemaAdd k s j) →
      (∀ k s j, w ≠ .schemaDel k s j) → ∃ F, Norm setFam F ∧ ∀ d d', w.exec d = some d' →
      (get d'.schemas i).map (fun s => decide (x ∈ s.ids k)) = F ((get d.schemas i).map (fun s => decide (x ∈ s.ids k))) := by
    intro h1 h2 h3 h4
    refine ⟨_, norm_keep, fun d d' h => ?_⟩
    rcases (exec_frame h).2.1 with e | ⟨j, s, e⟩ | ⟨j, e⟩ | ⟨k, s, j, e⟩ | ⟨k, s, j, e⟩
    · rw [e]
    · exact absurd e (h1 j s)
    · exact absurd e (h2 j)
    · exact absurd e (h3 k s j)
    · exact absurd e (h4 k s j)
  cases w with
  | schemaPut id s =>
    by_cases e : i = id
    · refine ⟨_, norm_set (some (decide (x ∈ s.ids k))), fun d d' h => ?_⟩
      dsimp only [Write.exec] at h
      split at h <;> cases h
      dsimp only
      rw [get_put, if_pos e]; rfl
    · refine ⟨_, norm_keep, fun d d' h => ?_⟩
      dsimp only [Write.exec] at h
      split at h <;> cases h
      dsimp only
      rw [get_put, if_neg e]
  | schemaErase id =>
    by_cases e : i = id
    · refine ⟨_, norm_set none, fun d d' h => ?_⟩
      cases h
      dsimp only
      rw [get_erase, if_pos e]; rfl
    · refine ⟨_, norm_keep, fun d d' h => ?_⟩
      cases h
      dsimp only
      rw [get_erase, if_neg e]
  | schemaAdd k' sid id =>
    by_cases c : i = sid ∧ k = k' ∧ x = id
    · refine ⟨_, norm_mod ⟨true, rfl⟩, fun d d' h => ?_⟩
      dsimp only [Write.exec] at h
      split at h
      · rename_i s hs
        split at h <;> cases h
        dsimp only
        rw [get_put, if_pos c.1, c.1, hs, c.2.1, c.2.2]
        simp [setIds]
      · cases h
    · refine ⟨_, norm_keep, fun d d' h => ?_⟩
      dsimp only [Write.exec] at h
      split at h
      · rename_i s hs
        split at h <;> cases h
        dsimp only
        rw [get_put]
        split
        · rename_i e
          rw [e, hs]
          simp only [Option.map_some, Option.some.injEq]
          unfold setIds
          dsimp only
          split
          · rename_i ek
            rw [ek]
            have hx : x ≠ id := fun ex => c ⟨e, ek, ex⟩
            simp [hx]
          · rfl
        · rfl
      · cases h
  | schemaDel k' sid id =>
    by_cases c : i = sid ∧ k = k' ∧ x = id
    · refine ⟨_, norm_mod ⟨false, rfl⟩, fun d d' h => ?_⟩
      dsimp only [Write.exec] at h
      split at h
      · rename_i s hs
        split at h <;> cases h
        dsimp only
        rw [get_put, if_pos c.1, c.1, hs, c.2.1, c.2.2]
        simp [setIds]
      · cases h
    · refine ⟨_, norm_keep, fun d d' h => ?_⟩
      dsimp only [Write.exec] at h
      split at h
      · rename_i s hs
        split at h <;> cases h
        dsimp only
        rw [get_put]
        split
        · rename_i e
          rw [e, hs]
          simp only [Option.map_some, Option.some.injEq]
          unfold setIds
          dsimp only
          split
          · rename_i ek
            rw [ek]
            have hx : x ≠ id := fun ex => c ⟨e, ek, ex⟩
            simp [hx]
          · rfl
        · rfl
      · cases h
  | _ => exact other nofun nofun nofun nofun

theorem seen_tidx (t x : Int) : Seen setFam (fun d => (get d.tidx t).map (fun l => decide (x ∈ l))) := by
  intro w
  have other : (∀ j s, w ≠ .tidxPut j s) → (∀ j a b, w ≠ .tidxAddDel j a b) → (∀ j, w ≠ .tidxErase j) →
      ∃ F, Norm setFam F ∧ ∀ d d', w.exec d = some d' →
      (get d'.tidx t).map (fun l => decide (x ∈ l)) = F ((get d.tidx t).map (fun l => decide (x ∈ l))) := by
    intro h1 h2 h3
    refine ⟨_, norm_keep, fun d d' h => ?_⟩
    rcases (exec_frame h).2.2.1 with e | ⟨j, s, e⟩ | ⟨j, a, b, e⟩ | ⟨j, e⟩
    · rw [e]
    · exact absurd e (h1 j s)
    · exact absurd e (h2 j a b)
    · exact absurd e (h3 j)
  cases w with
  | tidxPut id l =>
    by_cases e : t = id
    · refine ⟨_, norm_set (some (decide (x ∈ l))), fun d d' h => ?_⟩
      dsimp only [Write.exec] at h
      split at h <;> cases h
      dsimp only
      rw [get_put, if_pos e]; rfl
    · refine ⟨_, norm_keep, fun d d' h => ?_⟩
      dsimp only [Write.exec] at h
      split at h <;> cases h
      dsimp only
      rw [get_put, if_neg e]
  | tidxErase id =>
    by_cases e : t = id
    · refine ⟨_, norm_set none, fun d d' h => ?_⟩
      cases h
      dsimp only
      rw [get_erase, if_pos e]; rfl
    · refine ⟨_, norm_keep, fun d d' h => ?_⟩
      cases h
      dsimp only
      rw [get_erase, if_neg e]
  | tidxAddDel id a b =>
    by_cases e : t = id
    · have key : ∀ g : Bool → Bool, (∀ l : List Int, decide (x ∈ (l ++ a.filter (· ∉ l)).filter (· ∉ b)) = g (decide (x ∈ l))) →
          ∀ d d', Write.exec d (.tidxAddDel id a b) = some d' →
          (get d'.tidx t).map (fun l => decide (x ∈ l)) = ((get d.tidx t).map (fun l => decide (x ∈ l))).map g := by
        intro g hg d d' h
        dsimp only [Write.exec] at h
        split at h
        · rename_i hn
          cases h
          rw [e, hn]; rfl
        · rename_i l hl
          cases h
          dsimp only
          rw [get_put, if_pos e, e, hl]
          exact congrArg some (hg l)
      by_cases c1 : x ∈ b
      · exact ⟨_, norm_mod ⟨false, rfl⟩, key _ (by intro l; simp [c1])⟩
      · by_cases c2 : x ∈ a
        · refine ⟨_, norm_mod ⟨true, rfl⟩, key _ ?_⟩
          intro l
          by_cases c3 : x ∈ l <;> simp [c1, c2, c3]
        · refine ⟨_, norm_keep, fun d d' h => ?_⟩
          refine (key (fun b => b) (by intro l; simp [c1, c2]) d d' h).trans ?_
          dsimp only
          cases get d.tidx t <;> rfl
    · refine ⟨_, norm_keep, fun d d' h => ?_⟩
      dsimp only [Write.exec] at h
      split at h
      · cases h; rfl
      · cases h
        dsimp only
        rw [get_put, if_neg e]
  | _ => exact other nofun nofun nofun

theorem seen_objs (k : Kind) (i : Int) : Seen defFam (fun d => get (d.objs k) i) := by
  intro w
  have other : (∀ k j r, w ≠ .objPut k j r) → (∀ k j n df, w ≠ .objUpdate k j n df) → (∀ k j, w ≠ .objErase k j) →
      ∃ F, Norm defFam F ∧ ∀ d d', w.exec d = some d' → get (d'.objs k) i = F (get (d.objs k) i) := by
    intro h1 h2 h3
    refine ⟨_, norm_keep, fun d d' h => ?_⟩
    rcases (exec_frame h).2.2.2 with e | ⟨k, j, r, e⟩ | ⟨k, j, a, b, e⟩ | ⟨k, j, e⟩
    · rw [e]
    · exact absurd e (h1 k j r)
    · exact absurd e (h2 k j a b)
    · exact absurd e (h3 k j)
  have hne : ∀ (d : Data) (k' : Kind) (m : Map Int Obj), k ≠ k' → (setObjs d k' m).objs k = d.objs k := by
    intro d k' m h; unfold setObjs; dsimp only; rw [if_neg h]
  have heq : ∀ (d : Data) (m : Map Int Obj), (setObjs d k m).objs k = m := by
    intro d m; unfold setObjs; dsimp only; rw [if_pos rfl]
  cases w with
  | objPut k' id r =>
    by_cases ek : k = k'
    · subst ek
      by_cases e : i = id
      · refine ⟨_, norm_set (some r), fun d d' h => ?_⟩
        dsimp only [Write.exec] at h
        split at h <;> cases h
        dsimp only
        rw [heq, get_put, if_pos e]
      · refine ⟨_, norm_keep, fun d d' h => ?_⟩
        dsimp only [Write.exec] at h
        split at h <;> cases h
        dsimp only
        rw [heq, get_put, if_neg e]
    · refine ⟨_, norm_keep, fun d d' h => ?_⟩
      dsimp only [Write.exec] at h
      split at h <;> cases h
      dsimp only
      rw [hne _ _ _ ek]
  | objErase k' id =>
    by_cases ek : k = k'
    · subst ek
      by_cases e : i = id
      · refine ⟨_, norm_set none, fun d d' h => ?_⟩
        cases h
        dsimp only
        rw [heq, get_erase, if_pos e]
      · refine ⟨_, norm_keep, fun d d' h => ?_⟩
        cases h
        dsimp only
        rw [heq, get_erase, if_neg e]
    · refine ⟨_, norm_keep, fun d d' h => ?_⟩
      cases h
      dsimp only
      rw [hne _ _ _ ek]
  | objUpdate k' id n df =>
    by_cases c : k = k' ∧ i = id
    · obtain ⟨ek, e⟩ := c
      subst ek
      refine ⟨_, norm_mod ⟨n, df, rfl⟩, fun d d' h => ?_⟩
      dsimp only [Write.exec] at h
      split at h
      · rename_i r hr
        cases h
        dsimp only
        rw [heq, get_put, if_pos e, e, hr]; rfl
      · rename_i hr
        cases h
        dsimp only
        rw [e, hr]; rfl
    · refine ⟨_, norm_keep, fun d d' h => ?_⟩
      dsimp only [Write.exec] at h
      split at h
      · cases h
        dsimp only
        by_cases ek : k = k'
        · subst ek
          rw [heq, get_put, if_neg (fun e => c ⟨rfl, e⟩)]
        · rw [hne _ _ _ ek]
      · cases h; rfl
  | _ => exact other nofun nofun nofun

/-! ## Writing again -/

theorem Same.refl (d : Data) : Same d d := ⟨fun _ => .rfl, fun _ => rfl, fun _ _ _ => rfl, fun _ _ => rfl, fun _ _ => rfl, rfl, rfl⟩

theorem Same.trans {d e f : Data} (h : Same d e) (g : Same e f) : Same d f :=
  ⟨fun i => (h.tenants i).trans (g.tenants i), fun i => (h.schemas i).trans (g.schemas i), fun i k x => (h.lists i k x).trans (g.lists i k x),
   fun t x => (h.tidx t x).trans (g.tidx t x), fun k i => (h.objs k i).trans (g.objs k i), h.nextSchema.trans g.nextSchema,
   h.nextTable.trans g.nextTable⟩

theorem tenant_obs {d e : Data} {i : Int} :
    (if i ∈ d.tenants then some () else none) = (if i ∈ e.tenants then some () else none) ↔ (i ∈ d.tenants ↔ i ∈ e.tenants) := by
  by_cases h1 : i ∈ d.tenants <;> by_cases h2 : i ∈ e.tenants <;> simp [h1, h2]

theorem execAll_twice {ws : List Write} {d d1 d2 : Data} (h1 : execAll d ws = some d1) (h2 : execAll d1 ws = some d2) : Same d1 d2 := by
  obtain ⟨a1, a2, a3, a4, _, _⟩ := execAll_next h1
  obtain ⟨b1, b2, _, _, b5, b6⟩ := execAll_next h2
  refine ⟨fun i => tenant_obs.1 ((seen_tenant i).twice noFam_wins h1 h2), fun i => (seen_schema i).twice noFam_wins h1 h2,
    fun i k x => (seen_lists i k x).twice setFam_wins h1 h2, fun t x => (seen_tidx t x).twice setFam_wins h1 h2,
    fun k i => (seen_objs k i).twice defFam_wins h1 h2, ?_, ?_⟩
  · exact Int.le_antisymm b2 (b6 _ (Int.le_refl _) a4)
  · exact Int.le_antisymm b1 (b5 _ (Int.le_refl _) a3)

theorem execAll_congr {ws : List Write} {d d' e e' : Data} (h : Same d e) (h1 : execAll d ws = some d') (h2 : execAll e ws = some e') :
    Same d' e' := by
  obtain ⟨a1, a2, a3, a4, a5, a6⟩ := execAll_next h1
  obtain ⟨b1, b2, b3, b4, b5, b6⟩ := execAll_next h2
  have e1 := h.nextSchema
  have e2 := h.nextTable
  refine ⟨fun i => tenant_obs.1 ((seen_tenant i).congr noFam_wins (tenant_obs.2 (h.tenants i)) h1 h2),
    fun i => (seen_schema i).congr noFam_wins (h.schemas i) h1 h2,
    fun i k x => (seen_lists i k x).congr setFam_wins (h.lists i k x) h1 h2,
    fun t x => (seen_tidx t x).congr setFam_wins (h.tidx t x) h1 h2,
    fun k i => (seen_objs k i).congr defFam_wins (h.objs k i) h1 h2, ?_, ?_⟩
  · exact Int.le_antisymm (a6 _ (by omega) b4) (b6 _ (by omega) a4)
  · exact Int.le_antisymm (a5 _ (by omega) b3) (b5 _ (by omega) a3)

/-- The schemas of `d` exist in `e`. -/
def Sup (d e : Data) : Prop := ∀ i, (get d.schemas i).isSome → (get e.schemas i).isSome

theorem Same.sup {d e : Data} (h : Same d e) : Sup d e := by
  intro i hi
  have := h.schemas i
  cases hg : get e.schemas i with
  | some s => rfl
  | none =>
    rw [hg] at this
    cases hd : get d.schemas i with
    | none => rw [hd] at hi; cases hi
    | some s => rw [hd] at this; cases this

/-- A write that succeeds also succeeds where there are more schemas. -/
theorem exec_sup {w : Write} {d d' e : Data} (h : w.exec d = some d') (hs : Sup d e) : ∃ e', w.exec e = some e' ∧ Sup d' e' := by
  have same : ∀ {e'}, w.exec e = some e' → d'.schemas = d.schemas → e'.schemas = e.schemas → ∃ e', w.exec e = some e' ∧ Sup d' e' := by
    intro e' h1 h2 h3
    exact ⟨e', h1, fun i => by rw [h2, h3]; exact hs i⟩
  cases w with
  | tenantPut id =>
    dsimp only [Write.exec] at h
    split at h <;> cases h
    rename_i c
    exact same (show (if id = 0 then none else some _) = some _ from if_neg c) rfl rfl
  | tenantErase id => cases h; exact same rfl rfl rfl
  | schemaPut id s =>
    dsimp only [Write.exec] at h
    split at h <;> cases h
    rename_i c
    refine ⟨_, show (if id = 0 then none else some _) = some _ from if_neg c, ?_⟩
    intro i
    dsimp only
    rw [get_put, get_put]
    split
    · exact fun h => h
    · exact hs i
  | schemaErase id =>
    cases h
    refine ⟨_, rfl, ?_⟩
    intro i
    dsimp only
    rw [get_erase, get_erase]
    split
    · exact fun h => h
    · exact hs i
  | tidxPut t l =>
    dsimp only [Write.exec] at h
    split at h <;> cases h
    rename_i c
    exact same (show (if t = 0 then none else some _) = some _ from if_neg c) rfl rfl
  | tidxAddDel t a b =>
    have h1 : d'.schemas = d.schemas := by dsimp only [Write.exec] at h; split at h <;> cases h <;> rfl
    cases hg : get e.tidx t with
    | none => exact same (e' := e) (by dsimp only [Write.exec]; rw [hg]) h1 rfl
    | some l => exact same (e' := { e with tidx := put e.tidx t ((l ++ a.filter (· ∉ l)).filter (· ∉ b)) }) (by dsimp only [Write.exec]; rw [hg]) h1 rfl
  | tidxErase t => cases h; exact same rfl rfl rfl
  | objPut k' id r =>
    dsimp only [Write.exec] at h
    split at h <;> cases h
    rename_i c
    exact same (show (if id = 0 then none else some _) = some _ from if_neg c) rfl rfl
  | schemaAdd k' sid id =>
    dsimp only [Write.exec] at h
    split at h
    · rename_i s hg
      split at h <;> cases h
      rename_i c
      obtain ⟨s', hg'⟩ := Option.isSome_iff_exists.1 (hs sid (by rw [hg]; rfl))
      refine ⟨{ e with schemas := put e.schemas sid (setIds s' k' (s'.ids k' ++ [id])) }, ?_, ?_⟩
      · dsimp only [Write.exec]; rw [hg']; dsimp only; rw [if_neg c]
      · intro i
        dsimp only
        rw [get_put, get_put]
        split
        · exact fun _ => rfl
        · exact hs i
    · cases h
  | objUpdate k' id n df =>
    have h1 : d'.schemas = d.schemas := by dsimp only [Write.exec] at h; split at h <;> cases h <;> rfl
    cases hg : get (e.objs k') id with
    | none => exact same (e' := e) (by dsimp only [Write.exec]; rw [hg]) h1 rfl
    | some r => exact same (e' := setObjs e k' (put (e.objs k') id { r with name := n, defn := df })) (by dsimp only [Write.exec]; rw [hg]) h1 rfl
  | schemaDel k' sid id =>
    dsimp only [Write.exec] at h
    split at h
    · rename_i s hg
      split at h <;> cases h
      rename_i c
      obtain ⟨s', hg'⟩ := Option.isSome_iff_exists.1 (hs sid (by rw [hg]; rfl))
      refine ⟨{ e with schemas := put e.schemas sid (setIds s' k' ((s'.ids k').filter (· ≠ id))) }, ?_, ?_⟩
      · dsimp only [Write.exec]; rw [hg']; dsimp only; rw [if_neg c]
      · intro i
        dsimp only
        rw [get_put, get_put]
        split
        · exact fun _ => rfl
        · exact hs i
    · cases h
  | objErase k' id => cases h; exact same rfl rfl rfl
  | nextSchema v => cases h; exact same rfl rfl rfl
  | nextTable v => cases h; exact same rfl rfl rfl

theorem execAll_sup {ws : List Write} : ∀ {d d' e : Data}, execAll d ws = some d' → Sup d e → ∃ e', execAll e ws = some e' := by
  induction ws with
  | nil => intro d d' e _ _; exact ⟨e, rfl⟩
  | cons w ws ih =>
    intro d d' e h hs
    rw [execAll] at h
    cases he : w.exec d with
    | none => rw [he] at h; cases h
    | some d1 =>
      rw [he] at h
      obtain ⟨e1, h1, h2⟩ := exec_sup he hs
      obtain ⟨e', h3⟩ := ih h h2
      exact ⟨e', by rw [execAll, h1]; exact h3⟩

/-- No schema is dropped, or nothing else is done. -/
def Again (ws : List Write) : Prop := (∀ id, .schemaErase id ∉ ws) ∨ ∃ id, ws = [.schemaErase id]

theorem execAll_keeps {ws : List Write} : ∀ {d d' : Data}, (∀ id, .schemaErase id ∉ ws) → execAll d ws = some d' → Sup d d' := by
  induction ws with
  | nil => intro d d' _ h; cases h; exact fun i h => h
  | cons w ws ih =>
    intro d d' hn h
    rw [execAll] at h
    cases he : w.exec d with
    | none => rw [he] at h; cases h
    | some d1 =>
      rw [he] at h
      have h1 : Sup d d1 := by
        intro i hi
        cases w with
        | schemaErase id => exact absurd List.mem_cons_self (hn id)
        | schemaPut id s =>
          dsimp only [Write.exec] at he
          split at he <;> cases he
          dsimp only
          rw [get_put]
          split
          · rfl
          · exact hi
        | schemaAdd k sid id =>
          dsimp only [Write.exec] at he
          split at he
          · split at he <;> cases he
            dsimp only
            rw [get_put]
            split
            · rfl
            · exact hi
          · cases he
        | schemaDel k sid id =>
          dsimp only [Write.exec] at he
          split at he
          · split at he <;> cases he
            dsimp only
            rw [get_put]
            split
            · rfl
            · exact hi
          · cases he
        | _ =>
          rcases (exec_frame he).2.1 with e | ⟨j, s, e⟩ | ⟨j, e⟩ | ⟨k, s, j, e⟩ | ⟨k, s, j, e⟩
          · rw [e]; exact hi
          all_goals cases e
      exact fun i hi => ih (fun id hm => hn id (List.mem_cons_of_mem _ hm)) h i (h1 i hi)

theorem execAll_take {ws : List Write} {d d' : Data} (h : execAll d ws = some d') (n : Nat) :
    ∃ d1, execAll d (ws.take n) = some d1 ∧ execAll d1 (ws.drop n) = some d' := by
  rw [← List.take_append_drop n ws, execAll_append] at h
  cases hg : execAll d (ws.take n) with
  | none => rw [hg] at h; cases h
  | some d1 => rw [hg] at h; exact ⟨d1, rfl, h⟩

/-- After a crash the entry is applied, with the same outcome. -/
theorem execAll_again {ws : List Write} {d d' : Data} (ha : Again ws) (h : execAll d ws = some d') (n : Nat) :
    ∃ d1 d2, execAll d (ws.take n) = some d1 ∧ execAll d1 ws = some d2 ∧ Same d' d2 := by
  obtain ⟨d1, h1, h2⟩ := execAll_take h n
  have hex : ∃ d2, execAll d1 ws = some d2 := by
    rcases ha with ha | ⟨id, e⟩
    · exact execAll_sup h (execAll_keeps (fun id hm => ha id (List.mem_of_mem_take hm)) h1)
    · rw [e]; exact ⟨_, rfl⟩
  obtain ⟨d2, h3⟩ := hex
  refine ⟨d1, d2, h1, h3, ?_⟩
  obtain ⟨d3, h4, h5⟩ := execAll_take h3 n
  exact execAll_congr (execAll_twice h1 h4) h2 h5

theorem crashes_same {inc : Incr} (ha : Again inc.writes) {ns : List Nat} : ∀ {d d' : Data}, applyIncr d inc = some d' →
    ∃ d'', crashes d inc ns = some d'' ∧ Same d' d'' := by
  induction ns with
  | nil => intro d d' h; exact ⟨d', h, .refl _⟩
  | cons n ns ih =>
    intro d d' h
    obtain ⟨d1, d2, h1, h2, h3⟩ := execAll_again ha h n
    obtain ⟨d3, h4, h5⟩ := ih (d := d1) h2
    refine ⟨d3, ?_, h3.trans h5⟩
    rw [crashes, h1]
    exact h4

theorem Shape.again {d : Data} {t t' : Temp} {p : Plan} (h : Shape d t t' p) : Again p.incr.writes := by
  have ops : ∀ k (l : List ObjOp) id, Write.schemaErase id ∉ l.flatMap (ObjOp.writes k) := by
    intro k l id hm
    obtain ⟨op, _, hm⟩ := List.mem_flatMap.1 hm
    cases op <;> simp [ObjOp.writes] at hm
  have none' : (∀ id, .schemaErase id ∉ p.incr.heads) → (∀ id, .schemaErase id ∉ p.incr.ids) → Again p.incr.writes := by
    intro h1 h2
    refine Or.inl (fun id hm => ?_)
    unfold Incr.writes at hm
    simp only [List.mem_append] at hm
    rcases hm with ((hm | hm) | hm) | hm
    · exact h1 id hm
    · exact ops _ _ _ hm
    · exact ops _ _ _ hm
    · exact h2 id hm
  cases h with
  | objs h =>
    refine none' (fun id hm => ?_) (fun id hm => ?_)
    · exact h.heads _ hm
    · rw [h.ids] at hm; cases hm
  | tenant ws hi hr hb ht hw =>
    refine none' (fun id hm => ?_) (fun id hm => ?_)
    · rw [hi] at hm
      obtain ⟨j, e | e⟩ := hw _ hm
      · cases e.1
      · cases e
    · rw [hi] at hm; cases hm
  | newSchema id s ids hi hr hb he hn hid =>
    refine none' (fun i hm => ?_) (fun i hm => ?_)
    · rw [hi] at hm; cases List.mem_singleton.1 hm
    · rw [hi] at hm
      dsimp only at hm
      rcases hid with ⟨_, e, _⟩ | ⟨_, e, _⟩
      · rw [e] at hm; cases hm
      · rw [e] at hm; cases List.mem_singleton.1 hm
  | noSchema id tn s hi =>
    right
    exact ⟨id, by rw [hi]; rfl⟩
  | ids l ws hi hr hb h1 h2 h3 h4 hl hw =>
    refine none' (fun i hm => ?_) (fun i hm => ?_)
    · rw [hi] at hm; cases hm
    · rw [hi] at hm
      rcases hw with ⟨_, e, _⟩ | ⟨_, hw⟩
      · dsimp only at hm; rw [e] at hm; cases hm
      · obtain ⟨v, e, _⟩ := hw _ hm
        cases e

/-! ## C75 -/

/-- The next entry of the log, in every run: if the process ends while it is applied, at any write, and as often as it
likes, and the entry is applied again each time, the outcome is the one without crashes, but for ids that are in a list
more than once. -/
theorem C75_crash_partial (es : List Ev) (x : Nat × Incr) (rest : List (Nat × Incr)) (hl : (run init es).1.log = x :: rest) (d' : Data)
    (h : applyIncr (run init es).1.data x.2 = some d') (cuts : List Nat) :
    ∃ d'', crashes (run init es).1.data x.2 cuts = some d'' ∧ Same d' d'' := by
  obtain ⟨th, h1, h2⟩ := run_log (es := es) x (hl ▸ List.mem_cons_self)
  obtain ⟨es1, _, _, t, h5⟩ := run_begun h1
  rw [← h2] at h ⊢
  exact crashes_same (prepare_shape h5).again h

/-- A node that applied the entries of a run with crashes between any writes has the metadata of the run, but for ids that
are in a list more than once. -/
theorem C75_history_partial (es : List Ev) (log : List (Incr × List Nat)) (h : log.map Prod.fst = applied init es) :
    ∃ d, crashesAll init.data log = some d ∧ Same (run init es).1.data d := by
  induction es using snoc_ind generalizing log with
  | nil =>
    have : log = [] := List.map_eq_nil_iff.1 h
    subst this
    exact ⟨_, rfl, .refl _⟩
  | snoc es e ih =>
    have app : ∀ (a b : List (Incr × List Nat)) (d : Data), crashesAll d (a ++ b) = (crashesAll d a).bind (fun d => crashesAll d b) := by
      intro a b
      induction a with
      | nil => intro d; rfl
      | cons x a ih =>
        intro d
        rw [List.cons_append, crashesAll, crashesAll]
        cases crashes d x.1 x.2 with
        | none => rfl
        | some d1 => exact ih d1
    rw [applied_append] at h
    rw [run_snoc]
    dsimp only
    rcases step_data (run init es).1 e with ⟨h1, h2⟩ | ⟨x, rest, d, _, _, hl, h1, ha, h2⟩
    · rw [h1, List.append_nil] at h
      rw [h2]
      exact ih log h
    · rw [h1] at h
      rw [h2]
      obtain ⟨l1, l2, e1, e2, e3⟩ := List.map_eq_append_iff.1 h
      obtain ⟨d0, g1, g2⟩ := ih l1 e2
      obtain ⟨y, rfl⟩ : ∃ y, l2 = [y] := by
        have := congrArg List.length e3
        rw [List.length_map] at this
        exact List.length_eq_one_iff.1 this
      have ey : y.1 = x.2 := List.cons.inj e3 |>.1
      obtain ⟨th, k1, k2⟩ := run_log (es := es) x (hl ▸ List.mem_cons_self)
      obtain ⟨es1, _, _, t, k5⟩ := run_begun k1
      have hag : Again x.2.writes := k2 ▸ (prepare_shape k5).again
      obtain ⟨d1, m1⟩ := execAll_sup (e := d0) ha g2.sup
      obtain ⟨d2, m2, m3⟩ := crashes_same hag (ns := y.2) (d := d0) (d' := d1) m1
      refine ⟨d2, ?_, (execAll_congr g2 ha m1).trans m3⟩
      rw [e1, app, g1]
      show crashesAll d0 [y] = _
      rw [crashesAll, ey, m2]
      rfl

theorem Same.some {d e : Data} (h : Same d e) {i : Int} {s : Schema} (hs : get d.schemas i = some s) :
    ∃ s', get e.schemas i = some s' ∧ ∀ k x, x ∈ s.ids k ↔ x ∈ s'.ids k := by
  obtain ⟨s', hs'⟩ := Option.isSome_iff_exists.1 (h.sup i (by rw [hs]; rfl))
  refine ⟨s', hs', fun k x => ?_⟩
  have := h.lists i k x
  rw [hs, hs'] at this
  exact decide_eq_decide.1 (Option.some.inj this)

theorem Same.none {d e : Data} (h : Same d e) {i : Int} (hs : get d.schemas i = none) : get e.schemas i = none := by
  have := h.schemas i
  rw [hs] at this
  cases hg : get e.schemas i with
  | none => rfl
  | some s => rw [hg] at this; cases this

/-- What is read after crashes: `GetTable` and `GetIndex` answer the same; `GetTables` and `GetIndexes` answer with the same
tables and indexes, some of them more than once; the next ids are the same. -/
theorem C75_reads (d e : Data) (h : Same d e) :
    (∀ k sid i, getObj d k sid i = getObj e k sid i) ∧
    (∀ k sid l, listObjs d k sid = .ok l → ∃ l', listObjs e k sid = .ok l' ∧ ∀ x, x ∈ l ↔ x ∈ l') ∧
    (∀ sid, (getSchema d sid).map (fun s => (s.name, s.tenant)) = (getSchema e sid).map (fun s => (s.name, s.tenant))) := by
  refine ⟨?_, ?_, ?_⟩
  · intro k sid i
    unfold getObj
    rw [h.objs k i]
    cases hs : get d.schemas sid with
    | none => rw [h.none hs]
    | some s =>
      obtain ⟨s', hs', _⟩ := h.some hs
      rw [hs']
  · intro k sid l hl
    unfold listObjs at hl ⊢
    split at hl
    · cases hl
    · rename_i c
      rw [if_neg c]
      cases hs : get d.schemas sid with
      | none => rw [hs] at hl; cases hl
      | some s =>
        rw [hs] at hl
        obtain ⟨s', hs', hm⟩ := h.some hs
        rw [hs']
        cases hl
        refine ⟨_, rfl, fun x => ?_⟩
        simp only [List.mem_filterMap, hm k, h.objs k]
  · intro sid
    unfold getSchema
    split
    · rfl
    · have := h.schemas sid
      cases hs : get d.schemas sid with
      | none => rw [h.none hs]
      | some s =>
        obtain ⟨s', hs', _⟩ := h.some hs
        rw [hs, hs'] at this
        rw [hs']
        exact congrArg Except.ok (Option.some.inj this)

/-! ## What the code does otherwise -/

/-- After crashes and restarts the metadata is the one without crashes, in runs of orderly events. -/
def C75Exact : Prop := ∀ es, okRun init es = true → ∀ log : List (Incr × List Nat), log.map Prod.fst = applied init es →
  ∃ d, crashesAll init.data log = some d ∧ ∀ sid, listObjs d .table sid = listObjs (run init es).1.data .table sid ∧
    countTables d sid = countTables (run init es).1.data sid

/-- One table with one crash. -/
def crashExample : List Ev := [.elect 0, .build, .begin (.createTable 2 ⟨60001, [97], 0, none, none⟩), .submit 0, .apply]

/-- The process ends after the table was added to the list of the schema, and before the applied index is written: after the
restart the table is in the list twice, `GetTables` returns it twice, and `GetTablesCount` says 2. -/
theorem C75_twice_false : ¬ C75Exact := by
  intro h
  obtain ⟨d, h1, h2⟩ := h crashExample (by decide +kernel) ((applied init crashExample).map (fun i => (i, [2]))) (by
    rw [List.map_map]; exact List.map_id _)
  have h3 := (h2 2).2
  have h4 : (crashesAll init.data ((applied init crashExample).map (fun i => (i, [2])))).map (fun d => countTables d 2) =
      some (.ok 2) := by decide +kernel
  rw [h1] at h4
  have h5 : countTables d 2 = .ok 2 := Option.some.inj h4
  rw [h5] at h3
  revert h3
  decide +kernel

example : (crashesAll init.data ((applied init crashExample).map (fun i => (i, [2])))).map (fun d => listObjs d .table 2) =
    some (.ok [(60001, ⟨2, [97], 60001, 0⟩), (60001, ⟨2, [97], 60001, 0⟩)]) := by decide +kernel

/-- `C75_crash_partial`: an entry with five writes. -/
example : ∃ x rest d', (run init ([.elect 0, .build, .begin (.createTables 2 [(some .table, ⟨60001, [97], 0, none, none⟩),
    (some .index, ⟨60002, [98], 0, none, none⟩)]), .submit 0])).1.log = x :: rest ∧ x.2.writes.length = 5 ∧
    applyIncr Data.init x.2 = some d' := by
  refine ⟨_, _, _, rfl, by decide +kernel, rfl⟩

end Verif.Meta
