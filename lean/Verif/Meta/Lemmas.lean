/-
Lemmas about the maps, the writes and the claims on names.
-/
import Verif.Meta.Model
import Verif.Meta.Claim

namespace Verif.Meta

/-! ## Maps -/

section
variable {α β : Type} [DecidableEq α]

theorem get_erase (m : Map α β) (a b : α) : get (erase m a) b = if b = a then none else get m b := by
  induction m with
  | nil => simp [erase, get]
  | cons p m ih =>
    obtain ⟨k, v⟩ := p
    unfold erase at *
    by_cases hk : k = a
    · rw [List.filter_cons_of_neg (by simp [hk]), ih]
      by_cases hb : b = a
      · simp [hb]
      · rw [if_neg hb, if_neg hb]
        conv => rhs; unfold get
        rw [if_neg (fun e => hb (e.symm.trans hk))]
    · rw [List.filter_cons_of_pos (by simp [hk])]
      unfold get
      rw [ih]
      by_cases hb : k = b
      · rw [if_pos hb, if_pos hb, if_neg (fun e => hk (hb.trans e))]
      · rw [if_neg hb, if_neg hb]

theorem get_put (m : Map α β) (a b : α) (v : β) :
    get (put m a v) b = if b = a then some v else get m b := by
  unfold put
  rw [get]
  by_cases h : b = a
  · rw [if_pos h.symm, if_pos h]
  · rw [if_neg (fun e => h e.symm), if_neg h, get_erase, if_neg h]

/-- No key twice. -/
def Clean (m : Map α β) : Prop := (m.map Prod.fst).Nodup

theorem Clean.erase {m : Map α β} (h : Clean m) (a : α) : Clean (erase m a) :=
  List.Nodup.sublist (List.Sublist.map _ List.filter_sublist) h

theorem Clean.put {m : Map α β} (h : Clean m) (a : α) (v : β) : Clean (put m a v) := by
  unfold Verif.Meta.put Clean
  rw [List.map_cons]
  refine List.nodup_cons.2 ⟨fun hm => ?_, h.erase a⟩
  obtain ⟨p, hp, e⟩ := List.mem_map.1 hm
  have := (List.mem_filter.1 hp).2
  simp at this
  exact this e

theorem get_mem {m : Map α β} {a : α} {v : β} (h : get m a = some v) : (a, v) ∈ m := by
  induction m with
  | nil => simp [get] at h
  | cons p m ih =>
    obtain ⟨k, w⟩ := p
    unfold get at h
    by_cases hk : k = a
    · rw [if_pos hk] at h
      cases h; cases hk; exact List.mem_cons_self
    · rw [if_neg hk] at h
      exact List.mem_cons_of_mem _ (ih h)

theorem Clean.get {m : Map α β} (h : Clean m) {a : α} {v : β} (hm : (a, v) ∈ m) : get m a = some v := by
  induction m with
  | nil => cases hm
  | cons p m ih =>
    obtain ⟨k, w⟩ := p
    unfold Clean at h
    rw [List.map_cons] at h
    obtain ⟨h1, h2⟩ := List.nodup_cons.1 h
    unfold Verif.Meta.get
    rcases List.mem_cons.1 hm with e | hm
    · cases e; rw [if_pos rfl]
    · rw [if_neg (fun e => h1 (List.mem_map.2 ⟨(a, v), hm, e.symm⟩))]
      exact ih h2 hm

end

/-! ## The objects with a name -/

/-- Schemas, tables and indexes. -/
inductive Cls where
  | schema
  | obj (k : Kind)
  deriving DecidableEq

/-- What exists. -/
def live (d : Data) : Cls → Int → Option Key
  | .schema, i => (get d.schemas i).map (fun s => (s.tenant, s.name))
  | .obj k, i => (get (d.objs k) i).map (fun r => (r.schema, r.name))

/-- What is found by name. -/
def nameOf (t : Temp) : Cls → Key → Option Int
  | .schema => get t.schemaNames
  | .obj k => get (t.names k)

/-- The change a write is. -/
def Write.move (c : Cls) : Write → Option Move
  | .schemaPut id s => if c = .schema then some (.create id (s.tenant, s.name)) else none
  | .schemaErase id => if c = .schema then some (.delete id) else none
  | .objPut k id r => if c = .obj k then some (.create id (r.schema, r.name)) else none
  | .objUpdate k id n _ => if c = .obj k then some (.rename id n) else none
  | .objErase k id => if c = .obj k then some (.delete id) else none
  | _ => none

/-- The changes of an entry. -/
def Incr.moves (c : Cls) (i : Incr) : List Move := i.writes.filterMap (Write.move c)

/-- Zero or one change. -/
def actOpt (f : Int → Option Key) : Option Move → Int → Option Key
  | none => f
  | some m => m.act f

theorem setObjs_objs (d : Data) (k k' : Kind) (m : Map Int Obj) :
    (setObjs d k m).objs k' = if k' = k then m else d.objs k' := rfl

theorem exec_live {d d' : Data} {w : Write} (h : w.exec d = some d') (c : Cls) :
    live d' c = actOpt (live d c) (w.move c) := by
  cases w with
  | tenantPut id =>
    dsimp only [Write.exec] at h
    split at h
    · cases h
    · cases h; cases c <;> rfl
  | tenantErase id => cases h; cases c <;> rfl
  | schemaPut id s =>
    dsimp only [Write.exec] at h
    split at h
    · cases h
    · cases h
      cases c with
      | schema =>
        funext i
        dsimp only [live, Write.move]
        rw [if_pos rfl, get_put]
        dsimp only [actOpt, Move.act]
        split <;> rfl
      | obj k => rfl
  | schemaErase id =>
    cases h
    cases c with
    | schema =>
      funext i
      dsimp only [live, Write.move]
      rw [if_pos rfl, get_erase]
      dsimp only [actOpt, Move.act]
      split <;> rfl
    | obj k => rfl
  | tidxPut t l =>
    dsimp only [Write.exec] at h
    split at h
    · cases h
    · cases h; cases c <;> rfl
  | tidxAddDel t a b =>
    dsimp only [Write.exec] at h
    split at h <;> cases h <;> cases c <;> rfl
  | tidxErase t => cases h; cases c <;> rfl
  | objPut k id r =>
    dsimp only [Write.exec] at h
    split at h
    · cases h
    · cases h
      cases c with
      | schema => rfl
      | obj k' =>
        funext i
        dsimp only [live, Write.move]
        rw [setObjs_objs]
        by_cases e : k' = k
        · subst e
          rw [if_pos rfl, if_pos rfl, get_put]
          dsimp only [actOpt, Move.act]
          split <;> rfl
        · rw [if_neg e, if_neg (fun h => e (by cases h; rfl))]; rfl
  | schemaAdd k sid id =>
    dsimp only [Write.exec] at h
    split at h
    · rename_i s hs
      split at h
      · cases h
      · cases h
        cases c with
        | schema =>
          funext i
          dsimp only [live, Write.move, actOpt]
          rw [get_put]
          by_cases e : i = sid
          · rw [if_pos e, e, hs]; rfl
          · rw [if_neg e]
        | obj k => rfl
    · cases h
  | objUpdate k id n df =>
    dsimp only [Write.exec] at h
    split at h
    · rename_i r hr
      cases h
      cases c with
      | schema => rfl
      | obj k' =>
        funext i
        dsimp only [live, Write.move]
        rw [setObjs_objs]
        by_cases e : k' = k
        · subst e
          rw [if_pos rfl, if_pos rfl, get_put]
          dsimp only [actOpt, Move.act]
          by_cases e : i = id
          · rw [if_pos e, if_pos e, e]; dsimp only [live]; rw [hr]; rfl
          · rw [if_neg e, if_neg e]; rfl
        · rw [if_neg e, if_neg (fun h => e (by cases h; rfl))]; rfl
    · rename_i hr
      cases h
      cases c with
      | schema => rfl
      | obj k' =>
        funext i
        dsimp only [live, Write.move]
        by_cases e : k' = k
        · subst e
          rw [if_pos rfl]
          dsimp only [actOpt, Move.act]
          by_cases e : i = id
          · rw [if_pos e, e]; dsimp only [live]; rw [hr]; rfl
          · rw [if_neg e]; rfl
        · rw [if_neg (fun h => e (by cases h; rfl))]; rfl
  | schemaDel k sid id =>
    dsimp only [Write.exec] at h
    split at h
    · rename_i s hs
      split at h
      · cases h
      · cases h
        cases c with
        | schema =>
          funext i
          dsimp only [live, Write.move, actOpt]
          rw [get_put]
          by_cases e : i = sid
          · rw [if_pos e, e, hs]; rfl
          · rw [if_neg e]
        | obj k => rfl
    · cases h
  | objErase k id =>
    cases h
    cases c with
    | schema => rfl
    | obj k' =>
      funext i
      dsimp only [live, Write.move]
      rw [setObjs_objs]
      by_cases e : k' = k
      · subst e
        rw [if_pos rfl, if_pos rfl, get_erase]
        dsimp only [actOpt, Move.act]
        split <;> rfl
      · rw [if_neg e, if_neg (fun h => e (by cases h; rfl))]; rfl
  | nextSchema v => cases h; cases c <;> rfl
  | nextTable v => cases h; cases c <;> rfl

theorem execAll_live {ws : List Write} : ∀ {d d' : Data}, execAll d ws = some d' → ∀ c,
    live d' c = acts (live d c) (ws.filterMap (Write.move c)) := by
  induction ws with
  | nil => intro d d' h c; cases h; rfl
  | cons w ws ih =>
    intro d d' h c
    unfold execAll at h
    split at h
    · rename_i d1 h1
      rw [ih h c, exec_live h1 c]
      cases e : w.move c with
      | none => rw [List.filterMap_cons_none e]; rfl
      | some m => rw [List.filterMap_cons_some e]; rfl
    · cases h

theorem applyIncr_live {d d' : Data} {i : Incr} (h : applyIncr d i = some d') (c : Cls) :
    live d' c = acts (live d c) (i.moves c) := execAll_live h c

theorem execAll_append {ws ws' : List Write} : ∀ {d : Data},
    execAll d (ws ++ ws') = (execAll d ws).bind (fun d => execAll d ws') := by
  induction ws with
  | nil => intro d; rfl
  | cons w ws ih =>
    intro d
    rw [List.cons_append, execAll, execAll]
    cases h : w.exec d with
    | none => rfl
    | some d1 => exact ih

/-! ## Maps have no key twice -/

/-- The maps have no key twice. -/
structure DataOk (d : Data) : Prop where
  schemas : Clean d.schemas
  objs : ∀ k, Clean (d.objs k)

theorem DataOk.exec {d d' : Data} {w : Write} (h : DataOk d) (he : w.exec d = some d') : DataOk d' := by
  have hs : ∀ k m, Clean m → DataOk (setObjs d k m) := by
    intro k m hm
    refine ⟨h.schemas, fun k' => ?_⟩
    rw [setObjs_objs]
    split
    · exact hm
    · exact h.objs k'
  cases w <;> dsimp only [Write.exec] at he
  case tenantPut => split at he <;> cases he; exact ⟨h.schemas, h.objs⟩
  case tenantErase => cases he; exact ⟨h.schemas, h.objs⟩
  case schemaPut => split at he <;> cases he; exact ⟨h.schemas.put _ _, h.objs⟩
  case schemaErase => cases he; exact ⟨h.schemas.erase _, h.objs⟩
  case tidxPut => split at he <;> cases he; exact ⟨h.schemas, h.objs⟩
  case tidxAddDel => split at he <;> cases he <;> exact ⟨h.schemas, h.objs⟩
  case tidxErase => cases he; exact ⟨h.schemas, h.objs⟩
  case objPut => split at he <;> cases he; exact hs _ _ ((h.objs _).put _ _)
  case schemaAdd =>
    split at he
    · split at he <;> cases he; exact ⟨h.schemas.put _ _, h.objs⟩
    · cases he
  case objUpdate =>
    split at he <;> cases he
    · exact hs _ _ ((h.objs _).put _ _)
    · exact h
  case schemaDel =>
    split at he
    · split at he <;> cases he; exact ⟨h.schemas.put _ _, h.objs⟩
    · cases he
  case objErase => cases he; exact hs _ _ ((h.objs _).erase _)
  case nextSchema => cases he; exact ⟨h.schemas, h.objs⟩
  case nextTable => cases he; exact ⟨h.schemas, h.objs⟩

theorem DataOk.execAll {ws : List Write} : ∀ {d d' : Data}, DataOk d → execAll d ws = some d' → DataOk d' := by
  induction ws with
  | nil => intro d d' h he; cases he; exact h
  | cons w ws ih =>
    intro d d' h he
    unfold Verif.Meta.execAll at he
    split at he
    · rename_i d1 h1
      exact ih (h.exec h1) he
    · cases he

/-! ## Rebuilding the maps of the leader -/

theorem get_foldl_put {α : Type} (f : Int × α → Key) (l : List (Int × α)) : ∀ (m : Map Key Int) (key : Key),
    get (l.foldl (fun m p => put m (f p) p.1) m) key =
      match (l.reverse.find? (fun p => f p = key)) with
      | some p => some p.1
      | none => get m key := by
  induction l with
  | nil => intro m key; rfl
  | cons p l ih =>
    intro m key
    rw [List.foldl_cons, ih, List.reverse_cons, List.find?_append]
    cases h : l.reverse.find? (fun p => f p = key) with
    | some q => rfl
    | none =>
      dsimp only [Option.or]
      rw [get_put]
      by_cases e : f p = key
      · rw [if_pos e.symm, List.find?_cons_of_pos (by simp [e])]
      · rw [if_neg (fun h => e h.symm), List.find?_cons_of_neg (by simp [e])]; rfl

theorem named_foldl {α : Type} (f : Int × α → Key) (m : Map Int α) (lv : Int → Option Key) (hc : Clean m)
    (hl : ∀ i, lv i = (get m i).map (fun a => f (i, a))) (hu : Fits lv []) :
    Named lv [] (get (m.foldl (fun m p => put m (f p) p.1) [])) := by
  intro id key hh
  rw [get_foldl_put]
  have hid : lv id = some key := by
    rcases hh with ⟨h, _⟩ | h
    · exact h
    · cases h
  have h1 := hid
  rw [hl, Option.map_eq_some_iff] at h1
  obtain ⟨a, ha, hk⟩ := h1
  have hmem := get_mem ha
  cases h : m.reverse.find? (fun p => f p = key) with
  | none =>
    have := List.find?_eq_none.1 h (id, a) (List.mem_reverse.2 hmem)
    simp [hk] at this
  | some p =>
    have h2 := List.find?_some h
    have h3 : p ∈ m := List.mem_reverse.1 (List.mem_of_find?_eq_some h)
    have h4 : lv p.1 = some key := by
      rw [hl, hc.get (a := p.1) (v := p.2) h3]
      simpa using h2
    dsimp only
    rw [hu.uniq p.1 id key (Or.inl ⟨h4, by simp⟩) (Or.inl ⟨hid, by simp⟩)]

theorem build_named {d : Data} (h : DataOk d) (c : Cls) (hu : Fits (live d c) []) :
    Named (live d c) [] (nameOf (build d) c) := by
  cases c with
  | schema =>
    exact named_foldl (fun p : Int × Schema => (p.2.tenant, p.2.name)) d.schemas _ h.schemas (fun _ => rfl) hu
  | obj k =>
    exact named_foldl (fun p : Int × Obj => (p.2.schema, p.2.name)) (d.objs k) _ (h.objs k) (fun _ => rfl) hu

end Verif.Meta
