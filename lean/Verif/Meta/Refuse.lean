/-
What a refused request leaves behind: the names are as before, unless it is a `DropTables`.
-/
import Verif.Meta.Prepare

namespace Verif.Meta

/-- The same names are found. -/
def SameNames (t t' : Names) : Prop := ∀ k key, get (t' k) key = get (t k) key

theorem SameNames.refl (t : Names) : SameNames t t := fun _ _ => rfl
theorem SameNames.trans {a b c : Names} (h : SameNames a b) (h' : SameNames b c) : SameNames a c :=
  fun k key => (h' k key).trans (h k key)

theorem get_set (t : Names) (k k' : Kind) (m : Map (Int × Name) Int) (key : Int × Name) :
    get (t.set k m k') key = if k' = k then get m key else get (t k') key := by
  unfold Names.set
  split <;> rfl

theorem same_put_erase {t : Names} {k : Kind} {key : Int × Name} {id : Int} (h : get (t k) key = none) :
    SameNames t (t.set k (erase (put (t k) key id) key)) := by
  intro k' key'
  rw [get_set]
  by_cases e : k' = k
  · rw [if_pos e, get_erase, get_put, e]
    by_cases e' : key' = key
    · rw [if_pos e', e', h]
    · rw [if_neg e', if_neg e']
  · rw [if_neg e]

theorem set_set (t : Names) (k : Kind) (m m' : Map (Int × Name) Int) : (t.set k m).set k m' = t.set k m' := by
  funext k'
  unfold Names.set
  split <;> rfl

theorem mkTable_err {d : Data} {t t' : Temp} {sid : Int} {n : New} {e : Err}
    (h : mkTable d t sid n = (t', .error e)) : SameNames t.names t'.names ∧ Still t t' := by
  unfold mkTable at h
  by_cases c1 : sid < 0 ∨ sid = 0
  · rw [if_pos c1] at h; cases h; exact ⟨.refl _, .refl _⟩
  · rw [if_neg c1] at h
    cases hs : get d.schemas sid with
    | none => rw [hs] at h; cases h; exact ⟨.refl _, .refl _⟩
    | some s =>
      rw [hs] at h
      dsimp only at h
      cases he : n.early with
      | some e => rw [he] at h; cases h; exact ⟨.refl _, .refl _⟩
      | none =>
        rw [he] at h
        dsimp only at h
        by_cases c2 : (get (t.names .table) (sid, n.name)).getD 0 ≠ 0
        · rw [if_pos c2] at h; cases h; exact ⟨.refl _, .refl _⟩
        · rw [if_neg c2] at h
          by_cases c3 : (get (t.names .table) (sid, n.name)).isSome
          · rw [if_pos c3] at h; cases h; exact ⟨.refl _, .refl _⟩
          · rw [if_neg c3] at h
            have hn : get (t.names .table) (sid, n.name) = none := by simpa using c3
            have hsame := same_put_erase (t := t.names) (id := n.id) hn
            have key : SameNames t.names (setNames (setNames t .table (put (t.names .table) (sid, n.name) n.id)) .table
                (erase ((setNames t .table (put (t.names .table) (sid, n.name) n.id)).names .table) (sid, n.name))).names := by
              have e1 : (setNames (setNames t .table (put (t.names .table) (sid, n.name) n.id)) .table
                (erase ((setNames t .table (put (t.names .table) (sid, n.name) n.id)).names .table) (sid, n.name))).names
                = Names.set t.names .table (erase (put (t.names .table) (sid, n.name) n.id) (sid, n.name)) := by
                funext k'; cases k' <;> rfl
              rw [e1]; exact hsame
            by_cases c4 : n.id ≤ 0
            · rw [if_pos c4] at h; cases h; exact ⟨key, rfl, rfl, rfl⟩
            · rw [if_neg c4] at h
              by_cases c5 : (get (d.objs .table) n.id).isSome
              · rw [if_pos c5] at h; cases h; exact ⟨key, rfl, rfl, rfl⟩
              · rw [if_neg c5] at h
                cases hl : n.late with
                | some e => rw [hl] at h; cases h; exact ⟨key, rfl, rfl, rfl⟩
                | none => rw [hl] at h; cases h

theorem mkIndex_err {d : Data} {t t' : Temp} {sid owner : Int} {n : New} {e : Err}
    (h : mkIndex d t sid owner n = (t', .error e)) : SameNames t.names t'.names ∧ Still t t' := by
  unfold mkIndex at h
  by_cases c1 : sid < 0 ∨ sid = 0
  · rw [if_pos c1] at h; cases h; exact ⟨.refl _, .refl _⟩
  · rw [if_neg c1] at h
    cases hs : get d.schemas sid with
    | none => rw [hs] at h; cases h; exact ⟨.refl _, .refl _⟩
    | some s =>
      rw [hs] at h
      dsimp only at h
      cases he : n.early with
      | some e => rw [he] at h; cases h; exact ⟨.refl _, .refl _⟩
      | none =>
        rw [he] at h
        dsimp only at h
        by_cases c2 : (get (t.names .index) (sid, n.name)).getD 0 ≠ 0
        · rw [if_pos c2] at h; cases h; exact ⟨.refl _, .refl _⟩
        · rw [if_neg c2] at h
          by_cases c4 : n.id ≤ 0
          · rw [if_pos c4] at h; cases h; exact ⟨.refl _, .refl _⟩
          · rw [if_neg c4] at h
            by_cases c5 : (get (d.objs .index) n.id).isSome
            · rw [if_pos c5] at h; cases h; exact ⟨.refl _, .refl _⟩
            · rw [if_neg c5] at h
              by_cases c3 : (get (t.names .index) (sid, n.name)).isSome
              · rw [if_pos c3] at h; cases h; exact ⟨.refl _, .refl _⟩
              · rw [if_neg c3] at h
                have hn : get (t.names .index) (sid, n.name) = none := by simpa using c3
                have hsame := same_put_erase (t := t.names) (id := n.id) hn
                cases hl : n.late with
                | some e =>
                  rw [hl] at h; cases h
                  refine ⟨?_, rfl, rfl, rfl⟩
                  intro k key
                  rw [← hsame k key]
                  cases k <;> rfl
                | none => rw [hl] at h; cases h

/-- What is found after names have been freed. -/
theorem get_free (back : List (Kind × Int × Name)) : ∀ (t : Temp) (k : Kind) (key : Int × Name),
    get ((free t back).names k) key = if (k, key) ∈ back then none else get (t.names k) key := by
  induction back with
  | nil => intro t k key; rfl
  | cons x back ih =>
    intro t k key
    obtain ⟨k', s, n⟩ := x
    rw [free, ih]
    by_cases hm : (k, key) ∈ back
    · rw [if_pos hm, if_pos (List.mem_cons_of_mem _ hm)]
    · rw [if_neg hm]
      have e : get ((setNames t k' (erase (t.names k') (s, n))).names k) key =
          if k = k' then get (erase (t.names k') (s, n)) key else get (t.names k) key := by
        dsimp only [setNames]
        split <;> rfl
      rw [e]
      by_cases ek : k = k'
      · subst ek
        rw [if_pos rfl, get_erase]
        by_cases e2 : key = (s, n)
        · rw [if_pos e2, if_pos (by rw [e2]; exact List.mem_cons_self)]
        · rw [if_neg e2, if_neg]
          intro hm'
          rcases List.mem_cons.1 hm' with e3 | e3
          · exact e2 (Prod.mk.inj e3).2
          · exact hm e3
      · rw [if_neg ek, if_neg]
        intro hm'
        rcases List.mem_cons.1 hm' with e3 | e3
        · exact ek (Prod.mk.inj e3).1
        · exact hm e3

theorem free_still (back : List (Kind × Int × Name)) : ∀ (t : Temp), Still t (free t back) := by
  induction back with
  | nil => intro t; exact .refl _
  | cons x back ih =>
    intro t
    obtain ⟨k', s, n⟩ := x
    rw [free]
    have h : Still t (setNames t k' (erase (t.names k') (s, n))) := ⟨rfl, rfl, rfl⟩
    exact h.trans (ih _)

/-- The names in `back` are those reserved since `t0`. -/
def Owed (t0 t : Names) (back : List (Kind × Int × Name)) : Prop :=
  (∀ k key, (k, key) ∈ back → get (t0 k) key = none) ∧ ∀ k key, (k, key) ∉ back → get (t k) key = get (t0 k) key

theorem Owed.free {t0 : Names} {t : Temp} {back : List (Kind × Int × Name)} (h : Owed t0 t.names back) :
    SameNames t0 (free t back).names := by
  intro k key
  rw [get_free]
  by_cases hm : (k, key) ∈ back
  · rw [if_pos hm, h.1 k key hm]
  · rw [if_neg hm, h.2 k key hm]

theorem Owed.same {t0 t t' : Names} {back : List (Kind × Int × Name)} (h : Owed t0 t back)
    (hs : SameNames t t') : Owed t0 t' back :=
  ⟨h.1, fun k key hm => (hs k key).trans (h.2 k key hm)⟩

theorem Owed.create {d : Data} {k : Kind} {t0 t t' : Names} {back : List (Kind × Int × Name)} {id : Int} {r : Obj}
    (h : Owed t0 t back) (hs : OpStep d k t (.create id r) t') (hb : ∀ x ∈ back, get (t x.1) x.2 ≠ none) :
    Owed t0 t' (back ++ [(k, r.schema, r.name)]) ∧
      ∀ x ∈ back ++ [(k, r.schema, r.name)], get (t' x.1) x.2 ≠ none := by
  generalize ho : ObjOp.create id r = op at hs
  cases hs with
  | delete => cases ho
  | update => cases ho
  | create id' r' h1 h2 h3 =>
    cases ho
    refine ⟨⟨?_, ?_⟩, ?_⟩
    · intro k' key hm
      rcases List.mem_append.1 hm with hm | hm
      · exact h.1 k' key hm
      · cases List.mem_singleton.1 hm
        by_cases hm' : (k, r.schema, r.name) ∈ back
        · exact h.1 _ _ hm'
        · rw [← h.2 _ _ hm']; exact h3
    · intro k' key hm
      rw [get_set]
      by_cases e : k' = k
      · rw [if_pos e, get_put, if_neg]
        · rw [← e]
          exact h.2 _ _ (fun hm' => hm (List.mem_append_left _ hm'))
        · intro e2
          exact hm (List.mem_append_right _ (by rw [e, e2]; exact List.mem_singleton.2 rfl))
      · rw [if_neg e]
        exact h.2 _ _ (fun hm' => hm (List.mem_append_left _ hm'))
    · intro x hx
      rw [get_set]
      rcases List.mem_append.1 hx with hm | hm
      · have h0 := hb x hm
        by_cases e : x.1 = k
        · rw [if_pos e, get_put]
          split
          · simp
          · rw [← e]; exact h0
        · rw [if_neg e]; exact h0
      · rw [List.mem_singleton.1 hm, if_pos rfl, get_put, if_pos rfl]; simp

theorem createTheTable_some_err {d : Data} {sid : Int} {l : List (Option Kind × New)} {x id : Int} {r : Obj} :
    ∀ {t t' : Temp} {e : Err}, createTheTable d sid t l (some (x, .create id r)) = (t', .error e) →
    t' = free t [(.table, sid, r.name)] := by
  induction l with
  | nil => intro t t' e h; cases h
  | cons p l ih =>
    intro t t' e h
    obtain ⟨k, n⟩ := p
    cases k with
    | none => exact ih (show createTheTable d sid t l _ = _ from h)
    | some k =>
      cases k with
      | index => exact ih (show createTheTable d sid t l _ = _ from h)
      | table => cases h; rfl

theorem createTheTable_err {d : Data} {sid : Int} {l : List (Option Kind × New)} :
    ∀ {t t' : Temp} {e : Err}, createTheTable d sid t l none = (t', .error e) →
    SameNames t.names t'.names ∧ Still t t' := by
  induction l with
  | nil => intro t t' e h; cases h
  | cons p l ih =>
    intro t t' e h
    obtain ⟨k, n⟩ := p
    cases k with
    | none => exact ih (show createTheTable d sid t l _ = _ from h)
    | some k =>
      cases k with
      | index => exact ih (show createTheTable d sid t l _ = _ from h)
      | table =>
        unfold createTheTable at h
        dsimp only at h
        cases hm : mkTable d t sid n with
        | mk t1 res =>
          rw [hm] at h
          cases res with
          | error e => cases h; exact mkTable_err hm
          | ok op =>
            dsimp only at h
            obtain ⟨g1, g2, g3, g4, g5⟩ := mkTable_ok hm
            subst g5
            have := createTheTable_some_err h
            subst this
            have ho : Owed t.names t.names [] := ⟨nofun, fun _ _ _ => rfl⟩
            exact ⟨(ho.create g1 (by simp)).1.free, Still.trans ⟨g2, g3, g4⟩ (free_still _ _)⟩

theorem createTheIndexes_err {d : Data} {sid owner : Int} {t0 : Names} {l : List (Option Kind × New)} :
    ∀ {t t' : Temp} {back : List (Kind × Int × Name)} {ops : List ObjOp} {e : Err},
    Owed t0 t.names back → (∀ x ∈ back, get (t.names x.1) x.2 ≠ none) →
    createTheIndexes d sid owner t l back ops = (t', .error e) →
    SameNames t0 t'.names ∧ Still t t' := by
  induction l with
  | nil => intro t t' back ops e _ _ h; cases h
  | cons p l ih =>
    intro t t' back ops e ho hb h
    obtain ⟨k, n⟩ := p
    cases k with
    | none => cases h; exact ⟨ho.free, free_still _ _⟩
    | some k =>
      cases k with
      | table => exact ih ho hb (show createTheIndexes d sid owner t l back ops = _ from h)
      | index =>
        unfold createTheIndexes at h
        cases hm : mkIndex d t sid owner n with
        | mk t1 res =>
          rw [hm] at h
          cases res with
          | error e =>
            cases h
            obtain ⟨g1, g2⟩ := mkIndex_err hm
            exact ⟨(ho.same g1).free, g2.trans (free_still _ _)⟩
          | ok op =>
            dsimp only at h
            obtain ⟨g1, g2, g3, g4, g5⟩ := mkIndex_ok hm
            subst g5
            have hc := ho.create g1 hb
            obtain ⟨i1, i2⟩ := ih hc.1 hc.2 h
            exact ⟨i1, Still.trans ⟨g2, g3, g4⟩ i2⟩

theorem createTables_err {d : Data} {t t' : Temp} {sid : Int} {l : List (Option Kind × New)} {e : Err}
    (h : createTables d t sid l = (t', .error e)) : SameNames t.names t'.names ∧ Still t t' := by
  unfold createTables at h
  by_cases c0 : l = []
  · rw [if_pos c0] at h; cases h; exact ⟨.refl _, .refl _⟩
  rw [if_neg c0] at h
  by_cases c1 : sid < 0
  · rw [if_pos c1] at h; cases h; exact ⟨.refl _, .refl _⟩
  rw [if_neg c1] at h
  cases hs : get d.schemas sid with
  | none => rw [hs] at h; cases h; exact ⟨.refl _, .refl _⟩
  | some s =>
    rw [hs] at h
    dsimp only at h
    cases ht : createTheTable d sid t l none with
    | mk t1 res =>
      rw [ht] at h
      cases res with
      | error e => cases h; exact createTheTable_err ht
      | ok a =>
        dsimp only at h
        obtain ⟨e1, e2⟩ := createTheTable_ok ht
        have ho : Owed t.names t.names [] := ⟨nofun, fun _ _ _ => rfl⟩
        rcases e2 with ⟨ea, en⟩ | ⟨n, _, ea, _, est⟩
        · subst ea
          dsimp only at h
          cases hi : createTheIndexes d sid 0 t1 l [] [] with
          | mk t2 res =>
            rw [hi] at h
            cases res with
            | error e =>
              cases h
              obtain ⟨i1, i2⟩ := createTheIndexes_err (t0 := t.names) (by rw [en]; exact ho) (by simp) hi
              exact ⟨i1, e1.trans i2⟩
            | ok q => cases h
        · subst ea
          dsimp only at h
          have hc := ho.create est (by simp)
          cases hi : createTheIndexes d sid n.id t1 l (ObjOp.backName .table (.create n.id ⟨sid, n.name, n.id, n.defn⟩)) [] with
          | mk t2 res =>
            rw [hi] at h
            cases res with
            | error e =>
              cases h
              obtain ⟨i1, i2⟩ := createTheIndexes_err (t0 := t.names) hc.1 hc.2 hi
              exact ⟨i1, e1.trans i2⟩
            | ok q => cases h

theorem rmTable_err {d : Data} {t t' : Temp} {sid id : Int} {e : Err}
    (h : rmTable d t sid id = (t', .error e)) : t' = t := by
  unfold rmTable at h
  split at h
  · cases h; rfl
  · split at h
    · cases h; rfl
    · split at h
      · cases h; rfl
      · split at h
        · cases h; rfl
        · cases h

theorem rmIndex_err {d : Data} {t t' : Temp} {sid id : Int} {b : Bool} {e : Err}
    (h : rmIndex d t sid id b = (t', .error e)) : t' = t := by
  unfold rmIndex at h
  split at h
  · cases h; rfl
  · split at h
    · cases h; rfl
    · split at h
      · cases h; rfl
      · split at h
        · cases h; rfl
        · split at h
          · cases h; rfl
          · cases h

theorem rmAll_still {d : Data} {sid : Int} {l : List Int} : ∀ {t t' : Temp} {r : Except Err (List ObjOp)},
    rmAll d sid t l = (t', r) → Still t t' := by
  induction l with
  | nil => intro t t' r h; cases h; exact .refl _
  | cons i l ih =>
    intro t t' r h
    unfold rmAll at h
    cases hm : rmIndex d t sid i false with
    | mk t1 res =>
      rw [hm] at h
      cases res with
      | error e => cases h; rw [rmIndex_err hm]; exact .refl _
      | ok op =>
        dsimp only at h
        obtain ⟨g1, g2, g3, g4, g5⟩ := rmIndex_ok hm
        cases hr : rmAll d sid t1 l with
        | mk t2 res =>
          have := Still.trans ⟨g2, g3, g4⟩ (ih hr)
          rw [hr] at h
          cases res with
          | error e => cases h; exact this
          | ok ops' => cases h; exact this

theorem rmTableIndexes_still {d : Data} {t t' : Temp} {sid id : Int} {r : Except Err Incr}
    (h : rmTableIndexes d t sid id = (t', r)) : Still t t' := by
  unfold rmTableIndexes at h
  split at h
  · cases h; exact .refl _
  · split at h
    · cases h; exact .refl _
    · split at h
      · rename_i hr
        cases h; exact rmAll_still hr
      · rename_i hr
        have := rmAll_still hr
        split at h
        · rename_i hm
          cases h; rw [rmTable_err hm]; exact this
        · rename_i hm
          cases h
          obtain ⟨g1, g2, g3, g4, g5⟩ := rmTable_ok hm
          exact this.trans ⟨g2, g3, g4⟩

theorem rmTableIndex_still {d : Data} {t t' : Temp} {p id : Int} {r : Except Err Incr}
    (h : rmTableIndex d t p id = (t', r)) : Still t t' := by
  cases r with
  | ok i => exact (rmTableIndex_ok h).1.still
  | error e =>
    unfold rmTableIndex at h
    split at h
    · rename_i hm
      cases h; rw [rmIndex_err hm]; exact .refl _
    · split at h
      · cases h
      · split at h <;> cases h

theorem dropLoop_still {d : Data} {l : List (Option Kind × Int × Int)} : ∀ {t t' : Temp} {a : Incr}
    {r : Except Err Incr}, dropLoop d t l a = (t', r) → Still t t' := by
  induction l with
  | nil => intro t t' a r h; cases h; exact .refl _
  | cons p l ih =>
    intro t t' a r h
    obtain ⟨k, p, id⟩ := p
    cases k with
    | none => cases h; exact .refl _
    | some k =>
      cases k with
      | table =>
        unfold dropLoop at h
        cases hm : rmTableIndexes d t p id with
        | mk t1 res =>
          have := rmTableIndexes_still hm
          rw [hm] at h
          cases res with
          | error e => cases h; exact this
          | ok j => exact this.trans (ih h)
      | index =>
        unfold dropLoop at h
        cases hm : rmTableIndex d t p id with
        | mk t1 res =>
          have := rmTableIndex_still hm
          rw [hm] at h
          cases res with
          | error e => cases h; exact this
          | ok j => exact this.trans (ih h)

theorem generateLoop_err {ns : List Nat} : ∀ {t t' : Temp} {l : List Int} {ws : List Write} {e : Err},
    generateLoop t ns l ws = (t', .error e) →
    t'.schemaNames = t.schemaNames ∧ t'.names = t.names ∧ t'.nextSchema = t.nextSchema ∧
    last t.nextTable ≤ last t'.nextTable := by
  induction ns with
  | nil => intro t t' l ws e h; cases h
  | cons n ns ih =>
    intro t t' l ws e h
    unfold generateLoop at h
    cases hm : takeIds t (1 + n) with
    | mk t1 l1 =>
      rw [hm] at h
      cases l1 with
      | nil =>
        cases h
        unfold takeIds at hm
        by_cases c : (1 + (n:Int)) ≤ 0 ∨ (1 + (n:Int)) > 100000
        · rw [if_pos c] at hm; cases hm; exact ⟨rfl, rfl, rfl, Int.le_refl _⟩
        · rw [if_neg c] at hm
          rw [← (Prod.mk.inj hm).1]
          refine ⟨rfl, rfl, rfl, ?_⟩
          show last t.nextTable ≤ last t.nextTable + (1 + (n:Int))
          omega
      | cons x xs =>
        obtain ⟨g1, g2, g3, g4⟩ := takeIds_ok hm (by simp)
        obtain ⟨e1, e2, e3, e4⟩ := ih h
        have hl1 : last t1.nextTable = last t.nextTable + (1 + n) := by rw [g3]; rfl
        exact ⟨by rw [e1, g3], by rw [e2, g3], by rw [e3, g3], by omega⟩

/-- What a refused request leaves behind. -/
structure Refused (t t' : Temp) : Prop where
  schemaNames : t'.schemaNames = t.schemaNames
  nextSchema : last t.nextSchema ≤ last t'.nextSchema
  nextTable : last t.nextTable ≤ last t'.nextTable

theorem Still.refused {t t' : Temp} (h : Still t t') : Refused t t' :=
  ⟨h.1, by rw [h.2]; exact Int.le_refl _, by rw [h.3]; exact Int.le_refl _⟩

theorem prepare_refused {d : Data} {t t' : Temp} {r : Req} {e : Err} (h : prepare d t r = (t', .error e)) :
    Refused t t' ∧ ((∀ l, r ≠ .dropTables l) → SameNames t.names t'.names) := by
  have triv : ∀ t', t' = t → Refused t t' ∧ ((∀ l, r ≠ .dropTables l) → SameNames t.names t'.names) := by
    intro t' e; subst e; exact ⟨(Still.refl _).refused, fun _ => .refl _⟩
  cases r <;> dsimp only [prepare] at h
  case createTenant id =>
    unfold createTenant at h
    split at h
    · cases h
    · split at h <;> cases h; exact triv _ rfl
  case dropTenant id =>
    unfold dropTenant at h
    split at h
    · cases h; exact triv _ rfl
    · split at h
      · cases h; exact triv _ rfl
      · split at h
        · cases h; exact triv _ rfl
        · split at h <;> cases h; exact triv _ rfl
  case createSchema tn n j =>
    unfold createSchema at h
    split at h
    · cases h; exact triv _ rfl
    · split at h
      · cases h; exact triv _ rfl
      · split at h
        · cases h; exact triv _ rfl
        · split at h
          · cases h; exact triv _ rfl
          · dsimp only at h
            by_cases c : j > 0
            · simp only [if_pos c] at h
              split at h <;> cases h; exact triv _ rfl
            · simp only [if_neg c] at h
              split at h <;> cases h
              refine ⟨⟨rfl, ?_, Int.le_refl _⟩, fun _ => .refl _⟩
              show last t.nextSchema ≤ last t.nextSchema + 1
              omega
  case dropSchema tn sid =>
    unfold dropSchema at h
    split at h
    · cases h; exact triv _ rfl
    · split at h
      · cases h; exact triv _ rfl
      · split at h
        · cases h; exact triv _ rfl
        · split at h
          · cases h; exact triv _ rfl
          · split at h <;> cases h; exact triv _ rfl
  case createTable sid n =>
    unfold createTable at h
    split at h
    · rename_i hm
      cases h
      obtain ⟨g1, g2⟩ := mkTable_err hm
      exact ⟨g2.refused, fun _ => g1⟩
    · cases h
  case createTables sid l =>
    obtain ⟨g1, g2⟩ := createTables_err h
    exact ⟨g2.refused, fun _ => g1⟩
  case dropTable sid id =>
    unfold dropTable at h
    split at h
    · cases h; exact triv _ rfl
    · split at h
      · cases h; exact triv _ rfl
      · split at h
        · rename_i hm
          cases h
          exact triv _ (rmTable_err hm)
        · cases h
  case dropTables l =>
    unfold dropTables at h
    split at h
    · rename_i hm
      cases h
      exact ⟨(dropLoop_still hm).refused, fun hh => absurd rfl (hh l)⟩
    · cases h
  case updateTable k id n df e =>
    unfold updateTable at h
    split at h
    · cases h; exact triv _ rfl
    · split at h
      · cases h; exact triv _ rfl
      · split at h
        · cases h; exact triv _ rfl
        · split at h <;> cases h; exact triv _ rfl
  case addIndex tb n =>
    unfold addIndex at h
    split at h
    · cases h; exact triv _ rfl
    · split at h
      · cases h; exact triv _ rfl
      · split at h
        · cases h; exact triv _ rfl
        · split at h
          · cases h; exact triv _ rfl
          · split at h
            · rename_i hm
              cases h
              obtain ⟨g1, g2⟩ := mkIndex_err hm
              exact ⟨g2.refused, fun _ => g1⟩
            · cases h
  case dropIndexOn tb id =>
    unfold dropIndexOn at h
    split at h
    · cases h; exact triv _ rfl
    · split at h
      · cases h; exact triv _ rfl
      · split at h
        · cases h; exact triv _ rfl
        · split at h
          · cases h; exact triv _ rfl
          · split at h
            · cases h; exact triv _ rfl
            · split at h
              · rename_i hm
                cases h
                exact triv _ (rmIndex_err hm)
              · cases h
  case createIndex sid n =>
    unfold createIndex at h
    split at h
    · rename_i hm
      cases h
      obtain ⟨g1, g2⟩ := mkIndex_err hm
      exact ⟨g2.refused, fun _ => g1⟩
    · cases h
  case dropIndex sid id =>
    unfold dropIndex at h
    split at h
    · rename_i hm
      cases h
      exact triv _ (rmIndex_err hm)
    · cases h
  case createId sid =>
    unfold createId at h
    split at h <;> cases h; exact triv _ rfl
  case createIds sid c =>
    unfold createIds at h
    split at h
    · cases h; exact triv _ rfl
    · split at h
      · cases h; exact triv _ rfl
      · split at h
        · rename_i hm
          cases h
          unfold takeIds at hm
          by_cases c1 : c ≤ 0 ∨ c > 100000
          · rw [if_pos c1] at hm; cases hm; exact triv _ rfl
          · rw [if_neg c1] at hm
            rw [← (Prod.mk.inj hm).1]
            refine ⟨⟨rfl, Int.le_refl _, ?_⟩, fun _ => .refl _⟩
            show last t.nextTable ≤ last t.nextTable + c
            omega
        · cases h
  case generateIds sid ps =>
    unfold generateIds at h
    split at h
    · cases h; exact triv _ rfl
    · split at h
      · rename_i hm
        cases h
        obtain ⟨e1, e2, e3, e4⟩ := generateLoop_err hm
        exact ⟨⟨e1, by rw [e3]; exact Int.le_refl _, e4⟩, fun _ => by rw [e2]; exact .refl _⟩
      · cases h

end Verif.Meta
