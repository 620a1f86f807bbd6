/-
What the checks of a request leave behind: the entry fits the metadata, and the names are reserved
or freed as the entry says.
-/
import Verif.Meta.Lemmas
import Verif.Meta.Spec

namespace Verif.Meta

/-- The names of tables and of indexes. -/
abbrev Names := Kind → Map (Int × Name) Int

/-- Replace the names of one kind. -/
def Names.set (t : Names) (k : Kind) (m : Map (Int × Name) Int) : Names := fun k' => if k' = k then m else t k'

/-- One check of a change. -/
inductive OpStep (d : Data) (k : Kind) : Names → ObjOp → Names → Prop
  | create (t : Names) (id : Int) (r : Obj) (h1 : get (d.objs k) id = none) (h2 : 0 < id)
      (h3 : get (t k) (r.schema, r.name) = none) (h4 : (get d.schemas r.schema).isSome) (h5 : 0 < r.schema) :
      OpStep d k t (.create id r) (t.set k (put (t k) (r.schema, r.name) id))
  | delete (t : Names) (id sid : Int) (r : Obj) (h1 : get (d.objs k) id = some r) (h2 : r.schema = sid)
      (h4 : (get d.schemas sid).isSome) :
      OpStep d k t (.delete id sid) (t.set k (erase (t k) (sid, r.name)))
  | update (t : Names) (id : Int) (r : Obj) (name : Name) (defn : Nat) (h1 : get (d.objs k) id = some r)
      (h2 : r.name = name) : OpStep d k t (.update id name defn) t

theorem OpStep.create_pos {d : Data} {k : Kind} {t t' : Names} {id : Int} {r : Obj}
    (h : OpStep d k t (.create id r) t') : 0 < id := by
  generalize ho : ObjOp.create id r = op at h
  cases h with
  | create _ _ _ h2 => cases ho; exact h2
  | delete => cases ho
  | update => cases ho

/-- Several. -/
inductive OpSteps (d : Data) : Names → List (Kind × ObjOp) → Names → Prop
  | nil (t : Names) : OpSteps d t [] t
  | cons {t t1 t2 : Names} {k : Kind} {op : ObjOp} {ops : List (Kind × ObjOp)} (h : OpStep d k t op t1)
      (hs : OpSteps d t1 ops t2) : OpSteps d t ((k, op) :: ops) t2

theorem OpSteps.append {d : Data} {t t1 t2 : Names} {a b : List (Kind × ObjOp)} (h : OpSteps d t a t1)
    (h2 : OpSteps d t1 b t2) : OpSteps d t (a ++ b) t2 := by
  induction h with
  | nil => exact h2
  | cons h _ ih => exact .cons h (ih h2)

theorem OpSteps.one {d : Data} {t t1 : Names} {k : Kind} {op : ObjOp} (h : OpStep d k t op t1) :
    OpSteps d t [(k, op)] t1 := .cons h (.nil _)

/-! ## Checks of single changes -/

theorem mkTable_ok {d : Data} {t t' : Temp} {sid : Int} {n : New} {op : ObjOp}
    (h : mkTable d t sid n = (t', .ok op)) :
    OpStep d .table t.names op t'.names ∧ t'.schemaNames = t.schemaNames ∧ t'.nextSchema = t.nextSchema ∧
      t'.nextTable = t.nextTable ∧ op = .create n.id ⟨sid, n.name, n.id, n.defn⟩ := by
  unfold mkTable at h
  by_cases c1 : sid < 0 ∨ sid = 0
  · rw [if_pos c1] at h; cases h
  · rw [if_neg c1] at h
    cases hs : get d.schemas sid with
    | none => rw [hs] at h; cases h
    | some s =>
      rw [hs] at h
      dsimp only at h
      cases he : n.early with
      | some e => rw [he] at h; cases h
      | none =>
        rw [he] at h
        dsimp only at h
        by_cases c2 : (get (t.names .table) (sid, n.name)).getD 0 ≠ 0
        · rw [if_pos c2] at h; cases h
        · rw [if_neg c2] at h
          by_cases c3 : (get (t.names .table) (sid, n.name)).isSome
          · rw [if_pos c3] at h; cases h
          · rw [if_neg c3] at h
            by_cases c4 : n.id ≤ 0
            · rw [if_pos c4] at h; cases h
            · rw [if_neg c4] at h
              by_cases c5 : (get (d.objs .table) n.id).isSome
              · rw [if_pos c5] at h; cases h
              · rw [if_neg c5] at h
                cases hl : n.late with
                | some e => rw [hl] at h; cases h
                | none =>
                  rw [hl] at h
                  cases h
                  refine ⟨?_, rfl, rfl, rfl, rfl⟩
                  exact OpStep.create t.names n.id ⟨sid, n.name, n.id, n.defn⟩ (by simpa using c5) (by omega)
                    (by simpa using c3) (by simp [hs]) (by dsimp only; omega)

theorem mkIndex_ok {d : Data} {t t' : Temp} {sid owner : Int} {n : New} {op : ObjOp}
    (h : mkIndex d t sid owner n = (t', .ok op)) :
    OpStep d .index t.names op t'.names ∧ t'.schemaNames = t.schemaNames ∧ t'.nextSchema = t.nextSchema ∧
      t'.nextTable = t.nextTable ∧ op = .create n.id ⟨sid, n.name, owner, n.defn⟩ := by
  unfold mkIndex at h
  by_cases c1 : sid < 0 ∨ sid = 0
  · rw [if_pos c1] at h; cases h
  · rw [if_neg c1] at h
    cases hs : get d.schemas sid with
    | none => rw [hs] at h; cases h
    | some s =>
      rw [hs] at h
      dsimp only at h
      cases he : n.early with
      | some e => rw [he] at h; cases h
      | none =>
        rw [he] at h
        dsimp only at h
        by_cases c2 : (get (t.names .index) (sid, n.name)).getD 0 ≠ 0
        · rw [if_pos c2] at h; cases h
        · rw [if_neg c2] at h
          by_cases c4 : n.id ≤ 0
          · rw [if_pos c4] at h; cases h
          · rw [if_neg c4] at h
            by_cases c5 : (get (d.objs .index) n.id).isSome
            · rw [if_pos c5] at h; cases h
            · rw [if_neg c5] at h
              by_cases c3 : (get (t.names .index) (sid, n.name)).isSome
              · rw [if_pos c3] at h; cases h
              · rw [if_neg c3] at h
                cases hl : n.late with
                | some e => rw [hl] at h; cases h
                | none =>
                  rw [hl] at h
                  cases h
                  refine ⟨?_, rfl, rfl, rfl, rfl⟩
                  exact OpStep.create t.names n.id ⟨sid, n.name, owner, n.defn⟩ (by simpa using c5) (by omega)
                    (by simpa using c3) (by simp [hs]) (by dsimp only; omega)

theorem rmTable_ok {d : Data} {t t' : Temp} {sid id : Int} {op : ObjOp}
    (h : rmTable d t sid id = (t', .ok op)) :
    OpStep d .table t.names op t'.names ∧ t'.schemaNames = t.schemaNames ∧ t'.nextSchema = t.nextSchema ∧
      t'.nextTable = t.nextTable ∧ op = .delete id sid := by
  unfold rmTable at h
  by_cases c1 : sid < 0
  · rw [if_pos c1] at h; cases h
  · rw [if_neg c1] at h
    cases hs : get d.schemas sid with
    | none => rw [hs] at h; cases h
    | some s =>
      rw [hs] at h
      dsimp only at h
      cases ho : get (d.objs .table) id with
      | none => rw [ho] at h; cases h
      | some r =>
        rw [ho] at h
        dsimp only at h
        by_cases c2 : r.schema ≠ sid
        · rw [if_pos c2] at h; cases h
        · rw [if_neg c2] at h
          cases h
          refine ⟨?_, rfl, rfl, rfl, rfl⟩
          exact OpStep.delete t.names id sid r ho (Decidable.not_not.1 c2) (by simp [hs])

theorem rmIndex_ok {d : Data} {t t' : Temp} {sid id : Int} {b : Bool} {op : ObjOp}
    (h : rmIndex d t sid id b = (t', .ok op)) :
    OpStep d .index t.names op t'.names ∧ t'.schemaNames = t.schemaNames ∧ t'.nextSchema = t.nextSchema ∧
      t'.nextTable = t.nextTable ∧ op = .delete id sid := by
  unfold rmIndex at h
  by_cases c1 : sid < 0
  · rw [if_pos c1] at h; cases h
  · rw [if_neg c1] at h
    cases hs : get d.schemas sid with
    | none => rw [hs] at h; cases h
    | some s =>
      rw [hs] at h
      dsimp only at h
      cases ho : get (d.objs .index) id with
      | none => rw [ho] at h; cases h
      | some r =>
        rw [ho] at h
        dsimp only at h
        by_cases c2 : r.schema ≠ sid
        · rw [if_pos c2] at h; cases h
        · rw [if_neg c2] at h
          by_cases c3 : b ∧ r.owner > 0
          · rw [if_pos c3] at h; cases h
          · rw [if_neg c3] at h
            cases h
            refine ⟨?_, rfl, rfl, rfl, rfl⟩
            exact OpStep.delete t.names id sid r ho (Decidable.not_not.1 c2) (by simp [hs])

/-! ## The loops -/

/-- The maps other than the names of tables and indexes are as before. -/
structure Still (t t' : Temp) : Prop where
  schemaNames : t'.schemaNames = t.schemaNames
  nextSchema : t'.nextSchema = t.nextSchema
  nextTable : t'.nextTable = t.nextTable

theorem Still.refl (t : Temp) : Still t t := ⟨rfl, rfl, rfl⟩
theorem Still.trans {a b c : Temp} (h : Still a b) (h' : Still b c) : Still a c :=
  ⟨h'.1.trans h.1, h'.2.trans h.2, h'.3.trans h.3⟩

theorem createTheTable_ok {d : Data} {sid : Int} {l : List (Option Kind × New)} :
    ∀ {t t' : Temp} {a b : Option (Int × ObjOp)}, createTheTable d sid t l a = (t', .ok b) →
    Still t t' ∧ ((b = a ∧ t'.names = t.names) ∨
      (∃ n, a = none ∧ b = some (n.id, .create n.id ⟨sid, n.name, n.id, n.defn⟩) ∧ (some .table, n) ∈ l ∧
        OpStep d .table t.names (.create n.id ⟨sid, n.name, n.id, n.defn⟩) t'.names)) := by
  induction l with
  | nil => intro t t' a b h; cases h; exact ⟨.refl _, Or.inl ⟨rfl, rfl⟩⟩
  | cons p l ih =>
    intro t t' a b h
    obtain ⟨k, n⟩ := p
    cases k with
    | none =>
      obtain ⟨h1, h2⟩ := ih (show createTheTable d sid t l a = (t', .ok b) from h)
      refine ⟨h1, h2.imp id ?_⟩
      rintro ⟨n, e1, e2, e3, e4⟩
      exact ⟨n, e1, e2, List.mem_cons_of_mem _ e3, e4⟩
    | some k =>
      cases k with
      | index =>
        obtain ⟨h1, h2⟩ := ih (show createTheTable d sid t l a = (t', .ok b) from h)
        refine ⟨h1, h2.imp id ?_⟩
        rintro ⟨n, e1, e2, e3, e4⟩
        exact ⟨n, e1, e2, List.mem_cons_of_mem _ e3, e4⟩
      | table =>
        unfold createTheTable at h
        cases a with
        | some q =>
          obtain ⟨x, op⟩ := q
          cases op <;> cases h
        | none =>
          dsimp only at h
          cases hm : mkTable d t sid n with
          | mk t1 res =>
            rw [hm] at h
            cases res with
            | error e => cases h
            | ok op =>
              dsimp only at h
              obtain ⟨g1, g2, g3, g4, g5⟩ := mkTable_ok hm
              obtain ⟨i1, i2⟩ := ih h
              refine ⟨Still.trans ⟨g2, g3, g4⟩ i1, Or.inr ?_⟩
              rcases i2 with ⟨e1, e2⟩ | ⟨m, e1, _⟩
              · subst g5
                exact ⟨n, rfl, e1, List.mem_cons_self, by rw [e2]; exact g1⟩
              · cases e1

theorem createTheIndexes_ok {d : Data} {sid owner : Int} {l : List (Option Kind × New)} :
    ∀ {t t' : Temp} {back back' : List (Kind × Int × Name)} {ops ops' : List ObjOp},
    createTheIndexes d sid owner t l back ops = (t', .ok (ops', back')) →
    ∃ new, ops' = ops ++ new ∧ back' = back ++ new.flatMap (ObjOp.backName .index) ∧
      OpSteps d t.names (new.map (fun op => (Kind.index, op))) t'.names ∧ Still t t' ∧
      (∀ op ∈ new, ∃ id r, op = .create id r ∧ r.schema = sid ∧ r.owner = owner) := by
  induction l with
  | nil =>
    intro t t' back back' ops ops' h
    cases h
    exact ⟨[], by simp, by simp, .nil _, .refl _, by simp⟩
  | cons p l ih =>
    intro t t' back back' ops ops' h
    obtain ⟨k, n⟩ := p
    cases k with
    | none => cases h
    | some k =>
      cases k with
      | table => exact ih (show createTheIndexes d sid owner t l back ops = _ from h)
      | index =>
        unfold createTheIndexes at h
        cases hm : mkIndex d t sid owner n with
        | mk t1 res =>
          rw [hm] at h
          cases res with
          | error e => cases h
          | ok op =>
            dsimp only at h
            obtain ⟨g1, g2, g3, g4, g5⟩ := mkIndex_ok hm
            obtain ⟨new, e1, e2, e3, e4, e5⟩ := ih h
            refine ⟨op :: new, by rw [e1]; simp, ?_, .cons g1 e3, Still.trans ⟨g2, g3, g4⟩ e4, ?_⟩
            · rw [e2, g5]; simp [ObjOp.backName]
            · intro o ho
              rcases List.mem_cons.1 ho with e | ho
              · rw [e, g5]; exact ⟨_, _, rfl, rfl, rfl⟩
              · exact e5 o ho

theorem rmAll_ok {d : Data} {sid : Int} {l : List Int} : ∀ {t t' : Temp} {ops : List ObjOp},
    rmAll d sid t l = (t', .ok ops) →
    OpSteps d t.names (ops.map (fun op => (Kind.index, op))) t'.names ∧ Still t t' ∧
      ops = l.map (fun i => .delete i sid) := by
  induction l with
  | nil => intro t t' ops h; cases h; exact ⟨.nil _, .refl _, rfl⟩
  | cons i l ih =>
    intro t t' ops h
    unfold rmAll at h
    cases hm : rmIndex d t sid i false with
    | mk t1 res =>
      rw [hm] at h
      cases res with
      | error e => cases h
      | ok op =>
        dsimp only at h
        obtain ⟨g1, g2, g3, g4, g5⟩ := rmIndex_ok hm
        cases hr : rmAll d sid t1 l with
        | mk t2 res =>
          rw [hr] at h
          cases res with
          | error e => cases h
          | ok ops' =>
            cases h
            obtain ⟨e1, e2, e3⟩ := ih hr
            exact ⟨.cons g1 e1, Still.trans ⟨g2, g3, g4⟩ e2, by rw [e3, g5]; rfl⟩

/-- All changes of an entry. -/
def Incr.all (i : Incr) : List (Kind × ObjOp) :=
  i.indexes.map (fun op => (Kind.index, op)) ++ i.tables.map (fun op => (Kind.table, op))

/-- A head of an entry is about the index lists of tables. -/
def Write.isTidx : Write → Prop
  | .tidxPut t _ => t ≠ 0
  | .tidxAddDel _ _ _ => True
  | .tidxErase _ => True
  | _ => False

/-- An entry that creates or drops tables and indexes only. -/
structure Local (d : Data) (t t' : Temp) (i : Incr) : Prop where
  steps : ∃ ops, OpSteps d t.names ops t'.names ∧ ops.Perm i.all
  heads : ∀ w ∈ i.heads, w.isTidx
  ids : i.ids = []
  still : Still t t'

theorem rmTableIndexes_ok {d : Data} {t t' : Temp} {sid id : Int} {i : Incr}
    (h : rmTableIndexes d t sid id = (t', .ok i)) : Local d t t' i ∧
      ∃ l, get d.tidx id = some l ∧ i = ⟨[.tidxErase id], l.map (fun x => .delete x sid), [.delete id sid], []⟩ := by
  unfold rmTableIndexes at h
  cases hg : getObj d .table sid id with
  | error e => rw [hg] at h; cases h
  | ok r =>
    rw [hg] at h
    dsimp only at h
    cases ht : get d.tidx id with
    | none => rw [ht] at h; cases h
    | some l =>
      rw [ht] at h
      dsimp only at h
      cases hr : rmAll d sid t l with
      | mk t1 res =>
        rw [hr] at h
        cases res with
        | error e => cases h
        | ok ops =>
          dsimp only at h
          obtain ⟨e1, e2, e3⟩ := rmAll_ok hr
          cases hm : rmTable d t1 sid id with
          | mk t2 res =>
            rw [hm] at h
            cases res with
            | error e => cases h
            | ok op =>
              cases h
              obtain ⟨g1, g2, g3, g4, g5⟩ := rmTable_ok hm
              refine ⟨⟨⟨_, e1.append (.one g1), .refl _⟩, ?_, rfl, e2.trans ⟨g2, g3, g4⟩⟩, l, rfl, ?_⟩
              · intro w hw
                rw [List.mem_singleton.1 hw]; trivial
              · rw [e3, g5]

theorem rmTableIndex_ok {d : Data} {t t' : Temp} {p id : Int} {i : Incr}
    (h : rmTableIndex d t p id = (t', .ok i)) : Local d t t' i ∧ i.indexes = [.delete id p] ∧ i.tables = [] := by
  unfold rmTableIndex at h
  cases hm : rmIndex d t p id false with
  | mk t1 res =>
    rw [hm] at h
    cases res with
    | error e => cases h
    | ok op =>
      dsimp only at h
      obtain ⟨g1, g2, g3, g4, g5⟩ := rmIndex_ok hm
      have hs : ∀ hd, (∀ w ∈ hd, w.isTidx) → Local d t t1 { heads := hd, indexes := [op] } := fun hd hh =>
        ⟨⟨_, .one g1, .refl _⟩, hh, rfl, ⟨g2, g3, g4⟩⟩
      cases ht : get d.tidx p with
      | none => rw [ht] at h; cases h; exact ⟨hs _ (by simp), by rw [g5], rfl⟩
      | some l =>
        rw [ht] at h
        dsimp only at h
        by_cases c : id ∈ l
        · rw [if_pos c] at h; cases h
          exact ⟨hs _ (by intro w hw; rw [List.mem_singleton.1 hw]; trivial), by rw [g5], rfl⟩
        · rw [if_neg c] at h; cases h; exact ⟨hs _ (by simp), by rw [g5], rfl⟩

theorem Local.join {d : Data} {t t1 t2 : Temp} {a b : Incr} (h : Local d t t1 a) (h' : Local d t1 t2 b) :
    Local d t t2 (a.join b) := by
  obtain ⟨oa, sa, pa⟩ := h.steps
  obtain ⟨ob, sb, pb⟩ := h'.steps
  refine ⟨⟨oa ++ ob, sa.append sb, ?_⟩, ?_, ?_, h.still.trans h'.still⟩
  · refine (pa.append pb).trans ?_
    unfold Incr.all Incr.join
    simp only [List.map_append, List.append_assoc]
    refine List.Perm.append_left _ ?_
    rw [← List.append_assoc, ← List.append_assoc]
    exact List.Perm.append_right _ List.perm_append_comm
  · intro w hw
    rcases List.mem_append.1 hw with hw | hw
    · exact h.heads w hw
    · exact h'.heads w hw
  · unfold Incr.join
    dsimp only
    rw [h.ids, h'.ids]; rfl

theorem dropLoop_ok {d : Data} {l : List (Option Kind × Int × Int)} : ∀ {t0 t t' : Temp} {a i : Incr},
    Local d t0 t a → dropLoop d t l a = (t', .ok i) → Local d t0 t' i := by
  induction l with
  | nil => intro t0 t t' a i ha h; cases h; exact ha
  | cons p l ih =>
    intro t0 t t' a i ha h
    obtain ⟨k, p, id⟩ := p
    cases k with
    | none => cases h
    | some k =>
      cases k with
      | table =>
        unfold dropLoop at h
        cases hm : rmTableIndexes d t p id with
        | mk t1 res =>
          rw [hm] at h
          cases res with
          | error e => cases h
          | ok j => exact ih (ha.join (rmTableIndexes_ok hm).1) h
      | index =>
        unfold dropLoop at h
        cases hm : rmTableIndex d t p id with
        | mk t1 res =>
          rw [hm] at h
          cases res with
          | error e => cases h
          | ok j => exact ih (ha.join (rmTableIndex_ok hm).1) h

/-! ## All requests -/

/-- What a request that passed its checks leaves behind. -/
inductive Shape (d : Data) (t t' : Temp) (p : Plan) : Prop
  /-- Tables and indexes. -/
  | objs (h : Local d t t' p.incr) (hr : ∀ l, p.resp ≠ .ids l) (hs : ∀ i, p.resp ≠ .schema i)
      (hb : ∀ x ∈ p.back, ∃ op ∈ p.incr.ops x.1, x ∈ op.backName x.1)
      (hd : p.back ≠ [] → p.incr.dropless)
  /-- A tenant. -/
  | tenant (ws : List Write) (hi : p.incr = { heads := ws }) (hr : p.resp = .ok) (hb : p.back = []) (ht : t' = t)
      (hw : ∀ w ∈ ws, ∃ id, (w = .tenantPut id ∧ id ≠ 0) ∨ w = .tenantErase id)
  /-- A new schema. -/
  | newSchema (id : Int) (s : Schema) (ids : List Write) (hi : p.incr = { heads := [.schemaPut id s], ids := ids })
      (hr : p.resp = .schema id) (hb : p.back = []) (he : ∀ k, s.ids k = [])
      (hn : get t.schemaNames (s.tenant, s.name) = none)
      (hid : (0 < id ∧ ids = [] ∧ t'.nextSchema = t.nextSchema) ∨
        (id = last t.nextSchema + 1 ∧ ids = [.nextSchema id] ∧ t'.nextSchema = some id))
      (h1 : t'.schemaNames = put t.schemaNames (s.tenant, s.name) id) (h2 : t'.names = t.names)
      (h3 : t'.nextTable = t.nextTable)
  /-- A schema is dropped. -/
  | noSchema (id tn : Int) (s : Schema) (hi : p.incr = { heads := [.schemaErase id] })
      (hr : p.resp = .ok) (hb : p.back = []) (h0 : 1000 < id) (hs : get d.schemas id = some s)
      (he : s.ids .table = []) (h1 : t' = { t with schemaNames := erase t.schemaNames (tn, s.name) })
  /-- New ids. -/
  | ids (l : List Int) (ws : List Write) (hi : p.incr = { ids := ws }) (hr : p.resp = .ids l) (hb : p.back = [])
      (h1 : t'.schemaNames = t.schemaNames) (h2 : t'.names = t.names) (h3 : t'.nextSchema = t.nextSchema)
      (h4 : last t.nextTable ≤ last t'.nextTable)
      (hl : l = idsAfter (last t.nextTable) (last t'.nextTable - last t.nextTable).toNat)
      (hw : (l = [] ∧ ws = [] ∧ t' = t) ∨
        (.nextTable (last t'.nextTable) ∈ ws ∧ ∀ w ∈ ws, ∃ v, w = .nextTable v ∧ v ≤ last t'.nextTable))

theorem idsAfter_append (v : Int) (a b : Nat) : idsAfter v a ++ idsAfter (v + a) b = idsAfter v (a + b) := by
  unfold idsAfter
  rw [List.range_add, List.map_append, List.map_map]
  congr 1
  apply List.map_congr_left
  intro i _
  simp only [Function.comp]
  omega

theorem takeIds_ok {t t' : Temp} {c : Int} {l : List Int} (h : takeIds t c = (t', l)) (hl : l ≠ []) :
    0 < c ∧ c ≤ 100000 ∧ t' = { t with nextTable := some (last t.nextTable + c) } ∧
      l = idsAfter (last t.nextTable) c.toNat := by
  unfold takeIds at h
  by_cases c1 : c ≤ 0 ∨ c > 100000
  · rw [if_pos c1] at h; cases h; exact absurd rfl hl
  · rw [if_neg c1] at h; cases h
    exact ⟨by omega, by omega, rfl, rfl⟩

theorem generateLoop_ok {ns : List Nat} : ∀ {t t' : Temp} {l l' : List Int} {ws ws' : List Write},
    generateLoop t ns l ws = (t', .ok (l', ws')) →
    t'.schemaNames = t.schemaNames ∧ t'.names = t.names ∧ t'.nextSchema = t.nextSchema ∧
    last t.nextTable ≤ last t'.nextTable ∧
    l' = l ++ idsAfter (last t.nextTable) (last t'.nextTable - last t.nextTable).toNat ∧
    ∃ nw, ws' = ws ++ nw ∧ ((nw = [] ∧ t' = t) ∨
      (.nextTable (last t'.nextTable) ∈ nw ∧ ∀ w ∈ nw, ∃ v, w = .nextTable v ∧ v ≤ last t'.nextTable)) := by
  induction ns with
  | nil =>
    intro t t' l l' ws ws' h
    cases h
    refine ⟨rfl, rfl, rfl, Int.le_refl _, ?_, [], by simp, Or.inl ⟨rfl, rfl⟩⟩
    simp [idsAfter]
  | cons n ns ih =>
    intro t t' l l' ws ws' h
    unfold generateLoop at h
    cases hm : takeIds t (1 + n) with
    | mk t1 l1 =>
      rw [hm] at h
      cases l1 with
      | nil => cases h
      | cons x xs =>
        dsimp only at h
        obtain ⟨g1, g2, g3, g4⟩ := takeIds_ok hm (by simp)
        obtain ⟨e1, e2, e3, e4, e5, nw, e6, e7⟩ := ih h
        have hl1 : last t1.nextTable = last t.nextTable + (1 + n) := by rw [g3]; rfl
        refine ⟨by rw [e1, g3], by rw [e2, g3], by rw [e3, g3], by omega, ?_, .nextTable (last t1.nextTable) :: nw, ?_, Or.inr ?_⟩
        · rw [e5, g4, List.append_assoc, hl1]
          congr 1
          have := idsAfter_append (last t.nextTable) (1 + (n:Int)).toNat
            (last t'.nextTable - (last t.nextTable + (1 + (n:Int)))).toNat
          rw [Int.toNat_of_nonneg (by omega)] at this
          rw [this]
          congr 1
          omega
        · rw [e6, List.append_assoc]; rfl
        · rcases e7 with ⟨a, b⟩ | ⟨a, b⟩
          · subst a; subst b
            refine ⟨List.mem_cons_self, ?_⟩
            intro w hw
            rw [List.mem_singleton.1 hw]
            exact ⟨_, rfl, Int.le_refl _⟩
          · refine ⟨List.mem_cons_of_mem _ a, ?_⟩
            intro w hw
            rcases List.mem_cons.1 hw with e | hw
            · exact ⟨_, e, e4⟩
            · exact b w hw

theorem dropless_creates {i : Incr} (h1 : i.dropsSchemas = []) (h2 : ∀ op ∈ i.indexes, op.dropped = [])
    (h3 : ∀ op ∈ i.tables, op.dropped = []) : i.dropless = true := by
  unfold Incr.dropless
  rw [h1, List.flatMap_eq_nil_iff.2 h2, List.flatMap_eq_nil_iff.2 h3]; rfl

theorem createTables_ok {d : Data} {t t' : Temp} {sid : Int} {l : List (Option Kind × New)} {p : Plan}
    (h : createTables d t sid l = (t', .ok p)) : Shape d t t' p := by
  unfold createTables at h
  by_cases c0 : l = []
  · rw [if_pos c0] at h; cases h
  rw [if_neg c0] at h
  by_cases c1 : sid < 0
  · rw [if_pos c1] at h; cases h
  rw [if_neg c1] at h
  cases hs : get d.schemas sid with
  | none => rw [hs] at h; cases h
  | some s =>
    rw [hs] at h
    dsimp only at h
    cases ht : createTheTable d sid t l none with
    | mk t1 res =>
      rw [ht] at h
      cases res with
      | error e => cases h
      | ok a =>
        dsimp only at h
        obtain ⟨e1, e2⟩ := createTheTable_ok ht
        rcases e2 with ⟨ea, en⟩ | ⟨n, _, ea, _, est⟩
        · subst ea
          dsimp only at h
          cases hi : createTheIndexes d sid 0 t1 l [] [] with
          | mk t2 res =>
            rw [hi] at h
            cases res with
            | error e => cases h
            | ok q =>
              obtain ⟨ops, back⟩ := q
              cases h
              obtain ⟨new, f1, f2, f3, f4, f5⟩ := createTheIndexes_ok hi
              rw [List.nil_append] at f1 f2
              subst f1
              refine .objs ⟨⟨_, by rw [← en]; exact f3, ?_⟩, ?_, rfl, e1.trans f4⟩ nofun nofun ?_ ?_
              · unfold Incr.all; simp
              · intro w hw; cases hw
              · rw [f2]
                intro x hx
                obtain ⟨op, ho, hx⟩ := List.mem_flatMap.1 hx
                obtain ⟨id, r, e, _⟩ := f5 op ho
                have : x.1 = .index := by
                  rw [e] at hx; rw [List.mem_singleton.1 hx]
                rw [this]
                exact ⟨op, ho, hx⟩
              · intro _
                refine dropless_creates rfl ?_ (by intro o ho; cases ho)
                intro op ho
                obtain ⟨id, r, e, _⟩ := f5 op ho
                rw [e]; rfl
        · subst ea
          dsimp only at h
          cases hi : createTheIndexes d sid n.id t1 l (ObjOp.backName .table (.create n.id ⟨sid, n.name, n.id, n.defn⟩)) [] with
          | mk t2 res =>
            rw [hi] at h
            cases res with
            | error e => cases h
            | ok q =>
              obtain ⟨ops, back⟩ := q
              cases h
              obtain ⟨new, f1, f2, f3, f4, f5⟩ := createTheIndexes_ok hi
              rw [List.nil_append] at f1
              subst f1
              refine .objs ⟨⟨_, (OpSteps.one est).append f3, ?_⟩, ?_, rfl, e1.trans f4⟩ nofun nofun ?_ ?_
              · exact List.perm_append_comm
              · intro w hw
                rw [List.mem_singleton.1 hw]
                exact fun e => by have := est.create_pos; omega
              · rw [f2]
                intro x hx
                rcases List.mem_append.1 hx with hx | hx
                · have hx' := List.mem_singleton.1 hx
                  have : x.1 = .table := by rw [hx']
                  rw [this]
                  exact ⟨_, List.mem_singleton.2 rfl, hx⟩
                · obtain ⟨op, ho, hx⟩ := List.mem_flatMap.1 hx
                  obtain ⟨id, r, e, _⟩ := f5 op ho
                  have : x.1 = .index := by
                    rw [e] at hx; rw [List.mem_singleton.1 hx]
                  rw [this]
                  exact ⟨op, ho, hx⟩
              · intro _
                refine dropless_creates rfl ?_ (by intro o ho; rw [List.mem_singleton.1 ho]; rfl)
                intro op ho
                obtain ⟨id, r, e, _⟩ := f5 op ho
                rw [e]; rfl

theorem Shape.one {d : Data} {t t' : Temp} {k : Kind} {op : ObjOp} (h : OpStep d k t.names op t'.names)
    (hs : Still t t') (hd : List Write) (hh : ∀ w ∈ hd, w.isTidx) (i : Incr) (hi : i.heads = hd) (hid : i.ids = [])
    (ha : i.all = [(k, op)]) : Shape d t t' { incr := i, resp := .ok } :=
  .objs ⟨⟨_, .one h, by rw [ha]⟩, by rw [hi]; exact hh, hid, hs⟩ nofun nofun (by intro x hx; cases hx)
    (fun h => absurd rfl h)

theorem prepare_shape {d : Data} {t t' : Temp} {r : Req} {p : Plan} (h : prepare d t r = (t', .ok p)) :
    Shape d t t' p := by
  cases r <;> dsimp only [prepare] at h
  case createTenant id =>
    unfold createTenant at h
    by_cases c : id = 0
    · rw [if_pos c] at h; cases h
      exact .tenant [] rfl rfl rfl rfl (by simp)
    · rw [if_neg c] at h
      split at h
      · cases h
      · cases h
        refine .tenant _ rfl rfl rfl rfl ?_
        intro w hw
        exact ⟨id, Or.inl ⟨List.mem_singleton.1 hw, c⟩⟩
  case dropTenant id =>
    unfold dropTenant at h
    split at h
    · cases h
    · split at h
      · cases h
      · split at h
        · cases h
        · split at h
          · cases h
          · cases h
            refine .tenant _ rfl rfl rfl rfl ?_
            intro w hw
            exact ⟨id, Or.inr (List.mem_singleton.1 hw)⟩
  case createSchema tn n j =>
    unfold createSchema at h
    split at h
    · cases h
    · split at h
      · cases h
      · split at h
        · cases h
        · split at h
          · cases h
          · dsimp only at h
            by_cases c : j > 0
            · simp only [if_pos c] at h
              split at h
              · cases h
              · rename_i hn
                cases h
                exact .newSchema _ ⟨n, tn, fun _ => []⟩ _ rfl rfl rfl (fun _ => rfl) (by simpa using hn)
                  (Or.inl ⟨c, rfl, rfl⟩) rfl rfl rfl
            · simp only [if_neg c] at h
              split at h
              · cases h
              · rename_i hn
                cases h
                exact .newSchema _ ⟨n, tn, fun _ => []⟩ _ rfl rfl rfl (fun _ => rfl) (by simpa using hn)
                  (Or.inr ⟨rfl, rfl, rfl⟩) rfl rfl rfl
  case dropSchema tn sid =>
    unfold dropSchema at h
    split at h
    · cases h
    · rename_i c0
      split at h
      · cases h
      · split at h
        · cases h
        · split at h
          · cases h
          · rename_i s hs
            split at h
            · cases h
            · rename_i c
              cases h
              exact .noSchema sid tn s rfl rfl rfl (by omega) hs
                (List.length_eq_zero_iff.1 (by omega)) rfl
  case createTable sid n =>
    unfold createTable at h
    split at h
    · cases h
    · rename_i t1 op hm
      cases h
      obtain ⟨g1, g2, g3, g4, g5⟩ := mkTable_ok hm
      exact .one g1 ⟨g2, g3, g4⟩ [] (by simp) _ rfl rfl rfl
  case createTables sid l => exact createTables_ok h
  case dropTable sid id =>
    unfold dropTable at h
    split at h
    · cases h
    · split at h
      · cases h
      · split at h
        · cases h
        · rename_i t1 op hm
          cases h
          obtain ⟨g1, g2, g3, g4, g5⟩ := rmTable_ok hm
          exact .one g1 ⟨g2, g3, g4⟩ [] (by simp) _ rfl rfl rfl
  case dropTables l =>
    unfold dropTables at h
    split at h
    · cases h
    · rename_i t1 i hm
      cases h
      exact .objs (dropLoop_ok (t0 := t) ⟨⟨[], .nil _, .refl _⟩, (by intro w hw; cases hw), rfl, .refl _⟩ hm)
        nofun nofun (by intro x hx; cases hx) (fun h => absurd rfl h)
  case updateTable k id n df e =>
    unfold updateTable at h
    split at h
    · cases h
    · rename_i k
      split at h
      · cases h
      · rename_i r hr
        split at h
        · cases h
        · rename_i c
          split at h
          · cases h
          · cases h
            have := OpStep.update (d := d) (k := k) t.names id r n df hr (Decidable.not_not.1 c)
            cases k
            · exact .one this (.refl _) [] (by simp) _ rfl rfl rfl
            · exact .one this (.refl _) [] (by simp) _ rfl rfl rfl
  case addIndex tb n =>
    unfold addIndex at h
    split at h
    · cases h
    · split at h
      · cases h
      · split at h
        · cases h
        · split at h
          · cases h
          · split at h
            · cases h
            · rename_i t1 op hm
              cases h
              obtain ⟨g1, g2, g3, g4, g5⟩ := mkIndex_ok hm
              exact .one g1 ⟨g2, g3, g4⟩ [.tidxAddDel tb [n.id] []]
                (by intro w hw; rw [List.mem_singleton.1 hw]; trivial) _ rfl rfl rfl
  case dropIndexOn tb id =>
    unfold dropIndexOn at h
    split at h
    · cases h
    · split at h
      · cases h
      · split at h
        · cases h
        · split at h
          · cases h
          · split at h
            · cases h
            · split at h
              · cases h
              · rename_i t1 op hm
                cases h
                obtain ⟨g1, g2, g3, g4, g5⟩ := rmIndex_ok hm
                exact .one g1 ⟨g2, g3, g4⟩ [.tidxAddDel tb [] [id]]
                  (by intro w hw; rw [List.mem_singleton.1 hw]; trivial) _ rfl rfl rfl
  case createIndex sid n =>
    unfold createIndex at h
    split at h
    · cases h
    · rename_i t1 op hm
      cases h
      obtain ⟨g1, g2, g3, g4, g5⟩ := mkIndex_ok hm
      exact .one g1 ⟨g2, g3, g4⟩ [] (by simp) _ rfl rfl rfl
  case dropIndex sid id =>
    unfold dropIndex at h
    split at h
    · cases h
    · rename_i t1 op hm
      cases h
      obtain ⟨g1, g2, g3, g4, g5⟩ := rmIndex_ok hm
      exact .one g1 ⟨g2, g3, g4⟩ [] (by simp) _ rfl rfl rfl
  case createId sid =>
    unfold createId at h
    split at h
    · cases h
    · cases h
      refine .ids _ _ rfl rfl rfl rfl rfl rfl ?_ ?_ (Or.inr ⟨List.mem_singleton.2 rfl, ?_⟩)
      · show last t.nextTable ≤ last t.nextTable + 1
        omega
      · show [last t.nextTable + 1] = idsAfter (last t.nextTable) (last t.nextTable + 1 - last t.nextTable).toNat
        rw [show (last t.nextTable + 1 - last t.nextTable).toNat = 1 by omega]
        simp [idsAfter]
      · intro w hw
        exact ⟨_, List.mem_singleton.1 hw, Int.le_refl _⟩
  case createIds sid c =>
    unfold createIds at h
    split at h
    · cases h
    · split at h
      · cases h
      · split at h
        · cases h
        · rename_i t1 l hl hm
          cases h
          obtain ⟨g1, g2, g3, g4⟩ := takeIds_ok hm (fun e => hl e)
          have e : last t'.nextTable = last t.nextTable + c := by rw [g3]; rfl
          refine .ids _ _ rfl rfl rfl (by rw [g3]) (by rw [g3]) (by rw [g3]) (by omega) ?_
            (Or.inr ⟨List.mem_singleton.2 rfl, ?_⟩)
          · rw [g4, e]; congr 1; omega
          · intro w hw
            exact ⟨_, List.mem_singleton.1 hw, Int.le_refl _⟩
  case generateIds sid ps =>
    unfold generateIds at h
    split at h
    · cases h
    · split at h
      · cases h
      · rename_i t1 l ws hm
        cases h
        obtain ⟨e1, e2, e3, e4, e5, nw, e6, e7⟩ := generateLoop_ok hm
        rw [List.nil_append] at e5 e6
        subst e6
        refine .ids _ _ rfl rfl rfl e1 e2 e3 e4 e5 ?_
        rcases e7 with ⟨a, b⟩ | h
        · subst b
          exact Or.inl ⟨by rw [e5]; simp [idsAfter], a, rfl⟩
        · exact Or.inr h

end Verif.Meta
