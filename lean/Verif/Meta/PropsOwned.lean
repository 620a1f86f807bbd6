/-
C77: tables and their indexes.
-/
import Verif.Meta.OwnedRun

namespace Verif.Meta

theorem getAll_ok {d : Data} {sid : Int} : ∀ {l : List Int}, (∀ i ∈ l, ∃ r, getObj d .index sid i = .ok r) →
    ∃ rs, getAll d sid l = .ok rs ∧ rs.map Prod.fst = l ∧ ∀ i r, (i, r) ∈ rs → getObj d .index sid i = .ok r := by
  intro l
  induction l with
  | nil => intro _; exact ⟨[], rfl, rfl, fun i r h => (by cases h)⟩
  | cons i l ih =>
    intro h
    obtain ⟨r, hr⟩ := h i List.mem_cons_self
    obtain ⟨rs, h1, h2, h3⟩ := ih (fun j hj => h j (List.mem_cons_of_mem _ hj))
    refine ⟨(i, r) :: rs, ?_, by rw [List.map_cons, h2], ?_⟩
    · rw [getAll, hr]
      dsimp only
      rw [h1]
    · intro j r' hm
      rcases List.mem_cons.1 hm with e | hm
      · cases e; exact hr
      · exact h3 j r' hm

theorem getObj_some {d : Data} {k : Kind} {sid id : Int} {r : Obj} (h1 : 0 ≤ sid) (h2 : 0 < id) (h3 : (get d.schemas sid).isSome)
    (h4 : get (d.objs k) id = some r) : getObj d k sid id = .ok r := by
  unfold getObj
  rw [if_neg (by omega), if_neg (by omega)]
  obtain ⟨s, hs⟩ := Option.isSome_iff_exists.1 h3
  rw [hs]
  dsimp only
  rw [h4]

/-! ## C77 -/

/-- An index of a table: the table exists and is in the same schema, at every moment of an orderly run in which
indexes of tables are dropped with `DropIndexOnTable` or with the table, and a table is not dropped while its
indexes change. -/
theorem C77_owner_partial (es : List Ev) (hok : okRun init es = true) (hx : StepsOk okIndexes init es = true)
    (i : Int) (r : Obj) (h : get ((run init es).1.data.objs .index) i = some r) (hp : 0 < r.owner) :
    ∃ rt, get ((run init es).1.data.objs .table) r.owner = some rt ∧ rt.schema = r.schema := by
  have ho := Owned.run (B := fun _ => True) hok hx (fun _ _ _ => trivial)
  exact (ho.home i r h hp).2

/-- `GetTableIndexes` returns a table and exactly its indexes, each once, in the same runs, for every table that was
not made with `CreateTable`. -/
theorem C77_indexes_partial (es : List Ev) (hok : okRun init es = true) (hx : StepsOk okIndexes init es = true)
    (t : Int) (r : Obj) (h : get ((run init es).1.data.objs .table) t = some r)
    (hb : ∀ sid n, .begin (.createTable sid n) ∈ es → n.id ≠ t) :
    ∃ l, getTableIndexes (run init es).1.data r.schema t = .ok ((t, r) :: l) ∧ (l.map Prod.fst).Nodup ∧
      ∀ i ri, (i, ri) ∈ l ↔ get ((run init es).1.data.objs .index) i = some ri ∧ ri.owner = t := by
  have hi := Inv.run Inv.init hok
  have ho := Owned.run (B := fun t => ∃ sid n, .begin (.createTable sid n) ∈ es ∧ n.id = t) hok hx
    (fun sid n hm => ⟨sid, n, hm, rfl⟩)
  have hs := hi.cond.home t r h
  have hpos := (hi.cond.objs .table t r h).1
  have htpos := (C73_only_created es .table t r h).1
  obtain ⟨l, hl⟩ := Option.isSome_iff_exists.1 (ho.listed t (fun ⟨sid, n, h1, h2⟩ => hb sid n h1 h2) (by rw [h]; rfl))
  obtain ⟨_, hn, hm⟩ := ho.mem t l hl
  have hall : ∀ i ∈ l, ∃ ri, getObj (run init es).1.data .index r.schema i = .ok ri ∧
      get ((run init es).1.data.objs .index) i = some ri := by
    intro i him
    obtain ⟨ri, hri, _⟩ := (hm i).1 him
    exact ⟨ri, getObj_some (by omega) (C73_only_created es .index i ri hri).1 hs hri, hri⟩
  obtain ⟨rs, h1, h2, h3⟩ := getAll_ok (fun i him => let ⟨ri, a, _⟩ := hall i him; ⟨ri, a⟩)
  refine ⟨rs, ?_, by rw [h2]; exact hn, ?_⟩
  · unfold getTableIndexes
    rw [getObj_some (by omega) htpos hs h]
    dsimp only
    rw [hl]
    dsimp only
    rw [h1]
  · intro i ri
    constructor
    · intro hmem
      have hil : i ∈ l := by rw [← h2]; exact List.mem_map.2 ⟨_, hmem, rfl⟩
      obtain ⟨ri', a, b⟩ := hall i hil
      have := h3 i ri hmem
      rw [a] at this
      cases this
      obtain ⟨ri'', c, e⟩ := (hm i).1 hil
      rw [b] at c; cases c
      exact ⟨b, e⟩
    · rintro ⟨hri, hown⟩
      have hil := (hm i).2 ⟨ri, hri, hown⟩
      rw [← h2] at hil
      obtain ⟨⟨i', ri'⟩, hmem, e⟩ := List.mem_map.1 hil
      dsimp only at e
      subst e
      have := h3 i' ri' hmem
      rw [getObj_some (by omega) (C73_only_created es .index i' ri hri).1 hs hri] at this
      cases this
      exact hmem

/-- Such a table can be dropped: `DropTables` with its schema and its id is taken. -/
theorem C77_droppable_partial (es : List Ev) (hok : okRun init es = true) (hx : StepsOk okIndexes init es = true)
    (t : Int) (r : Obj) (h : get ((run init es).1.data.objs .table) t = some r)
    (hb : ∀ sid n, .begin (.createTable sid n) ∈ es → n.id ≠ t) (n : Nat) (hl : (run init es).1.leader = some n) :
    (step (run init es).1 (.begin (.dropTables [(some .table, r.schema, t)]))).2 = .begun (run init es).1.ths.length := by
  have hi := Inv.run Inv.init hok
  have ho := Owned.run (B := fun t => ∃ sid n, .begin (.createTable sid n) ∈ es ∧ n.id = t) hok hx
    (fun sid n hm => ⟨sid, n, hm, rfl⟩)
  obtain ⟨l, hl'⟩ := Option.isSome_iff_exists.1 (ho.listed t (fun ⟨sid, n, h1, h2⟩ => hb sid n h1 h2) (by rw [h]; rfl))
  rw [C74_taken _ n hl hi.alive]
  intro e he
  rw [List.mem_singleton.1 he]
  refine ⟨Int.le_of_lt (hi.cond.objs .table t r h).1, (C73_only_created es .table t r h).1, hi.cond.home t r h, ⟨r, h, rfl⟩, l, hl', ?_⟩
  intro i him
  obtain ⟨ri, hri, hown⟩ := ((ho.mem t l hl').2.2 i).1 him
  have hpos := (ho.mem t l hl').1
  obtain ⟨_, rt, g1, g2⟩ := ho.home i ri hri (by omega)
  rw [hown, h] at g1
  cases g1
  exact ⟨ri, hri, g2.symm⟩

end Verif.Meta
