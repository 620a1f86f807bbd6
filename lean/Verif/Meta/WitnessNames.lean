/-
C71: a run that meets the conditions, and runs in which two things have the same name.
-/
import Verif.Meta.PropsNames

namespace Verif.Meta

deriving instance DecidableEq for Except

/-- Requests one at a time: each is taken, written and applied before the next one is taken. -/
def calls (s : State) : List Req → List Ev
  | [] => []
  | q :: qs =>
    let es := [.begin q, .submit s.ths.length, .apply]
    es ++ calls (run s es).1 qs

/-- A new group with one leader that never changes, and requests one at a time. -/
def oneByOne (qs : List Req) : List Ev := [.elect 0, .build] ++ calls (run init [.elect 0, .build]).1 qs

/-! ## A run that meets the conditions -/

/-- Two clients create tables with indexes at the same time, one is refused for its name; an index is
dropped while another one is created; the leader changes and a table is dropped and made again. -/
def namesExample : List Ev :=
  [.elect 0, .build,
   .begin (.createTables 2 [(some .table, ⟨60001, [97], 0, none, none⟩), (some .index, ⟨60002, [98], 0, none, none⟩)]),
   .begin (.createTables 2 [(some .table, ⟨60003, [97], 0, none, none⟩)]),
   .begin (.createSchema 0 [97] 0),
   .submit 0, .apply, .submit 1, .apply,
   .begin (.addIndex 60001 ⟨60004, [99], 0, none, none⟩), .begin (.dropIndexOn 60001 60002), .submit 3, .submit 2,
   .apply, .stepDown, .apply, .elect 1, .build,
   .begin (.dropTables [(some .table, 2, 60001)]),
   .begin (.createTables 2 [(some .table, ⟨60005, [97], 0, none, none⟩)]), .submit 4, .submit 5, .apply]

example : okRun init namesExample = true := by decide +kernel

example : (run init namesExample).2 = [.none, .none, .begun 0, .refused 1 .tableExists, .begun 1, .none,
    .replied 0 (.made [60001, 60002]), .none, .replied 1 (.schema 50001), .begun 2, .begun 3, .none, .none,
    .replied 3 .ok, .none, .replied 2 .ok, .none, .none, .begun 4, .begun 5, .none, .none, .replied 4 .ok] := by decide +kernel

/-- The old table is gone and the new one with the same name is on its way. -/
example : listObjs (run init namesExample).1.data .table 2 = .ok [] ∧
    listObjs (run init (namesExample ++ [.apply])).1.data .table 2 = .ok [(60005, ⟨2, [97], 60005, 0⟩)] ∧
    (pending (run init (namesExample ++ [.apply])).1).isEmpty := by
  refine ⟨?_, ?_, ?_⟩ <;> decide +kernel

/-- `C71_refused_partial`: the name of the table is refused to another one, before and after its entry is
applied. -/
example : ∃ s, s = (run init (namesExample.take 3)).1 ∧ Claims s .table 60001 2 [97] ∧ ¬ Dropping s .table 60001 := by
  refine ⟨_, rfl, Or.inr ⟨_, List.mem_cons_self, _, List.mem_cons_self, rfl, rfl⟩, ?_⟩
  rintro ⟨inc, h, sid, h2⟩
  cases List.mem_singleton.1 h
  cases h2 with
  | tail _ h => cases h

/-! ## What the code does otherwise -/

/-- Names are unique after requests made one at a time, with one leader and no failure. -/
def C71OneByOne : Prop := ∀ qs, Quiet (run init (oneByOne qs)).1 →
  (∀ k sid l, listObjs (run init (oneByOne qs)).1.data k sid = .ok l → (l.map (·.2.name)).Nodup) ∧
  (∀ tn, ((listSchemas (run init (oneByOne qs)).1.data tn).map (fun p => (p.2.tenant, p.2.name))).Nodup)

/-- `DropTables` for a list whose second member does not exist is refused, but it has freed the name of the
first: a second table with this name is made. -/
theorem C71_drop_tables_false : ¬ C71OneByOne := by
  intro h
  have h1 := (h [.createTables 2 [(some .table, ⟨60001, [97], 0, none, none⟩)],
    .dropTables [(some .table, 2, 60001), (some .table, 2, 7)],
    .createTables 2 [(some .table, ⟨60002, [97], 0, none, none⟩)]] (List.isEmpty_iff.1 (by decide +kernel))).1 .table 2
    [(60001, ⟨2, [97], 60001, 0⟩), (60002, ⟨2, [97], 60002, 0⟩)] (by decide +kernel)
  revert h1
  decide

/-- `DropSchema` under another tenant drops the schema and frees the name in that other tenant: there a second
schema with the same name is made. -/
theorem C71_drop_schema_false : ¬ C71OneByOne := by
  intro h
  have h1 := (h [.createTenant 5, .createSchema 0 [97] 0, .createSchema 5 [97] 0, .dropSchema 0 50002,
    .createSchema 0 [97] 0] (List.isEmpty_iff.1 (by decide +kernel))).2 0
  revert h1
  decide +kernel

/-- Names are unique when nothing is on its way, with one leader that never changes. -/
def C71OneLeader : Prop := ∀ es, (∀ e ∈ es, e ≠ .stepDown ∧ ∀ n, e ≠ .restart n) → ∀ s, s = (run init es).1 → Quiet s →
  ∀ k sid l, listObjs s.data k sid = .ok l → (l.map (·.2.name)).Nodup

/-- A drop whose entry could not be written has freed the name. -/
theorem C71_failed_drop_false : ¬ C71OneLeader := by
  intro h
  have h1 := h [.elect 0, .build, .begin (.createIndex 2 ⟨60001, [97], 0, none, none⟩), .submit 0, .apply,
    .begin (.dropIndex 2 60001), .fail 1, .begin (.createIndex 2 ⟨60002, [97], 0, none, none⟩), .submit 2, .apply]
    (by simp) _ rfl (List.isEmpty_iff.1 (by decide +kernel)) .index 2
    [(60001, ⟨2, [97], 0, 0⟩), (60002, ⟨2, [97], 0, 0⟩)] (by decide +kernel)
  revert h1
  decide

/-- Two drops of the same index at the same time: the second frees the name that was given to a new index. -/
theorem C71_two_drops_false : ¬ ∀ es, (∀ e ∈ es, e ≠ .stepDown ∧ (∀ n, e ≠ .restart n) ∧ ∀ i, e ≠ .fail i) →
    ∀ s, s = (run init es).1 → Quiet s → ∀ k sid l, listObjs s.data k sid = .ok l → (l.map (·.2.name)).Nodup := by
  intro h
  have h1 := h [.elect 0, .build, .begin (.createIndex 2 ⟨60001, [97], 0, none, none⟩), .submit 0, .apply,
    .begin (.dropIndex 2 60001), .begin (.createIndex 2 ⟨60002, [97], 0, none, none⟩), .begin (.dropIndex 2 60001),
    .begin (.createIndex 2 ⟨60003, [97], 0, none, none⟩), .submit 1, .submit 2, .submit 3, .submit 4,
    .apply, .apply, .apply, .apply]
    (by simp) _ rfl (List.isEmpty_iff.1 (by decide +kernel)) .index 2
    [(60002, ⟨2, [97], 0, 0⟩), (60003, ⟨2, [97], 0, 0⟩)] (by decide +kernel)
  revert h1
  decide

/-- A leader that takes requests before it has rebuilt its maps does not know the names. -/
theorem C71_window_false : ¬ ∀ es, (∀ e ∈ es, ∀ q, e = .begin q → ∃ sid n, q = .createIndex sid n) →
    ∀ s, s = (run init es).1 → Quiet s → ∀ k sid l, listObjs s.data k sid = .ok l → (l.map (·.2.name)).Nodup := by
  intro h
  have h1 := h [.elect 0, .build, .begin (.createIndex 2 ⟨60001, [97], 0, none, none⟩), .submit 0, .apply, .stepDown,
    .elect 1, .begin (.createIndex 2 ⟨60002, [97], 0, none, none⟩), .build, .submit 1, .apply]
    (by simp) _ rfl (List.isEmpty_iff.1 (by decide +kernel)) .index 2
    [(60001, ⟨2, [97], 0, 0⟩), (60002, ⟨2, [97], 0, 0⟩)] (by decide +kernel)
  revert h1
  decide

/-- A request checked in one term writes its entry in a later one: the name was given to another index
meanwhile. -/
theorem C71_stale_false : ¬ ∀ es, (∀ es1 q es2, es = es1 ++ .begin q :: es2 → (run init es1).1.fresh = false ∧
      ∃ sid n, q = .createIndex sid n) →
    ∀ s, s = (run init es).1 → Quiet s → ∀ k sid l, listObjs s.data k sid = .ok l → (l.map (·.2.name)).Nodup := by
  intro h
  have h1 := h [.elect 0, .build, .begin (.createIndex 2 ⟨60001, [97], 0, none, none⟩), .stepDown, .elect 0, .build,
    .begin (.createIndex 2 ⟨60002, [97], 0, none, none⟩), .submit 1, .apply, .submit 0, .apply]
    ?_ _ rfl (List.isEmpty_iff.1 (by decide +kernel)) .index 2
    [(60002, ⟨2, [97], 0, 0⟩), (60001, ⟨2, [97], 0, 0⟩)] (by decide +kernel)
  · revert h1
    decide
  · intro es1 q es2 he
    have := allSteps_at (f := fun s e => match e with
      | .begin (.createIndex _ _) => !s.fresh
      | .begin _ => false
      | _ => true) (by decide +kernel) es1 _ es2 he
    cases q <;> simp at this
    exact ⟨this, _, _, rfl⟩

/-- A name is refused only to what would share it: the other half of unique names. -/
def C71Refused : Prop := ∀ es s, s = (run init es).1 → Quiet s → ∀ sid n i,
  (step s (.begin (.createTable sid n))).2 = .refused i .tableExists →
  ∃ j r, get (s.data.objs .table) j = some r ∧ (j = n.id ∨ (r.schema = sid ∧ r.name = n.name))

/-- After a `CreateTable` whose entry could not be written the name stays taken, though no table has it. -/
theorem C71_name_lost_false : ¬ C71Refused := by
  intro h
  obtain ⟨j, r, h1, _⟩ := h [.elect 0, .build, .begin (.createTable 2 ⟨60001, [97], 0, none, none⟩), .fail 0] _ rfl
    (List.isEmpty_iff.1 (by decide +kernel)) 2 ⟨60002, [97], 0, none, none⟩ 1 (by decide +kernel)
  have : (run init [.elect 0, .build, .begin (.createTable 2 ⟨60001, [97], 0, none, none⟩), .fail 0]).1.data.objs .table = [] := by
    decide +kernel
  rw [this] at h1
  cases h1

end Verif.Meta
