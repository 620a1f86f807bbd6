/-
C74, C76, C77: runs that meet the conditions, and runs in which something cannot be dropped or is left behind.
-/
import Verif.Meta.PropsSchemas
import Verif.Meta.WitnessNames

namespace Verif.Meta

/-! ## Runs that meet the conditions -/

example : okRun init namesExample = true ∧ StepsOk okIndexes init namesExample = true ∧
    StepsOk okTenants init namesExample = true := by
  refine ⟨?_, ?_, ?_⟩ <;> decide +kernel

/-- `C77_owner_partial`, `C77_indexes_partial`, `C77_droppable_partial`: after an index was added and another one was
dropped the table has one index. -/
example : get ((run init (namesExample.take 18)).1.data.objs .index) 60004 = some ⟨2, [99], 60001, 0⟩ ∧
    get ((run init (namesExample.take 18)).1.data.objs .table) 60001 = some ⟨2, [97], 60001, 0⟩ ∧
    getTableIndexes (run init (namesExample.take 18)).1.data 2 60001 =
      .ok [(60001, ⟨2, [97], 60001, 0⟩), (60004, ⟨2, [99], 60001, 0⟩)] ∧
    (∀ sid n, Ev.begin (.createTable sid n) ∈ namesExample → n.id ≠ 60001) := by
  refine ⟨?_, ?_, ?_, ?_⟩
  · decide +kernel
  · decide +kernel
  · decide +kernel
  · intro sid n h
    simp [namesExample] at h

/-- `C74_dropped`: the answer of the `DropTables` comes with the last event. -/
example : (step (run init (namesExample.take 22)).1 .apply).2 = .replied 4 .ok ∧
    BegunAt (namesExample.take 22) 4 (.dropTables [(some .table, 2, 60001)]) (namesExample.take 18) := by
  refine ⟨by decide +kernel, [.begin (.createTables 2 [(some .table, ⟨60005, [97], 0, none, none⟩)]), .submit 4, .submit 5],
    by decide +kernel, by decide +kernel⟩

/-- A tenant with a schema and a table; the table, the schema and the tenant are dropped; what is not empty is refused. -/
def dropsExample : List Ev := oneByOne [.createTenant 5, .createSchema 5 [97] 0,
  .createTables 50001 [(some .table, ⟨60001, [97], 0, none, none⟩)], .dropTables [(some .table, 50001, 60001)],
  .dropSchema 5 50001, .dropTenant 5]

example : okRun init dropsExample = true ∧ StepsOk okIndexes init dropsExample = true ∧
    StepsOk okTenants init dropsExample = true ∧
    (run init dropsExample).2 = [.none, .none, .begun 0, .none, .replied 0 .ok, .begun 1, .none, .replied 1 (.schema 50001),
      .begun 2, .none, .replied 2 (.made [60001]), .begun 3, .none, .replied 3 .ok, .begun 4, .none, .replied 4 .ok,
      .begun 5, .none, .replied 5 .ok] := by
  refine ⟨?_, ?_, ?_, ?_⟩ <;> decide +kernel

/-- `C76_gone_partial`. -/
example : (get (run init (dropsExample.take 8)).1.data.schemas 50001).isSome = true ∧
    (get (run init dropsExample).1.data.schemas 50001).isNone = true := by
  refine ⟨?_, ?_⟩ <;> decide +kernel

/-- What is not empty is not dropped. -/
example : (run init (oneByOne [.createTenant 5, .createSchema 5 [97] 0,
    .createTables 50001 [(some .table, ⟨60001, [97], 0, none, none⟩)]] ++ [.begin (.dropTenant 5), .begin (.dropSchema 5 50001)])).2.drop 11 =
      [.refused 3 .illegal, .refused 3 .schemaNotEmpty] := by decide +kernel

/-! ## What the code does otherwise -/

/-- Every table can be dropped, by some request, when nothing is on its way. -/
def C74Droppable : Prop := ∀ qs s, s = (run init (oneByOne qs)).1 → Quiet s → ∀ id r, get (s.data.objs .table) id = some r →
  (∃ i, (step s (.begin (.dropTable r.schema id))).2 = .begun i) ∨
  (∃ i, (step s (.begin (.dropTables [(some .table, r.schema, id)]))).2 = .begun i)

/-- A table made by `CreateTable` cannot be dropped. -/
theorem C74_create_table_false : ¬ C74Droppable := by
  intro h
  rcases h [.createTable 2 ⟨60001, [97], 0, none, none⟩] _ rfl (List.isEmpty_iff.1 (by decide +kernel)) 60001 ⟨2, [97], 60001, 0⟩
    (by decide +kernel) with ⟨i, h⟩ | ⟨i, h⟩
  · exact C74_drop_table_never _ _ _ _ h
  · revert h
    rw [show (step (run init (oneByOne [.createTable 2 ⟨60001, [97], 0, none, none⟩])).1
      (.begin (.dropTables [(some .table, 2, 60001)]))).2 = .refused 1 .illegal by decide +kernel]
    nofun

/-- Every index is in a schema that exists, so it can be read and dropped. -/
def C76IndexHome : Prop := ∀ qs s, s = (run init (oneByOne qs)).1 → Quiet s → ∀ id r, get (s.data.objs .index) id = some r →
  getObj s.data .index r.schema id = .ok r

/-- `DropSchema` drops a schema in which there are indexes: they are there but cannot be read any more. -/
theorem C76_drop_schema_false : ¬ C76IndexHome := by
  intro h
  have := h [.createSchema 0 [97] 0, .createIndex 50001 ⟨60001, [97], 0, none, none⟩, .dropSchema 0 50001] _ rfl
    (List.isEmpty_iff.1 (by decide +kernel)) 60001 ⟨50001, [97], 0, 0⟩ (by decide +kernel)
  revert this
  decide +kernel

/-- They cannot be dropped either. -/
example : (run init (oneByOne [.createSchema 0 [97] 0, .createIndex 50001 ⟨60001, [97], 0, none, none⟩, .dropSchema 0 50001] ++
    [.begin (.dropIndex 50001 60001), .begin (.dropTables [(some .index, 50001, 60001)])])).2.drop 11 =
      [.refused 3 .illegal, .refused 3 .illegal] := by decide +kernel

/-- The tenants of schemas exist, in a run of orderly events. -/
def C76Tenant : Prop := ∀ es, okRun init es = true → ∀ s, s = (run init es).1 → Quiet s →
  ∀ sid sc, get s.data.schemas sid = some sc → sc.tenant = 0 ∨ sc.tenant ∈ s.data.tenants

/-- A tenant is dropped while a schema is created in it: the schema is in a tenant that does not exist. -/
theorem C76_race_false : ¬ C76Tenant := by
  intro h
  have := h (oneByOne [.createTenant 5] ++ [.begin (.createSchema 5 [97] 0), .begin (.dropTenant 5), .submit 1, .submit 2, .apply, .apply])
    (by decide +kernel) _ rfl (List.isEmpty_iff.1 (by decide +kernel)) 50001 ⟨[97], 5, fun _ => []⟩
    (by rfl)
  revert this
  decide +kernel

/-- The indexes of a table are read with the table, when requests are made one at a time. -/
def C77Indexes : Prop := ∀ qs s, s = (run init (oneByOne qs)).1 → Quiet s → (∀ sid n, .createTable sid n ∉ qs) →
  ∀ id r, get (s.data.objs .table) id = some r → ∃ l, getTableIndexes s.data r.schema id = .ok l

/-- `DropTables` for an index of a table drops the index but leaves its id with the table: the table's indexes cannot be
read any more. -/
theorem C77_drop_index_false : ¬ C77Indexes := by
  intro h
  obtain ⟨l, h⟩ := h [.createTables 2 [(some .table, ⟨60001, [97], 0, none, none⟩), (some .index, ⟨60002, [98], 0, none, none⟩)],
    .dropTables [(some .index, 2, 60002)]] _ rfl (List.isEmpty_iff.1 (by decide +kernel)) (by simp) 60001 ⟨2, [97], 60001, 0⟩ (by decide +kernel)
  revert h
  rw [show getTableIndexes (run init (oneByOne [.createTables 2 [(some .table, ⟨60001, [97], 0, none, none⟩),
    (some .index, ⟨60002, [98], 0, none, none⟩)], .dropTables [(some .index, 2, 60002)]])).1.data 2 60001 = .error .indexNotFound by
      decide +kernel]
  nofun

/-- Nor can the table be dropped. -/
example : (run init (oneByOne [.createTables 2 [(some .table, ⟨60001, [97], 0, none, none⟩),
    (some .index, ⟨60002, [98], 0, none, none⟩)], .dropTables [(some .index, 2, 60002)]] ++
    [.begin (.dropTables [(some .table, 2, 60001)])])).2.drop 8 = [.refused 2 .indexNotFound] := by decide +kernel

/-- The table of an index exists, in a run of orderly events. -/
def C77Owner : Prop := ∀ es, okRun init es = true → ∀ s, s = (run init es).1 → Quiet s →
  ∀ i r, get (s.data.objs .index) i = some r → 0 < r.owner → (get (s.data.objs .table) r.owner).isSome = true

/-- A table is dropped while an index is added to it: the index is there without its table, and its name is taken. -/
theorem C77_race_false : ¬ C77Owner := by
  intro h
  have := h (oneByOne [.createTables 2 [(some .table, ⟨60001, [97], 0, none, none⟩)]] ++
    [.begin (.addIndex 60001 ⟨60002, [98], 0, none, none⟩), .begin (.dropTables [(some .table, 2, 60001)]), .submit 2, .submit 1, .apply, .apply])
    (by decide +kernel) _ rfl (List.isEmpty_iff.1 (by decide +kernel)) 60002 ⟨2, [98], 60001, 0⟩ (by decide +kernel) (by decide)
  revert this
  decide +kernel

end Verif.Meta
