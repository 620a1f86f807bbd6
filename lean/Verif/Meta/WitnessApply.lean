/-
C72, C73: runs that meet the conditions, and runs in which the coordinators end or lists are wrong.
-/
import Verif.Meta.PropsApply
import Verif.Meta.WitnessNames

namespace Verif.Meta

/-! ## Runs that meet the conditions -/

/-- `C72_served_partial`: request 5 of `namesExample` just before it writes its entry, with an entry before
it in the log. -/
example : ∃ s th, s = (run init (namesExample.take 21)).1 ∧ okRun init (namesExample.take 21) = true ∧
    s.ths[5]? = some th ∧ th.pc = .ready ∧ th.term = s.term ∧ s.leader = some th.node ∧ s.log.length = 1 := by
  refine ⟨_, _, rfl, by decide +kernel, rfl, ?_, ?_, ?_, ?_⟩ <;> decide +kernel

example : (run (run init (namesExample.take 21)).1 [.submit 5, .apply, .apply]).2 =
    [.none, .replied 4 .ok, .replied 5 (.made [60005])] := by decide +kernel

/-- `C73_history`: five of the six entries are applied so far. -/
example : (applied init namesExample).length = 5 ∧
    replay 60004 none ((applied init namesExample).flatMap (fun inc => inc.ops .index)) = none ∧
    replay 60004 none ((applied init (namesExample.take 16)).flatMap (fun inc => inc.ops .index)) =
      some ⟨2, [99], 60001, 0⟩ := by
  refine ⟨?_, ?_, ?_⟩ <;> decide +kernel

/-- `C73_list_partial`: two tables and an index without a table in one schema. -/
example : let s := (run init (oneByOne [.createTable 2 ⟨60001, [97], 0, none, none⟩,
      .createTables 2 [(some .table, ⟨60002, [98], 0, none, none⟩), (some .index, ⟨60003, [97], 0, none, none⟩)],
      .createIndex 2 ⟨60004, [98], 0, none, none⟩, .updateTable (some .table) 60001 [97] 7 none])).1
    listObjs s.data .table 2 = .ok [(60001, ⟨2, [97], 60001, 7⟩), (60002, ⟨2, [98], 60002, 0⟩)] ∧
    countTables s.data 2 = .ok 2 ∧ listObjs s.data .index 2 = .ok [(60004, ⟨2, [98], 0, 0⟩)] ∧
    getByName s.data (s.temps 0) .index 2 [97] = .ok (60003, ⟨2, [97], 60002, 0⟩) := by
  refine ⟨?_, ?_, ?_, ?_⟩ <;> decide +kernel

/-! ## What the code does otherwise -/

/-- The coordinators stay up with one leader that never changes and whose requests never fail. -/
def C72Up : Prop := ∀ es, (∀ e ∈ es, e ≠ .stepDown ∧ (∀ n, e ≠ .restart n) ∧ ∀ i, e ≠ .fail i) → .down ∉ (run init es).2

/-- A table is created in a schema while the schema is dropped: both are taken, and applying the creation ends
every coordinator. -/
theorem C72_create_drop_false : ¬ C72Up := by
  intro h
  refine h [.elect 0, .build, .begin (.createSchema 0 [97] 0), .submit 0, .apply, .begin (.dropSchema 0 50001),
    .begin (.createTable 50001 ⟨60001, [97], 0, none, none⟩), .submit 1, .submit 2, .apply, .apply] (by simp) ?_
  decide +kernel

/-- An index is dropped while its schema is dropped (an index does not keep a schema from being dropped): applying
the drop of the index ends every coordinator. -/
theorem C72_drop_drop_false : ¬ C72Up := by
  intro h
  refine h [.elect 0, .build, .begin (.createSchema 0 [97] 0), .submit 0, .apply,
    .begin (.createIndex 50001 ⟨60001, [97], 0, none, none⟩), .submit 1, .apply, .begin (.dropIndex 50001 60001),
    .begin (.dropSchema 0 50001), .submit 3, .submit 2, .apply, .apply] (by simp) ?_
  decide +kernel

/-- What `GetTable` and `GetIndex` return is in the schema asked for. -/
def C73InSchema : Prop := ∀ qs k sid id r, getObj (run init (oneByOne qs)).1.data k sid id = .ok r → r.schema = sid

/-- They do not look at the schema. -/
theorem C73_wrong_schema_false : ¬ C73InSchema := by
  intro h
  have := h [.createTable 2 ⟨60001, [97], 0, none, none⟩] .table 3 60001 ⟨2, [97], 60001, 0⟩ (by decide +kernel)
  revert this
  decide

/-- Every table is listed once. -/
def C73Once : Prop := ∀ es, (∀ e ∈ es, e ≠ .stepDown ∧ (∀ n, e ≠ .restart n) ∧ ∀ i, e ≠ .fail i) →
  ∀ k sid l, listObjs (run init es).1.data k sid = .ok l → (l.map Prod.fst).Nodup

/-- Two tables are created with the same id at the same time: both requests are answered as done, one table
replaces the other, and it is listed twice. -/
theorem C73_same_id_false : ¬ C73Once := by
  intro h
  have h1 := h [.elect 0, .build, .begin (.createTable 2 ⟨60001, [97], 0, none, none⟩),
    .begin (.createTable 2 ⟨60001, [98], 0, none, none⟩), .submit 0, .submit 1, .apply, .apply] (by simp) .table 2
    [(60001, ⟨2, [98], 60001, 0⟩), (60001, ⟨2, [98], 60001, 0⟩)] (by decide +kernel)
  revert h1
  decide

end Verif.Meta
