import Verif.VecQuery.Loop

/-!
# C78: reading vectors by id

`VectorBatchQuery` and the key states of `VectorDelete`.
-/

namespace Verif.VecQuery

/-- The fields of the scalar data a query asks for. -/
def fieldsOf (w : Want) (s : Scalar) : Scalar := if w.keys = [] then s else s.filter fun p => decide (p.1 ∈ w.keys)

/-- The reads of a query see the histories and clocks of `s`. -/
def during (schema : List Field) (s : Tick → List Op × Int) : Worlds := fun t => ⟨run schema (s t).1, (s t).2⟩

/-- A small history: vector 3 with scalar data, vector 5 that expires at 100 and is
without scalar data, vector 7 that was deleted. -/
def ops1 : List Op :=
  [.add 10 0 [⟨3, ⟨[1, 2]⟩, [(1, ⟨.int64, [8]⟩)], ⟨[4]⟩⟩, ⟨7, ⟨[5, 5]⟩, [], ⟨[]⟩⟩],
   .add 20 100 [⟨5, ⟨[0, 1]⟩, [], ⟨[]⟩⟩],
   .del 30 [7]]

/-- C78. When nothing changes meanwhile, a query that answers gives one entry for
each id asked for, in that order: the vector with what was asked for if there is
such a vector, an empty entry otherwise.  Partial: it may abort instead, see
`C78_abort_iff`. -/
theorem C78_query_partial {schema : List Field} {ops : List Op} (hv : Valid schema ops) {now : Int} {w : Want}
    {ids : List Int} {es : List Entry} (h : batchQuery (quiet schema ops now) w ids = .ok es) :
    es.length = ids.length ∧
    ∀ (j : Nat) (id : Int), ids[j]? = some id →
      (∀ ttl v, Shows ops w.ts now ttl v → v.id = id → es[j]? = some (entryOf w v)) ∧
      (¬ Exists ops w.ts now id → es[j]? = some {}) := by
  rcases batch_cases (quiet schema ops now) w ids with ⟨es', h1, h2⟩ | ⟨h1, _⟩
  · rw [h1] at h
    cases h
    obtain ⟨h3, h4⟩ := loop_some.1 h2
    refine ⟨h3, ?_⟩
    intro j id hid
    obtain ⟨e, h5, h6⟩ := h4 j id hid
    rw [Nat.zero_add, full_quiet] at h6
    constructor
    · intro ttl v hsh e1
      obtain ⟨h7, h8⟩ := (shows_iff hv).1 hsh
      rw [e1] at h7
      rw [h7] at h6
      dsimp only at h6
      rw [if_pos h8] at h6
      split at h6
      · cases h6
      · rw [h5, h6]
    · intro hno
      rw [h5]
      cases hd : decided (effTs w.ts) id ops with
      | none => rw [hd] at h6; exact h6.symm
      | some p =>
        obtain ⟨ttl, v⟩ := p
        rw [hd] at h6
        dsimp only at h6
        by_cases hl : ttl = 0 ∨ now ≤ ttl
        · refine absurd ⟨ttl, v, (shows_iff hv).2 ⟨?_, hl⟩, decided_id hd⟩ hno
          rw [decided_id hd, hd]
        · rw [if_neg hl] at h6
          exact h6.symm
  · rw [h1] at h
    cases h

example : Valid [] ops1 := by
  simp [Valid, ops1, Op.Valid, validScalar]

example : batchQuery (quiet [] ops1 50) { scalar := false, table := false } [5, 7, 3] =
    .ok [{ id := some 5, vec := some ⟨[0, 1]⟩ }, {}, { id := some 3, vec := some ⟨[1, 2]⟩ }] := by decide

/-- C78. The only outcome besides an answer is that the process aborts, and it does
so exactly when one of the vectors asked for has a time of expiry and its scalar
data, or its table data, is asked for and empty. -/
theorem C78_abort_iff {schema : List Field} {ops : List Op} (hv : Valid schema ops) {now : Int} {w : Want}
    {ids : List Int} :
    batchQuery (quiet schema ops now) w ids ≠ .notFound ∧
    (batchQuery (quiet schema ops now) w ids = .abort ↔
      ∃ ttl v, Shows ops w.ts now ttl v ∧ v.id ∈ ids ∧ ttl ≠ 0 ∧
        (w.scalar = true ∧ v.scalar = [] ∨ w.table = true ∧ v.table.bytes = [])) := by
  have key : loop (full (quiet schema ops now) w) 0 ids = none ↔
      ∃ ttl v, Shows ops w.ts now ttl v ∧ v.id ∈ ids ∧ ttl ≠ 0 ∧
        (w.scalar = true ∧ v.scalar = [] ∨ w.table = true ∧ v.table.bytes = []) := by
    rw [loop_none]
    constructor
    · rintro ⟨j, id, h1, h2⟩
      rw [Nat.zero_add, full_quiet] at h2
      cases hd : decided (effTs w.ts) id ops with
      | none => rw [hd] at h2; cases h2
      | some p =>
        obtain ⟨ttl, v⟩ := p
        rw [hd] at h2
        dsimp only at h2
        by_cases hl : ttl = 0 ∨ now ≤ ttl
        · rw [if_pos hl] at h2
          split at h2
          · rename_i hc
            refine ⟨ttl, v, (shows_iff hv).2 ⟨?_, hl⟩, ?_, hc.1, hc.2⟩
            · rw [decided_id hd, hd]
            · rw [decided_id hd]
              exact List.mem_of_getElem? h1
          · cases h2
        · rw [if_neg hl] at h2
          cases h2
    · rintro ⟨ttl, v, h1, h2, h3, h4⟩
      obtain ⟨j, hj⟩ := List.getElem?_of_mem h2
      obtain ⟨h5, h6⟩ := (shows_iff hv).1 h1
      refine ⟨j, v.id, hj, ?_⟩
      rw [Nat.zero_add, full_quiet, h5]
      dsimp only
      rw [if_pos h6, if_pos ⟨h3, h4⟩]
  rcases batch_cases (quiet schema ops now) w ids with ⟨es', h1, h2⟩ | ⟨h1, h2⟩
  · rw [h1, ← key, h2]
    exact ⟨(by intro h; cases h), ⟨fun h => (by cases h), fun h => (by cases h)⟩⟩
  · rw [h1, ← key, h2]
    exact ⟨(by intro h; cases h), ⟨fun _ => rfl, fun _ => rfl⟩⟩

/-- C78 is false as stated: a vector added with a time of expiry and without scalar
data aborts the process of every store that is asked for it with scalar data. -/
theorem C78_abort_false : batchQuery (quiet [] ops1 50) {} [5] = .abort := by decide

/-- C78. Whatever is written meanwhile: each part of an entry is right at the moment
it is read.  The vector decides whether there is an entry. -/
theorem C78_any {schema : List Field} {s : Tick → List Op × Int} (hv : ∀ t, Valid schema (s t).1) {w : Want}
    {ids : List Int} {es : List Entry} (h : batchQuery (during schema s) w ids = .ok es) :
    es.length = ids.length ∧
    ∀ (j : Nat) (id : Int), ids[j]? = some id → ∃ e, es[j]? = some e ∧
      (¬ Exists (s (.vec j)).1 w.ts (s (.vec j)).2 id → e = {}) ∧
      (∀ ttl v, Shows (s (.vec j)).1 w.ts (s (.vec j)).2 ttl v → v.id = id →
        e.id = some id ∧ e.vec = (if w.vec then some v.vec else none) ∧
        (∀ sc, e.scalar = some sc ↔
          w.scalar = true ∧ ∃ ttl' v', Shows (s (.scal j)).1 w.ts (s (.scal j)).2 ttl' v' ∧ v'.id = id ∧
            sc = fieldsOf w v'.scalar) ∧
        (∀ tb, e.table = some tb ↔
          w.table = true ∧ ∃ ttl' v', Shows (s (.tab j)).1 w.ts (s (.tab j)).2 ttl' v' ∧ v'.id = id ∧
            tb = v'.table)) := by
  rcases batch_cases (during schema s) w ids with ⟨es', h1, h2⟩ | ⟨h1, _⟩
  · rw [h1] at h
    cases h
    obtain ⟨h3, h4⟩ := loop_some.1 h2
    refine ⟨h3, ?_⟩
    intro j id hid
    obtain ⟨e, h5, h6⟩ := h4 j id hid
    refine ⟨e, h5, ?_⟩
    rw [Nat.zero_add] at h6
    unfold full vecEntry at h6
    have hvec : getVec (during schema s (.vec j)) w.ts id =
        readS (·.vec) (s (.vec j)).2 (decided (effTs w.ts) id (s (.vec j)).1) := getVec_run
    rw [hvec, readS_vec] at h6
    cases hl : live (s (.vec j)).2 (decided (effTs w.ts) id (s (.vec j)).1) with
    | none =>
      rw [hl] at h6
      simp only [Option.bind_some, scalarEntry, tableEntry, ite_self] at h6
      cases h6
      refine ⟨fun _ => rfl, ?_⟩
      intro ttl v hsh e1
      have := (live_iff (hv _)).2 ⟨ttl, hsh, e1⟩
      rw [hl] at this
      cases this
    | some v =>
      rw [hl] at h6
      dsimp only at h6
      rw [Option.bind_some] at h6
      have hex := (live_iff (hv _)).1 hl
      refine ⟨?_, ?_⟩
      · intro hno
        obtain ⟨ttl, hs, e1⟩ := hex
        exact absurd ⟨ttl, v, hs, e1⟩ hno
      · intro ttl v' hsh e1
        have : v' = v := by
          have := (live_iff (hv _)).2 ⟨ttl, hsh, e1⟩
          rw [hl] at this
          exact (Option.some.inj this).symm
        subst this
        have rd : ∀ {α : Type} [Blob α] (f : VecIn → α) (t : Tick) (a : α),
            readS f (s t).2 (decided (effTs w.ts) id (s t).1) ≠ .abort →
            (readS f (s t).2 (decided (effTs w.ts) id (s t).1) = .value a ↔
              ∃ ttl' v', Shows (s t).1 w.ts (s t).2 ttl' v' ∧ v'.id = id ∧ a = f v') := by
          intro α _ f t a hna
          constructor
          · intro hr
            cases hd : decided (effTs w.ts) id (s t).1 with
            | none => rw [hd] at hr; cases hr
            | some p =>
              obtain ⟨ttl', v''⟩ := p
              rw [hd] at hr hna
              have hid' := decided_id hd
              by_cases hl' : ttl' = 0 ∨ (s t).2 ≤ ttl'
              · rw [readS_live f hl'] at hr hna
                split at hr
                · cases hr
                · cases hr
                  refine ⟨ttl', v'', (shows_iff (hv _)).2 ⟨?_, hl'⟩, hid', rfl⟩
                  rw [hid', hd]
              · exfalso
                unfold readS at hr
                dsimp only at hr
                rw [if_neg (by omega)] at hr
                split at hr
                · cases hr
                · rw [if_pos (by omega)] at hr
                  cases hr
          · rintro ⟨ttl', v'', h7, h8, h9⟩
            obtain ⟨h10, h11⟩ := (shows_iff (hv _)).1 h7
            rw [h8] at h10
            rw [h10] at hna ⊢
            rw [readS_live f h11] at hna ⊢
            split
            · rename_i hc
              rw [if_pos hc] at hna
              exact absurd rfl hna
            · rw [h9]
        have hscal : getScalar (during schema s (.scal j)) w.ts id =
            readS (·.scalar) (s (.scal j)).2 (decided (effTs w.ts) id (s (.scal j)).1) := getScalar_run
        have htab : getTable (during schema s (.tab j)) w.ts id =
            readS (·.table) (s (.tab j)).2 (decided (effTs w.ts) id (s (.tab j)).1) := getTable_run
        have hsel : ∀ x, select w.keys x = fieldsOf w x := by
          intro x
          unfold select fieldsOf
          by_cases hk : w.keys = []
          · simp [hk]
          · rw [if_neg (by simpa using hk), if_neg hk]
            simp
        -- the scalar data
        obtain ⟨e', h7, h8⟩ : ∃ e', scalarEntry (during schema s) w j
            { id := some id, vec := if w.vec then some v'.vec else none } = some e' ∧
            tableEntry (during schema s) w j e' = some e := by
          cases hx : scalarEntry (during schema s) w j
              { id := some id, vec := if w.vec then some v'.vec else none } with
          | none => rw [hx] at h6; cases h6
          | some e' => rw [hx] at h6; exact ⟨e', rfl, h6⟩
        have hA : e'.id = some id ∧ e'.vec = (if w.vec then some v'.vec else none) ∧ e'.table = none ∧
            (∀ sc, e'.scalar = some sc ↔
              w.scalar = true ∧ ∃ ttl' v', Shows (s (.scal j)).1 w.ts (s (.scal j)).2 ttl' v' ∧ v'.id = id ∧
                sc = fieldsOf w v'.scalar) := by
          unfold scalarEntry at h7
          by_cases hw : w.scalar = true
          · rw [if_pos hw] at h7
            dsimp only at h7
            rw [hscal] at h7
            cases hr : readS (·.scalar) (s (.scal j)).2 (decided (effTs w.ts) id (s (.scal j)).1) with
            | abort => rw [hr] at h7; cases h7
            | notFound =>
              rw [hr] at h7
              cases h7
              refine ⟨rfl, rfl, rfl, ?_⟩
              intro sc
              constructor
              · intro h; cases h
              · rintro ⟨_, ttl', v'', h9, h10, _⟩
                have := (rd (·.scalar) (.scal j) v''.scalar (by rw [hr]; intro h; cases h)).2 ⟨ttl', v'', h9, h10, rfl⟩
                rw [hr] at this
                cases this
            | value x =>
              rw [hr] at h7
              cases h7
              refine ⟨rfl, rfl, rfl, ?_⟩
              intro sc
              have hna : readS (·.scalar) (s (.scal j)).2 (decided (effTs w.ts) id (s (.scal j)).1) ≠ .abort := by
                rw [hr]; intro h; cases h
              constructor
              · intro h
                cases h
                obtain ⟨ttl', v'', h9, h10, h11⟩ := (rd (·.scalar) (.scal j) x hna).1 hr
                exact ⟨hw, ttl', v'', h9, h10, by rw [hsel, h11]⟩
              · rintro ⟨_, ttl', v'', h9, h10, h11⟩
                have := (rd (·.scalar) (.scal j) v''.scalar hna).2 ⟨ttl', v'', h9, h10, rfl⟩
                rw [hr] at this
                cases this
                rw [h11, ← hsel]
          · rw [if_neg hw] at h7
            cases h7
            exact ⟨rfl, rfl, rfl, fun sc => ⟨fun h => (by cases h), fun h => absurd h.1 hw⟩⟩
        -- the table data
        unfold tableEntry at h8
        by_cases hw : w.table = true
        · rw [if_pos hw, hA.1] at h8
          dsimp only at h8
          rw [htab] at h8
          cases hr : readS (·.table) (s (.tab j)).2 (decided (effTs w.ts) id (s (.tab j)).1) with
          | abort => rw [hr] at h8; cases h8
          | notFound =>
            rw [hr] at h8
            cases h8
            refine ⟨hA.1, hA.2.1, hA.2.2.2, ?_⟩
            intro tb
            constructor
            · intro h; rw [hA.2.2.1] at h; cases h
            · rintro ⟨_, ttl', v'', h9, h10, _⟩
              have := (rd (·.table) (.tab j) v''.table (by rw [hr]; intro h; cases h)).2 ⟨ttl', v'', h9, h10, rfl⟩
              rw [hr] at this
              cases this
          | value x =>
            rw [hr] at h8
            cases h8
            refine ⟨rfl, hA.2.1, hA.2.2.2, ?_⟩
            intro tb
            have hna : readS (·.table) (s (.tab j)).2 (decided (effTs w.ts) id (s (.tab j)).1) ≠ .abort := by
              rw [hr]; intro h; cases h
            constructor
            · intro h
              cases h
              obtain ⟨ttl', v'', h9, h10, h11⟩ := (rd (·.table) (.tab j) x hna).1 hr
              exact ⟨hw, ttl', v'', h9, h10, h11⟩
            · rintro ⟨_, ttl', v'', h9, h10, h11⟩
              have := (rd (·.table) (.tab j) v''.table hna).2 ⟨ttl', v'', h9, h10, rfl⟩
              rw [hr] at this
              cases this
              rw [h11]
        · rw [if_neg hw] at h8
          cases h8
          refine ⟨hA.1, hA.2.1, hA.2.2.2, ?_⟩
          intro tb
          rw [hA.2.2.1]
          exact ⟨fun h => (by cases h), fun h => absurd h.1 hw⟩
  · rw [h1] at h
    cases h

/-- C78. Reading at a timestamp is repeatable: what is written at later timestamps
while the query runs changes nothing. -/
theorem C78_stable {schema : List Field} {ops : List Op} {now : Int} {w : Want} (hw : 0 < w.ts)
    {s : Tick → List Op × Int} (hs : ∀ t, (s t).2 = now ∧ ∃ ext, (s t).1 = ops ++ ext ∧ ∀ o ∈ ext, w.ts < o.ts)
    (ids : List Int) : batchQuery (during schema s) w ids = batchQuery (quiet schema ops now) w ids := by
  have hT : effTs w.ts = w.ts := by unfold effTs; rw [if_pos hw]
  have hd : ∀ t id, decided (effTs w.ts) id (s t).1 = decided (effTs w.ts) id ops := by
    intro t id
    obtain ⟨_, ext, e, h⟩ := hs t
    rw [e]
    exact decided_append (by rw [hT]; exact h)
  have h1 : ∀ t id, getVec (during schema s t) w.ts id = getVec ⟨run schema ops, now⟩ w.ts id := by
    intro t id
    have : getVec (during schema s t) w.ts id = readS (·.vec) (s t).2 (decided (effTs w.ts) id (s t).1) := getVec_run
    rw [this, hd, (hs t).1, getVec_run]
  have h2 : ∀ t id, getScalar (during schema s t) w.ts id = getScalar ⟨run schema ops, now⟩ w.ts id := by
    intro t id
    have : getScalar (during schema s t) w.ts id = readS (·.scalar) (s t).2 (decided (effTs w.ts) id (s t).1) :=
      getScalar_run
    rw [this, hd, (hs t).1, getScalar_run]
  have h3 : ∀ t id, getTable (during schema s t) w.ts id = getTable ⟨run schema ops, now⟩ w.ts id := by
    intro t id
    have : getTable (during schema s t) w.ts id = readS (·.table) (s t).2 (decided (effTs w.ts) id (s t).1) :=
      getTable_run
    rw [this, hd, (hs t).1, getTable_run]
  have e1 : vecEntry (during schema s) w = vecEntry (quiet schema ops now) w := by
    funext i id
    unfold vecEntry
    rw [h1]
    rfl
  have e2 : scalarEntry (during schema s) w = scalarEntry (quiet schema ops now) w := by
    funext i e
    unfold scalarEntry
    simp only [h2]
    rfl
  have e3 : tableEntry (during schema s) w = tableEntry (quiet schema ops now) w := by
    funext i e
    unfold tableEntry
    simp only [h3]
    rfl
  unfold batchQuery
  rw [e1, e2, e3]

/-- A second version of vector 3. -/
def ops2 : List Op := ops1 ++ [.add 40 0 [⟨3, ⟨[9, 9]⟩, [(1, ⟨.int64, [1]⟩)], ⟨[6]⟩⟩]]

example : batchQuery (during [] fun t => if t = .vec 0 then (ops1, 50) else (ops2, 50)) { ts := 35 } [3] =
    .ok [{ id := some 3, vec := some ⟨[1, 2]⟩, scalar := some [(1, ⟨.int64, [8]⟩)], table := some ⟨[4]⟩ }] := by
  decide

/-- C78 at the newest state: an entry may mix two versions of a vector, the numbers
of one and the scalar data of another. -/
theorem C78_torn_false :
    ∃ s : Tick → List Op × Int, (∀ t, (s t).1 = ops1 ∨ (s t).1 = ops2) ∧
      batchQuery (during [] s) { table := false } [3] =
        .ok [{ id := some 3, vec := some ⟨[1, 2]⟩, scalar := some [(1, ⟨.int64, [1]⟩)] }] ∧
      ∀ ops, ops = ops1 ∨ ops = ops2 →
        batchQuery (quiet [] ops 50) { table := false } [3] ≠ batchQuery (during [] s) { table := false } [3] := by
  refine ⟨fun t => if t = .vec 0 then (ops1, 50) else (ops2, 50), ?_, by decide, ?_⟩
  · intro t
    dsimp only
    split
    · exact Or.inl rfl
    · exact Or.inr rfl
  · rintro ops (h | h) <;> subst h <;> decide

/-- C78. The key states of a delete tell which vectors there were when it was
received. -/
theorem C78_delete_states {schema : List Field} {ops : List Op} (hv : Valid schema ops) {now : Int} (ids : List Int) :
    ∃ bs, deleteStates ⟨run schema ops, now⟩ ids = some bs ∧ bs.length = ids.length ∧
      ∀ (j : Nat) (id : Int), ids[j]? = some id → (bs[j]? = some true ↔ Exists ops 0 now id) ∧
        (bs[j]? = some false ↔ ¬ Exists ops 0 now id) := by
  unfold deleteStates
  have key : ∀ id, (match getVec ⟨run schema ops, now⟩ 0 id with
      | .value _ => some true
      | .notFound => some false
      | .abort => none) = some (live now (decided (effTs 0) id ops)).isSome := by
    intro id
    rw [getVec_run, readS_vec]
    cases live now (decided (effTs 0) id ops) <;> rfl
  have hex : ∀ id, (live now (decided (effTs 0) id ops)).isSome = true ↔ Exists ops 0 now id := by
    intro id
    rw [Option.isSome_iff_exists]
    constructor
    · rintro ⟨v, h⟩
      obtain ⟨ttl, h1, h2⟩ := (live_iff hv).1 h
      exact ⟨ttl, v, h1, h2⟩
    · rintro ⟨ttl, v, h1, h2⟩
      exact ⟨v, (live_iff hv).2 ⟨ttl, h1, h2⟩⟩
  cases hl : loop (fun (_ : Nat) id =>
      match getVec ⟨run schema ops, now⟩ 0 id with
      | .value _ => some true
      | .notFound => some false
      | .abort => none) 0 ids with
  | none =>
    obtain ⟨j, id, _, h⟩ := loop_none.1 hl
    rw [key id] at h
    cases h
  | some bs =>
    obtain ⟨h1, h2⟩ := loop_some.1 hl
    refine ⟨bs, rfl, h1, ?_⟩
    intro j id hid
    obtain ⟨b, h3, h4⟩ := h2 j id hid
    rw [key id] at h4
    rw [h3]
    cases h4
    rw [← hex id]
    cases (live now (decided (effTs 0) id ops)).isSome <;> simp

example : deleteStates ⟨run [] ops1, 50⟩ [3, 4, 5, 7] = some [true, false, true, false] := by decide

end Verif.VecQuery
