import Verif.VecQuery.Iter

/-! # Queries by id (lemmas) -/

namespace Verif.VecQuery

theorem loop_some {α β : Type} {f : Nat → α → Option β} : ∀ {as : List α} {i : Nat} {bs : List β},
    loop f i as = some bs ↔
      bs.length = as.length ∧ ∀ (j : Nat) (a : α), as[j]? = some a → ∃ b, bs[j]? = some b ∧ f (i + j) a = some b := by
  intro as
  induction as with
  | nil =>
    intro i bs
    constructor
    · intro h
      cases h
      exact ⟨rfl, by intro j a h; cases h⟩
    · rintro ⟨h, _⟩
      rw [List.eq_nil_of_length_eq_zero h]
      rfl
  | cons a as ih =>
    intro i bs
    unfold loop
    constructor
    · intro h
      cases hf : f i a with
      | none => rw [hf] at h; cases h
      | some b =>
        rw [hf] at h
        dsimp only at h
        cases hl : loop f (i + 1) as with
        | none => rw [hl] at h; cases h
        | some bs' =>
          rw [hl] at h
          cases h
          obtain ⟨h1, h2⟩ := ih.1 hl
          refine ⟨by rw [List.length_cons, List.length_cons, h1], ?_⟩
          intro j x hx
          cases j with
          | zero => cases hx; exact ⟨b, rfl, hf⟩
          | succ j =>
            obtain ⟨y, h3, h4⟩ := h2 j x hx
            exact ⟨y, h3, by rw [show i + (j + 1) = i + 1 + j from by omega]; exact h4⟩
    · rintro ⟨h1, h2⟩
      cases bs with
      | nil => cases h1
      | cons b bs =>
        obtain ⟨b', h3, h4⟩ := h2 0 a rfl
        cases h3
        have hl : loop f (i + 1) as = some bs := by
          refine ih.2 ⟨Nat.succ.inj h1, ?_⟩
          intro j x hx
          obtain ⟨y, h5, h6⟩ := h2 (j + 1) x hx
          exact ⟨y, h5, by rw [show i + 1 + j = i + (j + 1) from by omega]; exact h6⟩
        have h4' : f i a = some b := h4
        rw [h4', hl]

theorem loop_none {α β : Type} {f : Nat → α → Option β} : ∀ {as : List α} {i : Nat},
    loop f i as = none ↔ ∃ (j : Nat) (a : α), as[j]? = some a ∧ f (i + j) a = none := by
  intro as
  induction as with
  | nil =>
    intro i
    constructor
    · intro h; cases h
    · rintro ⟨j, a, h, _⟩; cases h
  | cons a as ih =>
    intro i
    unfold loop
    cases hf : f i a with
    | none =>
      constructor
      · intro _; exact ⟨0, a, rfl, hf⟩
      · intro _; rfl
    | some b =>
      dsimp only
      cases hl : loop f (i + 1) as with
      | none =>
        obtain ⟨j, x, h1, h2⟩ := ih.1 hl
        constructor
        · intro _
          exact ⟨j + 1, x, h1, by rw [show i + (j + 1) = i + 1 + j from by omega]; exact h2⟩
        · intro _; rfl
      | some bs =>
        constructor
        · intro h; cases h
        · rintro ⟨j, x, h1, h2⟩
          cases j with
          | zero =>
            cases h1
            rw [Nat.add_zero, hf] at h2
            cases h2
          | succ j =>
            have : loop f (i + 1) as = none :=
              ih.2 ⟨j, x, h1, by rw [show i + 1 + j = i + (j + 1) from by omega]; exact h2⟩
            rw [hl] at this
            cases this

/-- All that is done for one id. -/
def full (ws : Worlds) (w : Want) (j : Nat) (id : Int) : Option Entry :=
  ((vecEntry ws w j id).bind (scalarEntry ws w j)).bind (tableEntry ws w j)

theorem batch_cases (ws : Worlds) (w : Want) (ids : List Int) :
    (∃ es, batchQuery ws w ids = .ok es ∧ loop (full ws w) 0 ids = some es) ∨
      (batchQuery ws w ids = .abort ∧ loop (full ws w) 0 ids = none) := by
  unfold batchQuery
  cases h1 : loop (vecEntry ws w) 0 ids with
  | none =>
    obtain ⟨j, a, e1, e2⟩ := loop_none.1 h1
    refine Or.inr ⟨rfl, loop_none.2 ⟨j, a, e1, ?_⟩⟩
    unfold full
    rw [e2]
    rfl
  | some es =>
    dsimp only
    obtain ⟨l1, p1⟩ := loop_some.1 h1
    cases h2 : loop (scalarEntry ws w) 0 es with
    | none =>
      obtain ⟨j, a, e1, e2⟩ := loop_none.1 h2
      have hj : j < ids.length := by
        have := (List.getElem?_eq_some_iff.1 e1).1
        omega
      obtain ⟨b, e3, e4⟩ := p1 j ids[j] (List.getElem?_eq_getElem hj)
      rw [e1] at e3
      cases e3
      refine Or.inr ⟨rfl, loop_none.2 ⟨j, ids[j], List.getElem?_eq_getElem hj, ?_⟩⟩
      unfold full
      rw [e4, Option.bind_some, e2]
      rfl
    | some es' =>
      dsimp only
      obtain ⟨l2, p2⟩ := loop_some.1 h2
      cases h3 : loop (tableEntry ws w) 0 es' with
      | none =>
        obtain ⟨j, a, e1, e2⟩ := loop_none.1 h3
        have hj : j < es.length := by
          have := (List.getElem?_eq_some_iff.1 e1).1
          omega
        obtain ⟨b, e3, e4⟩ := p2 j es[j] (List.getElem?_eq_getElem hj)
        rw [e1] at e3
        cases e3
        have hj' : j < ids.length := by omega
        obtain ⟨c, e5, e6⟩ := p1 j ids[j] (List.getElem?_eq_getElem hj')
        rw [List.getElem?_eq_getElem hj] at e5
        refine Or.inr ⟨rfl, loop_none.2 ⟨j, ids[j], List.getElem?_eq_getElem hj', ?_⟩⟩
        unfold full
        rw [e6, Option.bind_some]
        cases e5
        rw [e4, Option.bind_some]
        exact e2
      | some es'' =>
        obtain ⟨l3, p3⟩ := loop_some.1 h3
        refine Or.inl ⟨es'', rfl, loop_some.2 ⟨by omega, ?_⟩⟩
        intro j id hid
        obtain ⟨e, e1, e2⟩ := p1 j id hid
        obtain ⟨e', e3, e4⟩ := p2 j e e1
        obtain ⟨e'', e5, e6⟩ := p3 j e' e3
        refine ⟨e'', e5, ?_⟩
        unfold full
        rw [e2, Option.bind_some, e4, Option.bind_some]
        exact e6

/-- What is done for one id when nothing changes meanwhile. -/
theorem full_quiet {schema : List Field} {ops : List Op} {now : Int} {w : Want} {j : Nat} {id : Int} :
    full (quiet schema ops now) w j id =
      match decided (effTs w.ts) id ops with
      | none => some {}
      | some (ttl, v) =>
        if ttl = 0 ∨ now ≤ ttl then
          if ttl ≠ 0 ∧ (w.scalar = true ∧ v.scalar = [] ∨ w.table = true ∧ v.table.bytes = []) then none
          else some (entryOf w v)
        else some {} := by
  unfold full vecEntry
  have hv : getVec (quiet schema ops now (.vec j)) w.ts id = readS (·.vec) now (decided (effTs w.ts) id ops) :=
    getVec_run
  rw [hv, readS_vec]
  cases hd : decided (effTs w.ts) id ops with
  | none =>
    simp only [live, Option.bind_some, scalarEntry, tableEntry, ite_self]
  | some p =>
    obtain ⟨ttl, v⟩ := p
    have hid := decided_id hd
    unfold live
    dsimp only
    by_cases hl : ttl = 0 ∨ now ≤ ttl
    · rw [if_pos hl, if_pos hl]
      dsimp only
      rw [Option.bind_some]
      have hs : getScalar (quiet schema ops now (.scal j)) w.ts id = readS (·.scalar) now (some (ttl, v)) := by
        rw [← hd]; exact getScalar_run
      have ht : getTable (quiet schema ops now (.tab j)) w.ts id = readS (·.table) now (some (ttl, v)) := by
        rw [← hd]; exact getTable_run
      rw [readS_live _ hl] at hs ht
      have e1 : Blob.empty v.scalar = true ↔ v.scalar = [] := List.isEmpty_iff
      have e2 : Blob.empty v.table = true ↔ v.table.bytes = [] := List.isEmpty_iff
      have hsel : select w.keys v.scalar =
          if w.keys = [] then v.scalar else v.scalar.filter fun p => decide (p.1 ∈ w.keys) := by
        unfold select
        by_cases hk : w.keys = []
        · simp [hk]
        · rw [if_neg (by simpa using hk), if_neg hk]
          simp
      unfold scalarEntry tableEntry entryOf
      rw [← hsel]
      subst hid
      cases w.scalar <;> cases w.table <;>
        simp only [Bool.false_eq_true, if_false, false_and, or_false, false_or, if_true, true_and, and_false,
          Option.bind_some, hs, ht, e1, e2]
      · by_cases c : ttl ≠ 0 ∧ v.table.bytes = []
        · simp [c]
        · simp only [c, if_false]
      · by_cases c : ttl ≠ 0 ∧ v.scalar = []
        · simp [c]
        · simp only [c, if_false, Option.bind_some]
      · by_cases c : ttl ≠ 0 ∧ v.scalar = []
        · simp [c]
        · by_cases c' : ttl ≠ 0 ∧ v.table.bytes = []
          · simp only [c, if_false, Option.bind_some, c', if_true]
            simp [ht, e2, c'.1, c'.2]
          · have c2 : ¬ (ttl ≠ 0 ∧ (v.scalar = [] ∨ v.table.bytes = [])) := by
              rintro ⟨h0, h | h⟩
              · exact c ⟨h0, h⟩
              · exact c' ⟨h0, h⟩
            simp only [c, if_false, Option.bind_some, c2, ht, e2, c']
    · rw [if_neg hl, if_neg hl]
      simp only [Option.bind_some, scalarEntry, tableEntry, ite_self]

theorem decided_append {T : Int} {id : Int} {ops ext : List Op} (h : ∀ o ∈ ext, T < o.ts) :
    decided T id (ops ++ ext) = decided T id ops := by
  unfold decided newest
  rw [List.foldl_append]
  congr 1
  generalize ops.foldl (stepOp T id) none = cur
  induction ext with
  | nil => rfl
  | cons o ext ih =>
    rw [List.foldl_cons]
    have : stepOp T id cur o = cur := by
      unfold stepOp
      rw [if_neg]
      intro h'
      have := h o List.mem_cons_self
      omega
    rw [this]
    exact ih (fun o ho => h o (List.mem_cons_of_mem _ ho))

end Verif.VecQuery
