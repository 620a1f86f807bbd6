import Verif.VecQuery.Rows

/-! # Rows of a history (lemmas) -/

namespace Verif.VecQuery

variable {α : Type}

/-- The rows a write leaves in a column family with one row per vector. -/
def wr (f : VecIn → α) : Op → List (Row α)
  | .add ts ttl vs => vs.map fun v => ⟨(v.id, 0), ts, verOf ttl (f v)⟩
  | .del ts ids => ids.map fun id => ⟨(id, 0), ts, .del⟩

/-- The rows a write leaves in the column family of single fields. -/
def fw (schema : List Field) : Op → List (Row SVal)
  | .add ts ttl vs => vs.flatMap fun v => (splitScalar schema v.scalar).map fun p => ⟨(v.id, p.1), ts, verOf ttl p.2⟩
  | .del ts ids => ids.flatMap fun id => (schema.filter (·.speedUp)).map fun f => ⟨(id, f.name), ts, .del⟩

theorem foldl_add (schema : List Field) (ts ttl : Int) : ∀ (vs : List VecIn) (d : Db),
    vs.foldl (addOne schema ts ttl) d =
      { data := puts d.data (wr (·.vec) (.add ts ttl vs))
        scalar := puts d.scalar (wr (·.scalar) (.add ts ttl vs))
        table := puts d.table (wr (·.table) (.add ts ttl vs))
        fast := puts d.fast (fw schema (.add ts ttl vs)) } := by
  intro vs
  induction vs with
  | nil => intro d; rfl
  | cons v vs ih =>
    intro d
    rw [List.foldl_cons, ih]
    have hf : puts d.fast (fw schema (.add ts ttl (v :: vs))) =
        puts (addOne schema ts ttl d v).fast (fw schema (.add ts ttl vs)) := by
      show puts d.fast (_ ++ _) = _
      rw [puts_append]
      congr 1
      unfold puts addOne
      rw [List.foldl_map]
    rw [hf]
    rfl

theorem foldl_del (schema : List Field) (ts : Int) : ∀ (ids : List Int) (d : Db),
    ids.foldl (delOne schema ts) d =
      { data := puts d.data (wr (fun v : VecIn => v.vec) (.del ts ids))
        scalar := puts d.scalar (wr (fun v : VecIn => v.scalar) (.del ts ids))
        table := puts d.table (wr (fun v : VecIn => v.table) (.del ts ids))
        fast := puts d.fast (fw schema (.del ts ids)) } := by
  intro ids
  induction ids with
  | nil => intro d; rfl
  | cons v vs ih =>
    intro d
    rw [List.foldl_cons, ih]
    have hf : puts d.fast (fw schema (.del ts (v :: vs))) =
        puts (delOne schema ts d v).fast (fw schema (.del ts vs)) := by
      show puts d.fast (_ ++ _) = _
      rw [puts_append]
      congr 1
      unfold puts delOne
      rw [List.foldl_map]
    rw [hf]
    rfl

theorem foldl_exec (schema : List Field) : ∀ (ops : List Op) (d : Db),
    ops.foldl (exec schema) d =
      { data := puts d.data (ops.flatMap (wr (·.vec)))
        scalar := puts d.scalar (ops.flatMap (wr (·.scalar)))
        table := puts d.table (ops.flatMap (wr (·.table)))
        fast := puts d.fast (ops.flatMap (fw schema)) } := by
  intro ops
  induction ops with
  | nil => intro d; rfl
  | cons o ops ih =>
    intro d
    rw [List.foldl_cons, ih]
    simp only [List.flatMap_cons, puts_append]
    cases o with
    | add ts ttl vs => simp only [exec, foldl_add]
    | del ts ids => simp only [exec, foldl_del]

theorem run_eq (schema : List Field) (ops : List Op) :
    run schema ops =
      { data := puts [] (ops.flatMap (wr (·.vec)))
        scalar := puts [] (ops.flatMap (wr (·.scalar)))
        table := puts [] (ops.flatMap (wr (·.table)))
        fast := puts [] (ops.flatMap (fw schema)) } := foldl_exec schema ops {}

theorem sorted_nil : Sorted ([] : Cf α) := List.Pairwise.nil

theorem data_sorted {schema : List Field} {ops : List Op} : Sorted (run schema ops).data := by
  rw [run_eq]; exact puts_sorted sorted_nil

theorem scalar_sorted {schema : List Field} {ops : List Op} : Sorted (run schema ops).scalar := by
  rw [run_eq]; exact puts_sorted sorted_nil

theorem fast_sorted {schema : List Field} {ops : List Op} : Sorted (run schema ops).fast := by
  rw [run_eq]; exact puts_sorted sorted_nil

/-! ## The write that decides -/

theorem upd_upd {T : Int} {k : Key} {cur : Option (Row α)} {v w : Row α} (h : v.ts = w.ts) (hk : v.key = w.key) :
    upd T k (upd T k cur v) w = upd T k cur w := by
  unfold upd
  by_cases h1 : v.key = k ∧ v.ts ≤ T ∧ (∀ r, cur = some r → r.ts ≤ v.ts)
  · rw [if_pos h1]
    have h2 : w.key = k ∧ w.ts ≤ T ∧ (∀ r, cur = some r → r.ts ≤ w.ts) := by rw [← h, ← hk]; exact h1
    rw [if_pos h2, if_pos]
    refine ⟨h2.1, h2.2.1, ?_⟩
    intro r hr
    cases hr
    exact Int.le_of_eq h
  · rw [if_neg h1]

/-- The version a write leaves for what it says. -/
def verS (f : VecIn → α) : Option (Int × VecIn) → Ver α
  | none => .del
  | some (ttl, v) => verOf ttl (f v)

theorem foldl_upd_map {β : Type} {T : Int} {k : Key} {ts : Int} (key : β → Key) (ver : β → Ver α) :
    ∀ (l : List β) (cur : Option (Row α)),
    (l.map fun b => (⟨key b, ts, ver b⟩ : Row α)).foldl (upd T k) cur =
      match l.reverse.find? fun b => decide (key b = k) with
      | none => cur
      | some b => upd T k cur ⟨k, ts, ver b⟩ := by
  intro l
  induction l with
  | nil => intro cur; rfl
  | cons b l ih =>
    intro cur
    rw [List.map_cons, List.foldl_cons, ih, List.reverse_cons, List.find?_append]
    cases he : l.reverse.find? fun b => decide (key b = k) with
    | none =>
      simp only [Option.none_or]
      by_cases hk : key b = k
      · rw [List.find?_cons_of_pos (by simpa using hk)]
        simp only [hk]
      · rw [List.find?_cons_of_neg (by simpa using hk)]
        simp only [List.find?_nil]
        exact upd_ne hk
    | some c =>
      simp only [Option.some_or]
      by_cases hk : key b = k
      · exact upd_upd (by rfl) hk
      · have e : upd T k cur (⟨key b, ts, ver b⟩ : Row α) = cur := upd_ne hk
        simp only [e]

theorem foldl_upd_wr (f : VecIn → α) {T : Int} {id : Int} (o : Op) (cur : Option (Row α)) :
    (wr f o).foldl (upd T (id, 0)) cur =
      match o.says id with
      | none => cur
      | some s => upd T (id, 0) cur ⟨(id, 0), o.ts, verS f s⟩ := by
  cases o with
  | add ts ttl vs =>
    unfold wr
    rw [foldl_upd_map (fun v : VecIn => (v.id, 0)) (fun v => verOf ttl (f v))]
    simp only [Op.says]
    have : (fun v : VecIn => decide (((v.id, 0) : Key) = (id, 0))) = fun v => decide (v.id = id) := by
      funext v
      simp
    rw [this]
    cases vs.reverse.find? fun v => decide (v.id = id) with
    | none => rfl
    | some v => rfl
  | del ts ids =>
    unfold wr
    rw [foldl_upd_map (fun i : Int => (i, 0)) (fun _ => Ver.del)]
    simp only [Op.says]
    by_cases h : id ∈ ids
    · rw [if_pos h]
      cases hf : ids.reverse.find? fun i : Int => decide (((i, 0) : Key) = (id, 0)) with
      | none =>
        exact absurd (List.find?_eq_none.1 hf id (List.mem_reverse.2 h)) (by simp)
      | some i => rfl
    · rw [if_neg h]
      cases hf : ids.reverse.find? fun i : Int => decide (((i, 0) : Key) = (id, 0)) with
      | none => rfl
      | some i =>
        have h1 := List.find?_some hf
        have h2 := List.mem_of_find?_eq_some hf
        simp only [Prod.mk.injEq, and_true, decide_eq_true_eq] at h1
        subst h1
        exact absurd (List.mem_reverse.1 h2) h

/-- One more write, for the write that decides. -/
def stepOp (T : Int) (id : Int) (cur : Option Op) (o : Op) : Option Op :=
  if o.says id ≠ none ∧ o.ts ≤ T ∧ (∀ o', cur = some o' → o'.ts ≤ o.ts) then some o else cur

/-- The write that decides. -/
def newest (T : Int) (id : Int) (ops : List Op) : Option Op := ops.foldl (stepOp T id) none

theorem newest_says {T : Int} {id : Int} : ∀ (ops : List Op) {cur : Option Op},
    (∀ o, cur = some o → o.says id ≠ none) → ∀ o, ops.foldl (stepOp T id) cur = some o → o.says id ≠ none := by
  intro ops
  induction ops with
  | nil => intro cur h o ho; exact h o ho
  | cons a ops ih =>
    intro cur h o ho
    refine ih ?_ o ho
    intro o' ho'
    unfold stepOp at ho'
    split at ho'
    · rename_i hc
      cases ho'
      exact hc.1
    · exact h o' ho'

/-- The row of a write. -/
def rowOf (f : VecIn → α) (id : Int) (o : Op) : Row α := ⟨(id, 0), o.ts, verS f ((o.says id).join)⟩

theorem top_wr (f : VecIn → α) {T : Int} {id : Int} : ∀ (ops : List Op) (cur : Option Op),
    (ops.flatMap (wr f)).foldl (upd T (id, 0)) (cur.map (rowOf f id)) =
      (ops.foldl (stepOp T id) cur).map (rowOf f id) := by
  intro ops
  induction ops with
  | nil => intro cur; rfl
  | cons o ops ih =>
    intro cur
    rw [List.flatMap_cons, List.foldl_append, List.foldl_cons, foldl_upd_wr, ← ih]
    congr 1
    unfold stepOp
    cases hs : o.says id with
    | none => rw [if_neg (by intro h; exact h.1 rfl)]
    | some s =>
      simp only [upd, ne_eq, reduceCtorEq, not_false_eq_true, true_and]
      by_cases hc : o.ts ≤ T ∧ ∀ o', cur = some o' → o'.ts ≤ o.ts
      · rw [if_pos hc, if_pos]
        · simp only [Option.map_some, rowOf, hs, Option.join_some]
        · refine ⟨hc.1, ?_⟩
          intro r hr
          cases cur with
          | none => cases hr
          | some o' => cases hr; exact hc.2 o' rfl
      · rw [if_neg hc, if_neg]
        intro h
        refine hc ⟨h.1, ?_⟩
        intro o' ho'
        subst ho'
        exact h.2 _ rfl

theorem top_run (f : VecIn → α) {T : Int} {id : Int} (ops : List Op) :
    top T (id, 0) (puts [] (ops.flatMap (wr f))) = (newest T id ops).map (rowOf f id) := by
  rw [top_puts sorted_nil]
  exact top_wr f ops none

/-- What was decided about a vector: its time of expiry and the vector. -/
def decided (T : Int) (id : Int) (ops : List Op) : Option (Int × VecIn) :=
  (newest T id ops).bind fun o => (o.says id).join

/-- What a read makes of it. -/
def readS [Blob α] (f : VecIn → α) (now : Int) : Option (Int × VecIn) → Get α
  | none => .notFound
  | some (ttl, v) =>
    if ttl = 0 then .value (f v)
    else if Blob.empty (f v) then .abort else if ttl < now then .notFound else .value (f v)

theorem seen_rowOf [Blob α] (f : VecIn → α) {T now : Int} {id : Int} {ops : List Op} :
    seen now ((newest T id ops).map (rowOf f id)) = readS f now (decided T id ops) := by
  unfold decided
  cases newest T id ops with
  | none => rfl
  | some o =>
    simp only [Option.map_some, Option.bind_some, rowOf, seen]
    generalize (o.says id).join = s
    cases s with
    | none => rfl
    | some p =>
      obtain ⟨ttl, v⟩ := p
      unfold verS verOf readS
      by_cases h : ttl = 0
      · simp only [h, if_true]
      · simp only [h, if_false]

theorem get_run [Blob α] (f : VecIn → α) {now ts : Int} {id : Int} {ops : List Op} :
    kvGet (puts [] (ops.flatMap (wr f))) now ts (id, 0) = readS f now (decided (effTs ts) id ops) := by
  rw [kvGet_eq, top_run, seen_rowOf]

theorem getVec_run {schema : List Field} {ops : List Op} {now ts : Int} {id : Int} :
    getVec ⟨run schema ops, now⟩ ts id = readS (·.vec) now (decided (effTs ts) id ops) := by
  unfold getVec
  rw [run_eq]
  exact get_run (·.vec)

theorem getScalar_run {schema : List Field} {ops : List Op} {now ts : Int} {id : Int} :
    getScalar ⟨run schema ops, now⟩ ts id = readS (·.scalar) now (decided (effTs ts) id ops) := by
  unfold getScalar
  rw [run_eq]
  exact get_run (·.scalar)

theorem getTable_run {schema : List Field} {ops : List Op} {now ts : Int} {id : Int} :
    getTable ⟨run schema ops, now⟩ ts id = readS (·.table) now (decided (effTs ts) id ops) := by
  unfold getTable
  rw [run_eq]
  exact get_run (·.table)

/-! ## The specification -/

theorem before_iff {ts : Int} {o : Op} (h : o.ts < 2 ^ 63) : o.before ts ↔ o.ts ≤ effTs ts := by
  unfold Op.before effTs
  split <;> constructor <;> intro h' <;> omega

theorem Op.Valid.ts {schema : List Field} {o : Op} (h : o.Valid schema) : o.ts < 2 ^ 63 := by
  cases o with
  | add ts ttl vs => exact h.1
  | del ts ids => exact h.1

theorem foldl_newest {T : Int} {id : Int} : ∀ (ops : List Op) (cur : Option Op) (o : Op),
    (ops.foldl (stepOp T id) cur = some o ↔
      (cur = some o ∧ ∀ o' ∈ ops, o'.says id ≠ none → o'.ts ≤ T → o'.ts < o.ts) ∨
      (o.says id ≠ none ∧ o.ts ≤ T ∧ (∀ o', cur = some o' → o'.ts ≤ o.ts) ∧
        ∃ a b, ops = a ++ o :: b ∧ (∀ o' ∈ a, o'.says id ≠ none → o'.ts ≤ T → o'.ts ≤ o.ts) ∧
          (∀ o' ∈ b, o'.says id ≠ none → o'.ts ≤ T → o'.ts < o.ts))) := by
  intro ops
  induction ops with
  | nil =>
    intro cur o
    constructor
    · intro h; exact Or.inl ⟨h, by intro o' h; cases h⟩
    · rintro (h | ⟨_, _, _, a, b, h, _⟩)
      · exact h.1
      · cases a <;> cases h
  | cons x ops ih =>
    intro cur o
    rw [List.foldl_cons, ih]
    by_cases hc : x.says id ≠ none ∧ x.ts ≤ T ∧ (∀ o', cur = some o' → o'.ts ≤ x.ts)
    · have hst : stepOp T id cur x = some x := if_pos hc
      rw [hst]
      constructor
      · rintro (⟨h, h2⟩ | ⟨h1, h2, h3, a, b, h4, h5, h6⟩)
        · cases h
          exact Or.inr ⟨hc.1, hc.2.1, hc.2.2, [], ops, rfl, (by intro o' h; cases h), h2⟩
        · refine Or.inr ⟨h1, h2, ?_, x :: a, b, by rw [h4]; rfl, ?_, h6⟩
          · intro o' ho'
            exact Int.le_trans (hc.2.2 o' ho') (h3 x rfl)
          · intro o' ho' hs ht
            rcases List.mem_cons.1 ho' with e | e
            · exact e ▸ h3 x rfl
            · exact h5 o' e hs ht
      · rintro (⟨h, h2⟩ | ⟨h1, h2, h3, a, b, h4, h5, h6⟩)
        · exfalso
          have e1 := h2 x List.mem_cons_self hc.1 hc.2.1
          have e2 := hc.2.2 o h
          omega
        · cases a with
          | nil =>
            cases h4
            exact Or.inl ⟨rfl, h6⟩
          | cons y a =>
            cases h4
            refine Or.inr ⟨h1, h2, ?_, a, b, rfl, fun o' h => h5 o' (List.mem_cons_of_mem _ h), h6⟩
            intro o' ho'
            cases ho'
            exact h5 x List.mem_cons_self hc.1 hc.2.1
    · have hst : stepOp T id cur x = cur := if_neg hc
      rw [hst]
      constructor
      · rintro (⟨h, h2⟩ | ⟨h1, h2, h3, a, b, h4, h5, h6⟩)
        · refine Or.inl ⟨h, ?_⟩
          intro o' ho' hs ht
          rcases List.mem_cons.1 ho' with e | e
          · subst e
            by_cases hlt : o'.ts < o.ts
            · exact hlt
            · exfalso
              refine hc ⟨hs, ht, ?_⟩
              intro p hp
              rw [h] at hp
              cases hp
              omega
          · exact h2 o' e hs ht
        · refine Or.inr ⟨h1, h2, h3, x :: a, b, by rw [h4]; rfl, ?_, h6⟩
          intro o' ho' hs ht
          rcases List.mem_cons.1 ho' with e | e
          · subst e
            by_cases hle : o'.ts ≤ o.ts
            · exact hle
            · exfalso
              refine hc ⟨hs, ht, ?_⟩
              intro p hp
              have := h3 p hp
              omega
          · exact h5 o' e hs ht
      · rintro (⟨h, h2⟩ | ⟨h1, h2, h3, a, b, h4, h5, h6⟩)
        · exact Or.inl ⟨h, fun o' h => h2 o' (List.mem_cons_of_mem _ h)⟩
        · cases a with
          | nil => cases h4; exact absurd ⟨h1, h2, h3⟩ hc
          | cons y a =>
            cases h4
            exact Or.inr ⟨h1, h2, h3, a, b, rfl, fun o' h => h5 o' (List.mem_cons_of_mem _ h), h6⟩

theorem decides_iff {schema : List Field} {ops : List Op} (hv : Valid schema ops) {ts : Int} {id : Int} {o : Op} :
    Decides ops ts id o ↔ newest (effTs ts) id ops = some o := by
  unfold newest Decides
  rw [foldl_newest]
  have hb : ∀ o' ∈ ops, (o'.before ts ↔ o'.ts ≤ effTs ts) := fun o' h => before_iff (hv o' h).ts
  constructor
  · rintro ⟨h1, h2, a, b, h3, h4, h5⟩
    refine Or.inr ⟨h1, ?_, (by intro o' h; cases h), a, b, h3, ?_, ?_⟩
    · exact (hb o (by rw [h3]; simp)).1 h2
    · intro o' ho' hs ht
      exact h4 o' ho' hs ((hb o' (by rw [h3]; simp [ho'])).2 ht)
    · intro o' ho' hs ht
      exact h5 o' ho' hs ((hb o' (by rw [h3]; simp [ho'])).2 ht)
  · rintro (⟨h, _⟩ | ⟨h1, h2, _, a, b, h3, h4, h5⟩)
    · cases h
    · refine ⟨h1, (hb o (by rw [h3]; simp)).2 h2, a, b, h3, ?_, ?_⟩
      · intro o' ho' hs ht
        exact h4 o' ho' hs ((hb o' (by rw [h3]; simp [ho'])).1 ht)
      · intro o' ho' hs ht
        exact h5 o' ho' hs ((hb o' (by rw [h3]; simp [ho'])).1 ht)

theorem says_id {id : Int} {o : Op} {ttl : Int} {v : VecIn} (h : o.says id = some (some (ttl, v))) : v.id = id := by
  cases o with
  | add ts ttl' vs =>
    simp only [Op.says] at h
    cases hf : vs.reverse.find? fun v => decide (v.id = id) with
    | none => rw [hf] at h; cases h
    | some w =>
      rw [hf] at h
      cases h
      simpa using List.find?_some hf
  | del ts ids =>
    simp only [Op.says] at h
    split at h <;> cases h

theorem says_mem {id : Int} {o : Op} {ttl : Int} {v : VecIn} (h : o.says id = some (some (ttl, v))) :
    ∃ ts vs, o = .add ts ttl vs ∧ v ∈ vs := by
  cases o with
  | add ts ttl' vs =>
    simp only [Op.says] at h
    cases hf : vs.reverse.find? fun v => decide (v.id = id) with
    | none => rw [hf] at h; cases h
    | some w =>
      rw [hf] at h
      cases h
      exact ⟨ts, vs, rfl, List.mem_reverse.1 (List.mem_of_find?_eq_some hf)⟩
  | del ts ids =>
    simp only [Op.says] at h
    split at h <;> cases h

theorem decided_some {T : Int} {id : Int} {ops : List Op} {ttl : Int} {v : VecIn} :
    decided T id ops = some (ttl, v) ↔
      ∃ o, newest T id ops = some o ∧ o.says id = some (some (ttl, v)) := by
  unfold decided
  cases newest T id ops with
  | none =>
    simp
  | some o =>
    simp only [Option.bind_some, Option.some.injEq, exists_eq_left']
    cases o.says id with
    | none => simp
    | some s => simp

theorem decided_id {T : Int} {id : Int} {ops : List Op} {ttl : Int} {v : VecIn}
    (h : decided T id ops = some (ttl, v)) : v.id = id := by
  obtain ⟨o, _, h⟩ := decided_some.1 h
  exact says_id h

theorem foldl_mem {T : Int} {id : Int} : ∀ {ops : List Op} {cur : Option Op} {o : Op},
    ops.foldl (stepOp T id) cur = some o → cur = some o ∨ o ∈ ops := by
  intro ops cur o h
  rcases (foldl_newest ops cur o).1 h with h | ⟨_, _, _, a, b, h, _⟩
  · exact Or.inl h.1
  · exact Or.inr (by rw [h]; simp)

theorem decided_mem {T : Int} {id : Int} {ops : List Op} {ttl : Int} {v : VecIn}
    (h : decided T id ops = some (ttl, v)) : ∃ ts vs, Op.add ts ttl vs ∈ ops ∧ v ∈ vs := by
  obtain ⟨o, h1, h2⟩ := decided_some.1 h
  obtain ⟨ts, vs, e, hv⟩ := says_mem h2
  subst e
  rcases foldl_mem h1 with e | e
  · cases e
  · exact ⟨ts, vs, e, hv⟩

theorem shows_iff {schema : List Field} {ops : List Op} (hv : Valid schema ops) {ts now ttl : Int} {v : VecIn} :
    Shows ops ts now ttl v ↔ decided (effTs ts) v.id ops = some (ttl, v) ∧ (ttl = 0 ∨ now ≤ ttl) := by
  unfold Shows
  rw [decided_some]
  constructor
  · rintro ⟨⟨o, h1, h2⟩, h3⟩
    exact ⟨⟨o, (decides_iff hv).1 h1, h2⟩, h3⟩
  · rintro ⟨⟨o, h1, h2⟩, h3⟩
    exact ⟨⟨o, (decides_iff hv).2 h1, h2⟩, h3⟩

/-- A vector is there at the time `now`. -/
def live (now : Int) : Option (Int × VecIn) → Option VecIn
  | none => none
  | some (ttl, v) => if ttl = 0 ∨ now ≤ ttl then some v else none

theorem live_iff {schema : List Field} {ops : List Op} (hv : Valid schema ops) {ts now : Int} {id : Int} {v : VecIn} :
    live now (decided (effTs ts) id ops) = some v ↔ ∃ ttl, Shows ops ts now ttl v ∧ v.id = id := by
  constructor
  · intro h
    cases hd : decided (effTs ts) id ops with
    | none => rw [hd] at h; cases h
    | some p =>
      obtain ⟨ttl, w⟩ := p
      rw [hd] at h
      unfold live at h
      dsimp only at h
      split at h
      · rename_i hl
        cases h
        refine ⟨ttl, (shows_iff hv).2 ⟨?_, hl⟩, decided_id hd⟩
        rw [decided_id hd, hd]
      · cases h
  · rintro ⟨ttl, h, e⟩
    obtain ⟨h1, h2⟩ := (shows_iff hv).1 h
    rw [e] at h1
    rw [h1]
    exact if_pos h2

theorem readS_vec {now : Int} {s : Option (Int × VecIn)} :
    readS (fun v : VecIn => v.vec) now s =
      match live now s with
      | none => .notFound
      | some v => .value v.vec := by
  cases s with
  | none => rfl
  | some p =>
    obtain ⟨ttl, v⟩ := p
    unfold readS live
    by_cases h : ttl = 0
    · simp only [h, if_true, true_or]
    · simp only [h, if_false, false_or]
      have hb : Blob.empty v.vec = false := rfl
      simp only [hb, Bool.false_eq_true, if_false]
      by_cases h' : ttl < now
      · rw [if_pos h', if_neg (by omega)]
      · rw [if_neg h', if_pos (by omega)]

theorem readS_live [Blob α] (f : VecIn → α) {now : Int} {ttl : Int} {v : VecIn} (h : ttl = 0 ∨ now ≤ ttl) :
    readS f now (some (ttl, v)) = if ttl ≠ 0 ∧ Blob.empty (f v) = true then .abort else .value (f v) := by
  unfold readS
  by_cases h0 : ttl = 0
  · simp [h0]
  · have h1 : ¬ ttl < now := by omega
    simp only [h0, if_false, h1, ne_eq, not_false_eq_true, true_and]

end Verif.VecQuery
