import Verif.VecQuery.PropsScan

/-! # Scalar filters (lemmas) -/

namespace Verif.VecQuery

/-- The row a write leaves at the key of a field. -/
def rowF (f : VecIn → SVal) (id : Int) (n : Nat) (o : Op) : Row SVal := ⟨(id, n), o.ts, verS f ((o.says id).join)⟩

/-- The value of a field of a vector. -/
def val (n : Nat) (v : VecIn) : SVal := (v.scalar.lookup n).getD ⟨.none, []⟩

/-- `n` is a field with rows of its own. -/
def Speeds (schema : List Field) (n : Nat) : Prop := ∃ f ∈ schema, f.speedUp = true ∧ f.name = n

theorem split_mem {schema : List Field} {s : Scalar} {n : Nat} {x : SVal} :
    (n, x) ∈ splitScalar schema s ↔ Speeds schema n ∧ s.lookup n = some x := by
  unfold splitScalar Speeds
  rw [List.mem_filterMap]
  constructor
  · rintro ⟨f, hf, h⟩
    by_cases hs : f.speedUp = true
    · rw [if_pos hs] at h
      cases hl : s.lookup f.name with
      | none => rw [hl] at h; cases h
      | some y =>
        rw [hl] at h
        cases h
        exact ⟨⟨f, hf, hs, rfl⟩, hl⟩
    · rw [if_neg hs] at h
      cases h
  · rintro ⟨⟨f, hf, hs, e⟩, h⟩
    subst e
    exact ⟨f, hf, by rw [if_pos hs, h]; rfl⟩

theorem valid_lookup {schema : List Field} {s : Scalar} (h : validScalar schema s = true) {n : Nat}
    (hn : Speeds schema n) : ∃ x, s.lookup n = some x := by
  obtain ⟨f, hf, hs, e⟩ := hn
  subst e
  unfold validScalar at h
  have := List.all_eq_true.1 h f hf
  cases hl : s.lookup f.name with
  | none => rw [hl] at this; simp [hs] at this
  | some x => exact ⟨x, rfl⟩

theorem upd_one {schema : List Field} {T ts ttl : Int} {id : Int} {n : Nat} {v : VecIn}
    (hv : validScalar schema v.scalar = true) (hn : Speeds schema n) (cur : Option (Row SVal)) :
    ((splitScalar schema v.scalar).map fun p => (⟨(v.id, p.1), ts, verOf ttl p.2⟩ : Row SVal)).foldl (upd T (id, n)) cur =
      upd T (id, n) cur ⟨(v.id, n), ts, verOf ttl (val n v)⟩ := by
  obtain ⟨x, hx⟩ := valid_lookup hv hn
  have hval : val n v = x := by unfold val; rw [hx]; rfl
  rw [foldl_upd_map (fun p : Nat × SVal => (v.id, p.1)) (fun p => verOf ttl p.2), hval]
  cases hf : (splitScalar schema v.scalar).reverse.find? fun b => decide (((v.id, b.1) : Key) = (id, n)) with
  | none =>
    have h := List.find?_eq_none.1 hf (n, x) (List.mem_reverse.2 (split_mem.2 ⟨hn, hx⟩))
    simp only [Prod.mk.injEq, and_true, decide_eq_true_eq] at h
    exact (upd_ne (fun e => h (congrArg Prod.fst e))).symm
  | some p =>
    obtain ⟨m, y⟩ := p
    have h1 := List.find?_some hf
    simp only [Prod.mk.injEq, decide_eq_true_eq] at h1
    obtain ⟨e1, e2⟩ := h1
    subst e1; subst e2
    have h2 := (split_mem.1 (List.mem_reverse.1 (List.mem_of_find?_eq_some hf))).2
    rw [hx] at h2
    cases h2
    rfl

theorem foldl_upd_fw {schema : List Field} {T : Int} {id : Int} {n : Nat} (hn : Speeds schema n) {o : Op}
    (ho : o.Valid schema) (cur : Option (Row SVal)) :
    (fw schema o).foldl (upd T (id, n)) cur =
      match o.says id with
      | none => cur
      | some s => upd T (id, n) cur ⟨(id, n), o.ts, verS (val n) s⟩ := by
  cases o with
  | add ts ttl vs =>
    have h1 : ∀ (vs : List VecIn) (cur : Option (Row SVal)), (∀ v ∈ vs, validScalar schema v.scalar = true) →
        (fw schema (.add ts ttl vs)).foldl (upd T (id, n)) cur =
        (vs.map fun v => (⟨(v.id, n), ts, verOf ttl (val n v)⟩ : Row SVal)).foldl (upd T (id, n)) cur := by
      intro vs
      induction vs with
      | nil => intro cur _; rfl
      | cons v vs ih =>
        intro cur h
        show (_ ++ _ : List (Row SVal)).foldl _ _ = _
        rw [List.foldl_append, upd_one (h v List.mem_cons_self) hn, List.map_cons, List.foldl_cons]
        exact ih _ (fun v hv => h v (List.mem_cons_of_mem _ hv))
    rw [h1 vs cur (fun v hv => (ho.2.2 v hv).2.2),
      foldl_upd_map (fun v : VecIn => (v.id, n)) (fun v => verOf ttl (val n v))]
    simp only [Op.says]
    have : (fun v : VecIn => decide (((v.id, n) : Key) = (id, n))) = fun v => decide (v.id = id) := by
      funext v
      simp
    rw [this]
    cases vs.reverse.find? fun v => decide (v.id = id) with
    | none => rfl
    | some v => rfl
  | del ts ids =>
    have h1 : ∀ (fs : List Field) (i : Int) (cur : Option (Row SVal)), (∃ f ∈ fs, f.name = n) →
        (fs.map fun f => (⟨(i, f.name), ts, .del⟩ : Row SVal)).foldl (upd T (id, n)) cur =
        upd T (id, n) cur ⟨(i, n), ts, .del⟩ := by
      intro fs i cur hfs
      rw [foldl_upd_map (fun f : Field => (i, f.name)) (fun _ => Ver.del)]
      cases hf : fs.reverse.find? fun b : Field => decide (((i, b.name) : Key) = (id, n)) with
      | none =>
        obtain ⟨f, hf1, hf2⟩ := hfs
        have h := List.find?_eq_none.1 hf f (List.mem_reverse.2 hf1)
        simp only [hf2, Prod.mk.injEq, and_true, decide_eq_true_eq] at h
        exact (upd_ne (fun e => h (congrArg Prod.fst e))).symm
      | some p =>
        have h := List.find?_some hf
        simp only [Prod.mk.injEq, decide_eq_true_eq] at h
        rw [h.1]
    have h2 : ∃ f ∈ schema.filter (·.speedUp), f.name = n := by
      obtain ⟨f, hf, hs, e⟩ := hn
      exact ⟨f, List.mem_filter.2 ⟨hf, hs⟩, e⟩
    have h3 : ∀ (ids : List Int) (cur : Option (Row SVal)),
        (fw schema (.del ts ids)).foldl (upd T (id, n)) cur =
        (ids.map fun i => (⟨(i, n), ts, .del⟩ : Row SVal)).foldl (upd T (id, n)) cur := by
      intro ids
      induction ids with
      | nil => intro cur; rfl
      | cons i ids ih =>
        intro cur
        show (_ ++ _ : List (Row SVal)).foldl _ _ = _
        rw [List.foldl_append, h1 _ i _ h2, List.map_cons, List.foldl_cons]
        exact ih _
    rw [h3, foldl_upd_map (fun i : Int => (i, n)) (fun _ => Ver.del)]
    simp only [Op.says]
    by_cases h : id ∈ ids
    · rw [if_pos h]
      cases hf : ids.reverse.find? fun i : Int => decide (((i, n) : Key) = (id, n)) with
      | none =>
        exact absurd (List.find?_eq_none.1 hf id (List.mem_reverse.2 h)) (by simp)
      | some i => rfl
    · rw [if_neg h]
      cases hf : ids.reverse.find? fun i : Int => decide (((i, n) : Key) = (id, n)) with
      | none => rfl
      | some i =>
        have h1 := List.find?_some hf
        have h2 := List.mem_of_find?_eq_some hf
        simp only [Prod.mk.injEq, and_true, decide_eq_true_eq] at h1
        subst h1
        exact absurd (List.mem_reverse.1 h2) h

theorem top_fw {schema : List Field} {T : Int} {id : Int} {n : Nat} (hn : Speeds schema n) :
    ∀ (ops : List Op) (cur : Option Op), Valid schema ops →
    (ops.flatMap (fw schema)).foldl (upd T (id, n)) (cur.map (rowF (val n) id n)) =
      (ops.foldl (stepOp T id) cur).map (rowF (val n) id n) := by
  intro ops
  induction ops with
  | nil => intro cur _; rfl
  | cons o ops ih =>
    intro cur hv
    rw [List.flatMap_cons, List.foldl_append, List.foldl_cons, foldl_upd_fw hn (hv o List.mem_cons_self),
      ← ih _ (fun o ho => hv o (List.mem_cons_of_mem _ ho))]
    congr 1
    unfold stepOp
    cases hs : o.says id with
    | none => rw [if_neg (by intro h; exact h.1 rfl)]
    | some s =>
      simp only [upd, ne_eq, reduceCtorEq, not_false_eq_true, true_and]
      by_cases hc : o.ts ≤ T ∧ ∀ o', cur = some o' → o'.ts ≤ o.ts
      · rw [if_pos hc, if_pos]
        · simp only [Option.map_some, rowF, hs, Option.join_some]
        · refine ⟨hc.1, ?_⟩
          intro r hr
          cases cur with
          | none => cases hr
          | some o' => cases hr; exact hc.2 o' rfl
      · rw [if_neg hc, if_neg]
        intro h
        refine hc ⟨h.1, ?_⟩
        intro o' ho'
        subst ho'
        exact h.2 _ rfl

theorem fast_top {schema : List Field} {T : Int} {id : Int} {n : Nat} (hn : Speeds schema n) {ops : List Op}
    (hv : Valid schema ops) :
    top T (id, n) (run schema ops).fast = (newest T id ops).map (rowF (val n) id n) := by
  rw [run_eq]
  dsimp only
  rw [top_puts sorted_nil]
  exact top_fw hn ops none hv

theorem fast_mem {schema : List Field} {ops : List Op} {r : Row SVal} (h : r ∈ (run schema ops).fast) :
    Speeds schema r.key.2 := by
  rw [run_eq] at h
  rcases puts_mem h with h | h
  · cases h
  · obtain ⟨o, ho, h⟩ := List.mem_flatMap.1 h
    cases o with
    | add ts ttl vs =>
      obtain ⟨v, hv, h⟩ := List.mem_flatMap.1 h
      obtain ⟨p, hp, e⟩ := List.mem_map.1 h
      subst e
      obtain ⟨m, x⟩ := p
      exact (split_mem.1 hp).1
    | del ts ids =>
      obtain ⟨v, hv, h⟩ := List.mem_flatMap.1 h
      obtain ⟨f, hf, e⟩ := List.mem_map.1 h
      subst e
      exact ⟨f, (List.mem_filter.1 hf).1, (List.mem_filter.1 hf).2, rfl⟩

theorem fast_seen {schema : List Field} {T now : Int} {ops : List Op} (hv : Valid schema ops) {k : Key} {x : SVal} :
    seen now (top T k (run schema ops).fast) = .value x ↔
      Speeds schema k.2 ∧ ∃ v, live now (decided T k.1 ops) = some v ∧ v.scalar.lookup k.2 = some x := by
  obtain ⟨id, n⟩ := k
  dsimp only
  by_cases hn : Speeds schema n
  · have hs : seen now (top T (id, n) (run schema ops).fast) =
        match live now (decided T id ops) with
        | none => .notFound
        | some v => .value (val n v) := by
      rw [fast_top hn hv]
      unfold decided
      cases newest T id ops with
      | none => rfl
      | some o =>
        simp only [Option.map_some, Option.bind_some, rowF, seen]
        generalize (o.says id).join = s
        cases s with
        | none => rfl
        | some p =>
          obtain ⟨ttl, v⟩ := p
          unfold verS verOf live
          have he : Blob.empty (val n v) = false := rfl
          by_cases h : ttl = 0
          · simp only [h, if_true, true_or]
          · simp only [h, if_false, false_or, he, Bool.false_eq_true]
            by_cases h' : ttl < now
            · rw [if_pos h', if_neg (by omega)]
            · rw [if_neg h', if_pos (by omega)]
    rw [hs]
    cases hl : live now (decided T id ops) with
    | none =>
      constructor
      · intro h; cases h
      · rintro ⟨_, v, h, _⟩; cases h
    | some v =>
      have hval : validScalar schema v.scalar = true := by
        cases hd : decided T id ops with
        | none => rw [hd] at hl; cases hl
        | some p =>
          obtain ⟨ttl, v'⟩ := p
          obtain ⟨ts', vs, hm, hvv⟩ := decided_mem hd
          rw [hd] at hl
          unfold live at hl
          dsimp only at hl
          split at hl
          · cases hl
            exact ((hv _ hm).2.2 _ hvv).2.2
          · cases hl
      obtain ⟨y, hy⟩ := valid_lookup hval hn
      have hvy : val n v = y := by unfold val; rw [hy]; rfl
      simp only [hvy, Get.value.injEq, Option.some.injEq, exists_eq_left', hy]
      exact ⟨fun h => ⟨hn, h⟩, fun h => h.2⟩
  · have : top T (id, n) (run schema ops).fast = none := by
      refine top_none ?_
      intro r hr e
      have := fast_mem hr
      rw [e] at this
      exact hn this
    rw [this]
    constructor
    · intro h; cases h
    · intro h; exact absurd h.1 hn

/-! ## The two loops -/

theorem preScalar_items {p : Scalar → Bool} : ∀ {L : List VecIn},
    preScalar p (items (L.map fun v => ((v.id, 0), v.scalar))) = some ((L.filter fun v => p v.scalar).map (·.id)) := by
  intro L
  induction L with
  | nil => rfl
  | cons v L ih =>
    show preScalar p (.row (v.id, 0) v.scalar :: items _) = _
    unfold preScalar
    rw [ih]
    by_cases h : p v.scalar = true
    · simp [List.filter_cons, h]
    · simp [List.filter_cons, h]

/-- The fields collected for a vector. -/
def coll (keys : List Nat) (id : Int) (L : List (Key × SVal)) : Scalar :=
  L.filterMap fun x => if x.1.1 = id ∧ keys.contains x.1.2 = true then some (x.1.2, x.2) else none

theorem coll_cons {keys : List Nat} {id : Int} {x : Key × SVal} {L : List (Key × SVal)} :
    coll keys id (x :: L) =
      (if x.1.1 = id then (if keys.contains x.1.2 = true then [(x.1.2, x.2)] else []) else []) ++ coll keys id L := by
  unfold coll
  rw [List.filterMap_cons]
  by_cases h1 : x.1.1 = id
  · by_cases h2 : keys.contains x.1.2 = true
    · rw [if_pos ⟨h1, h2⟩, if_pos h1, if_pos h2]; rfl
    · rw [if_neg (fun h => h2 h.2), if_pos h1, if_neg h2]; rfl
  · rw [if_neg (fun h => h1 h.1), if_neg h1]; rfl

theorem coll_other {keys : List Nat} {id : Int} : ∀ {L : List (Key × SVal)}, (∀ x ∈ L, x.1.1 ≠ id) → coll keys id L = [] := by
  intro L h
  unfold coll
  rw [List.filterMap_eq_nil_iff]
  intro x hx
  rw [if_neg (fun h' => h x hx h'.1)]

theorem preFast_items {p : Scalar → Bool} {keys : List Nat} : ∀ {L : List (Key × SVal)} {last : Option Int} {cur : Scalar},
    L.Pairwise (fun a b => Key.lt a.1 b.1) → (last = none → cur = []) →
    (∀ l, last = some l → ∀ x ∈ L, l ≤ x.1.1) →
    ∃ R : List Int, preFast p keys last cur (items L) = some R ∧ R.Pairwise (· < ·) ∧
      ∀ id, id ∈ R ↔ (last = some id ∧ p (cur ++ coll keys id L) = true) ∨
        (last ≠ some id ∧ (∃ x ∈ L, x.1.1 = id) ∧ p (coll keys id L) = true) := by
  intro L
  induction L with
  | nil =>
    intro last cur _ hc _
    cases last with
    | none =>
      refine ⟨[], rfl, List.Pairwise.nil, ?_⟩
      intro id
      constructor
      · intro h; cases h
      · rintro (⟨h, _⟩ | ⟨_, ⟨x, h, _⟩, _⟩) <;> cases h
    | some l =>
      refine ⟨if p cur then [l] else [], rfl, ?_, ?_⟩
      · split
        · exact List.pairwise_singleton _ _
        · exact List.Pairwise.nil
      · intro id
        have hcoll : coll keys id [] = [] := rfl
        rw [hcoll, List.append_nil]
        constructor
        · intro h
          split at h
          · rw [List.mem_singleton] at h
            subst h
            exact Or.inl ⟨rfl, ‹_›⟩
          · cases h
        · rintro (⟨h, h'⟩ | ⟨_, ⟨x, h, _⟩, _⟩)
          · cases h
            rw [if_pos h']
            exact List.mem_singleton.2 rfl
          · cases h
  | cons x L ih =>
    intro last cur hs hc hle
    obtain ⟨⟨i, f⟩, v⟩ := x
    have hs' := List.pairwise_cons.1 hs
    have hge : ∀ y ∈ L, i ≤ y.1.1 := by
      intro y hy
      rcases hs'.1 y hy with h | h
      · exact Int.le_of_lt h
      · exact Int.le_of_eq h.1
    let changed := last.isSome && decide (last ≠ some i)
    let cur0 : Scalar := if changed then [] else cur
    let cur1 : Scalar := if keys.contains f then cur0 ++ [(f, v)] else cur0
    obtain ⟨R, h1, h2, h3⟩ := ih (last := some i) (cur := cur1) hs'.2 (by intro h; cases h)
      (by intro l h y hy; cases h; exact hge y hy)
    have hdefN : last = none → preFast p keys last cur (items (((i, f), v) :: L)) = some R := by
      intro hl
      show preFast p keys last cur (.row (i, f) v :: items L) = _
      unfold preFast
      dsimp only
      rw [h1, hl]
    have hdefS : ∀ l, last = some l →
        preFast p keys last cur (items (((i, f), v) :: L)) = some (if changed && p cur then l :: R else R) := by
      intro l hl
      show preFast p keys last cur (.row (i, f) v :: items L) = _
      unfold preFast
      dsimp only
      rw [h1]
      subst hl
      rfl
    have hRge : ∀ id ∈ R, i ≤ id := by
      intro id hid
      rcases (h3 id).1 hid with ⟨h, _⟩ | ⟨_, ⟨y, hy, e⟩, _⟩
      · cases h; exact Int.le_refl _
      · rw [← e]; exact hge y hy
    have hone : ∀ base : Scalar, cur0 = base → ∀ rest : Scalar,
        cur1 ++ rest = base ++ ((if keys.contains f = true then [(f, v)] else []) ++ rest) := by
      intro base hb rest
      show (if keys.contains f = true then cur0 ++ [(f, v)] else cur0) ++ rest = _
      rw [hb]
      split <;> simp
    obtain hlast | ⟨l, hlast⟩ : last = none ∨ ∃ l, last = some l := by
      cases last with
      | none => exact Or.inl rfl
      | some l => exact Or.inr ⟨l, rfl⟩
    · rw [hdefN hlast]
      subst hlast
      have hcur := hc rfl
      refine ⟨R, rfl, h2, ?_⟩
      intro id
      rw [h3, coll_cons]
      dsimp only
      by_cases e : i = id
      · subst e
        have := hone [] (by show (if (none : Option Int).isSome && _ then _ else _) = _; simp [hcur]) (coll keys i L)
        rw [this]
        simp
      · simp [e]
    · rw [hdefS l hlast]
      subst hlast
      have hli : l ≤ i := hle l rfl _ List.mem_cons_self
      by_cases hl : l = i
      · subst hl
        have hch : changed = false := by show (true && decide (some l ≠ some l)) = false; simp
        refine ⟨R, by simp [hch], h2, ?_⟩
        intro id
        rw [h3, coll_cons]
        dsimp only
        by_cases e : l = id
        · subst e
          have := hone cur (by show (if changed = true then _ else _) = _; rw [hch]; simp) (coll keys l L)
          rw [this]
          simp
        · simp [e]
      · have hch : changed = true := by
          show (true && decide (some l ≠ some i)) = true
          simp [hl]
        have hcoll0 : ∀ id, coll keys id L = coll keys id L := fun _ => rfl
        have hlt : l < i := by omega
        have hmemR : ∀ id, id ∈ R ↔ ((∃ y ∈ ((i, f), v) :: L, y.1.1 = id) ∧ p (coll keys id (((i, f), v) :: L)) = true) := by
          intro id
          rw [h3, coll_cons]
          dsimp only
          by_cases e : i = id
          · subst e
            have := hone [] (by show (if changed = true then _ else _) = _; rw [hch]; simp) (coll keys i L)
            rw [this]
            simp
          · simp [e]
        have hcolll : coll keys l (((i, f), v) :: L) = [] := by
          refine coll_other ?_
          intro y hy
          rcases List.mem_cons.1 hy with e | e
          · subst e; exact fun h => hl h.symm
          · have := hge y e; omega
        refine ⟨if p cur then l :: R else R, by simp [hch], ?_, ?_⟩
        · split
          · refine List.pairwise_cons.2 ⟨?_, h2⟩
            intro id hid
            have := hRge id hid
            omega
          · exact h2
        · intro id
          by_cases e : l = id
          · subst e
            rw [hcolll, List.append_nil]
            have hnot : l ∉ R := fun h => by have := hRge l h; omega
            constructor
            · intro h
              split at h
              · exact Or.inl ⟨rfl, ‹_›⟩
              · exact absurd h hnot
            · rintro (⟨_, h⟩ | ⟨h, _⟩)
              · rw [if_pos h]
                exact List.mem_cons_self
              · exact absurd rfl h
          · have e' : ¬ some l = some id := fun h => e (Option.some.inj h)
            have : id ∈ (if p cur = true then l :: R else R) ↔ id ∈ R := by
              split
              · rw [List.mem_cons]
                exact ⟨fun h => h.resolve_left (fun h => e h.symm), Or.inr⟩
              · exact Iff.rfl
            rw [this, hmemR]
            constructor
            · intro h; exact Or.inr ⟨e', h⟩
            · rintro (⟨h, _⟩ | ⟨_, h⟩)
              · exact absurd h e'
              · exact h

theorem coll_mem {keys : List Nat} {id : Int} {L : List (Key × SVal)} {n : Nat} {x : SVal} :
    (n, x) ∈ coll keys id L ↔ n ∈ keys ∧ ((id, n), x) ∈ L := by
  unfold coll
  rw [List.mem_filterMap]
  constructor
  · rintro ⟨⟨⟨i, f⟩, y⟩, h1, h2⟩
    dsimp only at h2
    split at h2
    · rename_i hc
      cases h2
      obtain ⟨e, hk⟩ := hc
      subst e
      exact ⟨by simpa using hk, h1⟩
    · cases h2
  · rintro ⟨h1, h2⟩
    exact ⟨((id, n), x), h2, by rw [if_pos ⟨rfl, by simpa using h1⟩]⟩

theorem coll_nodup {keys : List Nat} {id : Int} : ∀ {L : List (Key × SVal)},
    L.Pairwise (fun a b => Key.lt a.1 b.1) → ((coll keys id L).map (·.1)).Nodup := by
  intro L
  induction L with
  | nil => intro _; exact List.Pairwise.nil
  | cons x L ih =>
    intro h
    have h' := List.pairwise_cons.1 h
    rw [coll_cons]
    by_cases h1 : x.1.1 = id
    · by_cases h2 : keys.contains x.1.2 = true
      · rw [if_pos h1, if_pos h2, List.singleton_append, List.map_cons, List.nodup_cons]
        refine ⟨?_, ih h'.2⟩
        intro hm
        obtain ⟨⟨n, y⟩, hy, e⟩ := List.mem_map.1 hm
        have := (coll_mem.1 hy).2
        have hlt := h'.1 _ this
        dsimp only at e
        unfold Key.lt at hlt
        dsimp only at hlt
        omega
      · rw [if_pos h1, if_neg h2]
        exact ih h'.2
    · rw [if_neg h1]
      exact ih h'.2

end Verif.VecQuery
