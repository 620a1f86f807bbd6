import Verif.VecQuery.Hist

/-! # Iterators over a column family (lemmas) -/

namespace Verif.VecQuery

variable {α : Type}

/-- No row that expires has an empty value. -/
def NoAbort [Blob α] (cf : List (Row α)) : Prop :=
  ∀ r ∈ cf, ∀ ttl v, r.ver = .putTTL ttl v → Blob.empty v = false

theorem top_none {T : Int} {k : Key} {cf : Cf α} (h : ∀ r ∈ cf, r.key ≠ k) : top T k cf = none := by
  unfold top
  rw [List.find?_eq_none]
  intro r hr
  simp only [decide_eq_true_eq]
  exact fun h' => h r hr h'.1

/-- The stops of an iterator, as rows. -/
def items (L : List (Key × α)) : List (Item α) := L.map fun p => .row p.1 p.2

theorem forward_items [Blob α] {T now : Int} : ∀ {cf : Cf α} {prev : Option Key}, Sorted cf → NoAbort cf →
    (∀ p, prev = some p → ∀ r ∈ cf, p = r.key ∨ Key.lt p r.key) →
    ∃ L : List (Key × α), forward T now prev cf = items L ∧
      L.Pairwise (fun a b => Key.lt a.1 b.1) ∧
      (∀ k v, (k, v) ∈ L ↔ prev ≠ some k ∧ seen now (top T k cf) = .value v) := by
  intro cf
  induction cf with
  | nil =>
    intro prev _ _ _
    refine ⟨[], rfl, List.Pairwise.nil, ?_⟩
    intro k v
    constructor
    · intro h; cases h
    · rintro ⟨_, h⟩; cases h
  | cons r rest ih =>
    intro prev hs hn hp
    have hs' := List.pairwise_cons.1 hs
    have hn' : NoAbort rest := fun x hx => hn x (List.mem_cons_of_mem _ hx)
    have hp' : ∀ p, prev = some p → ∀ r ∈ rest, p = r.key ∨ Key.lt p r.key :=
      fun p h x hx => hp p h x (List.mem_cons_of_mem _ hx)
    have hself : ∀ p, some r.key = some p → ∀ x ∈ rest, p = x.key ∨ Key.lt p x.key := by
      intro p h x hx
      cases h
      rcases hs'.1 x hx with h | h
      · exact Or.inr h
      · exact Or.inl h.1
    have hrest : ∀ k v, seen now (top T k rest) = .value v → r.key = k ∨ Key.lt r.key k := by
      intro k v h
      cases ht : top T k rest with
      | none => rw [ht] at h; cases h
      | some x =>
        have := top_mem ht
        rw [← this.2.1]
        exact hself _ rfl x this.1
    -- the rows behind `r`, once `r` was decided
    have key : ∀ k v, ¬ r.ts > T → some r.key ≠ prev →
        (some r.key ≠ some k ∧ seen now (top T k rest) = .value v ↔
          r.key ≠ k ∧ prev ≠ some k ∧ seen now (top T k (r :: rest)) = .value v) := by
      intro k v ht hpr
      constructor
      · rintro ⟨h1, h2⟩
        have h1' : r.key ≠ k := fun e => h1 (by rw [e])
        refine ⟨h1', ?_, ?_⟩
        · intro e
          rcases hp k e r List.mem_cons_self with h | h
          · exact h1' h.symm
          · rcases hrest k v h2 with h' | h'
            · exact h1' h'
            · exact Key.lt_irrefl _ (Key.lt_trans h h')
        · rw [top_cons_ne (fun h => h1' h.1)]
          exact h2
      · rintro ⟨h1, h2, h3⟩
        refine ⟨fun e => h1 (Option.some.inj e), ?_⟩
        rw [top_cons_ne (fun h => h1 h.1)] at h3
        exact h3
    unfold forward
    by_cases hpr : some r.key = prev
    · rw [if_pos hpr]
      obtain ⟨L, h1, h2, h3⟩ := ih hs'.2 hn' hp'
      refine ⟨L, h1, h2, ?_⟩
      intro k v
      rw [h3]
      constructor
      · rintro ⟨h4, h5⟩
        refine ⟨h4, ?_⟩
        rw [top_cons_ne (fun h => h4 (by rw [← hpr, h.1]))]
        exact h5
      · rintro ⟨h4, h5⟩
        refine ⟨h4, ?_⟩
        rw [top_cons_ne (fun h => h4 (by rw [← hpr, h.1]))] at h5
        exact h5
    · rw [if_neg hpr]
      by_cases ht : r.ts > T
      · rw [if_pos ht]
        obtain ⟨L, h1, h2, h3⟩ := ih hs'.2 hn' hp'
        refine ⟨L, h1, h2, ?_⟩
        intro k v
        rw [h3, top_cons_ne (by intro h; omega)]
      · rw [if_neg ht]
        obtain ⟨L, h1, h2, h3⟩ := ih hs'.2 hn' hself
        have hthis : top T r.key (r :: rest) = some r := top_cons_eq ⟨rfl, by omega⟩
        -- the row is passed over
        have skip : (∀ v, seen now (some r) ≠ .value v) →
            ∃ L : List (Key × α), forward T now (some r.key) rest = items L ∧
              L.Pairwise (fun a b => Key.lt a.1 b.1) ∧
              (∀ k v, (k, v) ∈ L ↔ prev ≠ some k ∧ seen now (top T k (r :: rest)) = .value v) := by
          intro hno
          refine ⟨L, h1, h2, ?_⟩
          intro k v
          rw [h3, key k v ht hpr]
          constructor
          · rintro ⟨_, h⟩; exact h
          · rintro ⟨h, h'⟩
            refine ⟨?_, h, h'⟩
            intro e
            subst e
            rw [hthis] at h'
            exact hno v h'
        -- the row is delivered
        have take : ∀ w, seen now (some r) = .value w →
            ∃ L : List (Key × α), Item.row r.key w :: forward T now (some r.key) rest = items L ∧
              L.Pairwise (fun a b => Key.lt a.1 b.1) ∧
              (∀ k v, (k, v) ∈ L ↔ prev ≠ some k ∧ seen now (top T k (r :: rest)) = .value v) := by
          intro w hw
          refine ⟨(r.key, w) :: L, by rw [h1]; rfl, ?_, ?_⟩
          · refine List.pairwise_cons.2 ⟨?_, h2⟩
            rintro ⟨k, v⟩ hkv
            have := (h3 k v).1 hkv
            rcases hrest k v this.2 with h | h
            · exact absurd (by rw [h]) this.1
            · exact h
          · intro k v
            rw [List.mem_cons, h3, key k v ht hpr]
            constructor
            · rintro (h | ⟨_, h⟩)
              · cases h
                exact ⟨fun h => hpr h.symm, by rw [hthis]; exact hw⟩
              · exact h
            · rintro ⟨h, h'⟩
              by_cases e : r.key = k
              · subst e
                rw [hthis, hw] at h'
                cases h'
                exact Or.inl rfl
              · exact Or.inr ⟨e, h, h'⟩
        obtain ⟨rk, rt, rv⟩ := r
        cases rv with
        | del => exact skip (by intro v h; cases h)
        | put w => exact take w rfl
        | putTTL ttl w =>
          have he := hn _ List.mem_cons_self ttl w rfl
          simp only [he, Bool.false_eq_true, if_false]
          by_cases hl : ttl < now
          · rw [if_pos hl]
            refine skip ?_
            intro v h
            simp only [seen, he, Bool.false_eq_true, if_false, if_pos hl] at h
            cases h
          · rw [if_neg hl]
            refine take w ?_
            simp only [seen, he, Bool.false_eq_true, if_false, if_neg hl]

/-! ## Backward -/

/-- What an iterator going backward will deliver for `k`. -/
def Delivers [Blob α] (T now : Int) (cur : Option (Key × α)) (l : List (Row α)) (k : Key) (v : α) : Prop :=
  (∃ r, top T k l.reverse = some r ∧ seen now (some r) = .value v) ∨ (top T k l.reverse = none ∧ cur = some (k, v))

theorem top_snoc {T : Int} {k : Key} {l : Cf α} {r : Row α} :
    top T k (l ++ [r]) = (top T k l).or (if r.key = k ∧ r.ts ≤ T then some r else none) := by
  unfold top
  rw [List.find?_append]
  congr 1
  by_cases h : r.key = k ∧ r.ts ≤ T
  · rw [List.find?_cons_of_pos (by simpa using h), if_pos h]
  · rw [List.find?_cons_of_neg (by simpa using h), if_neg h]
    rfl

theorem delivers_step [Blob α] {T now : Int} {cur cur' : Option (Key × α)} {r : Row α} {rest : List (Row α)}
    (hn : ∀ ttl v, r.ver = .putTTL ttl v → Blob.empty v = false)
    (h : backStep T now cur r = some cur') (hc : ∀ c, cur = some c → c.1 = r.key) (k : Key) (v : α) :
    Delivers T now cur' rest k v ↔ Delivers T now cur (r :: rest) k v := by
  unfold Delivers
  rw [List.reverse_cons, top_snoc]
  cases htop : top T k rest.reverse with
  | some x => simp
  | none =>
    simp only [Option.none_or, reduceCtorEq, false_and, exists_false, false_or, true_and]
    unfold backStep at h
    by_cases ht : r.ts > T
    · rw [if_pos ht] at h
      cases h
      have : ¬ (r.key = k ∧ r.ts ≤ T) := by intro h; omega
      simp [this]
    · rw [if_neg ht] at h
      by_cases hk : r.key = k
      · have hk' : r.key = k ∧ r.ts ≤ T := ⟨hk, by omega⟩
        simp only [if_pos hk', Option.some.injEq, exists_eq_left', reduceCtorEq, false_and, or_false]
        obtain ⟨rk, rt, rv⟩ := r
        cases rv with
        | del => cases h; simp [seen]
        | put w =>
          cases h
          simp only [seen, Option.some.injEq, Prod.mk.injEq, Get.value.injEq]
          exact ⟨fun h => h.2, fun h => ⟨hk, h⟩⟩
        | putTTL ttl w =>
          have he := hn ttl w rfl
          simp only [he, Bool.false_eq_true, if_false] at h
          by_cases hl : ttl < now
          · rw [if_pos hl] at h
            cases h
            simp [seen, he, hl]
          · rw [if_neg hl] at h
            cases h
            simp only [seen, he, Bool.false_eq_true, if_false, if_neg hl, Option.some.injEq, Prod.mk.injEq,
              Get.value.injEq]
            exact ⟨fun h => h.2, fun h => ⟨hk, h⟩⟩
      · have hk' : ¬ (r.key = k ∧ r.ts ≤ T) := fun h => hk h.1
        simp only [if_neg hk', reduceCtorEq, false_and, exists_false, false_or, true_and]
        have h1 : ¬ cur = some (k, v) := fun e => hk (hc _ e).symm
        have h2 : ¬ cur' = some (k, v) := by
          intro e
          subst e
          obtain ⟨rk, rt, rv⟩ := r
          cases rv with
          | del => cases h
          | put w => cases h; exact hk rfl
          | putTTL ttl w =>
            dsimp only at h
            split at h
            · cases h
            · split at h
              · cases h
              · cases h; exact hk rfl
        exact ⟨fun h => absurd h h2, fun h => absurd h h1⟩

theorem backStep_some [Blob α] {T now : Int} {cur : Option (Key × α)} {r : Row α}
    (hn : ∀ ttl v, r.ver = .putTTL ttl v → Blob.empty v = false) :
    ∃ cur', backStep T now cur r = some cur' ∧ ∀ c, cur' = some c → c.1 = r.key ∨ cur = some c := by
  unfold backStep
  obtain ⟨rk, rt, rv⟩ := r
  by_cases ht : rt > T
  · rw [if_pos ht]
    exact ⟨cur, rfl, fun c h => Or.inr h⟩
  · rw [if_neg ht]
    cases rv with
    | del => exact ⟨none, rfl, by intro c h; cases h⟩
    | put w => exact ⟨_, rfl, by intro c h; cases h; exact Or.inl rfl⟩
    | putTTL ttl w =>
      have he := hn ttl w rfl
      simp only [he, Bool.false_eq_true, if_false]
      by_cases hl : ttl < now
      · rw [if_pos hl]
        exact ⟨none, rfl, by intro c h; cases h⟩
      · rw [if_neg hl]
        exact ⟨_, rfl, by intro c h; cases h; exact Or.inl rfl⟩

theorem delivers_key [Blob α] {T now : Int} {cur : Option (Key × α)} {l : List (Row α)} {k : Key} {v : α}
    (h : Delivers T now cur l k v) : (∃ r ∈ l, r.key = k) ∨ cur = some (k, v) := by
  rcases h with ⟨r, h, _⟩ | h
  · exact Or.inl ⟨r, List.mem_reverse.1 (top_mem h).1, (top_mem h).2.1⟩
  · exact Or.inr h.2

theorem backward_items [Blob α] {T now : Int} : ∀ {l : List (Row α)} {cur : Option (Key × α)},
    l.Pairwise (fun a b => Row.lt b a) → NoAbort l →
    (∀ c, cur = some c → ∀ r ∈ l, r.key = c.1 ∨ Key.lt r.key c.1) →
    ∃ L : List (Key × α), backward T now cur l = items L ∧
      L.Pairwise (fun a b => Key.lt b.1 a.1) ∧
      (∀ k v, (k, v) ∈ L ↔ Delivers T now cur l k v) := by
  intro l
  induction l with
  | nil =>
    intro cur _ _ _
    cases cur with
    | none =>
      refine ⟨[], rfl, List.Pairwise.nil, ?_⟩
      intro k v
      constructor
      · intro h; cases h
      · rintro (⟨r, h, _⟩ | ⟨_, h⟩) <;> cases h
    | some c =>
      refine ⟨[c], rfl, List.pairwise_singleton _ _, ?_⟩
      intro k v
      rw [List.mem_singleton]
      constructor
      · intro h; exact Or.inr ⟨rfl, by rw [h]⟩
      · rintro (⟨r, h, _⟩ | ⟨_, h⟩)
        · cases h
        · cases h; rfl
  | cons r rest ih =>
    intro cur hs hn hc
    have hs' := List.pairwise_cons.1 hs
    have hn' : NoAbort rest := fun x hx => hn x (List.mem_cons_of_mem _ hx)
    have hnr : ∀ ttl v, r.ver = .putTTL ttl v → Blob.empty v = false := hn r List.mem_cons_self
    have hbelow : ∀ x ∈ rest, x.key = r.key ∨ Key.lt x.key r.key := by
      intro x hx
      rcases hs'.1 x hx with h | h
      · exact Or.inr h
      · exact Or.inl h.1
    -- a row of the key held, or nothing held
    have same : ∀ cur0, (∀ c, cur0 = some c → c.1 = r.key) →
        ∃ L : List (Key × α),
          (match backStep T now cur0 r with
          | some cur' => backward T now cur' rest
          | none => [.abort]) = items L ∧
          L.Pairwise (fun a b => Key.lt b.1 a.1) ∧
          (∀ k v, (k, v) ∈ L ↔ Delivers T now cur0 (r :: rest) k v) := by
      intro cur0 h0
      obtain ⟨cur', hb, hk⟩ := backStep_some (T := T) (now := now) (cur := cur0) hnr
      have hc' : ∀ c, cur' = some c → ∀ x ∈ rest, x.key = c.1 ∨ Key.lt x.key c.1 := by
        intro c h x hx
        have : c.1 = r.key := by
          rcases hk c h with e | e
          · exact e
          · exact h0 c e
        rw [this]
        exact hbelow x hx
      obtain ⟨L, h1, h2, h3⟩ := ih hs'.2 hn' hc'
      refine ⟨L, by rw [hb]; exact h1, h2, ?_⟩
      intro k v
      rw [h3]
      exact delivers_step hnr hb h0 k v
    cases cur with
    | none =>
      unfold backward
      exact same none (by intro c h; cases h)
    | some c =>
      unfold backward
      dsimp only
      by_cases hk : r.key = c.1
      · rw [if_pos hk]
        exact same (some c) (by intro c' h; cases h; exact hk.symm)
      · rw [if_neg hk]
        obtain ⟨L, h1, h2, h3⟩ := same none (by intro c h; cases h)
        have hrc : Key.lt r.key c.1 := by
          rcases hc c rfl r List.mem_cons_self with h | h
          · exact absurd h hk
          · exact h
        have hall : ∀ x ∈ r :: rest, Key.lt x.key c.1 := by
          intro x hx
          rcases List.mem_cons.1 hx with h | h
          · exact h ▸ hrc
          · rcases hbelow x h with e | e
            · exact e ▸ hrc
            · exact Key.lt_trans e hrc
        have hnone : top T c.1 (r :: rest).reverse = none := by
          refine top_none ?_
          intro x hx e
          have := hall x (List.mem_reverse.1 hx)
          rw [e] at this
          exact Key.lt_irrefl _ this
        refine ⟨c :: L, congrArg (Item.row c.1 c.2 :: ·) h1, ?_, ?_⟩
        · refine List.pairwise_cons.2 ⟨?_, h2⟩
          rintro ⟨k, v⟩ hkv
          rcases delivers_key ((h3 k v).1 hkv) with ⟨x, hx, e⟩ | h
          · exact e ▸ hall x hx
          · cases h
        · intro k v
          rw [List.mem_cons, h3]
          unfold Delivers
          constructor
          · rintro (h | h | h)
            · subst h
              exact Or.inr ⟨hnone, rfl⟩
            · exact Or.inl h
            · cases h.2
          · rintro (h | h)
            · exact Or.inr (Or.inl h)
            · cases h.2
              exact Or.inl rfl

/-! ## Ranges -/

theorem top_range {T : Int} {k : Key} {cf : Cf α} (P : Key → Prop) [DecidablePred P] :
    top T k (cf.filter fun r => decide (P r.key)) = if P k then top T k cf else none := by
  induction cf with
  | nil => simp [top]
  | cons a as ih =>
    by_cases h : P a.key
    · rw [List.filter_cons_of_pos (by simpa using h)]
      by_cases ht : a.key = k ∧ a.ts ≤ T
      · rw [top_cons_eq ht, top_cons_eq ht, if_pos (ht.1 ▸ h)]
      · rw [top_cons_ne ht, top_cons_ne ht]
        exact ih
    · rw [List.filter_cons_of_neg (by simpa using h), ih]
      by_cases hk : P k
      · rw [if_pos hk, if_pos hk, top_cons_ne (by rintro ⟨h', _⟩; exact h (h' ▸ hk))]
      · rw [if_neg hk, if_neg hk]

theorem exists_map {β γ : Type} {f : β → γ} {Q : β → Prop} : ∀ {L : List γ}, (∀ x ∈ L, ∃ y, f y = x ∧ Q y) →
    ∃ M : List β, M.map f = L ∧ ∀ y ∈ M, Q y := by
  intro L
  induction L with
  | nil => intro _; exact ⟨[], rfl, by intro y h; cases h⟩
  | cons x L ih =>
    intro h
    obtain ⟨y, h1, h2⟩ := h x List.mem_cons_self
    obtain ⟨M, h3, h4⟩ := ih (fun x hx => h x (List.mem_cons_of_mem _ hx))
    refine ⟨y :: M, by rw [List.map_cons, h1, h3], ?_⟩
    intro z hz
    rcases List.mem_cons.1 hz with e | e
    · exact e ▸ h2
    · exact h4 z e

theorem puts_mem : ∀ {ws : List (Row α)} {cf : Cf α} {r : Row α}, r ∈ puts cf ws → r ∈ cf ∨ r ∈ ws := by
  intro ws
  induction ws with
  | nil => intro cf r h; exact Or.inl h
  | cons w ws ih =>
    intro cf r h
    rcases ih h with h | h
    · rcases put_mem h with h | h
      · exact Or.inr (h ▸ List.mem_cons_self)
      · exact Or.inl h
    · exact Or.inr (List.mem_cons_of_mem _ h)

theorem wr_mem {f : VecIn → α} {ops : List Op} {r : Row α} (h : r ∈ puts [] (ops.flatMap (wr f))) :
    r.key.2 = 0 ∧ (r.ver = .del ∨ ∃ ts ttl vs v, Op.add ts ttl vs ∈ ops ∧ v ∈ vs ∧ r.ver = verOf ttl (f v)) := by
  rcases puts_mem h with h | h
  · cases h
  · obtain ⟨o, ho, h⟩ := List.mem_flatMap.1 h
    cases o with
    | add ts ttl vs =>
      obtain ⟨v, hv, e⟩ := List.mem_map.1 h
      subst e
      exact ⟨rfl, Or.inr ⟨ts, ttl, vs, v, ho, hv, rfl⟩⟩
    | del ts ids =>
      obtain ⟨i, _, e⟩ := List.mem_map.1 h
      subst e
      exact ⟨rfl, Or.inl rfl⟩

/-- Rows that expire are not empty. -/
theorem wr_noAbort [Blob α] {f : VecIn → α} {ops : List Op}
    (h : ∀ ts ttl vs, Op.add ts ttl vs ∈ ops → ttl ≠ 0 → ∀ v ∈ vs, Blob.empty (f v) = false) :
    NoAbort (puts [] (ops.flatMap (wr f))) := by
  intro r hr ttl w hw
  rcases (wr_mem hr).2 with e | ⟨ts, ttl', vs, v, ho, hv, e⟩
  · rw [e] at hw; cases hw
  · rw [e] at hw
    unfold verOf at hw
    split at hw
    · cases hw
    · rename_i hne
      cases hw
      exact h ts _ vs ho hne v hv

theorem seen_value [Blob α] {f : VecIn → α} {T now : Int} {ops : List Op} {k : Key} {w : α} :
    seen now (top T k (puts [] (ops.flatMap (wr f)))) = .value w →
    ∃ v : VecIn, ((v.id, 0), f v) = (k, w) ∧ live now (decided T v.id ops) = some v := by
  intro h
  obtain ⟨id, n⟩ := k
  have hn : n = 0 := by
    cases ht : top T (id, n) (puts [] (ops.flatMap (wr f))) with
    | none => rw [ht] at h; cases h
    | some r =>
      have h1 := (wr_mem (top_mem ht).1).1
      rw [(top_mem ht).2.1] at h1
      exact h1
  subst hn
  rw [top_run, seen_rowOf] at h
  cases hd : decided T id ops with
  | none => rw [hd] at h; cases h
  | some p =>
    obtain ⟨ttl, v⟩ := p
    rw [hd] at h
    have hid := decided_id hd
    refine ⟨v, ?_, ?_⟩
    · unfold readS at h
      dsimp only at h
      split at h
      · cases h; rw [hid]
      · split at h
        · cases h
        · split at h
          · cases h
          · cases h; rw [hid]
    · rw [hid, hd]
      unfold live
      refine if_pos ?_
      unfold readS at h
      dsimp only at h
      split at h
      · exact Or.inl ‹_›
      · split at h
        · cases h
        · split at h
          · cases h
          · right; omega

theorem seen_live [Blob α] {f : VecIn → α} {T now : Int} {ops : List Op} {v : VecIn}
    (hk : ∀ ts ttl vs, Op.add ts ttl vs ∈ ops → ttl ≠ 0 → ∀ v ∈ vs, Blob.empty (f v) = false)
    (h : live now (decided T v.id ops) = some v) :
    seen now (top T (v.id, 0) (puts [] (ops.flatMap (wr f)))) = .value (f v) := by
  rw [top_run, seen_rowOf]
  cases hd : decided T v.id ops with
  | none => rw [hd] at h; cases h
  | some p =>
    obtain ⟨ttl, w⟩ := p
    rw [hd] at h
    unfold live at h
    dsimp only at h
    split at h
    · rename_i hl
      cases h
      rw [readS_live f hl, if_neg]
      rintro ⟨h0, he⟩
      obtain ⟨ts, vs, hm, hv⟩ := decided_mem hd
      rw [hk ts ttl vs hm h0 v hv] at he
      cases he
    · cases h

/-- The vectors an iterator going forward stops at. -/
theorem forward_run [Blob α] {f : VecIn → α} {T now : Int} {ops : List Op} {g : Region} {start : Int}
    (hk : ∀ ts ttl vs, Op.add ts ttl vs ∈ ops → ttl ≠ 0 → ∀ v ∈ vs, Blob.empty (f v) = false) :
    ∃ L : List VecIn,
      forward T now none (rowsFrom g start (puts [] (ops.flatMap (wr f)))) = items (L.map fun v => ((v.id, 0), f v)) ∧
      L.Pairwise (fun a b => a.id < b.id) ∧
      ∀ v, v ∈ L ↔ (g.lo ≤ v.id ∧ start ≤ v.id ∧ v.id < g.hi) ∧ live now (decided T v.id ops) = some v := by
  have hs : Sorted (rowsFrom g start (puts [] (ops.flatMap (wr f)))) :=
    List.Pairwise.filter _ (puts_sorted sorted_nil)
  have hn : NoAbort (rowsFrom g start (puts [] (ops.flatMap (wr f)))) :=
    fun r hr => wr_noAbort hk r (List.mem_filter.1 hr).1
  obtain ⟨L, h1, h2, h3⟩ := forward_items (T := T) (now := now) (prev := none) hs hn (by intro p h; cases h)
  have htop : ∀ k, top T k (rowsFrom g start (puts [] (ops.flatMap (wr f)))) =
      if g.lo ≤ k.1 ∧ start ≤ k.1 ∧ k.1 < g.hi then top T k (puts [] (ops.flatMap (wr f))) else none :=
    fun k => top_range (fun k : Key => g.lo ≤ k.1 ∧ start ≤ k.1 ∧ k.1 < g.hi)
  obtain ⟨M, h4, h5⟩ := exists_map (f := fun v : VecIn => (((v.id, 0) : Key), f v))
    (Q := fun v => (g.lo ≤ v.id ∧ start ≤ v.id ∧ v.id < g.hi) ∧ live now (decided T v.id ops) = some v) (L := L) (by
      rintro ⟨k, w⟩ hx
      have h := ((h3 k w).1 hx).2
      rw [htop] at h
      by_cases hr : g.lo ≤ k.1 ∧ start ≤ k.1 ∧ k.1 < g.hi
      · rw [if_pos hr] at h
        obtain ⟨v, e, hl⟩ := seen_value h
        cases e
        exact ⟨v, rfl, hr, hl⟩
      · rw [if_neg hr] at h
        cases h)
  refine ⟨M, by rw [h4]; exact h1, ?_, ?_⟩
  · rw [← h4, List.pairwise_map] at h2
    refine h2.imp ?_
    intro a b h
    rcases h with h | h
    · exact h
    · exact absurd h.2 (Nat.lt_irrefl _)
  · intro v
    constructor
    · exact h5 v
    · rintro ⟨hr, hl⟩
      have hm : ((v.id, 0), f v) ∈ L := by
        refine (h3 _ _).2 ⟨(by intro h; cases h), ?_⟩
        rw [htop, if_pos hr]
        exact seen_live hk hl
      rw [← h4] at hm
      obtain ⟨y, hy, e⟩ := List.mem_map.1 hm
      have hid : y.id = v.id := by
        have := congrArg (fun p : Key × α => p.1.1) e
        exact this
      have h6 := (h5 y hy).2
      rw [hid, hl] at h6
      cases h6
      exact hy

/-- The vectors an iterator going backward stops at. -/
theorem backward_run [Blob α] {f : VecIn → α} {T now : Int} {ops : List Op} {g : Region} {start : Int}
    (hk : ∀ ts ttl vs, Op.add ts ttl vs ∈ ops → ttl ≠ 0 → ∀ v ∈ vs, Blob.empty (f v) = false) :
    ∃ L : List VecIn,
      backward T now none (rowsBack g start (puts [] (ops.flatMap (wr f)))) = items (L.map fun v => ((v.id, 0), f v)) ∧
      L.Pairwise (fun a b => b.id < a.id) ∧
      ∀ v, v ∈ L ↔ (g.lo ≤ v.id ∧ v.id ≤ start ∧ v.id < g.hi) ∧ live now (decided T v.id ops) = some v := by
  have hs : (rowsBack g start (puts [] (ops.flatMap (wr f)))).Pairwise (fun a b => Row.lt b a) := by
    unfold rowsBack
    rw [List.pairwise_reverse]
    exact List.Pairwise.filter _ (puts_sorted sorted_nil)
  have hn : NoAbort (rowsBack g start (puts [] (ops.flatMap (wr f)))) :=
    fun r hr => wr_noAbort hk r (List.mem_filter.1 (List.mem_reverse.1 hr)).1
  obtain ⟨L, h1, h2, h3⟩ := backward_items (T := T) (now := now) (cur := none) hs hn (by intro p h; cases h)
  have htop : ∀ k, top T k (rowsBack g start (puts [] (ops.flatMap (wr f)))).reverse =
      if g.lo ≤ k.1 ∧ k.1 ≤ start ∧ k.1 < g.hi then top T k (puts [] (ops.flatMap (wr f))) else none := by
    intro k
    unfold rowsBack
    rw [List.reverse_reverse]
    exact top_range (fun k : Key => g.lo ≤ k.1 ∧ k.1 ≤ start ∧ k.1 < g.hi)
  have h3' : ∀ k w, (k, w) ∈ L ↔
      seen now (top T k (rowsBack g start (puts [] (ops.flatMap (wr f)))).reverse) = .value w := by
    intro k w
    rw [h3]
    unfold Delivers
    constructor
    · rintro (⟨r, h, h'⟩ | h)
      · rw [h]; exact h'
      · cases h.2
    · intro h
      cases ht : top T k (rowsBack g start (puts [] (ops.flatMap (wr f)))).reverse with
      | none => rw [ht] at h; cases h
      | some r => rw [ht] at h; exact Or.inl ⟨r, rfl, h⟩
  obtain ⟨M, h4, h5⟩ := exists_map (f := fun v : VecIn => (((v.id, 0) : Key), f v))
    (Q := fun v => (g.lo ≤ v.id ∧ v.id ≤ start ∧ v.id < g.hi) ∧ live now (decided T v.id ops) = some v) (L := L) (by
      rintro ⟨k, w⟩ hx
      have h := (h3' k w).1 hx
      rw [htop] at h
      by_cases hr : g.lo ≤ k.1 ∧ k.1 ≤ start ∧ k.1 < g.hi
      · rw [if_pos hr] at h
        obtain ⟨v, e, hl⟩ := seen_value h
        cases e
        exact ⟨v, rfl, hr, hl⟩
      · rw [if_neg hr] at h
        cases h)
  refine ⟨M, by rw [h4]; exact h1, ?_, ?_⟩
  · rw [← h4, List.pairwise_map] at h2
    refine h2.imp ?_
    intro a b h
    rcases h with h | h
    · exact h
    · exact absurd h.2 (Nat.lt_irrefl _)
  · intro v
    constructor
    · exact h5 v
    · rintro ⟨hr, hl⟩
      have hm : ((v.id, 0), f v) ∈ L := by
        refine (h3' _ _).2 ?_
        rw [htop, if_pos hr]
        exact seen_live hk hl
      rw [← h4] at hm
      obtain ⟨y, hy, e⟩ := List.mem_map.1 hm
      have hid : y.id = v.id := by
        have := congrArg (fun p : Key × α => p.1.1) e
        exact this
      have h6 := (h5 y hy).2
      rw [hid, hl] at h6
      cases h6
      exact hy

end Verif.VecQuery
