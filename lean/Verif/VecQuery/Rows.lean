import Verif.VecQuery.Spec

/-! # Rows of a column family (lemmas) -/

namespace Verif.VecQuery

variable {α : Type}

theorem Key.lt_irrefl (a : Key) : ¬ Key.lt a a := by unfold Key.lt; omega

theorem Key.lt_trans {a b c : Key} (h : Key.lt a b) (h' : Key.lt b c) : Key.lt a c := by
  unfold Key.lt at *; omega

theorem Key.lt_total (a b : Key) : Key.lt a b ∨ a = b ∨ Key.lt b a := by
  obtain ⟨a1, a2⟩ := a
  obtain ⟨b1, b2⟩ := b
  unfold Key.lt
  simp only [Prod.mk.injEq]
  omega

theorem Row.lt_irrefl (a : Row α) : ¬ Row.lt a a := by
  rintro (h | h)
  · exact Key.lt_irrefl _ h
  · omega

theorem Row.lt_trans {a b c : Row α} (h : Row.lt a b) (h' : Row.lt b c) : Row.lt a c := by
  rcases h with h | ⟨h, h2⟩ <;> rcases h' with h' | ⟨h', h2'⟩
  · exact Or.inl (Key.lt_trans h h')
  · exact Or.inl (h' ▸ h)
  · exact Or.inl (h ▸ h')
  · exact Or.inr ⟨h.trans h', by omega⟩

/-- A column family is in order. -/
def Sorted (cf : Cf α) : Prop := cf.Pairwise Row.lt

theorem put_mem {k : Key} {ts : Int} {v : Ver α} : ∀ {cf : Cf α} {r : Row α},
    r ∈ put k ts v cf → r = ⟨k, ts, v⟩ ∨ r ∈ cf := by
  intro cf
  induction cf with
  | nil => intro r h; simp only [put, List.mem_singleton] at h; exact Or.inl h
  | cons a as ih =>
    intro r h
    unfold put at h
    split at h
    · rcases List.mem_cons.1 h with h | h
      · exact Or.inl h
      · exact Or.inr h
    · split at h
      · rcases List.mem_cons.1 h with h | h
        · exact Or.inl h
        · exact Or.inr (List.mem_cons_of_mem _ h)
      · rcases List.mem_cons.1 h with h | h
        · exact Or.inr (h ▸ List.mem_cons_self)
        · rcases ih h with h | h
          · exact Or.inl h
          · exact Or.inr (List.mem_cons_of_mem _ h)

theorem put_sorted {k : Key} {ts : Int} {v : Ver α} : ∀ {cf : Cf α}, Sorted cf → Sorted (put k ts v cf) := by
  intro cf
  induction cf with
  | nil => intro _; exact List.pairwise_singleton _ _
  | cons a as ih =>
    intro h
    have h' := List.pairwise_cons.1 h
    unfold put
    split
    · rename_i hlt
      refine List.pairwise_cons.2 ⟨?_, h⟩
      intro b hb
      rcases List.mem_cons.1 hb with hb | hb
      · exact hb ▸ hlt
      · exact Row.lt_trans hlt (h'.1 b hb)
    · split
      · rename_i he
        refine List.pairwise_cons.2 ⟨?_, h'.2⟩
        intro b hb
        have := h'.1 b hb
        unfold Row.lt at this ⊢
        rw [he.1, he.2]
        exact this
      · rename_i hn he
        refine List.pairwise_cons.2 ⟨?_, ih h'.2⟩
        intro b hb
        rcases put_mem hb with hb | hb
        · rw [hb]
          unfold Row.lt at hn ⊢
          rcases Key.lt_total a.key k with hk | hk | hk
          · exact Or.inl hk
          · refine Or.inr ⟨hk, ?_⟩
            have h1 : ¬ a.ts < ts := fun h => hn (Or.inr ⟨hk.symm, h⟩)
            have h2 : ts ≠ a.ts := fun h => he ⟨hk.symm, h⟩
            show ts < a.ts
            omega
          · exact absurd (Or.inl hk) hn
        · exact h'.1 b hb

/-- The row of `k` an MVCC read at `T` finds. -/
def top (T : Int) (k : Key) (cf : Cf α) : Option (Row α) := cf.find? fun r => decide (r.key = k ∧ r.ts ≤ T)

/-- One more write. -/
def upd (T : Int) (k : Key) (cur : Option (Row α)) (w : Row α) : Option (Row α) :=
  if w.key = k ∧ w.ts ≤ T ∧ (∀ r, cur = some r → r.ts ≤ w.ts) then some w else cur

theorem upd_ne {T : Int} {k : Key} {cur : Option (Row α)} {w : Row α} (h : w.key ≠ k) : upd T k cur w = cur := by
  unfold upd
  rw [if_neg (fun h' => h h'.1)]

theorem top_mem {T : Int} {k : Key} {cf : Cf α} {r : Row α} (h : top T k cf = some r) :
    r ∈ cf ∧ r.key = k ∧ r.ts ≤ T := by
  refine ⟨List.mem_of_find?_eq_some h, ?_⟩
  have := List.find?_some h
  simpa using this

theorem top_cons_ne {T : Int} {k : Key} {cf : Cf α} {r : Row α} (h : ¬ (r.key = k ∧ r.ts ≤ T)) :
    top T k (r :: cf) = top T k cf := by
  unfold top
  rw [List.find?_cons_of_neg]
  simpa using h

theorem top_cons_eq {T : Int} {k : Key} {cf : Cf α} {r : Row α} (h : r.key = k ∧ r.ts ≤ T) :
    top T k (r :: cf) = some r := by
  unfold top
  rw [List.find?_cons_of_pos]
  simpa using h

theorem top_put {T : Int} {k k' : Key} {ts : Int} {v : Ver α} : ∀ {cf : Cf α}, Sorted cf →
    top T k (put k' ts v cf) = upd T k (top T k cf) ⟨k', ts, v⟩ := by
  intro cf
  induction cf with
  | nil =>
    intro _
    unfold upd put
    by_cases h : k' = k ∧ ts ≤ T
    · rw [top_cons_eq h, if_pos ⟨h.1, h.2, by intro r h; cases h⟩]
    · rw [top_cons_ne h, if_neg (fun h' => h ⟨h'.1, h'.2.1⟩)]
  | cons a as ih =>
    intro hs
    have hs' := List.pairwise_cons.1 hs
    have hafter : ∀ r, top T k (a :: as) = some r → r = a ∨ Row.lt a r := by
      intro r hr
      rcases List.mem_cons.1 (top_mem hr).1 with h | h
      · exact Or.inl h
      · exact Or.inr (hs'.1 r h)
    unfold put
    split
    · rename_i hlt
      unfold upd
      by_cases h : k' = k ∧ ts ≤ T
      · rw [top_cons_eq h, if_pos]
        refine ⟨h.1, h.2, ?_⟩
        intro r hr
        have hlt' : Row.lt ⟨k', ts, v⟩ r := by
          rcases hafter r hr with e | e
          · exact e ▸ hlt
          · exact Row.lt_trans hlt e
        rcases hlt' with e | e
        · exact absurd ((top_mem hr).2.1.trans h.1.symm ▸ e) (Key.lt_irrefl _)
        · exact Int.le_of_lt e.2
      · rw [top_cons_ne h, if_neg (fun h' => h ⟨h'.1, h'.2.1⟩)]
    · rename_i hn
      split
      · rename_i he
        unfold upd
        by_cases h : k' = k ∧ ts ≤ T
        · have ha : a.key = k ∧ a.ts ≤ T := by rw [← he.1, ← he.2]; exact h
          rw [top_cons_eq h, top_cons_eq ha, if_pos]
          refine ⟨h.1, h.2, ?_⟩
          intro r hr
          cases hr
          exact Int.le_of_eq he.2.symm
        · have ha : ¬ (a.key = k ∧ a.ts ≤ T) := by rw [← he.1, ← he.2]; exact h
          rw [top_cons_ne h, top_cons_ne ha, if_neg (fun h' => h ⟨h'.1, h'.2.1⟩)]
      · rename_i he
        by_cases ha : a.key = k ∧ a.ts ≤ T
        · rw [top_cons_eq ha, top_cons_eq ha]
          unfold upd
          rw [if_neg]
          intro ⟨h1, h2, h3⟩
          have h4 : a.ts ≤ ts := h3 a rfl
          have hk : k' = a.key := h1.trans ha.1.symm
          by_cases e : a.ts = ts
          · exact he ⟨hk, e.symm⟩
          · exact hn (Or.inr ⟨hk, by show a.ts < ts; omega⟩)
        · rw [top_cons_ne ha, top_cons_ne ha]
          exact ih hs'.2

/-- A column family after writes. -/
def puts (cf : Cf α) (ws : List (Row α)) : Cf α := ws.foldl (fun cf w => put w.key w.ts w.ver cf) cf

theorem puts_sorted : ∀ {ws : List (Row α)} {cf : Cf α}, Sorted cf → Sorted (puts cf ws) := by
  intro ws
  induction ws with
  | nil => intro cf h; exact h
  | cons w ws ih => intro cf h; exact ih (put_sorted h)

theorem top_puts {T : Int} {k : Key} : ∀ {ws : List (Row α)} {cf : Cf α}, Sorted cf →
    top T k (puts cf ws) = ws.foldl (upd T k) (top T k cf) := by
  intro ws
  induction ws with
  | nil => intro cf _; rfl
  | cons w ws ih =>
    intro cf h
    show top T k (puts (put w.key w.ts w.ver cf) ws) = _
    rw [ih (put_sorted h), top_put h]
    rfl

theorem puts_append {cf : Cf α} {a b : List (Row α)} : puts cf (a ++ b) = puts (puts cf a) b := by
  unfold puts
  rw [List.foldl_append]

/-! ## Reads -/

/-- What a read makes of the row it finds. -/
def seen [Blob α] (now : Int) : Option (Row α) → Get α
  | none => .notFound
  | some r =>
    match r.ver with
    | .del => .notFound
    | .putTTL ttl v => if Blob.empty v then .abort else if ttl < now then .notFound else .value v
    | .put v => .value v

theorem forward_same [Blob α] {ts now : Int} {k : Key} : ∀ {cf : Cf α}, (∀ r ∈ cf, r.key = k) →
    forward ts now (some k) cf = [] := by
  intro cf
  induction cf with
  | nil => intro _; rfl
  | cons a as ih =>
    intro h
    unfold forward
    rw [if_pos (by rw [h a List.mem_cons_self])]
    exact ih (fun r hr => h r (List.mem_cons_of_mem _ hr))

theorem forward_key [Blob α] {T now : Int} {k : Key} : ∀ {cf : Cf α}, (∀ r ∈ cf, r.key = k) →
    forward T now none cf =
      (match seen now (top T k cf) with
      | .notFound => []
      | .value v => [.row k v]
      | .abort => [.abort]) := by
  intro cf
  induction cf with
  | nil => intro _; rfl
  | cons a as ih =>
    intro h
    have ha := h a List.mem_cons_self
    have hr : ∀ r ∈ as, r.key = k := fun r hr => h r (List.mem_cons_of_mem _ hr)
    unfold forward
    rw [if_neg (by simp)]
    by_cases ht : a.ts > T
    · rw [if_pos ht, top_cons_ne (by intro h; omega)]
      exact ih hr
    · rw [if_neg ht, top_cons_eq ⟨ha, by omega⟩, ha]
      obtain ⟨ak, at', av⟩ := a
      cases av with
      | del => simp only [seen]; exact forward_same hr
      | put v => simp only [seen]; rw [forward_same hr]
      | putTTL ttl v =>
        simp only [seen]
        split
        · rfl
        · split
          · exact forward_same hr
          · rw [forward_same hr]

theorem top_filter {T : Int} {k : Key} {cf : Cf α} :
    top T k (cf.filter fun r => decide (r.key = k)) = top T k cf := by
  induction cf with
  | nil => rfl
  | cons a as ih =>
    by_cases h : a.key = k
    · rw [List.filter_cons_of_pos (by simpa using h)]
      by_cases ht : a.ts ≤ T
      · rw [top_cons_eq ⟨h, ht⟩, top_cons_eq ⟨h, ht⟩]
      · rw [top_cons_ne (by intro h; exact ht h.2), top_cons_ne (by intro h; exact ht h.2)]
        exact ih
    · rw [List.filter_cons_of_neg (by simpa using h), top_cons_ne (by intro h'; exact h h'.1)]
      exact ih

theorem kvGet_eq [Blob α] {cf : Cf α} {now ts : Int} {k : Key} :
    kvGet cf now ts k = seen now (top (effTs ts) k cf) := by
  unfold kvGet
  rw [forward_key (k := k) (by intro r hr; simpa using (List.mem_filter.1 hr).2), top_filter]
  generalize seen now (top (effTs ts) k cf) = g
  cases g <;> rfl

end Verif.VecQuery
