import Verif.AutoSplit.Scan

/-!
# The loops of the policies
-/

namespace Verif.AutoSplit
open Verif.Codec

theorem foldl_inv {σ : Type} {f : σ → Ent → σ} {P : List Ent → σ → Prop} {s : σ} {Q : Ent → Prop}
    (h0 : P [] s) (hs : ∀ p s e, (∀ x ∈ p, Q x) → Q e → P p s → P (p ++ [e]) (f s e)) :
    ∀ l, (∀ e ∈ l, Q e) → P l (l.foldl f s) := by
  have gen : ∀ l p s, (∀ x ∈ p, Q x) → (∀ e ∈ l, Q e) → P p s → P (p ++ l) (l.foldl f s) := by
    intro l
    induction l with
    | nil => intro p s _ _ h; rw [List.append_nil]; exact h
    | cons e l ih =>
      intro p s hp hl h
      have := ih (p ++ [e]) (f s e) (by
        intro x hx
        rcases List.mem_append.mp hx with hx | hx
        · exact hp x hx
        · simp at hx; exact hx ▸ hl e (by simp)) (fun x hx => hl x (by simp [hx]))
        (hs p s e hp (hl e (by simp)) h)
      simpa using this
  intro l hl
  have := gen l [] s (by simp) hl h0
  simpa using this

/-! ## HALF -/

structure HInv (C M : Nat) (p : List Ent) (s : Half) : Prop where
  size : s.size = total p
  room : 0 < C → s.chunk < C
  low : s.keys.length * C + s.chunk ≤ total p
  high : 0 < C → ∀ L, (∀ e ∈ p, e.size ≤ L) → total p ≤ s.keys.length * (C + L) + s.chunk
  first : s.keys = [] → s.chunk = total p
  place : ∀ i k, s.keys[i]? = some k → ∃ a e b, p = a ++ e :: b ∧ e.key = k ∧
    (i + 1) * C ≤ total a + e.size ∧ (s.keys.length - 1 - i) * C + s.chunk ≤ total b
  over : s.over = true ↔ M ≤ total p ∧ p ≠ []

theorem half_inv (C M : Nat) (l : List Ent) : HInv C M l (l.foldl (Half.step C M) {}) := by
  refine foldl_inv (Q := fun _ => True) (P := HInv C M) ?_ ?_ l (fun _ _ => trivial)
  · refine ⟨rfl, fun h => h, by simp [total], fun _ _ _ => by simp [total], fun _ => rfl, ?_, ?_⟩
    · intro i k h; simp at h
    · simp
  · intro p s e _ _ h
    have ht : total (p ++ [e]) = total p + e.size := by rw [total_append, total_cons]; simp [total]
    by_cases hc : s.chunk + e.size ≥ C
    · have hk : (Half.step C M s e).keys = s.keys ++ [e.key] := by simp [Half.step, hc]
      have hch : (Half.step C M s e).chunk = 0 := by simp [Half.step, hc]
      have hlen : (s.keys ++ [e.key]).length = s.keys.length + 1 := by simp
      refine ⟨?_, fun h0 => ?_, ?_, ?_, ?_, ?_, ?_⟩
      · rw [ht, ← h.size]; rfl
      · rw [hch]; exact h0
      · have := h.low
        rw [hk, hch, ht, hlen, Nat.add_mul]; omega
      · intro h0 L hL
        have h1 := h.high h0 L (fun x hx => hL x (by simp [hx]))
        have h2 := h.room h0
        have h3 := hL e (by simp)
        rw [hk, hch, ht, hlen, Nat.add_mul]; omega
      · intro hn; rw [hk] at hn; simp at hn
      · intro i k hi
        rw [hk] at hi
        rw [hk, hch, hlen]
        by_cases hl : i < s.keys.length
        · rw [List.getElem?_append_left hl] at hi
          obtain ⟨a, x, b, h1, h2, h3, h4⟩ := h.place i k hi
          refine ⟨a, x, b ++ [e], by rw [h1]; simp, h2, h3, ?_⟩
          have : s.keys.length + 1 - 1 - i = (s.keys.length - 1 - i) + 1 := by omega
          rw [this, Nat.add_mul, total_append, total_cons]
          simp [total] at *
          omega
        · have hi' : i = s.keys.length := by
            have := (List.getElem?_eq_some_iff.mp hi).1
            simp at this; omega
          subst hi'
          rw [List.getElem?_concat_length] at hi
          refine ⟨p, e, [], rfl, Option.some.inj hi, ?_, by simp [total]⟩
          have := h.low
          rw [Nat.add_mul]; omega
      · show (s.over || decide (s.size + e.size ≥ M)) = true ↔ _
        rw [Bool.or_eq_true, h.over, decide_eq_true_eq, h.size, ht]
        constructor
        · intro hx
          refine ⟨by omega, by simp⟩
        · intro hx; exact Or.inr hx.1
    · have hk : (Half.step C M s e).keys = s.keys := by simp [Half.step, hc]
      have hch : (Half.step C M s e).chunk = s.chunk + e.size := by simp [Half.step, hc]
      refine ⟨?_, fun h0 => ?_, ?_, ?_, ?_, ?_, ?_⟩
      · rw [ht, ← h.size]; rfl
      · rw [hch]; omega
      · have := h.low
        rw [hk, hch, ht]; omega
      · intro h0 L hL
        have h1 := h.high h0 L (fun x hx => hL x (by simp [hx]))
        rw [hk, hch, ht]; omega
      · intro hn; rw [hk] at hn; rw [hch, ht, h.first hn]
      · intro i k hi
        rw [hk] at hi
        rw [hk, hch]
        obtain ⟨a, x, b, h1, h2, h3, h4⟩ := h.place i k hi
        refine ⟨a, x, b ++ [e], by rw [h1]; simp, h2, h3, ?_⟩
        rw [total_append, total_cons]
        simp [total] at *
        omega
      · show (s.over || decide (s.size + e.size ≥ M)) = true ↔ _
        rw [Bool.or_eq_true, h.over, decide_eq_true_eq, h.size, ht]
        constructor
        · intro hx
          refine ⟨by omega, by simp⟩
        · intro hx; exact Or.inr hx.1

/-! ## SIZE -/

structure SInv (P M : Nat) (p : List Ent) (s : One) : Prop where
  n : s.n = total p
  none : s.key = [] → p ≠ [] → total p < P
  some : s.key ≠ [] → ∃ a e b, p = a ++ e :: b ∧ e.key = s.key ∧ (a = [] ∨ total a < P) ∧ P ≤ total a + e.size
  over : s.over = true → M ≤ total p
  done : 0 < P → (∀ e ∈ p, P + e.size ≤ M) → M ≤ total p → p ≠ [] → s.over = true ∧ s.key ≠ []

theorem size_inv (P M : Nat) {l : List Ent} (hne : ∀ e ∈ l, e.key ≠ []) : SInv P M l (l.foldl (One.sizeStep P M) {}) := by
  refine foldl_inv (Q := fun e => e.key ≠ []) (P := SInv P M) ?_ ?_ l hne
  · refine ⟨rfl, fun _ h => absurd rfl h, fun h => absurd rfl h, ?_, fun _ _ _ h => absurd rfl h⟩
    intro h; cases h
  · intro p s e _ hek h
    have ht : total (p ++ [e]) = total p + e.size := by rw [total_append, total_cons]; simp [total]
    have hnn : ∀ {X : Prop}, (p ++ [e] = [] → X) := fun hx => by simp at hx
    have hlater : s.key ≠ [] → ∃ a x b, p ++ [e] = a ++ x :: b ∧ x.key = s.key ∧ (a = [] ∨ total a < P) ∧ P ≤ total a + x.size := by
      intro hk
      obtain ⟨a, x, b, h1, h2, h3, h4⟩ := h.some hk
      exact ⟨a, x, b ++ [e], by rw [h1]; simp, h2, h3, h4⟩
    have hdn : 0 < P → (∀ x ∈ p ++ [e], P + x.size ≤ M) → M ≤ total p → s.over = true ∧ s.key ≠ [] := by
      intro h0 hx hm
      by_cases hp : p = []
      · subst hp
        have := hx e (by simp)
        simp [total] at hm
        omega
      · exact h.done h0 (fun x hx' => hx x (by simp [hx'])) hm hp
    unfold One.sizeStep
    dsimp only
    by_cases h1 : s.key = [] ∧ s.n + e.size ≥ P
    · rw [if_pos h1]
      refine ⟨by rw [ht, ← h.n], ?_, ?_, ?_, ?_⟩
      · intro hk; exact absurd hk hek
      · intro _
        refine ⟨p, e, [], rfl, rfl, ?_, by rw [← h.n]; exact h1.2⟩
        by_cases hp : p = []
        · exact Or.inl hp
        · exact Or.inr (h.none h1.1 hp)
      · intro ho
        have := h.over ho
        rw [ht]; omega
      · intro h0 hx hm _
        exfalso
        rw [ht] at hm
        have he := hx e (by simp)
        by_cases hp : p = []
        · subst hp
          simp [total] at hm
          omega
        · have := h.none h1.1 hp
          omega
    · rw [if_neg h1]
      by_cases h2 : s.n + e.size ≥ M
      · rw [if_pos h2]
        refine ⟨by rw [ht, ← h.n], ?_, hlater, ?_, ?_⟩
        · intro hk _
          have : ¬ (s.n + e.size ≥ P) := fun hc => h1 ⟨hk, hc⟩
          rw [ht, ← h.n]; omega
        · intro _; rw [ht, ← h.n]; exact h2
        · intro h0 hx hm _
          refine ⟨rfl, ?_⟩
          intro hk
          have : ¬ (s.n + e.size ≥ P) := fun hc => h1 ⟨hk, hc⟩
          have he := hx e (by simp)
          omega
      · rw [if_neg h2]
        refine ⟨by rw [ht, ← h.n], ?_, hlater, ?_, ?_⟩
        · intro hk _
          have : ¬ (s.n + e.size ≥ P) := fun hc => h1 ⟨hk, hc⟩
          rw [ht, ← h.n]; omega
        · intro ho
          have := h.over ho
          rw [ht]; omega
        · intro h0 hx hm _
          rw [ht, ← h.n] at hm
          exact absurd hm h2

/-! ## KEYS -/

/-- `p` has `n` different keys. -/
def Cnt (p : List Ent) (n : Nat) : Prop :=
  ∃ ks : List Bytes, ks.Nodup ∧ (∀ k, k ∈ ks ↔ ∃ e ∈ p, e.key = k) ∧ ks.length = n

structure KInv (N M : Nat) (p : List Ent) (s : One) : Prop where
  n : Cnt p s.n
  prev : (p = [] ∧ s.prev = []) ∨ ∃ q e, p = q ++ [e] ∧ s.prev = e.key
  none : s.key = [] → p ≠ [] → s.n < N
  some : s.key ≠ [] → ∃ a e b, p = a ++ e :: b ∧ e.key = s.key ∧ N ≤ (a ++ [e]).length
  over : s.over = true → ∃ q r n, p = q ++ r ∧ Cnt q n ∧ n = M
  done : 0 < N → N < M → M ≤ s.n → s.over = true ∧ s.key ≠ []

theorem length_le_of_subset {ks : List Bytes} (h : ks.Nodup) : ∀ {l : List Bytes}, ks ⊆ l → ks.length ≤ l.length := by
  induction ks with
  | nil => intro l _; simp
  | cons k ks ih =>
    intro l hl
    obtain ⟨h1, h2⟩ := List.nodup_cons.mp h
    have hk : k ∈ l := hl (by simp)
    have := ih h2 (l := l.erase k) (by
      intro x hx
      rw [List.mem_erase_of_ne (by rintro rfl; exact h1 hx)]
      exact hl (by simp [hx]))
    rw [List.length_erase_of_mem hk] at this
    have := List.length_pos_of_mem hk
    simp only [List.length_cons]
    omega

theorem Cnt.le_length {p : List Ent} {n : Nat} (h : Cnt p n) : n ≤ p.length := by
  obtain ⟨ks, h1, h2, rfl⟩ := h
  have hsub : ks ⊆ p.map Ent.key := by
    intro k hk
    obtain ⟨e, he, rfl⟩ := (h2 k).mp hk
    exact List.mem_map_of_mem he
  have := length_le_of_subset h1 hsub
  simpa using this

theorem Cnt.atLeast {p q : List Ent} {n m : Nat} (h : Cnt p n) (hs : ∀ e ∈ p, e ∈ q) (hm : m ≤ n) : AtLeast m q := by
  obtain ⟨ks, h1, h2, rfl⟩ := h
  refine ⟨ks, h1, ?_, hm⟩
  intro k hk
  obtain ⟨e, he, hk⟩ := (h2 k).mp hk
  exact ⟨e, hs e he, hk⟩

theorem Cnt.le_of_atLeast {p q : List Ent} {n m : Nat} (h : Cnt p n) (ha : AtLeast m q) (hs : ∀ e ∈ q, e ∈ p) : m ≤ n := by
  obtain ⟨ks, h1, h2, rfl⟩ := h
  obtain ⟨ls, g1, g2, g3⟩ := ha
  have hsub : ls ⊆ ks := by
    intro k hk
    obtain ⟨e, he, hk⟩ := g2 k hk
    exact (h2 k).mpr ⟨e, hs e he, hk⟩
  have := length_le_of_subset g1 hsub
  omega

theorem keys_inv (N M : Nat) {l : List Ent} (hne : ∀ e ∈ l, e.key ≠ []) (hs : l.Pairwise (fun a b => a.key ≤ b.key)) :
    KInv N M l (l.foldl (One.keysStep N M) {}) := by
  have := foldl_inv (Q := fun e => e.key ≠ []) (f := One.keysStep N M) (s := {})
    (P := fun p s => p.Pairwise (fun a b => a.key ≤ b.key) → KInv N M p s) ?_ ?_ l hne hs
  · exact this
  · intro _
    refine ⟨⟨[], List.nodup_nil, by simp, rfl⟩, Or.inl ⟨rfl, rfl⟩, fun _ h => absurd rfl h, fun h => absurd rfl h, ?_, ?_⟩
    · intro h; cases h
    · intro h1 h2 h3
      have : M ≤ 0 := h3
      omega
  · intro p s e hp hek ih hsort
    have hsp := (List.pairwise_append.mp hsort)
    have h := ih hsp.1
    have hle : ∀ x ∈ p, x.key ≤ e.key := fun x hx => hsp.2.2 x hx e (by simp)
    -- the count
    have hn : Cnt (p ++ [e]) (if s.prev ≠ e.key then s.n + 1 else s.n) := by
      obtain ⟨ks, h1, h2, h3⟩ := h.n
      by_cases hpe : s.prev ≠ e.key
      · rw [if_pos hpe]
        refine ⟨e.key :: ks, ?_, ?_, by simp [h3]⟩
        · refine List.nodup_cons.mpr ⟨?_, h1⟩
          intro hmem
          obtain ⟨x, hx, hxk⟩ := (h2 _).mp hmem
          rcases h.prev with ⟨hpn, _⟩ | ⟨q, y, hq, hy⟩
          · rw [hpn] at hx; cases hx
          · have hxy : x.key ≤ y.key := by
              rw [hq] at hx hsp
              rcases List.mem_append.mp hx with hx | hx
              · exact (List.pairwise_append.mp hsp.1).2.2 x hx y (by simp)
              · simp at hx; rw [hx]; exact List.le_refl _
            have hye : y.key ≤ e.key := hle y (by rw [hq]; simp)
            rw [hxk] at hxy
            apply hpe
            rw [hy]
            exact List.le_antisymm hye hxy
        · intro k
          rw [List.mem_cons, h2]
          simp only [List.mem_append, List.mem_singleton]
          constructor
          · rintro (rfl | ⟨x, hx, hk⟩)
            · exact ⟨e, Or.inr rfl, rfl⟩
            · exact ⟨x, Or.inl hx, hk⟩
          · rintro ⟨x, hx | rfl, hk⟩
            · exact Or.inr ⟨x, hx, hk⟩
            · exact Or.inl hk.symm
      · rw [if_neg hpe]
        have hpe : s.prev = e.key := Classical.byContradiction hpe
        refine ⟨ks, h1, ?_, h3⟩
        intro k
        rw [h2]
        simp only [List.mem_append, List.mem_singleton]
        constructor
        · rintro ⟨x, hx, hk⟩; exact ⟨x, Or.inl hx, hk⟩
        · rintro ⟨x, hx | rfl, hk⟩
          · exact ⟨x, hx, hk⟩
          · rcases h.prev with ⟨_, hpn⟩ | ⟨q, y, hq, hy⟩
            · rw [hpn] at hpe; exact absurd hpe.symm hek
            · exact ⟨y, by rw [hq]; simp, by rw [← hy, hpe, hk]⟩
    have hprev : (p ++ [e] = [] ∧ e.key = []) ∨ ∃ q x, p ++ [e] = q ++ [x] ∧ e.key = x.key := Or.inr ⟨p, e, rfl, rfl⟩
    have hlater : s.key ≠ [] → ∃ a x b, p ++ [e] = a ++ x :: b ∧ x.key = s.key ∧ N ≤ (a ++ [x]).length := by
      intro hk
      obtain ⟨a, x, b, h1, h2, h3⟩ := h.some hk
      exact ⟨a, x, b ++ [e], by rw [h1]; simp, h2, h3⟩
    have hover : s.over = true → ∃ q r n, p ++ [e] = q ++ r ∧ Cnt q n ∧ n = M := by
      intro ho
      obtain ⟨q, r, n, h1, h2, h3⟩ := h.over ho
      exact ⟨q, r ++ [e], n, by rw [h1]; simp, h2, h3⟩
    have hsn : p = [] → s.n = 0 := by
      intro hpn
      have := h.n.le_length
      rw [hpn] at this
      simpa using this
    unfold One.keysStep
    dsimp only
    generalize hgn : (if s.prev ≠ e.key then s.n + 1 else s.n) = n' at hn
    have hn1 : n' ≤ s.n + 1 ∧ s.n ≤ n' := by rw [← hgn]; split <;> omega
    by_cases h1 : s.key = [] ∧ n' ≥ N
    · rw [if_pos h1]
      refine ⟨hn, hprev, fun hk => absurd hk hek, ?_, hover, ?_⟩
      · intro _
        exact ⟨p, e, [], rfl, rfl, Nat.le_trans h1.2 hn.le_length⟩
      · intro h0 hNM hM
        exfalso
        have hM : M ≤ n' := hM
        by_cases hpn : p = []
        · have := hsn hpn; omega
        · have := h.none h1.1 hpn; omega
    · rw [if_neg h1]
      by_cases h2 : n' = M
      · rw [if_pos h2]
        refine ⟨hn, hprev, ?_, hlater, fun _ => ⟨p ++ [e], [], n', by simp, hn, h2⟩, ?_⟩
        · intro hk _
          have : ¬ (n' ≥ N) := fun hc => h1 ⟨hk, hc⟩
          show n' < N
          omega
        · intro h0 hNM hM
          refine ⟨rfl, ?_⟩
          intro hk
          have hk : s.key = [] := hk
          have : ¬ (n' ≥ N) := fun hc => h1 ⟨hk, hc⟩
          omega
      · rw [if_neg h2]
        refine ⟨hn, hprev, ?_, hlater, hover, ?_⟩
        · intro hk _
          have : ¬ (n' ≥ N) := fun hc => h1 ⟨hk, hc⟩
          show n' < N
          omega
        · intro h0 hNM hM
          have hM : M ≤ n' := hM
          exact h.done h0 hNM (by omega)

/-! ## The policies -/

/-- The key that is chosen is that of an entry, with the lead before it. -/
theorem chosen {es : List Ent} (hne : ∀ e ∈ es, e.key ≠ []) (hs : es.Pairwise (fun a b => a.key ≤ b.key))
    {p : Policy} (h : splitKey es p ≠ []) :
    Large p es ∧ ∃ a e b, es = a ++ e :: b ∧ e.key = splitKey es p ∧ p.lead ≤ p.weight (a ++ [e]) := by
  cases p with
  | half C M =>
    have hi := half_inv C M es
    simp only [splitKey] at h ⊢
    generalize es.foldl (Half.step C M) {} = s at hi h ⊢
    cases ho : s.over with
    | false => rw [ho] at h; exact absurd rfl h
    | true =>
      simp only [ho, if_true] at h ⊢
      cases hk : s.keys[s.keys.length / 2]? with
      | none => rw [hk] at h; exact absurd rfl h
      | some k =>
        obtain ⟨a, e, b, h1, h2, h3, _⟩ := hi.place _ _ hk
        refine ⟨(hi.over.mp ho).1, a, e, b, h1, by simpa using h2, ?_⟩
        show C ≤ total (a ++ [e])
        rw [total_append, total_cons]
        rw [Nat.add_mul] at h3
        simp [total] at *
        omega
  | size P M =>
    have hi := size_inv P M hne
    simp only [splitKey] at h ⊢
    generalize es.foldl (One.sizeStep P M) {} = s at hi h ⊢
    cases ho : s.over with
    | false => rw [ho] at h; exact absurd rfl h
    | true =>
      simp only [ho, if_true] at h ⊢
      obtain ⟨a, e, b, h1, h2, _, h3⟩ := hi.some h
      refine ⟨hi.over ho, a, e, b, h1, h2, ?_⟩
      show P ≤ total (a ++ [e])
      rw [total_append, total_cons]
      simp [total] at *
      omega
  | keys N M =>
    have hi := keys_inv N M hne hs
    simp only [splitKey] at h ⊢
    generalize es.foldl (One.keysStep N M) {} = s at hi h ⊢
    cases ho : s.over with
    | false => rw [ho] at h; exact absurd rfl h
    | true =>
      simp only [ho, if_true] at h ⊢
      obtain ⟨a, e, b, h1, h2, h3⟩ := hi.some h
      obtain ⟨q, r, n, g1, g2, g3⟩ := hi.over ho
      refine ⟨g2.atLeast (fun e he => by rw [g1]; simp [he]) (Nat.le_of_eq g3.symm), a, e, b, h1, h2, h3⟩

/-- A large region gets a key. -/
theorem choose {es : List Ent} (hne : ∀ e ∈ es, e.key ≠ []) (hs : es.Pairwise (fun a b => a.key ≤ b.key))
    {p : Policy} (hp : p.Sane es) (hl : Large p es) : splitKey es p ≠ [] := by
  cases p with
  | half C M =>
    have hi := half_inv C M es
    obtain ⟨h0, hCM⟩ := hp
    simp only [splitKey]
    generalize es.foldl (Half.step C M) {} = s at hi ⊢
    have hM : M ≤ total es := hl
    have hes : es ≠ [] := by
      rintro rfl
      simp [total] at hM
      omega
    rw [hi.over.mpr ⟨hM, hes⟩]
    have hk : s.keys ≠ [] := by
      intro hk
      have h1 := hi.first hk
      have h2 := hi.room h0
      omega
    have hlen : s.keys.length / 2 < s.keys.length := by
      have := List.length_pos_iff.mpr hk
      omega
    rw [List.getElem?_eq_getElem hlen]
    obtain ⟨a, e, b, h1, h2, _⟩ := hi.place _ _ (List.getElem?_eq_getElem hlen)
    simp only [if_true, Option.getD_some]
    rw [← h2]
    exact hne e (by rw [h1]; simp)
  | size P M =>
    have hi := size_inv P M hne
    obtain ⟨h0, hP⟩ := hp
    simp only [splitKey]
    generalize es.foldl (One.sizeStep P M) {} = s at hi ⊢
    have hM : M ≤ total es := hl
    have hes : es ≠ [] := by
      rintro rfl
      simp [total] at hM
      omega
    have := hi.done h0 hP.2 hM hes
    rw [this.1]
    exact this.2
  | keys N M =>
    have hi := keys_inv N M hne hs
    obtain ⟨h0, hP⟩ := hp
    simp only [splitKey]
    generalize es.foldl (One.keysStep N M) {} = s at hi ⊢
    have := hi.done h0 hP (hi.n.le_of_atLeast hl (fun e he => he))
    rw [this.1]
    exact this.2

end Verif.AutoSplit
