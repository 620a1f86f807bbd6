import Verif.VecQuery.Flat
import Verif.VecQuery.Scan

/-! # Searching the indexes of a region, and the data itself (lemmas) -/

namespace Verif.VecQuery

theorem inIx_append {F : Faiss} {m : Metric} {a b : Index} {fs : List Filter} {q : Vec} {h : Hit} :
    InIx F m (a ++ b) fs q h ↔ InIx F m a fs q h ∨ InIx F m b fs q h := by
  unfold InIx
  constructor
  · rintro ⟨v, h1, h2⟩
    rcases List.mem_append.1 h1 with h1 | h1
    · exact Or.inl ⟨v, h1, h2⟩
    · exact Or.inr ⟨v, h1, h2⟩
  · rintro (⟨v, h1, h2⟩ | ⟨v, h1, h2⟩)
    · exact ⟨v, List.mem_append_left _ h1, h2⟩
    · exact ⟨v, List.mem_append_right _ h1, h2⟩

theorem inIx_apart {F : Faiss} {m : Metric} {a b : Index} {fs fs' : List Filter} {q : Vec}
    (hd : ∀ p ∈ b, p.1 ∉ a.map (·.1)) {x y : Hit} (hx : InIx F m a fs q x) (hy : InIx F m b fs' q y) : x.id ≠ y.id := by
  obtain ⟨v, h1, _⟩ := hx
  obtain ⟨u, h2, _⟩ := hy
  intro e
  exact hd _ h2 (List.mem_map.2 ⟨_, h1, e⟩)

/-! ## The indexes of a region -/

theorem held_own {F : Faiss} {m : Metric} {w : Wrap} {g : Region} (hf : w.Fits g) (hs : w.sibling = none)
    {fs : List Filter} {q : Vec} {h : Hit} :
    InIx F m w.own (ownFilters w g fs) q h ↔ Held F m w g (fun x => ∀ f ∈ fs, f.check x = true) q h := by
  unfold InIx Held Wrap.Holds
  rw [hs]
  have hp : ∀ v, (h.id, v) ∈ w.own → (pass (ownFilters w g fs) h.id = true ↔
      (g.lo ≤ h.id ∧ h.id < g.hi) ∧ ∀ f ∈ fs, f.check h.id = true) := by
    intro v hv
    rw [pass_iff]
    unfold ownFilters
    split
    · rename_i hg
      have := hf.inside hs hg _ hv
      exact ⟨fun h => ⟨this, h⟩, fun h => h.2⟩
    · constructor
      · intro h
        have h1 := h (.range g.lo g.hi) (List.mem_append_right _ List.mem_cons_self)
        simp [Filter.check] at h1
        exact ⟨⟨by omega, h1.2⟩, fun f hf => h f (List.mem_append_left _ hf)⟩
      · rintro ⟨h1, h2⟩ f hf
        rcases List.mem_append.1 hf with hf | hf
        · exact h2 f hf
        · rw [List.mem_singleton] at hf
          subst hf
          simp [Filter.check]
          omega
  constructor
  · rintro ⟨v, h1, h2, h3⟩
    obtain ⟨h4, h5⟩ := (hp v h1).1 h2
    exact ⟨v, Or.inl h1, h4, h5, h3⟩
  · rintro ⟨v, h1, h2, h3, h4⟩
    rcases h1 with h1 | ⟨s, h1, _⟩
    · exact ⟨v, h1, (hp v h1).2 ⟨h2, h3⟩, h4⟩
    · cases h1

theorem held_both {F : Faiss} {m : Metric} {w : Wrap} {g : Region} (hf : w.Fits g) {s : Index} (hs : w.sibling = some s)
    {fs : List Filter} {q : Vec} {h : Hit} :
    InIx F m s fs q h ∨ InIx F m w.own fs q h ↔ Held F m w g (fun x => ∀ f ∈ fs, f.check x = true) q h := by
  unfold InIx Held Wrap.Holds
  rw [hs]
  obtain ⟨h1, h2⟩ := hf.both s hs
  constructor
  · rintro (⟨v, h3, h4, h5⟩ | ⟨v, h3, h4, h5⟩)
    · exact ⟨v, Or.inr ⟨s, rfl, h3⟩, h2 _ h3, pass_iff.1 h4, h5⟩
    · exact ⟨v, Or.inl h3, h1 _ h3, pass_iff.1 h4, h5⟩
  · rintro ⟨v, h3, h4, h5, h6⟩
    rcases h3 with h3 | ⟨s', e, h3⟩
    · exact Or.inr ⟨v, h3, pass_iff.2 h5, h6⟩
    · cases e
      exact Or.inl ⟨v, h3, pass_iff.2 h5, h6⟩

/-- The search of the indexes of a region, given that of one index. -/
theorem wrap_each {P : Pool} {w : Wrap} {g : Region} {fs : List Filter} {k : Nat} {qs : List Vec}
    {f : Index → List Filter → Vec → List Hit} (hr : w.ready = true) (hP : P.Fair qs)
    {R : Vec → List Hit → Prop}
    (h0 : w.sibling = none → ∀ q ∈ qs, R q (f w.own (ownFilters w g fs) q))
    (h1 : ∀ s, w.sibling = some s → ∀ q ∈ qs, R q (mergeHits k (f s fs q) (f w.own fs q))) :
    ∃ rs, wrapSearch P w g fs k qs f = .ok rs ∧ Each qs R rs := by
  unfold wrapSearch
  rw [hr]
  cases hs : w.sibling with
  | none =>
    simp only [Bool.not_true, Bool.false_eq_true, if_false]
    exact ⟨_, rfl, by rw [parallel_fair hP]; exact each_map (h0 hs)⟩
  | some s =>
    simp only [Bool.not_true, Bool.false_eq_true, if_false]
    refine ⟨_, rfl, ?_⟩
    rw [parallel_fair hP, parallel_fair hP]
    refine each_zip (R := fun q a => a = f s fs q) (each_map (fun q _ => rfl)) ?_
    intro q hq a e
    subst e
    exact h1 s hs q hq

theorem mergeHits_mem : ∀ {k : Nat} {A B : List Hit}, A.length + B.length ≤ k → ∀ h, h ∈ mergeHits k A B ↔ h ∈ A ∨ h ∈ B := by
  intro k
  induction k with
  | zero =>
    intro A B hl h
    have h1 : A = [] := List.length_eq_zero_iff.1 (by omega)
    have h2 : B = [] := List.length_eq_zero_iff.1 (by omega)
    subst h1 h2
    simp [mergeHits]
  | succ n ih =>
    intro A B hl h
    cases A with
    | nil =>
      cases B with
      | nil => simp [mergeHits]
      | cons b B =>
        show h ∈ b :: mergeHits n [] B ↔ _
        rw [List.mem_cons, ih (by simp at hl ⊢; omega)]
        simp
    | cons a A =>
      cases B with
      | nil =>
        show h ∈ a :: mergeHits n A [] ↔ _
        rw [List.mem_cons, ih (by simp at hl ⊢; omega)]
        simp
      | cons b B =>
        unfold mergeHits
        split
        · rw [List.mem_cons, ih (by simp at hl ⊢; omega), List.mem_cons (a := h) (b := a), or_assoc]
        · rw [List.mem_cons, ih (by simp at hl ⊢; omega), List.mem_cons (a := h) (b := b)]
          constructor
          · rintro (h | h | h) <;> simp [h]
          · rintro (h | h | h) <;> simp [h]

theorem mergeHits_once : ∀ {k : Nat} {A B : List Hit}, (A.map (·.id)).Nodup → (B.map (·.id)).Nodup →
    (∀ a ∈ A, ∀ b ∈ B, a.id ≠ b.id) →
    ((mergeHits k A B).map (·.id)).Nodup ∧ ∀ h ∈ mergeHits k A B, h ∈ A ∨ h ∈ B := by
  intro k
  induction k with
  | zero => intro A B _ _ _; simp [mergeHits]
  | succ n ih =>
    have key : ∀ {a : Hit} {C D res : List Hit}, (∀ x ∈ C, a.id ≠ x.id) → (∀ x ∈ D, a.id ≠ x.id) →
        ((res.map (·.id)).Nodup ∧ ∀ h ∈ res, h ∈ C ∨ h ∈ D) →
        (((a :: res).map (·.id)).Nodup ∧ ∀ h ∈ a :: res, h ∈ a :: C ∨ h ∈ D) := by
      intro a C D res h1 h2 hT
      constructor
      · rw [List.map_cons, List.nodup_cons]
        refine ⟨?_, hT.1⟩
        intro hm
        obtain ⟨x, hx, e⟩ := List.mem_map.1 hm
        rcases hT.2 x hx with h5 | h5
        · exact h1 x h5 e.symm
        · exact h2 x h5 e.symm
      · intro h hh
        rcases List.mem_cons.1 hh with rfl | hh
        · exact Or.inl List.mem_cons_self
        · rcases hT.2 h hh with h5 | h5
          · exact Or.inl (List.mem_cons_of_mem _ h5)
          · exact Or.inr h5
    have swap : ∀ {S S' res : List Hit}, ((res.map (·.id)).Nodup ∧ ∀ h ∈ res, h ∈ S ∨ h ∈ S') →
        ((res.map (·.id)).Nodup ∧ ∀ h ∈ res, h ∈ S' ∨ h ∈ S) := fun h => ⟨h.1, fun x hx => (h.2 x hx).symm⟩
    intro A B hA hB hd
    cases A with
    | nil =>
      cases B with
      | nil => simp [mergeHits]
      | cons b B =>
        rw [List.map_cons, List.nodup_cons] at hB
        have := ih (A := []) (B := B) List.nodup_nil hB.2 (by intro a ha; cases ha)
        exact swap (key (fun x hx e => hB.1 (List.mem_map.2 ⟨x, hx, e.symm⟩)) (by intro x hx; cases hx) (swap this))
    | cons a A =>
      rw [List.map_cons, List.nodup_cons] at hA
      cases B with
      | nil =>
        have := ih (A := A) (B := []) hA.2 List.nodup_nil (by intro a ha b hb; cases hb)
        exact key (fun x hx e => hA.1 (List.mem_map.2 ⟨x, hx, e.symm⟩)) (by intro x hx; cases hx) this
      | cons b B =>
        unfold mergeHits
        split
        · have := ih (A := A) (B := b :: B) hA.2 hB (fun x hx => hd x (List.mem_cons_of_mem _ hx))
          exact key (fun x hx e => hA.1 (List.mem_map.2 ⟨x, hx, e.symm⟩)) (fun x hx => hd a List.mem_cons_self x hx) this
        · rw [List.map_cons, List.nodup_cons] at hB
          have := ih (A := a :: A) (B := B) (by rw [List.map_cons, List.nodup_cons]; exact hA) hB.2
            (fun x hx y hy => hd x hx y (List.mem_cons_of_mem _ hy))
          exact swap (key (fun x hx e => hB.1 (List.mem_map.2 ⟨x, hx, e.symm⟩))
            (fun x hx e => hd x hx b List.mem_cons_self e.symm) (swap this))

/-! ## Brute force -/

/-- The loop keeps what each batch keeps. -/
theorem bruteLoop_inv {size : Nat} {batch : Nat → Index → List (List Hit) → List (List Hit)}
    {I : Index → List (List Hit) → Prop}
    (hb : ∀ n done rows tops, ((done ++ rows).map (·.1)).Nodup → (∀ p ∈ rows, 0 < p.1) → I done tops →
      I (done ++ rows) (batch n rows tops)) :
    ∀ {L : Index} {n : Nat} {done rows : Index} {tops : List (List Hit)}, ((done ++ (rows ++ L)).map (·.1)).Nodup →
      (∀ p ∈ rows ++ L, 0 < p.1) → I done tops →
      ∃ tops', bruteLoop size batch n rows tops (items (L.map fun p => ((p.1, 0), p.2))) = .ok tops' ∧
        I (done ++ (rows ++ L)) tops' := by
  intro L
  induction L with
  | nil =>
    intro n done rows tops hn hp hI
    refine ⟨_, rfl, ?_⟩
    rw [List.append_nil] at hn hp ⊢
    cases rows with
    | nil => simpa using hI
    | cons r rows => exact hb n done _ tops hn hp hI
  | cons p L ih =>
    intro n done rows tops hn hp hI
    have hpp : 0 < p.1 := hp p (List.mem_append_right _ List.mem_cons_self)
    have e1 : rows ++ p :: L = (rows ++ [p]) ++ L := by simp
    rw [e1] at hn hp ⊢
    show ∃ tops', bruteLoop size batch n rows tops (.row (p.1, 0) p.2 :: items (L.map fun p => ((p.1, 0), p.2))) = _ ∧ _
    unfold bruteLoop
    dsimp only
    rw [if_neg (by omega)]
    by_cases hsz : (rows ++ [(p.1, p.2)]).length = size
    · rw [if_pos hsz]
      rw [← List.append_assoc] at hn
      have h1 := hb n done (rows ++ [p]) tops (by
        rw [List.map_append, List.nodup_append] at hn
        exact hn.1) (fun x hx => hp x (List.mem_append_left _ hx)) hI
      obtain ⟨tops', h2, h3⟩ := ih (n := n + 1) (done := done ++ (rows ++ [p])) (rows := []) (tops := batch n (rows ++ [p]) tops)
        (by simpa using hn) (by intro x hx; exact hp x (List.mem_append_right _ (by simpa using hx))) h1
      exact ⟨tops', h2, by simpa using h3⟩
    · rw [if_neg hsz]
      obtain ⟨tops', h2, h3⟩ := ih (n := n) (done := done) (rows := rows ++ [p]) (tops := tops) hn hp hI
      exact ⟨tops', h2, h3⟩

theorem brute_each {F : Faiss} (hF : F.Exact) {m : Metric} {P : Pool} {fs : List Filter} {k : Nat} (hk : 0 < k)
    {qs : List Vec} (hP : P.Fair qs) {size : Nat} {L : Index} (hn : (L.map (·.1)).Nodup) (hp : ∀ p ∈ L, 0 < p.1) :
    ∃ rs, bruteLoop size (fun n rows tops =>
        List.zipWith (fun t r => r.foldl (pushHit k) t) tops
          (parallel P.size (P.order n) (flatSearch F m rows fs k) qs)) 0 [] (List.replicate qs.length [])
        (items (L.map fun p => ((p.1, 0), p.2))) = .ok rs ∧
      Each qs (fun q t => TopK k (InIx F m L fs q) t) rs := by
  obtain ⟨rs, h1, h2⟩ := bruteLoop_inv (size := size) (batch := fun n rows tops =>
        List.zipWith (fun t r => r.foldl (pushHit k) t) tops
          (parallel P.size (P.order n) (flatSearch F m rows fs k) qs))
    (I := fun done tops => Each qs (fun q t => TopK k (InIx F m done fs q) t ∧ t.Pairwise HLt) tops) (by
      intro n done rows tops hn hp hI
      rw [parallel_fair hP]
      refine each_zip hI ?_
      intro q _ t ht
      rw [List.map_append, List.nodup_append] at hn
      obtain ⟨h1, h2⟩ := batch_topK hk ht.1 ht.2 (flat_topK hF hn.2.1 (fun p hp' => by have := hp p hp'; omega) (fs := fs) (k := k) (q := q) (m := m))
        (fun a b ha hb => inIx_apart (fun p hp' hm => hn.2.2 _ hm _ (List.mem_map.2 ⟨p, hp', rfl⟩) rfl) ha hb)
      exact ⟨h1.congr fun x => inIx_append.symm, h2⟩)
    (L := L) (n := 0) (done := []) (rows := []) (tops := List.replicate qs.length []) (by simpa using hn) (by simpa using hp)
    ⟨by simp, by
      intro j q hq
      have hj : j < qs.length := (List.getElem?_eq_some_iff.1 hq).1
      refine ⟨[], by rw [List.getElem?_replicate, if_pos hj], ?_, List.Pairwise.nil⟩
      refine { mem := ?_, once := ?_, sorted := ?_, short := ?_, best := ?_ } <;> simp
      rintro h ⟨v, h1, _⟩
      cases h1⟩
  exact ⟨rs, h1, (by simpa using h2.imp (fun q res h => h.1))⟩

theorem pushRange_eq {cap : Nat} : ∀ {R t : List Hit}, t.length ≤ cap → pushRange cap t R = (t ++ R).take cap := by
  intro R
  induction R with
  | nil => intro t h; unfold pushRange; rw [List.append_nil, List.take_of_length_le h]
  | cons r R ih =>
    intro t h
    unfold pushRange
    split
    · rw [ih (by simp; omega)]
      simp
    · have : t.length = cap := by omega
      rw [← this, List.take_left']
      rfl

/-- What a range search has found so far. -/
structure Ranged (cap : Nat) (S : Hit → Prop) (t : List Hit) : Prop where
  once : (t.map (·.id)).Nodup
  mem : ∀ h ∈ t, S h
  short : t.length ≤ cap
  all : t.length < cap → ∀ h, S h → h ∈ t

theorem Ranged.congr {cap : Nat} {S S' : Hit → Prop} {t : List Hit} (h : Ranged cap S t) (e : ∀ x, S x ↔ S' x) :
    Ranged cap S' t :=
  ⟨h.once, fun x hx => (e x).1 (h.mem x hx), h.short, fun hl x hx => h.all hl x ((e x).2 hx)⟩

theorem ranged_push {cap : Nat} {S S' : Hit → Prop} {t R : List Hit} (h : Ranged cap S t) (ho : (R.map (·.id)).Nodup)
    (hR : ∀ x, x ∈ R ↔ S' x) (hd : ∀ a b, S a → S' b → a.id ≠ b.id) :
    Ranged cap (fun x => S x ∨ S' x) (pushRange cap t R) := by
  rw [pushRange_eq h.short]
  refine ⟨?_, ?_, ?_, ?_⟩
  · rw [List.map_take]
    refine List.Nodup.sublist (List.take_sublist _ _) ?_
    rw [List.map_append, List.nodup_append]
    refine ⟨h.once, ho, ?_⟩
    intro a ha b hb e
    obtain ⟨x, hx, rfl⟩ := List.mem_map.1 ha
    obtain ⟨y, hy, rfl⟩ := List.mem_map.1 hb
    exact hd x y (h.mem x hx) ((hR y).1 hy) e
  · intro x hx
    rcases List.mem_append.1 (List.mem_of_mem_take hx) with hx | hx
    · exact Or.inl (h.mem x hx)
    · exact Or.inr ((hR x).1 hx)
  · rw [List.length_take]; omega
  · intro hl x hx
    rw [List.length_take, List.length_append] at hl
    rw [List.take_of_length_le (by rw [List.length_append]; omega)]
    rcases hx with hx | hx
    · exact List.mem_append_left _ (h.all (by omega) x hx)
    · exact List.mem_append_right _ ((hR x).2 hx)

theorem bruteRange_each {F : Faiss} (hF : F.Exact) {m : Metric} {P : Pool} {fs : List Filter} {cap : Nat}
    {qs : List Vec} (hP : P.Fair qs) {size : Nat} {r : Int} {L : Index} (hn : (L.map (·.1)).Nodup) (hp : ∀ p ∈ L, 0 < p.1) :
    ∃ rs, bruteLoop size (fun n rows tops =>
        List.zipWith (fun t x => pushRange cap t x) tops
          (parallel P.size (P.order n) (flatRange F m rows fs r) qs)) 0 [] (List.replicate qs.length [])
        (items (L.map fun p => ((p.1, 0), p.2))) = .ok rs ∧
      Each qs (fun q t => Ranged cap (fun h => InIx F m L fs q h ∧ h.dist < r) t) rs := by
  obtain ⟨rs, h1, h2⟩ := bruteLoop_inv (size := size) (batch := fun n rows tops =>
        List.zipWith (fun t x => pushRange cap t x) tops
          (parallel P.size (P.order n) (flatRange F m rows fs r) qs))
    (I := fun done tops => Each qs (fun q t => Ranged cap (fun h => InIx F m done fs q h ∧ h.dist < r) t) tops) (by
      intro n done rows tops hn hp hI
      rw [parallel_fair hP]
      refine each_zip hI ?_
      intro q _ t ht
      rw [List.map_append, List.nodup_append] at hn
      obtain ⟨h1, h2⟩ := range_mem hF hn.2.1 (fs := fs) (r := r) (q := q) (m := m)
      refine (ranged_push ht h1 h2 (fun a b ha hb => inIx_apart
        (fun p hp' hm => hn.2.2 _ hm _ (List.mem_map.2 ⟨p, hp', rfl⟩) rfl) ha.1 hb.1)).congr fun x => ?_
      rw [inIx_append]
      constructor
      · rintro (⟨h, h'⟩ | ⟨h, h'⟩)
        · exact ⟨Or.inl h, h'⟩
        · exact ⟨Or.inr h, h'⟩
      · rintro ⟨h | h, h'⟩
        · exact Or.inl ⟨h, h'⟩
        · exact Or.inr ⟨h, h'⟩)
    (L := L) (n := 0) (done := []) (rows := []) (tops := List.replicate qs.length []) (by simpa using hn) (by simpa using hp)
    ⟨by simp, by
      intro j q hq
      have hj : j < qs.length := (List.getElem?_eq_some_iff.1 hq).1
      refine ⟨[], by rw [List.getElem?_replicate, if_pos hj], List.nodup_nil, by simp, by simp, ?_⟩
      rintro _ h ⟨⟨v, h1, _⟩, _⟩
      cases h1⟩
  exact ⟨rs, h1, by simpa using h2⟩

/-- The rows of a region brute force reads. -/
theorem brute_rows (schema : List Field) {ops : List Op} (hv : Valid schema ops) (g : Region) (now : Int) :
    ∃ L : Index,
      forward (effTs 0) now none (rowsFrom g g.lo (run schema ops).data) = items (L.map fun p => ((p.1, 0), p.2)) ∧
      (L.map (·.1)).Nodup ∧ (∀ p ∈ L, 0 < p.1) ∧
      ∀ id v, (id, v) ∈ L ↔ ∃ ttl x, Shows ops 0 now ttl x ∧ (g.lo ≤ x.id ∧ x.id < g.hi) ∧ x.id = id ∧ x.vec = v := by
  obtain ⟨L, h1, h2, h3⟩ := forward_run (f := fun v : VecIn => v.vec) (T := effTs 0) (now := now) (ops := ops) (g := g)
    (start := g.lo) (vec_kept ops)
  have hsh : ∀ x, live now (decided (effTs 0) x.id ops) = some x ↔ ∃ ttl, Shows ops 0 now ttl x := by
    intro x
    rw [live_iff hv]
    constructor
    · rintro ⟨ttl, h, _⟩; exact ⟨ttl, h⟩
    · rintro ⟨ttl, h⟩; exact ⟨ttl, h, rfl⟩
  refine ⟨L.map fun v => (v.id, v.vec), ?_, ?_, ?_, ?_⟩
  · rw [run_eq schema ops]
    show forward (effTs 0) now none (rowsFrom g g.lo (puts [] (List.flatMap (wr fun x => x.vec) ops))) = _
    rw [h1, List.map_map]
    rfl
  · rw [List.map_map]
    unfold List.Nodup
    rw [List.pairwise_map]
    refine h2.imp ?_
    intro a b h e
    have e' : a.id = b.id := e
    omega
  · intro p hp
    obtain ⟨x, hx, rfl⟩ := List.mem_map.1 hp
    obtain ⟨ttl, hs⟩ := (hsh x).1 ((h3 x).1 hx).2
    obtain ⟨ts', vs, hm, hvv⟩ := decided_mem ((shows_iff hv).1 hs).1
    exact ((hv _ hm).2.2 x hvv).1
  · intro id v
    rw [List.mem_map]
    constructor
    · rintro ⟨x, hx, e⟩
      cases e
      obtain ⟨hr, hl⟩ := (h3 x).1 hx
      obtain ⟨ttl, hs⟩ := (hsh x).1 hl
      exact ⟨ttl, x, hs, ⟨hr.1, hr.2.2⟩, rfl, rfl⟩
    · rintro ⟨ttl, x, hs, hr, rfl, rfl⟩
      exact ⟨x, (h3 x).2 ⟨⟨hr.1, hr.1, hr.2⟩, (hsh x).2 ⟨ttl, hs⟩⟩, rfl⟩

end Verif.VecQuery
