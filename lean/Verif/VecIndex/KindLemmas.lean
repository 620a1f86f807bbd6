import Verif.VecIndex.Spec

/-! # Lemmas about single calls into an index -/

namespace Verif.VecIndex

theorem held_nil (i : Nat) : held [] i = [] := rfl

theorem held_append (c d : Content) (i : Nat) : held (c ++ d) i = held c i ++ held d i := by
  unfold held; rw [List.filter_append, List.map_append]

theorem held_cons (p : Nat × Nat) (c : Content) (i : Nat) :
    held (p :: c) i = (if p.1 = i then [p.2] else []) ++ held c i := by
  unfold held
  by_cases h : p.1 = i
  · simp [h]
  · simp [h]

theorem mem_held {c : Content} {i v : Nat} : v ∈ held c i ↔ (i, v) ∈ c := by
  unfold held
  simp only [List.mem_map, List.mem_filter, beq_iff_eq]
  constructor
  · rintro ⟨p, ⟨h, rfl⟩, rfl⟩; exact h
  · intro h; exact ⟨(i, v), ⟨h, rfl⟩, rfl⟩

theorem held_eq_nil {c : Content} {i : Nat} : held c i = [] ↔ i ∉ c.map (·.1) := by
  rw [List.eq_nil_iff_forall_not_mem]
  constructor
  · intro h hm
    obtain ⟨p, hp, rfl⟩ := List.mem_map.1 hm
    exact h p.2 (mem_held.2 hp)
  · intro h v hv
    exact h (List.mem_map.2 ⟨(i, v), mem_held.1 hv, rfl⟩)

theorem held_removeIds (c : Content) (ids : List Nat) (i : Nat) :
    held (removeIds c ids) i = if i ∈ ids then [] else held c i := by
  unfold held removeIds
  rw [List.filter_filter]
  by_cases h : i ∈ ids
  · rw [if_pos h]
    rw [List.map_eq_nil_iff, List.filter_eq_nil_iff]
    intro p _
    by_cases hp : p.1 = i
    · simp [hp, h]
    · simp [hp]
  · rw [if_neg h]
    congr 1
    apply List.filter_congr
    intro p _
    by_cases hp : p.1 = i
    · simp [hp, h]
    · simp [hp]

theorem distinct_iff {l : List Nat} : distinct l = true ↔ l.Nodup := by
  induction l with
  | nil => simp [distinct]
  | cons a l ih => simp [distinct, ih, List.nodup_cons]

/-- Distinct ids: at most one vector per id. -/
theorem held_distinct {vs : List (Nat × Nat)} (h : (vs.map (·.1)).Nodup) (i : Nat) :
    held vs i = [] ∨ ∃ v, held vs i = [v] := by
  induction vs with
  | nil => exact .inl rfl
  | cons p vs ih =>
    rw [List.map_cons, List.nodup_cons] at h
    rw [held_cons]
    by_cases hp : p.1 = i
    · refine .inr ⟨p.2, ?_⟩
      rw [if_pos hp, held_eq_nil.2 (hp ▸ h.1)]; rfl
    · rw [if_neg hp]; exact ih h.2

/-! ### Pieces -/

theorem cut_flatten {α : Type} {n : Nat} (hn : 0 < n) (f : Nat) (l : List α) (h : l.length ≤ f) :
    (cut f n l).flatten = l := by
  induction f generalizing l with
  | zero => cases l with | nil => rfl | cons => simp at h
  | succ f ih =>
    unfold cut
    cases l with
    | nil => rfl
    | cons a l =>
      rw [if_neg (by simp), List.flatten_cons, ih _ (by simp at h ⊢; omega), List.take_append_drop]

theorem pieces_flatten {α : Type} {n : Nat} (hn : 0 < n) (l : List α) : (pieces n l).flatten = l :=
  cut_flatten hn _ _ (Nat.le_refl _)

theorem cut_ne_nil {α : Type} {n : Nat} (hn : 0 < n) (f : Nat) (l : List α) :
    ∀ b ∈ cut f n l, b ≠ [] := by
  induction f generalizing l with
  | zero => intro b hb; cases hb
  | succ f ih =>
    unfold cut
    cases l with
    | nil => intro b hb; cases hb
    | cons a l =>
      intro b hb
      rw [if_neg (by simp)] at hb
      rcases List.mem_cons.1 hb with rfl | hb
      · obtain ⟨m, rfl⟩ : ∃ m, n = m + 1 := ⟨n - 1, by omega⟩
        simp
      · exact ih _ b hb

theorem pieces_ne_nil {α : Type} {n : Nat} (hn : 0 < n) (l : List α) : ∀ b ∈ pieces n l, b ≠ [] :=
  cut_ne_nil hn _ _

/-! ### One batch -/

/-- What a call that adds `b` must do. -/
def Adds (c c' : Content) (b : List (Nat × Nat)) : Prop :=
  ∀ i, held c' i = if i ∈ b.map (·.1) then held b i else held c i

theorem flatAdd_spec {c : Content} {b : List (Nat × Nat)} (hb : b ≠ [])
    (hd : (b.map (·.1)).Nodup) : (flatAdd c b).2 = .ok ∧ Adds c (flatAdd c b).1 b := by
  unfold flatAdd
  rw [if_neg (by simpa using hb), if_neg (by rw [distinct_iff.2 hd]; simp)]
  refine ⟨rfl, fun i => ?_⟩
  rw [held_append, held_removeIds]
  by_cases h : i ∈ b.map (·.1)
  · rw [if_pos h, if_pos h, List.nil_append]
  · rw [if_neg h, if_neg h, held_eq_nil.2 h, List.append_nil]

theorem ivfAdd_spec {up : Bool} {c : Content} {b : List (Nat × Nat)} (hb : b ≠ [])
    (hf : up = true ∨ ∀ i ∈ b.map (·.1), held c i = []) :
    (ivfAdd up c b).2 = .ok ∧ Adds c (ivfAdd up c b).1 b := by
  unfold ivfAdd
  rw [if_neg (by simpa using hb)]
  refine ⟨rfl, fun i => ?_⟩
  show held ((if up = true then removeIds c (b.map (·.1)) else c) ++ b) i = _
  rw [held_append]
  by_cases hu : up = true
  · rw [if_pos hu, held_removeIds]
    by_cases h : i ∈ b.map (·.1)
    · rw [if_pos h, if_pos h, List.nil_append]
    · rw [if_neg h, if_neg h, held_eq_nil.2 h, List.append_nil]
  · rw [if_neg hu]
    by_cases h : i ∈ b.map (·.1)
    · rw [if_pos h, (hf.resolve_left hu) i h, List.nil_append]
    · rw [if_neg h, held_eq_nil.2 h, List.append_nil]

theorem held_addPoint (c : Content) (p : Nat × Nat) (i : Nat) :
    held (addPoint c p) i = if i = p.1 then [p.2] else held c i := by
  unfold addPoint
  rw [held_append, held_removeIds, held_cons, held_nil]
  by_cases h : i = p.1
  · rw [if_pos (by simp [h]), if_pos h, if_pos h.symm]; rfl
  · rw [if_neg (by simp [h]), if_neg h, if_neg (fun e => h e.symm)]
    simp

theorem foldl_addPoint (vs : List (Nat × Nat)) (hd : (vs.map (·.1)).Nodup) (c : Content) :
    Adds c (vs.foldl addPoint c) vs := by
  induction vs generalizing c with
  | nil => intro i; simp [List.foldl]
  | cons p vs ih =>
    rw [List.map_cons, List.nodup_cons] at hd
    intro i
    rw [List.foldl_cons, ih hd.2 (addPoint c p) i, held_addPoint, held_cons]
    by_cases h : i ∈ vs.map (·.1)
    · rw [if_pos h, if_pos (by rw [List.map_cons]; exact List.mem_cons_of_mem _ h)]
      rw [if_neg (fun e : p.1 = i => hd.1 (e ▸ h))]; rfl
    · rw [if_neg h]
      by_cases hp : i = p.1
      · rw [if_pos hp, if_pos (by rw [List.map_cons, hp]; exact List.mem_cons_self),
          if_pos hp.symm, held_eq_nil.2 h]; rfl
      · rw [if_neg hp, if_neg (by
          rw [List.map_cons]; intro hm
          rcases List.mem_cons.1 hm with e | e
          · exact hp e
          · exact h e)]

/-- Several batches with distinct ids, in any order. -/
theorem runBatches_spec (f : Content → List (Nat × Nat) → Content × Stat)
    (P : Content → List (Nat × Nat) → Prop)
    (hf : ∀ c b, b ≠ [] → (b.map (·.1)).Nodup → P c b → (f c b).2 = .ok ∧ Adds c (f c b).1 b)
    (hP : ∀ c c' b b', P c b' → Adds c c' b → (∀ i ∈ b'.map (·.1), i ∉ b.map (·.1)) → P c' b')
    (bs : List (List (Nat × Nat))) (hne : ∀ b ∈ bs, b ≠ [])
    (hd : (bs.flatten.map (·.1)).Nodup) (c : Content) (hp : ∀ b ∈ bs, P c b) :
    (runBatches f c bs).2 = .ok ∧ Adds c (runBatches f c bs).1 bs.flatten := by
  induction bs generalizing c with
  | nil => exact ⟨rfl, fun i => by simp [runBatches]⟩
  | cons b bs ih =>
    rw [List.flatten_cons, List.map_append, List.nodup_append] at hd
    obtain ⟨h1, h2⟩ := hf c b (hne b List.mem_cons_self) hd.1 (hp b List.mem_cons_self)
    have hdis : ∀ b' ∈ bs, ∀ i ∈ b'.map (·.1), i ∉ b.map (·.1) := by
      intro b' hb' i hi hm
      obtain ⟨q, hq, e⟩ := List.mem_map.1 hi
      exact hd.2.2 i hm i (List.mem_map.2 ⟨q, List.mem_flatten.2 ⟨b', hb', hq⟩, e⟩) rfl
    obtain ⟨h3, h4⟩ := ih (fun b' hb' => hne b' (List.mem_cons_of_mem _ hb')) hd.2.1 (f c b).1
      (fun b' hb' => hP c _ b b' (hp b' (List.mem_cons_of_mem _ hb')) h2 (hdis b' hb'))
    refine ⟨?_, fun i => ?_⟩
    · show (if (f c b).2 = .ok then (runBatches f (f c b).1 bs).2 else _) = _
      rw [if_pos h1]; exact h3
    · show held (runBatches f (f c b).1 bs).1 i = _
      rw [h4 i, List.flatten_cons, List.map_append, held_append, h2 i]
      by_cases ha : i ∈ bs.flatten.map (·.1)
      · rw [if_pos ha, if_pos (List.mem_append.2 (.inr ha)),
          (held_eq_nil (c := b)).2 (fun hm => hd.2.2 i hm i ha rfl), List.nil_append]
      · rw [if_neg ha, held_eq_nil.2 ha, List.append_nil]
        by_cases hb : i ∈ b.map (·.1)
        · rw [if_pos hb, if_pos (List.mem_append.2 (.inl hb))]
        · rw [if_neg hb, if_neg (fun hm => (List.mem_append.1 hm).elim hb ha)]

theorem runBatches_flat {bs : List (List (Nat × Nat))} (hne : ∀ b ∈ bs, b ≠ [])
    (hd : (bs.flatten.map (·.1)).Nodup) (c : Content) :
    (runBatches flatAdd c bs).2 = .ok ∧ Adds c (runBatches flatAdd c bs).1 bs.flatten :=
  runBatches_spec flatAdd (fun _ _ => True) (fun _ _ hb hd _ => flatAdd_spec hb hd)
    (fun _ _ _ _ _ _ _ => trivial) bs hne hd c (fun _ _ => trivial)

theorem runBatches_ivf {up : Bool} {bs : List (List (Nat × Nat))} (hne : ∀ b ∈ bs, b ≠ [])
    (hd : (bs.flatten.map (·.1)).Nodup) (c : Content)
    (hf : up = true ∨ ∀ i ∈ bs.flatten.map (·.1), held c i = []) :
    (runBatches (ivfAdd up) c bs).2 = .ok ∧ Adds c (runBatches (ivfAdd up) c bs).1 bs.flatten := by
  refine runBatches_spec (ivfAdd up)
    (fun c b => up = true ∨ ∀ i ∈ b.map (·.1), held c i = [])
    (fun _ _ hb _ h => ivfAdd_spec hb h) ?_ bs hne hd c ?_
  · intro c c' b b' h ha hn
    rcases h with h | h
    · exact .inl h
    · refine .inr (fun i hi => ?_)
      rw [ha i, if_neg (hn i hi)]; exact h i hi
  · intro b hb
    rcases hf with h | h
    · exact .inl h
    · refine .inr (fun i hi => h i ?_)
      obtain ⟨q, hq, e⟩ := List.mem_map.1 hi
      exact List.mem_map.2 ⟨q, List.mem_flatten.2 ⟨b, hb, hq⟩, e⟩

/-- Adding. -/
theorem addP_spec {g : Cfg} (hg : g.ok = true) {up : Bool} {c : Content} {vs : List (Nat × Nat)}
    (hd : (vs.map (·.1)).Nodup)
    (hf : g.kind ≠ .ivf ∨ up = true ∨ ∀ i ∈ vs.map (·.1), held c i = []) :
    Adds c (addP g up c vs).1 vs ∧ (g.kind ≠ .hnsw ∨ vs ≠ [] → (addP g up c vs).2 = .ok) := by
  simp only [Cfg.ok, Bool.and_eq_true, decide_eq_true_eq] at hg
  unfold addP
  cases hk : g.kind with
  | flat =>
    have h := runBatches_flat (pieces_ne_nil hg.1.1 vs) (by rw [pieces_flatten hg.1.1]; exact hd) c
    rw [pieces_flatten hg.1.1] at h
    exact ⟨h.2, fun _ => h.1⟩
  | ivf =>
    have h := runBatches_ivf (up := up) (pieces_ne_nil hg.1.1 vs)
      (by rw [pieces_flatten hg.1.1]; exact hd) c
      (by rw [pieces_flatten hg.1.1]; exact hf.resolve_left (fun h => h hk))
    rw [pieces_flatten hg.1.1] at h
    exact ⟨h.2, fun _ => h.1⟩
  | hnsw =>
    simp only [hnswAdd]
    by_cases hv : vs = []
    · subst hv
      exact ⟨fun i => by simp, fun h => by rcases h with h | h <;> exact absurd rfl h⟩
    · rw [if_neg (by simpa using hv)]
      exact ⟨foldl_addPoint vs hd c, fun _ => rfl⟩

/-! ### Deleting -/

theorem held_markAll {ids : List Nat} {c : Content} (hd : ids.Nodup)
    (hh : ∀ i ∈ ids, held c i ≠ []) (i : Nat) :
    held (markAll c ids) i = if i ∈ ids then [] else held c i := by
  induction ids generalizing c with
  | nil => simp [markAll]
  | cons j l ih =>
    rw [List.nodup_cons] at hd
    unfold markAll
    rw [if_neg (hh j List.mem_cons_self), ih hd.2 (fun k hk => by
      rw [held_removeIds, if_neg (by
        intro e; rw [List.mem_singleton] at e; exact hd.1 (e ▸ hk))]
      exact hh k (List.mem_cons_of_mem _ hk)), held_removeIds]
    by_cases h1 : i ∈ l
    · rw [if_pos h1, if_pos (List.mem_cons_of_mem _ h1)]
    · rw [if_neg h1]
      by_cases h2 : i = j
      · rw [if_pos (by simp [h2]), if_pos (by simp [h2])]
      · rw [if_neg (by simp [h2]), if_neg (by simp [h1, h2])]

theorem held_markBatches {bs : List (List Nat)} {c : Content} (hd : bs.flatten.Nodup)
    (hh : ∀ i ∈ bs.flatten, held c i ≠ []) (i : Nat) :
    held (bs.foldl markAll c) i = if i ∈ bs.flatten then [] else held c i := by
  induction bs generalizing c with
  | nil => simp
  | cons b bs ih =>
    rw [List.flatten_cons, List.nodup_append] at hd
    rw [List.flatten_cons] at hh
    have hb := fun k => held_markAll hd.1 (fun i hi => hh i (List.mem_append.2 (.inl hi))) k
    rw [List.foldl_cons, ih hd.2.1 (fun k hk => by
      rw [hb k, if_neg (fun e => hd.2.2 k e k hk rfl)]
      exact hh k (List.mem_append.2 (.inr hk))), hb i, List.flatten_cons]
    by_cases h1 : i ∈ bs.flatten
    · rw [if_pos h1, if_pos (List.mem_append.2 (.inr h1))]
    · rw [if_neg h1]
      by_cases h2 : i ∈ b
      · rw [if_pos h2, if_pos (List.mem_append.2 (.inl h2))]
      · rw [if_neg h2, if_neg (fun e => (List.mem_append.1 e).elim h2 h1)]

theorem removeIds_length {c : Content} {ids : List Nat} (h : (removeIds c ids).length = c.length) :
    removeIds c ids = c := by
  unfold removeIds at h ⊢
  rw [List.filter_eq_self]
  exact List.length_filter_eq_length_iff.1 h

/-- Deleting. -/
theorem delP_spec {g : Cfg} (hg : g.ok = true) {c : Content} {ids : List Nat}
    (hf : g.kind ≠ .hnsw ∨ (ids.Nodup ∧ ∀ i ∈ ids, held c i ≠ [])) (i : Nat) :
    held (delP g c ids).1 i = if i ∈ ids then [] else held c i := by
  simp only [Cfg.ok, Bool.and_eq_true, decide_eq_true_eq] at hg
  unfold delP
  cases hk : g.kind with
  | flat => exact held_removeIds c ids i
  | ivf =>
    simp only [ivfDel]
    by_cases he : ids = []
    · subst he; simp
    · rw [if_neg (by simpa using he)]
      by_cases hl : (removeIds c ids).length = c.length
      · rw [if_pos hl]
        have := held_removeIds c ids i
        rw [removeIds_length hl] at this
        exact this
      · rw [if_neg hl]; exact held_removeIds c ids i
  | hnsw =>
    simp only [hnswDel]
    obtain ⟨h1, h2⟩ := hf.resolve_left (fun h => h hk)
    have := held_markBatches (bs := pieces g.hnswBatch ids) (c := c)
      (by rw [pieces_flatten hg.1.2]; exact h1) (by rw [pieces_flatten hg.1.2]; exact h2) i
    rw [pieces_flatten hg.1.2] at this
    exact this

/-- A fine call does to every id exactly what it says. -/
theorem Op.run_fine {g : Cfg} (hg : g.ok = true) {c : Content} {o : Op} (h : o.fine g c = true)
    (i : Nat) :
    held (o.run g c).1 i = match o.val i with | some v => v.toList | none => held c i := by
  cases o with
  | add up vs =>
    simp only [Op.fine, Bool.and_eq_true, Bool.or_eq_true, bne_iff_ne, ne_eq, List.all_eq_true,
      List.isEmpty_iff] at h
    have hd := distinct_iff.1 h.1
    have ha := (addP_spec hg (up := up) (c := c) hd (by
      rcases h.2 with (h2 | h2) | h2
      · exact .inl h2
      · exact .inr (.inl h2)
      · refine .inr (.inr (fun k hk => ?_))
        obtain ⟨p, hp, rfl⟩ := List.mem_map.1 hk
        exact h2 p hp)).1 i
    simp only [Op.run, Op.val]
    rw [ha]
    rcases held_distinct hd i with h0 | ⟨v, hv⟩
    · rw [if_neg (held_eq_nil.1 h0), h0]; rfl
    · rw [if_pos (by
        have : (i, v) ∈ vs := mem_held.1 (by rw [hv]; exact List.mem_cons_self)
        exact List.mem_map.2 ⟨_, this, rfl⟩), hv]; rfl
  | del ids =>
    simp only [Op.fine, Bool.or_eq_true, bne_iff_ne, ne_eq, Bool.and_eq_true, List.all_eq_true,
      Bool.not_eq_true', List.isEmpty_eq_false_iff] at h
    simp only [Op.run, Op.val]
    rw [delP_spec hg (by
      rcases h with h | ⟨h1, h2⟩
      · exact .inl h
      · exact .inr ⟨distinct_iff.1 h1, h2⟩) i]
    by_cases hi : i ∈ ids
    · rw [if_pos hi, if_pos hi]; rfl
    · rw [if_neg hi, if_neg hi]

end Verif.VecIndex
