import Verif.VecIndex.KindLemmas

/-!
# C65: what adding and deleting vectors does to an index

`held c i` is the list of vectors the index holds under the id `i`; a search can return no others.
The calls are `addP` (`AddByParallel`, `UpsertByParallel`) and `delP` (`DeleteByParallel`).
-/

namespace Verif.VecIndex

/-- C65: a call that adds vectors, no id twice, leaves the index holding for every named id exactly
the vector given, and for every other id what it held.  It succeeds unless an HNSW index is given
nothing.  For an inverted-file index this needs the caller to ask for an update or to name only ids
the index does not hold (see `C65_readd_false`). -/
theorem C65_add_partial {g : Cfg} (hg : g.ok = true) {up : Bool} {c : Content}
    {vs : List (Nat × Nat)} (hd : (vs.map (·.1)).Nodup)
    (hf : g.kind ≠ .ivf ∨ up = true ∨ ∀ i ∈ vs.map (·.1), held c i = []) :
    (∀ i v, (i, v) ∈ vs → held (addP g up c vs).1 i = [v]) ∧
    (∀ i, i ∉ vs.map (·.1) → held (addP g up c vs).1 i = held c i) ∧
    (vs ≠ [] → (addP g up c vs).2 = .ok) := by
  obtain ⟨h1, h2⟩ := addP_spec hg (up := up) (c := c) hd hf
  refine ⟨fun i v hm => ?_, fun i hi => by rw [h1 i, if_neg hi], fun h => h2 (.inr h)⟩
  rw [h1 i, if_pos (List.mem_map.2 ⟨_, hm, rfl⟩)]
  have hv : v ∈ held vs i := mem_held.2 hm
  rcases held_distinct hd i with h | ⟨w, h⟩
  · rw [h] at hv; cases hv
  · rw [h] at hv ⊢; rw [List.mem_singleton.1 hv]

/-- Five vectors in three batches, one of them for an id the index holds. -/
example :
    (([(1, 10), (2, 20), (7, 30), (8, 40), (9, 50)] : Content).map (·.1)).Nodup ∧
      addP { kind := .flat, ivfBatch := 2 } false [(7, 0), (3, 5)]
        [(1, 10), (2, 20), (7, 30), (8, 40), (9, 50)] =
      ([(3, 5), (1, 10), (2, 20), (7, 30), (8, 40), (9, 50)], .ok) ∧
      (addP { kind := .hnsw } false [(7, 0), (3, 5)] [(1, 10), (7, 30)]).1 =
      [(3, 5), (1, 10), (7, 30)] := by decide +kernel

/-- C65: the batches a flat or inverted-file index works off in parallel may come in any order. -/
theorem C65_batches {g : Cfg} (hg : g.ok = true) {up : Bool} {c : Content} {vs : List (Nat × Nat)}
    (hd : (vs.map (·.1)).Nodup) {bs : List (List (Nat × Nat))} (hp : bs.Perm (pieces g.ivfBatch vs))
    (i : Nat) :
    held (runBatches flatAdd c bs).1 i = held (runBatches flatAdd c (pieces g.ivfBatch vs)).1 i ∧
    ((up = true ∨ ∀ j ∈ vs.map (·.1), held c j = []) →
      held (runBatches (ivfAdd up) c bs).1 i =
        held (runBatches (ivfAdd up) c (pieces g.ivfBatch vs)).1 i) := by
  simp only [Cfg.ok, Bool.and_eq_true, decide_eq_true_eq] at hg
  have hfl := pieces_flatten hg.1.1 vs
  have hpf : bs.flatten.Perm vs := hfl ▸ hp.flatten
  have hpm : (bs.flatten.map (·.1)).Perm (vs.map (·.1)) := hpf.map _
  have hne : ∀ b ∈ bs, b ≠ [] := fun b hb => pieces_ne_nil hg.1.1 vs b (hp.mem_iff.1 hb)
  have hd' : (bs.flatten.map (·.1)).Nodup := hpm.nodup_iff.2 hd
  have hheld : held bs.flatten i = held vs i := by
    have h1 : (held bs.flatten i).Perm (held vs i) := (hpf.filter _).map _
    rcases held_distinct hd i with h | ⟨v, h⟩
    · rw [h] at h1 ⊢; exact List.perm_nil.1 h1
    · rw [h] at h1 ⊢; exact List.perm_singleton.1 h1
  refine ⟨?_, fun hf => ?_⟩
  · rw [(runBatches_flat hne hd' c).2 i,
      (runBatches_flat (pieces_ne_nil hg.1.1 vs) (by rw [hfl]; exact hd) c).2 i, hfl, hheld]
    simp only [hpm.mem_iff]
  · rw [(runBatches_ivf hne hd' c (hf.imp id (fun h j hj => h j (hpm.mem_iff.1 hj)))).2 i,
      (runBatches_ivf (pieces_ne_nil hg.1.1 vs) (by rw [hfl]; exact hd) c
        (by rw [hfl]; exact hf)).2 i, hfl, hheld]
    simp only [hpm.mem_iff]

/-- The last batch first. -/
example : ([[(5, 1)], [(1, 1), (2, 2)], [(3, 3), (4, 4)]] : List (List (Nat × Nat))).Perm
    (pieces 2 [(1, 1), (2, 2), (3, 3), (4, 4), (5, 1)]) := by decide +kernel

/-- C65: a call that deletes ids leaves nothing under them and all other ids untouched.  For an HNSW
index this needs the ids to be held and no id twice (see `C65_hnsw_delete_false`). -/
theorem C65_delete_partial {g : Cfg} (hg : g.ok = true) {c : Content} {ids : List Nat}
    (hf : g.kind ≠ .hnsw ∨ (ids.Nodup ∧ ∀ i ∈ ids, held c i ≠ [])) :
    (∀ i ∈ ids, held (delP g c ids).1 i = []) ∧
    (∀ i, i ∉ ids → held (delP g c ids).1 i = held c i) :=
  ⟨fun i hi => by rw [delP_spec hg hf i, if_pos hi], fun i hi => by rw [delP_spec hg hf i, if_neg hi]⟩

example : ([2, 1] : List Nat).Nodup ∧
    (∀ i ∈ [2, 1], held ([(1, 10), (2, 20), (3, 30)] : Content) i ≠ []) ∧
    delP { kind := .hnsw } [(1, 10), (2, 20), (3, 30)] [2, 1] = ([(3, 30)], .ok) ∧
    delP { kind := .ivf } [(1, 10), (2, 20), (3, 30)] [2, 7] = ([(1, 10), (3, 30)], .ok) ∧
    delP { kind := .ivf } [(1, 10)] [7] = ([(1, 10)], .invalid) := by decide +kernel

/-- C65: a delete succeeds, except that an inverted-file index answers `EVECTOR_INVALID` to one that names
ids and none it holds. -/
theorem C65_delete_status (g : Cfg) (c : Content) (ids : List Nat) :
    (delP g c ids).2 =
      if g.kind = .ivf ∧ ids ≠ [] ∧ ∀ i ∈ ids, held c i = [] then .invalid else .ok := by
  unfold delP
  cases hk : g.kind with
  | hnsw => rw [if_neg (fun h => by cases h.1)]; rfl
  | flat => rw [if_neg (fun h => by cases h.1)]; rfl
  | ivf =>
    dsimp only
    unfold ivfDel
    cases ids with
    | nil => simp
    | cons a l =>
      rw [if_neg (by simp)]
      have hiff : (removeIds c (a :: l)).length = c.length ↔ ∀ i ∈ a :: l, held c i = [] := by
        unfold removeIds held
        rw [List.length_filter_eq_length_iff]
        constructor
        · intro h i hi
          rw [List.map_eq_nil_iff, List.filter_eq_nil_iff]
          intro p hp hpi
          have := h p hp
          have e : p.1 = i := by simpa using hpi
          rw [e] at this
          simp only [Bool.not_eq_true', List.contains_eq_mem, decide_eq_false_iff_not] at this
          exact this hi
        · intro h p hp
          simp only [Bool.not_eq_true', List.contains_eq_mem, decide_eq_false_iff_not]
          intro hm
          have := h p.1 hm
          rw [List.map_eq_nil_iff, List.filter_eq_nil_iff] at this
          exact this p hp (by simp)
      by_cases h : (removeIds c (a :: l)).length = c.length
      · rw [if_pos h, if_pos ⟨rfl, by simp, hiff.1 h⟩]
      · rw [if_neg h, if_neg (fun hh => h (hiff.2 hh.2.2))]

example : (delP { kind := .ivf } [(1, 10)] [7, 8]).2 = .invalid ∧
    (delP { kind := .ivf } [(1, 10)] [7, 1]).2 = .ok := by decide +kernel

/-- The calls made on one index, in order. -/
def runOps (g : Cfg) (c : Content) (os : List Op) : Content := os.foldl (fun c o => (o.run g c).1) c

theorem flatAdd_other {c : Content} {b : List (Nat × Nat)} {i : Nat} (h : i ∉ b.map (·.1)) :
    held (flatAdd c b).1 i = held c i := by
  unfold flatAdd
  split
  · rfl
  · split
    · rfl
    · show held (_ ++ _) i = _
      rw [held_append, held_removeIds, if_neg h, held_eq_nil.2 h, List.append_nil]

theorem ivfAdd_other {up : Bool} {c : Content} {b : List (Nat × Nat)} {i : Nat}
    (h : i ∉ b.map (·.1)) : held (ivfAdd up c b).1 i = held c i := by
  unfold ivfAdd
  split
  · rfl
  · show held (_ ++ _) i = _
    rw [held_append, held_eq_nil.2 h, List.append_nil]
    cases up
    · rfl
    · exact (held_removeIds _ _ _).trans (if_neg h)

theorem foldl_addPoint_other {vs : List (Nat × Nat)} {c : Content} {i : Nat}
    (h : i ∉ vs.map (·.1)) : held (vs.foldl addPoint c) i = held c i := by
  induction vs generalizing c with
  | nil => rfl
  | cons p vs ih =>
    rw [List.map_cons] at h
    rw [List.foldl_cons, ih (fun e => h (List.mem_cons_of_mem _ e)), held_addPoint,
      if_neg (fun e : i = p.1 => h (List.mem_cons.2 (.inl e)))]

theorem runBatches_other {f : Content → List (Nat × Nat) → Content × Stat}
    (hf : ∀ c b i, i ∉ b.map (·.1) → held (f c b).1 i = held c i)
    {bs : List (List (Nat × Nat))} {c : Content} {i : Nat} (h : i ∉ bs.flatten.map (·.1)) :
    held (runBatches f c bs).1 i = held c i := by
  induction bs generalizing c with
  | nil => rfl
  | cons b bs ih =>
    rw [List.flatten_cons, List.map_append] at h
    show held (runBatches f (f c b).1 bs).1 i = _
    rw [ih (fun e => h (List.mem_append.2 (.inr e))), hf c b i (fun e => h (List.mem_append.2 (.inl e)))]

theorem held_markAll_sub (ids : List Nat) (c : Content) (i : Nat) :
    held (markAll c ids) i = held c i ∨ (i ∈ ids ∧ held (markAll c ids) i = []) := by
  induction ids generalizing c with
  | nil => exact .inl rfl
  | cons j l ih =>
    unfold markAll
    by_cases hj : held c j = []
    · rw [if_pos hj]; exact .inl rfl
    · rw [if_neg hj]
      have hr := held_removeIds c [j] i
      rcases ih (removeIds c [j]) with h | ⟨h, h'⟩
      · rw [h, hr]
        by_cases e : i ∈ [j]
        · rw [if_pos e]; exact .inr ⟨by rw [List.mem_singleton] at e; simp [e], rfl⟩
        · rw [if_neg e]; exact .inl rfl
      · exact .inr ⟨List.mem_cons_of_mem _ h, h'⟩

theorem held_markBatches_sub (bs : List (List Nat)) (c : Content) (i : Nat) :
    held (bs.foldl markAll c) i = held c i ∨
      (i ∈ bs.flatten ∧ held (bs.foldl markAll c) i = []) := by
  induction bs generalizing c with
  | nil => exact .inl rfl
  | cons b bs ih =>
    rw [List.foldl_cons, List.flatten_cons]
    rcases ih (markAll c b) with h | ⟨h, h'⟩
    · rw [h]
      rcases held_markAll_sub b c i with h2 | ⟨h2, h3⟩
      · exact .inl h2
      · exact .inr ⟨List.mem_append.2 (.inl h2), h3⟩
    · exact .inr ⟨List.mem_append.2 (.inr h), h'⟩

/-- A call to delete leaves an id alone or empties it; it leaves ids it does not name alone. -/
theorem delP_sub {g : Cfg} (hg : g.ok = true) (c : Content) (ids : List Nat) (i : Nat) :
    held (delP g c ids).1 i = held c i ∨ (i ∈ ids ∧ held (delP g c ids).1 i = []) := by
  by_cases hk : g.kind = .hnsw
  · simp only [delP, hk, hnswDel]
    simp only [Cfg.ok, Bool.and_eq_true, decide_eq_true_eq] at hg
    have := held_markBatches_sub (pieces g.hnswBatch ids) c i
    rwa [pieces_flatten hg.1.2] at this
  · have := delP_spec hg (c := c) (ids := ids) (.inl hk) i
    by_cases hi : i ∈ ids
    · rw [if_pos hi] at this; exact .inr ⟨hi, this⟩
    · rw [if_neg hi] at this; exact .inl this

/-- C65: whatever it names and however it ends, a call leaves the ids it does not name alone. -/
theorem C65_others {g : Cfg} (hg : g.ok = true) (c : Content) (os : List Op) {i : Nat}
    (h : ∀ o ∈ os, i ∉ o.ids) : held (runOps g c os) i = held c i := by
  unfold runOps
  induction os generalizing c with
  | nil => rfl
  | cons o os ih =>
    rw [List.foldl_cons, ih _ (fun o' ho' => h o' (List.mem_cons_of_mem _ ho'))]
    have ho := h o List.mem_cons_self
    cases o with
    | del ids =>
      rcases delP_sub hg c ids i with e | ⟨e, _⟩
      · exact e
      · exact absurd e ho
    | add up vs =>
      simp only [Cfg.ok, Bool.and_eq_true, decide_eq_true_eq] at hg
      simp only [Op.run, addP]
      simp only [Op.ids] at ho
      cases g.kind with
      | flat =>
        exact runBatches_other (fun _ _ _ => flatAdd_other) (by rw [pieces_flatten hg.1.1]; exact ho)
      | ivf =>
        exact runBatches_other (fun _ _ _ => ivfAdd_other) (by rw [pieces_flatten hg.1.1]; exact ho)
      | hnsw =>
        simp only [hnswAdd]
        split
        · rfl
        · exact foldl_addPoint_other ho

/-- Duplicates, an id not held, and an empty call. -/
example : ∀ o ∈ [Op.add true [(1, 2), (1, 3)], .del [7, 1], .add false []], (4 : Nat) ∉ o.ids := by
  decide +kernel

theorem held_flatAdd_le {c : Content} (h : ∀ i, (held c i).length ≤ 1) (b : List (Nat × Nat))
    (i : Nat) : (held (flatAdd c b).1 i).length ≤ 1 := by
  by_cases hb : b = []
  · subst hb; exact h i
  · by_cases hd : (b.map (·.1)).Nodup
    · rw [(flatAdd_spec hb hd).2 i]
      by_cases hi : i ∈ b.map (·.1)
      · rw [if_pos hi]
        rcases held_distinct hd i with e | ⟨v, e⟩ <;> rw [e] <;> simp
      · rw [if_neg hi]; exact h i
    · unfold flatAdd
      rw [if_neg (by simpa using hb), if_pos (by
        rw [Bool.not_eq_true', Bool.eq_false_iff]; exact fun e => hd (distinct_iff.1 e))]
      exact h i

/-- C65: whatever calls are made on an empty flat or HNSW index, it never holds two vectors under one
id. -/
theorem C65_one_vector {g : Cfg} (hg : g.ok = true) (hk : g.kind ≠ .ivf) (os : List Op) (i : Nat) :
    (held (runOps g [] os) i).length ≤ 1 := by
  suffices H : ∀ (c : Content), (∀ i, (held c i).length ≤ 1) →
      ∀ i, (held (runOps g c os) i).length ≤ 1 from H [] (fun _ => Nat.zero_le _) i
  unfold runOps
  induction os with
  | nil => exact fun c h => h
  | cons o os ih =>
    intro c h
    rw [List.foldl_cons]
    refine ih _ (fun i => ?_)
    cases o with
    | del ids =>
      show (held (delP g c ids).1 i).length ≤ 1
      rcases delP_sub hg c ids i with e | ⟨_, e⟩
      · rw [e]; exact h i
      · rw [e]; decide
    | add up vs =>
      simp only [Op.run, addP]
      cases hkind : g.kind with
      | ivf => exact absurd hkind hk
      | flat =>
        show (held (runBatches flatAdd c (pieces g.ivfBatch vs)).1 i).length ≤ 1
        generalize pieces g.ivfBatch vs = bs
        clear ih
        induction bs generalizing c with
        | nil => exact h i
        | cons b bs ih => exact ih _ (held_flatAdd_le h b)
      | hnsw =>
        show (held (hnswAdd c vs).1 i).length ≤ 1
        unfold hnswAdd
        split
        · exact h i
        · show (held (vs.foldl addPoint c) i).length ≤ 1
          clear ih
          rename_i _ _
          induction vs generalizing c with
          | nil => exact h i
          | cons p vs ih =>
            rw [List.foldl_cons]
            by_cases hv : vs.isEmpty = true
            · rw [List.isEmpty_iff.1 hv]
              show (held (addPoint c p) i).length ≤ 1
              rw [held_addPoint]; split
              · simp
              · exact h i
            · refine ih (addPoint c p) (fun j => ?_) hv
              rw [held_addPoint]; split
              · simp
              · exact h j

theorem mem_markAll {q : Nat × Nat} (l : List Nat) (c : Content) (h : q ∈ markAll c l) : q ∈ c := by
  induction l generalizing c with
  | nil => exact h
  | cons j l ih =>
    unfold markAll at h
    split at h
    · exact h
    · exact (List.mem_filter.1 (ih _ h)).1

theorem mem_markBatches {q : Nat × Nat} (bs : List (List Nat)) (c : Content)
    (h : q ∈ bs.foldl markAll c) : q ∈ c := by
  induction bs generalizing c with
  | nil => exact h
  | cons b bs ih => exact mem_markAll b c (ih _ h)

theorem mem_addPoints {q : Nat × Nat} (vs : List (Nat × Nat)) (c : Content)
    (h : q ∈ vs.foldl addPoint c) : q ∈ c ∨ q ∈ vs := by
  induction vs generalizing c with
  | nil => exact .inl h
  | cons p vs ih =>
    rcases ih (addPoint c p) h with h | h
    · rcases List.mem_append.1 h with h | h
      · exact .inl (List.mem_filter.1 h).1
      · exact .inr (List.mem_cons.2 (.inl (List.mem_singleton.1 h)))
    · exact .inr (List.mem_cons_of_mem _ h)

theorem runOps_mem (g : Cfg) (os : List Op) (i v : Nat) : ∀ (c : Content), (i, v) ∈ runOps g c os →
    (i, v) ∈ c ∨ ∃ up vs, Op.add up vs ∈ os ∧ (i, v) ∈ vs := by
  unfold runOps
  induction os with
  | nil => exact fun c h => .inl h
  | cons o os ih =>
    intro c h
    rw [List.foldl_cons] at h
    rcases ih _ h with h | ⟨up, vs, h1, h2⟩
    · have hrem : ∀ (c : Content) l, (i, v) ∈ removeIds c l → (i, v) ∈ c :=
        fun c l hm => (List.mem_filter.1 hm).1
      cases o with
      | del ids =>
        refine .inl ?_
        revert h
        simp only [Op.run, delP]
        cases g.kind with
        | flat => exact hrem c ids
        | ivf =>
          simp only [ivfDel]
          split
          · exact id
          · split
            · exact id
            · exact hrem c ids
        | hnsw =>
          simp only [hnswDel]
          exact mem_markBatches _ c
      | add up vs =>
        have key : (i, v) ∈ c ∨ (i, v) ∈ vs := by
          revert h
          simp only [Op.run, addP]
          have hbat : ∀ (f : Content → List (Nat × Nat) → Content × Stat),
              (∀ c b, (i, v) ∈ (f c b).1 → (i, v) ∈ c ∨ (i, v) ∈ b) →
              ∀ (bs : List (List (Nat × Nat))) (c : Content), (i, v) ∈ (runBatches f c bs).1 →
                (i, v) ∈ c ∨ (i, v) ∈ bs.flatten := by
            intro f hf bs
            induction bs with
            | nil => exact fun c h => .inl h
            | cons b bs ih =>
              intro c h
              rw [List.flatten_cons, List.mem_append]
              rcases ih (f c b).1 h with h | h
              · rcases hf c b h with h | h
                · exact .inl h
                · exact .inr (.inl h)
              · exact .inr (.inr h)
          have hcut : ∀ (f n : Nat) (l : List (Nat × Nat)), (i, v) ∈ (cut f n l).flatten →
              (i, v) ∈ l := by
            intro f
            induction f with
            | zero => intro n l h; cases h
            | succ f ih =>
              intro n l h
              unfold cut at h
              split at h
              · cases h
              · rw [List.flatten_cons] at h
                rcases List.mem_append.1 h with h | h
                · exact List.mem_of_mem_take h
                · exact List.mem_of_mem_drop (ih n _ h)
          cases g.kind with
          | flat =>
            intro h
            refine (hbat flatAdd ?_ _ c h).imp id (hcut _ _ vs)
            intro c b h
            unfold flatAdd at h
            split at h
            · exact .inl h
            · split at h
              · exact .inl h
              · rcases List.mem_append.1 h with h | h
                · exact .inl (hrem _ _ h)
                · exact .inr h
          | ivf =>
            intro h
            refine (hbat (ivfAdd up) ?_ _ c h).imp id (hcut _ _ vs)
            intro c b h
            unfold ivfAdd at h
            split at h
            · exact .inl h
            · rcases List.mem_append.1 h with h | h
              · revert h
                split
                · exact fun h => .inl (hrem _ _ h)
                · exact .inl
              · exact .inr h
          | hnsw =>
            simp only [hnswAdd]
            split
            · exact .inl
            · exact mem_addPoints vs c
        rcases key with h | h
        · exact .inl h
        · exact .inr ⟨up, vs, List.mem_cons_self, h⟩
    · exact .inr ⟨up, vs, List.mem_cons_of_mem _ h1, h2⟩

/-- C65: an index holds no vector that it was not given under that id. -/
theorem C65_no_invention (g : Cfg) (os : List Op) (i v : Nat) (h : v ∈ held (runOps g [] os) i) :
    ∃ up vs, Op.add up vs ∈ os ∧ (i, v) ∈ vs := by
  rcases runOps_mem g os i v [] (mem_held.1 h) with e | e
  · cases e
  · exact e

/-- Duplicates, updates and deletions. -/
example : held (runOps { kind := .ivf } [] [.add false [(1, 2), (1, 3)], .add false [(1, 4)],
    .del [5], .add true [(2, 9)]]) 1 = [2, 3, 4] ∧
    held (runOps { kind := .hnsw } [] [.add false [(1, 2), (1, 3)], .add false [(1, 4)],
    .del [5], .add true [(2, 9)]]) 1 = [4] := by decide +kernel

/-- C65: a flat index refuses a batch that names an id twice, and is unchanged then. -/
theorem C65_flat_refuses {g : Cfg} (hk : g.kind = .flat) {up : Bool} {c : Content}
    {vs : List (Nat × Nat)} (hl : vs.length ≤ g.ivfBatch) (hd : ¬(vs.map (·.1)).Nodup) :
    addP g up c vs = (c, .err) := by
  have hne : vs ≠ [] := by rintro rfl; exact hd List.nodup_nil
  have hp : pieces g.ivfBatch vs = [vs] := by
    unfold pieces
    cases vs with
    | nil => exact absurd rfl hne
    | cons a l =>
      rw [List.length_cons]
      unfold cut
      rw [if_neg (by simp), List.take_of_length_le hl, List.drop_of_length_le hl]
      cases l.length with
      | zero => rfl
      | succ n => rfl
  have hf : flatAdd c vs = (c, .err) := by
    unfold flatAdd
    rw [if_neg (by simpa using hne), if_pos (by
      rw [Bool.not_eq_true', Bool.eq_false_iff]; exact fun e => hd (distinct_iff.1 e))]
  unfold addP
  rw [hk]
  show runBatches flatAdd c (pieces g.ivfBatch vs) = _
  rw [hp]
  simp only [runBatches, hf]
  rfl

example : ([(1, 10), (2, 20), (1, 30)] : Content).length ≤ ({ kind := .flat } : Cfg).ivfBatch ∧
    ¬(([(1, 10), (2, 20), (1, 30)] : Content).map (·.1)).Nodup := by decide +kernel

/-- C65 fails: an inverted-file index that is given an id it holds, without being asked to update,
keeps the old vector beside the new one. -/
theorem C65_readd_false : ∃ c vs, (vs.map (·.1)).Nodup ∧
    (addP { kind := .ivf } false c vs).2 = .ok ∧
    held (addP { kind := .ivf } false c vs).1 1 = [10, 20] :=
  ⟨[(1, 10)], [(1, 20)], by decide +kernel⟩

/-- C65 fails: an inverted-file index that is given an id twice, with an update, holds both. -/
theorem C65_twice_false : ∃ vs, (addP { kind := .ivf } true [] vs).2 = .ok ∧
    held (addP { kind := .ivf } true [] vs).1 1 = [10, 20] :=
  ⟨[(1, 10), (1, 20)], by decide +kernel⟩

/-- C65 fails: with an id twice in one batch of several, a flat index refuses the call and yet takes
the other batches; with the two in different batches it accepts the call. -/
theorem C65_flat_batches_false : ∃ vs ws : List (Nat × Nat),
    addP { kind := .flat, ivfBatch := 2 } true [] vs = ([(3, 30)], .err) ∧
    addP { kind := .flat, ivfBatch := 2 } true [] ws = ([(3, 30), (1, 20)], .ok) ∧ vs.Perm ws :=
  ⟨[(1, 10), (1, 20), (3, 30)], [(1, 10), (3, 30), (1, 20)], by decide +kernel⟩

/-- C65 fails: an HNSW index asked to delete an id it does not hold keeps the ids named after it, and
the call succeeds. -/
theorem C65_hnsw_delete_false : ∃ c ids, 1 ∈ ids ∧
    (delP { kind := .hnsw } c ids).2 = .ok ∧ held (delP { kind := .hnsw } c ids).1 1 = [10] :=
  ⟨[(1, 10), (2, 20)], [9, 1], by decide +kernel⟩

/-- C65, for a region that holds a second index for a range it took over: if no id is named twice, and
both indexes get a part (or are not HNSW), then the call succeeds, and the index an id's range
belongs to holds it exactly as given; ids not named are held as before. -/
theorem C65_sibling_partial {g : Cfg} (hg : g.ok = true) {up : Bool}
    (hk : g.kind ≠ .ivf ∨ up = true) {w : Pair}
    {vs : List (Nat × Nat)} (hd : (vs.map (·.1)).Nodup)
    (hne : g.kind ≠ .hnsw ∨ (inRange w.sibRange vs ≠ [] ∧ inRange w.ownRange vs ≠ [])) :
    (w.add g up vs).2 = .ok ∧
    (∀ i v, (i, v) ∈ vs → w.ownRange.1 ≤ i → i < w.ownRange.2 → held (w.add g up vs).1.own i = [v]) ∧
    (∀ i v, (i, v) ∈ vs → w.sibRange.1 ≤ i → i < w.sibRange.2 → held (w.add g up vs).1.sib i = [v]) ∧
    (∀ i, i ∉ vs.map (·.1) → held (w.add g up vs).1.own i = held w.own i ∧
      held (w.add g up vs).1.sib i = held w.sib i) := by
  have hsub : ∀ r : Nat × Nat, ((inRange r vs).map (·.1)).Sublist (vs.map (·.1)) :=
    fun r => List.Sublist.map _ List.filter_sublist
  have hS := addP_spec hg (up := up) (c := w.sib) ((hsub w.sibRange).nodup hd)
    (hk.imp id .inl)
  have hO := addP_spec hg (up := up) (c := w.own) ((hsub w.ownRange).nodup hd)
    (hk.imp id .inl)
  have h1 := hS.2 (hne.imp id (·.1))
  have h2 := hO.2 (hne.imp id (·.2))
  have hval : w.add g up vs =
      ({ w with own := (addP g up w.own (inRange w.ownRange vs)).1,
                sib := (addP g up w.sib (inRange w.sibRange vs)).1 }, .ok) := by
    unfold Pair.add
    simp only [h1, h2, ne_eq, not_true_eq_false, if_false]
  have hin : ∀ (r : Nat × Nat) i v, (i, v) ∈ vs → r.1 ≤ i → i < r.2 → (i, v) ∈ inRange r vs :=
    fun r i v hm ha hb => List.mem_filter.2 ⟨hm, by simp [ha, hb]⟩
  have hone : ∀ (r : Nat × Nat) i v, (i, v) ∈ inRange r vs → held (inRange r vs) i = [v] := by
    intro r i v hm
    have hv := mem_held.2 hm
    rcases held_distinct ((hsub r).nodup hd) i with h | ⟨u, h⟩
    · rw [h] at hv; cases hv
    · rw [h] at hv ⊢; rw [List.mem_singleton.1 hv]
  rw [hval]
  refine ⟨rfl, fun i v hm ha hb => ?_, fun i v hm ha hb => ?_, fun i hi => ⟨?_, ?_⟩⟩
  · have := hin w.ownRange i v hm ha hb
    show held (addP g up w.own (inRange w.ownRange vs)).1 i = _
    rw [hO.1 i, if_pos (List.mem_map.2 ⟨_, this, rfl⟩), hone _ _ _ this]
  · have := hin w.sibRange i v hm ha hb
    show held (addP g up w.sib (inRange w.sibRange vs)).1 i = _
    rw [hS.1 i, if_pos (List.mem_map.2 ⟨_, this, rfl⟩), hone _ _ _ this]
  · show held (addP g up w.own (inRange w.ownRange vs)).1 i = _
    rw [hO.1 i, if_neg (fun h => hi ((hsub _).subset h))]
  · show held (addP g up w.sib (inRange w.sibRange vs)).1 i = _
    rw [hS.1 i, if_neg (fun h => hi ((hsub _).subset h))]

/-- Own ids 0–9, ids 10–19 taken over. -/
def pairEx : Pair := { own := [(1, 10)], ownRange := (0, 10), sib := [(12, 7)], sibRange := (10, 20) }

example : inRange pairEx.sibRange [(2, 5), (12, 6)] ≠ [] ∧ inRange pairEx.ownRange [(2, 5), (12, 6)] ≠ [] ∧
    (pairEx.add { kind := .hnsw } true [(2, 5), (12, 6)]).1.own = [(1, 10), (2, 5)] ∧
    (pairEx.add { kind := .hnsw } true [(2, 5), (12, 6)]).1.sib = [(12, 6)] := by decide +kernel

/-- C65 fails: an HNSW region holding such a second index refuses every write that names ids of only
one of the two ranges, and a write of ids taken over also removes what was held under them. -/
theorem C65_sibling_false : ∃ (w : Pair) (v x : Nat),
    pairEx = w ∧
    w.add { kind := .hnsw } true [(2, v)] = (w, .err) ∧
    held w.sib 12 = [7] ∧
    (w.add { kind := .hnsw } true [(12, x)]).2 = .err ∧
    held (w.add { kind := .hnsw } true [(12, x)]).1.sib 12 = [] :=
  ⟨pairEx, 5, 6, by decide +kernel⟩

end Verif.VecIndex
