import Verif.VecQuery.Find

/-! # C82: what a search finds of the data written -/

namespace Verif.VecQuery

/-- C82. For every query a search finds the `top_n` nearest of the vectors there are in
the region that the request asks for: all, those with some ids or without them, or
those with some scalar data (`QUERY_PRE`); nearest first, none twice.  Partial:
the circumstances are those of `Settled`; and scalar data may not be filtered after the
search, for which see `C82_post_partial`. -/
theorem C82_search_partial {E : Env} {w : Wrap} {g : Region} {ops : List Op} {now : Int} {r : SearchReq}
    (S : Settled E w g ops now r) (hr : r.radius = none) (hn : 0 < r.topN) (hp : r.by_ = .post → r.want = []) :
    ∃ rs, search E w g ⟨run E.schema ops, now⟩ r = .ok rs ∧
      Each (r.qs.map (·.vec)) (fun q res => TopK r.topN (Found E.F E.m ops now g r.Takes q) res) rs := by
  obtain ⟨fs, h1, h2⟩ := filters_ok S hp
  obtain ⟨rs, h3, h4⟩ := searchIndex_topK S hr hn fs
  rw [h1]
  exact ⟨rs, h3, h4.imp fun q res h => h.congr fun x => Found.congr h2⟩

/-- C82. A range search finds for every query exactly the vectors nearer than the
radius that the request asks for, each once.  Partial: by brute force only if the region
holds no more than a range search may find; and see `Settled`. -/
theorem C82_range_partial {E : Env} {w : Wrap} {g : Region} {ops : List Op} {now : Int} {r : SearchReq}
    (S : Settled E w g ops now r) {x : Int} (hr : r.radius = some x) (hc : r.brute = true → AtMost ops now g E.cap)
    (hs : r.brute = false → ∀ s, w.sibling = some s → s.length + w.own.length < 2 ^ 32) :
    ∃ rs, search E w g ⟨run E.schema ops, now⟩ r = .ok rs ∧
      Each (r.qs.map (·.vec)) (fun q res => (res.map (·.id)).Nodup ∧
        ∀ h, h ∈ res ↔ Found E.F E.m ops now g r.Takes q h ∧ h.dist < x) rs := by
  by_cases hp : r.by_ = .post → r.want = []
  · obtain ⟨fs, h1, h2⟩ := filters_ok S hp
    obtain ⟨rs, h3, h4⟩ := searchIndex_range S hr hc hs (k := r.topN) fs
    rw [h1]
    refine ⟨rs, h3, h4.imp fun q res h => ⟨h.1, fun y => ?_⟩⟩
    rw [h.2]
    show Found E.F E.m ops now g _ q y ∧ y.dist < x ↔ _
    rw [Found.congr h2]
  · have hb : r.by_ = .post := by
      apply Decidable.byContradiction
      intro h; exact hp fun h' => absurd h' h
    have hw : r.want ≠ [] := fun h => hp fun _ => h
    have hk := S.kept (Or.inl hb)
    have hcm := S.compare
    obtain ⟨cs, h3, h4⟩ := searchIndex_range S hr hc hs (k := r.topN * 10) []
    have hT : ∀ v : VecIn, r.Takes v ↔ Matches r.want v.scalar := by intro v; unfold SearchReq.Takes; rw [hb]
    obtain ⟨as, h5, h6⟩ := postAll_each (d := ⟨run E.schema ops, now⟩) (want := r.want) (limit := none)
      (R := fun q res => (res.map (·.id)).Nodup ∧
        ∀ h, h ∈ res ↔ Found E.F E.m ops now g r.Takes q h ∧ h.dist < x) h4 (by
        intro q c h
        have hf : ∀ y, y ∈ c ↔ Found E.F E.m ops now g (fun _ => True) q y ∧ y.dist < x := by
          intro y
          rw [h.2]
          show Found E.F E.m ops now g _ q y ∧ y.dist < x ↔ _
          rw [Found.congr (B := fun _ => True) (by intro v _ _; simp)]
        refine ⟨c.filter (fits ⟨run E.schema ops, now⟩ r.want), ?_, ?_, ?_⟩
        · rw [postLoop_eq (fun y hy => (found_fits S.valid hcm hk).1 ((hf y).1 hy).1) (by intro n h; cases h)]
          rfl
        · exact List.Nodup.sublist (List.filter_sublist.map _) h.1
        · intro y
          rw [List.mem_filter, hf, Found.congr (A := r.Takes) (B := fun v => Matches r.want v.scalar) (fun v _ _ => hT v),
            ← (found_fits S.valid hcm hk).2]
          constructor
          · rintro ⟨⟨a, b⟩, c⟩; exact ⟨⟨a, c⟩, b⟩
          · rintro ⟨⟨a, c⟩, b⟩; exact ⟨⟨a, b⟩, c⟩)
    refine ⟨as, ?_, h6⟩
    unfold search
    unfold SearchReq.want at hw h5
    cases hqs : r.qs with
    | nil => exact absurd hqs S.queries
    | cons q0 qs =>
      rw [hqs] at hw h5
      dsimp only at hw h5 ⊢
      rw [hb]
      dsimp only
      rw [if_neg hw, h3]
      dsimp only
      rw [hr]
      exact h5

/-- C82, for scalar data filtered after the search: what is found are vectors that the
request asks for, nearest first, none twice; and they are the `top_n` nearest of them if
there are that many in the answer, or if the region holds at most ten times as many
vectors.  Otherwise some may be missed: `C82_post_false`. -/
theorem C82_post_partial {E : Env} {w : Wrap} {g : Region} {ops : List Op} {now : Int} {r : SearchReq}
    (S : Settled E w g ops now r) (hr : r.radius = none) (hn : 0 < r.topN) (hb : r.by_ = .post) (hw : r.want ≠ []) :
    ∃ rs, search E w g ⟨run E.schema ops, now⟩ r = .ok rs ∧
      Each (r.qs.map (·.vec)) (fun q res =>
        Listing r.topN (Found E.F E.m ops now g r.Takes q) res ∧
        (res.length = r.topN ∨ AtMost ops now g (10 * r.topN) → TopK r.topN (Found E.F E.m ops now g r.Takes q) res)) rs := by
  have hk := S.kept (Or.inl hb)
  have hcm := S.compare
  have hT : ∀ v : VecIn, r.Takes v ↔ Matches r.want v.scalar := by intro v; unfold SearchReq.Takes; rw [hb]
  obtain ⟨cs, h3, h4⟩ := searchIndex_topK S hr (k := r.topN * 10) (by omega) []
  obtain ⟨as, h5, h6⟩ := postAll_each (d := ⟨run E.schema ops, now⟩) (want := r.want) (limit := some r.topN)
    (R := fun q res =>
        Listing r.topN (Found E.F E.m ops now g r.Takes q) res ∧
        (res.length = r.topN ∨ AtMost ops now g (10 * r.topN) → TopK r.topN (Found E.F E.m ops now g r.Takes q) res)) h4 (by
      intro q c h
      have h' : TopK (r.topN * 10) (Found E.F E.m ops now g (fun _ => True) q) c := h.congr fun x => Found.congr (by intro v _ _; simp)
      have hS : ∀ x, Found E.F E.m ops now g (fun _ => True) q x ∧ fits ⟨run E.schema ops, now⟩ r.want x = true ↔
          Found E.F E.m ops now g r.Takes q x := fun x => by
        rw [(found_fits S.valid hcm hk).2]
        exact Found.congr fun v _ _ => (hT v).symm
      obtain ⟨f1, f2⟩ := filter_topK h' (fits ⟨run E.schema ops, now⟩ r.want) (n := r.topN)
      refine ⟨(c.filter (fits ⟨run E.schema ops, now⟩ r.want)).take r.topN, ?_, f1.congr hS, ?_⟩
      · rw [postLoop_eq (fun y hy => (found_fits S.valid hcm hk).1 (h'.mem y hy)) (by intro n h; cases h; simpa using hn)]
        rfl
      · rintro (hl | hl)
        · exact (f2 (Or.inl hl)).congr hS
        · refine (f2 (Or.inr fun x hx => ?_)).congr hS
          apply Decidable.byContradiction
          intro hnot
          have hbest := h'.best x hx hnot
          have hid : x.id ∉ c.map (·.id) := by
            intro hm
            obtain ⟨y, hy, e⟩ := List.mem_map.1 hm
            obtain ⟨ttl, v, s1, _, _, s2, s3⟩ := h'.mem y hy
            obtain ⟨ttl', v', t1, _, _, t2, t3⟩ := hx
            have hd := ((shows_iff S.valid).1 s1).1
            have hd' := ((shows_iff S.valid).1 t1).1
            have ev : v'.id = v.id := by rw [← t2, ← s2, e]
            rw [ev, hd] at hd'
            cases hd'
            have : y = x := by
              have e2 : y.dist = x.dist := by rw [s3, t3]
              cases y; cases x
              simp at e e2
              rw [e, e2]
            exact hnot (this ▸ hy)
          have := hl (x.id :: c.map (·.id)) (List.nodup_cons.2 ⟨hid, h'.once⟩) (by
            intro id hi
            rcases List.mem_cons.1 hi with rfl | hi
            · exact found_exists hx
            · obtain ⟨y, hy, rfl⟩ := List.mem_map.1 hi
              exact found_exists (h'.mem y hy))
          simp at this
          omega)
  refine ⟨as, ?_, h6⟩
  unfold search
  unfold SearchReq.want at hw h5
  cases hqs : r.qs with
  | nil => exact absurd hqs S.queries
  | cons q0 qs =>
    rw [hqs] at hw h5
    dsimp only at hw h5 ⊢
    rw [hb]
    dsimp only
    rw [if_neg hw, h3]
    dsimp only
    rw [hr]
    exact h5

/-- C82. What a response says about a vector found is what was written of it. -/
theorem C82_answer_partial {schema : List Field} {ops : List Op} (hv : Valid schema ops) {now : Int} (hsk : ScalarKept ops) (htk : TableKept ops)
    {h : Hit} {ttl : Int} {v : VecIn} (hs : Shows ops 0 now ttl v) (hi : h.id = v.id) (w : Want) :
    answer ⟨run schema ops, now⟩ w h = some (entryOf w v) := by
  obtain ⟨h1, h2⟩ := (shows_iff hv).1 hs
  have key : ∀ {α : Type} [Blob α] (f : VecIn → α), (ttl ≠ 0 → Blob.empty (f v) = false) → readS f now (some (ttl, v)) = .value (f v) := by
    intro α _ f hf
    unfold readS
    dsimp only
    by_cases h0 : ttl = 0
    · rw [if_pos h0]
    · rw [if_neg h0, hf h0]
      simp only [Bool.false_eq_true, if_false]
      rw [if_neg (by omega)]
  have e1 : getVec ⟨run schema ops, now⟩ 0 h.id = .value v.vec := by
    rw [getVec_run, hi, h1, key]
    intro _; rfl
  have e2 : getScalar ⟨run schema ops, now⟩ 0 h.id = .value v.scalar := by
    rw [getScalar_run, hi, h1, key]
    intro h0
    obtain ⟨ts, vs, hm, hvv⟩ := decided_mem h1
    have hne := hsk _ hm ts ttl vs rfl h0 v hvv
    cases hsc : v.scalar with
    | nil => exact absurd hsc hne
    | cons a l => rfl
  have e3 : getTable ⟨run schema ops, now⟩ 0 h.id = .value v.table := by
    rw [getTable_run, hi, h1, key]
    intro h0
    obtain ⟨ts, vs, hm, hvv⟩ := decided_mem h1
    have hne := htk _ hm ts ttl vs rfl h0 v hvv
    show v.table.bytes.isEmpty = false
    cases hsc : v.table.bytes with
    | nil => exact absurd hsc hne
    | cons a l => rfl
  unfold answer entryOf
  rw [e1, e2, e3, hi]
  cases w.vec <;> cases w.scalar <;> cases w.table <;> simp [select] <;> (split <;> simp_all)

/-! ## Cases -/

def env1 : Env := { F := sorting, m := .l2, P := { order := fun _ => [0, 1] }, size := 2, cap := 4, schema := [] }

/-- Writes that an index can follow. -/
def ops7 : List Op :=
  [.add 10 0 [⟨1, ⟨[1]⟩, [(1, ⟨.int64, [1]⟩)], ⟨[]⟩⟩, ⟨2, ⟨[2]⟩, [(1, ⟨.int64, [2]⟩)], ⟨[]⟩⟩, ⟨3, ⟨[3]⟩, [], ⟨[]⟩⟩],
   .del 30 [3],
   .add 35 0 [⟨1, ⟨[8]⟩, [(1, ⟨.int64, [1]⟩)], ⟨[]⟩⟩, ⟨5, ⟨[9]⟩, [(1, ⟨.int64, [2]⟩)], ⟨[]⟩⟩]]

def wrap3 (ops : List Op) : Wrap := { own := ixRun ops, range := ⟨0, 9⟩ }
def want2 : Scalar := [(1, ⟨.int64, [2]⟩)]

/-- The nearest of those with a field, two queries. -/
def req1 (brute : Bool) (b : By) : SearchReq :=
  { qs := [⟨0, ⟨[6]⟩, want2, ⟨[]⟩⟩, ⟨0, ⟨[1]⟩, [], ⟨[]⟩⟩], topN := 1, brute := brute, by_ := b }

theorem plain7 : Plain ops7 := by
  refine ⟨by decide, ?_, ?_⟩
  · intro ts ttl vs h; simp [ops7] at h; rcases h with h | h <;> simp_all
  · intro ts ttl vs h; simp [ops7] at h; rcases h with h | h <;> (obtain ⟨_, _, rfl⟩ := h; decide)

example (brute : Bool) (b : By) (hb : ∀ l neg, b ≠ .ids l neg true) : Settled env1 (wrap3 ops7) ⟨0, 9⟩ ops7 50 (req1 brute b) where
  lib := sorting_exact
  fair := ⟨rfl, fun n i hi => by simp [req1] at hi; show i ∈ [0, 1]; simp; omega⟩
  valid := by
    intro o ho
    simp [ops7] at ho
    rcases ho with rfl | rfl | rfl <;> simp [Op.Valid, validScalar, env1]
  ready := rfl
  index := fun _ => by
    refine ⟨⟨by decide, by decide, ?_, ?_, ?_⟩, ?_, plain7⟩
    · intro s hs; cases hs
    · intro _ _; decide
    · intro s hs; cases hs
    · intro id v _ _
      unfold Wrap.Holds
      constructor
      · rintro (h | ⟨s, h, _⟩)
        · exact h
        · cases h
      · exact Or.inl
  some_ := fun _ => by
    refine ⟨2, ⟨0, ⟨2, ⟨[2]⟩, [(1, ⟨.int64, [2]⟩)], ⟨[]⟩⟩, ⟨⟨_, ⟨?_, ?_, [], ops7.tail, rfl, ?_, ?_⟩, ?_⟩, Or.inl rfl⟩, rfl⟩, by decide, by decide⟩
    · decide
    · intro h; omega
    · intro o h; cases h
    · intro o ho hs
      simp [ops7] at ho
      rcases ho with rfl | rfl <;> exact absurd (by decide) hs
    · decide
  queries := by simp [req1]
  kept := fun _ => by
    intro o ho ts ttl vs e h0
    subst e
    exact absurd (plain7.forever ts ttl vs ho) h0
  compare := by
    intro p hp
    simp [SearchReq.want, req1, want2] at hp
    subst hp
    simp
  given_ := fun _ => by simp [SearchReq.want, req1, want2]
  sorted := fun l neg h => absurd h (hb l neg)

example : search env1 (wrap3 ops7) ⟨0, 9⟩ ⟨run [] ops7, 50⟩ (req1 false .pre) = .ok [[⟨5, 9⟩], [⟨2, 1⟩]] ∧
    search env1 (wrap3 ops7) ⟨0, 9⟩ ⟨run [] ops7, 50⟩ (req1 true .post) = .ok [[⟨5, 9⟩], [⟨2, 1⟩]] ∧
    search env1 (wrap3 ops7) ⟨0, 9⟩ ⟨run [] ops7, 50⟩ (req1 false (.ids [2] true false)) = .ok [[⟨1, 4⟩], [⟨1, 49⟩]] ∧
    search env1 (wrap3 ops7) ⟨0, 9⟩ ⟨run [] ops7, 50⟩ { req1 false .post with radius := some 10 } = .ok [[⟨5, 9⟩], [⟨2, 1⟩]] := by
  refine ⟨?_, ?_, ?_, ?_⟩ <;> decide +kernel

/-! ## What goes wrong -/

/-- C82 fails for vectors that expire: an index keeps them, so a search finds a vector
that is no longer there, in place of one that is; brute force does not. -/
theorem C82_expired_false :
    search env1 (wrap3 ops6) ⟨0, 9⟩ ⟨run [] ops6, 50⟩ { qs := [⟨0, ⟨[4]⟩, [], ⟨[]⟩⟩], topN := 1 } = .ok [[⟨4, 0⟩]] ∧
    search env1 (wrap3 ops6) ⟨0, 9⟩ ⟨run [] ops6, 50⟩ { qs := [⟨0, ⟨[4]⟩, [], ⟨[]⟩⟩], topN := 1, brute := true } = .ok [[⟨2, 4⟩]] ∧
    answer ⟨run [] ops6, 50⟩ { table := false } ⟨4, 0⟩ = some { id := some 4, vec := none, scalar := none, table := none } := by
  refine ⟨?_, ?_, ?_⟩ <;> decide +kernel

/-- C82 fails for a filter after the search if an expired vector is among the candidates:
the search fails as a whole. -/
theorem C82_post_expired_false :
    search env1 (wrap3 ops6) ⟨0, 9⟩ ⟨run [] ops6, 50⟩ (req1 false .post) = .error .keyNotFound ∧
    search env1 (wrap3 ops6) ⟨0, 9⟩ ⟨run [] ops6, 50⟩ (req1 false .pre) = .ok [[⟨5, 9⟩], [⟨2, 1⟩]] := by
  refine ⟨?_, ?_⟩ <;> decide +kernel

/-- Two writes of one vector whose order in the log is not that of their timestamps. -/
def ops8 : List Op := [.add 20 0 [⟨1, ⟨[1]⟩, [], ⟨[]⟩⟩], .add 10 0 [⟨1, ⟨[9]⟩, [], ⟨[]⟩⟩]]

/-- C82 fails if the timestamps of two writes are taken in one order and the writes
logged in the other: the index has the one, the data the other, and the distance
reported is not that of the vector reported. -/
theorem C82_order_false :
    search env1 (wrap3 ops8) ⟨0, 9⟩ ⟨run [] ops8, 50⟩ { qs := [⟨0, ⟨[9]⟩, [], ⟨[]⟩⟩], topN := 1 } = .ok [[⟨1, 0⟩]] ∧
    answer ⟨run [] ops8, 50⟩ { scalar := false, table := false } ⟨1, 0⟩ =
      some { id := some 1, vec := some ⟨[1]⟩, scalar := none, table := none } ∧
    search env1 (wrap3 ops8) ⟨0, 9⟩ ⟨run [] ops8, 50⟩ { qs := [⟨0, ⟨[9]⟩, [], ⟨[]⟩⟩], topN := 1, brute := true } =
      .ok [[⟨1, 64⟩]] := by
  refine ⟨?_, ?_, ?_⟩ <;> decide +kernel

/-- Eleven vectors, of which the farthest has the field. -/
def ops9 : List Op :=
  [.add 10 0 [⟨1, ⟨[1]⟩, [], ⟨[]⟩⟩, ⟨2, ⟨[1]⟩, [], ⟨[]⟩⟩, ⟨3, ⟨[1]⟩, [], ⟨[]⟩⟩, ⟨4, ⟨[1]⟩, [], ⟨[]⟩⟩, ⟨5, ⟨[1]⟩, [], ⟨[]⟩⟩,
    ⟨6, ⟨[1]⟩, [], ⟨[]⟩⟩, ⟨7, ⟨[1]⟩, [], ⟨[]⟩⟩, ⟨8, ⟨[1]⟩, [], ⟨[]⟩⟩, ⟨9, ⟨[1]⟩, [], ⟨[]⟩⟩, ⟨10, ⟨[1]⟩, [], ⟨[]⟩⟩,
    ⟨11, ⟨[2]⟩, want2, ⟨[]⟩⟩]]

/-- C82 fails for a filter after the search: only ten times as many vectors as asked for
are looked at. -/
theorem C82_post_false :
    search env1 (wrap3 ops9) ⟨0, 20⟩ ⟨run [] ops9, 50⟩ { qs := [⟨0, ⟨[1]⟩, want2, ⟨[]⟩⟩], topN := 1 } = .ok [[]] ∧
    search env1 (wrap3 ops9) ⟨0, 20⟩ ⟨run [] ops9, 50⟩ { qs := [⟨0, ⟨[1]⟩, want2, ⟨[]⟩⟩], topN := 1, by_ := .pre } = .ok [[⟨11, 1⟩]] := by
  refine ⟨?_, ?_⟩ <;> decide +kernel

/-- C82, as a user may read it, fails for several queries with filters of their own: the
first one's is used for all. -/
theorem C82_first_filter_false :
    search env1 (wrap3 ops7) ⟨0, 9⟩ ⟨run [] ops7, 50⟩
      { qs := [⟨0, ⟨[9]⟩, want2, ⟨[]⟩⟩, ⟨0, ⟨[9]⟩, [(1, ⟨.int64, [1]⟩)], ⟨[]⟩⟩], topN := 1, by_ := .pre } = .ok [[⟨5, 0⟩], [⟨5, 0⟩]] ∧
    search env1 (wrap3 ops7) ⟨0, 9⟩ ⟨run [] ops7, 50⟩
      { qs := [⟨0, ⟨[9]⟩, [(1, ⟨.int64, [1]⟩)], ⟨[]⟩⟩], topN := 1, by_ := .pre } = .ok [[⟨1, 1⟩]] := by
  refine ⟨?_, ?_⟩ <;> decide +kernel

end Verif.VecQuery
