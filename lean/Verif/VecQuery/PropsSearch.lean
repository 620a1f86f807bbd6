import Verif.VecQuery.Brute

/-! # C81: what a search of vectors finds -/

namespace Verif.VecQuery

/-! ## A library that is exact -/

/-- The other sign if greater numbers are nearer. -/
def turn (m : Metric) (h : Hit) : Hit := if m.inner then ⟨h.id, -h.dist⟩ else h

/-- A library that sorts. -/
def sorting : Faiss where
  score m q v := if m.inner then (List.zipWith (fun a b => a * b) q.nums v.nums).sum
    else (List.zipWith (fun a b => (a - b) * (a - b)) q.nums v.nums).sum
  one := 1
  top m L k := (((L.map (turn m)).foldr insertHit []).take k).map (turn m) ++ List.replicate (k - L.length) ⟨-1, 0⟩
  within m L r := L.filter fun h => if m.inner then decide (r < h.dist) else decide (h.dist < r)

theorem turn_turn {m : Metric} {h : Hit} : turn m (turn m h) = h := by
  unfold turn
  cases m.inner <;> simp

theorem turn_id {m : Metric} {h : Hit} : (turn m h).id = h.id := by
  unfold turn
  cases m.inner <;> simp

theorem turn_near {m : Metric} {a b : Hit} : m.near (turn m a).dist (turn m b).dist ↔ a.dist ≤ b.dist := by
  cases m <;> simp [turn, Metric.near, Metric.inner]

theorem sorted_all : ∀ {L : List Hit}, (L.map (·.id)).Nodup →
    (∀ x, x ∈ L.foldr insertHit [] ↔ x ∈ L) ∧ ((L.foldr insertHit []).map (·.id)).Nodup ∧
    (L.foldr insertHit []).Pairwise HLt ∧ (L.foldr insertHit []).length = L.length := by
  intro L
  induction L with
  | nil => simp
  | cons h L ih =>
    intro hn
    rw [List.map_cons, List.nodup_cons] at hn
    obtain ⟨h1, h2, h3, h4⟩ := ih hn.2
    have hne : ∀ x ∈ L.foldr insertHit [], x.id ≠ h.id := fun x hx e => hn.1 (List.mem_map.2 ⟨x, (h1 x).1 hx, e⟩)
    rw [List.foldr_cons]
    refine ⟨?_, insertHit_once h2 hne, insertHit_sorted h3 hne, ?_⟩
    · intro x
      rw [insertHit_mem, h1, List.mem_cons]
    · rw [insertHit_length, h4, List.length_cons]

theorem sorting_exact : sorting.Exact := by
  refine ⟨?_, ?_⟩
  · intro m L k hn _
    have hid : ((L.map (turn m)).map (·.id)) = L.map (·.id) := by
      rw [List.map_map]
      exact List.map_congr_left fun x _ => turn_id
    obtain ⟨h1, h2, h3, h4⟩ := sorted_all (L := L.map (turn m)) (by rw [hid]; exact hn)
    generalize hT : (L.map (turn m)).foldr insertHit [] = T at h1 h2 h3 h4
    refine ⟨(T.take k).map (turn m), _, by rw [← hT]; rfl, ?_, ?_, ?_, ?_, ?_, ?_⟩
    · intro h hh
      rw [(List.mem_replicate.1 hh).2]
    · intro h hh
      obtain ⟨x, hx, rfl⟩ := List.mem_map.1 hh
      obtain ⟨y, hy, rfl⟩ := List.mem_map.1 ((h1 x).1 (List.mem_of_mem_take hx))
      rw [turn_turn]
      exact hy
    · rw [List.map_map]
      have : (T.take k).map ((·.id) ∘ turn m) = (T.map (·.id)).take k := by
        rw [← List.map_take]
        exact List.map_congr_left fun x _ => turn_id
      rw [this]
      exact List.Nodup.sublist (List.take_sublist _ _) h2
    · rw [List.pairwise_map]
      exact (List.Pairwise.sublist (List.take_sublist _ _) (sorted_dist h3)).imp fun h => turn_near.2 h
    · simp; omega
    · intro h hh hnot
      have hT' : turn m h ∈ T := (h1 _).2 (List.mem_map.2 ⟨h, hh, rfl⟩)
      rw [← List.take_append_drop k T, List.mem_append] at hT'
      rcases hT' with h5 | h5
      · exact absurd (List.mem_map.2 ⟨_, h5, turn_turn⟩) hnot
      · have hlen := List.length_pos_of_mem h5
        rw [List.length_drop] at hlen
        refine ⟨by simp; omega, ?_⟩
        intro r hr
        obtain ⟨x, hx, rfl⟩ := List.mem_map.1 hr
        have h6 := sorted_dist h3
        rw [← List.take_append_drop k T, List.pairwise_append] at h6
        have := turn_near (m := m).2 (h6.2.2 x hx _ h5)
        rwa [turn_turn] at this
  · intro m L r hn
    refine ⟨List.Nodup.sublist (List.Sublist.map _ List.filter_sublist) hn, ?_⟩
    intro h
    show h ∈ L.filter _ ↔ _
    rw [List.mem_filter]
    cases m <;> simp [Metric.near, Metric.inner]

/-! ## Filters -/

/-- C81. A filter by ids lets pass the ids of its list, or if negated the others,
whatever the order of the list. -/
theorem C81_filter {l : List Int} {neg : Bool} {x : Int} :
    (idsFilter neg false l).check x = true ↔ (neg = true ↔ x ∉ l) := by
  unfold idsFilter
  rw [if_neg (by simp), check_ids sortIds_sorted]
  simp [sortIds_mem]

example : (idsFilter false false [7, 3, 9]).check 9 = true ∧ (idsFilter false false [7, 3, 9]).check 4 = false ∧
    (idsFilter true false [7, 3, 9]).check 9 = false := by decide

/-- C81. The same if the client says that the list is sorted, and it is. -/
theorem C81_filter_sorted_partial {l : List Int} (hs : l.Pairwise (· ≤ ·)) {neg : Bool} {x : Int} :
    (idsFilter neg true l).check x = true ↔ (neg = true ↔ x ∉ l) := by
  unfold idsFilter
  rw [if_pos rfl, check_ids hs]

example : List.Pairwise (· ≤ ·) [3, 7, 7, 9] := by decide

/-- C81 fails for a list that the client says is sorted and that is not: ids are missed,
or those to be left out pass. -/
theorem C81_sorted_false :
    (idsFilter false true [7, 3, 9]).check 7 = false ∧ (idsFilter true true [7, 3, 9]).check 7 = true := by decide

/-! ## Searching the index -/

/-- C81. For every query the search of an exact index finds the `k` nearest of the
vectors that the indexes of the region hold, that belong to the region and that the
filters let pass: nearest first, none twice, none missed that is nearer; with or
without an index taken over from another region, and in whatever order the tasks of
the search end.  Without an index it says so. -/
theorem C81_index_partial {F : Faiss} (hF : F.Exact) {m : Metric} {P : Pool} {w : Wrap} {g : Region} (hf : w.Fits g)
    {fs : List Filter} {k : Nat} {qs : List Vec} (hP : P.Fair qs) :
    (w.ready = true → ∃ rs, wrapSearch P w g fs k qs (fun ix fs q => flatSearch F m ix fs k q) = .ok rs ∧
      Each qs (fun q res => TopK k (Held F m w g (fun x => ∀ f ∈ fs, f.check x = true) q) res) rs) ∧
    (w.ready = false → wrapSearch P w g fs k qs (fun ix fs q => flatSearch F m ix fs k q) = .error .notReady) := by
  refine ⟨fun hr => wrap_each hr hP ?_ ?_, fun hr => ?_⟩
  · intro hs q _
    exact (flat_topK hF hf.own hf.pos).congr fun x => held_own hf hs
  · intro s hs q _
    obtain ⟨h1, h2⟩ := hf.sib s hs
    have := mergeHits_topK (flat_topK hF h1 (fun p hp => (h2 p hp).1) (fs := fs) (k := k) (q := q) (m := m))
      (flat_topK hF hf.own hf.pos (fs := fs) (k := k) (q := q) (m := m))
      (fun a b ha hb => (inIx_apart (fun p hp => (h2 p hp).2) hb ha).symm)
    exact this.congr fun x => held_both hf hs
  · unfold wrapSearch
    rw [hr]
    rfl

/-- C81. What the search of an index that is not exact finds are vectors of the region
that the filters let pass, with their distances: nearest first, none twice, at most `k`. -/
theorem C81_sound_partial {F : Faiss} (hF : F.Good) {m : Metric} {P : Pool} {w : Wrap} (hr : w.ready = true) {g : Region}
    (hf : w.Fits g) {fs : List Filter} {k : Nat} {qs : List Vec} (hP : P.Fair qs) :
    ∃ rs, wrapSearch P w g fs k qs (fun ix fs q => flatSearch F m ix fs k q) = .ok rs ∧
      Each qs (fun q res => Listing k (Held F m w g (fun x => ∀ f ∈ fs, f.check x = true) q) res) rs := by
  refine wrap_each hr hP ?_ ?_
  · intro hs q _
    exact (flat_sound hF hf.own hf.pos).congr fun x => held_own hf hs
  · intro s hs q _
    obtain ⟨h1, h2⟩ := hf.sib s hs
    have := mergeHits_sound (flat_sound hF h1 (fun p hp => (h2 p hp).1) (fs := fs) (k := k) (q := q) (m := m))
      (flat_sound hF hf.own hf.pos (fs := fs) (k := k) (q := q) (m := m))
      (fun a b ha hb => (inIx_apart (fun p hp => (h2 p hp).2) hb ha).symm)
    exact this.congr fun x => held_both hf hs

theorem range_short {F : Faiss} (hF : F.Exact) {m : Metric} {ix : Index} (ho : (ix.map (·.1)).Nodup)
    {fs : List Filter} {r : Int} {q : Vec} : (flatRange F m ix fs r q).length ≤ ix.length := by
  obtain ⟨h1, h2⟩ := range_mem hF ho (fs := fs) (r := r) (q := q) (m := m)
  have := len_of_sub (A := (flatRange F m ix fs r q).map (·.id)) (B := ix.map (·.1)) h1 (by
    intro x hx
    obtain ⟨h, hh, rfl⟩ := List.mem_map.1 hx
    obtain ⟨⟨v, h3, _⟩, _⟩ := (h2 h).1 hh
    exact List.mem_map.2 ⟨_, h3, rfl⟩)
  simpa using this

/-- C81. For every query a range search of an exact index finds exactly the vectors
nearer than the radius, each once. -/
theorem C81_index_range_partial {F : Faiss} (hF : F.Exact) {m : Metric} {P : Pool} {w : Wrap} (hr : w.ready = true)
    {g : Region} (hf : w.Fits g) {fs : List Filter} {r : Int} {qs : List Vec} (hP : P.Fair qs)
    (hsz : ∀ s, w.sibling = some s → s.length + w.own.length < 2 ^ 32) :
    ∃ rs, wrapSearch P w g fs (2 ^ 32 - 1) qs (fun ix fs q => flatRange F m ix fs r q) = .ok rs ∧
      Each qs (fun q res => (res.map (·.id)).Nodup ∧
        ∀ h, h ∈ res ↔ Held F m w g (fun x => ∀ f ∈ fs, f.check x = true) q h ∧ h.dist < r) rs := by
  refine wrap_each hr hP ?_ ?_
  · intro hs q _
    obtain ⟨h1, h2⟩ := range_mem hF hf.own (fs := ownFilters w g fs) (r := r) (q := q) (m := m)
    exact ⟨h1, fun h => by rw [h2, held_own hf hs]⟩
  · intro s hs q _
    obtain ⟨h1, h2⟩ := hf.sib s hs
    obtain ⟨a1, a2⟩ := range_mem hF h1 (fs := fs) (r := r) (q := q) (m := m)
    obtain ⟨b1, b2⟩ := range_mem hF hf.own (fs := fs) (r := r) (q := q) (m := m)
    have hd : ∀ a ∈ flatRange F m s fs r q, ∀ b ∈ flatRange F m w.own fs r q, a.id ≠ b.id := fun a ha b hb =>
      (inIx_apart (fun p hp => (h2 p hp).2) ((b2 b).1 hb).1 ((a2 a).1 ha).1).symm
    refine ⟨(mergeHits_once a1 b1 hd).1, fun h => ?_⟩
    have e1 := range_short hF h1 (fs := fs) (r := r) (q := q) (m := m)
    have e2 := range_short hF hf.own (fs := fs) (r := r) (q := q) (m := m)
    have e3 := hsz s hs
    rw [mergeHits_mem (by omega), a2, b2, ← held_both hf hs]
    constructor
    · rintro (⟨h3, h4⟩ | ⟨h3, h4⟩)
      · exact ⟨Or.inl h3, h4⟩
      · exact ⟨Or.inr h3, h4⟩
    · rintro ⟨h3 | h3, h4⟩
      · exact Or.inl ⟨h3, h4⟩
      · exact Or.inr ⟨h3, h4⟩

/-- Two indexes of a region, three queries, and tasks that end in reverse order. -/
def wrap1 : Wrap := { own := [(1, ⟨[1]⟩), (2, ⟨[2]⟩), (4, ⟨[9]⟩)], range := ⟨0, 5⟩, sibling := some [(7, ⟨[3]⟩), (6, ⟨[8]⟩)] }
def wrap2 : Wrap := { own := [(1, ⟨[1]⟩), (2, ⟨[2]⟩), (4, ⟨[9]⟩)], range := ⟨0, 5⟩ }
def pool1 : Pool := { size := 1, order := fun _ => [2, 1, 0] }
def qs1 : List Vec := [⟨[1]⟩, ⟨[9]⟩, ⟨[4]⟩]

theorem wrap1_fits : wrap1.Fits ⟨0, 9⟩ := by
  refine ⟨by decide, by decide, ?_, ?_, ?_⟩
  · intro s hs; cases hs; decide
  · intro h; cases h
  · intro s hs; cases hs; decide

theorem pool1_fair : pool1.Fair qs1 := by
  refine ⟨rfl, fun n i hi => ?_⟩
  show i ∈ [2, 1, 0]
  simp [qs1] at hi ⊢
  omega

example : wrap1.Fits ⟨0, 9⟩ ∧ pool1.Fair qs1 ∧ sorting.Exact ∧ sorting.Good :=
  ⟨wrap1_fits, pool1_fair, sorting_exact, sorting_exact.good⟩

example : wrap2.Fits ⟨2, 5⟩ := by
  refine ⟨by decide, by decide, ?_, ?_, ?_⟩
  · intro s hs; cases hs
  · intro _ h; cases h
  · intro s hs; cases hs

example : wrapSearch pool1 wrap1 ⟨0, 9⟩ [idsFilter true false [2]] 2 qs1 (fun ix fs q => flatSearch sorting .l2 ix fs 2 q) =
    .ok [[⟨1, 0⟩, ⟨7, 4⟩], [⟨4, 0⟩, ⟨6, 1⟩], [⟨7, 1⟩, ⟨1, 9⟩]] := by decide +kernel

example : wrapSearch pool1 wrap2 ⟨2, 5⟩ [] 2 qs1 (fun ix fs q => flatSearch sorting .ip ix fs 2 q) =
    .ok [[⟨4, -8⟩, ⟨2, -1⟩], [⟨4, -80⟩, ⟨2, -17⟩], [⟨4, -35⟩, ⟨2, -7⟩]] := by decide +kernel

/-- C81 fails when a task takes two queries: the second task overwrites the answer to
the second query, and the third query has no answer. -/
theorem C81_parallel_false :
    wrapSearch { pool1 with size := 2 } wrap2 ⟨0, 5⟩ [] 1 qs1 (fun ix fs q => flatSearch sorting .l2 ix fs 1 q) =
      .ok [[⟨1, 0⟩], [⟨4, 0⟩], []] ∧
    wrapSearch { size := 2, order := fun _ => [0, 1] } wrap2 ⟨0, 5⟩ [] 1 qs1 (fun ix fs q => flatSearch sorting .l2 ix fs 1 q) =
      .ok [[⟨1, 0⟩], [⟨2, 4⟩], []] ∧
    wrapSearch pool1 wrap2 ⟨0, 5⟩ [] 1 qs1 (fun ix fs q => flatSearch sorting .l2 ix fs 1 q) =
      .ok [[⟨1, 0⟩], [⟨4, 0⟩], [⟨2, 4⟩]] := by
  refine ⟨?_, ?_, ?_⟩ <;> decide +kernel

/-! ## Brute force -/

/-- The hits of what the rows hold. -/
theorem found_rows {F : Faiss} {m : Metric} {ops : List Op} {now : Int} {g : Region} {L : Index}
    (hL : ∀ id v, (id, v) ∈ L ↔ ∃ ttl x, Shows ops 0 now ttl x ∧ (g.lo ≤ x.id ∧ x.id < g.hi) ∧ x.id = id ∧ x.vec = v)
    {fs : List Filter} {q : Vec} {h : Hit} :
    InIx F m L fs q h ↔ Found F m ops now g (fun v => ∀ f ∈ fs, f.check v.id = true) q h := by
  unfold InIx Found
  constructor
  · rintro ⟨v, h1, h2, h3⟩
    obtain ⟨ttl, x, h4, h5, h6, h7⟩ := (hL _ _).1 h1
    subst h7
    refine ⟨ttl, x, h4, h5, ?_, h6.symm, h3⟩
    show ∀ f ∈ fs, f.check x.id = true
    rw [h6]
    exact pass_iff.1 h2
  · rintro ⟨ttl, x, h1, h2, h3, h4, h5⟩
    refine ⟨x.vec, (hL _ _).2 ⟨ttl, x, h1, h2, h4.symm, rfl⟩, ?_, h5⟩
    rw [h4]
    exact pass_iff.2 h3

/-- C81. A search by brute force finds for every query the `k` nearest of the vectors
there are in the region and that the filters let pass, whatever the size of the
batches; vectors that have expired are not found.  Partial: if there is no vector in
the region the answer has no result for any query (`C81_empty_false`). -/
theorem C81_brute_partial {F : Faiss} (hF : F.Exact) {m : Metric} {P : Pool} {schema : List Field} {ops : List Op}
    (hv : Valid schema ops) {now : Int} {size : Nat} {w : Wrap} (hr : w.ready = true) {g : Region} {fs : List Filter} {k : Nat}
    (hk : 0 < k) {qs : List Vec} (hP : P.Fair qs) :
    ∃ rs, bruteSearch F m P size w g ⟨run schema ops, now⟩ fs k qs = .ok rs ∧
      ((∃ id, Exists ops 0 now id ∧ g.lo ≤ id ∧ id < g.hi) →
        Each qs (fun q res => TopK k (Found F m ops now g (fun v => ∀ f ∈ fs, f.check v.id = true) q) res) rs) ∧
      ((¬ ∃ id, Exists ops 0 now id ∧ g.lo ≤ id ∧ id < g.hi) → rs = []) := by
  obtain ⟨L, h1, h2, h3, h4⟩ := brute_rows schema hv g now
  have hex : (∃ id, Exists ops 0 now id ∧ g.lo ≤ id ∧ id < g.hi) ↔ L ≠ [] := by
    constructor
    · rintro ⟨id, ⟨ttl, x, h5, rfl⟩, h6⟩ e
      subst e
      cases (h4 x.id x.vec).2 ⟨ttl, x, h5, h6, rfl, rfl⟩
    · intro h
      obtain ⟨⟨id, v⟩, hm⟩ := List.exists_mem_of_ne_nil L h
      obtain ⟨ttl, x, h5, h6, rfl, _⟩ := (h4 id v).1 hm
      exact ⟨x.id, ⟨ttl, x, h5, rfl⟩, h6⟩
  unfold bruteSearch
  rw [hr, hex]
  dsimp only
  rw [h1]
  cases L with
  | nil => exact ⟨[], rfl, fun h => absurd rfl h, fun _ => rfl⟩
  | cons p L =>
    obtain ⟨rs, h5, h6⟩ := brute_each hF hk hP (size := size) h2 h3 (m := m) (fs := fs)
    refine ⟨rs, ?_, fun _ => h6.imp fun q res h => h.congr fun x => found_rows h4, fun h => absurd (by simp) h⟩
    exact h5

/-- C81. A range search by brute force finds for every query the vectors nearer than the
radius, each once.  Partial: it stops at a number of them (`C81_cap_false`). -/
theorem C81_brute_range_partial {F : Faiss} (hF : F.Exact) {m : Metric} {P : Pool} {schema : List Field} {ops : List Op}
    (hv : Valid schema ops) {now : Int} {size cap : Nat} {g : Region} {fs : List Filter} {r : Int}
    {qs : List Vec} (hP : P.Fair qs) :
    ∃ rs, bruteRange F m P size cap g ⟨run schema ops, now⟩ fs r qs = .ok rs ∧
      ((∃ id, Exists ops 0 now id ∧ g.lo ≤ id ∧ id < g.hi) →
        Each qs (fun q res => (res.map (·.id)).Nodup ∧ res.length ≤ cap ∧
          (∀ h ∈ res, Found F m ops now g (fun v => ∀ f ∈ fs, f.check v.id = true) q h ∧ h.dist < r) ∧
          (res.length < cap → ∀ h, Found F m ops now g (fun v => ∀ f ∈ fs, f.check v.id = true) q h → h.dist < r → h ∈ res)) rs) ∧
      ((¬ ∃ id, Exists ops 0 now id ∧ g.lo ≤ id ∧ id < g.hi) → rs = []) := by
  obtain ⟨L, h1, h2, h3, h4⟩ := brute_rows schema hv g now
  have hex : (∃ id, Exists ops 0 now id ∧ g.lo ≤ id ∧ id < g.hi) ↔ L ≠ [] := by
    constructor
    · rintro ⟨id, ⟨ttl, x, h5, rfl⟩, h6⟩ e
      subst e
      cases (h4 x.id x.vec).2 ⟨ttl, x, h5, h6, rfl, rfl⟩
    · intro h
      obtain ⟨⟨id, v⟩, hm⟩ := List.exists_mem_of_ne_nil L h
      obtain ⟨ttl, x, h5, h6, rfl, _⟩ := (h4 id v).1 hm
      exact ⟨x.id, ⟨ttl, x, h5, rfl⟩, h6⟩
  unfold bruteRange
  rw [hex]
  dsimp only
  rw [h1]
  cases L with
  | nil => exact ⟨[], rfl, fun h => absurd rfl h, fun _ => rfl⟩
  | cons p L =>
    obtain ⟨rs, h5, h6⟩ := bruteRange_each hF hP (size := size) (cap := cap) (r := r) h2 h3 (m := m) (fs := fs)
    refine ⟨rs, h5, fun _ => h6.imp fun q res h => ⟨h.once, h.short, ?_, ?_⟩, fun h => absurd (by simp) h⟩
    · intro x hx
      obtain ⟨h7, h8⟩ := h.mem x hx
      exact ⟨(found_rows h4).1 h7, h8⟩
    · intro hl x hx hd
      exact h.all hl x ⟨(found_rows h4).2 hx, hd⟩

/-- Some vectors: one is overwritten, one deleted, one expires. -/
def ops6 : List Op :=
  [.add 10 0 [⟨1, ⟨[1]⟩, [(1, ⟨.int64, [1]⟩)], ⟨[]⟩⟩, ⟨2, ⟨[2]⟩, [(1, ⟨.int64, [2]⟩)], ⟨[]⟩⟩, ⟨3, ⟨[3]⟩, [], ⟨[]⟩⟩],
   .add 20 40 [⟨4, ⟨[4]⟩, [(1, ⟨.int64, [2]⟩)], ⟨[]⟩⟩], .del 30 [3],
   .add 35 0 [⟨1, ⟨[8]⟩, [(1, ⟨.int64, [1]⟩)], ⟨[]⟩⟩, ⟨5, ⟨[9]⟩, [(1, ⟨.int64, [2]⟩)], ⟨[]⟩⟩]]

example : Valid [] ops6 := by
  intro o ho
  simp [ops6] at ho
  rcases ho with rfl | rfl | rfl | rfl <;> simp [Op.Valid, validScalar]

example : bruteSearch sorting .l2 pool1 2 wrap1 ⟨0, 9⟩ ⟨run [] ops6, 50⟩ [] 2 qs1 =
    .ok [[⟨2, 1⟩, ⟨1, 49⟩], [⟨5, 0⟩, ⟨1, 1⟩], [⟨2, 4⟩, ⟨1, 16⟩]] := by decide +kernel

example : bruteSearch sorting .l2 pool1 2 wrap1 ⟨0, 9⟩ ⟨run [] ops6, 40⟩ [] 2 qs1 =
    .ok [[⟨2, 1⟩, ⟨4, 9⟩], [⟨5, 0⟩, ⟨1, 1⟩], [⟨4, 0⟩, ⟨2, 4⟩]] := by decide +kernel

example : bruteRange sorting .l2 pool1 2 4 ⟨0, 9⟩ ⟨run [] ops6, 50⟩ [] 20 qs1 =
    .ok [[⟨2, 1⟩], [⟨1, 1⟩, ⟨5, 0⟩], [⟨1, 16⟩, ⟨2, 4⟩]] := by decide +kernel

/-- C81 fails for a region without vectors: three queries, and no result at all, where
the search of the index has one for each. -/
theorem C81_empty_false :
    bruteSearch sorting .l2 pool1 2 wrap1 ⟨20, 30⟩ ⟨run [] ops6, 50⟩ [] 2 qs1 = .ok [] ∧
    wrapSearch pool1 wrap2 ⟨20, 30⟩ [] 2 qs1 (fun ix fs q => flatSearch sorting .l2 ix fs 2 q) = .ok [[], [], []] := by
  refine ⟨?_, ?_⟩ <;> decide +kernel

/-- C81 fails for a range search by brute force that finds more than its limit: it does
not say so, and it does not keep the nearest. -/
theorem C81_cap_false :
    bruteRange sorting .l2 pool1 2 1 ⟨0, 9⟩ ⟨run [] ops6, 50⟩ [] 20 qs1 =
      .ok [[⟨2, 1⟩], [⟨1, 1⟩], [⟨1, 16⟩]] := by decide +kernel

end Verif.VecQuery
