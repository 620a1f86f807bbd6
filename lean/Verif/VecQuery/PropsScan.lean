import Verif.VecQuery.Scan

/-!
# C79: scanning, counting and the borders of the vectors of a region

`VectorScanQuery`, `VectorCount` and `VectorGetBorderId`.
-/

namespace Verif.VecQuery

/-- Reading the entries of vectors that are there. -/
theorem batch_shown {schema : List Field} {ops : List Op} (hv : Valid schema ops) {now : Int} {w : Want}
    (hs : w.scalar = true → ScalarKept ops) (ht : w.table = true → TableKept ops) {L : List VecIn}
    (hL : ∀ v ∈ L, ∃ ttl, Shows ops w.ts now ttl v) :
    batchQuery (quiet schema ops now) w (L.map (·.id)) = .ok (L.map (entryOf w)) := by
  have hna : batchQuery (quiet schema ops now) w (L.map (·.id)) ≠ .abort := by
    intro h
    obtain ⟨ttl, v, h1, h2, h3, h4⟩ := (C78_abort_iff hv).2.1 h
    obtain ⟨ts', vs, hm, hvv⟩ := decided_mem ((shows_iff hv).1 h1).1
    rcases h4 with h4 | h4
    · exact hs h4.1 _ hm _ _ _ rfl h3 v hvv h4.2
    · exact ht h4.1 _ hm _ _ _ rfl h3 v hvv h4.2
  cases hb : batchQuery (quiet schema ops now) w (L.map (·.id)) with
  | abort => exact absurd hb hna
  | notFound => exact absurd hb (C78_abort_iff hv).1
  | ok es =>
    obtain ⟨h1, h2⟩ := C78_query_partial hv hb
    congr 1
    refine List.ext_getElem? ?_
    intro j
    by_cases hj : j < L.length
    · have hj' : (L.map (·.id))[j]? = some L[j].id := by
        rw [List.getElem?_map, List.getElem?_eq_getElem hj]; rfl
      obtain ⟨ttl, hsh⟩ := hL L[j] (List.getElem_mem hj)
      rw [(h2 j _ hj').1 ttl L[j] hsh rfl, List.getElem?_map, List.getElem?_eq_getElem hj]
      rfl
    · rw [List.getElem?_eq_none (by rw [h1, List.length_map]; omega),
        List.getElem?_eq_none (by rw [List.length_map]; omega)]

/-- C79. When nothing changes meanwhile, a scan answers with the first vectors, as
many as the limit says, of those that the request asks for: in the range of ids,
there at the timestamp, accepted by the filter; ascending, or descending if that
was asked for; each with what was asked for.  Partial: the first id must not be
negative, the filter must not name a `DATETIME`, and vectors that expire must have
the scalar or table data that is read (otherwise the process aborts). -/
theorem C79_scan_partial {schema : List Field} {ops : List Op} (hv : Valid schema ops) {now : Int} (g : Region)
    {w : Want} {q : ScanReq} (h0 : 0 ≤ q.start) (hl : 0 < q.limit)
    (hf : ∀ std, q.filter = some std → ScalarKept ops ∧ Comparable std)
    (hs : w.scalar = true → ScalarKept ops) (ht : w.table = true → TableKept ops) :
    ∃ L : List VecIn,
      L.Pairwise (fun a b => if q.reverse then b.id < a.id else a.id < b.id) ∧
      (∀ v, v ∈ L ↔ q.Asks g v.id ∧ q.Takes v ∧ ∃ ttl, Shows ops w.ts now ttl v) ∧
      scanQuery (quiet schema ops now) g w q = .ok ((L.take q.limit).map (entryOf w)) := by
  obtain ⟨L, h1, h2, h3, _⟩ := scan_list schema hv g w.ts now q h0 hf
  refine ⟨L, h1, h2, ?_⟩
  unfold scanQuery
  have := h3 q.limit hl
  rw [show ({ q with limit := q.limit } : ScanReq) = q from rfl] at this
  rw [this]
  dsimp only
  rw [← List.map_take]
  refine batch_shown hv hs ht ?_
  intro v hvv
  exact ((h2 v).1 (List.mem_of_mem_take hvv)).2.2

/-- Seven vectors; 4 was deleted, 6 expires. -/
def ops3 : List Op :=
  [.add 10 0 ([1, 2, 3, 4, 5, 7].map fun i => ⟨i, ⟨[i]⟩, [(1, ⟨.int64, [i % 2]⟩)], ⟨[1]⟩⟩),
   .add 20 100 [⟨6, ⟨[6]⟩, [(1, ⟨.int64, [0]⟩)], ⟨[1]⟩⟩],
   .del 30 [4],
   .add 40 0 [⟨8, ⟨[8]⟩, [(1, ⟨.int64, [0]⟩)], ⟨[1]⟩⟩]]

example : Valid [] ops3 ∧ ScalarKept ops3 ∧ TableKept ops3 := by
  refine ⟨?_, ?_, ?_⟩
  · simp [Valid, ops3, Op.Valid, validScalar]
  · simp [ScalarKept, ops3]
  · simp [TableKept, ops3]

example : scanIds (quiet [] ops3 50) ⟨0, 8⟩ 0 { start := 2, limit := 9, filter := some [(1, ⟨.int64, [0]⟩)] } =
    .ok [2, 6] := by decide

example : scanIds (quiet [] ops3 50) ⟨0, 8⟩ 25 { start := 6, stop := 3, reverse := true, limit := 3 } =
    .ok [6, 5, 4] := by decide

/-- C79. A scan can be continued behind its last id: two scans together are one scan
with the sum of their limits. -/
theorem C79_pages {schema : List Field} {ops : List Op} (hv : Valid schema ops) {now ts : Int} {g : Region}
    {q : ScanReq} (h0 : 0 ≤ q.start) (hf : ∀ std, q.filter = some std → ScalarKept ops ∧ Comparable std)
    {n m : Nat} (hm : 0 < m) {a : List Int} {last : Int}
    (ha : scanIds (quiet schema ops now) g ts { q with limit := n } = .ok (a ++ [last]))
    (hn : n = a.length + 1) :
    ∃ b, scanIds (quiet schema ops now) g ts
        { q with limit := m, start := if q.reverse then last - 1 else last + 1 } = .ok b ∧
      scanIds (quiet schema ops now) g ts { q with limit := n + m } = .ok (a ++ [last] ++ b) := by
  obtain ⟨L, h1, h2, h3, _⟩ := scan_list schema hv g ts now q h0 hf
  have e1 := h3 n (by omega)
  rw [ha] at e1
  have e1' : (L.map (·.id)).take n = a ++ [last] := (Out.ok.inj e1).symm
  have hlen : n ≤ L.length := by
    have := congrArg List.length e1'
    rw [List.length_take, List.length_map, List.length_append, List.length_singleton] at this
    omega
  have hn1 : n - 1 < L.length := by omega
  have hlast : L[n - 1].id = last := by
    have h4 : ((L.map (·.id)).take n)[n - 1]? = some last := by
      rw [e1', List.getElem?_append_right (by omega)]
      have : n - 1 - a.length = 0 := by omega
      rw [this]; rfl
    rw [List.getElem?_take_of_lt (by omega), List.getElem?_map, List.getElem?_eq_getElem hn1] at h4
    exact Option.some.inj h4
  have hmem := (h2 L[n - 1]).1 (List.getElem_mem hn1)
  obtain ⟨ttl, hsh⟩ := hmem.2.2
  obtain ⟨ts', vs, hm', hvv⟩ := decided_mem ((shows_iff hv).1 hsh).1
  have hpos : 0 < last := by rw [← hlast]; exact ((hv _ hm').2.2 _ hvv).1
  have hst : 0 ≤ (if q.reverse then last - 1 else last + 1) := by split <;> omega
  obtain ⟨M, m1, m2, m3, _⟩ := scan_list schema hv g ts now
    { q with start := if q.reverse then last - 1 else last + 1 } hst hf
  have hsplit : ∀ v, v ∈ L.drop n ↔ v ∈ L ∧ (if q.reverse then v.id < last else last < v.id) := by
    intro v
    constructor
    · intro hd
      refine ⟨List.mem_of_mem_drop hd, ?_⟩
      obtain ⟨i, hi, e⟩ := List.getElem_of_mem hd
      rw [List.getElem_drop] at e
      rw [List.length_drop] at hi
      have := List.pairwise_iff_getElem.1 h1 (n - 1) (n + i) hn1 (by omega) (by omega)
      rw [hlast, e] at this
      exact this
    · rintro ⟨hvm, hlt⟩
      obtain ⟨i, hi, e⟩ := List.getElem_of_mem hvm
      by_cases hin : n ≤ i
      · rw [List.mem_iff_getElem]
        refine ⟨i - n, by rw [List.length_drop]; omega, ?_⟩
        rw [List.getElem_drop]
        rw [← e]
        congr 1
        omega
      · exfalso
        by_cases hi1 : i = n - 1
        · subst hi1
          rw [e] at hlast
          rw [hlast] at hlt
          split at hlt <;> omega
        · have := List.pairwise_iff_getElem.1 h1 i (n - 1) hi hn1 (by omega)
          rw [hlast, e] at this
          split at hlt <;> simp_all <;> omega
  have hM : L.drop n = M := by
    have hmemM : ∀ v, v ∈ L.drop n ↔ v ∈ M := by
      intro v
      rw [hsplit, h2, m2]
      unfold ScanReq.Asks ScanReq.Takes
      dsimp only
      have hla : q.Asks g last := by rw [← hlast]; exact hmem.1
      unfold ScanReq.Asks at hla
      by_cases hr : q.reverse = true
      · simp only [hr, if_true] at hla ⊢
        constructor
        · rintro ⟨⟨⟨x1, x2, x3, x4⟩, x5, x6⟩, x7⟩
          exact ⟨⟨x1, x2, by omega, x4⟩, x5, x6⟩
        · rintro ⟨⟨x1, x2, x3, x4⟩, x5, x6⟩
          exact ⟨⟨⟨x1, x2, by omega, x4⟩, x5, x6⟩, by omega⟩
      · have hr' : q.reverse = false := by simpa using hr
        simp only [hr', Bool.false_eq_true, if_false] at hla ⊢
        constructor
        · rintro ⟨⟨⟨x1, x2, x3, x4⟩, x5, x6⟩, x7⟩
          exact ⟨⟨x1, x2, by omega, x4⟩, x5, x6⟩
        · rintro ⟨⟨x1, x2, x3, x4⟩, x5, x6⟩
          exact ⟨⟨⟨x1, x2, by omega, x4⟩, x5, x6⟩, by omega⟩
    have hd1 := List.Pairwise.sublist (List.drop_sublist n L) h1
    dsimp only at m1
    by_cases hr : q.reverse = true
    · simp only [hr, if_true] at hd1 m1
      exact sorted_unique (f := fun v => - v.id) (hd1.imp (by intro a b h; omega)) (m1.imp (by intro a b h; omega)) hmemM
    · have hr' : q.reverse = false := by simpa using hr
      simp only [hr', Bool.false_eq_true, if_false] at hd1 m1
      exact sorted_unique (f := fun v => v.id) hd1 m1 hmemM
  refine ⟨(M.map (·.id)).take m, m3 m hm, ?_⟩
  rw [h3 (n + m) (by omega), ← e1', ← hM, List.map_drop, List.take_add]

example : scanIds (quiet [] ops3 50) ⟨0, 8⟩ 0 { start := 1, limit := 2 } = .ok [1, 2] ∧
    scanIds (quiet [] ops3 50) ⟨0, 8⟩ 0 { start := 3, limit := 3 } = .ok [3, 5, 6] ∧
    scanIds (quiet [] ops3 50) ⟨0, 8⟩ 0 { start := 1, limit := 5 } = .ok [1, 2, 3, 5, 6] := by decide

/-- C79. A scan at a timestamp is repeatable: what is written at later timestamps
while it runs, or between its pages, changes nothing. -/
theorem C79_stable {schema : List Field} {ops : List Op} (hv : Valid schema ops) {now : Int} (g : Region)
    {w : Want} (hw : 0 < w.ts) {q : ScanReq} (h0 : 0 ≤ q.start) (hl : 0 < q.limit)
    (hf : ∀ std, q.filter = some std → ScalarKept ops ∧ Comparable std)
    {s : Tick → List Op × Int} (hs : ∀ t, (s t).2 = now ∧ ∃ ext, (s t).1 = ops ++ ext ∧ ∀ o ∈ ext, w.ts < o.ts) :
    scanQuery (during schema s) g w q = scanQuery (quiet schema ops now) g w q := by
  have hT : effTs w.ts = w.ts := by unfold effTs; rw [if_pos hw]
  obtain ⟨L, _, _, h3, h4⟩ := scan_list schema hv g w.ts now q h0 hf
  have e1 := h3 q.limit hl
  have e2 := h4 q.limit (during schema s) hl (hs .open).1 (by
    obtain ⟨_, ext, e, h⟩ := hs .open
    exact ⟨ext, by rw [← e]; rfl, by rw [hT]; exact h⟩) (by
    intro hfn v hvv i
    have hk : ScalarKept ops := by
      cases hq : q.filter with
      | none => exact absurd hq hfn
      | some std => exact (hf std hq).1
    obtain ⟨_, ext, e, h⟩ := hs (.cmp i)
    have : getScalar (during schema s (.cmp i)) w.ts v.id =
        readS (·.scalar) (s (.cmp i)).2 (decided (effTs w.ts) v.id (s (.cmp i)).1) := getScalar_run
    rw [this, e, decided_append (by rw [hT]; exact h), (hs (.cmp i)).1]
    have h5 := getScalar_live (schema := schema) hk hvv
    rw [getScalar_run] at h5
    exact h5)
  rw [show ({ q with limit := q.limit } : ScanReq) = q from rfl] at e1 e2
  unfold scanQuery
  rw [e1, e2]
  exact C78_stable hw hs _

/-- C79. The smallest and the greatest id of the vectors of a region; 0 if there is
none. -/
theorem C79_border {schema : List Field} {ops : List Op} (hv : Valid schema ops) {now ts : Int} (g : Region)
    (getMin : Bool) :
    ∃ id, borderId ⟨run schema ops, now⟩ g ts getMin = .ok id ∧
      (id = 0 → ∀ x, g.lo ≤ x → x < g.hi → ¬ Exists ops ts now x) ∧
      (id ≠ 0 → g.lo ≤ id ∧ id < g.hi ∧ Exists ops ts now id ∧
        ∀ x, g.lo ≤ x → x < g.hi → Exists ops ts now x → if getMin then id ≤ x else x ≤ id) := by
  have hlive : ∀ x, Exists ops ts now x ↔ ∃ v : VecIn, v.id = x ∧ live now (decided (effTs ts) v.id ops) = some v := by
    intro x
    constructor
    · rintro ⟨ttl, v, h1, h2⟩
      exact ⟨v, h2, (live_iff hv).2 ⟨ttl, h1, rfl⟩⟩
    · rintro ⟨v, h1, h2⟩
      obtain ⟨ttl, h3, _⟩ := (live_iff hv).1 h2
      exact ⟨ttl, v, h3, h1⟩
  have hpos : ∀ v : VecIn, live now (decided (effTs ts) v.id ops) = some v → 0 < v.id := by
    intro v h
    obtain ⟨ttl, h3, _⟩ := (live_iff hv).1 h
    obtain ⟨ts', vs, hm', hvv⟩ := decided_mem ((shows_iff hv).1 h3).1
    exact ((hv _ hm').2.2 _ hvv).1
  unfold borderId
  dsimp only
  cases getMin with
  | true =>
    obtain ⟨L, h1, h2, h3⟩ := forward_run (f := fun v : VecIn => v.vec) (T := effTs ts) (now := now) (g := g)
      (start := g.lo) (vec_kept ops)
    simp only [if_true]
    rw [run_eq]
    dsimp only
    rw [h1]
    cases L with
    | nil =>
      refine ⟨0, rfl, ?_, fun h => absurd rfl h⟩
      intro _ x hlo hhi hx
      obtain ⟨v, e, hl⟩ := (hlive x).1 hx
      subst e
      exact absurd ((h3 v).2 ⟨⟨hlo, hlo, hhi⟩, hl⟩) (by simp)
    | cons v L =>
      have hv' := (h3 v).1 List.mem_cons_self
      refine ⟨v.id, rfl, ?_, ?_⟩
      · intro h
        have := hpos v hv'.2
        omega
      · intro _
        refine ⟨hv'.1.1, hv'.1.2.2, (hlive _).2 ⟨v, rfl, hv'.2⟩, ?_⟩
        intro x hlo hhi hx
        obtain ⟨u, e, hl⟩ := (hlive x).1 hx
        subst e
        rcases List.mem_cons.1 ((h3 u).2 ⟨⟨hlo, hlo, hhi⟩, hl⟩) with e | e
        · rw [e]
          exact Int.le_refl _
        · exact Int.le_of_lt ((List.pairwise_cons.1 h2).1 u e)
  | false =>
    obtain ⟨L, h1, h2, h3⟩ := backward_run (f := fun v : VecIn => v.vec) (T := effTs ts) (now := now) (g := g)
      (start := g.hi) (vec_kept ops)
    simp only [Bool.false_eq_true, if_false]
    rw [run_eq]
    dsimp only
    rw [h1]
    cases L with
    | nil =>
      refine ⟨0, rfl, ?_, fun h => absurd rfl h⟩
      intro _ x hlo hhi hx
      obtain ⟨v, e, hl⟩ := (hlive x).1 hx
      subst e
      exact absurd ((h3 v).2 ⟨⟨hlo, Int.le_of_lt hhi, hhi⟩, hl⟩) (by simp)
    | cons v L =>
      have hv' := (h3 v).1 List.mem_cons_self
      refine ⟨v.id, rfl, ?_, ?_⟩
      · intro h
        have := hpos v hv'.2
        omega
      · intro _
        refine ⟨hv'.1.1, hv'.1.2.2, (hlive _).2 ⟨v, rfl, hv'.2⟩, ?_⟩
        intro x hlo hhi hx
        obtain ⟨u, e, hl⟩ := (hlive x).1 hx
        subst e
        rcases List.mem_cons.1 ((h3 u).2 ⟨⟨hlo, Int.le_of_lt hhi, hhi⟩, hl⟩) with e | e
        · rw [e]
          exact Int.le_refl _
        · exact Int.le_of_lt ((List.pairwise_cons.1 h2).1 u e)

example : borderId ⟨run [] ops3, 50⟩ ⟨2, 8⟩ 0 true = .ok 2 ∧ borderId ⟨run [] ops3, 50⟩ ⟨0, 7⟩ 0 false = .ok 6 ∧
    borderId ⟨run [] ops3, 101⟩ ⟨0, 7⟩ 0 false = .ok 5 ∧ borderId ⟨run [] ops3, 50⟩ ⟨9, 12⟩ 0 true = .ok 0 := by decide

theorem countLoop_items {L : List (Key × Vec)} : ∀ {n : Nat}, countLoop n (items L) = .ok (n + L.length) := by
  induction L with
  | nil => intro n; rfl
  | cons p L ih =>
    intro n
    show countLoop (n + 1) (items L) = _
    rw [ih, List.length_cons]
    congr 1
    omega

/-- C79. The count of the vectors of a region is the number of ids in its range with
a vector. -/
theorem C79_count {schema : List Field} {ops : List Op} (hv : Valid schema ops) {now ts : Int} (g : Region) :
    ∃ ids : List Int, ids.Nodup ∧ (∀ x, x ∈ ids ↔ g.lo ≤ x ∧ x < g.hi ∧ Exists ops ts now x) ∧
      vectorCount ⟨run schema ops, now⟩ g ts = .ok ids.length := by
  obtain ⟨L, h1, h2, h3⟩ := forward_run (f := fun v : VecIn => v.vec) (T := effTs ts) (now := now) (g := g)
    (start := g.lo) (vec_kept ops)
  refine ⟨L.map (·.id), ?_, ?_, ?_⟩
  · unfold List.Nodup
    rw [List.pairwise_map]
    exact h2.imp (by intro a b h; omega)
  · intro x
    rw [List.mem_map]
    constructor
    · rintro ⟨v, hvm, e⟩
      subst e
      have := (h3 v).1 hvm
      obtain ⟨ttl, h4, h5⟩ := (live_iff hv).1 this.2
      exact ⟨this.1.1, this.1.2.2, ttl, v, h4, h5⟩
    · rintro ⟨x1, x2, ttl, v, h4, h5⟩
      subst h5
      exact ⟨v, (h3 v).2 ⟨⟨x1, x1, x2⟩, (live_iff hv).2 ⟨ttl, h4, rfl⟩⟩, rfl⟩
  · unfold vectorCount
    rw [run_eq]
    dsimp only
    rw [h1, countLoop_items, List.length_map, List.length_map, Nat.zero_add]

example : vectorCount ⟨run [] ops3, 50⟩ ⟨0, 8⟩ 0 = .ok 6 := by decide

/-! ## Where it fails -/

/-- C79: the service accepts a scan from a negative id, and the process aborts. -/
theorem C79_negative_false :
    scanAccepted 1024 0 { start := -1, limit := 10 } = true ∧
      scanIds (quiet [] ops3 50) ⟨0, 8⟩ 0 { start := -1, limit := 10 } = .abort := by decide

/-- C79: a scan with a filter fails as a whole when a vector is deleted while it
runs. -/
theorem C79_race_false :
    ∃ s : Tick → List Op × Int, (∀ t, (s t).1 = ops3 ∨ (s t).1 = ops3 ++ [.del 50 [3]]) ∧
      scanIds (during [] s) ⟨0, 8⟩ 0 { start := 1, limit := 9, filter := some [(1, ⟨.int64, [1]⟩)] } = .notFound := by
  refine ⟨fun t => if t = .open then (ops3, 50) else (ops3 ++ [.del 50 [3]], 50), ?_, by decide⟩
  intro t
  dsimp only
  split
  · exact Or.inl rfl
  · exact Or.inr rfl

/-- C79: a scan without filter then answers with an empty entry. -/
theorem C79_hole_false :
    ∃ s : Tick → List Op × Int, (∀ t, (s t).1 = ops3 ∨ (s t).1 = ops3 ++ [.del 50 [2]]) ∧
      scanQuery (during [] s) ⟨0, 8⟩ { scalar := false, table := false } { start := 1, limit := 2 } =
        .ok [{ id := some 1, vec := some ⟨[1]⟩ }, {}] := by
  refine ⟨fun t => if t = .open then (ops3, 50) else (ops3 ++ [.del 50 [2]], 50), ?_, by decide⟩
  intro t
  dsimp only
  split
  · exact Or.inl rfl
  · exact Or.inr rfl

/-- C79: a scan with a filter aborts the process when it comes to a vector that has
a time of expiry and no scalar data. -/
theorem C79_abort_false :
    scanIds (quiet [] ops1 50) ⟨0, 8⟩ 0 { start := 1, limit := 9, filter := some [(1, ⟨.int64, [8]⟩)] } = .abort := by
  decide

end Verif.VecQuery
