import Verif.VecQuery.Fast

/-!
# C80: filters on scalar data

The ids a search with a scalar pre-filter is restricted to.
-/

namespace Verif.VecQuery

theorem scalarMatch_congr {std s s' : Scalar} (h : ∀ p ∈ std, s.lookup p.1 = s'.lookup p.1) :
    scalarMatch std s = scalarMatch std s' := by
  unfold scalarMatch
  rw [Bool.eq_iff_iff, List.all_eq_true, List.all_eq_true]
  constructor
  · intro h1 p hp
    rw [← h p hp]
    exact h1 p hp
  · intro h1 p hp
    rw [h p hp]
    exact h1 p hp

/-- C80. When nothing changes meanwhile, the ids a scalar pre-filter yields are those
of the vectors of the region that have all the fields asked for, with these
values; each once, ascending.  This holds whether the scalar data of whole vectors
is read or, if all fields asked for have rows of their own, only these.  Partial:
the filter must not name a `DATETIME` (`C80_datetime_false`), and if whole scalar
data is read, vectors that expire must have some (`C80_abort_false`). -/
theorem C80_prefilter_partial {schema : List Field} {ops : List Op} (hv : Valid schema ops) {now : Int} (g : Region)
    {std : Scalar} (hc : Comparable std) (hk : useFast schema std = false → ScalarKept ops) :
    ∃ ids, preFilterIds schema g ⟨run schema ops, now⟩ std = some ids ∧ ids.Pairwise (· < ·) ∧
      ∀ x, x ∈ ids ↔ g.lo ≤ x ∧ x < g.hi ∧ ∃ ttl v, Shows ops 0 now ttl v ∧ v.id = x ∧ Matches std v.scalar := by
  have hnd : ∀ v : VecIn, live now (decided (effTs 0) v.id ops) = some v → (v.scalar.map (·.1)).Nodup := by
    intro v h
    obtain ⟨ttl, h3, _⟩ := (live_iff hv).1 h
    obtain ⟨ts', vs, hm', hvv⟩ := decided_mem ((shows_iff hv).1 h3).1
    exact ((hv _ hm').2.2 _ hvv).2.1
  have hspec : ∀ x, (∃ ttl v, Shows ops 0 now ttl v ∧ v.id = x ∧ Matches std v.scalar) ↔
      ∃ v : VecIn, v.id = x ∧ live now (decided (effTs 0) v.id ops) = some v ∧ scalarMatch std v.scalar = true := by
    intro x
    constructor
    · rintro ⟨ttl, v, h1, h2, h3⟩
      have hl := (live_iff hv).2 ⟨ttl, h1, rfl⟩
      exact ⟨v, h2, hl, (match_iff hc (hnd v hl)).2 h3⟩
    · rintro ⟨v, h1, h2, h3⟩
      obtain ⟨ttl, h4, _⟩ := (live_iff hv).1 h2
      exact ⟨ttl, v, h4, h1, (match_iff hc (hnd v h2)).1 h3⟩
  unfold preFilterIds
  by_cases hu : useFast schema std = true
  · rw [if_pos hu]
    have hs : Sorted (regionRows g (run schema ops).fast) := List.Pairwise.filter _ fast_sorted
    have hn : NoAbort (regionRows g (run schema ops).fast) := fun _ _ _ _ _ => rfl
    obtain ⟨L, h1, h2, h3⟩ := forward_items (T := effTs 0) (now := now) (prev := none) hs hn (by intro p h; cases h)
    have htop : ∀ k, top (effTs 0) k (regionRows g (run schema ops).fast) =
        if g.lo ≤ k.1 ∧ g.lo ≤ k.1 ∧ k.1 < g.hi then top (effTs 0) k (run schema ops).fast else none :=
      fun k => top_range (fun k : Key => g.lo ≤ k.1 ∧ g.lo ≤ k.1 ∧ k.1 < g.hi)
    have hmem : ∀ (id : Int) (n : Nat) (x : SVal), ((id, n), x) ∈ L ↔
        (g.lo ≤ id ∧ id < g.hi) ∧ Speeds schema n ∧
          ∃ v, live now (decided (effTs 0) id ops) = some v ∧ v.scalar.lookup n = some x := by
      intro id n x
      rw [h3, htop]
      dsimp only
      by_cases hr : g.lo ≤ id ∧ g.lo ≤ id ∧ id < g.hi
      · rw [if_pos hr, fast_seen hv]
        dsimp only
        constructor
        · rintro ⟨_, h⟩; exact ⟨⟨hr.1, hr.2.2⟩, h⟩
        · rintro ⟨_, h⟩; exact ⟨by simp, h⟩
      · rw [if_neg hr]
        constructor
        · rintro ⟨_, h⟩; cases h
        · rintro ⟨h, _⟩; exact absurd ⟨h.1, h.1, h.2⟩ hr
    obtain ⟨R, h4, h5, h6⟩ := preFast_items (p := scalarMatch std) (keys := std.map (·.1)) (last := none) (cur := [])
      h2 (fun _ => rfl) (by intro l h; cases h)
    refine ⟨R, by rw [h1]; exact h4, h5, ?_⟩
    intro id
    unfold useFast at hu
    simp only [Bool.and_eq_true] at hu
    obtain ⟨⟨u1, u2⟩, u3⟩ := hu
    have hstd : ∀ p ∈ std, Speeds schema p.1 := by
      intro p hp
      have := List.all_eq_true.1 u3 p hp
      obtain ⟨f, hf, he⟩ := List.any_eq_true.1 this
      simp only [Bool.and_eq_true, beq_iff_eq] at he
      exact ⟨f, hf, he.1, he.2⟩
    obtain ⟨n0, hn0⟩ : ∃ n, Speeds schema n := by
      obtain ⟨f, hf, he⟩ := List.any_eq_true.1 u1
      exact ⟨f.name, f, hf, he, rfl⟩
    have hsame : ∀ v : VecIn, v.id = id → g.lo ≤ id ∧ id < g.hi → live now (decided (effTs 0) v.id ops) = some v →
        scalarMatch std (coll (std.map (·.1)) id L) = scalarMatch std v.scalar := by
      intro v e hr hl
      refine scalarMatch_congr ?_
      rintro ⟨n, y⟩ hp
      dsimp only
      have hval : validScalar schema v.scalar = true := by
        obtain ⟨ttl, h3, _⟩ := (live_iff hv).1 hl
        obtain ⟨ts', vs, hm', hvv⟩ := decided_mem ((shows_iff hv).1 h3).1
        exact ((hv _ hm').2.2 _ hvv).2.2
      obtain ⟨x, hx⟩ := valid_lookup hval (hstd _ hp)
      dsimp only at hx
      rw [hx]
      refine lookup_of_mem (coll_nodup h2) (coll_mem.2 ⟨List.mem_map.2 ⟨(n, y), hp, rfl⟩, ?_⟩)
      refine (hmem id n x).2 ⟨hr, hstd _ hp, v, ?_, hx⟩
      rw [← e]
      exact hl
    rw [h6, hspec]
    constructor
    · rintro (⟨h, _⟩ | ⟨_, ⟨⟨⟨i, n⟩, x⟩, hx, e⟩, hp⟩)
      · cases h
      · dsimp only at e
        subst e
        obtain ⟨hr, _, v, hl, _⟩ := (hmem i n x).1 hx
        have hid : v.id = i := by
          obtain ⟨_, _, e⟩ := (live_iff hv).1 hl
          exact e
        have hl' : live now (decided (effTs 0) v.id ops) = some v := by rw [hid]; exact hl
        refine ⟨hr.1, hr.2, v, hid, hl', ?_⟩
        rw [← hsame v hid hr hl']
        exact hp
    · rintro ⟨r1, r2, v, e, hl, hp⟩
      refine Or.inr ⟨by simp, ?_, ?_⟩
      · have hval : validScalar schema v.scalar = true := by
          obtain ⟨ttl, h3, _⟩ := (live_iff hv).1 hl
          obtain ⟨ts', vs, hm', hvv⟩ := decided_mem ((shows_iff hv).1 h3).1
          exact ((hv _ hm').2.2 _ hvv).2.2
        obtain ⟨x, hx⟩ := valid_lookup hval hn0
        exact ⟨((id, n0), x), (hmem id n0 x).2 ⟨⟨r1, r2⟩, hn0, v, by rw [← e]; exact hl, hx⟩, rfl⟩
      · rw [hsame v e ⟨r1, r2⟩ hl]
        exact hp
  · rw [if_neg hu]
    have hk' := hk (by simpa using hu)
    obtain ⟨L, h1, h2, h3⟩ := forward_run (f := fun v : VecIn => v.scalar) (T := effTs 0) (now := now) (g := g)
      (start := g.lo) (scalar_kept hk')
    refine ⟨(L.filter fun v => scalarMatch std v.scalar).map (·.id), ?_, ?_, ?_⟩
    · unfold regionRows
      rw [run_eq]
      dsimp only
      rw [h1]
      exact preScalar_items
    · rw [List.pairwise_map]
      exact h2.filter _
    · intro x
      rw [hspec, List.mem_map]
      constructor
      · rintro ⟨v, hm, e⟩
        obtain ⟨hm1, hm2⟩ := List.mem_filter.1 hm
        have := (h3 v).1 hm1
        rw [← e]
        exact ⟨this.1.1, this.1.2.2, v, rfl, this.2, hm2⟩
      · rintro ⟨r1, r2, v, e, hl, hp⟩
        subst e
        exact ⟨v, List.mem_filter.2 ⟨(h3 v).2 ⟨⟨r1, r1, r2⟩, hl⟩, hp⟩, rfl⟩

/-- A schema with fields 1 and 2, both with rows of their own, and field 3 without. -/
def sch : List Field := [⟨1, .int64, true⟩, ⟨2, .string, true⟩, ⟨3, .bool, false⟩]

/-- Four vectors with these fields; 4 is deleted and 2 written again. -/
def ops4 : List Op :=
  [.add 10 0 ([1, 2, 3, 4].map fun i => ⟨i, ⟨[i]⟩, [(1, ⟨.int64, [i % 2]⟩), (2, ⟨.string, [7]⟩), (3, ⟨.bool, [1]⟩)], ⟨[]⟩⟩),
   .del 20 [4],
   .add 30 0 [⟨2, ⟨[2]⟩, [(2, ⟨.string, [7]⟩), (1, ⟨.int64, [1]⟩)], ⟨[]⟩⟩]]

example : Valid sch ops4 ∧ ScalarKept ops4 := by
  refine ⟨?_, ?_⟩
  · simp [Valid, ops4, Op.Valid, validScalar, sch, List.lookup]
  · simp [ScalarKept, ops4]

example : useFast sch [(1, ⟨.int64, [1]⟩)] = true ∧ useFast sch [(1, ⟨.int64, [1]⟩), (3, ⟨.bool, [1]⟩)] = false := by
  decide

example : preFilterIds sch ⟨0, 9⟩ ⟨run sch ops4, 50⟩ [(1, ⟨.int64, [1]⟩)] = some [1, 2, 3] ∧
    preFilterIds sch ⟨0, 9⟩ ⟨run sch ops4, 50⟩ [(1, ⟨.int64, [1]⟩), (3, ⟨.bool, [1]⟩)] = some [1, 3] := by decide

/-- A vector with a `DATETIME`. -/
def ops5 : List Op := [.add 10 0 [⟨1, ⟨[1]⟩, [(1, ⟨.datetime, [99]⟩)], ⟨[]⟩⟩]]

/-- C80 is false for a `DATETIME`, a type schemas may use: a filter for the very value
a vector has does not find it, by either route. -/
theorem C80_datetime_false :
    Valid [⟨1, .datetime, true⟩] ops5 ∧
    (∃ ttl v, Shows ops5 0 50 ttl v ∧ v.id = 1 ∧ Matches [(1, ⟨.datetime, [99]⟩)] v.scalar) ∧
    preFilterIds [⟨1, .datetime, true⟩] ⟨0, 9⟩ ⟨run [⟨1, .datetime, true⟩] ops5, 50⟩ [(1, ⟨.datetime, [99]⟩)] = some [] ∧
    preFilterIds [⟨1, .datetime, false⟩] ⟨0, 9⟩ ⟨run [⟨1, .datetime, false⟩] ops5, 50⟩ [(1, ⟨.datetime, [99]⟩)] = some [] := by
  have hv : Valid [⟨1, .datetime, true⟩] ops5 := by simp [Valid, ops5, Op.Valid, validScalar, List.lookup]
  refine ⟨hv, ⟨0, ⟨1, ⟨[1]⟩, [(1, ⟨.datetime, [99]⟩)], ⟨[]⟩⟩, (shows_iff hv).2 ⟨by decide, Or.inl rfl⟩, rfl, ?_⟩, by decide,
    by decide⟩
  intro p hp
  exact hp

/-- C80 is false when a vector of the region has a time of expiry, even one in the
past, and no scalar data: every search with a scalar pre-filter aborts the process. -/
theorem C80_abort_false :
    preFilterIds [] ⟨0, 9⟩ ⟨run [] ops1, 50⟩ [(1, ⟨.int64, [8]⟩)] = none ∧
      preFilterIds [] ⟨0, 9⟩ ⟨run [] ops1, 5000⟩ [(1, ⟨.int64, [8]⟩)] = none := by decide

/-- C80. Which scalar data is taken with a vector: every field of the schema that is given has the
type of the schema, and those with rows of their own are given. -/
theorem C80_accepted {schema : List Field} {s : Scalar} (hn : (s.map (·.1)).Nodup) :
    validScalar schema s = true ↔
      ∀ f ∈ schema, (∀ x, (f.name, x) ∈ s → x.ftype = f.ftype) ∧ (f.speedUp = true → ∃ x, (f.name, x) ∈ s) := by
  have hl : ∀ (n : Nat) (x : SVal), s.lookup n = some x ↔ (n, x) ∈ s := by
    intro n x
    induction s with
    | nil => simp
    | cons p s ih =>
      rw [List.map_cons, List.nodup_cons] at hn
      rw [List.lookup_cons, List.mem_cons]
      by_cases he : n = p.1
      · simp only [he, beq_self_eq_true]
        constructor
        · intro h; cases h; exact Or.inl rfl
        · rintro (h | h)
          · rw [← h]
          · exact absurd (List.mem_map_of_mem (f := (·.1)) h) hn.1
      · have hb : (n == p.1) = false := by simpa using he
        simp only [hb]
        rw [ih hn.2]
        constructor
        · exact Or.inr
        · rintro (h | h)
          · exact absurd (congrArg Prod.fst h) he
          · exact h
  unfold validScalar
  rw [List.all_eq_true]
  constructor
  · intro h f hf
    have := h f hf
    cases hx : s.lookup f.name with
    | none =>
      rw [hx] at this
      refine ⟨fun x hm => ?_, fun hs => ?_⟩
      · rw [(hl _ _).2 hm] at hx; cases hx
      · rw [hs] at this; cases this
    | some y =>
      rw [hx] at this
      refine ⟨fun x hm => ?_, fun _ => ⟨y, (hl _ _).1 hx⟩⟩
      rw [(hl _ _).2 hm] at hx; cases hx
      exact (of_decide_eq_true this).symm
  · intro h f hf
    obtain ⟨h1, h2⟩ := h f hf
    cases hx : s.lookup f.name with
    | none =>
      cases hs : f.speedUp with
      | false => simp
      | true =>
        obtain ⟨x, hm⟩ := h2 hs
        rw [(hl _ _).2 hm] at hx; cases hx
    | some y => exact decide_eq_true (h1 y ((hl _ _).1 hx)).symm

end Verif.VecQuery
