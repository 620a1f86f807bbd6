import Verif.VecQuery.PropsQuery

/-! # Scans (lemmas) -/

namespace Verif.VecQuery

theorem lookup_mem {s : Scalar} {n : Nat} {v : SVal} (h : s.lookup n = some v) : (n, v) ∈ s := by
  induction s with
  | nil => cases h
  | cons a s ih =>
    obtain ⟨k, x⟩ := a
    rw [List.lookup_cons] at h
    by_cases e : n = k
    · subst e
      simp only [beq_self_eq_true] at h
      cases h
      exact List.mem_cons_self
    · have : (n == k) = false := by simpa using e
      rw [this] at h
      exact List.mem_cons_of_mem _ (ih h)

theorem lookup_of_mem {s : Scalar} (hn : (s.map (·.1)).Nodup) {n : Nat} {v : SVal} (h : (n, v) ∈ s) :
    s.lookup n = some v := by
  induction s with
  | nil => cases h
  | cons a s ih =>
    obtain ⟨k, x⟩ := a
    rw [List.map_cons, List.nodup_cons] at hn
    rw [List.lookup_cons]
    rcases List.mem_cons.1 h with e | e
    · cases e
      simp
    · have : n ≠ k := by
        intro e'
        subst e'
        exact hn.1 (List.mem_map.2 ⟨(n, v), e, rfl⟩)
      have : (n == k) = false := by simpa using this
      rw [this]
      exact ih hn.2 e

theorem svalEq_iff {a b : SVal} (h : a.ftype ≠ .datetime ∧ a.ftype ≠ .none) : svalEq a b = true ↔ a = b := by
  obtain ⟨at', af⟩ := a
  obtain ⟨bt, bf⟩ := b
  unfold svalEq
  by_cases he : at' = bt
  · subst he
    simp only [ne_eq, not_true_eq_false, if_false, SVal.mk.injEq, true_and]
    cases at' <;> simp_all
  · simp [he]

theorem match_iff {std s : Scalar} (hc : Comparable std) (hn : (s.map (·.1)).Nodup) :
    scalarMatch std s = true ↔ Matches std s := by
  unfold scalarMatch Matches
  rw [List.all_eq_true]
  constructor
  · intro h p hp
    have := h p hp
    obtain ⟨n, v⟩ := p
    dsimp only at this
    cases hl : s.lookup n with
    | none => rw [hl] at this; cases this
    | some x =>
      rw [hl] at this
      have e := (svalEq_iff (hc _ hp)).1 this
      have := lookup_mem hl
      rw [← e] at this
      exact this
  · intro h p hp
    obtain ⟨n, v⟩ := p
    dsimp only
    rw [lookup_of_mem hn (h _ hp)]
    exact (svalEq_iff (hc _ hp)).2 rfl

/-- The test of the filter of a scan. -/
def passes (filter : Option Scalar) (v : VecIn) : Bool :=
  match filter with
  | none => true
  | some std => scalarMatch std v.scalar

theorem scanLoop_items {ws : Worlds} {ts : Int} {past : Int → Bool} {limit : Nat} {filter : Option Scalar} :
    ∀ {L : List VecIn} {i : Nat} {acc : List Int},
    (filter ≠ none → ∀ v ∈ L, ∀ i, getScalar (ws (.cmp i)) ts v.id = .value v.scalar) → acc.length < limit →
    scanLoop ws ts past limit filter i acc (items (L.map fun v => ((v.id, 0), v.vec))) =
      .ok (acc.reverse ++ (((L.takeWhile fun v => !past v.id).filter (passes filter)).map (·.id)).take
        (limit - acc.length)) := by
  intro L
  induction L with
  | nil => intro i acc _ _; simp [items, scanLoop]
  | cons v L ih =>
    intro i acc hg hl
    have hg' : filter ≠ none → ∀ v ∈ L, ∀ i, getScalar (ws (.cmp i)) ts v.id = .value v.scalar :=
      fun h x hx => hg h x (List.mem_cons_of_mem _ hx)
    show scanLoop ws ts past limit filter i acc (.row (v.id, 0) v.vec :: items (L.map _)) = _
    unfold scanLoop
    dsimp only
    by_cases hp : past v.id = true
    · rw [if_pos hp, List.takeWhile_cons_of_neg (by simpa using hp)]
      simp
    · rw [if_neg hp, List.takeWhile_cons_of_pos (by simpa using hp)]
      have push : (if acc.length + 1 ≥ limit then Out.ok (v.id :: acc).reverse
            else scanLoop ws ts past limit filter (i + 1) (v.id :: acc)
              (items (L.map fun v => ((v.id, 0), v.vec)))) =
          .ok (acc.reverse ++ (v.id :: ((L.takeWhile fun v => !past v.id).filter (passes filter)).map (·.id)).take
            (limit - acc.length)) := by
        obtain ⟨m, hm⟩ : ∃ m, limit - acc.length = m + 1 := ⟨limit - acc.length - 1, by omega⟩
        rw [hm, List.take_succ_cons]
        by_cases hlim : acc.length + 1 ≥ limit
        · rw [if_pos hlim]
          have : m = 0 := by omega
          subst this
          simp
        · rw [if_neg hlim, ih hg' (by rw [List.length_cons]; omega)]
          rw [List.length_cons, show limit - (acc.length + 1) = m from by omega]
          simp
      cases hf : filter with
      | none =>
        subst hf
        dsimp only
        rw [push, List.filter_cons_of_pos (by rfl), List.map_cons]
      | some want =>
        dsimp only
        rw [hg (by rw [hf]; intro h; cases h) v List.mem_cons_self]
        dsimp only
        subst hf
        by_cases hm : scalarMatch want v.scalar = true
        · have hm' : passes (some want) v = true := hm
          rw [if_pos hm, push, List.filter_cons_of_pos hm', List.map_cons]
        · have hm' : ¬ passes (some want) v = true := hm
          rw [if_neg hm, ih hg' hl, List.filter_cons_of_neg hm']

theorem takeWhile_sorted {β : Type} {R : β → β → Prop} {p : β → Bool} : ∀ {L : List β}, L.Pairwise R →
    (∀ a b, R a b → p b = true → p a = true) → L.takeWhile p = L.filter p := by
  intro L
  induction L with
  | nil => intro _ _; rfl
  | cons a L ih =>
    intro h hr
    have h' := List.pairwise_cons.1 h
    by_cases hp : p a = true
    · rw [List.takeWhile_cons_of_pos hp, List.filter_cons_of_pos hp, ih h'.2 hr]
    · rw [List.takeWhile_cons_of_neg hp, List.filter_cons_of_neg hp]
      symm
      rw [List.filter_eq_nil_iff]
      intro b hb hpb
      exact hp (hr a b (h'.1 b hb) hpb)

theorem sorted_unique {β : Type} {f : β → Int} : ∀ {L M : List β},
    L.Pairwise (fun a b => f a < f b) → M.Pairwise (fun a b => f a < f b) → (∀ x, x ∈ L ↔ x ∈ M) → L = M := by
  intro L
  induction L with
  | nil =>
    intro M _ _ h
    cases M with
    | nil => rfl
    | cons b M => exact absurd ((h b).2 List.mem_cons_self) (by simp)
  | cons a L ih =>
    intro M hL hM h
    cases M with
    | nil => exact absurd ((h a).1 List.mem_cons_self) (by simp)
    | cons b M =>
      have hL' := List.pairwise_cons.1 hL
      have hM' := List.pairwise_cons.1 hM
      have e : a = b := by
        rcases List.mem_cons.1 ((h a).1 List.mem_cons_self) with e | e
        · exact e
        · rcases List.mem_cons.1 ((h b).2 List.mem_cons_self) with e' | e'
          · exact e'.symm
          · have h1 := hM'.1 a e
            have h2 := hL'.1 b e'
            omega
      subst e
      rw [ih hL'.2 hM'.2]
      intro x
      constructor
      · intro hx
        rcases List.mem_cons.1 ((h x).1 (List.mem_cons_of_mem _ hx)) with e | e
        · subst e
          have := hL'.1 x hx
          omega
        · exact e
      · intro hx
        rcases List.mem_cons.1 ((h x).2 (List.mem_cons_of_mem _ hx)) with e | e
        · subst e
          have := hM'.1 x hx
          omega
        · exact e

theorem vec_kept (ops : List Op) : ∀ ts ttl vs, Op.add ts ttl vs ∈ ops → ttl ≠ 0 → ∀ v ∈ vs, Blob.empty v.vec = false :=
  fun _ _ _ _ _ _ _ => rfl

theorem scalar_kept {ops : List Op} (h : ScalarKept ops) :
    ∀ ts ttl vs, Op.add ts ttl vs ∈ ops → ttl ≠ 0 → ∀ v ∈ vs, Blob.empty v.scalar = false := by
  intro ts ttl vs ho h0 v hv
  have := h _ ho ts ttl vs rfl h0 v hv
  cases hs : v.scalar with
  | nil => exact absurd hs this
  | cons a l => rfl

theorem getScalar_live {schema : List Field} {ops : List Op} {now ts : Int} {v : VecIn} (h : ScalarKept ops)
    (hl : live now (decided (effTs ts) v.id ops) = some v) :
    getScalar ⟨run schema ops, now⟩ ts v.id = .value v.scalar := by
  rw [getScalar_run]
  have := seen_live (f := fun v : VecIn => v.scalar) (scalar_kept h) hl
  rw [top_run, seen_rowOf] at this
  exact this

/-- The vectors a scan is about, in the order of the scan. -/
theorem scan_list (schema : List Field) {ops : List Op} (hv : Valid schema ops) (g : Region) (ts now : Int) (q : ScanReq)
    (h0 : 0 ≤ q.start) (hc : ∀ std, q.filter = some std → ScalarKept ops ∧ Comparable std) :
    ∃ L : List VecIn,
      L.Pairwise (fun a b => if q.reverse then b.id < a.id else a.id < b.id) ∧
      (∀ v, v ∈ L ↔ q.Asks g v.id ∧ q.Takes v ∧ ∃ ttl, Shows ops ts now ttl v) ∧
      (∀ n, 0 < n → scanIds (quiet schema ops now) g ts { q with limit := n } = .ok ((L.map (·.id)).take n)) ∧
      (∀ n ws, 0 < n → (ws .open).now = now → (∃ ext, (ws .open).db = run schema (ops ++ ext) ∧ ∀ o ∈ ext, effTs ts < o.ts) →
        (q.filter ≠ none → ∀ v, live now (decided (effTs ts) v.id ops) = some v →
          ∀ i, getScalar (ws (.cmp i)) ts v.id = .value v.scalar) →
        scanIds ws g ts { q with limit := n } = .ok ((L.map (·.id)).take n)) := by
  have hpass : ∀ v, (∃ ttl, Shows ops ts now ttl v) → (passes q.filter v = true ↔ q.Takes v) := by
    rintro v ⟨ttl, hs⟩
    unfold passes ScanReq.Takes
    cases hf : q.filter with
    | none => simp
    | some std =>
      obtain ⟨ts', vs, hm, hvv⟩ := decided_mem ((shows_iff hv).1 hs).1
      have hval := (hv _ hm).2.2 v hvv
      rw [match_iff (hc std hf).2 hval.2.1]
      constructor
      · intro h std' e; cases e; exact h
      · intro h; exact h std rfl
  have hlive : ∀ v, live now (decided (effTs ts) v.id ops) = some v ↔ ∃ ttl, Shows ops ts now ttl v := by
    intro v
    rw [live_iff hv]
    constructor
    · rintro ⟨ttl, h, _⟩; exact ⟨ttl, h⟩
    · rintro ⟨ttl, h⟩; exact ⟨ttl, h, rfl⟩
  have hquiet : q.filter ≠ none → ∀ v, live now (decided (effTs ts) v.id ops) = some v →
      ∀ i, getScalar (quiet schema ops now (.cmp i)) ts v.id = .value v.scalar := by
    intro hf v hvv i
    cases hq : q.filter with
    | none => exact absurd hq hf
    | some std => exact getScalar_live (hc std hq).1 hvv
  rcases Bool.eq_false_or_eq_true q.reverse with hrev | hrev
  rotate_left
  · obtain ⟨L, h1, h2, h3⟩ := forward_run (f := fun v : VecIn => v.vec) (T := effTs ts) (now := now) (g := g)
      (start := q.start) (vec_kept ops)
    have hwhile : (L.takeWhile fun v => !(q.stop ≠ 0 && decide (v.id > q.stop))) =
        L.filter fun v => !(q.stop ≠ 0 && decide (v.id > q.stop)) := by
      refine takeWhile_sorted h2 ?_
      intro a b hab hb
      simp only [Bool.not_eq_true', Bool.and_eq_false_iff, decide_eq_false_iff_not] at hb ⊢
      rcases hb with h | h
      · exact Or.inl h
      · exact Or.inr (by omega)
    have any : ∀ n ws, 0 < n → (ws .open).now = now →
        (∃ ext, (ws .open).db = run schema (ops ++ ext) ∧ ∀ o ∈ ext, effTs ts < o.ts) →
        (q.filter ≠ none → ∀ v, live now (decided (effTs ts) v.id ops) = some v →
          ∀ i, getScalar (ws (.cmp i)) ts v.id = .value v.scalar) →
        scanIds ws g ts { q with limit := n } =
          .ok ((((L.filter fun v => !(q.stop ≠ 0 && decide (v.id > q.stop))).filter (passes q.filter)).map (·.id)).take n) := by
      intro n ws hn hnow ⟨ext, hdb, hext⟩ hg
      unfold scanIds
      dsimp only
      rw [if_neg (by omega), hrev]
      simp only [Bool.false_eq_true, if_false]
      have hitems : forward (effTs ts) (ws .open).now none (rowsFrom g q.start (ws .open).db.data) =
          items (L.map fun v => ((v.id, 0), v.vec)) := by
        obtain ⟨M, m1, m2, m3⟩ := forward_run (f := fun v : VecIn => v.vec) (T := effTs ts) (now := now) (g := g)
          (start := q.start) (vec_kept (ops ++ ext))
        have : L = M := by
          refine sorted_unique h2 m2 ?_
          intro v
          rw [h3, m3, decided_append hext]
        rw [hnow, hdb, run_eq, this]
        exact m1
      rw [hitems]
      rw [scanLoop_items (fun hf v hvv i => hg hf v ((h3 v).1 hvv).2 i) (by simpa using hn), hwhile]
      simp
    refine ⟨(L.filter fun v => !(q.stop ≠ 0 && decide (v.id > q.stop))).filter (passes q.filter), ?_, ?_, ?_, ?_⟩
    · simp only [hrev, Bool.false_eq_true, if_false]
      exact (h2.filter _).filter _
    · intro v
      rw [List.mem_filter, List.mem_filter, h3, hlive]
      unfold ScanReq.Asks
      rw [hrev]
      simp only [Bool.false_eq_true, if_false, Bool.not_eq_true', Bool.and_eq_false_iff, decide_eq_false_iff_not]
      constructor
      · rintro ⟨⟨⟨⟨a1, a2, a3⟩, a4⟩, a5⟩, a6⟩
        refine ⟨⟨a1, a3, a2, ?_⟩, (hpass v a4).1 a6, a4⟩
        rcases a5 with h | h
        · left; simpa using h
        · right; omega
      · rintro ⟨⟨a1, a3, a2, a5⟩, a6, a4⟩
        refine ⟨⟨⟨⟨a1, a2, a3⟩, a4⟩, ?_⟩, (hpass v a4).2 a6⟩
        rcases a5 with h | h
        · left; simpa using h
        · right; omega
    · intro n hn
      exact any n _ hn rfl ⟨[], by rw [List.append_nil]; rfl, by intro o h; cases h⟩ hquiet
    · intro n ws hn a1 a2 a4
      exact any n ws hn a1 a2 a4
  · obtain ⟨L, h1, h2, h3⟩ := backward_run (f := fun v : VecIn => v.vec) (T := effTs ts) (now := now) (g := g)
      (start := q.start) (vec_kept ops)
    have hwhile : (L.takeWhile fun v => !(q.stop ≠ 0 && decide (v.id < q.stop))) =
        L.filter fun v => !(q.stop ≠ 0 && decide (v.id < q.stop)) := by
      refine takeWhile_sorted h2 ?_
      intro a b hab hb
      simp only [Bool.not_eq_true', Bool.and_eq_false_iff, decide_eq_false_iff_not] at hb ⊢
      rcases hb with h | h
      · exact Or.inl h
      · exact Or.inr (by omega)
    have any : ∀ n ws, 0 < n → (ws .open).now = now →
        (∃ ext, (ws .open).db = run schema (ops ++ ext) ∧ ∀ o ∈ ext, effTs ts < o.ts) →
        (q.filter ≠ none → ∀ v, live now (decided (effTs ts) v.id ops) = some v →
          ∀ i, getScalar (ws (.cmp i)) ts v.id = .value v.scalar) →
        scanIds ws g ts { q with limit := n } =
          .ok ((((L.filter fun v => !(q.stop ≠ 0 && decide (v.id < q.stop))).filter (passes q.filter)).map (·.id)).take n) := by
      intro n ws hn hnow ⟨ext, hdb, hext⟩ hg
      unfold scanIds
      dsimp only
      rw [if_neg (by omega), hrev]
      simp only [if_true]
      have hitems : backward (effTs ts) (ws .open).now none (rowsBack g q.start (ws .open).db.data) =
          items (L.map fun v => ((v.id, 0), v.vec)) := by
        obtain ⟨M, m1, m2, m3⟩ := backward_run (f := fun v : VecIn => v.vec) (T := effTs ts) (now := now) (g := g)
          (start := q.start) (vec_kept (ops ++ ext))
        have : L = M := by
          refine sorted_unique (f := fun v => - v.id) (h2.imp (by intro a b h; omega)) (m2.imp (by intro a b h; omega)) ?_
          intro v
          rw [h3, m3, decided_append hext]
        rw [hnow, hdb, run_eq, this]
        exact m1
      rw [hitems]
      rw [scanLoop_items (fun hf v hvv i => hg hf v ((h3 v).1 hvv).2 i) (by simpa using hn), hwhile]
      simp
    refine ⟨(L.filter fun v => !(q.stop ≠ 0 && decide (v.id < q.stop))).filter (passes q.filter), ?_, ?_, ?_, ?_⟩
    · simp only [hrev, if_true]
      exact (h2.filter _).filter _
    · intro v
      rw [List.mem_filter, List.mem_filter, h3, hlive]
      unfold ScanReq.Asks
      rw [hrev]
      simp only [if_true, Bool.not_eq_true', Bool.and_eq_false_iff, decide_eq_false_iff_not]
      constructor
      · rintro ⟨⟨⟨⟨a1, a2, a3⟩, a4⟩, a5⟩, a6⟩
        refine ⟨⟨a1, a3, a2, ?_⟩, (hpass v a4).1 a6, a4⟩
        rcases a5 with h | h
        · left; simpa using h
        · right; omega
      · rintro ⟨⟨a1, a3, a2, a5⟩, a6, a4⟩
        refine ⟨⟨⟨⟨a1, a2, a3⟩, a4⟩, ?_⟩, (hpass v a4).2 a6⟩
        rcases a5 with h | h
        · left; simpa using h
        · right; omega
    · intro n hn
      exact any n _ hn rfl ⟨[], by rw [List.append_nil]; rfl, by intro o h; cases h⟩ hquiet
    · intro n ws hn a1 a2 a4
      exact any n ws hn a1 a2 a4

end Verif.VecQuery
