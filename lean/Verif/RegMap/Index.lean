import Verif.RegMap.Scan

/-! # Lemmas: what applying an increment does to the two maps -/

namespace Verif.RegMap
open Verif.Codec (Bytes)

abbrev SortedMap (m : RangeMap) : Prop := m.Pairwise (fun a b => a.1 < b.1)

theorem mem_put {k : Bytes} {v : Region} {e : Bytes × Region} : ∀ {m : RangeMap}, SortedMap m →
    (e ∈ put k v m ↔ e = (k, v) ∨ (e ∈ m ∧ e.1 ≠ k))
  | [], _ => by simp [put]
  | x :: m, h => by
    have h' := h
    rw [SortedMap, List.pairwise_cons] at h'
    unfold put
    by_cases h1 : k < x.1
    · rw [if_pos h1, List.mem_cons]
      have : e ∈ x :: m → e.1 ≠ k := by
        intro he hk
        rw [List.mem_cons] at he
        rcases he with rfl | he
        · rw [hk] at h1; exact List.lt_irrefl _ h1
        · have := List.lt_trans h1 (h'.1 e he)
          rw [hk] at this
          exact List.lt_irrefl _ this
      constructor
      · rintro (h2 | h2)
        · exact Or.inl h2
        · exact Or.inr ⟨h2, this h2⟩
      · rintro (h2 | h2)
        · exact Or.inl h2
        · exact Or.inr h2.1
    · rw [if_neg h1]
      by_cases h2 : k = x.1
      · rw [if_pos h2]
        have : e ∈ m → e.1 ≠ k := by
          intro he hk
          have := h'.1 e he
          rw [hk, h2] at this
          exact List.lt_irrefl _ this
        simp only [List.mem_cons]
        constructor
        · rintro (h3 | h3)
          · exact Or.inl h3
          · exact Or.inr ⟨Or.inr h3, this h3⟩
        · rintro (h3 | ⟨rfl | h3, h4⟩)
          · exact Or.inl h3
          · exact absurd h2.symm h4
          · exact Or.inr h3
      · rw [if_neg h2]
        simp only [List.mem_cons, mem_put h'.2]
        constructor
        · rintro (rfl | h3 | ⟨h3, h4⟩)
          · exact Or.inr ⟨Or.inl rfl, fun h => h2 h.symm⟩
          · exact Or.inl h3
          · exact Or.inr ⟨Or.inr h3, h4⟩
        · rintro (h3 | ⟨h3 | h3, h4⟩)
          · exact Or.inr (Or.inl h3)
          · exact Or.inl h3
          · exact Or.inr (Or.inr ⟨h3, h4⟩)

theorem put_sorted {k : Bytes} {v : Region} : ∀ {m : RangeMap}, SortedMap m → SortedMap (put k v m)
  | [], _ => by simp [put, SortedMap]
  | x :: m, h => by
    have h' := h
    rw [SortedMap, List.pairwise_cons] at h'
    unfold put
    by_cases h1 : k < x.1
    · rw [if_pos h1, SortedMap, List.pairwise_cons]
      refine ⟨fun e he => ?_, h⟩
      rw [List.mem_cons] at he
      rcases he with rfl | he
      · exact h1
      · exact List.lt_trans h1 (h'.1 e he)
    · rw [if_neg h1]
      by_cases h2 : k = x.1
      · rw [if_pos h2, SortedMap, List.pairwise_cons]
        exact ⟨fun e he => by rw [h2]; exact h'.1 e he, h'.2⟩
      · rw [if_neg h2, SortedMap, List.pairwise_cons]
        refine ⟨fun e he => ?_, put_sorted h'.2⟩
        rw [mem_put h'.2] at he
        rcases he with rfl | he
        · rcases Codec.lt_trichotomy k x.1 with h3 | h3 | h3
          · exact absurd h3 h1
          · exact absurd h3 h2
          · exact h3
        · exact h'.1 e he.1

theorem mem_erase {k : Bytes} {m : RangeMap} {e : Bytes × Region} : e ∈ erase m k ↔ e ∈ m ∧ e.1 ≠ k := by
  simp [erase, List.mem_filter]

theorem erase_sorted {k : Bytes} {m : RangeMap} (h : SortedMap m) : SortedMap (erase m k) :=
  List.Pairwise.filter _ h

theorem eraseAll_sorted (ks : List Bytes) : ∀ {m : RangeMap}, SortedMap m → SortedMap (ks.foldl erase m) := by
  induction ks with
  | nil => intro m h; exact h
  | cons k ks ih => intro m h; exact ih (erase_sorted h)

theorem mem_eraseAll (ks : List Bytes) {e : Bytes × Region} : ∀ {m : RangeMap},
    (e ∈ ks.foldl erase m ↔ e ∈ m ∧ e.1 ∉ ks) := by
  induction ks with
  | nil => intro m; simp
  | cons k ks ih =>
    intro m
    rw [List.foldl_cons, ih, mem_erase, List.mem_cons]
    constructor
    · rintro ⟨⟨h1, h2⟩, h3⟩
      exact ⟨h1, fun h => h.elim h2 h3⟩
    · rintro ⟨h1, h2⟩
      exact ⟨⟨h1, fun h => h2 (Or.inl h)⟩, fun h => h2 (Or.inr h)⟩

theorem key_unique {m : RangeMap} (h : SortedMap m) {k : Bytes} {r q : Region} (h1 : (k, r) ∈ m)
    (h2 : (k, q) ∈ m) : r = q := by
  induction m with
  | nil => cases h1
  | cons x m ih =>
    rw [SortedMap, List.pairwise_cons] at h
    rw [List.mem_cons] at h1 h2
    rcases h1 with h1 | h1 <;> rcases h2 with h2 | h2
    · have := h1.trans h2.symm
      exact (Prod.mk.inj this).2
    · have := h.1 _ h2
      rw [← h1] at this
      exact absurd this (List.lt_irrefl _)
    · have := h.1 _ h1
      rw [← h2] at this
      exact absurd this (List.lt_irrefl _)
    · exact ih h.2 h1 h2

theorem get_some {m : RangeMap} (h : SortedMap m) {k : Bytes} {r : Region} :
    get m k = some r ↔ (k, r) ∈ m := by
  unfold get
  constructor
  · intro h1
    rw [Option.map_eq_some_iff] at h1
    obtain ⟨e, h1, rfl⟩ := h1
    have h2 := List.find?_some h1
    have h3 := List.mem_of_find?_eq_some h1
    simp only [decide_eq_true_eq] at h2
    rw [← h2]
    exact h3
  · intro h1
    cases h2 : m.find? (fun e => decide (e.1 = k)) with
    | none =>
      rw [List.find?_eq_none] at h2
      exact absurd (by simp) (h2 _ h1)
    | some e =>
      have h3 := List.find?_some h2
      have h4 := List.mem_of_find?_eq_some h2
      simp only [decide_eq_true_eq] at h3
      obtain ⟨k', q⟩ := e
      dsimp only at h3
      subst h3
      rw [key_unique h h1 h4]
      rfl

theorem get_none {m : RangeMap} {k : Bytes} : get m k = none ↔ ∀ r, (k, r) ∉ m := by
  unfold get
  rw [Option.map_eq_none_iff, List.find?_eq_none]
  constructor
  · intro h r hr
    exact h _ hr (by simp)
  · intro h e he hk
    simp only [decide_eq_true_eq] at hk
    obtain ⟨k', r⟩ := e
    dsimp only at hk
    subst hk
    exact h r he

/-- Collecting the values to put. -/
structure Collected (rs : List Region) (m : RangeMap) : Prop where
  sorted : SortedMap m
  sound : ∀ k r, (k, r) ∈ m → r ∈ rs ∧ r.start = k
  cover : ∀ r ∈ rs, ∃ q, (r.start, q) ∈ m

theorem Collected.insert {rs : List Region} {m : RangeMap} (h : Collected rs m) (r : Region) :
    Collected (rs ++ [r]) (insertNew m r) := by
  unfold insertNew
  cases hg : get m r.start with
  | some q =>
    dsimp only
    rw [get_some h.sorted] at hg
    refine ⟨h.sorted, fun k p hp => ?_, fun p hp => ?_⟩
    · have := h.sound k p hp
      exact ⟨by simp [this.1], this.2⟩
    · rw [List.mem_append, List.mem_singleton] at hp
      rcases hp with hp | rfl
      · exact h.cover p hp
      · exact ⟨q, hg⟩
  | none =>
    dsimp only
    refine ⟨put_sorted h.sorted, fun k p hp => ?_, fun p hp => ?_⟩
    · rw [mem_put h.sorted] at hp
      rcases hp with hp | ⟨hp, _⟩
      · obtain ⟨rfl, rfl⟩ := Prod.mk.inj hp
        exact ⟨by simp, rfl⟩
      · have := h.sound k p hp
        exact ⟨by simp [this.1], this.2⟩
    · rw [List.mem_append, List.mem_singleton] at hp
      rcases hp with hp | rfl
      · obtain ⟨q, hq⟩ := h.cover p hp
        by_cases hk : p.start = r.start
        · exact ⟨r, by rw [mem_put h.sorted, hk]; exact Or.inl rfl⟩
        · exact ⟨q, by rw [mem_put h.sorted]; exact Or.inr ⟨hq, hk⟩⟩
      · exact ⟨p, by rw [mem_put h.sorted]; exact Or.inl rfl⟩

theorem collected (rs : List Region) : Collected rs (rs.foldl insertNew []) := by
  have : ∀ (l done : List Region) (m : RangeMap), Collected done m →
      Collected (done ++ l) (l.foldl insertNew m) := by
    intro l
    induction l with
    | nil => intro done m h; simpa using h
    | cons r l ih =>
      intro done m h
      have := ih _ _ (h.insert r)
      simpa using this
  simpa using this rs [] [] ⟨List.Pairwise.nil, (by intro k r h; cases h), (by intro r h; cases h)⟩

theorem putAll_sorted (es : List (Bytes × Region)) : ∀ {m : RangeMap}, SortedMap m →
    SortedMap (es.foldl (fun m e => put e.1 e.2 m) m) := by
  induction es with
  | nil => intro m h; exact h
  | cons e es ih => intro m h; exact ih (put_sorted h)

theorem mem_putAll {es : RangeMap} (hs : SortedMap es) {e : Bytes × Region} : ∀ {m : RangeMap}, SortedMap m →
    (e ∈ es.foldl (fun m e => put e.1 e.2 m) m ↔ e ∈ es ∨ (e ∈ m ∧ ∀ x ∈ es, e.1 ≠ x.1)) := by
  induction es with
  | nil => intro m _; simp
  | cons x es ih =>
    intro m hm
    rw [SortedMap, List.pairwise_cons] at hs
    rw [List.foldl_cons, ih hs.2 (put_sorted hm), mem_put hm]
    constructor
    · rintro (h | ⟨h | ⟨h1, h2⟩, h3⟩)
      · exact Or.inl (by simp [h])
      · exact Or.inl (by rw [h]; simp)
      · refine Or.inr ⟨h1, fun y hy => ?_⟩
        rw [List.mem_cons] at hy
        rcases hy with rfl | hy
        · exact h2
        · exact h3 y hy
    · rintro (h | ⟨h1, h2⟩)
      · rw [List.mem_cons] at h
        rcases h with rfl | h
        · refine Or.inr ⟨Or.inl rfl, fun y hy hk => ?_⟩
          have := hs.1 y hy
          rw [hk] at this
          exact List.lt_irrefl _ this
        · exact Or.inl h
      · exact Or.inr ⟨Or.inr ⟨h1, h2 x (by simp)⟩, fun y hy => h2 y (by simp [hy])⟩

theorem index'_sorted (b : Batch) {m : RangeMap} (h : SortedMap m) : SortedMap (b.index' m) :=
  eraseAll_sorted _ (putAll_sorted _ (eraseAll_sorted _ h))

theorem mem_index' (b : Batch) {m : RangeMap} (h : SortedMap m) {e : Bytes × Region} :
    e ∈ b.index' m ↔ e.1 ∉ b.eraseDel ∧
      (e ∈ b.index.foldl insertNew [] ∨
        (e ∈ m ∧ e.1 ∉ b.eraseUpd ∧ ∀ r ∈ b.index, e.1 ≠ r.start)) := by
  unfold Batch.index'
  rw [mem_eraseAll, mem_putAll (collected _).sorted (eraseAll_sorted _ h), mem_eraseAll]
  have : (∀ x ∈ b.index.foldl insertNew [], e.1 ≠ x.1) ↔ ∀ r ∈ b.index, e.1 ≠ r.start := by
    constructor
    · intro h1 r hr hk
      obtain ⟨q, hq⟩ := (collected b.index).cover r hr
      exact h1 _ hq hk
    · intro h1 x hx hk
      have := (collected b.index).sound x.1 x.2 hx
      exact h1 _ this.1 (by rw [hk, this.2])
  rw [this]
  constructor
  · rintro ⟨h1 | ⟨⟨h1, h2⟩, h3⟩, h4⟩
    · exact ⟨h4, Or.inl h1⟩
    · exact ⟨h4, Or.inr ⟨h1, h2, h3⟩⟩
  · rintro ⟨h4, h1 | ⟨h1, h2, h3⟩⟩
    · exact ⟨Or.inl h1, h4⟩
    · exact ⟨Or.inr ⟨⟨h1, h2⟩, h3⟩, h4⟩

/-! ## The region map -/

theorem putIds_other (rs : List Region) {j : Nat} : ∀ {m : Nat → Option Region}, (∀ r ∈ rs, r.id ≠ j) →
    rs.foldl putId m j = m j := by
  induction rs with
  | nil => intro m _; rfl
  | cons r rs ih =>
    intro m h
    rw [List.foldl_cons, ih (fun q hq => h q (by simp [hq]))]
    have := h r (by simp)
    unfold putId
    rw [if_neg (fun h => this h.symm)]

theorem putIds_mem (rs : List Region) {r : Region} : ∀ {m : Nat → Option Region}, r ∈ rs →
    (∀ q ∈ rs, q.id = r.id → q = r) → rs.foldl putId m r.id = some r := by
  induction rs with
  | nil => intro m h; cases h
  | cons q rs ih =>
    intro m h hu
    rw [List.foldl_cons]
    by_cases hr : r ∈ rs
    · exact ih hr (fun p hp => hu p (by simp [hp]))
    · rw [List.mem_cons] at h
      rcases h with rfl | h
      · rw [putIds_other rs (fun p hp hpi => hr (hu p (by simp [hp]) hpi ▸ hp))]
        simp [putId]
      · exact absurd h hr

theorem eraseIds (is : List Nat) {j : Nat} : ∀ {m : Nat → Option Region},
    is.foldl eraseId m j = if j ∈ is then none else m j := by
  induction is with
  | nil => intro m; simp
  | cons i is ih =>
    intro m
    rw [List.foldl_cons, ih]
    by_cases h1 : j ∈ is
    · simp [h1]
    · by_cases h2 : j = i
      · simp [h2, eraseId]
      · simp [h1, h2, eraseId]

/-! ## What a batch of updates collects -/

/-- An update that is taken over: the region is known, its version not lower, and higher if it
starts elsewhere. -/
def Taken (s : Coor) (r : Region) : Prop :=
  ∃ old, s.regions r.id = some old ∧ old.d.epoch.version ≤ r.d.epoch.version ∧
    (r.start = old.start ∨ old.d.epoch.version < r.d.epoch.version)

structure Updates (s : Coor) (done : List Region) (b : Batch) : Prop where
  put : ∀ r, r ∈ b.put ↔ r ∈ done ∧ Taken s r
  index : ∀ r, r ∈ b.index ↔ r ∈ done ∧ Taken s r ∧ r.live
  erase1 : ∀ k ∈ b.eraseUpd, ∃ r ∈ done, Taken s r ∧ ∃ old, s.regions r.id = some old ∧ old.start = k ∧
    r.start ≠ k ∧ legalDelete s old = true
  erase2 : ∀ r ∈ done, Taken s r → ∀ old, s.regions r.id = some old → r.start ≠ old.start →
    legalDelete s old = true → old.start ∈ b.eraseUpd ∨ ∃ q ∈ b.index, q.start = old.start
  del : b.del = [] ∧ b.eraseDel = []

theorem Updates.skip {s : Coor} {done : List Region} {b : Batch} (h : Updates s done b) {r : Region}
    (hr : ¬ Taken s r) : Updates s (done ++ [r]) b := by
  refine ⟨fun q => ?_, fun q => ?_, fun k hk => ?_, fun q hq ht => ?_, h.del⟩
  · rw [h.put, List.mem_append, List.mem_singleton]
    constructor
    · rintro ⟨h1, h2⟩
      exact ⟨Or.inl h1, h2⟩
    · rintro ⟨h1 | rfl, h2⟩
      · exact ⟨h1, h2⟩
      · exact absurd h2 hr
  · rw [h.index, List.mem_append, List.mem_singleton]
    constructor
    · rintro ⟨h1, h2⟩
      exact ⟨Or.inl h1, h2⟩
    · rintro ⟨h1 | rfl, h2, h3⟩
      · exact ⟨h1, h2, h3⟩
      · exact absurd h2 hr
  · obtain ⟨q, hq, h1⟩ := h.erase1 k hk
    exact ⟨q, by simp [hq], h1⟩
  · rw [List.mem_append, List.mem_singleton] at hq
    rcases hq with hq | rfl
    · exact h.erase2 q hq ht
    · exact absurd ht hr

theorem Updates.write {s : Coor} {done : List Region} {b b' : Batch} (h : Updates s done b) {r old : Region}
    (hr : Taken s r) (ho : s.regions r.id = some old)
    (hb : b' = b ∨ (b' = { b with eraseUpd := b.eraseUpd ++ [old.start] } ∧ r.start ≠ old.start ∧
      legalDelete s old = true))
    (hn : r.start ≠ old.start → legalDelete s old = true →
      old.start ∈ b'.eraseUpd ∨ ∃ q ∈ b.index, q.start = old.start) :
    Updates s (done ++ [r]) (b'.write r) := by
  have hput : b'.put = b.put := by rcases hb with rfl | ⟨rfl, _⟩ <;> rfl
  have hidx : b'.index = b.index := by rcases hb with rfl | ⟨rfl, _⟩ <;> rfl
  have hdel : b'.del = b.del ∧ b'.eraseDel = b.eraseDel := by rcases hb with rfl | ⟨rfl, _⟩ <;> exact ⟨rfl, rfl⟩
  have hsub : ∀ k ∈ b.eraseUpd, k ∈ b'.eraseUpd := by
    intro k hk
    rcases hb with rfl | ⟨rfl, _⟩
    · exact hk
    · simp [hk]
  have hin : ∀ q, q ∈ (b'.write r).index ↔ q ∈ b.index ∨ (q = r ∧ r.live) := by
    intro q
    unfold Batch.write
    dsimp only
    by_cases hl : r.live
    · rw [if_pos hl, hidx, List.mem_append, List.mem_singleton]
      simp [hl]
    · rw [if_neg hl, hidx]
      simp [hl]
  refine ⟨fun q => ?_, fun q => ?_, fun k hk => ?_, fun q hq ht o hqo hs hl => ?_, ?_⟩
  · show q ∈ b'.put ++ [r] ↔ _
    rw [hput, List.mem_append, List.mem_append, List.mem_singleton, h.put]
    constructor
    · rintro (⟨h1, h2⟩ | rfl)
      · exact ⟨Or.inl h1, h2⟩
      · exact ⟨Or.inr rfl, hr⟩
    · rintro ⟨h1 | rfl, h2⟩
      · exact Or.inl ⟨h1, h2⟩
      · exact Or.inr rfl
  · rw [hin, List.mem_append, List.mem_singleton, h.index]
    constructor
    · rintro (⟨h1, h2⟩ | ⟨rfl, h2⟩)
      · exact ⟨Or.inl h1, h2⟩
      · exact ⟨Or.inr rfl, hr, h2⟩
    · rintro ⟨h1 | rfl, h2, h3⟩
      · exact Or.inl ⟨h1, h2, h3⟩
      · exact Or.inr ⟨rfl, h3⟩
  · have hk' : k ∈ b'.eraseUpd := hk
    have old1 : k ∈ b.eraseUpd → ∃ q ∈ done ++ [r], Taken s q ∧ ∃ old, s.regions q.id = some old ∧
        old.start = k ∧ q.start ≠ k ∧ legalDelete s old = true := by
      intro hk
      obtain ⟨q, hq, h1⟩ := h.erase1 k hk
      exact ⟨q, by simp [hq], h1⟩
    rcases hb with rfl | ⟨rfl, h1, h2⟩
    · exact old1 hk'
    · rw [List.mem_append, List.mem_singleton] at hk'
      rcases hk' with hk' | rfl
      · exact old1 hk'
      · exact ⟨r, by simp, hr, old, ho, rfl, h1, h2⟩
  · show o.start ∈ b'.eraseUpd ∨ _
    rw [List.mem_append, List.mem_singleton] at hq
    have : o.start ∈ b'.eraseUpd ∨ ∃ p ∈ b.index, p.start = o.start := by
      rcases hq with hq | rfl
      · rcases h.erase2 q hq ht o hqo hs hl with h1 | h1
        · exact Or.inl (hsub _ h1)
        · exact Or.inr h1
      · rw [ho] at hqo
        cases hqo
        exact hn hs hl
    rcases this with h1 | ⟨p, hp, h1⟩
    · exact Or.inl h1
    · exact Or.inr ⟨p, (hin p).mpr (Or.inl hp), h1⟩
  · show b'.del = [] ∧ b'.eraseDel = []
    rw [hdel.1, hdel.2]
    exact h.del

theorem Updates.add {s : Coor} {done : List Region} {b : Batch} (h : Updates s done b) {i : Inc}
    (hi : i.op = .update) : Updates s (done ++ [i.region]) (b.add s i) := by
  unfold Batch.add
  rw [hi]
  dsimp only
  cases ho : s.regions i.region.id with
  | none =>
    exact h.skip (by rintro ⟨old, h1, _⟩; rw [ho] at h1; cases h1)
  | some old =>
    dsimp only
    unfold Batch.update
    by_cases h1 : i.region.d.epoch.version < old.d.epoch.version
    · rw [if_pos h1]
      refine h.skip ?_
      rintro ⟨o, h2, h3, _⟩
      rw [ho] at h2
      cases h2
      omega
    · rw [if_neg h1]
      by_cases h2 : i.region.start ≠ old.start
      · rw [if_pos h2]
        by_cases h3 : i.region.d.epoch.version = old.d.epoch.version
        · rw [if_pos h3]
          refine h.skip ?_
          rintro ⟨o, h4, _, h5⟩
          rw [ho] at h4
          cases h4
          rcases h5 with h5 | h5
          · exact h2 h5
          · omega
        · rw [if_neg h3]
          have ht : Taken s i.region := ⟨old, ho, by omega, Or.inr (by omega)⟩
          by_cases h4 : (needDelete b old && legalDelete s old) = true
          · rw [if_pos h4]
            rw [Bool.and_eq_true] at h4
            exact h.write (b' := { b with eraseUpd := b.eraseUpd ++ [old.start] }) ht ho
              (Or.inr ⟨rfl, h2, h4.2⟩) (fun _ _ => Or.inl (by simp))
          · rw [if_neg h4]
            refine h.write ht ho (Or.inl rfl) (fun _ h5 => Or.inr ?_)
            have h6 : needDelete b old = false := by
              rw [h5, Bool.and_true] at h4
              simpa using h4
            unfold needDelete at h6
            simpa using h6
      · rw [if_neg h2]
        have h2 : i.region.start = old.start := Classical.byContradiction h2
        exact h.write ⟨old, ho, by omega, Or.inl h2⟩ ho (Or.inl rfl) (fun h3 => absurd h2 h3)

theorem updates_fold {s : Coor} (incs : List Inc) : ∀ {done : List Region} {b : Batch}, Updates s done b →
    (∀ i ∈ incs, i.op = .update) →
    Updates s (done ++ incs.map Inc.region) (incs.foldl (Batch.add s) b) := by
  induction incs with
  | nil => intro done b h _; simpa using h
  | cons i incs ih =>
    intro done b h hu
    have := ih (h.add (hu i (by simp))) (fun j hj => hu j (by simp [hj]))
    simpa using this

theorem updates_init (s : Coor) : Updates s [] {} :=
  ⟨(by intro r; simp), (by intro r; simp), (by intro k h; cases h), (by intro r h; cases h), rfl, rfl⟩

/-! ## What a batch of creations or drops collects -/

theorem creates_fold {s : Coor} (incs : List Inc) : ∀ {b : Batch}, (∀ i ∈ incs, i.op = .create) →
    incs.foldl (Batch.add s) b =
      { b with put := b.put ++ incs.map Inc.region
               index := b.index ++ (incs.map Inc.region).filter (fun r => r.live) } := by
  induction incs with
  | nil => intro b _; simp
  | cons i incs ih =>
    intro b h
    rw [List.foldl_cons, ih (fun j hj => h j (by simp [hj]))]
    have hi := h i (by simp)
    unfold Batch.add Batch.write
    rw [hi]
    by_cases hl : i.region.live
    · simp [hl]
    · simp [hl]

structure Drops (s : Coor) (done : List Nat) (b : Batch) : Prop where
  put : b.put = [] ∧ b.index = [] ∧ b.eraseUpd = []
  del : ∀ i, i ∈ b.del ↔ i ∈ done ∧ s.regions i ≠ none
  eraseDel : ∀ k, k ∈ b.eraseDel ↔ ∃ i ∈ done, ∃ old, s.regions i = some old ∧ old.start = k

theorem Drops.add {s : Coor} {done : List Nat} {b : Batch} (h : Drops s done b) {i : Inc}
    (hi : i.op = .delete) : Drops s (done ++ [i.region.id]) (b.add s i) := by
  unfold Batch.add
  rw [hi]
  dsimp only
  cases ho : s.regions i.region.id with
  | none =>
    refine ⟨h.put, fun j => ?_, fun k => ?_⟩
    · rw [h.del, List.mem_append, List.mem_singleton]
      constructor
      · rintro ⟨h1, h2⟩
        exact ⟨Or.inl h1, h2⟩
      · rintro ⟨h1 | rfl, h2⟩
        · exact ⟨h1, h2⟩
        · exact absurd ho h2
    · rw [h.eraseDel]
      constructor
      · rintro ⟨j, hj, h1⟩
        exact ⟨j, by simp [hj], h1⟩
      · rintro ⟨j, hj, old, h1, h2⟩
        rw [List.mem_append, List.mem_singleton] at hj
        rcases hj with hj | rfl
        · exact ⟨j, hj, old, h1, h2⟩
        · rw [ho] at h1
          cases h1
  | some old =>
    dsimp only
    refine ⟨h.put, fun j => ?_, fun k => ?_⟩
    · rw [List.mem_append, List.mem_append, List.mem_singleton, h.del]
      constructor
      · rintro (⟨h1, h2⟩ | rfl)
        · exact ⟨Or.inl h1, h2⟩
        · exact ⟨Or.inr rfl, by rw [ho]; simp⟩
      · rintro ⟨h1 | rfl, h2⟩
        · exact Or.inl ⟨h1, h2⟩
        · exact Or.inr rfl
    · rw [List.mem_append, List.mem_singleton, h.eraseDel]
      constructor
      · rintro (⟨j, hj, h1⟩ | rfl)
        · exact ⟨j, by simp [hj], h1⟩
        · exact ⟨i.region.id, by simp, old, ho, rfl⟩
      · rintro ⟨j, hj, o, h1, h2⟩
        rw [List.mem_append, List.mem_singleton] at hj
        rcases hj with hj | rfl
        · exact Or.inl ⟨j, hj, o, h1, h2⟩
        · rw [ho] at h1
          cases h1
          exact Or.inr h2.symm

theorem drops_fold {s : Coor} (incs : List Inc) : ∀ {done : List Nat} {b : Batch}, Drops s done b →
    (∀ i ∈ incs, i.op = .delete) →
    Drops s (done ++ incs.map (fun i => i.region.id)) (incs.foldl (Batch.add s) b) := by
  induction incs with
  | nil => intro done b h _; simpa using h
  | cons i incs ih =>
    intro done b h hu
    have := ih (h.add (hu i (by simp))) (fun j hj => hu j (by simp [hj]))
    simpa using this

theorem drops_init (s : Coor) : Drops s [] {} :=
  ⟨⟨rfl, rfl, rfl⟩, by intro r; simp, by intro k; simp⟩

end Verif.RegMap
