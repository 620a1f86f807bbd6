import Verif.RegMap.PropsLookup

/-!
# C85: regions that are created do not overlap
-/

namespace Verif.RegMap
open Verif.Codec (Bytes)
open Verif.Region (Range Epoch RState)

/-! ## Lemmas -/

/-- A prefix of the keys clients and executors may use: `r`, `t`, `w`, `x`. -/
def UserPrefix (b : Option UInt8) : Prop := b = some 0x72 ∨ b = some 0x74 ∨ b = some 0x77 ∨ b = some 0x78

theorem lt_maxKey {key : Bytes} (h : UserPrefix key.head?) : key < maxKey := by
  cases key with
  | nil => rcases h with h | h | h | h <;> cases h
  | cons b l =>
    show b :: l < (255 : UInt8) :: List.replicate 8 255
    rw [Codec.cons_lt_iff]
    left
    rcases h with h | h | h | h <;> (cases h; decide)

theorem maxKey_head {key : Bytes} (h : UserPrefix key.head?) : key ≠ maxKey := by
  intro he
  exact List.lt_irrefl _ (he ▸ lt_maxKey h)

theorem endOf_long {stop : Bytes} (h : 8 ≤ stop.length) : endOf stop = stop := by
  unfold endOf
  rw [if_neg (by rintro rfl; simp at h)]

/-- When a region with user keys is created. -/
theorem createRegion_iff {s : Coor} (h : s.Exact) (hd : s.Disjoint) {id : Nat} {q : Range} {ps : List Nat}
    {mono : Bool} (hlt : q.start < q.stop) (hne : q.start ≠ maxKey) {incs : List Inc} :
    createRegion s id q ps mono = some incs ↔
      (8 ≤ q.start.length ∧ 8 ≤ q.stop.length ∧ q.start.head? = q.stop.head? ∧ UserPrefix q.start.head? ∧
        (∀ r, s.Live r → ¬ Meets q.start q.stop r) ∧ s.regions id = none ∧
        incs = [⟨.create, ⟨id, .new, ⟨⟨1, 1⟩, q, ps, mono⟩⟩⟩]) := by
  unfold createRegion checkPrefix
  by_cases h1 : q.start.length < 8 ∨ q.stop.length < 8
  · rw [if_pos h1]
    simp only [reduceCtorEq, false_iff]
    rintro ⟨h2, h3, _⟩
    omega
  rw [if_neg h1]
  by_cases h2 : q.start.head? ≠ q.stop.head? ∧ q.start ≠ maxKey
  · rw [if_pos h2]
    simp only [reduceCtorEq, false_iff]
    rintro ⟨_, _, h3, _⟩
    exact h2.1 h3
  rw [if_neg h2]
  have h2 : q.start.head? = q.stop.head? := Classical.byContradiction fun hc => h2 ⟨hc, hne⟩
  by_cases h3 : q.start.head? = some 255 ∧ q.start ≠ maxKey
  · rw [if_pos h3]
    simp only [reduceCtorEq, false_iff]
    rintro ⟨_, _, _, h4, _⟩
    rw [h3.1] at h4
    rcases h4 with h4 | h4 | h4 | h4 <;> revert h4 <;> decide
  rw [if_neg h3]
  have h3 : q.start.head? ≠ some 255 := fun hc => h3 ⟨hc, hne⟩
  by_cases hp : UserPrefix q.start.head?
  · have hu : endOf q.stop = q.stop := endOf_long (by omega)
    have hhi : q.stop ≤ maxKey := List.le_of_lt (lt_maxKey (by rw [← h2]; exact hp))
    obtain ⟨rs, ha, hs⟩ := C83_range (start := q.start) (stop := q.stop) h hd (by rintro hc; rw [hc] at h1; simp at h1)
      (by rw [hu]; exact hlt) (by rw [hu]; exact hhi) 0
    rw [hu] at ha
    rw [hs]
    simp only [Int.lt_irrefl, if_false]
    have hmem : q.start.head? ∈ [some (0x72 : UInt8), some 0x74, some 0x77, some 0x78, some 255] := by
      rcases hp with hp | hp | hp | hp <;> rw [hp] <;> decide
    by_cases h4 : rs ≠ [] ∧ q.start ≠ maxKey
    · rw [if_pos h4]
      simp only [reduceCtorEq, false_iff]
      rintro ⟨_, _, _, _, h5, _⟩
      cases rs with
      | nil => exact h4.1 rfl
      | cons r rs =>
        have := (ha.2 r).mp (by simp)
        exact h5 r this.1 this.2
    · rw [if_neg h4]
      have h4 : rs = [] := Classical.byContradiction fun hc => h4 ⟨hc, hne⟩
      have h5 : ∀ r, s.Live r → ¬ Meets q.start q.stop r := by
        intro r hr hm
        have := (ha.2 r).mpr ⟨hr, hm⟩
        rw [h4] at this
        cases this
      simp only [hmem, decide_true]
      by_cases h6 : s.regions id = none
      · rw [if_pos h6]
        constructor
        · intro he
          exact ⟨by omega, by omega, h2, hp, h5, h6, (Option.some.inj he).symm⟩
        · rintro ⟨_, _, _, _, _, _, he⟩
          rw [he]
      · rw [if_neg h6]
        simp only [reduceCtorEq, false_iff]
        rintro ⟨_, _, _, _, _, h7, _⟩
        exact h6 h7
  · have hmem : ¬ q.start.head? ∈ [some (0x72 : UInt8), some 0x74, some 0x77, some 0x78, some 255] := by
      intro hc
      simp only [List.mem_cons, List.not_mem_nil, or_false] at hc
      rcases hc with hc | hc | hc | hc | hc
      · exact hp (Or.inl hc)
      · exact hp (Or.inr (Or.inl hc))
      · exact hp (Or.inr (Or.inr (Or.inl hc)))
      · exact hp (Or.inr (Or.inr (Or.inr hc)))
      · exact h3 hc
    constructor
    · intro hc
      split at hc
      · rename_i heq
        split at heq
        · cases heq
        · split at heq
          · cases heq
          · simp [hmem] at heq
      · cases hc
    · rintro ⟨_, _, _, h4, _⟩
      exact absurd h4 hp

/-! ## One region -/

/-- A region with user keys is created exactly if its range has the form the coordinator asks
for, no region has a key of it, and the id is free. -/
theorem C85_accept {s : Coor} (h : s.Exact) (hd : s.Disjoint) {id : Nat} {q : Range} {ps : List Nat}
    {mono : Bool} (hlt : q.start < q.stop) (hne : q.start ≠ maxKey) :
    (createRegion s id q ps mono).isSome = true ↔
      (8 ≤ q.start.length ∧ 8 ≤ q.stop.length ∧ q.start.head? = q.stop.head? ∧ UserPrefix q.start.head? ∧
        (∀ r, s.Live r → ¬ Meets q.start q.stop r) ∧ s.regions id = none) := by
  rw [Option.isSome_iff_exists]
  constructor
  · rintro ⟨incs, hi⟩
    obtain ⟨h1, h2, h3, h4, h5, h6, _⟩ := (createRegion_iff h hd hlt hne).mp hi
    exact ⟨h1, h2, h3, h4, h5, h6⟩
  · rintro ⟨h1, h2, h3, h4, h5, h6⟩
    exact ⟨_, (createRegion_iff h hd hlt hne).mpr ⟨h1, h2, h3, h4, h5, h6, rfl⟩⟩

/-! ## The partitions of a table -/

/-- A good request: non-empty ranges of user keys that do not overlap, each with its own id. -/
structure Separate (qs : List CreateReq) : Prop where
  ids : (qs.map CreateReq.id).Nodup
  pos : ∀ q ∈ qs, 0 < q.id
  ranges : ∀ q ∈ qs, q.range.start < q.range.stop ∧ q.range.start ≠ maxKey
  apart : qs.Pairwise (fun a b => a.range.stop ≤ b.range.start ∨ b.range.stop ≤ a.range.start)

def newRegion (q : CreateReq) : Region := ⟨q.id, .new, ⟨⟨1, 1⟩, q.range, q.peers, q.mono⟩⟩

theorem createAll_some {s : Coor} (h : s.Exact) (hd : s.Disjoint) : ∀ {qs : List CreateReq},
    (∀ q ∈ qs, q.range.start < q.range.stop ∧ q.range.start ≠ maxKey) → ∀ {incs : List Inc},
    createAll s qs = some incs →
    incs = qs.map (fun q => ⟨.create, newRegion q⟩) ∧
      ∀ q ∈ qs, s.regions q.id = none ∧ UserPrefix q.range.start.head? ∧
        ∀ r, s.Live r → ¬ Meets q.range.start q.range.stop r
  | [], _, incs, hc => by
    cases hc
    exact ⟨rfl, by intro q hq; cases hq⟩
  | q :: qs, hr, incs, hc => by
    unfold createAll at hc
    cases hq : createRegion s q.id q.range q.peers q.mono with
    | none => rw [hq] at hc; cases hc
    | some i =>
      rw [hq] at hc
      dsimp only at hc
      rw [Option.map_eq_some_iff] at hc
      obtain ⟨is, h1, rfl⟩ := hc
      obtain ⟨h2, h3⟩ := createAll_some h hd (fun p hp => hr p (by simp [hp])) h1
      obtain ⟨_, _, _, h4, h5, h6, h7⟩ := (createRegion_iff h hd (hr q (by simp)).1 (hr q (by simp)).2).mp hq
      refine ⟨?_, fun p hp => ?_⟩
      · rw [h7, h2]; rfl
      · rw [List.mem_cons] at hp
        rcases hp with rfl | hp
        · exact ⟨h6, h4, h5⟩
        · exact h3 p hp

theorem pairwise_mem {qs : List CreateReq} {P : CreateReq → CreateReq → Prop} (hsym : ∀ a b, P a b → P b a)
    (h : qs.Pairwise P) {a b : CreateReq} (ha : a ∈ qs) (hb : b ∈ qs) (hne : a ≠ b) : P a b := by
  induction qs with
  | nil => cases ha
  | cons x l ih =>
    rw [List.pairwise_cons] at h
    rw [List.mem_cons] at ha hb
    rcases ha with rfl | ha <;> rcases hb with rfl | hb
    · exact absurd rfl hne
    · exact h.1 b hb
    · exact hsym _ _ (h.1 a ha)
    · exact ih h.2 ha hb

/-- Creating a table (or a single region) whose partitions do not overlap: the regions are there,
the others as before, no two overlap, and all are found by their keys. -/
theorem C85_apart {s : Coor} (h : s.Exact) (hd : s.Disjoint) {qs : List CreateReq} (hq : Separate qs)
    {incs : List Inc} (hc : createAll s qs = some incs) :
    (s.apply incs).Exact ∧ (s.apply incs).Disjoint ∧
      (∀ q ∈ qs, (s.apply incs).regions q.id = some ⟨q.id, .new, ⟨⟨1, 1⟩, q.range, q.peers, q.mono⟩⟩) ∧
      ∀ j, (∀ q ∈ qs, q.id ≠ j) → (s.apply incs).regions j = s.regions j := by
  obtain ⟨rfl, hx⟩ := createAll_some h hd hq.ranges hc
  generalize hincs : qs.map (fun q => (⟨.create, newRegion q⟩ : Inc)) = incs at *
  have hcr : ∀ i ∈ incs, i.op = .create := by
    rw [← hincs]; intro i hi; rw [List.mem_map] at hi; obtain ⟨q, _, rfl⟩ := hi; rfl
  have hmem : ∀ i ∈ incs, ∃ q ∈ qs, i = ⟨.create, newRegion q⟩ := by
    rw [← hincs]; intro i hi; rw [List.mem_map] at hi; obtain ⟨q, hq, rfl⟩ := hi; exact ⟨q, hq, rfl⟩
  have hids : (incs.map (fun i => i.region.id)).Nodup := by
    rw [← hincs, List.map_map]
    exact hq.ids
  have hfresh : ∀ i ∈ incs, s.regions i.region.id = none := by
    intro i hi
    obtain ⟨q, hq, rfl⟩ := hmem i hi
    exact (hx q hq).1
  have hw := apply_creates h.sorted hcr hids hfresh
  have hreg : ∀ r, r ∈ incs.map Inc.region ↔ ∃ q ∈ qs, r = newRegion q := by
    intro r
    rw [List.mem_map]
    constructor
    · rintro ⟨i, hi, rfl⟩
      obtain ⟨q, hq, rfl⟩ := hmem i hi
      exact ⟨q, hq, rfl⟩
    · rintro ⟨q, hq, rfl⟩
      exact ⟨_, by rw [← hincs]; exact List.mem_map.mpr ⟨q, hq, rfl⟩, rfl⟩
  have hlive : ∀ r, (s.apply incs).Live r → (∃ q ∈ qs, r = newRegion q) ∨ s.Live r := by
    intro r hr
    by_cases hc : ∃ q ∈ qs, q.id = r.id
    · left
      obtain ⟨q, hq, he⟩ := hc
      have h1 := hw.here (newRegion q) ((hreg _).mpr ⟨q, hq, rfl⟩)
      have h1 : (s.apply incs).regions q.id = some (newRegion q) := h1
      rw [he, hr.1] at h1
      exact ⟨q, hq, Option.some.inj h1⟩
    · right
      refine ⟨?_, hr.2⟩
      rw [← hw.other r.id ?_]
      · exact hr.1
      · intro p hp he
        obtain ⟨q, hq, rfl⟩ := (hreg p).mp hp
        exact hc ⟨q, hq, he⟩
  have hapart : ∀ q ∈ qs, ∀ r, s.Live r → q.range.stop ≤ r.start ∨ r.stop ≤ q.range.start := by
    intro q hq r hr
    rcases Classical.em (r.start < q.range.stop) with h1 | h1
    · right
      exact le_of_not_lt fun h2 => (hx q hq).2.2 r hr ⟨h1, h2⟩
    · exact Or.inl (le_of_not_lt h1)
  have hdis : (s.apply incs).Disjoint := by
    intro r p hr hp hne
    rcases hlive r hr with ⟨q, hq1, rfl⟩ | hr1 <;> rcases hlive p hp with ⟨q', hq2, rfl⟩ | hp1
    · exact pairwise_mem (fun a b h => h.symm) hq.apart hq1 hq2 (fun he => hne (by rw [he]))
    · exact hapart q hq1 p hp1
    · exact (hapart q' hq2 r hr1).symm
    · exact hd r p hr1 hp1 hne
  refine ⟨?_, hdis, fun q hq => ?_, fun j hj => ?_⟩
  · refine found_apply (fun _ _ h => h.elim) h ⟨hids, Or.inl hcr, ?_, ?_, ?_, ?_, ?_⟩
    · intro i hi _
      obtain ⟨q, hq1, rfl⟩ := hmem i hi
      exact ⟨(hx q hq1).1, hq.pos q hq1⟩
    · intro i hi _
      obtain ⟨q, hq1, rfl⟩ := hmem i hi
      exact Or.inl (hq.ranges q hq1).1
    · intro i hi _ hl _ p hp hst hne
      exact disjoint_start hdis hp hl hne hst
    · intro i hi ho
      rw [hcr i hi] at ho; cases ho
    · intro i hi ho
      rw [hcr i hi] at ho; cases ho
  · exact hw.here (newRegion q) ((hreg _).mpr ⟨q, hq, rfl⟩)
  · refine hw.other j (fun r hr he => ?_)
    obtain ⟨q, hq1, rfl⟩ := (hreg r).mp hr
    exact hj q hq1 he

/-! ## Histories of requests -/

/-- A request as the coordinator handles it: creating regions, dropping one, and a change of
leader. -/
inductive Req where
  | create (qs : List CreateReq)
  | drop (id : Nat)
  | lead (order : List Nat)

/-- One request, checked and applied before the next one. -/
def Coor.request (s : Coor) : Req → Coor
  | .create qs => (match createAll s qs with | none => s | some incs => s.apply incs)
  | .drop id => s.apply (dropRegion s id)
  | .lead order => s.lead order

/-- Requests whose own partitions do not overlap; a new leader goes through all regions. -/
def Coor.Orderly (s : Coor) : List Req → Prop
  | [] => True
  | .create qs :: l => Separate qs ∧ Coor.Orderly (s.request (.create qs)) l
  | .drop id :: l => Coor.Orderly (s.request (.drop id)) l
  | .lead order :: l => s.Lists order ∧ Coor.Orderly (s.lead order) l

structure Fine (s : Coor) : Prop where
  exact' : s.Exact
  disjoint : s.Disjoint
  live : ∀ i r, s.regions i = some r → r.start < r.stop

theorem fine_drop {s : Coor} (h : Fine s) (id : Nat) : Fine (s.apply (dropRegion s id)) ∧
    ∀ j, (s.apply (dropRegion s id)).regions j = s.regions j ∨ (s.apply (dropRegion s id)).regions j = none := by
  unfold dropRegion
  cases hr : s.regions id with
  | none =>
    have : s.apply [] = s := rfl
    dsimp only
    rw [this]
    exact ⟨h, fun j => Or.inl rfl⟩
  | some r =>
    dsimp only
    split
    · have : s.apply [] = s := rfl
      rw [this]
      exact ⟨h, fun j => Or.inl rfl⟩
    · have hid := (h.exact'.known _ _ hr).1
      have hreg : ∀ j, (s.apply [⟨.delete, r⟩]).regions j = if j = id then none else s.regions j := by
        intro j
        unfold Coor.apply
        simp only [List.foldl_cons, List.foldl_nil, Batch.add, hid, hr, List.nil_append]
        rfl
      have hsub : ∀ q, (s.apply [⟨.delete, r⟩]).Live q → s.Live q ∧ q.id ≠ id := by
        rintro q ⟨h1, h2⟩
        rw [hreg] at h1
        split at h1
        · cases h1
        · rename_i hne
          exact ⟨⟨h1, h2⟩, hne⟩
      refine ⟨⟨?_, ?_, ?_⟩, fun j => ?_⟩
      · refine found_delete h.exact' (by intro i hi; simp at hi; subst hi; rfl) ?_
        intro i hi old ho _ q hq hst
        simp at hi
        subst hi
        have ho : s.regions r.id = some old := ho
        rw [hid, hr] at ho
        cases ho
        have := hsub q hq
        exact disjoint_start h.disjoint this.1 ⟨by rw [hid]; exact hr, h.live _ _ hr⟩ (by rw [hid]; exact this.2) hst
      · exact fun p q hp hq hne => h.disjoint p q (hsub p hp).1 (hsub q hq).1 hne
      · intro i q hq
        rw [hreg] at hq
        split at hq
        · cases hq
        · exact h.live i q hq
      · rw [hreg]
        split
        · exact Or.inr rfl
        · exact Or.inl rfl

theorem fine_request {s : Coor} (h : Fine s) {q : Req} {l : List Req} (hc : s.Orderly (q :: l)) :
    Fine (s.request q) ∧ (s.request q).Orderly l := by
  cases q with
  | create qs =>
    refine ⟨?_, hc.2⟩
    simp only [Coor.request]
    cases hx : createAll s qs with
    | none => exact h
    | some incs =>
      obtain ⟨h1, h2, h3, h4⟩ := C85_apart h.exact' h.disjoint hc.1 hx
      refine ⟨h1, h2, fun i r hr => ?_⟩
      dsimp only at hr
      by_cases he : ∃ q ∈ qs, q.id = i
      · obtain ⟨q, hq, rfl⟩ := he
        rw [h3 q hq] at hr
        cases hr
        exact (hc.1.ranges q hq).1
      · rw [h4 i (fun q hq he' => he ⟨q, hq, he'⟩)] at hr
        exact h.live i r hr
  | drop id => exact ⟨(fine_drop h id).1, hc⟩
  | lead order =>
    refine ⟨⟨?_, h.disjoint, h.live⟩, hc.2⟩
    exact found_lead h.exact'.known ⟨fun i r hr => Or.inl (h.live i r hr),
      fun r q hr hq hne => disjoint_start h.disjoint hr hq hne⟩ hc.1

/-- Through any history of requests to create regions and to drop them, one after the other, and
of changes of leader: no two regions overlap, and lookups find them by their keys.  Missing:
requests handled at the same time (`C85_race_false`), partitions that overlap each other
(`C85_table_false`), and empty ranges (`C83_reversed_false`). -/
theorem C85_history_partial (l : List Req) : ∀ {s : Coor}, Fine s → s.Orderly l →
    (l.foldl Coor.request s).Exact ∧ (l.foldl Coor.request s).Disjoint := by
  induction l with
  | nil => intro s h _; exact ⟨h.exact', h.disjoint⟩
  | cons q l ih =>
    intro s h hc
    obtain ⟨h1, h2⟩ := fine_request h hc
    exact ih h1 h2

/-- The coordinator begins without regions. -/
theorem C85_begin : Fine Coor.empty := by
  refine ⟨⟨?_, List.Pairwise.nil, ?_, ?_⟩, ?_, ?_⟩
  · intro i r h; cases h
  · intro k r h; cases h
  · intro r h; cases h.1
  · intro r q h; cases h.1
  · intro i r h; cases h

/-! ## Where regions overlap -/

private def k (n : Nat) : Bytes := [0x77, 0, 0, 0, 0, 0, 0, UInt8.ofNat n]
private def rq (i a b : Nat) : CreateReq := ⟨i, ⟨k a, k b⟩, [5], false⟩

/-- Two requests handled at the same time, each checked before the other is applied: both are
accepted, and two regions have the same keys. -/
theorem C85_race_false :
    ∃ i1 i2, createAll Coor.empty [rq 1 1 4] = some i1 ∧ createAll Coor.empty [rq 2 2 6] = some i2 ∧
      let s := (Coor.empty.apply i1).apply i2
      s.regions 1 = some ⟨1, .new, ⟨⟨1, 1⟩, ⟨k 1, k 4⟩, [5], false⟩⟩ ∧
      s.regions 2 = some ⟨2, .new, ⟨⟨1, 1⟩, ⟨k 2, k 6⟩, [5], false⟩⟩ := by
  refine ⟨[⟨.create, ⟨1, .new, ⟨⟨1, 1⟩, ⟨k 1, k 4⟩, [5], false⟩⟩⟩], [⟨.create, ⟨2, .new, ⟨⟨1, 1⟩, ⟨k 2, k 6⟩, [5], false⟩⟩⟩],
    ?_, ?_, ?_, ?_⟩ <;> decide +kernel

/-- A table whose partitions overlap is accepted: they are checked against the regions there
are, not against each other. -/
theorem C85_table_false :
    ∃ incs, createAll Coor.empty [rq 1 1 4, rq 2 2 6] = some incs ∧
      (Coor.empty.apply incs).regions 1 = some ⟨1, .new, ⟨⟨1, 1⟩, ⟨k 1, k 4⟩, [5], false⟩⟩ ∧
      (Coor.empty.apply incs).regions 2 = some ⟨2, .new, ⟨⟨1, 1⟩, ⟨k 2, k 6⟩, [5], false⟩⟩ := by
  refine ⟨[⟨.create, ⟨1, .new, ⟨⟨1, 1⟩, ⟨k 1, k 4⟩, [5], false⟩⟩⟩, ⟨.create, ⟨2, .new, ⟨⟨1, 1⟩, ⟨k 2, k 6⟩, [5], false⟩⟩⟩],
    ?_, ?_, ?_⟩ <;> decide +kernel

/-! ## Non-trivial cases -/

/-- The hypotheses of `C85_history_partial`. -/
example : Coor.empty.Orderly [.create [rq 1 1 3, rq 2 3 5], .create [rq 3 2 4], .drop 1, .create [rq 4 2 3]] := by
  refine ⟨⟨by decide +kernel, by decide +kernel, by decide +kernel, by decide +kernel⟩,
    ⟨by decide +kernel, by decide +kernel, by decide +kernel, by decide +kernel⟩,
    ⟨by decide +kernel, by decide +kernel, by decide +kernel, by decide +kernel⟩, trivial⟩

/-- The overlapping request is refused, the last one is accepted after the drop. -/
example :
    let s := [Req.create [rq 1 1 3, rq 2 3 5], .create [rq 3 2 4], .drop 1, .create [rq 4 2 3]].foldl Coor.request Coor.empty
    s.regions 1 = none ∧ s.regions 3 = none ∧ (s.regions 4).isSome = true ∧
      (scanRegions s.range (k 1) (k 9) 0).map (List.map Region.id) = some [4, 2] := by
  refine ⟨?_, ?_, ?_, ?_⟩ <;> decide +kernel

end Verif.RegMap
