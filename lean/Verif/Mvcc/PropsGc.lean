import Verif.Mvcc.GcLemmas

/-! # Garbage collection of raw versions: property C25 -/

namespace Verif.Mvcc
open Verif.Codec

/-- All batches written, one after the other. -/
def rawApplyAll (bs : List RawGcBatch) (st : Store) : Store := bs.foldl (fun st b => b.apply st) st

/-- Key `k` is in the region. -/
def InRegion (start stop k : Bytes) : Prop := start ≤ k ∧ k < stop

/-- The versions a job with safe point `sp`, started at clock `clk`, is to remove:
those at or below the safe point that have a newer version, are a deletion mark, or
have expired. -/
def Garbage (st : Store) (sp clk : Int) (r : Rec) : Prop :=
  r.ts ≤ sp ∧ ((∃ x, Stored st x ∧ x.key = r.key ∧ r.ts < x.ts) ∨ ¬ r.ver.Live clk)

theorem rawApplyAll_filter (bs : List RawGcBatch) (st : Store) :
    rawApplyAll bs st = st.filter (fun e => ¬ e.1 ∈ bs.flatten) := by
  induction bs generalizing st with
  | nil => exact (List.filter_eq_self.2 (by simp)).symm
  | cons b bs ih =>
    have : rawApplyAll (b :: bs) st = rawApplyAll bs (b.apply st) := rfl
    rw [this, ih, RawGcBatch.apply, List.filter_filter]
    apply List.filter_congr
    intro e _
    by_cases h1 : e.1 ∈ b <;> by_cases h2 : e.1 ∈ bs.flatten <;> simp_all

theorem rawApplyAll_wf {st : Store} (h : WFStore st) (bs : List RawGcBatch) : WFStore (rawApplyAll bs st) := by
  rw [rawApplyAll_filter]
  exact ⟨h.1.sublist List.filter_sublist, fun e he => h.2 e (List.mem_filter.1 he).1⟩

theorem rawApplyAll_stored {st : Store} (bs : List RawGcBatch) {r : Rec} :
    Stored (rawApplyAll bs st) r ↔ Stored st r ∧ ∀ b ∈ bs, r.enc.1 ∉ b := by
  rw [rawApplyAll_filter]
  simp [Stored, List.mem_filter, and_assoc]

theorem plan_exact {st : Store} (h : WFStore st) (hn : NoEmptyTTL st) {sp clk : Int} {n : Nat} {start stop : Bytes}
    (h0 : start ≠ []) {stops : List Bool} :
    (rawGcPlan st sp clk n start stop stops).abort = false ∧
    (∀ r, Stored st r → (∃ b ∈ (rawGcPlan st sp clk n start stop stops).batches, r.enc.1 ∈ b) →
      InRegion start stop r.key ∧ Garbage st sp clk r) ∧
    ((∀ b ∈ stops, b = false) → ∀ r, Stored st r → InRegion start stop r.key → Garbage st sp clk r →
      ∃ b ∈ (rawGcPlan st sp clk n start stop stops).batches, r.enc.1 ∈ b) := by
  obtain ⟨rs, rfl, hv, hp⟩ := h.recs
  have hne : ∀ r ∈ rs, ¬ r.ver.emptyTTL := fun r hr => hn r ((stored_map hv).2 hr)
  have hpf := hp.sublist (List.filter_sublist (p := inRange start stop))
  obtain ⟨h1, tl, h2, h3⟩ := rawGcLoop_spec (sp := sp) (now := clk) (n := n) (rs.filter (inRange start stop)) [] {} [] stops
    ⟨by simp, by simp, by simp, fun _ => rfl⟩ hpf (by
      intro r hr
      obtain ⟨h1, h2⟩ := List.mem_filter.1 hr
      refine ⟨hv r h1, hne r h1, ?_⟩
      intro hk
      simp only [inRange, decide_eq_true_eq, hk] at h2
      have := h2.1
      cases start with
      | nil => exact h0 rfl
      | cons a l => exact absurd this (by simp))
  rw [← rawGcEntries_recs hv hp, ← rawGcPlan] at h1 h2
  have hdoom : ∀ r, r ∈ rs → inRange start stop r = true →
      (Doomed sp clk (rs.filter (inRange start stop)) r ↔ Garbage (rs.map Rec.enc) sp clk r) := by
    intro r hr hin
    simp only [Doomed, Garbage, stored_map hv, List.mem_filter]
    have : ∀ x : Rec, x.key = r.key → inRange start stop x = true := by
      intro x hx
      simp only [inRange] at hin ⊢
      rw [hx]; exact hin
    constructor
    · rintro ⟨a, ⟨x, b, c⟩ | b⟩
      · exact ⟨a, Or.inl ⟨x, b.1, c⟩⟩
      · exact ⟨a, Or.inr b⟩
    · rintro ⟨a, ⟨x, b, c⟩ | b⟩
      · exact ⟨a, Or.inl ⟨x, ⟨b, this x c.1⟩, c⟩⟩
      · exact ⟨a, Or.inr b⟩
  have hinr : ∀ r : Rec, inRange start stop r = true ↔ InRegion start stop r.key := by
    intro r; simp [inRange, InRegion]
  refine ⟨h1, ?_, ?_⟩
  · rintro r hr ⟨b, hb, hm⟩
    have : r.enc.1 ∈ (rawGcPlan (rs.map Rec.enc) sp clk n start stop stops).batches.flatten ++ tl :=
      List.mem_append_left _ (List.mem_flatten.2 ⟨b, hb, hm⟩)
    rw [← h2] at this
    simp only [List.nil_append, List.mem_map, List.mem_filter, decide_eq_true_eq] at this
    obtain ⟨x, ⟨⟨x1, x2⟩, x3⟩, x4⟩ := this
    rw [stored_map hv] at hr
    have hxr : x = r := by
      have := C01_key_injective x.key r.key x.ts r.ts (hv x x1).1 (hv r hr).1
        (by rw [enc_eq_encodeKey (hv x x1), enc_eq_encodeKey (hv r hr), x4])
      exact Stored.unique h ((stored_map hv).2 x1) ((stored_map hv).2 hr) this.1 this.2
    subst hxr
    exact ⟨(hinr x).1 x2, (hdoom x x1 x2).1 x3⟩
  · intro hs r hr hin hg
    rw [stored_map hv] at hr
    have hin' := (hinr r).2 hin
    have : r.enc.1 ∈ (rawGcPlan (rs.map Rec.enc) sp clk n start stop stops).batches.flatten ++ tl := by
      rw [← h2]
      simp only [List.nil_append, List.mem_map, List.mem_filter, decide_eq_true_eq]
      exact ⟨r, ⟨⟨hr, hin'⟩, (hdoom r hr hin').2 hg⟩, rfl⟩
    rw [h3 hs, List.append_nil] at this
    obtain ⟨b, hb, hm⟩ := List.mem_flatten.1 this
    exact ⟨b, hb, hm⟩

/-- C25, exact effect of a complete job: it removes the garbage of the region, nothing
else, and does not abort. -/
theorem C25_exact_partial {st : Store} (h : WFStore st) (hn : NoEmptyTTL st) {sp clk : Int} {n : Nat} {start stop : Bytes}
    (h0 : start ≠ []) {stops : List Bool} (hs : ∀ b ∈ stops, b = false) :
    (rawGcPlan st sp clk n start stop stops).abort = false ∧
    WFStore (rawApplyAll (rawGcPlan st sp clk n start stop stops).batches st) ∧
    ∀ r, Stored (rawApplyAll (rawGcPlan st sp clk n start stop stops).batches st) r ↔
      Stored st r ∧ ¬ (InRegion start stop r.key ∧ Garbage st sp clk r) := by
  obtain ⟨h1, h2, h3⟩ := plan_exact h hn (sp := sp) (clk := clk) (n := n) (stop := stop) h0 (stops := stops)
  refine ⟨h1, rawApplyAll_wf h _, fun r => ?_⟩
  rw [rawApplyAll_stored]
  constructor
  · rintro ⟨a, b⟩
    refine ⟨a, fun hg => ?_⟩
    obtain ⟨x, hx, hm⟩ := h3 hs r a hg.1 hg.2
    exact b x hx hm
  · rintro ⟨a, b⟩
    exact ⟨a, fun x hx hm => b (h2 r a ⟨x, hx, hm⟩)⟩

theorem newest_exists {st : Store} (h : WFStore st) {T : Int} {k : Bytes} (hex : ∃ r, Stored st r ∧ r.key = k ∧ r.ts ≤ T) :
    ∃ r, Newest st T k r := by
  obtain ⟨rs, rfl, hv, hp⟩ := h.recs
  simp only [Newest, stored_map hv] at *
  clear h hv
  induction rs with
  | nil => obtain ⟨r, h, _⟩ := hex; cases h
  | cons a rs ih =>
    rw [List.pairwise_cons] at hp
    by_cases hr : ∃ r, r ∈ rs ∧ r.key = k ∧ r.ts ≤ T
    · obtain ⟨r, h1, h2, h3, h4⟩ := ih hp.2 hr
      by_cases ha : a.key = k ∧ a.ts ≤ T ∧ r.ts ≤ a.ts
      · refine ⟨a, by simp, ha.1, ha.2.1, ?_⟩
        intro r' hr' e1 e2
        rcases List.mem_cons.1 hr' with rfl | hr'
        · omega
        · have := h4 r' hr' e1 e2; omega
      · refine ⟨r, by simp [h1], h2, h3, ?_⟩
        intro r' hr' e1 e2
        rcases List.mem_cons.1 hr' with rfl | hr'
        · have : ¬ (r.ts ≤ r'.ts) := fun h => ha ⟨e1, e2, h⟩
          omega
        · exact h4 r' hr' e1 e2
    · obtain ⟨r, h1, h2, h3⟩ := hex
      rcases List.mem_cons.1 h1 with rfl | h1
      · refine ⟨r, by simp, h2, h3, ?_⟩
        intro r' hr' e1 e2
        rcases List.mem_cons.1 hr' with rfl | hr'
        · omega
        · exact absurd ⟨r', hr', e1, e2⟩ hr
      · exact absurd ⟨r, h1, h2, h3⟩ hr

/-- Two stores whose newest live versions of a key agree answer a read alike. -/
theorem get_congr {st st' : Store} (h : WFStore st) (h' : WFStore st') (hn : NoEmptyTTL st) (hn' : NoEmptyTTL st')
    {now ts : Int} {k : Bytes} (hk : k ≠ [])
    (he : ∀ v, (∃ r, Newest st' (readTs ts) k r ∧ r.ver.Live now ∧ r.ver.value = v) ↔
      (∃ r, Newest st (readTs ts) k r ∧ r.ver.Live now ∧ r.ver.value = v)) :
    kvGet st' now ts k = kvGet st now ts k := by
  obtain ⟨a1, a2⟩ := C06_kvGet_partial st h hn now ts k hk
  obtain ⟨b1, b2⟩ := C06_kvGet_partial st' h' hn' now ts k hk
  by_cases hex : ∃ r, Newest st (readTs ts) k r ∧ r.ver.Live now
  · obtain ⟨r, c1, c2⟩ := hex
    rw [(a1 _).2 ⟨r, c1, c2, rfl⟩, (b1 _).2 ((he _).2 ⟨r, c1, c2, rfl⟩)]
  · have : ¬ ∃ r, Newest st' (readTs ts) k r ∧ r.ver.Live now := by
      rintro ⟨r, c1, c2⟩
      obtain ⟨r', c3, c4, _⟩ := (he r.ver.value).1 ⟨r, c1, c2, rfl⟩
      exact hex ⟨r', c3, c4⟩
    rw [a2.2 hex, b2.2 this]

theorem Newest.unique {st : Store} (h : WFStore st) {T : Int} {k : Bytes} {r s : Rec} (hr : Newest st T k r)
    (hs : Newest st T k s) : r = s := by
  have h1 := hr.2.2.2 s hs.1 hs.2.1 hs.2.2.1
  have h2 := hs.2.2.2 r hr.1 hr.2.1 hr.2.2.1
  exact Stored.unique h hr.1 hs.1 (by rw [hr.2.1, hs.2.1]) (by omega)

theorem live_mono {v : Ver} {a b : Int} (h : v.Live b) (hab : a ≤ b) : v.Live a := by
  cases v with
  | put => trivial
  | putTTL t w => have : b ≤ t := h; exact (show a ≤ t by omega)
  | del => exact h

/-- The common part: a store from which some garbage was removed, and a key whose reads
survive. -/
theorem get_after {st st' : Store} (h : WFStore st) (h' : WFStore st') (hn : NoEmptyTTL st)
    (hsub : ∀ r, Stored st' r → Stored st r) {now ts : Int} {k : Bytes} (hk : k ≠ [])
    (hnew : ∀ r, Newest st (readTs ts) k r → Stored st' r ∨
      (¬ r.ver.Live now ∧ ∀ x, Stored st' x → x.key = k → readTs ts < x.ts ∨ ¬ x.ver.Live now)) :
    kvGet st' now ts k = kvGet st now ts k := by
  refine get_congr h h' hn (fun r hr => hn r (hsub r hr)) hk (fun v => ?_)
  by_cases hex : ∃ r, Newest st (readTs ts) k r
  · obtain ⟨r, hr⟩ := hex
    rcases hnew r hr with h1 | ⟨h1, h2⟩
    · have hr' : Newest st' (readTs ts) k r :=
        ⟨h1, hr.2.1, hr.2.2.1, fun x e1 e2 e3 => hr.2.2.2 x (hsub x e1) e2 e3⟩
      constructor
      · rintro ⟨x, c1, c2⟩; rw [Newest.unique h' c1 hr'] at c2; exact ⟨r, hr, c2⟩
      · rintro ⟨x, c1, c2⟩; rw [Newest.unique h c1 hr] at c2; exact ⟨r, hr', c2⟩
    · constructor
      · rintro ⟨x, c1, c2, _⟩
        rcases h2 x c1.1 c1.2.1 with h3 | h3
        · have := c1.2.2.1; omega
        · exact absurd c2 h3
      · rintro ⟨x, c1, c2, _⟩
        rw [Newest.unique h c1 hr] at c2; exact absurd c2 h1
  · have : ∀ x, Stored st x → x.key = k → ¬ x.ts ≤ readTs ts :=
      fun x e1 e2 e3 => hex (newest_exists h ⟨x, e1, e2, e3⟩)
    constructor
    · rintro ⟨x, c1, _⟩; exact absurd c1.2.2.1 (this x (hsub x c1.1) c1.2.1)
    · rintro ⟨x, c1, _⟩; exact absurd c1.2.2.1 (this x c1.1 c1.2.1)

/-- C25 (partial): after a complete job with safe point `sp` started at clock `clk`, a
read at a timestamp at or above `sp`, at clock `now ≥ clk`, is answered as before, if
the key has no version above `sp`, or has one between `sp` and the read timestamp.
Missing: keys whose next version after `sp` is above the read timestamp
(`C25_false`) and stores holding an empty value with a TTL (`C25_abort_false`). -/
theorem C25_partial {st : Store} (h : WFStore st) (hn : NoEmptyTTL st) {sp clk : Int} {n : Nat} {start stop : Bytes}
    (h0 : start ≠ []) {stops : List Bool} (hs : ∀ b ∈ stops, b = false) {now ts : Int} {k : Bytes} (hk : k ≠ [])
    (hT : sp ≤ readTs ts) (hclk : clk ≤ now)
    (hv : (∀ r, Stored st r → r.key = k → r.ts ≤ sp) ∨ (∃ r, Stored st r ∧ r.key = k ∧ sp < r.ts ∧ r.ts ≤ readTs ts)) :
    kvGet (rawApplyAll (rawGcPlan st sp clk n start stop stops).batches st) now ts k = kvGet st now ts k := by
  obtain ⟨_, h2, h3⟩ := C25_exact_partial h hn (sp := sp) (clk := clk) (n := n) (stop := stop) h0 hs
  refine get_after h h2 hn (fun r hr => ((h3 r).1 hr).1) hk (fun r hr => ?_)
  rw [h3]
  by_cases hg : InRegion start stop r.key ∧ Garbage st sp clk r
  · right
    obtain ⟨hin, h4, h5⟩ := hg
    have hall : ∀ x, Stored st x → x.key = k → x.ts ≤ sp := by
      rcases hv with hv | ⟨x, e1, e2, e3, e4⟩
      · exact hv
      · have := hr.2.2.2 x e1 e2 e4; omega
    have hdead : ¬ r.ver.Live clk := by
      rcases h5 with ⟨x, e1, e2, e3⟩ | h5
      · have := hr.2.2.2 x e1 (by rw [e2, hr.2.1]) (by have := hall x e1 (by rw [e2, hr.2.1]); omega)
        omega
      · exact h5
    refine ⟨fun hl => hdead (live_mono hl hclk), fun x hx hxk => ?_⟩
    exfalso
    obtain ⟨e1, e2⟩ := (h3 x).1 hx
    refine e2 ⟨by rw [hxk, ← hr.2.1]; exact hin, hall x e1 hxk, ?_⟩
    have hle := hr.2.2.2 x e1 hxk (by have := hall x e1 hxk; omega)
    by_cases hlt : x.ts < r.ts
    · exact Or.inl ⟨r, hr.1, by rw [hxk, hr.2.1], hlt⟩
    · have : x = r := Stored.unique h e1 hr.1 (by rw [hxk, hr.2.1]) (by omega)
      rw [this]; exact Or.inr hdead
  · exact Or.inl ⟨hr.1, hg⟩

/-- C25 is false: if a key of the region has a version above the read timestamp and none
between the safe point and it, a read at `ts ≥ sp` finds nothing after the job. -/
theorem C25_false {st : Store} (h : WFStore st) (hn : NoEmptyTTL st) {sp clk : Int} {n : Nat} {start stop : Bytes}
    (h0 : start ≠ []) {stops : List Bool} (hs : ∀ b ∈ stops, b = false) {now ts : Int} {k : Bytes} (hk : k ≠ [])
    (hin : InRegion start stop k)
    (hno : ∀ r, Stored st r → r.key = k → r.ts ≤ sp ∨ readTs ts < r.ts)
    (hlater : ∃ r, Stored st r ∧ r.key = k ∧ sp < r.ts) :
    kvGet (rawApplyAll (rawGcPlan st sp clk n start stop stops).batches st) now ts k = .notFound := by
  obtain ⟨_, h2, h3⟩ := C25_exact_partial h hn (sp := sp) (clk := clk) (n := n) (stop := stop) h0 hs
  refine (C06_kvGet_partial _ h2 (fun r hr => hn r ((h3 r).1 hr).1) now ts k hk).2.2 ?_
  rintro ⟨r, hr, _⟩
  obtain ⟨e1, e2⟩ := (h3 r).1 hr.1
  have hle : r.ts ≤ sp := by
    rcases hno r e1 hr.2.1 with h4 | h4
    · exact h4
    · have := hr.2.2.1; omega
  obtain ⟨x, x1, x2, x3⟩ := hlater
  exact e2 ⟨by rw [hr.2.1]; exact hin, hle, Or.inl ⟨x, x1, by rw [x2, hr.2.1], by omega⟩⟩

/-- C25 (partial), interrupted: whichever of its batches a job has written, a read at or
above the safe point is answered as before if the key has a version between the safe
point and the read timestamp, or its newest version is at or below the safe point and
was live when the job started or has nothing under it.
Missing: as in `C25_partial`, and a deletion mark or expired version on top of older
versions (`C25_interrupted_false`). -/
theorem C25_interrupted_partial {st : Store} (h : WFStore st) (hn : NoEmptyTTL st) {sp clk : Int} {n : Nat}
    {start stop : Bytes} (h0 : start ≠ []) {stops : List Bool} {done : List RawGcBatch}
    (hd : ∀ b ∈ done, b ∈ (rawGcPlan st sp clk n start stop stops).batches)
    {now ts : Int} {k : Bytes} (hk : k ≠ []) (hT : sp ≤ readTs ts) (hclk : clk ≤ now)
    (hv : (∃ r, Stored st r ∧ r.key = k ∧ sp < r.ts ∧ r.ts ≤ readTs ts) ∨
      ∃ r, Newest st sp k r ∧ (∀ x, Stored st x → x.key = k → x.ts ≤ sp) ∧
        (r.ver.Live clk ∨ ∀ x, Stored st x → x.key = k → x = r)) :
    kvGet (rawApplyAll done st) now ts k = kvGet st now ts k := by
  obtain ⟨_, h2, _⟩ := plan_exact h hn (sp := sp) (clk := clk) (n := n) (stop := stop) h0 (stops := stops)
  have hrem : ∀ r, Stored st r → ¬ Stored (rawApplyAll done st) r → Garbage st sp clk r := by
    intro r hr hnot
    rw [rawApplyAll_stored] at hnot
    have : ∃ b ∈ done, r.enc.1 ∈ b := by
      apply Classical.byContradiction
      intro hne
      exact hnot ⟨hr, fun b hb hm => hne ⟨b, hb, hm⟩⟩
    obtain ⟨b, hb, hm⟩ := this
    exact (h2 r hr ⟨b, hd b hb, hm⟩).2
  refine get_after h (rawApplyAll_wf h _) hn (fun r hr => ((rawApplyAll_stored _).1 hr).1) hk (fun r hr => ?_)
  by_cases hst : Stored (rawApplyAll done st) r
  · exact Or.inl hst
  · obtain ⟨h4, h5⟩ := hrem r hr.1 hst
    rcases hv with ⟨x, e1, e2, e3, e4⟩ | ⟨x, e1, e2, e3⟩
    · have := hr.2.2.2 x e1 e2 e4; omega
    · have hxr : r = x := by
        have a1 := hr.2.2.2 x e1.1 e1.2.1 (by have := e1.2.2.1; omega)
        have a2 := e1.2.2.2 r hr.1 hr.2.1 (by omega)
        exact Stored.unique h hr.1 e1.1 (by rw [hr.2.1, e1.2.1]) (by omega)
      subst hxr
      have hdead : ¬ r.ver.Live clk := by
        rcases h5 with ⟨x, f1, f2, f3⟩ | h5
        · have f4 := e2 x f1 (by rw [f2, hr.2.1])
          have := hr.2.2.2 x f1 (by rw [f2, hr.2.1]) (by omega)
          omega
        · exact h5
      refine Or.inr ⟨fun hl => hdead (live_mono hl hclk), fun x hx hxk => ?_⟩
      rcases e3 with e3 | e3
      · exact absurd e3 hdead
      · have := e3 x ((rawApplyAll_stored _).1 hx).1 hxk
        subst this
        exact absurd hx hst

/-- C25 is false for an interrupted job: once it has written the batch with the newest
version of a key (a deletion mark or expired value), but not the one with the version
under it, reads at every timestamp from there on find the old value again. -/
theorem C25_interrupted_false {st : Store} (h : WFStore st) (hn : NoEmptyTTL st) {done : List RawGcBatch}
    {now ts : Int} {k : Bytes} (hk : k ≠ []) {r0 r1 : Rec} (hr0 : Newest st (readTs ts) k r0) (hdead : ¬ r0.ver.Live now)
    (hr1 : Newest st (r0.ts - 1) k r1) (hl : r1.ver.Live now)
    (hin : ∃ b ∈ done, r0.enc.1 ∈ b) (hout : ∀ b ∈ done, r1.enc.1 ∉ b) :
    kvGet st now ts k = .notFound ∧ kvGet (rawApplyAll done st) now ts k = .value r1.ver.value := by
  constructor
  · refine (C06_kvGet_partial st h hn now ts k hk).2.2 ?_
    rintro ⟨r, e1, e2⟩
    rw [Newest.unique h e1 hr0] at e2
    exact hdead e2
  · refine ((C06_kvGet_partial _ (rawApplyAll_wf h done)
      (fun r hr => hn r ((rawApplyAll_stored _).1 hr).1) now ts k hk).1 _).2 ⟨r1, ⟨?_, hr1.2.1, ?_, ?_⟩, hl, rfl⟩
    · exact (rawApplyAll_stored _).2 ⟨hr1.1, hout⟩
    · have := hr1.2.2.1; have := hr0.2.2.1; omega
    · intro x hx hxk hxt
      obtain ⟨e1, e2⟩ := (rawApplyAll_stored _).1 hx
      have hle := hr0.2.2.2 x e1 hxk hxt
      by_cases hlt : x.ts ≤ r0.ts - 1
      · exact hr1.2.2.2 x e1 hxk hlt
      · exfalso
        have : x = r0 := Stored.unique h e1 hr0.1 (by rw [hxk, hr0.2.1]) (by omega)
        subst this
        obtain ⟨b, hb, hm⟩ := hin
        exact e2 b hb hm

/-- C25 is false with an empty value with a TTL in the store: the job aborts the
process. -/
theorem C25_abort_false : WFStore emptyTTLStore ∧ (rawGcPlan emptyTTLStore 10 20 32768 [97] [122] []).abort = true :=
  ⟨(C08_history [.put 5 1000 [([107], [])]] (by
      intro op hop; rw [List.mem_singleton.1 hop]; exact ⟨⟨by decide, by decide⟩, ⟨by decide, by decide⟩⟩)).1,
    by decide +kernel⟩

/-- `k` written at 5 and 15, `m` written at 5, deleted at 8, `p` written at 5 with an
expiry at 100. -/
def rawGcHist : List Op :=
  [.put 5 0 [([107], [1]), ([109], [2])], .put 5 100 [([112], [3])], .delete 0 8 [[109]], .put 15 0 [([107], [4])]]

def rawGcStore : Store := rawGcHist.foldl exec []

theorem rawGcStore_wf : WFStore rawGcStore ∧ NoEmptyTTL rawGcStore := by
  have hops : ∀ op ∈ rawGcHist, op.Valid := by
    intro op hop
    simp only [rawGcHist, List.mem_cons, List.not_mem_nil, or_false] at hop
    rcases hop with rfl | rfl | rfl | rfl <;> refine ⟨?_, ?_⟩ <;> first | decide | (constructor <;> decide)
  have h := (C08_history rawGcHist hops).1
  refine ⟨h, ?_⟩
  rintro r ⟨h1, h2⟩ he
  have : ∀ e ∈ rawGcStore, getValueFlag e.2 = some .putTTL → getValueTTL e.2 ≠ none := by decide +kernel
  obtain ⟨k, ts, ver⟩ := r
  cases ver with
  | put v => exact he
  | del => exact he
  | putTTL ttl v =>
    cases v with
    | nil => exact this _ h2 (flag_putTTL [] h1.2) (C04_ttl_abort ttl)
    | cons a l => exact he

/-- C25_false, concretely: `k` at timestamp 12, safe point 10. -/
example : kvGet rawGcStore 50 12 [107] = .value [1] ∧
    kvGet (rawApplyAll (rawGcPlan rawGcStore 10 50 32768 [97] [122] []).batches rawGcStore) 50 12 [107] = .notFound := by
  constructor <;> decide +kernel

/-- C25_interrupted_false, concretely: batches of one version, stopped after the first. -/
example : (rawGcPlan rawGcStore 10 50 1 [108] [122] [false, true, true]).batches.length = 1 ∧
    kvGet rawGcStore 50 12 [109] = .notFound ∧
    kvGet (rawApplyAll (rawGcPlan rawGcStore 10 50 1 [108] [122] [false, true, true]).batches rawGcStore) 50 12 [109] =
      .value [2] := by
  refine ⟨?_, ?_, ?_⟩ <;> decide +kernel

/-- C25_partial, C25_exact_partial and C25_interrupted_partial, hypotheses met: a complete job (three
deletions) with safe point 10 at clock 50; reads of `k` at 16 and `p` at 12. -/
example : WFStore rawGcStore ∧ NoEmptyTTL rawGcStore ∧
    (rawGcPlan rawGcStore 10 50 32768 [97] [122] []).batches.flatten.length = 3 ∧
    kvGet (rawApplyAll (rawGcPlan rawGcStore 10 50 32768 [97] [122] []).batches rawGcStore) 50 16 [107] = .value [4] ∧
    kvGet (rawApplyAll (rawGcPlan rawGcStore 10 50 32768 [97] [122] []).batches rawGcStore) 50 12 [112] = .value [3] :=
  ⟨rawGcStore_wf.1, rawGcStore_wf.2, by decide +kernel, by decide +kernel, by decide +kernel⟩

end Verif.Mvcc
