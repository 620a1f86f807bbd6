import Verif.RegMap.Handover

/-!
# C83: looking regions up by key
-/

namespace Verif.RegMap
open Verif.Codec (Bytes)
open Verif.Region (Range Epoch RState)

/-! ## Lookups over a range map that finds the regions -/

theorem upper_endOf {start stop : Bytes} (h : stop ≠ []) : upper start stop = endOf stop := by
  unfold upper endOf
  rw [if_neg h]

/-- A lookup over a range of keys returns the regions that meet it, in key order, and with a
limit the first so many. -/
theorem C83_range {O : Region → Region → Prop} {s : Coor} (h : s.Found O) (hd : s.Disjoint)
    {start stop : Bytes} (hstop : stop ≠ []) (hlt : start < endOf stop)
    (hhi : endOf stop ≤ maxKey) (limit : Int) :
    ∃ rs, s.Answer start (endOf stop) rs ∧
      scanRegions s.range start stop limit = some (if 0 < limit then rs.take limit.toNat else rs) := by
  rw [← upper_endOf (start := start) hstop] at hlt hhi ⊢
  refine ⟨_, search_answer h hd hlt hhi, ?_⟩
  unfold scanRegions
  rw [scanLoop_range hstop _ (fun r hr => ((search_answer h hd hlt hhi).2 r).mp hr |>.2.1) [] (by simp)]
  simp

/-- A lookup of one key returns the region that has it, and nothing if there is none. -/
theorem C83_key {O : Region → Region → Prop} {s : Coor} (h : s.Found O) (hd : s.Disjoint)
    {key : Bytes} (hhi : key ++ [0] ≤ maxKey) (limit : Int) :
    (∀ r, scanRegions s.range key [] limit = some [r] ↔ s.Live r ∧ r.start ≤ key ∧ key < r.stop) ∧
    (scanRegions s.range key [] limit = some [] ↔ ∀ r, s.Live r → ¬ (r.start ≤ key ∧ key < r.stop)) := by
  have hu : upper key [] = key ++ [0] := by simp [upper]
  have hlt : key < key ++ [0] := Codec.lt_append_cons key 0 []
  have ha := search_answer h hd hlt hhi
  unfold scanRegions
  rw [scanLoop_point, hu, List.nil_append]
  generalize hrs : findInterval s.range key (key ++ [0]) (fun r => decide (0 < r.id) && decide (key < r.stop)) = rs
    at ha
  have hone : ∀ r q, s.Live r → s.Live q → r.start ≤ key ∧ key < r.stop → q.start ≤ key ∧ key < q.stop → r = q := by
    intro r q hr hq h1 h2
    by_cases he : r.id = q.id
    · have := hr.1
      rw [he, hq.1] at this
      exact (Option.some.inj this).symm
    · rcases hd r q hr hq he with h3 | h3
      · exact absurd (lt_of_lt_of_le h1.2 h3) (not_lt_of_le h2.1)
      · exact absurd (lt_of_lt_of_le h2.2 h3) (not_lt_of_le h1.1)
  have hin : ∀ r, s.Live r → r.start ≤ key ∧ key < r.stop → r ∈ rs :=
    fun r hr h1 => (ha.2 r).mpr ⟨hr, lt_of_le_of_lt h1.1 hlt, h1.2⟩
  cases hf : rs.find? (fun r => decide (r.start ≤ key) && decide (key < r.stop)) with
  | none =>
    rw [List.find?_eq_none] at hf
    have hno : ∀ r, s.Live r → ¬ (r.start ≤ key ∧ key < r.stop) := by
      intro r hr h1
      exact hf r (hin r hr h1) (by simp [h1.1, h1.2])
    simp only [Option.toList_none]
    exact ⟨fun r => ⟨fun h => by simp at h, fun h => absurd h.2 (hno r h.1)⟩, fun _ => hno, fun _ => by simp⟩
  | some q =>
    have hq1 := List.find?_some hf
    have hq2 := List.mem_of_find?_eq_some hf
    simp only [Bool.and_eq_true, decide_eq_true_eq] at hq1
    have hql := ((ha.2 q).mp hq2).1
    simp only [Option.toList_some]
    refine ⟨fun r => ⟨fun h => ?_, fun h => ?_⟩, fun h => by simp at h, fun h => absurd hq1 (h q hql)⟩
    · simp at h
      subst h
      exact ⟨hql, hq1⟩
    · rw [hone r q h.1 hql h.2 hq1]

/-- Nothing is found in an empty range of keys. -/
theorem C83_empty_range (m : RangeMap) {start stop : Bytes} (hstop : stop ≠ []) (h : endOf stop ≤ start)
    (limit : Int) : scanRegions m start stop limit = some [] := by
  rw [← upper_endOf (start := start) hstop] at h
  unfold scanRegions findInterval
  rw [if_pos (Or.inr h)]
  rfl

/-- No lookup stops the coordinator, after any history of increments and changes of leader. -/
theorem C83_never_aborts (evs : List Ev) (start stop : Bytes) (limit : Int) :
    scanRegions (Coor.empty.run evs).range start stop limit ≠ none := by
  have hk : Keyed (Coor.empty.run evs).range := keyed_run evs (by intro k r hk; cases hk)
  unfold scanRegions
  by_cases hs : stop = []
  · subst hs
    rw [scanLoop_point]
    simp
  · rw [scanLoop_range hs _ (fun r hr => ?_) [] (by simp)]
    · simp
    · obtain ⟨k, h1, h2, _⟩ := findInterval_key hr
      rw [hk k r h1]
      exact h2

/-! ## Histories -/

/-- The range map keeps finding the regions, through any history of clean increments and
changes of leader: at every start key it has a region that is there now, and of several the one
the others give way to. Not for every history: see `C83_lost_false`, `C83_drop_false` and
`C83_reversed_false`. -/
theorem C83_history_partial {O : Region → Region → Prop} (hO : ∀ a b, O a b → ¬ O b a) (evs : List Ev)
    (hc : Coor.empty.CleanRun O evs) : (Coor.empty.run evs).Found O := by
  refine found_run hO evs ⟨?_, List.Pairwise.nil, ?_, ?_⟩ hc
  · intro i r h; cases h
  · intro k r h; cases h
  · intro r h; cases h.1

/-- A coordinator that becomes leader finds every region, whatever happened to its range map
before and whatever the order in which it goes through the regions. -/
theorem C83_leader {s : Coor} (hk : s.Known) (ha : s.Apart) {order : List Nat} (ho : s.Lists order) :
    (s.lead order).Exact ∧ (s.lead order).regions = s.regions :=
  ⟨found_lead hk ha ho, rfl⟩

/-! ## Splits and merges -/

/-- The orders in which the coordinator can learn the new records of two regions. -/
def orders (a b : Region) : List (List (List Inc)) :=
  [[[⟨.update, a⟩], [⟨.update, b⟩]], [[⟨.update, b⟩], [⟨.update, a⟩]],
   [[⟨.update, a⟩, ⟨.update, b⟩]], [[⟨.update, b⟩, ⟨.update, a⟩]]]

/-- Two regions change their ranges: in whatever order the coordinator learns it, in one
increment or in two, it then finds the regions by the new ranges. -/
theorem C83_handover {s : Coor} (h : s.Exact) (hd : s.Disjoint) {a b : Region} (hp : Pair s a b) :
    ∀ o ∈ orders a b, (o.foldl Coor.apply s).Exact ∧ (o.foldl Coor.apply s).Disjoint ∧
      ∀ j, (o.foldl Coor.apply s).regions j =
        if j = b.id then some b else if j = a.id then some a else s.regions j := by
  have hsw : ∀ j, (two s b a).regions j = (two s a b).regions j := by
    intro j
    show putId (putId s.regions b) a j = putId (putId s.regions a) b j
    unfold putId
    by_cases h1 : j = a.id
    · simp [h1, hp.ne]
    · simp [h1]
  have fin : ∀ t : Coor, t.Exact → (∀ j, t.regions j = (two s a b).regions j) →
      t.Exact ∧ t.Disjoint ∧ ∀ j, t.regions j = if j = b.id then some b else if j = a.id then some a else s.regions j :=
    fun t h1 h2 => ⟨h1, disjoint_congr (fun j => (h2 j).symm) hp.after, h2⟩
  intro o ho
  simp only [orders, List.mem_cons, List.not_mem_nil, or_false] at ho
  rcases ho with rfl | rfl | rfl | rfl
  · exact fin _ (one_by_one h hd hp).1 (one_by_one h hd hp).2
  · exact fin _ (one_by_one h hd hp.swap).1 (fun j => ((one_by_one h hd hp.swap).2 j).trans (hsw j))
  · exact fin _ (together h hd hp).1 (together h hd hp).2
  · exact fin _ (together h hd hp.swap).1 (fun j => ((together h hd hp.swap).2 j).trans (hsw j))

theorem two_live {s : Coor} {a b r : Region} (h : (two s a b).Live r) :
    r = b ∨ r = a ∨ (s.Live r ∧ r.id ≠ a.id ∧ r.id ≠ b.id) := by
  obtain ⟨h1, h2⟩ := h
  have h1 : putId (putId s.regions a) b r.id = some r := h1
  unfold putId at h1
  by_cases hb : r.id = b.id
  · rw [if_pos hb] at h1
    exact Or.inl (Option.some.inj h1).symm
  · rw [if_neg hb] at h1
    by_cases ha : r.id = a.id
    · rw [if_pos ha] at h1
      exact Or.inr (Or.inl (Option.some.inj h1).symm)
    · rw [if_neg ha] at h1
      exact Or.inr (Or.inr ⟨⟨h1, h2⟩, ha, hb⟩)

/-- The records after two changed are disjoint if the two are, and every other region is apart
from each of the two that has keys. -/
theorem two_disjoint {s : Coor} (hd : s.Disjoint) {a b : Region}
    (hab : a.live → b.live → a.stop ≤ b.start ∨ b.stop ≤ a.start)
    (ho : ∀ q, s.Live q → q.id ≠ a.id → q.id ≠ b.id →
      (a.live → a.stop ≤ q.start ∨ q.stop ≤ a.start) ∧ (b.live → b.stop ≤ q.start ∨ q.stop ≤ b.start)) :
    (two s a b).Disjoint := by
  intro r q hr hq hne
  rcases two_live hr with rfl | rfl | ⟨h1, h2, h3⟩ <;> rcases two_live hq with rfl | rfl | ⟨h4, h5, h6⟩
  · exact absurd rfl hne
  · exact (hab hq.2 hr.2).symm
  · exact (ho q h4 h5 h6).2 hr.2
  · exact hab hr.2 hq.2
  · exact absurd rfl hne
  · exact (ho q h4 h5 h6).1 hr.2
  · exact ((ho r h1 h2 h3).2 hq.2).symm
  · exact ((ho r h1 h2 h3).1 hq.2).symm
  · exact hd r q h1 h4 hne

/-- A split: the child gets the keys below the split key, the parent keeps the rest.  The child
was there without keys. -/
theorem C83_split {s : Coor} (h : s.Exact) (hd : s.Disjoint) {p c p' c' : Region}
    (hp : s.Live p) (hc : s.regions c.id = some c) (hcl : ¬ c.live) (hid : p'.id = p.id ∧ c'.id = c.id)
    (hv : p.d.epoch.version < p'.d.epoch.version ∧ c.d.epoch.version < c'.d.epoch.version)
    {key : Bytes} (hk : p.start < key ∧ key < p.stop)
    (hr : p'.d.range = ⟨key, p.stop⟩ ∧ c'.d.range = ⟨p.start, key⟩) :
    ∀ o ∈ orders c' p', (o.foldl Coor.apply s).Exact ∧ (o.foldl Coor.apply s).Disjoint ∧
      ∀ j, (o.foldl Coor.apply s).regions j =
        if j = p.id then some p' else if j = c.id then some c' else s.regions j := by
  have hne : c.id ≠ p.id := by
    intro he
    have := hp.1
    rw [← he, hc] at this
    cases Option.some.inj this
    exact hcl hp.2
  have hps : p'.start = key := by show p'.d.range.start = _; rw [hr.1]
  have hpe : p'.stop = p.stop := by show p'.d.range.stop = _; rw [hr.1]
  have hcs : c'.start = p.start := by show c'.d.range.start = _; rw [hr.2]
  have hce : c'.stop = key := by show c'.d.range.stop = _; rw [hr.2]
  rw [← hid.1, ← hid.2]
  refine C83_handover h hd ⟨by rw [hid.1, hid.2]; exact hne, ?_, ?_, ?_⟩
  · rintro r (rfl | rfl)
    · exact ⟨c, by rw [hid.2]; exact hc, hv.2⟩
    · exact ⟨p, by rw [hid.1]; exact hp.1, hv.1⟩
  · rintro r (rfl | rfl)
    · exact Or.inl (by show r.start < r.stop; rw [hcs, hce]; exact hk.1)
    · exact Or.inl (by show r.start < r.stop; rw [hps, hpe]; exact hk.2)
  · refine two_disjoint hd (fun _ _ => Or.inl ?_) (fun q hq _ hq2 => ⟨fun _ => ?_, fun _ => ?_⟩)
    · rw [hce, hps]; exact List.le_refl _
    · rw [hce, hcs]
      rcases hd p q hp hq (by rw [hid.1] at hq2; exact fun he => hq2 he.symm) with h1 | h1
      · exact Or.inl (List.le_trans (List.le_of_lt hk.2) h1)
      · exact Or.inr h1
    · rw [hpe, hps]
      rcases hd p q hp hq (by rw [hid.1] at hq2; exact fun he => hq2 he.symm) with h1 | h1
      · exact Or.inl h1
      · exact Or.inr (List.le_trans h1 (List.le_of_lt hk.1))

/-- A merge of two neighbours: the target gets the keys of both, the source is left without
keys. -/
theorem C83_merge {s : Coor} (h : s.Exact) (hd : s.Disjoint) {q t q' t' : Region}
    (hq : s.Live q) (ht : s.Live t) (hne : q.id ≠ t.id) (hid : q'.id = q.id ∧ t'.id = t.id)
    (hv : q.d.epoch.version < q'.d.epoch.version ∧ t.d.epoch.version < t'.d.epoch.version)
    (hq' : maxKey ≤ q'.start ∧ ¬ q'.live)
    (hr : (q.stop = t.start ∧ t'.d.range = ⟨q.start, t.stop⟩) ∨
      (t.stop = q.start ∧ t'.d.range = ⟨t.start, q.stop⟩)) :
    ∀ o ∈ orders q' t', (o.foldl Coor.apply s).Exact ∧ (o.foldl Coor.apply s).Disjoint ∧
      ∀ j, (o.foldl Coor.apply s).regions j =
        if j = t.id then some t' else if j = q.id then some q' else s.regions j := by
  rw [← hid.1, ← hid.2]
  refine C83_handover h hd ⟨by rw [hid.1, hid.2]; exact hne, ?_, ?_, ?_⟩
  · rintro r (rfl | rfl)
    · exact ⟨q, by rw [hid.1]; exact hq.1, hv.1⟩
    · exact ⟨t, by rw [hid.2]; exact ht.1, hv.2⟩
  · rintro r (rfl | rfl)
    · exact Or.inr hq'.1
    · left
      show r.d.range.start < r.d.range.stop
      rcases hr with ⟨h1, h2⟩ | ⟨h1, h2⟩ <;> rw [h2]
      · exact List.lt_trans hq.2 (by rw [h1]; exact ht.2)
      · exact List.lt_trans ht.2 (by rw [h1]; exact hq.2)
  · refine two_disjoint hd (fun hl => absurd hl hq'.2) (fun x hx hx1 hx2 => ⟨fun hl => absurd hl hq'.2, fun _ => ?_⟩)
    have h3 := hd q x hq hx (by rw [hid.1] at hx1; exact fun he => hx1 he.symm)
    have h4 := hd t x ht hx (by rw [hid.2] at hx2; exact fun he => hx2 he.symm)
    show t'.d.range.stop ≤ _ ∨ _ ≤ t'.d.range.start
    rcases hr with ⟨h1, h2⟩ | ⟨h1, h2⟩ <;> rw [h2] <;> dsimp only
    · rcases h4 with h4 | h4
      · exact Or.inl h4
      · rcases h3 with h3 | h3
        · exfalso
          rw [← h1] at h4
          exact not_lt_of_le (List.le_trans h4 h3) hx.2
        · exact Or.inr h3
    · rcases h3 with h3 | h3
      · exact Or.inl h3
      · rcases h4 with h4 | h4
        · exfalso
          rw [← h1] at h3
          exact not_lt_of_le (List.le_trans h3 h4) hx.2
        · exact Or.inr h4

/-! ## Where lookups go wrong -/

private def k (n : Nat) : Bytes := [0x77, 0, 0, 0, 0, 0, 0, UInt8.ofNat n]
private def rg (i : Nat) (st : CState) (v : Int) (a b : Bytes) : Region := ⟨i, st, ⟨⟨1, v⟩, ⟨a, b⟩, [5], false⟩⟩
private def mt (i : Nat) (st : RState) (v : Int) (a b : Bytes) : Metrics :=
  ⟨i, 5, true, st, ⟨⟨1, v⟩, ⟨a, b⟩, [5], false⟩⟩

/-- Two neighbours, `[1, 3)` and `[3, 5)`. -/
private def pairState : Coor :=
  Coor.empty.apply [⟨.create, rg 1 .normal 1 (k 1) (k 3)⟩, ⟨.create, rg 2 .normal 1 (k 3) (k 5)⟩]

private def hear (s : Coor) (rep : Report) : Coor := s.apply (reportIncs s rep)

/-- Region 1 was merged into region 2.  The store first reports the target, then (a raft leader
of the source was elected, `store_state_machine_event.cc:111`) the state of the source alone,
then both. -/
private def mergeReports : List Report :=
  [⟨5, false, false, [mt 2 .normal 2 (k 1) (k 5)]⟩,
   ⟨5, true, false, [mt 1 .tombstone 2 maxKey (k 3)]⟩,
   ⟨5, false, false, [mt 1 .tombstone 2 maxKey (k 3), mt 2 .normal 2 (k 1) (k 5)]⟩]

private def merged : Coor := mergeReports.foldl hear pairState

/-- After these reports the coordinator knows the merged region and its range, but finds no
region for any of its keys, until it stops being leader and becomes leader again. -/
theorem C83_lost_false :
    merged.regions 2 = some (rg 2 .normal 2 (k 1) (k 5)) ∧
    merged.regions 1 = some (rg 1 .tombstone 2 maxKey (k 3)) ∧
    scanRegions merged.range (k 2) [] 0 = some [] ∧
    scanRegions merged.range (k 1) (k 5) 0 = some [] ∧
    -- reported again, it is not written again: nothing about it changed
    reportIncs merged ⟨5, false, false, [mt 1 .tombstone 2 maxKey (k 3), mt 2 .normal 2 (k 1) (k 5)]⟩ = [] ∧
    scanRegions (merged.lead [1, 2]).range (k 2) [] 0 = some [rg 2 .normal 2 (k 1) (k 5)] := by
  refine ⟨?_, ?_, ?_, ?_, ?_, ?_⟩ <;> decide +kernel

/-- Dropping the source of a merge before its new range was reported: the target, already
reported, is no longer found. -/
theorem C83_drop_false :
    let s := hear pairState ⟨5, false, false, [mt 2 .normal 2 (k 1) (k 5)]⟩
    let t := s.apply (dropRegion s 1)
    scanRegions s.range (k 2) [] 0 = some [rg 2 .normal 2 (k 1) (k 5)] ∧
    t.regions 2 = some (rg 2 .normal 2 (k 1) (k 5)) ∧ t.regions 1 = none ∧
    scanRegions t.range (k 2) [] 0 = some [] := by
  refine ⟨?_, ?_, ?_, ?_⟩ <;> decide +kernel

/-- A region may be created with an end key before its start key, inside the range of another;
after a change of leader it hides that region's keys behind it. -/
theorem C83_reversed_false :
    let s := pairState.apply [⟨.create, rg 3 .new 1 (k 4) (k 2)⟩]
    createRegion pairState 3 ⟨k 4, k 2⟩ [5] false = some [⟨.create, rg 3 .new 1 (k 4) (k 2)⟩] ∧
    scanRegions s.range (k 4) [] 0 = some [rg 2 .normal 1 (k 3) (k 5)] ∧
    scanRegions (s.lead [1, 2, 3]).range (k 4) [] 0 = some [] := by
  refine ⟨?_, ?_, ?_⟩ <;> decide +kernel

/-! ## Non-trivial cases -/

private theorem pairState_regions (j : Nat) : pairState.regions j =
    if j = 2 then some (rg 2 .normal 1 (k 3) (k 5)) else if j = 1 then some (rg 1 .normal 1 (k 1) (k 3)) else none := by
  show putId (putId _ _) _ j = _
  unfold putId
  rfl

private theorem pairState_live {r : Region} (h : pairState.Live r) :
    r = rg 2 .normal 1 (k 3) (k 5) ∨ r = rg 1 .normal 1 (k 1) (k 3) := by
  have h1 := h.1
  rw [pairState_regions] at h1
  by_cases h2 : r.id = 2
  · rw [if_pos h2] at h1
    exact Or.inl (Option.some.inj h1).symm
  · rw [if_neg h2] at h1
    by_cases h3 : r.id = 1
    · rw [if_pos h3] at h1
      exact Or.inr (Option.some.inj h1).symm
    · rw [if_neg h3] at h1
      cases h1

private theorem pairState_disjoint : pairState.Disjoint := by
  intro r q hr hq hne
  rcases pairState_live hr with rfl | rfl <;> rcases pairState_live hq with rfl | rfl
  · exact absurd rfl hne
  · right; decide +kernel
  · left; decide +kernel
  · exact absurd rfl hne

private theorem pairState_clean : Coor.empty.CleanRun (fun _ _ => False)
    [.apply [⟨.create, rg 1 .normal 1 (k 1) (k 3)⟩, ⟨.create, rg 2 .normal 1 (k 3) (k 5)⟩]] := by
  refine ⟨⟨by decide +kernel, Or.inl (by decide +kernel), ?_, ?_, ?_, ?_, ?_⟩, trivial⟩
  · intro i hi _
    simp at hi
    rcases hi with rfl | rfl <;> exact ⟨rfl, by decide⟩
  · intro i hi _
    simp at hi
    rcases hi with rfl | rfl <;> (left; decide +kernel)
  · intro i hi _ hl _ q hq hst hne
    exact disjoint_start pairState_disjoint hq hl hne hst
  · intro i hi ho
    simp at hi
    rcases hi with rfl | rfl <;> cases ho
  · intro i hi ho
    simp at hi
    rcases hi with rfl | rfl <;> cases ho

private theorem pairState_exact : pairState.Exact :=
  C83_history_partial (fun _ _ h => h.elim) _ pairState_clean

/-- The hypotheses of `C83_range`, `C83_key` and `C83_history_partial`. -/
example : Coor.empty.CleanRun (fun _ _ => False)
    [.apply [⟨.create, rg 1 .normal 1 (k 1) (k 3)⟩, ⟨.create, rg 2 .normal 1 (k 3) (k 5)⟩]] := pairState_clean
example : pairState.Exact ∧ pairState.Disjoint ∧ k 2 < endOf (k 4) ∧ endOf (k 4) ≤ maxKey ∧
    k 2 < endOf [0] ∧
    k 2 ++ [0] ≤ maxKey := ⟨pairState_exact, pairState_disjoint, by decide +kernel⟩
example : scanRegions pairState.range (k 2) (k 4) 0 =
    some [rg 1 .normal 1 (k 1) (k 3), rg 2 .normal 1 (k 3) (k 5)] := by decide +kernel

/-- The hypotheses of `C83_leader`. -/
example : pairState.Known ∧ pairState.Apart ∧ pairState.Lists [2, 1] := by
  refine ⟨pairState_exact.known, ⟨fun i r h => ?_, fun r q hr hq hne => disjoint_start pairState_disjoint hr hq hne⟩,
    by decide, fun i r h => ?_⟩
  · left
    have := pairState_exact.known i r h
    have hi : i = 2 ∨ i = 1 := by
      rw [pairState_regions] at h
      by_cases h2 : i = 2
      · exact Or.inl h2
      · by_cases h3 : i = 1
        · exact Or.inr h3
        · rw [if_neg h2, if_neg h3] at h; cases h
    rcases hi with rfl | rfl
    · rw [pairState_regions] at h; cases h; decide +kernel
    · rw [pairState_regions] at h; cases h; decide +kernel
  · rw [pairState_regions] at h
    by_cases h2 : i = 2
    · simp [h2]
    · by_cases h3 : i = 1
      · simp [h3]
      · rw [if_neg h2, if_neg h3] at h; cases h

/-- The hypotheses of `C83_merge`, with region 1 merged into region 2. -/
example : ∀ o ∈ orders (rg 1 .tombstone 2 maxKey (k 3)) (rg 2 .normal 2 (k 1) (k 5)),
    (o.foldl Coor.apply pairState).Exact :=
  fun o ho => (C83_merge pairState_exact pairState_disjoint (q := rg 1 .normal 1 (k 1) (k 3))
    (t := rg 2 .normal 1 (k 3) (k 5)) (q' := rg 1 .tombstone 2 maxKey (k 3)) (t' := rg 2 .normal 2 (k 1) (k 5)) ⟨rfl, by decide +kernel⟩ ⟨rfl, by decide +kernel⟩ (by decide)
    ⟨rfl, rfl⟩ (by decide +kernel) (by decide +kernel) (Or.inl (by decide +kernel)) o ho).1

/-- The hypotheses of `C83_split`: region 1 is split at 2, region 3 is its child. -/
private def splitState : Coor := pairState.apply [⟨.create, rg 3 .new 1 maxKey (k 1)⟩]

private theorem splitState_regions (j : Nat) : splitState.regions j =
    if j = 3 then some (rg 3 .new 1 maxKey (k 1)) else pairState.regions j := rfl

private theorem splitState_live {r : Region} (h : splitState.Live r) : pairState.Live r := by
  refine ⟨?_, h.2⟩
  have h1 := h.1
  rw [splitState_regions] at h1
  by_cases h3 : r.id = 3
  · rw [if_pos h3] at h1
    have := (Option.some.inj h1).symm
    have h2 := h.2
    rw [this] at h2
    exact absurd h2 (by decide +kernel)
  · rw [if_neg h3] at h1
    exact h1

private theorem splitState_exact : splitState.Exact := by
  refine found_apply (fun _ _ h => h.elim) pairState_exact
    ⟨by decide +kernel, Or.inl (by decide +kernel), ?_, ?_, ?_, ?_, ?_⟩ <;> intro i hi <;> simp at hi <;> subst hi
  · intro _; exact ⟨rfl, by decide⟩
  · intro _; right; decide +kernel
  · intro _ hl; exact absurd hl.2 (by decide +kernel)
  · intro h; cases h
  · intro h; cases h

private theorem splitState_disjoint : splitState.Disjoint :=
  fun r q hr hq hne => pairState_disjoint r q (splitState_live hr) (splitState_live hq) hne

example : ∀ o ∈ orders (rg 3 .normal 2 (k 1) (k 2)) (rg 1 .normal 2 (k 2) (k 3)),
    (o.foldl Coor.apply splitState).Exact :=
  fun o ho => (C83_split splitState_exact splitState_disjoint (p := rg 1 .normal 1 (k 1) (k 3))
    (c := rg 3 .new 1 maxKey (k 1)) (p' := rg 1 .normal 2 (k 2) (k 3)) (c' := rg 3 .normal 2 (k 1) (k 2)) (key := k 2) ⟨rfl, by decide +kernel⟩ rfl (by decide +kernel)
    ⟨rfl, rfl⟩ (by decide +kernel) (by decide +kernel) ⟨rfl, rfl⟩ o ho).1

end Verif.RegMap
