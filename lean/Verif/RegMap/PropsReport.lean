import Verif.RegMap.Handover

/-!
# C84: what the coordinator makes of the stores' reports
-/

namespace Verif.RegMap
open Verif.Codec (Bytes)
open Verif.Region (Range Epoch RState)

/-! ## Lemmas -/

theorem add_put {s : Coor} {b : Batch} {i : Inc} {r : Region} (h : r ∈ (b.add s i).put) :
    r ∈ b.put ∨ (r = i.region ∧ (i.op = .create ∨ (i.op = .update ∧ Taken s r))) := by
  unfold Batch.add at h
  cases ho : i.op with
  | create =>
    rw [ho] at h
    have h : r ∈ b.put ++ [i.region] := h
    rw [List.mem_append, List.mem_singleton] at h
    rcases h with h | h
    · exact Or.inl h
    · exact Or.inr ⟨h, Or.inl rfl⟩
  | update =>
    rw [ho] at h
    dsimp only at h
    cases hs : s.regions i.region.id with
    | none => rw [hs] at h; exact Or.inl h
    | some old =>
      rw [hs] at h
      dsimp only at h
      have hw : ∀ b' : Batch, b'.put = b.put → r ∈ (b'.write i.region).put → Taken s i.region →
          r ∈ b.put ∨ (r = i.region ∧ (Op.update = .create ∨ (Op.update = .update ∧ Taken s r))) := by
        intro b' hb h ht
        have h : r ∈ b'.put ++ [i.region] := h
        rw [List.mem_append, List.mem_singleton, hb] at h
        rcases h with h | h
        · exact Or.inl h
        · exact Or.inr ⟨h, Or.inr ⟨rfl, h ▸ ht⟩⟩
      unfold Batch.update at h
      by_cases h1 : i.region.d.epoch.version < old.d.epoch.version
      · rw [if_pos h1] at h; exact Or.inl h
      · rw [if_neg h1] at h
        by_cases h2 : i.region.start ≠ old.start
        · rw [if_pos h2] at h
          by_cases h3 : i.region.d.epoch.version = old.d.epoch.version
          · rw [if_pos h3] at h; exact Or.inl h
          · rw [if_neg h3] at h
            have ht : Taken s i.region := ⟨old, hs, by omega, Or.inr (by omega)⟩
            split at h
            · exact hw _ rfl h ht
            · exact hw _ rfl h ht
        · rw [if_neg h2] at h
          exact hw _ rfl h ⟨old, hs, by omega, Or.inl (Classical.byContradiction h2)⟩
  | delete =>
    rw [ho] at h
    dsimp only at h
    cases hs : s.regions i.region.id with
    | none => rw [hs] at h; exact Or.inl h
    | some old => rw [hs] at h; exact Or.inl h

theorem fold_put {s : Coor} (incs : List Inc) : ∀ {b : Batch} {r : Region}, r ∈ (incs.foldl (Batch.add s) b).put →
    r ∈ b.put ∨ ∃ i ∈ incs, r = i.region ∧ (i.op = .create ∨ (i.op = .update ∧ Taken s r)) := by
  induction incs with
  | nil => intro b r h; exact Or.inl h
  | cons i incs ih =>
    intro b r h
    rcases ih h with h1 | ⟨j, hj, h1⟩
    · rcases add_put h1 with h2 | h2
      · exact Or.inl h2
      · exact Or.inr ⟨i, by simp, h2⟩
    · exact Or.inr ⟨j, by simp [hj], h1⟩

theorem putIds_cases (rs : List Region) {j : Nat} : ∀ {m : Nat → Option Region},
    rs.foldl putId m j = m j ∨ ∃ r ∈ rs, r.id = j ∧ rs.foldl putId m j = some r := by
  induction rs with
  | nil => intro m; exact Or.inl rfl
  | cons r rs ih =>
    intro m
    rw [List.foldl_cons]
    rcases ih (m := putId m r) with h | ⟨q, hq, h1, h2⟩
    · rw [h]
      unfold putId
      by_cases h1 : j = r.id
      · exact Or.inr ⟨r, by simp, h1.symm, by rw [if_pos h1]⟩
      · exact Or.inl (by rw [if_neg h1])
    · exact Or.inr ⟨q, by simp [hq], h1, h2⟩

/-- What an increment can make of the record of a region. -/
theorem apply_cases (s : Coor) (incs : List Inc) (j : Nat) {t : Region}
    (h : (s.apply incs).regions j = some t) :
    s.regions j = some t ∨ (t.id = j ∧ ∃ i ∈ incs, i.region = t ∧
      (i.op = .create ∨ (i.op = .update ∧ Taken s t))) := by
  have h : (incs.foldl (Batch.add s) {}).del.foldl eraseId
      ((incs.foldl (Batch.add s) {}).put.foldl putId s.regions) j = some t := h
  rw [eraseIds] at h
  split at h
  · cases h
  · rcases putIds_cases (incs.foldl (Batch.add s) {}).put (j := j) (m := s.regions) with h1 | ⟨r, hr, h1, h2⟩
    · rw [h1] at h
      exact Or.inl h
    · rw [h2] at h
      cases h
      rcases fold_put incs hr with h3 | ⟨i, hi, h3, h4⟩
      · cases h3
      · exact Or.inr ⟨h1, i, hi, h3.symm, h4⟩

/-! ## Versions -/

/-- No increment of the history creates a region with this id. -/
def NotCreated (j : Nat) (evs : List Ev) : Prop :=
  ∀ incs, Ev.apply incs ∈ evs → ∀ i ∈ incs, i.op = .create → i.region.id ≠ j

theorem step_version (s : Coor) (e : Ev) (j : Nat) (hn : NotCreated j [e]) {t : Region}
    (h : (s.step e).regions j = some t) :
    ∃ r, s.regions j = some r ∧ r.d.epoch.version ≤ t.d.epoch.version ∧
      (t.d.epoch.version = r.d.epoch.version → t.start = r.start) := by
  cases e with
  | lead order => exact ⟨t, h, Int.le_refl _, fun _ => rfl⟩
  | apply incs =>
    rcases apply_cases s incs j h with h1 | ⟨h1, i, hi, h2, h3⟩
    · exact ⟨t, h1, Int.le_refl _, fun _ => rfl⟩
    · rcases h3 with h3 | ⟨_, old, h4, h5, h6⟩
      · exact absurd (h2 ▸ h1) (hn incs (by simp) i hi h3)
      · refine ⟨old, h1 ▸ h4, h5, fun he => ?_⟩
        rcases h6 with h6 | h6
        · exact h6
        · omega

/-- Whatever increments reach the coordinator, in whatever order and however stale: the version
of a region never goes back, and with the same version it starts at the same key. -/
theorem C84_version (evs : List Ev) : ∀ (s : Coor) (j : Nat), NotCreated j evs → ∀ {r t : Region},
    s.regions j = some r → (s.run evs).regions j = some t →
    r.d.epoch.version ≤ t.d.epoch.version ∧ (t.d.epoch.version = r.d.epoch.version → t.start = r.start) := by
  induction evs with
  | nil =>
    intro s j _ r t h1 h2
    have h2 : s.regions j = some t := h2
    rw [h1] at h2
    cases h2
    exact ⟨Int.le_refl _, fun _ => rfl⟩
  | cons e evs ih =>
    intro s j hn r t h1 h2
    have hn1 : NotCreated j [e] := fun incs hi => hn incs (by simp at hi; simp [hi])
    have hn2 : NotCreated j evs := fun incs hi => hn incs (by simp [hi])
    have h2 : ((s.step e).run evs).regions j = some t := h2
    cases hm : (s.step e).regions j with
    | none =>
      exfalso
      -- a dropped region stays dropped
      have : ∀ (evs : List Ev) (s : Coor), NotCreated j evs → s.regions j = none → (s.run evs).regions j = none := by
        intro evs
        induction evs with
        | nil => intro s _ h; exact h
        | cons e evs ih2 =>
          intro s hn h
          refine ih2 (s.step e) (fun incs hi => hn incs (by simp [hi])) ?_
          cases hx : (s.step e).regions j with
          | none => rfl
          | some x =>
            obtain ⟨y, hy, _⟩ := step_version s e j (fun incs hi => hn incs (by simp at hi; simp [hi])) hx
            rw [h] at hy
            cases hy
      rw [this evs _ hn2 hm] at h2
      cases h2
    | some m =>
      obtain ⟨r', hr', hv, hs⟩ := step_version s e j hn1 hm
      rw [h1] at hr'
      cases hr'
      have h3 := ih _ j hn2 hm h2
      refine ⟨by omega, fun he => ?_⟩
      rw [h3.2 (by omega), hs (by omega)]

/-- A region that was dropped does not come back, whatever is reported about it. -/
theorem C84_dropped (evs : List Ev) : ∀ (s : Coor) (j : Nat), NotCreated j evs → s.regions j = none →
    (s.run evs).regions j = none := by
  induction evs with
  | nil => intro s j _ h; exact h
  | cons e evs ih =>
    intro s j hn h
    refine ih (s.step e) j (fun incs hi => hn incs (by simp [hi])) ?_
    cases hx : (s.step e).regions j with
    | none => rfl
    | some x =>
      obtain ⟨y, hy, _⟩ := step_version s e j (fun incs hi => hn incs (by simp at hi; simp [hi])) hx
      rw [h] at hy
      cases hy

/-! ## Reports -/

/-- The report is from the leader of the region. -/
def FromLeader (rep : Report) (m : Metrics) : Prop :=
  m.raftLeader = true ∧ (m.leaderStore = 0 ∨ m.leaderStore = rep.store)

/-- The coordinator takes the ranges and peers of this report: a full one, or the one of the two
regions of a split or merge. -/
def Carries (rep : Report) : Prop :=
  rep.part = false ∨ (rep.epochUpdate = true ∧ rep.regions.length = 2)

theorem notLeader_false {rep : Report} {m : Metrics} (h : FromLeader rep m) (r : Region) :
    notLeader rep m r = false := by
  unfold notLeader
  rw [h.1]
  rcases h.2 with h2 | h2 <;> simp [h2]

theorem reportIncs_eq {s : Coor} {rep : Report} (h : Carries rep) :
    reportIncs s rep = rep.regions.filterMap (reportInc s rep) := by
  unfold reportIncs
  rw [if_neg]
  rcases h with h | h
  · simp [h]
  · simp [h.2]

theorem reportIncs_sub {s : Coor} {rep : Report} {i : Inc} (h : i ∈ reportIncs s rep) :
    ∃ m ∈ rep.regions, ∃ r, s.regions m.id = some r ∧ reportOne rep m r = some i.region ∧ i.op = .update := by
  unfold reportIncs at h
  split at h
  · cases h
  · rw [List.mem_filterMap] at h
    obtain ⟨m, hm, h⟩ := h
    unfold reportInc at h
    cases hs : s.regions m.id with
    | none => rw [hs] at h; cases h
    | some r =>
      rw [hs] at h
      dsimp only at h
      rw [Option.map_eq_some_iff] at h
      obtain ⟨r', h1, rfl⟩ := h
      exact ⟨m, hm, r, hs, h1, rfl⟩

theorem reportOne_id {rep : Report} {m : Metrics} {r r' : Region} (h : reportOne rep m r = some r') : r'.id = r.id := by
  unfold reportOne at h
  split at h
  · cases h
  · split at h
    · cases h; rfl
    · cases h

theorem nodup_map_inj {rs : List Metrics} (h : (rs.map Metrics.id).Nodup) {a b : Metrics} (ha : a ∈ rs)
    (hb : b ∈ rs) (he : a.id = b.id) : a = b := by
  induction rs with
  | nil => cases ha
  | cons x l ih =>
    rw [List.map_cons, List.nodup_cons, List.mem_map] at h
    rw [List.mem_cons] at ha hb
    rcases ha with rfl | ha <;> rcases hb with rfl | hb
    · rfl
    · exact absurd ⟨b, hb, he.symm⟩ h.1
    · exact absurd ⟨a, ha, he⟩ h.1
    · exact ih h.2 ha hb

theorem reportIncs_nodup {s : Coor} (hk : s.Known) {rep : Report} (hn : (rep.regions.map Metrics.id).Nodup) :
    ((reportIncs s rep).map (fun i => i.region.id)).Nodup := by
  unfold reportIncs
  split
  · simp
  · generalize hl : rep.regions = l at hn
    clear hl
    induction l with
    | nil => simp
    | cons m l ih =>
      rw [List.map_cons, List.nodup_cons] at hn
      have ih := ih hn.2
      cases hm : reportInc s rep m with
      | none => rw [List.filterMap_cons_none hm]; exact ih
      | some i =>
        rw [List.filterMap_cons_some hm, List.map_cons, List.nodup_cons]
        refine ⟨fun hc => ?_, ih⟩
        have hid : ∀ (m : Metrics) (i : Inc), reportInc s rep m = some i → i.region.id = m.id := by
          intro m i h
          unfold reportInc at h
          cases hs : s.regions m.id with
          | none => rw [hs] at h; cases h
          | some r =>
            rw [hs] at h
            dsimp only at h
            rw [Option.map_eq_some_iff] at h
            obtain ⟨r', h1, rfl⟩ := h
            show r'.id = _
            rw [reportOne_id h1, (hk _ _ hs).1]
        rw [List.mem_map] at hc
        obtain ⟨j, hj, he⟩ := hc
        rw [List.mem_filterMap] at hj
        obtain ⟨m', hm', hj⟩ := hj
        rw [hid m i hm, hid m' j hj] at he
        exact hn.1 (List.mem_map.mpr ⟨m', hm', he⟩)

/-- The record of a region after a report: the one the report makes of it if that is taken. -/
theorem apply_report {s : Coor} (hk : s.Known) (hs : SortedMap s.range) {rep : Report}
    (hn : (rep.regions.map Metrics.id).Nodup) {m : Metrics} (hm : m ∈ rep.regions) {r r' : Region}
    (hr : s.regions m.id = some r) (h1 : reportOne rep m r = some r') (hin : reportIncs s rep ≠ [] ∨ Carries rep)
    (ht : Taken s r') : (s.apply (reportIncs s rep)).regions m.id = some r' := by
  have hid : r'.id = m.id := by rw [reportOne_id h1, (hk _ _ hr).1]
  have heq : reportIncs s rep = rep.regions.filterMap (reportInc s rep) := by
    rcases hin with h | h
    · unfold reportIncs at h ⊢
      split
      · rename_i h2
        rw [if_pos h2] at h
        exact absurd rfl h
      · rfl
    · exact reportIncs_eq h
  have hmem : (⟨.update, r'⟩ : Inc) ∈ reportIncs s rep := by
    rw [heq, List.mem_filterMap]
    refine ⟨m, hm, ?_⟩
    unfold reportInc
    rw [hr]
    dsimp only
    rw [h1]
    rfl
  obtain ⟨W, hw, hW⟩ := apply_updates hs (incs := reportIncs s rep)
    (fun i hi => by obtain ⟨_, _, _, _, _, h⟩ := reportIncs_sub hi; exact h) (reportIncs_nodup hk hn)
  rw [← hid]
  exact hw.here r' ((hW r').mpr ⟨⟨_, hmem, rfl⟩, ht⟩)

/-- A newer record is taken, from whichever peer it is reported: after the report the coordinator
has the region's epoch, range and peers as that peer has them.  (A region never starts at another
key without a higher version.) -/
theorem C84_taken {s : Coor} (hk : s.Known) (hs : s.range.Pairwise (fun a b => a.1 < b.1)) {rep : Report}
    (hn : (rep.regions.map Metrics.id).Nodup) (hc : Carries rep) {m : Metrics} (hm : m ∈ rep.regions)
    {r : Region} (hr : s.regions m.id = some r)
    (hconf : r.d.epoch.conf ≤ m.d.epoch.conf) (hver : r.d.epoch.version ≤ m.d.epoch.version)
    (hne : r.d.epoch ≠ m.d.epoch)
    (hst : m.d.epoch.version = r.d.epoch.version → m.d.range.start = r.d.range.start) :
    ∃ t, (s.apply (reportIncs s rep)).regions m.id = some t ∧ t.d = m.d := by
  have hnew : newer m r = true := by
    unfold newer
    rw [Bool.or_eq_true, decide_eq_true_eq, decide_eq_true_eq]
    by_cases h1 : r.d.epoch.conf < m.d.epoch.conf
    · exact Or.inl h1
    · right
      by_cases h2 : r.d.epoch.version < m.d.epoch.version
      · exact h2
      · exfalso
        apply hne
        have h3 : r.d.epoch.conf = m.d.epoch.conf := by omega
        have h4 : r.d.epoch.version = m.d.epoch.version := by omega
        cases hx : r.d.epoch
        cases hy : m.d.epoch
        rw [hx, hy] at h3 h4
        cases h3; cases h4; rfl
  have hpart : (rep.part && !rep.epochUpdate) = false := by
    rcases hc with h | h
    · simp [h]
    · simp [h.1]
  have hdef : needDef rep m r = true := by
    unfold needDef
    rw [hnew, hpart]
    rfl
  have hone : reportOne rep m r = some { r with d := m.d, state := if needState m r then genState m r else r.state } := by
    unfold reportOne
    rw [hnew, hdef]
    simp
  refine ⟨_, apply_report hk hs hn hm hr hone (Or.inr hc) ?_, rfl⟩
  refine ⟨r, ?_, hver, ?_⟩
  · show s.regions r.id = _
    rw [(hk _ _ hr).1]
    exact hr
  · by_cases h1 : m.d.epoch.version = r.d.epoch.version
    · exact Or.inl (hst h1)
    · right
      show r.d.epoch.version < m.d.epoch.version
      omega

/-- A report never changes a region it does not mention, and none the coordinator does not
know. -/
theorem C84_others {s : Coor} (rep : Report) {j : Nat} (h : ∀ m ∈ rep.regions, m.id ≠ j) (hk : s.Known) :
    (s.apply (reportIncs s rep)).regions j = s.regions j := by
  have hup : ∀ i ∈ reportIncs s rep, i.op = .update ∧ i.region.id ≠ j := by
    intro i hi
    obtain ⟨m, hm, r, hr, h1, h2⟩ := reportIncs_sub hi
    refine ⟨h2, ?_⟩
    rw [reportOne_id h1, (hk _ _ hr).1]
    exact h m hm
  have hb := updates_fold (reportIncs s rep) (updates_init s) (fun i hi => (hup i hi).1)
  rw [List.nil_append] at hb
  show ((reportIncs s rep).foldl (Batch.add s) {}).del.foldl eraseId
      (((reportIncs s rep).foldl (Batch.add s) {}).put.foldl putId s.regions) j = _
  rw [hb.del.1]
  refine putIds_other _ (fun r hr => ?_)
  have := ((hb.put r).mp hr).1
  rw [List.mem_map] at this
  obtain ⟨i, hi, rfl⟩ := this
  exact (hup i hi).2

/-- What a report can make of a region's epoch, range and peers: they stay, or they are the ones
reported; and then the reported version is not lower, and the report is not from a follower
that has nothing newer. -/
theorem C84_only_reported {s : Coor} (hk : s.Known) (rep : Report) {j : Nat} {r t : Region}
    (hr : s.regions j = some r) (ht : (s.apply (reportIncs s rep)).regions j = some t) :
    t.d = r.d ∨ ∃ m ∈ rep.regions, m.id = j ∧ t.d = m.d ∧ r.d.epoch.version ≤ m.d.epoch.version ∧
      (rep.part = true → rep.epochUpdate = true ∧ rep.regions.length = 2) ∧
      (r.d.mono = false → r.state.dropping = false →
        (r.d.epoch.conf < m.d.epoch.conf ∨ r.d.epoch.version < m.d.epoch.version) ∨
        (FromLeader rep m ∧ r.d.epoch.conf ≤ m.d.epoch.conf)) := by
  rcases apply_cases s _ j ht with h | ⟨h1, i, hi, rfl, h3⟩
  · rw [hr] at h
    cases h
    exact Or.inl rfl
  · obtain ⟨m, hm, r0, hr0, h4, h5⟩ := reportIncs_sub hi
    have hmid : m.id = j := by rw [← h1, reportOne_id h4, (hk _ _ hr0).1]
    rw [hmid, hr] at hr0
    cases hr0
    have hlen : rep.part = true → rep.epochUpdate = true → rep.regions.length = 2 := by
      intro hp he
      unfold reportIncs at hi
      split at hi
      · cases hi
      · rename_i hc
        simpa [hp, he] using hc
    by_cases hd : needDef rep m r = true
    · right
      have hreg : i.region.d = m.d := by
        unfold reportOne at h4
        split at h4
        · cases h4
        · split at h4
          · have := Option.some.inj h4
            rw [← this]
          · cases h4
      refine ⟨m, hm, hmid, hreg, ?_, ?_, ?_⟩
      · rcases h3 with h3 | ⟨_, old, h6, h7, _⟩
        · rw [h5] at h3; cases h3
        · rw [h1, hr] at h6
          cases h6
          rw [hreg] at h7
          exact h7
      · intro hp
        unfold needDef at hd
        rw [hp] at hd
        rcases Bool.eq_false_or_eq_true rep.epochUpdate with he | he
        · exact ⟨he, hlen hp he⟩
        · rw [he] at hd; simp at hd
      · intro hmono hdrop
        by_cases hnew : newer m r = true
        · left
          unfold newer at hnew
          simpa using hnew
        · right
          have hnl : notLeader rep m r = false := by
            unfold reportOne at h4
            split at h4
            · cases h4
            · rename_i hc
              rw [hdrop] at hc
              simpa [hnew] using hc
          constructor
          · unfold notLeader at hnl
            rw [hmono] at hnl
            simp at hnl
            refine ⟨hnl.1, ?_⟩
            by_cases h0 : m.leaderStore = 0
            · exact Or.inl h0
            · exact Or.inr (hnl.2 (by omega))
          · unfold needDef at hd
            have hol : oldLeader rep m r = false := by
              rw [Bool.and_eq_true, Bool.or_eq_true] at hd
              rcases hd.1 with h | h
              · exact absurd h hnew
              · simp at h; exact h.2
            unfold oldLeader at hol
            rw [hnl] at hol
            simp at hol
            exact hol.1
    · left
      have hd : needDef rep m r = false := by simpa using hd
      unfold reportOne at h4
      split at h4
      · cases h4
      · split at h4
        · have := Option.some.inj h4
          rw [← this]
        · cases h4

/-- Heard one after the other, reports never take a region's conf version back, as long as what
is reported about it is the coordinator's own epoch or an earlier or a later one (the epochs of
a region are ordered, both numbers at once). For reports heard at the same time, see
`C84_conf_false`. -/
theorem C84_conf_partial {s : Coor} (hk : s.Known) (rep : Report) {j : Nat} {r t : Region}
    (hr : s.regions j = some r) (ht : (s.apply (reportIncs s rep)).regions j = some t)
    (hmono : r.d.mono = false) (hdrop : r.state.dropping = false)
    (hchain : ∀ m ∈ rep.regions, m.id = j →
      (m.d.epoch.conf ≤ r.d.epoch.conf ∧ m.d.epoch.version ≤ r.d.epoch.version) ∨
      (r.d.epoch.conf ≤ m.d.epoch.conf ∧ r.d.epoch.version ≤ m.d.epoch.version)) :
    r.d.epoch.conf ≤ t.d.epoch.conf ∧ r.d.epoch.version ≤ t.d.epoch.version := by
  rcases C84_only_reported hk rep hr ht with h | ⟨m, hm, hj, h, hv, _, hx⟩
  · rw [h]; omega
  · rw [h]
    refine ⟨?_, hv⟩
    rcases hchain m hm hj with h1 | h1
    · rcases hx hmono hdrop with h2 | h2
      · omega
      · exact h2.2
    · exact h1.1

/-- Reports that say nothing new change nothing, so a coordinator that has the stores' records
stays as it is. -/
theorem C84_quiet {s : Coor} (rep : Report)
    (h : ∀ m ∈ rep.regions, ∀ r, s.regions m.id = some r → m.d = r.d ∧ (genState m r = .none ∨ genState m r = r.state)) :
    reportIncs s rep = [] := by
  unfold reportIncs
  split
  · rfl
  · rw [List.filterMap_eq_nil_iff]
    intro m hm
    unfold reportInc
    cases hr : s.regions m.id with
    | none => rfl
    | some r =>
      dsimp only
      obtain ⟨h1, h2⟩ := h m hm r hr
      have hn : newer m r = false := by simp [newer, h1]
      have hd : needDef rep m r = false := by simp [needDef, hn, h1]
      have hst : needState m r = false := by
        unfold needState
        rcases h2 with h2 | h2 <;> simp [h2]
      unfold reportOne
      rw [hd, hst]
      simp

/-! ## States -/

/-- The state a region has after a report from its leader: as the store has it, and a state the
coordinator has no name for changes nothing.  (`NORMAL`, `SPLITTING`, `MERGING`, `STANDBY` and
`TOMBSTONE`.) -/
theorem C84_state {s : Coor} (hk : s.Known) (hs : s.range.Pairwise (fun a b => a.1 < b.1)) {rep : Report}
    (hn : (rep.regions.map Metrics.id).Nodup) {m : Metrics} (hm : m ∈ rep.regions)
    (hpair : rep.part = true → rep.epochUpdate = true → rep.regions.length = 2)
    {r : Region} (hr : s.regions m.id = some r) (hl : FromLeader rep m) (hd : r.state.dropping = false)
    (hver : r.d.epoch.version ≤ m.d.epoch.version)
    (hst : m.d.epoch.version = r.d.epoch.version → m.d.range.start = r.d.range.start) :
    ∃ t, (s.apply (reportIncs s rep)).regions m.id = some t ∧
      t.state = match m.state with
        | .normal => .normal
        | .splitting => .splitting
        | .merging => .merging
        | .standby => .standby
        | .tombstone => .tombstone
        | _ => r.state := by
  have hgen : (if needState m r then genState m r else r.state) = match m.state with
        | .normal => .normal
        | .splitting => .splitting
        | .merging => .merging
        | .standby => .standby
        | .tombstone => .tombstone
        | _ => r.state := by
    unfold needState genState
    rw [hd]
    cases m.state <;> simp <;> cases r.state <;> simp
  have hinc : reportIncs s rep = rep.regions.filterMap (reportInc s rep) := by
    unfold reportIncs
    rw [if_neg]
    intro hc
    simp only [Bool.and_eq_true, decide_eq_true_eq] at hc
    exact hc.2 (hpair hc.1.1 hc.1.2)
  cases hone : reportOne rep m r with
  | none =>
    -- nothing to write: the state is right already
    refine ⟨r, ?_, ?_⟩
    · cases ht : (s.apply (reportIncs s rep)).regions m.id with
      | none =>
        exfalso
        have hb := updates_fold (reportIncs s rep) (updates_init s)
          (fun i hi => by obtain ⟨_, _, _, _, _, h⟩ := reportIncs_sub hi; exact h)
        have ht : ((reportIncs s rep).foldl (Batch.add s) {}).del.foldl eraseId
          (((reportIncs s rep).foldl (Batch.add s) {}).put.foldl putId s.regions) m.id = none := ht
        rw [hb.del.1] at ht
        rcases putIds_cases ((reportIncs s rep).foldl (Batch.add s) {}).put (j := m.id) (m := s.regions) with
          h | ⟨q, _, _, h⟩
        · have ht : ((reportIncs s rep).foldl (Batch.add s) {}).put.foldl putId s.regions m.id = none := ht
          rw [h, hr] at ht; cases ht
        · have ht : ((reportIncs s rep).foldl (Batch.add s) {}).put.foldl putId s.regions m.id = none := ht
          rw [h] at ht; cases ht
      | some t =>
        rcases apply_cases s _ m.id ht with h | ⟨h1, i, hi, rfl, _⟩
        · rw [hr] at h; exact h.symm
        · exfalso
          obtain ⟨m', hm', r', hr', h4, _⟩ := reportIncs_sub hi
          have : m' = m := nodup_map_inj hn hm' hm (by rw [← h1, reportOne_id h4, (hk _ _ hr').1])
          subst this
          rw [hr] at hr'
          cases hr'
          rw [hone] at h4
          cases h4
    · rw [← hgen]
      unfold reportOne at hone
      rw [notLeader_false hl] at hone
      simp at hone
      simp [hone.2]
  | some r' =>
    have heq : r' = { r with d := if needDef rep m r then m.d else r.d, state := if needState m r then genState m r else r.state } := by
      unfold reportOne at hone
      split at hone
      · cases hone
      · split at hone
        · exact (Option.some.inj hone).symm
        · cases hone
    refine ⟨r', apply_report hk hs hn hm hr hone ?_ ?_, by rw [heq]; exact hgen⟩
    · left
      rw [hinc]
      intro hnil
      rw [List.filterMap_eq_nil_iff] at hnil
      have := hnil m hm
      unfold reportInc at this
      rw [hr] at this
      dsimp only at this
      rw [hone] at this
      cases this
    · refine ⟨r, by rw [reportOne_id hone, (hk _ _ hr).1]; exact hr, ?_, ?_⟩
      · rw [heq]
        show _ ≤ (if needDef rep m r then m.d else r.d).epoch.version
        split
        · exact hver
        · exact Int.le_refl _
      · rw [heq]
        show (if needDef rep m r then m.d else r.d).range.start = _ ∨
          _ < (if needDef rep m r then m.d else r.d).epoch.version
        split
        · by_cases h1 : m.d.epoch.version = r.d.epoch.version
          · exact Or.inl (hst h1)
          · right; omega
        · exact Or.inl rfl

/-! ## Reports heard at the same time -/

private def k (n : Nat) : Bytes := [0x77, 0, 0, 0, 0, 0, 0, UInt8.ofNat n]
private def rg (st : CState) (c : Int) (ps : List Nat) : Region := ⟨1, st, ⟨⟨c, 1⟩, ⟨k 1, k 3⟩, ps, false⟩⟩
private def mt (st : RState) (c : Int) (ps : List Nat) : Metrics := ⟨1, 5, true, st, ⟨⟨c, 1⟩, ⟨k 1, k 3⟩, ps, false⟩⟩
private def one : Coor := Coor.empty.apply [⟨.create, rg .new 1 [5, 6, 7]⟩]

/-- A peer was added. The heartbeat that says so and one with only the region's state (a raft
leader was elected) are heard at the same time: each increment is made from the coordinator's
record as it was, and the second takes the new peer and the conf version back. The next full
report from the leader repairs it (`C84_taken`). -/
theorem C84_conf_false :
    let full : Report := ⟨5, false, false, [mt .normal 2 [5, 6, 7, 8]]⟩
    let state : Report := ⟨5, true, false, [mt .normal 2 [5, 6, 7, 8]]⟩
    let s1 := one.apply (reportIncs one full)
    let s2 := s1.apply (reportIncs one state)
    s1.regions 1 = some (rg .normal 2 [5, 6, 7, 8]) ∧
    s2.regions 1 = some (rg .normal 1 [5, 6, 7]) ∧
    (s2.apply (reportIncs s2 full)).regions 1 = some (rg .normal 2 [5, 6, 7, 8]) := by
  refine ⟨?_, ?_, ?_⟩ <;> decide +kernel

/-! ## Non-trivial cases -/

private theorem one_known : one.Known := by
  intro i r h
  have h : (if i = 1 then some (rg .new 1 [5, 6, 7]) else none) = some r := h
  split at h
  · rename_i h1
    cases h
    exact ⟨h1.symm, by omega⟩
  · cases h

/-- The hypotheses of `C84_taken`, `C84_conf_partial`, `C84_state`. -/
example : ∃ t, (one.apply (reportIncs one ⟨5, false, false, [mt .normal 2 [5, 6, 7, 8]]⟩)).regions 1 = some t ∧
    t.d = (mt .normal 2 [5, 6, 7, 8]).d :=
  C84_taken (m := mt .normal 2 [5, 6, 7, 8]) one_known (by decide +kernel) (by decide +kernel) (Or.inl rfl)
    (by decide +kernel) (r := rg .new 1 [5, 6, 7]) rfl (by decide) (by decide)
    (by decide +kernel) (by decide +kernel)

example : (1 : Int) ≤ 2 ∧ (1 : Int) ≤ 1 :=
  C84_conf_partial (s := one) one_known ⟨5, false, false, [mt .normal 2 [5, 6, 7, 8]]⟩ (j := 1)
    (r := rg .new 1 [5, 6, 7]) (t := rg .normal 2 [5, 6, 7, 8]) rfl (by decide +kernel) rfl rfl (by decide +kernel)

/-- The hypothesis of `C84_version`: a later history that moves the region. -/
example : NotCreated 1 [.apply [⟨.update, ⟨1, .normal, ⟨⟨2, 2⟩, ⟨k 2, k 3⟩, [5], false⟩⟩⟩], .lead [1]] := by
  intro incs h i hi ho
  simp at h
  subst h
  simp at hi
  subst hi
  cases ho

end Verif.RegMap
