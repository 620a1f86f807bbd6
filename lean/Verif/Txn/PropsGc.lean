import Verif.Txn.GcRun
import Verif.Txn.PropsLock

/-! # Garbage collection of transaction records: properties C23, C24 and C53 -/

namespace Verif.Txn
open Verif.Codec

theorem batch_append (a b : GcBatch) (st : State) : GcBatch.apply (a ++ b) st = b.apply (a.apply st) := by
  simp only [GcBatch.apply, List.map_append, List.filterMap_append, CF.delAll, List.foldl_append]

theorem batch_nil (st : State) : GcBatch.apply [] st = st := rfl

theorem applyAll_flatten (bs : List GcBatch) (st : State) : applyAll bs st = GcBatch.apply bs.flatten st := by
  induction bs generalizing st with
  | nil => rfl
  | cons b bs ih =>
    rw [List.flatten_cons, batch_append, ← ih]; rfl

theorem gcRun_all {D : Bytes → TsOwner} {sp : Int} {plan : List GcBatch} {st : State} {left : List GcBatch} {st' : State}
    (h : GcRun D sp plan st left st') (a b : List GcBatch) (hab : left = a ++ b) :
    GcRun D sp plan st b (applyAll a st') := by
  induction a generalizing left st' with
  | nil => subst hab; exact h
  | cons x a ih => subst hab; exact ih h.write rfl

theorem plan_removes {D : Bytes → TsOwner} {st : State} (hg : Good D st) {sp : Int} {n : Nat} {start stop : Bytes}
    {stops : List Bool} {a b : List GcBatch} (hp : gcPlan st sp n start stop stops = a ++ b) (k : Bytes) :
    Removes (view st k) (view (applyAll a st) k) (fun t => ⟨k, t⟩ ∈ a.flatten.map (·.wkey)) := by
  rw [applyAll_flatten]
  refine Present.removes (data := st.data) ?_ k
  intro i hi
  obtain ⟨w, h1, _, _, h2⟩ := (plan_item hg.inv (n := n) (stops := stops) (i := i) (by
    rw [hp, List.flatten_append]; exact List.mem_append_left _ hi)).ex
  exact ⟨w, h1, h2⟩

theorem snapshot_iff {D D' : Bytes → TsOwner} {st st' : State} (hg : Good D st) (_hg' : Good D' st') {k : Bytes} {T : Int}
    (hT : T ≤ maxVer) (h : ∀ v, Snapshot st k T v → Snapshot st' k T v) (v : Option Bytes) :
    Snapshot st k T v ↔ Snapshot st' k T v := by
  refine ⟨h v, fun h' => ?_⟩
  obtain ⟨v0, h0⟩ := snapshot_exists hg (k := k) hT
  rw [h'.unique (h v0 h0)]
  exact h0

theorem Snapshot.committed {st : State} {k : Bytes} {s c : Int} {v : Option Bytes} (h : Wrote st k s c v) :
    CommittedOn st k s c := by
  cases v with
  | none => obtain ⟨w, h1, h2, h3⟩ := h; exact ⟨w, h1, h2, Or.inr h3⟩
  | some v => obtain ⟨w, h1, h2, h3, _⟩ := h; exact ⟨w, h1, h2, Or.inl h3⟩

/-- A complete job deletes every version at or below the safe point that has a
successor, and every such tombstone. -/
theorem full_gone {D : Bytes → TsOwner} {st : State} (hg : Good D st) {sp : Int} {n : Nat} {start stop : Bytes}
    {stops : List Bool} (hs : ∀ b ∈ stops, b = false) {k : Bytes} (hr : InRegion start stop k) {s c : Int}
    (hc : CommittedOn (applyAll (gcPlan st sp n start stop stops) st) k s c) (hle : c ≤ sp) :
    ∃ v, Wrote st k s c (some v) ∧ ∀ s' c', CommittedOn st k s' c' → c' ≤ c := by
  have hrem := plan_removes hg (a := gcPlan st sp n start stop stops) (b := []) (List.append_nil _).symm k
  obtain ⟨w, h1, h2, h3⟩ := committedOn_iff.1 hc
  obtain ⟨h4, h5⟩ := hrem.sub h1
  have hnd : ¬ (view st k).Doomed sp c := by
    intro hd
    obtain ⟨i, hi, he⟩ := plan_all hg.inv (n := n) hs hr hd
    exact h5 (List.mem_map.2 ⟨i, hi, he⟩)
  have hput : w.op = .put := by
    rcases h3 with h3 | h3
    · exact h3
    · exact absurd ⟨w, h4, hle, fun h => by rw [h3] at h; cases h⟩ hnd
  have hnew : ∀ s' c', CommittedOn st k s' c' → c' ≤ c := by
    intro s' c' hc'
    obtain ⟨w', b1, _, b3⟩ := committedOn_iff.1 hc'
    by_cases hlt : c < c'
    · exact absurd ⟨w, h4, hle, fun _ => ⟨c', w', b1, b3, hlt⟩⟩ hnd
    · omega
  by_cases hsh : w.shortValue = []
  · have := (hg.dinv k).writeData c w h4 hput hsh
    obtain ⟨v, hv⟩ := Option.isSome_iff_exists.1 this
    exact ⟨v, wrote_some_iff.2 ⟨w, h4, h2, hput, Or.inr ⟨hsh, by rw [← h2]; exact hv⟩⟩, hnew⟩
  · exact ⟨w.shortValue, wrote_some_iff.2 ⟨w, h4, h2, hput, Or.inl ⟨hsh, rfl⟩⟩, hnew⟩

/-! ## C23 -/

/-- C23 (partial): a complete GC job with safe point `sp`, whatever the batch size,
leaves the snapshot at `T ≥ sp` of a key as it was if no transaction has committed on
the key above `sp`, or one has between `sp` and `T`.
Missing: a key whose next commit after `sp` is above `T`; there the claim is false
(`C23_false`). -/
theorem C23_partial {D : Bytes → TsOwner} {st : State} (h : GcReachable D st) {sp : Int} {n : Nat} {start stop : Bytes}
    {stops : List Bool} (hs : ∀ b ∈ stops, b = false) {k : Bytes} {T : Int} (hT : sp ≤ T ∧ T ≤ maxVer)
    (hk : (∀ s c, CommittedOn st k s c → c ≤ sp) ∨ (∃ s c, CommittedOn st k s c ∧ sp < c ∧ c ≤ T))
    (v : Option Bytes) :
    Snapshot st k T v ↔ Snapshot (applyAll (gcPlan st sp n start stop stops) st) k T v := by
  have hg := h.good
  have hrem := plan_removes hg (a := gcPlan st sp n start stop stops) (b := []) (List.append_nil _).symm k
  have hg' : Good D (applyAll (gcPlan st sp n start stop stops) st) :=
    ((gcRun_all (.start (D := D) (sp := sp)) (gcPlan st sp n start stop stops) [] (List.append_nil _).symm).job hg).good
  have hB : ∀ c, ⟨k, c⟩ ∈ ((gcPlan st sp n start stop stops).flatten.map (·.wkey)) →
      (view st k).Doomed sp c ∧ InRegion start stop k := by
    intro c hm
    obtain ⟨i, hi, he⟩ := List.mem_map.1 hm
    obtain ⟨w, _, h2, h3, _⟩ := (plan_item hg.inv hi).ex
    rw [he] at h2 h3
    exact ⟨h3, h2⟩
  refine snapshot_iff hg hg' hT.2 ?_ v
  intro v hv
  by_cases hcase : ∃ s c, Wrote st k s c none ∧ c ≤ sp ∧ InRegion start stop k ∧ ∀ s' c', CommittedOn st k s' c' → c' ≤ T → c' ≤ c
  · -- the newest version is a tombstone at or below the safe point
    obtain ⟨s, c, h1, h2, h3, h4⟩ := hcase
    have hall : ∀ s c, CommittedOn st k s c → c ≤ sp := by
      rcases hk with hk | ⟨s', c', hk, h5, h6⟩
      · exact hk
      · have := h4 s' c' hk h6; omega
    have hnone : Snapshot st k T none := Or.inr ⟨s, c, by omega, h1, h4⟩
    rw [hv.unique hnone]
    refine Or.inl ⟨rfl, fun s' c' hc' => ?_⟩
    by_cases hlt : T < c'
    · exact hlt
    · exfalso
      have hsub : CommittedOn st k s' c' := by
        obtain ⟨w, b1, b2, b3⟩ := committedOn_iff.1 hc'
        exact committedOn_iff.2 ⟨w, (hrem.sub b1).1, b2, b3⟩
      obtain ⟨v', b1, b2⟩ := full_gone hg hs h3 hc' (hall _ _ hsub)
      have e1 := b2 s c (Snapshot.committed h1)
      have e2 := h4 s' c' hsub (by omega)
      have e3 : c' = c := by omega
      subst e3
      obtain ⟨w, a1, a2, a3, _⟩ := wrote_some_iff.1 b1
      obtain ⟨w', a4, a5, a6⟩ := wrote_none_iff.1 h1
      rw [a1] at a4; cases a4
      rw [a3] at a6; cases a6
  · refine hrem.snapshot (hg.dinv k) ?_ hv
    intro s c hc hcT hmax hmem
    obtain ⟨⟨w, b1, b2, b3⟩, hr⟩ := hB c hmem
    obtain ⟨w', a1, a2, a3⟩ := committedOn_iff.1 hc
    rw [b1] at a1; cases a1
    rcases a3 with hop | hop
    · obtain ⟨t', w', d1, d2, d3⟩ := b3 hop
      have dc : CommittedOn st k w'.startTs t' := committedOn_iff.2 ⟨w', d1, rfl, d2⟩
      rcases hk with hk | ⟨s1, c1, hk, h5, h6⟩
      · have e1 := hk _ _ dc
        have e2 := hmax _ _ dc (by omega)
        omega
      · have := hmax _ _ hk h6
        omega
    · exact hcase ⟨s, c, wrote_none_iff.2 ⟨w, b1, a2, hop⟩, b2, hr, hmax⟩

/-- C23 in terms of the API: a `TxnGet` at `T ≥ sp` is answered the same before and
after the job, if the condition of `C23_partial` holds for each of its keys. -/
theorem C23_get_partial {D : Bytes → TsOwner} {st : State} (h : GcReachable D st) {sp : Int} {n : Nat}
    {start stop : Bytes} {stops : List Bool} (hs : ∀ b ∈ stops, b = false) {keys : List Bytes} {T : Int}
    {resolved : List Int} (hv : (Req.get .si T resolved keys).Valid) (hT : sp ≤ T)
    (hk : ∀ k ∈ keys, (∀ s c, CommittedOn st k s c → c ≤ sp) ∨ (∃ s c, CommittedOn st k s c ∧ sp < c ∧ c ≤ T)) :
    (step (applyAll (gcPlan st sp n start stop stops) st) (.get .si T resolved keys)).2 =
      (step st (.get .si T resolved keys)).2 := by
  have hg := h.good
  have hg' : Good D (applyAll (gcPlan st sp n start stop stops) st) :=
    ((gcRun_all (.start (D := D) (sp := sp)) (gcPlan st sp n start stop stops) [] (List.append_nil _).symm).job hg).good
  have hlock : ∀ k, (view (applyAll (gcPlan st sp n start stop stops) st) k).lock = (view st k).lock :=
    fun k => (plan_removes hg (a := gcPlan st sp n start stop stops) (b := []) (List.append_nil _).symm k).lock
  have hsnap : ∀ k ∈ keys, ∀ v, Snapshot st k T v ↔ Snapshot (applyAll (gcPlan st sp n start stop stops) st) k T v :=
    fun k hkm v => C23_partial h hs ⟨hT, hv.2.1⟩ (hk k hkm) v
  generalize applyAll (gcPlan st sp n start stop stops) st = st' at *
  have hg : Good D (st.access T) := hg.step hv (r := .get .si T resolved keys) trivial
  have hg' : Good D (st'.access T) := hg'.step hv (r := .get .si T resolved keys) trivial
  have hget : ∀ k ∈ keys, getKey (st'.access T) .si T resolved k = getKey (st.access T) .si T resolved k := by
    intro k hkm
    have hlock : (view (st'.access T) k).lock = (view (st.access T) k).lock := hlock k
    have hsnap : ∀ v, Snapshot (st.access T) k T v ↔ Snapshot (st'.access T) k T v := hsnap k hkm
    generalize st.access T = st at *
    generalize st'.access T = st' at *
    have hl : ∀ l, LockOn st' k l ↔ LockOn st k l := fun l => by rw [lockOn_iff, lockOn_iff, hlock]
    rcases getKey_si hg' (k := k) hv.2.1 resolved with ⟨l, h1, h2, h3⟩ | ⟨v, h1, h2, h3⟩ <;>
      rcases getKey_si hg (k := k) hv.2.1 resolved with ⟨l', h1', h2', h3'⟩ | ⟨v', h1', h2', h3'⟩
    · rw [h1, h1']
      rw [hl, lockOn_iff] at h2
      rw [lockOn_iff, h2] at h2'
      cases h2'; rfl
    · exact absurd h3 (h3' l ((hl l).1 h2))
    · exact absurd h3' (h3 l' ((hl l').2 h2'))
    · rw [h1, h1']
      have := h2.unique ((hsnap _).1 h2')
      have hv : v = v' := by
        simp only [valueOf] at this
        split at this <;> split at this <;> simp_all
      rw [hv]
  have hloop : ∀ (ks : List Bytes) (acc : List (Bytes × Bytes)), (∀ k ∈ ks, k ∈ keys) →
      batchGetLoop (st'.access T) .si T resolved (fun _ _ => 0) 1 ks 0 acc =
        batchGetLoop (st.access T) .si T resolved (fun _ _ => 0) 1 ks 0 acc := by
    intro ks
    induction ks with
    | nil => intro acc _; rfl
    | cons k ks ih =>
      intro acc hm
      have : getKey (st'.access T) .si T resolved k = getKey (st.access T) .si T resolved k :=
        hget k (hm k List.mem_cons_self)
      have ih := fun acc => ih acc (fun k hk => hm k (List.mem_cons_of_mem _ hk))
      simp only [batchGetLoop, this]
      split <;> try rfl
      split
      · rfl
      · exact ih _
  simp only [step, batchGet]
  rw [hloop keys [] (fun _ h => h)]

/-- C23 is false: if the newest version at or below the safe point is followed by one
above `T`, and by none between `sp` and `T`, then a snapshot at `T ≥ sp` is empty
after the job, although it held a value before. -/
theorem C23_false {D : Bytes → TsOwner} {st : State} (h : GcReachable D st) {sp : Int} {n : Nat} {start stop : Bytes}
    {stops : List Bool} (hs : ∀ b ∈ stops, b = false) {k : Bytes} (hr : InRegion start stop k) {T : Int}
    (hno : ∀ s c, CommittedOn st k s c → c ≤ sp ∨ T < c) (hlater : ∃ s c, CommittedOn st k s c ∧ T < c) :
    Snapshot (applyAll (gcPlan st sp n start stop stops) st) k T none := by
  have hg := h.good
  have hrem := plan_removes hg (a := gcPlan st sp n start stop stops) (b := []) (List.append_nil _).symm k
  refine Or.inl ⟨rfl, fun s c hc => ?_⟩
  by_cases hlt : T < c
  · exact hlt
  · exfalso
    have hsub : CommittedOn st k s c := by
      obtain ⟨w, b1, b2, b3⟩ := committedOn_iff.1 hc
      exact committedOn_iff.2 ⟨w, (hrem.sub b1).1, b2, b3⟩
    have hle : c ≤ sp := by
      rcases hno s c hsub with h1 | h1
      · exact h1
      · omega
    obtain ⟨_, _, b2⟩ := full_gone hg hs hr hc hle
    obtain ⟨s', c', h1, h2⟩ := hlater
    have := b2 s' c' h1
    omega

/-- Transaction 10 puts `kA` and `kB` and commits at 15, transaction 20 puts `kA` again and
commits at 25. -/
def gcHist : List Req :=
  [.prewrite { mutations := [{ op := .put, key := kA, value := vA }, { op := .put, key := kB, value := vLong }],
               primary := kA, startTs := 10, ttl := 100 },
   .commit 10 15 [kA, kB],
   .prewrite { mutations := [{ op := .put, key := kA, value := [8] }], primary := kA, startTs := 20, ttl := 100 },
   .commit 20 25 [kA]]

def gcState : State := run State.init gcHist

theorem gcState_reachable : Reachable sampleRoles.spec gcState := reachable_of (by decide +kernel)

/-- C23_false, concretely: GC with safe point 18, then a read at 20, which was
answered with the value before. -/
example : (step gcState (.get .si 20 [] [kA])).2 = .get (.ok { kvs := [(kA, vA)] }) ∧
    (step (applyAll (gcPlan gcState 18 32768 [] [9] []) gcState) (.get .si 20 [] [kA])).2 =
      .get (.ok { kvs := [(kA, [])] }) := by
  decide +kernel

/-- C23_partial and C23_get_partial, hypotheses met: a read of `kB` (nothing committed above the safe
point) and of `kA` (a commit in between), and the job deletes something. -/
example : GcReachable sampleRoles.spec gcState ∧ (Req.get .si 26 [] [kA, kB]).Valid ∧
    CommittedOn gcState kA 20 25 ∧ (∀ e ∈ gcState.write.l, e.1.key = kB → e.1.ts ≤ 18) ∧
    gcPlan gcState 18 32768 [] [9] [] = [[⟨⟨kA, 15⟩, none⟩]] ∧
    (step (applyAll (gcPlan gcState 18 32768 [] [9] []) gcState) (.get .si 26 [] [kA, kB])).2 =
      .get (.ok { kvs := [(kA, [8]), (kB, vLong)] }) :=
  ⟨gcState_reachable.gc, by decide, ⟨⟨20, .put, [8]⟩, by decide +kernel, rfl, Or.inl rfl⟩, by decide +kernel,
    by decide +kernel, by decide +kernel⟩

/-! ## C24 -/

/-- C24 (partial): while a GC job runs among other requests, any of its earlier batches
having been written or lost, writing its next batch leaves the snapshot at `T ≥ sp` of
a key as it is, provided that either a transaction has committed on the key between
`sp` and `T`, or, when the job started, no transaction had committed on the key above
`sp` and its newest version was not a tombstone on top of older versions.
Missing: keys whose next commit after `sp` is above `T` (`C23_false`), and keys whose
newest version is a tombstone on top of older versions (`C24_false`). -/
theorem C24_partial {D : Bytes → TsOwner} {st : State} (h : GcReachable D st) {sp : Int} {n : Nat} {start stop : Bytes}
    {stops : List Bool} {b : GcBatch} {left : List GcBatch} {st' : State}
    (hrun : GcRun D sp (gcPlan st sp n start stop stops) st (b :: left) st')
    {k : Bytes} {T : Int} (hT : sp ≤ T ∧ T ≤ maxVer)
    (hk : (∃ s c, CommittedOn st' k s c ∧ sp < c ∧ c ≤ T) ∨
      (∀ s c, CommittedOn st k s c → c ≤ sp) ∧
      ∀ s c, Wrote st k s c none → (∃ s' c', CommittedOn st k s' c' ∧ c < c') ∨
        ∀ s' c', CommittedOn st k s' c' → c' = c)
    (v : Option Bytes) : Snapshot st' k T v ↔ Snapshot (b.apply st') k T v := by
  have hg := h.good
  have hj := hrun.job hg
  have hrem := hj.present.removes k
  have hB : ∀ c, ⟨k, c⟩ ∈ b.map (·.wkey) → (view st k).Doomed sp c := by
    intro c hm
    obtain ⟨i, hi, he⟩ := List.mem_map.1 hm
    obtain ⟨w, _, h2, h3, _⟩ := (hj.items i (by simp [hi])).ex
    rw [he] at h3
    exact h3
  refine snapshot_iff hj.good (hj.present.good hj.good) hT.2 ?_ v
  intro v hv
  rcases hk with ⟨s1, c1, h1, h2, h3⟩ | ⟨hall, htomb⟩
  · refine hrem.snapshot (hj.good.dinv k) ?_ hv
    intro s c hc hcT hmax hmem
    obtain ⟨w, _, b2, _⟩ := hB c hmem
    have := hmax s1 c1 h1 h3
    omega
  · -- no newer version in the snapshot of the job than one that is kept
    have hbelow : ∀ s c, CommittedOn st' k s c → c ≤ sp → CommittedOn st k s c := by
      intro s c hc hle
      obtain ⟨w, b1, b2, b3⟩ := committedOn_iff.1 hc
      exact committedOn_iff.2 ⟨w, hj.below k c w hle b1 b3, b2, b3⟩
    have hnewest : ∀ s c s2 c2, CommittedOn st' k s c → c ≤ sp →
        (∀ s' c', CommittedOn st' k s' c' → c' ≤ T → c' ≤ c) → CommittedOn st k s2 c2 → c < c2 → False := by
      intro s c s2 c2 hc hle hmax hc2 hlt
      obtain ⟨v0, hv0⟩ := snapshot_exists hg (k := k) (T := sp) (by omega)
      rcases hv0 with ⟨_, h0⟩ | ⟨s3, c3, h1, h2, h3⟩
      · have := h0 s2 c2 hc2; have := hall s2 c2 hc2; omega
      · have e1 := h3 s2 c2 hc2 (hall s2 c2 hc2)
        cases v0 with
        | none =>
          rcases htomb s3 c3 h2 with ⟨s', c', e2, e3⟩ | e2
          · have := h3 s' c' e2 (hall s' c' e2); omega
          · have := e2 s c (hbelow s c hc hle)
            omega
        | some v0 =>
          obtain ⟨w, a1, a2, a3, _⟩ := wrote_some_iff.1 h2
          have hnd : ¬ ((view st k).Doomed sp c3 ∧ InRegion start stop k) := by
            rintro ⟨⟨w', d1, d2, d3⟩, _⟩
            rw [a1] at d1; cases d1
            obtain ⟨t', w', d4, d5, d6⟩ := d3 a3
            have dc : CommittedOn st k w'.startTs t' := committedOn_iff.2 ⟨w', d4, rfl, d5⟩
            have := h3 _ _ dc (hall _ _ dc)
            omega
          have := hj.kept k c3 w a1 hnd
          have := hmax s3 c3 (committedOn_iff.2 ⟨w, this, a2, Or.inl a3⟩) (by omega)
          omega
    by_cases hcase : ∃ s c, Wrote st' k s c none ∧ c ≤ sp ∧ ∀ s' c', CommittedOn st' k s' c' → c' ≤ T → c' ≤ c
    · obtain ⟨s, c, h1, h2, h3⟩ := hcase
      have hcm := Snapshot.committed h1
      have hnone : Snapshot st' k T none := Or.inr ⟨s, c, by omega, h1, h3⟩
      rw [hv.unique hnone]
      obtain ⟨w, a1, a2, a3⟩ := wrote_none_iff.1 h1
      have hw0 : Wrote st k s c none := wrote_none_iff.2 ⟨w, hj.below k c w h2 a1 (Or.inr a3), a2, a3⟩
      by_cases hmem : ⟨k, c⟩ ∈ b.map (·.wkey)
      · refine Or.inl ⟨rfl, fun s' c' hc' => ?_⟩
        by_cases hlt : T < c'
        · exact hlt
        · exfalso
          obtain ⟨w', b1, b2, b3⟩ := committedOn_iff.1 hc'
          obtain ⟨b4, b5⟩ := hrem.sub b1
          have hc1 : CommittedOn st' k s' c' := committedOn_iff.2 ⟨w', b4, b2, b3⟩
          have hle := h3 s' c' hc1 (by omega)
          rcases htomb s c hw0 with ⟨s2, c2, e1, e2⟩ | e1
          · exact hnewest s c s2 c2 hcm h2 h3 e1 e2
          · have := e1 s' c' (hbelow s' c' hc1 (by omega))
            subst this
            exact b5 hmem
      · refine hrem.snapshot (hj.good.dinv k) ?_ hnone
        intro s' c' hc' hcT hmax
        have e1 := hmax s c hcm (by omega)
        have e2 := h3 s' c' hc' hcT
        have e3 : c' = c := by omega
        rw [e3]; exact hmem
    · refine hrem.snapshot (hj.good.dinv k) ?_ hv
      intro s c hc hcT hmax hmem
      obtain ⟨w, b1, b2, b3⟩ := hB c hmem
      obtain ⟨w', a1, a2, a3⟩ := committedOn_iff.1 hc
      have := hj.below k c w' b2 a1 a3
      rw [b1] at this; cases this
      rcases a3 with hop | hop
      · obtain ⟨t', w', d1, d2, d3⟩ := b3 hop
        exact hnewest s c w'.startTs t' hc b2 hmax (committedOn_iff.2 ⟨w', d1, rfl, d2⟩) d3
      · exact hcase ⟨s, c, wrote_none_iff.2 ⟨w, a1, a2, hop⟩, b2, hmax⟩

/-- C24 is false: a job that has written the batch with a key's tombstone, but not the
one with the version under it, brings the deleted value back, at every timestamp from
the tombstone on. -/
theorem C24_false {D : Bytes → TsOwner} {st : State} (h : GcReachable D st) {sp : Int} {n : Nat} {start stop : Bytes}
    {stops : List Bool} {done rest : List GcBatch} (hp : gcPlan st sp n start stop stops = done ++ rest)
    {k : Bytes} {s0 t0 s1 t1 T : Int} {v : Bytes} (hdel : Wrote st k s0 t0 none) (hput : Wrote st k s1 t1 (some v))
    (hlt : t1 < t0 ∧ t0 ≤ T) (hnext : ∀ s c, CommittedOn st k s c → c ≤ t1 ∨ c = t0 ∨ T < c)
    (hin : ∃ b ∈ done, ∃ i ∈ b, i.wkey = ⟨k, t0⟩) (hout : ∀ b ∈ done, ∀ i ∈ b, i.wkey ≠ ⟨k, t1⟩) :
    Snapshot st k T none ∧ Snapshot (applyAll done st) k T (some v) := by
  have hg := h.good
  have hrem := plan_removes hg hp k
  obtain ⟨w, a1, a2, a3, a4⟩ := wrote_some_iff.1 hput
  have hb : ¬ ((fun t => (⟨k, t⟩ : VKey) ∈ done.flatten.map (·.wkey)) t1) := by
    intro hm
    obtain ⟨i, hi, he⟩ := List.mem_map.1 hm
    obtain ⟨b, hb, hib⟩ := List.mem_flatten.1 hi
    exact hout b hb i hib he
  constructor
  · refine Or.inr ⟨s0, t0, hlt.2, hdel, fun s c hc hcT => ?_⟩
    rcases hnext s c hc with h1 | h1 | h1 <;> omega
  · refine Or.inr ⟨s1, t1, by omega, wrote_some_iff.2 ⟨w, by rw [hrem.keep t1 hb]; exact a1, a2, a3, ?_⟩, ?_⟩
    · rcases a4 with a4 | ⟨a4, a5⟩
      · exact Or.inl a4
      · refine Or.inr ⟨a4, ?_⟩
        rcases hrem.data s1 with h1 | ⟨_, t', w', h1, h2, h3, h4⟩
        · rw [h1]; exact a5
        · have := (hg.dinv k).unique t' t1 w' w h2 a1 (by rw [h4, a2])
          exact absurd (this ▸ h1) hb
    · intro s c hc hcT
      obtain ⟨w', b1, b2, b3⟩ := committedOn_iff.1 hc
      obtain ⟨b4, b5⟩ := hrem.sub b1
      rcases hnext s c (committedOn_iff.2 ⟨w', b4, b2, b3⟩) with h1 | h1 | h1
      · exact h1
      · exfalso
        subst h1
        obtain ⟨b, hb, i, hi, he⟩ := hin
        exact b5 (List.mem_map.2 ⟨i, List.mem_flatten.2 ⟨b, hb, hi⟩, he⟩)
      · omega

/-- C24_false, concretely (batches of one record; told to stop after the first): `kA`,
put at 15 and deleted at 31, is back. -/
example : gcPlan sampleState 31 1 [] [9] [false, true, true] = [[⟨⟨kA, 31⟩, none⟩]] ∧
    gcPlan sampleState 31 1 [] [9] [] =
      [[⟨⟨kA, 31⟩, none⟩]] ++ [[⟨⟨kA, 20⟩, none⟩], [⟨⟨kA, 15⟩, none⟩], []] ∧
    (step sampleState (.get .si 35 [] [kA])).2 = .get (.ok { kvs := [(kA, [])] }) ∧
    (step (applyAll [[⟨⟨kA, 31⟩, none⟩]] sampleState) (.get .si 35 [] [kA])).2 = .get (.ok { kvs := [(kA, vA)] }) := by
  decide +kernel

/-- C24_partial, hypotheses met: `kB` during that job, after its first batch. -/
example : GcRun sampleRoles.spec 31 (gcPlan sampleState 31 1 [] [9] []) sampleState
      [[⟨⟨kA, 20⟩, none⟩], [⟨⟨kA, 15⟩, none⟩], []] (applyAll [[⟨⟨kA, 31⟩, none⟩]] sampleState) ∧
    (∀ e ∈ sampleState.write.l, e.1.key = kB → e.1.ts ≤ 31 ∧ e.2.op = .put) :=
  ⟨gcRun_all .start _ _ (by decide +kernel), by decide +kernel⟩

/-! ## C53 -/

/-- C53 (partial): a GC job among other requests removes no lock by itself, and loses no
outcome above its safe point: a transaction recorded as committed on a key above `sp`, or
rolled back with a start timestamp above `sp`, when the job starts is still so recorded.
Missing: transactions at or below `sp` that still hold locks (`C53_false`). -/
theorem C53_partial {D : Bytes → TsOwner} {st : State} (h : GcReachable D st) {sp : Int} {n : Nat} {start stop : Bytes}
    {stops : List Bool} {left : List GcBatch} {st' : State}
    (hrun : GcRun D sp (gcPlan st sp n start stop stops) st left st') {k : Bytes} {s : Int} :
    (∀ c, sp < c → CommittedOn st k s c → CommittedOn st' k s c) ∧
    (sp < s → RolledBackOn st k s → RolledBackOn st' k s) ∧
    ∀ b l, LockOn (GcBatch.apply b st') k l ↔ LockOn st' k l := by
  have hj := hrun.job h.good
  refine ⟨fun c hc hcm => ?_, fun hs hr => ?_, fun b l => Iff.rfl⟩
  · obtain ⟨w, h1, h2, h3⟩ := committedOn_iff.1 hcm
    refine committedOn_iff.2 ⟨w, hj.kept k c w h1 ?_, h2, h3⟩
    rintro ⟨⟨w', _, h4, _⟩, _⟩
    omega
  · obtain ⟨w, h1, h2, h3⟩ := rolledBackOn_iff.1 hr
    refine rolledBackOn_iff.2 ⟨w, hj.kept k s w h1 ?_, h2, h3⟩
    rintro ⟨⟨w', _, h4, _⟩, _⟩
    omega

/-- Transaction 10 writes `kA` (primary) and `kB`; only its primary is committed, at 15.
Transaction 20 overwrites `kA` at 25. -/
def gcLockHist : List Req :=
  [.prewrite { mutations := [{ op := .put, key := kA, value := vA }, { op := .put, key := kB, value := vLong }],
               primary := kA, startTs := 10, ttl := 100 },
   .commit 10 15 [kA],
   .prewrite { mutations := [{ op := .put, key := kA, value := [8] }], primary := kA, startTs := 20, ttl := 100 },
   .commit 20 25 [kA]]

def gcLockState : State := run State.init gcLockHist

/-- C53 is false: transaction 10 is committed and has a lock left on `kB`.  GC with safe
point 30 (above its commit) deletes its commit record on the primary.  `CheckTxnStatus`,
which reported the commit before, now reports a rollback, and the reader that asked
removes the lock on `kB`: the write of `kB` by a committed transaction is lost. -/
theorem C53_false : ∃ (st : State) (q : CheckReq), Reachable sampleRoles.spec st ∧ (Req.checkTxnStatus q).Valid ∧
    CommittedOn st kA 10 15 ∧ (∃ l, LockOn st kB l ∧ l.lockTs = 10 ∧ l.primary = kA) ∧
    (step st (.checkTxnStatus q)).2 = .check (.ok { commitTs := 15, action := .lockNotExistDoNothing }) ∧
    ∃ st', st' = applyAll (gcPlan st 30 32768 [] [9] []) st ∧
      (step st' (.checkTxnStatus q)).2 = .check (.ok { action := .lockNotExistRollback }) ∧
      (step (step st' (.checkTxnStatus q)).1 (.resolveLock 10 0 [kB])).2 = .basic (.ok none) ∧
      (step (step (step st' (.checkTxnStatus q)).1 (.resolveLock 10 0 [kB])).1 (.get .si 50 [] [kB])).2 =
        .get (.ok { kvs := [(kB, [])] }) :=
  ⟨gcLockState, ⟨kA, 10, 40, 0, false, true⟩, reachable_of (by decide +kernel), by decide,
    ⟨⟨10, .put, vA⟩, by decide +kernel, rfl, Or.inl rfl⟩,
    ⟨(gcLockState.lock.get kB).get (by decide +kernel), by decide +kernel, by decide +kernel, by decide +kernel⟩,
    by decide +kernel, _, rfl, by decide +kernel, by decide +kernel, by decide +kernel⟩

/-- C53_partial, hypotheses met: the same store with safe point 12, below the commit of
transaction 10; the record is kept and the status is still the commit. -/
example : GcReachable sampleRoles.spec gcLockState ∧ CommittedOn gcLockState kA 10 15 ∧
    (step (applyAll (gcPlan gcLockState 12 32768 [] [9] []) gcLockState)
      (.checkTxnStatus ⟨kA, 10, 40, 0, false, true⟩)).2 =
        .check (.ok { commitTs := 15, action := .lockNotExistDoNothing }) :=
  ⟨(reachable_of (R := sampleRoles) (rs := gcLockHist) (by decide +kernel)).gc,
    ⟨⟨10, .put, vA⟩, by decide +kernel, rfl, Or.inl rfl⟩, by decide +kernel⟩

end Verif.Txn
