import Verif.Txn.GcLemmas

/-!
# Garbage collection of transaction records: applying the batches
-/

namespace Verif.Txn
open Verif.Codec

/-! ## The plan -/

/-- The records of `st` in the region, as a set of keys, deleted by an item. -/
structure ItemOf (st : State) (sp : Int) (start stop : Bytes) (i : GcItem) : Prop where
  ex : ∃ w, (view st i.wkey.key).write i.wkey.ts = some w ∧ InRegion start stop i.wkey.key ∧
    (view st i.wkey.key).Doomed sp i.wkey.ts ∧ i = gcItem st.data (i.wkey, w)

theorem plan_spec (st : State) (sp : Int) (n : Nat) (start stop : Bytes) (stops : List Bool) :
    ∃ left, (gcPlan st sp n start stop stops).flatten ++ left =
      ((gcRecords st start stop).filter (doomed sp (gcRecords st start stop))).map (gcItem st.data) ∧
      ((∀ b ∈ stops, b = false) → left = []) :=
  gcLoop_spec _ [] {} [] stops (Summary.nil sp) (asc_gcRecords st start stop)

theorem plan_item {st : State} (hI : Inv st) {sp : Int} {n : Nat} {start stop : Bytes} {stops : List Bool}
    {i : GcItem} (hi : i ∈ (gcPlan st sp n start stop stops).flatten) : ItemOf st sp start stop i := by
  obtain ⟨left, h1, _⟩ := plan_spec st sp n start stop stops
  have : i ∈ (gcPlan st sp n start stop stops).flatten ++ left := List.mem_append_left _ hi
  rw [h1] at this
  obtain ⟨⟨⟨k, t⟩, w⟩, h2, rfl⟩ := List.mem_map.1 this
  obtain ⟨h3, h4⟩ := List.mem_filter.1 h2
  obtain ⟨h5, h6⟩ := (mem_gcRecords hI).1 h3
  exact ⟨w, h5, h6, (doomed_iff hI h5 h6).1 h4, rfl⟩

theorem plan_nodup (st : State) (sp : Int) (n : Nat) (start stop : Bytes) (stops : List Bool) :
    ((gcPlan st sp n start stop stops).flatten.map (·.wkey)).Nodup := by
  obtain ⟨left, h1, _⟩ := plan_spec st sp n start stop stops
  have h2 : (((gcPlan st sp n start stop stops).flatten ++ left).map (·.wkey)).Nodup := by
    rw [h1, List.map_map]
    have : ((·.wkey) ∘ gcItem st.data : VKey × WriteInfo → VKey) = Prod.fst := rfl
    rw [this]
    have ha : Asc ((gcRecords st start stop).filter (doomed sp (gcRecords st start stop))) :=
      List.Pairwise.sublist List.filter_sublist (asc_gcRecords st start stop)
    refine List.Pairwise.map (R := fun (a b : VKey × WriteInfo) => a.1 < b.1) Prod.fst (fun a b hab he => ?_) ha
    rw [he] at hab
    exact KeyOrder.irrefl _ hab
  rw [List.map_append] at h2
  exact (List.nodup_append.1 h2).1

theorem plan_all {st : State} (hI : Inv st) {sp : Int} {n : Nat} {start stop : Bytes} {stops : List Bool}
    (hs : ∀ b ∈ stops, b = false) {k : Bytes} {t : Int} (hr : InRegion start stop k)
    (hd : (view st k).Doomed sp t) :
    ∃ i ∈ (gcPlan st sp n start stop stops).flatten, i.wkey = ⟨k, t⟩ := by
  obtain ⟨left, h1, h2⟩ := plan_spec st sp n start stop stops
  rw [h2 hs, List.append_nil] at h1
  obtain ⟨w, hw, _⟩ := id hd
  refine ⟨gcItem st.data (⟨k, t⟩, w), ?_, rfl⟩
  rw [h1]
  exact List.mem_map.2 ⟨_, List.mem_filter.2 ⟨(mem_gcRecords hI).2 ⟨hw, hr⟩, (doomed_iff hI hw hr).2 hd⟩, rfl⟩

/-! ## Removing records from a key -/

/-- `y` is `x` without the records in `B` and without some of their values. -/
structure Removes (x y : KS) (B : Int → Prop) : Prop where
  lock : y.lock = x.lock
  gone : ∀ t, B t → y.write t = none ∧ ∃ w, x.write t = some w
  keep : ∀ t, ¬ B t → y.write t = x.write t
  data : ∀ s, y.data s = x.data s ∨
    (y.data s = none ∧ ∃ t w, B t ∧ x.write t = some w ∧ w.op = .put ∧ w.startTs = s)

theorem Removes.sub {x y : KS} {B : Int → Prop} (h : Removes x y B) {t : Int} {w : WriteInfo}
    (hw : y.write t = some w) : x.write t = some w ∧ ¬ B t := by
  by_cases hb : B t
  · rw [(h.gone t hb).1] at hw; cases hw
  · exact ⟨by rw [← h.keep t hb]; exact hw, hb⟩

theorem Removes.kinv {x y : KS} {B : Int → Prop} (h : Removes x y B) {k : Bytes} (hk : KInv k x) : KInv k y := by
  refine ⟨fun l hl => hk.lock l (by rw [← h.lock]; exact hl), fun t w hw => hk.write t w (h.sub hw).1, ?_,
    fun t w hw => hk.rbShort t w (h.sub hw).1⟩
  intro t v hv
  rcases h.data t with h1 | h1
  · exact hk.data t v (by rw [← h1]; exact hv)
  · rw [h1.1] at hv; cases hv

theorem Removes.dinv {x y : KS} {B : Int → Prop} (h : Removes x y B) {D : TsOwner} (hx : DInv D x) :
    DInv D y := by
  constructor
  · intro l hl
    rw [h.lock] at hl
    obtain ⟨h1, h2, h3⟩ := hx.lock l hl
    exact ⟨h1, fun t w hw => h2 t w (h.sub hw).1, fun ht t w hw => h3 ht t w (h.sub hw).1⟩
  · intro l hl; rw [h.lock] at hl; exact hx.lockShort l hl
  · intro l hl h1 h2
    rw [h.lock] at hl
    rcases h.data l.lockTs with h3 | ⟨_, t, w, h3, h4, h5, h6⟩
    · rw [h3]; exact hx.lockData l hl h1 h2
    · exact absurd h6 ((hx.lock l hl).2.1 t w h4 (Or.inl h5))
  · exact fun t w hw => hx.commit t w (h.sub hw).1
  · exact fun t w hw => hx.roll t w (h.sub hw).1
  · exact fun t t' w w' hw hw' => hx.unique t t' w w' (h.sub hw).1 (h.sub hw').1
  · intro t w hw h1 h2
    rcases h.data w.startTs with h3 | ⟨_, t', w', h3, h4, h5, h6⟩
    · rw [h3]; exact hx.writeData t w (h.sub hw).1 h1 h2
    · have := hx.unique t' t w' w h4 (h.sub hw).1 h6
      exact absurd (this ▸ h3) (h.sub hw).2

/-- The newest version at or below `T` is kept. -/
theorem Removes.snapshot {st st' : State} {k : Bytes} {B : Int → Prop} (h : Removes (view st k) (view st' k) B)
    {D : TsOwner} (hx : DInv D (view st k)) {T : Int} {v : Option Bytes}
    (hkeep : ∀ s c, CommittedOn st k s c → c ≤ T → (∀ s' c', CommittedOn st k s' c' → c' ≤ T → c' ≤ c) → ¬ B c)
    (hs : Snapshot st k T v) : Snapshot st' k T v := by
  have hsub : ∀ s c, CommittedOn st' k s c → CommittedOn st k s c := by
    intro s c hc
    obtain ⟨w, h1, h2, h3⟩ := committedOn_iff.1 hc
    exact committedOn_iff.2 ⟨w, (h.sub h1).1, h2, h3⟩
  rcases hs with ⟨h1, h2⟩ | ⟨s, c, h1, h2, h3⟩
  · exact Or.inl ⟨h1, fun s c hc => h2 s c (hsub s c hc)⟩
  · refine Or.inr ⟨s, c, h1, ?_, fun s' c' hc => h3 s' c' (hsub s' c' hc)⟩
    cases v with
    | none =>
      obtain ⟨w, h4, h5, h6⟩ := wrote_none_iff.1 h2
      have hb := hkeep s c (committedOn_iff.2 ⟨w, h4, h5, Or.inr h6⟩) h1 h3
      exact wrote_none_iff.2 ⟨w, by rw [h.keep c hb]; exact h4, h5, h6⟩
    | some v =>
      obtain ⟨w, h4, h5, h6, h7⟩ := wrote_some_iff.1 h2
      have hb := hkeep s c (committedOn_iff.2 ⟨w, h4, h5, Or.inl h6⟩) h1 h3
      refine wrote_some_iff.2 ⟨w, by rw [h.keep c hb]; exact h4, h5, h6, ?_⟩
      rcases h7 with h7 | ⟨h7, h8⟩
      · exact Or.inl h7
      · refine Or.inr ⟨h7, ?_⟩
        rcases h.data s with h9 | ⟨_, t', w', h9, h10, h11, h12⟩
        · rw [h9]; exact h8
        · have := hx.unique t' c w' w h10 h4 (by rw [h12, h5])
          exact absurd (this ▸ h9) hb

theorem snapshot_exists {D : Bytes → TsOwner} {st : State} (h : Good D st) {k : Bytes} {T : Int} (hT : T ≤ maxVer) :
    ∃ v, Snapshot st k T v :=
  ⟨_, getWriteInfo_snapshot h.inv (fun t w => (h.dinv k).writeData t w) hT rfl⟩

/-! ## Applying a batch -/

theorem view_batch (b : GcBatch) (st : State) (k : Bytes) :
    (view (b.apply st) k).lock = (view st k).lock ∧
    (∀ t, (view (b.apply st) k).write t = if ⟨k, t⟩ ∈ b.map (·.wkey) then none else (view st k).write t) ∧
    (∀ t, (view (b.apply st) k).data t = if ⟨k, t⟩ ∈ b.filterMap (·.data) then none else (view st k).data t) := by
  refine ⟨rfl, fun t => ?_, fun t => ?_⟩ <;> simp only [view, GcBatch.apply, CF.get_delAll]

/-- The batch deletes records that are there. -/
def Present (st : State) (data : CF VKey Bytes) (b : GcBatch) : Prop :=
  ∀ i ∈ b, ∃ w, (view st i.wkey.key).write i.wkey.ts = some w ∧ i = gcItem data (i.wkey, w)

theorem Present.removes {st : State} {data : CF VKey Bytes} {b : GcBatch} (h : Present st data b) (k : Bytes) :
    Removes (view st k) (view (b.apply st) k) (fun t => ⟨k, t⟩ ∈ b.map (·.wkey)) := by
  obtain ⟨h1, h2, h3⟩ := view_batch b st k
  refine ⟨h1, fun t ht => ⟨by rw [h2, if_pos ht], ?_⟩, fun t ht => by rw [h2, if_neg ht], fun s => ?_⟩
  · obtain ⟨i, hi, he⟩ := List.mem_map.1 ht
    obtain ⟨w, hw, _⟩ := h i hi
    rw [he] at hw
    exact ⟨w, hw⟩
  · rw [h3]
    split
    · rename_i hm
      refine Or.inr ⟨rfl, ?_⟩
      obtain ⟨i, hi, he⟩ := List.mem_filterMap.1 hm
      obtain ⟨w, hw, hiw⟩ := h i hi
      rw [hiw] at he
      simp only [gcItem] at he
      split at he
      · rename_i hc
        simp only [Option.some.injEq, VKey.mk.injEq] at he
        have hk : i.wkey = ⟨k, i.wkey.ts⟩ := by rw [← he.1]
        refine ⟨i.wkey.ts, w, List.mem_map.2 ⟨i, hi, hk⟩, ?_, hc.1, he.2⟩
        rw [← he.1]; exact hw
      · cases he
    · exact Or.inl rfl

theorem Present.good {D : Bytes → TsOwner} {st : State} (hg : Good D st) {data : CF VKey Bytes} {b : GcBatch}
    (h : Present st data b) : Good D (b.apply st) :=
  ⟨fun k => (h.removes k).kinv (hg.inv k), fun k => (h.removes k).dinv (hg.dinv k)⟩

/-! ## A job among other requests -/

theorem GcReachable.run {D : Bytes → TsOwner} {st : State} (h : GcReachable D st) {rs : List Req}
    (hd : Disciplined D st rs) : GcReachable D (run st rs) := by
  induction rs generalizing st with
  | nil => exact h
  | cons r rs ih => exact ih (h.req hd.1 hd.2.1) hd.2.2

theorem Reachable.gc {D : Bytes → TsOwner} {st : State} (h : Reachable D st) : GcReachable D st := by
  obtain ⟨rs, hd, rfl⟩ := h
  exact GcReachable.init.run hd

theorem ValidReachable.inv {st : State} (h : ValidReachable st) : Inv st := by
  induction h with
  | init => exact Inv.init
  | req _ hv ih => exact step_inv ih hv
  | gc _ b ih =>
    rename_i st0 _
    intro k
    obtain ⟨_, h2, h3⟩ := view_batch b st0 k
    have hsub : ∀ t w, (view (b.apply st0) k).write t = some w → (view st0 k).write t = some w := by
      intro t w hw
      rw [h2] at hw
      split at hw
      · cases hw
      · exact hw
    refine ⟨fun l hl => (ih k).lock l hl, fun t w hw => (ih k).write t w (hsub t w hw),
      fun t v hv => ?_, fun t w hw => (ih k).rbShort t w (hsub t w hw)⟩
    rw [h3] at hv
    split at hv
    · cases hv
    · exact (ih k).data t v hv

theorem ValidReachable.run {rs : List Req} {st : State} (h : ValidReachable st) (hrs : AllValid rs) :
    ValidReachable (run st rs) := by
  induction rs generalizing st with
  | nil => exact h
  | cons r rs ih =>
    exact ih (h.req (hrs r List.mem_cons_self)) (fun r hr => hrs r (List.mem_cons_of_mem _ hr))

theorem GcReachable.valid {D : Bytes → TsOwner} {st : State} (h : GcReachable D st) : ValidReachable st := by
  induction h with
  | init => exact .init
  | req _ hv _ ih => exact ih.req hv
  | gc _ hr ih =>
    induction hr with
    | start => exact ih
    | req _ hv _ _ ih => exact ih.req hv
    | write _ ih => exact ih.gc _
    | lost _ ih => exact ih

/-- What holds during a job. -/
structure Job (D : Bytes → TsOwner) (sp : Int) (start stop : Bytes) (st : State) (left : List GcBatch) (st' : State) :
    Prop where
  good : Good D st'
  items : ∀ i ∈ left.flatten, ItemOf st sp start stop i
  nodup : (left.flatten.map (·.wkey)).Nodup
  below : ∀ k t w, t ≤ sp → (view st' k).write t = some w → w.committed → (view st k).write t = some w
  pending : ∀ i ∈ left.flatten, (view st' i.wkey.key).write i.wkey.ts = (view st i.wkey.key).write i.wkey.ts
  kept : ∀ k t w, (view st k).write t = some w → ¬ ((view st k).Doomed sp t ∧ InRegion start stop k) →
    (view st' k).write t = some w

theorem step_keep {D : Bytes → TsOwner} {st : State} (h : Good D st) {r : Req} (hv : r.Valid) (hd : r.Disc D st)
    {k : Bytes} {t : Int} {w : WriteInfo} (hw : (view st k).write t = some w) :
    (view (step st r).1 k).write t = some w :=
  run_keep h (rs := [r]) ⟨hv, hd, trivial⟩ hw

theorem Job.present {D : Bytes → TsOwner} {sp : Int} {start stop : Bytes} {st st' : State} {b : GcBatch}
    {left : List GcBatch} (h : Job D sp start stop st (b :: left) st') : Present st' st.data b := by
  intro i hi
  have hm : i ∈ (b :: left).flatten := by simp [hi]
  obtain ⟨w, h1, _, _, h2⟩ := (h.items i hm).ex
  exact ⟨w, by rw [h.pending i hm]; exact h1, h2⟩

theorem GcRun.job {D : Bytes → TsOwner} {sp : Int} {n : Nat} {start stop : Bytes} {stops : List Bool}
    {st st' : State} {left : List GcBatch} (hg : Good D st)
    (h : GcRun D sp (gcPlan st sp n start stop stops) st left st') : Job D sp start stop st left st' := by
  induction h with
  | start =>
    exact ⟨hg, fun i hi => plan_item hg.inv hi, plan_nodup .., fun _ _ _ _ hw _ => hw, fun _ _ => rfl,
      fun _ _ _ hw _ => hw⟩
  | req h hv hd hl ih =>
    refine ⟨ih.good.step hv hd, ih.items, ih.nodup, ?_, ?_, ?_⟩
    · intro k t w ht hw hc
      obtain ⟨w0, h1, h2, h3⟩ := committedOn_iff.1 (hl k w.startTs t ht (committedOn_iff.2 ⟨w, hw, rfl, hc⟩))
      have := step_keep ih.good hv hd h1
      rw [hw] at this
      cases this
      exact ih.below k t w ht h1 hc
    · intro i hi
      obtain ⟨w, h1, _⟩ := (ih.items i hi).ex
      rw [h1]
      exact step_keep ih.good hv hd (by rw [ih.pending i hi, h1])
    · exact fun k t w hw hn => step_keep ih.good hv hd (ih.kept k t w hw hn)
  | write h ih =>
    rename_i left st' b
    have hp := ih.present
    have hnd := ih.nodup
    rw [List.flatten_cons, List.map_append, List.nodup_append] at hnd
    refine ⟨hp.good ih.good, fun i hi => ih.items i (by simp only [List.flatten_cons]; exact List.mem_append_right _ hi), hnd.2.1, ?_, ?_, ?_⟩
    · exact fun k t w ht hw hc => ih.below k t w ht ((hp.removes k).sub hw).1 hc
    · intro i hi
      have hm : i ∈ (b :: left).flatten := by simp only [List.flatten_cons]; exact List.mem_append_right _ hi
      rw [(hp.removes i.wkey.key).keep, ih.pending i hm]
      intro hmem
      exact hnd.2.2 _ hmem _ (List.mem_map.2 ⟨i, hi, rfl⟩) rfl
    · intro k t w hw hn
      rw [(hp.removes k).keep]
      · exact ih.kept k t w hw hn
      · intro hmem
        obtain ⟨i, hi, he⟩ := List.mem_map.1 hmem
        obtain ⟨_, _, h2, h3, _⟩ := (ih.items i (by simp [hi])).ex
        rw [he] at h2 h3
        exact hn ⟨h3, h2⟩
  | lost h ih =>
    rename_i left st' b
    have hnd := ih.nodup
    rw [List.flatten_cons, List.map_append, List.nodup_append] at hnd
    exact ⟨ih.good, fun i hi => ih.items i (by simp only [List.flatten_cons]; exact List.mem_append_right _ hi),
      hnd.2.1, ih.below, fun i hi => ih.pending i (by simp only [List.flatten_cons]; exact List.mem_append_right _ hi), ih.kept⟩

theorem GcReachable.good {D : Bytes → TsOwner} {st : State} (h : GcReachable D st) : Good D st := by
  induction h with
  | init => exact Good.init D
  | req _ hv hd ih => exact ih.step hv hd
  | gc _ hr ih => exact (hr.job ih).good

end Verif.Txn
