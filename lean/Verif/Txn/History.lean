import Verif.Txn.Prewrite

/-!
# Transaction engine: invariants of disciplined histories
-/

namespace Verif.Txn
open Verif.Codec

/-! ## Specification vocabulary and key views -/

theorem lockOn_iff {st : State} {k : Bytes} {l : LockInfo} : LockOn st k l ↔ (view st k).lock = some l :=
  CF.mem_iff_get st.lock k l

theorem committedOn_iff {st : State} {k : Bytes} {s c : Int} :
    CommittedOn st k s c ↔ ∃ w, (view st k).write c = some w ∧ w.startTs = s ∧ w.committed := by
  simp only [CommittedOn, view, CF.mem_iff_get, WriteInfo.committed]

theorem rolledBackOn_iff {st : State} {k : Bytes} {s : Int} :
    RolledBackOn st k s ↔ ∃ w, (view st k).write s = some w ∧ w.startTs = s ∧ w.op = .rollback := by
  simp only [RolledBackOn, view, CF.mem_iff_get]

theorem wrote_some_iff {st : State} {k : Bytes} {s c : Int} {v : Bytes} :
    Wrote st k s c (some v) ↔ ∃ w, (view st k).write c = some w ∧ w.startTs = s ∧ w.op = .put ∧
      (w.shortValue ≠ [] ∧ v = w.shortValue ∨ w.shortValue = [] ∧ (view st k).data s = some v) := by
  simp only [Wrote, view, CF.mem_iff_get]

theorem wrote_none_iff {st : State} {k : Bytes} {s c : Int} :
    Wrote st k s c none ↔ ∃ w, (view st k).write c = some w ∧ w.startTs = s ∧ w.op = .delete := by
  simp only [Wrote, view, CF.mem_iff_get]

theorem noCommit_iff {st : State} {k : Bytes} {s : Int} :
    (view st k).noCommit s ↔ ∀ c, ¬ CommittedOn st k s c := by
  constructor
  · intro h c hc
    obtain ⟨w, h1, h2, h3⟩ := committedOn_iff.1 hc
    exact h c w h1 h3 h2
  · intro h t w hw hc hs
    exact h t (committedOn_iff.2 ⟨w, hw, hs, hc⟩)

theorem noLock_iff {st : State} {k : Bytes} : (view st k).lock = none ↔ ¬ ∃ l, LockOn st k l := by
  constructor
  · rintro h ⟨l, hl⟩
    rw [lockOn_iff, h] at hl; cases hl
  · intro h
    cases hl : (view st k).lock with
    | none => rfl
    | some l => exact absurd ⟨l, lockOn_iff.2 hl⟩ h

/-! ## One disciplined step -/

/-- A path all of whose transitions keep the discipline. -/
inductive DPath (D : TsOwner) (k : Bytes) (mx : Int) : KS → List Ev → KS → Prop
  | nil (x) : DPath D k mx x [] x
  | cons {x y z : KS} {e : Ev} {es : List Ev} (h : KStep k mx x e y) (hd : e.Disc D x)
      (t : DPath D k mx y es z) : DPath D k mx x (e :: es) z

theorem disc_of_caused {D : Bytes → TsOwner} {st : State} (hI : Inv st) {r : Req} (hd : r.Disc D st) {k : Bytes} {e : Ev}
    {y : KS} (hc : Caused st r k e) (hk : KStep k st.maxTs (view st k) e y) : e.Disc (D k) (view st k) := by
  cases e with
  | nop => trivial
  | update => trivial
  | unlock s => trivial
  | rollback s => trivial
  | prewrite s pess =>
    obtain ⟨q, rfl, rfl, m, hm, rfl, rfl⟩ := hc
    obtain ⟨h1, h2, _⟩ := hd m hm
    exact ⟨h1, fun hp hn => noCommit_iff.2 (h2 hp (noLock_iff.1 hn))⟩
  | pessLock s fu =>
    obtain ⟨q, rfl, rfl, _, m, hm, rfl⟩ := hc
    obtain ⟨h1, h2, h3⟩ := hd m hm
    exact ⟨h1, fun hn => noCommit_iff.2 (h2 (noLock_iff.1 hn)), fun l hl => h3 l (lockOn_iff.2 hl)⟩
  | mark s =>
    rcases hc with ⟨keys, rfl, hm⟩ | ⟨q, rfl, rfl, rfl⟩ | ⟨keys, rfl, hm⟩
    · exact hd k hm
    · exact hd
    · exact hd k hm
  | onePc s c pess =>
    obtain ⟨q, rfl, rfl, ⟨resp, hresp, rfl⟩, m, hm, rfl, rfl⟩ := hc
    obtain ⟨h1, h2, h3⟩ := hd m hm
    have hpos : 0 < resp.onePcTs := by
      cases hk with
      | onePc s c pess op short d a b c' d' e f g h i => omega
    exact ⟨h1, h3 resp hresp hpos, fun hp hn => noCommit_iff.2 (h2 hp (noLock_iff.1 hn))⟩
  | commit s c rs =>
    have key : ∃ l, (view st k).lock = some l ∧ l.lockTs = s ∧ s < c := by
      generalize hx : view st k = x at hk
      cases hk with
      | commit s c rs l a b c' d e => exact ⟨l, a, b, e.1⟩
    obtain ⟨l, h1, h2, h3⟩ := key
    have h1 := lockOn_iff.2 h1
    cases rs with
    | false =>
      obtain ⟨keys, rfl, hm⟩ := hc
      exact hd k hm l h1 h2
    | true =>
      rcases hc with ⟨keys, rfl, hm⟩ | ⟨infos, rfl, hm⟩
      · have := ((hI k).lock l (lockOn_iff.1 h1)).ts
        exact hd (by omega) k hm l h1 h2
      · have := ((hI k).lock l (lockOn_iff.1 h1)).ts
        exact hd (s, c) hm (by simp only; omega) k l h1 h2

/-- A path of `batchResolve` keeps the discipline: it only removes locks. -/
theorem dpath_resolve {D : Bytes → TsOwner} {st : State} (hI : Inv st) {r : Req} (hd : r.Disc D st) {k : Bytes}
    {es : List Ev} {x y : KS} (h : KPath k st.maxTs x es y) (hc : ∀ e ∈ es, Caused st r k e)
    (hes : ∀ e ∈ es, e = .nop ∨ (∃ s c, e = .commit s c true) ∨ ∃ s, e = .rollback s)
    (hx : ∀ l, x.lock = some l → (view st k).lock = some l) : DPath (D k) k st.maxTs x es y := by
  induction h with
  | nil x => exact DPath.nil x
  | @cons x y z e es h t ih =>
    have hdisc : e.Disc (D k) x := by
      rcases hes e List.mem_cons_self with rfl | ⟨s, c, rfl⟩ | ⟨s, rfl⟩
      · trivial
      · have key : ∃ l, x.lock = some l ∧ l.lockTs = s ∧ s < c := by
          cases h with
          | commit s c rs l a b c' d e => exact ⟨l, a, b, e.1⟩
        obtain ⟨l, h1, h2, h3⟩ := key
        have h0 := hx l h1
        have hts := ((hI k).lock l h0).ts
        rcases hc _ List.mem_cons_self with ⟨keys, rfl, hm⟩ | ⟨infos, rfl, hm⟩
        · exact hd (by omega) k hm l (lockOn_iff.2 h0) h2
        · exact hd (s, c) hm (by simp only; omega) k l (lockOn_iff.2 h0) h2
      · trivial
    refine DPath.cons h hdisc (ih (fun e he => hc e (List.mem_cons_of_mem _ he))
      (fun e he => hes e (List.mem_cons_of_mem _ he)) ?_)
    rcases hes e List.mem_cons_self with rfl | ⟨s, c, rfl⟩ | ⟨s, rfl⟩
    · cases h; exact hx
    · cases h; simp
    · cases h; simp

/-- Every disciplined request makes disciplined transitions on every key. -/
theorem step_dpath {D : Bytes → TsOwner} {st : State} (hI : Inv st) {r : Req} (hv : r.Valid) (hd : r.Disc D st)
    (k : Bytes) : ∃ es, DPath (D k) k st.maxTs (view st k) es (view (step st r).1 k) ∧
      ∀ e ∈ es, Caused st r k e := by
  obtain ⟨es, h1, h2, h3⟩ := step_path hI hv k
  refine ⟨es, ?_, h2⟩
  rcases h3 with ⟨e, rfl⟩ | h3
  · generalize hy : view (step st r).1 k = y at h1
    cases h1 with
    | cons h t =>
      cases t with
      | nil => exact DPath.cons h (disc_of_caused hI hd (h2 _ List.mem_cons_self) h) (DPath.nil _)
  · exact dpath_resolve hI hd h1 h2 h3 (fun l hl => hl)

theorem DPath.dinv {D : TsOwner} {k : Bytes} {mx : Int} {x y : KS} {es : List Ev} (h : DPath D k mx x es y)
    (hk : KInv k x) (hx : DInv D x) : KInv k y ∧ DInv D y := by
  induction h with
  | nil => exact ⟨hk, hx⟩
  | cons h hd t ih => exact ih (h.inv hk) (h.dinv hk hx hd)

/-- A property of one key kept by every disciplined transition is kept by requests. -/
theorem DPath.preserve {D : TsOwner} {k : Bytes} {mx : Int} {x y : KS} {es : List Ev} (h : DPath D k mx x es y)
    (hk : KInv k x) (hx : DInv D x) {P : KS → Prop} {C : Ev → Prop} (hC : ∀ e ∈ es, C e)
    (hP : ∀ x e y, KInv k x → DInv D x → e.Disc D x → C e → KStep k mx x e y → P x → P y) (hp : P x) : P y := by
  induction h with
  | nil => exact hp
  | cons h hd t ih =>
    exact ih (h.inv hk) (h.dinv hk hx hd) (fun e he => hC e (List.mem_cons_of_mem _ he))
      (hP _ _ _ hk hx hd (hC _ List.mem_cons_self) h hp)

/-- The invariants of disciplined histories. -/
structure Good (D : Bytes → TsOwner) (st : State) : Prop where
  inv : Inv st
  dinv : ∀ k, DInv (D k) (view st k)

theorem Good.init (D : Bytes → TsOwner) : Good D State.init := by
  refine ⟨Inv.init, fun k => ?_⟩
  constructor <;> simp [view, State.init, CF.get_empty]

theorem Good.step {D : Bytes → TsOwner} {st : State} (h : Good D st) {r : Req} (hv : r.Valid)
    (hd : r.Disc D st) : Good D (step st r).1 := by
  refine ⟨step_inv h.inv hv, fun k => ?_⟩
  obtain ⟨es, h1, _⟩ := step_dpath h.inv hv hd k
  exact (h1.dinv (h.inv k) (h.dinv k)).2

theorem Good.run {D : Bytes → TsOwner} {st : State} (h : Good D st) {rs : List Req}
    (hd : Disciplined D st rs) : Good D (run st rs) := by
  induction rs generalizing st with
  | nil => exact h
  | cons r rs ih => exact ih (h.step hd.1 hd.2.1) hd.2.2

theorem Reachable.good {D : Bytes → TsOwner} {st : State} (h : Reachable D st) : Good D st := by
  obtain ⟨rs, h1, rfl⟩ := h
  exact (Good.init D).run h1

/-- Induction over a disciplined history, for a property of one key. -/
theorem run_preserve {D : Bytes → TsOwner} {st : State} (h : Good D st) {rs : List Req}
    (hd : Disciplined D st rs) (k : Bytes) {P : KS → Prop} {C : Int → Ev → Prop}
    (hC : ∀ st r, r ∈ rs → Good D st → ∀ e, Caused st r k e → C st.maxTs e)
    (hP : ∀ mx x e y, KInv k x → DInv (D k) x → e.Disc (D k) x → C mx e → KStep k mx x e y → P x → P y)
    (hp : P (view st k)) : P (view (run st rs) k) := by
  induction rs generalizing st with
  | nil => exact hp
  | cons r rs ih =>
    obtain ⟨es, h1, h2⟩ := step_dpath h.inv hd.1 hd.2.1 k
    refine ih (h.step hd.1 hd.2.1) hd.2.2 (fun st r hr => hC st r (List.mem_cons_of_mem _ hr)) ?_
    exact h1.preserve (h.inv k) (h.dinv k) (C := C st.maxTs)
      (fun e he => hC st r List.mem_cons_self h e (h2 e he)) (hP _) hp

theorem run_append (st : State) (rs rs' : List Req) : run st (rs ++ rs') = run (run st rs) rs' := by
  induction rs generalizing st with
  | nil => rfl
  | cons r rs ih => exact ih _

theorem Disciplined.append {D : Bytes → TsOwner} {st : State} {rs rs' : List Req} :
    Disciplined D st (rs ++ rs') ↔ Disciplined D st rs ∧ Disciplined D (run st rs) rs' := by
  induction rs generalizing st with
  | nil => simp [Disciplined, run]
  | cons r rs ih => simp only [List.cons_append, Disciplined, run, ih, and_assoc]

/-! ## Records are never changed -/

theorem KStep.keep {D : TsOwner} {k : Bytes} {mx : Int} {x y : KS} {e : Ev} (h : KStep k mx x e y)
    (hk : KInv k x) (hx : DInv D x) (hd : e.Disc D x) {t : Int} {w : WriteInfo} (hw : x.write t = some w) :
    y.write t = some w := by
  have hcommit : ∀ s c, D.commitOf s c → x.noRecord s → t ≠ c := by
    rintro s c ⟨h1, h2⟩ hno rfl
    by_cases hr : w.op = .rollback
    · exact h1 (hx.roll t w hw hr)
    · exact hno t w hw (by rw [← (hx.commit t w hw hr).2, h2])
  cases h with
  | nop => exact hw
  | prewrite => exact hw
  | pessLock => exact hw
  | commit s c rs l hlock hts htype hmin hc =>
    have hno := (hx.lock l hlock).2.2 htype
    rw [hts] at hno
    simp only [upd, hcommit s c hd hno, if_false]
    exact hw
  | rollback s l hlock hts =>
    have hno := (hx.lock l hlock).2.1
    have hst := (hx.lock l hlock).1
    rw [hts] at hno hst
    simp only [upd]
    split
    · rename_i ht
      subst ht
      obtain ⟨_, _, h3⟩ := hk.write t w hw
      rcases h3 with ⟨h3, h4⟩ | ⟨h3, h4, h5⟩
      · have h5 := hk.rbShort t w hw h3
        obtain ⟨a, b, c⟩ := w
        simp only at h3 h4 h5
        subst h3 h4 h5
        rfl
      · have hne : w.op ≠ .rollback := by rcases h3 with h | h <;> rw [h] <;> decide
        exact absurd hst (hx.commit t w hw hne).1
    · exact hw
  | mark s hs0 hlock hno =>
    have hst : D.start s := hd
    simp only [upd]
    split
    · rename_i ht
      subst ht
      obtain ⟨_, _, h3⟩ := hk.write t w hw
      rcases h3 with ⟨h3, h4⟩ | ⟨h3, h4, h5⟩
      · exact absurd h4 (hno t w hw)
      · have hne : w.op ≠ .rollback := by rcases h3 with h | h <;> rw [h] <;> decide
        exact absurd hst (hx.commit t w hw hne).1
    · exact hw
  | onePc s c pess op short d hfree hrb hconf hop hval hdn hmc hs0 hc =>
    have hno := noRecord_prewrite hk hx hfree hrb hconf hd.2.2
    simp only [upd, hcommit s c hd.2.1 hno, if_false]
    exact hw
  | update => exact hw
  | unlock => exact hw

/-- Records persist through disciplined histories. -/
theorem run_keep {D : Bytes → TsOwner} {st : State} (h : Good D st) {rs : List Req}
    (hd : Disciplined D st rs) {k : Bytes} {t : Int} {w : WriteInfo} (hw : (view st k).write t = some w) :
    (view (run st rs) k).write t = some w :=
  run_preserve h hd k (P := fun x => x.write t = some w) (C := fun _ _ => True)
    (fun _ _ _ _ _ _ => trivial) (fun _ _ _ _ hk hx hd _ hs hp => hs.keep hk hx hd hp) hw

/-- The data of a committed transaction is never changed. -/
theorem KStep.keepData {D : TsOwner} {k : Bytes} {mx : Int} {x y : KS} {e : Ev} (h : KStep k mx x e y)
    (hk : KInv k x) (hx : DInv D x) (hd : e.Disc D x) {t : Int} {w : WriteInfo} (hw : x.write t = some w)
    (hc : w.committed) : y.data w.startTs = x.data w.startTs := by
  cases h with
  | nop => rfl
  | prewrite s pess l d hfree hrb hconf =>
    have hno := noRecord_prewrite hk hx hfree hrb hconf hd.2
    simp only [upd, hno t w hw, if_false]
  | pessLock => rfl
  | commit => rfl
  | rollback s l hlock hts =>
    have hno := (hx.lock l hlock).2.1
    rw [hts] at hno
    simp only
    split
    · simp only [upd, hno t w hw hc, if_false]
    · rfl
  | mark => rfl
  | onePc s c pess op short d hfree hrb hconf hop hval hdn hmc hs0 hc' =>
    have hno := noRecord_prewrite hk hx hfree hrb hconf hd.2.2
    simp only [upd, hno t w hw, if_false]
  | update => rfl
  | unlock => rfl

theorem run_keepData {D : Bytes → TsOwner} {st : State} (h : Good D st) {rs : List Req}
    (hd : Disciplined D st rs) {k : Bytes} {t : Int} {w : WriteInfo} (hw : (view st k).write t = some w)
    (hc : w.committed) : (view (run st rs) k).data w.startTs = (view st k).data w.startTs :=
  (run_preserve h hd k
    (P := fun x => x.write t = some w ∧ x.data w.startTs = (view st k).data w.startTs) (C := fun _ _ => True)
    (fun _ _ _ _ _ _ => trivial)
    (fun _ _ _ _ hk hx hd _ hs hp => ⟨hs.keep hk hx hd hp.1, by rw [hs.keepData hk hx hd hp.1 hc, hp.2]⟩)
    ⟨hw, rfl⟩).2

/-! ## Undisciplined histories -/

theorem KPath.preserve {k : Bytes} {mx : Int} {x y : KS} {es : List Ev} (h : KPath k mx x es y)
    (hk : KInv k x) {P : KS → Prop} {C : Ev → Prop} (hC : ∀ e ∈ es, C e)
    (hP : ∀ x e y, KInv k x → C e → KStep k mx x e y → P x → P y) (hp : P x) : P y := by
  induction h with
  | nil => exact hp
  | cons h t ih =>
    exact ih (h.inv hk) (fun e he => hC e (List.mem_cons_of_mem _ he))
      (hP _ _ _ hk (hC _ List.mem_cons_self) h hp)

/-- Induction over any history of valid requests, for a property of one key. -/
theorem run_preserve_any {st : State} (h : Inv st) {rs : List Req} (hv : AllValid rs) (k : Bytes)
    {P : KS → Prop} {C : Ev → Prop} (hC : ∀ st r, r ∈ rs → ∀ e, Caused st r k e → C e)
    (hP : ∀ mx x e y, KInv k x → C e → KStep k mx x e y → P x → P y)
    (hp : P (view st k)) : P (view (run st rs) k) := by
  induction rs generalizing st with
  | nil => exact hp
  | cons r rs ih =>
    obtain ⟨es, h1, h2, _⟩ := step_path h (hv r List.mem_cons_self) k
    refine ih (step_inv h (hv r List.mem_cons_self)) (fun r hr => hv r (List.mem_cons_of_mem _ hr))
      (fun st r hr => hC st r (List.mem_cons_of_mem _ hr)) ?_
    exact h1.preserve (h k) (C := C) (fun e he => hC st r List.mem_cons_self e (h2 e he)) (hP _) hp

/-! ## The largest accessed timestamp -/

theorem checkSecondaryLoop_maxTs (st : State) (s : Int) (ks : List Bytes) (acc : List LockInfo) :
    (checkSecondaryLoop st s ks acc).1.maxTs = st.maxTs := by
  induction ks generalizing acc with
  | nil => rfl
  | cons k ks ih =>
    simp only [checkSecondaryLoop]
    split
    · split
      · rfl
      · exact ih _
    · split
      · rfl
      · rfl
      · rfl
      · split <;> rfl

theorem batchResolveRun_maxTs (infos : List (Int × Int)) (st : State) :
    (batchResolveRun st infos).1.maxTs = st.maxTs := by
  induction infos generalizing st with
  | nil => rfl
  | cons i infos ih =>
    obtain ⟨s, c⟩ := i
    have := maxTs_batchResolveOne st s c
    simp only [batchResolveRun]
    split
    · rename_i st' r he
      rw [he] at this; exact this
    · rename_i st' he
      rw [he] at this
      rw [ih, this]

/-- Reading or committing at `ts` is remembered for ever. -/
theorem step_maxTs (st : State) (r : Req) : st.maxTs ≤ (step st r).1.maxTs := by
  have hacc : ∀ t, st.maxTs ≤ (st.access t).maxTs := by intro t; simp only [State.access]; omega
  cases r with
  | get iso s res keys => exact hacc s
  | pessimisticLock q =>
    simp only [step, pessimisticLock]
    split
    · exact Int.le_refl _
    · exact Int.le_refl _
    · split <;> exact Int.le_refl _
  | pessimisticRollback s f keys =>
    simp only [step, pessimisticRollback]
    split <;> exact Int.le_refl _
  | prewrite q =>
    simp only [step, prewrite]
    split
    · exact Int.le_refl _
    · exact Int.le_refl _
    · exact Int.le_refl _
    all_goals
      split
      · exact Int.le_refl _
      · split
        · exact Int.le_refl _
        · split <;> exact Int.le_refl _
  | commit s c keys =>
    simp only [step, commit]
    split
    · exact hacc c
    · split <;> exact hacc c
  | batchRollback s keys =>
    simp only [step, batchRollback]
    split <;> exact Int.le_refl _
  | checkTxnStatus q =>
    have := hacc (max q.lockTs q.callerStartTs)
    simp only [step, checkTxnStatus]
    split
    · split
      · exact this
      · split
        · exact this
        · split
          · exact this
          · split
            · split <;> exact this
            · exact this
    · split
      · exact this
      · exact this
      · exact this
      · split
        · exact this
        · split <;> exact this
  | checkSecondary s keys =>
    simp only [step, checkSecondary, checkSecondaryLoop_maxTs]
    exact hacc s
  | resolveLock s c keys =>
    simp only [step, resolveLock]
    split
    · exact hacc c
    · split
      · exact hacc c
      · split <;> exact hacc c
  | batchResolve infos =>
    simp only [step, batchResolve]
    split
    · exact Int.le_refl _
    · exact Int.le_of_eq (batchResolveRun_maxTs infos st).symm
  | heartBeat p s t =>
    simp only [step, heartBeat]
    split
    · exact Int.le_refl _
    · split
      · exact Int.le_refl _
      · split <;> exact Int.le_refl _

end Verif.Txn
