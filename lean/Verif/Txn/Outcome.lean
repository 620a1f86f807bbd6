import Verif.Txn.Read

/-!
# Transaction engine: helper lemmas about outcomes, locks and conflicts
-/

namespace Verif.Txn
open Verif.Codec

theorem wrote_committed {st : State} {k : Bytes} {s c : Int} {v : Option Bytes} (h : Wrote st k s c v) :
    CommittedOn st k s c := by
  cases v with
  | none => obtain ⟨w, h1, h2, h3⟩ := h; exact ⟨w, h1, h2, Or.inr h3⟩
  | some v => obtain ⟨w, h1, h2, h3, _⟩ := h; exact ⟨w, h1, h2, Or.inl h3⟩

theorem run_wrote {D : Bytes → TsOwner} {st : State} (h : Good D st) {rs : List Req}
    (hd : Disciplined D st rs) {k : Bytes} {s c : Int} {v : Option Bytes} (hw : Wrote st k s c v) :
    Wrote (run st rs) k s c v := by
  cases v with
  | none =>
    obtain ⟨w, h1, h2, h3⟩ := wrote_none_iff.1 hw
    exact wrote_none_iff.2 ⟨w, run_keep h hd h1, h2, h3⟩
  | some v =>
    obtain ⟨w, h1, h2, h3, h4⟩ := wrote_some_iff.1 hw
    refine wrote_some_iff.2 ⟨w, run_keep h hd h1, h2, h3, ?_⟩
    rcases h4 with h4 | ⟨h4, h5⟩
    · exact Or.inl h4
    · refine Or.inr ⟨h4, ?_⟩
      subst h2
      rw [run_keepData h hd h1 (Or.inl h3)]; exact h5

/-! ## Snapshots below the commits of a history -/

/-- Transitions that add commit records only above `ts`. -/
def Ev.Above (ts : Int) : Int → Ev → Prop
  | _, .commit _ c _ => ts < c
  | mx, .onePc _ _ _ => ts ≤ mx
  | _, _ => True

theorem KStep.above {k : Bytes} {mx ts : Int} {x y : KS} {e : Ev} (h : KStep k mx x e y)
    (ha : e.Above ts mx) {t : Int} {w : WriteInfo} (ht : t ≤ ts) (hw : y.write t = some w) (hc : w.committed) :
    x.write t = some w := by
  cases h with
  | nop => exact hw
  | prewrite => exact hw
  | pessLock => exact hw
  | commit s c rs =>
    have : ts < c := ha
    simp only [upd] at hw
    rw [if_neg (by omega)] at hw; exact hw
  | rollback s l =>
    simp only [upd] at hw
    split at hw
    · cases hw; rcases hc with hc | hc <;> cases hc
    · exact hw
  | mark s =>
    simp only [upd] at hw
    split at hw
    · cases hw; rcases hc with hc | hc <;> cases hc
    · exact hw
  | onePc s c pess op short d hfree hrb hconf hop hval hdn hmc hs0 hc' =>
    have : ts ≤ mx := ha
    simp only [upd] at hw
    rw [if_neg (by omega)] at hw; exact hw
  | update => exact hw
  | unlock => exact hw

theorem above_of_caused {st : State} {ts : Int} (hmx : ts ≤ st.maxTs) {r : Req} {rs : List Req} (hr : r ∈ rs)
    (ha : CommitsAbove ts rs) {k : Bytes} {e : Ev} {x y : KS} (hc : Caused st r k e)
    (hk : KInv k x) (hs : KStep k st.maxTs x e y) : e.Above ts st.maxTs := by
  cases e with
  | commit s c rs' =>
    have hpos : 0 < c := by
      cases hs with
      | commit s c rs l hlock hts htype hmin hc' =>
        have := (hk.lock l hlock).ts; omega
    have := ha r hr
    cases rs' with
    | false => obtain ⟨keys, rfl, _⟩ := hc; exact this
    | true =>
      rcases hc with ⟨keys, rfl, _⟩ | ⟨infos, rfl, hm⟩
      · exact this hpos
      · exact this (s, c) hm hpos
  | onePc => exact hmx
  | _ => trivial

theorem run_above {D : Bytes → TsOwner} {st : State} (h : Good D st) {rs : List Req} (hd : Disciplined D st rs)
    {ts : Int} (hmx : ts ≤ st.maxTs) (ha : CommitsAbove ts rs) {k : Bytes} {t : Int} {w : WriteInfo} (ht : t ≤ ts)
    (hw : (view (run st rs) k).write t = some w) (hc : w.committed) : (view st k).write t = some w := by
  induction rs generalizing st with
  | nil => exact hw
  | cons r rs ih =>
    have h1 := ih (h.step hd.1 hd.2.1) hd.2.2 (Int.le_trans hmx (step_maxTs st r))
      (fun r hr => ha r (List.mem_cons_of_mem _ hr)) hw
    obtain ⟨es, h2, h3⟩ := step_dpath h.inv hd.1 hd.2.1 k
    have : ∀ {x y : KS} {es : List Ev}, DPath (D k) k st.maxTs x es y → KInv k x →
        (∀ e ∈ es, Caused st r k e) → y.write t = some w → x.write t = some w := by
      intro x y es hp
      induction hp with
      | nil => intro _ _ h; exact h
      | cons hs hd' t' ih' =>
        intro hk hca hy
        have hy' := ih' (hs.inv hk) (fun e he => hca e (List.mem_cons_of_mem _ he)) hy
        exact hs.above (above_of_caused hmx List.mem_cons_self ha (hca _ List.mem_cons_self) hk hs) ht hy' hc
    exact this h2 (h.inv k) h3 h1

theorem run_snapshot {D : Bytes → TsOwner} {st : State} (h : Good D st) {rs : List Req} (hd : Disciplined D st rs)
    {ts : Int} (hmx : ts ≤ st.maxTs) (ha : CommitsAbove ts rs) {k : Bytes} {v : Option Bytes}
    (hv : Snapshot st k ts v) : Snapshot (run st rs) k ts v := by
  have hback : ∀ s c, CommittedOn (run st rs) k s c → c ≤ ts → CommittedOn st k s c := by
    intro s c hc hle
    obtain ⟨w, h1, h2, h3⟩ := committedOn_iff.1 hc
    exact committedOn_iff.2 ⟨w, run_above h hd hmx ha hle h1 h3, h2, h3⟩
  rcases hv with ⟨h1, h2⟩ | ⟨s, c, h1, h2, h3⟩
  · left
    refine ⟨h1, fun s c hc => ?_⟩
    by_cases hle : c ≤ ts
    · have := h2 s c (hback s c hc hle); omega
    · omega
  · right
    exact ⟨s, c, h1, run_wrote h hd h2, fun s' c' hc' hle => h3 s' c' (hback s' c' hc' hle) hle⟩

theorem valueOf_inj {v v' : Bytes} (h : valueOf v = valueOf v') : v = v' := by
  simp only [valueOf] at h
  split at h <;> split at h
  · rename_i h1 h2; rw [h1, h2]
  · cases h
  · cases h
  · simpa using h

/-! ## Optimistic transactions -/

/-- Transitions of optimistic transactions. -/
def Ev.Opt : Ev → Prop
  | .pessLock _ _ => False
  | .prewrite _ pess => pess = false
  | .onePc _ _ pess => pess = false
  | _ => True

/-- Invariant of one key under optimistic transactions. -/
structure OInv (x : KS) : Prop where
  lock : ∀ l, x.lock = some l → x.commitsBelow l.lockTs
  order : ∀ t w t' w', x.write t = some w → w.committed → x.write t' = some w' → w'.committed → t < t' →
    t < w'.startTs

theorem KStep.oinv {k : Bytes} {mx : Int} {x y : KS} {e : Ev} (h : KStep k mx x e y) (hx : OInv x)
    (he : e.Opt) : OInv y := by
  have hcommit : ∀ s c w0, x.commitsBelow s → s < c → w0.startTs = s → ∀ t w t' w',
      upd x.write c (some w0) t = some w → w.committed →
      upd x.write c (some w0) t' = some w' → w'.committed → t < t' → t < w'.startTs := by
    intro s c w0 hb hsc hw0 t w t' w' h1 h2 h3 h4 hlt
    simp only [upd] at h1 h3
    split at h1
    · split at h3
      · omega
      · have := hb t' w' h3 h4; omega
    · split at h3
      · cases h3; rw [hw0]; exact hb t w h1 h2
      · exact hx.order t w t' w' h1 h2 h3 h4 hlt
  have hrb : ∀ s t w t' w',
      upd x.write s (some (rollbackRec s)) t = some w → w.committed →
      upd x.write s (some (rollbackRec s)) t' = some w' → w'.committed → t < t' → t < w'.startTs := by
    intro s t w t' w' h1 h2 h3 h4 hlt
    simp only [upd] at h1 h3
    split at h1
    · cases h1; rcases h2 with h | h <;> cases h
    · split at h3
      · cases h3; rcases h4 with h | h <;> cases h
      · exact hx.order t w t' w' h1 h2 h3 h4 hlt
  cases h with
  | nop => exact hx
  | prewrite s pess l d hfree hrb hconf hok hts =>
    refine ⟨?_, hx.order⟩
    intro l' hl
    simp only [Option.some.injEq] at hl; subst hl
    rw [hts]; exact hconf he
  | pessLock => exact absurd he id
  | commit s c rs l hlock hts htype hmin hc =>
    refine ⟨by simp, ?_⟩
    exact hcommit s c _ (hts ▸ hx.lock l hlock) hc.1 rfl
  | rollback s l => exact ⟨by simp, hrb s⟩
  | mark s hs hlock hno =>
    refine ⟨?_, hrb s⟩
    intro l hl t w hw hc
    simp only [upd] at hw
    split at hw
    · cases hw; rcases hc with h | h <;> cases h
    · exact hx.lock l hl t w hw hc
  | onePc s c pess op short d hfree hrb' hconf hop hval hdn hmc hs0 hc =>
    refine ⟨by simp, ?_⟩
    exact hcommit s c _ (hconf he) hc.1 rfl
  | update l ttl mc hlock =>
    refine ⟨?_, hx.order⟩
    intro l' hl
    simp only [Option.some.injEq] at hl; subst hl
    exact hx.lock l hlock
  | unlock => exact ⟨by simp, hx.order⟩

theorem opt_of_caused {rs : List Req} (ho : Optimistic rs) {r : Req} (hr : r ∈ rs) {st : State} {k : Bytes} {e : Ev}
    (hc : Caused st r k e) : e.Opt := by
  have := ho r hr
  cases e with
  | pessLock s fu => obtain ⟨q, rfl, _⟩ := hc; exact this
  | prewrite s pess => obtain ⟨q, rfl, _, m, hm, _, rfl⟩ := hc; exact this m hm
  | onePc s c pess => obtain ⟨q, rfl, _, _, m, hm, _, rfl⟩ := hc; exact this m hm
  | _ => trivial

/-! ## Locks -/

/-- Whether the transition acts for transaction `s`. -/
def Ev.actsFor (s : Int) : Ev → Prop
  | .nop | .update => False
  | .prewrite s' _ | .pessLock s' _ | .commit s' _ _ | .rollback s' | .mark s' | .onePc s' _ _ | .unlock s' => s' = s

theorem actsFor_of_caused {st : State} {r : Req} {k : Bytes} {e : Ev} {s : Int} (hc : Caused st r k e)
    (he : e.actsFor s) : r.actsFor s := by
  cases e with
  | nop => exact he.elim
  | update => exact he.elim
  | prewrite s' p => obtain ⟨q, rfl, rfl, _⟩ := hc; exact he
  | pessLock s' f => obtain ⟨q, rfl, rfl, _⟩ := hc; exact he
  | commit s' c rs =>
    have he : s' = s := he
    subst he
    cases rs with
    | false => obtain ⟨keys, rfl, _⟩ := hc; exact rfl
    | true =>
      rcases hc with ⟨keys, rfl, _⟩ | ⟨infos, rfl, hm⟩
      · exact rfl
      · exact ⟨c, hm⟩
  | rollback s' =>
    have he : s' = s := he
    subst he
    rcases hc with ⟨keys, rfl, _⟩ | ⟨q, rfl, rfl, _⟩ | ⟨keys, rfl, _⟩ | ⟨infos, c, rfl, hm, _⟩
    · exact rfl
    · exact rfl
    · exact rfl
    · exact ⟨c, hm⟩
  | mark s' =>
    have he : s' = s := he
    subst he
    rcases hc with ⟨keys, rfl, _⟩ | ⟨q, rfl, rfl, _⟩ | ⟨keys, rfl, _⟩
    · exact rfl
    · exact rfl
    · exact rfl
  | onePc s' c p => obtain ⟨q, rfl, rfl, _⟩ := hc; exact he
  | unlock s' => obtain ⟨f, keys, rfl, _⟩ := hc; exact he

/-- Transitions on a locked key: the lock stays, or it is the lock's transaction
that acts; commit records are added by the lock's transaction only. -/
theorem KStep.locked {k : Bytes} {mx : Int} {x y : KS} {e : Ev} (h : KStep k mx x e y) {l : LockInfo}
    (hl : x.lock = some l) :
    (y.lock = some l ∨ e = .update ∨ e.actsFor l.lockTs) ∧
    ∀ c w, y.write c = some w → w.committed → x.write c = some w ∨ w.startTs = l.lockTs := by
  have hrb : ∀ s c w, upd x.write s (some (rollbackRec s)) c = some w → w.committed →
      x.write c = some w ∨ w.startTs = l.lockTs := by
    intro s c w hw hc
    simp only [upd] at hw
    split at hw
    · cases hw; rcases hc with h | h <;> cases h
    · exact Or.inl hw
  have hcm : ∀ (s c : Int) (w0 : WriteInfo), w0.startTs = s → s = l.lockTs → ∀ c' w,
      upd x.write c (some w0) c' = some w → w.committed → x.write c' = some w ∨ w.startTs = l.lockTs := by
    intro s c w0 h0 hs c' w hw hc
    simp only [upd] at hw
    split at hw
    · cases hw; exact Or.inr (by rw [h0, hs])
    · exact Or.inl hw
  cases h with
  | nop => exact ⟨Or.inl hl, fun c w hw _ => Or.inl hw⟩
  | prewrite s pess l' d hfree =>
    rcases hfree with hf | ⟨_, l0, hf, hts, _⟩
    · rw [hl] at hf; cases hf
    · rw [hl] at hf; cases hf
      exact ⟨Or.inr (Or.inr hts.symm), fun c w hw _ => Or.inl hw⟩
  | pessLock s fu l' hpre =>
    rcases hpre with hf | ⟨l0, hf, hts, _⟩
    · rw [hl] at hf; cases hf.1
    · rw [hl] at hf; cases hf
      exact ⟨Or.inr (Or.inr hts.symm), fun c w hw _ => Or.inl hw⟩
  | commit s c rs l0 hlock hts =>
    rw [hl] at hlock; cases hlock
    exact ⟨Or.inr (Or.inr hts.symm), hcm s c _ rfl hts.symm⟩
  | rollback s l0 hlock hts =>
    rw [hl] at hlock; cases hlock
    exact ⟨Or.inr (Or.inr hts.symm), hrb s⟩
  | mark s => exact ⟨Or.inl hl, hrb s⟩
  | onePc s c pess op short d hfree =>
    rcases hfree with hf | ⟨_, l0, hf, hts, _⟩
    · rw [hl] at hf; cases hf
    · rw [hl] at hf; cases hf
      exact ⟨Or.inr (Or.inr hts.symm), hcm s c _ rfl hts.symm⟩
  | update => exact ⟨Or.inr (Or.inl rfl), fun c w hw _ => Or.inl hw⟩
  | unlock s l0 hlock hts =>
    rw [hl] at hlock; cases hlock
    exact ⟨Or.inr (Or.inr hts.symm), fun c w hw _ => Or.inl hw⟩

/-- Without a lock, commits come from 1PC only. -/
theorem step_locked {st : State} (hI : Inv st) {r : Req} (hv : r.Valid) {k : Bytes} {l : LockInfo}
    (hl : (view st k).lock = some l) :
    ((view (step st r).1 k).lock = some l ∨ r.actsFor l.lockTs) ∧
    ∀ c w, (view (step st r).1 k).write c = some w → w.committed →
      (view st k).write c = some w ∨ w.startTs = l.lockTs := by
  obtain ⟨es, h1, h2, h3⟩ := step_path hI hv k
  generalize view (step st r).1 k = y at h1
  rcases h3 with ⟨e, rfl⟩ | h3
  · cases h1 with
    | cons h t =>
      cases t with
      | nil =>
        obtain ⟨a, b⟩ := h.locked hl
        refine ⟨?_, b⟩
        have hc := h2 _ List.mem_cons_self
        rcases a with a | a | a
        · exact Or.inl a
        · subst a
          obtain ⟨l', hl', hc⟩ := hc
          simp only [view] at hl
          rw [hl] at hl'; cases hl'
          rcases hc with ⟨q, rfl, _, h⟩ | ⟨t, rfl⟩
          · exact Or.inr h
          · exact Or.inr rfl
        · exact Or.inr (actsFor_of_caused hc a)
  · have : ∀ {x y : KS} {es : List Ev}, KPath k st.maxTs x es y → (∀ e ∈ es, Caused st r k e) →
        (∀ e ∈ es, e = .nop ∨ (∃ s c, e = .commit s c true) ∨ ∃ s, e = .rollback s) →
        (x.lock = some l ∨ (x.lock = none ∧ r.actsFor l.lockTs)) →
        (∀ c w, x.write c = some w → w.committed → (view st k).write c = some w ∨ w.startTs = l.lockTs) →
        ((y.lock = some l ∨ r.actsFor l.lockTs) ∧ ∀ c w, y.write c = some w → w.committed →
          (view st k).write c = some w ∨ w.startTs = l.lockTs) := by
      intro x y es hp
      induction hp with
      | nil =>
        intro _ _ ha hb
        refine ⟨?_, hb⟩
        rcases ha with ha | ha
        · exact Or.inl ha
        · exact Or.inr ha.2
      | @cons x y z e es h t ih =>
        intro hca hev ha hb
        have hca' := hca e List.mem_cons_self
        refine ih (fun e he => hca e (List.mem_cons_of_mem _ he)) (fun e he => hev e (List.mem_cons_of_mem _ he)) ?_ ?_
        · rcases hev e List.mem_cons_self with rfl | ⟨s, c, rfl⟩ | ⟨s, rfl⟩
          · cases h; exact ha
          · cases h with
            | commit s c rs l0 hlock hts =>
              right
              refine ⟨rfl, ?_⟩
              rcases ha with ha | ha
              · rw [ha] at hlock; cases hlock
                exact actsFor_of_caused hca' hts.symm
              · exact ha.2
          · cases h with
            | rollback s l0 hlock hts =>
              right
              refine ⟨rfl, ?_⟩
              rcases ha with ha | ha
              · rw [ha] at hlock; cases hlock
                exact actsFor_of_caused hca' hts.symm
              · exact ha.2
        · intro c w hw hc
          rcases ha with ha | ha
          · rcases (h.locked ha).2 c w hw hc with h' | h'
            · exact hb c w h' hc
            · exact Or.inr h'
          · rcases hev e List.mem_cons_self with rfl | ⟨s, c', rfl⟩ | ⟨s, rfl⟩
            · cases h; exact hb c w hw hc
            · cases h with
              | commit s c rs l0 hlock => rw [ha.1] at hlock; cases hlock
            · cases h with
              | rollback s l0 hlock => rw [ha.1] at hlock; cases hlock
    exact this h1 h2 h3 (Or.inl hl) (fun c w hw _ => Or.inl hw)

end Verif.Txn
