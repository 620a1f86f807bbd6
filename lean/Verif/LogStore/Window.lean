import Verif.LogStore.Calls

/-! # Raft log storage: the reported window -/

namespace Verif.LogStore
open Verif.Codec
open Verif.Txn (CF KeyOrder Asc)

/-- The cells hold exactly the entries of the window. -/
structure W (f : Int → Option Bytes) (m : Meta) : Prop where
  f1 : 1 ≤ m.first
  fl : m.first ≤ m.last + 1
  lm : m.last < maxI64
  win : ∀ i, f i ≠ none ↔ m.first ≤ i ∧ i ≤ m.last

theorem W.append {f : Int → Option Bytes} {m : Meta} (h : W f m) {es : List (Int × LogEntry)}
    (hn : Consecutive (m.last + 1) es) (hf : ∀ e ∈ es, e.1 < maxI64) :
    W (putCells f es) { m with last := (es.getLast?.map (·.1)).getD m.last } := by
  induction es generalizing f m with
  | nil => exact h
  | cons e es ih =>
    have hhead : W (fun i => if i = e.1 then some (encodeValue e.2) else f i) { m with last := e.1 } := by
      have he := hf e (by simp)
      have h1 := hn.1
      have h2 := h.fl
      refine ⟨h.f1, by simp only; omega, he, ?_⟩
      intro i
      simp only
      split
      · simp; omega
      · rw [h.win i]; omega
    have := ih hhead (by have := hn.2; simp only; rw [hn.1]; exact this) (fun x hx => hf x (by simp [hx]))
    have hl : (((e :: es).getLast?).map (·.1)).getD m.last = ((es.getLast?).map (·.1)).getD e.1 := by
      cases es with
      | nil => rfl
      | cons x es => rw [List.getLast?_cons_cons]; cases hx : (x :: es).getLast? with
        | none => simp at hx
        | some y => rfl
    rw [hl]
    exact this

theorem W.cutPrefix {f : Int → Option Bytes} {m : Meta} (h : W f m) {stop : Int} (h2 : stop < maxI64) :
    W (fun i => if 0 ≤ i ∧ i < stop then none else f i) (cutPrefixMeta m stop) := by
  have a1 := h.f1
  have a2 := h.fl
  have a3 := h.lm
  unfold cutPrefixMeta
  by_cases hc : m.first < stop
  · rw [if_pos hc]
    refine ⟨by simp only; omega, by simp only; split <;> omega, by simp only; split <;> omega, ?_⟩
    intro i
    simp only
    by_cases hi : 0 ≤ i ∧ i < stop
    · rw [if_pos hi]
      simp only [ne_eq, not_true_eq_false, false_iff]; omega
    · rw [if_neg hi, h.win i]
      split <;> omega
  · rw [if_neg hc]
    refine ⟨a1, a2, a3, ?_⟩
    intro i
    split
    · simp only [ne_eq, not_true_eq_false, false_iff]; omega
    · exact h.win i

theorem W.cutSuffix {f : Int → Option Bytes} {m : Meta} (h : W f m) {start : Int} (h1 : 1 ≤ start) :
    W (fun i => if start ≤ i ∧ i < maxI64 then none else f i) (cutSuffixMeta m start) := by
  have a1 := h.f1
  have a2 := h.fl
  have a3 := h.lm
  unfold cutSuffixMeta
  by_cases hc : start ≤ m.last
  · rw [if_pos hc]
    refine ⟨by simp only; split <;> omega, by simp only; split <;> omega, by simp only; omega, ?_⟩
    intro i
    simp only
    by_cases hi : start ≤ i ∧ i < maxI64
    · rw [if_pos hi]
      simp only [ne_eq, not_true_eq_false, false_iff]; omega
    · rw [if_neg hi, h.win i]
      split <;> omega
  · rw [if_neg hc]
    refine ⟨a1, a2, a3, ?_⟩
    intro i
    split
    · simp only [ne_eq, not_true_eq_false, false_iff]; omega
    · exact h.win i

theorem W.empty {f : Int → Option Bytes} {m : Meta} (h : ∀ i, f i = none) (h1 : 1 ≤ m.first) (h2 : m.last = m.first - 1)
    (h3 : m.last < maxI64) : W f m :=
  ⟨h1, by omega, h3, fun i => by rw [h i]; simp only [ne_eq, not_true_eq_false, false_iff]; omega⟩

def WInv (s : State) : Prop :=
  ∀ r m, ValidR r → s.metas r = some m →
    W (cells s.db r) m ∧ ∀ es, Mutation.append r es ∈ s.pending → m.last = (s.log r).last

/-- The fields after one mutation. -/
theorem exec1_fields {s s' : State} {m : Mutation} (h : exec s [m] = some s') :
    s'.pending = s.pending ∧ adjust s.metas m = some s'.metas ∧ s'.hist = histAfter s.hist m
    ∧ s'.db = applyOps s.db (writeOps m) := by
  unfold exec at h
  split at h
  · rename_i a b h1 h2
    cases h
    refine ⟨rfl, ?_, rfl, by simp only [List.flatMap_cons, List.flatMap_nil, List.append_nil]⟩
    simp only [foldOpt] at h1
    split at h1
    · cases h1
    · rename_i x hx
      cases h1
      exact hx
  · cases h

theorem WInv.exec1 (s s' : State) (m : Mutation) (rest : List Mutation) (h : Inv s) (hW : WInv s)
    (hp : s.pending = m :: rest) (he : exec { s with pending := rest } [m] = some s') : WInv s' := by
  obtain ⟨e1, e2, e3, e4⟩ := exec1_fields he
  simp only at e1 e2 e3 e4
  have hr0 : ValidR m.region := h.pendR m (by rw [hp]; simp)
  have hR0 := h.reg m.region hr0
  have hPend := hR0.pend m (by simp only [State.view]; rw [hp, filter_pend_cons, if_pos rfl]; simp)
  have hcomp := h.compat
  rw [hp] at hcomp
  have hcomp' := List.pairwise_cons.1 hcomp
  -- no append of the same node is pending beside a mutation of that node
  have hnoapp : m.own = true → ∀ es, Mutation.append m.region es ∈ rest → False := by
    intro hm es hx
    have := (hcomp'.1 _ hx rfl).1
    rw [hm] at this
    simp only [Mutation.own, Bool.true_eq_false, or_self] at this
  intro r mt hr hmt
  generalize s'.metas = M at e2 hmt
  by_cases hne : r = m.region
  · cases m with
    | append r' es =>
      simp only [Mutation.region] at hne
      subst hne
      simp only [adjust] at e2
      cases hl : es.getLast? with
      | none => rw [hl] at e2; cases e2
      | some e =>
        cases hm : s.metas r with
        | none => rw [hl, hm] at e2; cases e2
        | some mt0 =>
          rw [hl, hm] at e2
          simp only [Option.some.injEq] at e2
          rw [← e2, upd_same] at hmt
          cases hmt
          obtain ⟨w1, w2⟩ := hW r mt0 hr hm
          have hlast := w2 es (by rw [hp]; simp)
          refine ⟨?_, fun es' hx => absurd (hnoapp rfl es' (by rw [e1] at hx; exact hx)) (fun hf => hf)⟩
          obtain ⟨k1, k2⟩ := applyOps_append s.db hr es (fun e he => by
            have h1 := hPend.2.toFits.idx e he
            have h2 := hR0.spec.fl
            have h3 := hR0.spec.f1
            omega) h.keys
          rw [e4, k2 r hr, if_pos rfl]
          have hlog : ((s.view (Mutation.append r es).region).log).last = (s.log r).last := rfl
          have := w1.append (es := es) (by rw [hlast]; exact hPend.2.next) (fun e he => (hPend.2.toFits.idx e he).2)
          rw [hl] at this
          exact this
    | cutPrefix r' stop own =>
      simp only [Mutation.region] at hne
      subst hne
      cases hm : s.metas r with
      | none => simp only [adjust, hm] at e2; cases e2
      | some mt0 =>
        obtain ⟨w1, w2⟩ := hW r mt0 hr hm
        have hmt' : mt = cutPrefixMeta mt0 stop := by
          simp only [adjust, hm] at e2
          unfold cutPrefixMeta
          split at e2
          · rename_i hc
            cases e2
            rw [upd_same] at hmt
            cases hmt
            rw [if_pos hc]
          · rename_i hc
            cases e2
            rw [hm] at hmt
            cases hmt
            rw [if_neg hc]
        have hlog : s'.log r = s.log r := by simp only [State.log, e3, histAfter]
        subst hmt'
        constructor
        · rw [e4]
          simp only [applyOps, writeOps, List.foldl_cons, List.foldl_nil, applyOp]
          rw [cells_deleteRange s.db hr hr (Int.le_refl 0) (by simp [maxI64]) hPend.2.1 (Int.le_of_lt hPend.2.2.1)]
          simp only [true_and]
          exact w1.cutPrefix hPend.2.2.1
        · intro es hx
          rw [hlog]
          rw [e1] at hx
          have hl := w2 es (by rw [hp]; exact List.mem_cons_of_mem _ hx)
          obtain ⟨k, hk1, hk2⟩ := hPend.2.2.2.1 .raft h.raft
          have hk3 := hR0.relRaft k hk1
          have hk4 := hR0.spec.fl
          have hk5 : ((s.view (Mutation.cutPrefix r stop own).region).log) = s.log r := rfl
          rw [hk5] at hk3 hk4
          unfold cutPrefixMeta
          split
          · simp only; split <;> omega
          · exact hl
    | cutSuffix r' start =>
      simp only [Mutation.region] at hne
      subst hne
      cases hm : s.metas r with
      | none => simp only [adjust, hm] at e2; cases e2
      | some mt0 =>
        obtain ⟨w1, w2⟩ := hW r mt0 hr hm
        have hmt' : mt = cutSuffixMeta mt0 start := by
          simp only [adjust, hm] at e2
          unfold cutSuffixMeta
          split at e2
          · rename_i hc
            cases e2
            rw [upd_same] at hmt
            cases hmt
            rw [if_pos hc]
          · rename_i hc
            cases e2
            rw [hm] at hmt
            cases hmt
            rw [if_neg hc]
        subst hmt'
        refine ⟨?_, fun es' hx => absurd (hnoapp rfl es' (by rw [e1] at hx; exact hx)) (fun hf => hf)⟩
        have hb : 1 ≤ start ∧ start ≤ maxI64 := by
          have h1 := hPend.2
          have h2 := hR0.spec.f1
          have h3 := hR0.spec.lm
          omega
        rw [e4]
        simp only [applyOps, writeOps, List.foldl_cons, List.foldl_nil, applyOp]
        rw [cells_deleteRange s.db hr hr (by omega) hb.2 (show (0 : Int) ≤ maxI64 by simp [maxI64]) (Int.le_refl maxI64)]
        simp only [true_and]
        exact w1.cutSuffix hb.1
    | reset r' n =>
      simp only [Mutation.region] at hne
      subst hne
      cases hm : s.metas r with
      | none => simp only [adjust, hm] at e2; cases e2
      | some mt0 =>
        simp only [adjust, hm, Option.some.injEq] at e2
        rw [← e2, upd_same] at hmt
        cases hmt
        refine ⟨?_, fun es' hx => absurd (hnoapp rfl es' (by rw [e1] at hx; exact hx)) (fun hf => hf)⟩
        rw [e4]
        simp only [applyOps, writeOps, List.foldl_cons, List.foldl_nil, applyOp]
        rw [cells_deleteRange s.db hr hr (Int.le_refl 0) (by simp [maxI64]) (show (0 : Int) ≤ maxI64 by simp [maxI64]) (Int.le_refl maxI64)]
        have h1 := hPend.2
        have h2 := hR0.spec.f1
        refine W.empty ?_ (by simp only; omega) rfl (by simp only; omega)
        intro i
        simp only [true_and, cells]
        split <;> rfl
    | destroy r' =>
      simp only [Mutation.region] at hne
      subst hne
      simp only [adjust, Option.some.injEq] at e2
      rw [← e2, upd_same] at hmt
      cases hmt
  · -- another region
    have hview : M r = s.metas r ∧ cells s'.db r = cells s.db r ∧ s'.hist r = s.hist r := by
      rw [e3, e4]
      cases m with
      | append r' es =>
        simp only [Mutation.region] at hne hr0
        obtain ⟨k1, k2⟩ := applyOps_append s.db hr0 es (fun e he => by
          have h1 := hPend.2.toFits.idx e he
          have h2 := hR0.spec.fl
          have h3 := hR0.spec.f1
          omega) h.keys
        refine ⟨?_, by rw [k2 r hr, if_neg hne], upd_ne _ _ hne⟩
        simp only [adjust] at e2
        split at e2
        · cases e2; exact upd_ne _ _ hne
        · cases e2
      | cutPrefix r' stop own =>
        simp only [Mutation.region] at hne hr0
        refine ⟨?_, ?_, rfl⟩
        · simp only [adjust] at e2
          split at e2
          · cases e2
          · split at e2
            · cases e2; exact upd_ne _ _ hne
            · cases e2; rfl
        · simp only [applyOps, writeOps, List.foldl_cons, List.foldl_nil, applyOp]
          rw [cells_deleteRange s.db hr0 hr (Int.le_refl 0) (by simp [maxI64]) hPend.2.1 (Int.le_of_lt hPend.2.2.1)]
          simp only [hne, false_and, if_false]
      | cutSuffix r' start =>
        simp only [Mutation.region] at hne hr0
        refine ⟨?_, ?_, upd_ne _ _ hne⟩
        · simp only [adjust] at e2
          split at e2
          · cases e2
          · split at e2
            · cases e2; exact upd_ne _ _ hne
            · cases e2; rfl
        · have hb : 0 ≤ start ∧ start ≤ maxI64 := by
            have h1 := hPend.2
            have h2 := hR0.spec.f1
            have h3 := hR0.spec.lm
            omega
          simp only [applyOps, writeOps, List.foldl_cons, List.foldl_nil, applyOp]
          rw [cells_deleteRange s.db hr0 hr hb.1 hb.2 (show (0 : Int) ≤ maxI64 by simp [maxI64]) (Int.le_refl maxI64)]
          simp only [hne, false_and, if_false]
      | reset r' n =>
        simp only [Mutation.region] at hne hr0
        refine ⟨?_, ?_, upd_ne _ _ hne⟩
        · simp only [adjust] at e2
          split at e2
          · cases e2
          · cases e2; exact upd_ne _ _ hne
        · simp only [applyOps, writeOps, List.foldl_cons, List.foldl_nil, applyOp]
          rw [cells_deleteRange s.db hr0 hr (Int.le_refl 0) (by simp [maxI64]) (show (0 : Int) ≤ maxI64 by simp [maxI64]) (Int.le_refl maxI64)]
          simp only [hne, false_and, if_false]
      | destroy r' =>
        simp only [Mutation.region] at hne hr0
        refine ⟨?_, ?_, upd_ne _ _ hne⟩
        · simp only [adjust] at e2
          cases e2; exact upd_ne _ _ hne
        · simp only [applyOps, writeOps, List.foldl_cons, List.foldl_nil, applyOp]
          rw [cells_deleteRange s.db hr0 hr (Int.le_refl 0) (by simp [maxI64]) (show (0 : Int) ≤ maxI64 by simp [maxI64]) (Int.le_refl maxI64)]
          simp only [hne, false_and, if_false]
    obtain ⟨v1, v2, v3⟩ := hview
    rw [v1] at hmt
    obtain ⟨w1, w2⟩ := hW r mt hr hmt
    rw [v2]
    refine ⟨w1, ?_⟩
    intro es hx
    simp only [State.log, v3]
    exact w2 es (by rw [hp]; rw [e1] at hx; exact List.mem_cons_of_mem _ hx)

theorem WInv.openRegion {s s' : State} {r : Int} (h : Inv s) (hW : WInv s) (hs : LogStore.openRegion s r = some s') : WInv s' := by
  have hreg : WInv (register s r) := by
    unfold register
    cases hm : s.metas r with
    | some m => exact hW
    | none =>
      simp only
      intro r' m hr' hm'
      by_cases hne : r' = r
      · subst hne
        simp only [upd_same, Option.some.injEq] at hm'
        subst hm'
        refine ⟨W.empty ((h.reg r' hr').bare hm) (by simp) (by simp) (by simp [maxI64]), ?_⟩
        intro es hx
        have := (h.reg r' hr').pend (.append r' es) (by simp only [State.view, List.mem_filter]; exact ⟨hx, by simp [Mutation.region]⟩)
        exact absurd hm this.1
      · simp only [upd_ne _ _ hne] at hm'
        exact hW r' m hr' hm'
  simp only [LogStore.openRegion] at hs
  split at hs
  · cases hs; exact hreg
  · cases hs

theorem WInv.boot {s s' : State} (h : Inv s) (hW : WInv s) (hs : LogStore.boot s s.db = some s') : WInv s' := by
  obtain ⟨metas, g1, g2, g3⟩ := loadMetas_ok h.dbOk h.specOk s.saved (fun x hx => (h.saved x hx).1)
  simp only [LogStore.boot, g1, Option.some.injEq] at hs
  subst hs
  intro r m hr hm
  refine ⟨?_, by intro es hx; cases hx⟩
  obtain ⟨ks, a, b, c, d⟩ := g2 r m hm
  obtain ⟨f, hf, hf1, hf2⟩ := firstOnDisk_spec h.dbOk h.specOk hr
  obtain ⟨t, ht, ht1, ht2⟩ := lastOnDisk_spec h.dbOk h.specOk hr
  rw [hf] at c
  rw [ht] at d
  cases c
  cases d
  simp only
  have hnone : (∀ i, ValidI i → i < maxI64 → s.db.get (encodeKey r i) = none) → ∀ i, cells s.db r i = none := by
    intro hn i
    unfold cells
    split
    · rename_i hi; exact hn i (validI_lt hi.1 hi.2) hi.2
    · rfl
  by_cases hall : ∀ i, ValidI i → i < maxI64 → s.db.get (encodeKey r i) = none
  · have hf' : m.first = 1 := by
      rcases hf2 with ⟨x, _⟩ | ⟨⟨v, hv⟩, hlt, _⟩
      · exact x
      · rw [hall _ (validI_lt (by omega) hlt) hlt] at hv; cases hv
    have ht' : m.last = 0 := by
      rcases ht2 with ⟨x, _⟩ | ⟨⟨v, hv⟩, hlt, _⟩
      · exact x
      · rw [hall _ (validI_lt (by omega) hlt) hlt] at hv; cases hv
    exact W.empty (hnone hall) (by omega) (by omega) (by rw [ht']; simp [maxI64])
  · rcases hf2 with ⟨_, x⟩ | ⟨⟨v, hv⟩, hlt, hmin⟩
    · exact absurd x hall
    · rcases ht2 with ⟨_, x⟩ | ⟨⟨v', hv'⟩, hlt', hmax⟩
      · exact absurd x hall
      · cases hm0 : s.metas r with
        | none =>
          have := (h.reg r hr).bare hm0 m.first
          simp only [State.view] at this
          rw [cells_get (by omega) hlt, hv] at this
          cases this
        | some m0 =>
          have w := (hW r m0 hr hm0).1
          have w1 := w.f1
          have w2 := w.lm
          have hfw := (w.win m.first).1 (by rw [cells_get (by omega) hlt, hv]; simp)
          have htw := (w.win m.last).1 (by rw [cells_get (by omega) hlt', hv']; simp)
          have hin : ∀ i, m0.first ≤ i → i ≤ m0.last → m.first ≤ i ∧ i ≤ m.last := by
            intro i i1 i2
            have := (w.win i).2 ⟨i1, i2⟩
            rw [cells_get (by omega) (by omega)] at this
            cases hx : s.db.get (encodeKey r i) with
            | none => exact absurd hx this
            | some x => exact ⟨hmin i x (validI_lt (by omega) (by omega)) (by omega) hx, hmax i x (validI_lt (by omega) (by omega)) (by omega) hx⟩
          have i1 := hin m0.first (by omega) (by omega)
          have i2 := hin m0.last (by omega) (by omega)
          refine ⟨by omega, by omega, by omega, ?_⟩
          intro i
          rw [w.win i]
          omega

theorem WInv.step {s s' : State} {e : Event} (h : Inv s) (hW : WInv s) (hok : Ok s e) (hn : NextOk s e)
    (hs : LogStore.step s e = some s') : WInv s' := by
  cases e with
  | openRegion r => exact hW.openRegion h hs
  | append r es =>
    simp only [LogStore.step, Option.some.injEq] at hs
    subst hs
    intro r' m hr' hm
    obtain ⟨w1, w2⟩ := hW r' m hr' hm
    refine ⟨w1, ?_⟩
    intro es' hx
    rw [List.mem_append, List.mem_singleton] at hx
    rcases hx with hx | hx
    · exact w2 es' hx
    · cases hx
      obtain ⟨_, _, _, ha⟩ := hok
      cases es with
      | nil => exact absurd rfl ha.some
      | cons e es =>
        have h1 := hn m hm e rfl
        have h2 := ha.next.1
        simp only [State.log] at h2 ⊢
        omega
  | truncPrefix c r k =>
    obtain ⟨hr, hmt, hd, hraft⟩ := truncPrefix_ok h hok
    -- appends are pending only when the node is not the caller
    have key : ∀ (hist : Int → List Call) (metas : Int → Option Meta) (p : List Mutation),
        hist = (if c = Client.raft then upd s.hist r (s.hist r ++ [Call.truncPrefix k]) else s.hist) →
        (∀ r' m', metas r' = some m' → ∃ m, s.metas r' = some m ∧ m.first = m'.first ∧ m.last = m'.last) →
        (∀ es r', Mutation.append r' es ∈ p → Mutation.append r' es ∈ s.pending) →
        ∀ r' m', ValidR r' → metas r' = some m' →
          W (cells s.db r') m' ∧ ∀ es, Mutation.append r' es ∈ p → m'.last = (specLog (hist r')).last := by
      intro hist metas p hh hm hp r' m' hr' hm'
      obtain ⟨m, g1, g2, g3⟩ := hm r' m' hm'
      obtain ⟨w1, w2⟩ := hW r' m hr' g1
      refine ⟨⟨by have := w1.f1; omega, by have := w1.fl; omega, by have := w1.lm; omega, by
        intro i; rw [w1.win i]; omega⟩, ?_⟩
      intro es hx
      have hx' := hp es r' hx
      rw [← g3, w2 es hx', hh]
      split
      · rename_i hc
        by_cases hne : r' = r
        · subst hne
          have := (hraft hc).2 _ hx' rfl
          cases this
        · rw [upd_ne _ _ hne]; rfl
      · rfl
    cases hm : s.metas r with
    | none => exact absurd hm hmt
    | some m =>
      have hupd : ∀ ks, ∀ r' m', upd s.metas r (some { m with keeps := ks }) r' = some m' →
          ∃ m, s.metas r' = some m ∧ m.first = m'.first ∧ m.last = m'.last := by
        intro ks r' m' hm'
        by_cases hne : r' = r
        · subst hne
          rw [upd_same] at hm'
          cases hm'
          exact ⟨m, hm, rfl, rfl⟩
        · rw [upd_ne _ _ hne] at hm'
          exact ⟨m', hm', rfl, rfl⟩
      simp only [LogStore.step, LogStore.truncPrefix, hm] at hs
      split at hs
      · cases hs
        exact key _ _ _ rfl (fun r' m' hm' => ⟨m', hm', rfl, rfl⟩) (fun _ _ hx => hx)
      · split at hs
        · cases hs
          exact key _ _ _ rfl (hupd _) (fun _ _ hx => hx)
        · split at hs
          · cases hs
            exact key _ _ _ rfl (hupd _) (fun _ _ hx => hx)
          · cases hs
            refine key _ _ _ rfl (hupd _) ?_
            intro es r' hx
            rw [List.mem_append, List.mem_singleton] at hx
            rcases hx with hx | hx
            · exact hx
            · cases hx
  | truncSuffix r k =>
    obtain ⟨hr, hc, hi, _, _⟩ := hok
    cases hm : s.metas r with
    | none => simp only [LogStore.step, LogStore.truncSuffix, hm] at hs; cases hs
    | some m =>
      simp only [LogStore.step, LogStore.truncSuffix, hm] at hs
      split at hs
      · cases hs; exact hW
      · split at hs
        · cases hs
          intro r' m' hr' hm'
          obtain ⟨w1, w2⟩ := hW r' m' hr' hm'
          refine ⟨w1, ?_⟩
          intro es hx
          by_cases hne : r' = r
          · subst hne
            have := hi _ hx rfl
            cases this
          · simp only [State.log, upd_ne _ _ hne]
            exact w2 es hx
        · cases hs
          intro r' m' hr' hm'
          obtain ⟨w1, w2⟩ := hW r' m' hr' hm'
          refine ⟨w1, ?_⟩
          intro es hx
          rw [List.mem_append, List.mem_singleton] at hx
          rcases hx with hx | hx
          · exact w2 es hx
          · cases hx
  | reset r n =>
    simp only [LogStore.step, Option.some.injEq] at hs
    subst hs
    intro r' m hr' hm
    obtain ⟨w1, w2⟩ := hW r' m hr' hm
    refine ⟨w1, ?_⟩
    intro es hx
    rw [List.mem_append, List.mem_singleton] at hx
    rcases hx with hx | hx
    · exact w2 es hx
    · cases hx
  | destroy r =>
    simp only [LogStore.step, Option.some.injEq] at hs
    subst hs
    intro r' m hr' hm
    obtain ⟨w1, w2⟩ := hW r' m hr' hm
    refine ⟨w1, ?_⟩
    intro es hx
    rw [List.mem_append, List.mem_singleton] at hx
    rcases hx with hx | hx
    · exact w2 es hx
    · cases hx
  | flush sel =>
    have hp := pick_perm sel s.pending
    have hW' : WInv { s with pending := (pick s.pending sel).1 ++ (pick s.pending sel).2 } := by
      intro r m hr hm
      obtain ⟨w1, w2⟩ := hW r m hr hm
      exact ⟨w1, fun es hx => w2 es (hp.mem_iff.1 hx)⟩
    obtain ⟨s2, a, _, b, _⟩ := Inv.execAllP WInv (by
      intro t t' ht he
      cases t with
      | mk a1 a2 a3 a4 a5 a6 a7 a8 a9 a10 a11 =>
      cases t' with
      | mk b1 b2 b3 b4 b5 b6 b7 b8 b9 b10 b11 =>
      simp only [State.mk.injEq, true_and] at he
      obtain ⟨rfl, rfl, rfl, rfl, rfl, rfl, rfl, rfl, rfl, rfl⟩ := he
      exact ht) WInv.exec1 _ (h.perm hp) hW' rfl
    simp only [LogStore.step] at hs
    rw [a] at hs
    cases hs
    exact b
  | restart => exact hW.boot h hs
  | crash n =>
    have hdb : ((s.db :: s.unsynced)[n]?).getD s.db = s.db := by
      rcases hok with hs' | rfl
      · rw [h.sync hs']
        cases n <;> rfl
      · rfl
    simp only [LogStore.step, hdb] at hs
    exact hW.boot h hs

end Verif.LogStore
