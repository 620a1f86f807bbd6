import Verif.LogStore.Check

/-! # Raft log storage: what happens to one entry -/

namespace Verif.LogStore
open Verif.Codec
open Verif.Txn (CF KeyOrder Asc)

/-- Executing the mutation does not drop entry `i` of region `r` from the node's log. -/
def Safe (r i : Int) : Mutation → Prop
  | .cutSuffix r' k => r' = r → i < k
  | .reset r' _ => r' ≠ r
  | .destroy r' => r' ≠ r
  | _ => True

/-- Entry `i` of region `r` is `e` and nothing pending drops it. -/
structure Kept (r i : Int) (e : LogEntry) (s : State) : Prop where
  ent : (s.log r).ent i = some e
  safe : ∀ m ∈ s.pending, Safe r i m

theorem ent_append {L : RLog} {es : List (Int × LogEntry)} (hL : SpecOk L) (hf : Fits L es) {i : Int} {e : LogEntry}
    (h : L.ent i = some e) : (L.apply (.append es)).ent i = some e := by
  simp only [RLog.apply]
  induction es generalizing L with
  | nil => exact h
  | cons x es ih =>
    obtain ⟨a, b, c, d⟩ := hf.head
    simp only [List.foldl_cons]
    exact ih (hL.put a b c d) hf.tail (ent_put_ne hL a h)

theorem ent_appended {L : RLog} {es : List (Int × LogEntry)} (hL : SpecOk L) (hf : Fits L es) {e : Int × LogEntry}
    (h : e ∈ es) : (L.apply (.append es)).ent e.1 = some e.2 := by
  simp only [RLog.apply]
  induction es generalizing L with
  | nil => cases h
  | cons x es ih =>
    obtain ⟨a, b, c, d⟩ := hf.head
    simp only [List.foldl_cons]
    rw [List.mem_cons] at h
    rcases h with rfl | h
    · have := ent_append (hL.put a b c d) hf.tail (i := e.1) (e := e.2) (by simp [RLog.put])
      simp only [RLog.apply] at this
      exact this
    · exact ih (hL.put a b c d) hf.tail h

theorem append_first (L : RLog) (es : List (Int × LogEntry)) : (L.apply (.append es)).first = L.first := by
  simp only [RLog.apply]
  induction es generalizing L with
  | nil => rfl
  | cons x es ih => simp only [List.foldl_cons]; rw [ih]; rfl

theorem Inv.pendOf {s : State} (h : Inv s) {m : Mutation} (hm : m ∈ s.pending) :
    PendOk s.clients (s.view m.region) m :=
  (h.reg m.region (h.pendR m hm)).pend m (by simp only [State.view, List.mem_filter]; exact ⟨hm, by simp⟩)

/-- What one executed mutation does to the log of a node. -/
theorem Kept.exec {r i : Int} {e : LogEntry} (hr : ValidR r) (s s' : State) (m : Mutation) (rest : List Mutation) (h : Inv s)
    (hk : Kept r i e s) (hp : s.pending = m :: rest) (he : exec { s with pending := rest } [m] = some s') :
    Kept r i e s' ∧ (s'.log r).first = (s.log r).first := by
  obtain ⟨e1, e2, e3, e4⟩ := exec1_fields he
  simp only at e1 e2 e3 e4
  have hmem : m ∈ s.pending := by rw [hp]; simp
  have hs := hk.safe m hmem
  have hsafe : ∀ x ∈ s'.pending, Safe r i x := fun x hx => hk.safe x (by rw [hp]; rw [e1] at hx; exact List.mem_cons_of_mem _ hx)
  have hent := hk.ent
  have hPend := h.pendOf hmem
  have hL := (h.reg r hr).spec
  have key : (specLog (s'.hist r)).ent i = some e ∧ (specLog (s'.hist r)).first = (specLog (s.hist r)).first := by
    rw [e3]
    cases m with
    | append r' es =>
      simp only [histAfter]
      by_cases hne : r = r'
      · subst hne
        rw [upd_same, specLog_append]
        exact ⟨ent_append hL hPend.2.toFits hent, append_first _ _⟩
      · rw [upd_ne _ _ hne]; exact ⟨hent, rfl⟩
    | cutPrefix r' stop own => exact ⟨hent, rfl⟩
    | cutSuffix r' start =>
      simp only [histAfter]
      by_cases hne : r = r'
      · subst hne
        have := hs rfl
        rw [upd_same, specLog_append]
        simp only [RLog.apply]
        rw [if_pos (by omega)]
        exact ⟨hent, trivial⟩
      · rw [upd_ne _ _ hne]; exact ⟨hent, rfl⟩
    | reset r' n =>
      simp only [histAfter]
      rw [upd_ne _ _ (fun hx => hs hx.symm)]
      exact ⟨hent, rfl⟩
    | destroy r' =>
      simp only [histAfter]
      rw [upd_ne _ _ (fun hx => hs hx.symm)]
      exact ⟨hent, rfl⟩
  exact ⟨⟨key.1, hsafe⟩, key.2⟩

theorem log_unsynced {t t' : State} (he : { t' with unsynced := [] } = { t with unsynced := [] }) :
    t'.pending = t.pending ∧ t'.hist = t.hist ∧ t'.metas = t.metas := by
  have h1 : ({ t' with unsynced := [] } : State).pending = ({ t with unsynced := [] } : State).pending := by rw [he]
  have h2 : ({ t' with unsynced := [] } : State).hist = ({ t with unsynced := [] } : State).hist := by rw [he]
  have h3 : ({ t' with unsynced := [] } : State).metas = ({ t with unsynced := [] } : State).metas := by rw [he]
  exact ⟨h1, h2, h3⟩

/-- An executed batch. -/
theorem Kept.flush {r i : Int} {e : LogEntry} {s s' : State} {sel : List Nat} {f : Int} (hr : ValidR r) (h : Inv s) (hk : Kept r i e s)
    (hf : (s.log r).first = f) (hs : LogStore.step s (.flush sel) = some s') : Kept r i e s' ∧ (s'.log r).first = f := by
  have hp := pick_perm sel s.pending
  obtain ⟨s2, a, _, b, _⟩ := Inv.execAllP (fun s => Kept r i e s ∧ (s.log r).first = f) (by
      intro t t' ht he
      obtain ⟨u1, u2, _⟩ := log_unsynced he
      refine ⟨⟨?_, ?_⟩, ?_⟩
      · simp only [State.log, u2]; exact ht.1.ent
      · rw [u1]; exact ht.1.safe
      · simp only [State.log, u2]; exact ht.2) (by
      intro t t' m rest hI ht hpd he
      obtain ⟨x, y⟩ := Kept.exec hr t t' m rest hI ht.1 hpd he
      exact ⟨x, y.trans ht.2⟩) _ (h.perm hp) ⟨⟨hk.ent, fun m hm => hk.safe m (hp.mem_iff.1 hm)⟩, hf⟩ rfl
  simp only [LogStore.step] at hs
  rw [a] at hs
  cases hs
  exact b

/-- An entry stays in the log of the node as long as no event asks to drop it. -/
theorem Kept.step {r i : Int} {e : LogEntry} {s s' : State} {ev : Event} (hr : ValidR r) (h : Inv s) (hk : Kept r i e s)
    (hg : Keeps r i ev) (hs : LogStore.step s ev = some s') :
    Kept r i e s' ∧ (Holds .raft r i ev → (s.log r).first ≤ i → (s'.log r).first ≤ i) := by
  cases ev with
  | openRegion r' =>
    simp only [LogStore.step, LogStore.openRegion] at hs
    have hreg : (register s r').hist = s.hist ∧ (register s r').pending = s.pending := by
      unfold register
      split <;> exact ⟨rfl, rfl⟩
    split at hs
    · cases hs
      refine ⟨⟨?_, ?_⟩, ?_⟩
      · simp only [State.log, hreg.1]; exact hk.ent
      · simp only [hreg.2]; exact hk.safe
      · intro _ hf; simp only [State.log, hreg.1]; exact hf
    · cases hs
  | append r' es =>
    cases hs
    refine ⟨⟨hk.ent, ?_⟩, fun _ hf => hf⟩
    intro m hm
    rw [List.mem_append, List.mem_singleton] at hm
    rcases hm with hm | rfl
    · exact hk.safe m hm
    · trivial
  | truncPrefix c r' k =>
    have key : ∀ (hist : Int → List Call) (p : List Mutation),
        hist = (if c = Client.raft then upd s.hist r' (s.hist r' ++ [Call.truncPrefix k]) else s.hist) →
        (∀ m ∈ p, m ∈ s.pending ∨ ∃ stop own, m = .cutPrefix r' stop own) →
        ((specLog (hist r)).ent i = some e ∧ ∀ m ∈ p, Safe r i m)
        ∧ (Holds .raft r i (.truncPrefix c r' k) → (s.log r).first ≤ i → (specLog (hist r)).first ≤ i) := by
      intro hist p hh hp
      have hpp : ∀ m ∈ p, Safe r i m := by
        intro m hm
        rcases hp m hm with hm | ⟨_, _, rfl⟩
        · exact hk.safe m hm
        · trivial
      by_cases hc : c = .raft ∧ r = r'
      · obtain ⟨hc, rfl⟩ := hc
        rw [if_pos hc] at hh
        subst hh
        rw [upd_same, specLog_append]
        refine ⟨⟨?_, hpp⟩, ?_⟩
        · rw [(first_truncPrefix _ _).2.2]; exact hk.ent
        · intro hg hf
          have hg := hg hc rfl
          simp only [RLog.apply, State.log] at hf ⊢
          split
          · exact hg
          · exact hf
      · have : hist r = s.hist r := by
          rw [hh]
          by_cases hc' : c = .raft
          · rw [if_pos hc']; exact upd_ne _ _ (fun hx => hc ⟨hc', hx⟩)
          · rw [if_neg hc']
        rw [this]
        exact ⟨⟨hk.ent, hpp⟩, fun _ hf => hf⟩
    simp only [LogStore.step, LogStore.truncPrefix] at hs
    split at hs
    · cases hs
    · split at hs
      · cases hs
        have := key _ s.pending rfl (fun m hm => .inl hm)
        exact ⟨⟨this.1.1, this.1.2⟩, this.2⟩
      · split at hs
        · cases hs
          have := key _ s.pending rfl (fun m hm => .inl hm)
          exact ⟨⟨this.1.1, this.1.2⟩, this.2⟩
        · split at hs
          · cases hs
            have := key _ s.pending rfl (fun m hm => .inl hm)
            exact ⟨⟨this.1.1, this.1.2⟩, this.2⟩
          · rename_i stop _ _
            cases hs
            have := key _ (s.pending ++ [Mutation.cutPrefix r' stop (if c = Client.raft then some k else none)]) rfl (by
              intro m hm
              rw [List.mem_append, List.mem_singleton] at hm
              rcases hm with hm | rfl
              · exact .inl hm
              · exact .inr ⟨_, _, rfl⟩)
            exact ⟨⟨this.1.1, this.1.2⟩, this.2⟩
  | truncSuffix r' k =>
    simp only [LogStore.step, LogStore.truncSuffix] at hs
    split at hs
    · cases hs
    · split at hs
      · cases hs; exact ⟨hk, fun _ hf => hf⟩
      · split at hs
        · cases hs
          by_cases hne : r = r'
          · subst hne
            have hg := hg rfl
            refine ⟨⟨?_, hk.safe⟩, ?_⟩
            · simp only [State.log, upd_same, specLog_append, RLog.apply]
              rw [if_pos hg]
              exact hk.ent
            · intro _ hf
              simp only [State.log, upd_same, specLog_append, RLog.apply]
              exact hf
          · refine ⟨⟨?_, hk.safe⟩, ?_⟩
            · simp only [State.log, upd_ne _ _ hne]; exact hk.ent
            · intro _ hf; simp only [State.log, upd_ne _ _ hne]; exact hf
        · cases hs
          refine ⟨⟨hk.ent, ?_⟩, fun _ hf => hf⟩
          intro m hm
          rw [List.mem_append, List.mem_singleton] at hm
          rcases hm with hm | rfl
          · exact hk.safe m hm
          · intro hx; have := hg hx; omega
  | reset r' n =>
    cases hs
    refine ⟨⟨hk.ent, ?_⟩, fun _ hf => hf⟩
    intro m hm
    rw [List.mem_append, List.mem_singleton] at hm
    rcases hm with hm | rfl
    · exact hk.safe m hm
    · exact hg
  | destroy r' =>
    cases hs
    refine ⟨⟨hk.ent, ?_⟩, fun _ hf => hf⟩
    intro m hm
    rw [List.mem_append, List.mem_singleton] at hm
    rcases hm with hm | rfl
    · exact hk.safe m hm
    · exact hg
  | flush sel =>
    obtain ⟨a, b⟩ := hk.flush hr h rfl hs
    exact ⟨a, fun _ hf => by rw [b]; exact hf⟩
  | restart =>
    simp only [LogStore.step, LogStore.boot] at hs
    split at hs
    · cases hs
    · cases hs
      exact ⟨⟨hk.ent, by intro m hm; cases hm⟩, fun _ hf => hf⟩
  | crash n =>
    simp only [LogStore.step, LogStore.boot] at hs
    split at hs
    · cases hs
    · cases hs
      exact ⟨⟨hk.ent, by intro m hm; cases hm⟩, fun _ hf => hf⟩

/-- The batch that contains an append completes it. -/
theorem Kept.appended {s s' : State} {sel : List Nat} {r : Int} {es : List (Int × LogEntry)} (h : Inv s)
    (hb : InBatch s sel (.append r es)) (hs : LogStore.step s (.flush sel) = some s') {e : Int × LogEntry} (he : e ∈ es) :
    Kept r e.1 e.2 s' ∧ (s'.log r).first ≤ e.1 := by
  have hp := pick_perm sel s.pending
  have hmem : Mutation.append r es ∈ s.pending := hp.mem_iff.1 (List.mem_append_left _ hb)
  have hr : ValidR r := h.pendR _ hmem
  have hI := h.perm hp
  obtain ⟨s2, a, hI2, b, c⟩ := Inv.execAllP
    (fun s => Mutation.append r es ∈ s.pending ∨ (Kept r e.1 e.2 s ∧ (s.log r).first ≤ e.1)) (by
      intro t t' ht hx
      obtain ⟨u1, u2, _⟩ := log_unsynced hx
      rw [u1]
      rcases ht with ht | ht
      · exact .inl ht
      · right
        refine ⟨⟨?_, ?_⟩, ?_⟩
        · simp only [State.log, u2]; exact ht.1.ent
        · rw [u1]; exact ht.1.safe
        · simp only [State.log, u2]; exact ht.2) (by
      intro t t' m rest hI ht hpd hx
      obtain ⟨e1, e2, e3, e4⟩ := exec1_fields hx
      simp only at e1 e2 e3 e4
      rcases ht with ht | ht
      · have ht' := ht
        rw [hpd, List.mem_cons] at ht
        rcases ht with ht | ht
        · right
          have hPend := hI.pendOf ht'
          have hL := (hI.reg r hr).spec
          have hcomp := hI.compat
          rw [hpd] at hcomp
          have hcomp' := List.pairwise_cons.1 hcomp
          subst ht
          have hlog : t'.log r = (t.log r).apply (.append es) := by
            simp only [State.log, e3, histAfter, upd_same, specLog_append]
          refine ⟨⟨?_, ?_⟩, ?_⟩
          · rw [hlog]; exact ent_appended hL hPend.2.toFits he
          · intro x hx
            rw [e1] at hx
            have hcx := hcomp'.1 x hx
            cases x with
            | append _ _ => trivial
            | cutPrefix _ _ _ => trivial
            | cutSuffix r' k =>
              intro hrr
              have := (hcx hrr.symm).1
              simp [Mutation.own] at this
            | reset r' n =>
              intro hrr
              have := (hcx hrr.symm).1
              simp [Mutation.own] at this
            | destroy r' =>
              intro hrr
              have := (hcx hrr.symm).1
              simp [Mutation.own] at this
          · rw [hlog, append_first]
            have h1 := hL.fl
            have h2 := (hPend.2.toFits.idx e he).1
            have h3 : (t.view r).log = t.log r := rfl
            have h4 : (t.view (Mutation.append r es).region).log = t.log r := rfl
            rw [h3] at h1
            rw [h4] at h2
            omega
        · left; rw [e1]; exact ht
      · right
        obtain ⟨x, y⟩ := Kept.exec hr t t' m rest hI ht.1 hpd hx
        exact ⟨x, by rw [y]; exact ht.2⟩) _ hI (.inl (hp.mem_iff.2 hmem)) rfl
  simp only [LogStore.step] at hs
  rw [a] at hs
  cases hs
  rcases b with b | b
  · exfalso
    rw [c] at b
    have := hI.compat
    simp only at this
    rw [List.pairwise_append] at this
    have := (this.2.2 _ hb _ b rfl).1
    simp [Mutation.own] at this
  · exact b

theorem Kept.run {r i : Int} {e : LogEntry} {s s' : State} (hr : ValidR r) (h : Inv s) (hk : Kept r i e s) (evs : List Event)
    (hok : AllOk s evs) (hg : ∀ ev ∈ evs, Keeps r i ev) (hs : LogStore.run s evs = some s') :
    Kept r i e s' ∧ ((∀ ev ∈ evs, Holds .raft r i ev) → (s.log r).first ≤ i → (s'.log r).first ≤ i) := by
  induction evs generalizing s with
  | nil => cases hs; exact ⟨hk, fun _ hf => hf⟩
  | cons ev evs ih =>
    obtain ⟨s1, e1, h1⟩ := h.step hok.1
    obtain ⟨k1, k2⟩ := hk.step hr h (hg ev (by simp)) e1
    simp only [LogStore.run, foldOpt, e1] at hs
    obtain ⟨k3, k4⟩ := ih h1 k1 (hok.2 s1 e1) (fun x hx => hg x (by simp [hx])) hs
    exact ⟨k3, fun hh hf => k4 (fun x hx => hh x (by simp [hx])) (k2 (hh ev (by simp)) hf)⟩

/-! ## Who released what -/

theorem released_fold (ms : List Mutation) (f : Int → List (Client × Int)) (r : Int) :
    ∀ x ∈ ms.foldl releasedAfter f r, x ∈ f r := by
  induction ms generalizing f with
  | nil => exact fun x hx => hx
  | cons m ms ih =>
    intro x hx
    have := ih (releasedAfter f m) x hx
    cases m with
    | destroy r' =>
      simp only [releasedAfter, upd] at this
      split at this
      · cases this
      · exact this
    | _ => exact this

theorem released_exec {s s' : State} {ms : List Mutation} (h : exec s ms = some s') (r : Int) :
    ∀ x ∈ s'.released r, x ∈ s.released r := by
  unfold exec at h
  split at h
  · cases h
    exact released_fold ms s.released r
  · cases h

theorem released_step {s s' : State} {ev : Event} (hs : LogStore.step s ev = some s') (r : Int) :
    ∀ c k, (c, k) ∈ s'.released r → (c, k) ∈ s.released r ∨ ev = .truncPrefix c r k := by
  intro c k hx
  cases ev with
  | openRegion r' =>
    simp only [LogStore.step, LogStore.openRegion] at hs
    have hreg : (register s r').released = s.released := by unfold register; split <;> rfl
    split at hs
    · cases hs; simp only [hreg] at hx; exact .inl hx
    · cases hs
  | append r' es => cases hs; exact .inl hx
  | truncPrefix c' r' k' =>
    have hrel : s'.released = upd s.released r' (s.released r' ++ [(c', k')]) := by
      simp only [LogStore.step, LogStore.truncPrefix] at hs
      split at hs
      · cases hs
      · split at hs
        · cases hs; rfl
        · split at hs
          · cases hs; rfl
          · split at hs
            · cases hs; rfl
            · cases hs; rfl
    rw [hrel] at hx
    by_cases hne : r = r'
    · subst hne
      rw [upd_same, List.mem_append, List.mem_singleton, Prod.mk.injEq] at hx
      rcases hx with hx | ⟨rfl, rfl⟩
      · exact .inl hx
      · exact .inr rfl
    · rw [upd_ne _ _ hne] at hx; exact .inl hx
  | truncSuffix r' k' =>
    simp only [LogStore.step, LogStore.truncSuffix] at hs
    split at hs
    · cases hs
    · split at hs
      · cases hs; exact .inl hx
      · split at hs
        · cases hs; exact .inl hx
        · cases hs; exact .inl hx
  | reset r' n => cases hs; exact .inl hx
  | destroy r' => cases hs; exact .inl hx
  | flush sel => exact .inl (released_exec hs r _ hx)
  | restart =>
    simp only [LogStore.step, LogStore.boot] at hs
    split at hs
    · cases hs
    · cases hs; exact .inl hx
  | crash n =>
    simp only [LogStore.step, LogStore.boot] at hs
    split at hs
    · cases hs
    · cases hs; exact .inl hx

theorem released_run {s s' : State} (evs : List Event) (hs : LogStore.run s evs = some s') (r : Int) :
    ∀ c k, (c, k) ∈ s'.released r → (c, k) ∈ s.released r ∨ Event.truncPrefix c r k ∈ evs := by
  induction evs generalizing s with
  | nil => cases hs; exact fun c k hx => .inl hx
  | cons ev evs ih =>
    intro c k hx
    simp only [LogStore.run, foldOpt] at hs
    split at hs
    · cases hs
    · rename_i s1 h1
      rcases ih hs c k hx with h | h
      · rcases released_step h1 r c k h with h | h
        · exact .inl h
        · exact .inr (by rw [h]; simp)
      · exact .inr (List.mem_cons_of_mem _ h)

/-! ## Reading -/

theorem Inv.get {s : State} (h : Inv s) {r i : Int} (hr : ValidR r) (h0 : 0 ≤ i) (hi : i < maxI64) :
    (∃ e, (s.log r).ent i = some e ∧ s.db.get (encodeKey r i) = some (encodeValue e) ∧ GoodEntry e)
    ∨ (s.db.get (encodeKey r i) = none ∧ ∀ e, (s.log r).ent i = some e → ∀ c ∈ s.clients, ∃ k, (c, k) ∈ s.released r ∧ i < k) := by
  have hR := h.reg r hr
  cases hg : s.db.get (encodeKey r i) with
  | some v =>
    obtain ⟨e, he, rfl⟩ := hR.stored i v (by simp only [State.view]; rw [cells_get h0 hi, hg])
    exact .inl ⟨e, he, rfl, (hR.spec.rng i e he).2.2⟩
  | none =>
    right
    refine ⟨rfl, ?_⟩
    intro e he
    rcases hR.kept i e he with hk | hk
    · simp only [State.view] at hk
      rw [cells_get h0 hi, hg] at hk
      cases hk
    · exact hk

theorem getEntry_some {db : Db} {r i : Int} {e : LogEntry} (hg : db.get (encodeKey r i) = some (encodeValue e)) (he : GoodEntry e) :
    getEntry db r i = some (some e) ∧ getTerm db r i = some e.term := by
  simp only [getEntry, getTerm, hg, decodeValue_encodeValue he]
  exact ⟨trivial, if_pos he.2.1⟩

theorem getEntry_none {db : Db} {r i : Int} (hg : db.get (encodeKey r i) = none) :
    getEntry db r i = some none ∧ getTerm db r i = some 0 := by
  simp only [getEntry, getTerm, hg]
  exact ⟨trivial, trivial⟩

/-- What a read returns. -/
theorem Inv.read {s : State} (h : Inv s) {r i : Int} (hr : ValidR r) (h0 : 0 ≤ i) (hi : i < maxI64) :
    (∃ e, (s.log r).ent i = some e ∧ getEntry s.db r i = some (some e) ∧ getTerm s.db r i = some e.term)
    ∨ (getEntry s.db r i = some none ∧ getTerm s.db r i = some 0
       ∧ ∀ e, (s.log r).ent i = some e → ∀ c ∈ s.clients, ∃ k, (c, k) ∈ s.released r ∧ i < k) := by
  rcases h.get hr h0 hi with ⟨e, a, b, c⟩ | ⟨a, b⟩
  · exact .inl ⟨e, a, getEntry_some b c⟩
  · exact .inr ⟨(getEntry_none a).1, (getEntry_none a).2, b⟩

theorem Inv.readWindow {s : State} (h : Inv s) {r i : Int} {e : LogEntry} (hr : ValidR r) (he : (s.log r).ent i = some e)
    (hf : (s.log r).first ≤ i) : getEntry s.db r i = some (some e) ∧ getTerm s.db r i = some e.term := by
  have hR := h.reg r hr
  have hv := validI_of_ent hR.spec he
  rcases h.read hr hv.1.1 hv.2.1 with ⟨e', a, b⟩ | ⟨_, _, b⟩
  · rw [he] at a; cases a; exact b
  · obtain ⟨k, k1, k2⟩ := b e he .raft h.raft
    have := hR.relRaft k k1
    have : (s.view r).log.first = (s.log r).first := rfl
    omega

theorem run_append {s : State} (a b : List Event) : run s (a ++ b) = (run s a).bind (fun s' => run s' b) := foldOpt_append _ _ _ _

theorem allOk_append {s : State} {a b : List Event} (h : AllOk s (a ++ b)) :
    AllOk s a ∧ ∀ s', run s a = some s' → AllOk s' b := by
  induction a generalizing s with
  | nil => exact ⟨trivial, fun s' hs => by cases hs; exact h⟩
  | cons e a ih =>
    refine ⟨⟨h.1, fun s1 h1 => (ih (h.2 s1 h1)).1⟩, ?_⟩
    intro s' hs
    simp only [run, foldOpt] at hs
    split at hs
    · cases hs
    · rename_i s1 h1
      exact (ih (h.2 s1 h1)).2 s' hs

theorem clients_step {s s' : State} {ev : Event} (hs : LogStore.step s ev = some s') :
    s'.clients = s.clients ∧ s'.cacheOn = s.cacheOn ∧ s'.sync = s.sync := by
  cases ev with
  | openRegion r' =>
    simp only [LogStore.step, LogStore.openRegion] at hs
    have hreg : (register s r').clients = s.clients ∧ (register s r').cacheOn = s.cacheOn ∧ (register s r').sync = s.sync := by
      unfold register; split <;> exact ⟨rfl, rfl, rfl⟩
    split at hs
    · cases hs; exact hreg
    · cases hs
  | append r' es => cases hs; exact ⟨rfl, rfl, rfl⟩
  | truncPrefix c' r' k' =>
    simp only [LogStore.step, LogStore.truncPrefix] at hs
    split at hs
    · cases hs
    · split at hs
      · cases hs; exact ⟨rfl, rfl, rfl⟩
      · split at hs
        · cases hs; exact ⟨rfl, rfl, rfl⟩
        · split at hs
          · cases hs; exact ⟨rfl, rfl, rfl⟩
          · cases hs; exact ⟨rfl, rfl, rfl⟩
  | truncSuffix r' k' =>
    simp only [LogStore.step, LogStore.truncSuffix] at hs
    split at hs
    · cases hs
    · split at hs
      · cases hs; exact ⟨rfl, rfl, rfl⟩
      · split at hs
        · cases hs; exact ⟨rfl, rfl, rfl⟩
        · cases hs; exact ⟨rfl, rfl, rfl⟩
  | reset r' n => cases hs; exact ⟨rfl, rfl, rfl⟩
  | destroy r' => cases hs; exact ⟨rfl, rfl, rfl⟩
  | flush sel =>
    simp only [LogStore.step, exec] at hs
    split at hs
    · cases hs; exact ⟨rfl, rfl, rfl⟩
    · cases hs
  | restart =>
    simp only [LogStore.step, LogStore.boot] at hs
    split at hs
    · cases hs
    · cases hs; exact ⟨rfl, rfl, rfl⟩
  | crash n =>
    simp only [LogStore.step, LogStore.boot] at hs
    split at hs
    · cases hs
    · cases hs; exact ⟨rfl, rfl, rfl⟩

theorem clients_run {s s' : State} (evs : List Event) (hs : run s evs = some s') :
    s'.clients = s.clients ∧ s'.cacheOn = s.cacheOn ∧ s'.sync = s.sync := by
  induction evs generalizing s with
  | nil => cases hs; exact ⟨rfl, rfl, rfl⟩
  | cons e evs ih =>
    simp only [run, foldOpt] at hs
    split at hs
    · cases hs
    · rename_i s1 h1
      obtain ⟨a, b, c⟩ := ih hs
      obtain ⟨a', b', c'⟩ := clients_step h1
      exact ⟨a.trans a', b.trans b', c.trans c'⟩

theorem WInv.init (clients : List Client) (sync cacheOn : Bool) : WInv (State.init clients sync cacheOn) := by
  intro r m _ hm; cases hm

theorem WInv.run {s s' : State} (h : Inv s) (hW : WInv s) (evs : List Event) (hok : AllOk s evs) (hn : AllNext s evs)
    (hs : LogStore.run s evs = some s') : WInv s' := by
  induction evs generalizing s with
  | nil => cases hs; exact hW
  | cons e evs ih =>
    obtain ⟨s1, e1, h1⟩ := h.step hok.1
    simp only [LogStore.run, foldOpt, e1] at hs
    exact ih h1 (hW.step h hok.1 hn.1 e1) (hok.2 s1 e1) (hn.2 s1 e1) hs

end Verif.LogStore
