import Verif.LogStore.Steps

/-! # Raft log storage: calls, batches, restarts -/

namespace Verif.LogStore
open Verif.Codec
open Verif.Txn (CF KeyOrder Asc)

/-! ## Batches -/

theorem exec_pending (s : State) (p : List Mutation) (ms : List Mutation) :
    exec { s with pending := p } ms = (exec s ms).map (fun x => { x with pending := p }) := by
  unfold exec
  simp only
  cases foldOpt adjust s.metas ms with
  | none => rfl
  | some m =>
    cases foldOpt (cacheAfter s.cacheOn) s.cache ms with
    | none => rfl
    | some c => rfl

theorem exec_sync {s s' : State} {ms : List Mutation} (h : exec s ms = some s') (hs : s'.sync = true) :
    s'.unsynced = [] := by
  unfold exec at h
  split at h
  · cases h; simp only at hs ⊢; rw [hs]; rfl
  · cases h

theorem Inv.unsynced {s s' : State} (h : Inv s) (he : { s' with unsynced := [] } = { s with unsynced := [] })
    (hs : s'.sync = true → s'.unsynced = []) : Inv s' := by
  cases s with
  | mk a1 a2 a3 a4 a5 a6 a7 a8 a9 a10 a11 =>
  cases s' with
  | mk b1 b2 b3 b4 b5 b6 b7 b8 b9 b10 b11 =>
  simp only [State.mk.injEq, true_and] at he
  obtain ⟨rfl, rfl, rfl, rfl, rfl, rfl, rfl, rfl, rfl, rfl⟩ := he
  exact ⟨h.raft, hs, h.keys, h.reg, h.isSaved, h.known, h.pendR, h.compat, h.saved⟩

theorem map_unsynced {a b : Option State} (h : a.map (fun x => { x with unsynced := [] }) = b.map (fun x => { x with unsynced := [] }))
    {s : State} (hb : b = some s) : ∃ s', a = some s' ∧ { s' with unsynced := [] } = { s with unsynced := [] } := by
  subst hb
  cases a with
  | none => cases h
  | some s' =>
    simp only [Option.map_some, Option.some.injEq] at h
    exact ⟨s', rfl, h⟩

theorem Inv.execAllP (P : State → Prop)
    (hu : ∀ s s' : State, P s → { s' with unsynced := [] } = { s with unsynced := [] } → P s')
    (h1 : ∀ (s s' : State) (m : Mutation) (rest : List Mutation), Inv s → P s → s.pending = m :: rest →
      exec { s with pending := rest } [m] = some s' → P s')
    (ms : List Mutation) : ∀ {s : State} {rest : List Mutation}, Inv s → P s → s.pending = ms ++ rest →
    ∃ s', exec { s with pending := rest } ms = some s' ∧ Inv s' ∧ P s' ∧ s'.pending = rest := by
  induction ms with
  | nil =>
    intro s rest h hP hp
    have hs : ({ (⟨s.clients, s.sync, s.cacheOn, s.db, (if s.sync then [] else s.db :: s.unsynced), s.saved, s.metas, s.cache, rest, s.hist, s.released⟩ : State) with unsynced := [] } : State) = { s with unsynced := [] } := by
      cases s; simp only at hp; subst hp; rfl
    refine ⟨_, rfl, h.unsynced hs ?_, hu _ _ hP hs, rfl⟩
    intro hs
    exact exec_sync (s := { s with pending := rest }) (ms := []) rfl hs
  | cons m ms ih =>
    intro s rest h hP hp
    obtain ⟨s1, e1, h1', p1⟩ := h.exec1 (m := m) (rest := ms ++ rest) hp
    obtain ⟨s2, e2, h2, hP2, p2⟩ := ih (s := s1) (rest := rest) h1' (h1 _ _ _ _ h hP hp e1) p1
    have e1' : exec { s with pending := rest } [m] = some { s1 with pending := rest } := by
      rw [exec_pending] at e1 ⊢
      cases hx : exec s [m] with
      | none => rw [hx] at e1; cases e1
      | some y =>
        rw [hx] at e1
        simp only [Option.map_some, Option.some.injEq] at e1 ⊢
        subst e1
        rfl
    have hc := exec_cons { s with pending := rest } m ms
    have hb : (exec { s with pending := rest } [m]).bind (fun s' => exec s' ms) = some s2 := by
      rw [e1']; exact e2
    obtain ⟨s', g1, g2⟩ := map_unsynced hc hb
    refine ⟨s', g1, h2.unsynced g2 (exec_sync g1), hu _ _ hP2 g2, ?_⟩
    have : ({ s' with unsynced := [] } : State).pending = ({ s2 with unsynced := [] } : State).pending := by rw [g2]
    exact this.trans p2

theorem Inv.execAll (ms : List Mutation) {s : State} {rest : List Mutation} (h : Inv s) (hp : s.pending = ms ++ rest) :
    ∃ s', exec { s with pending := rest } ms = some s' ∧ Inv s' ∧ s'.pending = rest := by
  obtain ⟨s', a, b, _, c⟩ := Inv.execAllP (fun _ => True) (fun _ _ _ _ => trivial) (fun _ _ _ _ _ _ _ _ => trivial) ms h trivial hp
  exact ⟨s', a, b, c⟩

theorem pick_perm (ns : List Nat) (p : List Mutation) : List.Perm ((pick p ns).1 ++ (pick p ns).2) p := by
  induction ns generalizing p with
  | nil => exact List.Perm.refl _
  | cons n ns ih =>
    unfold pick
    cases hn : p[n]? with
    | none => exact ih p
    | some m =>
      simp only [List.cons_append]
      obtain ⟨hlt, hget⟩ := List.getElem?_eq_some_iff.1 hn
      refine ((ih (p.eraseIdx n)).cons m).trans ?_
      rw [List.eraseIdx_eq_take_drop_succ]
      have hp : p = p.take n ++ m :: p.drop (n + 1) := by
        rw [← hget, List.getElem_cons_drop, List.take_append_drop]
      refine (List.perm_middle.symm).trans ?_
      rw [← hp]

theorem RInv.repend {cl : List Client} {on : Bool} {v : View} (h : RInv cl on v) {p : List Mutation}
    (hp : ∀ m ∈ p, m ∈ v.pend ∨ PendOk cl v m) : RInv cl on { v with pend := p } := by
  refine ⟨h.spec, h.stored, h.kept, h.relRaft, h.mt, h.ca, ?_, h.mlast, h.bare⟩
  intro m hm
  have hok : PendOk cl v m := by
    rcases hp m hm with hm' | hm'
    · exact h.pend m hm'
    · exact hm'
  cases m with
  | _ => exact hok

theorem Inv.perm {s : State} (h : Inv s) {p : List Mutation} (hp : List.Perm p s.pending) : Inv { s with pending := p } := by
  refine ⟨h.raft, h.sync, h.keys, ?_, h.isSaved, h.known, ?_, ?_, h.saved⟩
  · intro r hr
    refine (h.reg r hr).repend ?_
    intro m hm
    left
    simp only [State.view, List.mem_filter] at hm ⊢
    exact ⟨hp.mem_iff.1 hm.1, hm.2⟩
  · intro m hm; exact h.pendR m (hp.mem_iff.1 hm)
  · exact (hp.pairwise_iff (fun {x y} => Compat.symm)).2 h.compat

theorem Inv.flush {s : State} (h : Inv s) (sel : List Nat) : ∃ s', step s (.flush sel) = some s' ∧ Inv s' := by
  obtain ⟨s', e, h', _⟩ := (h.perm (pick_perm sel s.pending)).execAll (pick s.pending sel).1 rfl
  exact ⟨s', e, h'⟩

/-! ## Handing a mutation to the queue -/

theorem Inv.enqueue {s : State} (h : Inv s) {m : Mutation} (hr : ValidR m.region)
    (hc : ∀ x ∈ s.pending, Compat x m) (hok : PendOk s.clients (s.view m.region) m) :
    Inv { s with pending := s.pending ++ [m] } := by
  refine h.oneRegion m.region rfl rfl h.sync rfl h.keys ?_ ?_ ?_ (fun _ _ => rfl) (fun _ => hr) (fun x => x) ?_
  · intro x hx
    rw [List.mem_append, List.mem_singleton] at hx
    rcases hx with hx | rfl
    · exact h.pendR x hx
    · exact hr
  · simp only
    rw [List.pairwise_append]
    refine ⟨h.compat, List.pairwise_singleton _ _, ?_⟩
    intro a ha b hb
    rw [List.mem_singleton] at hb
    subst hb
    exact hc a ha
  · intro r' hne _
    simp only [State.view]
    rw [List.filter_append, List.filter_cons_of_neg (by simpa using fun he => hne he.symm)]
    simp
  · intro _
    refine (h.reg m.region hr).repend ?_
    intro x hx
    rw [List.filter_append, List.mem_append] at hx
    rcases hx with hx | hx
    · exact .inl hx
    · rw [List.mem_filter, List.mem_singleton] at hx
      obtain ⟨rfl, _⟩ := hx
      exact .inr hok

theorem compat_of_idle {s : State} {r : Int} (h : Idle s r) {m : Mutation} (hm : m.region = r) (hd : m.isDestroy = false) :
    ∀ x ∈ s.pending, Compat x m := by
  intro x hx he
  have := h x hx (he.trans hm)
  refine ⟨.inl this, ?_, hd⟩
  cases x with
  | destroy r => cases this
  | _ => rfl

theorem Inv.append {s : State} (h : Inv s) {r : Int} {es : List (Int × LogEntry)} (hok : Ok s (.append r es)) :
    ∃ s', step s (.append r es) = some s' ∧ Inv s' := by
  obtain ⟨hr, hc, hi, ha⟩ := hok
  refine ⟨_, rfl, h.enqueue (m := .append r es) hr (compat_of_idle hi rfl rfl) ⟨?_, ha⟩⟩
  cases hx : s.cache r with
  | none => exact absurd hx hc
  | some l => exact ((h.reg r hr).ca l hx).1

theorem Inv.reset {s : State} (h : Inv s) {r n : Int} (hok : Ok s (.reset r n)) :
    ∃ s', step s (.reset r n) = some s' ∧ Inv s' := by
  obtain ⟨hr, hc, hi, h1, h2⟩ := hok
  refine ⟨_, rfl, h.enqueue (m := .reset r n) hr (compat_of_idle hi rfl rfl) ⟨?_, h1, h2⟩⟩
  cases hx : s.cache r with
  | none => exact absurd hx hc
  | some l => exact ((h.reg r hr).ca l hx).1

theorem Inv.destroy {s : State} (h : Inv s) {r : Int} (hok : Ok s (.destroy r)) :
    ∃ s', step s (.destroy r) = some s' ∧ Inv s' := by
  obtain ⟨hr, hq⟩ := hok
  exact ⟨_, rfl, h.enqueue (m := .destroy r) hr (fun x hx he => absurd he (hq x hx)) trivial⟩

theorem Inv.truncSuffix {s : State} (h : Inv s) {r k : Int} (hok : Ok s (.truncSuffix r k)) :
    ∃ s', step s (.truncSuffix r k) = some s' ∧ Inv s' := by
  obtain ⟨hr, hc, hi, h1, h2⟩ := hok
  have hR := h.reg r hr
  have hmt : s.metas r ≠ none := by
    cases hx : s.cache r with
    | none => exact absurd hx hc
    | some l => exact (hR.ca l hx).1
  simp only [step, LogStore.truncSuffix]
  cases hm : s.metas r with
  | none => exact absurd hm hmt
  | some m =>
    simp only
    split
    · exact ⟨s, rfl, h⟩
    · split
      · rename_i hk
        refine ⟨_, rfl, ?_⟩
        have hlog : specLog (s.hist r ++ [.truncSuffix k]) = (s.view r).log.apply (.truncSuffix k) := specLog_append _ _
        refine h.oneRegion r rfl rfl h.sync rfl h.keys h.pendR h.compat ?_ (fun _ _ => rfl) (fun _ => hr) (fun x => x) ?_
        · intro r' hne _
          simp only [State.view, upd_ne _ _ hne]
        · intro _
          simp only [State.view, upd_same]
          refine ⟨?_, ?_, ?_, ?_, hR.mt, ?_, ?_, hR.mlast, hR.bare⟩
          · simp only [View.log, hlog]; exact hR.spec.truncSuffix h1 h2
          · intro i x hx
            obtain ⟨e, he, rfl⟩ := hR.stored i x hx
            refine ⟨e, ?_, rfl⟩
            simp only [View.log, hlog, RLog.apply]
            rw [if_pos (by rw [hk]; exact hR.mlast m hm i _ hx)]
            exact he
          · intro i e he
            simp only [View.log, hlog, RLog.apply] at he
            split at he
            · exact hR.kept i e he
            · cases he
          · intro x hx
            simp only [View.log, hlog, RLog.apply]
            exact hR.relRaft x hx
          · intro l hl
            refine ⟨hmt, ?_⟩
            intro hon
            simp only at hl
            cases hcc : s.cache r with
            | none => rw [hcc] at hl; cases hl
            | some l0 =>
              rw [hcc] at hl
              simp only [Option.map_some, Option.some.injEq] at hl
              subst hl
              simp only [View.log, hlog]
              exact ((hR.ca l0 hcc).2 hon).truncSuffix _
          · intro m' hm'
            have hown : m'.own = false := by
              simp only [List.mem_filter, decide_eq_true_eq] at hm'
              exact hi m' hm'.1 hm'.2
            exact PendOk.vec (hR.pend m' hm') hown rfl hmt
      · refine ⟨_, rfl, h.enqueue (m := .cutSuffix r (k + 1)) hr (compat_of_idle hi rfl rfl) ⟨hmt, ?_, ?_⟩⟩
        · exact h1
        · simp only [Mutation.region]
          have : (s.view r).log = s.log r := rfl
          rw [this]; omega

/-! ## Prefix truncation -/

theorem scanKeeps_fst (c : Client) (k : Int) (l : List (Client × Int)) :
    (scanKeeps c k l).1.map (·.1) = l.map (·.1) := by
  induction l with
  | nil => rfl
  | cons x l ih =>
    unfold scanKeeps
    split
    · split
      · rfl
      · simp only [List.map_cons, ih]
    · simp only [List.map_cons, ih]

theorem scanKeeps_mem (c : Client) (k : Int) (l : List (Client × Int)) :
    ∀ c' x, (c', x) ∈ (scanKeeps c k l).1 → (c', x) ∈ l ∨ (c' = c ∧ x = k) := by
  induction l with
  | nil => intro c' x hx; cases hx
  | cons y l ih =>
    intro c' x hx
    unfold scanKeeps at hx
    split at hx
    · rename_i hc
      split at hx
      · exact .inl hx
      · simp only [List.mem_cons, Prod.mk.injEq] at hx
        rcases hx with ⟨rfl, rfl⟩ | hx
        · exact .inr ⟨hc, rfl⟩
        · rcases ih c' x hx with h | h
          · exact .inl (List.mem_cons_of_mem _ h)
          · exact .inr h
    · simp only [List.mem_cons] at hx
      rcases hx with hx | hx
      · exact .inl (by rw [hx]; simp)
      · rcases ih c' x hx with h | h
        · exact .inl (List.mem_cons_of_mem _ h)
        · exact .inr h

theorem scanKeeps_min (c : Client) (k : Int) (l : List (Client × Int)) :
    ∀ stop, (scanKeeps c k l).2 = some stop →
      stop ≤ maxI64 ∧ ∀ c' x, (c', x) ∈ (scanKeeps c k l).1 → stop ≤ x := by
  induction l with
  | nil =>
    intro stop h
    simp only [scanKeeps, Option.some.injEq] at h
    subst h
    exact ⟨Int.le_refl _, by intro c' x hx; cases hx⟩
  | cons y l ih =>
    intro stop h
    unfold scanKeeps at h ⊢
    split at h
    · rename_i hc
      rw [if_pos hc]
      split at h
      · cases h
      · rename_i hk
        rw [if_neg hk]
        simp only at h ⊢
        cases hs : (scanKeeps c k l).2 with
        | none => rw [hs] at h; cases h
        | some st =>
          rw [hs] at h
          simp only [Option.map_some, Option.some.injEq] at h
          obtain ⟨h1, h2⟩ := ih st hs
          refine ⟨by omega, ?_⟩
          intro c' x hx
          simp only [List.mem_cons, Prod.mk.injEq] at hx
          rcases hx with ⟨_, rfl⟩ | hx
          · omega
          · have := h2 c' x hx; omega
    · rename_i hc
      rw [if_neg hc]
      simp only at h ⊢
      cases hs : (scanKeeps c k l).2 with
      | none => rw [hs] at h; cases h
      | some st =>
        rw [hs] at h
        simp only [Option.map_some, Option.some.injEq] at h
        obtain ⟨h1, h2⟩ := ih st hs
        refine ⟨by omega, ?_⟩
        intro c' x hx
        simp only [List.mem_cons] at hx
        rcases hx with hx | hx
        · have : x = y.2 := by have := congrArg Prod.snd hx; exact this
          omega
        · have := h2 c' x hx; omega

theorem PendOk.vec' {cl : List Client} {v v' : View} {m : Mutation} (h : PendOk cl v m) (hm : m.own = false)
    (hrel : ∀ x ∈ v.rel, x ∈ v'.rel) (hmt : v'.mt ≠ none) : PendOk cl v' m := by
  cases m with
  | cutPrefix r stop own =>
    cases own with
    | some k => cases hm
    | none =>
      obtain ⟨_, h1, h2, h3, _⟩ := h
      refine ⟨hmt, h1, h2, ?_, fun k hk => by cases hk⟩
      intro c hc
      obtain ⟨k, hk, hle⟩ := h3 c hc
      exact ⟨k, hrel _ hk, hle⟩
  | _ => cases hm

theorem first_truncPrefix (L : RLog) (k : Int) : L.first ≤ (L.apply (.truncPrefix k)).first ∧ k ≤ (L.apply (.truncPrefix k)).first
    ∧ (L.apply (.truncPrefix k)).ent = L.ent := by
  simp only [RLog.apply]
  split
  · exact ⟨by simp only; omega, by simp only; omega, rfl⟩
  · exact ⟨Int.le_refl _, by omega, rfl⟩

/-- What a prefix truncation does to the region at once. -/
theorem RInv.callPrefix {cl : List Client} {on : Bool} {v : View} (h : RInv cl on v) {m : Meta} (hm : v.mt = some m)
    {c : Client} {k : Int} (hraft : c = .raft → k < maxI64 ∧ ∀ x ∈ v.pend, x.own = false)
    {ks : List (Client × Int)} (hf : ks.map (·.1) = cl)
    (hks : ∀ c' x, (c', x) ∈ ks → (c', x) ∈ m.keeps ∨ (c' = c ∧ x = k))
    {ca : Option TermMap} (hca : ca = v.ca ∨ (c = .raft ∧ ca = v.ca.map (TermMap.cutPrefix k))) :
    RInv cl on { v with
      hist := if c = .raft then v.hist ++ [Call.truncPrefix k] else v.hist
      rel := v.rel ++ [(c, k)]
      mt := some { m with keeps := ks }
      ca := ca } := by
  obtain ⟨m1, m2, m3⟩ := h.mt m hm
  have hmono : ∀ x ∈ v.rel, x ∈ v.rel ++ [(c, k)] := fun x hx => List.mem_append_left _ hx
  have hlog : specLog (if c = .raft then v.hist ++ [Call.truncPrefix k] else v.hist)
      = if c = .raft then v.log.apply (.truncPrefix k) else v.log := by
    split
    · exact specLog_append _ _
    · rfl
  have hent : (if c = .raft then v.log.apply (.truncPrefix k) else v.log).ent = v.log.ent := by
    split
    · exact (first_truncPrefix _ _).2.2
    · rfl
  have hent' := hent
  simp only [View.log] at hent'
  have hfirst : v.log.first ≤ (if c = .raft then v.log.apply (.truncPrefix k) else v.log).first := by
    split
    · exact (first_truncPrefix _ _).1
    · exact Int.le_refl _
  refine ⟨?_, ?_, ?_, ?_, ?_, ?_, ?_, ?_, by simp⟩
  · simp only [View.log, hlog]
    split
    · rename_i hc
      exact h.spec.truncPrefix (hraft hc).1
    · exact h.spec
  · simp only [View.log, hlog]
    intro i x hx
    rw [hent']
    exact h.stored i x hx
  · simp only [View.log, hlog]
    intro i e he
    rw [hent'] at he
    rcases h.kept i e he with hk | hk
    · exact .inl hk
    · right
      intro c' hc'
      obtain ⟨k', a, b⟩ := hk c' hc'
      exact ⟨k', hmono _ a, b⟩
  · simp only [View.log, hlog]
    intro k' hk'
    rw [List.mem_append, List.mem_singleton, Prod.mk.injEq] at hk'
    rcases hk' with hk' | ⟨hc, rfl⟩
    · have := h.relRaft k' hk'
      simp only [View.log] at hfirst this ⊢
      omega
    · rw [if_pos hc.symm]
      exact (first_truncPrefix _ _).2.1
  · intro m' hm'
    simp only [Option.some.injEq] at hm'
    subst hm'
    refine ⟨m1, hf, ?_⟩
    intro c' x hx
    rcases hks c' x hx with hx | ⟨rfl, rfl⟩
    · rcases m3 c' x hx with h1 | ⟨k', h1, h2⟩
      · exact .inl h1
      · exact .inr ⟨k', hmono _ h1, h2⟩
    · exact .inr ⟨x, by simp, Int.le_refl _⟩
  · intro l hl
    refine ⟨by simp, ?_⟩
    intro hon
    simp only [View.log, hlog]
    simp only at hl
    rcases hca with hca | ⟨hc, hca⟩
    · rw [hca] at hl
      exact ((h.ca l hl).2 hon).window hent hfirst
    · rw [hca] at hl
      cases hv : v.ca with
      | none => rw [hv] at hl; cases hl
      | some l0 =>
        rw [hv] at hl
        simp only [Option.map_some, Option.some.injEq] at hl
        subst hl
        refine (((h.ca l0 hv).2 hon).window hent hfirst).cutPrefix ?_
        rw [if_pos hc]
        exact (first_truncPrefix _ _).2.1
  · intro x hx
    by_cases hc : c = .raft
    · exact PendOk.vec' (h.pend x hx) ((hraft hc).2 x hx) hmono (by simp)
    · exact PendOk.same (h.pend x hx) (if_neg hc) hmono (by simp)
  · intro m' hm'
    simp only [Option.some.injEq] at hm'
    subst hm'
    exact h.mlast m hm

theorem truncPrefix_ok {s : State} {c : Client} {r k : Int} (h : Inv s) (hok : Ok s (.truncPrefix c r k)) :
    ValidR r ∧ s.metas r ≠ none ∧ Mutation.destroy r ∉ s.pending
    ∧ (c = .raft → k < maxI64 ∧ Idle s r) := by
  cases c with
  | raft =>
    obtain ⟨hr, hc, hi, hk⟩ := hok
    refine ⟨hr, ?_, ?_, fun _ => ⟨hk, hi⟩⟩
    · cases hx : s.cache r with
      | none => exact absurd hx hc
      | some l => exact ((h.reg r hr).ca l hx).1
    · intro hd
      have := hi _ hd rfl
      cases this
  | vec =>
    obtain ⟨h1, h2, h3⟩ := hok
    exact ⟨h.known r h1, h1, h2, fun hc => by cases hc⟩

theorem Inv.truncPrefix {s : State} (h : Inv s) {c : Client} {r k : Int} (hok : Ok s (.truncPrefix c r k)) :
    ∃ s', step s (.truncPrefix c r k) = some s' ∧ Inv s' := by
  obtain ⟨hr, hmt, hd, hraft⟩ := truncPrefix_ok h hok
  have hR := h.reg r hr
  simp only [step, LogStore.truncPrefix]
  cases hm : s.metas r with
  | none => exact absurd hm hmt
  | some m =>
    have hm' : (s.view r).mt = some m := hm
    have hraft' : c = .raft → k < maxI64 ∧ ∀ x ∈ (s.view r).pend, x.own = false := by
      intro hc
      refine ⟨(hraft hc).1, ?_⟩
      intro x hx
      simp only [State.view, List.mem_filter, decide_eq_true_eq] at hx
      exact (hraft hc).2 x hx.1 hx.2
    obtain ⟨m1, m2, m3⟩ := hR.mt m hm'
    have hcut : cutOwn c s.cache r k r = (s.view r).ca ∨ (c = .raft ∧ cutOwn c s.cache r k r = (s.view r).ca.map (TermMap.cutPrefix k)) := by
      unfold cutOwn
      split
      · rename_i hc
        exact .inr ⟨hc, upd_same _ _ _⟩
      · exact .inl rfl
    have hcutne : ∀ r', r' ≠ r → cutOwn c s.cache r k r' = s.cache r' := by
      intro r' hne
      unfold cutOwn
      split
      · exact upd_ne _ _ hne
      · rfl
    -- the state before a mutation is enqueued
    have key : ∀ (ks : List (Client × Int)) (ca : Int → Option TermMap), ks.map (·.1) = s.clients →
        (∀ c' x, (c', x) ∈ ks → (c', x) ∈ m.keeps ∨ (c' = c ∧ x = k)) →
        (ca r = (s.view r).ca ∨ (c = .raft ∧ ca r = (s.view r).ca.map (TermMap.cutPrefix k))) →
        (∀ r', r' ≠ r → ca r' = s.cache r') →
        Inv { s with
          hist := if c = Client.raft then upd s.hist r (s.hist r ++ [Call.truncPrefix k]) else s.hist
          released := upd s.released r (s.released r ++ [(c, k)])
          metas := upd s.metas r (some { m with keeps := ks })
          cache := ca } := by
      intro ks ca hf hks hca hcane
      refine h.oneRegion r rfl rfl h.sync rfl h.keys h.pendR h.compat ?_ ?_ (fun _ => hr) (fun _ => hmt) ?_
      · intro r' hne _
        simp only [State.view, upd_ne _ _ hne, hcane r' hne]
        split
        · simp only [upd_ne _ _ hne]
        · rfl
      · intro r' hne; exact upd_ne _ _ hne
      · intro _
        have := hR.callPrefix hm' (c := c) hraft' hf hks hca
        have hh : (if c = Client.raft then upd s.hist r (s.hist r ++ [Call.truncPrefix k]) else s.hist) r
            = if c = Client.raft then s.hist r ++ [Call.truncPrefix k] else s.hist r := by
          split
          · exact upd_same _ _ _
          · rfl
        simp only [State.view, upd_same, hh]
        exact this
    simp only
    split
    · refine ⟨_, rfl, ?_⟩
      have := key m.keeps (cutOwn c s.cache r k) m2 (fun _ _ hx => .inl hx) hcut hcutne
      have hmm : upd s.metas r (some { m with keeps := m.keeps }) = s.metas := by
        funext x
        unfold upd; split
        · rename_i hx; rw [hx, hm]
        · rfl
      rw [hmm] at this
      exact this
    · rename_i hkf
      have hf' := (scanKeeps_fst c k m.keeps).trans m2
      have hmem' := scanKeeps_mem c k m.keeps
      cases hs : (scanKeeps c k m.keeps).2 with
      | none => exact ⟨_, rfl, key _ (cutOwn c s.cache r k) hf' hmem' hcut hcutne⟩
      | some stop =>
        simp only
        split
        · exact ⟨_, rfl, key _ (cutOwn c s.cache r k) hf' hmem' hcut hcutne⟩
        · rename_i hst
          obtain ⟨a1, a2⟩ := scanKeeps_min c k m.keeps stop hs
          have hI := key _ s.cache hf' hmem' (.inl rfl) (fun _ _ => rfl)
          refine ⟨_, rfl, hI.enqueue (m := Mutation.cutPrefix r stop (if c = Client.raft then some k else none)) hr ?_ ?_⟩
          · intro x hx hxr
            refine ⟨?_, ?_, rfl⟩
            · by_cases hc : c = .raft
              · exact .inl ((hraft hc).2 x hx hxr)
              · right; rw [if_neg hc]; rfl
            · cases x with
              | destroy r' =>
                simp only [Mutation.region] at hxr
                subst hxr
                exact absurd hx hd
              | _ => rfl
          · refine ⟨by simp [State.view, Mutation.region, upd_same], by omega, by omega, ?_, ?_⟩
            · intro c' hc'
              have hc'' : c' ∈ (scanKeeps c k m.keeps).1.map (·.1) := by rw [hf']; exact hc'
              rw [List.mem_map] at hc''
              obtain ⟨⟨c2, x⟩, hx, rfl⟩ := hc''
              have hle := a2 _ _ hx
              obtain ⟨_, _, mm⟩ := (hI.reg r hr).mt { m with keeps := (scanKeeps c k m.keeps).1 } (by simp [State.view, upd_same])
              rcases mm _ _ hx with h0 | ⟨k', h1, h2⟩
              · omega
              · exact ⟨k', h1, by omega⟩
            · intro k' hk'
              split at hk'
              · rename_i hc
                cases hk'
                simp only [State.view, View.log, Mutation.region, if_pos hc, upd_same, specLog_append]
                exact (first_truncPrefix _ _).2.1
              · cases hk'

/-! ## Starting a node -/

theorem Inv.specOk {s : State} (h : Inv s) : ∀ r, ValidR r → SpecOk (s.log r) := fun r hr => (h.reg r hr).spec

theorem cells_get {db : Db} {r i : Int} (h0 : 0 ≤ i) (h : i < maxI64) : cells db r i = db.get (encodeKey r i) :=
  if_pos ⟨h0, h⟩

/-- The terms read back from the database. -/
theorem Inv.cacheOk {s : State} (h : Inv s) {r : Int} (hr : ValidR r) {es : List (Int × LogEntry)}
    (he : getEntries s.db r 0 maxI64 = some es) : CacheOk (registerTerms [] es) (s.log r) := by
  have hR := h.reg r hr
  obtain ⟨ps, g1, g2, g3⟩ := getEntries_spec h.dbOk h.specOk hr validI_zero validI_max
  rw [he] at g1
  cases g1
  have hasc : AscEntries es := by
    refine List.Pairwise.imp_of_mem ?_ g2
    intro a b ha hb hab
    refine ⟨hab, ?_⟩
    exact hR.spec.asc a.1 b.1 a.2 b.2 (Int.le_of_lt hab) ((g3 a.1 a.2).1 ha).2.2.1 ((g3 b.1 b.2).1 hb).2.2.1
  obtain ⟨l, a1, a2, a3, a4, a5, a6⟩ := appendTerms_ok hasc (l := []) List.Pairwise.nil (by simp)
  rw [a2]
  refine ⟨a3, ?_, ?_⟩
  · intro x hx
    rcases a4 x hx with hx | ⟨e, he', rfl⟩
    · cases hx
    · exact ⟨e.2, ((g3 e.1 e.2).1 he').2.2.1, rfl⟩
  · intro i e hi he'
    refine a6 (i, e) ?_
    rw [g3]
    have hv := validI_of_ent hR.spec he'
    refine ⟨hv.1.1, hv.2.1, he', ?_⟩
    rcases hR.kept i e he' with hk | hk
    · rw [← cells_get hv.1.1 hv.2.1]; exact hk
    · obtain ⟨k, k1, k2⟩ := hk .raft h.raft
      have := hR.relRaft k k1
      have hl : (s.view r).log.first = (s.log r).first := rfl
      omega

theorem Inv.register {s : State} (h : Inv s) {r : Int} (hr : ValidR r) :
    Inv (LogStore.register s r) ∧ (LogStore.register s r).metas r ≠ none := by
  unfold LogStore.register
  cases hm : s.metas r with
  | some m => exact ⟨h, by rw [hm]; simp⟩
  | none =>
    have hR := h.reg r hr
    simp only
    refine ⟨⟨h.raft, h.sync, h.keys, ?_, ?_, ?_, h.pendR, h.compat, ?_⟩, by simp [upd_same]⟩
    · intro r' hr'
      by_cases hne : r' = r
      · subst hne
        have hb : ∀ i, (s.view r').db i = none := hR.bare hm
        simp only [State.view, upd_same]
        refine ⟨hR.spec, hR.stored, hR.kept, hR.relRaft, ?_, fun l hl => ⟨by simp, (hR.ca l hl).2⟩, ?_, ?_, by simp⟩
        · intro m' hm'
          simp only [Option.some.injEq] at hm'
          subst hm'
          refine ⟨by simp, by simp only [List.map_map]; exact List.map_id _, ?_⟩
          intro c x hx
          simp only [List.mem_map, Prod.mk.injEq] at hx
          obtain ⟨_, _, _, rfl⟩ := hx
          exact .inl (Int.le_refl _)
        · intro m' hm'
          exact PendOk.same (hR.pend m' hm') rfl (fun x hx => hx) (by simp)
        · intro m' _ i x hx
          have hbi := hb i
          simp only [State.view] at hbi hx
          rw [hbi] at hx
          cases hx
      · have : ({ s with metas := upd s.metas r (some { first := 1, last := 0, keeps := s.clients.map (fun c => (c, (0 : Int))) }), saved := (r, s.clients.map (fun c => (c, (0 : Int)))) :: s.saved.filter (fun e => decide (e.1 ≠ r)) } : State).view r' = s.view r' := by
          simp only [State.view, upd_ne _ _ hne]
        rw [this]
        exact h.reg r' hr'
    · intro r' hr'
      by_cases hne : r' = r
      · subst hne
        exact ⟨_, List.mem_cons_self⟩
      · simp only [upd_ne _ _ hne] at hr'
        obtain ⟨ks, hks⟩ := h.isSaved r' hr'
        exact ⟨ks, List.mem_cons_of_mem _ (List.mem_filter.2 ⟨hks, by simpa using hne⟩)⟩
    · intro r' hr'
      by_cases hne : r' = r
      · subst hne; exact hr
      · simp only [upd_ne _ _ hne] at hr'
        exact h.known r' hr'
    · intro x hx
      rw [List.mem_cons] at hx
      rcases hx with rfl | hx
      · refine ⟨hr, by simp only [List.map_map]; exact List.map_id _, ?_⟩
        intro y hy
        rw [List.mem_map] at hy
        obtain ⟨_, _, rfl⟩ := hy
        rfl
      · exact h.saved x (List.mem_filter.1 hx).1

theorem register_frame (s : State) (r : Int) : (LogStore.register s r).db = s.db ∧ (LogStore.register s r).hist = s.hist
    ∧ (LogStore.register s r).cache = s.cache ∧ (LogStore.register s r).cacheOn = s.cacheOn := by
  unfold LogStore.register
  split <;> exact ⟨rfl, rfl, rfl, rfl⟩

theorem Inv.openRegion {s : State} (h : Inv s) {r : Int} (hok : Ok s (.openRegion r)) :
    ∃ s', step s (.openRegion r) = some s' ∧ Inv s' := by
  obtain ⟨hr, _, _⟩ := hok
  obtain ⟨hI, hmt⟩ := h.register hr
  simp only [step, LogStore.openRegion]
  generalize LogStore.register s r = s1 at hI hmt
  obtain ⟨ps, g1, _, _⟩ := getEntries_spec hI.dbOk hI.specOk hr validI_zero validI_max
  have hR := hI.reg r hr
  simp only [getConfigurations, g1, Option.map_some]
  refine ⟨_, rfl, ?_⟩
  refine hI.oneRegion r rfl rfl hI.sync rfl hI.keys hI.pendR hI.compat ?_ (fun _ _ => rfl) (fun _ => hr) (fun x => x) ?_
  · intro r' hne _
    simp only [State.view, upd_ne _ _ hne]
  · intro _
    simp only [State.view, upd_same]
    refine ⟨hR.spec, hR.stored, hR.kept, hR.relRaft, hR.mt, ?_, fun m hm => PendOk.same (hR.pend m hm) rfl (fun x hx => hx) hmt, hR.mlast, hR.bare⟩
    intro l hl
    refine ⟨hmt, ?_⟩
    intro hon
    rw [if_pos hon] at hl
    cases hl
    exact hI.cacheOk hr g1

theorem loadMetas_ok {db : Db} {L : Int → RLog} (h : DbOk db L) (hL : ∀ r, ValidR r → SpecOk (L r))
    (l : List (Int × List (Client × Int))) (hl : ∀ x ∈ l, ValidR x.1) :
    ∃ metas, loadMetas db l = some metas
      ∧ (∀ r m, metas r = some m → ∃ ks, (r, ks) ∈ l ∧ m.keeps = ks ∧ firstOnDisk db r = some m.first ∧ lastOnDisk db r = some m.last)
      ∧ (∀ x ∈ l, metas x.1 ≠ none) := by
  induction l with
  | nil => exact ⟨_, rfl, (by intro r m hm; cases hm), by simp⟩
  | cons x l ih =>
    obtain ⟨metas, g1, g2, g3⟩ := ih (fun y hy => hl y (by simp [hy]))
    have hx := hl x (by simp)
    obtain ⟨f, hf, _⟩ := firstOnDisk_spec h hL hx
    obtain ⟨t, ht, _⟩ := lastOnDisk_spec h hL hx
    refine ⟨upd metas x.1 (some { first := f, last := t, keeps := x.2 }), ?_, ?_, ?_⟩
    · unfold loadMetas
      simp only [hf, ht, g1]
    · intro r m hm
      by_cases hr : r = x.1
      · subst hr
        rw [upd_same] at hm
        cases hm
        exact ⟨x.2, by simp, rfl, hf, ht⟩
      · rw [upd_ne _ _ hr] at hm
        obtain ⟨ks, a, b⟩ := g2 r m hm
        exact ⟨ks, by simp [a], b⟩
    · intro y hy
      by_cases hr : y.1 = x.1
      · rw [hr, upd_same]; simp
      · rw [upd_ne _ _ hr]
        rw [List.mem_cons] at hy
        rcases hy with rfl | hy
        · exact absurd rfl hr
        · exact g3 y hy

theorem Inv.boot {s : State} (h : Inv s) : ∃ s', LogStore.boot s s.db = some s' ∧ Inv s' := by
  obtain ⟨metas, g1, g2, g3⟩ := loadMetas_ok h.dbOk h.specOk s.saved (fun x hx => (h.saved x hx).1)
  simp only [LogStore.boot, g1]
  refine ⟨_, rfl, ⟨h.raft, fun _ => rfl, h.keys, ?_, ?_, ?_, by simp, List.Pairwise.nil, h.saved⟩⟩
  · intro r hr
    have hR := h.reg r hr
    obtain ⟨t, ht, _, htm⟩ := lastOnDisk_spec h.dbOk h.specOk hr
    obtain ⟨f, hf, hf1, _⟩ := firstOnDisk_spec h.dbOk h.specOk hr
    refine ⟨hR.spec, hR.stored, hR.kept, hR.relRaft, ?_, (by intro l hl; cases hl), ?_, ?_, ?_⟩
    · intro m hm
      obtain ⟨ks, a, b, c, d⟩ := g2 r m hm
      have := h.saved _ a
      subst b
      rw [hf] at c
      cases c
      refine ⟨by omega, this.2.1, ?_⟩
      intro c' x hx
      exact .inl (Int.le_of_eq (this.2.2 _ hx))
    · intro m hm; simp only [State.view, List.filter_nil] at hm; cases hm
    · intro m hm i x hx
      obtain ⟨ks, a, b, c, d⟩ := g2 r m hm
      rw [ht] at d
      cases d
      have hx' := hx
      simp only [State.view, cells] at hx'
      split at hx'
      · rename_i hi
        rcases htm with ⟨_, hn⟩ | ⟨_, _, hn⟩
        · rw [hn i (validI_lt hi.1 hi.2) hi.2] at hx'; cases hx'
        · exact hn i x (validI_lt hi.1 hi.2) hi.2 hx'
      · cases hx'
    · intro hm
      refine hR.bare ?_
      simp only [State.view] at hm ⊢
      cases hx : s.metas r with
      | none => rfl
      | some m =>
        obtain ⟨ks, hks⟩ := h.isSaved r (by rw [hx]; simp)
        exact absurd hm (g3 _ hks)
  · intro r hr
    cases hm : metas r with
    | none => exact absurd hm hr
    | some m =>
      obtain ⟨ks, a, _⟩ := g2 r m hm
      exact ⟨ks, a⟩
  · intro r hr
    cases hm : metas r with
    | none => exact absurd hm hr
    | some m =>
      obtain ⟨ks, a, _⟩ := g2 r m hm
      exact (h.saved _ a).1

theorem Inv.step {s : State} (h : Inv s) {e : Event} (hok : Ok s e) : ∃ s', LogStore.step s e = some s' ∧ Inv s' := by
  cases e with
  | openRegion r => exact h.openRegion hok
  | append r es => exact h.append hok
  | truncPrefix c r k => exact h.truncPrefix hok
  | truncSuffix r k => exact h.truncSuffix hok
  | reset r n => exact h.reset hok
  | destroy r => exact h.destroy hok
  | flush sel => exact h.flush sel
  | restart => exact h.boot
  | crash n =>
    have hdb : ((s.db :: s.unsynced)[n]?).getD s.db = s.db := by
      rcases hok with hs | rfl
      · rw [h.sync hs]
        cases n <;> rfl
      · rfl
    simp only [LogStore.step, hdb]
    exact h.boot

theorem Inv.init (clients : List Client) (sync cacheOn : Bool) (h : Client.raft ∈ clients) :
    Inv (State.init clients sync cacheOn) where
  raft := h
  sync := fun _ => rfl
  keys := by intro k v hk; rw [State.init, CF.get_empty] at hk; cases hk
  reg := by
    intro r _
    have : (State.init clients sync cacheOn).view r = { db := fun _ => none, hist := [], rel := [], mt := none, ca := none, pend := [] } := by
      simp only [State.view, State.init, List.filter_nil, View.mk.injEq, and_true]
      funext i
      unfold cells
      rw [CF.get_empty]
      split <;> rfl
    rw [this]
    exact RInv.destroy _ _
  isSaved := by intro r hr; exact absurd rfl hr
  known := by intro r hr; exact absurd rfl hr
  pendR := by intro m hm; cases hm
  compat := List.Pairwise.nil
  saved := by intro x hx; cases hx

theorem Inv.run {s : State} (h : Inv s) (es : List Event) (hok : AllOk s es) : ∃ s', LogStore.run s es = some s' ∧ Inv s' := by
  induction es generalizing s with
  | nil => exact ⟨s, rfl, h⟩
  | cons e es ih =>
    obtain ⟨s1, e1, h1⟩ := h.step hok.1
    obtain ⟨s2, e2, h2⟩ := ih h1 (hok.2 s1 e1)
    refine ⟨s2, ?_, h2⟩
    simp only [LogStore.run, foldOpt, e1]
    exact e2

end Verif.LogStore
