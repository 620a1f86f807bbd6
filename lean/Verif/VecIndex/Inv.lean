import Verif.VecIndex.Agree

/-! # What holds after every run whose steps are all as in `okEv` -/

namespace Verif.VecIndex

theorem calls_log {c : Cmd} {p : Nat} {o : Op} (h : c.calls[p]? = some (o, .log)) : p = 0 := by
  cases p with
  | zero => rfl
  | succ p =>
    exfalso
    revert h
    unfold Cmd.calls
    cases c <;> simp only
    · simp
    · split <;> simp
    · split
      · split <;> simp
      · split
        · simp
        · cases p <;> simp
    · split
      · split <;> simp
      · split
        · simp
        · cases p <;> simp
    · simp
    · simp

theorem St.calls_eq {s : St} {e : Entry} (h : s.log[s.applied]? = some e) : s.calls = e.calls := by
  unfold St.calls St.entry; rw [h]

theorem St.calls_log {s : St} {p : Nat} {o : Op} (h : s.calls[p]? = some (o, .log)) : p = 0 := by
  unfold St.calls at h
  split at h
  · next e _ =>
    unfold Entry.calls at h
    split at h
    · exact VecIndex.calls_log h
    · cases h
  · cases h

/-- How far the region's index is, in writes: as far as the apply thread, or, if entries will be left
out because the wrapper's id is larger, as far as that id. -/
def St.front (s : St) : Nat :=
  if s.wapply ≤ s.applied ∨ s.hot = true then s.pos else off s.log s.wapply

/-- About the apply thread. -/
def PhOk (s : St) : Prop :=
  match s.ph with
  | .idle => s.hot = false
  | .at p go => s.applied < s.dataLog ∧ p ≤ s.calls.length ∧ (p = 0 → s.hot = false) ∧
      (go = true → s.hot = true ∨ s.wapply ≤ s.applied) ∧
      (go = false → p ≠ 0 → s.own ≠ none → s.applied < s.wapply ∧ s.hot = false)
  | .wait p => s.applied < s.dataLog ∧ p < s.calls.length ∧ (p = 0 → s.hot = false) ∧
      (s.hot = true ∨ s.wapply ≤ s.applied)
  | .passed p => s.applied < s.dataLog ∧ p < s.calls.length ∧ (p = 0 → s.hot = false) ∧
      (s.hot = true ∨ s.wapply ≤ s.applied)
  | .got p _ => s.applied < s.dataLog ∧ p < s.calls.length ∧
      (s.hot = true ∨ s.wapply ≤ s.applied)
  | .did p _ => s.applied < s.dataLog ∧ p < s.calls.length ∧ s.hot = true

structure Inv (s : St) : Prop where
  dataOk : ∀ i, held s.data i = (lastWrite (writes (s.log.take s.dataLog)) i).toList
  dataNd : (s.data.map (·.1)).Nodup
  logLe : s.dataLog ≤ s.log.length
  appLe : s.applied ≤ s.dataLog
  diskLe : s.disk ≤ s.applied
  wLe : s.wapply ≤ s.dataLog
  savedLe : s.saved ≤ s.dataLog
  phOk : PhOk s
  hotW : s.hot = true → s.wapply ≤ s.applied + 1
  snapOk : ∀ x, s.snap = some x → x.applyLog ≤ s.dataLog ∧
    Agree (writes s.log) x.content (off s.log x.applyLog) (off s.log s.dataLog)
  tIdx : ∀ (j : Nat) (t : Task), s.tasks[j]? = some t → t.idx < s.idxs.length
  tInj : ∀ (i j : Nat) (a b : Task), s.tasks[i]? = some a → s.tasks[j]? = some b → a.idx = b.idx → i = j
  tOk : ∀ (j : Nat) (t : Task) (x : Idx), s.tasks[j]? = some t → s.idxs[t.idx]? = some x → t.ph ≠ .swapped →
    x.applyLog ≤ s.dataLog ∧ (t.ph ≠ .fresh →
      Agree (writes s.log) x.content (off s.log x.applyLog) (off s.log s.dataLog))
  ownOk : ∀ k, s.own = some k → ∃ x, s.idxs[k]? = some x ∧
    Agree (writes s.log) x.content s.front (off s.log s.dataLog)
  ownT : ∀ k, s.own = some k → ∀ (j : Nat) (t : Task), s.tasks[j]? = some t → t.ph ≠ .swapped → t.idx ≠ k
  gotT : ∀ p k, s.ph = .got p k → k < s.idxs.length ∧
    (∀ (j : Nat) (t : Task), s.tasks[j]? = some t → t.ph ≠ .swapped → t.idx ≠ k) ∧ ∀ k', s.own = some k' → k' = k

theorem Inv.init : Inv {} where
  dataOk := fun i => by cases i <;> rfl
  dataNd := List.nodup_nil
  logLe := Nat.le_refl _
  appLe := Nat.le_refl _
  diskLe := Nat.le_refl _
  wLe := Nat.le_refl _
  savedLe := Nat.le_refl _
  phOk := rfl
  hotW := fun h => by cases h
  snapOk := fun _ h => by cases h
  tIdx := fun _ _ h => by cases h
  tInj := fun _ _ _ _ h => by cases h
  tOk := fun _ _ _ h => by cases h
  ownOk := fun _ h => by cases h
  ownT := fun _ h => by cases h
  gotT := fun _ _ h => by cases h

/-! ### The data -/

theorem removeIds_nodup {d : Content} (h : (d.map (·.1)).Nodup) (ids : List Nat) :
    ((removeIds d ids).map (·.1)).Nodup :=
  (List.Sublist.map _ List.filter_sublist).nodup h

theorem addPoint_nodup {d : Content} (h : (d.map (·.1)).Nodup) (p : Nat × Nat) :
    ((addPoint d p).map (·.1)).Nodup := by
  unfold addPoint
  rw [List.map_append, List.nodup_append]
  refine ⟨removeIds_nodup h _, by simp, ?_⟩
  intro a ha b hb hab
  simp only [List.map_cons, List.map_nil, List.mem_singleton] at hb
  have h1 : held (removeIds d [p.1]) a = [] := by
    rw [held_removeIds, if_pos (by simp [hab, hb])]
  exact held_eq_nil.1 h1 ha

theorem store_nodup {d : Content} (h : (d.map (·.1)).Nodup) (e : Entry) :
    ((e.store d).map (·.1)).Nodup := by
  unfold Entry.store
  generalize e.calls = cs
  induction cs generalizing d with
  | nil => exact h
  | cons c cs ih =>
    rw [List.foldl_cons]
    refine ih ?_
    cases c.1 with
    | del ids => exact removeIds_nodup h ids
    | add up vs =>
      show ((vs.foldl addPoint d).map (·.1)).Nodup
      clear ih
      induction vs generalizing d with
      | nil => exact h
      | cons p vs ih => exact ih (addPoint_nodup h p)

theorem dataOk_store {log : List Entry} {n : Nat} {e : Entry} {d : Content}
    (he : log[n]? = some e) (h : ∀ i, held d i = (lastWrite (writes (log.take n)) i).toList) (i : Nat) :
    held (e.store d) i = (lastWrite (writes (log.take (n + 1))) i).toList := by
  rw [held_entry_store, h i, List.take_add_one, he, writes_append]
  unfold lastWrite
  rw [lastVal_append]
  have : writes (some e).toList = e.ops := by simp [writes]
  rw [this]
  cases lastVal e.ops i with
  | none => rfl
  | some v => rfl

/-! ### Committing -/

theorem Agree.commit {log : List Entry} {c : Content} {a m : Nat} (e : Entry)
    (h : Agree (writes log) c a m) : Agree (writes (log ++ [e])) c a m := by
  rw [writes_append]; exact h.append _

theorem calls_commit {s : St} (e : Entry) (h : s.applied < s.log.length) :
    St.calls { s with log := s.log ++ [e] } = s.calls := by
  unfold St.calls St.entry
  show (match (s.log ++ [e])[s.applied]? with | some e => e.calls | none => []) = _
  rw [List.getElem?_append_left h]
  cases s.log[s.applied]? <;> rfl

theorem pos_commit {s : St} (e : Entry) (h : s.applied ≤ s.log.length) :
    St.pos { s with log := s.log ++ [e] } = s.pos := by
  unfold St.pos
  simp only [off_append e h]

theorem Inv.commit {s : St} (h : Inv s) (e : Entry) :
    Inv { s with log := s.log ++ [e] } := by
  have hal : s.applied ≤ s.log.length := Nat.le_trans h.appLe h.logLe
  have hod := off_append e h.logLe
  have hag : ∀ {c a n}, n ≤ s.dataLog → a = off s.log n →
      Agree (writes s.log) c a (off s.log s.dataLog) →
      Agree (writes (s.log ++ [e])) c (off (s.log ++ [e]) n) (off (s.log ++ [e]) s.dataLog) := by
    intro c a n hn ha hA
    rw [hod, off_append e (Nat.le_trans hn h.logLe), ← ha]
    exact hA.commit e
  exact {
    dataOk := fun i => by
      show held s.data i = (lastWrite (writes ((s.log ++ [e]).take s.dataLog)) i).toList
      rw [List.take_append_of_le_length h.logLe]; exact h.dataOk i
    dataNd := h.dataNd
    logLe := by
      show s.dataLog ≤ (s.log ++ [e]).length
      rw [List.length_append]; exact Nat.le_trans h.logLe (Nat.le_add_right _ _)
    appLe := h.appLe
    diskLe := h.diskLe
    wLe := h.wLe
    savedLe := h.savedLe
    phOk := by
      have hp := h.phOk
      unfold PhOk at hp ⊢
      show (match s.ph with
        | .idle => _ | .at p go => _ | .wait p => _ | .passed p => _ | .got p k => _ | .did p k => _)
      have hc : ∀ (hm : s.applied < s.dataLog), (s.log ++ [e])[s.applied]? = s.log[s.applied]? :=
        fun hm => List.getElem?_append_left (Nat.lt_of_lt_of_le hm h.logLe)
      cases hph : s.ph <;> simp only [hph] at hp ⊢
      · exact hp
      all_goals
        have hm := hp.1
        simp only [St.calls, St.entry, hc hm] at hp ⊢
        exact hp
    hotW := h.hotW
    snapOk := fun x hx => ⟨(h.snapOk x hx).1, hag (h.snapOk x hx).1 rfl (h.snapOk x hx).2⟩
    tIdx := h.tIdx
    tInj := h.tInj
    tOk := fun j t x ht hx hne => ⟨(h.tOk j t x ht hx hne).1, fun hf =>
      hag (h.tOk j t x ht hx hne).1 rfl ((h.tOk j t x ht hx hne).2 hf)⟩
    ownOk := fun k hk => by
      obtain ⟨x, hx, hA⟩ := h.ownOk k hk
      refine ⟨x, hx, ?_⟩
      have hfr : St.front { s with log := s.log ++ [e] } = s.front := by
        unfold St.front
        rw [pos_commit e hal]
        show (if s.wapply ≤ s.applied ∨ s.hot = true then s.pos else off (s.log ++ [e]) s.wapply) = _
        rw [off_append e (Nat.le_trans h.wLe h.logLe)]
      rw [hfr]
      show Agree (writes (s.log ++ [e])) x.content s.front (off (s.log ++ [e]) s.dataLog)
      rw [hod]; exact hA.commit e
    ownT := h.ownT
    gotT := h.gotT }

/-! ### The apply thread -/

theorem Inv.write {s : St} (h : Inv s) (hph : s.ph = .idle) {e : Entry}
    (he : s.log[s.applied]? = some e) :
    Inv { s with
      ph := .at 0 false
      hot := false
      data := if s.dataLog ≤ s.applied then e.store s.data else s.data
      dataLog := max s.dataLog (s.applied + 1) } := by
  have hlt : s.applied < s.log.length := (List.getElem?_eq_some_iff.1 he).1
  have hml : max s.dataLog (s.applied + 1) ≤ s.log.length := Nat.max_le.2 ⟨h.logLe, hlt⟩
  have hle : s.dataLog ≤ max s.dataLog (s.applied + 1) := Nat.le_max_left _ _
  have hgrow : ∀ {c a}, Agree (writes s.log) c a (off s.log s.dataLog) →
      Agree (writes s.log) c a (off s.log (max s.dataLog (s.applied + 1))) :=
    fun hA => hA.grow (off_mono _ hle) (off_le _ _)
  exact {
    dataOk := fun i => by
      show held (if s.dataLog ≤ s.applied then e.store s.data else s.data) i =
        (lastWrite (writes (s.log.take (max s.dataLog (s.applied + 1)))) i).toList
      by_cases hd : s.dataLog ≤ s.applied
      · have heq : s.dataLog = s.applied := Nat.le_antisymm hd h.appLe
        rw [if_pos hd, Nat.max_eq_right (by omega)]
        exact dataOk_store he (heq ▸ h.dataOk) i
      · rw [if_neg hd, Nat.max_eq_left (by omega)]
        exact h.dataOk i
    dataNd := by
      show ((if s.dataLog ≤ s.applied then e.store s.data else s.data).map (·.1)).Nodup
      split
      · exact store_nodup h.dataNd e
      · exact h.dataNd
    logLe := hml
    appLe := Nat.le_trans h.appLe hle
    diskLe := h.diskLe
    wLe := Nat.le_trans h.wLe hle
    savedLe := Nat.le_trans h.savedLe hle
    phOk := by
      refine ⟨?_, Nat.zero_le _, fun _ => rfl, (fun hg => by cases hg), fun _ h0 => absurd rfl h0⟩
      show s.applied < max s.dataLog (s.applied + 1)
      omega
    hotW := fun hh => by cases hh
    snapOk := fun x hx => ⟨Nat.le_trans (h.snapOk x hx).1 hle, hgrow (h.snapOk x hx).2⟩
    tIdx := h.tIdx
    tInj := h.tInj
    tOk := fun j t x ht hx hne => ⟨Nat.le_trans (h.tOk j t x ht hx hne).1 hle,
      fun hf => hgrow ((h.tOk j t x ht hx hne).2 hf)⟩
    ownOk := fun k hk => by
      obtain ⟨x, hx, hA⟩ := h.ownOk k hk
      refine ⟨x, hx, ?_⟩
      have hhot : s.hot = false := by have := h.phOk; unfold PhOk at this; rwa [hph] at this
      have : s.front = (if s.wapply ≤ s.applied ∨ false = true then off s.log s.applied + 0
          else off s.log s.wapply) := by
        unfold St.front St.pos; rw [hph, hhot]; simp
      rw [this] at hA
      exact hgrow hA
    ownT := h.ownT
    gotT := fun _ _ hg => by cases hg }

/-- A step of the apply thread that only moves it. -/
theorem Inv.move {s : St} (h : Inv s) {ph : Ph} (hp : PhOk { s with ph := ph })
    (hg : ∀ p k, ph = .got p k → k < s.idxs.length ∧
      (∀ (j : Nat) (t : Task), s.tasks[j]? = some t → t.ph ≠ .swapped → t.idx ≠ k) ∧ ∀ k', s.own = some k' → k' = k)
    (hf : s.own ≠ none → St.front { s with ph := ph } = s.front) : Inv { s with ph := ph } where
  dataOk := h.dataOk
  dataNd := h.dataNd
  logLe := h.logLe
  appLe := h.appLe
  diskLe := h.diskLe
  wLe := h.wLe
  savedLe := h.savedLe
  phOk := hp
  hotW := h.hotW
  snapOk := h.snapOk
  tIdx := h.tIdx
  tInj := h.tInj
  tOk := h.tOk
  ownOk := fun k hk => by
    obtain ⟨x, hx, hA⟩ := h.ownOk k hk
    refine ⟨x, hx, ?_⟩
    rw [hf (by show s.own ≠ none; rw [show s.own = some k from hk]; exact fun e => by cases e)]
    exact hA
  ownT := h.ownT
  gotT := hg

theorem Inv.check {g : Cfg} {s : St} (h : Inv s) (hok : okEv g s .check = true) :
    Inv (step g s .check) := by
  unfold step
  cases hph : s.ph with
  | «at» p go =>
    simp only [okEv, hph] at hok
    simp only
    cases hc : s.calls[p]? with
    | none => exact h
    | some oc =>
      obtain ⟨o, c⟩ := oc
      rw [hc] at hok
      simp only
      have hphOk := h.phOk
      unfold PhOk at hphOk
      rw [hph] at hphOk
      simp only at hphOk
      obtain ⟨hm, hple, h0, hgo, hskip⟩ := hphOk
      have hlt : p < s.calls.length := (List.getElem?_eq_some_iff.1 hc).1
      -- the two outcomes
      have hwait : (s.hot = true ∨ s.wapply ≤ s.applied) → Inv { s with ph := .wait p } := by
        intro hw
        refine h.move (ph := .wait p) ⟨hm, hlt, h0, hw⟩ (fun _ _ hg => by cases hg) (fun _ => ?_)
        unfold St.front St.pos; rw [hph]
      have hnext : (s.own ≠ none → s.applied < s.wapply ∧ s.hot = false) →
          Inv { s with ph := .at (p + 1) false } := by
        intro hw
        refine h.move (ph := .at (p + 1) false)
          ⟨hm, hlt, (fun e => by cases e), (fun e => by cases e), fun _ _ => hw⟩
          (fun _ _ hg => by cases hg) (fun ho => ?_)
        obtain ⟨h1, h2⟩ := hw ho
        unfold St.front
        show (if s.wapply ≤ s.applied ∨ s.hot = true then _ else off s.log s.wapply) = _
        rw [if_neg (by rw [h2]; simp; omega), if_neg (by rw [h2]; simp; omega)]
      cases c with
      | log =>
        have hp0 := St.calls_log hc
        by_cases hcond : (s.own.isSome && decide (s.wapply < s.applied + 1)) = true
        · simp only [hcond, if_true]
          rw [Bool.and_eq_true, decide_eq_true_eq] at hcond
          exact hwait (.inr (by omega))
        · simp only [Bool.eq_false_iff.2 hcond]
          refine hnext (fun ho => ⟨?_, h0 hp0⟩)
          rw [Bool.and_eq_true, decide_eq_true_eq] at hcond
          have : s.own.isSome = true := Option.isSome_iff_ne_none.2 ho
          exact Nat.lt_of_not_le (fun hw => hcond ⟨this, Nat.lt_succ_of_le hw⟩)
      | always =>
        simp only at hok
        by_cases hcond : s.own.isSome = true
        · simp only [hcond, if_true]
          have hn : s.own.isNone = false := by cases hs : s.own <;> simp_all
          rw [hn] at hok
          simp only [Bool.false_or, Bool.or_eq_true, decide_eq_true_eq] at hok
          exact hwait hok
        · simp only [Bool.eq_false_iff.2 hcond]
          exact hnext (fun ho => absurd (Option.isSome_iff_ne_none.2 ho) hcond)
      | same =>
        cases hgv : go with
        | true => simp only [if_true]; exact hwait (hgo hgv)
        | false =>
          simp only
          have hp0 : p ≠ 0 := by
            intro e
            subst e
            revert hc
            unfold St.calls
            split
            · next e _ =>
              unfold Entry.calls
              split
              · unfold Cmd.calls
                cases e.cmd <;> simp only <;> (repeat' split) <;> simp
              · simp
            · simp
          exact hnext (fun ho => hskip hgv hp0 ho)
  | idle => exact h
  | wait p => exact h
  | passed p => exact h
  | got p k => exact h
  | did p k => exact h

theorem Inv.pass {g : Cfg} {s : St} (h : Inv s) : Inv (step g s .pass) := by
  unfold step
  cases hph : s.ph with
  | wait p =>
    simp only
    have hphOk := h.phOk
    unfold PhOk at hphOk
    rw [hph] at hphOk
    simp only at hphOk
    obtain ⟨hm, hlt, h0, hw⟩ := hphOk
    split
    · next hown =>
      exact h.move (ph := .at (p + 1) true)
        ⟨hm, hlt, (fun e => by cases e), (fun _ => hw), (fun e => by cases e)⟩
        (fun _ _ hg => by cases hg) (fun ho => absurd hown ho)
    · split
      · exact h
      · refine h.move (ph := .passed p) ⟨hm, hlt, h0, hw⟩ (fun _ _ hg => by cases hg) (fun _ => ?_)
        unfold St.front St.pos; rw [hph]
  | idle => exact h
  | «at» p k => exact h
  | passed p => exact h
  | got p k => exact h
  | did p k => exact h

theorem Inv.take {g : Cfg} {s : St} (h : Inv s) : Inv (step g s .take) := by
  unfold step
  cases hph : s.ph with
  | passed p =>
    simp only
    have hphOk := h.phOk
    unfold PhOk at hphOk
    rw [hph] at hphOk
    simp only at hphOk
    obtain ⟨hm, hlt, h0, hw⟩ := hphOk
    split
    · next k hown =>
      refine h.move (ph := .got p k) ⟨hm, hlt, hw⟩ (fun p' k' hg => ?_) (fun _ => ?_)
      · injection hg with _ e
        subst e
        obtain ⟨x, hx, _⟩ := h.ownOk k hown
        refine ⟨(List.getElem?_eq_some_iff.1 hx).1, h.ownT k hown, fun k' hk' => ?_⟩
        rw [hown] at hk'; injection hk' with e; exact e.symm
      · unfold St.front St.pos; rw [hph]
    · next hown =>
      exact h.move (ph := .at (p + 1) true)
        ⟨hm, hlt, (fun e => by cases e), (fun _ => hw), (fun e => by cases e)⟩
        (fun _ _ hg => by cases hg) (fun ho => absurd hown ho)
  | idle => exact h
  | «at» p k => exact h
  | wait p => exact h
  | got p k => exact h
  | did p k => exact h

theorem Inv.call {g : Cfg} (hg : g.ok = true) {s : St} (h : Inv s)
    (hok : okEv g s .call = true) : Inv (step g s .call) := by
  unfold step
  cases hph : s.ph with
  | got p k =>
    simp only [okEv, hph] at hok
    simp only
    cases hc : s.calls[p]? with
    | none => simp only; exact h
    | some oc =>
      obtain ⟨o, c⟩ := oc
      cases hx : s.idxs[k]? with
      | none => simp only; exact h
      | some x =>
        rw [hc, hx] at hok
        simp only at hok ⊢
        have hphOk := h.phOk
        unfold PhOk at hphOk
        rw [hph] at hphOk
        simp only at hphOk
        obtain ⟨hm, hlt, hw⟩ := hphOk
        obtain ⟨hk, hkt, hko⟩ := h.gotT p k hph
        have hget : ∀ k', k' ≠ k → ∀ y : Idx, (s.idxs.set k y)[k']? = s.idxs[k']? :=
          fun k' hne y => List.getElem?_set_ne (fun e => hne e.symm)
        have hlog : s.applied < s.log.length := Nat.lt_of_lt_of_le hm h.logLe
        have he : s.log[s.applied]? = some s.log[s.applied] := List.getElem?_eq_getElem hlog
        have hce := St.calls_eq he
        exact {
          dataOk := h.dataOk
          dataNd := h.dataNd
          logLe := h.logLe
          appLe := h.appLe
          diskLe := h.diskLe
          wLe := h.wLe
          savedLe := h.savedLe
          phOk := ⟨hm, hlt, rfl⟩
          hotW := fun _ => by
            show s.wapply ≤ s.applied + 1
            rcases hw with hw | hw
            · exact h.hotW hw
            · omega
          snapOk := h.snapOk
          tIdx := fun j t ht => by
            show t.idx < (s.idxs.set k _).length
            rw [List.length_set]; exact h.tIdx j t ht
          tInj := h.tInj
          tOk := fun j t y ht hy hne => by
            have : s.idxs[t.idx]? = some y := by
              rw [← hget t.idx (hkt j t ht hne)]; exact hy
            exact h.tOk j t y ht this hne
          ownOk := fun k' hk' => by
            obtain ⟨y, hy, hA⟩ := h.ownOk k' hk'
            have hkk : k' = k := hko k' hk'
            subst hkk
            rw [hx] at hy
            injection hy with hy
            subst hy
            refine ⟨_, List.getElem?_set_self hk, ?_⟩
            have hf : s.front = off s.log s.applied + p := by
              unfold St.front St.pos
              rw [if_pos (hw.symm), hph]
            rw [hf] at hA
            have hnew : St.front { s with
                idxs := s.idxs.set k' { x with content := (o.run g x.content).1 }
                hot := true
                ph := .did p ((o.run g x.content).2 == .ok) } = off s.log s.applied + p + 1 := by
              unfold St.front
              rw [if_pos (.inr rfl)]; rfl
            rw [hnew]
            refine hA.one hg (writes_get he (o := (o, c)) (by rw [← hce]; exact hc)) ?_ hok
            have h1 : off s.log (s.applied + 1) ≤ off s.log s.dataLog := off_mono _ hm
            rw [off_succ he, ← hce] at h1
            show off s.log s.applied + p < off s.log s.dataLog
            omega
          ownT := h.ownT
          gotT := fun _ _ hg => by cases hg }
  | idle => exact h
  | «at» p k => exact h
  | wait p => exact h
  | passed p => exact h
  | did p k => exact h

theorem Inv.mark {g : Cfg} {s : St} (h : Inv s) : Inv (step g s .mark) := by
  unfold step
  cases hph : s.ph with
  | did p ok =>
    simp only
    cases hc : s.calls[p]? with
    | none => simp only; exact h
    | some oc =>
      obtain ⟨o, c⟩ := oc
      simp only
      have hphOk := h.phOk
      unfold PhOk at hphOk
      rw [hph] at hphOk
      simp only at hphOk
      obtain ⟨hm, hlt, hhot⟩ := hphOk
      have hwv : (if (ok && c != .always) = true then s.applied + 1 else s.wapply) ≤ s.applied + 1 := by
        split
        · exact Nat.le_refl _
        · exact h.hotW hhot
      exact {
        dataOk := h.dataOk
        dataNd := h.dataNd
        logLe := h.logLe
        appLe := h.appLe
        diskLe := h.diskLe
        wLe := Nat.le_trans hwv hm
        savedLe := h.savedLe
        phOk := ⟨hm, hlt, (fun e => by cases e), (fun _ => .inl hhot), (fun e => by cases e)⟩
        hotW := fun _ => hwv
        snapOk := h.snapOk
        tIdx := h.tIdx
        tInj := h.tInj
        tOk := h.tOk
        ownOk := fun k hk => by
          obtain ⟨x, hx, hA⟩ := h.ownOk k hk
          refine ⟨x, hx, ?_⟩
          have hf : s.front = off s.log s.applied + p + 1 := by
            unfold St.front St.pos; rw [if_pos (.inr hhot), hph]
          have hf' : St.front { s with
              ph := .at (p + 1) true
              wapply := if (ok && c != .always) = true then s.applied + 1 else s.wapply } =
              off s.log s.applied + (p + 1) := by
            unfold St.front; rw [if_pos (.inr hhot)]; rfl
          rw [hf', ← Nat.add_assoc, ← hf]
          exact hA
        ownT := h.ownT
        gotT := fun _ _ hg => by cases hg }
  | idle => exact h
  | «at» p k => exact h
  | wait p => exact h
  | passed p => exact h
  | got p k => exact h

theorem Inv.done {g : Cfg} {s : St} (h : Inv s) : Inv (step g s .done) := by
  unfold step
  cases hph : s.ph with
  | «at» p go =>
    cases he : s.entry with
    | none => exact h
    | some e =>
      simp only
      split
      · exact h
      · next hlt =>
        have hphOk := h.phOk
        unfold PhOk at hphOk
        rw [hph] at hphOk
        simp only at hphOk
        obtain ⟨hm, hple, h0, hgo, hskip⟩ := hphOk
        have hp : p = s.calls.length := by omega
        have he' : s.log[s.applied]? = some e := he
        have hoff : off s.log (s.applied + 1) = off s.log s.applied + p := by
          rw [off_succ he', hp, St.calls_eq he']
        generalize hr : (e.valid && e.cmd == .rebuild) = r
        have hw' : (if r = true then s.applied + 1 else s.wapply) ≤ s.dataLog := by
          split
          · exact hm
          · exact h.wLe
        exact {
          dataOk := h.dataOk
          dataNd := h.dataNd
          logLe := h.logLe
          appLe := hm
          diskLe := by
            show (if (s.applied + 1) % 10 = 0 then s.applied + 1 else s.disk) ≤ s.applied + 1
            split
            · exact Nat.le_refl _
            · exact Nat.le_trans h.diskLe (Nat.le_succ _)
          wLe := hw'
          savedLe := by
            show (if r = true then s.applied + 1 else s.saved) ≤ s.dataLog
            split
            · exact hm
            · exact h.savedLe
          phOk := rfl
          hotW := fun e => by cases e
          snapOk := h.snapOk
          tIdx := h.tIdx
          tInj := h.tInj
          tOk := h.tOk
          ownOk := fun k hk => by
            obtain ⟨x, hx, hA⟩ := h.ownOk k hk
            refine ⟨x, hx, hA.down ?_⟩
            have hf' : St.front { s with
                ph := .idle
                hot := false
                applied := s.applied + 1
                disk := if (s.applied + 1) % 10 = 0 then s.applied + 1 else s.disk
                wapply := if r = true then s.applied + 1 else s.wapply
                saved := if r = true then s.applied + 1 else s.saved } =
                if (if r = true then s.applied + 1 else s.wapply) ≤ s.applied + 1
                then off s.log (s.applied + 1)
                else off s.log (if r = true then s.applied + 1 else s.wapply) := by
              unfold St.front St.pos
              simp
            rw [hf']
            have hf : s.front = if s.wapply ≤ s.applied ∨ s.hot = true
                then off s.log (s.applied + 1) else off s.log s.wapply := by
              unfold St.front St.pos; rw [hph, hoff]
            rw [hf]
            by_cases hc : s.wapply ≤ s.applied ∨ s.hot = true
            · rw [if_pos hc]
              have : (if r = true then s.applied + 1 else s.wapply) ≤ s.applied + 1 := by
                split
                · exact Nat.le_refl _
                · rcases hc with hc | hc
                  · omega
                  · exact h.hotW hc
              rw [if_pos this]; exact Nat.le_refl _
            · rw [if_neg hc]
              have : s.applied < s.wapply := by
                have := fun h => hc (.inl h); omega
              cases r with
              | true => simp; exact off_mono _ this
              | false =>
                simp only [Bool.false_eq_true, if_false]
                split
                · exact off_mono _ this
                · exact Nat.le_refl _
          ownT := h.ownT
          gotT := fun _ _ hg => by cases hg }
  | idle => exact h
  | wait p => exact h
  | passed p => exact h
  | got p k => exact h
  | did p k => exact h

/-! ### Tasks -/

/-- A task comes with a new index. -/
theorem Inv.newTask {s : St} (h : Inv s) {x : Idx} {ph : TPh}
    (hx : x.applyLog ≤ s.dataLog ∧ (ph ≠ .fresh →
      Agree (writes s.log) x.content (off s.log x.applyLog) (off s.log s.dataLog))) :
    Inv { s with
      idxs := s.idxs ++ [x]
      tasks := s.tasks ++ [{ idx := s.idxs.length, ph := ph }] } := by
  have hold : ∀ (k : Nat) (y : Idx), s.idxs[k]? = some y → (s.idxs ++ [x])[k]? = some y := by
    intro k y hy
    rw [List.getElem?_append_left (List.getElem?_eq_some_iff.1 hy).1]; exact hy
  have hcase : ∀ (j : Nat) (t : Task), (s.tasks ++ [{ idx := s.idxs.length, ph := ph }])[j]? = some t →
      s.tasks[j]? = some t ∨ (j = s.tasks.length ∧ t = { idx := s.idxs.length, ph := ph }) := by
    intro j t ht
    by_cases hj : j < s.tasks.length
    · rw [List.getElem?_append_left hj] at ht; exact .inl ht
    · rw [List.getElem?_append_right (by omega)] at ht
      have : j - s.tasks.length = 0 := by
        have := (List.getElem?_eq_some_iff.1 ht).1
        simp at this; omega
      rw [this] at ht
      simp at ht
      exact .inr ⟨by omega, ht.symm⟩
  exact {
    dataOk := h.dataOk
    dataNd := h.dataNd
    logLe := h.logLe
    appLe := h.appLe
    diskLe := h.diskLe
    wLe := h.wLe
    savedLe := h.savedLe
    phOk := h.phOk
    hotW := h.hotW
    snapOk := h.snapOk
    tIdx := fun j t ht => by
      show t.idx < (s.idxs ++ [x]).length
      rw [List.length_append, List.length_singleton]
      rcases hcase j t ht with ht | ⟨_, rfl⟩
      · exact Nat.lt_succ_of_lt (h.tIdx j t ht)
      · exact Nat.lt_succ_self _
    tInj := fun i j a b ha hb hab => by
      rcases hcase i a ha with ha | ⟨hi, rfl⟩ <;> rcases hcase j b hb with hb | ⟨hj, rfl⟩
      · exact h.tInj i j a b ha hb hab
      · have := h.tIdx i a ha; rw [hab] at this; exact absurd this (Nat.lt_irrefl _)
      · have := h.tIdx j b hb; rw [← hab] at this; exact absurd this (Nat.lt_irrefl _)
      · rw [hi, hj]
    tOk := fun j t y ht hy hn => by
      rcases hcase j t ht with ht | ⟨_, rfl⟩
      · have hlt := h.tIdx j t ht
        have : s.idxs[t.idx]? = some y := by
          have hy' : (s.idxs ++ [x])[t.idx]? = some y := hy
          rwa [List.getElem?_append_left hlt] at hy'
        exact h.tOk j t y ht this hn
      · have hy' : (s.idxs ++ [x])[s.idxs.length]? = some y := hy
        rw [List.getElem?_append_right (Nat.le_refl _)] at hy'
        simp at hy'
        subst hy'
        exact hx
    ownOk := fun k hk => by
      obtain ⟨y, hy, hA⟩ := h.ownOk k hk
      exact ⟨y, hold k y hy, hA⟩
    ownT := fun k hk j t ht hn => by
      obtain ⟨y, hy, _⟩ := h.ownOk k hk
      have hlt := (List.getElem?_eq_some_iff.1 hy).1
      rcases hcase j t ht with ht | ⟨_, rfl⟩
      · exact h.ownT k hk j t ht hn
      · exact fun e => by have e' : s.idxs.length = k := e; omega
    gotT := fun p k hg => by
      obtain ⟨h1, h2, h3⟩ := h.gotT p k hg
      refine ⟨?_, fun j t ht hn => ?_, h3⟩
      · show k < (s.idxs ++ [x]).length
        rw [List.length_append]; omega
      · rcases hcase j t ht with ht | ⟨_, rfl⟩
        · exact h2 j t ht hn
        · exact fun e => by have e' : s.idxs.length = k := e; omega }

/-- A task works on its index and moves on. -/
theorem Inv.taskStep {s : St} (h : Inv s) {t k : Nat} {ph ph' : TPh} {x' : Idx}
    (ht : s.tasks[t]? = some { idx := k, ph := ph }) (hne : ph ≠ .swapped)
    (hx : x'.applyLog ≤ s.dataLog ∧ (ph' ≠ .fresh →
      Agree (writes s.log) x'.content (off s.log x'.applyLog) (off s.log s.dataLog)))
    {sw : Bool} :
    Inv { s with
      idxs := s.idxs.set k x'
      switching := sw
      tasks := s.tasks.set t { idx := k, ph := ph' } } := by
  have hk : k < s.idxs.length := h.tIdx t _ ht
  have htl : t < s.tasks.length := (List.getElem?_eq_some_iff.1 ht).1
  have hcase : ∀ (j : Nat) (b : Task), (s.tasks.set t { idx := k, ph := ph' })[j]? = some b →
      (j ≠ t ∧ s.tasks[j]? = some b ∧ b.idx ≠ k) ∨ (j = t ∧ b = { idx := k, ph := ph' }) := by
    intro j b hb
    by_cases hj : j = t
    · subst hj
      rw [List.getElem?_set_self htl] at hb
      injection hb with hb
      exact .inr ⟨rfl, hb.symm⟩
    · rw [List.getElem?_set_ne (fun e => hj e.symm)] at hb
      exact .inl ⟨hj, hb, fun e => hj (h.tInj j t b _ hb ht e)⟩
  have hget : ∀ k', k' ≠ k → (s.idxs.set k x')[k']? = s.idxs[k']? :=
    fun k' hk' => List.getElem?_set_ne (fun e => hk' e.symm)
  exact {
    dataOk := h.dataOk
    dataNd := h.dataNd
    logLe := h.logLe
    appLe := h.appLe
    diskLe := h.diskLe
    wLe := h.wLe
    savedLe := h.savedLe
    phOk := h.phOk
    hotW := h.hotW
    snapOk := h.snapOk
    tIdx := fun j b hb => by
      show b.idx < (s.idxs.set k x').length
      rw [List.length_set]
      rcases hcase j b hb with ⟨_, hb, _⟩ | ⟨_, rfl⟩
      · exact h.tIdx j b hb
      · exact hk
    tInj := fun i j a b ha hb hab => by
      rcases hcase i a ha with ⟨hi, ha, hak⟩ | ⟨hi, rfl⟩ <;>
        rcases hcase j b hb with ⟨hj, hb, hbk⟩ | ⟨hj, rfl⟩
      · exact h.tInj i j a b ha hb hab
      · exact absurd hab hak
      · exact absurd hab.symm hbk
      · rw [hi, hj]
    tOk := fun j b y hb hy hn => by
      rcases hcase j b hb with ⟨_, hb, hbk⟩ | ⟨_, rfl⟩
      · have : s.idxs[b.idx]? = some y := by rw [← hget b.idx hbk]; exact hy
        exact h.tOk j b y hb this hn
      · have hy' : (s.idxs.set k x')[k]? = some y := hy
        rw [List.getElem?_set_self hk] at hy'
        injection hy' with hy'
        subst hy'
        exact hx
    ownOk := fun k' hk' => by
      obtain ⟨y, hy, hA⟩ := h.ownOk k' hk'
      have : k ≠ k' := h.ownT k' hk' t _ ht hne
      exact ⟨y, by show (s.idxs.set k x')[k']? = some y; rw [hget k' (fun e => this e.symm)]; exact hy, hA⟩
    ownT := fun k' hk' j b hb hn => by
      rcases hcase j b hb with ⟨_, hb, hbk⟩ | ⟨_, rfl⟩
      · exact h.ownT k' hk' j b hb hn
      · have := h.ownT k' hk' t _ ht hne
        exact this
    gotT := fun p k' hg => by
      obtain ⟨h1, h2, h3⟩ := h.gotT p k' hg
      refine ⟨by show k' < (s.idxs.set k x').length; rw [List.length_set]; exact h1,
        fun j b hb hn => ?_, h3⟩
      rcases hcase j b hb with ⟨_, hb, hbk⟩ | ⟨_, rfl⟩
      · exact h2 j b hb hn
      · have := h2 t _ ht hne
        exact this }

theorem set_same {α : Type} {l : List α} {k : Nat} {x : α} (h : l[k]? = some x) : l.set k x = l := by
  apply List.ext_getElem?
  intro i
  by_cases hi : i = k
  · subst hi
    rw [List.getElem?_set_self (List.getElem?_eq_some_iff.1 h).1, h]
  · rw [List.getElem?_set_ne (fun e => hi e.symm)]

theorem Inv.fill {g : Cfg} (hg : g.ok = true) {s : St} (h : Inv s) (t : Nat) :
    Inv (step g s (.fill t)) := by
  unfold step
  simp only
  split
  · next k ht =>
    split
    · next x hx =>
      have hle := (h.tOk t _ x ht hx (fun e => by cases e)).1
      refine h.taskStep (ph' := .rounds) (x' := { x with content := fillFrom g s.data })
        (sw := s.switching) ht (fun e => by cases e) ⟨hle, fun _ => ?_⟩
      refine Agree.full (off_mono _ hle) (off_le _ _) (fun i => ?_)
      show held (fillFrom g s.data) i = _
      rw [held_fill hg h.dataNd, writes_take]
      exact h.dataOk i
    · exact h
  · exact h

theorem replayTo_le {g : Cfg} {log : List Entry} {x : Idx} {e d : Nat} (hx : x.applyLog ≤ d)
    (he : e ≤ d) : (replayTo g log x e).applyLog ≤ d := by
  unfold replayTo
  split
  · exact hx
  · show (if span log x.applyLog e = [] then x.applyLog
      else x.applyLog + (span log x.applyLog e).length) ≤ d
    split
    · exact hx
    · have : (span log x.applyLog e).length ≤ e - 1 - x.applyLog := by
        unfold span; rw [List.length_drop, List.length_take]; omega
      omega

theorem Inv.replay {g : Cfg} (hg : g.ok = true) {s : St} (h : Inv s) (t : Nat)
    (hok : okEv g s (.replay t) = true) : Inv (step g s (.replay t)) := by
  have key : ∀ (k : Nat) (ph : TPh) (x : Idx), s.tasks[t]? = some { idx := k, ph := ph } → s.idxs[k]? = some x →
      ph ≠ .swapped → ph ≠ .fresh →
      (replayTo g s.log x s.applied).applyLog ≤ s.dataLog ∧ (Agree (writes s.log)
        (replayTo g s.log x s.applied).content (off s.log (replayTo g s.log x s.applied).applyLog)
        (off s.log s.dataLog)) := by
    intro k ph x ht hx h1 h2
    obtain ⟨hle, hA⟩ := h.tOk t _ x ht hx h1
    simp only [okEv, ht, hx, Bool.and_eq_true] at hok
    exact ⟨replayTo_le hle h.appLe, (hA h2).replay hg (off_mono _ h.appLe) hok.1 hok.2
      (Nat.le_trans h.appLe h.logLe)⟩
  unfold step
  simp only
  split
  · next k ht =>
    split
    · next x hx =>
      have hk := key k _ x ht hx (fun e => by cases e) (fun e => by cases e)
      have := h.taskStep (ph' := .rounds) (sw := s.switching) ht (fun e => by cases e) ⟨hk.1, fun _ => hk.2⟩
      rw [set_same ht] at this
      exact this
    · exact h
  · next k ht =>
    split
    · next x hx =>
      have hk := key k _ x ht hx (fun e => by cases e) (fun e => by cases e)
      exact h.taskStep (sw := s.switching) ht (fun e => by cases e)
        ⟨hk.1, fun _ => hk.2⟩
    · exact h
  · exact h

theorem Inv.switchOn {g : Cfg} {s : St} (h : Inv s) (t : Nat) : Inv (step g s (.on t)) := by
  unfold step
  simp only
  split
  · next k ht =>
    split
    · next x hx =>
      split
      · obtain ⟨h1, h2⟩ := h.tOk t _ x ht hx (fun e => by cases e)
        have := h.taskStep (ph' := .on) (x' := x) (sw := true) ht (fun e => by cases e)
          ⟨h1, fun _ => h2 (fun e => by cases e)⟩
        rw [set_same hx] at this
        exact this
      · exact h
    · exact h
  · exact h

theorem Inv.swap {g : Cfg} {s : St} (h : Inv s) (t : Nat) (hok : okEv g s (.swap t) = true) :
    Inv (step g s (.swap t)) := by
  unfold step
  simp only
  split
  · next k ht =>
    split
    · next x hx =>
      obtain ⟨hle, hA⟩ := h.tOk t _ x ht hx (fun e => by cases e)
      have hA := hA (fun e => by cases e)
      simp only [okEv, ht, hx, Bool.and_eq_true, decide_eq_true_eq] at hok
      obtain ⟨hcov, hphase⟩ := hok
      have htl : t < s.tasks.length := (List.getElem?_eq_some_iff.1 ht).1
      have hphOk := h.phOk
      unfold PhOk at hphOk
      -- what the guard says about the apply thread
      have hph : s.hot = false ∧ s.pos = off s.log s.applied ∧
          (∀ p k', s.ph ≠ .got p k') ∧
          PhOk { s with own := some k, wapply := max s.wapply x.applyLog } := by
        cases hp : s.ph with
        | idle =>
          rw [hp] at hphOk
          refine ⟨hphOk, by unfold St.pos; rw [hp], (fun _ _ e => by cases e), ?_⟩
          exact hphOk
        | «at» p go =>
          rw [hp] at hphOk hphase
          cases p with
          | succ p => simp at hphase
          | zero =>
            cases go with
            | true => simp at hphase
            | false =>
              refine ⟨hphOk.2.2.1 rfl, by unfold St.pos; rw [hp]; rfl, (fun _ _ e => by cases e), ?_⟩
              exact ⟨hphOk.1, hphOk.2.1, hphOk.2.2.1, (fun e => by cases e), fun _ e => absurd rfl e⟩
        | wait p =>
          rw [hp] at hphOk hphase
          cases p with
          | succ p => simp at hphase
          | zero =>
            simp only [decide_eq_true_eq] at hphase
            refine ⟨hphOk.2.2.1 rfl, by unfold St.pos; rw [hp]; rfl, (fun _ _ e => by cases e), ?_⟩
            refine ⟨hphOk.1, hphOk.2.1, hphOk.2.2.1, .inr ?_⟩
            have hw : s.wapply ≤ s.applied := hphOk.2.2.2.resolve_left (by rw [hphOk.2.2.1 rfl]; simp)
            exact Nat.max_le.2 ⟨hw, hphase⟩
        | passed p =>
          rw [hp] at hphOk hphase
          cases p with
          | succ p => simp at hphase
          | zero =>
            simp only [decide_eq_true_eq] at hphase
            refine ⟨hphOk.2.2.1 rfl, by unfold St.pos; rw [hp]; rfl, (fun _ _ e => by cases e), ?_⟩
            refine ⟨hphOk.1, hphOk.2.1, hphOk.2.2.1, .inr ?_⟩
            have hw : s.wapply ≤ s.applied := hphOk.2.2.2.resolve_left (by rw [hphOk.2.2.1 rfl]; simp)
            exact Nat.max_le.2 ⟨hw, hphase⟩
        | got p k' => rw [hp] at hphase; simp at hphase
        | did p ok => rw [hp] at hphase; simp at hphase
      obtain ⟨hhot, hpos, hgot, hnew⟩ := hph
      have hcase : ∀ (j : Nat) (b : Task), (s.tasks.set t { idx := k, ph := .swapped })[j]? = some b →
          (j ≠ t ∧ s.tasks[j]? = some b ∧ b.idx ≠ k) ∨ (j = t ∧ b = { idx := k, ph := .swapped }) := by
        intro j b hb
        by_cases hj : j = t
        · subst hj
          rw [List.getElem?_set_self htl] at hb
          injection hb with hb
          exact .inr ⟨rfl, hb.symm⟩
        · rw [List.getElem?_set_ne (fun e => hj e.symm)] at hb
          exact .inl ⟨hj, hb, fun e => hj (h.tInj j t b _ hb ht e)⟩
      have hmw : max s.wapply x.applyLog ≤ s.dataLog := Nat.max_le.2 ⟨h.wLe, hle⟩
      exact {
        dataOk := h.dataOk
        dataNd := h.dataNd
        logLe := h.logLe
        appLe := h.appLe
        diskLe := h.diskLe
        wLe := hmw
        savedLe := hmw
        phOk := hnew
        hotW := fun e => by rw [show s.hot = true from e] at hhot; cases hhot
        snapOk := h.snapOk
        tIdx := fun j b hb => by
          rcases hcase j b hb with ⟨_, hb, _⟩ | ⟨_, rfl⟩
          · exact h.tIdx j b hb
          · have := h.tIdx t _ ht
            exact this
        tInj := fun i j a b ha hb hab => by
          rcases hcase i a ha with ⟨hi, ha, hak⟩ | ⟨hi, rfl⟩ <;>
            rcases hcase j b hb with ⟨hj, hb, hbk⟩ | ⟨hj, rfl⟩
          · exact h.tInj i j a b ha hb hab
          · exact absurd hab hak
          · exact absurd hab.symm hbk
          · rw [hi, hj]
        tOk := fun j b y hb hy hn => by
          rcases hcase j b hb with ⟨_, hb, hbk⟩ | ⟨_, rfl⟩
          · exact h.tOk j b y hb hy hn
          · exact absurd rfl hn
        ownOk := fun k' hk' => by
          injection hk' with e
          subst e
          refine ⟨x, hx, hA.down ?_⟩
          have hf : St.front { s with
              own := some k
              wapply := max s.wapply x.applyLog
              saved := max s.wapply x.applyLog
              tasks := s.tasks.set t { idx := k, ph := .swapped } } =
              if max s.wapply x.applyLog ≤ s.applied ∨ s.hot = true then s.pos
              else off s.log (max s.wapply x.applyLog) := rfl
          rw [hf, hpos, hhot]
          simp only [Bool.false_eq_true, or_false]
          have hcw : off s.log s.wapply ≤ off s.log x.applyLog :=
            Nat.le_trans (off_mono _ (Nat.le_max_left _ _)) hcov
          split
          · exact Nat.le_trans (off_mono _ (Nat.le_max_right _ _)) hcov
          · rcases Nat.le_total s.wapply x.applyLog with hc | hc
            · rw [Nat.max_eq_right hc]; exact Nat.le_refl _
            · rw [Nat.max_eq_left hc]; exact hcw
        ownT := fun k' hk' j b hb hn => by
          injection hk' with e
          subst e
          rcases hcase j b hb with ⟨_, hb, hbk⟩ | ⟨_, rfl⟩
          · exact hbk
          · exact absurd rfl hn
        gotT := fun p k' hg => absurd hg (hgot p k') }
    · exact h
  · exact h

theorem Inv.switchOff {g : Cfg} {s : St} (h : Inv s) (t : Nat) : Inv (step g s (.off t)) := by
  unfold step
  simp only
  split
  · next k ht =>
    have hback : ∀ (j : Nat) (b : Task), (s.tasks.eraseIdx t)[j]? = some b →
        s.tasks[if j < t then j else j + 1]? = some b := by
      intro j b hb
      rw [List.getElem?_eraseIdx] at hb
      split
      · next hj => rwa [if_pos hj] at hb
      · next hj => rwa [if_neg hj] at hb
    exact {
      dataOk := h.dataOk
      dataNd := h.dataNd
      logLe := h.logLe
      appLe := h.appLe
      diskLe := h.diskLe
      wLe := h.wLe
      savedLe := h.savedLe
      phOk := h.phOk
      hotW := h.hotW
      snapOk := h.snapOk
      tIdx := fun j b hb => h.tIdx _ b (hback j b hb)
      tInj := fun i j a b ha hb hab => by
        have := h.tInj _ _ a b (hback i a ha) (hback j b hb) hab
        split at this <;> split at this <;> omega
      tOk := fun j b y hb hy hn => h.tOk _ b y (hback j b hb) hy hn
      ownOk := h.ownOk
      ownT := fun k' hk' j b hb hn => h.ownT k' hk' _ b (hback j b hb) hn
      gotT := fun p k' hg => by
        obtain ⟨h1, h2, h3⟩ := h.gotT p k' hg
        exact ⟨h1, fun j b hb hn => h2 _ b (hback j b hb) hn, h3⟩ }
  · exact h

theorem Inv.save {g : Cfg} {s : St} (h : Inv s) (hok : okEv g s .save = true) :
    Inv (step g s .save) := by
  unfold step
  simp only
  split
  · next k hk =>
    split
    · next x hx =>
      simp only [okEv, Bool.and_eq_true, beq_iff_eq, Bool.or_eq_true, Bool.not_eq_true',
        decide_eq_true_eq] at hok
      have hown : s.own = some k := by rw [← hok.1]; exact hk
      obtain ⟨y, hy, hA⟩ := h.ownOk k hown
      rw [hx] at hy
      injection hy with hy
      subst hy
      have hpa : off s.log s.applied ≤ s.pos := by
        unfold St.pos; split <;> omega
      have hsn : Agree (writes s.log) x.content (off s.log s.wapply) (off s.log s.dataLog) := by
        refine hA.down ?_
        unfold St.front
        split
        · next hc =>
          rcases hok.2 with (h1 | h1) | h1
          · rcases hc with hc | hc
            · exact Nat.le_trans (off_mono _ hc) hpa
            · rw [h1] at hc; cases hc
          · exact Nat.le_trans (off_mono _ h1) hpa
          · rcases hc with hc | hc
            · exact Nat.le_trans (off_mono _ hc) hpa
            · exact Nat.le_trans (off_mono _ (h.hotW hc)) h1
        · exact Nat.le_refl _
      exact {
        dataOk := h.dataOk
        dataNd := h.dataNd
        logLe := h.logLe
        appLe := h.appLe
        diskLe := h.diskLe
        wLe := h.wLe
        savedLe := h.wLe
        phOk := h.phOk
        hotW := h.hotW
        snapOk := fun z hz => by
          injection hz with hz
          subst hz
          exact ⟨h.wLe, hsn⟩
        tIdx := h.tIdx
        tInj := h.tInj
        tOk := h.tOk
        ownOk := h.ownOk
        ownT := h.ownT
        gotT := h.gotT }
    · exact h
  · exact h

theorem Inv.clear {s : St} (h : Inv s) : Inv { s with own := none } where
  dataOk := h.dataOk
  dataNd := h.dataNd
  logLe := h.logLe
  appLe := h.appLe
  diskLe := h.diskLe
  wLe := h.wLe
  savedLe := h.savedLe
  phOk := by
    have hp := h.phOk
    unfold PhOk at hp ⊢
    show (match s.ph with
      | .idle => _ | .at p go => _ | .wait p => _ | .passed p => _ | .got p k => _ | .did p k => _)
    cases hph : s.ph <;> simp only [hph] at hp ⊢
    · exact hp
    · exact ⟨hp.1, hp.2.1, hp.2.2.1, hp.2.2.2.1, fun _ _ e => absurd rfl e⟩
    all_goals exact hp
  hotW := h.hotW
  snapOk := h.snapOk
  tIdx := h.tIdx
  tInj := h.tInj
  tOk := h.tOk
  ownOk := fun _ hk => by cases hk
  ownT := fun _ hk => by cases hk
  gotT := fun p k hg => ⟨(h.gotT p k hg).1, (h.gotT p k hg).2.1, fun _ e => by cases e⟩

theorem Inv.crash {s : St} (h : Inv s) :
    Inv { s with
      applied := s.disk
      ph := .idle
      hot := false
      idxs := []
      own := none
      switching := false
      wapply := s.saved
      tasks := []
      saving := none } where
  dataOk := h.dataOk
  dataNd := h.dataNd
  logLe := h.logLe
  appLe := Nat.le_trans h.diskLe h.appLe
  diskLe := Nat.le_refl _
  wLe := h.savedLe
  savedLe := h.savedLe
  phOk := rfl
  hotW := fun e => by cases e
  snapOk := h.snapOk
  tIdx := fun _ _ e => by cases e
  tInj := fun _ _ _ _ e => by cases e
  tOk := fun _ _ _ e => by cases e
  ownOk := fun _ e => by cases e
  ownT := fun _ e => by cases e
  gotT := fun _ _ e => by cases e

theorem Inv.step {g : Cfg} (hg : g.ok = true) {s : St} (h : Inv s) (ev : Ev)
    (hok : okEv g s ev = true) : Inv (step g s ev) := by
  cases ev with
  | commit e => exact h.commit e
  | write =>
    unfold VecIndex.step
    cases hph : s.ph with
    | idle =>
      cases he : s.entry with
      | none => exact h
      | some e => exact h.write hph he
    | _ => exact h
  | check => exact h.check hok
  | pass => exact h.pass
  | take => exact h.take
  | call => exact h.call hg hok
  | mark => exact h.mark
  | done => exact h.done
  | build n =>
    unfold VecIndex.step
    simp only
    split
    · next hn =>
      exact h.newTask ⟨Nat.le_trans hn h.appLe, fun e => absurd rfl e⟩
    · exact h
  | fill t => exact h.fill hg t
  | load =>
    unfold VecIndex.step
    simp only
    split
    · next x hx =>
      exact h.newTask ⟨(h.snapOk x hx).1, fun _ => (h.snapOk x hx).2⟩
    · exact h
  | replay t => exact h.replay hg t hok
  | on t => exact h.switchOn t
  | swap t => exact h.swap t hok
  | off t => exact h.switchOff t
  | hold =>
    exact {
      dataOk := h.dataOk, dataNd := h.dataNd, logLe := h.logLe, appLe := h.appLe
      diskLe := h.diskLe, wLe := h.wLe, savedLe := h.savedLe, phOk := h.phOk, hotW := h.hotW
      snapOk := h.snapOk, tIdx := h.tIdx, tInj := h.tInj, tOk := h.tOk, ownOk := h.ownOk
      ownT := h.ownT, gotT := h.gotT }
  | save => exact h.save hok
  | clear => exact h.clear
  | crash => exact h.crash

theorem Inv.run {g : Cfg} (hg : g.ok = true) {s : St} (h : Inv s) {evs : List Ev}
    (hok : okRunFrom g s evs = true) : Inv (evs.foldl (VecIndex.step g) s) := by
  induction evs generalizing s with
  | nil => exact h
  | cons ev evs ih =>
    simp only [okRunFrom, Bool.and_eq_true] at hok
    rw [List.foldl_cons]
    exact ih (h.step hg ev hok.1) hok.2

end Verif.VecIndex
