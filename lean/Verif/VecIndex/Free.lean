import Verif.VecIndex.Inv
import Verif.VecIndex.PropsKind

/-! # What holds after every run -/

namespace Verif.VecIndex

/-- About the apply thread. -/
def PhB (s : St) : Prop :=
  match s.ph with
  | .idle => True
  | .at p _ => s.applied < s.dataLog ∧ p ≤ s.calls.length
  | .wait p => s.applied < s.dataLog ∧ p < s.calls.length
  | .passed p => s.applied < s.dataLog ∧ p < s.calls.length
  | .got p k => s.applied < s.dataLog ∧ p < s.calls.length ∧ k < s.idxs.length
  | .did p _ => s.applied < s.dataLog ∧ p < s.calls.length

structure Basic (s : St) : Prop where
  dataOk : ∀ i, held s.data i = (lastWrite (writes (s.log.take s.dataLog)) i).toList
  logLe : s.dataLog ≤ s.log.length
  appLe : s.applied ≤ s.dataLog
  diskLe : s.disk ≤ s.applied
  phB : PhB s
  own : ∀ k, s.own = some k → k < s.idxs.length
  tIdx : ∀ (j : Nat) (t : Task), s.tasks[j]? = some t → t.idx < s.idxs.length
  sw : s.switching = true → ∃ (j : Nat) (t : Task), s.tasks[j]? = some t ∧
    (t.ph = .on ∨ t.ph = .last ∨ t.ph = .swapped)

theorem Basic.init : Basic {} where
  dataOk := fun i => by cases i <;> rfl
  logLe := Nat.le_refl _
  appLe := Nat.le_refl _
  diskLe := Nat.le_refl _
  phB := True.intro
  own := fun _ h => by cases h
  tIdx := fun _ _ h => by cases h
  sw := fun h => by cases h

theorem Basic.commit {s : St} (h : Basic s) (e : Entry) : Basic { s with log := s.log ++ [e] } where
  dataOk := fun i => by
    show held s.data i = (lastWrite (writes ((s.log ++ [e]).take s.dataLog)) i).toList
    rw [List.take_append_of_le_length h.logLe]; exact h.dataOk i
  logLe := by
    show s.dataLog ≤ (s.log ++ [e]).length
    rw [List.length_append]; exact Nat.le_trans h.logLe (Nat.le_add_right _ _)
  appLe := h.appLe
  diskLe := h.diskLe
  phB := by
    have hp := h.phB
    unfold PhB at hp ⊢
    show (match s.ph with
      | .idle => _ | .at p go => _ | .wait p => _ | .passed p => _ | .got p k => _ | .did p k => _)
    have hc : ∀ (hm : s.applied < s.dataLog), (s.log ++ [e])[s.applied]? = s.log[s.applied]? :=
      fun hm => List.getElem?_append_left (Nat.lt_of_lt_of_le hm h.logLe)
    cases hph : s.ph <;> simp only [hph] at hp ⊢
    all_goals
      have hm := hp.1
      simp only [St.calls, St.entry, hc hm] at hp ⊢
      exact hp
  own := h.own
  tIdx := h.tIdx
  sw := h.sw

theorem Basic.write {s : St} (h : Basic s) {e : Entry}
    (he : s.log[s.applied]? = some e) :
    Basic { s with
      ph := .at 0 false
      hot := false
      data := if s.dataLog ≤ s.applied then e.store s.data else s.data
      dataLog := max s.dataLog (s.applied + 1) } := by
  have hlt : s.applied < s.log.length := (List.getElem?_eq_some_iff.1 he).1
  exact {
    dataOk := fun i => by
      show held (if s.dataLog ≤ s.applied then e.store s.data else s.data) i =
        (lastWrite (writes (s.log.take (max s.dataLog (s.applied + 1)))) i).toList
      by_cases hd : s.dataLog ≤ s.applied
      · have heq : s.dataLog = s.applied := Nat.le_antisymm hd h.appLe
        rw [if_pos hd, Nat.max_eq_right (by omega)]
        exact dataOk_store he (heq ▸ h.dataOk) i
      · rw [if_neg hd, Nat.max_eq_left (by omega)]
        exact h.dataOk i
    logLe := Nat.max_le.2 ⟨h.logLe, hlt⟩
    appLe := Nat.le_trans h.appLe (Nat.le_max_left _ _)
    diskLe := h.diskLe
    phB := ⟨by show s.applied < max s.dataLog (s.applied + 1); omega, Nat.zero_le _⟩
    own := h.own
    tIdx := h.tIdx
    sw := h.sw }

/-- A step that touches neither log nor data nor what is applied. -/
theorem Basic.frame {s s' : St} (h : Basic s) (hl : s'.log = s.log) (hd : s'.data = s.data)
    (hdl : s'.dataLog = s.dataLog) (ha : s'.applied = s.applied) (hk : s'.disk = s.disk)
    (hp : PhB s') (ho : ∀ k, s'.own = some k → k < s'.idxs.length)
    (ht : ∀ (j : Nat) (t : Task), s'.tasks[j]? = some t → t.idx < s'.idxs.length)
    (hs : s'.switching = true → ∃ (j : Nat) (t : Task), s'.tasks[j]? = some t ∧
      (t.ph = .on ∨ t.ph = .last ∨ t.ph = .swapped)) : Basic s' where
  dataOk := by rw [hl, hd, hdl]; exact h.dataOk
  logLe := by rw [hl, hdl]; exact h.logLe
  appLe := by rw [ha, hdl]; exact h.appLe
  diskLe := by rw [hk, ha]; exact h.diskLe
  phB := hp
  own := ho
  tIdx := ht
  sw := hs

theorem PhB.idxs {s : St} (h : PhB s) {xs : List Idx} (hx : s.idxs.length ≤ xs.length) :
    PhB { s with idxs := xs } := by
  unfold PhB at h ⊢
  show (match s.ph with
    | .idle => _ | .at p go => _ | .wait p => _ | .passed p => _ | .got p k => _ | .did p k => _)
  cases hph : s.ph <;> simp only [hph] at h ⊢
  case got p k => exact ⟨h.1, h.2.1, Nat.lt_of_lt_of_le h.2.2 hx⟩
  all_goals exact h

/-- A step of a task. -/
theorem Basic.setTask {s : St} (h : Basic s) {t k : Nat} {ph ph' : TPh} {xs : List Idx} {sw : Bool}
    (ht : s.tasks[t]? = some { idx := k, ph := ph }) (hx : xs.length = s.idxs.length)
    (hsw : sw = true → (ph' = .on ∨ ph' = .last ∨ ph' = .swapped) ∨
      s.switching = true ∧ ph ≠ .on ∧ ph ≠ .last ∧ ph ≠ .swapped)
    {own : Option Nat} (ho : own = s.own ∨ own = some k) {w w' : Nat} :
    Basic { s with
      idxs := xs
      switching := sw
      own := own
      wapply := w
      saved := w'
      tasks := s.tasks.set t { idx := k, ph := ph' } } := by
  have htl : t < s.tasks.length := (List.getElem?_eq_some_iff.1 ht).1
  refine h.frame rfl rfl rfl rfl rfl ?_ ?_ ?_ ?_
  · have := h.phB.idxs (xs := xs) (Nat.le_of_eq hx.symm)
    exact this
  · intro k' hk'
    have hk'' : own = some k' := hk'
    show k' < xs.length
    rw [hx]
    rcases ho with ho | ho
    · exact h.own k' (by rw [← ho]; exact hk'')
    · rw [ho] at hk''
      injection hk'' with e
      subst e
      exact h.tIdx t _ ht
  · intro j b hb
    show b.idx < xs.length
    rw [hx]
    have hb' : (s.tasks.set t { idx := k, ph := ph' })[j]? = some b := hb
    by_cases hj : j = t
    · subst hj
      rw [List.getElem?_set_self htl] at hb'
      injection hb' with hb'
      subst hb'
      have := h.tIdx j _ ht
      exact this
    · rw [List.getElem?_set_ne (fun e => hj e.symm)] at hb'
      exact h.tIdx j b hb'
  · intro hs
    rcases hsw hs with hs | ⟨hs, h1, h2, h3⟩
    · exact ⟨t, _, List.getElem?_set_self htl, hs⟩
    · obtain ⟨j, b, hb, hbp⟩ := h.sw hs
      have hj : t ≠ j := by
        intro e
        subst e
        rw [ht] at hb
        injection hb with hb
        subst hb
        rcases hbp with e | e | e
        · exact h1 e
        · exact h2 e
        · exact h3 e
      exact ⟨j, b, by show (s.tasks.set t _)[j]? = some b; rw [List.getElem?_set_ne hj]; exact hb, hbp⟩

theorem Basic.newTask {s : St} (h : Basic s) {x : Idx} {ph : TPh} :
    Basic { s with
      idxs := s.idxs ++ [x]
      tasks := s.tasks ++ [{ idx := s.idxs.length, ph := ph }] } := by
  refine h.frame rfl rfl rfl rfl rfl ?_ ?_ ?_ ?_
  · exact h.phB.idxs (xs := s.idxs ++ [x]) (by rw [List.length_append]; exact Nat.le_add_right _ _)
  · intro k hk
    show k < (s.idxs ++ [x]).length
    rw [List.length_append]
    exact Nat.lt_of_lt_of_le (h.own k hk) (Nat.le_add_right _ _)
  · intro j t ht
    show t.idx < (s.idxs ++ [x]).length
    rw [List.length_append, List.length_singleton]
    have ht' : (s.tasks ++ [{ idx := s.idxs.length, ph := ph }])[j]? = some t := ht
    by_cases hj : j < s.tasks.length
    · rw [List.getElem?_append_left hj] at ht'
      exact Nat.lt_succ_of_lt (h.tIdx j t ht')
    · rw [List.getElem?_append_right (by omega)] at ht'
      have : j - s.tasks.length = 0 := by
        have := (List.getElem?_eq_some_iff.1 ht').1
        simp at this; omega
      rw [this] at ht'
      simp at ht'
      rw [← ht']
      exact Nat.lt_succ_self _
  · intro hs
    obtain ⟨j, t, ht, hp⟩ := h.sw hs
    refine ⟨j, t, ?_, hp⟩
    show (s.tasks ++ [_])[j]? = some t
    rw [List.getElem?_append_left (List.getElem?_eq_some_iff.1 ht).1]
    exact ht

theorem Basic.step (g : Cfg) {s : St} (h : Basic s) (ev : Ev) : Basic (step g s ev) := by
  have hph := h.phB
  unfold PhB at hph
  cases ev with
  | commit e => exact h.commit e
  | write =>
    unfold VecIndex.step
    simp only
    split
    · next he => exact h.write he
    · exact h
  | check =>
    unfold VecIndex.step
    simp only
    split
    · next p go hp =>
      rw [hp] at hph
      split
      · next c hc =>
        have hlt := (List.getElem?_eq_some_iff.1 hc).1
        have key : ∀ ok : Bool, PhB { s with ph := if ok then .wait p else .at (p + 1) ok } := by
          intro ok
          cases ok
          · exact ⟨hph.1, hlt⟩
          · exact ⟨hph.1, hlt⟩
        exact h.frame rfl rfl rfl rfl rfl (key _) h.own h.tIdx h.sw
      · exact h
    · exact h
  | pass =>
    unfold VecIndex.step
    simp only
    split
    · next p hp =>
      rw [hp] at hph
      split
      · exact h.frame rfl rfl rfl rfl rfl ⟨hph.1, hph.2⟩ h.own h.tIdx h.sw
      · split
        · exact h
        · exact h.frame rfl rfl rfl rfl rfl ⟨hph.1, hph.2⟩ h.own h.tIdx h.sw
    · exact h
  | take =>
    unfold VecIndex.step
    simp only
    split
    · next p hp =>
      rw [hp] at hph
      split
      · next k hk => exact h.frame rfl rfl rfl rfl rfl ⟨hph.1, hph.2, h.own k hk⟩ h.own h.tIdx h.sw
      · exact h.frame rfl rfl rfl rfl rfl ⟨hph.1, hph.2⟩ h.own h.tIdx h.sw
    · exact h
  | call =>
    unfold VecIndex.step
    simp only
    split
    · next p k hp =>
      rw [hp] at hph
      split
      · refine h.frame rfl rfl rfl rfl rfl ⟨hph.1, hph.2.1⟩ ?_ ?_ h.sw
        · intro k' hk'
          simp only [List.length_set]
          exact h.own k' hk'
        · intro j t ht
          simp only [List.length_set]
          exact h.tIdx j t ht
      · exact h
    · exact h
  | mark =>
    unfold VecIndex.step
    simp only
    split
    · next p ok hp =>
      rw [hp] at hph
      split
      · exact h.frame rfl rfl rfl rfl rfl ⟨hph.1, hph.2⟩ h.own h.tIdx h.sw
      · exact h
    · exact h
  | done =>
    unfold VecIndex.step
    simp only
    split
    · next p go e hp he =>
      rw [hp] at hph
      split
      · exact h
      · exact {
          dataOk := h.dataOk
          logLe := h.logLe
          appLe := hph.1
          diskLe := by
            show (if (s.applied + 1) % 10 = 0 then s.applied + 1 else s.disk) ≤ s.applied + 1
            split
            · exact Nat.le_refl _
            · exact Nat.le_trans h.diskLe (Nat.le_succ _)
          phB := True.intro
          own := h.own
          tIdx := h.tIdx
          sw := h.sw }
    · exact h
  | build n =>
    unfold VecIndex.step
    simp only
    split
    · exact h.newTask
    · exact h
  | fill t =>
    unfold VecIndex.step
    simp only
    split
    · next k ht =>
      split
      · exact h.setTask (ph' := .rounds) (sw := s.switching) (own := s.own) (w := s.wapply) (w' := s.saved) ht
          (by rw [List.length_set]) (fun hs => .inr ⟨hs, (by simp), (by simp), (by simp)⟩) (.inl rfl)
      · exact h
    · exact h
  | load =>
    unfold VecIndex.step
    simp only
    split
    · exact h.newTask
    · exact h
  | replay t =>
    unfold VecIndex.step
    simp only
    split
    · next k ht =>
      split
      · refine h.frame rfl rfl rfl rfl rfl ?_ ?_ ?_ h.sw
        · exact h.phB.idxs (Nat.le_of_eq (by rw [List.length_set]))
        · intro k' hk'
          simp only [List.length_set]
          exact h.own k' hk'
        · intro j t ht
          simp only [List.length_set]
          exact h.tIdx j t ht
      · exact h
    · next k ht =>
      split
      · exact h.setTask (ph' := .last) (sw := s.switching) (own := s.own) (w := s.wapply) (w' := s.saved) ht
          (by rw [List.length_set]) (fun hs => .inl (.inr (.inl rfl))) (.inl rfl)
      · exact h
    · exact h
  | on t =>
    unfold VecIndex.step
    simp only
    split
    · next k ht =>
      split
      · split
        · exact h.setTask (ph' := .on) (xs := s.idxs) (sw := true) (own := s.own) (w := s.wapply)
            (w' := s.saved) ht rfl (fun _ => .inl (.inl rfl)) (.inl rfl)
        · exact h
      · exact h
    · exact h
  | swap t =>
    unfold VecIndex.step
    simp only
    split
    · next k ht =>
      split
      · next x hx =>
        exact h.setTask (ph' := .swapped) (xs := s.idxs) (sw := s.switching) (own := some k)
          (w := max s.wapply x.applyLog) (w' := max s.wapply x.applyLog) ht rfl
          (fun _ => .inl (.inr (.inr rfl))) (.inr rfl)
      · exact h
    · exact h
  | off t =>
    unfold VecIndex.step
    simp only
    split
    · refine h.frame rfl rfl rfl rfl rfl h.phB h.own ?_ (fun e => by cases e)
      intro j b hb
      have hb' : (s.tasks.eraseIdx t)[j]? = some b := hb
      rw [List.getElem?_eraseIdx] at hb'
      split at hb'
      · exact h.tIdx _ b hb'
      · exact h.tIdx _ b hb'
    · exact h
  | hold => exact h.frame rfl rfl rfl rfl rfl h.phB h.own h.tIdx h.sw
  | save =>
    unfold VecIndex.step
    simp only
    split
    · split
      · exact h.frame rfl rfl rfl rfl rfl h.phB h.own h.tIdx h.sw
      · exact h
    · exact h
  | clear =>
    exact h.frame rfl rfl rfl rfl rfl h.phB (fun _ e => by cases e) h.tIdx h.sw
  | crash =>
    exact {
      dataOk := h.dataOk
      logLe := h.logLe
      appLe := Nat.le_trans h.diskLe h.appLe
      diskLe := Nat.le_refl _
      phB := True.intro
      own := fun _ e => by cases e
      tIdx := fun _ _ e => by cases e
      sw := fun e => by cases e }

theorem Basic.run (g : Cfg) (evs : List Ev) : Basic (run g evs) := by
  unfold VecIndex.run
  suffices ∀ s, Basic s → Basic (evs.foldl (VecIndex.step g) s) from this _ Basic.init
  induction evs with
  | nil => exact fun _ h => h
  | cons ev evs ih => exact fun s h => ih _ (h.step g ev)

/-! ### Nothing is invented -/

theorem calls_vecs {e : Entry} {up : Bool} {vs : List (Nat × Nat)} {p : Nat} {c : Chk}
    (h : e.calls[p]? = some (.add up vs, c)) : vs = e.cmd.vecs := by
  have hm := List.mem_of_getElem? h
  revert hm
  unfold Entry.calls
  split
  · unfold Cmd.calls Cmd.vecs
    cases e.cmd <;> simp only <;> (repeat' split) <;> simp <;> intros <;> assumption
  · simp

theorem gather_vecs {n : Nat} {es : List Entry} {vs : List (Nat × Nat)} {ids : List Nat} {up : Bool}
    {ws : List (Nat × Nat)} {q : Nat × Nat} (h : Op.add up ws ∈ gather n es vs ids) (hq : q ∈ ws) :
    q ∈ vs ∨ q ∈ es.flatMap (·.cmd.vecs) := by
  induction es generalizing vs ids with
  | nil =>
    unfold gather at h
    split at h
    · simp at h; rw [h.2] at hq; exact .inl hq
    · split at h <;> simp at h
  | cons e es ih =>
    rw [List.flatMap_cons, List.mem_append]
    unfold gather at h
    split at h
    · next u us he =>
      have hv : e.cmd.vecs = us := by rw [he]; rfl
      rw [hv]
      have hpre : Op.add up ws ∉ (if (!ids.isEmpty) = true then [Op.del ids] else []) := by
        split <;> simp
      simp only at h
      split at h
      · rcases List.mem_append.1 h with h | h
        · exact absurd h hpre
        · rcases List.mem_cons.1 h with h | h
          · injection h with _ e
            subst e
            rcases List.mem_append.1 hq with h | h
            · exact .inl h
            · exact .inr (.inl h)
          · rcases ih h with h | h
            · cases h
            · exact .inr (.inr h)
      · rcases List.mem_append.1 h with h | h
        · exact absurd h hpre
        · rcases ih h with h | h
          · rcases List.mem_append.1 h with h | h
            · exact .inl h
            · exact .inr (.inl h)
          · exact .inr (.inr h)
    · next js he =>
      have hpre : Op.add up ws ∈ (if (!vs.isEmpty) = true then [Op.add true vs] else []) → ws = vs := by
        split <;> simp
      simp only at h
      split at h
      · rcases List.mem_append.1 h with h | h
        · rw [hpre h] at hq; exact .inl hq
        · rcases List.mem_cons.1 h with h | h
          · cases h
          · rcases ih h with h | h
            · cases h
            · exact .inr (.inr h)
      · rcases List.mem_append.1 h with h | h
        · rw [hpre h] at hq; exact .inl hq
        · rcases ih h with h | h
          · cases h
          · exact .inr (.inr h)
    · rcases ih h with h | h
      · exact .inl h
      · exact .inr (.inr h)

/-- All pairs held anywhere were in an entry. -/
structure Given (s : St) : Prop where
  idxs : ∀ (k : Nat) (x : Idx), s.idxs[k]? = some x → ∀ q ∈ x.content, q ∈ s.log.flatMap (·.cmd.vecs)
  snap : ∀ x, s.snap = some x → ∀ q ∈ x.content, q ∈ s.log.flatMap (·.cmd.vecs)
  data : ∀ q ∈ s.data, q ∈ s.log.flatMap (·.cmd.vecs)

theorem run_mem {g : Cfg} {o : Op} {c : Content} {q : Nat × Nat} (h : q ∈ (o.run g c).1) :
    q ∈ c ∨ ∃ up vs, o = .add up vs ∧ q ∈ vs := by
  rcases runOps_mem g [o] q.1 q.2 c h with h | ⟨up, vs, h1, h2⟩
  · exact .inl h
  · exact .inr ⟨up, vs, (List.mem_singleton.1 h1).symm, h2⟩

theorem fillFrom_mem {g : Cfg} {d : Content} {q : Nat × Nat} (h : q ∈ fillFrom g d) : q ∈ d := by
  unfold fillFrom at h
  have key : ∀ (bs : List (List (Nat × Nat))) (c : Content),
      q ∈ bs.foldl (fun c b => (addP g false c b).1) c → q ∈ c ∨ q ∈ bs.flatten := by
    intro bs
    induction bs with
    | nil => exact fun c h => .inl h
    | cons b bs ih =>
      intro c h
      rw [List.flatten_cons, List.mem_append]
      rcases ih _ h with h | h
      · rcases run_mem (o := .add false b) h with h | ⟨up, vs, h1, h2⟩
        · exact .inl h
        · injection h1 with _ e
          subst e
          exact .inr (.inl h2)
      · exact .inr (.inr h)
  rcases key _ [] h with h' | h'
  · cases h'
  · clear h key
    rename q ∈ _ => h
    revert h
    unfold pieces
    generalize d.length = f
    intro h
    induction f generalizing d with
    | zero => cases h
    | succ f ih =>
      unfold cut at h
      split at h
      · cases h
      · rw [List.flatten_cons] at h
        rcases List.mem_append.1 h with h | h
        · exact List.mem_of_mem_take h
        · exact List.mem_of_mem_drop (ih h)

theorem replayTo_mem {g : Cfg} {log : List Entry} {x : Idx} {n : Nat} {q : Nat × Nat}
    (h : q ∈ (replayTo g log x n).content) : q ∈ x.content ∨ q ∈ log.flatMap (·.cmd.vecs) := by
  unfold replayTo at h
  split at h
  · exact .inl h
  · rcases runOps_mem g _ q.1 q.2 _ h with h | ⟨up, vs, h1, h2⟩
    · exact .inl h
    · rcases gather_vecs h1 h2 with h | h
      · cases h
      · obtain ⟨e, he, hq⟩ := List.mem_flatMap.1 h
        exact .inr (List.mem_flatMap.2 ⟨e, List.mem_of_mem_take (List.mem_of_mem_drop he), hq⟩)

theorem store_mem {e : Entry} {d : Content} {q : Nat × Nat} (h : q ∈ e.store d) :
    q ∈ d ∨ q ∈ e.cmd.vecs := by
  unfold Entry.store at h
  have key : ∀ (cs : List (Op × Chk)) (d : Content), (∀ c ∈ cs, c ∈ e.calls) →
      q ∈ cs.foldl (fun d c => c.1.store d) d → q ∈ d ∨ q ∈ e.cmd.vecs := by
    intro cs
    induction cs with
    | nil => exact fun d _ h => .inl h
    | cons c cs ih =>
      intro d hc h
      rcases ih _ (fun c' h' => hc c' (List.mem_cons_of_mem _ h')) h with h | h
      · have hm := hc c (List.mem_cons_self ..)
        obtain ⟨o, k⟩ := c
        cases o with
        | del ids => exact .inl (List.mem_filter.1 h).1
        | add up vs =>
          rcases mem_addPoints vs d h with h | h
          · exact .inl h
          · obtain ⟨p, hp⟩ := List.getElem?_of_mem hm
            rw [calls_vecs hp] at h
            exact .inr h
      · exact .inr h
  exact key _ d (fun _ h => h) h

theorem Given.setIdx {s s' : St} (h : Given s) (hl : s'.log = s.log) (hsn : s'.snap = s.snap)
    (hd : s'.data = s.data) {k : Nat} {x : Idx} (hi : s'.idxs = s.idxs.set k x)
    (hx : ∀ q ∈ x.content, q ∈ s.log.flatMap (·.cmd.vecs)) : Given s' where
  idxs := fun j y hy => by
    rw [hi] at hy
    rw [hl]
    by_cases hj : j = k
    · subst hj
      have hlt : j < s.idxs.length := by
        have := (List.getElem?_eq_some_iff.1 hy).1
        rwa [List.length_set] at this
      rw [List.getElem?_set_self hlt] at hy
      injection hy with hy
      subst hy
      exact hx
    · rw [List.getElem?_set_ne (fun e => hj e.symm)] at hy
      exact h.idxs j y hy
  snap := by rw [hl, hsn]; exact h.snap
  data := by rw [hl, hd]; exact h.data

theorem Given.newIdx {s s' : St} (h : Given s) (hl : s'.log = s.log) (hsn : s'.snap = s.snap)
    (hd : s'.data = s.data) {x : Idx} (hi : s'.idxs = s.idxs ++ [x])
    (hx : ∀ q ∈ x.content, q ∈ s.log.flatMap (·.cmd.vecs)) : Given s' where
  idxs := fun j y hy => by
    rw [hi] at hy
    rw [hl]
    rcases List.mem_append.1 (List.mem_of_getElem? hy) with hm | hm
    · obtain ⟨j', hj'⟩ := List.getElem?_of_mem hm
      exact h.idxs j' y hj'
    · rw [List.mem_singleton.1 hm]; exact hx
  snap := by rw [hl, hsn]; exact h.snap
  data := by rw [hl, hd]; exact h.data

theorem Given.frame {s s' : St} (h : Given s) (hl : s'.log = s.log) (hsn : s'.snap = s.snap)
    (hd : s'.data = s.data) (hi : s'.idxs = s.idxs) : Given s' where
  idxs := by rw [hl, hi]; exact h.idxs
  snap := by rw [hl, hsn]; exact h.snap
  data := by rw [hl, hd]; exact h.data

theorem Given.step (g : Cfg) {s : St} (h : Given s) (ev : Ev) : Given (step g s ev) := by
  cases ev with
  | commit e =>
    have hin : ∀ q, q ∈ s.log.flatMap (·.cmd.vecs) → q ∈ (s.log ++ [e]).flatMap (·.cmd.vecs) := by
      intro q hq
      rw [List.flatMap_append]
      exact List.mem_append_left _ hq
    exact {
      idxs := fun k x hx q hq => hin q (h.idxs k x hx q hq)
      snap := fun x hx q hq => hin q (h.snap x hx q hq)
      data := fun q hq => hin q (h.data q hq) }
  | write =>
    unfold VecIndex.step
    simp only
    split
    · next e _ he =>
      exact {
        idxs := h.idxs
        snap := h.snap
        data := fun q hq => by
          have hq' : q ∈ (if s.dataLog ≤ s.applied then e.store s.data else s.data) := hq
          split at hq'
          · rcases store_mem hq' with hq' | hq'
            · exact h.data q hq'
            · exact List.mem_flatMap.2 ⟨e, List.mem_of_getElem? he, hq'⟩
          · exact h.data q hq' }
    · exact h
  | check =>
    unfold VecIndex.step
    simp only
    split
    · split
      · exact h.frame rfl rfl rfl rfl
      · exact h
    · exact h
  | pass =>
    unfold VecIndex.step
    simp only
    split
    · split
      · exact h.frame rfl rfl rfl rfl
      · split
        · exact h
        · exact h.frame rfl rfl rfl rfl
    · exact h
  | take =>
    unfold VecIndex.step
    simp only
    split
    · split
      · exact h.frame rfl rfl rfl rfl
      · exact h.frame rfl rfl rfl rfl
    · exact h
  | call =>
    unfold VecIndex.step
    simp only
    split
    · next p k hp =>
      split
      · next o _ x hc hx =>
        refine h.setIdx rfl rfl rfl rfl (fun q hq => ?_)
        rcases run_mem hq with hq | ⟨up, vs, ho, hq'⟩
        · exact h.idxs k x hx q hq
        · subst ho
          unfold St.calls at hc
          split at hc
          · next e he =>
            rw [calls_vecs hc] at hq'
            exact List.mem_flatMap.2 ⟨e, List.mem_of_getElem? he, hq'⟩
          · cases hc
      · exact h
    · exact h
  | mark =>
    unfold VecIndex.step
    simp only
    split
    · split
      · exact h.frame rfl rfl rfl rfl
      · exact h
    · exact h
  | done =>
    unfold VecIndex.step
    simp only
    split
    · split
      · exact h
      · exact h.frame rfl rfl rfl rfl
    · exact h
  | build n =>
    unfold VecIndex.step
    simp only
    split
    · exact h.newIdx rfl rfl rfl rfl (fun q hq => by cases hq)
    · exact h
  | fill t =>
    unfold VecIndex.step
    simp only
    split
    · split
      · exact h.setIdx rfl rfl rfl rfl (fun q hq => h.data q (fillFrom_mem hq))
      · exact h
    · exact h
  | load =>
    unfold VecIndex.step
    simp only
    split
    · next x hx => exact h.newIdx rfl rfl rfl rfl (h.snap x hx)
    · exact h
  | replay t =>
    have key : ∀ (k : Nat) (x : Idx), s.idxs[k]? = some x → ∀ q ∈ (replayTo g s.log x s.applied).content,
        q ∈ s.log.flatMap (·.cmd.vecs) := by
      intro k x hx q hq
      rcases replayTo_mem hq with hq | hq
      · exact h.idxs k x hx q hq
      · exact hq
    unfold VecIndex.step
    simp only
    split
    · split
      · next x hx => exact h.setIdx rfl rfl rfl rfl (key _ x hx)
      · exact h
    · split
      · next x hx => exact h.setIdx rfl rfl rfl rfl (key _ x hx)
      · exact h
    · exact h
  | on t =>
    unfold VecIndex.step
    simp only
    split
    · split
      · split
        · exact h.frame rfl rfl rfl rfl
        · exact h
      · exact h
    · exact h
  | swap t =>
    unfold VecIndex.step
    simp only
    split
    · split
      · exact h.frame rfl rfl rfl rfl
      · exact h
    · exact h
  | off t =>
    unfold VecIndex.step
    simp only
    split
    · exact h.frame rfl rfl rfl rfl
    · exact h
  | hold => exact h.frame rfl rfl rfl rfl
  | save =>
    unfold VecIndex.step
    simp only
    split
    · next k _ =>
      split
      · next x hx =>
        exact {
          idxs := h.idxs
          snap := fun y hy => by
            injection hy with hy
            subst hy
            exact h.idxs k x hx
          data := h.data }
      · exact h
    · exact h
  | clear => exact h.frame rfl rfl rfl rfl
  | crash =>
    exact {
      idxs := fun _ _ e => by cases e
      snap := h.snap
      data := h.data }

theorem Given.run (g : Cfg) (evs : List Ev) : Given (run g evs) := by
  unfold VecIndex.run
  suffices ∀ s, Given s → Given (evs.foldl (VecIndex.step g) s) from
    this _ ⟨(fun _ _ e => by cases e), (fun _ e => by cases e), (fun _ e => by cases e)⟩
  induction evs with
  | nil => exact fun _ h => h
  | cons ev evs ih => exact fun s h => ih _ (h.step g ev)

end Verif.VecIndex
