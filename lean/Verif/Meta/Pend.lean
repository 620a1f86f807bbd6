/-
Induction over the entries on their way.
-/
import Verif.Meta.Steps

namespace Verif.Meta

/-- What a step does to the metadata and to the entries on their way: some entries are given up, or one is added,
or the first is applied. -/
theorem step_moves {s : State} {e : Ev} (h : Base s)
    (hok : ∀ i th, e = .submit i → s.ths[i]? = some th → th.term = s.term) :
    ((step s e).1.data = s.data ∧ ∃ l, (pending s).Perm (l ++ pending (step s e).1)) ∨
    (∃ q n t p, e = .begin q ∧ s.leader = some n ∧ prepare s.data (s.temps n) q = (t, .ok p) ∧
      (step s e).1.data = s.data ∧ (pending (step s e).1).Perm (p.incr :: pending s)) ∨
    (∃ inc, pending s = inc :: pending (step s e).1 ∧ applyIncr s.data inc = some (step s e).1.data) := by
  have same : ∀ s' : State, s'.data = s.data → pending s' = pending s →
      s'.data = s.data ∧ ∃ l, (pending s).Perm (l ++ pending s') := by
    intro s' h1 h2
    exact ⟨h1, [], by rw [h2]; exact .refl _⟩
  cases hd : s.dead with
  | true => rw [step_dead hd]; exact Or.inl (same s rfl rfl)
  | false =>
    cases e with
    | begin r =>
      rw [step_begin hd]
      rcases begin_cases s r with ⟨_, e⟩ | ⟨n, t, er, hl, hp, e⟩ | ⟨n, t, p, hl, hp, e⟩
      · rw [e]; exact Or.inl (same s rfl rfl)
      · rw [e]; exact Or.inl (same _ rfl rfl)
      · rw [e]
        refine Or.inr (Or.inl ⟨r, n, t, p, rfl, hl, hp, rfl, ?_⟩)
        dsimp only
        rw [pending_begin hl]
        exact List.perm_append_comm
    | submit i =>
      rw [step_submit hd]
      unfold stepSubmit
      cases hi : s.ths[i]? with
      | none => exact Or.inl (same s rfl rfl)
      | some th =>
        dsimp only
        by_cases c : th.pc = .ready ∧ s.leader = some th.node
        · rw [if_pos c]
          have ht : th.term = s.term := hok i th rfl hi
          have ho : th.open s = true := by unfold Th.open; simp [c.1, ht, c.2]
          exact Or.inl ⟨rfl, [], (pending_submit hi ho).symm⟩
        · rw [if_neg c]; exact Or.inl (same s rfl rfl)
    | fail i =>
      rw [step_fail hd]
      unfold stepFail
      cases hi : s.ths[i]? with
      | none => exact Or.inl (same s rfl rfl)
      | some th =>
        dsimp only
        split
        · left
          cases ho : th.open s with
          | true => exact ⟨rfl, [th.plan.incr], pending_fail hi ho⟩
          | false =>
            exact same _ rfl (pending_setPc (s := setTemp s th.node (free (s.temps th.node) th.plan.back)) (pc := .done) hi ho nofun)
        · exact Or.inl (same s rfl rfl)
    | apply =>
      rw [step_apply hd]
      rcases h.apply_cases with ⟨_, e⟩ | ⟨i, inc, rest, hl, ha, e⟩ | ⟨i, inc, rest, d, th, hl, ha, hi, _, ho, hc⟩
      · rw [e]; exact Or.inl (same s rfl rfl)
      · rw [e]; exact Or.inl (same _ rfl rfl)
      · have hp : pending s = inc :: pending { s with data := d, log := rest } := by unfold pending; rw [hl]; rfl
        refine Or.inr (Or.inr ⟨inc, ?_⟩)
        rcases hc with ⟨_, e⟩ | ⟨_, e⟩
        · rw [e]
          refine ⟨?_, ha⟩
          dsimp only
          rw [pending_setPc (s := { s with data := d, log := rest }) (pc := .done) hi ho nofun]
          exact hp
        · rw [e]; exact ⟨hp, ha⟩
    | stepDown =>
      rw [step_down hd]
      refine Or.inl ⟨rfl, (s.ths.filter (Th.open s)).map (fun th => th.plan.incr), ?_⟩
      rw [pending_noleader (s := { s with leader := none, fresh := false }) rfl]
      exact List.perm_append_comm
    | elect n =>
      rw [step_elect hd]
      split
      · rename_i c
        exact Or.inl (same _ rfl (by rw [h.pending_elect c.2, pending_noleader c.1, c.2]; rfl))
      · exact Or.inl (same s rfl rfl)
    | build =>
      rcases step_build hd with ⟨_, n, _, e⟩ | ⟨_, e⟩
      · rw [e]; exact Or.inl (same _ rfl rfl)
      · rw [e]; exact Or.inl (same s rfl rfl)
    | restart n =>
      left
      by_cases hl : s.leader = some n
      · rw [step_restart_leader hd hl]
        refine ⟨rfl, (s.ths.filter (Th.open s)).map (fun th => th.plan.incr), ?_⟩
        have e := pending_noleader (s := { setTemp { s with ths := s.ths.map (fun th => if th.node = n then { th with pc := .done } else th) } n Temp.empty with leader := none, fresh := false }) rfl
        rw [e]
        exact List.perm_append_comm
      · rw [step_restart_other hd hl]
        exact same _ rfl (h.kill hl).2

/-- Every step of the run meets the condition. -/
def StepsOk (f : State → Ev → Bool) (s : State) : List Ev → Bool
  | [] => true
  | e :: es => f s e && StepsOk f (step s e).1 es

/-- Orderly runs keep what is kept by giving up entries, by the checks of a request and by applying an entry. -/
theorem pend_ind {P : Data → List Incr → Prop} {f : State → Ev → Bool} {R : Req → Prop}
    (hperm : ∀ d ps ps', ps.Perm ps' → P d ps → P d ps')
    (hdrop : ∀ d l ps, P d (l ++ ps) → P d ps)
    (hbegin : ∀ (s : State) q n t p, Inv s → okEv s (.begin q) = true → f s (.begin q) = true → R q → s.leader = some n →
      prepare s.data (s.temps n) q = (t, .ok p) → P s.data (pending s) → P s.data (p.incr :: pending s))
    (happly : ∀ d d' inc ps, (∃ d0 t0 t1 p, Shape d0 t0 t1 p ∧ p.incr = inc) → P d (inc :: ps) → applyIncr d inc = some d' → P d' ps)
    {es : List Ev} : ∀ {s : State}, Inv s → okRun s es = true → StepsOk f s es = true → (∀ q, .begin q ∈ es → R q) →
      P s.data (pending s) → P (run s es).1.data (pending (run s es).1) := by
  induction es with
  | nil => intro s _ _ _ _ h; exact h
  | cons e es ih =>
    intro s hi hok hf hr h
    rw [okRun, Bool.and_eq_true] at hok
    rw [StepsOk, Bool.and_eq_true] at hf
    have h1 : P (step s e).1.data (pending (step s e).1) := by
      have hsub : ∀ i th, e = .submit i → s.ths[i]? = some th → th.term = s.term := by
        intro i th e1 e2
        subst e1
        have := hok.1
        dsimp only [okEv] at this
        rw [e2] at this
        simpa using this
      rcases step_moves hi.toBase hsub with ⟨hd, l, hp⟩ | ⟨q, n, t, p, he, hl, hq, hd, hp⟩ | ⟨inc, hp, ha⟩
      · rw [hd]
        exact hdrop _ l _ (hperm _ _ _ hp h)
      · rw [hd]
        subst he
        exact hperm _ _ _ hp.symm (hbegin s q n t p hi hok.1 hf.1 (hr q List.mem_cons_self) hl hq h)
      · rw [hp] at h
        exact happly _ _ _ _ (hi.toBase.pending_shape (by rw [hp]; exact List.mem_cons_self)) h ha
    exact ih (hi.step hok.1) hok.2 hf.2 (fun q hq => hr q (List.mem_cons_of_mem _ hq)) h1

end Verif.Meta
