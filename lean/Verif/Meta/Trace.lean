/-
Requests and their answers along a run, with no condition on the run.
-/
import Verif.Meta.Ids

namespace Verif.Meta

/-- In the run `es`, the request with number `i` is `q`, begun after the events `es1`. -/
def BegunAt (es : List Ev) (i : Nat) (q : Req) (es1 : List Ev) : Prop :=
  ∃ es2, es = es1 ++ .begin q :: es2 ∧ (step (run init es1).1 (.begin q)).2 = .begun i

/-- The request with number `i` is answered. -/
def Out.answers (i : Nat) : Out → Bool
  | .replied j _ => j = i
  | .failed j => j = i
  | _ => false

theorem snoc_ind {α : Type} {P : List α → Prop} (nil : P []) (snoc : ∀ l a, P l → P (l ++ [a])) (l : List α) : P l := by
  have : ∀ n (l : List α), l.length = n → P l := by
    intro n
    induction n with
    | zero => intro l h; rw [List.length_eq_zero_iff.1 h]; exact nil
    | succ n ih =>
      intro l h
      have hne : l ≠ [] := by intro e; rw [e] at h; cases h
      rw [← List.dropLast_concat_getLast hne]
      exact snoc _ _ (ih _ (by rw [List.length_dropLast, h]; rfl))
  exact this _ l rfl

theorem run_append (a b : List Ev) : ∀ s, run s (a ++ b) = ((run (run s a).1 b).1, (run s a).2 ++ (run (run s a).1 b).2) := by
  induction a with
  | nil => intro s; rfl
  | cons e a ih =>
    intro s
    have h1 : run s (e :: a ++ b) = ((run (step s e).1 (a ++ b)).1, (step s e).2 :: (run (step s e).1 (a ++ b)).2) := rfl
    have h2 : run s (e :: a) = ((run (step s e).1 a).1, (step s e).2 :: (run (step s e).1 a).2) := rfl
    rw [h1, h2, ih]
    rfl

/-- Same request, same plan. -/
structure SameTh (th th' : Th) : Prop where
  node : th'.node = th.node
  term : th'.term = th.term
  req : th'.req = th.req
  plan : th'.plan = th.plan

theorem SameTh.refl (th : Th) : SameTh th th := ⟨rfl, rfl, rfl, rfl⟩

/-- Where the requests of the next state come from. -/
structure StepTh (s : State) (e : Ev) (s' : State) (o : Out) : Prop where
  kept : ∀ (i : Nat) th, s.ths[i]? = some th → ∃ th', s'.ths[i]? = some th' ∧ SameTh th th' ∧ (th.pc = .done → th'.pc = .done)
  back : ∀ (i : Nat) th', s'.ths[i]? = some th' → (∃ th, s.ths[i]? = some th ∧ SameTh th th') ∨
    (e = .begin th'.req ∧ o = .begun i ∧ s.leader = some th'.node ∧
      ∃ t, prepare s.data (s.temps th'.node) th'.req = (t, .ok th'.plan))

theorem StepTh.same {s s' : State} {e : Ev} {o : Out} (h : s'.ths = s.ths) : StepTh s e s' o := by
  constructor
  · intro i th hi; exact ⟨th, by rw [h]; exact hi, .refl _, id⟩
  · intro i th hi; exact Or.inl ⟨th, by rw [← h]; exact hi, .refl _⟩

theorem StepTh.setPc {s s' : State} {e : Ev} {o : Out} {j : Nat} {pc : Pc} (h : s'.ths = s.ths.modify j (fun th => { th with pc := pc }))
    (hd : pc = .done ∨ ∀ th, s.ths[j]? = some th → th.pc ≠ .done) : StepTh s e s' o := by
  have e1 : ∀ i, s'.ths[i]? = (s.ths[i]?).map (fun th => if j = i then { th with pc := pc } else th) := by
    intro i; rw [h, List.getElem?_modify]
    cases s.ths[i]? with
    | none => rfl
    | some th => by_cases e : j = i <;> simp [e]
  constructor
  · intro i th hi
    rw [e1, hi]
    refine ⟨_, rfl, ?_, ?_⟩
    · split <;> exact ⟨rfl, rfl, rfl, rfl⟩
    · intro hp
      split
      · rename_i e
        subst e
        rcases hd with hd | hd
        · exact hd
        · exact absurd hp (hd th hi)
      · exact hp
  · intro i th' hi
    rw [e1] at hi
    obtain ⟨th, h1, h2⟩ := Option.map_eq_some_iff.1 hi
    refine Or.inl ⟨th, h1, ?_⟩
    rw [← h2]
    split <;> exact ⟨rfl, rfl, rfl, rfl⟩

theorem apply_full (s : State) :
    (s.log = [] ∧ stepApply s = (s, .none)) ∨
    (∃ i inc rest, s.log = (i, inc) :: rest ∧ ((applyIncr s.data inc = none ∧ stepApply s = ({ s with dead := true }, .down)) ∨
      ∃ d, applyIncr s.data inc = some d ∧
        ((∃ th, s.ths[i]? = some th ∧ th.pc = .waiting ∧
            stepApply s = (setPc { s with data := d, log := rest } i .done, .replied i th.plan.resp)) ∨
         ((∀ th, s.ths[i]? = some th → th.pc ≠ .waiting) ∧ stepApply s = ({ s with data := d, log := rest }, .none))))) := by
  unfold stepApply
  cases hl : s.log with
  | nil => exact Or.inl ⟨rfl, rfl⟩
  | cons x rest =>
    obtain ⟨i, inc⟩ := x
    refine Or.inr ⟨i, inc, rest, rfl, ?_⟩
    dsimp only
    cases ha : applyIncr s.data inc with
    | none => exact Or.inl ⟨rfl, rfl⟩
    | some d =>
      refine Or.inr ⟨d, rfl, ?_⟩
      dsimp only
      cases hi : s.ths[i]? with
      | none => exact Or.inr ⟨nofun, rfl⟩
      | some th =>
        dsimp only
        by_cases hp : th.pc = .waiting
        · rw [if_pos hp]; exact Or.inl ⟨th, rfl, hp, rfl⟩
        · rw [if_neg hp]; exact Or.inr ⟨fun th' h => by cases h; exact hp, rfl⟩

theorem step_th (s : State) (e : Ev) : StepTh s e (step s e).1 (step s e).2 := by
  cases hd : s.dead with
  | true => rw [step_dead hd]; exact .same rfl
  | false =>
    cases e with
    | begin r =>
      rw [step_begin hd]
      rcases begin_cases s r with ⟨_, e⟩ | ⟨n, t, er, hl, hp, e⟩ | ⟨n, t, p, hl, hp, e⟩
      · rw [e]; exact .same rfl
      · rw [e]; exact .same rfl
      · rw [e]
        constructor
        · intro i th hi
          exact ⟨th, (List.getElem?_append_left (List.getElem?_eq_some_iff.1 hi).1).trans hi, .refl _, id⟩
        · intro i th' hi
          by_cases c : i < s.ths.length
          · exact Or.inl ⟨th', (List.getElem?_append_left c).symm.trans hi, .refl _⟩
          · have hi : (s.ths ++ [⟨n, s.term, r, p, .ready⟩])[i]? = some th' := hi
            rw [List.getElem?_append_right (by omega)] at hi
            have hz : i - s.ths.length = 0 := by
              have := (List.getElem?_eq_some_iff.1 hi).1
              simpa using this
            rw [hz] at hi
            cases hi
            have : i = s.ths.length := by omega
            subst this
            exact Or.inr ⟨rfl, rfl, hl, t, hp⟩
    | submit i =>
      rw [step_submit hd]
      unfold stepSubmit
      cases hi : s.ths[i]? with
      | none => exact .same rfl
      | some th =>
        dsimp only
        split
        · rename_i c
          exact .setPc (j := i) (pc := .waiting) rfl (Or.inr (fun th' h => by rw [hi] at h; cases h; rw [c.1]; nofun))
        · exact .same rfl
    | fail i =>
      rw [step_fail hd]
      unfold stepFail
      cases hi : s.ths[i]? with
      | none => exact .same rfl
      | some th =>
        dsimp only
        split
        · exact .setPc (j := i) (pc := .done) rfl (Or.inl rfl)
        · exact .same rfl
    | apply =>
      rw [step_apply hd]
      rcases apply_full s with ⟨_, e⟩ | ⟨i, inc, rest, hl, ⟨_, e⟩ | ⟨d, _, ⟨th, _, _, e⟩ | ⟨_, e⟩⟩⟩
      · rw [e]; exact .same rfl
      · rw [e]; exact .same rfl
      · rw [e]; exact .setPc (j := i) (pc := .done) rfl (Or.inl rfl)
      · rw [e]; exact .same rfl
    | stepDown => rw [step_down hd]; exact .same rfl
    | elect n => rw [step_elect hd]; split <;> exact .same rfl
    | build =>
      rcases step_build hd with ⟨hf, n, hl, e⟩ | ⟨_, e⟩
      · rw [e]; exact .same rfl
      · rw [e]; exact .same rfl
    | restart n =>
      have hths : (step s (.restart n)).1.ths = s.ths.map (fun th => if th.node = n then { th with pc := .done } else th) := by
        by_cases hl : s.leader = some n
        · rw [step_restart_leader hd hl]; rfl
        · rw [step_restart_other hd hl]; rfl
      constructor
      · intro i th hi
        rw [hths, List.getElem?_map, hi]
        refine ⟨_, rfl, ?_, ?_⟩
        · dsimp only; split <;> exact ⟨rfl, rfl, rfl, rfl⟩
        · intro hp; dsimp only; split
          · rfl
          · exact hp
      · intro i th' hi
        rw [hths, List.getElem?_map] at hi
        obtain ⟨th, h1, h2⟩ := Option.map_eq_some_iff.1 hi
        refine Or.inl ⟨th, h1, ?_⟩
        rw [← h2]
        split <;> exact ⟨rfl, rfl, rfl, rfl⟩

/-- An answer ends its request. -/
theorem step_answers {s : State} {e : Ev} {i : Nat} (h : (step s e).2.answers i = true) :
    ∃ th, s.ths[i]? = some th ∧ th.pc ≠ .done ∧ (∃ th', (step s e).1.ths[i]? = some th' ∧ th'.pc = .done) ∧
      (∀ r, (step s e).2 = .replied i r → r = th.plan.resp) := by
  have hset : ∀ (s : State) (i : Nat) (th : Th), s.ths[i]? = some th → ∃ th', (setPc s i .done).ths[i]? = some th' ∧ th'.pc = .done := by
    intro s i th hi
    refine ⟨{ th with pc := .done }, ?_, rfl⟩
    show (s.ths.modify i _)[i]? = _
    rw [List.getElem?_modify, hi]; simp
  cases hd : s.dead with
  | true => rw [step_dead hd] at h; cases h
  | false =>
    cases e with
    | begin r =>
      rw [step_begin hd] at h
      rcases begin_cases s r with ⟨_, e⟩ | ⟨n, t, er, hl, hp, e⟩ | ⟨n, t, p, hl, hp, e⟩ <;>
        (rw [e] at h; cases h)
    | submit j =>
      rw [step_submit hd] at h
      unfold stepSubmit at h
      split at h
      · cases h
      · split at h <;> cases h
    | fail j =>
      rw [step_fail hd] at h ⊢
      unfold stepFail at *
      cases hi : s.ths[j]? with
      | none => rw [hi] at h; cases h
      | some th =>
        rw [hi] at h
        dsimp only at h ⊢
        by_cases c : th.pc = .ready ∨ (th.pc = .waiting ∧ (s.leader ≠ some th.node ∨ th.term ≠ s.term))
        · rw [if_pos c] at h ⊢
          have : j = i := by simpa [Out.answers] using h
          subst this
          refine ⟨th, hi, ?_, hset _ _ th hi, nofun⟩
          rcases c with c | c
          · rw [c]; nofun
          · rw [c.1]; nofun
        · rw [if_neg c] at h; cases h
    | apply =>
      rw [step_apply hd] at h ⊢
      rcases apply_full s with ⟨_, e⟩ | ⟨j, inc, rest, hl, ⟨_, e⟩ | ⟨d, _, ⟨th, hi, hp, e⟩ | ⟨_, e⟩⟩⟩
      · rw [e] at h; cases h
      · rw [e] at h; cases h
      · rw [e] at h ⊢
        have : j = i := by simpa [Out.answers] using h
        subst this
        exact ⟨th, hi, by rw [hp]; nofun, hset _ _ th hi, fun r hr => by cases hr; rfl⟩
      · rw [e] at h; cases h
    | stepDown => rw [step_down hd] at h; cases h
    | elect n => rw [step_elect hd] at h; split at h <;> cases h
    | build =>
      rcases step_build hd with ⟨hf, n, hl, e⟩ | ⟨_, e⟩ <;> (rw [e] at h; cases h)
    | restart n =>
      by_cases hl : s.leader = some n
      · rw [step_restart_leader hd hl] at h; cases h
      · rw [step_restart_other hd hl] at h; cases h

theorem answers_le (i : Nat) (es : List Ev) : ∀ s, ((run s es).2.filter (Out.answers i)).length ≤ 1 ∧
    (∀ th, s.ths[i]? = some th → th.pc = .done → (run s es).2.filter (Out.answers i) = []) := by
  induction es with
  | nil => intro s; exact ⟨Nat.zero_le _, fun _ _ _ => rfl⟩
  | cons e es ih =>
    intro s
    have e2 : (run s (e :: es)).2 = (step s e).2 :: (run (step s e).1 es).2 := rfl
    obtain ⟨h1, h2⟩ := ih (step s e).1
    rw [e2, List.filter_cons]
    by_cases c : (step s e).2.answers i = true
    · obtain ⟨th, hi, hp, ⟨th', hi', hp'⟩, _⟩ := step_answers c
      rw [if_pos c, h2 th' hi' hp']
      refine ⟨Nat.le_refl _, fun th2 hi2 hp2 => ?_⟩
      rw [hi] at hi2; cases hi2
      exact absurd hp2 hp
    · rw [if_neg c]
      refine ⟨h1, fun th hi hp => ?_⟩
      obtain ⟨th', h3, _, h4⟩ := (step_th s e).kept i th hi
      exact h2 th' h3 (h4 hp)

theorem run_snoc (s : State) (es : List Ev) (e : Ev) :
    run s (es ++ [e]) = ((step (run s es).1 e).1, (run s es).2 ++ [(step (run s es).1 e).2]) := by
  rw [run_append]; rfl

/-- Every request of a run was begun in it, and its plan is what the checks made of it then. -/
theorem run_begun {i : Nat} {es : List Ev} : ∀ {th : Th}, (run init es).1.ths[i]? = some th →
    ∃ es1, BegunAt es i th.req es1 ∧ (run init es1).1.leader = some th.node ∧
      ∃ t, prepare (run init es1).1.data ((run init es1).1.temps th.node) th.req = (t, .ok th.plan) := by
  induction es using snoc_ind with
  | nil => intro th h; cases h
  | snoc es e ih =>
    intro th h
    rw [run_snoc] at h
    rcases (step_th (run init es).1 e).back i th h with ⟨th0, h1, h2⟩ | ⟨h1, h2, h3, h4⟩
    · obtain ⟨es1, ⟨es2, e1, e2⟩, h4, t, h5⟩ := ih h1
      rw [h2.node, h2.req, h2.plan]
      exact ⟨es1, ⟨es2 ++ [e], by rw [e1]; simp, e2⟩, h4, t, h5⟩
    · exact ⟨es, ⟨[], by rw [h1], by rw [← h1]; exact h2⟩, h3, h4⟩

/-- Where an answer comes from. -/
theorem run_replied {i : Nat} {r : Resp} {es : List Ev} : .replied i r ∈ (run init es).2 →
    ∃ q es1 n t p, BegunAt es i q es1 ∧ (run init es1).1.leader = some n ∧
      prepare (run init es1).1.data ((run init es1).1.temps n) q = (t, .ok p) ∧ p.resp = r := by
  induction es using snoc_ind with
  | nil => intro h; cases h
  | snoc es e ih =>
    intro h
    rw [run_snoc] at h
    rcases List.mem_append.1 h with h | h
    · obtain ⟨q, es1, n, t, p, ⟨es2, e1, e2⟩, h2⟩ := ih h
      exact ⟨q, es1, n, t, p, ⟨es2 ++ [e], by rw [e1]; simp, e2⟩, h2⟩
    · have h := (List.mem_singleton.1 h).symm
      obtain ⟨th, h1, _, _, h3⟩ := step_answers (s := (run init es).1) (e := e) (i := i) (by rw [h]; simp [Out.answers])
      obtain ⟨es1, ⟨es2, e1, e2⟩, h4, t, h5⟩ := run_begun h1
      exact ⟨th.req, es1, th.node, t, th.plan, ⟨es2 ++ [e], by rw [e1]; simp, e2⟩, h4, h5, (h3 r h).symm⟩

/-- A request is begun once. -/
theorem begunAt_unique {es es1 es1' : List Ev} {i : Nat} {q q' : Req} (h : BegunAt es i q es1) (h' : BegunAt es i q' es1') :
    es1 = es1' ∧ q = q' := by
  have len : ∀ (a : List Ev) (q : Req) (e2 : (step (run init a).1 (.begin q)).2 = .begun i),
      (run init a).1.ths.length = i ∧ (run init (a ++ [.begin q])).1.ths.length = i + 1 := by
    intro a q e2
    rw [run_snoc]
    generalize (run init a).1 = s at *
    cases hd : s.dead with
    | true => rw [step_dead hd] at e2; cases e2
    | false =>
      rw [step_begin hd] at e2 ⊢
      rcases begin_cases s q with ⟨_, e⟩ | ⟨n, t, er, hl, hp, e⟩ | ⟨n, t, p, hl, hp, e⟩ <;> rw [e] at e2 ⊢ <;> cases e2
      refine ⟨rfl, ?_⟩
      show (s.ths ++ [_]).length = _
      simp
  have mono : ∀ (b : List Ev) (s : State), s.ths.length ≤ (run s b).1.ths.length := by
    intro b
    induction b with
    | nil => intro s; exact Nat.le_refl _
    | cons e b ih =>
      intro s
      refine Nat.le_trans ?_ (ih (step s e).1)
      by_cases hz : s.ths.length = 0
      · omega
      · obtain ⟨th', h1, _⟩ := (step_th s e).kept (s.ths.length - 1) (s.ths[s.ths.length - 1]'(by omega)) (List.getElem?_eq_getElem _)
        have := (List.getElem?_eq_some_iff.1 h1).1
        omega
  have key : ∀ (a a' : List Ev) (q q' : Req), (step (run init a).1 (.begin q)).2 = .begun i →
      (step (run init a').1 (.begin q')).2 = .begun i → ∀ b b', a ++ .begin q :: b = a' ++ .begin q' :: b' →
      ¬ a.length < a'.length := by
    intro a a' q q' h1 h2 b b' e hlt
    have : ∃ c, a' = a ++ [.begin q] ++ c := by
      have hp : (a ++ [.begin q]) <+: (a' ++ .begin q' :: b') := ⟨b, by rw [← e]; simp⟩
      have := List.prefix_of_prefix_length_le hp (List.prefix_append a' _) (by simp; omega)
      obtain ⟨c, hc⟩ := this
      exact ⟨c, hc.symm⟩
    obtain ⟨c, hc⟩ := this
    have l1 := (len a q h1).2
    have l2 := (len a' q' h2).1
    rw [hc, run_append] at l2
    have := mono c (run init (a ++ [.begin q])).1
    dsimp only at l2
    omega
  obtain ⟨b, e1, e2⟩ := h
  obtain ⟨b', e1', e2'⟩ := h'
  have k1 := key es1 es1' q q' e2 e2' b b' (e1.symm.trans e1')
  have k2 := key es1' es1 q' q e2' e2 b' b (e1'.symm.trans e1)
  have hl : es1.length = es1'.length := by omega
  have := List.append_inj (e1.symm.trans e1') hl
  refine ⟨this.1, ?_⟩
  have := (List.cons.inj this.2).1
  cases this; rfl

end Verif.Meta
