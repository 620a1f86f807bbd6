import Verif.Scan.Inv

/-! # Scan sessions: invariants of runs -/

namespace Verif.Scan
open Verif.Codec Verif.Mvcc

theorem run_append (cfg : Cfg) (s : State) (a b : List Ev) :
    run cfg s (a ++ b) = ((run cfg (run cfg s a).1 b).1, (run cfg s a).2 ++ (run cfg (run cfg s a).1 b).2) := by
  induction a generalizing s with
  | nil => simp [run]
  | cons e a ih => simp only [List.cons_append, run, ih, List.append_assoc]

theorem run_one (cfg : Cfg) (s : State) (e : Ev) : run cfg s [e] = step cfg s e := by
  simp [run]

/-- The state after a run, and after one more event. -/
theorem run_snoc (cfg : Cfg) (s : State) (a : List Ev) (e : Ev) :
    run cfg s (a ++ [e]) = ((step cfg (run cfg s a).1 e).1, (run cfg s a).2 ++ (step cfg (run cfg s a).1 e).2) := by
  rw [run_append, run_one]

/-- Induction over runs, last event last. -/
theorem run_ind {cfg : Cfg} {s0 : State} {P : State → List Out → Prop} {ok : Ev → Prop} (h0 : P s0 [])
    (hs : ∀ s outs e, P s outs → ok e → P (step cfg s e).1 (outs ++ (step cfg s e).2))
    (evs : List Ev) (hok : ∀ e ∈ evs, ok e) : P (run cfg s0 evs).1 (run cfg s0 evs).2 := by
  have gen : ∀ (evs : List Ev) s outs, (∀ e ∈ evs, ok e) → P s outs →
      P (run cfg s evs).1 (outs ++ (run cfg s evs).2) := by
    intro evs
    induction evs with
    | nil => intro s outs _ h; simpa [run] using h
    | cons e es ih =>
      intro s outs hk h
      have := ih (step cfg s e).1 (outs ++ (step cfg s e).2)
        (fun x hx => hk x (List.mem_cons_of_mem _ hx)) (hs s outs e h (hk e (by simp)))
      simpa only [run, List.append_assoc] using this
  simpa using gen evs s0 [] hok h0

/-! ## Where responses come from -/

theorem beginCheck_quiet {r : BeginReq} {l : Bool} {n : Nat} {out : Out}
    (h : beginCheck r l n = some out) : (∃ e, out = .refused n e) ∨ out = .nothing n := by
  unfold beginCheck at h
  repeat' (split at h)
  all_goals first
    | (cases h; done)
    | (cases h; exact Or.inl ⟨_, rfl⟩)
    | (cases h; exact Or.inr rfl)

theorem goStep_outs {cfg : Cfg} {s : State} {i : Nat} {t t' : Int} {b : Bool} {pc : Pc} {x : Out}
    (hx : x ∈ (goStep cfg s i t t' b pc).2) :
    (∃ o id r c c' kvs more, pc = .begin o id r ∧ s.objs[o]? = some c ∧
      scanBegin cfg s.store t t' c r = (c', .ok kvs more) ∧ x = .begun i o id r kvs ∧
      (goStep cfg s i t t' b pc) = ({ s with objs := s.objs.set o c', ths := s.ths.set i .done }, [x])) ∨
    (∃ o id max c c' kvs more, pc = .cont o id max ∧ s.objs[o]? = some c ∧
      scanContinue cfg t' c id max = (c', .ok kvs more) ∧ x = .page i o id max kvs more ∧
      (goStep cfg s i t t' b pc) = ({ s with objs := s.objs.set o c', ths := s.ths.set i .done }, [x])) ∨
    (∃ o id, pc = .tryDel o id ∧ x = .released i o id) ∨
    (∃ id e, pc = .drop id e ∧ x = .refused i e) ∨ x = .crash := by
  cases pc with
  | opening o id r =>
    simp only [goStep] at hx
    cases h0 : s.objs[o]? with
    | none => rw [h0] at hx; cases hx
    | some c =>
      rw [h0] at hx
      simp only at hx
      split at hx <;> cases hx
  | begin o id r =>
    simp only [goStep] at hx ⊢
    cases h0 : s.objs[o]? with
    | none => rw [h0] at hx; cases hx
    | some c =>
      rw [h0] at hx
      simp only at hx ⊢
      cases hc : scanBegin cfg s.store t t' c r with
      | mk c1 out =>
        rw [hc] at hx
        cases out with
        | ok kvs more =>
          simp only [List.mem_singleton] at hx
          subst hx
          exact Or.inl ⟨o, id, r, c, c1, kvs, more, rfl, h0, hc, rfl, rfl⟩
        | err e => cases hx
        | crash =>
          simp only [List.mem_singleton] at hx
          exact Or.inr (Or.inr (Or.inr (Or.inr hx)))
  | cont o id max =>
    simp only [goStep] at hx ⊢
    cases h0 : s.objs[o]? with
    | none => rw [h0] at hx; cases hx
    | some c =>
      rw [h0] at hx
      simp only at hx ⊢
      cases hc : scanContinue cfg t' c id max with
      | mk c1 out =>
        rw [hc] at hx
        cases out with
        | ok kvs more =>
          simp only [List.mem_singleton] at hx
          subst hx
          exact Or.inr (Or.inl ⟨o, id, max, c, c1, kvs, more, rfl, h0, hc, rfl, rfl⟩)
        | err e => cases hx
        | crash =>
          simp only [List.mem_singleton] at hx
          exact Or.inr (Or.inr (Or.inr (Or.inr hx)))
  | rel o id =>
    simp only [goStep] at hx ⊢
    cases h0 : s.objs[o]? with
    | none => rw [h0] at hx; cases hx
    | some c =>
      rw [h0] at hx
      simp only at hx
      split at hx
      · cases hx
      · cases hx
      · simp only [List.mem_singleton] at hx
        exact Or.inr (Or.inr (Or.inr (Or.inr hx)))
  | drop id e =>
    simp only [goStep, List.mem_singleton] at hx
    exact Or.inr (Or.inr (Or.inr (Or.inl ⟨id, e, rfl, hx⟩)))
  | tryDel o id =>
    refine Or.inr (Or.inr (Or.inl ⟨o, id, rfl, ?_⟩))
    simp only [goStep] at hx
    split at hx
    · simpa using hx
    · split at hx
      · simpa using hx
      · split at hx <;> simpa using hx
  | done => cases hx

/-- The origin of a response that concerns a session. -/
theorem step_outs {cfg : Cfg} {s : State} {e : Ev} {x : Out} (hx : x ∈ (step cfg s e).2) :
    (∃ i t t' b o id r c c' kvs more, e = .go i t t' b ∧ s.dead = false ∧ s.ths[i]? = some (.begin o id r) ∧
      s.objs[o]? = some c ∧ scanBegin cfg s.store t t' c r = (c', .ok kvs more) ∧
      x = .begun i o id r kvs ∧
      step cfg s e = ({ s with objs := s.objs.set o c', ths := s.ths.set i .done }, [x])) ∨
    (∃ i t t' b o id max c c' kvs more, e = .go i t t' b ∧ s.dead = false ∧ s.ths[i]? = some (.cont o id max) ∧
      s.objs[o]? = some c ∧ scanContinue cfg t' c id max = (c', .ok kvs more) ∧
      x = .page i o id max kvs more ∧
      step cfg s e = ({ s with objs := s.objs.set o c', ths := s.ths.set i .done }, [x])) ∨
    (∃ i t t' b o id, e = .go i t t' b ∧ s.ths[i]? = some (.tryDel o id) ∧ x = .released i o id) ∨
    (∃ i e', x = .refused i e') ∨ (∃ i, x = .nothing i) ∨ x = .crash := by
  have hbc : ∀ r l out, beginCheck r l s.ths.length = some out → x = out →
      (∃ i e', x = .refused i e') ∨ (∃ i, x = .nothing i) ∨ x = .crash := by
    intro r l out h hx
    subst hx
    rcases beginCheck_quiet h with ⟨e, h⟩ | h
    · exact Or.inl ⟨_, _, h⟩
    · exact Or.inr (Or.inl ⟨_, h⟩)
  unfold step at hx ⊢
  by_cases hd : s.dead = true
  · rw [if_pos hd] at hx; cases hx
  · rw [if_neg hd] at hx ⊢
    have hd : s.dead = false := by simpa using hd
    cases e with
    | data st => cases hx
    | beginV1 guids r now leader =>
      simp only at hx
      cases hb : beginCheck r leader s.ths.length with
      | some out =>
        rw [hb] at hx
        exact Or.inr (Or.inr (Or.inr (hbc _ _ _ hb (List.mem_singleton.1 hx))))
      | none =>
        rw [hb] at hx
        simp only at hx
        split at hx <;> cases hx
    | beginV2 id r now leader =>
      simp only at hx
      cases hb : beginCheck r leader s.ths.length with
      | some out =>
        rw [hb] at hx
        exact Or.inr (Or.inr (Or.inr (hbc _ _ _ hb (List.mem_singleton.1 hx))))
      | none =>
        rw [hb] at hx
        simp only at hx
        split at hx
        · exact Or.inr (Or.inr (Or.inr (Or.inl ⟨_, _, List.mem_singleton.1 hx⟩)))
        · cases hx
    | cont id max =>
      simp only at hx
      split at hx
      · exact Or.inr (Or.inr (Or.inr (Or.inl ⟨_, _, List.mem_singleton.1 hx⟩)))
      · split at hx
        · exact Or.inr (Or.inr (Or.inr (Or.inl ⟨_, _, List.mem_singleton.1 hx⟩)))
        · split at hx
          · exact Or.inr (Or.inr (Or.inr (Or.inl ⟨_, _, List.mem_singleton.1 hx⟩)))
          · cases hx
    | release id =>
      simp only at hx
      split at hx
      · exact Or.inr (Or.inr (Or.inr (Or.inl ⟨_, _, List.mem_singleton.1 hx⟩)))
      · split at hx
        · exact Or.inr (Or.inr (Or.inr (Or.inl ⟨_, _, List.mem_singleton.1 hx⟩)))
        · cases hx
    | go i t t' busy =>
      simp only at hx ⊢
      cases hp : s.ths[i]? with
      | none => rw [hp] at hx; cases hx
      | some pc =>
        rw [hp] at hx
        simp only at hx ⊢
        rcases goStep_outs hx with ⟨o, id, r, c, c', kvs, more, e1, e2, e3, e4, e5⟩ |
          ⟨o, id, max, c, c', kvs, more, e1, e2, e3, e4, e5⟩ | ⟨o, id, e1, e2⟩ | ⟨id, e', _, e2⟩ | e1
        · subst e1
          exact Or.inl ⟨i, t, t', busy, o, id, r, c, c', kvs, more, rfl, hd, hp, e2, e3, e4, e5⟩
        · subst e1
          exact Or.inr (Or.inl ⟨i, t, t', busy, o, id, max, c, c', kvs, more, rfl, hd, hp, e2, e3, e4, e5⟩)
        · subst e1
          exact Or.inr (Or.inr (Or.inl ⟨i, t, t', busy, o, id, rfl, hp, e2⟩))
        · exact Or.inr (Or.inr (Or.inr (Or.inl ⟨_, _, e2⟩)))
        · exact Or.inr (Or.inr (Or.inr (Or.inr (Or.inr e1))))
    | clean now busy => cases hx

/-! ## Threads -/

/-- A thread about to begin a session has opened it. -/
theorem step_begins {cfg : Cfg} {s : State} {e : Ev} {i o : Nat} {id : Bytes} {r : BeginReq}
    (h : (step cfg s e).1.ths[i]? = some (.begin o id r)) :
    s.ths[i]? = some (.begin o id r) ∨
    ∃ c, s.objs[o]? = some c ∧ (openCtx c id r.ts).2 = none ∧
      (step cfg s e).1.objs = s.objs.set o (openCtx c id r.ts).1 := by
  have app : ∀ pc, pc ≠ .begin o id r → (s.ths ++ [pc])[i]? = some (.begin o id r) →
      s.ths[i]? = some (.begin o id r) := by
    intro pc hne h
    rcases Nat.lt_or_ge i s.ths.length with hl | hl
    · rwa [List.getElem?_append_left hl] at h
    · rw [List.getElem?_append_right hl] at h
      have := List.mem_of_getElem? h
      simp only [List.mem_singleton] at this
      exact absurd this.symm hne
  have set : ∀ j pc, pc ≠ .begin o id r → (s.ths.set j pc)[i]? = some (.begin o id r) →
      s.ths[i]? = some (.begin o id r) := by
    intro j pc hne h
    by_cases hj : j = i
    · subst hj
      rw [List.getElem?_set] at h
      simp only [if_true] at h
      split at h
      · cases h; exact absurd rfl hne
      · cases h
    · rwa [List.getElem?_set_ne hj] at h
  unfold step at h ⊢
  by_cases hd : s.dead = true
  · rw [if_pos hd] at h; exact Or.inl h
  · rw [if_neg hd] at h ⊢
    cases e with
    | data st => exact Or.inl h
    | beginV1 guids r' now leader =>
      left
      simp only at h
      split at h
      · exact app _ (by simp) h
      · split at h
        · exact h
        · exact app _ (by simp) h
    | beginV2 id' r' now leader =>
      left
      simp only at h
      split at h
      · exact app _ (by simp) h
      · split at h
        · exact app _ (by simp) h
        · exact app _ (by simp) h
    | cont id' max =>
      left
      simp only at h
      split at h
      · exact app _ (by simp) h
      · split at h
        · exact app _ (by simp) h
        · split at h
          · exact app _ (by simp) h
          · exact app _ (by simp) h
    | release id' =>
      left
      simp only at h
      split at h
      · exact app _ (by simp) h
      · split at h
        · exact app _ (by simp) h
        · exact app _ (by simp) h
    | clean now busy => exact Or.inl h
    | go j t t' busy =>
      simp only at h ⊢
      cases hp : s.ths[j]? with
      | none => rw [hp] at h; exact Or.inl h
      | some pc =>
        rw [hp] at h
        simp only at h ⊢
        cases pc with
        | opening o' id' r' =>
          simp only [goStep] at h ⊢
          cases h0 : s.objs[o']? with
          | none => rw [h0] at h; exact Or.inl h
          | some c =>
            rw [h0] at h
            simp only at h ⊢
            cases hx : (openCtx c id' r'.ts).2 with
            | some e => rw [hx] at h; exact Or.inl (set _ _ (by simp) h)
            | none =>
              rw [hx] at h
              simp only at h ⊢
              by_cases hpe : Pc.begin o' id' r' = Pc.begin o id r
              · cases hpe
                exact Or.inr ⟨c, h0, hx, rfl⟩
              · exact Or.inl (set _ _ hpe h)
        | begin o' id' r' =>
          left
          simp only [goStep] at h
          split at h
          · exact h
          · split at h
            · exact set _ _ (by simp) h
            · exact set _ _ (by simp) h
            · exact h
        | cont o' id' m =>
          left
          simp only [goStep] at h
          split at h
          · exact h
          · split at h
            · exact set _ _ (by simp) h
            · exact set _ _ (by simp) h
            · exact h
        | rel o' id' =>
          left
          simp only [goStep] at h
          split at h
          · exact h
          · split at h
            · exact set _ _ (by simp) h
            · exact set _ _ (by simp) h
            · exact h
        | drop id' e => exact Or.inl (set _ _ (by simp) h)
        | tryDel o' id' =>
          left
          simp only [goStep] at h
          split at h
          · exact set _ _ (by simp) h
          · split at h
            · exact set _ _ (by simp) h
            · split at h
              · exact set _ _ (by simp) h
              · exact set _ _ (by simp) h
        | done => exact Or.inl h

/-- Sessions are never removed from the heap. -/
theorem step_objs_none {cfg : Cfg} {s : State} {e : Ev} {o : Nat} {c : Ctx}
    (h : s.objs[o]? = none) (h' : (step cfg s e).1.objs[o]? = some c) :
    (∃ now, c = { last := now }) ∧ (step cfg s e).2 = [] := by
  have hl := List.getElem?_eq_none_iff.1 h
  have app : ∀ now, (s.objs ++ [{ last := now }])[o]? = some c → c = { last := now } := by
    intro now hx
    rw [List.getElem?_append_right hl] at hx
    have := List.mem_of_getElem? hx
    simpa using this
  have no : ∀ {P : Prop}, s.objs[o]? = some c → P := by
    intro P hx; rw [h] at hx; cases hx
  have set : ∀ {P : Prop} j x, (s.objs.set j x)[o]? = some c → P := by
    intro P j x hx
    have := (List.getElem?_eq_some_iff.1 hx).1
    rw [List.length_set] at this
    omega
  unfold step at h' ⊢
  by_cases hd : s.dead = true
  · rw [if_pos hd] at h'; exact no h'
  · rw [if_neg hd] at h' ⊢
    cases e with
    | data st => exact no h'
    | beginV1 guids r' now leader =>
      simp only at h' ⊢
      split at h'
      · exact no h'
      · split at h'
        · exact no h'
        · exact ⟨⟨_, app _ h'⟩, rfl⟩
    | beginV2 id' r' now leader =>
      simp only at h' ⊢
      split at h'
      · exact no h'
      · split at h'
        · exact no h'
        · exact ⟨⟨_, app _ h'⟩, rfl⟩
    | cont id' max =>
      simp only at h'
      split at h'
      · exact no h'
      · split at h'
        · exact no h'
        · split at h' <;> exact no h'
    | release id' =>
      simp only at h'
      split at h'
      · exact no h'
      · split at h' <;> exact no h'
    | clean now busy =>
      simp only at h'
      have := (List.getElem?_eq_some_iff.1 h').1
      rw [cleanMap_length] at this
      omega
    | go j t t' busy =>
      simp only at h'
      cases hp : s.ths[j]? with
      | none => rw [hp] at h'; exact no h'
      | some pc =>
        rw [hp] at h'
        simp only at h'
        cases pc with
        | opening o' id' r' =>
          simp only [goStep] at h'
          split at h'
          · exact no h'
          · split at h' <;> exact set _ _ h'
        | begin o' id' r' =>
          simp only [goStep] at h'
          split at h'
          · exact no h'
          · split at h'
            · exact set _ _ h'
            · exact set _ _ h'
            · exact no h'
        | cont o' id' m =>
          simp only [goStep] at h'
          split at h'
          · exact no h'
          · split at h'
            · exact set _ _ h'
            · exact set _ _ h'
            · exact no h'
        | rel o' id' =>
          simp only [goStep] at h'
          split at h'
          · exact no h'
          · split at h'
            · exact set _ _ h'
            · exact set _ _ h'
            · exact no h'
        | drop id' e => exact no h'
        | tryDel o' id' =>
          simp only [goStep] at h'
          split at h'
          · exact no h'
          · split at h'
            · exact no h'
            · split at h'
              · exact no h'
              · exact set _ _ h'
        | done => exact no h'

/-- The id a response about a session names. -/
def Out.tag (o : Nat) : Out → Option Bytes
  | .begun _ o' id _ _ => if o' = o then some id else none
  | .page _ o' id _ _ _ => if o' = o then some id else none
  | _ => none

/-- Invariant of all runs. -/
structure RInv (s : State) (outs : List Out) : Prop where
  /-- A session that has not begun has handed out nothing. -/
  fresh : ∀ o, (∀ c, s.objs[o]? = some c → Young c) → Quiet o outs
  begins : ∀ (i o : Nat) (id : Bytes) (r : BeginReq), s.ths[i]? = some (.begin o id r) →
    ∃ c, s.objs[o]? = some c ∧ c.id = id ∧ c.ts = r.ts ∧ c.st ≠ .uninit
  tags : ∀ x ∈ outs, ∀ (o : Nat) (id : Bytes), x.tag o = some id →
    ∃ c, s.objs[o]? = some c ∧ c.id = id ∧ c.st ≠ .uninit

theorem RInv.init (st : Store) : RInv (State.init st) [] :=
  ⟨fun o _ => quiet_nil o, fun i o id r h => (by simp [State.init] at h), fun x hx => (by cases hx)⟩

theorem RInv.step {cfg : Cfg} {s : State} {outs : List Out} (h : RInv s outs) (e : Ev) :
    RInv (step cfg s e).1 (outs ++ (step cfg s e).2) := by
  have keep : ∀ {o : Nat} {c : Ctx} {id : Bytes}, s.objs[o]? = some c → c.id = id → c.st ≠ .uninit →
      ∃ c', (Verif.Scan.step cfg s e).1.objs[o]? = some c' ∧ c'.id = id ∧ c'.ts = c.ts ∧ c'.st ≠ .uninit := by
    intro o c id h1 h2 h3
    obtain ⟨c', e1, m⟩ := step_obj cfg s e o c h1
    obtain ⟨a, b, d⟩ := m.keeps h3
    exact ⟨c', e1, a.trans h2, b, d⟩
  refine ⟨?_, ?_, ?_⟩
  · intro o hy
    cases ho : s.objs[o]? with
    | none =>
      refine (h.fresh o (fun c hc => by rw [ho] at hc; cases hc)).append ?_
      intro x hx
      rcases step_outs hx with ⟨i, t, t', b, o', id, r, c, c', kvs, more, _, _, _, e2, _, e4, _⟩ |
        ⟨i, t, t', b, o', id, max, c, c', kvs, more, _, _, _, e2, _, e4, _⟩ |
        ⟨i, _, _, _, o', id, _, _, e4⟩ | ⟨i, e', e4⟩ | ⟨i, e4⟩ | e4
      · subst e4
        have : o' ≠ o := fun e => by rw [e, ho] at e2; cases e2
        simp [Out.isPage, Out.isBegun, this]
      · subst e4
        have : o' ≠ o := fun e => by rw [e, ho] at e2; cases e2
        simp [Out.isPage, Out.isBegun, this]
      all_goals (subst e4; exact ⟨rfl, rfl⟩)
    | some c =>
      obtain ⟨c', e1, m⟩ := step_obj cfg s e o c ho
      obtain ⟨q, y⟩ := m.young (hy c' e1)
      exact (h.fresh o (fun c2 hc2 => by rw [ho] at hc2; cases hc2; exact y)).append q
  · intro i o id r hi
    rcases step_begins hi with hi | ⟨c, h1, h2, h3⟩
    · obtain ⟨c, h1, h2, h3, h4⟩ := h.begins i o id r hi
      obtain ⟨c', a, b, d, f⟩ := keep h1 h2 h4
      exact ⟨c', a, b, d.trans h3, f⟩
    · have hlt := (List.getElem?_eq_some_iff.1 h1).1
      refine ⟨(openCtx c id r.ts).1, by rw [h3, List.getElem?_set_self hlt], ?_⟩
      unfold openCtx at h2 ⊢
      split at h2
      · cases h2
      · rename_i a
        split at h2
        · cases h2
        · rename_i b
          rw [if_neg a, if_neg b]
          exact ⟨rfl, rfl, by simp⟩
  · intro x hx o id ht
    rcases List.mem_append.1 hx with hx | hx
    · obtain ⟨c, h1, h2, h3⟩ := h.tags x hx o id ht
      obtain ⟨c', a, b, _, f⟩ := keep h1 h2 h3
      exact ⟨c', a, b, f⟩
    · rcases step_outs hx with ⟨i, t, t', b, o', id', r, c, c', kvs, more, _, _, e1, e2, e3, e4, e5⟩ |
        ⟨i, t, t', b, o', id', max, c, c', kvs, more, _, _, e1, e2, e3, e4, e5⟩ |
        ⟨i, _, _, _, o', id', _, _, e4⟩ | ⟨i, e', e4⟩ | ⟨i, e4⟩ | e4
      · subst e4
        simp only [Out.tag] at ht
        split at ht
        · rename_i ho
          subst ho
          cases ht
          obtain ⟨c2, h1, h2, _, h4⟩ := h.begins _ _ _ _ e1
          obtain ⟨c', a, b, _, f⟩ := keep h1 h2 h4
          exact ⟨c', a, b, f⟩
        · cases ht
      · subst e4
        simp only [Out.tag] at ht
        split at ht
        · rename_i ho
          subst ho
          cases ht
          obtain ⟨_, h2, _, h4, _⟩ := scanContinue_ok e3
          have hu : c.st ≠ .uninit := by
            rcases h4 with h4 | h4 <;> rw [h4] <;> simp
          obtain ⟨c', a, b, _, f⟩ := keep e2 h2.symm hu
          exact ⟨c', a, b, f⟩
        · cases ht
      all_goals (subst e4; cases ht)

theorem RInv.run (cfg : Cfg) (st : Store) (evs : List Ev) :
    RInv (run cfg (State.init st) evs).1 (run cfg (State.init st) evs).2 :=
  run_ind (ok := fun _ => True) (RInv.init st) (fun s outs e h _ => h.step e) evs (fun _ _ => trivial)

/-! ## The listing of one session -/

theorem getKeyValue_ok {cfg : Cfg} {keyOnly : Bool} {max : Int} {it it' : It} {rem : List Rec}
    {kvs : List KV} {more : Bool} (ha : Ahead it rem)
    (h : getKeyValue cfg keyOnly max it = some (kvs, more, it')) :
    PageOk keyOnly (toSize (min max cfg.maxCnt)) cfg.maxBytes 0 0 rem kvs more it' := getKv_ok ha h

theorem listing_from {cfg : Cfg} {o : Nat} (evs : List Ev) {s : State} {c : Ctx} {it : It} {rem : List Rec}
    (h : s.objs[o]? = some c) (hy : ¬ Young c) (hi : c.it = some it) (ha : Ahead it rem) :
    ∃ rem', pairsOf o (run cfg s evs).2 ++ rem'.map (kvOf c.keyOnly) = rem.map (kvOf c.keyOnly) ∧
      ((∃ x ∈ (run cfg s evs).2, x.isLast o = true) → rem' = []) := by
  induction evs generalizing s c it rem with
  | nil => exact ⟨rem, by simp [run, pairsOf], by simp [run]⟩
  | cons e es ih =>
    obtain ⟨c', e1, m⟩ := step_obj cfg s e o c h
    obtain ⟨hy', hm⟩ := m.old hy
    simp only [run]
    rcases hm with ⟨hq, hi', hk⟩ | ⟨i, t', id, max, kvs, more, ho, hc⟩
    · obtain ⟨rem', a, b⟩ := ih e1 hy' (hi'.trans hi) ha
      rw [hk] at a
      refine ⟨rem', ?_, ?_⟩
      · rw [pairsOf_append, hq.pairs, List.nil_append]; exact a
      · rintro ⟨x, hx, hl⟩
        rcases List.mem_append.1 hx with hx | hx
        · have := (hq x hx).1
          cases x <;> simp [Out.isLast, Out.isPage] at hl this
          omega
        · exact b ⟨x, hx, hl⟩
    · obtain ⟨_, _, _, _, it0, it', h1, h2, h3⟩ := scanContinue_ok hc
      rw [hi] at h1
      cases h1
      have p := getKeyValue_ok ha h2
      obtain ⟨rem1, a1, a2, a3⟩ := p.ahead
      have hk : c'.keyOnly = c.keyOnly := by rw [h3]
      obtain ⟨rem', a, b⟩ := ih e1 hy' (by rw [h3]) a1
      rw [hk] at a
      refine ⟨rem', ?_, ?_⟩
      · rw [pairsOf_append, ho]
        have : pairsOf o [Out.page i o id max kvs more] = kvs := by simp [pairsOf, Out.pairs]
        rw [this, List.append_assoc, a, a2]
      · rintro ⟨x, hx, hl⟩
        rcases List.mem_append.1 hx with hx | hx
        · rw [ho] at hx
          simp only [List.mem_singleton] at hx
          subst hx
          simp only [Out.isLast, true_and, decide_eq_true_eq] at hl
          have : rem1 = [] := by
            rcases hl with hl | hl
            · exact a3 hl
            · have := p.empty hl
              subst this
              simp only [List.map_nil, List.append_eq_nil_iff, List.map_eq_nil_iff] at a2
              exact a2.2
          subst this
          simp only [List.map_nil, List.append_eq_nil_iff, List.map_eq_nil_iff] at a
          exact a.2
        · exact b ⟨x, hx, hl⟩

end Verif.Scan
