/-
What holds in every run in which no request is taken before the maps are rebuilt and no request of
an earlier term writes its entry.
-/
import Verif.Meta.Moves

namespace Verif.Meta

/-! ## Lists -/

theorem filter_modify_same {α : Type} {p : α → Bool} {f : α → α} : ∀ {l : List α} {i : Nat} {a : α},
    l[i]? = some a → p a = false → p (f a) = false → (l.modify i f).filter p = l.filter p := by
  intro l
  induction l with
  | nil => intro i a h; simp at h
  | cons x l ih =>
    intro i a h h1 h2
    cases i with
    | zero =>
      simp at h
      subst h
      simp [List.filter_cons, h1, h2]
    | succ i =>
      simp at h
      simp [List.filter_cons, ih h h1 h2]

theorem filter_modify_drop {α : Type} {p : α → Bool} {f : α → α} : ∀ {l : List α} {i : Nat} {a : α},
    l[i]? = some a → p a = true → p (f a) = false → (l.filter p).Perm (a :: (l.modify i f).filter p) := by
  intro l
  induction l with
  | nil => intro i a h; simp at h
  | cons x l ih =>
    intro i a h h1 h2
    cases i with
    | zero =>
      simp at h
      subst h
      simp [List.filter_cons, h1, h2]
    | succ i =>
      simp at h
      have := ih h h1 h2
      simp only [List.modify_succ_cons, List.filter_cons]
      split
      · exact (List.Perm.cons _ this).trans (List.Perm.swap _ _ _)
      · exact this

theorem mem_modify_imp {α : Type} {f : α → α} {P : α → Prop} (hf : ∀ a, P a → P (f a)) : ∀ {l : List α} {i : Nat},
    (∀ a ∈ l, P a) → ∀ a ∈ l.modify i f, P a := by
  intro l
  induction l with
  | nil => intro i _ a ha; simp at ha
  | cons x l ih =>
    intro i h a ha
    cases i with
    | zero =>
      rw [List.modify_zero_cons] at ha
      rcases List.mem_cons.1 ha with e | ha
      · rw [e]; exact hf x (h x List.mem_cons_self)
      · exact h a (List.mem_cons_of_mem _ ha)
    | succ i =>
      rw [List.modify_succ_cons] at ha
      rcases List.mem_cons.1 ha with e | ha
      · rw [e]; exact h x List.mem_cons_self
      · exact ih (fun b hb => h b (List.mem_cons_of_mem _ hb)) a ha

/-! ## The invariant -/

/-- No request is taken before the maps are rebuilt, and no request of an earlier term writes its
entry. -/
def okTerm (s : State) : Ev → Bool
  | .begin _ => !s.fresh
  | .submit i =>
    match s.ths[i]? with
    | some th => th.term = s.term
    | none => true
  | _ => true

/-- The plan is that of a request that passed its checks. -/
def Made (p : Plan) : Prop := ∃ d t t' r, prepare d t r = (t', .ok p)

structure Base (s : State) : Prop where
  terms : ∀ th ∈ s.ths, th.term ≤ s.term
  fresh : s.fresh = true → s.log = [] ∧ ∀ th ∈ s.ths, th.open s = false
  node : ∀ th ∈ s.ths, th.open s = true → s.leader = some th.node
  made : ∀ th ∈ s.ths, Made th.plan
  log : ∀ x ∈ s.log, ∃ th, s.ths[x.1]? = some th ∧ th.plan.incr = x.2 ∧ th.pc ≠ .ready
  once : (s.log.map Prod.fst).Nodup
  tnext : ∀ n, s.leader = some n → s.fresh = false → s.data.nextTable ≤ last (s.temps n).nextTable ∧
    ∀ inc ∈ pending s, ∀ v, .nextTable v ∈ inc.ids → v ≤ last (s.temps n).nextTable
  snext : ∀ n, s.leader = some n → s.fresh = false → s.data.nextSchema ≤ last (s.temps n).nextSchema ∧
    ∀ inc ∈ pending s, ∀ v, .nextSchema v ∈ inc.ids → v ≤ last (s.temps n).nextSchema

theorem Base.init : Base Verif.Meta.init where
  terms := by intro th h; cases h
  fresh := by intro h; cases h
  node := by intro th h; cases h
  made := by intro th h; cases h
  log := by intro x h; cases h
  once := List.nodup_nil
  tnext := by intro n h; cases h
  snext := by intro n h; cases h

/-- Entries on their way are those of requests that passed their checks. -/
theorem Base.pending_made {s : State} (h : Base s) {inc : Incr} (hi : inc ∈ pending s) :
    ∃ th ∈ s.ths, th.plan.incr = inc := by
  rcases List.mem_append.1 hi with hi | hi
  · obtain ⟨x, hx, e⟩ := List.mem_map.1 hi
    obtain ⟨th, h1, h2, _⟩ := h.log x hx
    exact ⟨th, List.mem_of_getElem? h1, h2.trans e⟩
  · obtain ⟨th, hth, e⟩ := List.mem_map.1 hi
    exact ⟨th, (List.mem_filter.1 hth).1, e⟩

theorem Base.pending_shape {s : State} (h : Base s) {inc : Incr} (hi : inc ∈ pending s) :
    ∃ d t t' p, Shape d t t' p ∧ p.incr = inc := by
  obtain ⟨th, hth, e⟩ := h.pending_made hi
  obtain ⟨d, t, t', r, hp⟩ := h.made th hth
  exact ⟨d, t, t', _, prepare_shape hp, e⟩

/-! ## Counters -/

theorem exec_next {d d' : Data} {w : Write} (h : w.exec d = some d') :
    d.nextTable ≤ d'.nextTable ∧ d.nextSchema ≤ d'.nextSchema ∧
    (∀ v, w = .nextTable v → v ≤ d'.nextTable) ∧ (∀ v, w = .nextSchema v → v ≤ d'.nextSchema) ∧
    (∀ b, d.nextTable ≤ b → (∀ v, w = .nextTable v → v ≤ b) → d'.nextTable ≤ b) ∧
    (∀ b, d.nextSchema ≤ b → (∀ v, w = .nextSchema v → v ≤ b) → d'.nextSchema ≤ b) := by
  have triv : d'.nextTable = d.nextTable → d'.nextSchema = d.nextSchema →
      (∀ v, w ≠ .nextTable v) → (∀ v, w ≠ .nextSchema v) → d.nextTable ≤ d'.nextTable ∧ d.nextSchema ≤ d'.nextSchema ∧
    (∀ v, w = .nextTable v → v ≤ d'.nextTable) ∧ (∀ v, w = .nextSchema v → v ≤ d'.nextSchema) ∧
    (∀ b, d.nextTable ≤ b → (∀ v, w = .nextTable v → v ≤ b) → d'.nextTable ≤ b) ∧
    (∀ b, d.nextSchema ≤ b → (∀ v, w = .nextSchema v → v ≤ b) → d'.nextSchema ≤ b) := by
    intro e1 e2 n1 n2
    exact ⟨by omega, by omega, fun v e => absurd e (n1 v), fun v e => absurd e (n2 v),
      fun b h1 _ => by omega, fun b h1 _ => by omega⟩
  cases w <;> dsimp only [Write.exec] at h
  case nextTable v =>
    cases h
    refine ⟨by dsimp only; omega, Int.le_refl _, ?_, nofun, ?_, fun b h1 _ => h1⟩
    · intro v' e; cases e; dsimp only; omega
    · intro b h1 h2
      have := h2 v rfl
      dsimp only
      omega
  case nextSchema v =>
    cases h
    refine ⟨Int.le_refl _, by dsimp only; omega, nofun, ?_, fun b h1 _ => h1, ?_⟩
    · intro v' e; cases e; dsimp only; omega
    · intro b h1 h2
      have := h2 v rfl
      dsimp only
      omega
  case tenantPut => split at h <;> cases h; exact triv rfl rfl nofun nofun
  case tenantErase => cases h; exact triv rfl rfl nofun nofun
  case schemaPut => split at h <;> cases h; exact triv rfl rfl nofun nofun
  case schemaErase => cases h; exact triv rfl rfl nofun nofun
  case tidxPut => split at h <;> cases h; exact triv rfl rfl nofun nofun
  case tidxAddDel => split at h <;> cases h <;> exact triv rfl rfl nofun nofun
  case tidxErase => cases h; exact triv rfl rfl nofun nofun
  case objPut => split at h <;> cases h; exact triv rfl rfl nofun nofun
  case schemaAdd =>
    split at h
    · split at h <;> cases h; exact triv rfl rfl nofun nofun
    · cases h
  case objUpdate => split at h <;> cases h <;> exact triv rfl rfl nofun nofun
  case schemaDel =>
    split at h
    · split at h <;> cases h; exact triv rfl rfl nofun nofun
    · cases h
  case objErase => cases h; exact triv rfl rfl nofun nofun

theorem execAll_next {ws : List Write} : ∀ {d d' : Data}, execAll d ws = some d' →
    d.nextTable ≤ d'.nextTable ∧ d.nextSchema ≤ d'.nextSchema ∧
    (∀ v, .nextTable v ∈ ws → v ≤ d'.nextTable) ∧ (∀ v, .nextSchema v ∈ ws → v ≤ d'.nextSchema) ∧
    (∀ b, d.nextTable ≤ b → (∀ v, .nextTable v ∈ ws → v ≤ b) → d'.nextTable ≤ b) ∧
    (∀ b, d.nextSchema ≤ b → (∀ v, .nextSchema v ∈ ws → v ≤ b) → d'.nextSchema ≤ b) := by
  induction ws with
  | nil =>
    intro d d' h
    cases h
    exact ⟨Int.le_refl _, Int.le_refl _, by simp, by simp, fun b h _ => h, fun b h _ => h⟩
  | cons w ws ih =>
    intro d d' h
    unfold execAll at h
    split at h
    · rename_i d1 h1
      obtain ⟨a1, a2, a3, a4, a5, a6⟩ := exec_next h1
      obtain ⟨b1, b2, b3, b4, b5, b6⟩ := ih h
      refine ⟨by omega, by omega, ?_, ?_, ?_, ?_⟩
      · intro v hm
        rcases List.mem_cons.1 hm with e | hm
        · have := a3 v e.symm; omega
        · exact b3 v hm
      · intro v hm
        rcases List.mem_cons.1 hm with e | hm
        · have := a4 v e.symm; omega
        · exact b4 v hm
      · intro b hb hv
        exact b5 b (a5 b hb (fun v e => hv v (e ▸ List.mem_cons_self))) (fun v hm => hv v (List.mem_cons_of_mem _ hm))
      · intro b hb hv
        exact b6 b (a6 b hb (fun v e => hv v (e ▸ List.mem_cons_self))) (fun v hm => hv v (List.mem_cons_of_mem _ hm))
    · cases h

theorem opWrites_next (k : Kind) (ops : List ObjOp) (v : Int) :
    Write.nextTable v ∉ ops.flatMap (ObjOp.writes k) ∧ Write.nextSchema v ∉ ops.flatMap (ObjOp.writes k) := by
  constructor <;>
  · intro h
    obtain ⟨op, _, h⟩ := List.mem_flatMap.1 h
    cases op <;> simp [ObjOp.writes] at h

/-- The counters of an entry are in its ids. -/
theorem Shape.next_ids {d : Data} {t t' : Temp} {p : Plan} (h : Shape d t t' p) (v : Int) :
    (.nextTable v ∈ p.incr.writes → .nextTable v ∈ p.incr.ids) ∧
    (.nextSchema v ∈ p.incr.writes → .nextSchema v ∈ p.incr.ids) := by
  have key : ∀ w : Write, (w = .nextTable v ∨ w = .nextSchema v) → w ∉ p.incr.heads := by
    intro w hw hm
    cases h with
    | objs h => have := h.heads w hm; rcases hw with e | e <;> rw [e] at this <;> cases this
    | tenant ws hi _ _ _ h =>
      rw [hi] at hm
      obtain ⟨id, ⟨e, _⟩ | e⟩ := h w hm <;> rw [e] at hw <;> simp at hw
    | newSchema id s ids hi =>
      rw [hi] at hm
      rw [List.mem_singleton.1 hm] at hw; simp at hw
    | noSchema id tn s hi =>
      rw [hi] at hm
      rw [List.mem_singleton.1 hm] at hw; simp at hw
    | ids l ws hi => rw [hi] at hm; cases hm
  unfold Incr.writes
  constructor
  · intro hm
    rcases List.mem_append.1 hm with hm | hm
    · rcases List.mem_append.1 hm with hm | hm
      · rcases List.mem_append.1 hm with hm | hm
        · exact absurd hm (key _ (Or.inl rfl))
        · exact absurd hm (opWrites_next _ _ _).1
      · exact absurd hm (opWrites_next _ _ _).1
    · exact hm
  · intro hm
    rcases List.mem_append.1 hm with hm | hm
    · rcases List.mem_append.1 hm with hm | hm
      · rcases List.mem_append.1 hm with hm | hm
        · exact absurd hm (key _ (Or.inr rfl))
        · exact absurd hm (opWrites_next _ _ _).2
      · exact absurd hm (opWrites_next _ _ _).2
    · exact hm

/-- The counters of the leader grow, and cover the ids of the entry. -/
theorem Shape.next {d : Data} {t t' : Temp} {p : Plan} (h : Shape d t t' p) :
    last t.nextTable ≤ last t'.nextTable ∧ last t.nextSchema ≤ last t'.nextSchema ∧
    (∀ v, .nextTable v ∈ p.incr.ids → v ≤ last t'.nextTable) ∧
    (∀ v, .nextSchema v ∈ p.incr.ids → v ≤ last t'.nextSchema) := by
  cases h with
  | objs h =>
    rw [h.ids, h.still.nextSchema, h.still.nextTable]
    exact ⟨Int.le_refl _, Int.le_refl _, by simp, by simp⟩
  | tenant ws hi _ _ ht => rw [hi, ht]; exact ⟨Int.le_refl _, Int.le_refl _, by simp, by simp⟩
  | newSchema id s ids hi _ _ _ _ hid _ _ h3 =>
    rw [hi, h3]
    refine ⟨Int.le_refl _, ?_⟩
    rcases hid with ⟨_, e1, e2⟩ | ⟨e0, e1, e2⟩
    · rw [e1, e2]; exact ⟨Int.le_refl _, by simp, by simp⟩
    · rw [e1, e2]
      refine ⟨?_, by simp, ?_⟩
      · show last t.nextSchema ≤ id
        omega
      · intro v hv
        dsimp only at hv
        cases List.mem_singleton.1 hv; exact Int.le_refl _
  | noSchema id tn s hi _ _ _ _ _ h1 => rw [hi, h1]; exact ⟨Int.le_refl _, Int.le_refl _, by simp, by simp⟩
  | ids l ws hi _ _ _ _ h3 h4 _ hw =>
    rw [hi, h3]
    refine ⟨h4, Int.le_refl _, ?_, ?_⟩
    · intro v hv
      dsimp only at hv
      rcases hw with ⟨_, e, _⟩ | ⟨_, hw⟩
      · rw [e] at hv; cases hv
      · obtain ⟨v', e, h⟩ := hw _ hv
        cases e; exact h
    · intro v hv
      dsimp only at hv
      rcases hw with ⟨_, e, _⟩ | ⟨_, hw⟩
      · rw [e] at hv; cases hv
      · obtain ⟨v', e, h⟩ := hw _ hv
        cases e

/-! ## What is on its way, step by step -/

theorem pending_begin {s : State} {n : Nat} {r : Req} {p : Plan} {t : Temp} (hl : s.leader = some n) :
    pending (setTemp { s with ths := s.ths ++ [⟨n, s.term, r, p, .ready⟩] } n t) = pending s ++ [p.incr] := by
  unfold pending setTemp
  dsimp only
  rw [List.filter_append, List.map_append, ← List.append_assoc]
  congr 1
  rw [List.filter_cons_of_pos]
  · rfl
  · unfold Th.open
    simp [hl]

theorem pending_submit {s : State} {i : Nat} {th : Th} (hi : s.ths[i]? = some th) (ho : th.open s = true) :
    (pending (setPc { s with log := s.log ++ [(i, th.plan.incr)] } i .waiting)).Perm (pending s) := by
  unfold pending setPc
  dsimp only
  have h1 := filter_modify_drop (p := Th.open s) (f := fun th => { th with pc := .waiting }) hi ho
    (by unfold Th.open; simp)
  rw [List.map_append, List.append_assoc]
  refine List.Perm.append_left _ ?_
  exact (h1.map (fun th => th.plan.incr)).symm

theorem pending_fail {s : State} {i : Nat} {th : Th} {t : Temp} {n : Nat} (hi : s.ths[i]? = some th)
    (ho : th.open s = true) :
    (pending s).Perm (th.plan.incr :: pending (setPc (setTemp s n t) i .done)) := by
  unfold pending setPc setTemp
  dsimp only
  have h1 := filter_modify_drop (p := Th.open s) (f := fun th => { th with pc := .done }) hi ho
    (by unfold Th.open; simp)
  refine ((h1.map (fun th => th.plan.incr)).append_left _).trans ?_
  exact List.perm_middle

theorem pending_setPc {s : State} {i : Nat} {th : Th} {pc : Pc} (hi : s.ths[i]? = some th)
    (ho : th.open s = false) (hp : pc ≠ .ready) : pending (setPc s i pc) = pending s := by
  unfold pending setPc
  dsimp only
  congr 2
  exact filter_modify_same (p := Th.open s) (f := fun th => { th with pc := pc }) hi ho
    (by unfold Th.open; simp [hp])

theorem pending_noleader {s : State} (h : s.leader = none) : pending s = s.log.map Prod.snd := by
  unfold pending
  rw [List.filter_eq_nil_iff.2]
  · simp
  · intro th _
    unfold Th.open
    simp [h]

theorem Base.pending_elect {s : State} (h : Base s) {n : Nat} (hl : s.log = []) :
    pending { s with leader := some n, term := s.term + 1, fresh := true } = [] := by
  unfold pending
  dsimp only
  rw [hl, List.filter_eq_nil_iff.2]
  · rfl
  · intro th hth
    have := h.terms th hth
    unfold Th.open
    simp only [Bool.and_eq_true, decide_eq_true_eq]
    intro h1
    omega

theorem map_done_filter {s : State} {n : Nat} {p : Th → Bool} (hp : ∀ th ∈ s.ths, p th = true → th.node ≠ n)
    (hd : ∀ th : Th, p { th with pc := .done } = false) :
    (s.ths.map (fun th => if th.node = n then { th with pc := .done } else th)).filter p = s.ths.filter p := by
  generalize s.ths = l at hp
  induction l with
  | nil => rfl
  | cons a l ih =>
    rw [List.map_cons, List.filter_cons, List.filter_cons, ih (fun th hth => hp th (List.mem_cons_of_mem _ hth))]
    by_cases e : a.node = n
    · rw [if_pos e, if_neg (by rw [hd]; simp)]
      rw [if_neg]
      intro h
      exact hp a List.mem_cons_self h e
    · rw [if_neg e]

/-! ## The invariant is kept -/

/-- What a request meets when it arrives. -/
theorem begin_cases (s : State) (r : Req) :
    (s.leader = none ∧ stepBegin s r = (s, .redirect)) ∨
    (∃ n t e, s.leader = some n ∧ prepare s.data (s.temps n) r = (t, .error e) ∧
      stepBegin s r = (setTemp s n t, .refused s.ths.length e)) ∨
    (∃ n t p, s.leader = some n ∧ prepare s.data (s.temps n) r = (t, .ok p) ∧
      stepBegin s r = (setTemp { s with ths := s.ths ++ [⟨n, s.term, r, p, .ready⟩] } n t, .begun s.ths.length)) := by
  cases hl : s.leader with
  | none => exact Or.inl ⟨rfl, by unfold stepBegin; rw [hl]⟩
  | some n =>
    cases hp : prepare s.data (s.temps n) r with
    | mk t res =>
      cases res with
      | error e => exact Or.inr (Or.inl ⟨n, t, e, rfl, hp, by unfold stepBegin; rw [hl]; dsimp only; rw [hp]⟩)
      | ok p => exact Or.inr (Or.inr ⟨n, t, p, rfl, hp, by unfold stepBegin; rw [hl]; dsimp only; rw [hp]⟩)

theorem setTemp_self (s : State) (n : Nat) (t : Temp) : (setTemp s n t).temps n = t := if_pos rfl

theorem Base.refused {s : State} {r : Req} {n : Nat} {t : Temp} {e : Err} (h : Base s) (hl : s.leader = some n)
    (hp : prepare s.data (s.temps n) r = (t, .error e)) : Base (setTemp s n t) := by
  have hr := (prepare_refused hp).1
  refine { terms := h.terms, fresh := h.fresh, node := h.node, made := h.made, log := h.log, once := h.once, tnext := ?_, snext := ?_ }
  · intro m (hm : s.leader = some m) hf'
    obtain ⟨h1, h2⟩ := h.tnext m hm hf'
    have e : m = n := Option.some.inj (hm.symm.trans hl)
    subst e
    rw [setTemp_self]
    have := hr.nextTable
    exact ⟨by show s.data.nextTable ≤ _; omega, fun inc hi v hv => by have := h2 inc hi v hv; omega⟩
  · intro m (hm : s.leader = some m) hf'
    obtain ⟨h1, h2⟩ := h.snext m hm hf'
    have e : m = n := Option.some.inj (hm.symm.trans hl)
    subst e
    rw [setTemp_self]
    have := hr.nextSchema
    exact ⟨by show s.data.nextSchema ≤ _; omega, fun inc hi v hv => by have := h2 inc hi v hv; omega⟩

theorem Base.taken {s : State} {r : Req} {n : Nat} {t : Temp} {p : Plan} (h : Base s) (hf : s.fresh = false)
    (hl : s.leader = some n) (hp : prepare s.data (s.temps n) r = (t, .ok p)) :
    Base (setTemp { s with ths := s.ths ++ [⟨n, s.term, r, p, .ready⟩] } n t) := by
  have hs := prepare_shape hp
  obtain ⟨n1, n2, n3, n4⟩ := hs.next
  have hmem : ∀ P : Th → Prop, (∀ th ∈ s.ths, P th) → P ⟨n, s.term, r, p, .ready⟩ →
      ∀ th ∈ s.ths ++ [⟨n, s.term, r, p, .ready⟩], P th := by
    intro P h1 h2 th hth
    rcases List.mem_append.1 hth with hth | hth
    · exact h1 th hth
    · rw [List.mem_singleton.1 hth]; exact h2
  refine { terms := hmem _ h.terms (Nat.le_refl _), fresh := ?_, node := hmem _ h.node (fun _ => hl),
           made := hmem _ h.made ⟨_, _, _, _, hp⟩, log := ?_, once := h.once, tnext := ?_, snext := ?_ }
  · intro (hc : s.fresh = true)
    rw [hf] at hc
    cases hc
  · intro x hx
    obtain ⟨th, h1, h2⟩ := h.log x hx
    refine ⟨th, ?_, h2⟩
    show (s.ths ++ _)[x.1]? = _
    rw [List.getElem?_append_left]
    · exact h1
    · exact (List.getElem?_eq_some_iff.1 h1).1
  · intro m (hm : s.leader = some m) hf'
    obtain ⟨h1, h2⟩ := h.tnext m hm hf'
    have e : m = n := Option.some.inj (hm.symm.trans hl)
    subst e
    rw [pending_begin hl, setTemp_self]
    refine ⟨?_, ?_⟩
    · show s.data.nextTable ≤ _
      omega
    · intro inc hi v hv
      rcases List.mem_append.1 hi with hi | hi
      · have := h2 inc hi v hv; omega
      · rw [List.mem_singleton.1 hi] at hv; exact n3 v hv
  · intro m (hm : s.leader = some m) hf'
    obtain ⟨h1, h2⟩ := h.snext m hm hf'
    have e : m = n := Option.some.inj (hm.symm.trans hl)
    subst e
    rw [pending_begin hl, setTemp_self]
    refine ⟨?_, ?_⟩
    · show s.data.nextSchema ≤ _
      omega
    · intro inc hi v hv
      rcases List.mem_append.1 hi with hi | hi
      · have := h2 inc hi v hv; omega
      · rw [List.mem_singleton.1 hi] at hv; exact n4 v hv

theorem Base.begin {s : State} {r : Req} (h : Base s) (hf : s.fresh = false) : Base (stepBegin s r).1 := by
  rcases begin_cases s r with ⟨_, e⟩ | ⟨n, t, er, hl, hp, e⟩ | ⟨n, t, p, hl, hp, e⟩
  · rw [e]; exact h
  · rw [e]; exact h.refused hl hp
  · rw [e]; exact h.taken hf hl hp

/-- A request changes its place. -/
theorem Base.moved {s : State} {i : Nat} {th : Th} {pc : Pc} (h : Base s) (hi : s.ths[i]? = some th)
    (hpc : pc ≠ .ready) (hsub : ∀ inc ∈ pending (setPc s i pc), inc ∈ pending s) : Base (setPc s i pc) := by
  have hopen : ∀ x : Th, Th.open s { x with pc := pc } = false := by
    intro x; unfold Th.open; simp [hpc]
  refine { terms := ?_, fresh := ?_, node := ?_, made := ?_, log := ?_, once := h.once, tnext := ?_, snext := ?_ }
  · exact mem_modify_imp (f := fun th => { th with pc := pc }) (P := fun th : Th => th.term ≤ s.term) (fun a ha => ha) h.terms
  · intro hf
    obtain ⟨h1, h2⟩ := h.fresh hf
    exact ⟨h1, mem_modify_imp (P := fun th : Th => th.open s = false) (fun a _ => hopen a) h2⟩
  · exact mem_modify_imp (P := fun th : Th => th.open s = true → s.leader = some th.node)
      (fun a _ ho => by rw [hopen a] at ho; cases ho) h.node
  · exact mem_modify_imp (f := fun th => { th with pc := pc }) (P := fun th : Th => Made th.plan) (fun a ha => ha) h.made
  · intro x hx
    obtain ⟨th', h1, h2, h3⟩ := h.log x hx
    show ∃ th, (s.ths.modify i _)[x.1]? = some th ∧ _
    rw [List.getElem?_modify, h1]
    by_cases e : i = x.1
    · exact ⟨{ th' with pc := pc }, by simp [e], h2, hpc⟩
    · exact ⟨th', by simp [e], h2, h3⟩
  · intro n hl hf
    obtain ⟨h1, h2⟩ := h.tnext n hl hf
    exact ⟨h1, fun inc hinc => h2 inc (hsub inc hinc)⟩
  · intro n hl hf
    obtain ⟨h1, h2⟩ := h.snext n hl hf
    exact ⟨h1, fun inc hinc => h2 inc (hsub inc hinc)⟩

theorem Base.submit {s : State} {i : Nat} (h : Base s) (hok : okTerm s (.submit i) = true) :
    Base (stepSubmit s i).1 := by
  unfold stepSubmit
  cases hi : s.ths[i]? with
  | none => exact h
  | some th =>
    dsimp only
    by_cases c : th.pc = .ready ∧ s.leader = some th.node
    · rw [if_pos c]
      have ht : th.term = s.term := by
        dsimp only [okTerm] at hok
        rw [hi] at hok
        simpa using hok
      have ho : th.open s = true := by unfold Th.open; simp [c.1, ht, c.2]
      have hp := pending_submit hi ho
      have hmem : th ∈ s.ths := List.mem_of_getElem? hi
      have hnlog : ∀ x ∈ s.log, x.1 ≠ i := by
        intro x hx e
        obtain ⟨th', h1, _, h3⟩ := h.log x hx
        rw [e, hi] at h1
        cases h1
        exact h3 c.1
      have hopen : ∀ x : Th, Th.open s { x with pc := .waiting } = false := by
        intro x; unfold Th.open; simp
      refine { terms := ?_, fresh := ?_, node := ?_, made := ?_, log := ?_, once := ?_, tnext := ?_, snext := ?_ }
      · exact mem_modify_imp (f := fun th => { th with pc := .waiting }) (P := fun th : Th => th.term ≤ s.term) (fun a ha => ha) h.terms
      · intro hf
        have := (h.fresh hf).2 th hmem
        rw [ho] at this; cases this
      · exact mem_modify_imp (P := fun th : Th => th.open s = true → s.leader = some th.node)
          (fun a _ ho => by rw [hopen a] at ho; cases ho) h.node
      · exact mem_modify_imp (f := fun th => { th with pc := .waiting }) (P := fun th : Th => Made th.plan) (fun a ha => ha) h.made
      · intro x hx
        show ∃ th, (s.ths.modify i _)[x.1]? = some th ∧ _
        rcases List.mem_append.1 hx with hx | hx
        · obtain ⟨th', h1, h2, h3⟩ := h.log x hx
          rw [List.getElem?_modify, h1]
          have hne : ¬ i = x.1 := fun e => hnlog x hx e.symm
          exact ⟨th', by simp [hne], h2, h3⟩
        · rw [List.mem_singleton.1 hx, List.getElem?_modify, hi]
          exact ⟨{ th with pc := .waiting }, by simp, rfl, by simp⟩
      · show (List.map Prod.fst (s.log ++ [(i, th.plan.incr)])).Nodup
        rw [List.map_append]
        refine List.nodup_append.2 ⟨h.once, by simp, ?_⟩
        intro a ha b hb e
        rw [List.map_cons, List.map_nil] at hb
        cases List.mem_singleton.1 hb
        obtain ⟨x, hx, ex⟩ := List.mem_map.1 ha
        exact hnlog x hx (ex.trans e)
      · intro n hl hf
        obtain ⟨h1, h2⟩ := h.tnext n hl hf
        exact ⟨h1, fun inc hinc => h2 inc (hp.mem_iff.1 hinc)⟩
      · intro n hl hf
        obtain ⟨h1, h2⟩ := h.snext n hl hf
        exact ⟨h1, fun inc hinc => h2 inc (hp.mem_iff.1 hinc)⟩
    · rw [if_neg c]; exact h

/-- Freeing names leaves the counters. -/
theorem Base.freed {s : State} {n : Nat} {t : Temp} (h : Base s) (ht : Still (s.temps n) t) : Base (setTemp s n t) := by
  refine { terms := h.terms, fresh := h.fresh, node := h.node, made := h.made, log := h.log, once := h.once, tnext := ?_, snext := ?_ }
  · intro m hl hf
    have h1 := h.tnext m hl hf
    dsimp only [setTemp]
    by_cases e : m = n
    · rw [if_pos e, ht.nextTable, ← e]; exact h1
    · rw [if_neg e]; exact h1
  · intro m hl hf
    have h1 := h.snext m hl hf
    dsimp only [setTemp]
    by_cases e : m = n
    · rw [if_pos e, ht.nextSchema, ← e]; exact h1
    · rw [if_neg e]; exact h1

theorem Base.fail {s : State} {i : Nat} (h : Base s) : Base (stepFail s i).1 := by
  unfold stepFail
  cases hi : s.ths[i]? with
  | none => exact h
  | some th =>
    dsimp only
    split
    · have h1 := h.freed (n := th.node) (free_still th.plan.back (s.temps th.node))
      refine h1.moved (i := i) (th := th) (pc := .done) hi nofun ?_
      intro inc hinc
      cases ho : th.open s with
      | true =>
        exact (pending_fail (n := th.node) (t := free (s.temps th.node) th.plan.back) hi ho).mem_iff.2
          (List.mem_cons_of_mem _ hinc)
      | false => rw [pending_setPc (s := setTemp s _ _) (pc := .done) hi ho nofun] at hinc; exact hinc
    · exact h

theorem Base.tail {s : State} {i : Nat} {inc : Incr} {rest : List (Nat × Incr)} {d : Data} (h : Base s)
    (hl : s.log = (i, inc) :: rest) (ha : applyIncr s.data inc = some d) :
    Base { s with data := d, log := rest } ∧ pending s = inc :: pending { s with data := d, log := rest } := by
  have hp : pending s = inc :: pending { s with data := d, log := rest } := by
    unfold pending
    rw [hl]
    rfl
  obtain ⟨d0, t, t', p, hs, he⟩ := h.pending_shape (inc := inc) (by rw [hp]; exact List.mem_cons_self)
  obtain ⟨a1, a2, a3, a4, a5, a6⟩ := execAll_next ha
  refine ⟨{ terms := h.terms, fresh := ?_, node := h.node, made := h.made, log := ?_, once := ?_, tnext := ?_, snext := ?_ }, hp⟩
  · intro hf
    have := (h.fresh hf).1
    rw [hl] at this; cases this
  · intro x hx
    exact h.log x (by rw [hl]; exact List.mem_cons_of_mem _ hx)
  · have := h.once
    rw [hl] at this
    exact (List.nodup_cons.1 this).2
  · intro n hn hf
    obtain ⟨h1, h2⟩ := h.tnext n hn hf
    rw [hp] at h2
    refine ⟨a5 _ h1 ?_, fun inc' hi => h2 inc' (List.mem_cons_of_mem _ hi)⟩
    intro v hv
    rw [← he] at hv
    exact h2 inc List.mem_cons_self v (he ▸ (hs.next_ids v).1 hv)
  · intro n hn hf
    obtain ⟨h1, h2⟩ := h.snext n hn hf
    rw [hp] at h2
    refine ⟨a6 _ h1 ?_, fun inc' hi => h2 inc' (List.mem_cons_of_mem _ hi)⟩
    intro v hv
    rw [← he] at hv
    exact h2 inc List.mem_cons_self v (he ▸ (hs.next_ids v).2 hv)

/-- What applying an entry does. -/
theorem Base.apply_cases {s : State} (h : Base s) :
    (s.log = [] ∧ stepApply s = (s, .none)) ∨
    (∃ i inc rest, s.log = (i, inc) :: rest ∧ applyIncr s.data inc = none ∧
      stepApply s = ({ s with dead := true }, .down)) ∨
    (∃ i inc rest d th, s.log = (i, inc) :: rest ∧ applyIncr s.data inc = some d ∧ s.ths[i]? = some th ∧
      th.plan.incr = inc ∧ th.open s = false ∧
      ((th.pc = .waiting ∧ stepApply s = (setPc { s with data := d, log := rest } i .done, .replied i th.plan.resp)) ∨
       (th.pc ≠ .waiting ∧ stepApply s = ({ s with data := d, log := rest }, .none)))) := by
  unfold stepApply
  cases hl : s.log with
  | nil => exact Or.inl ⟨rfl, rfl⟩
  | cons x rest =>
    obtain ⟨i, inc⟩ := x
    dsimp only
    cases ha : applyIncr s.data inc with
    | none => exact Or.inr (Or.inl ⟨i, inc, rest, rfl, ha, rfl⟩)
    | some d =>
      obtain ⟨th, h1, h2, h3⟩ := h.log (i, inc) (by rw [hl]; exact List.mem_cons_self)
      dsimp only at h1 h2
      dsimp only
      rw [h1]
      refine Or.inr (Or.inr ⟨i, inc, rest, d, th, rfl, ha, h1, h2, ?_, ?_⟩)
      · unfold Th.open; simp [h3]
      · by_cases c : th.pc = .waiting
        · exact Or.inl ⟨c, by dsimp only; rw [if_pos c]⟩
        · exact Or.inr ⟨c, by dsimp only; rw [if_neg c]⟩

theorem Base.apply {s : State} (h : Base s) : Base (stepApply s).1 := by
  rcases h.apply_cases with ⟨_, e⟩ | ⟨i, inc, rest, _, _, e⟩ | ⟨i, inc, rest, d, th, hl, ha, hi, _, ho, hc⟩
  · rw [e]; exact h
  · rw [e]; exact ⟨h.terms, h.fresh, h.node, h.made, h.log, h.once, h.tnext, h.snext⟩
  · obtain ⟨h1, _⟩ := h.tail hl ha
    rcases hc with ⟨_, e⟩ | ⟨_, e⟩
    · rw [e]
      refine h1.moved (i := i) (th := th) (pc := .done) hi nofun ?_
      intro inc' hinc
      rw [pending_setPc (s := { s with data := d, log := rest }) (pc := .done) hi ho nofun] at hinc
      exact hinc
    · rw [e]; exact h1

theorem open_noleader {s : State} (h : s.leader = none) (th : Th) : th.open s = false := by
  unfold Th.open; simp [h]

theorem Base.down {s : State} (h : Base s) : Base { s with leader := none, fresh := false } where
  terms := h.terms
  fresh := nofun
  node := fun th _ ho => by rw [open_noleader rfl] at ho; cases ho
  made := h.made
  log := h.log
  once := h.once
  tnext := nofun
  snext := nofun

theorem Base.elect {s : State} {n : Nat} (h : Base s) (hl : s.log = []) :
    Base { s with leader := some n, term := s.term + 1, fresh := true } := by
  have hopen : ∀ th ∈ s.ths, th.open { s with leader := some n, term := s.term + 1, fresh := true } = false := by
    intro th hth
    have := h.terms th hth
    unfold Th.open
    simp only [Bool.and_eq_false_iff, decide_eq_false_iff_not]
    exact Or.inl (Or.inr (by omega))
  refine { terms := fun th hth => Nat.le_succ_of_le (h.terms th hth), fresh := fun _ => ⟨hl, hopen⟩, node := ?_,
           made := h.made, log := h.log, once := h.once, tnext := nofun, snext := nofun }
  intro th hth ho
  rw [hopen th hth] at ho; cases ho

theorem Base.pending_fresh {s : State} (h : Base s) (hf : s.fresh = true) : pending s = [] := by
  unfold pending
  rw [(h.fresh hf).1, List.filter_eq_nil_iff.2]
  · rfl
  · intro th hth
    rw [(h.fresh hf).2 th hth]; simp

theorem Base.build {s : State} {n : Nat} (h : Base s) (hl : s.leader = some n) (hf : s.fresh = true) :
    Base { setTemp s n (build s.data) with fresh := false } := by
  have hp := h.pending_fresh hf
  refine { terms := h.terms, fresh := nofun, node := h.node, made := h.made, log := h.log, once := h.once, tnext := ?_, snext := ?_ }
  · intro m hm _
    have e : m = n := by
      have hm : s.leader = some m := hm
      rw [hl] at hm; exact (Option.some.inj hm).symm
    refine ⟨?_, fun inc hi => ?_⟩
    · dsimp only [setTemp]; rw [if_pos e]; exact Int.le_refl _
    · have hi : inc ∈ pending s := hi
      rw [hp] at hi; cases hi
  · intro m hm _
    have e : m = n := by
      have hm : s.leader = some m := hm
      rw [hl] at hm; exact (Option.some.inj hm).symm
    refine ⟨?_, fun inc hi => ?_⟩
    · dsimp only [setTemp]; rw [if_pos e]; exact Int.le_refl _
    · have hi : inc ∈ pending s := hi
      rw [hp] at hi; cases hi

/-- A coordinator that does not lead restarts. -/
theorem Base.kill {s : State} {n : Nat} (h : Base s) (hl : s.leader ≠ some n) :
    Base (setTemp { s with ths := s.ths.map (fun th => if th.node = n then { th with pc := .done } else th) } n Temp.empty) ∧
    pending (setTemp { s with ths := s.ths.map (fun th => if th.node = n then { th with pc := .done } else th) } n Temp.empty)
      = pending s := by
  have hmap : ∀ P : Th → Prop, (∀ th ∈ s.ths, P th) → (∀ th : Th, P th → P { th with pc := .done }) →
      ∀ th ∈ s.ths.map (fun th => if th.node = n then { th with pc := .done } else th), P th := by
    intro P h1 h2 th hth
    obtain ⟨a, ha, e⟩ := List.mem_map.1 hth
    rw [← e]
    split
    · exact h2 a (h1 a ha)
    · exact h1 a ha
  have hdone : ∀ th : Th, Th.open s { th with pc := .done } = false := by
    intro th; unfold Th.open; simp
  have hp : pending (setTemp { s with ths := s.ths.map (fun th => if th.node = n then { th with pc := .done } else th) } n Temp.empty)
      = pending s := by
    unfold pending
    congr 2
    refine map_done_filter ?_ hdone
    intro th hth ho e
    exact hl (e ▸ h.node th hth ho)
  refine ⟨{ terms := hmap (fun th : Th => th.term ≤ s.term) h.terms (fun _ h => h), fresh := ?_, node := ?_,
            made := hmap (fun th : Th => Made th.plan) h.made (fun _ h => h), log := ?_, once := h.once, tnext := ?_, snext := ?_ }, hp⟩
  · intro hf
    exact ⟨(h.fresh hf).1, hmap (fun th : Th => th.open s = false) (h.fresh hf).2 (fun th _ => hdone th)⟩
  · exact hmap (fun th : Th => th.open s = true → s.leader = some th.node) h.node
      (fun th _ ho => by rw [hdone th] at ho; cases ho)
  · intro x hx
    obtain ⟨th, h1, h2, h3⟩ := h.log x hx
    show ∃ th, (s.ths.map _)[x.1]? = some th ∧ _
    rw [List.getElem?_map, h1]
    by_cases e : th.node = n
    · exact ⟨{ th with pc := .done }, by simp [e], h2, by simp⟩
    · exact ⟨th, by simp [e], h2, h3⟩
  · intro m hm hf
    have hm : s.leader = some m := hm
    have e : m ≠ n := fun e => hl (e ▸ hm)
    rw [hp]
    dsimp only [setTemp]
    rw [if_neg e]
    exact h.tnext m hm hf
  · intro m hm hf
    have hm : s.leader = some m := hm
    have e : m ≠ n := fun e => hl (e ▸ hm)
    rw [hp]
    dsimp only [setTemp]
    rw [if_neg e]
    exact h.snext m hm hf

/-- What a restart does. -/
theorem step_restart_leader {s : State} {n : Nat} (hd : s.dead = false) (hl : s.leader = some n) :
    step s (.restart n) = ({ setTemp { s with ths := s.ths.map (fun th => if th.node = n then { th with pc := .done } else th) } n Temp.empty with leader := none, fresh := false }, .none) := by
  unfold step
  rw [hd]
  simp [setTemp, hl]

theorem step_restart_other {s : State} {n : Nat} (hd : s.dead = false) (hl : s.leader ≠ some n) :
    step s (.restart n) = (setTemp { s with ths := s.ths.map (fun th => if th.node = n then { th with pc := .done } else th) } n Temp.empty, .none) := by
  unfold step
  rw [hd]
  simp [setTemp, hl]

theorem Base.restart {s : State} {n : Nat} (h : Base s) (hd : s.dead = false) : Base (step s (.restart n)).1 := by
  by_cases hl : s.leader = some n
  · rw [step_restart_leader hd hl]
    have h1 := (h.down).kill (n := n) nofun
    have h2 := h1.1.down
    exact h2
  · rw [step_restart_other hd hl]
    exact (h.kill hl).1

theorem step_begin {s : State} {r : Req} (hd : s.dead = false) : step s (.begin r) = stepBegin s r := by
  unfold step; rw [if_neg (by simp [hd])]

theorem step_submit {s : State} {i : Nat} (hd : s.dead = false) : step s (.submit i) = stepSubmit s i := by
  unfold step; rw [if_neg (by simp [hd])]

theorem step_fail {s : State} {i : Nat} (hd : s.dead = false) : step s (.fail i) = stepFail s i := by
  unfold step; rw [if_neg (by simp [hd])]

theorem step_apply {s : State} (hd : s.dead = false) : step s .apply = stepApply s := by
  unfold step; rw [if_neg (by simp [hd])]

theorem step_down {s : State} (hd : s.dead = false) :
    step s .stepDown = ({ s with leader := none, fresh := false }, .none) := by
  unfold step; rw [if_neg (by simp [hd])]

theorem step_elect {s : State} {n : Nat} (hd : s.dead = false) : step s (.elect n) =
    if s.leader = none ∧ s.log = [] then
      ({ s with leader := some n, term := s.term + 1, fresh := true }, .none) else (s, .none) := by
  unfold step; rw [if_neg (by simp [hd])]

theorem step_build {s : State} (hd : s.dead = false) : (s.fresh = true ∧ ∃ n, s.leader = some n ∧
      step s .build = ({ setTemp s n (build s.data) with fresh := false }, .none)) ∨
    ((s.fresh = false ∨ s.leader = none) ∧ step s .build = (s, .none)) := by
  unfold step
  rw [if_neg (by simp [hd])]
  cases hl : s.leader with
  | none => exact Or.inr ⟨Or.inr rfl, rfl⟩
  | some n =>
    cases hf : s.fresh with
    | true => exact Or.inl ⟨rfl, n, rfl, rfl⟩
    | false => exact Or.inr ⟨Or.inl rfl, rfl⟩

theorem step_dead {s : State} {e : Ev} (hd : s.dead = true) : step s e = (s, .none) := by
  unfold step; rw [if_pos hd]

theorem Base.step {s : State} {e : Ev} (h : Base s) (hok : okTerm s e = true) : Base (step s e).1 := by
  cases hd : s.dead with
  | true => rw [step_dead hd]; exact h
  | false =>
    cases e with
    | begin r => rw [step_begin hd]; exact h.begin (by simpa [okTerm] using hok)
    | submit i => rw [step_submit hd]; exact h.submit hok
    | fail i => rw [step_fail hd]; exact h.fail
    | apply => rw [step_apply hd]; exact h.apply
    | stepDown => rw [step_down hd]; exact h.down
    | elect n =>
      rw [step_elect hd]
      split
      · rename_i c; exact h.elect c.2
      · exact h
    | build =>
      rcases step_build hd with ⟨hf, n, hl, e⟩ | ⟨_, e⟩
      · rw [e]; exact h.build hl hf
      · rw [e]; exact h
    | restart n => exact h.restart hd

end Verif.Meta
