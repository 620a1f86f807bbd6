import Verif.Scan.Life

/-! # Scan sessions: what the history says about a session -/

namespace Verif.Scan
open Verif.Codec Verif.Mvcc

/-- Released, failed or recycled. -/
def Final (c : Ctx) : Prop := c.st = .recycle ∨ c.st = .released ∨ c.st = .error

theorem Move.final {cfg : Cfg} {st : Store} {o : Nat} {c c' : Ctx} {outs : List Out}
    (h : Move cfg st o c c' outs) (hc : Final c) : Final c' ∧ Quiet o outs := by
  have hy : ¬ Young c := by
    rintro (e | e) <;> rcases hc with f | f | f <;> rw [e] at f <;> cases f
  have hb : ¬ (c.st = .begun ∨ c.st = .continued) := by
    rintro (e | e) <;> rcases hc with f | f | f <;> rw [e] at f <;> cases f
  have q := quiet_nil o
  have er : ∀ x : Ctx, x.st = .error → Final x := fun x h => Or.inr (Or.inr h)
  cases h with
  | same hq => exact ⟨hc, hq⟩
  | @opn id ts =>
    rcases openCtx_fst (c := c) (id := id) (ts := ts) with e | ⟨_, e⟩ | ⟨e, _⟩
    · rw [e]; exact ⟨hc, q⟩
    · rw [e]; exact ⟨er _ rfl, q⟩
    · exact absurd (Or.inl e) hy
  | «begin» h => exact absurd (Or.inr (scanBegin_ok h).1) hy
  | beginErr h =>
    rcases scanBegin_err h with e | ⟨_, e⟩
    · rw [e]; exact ⟨hc, q⟩
    · rw [e]; exact ⟨er _ rfl, q⟩
  | cont h =>
    obtain ⟨_, _, _, h4, _⟩ := scanContinue_ok h
    exact absurd h4 hb
  | contErr h =>
    rcases scanContinue_err h with e | ⟨_, e⟩
    · rw [e]; exact ⟨hc, q⟩
    · rw [e]; exact ⟨er _ rfl, q⟩
  | @rel t' id =>
    rcases scanRelease_fst (t' := t') (c := c) (id := id) with e | ⟨_, e⟩ | ⟨h, _⟩
    · rw [e]; exact ⟨hc, q⟩
    · rw [e]; exact ⟨er _ rfl, q⟩
    · exact absurd h hb
  | @recyc now _ hq =>
    rcases isRecyclable_fst (cfg := cfg) (now := now) (c := c) with e | e
    · rw [e]; exact ⟨hc, hq⟩
    · rw [e]; exact ⟨Or.inl rfl, hq⟩

theorem run_final {cfg : Cfg} {o : Nat} (evs : List Ev) {s : State} (h : ∃ c, s.objs[o]? = some c ∧ Final c) :
    Quiet o (run cfg s evs).2 ∧ ∃ c, (run cfg s evs).1.objs[o]? = some c ∧ Final c := by
  induction evs generalizing s with
  | nil => exact ⟨quiet_nil o, h⟩
  | cons e es ih =>
    obtain ⟨c, hc, hf⟩ := h
    obtain ⟨c', e1, m⟩ := step_obj cfg s e o c hc
    obtain ⟨hf', hq⟩ := m.final hf
    obtain ⟨a, b⟩ := ih ⟨c', e1, hf'⟩
    simp only [run]
    exact ⟨hq.append a, b⟩

/-- A thread about to free a session has released it. -/
structure FInv (s : State) : Prop where
  del : ∀ (i o : Nat) (id : Bytes), s.ths[i]? = some (.tryDel o id) → ∃ c, s.objs[o]? = some c ∧ Final c

theorem FInv.init (st : Store) : FInv (State.init st) := ⟨fun i o id h => by simp [State.init] at h⟩

theorem scanRelease_ok {t' : Int} {c : Ctx} {id : Bytes} {kvs : List KV} {more : Bool}
    (h : (scanRelease t' c id).2 = .ok kvs more) : Final (scanRelease t' c id).1 := by
  unfold scanRelease at h ⊢
  split
  · rename_i h1; rw [if_pos h1] at h; cases h
  · rename_i h1
    rw [if_neg h1] at h
    split
    · rename_i h2; rw [if_pos h2] at h; cases h
    · split
      · exact Or.inl rfl
      · exact Or.inr (Or.inl rfl)

/-- Where the threads about to free a session come from. -/
theorem step_dels {cfg : Cfg} {s : State} {e : Ev} {i o : Nat} {id : Bytes}
    (h : (step cfg s e).1.ths[i]? = some (.tryDel o id)) :
    s.ths[i]? = some (.tryDel o id) ∨ ∃ c, (step cfg s e).1.objs[o]? = some c ∧ Final c := by
  have app : ∀ pc, pc ≠ .tryDel o id → (s.ths ++ [pc])[i]? = some (.tryDel o id) →
      s.ths[i]? = some (.tryDel o id) := by
    intro pc hne h
    rcases Nat.lt_or_ge i s.ths.length with hl | hl
    · rwa [List.getElem?_append_left hl] at h
    · rw [List.getElem?_append_right hl] at h
      have := List.mem_of_getElem? h
      simp only [List.mem_singleton] at this
      exact absurd this.symm hne
  have set' : ∀ (j : Nat) (pc : Pc), pc ≠ .tryDel o id → (s.ths.set j pc)[i]? = some (.tryDel o id) →
      s.ths[i]? = some (.tryDel o id) := by
    intro j pc hne h
    by_cases hj : j = i
    · subst hj
      rw [List.getElem?_set] at h
      simp only [if_true] at h
      split at h
      · simp only [Option.some.injEq] at h; exact absurd h hne
      · cases h
    · rwa [List.getElem?_set_ne hj] at h
  by_cases hd : s.dead = true
  · rw [show step cfg s e = (s, []) by unfold step; rw [if_pos hd]] at h
    exact Or.inl h
  cases e with
  | data st => left; simpa only [step, if_neg hd] using h
  | clean now busy => left; simpa only [step, if_neg hd] using h
  | beginV1 guids r now leader =>
    left
    simp only [step, if_neg hd] at h
    (repeat' split at h) <;> first | exact h | exact app _ (by simp) h
  | beginV2 id' r now leader =>
    left
    simp only [step, if_neg hd] at h
    (repeat' split at h) <;> first | exact h | exact app _ (by simp) h
  | cont id' m =>
    left
    simp only [step, if_neg hd] at h
    (repeat' split at h) <;> first | exact h | exact app _ (by simp) h
  | release id' =>
    left
    simp only [step, if_neg hd] at h
    (repeat' split at h) <;> first | exact h | exact app _ (by simp) h
  | go j t t' b =>
    simp only [step, if_neg hd] at h ⊢
    cases hj : s.ths[j]? with
    | none => rw [hj] at h; exact Or.inl h
    | some pc =>
      rw [hj] at h
      simp only at h ⊢
      cases pc with
      | rel o' id' =>
        simp only [goStep] at h ⊢
        cases hc : s.objs[o']? with
        | none => rw [hc] at h; exact Or.inl h
        | some c =>
          rw [hc] at h
          simp only at h ⊢
          cases hr : (scanRelease t' c id').2 with
          | ok kvs more =>
            rw [hr] at h
            simp only at h ⊢
            by_cases heq : o' = o
            · right
              subst heq
              have hl := (List.getElem?_eq_some_iff.1 hc).1
              exact ⟨_, List.getElem?_set_self hl, scanRelease_ok hr⟩
            · left
              exact set' j _ (by simp only [ne_eq, Pc.tryDel.injEq, not_and]; exact fun e => absurd e heq) h
          | err x => rw [hr] at h; exact Or.inl (set' j _ (by simp) h)
          | crash => rw [hr] at h; exact Or.inl h
      | opening o' id' r =>
        left; simp only [goStep] at h
        (repeat' split at h) <;> first | exact h | exact set' j _ (by simp) h
      | begin o' id' r =>
        left; simp only [goStep] at h
        (repeat' split at h) <;> first | exact h | exact set' j _ (by simp) h
      | cont o' id' m =>
        left; simp only [goStep] at h
        (repeat' split at h) <;> first | exact h | exact set' j _ (by simp) h
      | drop id' x => left; simp only [goStep] at h; exact set' j _ (by simp) h
      | tryDel o' id' =>
        left; simp only [goStep] at h
        (repeat' split at h) <;> first | exact h | exact set' j _ (by simp) h
      | done => exact Or.inl h

theorem FInv.step {cfg : Cfg} {s : State} (h : FInv s) (e : Ev) : FInv (step cfg s e).1 := by
  refine ⟨fun i o id hi => ?_⟩
  rcases step_dels hi with a | a
  · obtain ⟨c, hc, hf⟩ := h.del i o id a
    obtain ⟨c', e1, m⟩ := step_obj cfg s e o c hc
    exact ⟨c', e1, (m.final hf).1⟩
  · exact a

theorem FInv.run (cfg : Cfg) (st : Store) (evs : List Ev) : FInv (run cfg (State.init st) evs).1 :=
  run_ind (P := fun s _ => FInv s) (ok := fun _ => True) (FInv.init st) (fun _ _ e h _ => h.step e) evs
    (fun _ _ => trivial)

/-! ## Pages follow a Begin -/

/-- A session in use was begun. -/
structure BInv (s : State) (outs : List Out) : Prop where
  begun : ∀ (o : Nat) (c : Ctx), s.objs[o]? = some c → (c.st = .begun ∨ c.st = .continued) →
    ∃ x ∈ outs, x.isBegun o = true

theorem BInv.init (st : Store) : BInv (State.init st) [] := ⟨fun o c h => by simp [State.init] at h⟩

theorem Move.begun {cfg : Cfg} {st : Store} {o : Nat} {c c' : Ctx} {outs : List Out}
    (h : Move cfg st o c c' outs) (hc : c'.st = .begun ∨ c'.st = .continued) :
    (c.st = .begun ∨ c.st = .continued) ∨ ∃ x ∈ outs, x.isBegun o = true := by
  have no : ∀ {x : SState} {Q : Prop}, (x = .begun ∨ x = .continued) → x ≠ .begun → x ≠ .continued → Q :=
    fun h a b => h.elim (fun e => absurd e a) (fun e => absurd e b)
  cases h with
  | same _ => exact Or.inl hc
  | @opn id ts =>
    rcases openCtx_fst (c := c) (id := id) (ts := ts) with e | ⟨_, e⟩ | ⟨_, _, e⟩
    · rw [e] at hc; exact Or.inl hc
    all_goals (rw [e] at hc; exact no hc (by simp) (by simp))
  | «begin» h => exact Or.inr ⟨_, List.mem_singleton.2 rfl, by simp [Out.isBegun]⟩
  | beginErr h =>
    rcases scanBegin_err h with e | ⟨_, e⟩
    · rw [e] at hc; exact Or.inl hc
    · rw [e] at hc; exact no hc (by simp) (by simp)
  | cont h =>
    obtain ⟨_, _, _, h4, _⟩ := scanContinue_ok h
    exact Or.inl h4
  | contErr h =>
    rcases scanContinue_err h with e | ⟨_, e⟩
    · rw [e] at hc; exact Or.inl hc
    · rw [e] at hc; exact no hc (by simp) (by simp)
  | @rel t' id =>
    rcases scanRelease_fst (t' := t') (c := c) (id := id) with e | ⟨_, e⟩ | ⟨h, _, _⟩
    · rw [e] at hc; exact Or.inl hc
    · rw [e] at hc; exact no hc (by simp) (by simp)
    · exact Or.inl h
  | @recyc now _ _ =>
    rcases isRecyclable_fst (cfg := cfg) (now := now) (c := c) with e | e
    · rw [e] at hc; exact Or.inl hc
    · rw [e] at hc; exact no hc (by simp) (by simp)

theorem BInv.step {cfg : Cfg} {s : State} {outs : List Out} (h : BInv s outs) (e : Ev) :
    BInv (step cfg s e).1 (outs ++ (step cfg s e).2) := by
  refine ⟨fun o c' hc' hst => ?_⟩
  cases ho : s.objs[o]? with
  | none =>
    obtain ⟨⟨now, e1⟩, _⟩ := step_objs_none ho hc'
    rw [e1] at hst
    rcases hst with e | e <;> cases e
  | some c =>
    obtain ⟨c2, e1, m⟩ := step_obj cfg s e o c ho
    rw [hc'] at e1
    cases e1
    rcases m.begun hst with a | ⟨x, hx, hb⟩
    · obtain ⟨x, hx, hb⟩ := h.begun o c ho a
      exact ⟨x, List.mem_append_left _ hx, hb⟩
    · exact ⟨x, List.mem_append_right _ hx, hb⟩

theorem BInv.run (cfg : Cfg) (st : Store) (evs : List Ev) :
    BInv (run cfg (State.init st) evs).1 (run cfg (State.init st) evs).2 :=
  run_ind (ok := fun _ => True) (BInv.init st) (fun _ _ e h _ => h.step e) evs (fun _ _ => trivial)

/-! ## The clock of a session -/

theorem isRecyclable_last {cfg : Cfg} {now : Int} {c : Ctx} : (isRecyclable cfg now c).1.last = c.last := by
  rcases isRecyclable_fst (cfg := cfg) (now := now) (c := c) with e | e <;> rw [e]

theorem openCtx_last {c : Ctx} {id : Bytes} {ts : Int} : (openCtx c id ts).1.last = c.last := by
  rcases openCtx_fst (c := c) (id := id) (ts := ts) with e | ⟨_, e⟩ | ⟨_, _, e⟩ <;> rw [e]

theorem scanBegin_last {cfg : Cfg} {st : Store} {t t' : Int} {c : Ctx} {r : BeginReq} :
    (scanBegin cfg st t t' c r).1.last = c.last ∨ (scanBegin cfg st t t' c r).1.last = t' := by
  unfold scanBegin
  simp only
  (repeat' split) <;> simp

theorem scanContinue_last {cfg : Cfg} {t' : Int} {c : Ctx} {id : Bytes} {m : Int} :
    (scanContinue cfg t' c id m).1.last = c.last ∨ (scanContinue cfg t' c id m).1.last = t' := by
  unfold scanContinue
  (repeat' split) <;> simp

theorem scanRelease_last {t' : Int} {c : Ctx} {id : Bytes} :
    (scanRelease t' c id).1.last = c.last ∨ (scanRelease t' c id).1.last = t' := by
  unfold scanRelease
  (repeat' split) <;> simp

/-- What a step does to the time of last use of a session. -/
theorem goStep_last {cfg : Cfg} {s : State} {i : Nat} {t t' : Int} {b : Bool} {pc : Pc} {o : Nat} {c : Ctx}
    (h : s.objs[o]? = some c) :
    ∃ c', (goStep cfg s i t t' b pc).1.objs[o]? = some c' ∧
      (c'.last = c.last ∨ (pc.obj? = some o ∧ c'.last = t')) := by
  have same : ∃ c', s.objs[o]? = some c' ∧ (c'.last = c.last ∨ (pc.obj? = some o ∧ c'.last = t')) :=
    ⟨c, h, Or.inl rfl⟩
  have hl := (List.getElem?_eq_some_iff.1 h).1
  have set' : ∀ (o' : Nat) (c0 x : Ctx), s.objs[o']? = some c0 →
      (x.last = c0.last ∨ (pc.obj? = some o' ∧ x.last = t')) →
      ∃ c', (s.objs.set o' x)[o]? = some c' ∧ (c'.last = c.last ∨ (pc.obj? = some o ∧ c'.last = t')) := by
    intro o' c0 x h0 hx
    by_cases he : o' = o
    · subst he
      rw [h] at h0; cases h0
      exact ⟨x, List.getElem?_set_self hl, hx⟩
    · rw [List.getElem?_set_ne he]; exact same
  cases pc with
  | opening o' id r =>
    simp only [goStep]
    cases hc : s.objs[o']? with
    | none => exact same
    | some c0 =>
      simp only
      cases (openCtx c0 id r.ts).2 <;> exact set' o' c0 _ hc (Or.inl openCtx_last)
  | begin o' id r =>
    simp only [goStep]
    cases hc : s.objs[o']? with
    | none => exact same
    | some c0 =>
      simp only
      have hx := scanBegin_last (cfg := cfg) (st := s.store) (t := t) (t' := t') (c := c0) (r := r)
      cases (scanBegin cfg s.store t t' c0 r).2 with
      | ok kvs more => exact set' o' c0 _ hc (hx.imp_right fun e => ⟨rfl, e⟩)
      | err x => exact set' o' c0 _ hc (hx.imp_right fun e => ⟨rfl, e⟩)
      | crash => exact same
  | cont o' id m =>
    simp only [goStep]
    cases hc : s.objs[o']? with
    | none => exact same
    | some c0 =>
      simp only
      have hx := scanContinue_last (cfg := cfg) (t' := t') (c := c0) (id := id) (m := m)
      cases (scanContinue cfg t' c0 id m).2 with
      | ok kvs more => exact set' o' c0 _ hc (hx.imp_right fun e => ⟨rfl, e⟩)
      | err x => exact set' o' c0 _ hc (hx.imp_right fun e => ⟨rfl, e⟩)
      | crash => exact same
  | rel o' id =>
    simp only [goStep]
    cases hc : s.objs[o']? with
    | none => exact same
    | some c0 =>
      simp only
      have hx := scanRelease_last (t' := t') (c := c0) (id := id)
      cases (scanRelease t' c0 id).2 with
      | ok kvs more => exact set' o' c0 _ hc (hx.imp_right fun e => ⟨rfl, e⟩)
      | err x => exact set' o' c0 _ hc (hx.imp_right fun e => ⟨rfl, e⟩)
      | crash => exact same
  | drop id x => exact same
  | tryDel o0 id =>
    simp only [goStep]
    cases hf : find s.map id with
    | none => exact same
    | some o' =>
      simp only
      split
      · exact same
      · cases hc : s.objs[o']? with
        | none => exact same
        | some c0 => exact set' o' c0 _ hc (Or.inl isRecyclable_last)
  | done => exact same

/-- All requests on session `o` and its creation happened by `T`. -/
def idleSince (T : Int) (o : Nat) (s : State) : Ev → Prop
  | .go i _ t' _ => t' ≤ T ∨ ∀ pc, s.ths[i]? = some pc → pc.obj? ≠ some o
  | .beginV1 _ _ now _ => now ≤ T ∨ s.objs.length ≠ o
  | .beginV2 _ _ now _ => now ≤ T ∨ s.objs.length ≠ o
  | _ => True

theorem step_last {cfg : Cfg} {T : Int} {o : Nat} {s : State} {e : Ev}
    (h : ∀ c, s.objs[o]? = some c → c.last ≤ T) (he : idleSince T o s e) :
    ∀ c, (step cfg s e).1.objs[o]? = some c → c.last ≤ T := by
  have app : ∀ now, (now ≤ T ∨ s.objs.length ≠ o) → ∀ c, (s.objs ++ [{ last := now }])[o]? = some c → c.last ≤ T := by
    intro now hn c hc
    rcases Nat.lt_or_ge o s.objs.length with hl | hl
    · rw [List.getElem?_append_left hl] at hc; exact h c hc
    · have hlt := (List.getElem?_eq_some_iff.1 hc).1
      simp only [List.length_append, List.length_singleton] at hlt
      rw [List.getElem?_append_right hl] at hc
      have := List.mem_of_getElem? hc
      simp only [List.mem_singleton] at this
      subst this
      rcases hn with hn | hn
      · exact hn
      · omega
  by_cases hd : s.dead = true
  · rw [show step cfg s e = (s, []) by unfold step; rw [if_pos hd]]
    exact h
  cases e with
  | data st => simpa only [step, if_neg hd] using h
  | clean now busy =>
    intro c hc
    simp only [step, if_neg hd] at hc
    cases ho : s.objs[o]? with
    | none =>
      have a := List.getElem?_eq_none_iff.1 ho
      have b := (List.getElem?_eq_some_iff.1 hc).1
      rw [cleanMap_length] at b
      omega
    | some c0 =>
      rcases cleanMap_obj cfg now busy s.map s.objs o c0 ho with e | e
      · rw [e] at hc; cases hc; exact h c ho
      · rw [e] at hc; cases hc; rw [isRecyclable_last]; exact h c0 ho
  | beginV1 guids r now leader =>
    simp only [step, if_neg hd]
    (repeat' split) <;> first | exact h | exact app now he
  | beginV2 id' r now leader =>
    simp only [step, if_neg hd]
    (repeat' split) <;> first | exact h | exact app now he
  | cont id' m =>
    simp only [step, if_neg hd]
    (repeat' split) <;> exact h
  | release id' =>
    simp only [step, if_neg hd]
    (repeat' split) <;> exact h
  | go j t t' b =>
    simp only [step, if_neg hd]
    cases hj : s.ths[j]? with
    | none => exact h
    | some pc =>
      intro c hc
      simp only at hc
      cases ho : s.objs[o]? with
      | none =>
        have h1 : (step cfg s (.go j t t' b)).1.objs[o]? = some c := by
          simp only [step, if_neg hd, hj]; exact hc
        obtain ⟨⟨now, _⟩, _⟩ := step_objs_none ho h1
        exfalso
        have a := List.getElem?_eq_none_iff.1 ho
        have b' := (List.getElem?_eq_some_iff.1 hc).1
        have len : (goStep cfg s j t t' b pc).1.objs.length = s.objs.length := by
          cases pc <;> simp only [goStep] <;> (repeat' split) <;> simp
        omega
      | some c0 =>
        obtain ⟨c', e1, e2⟩ := goStep_last (cfg := cfg) (i := j) (t := t) (t' := t') (b := b) (pc := pc) ho
        rw [e1] at hc; cases hc
        rcases e2 with e2 | ⟨e2, e3⟩
        · rw [e2]; exact h c0 ho
        · rcases he with he | he
          · rw [e3]; exact he
          · exact absurd e2 (he pc hj)

theorem run_last {cfg : Cfg} {T : Int} {o : Nat} (evs : List Ev) {s : State}
    (h : ∀ c, s.objs[o]? = some c → c.last ≤ T) (he : okRun cfg (idleSince T o) s evs) :
    ∀ c, (run cfg s evs).1.objs[o]? = some c → c.last ≤ T := by
  induction evs generalizing s with
  | nil => exact h
  | cons e es ih => exact ih (step_last h he.1) he.2

/-- Cleaning removes what it finds idle. -/
theorem cleanMap_drop {cfg : Cfg} {now : Int} {busy : List Nat} {m : List (Bytes × Nat)} {objs : List Ctx}
    {o : Nat} (hb : o ∉ busy) (hr : ∀ c, objs[o]? = some c → (isRecyclable cfg now c).2 = true) :
    ∀ id, (id, o) ∉ (cleanMap cfg now busy m objs).1 := by
  induction m generalizing objs with
  | nil => intro id h; cases h
  | cons x m ih =>
    obtain ⟨id', o'⟩ := x
    intro id
    simp only [cleanMap]
    split
    · rename_i hbb
      intro hm
      rcases List.mem_cons.1 hm with e | hm
      · cases e; exact hb (by simpa using hbb)
      · exact ih hr id hm
    · split
      · exact ih hr id
      · rename_i c' hc'
        have hr' : ∀ c, (objs.set o' (isRecyclable cfg now c').1)[o]? = some c →
            (isRecyclable cfg now c).2 = true := by
          intro c hc
          by_cases he : o' = o
          · subst he
            have hlt := (List.getElem?_eq_some_iff.1 hc').1
            rw [List.getElem?_set_self hlt] at hc
            cases hc
            have h1 := hr c' hc'
            unfold isRecyclable at h1 ⊢
            by_cases h2 : c'.st = .recycle ∨ c'.st = .error ∨ c'.st = .begunTimeout ∨
                c'.st = .continuedTimeout ∨ c'.st = .releasedTimeout
            · simp only [if_pos h2]
            · rw [if_neg h2] at h1 ⊢
              by_cases h3 : now - c'.last ≥ cfg.timeout
              · simp [if_pos h3]
              · rw [if_neg h3] at h1; cases h1
          · rw [List.getElem?_set_ne he] at hc; exact hr c hc
        have := ih hr' id
        simp only
        split
        · exact this
        · rename_i hx
          intro hm
          rcases List.mem_cons.1 hm with e | hm
          · cases e; exact hx (hr c' hc')
          · exact this hm

/-- Cleaning keeps what is busy. -/
theorem cleanMap_busy {cfg : Cfg} {now : Int} {busy : List Nat} {m : List (Bytes × Nat)} {objs : List Ctx}
    {o : Nat} (hb : o ∈ busy) : ∀ id, (id, o) ∈ m → (id, o) ∈ (cleanMap cfg now busy m objs).1 := by
  induction m generalizing objs with
  | nil => intro id h; cases h
  | cons x m ih =>
    obtain ⟨id', o'⟩ := x
    intro id hm
    simp only [cleanMap]
    split
    · rcases List.mem_cons.1 hm with e | hm
      · rw [e]; exact List.mem_cons_self
      · exact List.mem_cons_of_mem _ (ih id hm)
    · rename_i hbb
      have hne : o' ≠ o := by
        rintro rfl
        exact hbb (by simpa using hb)
      have hm' : (id, o) ∈ m := by
        rcases List.mem_cons.1 hm with e | hm
        · cases e; exact absurd rfl hne
        · exact hm
      split
      · exact ih id hm'
      · simp only
        split
        · exact ih id hm'
        · exact List.mem_cons_of_mem _ (ih id hm')

end Verif.Scan
