import Verif.Scan.Lemmas

/-! # Scan sessions: how sessions move, and invariants -/

namespace Verif.Scan
open Verif.Codec Verif.Mvcc

/-- The responses say nothing about session `o`'s content. -/
def Quiet (o : Nat) (outs : List Out) : Prop :=
  ∀ x ∈ outs, x.isPage o = false ∧ x.isBegun o = false

theorem quiet_nil (o : Nat) : Quiet o [] := by intro x hx; cases hx

theorem Quiet.append {o : Nat} {a b : List Out} (ha : Quiet o a) (hb : Quiet o b) : Quiet o (a ++ b) := by
  intro x hx
  rcases List.mem_append.1 hx with h | h
  · exact ha x h
  · exact hb x h

theorem Quiet.pairs {o : Nat} {outs : List Out} (h : Quiet o outs) : pairsOf o outs = [] := by
  unfold pairsOf
  rw [List.flatMap_eq_nil_iff]
  intro x hx
  have := h x hx
  cases x <;> simp_all [Out.pairs, Out.isPage, Out.isBegun]

theorem pairsOf_append (o : Nat) (a b : List Out) : pairsOf o (a ++ b) = pairsOf o a ++ pairsOf o b := by
  simp [pairsOf]

/-- How one event changes one session, with the responses of the event. -/
inductive Move (cfg : Cfg) (st : Store) (o : Nat) (c : Ctx) : Ctx → List Out → Prop
  | same {outs} : Quiet o outs → Move cfg st o c c outs
  | opn {id ts} : Move cfg st o c (openCtx c id ts).1 []
  | begin {i t t' id r c' kvs more} : scanBegin cfg st t t' c r = (c', .ok kvs more) →
      Move cfg st o c c' [.begun i o id r kvs]
  | beginErr {t t' r c' e} : scanBegin cfg st t t' c r = (c', .err e) → Move cfg st o c c' []
  | cont {i t' id max c' kvs more} : scanContinue cfg t' c id max = (c', .ok kvs more) →
      Move cfg st o c c' [.page i o id max kvs more]
  | contErr {t' id max c' e} : scanContinue cfg t' c id max = (c', .err e) → Move cfg st o c c' []
  | rel {t' id} : Move cfg st o c (scanRelease t' c id).1 []
  | recyc {now outs} : Quiet o outs → Move cfg st o c (isRecyclable cfg now c).1 outs

theorem isRecyclable_idem (cfg : Cfg) (now : Int) (c : Ctx) :
    (isRecyclable cfg now (isRecyclable cfg now c).1).1 = (isRecyclable cfg now c).1 := by
  unfold isRecyclable
  by_cases h1 : c.st = .recycle ∨ c.st = .error ∨ c.st = .begunTimeout ∨ c.st = .continuedTimeout ∨
      c.st = .releasedTimeout
  · simp only [if_pos h1]
  · rw [if_neg h1]
    by_cases h2 : now - c.last ≥ cfg.timeout
    · rw [if_pos h2]; simp
    · rw [if_neg h2]; simp only [if_neg h1, if_neg h2]

theorem cleanMap_obj (cfg : Cfg) (now : Int) (busy : List Nat) (m : List (Bytes × Nat))
    (objs : List Ctx) (o : Nat) (c : Ctx) (h : objs[o]? = some c) :
    (cleanMap cfg now busy m objs).2[o]? = some c ∨
      (cleanMap cfg now busy m objs).2[o]? = some (isRecyclable cfg now c).1 := by
  induction m generalizing objs c with
  | nil => exact Or.inl h
  | cons x m ih =>
    obtain ⟨id, o'⟩ := x
    simp only [cleanMap]
    split
    · exact ih objs c h
    · split
      · exact ih objs c h
      · rename_i c' hc'
        by_cases ho : o' = o
        · subst ho
          rw [h] at hc'
          cases hc'
          have hlt := (List.getElem?_eq_some_iff.1 h).1
          have h' : (objs.set o' (isRecyclable cfg now c).1)[o']? = some (isRecyclable cfg now c).1 := by
            rw [List.getElem?_set_self hlt]
          rcases ih _ _ h' with e | e
          · exact Or.inr e
          · rw [isRecyclable_idem] at e; exact Or.inr e
        · have h' : (objs.set o' (isRecyclable cfg now c').1)[o]? = some c := by
            rw [List.getElem?_set_ne ho, h]
          exact ih _ _ h'

theorem cleanMap_length (cfg : Cfg) (now : Int) (busy : List Nat) (m : List (Bytes × Nat))
    (objs : List Ctx) : (cleanMap cfg now busy m objs).2.length = objs.length := by
  induction m generalizing objs with
  | nil => rfl
  | cons x m ih =>
    obtain ⟨id, o'⟩ := x
    simp only [cleanMap]
    split
    · exact ih objs
    · split
      · exact ih objs
      · exact (ih _).trans (List.length_set ..)

/-- Setting one object. -/
theorem set_move {cfg : Cfg} {st : Store} {objs : List Ctx} {o o' : Nat} {c c0 c1 : Ctx} {outs : List Out}
    (h : objs[o]? = some c) (h0 : objs[o']? = some c0)
    (hm : o' = o → Move cfg st o c0 c1 outs) (hq : o' ≠ o → Quiet o outs) :
    ∃ c', (objs.set o' c1)[o]? = some c' ∧ Move cfg st o c c' outs := by
  by_cases ho : o' = o
  · subst ho
    rw [h] at h0; cases h0
    have hlt := (List.getElem?_eq_some_iff.1 h).1
    exact ⟨c1, by rw [List.getElem?_set_self hlt], hm rfl⟩
  · exact ⟨c, by rw [List.getElem?_set_ne ho, h], .same (hq ho)⟩

theorem goStep_obj (cfg : Cfg) (s : State) (i : Nat) (t t' : Int) (busy : Bool) (pc : Pc) (o : Nat)
    (c : Ctx) (h : s.objs[o]? = some c) :
    ∃ c', (goStep cfg s i t t' busy pc).1.objs[o]? = some c' ∧
      Move cfg s.store o c c' (goStep cfg s i t t' busy pc).2 := by
  have same : ∃ c', s.objs[o]? = some c' ∧ Move cfg s.store o c c' [] :=
    ⟨c, h, .same (quiet_nil o)⟩
  cases pc with
  | opening o' id r =>
    simp only [goStep]
    cases h0 : s.objs[o']? with
    | none => exact same
    | some c0 =>
      simp only
      cases hx : (openCtx c0 id r.ts).2 with
      | none => exact set_move h h0 (fun _ => .opn) (fun _ => quiet_nil o)
      | some e => exact set_move h h0 (fun _ => .opn) (fun _ => quiet_nil o)
  | begin o' id r =>
    simp only [goStep]
    cases h0 : s.objs[o']? with
    | none => exact same
    | some c0 =>
      simp only
      cases hx : scanBegin cfg s.store t t' c0 r with
      | mk c1 out =>
        cases out with
        | ok kvs more =>
          refine set_move h h0 (fun ho => ?_) (fun ho => ?_)
          · subst ho; exact .begin hx
          · intro x hx
            simp only [List.mem_singleton] at hx
            subst hx
            simp [Out.isPage, Out.isBegun, ho]
        | err e => exact set_move h h0 (fun _ => .beginErr hx) (fun _ => quiet_nil o)
        | crash => exact ⟨c, h, .same (by intro x hx; simp only [List.mem_singleton] at hx; subst hx; exact ⟨rfl, rfl⟩)⟩
  | cont o' id max =>
    simp only [goStep]
    cases h0 : s.objs[o']? with
    | none => exact same
    | some c0 =>
      simp only
      cases hx : scanContinue cfg t' c0 id max with
      | mk c1 out =>
        cases out with
        | ok kvs more =>
          refine set_move h h0 (fun ho => ?_) (fun ho => ?_)
          · subst ho; exact .cont hx
          · intro x hx
            simp only [List.mem_singleton] at hx
            subst hx
            simp [Out.isPage, Out.isBegun, ho]
        | err e => exact set_move h h0 (fun _ => .contErr hx) (fun _ => quiet_nil o)
        | crash => exact ⟨c, h, .same (by intro x hx; simp only [List.mem_singleton] at hx; subst hx; exact ⟨rfl, rfl⟩)⟩
  | rel o' id =>
    simp only [goStep]
    cases h0 : s.objs[o']? with
    | none => exact same
    | some c0 =>
      simp only
      cases hx : (scanRelease t' c0 id).2 with
      | ok kvs more => exact set_move h h0 (fun _ => .rel) (fun _ => quiet_nil o)
      | err e => exact set_move h h0 (fun _ => .rel) (fun _ => quiet_nil o)
      | crash => exact ⟨c, h, .same (by intro x hx; simp only [List.mem_singleton] at hx; subst hx; exact ⟨rfl, rfl⟩)⟩
  | drop id e =>
    exact ⟨c, h, .same (by intro x hx; simp only [goStep, List.mem_singleton] at hx; subst hx; exact ⟨rfl, rfl⟩)⟩
  | tryDel o0 id =>
    have hq : ∀ o, Quiet o [Out.released i o0 id] := by
      intro o x hx; simp only [List.mem_singleton] at hx; subst hx; exact ⟨rfl, rfl⟩
    simp only [goStep]
    cases find s.map id with
    | none => exact ⟨c, h, .same (hq o)⟩
    | some o' =>
      cases busy with
      | true => exact ⟨c, h, .same (hq o)⟩
      | false =>
        simp only [Bool.false_eq_true, if_false]
        cases h0 : s.objs[o']? with
        | none => exact ⟨c, h, .same (hq o)⟩
        | some c0 => exact set_move h h0 (fun _ => .recyc (hq o)) (fun _ => hq o)
  | done => exact same

/-- Every event moves every session. -/
theorem step_obj (cfg : Cfg) (s : State) (e : Ev) (o : Nat) (c : Ctx) (h : s.objs[o]? = some c) :
    ∃ c', (step cfg s e).1.objs[o]? = some c' ∧ Move cfg s.store o c c' (step cfg s e).2 := by
  have same : ∃ c', s.objs[o]? = some c' ∧ Move cfg s.store o c c' [] :=
    ⟨c, h, .same (quiet_nil o)⟩
  have hlt := (List.getElem?_eq_some_iff.1 h).1
  have hcr : ∀ x : Ctx, ∃ c', (s.objs ++ [x])[o]? = some c' ∧ Move cfg s.store o c c' [] := by
    intro x
    exact ⟨c, by rw [List.getElem?_append_left hlt, h], .same (quiet_nil o)⟩
  have hbc : ∀ r l out, beginCheck r l s.ths.length = some out →
      ∃ c', s.objs[o]? = some c' ∧ Move cfg s.store o c c' [out] := by
    intro r l out ho
    refine ⟨c, h, .same ?_⟩
    intro x hx
    simp only [List.mem_singleton] at hx
    subst hx
    unfold beginCheck at ho
    repeat' (split at ho)
    all_goals first
      | (cases ho; done)
      | (cases ho; exact ⟨rfl, rfl⟩)
  have href : ∀ e, ∃ c', s.objs[o]? = some c' ∧ Move cfg s.store o c c' [.refused s.ths.length e] := by
    intro e
    refine ⟨c, h, .same ?_⟩
    intro x hx
    simp only [List.mem_singleton] at hx
    subst hx
    exact ⟨rfl, rfl⟩
  unfold step
  by_cases hd : s.dead = true
  · rw [if_pos hd]; exact same
  · rw [if_neg hd]
    cases e with
    | data st => exact same
    | beginV1 guids r now leader =>
      simp only
      cases hb : beginCheck r leader s.ths.length with
      | some out => exact hbc _ _ _ hb
      | none =>
        simp only
        split
        · exact same
        · exact hcr _
    | beginV2 id r now leader =>
      simp only
      cases hb : beginCheck r leader s.ths.length with
      | some out => exact hbc _ _ _ hb
      | none =>
        simp only
        split
        · exact href _
        · exact hcr _
    | cont id max =>
      simp only
      split
      · exact href _
      · split
        · exact href _
        · split
          · exact href _
          · exact same
    | release id =>
      simp only
      split
      · exact href _
      · split
        · exact href _
        · exact same
    | go i t t' busy =>
      simp only
      cases hp : s.ths[i]? with
      | none => exact same
      | some pc => exact goStep_obj cfg s i t t' busy pc o c h
    | clean now busy =>
      simp only
      rcases cleanMap_obj cfg now busy s.map s.objs o c h with e | e
      · exact ⟨_, e, .same (quiet_nil o)⟩
      · exact ⟨_, e, .recyc (quiet_nil o)⟩

/-! ## What a move keeps -/

/-- The session has not been begun. -/
def Young (c : Ctx) : Prop := c.st = .uninit ∨ c.st = .opened

theorem scanBegin_ok {cfg : Cfg} {st : Store} {t t' : Int} {c c' : Ctx} {r : BeginReq} {kvs : List KV}
    {more : Bool} (h : scanBegin cfg st t t' c r = (c', .ok kvs more)) :
    c.st = .opened ∧ r.start ≠ [] ∧ r.stop ≠ [] ∧ r.start < r.stop ∧
    ∃ it it', seekIt st c.ts t r.start r.stop = some it ∧
      (if r.max > 0 then getKeyValue cfg r.keyOnly r.max it = some (kvs, more, it')
       else kvs = [] ∧ it' = it) ∧
      c' = { c with keyOnly := r.keyOnly, noAuto := r.noAuto, it := some it', st := .begun, last := t' } := by
  unfold scanBegin at h
  split at h
  · cases h
  · rename_i h1
    split at h
    · cases h
    · rename_i h2
      split at h
      · cases h
      · rename_i h3
        refine ⟨Decidable.not_not.1 h3, fun e => h1 (Or.inl e), fun e => h1 (Or.inr e),
          Decidable.not_not.1 h2, ?_⟩
        simp only at h
        cases hs : seekIt st c.ts t r.start r.stop with
        | none => rw [hs] at h; cases h
        | some it =>
          rw [hs] at h
          simp only at h
          by_cases hm : r.max > 0
          · rw [if_pos hm] at h
            cases hg : getKeyValue cfg r.keyOnly r.max it with
            | none => rw [hg] at h; cases h
            | some x =>
              obtain ⟨k1, m1, it'⟩ := x
              rw [hg] at h
              simp only [Prod.mk.injEq, HOut.ok.injEq] at h
              obtain ⟨rfl, rfl, rfl⟩ := h
              exact ⟨it, it', rfl, by rw [if_pos hm]; exact hg, rfl⟩
          · rw [if_neg hm] at h
            simp only [Prod.mk.injEq, HOut.ok.injEq] at h
            obtain ⟨rfl, rfl, rfl⟩ := h
            exact ⟨it, it, rfl, by rw [if_neg hm]; exact ⟨rfl, rfl⟩, rfl⟩

theorem scanBegin_err {cfg : Cfg} {st : Store} {t t' : Int} {c c' : Ctx} {r : BeginReq} {e : Err}
    (h : scanBegin cfg st t t' c r = (c', .err e)) :
    c' = c ∨ (c.st ≠ .opened ∧ c' = { c with st := .error }) := by
  unfold scanBegin at h
  split at h
  · cases h; exact Or.inl rfl
  · split at h
    · cases h; exact Or.inl rfl
    · split at h
      · rename_i h3; cases h; exact Or.inr ⟨h3, rfl⟩
      · simp only at h
        split at h
        · cases h
        · split at h
          · split at h <;> cases h
          · cases h

theorem scanContinue_ok {cfg : Cfg} {t' : Int} {c c' : Ctx} {id : Bytes} {max : Int} {kvs : List KV}
    {more : Bool} (h : scanContinue cfg t' c id max = (c', .ok kvs more)) :
    id ≠ [] ∧ id = c.id ∧ max ≠ 0 ∧ (c.st = .begun ∨ c.st = .continued) ∧
    ∃ it it', c.it = some it ∧ getKeyValue cfg c.keyOnly max it = some (kvs, more, it') ∧
      c' = { c with it := some it', st := .continued, last := t' } := by
  unfold scanContinue at h
  split at h
  · cases h
  · rename_i h1
    split at h
    · cases h
    · rename_i h2
      split at h
      · cases h
      · rename_i h3
        refine ⟨fun e => h1 (Or.inl e), Decidable.not_not.1 (fun e => h1 (Or.inr e)), h2, ?_, ?_⟩
        · by_cases hb : c.st = .begun
          · exact Or.inl hb
          · exact Or.inr (Decidable.not_not.1 (fun e => h3 ⟨hb, e⟩))
        · cases hi : c.it with
          | none => rw [hi] at h; cases h
          | some it =>
            rw [hi] at h
            simp only at h
            cases hg : getKeyValue cfg c.keyOnly max it with
            | none => rw [hg] at h; cases h
            | some x =>
              obtain ⟨k1, m1, it'⟩ := x
              rw [hg] at h
              simp only [Prod.mk.injEq, HOut.ok.injEq] at h
              obtain ⟨rfl, rfl, rfl⟩ := h
              exact ⟨it, it', rfl, hg, rfl⟩

theorem scanContinue_err {cfg : Cfg} {t' : Int} {c c' : Ctx} {id : Bytes} {max : Int} {e : Err}
    (h : scanContinue cfg t' c id max = (c', .err e)) :
    c' = c ∨ ((c.st ≠ .begun ∧ c.st ≠ .continued) ∧ c' = { c with st := .error }) := by
  unfold scanContinue at h
  split at h
  · cases h; exact Or.inl rfl
  · split at h
    · cases h; exact Or.inl rfl
    · split at h
      · rename_i h3; cases h; exact Or.inr ⟨h3, rfl⟩
      · split at h
        · cases h
        · split at h <;> cases h

theorem scanRelease_fst {t' : Int} {c : Ctx} {id : Bytes} :
    (scanRelease t' c id).1 = c ∨
    (¬ (c.st = .begun ∨ c.st = .continued) ∧ (scanRelease t' c id).1 = { c with st := .error }) ∨
    ((c.st = .begun ∨ c.st = .continued) ∧ id = c.id ∧
      ((c.noAuto = false ∧ (scanRelease t' c id).1 = { c with st := .recycle }) ∨
       (c.noAuto = true ∧ (scanRelease t' c id).1 = { c with st := .released, last := t' }))) := by
  unfold scanRelease
  split
  · exact Or.inl rfl
  · rename_i h1
    split
    · rename_i h2
      exact Or.inr (Or.inl ⟨fun h => h.elim h2.1 h2.2, rfl⟩)
    · rename_i h2
      have hb : c.st = .begun ∨ c.st = .continued := by
        by_cases hb : c.st = .begun
        · exact Or.inl hb
        · exact Or.inr (Decidable.not_not.1 (fun e => h2 ⟨hb, e⟩))
      refine Or.inr (Or.inr ⟨hb, Decidable.not_not.1 (fun e => h1 (Or.inr e)), ?_⟩)
      by_cases hn : c.noAuto = false
      · rw [if_pos hn]; exact Or.inl ⟨hn, rfl⟩
      · rw [if_neg hn]; exact Or.inr ⟨by simpa using hn, rfl⟩

theorem isRecyclable_fst {cfg : Cfg} {now : Int} {c : Ctx} :
    (isRecyclable cfg now c).1 = c ∨ (isRecyclable cfg now c).1 = { c with st := .recycle } := by
  unfold isRecyclable
  split
  · exact Or.inl rfl
  · split
    · exact Or.inr rfl
    · exact Or.inl rfl

theorem openCtx_fst {c : Ctx} {id : Bytes} {ts : Int} :
    (openCtx c id ts).1 = c ∨ (c.st ≠ .uninit ∧ (openCtx c id ts).1 = { c with st := .error }) ∨
    (c.st = .uninit ∧ id ≠ [] ∧ (openCtx c id ts).1 = { c with st := .opened, id := id, ts := ts }) := by
  unfold openCtx
  split
  · exact Or.inl rfl
  · rename_i h1
    split
    · rename_i h2; exact Or.inr (Or.inl ⟨h2, rfl⟩)
    · rename_i h2; exact Or.inr (Or.inr ⟨Decidable.not_not.1 h2, h1, rfl⟩)

/-- Once opened, a session keeps its id and read timestamp. -/
theorem Move.keeps {cfg : Cfg} {st : Store} {o : Nat} {c c' : Ctx} {outs : List Out}
    (h : Move cfg st o c c' outs) (hc : c.st ≠ .uninit) :
    c'.id = c.id ∧ c'.ts = c.ts ∧ c'.st ≠ .uninit := by
  cases h with
  | same _ => exact ⟨rfl, rfl, hc⟩
  | @opn id ts =>
    rcases openCtx_fst (c := c) (id := id) (ts := ts) with e | ⟨_, e⟩ | ⟨e, _⟩
    · rw [e]; exact ⟨rfl, rfl, hc⟩
    · rw [e]; exact ⟨rfl, rfl, by simp⟩
    · exact absurd e hc
  | «begin» h =>
    obtain ⟨_, _, _, _, it, it', _, _, e⟩ := scanBegin_ok h
    rw [e]; exact ⟨rfl, rfl, by simp⟩
  | beginErr h =>
    rcases scanBegin_err h with e | ⟨_, e⟩
    · rw [e]; exact ⟨rfl, rfl, hc⟩
    · rw [e]; exact ⟨rfl, rfl, by simp⟩
  | cont h =>
    obtain ⟨_, _, _, _, it, it', _, _, e⟩ := scanContinue_ok h
    rw [e]; exact ⟨rfl, rfl, by simp⟩
  | contErr h =>
    rcases scanContinue_err h with e | ⟨_, e⟩
    · rw [e]; exact ⟨rfl, rfl, hc⟩
    · rw [e]; exact ⟨rfl, rfl, by simp⟩
  | @rel t' id =>
    rcases scanRelease_fst (t' := t') (c := c) (id := id) with e | ⟨_, e⟩ | ⟨_, _, ⟨_, e⟩ | ⟨_, e⟩⟩
    · rw [e]; exact ⟨rfl, rfl, hc⟩
    all_goals (rw [e]; exact ⟨rfl, rfl, by simp⟩)
  | @recyc now _ _ =>
    rcases isRecyclable_fst (cfg := cfg) (now := now) (c := c) with e | e
    · rw [e]; exact ⟨rfl, rfl, hc⟩
    · rw [e]; exact ⟨rfl, rfl, by simp⟩

/-- A session that has been begun: it never becomes young again; it stays as it is
or hands out a page. -/
theorem Move.old {cfg : Cfg} {st : Store} {o : Nat} {c c' : Ctx} {outs : List Out}
    (h : Move cfg st o c c' outs) (hc : ¬ Young c) :
    ¬ Young c' ∧ ((Quiet o outs ∧ c'.it = c.it ∧ c'.keyOnly = c.keyOnly) ∨
      ∃ i t' id max kvs more, outs = [.page i o id max kvs more] ∧
        scanContinue cfg t' c id max = (c', .ok kvs more)) := by
  have q := quiet_nil o
  have hu : c.st ≠ .uninit := fun e => hc (Or.inl e)
  have ho : c.st ≠ .opened := fun e => hc (Or.inr e)
  cases h with
  | same hq => exact ⟨hc, Or.inl ⟨hq, rfl, rfl⟩⟩
  | @opn id ts =>
    rcases openCtx_fst (c := c) (id := id) (ts := ts) with e | ⟨_, e⟩ | ⟨e, _⟩
    · rw [e]; exact ⟨hc, Or.inl ⟨q, rfl, rfl⟩⟩
    · rw [e]; exact ⟨by simp [Young], Or.inl ⟨q, rfl, rfl⟩⟩
    · exact absurd e hu
  | «begin» h => exact absurd (scanBegin_ok h).1 ho
  | beginErr h =>
    rcases scanBegin_err h with e | ⟨_, e⟩
    · rw [e]; exact ⟨hc, Or.inl ⟨q, rfl, rfl⟩⟩
    · rw [e]; exact ⟨by simp [Young], Or.inl ⟨q, rfl, rfl⟩⟩
  | cont h =>
    refine ⟨?_, Or.inr ⟨_, _, _, _, _, _, rfl, h⟩⟩
    obtain ⟨_, _, _, _, it, it', _, _, e⟩ := scanContinue_ok h
    rw [e]; simp [Young]
  | contErr h =>
    rcases scanContinue_err h with e | ⟨_, e⟩
    · rw [e]; exact ⟨hc, Or.inl ⟨q, rfl, rfl⟩⟩
    · rw [e]; exact ⟨by simp [Young], Or.inl ⟨q, rfl, rfl⟩⟩
  | @rel t' id =>
    rcases scanRelease_fst (t' := t') (c := c) (id := id) with e | ⟨_, e⟩ | ⟨_, _, ⟨_, e⟩ | ⟨_, e⟩⟩
    · rw [e]; exact ⟨hc, Or.inl ⟨q, rfl, rfl⟩⟩
    all_goals (rw [e]; exact ⟨by simp [Young], Or.inl ⟨q, rfl, rfl⟩⟩)
  | @recyc now _ hq =>
    rcases isRecyclable_fst (cfg := cfg) (now := now) (c := c) with e | e
    · rw [e]; exact ⟨hc, Or.inl ⟨hq, rfl, rfl⟩⟩
    · rw [e]; exact ⟨by simp [Young], Or.inl ⟨hq, rfl, rfl⟩⟩

/-- A young session hands out nothing unless it is begun. -/
theorem Move.young {cfg : Cfg} {st : Store} {o : Nat} {c c' : Ctx} {outs : List Out}
    (h : Move cfg st o c c' outs) (hc' : Young c') : Quiet o outs ∧ Young c := by
  have hold : Young c := by
    by_cases hy : Young c
    · exact hy
    · exact absurd hc' (h.old hy).1
  refine ⟨?_, hold⟩
  cases h with
  | same hq => exact hq
  | opn => exact quiet_nil o
  | «begin» h =>
    obtain ⟨_, _, _, _, it, it', _, _, e⟩ := scanBegin_ok h
    rw [e] at hc'; simp [Young] at hc'
  | beginErr h => exact quiet_nil o
  | cont h =>
    obtain ⟨_, _, _, _, it, it', _, _, e⟩ := scanContinue_ok h
    rw [e] at hc'; simp [Young] at hc'
  | contErr h => exact quiet_nil o
  | rel => exact quiet_nil o
  | recyc hq => exact hq

end Verif.Scan
