import Verif.Scan.Step

/-! # Scan sessions over well-formed data -/

namespace Verif.Scan
open Verif.Codec Verif.Mvcc

theorem nextVisible_sub {ts now : Int} {prev : Bytes} {l : List Entry} {p : Bytes} {m : List Entry}
    (h : nextVisible ts now prev l = some (p, m)) : ∀ e ∈ m, e ∈ l := by
  fun_induction nextVisible ts now prev l <;> simp_all
  all_goals first
    | (intro a b hab; exact Or.inr (by simp_all))
    | (obtain ⟨_, rfl⟩ := h; simp)

theorem next_sub {it it' : It} (h : it.next = some it') : ∀ e ∈ it'.pos, e ∈ it.pos := by
  unfold It.next at h
  cases hx : nextVisible it.ts it.now it.prev it.pos with
  | none => rw [hx] at h; cases h
  | some x =>
    rw [hx] at h
    simp only [Option.map_some, Option.some.injEq] at h
    subst h
    exact nextVisible_sub hx

theorem getKv_sub {keyOnly : Bool} {maxCnt : Nat} {maxBytes : Int} {f cnt : Nat} {bytes : Int}
    {it it' : It} {kvs : List KV} {more : Bool}
    (h : getKv keyOnly maxCnt maxBytes f cnt bytes it = some (kvs, more, it')) :
    ∀ e ∈ it'.pos, e ∈ it.pos := by
  induction f generalizing cnt bytes it kvs with
  | zero => cases h
  | succ f ih =>
    rw [getKv] at h
    split at h
    · cases h; exact fun e he => he
    · split at h
      · cases h
      · simp only at h
        split at h
        · cases h
        · rename_i it1 hn
          split at h
          · cases h; exact next_sub hn
          · split at h
            · cases h
            · rename_i hg
              cases h
              intro e he
              exact next_sub hn e (ih hg e he)

/-- Data as raw writers leave it, all of whose versions satisfy `P`. -/
def GoodStore (P : Rec → Prop) (st : Store) : Prop := WFStore st ∧ ∀ r, Stored st r → P r

/-- The iterator reads versions satisfying `P`. -/
def ItOk (P : Rec → Prop) (it : It) : Prop :=
  (∃ rem, Ahead it rem) ∧ ∀ e ∈ it.pos, ∃ r : Rec, r.Valid ∧ e = r.enc ∧ P r

theorem itOk_seek {P : Rec → Prop} {st : Store} (h : GoodStore P st) {ts now : Int} {start stop : Bytes}
    {it : It} (hs : seekIt st ts now start stop = some it) : ItOk P it := by
  obtain ⟨hw, hP⟩ := h
  obtain ⟨rs, rfl, hv, hp⟩ := hw.recs
  refine ⟨⟨_, ahead_seek hv hp hs⟩, ?_⟩
  intro e he
  unfold seekIt at hs
  cases hn : nextVisible (effTs ts) now [] (seek (rs.map Rec.enc) (encodeBytes start) (encodeBytes stop)) with
  | none => rw [hn] at hs; cases hs
  | some x =>
    rw [hn] at hs
    simp only [Option.map_some, Option.some.injEq] at hs
    subst hs
    have := nextVisible_sub hn e he
    rw [seek_range hv hp] at this
    obtain ⟨r, hr, rfl⟩ := List.mem_map.1 this
    have hm := (List.mem_filter.1 hr).1
    exact ⟨r, hv r hm, rfl, hP r ((stored_map hv).2 hm)⟩

theorem itOk_page {P : Rec → Prop} {cfg : Cfg} {keyOnly : Bool} {max : Int} {it it' : It}
    {kvs : List KV} {more : Bool} (h : ItOk P it)
    (hg : getKeyValue cfg keyOnly max it = some (kvs, more, it')) : ItOk P it' := by
  obtain ⟨⟨rem, ha⟩, hp⟩ := h
  obtain ⟨rem', a, _⟩ := (getKeyValue_ok ha hg).ahead
  exact ⟨⟨rem', a⟩, fun e he => hp e (getKv_sub hg e he)⟩

/-- Every session in use has a good iterator. -/
structure GInv (P : Rec → Prop) (s : State) : Prop where
  store : GoodStore P s.store
  its : ∀ (o : Nat) (c : Ctx), s.objs[o]? = some c → (c.st = .begun ∨ c.st = .continued) →
    ∃ it, c.it = some it ∧ ItOk P it

/-- Events that leave the data good. -/
def okData (P : Rec → Prop) : Ev → Prop
  | .data st => GoodStore P st
  | _ => True

theorem goStep_store (cfg : Cfg) (s : State) (i : Nat) (t t' : Int) (b : Bool) (pc : Pc) :
    (goStep cfg s i t t' b pc).1.store = s.store := by
  cases pc <;> simp only [goStep]
  all_goals (repeat' split) <;> rfl

theorem step_store (cfg : Cfg) (s : State) (e : Ev) :
    (step cfg s e).1.store = s.store ∨ ∃ st, e = .data st ∧ (step cfg s e).1.store = st := by
  unfold step
  split
  · exact Or.inl rfl
  · cases e with
    | data st => exact Or.inr ⟨st, rfl, rfl⟩
    | go i t t' b =>
      left
      simp only
      split
      · rfl
      · exact goStep_store ..
    | _ => left; simp only; repeat' split
           all_goals rfl

theorem Move.good {cfg : Cfg} {st : Store} {o : Nat} {c c' : Ctx} {outs : List Out} {P : Rec → Prop}
    (h : Move cfg st o c c' outs) (hst : GoodStore P st)
    (hc : (c.st = .begun ∨ c.st = .continued) → ∃ it, c.it = some it ∧ ItOk P it)
    (hc' : c'.st = .begun ∨ c'.st = .continued) : ∃ it, c'.it = some it ∧ ItOk P it := by
  have no : ∀ {x : SState} {Q : Prop}, (x = .begun ∨ x = .continued) → x ≠ .begun → x ≠ .continued → Q :=
    fun h a b => h.elim (fun e => absurd e a) (fun e => absurd e b)
  cases h with
  | same _ => exact hc hc'
  | @opn id ts =>
    rcases openCtx_fst (c := c) (id := id) (ts := ts) with e | ⟨_, e⟩ | ⟨_, _, e⟩
    · rw [e] at hc' ⊢; exact hc hc'
    all_goals (rw [e] at hc'; exact no hc' (by simp) (by simp))
  | «begin» h =>
    obtain ⟨_, _, _, _, it, it', h1, h2, e⟩ := scanBegin_ok h
    have hi := itOk_seek hst h1
    rw [e]
    refine ⟨it', rfl, ?_⟩
    split at h2
    · exact itOk_page hi h2
    · rw [h2.2]; exact hi
  | beginErr h =>
    rcases scanBegin_err h with e | ⟨_, e⟩
    · rw [e] at hc' ⊢; exact hc hc'
    · rw [e] at hc'; exact no hc' (by simp) (by simp)
  | cont h =>
    obtain ⟨_, _, _, h4, it, it', h1, h2, e⟩ := scanContinue_ok h
    obtain ⟨it0, a, b⟩ := hc h4
    rw [h1] at a
    cases a
    rw [e]
    exact ⟨it', rfl, itOk_page b h2⟩
  | contErr h =>
    rcases scanContinue_err h with e | ⟨_, e⟩
    · rw [e] at hc' ⊢; exact hc hc'
    · rw [e] at hc'; exact no hc' (by simp) (by simp)
  | @rel t' id =>
    rcases scanRelease_fst (t' := t') (c := c) (id := id) with e | ⟨_, e⟩ | ⟨_, _, ⟨_, e⟩ | ⟨_, e⟩⟩
    · rw [e] at hc' ⊢; exact hc hc'
    all_goals (rw [e] at hc'; exact no hc' (by simp) (by simp))
  | @recyc now _ _ =>
    rcases isRecyclable_fst (cfg := cfg) (now := now) (c := c) with e | e
    · rw [e] at hc' ⊢; exact hc hc'
    · rw [e] at hc'; exact no hc' (by simp) (by simp)

theorem GInv.init {P : Rec → Prop} {st : Store} (h : GoodStore P st) : GInv P (State.init st) :=
  ⟨h, fun o c hc => by simp [State.init] at hc⟩

theorem GInv.step {P : Rec → Prop} {cfg : Cfg} {s : State} (h : GInv P s) (e : Ev) (he : okData P e) :
    GInv P (step cfg s e).1 := by
  refine ⟨?_, ?_⟩
  · rcases step_store cfg s e with e1 | ⟨st, rfl, e1⟩
    · rw [e1]; exact h.store
    · rw [e1]; exact he
  · intro o c' hc' hst
    cases ho : s.objs[o]? with
    | none =>
      obtain ⟨⟨now, e1⟩, _⟩ := step_objs_none ho hc'
      rw [e1] at hst
      rcases hst with e | e <;> cases e
    | some c =>
      obtain ⟨c2, e1, m⟩ := step_obj cfg s e o c ho
      rw [hc'] at e1
      cases e1
      exact m.good h.store (h.its o c ho) hst

theorem GInv.run {P : Rec → Prop} {cfg : Cfg} {s : State} (h : GInv P s) (evs : List Ev)
    (he : ∀ e ∈ evs, okData P e) : GInv P (run cfg s evs).1 :=
  run_ind (P := fun s _ => GInv P s) (ok := okData P) h (fun _ _ e h he => h.step e he) evs he

/-! ## No aborts without empty TTL values -/

/-- The version is not an empty value with a TTL. -/
def NE (r : Rec) : Prop := ¬ r.ver.emptyTTL

theorem page_total {cfg : Cfg} {keyOnly : Bool} {max : Int} {it : It} (h : ItOk NE it) :
    ∃ x, getKeyValue cfg keyOnly max it = some x := by
  obtain ⟨⟨rem, ha⟩, hp⟩ := h
  refine getKv_total ha (Nat.lt_succ_self _) ?_
  intro e he r hr hre
  obtain ⟨r', hr', e', hne⟩ := hp e he
  have := enc_inj hr hr' (hre.symm.trans e')
  rw [this]; exact hne

theorem seek_total {st : Store} (h : GoodStore NE st) (ts now : Int) (start stop : Bytes) :
    ∃ it, seekIt st ts now start stop = some it := by
  obtain ⟨hw, hP⟩ := h
  obtain ⟨rs, rfl, hv, hp⟩ := hw.recs
  unfold seekIt
  rw [seek_range hv hp]
  have hvf : ∀ r ∈ rs.filter (inRange start stop), r.Valid :=
    fun r hr => hv r (List.mem_filter.1 hr).1
  have hnf : ∀ r ∈ rs.filter (inRange start stop), ¬ r.ver.emptyTTL :=
    fun r hr => hP r ((stored_map hv).2 (List.mem_filter.1 hr).1)
  rcases nextVisible_spec (ts := effTs ts) (now := now) (prev := none) hvf hnf with
    ⟨_, p, e⟩ | ⟨y, rest', _, e, _⟩
  · simp only [encPrev] at e; rw [e]; exact ⟨_, rfl⟩
  · simp only [encPrev] at e; rw [e]; exact ⟨_, rfl⟩

theorem scanBegin_nocrash {cfg : Cfg} {st : Store} (h : GoodStore NE st) {t t' : Int} {c : Ctx} {r : BeginReq} :
    (scanBegin cfg st t t' c r).2 ≠ .crash := by
  unfold scanBegin
  split
  · simp
  · split
    · simp
    · split
      · simp
      · obtain ⟨it, hs⟩ := seek_total h c.ts t r.start r.stop
        rw [hs]
        simp only
        split
        · obtain ⟨x, hx⟩ := page_total (cfg := cfg) (keyOnly := r.keyOnly) (max := r.max) (itOk_seek h hs)
          rw [hx]
          simp
        · simp

theorem scanContinue_nocrash {cfg : Cfg} {t' : Int} {c : Ctx} {id : Bytes} {max : Int}
    (hc : (c.st = .begun ∨ c.st = .continued) → ∃ it, c.it = some it ∧ ItOk NE it) :
    (scanContinue cfg t' c id max).2 ≠ .crash := by
  unfold scanContinue
  split
  · simp
  · split
    · simp
    · split
      · simp
      · rename_i h3
        have hb : c.st = .begun ∨ c.st = .continued := by
          by_cases hb : c.st = .begun
          · exact Or.inl hb
          · exact Or.inr (Decidable.not_not.1 (fun e => h3 ⟨hb, e⟩))
        obtain ⟨it, h1, h2⟩ := hc hb
        rw [h1]
        simp only
        obtain ⟨x, hx⟩ := page_total (cfg := cfg) (keyOnly := c.keyOnly) (max := max) h2
        rw [hx]
        simp

theorem goStep_dead {cfg : Cfg} {s : State} (h : GInv NE s) (hd : s.dead = false) (i : Nat) (t t' : Int) (b : Bool)
    (pc : Pc) : (goStep cfg s i t t' b pc).1.dead = false := by
  cases pc with
  | opening o id r => simp only [goStep]; (repeat' split) <;> exact hd
  | begin o id r =>
    simp only [goStep]
    split
    · exact hd
    · split
      · exact hd
      · exact hd
      · rename_i hx; exact absurd hx (scanBegin_nocrash h.store)
  | cont o id m =>
    simp only [goStep]
    split
    · exact hd
    · rename_i c hc
      split
      · exact hd
      · exact hd
      · rename_i hx; exact absurd hx (scanContinue_nocrash (h.its o c hc))
  | rel o id =>
    simp only [goStep]
    split
    · exact hd
    · rename_i c hc
      split
      · exact hd
      · exact hd
      · rename_i hx
        unfold scanRelease at hx
        repeat' (split at hx)
        all_goals cases hx
  | drop id e => exact hd
  | tryDel o id => simp only [goStep]; (repeat' split) <;> exact hd
  | done => exact hd

theorem step_dead {cfg : Cfg} {s : State} (h : GInv NE s) (hd : s.dead = false) (e : Ev) :
    (step cfg s e).1.dead = false := by
  unfold step
  rw [if_neg (by simp [hd])]
  cases e with
  | go i t t' b =>
    simp only
    split
    · exact hd
    · exact goStep_dead h hd ..
  | _ => simp only
         (repeat' split) <;> exact hd

end Verif.Scan
