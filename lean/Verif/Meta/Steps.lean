/-
Orderly steps keep the invariant.
-/
import Verif.Meta.Inv

namespace Verif.Meta

theorem okEv_term {s : State} {e : Ev} (h : okEv s e = true) (hl : s.leader ≠ none ∨ s.fresh = false) :
    okTerm s e = true := by
  cases e with
  | begin r =>
    dsimp only [okEv, okTerm] at *
    cases hl' : s.leader with
    | none =>
      rcases hl with h1 | h1
      · exact absurd hl' h1
      · rw [h1]; rfl
    | some n =>
      rw [hl'] at h
      simp only [Bool.and_eq_true] at h
      exact h.1.1
  | submit i => exact h
  | _ => rfl

theorem okRun_append {es es' : List Ev} : ∀ {s : State},
    okRun s (es ++ es') = (okRun s es && okRun (run s es).1 es') := by
  induction es with
  | nil => intro s; rfl
  | cons e es ih =>
    intro s
    rw [List.cons_append, okRun, okRun, ih, Bool.and_assoc]
    rfl

theorem Incr.dropless_heads {i : Incr} (h : i.dropless = true) : ∀ id, .schemaErase id ∉ i.heads := by
  intro id hm
  unfold Incr.dropless at h
  rw [List.isEmpty_iff] at h
  have : id ∈ i.dropsSchemas ++ i.indexes.flatMap ObjOp.dropped ++ i.tables.flatMap ObjOp.dropped :=
    List.mem_append_left _ (List.mem_append_left _ (List.mem_flatMap.2 ⟨_, hm, List.mem_cons_self⟩))
  rw [h] at this; cases this

theorem Incr.dropless_ops {i : Incr} (h : i.dropless = true) : ∀ k id sid, (k, ObjOp.delete id sid) ∉ i.all := by
  intro k id sid hm
  unfold Incr.dropless at h
  rw [List.isEmpty_iff] at h
  have h1 := mem_all.1 hm
  have : id ∈ i.dropsSchemas ++ i.indexes.flatMap ObjOp.dropped ++ i.tables.flatMap ObjOp.dropped := by
    cases k
    · exact List.mem_append_right _ (List.mem_flatMap.2 ⟨_, h1, List.mem_cons_self⟩)
    · exact List.mem_append_left _ (List.mem_append_right _ (List.mem_flatMap.2 ⟨_, h1, List.mem_cons_self⟩))
  rw [h] at this; cases this

theorem schemaMoves_nodrop {hs : List Write} (h : ∀ id, .schemaErase id ∉ hs) :
    ∀ i, Move.delete i ∉ hs.filterMap (Write.move .schema) := by
  intro i hm
  obtain ⟨w, hw, e⟩ := List.mem_filterMap.1 hm
  cases w <;> simp [Write.move] at e
  subst e
  exact h _ hw

theorem kMoves_nodrop {ops : List (Kind × ObjOp)} (h : ∀ k id sid, (k, ObjOp.delete id sid) ∉ ops) (k : Kind) :
    ∀ i, Move.delete i ∉ kMoves k ops := by
  intro i hm
  obtain ⟨x, hx, e⟩ := List.mem_filterMap.1 hm
  obtain ⟨k', op⟩ := x
  dsimp only at e
  split at e
  · cases op <;> simp [ObjOp.move] at e
    exact h _ _ _ hx
  · cases e

theorem kMoves_create {ops : List (Kind × ObjOp)} {k : Kind} {id : Int} {r : Obj} (h : (k, ObjOp.create id r) ∈ ops) :
    Move.create id (r.schema, r.name) ∈ kMoves k ops :=
  List.mem_filterMap.2 ⟨_, h, by rw [if_pos rfl]; rfl⟩

/-- The names a request would free are those it reserved. -/
theorem Shape.back_create {d : Data} {t t' : Temp} {p : Plan} (h : Shape d t t' p) {k : Kind} {key : Key}
    (hm : (k, key) ∈ p.back) : ∃ id, Move.create id key ∈ kMoves k p.incr.all := by
  cases h with
  | objs _ _ _ hb =>
    obtain ⟨op, hop, hx⟩ := hb _ hm
    dsimp only at hop hx
    cases op <;> simp [ObjOp.backName] at hx
    subst hx
    exact ⟨_, kMoves_create (mem_all.2 hop)⟩
  | tenant _ _ _ hb => rw [hb] at hm; cases hm
  | newSchema _ _ _ _ _ hb => rw [hb] at hm; cases hm
  | noSchema _ _ _ _ _ hb => rw [hb] at hm; cases hm
  | ids _ _ _ _ hb => rw [hb] at hm; cases hm

/-! ## The cases -/

theorem Inv.taken {s : State} {r : Req} {n : Nat} {t : Temp} {p : Plan} (h : Inv s) (hf : s.fresh = false)
    (hl : s.leader = some n) (hp : prepare s.data (s.temps n) r = (t, .ok p)) (hr : okReq s.data r = true)
    (g1 : okIds .table p.incr (pending s) = true) (g2 : okIds .index p.incr (pending s) = true)
    (g3 : okSchemas p.incr (pending s) = true) :
    Inv (setTemp { s with ths := s.ths ++ [⟨n, s.term, r, p, .ready⟩] } n t) := by
  have hn := h.snext n hl hf
  obtain ⟨a, b, c⟩ := h.cond.taken (h.named n hl hf) h.own hp hr g1 g2 g3 hn.1 hn.2 h.pos
  have e := pending_begin (s := s) (n := n) (r := r) (p := p) (t := t) hl
  have q : ∀ {α : Type} (f : Incr → List α), (f p.incr ++ (pending s).flatMap f).Perm
      ((pending (setTemp { s with ths := s.ths ++ [⟨n, s.term, r, p, .ready⟩] } n t)).flatMap f) := by
    intro α f
    rw [e, List.flatMap_append]
    simpa using List.perm_append_comm
  refine { h.toBase.taken hf hl hp with cond := a.perm (q _) (q _), own := ?_, named := ?_, pos := h.pos, alive := h.alive }
  · intro inc hi
    rw [e] at hi
    rcases List.mem_append.1 hi with hi | hi
    · exact h.own inc hi
    · rw [List.mem_singleton.1 hi]; exact c
  · intro m (hm : s.leader = some m) _
    have e : m = n := Option.some.inj (hm.symm.trans hl)
    subst e
    rw [setTemp_self]
    exact b.perm (q _) (q _)

theorem Inv.refused {s : State} {r : Req} {n : Nat} {t : Temp} {e : Err} (h : Inv s)
    (hl : s.leader = some n) (hp : prepare s.data (s.temps n) r = (t, .error e))
    (hr : (∀ l, r ≠ .dropTables l) ∨ (t.names .table = (s.temps n).names .table ∧ t.names .index = (s.temps n).names .index)) :
    Inv (setTemp s n t) := by
  obtain ⟨h1, h2⟩ := prepare_refused hp
  refine { h.toBase.refused hl hp with cond := h.cond, own := h.own, named := ?_, pos := h.pos, alive := h.alive }
  intro m (hm : s.leader = some m) hf
  have e : m = n := Option.some.inj (hm.symm.trans hl)
  subst e
  rw [setTemp_self]
  refine (h.named m hm hf).names (fun k => by rw [h1.schemaNames]) ?_
  rcases hr with hr | ⟨a, b⟩
  · exact h2 hr
  · intro k key
    cases k
    · rw [a]
    · rw [b]

/-- The entries on their way are others, up to their order. -/
theorem Inv.same {s s' : State} (h : Inv s) (hb : Base s') (hp : (pending s).Perm (pending s')) (hd : s'.data = s.data)
    (ht : ∀ n, s'.leader = some n → s'.fresh = false → s.leader = some n ∧ s.fresh = false ∧ s'.temps n = s.temps n)
    (ha : s'.dead = s.dead) : Inv s' := by
  refine { hb with cond := ?_, own := fun inc hi => h.own inc (hp.mem_iff.2 hi), named := ?_, pos := hd ▸ h.pos, alive := ha ▸ h.alive }
  · rw [hd]
    exact h.cond.perm (List.Perm.flatMap_right _ hp) (List.Perm.flatMap_right _ hp)
  · intro n hl hf
    obtain ⟨a, b, c⟩ := ht n hl hf
    rw [hd, c]
    exact (h.named n a b).perm (List.Perm.flatMap_right _ hp) (List.Perm.flatMap_right _ hp)

/-- Entries on their way that drop nothing are given up. -/
theorem Inv.given {s s' : State} {l : List Incr} (h : Inv s) (hb : Base s') (hp : (pending s).Perm (l ++ pending s'))
    (hl : ∀ inc ∈ l, inc.dropless = true) (hd : s'.data = s.data)
    (ht : ∀ n, s'.leader = some n → s'.fresh = false → NamedAll s'.data (pHeads s') (pOps s') (s'.temps n))
    (ha : s'.dead = s.dead) : Inv s' := by
  refine { hb with cond := ?_, own := ?_, named := ht, pos := hd ▸ h.pos, alive := ha ▸ h.alive }
  · rw [hd]
    have e1 : (pHeads s).Perm (l.flatMap Incr.heads ++ pHeads s') := by
      unfold pHeads
      rw [← List.flatMap_append]
      exact List.Perm.flatMap_right _ hp
    have e2 : (pOps s).Perm (l.flatMap Incr.all ++ pOps s') := by
      unfold pOps
      rw [← List.flatMap_append]
      exact List.Perm.flatMap_right _ hp
    refine (h.cond.perm e1 e2).drop ?_ ?_
    · intro id hm
      obtain ⟨inc, hi, hm⟩ := List.mem_flatMap.1 hm
      exact Incr.dropless_heads (hl inc hi) id hm
    · intro k id sid hm
      obtain ⟨inc, hi, hm⟩ := List.mem_flatMap.1 hm
      exact Incr.dropless_ops (hl inc hi) k id sid hm
  · intro inc hi
    exact h.own inc (hp.mem_iff.2 (List.mem_append_right _ hi))

theorem Inv.submit {s : State} {i : Nat} (h : Inv s) (hok : okTerm s (.submit i) = true) :
    Inv (stepSubmit s i).1 := by
  have hb := h.toBase.submit hok
  unfold stepSubmit at *
  cases hi : s.ths[i]? with
  | none => exact h
  | some th =>
    rw [hi] at hb
    dsimp only at hb ⊢
    by_cases c : th.pc = .ready ∧ s.leader = some th.node
    · rw [if_pos c] at hb ⊢
      have ht : th.term = s.term := by
        dsimp only [okTerm] at hok
        rw [hi] at hok
        simpa using hok
      have ho : th.open s = true := by unfold Th.open; simp [c.1, ht, c.2]
      exact h.same hb (pending_submit hi ho).symm rfl (fun n hl hf => ⟨hl, hf, rfl⟩) rfl
    · rw [if_neg c]; exact h

theorem Inv.fail {s : State} {i : Nat} (h : Inv s) (hok : okEv s (.fail i) = true) :
    Inv (stepFail s i).1 := by
  have hb := h.toBase.fail (i := i)
  unfold stepFail at *
  cases hi : s.ths[i]? with
  | none => exact h
  | some th =>
    rw [hi] at hb
    dsimp only at hb ⊢
    by_cases c : th.pc = .ready ∨ th.pc = .waiting ∧ (s.leader ≠ some th.node ∨ th.term ≠ s.term)
    · rw [if_pos c] at hb ⊢
      dsimp only [okEv] at hok
      rw [hi] at hok
      dsimp only at hok
      cases ho : th.open s with
      | true =>
        rw [ho] at hok
        simp only [if_true] at hok
        have hp := pending_fail (n := th.node) (t := free (s.temps th.node) th.plan.back) hi ho
        refine h.given (l := [th.plan.incr]) hb hp ?_ rfl ?_ rfl
        · intro inc hm; rw [List.mem_singleton.1 hm]; exact hok
        · intro n (hl : s.leader = some n) (hf : s.fresh = false)
          have hn : th.node = n := Option.some.inj ((h.node th (List.mem_of_getElem? hi) ho).symm.trans hl)
          subst hn
          have hna := h.named _ hl hf
          have e1 : (pHeads s).Perm (th.plan.incr.heads ++ pHeads (setPc (setTemp s th.node (free (s.temps th.node) th.plan.back)) i .done)) := by
            have := List.Perm.flatMap_right Incr.heads hp
            rwa [List.flatMap_cons] at this
          have e2 : (pOps s).Perm (th.plan.incr.all ++ pOps (setPc (setTemp s th.node (free (s.temps th.node) th.plan.back)) i .done)) := by
            have := List.Perm.flatMap_right Incr.all hp
            rwa [List.flatMap_cons] at this
          have hc := h.cond.perm e1 e2
          have hna := hna.perm e1 e2
          have et : (setPc (setTemp s th.node (free (s.temps th.node) th.plan.back)) i .done).temps th.node
              = free (s.temps th.node) th.plan.back := if_pos rfl
          rw [et]
          obtain ⟨d0, t0, t0', r0, hmade⟩ := h.made th (List.mem_of_getElem? hi)
          have hsh := prepare_shape hmade
          refine ⟨?_, fun k => ?_⟩
          · have h1 := hna.1
            rw [List.filterMap_append] at h1
            have := Named.drop (schemaMoves_nodrop (Incr.dropless_heads hok)) h1
            dsimp only [nameOf] at *
            rw [(free_still _ _).schemaNames]
            exact this
          · have h1 := hna.2 k
            have h2 := hc.fitsO k
            rw [kMoves_append] at h1 h2
            refine (free_named (freed := fun key => (k, key) ∈ th.plan.back) h2 h1
              (kMoves_nodrop (Incr.dropless_ops hok) k) ?_ ?_).2
            · intro key hk; exact hsh.back_create hk
            · intro key hk
              dsimp only [nameOf]
              rw [get_free, if_neg hk]
      | false =>
        rw [ho] at hok
        simp only [Bool.false_eq_true, if_false, Bool.or_eq_true, decide_eq_true_eq, List.isEmpty_iff] at hok
        have hp : pending (setPc (setTemp s th.node (free (s.temps th.node) th.plan.back)) i .done) = pending s :=
          pending_setPc (s := setTemp s th.node (free (s.temps th.node) th.plan.back)) hi ho nofun
        refine h.same hb (by rw [hp]) rfl ?_ rfl
        intro n (hl : s.leader = some n) (hf : s.fresh = false)
        refine ⟨hl, hf, ?_⟩
        show (if n = th.node then free (s.temps th.node) th.plan.back else s.temps n) = s.temps n
        rcases hok with (hok | hok) | hok
        · rw [hok]
          split
          · rename_i e; rw [e]; rfl
          · rfl
        · rw [if_neg]
          intro e
          exact hok (e ▸ hl)
        · rw [hf] at hok; cases hok
    · rw [if_neg c]; exact h

theorem Inv.tail {s : State} {i : Nat} {inc : Incr} {rest : List (Nat × Incr)} (h : Inv s) (hl : s.log = (i, inc) :: rest) :
    ∃ d, applyIncr s.data inc = some d ∧ Inv { s with data := d, log := rest } := by
  have hp : pending s = inc :: pending { s with log := rest } := by unfold pending; rw [hl]; rfl
  obtain ⟨d0, t0, t0', p, hsh, he⟩ := h.pending_shape (inc := inc) (by rw [hp]; exact List.mem_cons_self)
  have hc := h.cond
  have eh : pHeads s = inc.heads ++ pHeads { s with log := rest } := by unfold pHeads; rw [hp, List.flatMap_cons]
  have eo : pOps s = inc.all ++ pOps { s with log := rest } := by unfold pOps; rw [hp, List.flatMap_cons]
  rw [eh, eo] at hc
  have hown := h.own inc (by rw [hp]; exact List.mem_cons_self)
  subst he
  obtain ⟨d', ha, hc'⟩ := hsh.applies hown hc
  obtain ⟨hb, hp'⟩ := h.toBase.tail hl ha
  refine ⟨d', ha, { hb with cond := hc', own := ?_, named := ?_, pos := ?_, alive := h.alive }⟩
  · intro inc' hi
    exact h.own inc' (by rw [hp]; exact List.mem_cons_of_mem _ hi)
  · intro n hn hf
    have hna := h.named n hn hf
    rw [eh, eo] at hna
    refine ⟨?_, fun k => ?_⟩
    · have h1 := hna.1
      have h2 := hc.fitsS
      rw [List.filterMap_append] at h1 h2
      rw [show live d' Cls.schema = acts (live s.data .schema) (p.incr.heads.filterMap (Write.move .schema)) by
        rw [applyIncr_live ha, hsh.moves_schema]]
      exact Named.acts h2 h1
    · have h1 := hna.2 k
      have h2 := hc.fitsO k
      rw [kMoves_append] at h1 h2
      rw [show live d' (Cls.obj k) = acts (live s.data (.obj k)) (kMoves k p.incr.all) by
        rw [applyIncr_live ha, hsh.moves_obj, kMoves_all]]
      exact Named.acts h2 h1
  · have := (execAll_next ha).2.1
    have := h.pos
    show 0 ≤ d'.nextSchema
    omega

theorem Inv.apply {s : State} (h : Inv s) : Inv (stepApply s).1 := by
  rcases h.toBase.apply_cases with ⟨_, e⟩ | ⟨i, inc, rest, hl, ha, e⟩ | ⟨i, inc, rest, d, th, hl, ha, hi, _, ho, hc⟩
  · rw [e]; exact h
  · obtain ⟨d, ha', _⟩ := h.tail hl
    rw [ha] at ha'; cases ha'
  · obtain ⟨d', ha', h1⟩ := h.tail hl
    rw [ha] at ha'
    cases ha'
    have hb := h.toBase.apply
    rcases hc with ⟨_, e⟩ | ⟨_, e⟩
    · rw [e] at hb ⊢
      refine h1.same hb ?_ rfl (fun n hl hf => ⟨hl, hf, rfl⟩) rfl
      rw [pending_setPc (s := { s with data := d, log := rest }) (pc := .done) hi ho nofun]
    · rw [e]; exact h1

theorem Inv.down {s : State} (h : Inv s) (hok : ∀ th ∈ s.ths, th.open s = true → th.plan.incr.dropless = true) :
    Inv { s with leader := none, fresh := false } := by
  refine h.given (l := (s.ths.filter (Th.open s)).map (fun th => th.plan.incr)) h.toBase.down ?_ ?_ rfl nofun rfl
  · rw [pending_noleader (s := { s with leader := none, fresh := false }) rfl]
    exact List.perm_append_comm
  · intro inc hm
    obtain ⟨th, hth, e⟩ := List.mem_map.1 hm
    rw [← e]
    exact hok th (List.mem_filter.1 hth).1 (List.mem_filter.1 hth).2

theorem Inv.elect {s : State} {n : Nat} (h : Inv s) (hl : s.leader = none) (hlog : s.log = []) :
    Inv { s with leader := some n, term := s.term + 1, fresh := true } := by
  have hp : pending s = [] := by rw [pending_noleader hl, hlog]; rfl
  exact h.same (h.toBase.elect hlog) (by rw [h.toBase.pending_elect hlog, hp]) rfl nofun rfl

theorem Inv.build {s : State} {n : Nat} (h : Inv s) (hl : s.leader = some n) (hf : s.fresh = true) :
    Inv { setTemp s n (build s.data) with fresh := false } := by
  have hp := h.toBase.pending_fresh hf
  refine { h.toBase.build hl hf with cond := h.cond, own := h.own, named := ?_, pos := h.pos, alive := h.alive }
  intro m (hm : s.leader = some m) _
  have e : m = n := Option.some.inj (hm.symm.trans hl)
  subst e
  have et : ({ setTemp s m (Verif.Meta.build s.data) with fresh := false } : State).temps m = Verif.Meta.build s.data := if_pos rfl
  rw [et]
  have hc := h.cond
  have e1 : pHeads s = [] := by unfold pHeads; rw [hp]; rfl
  have e2 : pOps s = [] := by unfold pOps; rw [hp]; rfl
  show NamedAll s.data (pHeads s) (pOps s) _
  rw [e1, e2] at hc ⊢
  exact ⟨build_named hc.ok .schema hc.fitsS, fun k => build_named hc.ok (.obj k) (hc.fitsO k)⟩

theorem Inv.restart {s : State} {n : Nat} (h : Inv s) (hok : okEv s (.restart n) = true) : Inv (step s (.restart n)).1 := by
  have hb := h.toBase.restart (n := n) h.alive
  by_cases hl : s.leader = some n
  · dsimp only [okEv] at hok
    simp only [hl, Bool.or_eq_true, decide_eq_true_eq, ne_eq, not_true, false_or, List.all_eq_true, Bool.not_eq_true'] at hok
    have h1 := h.down (fun th hth ho => by
      rcases hok th hth with e | e
      · rw [ho] at e; cases e
      · exact e)
    rw [step_restart_leader h.alive hl] at hb ⊢
    have hk := (h.toBase.down).kill (n := n) nofun
    refine h1.same hb ?_ rfl nofun rfl
    rw [← hk.2]
    rw [pending_noleader rfl, pending_noleader rfl]
    exact .refl _
  · rw [step_restart_other h.alive hl] at hb ⊢
    have hk := h.toBase.kill hl
    refine h.same hb (by rw [hk.2]) rfl ?_ rfl
    intro m (hm : s.leader = some m) hf
    refine ⟨hm, hf, if_neg ?_⟩
    intro e; exact hl (e ▸ hm)

theorem Inv.step {s : State} {e : Ev} (h : Inv s) (hok : okEv s e = true) : Inv (step s e).1 := by
  have hd := h.alive
  cases e with
  | begin r =>
    rw [step_begin hd]
    rcases begin_cases s r with ⟨_, e⟩ | ⟨n, t, er, hl, hp, e⟩ | ⟨n, t, p, hl, hp, e⟩
    · rw [e]; exact h
    · rw [e]
      refine h.refused hl hp ?_
      dsimp only [okEv] at hok
      rw [hl] at hok
      dsimp only at hok
      rw [hp] at hok
      simp only [Bool.and_eq_true, Bool.or_eq_true, decide_eq_true_eq] at hok
      rcases hok.2 with h2 | h2
      · refine Or.inl ?_
        intro l e
        rw [e] at h2; cases h2
      · exact Or.inr h2
    · rw [e]
      dsimp only [okEv] at hok
      rw [hl] at hok
      dsimp only at hok
      rw [hp] at hok
      simp only [Bool.and_eq_true, Bool.not_eq_true'] at hok
      exact h.taken hok.1.1 hl hp hok.1.2 hok.2.1.1 hok.2.1.2 hok.2.2
  | submit i => rw [step_submit hd]; exact h.submit hok
  | fail i => rw [step_fail hd]; exact h.fail hok
  | apply => rw [step_apply hd]; exact h.apply
  | stepDown =>
    rw [step_down hd]
    refine h.down ?_
    dsimp only [okEv] at hok
    intro th hth ho
    have := List.all_eq_true.1 hok th hth
    rw [ho] at this
    simpa using this
  | elect n =>
    rw [step_elect hd]
    split
    · rename_i c; exact h.elect c.1 c.2
    · exact h
  | build =>
    rcases step_build hd with ⟨hf, n, hl, e⟩ | ⟨_, e⟩
    · rw [e]; exact h.build hl hf
    · rw [e]; exact h
  | restart n => exact h.restart hok

theorem Inv.init : Inv Verif.Meta.init := by
  have hids : ∀ i, (get Data.init.schemas i).isSome → 0 ≤ i ∧ i ≤ 4 := by
    intro i hi
    obtain ⟨s, hs⟩ := Option.isSome_iff_exists.1 hi
    have := get_mem hs
    simp [Data.init] at this
    omega
  refine { Base.init with cond := ?_, own := (by intro i hi; cases hi), named := nofun, pos := (by decide), alive := rfl }
  refine { ok := ⟨?_, ?_⟩, fitsS := ?_, fitsO := ?_, ready := ?_, safe := ?_, ids := ?_, objs := ?_, puts := ?_, erases := ?_, home := ?_, lists := ?_ }
  · show (Data.init.schemas.map Prod.fst).Nodup
    decide
  · intro k; exact List.nodup_nil
  · refine ⟨(by intro i k hm; cases hm), (by intro i hm; cases hm), (by intro i n hm; cases hm), (by intro i n k hm; cases hm), List.nodup_nil, ?_⟩
    intro i j key h1 h2
    rcases h1 with ⟨h1, _⟩ | h1
    · rcases h2 with ⟨h2, _⟩ | h2
      · dsimp only [live] at h1 h2
        obtain ⟨x, hx, e1⟩ := Option.map_eq_some_iff.1 h1
        obtain ⟨y, hy, e2⟩ := Option.map_eq_some_iff.1 h2
        have hx := get_mem hx
        have hy := get_mem hy
        have hn : x.name = y.name := (Prod.mk.inj (e1.trans e2.symm)).2
        have key : ∀ a ∈ Data.init.schemas, ∀ b ∈ Data.init.schemas, a.2.name = b.2.name → a.1 = b.1 := by
          simp [Data.init]
        exact key _ hx _ hy hn
      · cases h2
    · cases h1
  · intro k
    refine ⟨(by intro i k hm; cases hm), (by intro i hm; cases hm), (by intro i n hm; cases hm), (by intro i n k hm; cases hm), List.nodup_nil, ?_⟩
    intro i j key h1 h2
    rcases h1 with ⟨h1, _⟩ | h1
    · cases h1
    · cases h1
  · intro x hx; cases hx
  · intro x hx; cases hx
  · intro i hi
    have := (hids i hi).2
    show i ≤ 50000
    omega
  · intro k i r hr; cases hr
  · intro id s hm; cases hm
  · intro id hm; cases hm
  · intro i r hr; cases hr
  · intro k sid s hs
    have := get_mem hs
    have e : s.ids k = [] := by
      have key : ∀ a ∈ Data.init.schemas, a.2.ids k = [] := by simp [Data.init]
      exact key _ this
    rw [e]
    refine ⟨List.nodup_nil, fun i => ⟨by simp, ?_⟩⟩
    rintro ⟨r, hr, _⟩
    cases hr

/-- Orderly runs keep the invariant. -/
theorem Inv.run {es : List Ev} : ∀ {s : State}, Inv s → okRun s es = true → Inv (run s es).1 := by
  induction es with
  | nil => intro s h _; exact h
  | cons e es ih =>
    intro s h hok
    rw [okRun, Bool.and_eq_true] at hok
    exact ih (h.step hok.1) hok.2

end Verif.Meta
