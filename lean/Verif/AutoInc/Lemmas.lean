import Verif.AutoInc.Model

/-! # Auto-increment service: invariants -/

namespace Verif.AutoInc

theorem Map.set_self (m : Map) (t : Int) (v : Option Int) : m.set t v t = v := if_pos rfl

theorem Map.set_ne (m : Map) {t x : Int} (v : Option Int) (h : x ≠ t) : m.set t v x = m x := if_neg h

theorem realStart_ge (start : Int) (inc off : Nat) (hi : 0 < inc) : start ≤ realStart start inc off := by
  have h := Int.tmod_lt_of_pos start (b := (inc : Int)) (by omega)
  unfold realStart
  simp only
  split
  · omega
  · split <;> omega

theorem endId_ge (start : Int) (count inc off : Nat) : start ≤ endId start count inc off := by
  have h : 0 < (if inc = 0 ∨ inc > offsetMax then 1 else inc) := by split <;> omega
  unfold endId
  simp only
  revert h
  generalize (if inc = 0 ∨ inc > offsetMax then 1 else inc) = i
  intro h
  generalize (if off = 0 ∨ off > offsetMax ∨ off > i then 1 else off) = o
  have := realStart_ge start i o h
  split
  · omega
  · have : (0 : Int) ≤ ((count * i % 4294967296 : Nat) : Int) := Int.natCast_nonneg _
    omega

/-- The map after a list of entries. -/
def replay (m : Map) : List Entry → Option Map
  | [] => some m
  | e :: es =>
    match applyOps m e.ops with
    | none => none
    | some (m', _) => replay m' es

theorem replay_append (m : Map) (a b : List Entry) : replay m (a ++ b) = (replay m a).bind fun m' => replay m' b := by
  induction a generalizing m with
  | nil => rfl
  | cons e es ih =>
    simp only [List.cons_append, replay]
    split
    · rfl
    · exact ih _

/-- The map after the first `n` entries of the log. -/
def mapAt (log : List Entry) (n : Nat) : Option Map := replay (fun _ => none) (log.take n)

theorem mapAt_append {log : List Entry} {n : Nat} (h : n ≤ log.length) (e : Entry) : mapAt (log ++ [e]) n = mapAt log n := by
  unfold mapAt
  rw [List.take_append_of_le_length h]

theorem mapAt_succ {log : List Entry} {n : Nat} {e : Entry} (h : log[n]? = some e) :
    mapAt log (n + 1) = (mapAt log n).bind fun m => (applyOps m e.ops).map (·.1) := by
  unfold mapAt
  rw [List.take_add_one, h, replay_append]
  congr 1
  funext m
  simp only [Option.toList_some, replay]
  cases applyOps m e.ops <;> rfl

/-- Where an entry comes from. -/
structure EntryOk (s : State) (e : Entry) : Prop where
  seen : e.seen ≤ s.log.length
  req : ∃ m, mapAt s.log e.seen = some m ∧ propose m e.req = some e.ops
  called : e.called ≤ s.time
  epoch : e.epoch ≤ (s.node e.owner).epoch

structure NodeOk (s : State) (n : Node) : Prop where
  applied : n.applied ≤ s.log.length
  snapAt : n.snapAt ≤ n.applied
  map : mapAt s.log n.applied = some n.map
  snap : mapAt s.log n.snapAt = some n.snap

structure Inv (s : State) : Prop where
  node : ∀ i, NodeOk s (s.node i)
  sent : ∀ e ∈ s.sent, EntryOk s e
  log : ∀ e ∈ s.log, EntryOk s e

theorem Inv.init : Inv {} :=
  ⟨fun _ => ⟨Nat.le_refl _, Nat.le_refl _, rfl, rfl⟩, by simp, by simp⟩

theorem EntryOk.mono {s s' : State} {e : Entry} (h : EntryOk s e) (hl : s'.log = s.log) (ht : s.time ≤ s'.time)
    (hn : ∀ i, (s.node i).epoch ≤ (s'.node i).epoch) : EntryOk s' e :=
  ⟨by rw [hl]; exact h.seen, by rw [hl]; exact h.req, Nat.le_trans h.called ht, Nat.le_trans h.epoch (hn _)⟩

theorem NodeOk.mono {s s' : State} {n : Node} (h : NodeOk s n) (hl : s'.log = s.log) : NodeOk s' n :=
  ⟨by rw [hl]; exact h.applied, h.snapAt, by rw [hl]; exact h.map, by rw [hl]; exact h.snap⟩

theorem EntryOk.grow {s : State} {e : Entry} (h : EntryOk s e) (e' : Entry) (l : List Entry) :
    EntryOk { s with log := s.log ++ [e'], sent := l } e :=
  ⟨by have := h.seen; simp only [List.length_append, List.length_singleton]; omega,
    by simp only; rw [mapAt_append h.seen]; exact h.req, h.called, h.epoch⟩

theorem NodeOk.grow {s : State} {n : Node} (h : NodeOk s n) (e' : Entry) (l : List Entry) :
    NodeOk { s with log := s.log ++ [e'], sent := l } n :=
  ⟨by have := h.applied; simp only [List.length_append, List.length_singleton]; omega, h.snapAt,
    by simp only; rw [mapAt_append h.applied]; exact h.map,
    by simp only; rw [mapAt_append (Nat.le_trans h.snapAt h.applied)]; exact h.snap⟩

theorem Inv.setNode {s : State} (h : Inv s) (i : Nat) {n : Node} (hn : NodeOk s n) (he : (s.node i).epoch ≤ n.epoch) :
    Inv (s.setNode i n) := by
  have hep : ∀ j, (s.node j).epoch ≤ ((s.setNode i n).node j).epoch := by
    intro j
    simp only [State.setNode]
    split
    · rename_i hj; subst hj; exact he
    · exact Nat.le_refl _
  refine ⟨?_, fun e hm => (h.sent e hm).mono rfl (Nat.le_refl _) hep, fun e hm => (h.log e hm).mono rfl (Nat.le_refl _) hep⟩
  intro j
  simp only [State.setNode]
  split
  · exact hn.mono rfl
  · exact (h.node j).mono rfl

theorem mem_of_eraseIdx {α : Type} {l : List α} {k : Nat} {a : α} (h : a ∈ l.eraseIdx k) : a ∈ l :=
  (List.eraseIdx_sublist l k).subset h

theorem Inv.tick {s : State} (h : Inv s) : Inv { s with time := s.time + 1 } :=
  ⟨fun i => (h.node i).mono rfl, fun e he => (h.sent e he).mono rfl (Nat.le_succ _) fun _ => Nat.le_refl _,
    fun e he => (h.log e he).mono rfl (Nat.le_succ _) fun _ => Nat.le_refl _⟩

theorem Inv.stepAt {s : State} (h : Inv s) (e : Event) : Inv (AutoInc.stepAt s e).1 := by
  simp only [AutoInc.stepAt]
  cases e with
  | request i r =>
    simp only
    split
    · exact h
    · split
      · exact h
      · rename_i ops hp
        refine ⟨fun j => (h.node j).mono rfl, ?_, fun e he => (h.log e he).mono rfl (Nat.le_refl _) fun _ => Nat.le_refl _⟩
        intro e he
        rcases List.mem_append.1 he with he | he
        · exact (h.sent e he).mono rfl (Nat.le_refl _) fun _ => Nat.le_refl _
        · rw [List.mem_singleton] at he
          subst he
          exact ⟨(h.node i).applied, ⟨_, (h.node i).map, hp⟩, Nat.le_refl _, Nat.le_refl _⟩
  | commit k =>
    simp only
    split
    · exact h
    · rename_i e hk
      refine ⟨fun j => (h.node j).grow e _, fun x hx => (h.sent x (mem_of_eraseIdx hx)).grow e _, ?_⟩
      intro x hx
      rcases List.mem_append.1 hx with hx | hx
      · exact (h.log x hx).grow e _
      · rw [List.mem_singleton] at hx
        subst hx
        exact (h.sent x (List.mem_of_getElem? hk)).grow x _
  | lose k =>
    exact ⟨fun j => (h.node j).mono rfl, fun x hx => (h.sent x (mem_of_eraseIdx hx)).mono rfl (Nat.le_refl _) fun _ => Nat.le_refl _,
      fun x hx => (h.log x hx).mono rfl (Nat.le_refl _) fun _ => Nat.le_refl _⟩
  | apply i =>
    simp only
    split
    · exact h
    · unfold State.applyNode
      have hn := h.node i
      simp only
      split
      · exact h
      · rename_i e he
        split
        · exact h.setNode i ⟨hn.applied, hn.snapAt, hn.map, hn.snap⟩ (Nat.le_refl _)
        · rename_i m r ha
          refine h.setNode i ⟨?_, ?_, ?_, hn.snap⟩ (Nat.le_refl _)
          · have := (List.getElem?_eq_some_iff.1 he).1
            simp only
            omega
          · have := hn.snapAt; simp only; omega
          · simp only
            rw [mapAt_succ he, hn.map]
            simp [ha]
  | save i =>
    have hn := h.node i
    simp only
    split
    · exact h
    · exact h.setNode i ⟨hn.applied, Nat.le_refl _, hn.map, hn.map⟩ (Nat.le_refl _)
  | restart i =>
    have hn := h.node i
    exact h.setNode i ⟨Nat.le_trans hn.snapAt hn.applied, Nat.le_refl _, hn.snap, hn.snap⟩ (Nat.le_succ _)
  | install i j =>
    have hn := h.node j
    simp only
    split
    · exact h.setNode i ⟨Nat.le_trans hn.snapAt hn.applied, Nat.le_refl _, hn.snap, hn.snap⟩ (Nat.le_refl _)
    · exact h

theorem Inv.step {s : State} (h : Inv s) (e : Event) : Inv (AutoInc.step s e).1 := h.tick.stepAt e

/-- An answer. -/
structure GrantOk (s : State) (g : Grant) : Prop where
  entry : ∃ e, s.log[g.pos]? = some e ∧ (∃ m m', mapAt s.log g.pos = some m ∧ applyOps m e.ops = some (m', some g.resp)) ∧
    g.called = e.called ∧
    (e.epoch < (s.node e.owner).epoch ∨ (e.epoch = (s.node e.owner).epoch ∧ g.pos < (s.node e.owner).applied))
  returned : g.returned ≤ s.time
  order : ∀ (q : Nat) (e : Entry), s.log[q]? = some e → g.returned < e.called → g.pos < q

structure RInv (s : State) (R : List Grant) : Prop where
  inv : Inv s
  ok : ∀ g ∈ R, GrantOk s g
  uniq : R.Pairwise fun a b => a.pos ≠ b.pos

theorem RInv.init : RInv {} [] := ⟨.init, by simp, List.Pairwise.nil⟩

theorem GrantOk.mono {s s' : State} {g : Grant} (h : GrantOk s g) (hl : s'.log = s.log) (ht : s.time ≤ s'.time)
    (hn : ∀ i, (s.node i).epoch < (s'.node i).epoch ∨
      ((s.node i).epoch = (s'.node i).epoch ∧ (s.node i).applied ≤ (s'.node i).applied)) : GrantOk s' g := by
  obtain ⟨e, h1, h2, h3, h4⟩ := h.entry
  refine ⟨⟨e, by rw [hl]; exact h1, by rw [hl]; exact h2, h3, ?_⟩, Nat.le_trans h.returned ht, by rw [hl]; exact h.order⟩
  have := hn e.owner
  omega

theorem GrantOk.grow {s : State} {g : Grant} (h : GrantOk s g) (e' : Entry) (l : List Entry) :
    GrantOk { s with log := s.log ++ [e'], sent := l } g := by
  obtain ⟨e, h1, ⟨m, m', h2, h2'⟩, h3, h4⟩ := h.entry
  have hlt := (List.getElem?_eq_some_iff.1 h1).1
  refine ⟨⟨e, ?_, ⟨m, m', ?_, h2'⟩, h3, h4⟩, h.returned, ?_⟩
  · simp only; rw [List.getElem?_append_left hlt]; exact h1
  · simp only; rw [mapAt_append (Nat.le_of_lt hlt)]; exact h2
  · intro q x hq hc
    simp only at hq
    by_cases hql : q < s.log.length
    · rw [List.getElem?_append_left hql] at hq
      exact h.order q x hq hc
    · omega

theorem RInv.setNode {s : State} {R : List Grant} (h : RInv s R) (i : Nat) (n : Node) (hi : Inv (s.setNode i n))
    (hn : (s.node i).epoch < n.epoch ∨ ((s.node i).epoch = n.epoch ∧ (s.node i).applied ≤ n.applied)) : RInv (s.setNode i n) R := by
  refine ⟨hi, fun g hg => (h.ok g hg).mono rfl (Nat.le_refl _) ?_, h.uniq⟩
  intro j
  simp only [State.setNode]
  split
  · rename_i hj; subst hj; exact hn
  · exact Or.inr ⟨rfl, Nat.le_refl _⟩

theorem RInv.stepAt {s : State} {R : List Grant} (H' : RInv s R) (hcl : ∀ e ∈ s.log, e.called < s.time) (e : Event) :
    RInv (AutoInc.stepAt s e).1 (R ++ (AutoInc.stepAt s e).2.toList) := by
  have hi := H'.inv.stepAt e
  revert hi
  simp only [AutoInc.stepAt]
  cases e with
  | request i r =>
    simp only
    split
    · intro _; simpa using H'
    · split
      · intro _; simpa using H'
      · intro hi
        rw [Option.toList_none, List.append_nil]
        exact ⟨hi, fun g hg => (H'.ok g hg).mono rfl (Nat.le_refl _) fun _ => Or.inr ⟨rfl, Nat.le_refl _⟩, H'.uniq⟩
  | commit k =>
    simp only
    split
    · intro _; simpa using H'
    · intro hi
      rw [Option.toList_none, List.append_nil]
      exact ⟨hi, fun g hg => (H'.ok g hg).grow _ _, H'.uniq⟩
  | lose k =>
    intro hi
    rw [Option.toList_none, List.append_nil]
    exact ⟨hi, fun g hg => (H'.ok g hg).mono rfl (Nat.le_refl _) fun _ => Or.inr ⟨rfl, Nat.le_refl _⟩, H'.uniq⟩
  | save i =>
    simp only
    split
    · intro _; simpa using H'
    · intro hi
      rw [Option.toList_none, List.append_nil]
      exact H'.setNode i _ hi (Or.inr ⟨rfl, Nat.le_refl _⟩)
  | restart i =>
    intro hi
    rw [Option.toList_none, List.append_nil]
    exact H'.setNode i _ hi (Or.inl (Nat.lt_succ_self _))
  | install i j =>
    simp only
    split
    · rename_i hc
      intro hi
      rw [Option.toList_none, List.append_nil]
      exact H'.setNode i _ hi (Or.inr ⟨rfl, Nat.le_of_lt hc.2⟩)
    · intro _; simpa using H'
  | apply i =>
    simp only
    split
    · intro _; simpa using H'
    · unfold State.applyNode
      simp only
      split
      · intro _; simpa using H'
      · rename_i en he
        split
        · intro hi
          rw [Option.toList_none, List.append_nil]
          exact H'.setNode i _ hi (Or.inr ⟨rfl, Nat.le_refl _⟩)
        · rename_i m r ha
          intro hi
          have H2 := H'.setNode i _ hi (Or.inr ⟨rfl, Nat.le_succ _⟩)
          split
          · rename_i ho
            cases r with
            | none => simpa using H2
            | some r =>
              simp only [Option.map_some, Option.toList_some]
              have hno : ∀ g ∈ R, g.pos ≠ (s.node i).applied := by
                intro g hg hp
                obtain ⟨e, h1, _, _, h4⟩ := (H'.ok g hg).entry
                rw [hp, he] at h1
                cases h1
                rw [ho.1] at h4
                omega
              refine ⟨hi, ?_, ?_⟩
              · intro g hg
                rcases List.mem_append.1 hg with hg | hg
                · exact H2.ok g hg
                · rw [List.mem_singleton] at hg
                  subst hg
                  refine ⟨⟨en, he, ⟨_, m, (H'.inv.node i).map, ha⟩, rfl, ?_⟩, Nat.le_refl _, ?_⟩
                  · right
                    simp only [State.setNode, ho.1, if_true]
                    exact ⟨ho.2, Nat.lt_succ_self _⟩
                  · intro q e hq hc
                    replace hq : s.log[q]? = some e := hq
                    have := hcl e (List.mem_of_getElem? hq)
                    simp only at hc
                    omega
              · rw [List.pairwise_append]
                refine ⟨H'.uniq, List.pairwise_singleton _ _, ?_⟩
                intro a ha' b hb
                rw [List.mem_singleton] at hb
                subst hb
                exact hno a ha'
          · simpa using H2

theorem RInv.step {s : State} {R : List Grant} (H : RInv s R) (e : Event) :
    RInv (AutoInc.step s e).1 (R ++ (AutoInc.step s e).2.toList) := by
  have H' : RInv { s with time := s.time + 1 } R :=
    ⟨H.inv.tick, fun g hg => (H.ok g hg).mono rfl (Nat.le_succ _) fun _ => Or.inr ⟨rfl, Nat.le_refl _⟩, H.uniq⟩
  exact H'.stepAt (fun e he => Nat.lt_succ_of_le (H.inv.log e he).called) e

theorem RInv.run {s : State} {R : List Grant} (H : RInv s R) (es : List Event) :
    RInv (AutoInc.run s es) (R ++ grants s es) := by
  induction es generalizing s R with
  | nil => rw [grants, List.append_nil]; exact H
  | cons e es ih =>
    have := ih (H.step e)
    rw [List.append_assoc] at this
    exact this

/-! ## One entry -/

/-- The request sets the counter of `t` to a value of its own. -/
def Request.sets (t : Int) : Request → Prop
  | .create ts => t ∈ ts.map (·.1)
  | .update t' _ _ => t' = t
  | .createOrUpdate t' _ => t' = t
  | .generate _ _ _ _ => False
  | .delete _ => False

/-- The request deletes the counter of `t` or sets it by force. -/
def Request.resets (t : Int) : Request → Prop
  | .update t' _ force => t' = t ∧ force = true
  | .delete t' => t' = t
  | _ => False

/-- `a` is at most `b`, or there is no `a`. -/
def Up (a b : Option Int) : Prop := ∀ v, a = some v → ∃ w, b = some w ∧ v ≤ w

theorem Up.refl (a : Option Int) : Up a a := fun v h => ⟨v, h, Int.le_refl _⟩

theorem Up.trans {a b c : Option Int} (h : Up a b) (h' : Up b c) : Up a c := by
  intro v hv
  obtain ⟨w, hw, hvw⟩ := h v hv
  obtain ⟨x, hx, hwx⟩ := h' w hw
  exact ⟨x, hx, Int.le_trans hvw hwx⟩

theorem creates_keep {m0 m m' : Map} {t : Int} {ts : List (Int × Int)} {ops : List Op} {r : Option Resp}
    (hp : proposeCreate m0 ts = some ops) (ha : applyOps m ops = some (m', r))
    (ht : t ∉ ts.map (·.1) ∨ ∃ v, m0 t = some v) : m' t = m t := by
  induction ts generalizing ops m r with
  | nil => cases hp; simp only [applyOps, Option.some.injEq, Prod.mk.injEq] at ha; rw [ha.1]
  | cons x xs ih =>
    obtain ⟨t', start⟩ := x
    have ht' : t ∉ xs.map (·.1) ∨ ∃ v, m0 t = some v := by
      rcases ht with h | h
      · exact Or.inl fun hm => h (by rw [List.map_cons]; exact List.mem_cons_of_mem _ hm)
      · exact Or.inr h
    simp only [proposeCreate] at hp
    cases hm : m0 t' with
    | some v =>
      rw [hm] at hp
      simp only at hp
      split at hp
      · exact ih hp ha ht'
      · cases hp
    | none =>
      rw [hm] at hp
      simp only [Option.map_eq_some_iff] at hp
      obtain ⟨ops', hp', rfl⟩ := hp
      simp only [applyOps, applyOp] at ha
      split at ha
      · cases ha
      · rename_i m2 r2 ha2
        cases ha
        rw [ih hp' ha2 ht']
        refine Map.set_ne _ _ ?_
        rintro rfl
        rcases ht with h | ⟨v, hv⟩
        · exact h (by simp)
        · rw [hm] at hv; cases hv

/-- An entry whose request does not set or reset the counter, or was checked on the
current map, does not lower it. -/
theorem ops_up {m0 m m' : Map} {t : Int} {req : Request} {ops : List Op} {r : Option Resp}
    (hp : propose m0 req = some ops) (ha : applyOps m ops = some (m', r)) (hr : ¬ req.resets t) (hs : req.sets t → m0 = m) :
    Up (m t) (m' t) := by
  cases req with
  | create ts =>
    by_cases hx : t ∈ ts.map (·.1)
    · have := hs hx
      subst this
      intro v hv
      rw [creates_keep hp ha (Or.inr ⟨v, hv⟩)]
      exact ⟨v, hv, Int.le_refl _⟩
    · rw [creates_keep hp ha (Or.inl hx)]; exact Up.refl _
  | update t' start force =>
    simp only [propose] at hp
    split at hp
    · cases hp
    · rename_i v hv
      split at hp
      · cases hp
      · rename_i hc
        cases hp
        simp only [applyOps, applyOp] at ha
        by_cases htt : t' = t
        · subst htt
          have := hs rfl
          subst this
          rw [hv] at ha
          simp only [Option.some.injEq, Prod.mk.injEq] at ha
          rw [← ha.1, Map.set_self, hv]
          intro w hw
          cases hw
          refine ⟨start, rfl, ?_⟩
          simp only [Request.resets, true_and] at hr
          have : ¬ start ≤ v := fun h => hc ⟨h, hr⟩
          omega
        · cases hm : m t' with
          | none =>
            rw [hm] at ha
            simp only [Option.some.injEq, Prod.mk.injEq] at ha
            rw [ha.1]; exact Up.refl _
          | some w =>
            rw [hm] at ha
            simp only [Option.some.injEq, Prod.mk.injEq] at ha
            rw [← ha.1, Map.set_ne _ _ (Ne.symm htt)]; exact Up.refl _
  | createOrUpdate t' start =>
    simp only [propose] at hp
    split at hp
    · rename_i hv
      cases hp
      simp only [applyOps, applyOp, Option.some.injEq, Prod.mk.injEq] at ha
      by_cases htt : t' = t
      · subst htt
        have := hs rfl
        subst this
        rw [hv]
        intro w hw; cases hw
      · rw [← ha.1, Map.set_ne _ _ (Ne.symm htt)]; exact Up.refl _
    · rename_i v hv
      split at hp
      · cases hp
      · split at hp
        · cases hp
          simp only [applyOps, Option.some.injEq, Prod.mk.injEq] at ha
          rw [ha.1]; exact Up.refl _
        · cases hp
          simp only [applyOps, applyOp] at ha
          by_cases htt : t' = t
          · subst htt
            have := hs rfl
            subst this
            rw [hv] at ha
            simp only [Option.some.injEq, Prod.mk.injEq] at ha
            rw [← ha.1, Map.set_self, hv]
            intro w hw
            cases hw
            exact ⟨start, rfl, by omega⟩
          · cases hm : m t' with
            | none =>
              rw [hm] at ha
              simp only [Option.some.injEq, Prod.mk.injEq] at ha
              rw [ha.1]; exact Up.refl _
            | some w =>
              rw [hm] at ha
              simp only [Option.some.injEq, Prod.mk.injEq] at ha
              rw [← ha.1, Map.set_ne _ _ (Ne.symm htt)]; exact Up.refl _
  | generate t' count inc off =>
    simp only [propose] at hp
    split at hp
    · cases hp
    · split at hp
      · cases hp
      · cases hp
        simp only [applyOps, applyOp] at ha
        cases hm : m t' with
        | none =>
          rw [hm] at ha
          simp only [Option.some.injEq, Prod.mk.injEq] at ha
          rw [ha.1]; exact Up.refl _
        | some v =>
          rw [hm] at ha
          simp only at ha
          split at ha
          · cases ha
          · rename_i m2 r2 ha2
            split at ha2
            · cases ha2
              simp only [Option.some.injEq, Prod.mk.injEq] at ha
              rw [← ha.1]
              by_cases htt : t' = t
              · subst htt
                rw [Map.set_self, hm]
                intro w hw
                cases hw
                exact ⟨_, rfl, endId_ge _ _ _ _⟩
              · rw [Map.set_ne _ _ (Ne.symm htt)]; exact Up.refl _
            · cases ha2
  | delete t' =>
    simp only [propose] at hp
    split at hp
    · cases hp
      simp only [applyOps, Option.some.injEq, Prod.mk.injEq] at ha
      rw [ha.1]; exact Up.refl _
    · cases hp
      simp only [applyOps, applyOp, Option.some.injEq, Prod.mk.injEq] at ha
      rw [← ha.1, Map.set_ne _ _ (fun h => hr h.symm)]; exact Up.refl _

theorem creates_noresp {m0 m m' : Map} {ts : List (Int × Int)} {ops : List Op} {r : Option Resp}
    (hp : proposeCreate m0 ts = some ops) (ha : applyOps m ops = some (m', r)) : r = none := by
  induction ts generalizing ops m r with
  | nil => cases hp; cases ha; rfl
  | cons x xs ih =>
    obtain ⟨t', start⟩ := x
    simp only [proposeCreate] at hp
    cases hm : m0 t' with
    | some v =>
      rw [hm] at hp
      simp only at hp
      split at hp
      · exact ih hp ha
      · cases hp
    | none =>
      rw [hm] at hp
      simp only [Option.map_eq_some_iff] at hp
      obtain ⟨ops', hp', rfl⟩ := hp
      simp only [applyOps, applyOp] at ha
      split at ha
      · cases ha
      · rename_i m2 r2 ha2
        cases ha
        rw [ih hp' ha2]; rfl

/-- An entry that answers is a valid generate request. -/
theorem ops_resp {m0 m m' : Map} {req : Request} {ops : List Op} {g : Resp}
    (hp : propose m0 req = some ops) (ha : applyOps m ops = some (m', some g)) :
    req = .generate g.table g.count g.inc g.off ∧ 0 < g.count ∧ g.count ≤ 100000 ∧ 0 < g.inc ∧ g.inc ≤ 65535 ∧ 0 < g.off ∧ g.off ≤ 65535 ∧
      m g.table = some g.start ∧ m' g.table = some g.stop ∧ g.stop = endId g.start g.count g.inc g.off := by
  cases req with
  | create ts => cases creates_noresp hp ha
  | update t' start force =>
    simp only [propose] at hp
    split at hp
    · cases hp
    · split at hp
      · cases hp
      · cases hp
        simp only [applyOps, applyOp] at ha
        cases hm : m t' <;> rw [hm] at ha <;> cases ha
  | createOrUpdate t' start =>
    simp only [propose] at hp
    split at hp
    · cases hp; cases ha
    · split at hp
      · cases hp
      · split at hp
        · cases hp; cases ha
        · cases hp
          simp only [applyOps, applyOp] at ha
          cases hm : m t' <;> rw [hm] at ha <;> cases ha
  | generate t' count inc off =>
    simp only [propose] at hp
    split at hp
    · cases hp
    · split at hp
      · cases hp
      · rename_i hc
        cases hp
        simp only [applyOps, applyOp] at ha
        cases hm : m t' with
        | none => rw [hm] at ha; cases ha
        | some v =>
          rw [hm] at ha
          simp only at ha
          split at ha
          · cases ha
          · rename_i m2 r2 ha2
            split at ha2
            · cases ha2
              simp only [Option.or, Option.some.injEq, Prod.mk.injEq] at ha
              obtain ⟨h1, h2⟩ := ha
              subst h2
              have c1 : countMax = 100000 := rfl
              have c2 : offsetMax = 65535 := rfl
              refine ⟨rfl, by simp only; omega, by simp only; omega, by simp only; omega, by simp only; omega, by simp only; omega,
                by simp only; omega, hm, ?_, rfl⟩
              rw [← h1]
              exact Map.set_self _ _ _
            · cases ha2
  | delete t' =>
    simp only [propose] at hp
    split at hp <;> cases hp <;> cases ha

end Verif.AutoInc
