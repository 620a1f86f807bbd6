/-
The invariant of orderly runs.
-/
import Verif.Meta.Cond

namespace Verif.Meta

/-- A write that neither makes nor drops a schema. -/
def Write.plain : Write → Bool
  | .schemaPut _ _ => false
  | .schemaErase _ => false
  | _ => true

theorem isTidx_plain {w : Write} (h : w.isTidx) : w.plain = true := by
  cases w <;> first | rfl | exact (show False from h).elim

/-- Other requests neither make nor drop schemas. -/
theorem prepare_plain {d : Data} {t t' : Temp} {r : Req} {p : Plan} (h : prepare d t r = (t', .ok p))
    (h1 : ∀ tn n j, r ≠ .createSchema tn n j) (h2 : ∀ tn s, r ≠ .dropSchema tn s) :
    ∀ w ∈ p.incr.heads, w.plain = true := by
  cases r <;> dsimp only [prepare] at h
  case createTenant => unfold createTenant at h; (repeat' split at h) <;> cases h <;> simp [Write.plain]
  case dropTenant => unfold dropTenant at h; (repeat' split at h) <;> cases h <;> simp [Write.plain]
  case createSchema => exact absurd rfl (h1 _ _ _)
  case dropSchema => exact absurd rfl (h2 _ _)
  case createTable => unfold createTable at h; (repeat' split at h) <;> cases h <;> simp [Write.plain]
  case createTables =>
    unfold createTables at h
    split at h
    · cases h
    split at h
    · cases h
    split at h
    · cases h
    split at h
    · cases h
    · rename_i a _
      cases a
      all_goals
        dsimp only at h
        generalize createTheIndexes d _ _ _ _ _ _ = q at h
        obtain ⟨t2, res⟩ := q
        cases res <;> cases h
        simp [Write.plain]
  case dropTable => unfold dropTable at h; (repeat' split at h) <;> cases h <;> simp [Write.plain]
  case dropTables l =>
    unfold dropTables at h
    split at h
    · cases h
    · rename_i t1 i hm
      cases h
      have := dropLoop_ok (t0 := t) ⟨⟨[], .nil _, .refl _⟩, (by intro w hw; cases hw), rfl, .refl _⟩ hm
      intro w hw
      exact isTidx_plain (this.heads w hw)
  case updateTable k _ _ _ _ => unfold updateTable at h; (repeat' split at h) <;> cases h <;> rename_i k _ _ _ _ <;> cases k <;> simp [Write.plain]
  case addIndex => unfold addIndex at h; (repeat' split at h) <;> cases h <;> simp [Write.plain]
  case dropIndexOn => unfold dropIndexOn at h; (repeat' split at h) <;> cases h <;> simp [Write.plain]
  case createIndex => unfold createIndex at h; (repeat' split at h) <;> cases h <;> simp [Write.plain]
  case dropIndex => unfold dropIndex at h; (repeat' split at h) <;> cases h <;> simp [Write.plain]
  case createId => unfold createId at h; (repeat' split at h) <;> cases h <;> simp [Write.plain]
  case createIds => unfold createIds at h; (repeat' split at h) <;> cases h <;> simp [Write.plain]
  case generateIds => unfold generateIds at h; (repeat' split at h) <;> cases h <;> simp [Write.plain]

/-- What an orderly request does to schemas. -/
theorem prepare_req {d : Data} {t t' : Temp} {r : Req} {p : Plan} (h : prepare d t r = (t', .ok p))
    (hr : okReq d r = true) : OwnId p.incr ∧
      (∀ id s, .schemaPut id s ∈ p.incr.heads → id = last t.nextSchema + 1 ∧ ∀ k, s.ids k = []) ∧
      (∀ id s, .schemaErase id ∈ p.incr.heads → get d.schemas id = some s →
        ∀ k, k ≠ (s.tenant, s.name) → get t'.schemaNames k = get t.schemaNames k) := by
  by_cases c1 : ∃ tn n j, r = .createSchema tn n j
  · obtain ⟨tn, n, j, rfl⟩ := c1
    have hj : j ≤ 0 := by simpa [okReq] using hr
    dsimp only [prepare] at h
    unfold createSchema at h
    split at h
    · cases h
    split at h
    · cases h
    split at h
    · cases h
    split at h
    · cases h
    dsimp only at h
    simp only [if_neg (show ¬ j > 0 by omega)] at h
    split at h
    · cases h
    · cases h
      refine ⟨?_, ?_, ?_⟩
      · intro id s hm; cases List.mem_singleton.1 hm; exact List.mem_singleton.2 rfl
      · intro id s hm; cases List.mem_singleton.1 hm; exact ⟨rfl, fun _ => rfl⟩
      · intro id s hm; cases List.mem_singleton.1 hm
  by_cases c2 : ∃ tn sid, r = .dropSchema tn sid
  · obtain ⟨tn, sid, rfl⟩ := c2
    have hs := prepare_shape h
    dsimp only [prepare] at h
    unfold dropSchema at h
    split at h
    · cases h
    split at h
    · cases h
    split at h
    · cases h
    split at h
    · cases h
    rename_i s hg
    split at h
    · cases h
    · cases h
      have ht : s.tenant = tn := by
        dsimp only [okReq] at hr
        rw [hg] at hr
        simpa using hr
      refine ⟨?_, ?_, ?_⟩
      · intro id s hm; cases List.mem_singleton.1 hm
      · intro id s hm; cases List.mem_singleton.1 hm
      · intro id x hm hx
        cases List.mem_singleton.1 hm
        rw [hg] at hx
        cases hx
        intro k hk
        dsimp only
        rw [get_erase, if_neg (by rw [← ht]; exact hk)]
  · have := prepare_plain h (fun tn n j e => c1 ⟨tn, n, j, e⟩) (fun tn s e => c2 ⟨tn, s, e⟩)
    refine ⟨?_, ?_, ?_⟩
    · intro id s hm; have := this _ hm; cases this
    · intro id s hm; have := this _ hm; cases this
    · intro id s hm; have := this _ hm; cases this

/-! ## The invariant -/

/-- The changes of schemas on their way. -/
def pHeads (s : State) : List Write := (pending s).flatMap Incr.heads
/-- The changes of tables and indexes on their way. -/
def pOps (s : State) : List (Kind × ObjOp) := (pending s).flatMap Incr.all

/-- Everything that has a claim on a name is found under it. -/
def NamedAll (d : Data) (hs : List Write) (ops : List (Kind × ObjOp)) (t : Temp) : Prop :=
  Named (live d .schema) (hs.filterMap (Write.move .schema)) (nameOf t .schema) ∧
  ∀ k, Named (live d (.obj k)) (kMoves k ops) (nameOf t (.obj k))

structure Inv (s : State) : Prop extends Base s where
  cond : Cond s.data (pHeads s) (pOps s)
  own : ∀ inc ∈ pending s, OwnId inc
  named : ∀ n, s.leader = some n → s.fresh = false → NamedAll s.data (pHeads s) (pOps s) (s.temps n)
  pos : 0 ≤ s.data.nextSchema
  alive : s.dead = false

variable {d d' : Data} {hs hs' : List Write} {ops ops' : List (Kind × ObjOp)} {t t' : Temp}

theorem NamedAll.perm (h : NamedAll d hs ops t) (p : hs.Perm hs') (q : ops.Perm ops') : NamedAll d hs' ops' t :=
  ⟨h.1.perm (p.filterMap _), fun k => (h.2 k).perm (kMoves_perm q k)⟩

theorem NamedAll.names (h : NamedAll d hs ops t) (h1 : ∀ k, get t'.schemaNames k = get t.schemaNames k)
    (h2 : SameNames t.names t'.names) : NamedAll d hs ops t' := by
  refine ⟨?_, fun k => ?_⟩
  · intro i key hh; rw [show nameOf t' .schema key = get t'.schemaNames key from rfl, h1]; exact h.1 i key hh
  · intro i key hh; rw [show nameOf t' (.obj k) key = get (t'.names k) key from rfl, h2]; exact h.2 k i key hh

/-! ### Guards -/

theorem nodupB_iff {l : List Int} : nodupB l = true ↔ l.Nodup := by
  induction l with
  | nil => simp [nodupB]
  | cons a l ih => simp [nodupB, ih]

theorem move_target (op : ObjOp) : (op.move.target).toList = op.touched := by cases op <;> rfl

theorem targets_map (l : List ObjOp) : (l.map ObjOp.move).filterMap Move.target = l.flatMap ObjOp.touched := by
  induction l with
  | nil => rfl
  | cons a l ih =>
    rw [List.map_cons, List.filterMap_cons, List.flatMap_cons, ih]
    cases a <;> rfl

theorem kMoves_flat (k : Kind) (ps : List Incr) :
    kMoves k (ps.flatMap Incr.all) = ps.flatMap (fun p => (p.ops k).map ObjOp.move) := by
  induction ps with
  | nil => rfl
  | cons p ps ih => rw [List.flatMap_cons, kMoves_append, ih, kMoves_all, List.flatMap_cons]

theorem targets_flat (k : Kind) (ps : List Incr) :
    (kMoves k (ps.flatMap Incr.all)).filterMap Move.target = ps.flatMap (fun p => (p.ops k).flatMap ObjOp.touched) := by
  induction ps with
  | nil => rfl
  | cons p ps ih =>
    rw [List.flatMap_cons, kMoves_append, List.filterMap_append, ih, kMoves_all, targets_map, List.flatMap_cons]

theorem mem_created {l : List ObjOp} {id : Int} {key : Key} (h : Move.create id key ∈ l.map ObjOp.move) :
    id ∈ l.flatMap ObjOp.created := by
  obtain ⟨op, hop, e⟩ := List.mem_map.1 h
  cases op <;> simp [ObjOp.move] at e
  exact List.mem_flatMap.2 ⟨_, hop, by rw [← e.1]; exact List.mem_cons_self⟩

theorem mem_updated {l : List ObjOp} {id : Int} {n : Name} (h : Move.rename id n ∈ l.map ObjOp.move) :
    id ∈ l.flatMap ObjOp.updated := by
  obtain ⟨op, hop, e⟩ := List.mem_map.1 h
  cases op <;> simp [ObjOp.move] at e
  exact List.mem_flatMap.2 ⟨_, hop, by rw [← e.1]; exact List.mem_cons_self⟩

theorem okIds_free {k : Kind} {i : Incr} {ps : List Incr} (h : okIds k i ps = true) :
    Free ((i.ops k).map ObjOp.move) (kMoves k (ps.flatMap Incr.all)) := by
  unfold okIds at h
  rw [Bool.and_eq_true] at h
  obtain ⟨h1, h2⟩ := h
  refine ⟨?_, ?_⟩
  · rw [List.filterMap_append, targets_map, targets_flat]
    exact nodupB_iff.1 h1
  · intro id key n hc hm
    have h3 := List.all_eq_true.1 h2 id (mem_created hc)
    simp only [decide_eq_true_eq] at h3
    rcases List.mem_append.1 hm with hm | hm
    · exact h3.1 (mem_updated hm)
    · rw [kMoves_flat] at hm
      obtain ⟨p, hp, hm⟩ := List.mem_flatMap.1 hm
      exact h3.2 (List.mem_flatMap.2 ⟨p, hp, mem_updated hm⟩)

theorem mem_drops {ps : List Incr} {id : Int} :
    .schemaErase id ∈ ps.flatMap Incr.heads ↔ id ∈ ps.flatMap Incr.dropsSchemas := by
  constructor
  · intro h
    obtain ⟨p, hp, h⟩ := List.mem_flatMap.1 h
    exact List.mem_flatMap.2 ⟨p, hp, List.mem_flatMap.2 ⟨_, h, List.mem_cons_self⟩⟩
  · intro h
    obtain ⟨p, hp, h⟩ := List.mem_flatMap.1 h
    obtain ⟨w, hw, h⟩ := List.mem_flatMap.1 h
    refine List.mem_flatMap.2 ⟨p, hp, ?_⟩
    cases w <;> simp [Write.dropsSchema] at h
    rw [h]; exact hw

theorem mem_uses {i : Incr} {x : Kind × ObjOp} {sid : Int} (h : x ∈ i.all) (hs : sid ∈ x.2.schemas) :
    sid ∈ i.usesSchemas := by
  unfold Incr.usesSchemas
  rcases List.mem_append.1 h with h | h
  · obtain ⟨op, hop, e⟩ := List.mem_map.1 h
    subst e
    exact List.mem_append_left _ (List.mem_flatMap.2 ⟨op, hop, hs⟩)
  · obtain ⟨op, hop, e⟩ := List.mem_map.1 h
    subst e
    exact List.mem_append_right _ (List.mem_flatMap.2 ⟨op, hop, hs⟩)

theorem mem_all {i : Incr} {k : Kind} {op : ObjOp} : (k, op) ∈ i.all ↔ op ∈ i.ops k := by
  unfold Incr.all
  cases k <;> simp [Incr.ops]

theorem OpSteps.step_of {t1 t2 : Names} {l : List (Kind × ObjOp)} (h : OpSteps d t1 l t2) :
    ∀ x ∈ l, ∃ a b, OpStep d x.1 a x.2 b := by
  induction h with
  | nil => intro x hx; cases hx
  | cons h _ ih =>
    intro x hx
    rcases List.mem_cons.1 hx with e | hx
    · subst e; exact ⟨_, _, h⟩
    · exact ih x hx

/-- Each change of tables and indexes of a request that passed its checks passed a check. -/
theorem Shape.step_of {p : Plan} (h : Shape d t t' p) : ∀ x ∈ p.incr.all, ∃ a b, OpStep d x.1 a x.2 b := by
  intro x hx
  cases h with
  | objs h =>
    obtain ⟨l, h1, h2⟩ := h.steps
    exact h1.step_of x (h2.mem_iff.2 hx)
  | tenant ws hi => rw [hi] at hx; cases hx
  | newSchema id s ids hi => rw [hi] at hx; cases hx
  | noSchema id tn s hi => rw [hi] at hx; cases hx
  | ids l ws hi => rw [hi] at hx; cases hx

theorem Shape.puts {p : Plan} (h : Shape d t t' p) (ho : ∀ id s, .schemaPut id s ∈ p.incr.heads → id = last t.nextSchema + 1 ∧ ∀ k, s.ids k = []) :
    (p.incr.heads.filterMap (Write.move .schema) = []) ∨
    (∃ s, p.incr.heads = [.schemaPut (last t.nextSchema + 1) s] ∧ p.incr.all = []) ∨
    (∃ id s, p.incr.heads = [.schemaErase id] ∧ p.incr.all = [] ∧ get d.schemas id = some s ∧ s.ids .table = []) := by
  cases h with
  | objs h => exact Or.inl (List.filterMap_eq_nil_iff.2 (fun w hw => isTidx_move (h.heads w hw) _))
  | tenant ws hi _ _ _ hw =>
    refine Or.inl (List.filterMap_eq_nil_iff.2 ?_)
    intro w h
    rw [hi] at h
    obtain ⟨id, ⟨e, _⟩ | e⟩ := hw w h <;> rw [e] <;> rfl
  | newSchema id s ids hi =>
    have := ho id s (by rw [hi]; exact List.mem_singleton.2 rfl)
    refine Or.inr (Or.inl ⟨s, ?_, ?_⟩)
    · rw [hi, this.1]
    · rw [hi]; rfl
  | noSchema id tn s hi _ _ _ hg he =>
    exact Or.inr (Or.inr ⟨id, s, by rw [hi], by rw [hi]; rfl, hg, he⟩)
  | ids l ws hi => exact Or.inl (by rw [hi]; rfl)

theorem schemaMoves_target {hs : List Write} {i : Int} (h : i ∈ (hs.filterMap (Write.move .schema)).filterMap Move.target) :
    (∃ s, .schemaPut i s ∈ hs) ∨ .schemaErase i ∈ hs := by
  obtain ⟨m, hm, e⟩ := List.mem_filterMap.1 h
  obtain ⟨w, hw, e2⟩ := List.mem_filterMap.1 hm
  cases w <;> simp [Write.move] at e2
  · subst e2
    cases e
    exact Or.inl ⟨_, hw⟩
  · subst e2
    cases e
    exact Or.inr hw

theorem schemaMoves_rename {hs : List Write} {i : Int} {n : Name} : Move.rename i n ∉ hs.filterMap (Write.move .schema) := by
  intro hm
  obtain ⟨w, hw, e2⟩ := List.mem_filterMap.1 hm
  cases w <;> simp [Write.move] at e2

/-- A request passes its checks. -/
theorem Cond.taken {r : Req} {p : Plan} {ps : List Incr}
    (hc : Cond d (ps.flatMap Incr.heads) (ps.flatMap Incr.all))
    (hn : NamedAll d (ps.flatMap Incr.heads) (ps.flatMap Incr.all) t) (hown : ∀ inc ∈ ps, OwnId inc)
    (hp : prepare d t r = (t', .ok p)) (hr : okReq d r = true)
    (g1 : okIds .table p.incr ps = true) (g2 : okIds .index p.incr ps = true) (g3 : okSchemas p.incr ps = true)
    (n1 : d.nextSchema ≤ last t.nextSchema) (n2 : ∀ inc ∈ ps, ∀ v, .nextSchema v ∈ inc.ids → v ≤ last t.nextSchema)
    (pos : 0 ≤ d.nextSchema) :
    Cond d (p.incr.heads ++ ps.flatMap Incr.heads) (p.incr.all ++ ps.flatMap Incr.all) ∧
    NamedAll d (p.incr.heads ++ ps.flatMap Incr.heads) (p.incr.all ++ ps.flatMap Incr.all) t' ∧ OwnId p.incr := by
  have hs := prepare_shape hp
  obtain ⟨q1, q2, q3⟩ := prepare_req hp hr
  have hsteps := hs.step_of
  have hputs := hs.puts q2
  unfold okSchemas at g3
  rw [Bool.and_eq_true] at g3
  obtain ⟨g3, g4⟩ := g3
  -- ids of new schemas
  have hput : ∀ id s, .schemaPut id s ∈ ps.flatMap Incr.heads → id ≤ last t.nextSchema := by
    intro id s hm
    obtain ⟨inc, hi, hm⟩ := List.mem_flatMap.1 hm
    exact n2 inc hi id (hown inc hi id s hm)
  have hera : ∀ id, .schemaErase id ∈ ps.flatMap Incr.heads → id ≤ d.nextSchema := by
    intro id hm
    have := hc.fitsS.there id (List.mem_filterMap.2 ⟨_, hm, rfl⟩)
    dsimp only [live] at this
    rw [Option.isSome_map] at this
    exact hc.ids id this
  have hnew : ∀ id s, .schemaPut id s ∈ p.incr.heads → get d.schemas id = none := by
    intro id s hm
    have := (q2 id s hm).1
    cases hg : get d.schemas id with
    | none => rfl
    | some x =>
      have := hc.ids id (by rw [hg]; rfl)
      omega
  have hdrop : ∀ id, .schemaErase id ∈ p.incr.heads → .schemaErase id ∉ ps.flatMap Incr.heads ∧
      id ∉ ps.flatMap Incr.usesSchemas := by
    intro id hm
    have := List.all_eq_true.1 g3 id (List.mem_flatMap.2 ⟨_, hm, List.mem_cons_self⟩)
    simp only [decide_eq_true_eq] at this
    exact ⟨fun h => this.1 (mem_drops.1 h), this.2⟩
  have hfree : Free (p.incr.heads.filterMap (Write.move .schema)) ((ps.flatMap Incr.heads).filterMap (Write.move .schema)) := by
    rcases hputs with e | ⟨s, e, _⟩ | ⟨id, s, e, _, hg, _⟩
    · rw [e]
      exact ⟨hc.fitsS.once, by intro id key n hm; cases hm⟩
    · rw [e]
      refine ⟨List.nodup_cons.2 ⟨?_, hc.fitsS.once⟩, ?_⟩
      · intro hm
        rcases schemaMoves_target hm with ⟨x, hx⟩ | hx
        · have := hput _ _ hx; omega
        · have := hera _ hx; omega
      · intro id key n _ hm
        rcases List.mem_append.1 hm with hm | hm
        · exact schemaMoves_rename hm
        · exact schemaMoves_rename hm
    · rw [e]
      refine ⟨List.nodup_cons.2 ⟨?_, hc.fitsS.once⟩, ?_⟩
      · intro hm
        rcases schemaMoves_target hm with ⟨x, hx⟩ | hx
        · have := hc.fitsS.fresh id (x.tenant, x.name) (List.mem_filterMap.2 ⟨_, hx, rfl⟩)
          dsimp only [live] at this
          rw [hg] at this
          cases this
        · exact (hdrop id (by rw [e]; exact List.mem_singleton.2 rfl)).1 hx
      · intro id key n _ hm
        rcases List.mem_append.1 hm with hm | hm
        · exact schemaMoves_rename hm
        · exact schemaMoves_rename hm
  have fs := hs.fits_schema hc.fitsS hn.1 (by rw [hs.moves_schema]; exact hfree) hnew q3
  rw [hs.moves_schema] at fs
  have fo : ∀ k, Fits (live d (.obj k)) (kMoves k (p.incr.all ++ ps.flatMap Incr.all)) ∧
      Named (live d (.obj k)) (kMoves k (p.incr.all ++ ps.flatMap Incr.all)) (nameOf t' (.obj k)) := by
    intro k
    have h1 : Free ((p.incr.ops k).map ObjOp.move) (kMoves k (ps.flatMap Incr.all)) := by
      cases k
      · exact okIds_free g1
      · exact okIds_free g2
    have := hs.fits_obj k (hc.fitsO k) (hn.2 k) (by rw [hs.moves_obj]; exact h1)
    rw [hs.moves_obj] at this
    rw [kMoves_append, kMoves_all]
    exact this
  refine ⟨?_, ⟨?_, fun k => (fo k).2⟩, q1⟩
  · refine { ok := hc.ok, fitsS := ?_, fitsO := fun k => (fo k).1, ready := ?_, safe := ?_, ids := hc.ids, objs := hc.objs,
             puts := ?_, erases := ?_, home := hc.home, lists := hc.lists }
    · rw [List.filterMap_append]; exact fs.1
    · intro x hx
      rcases List.mem_append.1 hx with hx | hx
      · obtain ⟨a, b, st⟩ := hsteps x hx
        obtain ⟨k, op⟩ := x
        dsimp only at st
        cases st with
        | create id r h1 h2 h3 h4 h5 => exact ⟨h2, h5, h4⟩
        | delete id sid r h1 h2 h4 =>
          refine ⟨?_, h4, r, h1, h2⟩
          rw [← h2]; exact (hc.objs k id r h1).1
        | update => trivial
      · exact hc.ready x hx
    · intro x hx sid hsid hm
      rcases List.mem_append.1 hx with hx | hx
      · rcases List.mem_append.1 hm with hm | hm
        · rcases hputs with e | ⟨s, _, e⟩ | ⟨id, s, _, e, _⟩
          · have : Move.delete sid ∈ p.incr.heads.filterMap (Write.move .schema) := List.mem_filterMap.2 ⟨_, hm, rfl⟩
            rw [e] at this; cases this
          · rw [e] at hx; cases hx
          · rw [e] at hx; cases hx
        · have := List.all_eq_true.1 g4 sid (mem_uses hx hsid)
          simp only [decide_eq_true_eq] at this
          exact this (mem_drops.1 hm)
      · rcases List.mem_append.1 hm with hm | hm
        · obtain ⟨inc, hi, hx⟩ := List.mem_flatMap.1 hx
          exact (hdrop sid hm).2 (List.mem_flatMap.2 ⟨inc, hi, mem_uses hx hsid⟩)
        · exact hc.safe x hx sid hsid hm
    · intro id s hm
      rcases List.mem_append.1 hm with hm | hm
      · obtain ⟨e1, e2⟩ := q2 id s hm
        refine ⟨by omega, e2, ?_⟩
        intro k i r hr
        have := (hc.objs k i r hr).2
        omega
      · exact hc.puts id s hm
    · intro id hm i r hr e
      rcases List.mem_append.1 hm with hm | hm
      · rcases hputs with e' | ⟨s, e', _⟩ | ⟨id', s, e', _, hg, hl⟩
        · have : Move.delete id ∈ p.incr.heads.filterMap (Write.move .schema) := List.mem_filterMap.2 ⟨_, hm, rfl⟩
          rw [e'] at this; cases this
        · rw [e'] at hm; cases List.mem_singleton.1 hm
        · rw [e'] at hm
          cases List.mem_singleton.1 hm
          have := ((hc.lists .table id s hg).2 i).2 ⟨r, hr, e⟩
          rw [hl] at this; cases this
      · exact hc.erases id hm i r hr e
  · rw [List.filterMap_append]; exact fs.2

end Verif.Meta
