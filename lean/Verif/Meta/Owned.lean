/-
Tables and their indexes: the invariant.
-/
import Verif.Meta.Pend
import Verif.Meta.PropsDrop

namespace Verif.Meta

/-! ## Specification -/

/-- The table whose list of indexes a write changes. -/
def Write.listed : Write → List Int
  | .tidxAddDel t _ _ => [t]
  | _ => []

/-- The table whose list of indexes a write drops. -/
def Write.unlisted : Write → List Int
  | .tidxErase t => [t]
  | _ => []

/-- A table is not dropped while an index is added to it or dropped from it. -/
def okLists (i : Incr) (ps : List Incr) : Bool :=
  (i.heads.flatMap Write.unlisted).all (fun x => decide (x ∉ ps.flatMap (fun p => p.heads.flatMap Write.listed))) &&
  (i.heads.flatMap Write.listed).all (fun x => decide (x ∉ ps.flatMap (fun p => p.heads.flatMap Write.unlisted)))

/-- The indexes that `DropTables` names one by one are not those of tables. -/
def okMembers (d : Data) : Req → Bool
  | .dropTables l => l.all (fun e =>
      match e with
      | (some .index, _, id) =>
        match get (d.objs .index) id with
        | some r => decide (r.owner ≤ 0)
        | none => true
      | _ => true)
  | _ => true

/-- The condition under which tables and indexes fit together: indexes of tables are dropped with `DropIndexOnTable`
or with their table, and a table is not dropped while its indexes change. -/
def okIndexes (s : State) : Ev → Bool
  | .begin q =>
    match s.leader with
    | none => true
    | some n =>
      match prepare s.data (s.temps n) q with
      | (_, .error _) => true
      | (_, .ok p) => okMembers s.data q && okLists p.incr (pending s)
  | _ => true

/-! ## Objects after an entry -/

/-- Owner and schema. -/
def Obj.core (r : Obj) : Int × Int := (r.owner, r.schema)

theorem replay_off {i : Int} {ops : List ObjOp} : ∀ {cur : Option Obj}, i ∉ ops.flatMap ObjOp.touched →
    (replay i cur ops).map Obj.core = cur.map Obj.core := by
  induction ops with
  | nil => intro cur _; rfl
  | cons op ops ih =>
    intro cur h
    rw [List.flatMap_cons, List.mem_append, not_or] at h
    cases op with
    | create id r =>
      have : id ≠ i := fun e => h.1 (by rw [e]; exact List.mem_singleton.2 rfl)
      rw [replay, if_neg this]; exact ih h.2
    | delete id r =>
      have : id ≠ i := fun e => h.1 (by rw [e]; exact List.mem_singleton.2 rfl)
      rw [replay, if_neg this]; exact ih h.2
    | update id n df =>
      rw [replay, ih h.2]
      split
      · cases cur <;> rfl
      · rfl

theorem replay_on {i : Int} {ops : List ObjOp} (hn : (ops.flatMap ObjOp.touched).Nodup) : ∀ {cur : Option Obj},
    (∀ r, .create i r ∈ ops → (replay i cur ops).map Obj.core = some r.core) ∧
    (∀ s, .delete i s ∈ ops → replay i cur ops = none) := by
  induction ops with
  | nil => intro cur; exact ⟨fun _ h => (by cases h), fun _ h => (by cases h)⟩
  | cons op ops ih =>
    intro cur
    rw [List.flatMap_cons, List.nodup_append] at hn
    obtain ⟨_, h2, h3⟩ := hn
    have ih := @ih h2
    constructor
    · intro r hm
      rcases List.mem_cons.1 hm with e | hm'
      · subst e
        rw [replay, if_pos rfl, replay_off]
        · rfl
        · intro hi; exact h3 i (List.mem_singleton.2 rfl) i hi rfl
      · cases op <;> exact ih.1 r hm'
    · intro s hm
      rcases List.mem_cons.1 hm with e | hm'
      · subst e
        rw [replay, if_pos rfl]
        have := replay_off (i := i) (ops := ops) (cur := none) (fun hi => h3 i (List.mem_singleton.2 rfl) i hi rfl)
        cases hr : replay i none ops with
        | none => rfl
        | some r => rw [hr] at this; cases this
      · cases op <;> exact ih.2 s hm'

theorem mem_touched {i : Int} {ops : List ObjOp} : i ∈ ops.flatMap ObjOp.touched ↔
    (∃ r, .create i r ∈ ops) ∨ ∃ s, .delete i s ∈ ops := by
  constructor
  · intro h
    obtain ⟨op, hm, h⟩ := List.mem_flatMap.1 h
    cases op with
    | create id r => rw [List.mem_singleton.1 h]; exact Or.inl ⟨r, hm⟩
    | delete id s => rw [List.mem_singleton.1 h]; exact Or.inr ⟨s, hm⟩
    | update => cases h
  · rintro (⟨r, h⟩ | ⟨s, h⟩)
    · exact List.mem_flatMap.2 ⟨_, h, List.mem_singleton.2 rfl⟩
    · exact List.mem_flatMap.2 ⟨_, h, List.mem_singleton.2 rfl⟩

/-! ## Lists of indexes after an entry -/

/-- How an entry changes lists of indexes. -/
def ListShape (hs : List Write) : Prop :=
  (∀ w ∈ hs, ¬ w.onTidx) ∨ (∃ t l, hs = [.tidxPut t l]) ∨ (∃ t a b, hs = [.tidxAddDel t a b]) ∨ ∀ w ∈ hs, ∃ t, w = .tidxErase t

theorem applyIncr_tidx {d d' : Data} {inc : Incr} (h : applyIncr d inc = some d') (hi : ∀ w ∈ inc.ids, ¬ w.onTidx) :
    ∃ d1, execAll d inc.heads = some d1 ∧ ∀ x, get d'.tidx x = get d1.tidx x := by
  unfold applyIncr Incr.writes at h
  rw [List.append_assoc, List.append_assoc, execAll_append] at h
  cases e1 : execAll d inc.heads with
  | none => rw [e1] at h; cases h
  | some d1 =>
    rw [e1] at h
    refine ⟨d1, rfl, fun x => execAll_offTidx h ?_ x⟩
    intro w hw
    rcases List.mem_append.1 hw with hw | hw
    · exact opWrites_noTidx _ _ w hw
    · rcases List.mem_append.1 hw with hw | hw
      · exact opWrites_noTidx _ _ w hw
      · exact hi w hw

theorem execAll_erases {hs : List Write} {x : Int} : ∀ {d d' : Data}, execAll d hs = some d' → (∀ w ∈ hs, ∃ t, w = .tidxErase t) →
    (.tidxErase x ∈ hs → get d'.tidx x = none) ∧ (.tidxErase x ∉ hs → get d'.tidx x = get d.tidx x) := by
  intro d d' h hw
  constructor
  · intro hm
    refine execAll_tidx_gone ?_ h (Or.inr hm)
    intro l hl
    obtain ⟨t, e⟩ := hw _ hl
    cases e
  · intro hm
    induction hs generalizing d with
    | nil => cases h; rfl
    | cons w hs ih =>
      obtain ⟨t, e⟩ := hw w List.mem_cons_self
      subst e
      rw [execAll] at h
      dsimp only [Write.exec] at h
      rw [ih h (fun w hw' => hw w (List.mem_cons_of_mem _ hw')) (fun hm' => hm (List.mem_cons_of_mem _ hm'))]
      show get (erase d.tidx t) x = _
      rw [get_erase, if_neg]
      intro e
      exact hm (by rw [e]; exact List.mem_cons_self)

/-- A list after an entry. -/
theorem tidx_after {d d' : Data} {inc : Incr} (h : applyIncr d inc = some d') (hi : ∀ w ∈ inc.ids, ¬ w.onTidx)
    (hs : ListShape inc.heads) (x : Int) :
    (∀ l', get d'.tidx x = some l' → .tidxPut x l' ∈ inc.heads ∨
      ∃ l, get d.tidx x = some l ∧ .tidxErase x ∉ inc.heads ∧
        (l.Nodup → (∀ a b, .tidxAddDel x a b ∈ inc.heads → a.Nodup) → l'.Nodup) ∧
        ∀ i, i ∈ l' ↔ (i ∈ l ∨ ∃ a b, .tidxAddDel x a b ∈ inc.heads ∧ i ∈ a) ∧ ¬ ∃ a b, .tidxAddDel x a b ∈ inc.heads ∧ i ∈ b) ∧
    (∀ l, .tidxPut x l ∈ inc.heads → get d'.tidx x = some l) ∧
    ((get d.tidx x).isSome → .tidxErase x ∉ inc.heads → (get d'.tidx x).isSome) := by
  obtain ⟨d1, he, hx⟩ := applyIncr_tidx h hi
  rw [hx]
  rcases hs with hs | ⟨t, lt, hs⟩ | ⟨t, a, b, hs⟩ | hs
  · rw [execAll_offTidx he hs x]
    refine ⟨?_, fun l hm => absurd trivial (hs _ hm), fun h _ => h⟩
    intro l' hl
    refine Or.inr ⟨l', hl, fun hm => absurd trivial (hs _ hm), fun h _ => h, fun i => ?_⟩
    exact ⟨fun h => ⟨Or.inl h, fun ⟨a, b, hm, _⟩ => hs _ hm trivial⟩, fun h => h.1.elim id (fun ⟨a, b, hm, _⟩ => absurd trivial (hs _ hm))⟩
  · rw [hs] at he ⊢
    simp only [List.mem_singleton]
    dsimp only [execAll, Write.exec] at he
    split at he
    · rename_i h0
      split at h0
      · cases h0
      · cases h0
        cases he
        dsimp only
        rw [get_put]
        by_cases e : x = t
        · subst e
          rw [if_pos rfl]
          exact ⟨fun l' h => Or.inl (by cases h; rfl), fun l h => (by cases h; rfl), fun _ _ => rfl⟩
        · rw [if_neg e]
          refine ⟨?_, fun l h => absurd (by cases h; rfl) e, fun h _ => h⟩
          intro l' hl
          refine Or.inr ⟨l', hl, nofun, fun h _ => h, fun i => ?_⟩
          exact ⟨fun h => ⟨Or.inl h, fun ⟨_, _, h, _⟩ => (by cases h)⟩, fun h => h.1.elim id (fun ⟨_, _, h, _⟩ => (by cases h))⟩
    · cases he
  · rw [hs] at he ⊢
    simp only [List.mem_singleton]
    dsimp only [execAll, Write.exec] at he
    refine ⟨?_, nofun, ?_⟩
    · intro l' hl
      right
      by_cases e : x = t
      · subst e
        cases ht : get d.tidx x with
        | none => rw [ht] at he; cases he; rw [ht] at hl; cases hl
        | some l =>
          rw [ht] at he; cases he
          dsimp only at hl
          rw [get_put, if_pos rfl] at hl
          cases hl
          refine ⟨l, rfl, nofun, ?_, fun i => ?_⟩
          · intro h1 h2
            have h2 := h2 a b rfl
            refine List.Pairwise.filter _ (List.nodup_append.2 ⟨h1, List.Pairwise.filter _ h2, ?_⟩)
            intro y hy z hz e
            subst e
            have := (List.mem_filter.1 hz).2
            simp at this
            exact this hy
          · simp only [List.mem_filter, List.mem_append, decide_eq_true_eq]
            constructor
            · rintro ⟨h1, h2⟩
              refine ⟨?_, fun ⟨a', b', e, hb⟩ => ?_⟩
              · rcases h1 with h1 | h1
                · exact Or.inl h1
                · exact Or.inr ⟨a, b, rfl, h1.1⟩
              · cases e; exact h2 hb
            · rintro ⟨h1, h2⟩
              refine ⟨?_, fun hb => h2 ⟨a, b, rfl, hb⟩⟩
              by_cases hil : i ∈ l
              · exact Or.inl hil
              · rcases h1 with h1 | ⟨a', b', e, h1⟩
                · exact absurd h1 hil
                · cases e; exact Or.inr ⟨h1, hil⟩
      · have hl' : get d.tidx x = some l' := by
          cases ht : get d.tidx t with
          | none => rw [ht] at he; cases he; exact hl
          | some l =>
            rw [ht] at he; cases he
            dsimp only at hl
            rw [get_put, if_neg e] at hl; exact hl
        refine ⟨l', hl', nofun, fun h _ => h, fun i => ?_⟩
        have no : ∀ a' b', Write.tidxAddDel x a' b' ≠ .tidxAddDel t a b := fun _ _ h => e (by cases h; rfl)
        exact ⟨fun h => ⟨Or.inl h, fun ⟨_, _, h, _⟩ => no _ _ h⟩, fun h => h.1.elim id (fun ⟨_, _, h, _⟩ => absurd h (no _ _))⟩
    · intro hsome _
      cases ht : get d.tidx t with
      | none => rw [ht] at he; cases he; exact hsome
      | some l =>
        rw [ht] at he; cases he
        dsimp only
        rw [get_put]
        split
        · rfl
        · exact hsome
  · have hk := execAll_erases (x := x) he hs
    have no : ∀ a b, Write.tidxAddDel x a b ∉ inc.heads := fun a b hm => by
      obtain ⟨t, e⟩ := hs _ hm; cases e
    refine ⟨?_, ?_, ?_⟩
    · intro l' hl
      by_cases c : .tidxErase x ∈ inc.heads
      · rw [hk.1 c] at hl; cases hl
      · rw [hk.2 c] at hl
        refine Or.inr ⟨l', hl, c, fun h _ => h, fun i => ?_⟩
        exact ⟨fun h => ⟨Or.inl h, fun ⟨_, _, h, _⟩ => no _ _ h⟩, fun h => h.1.elim id (fun ⟨_, _, h, _⟩ => absurd h (no _ _))⟩
    · intro l hm
      obtain ⟨t, e⟩ := hs _ hm; cases e
    · intro h1 h2
      rw [hk.2 h2]; exact h1

/-! ## The invariant -/

/-- What an entry on its way needs when it is applied. -/
structure Ready (B : Int → Prop) (d : Data) (inc : Incr) : Prop where
  ids : ∀ w ∈ inc.ids, ¬ w.onTidx
  shape : ListShape inc.heads
  fresh : ∀ k i r, .create i r ∈ inc.ops k → get (d.objs k) i = none
  adds : ∀ t a b, .tidxAddDel t a b ∈ inc.heads → (get d.tidx t).isSome ∧ a.Nodup ∧
    (∀ i ∈ a, ∃ r, .create i r ∈ inc.indexes ∧ r.owner = t) ∧ ∀ i ∈ b, ∃ s, .delete i s ∈ inc.indexes
  puts : ∀ t l, .tidxPut t l ∈ inc.heads → get d.tidx t = none ∧ 0 < t ∧ l.Nodup ∧
    (∀ i ∈ l, ∃ r, .create i r ∈ inc.indexes ∧ r.owner = t) ∧ ∃ rt, .create t rt ∈ inc.tables
  creates : ∀ i r, .create i r ∈ inc.indexes → 0 < r.owner →
    ((∃ l, .tidxPut r.owner l ∈ inc.heads ∧ i ∈ l) ∨ ∃ a b, .tidxAddDel r.owner a b ∈ inc.heads ∧ i ∈ a) ∧
    ((∃ rt, .create r.owner rt ∈ inc.tables ∧ rt.schema = r.schema) ∨
      ∃ rt, get (d.objs .table) r.owner = some rt ∧ rt.schema = r.schema)
  dels : ∀ i s, .delete i s ∈ inc.indexes → ∃ r, get (d.objs .index) i = some r ∧
    (0 < r.owner → (∃ a b, .tidxAddDel r.owner a b ∈ inc.heads ∧ i ∈ b) ∨ .tidxErase r.owner ∈ inc.heads)
  erases : ∀ t, .tidxErase t ∈ inc.heads → 0 < t ∧ (∀ i r, get (d.objs .index) i = some r → r.owner = t →
    ∃ s, .delete i s ∈ inc.indexes) ∧ ∃ s, .delete t s ∈ inc.tables
  tdels : ∀ t s, .delete t s ∈ inc.tables → .tidxErase t ∈ inc.heads
  made : ∀ t r, .create t r ∈ inc.tables → B t ∨ ∃ l, .tidxPut t l ∈ inc.heads

/-- Two entries on their way do not drop a table and change its list. -/
def Apart (a b : Incr) : Prop :=
  (∀ t x y, .tidxErase t ∈ a.heads → .tidxAddDel t x y ∉ b.heads) ∧
  (∀ t x y, .tidxErase t ∈ b.heads → .tidxAddDel t x y ∉ a.heads)

/-- Tables and indexes fit together; `B` are the ids of tables made by `CreateTable`. -/
structure Owned (B : Int → Prop) (d : Data) (ps : List Incr) : Prop where
  mem : ∀ t l, get d.tidx t = some l → 0 < t ∧ l.Nodup ∧ ∀ i, i ∈ l ↔ ∃ r, get (d.objs .index) i = some r ∧ r.owner = t
  home : ∀ i r, get (d.objs .index) i = some r → 0 < r.owner → (get d.tidx r.owner).isSome ∧
    ∃ rt, get (d.objs .table) r.owner = some rt ∧ rt.schema = r.schema
  tab : ∀ t l, get d.tidx t = some l → (get (d.objs .table) t).isSome
  listed : ∀ t, ¬ B t → (get (d.objs .table) t).isSome → (get d.tidx t).isSome
  ready : ∀ inc ∈ ps, Ready B d inc
  once : ∀ k, (ps.flatMap (fun p => (p.ops k).flatMap ObjOp.touched)).Nodup
  apart : ps.Pairwise Apart

theorem Apart.symm {a b : Incr} (h : Apart a b) : Apart b a := ⟨h.2, h.1⟩

theorem Owned.perm {B : Int → Prop} {d : Data} {ps ps' : List Incr} (p : ps.Perm ps') (h : Owned B d ps) : Owned B d ps' where
  mem := h.mem
  home := h.home
  tab := h.tab
  listed := h.listed
  ready := fun inc hi => h.ready inc (p.mem_iff.2 hi)
  once := fun k => (List.Perm.flatMap_right _ p).nodup_iff.1 (h.once k)
  apart := (p.pairwise_iff Apart.symm).1 h.apart

theorem Owned.drop {B : Int → Prop} {d : Data} {l ps : List Incr} (h : Owned B d (l ++ ps)) : Owned B d ps where
  mem := h.mem
  home := h.home
  tab := h.tab
  listed := h.listed
  ready := fun inc hi => h.ready inc (List.mem_append_right _ hi)
  once := fun k => by
    have := h.once k
    rw [List.flatMap_append] at this
    exact (List.nodup_append.1 this).2.1
  apart := (List.pairwise_append.1 h.apart).2.1

/-- Objects after an entry. -/
structure After (d d' : Data) (inc : Incr) : Prop where
  from' : ∀ k i r', get (d'.objs k) i = some r' → (∃ r, .create i r ∈ inc.ops k ∧ r.owner = r'.owner ∧ r.schema = r'.schema) ∨
    ((∀ r, .create i r ∉ inc.ops k) ∧ (∀ s, .delete i s ∉ inc.ops k) ∧
      ∃ r, get (d.objs k) i = some r ∧ r.owner = r'.owner ∧ r.schema = r'.schema)
  made : ∀ k i r, .create i r ∈ inc.ops k → ∃ r', get (d'.objs k) i = some r' ∧ r.owner = r'.owner ∧ r.schema = r'.schema
  gone : ∀ k i s, .delete i s ∈ inc.ops k → get (d'.objs k) i = none
  kept : ∀ k i r, get (d.objs k) i = some r → (∀ r, .create i r ∉ inc.ops k) → (∀ s, .delete i s ∉ inc.ops k) →
    ∃ r', get (d'.objs k) i = some r' ∧ r.owner = r'.owner ∧ r.schema = r'.schema

theorem core_eq {o o' : Option Obj} {r' : Obj} (h : o.map Obj.core = o'.map Obj.core) (e : o' = some r') :
    ∃ r, o = some r ∧ r.owner = r'.owner ∧ r.schema = r'.schema := by
  subst e
  cases o with
  | none => cases h
  | some r =>
    have := Option.some.inj h
    exact ⟨r, rfl, (Prod.mk.inj this).1, (Prod.mk.inj this).2⟩

theorem objs_after {d d' : Data} {inc : Incr} (h : applyIncr d inc = some d') (h1 : ∀ w ∈ inc.heads, w.offObj = true)
    (h2 : ∀ w ∈ inc.ids, w.offObj = true) (hn : ∀ k, ((inc.ops k).flatMap ObjOp.touched).Nodup) : After d d' inc := by
  have off : ∀ k i, (∀ r, .create i r ∉ inc.ops k) → (∀ s, .delete i s ∉ inc.ops k) →
      (get (d'.objs k) i).map Obj.core = (get (d.objs k) i).map Obj.core := by
    intro k i c1 c2
    rw [applyIncr_objs h h1 h2]
    refine replay_off ?_
    rw [mem_touched]
    rintro (⟨r, hm⟩ | ⟨s, hm⟩)
    · exact c1 r hm
    · exact c2 s hm
  have made : ∀ k i r, .create i r ∈ inc.ops k → (get (d'.objs k) i).map Obj.core = (some r).map Obj.core := by
    intro k i r hm
    rw [applyIncr_objs h h1 h2]
    exact (replay_on (hn k)).1 r hm
  have gone : ∀ k i s, .delete i s ∈ inc.ops k → get (d'.objs k) i = none := by
    intro k i s hm
    rw [applyIncr_objs h h1 h2]
    exact (replay_on (hn k)).2 s hm
  refine ⟨?_, ?_, gone, ?_⟩
  · intro k i r' hr
    by_cases c1 : ∃ r, .create i r ∈ inc.ops k
    · obtain ⟨r, hm⟩ := c1
      obtain ⟨r1, e, h3⟩ := core_eq (made k i r hm).symm hr
      cases e
      exact Or.inl ⟨r, hm, h3⟩
    · by_cases c2 : ∃ s, .delete i s ∈ inc.ops k
      · obtain ⟨s, hm⟩ := c2
        rw [gone k i s hm] at hr; cases hr
      · have c1 := fun r hm => c1 ⟨r, hm⟩
        have c2 := fun s hm => c2 ⟨s, hm⟩
        obtain ⟨r1, e, h3⟩ := core_eq (off k i c1 c2).symm hr
        exact Or.inr ⟨c1, c2, r1, e, h3⟩
  · intro k i r hm
    obtain ⟨r1, e, h3⟩ := core_eq (made k i r hm) rfl
    exact ⟨r1, e, h3.1.symm, h3.2.symm⟩
  · intro k i r hr c1 c2
    obtain ⟨r1, e, h3⟩ := core_eq (off k i c1 c2) hr
    exact ⟨r1, e, h3.1.symm, h3.2.symm⟩

/-! ## The invariant is kept -/

theorem touched_conflict {k : Kind} {inc inc' : Incr} {ps : List Incr}
    (h : ((inc :: ps).flatMap (fun p => (p.ops k).flatMap ObjOp.touched)).Nodup) (hi : inc' ∈ ps) {i : Int}
    (h1 : i ∈ (inc.ops k).flatMap ObjOp.touched) (h2 : i ∈ (inc'.ops k).flatMap ObjOp.touched) : False := by
  rw [List.flatMap_cons, List.nodup_append] at h
  exact h.2.2 i h1 i (List.mem_flatMap.2 ⟨inc', hi, h2⟩) rfl

theorem Owned.apply {B : Int → Prop} {d d' : Data} {inc : Incr} {ps : List Incr} (h : Owned B d (inc :: ps))
    (ha : applyIncr d inc = some d') (h1 : ∀ w ∈ inc.heads, w.offObj = true) (h2 : ∀ w ∈ inc.ids, w.offObj = true) :
    Owned B d' ps := by
  have hn : ∀ k, ((inc.ops k).flatMap ObjOp.touched).Nodup := fun k => by
    have := h.once k
    rw [List.flatMap_cons, List.nodup_append] at this
    exact this.1
  have A := objs_after ha h1 h2 hn
  have R := h.ready inc List.mem_cons_self
  have T := fun x => tidx_after ha R.ids R.shape x
  -- a list that is put is a new one, so no index has the table as owner
  have noOwner : ∀ t l, .tidxPut t l ∈ inc.heads → ∀ i r, get (d.objs .index) i = some r → r.owner ≠ t := by
    intro t l hp i r hr e
    obtain ⟨g1, g2, _⟩ := R.puts t l hp
    have := (h.home i r hr (by omega)).1
    rw [e, g1] at this; cases this
  have putKind : ∀ t l, .tidxPut t l ∈ inc.heads → ∀ x, .tidxErase x ∉ inc.heads := by
    intro t l hp x hx
    rcases R.shape with hs | ⟨_, _, hs⟩ | ⟨_, _, _, hs⟩ | hs
    · exact hs _ hp trivial
    · rw [hs] at hx; cases List.mem_singleton.1 hx
    · rw [hs] at hx; cases List.mem_singleton.1 hx
    · obtain ⟨_, e⟩ := hs _ hp; cases e
  have addKind : ∀ t a b, .tidxAddDel t a b ∈ inc.heads → ∀ x, .tidxErase x ∉ inc.heads := by
    intro t a b hp x hx
    rcases R.shape with hs | ⟨_, _, hs⟩ | ⟨_, _, _, hs⟩ | hs
    · exact hs _ hp trivial
    · rw [hs] at hx; cases List.mem_singleton.1 hx
    · rw [hs] at hx; cases List.mem_singleton.1 hx
    · obtain ⟨_, e⟩ := hs _ hp; cases e
  have putOnly : ∀ t l, .tidxPut t l ∈ inc.heads → ∀ i r, .create i r ∈ inc.indexes → r.owner = t → i ∈ l := by
    intro t l hp i r hc e
    have ht := (R.puts t l hp).2.1
    rcases (R.creates i r hc (by omega)).1 with ⟨l', h3, h4⟩ | ⟨a, b, h3, _⟩
    · rcases R.shape with hs | ⟨_, _, hs⟩ | ⟨_, _, _, hs⟩ | hs
      · exact absurd trivial (hs _ hp)
      · rw [hs] at hp h3
        have e1 := List.mem_singleton.1 hp
        have e2 := List.mem_singleton.1 h3
        cases e1; cases e2; exact h4
      · rw [hs] at hp; cases List.mem_singleton.1 hp
      · obtain ⟨_, e⟩ := hs _ hp; cases e
    · rcases R.shape with hs | ⟨_, _, hs⟩ | ⟨_, _, _, hs⟩ | hs
      · exact absurd trivial (hs _ hp)
      · rw [hs] at h3; cases List.mem_singleton.1 h3
      · rw [hs] at hp; cases List.mem_singleton.1 hp
      · obtain ⟨_, e⟩ := hs _ hp; cases e
  have keepTable : ∀ t rt, get (d.objs .table) t = some rt → .tidxErase t ∉ inc.heads →
      ∃ rt', get (d'.objs .table) t = some rt' ∧ rt.owner = rt'.owner ∧ rt.schema = rt'.schema := by
    intro t rt hr he
    refine A.kept .table t rt hr ?_ ?_
    · intro r hm
      rw [R.fresh .table t r hm] at hr; cases hr
    · intro s hm; exact he (R.tdels t s hm)
  refine { mem := ?_, home := ?_, tab := ?_, listed := ?_, ready := ?_, once := ?_, apart := (List.pairwise_cons.1 h.apart).2 }
  · intro t l' hl
    rcases (T t).1 l' hl with hp | ⟨l, g1, g2, g3, g4⟩
    · obtain ⟨p1, p2, p3, p4, _⟩ := R.puts t l' hp
      refine ⟨p2, p3, fun i => ⟨fun hi => ?_, ?_⟩⟩
      · obtain ⟨r, hc, ho⟩ := p4 i hi
        obtain ⟨r', e1, e2, _⟩ := A.made .index i r hc
        exact ⟨r', e1, e2.symm.trans ho⟩
      · rintro ⟨r', e1, e2⟩
        rcases A.from' .index i r' e1 with ⟨r, hc, e3, _⟩ | ⟨_, _, r, e3, e4, _⟩
        · exact putOnly t l' hp i r hc (e3.trans e2)
        · exact absurd (e4.trans e2) (noOwner t l' hp i r e3)
    · obtain ⟨p1, p2, p3⟩ := h.mem t l g1
      refine ⟨p1, g3 p2 (fun a b hm => (R.adds t a b hm).2.1), fun i => ?_⟩
      rw [g4, p3]
      constructor
      · rintro ⟨h3 | ⟨a, b, hm, hia⟩, h4⟩
        · obtain ⟨r, e1, e2⟩ := h3
          obtain ⟨r', e3, e4, _⟩ := A.kept .index i r e1
            (fun r' hm => by rw [R.fresh .index i r' hm] at e1; cases e1)
            (fun s hm => by
              obtain ⟨r1, f1, f2⟩ := R.dels i s hm
              rw [e1] at f1; cases f1
              rcases f2 (by omega) with ⟨a, b, f3, f4⟩ | f3
              · exact h4 ⟨a, b, e2 ▸ f3, f4⟩
              · exact g2 (e2 ▸ f3))
          exact ⟨r', e3, e4.symm.trans e2⟩
        · obtain ⟨r, hc, ho⟩ := (R.adds t a b hm).2.2.1 i hia
          obtain ⟨r', e1, e2, _⟩ := A.made .index i r hc
          exact ⟨r', e1, e2.symm.trans ho⟩
      · rintro ⟨r', e1, e2⟩
        refine ⟨?_, ?_⟩
        · rcases A.from' .index i r' e1 with ⟨r, hc, e3, _⟩ | ⟨_, _, r, e3, e4, _⟩
          · have ho := e3.trans e2
            rcases (R.creates i r hc (by omega)).1 with ⟨l', h3, _⟩ | ⟨a, b, h3, h4⟩
            · rw [ho] at h3
              rw [(R.puts t l' h3).1] at g1; cases g1
            · exact Or.inr ⟨a, b, ho ▸ h3, h4⟩
          · exact Or.inl ⟨r, e3, e4.trans e2⟩
        · rintro ⟨a, b, hm, hb⟩
          obtain ⟨s, hs⟩ := (R.adds t a b hm).2.2.2 i hb
          rw [A.gone .index i s hs] at e1; cases e1
  · intro i r' hr hpos
    rcases A.from' .index i r' hr with ⟨r, hc, e3, e3'⟩ | ⟨_, hnd, r, e3, e4, e4'⟩
    · rw [← e3] at hpos ⊢
      rw [← e3']
      obtain ⟨g1, g2⟩ := R.creates i r hc hpos
      have hno : .tidxErase r.owner ∉ inc.heads := by
        rcases g1 with ⟨l, hp, _⟩ | ⟨a, b, hp, _⟩
        · exact putKind _ _ hp _
        · exact addKind _ _ _ hp _
      refine ⟨?_, ?_⟩
      · rcases g1 with ⟨l, hp, _⟩ | ⟨a, b, hp, _⟩
        · rw [(T r.owner).2.1 l hp]; rfl
        · exact (T r.owner).2.2 (R.adds _ a b hp).1 hno
      · rcases g2 with ⟨rt, g2, g3⟩ | ⟨rt, g2, g3⟩
        · obtain ⟨rt', e5, _, e6⟩ := A.made .table r.owner rt g2
          exact ⟨rt', e5, e6.symm.trans g3⟩
        · obtain ⟨rt', e5, _, e6⟩ := keepTable _ rt g2 hno
          exact ⟨rt', e5, e6.symm.trans g3⟩
    · rw [← e4] at hpos ⊢
      rw [← e4']
      have hno : .tidxErase r.owner ∉ inc.heads := by
        intro hm
        obtain ⟨s, hs⟩ := (R.erases _ hm).2.1 i r e3 rfl
        exact hnd s hs
      obtain ⟨g1, rt, g2, g3⟩ := h.home i r e3 hpos
      refine ⟨(T r.owner).2.2 g1 hno, ?_⟩
      obtain ⟨rt', e5, _, e6⟩ := keepTable _ rt g2 hno
      exact ⟨rt', e5, e6.symm.trans g3⟩
  · intro t l' hl
    rcases (T t).1 l' hl with hp | ⟨l, g1, g2, _⟩
    · obtain ⟨_, _, _, _, rt, hc⟩ := R.puts t l' hp
      obtain ⟨r', e, _⟩ := A.made .table t rt hc
      rw [e]; rfl
    · obtain ⟨rt, hr⟩ := Option.isSome_iff_exists.1 (h.tab t l g1)
      obtain ⟨r', e, _⟩ := keepTable t rt hr g2
      rw [e]; rfl
  · intro t hb hs
    obtain ⟨r', hr⟩ := Option.isSome_iff_exists.1 hs
    rcases A.from' .table t r' hr with ⟨r, hc, _⟩ | ⟨_, hnd, r, e3, _⟩
    · rcases R.made t r hc with g | ⟨l, hp⟩
      · exact absurd g hb
      · rw [(T t).2.1 l hp]; rfl
    · refine (T t).2.2 (h.listed t hb (by rw [e3]; rfl)) ?_
      intro hm
      obtain ⟨_, _, s, hs⟩ := R.erases t hm
      exact hnd s hs
  · intro inc' hi
    have R' := h.ready inc' (List.mem_cons_of_mem _ hi)
    have hap := (List.pairwise_cons.1 h.apart).1 inc' hi
    have nc : ∀ k i, i ∈ (inc'.ops k).flatMap ObjOp.touched → (∀ r, .create i r ∉ inc.ops k) ∧ ∀ s, .delete i s ∉ inc.ops k := by
      intro k i hm
      exact ⟨fun r hc => touched_conflict (h.once k) hi (mem_touched.2 (Or.inl ⟨r, hc⟩)) hm,
        fun s hc => touched_conflict (h.once k) hi (mem_touched.2 (Or.inr ⟨s, hc⟩)) hm⟩
    refine { ids := R'.ids, shape := R'.shape, fresh := ?_, adds := ?_, puts := ?_, creates := ?_, dels := ?_, erases := ?_, tdels := R'.tdels, made := R'.made }
    · intro k i r hc
      cases hg : get (d'.objs k) i with
      | none => rfl
      | some r' =>
        have c := nc k i (mem_touched.2 (Or.inl ⟨r, hc⟩))
        rcases A.from' k i r' hg with ⟨r1, hm, _⟩ | ⟨_, _, r1, e, _⟩
        · exact absurd hm (c.1 r1)
        · rw [R'.fresh k i r hc] at e; cases e
    · intro t a b hm
      obtain ⟨g1, g2⟩ := R'.adds t a b hm
      exact ⟨(T t).2.2 g1 (fun he => hap.1 t a b he hm), g2⟩
    · intro t l hm
      obtain ⟨g1, g2, g3, g4, rt, g5⟩ := R'.puts t l hm
      refine ⟨?_, g2, g3, g4, rt, g5⟩
      cases hg : get d'.tidx t with
      | none => rfl
      | some l' =>
        rcases (T t).1 l' hg with hp | ⟨l1, e, _⟩
        · obtain ⟨_, _, _, _, rt', hc⟩ := R.puts t l' hp
          exact absurd hc ((nc .table t (mem_touched.2 (Or.inl ⟨rt, g5⟩))).1 rt')
        · rw [g1] at e; cases e
    · intro i r hc hpos
      obtain ⟨g1, g2⟩ := R'.creates i r hc hpos
      refine ⟨g1, ?_⟩
      rcases g2 with g2 | ⟨rt, g2, g3⟩
      · exact Or.inl g2
      · right
        have hno : .tidxErase r.owner ∉ inc.heads := by
          intro he
          rcases g1 with ⟨l, hp, _⟩ | ⟨a, b, hp, _⟩
          · obtain ⟨_, _, _, _, rt', hc'⟩ := R'.puts _ l hp
            obtain ⟨_, _, s, hs⟩ := R.erases _ he
            exact (nc .table r.owner (mem_touched.2 (Or.inl ⟨rt', hc'⟩))).2 s hs
          · exact hap.1 _ a b he hp
        obtain ⟨rt', e5, _, e6⟩ := keepTable _ rt g2 hno
        exact ⟨rt', e5, e6.symm.trans g3⟩
    · intro i s hm
      obtain ⟨r, g1, g2⟩ := R'.dels i s hm
      have c := nc .index i (mem_touched.2 (Or.inr ⟨s, hm⟩))
      obtain ⟨r', e1, e2, _⟩ := A.kept .index i r g1 c.1 c.2
      exact ⟨r', e1, by rw [← e2]; exact g2⟩
    · intro t hm
      obtain ⟨g1, g2, s, g3⟩ := R'.erases t hm
      refine ⟨g1, ?_, s, g3⟩
      intro i r' hr ho
      rcases A.from' .index i r' hr with ⟨r, hc, e3, _⟩ | ⟨_, _, r, e3, e4, _⟩
      · exfalso
        have ho := e3.trans ho
        rcases (R.creates i r hc (by omega)).1 with ⟨l, hp, _⟩ | ⟨a, b, hp, _⟩
        · rw [ho] at hp
          obtain ⟨_, _, _, _, rt', hc'⟩ := R.puts _ l hp
          exact (nc .table t (mem_touched.2 (Or.inr ⟨s, g3⟩))).1 rt' hc'
        · rw [ho] at hp
          exact hap.2 t a b hm hp
      · exact g2 i r e3 (e4.trans ho)
  · intro k
    have := h.once k
    rw [List.flatMap_cons, List.nodup_append] at this
    exact this.2.1

end Verif.Meta
