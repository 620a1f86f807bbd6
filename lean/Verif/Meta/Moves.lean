/-
The claims on names while requests pass their checks.
-/
import Verif.Meta.Refuse

namespace Verif.Meta

/-- The change to the names a change of an entry is. -/
def ObjOp.move : ObjOp → Move
  | .create id r => .create id (r.schema, r.name)
  | .update id n _ => .rename id n
  | .delete id _ => .delete id

theorem opWrites_moves (k k' : Kind) (op : ObjOp) :
    (op.writes k').filterMap (Write.move (.obj k)) = if k = k' then [op.move] else [] := by
  by_cases e : k = k'
  · subst e
    cases op <;> simp [ObjOp.writes, Write.move, ObjOp.move, List.filterMap_cons]
  · have e2 : ¬ Cls.obj k = Cls.obj k' := fun h => e (by cases h; rfl)
    rw [if_neg e]
    cases op <;> simp [ObjOp.writes, Write.move, e]

theorem opWrites_schema (k' : Kind) (op : ObjOp) : (op.writes k').filterMap (Write.move .schema) = [] := by
  cases op <;> simp [ObjOp.writes, Write.move]

theorem opsWrites_moves (k k' : Kind) (ops : List ObjOp) :
    (ops.flatMap (ObjOp.writes k')).filterMap (Write.move (.obj k)) = if k = k' then ops.map ObjOp.move else [] := by
  induction ops with
  | nil => split <;> rfl
  | cons op ops ih =>
    rw [List.flatMap_cons, List.filterMap_append, ih, opWrites_moves]
    split <;> rfl

theorem opsWrites_schema (k' : Kind) (ops : List ObjOp) :
    (ops.flatMap (ObjOp.writes k')).filterMap (Write.move .schema) = [] := by
  induction ops with
  | nil => rfl
  | cons op ops ih => rw [List.flatMap_cons, List.filterMap_append, ih, opWrites_schema]; rfl

theorem moves_obj (i : Incr) (k : Kind) (h1 : ∀ w ∈ i.heads, w.move (.obj k) = none)
    (h2 : ∀ w ∈ i.ids, w.move (.obj k) = none) : i.moves (.obj k) = (i.ops k).map ObjOp.move := by
  unfold Incr.moves Incr.writes
  rw [List.filterMap_append, List.filterMap_append, List.filterMap_append, List.filterMap_eq_nil_iff.2 h1,
    List.filterMap_eq_nil_iff.2 h2, opsWrites_moves, opsWrites_moves]
  cases k <;> simp [Incr.ops]

theorem moves_schema (i : Incr) (h2 : ∀ w ∈ i.ids, w.move .schema = none) :
    i.moves .schema = i.heads.filterMap (Write.move .schema) := by
  unfold Incr.moves Incr.writes
  rw [List.filterMap_append, List.filterMap_append, List.filterMap_append,
    List.filterMap_eq_nil_iff.2 h2, opsWrites_schema, opsWrites_schema]
  simp

theorem isTidx_move {w : Write} (h : w.isTidx) (c : Cls) : w.move c = none := by
  cases w <;> first | rfl | cases h

/-- The heads and ids of an entry made by a request do not touch tables and indexes. -/
theorem Shape.moves_obj {d : Data} {t t' : Temp} {p : Plan} (h : Shape d t t' p) (k : Kind) :
    p.incr.moves (.obj k) = (p.incr.ops k).map ObjOp.move := by
  cases h with
  | objs h _ _ _ _ =>
    exact Verif.Meta.moves_obj _ k (fun w hw => isTidx_move (h.heads w hw) _) (by rw [h.ids]; simp)
  | tenant ws hi _ _ _ hw =>
    refine Verif.Meta.moves_obj _ k ?_ (by rw [hi]; simp)
    intro w h
    rw [hi] at h
    obtain ⟨id, ⟨e, _⟩ | e⟩ := hw w h <;> rw [e] <;> rfl
  | newSchema id s ids hi _ _ _ _ hid _ _ _ =>
    refine Verif.Meta.moves_obj _ k ?_ ?_
    · intro w h
      rw [hi] at h
      rw [List.mem_singleton.1 h]; rfl
    · intro w h
      rw [hi] at h
      rcases hid with ⟨_, e, _⟩ | ⟨_, e, _⟩
      · rw [e] at h; cases h
      · rw [e] at h; rw [List.mem_singleton.1 h]; rfl
  | noSchema id tn s hi =>
    refine Verif.Meta.moves_obj _ k ?_ (by rw [hi]; simp)
    intro w h
    rw [hi] at h
    rw [List.mem_singleton.1 h]; rfl
  | ids l ws hi _ _ _ _ _ _ _ hw =>
    refine Verif.Meta.moves_obj _ k (by rw [hi]; simp) ?_
    intro w h
    rw [hi] at h
    rcases hw with ⟨_, e, _⟩ | ⟨_, e⟩
    · dsimp only at h; rw [e] at h; cases h
    · obtain ⟨v, e, _⟩ := e w h; rw [e]; rfl

theorem Shape.moves_schema {d : Data} {t t' : Temp} {p : Plan} (h : Shape d t t' p) :
    p.incr.moves .schema = p.incr.heads.filterMap (Write.move .schema) := by
  refine Verif.Meta.moves_schema _ ?_
  cases h with
  | objs h _ _ _ _ => rw [h.ids]; simp
  | tenant ws hi _ _ _ hw => rw [hi]; simp
  | newSchema id s ids hi _ _ _ _ hid _ _ _ =>
    intro w h
    rw [hi] at h
    rcases hid with ⟨_, e, _⟩ | ⟨_, e, _⟩
    · rw [e] at h; cases h
    · rw [e] at h; rw [List.mem_singleton.1 h]; rfl
  | noSchema id tn s hi => rw [hi]; simp
  | ids l ws hi _ _ _ _ _ _ _ hw =>
    intro w h
    rw [hi] at h
    rcases hw with ⟨_, e, _⟩ | ⟨_, e⟩
    · dsimp only at h; rw [e] at h; cases h
    · obtain ⟨v, e, _⟩ := e w h; rw [e]; rfl

/-! ## Claims while the checks run -/

/-- The changes of one kind. -/
def kMoves (k : Kind) (ops : List (Kind × ObjOp)) : List Move :=
  ops.filterMap (fun x => if x.1 = k then some x.2.move else none)

/-- New changes do not clash with those on their way. -/
structure Free (new ms : List Move) : Prop where
  once : ((new ++ ms).filterMap Move.target).Nodup
  apart : ∀ id key n, .create id key ∈ new → .rename id n ∉ new ++ ms

theorem Free.perm {new new' ms ms' : List Move} (h : Free new ms) (p : new.Perm new') (q : ms.Perm ms') :
    Free new' ms' where
  once := ((p.append q).filterMap _).nodup h.once
  apart id key n hc hr := h.apart id key n (p.mem_iff.2 hc) ((p.append q).mem_iff.2 hr)

theorem Free.head {m : Move} {new ms : List Move} (h : Free (m :: new) ms) : Free [m] ms where
  once := by
    have := h.once
    refine List.Nodup.sublist (List.Sublist.filterMap _ ?_) this
    exact List.Sublist.cons_cons _ (List.sublist_append_right _ _)
  apart id key n hc hr := by
    refine h.apart id key n (List.mem_cons.2 (Or.inl (List.mem_singleton.1 hc))) ?_
    rcases List.mem_append.1 hr with h1 | h1
    · exact List.mem_append_left _ (List.mem_cons.2 (Or.inl (List.mem_singleton.1 h1)))
    · exact List.mem_append_right _ h1

theorem Free.next {m : Move} {new ms : List Move} (h : Free (m :: new) ms) : Free new (m :: ms) where
  once := by
    refine (List.Perm.filterMap _ ?_).nodup h.once
    exact (List.perm_middle (l₁ := new) (l₂ := ms) (a := m)).symm
  apart id key n hc hr := by
    refine h.apart id key n (List.mem_cons_of_mem _ hc) ?_
    rcases List.mem_append.1 hr with h1 | h1
    · exact List.mem_append_left _ (List.mem_cons_of_mem _ h1)
    · rcases List.mem_cons.1 h1 with e | h1
      · exact List.mem_append_left _ (e ▸ List.mem_cons_self)
      · exact List.mem_append_right _ h1

theorem OpStep.other {d : Data} {k k' : Kind} {t t' : Names} {op : ObjOp} (h : OpStep d k t op t') (hk : k' ≠ k) :
    t' k' = t k' := by
  cases h with
  | create => unfold Names.set; rw [if_neg hk]
  | delete => unfold Names.set; rw [if_neg hk]
  | update => rfl

/-- One check of a change keeps the claims in order. -/
theorem OpStep.fits {d : Data} {k : Kind} {t t' : Names} {op : ObjOp} {ms : List Move}
    (h : OpStep d k t op t') (hf : Fits (live d (.obj k)) ms) (hn : Named (live d (.obj k)) ms (get (t k)))
    (hg : Free [op.move] ms) :
    Fits (live d (.obj k)) (op.move :: ms) ∧ Named (live d (.obj k)) (op.move :: ms) (get (t' k)) := by
  cases h with
  | create id r h1 h2 h3 h4 h5 =>
    have hl : live d (.obj k) id = none := by dsimp only [live]; rw [h1]; rfl
    have ht : id ∉ ms.filterMap Move.target := (List.nodup_cons.1 hg.once).1
    have hr : ∀ n, .rename id n ∉ ms := fun n hm =>
      hg.apart id _ n (List.mem_singleton.2 rfl) (List.mem_append_right _ hm)
    refine ⟨hf.create hn hl ht hr h3, hn.create h3 ?_ ?_⟩
    · unfold Names.set; rw [if_pos rfl, get_put, if_pos rfl]
    · intro key hk
      unfold Names.set; rw [if_pos rfl, get_put, if_neg hk]
  | delete id sid r h1 h2 h4 =>
    have hl : live d (.obj k) id = some (sid, r.name) := by dsimp only [live]; rw [h1, ← h2]; rfl
    have ht : id ∉ ms.filterMap Move.target := (List.nodup_cons.1 hg.once).1
    refine ⟨hf.delete (by rw [hl]; rfl) ht, Named.delete hf hn hl ht ?_⟩
    intro key hk
    unfold Names.set; rw [if_pos rfl, get_erase, if_neg hk]
  | update id r n df h1 h2 =>
    have hl : live d (.obj k) id = some (r.schema, r.name) := by dsimp only [live]; rw [h1]; rfl
    exact ⟨hf.rename hl h2, hn.rename⟩

theorem OpSteps.fits {d : Data} {t t' : Names} {ops : List (Kind × ObjOp)} (h : OpSteps d t ops t') (k : Kind) :
    ∀ {ms : List Move}, Fits (live d (.obj k)) ms → Named (live d (.obj k)) ms (get (t k)) →
    Free (kMoves k ops) ms →
    Fits (live d (.obj k)) (kMoves k ops ++ ms) ∧ Named (live d (.obj k)) (kMoves k ops ++ ms) (get (t' k)) := by
  induction h with
  | nil => intro ms hf hn _; exact ⟨hf, hn⟩
  | @cons t t1 t2 k' op ops h _ ih =>
    intro ms hf hn hg
    by_cases e : k' = k
    · subst e
      have e1 : kMoves k' ((k', op) :: ops) = op.move :: kMoves k' ops := by
        unfold kMoves; rw [List.filterMap_cons_some (b := op.move) (by simp)]
      rw [e1] at hg ⊢
      obtain ⟨h1, h2⟩ := h.fits hf hn hg.head
      obtain ⟨h3, h4⟩ := ih h1 h2 hg.next
      have p : (kMoves k' ops ++ op.move :: ms).Perm (op.move :: kMoves k' ops ++ ms) := List.perm_middle
      exact ⟨h3.perm p, h4.perm p⟩
    · have e1 : kMoves k ((k', op) :: ops) = kMoves k ops := by
        unfold kMoves; rw [List.filterMap_cons_none (by simp [e])]
      rw [e1] at hg ⊢
      rw [← h.other (fun h => e h.symm)] at hn
      exact ih hf hn hg

theorem kMoves_all (i : Incr) (k : Kind) : kMoves k i.all = (i.ops k).map ObjOp.move := by
  have h1 : ∀ k' (l : List ObjOp), (l.map (fun op => (k', op))).filterMap
      (fun x : Kind × ObjOp => if x.1 = k then some x.2.move else none) = if k' = k then l.map ObjOp.move else [] := by
    intro k' l
    induction l with
    | nil => split <;> rfl
    | cons a l ih =>
      rw [List.map_cons, List.filterMap_cons]
      dsimp only
      rw [ih]
      split <;> simp_all
  unfold kMoves Incr.all
  rw [List.filterMap_append, h1, h1]
  cases k <;> simp [Incr.ops]

theorem kMoves_perm {a b : List (Kind × ObjOp)} (h : a.Perm b) (k : Kind) : (kMoves k a).Perm (kMoves k b) :=
  h.filterMap _

/-- A request that passed its checks keeps the claims on the names of tables and indexes in order. -/
theorem Shape.fits_obj {d : Data} {t t' : Temp} {p : Plan} (h : Shape d t t' p) (k : Kind) {ms : List Move}
    (hf : Fits (live d (.obj k)) ms) (hn : Named (live d (.obj k)) ms (nameOf t (.obj k)))
    (hg : Free (p.incr.moves (.obj k)) ms) :
    Fits (live d (.obj k)) (p.incr.moves (.obj k) ++ ms) ∧
      Named (live d (.obj k)) (p.incr.moves (.obj k) ++ ms) (nameOf t' (.obj k)) := by
  rw [h.moves_obj] at hg ⊢
  have triv : p.incr.ops k = [] → t'.names = t.names →
      Fits (live d (.obj k)) ((p.incr.ops k).map ObjOp.move ++ ms) ∧
      Named (live d (.obj k)) ((p.incr.ops k).map ObjOp.move ++ ms) (nameOf t' (.obj k)) := by
    intro e1 e2
    rw [e1]
    refine ⟨hf, ?_⟩
    unfold nameOf
    rw [e2]; exact hn
  cases h with
  | objs h _ _ _ _ =>
    obtain ⟨ops, hs, hp⟩ := h.steps
    have q := kMoves_perm hp k
    rw [kMoves_all] at q
    obtain ⟨h1, h2⟩ := hs.fits k hf hn (hg.perm q.symm (.refl _))
    exact ⟨h1.perm (q.append_right _), h2.perm (q.append_right _)⟩
  | tenant ws hi _ _ ht _ => exact triv (by rw [hi]; cases k <;> rfl) (by rw [ht])
  | newSchema id s ids hi _ _ _ _ _ _ h2 _ => exact triv (by rw [hi]; cases k <;> rfl) h2
  | noSchema id tn s hi _ _ _ _ _ h1 => exact triv (by rw [hi]; cases k <;> rfl) (by rw [h1])
  | ids l ws hi _ _ _ h2 => exact triv (by rw [hi]; cases k <;> rfl) h2

/-- The same for schemas. -/
theorem Shape.fits_schema {d : Data} {t t' : Temp} {p : Plan} (h : Shape d t t' p) {ms : List Move}
    (hf : Fits (live d .schema) ms) (hn : Named (live d .schema) ms (nameOf t .schema))
    (hg : Free (p.incr.moves .schema) ms)
    (hnew : ∀ id s, .schemaPut id s ∈ p.incr.heads → get d.schemas id = none)
    (hten : ∀ id s, .schemaErase id ∈ p.incr.heads → get d.schemas id = some s →
      ∀ k, k ≠ (s.tenant, s.name) → get t'.schemaNames k = get t.schemaNames k) :
    Fits (live d .schema) (p.incr.moves .schema ++ ms) ∧
      Named (live d .schema) (p.incr.moves .schema ++ ms) (nameOf t' .schema) := by
  rw [h.moves_schema] at hg ⊢
  have triv : p.incr.heads.filterMap (Write.move .schema) = [] → t'.schemaNames = t.schemaNames →
      Fits (live d .schema) (p.incr.heads.filterMap (Write.move .schema) ++ ms) ∧
      Named (live d .schema) (p.incr.heads.filterMap (Write.move .schema) ++ ms) (nameOf t' .schema) := by
    intro e1 e2
    rw [e1]
    refine ⟨hf, ?_⟩
    unfold nameOf
    rw [e2]; exact hn
  cases h with
  | objs h _ _ _ _ =>
    exact triv (List.filterMap_eq_nil_iff.2 (fun w hw => isTidx_move (h.heads w hw) _)) h.still.schemaNames
  | tenant ws hi _ _ ht hw =>
    refine triv (List.filterMap_eq_nil_iff.2 ?_) (by rw [ht])
    intro w h
    rw [hi] at h
    obtain ⟨id, ⟨e, _⟩ | e⟩ := hw w h <;> rw [e] <;> rfl
  | newSchema id s ids hi _ _ _ hnm _ h1 _ _ =>
    have e : p.incr.heads.filterMap (Write.move .schema) = [.create id (s.tenant, s.name)] := by rw [hi]; rfl
    rw [e] at hg ⊢
    have hl : live d .schema id = none := by
      dsimp only [live]; rw [hnew id s (by rw [hi]; exact List.mem_singleton.2 rfl)]; rfl
    refine ⟨hf.create hn hl (List.nodup_cons.1 hg.once).1 ?_ hnm, hn.create hnm ?_ ?_⟩
    · intro n hm
      exact hg.apart id _ n (List.mem_singleton.2 rfl) (List.mem_append_right _ hm)
    · dsimp only [nameOf]; rw [h1, get_put, if_pos rfl]
    · intro k hk
      dsimp only [nameOf]; rw [h1, get_put, if_neg hk]
  | noSchema id tn s hi _ _ _ hs _ h1 =>
    have e : p.incr.heads.filterMap (Write.move .schema) = [.delete id] := by rw [hi]; rfl
    rw [e] at hg ⊢
    have hl : live d .schema id = some (s.tenant, s.name) := by dsimp only [live]; rw [hs]; rfl
    have ht := (List.nodup_cons.1 hg.once).1
    refine ⟨hf.delete (by rw [hl]; rfl) ht, Named.delete hf hn hl ht ?_⟩
    exact hten id s (by rw [hi]; exact List.mem_singleton.2 rfl) hs
  | ids l ws hi _ _ h1 => exact triv (by rw [hi]; rfl) h1

/-- Giving up a request that drops nothing, and freeing the names it reserved. -/
theorem free_named {lv : Int → Option Key} {new ms : List Move} {names names' : Key → Option Int}
    {freed : Key → Prop} (hf : Fits lv (new ++ ms)) (hn : Named lv (new ++ ms) names) (hd : ∀ i, .delete i ∉ new)
    (h1 : ∀ key, freed key → ∃ id, .create id key ∈ new) (h2 : ∀ key, ¬ freed key → names' key = names key) :
    Fits lv ms ∧ Named lv ms names' := by
  refine ⟨hf.drop hd, ?_⟩
  intro i k hh
  have g : Holds lv (new ++ ms) i k := by
    rcases hh with ⟨a, b⟩ | c
    · refine Or.inl ⟨a, fun hm => ?_⟩
      rcases List.mem_append.1 hm with hm | hm
      · exact hd i hm
      · exact b hm
    · exact Or.inr (List.mem_append_right _ c)
  by_cases hk : freed k
  · obtain ⟨id, hid⟩ := h1 k hk
    have hid' : Move.create id k ∈ new ++ ms := List.mem_append_left _ hid
    have e := hf.uniq i id k g (Or.inr hid')
    subst e
    rcases hh with ⟨a, _⟩ | c
    · have := hf.fresh i k hid'
      rw [a] at this; cases this
    · have := hf.once
      rw [List.filterMap_append] at this
      exact absurd rfl ((List.nodup_append.1 this).2.2 i (mem_targets hid rfl) i (mem_targets c rfl))
  · rw [h2 k hk]; exact hn i k g

end Verif.Meta
