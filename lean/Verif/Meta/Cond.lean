/-
The metadata together with the changes on their way: what holds, and that the changes can be
applied.
-/
import Verif.Meta.Base

namespace Verif.Meta

/-- What a change of a table or of an index needs when it is applied. -/
def OpReady (d : Data) (k : Kind) : ObjOp → Prop
  | .create id r => 0 < id ∧ 0 < r.schema ∧ (get d.schemas r.schema).isSome
  | .update _ _ _ => True
  | .delete id sid => 0 < sid ∧ (get d.schemas sid).isSome ∧ ∃ r, get (d.objs k) id = some r ∧ r.schema = sid

/-- The metadata `d`, with the changes `hs` of schemas and `ops` of tables and indexes on their way. -/
structure Cond (d : Data) (hs : List Write) (ops : List (Kind × ObjOp)) : Prop where
  ok : DataOk d
  fitsS : Fits (live d .schema) (hs.filterMap (Write.move .schema))
  fitsO : ∀ k, Fits (live d (.obj k)) (kMoves k ops)
  ready : ∀ x ∈ ops, OpReady d x.1 x.2
  safe : ∀ x ∈ ops, ∀ sid ∈ x.2.schemas, .schemaErase sid ∉ hs
  ids : ∀ i, (get d.schemas i).isSome → i ≤ d.nextSchema
  objs : ∀ k i r, get (d.objs k) i = some r → 0 < r.schema ∧ r.schema ≤ d.nextSchema
  puts : ∀ id s, .schemaPut id s ∈ hs → 0 < id ∧ (∀ k, s.ids k = []) ∧
    ∀ k i r, get (d.objs k) i = some r → r.schema ≠ id
  erases : ∀ id, .schemaErase id ∈ hs → ∀ i r, get (d.objs .table) i = some r → r.schema ≠ id
  home : ∀ i r, get (d.objs .table) i = some r → (get d.schemas r.schema).isSome
  lists : ∀ k sid s, get d.schemas sid = some s → (s.ids k).Nodup ∧
    ∀ i, i ∈ s.ids k ↔ ∃ r, get (d.objs k) i = some r ∧ r.schema = sid

variable {d d' : Data} {hs hs' : List Write} {ops ops' : List (Kind × ObjOp)}

theorem kMoves_append (k : Kind) (a b : List (Kind × ObjOp)) : kMoves k (a ++ b) = kMoves k a ++ kMoves k b :=
  List.filterMap_append

theorem kMoves_cons (k : Kind) (x : Kind × ObjOp) (l : List (Kind × ObjOp)) :
    kMoves k (x :: l) = if x.1 = k then x.2.move :: kMoves k l else kMoves k l := by
  unfold kMoves
  rw [List.filterMap_cons]
  split <;> simp_all

theorem Cond.perm (h : Cond d hs ops) (p : hs.Perm hs') (q : ops.Perm ops') : Cond d hs' ops' where
  ok := h.ok
  fitsS := h.fitsS.perm (p.filterMap _)
  fitsO k := (h.fitsO k).perm (kMoves_perm q k)
  ready x hx := h.ready x (q.mem_iff.2 hx)
  safe x hx sid hsid hm := h.safe x (q.mem_iff.2 hx) sid hsid (p.mem_iff.2 hm)
  ids := h.ids
  objs := h.objs
  puts id s hm := h.puts id s (p.mem_iff.2 hm)
  erases id hm := h.erases id (p.mem_iff.2 hm)
  home := h.home
  lists := h.lists

/-- Giving up changes none of which is a drop. -/
theorem Cond.drop (h : Cond d (hs' ++ hs) (ops' ++ ops)) (h1 : ∀ id, .schemaErase id ∉ hs')
    (h2 : ∀ k id sid, (k, ObjOp.delete id sid) ∉ ops') : Cond d hs ops where
  ok := h.ok
  fitsS := by
    refine Fits.drop (ms := hs'.filterMap (Write.move .schema)) ?_ (List.filterMap_append ▸ h.fitsS)
    intro i hm
    obtain ⟨w, hw, e⟩ := List.mem_filterMap.1 hm
    cases w <;> simp [Write.move] at e
    subst e
    exact h1 _ hw
  fitsO k := by
    refine Fits.drop (ms := kMoves k ops') ?_ (kMoves_append k ops' ops ▸ h.fitsO k)
    intro i hm
    obtain ⟨x, hx, e⟩ := List.mem_filterMap.1 hm
    obtain ⟨k', op⟩ := x
    dsimp only at e
    split at e
    · cases op <;> simp [ObjOp.move] at e
      exact h2 _ _ _ hx
    · cases e
  ready x hx := h.ready x (List.mem_append_right _ hx)
  safe x hx sid hsid hm := h.safe x (List.mem_append_right _ hx) sid hsid (List.mem_append_right _ hm)
  ids := h.ids
  objs := h.objs
  puts id s hm := h.puts id s (List.mem_append_right _ hm)
  erases id hm := h.erases id (List.mem_append_right _ hm)
  home := h.home
  lists := h.lists

/-- Other parts of the metadata change. -/
theorem Cond.frame (h : Cond d hs ops) (e1 : d'.schemas = d.schemas) (e2 : d'.objs = d.objs)
    (e3 : d.nextSchema ≤ d'.nextSchema) : Cond d' hs ops := by
  have el : ∀ c, live d' c = live d c := by
    intro c
    funext i
    cases c <;> dsimp only [live]
    · rw [e1]
    · rw [e2]
  refine { ok := ⟨e1 ▸ h.ok.schemas, e2 ▸ h.ok.objs⟩, fitsS := el .schema ▸ h.fitsS, fitsO := fun k => el (.obj k) ▸ h.fitsO k,
           ready := ?_, safe := h.safe, ids := ?_, objs := ?_, puts := ?_, erases := ?_, home := ?_, lists := ?_ }
  · intro x hx
    have := h.ready x hx
    obtain ⟨k, op⟩ := x
    cases op <;> dsimp only [OpReady] at * <;> simp only [e1, e2] <;> exact this
  · intro i hi; rw [e1] at hi; have := h.ids i hi; omega
  · intro k i r hr; rw [e2] at hr; have := h.objs k i r hr; omega
  · intro id s hm; rw [e2]; exact h.puts id s hm
  · intro id hm; rw [e2]; exact h.erases id hm
  · intro i r; rw [e1, e2]; exact h.home i r
  · intro k sid s; rw [e1, e2]; exact h.lists k sid s

/-- A head that is not about schemas. -/
theorem Cond.skip {w : Write} (h1 : ∀ id s, w ≠ .schemaPut id s) (h2 : ∀ id, w ≠ .schemaErase id) :
    Cond d (w :: hs) ops ↔ Cond d hs ops := by
  have e : (w :: hs).filterMap (Write.move .schema) = hs.filterMap (Write.move .schema) := by
    rw [List.filterMap_cons]
    cases w <;> first | rfl | exact absurd rfl (h1 _ _) | exact absurd rfl (h2 _)
  constructor
  · intro h
    exact { h with
      fitsS := e ▸ h.fitsS
      safe := fun x hx sid hsid hm => h.safe x hx sid hsid (List.mem_cons_of_mem _ hm)
      puts := fun id s hm => h.puts id s (List.mem_cons_of_mem _ hm)
      erases := fun id hm => h.erases id (List.mem_cons_of_mem _ hm) }
  · intro h
    refine { h with fitsS := e ▸ h.fitsS, safe := ?_, puts := ?_, erases := ?_ }
    · intro x hx sid hsid hm
      rcases List.mem_cons.1 hm with e | hm
      · exact h2 _ e.symm
      · exact h.safe x hx sid hsid hm
    · intro id s hm
      rcases List.mem_cons.1 hm with e | hm
      · exact absurd e.symm (h1 _ _)
      · exact h.puts id s hm
    · intro id hm
      rcases List.mem_cons.1 hm with e | hm
      · exact absurd e.symm (h2 _)
      · exact h.erases id hm

/-! ## Schemas -/

/-- A new schema is written, and its id. -/
theorem Cond.putSchema {id : Int} {s : Schema} (h : Cond d (.schemaPut id s :: hs) ops)
    (es : d'.schemas = put d.schemas id s) (eo : d'.objs = d.objs) (e1 : d.nextSchema ≤ d'.nextSchema)
    (e2 : id ≤ d'.nextSchema) : Cond d' hs ops := by
  obtain ⟨p1, p2, p3⟩ := h.puts id s List.mem_cons_self
  have hfr : get d.schemas id = none := by
    have := h.fitsS.fresh id (s.tenant, s.name) List.mem_cons_self
    dsimp only [live] at this
    cases hg : get d.schemas id with
    | none => rfl
    | some x => rw [hg] at this; cases this
  have hg : ∀ i, get d'.schemas i = if i = id then some s else get d.schemas i := by
    intro i; rw [es, get_put]
  have mono : ∀ i, (get d.schemas i).isSome → (get d'.schemas i).isSome := by
    intro i hi; rw [hg]; split
    · rfl
    · exact hi
  refine { ok := ⟨es ▸ h.ok.schemas.put _ _, eo ▸ h.ok.objs⟩, fitsS := ?_, fitsO := ?_, ready := ?_, safe := ?_,
           ids := ?_, objs := ?_, puts := ?_, erases := ?_, home := ?_, lists := ?_ }
  · have := Fits.act (m := .create id (s.tenant, s.name)) h.fitsS
    have e : live d' .schema = Move.act (live d .schema) (.create id (s.tenant, s.name)) := by
      funext i
      dsimp only [live, Move.act]
      rw [hg]
      split <;> rfl
    rw [e]; exact this
  · intro k
    have e : live d' (.obj k) = live d (.obj k) := by funext i; dsimp only [live]; rw [eo]
    rw [e]; exact h.fitsO k
  · intro x hx
    have := h.ready x hx
    obtain ⟨k, op⟩ := x
    cases op <;> dsimp only [OpReady] at *
    · exact ⟨this.1, this.2.1, mono _ this.2.2⟩
    · rw [eo]; exact ⟨this.1, mono _ this.2.1, this.2.2⟩
  · intro x hx sid hsid hm; exact h.safe x hx sid hsid (List.mem_cons_of_mem _ hm)
  · intro i hi
    rw [hg] at hi
    split at hi
    · rename_i e; rw [e]; exact e2
    · have := h.ids i hi; omega
  · intro k i r hr; rw [eo] at hr; have := h.objs k i r hr; omega
  · intro i x hm; rw [eo]; exact h.puts i x (List.mem_cons_of_mem _ hm)
  · intro i hm; rw [eo]; exact h.erases i (List.mem_cons_of_mem _ hm)
  · intro i r hr; rw [eo] at hr; exact mono _ (h.home i r hr)
  · intro k sid x hx
    rw [hg] at hx
    rw [eo]
    split at hx
    · rename_i e
      cases hx
      rw [p2 k]
      refine ⟨List.nodup_nil, fun i => ⟨by simp, ?_⟩⟩
      rintro ⟨r, hr, er⟩
      exact absurd (er.trans e) (p3 k i r hr)
    · exact h.lists k sid x hx

/-- A schema is dropped. -/
theorem Cond.eraseSchema {id : Int} (h : Cond d (.schemaErase id :: hs) ops)
    (es : d'.schemas = erase d.schemas id) (eo : d'.objs = d.objs) (e1 : d.nextSchema ≤ d'.nextSchema) :
    Cond d' hs ops := by
  have he := h.erases id List.mem_cons_self
  have hg : ∀ i, get d'.schemas i = if i = id then none else get d.schemas i := by
    intro i; rw [es, get_erase]
  have keep : ∀ i, i ≠ id → (get d.schemas i).isSome → (get d'.schemas i).isSome := by
    intro i hi h; rw [hg, if_neg hi]; exact h
  have drop : ∀ i s, get d'.schemas i = some s → get d.schemas i = some s := by
    intro i s hi; rw [hg] at hi; split at hi
    · cases hi
    · exact hi
  refine { ok := ⟨es ▸ h.ok.schemas.erase _, eo ▸ h.ok.objs⟩, fitsS := ?_, fitsO := ?_, ready := ?_, safe := ?_,
           ids := ?_, objs := ?_, puts := ?_, erases := ?_, home := ?_, lists := ?_ }
  · have := Fits.act (m := .delete id) h.fitsS
    have e : live d' .schema = Move.act (live d .schema) (.delete id) := by
      funext i
      dsimp only [live, Move.act]
      rw [hg]
      split <;> rfl
    rw [e]; exact this
  · intro k
    have e : live d' (.obj k) = live d (.obj k) := by funext i; dsimp only [live]; rw [eo]
    rw [e]; exact h.fitsO k
  · intro x hx
    have h1 := h.ready x hx
    have h2 := h.safe x hx
    obtain ⟨k, op⟩ := x
    cases op <;> dsimp only [OpReady, ObjOp.schemas] at *
    · refine ⟨h1.1, h1.2.1, keep _ ?_ h1.2.2⟩
      intro e
      exact h2 _ List.mem_cons_self (e ▸ List.mem_cons_self)
    · rw [eo]
      refine ⟨h1.1, keep _ ?_ h1.2.1, h1.2.2⟩
      intro e
      exact h2 _ List.mem_cons_self (e ▸ List.mem_cons_self)
  · intro x hx sid hsid hm; exact h.safe x hx sid hsid (List.mem_cons_of_mem _ hm)
  · intro i hi
    rw [hg] at hi
    split at hi
    · cases hi
    · have := h.ids i hi; omega
  · intro k i r hr; rw [eo] at hr; have := h.objs k i r hr; omega
  · intro i x hm; rw [eo]; exact h.puts i x (List.mem_cons_of_mem _ hm)
  · intro i hm; rw [eo]; exact h.erases i (List.mem_cons_of_mem _ hm)
  · intro i r hr; rw [eo] at hr; exact keep _ (he i r hr) (h.home i r hr)
  · intro k sid x hx; rw [eo]; exact h.lists k sid x (drop _ _ hx)

/-! ## Tables and indexes -/

theorem get_setIds_schemas {m : Map Int Schema} {sid : Int} {s : Schema} {k : Kind} {l : List Int} (hs : get m sid = some s) (i : Int) :
    (get (put m sid (setIds s k l)) i).isSome = (get m i).isSome := by
  rw [get_put]
  split
  · rename_i e; rw [e, hs]; rfl
  · rfl

theorem live_setIds {m : Map Int Schema} {sid : Int} {s : Schema} {k : Kind} {l : List Int} (hs : get m sid = some s) (i : Int) :
    (get (put m sid (setIds s k l)) i).map (fun s => (s.tenant, s.name)) = (get m i).map (fun s => (s.tenant, s.name)) := by
  rw [get_put]
  split
  · rename_i e; rw [e, hs]; rfl
  · rfl

/-- What stays when tables and indexes change. -/
structure Kept (d d' : Data) : Prop where
  nextSchema : d'.nextSchema = d.nextSchema
  nextTable : d'.nextTable = d.nextTable
  tenants : d'.tenants = d.tenants
  tidx : d'.tidx = d.tidx

theorem Cond.create {k : Kind} {id : Int} {r : Obj} (h : Cond d hs ((k, .create id r) :: ops)) :
    ∃ d', execAll d (ObjOp.writes k (.create id r)) = some d' ∧ Cond d' hs ops ∧ Kept d d' := by
  obtain ⟨r1, r2, r3⟩ := h.ready _ List.mem_cons_self
  obtain ⟨s, hs'⟩ := Option.isSome_iff_exists.1 r3
  have hfit := h.fitsO k
  rw [kMoves_cons, if_pos rfl] at hfit
  have hfr : get (d.objs k) id = none := by
    have := hfit.fresh id (r.schema, r.name) List.mem_cons_self
    dsimp only [live] at this
    cases hg : get (d.objs k) id with
    | none => rfl
    | some x => rw [hg] at this; cases this
  have hnot : ∀ sid x, get d.schemas sid = some x → id ∉ x.ids k := by
    intro sid x hx hm
    obtain ⟨r', hr', _⟩ := ((h.lists k sid x hx).2 id).1 hm
    rw [hfr] at hr'; cases hr'
  have hne : ∀ x ∈ ops, x.1 = k → ∀ sid, x.2 ≠ .delete id sid := by
    intro x hx e sid ex
    have h1 := hfit.once
    have h2 := (List.nodup_cons.1 h1).1
    refine h2 (mem_targets (m := .delete id) ?_ rfl)
    refine List.mem_filterMap.2 ⟨x, hx, ?_⟩
    rw [if_pos e, ex]; rfl
  refine ⟨{ d with objs := (setObjs d k (put (d.objs k) id r)).objs, schemas := put d.schemas r.schema (setIds s k (s.ids k ++ [id])) }, ?_, ?_, ⟨rfl, rfl, rfl, rfl⟩⟩
  · unfold ObjOp.writes
    rw [execAll, Write.exec, if_neg (by omega)]
    dsimp only
    rw [execAll, Write.exec]
    rw [show (setObjs d k (put (d.objs k) id r)).schemas = d.schemas from rfl, hs']
    dsimp only
    rw [if_neg (by omega)]
    rfl
  · have hgo : ∀ k' i, get ((setObjs d k (put (d.objs k) id r)).objs k') i =
        if k' = k ∧ i = id then some r else get (d.objs k') i := by
      intro k' i
      rw [setObjs_objs]
      by_cases e : k' = k
      · subst e
        rw [if_pos rfl, get_put]
        simp
      · rw [if_neg e, if_neg (fun c => e c.1)]
    refine { ok := ⟨h.ok.schemas.put _ _, ?_⟩, fitsS := ?_, fitsO := ?_, ready := ?_, safe := ?_,
             ids := ?_, objs := ?_, puts := ?_, erases := ?_, home := ?_, lists := ?_ }
    · intro k'
      dsimp only
      rw [setObjs_objs]
      split
      · exact (h.ok.objs k).put _ _
      · exact h.ok.objs k'
    · have e : live { d with objs := (setObjs d k (put (d.objs k) id r)).objs, schemas := put d.schemas r.schema (setIds s k (s.ids k ++ [id])) } .schema = live d .schema := by
        funext i
        exact live_setIds hs' i
      rw [e]; exact h.fitsS
    · intro k'
      by_cases e : k' = k
      · subst e
        have := Fits.act hfit
        have e : live { d with objs := (setObjs d k' (put (d.objs k') id r)).objs, schemas := put d.schemas r.schema (setIds s k' (s.ids k' ++ [id])) } (.obj k') =
            Move.act (live d (.obj k')) (ObjOp.move (.create id r)) := by
          funext i
          dsimp only [live, Move.act, ObjOp.move]
          rw [hgo]
          by_cases c : i = id <;> simp [c]
        rw [e]; exact this
      · have := h.fitsO k'
        rw [kMoves_cons, if_neg (fun c => e c.symm)] at this
        have e : live { d with objs := (setObjs d k (put (d.objs k) id r)).objs, schemas := put d.schemas r.schema (setIds s k (s.ids k ++ [id])) } (.obj k') = live d (.obj k') := by
          funext i
          dsimp only [live]
          rw [hgo, if_neg (fun c => e c.1)]
        rw [e]; exact this
    · intro x hx
      have h1 := h.ready x (List.mem_cons_of_mem _ hx)
      have h2 := hne x hx
      obtain ⟨k', op⟩ := x
      cases op <;> dsimp only [OpReady] at *
      · rw [get_setIds_schemas hs']; exact h1
      · rename_i id' sid'
        rw [get_setIds_schemas hs']
        obtain ⟨a, b, r', c, e⟩ := h1
        refine ⟨a, b, r', ?_, e⟩
        rw [hgo, if_neg]
        · exact c
        · rintro ⟨ek, ei⟩
          exact h2 ek sid' (by rw [ei])
    · intro x hx; exact h.safe x (List.mem_cons_of_mem _ hx)
    · intro i hi
      dsimp only at hi
      rw [get_setIds_schemas hs'] at hi
      exact h.ids i hi
    · intro k' i x hx
      dsimp only at hx
      rw [hgo] at hx
      split at hx
      · cases hx; exact ⟨r2, h.ids _ r3⟩
      · exact h.objs k' i x hx
    · intro i x hm
      obtain ⟨a, b, c⟩ := h.puts i x hm
      refine ⟨a, b, ?_⟩
      intro k' j y hy
      dsimp only at hy
      rw [hgo] at hy
      split at hy
      · cases hy
        intro e
        have := h.fitsS.fresh i (x.tenant, x.name) (List.mem_filterMap.2 ⟨_, hm, rfl⟩)
        dsimp only [live] at this
        rw [← e, hs'] at this
        cases this
      · exact c k' j y hy
    · intro i hm j y hy
      dsimp only at hy
      rw [hgo] at hy
      split at hy
      · cases hy
        intro e
        exact h.safe _ List.mem_cons_self _ List.mem_cons_self (e ▸ hm)
      · exact h.erases i hm j y hy
    · intro i x hx
      dsimp only at hx ⊢
      rw [get_setIds_schemas hs']
      rw [hgo] at hx
      split at hx
      · cases hx; exact r3
      · exact h.home i x hx
    · intro k' sid x hx
      dsimp only at hx ⊢
      rw [get_put] at hx
      have hrw : ∀ i sid, (∃ r', get ((setObjs d k (put (d.objs k) id r)).objs k') i = some r' ∧ r'.schema = sid) ↔
          (if k' = k ∧ i = id then r.schema = sid else ∃ r', get (d.objs k') i = some r' ∧ r'.schema = sid) := by
        intro i sid
        rw [hgo]
        split
        · constructor
          · rintro ⟨r', e, e2⟩; cases e; exact e2
          · intro e; exact ⟨r, rfl, e⟩
        · exact Iff.rfl
      split at hx
      · rename_i e
        cases hx
        obtain ⟨l1, l2⟩ := h.lists k' r.schema s hs'
        dsimp only [setIds]
        by_cases ek : k' = k
        · subst ek
          rw [if_pos rfl]
          refine ⟨List.nodup_append.2 ⟨l1, by simp, ?_⟩, ?_⟩
          · intro a ha b hb e
            rw [List.mem_singleton.1 hb] at e
            exact hnot _ _ hs' (e ▸ ha)
          · intro i
            rw [hrw, List.mem_append, List.mem_singleton, l2 i, e]
            by_cases c : i = id
            · simp [c]
            · simp [c]
        · rw [if_neg ek]
          refine ⟨l1, fun i => ?_⟩
          rw [hrw, if_neg (fun c => ek c.1), l2 i, e]
      · rename_i e
        obtain ⟨l1, l2⟩ := h.lists k' sid x hx
        refine ⟨l1, fun i => ?_⟩
        rw [hrw]
        split
        · rename_i c
          obtain ⟨rfl, rfl⟩ := c
          constructor
          · intro hm; exact absurd hm (hnot _ _ hx)
          · intro e'; exact absurd e'.symm e
        · exact l2 i

theorem Cond.update {k : Kind} {id : Int} {n : Name} {df : Nat} (h : Cond d hs ((k, .update id n df) :: ops)) :
    ∃ d', execAll d (ObjOp.writes k (.update id n df)) = some d' ∧ Cond d' hs ops ∧ Kept d d' := by
  have hfit := h.fitsO k
  rw [kMoves_cons, if_pos rfl] at hfit
  have hfo : ∀ k', Fits (live d (.obj k')) (kMoves k' ops) := by
    intro k'
    by_cases e : k' = k
    · subst e
      have := Fits.act hfit
      rw [show ObjOp.move (.update id n df) = Move.rename id n from rfl] at hfit this
      rw [act_rename_eq hfit] at this
      exact this
    · have := h.fitsO k'
      rw [kMoves_cons, if_neg (fun c => e c.symm)] at this
      exact this
  cases hg : get (d.objs k) id with
  | none =>
    refine ⟨d, ?_, ?_, ⟨rfl, rfl, rfl, rfl⟩⟩
    · unfold ObjOp.writes
      rw [execAll, Write.exec, hg]
      rfl
    · exact { h with fitsO := hfo, ready := fun x hx => h.ready x (List.mem_cons_of_mem _ hx),
                     safe := fun x hx => h.safe x (List.mem_cons_of_mem _ hx) }
  | some r =>
    have hname : r.name = n := by
      refine hfit.same id n List.mem_cons_self (r.schema, r.name) ?_
      dsimp only [live]; rw [hg]; rfl
    refine ⟨setObjs d k (put (d.objs k) id { r with name := n, defn := df }), ?_, ?_, ⟨rfl, rfl, rfl, rfl⟩⟩
    · unfold ObjOp.writes
      rw [execAll, Write.exec, hg]
      rfl
    · have hgo : ∀ k' i, get ((setObjs d k (put (d.objs k) id { r with name := n, defn := df })).objs k') i =
          if k' = k ∧ i = id then some { r with name := n, defn := df } else get (d.objs k') i := by
        intro k' i
        rw [setObjs_objs]
        by_cases e : k' = k
        · subst e
          rw [if_pos rfl, get_put]
          simp
        · rw [if_neg e, if_neg (fun c => e c.1)]
      have hsch : ∀ k' i x, get ((setObjs d k (put (d.objs k) id { r with name := n, defn := df })).objs k') i = some x →
          ∃ y, get (d.objs k') i = some y ∧ y.schema = x.schema := by
        intro k' i x hx
        rw [hgo] at hx
        split at hx
        · rename_i c
          obtain ⟨rfl, rfl⟩ := c
          cases hx
          exact ⟨r, hg, rfl⟩
        · exact ⟨x, hx, rfl⟩
      have hsch' : ∀ k' i y, get (d.objs k') i = some y →
          ∃ x, get ((setObjs d k (put (d.objs k) id { r with name := n, defn := df })).objs k') i = some x ∧
            x.schema = y.schema := by
        intro k' i y hy
        rw [hgo]
        split
        · rename_i c
          obtain ⟨rfl, rfl⟩ := c
          rw [hg] at hy
          cases hy
          exact ⟨_, rfl, rfl⟩
        · exact ⟨y, hy, rfl⟩
      have hlv : ∀ c, live (setObjs d k (put (d.objs k) id { r with name := n, defn := df })) c = live d c := by
        intro c
        cases c with
        | schema => rfl
        | obj k' =>
          funext i
          dsimp only [live]
          rw [hgo]
          split
          · rename_i c
            obtain ⟨rfl, rfl⟩ := c
            rw [hg]
            simp [hname]
          · rfl
      refine { ok := ⟨h.ok.schemas, ?_⟩, fitsS := h.fitsS, fitsO := fun k' => hlv (.obj k') ▸ hfo k', ready := ?_,
               safe := fun x hx => h.safe x (List.mem_cons_of_mem _ hx),
               ids := h.ids, objs := ?_, puts := ?_, erases := ?_, home := ?_, lists := ?_ }
      · intro k'
        rw [setObjs_objs]
        split
        · exact (h.ok.objs k).put _ _
        · exact h.ok.objs k'
      · intro x hx
        have h1 := h.ready x (List.mem_cons_of_mem _ hx)
        obtain ⟨k', op⟩ := x
        cases op <;> dsimp only [OpReady] at *
        · exact h1
        · obtain ⟨a, b, y, hy, e⟩ := h1
          obtain ⟨x, hx', e'⟩ := hsch' _ _ _ hy
          exact ⟨a, b, x, hx', e'.trans e⟩
      · intro k' i x hx
        obtain ⟨y, hy, e⟩ := hsch _ _ _ hx
        rw [← e]
        exact h.objs k' i y hy
      · intro i s hm
        obtain ⟨a, b, c⟩ := h.puts i s hm
        refine ⟨a, b, fun k' j x hx => ?_⟩
        obtain ⟨y, hy, e⟩ := hsch _ _ _ hx
        rw [← e]
        exact c k' j y hy
      · intro i hm j x hx
        obtain ⟨y, hy, e⟩ := hsch _ _ _ hx
        rw [← e]
        exact h.erases i hm j y hy
      · intro i x hx
        obtain ⟨y, hy, e⟩ := hsch _ _ _ hx
        rw [← e]
        exact h.home i y hy
      · intro k' sid s hs'
        obtain ⟨l1, l2⟩ := h.lists k' sid s hs'
        refine ⟨l1, fun i => (l2 i).trans ⟨?_, ?_⟩⟩
        · rintro ⟨y, hy, e⟩
          obtain ⟨x, hx', e'⟩ := hsch' _ _ _ hy
          exact ⟨x, hx', e'.trans e⟩
        · rintro ⟨x, hx, e⟩
          obtain ⟨y, hy, e'⟩ := hsch _ _ _ hx
          exact ⟨y, hy, e'.trans e⟩

theorem Cond.delete {k : Kind} {id sid : Int} (h : Cond d hs ((k, .delete id sid) :: ops)) :
    ∃ d', execAll d (ObjOp.writes k (.delete id sid)) = some d' ∧ Cond d' hs ops ∧ Kept d d' := by
  obtain ⟨r1, r2, r, hr, er⟩ := h.ready _ List.mem_cons_self
  obtain ⟨s, hs'⟩ := Option.isSome_iff_exists.1 r2
  dsimp only at hr
  have hfit := h.fitsO k
  rw [kMoves_cons, if_pos rfl] at hfit
  have hne : ∀ x ∈ ops, x.1 = k → ∀ sid, x.2 ≠ .delete id sid := by
    intro x hx e sid ex
    have h1 := hfit.once
    have h2 := (List.nodup_cons.1 h1).1
    refine h2 (mem_targets (m := .delete id) ?_ rfl)
    refine List.mem_filterMap.2 ⟨x, hx, ?_⟩
    rw [if_pos e, ex]; rfl
  refine ⟨{ d with objs := (setObjs d k (erase (d.objs k) id)).objs, schemas := put d.schemas sid (setIds s k ((s.ids k).filter (· ≠ id))) }, ?_, ?_, ⟨rfl, rfl, rfl, rfl⟩⟩
  · unfold ObjOp.writes
    rw [execAll, Write.exec, hs']
    dsimp only
    rw [if_neg (by omega)]
    rfl
  · have hgo : ∀ k' i, get ((setObjs d k (erase (d.objs k) id)).objs k') i =
        if k' = k ∧ i = id then none else get (d.objs k') i := by
      intro k' i
      rw [setObjs_objs]
      by_cases e : k' = k
      · subst e
        rw [if_pos rfl, get_erase]
        simp
      · rw [if_neg e, if_neg (fun c => e c.1)]
    have hsub : ∀ k' i x, get ((setObjs d k (erase (d.objs k) id)).objs k') i = some x →
        get (d.objs k') i = some x := by
      intro k' i x hx
      rw [hgo] at hx
      split at hx
      · cases hx
      · exact hx
    refine { ok := ⟨h.ok.schemas.put _ _, ?_⟩, fitsS := ?_, fitsO := ?_, ready := ?_, safe := ?_,
             ids := ?_, objs := ?_, puts := ?_, erases := ?_, home := ?_, lists := ?_ }
    · intro k'
      dsimp only
      rw [setObjs_objs]
      split
      · exact (h.ok.objs k).erase _
      · exact h.ok.objs k'
    · have e : live { d with objs := (setObjs d k (erase (d.objs k) id)).objs, schemas := put d.schemas sid (setIds s k ((s.ids k).filter (· ≠ id))) } .schema = live d .schema := by
        funext i
        exact live_setIds hs' i
      rw [e]; exact h.fitsS
    · intro k'
      by_cases e : k' = k
      · subst e
        have := Fits.act hfit
        have e : live { d with objs := (setObjs d k' (erase (d.objs k') id)).objs, schemas := put d.schemas sid (setIds s k' ((s.ids k').filter (· ≠ id))) } (.obj k') =
            Move.act (live d (.obj k')) (ObjOp.move (.delete id sid)) := by
          funext i
          dsimp only [live, Move.act, ObjOp.move]
          rw [hgo]
          by_cases c : i = id <;> simp [c]
        rw [e]; exact this
      · have := h.fitsO k'
        rw [kMoves_cons, if_neg (fun c => e c.symm)] at this
        have e : live { d with objs := (setObjs d k (erase (d.objs k) id)).objs, schemas := put d.schemas sid (setIds s k ((s.ids k).filter (· ≠ id))) } (.obj k') = live d (.obj k') := by
          funext i
          dsimp only [live]
          rw [hgo, if_neg (fun c => e c.1)]
        rw [e]; exact this
    · intro x hx
      have h1 := h.ready x (List.mem_cons_of_mem _ hx)
      have h2 := hne x hx
      obtain ⟨k', op⟩ := x
      cases op <;> dsimp only [OpReady] at *
      · rw [get_setIds_schemas hs']; exact h1
      · rename_i id' sid'
        rw [get_setIds_schemas hs']
        obtain ⟨a, b, r', c, e⟩ := h1
        refine ⟨a, b, r', ?_, e⟩
        rw [hgo, if_neg]
        · exact c
        · rintro ⟨ek, ei⟩
          exact h2 ek sid' (by rw [ei])
    · intro x hx; exact h.safe x (List.mem_cons_of_mem _ hx)
    · intro i hi
      dsimp only at hi
      rw [get_setIds_schemas hs'] at hi
      exact h.ids i hi
    · intro k' i x hx; exact h.objs k' i x (hsub _ _ _ hx)
    · intro i x hm
      obtain ⟨a, b, c⟩ := h.puts i x hm
      exact ⟨a, b, fun k' j y hy => c k' j y (hsub _ _ _ hy)⟩
    · intro i hm j y hy; exact h.erases i hm j y (hsub _ _ _ hy)
    · intro i x hx
      dsimp only at hx ⊢
      rw [get_setIds_schemas hs']
      exact h.home i x (hsub _ _ _ hx)
    · intro k' sid' x hx
      dsimp only at hx ⊢
      rw [get_put] at hx
      have hrw : ∀ i sid, (∃ r', get ((setObjs d k (erase (d.objs k) id)).objs k') i = some r' ∧ r'.schema = sid) ↔
          (¬ (k' = k ∧ i = id) ∧ ∃ r', get (d.objs k') i = some r' ∧ r'.schema = sid) := by
        intro i sid
        rw [hgo]
        split
        · rename_i c
          constructor
          · rintro ⟨r', e, e2⟩; cases e
          · rintro ⟨a, _⟩; exact absurd c a
        · rename_i c
          exact ⟨fun h => ⟨c, h⟩, fun h => h.2⟩
      split at hx
      · rename_i e
        cases hx
        obtain ⟨l1, l2⟩ := h.lists k' sid s hs'
        dsimp only [setIds]
        by_cases ek : k' = k
        · subst ek
          rw [if_pos rfl]
          refine ⟨l1.sublist List.filter_sublist, ?_⟩
          intro i
          rw [hrw, List.mem_filter, l2 i, e]
          simp only [true_and, decide_eq_true_eq, ne_eq, decide_not, Bool.not_eq_eq_eq_not, Bool.not_true, decide_eq_false_iff_not]
          exact And.comm
        · rw [if_neg ek]
          refine ⟨l1, fun i => ?_⟩
          rw [hrw, l2 i, e]
          exact ⟨fun h => ⟨fun c => ek c.1, h⟩, fun h => h.2⟩
      · rename_i e
        obtain ⟨l1, l2⟩ := h.lists k' sid' x hx
        refine ⟨l1, fun i => ?_⟩
        rw [hrw, l2 i]
        refine ⟨fun hh => ⟨?_, hh⟩, fun hh => hh.2⟩
        rintro ⟨rfl, rfl⟩
        obtain ⟨y, hy, ey⟩ := hh
        rw [hr] at hy
        cases hy
        exact e (ey.symm.trans er)

/-- A change of a table or of an index can be applied. -/
theorem Cond.op {k : Kind} {op : ObjOp} (h : Cond d hs ((k, op) :: ops)) :
    ∃ d', execAll d (op.writes k) = some d' ∧ Cond d' hs ops ∧ Kept d d' := by
  cases op with
  | create id r => exact h.create
  | update id n df => exact h.update
  | delete id sid => exact h.delete

theorem Cond.applyOps {k : Kind} {l : List ObjOp} : ∀ {d : Data}, Cond d hs (l.map (fun op => (k, op)) ++ ops) →
    ∃ d', execAll d (l.flatMap (ObjOp.writes k)) = some d' ∧ Cond d' hs ops ∧ Kept d d' := by
  induction l with
  | nil => intro d h; exact ⟨d, rfl, h, ⟨rfl, rfl, rfl, rfl⟩⟩
  | cons op l ih =>
    intro d h
    obtain ⟨d1, e1, h1, k1⟩ := Cond.op h
    obtain ⟨d2, e2, h2, k2⟩ := ih h1
    refine ⟨d2, ?_, h2, ⟨k2.1.trans k1.1, k2.2.trans k1.2, k2.3.trans k1.3, k2.4.trans k1.4⟩⟩
    rw [List.flatMap_cons, execAll_append, e1]
    exact e2

theorem Cond.all {i : Incr} (h : Cond d hs (i.all ++ ops)) :
    ∃ d', execAll d (i.indexes.flatMap (ObjOp.writes .index) ++ i.tables.flatMap (ObjOp.writes .table)) = some d' ∧
      Cond d' hs ops ∧ Kept d d' := by
  unfold Incr.all at h
  rw [List.append_assoc] at h
  obtain ⟨d1, e1, h1, k1⟩ := Cond.applyOps h
  obtain ⟨d2, e2, h2, k2⟩ := Cond.applyOps h1
  refine ⟨d2, ?_, h2, ⟨k2.1.trans k1.1, k2.2.trans k1.2, k2.3.trans k1.3, k2.4.trans k1.4⟩⟩
  rw [execAll_append, e1]
  exact e2

/-! ## Heads -/

theorem execAll_tidx {ws : List Write} (hw : ∀ w ∈ ws, w.isTidx) : ∀ (d : Data),
    ∃ m, execAll d ws = some { d with tidx := m } := by
  induction ws with
  | nil => intro d; exact ⟨d.tidx, rfl⟩
  | cons w ws ih =>
    intro d
    have h1 := hw w List.mem_cons_self
    have ih := ih (fun w hm => hw w (List.mem_cons_of_mem _ hm))
    have : ∃ m, w.exec d = some { d with tidx := m } := by
      cases w <;> first | cases h1 | skip
      case tidxPut t l => exact ⟨_, by dsimp only [Write.exec]; rw [if_neg h1]⟩
      case tidxErase t => exact ⟨_, rfl⟩
      case tidxAddDel t a b =>
        cases hg : get d.tidx t with
        | none => exact ⟨d.tidx, by dsimp only [Write.exec]; rw [hg]⟩
        | some l => exact ⟨_, by dsimp only [Write.exec]; rw [hg]⟩
    obtain ⟨m, e⟩ := this
    obtain ⟨m', e'⟩ := ih { d with tidx := m }
    exact ⟨m', by rw [execAll, e]; exact e'⟩

theorem execAll_tenants {ws : List Write} (hw : ∀ w ∈ ws, ∃ id, (w = .tenantPut id ∧ id ≠ 0) ∨ w = .tenantErase id) :
    ∀ (d : Data), ∃ m, execAll d ws = some { d with tenants := m } := by
  induction ws with
  | nil => intro d; exact ⟨d.tenants, rfl⟩
  | cons w ws ih =>
    intro d
    obtain ⟨id, h1⟩ := hw w List.mem_cons_self
    have ih := ih (fun w hm => hw w (List.mem_cons_of_mem _ hm))
    have : ∃ m, w.exec d = some { d with tenants := m } := by
      rcases h1 with ⟨rfl, h0⟩ | rfl
      · exact ⟨_, by dsimp only [Write.exec]; rw [if_neg h0]⟩
      · exact ⟨_, rfl⟩
    obtain ⟨m, e⟩ := this
    obtain ⟨m', e'⟩ := ih { d with tenants := m }
    exact ⟨m', by rw [execAll, e]; exact e'⟩

theorem execAll_ids {ws : List Write} (hw : ∀ w ∈ ws, ∃ v, w = .nextTable v) :
    ∀ (d : Data), ∃ v, execAll d ws = some { d with nextTable := v } := by
  induction ws with
  | nil => intro d; exact ⟨d.nextTable, rfl⟩
  | cons w ws ih =>
    intro d
    obtain ⟨v, rfl⟩ := hw w List.mem_cons_self
    obtain ⟨m', e'⟩ := ih (fun w hm => hw w (List.mem_cons_of_mem _ hm)) { d with nextTable := max d.nextTable v }
    exact ⟨m', by rw [execAll]; exact e'⟩

theorem Cond.skips {l : List Write} (h1 : ∀ w ∈ l, ∀ id s, w ≠ .schemaPut id s)
    (h2 : ∀ w ∈ l, ∀ id, w ≠ .schemaErase id) : Cond d (l ++ hs) ops ↔ Cond d hs ops := by
  induction l with
  | nil => exact Iff.rfl
  | cons w l ih =>
    rw [List.cons_append, Cond.skip (h1 w List.mem_cons_self) (h2 w List.mem_cons_self)]
    exact ih (fun w hm => h1 w (List.mem_cons_of_mem _ hm)) (fun w hm => h2 w (List.mem_cons_of_mem _ hm))

theorem isTidx_schema {w : Write} (h : w.isTidx) : (∀ id s, w ≠ .schemaPut id s) ∧ ∀ id, w ≠ .schemaErase id := by
  cases w <;> first | exact (show False from h).elim | exact ⟨nofun, nofun⟩

/-- The new schema of an entry has its id from the counter. -/
def OwnId (i : Incr) : Prop := ∀ id s, .schemaPut id s ∈ i.heads → .nextSchema id ∈ i.ids

/-- An entry on its way can be applied. -/
theorem Shape.applies {d0 d : Data} {t t' : Temp} {p : Plan} (h : Shape d0 t t' p) (ho : OwnId p.incr)
    (hc : Cond d (p.incr.heads ++ hs) (p.incr.all ++ ops)) :
    ∃ d', applyIncr d p.incr = some d' ∧ Cond d' hs ops := by
  cases h with
  | objs hl =>
    rw [Cond.skips (fun w hm => (isTidx_schema (hl.heads w hm)).1) (fun w hm => (isTidx_schema (hl.heads w hm)).2)] at hc
    obtain ⟨m, e⟩ := execAll_tidx hl.heads d
    have hc' : Cond { d with tidx := m } hs (p.incr.all ++ ops) := hc.frame rfl rfl (Int.le_refl _)
    obtain ⟨d', e', h', _⟩ := hc'.all
    refine ⟨d', ?_, h'⟩
    unfold applyIncr Incr.writes
    rw [hl.ids, List.append_nil, List.append_assoc, execAll_append, e]
    exact e'
  | tenant ws hi _ _ _ hw =>
    rw [hi] at hc ⊢
    obtain ⟨m, e⟩ := execAll_tenants hw d
    refine ⟨{ d with tenants := m }, ?_, ?_⟩
    · unfold applyIncr Incr.writes
      simp [e]
    · rw [Cond.skips] at hc
      · exact hc.frame rfl rfl (Int.le_refl _)
      · intro w hm id s
        obtain ⟨i, ⟨rfl, _⟩ | rfl⟩ := hw w hm <;> nofun
      · intro w hm id
        obtain ⟨i, ⟨rfl, _⟩ | rfl⟩ := hw w hm <;> nofun
  | newSchema id s ids hi _ _ _ _ hid =>
    have hids : ids = [.nextSchema id] := by
      have h1 := ho id s (by rw [hi]; exact List.mem_singleton.2 rfl)
      rw [hi] at h1
      rcases hid with ⟨_, e, _⟩ | ⟨_, e, _⟩
      · rw [e] at h1; cases h1
      · exact e
    rw [hi, hids] at hc ⊢
    obtain ⟨h0, _⟩ := hc.puts id s List.mem_cons_self
    refine ⟨{ d with schemas := put d.schemas id s, nextSchema := max d.nextSchema id }, ?_, ?_⟩
    · unfold applyIncr Incr.writes
      dsimp only [List.flatMap_nil, List.append_nil, List.cons_append, List.nil_append]
      rw [execAll, Write.exec, if_neg (by omega)]
      rfl
    · exact Cond.putSchema hc rfl rfl (by dsimp only; omega) (by dsimp only; omega)
  | noSchema id tn s hi =>
    rw [hi] at hc ⊢
    exact ⟨{ d with schemas := erase d.schemas id }, rfl, Cond.eraseSchema hc rfl rfl (Int.le_refl _)⟩
  | ids l ws hi _ _ _ _ _ _ _ hw =>
    rw [hi] at hc ⊢
    have hv : ∀ w ∈ ws, ∃ v, w = .nextTable v := by
      intro w hm
      rcases hw with ⟨_, e, _⟩ | ⟨_, e⟩
      · rw [e] at hm; cases hm
      · obtain ⟨v, e, _⟩ := e w hm; exact ⟨v, e⟩
    obtain ⟨v, e⟩ := execAll_ids hv d
    refine ⟨{ d with nextTable := v }, ?_, ?_⟩
    · unfold applyIncr Incr.writes
      simp [e]
    · exact Cond.frame hc rfl rfl (Int.le_refl _)

end Verif.Meta
