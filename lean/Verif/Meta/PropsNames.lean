/-
C71: names are unique.
-/
import Verif.Meta.PropsIds

namespace Verif.Meta

/-! ## Specification -/

/-- A table or index with this schema and name exists, or an entry on its way creates it. -/
def Claims (s : State) (k : Kind) (id sid : Int) (name : Name) : Prop :=
  (∃ r, get (s.data.objs k) id = some r ∧ r.schema = sid ∧ r.name = name) ∨
  ∃ inc ∈ pending s, ∃ r, .create id r ∈ inc.ops k ∧ r.schema = sid ∧ r.name = name

/-- A schema with this tenant and name exists, or an entry on its way creates it. -/
def ClaimsSchema (s : State) (id tenant : Int) (name : Name) : Prop :=
  (∃ r, get s.data.schemas id = some r ∧ r.tenant = tenant ∧ r.name = name) ∨
  ∃ inc ∈ pending s, ∃ r, .schemaPut id r ∈ inc.heads ∧ r.tenant = tenant ∧ r.name = name

/-! ## Lemmas -/

theorem run_inv {es : List Ev} (h : okRun init es = true) : Inv (run init es).1 := Inv.init.run h

theorem dropping_iff {s : State} {k : Kind} {id : Int} : Move.delete id ∈ kMoves k (pOps s) ↔ Dropping s k id := by
  unfold pOps Dropping
  rw [kMoves_flat]
  constructor
  · intro h
    obtain ⟨inc, hi, h⟩ := List.mem_flatMap.1 h
    obtain ⟨op, ho, e⟩ := List.mem_map.1 h
    cases op <;> simp [ObjOp.move] at e
    subst e
    exact ⟨inc, hi, _, ho⟩
  · rintro ⟨inc, hi, sid, h⟩
    exact List.mem_flatMap.2 ⟨inc, hi, List.mem_map.2 ⟨_, h, rfl⟩⟩

theorem creating_iff {s : State} {k : Kind} {id : Int} {key : Key} : Move.create id key ∈ kMoves k (pOps s) ↔
    ∃ inc ∈ pending s, ∃ r, .create id r ∈ inc.ops k ∧ (r.schema, r.name) = key := by
  unfold pOps
  rw [kMoves_flat]
  constructor
  · intro h
    obtain ⟨inc, hi, h⟩ := List.mem_flatMap.1 h
    obtain ⟨op, ho, e⟩ := List.mem_map.1 h
    cases op <;> simp [ObjOp.move] at e
    obtain ⟨e1, e2⟩ := e
    subst e1
    exact ⟨inc, hi, _, ho, e2⟩
  · rintro ⟨inc, hi, r, h, e⟩
    exact List.mem_flatMap.2 ⟨inc, hi, List.mem_map.2 ⟨_, h, by rw [← e]; rfl⟩⟩

theorem droppingSchema_iff {s : State} {id : Int} :
    Move.delete id ∈ (pHeads s).filterMap (Write.move .schema) ↔ DroppingSchema s id := by
  unfold pHeads DroppingSchema
  constructor
  · intro h
    obtain ⟨w, hw, e⟩ := List.mem_filterMap.1 h
    obtain ⟨inc, hi, hw⟩ := List.mem_flatMap.1 hw
    cases w <;> simp [Write.move] at e
    subst e
    exact ⟨inc, hi, hw⟩
  · rintro ⟨inc, hi, h⟩
    exact List.mem_filterMap.2 ⟨_, List.mem_flatMap.2 ⟨inc, hi, h⟩, rfl⟩

theorem creatingSchema_iff {s : State} {id : Int} {key : Key} :
    Move.create id key ∈ (pHeads s).filterMap (Write.move .schema) ↔
    ∃ inc ∈ pending s, ∃ r, .schemaPut id r ∈ inc.heads ∧ (r.tenant, r.name) = key := by
  unfold pHeads
  constructor
  · intro h
    obtain ⟨w, hw, e⟩ := List.mem_filterMap.1 h
    obtain ⟨inc, hi, hw⟩ := List.mem_flatMap.1 hw
    cases w <;> simp [Write.move] at e
    obtain ⟨e1, e2⟩ := e
    subst e1
    exact ⟨inc, hi, _, hw, e2⟩
  · rintro ⟨inc, hi, r, h, e⟩
    exact List.mem_filterMap.2 ⟨_, List.mem_flatMap.2 ⟨inc, hi, h⟩, by rw [← e]; rfl⟩

theorem Claims.holds {s : State} {k : Kind} {id sid : Int} {name : Name} (h : Claims s k id sid name)
    (hd : ¬ Dropping s k id) : Holds (live s.data (.obj k)) (kMoves k (pOps s)) id (sid, name) := by
  rcases h with ⟨r, h1, h2, h3⟩ | ⟨inc, hi, r, h1, h2, h3⟩
  · refine Or.inl ⟨?_, fun hm => hd (dropping_iff.1 hm)⟩
    dsimp only [live]
    rw [h1, ← h2, ← h3]; rfl
  · exact Or.inr (creating_iff.2 ⟨inc, hi, r, h1, by rw [h2, h3]⟩)

theorem ClaimsSchema.holds {s : State} {id tn : Int} {name : Name} (h : ClaimsSchema s id tn name)
    (hd : ¬ DroppingSchema s id) :
    Holds (live s.data .schema) ((pHeads s).filterMap (Write.move .schema)) id (tn, name) := by
  rcases h with ⟨r, h1, h2, h3⟩ | ⟨inc, hi, r, h1, h2, h3⟩
  · refine Or.inl ⟨?_, fun hm => hd (droppingSchema_iff.1 hm)⟩
    dsimp only [live]
    rw [h1, ← h2, ← h3]; rfl
  · exact Or.inr (creatingSchema_iff.2 ⟨inc, hi, r, h1, by rw [h2, h3]⟩)

theorem nodup_of_pairwise {α β : Type} {l : List α} {f : α → β} (hn : l.Nodup) (h : ∀ a ∈ l, ∀ b ∈ l, f a = f b → a = b) :
    (l.map f).Nodup := by
  induction l with
  | nil => exact List.nodup_nil
  | cons a l ih =>
    rw [List.map_cons]
    obtain ⟨h1, h2⟩ := List.nodup_cons.1 hn
    refine List.nodup_cons.2 ⟨?_, ih h2 (fun a ha b hb => h a (List.mem_cons_of_mem _ ha) b (List.mem_cons_of_mem _ hb))⟩
    intro hm
    obtain ⟨b, hb, e⟩ := List.mem_map.1 hm
    have := h a List.mem_cons_self b (List.mem_cons_of_mem _ hb) e.symm
    exact h1 (this ▸ hb)

theorem nodup_of_map {α β : Type} {l : List α} {f : α → β} (h : (l.map f).Nodup) : l.Nodup := by
  induction l with
  | nil => exact List.nodup_nil
  | cons a l ih =>
    rw [List.map_cons] at h
    obtain ⟨h1, h2⟩ := List.nodup_cons.1 h
    exact List.nodup_cons.2 ⟨fun hm => h1 (List.mem_map.2 ⟨a, hm, rfl⟩), ih h2⟩

theorem filterMap_nodup {α β : Type} {l : List α} {f : α → Option β} (hn : l.Nodup)
    (h : ∀ a b x, f a = some x → f b = some x → a = b) : (l.filterMap f).Nodup := by
  induction l with
  | nil => exact List.nodup_nil
  | cons a l ih =>
    obtain ⟨h1, h2⟩ := List.nodup_cons.1 hn
    rw [List.filterMap_cons]
    split
    · exact ih h2
    · rename_i x hx
      refine List.nodup_cons.2 ⟨?_, ih h2⟩
      intro hm
      obtain ⟨b, hb, e⟩ := List.mem_filterMap.1 hm
      exact h1 (h a b x hx e ▸ hb)

theorem listObjs_ok {d : Data} {k : Kind} {sid : Int} {l : List (Int × Obj)} (h : listObjs d k sid = .ok l) :
    0 ≤ sid ∧ ∃ sc, get d.schemas sid = some sc ∧ l = (sc.ids k).filterMap (fun i =>
      match get (d.objs k) i with
      | none => none
      | some r => if k = .index ∧ r.owner > 0 then none else some (i, r)) := by
  unfold listObjs at h
  by_cases c : sid < 0
  · rw [if_pos c] at h; cases h
  · rw [if_neg c] at h
    cases hs : get d.schemas sid with
    | none => rw [hs] at h; cases h
    | some sc => rw [hs] at h; cases h; exact ⟨by omega, sc, rfl, rfl⟩

theorem mem_listed {d : Data} {k : Kind} {ids : List Int} {i : Int} {r : Obj} :
    (i, r) ∈ ids.filterMap (fun i =>
      match get (d.objs k) i with
      | none => none
      | some r => if k = .index ∧ r.owner > 0 then none else some (i, r)) ↔
    i ∈ ids ∧ get (d.objs k) i = some r ∧ ¬ (k = .index ∧ r.owner > 0) := by
  rw [List.mem_filterMap]
  constructor
  · rintro ⟨j, hj, e⟩
    cases hg : get (d.objs k) j with
    | none => rw [hg] at e; cases e
    | some r' =>
      rw [hg] at e
      dsimp only at e
      split at e
      · cases e
      · rename_i c; cases e; exact ⟨hj, hg, c⟩
  · rintro ⟨h1, h2, h3⟩
    refine ⟨i, h1, ?_⟩
    rw [h2]
    dsimp only
    rw [if_neg h3]

theorem Inv.listed {s : State} (h : Inv s) {k : Kind} {sid : Int} {l : List (Int × Obj)}
    (hl : listObjs s.data k sid = .ok l) :
    (l.map Prod.fst).Nodup ∧ ∀ i r, (i, r) ∈ l ↔
      get (s.data.objs k) i = some r ∧ r.schema = sid ∧ ¬ (k = .index ∧ r.owner > 0) := by
  obtain ⟨_, sc, hs, rfl⟩ := listObjs_ok hl
  obtain ⟨h1, h2⟩ := h.cond.lists k sid sc hs
  constructor
  · refine nodup_of_pairwise (filterMap_nodup h1 ?_) ?_
    · intro a b x ha hb
      cases hga : get (s.data.objs k) a with
      | none => rw [hga] at ha; cases ha
      | some r =>
        cases hgb : get (s.data.objs k) b with
        | none => rw [hgb] at hb; cases hb
        | some r' =>
          rw [hga] at ha; rw [hgb] at hb
          dsimp only at ha hb
          split at ha
          · cases ha
          · split at hb
            · cases hb
            · cases ha; cases hb; rfl
    · rintro ⟨i, r⟩ ha ⟨j, r'⟩ hb e
      have e : i = j := e
      subst e
      have e1 := (mem_listed.1 ha).2.1
      have e2 := (mem_listed.1 hb).2.1
      rw [e1] at e2; cases e2; rfl
  · intro i r
    rw [mem_listed, h2]
    constructor
    · rintro ⟨⟨r', h3, h4⟩, h5, h6⟩
      rw [h3] at h5; cases h5
      exact ⟨h3, h4, h6⟩
    · rintro ⟨h3, h4, h5⟩
      exact ⟨⟨r, h3, h4⟩, h3, h5⟩

/-! ## C71 -/

/-- In a run of orderly events two tables of a schema, or two indexes of a schema, have different names,
and two schemas of a tenant have different names, unless one of them is being dropped.  This counts what
exists and what is being created.  Partial: the events must be orderly (`okEv`); without it the claim fails
in several ways (`C71_*_false`). -/
theorem C71_unique_partial (es : List Ev) (h : okRun init es = true) (s : State) (hs : s = (run init es).1) :
    (∀ k sid name i j, Claims s k i sid name → Claims s k j sid name → i ≠ j → Dropping s k i ∨ Dropping s k j) ∧
    (∀ tn name i j, ClaimsSchema s i tn name → ClaimsSchema s j tn name → i ≠ j →
      DroppingSchema s i ∨ DroppingSchema s j) := by
  subst hs
  have hi := run_inv h
  constructor
  · intro k sid name i j h1 h2 hne
    by_cases d1 : Dropping (run init es).1 k i
    · exact Or.inl d1
    · by_cases d2 : Dropping (run init es).1 k j
      · exact Or.inr d2
      · exact absurd ((hi.cond.fitsO k).uniq i j _ (h1.holds d1) (h2.holds d2)) hne
  · intro tn name i j h1 h2 hne
    by_cases d1 : DroppingSchema (run init es).1 i
    · exact Or.inl d1
    · by_cases d2 : DroppingSchema (run init es).1 j
      · exact Or.inr d2
      · exact absurd (hi.cond.fitsS.uniq i j _ (h1.holds d1) (h2.holds d2)) hne

/-- So with nothing on its way no listing shows a name twice.  Partial: as above. -/
theorem C71_listed_partial (es : List Ev) (h : okRun init es = true) (s : State) (hs : s = (run init es).1)
    (hq : Quiet s) :
    (∀ k sid l, listObjs s.data k sid = .ok l → (l.map (·.2.name)).Nodup) ∧
    (∀ tn, ((listSchemas s.data tn).map (fun p => (p.2.tenant, p.2.name))).Nodup) := by
  have hu := C71_unique_partial es h s hs
  have hi : Inv s := hs ▸ run_inv h
  have nd : ∀ k i, ¬ Dropping s k i := by
    rintro k i ⟨inc, hm, _⟩
    rw [show pending s = [] from hq] at hm; cases hm
  have nds : ∀ i, ¬ DroppingSchema s i := by
    rintro i ⟨inc, hm, _⟩
    rw [show pending s = [] from hq] at hm; cases hm
  constructor
  · intro k sid l hl
    obtain ⟨h1, h2⟩ := hi.listed hl
    have hnd : l.Nodup := nodup_of_map h1
    refine nodup_of_pairwise hnd ?_
    rintro ⟨i, r⟩ ha ⟨j, r'⟩ hb (e : r.name = r'.name)
    obtain ⟨g1, g2, _⟩ := (h2 i r).1 ha
    obtain ⟨g3, g4, _⟩ := (h2 j r').1 hb
    by_cases c : i = j
    · subst c
      rw [g1] at g3; cases g3; rfl
    · rcases hu.1 k sid r.name i j (Or.inl ⟨r, g1, g2, rfl⟩) (Or.inl ⟨r', g3, g4, e.symm⟩) c with hd | hd
      · exact absurd hd (nd k i)
      · exact absurd hd (nd k j)
  · intro tn
    have hc := hi.cond.ok.schemas
    have hnd : s.data.schemas.Nodup := nodup_of_map hc
    unfold listSchemas
    refine nodup_of_pairwise (hnd.sublist List.filter_sublist) ?_
    rintro ⟨i, r⟩ ha ⟨j, r'⟩ hb e
    have e1 : r.tenant = r'.tenant := (Prod.mk.inj e).1
    have e2 : r.name = r'.name := (Prod.mk.inj e).2
    have g1 := hc.get (List.mem_filter.1 ha).1
    have g2 := hc.get (List.mem_filter.1 hb).1
    by_cases c : i = j
    · subst c
      rw [g1] at g2; cases g2; rfl
    · rcases hu.2 r.tenant r.name i j (Or.inl ⟨r, g1, rfl, rfl⟩) (Or.inl ⟨r', g2, e1.symm, e2.symm⟩) c with hd | hd
      · exact absurd hd (nds i)
      · exact absurd hd (nds j)

/-- A coordinator that leads and has its maps refuses to create a table, an index or a schema under a name
that something has which is not being dropped, and says so.  Partial: the events before must be orderly. -/
theorem C71_refused_partial (es : List Ev) (h : okRun init es = true) (s : State) (hs : s = (run init es).1)
    (hl : s.leader.isSome) (hf : s.fresh = false) :
    (∀ i sid name n, Claims s .table i sid name → ¬ Dropping s .table i → n.name = name → n.early = none →
      0 < sid → (get s.data.schemas sid).isSome →
      (step s (.begin (.createTable sid n))).2 = .refused s.ths.length .tableExists) ∧
    (∀ i sid name n, Claims s .index i sid name → ¬ Dropping s .index i → n.name = name → n.early = none →
      0 < sid → (get s.data.schemas sid).isSome → i ≠ 0 →
      (step s (.begin (.createIndex sid n))).2 = .refused s.ths.length .indexExists) ∧
    (∀ i tn name j, ClaimsSchema s i tn name → ¬ DroppingSchema s i → name ≠ [] →
      (tn = 0 ∨ (0 < tn ∧ tn ∈ s.data.tenants)) →
      (step s (.begin (.createSchema tn name j))).2 = .refused s.ths.length .schemaExists) := by
  have hi : Inv s := hs ▸ run_inv h
  obtain ⟨n0, hn0⟩ := Option.isSome_iff_exists.1 hl
  obtain ⟨hns, hno⟩ := hi.named n0 hn0 hf
  have fin : ∀ q t e, prepare s.data (s.temps n0) q = (t, .error e) → (step s (.begin q)).2 = .refused s.ths.length e := by
    intro q t e hp
    rw [step_begin hi.alive]
    unfold stepBegin
    rw [hn0]
    dsimp only
    rw [hp]
  refine ⟨?_, ?_, ?_⟩
  · intro i sid name n hc hd he hearly hpos hsome
    have hk : get ((s.temps n0).names .table) (sid, name) = some i := hno .table i _ (hc.holds hd)
    obtain ⟨sc, hsc⟩ := Option.isSome_iff_exists.1 hsome
    have : ∃ t, mkTable s.data (s.temps n0) sid { n with id := max n.id 0 } = (t, .error .tableExists) := by
      unfold mkTable
      rw [if_neg (by omega), hsc]
      dsimp only
      rw [hearly, he, hk]
      dsimp only
      by_cases c : (some i).getD 0 ≠ 0
      · rw [if_pos c]; exact ⟨_, rfl⟩
      · rw [if_neg c]; exact ⟨_, rfl⟩
    obtain ⟨t, ht⟩ := this
    refine fin _ t _ ?_
    dsimp only [prepare]
    unfold createTable
    rw [ht]
  · intro i sid name n hc hd he hearly hpos hsome hid
    have hk : get ((s.temps n0).names .index) (sid, name) = some i := hno .index i _ (hc.holds hd)
    obtain ⟨sc, hsc⟩ := Option.isSome_iff_exists.1 hsome
    have : ∃ t, mkIndex s.data (s.temps n0) sid 0 { n with id := max n.id 0 } = (t, .error .indexExists) := by
      unfold mkIndex
      rw [if_neg (by omega), hsc]
      dsimp only
      rw [hearly, he, hk]
      dsimp only
      rw [if_pos (by simpa using hid)]
      exact ⟨_, rfl⟩
    obtain ⟨t, ht⟩ := this
    refine fin _ t _ ?_
    dsimp only [prepare]
    unfold createIndex
    rw [ht]
  · intro i tn name j hc hd hne ht
    have hk : get (s.temps n0).schemaNames (tn, name) = some i := hns i _ (hc.holds hd)
    have : ∃ t, createSchema s.data (s.temps n0) tn name j = (t, .error .schemaExists) := by
      unfold createSchema
      rw [if_neg hne, if_neg (by omega), if_neg (by rintro ⟨h1, h2⟩; rcases ht with h | h; omega; exact h2 h.2), hk]
      dsimp only
      by_cases c : (some i).getD 0 ≠ 0
      · rw [if_pos c]; exact ⟨_, rfl⟩
      · rw [if_neg c]
        by_cases cj : j > 0
        · simp only [cj, if_true, hk]; exact ⟨_, rfl⟩
        · simp only [cj, if_false, hk]; exact ⟨_, rfl⟩
    obtain ⟨t, ht⟩ := this
    exact fin _ t _ ht

/-- Exactly which requests to create a table, an index or a schema are taken: for every state of a
coordinator that leads. -/
theorem C71_taken (s : State) (n0 : Nat) (hl : s.leader = some n0) (hd : s.dead = false) :
    (∀ sid n, (step s (.begin (.createTable sid n))).2 = .begun s.ths.length ↔
      (0 < sid ∧ (get s.data.schemas sid).isSome ∧ n.early = none ∧ get ((s.temps n0).names .table) (sid, n.name) = none ∧
        0 < n.id ∧ get (s.data.objs .table) n.id = none ∧ n.late = none)) ∧
    (∀ sid n, (step s (.begin (.createIndex sid n))).2 = .begun s.ths.length ↔
      (0 < sid ∧ (get s.data.schemas sid).isSome ∧ n.early = none ∧ get ((s.temps n0).names .index) (sid, n.name) = none ∧
        0 < n.id ∧ get (s.data.objs .index) n.id = none ∧ n.late = none)) ∧
    (∀ tn name j, (step s (.begin (.createSchema tn name j))).2 = .begun s.ths.length ↔
      (name ≠ [] ∧ (tn = 0 ∨ (0 < tn ∧ tn ∈ s.data.tenants)) ∧ get (s.temps n0).schemaNames (tn, name) = none)) := by
  have key : ∀ q, (step s (.begin q)).2 = .begun s.ths.length ↔ ∃ t p, prepare s.data (s.temps n0) q = (t, .ok p) := by
    intro q
    rw [step_begin hd]
    rcases begin_cases s q with ⟨h0, e⟩ | ⟨n, t, er, hl', hp, e⟩ | ⟨n, t, p, hl', hp, e⟩
    · rw [h0] at hl; cases hl
    · rw [hl] at hl'; cases hl'
      rw [e]
      refine ⟨nofun, fun ⟨t', p, h⟩ => ?_⟩
      rw [hp] at h; cases h
    · rw [hl] at hl'; cases hl'
      rw [e]
      exact ⟨fun _ => ⟨t, p, hp⟩, fun _ => rfl⟩
  refine ⟨?_, ?_, ?_⟩
  · intro sid n
    rw [key]
    dsimp only [prepare]
    have : ∀ m : New, (∃ t op, mkTable s.data (s.temps n0) sid m = (t, .ok op)) ↔
        (0 < sid ∧ (get s.data.schemas sid).isSome ∧ m.early = none ∧ get ((s.temps n0).names .table) (sid, m.name) = none ∧
          0 < m.id ∧ get (s.data.objs .table) m.id = none ∧ m.late = none) := by
      intro m
      unfold mkTable
      by_cases c1 : sid < 0 ∨ sid = 0
      · rw [if_pos c1]; exact ⟨fun ⟨_, _, h⟩ => (by cases h), fun h => absurd h.1 (by omega)⟩
      rw [if_neg c1]
      cases hsc : get s.data.schemas sid with
      | none => exact ⟨fun ⟨_, _, h⟩ => (by cases h), fun h => by cases h.2.1⟩
      | some sc =>
        dsimp only
        cases he : m.early with
        | some e => exact ⟨fun ⟨_, _, h⟩ => (by cases h), fun h => by cases h.2.2.1⟩
        | none =>
          dsimp only
          cases hg : get ((s.temps n0).names .table) (sid, m.name) with
          | some i =>
            by_cases c : (some i).getD 0 ≠ 0
            · rw [if_pos c]; exact ⟨fun ⟨_, _, h⟩ => (by cases h), fun h => by cases h.2.2.2.1⟩
            · rw [if_neg c]; exact ⟨fun ⟨_, _, h⟩ => (by cases h), fun h => by cases h.2.2.2.1⟩
          | none =>
            rw [if_neg (by simp), if_neg (by simp)]
            by_cases c2 : m.id ≤ 0
            · rw [if_pos c2]; exact ⟨fun ⟨_, _, h⟩ => (by cases h), fun h => absurd h.2.2.2.2.1 (by omega)⟩
            rw [if_neg c2]
            cases ho : get (s.data.objs .table) m.id with
            | some r => exact ⟨fun ⟨_, _, h⟩ => (by cases h), fun h => by cases h.2.2.2.2.2.1⟩
            | none =>
              rw [if_neg (by simp)]
              cases hlate : m.late with
              | some e => exact ⟨fun ⟨_, _, h⟩ => (by cases h), fun h => by cases h.2.2.2.2.2.2⟩
              | none => exact ⟨fun _ => ⟨by omega, rfl, rfl, rfl, by omega, rfl, rfl⟩, fun _ => ⟨_, _, rfl⟩⟩
    have h2 := this { n with id := max n.id 0 }
    have h3 : (∃ t p, createTable s.data (s.temps n0) sid n = (t, .ok p)) ↔
        ∃ t op, mkTable s.data (s.temps n0) sid { n with id := max n.id 0 } = (t, .ok op) := by
      unfold createTable
      cases mkTable s.data (s.temps n0) sid { n with id := max n.id 0 } with
      | mk t res =>
        cases res with
        | error e => exact ⟨fun ⟨_, _, h⟩ => (by cases h), fun ⟨_, _, h⟩ => by cases h⟩
        | ok op => exact ⟨fun _ => ⟨_, _, rfl⟩, fun _ => ⟨_, _, rfl⟩⟩
    rw [h3, h2]
    dsimp only
    by_cases c : 0 < n.id
    · rw [show max n.id 0 = n.id by omega]
    · rw [show max n.id 0 = 0 by omega]
      exact ⟨fun h => absurd h.2.2.2.2.1 (by omega), fun h => absurd h.2.2.2.2.1 c⟩
  · intro sid n
    rw [key]
    dsimp only [prepare]
    have : ∀ m : New, (∃ t op, mkIndex s.data (s.temps n0) sid 0 m = (t, .ok op)) ↔
        (0 < sid ∧ (get s.data.schemas sid).isSome ∧ m.early = none ∧ get ((s.temps n0).names .index) (sid, m.name) = none ∧
          0 < m.id ∧ get (s.data.objs .index) m.id = none ∧ m.late = none) := by
      intro m
      unfold mkIndex
      by_cases c1 : sid < 0 ∨ sid = 0
      · rw [if_pos c1]; exact ⟨fun ⟨_, _, h⟩ => (by cases h), fun h => absurd h.1 (by omega)⟩
      rw [if_neg c1]
      cases hsc : get s.data.schemas sid with
      | none => exact ⟨fun ⟨_, _, h⟩ => (by cases h), fun h => by cases h.2.1⟩
      | some sc =>
        dsimp only
        cases he : m.early with
        | some e => exact ⟨fun ⟨_, _, h⟩ => (by cases h), fun h => by cases h.2.2.1⟩
        | none =>
          dsimp only
          by_cases c2 : m.id ≤ 0
          · rw [if_pos c2]
            split <;> exact ⟨fun ⟨_, _, h⟩ => (by cases h), fun h => absurd h.2.2.2.2.1 (by omega)⟩
          rw [if_neg c2]
          cases ho : get (s.data.objs .index) m.id with
          | some r =>
            rw [if_pos (show (some r).isSome = true from rfl)]
            split <;> exact ⟨fun ⟨_, _, h⟩ => (by cases h), fun h => by cases h.2.2.2.2.2.1⟩
          | none =>
            rw [if_neg (show ¬ (none : Option Obj).isSome = true by simp)]
            cases hg : get ((s.temps n0).names .index) (sid, m.name) with
            | some i =>
              rw [if_pos (show (some i).isSome = true from rfl)]
              split <;> exact ⟨fun ⟨_, _, h⟩ => (by cases h), fun h => by cases h.2.2.2.1⟩
            | none =>
              rw [if_neg (by simp), if_neg (by simp)]
              cases hlate : m.late with
              | some e => exact ⟨fun ⟨_, _, h⟩ => (by cases h), fun h => by cases h.2.2.2.2.2.2⟩
              | none => exact ⟨fun _ => ⟨by omega, rfl, rfl, rfl, by omega, rfl, rfl⟩, fun _ => ⟨_, _, rfl⟩⟩
    have h2 := this { n with id := max n.id 0 }
    have h3 : (∃ t p, createIndex s.data (s.temps n0) sid n = (t, .ok p)) ↔
        ∃ t op, mkIndex s.data (s.temps n0) sid 0 { n with id := max n.id 0 } = (t, .ok op) := by
      unfold createIndex
      cases mkIndex s.data (s.temps n0) sid 0 { n with id := max n.id 0 } with
      | mk t res =>
        cases res with
        | error e => exact ⟨fun ⟨_, _, h⟩ => (by cases h), fun ⟨_, _, h⟩ => by cases h⟩
        | ok op => exact ⟨fun _ => ⟨_, _, rfl⟩, fun _ => ⟨_, _, rfl⟩⟩
    rw [h3, h2]
    dsimp only
    by_cases c : 0 < n.id
    · rw [show max n.id 0 = n.id by omega]
    · rw [show max n.id 0 = 0 by omega]
      exact ⟨fun h => absurd h.2.2.2.2.1 (by omega), fun h => absurd h.2.2.2.2.1 c⟩
  · intro tn name j
    rw [key]
    dsimp only [prepare]
    unfold createSchema
    by_cases c1 : name = []
    · rw [if_pos c1]; exact ⟨fun ⟨_, _, h⟩ => (by cases h), fun h => absurd c1 h.1⟩
    rw [if_neg c1]
    by_cases c2 : tn < 0
    · rw [if_pos c2]; exact ⟨fun ⟨_, _, h⟩ => (by cases h), fun h => absurd h.2.1 (by omega)⟩
    rw [if_neg c2]
    by_cases c3 : tn > 0 ∧ tn ∉ s.data.tenants
    · rw [if_pos c3]
      refine ⟨fun ⟨_, _, h⟩ => (by cases h), fun h => ?_⟩
      rcases h.2.1 with h | h
      · omega
      · exact absurd h.2 c3.2
    rw [if_neg c3]
    have htn : tn = 0 ∨ (0 < tn ∧ tn ∈ s.data.tenants) := by
      by_cases c4 : tn = 0
      · exact Or.inl c4
      · refine Or.inr ⟨by omega, ?_⟩
        by_cases c5 : tn ∈ s.data.tenants
        · exact c5
        · exact absurd ⟨by omega, c5⟩ c3
    cases hg : get (s.temps n0).schemaNames (tn, name) with
    | some i =>
      refine ⟨fun ⟨t, p, h⟩ => ?_, fun h => by cases h.2.2⟩
      dsimp only at h
      (repeat' split at h) <;> simp_all
    | none =>
      refine ⟨fun _ => ⟨c1, htn, rfl⟩, fun _ => ?_⟩
      dsimp only
      rw [if_neg (by simp)]
      by_cases cj : j > 0
      · simp only [cj, if_true, hg]; exact ⟨_, _, rfl⟩
      · simp only [cj, if_false, hg]; exact ⟨_, _, rfl⟩

/-- A refused request other than `DropTables` leaves all names as they were, for every state of the
coordinators and also when it fails in the middle of a list of tables and indexes. -/
theorem C71_refusal_clean (s : State) (q : Req) (i : Nat) (e : Err) (n : Nat) (hl : s.leader = some n)
    (hq : ∀ l, q ≠ .dropTables l) (h : (step s (.begin q)).2 = .refused i e) :
    (step s (.begin q)).1.data = s.data ∧ (step s (.begin q)).1.log = s.log ∧ (step s (.begin q)).1.ths = s.ths ∧
    (∀ key, get ((step s (.begin q)).1.temps n).schemaNames key = get (s.temps n).schemaNames key) ∧
    (∀ k key, get (((step s (.begin q)).1.temps n).names k) key = get ((s.temps n).names k) key) := by
  cases hd : s.dead with
  | true => rw [step_dead hd] at h; cases h
  | false =>
    rw [step_begin hd] at h ⊢
    rcases begin_cases s q with ⟨_, e⟩ | ⟨m, t, er, hl', hp, e⟩ | ⟨m, t, p, hl', hp, e⟩
    · rw [e] at h; cases h
    · rw [hl] at hl'; cases hl'
      rw [e]
      obtain ⟨h1, h2⟩ := prepare_refused hp
      rw [setTemp_self]
      refine ⟨rfl, rfl, rfl, ?_, ?_⟩
      · intro key; rw [h1.schemaNames]
      · exact h2 hq
    · rw [e] at h; cases h

end Verif.Meta
