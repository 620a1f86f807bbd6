/-
C74: what `DropTable` and `DropTables` drop.
-/
import Verif.Meta.Parts

namespace Verif.Meta

/-! ## Specification -/

/-- What a `DropTables` request names: its members, and the indexes its tables had when it was checked. -/
def NamedIn (d : Data) (l : List (Option Kind × Int × Int)) (k : Kind) (j : Int) : Prop :=
  (∃ sid, (some k, sid, j) ∈ l) ∨
  (k = .index ∧ ∃ sid x lx, (some Kind.table, sid, x) ∈ l ∧ get d.tidx x = some lx ∧ j ∈ lx)

/-! ## Lemmas -/

theorem dropEntry_ops {d : Data} {e : Option Kind × Int × Int} {k : Kind} {op : ObjOp} (h : op ∈ (dropEntry d e).ops k) :
    ∃ j s, op = .delete j s := by
  obtain ⟨ko, sid, id⟩ := e
  cases ko with
  | none => cases k <;> cases h
  | some ko =>
    cases ko <;> cases k <;> simp [dropEntry, Incr.ops] at h
    · exact ⟨_, _, h⟩
    · obtain ⟨i, _, e⟩ := h; exact ⟨_, _, e.symm⟩
    · exact ⟨_, _, h⟩

theorem dropEntries_ops (d : Data) (l : List (Option Kind × Int × Int)) (k : Kind) :
    (dropEntries d l).ops k = l.flatMap (fun e => (dropEntry d e).ops k) := by
  cases k <;> rfl

theorem dropEntries_named {d : Data} {l : List (Option Kind × Int × Int)} {k : Kind} {j : Int} :
    (∃ s, .delete j s ∈ (dropEntries d l).ops k) ↔ NamedIn d l k j := by
  rw [dropEntries_ops]
  constructor
  · rintro ⟨s, h⟩
    obtain ⟨⟨ko, sid, id⟩, hm, h⟩ := List.mem_flatMap.1 h
    cases ko with
    | none => cases k <;> cases h
    | some ko =>
      cases ko <;> cases k <;> simp [dropEntry, Incr.ops] at h
      · exact Or.inl ⟨sid, by rw [h.1]; exact hm⟩
      · cases hx : get d.tidx id with
        | none => rw [hx] at h; simp at h
        | some lx => rw [hx] at h; simp at h; obtain ⟨a, h1, h2, _⟩ := h; exact Or.inr ⟨rfl, sid, id, lx, hm, hx, h2 ▸ h1⟩
      · exact Or.inl ⟨sid, by rw [h.1]; exact hm⟩
  · rintro (⟨sid, hm⟩ | ⟨rfl, sid, x, lx, hm, hx, hj⟩)
    · refine ⟨sid, List.mem_flatMap.2 ⟨_, hm, ?_⟩⟩
      cases k <;> simp [dropEntry, Incr.ops]
    · exact ⟨sid, List.mem_flatMap.2 ⟨_, hm, by simp [dropEntry, Incr.ops, hx, hj]⟩⟩

theorem replay_deletes {i : Int} {ops : List ObjOp} (h : ∀ op ∈ ops, ∃ j s, op = .delete j s) : ∀ cur,
    ((∃ s, .delete i s ∈ ops) → replay i cur ops = none) ∧ ((¬ ∃ s, .delete i s ∈ ops) → replay i cur ops = cur) := by
  induction ops with
  | nil => intro cur; exact ⟨fun ⟨_, h⟩ => (by cases h), fun _ => rfl⟩
  | cons op ops ih =>
    intro cur
    have ih := ih (fun op hm => h op (List.mem_cons_of_mem _ hm))
    obtain ⟨j, s, e⟩ := h op List.mem_cons_self
    subst e
    have none_stays : replay i none ops = none := by
      by_cases c : ∃ s, .delete i s ∈ ops
      · exact (ih none).1 c
      · exact (ih none).2 c
    rw [replay]
    by_cases c : j = i
    · rw [if_pos c]
      refine ⟨fun _ => none_stays, fun hn => ?_⟩
      exact absurd ⟨s, by rw [c]; exact List.mem_cons_self⟩ hn
    · rw [if_neg c]
      constructor
      · rintro ⟨s', hm⟩
        rcases List.mem_cons.1 hm with e | hm
        · cases e; exact absurd rfl c
        · exact (ih cur).1 ⟨s', hm⟩
      · intro hn
        exact (ih cur).2 (fun ⟨s', hm⟩ => hn ⟨s', List.mem_cons_of_mem _ hm⟩)

/-! ### The lists of indexes -/

theorem Write.onTidx_put (x : Int) (l : List Int) : (Write.tidxPut x l).onTidx := trivial

theorem Write.onTidx_erase (x : Int) : (Write.tidxErase x).onTidx := trivial

theorem exec_tidx {d d' : Data} {w : Write} (h : w.exec d = some d') (x : Int) (hw : ¬ w.onTidx) : get d'.tidx x = get d.tidx x := by
  cases w with
  | tenantPut id => dsimp only [Write.exec] at h; split at h <;> cases h; rfl
  | tenantErase id => cases h; rfl
  | schemaPut id s => dsimp only [Write.exec] at h; split at h <;> cases h; rfl
  | schemaErase id => cases h; rfl
  | tidxPut t l => exact absurd (Write.onTidx_put _ _) hw
  | tidxAddDel t a b => exact absurd trivial hw
  | tidxErase t => exact absurd trivial hw
  | objPut k' id r => dsimp only [Write.exec] at h; split at h <;> cases h; rfl
  | schemaAdd k' sid id =>
    dsimp only [Write.exec] at h
    split at h
    · split at h <;> cases h; rfl
    · cases h
  | objUpdate k' id n df => dsimp only [Write.exec] at h; split at h <;> cases h <;> rfl
  | schemaDel k' sid id =>
    dsimp only [Write.exec] at h
    split at h
    · split at h <;> cases h; rfl
    · cases h
  | objErase k' id => cases h; rfl
  | nextSchema v => cases h; rfl
  | nextTable v => cases h; rfl

theorem execAll_offTidx {ws : List Write} : ∀ {d d' : Data}, execAll d ws = some d' → (∀ w ∈ ws, ¬ w.onTidx) → ∀ x,
    get d'.tidx x = get d.tidx x := by
  induction ws with
  | nil => intro d d' h _ x; cases h; rfl
  | cons w ws ih =>
    intro d d' h hn x
    rw [execAll] at h
    cases hw : w.exec d with
    | none => rw [hw] at h; cases h
    | some d1 =>
      rw [hw] at h
      rw [ih h (fun w hw => hn w (List.mem_cons_of_mem _ hw)) x, exec_tidx hw x (hn w List.mem_cons_self)]

/-- A list that is there was there before or was put. -/
theorem execAll_tidx_some {ws : List Write} {x : Int} : ∀ {d d' : Data}, execAll d ws = some d' → (get d'.tidx x).isSome →
    (get d.tidx x).isSome ∨ ∃ l, .tidxPut x l ∈ ws := by
  induction ws with
  | nil => intro d d' h hs; cases h; exact Or.inl hs
  | cons w ws ih =>
    intro d d' h hs
    rw [execAll] at h
    cases hw : w.exec d with
    | none => rw [hw] at h; cases h
    | some d1 =>
      rw [hw] at h
      rcases ih h hs with h1 | ⟨l, h1⟩
      · by_cases ht : w.onTidx
        · cases w with
          | tidxPut t l =>
            by_cases e : t = x
            · subst e; exact Or.inr ⟨l, List.mem_cons_self⟩
            · dsimp only [Write.exec] at hw
              split at hw
              · cases hw
              · cases hw
                dsimp only at h1
                rw [get_put, if_neg (fun e' => e e'.symm)] at h1
                exact Or.inl h1
          | tidxAddDel t a b =>
            dsimp only [Write.exec] at hw
            split at hw
            · cases hw; exact Or.inl h1
            · rename_i l hl
              cases hw
              dsimp only at h1
              rw [get_put] at h1
              by_cases e : x = t
              · subst e; rw [hl]; exact Or.inl rfl
              · rw [if_neg e] at h1; exact Or.inl h1
          | tidxErase t =>
            cases hw
            dsimp only at h1
            rw [get_erase] at h1
            by_cases e : x = t
            · rw [if_pos e] at h1; cases h1
            · rw [if_neg e] at h1; exact Or.inl h1
          | _ => exact (show False from ht).elim
        · rw [exec_tidx hw x ht] at h1; exact Or.inl h1
      · exact Or.inr ⟨l, List.mem_cons_of_mem _ h1⟩

/-- A list that is erased and not put is gone. -/
theorem execAll_tidx_gone {ws : List Write} {x : Int} (hp : ∀ l, .tidxPut x l ∉ ws) : ∀ {d d' : Data}, execAll d ws = some d' →
    (get d.tidx x = none ∨ .tidxErase x ∈ ws) → get d'.tidx x = none := by
  induction ws with
  | nil => intro d d' h hs; cases h; rcases hs with hs | hs; exact hs; cases hs
  | cons w ws ih =>
    intro d d' h hs
    rw [execAll] at h
    cases hw : w.exec d with
    | none => rw [hw] at h; cases h
    | some d1 =>
      rw [hw] at h
      refine ih (fun l hm => hp l (List.mem_cons_of_mem _ hm)) h ?_
      have keep : get d.tidx x = none → get d1.tidx x = none := by
        intro hn
        have := execAll_tidx_some (ws := [w]) (x := x) (d := d) (d' := d1) (by rw [execAll, hw]; rfl)
        cases hg : get d1.tidx x with
        | none => rfl
        | some l =>
          rcases this (by rw [hg]; rfl) with h1 | ⟨l', h1⟩
          · rw [hn] at h1; cases h1
          · exact absurd (List.mem_singleton.1 h1 ▸ List.mem_cons_self) (hp l')
      rcases hs with hs | hs
      · exact Or.inl (keep hs)
      · rcases List.mem_cons.1 hs with e | hs
        · subst e
          cases hw
          left
          show get (erase d.tidx x) x = none
          rw [get_erase, if_pos rfl]
        · exact Or.inr hs

theorem opWrites_noTidx (k : Kind) (ops : List ObjOp) : ∀ w ∈ ops.flatMap (ObjOp.writes k), ¬ w.onTidx := by
  intro w hw
  obtain ⟨op, _, h⟩ := List.mem_flatMap.1 hw
  cases op <;> simp [ObjOp.writes] at h
  · rcases h with e | e <;> subst e <;> exact fun h => h
  · subst h; exact fun h => h
  · rcases h with e | e <;> subst e <;> exact fun h => h

theorem mem_writes_tidx {inc : Incr} {w : Write} (hi : ∀ w ∈ inc.ids, ¬ w.onTidx) (hw : w.onTidx) : w ∈ inc.writes ↔ w ∈ inc.heads := by
  unfold Incr.writes
  constructor
  · intro h
    rcases List.mem_append.1 h with h | h
    · rcases List.mem_append.1 h with h | h
      · rcases List.mem_append.1 h with h | h
        · exact h
        · exact absurd hw (opWrites_noTidx _ _ w h)
      · exact absurd hw (opWrites_noTidx _ _ w h)
    · exact absurd hw (hi w h)
  · intro h
    exact List.mem_append_left _ (List.mem_append_left _ (List.mem_append_left _ h))

theorem Part.ids_noTidx {d : Data} {q : Req} {inc : Incr} (h : Part d q inc) : ∀ w ∈ inc.ids, ¬ w.onTidx := by
  cases h with
  | off _ _ _ _ hi => exact hi
  | _ => intro w hw; cases hw

/-- A list of indexes is put only by a `CreateTables` that names the table. -/
theorem Part.put {d : Data} {q : Req} {inc : Incr} (h : Part d q inc) {x : Int} {lx : List Int} (hm : .tidxPut x lx ∈ inc.heads) :
    ∃ sid l n, q = .createTables sid l ∧ (some Kind.table, n) ∈ l ∧ n.id = x := by
  cases h with
  | off _ heads ids h => exact absurd (Write.onTidx_put _ _) (h _ hm)
  | tables sid l id r ops hl =>
    have hm := List.mem_singleton.1 hm
    injection hm with e1 e2
    obtain ⟨n, h1, h2⟩ := hl
    exact ⟨sid, l, n, rfl, h1, h2.trans e1.symm⟩
  | drops l h =>
    obtain ⟨⟨ko, sid, id⟩, _, h⟩ := List.mem_flatMap.1 hm
    cases ko with
    | none => cases h
    | some ko =>
      cases ko with
      | table => simp [dropEntry] at h
      | index =>
        dsimp only [dropEntry] at h
        split at h <;> simp at h
  | add => have hm := List.mem_singleton.1 hm; cases hm
  | del => have hm := List.mem_singleton.1 hm; cases hm
  | _ => cases hm

/-- A table is dropped only if it has a list of indexes. -/
theorem Part.deleted {d : Data} {q : Req} {inc : Incr} (h : Part d q inc) {x sid : Int} (hm : .delete x sid ∈ inc.tables) :
    (get d.tidx x).isSome := by
  cases h with
  | drops l h =>
    have : ∃ s, .delete x s ∈ (dropEntries d l).ops .table := ⟨sid, hm⟩
    rcases dropEntries_named.1 this with ⟨s, h1⟩ | ⟨e, _⟩
    · obtain ⟨_, _, _, _, lx, h2, _⟩ := h _ h1
      rw [h2]; rfl
    · cases e
  | table => have hm := List.mem_singleton.1 hm; cases hm
  | tables => have hm := List.mem_singleton.1 hm; cases hm
  | upTable => have hm := List.mem_singleton.1 hm; cases hm
  | _ => cases hm

/-- In every run a table has a list of indexes only if a `CreateTables` names it. -/
theorem run_tidx {es : List Ev} {x : Int} (h : (get (run init es).1.data.tidx x).isSome) :
    ∃ sid l n, .begin (.createTables sid l) ∈ es ∧ (some Kind.table, n) ∈ l ∧ n.id = x := by
  have : ∃ inc ∈ applied init es, ∃ lx, .tidxPut x lx ∈ inc.heads := by
    induction es using snoc_ind with
    | nil => cases h
    | snoc es e ih =>
      rw [run_snoc] at h
      have hap := run_applied (es := es ++ [e])
      rw [applied_append] at hap ⊢
      rcases step_data (run init es).1 e with ⟨h1, h2⟩ | ⟨y, rest, d, _, _, hl, h1, ha, h2⟩
      · dsimp only at h
        rw [h2] at h
        obtain ⟨inc, g1, g2⟩ := ih h
        exact ⟨inc, List.mem_append_left _ g1, g2⟩
      · dsimp only at h
        rw [h2] at h
        obtain ⟨q, es1, n, t, p, i, _, _, hp, e⟩ := hap y.2 (by rw [h1]; exact List.mem_append_right _ List.mem_cons_self)
        have hid := (prepare_part hp).ids_noTidx
        rw [e] at hid
        rcases execAll_tidx_some ha h with g | ⟨l, g⟩
        · obtain ⟨inc, g1, g2⟩ := ih g
          exact ⟨inc, List.mem_append_left _ g1, g2⟩
        · refine ⟨y.2, ?_, l, (mem_writes_tidx hid (Write.onTidx_put _ _)).1 g⟩
          rw [h1]; exact List.mem_append_right _ List.mem_cons_self
  obtain ⟨inc, h1, lx, h2⟩ := this
  obtain ⟨q, es1, n, t, p, i, ⟨es2, e1, _⟩, _, hp, e⟩ := run_applied inc h1
  subst e
  obtain ⟨sid, l, n', e2, h3, h4⟩ := (prepare_part hp).put h2
  exact ⟨sid, l, n', by rw [e1, e2]; simp, h3, h4⟩

theorem prepare_dropTable {d : Data} {t t' : Temp} {sid id : Int} {p : Plan} : prepare d t (.dropTable sid id) ≠ (t', .ok p) := by
  intro h
  dsimp only [prepare] at h
  unfold dropTable at h
  cases hg : getTableIndexes d sid id with
  | error e => rw [hg] at h; cases h
  | ok l =>
    rw [hg] at h
    dsimp only at h
    unfold getTableIndexes at hg
    split at hg
    · cases hg
    · split at hg
      · cases hg
      · split at hg
        · cases hg
        · cases hg
          rw [if_pos (by simp)] at h
          cases h

/-- A request whose answer comes with this event: its entry is the one applied. -/
theorem apply_replied {es : List Ev} {i : Nat} {r : Resp} (h : (step (run init es).1 .apply).2 = .replied i r) {q : Req}
    {es1 : List Ev} (hb : BegunAt es i q es1) : ∃ t n p, (run init es1).1.leader = some n ∧
      prepare (run init es1).1.data ((run init es1).1.temps n) q = (t, .ok p) ∧ p.resp = r ∧
      applyIncr (run init es).1.data p.incr = some (step (run init es).1 .apply).1.data := by
  have hd : (run init es).1.dead = false := by
    cases hd : (run init es).1.dead with
    | true => rw [step_dead hd] at h; cases h
    | false => rfl
  have hlog := run_log (es := es)
  rw [step_apply hd] at h ⊢
  rcases apply_full (run init es).1 with ⟨_, e⟩ | ⟨j, inc, rest, hl, ⟨_, e⟩ | ⟨d, ha, ⟨th', hi', _, e⟩ | ⟨_, e⟩⟩⟩
  · rw [e] at h; cases h
  · rw [e] at h; cases h
  · rw [e] at h ⊢
    injection h with e1 e2
    subst e1
    obtain ⟨th2, g1, g2⟩ := hlog (j, inc) (hl ▸ List.mem_cons_self)
    dsimp only at g1 g2
    rw [hi'] at g1; cases g1
    obtain ⟨es1', hb', h4, t, h5⟩ := run_begun hi'
    obtain ⟨e3, e4⟩ := begunAt_unique hb hb'
    subst e3; subst e4
    exact ⟨t, _, _, h4, h5, e2, by rw [g2]; exact ha⟩
  · rw [e] at h; cases h

/-! ## C74 -/

/-- `DropTable` never drops a table: in no state is it taken.  (A table without list of indexes is not found, and
the list it reads has the table itself in it, which it takes for an index.) -/
theorem C74_drop_table_never (s : State) (sid id : Int) (i : Nat) : (step s (.begin (.dropTable sid id))).2 ≠ .begun i := by
  cases hd : s.dead with
  | true => rw [step_dead hd]; nofun
  | false =>
    rw [step_begin hd]
    rcases begin_cases s (.dropTable sid id) with ⟨_, e⟩ | ⟨n, t, er, hl, hp, e⟩ | ⟨n, t, p, hl, hp, e⟩
    · rw [e]; nofun
    · rw [e]; nofun
    · exact absurd hp prepare_dropTable

/-- A table made by `CreateTable` can never be dropped: in every run in which no `CreateTables` names its id it
is there for good. -/
theorem C74_undroppable (es : List Ev) (i : Nat) (r : Resp) (h : .replied i r ∈ (run init es).2) (sid : Int) (n : New)
    (es1 : List Ev) (hb : BegunAt es i (.createTable sid n) es1)
    (hno : ∀ sid' l n', .begin (.createTables sid' l) ∈ es → (some Kind.table, n') ∈ l → n'.id ≠ n.id) :
    (get ((run init es).1.data.objs .table) n.id).isSome := by
  refine C73_created es i r h _ es1 hb .table n.id (Or.inl ⟨sid, n, rfl, rfl, rfl⟩) ?_
  intro inc hin s hm
  obtain ⟨q, es0, m, t, p, j, ⟨es2, e1, _⟩, _, hp, e⟩ := run_applied inc hin
  subst e
  have h1 := (prepare_part hp).deleted hm
  obtain ⟨sid', l, n', h2, h3, h4⟩ := run_tidx h1
  exact hno sid' l n' (by rw [e1]; exact List.mem_append_left _ h2) h3 h4

/-- When `DropTables` is taken: every table named is in the schema named, with a list of indexes that exist in the
same schema; every index named is in the schema named. -/
theorem C74_taken (s : State) (n0 : Nat) (hl : s.leader = some n0) (hd : s.dead = false)
    (l : List (Option Kind × Int × Int)) :
    (step s (.begin (.dropTables l))).2 = .begun s.ths.length ↔ ∀ e ∈ l, DropOk s.data e := by
  rw [step_begin hd]
  rw [← dropTables_iff (t := s.temps n0)]
  rcases begin_cases s (.dropTables l) with ⟨h0, e⟩ | ⟨n, t, er, hl', hp, e⟩ | ⟨n, t, p, hl', hp, e⟩
  · rw [h0] at hl; cases hl
  · rw [hl] at hl'; cases hl'
    rw [e]
    refine ⟨nofun, fun ⟨t', p, h⟩ => ?_⟩
    dsimp only [prepare] at hp
    rw [hp] at h; cases h
  · rw [hl] at hl'; cases hl'
    rw [e]
    exact ⟨fun _ => ⟨t, p, hp⟩, fun _ => rfl⟩

/-- What `DropTables` does when it is answered, in every run: exactly what it named is gone, tables with their
lists of indexes; everything else is as it was. -/
theorem C74_dropped (es : List Ev) (s s' : State) (hs : s = (run init es).1) (hs' : s' = (step s .apply).1) (i : Nat) (r : Resp)
    (h : (step s .apply).2 = .replied i r) (l : List (Option Kind × Int × Int)) (es1 : List Ev)
    (hb : BegunAt es i (.dropTables l) es1) (d : Data) (hd : d = (run init es1).1.data) :
    r = .ok ∧
    (∀ k j, NamedIn d l k j → get (s'.data.objs k) j = none) ∧
    (∀ k j, ¬ NamedIn d l k j → get (s'.data.objs k) j = get (s.data.objs k) j) ∧
    (∀ sid x, (some Kind.table, sid, x) ∈ l → get s'.data.tidx x = none) ∧
    (∀ x, (get s'.data.schemas x).map (fun sc => (sc.name, sc.tenant)) = (get s.data.schemas x).map (fun sc => (sc.name, sc.tenant))) := by
  subst hs; subst hs'; subst hd
  obtain ⟨t, n, p, _, hp, hr, ha⟩ := apply_replied h hb
  have hoff := (prepare_shape hp).offObj
  have hoffs := (prepare_shape hp).ids_offSchema
  have hpart := prepare_part hp
  dsimp only [prepare] at hp
  obtain ⟨e, er⟩ := dropTables_entries hp
  have hdel : ∀ k, ∀ op ∈ p.incr.ops k, ∃ j s, op = ObjOp.delete j s := by
    intro k op hm
    rw [e, dropEntries_ops] at hm
    obtain ⟨x, _, hm⟩ := List.mem_flatMap.1 hm
    exact dropEntry_ops hm
  refine ⟨hr.symm.trans er, ?_, ?_, ?_, ?_⟩
  · intro k j hn
    rw [applyIncr_objs ha hoff.1 hoff.2]
    exact (replay_deletes (hdel k) _).1 (by rw [e]; exact dropEntries_named.2 hn)
  · intro k j hn
    rw [applyIncr_objs ha hoff.1 hoff.2]
    exact (replay_deletes (hdel k) _).2 (by rw [e]; exact fun h => hn (dropEntries_named.1 h))
  · intro sid x hm
    refine execAll_tidx_gone ?_ ha (Or.inr ?_)
    · intro lx hx
      obtain ⟨sid, l', n', e, _⟩ := hpart.put ((mem_writes_tidx hpart.ids_noTidx (Write.onTidx_put _ _)).1 hx)
      cases e
    · refine (mem_writes_tidx hpart.ids_noTidx (Write.onTidx_erase _)).2 ?_
      rw [e]
      exact List.mem_flatMap.2 ⟨_, hm, by simp [dropEntry]⟩
  · intro x
    rw [applyIncr_schema ha hoffs, replaySchema_off]
    intro w hw
    rw [e] at hw
    obtain ⟨⟨ko, sid, id⟩, _, hw⟩ := List.mem_flatMap.1 hw
    cases ko with
    | none => cases hw
    | some ko =>
      cases ko with
      | table => simp [dropEntry] at hw; subst hw; rfl
      | index =>
        dsimp only [dropEntry] at hw
        split at hw <;> simp at hw
        subst hw; rfl

end Verif.Meta
