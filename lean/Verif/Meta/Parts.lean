/-
The entry each request makes, request by request.
-/
import Verif.Meta.PropsApply

namespace Verif.Meta

theorem OpStep.create_none {d : Data} {k : Kind} {t t' : Names} {id : Int} {r : Obj}
    (h : OpStep d k t (.create id r) t') : get (d.objs k) id = none := by
  generalize ho : ObjOp.create id r = op at h
  cases h with
  | create _ _ h1 => cases ho; exact h1
  | delete => cases ho
  | update => cases ho

/-! ## `DropTables` -/

/-- A member of a `DropTables` request that is taken. -/
def DropOk (d : Data) : Option Kind × Int × Int → Prop
  | (none, _, _) => False
  | (some .table, sid, id) => 0 ≤ sid ∧ 0 < id ∧ (get d.schemas sid).isSome ∧
      (∃ r, get (d.objs .table) id = some r ∧ r.schema = sid) ∧
      ∃ l, get d.tidx id = some l ∧ ∀ i ∈ l, ∃ r, get (d.objs .index) i = some r ∧ r.schema = sid
  | (some .index, sid, id) => 0 ≤ sid ∧ (get d.schemas sid).isSome ∧ ∃ r, get (d.objs .index) id = some r ∧ r.schema = sid

/-- The entry of one member. -/
def dropEntry (d : Data) : Option Kind × Int × Int → Incr
  | (none, _, _) => {}
  | (some .table, sid, id) =>
    { heads := [.tidxErase id], indexes := ((get d.tidx id).getD []).map (fun i => .delete i sid), tables := [.delete id sid] }
  | (some .index, sid, id) =>
    { heads := if id ∈ (get d.tidx sid).getD [] then [.tidxAddDel sid [] [id]] else [], indexes := [.delete id sid] }

/-- The entry of all members. -/
def dropEntries (d : Data) (l : List (Option Kind × Int × Int)) : Incr :=
  ⟨l.flatMap (fun e => (dropEntry d e).heads), l.flatMap (fun e => (dropEntry d e).indexes),
   l.flatMap (fun e => (dropEntry d e).tables), []⟩

theorem rmIndex_iff {d : Data} {t : Temp} {sid id : Int} {b : Bool} :
    (∃ t' op, rmIndex d t sid id b = (t', .ok op)) ↔
      0 ≤ sid ∧ (get d.schemas sid).isSome ∧ ∃ r, get (d.objs .index) id = some r ∧ r.schema = sid ∧ ¬ (b = true ∧ r.owner > 0) := by
  unfold rmIndex
  by_cases c1 : sid < 0
  · rw [if_pos c1]
    exact ⟨fun ⟨_, _, h⟩ => (by cases h), fun h => absurd h.1 (by omega)⟩
  · rw [if_neg c1]
    cases hs : get d.schemas sid with
    | none => exact ⟨fun ⟨_, _, h⟩ => (by cases h), fun h => (by cases h.2.1)⟩
    | some s =>
      dsimp only
      cases ho : get (d.objs .index) id with
      | none => exact ⟨fun ⟨_, _, h⟩ => (by cases h), fun ⟨_, _, r, h, _⟩ => (by cases h)⟩
      | some r =>
        dsimp only
        by_cases c2 : r.schema ≠ sid
        · rw [if_pos c2]
          exact ⟨fun ⟨_, _, h⟩ => (by cases h), fun ⟨_, _, r', h, h2, _⟩ => (by cases h; exact absurd h2 c2)⟩
        · rw [if_neg c2]
          by_cases c3 : b = true ∧ r.owner > 0
          · rw [if_pos c3]
            exact ⟨fun ⟨_, _, h⟩ => (by cases h), fun ⟨_, _, r', h, _, h2⟩ => (by cases h; exact absurd c3 h2)⟩
          · rw [if_neg c3]
            exact ⟨fun _ => ⟨by omega, rfl, r, rfl, Decidable.not_not.1 c2, c3⟩, fun _ => ⟨_, _, rfl⟩⟩

theorem rmTable_iff {d : Data} {t : Temp} {sid id : Int} :
    (∃ t' op, rmTable d t sid id = (t', .ok op)) ↔
      0 ≤ sid ∧ (get d.schemas sid).isSome ∧ ∃ r, get (d.objs .table) id = some r ∧ r.schema = sid := by
  unfold rmTable
  by_cases c1 : sid < 0
  · rw [if_pos c1]
    exact ⟨fun ⟨_, _, h⟩ => (by cases h), fun h => absurd h.1 (by omega)⟩
  · rw [if_neg c1]
    cases hs : get d.schemas sid with
    | none => exact ⟨fun ⟨_, _, h⟩ => (by cases h), fun h => (by cases h.2.1)⟩
    | some s =>
      dsimp only
      cases ho : get (d.objs .table) id with
      | none => exact ⟨fun ⟨_, _, h⟩ => (by cases h), fun ⟨_, _, r, h, _⟩ => (by cases h)⟩
      | some r =>
        dsimp only
        by_cases c2 : r.schema ≠ sid
        · rw [if_pos c2]
          exact ⟨fun ⟨_, _, h⟩ => (by cases h), fun ⟨_, _, r', h, h2⟩ => (by cases h; exact absurd h2 c2)⟩
        · rw [if_neg c2]
          exact ⟨fun _ => ⟨by omega, rfl, r, rfl, Decidable.not_not.1 c2⟩, fun _ => ⟨_, _, rfl⟩⟩

theorem rmAll_iff {d : Data} {sid : Int} (h0 : 0 ≤ sid) (hs : (get d.schemas sid).isSome) {l : List Int} : ∀ {t : Temp},
    (∃ t' ops, rmAll d sid t l = (t', .ok ops)) ↔ ∀ i ∈ l, ∃ r, get (d.objs .index) i = some r ∧ r.schema = sid := by
  induction l with
  | nil => intro t; exact ⟨fun _ i h => (by cases h), fun _ => ⟨_, _, rfl⟩⟩
  | cons i l ih =>
    intro t
    unfold rmAll
    have hi := rmIndex_iff (d := d) (t := t) (sid := sid) (id := i) (b := false)
    cases hm : rmIndex d t sid i false with
    | mk t1 res =>
      rw [hm] at hi
      cases res with
      | error e =>
        refine ⟨fun ⟨_, _, h⟩ => (by cases h), fun h => ?_⟩
        obtain ⟨r, h1, h2⟩ := h i List.mem_cons_self
        obtain ⟨_, _, h3⟩ := hi.2 ⟨h0, hs, r, h1, h2, by simp⟩
        cases h3
      | ok op =>
        obtain ⟨_, _, r, h1, h2, _⟩ := hi.1 ⟨_, _, rfl⟩
        dsimp only
        have ih := ih (t := t1)
        cases ha : rmAll d sid t1 l with
        | mk t2 res =>
          rw [ha] at ih
          cases res with
          | error e =>
            refine ⟨fun ⟨_, _, h⟩ => (by cases h), fun h => ?_⟩
            obtain ⟨_, _, h3⟩ := ih.2 (fun i hi => h i (List.mem_cons_of_mem _ hi))
            cases h3
          | ok ops =>
            refine ⟨fun _ j hj => ?_, fun _ => ⟨_, _, rfl⟩⟩
            rcases List.mem_cons.1 hj with e | hj
            · subst e; exact ⟨r, h1, h2⟩
            · exact ih.1 ⟨_, _, rfl⟩ j hj

theorem rmTableIndexes_iff {d : Data} {t : Temp} {sid id : Int} :
    (∃ t' i, rmTableIndexes d t sid id = (t', .ok i)) ↔ DropOk d (some .table, sid, id) := by
  unfold rmTableIndexes DropOk
  constructor
  · rintro ⟨t', i, h⟩
    cases hg : getObj d .table sid id with
    | error e => rw [hg] at h; cases h
    | ok r =>
      rw [hg] at h
      unfold getObj at hg
      by_cases c1 : sid < 0
      · rw [if_pos c1] at hg; cases hg
      · rw [if_neg c1] at hg
        by_cases c2 : id ≤ 0
        · rw [if_pos c2] at hg; cases hg
        · rw [if_neg c2] at hg
          cases hs : get d.schemas sid with
          | none => rw [hs] at hg; cases hg
          | some sc =>
            cases ht : get d.tidx id with
            | none => rw [ht] at h; cases h
            | some l =>
              rw [ht] at h
              dsimp only at h
              have hall := rmAll_iff (d := d) (sid := sid) (by omega) (by rw [hs]; rfl) (l := l) (t := t)
              cases hr : rmAll d sid t l with
              | mk t1 res =>
                rw [hr] at h hall
                cases res with
                | error e => cases h
                | ok ops =>
                  dsimp only at h
                  have htb := rmTable_iff (d := d) (t := t1) (sid := sid) (id := id)
                  cases hx : rmTable d t1 sid id with
                  | mk t2 res2 =>
                    rw [hx] at h htb
                    cases res2 with
                    | error e => cases h
                    | ok op =>
                      exact ⟨by omega, by omega, by rw [hs]; rfl, (htb.1 ⟨_, _, rfl⟩).2.2, l, ht, hall.1 ⟨_, _, rfl⟩⟩
  · rintro ⟨h0, h1, h2, ⟨r, h3, h3'⟩, l, h4, h5⟩
    obtain ⟨sc, hs⟩ := Option.isSome_iff_exists.1 h2
    have hg : getObj d .table sid id = .ok r := by
      unfold getObj
      rw [if_neg (by omega), if_neg (by omega), hs]
      dsimp only
      rw [h3]
    rw [hg]
    dsimp only
    rw [h4]
    dsimp only
    obtain ⟨t1, ops, hr⟩ := (rmAll_iff h0 h2 (t := t)).2 h5
    rw [hr]
    dsimp only
    obtain ⟨t2, op, hx⟩ := (rmTable_iff (t := t1)).2 ⟨h0, h2, r, h3, h3'⟩
    rw [hx]
    exact ⟨_, _, rfl⟩

theorem rmTableIndex_iff {d : Data} {t : Temp} {sid id : Int} :
    (∃ t' i, rmTableIndex d t sid id = (t', .ok i)) ↔ DropOk d (some .index, sid, id) := by
  unfold rmTableIndex DropOk
  have hi := rmIndex_iff (d := d) (t := t) (sid := sid) (id := id) (b := false)
  cases hm : rmIndex d t sid id false with
  | mk t1 res =>
    rw [hm] at hi
    cases res with
    | error e =>
      refine ⟨fun ⟨_, _, h⟩ => (by cases h), fun ⟨h0, h1, r, h2, h3⟩ => ?_⟩
      obtain ⟨_, _, h3⟩ := hi.2 ⟨h0, h1, r, h2, h3, by simp⟩
      cases h3
    | ok op =>
      obtain ⟨h0, h1, r, h2, h3, _⟩ := hi.1 ⟨_, _, rfl⟩
      refine ⟨fun _ => ⟨h0, h1, r, h2, h3⟩, fun _ => ?_⟩
      dsimp only
      split
      · exact ⟨_, _, rfl⟩
      · split <;> exact ⟨_, _, rfl⟩

theorem rmTableIndexes_entry {d : Data} {t t' : Temp} {sid id : Int} {i : Incr} (h : rmTableIndexes d t sid id = (t', .ok i)) :
    i = dropEntry d (some .table, sid, id) := by
  obtain ⟨_, l, h1, h2⟩ := rmTableIndexes_ok h
  rw [h2]
  dsimp only [dropEntry]
  rw [h1]
  rfl

theorem rmTableIndex_entry {d : Data} {t t' : Temp} {sid id : Int} {i : Incr} (h : rmTableIndex d t sid id = (t', .ok i)) :
    i = dropEntry d (some .index, sid, id) := by
  unfold rmTableIndex at h
  dsimp only [dropEntry]
  cases hm : rmIndex d t sid id false with
  | mk t1 res =>
    rw [hm] at h
    cases res with
    | error e => cases h
    | ok op =>
      obtain ⟨_, _, _, _, g5⟩ := rmIndex_ok hm
      subst g5
      dsimp only at h
      cases ht : get d.tidx sid with
      | none => rw [ht] at h; cases h; simp
      | some l =>
        rw [ht] at h
        dsimp only at h
        by_cases c : id ∈ l
        · rw [if_pos c] at h; cases h; simp [c]
        · rw [if_neg c] at h; cases h; simp [c]

theorem Incr.join_assoc (a b c : Incr) : (a.join b).join c = a.join (b.join c) := by
  simp [Incr.join, List.append_assoc]

theorem dropEntries_cons (d : Data) (e : Option Kind × Int × Int) (l : List (Option Kind × Int × Int)) :
    dropEntries d (e :: l) = (dropEntry d e).join (dropEntries d l) := by
  have : (dropEntry d e).ids = [] := by
    obtain ⟨k, _, _⟩ := e
    cases k with
    | none => rfl
    | some k => cases k <;> rfl
  simp [dropEntries, Incr.join, this]

theorem dropLoop_iff {d : Data} {l : List (Option Kind × Int × Int)} : ∀ {t : Temp} {a : Incr},
    (∃ t' i, dropLoop d t l a = (t', .ok i)) ↔ ∀ e ∈ l, DropOk d e := by
  induction l with
  | nil => intro t a; exact ⟨fun _ e h => (by cases h), fun _ => ⟨_, _, rfl⟩⟩
  | cons e l ih =>
    intro t a
    obtain ⟨k, sid, id⟩ := e
    cases k with
    | none => exact ⟨fun ⟨_, _, h⟩ => (by cases h), fun h => (h _ List.mem_cons_self).elim⟩
    | some k =>
      cases k with
      | table =>
        unfold dropLoop
        have hi := rmTableIndexes_iff (d := d) (t := t) (sid := sid) (id := id)
        cases hm : rmTableIndexes d t sid id with
        | mk t1 res =>
          rw [hm] at hi
          cases res with
          | error e =>
            refine ⟨fun ⟨_, _, h⟩ => (by cases h), fun h => ?_⟩
            obtain ⟨_, _, h3⟩ := hi.2 (h _ List.mem_cons_self)
            cases h3
          | ok i =>
            dsimp only
            rw [ih (t := t1)]
            have := hi.1 ⟨_, _, rfl⟩
            exact ⟨fun h e he => (by rcases List.mem_cons.1 he with he | he; exact he ▸ this; exact h e he),
              fun h e he => h e (List.mem_cons_of_mem _ he)⟩
      | index =>
        unfold dropLoop
        have hi := rmTableIndex_iff (d := d) (t := t) (sid := sid) (id := id)
        cases hm : rmTableIndex d t sid id with
        | mk t1 res =>
          rw [hm] at hi
          cases res with
          | error e =>
            refine ⟨fun ⟨_, _, h⟩ => (by cases h), fun h => ?_⟩
            obtain ⟨_, _, h3⟩ := hi.2 (h _ List.mem_cons_self)
            cases h3
          | ok i =>
            dsimp only
            rw [ih (t := t1)]
            have := hi.1 ⟨_, _, rfl⟩
            exact ⟨fun h e he => (by rcases List.mem_cons.1 he with he | he; exact he ▸ this; exact h e he),
              fun h e he => h e (List.mem_cons_of_mem _ he)⟩

theorem dropLoop_entries {d : Data} {l : List (Option Kind × Int × Int)} : ∀ {t t' : Temp} {a i : Incr},
    dropLoop d t l a = (t', .ok i) → i = a.join (dropEntries d l) := by
  induction l with
  | nil => intro t t' a i h; cases h; simp [dropEntries, Incr.join]
  | cons e l ih =>
    intro t t' a i h
    rw [dropEntries_cons, ← Incr.join_assoc]
    obtain ⟨k, sid, id⟩ := e
    cases k with
    | none => cases h
    | some k =>
      cases k with
      | table =>
        unfold dropLoop at h
        cases hm : rmTableIndexes d t sid id with
        | mk t1 res =>
          rw [hm] at h
          cases res with
          | error e => cases h
          | ok i1 =>
            dsimp only at h
            rw [ih h, rmTableIndexes_entry hm]
      | index =>
        unfold dropLoop at h
        cases hm : rmTableIndex d t sid id with
        | mk t1 res =>
          rw [hm] at h
          cases res with
          | error e => cases h
          | ok i1 =>
            dsimp only at h
            rw [ih h, rmTableIndex_entry hm]

theorem dropTables_iff {d : Data} {t : Temp} {l : List (Option Kind × Int × Int)} :
    (∃ t' p, dropTables d t l = (t', .ok p)) ↔ ∀ e ∈ l, DropOk d e := by
  rw [← dropLoop_iff (t := t) (a := {})]
  unfold dropTables
  cases h : dropLoop d t l {} with
  | mk t1 res => cases res <;> simp

theorem dropTables_entries {d : Data} {t t' : Temp} {l : List (Option Kind × Int × Int)} {p : Plan}
    (h : dropTables d t l = (t', .ok p)) : p.incr = dropEntries d l ∧ p.resp = .ok := by
  unfold dropTables at h
  cases hm : dropLoop d t l {} with
  | mk t1 res =>
    rw [hm] at h
    cases res with
    | error e => cases h
    | ok i =>
      cases h
      refine ⟨?_, rfl⟩
      rw [dropLoop_entries hm]
      simp [Incr.join]

/-! ## All requests -/

/-- A write is about the index lists of tables. -/
def Write.onTidx : Write → Prop
  | .tidxPut _ _ | .tidxAddDel _ _ _ | .tidxErase _ => True
  | _ => False

/-- The request is about tenants or schemas. -/
def Req.isSchema : Req → Bool
  | .createTenant _ | .dropTenant _ | .createSchema _ _ _ | .dropSchema _ _ => true
  | _ => false

/-- The entries of the requests. -/
inductive Part (d : Data) : Req → Incr → Prop
  /-- Tenants, schemas, ids. -/
  | off (q : Req) (heads ids : List Write) (h : ∀ w ∈ heads, ¬ w.onTidx) (hi : ∀ w ∈ ids, ¬ w.onTidx)
      (hz : heads = [] ∨ q.isSchema = true) : Part d q ⟨heads, [], [], ids⟩
  | table (sid : Int) (n : New) (r : Obj) (h : get (d.objs .table) n.id = none) (hp : 0 < n.id) :
      Part d (.createTable sid n) { tables := [.create n.id r] }
  | index (q : Req) (id : Int) (r : Obj) (h : r.owner = 0) : Part d q { indexes := [.create id r] }
  | tables (sid : Int) (l : List (Option Kind × New)) (id : Int) (r : Obj) (ops : List ObjOp)
      (hl : ∃ n, (some .table, n) ∈ l ∧ n.id = id) (h : get (d.objs .table) id = none) (hp : 0 < id) (hr : r.schema = sid)
      (ho : ∀ op ∈ ops, ∃ i r, op = .create i r ∧ r.owner = id ∧ r.schema = sid) :
      Part d (.createTables sid l) { heads := [.tidxPut id (createdIds ops)], indexes := ops, tables := [.create id r] }
  | indexes (sid : Int) (l : List (Option Kind × New)) (ops : List ObjOp)
      (ho : ∀ op ∈ ops, ∃ i r, op = .create i r ∧ r.owner = 0 ∧ r.schema = sid) :
      Part d (.createTables sid l) { indexes := ops }
  | drops (l : List (Option Kind × Int × Int)) (h : ∀ e ∈ l, DropOk d e) : Part d (.dropTables l) (dropEntries d l)
  | upTable (q : Req) (id : Int) (n : Name) (df : Nat) : Part d q { tables := [.update id n df] }
  | upIndex (q : Req) (id : Int) (n : Name) (df : Nat) : Part d q { indexes := [.update id n df] }
  | add (tb : Int) (n : New) (r : Obj) (ri : Obj) (ht : get (d.objs .table) tb = some r) (hx : (get d.tidx tb).isSome)
      (h0 : ri.owner = tb) (hs : ri.schema = r.schema) :
      Part d (.addIndex tb n) { heads := [.tidxAddDel tb [n.id] []], indexes := [.create n.id ri] }
  | del (tb id : Int) (r : Obj) (l : List Int) (ht : get (d.objs .table) tb = some r) (hx : get d.tidx tb = some l)
      (hm : id ∈ l) : Part d (.dropIndexOn tb id) { heads := [.tidxAddDel tb [] [id]], indexes := [.delete id r.schema] }
  | free (sid id : Int) (r : Obj) (h : get (d.objs .index) id = some r) (ho : r.owner ≤ 0) :
      Part d (.dropIndex sid id) { indexes := [.delete id sid] }

theorem createTheIndexes_all {d : Data} {sid owner : Int} {l : List (Option Kind × New)} :
    ∀ {t t' : Temp} {back back' : List (Kind × Int × Name)} {ops ops' : List ObjOp},
    createTheIndexes d sid owner t l back ops = (t', .ok (ops', back')) →
    (∀ op ∈ ops, ∃ i r, op = .create i r ∧ r.owner = owner ∧ r.schema = sid) →
    ∀ op ∈ ops', ∃ i r, op = ObjOp.create i r ∧ r.owner = owner ∧ r.schema = sid := by
  induction l with
  | nil => intro t t' back back' ops ops' h h0; cases h; exact h0
  | cons x l ih =>
    intro t t' back back' ops ops' h h0
    obtain ⟨k, n⟩ := x
    cases k with
    | none => cases h
    | some k =>
      cases k with
      | table => exact ih (show createTheIndexes d sid owner t l back ops = _ from h) h0
      | index =>
        unfold createTheIndexes at h
        cases hm : mkIndex d t sid owner n with
        | mk t1 res =>
          rw [hm] at h
          cases res with
          | error e => cases h
          | ok op =>
            dsimp only at h
            refine ih h ?_
            intro o ho
            rcases List.mem_append.1 ho with ho | ho
            · exact h0 o ho
            · rw [List.mem_singleton.1 ho, (mkIndex_ok hm).2.2.2.2]
              exact ⟨_, _, rfl, rfl, rfl⟩

theorem createTheTable_made {d : Data} {sid : Int} {l : List (Option Kind × New)} : ∀ {t t' : Temp} {a a' : Option (Int × ObjOp)},
    createTheTable d sid t l a = (t', .ok a') → a' = a ∨ (∃ n r, (some Kind.table, n) ∈ l ∧ a' = some (n.id, .create n.id r) ∧
      r.schema = sid ∧ get (d.objs .table) n.id = none ∧ 0 < n.id) := by
  induction l with
  | nil => intro t t' a a' h; cases h; exact Or.inl rfl
  | cons x l ih =>
    intro t t' a a' h
    obtain ⟨k, n⟩ := x
    have skip : ∀ {t}, createTheTable d sid t l a = (t', .ok a') → a' = a ∨ (∃ n' r, (some Kind.table, n') ∈ (k, n) :: l ∧
        a' = some (n'.id, .create n'.id r) ∧ r.schema = sid ∧ get (d.objs .table) n'.id = none ∧ 0 < n'.id) := by
      intro t h
      rcases ih h with h | ⟨n', r, h1, h2⟩
      · exact Or.inl h
      · exact Or.inr ⟨n', r, List.mem_cons_of_mem _ h1, h2⟩
    cases k with
    | none => exact skip h
    | some k =>
      cases k with
      | index => exact skip h
      | table =>
        unfold createTheTable at h
        cases a with
        | some y =>
          obtain ⟨_, op⟩ := y
          cases op <;> cases h
        | none =>
          dsimp only at h
          cases hm : mkTable d t sid n with
          | mk t1 res =>
            rw [hm] at h
            cases res with
            | error e => cases h
            | ok op =>
              dsimp only at h
              obtain ⟨h1, _, _, _, h2⟩ := mkTable_ok hm
              rw [h2] at h1
              have hpos := h1.create_pos
              have hnone := h1.create_none
              rcases ih h with h | ⟨n', r, h3, h4⟩
              · rw [h, h2]
                exact Or.inr ⟨n, _, List.mem_cons_self, rfl, rfl, hnone, hpos⟩
              · exact Or.inr ⟨n', r, List.mem_cons_of_mem _ h3, h4⟩

theorem prepare_part {d : Data} {t t' : Temp} {q : Req} {p : Plan} (h : prepare d t q = (t', .ok p)) : Part d q p.incr := by
  cases q with
  | createTenant id =>
    dsimp only [prepare] at h
    unfold createTenant at h
    split at h
    · cases h; exact .off _ [] [] (by simp) (by simp) (Or.inl rfl)
    · split at h
      · cases h
      · cases h
        exact .off _ [_] [] (by intro w hw; cases List.mem_singleton.1 hw; exact fun h => h) (by simp) (Or.inr rfl)
  | dropTenant id =>
    dsimp only [prepare] at h
    unfold dropTenant at h
    repeat' split at h
    all_goals cases h
    exact .off _ [_] [] (by intro w hw; cases List.mem_singleton.1 hw; exact fun h => h) (by simp) (Or.inr rfl)
  | createSchema tn n j =>
    dsimp only [prepare] at h
    unfold createSchema at h
    repeat' split at h
    all_goals first | cases h | skip
    all_goals
      dsimp only at h
      split at h
      · cases h
      · cases h
        refine .off _ [_] _ (by intro w hw; cases List.mem_singleton.1 hw; exact fun h => h) ?_ (Or.inr rfl)
        intro w hw
        simp at hw
        try (subst hw; exact fun h => h)
  | dropSchema tn sid =>
    dsimp only [prepare] at h
    unfold dropSchema at h
    repeat' split at h
    all_goals cases h
    exact .off _ [_] [] (by intro w hw; cases List.mem_singleton.1 hw; exact fun h => h) (by simp) (Or.inr rfl)
  | createTable sid n =>
    dsimp only [prepare] at h
    unfold createTable at h
    cases hk : mkTable d t sid { n with id := max n.id 0 } with
    | mk t1 res =>
      rw [hk] at h
      cases res with
      | error e => cases h
      | ok op =>
        cases h
        obtain ⟨h1, _, _, _, h2⟩ := mkTable_ok hk
        rw [h2] at h1
        have hpos := h1.create_pos
        dsimp only at hpos h2
        have e : max n.id 0 = n.id := by omega
        have hnone : get (d.objs .table) n.id = none := by
          have := h1.create_none
          dsimp only at this
          rw [e] at this
          exact this
        rw [e] at h2
        rw [h2]
        exact .table sid n _ hnone (by omega)
  | createTables sid l =>
    dsimp only [prepare] at h
    unfold createTables at h
    split at h
    · cases h
    · split at h
      · cases h
      · split at h
        · cases h
        · cases ht : createTheTable d sid t l none with
          | mk t1 res =>
            rw [ht] at h
            cases res with
            | error e => cases h
            | ok a =>
              have h1 := createTheTable_made ht
              dsimp only at h
              split at h
              · cases h
              · rename_i t2 ops back hi
                cases h
                have h2 := createTheIndexes_all hi (by intro o ho; cases ho)
                rcases h1 with e | ⟨n, r, hm, e, hr, hn, hp⟩
                · subst e
                  exact .indexes sid l ops h2
                · subst e
                  exact .tables sid l n.id r ops ⟨n, hm, rfl⟩ hn hp hr h2
  | dropTable sid id =>
    exfalso
    dsimp only [prepare] at h
    unfold dropTable at h
    cases hg : getTableIndexes d sid id with
    | error e => rw [hg] at h; cases h
    | ok l =>
      rw [hg] at h
      dsimp only at h
      unfold getTableIndexes at hg
      split at hg
      · cases hg
      · split at hg
        · cases hg
        · split at hg
          · cases hg
          · cases hg
            rw [if_pos (by simp)] at h
            cases h
  | dropTables l =>
    dsimp only [prepare] at h
    rw [(dropTables_entries h).1]
    exact .drops l (dropTables_iff.1 ⟨_, _, h⟩)
  | updateTable k id n df e =>
    dsimp only [prepare] at h
    unfold updateTable at h
    split at h
    · cases h
    · rename_i k
      split at h
      · cases h
      · split at h
        · cases h
        · split at h
          · cases h
          · cases h
            cases k
            · exact .upTable _ id n df
            · exact .upIndex _ id n df
  | addIndex tb n =>
    dsimp only [prepare] at h
    unfold addIndex at h
    split at h
    · cases h
    · split at h
      · cases h
      · rename_i r hr
        split at h
        · cases h
        · split at h
          · cases h
          · rename_i hx
            cases hk : mkIndex d t r.schema tb n with
            | mk t1 res =>
              rw [hk] at h
              cases res with
              | error e => cases h
              | ok op =>
                cases h
                rw [(mkIndex_ok hk).2.2.2.2]
                refine .add tb n r _ hr ?_ rfl rfl
                cases hg : get d.tidx tb with
                | none => rw [hg] at hx; exact absurd rfl hx
                | some _ => rfl
  | dropIndexOn tb id =>
    dsimp only [prepare] at h
    unfold dropIndexOn at h
    split at h
    · cases h
    · split at h
      · cases h
      · rename_i r hr
        split at h
        · cases h
        · split at h
          · cases h
          · rename_i l hl
            split at h
            · cases h
            · rename_i hm
              cases hk : rmIndex d t r.schema id false with
              | mk t1 res =>
                rw [hk] at h
                cases res with
                | error e => cases h
                | ok op =>
                  cases h
                  rw [(rmIndex_ok hk).2.2.2.2]
                  exact .del tb id r l hr hl (by simpa using hm)
  | createIndex sid n =>
    dsimp only [prepare] at h
    unfold createIndex at h
    cases hk : mkIndex d t sid 0 { n with id := max n.id 0 } with
    | mk t1 res =>
      rw [hk] at h
      cases res with
      | error e => cases h
      | ok op =>
        cases h
        rw [(mkIndex_ok hk).2.2.2.2]
        exact .index _ _ _ rfl
  | dropIndex sid id =>
    dsimp only [prepare] at h
    unfold dropIndex at h
    have hi := rmIndex_iff (d := d) (t := t) (sid := sid) (id := id) (b := true)
    cases hk : rmIndex d t sid id true with
    | mk t1 res =>
      rw [hk] at h hi
      cases res with
      | error e => cases h
      | ok op =>
        cases h
        rw [(rmIndex_ok hk).2.2.2.2]
        obtain ⟨_, _, r, h1, _, h2⟩ := hi.1 ⟨_, _, rfl⟩
        exact .free sid id r h1 (by simp at h2; exact h2)
  | createId sid =>
    dsimp only [prepare] at h
    unfold createId at h
    split at h
    · cases h
    · cases h
      exact .off _ [] [_] (by simp) (by intro w hw; cases List.mem_singleton.1 hw; exact fun h => h) (Or.inl rfl)
  | createIds sid c =>
    dsimp only [prepare] at h
    unfold createIds at h
    split at h
    · cases h
    · split at h
      · cases h
      · split at h
        · cases h
        · cases h
          exact .off _ [] [_] (by simp) (by intro w hw; cases List.mem_singleton.1 hw; exact fun h => h) (Or.inl rfl)
  | generateIds sid ps =>
    have hp := prepare_shape h
    dsimp only [prepare] at h
    unfold generateIds at h
    split at h
    · cases h
    · split at h
      · cases h
      · cases h
        refine .off _ [] _ (by simp) ?_ (Or.inl rfl)
        intro w hw
        cases hp with
        | objs h => have := h.ids; dsimp only at this; rw [this] at hw; cases hw
        | tenant ws hi => have := congrArg Incr.ids hi; dsimp only at this; rw [this] at hw; cases hw
        | newSchema id s ids hi => have := congrArg Incr.heads hi; cases this
        | noSchema id _ _ hi => have := congrArg Incr.heads hi; cases this
        | ids l ws hi _ _ _ _ _ _ _ h2 =>
          have := congrArg Incr.ids hi
          dsimp only at this
          rw [this] at hw
          rcases h2 with ⟨_, e, _⟩ | ⟨_, e⟩
          · rw [e] at hw; cases hw
          · obtain ⟨v, e, _⟩ := e w hw; rw [e]; exact fun h => h

end Verif.Meta
