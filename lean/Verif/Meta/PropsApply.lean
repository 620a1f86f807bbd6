/-
C72: applying entries does not end the coordinators, and requests that were taken are answered.
C73: what is listed is what was created and not dropped.
-/
import Verif.Meta.PropsNames

namespace Verif.Meta

/-! ## Specification -/

/-- The entry an event applies: the first of the log, unless applying it ends the coordinators. -/
def appliedBy (s : State) : Ev → List Incr
  | .apply => if s.dead then [] else ((s.log.head?.map Prod.snd).filter (fun inc => (applyIncr s.data inc).isSome)).toList
  | _ => []

/-- The entries applied in a run. -/
def applied (s : State) : List Ev → List Incr
  | [] => []
  | e :: es => appliedBy s e ++ applied (step s e).1 es

/-- What a sequence of changes makes of the table or index `i`: made by a creation, renamed and redefined by a
change, gone after a drop. -/
def replay (i : Int) : Option Obj → List ObjOp → Option Obj
  | cur, [] => cur
  | cur, .create id r :: ops => replay i (if id = i then some r else cur) ops
  | cur, .update id n df :: ops => replay i (if id = i then cur.map (fun r => { r with name := n, defn := df }) else cur) ops
  | cur, .delete id _ :: ops => replay i (if id = i then none else cur) ops

/-- What a sequence of changes makes of the schema `i`: its name and tenant. -/
def replaySchema (i : Int) : Option (Name × Int) → List Write → Option (Name × Int)
  | cur, [] => cur
  | cur, .schemaPut id s :: ws => replaySchema i (if id = i then some (s.name, s.tenant) else cur) ws
  | cur, .schemaErase id :: ws => replaySchema i (if id = i then none else cur) ws
  | cur, _ :: ws => replaySchema i cur ws

/-! ## Lemmas -/

theorem step_log (s : State) (e : Ev) : ∀ x ∈ (step s e).1.log, x ∈ s.log ∨
    ∃ th, s.ths[x.1]? = some th ∧ th.plan.incr = x.2 := by
  cases hd : s.dead with
  | true => rw [step_dead hd]; exact fun x hx => Or.inl hx
  | false =>
    cases e with
    | begin r =>
      rw [step_begin hd]
      rcases begin_cases s r with ⟨_, e⟩ | ⟨n, t, er, hl, hp, e⟩ | ⟨n, t, p, hl, hp, e⟩ <;> rw [e] <;> exact fun x hx => Or.inl hx
    | submit i =>
      rw [step_submit hd]
      unfold stepSubmit
      cases hi : s.ths[i]? with
      | none => exact fun x hx => Or.inl hx
      | some th =>
        dsimp only
        split
        · intro x (hx : x ∈ s.log ++ [(i, th.plan.incr)])
          rcases List.mem_append.1 hx with hx | hx
          · exact Or.inl hx
          · cases List.mem_singleton.1 hx; exact Or.inr ⟨th, hi, rfl⟩
        · exact fun x hx => Or.inl hx
    | fail i =>
      rw [step_fail hd]
      unfold stepFail
      split
      · exact fun x hx => Or.inl hx
      · split <;> exact fun x hx => Or.inl hx
    | apply =>
      rw [step_apply hd]
      rcases apply_full s with ⟨_, e⟩ | ⟨i, inc, rest, hl, ⟨_, e⟩ | ⟨d, _, ⟨th, _, _, e⟩ | ⟨_, e⟩⟩⟩
      · rw [e]; exact fun x hx => Or.inl hx
      · rw [e]; exact fun x hx => Or.inl hx
      · rw [e]; intro x hx; exact Or.inl (hl ▸ List.mem_cons_of_mem _ hx)
      · rw [e]; intro x hx; exact Or.inl (hl ▸ List.mem_cons_of_mem _ hx)
    | stepDown => rw [step_down hd]; exact fun x hx => Or.inl hx
    | elect n => rw [step_elect hd]; split <;> exact fun x hx => Or.inl hx
    | build =>
      rcases step_build hd with ⟨hf, n, hl, e⟩ | ⟨_, e⟩ <;> rw [e] <;> exact fun x hx => Or.inl hx
    | restart n =>
      by_cases hl : s.leader = some n
      · rw [step_restart_leader hd hl]; exact fun x hx => Or.inl hx
      · rw [step_restart_other hd hl]; exact fun x hx => Or.inl hx

/-- In every run the entries of the log are those of requests. -/
theorem run_log {es : List Ev} : ∀ x ∈ (run init es).1.log,
    ∃ th, (run init es).1.ths[x.1]? = some th ∧ th.plan.incr = x.2 := by
  induction es using snoc_ind with
  | nil => intro x hx; cases hx
  | snoc es e ih =>
    rw [run_snoc]
    intro x hx
    rcases step_log _ _ x hx with hx | ⟨th, h1, h2⟩
    · obtain ⟨th, h1, h2⟩ := ih x hx
      obtain ⟨th', h3, h4, _⟩ := (step_th (run init es).1 e).kept x.1 th h1
      exact ⟨th', h3, by rw [h4.plan]; exact h2⟩
    · obtain ⟨th', h3, h4, _⟩ := (step_th (run init es).1 e).kept x.1 th h1
      exact ⟨th', h3, by rw [h4.plan]; exact h2⟩

theorem applied_append (a b : List Ev) : ∀ s, applied s (a ++ b) = applied s a ++ applied (run s a).1 b := by
  induction a with
  | nil => intro s; rfl
  | cons e a ih =>
    intro s
    rw [List.cons_append, applied, applied, ih, List.append_assoc]
    rfl

/-- What one event applies, and the metadata after it. -/
theorem step_data (s : State) (e : Ev) :
    (applied s [e] = [] ∧ (step s e).1.data = s.data) ∨
    ∃ x rest d, e = .apply ∧ s.dead = false ∧ s.log = x :: rest ∧ applied s [e] = [x.2] ∧ applyIncr s.data x.2 = some d ∧
      (step s e).1.data = d := by
  unfold applied applied
  rw [List.append_nil]
  cases hd : s.dead with
  | true => rw [step_dead hd]; exact Or.inl ⟨by cases e <;> first | rfl | (unfold appliedBy; rw [if_pos hd]), rfl⟩
  | false =>
    have hap : appliedBy s .apply = ((s.log.head?.map Prod.snd).filter (fun inc => (applyIncr s.data inc).isSome)).toList := by
      unfold appliedBy; rw [if_neg (by rw [hd]; nofun)]
    cases e with
    | begin r =>
      rw [step_begin hd]
      rcases begin_cases s r with ⟨_, e⟩ | ⟨n, t, er, hl, hp, e⟩ | ⟨n, t, p, hl, hp, e⟩ <;> rw [e] <;> exact Or.inl ⟨rfl, rfl⟩
    | submit i =>
      rw [step_submit hd]
      refine Or.inl ⟨rfl, ?_⟩
      unfold stepSubmit
      split
      · rfl
      · split <;> rfl
    | fail i =>
      rw [step_fail hd]
      refine Or.inl ⟨rfl, ?_⟩
      unfold stepFail
      split
      · rfl
      · split <;> rfl
    | apply =>
      rw [step_apply hd, hap]
      rcases apply_full s with ⟨hl, e⟩ | ⟨i, inc, rest, hl, ⟨ha, e⟩ | ⟨d, ha, ⟨th, _, _, e⟩ | ⟨_, e⟩⟩⟩
      · rw [e, hl]; exact Or.inl ⟨rfl, rfl⟩
      · rw [e, hl]; exact Or.inl ⟨by simp [ha], rfl⟩
      · refine Or.inr ⟨(i, inc), rest, d, rfl, rfl, hl, ?_, ha, ?_⟩
        · rw [hl]; simp [ha]
        · rw [e]; rfl
      · refine Or.inr ⟨(i, inc), rest, d, rfl, rfl, hl, ?_, ha, ?_⟩
        · rw [hl]; simp [ha]
        · rw [e]
    | stepDown => rw [step_down hd]; exact Or.inl ⟨rfl, rfl⟩
    | elect n => rw [step_elect hd]; refine Or.inl ⟨rfl, ?_⟩; split <;> rfl
    | build =>
      rcases step_build hd with ⟨hf, n, hl, e⟩ | ⟨_, e⟩ <;> rw [e] <;> exact Or.inl ⟨rfl, rfl⟩
    | restart n =>
      by_cases hl : s.leader = some n
      · rw [step_restart_leader hd hl]; exact Or.inl ⟨rfl, rfl⟩
      · rw [step_restart_other hd hl]; exact Or.inl ⟨rfl, rfl⟩

/-- In every run the applied entries are those of requests of the run. -/
theorem run_applied {es : List Ev} : ∀ inc ∈ applied init es, ∃ q es1 n t p i, BegunAt es i q es1 ∧
    (run init es1).1.leader = some n ∧
    prepare (run init es1).1.data ((run init es1).1.temps n) q = (t, .ok p) ∧ p.incr = inc := by
  induction es using snoc_ind with
  | nil => intro inc h; cases h
  | snoc es e ih =>
    intro inc h
    rw [applied_append] at h
    rcases List.mem_append.1 h with h | h
    · obtain ⟨q, es1, n, t, p, i, ⟨es2, e1, e2⟩, h2⟩ := ih inc h
      exact ⟨q, es1, n, t, p, i, ⟨es2 ++ [e], by rw [e1]; simp, e2⟩, h2⟩
    · rcases step_data (run init es).1 e with ⟨h1, _⟩ | ⟨x, rest, d, _, _, hl, h1, _, _⟩
      · rw [h1] at h; cases h
      · rw [h1] at h
        have h := List.mem_singleton.1 h
        obtain ⟨th, h2, h3⟩ := run_log (es := es) x (hl ▸ List.mem_cons_self)
        obtain ⟨es1, ⟨es2, e1, e2⟩, h4, t, h5⟩ := run_begun h2
        exact ⟨th.req, es1, th.node, t, th.plan, x.1, ⟨es2 ++ [e], by rw [e1]; simp, e2⟩, h4, h5, by rw [h3, h]⟩

/-! ### The effect of writes on one object -/

theorem exec_other {d d' : Data} {w : Write} (h : w.exec d = some d') (k : Kind)
    (hw : ∀ id r, w ≠ .objPut k id r) (hu : ∀ id n df, w ≠ .objUpdate k id n df) (he : ∀ id, w ≠ .objErase k id) :
    d'.objs k = d.objs k := by
  cases w with
  | tenantPut id => dsimp only [Write.exec] at h; split at h <;> cases h; rfl
  | tenantErase id => cases h; rfl
  | schemaPut id s => dsimp only [Write.exec] at h; split at h <;> cases h; rfl
  | schemaErase id => cases h; rfl
  | tidxPut t l => dsimp only [Write.exec] at h; split at h <;> cases h; rfl
  | tidxAddDel t a b => dsimp only [Write.exec] at h; split at h <;> cases h <;> rfl
  | tidxErase t => cases h; rfl
  | objPut k' id r =>
    dsimp only [Write.exec] at h
    split at h
    · cases h
    · cases h
      rw [setObjs_objs, if_neg (fun e => hw id r (by rw [e]))]
  | schemaAdd k' sid id =>
    dsimp only [Write.exec] at h
    split at h
    · split at h <;> cases h; rfl
    · cases h
  | objUpdate k' id n df =>
    dsimp only [Write.exec] at h
    split at h
    · cases h; rw [setObjs_objs, if_neg (fun e => hu id n df (by rw [e]))]
    · cases h; rfl
  | schemaDel k' sid id =>
    dsimp only [Write.exec] at h
    split at h
    · split at h <;> cases h; rfl
    · cases h
  | objErase k' id => cases h; rw [setObjs_objs, if_neg (fun e => he id (by rw [e]))]
  | nextSchema v => cases h; rfl
  | nextTable v => cases h; rfl

/-- A write that is not about tables or indexes. -/
def Write.offObj : Write → Bool
  | .objPut _ _ _ => false
  | .objUpdate _ _ _ _ => false
  | .objErase _ _ => false
  | _ => true

theorem execAll_off {ws : List Write} : ∀ {d d' : Data}, execAll d ws = some d' → (∀ w ∈ ws, w.offObj = true) →
    ∀ k, d'.objs k = d.objs k := by
  induction ws with
  | nil => intro d d' h _ k; cases h; rfl
  | cons w ws ih =>
    intro d d' h ho k
    rw [execAll] at h
    cases hw : w.exec d with
    | none => rw [hw] at h; cases h
    | some d1 =>
      rw [hw] at h
      rw [ih h (fun w hw => ho w (List.mem_cons_of_mem _ hw)) k]
      have := ho w List.mem_cons_self
      refine exec_other hw k ?_ ?_ ?_ <;> intros <;> intro e <;> rw [e] at this <;> cases this

theorem execAll_ops {ops : List ObjOp} {k k' : Kind} {i : Int} : ∀ {d d' : Data},
    execAll d (ops.flatMap (ObjOp.writes k')) = some d' →
    get (d'.objs k) i = if k = k' then replay i (get (d.objs k) i) ops else get (d.objs k) i := by
  induction ops with
  | nil => intro d d' h; cases h; split <;> rfl
  | cons op ops ih =>
    intro d d' h
    rw [List.flatMap_cons, execAll_append] at h
    cases h1 : execAll d (op.writes k') with
    | none => rw [h1] at h; cases h
    | some d1 =>
      rw [h1] at h
      rw [ih h]
      by_cases e : k = k'
      · subst e
        rw [if_pos rfl, if_pos rfl]
        cases op with
        | create id r =>
          dsimp only [ObjOp.writes, execAll] at h1
          cases h2 : Write.exec d (.objPut k id r) with
          | none => rw [h2] at h1; cases h1
          | some d2 =>
            rw [h2] at h1
            dsimp only at h1
            cases h3 : Write.exec d2 (.schemaAdd k r.schema id) with
            | none => rw [h3] at h1; cases h1
            | some d3 =>
              rw [h3] at h1
              cases h1
              rw [exec_other h3 k nofun nofun nofun]
              dsimp only [Write.exec] at h2
              split at h2
              · cases h2
              · cases h2
                rw [setObjs_objs, if_pos rfl, get_put, replay]
                congr 1
                by_cases c : i = id
                · rw [if_pos c, if_pos c.symm]
                · rw [if_neg c, if_neg (fun e => c e.symm)]
        | update id n df =>
          dsimp only [ObjOp.writes, execAll] at h1
          cases h2 : Write.exec d (.objUpdate k id n df) with
          | none => rw [h2] at h1; cases h1
          | some d2 =>
            rw [h2] at h1
            cases h1
            rw [replay]
            congr 1
            dsimp only [Write.exec] at h2
            cases hg : get (d.objs k) id with
            | none =>
              rw [hg] at h2; cases h2
              by_cases c : id = i
              · rw [if_pos c, ← c, hg]; rfl
              · rw [if_neg c]
            | some r =>
              rw [hg] at h2; cases h2
              rw [setObjs_objs, if_pos rfl, get_put]
              by_cases c : id = i
              · rw [if_pos c, if_pos c.symm, ← c, hg]; rfl
              · rw [if_neg c, if_neg (fun e => c e.symm)]
        | delete id sid =>
          dsimp only [ObjOp.writes, execAll] at h1
          cases h3 : Write.exec d (.schemaDel k sid id) with
          | none => rw [h3] at h1; cases h1
          | some d2 =>
            rw [h3] at h1
            dsimp only [Write.exec] at h1
            cases h1
            rw [setObjs_objs, if_pos rfl, get_erase, exec_other h3 k nofun nofun nofun, replay]
            congr 1
            by_cases c : i = id
            · rw [if_pos c, if_pos c.symm]
            · rw [if_neg c, if_neg (fun e => c e.symm)]
      · rw [if_neg e, if_neg e]
        have : d1.objs k = d.objs k := by
          cases op with
          | create id r =>
            dsimp only [ObjOp.writes, execAll] at h1
            cases h2 : Write.exec d (.objPut k' id r) with
            | none => rw [h2] at h1; cases h1
            | some d2 =>
              rw [h2] at h1
              dsimp only at h1
              cases h3 : Write.exec d2 (.schemaAdd k' r.schema id) with
              | none => rw [h3] at h1; cases h1
              | some d3 =>
                rw [h3] at h1
                cases h1
                rw [exec_other h3 k nofun nofun nofun]
                exact exec_other h2 k (by intro a b e'; cases e'; exact e rfl) nofun nofun
          | update id n df =>
            dsimp only [ObjOp.writes, execAll] at h1
            cases h2 : Write.exec d (.objUpdate k' id n df) with
            | none => rw [h2] at h1; cases h1
            | some d2 =>
              rw [h2] at h1
              cases h1
              exact exec_other h2 k nofun (by intro a b c e'; cases e'; exact e rfl) nofun
          | delete id sid =>
            dsimp only [ObjOp.writes, execAll] at h1
            cases h3 : Write.exec d (.schemaDel k' sid id) with
            | none => rw [h3] at h1; cases h1
            | some d2 =>
              rw [h3] at h1
              dsimp only at h1
              cases h2 : Write.exec d2 (.objErase k' id) with
              | none => rw [h2] at h1; cases h1
              | some d3 =>
                rw [h2] at h1
                cases h1
                rw [exec_other h2 k nofun nofun (by intro a e'; cases e'; exact e rfl)]
                exact exec_other h3 k nofun nofun nofun
        rw [this]

theorem Shape.offObj {d : Data} {t t' : Temp} {p : Plan} (h : Shape d t t' p) :
    (∀ w ∈ p.incr.heads, w.offObj = true) ∧ ∀ w ∈ p.incr.ids, w.offObj = true := by
  have tx : ∀ w : Write, w.isTidx → w.offObj = true := by
    intro w hw; cases w <;> first | rfl | exact (show False from hw).elim
  cases h with
  | objs h =>
    refine ⟨fun w hw => tx w (h.heads w hw), ?_⟩
    rw [h.ids]; simp
  | tenant ws hi _ _ _ hw =>
    rw [hi]
    refine ⟨fun w hm => ?_, by simp⟩
    obtain ⟨id, ⟨e, _⟩ | e⟩ := hw w hm <;> rw [e] <;> rfl
  | newSchema id s ids hi _ _ _ _ hid =>
    rw [hi]
    refine ⟨fun w hm => by cases List.mem_singleton.1 hm; rfl, ?_⟩
    intro w hm
    rcases hid with ⟨_, e, _⟩ | ⟨_, e, _⟩
    · rw [e] at hm; cases hm
    · rw [e] at hm; cases List.mem_singleton.1 hm; rfl
  | noSchema id _ _ hi =>
    rw [hi]
    exact ⟨fun w hm => by cases List.mem_singleton.1 hm; rfl, by simp⟩
  | ids l ws hi _ _ _ _ _ _ _ hw =>
    rw [hi]
    refine ⟨by simp, ?_⟩
    intro w hm
    rcases hw with ⟨_, e, _⟩ | ⟨_, e⟩
    · rw [e] at hm; cases hm
    · obtain ⟨v, e, _⟩ := e w hm; rw [e]; rfl

theorem applyIncr_objs {d d' : Data} {inc : Incr} (h : applyIncr d inc = some d')
    (h1 : ∀ w ∈ inc.heads, w.offObj = true) (h2 : ∀ w ∈ inc.ids, w.offObj = true) (k : Kind) (i : Int) :
    get (d'.objs k) i = replay i (get (d.objs k) i) (inc.ops k) := by
  unfold applyIncr Incr.writes at h
  rw [execAll_append, execAll_append, execAll_append] at h
  cases e1 : execAll d inc.heads with
  | none => rw [e1] at h; cases h
  | some d1 =>
    rw [e1] at h
    dsimp only [Option.bind_some] at h
    cases e2 : execAll d1 (inc.indexes.flatMap (ObjOp.writes .index)) with
    | none => rw [e2] at h; cases h
    | some d2 =>
      rw [e2] at h
      dsimp only [Option.bind_some] at h
      cases e3 : execAll d2 (inc.tables.flatMap (ObjOp.writes .table)) with
      | none => rw [e3] at h; cases h
      | some d3 =>
        rw [e3] at h
        dsimp only [Option.bind_some] at h
        rw [execAll_off h h2 k, execAll_ops (k := k) (i := i) e3, execAll_ops (k := k) (i := i) e2, execAll_off e1 h1 k]
        cases k <;> simp [Incr.ops]

theorem replay_append (i : Int) (a b : List ObjOp) : ∀ cur, replay i cur (a ++ b) = replay i (replay i cur a) b := by
  induction a with
  | nil => intro cur; rfl
  | cons op a ih => intro cur; cases op <;> exact ih _

theorem replay_created {i : Int} {ops : List ObjOp} : ∀ {cur : Option Obj} {r : Obj}, replay i cur ops = some r →
    (∃ r0, (cur = some r0 ∨ .create i r0 ∈ ops) ∧ r0.schema = r.schema ∧ r0.owner = r.owner) := by
  induction ops with
  | nil => intro cur r h; exact ⟨r, Or.inl h, rfl, rfl⟩
  | cons op ops ih =>
    intro cur r h
    cases op with
    | create id r1 =>
      obtain ⟨r0, h1, h2⟩ := ih (show replay i (if id = i then some r1 else cur) ops = _ from h)
      rcases h1 with h1 | h1
      · by_cases c : id = i
        · rw [if_pos c] at h1; cases h1; subst c; exact ⟨r1, Or.inr List.mem_cons_self, h2⟩
        · rw [if_neg c] at h1; exact ⟨r0, Or.inl h1, h2⟩
      · exact ⟨r0, Or.inr (List.mem_cons_of_mem _ h1), h2⟩
    | update id n df =>
      obtain ⟨r0, h1, h2⟩ := ih (show replay i (if id = i then cur.map (fun r => { r with name := n, defn := df }) else cur) ops = _ from h)
      rcases h1 with h1 | h1
      · by_cases c : id = i
        · rw [if_pos c] at h1
          obtain ⟨r1, h3, h4⟩ := Option.map_eq_some_iff.1 h1
          subst h4
          exact ⟨r1, Or.inl h3, h2⟩
        · rw [if_neg c] at h1; exact ⟨r0, Or.inl h1, h2⟩
      · exact ⟨r0, Or.inr (List.mem_cons_of_mem _ h1), h2⟩
    | delete id sid =>
      obtain ⟨r0, h1, h2⟩ := ih (show replay i (if id = i then none else cur) ops = _ from h)
      rcases h1 with h1 | h1
      · by_cases c : id = i
        · rw [if_pos c] at h1; cases h1
        · rw [if_neg c] at h1; exact ⟨r0, Or.inl h1, h2⟩
      · exact ⟨r0, Or.inr (List.mem_cons_of_mem _ h1), h2⟩

theorem replay_stays {i : Int} {ops : List ObjOp} (hd : ∀ sid, .delete i sid ∉ ops) : ∀ {cur : Option Obj},
    (cur.isSome ∨ ∃ r, .create i r ∈ ops) → (replay i cur ops).isSome := by
  induction ops with
  | nil => intro cur h; rcases h with h | ⟨r, h⟩; exact h; cases h
  | cons op ops ih =>
    intro cur h
    have ih := @ih (fun sid hm => hd sid (List.mem_cons_of_mem _ hm))
    cases op with
    | create id r1 =>
      refine ih (cur := if id = i then some r1 else cur) ?_
      by_cases c : id = i
      · rw [if_pos c]; exact Or.inl rfl
      · rw [if_neg c]
        rcases h with h | ⟨r, h⟩
        · exact Or.inl h
        · rcases List.mem_cons.1 h with e | h
          · cases e; exact absurd rfl c
          · exact Or.inr ⟨r, h⟩
    | update id n df =>
      refine ih (cur := if id = i then cur.map (fun r => { r with name := n, defn := df }) else cur) ?_
      rcases h with h | ⟨r, h⟩
      · refine Or.inl ?_
        split
        · rw [Option.isSome_map]; exact h
        · exact h
      · rcases List.mem_cons.1 h with e | h
        · cases e
        · exact Or.inr ⟨r, h⟩
    | delete id sid =>
      have c : id ≠ i := by
        intro e; subst e; exact hd sid List.mem_cons_self
      refine ih (cur := if id = i then none else cur) ?_
      rw [if_neg c]
      rcases h with h | ⟨r, h⟩
      · exact Or.inl h
      · rcases List.mem_cons.1 h with e | h
        · cases e
        · exact Or.inr ⟨r, h⟩

/-! ### Schemas -/

theorem exec_schema {d d' : Data} {w : Write} (h : w.exec d = some d') (i : Int) :
    (get d'.schemas i).map (fun s => (s.name, s.tenant)) =
      replaySchema i ((get d.schemas i).map (fun s => (s.name, s.tenant))) [w] := by
  cases w with
  | tenantPut id => dsimp only [Write.exec] at h; split at h <;> cases h; rfl
  | tenantErase id => cases h; rfl
  | schemaPut id s =>
    dsimp only [Write.exec] at h
    split at h
    · cases h
    · cases h
      dsimp only [replaySchema]
      rw [get_put]
      by_cases c : i = id
      · rw [if_pos c, if_pos c.symm]; rfl
      · rw [if_neg c, if_neg (fun e => c e.symm)]
  | schemaErase id =>
    cases h
    dsimp only [replaySchema]
    rw [get_erase]
    by_cases c : i = id
    · rw [if_pos c, if_pos c.symm]; rfl
    · rw [if_neg c, if_neg (fun e => c e.symm)]
  | tidxPut t l => dsimp only [Write.exec] at h; split at h <;> cases h; rfl
  | tidxAddDel t a b => dsimp only [Write.exec] at h; split at h <;> cases h <;> rfl
  | tidxErase t => cases h; rfl
  | objPut k' id r => dsimp only [Write.exec] at h; split at h <;> cases h; rfl
  | schemaAdd k' sid id =>
    dsimp only [Write.exec] at h
    cases hs : get d.schemas sid with
    | none => rw [hs] at h; cases h
    | some s =>
      rw [hs] at h
      dsimp only at h
      split at h
      · cases h
      · cases h
        dsimp only [replaySchema]
        rw [get_put]
        by_cases c : i = sid
        · rw [if_pos c, c, hs]; rfl
        · rw [if_neg c]
  | objUpdate k' id n df => dsimp only [Write.exec] at h; split at h <;> cases h <;> rfl
  | schemaDel k' sid id =>
    dsimp only [Write.exec] at h
    cases hs : get d.schemas sid with
    | none => rw [hs] at h; cases h
    | some s =>
      rw [hs] at h
      dsimp only at h
      split at h
      · cases h
      · cases h
        dsimp only [replaySchema]
        rw [get_put]
        by_cases c : i = sid
        · rw [if_pos c, c, hs]; rfl
        · rw [if_neg c]
  | objErase k' id => cases h; rfl
  | nextSchema v => cases h; rfl
  | nextTable v => cases h; rfl

theorem replaySchema_append (i : Int) (a b : List Write) : ∀ cur,
    replaySchema i cur (a ++ b) = replaySchema i (replaySchema i cur a) b := by
  induction a with
  | nil => intro cur; rfl
  | cons w a ih => intro cur; cases w <;> exact ih _

theorem execAll_schema {ws : List Write} (i : Int) : ∀ {d d' : Data}, execAll d ws = some d' →
    (get d'.schemas i).map (fun s => (s.name, s.tenant)) =
      replaySchema i ((get d.schemas i).map (fun s => (s.name, s.tenant))) ws := by
  induction ws with
  | nil => intro d d' h; cases h; rfl
  | cons w ws ih =>
    intro d d' h
    rw [execAll] at h
    cases hw : w.exec d with
    | none => rw [hw] at h; cases h
    | some d1 =>
      rw [hw] at h
      rw [ih h, exec_schema hw, ← replaySchema_append]; rfl

/-- A write that is not about the existence of schemas. -/
def Write.offSchema : Write → Bool
  | .schemaPut _ _ => false
  | .schemaErase _ => false
  | _ => true

theorem replaySchema_off {i : Int} {ws : List Write} (h : ∀ w ∈ ws, w.offSchema = true) : ∀ cur, replaySchema i cur ws = cur := by
  induction ws with
  | nil => intro cur; rfl
  | cons w ws ih =>
    intro cur
    have h1 := h w List.mem_cons_self
    have h2 := ih (fun w hw => h w (List.mem_cons_of_mem _ hw))
    cases w <;> first | exact h2 cur | cases h1

theorem Shape.ids_offSchema {d : Data} {t t' : Temp} {p : Plan} (h : Shape d t t' p) : ∀ w ∈ p.incr.ids, w.offSchema = true := by
  cases h with
  | objs h => rw [h.ids]; simp
  | tenant ws hi _ _ _ hw => rw [hi]; simp
  | newSchema id s ids hi _ _ _ _ hid =>
    rw [hi]
    intro w hm
    rcases hid with ⟨_, e, _⟩ | ⟨_, e, _⟩
    · rw [e] at hm; cases hm
    · rw [e] at hm; cases List.mem_singleton.1 hm; rfl
  | noSchema id _ _ hi => rw [hi]; simp
  | ids l ws hi _ _ _ _ _ _ _ hw =>
    rw [hi]
    intro w hm
    rcases hw with ⟨_, e, _⟩ | ⟨_, e⟩
    · rw [e] at hm; cases hm
    · obtain ⟨v, e, _⟩ := e w hm; rw [e]; rfl

theorem ops_offSchema (k : Kind) (ops : List ObjOp) : ∀ w ∈ ops.flatMap (ObjOp.writes k), w.offSchema = true := by
  intro w hw
  obtain ⟨op, _, h⟩ := List.mem_flatMap.1 hw
  cases op <;> simp [ObjOp.writes] at h
  · rcases h with e | e <;> subst e <;> rfl
  · subst h; rfl
  · rcases h with e | e <;> subst e <;> rfl

theorem applyIncr_schema {d d' : Data} {inc : Incr} (h : applyIncr d inc = some d')
    (h2 : ∀ w ∈ inc.ids, w.offSchema = true) (i : Int) :
    (get d'.schemas i).map (fun s => (s.name, s.tenant)) =
      replaySchema i ((get d.schemas i).map (fun s => (s.name, s.tenant))) inc.heads := by
  unfold applyIncr Incr.writes at h
  rw [execAll_schema i h, replaySchema_append, replaySchema_append, replaySchema_append, replaySchema_off h2,
    replaySchema_off (ops_offSchema _ _), replaySchema_off (ops_offSchema _ _)]

/-! ## C72 -/

theorem run_down {es : List Ev} : ∀ {s : State}, .down ∈ (run s es).2 → (run s es).1.dead = true := by
  have stays : ∀ (es : List Ev) (s : State), s.dead = true → (run s es).1.dead = true := by
    intro es
    induction es with
    | nil => intro s h; exact h
    | cons e es ih =>
      intro s h
      refine ih (step s e).1 ?_
      rw [step_dead h]; exact h
  induction es with
  | nil => intro s h; cases h
  | cons e es ih =>
    intro s h
    have h : Out.down ∈ (step s e).2 :: (run (step s e).1 es).2 := h
    rcases List.mem_cons.1 h with h | h
    · refine stays es (step s e).1 ?_
      cases hd : s.dead with
      | true => rw [step_dead hd] at h; cases h
      | false =>
        cases e with
        | begin r =>
          rw [step_begin hd] at h
          rcases begin_cases s r with ⟨_, e⟩ | ⟨n, t, er, hl, hp, e⟩ | ⟨n, t, p, hl, hp, e⟩ <;> rw [e] at h <;> cases h
        | submit i =>
          rw [step_submit hd] at h
          unfold stepSubmit at h
          split at h
          · cases h
          · split at h <;> cases h
        | fail i =>
          rw [step_fail hd] at h
          unfold stepFail at h
          split at h
          · cases h
          · split at h <;> cases h
        | apply =>
          rw [step_apply hd] at h ⊢
          rcases apply_full s with ⟨_, e⟩ | ⟨i, inc, rest, hl, ⟨_, e⟩ | ⟨d, _, ⟨th, _, _, e⟩ | ⟨_, e⟩⟩⟩
          · rw [e] at h; cases h
          · rw [e]
          · rw [e] at h; cases h
          · rw [e] at h; cases h
        | stepDown => rw [step_down hd] at h; cases h
        | elect n => rw [step_elect hd] at h; split at h <;> cases h
        | build => rcases step_build hd with ⟨hf, n, hl, e⟩ | ⟨_, e⟩ <;> rw [e] at h <;> cases h
        | restart n =>
          by_cases hl : s.leader = some n
          · rw [step_restart_leader hd hl] at h; cases h
          · rw [step_restart_other hd hl] at h; cases h
    · exact ih h

/-- In a run of orderly events no entry ends the coordinators when it is applied.  Partial: without order it
happens (`C72_create_drop_false`, `C72_drop_drop_false`). -/
theorem C72_up_partial (es : List Ev) (h : okRun init es = true) : .down ∉ (run init es).2 := by
  intro hm
  have := run_down hm
  rw [(run_inv h).alive] at this
  cases this

/-- A request that was taken is answered as its plan says once its entry is written and the entries before it
are applied: nothing gets lost or stuck.  Partial: the events before must be orderly. -/
theorem C72_served_partial (es : List Ev) (h : okRun init es = true) (s : State) (hs : s = (run init es).1)
    (i : Nat) (th : Th) (hi : s.ths[i]? = some th) (hp : th.pc = .ready) (ht : th.term = s.term)
    (hl : s.leader = some th.node) :
    .replied i th.plan.resp ∈ (run s (.submit i :: List.replicate (s.log.length + 1) .apply)).2 := by
  have hinv : Inv s := hs ▸ run_inv h
  have hsub : step s (.submit i) = (setPc { s with log := s.log ++ [(i, th.plan.incr)] } i .waiting, .none) := by
    rw [step_submit hinv.alive]
    unfold stepSubmit
    rw [hi]
    dsimp only
    rw [if_pos ⟨hp, hl⟩]
  have hinv1 : Inv (step s (.submit i)).1 := by
    refine hinv.step ?_
    dsimp only [okEv]
    rw [hi]
    simpa using ht
  have key : ∀ (pre : List (Nat × Incr)) (s : State), Inv s → ∀ inc post th, s.log = pre ++ (i, inc) :: post →
      s.ths[i]? = some th → th.pc = .waiting → i ∉ pre.map Prod.fst →
      .replied i th.plan.resp ∈ (run s (List.replicate (pre.length + 1) .apply)).2 := by
    intro pre
    induction pre with
    | nil =>
      intro s hinv inc post th hlog hth hpc _
      refine (show Out.replied i th.plan.resp ∈ [(step s .apply).2] from ?_)
      refine List.mem_singleton.2 ?_
      rw [step_apply hinv.alive]
      rcases apply_full s with ⟨h1, e⟩ | ⟨j, inc', rest, h1, ⟨ha, e⟩ | ⟨d, _, ⟨th', h2, h3, e⟩ | ⟨h2, e⟩⟩⟩
      · rw [hlog] at h1; cases h1
      · obtain ⟨d, ha', _⟩ := hinv.tail h1
        rw [ha] at ha'; cases ha'
      · rw [hlog] at h1
        cases h1
        rw [hth] at h2; cases h2
        rw [e]
      · rw [hlog] at h1
        cases h1
        exact absurd hpc (h2 th hth)
    | cons x pre ih =>
      intro s hinv inc post th hlog hth hpc hnot
      rw [List.length_cons, List.replicate_succ]
      refine (show _ ∈ (step s .apply).2 :: (run (step s .apply).1 (List.replicate (pre.length + 1) .apply)).2 from ?_)
      refine List.mem_cons_of_mem _ ?_
      have hne : x.1 ≠ i := fun e => hnot (by rw [List.map_cons, e]; exact List.mem_cons_self)
      have hinv' : Inv (step s .apply).1 := hinv.step rfl
      rw [step_apply hinv.alive] at hinv' ⊢
      rcases apply_full s with ⟨h1, e⟩ | ⟨j, inc', rest, h1, ⟨ha, e⟩ | ⟨d, _, ⟨th', h2, h3, e⟩ | ⟨h2, e⟩⟩⟩
      · rw [hlog] at h1; cases h1
      · obtain ⟨d, ha', _⟩ := hinv.tail h1
        rw [ha] at ha'; cases ha'
      · rw [hlog] at h1
        have h1 := List.cons.inj h1
        rw [e] at hinv' ⊢
        refine ih _ hinv' inc post th h1.2.symm ?_ hpc (fun hm => hnot (by rw [List.map_cons]; exact List.mem_cons_of_mem _ hm))
        show (s.ths.modify j _)[i]? = _
        have hj : j ≠ i := fun e => hne (by rw [h1.1]; exact e)
        rw [List.getElem?_modify, hth]
        simp [hj]
      · rw [hlog] at h1
        have h1 := List.cons.inj h1
        rw [e] at hinv' ⊢
        exact ih _ hinv' inc post th h1.2.symm hth hpc (fun hm => hnot (by rw [List.map_cons]; exact List.mem_cons_of_mem _ hm))
  have hth1 : (step s (.submit i)).1.ths[i]? = some { th with pc := .waiting } := by
    rw [hsub]
    show (s.ths.modify i _)[i]? = _
    rw [List.getElem?_modify, hi]; simp
  have hlog1 : (step s (.submit i)).1.log = s.log ++ (i, th.plan.incr) :: [] := by rw [hsub]; rfl
  have hnot : i ∉ s.log.map Prod.fst := by
    intro hm
    obtain ⟨x, hx, e⟩ := List.mem_map.1 hm
    obtain ⟨th', h1, _, h3⟩ := hinv.log x hx
    rw [e, hi] at h1; cases h1
    exact h3 hp
  exact List.mem_cons_of_mem _ (key s.log _ hinv1 _ _ { th with pc := .waiting } hlog1 hth1 rfl hnot)

/-! ## C73 -/

/-- In every run, whatever happens in it, the tables and indexes are those the applied entries make: created,
changed and dropped one after the other. -/
theorem C73_history (es : List Ev) (k : Kind) (i : Int) :
    get ((run init es).1.data.objs k) i = replay i none ((applied init es).flatMap (fun inc => inc.ops k)) := by
  induction es using snoc_ind with
  | nil => rfl
  | snoc es e ih =>
    have hap : ∀ inc ∈ applied init (es ++ [e]), (∀ w ∈ inc.heads, w.offObj = true) ∧ ∀ w ∈ inc.ids, w.offObj = true := by
      intro inc h
      obtain ⟨q, es1, n, t, p, i, _, _, hp, e⟩ := run_applied inc h
      rw [← e]; exact (prepare_shape hp).offObj
    rw [applied_append] at hap
    rw [run_snoc, applied_append, List.flatMap_append, replay_append, ← ih]
    dsimp only
    rcases step_data (run init es).1 e with ⟨h1, h2⟩ | ⟨x, rest, d, _, _, hl, h1, ha, h2⟩
    · rw [h1, h2]; rfl
    · rw [h1, h2]
      have := hap x.2 (by rw [h1]; exact List.mem_append_right _ List.mem_cons_self)
      rw [applyIncr_objs ha this.1 this.2]
      simp

/-- The same for schemas: their names and tenants. -/
theorem C73_schema_history (es : List Ev) (i : Int) :
    (get (run init es).1.data.schemas i).map (fun s => (s.name, s.tenant)) =
      replaySchema i ((get Data.init.schemas i).map (fun s => (s.name, s.tenant))) ((applied init es).flatMap Incr.heads) := by
  induction es using snoc_ind with
  | nil => rfl
  | snoc es e ih =>
    have hap : ∀ inc ∈ applied init (es ++ [e]), ∀ w ∈ inc.ids, w.offSchema = true := by
      intro inc h
      obtain ⟨q, es1, n, t, p, i, _, _, hp, e⟩ := run_applied inc h
      rw [← e]; exact (prepare_shape hp).ids_offSchema
    rw [applied_append] at hap
    rw [run_snoc, applied_append, List.flatMap_append, replaySchema_append, ← ih]
    dsimp only
    rcases step_data (run init es).1 e with ⟨h1, h2⟩ | ⟨x, rest, d, _, _, hl, h1, ha, h2⟩
    · rw [h1, h2]; rfl
    · rw [h1, h2]
      have := hap x.2 (by rw [h1]; exact List.mem_append_right _ List.mem_cons_self)
      rw [applyIncr_schema ha this]
      simp

/-- In every run a request that was answered has been applied: its entry is the one its checks made. -/
theorem C73_acknowledged (es : List Ev) (i : Nat) (r : Resp) (h : .replied i r ∈ (run init es).2) :
    ∃ q es1 n t p, BegunAt es i q es1 ∧ (run init es1).1.leader = some n ∧
      prepare (run init es1).1.data ((run init es1).1.temps n) q = (t, .ok p) ∧ p.resp = r ∧ p.incr ∈ applied init es := by
  induction es using snoc_ind with
  | nil => cases h
  | snoc es e ih =>
    rw [run_snoc] at h
    rw [applied_append]
    rcases List.mem_append.1 h with h | h
    · obtain ⟨q, es1, n, t, p, ⟨es2, e1, e2⟩, h2, h3, h4, h5⟩ := ih h
      exact ⟨q, es1, n, t, p, ⟨es2 ++ [e], by rw [e1]; simp, e2⟩, h2, h3, h4, List.mem_append_left _ h5⟩
    · have h := (List.mem_singleton.1 h).symm
      obtain ⟨th, h1, _, _, h3⟩ := step_answers (s := (run init es).1) (e := e) (i := i) (by rw [h]; simp [Out.answers])
      obtain ⟨es1, ⟨es2, e1, e2⟩, h4, t, h5⟩ := run_begun h1
      refine ⟨th.req, es1, th.node, t, th.plan, ⟨es2 ++ [e], by rw [e1]; simp, e2⟩, h4, h5, (h3 r h).symm, List.mem_append_right _ ?_⟩
      have he : e = .apply := by
        by_cases he : e = .apply
        · exact he
        · exfalso
          generalize (run init es).1 = s at *
          cases hd : s.dead with
          | true => rw [step_dead hd] at h; cases h
          | false =>
            cases e with
            | apply => exact he rfl
            | begin r =>
              rw [step_begin hd] at h
              rcases begin_cases s r with ⟨_, e⟩ | ⟨n, t, er, hl, hp, e⟩ | ⟨n, t, p, hl, hp, e⟩ <;> rw [e] at h <;> cases h
            | submit i => rw [step_submit hd] at h; unfold stepSubmit at h; split at h; cases h; split at h <;> cases h
            | fail i => rw [step_fail hd] at h; unfold stepFail at h; split at h; cases h; split at h <;> cases h
            | stepDown => rw [step_down hd] at h; cases h
            | elect n => rw [step_elect hd] at h; split at h <;> cases h
            | build => rcases step_build hd with ⟨hf, n, hl, e⟩ | ⟨_, e⟩ <;> rw [e] at h <;> cases h
            | restart n =>
              by_cases hl : s.leader = some n
              · rw [step_restart_leader hd hl] at h; cases h
              · rw [step_restart_other hd hl] at h; cases h
      subst he
      have hd : (run init es).1.dead = false := by
        cases hd : (run init es).1.dead with
        | true => rw [step_dead hd] at h; cases h
        | false => rfl
      have hlog := run_log (es := es)
      generalize (run init es).1 = s at *
      rw [step_apply hd] at h
      rcases apply_full s with ⟨_, e⟩ | ⟨j, inc, rest, hl, ⟨_, e⟩ | ⟨d, ha, ⟨th', hi', _, e⟩ | ⟨_, e⟩⟩⟩
      · rw [e] at h; cases h
      · rw [e] at h; cases h
      · rw [e] at h
        injection h with e1 e2
        subst e1
        obtain ⟨th2, g1, g2⟩ := hlog (j, inc) (hl ▸ List.mem_cons_self)
        dsimp only at g1 g2
        rw [h1] at g1; cases g1
        rw [g2]
        unfold applied appliedBy applied
        rw [if_neg (by rw [hd]; nofun), hl]
        simp [ha]
      · rw [e] at h; cases h

/-- In every run a table or index whose creation was acknowledged exists as long as no applied entry drops
it. -/
theorem C73_created (es : List Ev) (i : Nat) (r : Resp) (h : .replied i r ∈ (run init es).2) (q : Req) (es1 : List Ev)
    (hb : BegunAt es i q es1) (k : Kind) (id : Int)
    (hq : (∃ sid n, q = .createTable sid n ∧ k = .table ∧ n.id = id) ∨
          (∃ sid n, q = .createIndex sid n ∧ k = .index ∧ n.id = id) ∨
          (∃ tb n, q = .addIndex tb n ∧ k = .index ∧ n.id = id) ∨
          (∃ sid l n, q = .createTables sid l ∧ (some k, n) ∈ l ∧ n.id = id))
    (hd : ∀ inc ∈ applied init es, ∀ sid, .delete id sid ∉ inc.ops k) :
    (get ((run init es).1.data.objs k) id).isSome := by
  obtain ⟨q', es1', n0, t, p, hb', _, hp, _, hin⟩ := C73_acknowledged es i r h
  obtain ⟨_, rfl⟩ := begunAt_unique hb hb'
  have hc : ∃ r, .create id r ∈ p.incr.ops k := by
    rcases hq with ⟨sid, n, rfl, rfl, rfl⟩ | ⟨sid, n, rfl, rfl, rfl⟩ | ⟨tb, n, rfl, rfl, rfl⟩ | ⟨sid, l, n, rfl, hm, rfl⟩
    · dsimp only [prepare] at hp
      unfold createTable at hp
      cases hk : mkTable (run init es1').1.data ((run init es1').1.temps n0) sid { n with id := max n.id 0 } with
      | mk t1 res =>
        rw [hk] at hp
        cases res with
        | error e => cases hp
        | ok op =>
          cases hp
          obtain ⟨h1, _, _, _, h2⟩ := mkTable_ok hk
          rw [h2] at h1
          have := h1.create_pos
          dsimp only at this h2
          rw [show max n.id 0 = n.id by omega] at h2
          exact ⟨_, by rw [h2]; exact List.mem_cons_self⟩
    · dsimp only [prepare] at hp
      unfold createIndex at hp
      cases hk : mkIndex (run init es1').1.data ((run init es1').1.temps n0) sid 0 { n with id := max n.id 0 } with
      | mk t1 res =>
        rw [hk] at hp
        cases res with
        | error e => cases hp
        | ok op =>
          cases hp
          obtain ⟨h1, _, _, _, h2⟩ := mkIndex_ok hk
          rw [h2] at h1
          have := h1.create_pos
          dsimp only at this h2
          rw [show max n.id 0 = n.id by omega] at h2
          exact ⟨_, by rw [h2]; exact List.mem_cons_self⟩
    · dsimp only [prepare] at hp
      unfold addIndex at hp
      split at hp
      · cases hp
      · split at hp
        · cases hp
        · rename_i r0 _
          split at hp
          · cases hp
          · split at hp
            · cases hp
            · cases hk : mkIndex (run init es1').1.data ((run init es1').1.temps n0) r0.schema tb n with
              | mk t1 res =>
                rw [hk] at hp
                cases res with
                | error e => cases hp
                | ok op =>
                  cases hp
                  exact ⟨_, by rw [(mkIndex_ok hk).2.2.2.2]; exact List.mem_cons_self⟩
    · dsimp only [prepare] at hp
      unfold createTables at hp
      split at hp
      · cases hp
      · split at hp
        · cases hp
        · split at hp
          · cases hp
          · cases ht : createTheTable (run init es1').1.data sid ((run init es1').1.temps n0) l none with
            | mk t1 res =>
              rw [ht] at hp
              cases res with
              | error e => cases hp
              | ok a =>
                have h1 := createTheTable_ids ht
                have h1' := createTheTable_ok ht
                dsimp only at hp
                split at hp
                · cases hp
                · rename_i t2 ops back hi
                  cases hp
                  have h2 := createTheIndexes_ids hi
                  have created_mem : ∀ (ops : List ObjOp) (x : Int), x ∈ createdIds ops → ∃ r, .create x r ∈ ops := by
                    intro ops
                    induction ops with
                    | nil => intro x h; cases h
                    | cons op ops ih =>
                      intro x h
                      cases op with
                      | create id r =>
                        rcases List.mem_cons.1 h with e | h
                        · subst e; exact ⟨r, List.mem_cons_self⟩
                        · obtain ⟨r, h⟩ := ih x h; exact ⟨r, List.mem_cons_of_mem _ h⟩
                      | update id n df => obtain ⟨r, h⟩ := ih x h; exact ⟨r, List.mem_cons_of_mem _ h⟩
                      | delete id sid => obtain ⟨r, h⟩ := ih x h; exact ⟨r, List.mem_cons_of_mem _ h⟩
                  cases k with
                  | index =>
                    refine created_mem ops n.id ?_
                    rw [h2]
                    exact List.mem_append_right _ (List.mem_map.2 ⟨_, List.mem_filter.2 ⟨hm, by simp⟩, rfl⟩)
                  | table =>
                    have hx : n.id ∈ (a.map Prod.fst).toList := by
                      rw [h1]
                      exact List.mem_append_right _ (List.mem_map.2 ⟨_, List.mem_filter.2 ⟨hm, by simp⟩, rfl⟩)
                    rcases h1'.2 with ⟨e, _⟩ | ⟨m, _, e, _, _⟩
                    · rw [e] at hx; cases hx
                    · rw [e] at hx ⊢
                      have hx : n.id = m.id := by simpa using hx
                      rw [hx]
                      exact ⟨_, List.mem_cons_self⟩
  rw [C73_history]
  obtain ⟨r0, hc⟩ := hc
  refine replay_stays ?_ (Or.inr ⟨r0, List.mem_flatMap.2 ⟨_, hin, hc⟩⟩)
  intro sid hm
  obtain ⟨inc, h1, h2⟩ := List.mem_flatMap.1 hm
  exact hd inc h1 sid h2

/-- In every run what exists has been created by an applied entry, in that schema, with a positive id. -/
theorem C73_only_created (es : List Ev) (k : Kind) (id : Int) (r : Obj)
    (h : get ((run init es).1.data.objs k) id = some r) :
    0 < id ∧ ∃ inc ∈ applied init es, ∃ r0, .create id r0 ∈ inc.ops k ∧ r0.schema = r.schema ∧ r0.owner = r.owner := by
  rw [C73_history] at h
  obtain ⟨r0, h1, h2, h3⟩ := replay_created h
  rcases h1 with h1 | h1
  · cases h1
  · obtain ⟨inc, hin, hc⟩ := List.mem_flatMap.1 h1
    refine ⟨?_, inc, hin, r0, hc, h2, h3⟩
    obtain ⟨q, es1, n, t, p, i, _, _, hp, e⟩ := run_applied inc hin
    subst e
    obtain ⟨a, b, h4⟩ := (prepare_shape hp).step_of (k, .create id r0) (mem_all.2 hc)
    exact h4.create_pos

/-- In a run of orderly events `GetTables` lists every table of the schema once and nothing else, `GetTablesCount`
counts them, and `GetIndexes` lists the indexes that belong to no table.  Partial: the events must be orderly. -/
theorem C73_list_partial (es : List Ev) (h : okRun init es = true) (s : State) (hs : s = (run init es).1) :
    (∀ k sid l, listObjs s.data k sid = .ok l → (l.map Prod.fst).Nodup ∧ ∀ i r, (i, r) ∈ l ↔
      get (s.data.objs k) i = some r ∧ r.schema = sid ∧ ¬ (k = .index ∧ r.owner > 0)) ∧
    (∀ sid l c, listObjs s.data .table sid = .ok l → countTables s.data sid = .ok c → l.length = c) ∧
    (∀ k sid, (∃ l, listObjs s.data k sid = .ok l) ↔ 0 ≤ sid ∧ (get s.data.schemas sid).isSome) := by
  have hi : Inv s := hs ▸ run_inv h
  refine ⟨fun k sid l hl => hi.listed hl, ?_, ?_⟩
  · intro sid l c hl hc
    obtain ⟨h0, sc, h1, e⟩ := listObjs_ok hl
    unfold countTables at hc
    rw [if_neg (by omega), h1] at hc
    cases hc
    rw [e]
    have hall := (hi.cond.lists .table sid sc h1).2
    have : ∀ ids : List Int, (∀ i ∈ ids, (get (s.data.objs .table) i).isSome) → (ids.filterMap (fun i =>
        match get (s.data.objs .table) i with
        | none => none
        | some r => if Kind.table = .index ∧ r.owner > 0 then none else some (i, r))).length = ids.length := by
      intro ids
      induction ids with
      | nil => intro _; rfl
      | cons i ids ih =>
        intro h
        obtain ⟨r, hr⟩ := Option.isSome_iff_exists.1 (h i List.mem_cons_self)
        rw [List.filterMap_cons]
        rw [hr]
        have := ih (fun i hi => h i (List.mem_cons_of_mem _ hi))
        simp at this ⊢
        exact this
    refine this _ ?_
    intro i hi
    obtain ⟨r, hr, _⟩ := (hall i).1 hi
    rw [hr]; rfl
  · intro k sid
    constructor
    · rintro ⟨l, hl⟩
      obtain ⟨h0, sc, h1, _⟩ := listObjs_ok hl
      exact ⟨h0, by rw [h1]; rfl⟩
    · rintro ⟨h0, h1⟩
      obtain ⟨sc, hsc⟩ := Option.isSome_iff_exists.1 h1
      unfold listObjs
      rw [if_neg (by omega), hsc]
      exact ⟨_, rfl⟩

/-- What is listed is found by id; what is not being dropped is found by its name on a leader that has its maps:
by-name lookup returns that object and no other.  Partial: the events must be orderly. -/
theorem C73_found_partial (es : List Ev) (h : okRun init es = true) (s : State) (hs : s = (run init es).1) :
    (∀ k sid l i r, listObjs s.data k sid = .ok l → (i, r) ∈ l → getObj s.data k sid i = .ok r) ∧
    (∀ n k i r, s.leader = some n → s.fresh = false → get (s.data.objs k) i = some r → ¬ Dropping s k i → r.name ≠ [] →
      (get s.data.schemas r.schema).isSome → getByName s.data (s.temps n) k r.schema r.name = .ok (i, r)) ∧
    (∀ n i sc, s.leader = some n → s.fresh = false → get s.data.schemas i = some sc → ¬ DroppingSchema s i → sc.name ≠ [] →
      0 ≤ i → ∃ sc', getSchemaByName s.data (s.temps n) sc.tenant sc.name = .ok (i, sc') ∧ sc'.name = sc.name ∧ sc'.tenant = sc.tenant) := by
  have hi : Inv s := hs ▸ run_inv h
  refine ⟨?_, ?_, ?_⟩
  · intro k sid l i r hl hm
    obtain ⟨h0, sc, h1, _⟩ := listObjs_ok hl
    obtain ⟨h2, _, _⟩ := ((hi.listed hl).2 i r).1 hm
    have hpos := (C73_only_created es k i r (by rw [← hs]; exact h2)).1
    unfold getObj
    rw [if_neg (by omega), if_neg (by omega), h1]
    dsimp only
    rw [h2]
  · intro n k i r hl hf hg hd hne hsome
    have hk : get ((s.temps n).names k) (r.schema, r.name) = some i :=
      (hi.named n hl hf).2 k i _ (Claims.holds (Or.inl ⟨r, hg, rfl, rfl⟩) hd)
    have hpos := (C73_only_created es k i r (by rw [← hs]; exact hg)).1
    have hsc := (hi.cond.objs k i r hg).1
    obtain ⟨sc, h1⟩ := Option.isSome_iff_exists.1 hsome
    unfold getByName
    rw [if_neg (by omega), if_neg hne, h1]
    dsimp only
    rw [hk]
    dsimp only
    unfold getObj
    rw [if_neg (by omega), if_neg (by omega), h1]
    dsimp only
    rw [hg]
  · intro n i sc hl hf hg hd hne h0
    have hk : get (s.temps n).schemaNames (sc.tenant, sc.name) = some i :=
      (hi.named n hl hf).1 i _ (ClaimsSchema.holds (Or.inl ⟨sc, hg, rfl, rfl⟩) hd)
    unfold getSchemaByName
    rw [if_neg hne, hk]
    dsimp only
    unfold getSchema
    rw [if_neg (by omega), hg]
    exact ⟨sc, rfl, rfl, rfl⟩

end Verif.Meta
