/-
C76: tenants, schemas and what is in them.
-/
import Verif.Meta.PropsOwned

namespace Verif.Meta

/-! ## Specification -/

/-- What a sequence of writes makes of the tenant `i`. -/
def replayTenant (i : Int) : Bool → List Write → Bool
  | cur, [] => cur
  | cur, .tenantPut id :: ws => replayTenant i (if id = i then true else cur) ws
  | cur, .tenantErase id :: ws => replayTenant i (if id = i then false else cur) ws
  | cur, _ :: ws => replayTenant i cur ws

/-- The tenant a write drops. -/
def Write.dropsTenant : Write → List Int
  | .tenantErase id => [id]
  | _ => []

/-- The tenant in which a write makes a schema. -/
def Write.usesTenant : Write → List Int
  | .schemaPut _ s => [s.tenant]
  | _ => []

/-- A tenant is not dropped while a schema is created in it. -/
def okTenants (s : State) : Ev → Bool
  | .begin q =>
    match s.leader with
    | none => true
    | some n =>
      match prepare s.data (s.temps n) q with
      | (_, .error _) => true
      | (_, .ok p) =>
        (p.incr.heads.flatMap Write.dropsTenant).all (fun x => decide (x ∉ (pending s).flatMap (fun p => p.heads.flatMap Write.usesTenant))) &&
        (p.incr.heads.flatMap Write.usesTenant).all (fun x => decide (x ∉ (pending s).flatMap (fun p => p.heads.flatMap Write.dropsTenant)))
  | _ => true

/-! ## Lemmas -/

theorem exec_tenant {d d' : Data} {w : Write} (h : w.exec d = some d') (i : Int) :
    decide (i ∈ d'.tenants) = replayTenant i (decide (i ∈ d.tenants)) [w] := by
  cases w with
  | tenantPut id =>
    dsimp only [Write.exec] at h
    split at h <;> cases h
    dsimp only [replayTenant]
    by_cases e : id = i
    · subst e; simp
    · have e' : i ≠ id := fun h => e h.symm
      simp [e, e']
  | tenantErase id =>
    cases h
    dsimp only [replayTenant]
    by_cases e : id = i
    · subst e; simp
    · have e' : i ≠ id := fun h => e h.symm
      simp [e, e']
  | schemaPut id s => dsimp only [Write.exec] at h; split at h <;> cases h; rfl
  | schemaErase id => cases h; rfl
  | tidxPut t l => dsimp only [Write.exec] at h; split at h <;> cases h; rfl
  | tidxAddDel t a b => dsimp only [Write.exec] at h; split at h <;> cases h <;> rfl
  | tidxErase t => cases h; rfl
  | objPut k' id r => dsimp only [Write.exec] at h; split at h <;> cases h; rfl
  | schemaAdd k' sid id =>
    dsimp only [Write.exec] at h
    split at h
    · split at h <;> cases h; rfl
    · cases h
  | objUpdate k' id n df => dsimp only [Write.exec] at h; split at h <;> cases h <;> rfl
  | schemaDel k' sid id =>
    dsimp only [Write.exec] at h
    split at h
    · split at h <;> cases h; rfl
    · cases h
  | objErase k' id => cases h; rfl
  | nextSchema v => cases h; rfl
  | nextTable v => cases h; rfl

theorem replayTenant_append (i : Int) (a b : List Write) : ∀ cur,
    replayTenant i cur (a ++ b) = replayTenant i (replayTenant i cur a) b := by
  induction a with
  | nil => intro cur; rfl
  | cons w a ih => intro cur; cases w <;> exact ih _

theorem execAll_tenant {ws : List Write} (i : Int) : ∀ {d d' : Data}, execAll d ws = some d' →
    decide (i ∈ d'.tenants) = replayTenant i (decide (i ∈ d.tenants)) ws := by
  induction ws with
  | nil => intro d d' h; cases h; rfl
  | cons w ws ih =>
    intro d d' h
    rw [execAll] at h
    cases hw : w.exec d with
    | none => rw [hw] at h; cases h
    | some d1 =>
      rw [hw] at h
      rw [ih h, exec_tenant hw, ← replayTenant_append]
      rfl

/-- Not about tenants. -/
def Write.offTenant : Write → Bool
  | .tenantPut _ | .tenantErase _ => false
  | _ => true

theorem replayTenant_off {i : Int} {ws : List Write} (h : ∀ w ∈ ws, w.offTenant = true) : ∀ cur, replayTenant i cur ws = cur := by
  induction ws with
  | nil => intro cur; rfl
  | cons w ws ih =>
    intro cur
    have h1 := h w List.mem_cons_self
    have h2 := ih (fun w hw => h w (List.mem_cons_of_mem _ hw))
    cases w <;> first | exact h2 cur | cases h1

theorem opWrites_offTenant (k : Kind) (ops : List ObjOp) : ∀ w ∈ ops.flatMap (ObjOp.writes k), w.offTenant = true := by
  intro w hw
  obtain ⟨op, _, h⟩ := List.mem_flatMap.1 hw
  cases op <;> simp [ObjOp.writes] at h
  · rcases h with e | e <;> subst e <;> rfl
  · subst h; rfl
  · rcases h with e | e <;> subst e <;> rfl

theorem Shape.ids_next {d : Data} {t t' : Temp} {p : Plan} (h : Shape d t t' p) : ∀ w ∈ p.incr.ids, w.offTenant = true := by
  cases h with
  | objs h => rw [h.ids]; intro w hw; cases hw
  | tenant ws hi => rw [hi]; intro w hw; cases hw
  | newSchema id s ids hi hr hb he hn hid =>
    rw [hi]
    intro w hw
    rcases hid with ⟨_, e, _⟩ | ⟨_, e, _⟩
    · dsimp only at hw; rw [e] at hw; cases hw
    · dsimp only at hw; rw [e] at hw; rw [List.mem_singleton.1 hw]; rfl
  | noSchema id tn s hi => rw [hi]; intro w hw; cases hw
  | ids l ws hi hr hb h1 h2 h3 h4 hl hw =>
    rw [hi]
    intro w hm
    rcases hw with ⟨_, e, _⟩ | ⟨_, hw⟩
    · dsimp only at hm; rw [e] at hm; cases hm
    · obtain ⟨v, e, _⟩ := hw w hm
      rw [e]; rfl

theorem applyIncr_tenant {d d' : Data} {inc : Incr} (h : applyIncr d inc = some d') (hi : ∀ w ∈ inc.ids, w.offTenant = true)
    (i : Int) : decide (i ∈ d'.tenants) = replayTenant i (decide (i ∈ d.tenants)) inc.heads := by
  rw [execAll_tenant i h]
  unfold Incr.writes
  rw [replayTenant_append, replayTenant_append, replayTenant_append, replayTenant_off hi,
    replayTenant_off (opWrites_offTenant _ _), replayTenant_off (opWrites_offTenant _ _)]

theorem Part.tidx_heads {d : Data} {q : Req} {inc : Incr} (h : Part d q inc) (hq : q.isSchema = false) : ∀ w ∈ inc.heads, w.onTidx := by
  cases h with
  | off _ heads ids _ _ hz =>
    rcases hz with e | e
    · rw [e]; intro w hw; cases hw
    · rw [hq] at e; cases e
  | tables => intro w hw; rw [List.mem_singleton.1 hw]; trivial
  | add => intro w hw; rw [List.mem_singleton.1 hw]; trivial
  | del => intro w hw; rw [List.mem_singleton.1 hw]; trivial
  | drops l h =>
    intro w hw
    obtain ⟨⟨ko, sid, id⟩, _, hw⟩ := List.mem_flatMap.1 hw
    cases ko with
    | none => cases hw
    | some ko =>
      cases ko with
      | table => rw [List.mem_singleton.1 hw]; trivial
      | index =>
        dsimp only [dropEntry] at hw
        split at hw
        · rw [List.mem_singleton.1 hw]; trivial
        · cases hw
  | _ => intro w hw; cases hw

/-- A new schema is in a tenant that exists. -/
theorem prepare_schemaPut {d : Data} {t t' : Temp} {q : Req} {p : Plan} (h : prepare d t q = (t', .ok p)) {id : Int} {s : Schema}
    (hm : .schemaPut id s ∈ p.incr.heads) : (s.tenant = 0 ∨ s.tenant ∈ d.tenants) ∧ ∀ x, .tenantErase x ∉ p.incr.heads := by
  cases hq : q.isSchema with
  | false => exact ((prepare_part h).tidx_heads hq _ hm).elim
  | true =>
    cases q with
    | createTenant i =>
      dsimp only [prepare] at h
      unfold createTenant at h
      split at h
      · cases h; cases hm
      · split at h
        · cases h
        · cases h; cases List.mem_singleton.1 hm
    | dropTenant i =>
      dsimp only [prepare] at h
      unfold dropTenant at h
      split at h
      · cases h
      · split at h
        · cases h
        · split at h
          · cases h
          · split at h
            · cases h
            · cases h; cases List.mem_singleton.1 hm
    | dropSchema tn sid =>
      dsimp only [prepare] at h
      unfold dropSchema at h
      split at h
      · cases h
      · split at h
        · cases h
        · split at h
          · cases h
          · split at h
            · cases h
            · split at h
              · cases h
              · cases h; cases List.mem_singleton.1 hm
    | createSchema tn nm junk =>
      dsimp only [prepare] at h
      unfold createSchema at h
      split at h
      · cases h
      · split at h
        · cases h
        · split at h
          · cases h
          · rename_i c1 c2 c3
            split at h
            · cases h
            · have h' : ∃ i t2, (if (get t2.schemaNames (tn, nm)).isSome then ((t2, .error .schemaExists) : Res Plan)
                  else ({ t2 with schemaNames := put t2.schemaNames (tn, nm) i },
                    .ok { incr := { heads := [.schemaPut i ⟨nm, tn, fun _ => []⟩], ids := if junk > 0 then [] else [Write.nextSchema i] },
                          resp := .schema i })) = (t', Except.ok p) := ⟨_, _, h⟩
              obtain ⟨i, t2, h'⟩ := h'
              split at h'
              · cases h'
              · cases h'
                have e := List.mem_singleton.1 hm
                cases e
                refine ⟨?_, fun x hx => (by cases List.mem_singleton.1 hx)⟩
                dsimp only
                by_cases c : tn = 0
                · exact Or.inl c
                · exact Or.inr (Decidable.byContradiction (fun hn => c3 ⟨by omega, hn⟩))
    | _ => cases hq

/-- A tenant that is dropped has no schemas. -/
theorem prepare_tenantErase {d : Data} {t t' : Temp} {q : Req} {p : Plan} (h : prepare d t q = (t', .ok p)) {id : Int}
    (hm : .tenantErase id ∈ p.incr.heads) : id ≠ 0 ∧ ∀ sid s, get d.schemas sid = some s → s.tenant ≠ id := by
  cases hq : q.isSchema with
  | false => exact ((prepare_part h).tidx_heads hq _ hm).elim
  | true =>
    cases q with
    | createTenant i =>
      dsimp only [prepare] at h
      unfold createTenant at h
      split at h
      · cases h; cases hm
      · split at h
        · cases h
        · cases h; cases List.mem_singleton.1 hm
    | dropTenant i =>
      dsimp only [prepare] at h
      unfold dropTenant at h
      split at h
      · cases h
      · split at h
        · cases h
        · split at h
          · cases h
          · split at h
            · cases h
            · rename_i c0 c1 c2 c3
              cases h
              have e := List.mem_singleton.1 hm
              cases e
              refine ⟨c0, ?_⟩
              intro sid s hs e
              refine c3 (List.length_pos_of_mem (a := (sid, s)) (List.mem_filter.2 ⟨get_mem hs, ?_⟩))
              simpa using e
    | dropSchema tn sid =>
      dsimp only [prepare] at h
      unfold dropSchema at h
      split at h
      · cases h
      · split at h
        · cases h
        · split at h
          · cases h
          · split at h
            · cases h
            · split at h
              · cases h
              · cases h; cases List.mem_singleton.1 hm
    | createSchema tn nm junk =>
      dsimp only [prepare] at h
      unfold createSchema at h
      split at h
      · cases h
      · split at h
        · cases h
        · split at h
          · cases h
          · split at h
            · cases h
            · have h' : ∃ i t2, (if (get t2.schemaNames (tn, nm)).isSome then ((t2, .error .schemaExists) : Res Plan)
                  else ({ t2 with schemaNames := put t2.schemaNames (tn, nm) i },
                    .ok { incr := { heads := [.schemaPut i ⟨nm, tn, fun _ => []⟩], ids := if junk > 0 then [] else [Write.nextSchema i] },
                          resp := .schema i })) = (t', Except.ok p) := ⟨_, _, h⟩
              obtain ⟨i, t2, h'⟩ := h'
              split at h'
              · cases h'
              · cases h'
                cases List.mem_singleton.1 hm
    | _ => cases hq

/-! ## The tenants of schemas -/

/-- No schema is in a tenant that does not exist. -/
structure Housed (d : Data) (ps : List Incr) : Prop where
  in' : ∀ sid s, get d.schemas sid = some s → s.tenant = 0 ∨ s.tenant ∈ d.tenants
  ids : ∀ inc ∈ ps, (∀ w ∈ inc.ids, w.offTenant = true) ∧ ∀ w ∈ inc.ids, w.offSchema = true
  puts : ∀ inc ∈ ps, ∀ id s, .schemaPut id s ∈ inc.heads → (s.tenant = 0 ∨ s.tenant ∈ d.tenants) ∧ ∀ x, .tenantErase x ∉ inc.heads
  drops : ∀ inc ∈ ps, ∀ id, .tenantErase id ∈ inc.heads → id ≠ 0 ∧ ∀ sid s, get d.schemas sid = some s → s.tenant ≠ id
  apart : ps.Pairwise (fun a b => (∀ id s, .schemaPut id s ∈ a.heads → .tenantErase s.tenant ∉ b.heads) ∧
    ∀ id s, .schemaPut id s ∈ b.heads → .tenantErase s.tenant ∉ a.heads)

theorem replaySchema_some {i : Int} {ws : List Write} : ∀ {cur : Option (Name × Int)} {x : Name × Int},
    replaySchema i cur ws = some x → cur = some x ∨ ∃ s, .schemaPut i s ∈ ws ∧ (s.name, s.tenant) = x := by
  induction ws with
  | nil => intro cur x h; exact Or.inl h
  | cons w ws ih =>
    intro cur x h
    have skip : ∀ {c}, replaySchema i c ws = some x → c = some x ∨ ∃ s, .schemaPut i s ∈ w :: ws ∧ (s.name, s.tenant) = x := by
      intro c hc
      rcases ih hc with h1 | ⟨s, h1, h2⟩
      · exact Or.inl h1
      · exact Or.inr ⟨s, List.mem_cons_of_mem _ h1, h2⟩
    cases w with
    | schemaPut id s =>
      rcases skip (show replaySchema i (if id = i then some (s.name, s.tenant) else cur) ws = _ from h) with h1 | h1
      · split at h1
        · rename_i e
          subst e
          exact Or.inr ⟨s, List.mem_cons_self, Option.some.inj h1⟩
        · exact Or.inl h1
      · exact Or.inr h1
    | schemaErase id =>
      rcases skip (show replaySchema i (if id = i then none else cur) ws = _ from h) with h1 | h1
      · split at h1
        · cases h1
        · exact Or.inl h1
      · exact Or.inr h1
    | _ => exact skip h

theorem replayTenant_keeps {i : Int} {ws : List Write} (h : .tenantErase i ∉ ws) : replayTenant i true ws = true := by
  induction ws with
  | nil => rfl
  | cons w ws ih =>
    have ih := ih (fun hm => h (List.mem_cons_of_mem _ hm))
    cases w with
    | tenantPut id => dsimp only [replayTenant]; rw [show (if id = i then true else true) = true by split <;> rfl]; exact ih
    | tenantErase id =>
      dsimp only [replayTenant]
      rw [if_neg (fun e => h (by rw [e]; exact List.mem_cons_self))]
      exact ih
    | _ => exact ih

theorem Housed.apply {d d' : Data} {inc : Incr} {ps : List Incr} (h : Housed d (inc :: ps)) (ha : applyIncr d inc = some d') :
    Housed d' ps := by
  obtain ⟨i1, i2⟩ := h.ids inc List.mem_cons_self
  have keep : ∀ x, (x = 0 ∨ x ∈ d.tenants) → (x ≠ 0 → .tenantErase x ∉ inc.heads) → x = 0 ∨ x ∈ d'.tenants := by
    intro x hx hn
    by_cases c : x = 0
    · exact Or.inl c
    · rcases hx with hx | hx
      · exact Or.inl hx
      · right
        have := applyIncr_tenant ha i1 x
        rw [decide_eq_true hx, replayTenant_keeps (hn c)] at this
        exact of_decide_eq_true this
  have back : ∀ sid s', get d'.schemas sid = some s' → (∃ s, get d.schemas sid = some s ∧ s.tenant = s'.tenant) ∨
      ∃ s, .schemaPut sid s ∈ inc.heads ∧ s.tenant = s'.tenant := by
    intro sid s' hs
    have := applyIncr_schema ha i2 (i := sid)
    rw [hs] at this
    rcases replaySchema_some this.symm with h1 | ⟨s, h1, h2⟩
    · obtain ⟨s, g1, g2⟩ := Option.map_eq_some_iff.1 h1
      exact Or.inl ⟨s, g1, (Prod.mk.inj g2).2⟩
    · exact Or.inr ⟨s, h1, (Prod.mk.inj h2).2⟩
  have hap := List.pairwise_cons.1 h.apart
  refine { in' := ?_, ids := fun i hi => h.ids i (List.mem_cons_of_mem _ hi), puts := ?_, drops := ?_, apart := hap.2 }
  · intro sid s' hs
    rcases back sid s' hs with ⟨s, h1, e⟩ | ⟨s, h1, e⟩
    · rw [← e]
      refine keep _ (h.in' sid s h1) (fun _ hm => ?_)
      exact (h.drops inc List.mem_cons_self _ hm).2 sid s h1 rfl
    · rw [← e]
      obtain ⟨g1, g2⟩ := h.puts inc List.mem_cons_self sid s h1
      exact keep _ g1 (fun _ => g2 _)
  · intro inc' hi id s hm
    obtain ⟨g1, g2⟩ := h.puts inc' (List.mem_cons_of_mem _ hi) id s hm
    exact ⟨keep _ g1 (fun _ => (hap.1 inc' hi).2 id s hm), g2⟩
  · intro inc' hi id hm
    obtain ⟨g1, g2⟩ := h.drops inc' (List.mem_cons_of_mem _ hi) id hm
    refine ⟨g1, fun sid s' hs e => ?_⟩
    rcases back sid s' hs with ⟨s, h1, e1⟩ | ⟨s, h1, e1⟩
    · exact g2 sid s h1 (e1.trans e)
    · exact (hap.1 inc' hi).1 sid s h1 (by rw [e1, e]; exact hm)

theorem Housed.run {es : List Ev} (hok : okRun init es = true) (hx : StepsOk okTenants init es = true) :
    Housed (run init es).1.data (pending (run init es).1) := by
  refine pend_ind (P := Housed) (f := okTenants) (R := fun _ => True) ?_ ?_ ?_ ?_ Inv.init hok hx (fun _ _ => trivial) ?_
  · intro d ps ps' p h
    exact { in' := h.in', ids := fun i hi => h.ids i (p.mem_iff.2 hi), puts := fun i hi => h.puts i (p.mem_iff.2 hi),
            drops := fun i hi => h.drops i (p.mem_iff.2 hi), apart := (p.pairwise_iff (fun h => ⟨h.2, h.1⟩)).1 h.apart }
  · intro d l ps h
    exact { in' := h.in', ids := fun i hi => h.ids i (List.mem_append_right _ hi), puts := fun i hi => h.puts i (List.mem_append_right _ hi),
            drops := fun i hi => h.drops i (List.mem_append_right _ hi), apart := (List.pairwise_append.1 h.apart).2.1 }
  · intro s q n t p hi hok hx _ hl hp h
    dsimp only [okTenants] at hx
    rw [hl] at hx
    dsimp only at hx
    rw [hp] at hx
    simp only [Bool.and_eq_true, List.all_eq_true, decide_eq_true_eq] at hx
    have hsh := prepare_shape hp
    refine { in' := h.in', ids := ?_, puts := ?_, drops := ?_, apart := List.pairwise_cons.2 ⟨?_, h.apart⟩ }
    · intro inc hm
      rcases List.mem_cons.1 hm with e | hm
      · rw [e]; exact ⟨hsh.ids_next, hsh.ids_offSchema⟩
      · exact h.ids inc hm
    · intro inc hm
      rcases List.mem_cons.1 hm with e | hm
      · rw [e]; exact fun id s hw => prepare_schemaPut hp hw
      · exact h.puts inc hm
    · intro inc hm
      rcases List.mem_cons.1 hm with e | hm
      · rw [e]; exact fun id hw => prepare_tenantErase hp hw
      · exact h.drops inc hm
    · intro b hb
      constructor
      · intro id sc h1 h2
        refine hx.2 sc.tenant (List.mem_flatMap.2 ⟨_, h1, List.mem_singleton.2 rfl⟩) ?_
        exact List.mem_flatMap.2 ⟨b, hb, List.mem_flatMap.2 ⟨_, h2, List.mem_singleton.2 rfl⟩⟩
      · intro id sc h1 h2
        refine hx.1 sc.tenant (List.mem_flatMap.2 ⟨_, h2, List.mem_singleton.2 rfl⟩) ?_
        exact List.mem_flatMap.2 ⟨b, hb, List.mem_flatMap.2 ⟨_, h1, List.mem_singleton.2 rfl⟩⟩
  · intro d d' inc ps _ h ha
    exact h.apply ha
  · refine { in' := ?_, ids := (by intro i h; cases h), puts := (by intro i h; cases h), drops := (by intro i h; cases h), apart := .nil }
    intro sid s hs
    left
    have := get_mem hs
    have key : ∀ a ∈ Data.init.schemas, a.2.tenant = 0 := by simp [Data.init]
    exact key _ this

/-! ## Schemas do not come back -/

theorem Used.run (c : Prop) {sid : Int} {es : List Ev} {s : State} (hi : Inv s) (hok : okRun s es = true)
    (h1 : sid ≤ s.data.nextSchema) (h2 : ∀ inc ∈ pending s, ∀ sc, .schemaPut sid sc ∉ inc.heads)
    (h3 : c → get s.data.schemas sid = none) : sid ≤ (run s es).1.data.nextSchema ∧
    (∀ inc ∈ pending (run s es).1, ∀ sc, .schemaPut sid sc ∉ inc.heads) ∧ (c → get (run s es).1.data.schemas sid = none) := by
  have hall : ∀ (es : List Ev) (s : State), StepsOk (fun _ _ => true) s es = true := by
    intro es
    induction es with
    | nil => intro s; rfl
    | cons e es ih => intro s; rw [StepsOk]; exact ih _
  have := pend_ind (P := fun d ps => sid ≤ d.nextSchema ∧ (∀ inc ∈ ps, ∀ sc, .schemaPut sid sc ∉ inc.heads) ∧
      (c → get d.schemas sid = none)) (f := fun _ _ => true) (R := fun _ => True) ?_ ?_ ?_ ?_ hi hok (hall es s) (fun _ _ => trivial) ⟨h1, h2, h3⟩
  · exact this
  · intro d ps ps' p h
    exact ⟨h.1, fun i hi => h.2.1 i (p.mem_iff.2 hi), h.2.2⟩
  · intro d l ps h
    exact ⟨h.1, fun i hi => h.2.1 i (List.mem_append_right _ hi), h.2.2⟩
  · intro s q n t p hi hok _ _ hl hp h
    refine ⟨h.1, ?_, h.2.2⟩
    intro inc hm sc hw
    rcases List.mem_cons.1 hm with e | hm
    · subst e
      dsimp only [okEv] at hok
      rw [hl] at hok
      simp only [Bool.and_eq_true, Bool.not_eq_true'] at hok
      have hsn := (hi.snext n hl hok.1.1).1
      have hreq := hok.1.2
      have hsh := prepare_shape hp
      cases q with
      | createSchema tn nm junk =>
        dsimp only [okReq] at hreq
        have hj : junk ≤ 0 := by simpa using hreq
        dsimp only [prepare] at hp
        unfold createSchema at hp
        split at hp
        · cases hp
        · split at hp
          · cases hp
          · split at hp
            · cases hp
            · split at hp
              · cases hp
              · dsimp only at hp
                have hj' : ¬ junk > 0 := by omega
                simp only [if_neg hj'] at hp
                split at hp
                · cases hp
                · cases hp
                  have e := List.mem_singleton.1 hw
                  injection e with e1 e2
                  have := h.1
                  omega
      | createTenant i =>
        dsimp only [prepare] at hp
        unfold createTenant at hp
        split at hp
        · cases hp; cases hw
        · split at hp
          · cases hp
          · cases hp; cases List.mem_singleton.1 hw
      | dropTenant i =>
        have := prepare_schemaPut hp hw
        dsimp only [prepare] at hp
        unfold dropTenant at hp
        split at hp
        · cases hp
        · split at hp
          · cases hp
          · split at hp
            · cases hp
            · split at hp
              · cases hp
              · cases hp; cases List.mem_singleton.1 hw
      | dropSchema tn sid' =>
        dsimp only [prepare] at hp
        unfold dropSchema at hp
        split at hp
        · cases hp
        · split at hp
          · cases hp
          · split at hp
            · cases hp
            · split at hp
              · cases hp
              · split at hp
                · cases hp
                · cases hp; cases List.mem_singleton.1 hw
      | _ => exact ((prepare_part hp).tidx_heads rfl _ hw).elim
    · exact h.2.1 inc hm sc hw
  · intro d d' inc ps ⟨d0, t0, t1, p, hs, e⟩ h ha
    subst e
    refine ⟨Int.le_trans h.1 (execAll_next ha).2.1, fun i hi => h.2.1 i (List.mem_cons_of_mem _ hi), ?_⟩
    intro hc
    cases hg : get d'.schemas sid with
    | none => rfl
    | some s' =>
      have := applyIncr_schema ha hs.ids_offSchema (i := sid)
      rw [hg] at this
      rcases replaySchema_some this.symm with h1 | ⟨sc, h1, _⟩
      · rw [h.2.2 hc] at h1; cases h1
      · exact absurd h1 (h.2.1 _ List.mem_cons_self sc)

/-! ## C76 -/

/-- In every run, a tenant exists exactly if the entries applied say so: the last one about it creates it. -/
theorem C76_tenant_history (es : List Ev) (i : Int) :
    decide (i ∈ (run init es).1.data.tenants) = replayTenant i false ((applied init es).flatMap Incr.heads) := by
  induction es using snoc_ind with
  | nil => rfl
  | snoc es e ih =>
    have hap : ∀ inc ∈ applied init (es ++ [e]), ∀ w ∈ inc.ids, w.offTenant = true := by
      intro inc h
      obtain ⟨q, es1, n, t, p, i, _, _, hp, e⟩ := run_applied inc h
      rw [← e]; exact (prepare_shape hp).ids_next
    rw [applied_append] at hap
    rw [run_snoc, applied_append, List.flatMap_append, replayTenant_append, ← ih]
    dsimp only
    rcases step_data (run init es).1 e with ⟨h1, h2⟩ | ⟨x, rest, d, _, _, hl, h1, ha, h2⟩
    · rw [h1, h2]; rfl
    · rw [h1, h2]
      rw [h1] at hap
      rw [applyIncr_tenant ha (hap _ (List.mem_append_right _ List.mem_cons_self)) i]
      simp

/-- When requests about tenants and schemas are taken. -/
theorem C76_taken (s : State) (n0 : Nat) (hl : s.leader = some n0) (hd : s.dead = false) :
    (∀ i, (step s (.begin (.createTenant i))).2 = .begun s.ths.length ↔ i = 0 ∨ i ∉ s.data.tenants) ∧
    (∀ i, (step s (.begin (.dropTenant i))).2 = .begun s.ths.length ↔
      0 < i ∧ i ∈ s.data.tenants ∧ ∀ p ∈ s.data.schemas, p.2.tenant ≠ i) ∧
    (∀ tn sid, (step s (.begin (.dropSchema tn sid))).2 = .begun s.ths.length ↔
      1000 < sid ∧ (tn = 0 ∨ (0 < tn ∧ tn ∈ s.data.tenants)) ∧ ∃ sc, get s.data.schemas sid = some sc ∧ sc.ids .table = []) := by
  have key : ∀ q, (step s (.begin q)).2 = .begun s.ths.length ↔ ∃ t p, prepare s.data (s.temps n0) q = (t, .ok p) := by
    intro q
    rw [step_begin hd]
    rcases begin_cases s q with ⟨h0, e⟩ | ⟨n, t, er, hl', hp, e⟩ | ⟨n, t, p, hl', hp, e⟩
    · rw [h0] at hl; cases hl
    · rw [hl] at hl'; cases hl'
      rw [e]
      exact ⟨nofun, fun ⟨t', p, h⟩ => (by rw [hp] at h; cases h)⟩
    · rw [hl] at hl'; cases hl'
      rw [e]
      exact ⟨fun _ => ⟨t, p, hp⟩, fun _ => rfl⟩
  refine ⟨fun i => ?_, fun i => ?_, fun tn sid => ?_⟩
  · rw [key]
    dsimp only [prepare]
    unfold createTenant
    by_cases c : i = 0
    · rw [if_pos c]; exact ⟨fun _ => Or.inl c, fun _ => ⟨_, _, rfl⟩⟩
    · rw [if_neg c]
      by_cases c1 : i ∈ s.data.tenants
      · rw [if_pos c1]
        exact ⟨fun ⟨_, _, h⟩ => (by cases h), fun h => (by rcases h with h | h; exact absurd h c; exact absurd c1 h)⟩
      · rw [if_neg c1]; exact ⟨fun _ => Or.inr c1, fun _ => ⟨_, _, rfl⟩⟩
  · rw [key]
    dsimp only [prepare]
    unfold dropTenant
    by_cases c : i = 0
    · rw [if_pos c]; exact ⟨fun ⟨_, _, h⟩ => (by cases h), fun h => (by have := h.1; omega)⟩
    · rw [if_neg c]
      by_cases c1 : i < 0
      · rw [if_pos c1]; exact ⟨fun ⟨_, _, h⟩ => (by cases h), fun h => (by have := h.1; omega)⟩
      · rw [if_neg c1]
        by_cases c2 : i ∉ s.data.tenants
        · rw [if_pos c2]; exact ⟨fun ⟨_, _, h⟩ => (by cases h), fun h => absurd h.2.1 c2⟩
        · rw [if_neg c2]
          by_cases c3 : (s.data.schemas.filter (fun p => p.2.tenant = i)).length > 0
          · rw [if_pos c3]
            refine ⟨fun ⟨_, _, h⟩ => (by cases h), fun h => ?_⟩
            obtain ⟨x, hx⟩ := List.exists_mem_of_length_pos c3
            obtain ⟨h1, h2⟩ := List.mem_filter.1 hx
            exact absurd (by simpa using h2) (h.2.2 x h1)
          · rw [if_neg c3]
            refine ⟨fun _ => ⟨by omega, Decidable.not_not.1 c2, fun x hx e => ?_⟩, fun _ => ⟨_, _, rfl⟩⟩
            exact c3 (List.length_pos_of_mem (List.mem_filter.2 ⟨hx, by simpa using e⟩))
  · rw [key]
    dsimp only [prepare]
    unfold dropSchema
    by_cases c : sid ≤ 1000
    · rw [if_pos c]; exact ⟨fun ⟨_, _, h⟩ => (by cases h), fun h => (by have := h.1; omega)⟩
    · rw [if_neg c]
      by_cases c1 : tn < 0
      · rw [if_pos c1]
        refine ⟨fun ⟨_, _, h⟩ => (by cases h), fun h => ?_⟩
        rcases h.2.1 with h | h <;> omega
      · rw [if_neg c1]
        by_cases c2 : tn > 0 ∧ tn ∉ s.data.tenants
        · rw [if_pos c2]
          refine ⟨fun ⟨_, _, h⟩ => (by cases h), fun h => ?_⟩
          rcases h.2.1 with h | h
          · omega
          · exact absurd h.2 c2.2
        · rw [if_neg c2]
          have c4 : tn = 0 ∨ (0 < tn ∧ tn ∈ s.data.tenants) := by
            by_cases e : tn = 0
            · exact Or.inl e
            · exact Or.inr ⟨by omega, Decidable.byContradiction (fun hn => c2 ⟨by omega, hn⟩)⟩
          cases hg : get s.data.schemas sid with
          | none => exact ⟨fun ⟨_, _, h⟩ => (by cases h), fun ⟨_, _, sc, h, _⟩ => (by cases h)⟩
          | some sc =>
            dsimp only
            by_cases c3 : (sc.ids .table).length > 0
            · rw [if_pos c3]
              refine ⟨fun ⟨_, _, h⟩ => (by cases h), fun ⟨_, _, sc', h, h'⟩ => ?_⟩
              cases h; rw [h'] at c3; exact absurd c3 (by simp)
            · rw [if_neg c3]
              refine ⟨fun _ => ⟨by omega, c4, sc, rfl, ?_⟩, fun _ => ⟨_, _, rfl⟩⟩
              exact List.eq_nil_of_length_eq_zero (by omega)

/-- In a run of orderly events every table is in a schema that exists, so a schema with tables cannot be dropped:
`DropSchema` is taken only if no table has it for its schema. -/
theorem C76_home_partial (es : List Ev) (h : okRun init es = true) (s : State) (hs : s = (run init es).1) :
    (∀ i r, get (s.data.objs .table) i = some r → (get s.data.schemas r.schema).isSome) ∧
    (∀ tn sid i, (step s (.begin (.dropSchema tn sid))).2 = .begun i →
      ∀ j r, get (s.data.objs .table) j = some r → r.schema ≠ sid) := by
  have hi : Inv s := hs ▸ run_inv h
  refine ⟨hi.cond.home, ?_⟩
  intro tn sid i hb j r hr e
  have hd : s.dead = false := hi.alive
  have hb' := hb
  rw [step_begin hd] at hb'
  rcases begin_cases s (.dropSchema tn sid) with ⟨h0, e'⟩ | ⟨n, t, er, hl', hp, e'⟩ | ⟨n, t, p, hl', hp, e'⟩
  · rw [e'] at hb'; cases hb'
  · rw [e'] at hb'; cases hb'
  · rw [e'] at hb'
    injection hb' with hb'
    rw [← hb'] at hb
    obtain ⟨_, _, sc, h1, h2⟩ := ((C76_taken s n hl' hd).2.2 tn sid).1 hb
    have := ((hi.cond.lists .table sid sc h1).2 j).2 ⟨r, hr, e⟩
    rw [h2] at this
    cases this

/-- In a run of orderly events in which no tenant is dropped while a schema is created in it, every schema is in
tenant 0 or in a tenant that exists. -/
theorem C76_tenant_partial (es : List Ev) (h : okRun init es = true) (ht : StepsOk okTenants init es = true) (sid : Int)
    (sc : Schema) (hg : get (run init es).1.data.schemas sid = some sc) :
    sc.tenant = 0 ∨ sc.tenant ∈ (run init es).1.data.tenants :=
  (Housed.run h ht).in' sid sc hg

/-- In a run of orderly events a schema that was dropped does not come back: its id is not given to another one. -/
theorem C76_gone_partial (es1 es2 es3 : List Ev) (h : okRun init (es1 ++ es2 ++ es3) = true) (sid : Int)
    (h1 : (get (run init es1).1.data.schemas sid).isSome) (h2 : get (run init (es1 ++ es2)).1.data.schemas sid = none) :
    get (run init (es1 ++ es2 ++ es3)).1.data.schemas sid = none := by
  rw [okRun_append, Bool.and_eq_true, okRun_append, Bool.and_eq_true] at h
  obtain ⟨⟨g1, g2⟩, g3⟩ := h
  rw [run_append] at h2 g3 ⊢
  rw [run_append]
  have i1 := run_inv g1
  have u := Used.run (sid := sid) False i1 g2 (i1.cond.ids sid h1) ?_ (fun h => h.elim)
  · exact (Used.run True (i1.run g2) g3 u.1 u.2.1 (fun _ => h2)).2.2 trivial
  · intro inc hm sc hw
    have hx := i1.cond.fitsS.fresh sid (sc.tenant, sc.name) (List.mem_filterMap.2 ⟨_, List.mem_flatMap.2 ⟨inc, hm, hw⟩, rfl⟩)
    unfold live at hx
    dsimp only at hx
    rw [Option.map_eq_none_iff] at hx
    rw [hx] at h1
    cases h1

end Verif.Meta
