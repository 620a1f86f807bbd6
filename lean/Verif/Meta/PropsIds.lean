/-
C70: the ids the coordinators give out.
-/
import Verif.Meta.Trace

namespace Verif.Meta

/-! ## Specification -/

/-- No request is taken between the election of a leader and the rebuilding of its maps, and no
request checked in an earlier term writes its entry. -/
def TermOk (es : List Ev) : Prop :=
  ∀ es1 e es2, es = es1 ++ e :: es2 → match e with
    | .begin _ => (run init es1).1.fresh = false
    | .submit i => ∀ th, (run init es1).1.ths[i]? = some th → th.term = (run init es1).1.term
    | _ => True

/-- The variable for the id of a new schema holds nothing when the request begins. -/
def NoJunk (es : List Ev) : Prop := ∀ tn n j, .begin (.createSchema tn n j) ∈ es → j ≤ 0

/-- `count` ids in a row. -/
def Row (l : List Int) (count : Nat) : Prop := l.length = count ∧ ∃ v, ∀ j (h : j < l.length), l[j] = v + j

/-- The answer fits the request. -/
def Fitting : Req → Resp → Prop
  | .createId _, r => ∃ id, r = .ids [id]
  | .createIds _ c, r => ∃ l, r = .ids l ∧ Row l c.toNat ∧ 0 < c ∧ c ≤ 100000
  | .generateIds _ parts, r => ∃ l, r = .ids l ∧ Row l (parts.map (· + 1)).sum
  | .createSchema _ _ _, r => ∃ id, r = .schema id
  | .createTables _ l, r => r = .made ((l.filter (fun x => x.1 = some .table)).map (·.2.id) ++
      (l.filter (fun x => x.1 = some .index)).map (·.2.id))
  | _, r => r = .ok

/-! ## Lemmas -/

theorem okCtrRun_of {c : Ctr} {es : List Ev} (h : TermOk es) (hj : c = .sch → NoJunk es) : okCtrRun c init es = true := by
  have : ∀ a b, es = a ++ b → okCtrRun c (run init a).1 b = true := by
    intro a b
    induction b generalizing a with
    | nil => intro _; rfl
    | cons e b ih =>
      intro he
      rw [okCtrRun, Bool.and_eq_true]
      have h2 := ih (a ++ [e]) (by rw [he]; simp)
      rw [run_snoc] at h2
      refine ⟨?_, h2⟩
      have h1 := h a e b he
      unfold okCtr
      rw [Bool.and_eq_true]
      constructor
      · cases e with
        | begin r => simpa [okTerm] using h1
        | submit i =>
          dsimp only [okTerm]
          dsimp only at h1
          cases hi : (run init a).1.ths[i]? with
          | none => rfl
          | some th => simpa using h1 th hi
        | _ => rfl
      · cases c with
        | tab => rfl
        | sch =>
          cases e with
          | begin r =>
            cases r <;> try rfl
            rename_i tn n j
            have := hj rfl tn n j (by rw [he]; simp)
            simpa using this
          | _ => rfl
  exact this [] es rfl

theorem flat_ids (os : List Out) : os.flatMap (Out.given .tab) = os.flatMap Out.ids := by
  refine flatMap_same ?_
  intro o ho
  clear ho
  cases o <;> try rfl
  rename_i r
  cases r <;> rfl

theorem flat_schemaIds (os : List Out) : os.flatMap (Out.given .sch) = os.flatMap Out.schemaIds := by
  refine flatMap_same ?_
  intro o ho
  clear ho
  cases o <;> try rfl
  rename_i r
  cases r <;> rfl

theorem Row.after (v : Int) (n : Nat) : Row (idsAfter v n) n := by
  refine ⟨by simp [idsAfter], v + 1, ?_⟩
  intro j h
  simp [idsAfter]
  omega

theorem generateLoop_sum {ns : List Nat} : ∀ {t t' : Temp} {l l' : List Int} {ws ws' : List Write},
    generateLoop t ns l ws = (t', .ok (l', ws')) → last t'.nextTable = last t.nextTable + ((ns.map (· + 1)).sum : Nat) := by
  induction ns with
  | nil => intro t t' l l' ws ws' h; cases h; simp
  | cons n ns ih =>
    intro t t' l l' ws ws' h
    unfold generateLoop at h
    cases ht : takeIds t (1 + n) with
    | mk t1 l1 =>
      rw [ht] at h
      cases l1 with
      | nil => cases h
      | cons a l1 =>
        obtain ⟨_, _, e, _⟩ := takeIds_ok ht (by simp)
        have := ih h
        rw [this, e]
        dsimp only [last]
        simp only [List.map_cons, List.sum_cons]
        omega

theorem createTheTable_ids {d : Data} {sid : Int} {l : List (Option Kind × New)} :
    ∀ {t t' : Temp} {a b : Option (Int × ObjOp)}, createTheTable d sid t l a = (t', .ok b) →
    (b.map Prod.fst).toList = (a.map Prod.fst).toList ++ (l.filter (fun x => x.1 = some .table)).map (·.2.id) := by
  induction l with
  | nil => intro t t' a b h; cases h; simp
  | cons p l ih =>
    intro t t' a b h
    obtain ⟨k, n⟩ := p
    cases k with
    | none => exact ih (show createTheTable d sid t l a = _ from h)
    | some k =>
      cases k with
      | index => exact ih (show createTheTable d sid t l a = _ from h)
      | table =>
        cases a with
        | some x =>
          obtain ⟨y, op⟩ := x
          cases op <;> cases h
        | none =>
          unfold createTheTable at h
          cases hm : mkTable d t sid n with
          | mk t1 res =>
            rw [hm] at h
            cases res with
            | error e => cases h
            | ok op => exact ih h

theorem createTheIndexes_ids {d : Data} {sid owner : Int} {l : List (Option Kind × New)} :
    ∀ {t t' : Temp} {back back' : List (Kind × Int × Name)} {ops ops' : List ObjOp},
    createTheIndexes d sid owner t l back ops = (t', .ok (ops', back')) →
    createdIds ops' = createdIds ops ++ (l.filter (fun x => x.1 = some .index)).map (·.2.id) := by
  have app : ∀ (a b : List ObjOp), createdIds (a ++ b) = createdIds a ++ createdIds b := by
    intro a b
    induction a with
    | nil => rfl
    | cons x a ih => cases x <;> simp [createdIds, ih]
  induction l with
  | nil => intro t t' back back' ops ops' h; cases h; simp
  | cons p l ih =>
    intro t t' back back' ops ops' h
    obtain ⟨k, n⟩ := p
    cases k with
    | none => cases h
    | some k =>
      cases k with
      | table => exact ih (show createTheIndexes d sid owner t l back ops = _ from h)
      | index =>
        unfold createTheIndexes at h
        cases hm : mkIndex d t sid owner n with
        | mk t1 res =>
          rw [hm] at h
          cases res with
          | error e => cases h
          | ok op =>
            have := ih h
            rw [this, app, (mkIndex_ok hm).2.2.2.2]
            simp [createdIds]

theorem prepare_fitting {d : Data} {t t' : Temp} {q : Req} {p : Plan} (h : prepare d t q = (t', .ok p)) :
    Fitting q p.resp := by
  cases q <;> dsimp only [prepare] at h <;> dsimp only [Fitting]
  case createTenant => unfold createTenant at h; (repeat' split at h) <;> cases h <;> rfl
  case dropTenant => unfold dropTenant at h; (repeat' split at h) <;> cases h <;> rfl
  case createSchema => unfold createSchema at h; dsimp only at h; (repeat' split at h) <;> cases h <;> exact ⟨_, rfl⟩
  case dropSchema => unfold dropSchema at h; (repeat' split at h) <;> cases h <;> rfl
  case createTable => unfold createTable at h; (repeat' split at h) <;> cases h <;> rfl
  case dropTable => unfold dropTable at h; (repeat' split at h) <;> cases h <;> rfl
  case dropTables => unfold dropTables at h; (repeat' split at h) <;> cases h <;> rfl
  case updateTable => unfold updateTable at h; (repeat' split at h) <;> cases h <;> rfl
  case addIndex => unfold addIndex at h; (repeat' split at h) <;> cases h <;> rfl
  case dropIndexOn => unfold dropIndexOn at h; (repeat' split at h) <;> cases h <;> rfl
  case createIndex => unfold createIndex at h; (repeat' split at h) <;> cases h <;> rfl
  case dropIndex => unfold dropIndex at h; (repeat' split at h) <;> cases h <;> rfl
  case createId => unfold createId at h; dsimp only at h; (repeat' split at h) <;> cases h <;> exact ⟨_, rfl⟩
  case createIds s c =>
    unfold createIds at h
    split at h
    · cases h
    · split at h
      · cases h
      · cases ht : takeIds t c with
        | mk t1 l =>
          rw [ht] at h
          cases l with
          | nil => cases h
          | cons a l =>
            cases h
            obtain ⟨h1, h2, _, h3⟩ := takeIds_ok ht (by simp)
            exact ⟨_, rfl, h3 ▸ Row.after _ _, h1, h2⟩
  case generateIds s ps =>
    unfold generateIds at h
    split at h
    · cases h
    · cases hg : generateLoop t ps [] [] with
      | mk t1 res =>
        rw [hg] at h
        cases res with
        | error e => cases h
        | ok x =>
          obtain ⟨l, ws⟩ := x
          cases h
          have h1 := (generateLoop_ok hg).2.2.2.2.1
          have h2 := generateLoop_sum hg
          refine ⟨l, rfl, ?_⟩
          rw [h1, h2]
          have : (last t.nextTable + ((ps.map (· + 1)).sum : Nat) - last t.nextTable).toNat = (ps.map (· + 1)).sum := by omega
          rw [this]
          exact Row.after _ _
  case createTables s l =>
    unfold createTables at h
    split at h
    · cases h
    · split at h
      · cases h
      · split at h
        · cases h
        · cases ht : createTheTable d s t l none with
          | mk t1 res =>
            rw [ht] at h
            cases res with
            | error e => cases h
            | ok a =>
              have h1 := createTheTable_ids ht
              dsimp only at h
              split at h
              · cases h
              · rename_i t2 ops back hi
                cases h
                have h2 := createTheIndexes_ids hi
                dsimp only
                rw [← show _ = List.map (fun x => x.2.id) (List.filter (fun x => decide (x.1 = some Kind.index)) l) from h2]
                rw [← show _ = List.map (fun x => x.2.id) (List.filter (fun x => decide (x.1 = some Kind.table)) l) from h1]
                cases a with
                | none => rfl
                | some x => rfl

/-! ## C70 -/

/-- No id is given out twice, in whatever order requests, entries, failures, elections and restarts
come: all ids answered by `CreateTableId`, `CreateTableIds`, `CreateIndexId` and `GenerateTableIds` are
different.  Partial: requests taken between the election of a leader and the rebuilding of its maps, and
entries written in a later term than the one they were checked in, are left out
(`C70_window_false`, `C70_stale_false`). -/
theorem C70_ids_partial (es : List Ev) (h : TermOk es) : ((run init es).2.flatMap Out.ids).Nodup := by
  have := ((IdInv.init .tab).run (okCtrRun_of h (fun h => by cases h))).nodup
  rw [List.nil_append, flat_ids] at this
  exact (List.nodup_append.1 this).1

/-- The same for the ids of schemas.  Partial: as for `C70_ids_partial`, and the request must find
nothing in the variable it does not initialise (`C70_junk_false`). -/
theorem C70_schema_ids_partial (es : List Ev) (h : TermOk es) (hj : NoJunk es) :
    ((run init es).2.flatMap Out.schemaIds).Nodup := by
  have := ((IdInv.init .sch).run (okCtrRun_of h (fun _ => hj))).nodup
  rw [List.nil_append, flat_schemaIds] at this
  exact (List.nodup_append.1 this).1

theorem TermOk.left {a b : List Ev} (h : TermOk (a ++ b)) : TermOk a :=
  fun es1 e es2 he => h es1 e (es2 ++ b) (by rw [he]; simp)

/-- Ids grow: those of a request begun after other ids were answered are larger than those.  Partial: as
for `C70_ids_partial`. -/
theorem C70_grow_partial (es es1 : List Ev) (i : Nat) (q : Req) (l : List Int) (h : TermOk es)
    (hb : BegunAt es i q es1) (hr : .replied i (.ids l) ∈ (run init es).2) :
    ∀ x ∈ (run init es1).2.flatMap Out.ids, ∀ y ∈ l, x < y := by
  obtain ⟨q', es1', n, t, p, hb', hl, hp, hresp⟩ := run_replied hr
  obtain ⟨e1, e2⟩ := begunAt_unique hb hb'
  subst e1; subst e2
  obtain ⟨es2, he, _⟩ := hb
  have hf : (run init es1).1.fresh = false := h es1 _ es2 he
  have hinv := (IdInv.init .tab).run (okCtrRun_of (TermOk.left (he ▸ h)) (fun h => by cases h))
  intro x hx y hy
  rw [← flat_ids] at hx
  have h1 := hinv.below x (List.mem_append_right _ hx)
  have h2 := hinv.toBase.next .tab hl hf
  have h3 := ((prepare_given (c := .tab) hp (fun h => by cases h)).2 y (by rw [hresp]; exact hy)).1
  omega

/-- A new id is larger than 60000, a new schema id larger than 50000: ids the coordinators use for
themselves are not given out.  Partial: as above. -/
theorem C70_range_partial (es : List Ev) (h : TermOk es) :
    (∀ x ∈ (run init es).2.flatMap Out.ids, 60000 < x) ∧
    (NoJunk es → ∀ x ∈ (run init es).2.flatMap Out.schemaIds, 50000 < x) := by
  have main : ∀ c, (c = .sch → NoJunk es) → ∀ i r, .replied i r ∈ (run init es).2 → ∀ x ∈ r.given c, Data.init.next c < x := by
    intro c hj i r hr x hx
    obtain ⟨q, es1, n, t, p, ⟨es2, he, _⟩, hl, hp, hresp⟩ := run_replied hr
    have hf : (run init es1).1.fresh = false := h es1 _ es2 he
    have hinv := (IdInv.init c).run (okCtrRun_of (TermOk.left (he ▸ h)) (fun h tn n j hm => hj h tn n j (by rw [he]; exact List.mem_append_left _ hm)))
    have h2 := hinv.toBase.next c hl hf
    have h3 := ((prepare_given (c := c) hp (fun hc tn n j e => hj hc tn n j (by rw [he, e]; simp))).2 x (by rw [hresp]; exact hx)).1
    have h4 : ∀ (b : List Ev) (s : State), s.data.next c ≤ (run s b).1.data.next c := by
      intro b
      induction b with
      | nil => intro s; exact Int.le_refl _
      | cons e b ih =>
        intro s
        refine Int.le_trans ?_ (ih (step s e).1)
        cases hd : s.dead with
        | true => rw [step_dead hd]; exact Int.le_refl _
        | false =>
          cases e with
          | begin r =>
            rw [step_begin hd]
            rcases begin_cases s r with ⟨_, e⟩ | ⟨n, t, er, hl, hp, e⟩ | ⟨n, t, p, hl, hp, e⟩ <;> rw [e] <;> exact Int.le_refl _
          | submit i => rw [step_submit hd]; unfold stepSubmit; split; exact Int.le_refl _; split <;> exact Int.le_refl _
          | fail i => rw [step_fail hd]; unfold stepFail; split; exact Int.le_refl _; split <;> exact Int.le_refl _
          | apply =>
            rw [step_apply hd]
            rcases apply_full s with ⟨_, e⟩ | ⟨i, inc, rest, hl, ⟨_, e⟩ | ⟨d, ha, ⟨th, _, _, e⟩ | ⟨_, e⟩⟩⟩
            · rw [e]; exact Int.le_refl _
            · rw [e]; exact Int.le_refl _
            · rw [e]; exact (execAll_ctr ha c).1
            · rw [e]; exact (execAll_ctr ha c).1
          | stepDown => rw [step_down hd]; exact Int.le_refl _
          | elect n => rw [step_elect hd]; split <;> exact Int.le_refl _
          | build =>
            rcases step_build hd with ⟨hf, n, hl, e⟩ | ⟨_, e⟩ <;> rw [e] <;> exact Int.le_refl _
          | restart n =>
            by_cases hl : s.leader = some n
            · rw [step_restart_leader hd hl]; exact Int.le_refl _
            · rw [step_restart_other hd hl]; exact Int.le_refl _
    have h5 := h4 es1 init
    have h6 : Data.init.next c ≤ (run init es1).1.data.next c := h5
    omega
  have mem : ∀ c x, x ∈ (run init es).2.flatMap (Out.given c) → ∃ i r, .replied i r ∈ (run init es).2 ∧ x ∈ r.given c := by
    intro c x hx
    obtain ⟨o, ho, hx⟩ := List.mem_flatMap.1 hx
    cases o <;> try cases hx
    exact ⟨_, _, ho, hx⟩
  constructor
  · intro x hx
    rw [← flat_ids] at hx
    obtain ⟨i, r, h1, h2⟩ := mem _ _ hx
    exact main .tab (fun h => by cases h) i r h1 x h2
  · intro hj x hx
    rw [← flat_schemaIds] at hx
    obtain ⟨i, r, h1, h2⟩ := mem _ _ hx
    exact main .sch (fun _ => hj) i r h1 x h2

/-- In every run each answer belongs to one request of the run and fits it: as many ids as asked for, in a
row, or the ids the caller chose, or a plain success. -/
theorem C70_answers (es : List Ev) (i : Nat) (r : Resp) (h : .replied i r ∈ (run init es).2) :
    ∃ q es1, BegunAt es i q es1 ∧ Fitting q r := by
  obtain ⟨q, es1, n, t, p, hb, _, hp, hresp⟩ := run_replied h
  exact ⟨q, es1, hb, hresp ▸ prepare_fitting hp⟩

/-- In every run a request is answered at most once. -/
theorem C70_once (es : List Ev) (i : Nat) : ((run init es).2.filter (Out.answers i)).length ≤ 1 :=
  (answers_le i es init).1

/-- What a coordinator that leads answers at once to a request for ids: it takes the request exactly if
the schema exists and the number asked for is between 1 and 100000. -/
theorem C70_taken (es : List Ev) (sid c : Int) (ps : List Nat) (s : State) (hs : s = (run init es).1)
    (hl : s.leader.isSome) (hd : s.dead = false) :
    (((step s (.begin (.createId sid))).2 = .begun s.ths.length) ↔ (get s.data.schemas sid).isSome) ∧
    (((step s (.begin (.createIds sid c))).2 = .begun s.ths.length) ↔
      (get s.data.schemas sid).isSome ∧ 0 < c ∧ c ≤ 100000) ∧
    (((step s (.begin (.generateIds sid ps))).2 = .begun s.ths.length) ↔
      (get s.data.schemas sid).isSome ∧ ∀ n ∈ ps, n < 100000) := by
  have key : ∀ q, (step s (.begin q)).2 = .begun s.ths.length ↔
      ∀ n, s.leader = some n → ∃ t p, prepare s.data (s.temps n) q = (t, .ok p) := by
    intro q
    rw [step_begin hd]
    rcases begin_cases s q with ⟨h0, e⟩ | ⟨n, t, er, hl', hp, e⟩ | ⟨n, t, p, hl', hp, e⟩
    · rw [h0] at hl; cases hl
    · rw [e]
      refine ⟨nofun, fun h => ?_⟩
      obtain ⟨t', p, h⟩ := h n hl'
      rw [hp] at h; cases h
    · rw [e]
      refine ⟨fun _ m hm => ?_, fun _ => rfl⟩
      rw [hm] at hl'; cases hl'
      exact ⟨t, p, hp⟩
  obtain ⟨n, hn⟩ := Option.isSome_iff_exists.1 hl
  have key : ∀ q, (step s (.begin q)).2 = .begun s.ths.length ↔ ∃ t p, prepare s.data (s.temps n) q = (t, .ok p) := by
    intro q
    rw [key]
    refine ⟨fun h => h n hn, fun h m hm => ?_⟩
    rw [hn] at hm; cases hm; exact h
  have some_or : ∀ {α : Type} (o : Option α), o.isNone = true ∨ o.isSome = true := by
    intro α o; cases o <;> simp
  have hno : ∀ {α : Type} {o : Option α}, o.isNone = true → ¬ o.isSome = true := by
    intro α o; cases o <;> simp
  have hso : ∀ {α : Type} {o : Option α}, o.isSome = true → ¬ o.isNone = true := by
    intro α o; cases o <;> simp
  have take : ∀ (t : Temp) (c : Int), (0 < c ∧ c ≤ 100000 → ∃ a l, takeIds t c = ({ t with nextTable := some (last t.nextTable + c) }, a :: l)) ∧
      (¬ (0 < c ∧ c ≤ 100000) → takeIds t c = (t, [])) := by
    intro t c
    unfold takeIds
    constructor
    · intro hc
      rw [if_neg (by omega)]
      obtain ⟨m, hm⟩ : ∃ m, c.toNat = m + 1 := ⟨c.toNat - 1, by omega⟩
      rw [hm, idsAfter, List.range_succ_eq_map, List.map_cons]
      exact ⟨_, _, rfl⟩
    · intro hc
      rw [if_pos (by omega)]
  refine ⟨?_, ?_, ?_⟩
  · rw [key]
    dsimp only [prepare]
    unfold createId
    rcases some_or (get s.data.schemas sid) with h | h
    · rw [if_pos h]; exact ⟨fun h => by (obtain ⟨_, _, h⟩ := h; cases h), fun h' => absurd h' (hno h)⟩
    · rw [if_neg (hso h)]; exact ⟨fun _ => h, fun _ => ⟨_, _, rfl⟩⟩
  · rw [key]
    dsimp only [prepare]
    unfold createIds
    by_cases h1 : c ≤ 0
    · rw [if_pos h1]; exact ⟨fun h => by (obtain ⟨_, _, h⟩ := h; cases h), fun h' => absurd h1 (by omega)⟩
    · rw [if_neg h1]
      rcases some_or (get s.data.schemas sid) with h | h
      · rw [if_pos h]; exact ⟨fun h => by (obtain ⟨_, _, h⟩ := h; cases h), fun h' => absurd h'.1 (hno h)⟩
      · rw [if_neg (hso h)]
        by_cases h2 : c ≤ 100000
        · obtain ⟨a, l, e⟩ := (take (s.temps n) c).1 ⟨by omega, h2⟩
          rw [e]
          exact ⟨fun _ => ⟨h, by omega, h2⟩, fun _ => ⟨_, _, rfl⟩⟩
        · rw [(take (s.temps n) c).2 (by omega)]
          exact ⟨fun h => by (obtain ⟨_, _, h⟩ := h; cases h), fun h' => absurd h'.2.2 h2⟩
  · rw [key]
    dsimp only [prepare]
    unfold generateIds
    rcases some_or (get s.data.schemas sid) with h | h
    · rw [if_pos h]; exact ⟨fun h => by (obtain ⟨_, _, h⟩ := h; cases h), fun h' => absurd h'.1 (hno h)⟩
    · rw [if_neg (hso h)]
      have loop : ∀ (ps : List Nat) (t : Temp) (l : List Int) (ws : List Write),
          (∃ t' x, generateLoop t ps l ws = (t', .ok x)) ↔ ∀ n ∈ ps, n < 100000 := by
        intro ps
        induction ps with
        | nil => intro t l ws; exact ⟨fun _ => by simp, fun _ => ⟨_, _, rfl⟩⟩
        | cons m ps ih =>
          intro t l ws
          unfold generateLoop
          by_cases h2 : m < 100000
          · obtain ⟨a, l', e⟩ := (take t (1 + m)).1 ⟨by omega, by omega⟩
            rw [e]
            dsimp only
            rw [ih]
            simp [h2]
          · rw [(take t (1 + m)).2 (by omega)]
            refine ⟨fun h => by (obtain ⟨_, _, h⟩ := h; cases h), fun h' => absurd (h' m (by simp)) h2⟩
      cases hg : generateLoop (s.temps n) ps [] [] with
      | mk t1 res =>
        cases res with
        | error e =>
          refine ⟨fun h => by (obtain ⟨_, _, h⟩ := h; cases h), fun h' => ?_⟩
          obtain ⟨t', x, h3⟩ := (loop ps (s.temps n) [] []).2 h'.2
          rw [hg] at h3; cases h3
        | ok x =>
          obtain ⟨l, ws⟩ := x
          exact ⟨fun _ => ⟨h, (loop ps (s.temps n) [] []).1 ⟨_, _, hg⟩⟩, fun _ => ⟨_, _, rfl⟩⟩

/-! ## Examples -/

/-- Two clients ask for ids at the same time, the leader is lost with an entry in the log, another one
takes over. -/
def idsExample : List Ev :=
  [.elect 0, .build, .begin (.createIds 2 3), .begin (.createId 2), .submit 1, .apply, .submit 0, .stepDown, .apply,
   .elect 1, .build, .begin (.generateIds 2 [1, 0]), .submit 2, .apply]

example : (run init idsExample).2.flatMap Out.ids = [60004, 60001, 60002, 60003, 60005, 60006, 60007] := by decide +kernel

/-- Check every event of a run, for examples. -/
def allSteps (f : State → Ev → Bool) (s : State) : List Ev → Bool
  | [] => true
  | e :: es => f s e && allSteps f (step s e).1 es

theorem allSteps_at {f : State → Ev → Bool} {es : List Ev} (h : allSteps f init es = true) :
    ∀ es1 e es2, es = es1 ++ e :: es2 → f (run init es1).1 e = true := by
  have key : ∀ (b : List Ev) (s : State), allSteps f s b = true → ∀ es1 e es2, b = es1 ++ e :: es2 →
      f (run s es1).1 e = true := by
    intro b
    induction b with
    | nil => intro s _ es1 e es2 h; simp at h
    | cons x b ih =>
      intro s h es1 e es2 he
      rw [allSteps, Bool.and_eq_true] at h
      cases es1 with
      | nil =>
        obtain ⟨h1, h2⟩ := List.cons.inj he
        subst h1
        exact h.1
      | cons y es1 =>
        obtain ⟨h1, h2⟩ := List.cons.inj he
        subst h1
        exact ih (step s x).1 h.2 es1 e es2 h2
  exact key es init h

theorem TermOk.of (es : List Ev) (h : allSteps okTerm init es = true) : TermOk es := by
  intro es1 e es2 he
  have := allSteps_at h es1 e es2 he
  cases e <;> dsimp only [okTerm] at * <;> try trivial
  · simpa using this
  · intro th hi
    rw [hi] at this
    simpa using this

example : TermOk idsExample := .of _ (by decide +kernel)

/-! ## What the code does otherwise -/

/-- The claim without its condition. -/
def C70Full : Prop := ∀ es, ((run init es).2.flatMap Out.ids).Nodup

/-- A new leader takes requests before it has rebuilt its maps: the ids of a coordinator that led before
(here of its own earlier term) are given out again. -/
theorem C70_window_false : ¬ C70Full := by
  intro h
  have := h [.elect 0, .build, .begin (.createId 2), .submit 0, .apply, .stepDown,
    .elect 1, .build, .begin (.createId 2), .submit 1, .apply, .stepDown,
    .elect 0, .begin (.createId 2), .submit 2, .apply]
  revert this
  decide +kernel

/-- A request checked in one term writes its entry in a later one: its ids have been given to another
request. -/
theorem C70_stale_false : ¬ ∀ es, (∀ es1 e es2, es = es1 ++ e :: es2 → match e with
    | .begin _ => (run init es1).1.fresh = false
    | _ => True) → ((run init es).2.flatMap Out.ids).Nodup := by
  intro h
  have := h [.elect 0, .build, .begin (.createId 2), .stepDown, .elect 0, .build, .begin (.createId 2),
    .submit 1, .apply, .submit 0, .apply] ?_
  · revert this
    decide +kernel
  · intro es1 e es2 he
    have := allSteps_at (f := fun s e => match e with | .begin _ => !s.fresh | _ => true) (by decide +kernel) es1 e es2 he
    cases e <;> dsimp only at * <;> try trivial
    simpa using this

/-- The id of a new schema is read from a variable that is not initialised: a value left in memory becomes
the id, here that of a schema that exists, which is lost with all it holds. -/
theorem C70_junk_false : ¬ ∀ es, TermOk es → ((run init es).2.flatMap Out.schemaIds).Nodup := by
  intro h
  have := h [.elect 0, .build, .begin (.createSchema 0 [97] 0), .submit 0, .apply,
    .begin (.createSchema 0 [98] 50001), .submit 1, .apply] (.of _ (by decide +kernel))
  revert this
  decide +kernel

end Verif.Meta
