import Verif.Job.Spec

/-!
# Jobs of the coordinator: what changes of a job and what does not (lemmas)
-/

namespace Verif.Job

/-! ## Conditions -/

theorem pass_iff (v : View) (c : Check) : c.pass v = true ↔ c.Holds v := by
  cases c with
  | none => simp [Check.pass, Check.Holds]
  | region c =>
    simp only [Check.pass, Check.Holds]
    cases hr : v.regions c.region with
    | none => simp
    | some r =>
      simp only [Bool.and_eq_true, Option.some.injEq, exists_eq_left']
      constructor
      · rintro ⟨⟨⟨⟨h1, h2⟩, h3⟩, h4⟩, h5⟩
        refine ⟨?_, ?_, ?_, ?_, by simpa using h5⟩
        · intro st hst; rw [hst] at h1; simpa using (of_decide_eq_true h1).symm
        · intro hh; simpa [hh] using h2
        · intro g hg; rw [hg] at h3; exact (of_decide_eq_true h3).symm
        · intro hp
          rcases Bool.or_eq_true_iff.mp h4 with h | h
          · exact absurd (List.isEmpty_iff.mp h) hp
          · exact (List.isPerm_iff.mp h).symm
      · rintro ⟨h1, h2, h3, h4, h5⟩
        refine ⟨⟨⟨⟨?_, ?_⟩, ?_⟩, ?_⟩, by simpa using h5⟩
        · cases hst : c.state with
          | none => rfl
          | some st => exact decide_eq_true (h1 st hst).symm
        · cases hh : c.healthy with
          | false => rfl
          | true => simpa using h2 hh
        · cases hg : c.range with
          | none => rfl
          | some g => exact decide_eq_true (h3 g hg).symm
        · cases hp : c.peers with
          | nil => rfl
          | cons a l =>
            have h := h4 (by rw [hp]; simp)
            rw [hp] at h
            exact Bool.or_eq_true_iff.mpr (Or.inr (List.isPerm_iff.mpr h.symm))
  | store c =>
    simp only [Check.pass, Check.Holds]
    cases hm : v.metric c.store c.region with
    | none => simp
    | some m =>
      simp only [Bool.and_eq_true, Option.some.injEq, exists_eq_left', Option.isSome_iff_exists]
      constructor
      · rintro ⟨⟨h1, h2⟩, h3⟩
        refine ⟨h3, ?_, ?_⟩
        · intro st hst; rw [hst] at h1; exact (of_decide_eq_true h1).symm
        · intro n hn
          rw [hn] at h2
          simp only [Bool.and_eq_true, Bool.or_eq_true, decide_eq_true_eq] at h2
          exact ⟨h2.1.1, h2.1.2, fun h => (h2.2.resolve_left h).symm⟩
      · rintro ⟨h3, h1, h2⟩
        refine ⟨⟨?_, ?_⟩, h3⟩
        · cases hst : c.state with
          | none => rfl
          | some st => exact decide_eq_true (h1 st hst).symm
        · cases hn : c.index with
          | none => rfl
          | some n =>
            have h := h2 n hn
            simp only [Bool.and_eq_true, Bool.or_eq_true, decide_eq_true_eq]
            refine ⟨⟨h.1, h.2.1⟩, ?_⟩
            by_cases h0 : n = 0
            · exact Or.inl h0
            · exact Or.inr (h.2.2 h0).symm

theorem accepted_iff (ty : CmdType) (c : Code) : accepted ty c = true ↔ Accepts ty c := by
  constructor
  · intro h
    cases c <;> simp only [accepted, decide_eq_true_eq] at h
    · exact .ok _
    · exact .again _
    · subst h; exact .create
    · subst h; exact .deleting
    · subst h; exact .deleted
    · subst h; exact .split
    · subst h; exact .merge
    · subst h; exact .change
    · cases h
  · intro h; cases h <;> rfl

/-! ## Shapes -/

/-- A task is like another: the same conditions and commands, perhaps for other stores. -/
structure TaskLike (t0 t : Task) : Prop where
  drops : t.drops = t0.drops
  cmds : (t.cmds.map Cmd.plain).Perm (t0.cmds.map Cmd.plain)
  keep : ∀ o0 ∈ t0.ops, ∃ o ∈ t.ops, o.check = o0.check
  only : ∀ o ∈ t.ops, o.check = .none ∨ ∃ o0 ∈ t0.ops, o0.check = o.check
  single : ∀ o ∈ t.ops, o.cmds.length ≤ 1
  place : ∀ o ∈ t.ops, ∀ c ∈ o.cmds, ∃ o0 ∈ t0.ops, ∃ c0 ∈ o0.cmds, c0.plain = c.plain ∧
    (c.type.leader = false → o0.store = o.store)

/-- A job as it is made. -/
structure Sound (j : Job) : Prop where
  ids : ((j.tasks.flatMap Task.cmds).map Cmd.id).Nodup
  alone : ∀ t ∈ j.tasks, ∀ c ∈ t.cmds, c.type.leader = true → t.cmds.length = 1
  single : ∀ t ∈ j.tasks, ∀ o ∈ t.ops, o.cmds.length ≤ 1
  fresh : ∀ t ∈ j.tasks, ∀ o ∈ t.ops, o.success = false
  next : j.next = 0

/-- A job is like another. -/
structure Like (j0 j : Job) : Prop where
  id : j.id = j0.id
  kind : j.kind = j0.kind
  length : j.tasks.length = j0.tasks.length
  task : ∀ (i : Nat) t0 t, j0.tasks[i]? = some t0 → j.tasks[i]? = some t → TaskLike t0 t

theorem TaskLike.refl {t : Task} (h : ∀ o ∈ t.ops, o.cmds.length ≤ 1) : TaskLike t t :=
  ⟨rfl, List.Perm.refl _, fun o ho => ⟨o, ho, rfl⟩, fun o ho => Or.inr ⟨o, ho, rfl⟩, h,
   fun o ho c hc => ⟨o, ho, c, hc, rfl, fun _ => rfl⟩⟩

theorem Like.refl {j : Job} (h : Sound j) : Like j j :=
  ⟨rfl, rfl, rfl, fun i t0 t h0 h1 => by
    rw [h0] at h1; cases h1
    exact TaskLike.refl (h.single t0 (List.mem_of_getElem? h0))⟩

theorem plain_id {c c' : Cmd} (h : c.plain = c'.plain) : c.id = c'.id := by
  have := congrArg Cmd.id h; exact this

theorem plain_type {c c' : Cmd} (h : c.plain = c'.plain) : c.type = c'.type := by
  have := congrArg Cmd.type h; exact this

theorem TaskLike.mem {t0 t : Task} (h : TaskLike t0 t) {c : Cmd} (hc : c ∈ t.cmds) :
    ∃ c0 ∈ t0.cmds, c0.plain = c.plain := by
  have := (h.cmds.mem_iff (a := c.plain)).mp (List.mem_map_of_mem hc)
  obtain ⟨c0, h0, h1⟩ := List.mem_map.mp this
  exact ⟨c0, h0, h1⟩

theorem TaskLike.mem' {t0 t : Task} (h : TaskLike t0 t) {c : Cmd} (hc : c ∈ t0.cmds) :
    ∃ c0 ∈ t.cmds, c0.plain = c.plain := by
  have := (h.cmds.mem_iff (a := c.plain)).mpr (List.mem_map_of_mem hc)
  obtain ⟨c0, h0, h1⟩ := List.mem_map.mp this
  exact ⟨c0, h0, h1⟩

theorem TaskLike.len {t0 t : Task} (h : TaskLike t0 t) : t.cmds.length = t0.cmds.length := by
  have := h.cmds.length_eq
  simpa using this

theorem TaskLike.holds {t0 t : Task} (h : TaskLike t0 t) {v : View} (hp : ∀ o ∈ t.ops, o.check.Holds v) :
    ∀ o ∈ t0.ops, o.check.Holds v := by
  intro o ho
  obtain ⟨o', ho', he⟩ := h.keep o ho
  rw [← he]; exact hp o' ho'

theorem TaskLike.holds' {t0 t : Task} (h : TaskLike t0 t) {v : View} (hp : ∀ o ∈ t0.ops, o.check.Holds v) :
    ∀ o ∈ t.ops, o.check.Holds v := by
  intro o ho
  rcases h.only o ho with hn | ⟨o', ho', he⟩
  · rw [hn]; trivial
  · rw [← he]; exact hp o' ho'

/-- Equal ids in a list without repeated ids. -/
theorem nodup_inj {α : Type} {f : α → Nat} : ∀ {l : List α}, (l.map f).Nodup → ∀ {a b : α}, a ∈ l → b ∈ l →
    f a = f b → a = b
  | [], _, _, _, h, _, _ => nomatch h
  | x :: l, hn, a, b, ha, hb, he => by
    rw [List.map_cons, List.nodup_cons] at hn
    rcases List.mem_cons.mp ha with rfl | ha <;> rcases List.mem_cons.mp hb with rfl | hb
    · rfl
    · exact absurd (List.mem_map.mpr ⟨b, hb, he.symm⟩) hn.1
    · rename_i ha'; exact absurd (List.mem_map.mpr ⟨a, ha', he⟩) hn.1
    · exact nodup_inj hn.2 ha hb he

/-- The step of a command. -/
theorem step_inj : ∀ {l : List Task}, ((l.flatMap Task.cmds).map Cmd.id).Nodup → ∀ {i k : Nat} {t u : Task} {c d : Cmd},
    l[i]? = some t → l[k]? = some u → c ∈ t.cmds → d ∈ u.cmds → c.id = d.id → i = k ∧ c = d
  | [], _, _, _, _, _, _, _, h, _, _, _, _ => by simp at h
  | w :: l, hn, i, k, t, u, c, d, hi, hk, hc, hd, he => by
    rw [List.flatMap_cons, List.map_append, List.nodup_append] at hn
    match i, k with
    | 0, 0 =>
      simp at hi hk; subst hi; subst hk
      exact ⟨rfl, nodup_inj hn.1 hc hd he⟩
    | 0, k + 1 =>
      simp at hi hk; subst hi
      have hm : d ∈ l.flatMap Task.cmds := List.mem_flatMap.mpr ⟨u, List.mem_of_getElem? hk, hd⟩
      exact absurd he (hn.2.2 _ (List.mem_map_of_mem hc) _ (List.mem_map_of_mem hm))
    | i + 1, 0 =>
      simp at hi hk; subst hk
      have hm : c ∈ l.flatMap Task.cmds := List.mem_flatMap.mpr ⟨t, List.mem_of_getElem? hi, hc⟩
      exact absurd he.symm (hn.2.2 _ (List.mem_map_of_mem hd) _ (List.mem_map_of_mem hm))
    | i + 1, k + 1 =>
      simp at hi hk
      obtain ⟨h1, h2⟩ := step_inj hn.2.1 hi hk hc hd he
      exact ⟨by omega, h2⟩

theorem Like.get {j0 j : Job} (h : Like j0 j) {i : Nat} {t : Task} (ht : j.tasks[i]? = some t) :
    ∃ t0, j0.tasks[i]? = some t0 ∧ TaskLike t0 t := by
  have hlt : i < j0.tasks.length := by rw [← h.length]; exact (List.getElem?_eq_some_iff.mp ht).1
  exact ⟨j0.tasks[i], List.getElem?_eq_getElem hlt, h.task i _ _ (List.getElem?_eq_getElem hlt) ht⟩

/-- Putting a like task in its place. -/
theorem Like.set {j0 j : Job} (h : Like j0 j) {i n : Nat} {t0 t' : Task} (h0 : j0.tasks[i]? = some t0) (ht : TaskLike t0 t') :
    Like j0 { j with tasks := j.tasks.set i t', next := n } := by
  refine ⟨h.id, h.kind, by simp [h.length], ?_⟩
  intro k u0 u hu0 hu
  rw [List.getElem?_set] at hu
  by_cases hik : i = k
  · subst hik
    rw [h0] at hu0; cases hu0
    rw [if_pos rfl] at hu
    split at hu
    · cases hu; exact ht
    · cases hu
  · rw [if_neg hik] at hu
    exact h.task k u0 u hu0 hu

/-! ## Marking, failing, moving -/

theorem has_iff {o : Op} {n : Nat} : o.has n = true ↔ ∃ c ∈ o.cmds, c.id = n := by
  simp [Op.has, List.any_eq_true]

theorem task_has_iff {t : Task} {n : Nat} : t.has n = true ↔ ∃ c ∈ t.cmds, c.id = n := by
  simp only [Task.has, List.any_eq_true, has_iff, Task.cmds, List.mem_flatMap]
  constructor
  · rintro ⟨o, ho, c, hc, he⟩; exact ⟨c, ⟨o, ho, hc⟩, he⟩
  · rintro ⟨c, ⟨o, ho, hc⟩, he⟩; exact ⟨o, ho, c, hc, he⟩

theorem find_some {j : Job} {n i : Nat} (h : j.find n = some i) : ∃ t, j.tasks[i]? = some t ∧ t.has n = true := by
  obtain ⟨hlt, hp, _⟩ := List.findIdx?_eq_some_iff_getElem.mp h
  exact ⟨_, List.getElem?_eq_getElem hlt, hp⟩

theorem find_isSome {j : Job} {n i : Nat} {t : Task} (ht : j.tasks[i]? = some t) (hh : t.has n = true) : ∃ k, j.find n = some k := by
  cases hf : j.find n with
  | some k => exact ⟨k, rfl⟩
  | none =>
    have := List.findIdx?_eq_none_iff.mp hf t (List.mem_of_getElem? ht)
    rw [hh] at this; cases this

theorem flatMap_map_cmds (f : Op → Op) (h : ∀ o, (f o).cmds = o.cmds) (l : List Op) :
    (l.map f).flatMap Op.cmds = l.flatMap Op.cmds := by
  induction l with
  | nil => rfl
  | cons o l ih => simp [h, ih]

theorem mark_cmds (t : Task) (n : Nat) : (t.mark n).cmds = t.cmds := by
  unfold Task.mark Task.cmds
  exact flatMap_map_cmds _ (fun o => by split <;> rfl) _

theorem TaskLike.mark {t0 t : Task} (h : TaskLike t0 t) (n : Nat) : TaskLike t0 (t.mark n) := by
  refine ⟨h.drops, by rw [mark_cmds]; exact h.cmds, ?_, ?_, ?_, ?_⟩
  · intro o0 ho0
    obtain ⟨o, ho, he⟩ := h.keep o0 ho0
    refine ⟨_, List.mem_map_of_mem ho, ?_⟩
    split <;> exact he
  · intro o ho
    obtain ⟨o', ho', rfl⟩ := List.mem_map.mp ho
    have := h.only o' ho'
    split <;> exact this
  · intro o ho
    obtain ⟨o', ho', rfl⟩ := List.mem_map.mp ho
    have := h.single o' ho'
    split <;> exact this
  · intro o ho c hc
    obtain ⟨o', ho', rfl⟩ := List.mem_map.mp ho
    have h1 : c ∈ o'.cmds := by split at hc <;> exact hc
    have := h.place o' ho' c h1
    split <;> exact this

theorem onFirst_mem (f : Op → Op) (n : Nat) : ∀ (l : List Op) (o : Op), o ∈ Task.onFirst f n l →
    o ∈ l ∨ ∃ o' ∈ l, o = f o'
  | [], _, h => nomatch h
  | a :: l, o, h => by
    unfold Task.onFirst at h
    split at h
    · rcases List.mem_cons.mp h with rfl | h
      · exact Or.inr ⟨a, List.mem_cons_self .., rfl⟩
      · exact Or.inl (List.mem_cons_of_mem _ h)
    · rcases List.mem_cons.mp h with rfl | h
      · exact Or.inl (List.mem_cons_self ..)
      · rcases onFirst_mem f n l o h with h | ⟨o', h, he⟩
        · exact Or.inl (List.mem_cons_of_mem _ h)
        · exact Or.inr ⟨o', List.mem_cons_of_mem _ h, he⟩

theorem onFirst_mem' (f : Op → Op) (n : Nat) : ∀ (l : List Op) (o : Op), o ∈ l →
    o ∈ Task.onFirst f n l ∨ f o ∈ Task.onFirst f n l
  | [], _, h => nomatch h
  | a :: l, o, h => by
    unfold Task.onFirst
    split
    · rcases List.mem_cons.mp h with rfl | h
      · exact Or.inr (List.mem_cons_self ..)
      · exact Or.inl (List.mem_cons_of_mem _ h)
    · rcases List.mem_cons.mp h with rfl | h
      · exact Or.inl (List.mem_cons_self ..)
      · rcases onFirst_mem' f n l o h with h | h
        · exact Or.inl (List.mem_cons_of_mem _ h)
        · exact Or.inr (List.mem_cons_of_mem _ h)

theorem failed_plain (o : Op) (n : Nat) : (o.failed n).cmds.map Cmd.plain = o.cmds.map Cmd.plain := by
  unfold Op.failed
  rw [List.map_map]
  apply List.map_congr_left
  intro c _
  show (if c.id = n then { c with retry := true } else c).plain = c.plain
  split <;> rfl

theorem failed_len (o : Op) (n : Nat) : (o.failed n).cmds.length = o.cmds.length := by simp [Op.failed]

theorem onFirst_plain (n : Nat) (l : List Op) :
    ((Task.onFirst (fun o => o.failed n) n l).flatMap Op.cmds).map Cmd.plain = (l.flatMap Op.cmds).map Cmd.plain := by
  induction l with
  | nil => rfl
  | cons o l ih =>
    unfold Task.onFirst
    split
    · simp only [List.flatMap_cons, List.map_append, failed_plain]
    · simp only [List.flatMap_cons, List.map_append, ih]

theorem TaskLike.failed {t0 t : Task} (h : TaskLike t0 t) (n : Nat) :
    TaskLike t0 { t with ops := Task.onFirst (fun o => o.failed n) n t.ops } := by
  refine ⟨h.drops, ?_, ?_, ?_, ?_, ?_⟩
  · show (((Task.onFirst _ n t.ops).flatMap Op.cmds).map Cmd.plain).Perm _
    rw [onFirst_plain]; exact h.cmds
  · intro o0 ho0
    obtain ⟨o, ho, he⟩ := h.keep o0 ho0
    rcases onFirst_mem' (fun o => o.failed n) n _ _ ho with hm | hm
    · exact ⟨o, hm, he⟩
    · exact ⟨_, hm, he⟩
  · intro o ho
    rcases onFirst_mem _ _ _ _ ho with hm | ⟨o', hm, rfl⟩
    · exact h.only o hm
    · exact h.only o' hm
  · intro o ho
    rcases onFirst_mem _ _ _ _ ho with hm | ⟨o', hm, rfl⟩
    · exact h.single o hm
    · show (o'.failed n).cmds.length ≤ 1
      rw [failed_len]; exact h.single o' hm
  · intro o ho c hc
    rcases onFirst_mem _ _ _ _ ho with hm | ⟨o', hm, rfl⟩
    · exact h.place o hm c hc
    · have hm' : c.plain ∈ o'.cmds.map Cmd.plain := by
        rw [← failed_plain o' n]; exact List.mem_map_of_mem hc
      obtain ⟨c', hc', he⟩ := List.mem_map.mp hm'
      obtain ⟨o0, h0, c0, hc0, h1, h2⟩ := h.place o' hm c' hc'
      exact ⟨o0, h0, c0, hc0, h1.trans he, fun hl => h2 (by rw [plain_type he]; exact hl)⟩

/-- Where a moved command goes. -/
theorem addTo_cases (s : Nat) (x : Cmd) : ∀ l : List Op,
    (∃ p q r, l = p ++ q :: r ∧ addTo s x l = p ++ { q with cmds := q.cmds ++ [x] } :: r) ∨
    addTo s x l = l ++ [⟨s, .none, [x], false, 0⟩]
  | [] => Or.inr rfl
  | a :: l => by
    unfold addTo
    split
    · exact Or.inl ⟨[], a, l, rfl, rfl⟩
    · rcases addTo_cases s x l with ⟨p, q, r, h1, h2⟩ | h
      · exact Or.inl ⟨a :: p, q, r, by rw [h1]; rfl, by rw [h2]; rfl⟩
      · exact Or.inr (by rw [h]; rfl)

theorem modify_mid {α : Type} (f : α → α) : ∀ (p : List α) (q : α) (r : List α),
    (p ++ q :: r).modify p.length f = p ++ f q :: r
  | [], _, _ => rfl
  | a :: p, q, r => by
    show a :: (p ++ q :: r).modify p.length f = _
    rw [modify_mid f p q r]; rfl

theorem getElem?_mid {α : Type} : ∀ (l : List α) (i : Nat) (a : α), l[i]? = some a → ∃ p r, l = p ++ a :: r ∧ p.length = i
  | [], _, _, h => by simp at h
  | b :: l, 0, a, h => by simp at h; exact ⟨[], l, by rw [h]; rfl, rfl⟩
  | b :: l, i + 1, a, h => by
    simp at h
    obtain ⟨p, r, h1, h2⟩ := getElem?_mid l i a h
    exact ⟨b :: p, r, by rw [h1]; rfl, by simp [h2]⟩

/-- What becomes of the operations when the only command of a task is moved. -/
theorem move_ops {t t' : Task} {n s : Nat} {x : Cmd} (hx : t.cmds = [x]) (hm : t.move n s = some t') :
    t'.drops = t.drops ∧ t'.cmds = [x] ∧
    (∀ o ∈ t.ops, ∃ o' ∈ t'.ops, o'.check = o.check) ∧
    (∀ o' ∈ t'.ops, (o'.check = .none ∧ o'.success = false) ∨ ∃ o ∈ t.ops, o.check = o'.check ∧ o.success = o'.success) ∧
    (∀ o' ∈ t'.ops, o'.cmds = [] ∨ o'.cmds = [x]) := by
  unfold Task.move at hm
  cases hf : t.ops.findIdx? (fun o => o.has n) with
  | none => rw [hf] at hm; cases hm
  | some i =>
    simp only [hf] at hm
    cases ho : t.ops[i]? with
    | none => rw [ho] at hm; cases hm
    | some o =>
      simp only [ho] at hm
      cases hk : o.cmds.findIdx? (fun y => decide (y.id = n)) with
      | none => rw [hk] at hm; cases hm
      | some k =>
        simp only [hk] at hm
        cases hc : o.cmds[k]? with
        | none => rw [hc] at hm; cases hm
        | some y =>
          simp only [hc, Option.some.injEq] at hm
          obtain ⟨p, r, hpr, hlen⟩ := getElem?_mid _ _ _ ho
          have hfl : p.flatMap Op.cmds ++ (o.cmds ++ r.flatMap Op.cmds) = [x] := by
            have : t.cmds = p.flatMap Op.cmds ++ (o.cmds ++ r.flatMap Op.cmds) := by
              unfold Task.cmds; rw [hpr]; simp
            rw [← this, hx]
          have hne : o.cmds ≠ [] := by intro h; rw [h] at hc; simp at hc
          have hlen1 : (p.flatMap Op.cmds).length + (o.cmds.length + (r.flatMap Op.cmds).length) = 1 := by
            have := congrArg List.length hfl
            simpa using this
          have hol : 0 < o.cmds.length := List.length_pos_iff.mpr hne
          have hp0 : p.flatMap Op.cmds = [] := List.length_eq_zero_iff.mp (by omega)
          have hr0 : r.flatMap Op.cmds = [] := List.length_eq_zero_iff.mp (by omega)
          have hox : o.cmds = [x] := by rw [hp0, hr0] at hfl; simpa using hfl
          have hk0 : k = 0 := by
            have := (List.getElem?_eq_some_iff.mp hc).1
            rw [hox] at this; simpa using this
          have hyx : y = x := by rw [hk0, hox] at hc; simpa using hc.symm
          subst hk0; subst hyx
          have hpe : ∀ q ∈ p, q.cmds = [] := fun q hq => List.flatMap_eq_nil_iff.mp hp0 q hq
          have hre : ∀ q ∈ r, q.cmds = [] := fun q hq => List.flatMap_eq_nil_iff.mp hr0 q hq
          subst hm
          have key : ∀ ops', (addTo s y t.ops).modify i (fun o => { o with cmds := o.cmds.eraseIdx 0 }) = ops' →
              ops'.flatMap Op.cmds = [y] ∧ (∀ a ∈ t.ops, ∃ o' ∈ ops', o'.check = a.check) ∧
              (∀ o' ∈ ops', (o'.check = .none ∧ o'.success = false) ∨ ∃ a ∈ t.ops, a.check = o'.check ∧ a.success = o'.success) ∧
              (∀ o' ∈ ops', o'.cmds = [] ∨ o'.cmds = [y]) := by
            intro ops' hops
            rcases addTo_cases s y t.ops with ⟨p', q, r', h1, h2⟩ | h2
            · rw [hpr] at h1
              rcases List.append_eq_append_iff.mp h1 with ⟨a, ha1, ha2⟩ | ⟨a, ha1, ha2⟩
              · cases a with
                | nil =>
                  simp at ha1 ha2
                  obtain ⟨rfl, rfl⟩ := ha2
                  subst ha1
                  rw [h2, ← hlen, modify_mid] at hops
                  subst hops
                  have hc2 : (o.cmds ++ [y]).eraseIdx 0 = [y] := by rw [hox]; rfl
                  simp only [hc2]
                  refine ⟨?_, ?_, ?_, ?_⟩
                  · rw [List.flatMap_append, hp0, List.flatMap_cons, hr0]; rfl
                  · intro a ha
                    rw [hpr] at ha
                    rcases List.mem_append.mp ha with ha | ha
                    · exact ⟨a, List.mem_append_left _ ha, rfl⟩
                    · rcases List.mem_cons.mp ha with rfl | ha
                      · exact ⟨_, List.mem_append_right _ (List.mem_cons_self ..), rfl⟩
                      · exact ⟨a, List.mem_append_right _ (List.mem_cons_of_mem _ ha), rfl⟩
                  · intro a ha
                    rw [hpr]
                    rcases List.mem_append.mp ha with ha | ha
                    · exact Or.inr ⟨a, List.mem_append_left _ ha, rfl, rfl⟩
                    · rcases List.mem_cons.mp ha with rfl | ha
                      · exact Or.inr ⟨o, List.mem_append_right _ (List.mem_cons_self ..), rfl, rfl⟩
                      · exact Or.inr ⟨a, List.mem_append_right _ (List.mem_cons_of_mem _ ha), rfl, rfl⟩
                  · intro a ha
                    rcases List.mem_append.mp ha with ha | ha
                    · exact Or.inl (hpe a ha)
                    · rcases List.mem_cons.mp ha with rfl | ha
                      · exact Or.inr rfl
                      · exact Or.inl (hre a ha)
                | cons b a =>
                  simp at ha2
                  obtain ⟨rfl, hr'⟩ := ha2
                  subst ha1
                  -- the target is after
                  have hq : q.cmds = [] := hre q (by rw [hr']; simp)
                  rw [h2, ← hlen] at hops
                  have hre2 : (p ++ o :: a) ++ { q with cmds := q.cmds ++ [y] } :: r' =
                      p ++ o :: (a ++ { q with cmds := q.cmds ++ [y] } :: r') := by simp
                  rw [hre2, modify_mid] at hops
                  subst hops
                  have hc2 : o.cmds.eraseIdx 0 = [] := by rw [hox]; rfl
                  have hae : ∀ z ∈ a, z.cmds = [] := fun z hz => hre z (by rw [hr']; simp [hz])
                  have hre' : ∀ z ∈ r', z.cmds = [] := fun z hz => hre z (by rw [hr']; simp [hz])
                  simp only [hc2, hq, List.nil_append]
                  refine ⟨?_, ?_, ?_, ?_⟩
                  · rw [List.flatMap_append, hp0, List.flatMap_cons, List.flatMap_append, List.flatMap_cons,
                      List.flatMap_eq_nil_iff.mpr hae, List.flatMap_eq_nil_iff.mpr hre']; rfl
                  · intro z hz
                    rw [hpr, hr'] at hz
                    simp only [List.mem_append, List.mem_cons] at hz
                    rcases hz with hz | rfl | hz | rfl | hz
                    · exact ⟨z, by simp [hz], rfl⟩
                    · exact ⟨{ z with cmds := [] }, by simp, rfl⟩
                    · exact ⟨z, by simp [hz], rfl⟩
                    · exact ⟨{ z with cmds := [y] }, by simp, rfl⟩
                    · exact ⟨z, by simp [hz], rfl⟩
                  · intro z hz
                    rw [hpr, hr']
                    simp only [List.mem_append, List.mem_cons] at hz
                    rcases hz with hz | rfl | hz | rfl | hz
                    · exact Or.inr ⟨z, by simp [hz], rfl, rfl⟩
                    · exact Or.inr ⟨o, by simp, rfl, rfl⟩
                    · exact Or.inr ⟨z, by simp [hz], rfl, rfl⟩
                    · exact Or.inr ⟨q, by simp, rfl, rfl⟩
                    · exact Or.inr ⟨z, by simp [hz], rfl, rfl⟩
                  · intro z hz
                    simp only [List.mem_append, List.mem_cons] at hz
                    rcases hz with hz | rfl | hz | rfl | hz
                    · exact Or.inl (hpe z hz)
                    · exact Or.inl rfl
                    · exact Or.inl (hae z hz)
                    · exact Or.inr rfl
                    · exact Or.inl (hre' z hz)
              · cases a with
                | nil =>
                  simp at ha1 ha2
                  obtain ⟨rfl, rfl⟩ := ha2
                  subst ha1
                  rw [h2, ← hlen, modify_mid] at hops
                  subst hops
                  have hc2 : (q.cmds ++ [y]).eraseIdx 0 = [y] := by rw [hox]; rfl
                  simp only [hc2]
                  refine ⟨?_, ?_, ?_, ?_⟩
                  · rw [List.flatMap_append, hp0, List.flatMap_cons, hr0]; rfl
                  · intro a ha
                    rw [hpr] at ha
                    rcases List.mem_append.mp ha with ha | ha
                    · exact ⟨a, List.mem_append_left _ ha, rfl⟩
                    · rcases List.mem_cons.mp ha with rfl | ha
                      · exact ⟨_, List.mem_append_right _ (List.mem_cons_self ..), rfl⟩
                      · exact ⟨a, List.mem_append_right _ (List.mem_cons_of_mem _ ha), rfl⟩
                  · intro a ha
                    rw [hpr]
                    rcases List.mem_append.mp ha with ha | ha
                    · exact Or.inr ⟨a, List.mem_append_left _ ha, rfl, rfl⟩
                    · rcases List.mem_cons.mp ha with rfl | ha
                      · exact Or.inr ⟨q, List.mem_append_right _ (List.mem_cons_self ..), rfl, rfl⟩
                      · exact Or.inr ⟨a, List.mem_append_right _ (List.mem_cons_of_mem _ ha), rfl, rfl⟩
                  · intro a ha
                    rcases List.mem_append.mp ha with ha | ha
                    · exact Or.inl (hpe a ha)
                    · rcases List.mem_cons.mp ha with rfl | ha
                      · exact Or.inr rfl
                      · exact Or.inl (hre a ha)
                | cons b a =>
                  simp at ha2
                  obtain ⟨rfl, hr'⟩ := ha2
                  subst ha1
                  -- the target is before
                  have hq : q.cmds = [] := hpe q (by simp)
                  rw [h2, ← hlen, hr'] at hops
                  have hlen2 : (p' ++ q :: a).length = (p' ++ { q with cmds := q.cmds ++ [y] } :: a).length := by simp
                  have hre2 : p' ++ { q with cmds := q.cmds ++ [y] } :: (a ++ o :: r) =
                      (p' ++ { q with cmds := q.cmds ++ [y] } :: a) ++ o :: r := by simp
                  rw [hlen2, hre2, modify_mid] at hops
                  subst hops
                  have hc2 : o.cmds.eraseIdx 0 = [] := by rw [hox]; rfl
                  have hae : ∀ z ∈ a, z.cmds = [] := fun z hz => hpe z (by simp [hz])
                  have hpe' : ∀ z ∈ p', z.cmds = [] := fun z hz => hpe z (by simp [hz])
                  simp only [hc2, hq, List.nil_append]
                  refine ⟨?_, ?_, ?_, ?_⟩
                  · rw [List.flatMap_append, List.flatMap_append, List.flatMap_cons, List.flatMap_cons,
                      List.flatMap_eq_nil_iff.mpr hae, List.flatMap_eq_nil_iff.mpr hpe', hr0]; rfl
                  · intro z hz
                    rw [hpr] at hz
                    simp only [List.mem_append, List.mem_cons] at hz
                    rcases hz with (hz | rfl | hz) | rfl | hz
                    · exact ⟨z, by simp [hz], rfl⟩
                    · exact ⟨{ z with cmds := [y] }, by simp, rfl⟩
                    · exact ⟨z, by simp [hz], rfl⟩
                    · exact ⟨{ z with cmds := [] }, by simp, rfl⟩
                    · exact ⟨z, by simp [hz], rfl⟩
                  · intro z hz
                    rw [hpr]
                    simp only [List.mem_append, List.mem_cons] at hz
                    rcases hz with (hz | rfl | hz) | rfl | hz
                    · exact Or.inr ⟨z, by simp [hz], rfl, rfl⟩
                    · exact Or.inr ⟨q, by simp, rfl, rfl⟩
                    · exact Or.inr ⟨z, by simp [hz], rfl, rfl⟩
                    · exact Or.inr ⟨o, by simp, rfl, rfl⟩
                    · exact Or.inr ⟨z, by simp [hz], rfl, rfl⟩
                  · intro z hz
                    simp only [List.mem_append, List.mem_cons] at hz
                    rcases hz with (hz | rfl | hz) | rfl | hz
                    · exact Or.inl (hpe' z hz)
                    · exact Or.inr rfl
                    · exact Or.inl (hae z hz)
                    · exact Or.inl rfl
                    · exact Or.inl (hre z hz)
            · rw [h2, hpr, ← hlen] at hops
              have hre2 : (p ++ o :: r) ++ [(⟨s, .none, [y], false, 0⟩ : Op)] = p ++ o :: (r ++ [⟨s, .none, [y], false, 0⟩]) := by simp
              rw [hre2, modify_mid] at hops
              subst hops
              have hc2 : o.cmds.eraseIdx 0 = [] := by rw [hox]; rfl
              simp only [hc2]
              refine ⟨?_, ?_, ?_, ?_⟩
              · rw [List.flatMap_append, hp0, List.flatMap_cons, List.flatMap_append, hr0]; rfl
              · intro z hz
                rw [hpr] at hz
                simp only [List.mem_append, List.mem_cons] at hz
                rcases hz with hz | rfl | hz
                · exact ⟨z, by simp [hz], rfl⟩
                · exact ⟨{ z with cmds := [] }, by simp, rfl⟩
                · exact ⟨z, by simp [hz], rfl⟩
              · intro z hz
                rw [hpr]
                simp only [List.mem_append, List.mem_cons, List.not_mem_nil, or_false] at hz
                rcases hz with hz | rfl | hz | rfl
                · exact Or.inr ⟨z, by simp [hz], rfl, rfl⟩
                · exact Or.inr ⟨o, by simp, rfl, rfl⟩
                · exact Or.inr ⟨z, by simp [hz], rfl, rfl⟩
                · exact Or.inl ⟨rfl, rfl⟩
              · intro z hz
                simp only [List.mem_append, List.mem_cons, List.not_mem_nil, or_false] at hz
                rcases hz with hz | rfl | hz | rfl
                · exact Or.inl (hpe z hz)
                · exact Or.inl rfl
                · exact Or.inl (hre z hz)
                · exact Or.inr rfl
          obtain ⟨k1, k2, k3, k4⟩ := key _ rfl
          exact ⟨rfl, k1, k2, k3, k4⟩

theorem TaskLike.move {t0 t t' : Task} {n s : Nat} (h : TaskLike t0 t) (h1 : t0.cmds.length = 1)
    (hld : ∀ c ∈ t.cmds, c.type.leader = true) (hm : t.move n s = some t') : TaskLike t0 t' := by
  have hl : t.cmds.length = 1 := by rw [h.len]; exact h1
  obtain ⟨x, hx⟩ := List.length_eq_one_iff.mp hl
  obtain ⟨k0, k1, k2, k3, k4⟩ := move_ops hx hm
  refine ⟨k0.trans h.drops, by rw [k1, ← hx]; exact h.cmds, ?_, ?_, ?_, ?_⟩
  · intro o0 ho0
    obtain ⟨o, ho, he⟩ := h.keep o0 ho0
    obtain ⟨o', ho', he'⟩ := k2 o ho
    exact ⟨o', ho', he'.trans he⟩
  · intro o ho
    rcases k3 o ho with ⟨hn, _⟩ | ⟨o', ho', he, _⟩
    · exact Or.inl hn
    · rw [← he]; exact h.only o' ho'
  · intro o ho
    rcases k4 o ho with hc | hc <;> simp [hc]
  · intro o ho c hc
    have hcx : c ∈ t.cmds := by
      rcases k4 o ho with he | he <;> rw [he] at hc
      · cases hc
      · rw [hx]; exact hc
    obtain ⟨c0, hc0, he⟩ := h.mem hcx
    obtain ⟨o0, ho0, hco⟩ := List.mem_flatMap.mp hc0
    refine ⟨o0, ho0, c0, hco, he, fun hf => ?_⟩
    rw [hld c hcx] at hf; cases hf

/-- The operation of a command. -/
theorem op_inj : ∀ {l : List Op}, ((l.flatMap Op.cmds).map Cmd.id).Nodup → ∀ {o o' : Op} {c c' : Cmd}, o ∈ l → o' ∈ l →
    c ∈ o.cmds → c' ∈ o'.cmds → c.id = c'.id → o = o'
  | [], _, _, _, _, _, h, _, _, _, _ => nomatch h
  | a :: l, hn, o, o', c, c', h, h', hc, hc', he => by
    rw [List.flatMap_cons, List.map_append, List.nodup_append] at hn
    rcases List.mem_cons.mp h with rfl | h <;> rcases List.mem_cons.mp h' with rfl | h'
    · rfl
    · exact absurd he (hn.2.2 _ (List.mem_map_of_mem hc) _
        (List.mem_map_of_mem (List.mem_flatMap.mpr ⟨o', h', hc'⟩)))
    · rename_i hm
      exact absurd he.symm (hn.2.2 _ (List.mem_map_of_mem hc') _
        (List.mem_map_of_mem (List.mem_flatMap.mpr ⟨o, hm, hc⟩)))
    · exact op_inj hn.2.1 h h' hc hc' he

theorem ids_task : ∀ {l : List Task}, ((l.flatMap Task.cmds).map Cmd.id).Nodup → ∀ {t : Task}, t ∈ l → (t.cmds.map Cmd.id).Nodup
  | [], _, _, h => nomatch h
  | a :: l, hn, t, h => by
    rw [List.flatMap_cons, List.map_append, List.nodup_append] at hn
    rcases List.mem_cons.mp h with rfl | h
    · exact hn.1
    · exact ids_task hn.2.1 h

end Verif.Job
