import Verif.Job.PropsOrder
import Verif.Job.PropsExclusive

/-!
# C95: what becomes of commands that fail, and of commands for a leader that is another by now
-/

namespace Verif.Job

/-! ## Lemmas -/

theorem onFirst_get (f : Op → Op) (c : Nat) : ∀ (l : List Op) (k : Nat) (o : Op), l[k]? = some o → o.has c = true →
    (∀ m o', m < k → l[m]? = some o' → o'.has c = false) →
    (Task.onFirst f c l)[k]? = some (f o) ∧ ∀ m, m ≠ k → (Task.onFirst f c l)[m]? = l[m]?
  | [], k, o, h, _, _ => by simp at h
  | a :: l, 0, o, h, ho, _ => by
    simp only [List.getElem?_cons_zero, Option.some.injEq] at h
    subst h
    simp only [Task.onFirst, ho, if_true, List.getElem?_cons_zero, true_and]
    intro m hm
    cases m with
    | zero => exact absurd rfl hm
    | succ m => rfl
  | a :: l, k + 1, o, h, ho, hf => by
    have ha := hf 0 a (by omega) rfl
    obtain ⟨h1, h2⟩ := onFirst_get f c l k o (by simpa using h) ho (fun m o' hm hl => hf (m + 1) o' (by omega) (by simpa using hl))
    simp only [Task.onFirst, ha, Bool.false_eq_true, if_false]
    refine ⟨by simpa using h1, ?_⟩
    intro m hm
    cases m with
    | zero => rfl
    | succ m => simpa using h2 m (by omega)

theorem has_false {o : Op} {c : Nat} : o.has c = false ↔ ∀ x ∈ o.cmds, x.id ≠ c := by
  simp [Op.has]

theorem find_first {j : Job} {c i : Nat} {t : Task} (ht : j.tasks[i]? = some t) (hc : ∃ x ∈ t.cmds, x.id = c)
    (hf : ∀ m t', m < i → j.tasks[m]? = some t' → ∀ x ∈ t'.cmds, x.id ≠ c) : j.find c = some i := by
  have hh : ∀ t' : Task, t'.has c = true ↔ ∃ x ∈ t'.cmds, x.id = c := by
    intro t'
    simp only [Task.has, Task.cmds, List.any_eq_true, List.mem_flatMap, has_iff]
    constructor
    · rintro ⟨o, ho, x, hx, h⟩; exact ⟨x, ⟨o, ho, hx⟩, h⟩
    · rintro ⟨x, ⟨o, ho, hx⟩, h⟩; exact ⟨o, ho, x, hx, h⟩
  unfold Job.find
  obtain ⟨hlt, rfl⟩ := List.getElem?_eq_some_iff.mp ht
  refine List.findIdx?_eq_some_iff_getElem.mpr ⟨hlt, (hh _).mpr hc, ?_⟩
  intro m hm
  simp only [Bool.not_eq_true]
  rw [← Bool.not_eq_true, hh]
  rintro ⟨x, hx, hxc⟩
  exact hf m _ hm (List.getElem?_eq_getElem (by omega)) x hx hxc

theorem first_op {t : Task} {c k : Nat} {o : Op} (ho : t.ops[k]? = some o) (hc : ∃ x ∈ o.cmds, x.id = c)
    (hf : ∀ m o', m < k → t.ops[m]? = some o' → ∀ x ∈ o'.cmds, x.id ≠ c) : t.ops.find? (fun o => o.has c) = some o := by
  obtain ⟨p, r, h1, h2⟩ := getElem?_mid _ _ _ ho
  rw [h1, List.find?_append]
  have : p.find? (fun o => o.has c) = none := by
    rw [List.find?_eq_none]
    intro o' ho'
    obtain ⟨m, hm, rfl⟩ := List.mem_iff_getElem.mp ho'
    rw [Bool.not_eq_true, has_false]
    refine hf m _ (by omega) ?_
    rw [h1, List.getElem?_append_left hm, List.getElem?_eq_getElem hm]
  rw [this]
  simp [has_iff.mpr hc]

theorem mem_putJob_self {j : Job} : ∀ l : List Job, j ∈ putJob j l
  | [] => by simp [putJob]
  | a :: l => by
    unfold putJob
    split
    · simp
    · exact List.mem_cons_of_mem _ (mem_putJob_self l)

theorem mem_putJob_other {j k : Job} (h : k.id ≠ j.id) : ∀ l : List Job, k ∈ putJob j l ↔ k ∈ l
  | [] => by
    simp only [putJob, List.mem_singleton, List.not_mem_nil, iff_false]
    rintro rfl; exact h rfl
  | a :: l => by
    unfold putJob
    split
    · rename_i ha
      simp only [List.mem_cons]
      constructor
      · rintro (rfl | h')
        · exact absurd rfl h
        · exact Or.inr h'
      · rintro (rfl | h')
        · exact absurd ha h
        · exact Or.inr h'
    · simp only [List.mem_cons, mem_putJob_other h l]

/-! ## Failures -/

/-- The job may be given up: an operation of it has failed more than five times before, and no step
it has gone past created a region. -/
def Hopeless (j : Job) (o : Op) : Prop :=
  5 < o.retries ∧ ∀ m t, m < j.next → j.tasks[m]? = some t → ∀ x ∈ t.cmds, x.type ≠ .create

theorem needClean_iff {j : Job} {o : Op} : j.needClean o = true ↔ Hopeless j o := by
  unfold Job.needClean Hopeless
  simp only [Bool.and_eq_true, decide_eq_true_eq, List.all_eq_true]
  constructor
  · rintro ⟨h1, h2⟩
    refine ⟨h1, fun m t hm ht x hx => ?_⟩
    have : t ∈ j.tasks.take j.next := by
      obtain ⟨hlt, rfl⟩ := List.getElem?_eq_some_iff.mp ht
      rw [List.mem_take_iff_getElem]
      exact ⟨m, by omega, rfl⟩
    exact h2 t this x hx
  · rintro ⟨h1, h2⟩
    refine ⟨h1, fun t ht x hx => ?_⟩
    obtain ⟨m, hm, rfl⟩ := List.mem_take_iff_getElem.mp ht
    exact h2 m _ (by omega) (List.getElem?_eq_getElem (by omega)) x hx

/-- When a failure is applied: if its operation has failed more than five times before, and the job
has not gone past a step that created a region, then the job is archived as failed and is gone.
Otherwise it goes back to the step of the command, and the failure is counted; all else about the
job stays as it was, so that the commands are sent again.  Other jobs stay as they are. -/
theorem C95_failure {s : Jobs} (hn : (s.jobs.map Job.id).Nodup) {j : Job} (hj : j ∈ s.jobs) {i k c : Nat} {t : Task} {o : Op}
    (ht : j.tasks[i]? = some t) (hi : ∀ m t', m < i → j.tasks[m]? = some t' → ∀ x ∈ t'.cmds, x.id ≠ c)
    (ho : t.ops[k]? = some o) (hk : ∀ m o', m < k → t.ops[m]? = some o' → ∀ x ∈ o'.cmds, x.id ≠ c)
    (hc : ∃ x ∈ o.cmds, x.id = c) :
    ∃ s', s.apply (.status j.id c .fail) = some s' ∧
      (∀ j', j'.id ≠ j.id → (j' ∈ s'.jobs ↔ j' ∈ s.jobs)) ∧
      (Hopeless j o → s'.archive = (j, false) :: s.archive ∧ ∀ j' ∈ s'.jobs, j'.id ≠ j.id) ∧
      (¬ Hopeless j o → s'.archive = s.archive ∧ ∃ j' ∈ s'.jobs, j'.id = j.id ∧ j'.kind = j.kind ∧ j'.next = i ∧
        (∀ m, m ≠ i → j'.tasks[m]? = j.tasks[m]?) ∧
        ∃ t', j'.tasks[i]? = some t' ∧ t'.drops = t.drops ∧ (∀ m, m ≠ k → t'.ops[m]? = t.ops[m]?) ∧
          ∃ o', t'.ops[k]? = some o' ∧ o'.retries = o.retries + 1 ∧ o'.store = o.store ∧ o'.check = o.check ∧
            o'.success = o.success ∧ o'.cmds.map Cmd.plain = o.cmds.map Cmd.plain) := by
  have hom : o ∈ t.ops := List.mem_of_getElem? ho
  have hct : ∃ x ∈ t.cmds, x.id = c := by
    obtain ⟨x, hx, h⟩ := hc
    exact ⟨x, List.mem_flatMap.mpr ⟨o, hom, hx⟩, h⟩
  have hfind := find_first ht hct hi
  have hop := first_op ho hc hk
  have hap : s.apply (.status j.id c .fail) = some (if j.needClean o then ⟨s.erase j.id, (j, false) :: s.archive⟩
      else { s with jobs := putJob (j.failed i t c) s.jobs }) := by
    simp only [Jobs.apply, get_of_mem hn hj, Jobs.onStatus, hfind, ht, hop]
  refine ⟨_, hap, ?_, ?_, ?_⟩
  · intro j' hj'
    split
    · simp [Jobs.erase, hj']
    · exact mem_putJob_other (j := j.failed i t c) hj' _
  · intro hh
    rw [if_pos (needClean_iff.mpr hh)]
    refine ⟨rfl, ?_⟩
    intro j' hj'
    have := (List.mem_filter.mp hj').2
    simpa using this
  · intro hh
    rw [if_neg (fun hc => hh (needClean_iff.mp hc))]
    refine ⟨rfl, j.failed i t c, mem_putJob_self _, rfl, rfl, rfl, ?_, ?_⟩
    · intro m hm
      exact List.getElem?_set_ne (Ne.symm hm)
    · have hlt := (List.getElem?_eq_some_iff.mp ht).1
      have h1 := onFirst_get (fun o => o.failed c) c t.ops k o ho (has_iff.mpr hc)
        (fun m o' hm hm' => has_false.mpr (hk m o' hm hm'))
      refine ⟨_, List.getElem?_set_self hlt, rfl, h1.2, _, h1.1, rfl, rfl, rfl, rfl, ?_⟩
      simp only [Op.failed, List.map_map]
      refine List.map_congr_left ?_
      intro x _
      simp only [Function.comp]
      split <;> rfl

/-- Jobs start with no failures counted. -/
theorem C95_fresh {cap : Nat} {s : State} {h : Obs → Prop} (hr : Run cap s h) {j : Job} (hj : h (.made j)) :
    j.next = 0 ∧ ∀ t ∈ j.tasks, ∀ o ∈ t.ops, o.retries = 0 ∧ o.success = false := by
  have hone : ∀ (st : Nat) (ch : Check) (c : Cmd), ∀ o ∈ (one st ch c).ops, o.retries = 0 ∧ o.success = false := by
    intro st ch c o ho
    simp only [one, List.mem_singleton] at ho
    subst ho; exact ⟨rfl, rfl⟩
  have haw : ∀ cs, ∀ o ∈ (await cs).ops, o.retries = 0 ∧ o.success = false := by
    intro cs o ho
    simp only [await, List.mem_map] at ho
    obtain ⟨x, _, rfl⟩ := ho
    exact ⟨rfl, rfl⟩
  have hea : ∀ cs, ∀ o ∈ (each cs).ops, o.retries = 0 ∧ o.success = false := by
    intro cs o ho
    simp only [each, List.mem_map] at ho
    obtain ⟨x, _, rfl⟩ := ho
    exact ⟨rfl, rfl⟩
  have hs := made_shape hr hj
  cases hs with
  | create => refine ⟨rfl, ?_⟩; simp only [List.mem_singleton]; rintro t rfl; exact hea _
  | drop => refine ⟨rfl, ?_⟩; simp only [List.mem_singleton]; rintro t rfl; exact hone _ _ _
  | splitInto => refine ⟨rfl, ?_⟩; simp only [List.mem_singleton]; rintro t rfl; exact hone _ _ _
  | split =>
    refine ⟨rfl, ?_⟩
    intro t ht
    rcases List.mem_append.mp ht with ht | ht
    · unfold splitVector at ht
      split at ht
      · rcases List.mem_append.mp ht with ht | ht
        · split at ht
          · simp only [List.mem_cons, List.not_mem_nil, or_false] at ht
            rcases ht with rfl | rfl <;> first | exact hea _ | exact haw _
          · cases ht
        · simp only [List.mem_cons, List.not_mem_nil, or_false] at ht
          rcases ht with rfl | rfl <;> first | exact hea _ | exact haw _
      · cases ht
    · simp only [List.mem_cons, List.not_mem_nil, or_false] at ht
      rcases ht with rfl | rfl | rfl | rfl | rfl <;> first | exact hea _ | exact haw _ | exact hone _ _ _
  | merge =>
    refine ⟨rfl, ?_⟩
    intro t ht
    rcases List.mem_append.mp ht with ht | ht
    · split at ht
      · simp only [List.mem_cons, List.not_mem_nil, or_false] at ht
        rcases ht with rfl | rfl <;> first | exact hea _ | exact haw _ | exact hone _ _ _
      · cases ht
    · simp only [List.mem_cons, List.not_mem_nil, or_false] at ht
      rcases ht with rfl | rfl | rfl | rfl <;>
        first | exact hone _ _ _ | exact haw _ | (intro o ho; simp only [List.mem_singleton] at ho; subst ho; exact ⟨rfl, rfl⟩)
  | transfer => refine ⟨rfl, ?_⟩; simp only [List.mem_singleton]; rintro t rfl; exact hone _ _ _
  | removePeer =>
    refine ⟨rfl, ?_⟩
    intro t ht
    simp only [List.mem_cons, List.not_mem_nil, or_false] at ht
    rcases ht with rfl | rfl | rfl <;> first | exact haw _ | exact hone _ _ _
  | addPeer =>
    refine ⟨rfl, ?_⟩
    intro t ht
    simp only [List.mem_cons, List.not_mem_nil, or_false] at ht
    rcases ht with rfl | rfl | rfl | rfl <;> first | exact haw _ | exact hone _ _ _
  | movePeer =>
    refine ⟨rfl, ?_⟩
    intro t ht
    simp only [List.mem_cons, List.not_mem_nil, or_false] at ht
    rcases ht with rfl | rfl | rfl | rfl | rfl | rfl | rfl <;> first | exact haw _ | exact hone _ _ _

/-! ## Moves -/

/-- A store that says it is not the leader, and who is: the command is moved. -/
theorem C95_redirected (x : Sent) {st : Nat} (h1 : st ≠ 0) (h2 : st ≠ x.store) (h3 : x.cmd.id ≠ 0) :
    x.result (.notLeader st) = [.move x.job x.cmd.id st] := by
  simp [Sent.result, h1, h2, h3]

/-- A store that does not know who is the leader, or names itself, changes nothing: the command is
sent again to the store it is for. -/
theorem C95_unmoved (x : Sent) {st : Nat} (h : st = 0 ∨ st = x.store) : x.result (.notLeader st) = [] := by
  simp only [Sent.result]
  rw [if_pos (by rcases h with h | h <;> simp [h])]

-- both happen
example : (⟨1, 7, 0, ⟨3, .create, 9, none, [], false⟩⟩ : Sent).result (.notLeader 0) = [] ∧
    (⟨1, 7, 0, ⟨3, .create, 9, none, [], false⟩⟩ : Sent).result (.notLeader 2) = [.move 7 3 2] := ⟨rfl, rfl⟩

theorem gen_limit {cap : Nat} {acc : List Sent} (x : Sent) {st : Nat}
    (h : (acc.filter (fun y => y.store = st)).length ≤ cap + 1) :
    ((gen cap acc x).filter (fun y => y.store = st)).length ≤ cap + 1 := by
  unfold gen
  split
  · exact h
  · next hc =>
    rw [List.filter_append, List.length_append]
    by_cases e : x.store = st
    · subst e
      have : ([x].filter (fun y => decide (y.store = x.store))).length = 1 := by simp
      omega
    · have : ([x].filter (fun y => decide (y.store = st))).length = 0 := by simp [e]
      omega

theorem gens_limit {cap st : Nat} (xs : List Sent) : ∀ {acc : List Sent},
    (acc.filter (fun y => y.store = st)).length ≤ cap + 1 →
    ((xs.foldl (gen cap) acc).filter (fun y => y.store = st)).length ≤ cap + 1 := by
  induction xs with
  | nil => exact fun h => h
  | cons x xs ih => exact fun h => ih (gen_limit x h)

theorem processJob_limit {v : View} {cap n st : Nat} {j : Job} {acc : List Sent}
    (h : (acc.filter (fun y => y.store = st)).length ≤ cap + 1) :
    ((processJob v cap n j acc).2.filter (fun y => y.store = st)).length ≤ cap + 1 := by
  unfold processJob
  split
  · exact h
  · split
    · exact h
    · split
      · exact h
      · simp only []
        split
        · exact gens_limit _ h
        · split <;> exact gens_limit _ h

theorem processAll_limit {v : View} {cap st : Nat} {s : Jobs} (ids : List Nat) : ∀ {n : Nat} {acc : List Sent},
    (acc.filter (fun y => y.store = st)).length ≤ cap + 1 →
    ((processAll v cap s n ids acc).2.filter (fun y => y.store = st)).length ≤ cap + 1 := by
  induction ids with
  | nil => exact fun h => h
  | cons id ids ih =>
    intro n acc h
    unfold processAll
    split
    · exact ih h
    · exact ih (processJob_limit h)

/-- One pass over the jobs sends a store at most one command more than the limit that is set. -/
theorem C95_limit (cap : Nat) (s : State) (e : Ev) (st : Nat) :
    ((s.sends cap e).filter (fun y => y.store = st)).length ≤ cap + 1 := by
  cases e with
  | pass v order reply => exact processAll_limit order (by simp)
  | _ => simp [State.sends]

-- the limit is met: three replicas on one store, at most one command and one more
example : ((Task.sends ⟨[⟨1, .none, [⟨1, .create, 9, none, [], false⟩, ⟨2, .create, 8, none, [], false⟩,
    ⟨3, .create, 7, none, [], false⟩], false, 0⟩], []⟩ 7 0).foldl (gen 1) []).length = 2 := by decide +kernel

theorem move_to {t t' : Task} {n st : Nat} (hm : t.move n st = some t') :
    ∃ x, x ∈ t.cmds ∧ x.id = n ∧ (∃ o ∈ t'.ops, o.store = st ∧ x ∈ o.cmds) ∧ t'.cmds.Perm t.cmds ∧ t'.drops = t.drops := by
  have hadd : ∀ (x : Cmd) (l : List Op),
      (∃ p q r, l = p ++ q :: r ∧ q.store = st ∧ addTo st x l = p ++ { q with cmds := q.cmds ++ [x] } :: r) ∨
      addTo st x l = l ++ [⟨st, .none, [x], false, 0⟩] := by
    intro x l
    induction l with
    | nil => exact Or.inr rfl
    | cons a l ih =>
      unfold addTo
      split
      · rename_i ha; exact Or.inl ⟨[], a, l, rfl, ha, rfl⟩
      · rcases ih with ⟨p, q, r, h1, h2, h3⟩ | h
        · exact Or.inl ⟨a :: p, q, r, by rw [h1]; rfl, h2, by rw [h3]; rfl⟩
        · exact Or.inr (by rw [h]; rfl)
  unfold Task.move at hm
  cases hf : t.ops.findIdx? (fun o => o.has n) with
  | none => rw [hf] at hm; cases hm
  | some i =>
    simp only [hf] at hm
    cases ho : t.ops[i]? with
    | none => rw [ho] at hm; cases hm
    | some o =>
      simp only [ho] at hm
      cases hk : o.cmds.findIdx? (fun y => decide (y.id = n)) with
      | none => rw [hk] at hm; cases hm
      | some k =>
        simp only [hk] at hm
        cases hc : o.cmds[k]? with
        | none => rw [hc] at hm; cases hm
        | some y =>
          simp only [hc, Option.some.injEq] at hm
          have hyn : y.id = n := by
            obtain ⟨hlt, hp, _⟩ := List.findIdx?_eq_some_iff_getElem.mp hk
            obtain ⟨_, rfl⟩ := List.getElem?_eq_some_iff.mp hc
            simpa using hp
          obtain ⟨p, r, hpr, hlen⟩ := getElem?_mid _ _ _ ho
          obtain ⟨u, w, huw, hul⟩ := getElem?_mid _ _ _ hc
          have hom : o ∈ t.ops := List.mem_of_getElem? ho
          have hym : y ∈ o.cmds := List.mem_of_getElem? hc
          refine ⟨y, List.mem_flatMap.mpr ⟨o, hom, hym⟩, hyn, ?_⟩
          have her : ∀ (z : List Cmd), (u ++ y :: w ++ z).eraseIdx k = u ++ w ++ z := by
            intro z
            rw [← hul, List.append_assoc, List.eraseIdx_append_of_length_le (Nat.le_refl _), Nat.sub_self]
            simp
          have her0 := her []
          simp only [List.append_nil] at her0
          subst hm
          refine ⟨?_, ?_, rfl⟩
          · rcases hadd y t.ops with ⟨p', q, r', h1, h2, h3⟩ | h3
            · rw [h3]
              by_cases hpp : p'.length = i
              · refine ⟨{ q with cmds := (q.cmds ++ [y]).eraseIdx k }, ?_, h2, ?_⟩
                · show _ ∈ List.modify _ _ _
                  rw [← hpp, modify_mid]; simp
                · have hqo : q = o := by
                    have := ho
                    rw [h1, ← hpp] at this
                    simpa using this
                  subst hqo
                  show y ∈ List.eraseIdx _ _
                  rw [huw, her]; simp
              · refine ⟨{ q with cmds := q.cmds ++ [y] }, ?_, h2, by simp⟩
                show _ ∈ List.modify _ _ _
                rw [List.mem_iff_getElem?]
                refine ⟨p'.length, ?_⟩
                rw [List.getElem?_modify]
                simp [Ne.symm hpp]
            · rw [h3]
              refine ⟨⟨st, .none, [y], false, 0⟩, ?_, rfl, by simp⟩
              show _ ∈ List.modify _ _ _
              rw [List.mem_iff_getElem?]
              have hil := (List.getElem?_eq_some_iff.mp ho).1
              refine ⟨t.ops.length, ?_⟩
              rw [List.getElem?_modify]
              simp [Nat.ne_of_lt hil]
          · unfold Task.cmds
            show (List.flatMap Op.cmds (List.modify _ _ _)).Perm _
            rcases hadd y t.ops with ⟨p', q, r', h1, h2, h3⟩ | h3
            · by_cases hpp : p'.length = i
              · have hqo : q = o := by
                  have := ho
                  rw [h1, ← hpp] at this
                  simpa using this
                subst hqo
                rw [h3, ← hpp, modify_mid, h1]
                simp only [List.flatMap_append, List.flatMap_cons]
                refine List.Perm.append_left _ (List.Perm.append_right _ ?_)
                rw [huw, her]
                simp only [List.append_assoc, List.cons_append]
                refine List.Perm.append_left u ?_
                exact List.perm_append_comm
              · rw [h3]
                have hcount : ∀ (l : List Op) (b : Op), l[i]? = some b → b.cmds = o.cmds →
                    (y :: (l.modify i (fun o => { o with cmds := o.cmds.eraseIdx k })).flatMap Op.cmds).Perm (l.flatMap Op.cmds) := by
                  intro l b hb hbc
                  obtain ⟨p2, r2, g1, g2⟩ := getElem?_mid _ _ _ hb
                  rw [g1, ← g2, modify_mid]
                  simp only [List.flatMap_append, List.flatMap_cons]
                  rw [hbc, huw, her0]
                  refine (List.perm_middle.symm).trans ?_
                  refine List.Perm.append_left _ ?_
                  rw [← List.cons_append]
                  refine List.Perm.append_right _ ?_
                  exact List.perm_middle.symm
                have hb : (p' ++ { q with cmds := q.cmds ++ [y] } :: r')[i]? = some o := by
                  rw [h1] at ho
                  rcases Nat.lt_or_ge i p'.length with h | h
                  · rw [List.getElem?_append_left h] at ho ⊢
                    exact ho
                  · rw [List.getElem?_append_right h] at ho ⊢
                    have : i - p'.length ≠ 0 := by omega
                    obtain ⟨d, hd⟩ := Nat.exists_eq_succ_of_ne_zero this
                    rw [hd] at ho ⊢
                    simpa using ho
                have := hcount _ _ hb rfl
                refine List.Perm.cons_inv (a := y) (this.trans ?_)
                rw [h1]
                simp only [List.flatMap_append, List.flatMap_cons]
                refine (List.Perm.append_left _ ?_).trans List.perm_middle
                rw [List.append_assoc]
                exact List.perm_middle
            · rw [h3]
              rw [hpr, ← hlen, List.append_assoc, List.cons_append, modify_mid]
              simp only [List.flatMap_append, List.flatMap_cons, List.flatMap_nil, List.append_nil]
              rw [huw, her0]
              simp only [List.append_assoc]
              refine List.Perm.append_left _ (List.Perm.append_left _ ?_)
              rw [← List.append_assoc]
              exact List.perm_append_comm

/-- A command that is moved is one for the other store from then on; no command is lost or
doubled, and the job stays at its step. -/
theorem C95_moved {s : Jobs} (hn : (s.jobs.map Job.id).Nodup) {j : Job} (hj : j ∈ s.jobs) {i c st : Nat} {t : Task}
    (ht : j.tasks[i]? = some t) (hc : ∃ x ∈ t.cmds, x.id = c)
    (hi : ∀ m t', m < i → j.tasks[m]? = some t' → ∀ x ∈ t'.cmds, x.id ≠ c) :
    ∃ s' j' t' x, s.apply (.move j.id c st) = some s' ∧ j' ∈ s'.jobs ∧ j'.id = j.id ∧ j'.kind = j.kind ∧ j'.next = j.next ∧
      (∀ m, m ≠ i → j'.tasks[m]? = j.tasks[m]?) ∧ j'.tasks[i]? = some t' ∧ t'.drops = t.drops ∧ t'.cmds.Perm t.cmds ∧
      x ∈ t.cmds ∧ x.id = c ∧ ∃ o ∈ t'.ops, o.store = st ∧ x ∈ o.cmds := by
  have hfind := find_first ht hc hi
  obtain ⟨t', hm⟩ : ∃ t', t.move c st = some t' := by
    obtain ⟨x, hx, hxc⟩ := hc
    obtain ⟨o, ho, hxo⟩ := List.mem_flatMap.mp hx
    have : ∃ i, t.ops.findIdx? (fun o => o.has c) = some i := by
      cases hf : t.ops.findIdx? (fun o => o.has c) with
      | some i => exact ⟨i, rfl⟩
      | none =>
        have := List.findIdx?_eq_none_iff.mp hf o ho
        rw [has_iff.mpr ⟨x, hxo, hxc⟩] at this; cases this
    obtain ⟨i', hi'⟩ := this
    obtain ⟨hlt, hp, _⟩ := List.findIdx?_eq_some_iff_getElem.mp hi'
    obtain ⟨y, hy, hyc⟩ := has_iff.mp hp
    have : ∃ k, t.ops[i'].cmds.findIdx? (fun z => decide (z.id = c)) = some k := by
      cases hf : t.ops[i'].cmds.findIdx? (fun z => decide (z.id = c)) with
      | some k => exact ⟨k, rfl⟩
      | none =>
        have := List.findIdx?_eq_none_iff.mp hf y hy
        simp [hyc] at this
    obtain ⟨k, hk⟩ := this
    obtain ⟨hlt', _, _⟩ := List.findIdx?_eq_some_iff_getElem.mp hk
    unfold Task.move
    simp only [hi', List.getElem?_eq_getElem hlt, hk, List.getElem?_eq_getElem hlt']
    exact ⟨_, rfl⟩
  obtain ⟨x, h1, h2, h3, h4, h5⟩ := move_to hm
  refine ⟨{ s with jobs := putJob { j with tasks := j.tasks.set i t' } s.jobs }, { j with tasks := j.tasks.set i t' }, t', x, ?_,
    mem_putJob_self _, rfl, rfl, rfl, ?_, ?_, h5, h4, h1, h2, h3⟩
  · simp only [Jobs.apply, get_of_mem hn hj, hfind, ht, Option.bind_some, hm]
  · intro m hm'
    exact List.getElem?_set_ne (Ne.symm hm')
  · exact List.getElem?_set_self (List.getElem?_eq_some_iff.mp ht).1

/-! ## Drops -/

/-- When a drop is granted a job is made for every replica, whose only step is to tell its store to
delete it. -/
theorem C95_drop_all {cap : Nat} {s : State} {v : View} {region : Nat} {r : Rec} (hv : v.regions region = some r)
    (hs : r.state ≠ .deleted ∧ r.state ≠ .delete ∧ r.state ≠ .deleting) (hc : conflict s.jobs.jobs region region = false)
    {p : Nat} (hp : p ∈ r.peers) :
    Inc.drop region ∈ s.prepare cap (.request v (.drop region)) ∧
    ∃ j, Shows cap s (.request v (.drop region)) (.made j) ∧ j.kind = .drop region p ∧
      ∃ t o c, j.tasks = [t] ∧ t.ops = [o] ∧ o.store = p ∧ o.cmds = [c] ∧ c.type = .delete ∧ c.region = region := by
  have hpre : s.prepare cap (.request v (.drop region)) =
      .drop region :: (dropJobs s.counter region r.peers).map Inc.create := by
    simp only [State.prepare, request, hc, Bool.false_eq_true, if_false, dropFinal, hv]
    rw [if_neg (by simp [hs])]
    rfl
  have hcr : ∀ l : List Job, creates (l.map Inc.create) = l := by
    intro l
    induction l with
    | nil => rfl
    | cons a l ih => simp [creates, ih]
  refine ⟨by rw [hpre]; simp, ?_⟩
  have hnum : ∀ (l : List Nat) (n : Nat), p ∈ l → ∃ m, (m, p) ∈ number n l := by
    intro l
    induction l with
    | nil => intro n h; cases h
    | cons a l ih =>
      intro n h
      rcases List.mem_cons.mp h with rfl | h
      · exact ⟨n, by simp [number]⟩
      · obtain ⟨m, hm⟩ := ih (n + 1) h
        exact ⟨m, by simp [number, hm]⟩
  obtain ⟨m, hm⟩ := hnum r.peers s.counter hp
  refine ⟨⟨m, .drop region p, [deleteTask m p region .none], 0⟩, .request ?_, rfl, _, _, _, rfl, rfl, rfl, rfl, rfl, rfl⟩
  rw [hpre]
  simp only [creates, hcr, dropJobs, List.mem_map]
  exact ⟨_, hm, rfl⟩

/-! ## A run -/

namespace Example

/-- Store 3 cannot create the region. -/
def threeFails : Nat → Bool → Reply := fun st _ => some (fun _ => some (.code (if st = 3 then .other else .ok)))

theorem fair_fails (v : View) (order : List Nat) (h : Obs → Prop) : Fair h (.pass v order threeFails) := by
  intro st b f c n hf hc
  simp only [threeFails, Option.some.injEq] at hf
  subst hf
  cases hc

/-- A region is created on three stores, and a number of passes follows. -/
def tries (n : Nat) : List Ev :=
  [.request (view [1, 2, 3] false) (.create 9 [1, 2, 3]), .commit 0] ++
    (List.replicate n [.pass (view [1, 2, 3] false) [1] threeFails, .commit 0]).flatten

theorem fair_tries (n : Nat) : ∀ e ∈ tries n, ∀ h, Fair h e := by
  intro e he h
  rcases List.mem_append.mp he with he | he
  · simp only [List.mem_cons, List.not_mem_nil, or_false] at he
    rcases he with rfl | rfl <;> trivial
  · obtain ⟨l, hl, he⟩ := List.mem_flatten.mp he
    rw [(List.mem_replicate.mp hl).2] at he
    simp only [List.mem_cons, List.not_mem_nil, or_false] at he
    rcases he with rfl | rfl
    · exact fair_fails _ _ h
    · trivial

/-- After six failures the job is still there, with the failures counted (`C95_failure`). -/
example : ∃ h, Run 100 (state (tries 6)) h ∧
    ((state (tries 6)).jobs.get 1).map (fun j => (j.next, j.tasks.map (fun t => t.ops.map Op.retries))) = some (0, [[0, 0, 6]]) := by
  obtain ⟨h, hr⟩ := run_of (tries 6) (fair_tries 6) (by decide +kernel)
  exact ⟨h, hr, by decide +kernel⟩

/-- `C95_drop_all`: a region that may be dropped; `C95_moved`: the only command of a step for a leader. -/
example : conflict State.empty.jobs.jobs 7 7 = false ∧
    (∃ r, (view [1, 2, 3] false).regions 7 = some r ∧ r.state ≠ .deleted ∧ r.state ≠ .delete ∧ r.state ≠ .deleting ∧ 2 ∈ r.peers) ∧
    (changePeerTask 5 1 7 [1, 2]).cmds.map Cmd.id = [5] := by
  refine ⟨rfl, ⟨_, rfl, ?_, ?_, ?_, ?_⟩, rfl⟩ <;> decide

end Example

open Example in
/-- Not so: that a job that failed leaves nothing behind.  The creation of a region on three stores
is given up because one store fails; the other two have created their replicas, nothing is under way
any more, and no store is told to delete them. -/
theorem C95_leftover_false : ∃ (s : State) (h : Obs → Prop) (j : Job) (x : Sent), Run 100 s h ∧
    (j, false) ∈ s.jobs.archive ∧ j.kind = .create 9 [1, 2, 3] ∧ h (.took x) ∧ x.job = j.id ∧ x.store = 1 ∧
    x.cmd.type = .create ∧ x.cmd.region = 9 ∧ s.jobs.jobs = [] ∧ s.pending = [] := by
  obtain ⟨h, hr⟩ := run_of (tries 6) (fair_tries 6) (by decide +kernel)
  have h1 := hr.step (fair_fails (view [1, 2, 3] false) [1] h) rfl
  have h2 := h1.step (e := .commit 0) trivial rfl
  have hx : (⟨1, 1, 0, ⟨1, .create, 9, none, [], false⟩⟩ : Sent) ∈
      (state (tries 6)).sends 100 (.pass (view [1, 2, 3] false) [1] threeFails) := by decide +kernel
  refine ⟨_, _, _, _, h2, List.Mem.head _, rfl, Or.inl (Or.inr (.took hx rfl (.ok _))), rfl, rfl, rfl, rfl, rfl, rfl⟩

end Verif.Job
