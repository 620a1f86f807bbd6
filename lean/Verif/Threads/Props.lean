import Verif.Threads.Lemmas

/-! # The threads that work on vector indexes (C113) -/

namespace Verif.Threads

/-! ## Specification -/

/-- The tasks a history has given to the pool: those given before it is destroyed. -/
def given : List Ev → List Task
  | [] => []
  | .submit t :: l => t :: given l
  | .destroy :: _ => []
  | _ :: l => given l

/-- Steps that threads and callers take on their own, with nothing new from outside. -/
def Ev.own : Ev → Bool
  | .push _ | .notice _ | .look _ _ | .sleep _ | .finish _ => true
  | _ => false

/-- Nothing more happens on its own. -/
def Quiet (s : St) : Prop := ∀ e : Ev, e.own = true → step s e = s

/-! ## Every task is in one place -/

/-- How often a task is somewhere. -/
def places (t : Task) (s : St) : Nat :=
  s.arriving.count t + s.tasks.count t + (running s).count t + s.ended.count t

theorem count_split {α : Type} [BEq α] (t : α) (a b : List α) (x : α) :
    (a ++ x :: b).count t = (a ++ b).count t + (if x == t then 1 else 0) := by
  simp only [List.count_append, List.count_cons]
  omega

theorem running_split (t : Task) (a b : List Worker) (w : Worker) :
    ((a ++ w :: b).filterMap Worker.task).count t
      = ((a ++ b).filterMap Worker.task).count t + (if w.task = some t then 1 else 0) := by
  simp only [List.filterMap_append, List.count_append, List.filterMap_cons]
  cases h : w.task with
  | none => simp
  | some u =>
    simp only [List.count_cons, Option.some.injEq, beq_iff_eq]
    omega

theorem woken_task (w : Worker) : w.woken.task = w.task := by
  unfold Worker.woken
  split
  · rename_i h
    simp [Worker.task, h]
  · rfl

theorem running_set {s : St} {i : Nat} {w w' : Worker} (hi : s.workers[i]? = some w) (h : w'.task = w.task) :
    (s.workers.set i w').filterMap Worker.task = s.workers.filterMap Worker.task := by
  obtain ⟨a, b, h1, h2, _⟩ := split_at hi
  rw [h2, h1]
  simp only [List.filterMap_append, List.filterMap_cons, h]

/-- What a step adds. -/
def adds (t : Task) (s : St) : Ev → Nat
  | .submit u => if s.destroyed then 0 else if u = t then 1 else 0
  | _ => 0

theorem places_step (t : Task) (s : St) (e : Ev) : places t (step s e) = places t s + adds t s e := by
  cases e with
  | submit u =>
    simp only [step, adds]
    split
    · simp
    · simp only [places, running, List.count_append, List.count_singleton, beq_iff_eq]
      omega
  | push k =>
    simp only [step, adds]
    split
    · rename_i u hk
      split
      · obtain ⟨a, b, h1, _, h3⟩ := split_at hk
        simp only [places, running, h3]
        rw [h1]
        simp only [List.count_append, List.count_cons, List.count_nil]
        omega
      · rfl
    · rfl
  | notice i =>
    simp only [step, adds]
    split
    · rfl
    · split
      · rfl
      · split
        · rename_i w hi
          split
          · rename_i hp
            simp only [places, running]
            rw [running_set hi (by simp [Worker.task, hp])]
            rfl
          · rfl
        · rfl
  | look i k =>
    simp only [step, adds]
    split
    · rename_i w hi
      split
      · rename_i hc
        split
        · simp only [places, running]
          rw [running_set hi (by cases w.stop <;> simp [Worker.task, hc.1])]
          rfl
        · split
          · rename_i u hk
            split
            · obtain ⟨a, b, h1, h2, _⟩ := split_at hi
              obtain ⟨c, d, g1, _, g3⟩ := split_at hk
              simp only [places, running, h2, g3]
              rw [g1, h1, count_split, running_split, running_split]
              have e1 : w.task = none := by simp [Worker.task, hc.1]
              have e2 : (Worker.mk (.run u) w.stop).task = some u := rfl
              simp only [e1, e2, Option.some.injEq, beq_iff_eq, reduceCtorEq, if_false]
              omega
            · rfl
          · rfl
      · rfl
    · rfl
  | sleep i =>
    simp only [step, adds]
    split
    · rename_i w hi
      split
      · rename_i hp
        simp only [places, running]
        rw [running_set hi (by simp [Worker.task, hp])]
        rfl
      · rfl
    · rfl
  | finish i =>
    simp only [step, adds]
    split
    · rename_i w hi
      split
      · rename_i u hp
        obtain ⟨a, b, h1, h2, _⟩ := split_at hi
        simp only [places, running, h2]
        rw [h1, running_split, running_split]
        have e1 : w.task = some u := by simp [Worker.task, hp]
        have e2 : (Worker.mk .look w.stop).task = none := rfl
        simp only [e1, e2, Option.some.injEq, reduceCtorEq, if_false, List.count_append, List.count_singleton, beq_iff_eq]
        omega
      · rfl
    · rfl
  | wake i =>
    simp only [step, adds]
    split
    · rename_i w hi
      simp only [places, running]
      rw [running_set hi (woken_task w)]
      rfl
    · rfl
  | stop i =>
    simp only [step, adds]
    split
    · rename_i w hi
      simp only [places, running]
      rw [running_set (w' := { w with stop := true }) hi rfl]
      rfl
    · rfl
  | noticeAll =>
    simp only [step, adds, places, running, List.filterMap_map]
    have : (Worker.task ∘ Worker.woken) = Worker.task := funext woken_task
    rw [this]
    rfl
  | destroy => rfl
  | grow =>
    simp only [step, adds, places, running, List.filterMap_append]
    have : [Worker.mk .look false].filterMap Worker.task = [] := rfl
    simp [this]

theorem destroyed_step {s : St} {e : Ev} (he : e ≠ .destroy) : (step s e).destroyed = s.destroyed := by
  cases e with
  | destroy => exact absurd rfl he
  | _ =>
    simp only [step]
    repeat' split
    all_goals rfl

theorem places_exec (t : Task) : ∀ (l : List Ev) (s : St),
    places t (exec s l) = places t s + (if s.destroyed then 0 else (given l).count t)
  | [], s => by simp [exec, given]
  | e :: l, s => by
    have ih := places_exec t l (step s e)
    have hs := places_step t s e
    rw [show exec s (e :: l) = exec (step s e) l from rfl, ih, hs]
    by_cases hd : e = .destroy
    · subst hd
      simp [step, adds, given]
    · rw [destroyed_step hd]
      cases hx : s.destroyed
      · cases e with
        | submit u =>
          simp only [adds, hx, given, List.count_cons, beq_iff_eq, Bool.false_eq_true, if_false]
          omega
        | destroy => exact absurd rfl hd
        | _ => simp [adds, given]
      · cases e <;> simp [adds, hx]

/-! ## Properties -/

/-- At any time every task that was given to the pool is, as often as it was given, on its way into
the queue, in the queue, being run, or ended: none is lost and none is run twice. -/
theorem C113_once (n : Nat) (l : List Ev) (t : Task) :
    (given l).count t = (exec (start n) l).arriving.count t + (exec (start n) l).tasks.count t
      + (running (exec (start n) l)).count t + (exec (start n) l).ended.count t := by
  have h := places_exec t l (start n)
  have h0 : places t (start n) = 0 := by
    simp only [places, running, start, List.count_nil, Nat.zero_add, Nat.add_zero]
    rw [List.count_eq_zero]
    intro hm
    obtain ⟨w, hw, hwt⟩ := List.mem_filterMap.1 hm
    have : w = ⟨.look, false⟩ := List.eq_of_mem_replicate hw
    subst this
    cases hwt
  rw [h0] at h
  simp only [start, Bool.false_eq_true, if_false, Nat.zero_add] at h
  exact h.symm

/-- No wake-up is lost: as long as a thread sleeps, there is a thread about to look, or a notice on
its way, for each task in the queue. -/
theorem C113_wake (n : Nat) (l : List Ev) {w : Worker} (hw : w ∈ (exec (start n) l).workers) (hs : w.pc = .asleep) :
    (exec (start n) l).tasks.length
      ≤ (exec (start n) l).notices + (exec (start n) l).workers.countP (fun w => w.pc == .look) := by
  refine (inv_exec (l := l) (inv_start n)).wake ?_
  have : 0 < asleepN (exec (start n) l).workers := List.countP_pos_iff.2 ⟨w, hw, by simp [hs]⟩
  omega

theorem quiet_free {s : St} (hq : Quiet s) : free s = true := by
  rw [free_iff]
  intro w hw hp
  obtain ⟨i, hi⟩ := List.getElem?_of_mem hw
  have h := hq (.sleep i) rfl
  simp only [step] at h
  rw [hi] at h
  simp only [hp, if_true] at h
  obtain ⟨a, b, h1, h2, _⟩ := split_at hi
  have hwk : s.workers.set i { w with pc := .asleep } = s.workers := congrArg St.workers h
  rw [h2, h1] at hwk
  have := (List.cons.inj (List.append_cancel_left hwk)).1
  rw [← this] at hp
  cases hp

theorem exists_top : ∀ {l : List Task}, l ≠ [] → ∃ t ∈ l, ∀ u ∈ l, u.prio ≤ t.prio
  | [], h => absurd rfl h
  | [t], _ => ⟨t, by simp, by simp⟩
  | t :: u :: l, _ => by
    obtain ⟨m, hm, hx⟩ := exists_top (l := u :: l) (by simp)
    rcases Int.le_total t.prio m.prio with h | h
    · refine ⟨m, List.mem_cons_of_mem _ hm, ?_⟩
      intro v hv
      rcases List.mem_cons.1 hv with rfl | hv
      · exact h
      · exact hx v hv
    · refine ⟨t, List.mem_cons_self .., ?_⟩
      intro v hv
      rcases List.mem_cons.1 hv with rfl | hv
      · exact Int.le_refl _
      · exact Int.le_trans (hx v hv) h

/-- When nothing more happens on its own, every task that was given has ended, if a thread is left
that was not told to stop.  (Missing: without such a thread tasks wait for ever, `C113_empty_false`,
`C113_destroy_false`.) -/
theorem C113_quiet_partial (n : Nat) (l : List Ev) (hq : Quiet (exec (start n) l))
    {w : Worker} (hw : w ∈ (exec (start n) l).workers) (hs : w.stop = false) (t : Task) :
    (exec (start n) l).ended.count t = (given l).count t := by
  have hinv := inv_exec (l := l) (inv_start n)
  have honce := C113_once n l t
  generalize exec (start n) l = s at *
  have hfree := quiet_free hq
  have harr : s.arriving = [] := by
    cases ha : s.arriving with
    | nil => rfl
    | cons u r =>
      have h := hq (.push 0) rfl
      simp only [step] at h
      rw [ha] at h
      simp only [List.getElem?_cons_zero, hfree, if_true] at h
      have := congrArg St.notices h
      simp at this
  have hrun : ∀ v ∈ s.workers, v.task = none := by
    intro v hv
    cases hp : v.pc with
    | run u =>
      obtain ⟨i, hi⟩ := List.getElem?_of_mem hv
      have h := hq (.finish i) rfl
      simp only [step] at h
      rw [hi] at h
      simp only [hp] at h
      have := congrArg (fun s => s.ended.length) h
      simp at this
    | _ => simp [Worker.task, hp]
  have hlook : ∀ v ∈ s.workers, v.pc ≠ .look := by
    intro v hv hp
    obtain ⟨i, hi⟩ := List.getElem?_of_mem hv
    obtain ⟨a, b, h1, h2, _⟩ := split_at hi
    by_cases ht : s.tasks = []
    · have h := hq (.look i 0) rfl
      simp only [step] at h
      rw [hi] at h
      simp only [hp, hfree, ht, and_self, if_true] at h
      have hwk := congrArg St.workers h
      simp only [h2] at hwk
      rw [h1] at hwk
      have := (List.cons.inj (List.append_cancel_left hwk)).1
      have := congrArg Worker.pc this
      rw [hp] at this
      simp only at this
      cases hst : v.stop <;> rw [hst] at this <;> simp at this
    · obtain ⟨u, hu, hmax⟩ := exists_top ht
      obtain ⟨k, hk⟩ := List.getElem?_of_mem hu
      have h := hq (.look i k) rfl
      have hall : s.tasks.all (fun x => decide (x.prio ≤ u.prio)) = true := by
        rw [List.all_eq_true]
        intro x hx
        exact decide_eq_true (hmax x hx)
      simp only [step] at h
      rw [hi] at h
      simp only [hp, hfree, ht, and_self, if_true, if_false, hk, hall] at h
      obtain ⟨c, d, g1, _, g3⟩ := split_at hk
      have := congrArg (fun s => s.tasks.length) h
      simp only [g3] at this
      rw [g1] at this
      simp at this
  have hnosl : w.pc = .asleep := by
    cases hp : w.pc with
    | look => exact absurd hp (hlook w hw)
    | sleepy => exact absurd hp (free_iff.1 hfree w hw)
    | asleep => rfl
    | run u =>
      have := hrun w hw
      simp [Worker.task, hp] at this
    | exited =>
      have := hinv.exited w hw hp
      rw [hs] at this
      cases this
  have hnot : s.notices = 0 := by
    by_cases hn : s.notices = 0
    · exact hn
    · obtain ⟨i, hi⟩ := List.getElem?_of_mem hw
      have h := hq (.notice i) rfl
      have hall : s.workers.all (fun w => w.pc != .asleep) = false := by
        cases hb : s.workers.all (fun w => w.pc != .asleep)
        · rfl
        · have := List.all_eq_true.1 hb w hw
          rw [hnosl] at this
          cases this
      simp only [step] at h
      rw [if_neg hn, hall, hi] at h
      simp only [hnosl, if_true, Bool.false_eq_true, if_false] at h
      have := congrArg St.notices h
      simp only at this
      omega
  have htasks : s.tasks = [] := by
    have h1 : asleepN s.workers ≠ 0 := by
      have : 0 < asleepN s.workers := List.countP_pos_iff.2 ⟨w, hw, by simp [hnosl]⟩
      omega
    have h2 := hinv.wake h1
    have h3 : lookN s.workers = 0 := by
      unfold lookN
      rw [List.countP_eq_zero]
      intro v hv
      simpa using hlook v hv
    rw [hnot, h3] at h2
    exact List.length_eq_zero_iff.1 (by omega)
  have hr : running s = [] := by
    unfold running
    rw [List.filterMap_eq_nil_iff]
    exact hrun
  rw [harr, htasks, hr] at honce
  simpa using honce.symm

/-! ### It comes to rest -/

/-- What a thread may still do. -/
def PC.weight : PC → Nat
  | .look => 2
  | .sleepy => 1
  | .run _ => 3
  | _ => 0

/-- What may still happen on its own. -/
def weight (s : St) : Nat :=
  (s.workers.map (fun w => w.pc.weight)).sum + 2 * s.tasks.length + 3 * s.notices + 6 * s.arriving.length

theorem sum_split (a b : List Worker) (w : Worker) :
    ((a ++ w :: b).map (fun w => w.pc.weight)).sum = ((a ++ b).map (fun w => w.pc.weight)).sum + w.pc.weight := by
  simp only [List.map_append, List.sum_append, List.map_cons, List.sum_cons]
  omega

/-- Every step on its own that changes anything brings rest nearer, so after at most `weight s` of
them nothing more happens on its own. -/
theorem C113_rest {s : St} {e : Ev} (he : e.own = true) (hne : step s e ≠ s) : weight (step s e) < weight s := by
  cases e with
  | push k =>
    simp only [step] at hne ⊢
    split at hne
    · rename_i u hk
      split at hne
      · rename_i hf
        obtain ⟨a, b, h1, _, h3⟩ := split_at hk
        simp only [hf, if_true, weight, h3]
        rw [h1]
        simp only [List.length_append, List.length_cons, List.length_nil]
        omega
      · exact absurd rfl hne
    · exact absurd rfl hne
  | notice i =>
    simp only [step] at hne ⊢
    split at hne
    · exact absurd rfl hne
    · rename_i hn
      rw [if_neg hn]
      split at hne
      · rename_i hall
        rw [if_pos hall]
        simp only [weight]
        omega
      · rename_i hall
        rw [if_neg hall]
        split at hne
        · rename_i w hi
          split at hne
          · rename_i hp
            obtain ⟨a, b, h1, h2, _⟩ := split_at hi
            simp only [hp, if_true, weight, h2]
            rw [h1, sum_split, sum_split]
            simp only [hp, PC.weight]
            omega
          · exact absurd rfl hne
        · exact absurd rfl hne
  | look i k =>
    simp only [step] at hne ⊢
    split at hne
    · rename_i w hi
      split at hne
      · rename_i hc
        obtain ⟨a, b, h1, h2, _⟩ := split_at hi
        rw [if_pos hc]
        split at hne
        · rename_i ht
          rw [if_pos ht]
          simp only [weight, h2]
          rw [h1, sum_split, sum_split]
          simp only [hc.1]
          cases w.stop <;> simp [PC.weight]
        · rename_i ht
          rw [if_neg ht]
          split at hne
          · rename_i u hk
            split at hne
            · rename_i hall
              obtain ⟨c, d, g1, _, g3⟩ := split_at hk
              rw [if_pos hall]
              simp only [weight, h2, g3]
              rw [h1, sum_split, sum_split, g1]
              simp only [hc.1, PC.weight, List.length_append, List.length_cons]
              omega
            · exact absurd rfl hne
          · exact absurd rfl hne
      · exact absurd rfl hne
    · exact absurd rfl hne
  | sleep i =>
    simp only [step] at hne ⊢
    split at hne
    · rename_i w hi
      split at hne
      · rename_i hp
        obtain ⟨a, b, h1, h2, _⟩ := split_at hi
        simp only [hp, if_true, weight, h2]
        rw [h1, sum_split, sum_split]
        simp only [hp, PC.weight]
        omega
      · exact absurd rfl hne
    · exact absurd rfl hne
  | finish i =>
    simp only [step] at hne ⊢
    split at hne
    · rename_i w hi
      split at hne
      · rename_i u hp
        obtain ⟨a, b, h1, h2, _⟩ := split_at hi
        simp only [weight, h2]
        rw [h1, sum_split, sum_split]
        simp only [hp, PC.weight]
        omega
      · exact absurd rfl hne
    · exact absurd rfl hne
  | _ => cases he

/-- A task that is begun has the highest priority of those in the queue. -/
theorem C113_priority {s : St} {i k : Nat} {w w' : Worker} {t : Task}
    (hi : s.workers[i]? = some w) (hp : w.pc ≠ .run t)
    (hi' : (step s (.look i k)).workers[i]? = some w') (hp' : w'.pc = .run t) :
    t ∈ s.tasks ∧ ∀ u ∈ s.tasks, u.prio ≤ t.prio := by
  simp only [step] at hi'
  rw [hi] at hi'
  simp only at hi'
  have hlt : i < s.workers.length := (List.getElem?_eq_some_iff.1 hi).1
  split at hi'
  · split at hi'
    · simp only [List.getElem?_set_self hlt, Option.some.injEq] at hi'
      rw [← hi'] at hp'
      cases hst : w.stop <;> rw [hst] at hp' <;> cases hp'
    · split at hi'
      · rename_i u hk
        split at hi'
        · rename_i hall
          simp only [List.getElem?_set_self hlt, Option.some.injEq] at hi'
          rw [← hi'] at hp'
          cases hp'
          exact ⟨List.mem_of_getElem? hk, fun x hx => of_decide_eq_true (List.all_eq_true.1 hall x hx)⟩
        · rw [hi] at hi'
          cases hi'
          exact absurd hp' hp
      · rw [hi] at hi'
        cases hi'
        exact absurd hp' hp
  · rw [hi] at hi'
    cases hi'
    exact absurd hp' hp

/-- A thread ends only when it was told to stop and the queue was empty. -/
theorem C113_exit (n : Nat) (l : List Ev) {w : Worker} (hw : w ∈ (exec (start n) l).workers) (hp : w.pc = .exited) :
    w.stop = true := (inv_exec (l := l) (inv_start n)).exited w hw hp

end Verif.Threads
