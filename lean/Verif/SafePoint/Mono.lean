import Verif.SafePoint.Step
/-!
Lemmas on what an event does to the log, the applied index, the points on disk and in memory, the
tenants and the stores.
-/
namespace Verif.SafePoint

@[simp] theorem setNode_log (s n x) : (Sys.setNode s n x).log = s.log := rfl
@[simp] theorem setThread_log (s n x) : (Sys.setThread s n x).log = s.log := rfl
@[simp] theorem setStore_log (s n x) : (Sys.setStore s n x).log = s.log := rfl
@[simp] theorem setThread_nodes (s n x) : (Sys.setThread s n x).nodes = s.nodes := rfl
@[simp] theorem setStore_nodes (s n x) : (Sys.setStore s n x).nodes = s.nodes := rfl
@[simp] theorem setNode_threads (s n x) : (Sys.setNode s n x).threads = s.threads := rfl
@[simp] theorem setStore_threads (s n x) : (Sys.setStore s n x).threads = s.threads := rfl

/-- A relation between the states of one coordinator before and after. -/
theorem setNode_rel {P : Node → Node → Prop} (hr : ∀ x, P x x) {s : Sys} {n m : Nat} {x : Node}
    (h : P (s.nodes n) x) : P (s.nodes m) ((s.setNode n x).nodes m) := by
  simp only [Sys.setNode, put]
  split
  · rename_i e; rw [e]; exact h
  · exact hr _

/-- What a task does to the coordinator: at most raise a number in memory. -/
theorem doTask_node {n th x n' th'} (h : doTask n th x = some (n', th')) :
    n' = n ∨ ∃ k v, x = .lift k v ∧ n' = { n with temp := raise n.temp k v } := by
  cases x with
  | flag f => cases f <;> simp [doTask] at h <;> exact Or.inl h.1.symm
  | see k v =>
    cases k <;> simp only [doTask] at h <;> split at h <;>
      (simp only [Option.some.injEq, Prod.mk.injEq] at h; exact Or.inl h.1.symm)
  | lift k v =>
    simp only [doTask, Option.some.injEq, Prod.mk.injEq] at h
    exact Or.inr ⟨k, v, rfl, h.1.symm⟩
  | tsp id v =>
    simp only [doTask] at h
    split at h
    · simp only [Option.some.injEq, Prod.mk.injEq] at h; exact Or.inl h.1.symm
    · split at h
      · cases h
      · split at h <;> (simp only [Option.some.injEq, Prod.mk.injEq] at h; exact Or.inl h.1.symm)
  | trl id v =>
    simp only [doTask] at h
    split at h
    · simp only [Option.some.injEq, Prod.mk.injEq] at h; exact Or.inl h.1.symm
    · split at h
      · cases h
      · split at h
        · split at h <;> (simp only [Option.some.injEq, Prod.mk.injEq] at h; exact Or.inl h.1.symm)
        · simp only [Option.some.injEq, Prod.mk.injEq] at h; exact Or.inl h.1.symm
  | create id name =>
    simp only [doTask] at h
    split at h
    · simp only [Option.some.injEq, Prod.mk.injEq] at h; exact Or.inl h.1.symm
    · split at h
      · cases h
      · simp only [Option.some.injEq, Prod.mk.injEq] at h; exact Or.inl h.1.symm
  | drop id =>
    simp only [doTask] at h
    split at h
    · cases h
    · split at h
      · cases h
      · simp only [Option.some.injEq, Prod.mk.injEq] at h; exact Or.inl h.1.symm
  | rename id name =>
    simp only [doTask] at h
    split at h
    · cases h
    · split at h
      · cases h
      · simp only [Option.some.injEq, Prod.mk.injEq] at h; exact Or.inl h.1.symm

/-- What an event does to coordinator `m`. -/
inductive Moves (A : Kind → Int → Int → Prop) (s : Sys) (m : Nat) : Ev → Node → Prop where
  | same {e} : Moves A s m e (s.nodes m)
  | lift {i k v} (hv : 0 < v ∧ A k 0 v) :
      Moves A s m (.eval i) { s.nodes m with temp := raise (s.nodes m).temp k v }
  | begin {e} (h : (s.nodes m).phase = none) (he : s.log[(s.nodes m).applied]? = some e) :
      Moves A s m (.begin m) { s.nodes m with phase := some 0, ids := applyIds (s.nodes m).ids e.ids }
  | tenant {e k i} (h : (s.nodes m).phase = some k) (he : s.log[(s.nodes m).applied]? = some e)
      (hi : e.tenants[k]? = some i) : Moves A s m (.tenant m)
      { s.nodes m with phase := some (k + 1), tenants := applyTenant (s.nodes m).tenants i }
  | finish {e} (he : s.log[(s.nodes m).applied]? = some e) : Moves A s m (.finish m)
      { s.nodes m with phase := none, applied := (s.nodes m).applied + 1, disk := (s.nodes m).ids,
                       stop := e.stop.getD (s.nodes m).stop }
  | lead : Moves A s m (.lead m) { s.nodes m with temp := (s.nodes m).ids, leader := true }
  | unlead : Moves A s m (.unlead m) { s.nodes m with leader := false }
  | crash : Moves A s m (.crash m)
      { s.nodes m with phase := none, ids := (s.nodes m).disk, temp := (s.nodes m).disk, leader := false }
  | install {i f} (hf : s.snaps[i]? = some f) (h : (s.nodes m).phase = none)
      (hlt : (s.nodes m).applied < f.applied) : Moves A s m (.install m i)
      { s.nodes m with applied := f.applied, disk := f.ids, ids := f.ids, temp := f.ids,
                       tenants := f.tenants, stop := f.stop }

theorem setNode_moves {A} {s : Sys} {n m : Nat} {x : Node} {e : Ev} (h : m = n → Moves A s m e x) :
    Moves A s m e ((s.setNode n x).nodes m) := by
  simp only [Sys.setNode, put]
  split
  · rename_i hm; exact h hm
  · exact .same

theorem step_moves {A s} (h : Inv A s) (e : Ev) (m : Nat) : Moves A s m e ((step s e).nodes m) := by
  cases e with
  | request n r =>
    simp only [step, doRequest]
    split <;> exact .same
  | eval k =>
    simp only [step, doEval]
    split
    · exact .same
    · rename_i th hk
      split
      · split
        · exact .same
        · rename_i x rest ht
          split
          · exact .same
          · rename_i n' th' hd
            rw [setThread_nodes]
            refine setNode_moves fun hm => ?_
            rw [← hm] at hd
            rcases doTask_node hd with rfl | ⟨j, v, rfl, rfl⟩
            · exact .same
            · exact .lift ((h.thread hk).todo (.lift j v) (by rw [ht]; simp))
      · exact .same
  | refuse k =>
    simp only [step, doRefuse]
    split
    · exact .same
    · split <;> exact .same
  | propose k =>
    simp only [step, doPropose]
    split
    · exact .same
    · split <;> exact .same
  | commit k =>
    simp only [step, doCommit]
    split
    · exact .same
    · split <;> exact .same
  | lose k =>
    simp only [step, doLose]
    split
    · exact .same
    · split <;> exact .same
  | answer k =>
    simp only [step, doAnswer]
    split
    · exact .same
    · split
      · split <;> exact .same
      · exact .same
  | begin n =>
    simp only [step, doBegin]
    split
    · rename_i x hp he
      refine setNode_moves fun hm => ?_
      subst hm
      exact .begin hp he
    · exact .same
  | tenant n =>
    simp only [step, doTenant]
    split
    · rename_i k x hp he
      split
      · rename_i i hi
        refine setNode_moves fun hm => ?_
        subst hm
        exact .tenant hp he hi
      · exact .same
    · exact .same
  | finish n =>
    simp only [step, doFinish]
    split
    · rename_i k x hp he
      split
      · refine setNode_moves fun hm => ?_
        subst hm
        exact .finish he
      · exact .same
    · exact .same
  | lead n => exact setNode_moves fun hm => by subst hm; exact .lead
  | unlead n => exact setNode_moves fun hm => by subst hm; exact .unlead
  | crash n => exact setNode_moves fun hm => by subst hm; exact .crash
  | save n =>
    simp only [step, doSave]
    split <;> exact .same
  | install n i =>
    simp only [step, doInstall]
    split
    · exact .same
    · rename_i f hf
      split
      · rename_i hc
        refine setNode_moves fun hm => ?_
        subst hm
        exact .install hf hc.1 hc.2
      · exact .same
  | poll i n =>
    simp only [step, doPoll]
    split <;> exact .same
  | recv i =>
    simp only [step, doRecv]
    split <;> exact .same
  | drop i => exact .same
  | gcBegin i w =>
    simp only [step, doGcBegin]
    split
    · split <;> exact .same
    · exact .same
  | gcResume i =>
    simp only [step, doGcResume]
    split <;> exact .same
  | gcRun i t =>
    simp only [step, doGcRun]
    split
    · split
      · exact .same
      · split <;> exact .same
    · exact .same
  | gcEnd i => exact .same

/-- The log only grows, by the increment of a proposed request. -/
theorem step_log (s : Sys) (e : Ev) : (step s e).log = s.log ∨
    ∃ th ∈ s.threads, th.status = .proposed ∧ (step s e).log = s.log ++ [th.inc] := by
  cases e with
  | request n r => simp only [step, doRequest]; split <;> exact Or.inl rfl
  | eval k =>
    simp only [step, doEval]
    split
    · exact Or.inl rfl
    · split
      · split
        · exact Or.inl rfl
        · split <;> exact Or.inl rfl
      · exact Or.inl rfl
  | refuse k =>
    simp only [step, doRefuse]
    split
    · exact Or.inl rfl
    · split <;> exact Or.inl rfl
  | propose k =>
    simp only [step, doPropose]
    split
    · exact Or.inl rfl
    · split <;> exact Or.inl rfl
  | commit k =>
    simp only [step, doCommit]
    split
    · exact Or.inl rfl
    · rename_i th hk
      split
      · rename_i hc
        exact Or.inr ⟨th, List.mem_of_getElem? hk, hc, rfl⟩
      · exact Or.inl rfl
  | lose k =>
    simp only [step, doLose]
    split
    · exact Or.inl rfl
    · split <;> exact Or.inl rfl
  | answer k =>
    simp only [step, doAnswer]
    split
    · exact Or.inl rfl
    · split
      · split <;> exact Or.inl rfl
      · exact Or.inl rfl
  | begin n => simp only [step, doBegin]; split <;> exact Or.inl rfl
  | tenant n =>
    simp only [step, doTenant]
    split
    · split <;> exact Or.inl rfl
    · exact Or.inl rfl
  | finish n =>
    simp only [step, doFinish]
    split
    · split <;> exact Or.inl rfl
    · exact Or.inl rfl
  | lead n => exact Or.inl rfl
  | unlead n => exact Or.inl rfl
  | crash n => exact Or.inl rfl
  | save n => simp only [step, doSave]; split <;> exact Or.inl rfl
  | install n i =>
    simp only [step, doInstall]
    split
    · exact Or.inl rfl
    · split <;> exact Or.inl rfl
  | poll i n => simp only [step, doPoll]; split <;> exact Or.inl rfl
  | recv i => simp only [step, doRecv]; split <;> exact Or.inl rfl
  | drop i => exact Or.inl rfl
  | gcBegin i w =>
    simp only [step, doGcBegin]
    split
    · split <;> exact Or.inl rfl
    · exact Or.inl rfl
  | gcResume i => simp only [step, doGcResume]; split <;> exact Or.inl rfl
  | gcRun i t =>
    simp only [step, doGcRun]
    split
    · split
      · exact Or.inl rfl
      · split <;> exact Or.inl rfl
    · exact Or.inl rfl
  | gcEnd i => exact Or.inl rfl

theorem Moves.applied {A s m e x} (h : Moves A s m e x) : (s.nodes m).applied ≤ x.applied := by
  cases h <;> (try dsimp only) <;> omega

theorem run_grows {A} {evs : List Ev} : ∀ {s : Sys}, Inv A s →
    (∀ n r, Ev.request n r ∈ evs → Knows A r) →
    (∃ l, (run s evs).log = s.log ++ l) ∧ ∀ m, (s.nodes m).applied ≤ ((run s evs).nodes m).applied := by
  induction evs with
  | nil => intro s _ _; exact ⟨⟨[], by simp [run]⟩, fun _ => Nat.le_refl _⟩
  | cons e evs ih =>
    intro s h hA
    have h' := step_inv (e := e) h (fun n r he => hA n r (by simp [he]))
    obtain ⟨⟨l, hl⟩, ha⟩ := ih (s := step s e) h' (fun n r hm => hA n r (by simp [hm]))
    have hr : run s (e :: evs) = run (step s e) evs := rfl
    rw [hr]
    refine ⟨?_, fun m => Nat.le_trans (step_moves h e m).applied (ha m)⟩
    rcases step_log s e with hs | ⟨th, _, _, hs⟩
    · exact ⟨l, by rw [hl, hs]⟩
    · exact ⟨th.inc :: l, by rw [hl, hs]; simp⟩

/-! ### Tenants -/

/-- The propositional form of `settled`. -/
structure Settled (s : Sys) (n : Nat) (t : Int) : Prop where
  log : Keeps s.log (s.nodes n).applied t
  threads : ∀ th ∈ s.threads, th.status ≠ .err → th.entry = none →
    (∀ i ∈ th.inc.tenants, TInc.remakes t i = false) ∧
    (∀ x ∈ th.todo, (∀ nm, x ≠ .create t nm) ∧ x ≠ .drop t)

theorem settled_of {s : Sys} {n : Nat} {t : Int} (h : s.settled n t = true) : Settled s n t := by
  simp only [Sys.settled, Bool.and_eq_true, List.all_eq_true, Bool.not_eq_true', Bool.or_eq_true] at h
  obtain ⟨h1, h2⟩ := h
  constructor
  · intro j e hj he x hx
    refine h1 e ?_ x hx
    refine List.mem_of_getElem? (i := j - (s.nodes n).applied) ?_
    rw [List.getElem?_drop, Nat.add_sub_cancel' hj]
    exact he
  · intro th hth hs he
    rcases h2 th hth with (h | h) | h
    · refine ⟨h.1, fun x hx => ?_⟩
      have := h.2 x hx
      constructor
      · rintro nm rfl; simp at this
      · rintro rfl; simp at this
    · exact absurd (by simpa using h) hs
    · rw [he] at h; cases h

theorem doTask_remakes {n th x n' th' t} (h : doTask n th x = some (n', th'))
    (hx : (∀ nm, x ≠ .create t nm) ∧ x ≠ .drop t)
    (hi : ∀ i ∈ th.inc.tenants, TInc.remakes t i = false)
    (ht : ∀ y ∈ th.todo, (∀ nm, y ≠ .create t nm) ∧ y ≠ .drop t) :
    (∀ i ∈ th'.inc.tenants, TInc.remakes t i = false) ∧
    (∀ y ∈ th'.todo, (∀ nm, y ≠ .create t nm) ∧ y ≠ .drop t) ∧ th'.status = th.status ∧
    th'.entry = th.entry := by
  have add : ∀ j : TInc, j.remakes t = false → ∀ i ∈ (th.inc.addTenant j).tenants, TInc.remakes t i = false := by
    intro j hj i hm
    simp only [Inc.addTenant, List.mem_append, List.mem_singleton] at hm
    rcases hm with hm | rfl
    · exact hi i hm
    · exact hj
  have upd : ∀ i u, TInc.remakes t (.update i u) = false := fun _ _ => rfl
  cases x with
  | flag f =>
    cases f <;> simp [doTask] at h <;> obtain ⟨_, rfl⟩ := h
    · exact ⟨hi, ht, rfl, rfl⟩
    · refine ⟨?_, ht, rfl, rfl⟩
      dsimp only
      split <;> exact hi
    · refine ⟨?_, ht, rfl, rfl⟩
      dsimp only
      split <;> exact hi
  | see k v =>
    cases k <;> simp only [doTask] at h <;> split at h <;>
      simp only [Option.some.injEq, Prod.mk.injEq] at h <;> obtain ⟨_, rfl⟩ := h
    · exact ⟨hi, ht, rfl, rfl⟩
    · refine ⟨hi, ?_, rfl, rfl⟩
      intro y hy
      rcases List.mem_cons.1 hy with rfl | hy
      · simp
      · exact ht y hy
    · exact ⟨hi, ht, rfl, rfl⟩
    · refine ⟨hi, ?_, rfl, rfl⟩
      intro y hy
      rcases List.mem_cons.1 hy with rfl | hy
      · simp
      · exact ht y hy
  | lift k v =>
    simp only [doTask, Option.some.injEq, Prod.mk.injEq] at h
    obtain ⟨_, rfl⟩ := h
    exact ⟨hi, ht, rfl, rfl⟩
  | tsp id v =>
    simp only [doTask] at h
    split at h
    · simp only [Option.some.injEq, Prod.mk.injEq] at h; obtain ⟨_, rfl⟩ := h; exact ⟨hi, ht, rfl, rfl⟩
    · split at h
      · cases h
      · split at h <;> (simp only [Option.some.injEq, Prod.mk.injEq] at h; obtain ⟨_, rfl⟩ := h)
        · exact ⟨add _ (upd _ _), ht, rfl, rfl⟩
        · exact ⟨hi, ht, rfl, rfl⟩
  | trl id v =>
    simp only [doTask] at h
    split at h
    · simp only [Option.some.injEq, Prod.mk.injEq] at h; obtain ⟨_, rfl⟩ := h; exact ⟨hi, ht, rfl, rfl⟩
    · split at h
      · cases h
      · split at h
        · split at h
          · rename_i l hl
            simp only [Option.some.injEq, Prod.mk.injEq] at h
            obtain ⟨_, rfl⟩ := h
            refine ⟨?_, ht, rfl, rfl⟩
            intro i hm
            cases hr : TInc.remakes t i with
            | false => rfl
            | true =>
              have := ((setRl_some hl).2.2.2 i t hr).1 hm
              rw [← hr]
              exact hi i this
          · simp only [Option.some.injEq, Prod.mk.injEq] at h
            obtain ⟨_, rfl⟩ := h
            exact ⟨add _ (upd _ _), ht, rfl, rfl⟩
        · simp only [Option.some.injEq, Prod.mk.injEq] at h; obtain ⟨_, rfl⟩ := h; exact ⟨hi, ht, rfl, rfl⟩
  | create id name =>
    have hne : id ≠ t := fun e => hx.1 name (by rw [e])
    simp only [doTask] at h
    split at h
    · simp only [Option.some.injEq, Prod.mk.injEq] at h; obtain ⟨_, rfl⟩ := h; exact ⟨hi, ht, rfl, rfl⟩
    · split at h
      · cases h
      · simp only [Option.some.injEq, Prod.mk.injEq] at h
        obtain ⟨_, rfl⟩ := h
        exact ⟨add _ (by simp [TInc.remakes, hne]), ht, rfl, rfl⟩
  | drop id =>
    have hne : id ≠ t := fun e => hx.2 (by rw [e])
    simp only [doTask] at h
    split at h
    · cases h
    · split at h
      · cases h
      · simp only [Option.some.injEq, Prod.mk.injEq] at h
        obtain ⟨_, rfl⟩ := h
        exact ⟨add _ (by simp [TInc.remakes, hne]), ht, rfl, rfl⟩
  | rename id name =>
    simp only [doTask] at h
    split at h
    · cases h
    · split at h
      · cases h
      · simp only [Option.some.injEq, Prod.mk.injEq] at h
        obtain ⟨_, rfl⟩ := h
        exact ⟨add _ (upd _ _), ht, rfl, rfl⟩

theorem Keeps.later {log : List Inc} {i j : Nat} {t : Int} (h : Keeps log i t) (hij : i ≤ j) :
    Keeps log j t := fun k e hk he => h k e (Nat.le_trans hij hk) he

theorem Settled.frame {s s' : Sys} {n : Nat} {t : Int} (h : Settled s n t) (hl : s'.log = s.log)
    (ha : (s.nodes n).applied ≤ (s'.nodes n).applied)
    (ht : ∀ th ∈ s'.threads, th.status ≠ .err → th.entry = none →
      (∀ i ∈ th.inc.tenants, TInc.remakes t i = false) ∧
      (∀ x ∈ th.todo, (∀ nm, x ≠ .create t nm) ∧ x ≠ .drop t)) : Settled s' n t :=
  ⟨by rw [hl]; exact h.log.later ha, ht⟩

theorem step_settled {A s} (h : Inv A s) {e : Ev} {n : Nat} {t : Int} (hs : Settled s n t)
    (he : e.remakes t = false) : Settled (step s e) n t := by
  have ha := (step_moves h e n).applied
  have set : ∀ k (th' : Thread), (th'.status ≠ .err → th'.entry = none →
      (∀ i ∈ th'.inc.tenants, TInc.remakes t i = false) ∧
      (∀ x ∈ th'.todo, (∀ nm, x ≠ .create t nm) ∧ x ≠ .drop t)) →
      ∀ th ∈ s.threads.set k th', th.status ≠ .err → th.entry = none →
      (∀ i ∈ th.inc.tenants, TInc.remakes t i = false) ∧
      (∀ x ∈ th.todo, (∀ nm, x ≠ .create t nm) ∧ x ≠ .drop t) := by
    intro k th' h' th hm
    rcases List.mem_or_eq_of_mem_set hm with h1 | h1
    · exact hs.threads th h1
    · rw [h1]; exact h'
  have same : ∀ s' : Sys, (step s e) = s' → s'.log = s.log → s'.threads = s.threads →
      Settled s' n t := by
    intro s' e1 e2 e3
    rw [e1] at ha
    exact hs.frame e2 ha (by rw [e3]; exact hs.threads)
  cases e with
  | request m r =>
    simp only [step, doRequest] at ha ⊢
    split at ha <;> rename_i hc
    · rw [if_pos hc]
      refine hs.frame rfl (Nat.le_refl _) ?_
      intro th hm
      rcases List.mem_append.1 hm with h1 | h1
      · exact hs.threads th h1
      · rw [List.mem_singleton] at h1
        subst h1
        intro _ _
        refine ⟨fun i hi => by simp at hi, ?_⟩
        intro x hx
        cases r with
        | update r =>
          simp only [Req.tasks, List.cons_append, List.nil_append, List.mem_cons, List.mem_append,
            List.mem_map] at hx
          rcases hx with rfl | rfl | rfl | ⟨p, hp, rfl⟩ | ⟨p, hp, rfl⟩ <;> simp
        | create id name =>
          simp only [Ev.remakes, beq_eq_false_iff_ne] at he
          simp only [Req.tasks, List.mem_singleton] at hx
          subst hx
          simp [he]
        | drop id =>
          simp only [Ev.remakes, beq_eq_false_iff_ne] at he
          simp only [Req.tasks, List.mem_singleton] at hx
          subst hx
          simp [he]
        | rename id name =>
          simp only [Req.tasks, List.mem_singleton] at hx
          subst hx
          simp
    · rw [if_neg hc]; exact hs
  | eval k =>
    simp only [step, doEval] at ha ⊢
    split at ha <;> rename_i hk
    · exact hs
    · rename_i th
      split at ha <;> rename_i hst
      · rw [if_pos hst]
        split at ha
        · exact hs
        · rename_i x rest ht
          split at ha
          · refine hs.frame rfl (Nat.le_refl _) (set k _ ?_)
            intro hh; exact absurd rfl hh
          · rename_i n' th' hd
            refine hs.frame rfl ha (set k _ ?_)
            intro h1 h2
            have h3 := hs.threads th (List.mem_of_getElem? hk) (by rw [hst]; simp)
              ((h.thread hk).early (Or.inl hst))
            have h4 := doTask_remakes hd (h3.2 x (by rw [ht]; simp)) h3.1
              (fun y hy => h3.2 y (by rw [ht]; simp only [List.mem_cons]; exact Or.inr hy))
            exact ⟨h4.1, h4.2.1⟩
      · rw [if_neg hst]; exact hs
  | refuse k =>
    simp only [step, doRefuse]
    split
    · exact hs
    · split
      · exact hs.frame rfl (Nat.le_refl _) (set k _ (fun hh => absurd rfl hh))
      · exact hs
  | propose k =>
    simp only [step, doPropose]
    split
    · exact hs
    · rename_i th hk
      split
      · rename_i hc
        refine hs.frame rfl (Nat.le_refl _) (set k _ (fun _ h2 => ?_))
        exact hs.threads th (List.mem_of_getElem? hk) (by rw [hc.1]; simp) h2
      · exact hs
  | commit k =>
    simp only [step, doCommit]
    split
    · exact hs
    · rename_i th hk
      split
      · rename_i hc
        refine ⟨?_, set k _ (fun _ h2 => by cases h2)⟩
        have h3 := hs.threads th (List.mem_of_getElem? hk) (by rw [hc]; simp)
          ((h.thread hk).early (Or.inr hc))
        intro j e hj hje x hx
        rcases Nat.lt_or_ge j s.log.length with hlt | hge
        · rw [List.getElem?_append_left hlt] at hje
          exact hs.log j e hj hje x hx
        · rw [List.getElem?_append_right hge] at hje
          have : e = th.inc := by
            have := List.mem_of_getElem? hje
            simpa using this
          subst this
          exact h3.1 x hx
      · exact hs
  | lose k =>
    simp only [step, doLose]
    split
    · exact hs
    · split
      · exact hs.frame rfl (Nat.le_refl _) (set k _ (fun hh => absurd rfl hh))
      · exact hs.frame rfl (Nat.le_refl _) (set k _ (fun hh => absurd rfl hh))
      · exact hs
  | answer k =>
    simp only [step, doAnswer]
    split
    · exact hs
    · rename_i th hk
      split
      · rename_i i hi
        split
        · refine hs.frame rfl (Nat.le_refl _) (set k _ (fun _ h2 => ?_))
          exact hs.threads th (List.mem_of_getElem? hk) (by rw [hi]; simp) h2
        · exact hs
      · exact hs
  | begin m =>
    refine same _ rfl ?_ ?_ <;> simp only [step, doBegin] <;> split <;> rfl
  | tenant m =>
    refine same _ rfl ?_ ?_ <;> simp only [step, doTenant] <;> split <;> (try split) <;> rfl
  | finish m =>
    refine same _ rfl ?_ ?_ <;> simp only [step, doFinish] <;> split <;> (try split) <;> rfl
  | lead m => exact same _ rfl rfl rfl
  | unlead m => exact same _ rfl rfl rfl
  | crash m => exact same _ rfl rfl rfl
  | save m =>
    refine same _ rfl ?_ ?_ <;> simp only [step, doSave] <;> split <;> rfl
  | install m i =>
    refine same _ rfl ?_ ?_ <;> simp only [step, doInstall] <;> split <;> (try split) <;> rfl
  | poll i m =>
    refine same _ rfl ?_ ?_ <;> simp only [step, doPoll] <;> split <;> rfl
  | recv i =>
    refine same _ rfl ?_ ?_ <;> simp only [step, doRecv] <;> split <;> rfl
  | drop i => exact same _ rfl rfl rfl
  | gcBegin i w =>
    refine same _ rfl ?_ ?_ <;> simp only [step, doGcBegin] <;> split <;> (try split) <;> rfl
  | gcResume i =>
    refine same _ rfl ?_ ?_ <;> simp only [step, doGcResume] <;> split <;> rfl
  | gcRun i w =>
    refine same _ rfl ?_ ?_ <;> simp only [step, doGcRun] <;> split <;> (try split) <;> (try split) <;> rfl
  | gcEnd i => exact same _ rfl rfl rfl

/-- The tenant that a coordinator holds, entry by entry. -/
theorem PartTs.le_next {log : List Inc} {i : Nat} {m p} {t : Int} {a : Tenant} (h : PartTs log i m p)
    (hk : Keeps log i t) (ha : m t = some a) :
    ∃ b, (replay log (i + 1)).tenants t = some b ∧ a.sp ≤ b.sp ∧ a.rl ≤ b.rl := by
  obtain ⟨k, _, h2, h3⟩ := h
  rcases he : log[i]? with _ | e
  · have hn : nextTs log i = [] := by unfold nextTs; rw [he]
    rw [hn] at h3
    rw [replay_over (List.getElem?_eq_none_iff.1 he)]
    refine ⟨a, ?_, Int.le_refl _, Int.le_refl _⟩
    rw [← ha, h3]
    simp [applyTs]
  · have hn : nextTs log i = e.tenants := by unfold nextTs; rw [he]
    rw [hn] at h3
    rw [h3] at ha
    have hd : ∀ x ∈ e.tenants.drop k, TInc.remakes t x = false :=
      fun x hx => hk i e (Nat.le_refl _) he x (List.mem_of_mem_drop hx)
    obtain ⟨b, hb, h4⟩ := applyTs_mono hd ha
    refine ⟨b, ?_, h4⟩
    rw [← hb, ← applyTs_append, List.take_append_drop, replay_succ he]
    rfl

theorem PartTs.ge {log : List Inc} {i : Nat} {m p} {t : Int} {a : Tenant} (h : PartTs log i m p)
    (hk : Keeps log i t) (ha : (replay log i).tenants t = some a) :
    ∃ b, m t = some b ∧ a.sp ≤ b.sp ∧ a.rl ≤ b.rl := by
  obtain ⟨k, _, h2, h3⟩ := h
  rw [h3]
  refine applyTs_mono ?_ ha
  intro x hx
  have hx := List.mem_of_mem_take hx
  unfold nextTs at hx
  split at hx
  · rename_i e he
    exact hk i e (Nat.le_refl _) he x hx
  · simp at hx

theorem step_tenant {A s} (h : Inv A s) {e : Ev} {n : Nat} {t : Int} (hs : Settled s n t) {a : Tenant}
    (ha : (s.nodes n).tenants t = some a) :
    ∃ b, ((step s e).nodes n).tenants t = some b ∧ a.sp ≤ b.sp ∧ a.rl ≤ b.rl := by
  have hm := step_moves h e n
  generalize (step s e).nodes n = x at hm ⊢
  cases hm with
  | @tenant e k i hp he hi =>
    have := applyTs_mono (l := [i]) (m := (s.nodes n).tenants) (t := t)
      (fun j hj => by
        rw [List.mem_singleton.1 hj]
        exact hs.log _ _ (Nat.le_refl _) he i (List.mem_of_getElem? hi)) ha
    exact this
  | @install i f hf hp hlt =>
    obtain ⟨b, hb, h1, h2⟩ := (h.nodes n).tenants.le_next hs.log ha
    obtain ⟨c, hc, h3, h4⟩ := replay_tenants_mono (j := f.applied) (by omega)
      (hs.log.later (Nat.le_succ _)) hb
    have hsn := h.snaps f (List.mem_of_getElem? hf)
    obtain ⟨d, hd, h5, h6⟩ := hsn.tenants.ge (hs.log.later (by omega)) hc
    exact ⟨d, hd, by omega, by omega⟩
  | same => exact ⟨a, ha, Int.le_refl _, Int.le_refl _⟩
  | lift _ => exact ⟨a, ha, Int.le_refl _, Int.le_refl _⟩
  | begin _ _ => exact ⟨a, ha, Int.le_refl _, Int.le_refl _⟩
  | finish _ => exact ⟨a, ha, Int.le_refl _, Int.le_refl _⟩
  | lead => exact ⟨a, ha, Int.le_refl _, Int.le_refl _⟩
  | unlead => exact ⟨a, ha, Int.le_refl _, Int.le_refl _⟩
  | crash => exact ⟨a, ha, Int.le_refl _, Int.le_refl _⟩

theorem run_tenant {A} {n : Nat} {t : Int} {evs : List Ev} : ∀ {s : Sys} {a : Tenant}, Inv A s →
    (∀ n r, Ev.request n r ∈ evs → Knows A r) → Settled s n t → (∀ e ∈ evs, e.remakes t = false) →
    (s.nodes n).tenants t = some a →
    ∃ b, ((run s evs).nodes n).tenants t = some b ∧ a.sp ≤ b.sp ∧ a.rl ≤ b.rl := by
  induction evs with
  | nil => intro s a _ _ _ _ ha; exact ⟨a, ha, Int.le_refl _, Int.le_refl _⟩
  | cons e evs ih =>
    intro s a h hA hs he ha
    obtain ⟨b, hb, h1, h2⟩ := step_tenant (e := e) h hs ha
    obtain ⟨c, hc, h3, h4⟩ := ih (s := step s e)
      (step_inv h (fun n r he => hA n r (by simp [he]))) (fun n r hm => hA n r (by simp [hm]))
      (step_settled h hs (he e (by simp))) (fun x hx => he x (by simp [hx])) hb
    exact ⟨c, hc, by omega, by omega⟩

end Verif.SafePoint
