import Verif.Job.Pass

/-!
# Jobs of the coordinator: what a pass does to a job (lemmas)
-/

namespace Verif.Job

/-- The job an increment is about. -/
def Inc.about : Inc → Option Nat
  | .create j => some j.id
  | .update j => some j.id
  | .delete id => some id
  | .status id _ _ => some id
  | .move id _ _ => some id
  | .drop _ => none

theorem find_putJob_ne {j : Job} {id : Nat} (h : j.id ≠ id) : ∀ l : List Job,
    (putJob j l).find? (fun k => k.id = id) = l.find? (fun k => k.id = id)
  | [] => by simp [putJob, h]
  | a :: l => by
    unfold putJob
    split
    · rename_i he
      rw [List.find?_cons, List.find?_cons]
      simp [h, he]
    · rw [List.find?_cons, List.find?_cons, find_putJob_ne h l]

theorem find_putJob_eq {j : Job} : ∀ l : List Job, (putJob j l).find? (fun k => k.id = j.id) = some j
  | [] => by simp [putJob]
  | a :: l => by
    unfold putJob
    split
    · simp
    · rename_i he
      rw [List.find?_cons]
      simp [he, find_putJob_eq l]

theorem find_erase_ne {s : Jobs} {id id' : Nat} (h : id' ≠ id) :
    (s.erase id').find? (fun k => k.id = id) = s.jobs.find? (fun k => k.id = id) := by
  unfold Jobs.erase
  induction s.jobs with
  | nil => rfl
  | cons a l ih =>
    rw [List.filter_cons]
    split
    · rw [List.find?_cons, List.find?_cons, ih]
    · rename_i hd
      have : a.id = id' := by simpa using hd
      rw [List.find?_cons, ih]
      simp [this, h]

theorem find_erase_eq {s : Jobs} {id : Nat} : (s.erase id).find? (fun k => k.id = id) = none := by
  apply List.find?_eq_none.mpr
  intro k hk
  simpa using (mem_erase.mp hk).2

/-- An increment about another job changes nothing. -/
theorem apply_other {s s' : Jobs} {i : Inc} {id : Nat} (ha : s.apply i = some s') (hi : i.about ≠ some id) :
    s'.get id = s.get id := by
  cases i with
  | create j =>
    simp only [Jobs.apply, Option.some.injEq] at ha; subst ha
    exact find_putJob_ne (fun h => hi (by rw [← h]; rfl)) _
  | update j =>
    simp only [Jobs.apply, Option.some.injEq] at ha; subst ha
    exact find_putJob_ne (fun h => hi (by rw [← h]; rfl)) _
  | delete k =>
    simp only [Jobs.apply] at ha
    split at ha
    · cases ha
    · cases ha
      exact find_erase_ne (fun h => hi (by rw [← h]; rfl))
  | status k n st =>
    have hk : k ≠ id := fun h => hi (by rw [← h]; rfl)
    simp only [Jobs.apply] at ha
    split at ha
    · cases ha; rfl
    · rename_i j hg
      have hjid : j.id ≠ id := by rw [(get_some hg).2]; exact hk
      cases ha
      unfold Jobs.onStatus
      cases hf : j.find n with
      | none => rfl
      | some m =>
        simp only
        cases ht : j.tasks[m]? with
        | none => rfl
        | some t =>
          simp only
          cases st with
          | done =>
            simp only
            split
            · exact find_putJob_ne (j := j.done m t n) hjid _
            · rfl
          | fail =>
            simp only
            cases ho : t.ops.find? (fun o => o.has n) with
            | none => rfl
            | some o =>
              simp only
              split
              · exact find_erase_ne hjid
              · exact find_putJob_ne (j := j.failed m t n) hjid _
  | move k n st =>
    have hk : k ≠ id := fun h => hi (by rw [← h]; rfl)
    simp only [Jobs.apply] at ha
    split at ha
    · cases ha; rfl
    · rename_i j hg
      have hjid : j.id ≠ id := by rw [(get_some hg).2]; exact hk
      cases hf : j.find n with
      | none => rw [hf] at ha; cases ha; rfl
      | some m =>
        simp only [hf] at ha
        split at ha
        · cases ha; rfl
        · rename_i t _
          cases ha
          exact find_putJob_ne (j := { j with tasks := j.tasks.set m t }) hjid _
  | drop r => simp only [Jobs.apply, Option.some.injEq] at ha; subst ha; rfl

/-- The archive only grows. -/
theorem apply_archive {s s' : Jobs} {i : Inc} (ha : s.apply i = some s') : ∀ a ∈ s.archive, a ∈ s'.archive := by
  intro a hm
  cases i with
  | create j => simp only [Jobs.apply, Option.some.injEq] at ha; subst ha; exact hm
  | update j => simp only [Jobs.apply, Option.some.injEq] at ha; subst ha; exact hm
  | delete k =>
    simp only [Jobs.apply] at ha
    split at ha
    · cases ha
    · cases ha; exact List.mem_cons_of_mem _ hm
  | status k n st =>
    simp only [Jobs.apply] at ha
    split at ha
    · cases ha; exact hm
    · rename_i j hg
      cases ha
      unfold Jobs.onStatus
      split
      · exact hm
      · split
        · exact hm
        · split
          · split <;> exact hm
          · split
            · exact hm
            · split
              · exact List.mem_cons_of_mem _ hm
              · exact hm
  | move k n st =>
    simp only [Jobs.apply] at ha
    split at ha
    · cases ha; exact hm
    · split at ha
      · cases ha; exact hm
      · split at ha
        · cases ha; exact hm
        · cases ha; exact hm
  | drop r => simp only [Jobs.apply, Option.some.injEq] at ha; subst ha; exact hm

theorem applyAll_append : ∀ (a b : List Inc) (s : Jobs), s.applyAll (a ++ b) = (s.applyAll a).bind (fun s => s.applyAll b)
  | [], b, s => rfl
  | i :: a, b, s => by
    show (s.apply i).bind _ = ((s.apply i).bind _).bind _
    cases s.apply i with
    | none => rfl
    | some s' => exact applyAll_append a b s'

theorem applyAll_other {id : Nat} : ∀ {e : List Inc} {s s' : Jobs}, s.applyAll e = some s' → (∀ i ∈ e, i.about ≠ some id) →
    s'.get id = s.get id
  | [], s, s', ha, _ => by cases ha; rfl
  | i :: e, s, s', ha, hi => by
    unfold Jobs.applyAll at ha
    cases h1 : s.apply i with
    | none => rw [h1] at ha; cases ha
    | some s1 =>
      rw [h1, Option.bind_some] at ha
      rw [applyAll_other ha (fun k hk => hi k (List.mem_cons_of_mem _ hk)), apply_other h1 (hi i (List.mem_cons_self ..))]

theorem applyAll_archive : ∀ {e : List Inc} {s s' : Jobs}, s.applyAll e = some s' → ∀ a ∈ s.archive, a ∈ s'.archive
  | [], s, s', ha, a, hm => by cases ha; exact hm
  | i :: e, s, s', ha, a, hm => by
    unfold Jobs.applyAll at ha
    cases h1 : s.apply i with
    | none => rw [h1] at ha; cases ha
    | some s1 =>
      rw [h1, Option.bind_some] at ha
      exact applyAll_archive ha a (apply_archive h1 a hm)

/-! ## A pass can be applied -/

/-- What takes a job away. -/
def Inc.removes (i : Inc) (id : Nat) : Prop := i = .delete id ∨ ∃ n, i = .status id n .fail

theorem apply_keeps {s s' : Jobs} {i : Inc} {id : Nat} (ha : s.apply i = some s') (hi : ¬ i.removes id) (hg : ∃ j, s.get id = some j) :
    ∃ j, s'.get id = some j := by
  by_cases hab : i.about = some id
  · cases i with
    | create j =>
      simp only [Jobs.apply, Option.some.injEq] at ha; subst ha
      cases hab; exact ⟨j, find_putJob_eq _⟩
    | update j =>
      simp only [Jobs.apply, Option.some.injEq] at ha; subst ha
      cases hab; exact ⟨j, find_putJob_eq _⟩
    | delete k => cases hab; exact absurd (Or.inl rfl) hi
    | status k n st =>
      cases hab
      cases st with
      | fail => exact absurd (Or.inr ⟨n, rfl⟩) hi
      | done =>
        obtain ⟨j, hg⟩ := hg
        have hjid := (get_some hg).2
        simp only [Jobs.apply, hg, Option.some.injEq] at ha
        subst ha
        unfold Jobs.onStatus
        split
        · exact ⟨j, hg⟩
        · split
          · exact ⟨j, hg⟩
          · rename_i m _ _ t _
            simp only
            split
            · refine ⟨j.done m t n, ?_⟩
              rw [← hjid]; exact find_putJob_eq (j := j.done m t n) _
            · exact ⟨j, hg⟩
    | move k n st =>
      cases hab
      obtain ⟨j, hg⟩ := hg
      have hjid := (get_some hg).2
      simp only [Jobs.apply, hg] at ha
      split at ha
      · cases ha; exact ⟨j, hg⟩
      · split at ha
        · cases ha; exact ⟨j, hg⟩
        · rename_i m _ _ t _
          cases ha
          refine ⟨{ j with tasks := j.tasks.set m t }, ?_⟩
          rw [← hjid]; exact find_putJob_eq (j := { j with tasks := j.tasks.set m t }) _
    | drop r => cases hab
  · rw [apply_other ha hab]; exact hg

theorem apply_some {s : Jobs} {i : Inc} (h : ∀ id, i = .delete id → ∃ j, s.get id = some j) : ∃ s', s.apply i = some s' := by
  cases i with
  | create j => exact ⟨_, rfl⟩
  | update j => exact ⟨_, rfl⟩
  | delete k =>
    obtain ⟨j, hj⟩ := h k rfl
    simp only [Jobs.apply, hj]; exact ⟨_, rfl⟩
  | status k n st => simp only [Jobs.apply]; split <;> exact ⟨_, rfl⟩
  | move k n st =>
    simp only [Jobs.apply]
    split
    · exact ⟨_, rfl⟩
    · split
      · exact ⟨_, rfl⟩
      · split <;> exact ⟨_, rfl⟩
  | drop r => exact ⟨_, rfl⟩

theorem applyAll_some : ∀ {e : List Inc} {s : Jobs},
    (∀ a id b, e = a ++ .delete id :: b → (∃ j, s.get id = some j) ∧ ∀ i ∈ a, ¬ i.removes id) → ∃ s', s.applyAll e = some s'
  | [], s, _ => ⟨s, rfl⟩
  | i :: e, s, h => by
    obtain ⟨s1, h1⟩ := apply_some (s := s) (i := i) (fun id hid => (h [] id e (by rw [hid]; rfl)).1)
    obtain ⟨s2, h2⟩ := applyAll_some (e := e) (s := s1) (by
      intro a id b hab
      obtain ⟨hg, hr⟩ := h (i :: a) id b (by rw [hab]; rfl)
      exact ⟨apply_keeps h1 (hr i (List.mem_cons_self ..)) hg, fun k hk => hr k (List.mem_cons_of_mem _ hk)⟩)
    exact ⟨s2, by unfold Jobs.applyAll; rw [h1, Option.bind_some, h2]⟩

/-- The ids of the deletions. -/
def deletes : List Inc → List Nat
  | [] => []
  | .delete id :: is => id :: deletes is
  | _ :: is => deletes is

theorem deletes_append : ∀ a b : List Inc, deletes (a ++ b) = deletes a ++ deletes b
  | [], _ => rfl
  | .create j :: a, b => by simp [deletes, deletes_append a b]
  | .update j :: a, b => by simp [deletes, deletes_append a b]
  | .delete j :: a, b => by simp [deletes, deletes_append a b]
  | .status _ _ _ :: a, b => by simp [deletes, deletes_append a b]
  | .move _ _ _ :: a, b => by simp [deletes, deletes_append a b]
  | .drop _ :: a, b => by simp [deletes, deletes_append a b]

theorem mem_deletes {n : Nat} : ∀ {e : List Inc}, n ∈ deletes e ↔ Inc.delete n ∈ e
  | [] => by simp [deletes]
  | .create k :: e => by simp [deletes, mem_deletes (e := e)]
  | .update k :: e => by simp [deletes, mem_deletes (e := e)]
  | .delete k :: e => by simp [deletes, mem_deletes (e := e)]
  | .status _ _ _ :: e => by simp [deletes, mem_deletes (e := e)]
  | .move _ _ _ :: e => by simp [deletes, mem_deletes (e := e)]
  | .drop _ :: e => by simp [deletes, mem_deletes (e := e)]

theorem deletes_nil {e : List Inc} (h : ∀ n, Inc.delete n ∉ e) : deletes e = [] := by
  apply List.eq_nil_iff_forall_not_mem.mpr
  intro n hn
  exact h n (mem_deletes.mp hn)

theorem addDrops_inc {v : View} {i : Inc} : ∀ {l : List Nat} {n : Nat}, i ∈ (addDrops v n l).2 → (∃ j, i = .create j) ∨ ∃ r, i = .drop r
  | [], _, h => nomatch h
  | r :: l, n, hd => by
    unfold addDrops at hd
    cases hdf : dropFinal v n r with
    | none => rw [hdf] at hd; cases hd
    | some is =>
      simp only [hdf] at hd
      rcases List.mem_append.mp hd with hd | hd
      · unfold dropFinal at hdf
        split at hdf
        · cases hdf
        · split at hdf
          · cases hdf; cases hd
          · cases hdf
            simp only [List.mem_cons, List.mem_map] at hd
            rcases hd with rfl | ⟨j, _, rfl⟩
            · exact Or.inr ⟨r, rfl⟩
            · exact Or.inl ⟨j, rfl⟩
      · exact addDrops_inc hd

theorem deletes_processJob (v : View) (cap n : Nat) (j : Job) (acc : List Sent) :
    (deletes (processJob v cap n j acc).1).Sublist [j.id] := by
  have hd : ∀ l m, deletes (addDrops v m l).2 = [] := by
    intro l m
    apply deletes_nil
    intro k hk
    rcases addDrops_inc hk with ⟨j, hj⟩ | ⟨r, hr⟩
    · cases hj
    · cases hr
  unfold processJob
  split
  · exact List.Sublist.refl _
  · split
    · exact List.nil_sublist _
    · split
      · exact List.nil_sublist _
      · simp only
        split
        · rw [hd]; exact List.nil_sublist _
        · split
          · rw [deletes_append, hd]; exact List.nil_sublist _
          · rw [hd]; exact List.nil_sublist _

theorem deletes_processAll (v : View) (cap : Nat) (s : Jobs) : ∀ (ids : List Nat) (n : Nat) (acc : List Sent),
    (deletes (processAll v cap s n ids acc).1).Sublist ids
  | [], _, _ => List.Sublist.refl _
  | id :: ids, n, acc => by
    unfold processAll
    cases hg : s.get id with
    | none => exact (deletes_processAll v cap s ids n acc).cons _
    | some j =>
      simp only [deletes_append]
      have h1 := deletes_processJob v cap n j acc
      rw [(get_some hg).2] at h1
      exact h1.append (deletes_processAll v cap s ids _ _)

theorem result_inc {x : Sent} {a : Res} {i : Inc} (h : i ∈ x.result a) :
    (∃ st, i = .status x.job x.cmd.id st) ∨ ∃ st, i = .move x.job x.cmd.id st := by
  cases a with
  | code c => simp only [Sent.result, List.mem_singleton] at h; exact Or.inl ⟨_, h⟩
  | notLeader s =>
    simp only [Sent.result] at h
    split at h
    · cases h
    · simp only [List.mem_singleton] at h; exact Or.inr ⟨_, h⟩

theorem pass_applies {cap : Nat} {s : State} {v : View} {order : List Nat} (ho : order.Nodup)
    (reply : Nat → Bool → Reply) : ∃ s', s.jobs.applyAll (s.prepare cap (.pass v order reply)) = some s' := by
  apply applyAll_some
  intro a id b hab
  have hp : s.prepare cap (.pass v order reply) = (processAll v cap s.jobs s.counter order []).1 ++
      sendAll (processAll v cap s.jobs s.counter order []).2
        (storesOf (processAll v cap s.jobs s.counter order []).2) reply := rfl
  rw [hp] at hab
  have hns : ∀ n, Inc.delete n ∉ sendAll (processAll v cap s.jobs s.counter order []).2
      (storesOf (processAll v cap s.jobs s.counter order []).2) reply := by
    intro n hn
    obtain ⟨x, _, r, _, hr⟩ := sendAll_inc hn
    rcases result_inc hr with ⟨st, h⟩ | ⟨st, h⟩ <;> cases h
  -- the deletion is in the first part
  have hsplit : ∃ c, (processAll v cap s.jobs s.counter order []).1 = a ++ .delete id :: c := by
    rcases List.append_eq_append_iff.mp hab with ⟨c, h1, h2⟩ | ⟨c, h1, h2⟩
    · exact absurd (by rw [h2]; exact List.mem_append_right _ (List.mem_cons_self ..)) (hns id)
    · cases c with
      | nil =>
        simp only [List.nil_append] at h2
        exact absurd (by rw [← h2]; exact List.mem_cons_self ..) (hns id)
      | cons d c =>
        simp only [List.cons_append, List.cons.injEq] at h2
        exact ⟨c, by rw [h1, ← h2.1]⟩
  obtain ⟨c, hc⟩ := hsplit
  have hin : ∀ i, i ∈ a ∨ i = .delete id → i ∈ (processAll v cap s.jobs s.counter order []).1 := by
    intro i hi
    rw [hc]
    rcases hi with hi | rfl
    · exact List.mem_append_left _ hi
    · exact List.mem_append_right _ (List.mem_cons_self ..)
  constructor
  · obtain ⟨j, hj, _, hw⟩ := processAll_inc (hin _ (Or.inr rfl))
    cases hw with
    | delete hn =>
      have : ∃ k, s.jobs.jobs.find? (fun k => k.id = j.id) = some k := by
        cases hf : s.jobs.jobs.find? (fun k => k.id = j.id) with
        | some k => exact ⟨k, rfl⟩
        | none => have := List.find?_eq_none.mp hf j hj; simp at this
      exact this
    | drop _ _ hd =>
      rcases addDrops_inc hd with ⟨j, h⟩ | ⟨j, h⟩ <;> cases h
  · intro i hi hr
    rcases hr with rfl | ⟨n, rfl⟩
    · have hnd : (deletes (processAll v cap s.jobs s.counter order []).1).Nodup :=
        (deletes_processAll v cap s.jobs order s.counter []).nodup ho
      rw [hc, deletes_append] at hnd
      simp only [deletes] at hnd
      exact (List.nodup_append.mp hnd).2.2 id (mem_deletes.mpr hi) id (List.mem_cons_self ..) rfl
    · obtain ⟨j, _, _, hw⟩ := processAll_inc (hin _ (Or.inl hi))
      cases hw with
      | drop _ _ hd => rcases addDrops_inc hd with ⟨j, h⟩ | ⟨j, h⟩ <;> cases h

/-! ## What a pass writes about a job -/

/-- The increments of the first part that are about a job. -/
theorem processAll_about {cap : Nat} {s : State} {h : Obs → Prop} (hi : Inv h s) {v : View} {order : List Nat} {j : Job}
    (hj : j ∈ s.jobs.jobs) {i : Inc} (him : i ∈ (processAll v cap s.jobs s.counter order []).1) (hab : i.about = some j.id) :
    (j.next = j.tasks.length ∧ i = .delete j.id) ∨
    (∃ t, j.tasks[j.next]? = some t ∧ (∀ o ∈ t.ops, o.check.Holds v) ∧ t.cmds = [] ∧ i = .update { j with next := j.next + 1 }) := by
  have hcr : ∀ k, i = .create k → False := by
    intro k hk
    obtain ⟨m, hnew⟩ := new_processAll v cap s.jobs order s.counter []
    have h1 := hnew.bound k (mem_creates.mpr (by rw [← hk]; exact him))
    obtain ⟨j0, h0⟩ := hi.tab.ok j hj
    have h2 := hi.bound j0 h0.made
    rw [hk] at hab
    have h3 : k.id = j.id := by simpa [Inc.about] using hab
    rw [← h0.like.id] at h2
    omega
  obtain ⟨k, hk, _, hw⟩ := processAll_inc him
  cases hw with
  | delete hn =>
    have h3 : k.id = j.id := by simpa [Inc.about] using hab
    have := nodup_inj hi.tab.ids hk hj h3
    subst this
    exact Or.inl ⟨hn, rfl⟩
  | update ht hp hc =>
    have h3 : k.id = j.id := by simpa [Inc.about] using hab
    have := nodup_inj hi.tab.ids hk hj h3
    subst this
    exact Or.inr ⟨_, ht, hp, hc, rfl⟩
  | drop _ _ hd =>
    rcases addDrops_inc hd with ⟨k', hk'⟩ | ⟨r, hr⟩
    · exact absurd hk' (fun h => hcr k' h)
    · rw [hr] at hab; cases hab

/-- The answers that are about a job. -/
theorem sendAll_about {cap : Nat} {s : State} {h : Obs → Prop} (hi : Inv h s) {v : View} {order : List Nat} {reply : Nat → Bool → Reply} {j : Job}
    (hj : j ∈ s.jobs.jobs) {stores : List Nat} {i : Inc}
    (him : i ∈ sendAll (processAll v cap s.jobs s.counter order []).2 stores reply) (hab : i.about = some j.id) :
    ∃ t o x a, j.tasks[j.next]? = some t ∧ (∀ o ∈ t.ops, o.check.Holds v) ∧ o ∈ t.ops ∧ x.cmd ∈ o.cmds ∧
      x = ⟨o.store, j.id, j.next, x.cmd⟩ ∧ answer reply x = some a ∧ i ∈ x.result a := by
  obtain ⟨x, hx, a, ha, hr⟩ := sendAll_inc him
  have hxj : x.job = j.id := by
    rcases result_inc hr with ⟨st, rfl⟩ | ⟨st, rfl⟩ <;> simpa [Inc.about] using hab
  rcases processAll_sent hx with hx | ⟨k, hk, _, hd⟩
  · cases hx
  · have := nodup_inj hi.tab.ids hk hj (by rw [← hd.job, hxj])
    subst this
    obtain ⟨t, ht, hp, o, ho, hs, hc⟩ := hd.task
    refine ⟨t, o, x, a, ht, hp, ho, hc, ?_, ha, hr⟩
    cases x
    simp only at hs hxj hc ⊢
    rw [hs, hxj]; congr 1
    exact hd.step

/-- A job about which nothing is written stays. -/
theorem waits {cap : Nat} {s : State} {h : Obs → Prop} (hi : Inv h s) {v : View} {order : List Nat} {reply : Nat → Bool → Reply} {j : Job}
    (hj : j ∈ s.jobs.jobs) {t : Task} (ht : j.tasks[j.next]? = some t) (hp : ¬ ∀ o ∈ t.ops, o.check.Holds v) {s' : Jobs}
    (ha : s.jobs.applyAll (s.prepare cap (.pass v order reply)) = some s') : s'.get j.id = some j := by
  rw [applyAll_other ha, get_of_mem hi.tab.ids hj]
  intro i him hab
  have him' : i ∈ (processAll v cap s.jobs s.counter order []).1 ++ sendAll (processAll v cap s.jobs s.counter order []).2
      (storesOf (processAll v cap s.jobs s.counter order []).2) reply := him
  rcases List.mem_append.mp him' with hm | hm
  · rcases processAll_about hi hj hm hab with ⟨hn, _⟩ | ⟨t', ht', hp', _⟩
    · have := (List.getElem?_eq_some_iff.mp ht).1; omega
    · rw [ht] at ht'; cases ht'; exact hp hp'
  · obtain ⟨t', _, _, _, ht', hp', _⟩ := sendAll_about hi hj hm hab
    rw [ht] at ht'; cases ht'; exact hp hp'

theorem processAll_has {v : View} {cap : Nat} {s : Jobs} {j : Job} (hn : (s.jobs.map Job.id).Nodup) (hj : j ∈ s.jobs) :
    ∀ {ids : List Nat} {n : Nat} {acc : List Sent}, j.id ∈ ids →
    ∃ n' acc', ∀ i ∈ (processJob v cap n' j acc').1, i ∈ (processAll v cap s n ids acc).1
  | [], _, _, h => nomatch h
  | id :: ids, n, acc, h => by
    unfold processAll
    rcases List.mem_cons.mp h with rfl | h
    · rw [get_of_mem hn hj]
      exact ⟨n, acc, fun i hi => List.mem_append_left _ hi⟩
    · cases hg : s.get id with
      | none => exact processAll_has hn hj h
      | some k =>
        simp only
        obtain ⟨n', acc', hh⟩ := processAll_has hn hj (n := n + (processJob v cap n k acc).1.length) (acc := (processJob v cap n k acc).2) h
        exact ⟨n', acc', fun i hi => List.mem_append_right _ (hh i hi)⟩

theorem apply_has {id : Nat} {e : List Inc} {s s' : Jobs} {i : Inc} (hi : i ∈ e) (ha : s.applyAll e = some s')
    (hab : i.about = some id) (hall : ∀ k ∈ e, k.about = some id → k = i) {P : Jobs → Prop}
    (hP : ∀ a b : Jobs, a.get id = b.get id → (∀ x ∈ a.archive, x ∈ b.archive) → P a → P b)
    (hstep : ∀ a b : Jobs, a.apply i = some b → (a.get id = s.get id ∨ P a) → P b) : P s' := by
  -- the last occurrence
  induction e generalizing s with
  | nil => cases hi
  | cons k e ih =>
    unfold Jobs.applyAll at ha
    cases h1 : s.apply k with
    | none => rw [h1] at ha; cases ha
    | some s1 =>
      rw [h1, Option.bind_some] at ha
      have hrest : ∀ {s2 s3 : Jobs} {l : List Inc}, P s2 → s2.applyAll l = some s3 → (∀ k ∈ l, k.about = some id → k = i) → P s3 := by
        intro s2 s3 l
        induction l generalizing s2 with
        | nil => intro hp hl _; cases hl; exact hp
        | cons m l ihl =>
          intro hp hl hall'
          unfold Jobs.applyAll at hl
          cases h2 : s2.apply m with
          | none => rw [h2] at hl; cases hl
          | some s4 =>
            rw [h2, Option.bind_some] at hl
            refine ihl ?_ hl (fun k hk => hall' k (List.mem_cons_of_mem _ hk))
            by_cases hm : m.about = some id
            · have := hall' m (List.mem_cons_self ..) hm
              subst this
              exact hstep s2 s4 h2 (Or.inr hp)
            · exact hP s2 s4 (apply_other h2 hm).symm (apply_archive h2) hp
      by_cases hk : k.about = some id
      · have := hall k (List.mem_cons_self ..) hk
        subst this
        exact hrest (hstep s s1 h1 (Or.inl rfl)) ha (fun m hm => hall m (List.mem_cons_of_mem _ hm))
      · have hne : i ≠ k := fun h => hk (by rw [← h]; exact hab)
        have hie : i ∈ e := by
          rcases List.mem_cons.mp hi with h | h
          · exact absurd h hne
          · exact h
        refine ih hie ha (fun m hm => hall m (List.mem_cons_of_mem _ hm)) ?_
        intro a b hab' hor
        exact hstep a b hab' (hor.imp (fun h => h.trans (apply_other h1 hk)) (fun h => h))

/-! ## A step whose commands are all accepted -/

/-- How far a job is when some of the commands of its step were marked. -/
def Far (j : Job) (t : Task) (D : List Nat) (j' : Job) : Prop :=
  ∃ t', j'.id = j.id ∧ j'.tasks = j.tasks.set j.next t' ∧ t'.cmds = t.cmds ∧ (∀ o ∈ t'.ops, o.cmds.length ≤ 1) ∧
    ((j'.next = j.next + 1) ∨
     (j'.next = j.next ∧ (∀ o ∈ t'.ops, ∀ c ∈ o.cmds, c.id ∈ D → o.success = true) ∧ (D = [] ∨ t'.finished = false)))

theorem set_self {α : Type} : ∀ (l : List α) (i : Nat) (a : α), l[i]? = some a → l.set i a = l
  | [], _, _, h => by simp at h
  | b :: l, 0, a, h => by simp at h; simp [h]
  | b :: l, i + 1, a, h => by simp at h; simp [set_self l i a h]

theorem far_start {j : Job} {t : Task} (ht : j.tasks[j.next]? = some t) (h1 : ∀ o ∈ t.ops, o.cmds.length ≤ 1) : Far j t [] j :=
  ⟨t, rfl, (set_self _ _ _ ht).symm, rfl, h1, Or.inr ⟨rfl, (by intro o _ c _ h; cases h), Or.inl rfl⟩⟩

theorem far_find {j j' : Job} {t t' : Task} {n : Nat} (ht : j.tasks[j.next]? = some t)
    (hids : ((j.tasks.flatMap Task.cmds).map Cmd.id).Nodup) (htasks : j'.tasks = j.tasks.set j.next t') (hcm : t'.cmds = t.cmds)
    (hn : ∃ c ∈ t.cmds, c.id = n) : j'.find n = some j.next ∧ j'.tasks[j.next]? = some t' := by
  have hlt := (List.getElem?_eq_some_iff.mp ht).1
  have hget : j'.tasks[j.next]? = some t' := by rw [htasks, List.getElem?_set_self hlt]
  refine ⟨?_, hget⟩
  have hhas : t'.has n = true := task_has_iff.mpr (by rw [hcm]; exact hn)
  obtain ⟨k, hk⟩ := find_isSome hget hhas
  rw [hk]
  obtain ⟨u, hu, hun⟩ := find_some hk
  by_cases hkn : k = j.next
  · rw [hkn]
  · exfalso
    rw [htasks, List.getElem?_set_ne (fun h => hkn h.symm)] at hu
    obtain ⟨c, hc, hcn⟩ := task_has_iff.mp hun
    obtain ⟨d, hd, hdn⟩ := hn
    exact hkn (step_inj hids hu ht hc hd (by rw [hcn, hdn])).1

theorem far_step {j j' : Job} {t : Task} {D : List Nat} {n : Nat} {a b : Jobs} (ht : j.tasks[j.next]? = some t)
    (hids : ((j.tasks.flatMap Task.cmds).map Cmd.id).Nodup) (hf : Far j t D j') (hg : a.get j.id = some j')
    (hn : ∃ c ∈ t.cmds, c.id = n) (ha : a.apply (.status j.id n .done) = some b) :
    ∃ j'', b.get j.id = some j'' ∧ Far j t (n :: D) j'' := by
  obtain ⟨t', hid, htasks, hcm, h1, hor⟩ := hf
  obtain ⟨hfind, hget⟩ := far_find ht hids htasks hcm hn
  simp only [Jobs.apply, hg, Option.some.injEq] at ha
  subst ha
  simp only [Jobs.onStatus, hfind, hget]
  split
  · rename_i hnext
    have hor' : j'.next = j.next ∧ (∀ o ∈ t'.ops, ∀ c ∈ o.cmds, c.id ∈ D → o.success = true) ∧ (D = [] ∨ t'.finished = false) := by
      rcases hor with h | h
      · omega
      · exact h
    refine ⟨j'.done j.next t' n, ?_, ?_⟩
    · show (putJob (j'.done j.next t' n) a.jobs).find? (fun k => k.id = j.id) = _
      rw [← hid]; exact find_putJob_eq (j := j'.done j.next t' n) _
    · refine ⟨t'.mark n, hid, ?_, by rw [mark_cmds]; exact hcm, ?_, ?_⟩
      · show j'.tasks.set j.next (t'.mark n) = _
        rw [htasks, List.set_set]
      · intro o ho
        obtain ⟨o', ho', rfl⟩ := List.mem_map.mp ho
        have := h1 o' ho'
        split <;> exact this
      · show ((if (t'.mark n).finished then j'.next + 1 else j'.next) = j.next + 1) ∨
          ((if (t'.mark n).finished then j'.next + 1 else j'.next) = j.next ∧ _)
        by_cases hfin : (t'.mark n).finished = true
        · rw [if_pos hfin]; exact Or.inl (by omega)
        · rw [if_neg hfin]
          refine Or.inr ⟨hor'.1, ?_, Or.inr (by simpa using hfin)⟩
          intro o ho c hc hD
          obtain ⟨o', ho', rfl⟩ := List.mem_map.mp ho
          by_cases hh : o'.has n = true
          · simp [hh]
          · have hff : o'.has n = false := by simpa using hh
            simp only [hff] at hc ⊢
            have hcn : c.id ≠ n := fun h => hh (has_iff.mpr ⟨c, hc, h⟩)
            rcases List.mem_cons.mp hD with hD | hD
            · exact absurd hD hcn
            · exact hor'.2.1 o' ho' c hc hD
  · rename_i hnext
    refine ⟨j', hg, t', hid, htasks, hcm, h1, ?_⟩
    rcases hor with h | h
    · exact Or.inl h
    · exact absurd h.1.symm hnext

theorem far_all {j : Job} {t : Task} (ht : j.tasks[j.next]? = some t)
    (hids : ((j.tasks.flatMap Task.cmds).map Cmd.id).Nodup) : ∀ {e : List Inc} {a b : Jobs} {D : List Nat} {j' : Job},
    Far j t D j' → a.get j.id = some j' → a.applyAll e = some b →
    (∀ i ∈ e, i.about = some j.id → ∃ n, i = .status j.id n .done ∧ ∃ c ∈ t.cmds, c.id = n) →
    ∃ j'' D', b.get j.id = some j'' ∧ Far j t D' j'' ∧ (∀ n ∈ D, n ∈ D') ∧ ∀ n, Inc.status j.id n .done ∈ e → n ∈ D'
  | [], a, b, D, j', hf, hg, ha, _ => by
    cases ha
    exact ⟨j', D, hg, hf, fun _ h => h, fun n h => nomatch h⟩
  | i :: e, a, b, D, j', hf, hg, ha, hall => by
    unfold Jobs.applyAll at ha
    cases h1 : a.apply i with
    | none => rw [h1] at ha; cases ha
    | some a1 =>
      rw [h1, Option.bind_some] at ha
      by_cases hab : i.about = some j.id
      · obtain ⟨n, hin, hn⟩ := hall i (List.mem_cons_self ..) hab
        subst hin
        obtain ⟨j1, hg1, hf1⟩ := far_step ht hids hf hg hn h1
        obtain ⟨j2, D2, hg2, hf2, hs, hd⟩ := far_all ht hids hf1 hg1 ha (fun k hk => hall k (List.mem_cons_of_mem _ hk))
        refine ⟨j2, D2, hg2, hf2, fun m hm => hs m (List.mem_cons_of_mem _ hm), ?_⟩
        intro m hm
        rcases List.mem_cons.mp hm with hm | hm
        · cases hm; exact hs _ (List.mem_cons_self ..)
        · exact hd m hm
      · have hg1 : a1.get j.id = some j' := by rw [apply_other h1 hab]; exact hg
        obtain ⟨j2, D2, hg2, hf2, hs, hd⟩ := far_all ht hids hf hg1 ha (fun k hk => hall k (List.mem_cons_of_mem _ hk))
        refine ⟨j2, D2, hg2, hf2, hs, ?_⟩
        intro m hm
        rcases List.mem_cons.mp hm with hm | hm
        · exact absurd (by rw [← hm]; rfl) hab
        · exact hd m hm

theorem far_end {j j' : Job} {t : Task} {D : List Nat} (hf : Far j t D j') (hne : t.cmds ≠ []) (hall : ∀ c ∈ t.cmds, c.id ∈ D) :
    j'.next = j.next + 1 := by
  obtain ⟨t', hid, htasks, hcm, h1, hor⟩ := hf
  rcases hor with h | ⟨_, hs, hD⟩
  · exact h
  · exfalso
    rcases hD with hD | hD
    · obtain ⟨c, hc⟩ := List.exists_mem_of_ne_nil _ hne
      have := hall c hc
      rw [hD] at this; cases this
    · have : t'.finished = true := by
        apply List.all_eq_true.mpr
        intro o ho
        apply Bool.or_eq_true_iff.mpr
        cases hc : o.cmds with
        | nil => exact Or.inr rfl
        | cons c l =>
          refine Or.inl (hs o ho c (by rw [hc]; exact List.mem_cons_self ..) (hall c ?_))
          rw [← hcm]
          exact List.mem_flatMap.mpr ⟨o, ho, by rw [hc]; exact List.mem_cons_self ..⟩
      rw [this] at hD; cases hD

theorem storesOf_mem : ∀ {l : List Sent} {x : Sent}, x ∈ l → x.store ∈ storesOf l
  | [], _, h => nomatch h
  | y :: l, x, h => by
    unfold storesOf
    rcases List.mem_cons.mp h with rfl | h
    · split
      · assumption
      · exact List.mem_cons_self ..
    · have := storesOf_mem h
      split
      · exact this
      · exact List.mem_cons_of_mem _ this

theorem sendAll_has {acc : List Sent} {reply : Nat → Bool → Reply} {x : Sent} (hx : x ∈ acc) {a : Res} (ha : answer reply x = some a) :
    ∀ i ∈ x.result a, i ∈ sendAll acc (storesOf acc) reply := by
  intro i hi
  have hs := storesOf_mem hx
  have hto : ∀ (xs : List Sent) (b : Bool), x ∈ xs → decide (x.cmd.type = .create) = b → i ∈ sendTo xs (reply x.store b) := by
    intro xs b hxs hb
    unfold answer at ha
    rw [hb] at ha
    cases hr : reply x.store b with
    | none => rw [hr] at ha; cases ha
    | some f =>
      rw [hr] at ha
      refine List.mem_flatMap.mpr ⟨x, hxs, ?_⟩
      have ha' : f x.cmd = some a := ha
      rw [ha']; exact hi
  unfold sendAll
  by_cases hc : x.cmd.type = .create
  · apply List.mem_append_left
    refine List.mem_flatMap.mpr ⟨x.store, hs, hto _ true ?_ (decide_eq_true hc)⟩
    exact List.mem_filter.mpr ⟨hx, by simp [Sent.isCreate, hc]⟩
  · apply List.mem_append_right
    refine List.mem_flatMap.mpr ⟨x.store, hs, hto _ false ?_ (decide_eq_false hc)⟩
    have hxf : x ∈ acc.filter (fun y => decide (y.store = x.store) && !y.isCreate) :=
      List.mem_filter.mpr ⟨hx, by simp [Sent.isCreate, hc]⟩
    rcases Bool.eq_false_or_eq_true x.isDelete with hd | hd
    · exact List.mem_append_right _ (List.mem_filter.mpr ⟨hxf, hd⟩)
    · exact List.mem_append_left _ (List.mem_filter.mpr ⟨hxf, by simp [hd]⟩)

end Verif.Job
