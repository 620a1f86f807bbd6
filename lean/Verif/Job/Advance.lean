import Verif.Job.Progress

/-!
# Jobs of the coordinator: jobs go on (lemmas)
-/

namespace Verif.Job

theorem flatMap_perm {α β : Type} {f : α → List β} : ∀ {l l0 : List α}, l.length = l0.length →
    (∀ (i : Nat) a b, l0[i]? = some a → l[i]? = some b → (f b).Perm (f a)) → (l.flatMap f).Perm (l0.flatMap f)
  | [], [], _, _ => List.Perm.refl _
  | [], _ :: _, h, _ => by simp at h
  | _ :: _, [], h, _ => by simp at h
  | b :: l, a :: l0, h, hp => by
    rw [List.flatMap_cons, List.flatMap_cons]
    refine (hp 0 a b rfl rfl).append (flatMap_perm (by simpa using h) ?_)
    intro i x y hx hy
    exact hp (i + 1) x y (by simpa using hx) (by simpa using hy)

theorem Like.ids {j0 j : Job} (h : Like j0 j) (hs : Sound j0) : ((j.tasks.flatMap Task.cmds).map Cmd.id).Nodup := by
  have h1 := hs.ids
  rw [List.map_flatMap] at h1 ⊢
  refine (flatMap_perm h.length ?_).nodup_iff.mpr h1
  intro i a b ha hb
  have hp := (h.task i a b ha hb).cmds.map Cmd.id
  rw [List.map_map, List.map_map] at hp
  exact hp

theorem addDrops_ok {v : View} : ∀ {l : List Nat} {n : Nat}, (∀ r ∈ l, ∃ q, v.regions r = some q) → (addDrops v n l).1 = true
  | [], _, _ => rfl
  | r :: l, n, h => by
    unfold addDrops
    obtain ⟨q, hq⟩ := h r (List.mem_cons_self ..)
    have : ∃ is, dropFinal v n r = some is := by
      unfold dropFinal
      rw [hq]
      simp only
      split <;> exact ⟨_, rfl⟩
    obtain ⟨is, his⟩ := this
    rw [his]
    exact addDrops_ok (fun k hk => h k (List.mem_cons_of_mem _ hk))

theorem all_holds {v : View} {t : Task} (h : ∀ o ∈ t.ops, o.check.Holds v) : ¬ t.ops.all (fun o => o.check.pass v) = false := by
  rw [Bool.not_eq_false]
  exact List.all_eq_true.mpr (fun o ho => (pass_iff v _).mpr (h o ho))

/-- A step without commands. -/
theorem advance_empty {cap : Nat} {s : State} {h : Obs → Prop} (hi : Inv h s) {v : View} {order : List Nat} {reply : Nat → Bool → Reply}
    {j : Job} (hj : j ∈ s.jobs.jobs) (hjo : j.id ∈ order) {t : Task} (ht : j.tasks[j.next]? = some t)
    (hp : ∀ o ∈ t.ops, o.check.Holds v) (hd : ∀ r ∈ t.drops, ∃ q, v.regions r = some q) (hc : t.cmds = []) {s' : Jobs}
    (ha : s.jobs.applyAll (s.prepare cap (.pass v order reply)) = some s') :
    s'.get j.id = some { j with next := j.next + 1 } := by
  have hmem : Inc.update { j with next := j.next + 1 } ∈ s.prepare cap (.pass v order reply) := by
    obtain ⟨n', acc', hh⟩ := processAll_has (v := v) (cap := cap) (n := s.counter) (acc := []) hi.tab.ids hj hjo
    refine List.mem_append_left _ (hh _ ?_)
    unfold processJob
    have hlt := (List.getElem?_eq_some_iff.mp ht).1
    rw [if_neg (by omega), ht]
    simp only
    rw [if_neg (all_holds hp), if_neg (by rw [addDrops_ok hd]; simp), if_pos (by rw [hc]; rfl)]
    exact List.mem_append_right _ (List.mem_singleton.mpr rfl)
  refine apply_has (id := j.id) (P := fun x => x.get j.id = some { j with next := j.next + 1 }) hmem ha rfl ?_ ?_ ?_
  · intro k hk hab
    have hk' : k ∈ (processAll v cap s.jobs s.counter order []).1 ++ sendAll (processAll v cap s.jobs s.counter order []).2
      (storesOf (processAll v cap s.jobs s.counter order []).2) reply := hk
    rcases List.mem_append.mp hk' with hm | hm
    · rcases processAll_about hi hj hm hab with ⟨hn, _⟩ | ⟨t', ht', _, _, he⟩
      · have := (List.getElem?_eq_some_iff.mp ht).1; omega
      · exact he
    · obtain ⟨t', o, x, _, ht', _, ho, hx, _⟩ := sendAll_about hi hj hm hab
      rw [ht] at ht'; cases ht'
      have : x.cmd ∈ t.cmds := List.mem_flatMap.mpr ⟨o, ho, hx⟩
      rw [hc] at this; cases this
  · intro a b hab _ hpa
    rw [← hab]; exact hpa
  · intro a b hab _
    simp only [Jobs.apply, Option.some.injEq] at hab
    subst hab
    exact find_putJob_eq (j := { j with next := j.next + 1 }) _

/-- A job with all steps done. -/
theorem advance_end {cap : Nat} {s : State} {h : Obs → Prop} (hi : Inv h s) {v : View} {order : List Nat} {reply : Nat → Bool → Reply}
    {j : Job} (hj : j ∈ s.jobs.jobs) (hjo : j.id ∈ order) (hn : j.next = j.tasks.length) {s' : Jobs}
    (ha : s.jobs.applyAll (s.prepare cap (.pass v order reply)) = some s') :
    s'.get j.id = none ∧ (j, true) ∈ s'.archive := by
  have hmem : Inc.delete j.id ∈ s.prepare cap (.pass v order reply) := by
    obtain ⟨n', acc', hh⟩ := processAll_has (v := v) (cap := cap) (n := s.counter) (acc := []) hi.tab.ids hj hjo
    refine List.mem_append_left _ (hh _ ?_)
    unfold processJob
    rw [if_pos hn]
    exact List.mem_singleton.mpr rfl
  refine apply_has (id := j.id) (P := fun x => x.get j.id = none ∧ (j, true) ∈ x.archive) hmem ha rfl ?_ ?_ ?_
  · intro k hk hab
    have hk' : k ∈ (processAll v cap s.jobs s.counter order []).1 ++ sendAll (processAll v cap s.jobs s.counter order []).2
      (storesOf (processAll v cap s.jobs s.counter order []).2) reply := hk
    have hnone : j.tasks[j.next]? = none := by rw [hn]; simp
    rcases List.mem_append.mp hk' with hm | hm
    · rcases processAll_about hi hj hm hab with ⟨_, he⟩ | ⟨t', ht', _⟩
      · exact he
      · rw [hnone] at ht'; cases ht'
    · obtain ⟨t', o, x, _, ht', _⟩ := sendAll_about hi hj hm hab
      rw [hnone] at ht'; cases ht'
  · intro a b hab harch hpa
    exact ⟨by rw [← hab]; exact hpa.1, harch _ hpa.2⟩
  · intro a b hab hor
    rcases hor with hg | hg
    · rw [get_of_mem hi.tab.ids hj] at hg
      simp only [Jobs.apply, hg, Option.some.injEq] at hab
      subst hab
      exact ⟨find_erase_eq, List.mem_cons_self ..⟩
    · simp only [Jobs.apply, hg.1] at hab; cases hab

/-- A step with commands, all accepted. -/
theorem advance_cmds {cap : Nat} {s : State} {h : Obs → Prop} (hi : Inv h s) {v : View} {order : List Nat} {reply : Nat → Bool → Reply}
    {j : Job} (hj : j ∈ s.jobs.jobs) {t : Task} (ht : j.tasks[j.next]? = some t) (hne : t.cmds ≠ [])
    (hall : ∀ o ∈ t.ops, ∀ c ∈ o.cmds, (⟨o.store, j.id, j.next, c⟩ : Sent) ∈ s.sends cap (.pass v order reply) ∧
      ∃ code, answer reply ⟨o.store, j.id, j.next, c⟩ = some (.code code) ∧ Accepts c.type code) {s' : Jobs}
    (ha : s.jobs.applyAll (s.prepare cap (.pass v order reply)) = some s') :
    ∃ j', s'.get j.id = some j' ∧ j'.next = j.next + 1 ∧ j'.tasks.length = j.tasks.length := by
  obtain ⟨j0, h0⟩ := hi.tab.ok j hj
  obtain ⟨t0, ht0, htl⟩ := h0.like.get ht
  have hids := h0.like.ids (hi.hist.sound j0 h0.made)
  obtain ⟨j', D, hg, hf, _, hD⟩ := far_all ht hids (far_start ht htl.single) (get_of_mem hi.tab.ids hj) ha (by
    intro i him hab
    have him' : i ∈ (processAll v cap s.jobs s.counter order []).1 ++ sendAll (processAll v cap s.jobs s.counter order []).2
      (storesOf (processAll v cap s.jobs s.counter order []).2) reply := him
    rcases List.mem_append.mp him' with hm | hm
    · rcases processAll_about hi hj hm hab with ⟨hn, _⟩ | ⟨t', ht', _, hc, _⟩
      · have := (List.getElem?_eq_some_iff.mp ht).1; omega
      · rw [ht] at ht'; cases ht'; exact absurd hc hne
    · obtain ⟨t', o, x, a, ht', _, ho, hx, he, hans, hr⟩ := sendAll_about hi hj hm hab
      rw [ht] at ht'; cases ht'
      obtain ⟨_, code, hcode, hacc⟩ := hall o ho x.cmd hx
      rw [← he] at hcode
      rw [hans] at hcode; cases hcode
      simp only [Sent.result, List.mem_singleton] at hr
      rw [(accepted_iff _ _).mpr hacc] at hr
      refine ⟨x.cmd.id, ?_, x.cmd, List.mem_flatMap.mpr ⟨o, ho, hx⟩, rfl⟩
      rw [hr, he]; rfl)
  have hlen : j'.tasks.length = j.tasks.length := by
    obtain ⟨t', _, htasks, _⟩ := hf
    rw [htasks, List.length_set]
  refine ⟨j', hg, far_end hf hne ?_, hlen⟩
  intro c hc
  obtain ⟨o, ho, hco⟩ := List.mem_flatMap.mp hc
  obtain ⟨hs, code, hcode, hacc⟩ := hall o ho c hco
  refine hD c.id (List.mem_append_right _ (sendAll_has hs hcode _ ?_))
  simp only [Sent.result, List.mem_singleton]
  rw [(accepted_iff _ _).mpr hacc]; rfl

/-! ## Which commands are sent -/

theorem gens_all {cap : Nat} : ∀ {l acc : List Sent}, acc.length + l.length ≤ cap + 1 → l.foldl (gen cap) acc = acc ++ l
  | [], acc, _ => by simp
  | x :: l, acc, h => by
    have hg : gen cap acc x = acc ++ [x] := by
      unfold gen
      rw [if_neg]
      have := List.length_filter_le (fun y : Sent => decide (y.store = x.store)) acc
      simp only [List.length_cons] at h
      omega
    rw [List.foldl_cons, hg, gens_all (by simp only [List.length_append, List.length_cons, List.length_nil] at h ⊢; omega)]
    simp

theorem gens_keep {cap : Nat} {y : Sent} : ∀ {l acc : List Sent}, y ∈ acc → y ∈ l.foldl (gen cap) acc
  | [], _, h => h
  | x :: l, acc, h => by
    refine gens_keep (l := l) ?_
    unfold gen
    split
    · exact h
    · exact List.mem_append_left _ h

theorem processJob_keep {v : View} {cap n : Nat} {j : Job} {acc : List Sent} {y : Sent} (h : y ∈ acc) : y ∈ (processJob v cap n j acc).2 := by
  unfold processJob
  split
  · exact h
  · split
    · exact h
    · split
      · exact h
      · simp only
        split
        · exact gens_keep h
        · split <;> exact gens_keep h

theorem processAll_keep {v : View} {cap : Nat} {s : Jobs} {y : Sent} : ∀ {ids : List Nat} {n : Nat} {acc : List Sent}, y ∈ acc →
    y ∈ (processAll v cap s n ids acc).2
  | [], _, _, h => h
  | id :: ids, n, acc, h => by
    unfold processAll
    split
    · exact processAll_keep h
    · exact processAll_keep (processJob_keep h)

/-- How many commands the current step of a job has. -/
def Job.size (j : Job) : Nat :=
  match j.tasks[j.next]? with
  | .none => 0
  | some t => t.cmds.length

theorem sends_length (t : Task) (a b : Nat) : (t.sends a b).length = t.cmds.length := by
  unfold Task.sends Task.cmds
  induction t.ops with
  | nil => rfl
  | cons o l ih => rw [List.flatMap_cons, List.flatMap_cons, List.length_append, List.length_append, ih, List.length_map]

theorem processJob_length {v : View} {cap n : Nat} {j : Job} {acc : List Sent} (h : acc.length + j.size ≤ cap + 1) :
    (processJob v cap n j acc).2.length ≤ acc.length + j.size := by
  unfold processJob
  split
  · simp
  · split
    · simp
    · rename_i t ht
      have hsz : j.size = t.cmds.length := by unfold Job.size; rw [ht]
      split
      · simp
      · have hg := gens_all (cap := cap) (l := t.sends j.id j.next) (acc := acc) (by rw [sends_length, ← hsz]; exact h)
        simp only
        split
        · rw [hg, List.length_append, sends_length, hsz]; exact Nat.le_refl _
        · split <;> (rw [hg, List.length_append, sends_length, hsz]; exact Nat.le_refl _)

/-- How many commands the current steps of jobs have. -/
def sizes (s : Jobs) : List Nat → Nat
  | [] => 0
  | id :: ids => (match s.get id with | .none => 0 | some j => j.size) + sizes s ids

theorem processAll_sends {v : View} {cap : Nat} {s : Jobs} {j : Job} (hn : (s.jobs.map Job.id).Nodup) (hj : j ∈ s.jobs)
    {t : Task} (ht : j.tasks[j.next]? = some t) (hp : ∀ o ∈ t.ops, o.check.Holds v) {o : Op} (ho : o ∈ t.ops) {c : Cmd} (hc : c ∈ o.cmds) :
    ∀ {ids : List Nat} {n : Nat} {acc : List Sent}, j.id ∈ ids → acc.length + sizes s ids ≤ cap + 1 →
    (⟨o.store, j.id, j.next, c⟩ : Sent) ∈ (processAll v cap s n ids acc).2
  | [], _, _, h, _ => nomatch h
  | id :: ids, n, acc, h, hle => by
    unfold sizes at hle
    unfold processAll
    by_cases hid : id = j.id
    · subst hid
      rw [get_of_mem hn hj] at hle ⊢
      simp only at hle ⊢
      refine processAll_keep ?_
      have hsz : j.size = t.cmds.length := by unfold Job.size; rw [ht]
      have hlt := (List.getElem?_eq_some_iff.mp ht).1
      have hmem : (⟨o.store, j.id, j.next, c⟩ : Sent) ∈ (t.sends j.id j.next).foldl (gen cap) acc := by
        rw [gens_all (by rw [sends_length]; omega)]
        refine List.mem_append_right _ (List.mem_flatMap.mpr ⟨o, ho, List.mem_map.mpr ⟨c, hc, rfl⟩⟩)
      unfold processJob
      rw [if_neg (by omega), ht]
      simp only
      rw [if_neg (all_holds hp)]
      split
      · exact hmem
      · split <;> exact hmem
    · have h' : j.id ∈ ids := by
        rcases List.mem_cons.mp h with h | h
        · exact absurd h.symm hid
        · exact h
      cases hg : s.get id with
      | none =>
        simp only [hg] at hle ⊢
        exact processAll_sends hn hj ht hp ho hc h' (by omega)
      | some k =>
        simp only [hg] at hle ⊢
        have hl := processJob_length (v := v) (cap := cap) (n := n) (j := k) (acc := acc) (by omega)
        exact processAll_sends hn hj ht hp ho hc h' (by omega)

end Verif.Job
