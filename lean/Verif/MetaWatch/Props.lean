import Verif.MetaWatch.Trim

/-!
# C115: a watcher of metadata changes gets every change once, in order

`delivered`, `matching` and `puts` are in `Spec.lean`.  A history begins with a record `log` of
earlier changes and no watch; `.create` is the creation, `.put` and `.notify` are a change of
metadata, `.ask c` and `.enter c` are a poll by `c`.
-/

namespace Verif.MetaWatch

/-! ## What holds -/

/-- **C115 (from now)**.  A watch created without a start revision: after any history in which the
watch was not cancelled and no record was trimmed, one poll more and the client has got exactly the
watched changes since the creation, each once, in order. -/
theorem C115_from_now (log : List Rec) (types : List Nat) (l : List Op) (t : St) (c : Nat)
    (h : run (St.init log) (.create 0 types :: l) = some t)
    (hl : t.live = true) (hb : t.busy = none) (hn : ∀ n, .trim n ∉ l) :
    ∃ u, run t [.ask c, .enter c] = some u ∧ delivered u = matching types (puts l) := by
  simp only [run, step, St.init] at h
  have h0 : Inv { St.init log with phase := .done, live := true, types := types,
                                   created := some true } [] :=
    ⟨rfl, (by intro r hr; cases hr), (by intro b hb; cases hb), rfl⟩
  have h1 := h0.run (l := l) (t := t) h hl hn (fun rev evs hm => put_pos h rev evs hm)
  exact poll_all h1.1 hl hb c

example : ∃ t, run (St.init [(3, [1])])
      [.create 0 [1, 2], .put 4 [1, 5], .notify, .ask 7, .enter 7, .put 5 [9], .notify,
       .put 6 [2, 1], .notify, .ask 7, .enter 7, .ask 7, .enter 7, .put 7 [2], .notify] = some t ∧
    t.live = true ∧ t.busy = none ∧ delivered t = [(4, 1), (6, 2), (6, 1), (7, 2)] ∧
    t.out.map (·.to) = [[7], [7], [7]] := by
  refine ⟨_, rfl, ?_⟩
  decide +kernel

/-- **C115 (order)**.  At every moment what has been sent is a beginning of the watched changes in
their order: nothing is sent twice, late or in place of something else. -/
theorem C115_prefix (log : List Rec) (types : List Nat) (l : List Op) (t : St)
    (h : run (St.init log) (.create 0 types :: l) = some t)
    (hl : t.live = true) (hn : ∀ n, .trim n ∉ l) :
    delivered t <+: matching types (puts l) := by
  simp only [run, step, St.init] at h
  have h0 : Inv { St.init log with phase := .done, live := true, types := types,
                                   created := some true } [] :=
    ⟨rfl, (by intro r hr; cases hr), (by intro b hb; cases hb), rfl⟩
  have h1 := h0.run (l := l) (t := t) h hl hn (fun rev evs hm => put_pos h rev evs hm)
  have h2 := h1.1.sum
  rw [List.append_assoc] at h2
  exact ⟨_, h2⟩

/-- **C115 (waiting polls are answered)**.  A change of a watched type answers all polls that wait,
with this change in the answer. -/
theorem C115_answered (s : St) (rev : Nat) (evs : List Nat) (t : St)
    (h : run s [.put rev evs, .notify] = some t)
    (hl : s.live = true) (hw : s.waiting ≠ []) (hh : ∃ e ∈ evs, e ∈ s.types) :
    t.waiting = [] ∧ t.pending = [] ∧ ∃ b, t.out = s.out ++ [b] ∧ b.to = s.waiting ∧
      ∀ e ∈ evs, e ∈ s.types → (rev, e) ∈ b.events := by
  simp only [run, step] at h
  split at h
  · cases h
  · rename_i u hu
    split at hu
    · rename_i hc
      simp only [Bool.and_eq_true, decide_eq_true_eq] at hc
      cases hu
      have hhit : hit s.types evs = true := by
        obtain ⟨e, he, ht⟩ := hh
        simp only [hit, List.any_eq_true]
        exact ⟨e, he, by simpa using ht⟩
      dsimp only at h
      rw [if_pos (by simp [hl, hhit]), if_neg (by simpa using hw)] at h
      cases h
      refine ⟨rfl, rfl, _, rfl, rfl, ?_⟩
      intro e he ht
      rw [gather_append, gather_one (lookup_last (lookup_fresh hc.1.2))]
      simp [matching, he, ht]
    · cases hu

example : ∃ t, run { St.init [(3, [1])] with live := true, types := [1], waiting := [7, 8],
                                             phase := .done }
      [.put 4 [2, 1], .notify] = some t ∧
    t.out = [⟨[7, 8], [(4, 1)], .events⟩] := by
  refine ⟨_, rfl, ?_⟩
  decide +kernel

/-- **C115 (from a revision)**.  A watch created, with nothing in between, from a revision that is
recorded, when the last record (that of the creation itself) has no watched change: one poll more
and the client has got exactly the watched changes from that revision on, each once, in order. -/
theorem C115_history_partial (log : List Rec) (own start : Nat) (evs : List Nat)
    (types : List Nat) (l : List Op) (t : St) (c : Nat)
    (hasc : (log ++ [(own, evs)]).Pairwise fun a b => a.1 < b.1)
    (hown : ∀ e ∈ evs, e ∉ types)
    (hs : ∃ r ∈ log, r.1 = start) (h0 : 0 < start)
    (h : run (St.init (log ++ [(own, evs)])) (.create start types :: .read :: .prepend :: l) =
      some t)
    (hl : t.live = true) (hb : t.busy = none) (hn : ∀ n, .trim n ∉ l) :
    ∃ u, run t [.ask c, .enter c] = some u ∧
      delivered u =
        matching types ((log ++ [(own, evs)]).filter fun r => decide (start ≤ r.1)) ++
          matching types (puts l) := by
  obtain ⟨r0, hr0, hst⟩ := hs
  obtain ⟨a, b, rfl⟩ := List.append_of_mem hr0
  have hasc' := hasc
  rw [List.pairwise_append] at hasc
  obtain ⟨hlog, -, hlast⟩ := hasc
  have hltown : ∀ x ∈ a ++ r0 :: b, x.1 < own := fun x hx => hlast x hx _ List.mem_cons_self
  rw [List.pairwise_append] at hlog
  obtain ⟨-, hb0, hab⟩ := hlog
  have ha : ∀ x ∈ a, x.1 < start := fun x hx => hst ▸ hab x hx r0 List.mem_cons_self
  have hbgt : ∀ x ∈ b, start < x.1 := fun x hx => hst ▸ (List.pairwise_cons.mp hb0).1 x hx
  have hfil : (a ++ r0 :: b).filter (fun r => decide (start ≤ r.1)) = r0 :: b := by
    rw [List.filter_append, List.filter_eq_nil_iff.mpr, List.filter_eq_self.mpr]
    · rfl
    · intro x hx
      rcases List.mem_cons.mp hx with rfl | hx
      · simp [hst]
      · have := hbgt x hx
        simp only [decide_eq_true_eq]
        omega
    · intro x hx
      have := ha x hx
      simp only [decide_eq_true_eq]
      omega
  have hrange : range ((a ++ r0 :: b) ++ [(own, evs)]) start = r0 :: b := by
    unfold range
    rw [List.getLast?_append, List.filter_append]
    have h1 : ([(own, evs)] : List Rec).filter (fun r => decide (start ≤ r.1) &&
        decide (r.1 < own)) = [] := by simp
    have h2 : (a ++ r0 :: b).filter (fun r => decide (start ≤ r.1) && decide (r.1 < own)) =
        (a ++ r0 :: b).filter (fun r => decide (start ≤ r.1)) := by
      apply List.filter_congr
      intro x hx
      simp [hltown x hx]
    show (a ++ r0 :: b).filter (fun r => decide (start ≤ r.1) && decide (r.1 < own)) ++
      ([(own, evs)] : List Rec).filter (fun r => decide (start ≤ r.1) && decide (r.1 < own)) = _
    rw [h1, h2, hfil, List.append_nil]
  have hhead : ¬ (start < ((a ++ r0 :: b ++ [(own, evs)]).head?.map (·.1)).getD 0) := by
    cases a with
    | nil => simp [hst]
    | cons x a' =>
      have := ha x List.mem_cons_self
      simp
      omega
  generalize hL : a ++ r0 :: b ++ [(own, evs)] = L at h hrange hhead hasc' ⊢
  have hne : start ≠ 0 := by omega
  simp only [run] at h
  rw [step_create, if_neg (by omega), if_neg hne] at h
  dsimp only at h
  have hread : step { St.init L with phase := .reading, live := true, start := start,
                                     types := types } .read =
      some { St.init L with
        phase := Phase.supplying (((r0 :: b).filter fun x => hit types x.2).map (·.1)),
        live := true, start := start, types := types } := by
    simp only [step]
    show (match range L start with | [] => _ | r :: l => _) = _
    rw [hrange]
    dsimp only
    rw [if_neg (by omega)]
  rw [hread] at h
  dsimp only [step, St.init] at h
  have hfresh : ∀ x ∈ r0 :: b, L.lookup x.1 = some x.2 := by
    intro x hx
    have hmem : x ∈ L := by
      rw [← hL]
      exact List.mem_append_left _ (List.mem_append_right _ hx)
    clear hL h hrange hhead hread
    induction L with
    | nil => cases hmem
    | cons y L ih =>
      obtain ⟨k, v⟩ := y
      rw [List.pairwise_cons] at hasc'
      rcases List.mem_cons.mp hmem with rfl | hmem
      · simp [List.lookup]
      · have := hasc'.1 x hmem
        have hk : (x.1 == k) = false := by
          simp only [beq_eq_false_iff_ne, ne_eq]
          dsimp only at this
          omega
        simp only [List.lookup, hk]
        exact ih hasc'.2 hmem
  have hg : ∀ m : List Rec, (∀ x ∈ m, L.lookup x.1 = some x.2) →
      gather L types ((m.filter fun x => hit types x.2).map (·.1)) = matching types m := by
    intro m
    induction m with
    | nil => intro _; rfl
    | cons x m ih =>
      intro hx
      have h1 := ih fun y hy => hx y (List.mem_cons_of_mem _ hy)
      have h2 : matching types (x :: m) = matching types [x] ++ matching types m := by
        simp [matching]
      rw [h2, ← h1]
      by_cases hh : hit types x.2 = true
      · rw [List.filter_cons_of_pos (by exact hh), List.map_cons]
        have h3 := gather_append L types [x.1] ((m.filter fun x => hit types x.2).map (·.1))
        rw [gather_one (hx x List.mem_cons_self)] at h3
        exact h3
      · rw [List.filter_cons_of_neg (by exact hh)]
        have h4 : matching types [x] = [] := by
          simp only [matching, List.flatMap_cons, List.flatMap_nil]
          rw [miss (by simpa using hh)]
          rfl
        rw [h4, List.nil_append]
  have h1 : Inv { log := L, busy := none, phase := .done, live := true, start := start,
                  types := types, pending := ((r0 :: b).filter fun x => hit types x.2).map (·.1) ++ [],
                  waiting := [], entering := [], created := some true, out := [] }
      (matching types (r0 :: b)) := by
    refine ⟨rfl, ?_, (by intro b hb; cases hb), ?_⟩
    · intro r hr
      simp only [List.append_nil, List.mem_map, List.mem_filter] at hr
      obtain ⟨x, ⟨hx, -⟩, rfl⟩ := hr
      rw [hfresh x hx]; rfl
    · show [] ++ gather L types _ ++ [] = _
      rw [List.append_nil, List.append_nil, List.nil_append]
      exact hg _ hfresh
  have hr0L : r0 ∈ L := by
    rw [← hL]
    exact List.mem_append_left _ hr0
  have h2 := h1.run (l := l) (t := t) h hl hn
    (fun rev evs hm => hst ▸ put_gt h hn hr0L rev evs hm)
  have hlastno : matching types (([(own, evs)] : List Rec).filter
      fun r => decide (start ≤ r.1)) = [] := by
    have h3 : (evs.filter fun e => types.contains e) = [] := by
      rw [List.filter_eq_nil_iff]
      intro e he
      simpa using hown e he
    unfold matching
    rw [List.flatMap_eq_nil_iff]
    intro x hx
    rw [List.mem_singleton.mp (List.mem_filter.mp hx).1, h3]
    rfl
  rw [← hL, List.filter_append, hfil, matching_append, hlastno, List.append_nil]
  exact poll_all h2.1 hl hb c

example : ∃ t, run (St.init [(3, [1]), (4, [9]), (5, [1, 2]), (6, [])])
      [.create 3 [1], .read, .prepend, .put 7 [1], .notify, .ask 7, .enter 7] = some t ∧
    t.created = some true ∧ t.live = true ∧ delivered t = [(3, 1), (5, 1), (7, 1)] := by
  refine ⟨_, rfl, ?_⟩
  decide +kernel

/-- **C115 (trimmed)**.  A poll that finds changes waiting is answered at once, together with all
polls that wait; it is told that the watch is cancelled exactly if one of the revisions is no longer
recorded, and then the watch is gone. -/
theorem C115_trimmed (s t : St) (c : Nat) (h : step s (.enter c) = some t)
    (hp : s.pending ≠ []) :
    ∃ b, t.out = s.out ++ [b] ∧ c ∈ b.to ∧ (∀ w ∈ s.waiting, w ∈ b.to) ∧ t.waiting = [] ∧
      (b.kind = .canceled ↔ ∃ r ∈ s.pending, s.log.lookup r = none) ∧
      (b.kind = .canceled → t.live = false) ∧ (b.kind ≠ .canceled → t.live = s.live) := by
  simp only [step] at h
  split at h
  · rw [if_neg (by simpa using hp)] at h
    cases h
    refine ⟨_, rfl, List.mem_cons_self, fun w hw => List.mem_cons_of_mem _ hw, rfl, ?_, ?_, ?_⟩
    · dsimp only
      unfold kindOf
      split
      · rename_i hc
        simpa using hc
      · rename_i hc
        simpa using hc
    · intro hk
      dsimp only at hk ⊢
      rw [hk]
      simp
    · intro hk
      dsimp only at hk ⊢
      have : kindOf s.log s.pending = .events := by
        unfold kindOf at hk ⊢
        split
        · rename_i hc
          rw [if_pos hc] at hk
          exact absurd rfl hk
        · rfl
      rw [this]
      simp
  · cases h

example : ∃ t, run (St.init [(3, [1])])
      [.create 0 [1], .put 4 [1], .notify, .put 5 [1], .notify, .ask 7, .trim 2, .enter 7] =
        some t ∧
    t.out = [⟨[7], [(5, 1)], .canceled⟩] ∧ t.live = false := by
  refine ⟨_, rfl, ?_⟩
  decide +kernel

/-- **C115 (order, trimmed or cancelled)**.  Whatever is trimmed or cancelled, what has been sent of
a watch from now are watched changes since its creation, in their order and each at most once. -/
theorem C115_ordered (log : List Rec) (types : List Nat) (l : List Op) (t : St)
    (hasc : (log ++ puts l).Pairwise fun a b => a.1 < b.1)
    (h : run (St.init log) (.create 0 types :: l) = some t) :
    (delivered t).Sublist (matching types (puts l)) := by
  rw [List.pairwise_append] at hasc
  simp only [run, step, St.init] at h
  have h0 : Inv2 { St.init log with phase := .done, live := true, types := types,
                                    created := some true } [] [] :=
    ⟨rfl, rfl, (by intro k hk; cases hk), hasc.1, List.Sublist.refl _⟩
  exact h0.run (l := l) (t := t) h hasc.2.1 (by intro k hk; cases hk)

example : ∃ t, run (St.init [(3, [1])])
      [.create 0 [1], .put 4 [1], .notify, .put 5 [1], .notify, .trim 2, .ask 7, .enter 7,
       .put 6 [1], .notify, .ask 7] = some t ∧
    delivered t = [(5, 1)] ∧ t.out.map (·.kind) = [.canceled, .notExist] := by
  refine ⟨_, rfl, ?_⟩
  decide +kernel

/-- **C115 (too old)**.  A start revision before everything recorded is refused, and there is no
watch. -/
theorem C115_too_old (log : List Rec) (start : Nat) (types : List Nat) (t : St) (r : Rec)
    (l : List Rec) (hlog : log = r :: l) (h0 : 0 < start) (hold : start < r.1)
    (h : run (St.init log) [.create start types] = some t) :
    t.created = some false ∧ t.live = false := by
  subst hlog
  simp only [run] at h
  rw [step_create, if_pos ⟨h0, by simpa using hold⟩] at h
  cases h
  exact ⟨rfl, rfl⟩

/-- **C115 (accepted)**.  A start revision that is after everything recorded, or is the last one, is
accepted, and nothing is sent from the record. -/
theorem C115_recent (log : List Rec) (start : Nat) (types : List Nat) (t : St)
    (hnew : ∀ r ∈ log, r.1 ≤ start)
    (h : run (St.init log) [.create start types, .read] = some t) :
    t.created = some true ∧ t.live = true ∧ t.pending = [] := by
  have hhead : ¬ (start < (log.head?.map (·.1)).getD 0) := by
    cases log with
    | nil => simp
    | cons x l =>
      have := hnew x List.mem_cons_self
      simp
      omega
  have hr : range log start = [] := by
    unfold range
    rw [List.filter_eq_nil_iff]
    intro x hx
    have h1 := hnew x hx
    have h2 : (log.getLast?.map (·.1)).getD 0 ≤ start := by
      cases hg : log.getLast? with
      | none => simp
      | some y => exact hnew y (List.mem_of_getLast? hg)
    simp only [Bool.and_eq_true, decide_eq_true_eq, not_and]
    omega
  simp only [run] at h
  rw [step_create, if_neg (by omega)] at h
  by_cases hz : start = 0
  · rw [if_pos hz] at h
    cases h
  · rw [if_neg hz] at h
    dsimp only at h
    have hread : step { St.init log with phase := .reading, live := true, start := start,
                                         types := types } .read =
        some { St.init log with live := true, start := start, types := types, phase := .done,
                                created := some true } := by
      simp only [step]
      show (match range log start with | [] => _ | r :: l => _) = _
      rw [hr]
    rw [hread] at h
    cases h
    exact ⟨rfl, rfl, rfl⟩

/-! ## What does not hold -/

/-- **C115 fails (the last change)**.  A watch from a revision leaves out the last change recorded
when it is created: whatever happens afterwards, the client never gets it. -/
theorem C115_last_false :
    ∃ s, run (St.init [(3, [1]), (4, [1])]) [.create 3 [1], .read, .prepend] = some s ∧
      s.created = some true ∧
      ∀ l t, run s l = some t → (∀ evs, .put 4 evs ∉ l) → ∀ e ∈ delivered t, e.1 ≠ 4 := by
  refine ⟨_, rfl, rfl, ?_⟩
  intro l t h hp
  exact (Never.run ⟨rfl, by decide +kernel, (by intro b hb; cases hb),
    (by intro e he; cases he)⟩ h hp).sent

/-- **C115 fails (the next change)**.  A client that has seen revision 4 and asks for everything
from 5 on never gets the change at 5, if it happens before the first poll. -/
theorem C115_next_false :
    ∃ s, run (St.init [(4, [1])]) [.create 5 [1], .read, .put 5 [1], .notify] = some s ∧
      s.created = some true ∧
      ∀ l t, run s l = some t → (∀ evs, .put 5 evs ∉ l) → ∀ e ∈ delivered t, e.1 ≠ 5 := by
  refine ⟨_, rfl, rfl, ?_⟩
  intro l t h hp
  exact (Never.run ⟨rfl, by decide +kernel, (by intro b hb; cases hb),
    (by intro e he; cases he)⟩ h hp).sent

/-- **C115 fails (twice)**.  A change that happens while a watch from a revision is being created is
sent twice. -/
theorem C115_twice_false :
    ∃ t, run (St.init [(3, [1])])
        [.create 3 [1], .put 4 [1], .notify, .put 5 [1], .notify, .read, .prepend,
         .ask 7, .enter 7] = some t ∧
      delivered t = [(3, 1), (4, 1), (4, 1), (5, 1)] := by
  refine ⟨_, rfl, ?_⟩
  decide +kernel

/-- **C115 fails (a revision without a record)**.  A start revision that is not itself a change of
metadata is refused as too old, although nothing has been trimmed. -/
theorem C115_gap_false :
    ∃ t, run (St.init [(3, [1]), (6, [1]), (7, [])]) [.create 4 [1], .read] = some t ∧
      t.created = some false ∧ t.live = false := by
  refine ⟨_, rfl, ?_⟩
  decide +kernel

/-- **C115 fails (a poll beside a cancel)**.  A poll that has found its watch while the watch is
cancelled waits for ever: whatever happens, it is never answered. -/
theorem C115_cancel_false :
    ∃ s, run (St.init [(3, [1])]) [.create 0 [1], .ask 7, .cancel, .enter 7] = some s ∧
      ∀ l t, run s l = some t → .ask 7 ∉ l → ∀ b ∈ t.out, 7 ∉ b.to := by
  refine ⟨_, rfl, ?_⟩
  intro l t h hp
  exact (Lost.run ⟨rfl, rfl, rfl, by decide +kernel, (by intro b hb; cases hb)⟩ h hp).none_

end Verif.MetaWatch
