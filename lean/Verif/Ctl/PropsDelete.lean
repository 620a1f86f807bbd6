import Verif.Ctl.Cover

/-!
# C98: what the deletion of a region removes
-/

namespace Verif.Ctl
open Verif.Codec (Bytes)
open Verif.Region (RState Range canMove maxStartKey)

/-! ### A region leaves the table -/

theorem has_put {l : Regs} {r r' : Nat} {x : Rec} (h : get r l ≠ none) : get r (put r' x l) ≠ none := by
  intro e
  have hn := get_none.1 e
  apply h
  refine get_none.2 fun a ha ea => ?_
  by_cases hr : a.1 = r'
  · exact hn (r', x) (mem_put.2 (Or.inl rfl)) (hr.symm.trans ea)
  · exact hn a (mem_put.2 (Or.inr ⟨ha, hr⟩)) ea

theorem has_on {l : Regs} {r r' : Nat} {f : Rec → Rec} (h : get r l ≠ none) : get r (on r' f l) ≠ none := by
  unfold on
  split
  · exact h
  · exact has_put h

theorem has_add {l : Regs} {r r' : Nat} {x : Rec} (h : get r l ≠ none) : get r (add r' x l) ≠ none := by
  unfold add
  split
  · exact has_put h
  · exact h

theorem has_del {l : Regs} {r r' : Nat} (hne : r ≠ r') (h : get r l ≠ none) : get r (del r' l) ≠ none := by
  intro e
  have hn := get_none.1 e
  apply h
  refine get_none.2 fun a ha ea => ?_
  exact hn a (mem_del.2 ⟨ha, by rw [ea]; exact hne⟩) ea

theorem step_erases {s : St} {e : Ev} {r : Nat} (h : get r s.regs ≠ none) (hg : get r (step s e).regs = none) :
    (∃ c ok id, cur s r = some (c, 7) ∧ c.kind = .delete ∧ e = .work r ok id) ∨
      ∃ c q, s.share = c :: q ∧ c.kind = .purge ∧ c.region = r := by
  cases e with
  | push c ok => exact absurd hg ((same_push s c ok).regs ▸ h)
  | crash => exact absurd hg ((same_recover (open' s.cmds) (reboot s)).regs ▸ h)
  | write r' k => simp only [step, write] at hg; split at hg <;> (try split at hg) <;> exact absurd hg h
  | split p c key =>
    simp only [step, splitEv] at hg
    split at hg <;> (try split at hg) <;> first | exact absurd hg h | exact absurd hg (has_put (has_put h))
  | merge p t =>
    simp only [step, mergeEv] at hg
    split at hg <;> (try split at hg) <;> first | exact absurd hg h | exact absurd hg (has_put (has_put h))
  | mark r' t =>
    simp only [step, mark] at hg
    split at hg <;> (try split at hg) <;> first | exact absurd hg h | exact absurd hg (has_put h)
  | share =>
    right
    simp only [step, workShare] at hg
    split at hg
    · exact absurd hg h
    · next c q hs =>
      split at hg
      · next hk =>
        refine ⟨c, q, hs, hk, ?_⟩
        by_cases e : c.region = r
        · exact e
        · exact absurd hg (has_del (fun e' => e e'.symm) h)
      · split at hg <;> exact absurd hg h
      · exact absurd hg h
  | work r' ok id =>
    left
    simp only [step, work] at hg
    split at hg
    · exact absurd hg h
    · exact absurd hg h
    · exact absurd hg h
    · next c n q he =>
      have hc := cur_of_exec he
      split at hg
      · unfold stepCreate at hg
        split at hg
        · split at hg <;> exact absurd hg h
        · exact absurd hg (has_add h)
        · split at hg <;> exact absurd hg h
        · exact absurd hg (has_on h)
        · exact absurd hg h
      · next hk =>
        unfold stepDelete at hg
        split at hg
        · split at hg <;> exact absurd hg h
        · exact absurd hg (has_on h)
        · exact absurd hg h
        · exact absurd hg (has_on h)
        · exact absurd hg h
        · exact absurd hg h
        · exact absurd hg ((same_dispatch s ⟨id, r', .destroy, false⟩).regs ▸ h)
        · by_cases e : r = r'
          · subst e; exact ⟨c, ok, id, hc, hk, rfl⟩
          · exact absurd hg (has_del e h)
        · exact absurd hg h
      · split at hg <;> exact absurd hg h
      · exact absurd hg h
      · exact absurd hg h
      · exact absurd hg h

/-- C98: a region leaves the table of regions only as the last step of a command to delete it, with
its raft node destroyed, its raft record gone and none of the keys of its range left in the store;
or by a command to purge it. -/
theorem C98_erased {s : St} (h : Calm s) (e : Ev) {r : Nat} {x : Rec} (hx : get r s.regs = some x)
    (hg : get r (step s e).regs = none) :
    (∃ c n, cur s r = some (c, n) ∧ c.kind = .delete ∧ (step s e).nodes r = false ∧
        (step s e).metas r = false ∧ ∀ k ∈ (step s e).data, inRange x.range k = false) ∨
      ∃ c q, s.share = c :: q ∧ c.kind = .purge ∧ c.region = r := by
  have hi := h.inv
  rcases step_erases (by rw [hx]; simp) hg with ⟨c, ok, id, hc, hk, rfl⟩ | h'
  · left
    refine ⟨c, 7, hc, hk, ?_⟩
    obtain ⟨q, he⟩ : ∃ q, s.exec r = some ⟨some (c, 7), q⟩ := by
      unfold cur at hc
      cases hx : s.exec r with
      | none => rw [hx] at hc; exact absurd hc (by simp)
      | some y =>
        rw [hx] at hc
        obtain ⟨rn, w⟩ := y
        have : rn = some (c, 7) := hc
        exact ⟨w, by rw [this]⟩
    have hs : step s (.work r ok id) = goto { s with regs := del r s.regs } r c q 8 := by
      simp only [step, work, he, hk, stepDelete]
    rw [hs]
    exact ⟨hi.dead r c 7 hc hk (by omega), hi.down r c 7 hc hk (by omega),
      hi.clean r c 7 hc hk (by omega) _ (get_mem hx) rfl⟩
  · exact Or.inr h'

/-! ### Keys leave the store -/

theorem step_loses {s : St} {e : Ev} {k : Bytes} (h : k ∈ s.data) (hk : k ∉ (step s e).data) :
    ∃ r c x ok id, cur s r = some (c, 5) ∧ c.kind = .delete ∧ get r s.regs = some x ∧ inRange x.range k = true ∧
      e = .work r ok id := by
  cases e with
  | push c ok => exact absurd ((same_push s c ok).data ▸ h) hk
  | crash => exact absurd ((same_recover (open' s.cmds) (reboot s)).data ▸ h) hk
  | write r' k' =>
    simp only [step, write] at hk
    split at hk <;> (try split at hk) <;> first | exact absurd h hk | exact absurd (List.mem_cons_of_mem _ h) hk
  | split p c key => simp only [step, splitEv] at hk; split at hk <;> (try split at hk) <;> exact absurd h hk
  | merge p t => simp only [step, mergeEv] at hk; split at hk <;> (try split at hk) <;> exact absurd h hk
  | mark r' t => simp only [step, mark] at hk; split at hk <;> (try split at hk) <;> exact absurd h hk
  | share =>
    simp only [step, workShare] at hk
    split at hk
    · exact absurd h hk
    · split at hk
      · exact absurd h hk
      · split at hk <;> exact absurd h hk
      · exact absurd h hk
  | work r ok id =>
    simp only [step, work] at hk
    split at hk
    · exact absurd h hk
    · exact absurd h hk
    · exact absurd h hk
    · next c n q he =>
      have hc := cur_of_exec he
      split at hk
      · unfold stepCreate at hk
        split at hk <;> (try split at hk) <;> exact absurd h hk
      · next hd =>
        unfold stepDelete at hk
        split at hk
        · split at hk <;> exact absurd h hk
        · exact absurd h hk
        · exact absurd h hk
        · exact absurd h hk
        · exact absurd h hk
        · simp only [goto] at hk
          split at hk
          · exact absurd h hk
          · next x hx =>
            refine ⟨r, c, x, ok, id, hc, hd, hx, ?_, rfl⟩
            cases hin : inRange x.range k with
            | true => rfl
            | false => exact absurd (List.mem_filter.2 ⟨h, by simp [hin]⟩) hk
        · exact absurd ((same_dispatch s ⟨id, r, .destroy, false⟩).data ▸ h) hk
        · exact absurd h hk
        · exact absurd h hk
      · split at hk <;> exact absurd h hk
      · exact absurd h hk
      · exact absurd h hk
      · exact absurd h hk

/-- C98: a key leaves the store only because the region in whose range it is is being deleted, when
the raft node of that region is down; no other region has the key in its range. -/
theorem C98_removed {s : St} (h : Calm s) (e : Ev) {k : Bytes} (hk : k ∈ s.data) (hk' : k ∉ (step s e).data) :
    ∃ r c n x, cur s r = some (c, n) ∧ c.kind = .delete ∧ get r s.regs = some x ∧ inRange x.range k = true ∧
      s.nodes r = false ∧ ∀ r' y, r' ≠ r → get r' s.regs = some y → inRange y.range k = false := by
  obtain ⟨r, c, x, ok, id, hc, hd, hx, hin, -⟩ := step_loses hk hk'
  refine ⟨r, c, 5, x, hc, hd, hx, hin, h.inv.dead r c 5 hc hd (by omega), ?_⟩
  intro r' y hne hy
  exact h.inv.apart _ (get_mem hx) _ (get_mem hy) (fun e => hne e.symm) k hin

/-! ### A region enters the table -/

theorem get_put_ne {l : Regs} {r r' : Nat} {x : Rec} (h : r ≠ r') : get r (put r' x l) = get r l := by
  unfold get put
  rw [List.find?_cons_of_neg (by simpa using fun e => h e.symm)]
  congr 1
  unfold del
  induction l with
  | nil => rfl
  | cons a l ih =>
    by_cases ha : a.1 = r'
    · rw [List.filter_cons_of_neg (by simp [ha]), ih, List.find?_cons_of_neg (by simpa [ha] using fun e => h e.symm)]
    · rw [List.filter_cons_of_pos (by simpa using ha)]
      by_cases hr : a.1 = r
      · rw [List.find?_cons_of_pos (by simpa using hr), List.find?_cons_of_pos (by simpa using hr)]
      · rw [List.find?_cons_of_neg (by simpa using hr), List.find?_cons_of_neg (by simpa using hr), ih]

theorem get_put_eq {l : Regs} {r : Nat} {x : Rec} : get r (put r x l) = some x := by
  unfold get put
  rw [List.find?_cons_of_pos (by simp)]
  rfl

theorem get_del_ne {l : Regs} {r r' : Nat} (h : r ≠ r') : get r (del r' l) = get r l := by
  have := get_put_ne (l := l) (x := ⟨.new, ⟨[], []⟩⟩) h
  rw [← this]
  unfold get put
  rw [List.find?_cons_of_neg (by simpa using fun e => h e.symm)]

theorem get_del_eq {l : Regs} {r : Nat} : get r (del r l) = none := get_none.2 fun _ ha => (mem_del.1 ha).2

theorem get_on_ne {l : Regs} {r r' : Nat} {f : Rec → Rec} (h : r ≠ r') : get r (on r' f l) = get r l := by
  unfold on
  split
  · rfl
  · exact get_put_ne h

theorem get_on_eq {l : Regs} {r : Nat} {f : Rec → Rec} : get r (on r f l) = (get r l).map f := by
  unfold on
  split
  · next h => rw [h]; rfl
  · next x h => rw [get_put_eq, h]; rfl

theorem not_on {l : Regs} {r r' : Nat} {f : Rec → Rec} (h : get r l = none) : get r (on r' f l) = none := by
  by_cases e : r = r'
  · subst e; rw [get_on_eq, h]; rfl
  · rw [get_on_ne e]; exact h

theorem step_enters {s : St} {e : Ev} {r : Nat} {x : Rec} (h : get r s.regs = none) (hx : get r (step s e).regs = some x) :
    ∃ c p ok id, cur s r = some (c, 1) ∧ c.kind = .create x.range p ∧ x.state = .new ∧ e = .work r ok id := by
  have no : ∀ {l : Regs}, l = s.regs → get r l = some x → False := by
    intro l e h'; rw [e, h] at h'; exact absurd h' (by simp)
  have put1 : ∀ {r' : Nat} {y z : Rec} {l : Regs}, get r l = none → get r' l = some z → get r (put r' y l) = some x → False := by
    intro r' y z l hn hz h'
    by_cases e : r = r'
    · subst e; rw [hn] at hz; exact absurd hz (by simp)
    · rw [get_put_ne e, hn] at h'; exact absurd h' (by simp)
  cases e with
  | push c ok => exact absurd hx (fun h' => no (same_push s c ok).regs h')
  | crash => exact absurd hx (fun h' => no (same_recover (open' s.cmds) (reboot s)).regs h')
  | write r' k' =>
    simp only [step, write] at hx
    split at hx <;> (try split at hx) <;> exact absurd hx (fun h' => no rfl h')
  | split p c key =>
    simp only [step, splitEv] at hx
    split at hx
    · next y z hy hz =>
      split at hx
      · have hp : r ≠ p := by rintro rfl; rw [h] at hy; exact absurd hy (by simp)
        have hc : r ≠ c := by rintro rfl; rw [h] at hz; exact absurd hz (by simp)
        simp only [get_put_ne hp, get_put_ne hc] at hx
        exact absurd hx (fun h' => no rfl h')
      · exact absurd hx (fun h' => no rfl h')
    · exact absurd hx (fun h' => no rfl h')
  | merge p t =>
    simp only [step, mergeEv] at hx
    split at hx
    · next y z hy hz =>
      split at hx
      · have hp : r ≠ p := by rintro rfl; rw [h] at hy; exact absurd hy (by simp)
        have hc : r ≠ t := by rintro rfl; rw [h] at hz; exact absurd hz (by simp)
        simp only [get_put_ne hp, get_put_ne hc] at hx
        exact absurd hx (fun h' => no rfl h')
      · exact absurd hx (fun h' => no rfl h')
    · exact absurd hx (fun h' => no rfl h')
  | mark r' t =>
    simp only [step, mark] at hx
    split at hx
    · exact absurd hx (fun h' => no rfl h')
    · next y hy =>
      split at hx
      · exact absurd hx (fun h' => put1 h hy h')
      · exact absurd hx (fun h' => no rfl h')
  | share =>
    simp only [step, workShare] at hx
    split at hx
    · exact absurd hx (fun h' => no rfl h')
    · next c q _ =>
      split at hx
      · by_cases e : r = c.region
        · subst e; simp only [get_del_eq] at hx; exact absurd hx (by simp)
        · simp only [get_del_ne e] at hx; exact absurd hx (fun h' => no rfl h')
      · split at hx <;> exact absurd hx (fun h' => no rfl h')
      · exact absurd hx (fun h' => no rfl h')
  | work r' ok id =>
    simp only [step, work] at hx
    split at hx
    · exact absurd hx (fun h' => no rfl h')
    · exact absurd hx (fun h' => no rfl h')
    · exact absurd hx (fun h' => no rfl h')
    · next c n q he =>
      have hc := cur_of_exec he
      split at hx
      · next g p hk =>
        unfold stepCreate at hx
        split at hx
        · split at hx <;> exact absurd hx (fun h' => no rfl h')
        · simp only [goto] at hx
          by_cases e : r = r'
          · subst e
            simp only [add, h, get_put_eq, Option.some.injEq] at hx
            rw [← hx]
            exact ⟨c, p, ok, id, hc, hk, rfl, rfl⟩
          · have : get r (add r' ⟨.new, g⟩ s.regs) = get r s.regs := by
              unfold add
              split
              · exact get_put_ne e
              · rfl
            rw [this, h] at hx
            exact absurd hx (by simp)
        · split at hx <;> exact absurd hx (fun h' => no rfl h')
        · simp only [goto, not_on h] at hx; exact absurd hx (by simp)
        · exact absurd hx (fun h' => no rfl h')
      · unfold stepDelete at hx
        split at hx
        · split at hx <;> exact absurd hx (fun h' => no rfl h')
        · simp only [goto, not_on h] at hx; exact absurd hx (by simp)
        · exact absurd hx (fun h' => no rfl h')
        · simp only [goto, not_on h] at hx; exact absurd hx (by simp)
        · exact absurd hx (fun h' => no rfl h')
        · exact absurd hx (fun h' => no rfl h')
        · exact absurd hx (fun h' => no (same_dispatch s ⟨id, r', .destroy, false⟩).regs h')
        · by_cases e : r = r'
          · subst e; simp only [goto, get_del_eq] at hx; exact absurd hx (by simp)
          · simp only [goto, get_del_ne e] at hx; exact absurd hx (fun h' => no rfl h')
        · exact absurd hx (fun h' => no rfl h')
      · split at hx <;> exact absurd hx (fun h' => no rfl h')
      · exact absurd hx (fun h' => no rfl h')
      · exact absurd hx (fun h' => no rfl h')
      · exact absurd hx (fun h' => no rfl h')

/-- C98: when no region is purged, a region starts empty: of the keys in its range none is in the
store at the time it enters the table, whatever regions had that range before. -/
theorem C98_empty {s : St} (h : Plain s) (e : Ev) {r : Nat} {x : Rec} (hn : get r s.regs = none)
    (hx : get r (step s e).regs = some x) : ∀ k ∈ (step s e).data, inRange x.range k = false := by
  obtain ⟨c, p, ok, id, hc, hk, -, rfl⟩ := step_enters hn hx
  intro k hkd
  have hd : (step s (.work r ok id)).data = s.data := by
    cases he : s.exec r with
    | none => simp only [step, work, he]
    | some y =>
      obtain ⟨rn, w⟩ := y
      have : rn = some (c, 1) := by simpa [cur, he] using hc
      subst this
      simp only [step, work, he, hk, stepCreate, goto]
  rw [hd] at hkd
  obtain ⟨a, ha, hak⟩ := h.covered.2 k hkd
  exact (h.calm.inv.fresh r x.range ⟨c, p, hc, hk⟩ a ha).2 k hak

/-! ### A deletion that is not interrupted -/

theorem exec_goto (s : St) (r : Nat) (c : Cmd) (q : List Cmd) (n : Nat) :
    (goto s r c q n).exec r = some ⟨some (c, n), q⟩ := by simp [goto, upd]

/-- C98: a worker that has passed the check of a deletion and takes eight more steps has removed the
region: the raft node and raft record are gone, the keys of the range are gone and no others, the
region has left the table, the other regions are as before, and the command has ended well. -/
theorem C98_runs (s : St) (r : Nat) (c : Cmd) (q : List Cmd) (x : Rec) (ok : Bool) (id : Nat) (hk : c.kind = .delete)
    (he : s.exec r = some ⟨some (c, 1), q⟩) (hx : get r s.regs = some x) :
    let s' := run s (List.replicate 8 (.work r ok id))
    s'.nodes r = false ∧ s'.metas r = false ∧ s'.data = s.data.filter (fun k => !inRange x.range k) ∧
      (∀ r', get r' s'.regs = if r' = r then none else get r' s.regs) ∧ s'.outs = (c.id, true) :: s.outs ∧
      s'.exec r = some ⟨none, q⟩ := by
  have w : ∀ (t : St) (n : Nat), t.exec r = some ⟨some (c, n), q⟩ → step t (.work r ok id) = stepDelete t r c q id n := by
    intro t n ht
    simp only [step, work, ht, hk]
  intro s'
  have hs' : s' = run s [.work r ok id, .work r ok id, .work r ok id, .work r ok id, .work r ok id, .work r ok id,
    .work r ok id, .work r ok id] := rfl
  clear_value s'
  subst hs'
  simp only [run]
  rw [w s 1 he]
  simp only [stepDelete]
  rw [w _ 2 (exec_goto _ r c q 2)]
  simp only [stepDelete]
  rw [w _ 3 (exec_goto _ r c q 3)]
  simp only [stepDelete]
  rw [w _ 4 (exec_goto _ r c q 4)]
  simp only [stepDelete]
  rw [w _ 5 (exec_goto _ r c q 5)]
  simp only [stepDelete]
  rw [w _ 6 (exec_goto _ r c q 6)]
  simp only [stepDelete]
  rw [w _ 7 (exec_goto _ r c q 7)]
  simp only [stepDelete]
  rw [w _ 8 (exec_goto _ r c q 8)]
  simp only [stepDelete]
  generalize ht : (goto _ r c q 6) = t
  have hs := same_dispatch t ⟨id, r, .destroy, false⟩
  have hreg : t.regs = on r (Rec.move .deleted) (on r (Rec.move .deleting) s.regs) := by rw [← ht]; rfl
  have hnode : t.nodes r = false := by rw [← ht]; simp [goto, upd]
  have hmeta : t.metas r = false := by rw [← ht]; simp [goto, upd]
  have hdata : t.data = s.data.filter (fun k => !inRange x.range k) := by
    rw [← ht]
    simp only [goto, get_on_eq, hx, Option.map_some, Rec.move_range]
  have houts : t.outs = s.outs := by rw [← ht]; rfl
  refine ⟨?_, ?_, ?_, ?_, ?_, ?_⟩
  · simp only [finish, goto, hs.nodes, hnode]
  · simp only [finish, goto, hs.metas, hmeta]
  · simp only [finish, goto, hs.data, hdata]
  · intro r'
    simp only [finish, goto, hs.regs, hreg]
    by_cases e : r' = r
    · rw [if_pos e, e, get_del_eq]
    · rw [if_neg e, get_del_ne e, get_on_ne e, get_on_ne e]
  · simp only [finish, goto, hs.outs, houts]
  · simp only [finish, upd_same]

theorem push_invalid (s : St) (c : Cmd) (ok : Bool) :
    (step s (.push c ok)).acks.head? ≠ some (c.id, .invalid) ↔ validate s c ok = true := by
  simp only [step, push]
  cases hval : validate s c ok with
  | false => simp
  | true =>
    simp only [if_true, List.head?_cons, ne_eq, Option.some.injEq, Prod.mk.injEq, true_and, iff_true]
    intro e
    unfold dispatch at e
    split at e
    · exact absurd e (by simp)
    · unfold dispatchImpl enqueue at e
      split at e <;> split at e <;> (try split at e) <;> simp at e

/-- C98: a command to delete a region passes the check exactly if the region exists and is not being
deleted, split or merged; one to purge it, exactly if it is marked as deleted; one to stop it, exactly
if it is an orphan; and none that removes a worker comes from outside. -/
theorem C98_checked (s : St) (c : Cmd) (ok : Bool) :
    (c.kind = .delete → ((step s (.push c ok)).acks.head? ≠ some (c.id, .invalid) ↔
      ∃ x, get c.region s.regs = some x ∧ x.state ≠ .deleting ∧ x.state ≠ .deleted ∧ x.state ≠ .splitting ∧ x.state ≠ .merging)) ∧
    (c.kind = .purge → ((step s (.push c ok)).acks.head? ≠ some (c.id, .invalid) ↔
      ∃ x, get c.region s.regs = some x ∧ x.state = .deleted)) ∧
    (c.kind = .stop → ((step s (.push c ok)).acks.head? ≠ some (c.id, .invalid) ↔
      ∃ x, get c.region s.regs = some x ∧ x.state = .orphan)) ∧
    (c.kind = .destroy → (step s (.push c ok)).acks.head? = some (c.id, .invalid)) := by
  refine ⟨?_, ?_, ?_, ?_⟩ <;> intro hk
  · rw [push_invalid]
    unfold validate
    rw [hk]
    cases get c.region s.regs <;> simp [deleteOk, not_or, and_assoc]
  · rw [push_invalid]
    unfold validate
    rw [hk]
    cases get c.region s.regs <;> simp [purgeOk]
  · rw [push_invalid]
    unfold validate
    rw [hk]
    cases get c.region s.regs <;> simp [stopOk]
  · have := push_invalid s c ok
    have hv : ¬ validate s c ok = true := by
      unfold validate
      rw [hk]
      simp
    exact Decidable.not_not.1 fun e => hv (this.1 e)

/-- C98: a write to a region adds its key exactly if the region's raft node runs, the key is in the
range, and the region is not standing by, being deleted or merged, deleted, merged away or an orphan;
and it changes nothing else. -/
theorem C98_written (s : St) (r : Nat) (k : Bytes) :
    ((step s (.write r k)).data = k :: s.data ↔
      s.nodes r = true ∧ ∃ x, get r s.regs = some x ∧ inRange x.range k = true ∧ x.state ≠ .standby ∧ x.state ≠ .deleting ∧
        x.state ≠ .deleted ∧ x.state ≠ .merging ∧ x.state ≠ .orphan ∧ x.state ≠ .tombstone) ∧
    ((step s (.write r k)).data = k :: s.data ∨ (step s (.write r k)).data = s.data) ∧
    (step s (.write r k)).regs = s.regs ∧ (step s (.write r k)).nodes = s.nodes := by
  have hne : s.data ≠ k :: s.data := fun e => by
    have := congrArg List.length e
    simp at this
  simp only [step, write]
  cases hg : get r s.regs with
  | none => exact ⟨⟨fun h => absurd h hne, fun ⟨_, x, hx, _⟩ => by cases hx⟩, .inr rfl, rfl, rfl⟩
  | some x =>
    by_cases hc : (applies s r x && inRange x.range k) = true
    · simp only [hc, if_true, true_or, and_self, and_true, true_iff]
      simp only [applies, Bool.and_eq_true, Bool.not_eq_true', Bool.or_eq_false_iff, beq_eq_false_iff_ne] at hc
      obtain ⟨⟨hn, hst⟩, hr⟩ := hc
      exact ⟨hn, x, rfl, hr, hst.1.1.1.1.1, hst.1.1.1.1.2, hst.1.1.1.2, hst.1.1.2, hst.1.2, hst.2⟩
    · simp only [hc]
      refine ⟨⟨fun h => absurd h hne, ?_⟩, .inr rfl, rfl, rfl⟩
      rintro ⟨hn, y, hy, hr, h1, h2, h3, h4, h5, h6⟩
      cases hy
      refine absurd ?_ hc
      simp only [applies, Bool.and_eq_true, Bool.not_eq_true', Bool.or_eq_false_iff, beq_eq_false_iff_ne]
      exact ⟨⟨hn, ⟨⟨⟨⟨h1, h2⟩, h3⟩, h4⟩, h5⟩, h6⟩, hr⟩

end Verif.Ctl
