import Verif.Ctl.PropsDelete

/-!
# C98: deletions that are interrupted
-/

namespace Verif.Ctl
open Verif.Codec (Bytes)
open Verif.Region (RState Range canMove maxStartKey)

theorem Later.plain {s s' : St} (h : Plain s) (hl : Later s s') : Plain s' := by
  induction hl with
  | refl => exact h
  | step e _ ho he ih => exact .step e ih ho he

theorem Left.no_create {s : St} {r : Nat} {x : Rec} (h : Left s r x) (g : Range) : createOk s.regs r g = false := by
  cases hc : createOk s.regs r g with
  | false => rfl
  | true => exact absurd rfl (createOk_iff.1 hc _ (get_mem h.here)).1

theorem Left.no_delete {s : St} {r : Nat} {x : Rec} (h : Left s r x) : deleteOk (get r s.regs) = false := by
  rw [h.here]
  rcases h.state with e | e <;> simp [deleteOk, e]

theorem Left.no_stop {s : St} {r : Nat} {x : Rec} (h : Left s r x) : stopOk (get r s.regs) = false := by
  rw [h.here]
  rcases h.state with e | e <;> simp [stopOk, e]

theorem Left.not_applies {s : St} {r : Nat} {x : Rec} (h : Left s r x) (y : Rec) : applies s r y = false := by
  simp [applies, h.node]

theorem Left.other {s s' : St} {r r' : Nat} {x : Rec} {z : Option (Cmd × Nat)} (h : Left s r x) (hne : r ≠ r')
    (hr : get r s'.regs = get r s.regs) (hn : s'.nodes r = s.nodes r) (hc : cur s' = upd (cur s) r' z) : Left s' r x :=
  ⟨hr.trans h.here, h.state, hn.trans h.node, by rw [hc, upd_ne _ _ hne]; exact h.idle⟩

theorem left_work_other {s : St} {r r' : Nat} {x : Rec} (h : Left s r x) (hne : r ≠ r') (ok : Bool) (id : Nat) :
    Left (work s r' ok id) r x := by
  have fin : ∀ c q o, Left (finish s r' c q o) r x := fun c q o => h.other hne rfl rfl (cur_finish s r' c q o)
  unfold work
  split
  · exact h
  · exact h
  · exact h.other hne rfl rfl (cur_goto _ _ _ _ _)
  · next c n q he =>
    split
    · next g p hk =>
      unfold stepCreate
      split
      · split
        · exact h.other hne rfl rfl (cur_goto _ _ _ _ _)
        · exact fin _ _ _
      · refine h.other (s' := goto { s with regs := add r' ⟨.new, g⟩ s.regs } r' c q 2) hne ?_ rfl (cur_goto _ _ _ _ _)
        show get r (add r' _ s.regs) = _
        unfold add
        split
        · exact get_put_ne hne
        · rfl
      · split
        · exact h.other (s' := goto { s with nodes := upd s.nodes r' true, metas := upd s.metas r' true } r' c q 3) hne rfl
            (upd_ne _ _ hne) (cur_goto _ _ _ _ _)
        · exact fin _ _ _
      · exact h.other (s' := goto { s with regs := on r' _ s.regs } r' c q 4) hne (get_on_ne hne) rfl (cur_goto _ _ _ _ _)
      · exact fin _ _ _
    · unfold stepDelete
      split
      · split
        · exact h.other hne rfl rfl (cur_goto _ _ _ _ _)
        · exact fin _ _ _
      · exact h.other (s' := goto { s with regs := on r' _ s.regs } r' c q 2) hne (get_on_ne hne) rfl (cur_goto _ _ _ _ _)
      · exact h.other (s' := goto { s with nodes := upd s.nodes r' false } r' c q 3) hne rfl (upd_ne _ _ hne)
          (cur_goto _ _ _ _ _)
      · exact h.other (s' := goto { s with regs := on r' _ s.regs } r' c q 4) hne (get_on_ne hne) rfl (cur_goto _ _ _ _ _)
      · exact h.other (s' := goto { s with metas := upd s.metas r' false } r' c q 5) hne rfl rfl (cur_goto _ _ _ _ _)
      · exact h.other hne rfl rfl (cur_goto _ _ _ _ _)
      · have hs := same_dispatch s ⟨id, r', .destroy, false⟩
        exact h.other (s' := goto (dispatch s ⟨id, r', .destroy, false⟩).1 r' c q 7) hne (by simp only [goto]; rw [hs.regs])
          (by simp only [goto]; rw [hs.nodes]) (by rw [cur_goto, hs.cur])
      · exact h.other (s' := goto { s with regs := del r' s.regs } r' c q 8) hne (get_del_ne hne) rfl (cur_goto _ _ _ _ _)
      · exact fin _ _ _
    · split
      · exact h.other (s' := finish { s with nodes := upd s.nodes r' false } r' c q true) hne rfl (upd_ne _ _ hne)
          (cur_finish _ _ _ _ _)
      · exact fin _ _ _
    · exact fin _ _ _
    · exact h
    · exact h

theorem left_work_same {s : St} {r : Nat} {x : Rec} (h : Left s r x) (ok : Bool) (id : Nat) : Left (work s r ok id) r x := by
  have fin : ∀ c q o, Left (finish s r c q o) r x := by
    intro c q o
    refine ⟨h.here, h.state, h.node, ?_⟩
    rw [cur_finish, upd_same]
    intro c n e; exact absurd e (by simp)
  unfold work
  split
  · exact h
  · exact h
  · refine ⟨h.here, h.state, h.node, ?_⟩
    rw [cur_goto, upd_same]
    intro c n e; cases e; rfl
  · next c n q he =>
    have hn := h.idle c n (cur_of_exec he)
    subst hn
    split
    · simp only [stepCreate, h.no_create, Bool.false_eq_true, if_false]; exact fin _ _ _
    · simp only [stepDelete, h.no_delete, Bool.false_eq_true, if_false]; exact fin _ _ _
    · simp only [h.no_stop, Bool.false_eq_true, if_false]; exact fin _ _ _
    · exact fin _ _ _
    · exact h
    · exact h

theorem left_step {s : St} {r : Nat} {x : Rec} (hp : NoPurge s) (h : Left s r x) (e : Ev) : Left (step s e) r x := by
  cases e with
  | push c ok =>
    have hs := same_push s c ok
    exact ⟨by rw [step, hs.regs]; exact h.here, h.state, by rw [step, hs.nodes]; exact h.node, by rw [step, hs.cur]; exact h.idle⟩
  | crash =>
    have hs := same_recover (open' s.cmds) (reboot s)
    refine ⟨hs.regs ▸ h.here, h.state, ?_, ?_⟩
    · show (recover (open' s.cmds) (reboot s)).nodes r = false
      rw [hs.nodes]
      simp only [reboot, h.here]
      rcases h.state with e | e <;> simp [restarts, e]
    · intro c n hc
      simp only [step] at hc
      rw [cur_crash] at hc
      exact absurd hc (by simp)
  | write r' k =>
    simp only [step, write]
    split
    · exact h
    · split
      · exact ⟨h.here, h.state, h.node, h.idle⟩
      · exact h
  | split p c key =>
    simp only [step, splitEv]
    split
    · next y z hy hz =>
      split
      · next hc =>
        simp only [Bool.and_eq_true, beq_iff_eq] at hc
        have h1 : r ≠ p := by
          rintro rfl
          rw [h.not_applies y] at hc
          simp at hc
        have h2 : r ≠ c := by
          rintro rfl
          rw [h.here] at hz
          cases hz
          rcases h.state with e | e <;> rw [e] at hc <;> simp at hc
        refine ⟨?_, h.state, h.node, h.idle⟩
        simp only [get_put_ne h1, get_put_ne h2]
        exact h.here
      · exact h
    · exact h
  | merge p t =>
    simp only [step, mergeEv]
    split
    · next y z hy hz =>
      split
      · next hc =>
        simp only [Bool.and_eq_true, beq_iff_eq] at hc
        have h1 : r ≠ t := by
          rintro rfl
          rw [h.not_applies z] at hc
          simp at hc
        have h2 : r ≠ p := by
          rintro rfl
          rw [h.node] at hc
          simp at hc
        refine ⟨?_, h.state, h.node, h.idle⟩
        simp only [get_put_ne h1, get_put_ne h2]
        exact h.here
      · exact h
    · exact h
  | mark r' t =>
    simp only [step, mark]
    split
    · exact h
    · split
      · next hc =>
        simp only [Bool.and_eq_true] at hc
        have h1 : r ≠ r' := by
          rintro rfl
          rw [h.node] at hc
          simp at hc
        exact ⟨(get_put_ne h1).trans h.here, h.state, h.node, h.idle⟩
      · exact h
  | work r' ok id =>
    by_cases e : r = r'
    · subst e; exact left_work_same h ok id
    · exact left_work_other h e ok id
  | share =>
    simp only [step, workShare]
    split
    · exact h
    · next c q hs =>
      split
      · next hk => exact absurd hk (hp.1 c (by rw [hs]; exact List.mem_cons_self))
      · split
        · exact h
        · exact h
        · refine ⟨h.here, h.state, h.node, ?_⟩
          intro c' n' hc'
          refine h.idle c' n' ?_
          simp only [cur, upd] at hc' ⊢
          split at hc'
          · simp at hc'
          · exact hc'
      · exact h

theorem left_data {s : St} {r : Nat} {x : Rec} (hc : Calm s) (h : Left s r x) (e : Ev) {k : Bytes}
    (hk : inRange x.range k = true) : k ∈ (step s e).data ↔ k ∈ s.data := by
  constructor
  · intro h'
    by_cases hin : k ∈ s.data
    · exact hin
    · exfalso
      cases e with
      | write r' k' =>
        simp only [step, write] at h'
        split at h'
        · exact hin h'
        · next y hy =>
          split at h'
          · next hw =>
            simp only [Bool.and_eq_true] at hw
            rcases List.mem_cons.1 h' with e | h'
            · subst e
              by_cases er : r' = r
              · subst er
                rw [h.not_applies y] at hw
                simp at hw
              · have := hc.inv.apart _ (get_mem hy) _ (get_mem h.here) er k hw.2
                rw [hk] at this
                exact absurd this (by simp)
            · exact hin h'
          · exact hin h'
      | push c ok => exact hin ((same_push s c ok).data ▸ h')
      | crash => exact hin ((same_recover (open' s.cmds) (reboot s)).data ▸ h')
      | split p c key => simp only [step, splitEv] at h'; split at h' <;> (try split at h') <;> exact hin h'
      | merge p t => simp only [step, mergeEv] at h'; split at h' <;> (try split at h') <;> exact hin h'
      | mark r' t => simp only [step, mark] at h'; split at h' <;> (try split at h') <;> exact hin h'
      | share =>
        simp only [step, workShare] at h'
        split at h'
        · exact hin h'
        · split at h'
          · exact hin h'
          · split at h' <;> exact hin h'
          · exact hin h'
      | work r' ok id =>
        simp only [step, work] at h'
        split at h'
        · exact hin h'
        · exact hin h'
        · exact hin h'
        · split at h'
          · unfold stepCreate at h'
            split at h' <;> (try split at h') <;> exact hin h'
          · unfold stepDelete at h'
            split at h'
            · split at h' <;> exact hin h'
            · exact hin h'
            · exact hin h'
            · exact hin h'
            · exact hin h'
            · simp only [goto] at h'
              split at h'
              · exact hin h'
              · exact hin (List.mem_filter.1 h').1
            · exact hin ((same_dispatch s ⟨id, r', .destroy, false⟩).data ▸ h')
            · exact hin h'
            · exact hin h'
          · split at h' <;> exact hin h'
          · exact hin h'
          · exact hin h'
          · exact hin h'
  · intro hin
    by_cases h' : k ∈ (step s e).data
    · exact h'
    · exfalso
      obtain ⟨r', c, y, ok, id, hcur, -, hy, hyk, -⟩ := step_loses hin h'
      by_cases er : r' = r
      · subst er
        have := h.idle c 5 hcur
        omega
      · have := hc.inv.apart _ (get_mem hy) _ (get_mem h.here) er k hyk
        rw [hk] at this
        exact absurd this (by simp)

/-- C98: when the store stops while a region is being deleted, what is left of the region stays:
after every further history without purges the region is still in the table, in the state it was
in, its raft node is not running, the keys of its range are those that were left, and commands to
create or delete it are refused. -/
theorem C98_stuck {s s' : St} (h : Plain s) {r : Nat} {x : Rec} (hl : Left s r x) (hs : Later s s') :
    get r s'.regs = some x ∧ s'.nodes r = false ∧
      (∀ k, inRange x.range k = true → (k ∈ s'.data ↔ k ∈ s.data)) ∧
      ∀ c ok, c.region = r → (c.kind = .delete ∨ ∃ g p, c.kind = .create g p) →
        step s' (.push c ok) = { s' with acks := (c.id, .invalid) :: s'.acks } := by
  have key : Left s' r x ∧ ∀ k, inRange x.range k = true → (k ∈ s'.data ↔ k ∈ s.data) := by
    induction hs with
    | refl => exact ⟨hl, fun _ _ => Iff.rfl⟩
    | step e hs _ _ ih =>
      have hp := hs.plain h
      exact ⟨left_step hp.covered.1 ih.1 e, fun k hk => (left_data hp.calm ih.1 e hk).trans (ih.2 k hk)⟩
  refine ⟨key.1.here, key.1.node, key.2, ?_⟩
  rintro c ok rfl hk
  have hv : validate s' c ok = false := by
    unfold validate
    rcases hk with e | ⟨g, p, e⟩
    · rw [e]; exact key.1.no_delete
    · rw [e]; exact key.1.no_create g
  simp only [step, push, hv, Bool.false_eq_true, if_false]

/-- C98: a store that stops when a deletion has marked its region but not removed it leaves such a
region. -/
theorem C98_interrupted {s : St} {r : Nat} {x : Rec} (hx : get r s.regs = some x)
    (hst : x.state = .deleting ∨ x.state = .deleted) : Left (step s .crash) r x := by
  have hs := same_recover (open' s.cmds) (reboot s)
  refine ⟨hs.regs ▸ hx, hst, ?_, ?_⟩
  · show (recover (open' s.cmds) (reboot s)).nodes r = false
    rw [hs.nodes]
    simp only [reboot, hx]
    rcases hst with e | e <;> simp [restarts, e]
  · intro c n hc
    simp only [step] at hc
    rw [cur_crash] at hc
    exact absurd hc (by simp)

end Verif.Ctl
