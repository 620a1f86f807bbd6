import Verif.Ctl.Once
import Verif.Ctl.WitnessCreate

/-!
# C96: what becomes of the commands sent to a store
-/

namespace Verif.Ctl
open Verif.Codec (Bytes)
open Verif.Region (RState Range)

/-! ### Commands that are not taken -/

/-- C96: a command that is refused by a check, or whose id was seen before, changes nothing. -/
theorem C96_refused (s : St) (c : Cmd) (ok : Bool)
    (h : (step s (.push c ok)).acks.head? = some (c.id, .invalid) ∨
      (step s (.push c ok)).acks.head? = some (c.id, .repeated)) :
    ∃ a, step s (.push c ok) = { s with acks := (c.id, a) :: s.acks } := by
  simp only [step, push] at h ⊢
  split at h
  · next hv =>
    rw [if_pos hv]
    simp only [List.head?_cons, Option.some.injEq, Prod.mk.injEq, true_and] at h
    unfold dispatch at h ⊢
    split at h
    · next hk => rw [if_pos hk]; exact ⟨.repeated, rfl⟩
    · exfalso
      unfold dispatchImpl enqueue at h
      split at h <;> split at h <;> (try split at h) <;> simp at h
  · next hv => rw [if_neg hv]; exact ⟨.invalid, rfl⟩

/-- C96: a command that is not marked as a retry and whose id was seen before is never given to a
worker again. -/
theorem C96_repeated (s : St) (c : Cmd) (ok : Bool) (hr : c.retry = false) (hk : ∃ d t, (d, t) ∈ s.cmds ∧ d.id = c.id) :
    ∃ a, (a = .repeated ∨ a = .invalid) ∧ step s (.push c ok) = { s with acks := (c.id, a) :: s.acks } := by
  obtain ⟨d, t, hd, e⟩ := hk
  have hkn : known s.cmds c.id = true := known_iff.2 ⟨_, hd, e⟩
  simp only [step, push]
  split
  · simp only [dispatch, hr, hkn, Bool.not_false, Bool.and_true, if_true]
    exact ⟨.repeated, Or.inl rfl, rfl⟩
  · exact ⟨.invalid, Or.inr rfl, rfl⟩

/-! ### Commands that are taken -/

theorem pending_upd {s : St} {r : Nat} {x : Exec} {c : Cmd} (h : c ∈ x.wait) :
    Pending { s with exec := upd s.exec r (some x) } c := by
  refine Or.inl ⟨r, ?_⟩
  rw [pend_upd, if_pos rfl]
  exact List.mem_append_right _ h

theorem enqueue_ok {s : St} {c : Cmd} (h : (enqueue s c).2 = .ok) : Pending (enqueue s c).1 c := by
  unfold enqueue at h ⊢
  split
  · exact Or.inr (by simp)
  · exact Or.inr (by simp)
  · next hk1 hk2 =>
    split at h
    · next hk => exact absurd hk hk1
    · next hk => exact absurd hk hk2
    · split
      · next hx => simp [hx] at h
      · exact pending_upd (by simp)

theorem dispatchImpl_ok {s : St} {c : Cmd} (h : (dispatchImpl s c).2 = .ok) : Pending (dispatchImpl s c).1 c := by
  unfold dispatchImpl at h ⊢
  split
  · next hk => simp only [hk] at h; exact enqueue_ok h
  · next hk =>
    split at h
    · next hk' => exact absurd hk' (hk _ _)
    · exact enqueue_ok h

/-- C96: a command answered with success is with a worker, and is in the table that survives a
restart. -/
theorem C96_accepted {s : St} (h : Tidy s) (c : Cmd) (ok : Bool) (hr : c.retry = false)
    (ha : (step s (.push c ok)).acks.head? = some (c.id, .ok)) :
    Pending (step s (.push c ok)) c ∧ (c, .none) ∈ (step s (.push c ok)).cmds := by
  have hp : Pending (step s (.push c ok)) c := by
    simp only [step, push] at ha ⊢
    split at ha
    · next hv =>
      rw [if_pos hv]
      simp only [List.head?_cons, Option.some.injEq, Prod.mk.injEq, true_and] at ha
      have : Pending (dispatch s c).1 c := by
        unfold dispatch at ha ⊢
        split at ha
        · exact absurd ha (by simp)
        · next hk => rw [if_neg hk]; exact dispatchImpl_ok ha
      exact this
    · simp at ha
  exact ⟨hp, (Tidy.step (.push c ok) h (by simp [Ev.first, hr])).cinv.ent c hp⟩

/-! ### Commands stay -/

theorem pending_register {s : St} {c : Cmd} (h : Pending s c) (r : Nat) : Pending (register s r) c := by
  unfold register
  split
  · exact h
  · next hx =>
    rcases h with ⟨r', h⟩ | h
    · refine Or.inl ⟨r', ?_⟩
      rw [pend_upd]
      split
      · next e => rw [e] at h; simp [pend, hx] at h
      · exact h
    · exact Or.inr h

theorem pending_enqueue {s : St} {c : Cmd} (h : Pending s c) (d : Cmd) : Pending (enqueue s d).1 c := by
  unfold enqueue
  split
  · exact h.imp id (List.mem_append_left _)
  · exact h.imp id (List.mem_append_left _)
  · split
    · exact h
    · next x hx =>
      rcases h with ⟨r, h⟩ | h
      · refine Or.inl ⟨r, ?_⟩
        rw [pend_upd]
        split
        · next e =>
          rw [e] at h
          unfold pend at h
          rw [hx] at h
          simp only [← List.append_assoc]
          exact List.mem_append_left _ h
        · exact h
      · exact Or.inr h

theorem pending_kept {s : St} {c : Cmd} (h : Pending s c) (d : Cmd) : Pending (dispatchImpl s d).1 c := by
  unfold dispatchImpl
  split
  · exact pending_enqueue (pending_register h _) d
  · exact pending_enqueue h d

theorem pending_dispatch {s : St} {c : Cmd} (h : Pending s c) (d : Cmd) : Pending (dispatch s d).1 c := by
  unfold dispatch
  split
  · exact h
  · exact pending_kept (s := { s with cmds := addCmd d s.cmds }) h d

theorem pending_goto {s t : St} {c : Cmd} (h : Pending t c) {r : Nat} {d : Cmd} {q : List Cmd} (n : Nat)
    (he : pend t r = d :: q) (hs : s = t) : Pending (goto s r d q n) c := by
  subst hs
  rcases h with ⟨r', h⟩ | h
  · refine Or.inl ⟨r', ?_⟩
    rw [pend_goto]
    split
    · next e => rw [e, he] at h; exact h
    · exact h
  · exact Or.inr h

theorem pending_finish {t : St} {c : Cmd} (h : Pending t c) {r : Nat} {d : Cmd} {q : List Cmd} (ok : Bool)
    (he : pend t r = d :: q) : Pending (finish t r d q ok) c ∨ ∃ o, (c.id, o) ∈ (finish t r d q ok).outs := by
  rcases h with ⟨r', h⟩ | h
  · by_cases e : r' = r
    · rw [e, he] at h
      rcases List.mem_cons.1 h with h | h
      · exact Or.inr ⟨ok, by rw [h]; exact List.mem_cons_self⟩
      · exact Or.inl (Or.inl ⟨r, by rw [pend_finish, if_pos rfl]; exact h⟩)
    · exact Or.inl (Or.inl ⟨r', by rw [pend_finish, if_neg e]; exact h⟩)
  · exact Or.inl (Or.inr h)

/-- C96: as long as the store does not stop, a command that is with a worker stays with it until it
ends, whatever else happens. -/
theorem C96_kept {s : St} {c : Cmd} (h : Pending s c) (e : Ev) (he : e ≠ .crash) :
    Pending (step s e) c ∨ ∃ o, (c.id, o) ∈ (step s e).outs := by
  have same : ∀ t : St, t.exec = s.exec → t.share = s.share → Pending t c := by
    intro t h1 h2
    unfold Pending pend at h ⊢
    rw [h1, h2]
    exact h
  have pt : ∀ (t : St) (r : Nat), t.exec = s.exec → pend t r = pend s r := by
    intro t r h1; unfold pend; rw [h1]
  cases e with
  | crash => exact absurd rfl he
  | push d ok =>
    left
    simp only [step, push]
    split
    · exact pending_dispatch h d
    · exact same _ rfl rfl
  | write r k => left; simp only [step, write]; split <;> (try split) <;> exact same _ rfl rfl
  | split p d key => left; simp only [step, splitEv]; split <;> (try split) <;> exact same _ rfl rfl
  | merge p t => left; simp only [step, mergeEv]; split <;> (try split) <;> exact same _ rfl rfl
  | mark r t => left; simp only [step, mark]; split <;> (try split) <;> exact same _ rfl rfl
  | share =>
    simp only [step, workShare]
    split
    · exact Or.inl h
    · next d q hs =>
      have tail : c ∈ s.share → c = d ∨ c ∈ q := by rw [hs]; exact List.mem_cons.1
      split
      · rcases h with h | h
        · exact Or.inl (Or.inl h)
        · rcases tail h with h | h
          · exact Or.inr ⟨true, by rw [h]; exact List.mem_cons_self⟩
          · exact Or.inl (Or.inr h)
      · split
        · exact Or.inl h
        · exact Or.inl h
        · next hn1 hn2 =>
          rcases h with ⟨r, h⟩ | h
          · refine Or.inl (Or.inl ⟨r, ?_⟩)
            have := pend_upd s d.region none r
            have hp : pend s d.region = [] := pend_destroyed (fun y w => hn1 y w) (fun c w => hn2 c w)
            refine this.symm ▸ ?_
            split
            · next e => rw [e, hp] at h; simp at h
            · exact h
          · rcases tail h with h | h
            · exact Or.inr ⟨true, by rw [h]; exact List.mem_cons_self⟩
            · exact Or.inl (Or.inr h)
      · exact Or.inl h
  | work r ok id =>
    simp only [step, work]
    split
    · exact Or.inl h
    · exact Or.inl h
    · next d q hx => exact Or.inl (pending_goto h 0 (pend_of_wait hx) rfl)
    · next d n q hx =>
      have hp := pend_of_run hx
      have go : ∀ (t : St) (n : Nat), t.exec = s.exec → t.share = s.share →
          Pending (goto t r d q n) c ∨ ∃ o, (c.id, o) ∈ (goto t r d q n).outs :=
        fun t n h1 h2 => Or.inl (pending_goto (same t h1 h2) n ((pt t r h1).trans hp) rfl)
      have fin : ∀ (t : St) (o : Bool), t.exec = s.exec → t.share = s.share →
          Pending (finish t r d q o) c ∨ ∃ o', (c.id, o') ∈ (finish t r d q o).outs :=
        fun t o h1 h2 => pending_finish (same t h1 h2) o ((pt t r h1).trans hp)
      split
      · unfold stepCreate
        split
        · split
          · exact go _ _ rfl rfl
          · exact fin _ _ rfl rfl
        · exact go _ _ rfl rfl
        · split
          · exact go _ _ rfl rfl
          · exact fin _ _ rfl rfl
        · exact go _ _ rfl rfl
        · exact fin _ _ rfl rfl
      · unfold stepDelete
        split
        · split
          · exact go _ _ rfl rfl
          · exact fin _ _ rfl rfl
        · exact go _ _ rfl rfl
        · exact go _ _ rfl rfl
        · exact go _ _ rfl rfl
        · exact go _ _ rfl rfl
        · exact go _ _ rfl rfl
        · have hex : (dispatch s ⟨id, r, .destroy, false⟩).1.exec = s.exec := by
            unfold dispatch; split <;> rfl
          exact Or.inl (pending_goto (pending_dispatch h ⟨id, r, .destroy, false⟩) 7 ((pt _ r hex).trans hp) rfl)
        · exact go _ _ rfl rfl
        · exact fin _ _ rfl rfl
      · split
        · exact fin _ _ rfl rfl
        · exact fin _ _ rfl rfl
      · exact fin _ _ rfl rfl
      · exact Or.inl h
      · exact Or.inl h

/-! ### Restarts -/

theorem recover_keeps (l : List Cmd) : ∀ {s : St} {c : Cmd}, Pending s c → Pending (recover l s) c := by
  induction l with
  | nil => exact fun h => h
  | cons d l ih => exact fun h => ih (pending_kept h d)

/-- A worker is there. -/
def Staffed (s : St) (r : Nat) : Prop := s.exec r ≠ none

theorem staffed_dispatchImpl {s : St} {r : Nat} (h : Staffed s r) (d : Cmd) : Staffed (dispatchImpl s d).1 r := by
  have up : ∀ (t : St) (r' : Nat) (x : Exec), Staffed t r → Staffed { t with exec := upd t.exec r' (some x) } r := by
    intro t r' x ht
    unfold Staffed upd
    by_cases e : r = r'
    · simp [e]
    · simp only [if_neg e]; exact ht
  have reg : Staffed (register s d.region) r := by
    unfold register
    split
    · exact h
    · exact up s _ _ h
  have enq : ∀ t, Staffed t r → Staffed (enqueue t d).1 r := by
    intro t ht
    unfold enqueue
    split
    · exact ht
    · exact ht
    · split
      · exact ht
      · exact up t _ _ ht
  unfold dispatchImpl
  split
  · exact enq _ reg
  · exact enq _ h

/-- The command finds a worker when it is dispatched. -/
def Goes (s : St) (c : Cmd) : Prop :=
  (∃ g p, c.kind = .create g p) ∨ c.kind = .purge ∨ c.kind = .destroy ∨ Staffed s c.region

theorem goes_ok {s : St} {c : Cmd} (h : Goes s c) : (dispatchImpl s c).2 = .ok := by
  have reg : (register s c.region).exec c.region ≠ none := by
    unfold register
    split
    · next hx => rw [hx]; simp
    · simp [upd]
  rcases h with ⟨g, p, hk⟩ | hk | hk | hw
  · simp only [dispatchImpl, hk, enqueue]
    split
    · next hx => exact absurd hx reg
    · rfl
  · simp only [dispatchImpl, hk, enqueue]
  · simp only [dispatchImpl, hk, enqueue]
  · unfold Staffed at hw
    have enq : ∀ t : St, t.exec c.region ≠ none → (enqueue t c).2 = .ok := by
      intro t ht
      unfold enqueue
      split
      · rfl
      · rfl
      · split
        · next hx => exact absurd hx ht
        · rfl
    unfold dispatchImpl
    split
    · exact enq _ reg
    · exact enq _ hw

theorem recover_goes (l : List Cmd) : ∀ {s : St} {c : Cmd}, c ∈ l → Goes s c → Pending (recover l s) c := by
  induction l with
  | nil => exact fun h => absurd h (by simp)
  | cons d l ih =>
    intro s c hc hg
    rcases List.mem_cons.1 hc with e | hc
    · subst e
      exact recover_keeps l (dispatchImpl_ok (goes_ok hg))
    · refine ih hc ?_
      rcases hg with h | h | h | h
      · exact Or.inl h
      · exact Or.inr (Or.inl h)
      · exact Or.inr (Or.inr (Or.inl h))
      · exact Or.inr (Or.inr (Or.inr (staffed_dispatchImpl h d)))

/-- C96: after a restart every command in the table without an outcome is with a worker again, if
its region is in the table of regions and not deleted, or it is a command to create a region or
to purge one. -/
theorem C96_restart {s : St} {c : Cmd} (hc : (c, .none) ∈ s.cmds)
    (h : (∃ g p, c.kind = .create g p) ∨ c.kind = .purge ∨ c.kind = .destroy ∨
      ∃ x, get c.region s.regs = some x ∧ x.state ≠ .deleted) : Pending (step s .crash) c := by
  refine recover_goes _ (mem_open.2 hc) ?_
  rcases h with h | h | h | ⟨x, hx, hs⟩
  · exact Or.inl h
  · exact Or.inr (Or.inl h)
  · exact Or.inr (Or.inr (Or.inl h))
  · refine Or.inr (Or.inr (Or.inr ?_))
    simp only [Staffed, reboot, hx, alive, bne_iff_ne, ne_eq, hs, not_false_eq_true, if_true]
    simp

/-- C96: a command with an outcome is not carried out again, by no restart either, and its outcome
does not change. -/
theorem C96_ended {s : St} (h : Tidy s) {c : Cmd} {t : Status} (hc : (c, t) ∈ s.cmds) (ht : t ≠ .none) :
    ¬ Pending s c ∧ ∀ e : Ev, e.first = true → (c, t) ∈ (step s e).cmds := by
  have hi := h.cinv
  have hne : ∀ d, Pending s d → d.id ≠ c.id := by
    intro d hd e
    have := hi.sorted.uniq (hi.ent d hd) hc e
    rw [Prod.mk.injEq] at this
    exact ht this.2.symm
  refine ⟨fun hp => hne c hp rfl, ?_⟩
  have fresh : ∀ d : Cmd, d.retry = false → (c, t) ∈ (dispatch s d).1.cmds := by
    intro d hr
    unfold dispatch
    split
    · exact hc
    · next hk =>
      rw [cmds_dispatchImpl]
      have hk' : known s.cmds d.id = false := by
        cases hkn : known s.cmds d.id with
        | false => rfl
        | true => simp [hr, hkn] at hk
      simp only [addCmd, hk', Bool.false_eq_true, if_false]
      refine (mem_putCmd_iff hi.sorted).2 (Or.inr ⟨hc, fun e => ?_⟩)
      rw [known_iff.2 ⟨_, hc, e⟩] at hk'
      exact absurd hk' (by simp)
  have fin : ∀ (d : Cmd) (t' : Status), Pending s d → (c, t) ∈ putCmd d t' s.cmds :=
    fun d t' hd => (mem_putCmd_iff hi.sorted).2 (Or.inr ⟨hc, fun e => hne d hd e.symm⟩)
  intro e he
  cases e with
  | push d ok =>
    simp only [step, push]
    split
    · exact fresh d (by simpa [Ev.first] using he)
    · exact hc
  | crash =>
    have : ∀ (l : List Cmd) (t : St), (recover l t).cmds = t.cmds := by
      intro l
      induction l with
      | nil => exact fun t => rfl
      | cons d l ih => exact fun t => (ih _).trans (cmds_dispatchImpl t d)
    simp only [step, crash, this]
    exact hc
  | write r k => simp only [step, write]; split <;> (try split) <;> exact hc
  | split p d key => simp only [step, splitEv]; split <;> (try split) <;> exact hc
  | merge p t => simp only [step, mergeEv]; split <;> (try split) <;> exact hc
  | mark r t => simp only [step, mark]; split <;> (try split) <;> exact hc
  | share =>
    simp only [step, workShare]
    split
    · exact hc
    · next d q hs =>
      have hd : Pending s d := Or.inr (by rw [hs]; exact List.mem_cons_self)
      split
      · exact fin d _ hd
      · split
        · exact hc
        · exact hc
        · exact fin d _ hd
      · exact hc
  | work r ok id =>
    simp only [step, work]
    split
    · exact hc
    · exact hc
    · exact hc
    · next d n q hx =>
      have hd : Pending s d := Or.inl ⟨r, by rw [pend_of_run hx]; exact List.mem_cons_self⟩
      split
      · unfold stepCreate
        split <;> (try split) <;> first | exact hc | exact fin d _ hd
      · unfold stepDelete
        split
        · split
          · exact hc
          · exact fin d _ hd
        · exact hc
        · exact hc
        · exact hc
        · exact hc
        · exact hc
        · exact fresh _ rfl
        · exact hc
        · exact fin d _ hd
      · split <;> exact fin d _ hd
      · exact fin d _ hd
      · exact hc
      · exact hc

/-- C96: no command ends twice. -/
theorem C96_once {s : St} (h : Tidy s) : (s.outs.map Prod.fst).Nodup := h.cinv.once

/-- C96: what the table says about a command that ended is how it ended. -/
theorem C96_recorded {s : St} (h : Tidy s) {id : Nat} {ok : Bool} (ho : (id, ok) ∈ s.outs) :
    ∃ c, c.id = id ∧ (c, if ok then .done else .fail) ∈ s.cmds := by
  obtain ⟨⟨c, t⟩, h1, h2, h3⟩ := h.cinv.over _ ho
  simp only at h2 h3
  exact ⟨c, h2, h3 ▸ h1⟩

/-! ### Commands end -/

/-- A step of a worker with a command: it ends, or goes on. -/
theorem work_on {s : St} {r : Nat} {c : Cmd} {n : Nat} {q : List Cmd} (ok : Bool) (id : Nat)
    (he : s.exec r = some ⟨some (c, n), q⟩) (hk : c.kind ≠ .purge ∧ c.kind ≠ .destroy) :
    (∃ o, (work s r ok id).outs = (c.id, o) :: s.outs ∧ (work s r ok id).exec r = some ⟨none, q⟩) ∨
      (n < 8 ∧ (work s r ok id).exec r = some ⟨some (c, n + 1), q⟩ ∧ (work s r ok id).outs = s.outs) := by
  have fin : ∀ (t : St) (o : Bool), t.outs = s.outs → ∃ o', (finish t r c q o).outs = (c.id, o') :: s.outs ∧
      (finish t r c q o).exec r = some ⟨none, q⟩ := by
    intro t o h1
    exact ⟨o, by simp only [finish, h1], by simp only [finish, upd_same]⟩
  have go : ∀ (t : St) (m : Nat), m < 8 → n = m → t.outs = s.outs → n < 8 ∧
      (goto t r c q (m + 1)).exec r = some ⟨some (c, n + 1), q⟩ ∧ (goto t r c q (m + 1)).outs = s.outs := by
    rintro t m hm rfl h1
    exact ⟨hm, by simp only [goto, upd_same], h1⟩
  unfold work
  rw [he]
  simp only
  split
  · unfold stepCreate
    split
    · split
      · exact Or.inr (go s 0 (by omega) rfl rfl)
      · exact Or.inl (fin s _ rfl)
    · exact Or.inr (go _ 1 (by omega) rfl rfl)
    · split
      · exact Or.inr (go _ 2 (by omega) rfl rfl)
      · exact Or.inl (fin s _ rfl)
    · exact Or.inr (go _ 3 (by omega) rfl rfl)
    · exact Or.inl (fin s _ rfl)
  · unfold stepDelete
    split
    · split
      · exact Or.inr (go s 0 (by omega) rfl rfl)
      · exact Or.inl (fin s _ rfl)
    · exact Or.inr (go _ 1 (by omega) rfl rfl)
    · exact Or.inr (go _ 2 (by omega) rfl rfl)
    · exact Or.inr (go _ 3 (by omega) rfl rfl)
    · exact Or.inr (go _ 4 (by omega) rfl rfl)
    · exact Or.inr (go _ 5 (by omega) rfl rfl)
    · exact Or.inr (go _ 6 (by omega) rfl (same_dispatch s ⟨id, r, .destroy, false⟩).outs)
    · exact Or.inr (go _ 7 (by omega) rfl rfl)
    · exact Or.inl (fin s _ rfl)
  · split
    · exact Or.inl (fin _ _ rfl)
    · exact Or.inl (fin _ _ rfl)
  · exact Or.inl (fin _ _ rfl)
  · next h => exact absurd h hk.1
  · next h => exact absurd h hk.2

theorem run_append (s : St) (a b : List Ev) : run s (a ++ b) = run (run s a) b := by
  induction a generalizing s with
  | nil => rfl
  | cons e a ih => exact ih _

theorem work_ends (ok : Bool) (id : Nat) (r : Nat) (c : Cmd) (q : List Cmd) (hk : c.kind ≠ .purge ∧ c.kind ≠ .destroy) :
    ∀ (m : Nat) (s : St) (n : Nat), 9 - n ≤ m → s.exec r = some ⟨some (c, n), q⟩ →
      ∃ j o, (run s (List.replicate j (.work r ok id))).outs = (c.id, o) :: s.outs ∧
        (run s (List.replicate j (.work r ok id))).exec r = some ⟨none, q⟩ := by
  intro m
  induction m with
  | zero =>
    intro s n hn he
    rcases work_on ok id he hk with ⟨o, h1, h2⟩ | ⟨h1, -, -⟩
    · exact ⟨1, o, h1, h2⟩
    · omega
  | succ m ih =>
    intro s n hn he
    rcases work_on ok id he hk with ⟨o, h1, h2⟩ | ⟨h1, h2, h3⟩
    · exact ⟨1, o, h1, h2⟩
    · obtain ⟨j, o, h4, h5⟩ := ih (work s r ok id) (n + 1) (by omega) h2
      exact ⟨j + 1, o, by rw [← h3]; exact h4, h5⟩

theorem queue_ends (ok : Bool) (id : Nat) (r : Nat) (c : Cmd) :
    ∀ (q : List Cmd) (s : St), s.exec r = some ⟨none, q⟩ → (∀ d ∈ q, d.kind ≠ .purge ∧ d.kind ≠ .destroy) → c ∈ q →
      ∃ j o, (c.id, o) ∈ (run s (List.replicate j (.work r ok id))).outs := by
  intro q
  induction q with
  | nil => intro s _ _ hc; exact absurd hc (by simp)
  | cons d q ih =>
    intro s he hq hc
    have h1 : step s (.work r ok id) = goto s r d q 0 := by simp only [step, work, he]
    obtain ⟨j, o, h2, h3⟩ := work_ends ok id r d q (hq d List.mem_cons_self) 9 (goto s r d q 0) 0 (by omega)
      (by simp only [goto, upd_same])
    have h4 : run s (List.replicate (j + 1) (.work r ok id)) = run (goto s r d q 0) (List.replicate j (.work r ok id)) := by
      rw [List.replicate_succ, run, h1]
    rcases List.mem_cons.1 hc with e | hc
    · exact ⟨j + 1, o, by rw [h4, h2, e]; exact List.mem_cons_self⟩
    · obtain ⟨k, o', h5⟩ := ih _ h3 (fun x hx => hq x (List.mem_cons_of_mem _ hx)) hc
      refine ⟨j + 1 + k, o', ?_⟩
      rw [List.replicate_append_replicate.symm, run_append, h4]
      exact h5

/-- C96: a worker that goes on working ends every command it has. -/
theorem C96_ends {s : St} (h : Tidy s) {c : Cmd} {r : Nat} (hc : c ∈ pend s r) (ok : Bool) (id : Nat) :
    ∃ n o, (c.id, o) ∈ (run s (List.replicate n (.work r ok id))).outs := by
  have hh := h.cinv.home r
  cases hx : s.exec r with
  | none => simp [pend, hx] at hc
  | some x =>
    obtain ⟨rn, q⟩ := x
    cases rn with
    | none =>
      have hp := pend_of_wait hx
      rw [hp] at hc hh
      exact queue_ends ok id r c q s hx (fun d hd => (hh d hd).2) hc
    | some y =>
      obtain ⟨d, n⟩ := y
      have hp := pend_of_run hx
      rw [hp] at hc hh
      obtain ⟨j, o, h2, h3⟩ := work_ends ok id r d q (hh d List.mem_cons_self).2 9 s n (by omega) hx
      rcases List.mem_cons.1 hc with e | hc
      · exact ⟨j, o, by rw [h2, e]; exact List.mem_cons_self⟩
      · obtain ⟨k, o', h5⟩ := queue_ends ok id r c q _ h3 (fun x hx => (hh x (List.mem_cons_of_mem _ hx)).2) hc
        exact ⟨j + k, o', by rw [List.replicate_append_replicate.symm, run_append]; exact h5⟩

/-! ### Examples -/

theorem tidy_run (es : List Ev) : ∀ {s : St}, Tidy s → es.all Ev.first = true → Tidy (run s es) := by
  induction es with
  | nil => exact fun h _ => h
  | cons e es ih =>
    intro s h he
    simp only [List.all_cons, Bool.and_eq_true] at he
    exact ih (.step e h he.1) he.2

-- a command is taken, is with the worker, ends, and is not taken again
example : let s := run .init written
    Tidy s ∧ (step s (delete1 2)).acks.head? = some (2, .ok) ∧
      pend (step s (delete1 2)) 1 = [⟨2, 1, .delete, false⟩] ∧
      (run s (delete1 2 :: works 1 10)).outs = [(2, true), (1, true)] ∧
      (step s (.push ⟨1, 2, .create ⟨[8], [9]⟩ 0, false⟩ true)).acks.head? = some (1, .repeated) :=
  ⟨tidy_run _ .init (by decide +kernel), by decide +kernel, by decide +kernel, by decide +kernel, by decide +kernel⟩

-- a command without an outcome when the store stops
example : let s := run .init (written ++ [delete1 2])
    ((⟨2, 1, .delete, false⟩, .none) : Cmd × Status) ∈ s.cmds ∧ get 1 s.regs = some ⟨.normal, ⟨[3], [7]⟩⟩ ∧
      (step s .crash).exec 1 = some ⟨none, [⟨2, 1, .delete, false⟩]⟩ := by decide +kernel

/-! ### What does not hold -/

/-- Region 1 is deleted, and created again before the shared worker has removed its worker. -/
def orphaned : List Ev := written ++ delete1 2 :: works 1 10 ++ made 3 ++ [.share]

/-- C96, not so: a region that is up has a worker.  Its commands are then not carried out: the
answer is an error, yet the command is in the table, so that when it is sent again it is answered
as one that was taken before; it is carried out when the store is started again. -/
theorem C96_worker_false :
    Tidy (run .init orphaned) ∧ Plain (run .init orphaned) ∧
      get 1 (run .init orphaned).regs = some ⟨.normal, ⟨[3], [7]⟩⟩ ∧ (run .init orphaned).nodes 1 = true ∧
      (run .init (orphaned ++ [delete1 4])).acks.head? = some (4, .noExecutor) ∧
      pend (run .init (orphaned ++ [delete1 4])) 1 = [] ∧
      (run .init (orphaned ++ [delete1 4, delete1 4])).acks.head? = some (4, .repeated) ∧
      pend (run .init (orphaned ++ [delete1 4, delete1 4])) 1 = [] ∧
      get 1 (run .init (orphaned ++ [delete1 4, .crash] ++ works 1 10)).regs = none := by
  refine ⟨tidy_run _ .init (by decide +kernel), plain_solo [1] (by decide +kernel) (by decide +kernel), ?_⟩
  decide +kernel

/-- C96, not so: after a restart every command without an outcome is with a worker.  A deletion
that has come so far that its region is marked as deleted is with none, after this and any further
restart (`C98_stuck`: the region stays as it is). -/
theorem C96_restart_false :
    Tidy (run .init (written ++ delete1 2 :: works 1 5)) ∧
      pend (run .init (written ++ delete1 2 :: works 1 5)) 1 = [⟨2, 1, .delete, false⟩] ∧
      ((⟨2, 1, .delete, false⟩, .none) : Cmd × Status) ∈ (run .init (written ++ delete1 2 :: works 1 5 ++ [.crash])).cmds ∧
      pend (run .init (written ++ delete1 2 :: works 1 5 ++ [.crash])) 1 = [] ∧
      pend (run .init (written ++ delete1 2 :: works 1 5 ++ [.crash, .crash])) 1 = [] := by
  refine ⟨tidy_run _ .init (by decide +kernel), ?_⟩
  decide +kernel

/-- C96, not so with retries: no command ends twice.  A command marked as a retry is given to the
worker though the first one is still with it; the deletion ends well and then fails. -/
theorem C96_retry_false :
    Reach (run .init (written ++ [delete1 2, .push ⟨2, 1, .delete, true⟩ true] ++ works 1 12)) ∧
      (run .init (written ++ [delete1 2, .push ⟨2, 1, .delete, true⟩ true] ++ works 1 12)).outs =
        [(2, false), (2, true), (1, true)] := by
  refine ⟨reach_run _ .init, ?_⟩
  decide +kernel

end Verif.Ctl
