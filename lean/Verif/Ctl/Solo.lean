import Verif.Ctl.Cover

/-!
# The commands a store carries out (histories with few regions)

For the examples: when all commands are for the regions of a list, it can be computed whether two
regions are ever entered at the same time.
-/

namespace Verif.Ctl
open Verif.Codec (Bytes)
open Verif.Region (RState Range canMove maxStartKey)

/-- Only the regions of `L` are there. -/
structure Solo (L : List Nat) (s : St) : Prop where
  exec : ∀ r, r ∉ L → s.exec r = none
  regs : ∀ a ∈ s.regs, a.1 ∈ L
  cmds : ∀ e ∈ s.cmds, e.1.region ∈ L
  share : ∀ c ∈ s.share, c.region ∈ L
  wait : ∀ r x, s.exec r = some x → (∀ c ∈ x.wait, c.region ∈ L) ∧ ∀ c n, x.run = some (c, n) → c.region ∈ L

def enters (s : St) (r : Nat) : Bool :=
  match cur s r with
  | some (c, n) => n == 1 && (match c.kind with
    | .create _ _ => true
    | _ => false)
  | none => false

theorem enters_of {s : St} {r : Nat} {g : Range} (h : Entering s r g) : enters s r = true := by
  obtain ⟨c, p, h1, h2⟩ := h
  simp [enters, h1, h2]

/-- No two regions of `L` are being entered. -/
def quiet (L : List Nat) (s : St) : Bool := L.all fun a => L.all fun b => a == b || !(enters s a && enters s b)

theorem Solo.one {L : List Nat} {s : St} (h : Solo L s) (hq : quiet L s = true) : OneByOne s := by
  intro a b g g' hne h1 h2
  have mem : ∀ a g, Entering s a g → a ∈ L := by
    rintro a g ⟨c, p, h1, -⟩
    by_cases e : a ∈ L
    · exact e
    · simp [cur, h.exec a e] at h1
  have := List.all_eq_true.1 (List.all_eq_true.1 hq a (mem a g h1)) b (mem b g' h2)
  rw [enters_of h1, enters_of h2] at this
  exact absurd (by simpa using this) hne

theorem Solo.upd {L : List Nat} {s : St} (h : Solo L s) {r : Nat} (hr : r ∈ L) {x : Option Exec} :
    ∀ r', r' ∉ L → upd s.exec r x r' = none :=
  fun r' hne => by
    have : r' ≠ r := by rintro rfl; exact hne hr
    rw [upd_ne _ _ this]
    exact h.exec r' hne

theorem Solo.updw {L : List Nat} {s : St} (h : Solo L s) {r : Nat} {y : Exec}
    (hy : (∀ c ∈ y.wait, c.region ∈ L) ∧ ∀ c n, y.run = some (c, n) → c.region ∈ L) :
    ∀ r' x, Ctl.upd s.exec r (some y) r' = some x → (∀ c ∈ x.wait, c.region ∈ L) ∧ ∀ c n, x.run = some (c, n) → c.region ∈ L := by
  intro r' x hx
  by_cases e : r' = r
  · subst e; rw [upd_same, Option.some.injEq] at hx; rw [← hx]; exact hy
  · rw [upd_ne _ _ e] at hx; exact h.wait r' x hx

theorem solo_dispatchImpl {L : List Nat} {s : St} (h : Solo L s) {c : Cmd} (hc : c.region ∈ L) : Solo L (dispatchImpl s c).1 := by
  have reg : Solo L (register s c.region) := by
    unfold register
    split
    · exact h
    · exact ⟨h.upd hc, h.regs, h.cmds, h.share,
        h.updw ⟨fun d hd => absurd hd (by simp), fun c n e => absurd e (by simp)⟩⟩
  have enq : ∀ {t : St}, Solo L t → Solo L (enqueue t c).1 := by
    intro t ht
    unfold enqueue
    have sh : ∀ l : List Cmd, (∀ d ∈ l, d.region ∈ L) → ∀ d ∈ l ++ [c], d.region ∈ L := by
      intro l hl d hd
      rcases List.mem_append.1 hd with hd | hd
      · exact hl d hd
      · rw [List.mem_singleton.1 hd]; exact hc
    split
    · exact ⟨ht.exec, ht.regs, ht.cmds, sh _ ht.share, ht.wait⟩
    · exact ⟨ht.exec, ht.regs, ht.cmds, sh _ ht.share, ht.wait⟩
    · split
      · exact ht
      · next x hx =>
        have := ht.wait _ x hx
        exact ⟨ht.upd hc, ht.regs, ht.cmds, ht.share, ht.updw ⟨sh _ this.1, this.2⟩⟩
  unfold dispatchImpl
  split
  · exact enq reg
  · exact enq h

theorem solo_dispatch {L : List Nat} {s : St} (h : Solo L s) {c : Cmd} (hc : c.region ∈ L) : Solo L (dispatch s c).1 := by
  unfold dispatch
  split
  · exact h
  · refine solo_dispatchImpl (s := { s with cmds := addCmd c s.cmds }) ⟨h.exec, h.regs, ?_, h.share, h.wait⟩ hc
    intro e he
    rcases mem_addCmd he with e' | he
    · rw [e']; exact hc
    · exact h.cmds e he

theorem solo_recover {L : List Nat} (l : List Cmd) : ∀ {s : St}, Solo L s → (∀ c ∈ l, c.region ∈ L) → Solo L (recover l s) := by
  induction l with
  | nil => exact fun h _ => h
  | cons c l ih =>
    exact fun h hl => ih (solo_dispatchImpl h (hl c List.mem_cons_self)) (fun d hd => hl d (List.mem_cons_of_mem _ hd))

theorem solo_putCmd {L : List Nat} {s : St} (h : Solo L s) {c : Cmd} (hc : c.region ∈ L) (t : Status) :
    ∀ e ∈ putCmd c t s.cmds, e.1.region ∈ L := by
  intro e he
  rcases mem_putCmd he with e' | he
  · rw [e']; exact hc
  · exact h.cmds e he

/-- The event concerns regions of `L` only. -/
def Ev.about (L : List Nat) : Ev → Bool
  | .push c _ => L.contains c.region
  | .work r _ _ => L.contains r
  | _ => true

theorem solo_step {L : List Nat} {s : St} (h : Solo L s) (e : Ev) (he : e.about L = true) : Solo L (step s e) := by
  have put' : ∀ {r : Nat} {x y : Rec} {l : Regs}, (∀ a ∈ l, a.1 ∈ L) → get r s.regs = some y → ∀ a ∈ put r x l, a.1 ∈ L := by
    intro r x y l hl hg a ha
    rcases mem_put.1 ha with e | ⟨ha, -⟩
    · rw [e]; exact h.regs (r, y) (get_mem hg)
    · exact hl a ha
  cases e with
  | push c ok =>
    have hc : c.region ∈ L := by simpa [Ev.about] using he
    simp only [step, push]
    split
    · have := solo_dispatch h hc
      exact ⟨this.exec, this.regs, this.cmds, this.share, this.wait⟩
    · exact ⟨h.exec, h.regs, h.cmds, h.share, h.wait⟩
  | crash =>
    have ho : ∀ c ∈ open' s.cmds, c.region ∈ L := by
      intro c hc
      simp only [open', List.mem_map, List.mem_filter] at hc
      obtain ⟨e, ⟨he, -⟩, rfl⟩ := hc
      exact h.cmds e he
    refine solo_recover _ ⟨?_, h.regs, h.cmds, ?_, ?_⟩ ho
    · intro r' hne
      have : get r' s.regs = none := get_none.2 fun a ha e => hne (e ▸ h.regs a ha)
      simp only [reboot, this]
    · intro c hc; simp [reboot] at hc
    · intro r x hx
      simp only [reboot] at hx
      split at hx
      · split at hx
        · cases hx; exact ⟨fun d hd => absurd hd (by simp), fun c n e => absurd e (by simp)⟩
        · exact absurd hx (by simp)
      · exact absurd hx (by simp)
  | write r' k =>
    simp only [step, write]
    split
    · exact h
    · split
      · exact ⟨h.exec, h.regs, h.cmds, h.share, h.wait⟩
      · exact h
  | mark r' t =>
    simp only [step, mark]
    split
    · exact h
    · next x hx =>
      split
      · exact ⟨h.exec, put' h.regs hx, h.cmds, h.share, h.wait⟩
      · exact h
  | split p c key =>
    simp only [step, splitEv]
    split
    · next x y hx hy =>
      split
      · exact ⟨h.exec, put' (put' h.regs hy) hx, h.cmds, h.share, h.wait⟩
      · exact h
    · exact h
  | merge p t =>
    simp only [step, mergeEv]
    split
    · next x y hx hy =>
      split
      · exact ⟨h.exec, put' (put' h.regs hx) hy, h.cmds, h.share, h.wait⟩
      · exact h
    · exact h
  | share =>
    simp only [step, workShare]
    split
    · exact h
    · next c q hs =>
      have hc : c.region ∈ L := h.share c (by rw [hs]; exact List.mem_cons_self)
      have hq : ∀ d ∈ q, d.region ∈ L := fun d hd => h.share d (by rw [hs]; exact List.mem_cons_of_mem _ hd)
      split
      · exact ⟨h.exec, fun a ha => h.regs a (mem_del.1 ha).1, solo_putCmd h hc _, hq, h.wait⟩
      · split
        · exact h
        · exact h
        · refine ⟨h.upd hc, h.regs, solo_putCmd h hc _, hq, ?_⟩
          intro r x hx
          by_cases e : r = c.region
          · subst e; simp only [upd_same] at hx; exact absurd hx (by simp)
          · simp only [upd_ne _ _ e] at hx; exact h.wait r x hx
      · exact h
  | work r' ok id =>
    have hr : r' ∈ L := by simpa [Ev.about] using he
    have goto' : ∀ {t : St} {c : Cmd} {q : List Cmd} {n : Nat}, Solo L t → c.region ∈ L → (∀ d ∈ q, d.region ∈ L) →
        Solo L (goto t r' c q n) := by
      intro t c q n ht hc hq
      refine ⟨ht.upd hr, ht.regs, ht.cmds, ht.share, ht.updw ⟨hq, fun c' n' e => ?_⟩⟩
      cases e; exact hc
    have fin : ∀ {t : St} {c : Cmd} {q : List Cmd} {o : Bool}, Solo L t → c.region ∈ L → (∀ d ∈ q, d.region ∈ L) →
        Solo L (finish t r' c q o) := by
      intro t c q o ht hc hq
      exact ⟨ht.upd hr, ht.regs, solo_putCmd ht hc _, ht.share, ht.updw ⟨hq, fun c' n' e => absurd e (by simp)⟩⟩
    have onr : ∀ f a, a ∈ on r' f s.regs → a.1 ∈ L := by
      intro f a ha
      unfold on at ha
      split at ha
      · exact h.regs a ha
      · next x hx => exact put' h.regs hx a ha
    simp only [step, work]
    split
    · exact h
    · exact h
    · next c q hx =>
      have := h.wait _ _ hx
      exact goto' h (this.1 c List.mem_cons_self) (fun d hd => this.1 d (List.mem_cons_of_mem _ hd))
    · next c n q hx =>
      have hcq := h.wait _ _ hx
      have hc := hcq.2 c n rfl
      have hq := hcq.1
      split
      · next g p hk =>
        unfold stepCreate
        split
        · split
          · exact goto' h hc hq
          · exact fin h hc hq
        · refine goto' (t := { s with regs := add r' ⟨.new, g⟩ s.regs }) ⟨h.exec, ?_, h.cmds, h.share, h.wait⟩ hc hq
          intro a ha
          simp only [add] at ha
          split at ha
          · rcases mem_put.1 ha with e | ⟨ha, -⟩
            · rw [e]; exact hr
            · exact h.regs a ha
          · exact h.regs a ha
        · split
          · exact goto' (t := { s with nodes := Ctl.upd s.nodes r' true, metas := Ctl.upd s.metas r' true })
              ⟨h.exec, h.regs, h.cmds, h.share, h.wait⟩ hc hq
          · exact fin h hc hq
        · exact goto' (t := { s with regs := on r' (Rec.move (if p = 0 then .normal else .standby)) s.regs })
            ⟨h.exec, onr _, h.cmds, h.share, h.wait⟩ hc hq
        · exact fin h hc hq
      · unfold stepDelete
        split
        · split
          · exact goto' h hc hq
          · exact fin h hc hq
        · exact goto' (t := { s with regs := on r' (Rec.move .deleting) s.regs }) ⟨h.exec, onr _, h.cmds, h.share, h.wait⟩ hc hq
        · exact goto' (t := { s with nodes := Ctl.upd s.nodes r' false }) ⟨h.exec, h.regs, h.cmds, h.share, h.wait⟩ hc hq
        · exact goto' (t := { s with regs := on r' (Rec.move .deleted) s.regs }) ⟨h.exec, onr _, h.cmds, h.share, h.wait⟩ hc hq
        · exact goto' (t := { s with metas := Ctl.upd s.metas r' false }) ⟨h.exec, h.regs, h.cmds, h.share, h.wait⟩ hc hq
        · exact goto' ⟨h.exec, h.regs, h.cmds, h.share, h.wait⟩ hc hq
        · exact goto' (solo_dispatch h (c := ⟨id, r', .destroy, false⟩) hr) hc hq
        · exact goto' (t := { s with regs := del r' s.regs })
            ⟨h.exec, fun a ha => h.regs a (mem_del.1 ha).1, h.cmds, h.share, h.wait⟩ hc hq
        · exact fin h hc hq
      · split
        · exact fin (t := { s with nodes := Ctl.upd s.nodes r' false }) ⟨h.exec, h.regs, h.cmds, h.share, h.wait⟩ hc hq
        · exact fin h hc hq
      · exact fin h hc hq
      · exact h
      · exact h

/-- In no state of the history two regions of `L` are being entered, and all events are about `L`. -/
def quietly (L : List Nat) (s : St) : List Ev → Bool
  | [] => true
  | e :: es => e.about L && quiet L (step s e) && quietly L (step s e) es

theorem solo_run {L : List Nat} (es : List Ev) : ∀ {s : St}, Solo L s → Calm s → quietly L s es = true →
    Calm (run s es) ∧ (Plain s → es.all Ev.plain = true → Plain (run s es)) := by
  induction es with
  | nil => exact fun _ hc _ => ⟨hc, fun hp _ => hp⟩
  | cons e es ih =>
    intro s h hc ha
    simp only [quietly, Bool.and_eq_true] at ha
    have h1 := solo_step h e ha.1.1
    have ho := h1.one ha.1.2
    obtain ⟨h3, h4⟩ := ih h1 (.step e hc ho) ha.2
    refine ⟨h3, fun hp hpl => ?_⟩
    simp only [List.all_cons, Bool.and_eq_true] at hpl
    exact h4 (.step e hp ho hpl.1) hpl.2

theorem solo_init (L : List Nat) : Solo L .init :=
  ⟨fun _ _ => rfl, fun a ha => by simp [St.init] at ha, fun a ha => by simp [St.init] at ha,
    fun a ha => by simp [St.init] at ha, fun r x hx => by simp [St.init] at hx⟩

theorem calm_solo (L : List Nat) {es : List Ev} (h : quietly L .init es = true) : Calm (run .init es) :=
  (solo_run es (solo_init L) .init h).1

theorem plain_solo (L : List Nat) {es : List Ev} (h : quietly L .init es = true) (h' : es.all Ev.plain = true) :
    Plain (run .init es) :=
  (solo_run es (solo_init L) .init h).2 .init h'

end Verif.Ctl
