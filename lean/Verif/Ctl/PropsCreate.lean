import Verif.Ctl.PropsDelete
import Verif.Ctl.Solo

/-!
# C97: the creation of regions
-/

namespace Verif.Ctl
open Verif.Codec (Bytes)
open Verif.Region (RState Range canMove maxStartKey)

/-- C97: a command to create a region passes the check exactly when there is no region with its id
and every region ends before the new one starts, or starts after it ends. -/
theorem C97_checked (s : St) (c : Cmd) (ok : Bool) (g : Range) (p : Nat) (hk : c.kind = .create g p) :
    (step s (.push c ok)).acks.head? ≠ some (c.id, .invalid) ↔
      ∀ r x, (r, x) ∈ s.regs → r ≠ c.region ∧ (g.stop ≤ x.range.start ∨ x.range.stop ≤ g.start) := by
  have hv : validate s c ok = true ↔
      ∀ r x, (r, x) ∈ s.regs → r ≠ c.region ∧ (g.stop ≤ x.range.start ∨ x.range.stop ≤ g.start) := by
    have hc : ∀ a : Nat × Rec, conflict a.2.range g = false ↔ (g.stop ≤ a.2.range.start ∨ a.2.range.stop ≤ g.start) := by
      intro a
      simp only [conflict, Bool.not_eq_false', Bool.or_eq_true, decide_eq_true_eq]
    simp only [validate, hk]
    rw [createOk_iff]
    exact ⟨fun h r x hx => ⟨(h _ hx).1, (hc _).1 (h _ hx).2⟩, fun h a ha => ⟨(h _ _ ha).1, (hc _).2 (h _ _ ha).2⟩⟩
  rw [← hv]
  simp only [step, push]
  cases hval : validate s c ok with
  | false => simp
  | true =>
    simp only [if_true, List.head?_cons, ne_eq, Option.some.injEq, Prod.mk.injEq, true_and, iff_true]
    intro e
    unfold dispatch at e
    split at e
    · exact absurd e (by simp)
    · simp only [dispatchImpl, hk] at e
      simp only [enqueue, hk] at e
      split at e <;> exact absurd e (by simp)

/-- C97: as long as no two regions with a common key are entered at the same time, the store has one
record for each region, and no key is in the range of two regions: through creations, deletions,
purges, splits, merges and restarts. -/
theorem C97_apart_partial {s : St} (h : Calm s) :
    (∀ r x y, (r, x) ∈ s.regs → (r, y) ∈ s.regs → x = y) ∧
      ∀ r r' x y k, r ≠ r' → get r s.regs = some x → get r' s.regs = some y →
        ¬ (x.range.start ≤ k ∧ k < x.range.stop ∧ y.range.start ≤ k ∧ k < y.range.stop) := by
  constructor
  · intro r x y hx hy
    have := h.inv.uniq _ hx _ hy rfl
    rw [Prod.mk.injEq] at this
    exact this.2
  · rintro r r' x y k hne hx hy ⟨h1, h2, h3, h4⟩
    have := h.inv.apart _ (get_mem hx) _ (get_mem hy) hne k (inRange_iff.2 ⟨h1, h2⟩)
    rw [inRange_iff.2 ⟨h3, h4⟩] at this
    exact absurd this (by simp)

/-! ### What a creation that ended well has done -/

/-- What is there when a creation has come so far. -/
structure Made (s : St) : Prop where
  here : ∀ r c g p n, cur s r = some (c, n) → c.kind = .create g p → 2 ≤ n → get r s.regs ≠ none
  up : ∀ r c g p n, cur s r = some (c, n) → c.kind = .create g p → 3 ≤ n → s.nodes r = true ∧ s.metas r = true
  old : ∀ r c g p n, cur s r = some (c, n) → c.kind = .create g p → 4 ≤ n → ∀ x, get r s.regs = some x → x.state ≠ .new

theorem move_new {x : Rec} {t : RState} (ht : t ≠ .new) (h : (x.move t).state = .new) : x.state = .new := by
  unfold Rec.move at h
  split at h
  · exact absurd h ht
  · exact h

theorem made_moved (x : Rec) (p : Nat) : (x.move (if p = 0 then .normal else .standby)).state ≠ .new := by
  by_cases hp : p = 0
  · rw [if_pos hp]
    intro h
    have h1 := move_new (by simp) h
    simp [Rec.move, h1, canMove] at h
  · rw [if_neg hp]
    intro h
    have h1 := move_new (by simp) h
    simp [Rec.move, h1, canMove] at h

/-- A step of the worker of `r`. -/
theorem Made.turn {s s' : St} {r : Nat} {z : Option (Cmd × Nat)} (h : Made s) (hc : cur s' = upd (cur s) r z)
    (hr : ∀ r', r' ≠ r → get r' s'.regs = get r' s.regs) (hn : ∀ r', r' ≠ r → s'.nodes r' = s.nodes r')
    (hm : ∀ r', r' ≠ r → s'.metas r' = s.metas r')
    (hz : ∀ c g p n, z = some (c, n) → c.kind = .create g p → (2 ≤ n → get r s'.regs ≠ none) ∧
      (3 ≤ n → s'.nodes r = true ∧ s'.metas r = true) ∧ (4 ≤ n → ∀ x, get r s'.regs = some x → x.state ≠ .new)) :
    Made s' := by
  have hcr : cur s' r = z := by rw [hc, upd_same]
  have hcn : ∀ r', r' ≠ r → cur s' r' = cur s r' := fun r' hne => by rw [hc, upd_ne _ _ hne]
  refine ⟨?_, ?_, ?_⟩
  · intro r' c g p n hcur hk hle
    by_cases e : r' = r
    · subst e; exact (hz c g p n (hcr.symm.trans hcur) hk).1 hle
    · rw [hr r' e]; exact h.here r' c g p n (by rw [← hcn r' e]; exact hcur) hk hle
  · intro r' c g p n hcur hk hle
    by_cases e : r' = r
    · subst e; exact (hz c g p n (hcr.symm.trans hcur) hk).2.1 hle
    · rw [hn r' e, hm r' e]; exact h.up r' c g p n (by rw [← hcn r' e]; exact hcur) hk hle
  · intro r' c g p n hcur hk hle
    by_cases e : r' = r
    · subst e; exact (hz c g p n (hcr.symm.trans hcur) hk).2.2 hle
    · rw [hr r' e]; exact h.old r' c g p n (by rw [← hcn r' e]; exact hcur) hk hle

/-- A step that changes records only, and makes none new. -/
theorem Made.regs {s s' : St} (h : Made s) (hc : cur s' = cur s) (hn : s'.nodes = s.nodes) (hm : s'.metas = s.metas)
    (h1 : ∀ r, get r s.regs ≠ none → get r s'.regs ≠ none)
    (h2 : ∀ r x, get r s'.regs = some x → ∃ y, get r s.regs = some y ∧ (x.state = .new → y.state = .new)) : Made s' where
  here := by rw [hc]; exact fun r c g p n h3 h4 h5 => h1 r (h.here r c g p n h3 h4 h5)
  up := by rw [hc, hn, hm]; exact h.up
  old := by
    rw [hc]
    intro r c g p n h3 h4 h5 x hx hs
    obtain ⟨y, hy, hxy⟩ := h2 r x hx
    exact h.old r c g p n h3 h4 h5 y hy (hxy hs)

theorem made_finish {s : St} (h : Made s) (r : Nat) (c : Cmd) (q : List Cmd) (ok : Bool) : Made (finish s r c q ok) :=
  h.turn (cur_finish s r c q ok) (fun _ _ => rfl) (fun _ _ => rfl) (fun _ _ => rfl) (fun c g p n e => absurd e (by simp))

theorem made_work {s : St} (h : Made s) (r : Nat) (ok : Bool) (id : Nat) : Made (work s r ok id) := by
  unfold work
  split
  · exact h
  · exact h
  · refine h.turn (cur_goto _ _ _ _ _) (fun _ _ => rfl) (fun _ _ => rfl) (fun _ _ => rfl) ?_
    intro c g p n e hk
    cases e
    exact ⟨fun h => by omega, fun h => by omega, fun h => by omega⟩
  · next c n q he =>
    have hc := cur_of_exec he
    split
    · next g p hk =>
      unfold stepCreate
      split
      · split
        · refine h.turn (cur_goto _ _ _ _ _) (fun _ _ => rfl) (fun _ _ => rfl) (fun _ _ => rfl) ?_
          intro c g p n e hk
          cases e
          exact ⟨fun h => by omega, fun h => by omega, fun h => by omega⟩
        · exact made_finish h r c q _
      · refine h.turn (s' := goto { s with regs := add r ⟨.new, g⟩ s.regs } r c q 2) (cur_goto _ _ _ _ _) ?_
          (fun _ _ => rfl) (fun _ _ => rfl) ?_
        · intro r' hne
          show get r' (add r _ s.regs) = _
          unfold add
          split
          · exact get_put_ne hne
          · rfl
        · intro c g' p n e hk'
          cases e
          refine ⟨fun _ => ?_, fun h => by omega, fun h => by omega⟩
          show get r (add r _ s.regs) ≠ none
          unfold add
          split
          · rw [get_put_eq]; simp
          · next hg => rw [hg]; simp
      · split
        · refine h.turn (s' := goto { s with nodes := upd s.nodes r true, metas := upd s.metas r true } r c q 3)
            (cur_goto _ _ _ _ _) (fun _ _ => rfl) (fun r' e => upd_ne _ _ e) (fun r' e => upd_ne _ _ e) ?_
          intro c' g' p' n e hk'
          cases e
          exact ⟨fun _ => h.here r c g p 2 hc hk (by omega), fun _ => ⟨upd_same _ _ _, upd_same _ _ _⟩, fun h => by omega⟩
        · exact made_finish h r c q _
      · refine h.turn (s' := goto { s with regs := on r (Rec.move (if p = 0 then .normal else .standby)) s.regs } r c q 4)
          (cur_goto _ _ _ _ _) (fun r' e => get_on_ne e) (fun _ _ => rfl) (fun _ _ => rfl) ?_
        intro c' g' p' n e hk'
        cases e
        refine ⟨fun _ => has_on (h.here r c g p 3 hc hk (by omega)), fun _ => h.up r c g p 3 hc hk (by omega), ?_⟩
        intro _ x hx
        simp only [goto, get_on_eq] at hx
        cases hg : get r s.regs with
        | none => rw [hg] at hx; exact absurd hx (by simp)
        | some y =>
          rw [hg, Option.map_some, Option.some.injEq] at hx
          rw [← hx]
          exact made_moved y p
      · exact made_finish h r c q _
    · next hk =>
      have nc : ∀ (m : Nat) (c' : Cmd) (g : Range) (p n : Nat), some (c, m) = some (c', n) → c'.kind ≠ .create g p := by
        intro m c' g p n e; cases e; rw [hk]; simp
      unfold stepDelete
      split
      · split
        · exact h.turn (cur_goto _ _ _ _ _) (fun _ _ => rfl) (fun _ _ => rfl) (fun _ _ => rfl)
            (fun c' g p n e hd => absurd hd (nc _ c' g p n e))
        · exact made_finish h r c q _
      · exact h.turn (s' := goto { s with regs := on r _ s.regs } r c q 2) (cur_goto _ _ _ _ _) (fun r' e => get_on_ne e)
          (fun _ _ => rfl) (fun _ _ => rfl) (fun c' g p n e hd => absurd hd (nc _ c' g p n e))
      · exact h.turn (s' := goto { s with nodes := upd s.nodes r false } r c q 3) (cur_goto _ _ _ _ _) (fun _ _ => rfl)
          (fun r' e => upd_ne _ _ e) (fun _ _ => rfl) (fun c' g p n e hd => absurd hd (nc _ c' g p n e))
      · exact h.turn (s' := goto { s with regs := on r _ s.regs } r c q 4) (cur_goto _ _ _ _ _) (fun r' e => get_on_ne e)
          (fun _ _ => rfl) (fun _ _ => rfl) (fun c' g p n e hd => absurd hd (nc _ c' g p n e))
      · exact h.turn (s' := goto { s with metas := upd s.metas r false } r c q 5) (cur_goto _ _ _ _ _) (fun _ _ => rfl)
          (fun _ _ => rfl) (fun r' e => upd_ne _ _ e) (fun c' g p n e hd => absurd hd (nc _ c' g p n e))
      · exact h.turn (cur_goto _ _ _ _ _) (fun _ _ => rfl)
          (fun _ _ => rfl) (fun _ _ => rfl) (fun c' g p n e hd => absurd hd (nc _ c' g p n e))
      · have hs := same_dispatch s ⟨id, r, .destroy, false⟩
        exact h.turn (s' := goto (dispatch s ⟨id, r, .destroy, false⟩).1 r c q 7) (by rw [cur_goto, hs.cur])
          (fun _ _ => by simp only [goto]; rw [hs.regs]) (fun _ _ => by simp only [goto]; rw [hs.nodes])
          (fun _ _ => by simp only [goto]; rw [hs.metas]) (fun c' g p n e hd => absurd hd (nc _ c' g p n e))
      · exact h.turn (s' := goto { s with regs := del r s.regs } r c q 8) (cur_goto _ _ _ _ _) (fun r' e => get_del_ne e)
          (fun _ _ => rfl) (fun _ _ => rfl) (fun c' g p n e hd => absurd hd (nc _ c' g p n e))
      · exact made_finish h r c q _
    · split
      · exact h.turn (s' := finish { s with nodes := upd s.nodes r false } r c q true) (cur_finish _ _ _ _ _)
          (fun _ _ => rfl) (fun r' e => upd_ne _ _ e) (fun _ _ => rfl) (fun c g p n e => absurd e (by simp))
      · exact made_finish h r c q _
    · exact made_finish h r c q _
    · exact h
    · exact h

theorem made_step {s : St} (hp : NoPurge s) (h : Made s) (e : Ev) : Made (step s e) := by
  cases e with
  | push c ok =>
    have hs := same_push s c ok
    refine h.regs hs.cur hs.nodes hs.metas ?_ ?_
    · simp only [step, hs.regs]; exact fun r h => h
    · simp only [step, hs.regs]; exact fun r x hx => ⟨x, hx, id⟩
  | work r ok id => exact made_work h r ok id
  | share =>
    simp only [step, workShare]
    split
    · exact h
    · next c q hs =>
      split
      · next hk => exact absurd hk (hp.1 c (by rw [hs]; exact List.mem_cons_self))
      · split
        · exact h
        · exact h
        · next hn1 hn2 =>
          refine h.regs ?_ rfl rfl (fun _ h => h) (fun r x hx => ⟨x, hx, id⟩)
          refine cur_upd s c.region none ?_
          unfold cur
          cases hx : s.exec c.region with
          | none => rfl
          | some x =>
            match x, hx with
            | ⟨none, _⟩, _ => rfl
            | ⟨some y, w⟩, hx => exact absurd hx (hn1 y w)
      · exact h
  | crash =>
    have hc := cur_crash s
    refine ⟨?_, ?_, ?_⟩ <;>
    · simp only [step, hc]
      intro r c g p n h; exact absurd h (by simp)
  | write r k =>
    simp only [step, write]
    split
    · exact h
    · split
      · exact h.regs rfl rfl rfl (fun _ h => h) (fun r x hx => ⟨x, hx, id⟩)
      · exact h
  | split p c key =>
    simp only [step, splitEv]
    split
    · next x y hx hy =>
      split
      · refine h.regs rfl rfl rfl (fun r h => has_put (has_put h)) ?_
        intro r z hz
        simp only [] at hz
        by_cases e : r = p
        · subst e
          rw [get_put_eq] at hz
          cases hz
          exact ⟨x, hx, fun hs => move_new (t := .splitting) (by simp) (move_new (t := .normal) (by simp) hs)⟩
        · rw [get_put_ne e] at hz
          by_cases e' : r = c
          · subst e'
            rw [get_put_eq] at hz
            cases hz
            exact ⟨y, hy, fun hs => move_new (t := .normal) (by simp) hs⟩
          · rw [get_put_ne e'] at hz
            exact ⟨z, hz, id⟩
      · exact h
    · exact h
  | merge p t =>
    simp only [step, mergeEv]
    split
    · next x y hx hy =>
      split
      · refine h.regs rfl rfl rfl (fun r h => has_put (has_put h)) ?_
        intro r z hz
        simp only [] at hz
        by_cases e : r = t
        · subst e
          rw [get_put_eq] at hz
          cases hz
          exact ⟨y, hy, fun hs => hs⟩
        · rw [get_put_ne e] at hz
          by_cases e' : r = p
          · subst e'
            rw [get_put_eq] at hz
            cases hz
            exact ⟨x, hx, fun hs => move_new (t := .merging) (by simp) (move_new (t := .tombstone) (by simp) hs)⟩
          · rw [get_put_ne e'] at hz
            exact ⟨z, hz, id⟩
      · exact h
    · exact h
  | mark r' t =>
    simp only [step, mark]
    split
    · exact h
    · next x hx =>
      split
      · next hc =>
        refine h.regs rfl rfl rfl (fun r h => has_put h) ?_
        intro r z hz
        simp only [] at hz
        by_cases e : r = r'
        · subst e
          rw [get_put_eq] at hz
          cases hz
          refine ⟨x, hx, fun hs => move_new ?_ hs⟩
          rintro rfl
          simp at hc
        · rw [get_put_ne e] at hz
          exact ⟨z, hz, id⟩
      · exact h

theorem Plain.made {s : St} (h : Plain s) : Made s := by
  induction h with
  | init =>
    refine ⟨?_, ?_, ?_⟩ <;>
    · intro r c g p n h
      simp [cur, St.init] at h
  | step e hs _ _ ih => exact made_step hs.covered.1 ih e

/-- C97: without purges, a creation that ends well has created its region: it is in the table and no
longer new, its raft node is running and its raft record is on disk. -/
theorem C97_done {s : St} (h : Plain s) (r : Nat) (ok : Bool) (id : Nat) {c : Cmd} {n : Nat} {g : Range} {p : Nat}
    (hc : cur s r = some (c, n)) (hk : c.kind = .create g p)
    (ho : (step s (.work r ok id)).outs = (c.id, true) :: s.outs) :
    ∃ x, get r (step s (.work r ok id)).regs = some x ∧ x.state ≠ .new ∧
      (step s (.work r ok id)).nodes r = true ∧ (step s (.work r ok id)).metas r = true := by
  have hm := h.made
  cases he : s.exec r with
  | none => simp [cur, he] at hc
  | some y =>
    obtain ⟨rn, q⟩ := y
    have hrn : rn = some (c, n) := by simpa [cur, he] using hc
    subst hrn
    have hs : step s (.work r ok id) = stepCreate s r c q g p ok n := by simp only [step, work, he, hk]
    have no : ∀ t : St, t.outs = s.outs → t.outs = (c.id, true) :: s.outs → False := by
      intro t h1 h2
      rw [h1] at h2
      have := congrArg List.length h2
      simp at this
    have nof : ∀ t : St, t = finish s r c q false → t.outs = (c.id, true) :: s.outs → False := by
      intro t h1 h2
      rw [h1] at h2
      simp [finish] at h2
    rw [hs] at ho ⊢
    match n, hc, hs, ho with
    | 0, _, _, ho =>
      simp only [stepCreate] at ho
      split at ho
      · exact absurd ho (fun h => no _ rfl h)
      · exact absurd ho (fun h => nof _ rfl h)
    | 1, _, _, ho => exact absurd ho (fun h => no _ rfl h)
    | 2, _, _, ho =>
      simp only [stepCreate] at ho
      split at ho
      · exact absurd ho (fun h => no _ rfl h)
      · exact absurd ho (fun h => nof _ rfl h)
    | 3, _, _, ho => exact absurd ho (fun h => no _ rfl h)
    | n + 4, hc, _, _ =>
      have h1 := hm.here r c g p (n + 4) hc hk (by omega)
      cases hg : get r s.regs with
      | none => exact absurd hg h1
      | some x =>
        exact ⟨x, hg, hm.old r c g p (n + 4) hc hk (by omega) x hg, hm.up r c g p (n + 4) hc hk (by omega)⟩

end Verif.Ctl
