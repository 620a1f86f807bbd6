import Verif.Latch.Inv

/-!
# Latches: every event keeps the invariant
-/

namespace Verif.Latch

/-- The invariant of a whole state. -/
structure GInv (e : Env) (s : State) : Prop where
  inv : Inv (line e s) s.thr
  alive : s.aborted = false
  raw : ∀ k, ∀ x ∈ s.slots k, x.1 ≠ 0
  keys : ∀ c, (s.thr c).req = required e (s.thr c).keys

theorem line_eq (e : Env) (s : State) (h : Nat) : line e s h = sel h (s.slots (slotOf e h)) := rfl

theorem line_setThr (e : Env) (s : State) (c : Cid) (t : Thread) :
    line e (s.setThr c t) = line e s := rfl

theorem line_push (e : Env) (s : State) (h : Nat) (c : Cid) :
    line e (s.setSlot (slotOf e h) (waitForWake h c (s.slots (slotOf e h)))) =
      upd (line e s) h (line e s h ++ [c]) := by
  funext h'
  rw [line_eq]
  unfold State.setSlot
  dsimp only
  by_cases hs : slotOf e h' = slotOf e h
  · rw [hs, upd_same, sel_waitForWake]
    by_cases hh : h' = h
    · subst hh; rw [if_pos rfl, upd_same]; rfl
    · rw [if_neg hh, upd_ne _ _ hh, line_eq, hs]
  · rw [upd_ne _ _ hs]
    have hh : h' ≠ h := fun x => hs (by rw [x])
    rw [upd_ne _ _ hh]; rfl

theorem line_pop (e : Env) (s : State) (h : Nat) (q : Queue) (l : List Cid)
    (h1 : sel h q = l)
    (h2 : ∀ h', h' ≠ h → sel h' q = sel h' (s.slots (slotOf e h))) :
    line e (s.setSlot (slotOf e h) q) = upd (line e s) h l := by
  funext h'
  rw [line_eq]
  unfold State.setSlot
  dsimp only
  by_cases hs : slotOf e h' = slotOf e h
  · rw [hs, upd_same]
    by_cases hh : h' = h
    · subst hh; rw [upd_same, h1]
    · rw [upd_ne _ _ hh, h2 h' hh, line_eq, hs]
  · rw [upd_ne _ _ hs]
    have hh : h' ≠ h := fun x => hs (by rw [x])
    rw [upd_ne _ _ hh]; rfl

/-- A bound on the number of steps a request still takes. -/
noncomputable def fuel (Q : Nat → List Cid) (c : Cid) (t : Thread) : Nat :=
  match t.pc with
  | .idle => 0
  | .acq i _ =>
    match t.req[i]? with
    | some h => if c ∈ Q h then 3 * (t.req.length - i) - 2 + 3 * t.req.length + 4
      else 3 * (t.req.length - i) + 3 * t.req.length + 4
    | none => 3 * t.req.length + 4
  | .wait => 3 * (t.req.length - t.owned) - 1 + 3 * t.req.length + 4
  | .hold => 3 * t.req.length + 3
  | .rel i ws => 3 * (t.req.length - i) + 2 * ws.length + 2
  | .wake ws => 2 * ws.length + 1
  | .poke _ ws => 2 * ws.length + 2

theorem fuel_congr {Q Q' : Nat → List Cid} {c : Cid} {t t' : Thread}
    (hQ : ∀ h, c ∈ Q' h ↔ c ∈ Q h) (hp : t'.pc = t.pc) (hr : t'.req = t.req)
    (ho : t'.owned = t.owned) : fuel Q' c t' = fuel Q c t := by
  unfold fuel
  rw [hp, hr, ho]
  cases t.pc <;> simp only [hQ]

theorem fuel_acq_le (Q : Nat → List Cid) (c : Cid) (t : Thread) (k n : Nat)
    (hpc : t.pc = .acq k n) :
    fuel Q c t ≤ 3 * (t.req.length - k) + 3 * t.req.length + 4 := by
  unfold fuel; rw [hpc]; dsimp only
  split
  · split <;> omega
  · omega

/-- How one event changes the line of a hash: nothing, one request joins at the end, or
the first one leaves. -/
def LineStep (l l' : List Cid) : Prop := l' = l ∨ (∃ c, l' = l ++ [c]) ∨ ∃ c, l = c :: l'

/-- What an event of request `c` (`run` or `finish`) does. -/
structure Moved (e : Env) (s s' : State) (c : Cid) : Prop where
  inv : GInv e s'
  lines : ∀ h, LineStep (line e s h) (line e s' h)
  own : fuel (line e s') c (s'.thr c) + 1 ≤ fuel (line e s) c (s.thr c)
  others : ∀ d, d ≠ c → fuel (line e s') d (s'.thr d) = fuel (line e s) d (s.thr d)

theorem lines_refl {e : Env} {s s' : State} (h : line e s' = line e s) :
    ∀ x, LineStep (line e s x) (line e s' x) := fun x => .inl (by rw [h])

/-- Only thread `c` changes. -/
theorem Moved.local {e : Env} {s : State} {c : Cid} {t : Thread} (g : GInv e s)
    (hi : Inv (line e s) (upd s.thr c t)) (hk : t.req = required e t.keys)
    (hf : fuel (line e s) c t + 1 ≤ fuel (line e s) c (s.thr c)) :
    Moved e s (s.setThr c t) c := by
  refine ⟨⟨hi, g.alive, g.raw, ?_⟩, lines_refl rfl, ?_, ?_⟩
  · intro d; by_cases hd : d = c
    · subst hd; simp only [State.setThr, upd_same]; exact hk
    · simp only [State.setThr]; rw [upd_ne _ _ hd]; exact g.keys d
  · rw [line_setThr]; simp only [State.setThr, upd_same]; exact hf
  · intro d hd; rw [line_setThr]; simp only [State.setThr]; rw [upd_ne _ _ hd]

/-- The hash of a key asked for is not 0. -/
theorem step_moved {e : Env} {s s' : State} {c : Cid} (g : GInv e s) (h : step e s c = some s') :
    Moved e s s' c := by
  have i := g.inv
  have hs := i.shape c
  unfold step at h
  simp only [g.alive, Bool.false_eq_true, if_false] at h
  cases hpc : (s.thr c).pc with
  | idle => rw [hpc] at h; cases h
  | hold => rw [hpc] at h; cases h
  | acq k n =>
    simp only [Shape, hpc] at hs
    rw [hpc] at h
    dsimp only at h
    cases hk : (s.thr c).req[k]? with
    | none =>
      rw [hk] at h; dsimp only at h; cases h
      obtain ⟨h1, h2⟩ := i.acqEnd hpc hk
      refine Moved.local g h1 (by exact g.keys c) ?_
      have : fuel (line e s) c (s.thr c) = 3 * (s.thr c).req.length + 4 := by
        unfold fuel; rw [hpc]; dsimp only; rw [hk]
      rw [this]
      unfold fuel; rw [h2]; simp only [Thread.finish]; omega
    | some x =>
      rw [hk] at h; dsimp only at h
      have hlen := (List.getElem?_eq_some_iff.1 hk).1
      rw [firstReq_eq, ← line_eq] at h
      have hx0 : x ≠ 0 := i.nz c x (List.mem_of_getElem? hk)
      -- queueing up or taking a free hash
      have hpush : ∀ t : Thread, (line e s x).head? ≠ some c →
          ((line e s x ≠ [] ∧ t = { s.thr c with owned := k, pc := .wait }) ∨
            (line e s x = [] ∧ t = { s.thr c with pc := .acq (k + 1) (n + 1) })) →
          Moved e s ((s.setSlot (slotOf e x) (waitForWake x c (s.slots (slotOf e x)))).setThr c t)
            c := by
        intro t hne ht
        have hl : line e ((s.setSlot (slotOf e x) (waitForWake x c (s.slots (slotOf e x)))).setThr c t)
            = upd (line e s) x (line e s x ++ [c]) := by rw [line_setThr, line_push]
        have hnot : c ∉ line e s x := by
          intro hm
          rcases i.mem c x hm with ⟨j, h1, _, h3⟩ | ⟨_, h2⟩
          · simp only [hi, hpc] at h3
            have := sorted_getElem_inj (i.sorted c) h1 hk; omega
          · rcases h2 with h2 | h2
            · rw [hpc] at h2; cases h2
            · exact hne h2
        have hfu : fuel (line e s) c (s.thr c) =
            3 * ((s.thr c).req.length - k) + 3 * (s.thr c).req.length + 4 := by
          unfold fuel; rw [hpc]; dsimp only; rw [hk]; dsimp only; rw [if_neg hnot]
        refine ⟨⟨?_, g.alive, ?_, ?_⟩, ?_, ?_, ?_⟩
        · rw [hl]; exact i.push hpc hk hne ht
        · intro k' y hy
          simp only [State.setThr, State.setSlot] at hy
          by_cases hkk : k' = slotOf e x
          · subst hkk; rw [upd_same, mem_waitForWake] at hy
            rcases hy with hy | hy
            · exact g.raw _ y hy
            · subst hy; exact hx0
          · rw [upd_ne _ _ hkk] at hy; exact g.raw k' y hy
        · intro d; by_cases hd : d = c
          · subst hd; simp only [State.setThr, upd_same]
            rcases ht with ⟨_, rfl⟩ | ⟨_, rfl⟩ <;> exact g.keys d
          · simp only [State.setThr]; rw [upd_ne _ _ hd]; exact g.keys d
        · intro h'; rw [hl]
          by_cases hh : h' = x
          · subst hh; rw [upd_same]; exact .inr (.inl ⟨c, rfl⟩)
          · rw [upd_ne _ _ hh]; exact .inl rfl
        · rw [hl, hfu]; simp only [State.setThr, upd_same]
          rcases ht with ⟨_, rfl⟩ | ⟨_, rfl⟩
          · unfold fuel; dsimp only; omega
          · refine Nat.le_trans (Nat.add_le_add_right (fuel_acq_le _ _ _ (k + 1) (n + 1) rfl) 1) ?_
            dsimp only; omega
        · intro d hd
          rw [hl]; simp only [State.setThr]; rw [upd_ne _ _ hd]
          refine fuel_congr ?_ rfl rfl rfl
          intro h'; by_cases hh : h' = x
          · subst hh; rw [upd_same]; simp [hd]
          · rw [upd_ne _ _ hh]
      cases hf : (line e s x).head? with
      | none =>
        rw [hf] at h; dsimp only at h; cases h
        have hnil : line e s x = [] := by simpa using hf
        exact hpush _ (by rw [hf]; simp) (.inr ⟨hnil, rfl⟩)
      | some w =>
        rw [hf] at h; dsimp only at h
        by_cases hw : w = c
        · subst hw
          rw [if_pos rfl] at h; cases h
          refine Moved.local g (i.acqOwn hpc hk hf) (g.keys w) ?_
          have hm : w ∈ line e s x := List.mem_of_mem_head? hf
          have hfu : fuel (line e s) w (s.thr w) =
              3 * ((s.thr w).req.length - k) - 2 + 3 * (s.thr w).req.length + 4 := by
            unfold fuel; rw [hpc]; dsimp only; rw [hk]; dsimp only; rw [if_pos hm]
          rw [hfu]
          refine Nat.le_trans (Nat.add_le_add_right (fuel_acq_le _ _ _ (k + 1) (n + 1) rfl) 1) ?_
          dsimp only; omega
        · rw [if_neg hw] at h; cases h
          have hne : (line e s x).head? ≠ some c := by rw [hf]; simpa using hw
          have hnn : line e s x ≠ [] := by intro y; rw [y] at hf; cases hf
          have hfin : (s.thr c).finish n = { s.thr c with owned := k, pc := .wait } := by
            unfold Thread.finish; dsimp only; rw [if_neg (by omega), hs.1]
          rw [hfin]
          exact hpush _ hne (.inl ⟨hnn, rfl⟩)
  | wait =>
    simp only [Shape, hpc] at hs
    rw [hpc] at h
    dsimp only at h
    split at h
    · cases h
    · rename_i hc
      cases h
      refine Moved.local g (i.wakeUp hpc hc) (g.keys c) ?_
      have hhd : ∀ h', Wants (s.thr c) h' → (line e s h').head? = some c := by
        rcases i.cnt c with hx | hx
        · omega
        · exact hx.2.2
      have hk : (s.thr c).req[(s.thr c).owned]? = some ((s.thr c).req[(s.thr c).owned]'hs) :=
        List.getElem?_eq_getElem hs
      have hm : c ∈ line e s ((s.thr c).req[(s.thr c).owned]'hs) :=
        List.mem_of_mem_head? (hhd _ ⟨_, hk, by simp [nxt, hpc]⟩)
      have h1 : fuel (line e s) c (s.thr c) =
          3 * ((s.thr c).req.length - (s.thr c).owned) - 1 + 3 * (s.thr c).req.length + 4 := by
        unfold fuel; rw [hpc]
      rw [h1]
      unfold fuel; dsimp only; rw [hk]; dsimp only; rw [if_pos hm]; omega
  | rel k ws =>
    simp only [Shape, hpc] at hs
    rw [hpc] at h
    dsimp only at h
    have hfu : fuel (line e s) c (s.thr c) =
        3 * ((s.thr c).req.length - k) + 2 * ws.length + 2 := by
      unfold fuel; rw [hpc]
    split at h
    · rename_i hlt
      have hlt' : k < (s.thr c).req.length := by omega
      have hk : (s.thr c).req[k]? = some ((s.thr c).req[k]'hlt') := List.getElem?_eq_getElem hlt'
      generalize (s.thr c).req[k]'hlt' = x at hk
      rw [hk] at h; dsimp only at h
      have hhd := i.rel_head hpc hk hlt
      obtain ⟨l, hl⟩ : ∃ l, line e s x = c :: l := by
        cases hq : line e s x with
        | nil => rw [hq] at hhd; cases hhd
        | cons a l => rw [hq] at hhd; simp at hhd; exact ⟨l, by rw [hhd]⟩
      obtain ⟨q', h1, h2, h3, h4⟩ := popFront_spec (h := x) (q := s.slots (slotOf e x))
        (by rw [← line_eq]; exact hl) (g.raw _)
      rw [h1] at h; dsimp only at h
      rw [if_pos rfl] at h; cases h
      have hline := line_pop e s x q' l h2 h3
      refine ⟨⟨?_, g.alive, ?_, ?_⟩, ?_, ?_, ?_⟩
      · rw [line_setThr, hline]
        refine i.pop hpc hk hl ?_
        rw [firstReq_eq, h2]
        cases l.head? <;> rfl
      · intro k' y hy
        simp only [State.setThr, State.setSlot] at hy
        by_cases hkk : k' = slotOf e x
        · subst hkk; rw [upd_same] at hy; exact g.raw _ y (h4 y hy)
        · rw [upd_ne _ _ hkk] at hy; exact g.raw k' y hy
      · intro d; by_cases hd : d = c
        · subst hd; simp only [State.setThr, upd_same]; exact g.keys d
        · simp only [State.setThr]; rw [upd_ne _ _ hd]; exact g.keys d
      · intro h'; rw [line_setThr, hline]
        by_cases hh : h' = x
        · subst hh; rw [upd_same]; exact .inr (.inr ⟨c, hl⟩)
        · rw [upd_ne _ _ hh]; exact .inl rfl
      · rw [hfu]; simp only [State.setThr, upd_same]
        unfold fuel; dsimp only
        cases firstReq q' x with
        | none => dsimp only; omega
        | some y => dsimp only; rw [List.length_append, List.length_singleton]; omega
      · intro d hd
        rw [line_setThr, hline]; simp only [State.setThr]; rw [upd_ne _ _ hd]
        refine fuel_congr ?_ rfl rfl rfl
        intro h'; by_cases hh : h' = x
        · subst hh; rw [upd_same, hl]; simp [hd]
        · rw [upd_ne _ _ hh]
    · cases h
      have hnh : ∀ x, ¬ Holds (s.thr c) x := by
        rintro x ⟨j, _, h2, h3⟩
        simp only [lo, hi, hpc] at h2 h3; omega
      refine Moved.local g (i.after hnh ?_ (i.sorted c) (i.nz c) ?_ (by simp) (by simp [hpc]) rfl
        (by simp [pend, hpc]) ?_) (g.keys c) ?_
      · rintro x ⟨j, _, h2⟩; simp [nxt, hpc] at h2
      · simp [Shape]
      · rintro x ⟨j, _, h2, h3⟩; simp [hi] at h3
      · rw [hfu]; unfold fuel; dsimp only; omega
  | wake l =>
    rw [hpc] at h
    cases l with
    | nil =>
      dsimp only at h; cases h
      refine Moved.local g (i.after ?_ ?_ ?_ ?_ ?_ (by simp) (by simp [hpc]) ?_
        (by simp [pend, hpc]) ?_) ?_ ?_
      · rintro x ⟨j, _, h2, h3⟩; simp [hi, hpc] at h3
      · rintro x ⟨j, _, h2⟩; simp [nxt, hpc] at h2
      · simp
      · simp
      · simp [Shape]
      · rcases i.cnt c with hx | hx
        · rw [hx]
        · rw [hpc] at hx; cases hx.1
      · rintro x ⟨j, _, h2, h3⟩; simp [hi] at h3
      · rfl
      · unfold fuel; rw [hpc]; dsimp only; omega
    | cons w ws =>
      dsimp only at h
      obtain ⟨hwc, hw, hi⟩ := i.dec hpc
      have hne : ¬ (s.thr w).pc = .idle := by rw [hw]; simp
      rw [if_neg hne] at h
      cases h
      refine ⟨⟨hi, g.alive, g.raw, ?_⟩, lines_refl rfl, ?_, ?_⟩
      · intro d; simp only [State.setThr]
        by_cases hd : d = c
        · subst hd; rw [upd_same]; exact g.keys d
        · rw [upd_ne _ _ hd]
          by_cases hdw : d = w
          · subst hdw; rw [upd_same]; exact g.keys d
          · rw [upd_ne _ _ hdw]; exact g.keys d
      · simp only [State.setThr, upd_same]
        unfold fuel; rw [hpc]; dsimp only; rw [List.length_cons]; omega
      · intro d hd; simp only [State.setThr]; rw [upd_ne _ _ hd]
        by_cases hdw : d = w
        · subst hdw; rw [upd_same]; exact fuel_congr (fun _ => Iff.rfl) rfl rfl rfl
        · rw [upd_ne _ _ hdw]; exact fuel_congr (fun _ => Iff.rfl) rfl rfl rfl
  | poke w ws =>
    rw [hpc] at h
    dsimp only at h; cases h
    have m : Moved e s (s.setThr c { s.thr c with pc := .wake ws }) c := by
      refine Moved.local g (i.after ?_ ?_ (i.sorted c) (i.nz c) ?_ (by simp) (by simp [hpc]) rfl
        (by simp [pend, hpc]) ?_) (g.keys c) ?_
      · rintro x ⟨j, _, h2, h3⟩; simp [hi, hpc] at h3
      · rintro x ⟨j, _, h2⟩; simp [nxt, hpc] at h2
      · simp [Shape]
      · rintro x ⟨j, _, h2, h3⟩; simp [hi] at h3
      · unfold fuel; rw [hpc]; dsimp only; omega
    exact ⟨⟨m.inv.inv, m.inv.alive, m.inv.raw, m.inv.keys⟩, m.lines, m.own, m.others⟩

theorem finish_moved {e : Env} {s s' : State} {c : Cid} (g : GInv e s)
    (h : event e s (.finish c) = some s') : Moved e s s' c := by
  have i := g.inv
  unfold event at h
  dsimp only at h
  split at h
  · rename_i hc
    obtain ⟨_, hpc⟩ := hc
    cases h
    have hs := i.shape c
    simp only [Shape, hpc] at hs
    refine Moved.local g (i.local rfl ?_ (by simp) (by simp [hpc]) rfl (by simp [pend, hpc]) ?_ ?_)
      (g.keys c) ?_
    · simp only [Shape]; omega
    · rintro x ⟨j, h1, h2, h3⟩
      exact i.head c x ⟨j, h1, by simp [lo, hpc], by simpa [hi, hpc] using h3⟩
    · intro x hm
      rcases i.mem c x hm with ⟨j, h1, h2, h3⟩ | ⟨⟨j, _, h2⟩, _⟩
      · exact .inl ⟨j, h1, by simp [lo], by simpa [hi, hpc] using h3⟩
      · simp [nxt, hpc] at h2
    · unfold fuel; rw [hpc]; dsimp only; rw [List.length_nil]; omega
  · cases h

/-- The arrival of a request. -/
theorem start_inv {e : Env} {s s' : State} {c : Cid} {keys : List (List UInt8)} (g : GInv e s)
    (hz : ∀ k ∈ keys, e.hash k ≠ 0) (h : event e s (.start c keys) = some s') :
    GInv e s' ∧ line e s' = line e s ∧
      fuel (line e s') c (s'.thr c) ≤ 6 * keys.length + 4 ∧
      ∀ d, d ≠ c → s'.thr d = s.thr d := by
  have i := g.inv
  unfold event at h
  dsimp only at h
  split at h
  · rename_i hc
    obtain ⟨_, hpc⟩ := hc
    cases h
    have hs := i.shape c
    simp only [Shape, hpc] at hs
    have hnz : ∀ x ∈ required e keys, x ≠ 0 := by
      intro x hx
      obtain ⟨k, hk, rfl⟩ := required_mem.1 hx
      intro h0
      exact hz k hk (UInt64.toNat_inj.1 (by rw [h0]; rfl))
    have hi' : Inv (line e s)
        (upd s.thr c { pc := .acq 0 0, keys := keys, req := required e keys }) := by
      refine i.after ?_ ?_ (required_sorted e keys) hnz ?_ (by simp) (by simp [hpc]) ?_
        (by simp [pend, hpc]) ?_
      · rintro x ⟨j, _, h2, h3⟩; simp [hi, hpc] at h3
      · rintro x ⟨j, _, h2⟩; simp [nxt, hpc] at h2
      · simp [Shape]
      · rw [hs]
      · rintro x ⟨j, _, h2, h3⟩; simp [hi] at h3
    refine ⟨⟨hi', g.alive, g.raw, ?_⟩, rfl, ?_, ?_⟩
    · intro d; by_cases hd : d = c
      · subst hd; simp only [State.setThr, upd_same]
      · simp only [State.setThr]; rw [upd_ne _ _ hd]; exact g.keys d
    · simp only [State.setThr, upd_same]
      refine Nat.le_trans (fuel_acq_le _ _ _ 0 0 rfl) ?_
      have := required_length_le e keys
      dsimp only; omega
    · intro d hd; simp only [State.setThr]; rw [upd_ne _ _ hd]
  · cases h

theorem init_inv (e : Env) : GInv e State.init := by
  refine ⟨?_, rfl, by simp [State.init], fun c => rfl⟩
  have hT : ∀ c, State.init.thr c = ({} : Thread) := fun _ => rfl
  have hQ : ∀ h, line e State.init h = [] := fun _ => rfl
  constructor
  · intro c; simp [hT]
  · intro c; simp [hT]
  · intro c; simp [hT, Shape]
  · intro h; simp [hQ]
  · intro c h hm; simp [hQ] at hm
  · rintro c h ⟨j, _, _, h3⟩; simp [hT, hi] at h3
  · intro c h h1; simp [hT] at h1
  · intro r w hr; simp [hT, pend] at hr
  · intro r r' w hr; simp [hT, pend] at hr
  · intro r; simp [hT, pend]
  · intro w h h1; simp [hT] at h1
  · intro w; left; simp [hT]

/-- How a history changes the lines. -/
inductive LineRun : List Cid → List Cid → Prop
  | refl (l) : LineRun l l
  | step {l l' l''} : LineStep l l' → LineRun l' l'' → LineRun l l''

theorem exec_inv {e : Env} {es : List Ev} : ∀ {s s' : State}, GInv e s → NoZero e es →
    exec e s es = some s' →
    GInv e s' ∧ (∀ h, LineRun (line e s h) (line e s' h)) ∧
    ∀ c, moves c es + fuel (line e s') c (s'.thr c) ≤ fuel (line e s) c (s.thr c) + asked c es := by
  induction es with
  | nil =>
    intro s s' g _ h
    cases h
    exact ⟨g, fun h => .refl _, fun c => by simp [moves, asked]⟩
  | cons v es ih =>
    intro s s' g hz h
    unfold exec at h
    obtain ⟨s1, h1, h2⟩ := Option.bind_eq_some_iff.1 h
    have hz' : NoZero e es := fun c keys hm => hz c keys (List.mem_cons_of_mem _ hm)
    have moved : ∀ c, (v = .run c ∨ v = .finish c) → Moved e s s1 c →
        GInv e s' ∧ (∀ h, LineRun (line e s h) (line e s' h)) ∧
        ∀ c, moves c (v :: es) + fuel (line e s') c (s'.thr c) ≤
          fuel (line e s) c (s.thr c) + asked c (v :: es) := by
      intro c hv m
      obtain ⟨a, b, d⟩ := ih m.inv hz' h2
      refine ⟨a, fun h => .step (m.lines h) (b h), ?_⟩
      intro c'
      have hd := d c'
      have ha : asked c' (v :: es) = asked c' es := by
        rcases hv with rfl | rfl <;> rfl
      rw [ha]
      by_cases hc : c' = c
      · subst hc
        have hm : moves c' (v :: es) = moves c' es + 1 := by
          unfold moves
          rw [List.countP_cons]
          rcases hv with rfl | rfl <;> simp
        have := m.own
        omega
      · have hm : moves c' (v :: es) = moves c' es := by
          unfold moves
          rw [List.countP_cons]
          have hc2 : ¬ c = c' := fun x => hc x.symm
          rcases hv with rfl | rfl <;> simp [hc2]
        have := m.others c' hc
        omega
    cases v with
    | run c => exact moved c (.inl rfl) (step_moved g h1)
    | finish c => exact moved c (.inr rfl) (finish_moved g h1)
    | start c keys =>
      obtain ⟨g1, hl, hf, ho⟩ := start_inv g (hz c keys (List.mem_cons_self)) h1
      obtain ⟨a, b, d⟩ := ih g1 hz' h2
      refine ⟨a, fun h => .step (.inl (by rw [hl])) (b h), ?_⟩
      intro c'
      have hd := d c'
      have hm : moves c' (Ev.start c keys :: es) = moves c' es := by
        unfold moves; rw [List.countP_cons]; simp
      rw [hm]
      unfold asked
      by_cases hc : c = c'
      · subst hc; rw [if_pos rfl]; omega
      · rw [if_neg hc]
        rw [hl, ho c' (fun x => hc x.symm)] at hd
        omega

/-- Deadlock freedom, on the invariant: some request that exists can move. -/
theorem GInv.progress {e : Env} {s : State} (g : GInv e s) {c : Cid} (hl : Live s c) :
    ∃ d s', Live s d ∧ (event e s (.run d) = some s' ∨ event e s (.finish d) = some s') := by
  have i := g.inv
  -- a request that is not waiting can move
  have hmove : ∀ d, Live s d → ((s.thr d).pc ≠ .wait ∨ (s.thr d).count = -1) →
      ∃ s', event e s (.run d) = some s' ∨ event e s (.finish d) = some s' := by
    intro d hd hw
    cases hpc : (s.thr d).pc with
    | idle => exact absurd hpc hd
    | hold =>
      refine ⟨s.setThr d { s.thr d with pc := .rel 0 [] }, .inr ?_⟩
      unfold event; dsimp only; rw [if_pos ⟨g.alive, hpc⟩]
    | wait =>
      rcases hw with hw | hw
      · exact absurd hpc hw
      · refine ⟨s.setThr d { s.thr d with count := (s.thr d).count + 1, pc := .acq (s.thr d).owned 0 },
          .inl ?_⟩
        unfold event step; simp only [g.alive, Bool.false_eq_true, if_false, hpc]
        rw [if_neg (by omega)]
    | acq k n =>
      have : ∃ s', step e s d = some s' := by
        unfold step; simp only [g.alive, Bool.false_eq_true, if_false, hpc]
        split
        · exact ⟨_, rfl⟩
        · split
          · split <;> exact ⟨_, rfl⟩
          · exact ⟨_, rfl⟩
      obtain ⟨s', hs⟩ := this
      exact ⟨s', .inl hs⟩
    | rel k ws =>
      have : ∃ s', step e s d = some s' := by
        unfold step; simp only [g.alive, Bool.false_eq_true, if_false, hpc]
        repeat' split
        all_goals exact ⟨_, rfl⟩
      obtain ⟨s', hs⟩ := this
      exact ⟨s', .inl hs⟩
    | wake ws =>
      have : ∃ s', step e s d = some s' := by
        unfold step; simp only [g.alive, Bool.false_eq_true, if_false, hpc]
        cases ws with
        | nil => exact ⟨_, rfl⟩
        | cons w ws => dsimp only; split <;> exact ⟨_, rfl⟩
      obtain ⟨s', hs⟩ := this
      exact ⟨s', .inl hs⟩
    | poke w ws =>
      have : ∃ s', step e s d = some s' := by
        unfold step; simp only [g.alive, Bool.false_eq_true, if_false, hpc]
        exact ⟨_, rfl⟩
      obtain ⟨s', hs⟩ := this
      exact ⟨s', .inl hs⟩
  -- hashes are bounded
  have hbound : ∀ d h, h ∈ (s.thr d).req → h < 2 ^ 64 := by
    intro d h hm
    rw [g.keys d] at hm
    obtain ⟨k, _, rfl⟩ := required_mem.1 hm
    exact (e.hash k).toNat_lt
  -- follow the chain of waiting requests: the hash waited for grows
  have hchain : ∀ m d h, (s.thr d).pc = .wait → Wants (s.thr d) h → 2 ^ 64 - h ≤ m →
      ∃ d' s', Live s d' ∧ (event e s (.run d') = some s' ∨ event e s (.finish d') = some s') := by
    intro m
    induction m with
    | zero =>
      intro d h _ hw hm
      obtain ⟨j, h1, _⟩ := hw
      have := hbound d h (List.mem_of_getElem? h1)
      omega
    | succ m ih =>
      intro d h hpc hw hm
      have hq := i.inq d h hpc hw
      obtain ⟨o, ho⟩ : ∃ o, (line e s h).head? = some o := by
        cases hx : line e s h with
        | nil => rw [hx] at hq; cases hq
        | cons a l => exact ⟨a, rfl⟩
      have hom : o ∈ line e s h := List.mem_of_mem_head? ho
      have holive : Live s o := by
        intro hid
        have hs := i.shape o
        simp only [Shape, hid] at hs
        rcases i.mem o h hom with ⟨j, _, _, h3⟩ | ⟨⟨j, _, h2⟩, _⟩
        · simp [hi, hid] at h3
        · simp [nxt, hid] at h2
      by_cases how : (s.thr o).pc = .wait
      · rcases i.mem o h hom with hh | ⟨hwo, _⟩
        · -- the owner itself waits, for a larger hash
          obtain ⟨j, h1, h2, h3⟩ := hh
          have hs := i.shape o
          simp only [Shape, how] at hs
          simp only [hi, how] at h3
          have hk : (s.thr o).req[(s.thr o).owned]? = some ((s.thr o).req[(s.thr o).owned]'hs) :=
            List.getElem?_eq_getElem hs
          have hlt := sorted_getElem_lt (i.sorted o) h1 hk h3
          have hb := hbound o _ (List.mem_of_getElem? hk)
          exact ih o _ how ⟨_, hk, by simp [nxt, how]⟩ (by omega)
        · rcases i.tok o h how hwo ho with hc | ⟨r, hr⟩
          · obtain ⟨s', hs'⟩ := hmove o holive (.inr hc)
            exact ⟨o, s', holive, hs'⟩
          · have hrl : Live s r := by
              intro hid; simp [pend, hid] at hr
            have hrw : (s.thr r).pc ≠ .wait := by
              intro hx; simp [pend, hx] at hr
            obtain ⟨s', hs'⟩ := hmove r hrl (.inl hrw)
            exact ⟨r, s', hrl, hs'⟩
      · obtain ⟨s', hs'⟩ := hmove o holive (.inl how)
        exact ⟨o, s', holive, hs'⟩
  by_cases hpc : (s.thr c).pc = .wait
  · have hs := i.shape c
    simp only [Shape, hpc] at hs
    have hk : (s.thr c).req[(s.thr c).owned]? = some ((s.thr c).req[(s.thr c).owned]'hs) :=
      List.getElem?_eq_getElem hs
    exact hchain _ c _ hpc ⟨_, hk, by simp [nxt, hpc]⟩ (Nat.le_refl _)
  · obtain ⟨s', hs'⟩ := hmove c hl (.inl hpc)
    exact ⟨c, s', hl, hs'⟩

/-- Two requests that own the same hash are the same. -/
theorem GInv.excl {e : Env} {s : State} (g : GInv e s) {c d : Cid} {h : Nat}
    (h1 : Holds (s.thr c) h) (h2 : Holds (s.thr d) h) : c = d := by
  have a := g.inv.head c h h1
  have b := g.inv.head d h h2
  rw [a] at b; exact Option.some.inj b

/-- A request being executed owns the hashes of all its keys. -/
theorem GInv.hold_owns {e : Env} {s : State} (g : GInv e s) {c : Cid}
    (hpc : (s.thr c).pc = .hold) {k : List UInt8} (hk : k ∈ (s.thr c).keys) :
    Holds (s.thr c) (e.hash k).toNat := by
  have hs := g.inv.shape c
  simp only [Shape, hpc] at hs
  have hm : (e.hash k).toNat ∈ (s.thr c).req := by
    rw [g.keys c]; exact required_mem.2 ⟨k, hk, rfl⟩
  obtain ⟨j, hj⟩ := List.getElem?_of_mem hm
  have := (List.getElem?_eq_some_iff.1 hj).1
  exact ⟨j, hj, by simp [lo, hpc], by simp only [hi, hpc]; omega⟩

end Verif.Latch
