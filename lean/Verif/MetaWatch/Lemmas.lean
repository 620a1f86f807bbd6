import Verif.MetaWatch.Spec

/-! Helper lemmas for watches of metadata changes. -/

namespace Verif.MetaWatch

theorem miss {types evs : List Nat} (h : hit types evs = false) :
    (evs.filter fun e => types.contains e) = [] := by
  simp only [hit, List.any_eq_false] at h
  rw [List.filter_eq_nil_iff]
  exact h

theorem gather_append (log : List Rec) (types a b : List Nat) :
    gather log types (a ++ b) = gather log types a ++ gather log types b := by
  simp [gather]

theorem gather_one {log : List Rec} {types : List Nat} {r : Nat} {evs : List Nat}
    (h : log.lookup r = some evs) :
    gather log types [r] = matching types [(r, evs)] := by
  simp [gather, matching, h]

theorem lookup_fresh {log : List Rec} {rev : Nat}
    (h : log.all (fun r => decide (r.1 < rev)) = true) : log.lookup rev = none := by
  induction log with
  | nil => rfl
  | cons a l ih =>
    simp only [List.all_cons, Bool.and_eq_true, decide_eq_true_eq] at h
    obtain ⟨x, y⟩ := a
    have hne : (rev == x) = false := by
      have := h.1
      simp only [beq_eq_false_iff_ne, ne_eq]
      dsimp only at this
      omega
    simp only [List.lookup, hne]
    exact ih h.2

theorem lookup_more {log : List Rec} {r : Nat} {e : Rec} (h : (log.lookup r).isSome = true) :
    (log ++ [e]).lookup r = log.lookup r := by
  rw [List.lookup_append]
  cases hl : log.lookup r with
  | none => simp [hl] at h
  | some v => rfl

theorem lookup_last {log : List Rec} {rev : Nat} {evs : List Nat}
    (h : log.lookup rev = none) : (log ++ [(rev, evs)]).lookup rev = some evs := by
  rw [List.lookup_append, h]
  simp [List.lookup]

theorem gather_more {log : List Rec} {types : List Nat} {e : Rec} :
    ∀ {revs : List Nat}, (∀ r ∈ revs, (log.lookup r).isSome = true) →
      gather (log ++ [e]) types revs = gather log types revs
  | [], _ => rfl
  | r :: l, h => by
    have h1 := gather_more (log := log) (types := types) (e := e) (revs := l)
      (fun x hx => h x (List.mem_cons_of_mem _ hx))
    have h2 := lookup_more (e := e) (h r List.mem_cons_self)
    unfold gather at h1 ⊢
    rw [List.flatMap_cons, List.flatMap_cons, h1, h2]

theorem kind_events {log : List Rec} {revs : List Nat}
    (h : ∀ r ∈ revs, (log.lookup r).isSome = true) : kindOf log revs = .events := by
  unfold kindOf
  rw [if_neg]
  simp only [List.any_eq_true, not_exists, not_and]
  intro r hr
  have := h r hr
  cases hl : log.lookup r <;> simp_all

/-- What holds after the watch has been created, while it lives and nothing is trimmed: what has
been sent, is kept back or is in the hands of the worker is `D`. -/
structure Inv (s : St) (D : List (Nat × Nat)) : Prop where
  over : s.phase = .done
  have_ : ∀ r ∈ s.pending, (s.log.lookup r).isSome = true
  hand : ∀ b, s.busy = some b → s.log.lookup b.1 = some b.2 ∧ s.start < b.1
  sum : delivered s ++ gather s.log s.types s.pending ++ matching s.types s.busy.toList = D

theorem Inv.step {s t : St} {D : List (Nat × Nat)} {o : Op} (h : Inv s D)
    (hs : step s o = some t) (hl : t.live = true) (hn : ∀ n, o ≠ .trim n)
    (hr : ∀ rev evs, o = .put rev evs → s.start < rev) (ht : s.live = true) :
    Inv t (D ++ matching s.types (puts [o])) ∧ t.types = s.types ∧ t.start = s.start := by
  cases o with
  | put rev evs =>
    simp only [MetaWatch.step] at hs
    split at hs
    · rename_i hc
      simp only [Bool.and_eq_true, decide_eq_true_eq] at hc
      cases hs
      have hb : s.busy = none := by
        cases hb : s.busy with
        | none => rfl
        | some b => simp [hb] at hc
      have hf := lookup_fresh hc.1.2
      refine ⟨⟨h.over, ?_, ?_, ?_⟩, rfl, rfl⟩
      · intro r hr'
        show ((s.log ++ [(rev, evs)]).lookup r).isSome = true
        rw [lookup_more (h.have_ r hr')]
        exact h.have_ r hr'
      · intro b hb'
        cases hb'
        exact ⟨lookup_last hf, hr rev evs rfl⟩
      · have := h.sum
        rw [hb] at this
        show delivered s ++ gather (s.log ++ [(rev, evs)]) s.types s.pending ++
          matching s.types [(rev, evs)] = _
        rw [gather_more h.have_, ← this]
        simp [matching, puts]
    · cases hs
  | notify =>
    simp only [MetaWatch.step] at hs
    cases hb : s.busy with
    | none => simp [hb] at hs
    | some b =>
      obtain ⟨rev, evs⟩ := b
      have hh := h.hand _ hb
      have hsum := h.sum
      rw [hb] at hsum hs
      dsimp only at hs hh
      have hz : matching s.types (puts [Op.notify]) = [] := rfl
      rw [hz, List.append_nil]
      split at hs
      · have hev : ∀ r ∈ s.pending ++ [rev], (s.log.lookup r).isSome = true := by
          intro r hr'
          rcases List.mem_append.mp hr' with hr' | hr'
          · exact h.have_ r hr'
          · simp only [List.mem_singleton] at hr'
            rw [hr', hh.1]; rfl
        have hg : gather s.log s.types (s.pending ++ [rev]) =
            gather s.log s.types s.pending ++ matching s.types [(rev, evs)] := by
          rw [gather_append, gather_one hh.1]
        split at hs
        · cases hs
          rw [if_pos hh.2]
          refine ⟨⟨h.over, hev, (by intro b hb'; cases hb'), ?_⟩, rfl, rfl⟩
          rw [← hsum]
          show delivered s ++ gather s.log s.types (s.pending ++ [rev]) ++ [] = _
          rw [hg]
          simp
        · cases hs
          refine ⟨⟨h.over, (by intro r hr'; cases hr'), (by intro b hb'; cases hb'), ?_⟩, rfl, rfl⟩
          rw [← hsum]
          simp only [delivered, List.flatMap_append, List.flatMap_cons, List.flatMap_nil, hg]
          simp [gather, matching]
      · rename_i hc
        have hm : hit s.types evs = false := by
          rw [ht] at hc
          simpa using hc
        cases hs
        refine ⟨⟨h.over, h.have_, (by intro b hb'; cases hb'), ?_⟩, rfl, rfl⟩
        rw [← hsum]
        show delivered s ++ gather s.log s.types s.pending ++ [] = _ ++ matching s.types [(rev, evs)]
        simp only [matching, List.flatMap_cons, List.flatMap_nil]
        rw [miss hm]
        rfl
  | create st ty => simp [MetaWatch.step, h.over] at hs
  | read => simp [MetaWatch.step, h.over] at hs
  | prepend => simp [MetaWatch.step, h.over] at hs
  | ask c =>
    simp only [MetaWatch.step] at hs
    rw [if_pos ht] at hs
    cases hs
    refine ⟨⟨h.over, h.have_, h.hand, ?_⟩, rfl, rfl⟩
    rw [← h.sum]
    simp [delivered, matching, puts]
  | enter c =>
    simp only [MetaWatch.step] at hs
    split at hs
    · split at hs
      · cases hs
        refine ⟨⟨h.over, h.have_, h.hand, ?_⟩, rfl, rfl⟩
        rw [← h.sum]
        simp [delivered, matching, puts]
      · cases hs
        refine ⟨⟨h.over, (by intro r hr'; cases hr'), h.hand, ?_⟩, rfl, rfl⟩
        rw [← h.sum]
        simp [delivered, matching, puts, gather]
    · cases hs
  | idle =>
    simp only [MetaWatch.step] at hs
    split at hs
    · cases hs
      refine ⟨⟨h.over, (by intro r hr'; cases hr'), h.hand, ?_⟩, rfl, rfl⟩
      rw [← h.sum]
      simp [delivered, matching, puts, gather]
    · cases hs
  | cancel =>
    simp only [MetaWatch.step] at hs
    rw [if_pos ht] at hs
    cases hs
    simp [drop] at hl
  | trim n => exact absurd rfl (hn n)

/-- A watch that has been dropped after its creation is not there again. -/
theorem dead_step {s t : St} {o : Op} (hp : s.phase = .done) (hd : s.live = false)
    (hs : step s o = some t) : t.phase = .done ∧ t.live = false := by
  cases o <;> simp only [MetaWatch.step, hp, hd] at hs <;>
    (repeat' split at hs) <;> first | (cases hs; done) | (cases hs; simp_all)

theorem dead_run : ∀ {l : List Op} {s t : St}, s.phase = .done → s.live = false →
    run s l = some t → t.live = false
  | [], s, t, _, hd, h => by
    simp only [run] at h
    cases h
    exact hd
  | o :: l, s, t, hp, hd, h => by
    simp only [run] at h
    cases hs : step s o with
    | none => simp [hs] at h
    | some u =>
      rw [hs] at h
      have h1 := dead_step hp hd hs
      exact dead_run (l := l) h1.1 h1.2 h

theorem puts_cons (o : Op) (l : List Op) : puts (o :: l) = puts [o] ++ puts l := by
  cases o <;> rfl

theorem matching_append (types : List Nat) (a b : List Rec) :
    matching types (a ++ b) = matching types a ++ matching types b := by
  simp [matching]

theorem Inv.run : ∀ {l : List Op} {s t : St} {D : List (Nat × Nat)}, Inv s D →
    run s l = some t → t.live = true → (∀ n, .trim n ∉ l) →
    (∀ rev evs, .put rev evs ∈ l → s.start < rev) →
    Inv t (D ++ matching s.types (puts l)) ∧ t.types = s.types
  | [], s, t, D, h, hr, _, _, _ => by
    simp only [MetaWatch.run] at hr
    cases hr
    simpa [puts, matching] using h
  | o :: l, s, t, D, h, hr, hl, hn, hp => by
    simp only [MetaWatch.run] at hr
    cases hs : MetaWatch.step s o with
    | none => simp [hs] at hr
    | some u =>
      rw [hs] at hr
      dsimp only at hr
      have hul : u.live = true := by
        cases hu : u.live with
        | true => rfl
        | false =>
          have hph : u.phase = .done := by
            cases o <;> simp only [MetaWatch.step, h.over] at hs <;>
              (repeat' split at hs) <;> first | (cases hs; done) | (cases hs; simp [drop, h.over])
          rw [dead_run hph hu hr] at hl
          cases hl
      have hsl : s.live = true := by
        cases hu : s.live with
        | true => rfl
        | false =>
          rw [(dead_step h.over hu hs).2] at hul
          cases hul
      have h1 := h.step hs hul (fun n he => hn n (he ▸ List.mem_cons_self))
        (fun rev evs he => hp rev evs (he ▸ List.mem_cons_self)) hsl
      have h2 := Inv.run (l := l) h1.1 hr hl (fun n hm => hn n (List.mem_cons_of_mem _ hm))
        (fun rev evs hm => by rw [h1.2.2]; exact hp rev evs (List.mem_cons_of_mem _ hm))
      rw [h1.2.1] at h2
      refine ⟨?_, h2.2⟩
      rw [puts_cons, matching_append, ← List.append_assoc]
      exact h2.1

/-! Revisions that were skipped, and polls that were forgotten. -/

theorem step_log {s t : St} {o : Op} (hs : step s o = some t) (hn : ∀ n, o ≠ .trim n) :
    ∀ r ∈ s.log, r ∈ t.log := by
  cases o with
  | trim n => exact absurd rfl (hn n)
  | _ =>
    simp only [step] at hs
    (repeat' split at hs) <;> first
      | (cases hs; done)
      | (cases hs; intro r hr; simp [drop, hr])

theorem put_gt : ∀ {l : List Op} {s t : St} {r : Rec}, run s l = some t → (∀ n, .trim n ∉ l) →
    r ∈ s.log → ∀ rev evs, .put rev evs ∈ l → r.1 < rev
  | [], _, _, _, _, _, _, _, _, hm => by cases hm
  | o :: l, s, t, r, hr, hn, hl, rev, evs, hm => by
    simp only [run] at hr
    cases hs : step s o with
    | none => simp [hs] at hr
    | some u =>
      rw [hs] at hr
      dsimp only at hr
      rcases List.mem_cons.mp hm with hm | hm
      · subst hm
        simp only [step] at hs
        split at hs
        · rename_i hc
          simp only [Bool.and_eq_true, List.all_eq_true, decide_eq_true_eq] at hc
          exact hc.1.2 r hl
        · cases hs
      · exact put_gt (l := l) hr (fun n hm => hn n (List.mem_cons_of_mem _ hm))
          (step_log hs (fun n he => hn n (he ▸ List.mem_cons_self)) r hl) rev evs hm

theorem put_pos : ∀ {l : List Op} {s t : St}, run s l = some t →
    ∀ rev evs, .put rev evs ∈ l → 0 < rev
  | [], _, _, _, _, _, hm => by cases hm
  | o :: l, s, t, hr, rev, evs, hm => by
    simp only [run] at hr
    cases hs : step s o with
    | none => simp [hs] at hr
    | some u =>
      rw [hs] at hr
      dsimp only at hr
      rcases List.mem_cons.mp hm with hm | hm
      · subst hm
        simp only [step] at hs
        split at hs
        · rename_i hc
          simp only [Bool.and_eq_true, decide_eq_true_eq] at hc
          exact hc.2
        · cases hs
      · exact put_pos (l := l) hr rev evs hm

/-- The revision is in nobody's hands and has not been sent. -/
structure Never (s : St) (r : Nat) : Prop where
  over : s.phase = .done
  kept : r ∉ s.pending
  hand : ∀ b, s.busy = some b → b.1 ≠ r
  sent : ∀ e ∈ delivered s, e.1 ≠ r

theorem gather_rev {log : List Rec} {types revs : List Nat} {e : Nat × Nat}
    (h : e ∈ gather log types revs) : e.1 ∈ revs := by
  simp only [gather, List.mem_flatMap] at h
  obtain ⟨r, hr, he⟩ := h
  split at he
  · simp only [List.mem_map] at he
    obtain ⟨x, _, rfl⟩ := he
    exact hr
  · cases he

theorem delivered_add (s : St) (b : List Batch) :
    (s.out ++ b).flatMap (·.events) = delivered s ++ b.flatMap (·.events) := by
  simp [delivered]

theorem Never.step {s t : St} {r : Nat} {o : Op} (h : Never s r) (hs : step s o = some t)
    (hp : ∀ evs, o ≠ .put r evs) : Never t r := by
  have hsent := h.sent
  cases o with
  | put rev evs =>
    simp only [MetaWatch.step] at hs
    split at hs
    · cases hs
      refine ⟨h.over, h.kept, ?_, h.sent⟩
      intro b hb
      cases hb
      intro he
      exact hp evs (by rw [← he])
    · cases hs
  | notify =>
    simp only [MetaWatch.step] at hs
    cases hb : s.busy with
    | none => simp [hb] at hs
    | some b =>
      obtain ⟨rev, evs⟩ := b
      have hne : rev ≠ r := h.hand _ hb
      rw [hb] at hs
      dsimp only at hs
      split at hs
      · split at hs
        · cases hs
          refine ⟨h.over, ?_, (by intro b hb'; cases hb'), h.sent⟩
          show r ∉ (if s.start < rev then s.pending ++ [rev] else s.pending)
          split
          · intro hm
            rcases List.mem_append.mp hm with hm | hm
            · exact h.kept hm
            · exact hne (List.mem_singleton.mp hm).symm
          · exact h.kept
        · cases hs
          refine ⟨h.over, (by intro hm; cases hm), (by intro b hb'; cases hb'), ?_⟩
          intro e he
          simp only [delivered, List.flatMap_append, List.mem_append, List.flatMap_cons,
            List.flatMap_nil, List.append_nil] at he
          rcases he with he | he
          · exact h.sent e he
          · have := gather_rev he
            intro heq
            rw [heq] at this
            rcases List.mem_append.mp this with hm | hm
            · exact h.kept hm
            · exact hne (List.mem_singleton.mp hm).symm
      · cases hs
        exact ⟨h.over, h.kept, (by intro b hb'; cases hb'), h.sent⟩
  | create st ty => simp [MetaWatch.step, h.over] at hs
  | read => simp [MetaWatch.step, h.over] at hs
  | prepend => simp [MetaWatch.step, h.over] at hs
  | ask c =>
    simp only [MetaWatch.step] at hs
    split at hs
    · cases hs
      exact ⟨h.over, h.kept, h.hand, h.sent⟩
    · cases hs
      refine ⟨h.over, h.kept, h.hand, ?_⟩
      intro e he
      simp only [delivered, List.flatMap_append, List.mem_append, List.flatMap_cons,
        List.flatMap_nil, List.append_nil, List.not_mem_nil, or_false] at he
      exact h.sent e he
  | enter c =>
    simp only [MetaWatch.step] at hs
    split at hs
    · split at hs
      · cases hs
        exact ⟨h.over, h.kept, h.hand, h.sent⟩
      · cases hs
        refine ⟨h.over, (by intro hm; cases hm), h.hand, ?_⟩
        intro e he
        simp only [delivered, List.flatMap_append, List.mem_append, List.flatMap_cons,
          List.flatMap_nil, List.append_nil] at he
        rcases he with he | he
        · exact h.sent e he
        · intro heq
          exact h.kept (heq ▸ gather_rev he)
    · cases hs
  | idle =>
    simp only [MetaWatch.step] at hs
    split at hs
    · cases hs
      refine ⟨h.over, (by intro hm; cases hm), h.hand, ?_⟩
      intro e he
      simp only [delivered, List.flatMap_append, List.mem_append, List.flatMap_cons,
        List.flatMap_nil, List.append_nil] at he
      rcases he with he | he
      · exact h.sent e he
      · intro heq
        exact h.kept (heq ▸ gather_rev he)
    · cases hs
  | cancel =>
    simp only [MetaWatch.step] at hs
    cases hlv : s.live with
    | false => simp [hlv] at hs
    | true =>
      rw [if_pos hlv] at hs
      cases hs
      refine ⟨h.over, h.kept, h.hand, ?_⟩
      intro e he
      apply h.sent e
      simp only [delivered, drop, List.flatMap_append, List.mem_append] at he
      rcases he with he | he
      · exact he
      · split at he <;> simp at he
  | trim n =>
    simp only [MetaWatch.step] at hs
    cases hs
    exact ⟨h.over, h.kept, h.hand, h.sent⟩

theorem Never.run : ∀ {l : List Op} {s t : St} {r : Nat}, Never s r → run s l = some t →
    (∀ evs, .put r evs ∉ l) → Never t r
  | [], _, _, _, h, hr, _ => by
    simp only [MetaWatch.run] at hr
    cases hr
    exact h
  | o :: l, s, t, r, h, hr, hp => by
    simp only [MetaWatch.run] at hr
    cases hs : MetaWatch.step s o with
    | none => simp [hs] at hr
    | some u =>
      rw [hs] at hr
      exact Never.run (l := l) (h.step hs (fun evs he => hp evs (he ▸ List.mem_cons_self))) hr
        (fun evs hm => hp evs (List.mem_cons_of_mem _ hm))

/-- The poll waits in a watch that is no longer there. -/
structure Lost (s : St) (c : Nat) : Prop where
  over : s.phase = .done
  dead : s.live = false
  kept : s.pending = []
  wait : c ∈ s.waiting
  none_ : ∀ b ∈ s.out, c ∉ b.to

theorem Lost.step {s t : St} {c : Nat} {o : Op} (h : Lost s c) (hs : step s o = some t)
    (hp : o ≠ .ask c) : Lost t c := by
  cases o with
  | put rev evs =>
    simp only [MetaWatch.step] at hs
    split at hs
    · cases hs
      exact ⟨h.over, h.dead, h.kept, h.wait, h.none_⟩
    · cases hs
  | notify =>
    simp only [MetaWatch.step] at hs
    cases hb : s.busy with
    | none => simp [hb] at hs
    | some b =>
      rw [hb] at hs
      dsimp only at hs
      rw [if_neg (by simp [h.dead])] at hs
      cases hs
      exact ⟨h.over, h.dead, h.kept, h.wait, h.none_⟩
  | create st ty => simp [MetaWatch.step, h.over] at hs
  | read => simp [MetaWatch.step, h.over] at hs
  | prepend => simp [MetaWatch.step, h.over] at hs
  | ask d =>
    simp only [MetaWatch.step] at hs
    rw [if_neg (by simp [h.dead])] at hs
    cases hs
    refine ⟨h.over, h.dead, h.kept, h.wait, ?_⟩
    intro b hb
    rcases List.mem_append.mp hb with hb | hb
    · exact h.none_ b hb
    · rw [List.mem_singleton.mp hb]
      intro hm
      exact hp (by rw [List.mem_singleton.mp hm])
  | enter d =>
    simp only [MetaWatch.step] at hs
    split at hs
    · rw [if_pos (by simp [h.kept])] at hs
      cases hs
      exact ⟨h.over, h.dead, h.kept, List.mem_append_left _ h.wait, h.none_⟩
    · cases hs
  | idle =>
    simp only [MetaWatch.step] at hs
    rw [if_neg (by simp [h.dead])] at hs
    cases hs
  | cancel =>
    simp only [MetaWatch.step] at hs
    rw [if_neg (by simp [h.dead])] at hs
    cases hs
  | trim n =>
    simp only [MetaWatch.step] at hs
    cases hs
    exact ⟨h.over, h.dead, h.kept, h.wait, h.none_⟩

theorem Lost.run : ∀ {l : List Op} {s t : St} {c : Nat}, Lost s c → run s l = some t →
    .ask c ∉ l → Lost t c
  | [], _, _, _, h, hr, _ => by
    simp only [MetaWatch.run] at hr
    cases hr
    exact h
  | o :: l, s, t, c, h, hr, hp => by
    simp only [MetaWatch.run] at hr
    cases hs : MetaWatch.step s o with
    | none => simp [hs] at hr
    | some u =>
      rw [hs] at hr
      exact Lost.run (l := l) (h.step hs (fun he => hp (he ▸ List.mem_cons_self))) hr
        (fun hm => hp (List.mem_cons_of_mem _ hm))

/-- A poll of a watch that lives takes everything kept back. -/
theorem poll_all {t : St} {D : List (Nat × Nat)} (h : Inv t D) (hl : t.live = true)
    (hb : t.busy = none) (c : Nat) :
    ∃ u, run t [.ask c, .enter c] = some u ∧ delivered u = D := by
  have hsum := h.sum
  rw [hb] at hsum
  have hm : matching t.types (none : Option Rec).toList = [] := rfl
  rw [hm, List.append_nil] at hsum
  cases hp : t.pending with
  | nil =>
    refine ⟨{ t with entering := (c :: t.entering).erase c, waiting := t.waiting ++ [c] }, ?_, ?_⟩
    · simp [run, step, hl, hp]
    · rw [← hsum, hp]
      simp [delivered, gather]
  | cons r l =>
    refine ⟨{ t with entering := (c :: t.entering).erase c, waiting := [], pending := [],
                     live := t.live && decide (kindOf t.log t.pending = .events),
                     out := t.out ++ [⟨c :: t.waiting, gather t.log t.types t.pending,
                                        kindOf t.log t.pending⟩] }, ?_, ?_⟩
    · simp [run, step, hl, hp]
    · rw [← hsum]
      simp [delivered]

theorem step_create (L : List Rec) (start : Nat) (types : List Nat) :
    step (St.init L) (.create start types) =
      if 0 < start ∧ start < (L.head?.map (·.1)).getD 0 then
        some { St.init L with phase := .done, created := some false }
      else if start = 0 then
        some { St.init L with phase := .done, live := true, start := start, types := types,
                              created := some true }
      else some { St.init L with phase := .reading, live := true, start := start,
                                 types := types } := by
  show (if (decide (0 < start) && decide (start < (L.head?.map (·.1)).getD 0)) = true then _
    else _) = _
  by_cases h : 0 < start ∧ start < (L.head?.map (·.1)).getD 0
  · rw [if_pos h, if_pos (by simpa using h)]
  · rw [if_neg h, if_neg (by simpa using h)]

end Verif.MetaWatch
