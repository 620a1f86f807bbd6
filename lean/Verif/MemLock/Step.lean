import Verif.MemLock.Inv

/-! Every event keeps the invariant. -/

namespace Verif.MemLock

theorem getElem?_set_some {α : Type} {l : List α} {i j : Nat} {a x : α}
    (h : (l.set i a)[j]? = some x) : (j = i ∧ x = a) ∨ (j ≠ i ∧ l[j]? = some x) := by
  rw [List.getElem?_set] at h
  grind

/-- One prewrite moves; the table and the entries may change. -/
theorem setPw_inv {s : Sys} (h : Inv s) {i : Nat} {p p' : Pw} (hi : s.pws[i]? = some p)
    (hreq : p'.req = p.req) (hend : p'.phase ≠ .ended → p.phase ≠ .ended)
    {t' : List (Key × Nat)} {es' : List Entry} (hp : PwOk t' es' s.readers p')
    (ho : ∀ j q, j ≠ i → s.pws[j]? = some q → PwOk t' es' s.readers q) (htbl : TblOk t' es') :
    Inv { s with table := t', entries := es', pws := s.pws.set i p' } := by
  refine ⟨h.low, ?_, htbl, ?_, h.locks, h.recs⟩
  · intro a b x y hab hx hy hxe hye m hm m' hm'
    rcases getElem?_set_some hx with ⟨rfl, rfl⟩ | ⟨hai, hx1⟩
    · rcases getElem?_set_some hy with ⟨rfl, rfl⟩ | ⟨hbi, hy1⟩
      · exact absurd rfl hab
      · rw [hreq] at hm
        exact h.disj a b p y hab hi hy1 (hend hxe) hye m hm m' hm'
    · rcases getElem?_set_some hy with ⟨rfl, rfl⟩ | ⟨hbi, hy1⟩
      · rw [hreq] at hm'
        exact h.disj a b x p hab hx1 hi hxe (hend hye) m hm m' hm'
      · exact h.disj a b x y hab hx1 hy1 hxe hye m hm m' hm'
  · intro q hq
    obtain ⟨j, hj⟩ := List.mem_iff_getElem?.1 hq
    rcases getElem?_set_some hj with ⟨rfl, rfl⟩ | ⟨hji, hj⟩
    · exact hp
    · exact ho j q hji hj

/-- One prewrite moves, nothing else changes. -/
theorem setPw_inv' {s : Sys} (h : Inv s) {i : Nat} {p p' : Pw} (hi : s.pws[i]? = some p)
    (hreq : p'.req = p.req) (hend : p'.phase ≠ .ended → p.phase ≠ .ended)
    (hp : PwOk s.table s.entries s.readers p') : Inv { s with pws := s.pws.set i p' } :=
  setPw_inv h hi hreq hend hp (fun _ q _ hq => h.pws q (List.mem_of_getElem? hq)) h.tbl

theorem PwOk.phase {t es rs p} (h : PwOk t es rs p) {ph : PPhase}
    (hph : ph = .run ∨ ph = .sent → p.phase = .run) : PwOk t es rs { p with phase := ph } := by
  refine ⟨h.start, h.svc, h.muts, h.todo, h.dkey, h.dpess, ?_, h.fin, ?_⟩
  · intro hp d hd hc
    exact h.pend (Or.inl (hph hp)) d hd hc
  · intro e m l hp hc
    exact h.cur e m l (hph (Or.inl hp)) hc

theorem admit_go {m : Mut} {start : Int} {prev : Option Lock} (h : admit m start prev = .go)
    (hm : m.pess = true → m.fut.isSome = true) :
    prev = none ∨ ∃ l f, prev = some l ∧ m.fut = some f ∧ l.fut = f := by
  unfold admit at h
  split at h
  · left; rfl
  · rename_i l
    right
    cases hp : m.pess with
    | false => rw [hp] at h; grind
    | true =>
      obtain ⟨f, hf⟩ := Option.isSome_iff_exists.1 (hm hp)
      rw [hp, hf] at h
      grind

theorem build_fut {r : Req} {a : Bool} {m : Mut} {prev : Option Lock}
    (h : prev = none ∨ ∃ l f, prev = some l ∧ m.fut = some f ∧ l.fut = f) :
    (build r a prev).fut ≤ m.fut.getD 0 ∨ (build r a prev).fut ≤ 0 := by
  rcases h with rfl | ⟨l, f, rfl, hf, hl⟩
  · right; simp [build]
  · left; simp [build, hf, hl]

theorem next_inv {s : Sys} (h : Inv s) {i : Nat} {p : Pw} {m : Mut} {rest : List Mut}
    (hi : s.pws[i]? = some p) (hph : p.phase = .run) (hcur : p.cur = none)
    (htodo : p.todo = m :: rest) : Inv (next s i p m rest) := by
  have hp := h.pws p (List.mem_of_getElem? hi)
  have hm : m ∈ p.req.muts := hp.todo m (by rw [htodo]; exact List.mem_cons_self)
  have hrest : ∀ x ∈ rest, x ∈ p.req.muts := fun x hx =>
    hp.todo x (by rw [htodo]; exact List.mem_cons_of_mem _ hx)
  unfold next
  dsimp only
  split
  · refine setPw_inv' h hi (by rfl) (fun _ => by rw [hph]; decide) ?_
    exact ⟨hp.start, hp.svc, hp.muts, hrest, hp.dkey, hp.dpess, (fun e => by simp at e), hp.fin,
      (fun e m l e1 => by cases e1)⟩
  · refine setPw_inv' h hi (by rfl) (fun _ => by rw [hph]; decide) ?_
    refine ⟨hp.start, hp.svc, hp.muts, hrest, hp.dkey, hp.dpess, ?_, (fun e => by cases e), ?_⟩
    · intro hpp d hd hc
      rcases hc with hc | hc
      · cases hc
      · exact hp.pend hpp d hd (Or.inr hc)
    · intro e m l hr hc
      rw [show ({ p with todo := rest, onePc := false, async := false } : Pw).cur = p.cur from rfl,
        hcur] at hc
      cases hc
  · rename_i hgo
    split
    · refine setPw_inv' h hi (by rfl) (fun _ => by rw [hph]; decide) ?_
      refine ⟨hp.start, hp.svc, hp.muts, hrest, hp.dkey, hp.dpess, hp.pend, ?_, ?_⟩
      · intro ho d hd
        have := hp.fin ho d hd
        dsimp only at ho
        simp only [ho, Bool.true_or, if_true]
        split <;> omega
      · intro e m l hr hc
        rw [show p.cur = none from hcur] at hc
        cases hc
    · have hfut := build_fut (r := p.req) (a := p.async) (admit_go hgo (hp.muts m hm))
      split
      · rename_i hboth
        refine setPw_inv h hi (by rfl) (fun _ => by rw [hph]; decide) ?_ ?_ ?_
        · refine ⟨hp.start, hp.svc, hp.muts, hrest, ?_, ?_, ?_, ?_, ?_⟩
          · intro d hd
            exact hp.dkey d ((List.mem_filter.1 hd).1)
          · intro d hd
            exact hp.dpess d ((List.mem_filter.1 hd).1)
          · intro hpp d hd hc
            have hd' := List.mem_filter.1 hd
            obtain ⟨h1, h2, e, h3, h4, h5⟩ := hp.pend hpp d hd'.1 hc
            refine ⟨h1, h2, e, mem_assign.2 (Or.inr ⟨h3, by simpa using hd'.2⟩), ?_, h5⟩
            rw [List.getElem?_append_left]
            · exact h4
            · exact (List.getElem?_eq_some_iff.1 h4).1
          · intro ho d hd
            exact hp.fin ho d ((List.mem_filter.1 hd).1)
          · intro e m' l _ hc
            cases hc
            refine ⟨mem_assign.2 (Or.inl rfl), by simp, rfl, hfut, by simpa using hboth, rfl, hm, ?_⟩
            intro d hd
            have := (List.mem_filter.1 hd).2
            simpa using this
        · intro j q hji hq
          have hqo := h.pws q (List.mem_of_getElem? hq)
          by_cases hqe : q.phase = .ended
          · refine ⟨hqo.start, hqo.svc, hqo.muts, hqo.todo, hqo.dkey, hqo.dpess, ?_, hqo.fin, ?_⟩
            · intro e; rw [hqe] at e; simp at e
            · intro e m l e1; rw [hqe] at e1; cases e1
          · have hd := h.disj j i q p hji hq hi hqe (by rw [hph]; decide)
            refine ⟨hqo.start, hqo.svc, hqo.muts, hqo.todo, hqo.dkey, hqo.dpess, ?_, hqo.fin, ?_⟩
            · intro hpp d hdd hc
              obtain ⟨h1, h2, e, h3, h4, h5⟩ := hqo.pend hpp d hdd hc
              obtain ⟨m', hm', hk⟩ := hqo.dkey d hdd
              refine ⟨h1, h2, e, mem_assign.2 (Or.inr ⟨h3, ?_⟩), ?_, h5⟩
              · rw [← hk]; exact hd m' hm' m hm
              · rw [List.getElem?_append_left]
                · exact h4
                · exact (List.getElem?_eq_some_iff.1 h4).1
            · intro e m' l hr hc
              obtain ⟨h1, h2, h3, h4, h5, h6, h7, h8⟩ := hqo.cur e m' l hr hc
              refine ⟨mem_assign.2 (Or.inr ⟨h1, hd m' h7 m hm⟩), ?_, h3, h4, h5, h6, h7, h8⟩
              rw [List.getElem?_append_left]
              · exact h2
              · exact (List.getElem?_eq_some_iff.1 h2).1
        · intro k a hka
          rcases mem_assign.1 hka with e | ⟨hka, _⟩
          · cases e
            exact ⟨_, by rw [List.getElem?_append_right (Nat.le_refl _)]; simp; rfl, rfl⟩
          · obtain ⟨y, hy, hyk⟩ := h.tbl k a hka
            refine ⟨y, ?_, hyk⟩
            rw [List.getElem?_append_left]
            · exact hy
            · exact (List.getElem?_eq_some_iff.1 hy).1
      · rename_i hboth
        refine setPw_inv' h hi (by rfl) (fun _ => by rw [hph]; decide) ?_
        have h1 : p.onePc = false := by cases ho : p.onePc <;> simp_all
        have h2 : p.async = false := by cases ho : p.async <;> simp_all
        refine ⟨hp.start, hp.svc, hp.muts, hrest, ?_, ?_, ?_, ?_, ?_⟩
        · intro d hd
          rcases List.mem_cons.1 hd with rfl | hd
          · exact ⟨m, hm, rfl⟩
          · exact hp.dkey d ((List.mem_filter.1 hd).1)
        · intro d hd
          rcases List.mem_cons.1 hd with rfl | hd
          · rfl
          · exact hp.dpess d ((List.mem_filter.1 hd).1)
        · intro hpp d hd hc
          rcases List.mem_cons.1 hd with rfl | hd
          · simp [build, h1, h2] at hc
          · exact hp.pend hpp d ((List.mem_filter.1 hd).1) hc
        · intro ho
          dsimp only at ho
          rw [h1] at ho
          cases ho
        · intro e m l _ hc
          rw [show p.cur = none from hcur] at hc
          cases hc

theorem fix_inv {s : Sys} (h : Inv s) {i : Nat} {p : Pw} {e : Nat} {m : Mut} {l : Lock}
    (hi : s.pws[i]? = some p) (hph : p.phase = .run) (hcur : p.cur = some (e, m, l)) :
    Inv (fix s i p e m l) := by
  have hp := h.pws p (List.mem_of_getElem? hi)
  obtain ⟨ht, he, hts, hfut, hboth, hpess, hm, hdk⟩ := hp.cur e m l hph hcur
  have hlt : e < s.entries.length := (List.getElem?_eq_some_iff.1 he).1
  have keep : ∀ (x : Entry) (a : Nat) (k : Key) (l' : Lock),
      s.entries[a]? = some ⟨k, l', true, false⟩ →
      (s.entries.set e x)[a]? = some ⟨k, l', true, false⟩ := by
    intro x a k l' ha
    rw [List.getElem?_set]
    by_cases hae : e = a
    · subst hae
      rw [he] at ha
      cases ha
    · rw [if_neg hae]; exact ha
  have others : ∀ (x : Entry) (j : Nat) (q : Pw), j ≠ i → s.pws[j]? = some q →
      PwOk s.table (s.entries.set e x) s.readers q := by
    intro x j q hji hq
    have hqo := h.pws q (List.mem_of_getElem? hq)
    refine ⟨hqo.start, hqo.svc, hqo.muts, hqo.todo, hqo.dkey, hqo.dpess, ?_, hqo.fin, ?_⟩
    · intro hpp d hdd hc
      obtain ⟨h1, h2, a, h3, h4, h5⟩ := hqo.pend hpp d hdd hc
      exact ⟨h1, h2, a, h3, keep _ _ _ _ h4, h5⟩
    · intro a m' l' hr hc
      obtain ⟨h1, h2, h3, h4, h5, h6, h7, h8⟩ := hqo.cur a m' l' hr hc
      refine ⟨h1, ?_, h3, h4, h5, h6, h7, h8⟩
      rw [List.getElem?_set]
      by_cases hae : e = a
      · subst hae
        rw [he] at h2
        have hk : m.key = m'.key := by injection h2 with h2; injection h2
        exact absurd hk.symm
          (h.disj j i q p hji hq hi (by rw [hr]; decide) (by rw [hph]; decide) m' h7 m hm)
      · rw [if_neg hae]; exact h2
  have tset : ∀ x : Entry, x.key = m.key → TblOk s.table (s.entries.set e x) := by
    intro x hx k a hka
    obtain ⟨y, hy, hyk⟩ := h.tbl k a hka
    rw [List.getElem?_set]
    by_cases hae : e = a
    · subst hae
      rw [if_pos rfl, if_pos hlt]
      rw [he] at hy
      cases hy
      exact ⟨x, rfl, hx.trans hyk⟩
    · rw [if_neg hae]; exact ⟨y, hy, hyk⟩
  unfold fix
  dsimp only
  generalize hmc : max (s.maxTs s.leader) (max p.req.start (m.fut.getD 0)) + 1 = mc
  have hstart := hp.start
  generalize hfin : (if p.req.max ≠ 0 ∧ mc > p.req.max then (0 : Int) else max mc l.min) = fin
  by_cases hz : fin = 0
  · rw [if_pos hz, if_neg (by omega : ¬ fin > 0)]
    refine setPw_inv h hi (by rfl) (fun _ => by rw [hph]; decide) ?_ (others _) (tset _ rfl)
    refine ⟨hp.start, hp.svc, hp.muts, hp.todo, ?_, ?_, ?_, (fun e => by cases e), ?_⟩
    · intro d hd
      rcases List.mem_cons.1 hd with rfl | hd
      · exact ⟨m, hm, rfl⟩
      · exact hp.dkey d hd
    · intro d hd
      rcases List.mem_cons.1 hd with rfl | hd
      · exact hpess
      · exact hp.dpess d hd
    · intro hpp d hd hc
      rcases List.mem_cons.1 hd with rfl | hd
      · simp at hc
      · obtain ⟨h1, h2, a, h3, h4, h5⟩ := hp.pend hpp d hd (by simp at hc; exact Or.inr hc)
        exact ⟨h1, h2, a, h3, keep _ _ _ _ h4, h5⟩
    · intro a m' l' _ hc
      cases hc
  · have hfin' : fin = max mc l.min := by
      rw [← hfin, if_neg]
      intro hc
      rw [if_pos hc] at hfin
      exact hz hfin.symm
    have hpos : fin > 0 := by omega
    rw [if_neg hz, if_pos hpos]
    refine setPw_inv h hi (by rfl) (fun _ => by rw [hph]; decide) ?_ (others _) (tset _ rfl)
    refine ⟨hp.start, hp.svc, hp.muts, hp.todo, ?_, ?_, ?_, ?_, ?_⟩
    · intro d hd
      rcases List.mem_cons.1 hd with rfl | hd
      · exact ⟨m, hm, rfl⟩
      · exact hp.dkey d hd
    · intro d hd
      rcases List.mem_cons.1 hd with rfl | hd
      · exact hpess
      · exact hp.dpess d hd
    · intro hpp d hd hc
      rcases List.mem_cons.1 hd with rfl | hd
      · dsimp only
        refine ⟨⟨?_, ?_, ?_⟩, hts, e, ht, ?_, ?_⟩
        · dsimp only; omega
        · dsimp only; omega
        · dsimp only; omega
        · rw [List.getElem?_set_self hlt]
        · intro r hr hsel
          have hl : started r → clear r { l with min := fin } := by
            intro hst
            have := h.low r hr hst
            left
            dsimp only
            omega
          cases hrp : r.phase with
          | checking todo => exact Or.inr (hl (by unfold started; rw [hrp]; trivial))
          | served got snap => exact fun _ => hl (by unfold started; rw [hrp]; trivial)
          | _ => trivial
      · obtain ⟨h1, h2, a, h3, h4, h5⟩ := hp.pend hpp d hd hc
        exact ⟨h1, h2, a, h3, keep _ _ _ _ h4, h5⟩
    · intro ho d hd
      dsimp only at ho ⊢
      rcases List.mem_cons.1 hd with rfl | hd
      · dsimp only
        split <;> omega
      · have := hp.fin ho d hd
        split <;> omega
    · intro a m' l' _ hc
      cases hc

theorem mem_putLocks {d : List Done} {locks : List (Key × Lock)} {x : Key × Lock}
    (h : x ∈ putLocks locks d) : x ∈ locks ∨ ∃ y ∈ d, x = (y.key, y.lock) := by
  induction d generalizing locks with
  | nil => exact Or.inl h
  | cons a d ih =>
    rcases ih h with h | ⟨y, hy, he⟩
    · rcases mem_assign.1 h with rfl | h
      · exact Or.inr ⟨a, List.mem_cons_self, rfl⟩
      · exact Or.inl h.1
    · exact Or.inr ⟨y, List.mem_cons_of_mem _ hy, he⟩

theorem apply_inv {s : Sys} (h : Inv s) {i : Nat} {p : Pw} (hi : s.pws[i]? = some p)
    (hph : p.phase = .sent) : Inv (apply s i p) := by
  have hp := h.pws p (List.mem_of_getElem? hi)
  have h1 : Inv { s with pws := s.pws.set i { p with phase := .applied } } :=
    setPw_inv' h hi (by rfl) (fun _ => by rw [hph]; decide) (hp.phase (by simp))
  unfold apply
  dsimp only
  split
  · rename_i ho
    refine ⟨h1.low, h1.disj, h1.tbl, h1.pws, ?_, ?_⟩
    · intro k l hkl
      exact h.locks k l ((List.mem_filter.1 hkl).1)
    · intro r hr got snap hrp
      obtain ⟨ha, hb⟩ := h.recs r hr got snap hrp
      refine ⟨fun w hw => List.mem_append_left _ (ha w hw), ?_⟩
      intro w hw hch hsel hg
      rcases List.mem_append.1 hw with hw | hw
      · exact hb w hw hch hsel hg
      · obtain ⟨d, hd, rfl⟩ := List.mem_map.1 hw
        obtain ⟨h2, h3, e, h4, h5, h6⟩ := hp.pend (Or.inr hph) d hd (Or.inl ho)
        have h7 := h6 r hr hsel
        rw [hrp] at h7
        have h8 := h7 hg
        have h9 := hp.fin ho d hd
        dsimp only
        rcases h8 with h8 | h8
        · exact Or.inr (Or.inl (by omega))
        · rw [h3] at h8; exact Or.inr (Or.inr h8)
  · refine ⟨h1.low, h1.disj, h1.tbl, h1.pws, ?_, h.recs⟩
    intro k l hkl ha
    rcases mem_putLocks hkl with hkl | ⟨d, hd, e⟩
    · exact h.locks k l hkl ha
    · cases e
      obtain ⟨h2, h3, e, h4, h5, h6⟩ := hp.pend (Or.inr hph) d hd (Or.inr ha)
      refine ⟨hp.dpess d hd, h2, ?_⟩
      intro r hr got snap hrp hsel hg
      have h7 := h6 r hr hsel
      rw [hrp] at h7
      exact h7 hg

theorem finish_inv {s : Sys} (h : Inv s) {i : Nat} {p : Pw} (hi : s.pws[i]? = some p)
    (hph : p.phase = .applied ∨ p.phase = .failed) : Inv (finish s i p) := by
  have hp := h.pws p (List.mem_of_getElem? hi)
  have hne : p.phase ≠ .ended := by rcases hph with e | e <;> rw [e] <;> decide
  have keep : ∀ (k : Key) (a : Nat) (x : Entry), (k, a) ∈ s.table → s.entries[a]? = some x →
      (p.req.muts.map Mut.key).contains k = false →
      (s.entries.mapIdx (fun e x =>
        if s.table.any (fun t => (p.req.muts.map Mut.key).contains t.1 && t.2 == e) then
          { x with deleted := true } else x))[a]? = some x := by
    intro k a x hka hx hk
    rw [List.getElem?_mapIdx, hx]
    simp only [Option.map_some]
    rw [if_neg]
    intro hany
    obtain ⟨⟨k', a'⟩, hmem, hc⟩ := List.any_eq_true.1 hany
    simp only [Bool.and_eq_true, beq_iff_eq] at hc
    obtain ⟨hc, rfl⟩ := hc
    obtain ⟨y, hy, hyk⟩ := h.tbl k' a' hmem
    obtain ⟨z, hz, hzk⟩ := h.tbl k a' hka
    rw [hy] at hz
    cases hz
    rw [← hyk, hzk, hk] at hc
    cases hc
  unfold finish
  rw [hp.svc]
  dsimp only [unlockKeys]
  refine setPw_inv h hi (by rfl) (fun e => absurd rfl e) ?_ ?_ ?_
  · exact ⟨hp.start, hp.svc, hp.muts, hp.todo, hp.dkey, hp.dpess, (fun e => by simp at e), hp.fin,
      (fun e m l e1 => by cases e1)⟩
  · intro j q hji hq
    have hqo := h.pws q (List.mem_of_getElem? hq)
    by_cases hqe : q.phase = .ended
    · refine ⟨hqo.start, hqo.svc, hqo.muts, hqo.todo, hqo.dkey, hqo.dpess, ?_, hqo.fin, ?_⟩
      · intro e; rw [hqe] at e; simp at e
      · intro e m l e1; rw [hqe] at e1; cases e1
    · have hd := h.disj j i q p hji hq hi hqe hne
      have hnot : ∀ m ∈ q.req.muts, (p.req.muts.map Mut.key).contains m.key = false := by
        intro m hm
        rw [Bool.eq_false_iff]
        intro hc
        obtain ⟨m', hm', hk⟩ := List.mem_map.1 (List.contains_iff_mem.1 hc)
        exact hd m hm m' hm' hk.symm
      refine ⟨hqo.start, hqo.svc, hqo.muts, hqo.todo, hqo.dkey, hqo.dpess, ?_, hqo.fin, ?_⟩
      · intro hpp d hdd hc
        obtain ⟨h1, h2, a, h3, h4, h5⟩ := hqo.pend hpp d hdd hc
        obtain ⟨m', hm', hk⟩ := hqo.dkey d hdd
        have hn := hnot m' hm'
        rw [hk] at hn
        exact ⟨h1, h2, a, List.mem_filter.2 ⟨h3, by simp only [hn]; rfl⟩, keep _ _ _ h3 h4 hn, h5⟩
      · intro a m' l hr hc
        obtain ⟨h1, h2, h3, h4, h5, h6, h7, h8⟩ := hqo.cur a m' l hr hc
        have hn := hnot m' h7
        exact ⟨List.mem_filter.2 ⟨h1, by simp only [hn]; rfl⟩, keep _ _ _ h1 h2 hn, h3, h4, h5, h6,
          h7, h8⟩
  · intro k a hka
    obtain ⟨hka, hk⟩ := List.mem_filter.1 hka
    obtain ⟨y, hy, hyk⟩ := h.tbl k a hka
    exact ⟨y, keep k a y hka hy (by simpa using hk), hyk⟩

theorem pwStep_inv {s : Sys} (h : Inv s) {i : Nat} {p : Pw} (hi : s.pws[i]? = some p) (ev : Ev) :
    Inv (pwStep s i p ev) := by
  have hp := h.pws p (List.mem_of_getElem? hi)
  unfold pwStep
  split
  · split
    · rename_i h1 h2 h3
      exact next_inv h hi h1 h2 h3
    · exact h
  · split
    · rename_i h1 h2
      exact fix_inv h hi h1 h2
    · exact h
  · split
    · rename_i h1 h2 h3
      exact setPw_inv' h hi (by rfl) (fun _ => by rw [h1]; decide) (hp.phase (fun _ => h1))
    · exact h
  · split
    · rename_i h1
      exact apply_inv h hi h1
    · exact h
  · split
    · rename_i h1
      exact setPw_inv' h hi (by rfl) (fun _ => by rw [h1]; decide) (hp.phase (by simp))
    · exact h
  · split
    · rename_i h1 h2
      exact setPw_inv' h hi (by rfl) (fun _ => by rw [h1]; decide) (hp.phase (by simp))
    · exact h
  · split
    · rename_i h1
      exact finish_inv h hi (Or.inl h1)
    · rename_i h1
      exact finish_inv h hi (Or.inr h1)
    · exact h
  · exact h

theorem free_disj {s : Sys} (h : Inv s) {r : Req} (hr : r.svc = .store)
    (hf : free s (latches r) = true) {q : Pw} (hq : q ∈ s.pws) (hqe : q.phase ≠ .ended) :
    ∀ m ∈ r.muts, ∀ m' ∈ q.req.muts, m.key ≠ m'.key := by
  intro m hm m' hm' hk
  have h1 := List.all_eq_true.1 hf q hq
  simp only [Bool.or_eq_true, decide_eq_true_eq] at h1
  rcases h1 with h1 | h1
  · exact hqe h1
  · have h2 := List.all_eq_true.1 h1 (latchOf q.req.svc m') (List.mem_map.2 ⟨m', hm', rfl⟩)
    have h3 : latchOf q.req.svc m' ∈ latches r := by
      refine List.mem_map.2 ⟨m, hm, ?_⟩
      rw [hr, (h.pws q hq).svc]
      simp [latchOf, hk]
    have h4 := List.contains_iff_mem.2 h3
    rw [h4] at h2
    cases h2

theorem endReader_served {r x : Reader} (hx : endReader x = r) {got snap}
    (hr : r.phase = .served got snap) : x = r := by
  unfold endReader at hx
  split at hx
  · exact hx
  · exact hx
  · subst hx; cases hr

theorem started_endReader {x : Reader} (h : started (endReader x)) :
    ∃ got snap, x.phase = .served got snap ∧ endReader x = x := by
  unfold endReader at h ⊢
  split at h
  · rename_i got snap hp
    exact ⟨got, snap, hp, rfl⟩
  · rename_i e hp
    unfold started at h
    rw [hp] at h
    cases h
  · cases h

theorem moveReader_served {r x : Reader} (hx : moveReader x = r) {got snap}
    (hr : r.phase = .served got snap) : x = r := by
  unfold moveReader at hx
  split at hx
  · subst hx; cases hr
  · subst hx; cases hr
  · subst hx; cases hr
  · exact hx

theorem started_moveReader {x : Reader} (h : started (moveReader x)) :
    (moveReader x).ts = x.ts ∧
      ((∃ got snap, x.phase = .served got snap) ∨ ∃ l, x.phase = .checking l) := by
  cases hp : x.phase <;> simp [moveReader, started, hp] at h ⊢

theorem step_inv {s : Sys} (h : Inv s) {ev : Ev} (hok : okEv s ev = true) : Inv (step s ev) := by
  have hlocks : ∀ locks' : List (Key × Lock),
      (∀ k l, (k, l) ∈ locks' → l.async = true → (k, l) ∈ s.locks ∨
        ∃ l0, (k, l0) ∈ s.locks ∧ l0.async = true ∧ l.pess = l0.pess ∧ l.ts = l0.ts ∧ l.fut = l0.fut
          ∧ l0.min ≤ l.min) → Inv { s with locks := locks' } := by
    intro locks' hl
    refine ⟨h.low, h.disj, h.tbl, h.pws, ?_, h.recs⟩
    intro k l hkl ha
    rcases hl k l hkl ha with h1 | ⟨l0, h1, h2, h3, h4, h5, h6⟩
    · exact h.locks k l h1 ha
    · obtain ⟨g1, ⟨g2, g3, g4⟩, g5⟩ := h.locks k l0 h1 h2
      refine ⟨by rw [h3]; exact g1, ⟨by omega, by omega, by omega⟩, ?_⟩
      intro r hr got snap hrp hsel hg
      rcases g5 r hr got snap hrp hsel hg with hc | hc
      · exact Or.inl (by omega)
      · exact Or.inr (by rw [h4]; exact hc)
  unfold step
  split
  · exact maxTs_inv h (raiseMax_le _ _ _)
  · refine ⟨?_, h.disj, h.tbl, ?_, ?_, ?_⟩
    · intro x hx hst
      rcases List.mem_append.1 hx with hx | hx
      · exact h.low x hx hst
      · rw [List.mem_singleton.1 hx] at hst; cases hst
    · intro p hp
      refine (h.pws p hp).readers ?_
      intro e k l _ _ _ h4 x hx
      rcases List.mem_append.1 hx with hx | hx
      · exact h4 x hx
      · rw [List.mem_singleton.1 hx]; intro _; trivial
    · intro k l hkl ha
      obtain ⟨h1, h2, h3⟩ := h.locks k l hkl ha
      refine ⟨h1, h2, ?_⟩
      intro x hx got snap hph
      rcases List.mem_append.1 hx with hx | hx
      · exact h3 x hx got snap hph
      · rw [List.mem_singleton.1 hx] at hph; cases hph
    · intro x hx got snap hph
      rcases List.mem_append.1 hx with hx | hx
      · exact h.recs x hx got snap hph
      · rw [List.mem_singleton.1 hx] at hph; cases hph
  iterate 5
    split
    · exact h
    · rename_i r hr
      exact readerStep_inv h hr _
  · split
    · rename_i r hc
      simp only [okEv, Bool.and_eq_true, decide_eq_true_eq] at hok
      obtain ⟨⟨ho1, ho2⟩, ho3⟩ := hok
      refine ⟨h.low, ?_, h.tbl, ?_, h.locks, h.recs⟩
      · intro a b x y hab hx hy hxe hye m hm m' hm'
        rw [List.getElem?_append] at hx hy
        split at hx
        · split at hy
          · exact h.disj a b x y hab hx hy hxe hye m hm m' hm'
          · have hy' := List.mem_of_getElem? hy
            rw [List.mem_singleton.1 hy'] at hm'
            exact fun e => free_disj h ho1 hc.2 (List.mem_of_getElem? hx) hxe m' hm' m hm e.symm
        · have hx' := List.mem_of_getElem? hx
          rw [List.mem_singleton.1 hx'] at hm
          split at hy
          · exact free_disj h ho1 hc.2 (List.mem_of_getElem? hy) hye m hm m' hm'
          · have h1 := (List.getElem?_eq_some_iff.1 hx).1
            have h2 := (List.getElem?_eq_some_iff.1 hy).1
            simp only [List.length_singleton] at h1 h2
            exact absurd (by omega) hab
      · intro p hp
        rcases List.mem_append.1 hp with hp | hp
        · exact h.pws p hp
        · rw [List.mem_singleton.1 hp]
          refine ⟨ho2, ho1, ?_, fun m hm => hm, ?_, ?_, ?_, ?_, ?_⟩
          · intro m hm hpm
            have := List.all_eq_true.1 ho3 m hm
            rw [hpm] at this
            simpa using this
          · intro d hd; cases hd
          · intro d hd; cases hd
          · intro _ d hd; cases hd
          · intro _ d hd; cases hd
          · intro e m l _ hcc; cases hcc
    · exact h
  iterate 7
    split
    · exact h
    · rename_i p hp
      exact pwStep_inv h hp _
  · split
    · split
      · refine hlocks _ ?_
        intro k l hkl ha
        rcases mem_assign.1 hkl with e | ⟨hkl, _⟩
        · cases e; cases ha
        · exact Or.inl hkl
      · rename_i l0 hl0
        split
        · rename_i hc
          refine hlocks _ ?_
          intro k l hkl ha
          rcases mem_assign.1 hkl with e | ⟨hkl, _⟩
          · cases e
            exfalso
            have := (h.locks _ _ (lookup_mem hl0) ha).1
            rw [this] at hc
            exact absurd hc.2 (by decide)
          · exact Or.inl hkl
        · exact h
    · exact h
  · split
    · exact h
    · rename_i k start commit _ l hl
      split
      · rename_i hc
        obtain ⟨hc1, hc2, hc3, hc4⟩ := hc
        have h0 := hlocks (erase s.locks k) (fun k l hkl _ => Or.inl (mem_erase.1 hkl).1)
        refine ⟨h0.low, h0.disj, h0.tbl, h0.pws, h0.locks, ?_⟩
        intro r hr got snap hrp
        obtain ⟨ha, hb⟩ := h.recs r hr got snap hrp
        refine ⟨fun w hw => List.mem_append_left _ (ha w hw), ?_⟩
        intro w hw hch hsel hg
        rcases List.mem_append.1 hw with hw | hw
        · exact hb w hw hch hsel hg
        · have hw' := List.mem_singleton.1 hw
          subst hw'
          rcases (h.locks k l (lookup_mem hl) hch).2.2 r hr got snap hrp hsel hg with h1 | h1
          · exact Or.inr (Or.inl (by dsimp only; omega))
          · rw [hc1] at h1; exact Or.inr (Or.inr h1)
      · exact h
  · split
    · exact h
    · split
      · exact hlocks _ (fun k l hkl _ => Or.inl (mem_erase.1 hkl).1)
      · exact h
  · split
    · have hI : ∀ LL t, Inv { s with locks := LL } →
          Inv { s with maxTs := raiseMax s.maxTs s.leader t, locks := LL } := fun LL t h' =>
        maxTs_inv h' (raiseMax_le _ _ _)
      refine hI _ _ (hlocks _ ?_)
      intro k l hkl ha
      split at hkl
      · exact Or.inl hkl
      · rename_i l0 hl0
        split at hkl
        · rename_i hc
          rcases mem_assign.1 hkl with e | ⟨hkl, _⟩
          · cases e
            exact Or.inr ⟨l0, lookup_mem hl0, ha, rfl, rfl, rfl, by dsimp only; omega⟩
          · exact Or.inl hkl
        · exact Or.inl hkl
    · exact h
  · rename_i n
    refine ⟨?_, ?_, ?_, ?_, ?_, ?_⟩
    · intro r hr hst
      obtain ⟨x, hx, rfl⟩ := List.mem_map.1 hr
      obtain ⟨got, snap, hp, he⟩ := started_endReader hst
      have := List.all_eq_true.1 hok x hx
      rw [hp] at this
      rw [he]
      exact of_decide_eq_true this
    · intro a b x y hab hx hy hxe
      rw [List.getElem?_map] at hx
      obtain ⟨x0, _, rfl⟩ := Option.map_eq_some_iff.1 hx
      exact absurd rfl hxe
    · intro k e hke; cases hke
    · intro p hp
      obtain ⟨q, hq, rfl⟩ := List.mem_map.1 hp
      have hqo := h.pws q hq
      exact ⟨hqo.start, hqo.svc, hqo.muts, hqo.todo, hqo.dkey, hqo.dpess,
        (fun e => by simp at e), hqo.fin, (fun e m l e1 => by cases e1)⟩
    · intro k l hkl ha
      obtain ⟨h1, h2, h3⟩ := h.locks k l hkl ha
      refine ⟨h1, h2, ?_⟩
      intro r hr got snap hrp
      obtain ⟨x, hx, he⟩ := List.mem_map.1 hr
      have := endReader_served he hrp
      subst this
      exact h3 x hx got snap hrp
    · intro r hr got snap hrp
      obtain ⟨x, hx, he⟩ := List.mem_map.1 hr
      have := endReader_served he hrp
      subst this
      exact h.recs x hx got snap hrp
  · exact maxTs_inv h (raiseMax_le _ _ _)
  · rename_i n
    refine ⟨?_, ?_, ?_, ?_, ?_, ?_⟩
    · intro r hr hst
      obtain ⟨x, hx, rfl⟩ := List.mem_map.1 hr
      obtain ⟨hts, hp⟩ := started_moveReader hst
      have := List.all_eq_true.1 hok x hx
      rw [hts]
      rcases hp with ⟨got, snap, hp⟩ | ⟨l, hp⟩
      · rw [hp] at this
        exact of_decide_eq_true this
      · rw [hp] at this
        exact of_decide_eq_true this
    · intro a b x y hab hx hy hxe
      rw [List.getElem?_map] at hx
      obtain ⟨x0, _, rfl⟩ := Option.map_eq_some_iff.1 hx
      exact absurd rfl hxe
    · intro k e hke; cases hke
    · intro p hp
      obtain ⟨q, hq, rfl⟩ := List.mem_map.1 hp
      have hqo := h.pws q hq
      exact ⟨hqo.start, hqo.svc, hqo.muts, hqo.todo, hqo.dkey, hqo.dpess,
        (fun e => by simp at e), hqo.fin, (fun e m l e1 => by cases e1)⟩
    · intro k l hkl ha
      obtain ⟨h1, h2, h3⟩ := h.locks k l hkl ha
      refine ⟨h1, h2, ?_⟩
      intro r hr got snap hrp
      obtain ⟨x, hx, he⟩ := List.mem_map.1 hr
      have := moveReader_served he hrp
      subst this
      exact h3 x hx got snap hrp
    · intro r hr got snap hrp
      obtain ⟨x, hx, he⟩ := List.mem_map.1 hr
      have := moveReader_served he hrp
      subst this
      exact h.recs x hx got snap hrp

theorem run_inv {s : Sys} (h : Inv s) {evs : List Ev} (hok : okRun s evs = true) :
    Inv (run s evs) := by
  induction evs generalizing s with
  | nil => exact h
  | cons e es ih =>
    simp only [okRun, Bool.and_eq_true] at hok
    exact ih (step_inv h hok.1) hok.2

end Verif.MemLock
