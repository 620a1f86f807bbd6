import Verif.MemLock.Own

/-! What a reader that was refused for a memory lock was refused for. -/

namespace Verif.MemLock

/-- Entries are only added, and what a reader can read of one does not change. -/
def Grow (es es' : List Entry) : Prop :=
  ∀ (e : Nat) (x : Entry), es[e]? = some x →
    ∃ y, es'[e]? = some y ∧ y.key = x.key ∧ (x.ready = true → y.ready = true ∧ y.lock = x.lock)

theorem Grow.refl (es : List Entry) : Grow es es := fun _ x h => ⟨x, h, rfl, fun h => ⟨h, rfl⟩⟩

structure Seen (s : Sys) : Prop where
  table : ∀ k e, (k, e) ∈ s.table → ∃ x, s.entries[e]? = some x ∧ x.key = k
  todo : ∀ r ∈ s.readers, ∀ l, r.phase = .checking l → ∀ e ∈ l,
    ∃ x, s.entries[e]? = some x ∧ r.sel x.key = true
  mem : ∀ r ∈ s.readers, ∀ e, r.phase = .memory e → ∃ x, s.entries[e]? = some x ∧
    x.ready = true ∧ r.sel x.key = true ∧ conflict x.lock r.ts r.resolved = true
  cur : ∀ p ∈ s.pws, ∀ e m l, p.phase = .run → p.cur = some (e, m, l) →
    ∃ x, s.entries[e]? = some x ∧ x.ready = false ∧ x.key = m.key

theorem init_seen : Seen init := by
  constructor <;> simp [init]

theorem Seen.grow {s s' : Sys} (h : Seen s) (hg : Grow s.entries s'.entries)
    (hr : s'.readers = s.readers)
    (ht : ∀ k e, (k, e) ∈ s'.table → (k, e) ∈ s.table ∨
      ∃ x, s'.entries[e]? = some x ∧ x.key = k)
    (hc : ∀ p ∈ s'.pws, ∀ e m l, p.phase = .run → p.cur = some (e, m, l) →
      ∃ x, s'.entries[e]? = some x ∧ x.ready = false ∧ x.key = m.key) : Seen s' := by
  refine ⟨?_, ?_, ?_, hc⟩
  · intro k e hke
    rcases ht k e hke with h1 | h1
    · obtain ⟨x, hx, hk⟩ := h.table k e h1
      obtain ⟨y, hy, hyk, _⟩ := hg e x hx
      exact ⟨y, hy, hyk.trans hk⟩
    · exact h1
  · rw [hr]
    intro r hrm l hp e he
    obtain ⟨x, hx, hk⟩ := h.todo r hrm l hp e he
    obtain ⟨y, hy, hyk, _⟩ := hg e x hx
    exact ⟨y, hy, by rw [hyk]; exact hk⟩
  · rw [hr]
    intro r hrm e hp
    obtain ⟨x, hx, h1, h2, h3⟩ := h.mem r hrm e hp
    obtain ⟨y, hy, hyk, h4⟩ := hg e x hx
    obtain ⟨h5, h6⟩ := h4 h1
    exact ⟨y, hy, h5, by rw [hyk]; exact h2, by rw [h6]; exact h3⟩

/-- One prewrite moves without taking an entry. -/
theorem setPw_seen {s : Sys} (h : Seen s) {i : Nat} {p p' : Pw} (hi : s.pws[i]? = some p)
    (hc : p'.phase = .run → p'.cur ≠ none → p'.cur = p.cur ∧ p.phase = .run) :
    Seen { s with pws := s.pws.set i p' } := by
  refine h.grow (Grow.refl _) rfl (fun k e hke => Or.inl hke) ?_
  intro q hq e m l hr hcc
  rcases mem_set hq with hq | rfl
  · exact h.cur q hq e m l hr hcc
  · obtain ⟨h1, h2⟩ := hc hr (by rw [hcc]; simp)
    exact h.cur p (List.mem_of_getElem? hi) e m l h2 (h1 ▸ hcc)

theorem next_seen {s : Sys} (h : Seen s) {i : Nat} {p : Pw} {m : Mut} {rest : List Mut}
    (hi : s.pws[i]? = some p) (hcur : p.cur = none) :
    Seen (next s i p m rest) := by
  have hno : ∀ q : Pw, q.cur = none → Seen { s with pws := s.pws.set i q } := fun q hq =>
    setPw_seen h hi (fun _ e => absurd hq e)
  unfold next
  dsimp only
  split
  · exact hno _ hcur
  · exact hno _ hcur
  · split
    · exact hno _ hcur
    · split
      · have hg : Grow s.entries (s.entries ++
            [⟨m.key, build p.req p.async (lookup s.locks m.key), false, false⟩]) := by
          intro e x hx
          refine ⟨x, ?_, rfl, fun h => ⟨h, rfl⟩⟩
          rw [List.getElem?_append_left (List.getElem?_eq_some_iff.1 hx).1]
          exact hx
        refine h.grow hg rfl ?_ ?_
        · intro k e hke
          rcases mem_assign.1 hke with he | ⟨hke, _⟩
          · cases he
            exact Or.inr ⟨_, by rw [List.getElem?_append_right (Nat.le_refl _)]; simp; rfl, rfl⟩
          · exact Or.inl hke
        · intro q hq e m' l hr hcc
          rcases mem_set hq with hq | rfl
          · obtain ⟨x, hx, h1, h2⟩ := h.cur q hq e m' l hr hcc
            refine ⟨x, ?_, h1, h2⟩
            dsimp only
            rw [List.getElem?_append_left (List.getElem?_eq_some_iff.1 hx).1]
            exact hx
          · cases hcc
            exact ⟨_, by rw [List.getElem?_append_right (Nat.le_refl _)]; simp; rfl, rfl, rfl⟩
      · exact hno _ hcur

/-- The shape of `fix`: one entry becomes readable, one prewrite moves on. -/
theorem fix_shape (s : Sys) (i : Nat) (p : Pw) (e : Nat) (m : Mut) (l : Lock) :
    ∃ x p', x.ready = true ∧ x.key = m.key ∧ p'.cur = none ∧
      fix s i p e m l = { s with entries := s.entries.set e x, pws := s.pws.set i p' } := by
  unfold fix
  dsimp only
  generalize max (s.maxTs s.leader) (max p.req.start (m.fut.getD 0)) + 1 = mc
  generalize (if p.req.max ≠ 0 ∧ mc > p.req.max then (0 : Int) else max mc l.min) = fin
  by_cases hz : fin = 0
  · rw [if_pos hz]; exact ⟨_, _, rfl, rfl, rfl, rfl⟩
  · rw [if_neg hz]; exact ⟨_, _, rfl, rfl, rfl, rfl⟩

theorem fix_seen {s : Sys} (h : Seen s) (ho : Own s) {i : Nat} {p : Pw} {e : Nat} {m : Mut}
    {l : Lock} (hi : s.pws[i]? = some p) (hph : p.phase = .run) (hcur : p.cur = some (e, m, l)) :
    Seen (fix s i p e m l) := by
  obtain ⟨x, p', hx1, hx2, hp', hf⟩ := fix_shape s i p e m l
  rw [hf]
  have hpm := List.mem_of_getElem? hi
  obtain ⟨y, hy, hy1, hy2⟩ := h.cur p hpm e m l hph hcur
  have hm := ((ho.pws p hpm).cur e m l hph hcur).1
  refine h.grow ?_ rfl (fun k e hke => Or.inl hke) ?_
  · intro a z hz
    dsimp only
    rw [List.getElem?_set]
    by_cases hae : e = a
    · subst hae
      rw [if_pos rfl, if_pos (List.getElem?_eq_some_iff.1 hy).1]
      rw [hy] at hz
      cases hz
      exact ⟨x, rfl, hx2.trans hy2.symm, fun hr => by rw [hy1] at hr; cases hr⟩
    · rw [if_neg hae]
      exact ⟨z, hz, rfl, fun h => ⟨h, rfl⟩⟩
  · intro q hq a m' l' hr hcc
    obtain ⟨j, hj⟩ := List.mem_iff_getElem?.1 hq
    rcases getElem?_set_some hj with ⟨rfl, rfl⟩ | ⟨hji, hj⟩
    · rw [hp'] at hcc; cases hcc
    · obtain ⟨z, hz, hz1, hz2⟩ := h.cur q (List.mem_of_getElem? hj) a m' l' hr hcc
      have hm' := ((ho.pws q (List.mem_of_getElem? hj)).cur a m' l' hr hcc).1
      refine ⟨z, ?_, hz1, hz2⟩
      dsimp only
      rw [List.getElem?_set]
      by_cases hae : e = a
      · subst hae
        rw [hy] at hz
        cases hz
        exact absurd (hz2.symm.trans hy2)
          (ho.disj j i q p hji hj hi (by rw [hr]; decide) (by rw [hph]; decide) m' hm' m hm)
      · rw [if_neg hae]; exact hz

theorem pwStep_seen {s : Sys} (h : Seen s) (ho : Own s) {i : Nat} {p : Pw}
    (hi : s.pws[i]? = some p) (ev : Ev) : Seen (pwStep s i p ev) := by
  have hne : ∀ q : Pw, q.phase ≠ .run → Seen { s with pws := s.pws.set i q } := fun q hq =>
    setPw_seen h hi (fun e => absurd e hq)
  have hfin : Seen (finish s i p) := by
    unfold finish
    split
    · unfold unlockKeys
      refine h.grow ?_ rfl (fun k e hke => Or.inl (List.mem_filter.1 hke).1) ?_
      · intro e x hx
        dsimp only
        rw [List.getElem?_mapIdx, hx]
        refine ⟨_, rfl, ?_, ?_⟩
        · split <;> rfl
        · intro hr; split <;> exact ⟨hr, rfl⟩
      · intro q hq e m l hr hcc
        rcases mem_set hq with hq | rfl
        · obtain ⟨x, hx, h1, h2⟩ := h.cur q hq e m l hr hcc
          dsimp only
          rw [List.getElem?_mapIdx, hx]
          refine ⟨_, rfl, ?_, ?_⟩ <;> split <;> assumption
        · cases hr
    · exact hne _ (by simp)
  unfold pwStep
  split
  · split
    · rename_i h1 h2 h3
      exact next_seen h hi h2
    · exact h
  · split
    · rename_i h1 h2
      exact fix_seen h ho hi h1 h2
    · exact h
  · split
    · exact hne _ (by simp)
    · exact h
  · split
    · have hap : ∀ locks ws, Seen { s with
          locks := locks, writes := ws, pws := s.pws.set i { p with phase := .applied } } :=
        fun _ _ => let g := hne { p with phase := .applied } (by simp); ⟨g.table, g.todo, g.mem, g.cur⟩
      unfold apply
      dsimp only
      split
      · exact hap _ _
      · exact hap _ s.writes
    · exact h
  · split
    · exact hne _ (by simp)
    · exact h
  · split
    · exact hne _ (by simp)
    · exact h
  · split
    · exact hfin
    · exact hfin
    · exact h
  · exact h

theorem setPhase_seen {s : Sys} (h : Seen s) {i : Nat} {r : Reader} {ph : RPhase}
    (h1 : ∀ l, ph = .checking l → ∀ e ∈ l, ∃ x, s.entries[e]? = some x ∧ r.sel x.key = true)
    (h2 : ∀ e, ph = .memory e → ∃ x, s.entries[e]? = some x ∧
      x.ready = true ∧ r.sel x.key = true ∧ conflict x.lock r.ts r.resolved = true) :
    Seen (setPhase s i r ph) := by
  refine ⟨h.table, ?_, ?_, h.cur⟩
  · intro x hx l hp
    rcases mem_set hx with hx | rfl
    · exact h.todo x hx l hp
    · exact h1 l hp
  · intro x hx e hp
    rcases mem_set hx with hx | rfl
    · exact h.mem x hx e hp
    · exact h2 e hp

theorem readerStep_seen {s : Sys} (h : Seen s) {i : Nat} {r : Reader}
    (hi : s.readers[i]? = some r) (ev : Ev) : Seen (readerStep s i r ev) := by
  have hm : r ∈ s.readers := List.mem_of_getElem? hi
  unfold readerStep
  split
  · split
    · exact setPhase_seen (s := { s with maxTs := raiseMax s.maxTs s.leader r.ts })
        ⟨h.table, h.todo, h.mem, h.cur⟩ (fun _ e => by cases e) (fun _ e => by cases e)
    · exact h
  · split
    · refine setPhase_seen h ?_ (fun _ e => by cases e)
      intro l e a ha
      cases e
      obtain ⟨⟨k, b⟩, hk, rfl⟩ := List.mem_map.1 ha
      obtain ⟨hk, hsel⟩ := List.mem_filter.1 hk
      obtain ⟨x, hx, hxk⟩ := h.table k b hk
      exact ⟨x, hx, by rw [hxk]; exact hsel⟩
    · exact h
  · split
    · rename_i e rest hph
      have hrest : ∀ a ∈ rest, ∃ x, s.entries[a]? = some x ∧ r.sel x.key = true := fun a ha =>
        h.todo r hm _ hph a (List.mem_cons_of_mem _ ha)
      split
      · exact h
      · rename_i x hx
        split
        · exact setPhase_seen h (fun l e => by cases e; exact hrest) (fun _ e => by cases e)
        · split
          · exact h
          · rename_i hready
            split
            · rename_i hcf
              refine setPhase_seen h (fun l e => by cases e) ?_
              intro a ea
              cases ea
              obtain ⟨y, hy, hsel⟩ := h.todo r hm _ hph e List.mem_cons_self
              rw [hx] at hy
              cases hy
              exact ⟨x, hx, by simpa using hready, hsel, hcf⟩
            · exact setPhase_seen h (fun l e => by cases e; exact hrest) (fun _ e => by cases e)
    · exact h
  · split
    · split
      · exact setPhase_seen h (fun _ e => by cases e) (fun _ e => by cases e)
      · exact setPhase_seen h (fun _ e => by cases e) (fun _ e => by cases e)
    · exact h
  · split
    · exact h
    · exact h
    · exact setPhase_seen h (fun _ e => by cases e) (fun _ e => by cases e)
  · exact h

theorem step_seen {s : Sys} (h : Seen s) (ho : Own s) (ev : Ev) : Seen (step s ev) := by
  unfold step
  split
  · exact ⟨h.table, h.todo, h.mem, h.cur⟩
  · refine ⟨h.table, ?_, ?_, h.cur⟩
    · intro x hx l hp
      rcases List.mem_append.1 hx with hx | hx
      · exact h.todo x hx l hp
      · rw [List.mem_singleton.1 hx] at hp; cases hp
    · intro x hx l hp
      rcases List.mem_append.1 hx with hx | hx
      · exact h.mem x hx l hp
      · rw [List.mem_singleton.1 hx] at hp; cases hp
  iterate 5
    split
    · exact h
    · rename_i r hr
      exact readerStep_seen h hr _
  · split
    · refine ⟨h.table, h.todo, h.mem, ?_⟩
      intro p hp e m l hr hc
      rcases List.mem_append.1 hp with hp | hp
      · exact h.cur p hp e m l hr hc
      · rw [List.mem_singleton.1 hp] at hc; cases hc
    · exact h
  iterate 7
    split
    · exact h
    · rename_i p hp
      exact pwStep_seen h ho hp _
  · repeat' split
    all_goals exact ⟨h.table, h.todo, h.mem, h.cur⟩
  · repeat' split
    all_goals exact ⟨h.table, h.todo, h.mem, h.cur⟩
  · repeat' split
    all_goals exact ⟨h.table, h.todo, h.mem, h.cur⟩
  · repeat' split
    all_goals exact ⟨h.table, h.todo, h.mem, h.cur⟩
  · have hend : ∀ (x : Reader) (ph : RPhase), (endReader x).phase = ph →
        (∀ e, ph = .memory e → endReader x = x) ∧ (∀ l, ph ≠ .checking l) := by
      intro x ph hp
      unfold endReader at hp ⊢
      split at hp
      · rename_i g sn hq
        exact ⟨fun _ _ => rfl, fun l e => by rw [e, hq] at hp; cases hp⟩
      · rename_i e hq
        exact ⟨fun _ _ => rfl, fun l e => by rw [e, hq] at hp; cases hp⟩
      · exact ⟨(fun _ e => by rw [e] at hp; cases hp), (fun l e => by rw [e] at hp; cases hp)⟩
    refine ⟨?_, ?_, ?_, ?_⟩
    · intro k e hke; cases hke
    · intro r hr l hp
      obtain ⟨x, hx, rfl⟩ := List.mem_map.1 hr
      exact absurd rfl ((hend x _ hp).2 l)
    · intro r hr e hp
      obtain ⟨x, hx, rfl⟩ := List.mem_map.1 hr
      have he := (hend x _ hp).1 e rfl
      rw [he] at hp ⊢
      exact h.mem x hx e hp
    · intro p hp e m l hr
      obtain ⟨q, hq, rfl⟩ := List.mem_map.1 hp
      cases hr
  · exact ⟨h.table, h.todo, h.mem, h.cur⟩
  · refine ⟨?_, ?_, ?_, ?_⟩
    · intro k e hke; cases hke
    · intro r hr l hp e he
      obtain ⟨x, hx, rfl⟩ := List.mem_map.1 hr
      exfalso
      cases hq : x.phase <;> simp [moveReader, hq] at hp
      subst hp
      cases he
    · intro r hr e hp
      obtain ⟨x, hx, rfl⟩ := List.mem_map.1 hr
      have hme : x.phase = .memory e ∧ moveReader x = x := by
        cases hq : x.phase <;> simp [moveReader, hq] at hp ⊢
        exact hp
      rw [hme.2]
      exact h.mem x hx e hme.1
    · intro p hp e m l hr
      obtain ⟨q, hq, rfl⟩ := List.mem_map.1 hp
      cases hr

theorem run_seen {s : Sys} (h : Seen s) (ho : Own s) {evs : List Ev} (hok : storeOnly evs = true) :
    Seen (run s evs) := by
  induction evs generalizing s with
  | nil => exact h
  | cons e es ih =>
    simp only [storeOnly, List.all_cons, Bool.and_eq_true] at hok
    exact ih (step_seen h ho e) (step_own ho hok.1) hok.2

end Verif.MemLock
