import Verif.MetaWatch.Lemmas

/-! Watches of metadata changes when records are trimmed: helper lemmas and the claim. -/

namespace Verif.MetaWatch

theorem lookup_ne {l : List Rec} {r : Nat} (h : ∀ x ∈ l, r < x.1) : l.lookup r = none := by
  induction l with
  | nil => rfl
  | cons a l ih =>
    obtain ⟨k, v⟩ := a
    have h1 := h _ List.mem_cons_self
    have hk : (r == k) = false := by
      simp only [beq_eq_false_iff_ne, ne_eq]
      dsimp only at h1
      omega
    simp only [List.lookup, hk]
    exact ih fun x hx => h x (List.mem_cons_of_mem _ hx)

theorem lookup_drop {l : List Rec} (h : l.Pairwise fun a b => a.1 < b.1) (n r : Nat) :
    (l.drop n).lookup r = none ∨ (l.drop n).lookup r = l.lookup r := by
  induction l generalizing n with
  | nil => left; simp
  | cons a l ih =>
    cases n with
    | zero => right; rfl
    | succ n =>
      obtain ⟨k, v⟩ := a
      rw [List.pairwise_cons] at h
      rw [List.drop_succ_cons]
      by_cases hk : r = k
      · left
        apply lookup_ne
        intro x hx
        have := h.1 x (List.mem_of_mem_drop hx)
        dsimp only at this
        omega
      · have : (r == k) = false := by simpa using hk
        simp only [List.lookup, this]
        exact ih h.2 n

/-- Kept revisions, looked up in what is left of the record, give at most their events. -/
theorem gather_sub {log : List Rec} {types : List Nat} :
    ∀ {K : List Rec}, (∀ k ∈ K, log.lookup k.1 = none ∨ log.lookup k.1 = some k.2) →
      (gather log types (K.map (·.1))).Sublist (matching types K)
  | [], _ => List.Sublist.refl _
  | k :: K, h => by
    have h1 := gather_sub (log := log) (types := types) (K := K)
      fun x hx => h x (List.mem_cons_of_mem _ hx)
    have h2 : matching types (k :: K) = matching types [k] ++ matching types K := by
      simp [matching]
    have h3 : gather log types ((k :: K).map (·.1)) =
        gather log types [k.1] ++ gather log types (K.map (·.1)) := by
      rw [← gather_append]
      rfl
    rw [h2, h3]
    refine List.Sublist.append ?_ h1
    rcases h k List.mem_cons_self with hk | hk
    · have : gather log types [k.1] = [] := by simp [gather, hk]
      rw [this]
      exact List.nil_sublist _
    · rw [gather_one hk]
      exact List.Sublist.refl _

/-- What holds when records may be trimmed: `K` are the changes kept back. -/
structure Inv2 (s : St) (K : List Rec) (D : List (Nat × Nat)) : Prop where
  over : s.phase = .done
  kept : s.pending = K.map (·.1)
  look : ∀ k ∈ K ++ s.busy.toList, s.log.lookup k.1 = none ∨ s.log.lookup k.1 = some k.2
  asc : s.log.Pairwise fun a b => a.1 < b.1
  sub : (delivered s ++ matching s.types (K ++ s.busy.toList)).Sublist D

theorem Inv2.step {s t : St} {K : List Rec} {D : List (Nat × Nat)} {o : Op} (h : Inv2 s K D)
    (hs : step s o = some t)
    (hp : ∀ rev evs, o = .put rev evs → ∀ k ∈ K, k.1 < rev) :
    ∃ K', Inv2 t K' (D ++ matching s.types (puts [o])) ∧ t.types = s.types ∧
      ∀ k ∈ K', k ∈ K ∨ s.busy = some k := by
  have hnil : ∀ o : Op, puts [o] = [] → D ++ matching s.types (puts [o]) = D := by
    intro o ho
    rw [ho]
    simp [matching]
  cases o with
  | put rev evs =>
    simp only [MetaWatch.step] at hs
    split at hs
    · rename_i hc
      simp only [Bool.and_eq_true, decide_eq_true_eq] at hc
      cases hs
      have hb : s.busy = none := by
        cases hb : s.busy with
        | none => rfl
        | some b => simp [hb] at hc
      have hall := hc.1.2
      have hf := lookup_fresh hall
      refine ⟨K, ⟨h.over, h.kept, ?_, ?_, ?_⟩, rfl, fun k hk => Or.inl hk⟩
      · intro k hk
        rcases List.mem_append.mp hk with hk | hk
        · have h1 := h.look k (List.mem_append_left _ hk)
          have h2 : (s.log ++ [(rev, evs)]).lookup k.1 = s.log.lookup k.1 := by
            rw [List.lookup_append]
            have h3 : ([(rev, evs)] : List Rec).lookup k.1 = none := by
              apply lookup_ne
              intro x hx
              rw [List.mem_singleton.mp hx]
              exact hp rev evs rfl k hk
            rw [h3]
            simp
          rw [h2]
          exact h1
        · simp only [Option.toList, List.mem_singleton] at hk
          subst hk
          exact Or.inr (lookup_last hf)
      · show (s.log ++ [(rev, evs)]).Pairwise _
        rw [List.pairwise_append]
        refine ⟨h.asc, List.pairwise_singleton _ _, ?_⟩
        intro a ha b hb'
        rw [List.mem_singleton.mp hb']
        simp only [List.all_eq_true, decide_eq_true_eq] at hall
        exact hall a ha
      · have h1 := h.sub
        rw [hb] at h1
        show (delivered s ++ matching s.types (K ++ [(rev, evs)])).Sublist _
        rw [matching_append, ← List.append_assoc]
        refine List.Sublist.append ?_ (List.Sublist.refl _)
        simpa using h1
    · cases hs
  | notify =>
    rw [hnil _ rfl]
    simp only [MetaWatch.step] at hs
    cases hb : s.busy with
    | none => simp [hb] at hs
    | some b =>
      obtain ⟨rev, evs⟩ := b
      have hlook := h.look
      have hsub := h.sub
      rw [hb] at hs hlook hsub
      dsimp only [Option.toList] at hs hlook hsub
      have hdrop : (delivered s ++ matching s.types (K ++ [])).Sublist D := by
        refine List.Sublist.trans (List.Sublist.append (List.Sublist.refl _) ?_) hsub
        rw [List.append_nil, matching_append]
        exact List.sublist_append_left _ _
      split at hs
      · split at hs
        · cases hs
          by_cases hlt : s.start < rev
          · rw [if_pos hlt]
            refine ⟨K ++ [(rev, evs)], ⟨h.over, ?_, ?_, h.asc, ?_⟩, rfl, ?_⟩
            · simp [h.kept]
            · intro k hk
              exact hlook k (by simpa using hk)
            · show (delivered s ++ matching s.types (K ++ [(rev, evs)] ++ [])).Sublist D
              rw [List.append_nil]
              exact hsub
            · intro k hk
              rcases List.mem_append.mp hk with hk | hk
              · exact Or.inl hk
              · rw [List.mem_singleton.mp hk]
                exact Or.inr rfl
          · rw [if_neg hlt]
            refine ⟨K, ⟨h.over, h.kept, ?_, h.asc, hdrop⟩, rfl, fun k hk => Or.inl hk⟩
            intro k hk
            exact hlook k (List.mem_append_left _ (by simpa using hk))
        · cases hs
          refine ⟨[], ⟨h.over, rfl, (by intro k hk; cases hk), h.asc, ?_⟩, rfl,
            (by intro k hk; cases hk)⟩
          have h1 : s.pending ++ [rev] = (K ++ [(rev, evs)]).map (·.1) := by simp [h.kept]
          have h2 := gather_sub (types := s.types) hlook
          rw [← h1] at h2
          refine List.Sublist.trans ?_ hsub
          simp only [delivered, List.flatMap_append, List.flatMap_cons, List.flatMap_nil,
            List.append_nil, Option.toList]
          have h3 : matching s.types [] = [] := rfl
          rw [h3, List.append_nil]
          exact List.Sublist.append (List.Sublist.refl _) h2
      · cases hs
        refine ⟨K, ⟨h.over, h.kept, ?_, h.asc, hdrop⟩, rfl, fun k hk => Or.inl hk⟩
        intro k hk
        exact hlook k (List.mem_append_left _ (by simpa using hk))
  | create st ty => simp [MetaWatch.step, h.over] at hs
  | read => simp [MetaWatch.step, h.over] at hs
  | prepend => simp [MetaWatch.step, h.over] at hs
  | ask c =>
    rw [hnil _ rfl]
    simp only [MetaWatch.step] at hs
    split at hs
    · cases hs
      exact ⟨K, ⟨h.over, h.kept, h.look, h.asc, h.sub⟩, rfl, fun k hk => Or.inl hk⟩
    · cases hs
      refine ⟨K, ⟨h.over, h.kept, h.look, h.asc, ?_⟩, rfl, fun k hk => Or.inl hk⟩
      simpa [delivered] using h.sub
  | enter c =>
    rw [hnil _ rfl]
    simp only [MetaWatch.step] at hs
    split at hs
    · split at hs
      · cases hs
        exact ⟨K, ⟨h.over, h.kept, h.look, h.asc, h.sub⟩, rfl, fun k hk => Or.inl hk⟩
      · cases hs
        refine ⟨[], ⟨h.over, rfl, fun k hk => h.look k (List.mem_append_right _ hk), h.asc, ?_⟩,
          rfl, (by intro k hk; cases hk)⟩
        have h2 := gather_sub (types := s.types)
          fun k hk => h.look k (List.mem_append_left s.busy.toList hk)
        rw [← h.kept] at h2
        have h3 := h.sub
        rw [matching_append] at h3
        refine List.Sublist.trans ?_ h3
        simp only [delivered, List.flatMap_append, List.flatMap_cons, List.flatMap_nil,
          List.append_nil, List.nil_append]
        rw [List.append_assoc]
        exact List.Sublist.append (List.Sublist.refl _)
          (List.Sublist.append h2 (List.Sublist.refl _))
    · cases hs
  | idle =>
    rw [hnil _ rfl]
    simp only [MetaWatch.step] at hs
    split at hs
    · cases hs
      refine ⟨[], ⟨h.over, rfl, fun k hk => h.look k (List.mem_append_right _ hk), h.asc, ?_⟩,
        rfl, (by intro k hk; cases hk)⟩
      have h2 := gather_sub (types := s.types)
        fun k hk => h.look k (List.mem_append_left s.busy.toList hk)
      rw [← h.kept] at h2
      have h3 := h.sub
      rw [matching_append] at h3
      refine List.Sublist.trans ?_ h3
      simp only [delivered, List.flatMap_append, List.flatMap_cons, List.flatMap_nil,
        List.append_nil, List.nil_append]
      rw [List.append_assoc]
      exact List.Sublist.append (List.Sublist.refl _)
        (List.Sublist.append h2 (List.Sublist.refl _))
    · cases hs
  | cancel =>
    rw [hnil _ rfl]
    simp only [MetaWatch.step] at hs
    cases hlv : s.live with
    | false => simp [hlv] at hs
    | true =>
      rw [if_pos hlv] at hs
      cases hs
      refine ⟨K, ⟨h.over, h.kept, h.look, h.asc, ?_⟩, rfl, fun k hk => Or.inl hk⟩
      have h1 : delivered (drop s) = delivered s := by
        simp only [delivered, drop, List.flatMap_append]
        split <;> simp
      rw [h1]
      exact h.sub
  | trim n =>
    rw [hnil _ rfl]
    simp only [MetaWatch.step] at hs
    cases hs
    refine ⟨K, ⟨h.over, h.kept, ?_, ?_, h.sub⟩, rfl, fun k hk => Or.inl hk⟩
    · intro k hk
      rcases lookup_drop h.asc n k.1 with h1 | h1
      · exact Or.inl h1
      · show (s.log.drop n).lookup k.1 = none ∨ (s.log.drop n).lookup k.1 = some k.2
        rw [h1]
        exact h.look k hk
    · exact h.asc.sublist (List.drop_sublist _ _)

theorem busy_step {s t : St} {o : Op} (hs : step s o = some t) :
    t.busy = s.busy ∨ t.busy = none ∨ ∃ rev evs, o = .put rev evs ∧ t.busy = some (rev, evs) := by
  cases o <;> simp only [step] at hs <;> (repeat' split at hs) <;>
    first
      | (cases hs; done)
      | (cases hs; simp [drop])

theorem Inv2.run : ∀ {l : List Op} {s t : St} {K : List Rec} {D : List (Nat × Nat)}, Inv2 s K D →
    run s l = some t → (puts l).Pairwise (fun a b => a.1 < b.1) →
    (∀ k ∈ K ++ s.busy.toList, ∀ p ∈ puts l, k.1 < p.1) →
    (delivered t).Sublist (D ++ matching s.types (puts l))
  | [], s, t, K, D, h, hr, _, _ => by
    simp only [MetaWatch.run] at hr
    cases hr
    have h1 : matching s.types (puts []) = [] := rfl
    rw [h1, List.append_nil]
    exact List.Sublist.trans (List.sublist_append_left _ _) h.sub
  | o :: l, s, t, K, D, h, hr, ha, hk => by
    simp only [MetaWatch.run] at hr
    cases hs : MetaWatch.step s o with
    | none => simp [hs] at hr
    | some u =>
      rw [hs] at hr
      dsimp only at hr
      rw [puts_cons] at ha hk ⊢
      rw [List.pairwise_append] at ha
      obtain ⟨K', h1, h2, h3⟩ := h.step hs (fun rev evs he k hm =>
        hk k (List.mem_append_left _ hm) (rev, evs)
          (List.mem_append_left _ (by rw [he]; exact List.mem_cons_self)))
      have hk' : ∀ k ∈ K ++ s.busy.toList, ∀ p ∈ puts l, k.1 < p.1 := fun k hm p hp =>
        hk k hm p (List.mem_append_right _ hp)
      have h4 := Inv2.run (l := l) h1 hr ha.2.1 (by
        intro k hm p hp
        rcases List.mem_append.mp hm with hm | hm
        · rcases h3 k hm with hm | hm
          · exact hk' k (List.mem_append_left _ hm) p hp
          · exact hk' k (List.mem_append_right _ (by rw [hm]; exact List.mem_cons_self)) p hp
        · rcases busy_step hs with hb | hb | ⟨rev, evs, ho, hb⟩
          · rw [hb] at hm
            exact hk' k (List.mem_append_right _ hm) p hp
          · rw [hb] at hm
            cases hm
          · rw [hb] at hm
            have hm' : k = (rev, evs) := by simpa using hm
            subst hm'
            exact ha.2.2 (rev, evs) (by rw [ho]; exact List.mem_cons_self) p hp)
      rw [h2] at h4
      rw [matching_append, ← List.append_assoc]
      exact h4

end Verif.MetaWatch
