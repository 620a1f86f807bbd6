import Verif.Pool.Apply

/-!
# C102: the entries of a region's log are applied in order, whatever the other regions do
-/

namespace Verif.Pool

theorem sumBy_append {α : Type} (f : α → Nat) (l l' : List α) : sumBy f (l ++ l') = sumBy f l + sumBy f l' := by
  simp [sumBy]

theorem sumBy_range_succ (f : Nat → Nat) (m : Nat) : sumBy f (List.range (m + 1)) = sumBy f (List.range m) + f m := by
  rw [List.range_succ, sumBy_append, sumBy_cons]
  simp [sumBy]

theorem sumBy_range_eq (f f' : Nat → Nat) (m : Nat) (h : ∀ r, r < m → f' r = f r) :
    sumBy f' (List.range m) = sumBy f (List.range m) := by
  induction m with
  | zero => rfl
  | succ m ih =>
    rw [sumBy_range_succ, sumBy_range_succ, ih fun r hr => h r (by omega), h m (by omega)]

theorem sumBy_range_one (f f' : Nat → Nat) {c m : Nat} (hc : c < m) (h : ∀ r, r ≠ c → f' r = f r) (h1 : f' c + 1 = f c) :
    sumBy f' (List.range m) + 1 = sumBy f (List.range m) := by
  induction m with
  | zero => omega
  | succ m ih =>
    rw [sumBy_range_succ, sumBy_range_succ]
    by_cases e : c = m
    · subst e
      rw [sumBy_range_eq f f' c fun r hr => h r (by omega)]
      omega
    · have := ih (by omega)
      rw [h m (Ne.symm e)]
      omega

theorem sumBy_range_le (a b : Nat → Nat) {c m : Nat} (hc : c < m) (h : ∀ r, a r ≤ b r + 1) (h1 : a c ≤ b c) :
    sumBy a (List.range m) + 1 ≤ sumBy b (List.range m) + m := by
  have le : ∀ n, sumBy a (List.range n) ≤ sumBy b (List.range n) + n := by
    intro n
    induction n with
    | zero => simp [sumBy]
    | succ n ih => rw [sumBy_range_succ, sumBy_range_succ]; have := h n; omega
  induction m with
  | zero => omega
  | succ m ih =>
    rw [sumBy_range_succ, sumBy_range_succ]
    by_cases e : c = m
    · subst e
      have := le c
      omega
    · have := ih (by omega)
      have := h m
      omega

theorem sumBy_add {α : Type} (f g : α → Nat) (l : List α) : sumBy (fun a => f a + g a) l = sumBy f l + sumBy g l := by
  induction l with
  | nil => rfl
  | cons a l ih => simp only [sumBy_cons, ih]; omega

theorem length_regions (m : Nat) (l : List Task) (h : ∀ t ∈ l, t.1 < m) :
    sumBy (fun r => (ofRegion r l).length) (List.range m) = l.length := by
  induction l with
  | nil => exact sumBy_zero _ fun _ _ => rfl
  | cons t l ih =>
    have h1 := ih fun u hu => h u (List.mem_cons_of_mem _ hu)
    have := sumBy_range_one (fun r => (ofRegion r (t :: l)).length) (fun r => (ofRegion r l).length)
      (h t List.mem_cons_self) (fun r hr => by
        show _ = (ofRegion r ([t] ++ l)).length
        rw [ofRegion_append, ofRegion_one, if_neg (Ne.symm hr), List.nil_append]) (by
        show _ = (ofRegion t.1 ([t] ++ l)).length
        rw [ofRegion_append, ofRegion_one, if_pos rfl, List.length_append, List.length_singleton]
        omega)
    rw [List.length_cons]
    omega

theorem sumBy_range_shift (f : Nat → Nat) (m : Nat) : sumBy f (List.range (m + 1)) = f 0 + sumBy (fun r => f (r + 1)) (List.range m) := by
  induction m with
  | zero => simp [sumBy]
  | succ m ih => rw [sumBy_range_succ, ih, sumBy_range_succ]; omega

theorem sumBy_index (f : Call → Nat) (l : List Call) : sumBy (fun r => (l[r]?.map f).getD 0) (List.range l.length) = sumBy f l := by
  induction l with
  | nil => rfl
  | cons a l ih =>
    rw [List.length_cons, sumBy_range_shift, sumBy_cons, ← ih]
    simp

/-- C102: the entries of a region are applied in the order of its log, each once, and no two at the
same time. -/
theorem C102_order {cfg : Cfg} {g : Logs} {m : Nat} {s : State} (h : AReach cfg g m s) (r : Nat) :
    ∃ k, ofRegion r s.done = List.range k ∧ (ofRegion r s.taken = List.range k ∨ ofRegion r s.taken = List.range (k + 1)) :=
  (ainv_reach h).row r

theorem own_allowed {g : Logs} {s : State} {e : Ev} (hg : ∀ r i, g.source r i = none) (h : e.own = true) : allowed g s e = true := by
  cases e <;> simp only [Ev.own, Bool.false_eq_true] at h <;> simp only [allowed]
  · split
    · simp [hg]
    · rfl
  · split
    · simp [hg]
    · rfl

/-- C102: in a store that applies logs without merges, when nothing can happen any more, every region
has applied its whole log. -/
theorem C102_all_partial {cfg : Cfg} {g : Logs} {m : Nat} {s : State} (h : AReach cfg g m s) (hn : 0 < cfg.workers)
    (hg : ∀ r i, g.source r i = none) (hr : s.refused = []) (hs : AStill cfg g s) (r : Nat) (hrm : r < m) :
    ofRegion r s.done = List.range (g.len r) := by
  have hi := inv_reach (areach_reach h)
  have ha := ainv_reach h
  have hst : Still cfg s := by
    intro e he
    have := hs e (by rintro w rfl; cases he)
    unfold astep at this
    rw [if_pos ⟨hr, own_allowed hg he⟩] at this
    exact this
  obtain ⟨_, _, hd⟩ := still_done hi hn ha.go hst
  obtain ⟨k, h1, h2⟩ := ha.row r
  have h3 : ofRegion r s.taken = List.range k := by
    rcases h2 with e | e
    · exact e
    · have := hd (r, k)
      rw [← ofRegion_count, ← ofRegion_count, h1, e, range_count, range_count] at this
      simp at this
  have hidle : s.calls[r]? = some .idle := by
    have : r < s.calls.length := by rw [hi.ncalls]; exact hrm
    rw [List.getElem?_eq_getElem this, still_calls hst _ (List.getElem_mem this)]
  have h4 := hs (.submit r k) (by rintro w e; cases e)
  have h5 := ha.len r
  rw [h3, List.length_range] at h5
  have h6 : ¬ k < g.len r := by
    intro hlt
    unfold astep at h4
    rw [if_pos ⟨hr, by simp [allowed, free, h1, h3, hlt]⟩] at h4
    simp [step, hidle] at h4
  rw [h1]
  congr 1
  omega

/-- C102: a store has applied what there is to apply after so many steps, in whatever order they are
taken (a wake for no reason aside). -/
theorem C102_ends {cfg : Cfg} {g : Logs} {m : Nat} {s : State} (h : AReach cfg g m s) :
    ∃ n, ∀ l s', (∀ e ∈ l, ∀ w, e ≠ .wake w) → arun cfg g l s = some s' → l.length ≤ n := by
  have hi := inv_reach (areach_reach h)
  have ha := ainv_reach h
  clear h
  refine ⟨left s + 8 * sumBy (fun r => g.len r - (ofRegion r s.taken).length) (List.range m) + (if s.refused = [] then 1 else 0), ?_⟩
  intro l
  induction l generalizing s with
  | nil => intro _ _ _; simp
  | cons e l ih =>
    intro s' ho h
    simp only [arun] at h
    cases hs : astep cfg g s e with
    | none => rw [hs] at h; cases h
    | some u =>
      rw [hs] at h
      obtain ⟨hr, hal, hst⟩ := astep_step hs
      have h2 := ih (inv_step hi hst) (ainv_step hi ha hs) s' (fun e' he' => ho e' (List.mem_cons_of_mem _ he')) h
      rw [List.length_cons]
      by_cases hown : e.own = true
      · have h1 := left_step hown hst
        have h3 : u.taken = s.taken ∧ u.refused = s.refused := by
          cases e with
          | submit _ _ => simp [Ev.own] at hown
          | wake _ => simp [Ev.own] at hown
          | destroy => simp [Ev.own] at hown
          | count c => simp only [step] at hst; split at hst <;> cases hst <;> exact ⟨rfl, rfl⟩
          | go c =>
            simp only [step] at hst
            split at hst <;> cases hst
            unfold go; split <;> exact ⟨rfl, rfl⟩
          | finish c => simp only [step] at hst; split at hst <;> cases hst <;> exact ⟨rfl, rfl⟩
          | settle c => simp only [step] at hst; split at hst <;> cases hst <;> exact ⟨rfl, rfl⟩
          | signal c w => cases w <;> simp only [step] at hst <;> split at hst <;> cases hst <;> exact ⟨rfl, rfl⟩
          | look w =>
            simp only [step] at hst
            split at hst <;> cases hst
            unfold look; split <;> exact ⟨rfl, rfl⟩
          | wfinish w => simp only [step] at hst; split at hst <;> cases hst <;> exact ⟨rfl, rfl⟩
          | wsettle w => simp only [step] at hst; split at hst <;> cases hst <;> exact ⟨rfl, rfl⟩
        rw [h3.1, h3.2] at h2
        omega
      · cases e with
        | submit c t =>
          simp only [allowed, Bool.and_eq_true, beq_iff_eq, decide_eq_true_eq] at hal
          obtain ⟨⟨hf, ht⟩, hlen⟩ := hal
          simp only [step] at hst
          split at hst
          · rename_i hc
            cases hst
            unfold submit at h2
            split at h2
            · simp only [hr, if_true, List.nil_append, List.cons_ne_nil, if_false] at h2 ⊢
              have : left { s with refused := [(c, t)] } = left s := rfl
              omega
            · have hcm : c < m := by
                rw [← hi.ncalls]
                rcases Nat.lt_or_ge c s.calls.length with e | e
                · exact e
                · rw [List.getElem?_eq_none e] at hc; cases hc
              have h1 := sumBy_set Call.left (.checked (c, t) (cfg.inplace && decide (asU s.pending < cfg.workers))) hc
              have h3 := sumBy_range_one (fun r => g.len r - (ofRegion r s.taken).length)
                (fun r => g.len r - (ofRegion r (s.taken ++ [(c, t)])).length) hcm
                (fun r hne => by
                  show g.len r - (ofRegion r (s.taken ++ [(c, t)])).length = g.len r - (ofRegion r s.taken).length
                  rw [ofRegion_append, ofRegion_one, if_neg (Ne.symm hne), List.append_nil])
                (by
                  show g.len c - (ofRegion c (s.taken ++ [(c, t)])).length + 1 = g.len c - (ofRegion c s.taken).length
                  rw [ofRegion_append, ofRegion_one, if_pos rfl, List.length_append, List.length_singleton]
                  omega)
              simp only [hr, if_true, left] at h2 ⊢
              simp only [Call.left] at h1
              omega
          · cases hst
        | wake w => exact absurd rfl (ho _ List.mem_cons_self w)
        | destroy => simp [allowed] at hal
        | count _ => exact absurd rfl hown
        | go _ => exact absurd rfl hown
        | finish _ => exact absurd rfl hown
        | settle _ => exact absurd rfl hown
        | signal _ _ => exact absurd rfl hown
        | look _ => exact absurd rfl hown
        | wfinish _ => exact absurd rfl hown
        | wsettle _ => exact absurd rfl hown

theorem done_low {cfg : Cfg} {g : Logs} {m : Nat} {s : State} (hi : Inv cfg m s) (ha : AInv g m s) : ∀ t ∈ s.done, t.1 < m := by
  intro t ht
  refine ha.low t ?_
  have h1 := List.count_pos_iff.2 ht
  have h2 := hi.place t
  exact List.count_pos_iff.1 (by omega)

/-- With as many regions as the limit allows for, less the workers, an entry is never refused. -/
theorem accepted {cfg : Cfg} {g : Logs} {m : Nat} {s : State} (hi : Inv cfg m s) (ha : AInv g m s) {c : Nat}
    (hc : s.calls[c]? = some .idle) (hf : free s c = true) : s.pending + 1 ≤ m + cfg.workers := by
  have hcm : c < m := by
    rw [← hi.ncalls]
    rcases Nat.lt_or_ge c s.calls.length with e | e
    · exact e
    · rw [List.getElem?_eq_none e] at hc; cases hc
  have h1 := length_regions m s.taken ha.low
  have h2 := length_regions m s.done (done_low hi ha)
  let rf : Call → Nat := fun c => match c with | .ran _ => 1 | _ => 0
  have h3 := sumBy_index rf s.calls
  rw [hi.ncalls] at h3
  have h4 := sumBy_range_le (fun r => (ofRegion r s.taken).length + (s.calls[r]?.map rf).getD 0)
    (fun r => (ofRegion r s.done).length) hcm
    (fun r => by
      obtain ⟨k, hk, hk'⟩ := ha.row r
      show (ofRegion r s.taken).length + (s.calls[r]?.map rf).getD 0 ≤ (ofRegion r s.done).length + 1
      have hle : (ofRegion r s.taken).length ≤ (ofRegion r s.done).length + 1 := by
        rcases hk' with e | e <;> rw [hk, e] <;> simp
      cases hx : s.calls[r]? with
      | none => simpa using hle
      | some x =>
        cases x with
        | ran t =>
          have := ha.ran r t hx
          unfold free at this
          simp only [beq_iff_eq] at this
          simp [rf, this]
        | _ => simpa [rf] using hle)
    (by
      unfold free at hf
      simp only [beq_iff_eq] at hf
      show (ofRegion c s.taken).length + (s.calls[c]?.map rf).getD 0 ≤ (ofRegion c s.done).length
      rw [hc, hf]
      simp [rf])
  rw [sumBy_add, h1, h2, h3] at h4
  have h5 := pending_eq hi
  have h6 : lowering s = sumBy rf s.calls + (s.workers.filter fun w => match w with | .ran _ => true | _ => false).length := by
    unfold lowering
    congr 1
    exact filter_sumBy _ rf _ (by intro a; cases a <;> rfl)
  have h7 : (s.workers.filter fun w => match w with | .ran _ => true | _ => false).length ≤ cfg.workers := by
    rw [← hi.nworkers]
    exact List.length_filter_le _ _
  omega

/-- C102: a store whose regions and workers together are at most one more than the limit does not
end because there is too much to apply. -/
theorem C102_alive_partial {cfg : Cfg} {g : Logs} {m : Nat} {s : State} (h : AReach cfg g m s)
    (hm : cfg.max ≤ 0 ∨ (m : Int) + cfg.workers ≤ cfg.max + 1) : s.refused = [] := by
  obtain ⟨l, hl⟩ := h
  have key : ∀ (l : List Ev) (s s' : State), Inv cfg m s → AInv g m s → s.refused = [] → arun cfg g l s = some s' → s'.refused = [] := by
    intro l
    induction l with
    | nil => intro s s' _ _ hr h; cases h; exact hr
    | cons e l ih =>
      intro s s' hi ha hr h
      simp only [arun] at h
      cases hs : astep cfg g s e with
      | none => rw [hs] at h; cases h
      | some u =>
        rw [hs] at h
        obtain ⟨_, hal, hst⟩ := astep_step hs
        refine ih u s' (inv_step hi hst) (ainv_step hi ha hs) ?_ h
        cases e with
        | submit c t =>
          simp only [allowed, Bool.and_eq_true, beq_iff_eq, decide_eq_true_eq] at hal
          simp only [step] at hst
          split at hst
          · rename_i hc
            cases hst
            have hp0 : 0 ≤ s.pending := by have := hi.pend; omega
            have := accepted hi ha hc hal.1.1
            unfold submit
            rw [if_neg]
            · exact hr
            · rw [asU_of_nonneg hp0]
              omega
          · cases hst
        | count c => simp only [step] at hst; split at hst <;> cases hst <;> exact hr
        | go c =>
          simp only [step] at hst
          split at hst <;> cases hst
          unfold go; split <;> exact hr
        | finish c => simp only [step] at hst; split at hst <;> cases hst <;> exact hr
        | settle c => simp only [step] at hst; split at hst <;> cases hst <;> exact hr
        | signal c w => cases w <;> simp only [step] at hst <;> split at hst <;> cases hst <;> exact hr
        | look w =>
          simp only [step] at hst
          split at hst <;> cases hst
          unfold look; split <;> exact hr
        | wfinish w => simp only [step] at hst; split at hst <;> cases hst <;> exact hr
        | wsettle w => simp only [step] at hst; split at hst <;> cases hst <;> exact hr
        | wake w => simp only [step] at hst; split at hst <;> cases hst <;> exact hr
        | destroy => simp [allowed] at hal
  exact key l _ s (inv_init cfg m) (ainv_init cfg g m) rfl hl

end Verif.Pool
