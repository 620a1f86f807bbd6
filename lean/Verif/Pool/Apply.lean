import Verif.Pool.Props

/-!
# Applying logs through a queue: invariant
-/

namespace Verif.Pool

theorem ofRegion_append (r : Nat) (l l' : List Task) : ofRegion r (l ++ l') = ofRegion r l ++ ofRegion r l' := by
  simp [ofRegion]

theorem ofRegion_one (r : Nat) (t : Task) : ofRegion r [t] = if t.1 = r then [t.2] else [] := by
  unfold ofRegion
  by_cases h : t.1 = r <;> simp [h]

theorem ofRegion_count (r i : Nat) (l : List Task) : (ofRegion r l).count i = l.count (r, i) := by
  induction l with
  | nil => rfl
  | cons t l ih =>
    have : ofRegion r (t :: l) = ofRegion r [t] ++ ofRegion r l := ofRegion_append r [t] l
    rw [this, ofRegion_one, List.count_append, ih, List.count_cons]
    obtain ⟨a, b⟩ := t
    simp only [beq_iff_eq, Prod.mk.injEq]
    by_cases h : a = r
    · by_cases h' : b = i
      · simp [h, h']; omega
      · simp [h, h']
    · simp [h]

theorem range_count (k i : Nat) : (List.range k).count i = if i < k then 1 else 0 := by
  induction k with
  | zero => simp
  | succ k ih =>
    rw [List.range_succ, List.count_append, ih, List.count_cons, List.count_nil]
    simp only [beq_iff_eq]
    by_cases h : k = i
    · subst h; simp
    · by_cases h' : i < k
      · simp [h, h']; omega
      · simp [h, h']; omega

/-- Each region has begun its first entries, and all of them but perhaps the last have been run. -/
structure AInv (g : Logs) (m : Nat) (s : State) : Prop where
  row : ∀ r, ∃ k, ofRegion r s.done = List.range k ∧ (ofRegion r s.taken = List.range k ∨ ofRegion r s.taken = List.range (k + 1))
  low : ∀ t ∈ s.taken, t.1 < m
  len : ∀ r, (ofRegion r s.taken).length ≤ g.len r
  ran : ∀ (r : Nat) (t : Task), s.calls[r]? = some (.ran t) → free s r = true
  here : ∀ (r : Nat) (t : Task), s.calls[r]? = some (.running t) → t.1 = r
  go : s.stop = false

theorem astep_step {cfg : Cfg} {g : Logs} {s s' : State} {e : Ev} (h : astep cfg g s e = some s') :
    s.refused = [] ∧ allowed g s e = true ∧ step cfg s e = some s' := by
  unfold astep at h
  split at h
  · rename_i hc; exact ⟨hc.1, hc.2, h⟩
  · cases h

theorem arun_run {cfg : Cfg} {g : Logs} (l : List Ev) {s s' : State} (h : arun cfg g l s = some s') : run cfg l s = some s' := by
  induction l generalizing s with
  | nil => exact h
  | cons e l ih =>
    simp only [arun] at h
    cases hs : astep cfg g s e with
    | none => rw [hs] at h; cases h
    | some u =>
      rw [hs] at h
      simp only [run, (astep_step hs).2.2]
      exact ih h

theorem areach_reach {cfg : Cfg} {g : Logs} {m : Nat} {s : State} (h : AReach cfg g m s) : Reach cfg m s := by
  obtain ⟨l, hl⟩ := h
  exact ⟨l, arun_run l hl⟩

theorem ainv_init (cfg : Cfg) (g : Logs) (m : Nat) : AInv g m (.init cfg m) where
  row r := ⟨0, rfl, .inl rfl⟩
  low t ht := by simp [State.init] at ht
  len r := Nat.zero_le _
  ran r t h := by
    simp only [State.init, List.getElem?_replicate] at h
    split at h <;> simp at h
  here r t h := by
    simp only [State.init, List.getElem?_replicate] at h
    split at h <;> simp at h
  go := rfl

theorem free_congr {s s' : State} (r : Nat) (h1 : s'.taken = s.taken) (h2 : s'.done = s.done) : free s' r = free s r := by
  unfold free; rw [h1, h2]

/-- Steps that change neither what was taken nor what was run. -/
theorem ainv_same {g : Logs} {m : Nat} {s s' : State} (ha : AInv g m s) (h1 : s'.taken = s.taken) (h2 : s'.done = s.done)
    (h3 : ∀ (r : Nat) (t : Task), s'.calls[r]? = some (.ran t) → s.calls[r]? = some (.ran t))
    (h4 : ∀ (r : Nat) (t : Task), s'.calls[r]? = some (.running t) → t.1 = r) (h5 : s'.stop = s.stop) : AInv g m s' where
  row r := by rw [h1, h2]; exact ha.row r
  low := by rw [h1]; exact ha.low
  len r := by rw [h1]; exact ha.len r
  ran r t h := by rw [free_congr r h1 h2]; exact ha.ran r t (h3 r t h)
  here := h4
  go := by rw [h5]; exact ha.go

theorem set_some {l : List Call} {c r : Nat} {x y : Call} (h : (l.set c x)[r]? = some y) :
    (c = r ∧ x = y) ∨ l[r]? = some y := by
  rw [List.getElem?_set] at h
  by_cases e : c = r
  · rw [if_pos e] at h
    split at h
    · exact .inl ⟨e, by simpa using h⟩
    · cases h
  · rw [if_neg e] at h
    exact .inr h

/-- A task that is being run is run to the end. -/
theorem row_done {g : Logs} {m : Nat} {s : State} (ha : AInv g m s) {t : Task} (h : s.done.count t < s.taken.count t) :
    (∀ r, ∃ k, ofRegion r (s.done ++ [t]) = List.range k ∧
      (ofRegion r s.taken = List.range k ∨ ofRegion r s.taken = List.range (k + 1))) ∧
    (ofRegion t.1 s.taken).length = (ofRegion t.1 (s.done ++ [t])).length ∧ free s t.1 = false := by
  obtain ⟨c, i⟩ := t
  obtain ⟨k, hk, ht⟩ := ha.row c
  rw [← ofRegion_count, ← ofRegion_count, hk, range_count] at h
  have hik : ofRegion c s.taken = List.range (k + 1) ∧ i = k := by
    rcases ht with ht | ht
    · rw [ht, range_count] at h; omega
    · rw [ht, range_count] at h
      refine ⟨ht, ?_⟩
      split at h <;> split at h <;> omega
  obtain ⟨ht', hik⟩ := hik
  subst hik
  have hd : ofRegion c (s.done ++ [(c, i)]) = List.range (i + 1) := by
    rw [ofRegion_append, ofRegion_one, hk, List.range_succ]
    simp
  refine ⟨?_, ?_, ?_⟩
  · intro r
    by_cases e : c = r
    · subst e
      exact ⟨i + 1, hd, .inl ht'⟩
    · obtain ⟨k', h1, h2⟩ := ha.row r
      refine ⟨k', ?_, h2⟩
      rw [ofRegion_append, ofRegion_one, if_neg e, List.append_nil]
      exact h1
  · simp only [hd, ht']
  · unfold free
    simp [ht', hk]

theorem ainv_step {cfg : Cfg} {g : Logs} {m : Nat} {s s' : State} {e : Ev} (hi : Inv cfg m s) (ha : AInv g m s)
    (h : astep cfg g s e = some s') : AInv g m s' := by
  obtain ⟨_, hal, h⟩ := astep_step h
  cases e with
  | submit c t =>
    simp only [allowed, Bool.and_eq_true, beq_iff_eq, decide_eq_true_eq] at hal
    obtain ⟨⟨hf, ht⟩, hlen⟩ := hal
    simp only [step] at h
    split at h
    · rename_i hc
      have hcm : c < m := by
        rw [← hi.ncalls]
        rcases Nat.lt_or_ge c s.calls.length with e | e
        · exact e
        · rw [List.getElem?_eq_none e] at hc; cases hc
      cases h
      unfold submit
      split
      · exact ainv_same ha rfl rfl (fun _ _ h => h) ha.here rfl
      · obtain ⟨k, hk, hk'⟩ := ha.row c
        have hkt : ofRegion c s.taken = List.range k := by
          rcases hk' with e | e
          · exact e
          · unfold free at hf
            rw [hk, e] at hf
            simp at hf
        have htk : t = k := by rw [ht, hkt]; simp
        subst htk
        refine ⟨?_, ?_, ?_, ?_, ?_, ha.go⟩
        · intro r
          by_cases e : c = r
          · subst e
            refine ⟨t, hk, .inr ?_⟩
            simp only [ofRegion_append, ofRegion_one, hkt, if_true, List.range_succ]
          · obtain ⟨k', h1, h2⟩ := ha.row r
            refine ⟨k', h1, ?_⟩
            simp only [ofRegion_append, ofRegion_one, if_neg e, List.append_nil]
            exact h2
        · intro u hu
          rcases List.mem_append.1 hu with hu | hu
          · exact ha.low u hu
          · rw [List.mem_singleton.1 hu]; exact hcm
        · intro r
          by_cases e : c = r
          · subst e
            simp only [ofRegion_append, ofRegion_one, hkt, if_true, List.length_append, List.length_range, List.length_cons,
              List.length_nil]
            omega
          · simp only [ofRegion_append, ofRegion_one, if_neg e, List.append_nil]
            exact ha.len r
        · intro r u hu
          rcases set_some hu with ⟨_, e⟩ | hu
          · cases e
          · have hne : ¬ c = r := by
              intro e
              subst e
              rw [hc] at hu; cases hu
            have := ha.ran r u hu
            unfold free at this ⊢
            simp only [ofRegion_append, ofRegion_one, if_neg hne, List.append_nil]
            exact this
        · intro r u hu
          rcases set_some hu with ⟨_, e⟩ | hu
          · cases e
          · exact ha.here r u hu
    · cases h
  | count c =>
    simp only [step] at h
    split at h
    · cases h
      refine ainv_same ha rfl rfl ?_ ?_ rfl
      · intro r u hu
        rcases set_some hu with ⟨_, e⟩ | hu
        · cases e
        · exact hu
      · intro r u hu
        rcases set_some hu with ⟨_, e⟩ | hu
        · cases e
        · exact ha.here r u hu
    · cases h
  | go c =>
    simp only [step] at h
    split at h
    · rename_i t b hc
      cases h
      unfold go
      split
      · refine ainv_same ha rfl rfl ?_ ?_ rfl
        · intro r u hu
          rcases set_some hu with ⟨_, e⟩ | hu
          · cases e
          · exact hu
        · intro r u hu
          rcases set_some hu with ⟨e', e⟩ | hu
          · cases e; rw [← e']; exact hi.own c t _ (.inr hc)
          · exact ha.here r u hu
      · refine ainv_same ha rfl rfl ?_ ?_ rfl
        · intro r u hu
          rcases set_some hu with ⟨_, e⟩ | hu
          · cases e
          · exact hu
        · intro r u hu
          rcases set_some hu with ⟨_, e⟩ | hu
          · cases e
          · exact ha.here r u hu
    · cases h
  | finish c =>
    simp only [step] at h
    split at h
    · rename_i t hc
      cases h
      have hcnt : s.done.count t < s.taken.count t := by
        have := hi.place t
        have := sumBy_pos (Call.has t) hc
        simp only [Call.has, if_true] at this
        omega
      obtain ⟨h1, h2, h3⟩ := row_done ha hcnt
      refine ⟨h1, ha.low, ha.len, ?_, ?_, ha.go⟩
      · intro r u hu
        rcases set_some hu with ⟨e', e⟩ | hu
        · have := ha.here c t hc
          subst e'
          subst this
          unfold free
          simp only [beq_iff_eq]
          exact h2
        · have hne : ¬ t.1 = r := by
            intro e
            subst e
            have := ha.ran _ u hu
            rw [h3] at this; cases this
          have := ha.ran r u hu
          unfold free at this ⊢
          simp only [ofRegion_append, ofRegion_one, if_neg hne, List.append_nil]
          exact this
      · intro r u hu
        rcases set_some hu with ⟨_, e⟩ | hu
        · cases e
        · exact ha.here r u hu
    · cases h
  | settle c =>
    simp only [step] at h
    split at h
    · cases h
      refine ainv_same ha rfl rfl ?_ ?_ rfl
      · intro r u hu
        rcases set_some hu with ⟨_, e⟩ | hu
        · cases e
        · exact hu
      · intro r u hu
        rcases set_some hu with ⟨_, e⟩ | hu
        · cases e
        · exact ha.here r u hu
    · cases h
  | signal c w =>
    have key : ∀ s' : State, s'.calls = s.calls.set c .idle → s'.taken = s.taken → s'.done = s.done → s'.stop = s.stop →
        AInv g m s' := by
      intro s' h1 h2 h3 h4
      refine ainv_same ha h2 h3 ?_ ?_ h4
      · intro r u hu
        rw [h1] at hu
        rcases set_some hu with ⟨_, e⟩ | hu
        · cases e
        · exact hu
      · intro r u hu
        rw [h1] at hu
        rcases set_some hu with ⟨_, e⟩ | hu
        · cases e
        · exact ha.here r u hu
    cases w with
    | none =>
      simp only [step] at h
      split at h
      · cases h; exact key _ rfl rfl rfl rfl
      · cases h
    | some w =>
      simp only [step] at h
      split at h
      · cases h; exact key _ rfl rfl rfl rfl
      · cases h
  | look w =>
    simp only [step] at h
    split at h
    · cases h
      unfold look
      split <;> exact ainv_same ha rfl rfl (fun _ _ h => h) ha.here rfl
    · cases h
  | wfinish w =>
    simp only [step] at h
    split at h
    · rename_i t hw
      cases h
      have hcnt : s.done.count t < s.taken.count t := by
        have := hi.place t
        have := sumBy_pos (Work.has t) hw
        simp only [Work.has, if_true] at this
        omega
      obtain ⟨h1, h2, h3⟩ := row_done ha hcnt
      refine ⟨h1, ha.low, ha.len, ?_, ha.here, ha.go⟩
      intro r u hu
      have hne : ¬ t.1 = r := by
        intro e
        subst e
        have := ha.ran _ u hu
        rw [h3] at this; cases this
      have := ha.ran r u hu
      unfold free at this ⊢
      simp only [ofRegion_append, ofRegion_one, if_neg hne, List.append_nil]
      exact this
    · cases h
  | wsettle w =>
    simp only [step] at h
    split at h
    · cases h; exact ainv_same ha rfl rfl (fun _ _ h => h) ha.here rfl
    · cases h
  | wake w =>
    simp only [step] at h
    split at h
    · cases h; exact ainv_same ha rfl rfl (fun _ _ h => h) ha.here rfl
    · cases h
  | destroy => simp [allowed] at hal

theorem ainv_run {cfg : Cfg} {g : Logs} {m : Nat} (l : List Ev) {s s' : State} (hi : Inv cfg m s) (ha : AInv g m s)
    (h : arun cfg g l s = some s') : AInv g m s' := by
  induction l generalizing s with
  | nil => cases h; exact ha
  | cons e l ih =>
    simp only [arun] at h
    cases hs : astep cfg g s e with
    | none => rw [hs] at h; cases h
    | some u =>
      rw [hs] at h
      exact ih (inv_step hi (astep_step hs).2.2) (ainv_step hi ha hs) h

theorem ainv_reach {cfg : Cfg} {g : Logs} {m : Nat} {s : State} (h : AReach cfg g m s) : AInv g m s := by
  obtain ⟨l, hl⟩ := h
  exact ainv_run l (inv_init cfg m) (ainv_init cfg g m) hl

end Verif.Pool
