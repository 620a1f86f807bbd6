import Verif.Pool.PropsApply

/-!
# Queues of tasks: what does not hold, and cases that meet the hypotheses
-/

namespace Verif.Pool

/-! ## What does not hold of a queue -/

/-- C101: more tasks than workers are run at once, when callers run tasks in place. -/
theorem C101_inplace_false : ∃ (cfg : Cfg) (m : Nat) (s : State), cfg.inplace = true ∧ Reach cfg m s ∧ cfg.workers < runningAll s := by
  refine ⟨⟨1, 0, true⟩, 2, _, rfl, ⟨[.submit 0 0, .submit 1 0, .count 0, .count 1, .go 0, .go 1], rfl⟩, ?_⟩
  decide +kernel

/-- C101: a caller's later task is run before an earlier one that is still in the queue. -/
theorem C101_overtake_false : ∃ (cfg : Cfg) (m : Nat) (s : State), Reach cfg m s ∧ ofCaller 0 s.taken = [(0, 0), (0, 1)] ∧
    (0, 1) ∈ s.done ∧ (0, 0) ∈ s.queue := by
  refine ⟨⟨2, 0, true⟩, 3, _, ⟨[.submit 1 0, .count 1, .submit 2 0, .count 2, .submit 0 0, .count 0, .go 0, .signal 0 none,
    .go 1, .go 2, .finish 1, .settle 1, .finish 2, .settle 2, .submit 0 1, .count 0, .go 0, .finish 0], rfl⟩, ?_, ?_, ?_⟩ <;>
    decide +kernel

/-- C101: more tasks than the limit, and one for the check itself, are unfinished: threads read the
counter before any of them raises it. -/
theorem C101_limit_false : ∃ (cfg : Cfg) (m : Nat) (s : State), 0 < cfg.max ∧ Reach cfg m s ∧
    cfg.max + 1 < (s.taken.length : Int) - s.done.length := by
  refine ⟨⟨1, 1, false⟩, 3, _, by decide, ⟨[.submit 0 0, .submit 1 0, .submit 2 0], rfl⟩, ?_⟩
  decide +kernel

/-- C101: a task that `Execute` has taken after the workers have ended is never run. -/
theorem C101_stop_false : ∃ (cfg : Cfg) (m : Nat) (s : State), Reach cfg m s ∧ s.taken = [(0, 0)] ∧
    ∀ l s', run cfg l s = some s' → (0, 0) ∈ s'.queue := by
  refine ⟨⟨1, 0, false⟩, 1, ⟨[.pushed], [.gone], [(0, 0)], 1, true, [(0, 0)], [], [(0, 0)], [], []⟩,
    ⟨[.destroy, .look 0, .submit 0 0, .count 0, .go 0], rfl⟩, rfl, ?_⟩
  intro l s' h
  exact (over_run l (by intro w hw; simpa using hw) h).subset (by simp)

/-! ## What does not hold of the application of logs -/

/-- Every region below `k` has an entry that waits to be run, and no other. -/
structure Filled (cfg : Cfg) (m k : Nat) (s : State) : Prop where
  reach : AReach cfg ⟨fun _ => 1, fun _ _ => none⟩ m s
  pending : s.pending = k
  refused : s.refused = []
  idle : ∀ i, k ≤ i → i < m → s.calls[i]? = some .idle
  taken : ∀ i, k ≤ i → ofRegion i s.taken = []
  done : s.done = []

theorem arun_append {cfg : Cfg} {g : Logs} (l l' : List Ev) {s s' : State} (h : arun cfg g l s = some s') :
    arun cfg g (l ++ l') s = arun cfg g l' s' := by
  induction l generalizing s with
  | nil => cases h; rfl
  | cons e l ih =>
    simp only [arun, List.cons_append] at h ⊢
    cases hs : astep cfg g s e with
    | none => rw [hs] at h; cases h
    | some u => rw [hs] at h; exact ih h

theorem submit_filled {cfg : Cfg} {m k : Nat} {s : State} (h : Filled cfg m k s) (hk : k < m) :
    astep cfg ⟨fun _ => 1, fun _ _ => none⟩ s (.submit k 0) = some (submit cfg s k 0) := by
  unfold astep
  rw [if_pos]
  · simp only [step]
    rw [if_pos (h.idle k (Nat.le_refl k) hk)]
  · refine ⟨h.refused, ?_⟩
    have h1 := h.taken k (Nat.le_refl k)
    have h2 : ofRegion k s.done = [] := by rw [h.done]; rfl
    simp [allowed, free, h1, h2]

theorem fill {cfg : Cfg} (m k : Nat) (hk : k ≤ m) (hm : (k : Int) ≤ cfg.max + 1) : ∃ s, Filled cfg m k s := by
  induction k with
  | zero =>
    refine ⟨.init cfg m, ⟨[], rfl⟩, rfl, rfl, ?_, fun _ _ => rfl, rfl⟩
    intro i _ hi
    simp [State.init, List.getElem?_replicate, hi]
  | succ k ih =>
    obtain ⟨s, h⟩ := ih (by omega) (by omega)
    have h1 := submit_filled h (by omega)
    have hidle := h.idle k (Nat.le_refl k) (by omega)
    have hlt : k < s.calls.length := by
      rcases Nat.lt_or_ge k s.calls.length with e | e
      · exact e
      · rw [List.getElem?_eq_none e] at hidle; cases hidle
    have hsub : submit cfg s k 0 = { s with
        calls := s.calls.set k (.checked (k, 0) (cfg.inplace && decide (asU s.pending < cfg.workers)))
        taken := s.taken ++ [(k, 0)] } := by
      unfold submit
      rw [if_neg]
      rw [h.pending, asU_of_nonneg (by omega)]
      omega
    rw [hsub] at h1
    have h2 : astep cfg ⟨fun _ => 1, fun _ _ => none⟩ { s with
        calls := s.calls.set k (.checked (k, 0) (cfg.inplace && decide (asU s.pending < cfg.workers)))
        taken := s.taken ++ [(k, 0)] } (.count k) = some (countUp { s with
        calls := s.calls.set k (.checked (k, 0) (cfg.inplace && decide (asU s.pending < cfg.workers)))
        taken := s.taken ++ [(k, 0)] } k (k, 0) (cfg.inplace && decide (asU s.pending < cfg.workers))) := by
      unfold astep
      rw [if_pos ⟨h.refused, rfl⟩]
      simp only [step, List.getElem?_set_self hlt]
    obtain ⟨l, hl⟩ := h.reach
    refine ⟨countUp { s with
        calls := s.calls.set k (.checked (k, 0) (cfg.inplace && decide (asU s.pending < cfg.workers)))
        taken := s.taken ++ [(k, 0)] } k (k, 0) (cfg.inplace && decide (asU s.pending < cfg.workers)),
      ⟨l ++ [.submit k 0, .count k], ?_⟩, ?_, ?_, ?_, ?_, ?_⟩
    · rw [arun_append l _ hl]
      simp only [arun, h1, Option.bind_some, h2]
    · simp only [countUp, h.pending]; omega
    · exact h.refused
    · intro i hi him
      simp only [countUp]
      rw [List.getElem?_set_ne (by omega), List.getElem?_set_ne (by omega)]
      exact h.idle i (by omega) him
    · intro i hi
      simp only [countUp]
      rw [ofRegion_append, ofRegion_one, if_neg (by show ¬ k = i; omega), h.taken i (by omega)]
      rfl
    · exact h.done

/-- C102: whatever the limit and the number of workers, a store ends when it has two regions more than
the limit and each of them has one entry to apply. -/
theorem C102_alive_false (cfg : Cfg) (hm : 0 < cfg.max) : ∃ s, AReach cfg ⟨fun _ => 1, fun _ _ => none⟩ (cfg.max.toNat + 2) s ∧
    s.refused ≠ [] := by
  obtain ⟨s, h⟩ := fill (cfg := cfg) (cfg.max.toNat + 2) (cfg.max.toNat + 1) (by omega) (by omega)
  obtain ⟨l, hl⟩ := h.reach
  refine ⟨submit cfg s (cfg.max.toNat + 1) 0, ⟨l ++ [.submit (cfg.max.toNat + 1) 0], ?_⟩, ?_⟩
  · rw [arun_append l _ hl]
    simp only [arun, submit_filled h (by omega), Option.bind_some]
  · unfold submit
    rw [if_pos]
    · simp
    · rw [h.pending, asU_of_nonneg (by omega)]
      omega

/-- The state in which the worker applies the commit of a merge of region 1 into region 0, and the
entry of region 1 is behind it in the queue. -/
def stuck : State :=
  ⟨[.idle, .idle], [.running (0, 0)], [(1, 0)], 2, false, [(0, 0), (1, 0)], [], [(0, 0), (1, 0)], [(0, 0)], []⟩

/-- One entry in each of two regions; that of region 0 merges region 1 into it. -/
def merging : Logs := ⟨fun r => if r < 2 then 1 else 0, fun r i => if r = 0 ∧ i = 0 then some 1 else none⟩

/-- C102: with one worker, an entry that commits a merge is never applied when the region merged has
an entry in the queue behind it; nothing more is applied. -/
theorem C102_merge_false : ∃ s, AReach ⟨1, 0, false⟩ merging 2 s ∧ s.refused = [] ∧ AStill ⟨1, 0, false⟩ merging s ∧ s.done = [] := by
  refine ⟨stuck, ⟨[.submit 0 0, .count 0, .go 0, .signal 0 none, .look 0, .submit 1 0, .count 1, .go 1, .signal 1 none], rfl⟩,
    rfl, ?_, rfl⟩
  have hc : ∀ c : Nat, stuck.calls[c]? = some Call.idle ∨ stuck.calls[c]? = none := by
    intro c
    match c with
    | 0 => exact .inl rfl
    | 1 => exact .inl rfl
    | c + 2 => exact .inr rfl
  have hw : ∀ w : Nat, stuck.workers[w]? = some (Work.running (0, 0)) ∨ stuck.workers[w]? = none := by
    intro w
    match w with
    | 0 => exact .inl rfl
    | w + 1 => exact .inr rfl
  intro e he
  unfold astep
  split
  · rename_i h
    cases e with
    | submit c t =>
      exfalso
      have h2 := h.2
      simp only [allowed, Bool.and_eq_true, decide_eq_true_eq] at h2
      match c, h2 with
      | 0, h2 => exact absurd h2.1.1 (by decide +kernel)
      | 1, h2 => exact absurd h2.1.1 (by decide +kernel)
      | c + 2, h2 =>
        have h3 := h2.2
        simp only [merging] at h3
        rw [if_neg (by omega)] at h3
        omega
    | count c => rcases hc c with e | e <;> simp [step, e]
    | go c => rcases hc c with e | e <;> simp [step, e]
    | finish c => rcases hc c with e | e <;> simp [step, e]
    | settle c => rcases hc c with e | e <;> simp [step, e]
    | signal c w => cases w <;> rcases hc c with e | e <;> simp [step, e]
    | look w => rcases hw w with e | e <;> simp [step, e]
    | wfinish w =>
      rcases hw w with e | e
      · have h2 := h.2
        simp only [allowed, e] at h2
        exact absurd h2 (by decide +kernel)
      · simp [step, e]
    | wsettle w => rcases hw w with e | e <;> simp [step, e]
    | wake w => exact absurd rfl (he w)
    | destroy => have h2 := h.2; simp [allowed] at h2
  · rfl

/-! ## Cases that meet the hypotheses -/

/-- The steps of two tasks, one run in place and one by a worker. -/
def twoTasks : List Ev :=
  [.look 0, .submit 0 7, .count 0, .submit 1 8, .go 0, .count 1, .go 1, .signal 1 (some 0), .look 0, .finish 0, .settle 0,
   .wfinish 0, .wsettle 0, .look 0]

/-- `C101_run`: a state that is reached, in which two tasks have been run and nothing can happen. -/
example : Reach ⟨1, 5, true⟩ 2 ⟨[.idle, .idle], [.waiting], [], 0, false, [(0, 7), (1, 8)], [], [(1, 8)], [(1, 8)], [(0, 7), (1, 8)]⟩ ∧
    Still ⟨1, 5, true⟩ ⟨[.idle, .idle], [.waiting], [], 0, false, [(0, 7), (1, 8)], [], [(1, 8)], [(1, 8)], [(0, 7), (1, 8)]⟩ := by
  refine ⟨⟨twoTasks, by decide +kernel⟩, ?_⟩
  intro e he
  have hc : ∀ c : Nat, [Call.idle, .idle][c]? = some Call.idle ∨ [Call.idle, .idle][c]? = none := by
    intro c
    match c with
    | 0 => exact .inl rfl
    | 1 => exact .inl rfl
    | c + 2 => exact .inr rfl
  have hw : ∀ w : Nat, [Work.waiting][w]? = some Work.waiting ∨ [Work.waiting][w]? = none := by
    intro w
    match w with
    | 0 => exact .inl rfl
    | w + 1 => exact .inr rfl
  cases e with
  | submit c t => cases he
  | wake w => cases he
  | destroy => cases he
  | count c => rcases hc c with e | e <;> simp [step, e]
  | go c => rcases hc c with e | e <;> simp [step, e]
  | finish c => rcases hc c with e | e <;> simp [step, e]
  | settle c => rcases hc c with e | e <;> simp [step, e]
  | signal c w => cases w <;> rcases hc c with e | e <;> simp [step, e]
  | look w => rcases hw w with e | e <;> simp [step, e]
  | wfinish w => rcases hw w with e | e <;> simp [step, e]
  | wsettle w => rcases hw w with e | e <;> simp [step, e]

/-- `C101_refused`, `C101_bound`: a task is refused while two are unfinished and the limit is 1. -/
example : (run ⟨1, 1, false⟩ [.submit 0 0, .count 0, .submit 1 0, .count 1, .submit 2 0] (.init ⟨1, 1, false⟩ 3)).map
    (fun s => (s.refused, s.taken)) = some ([(2, 0)], [(0, 0), (1, 0)]) := by
  decide +kernel

/-- `C101_stop_partial`: `Destroy` while a task is in the queue; the worker runs it before it ends. -/
example : (run ⟨1, 0, false⟩ [.submit 0 0, .count 0, .go 0, .destroy, .look 0, .wfinish 0, .wsettle 0, .look 0]
    (.init ⟨1, 0, false⟩ 1)).map (fun s => (s.workers, s.done)) = some ([.gone], [(0, 0)]) := by
  decide +kernel

/-- `C102_order`, `C102_alive_partial`: two regions with logs of two entries and of one. -/
example : (arun ⟨1, 2, false⟩ ⟨fun r => if r = 0 then 2 else 1, fun _ _ => none⟩
    [.submit 0 0, .count 0, .go 0, .submit 1 0, .count 1, .go 1, .signal 0 none, .look 0, .wfinish 0, .wsettle 0, .submit 0 1,
     .count 0, .go 0, .signal 0 none, .signal 1 none, .look 0, .wfinish 0, .wsettle 0, .look 0, .wfinish 0] (.init ⟨1, 2, false⟩ 2)).map
    (fun s => (ofRegion 0 s.done, ofRegion 1 s.done, s.refused)) = some ([0, 1], [0], []) := by
  decide +kernel

/-- An entry is not given out while the one before it is being applied. -/
example : arun ⟨1, 2, false⟩ ⟨fun _ => 2, fun _ _ => none⟩ [.submit 0 0, .count 0, .go 0, .signal 0 none, .look 0, .submit 0 1]
    (.init ⟨1, 2, false⟩ 1) = none := by
  decide +kernel

/-- `C102_all_partial`: the log of one region has been applied and nothing can happen. -/
example : AReach ⟨1, 2, true⟩ ⟨fun r => if r = 0 then 1 else 0, fun _ _ => none⟩ 1
      ⟨[.idle], [.waiting], [], 0, false, [(0, 0)], [], [], [], [(0, 0)]⟩ ∧
    AStill ⟨1, 2, true⟩ ⟨fun r => if r = 0 then 1 else 0, fun _ _ => none⟩
      ⟨[.idle], [.waiting], [], 0, false, [(0, 0)], [], [], [], [(0, 0)]⟩ := by
  refine ⟨⟨[.submit 0 0, .look 0, .count 0, .go 0, .finish 0, .settle 0], rfl⟩, ?_⟩
  have hc : ∀ c : Nat, [Call.idle][c]? = some Call.idle ∨ [Call.idle][c]? = none := by
    intro c
    match c with
    | 0 => exact .inl rfl
    | c + 1 => exact .inr rfl
  have hw : ∀ w : Nat, [Work.waiting][w]? = some Work.waiting ∨ [Work.waiting][w]? = none := by
    intro w
    match w with
    | 0 => exact .inl rfl
    | w + 1 => exact .inr rfl
  intro e he
  unfold astep
  split
  · rename_i h
    cases e with
    | submit c t =>
      exfalso
      have h2 := h.2
      simp only [allowed, Bool.and_eq_true, decide_eq_true_eq, beq_iff_eq] at h2
      match c, h2 with
      | 0, h2 =>
        have h3 := h2.2
        have h4 : t = 1 := h2.1.2
        subst h4
        exact absurd h3 (by decide)
      | c + 1, h2 =>
        have h3 := h2.2
        rw [if_neg (by omega)] at h3
        omega
    | count c => rcases hc c with e | e <;> simp [step, e]
    | go c => rcases hc c with e | e <;> simp [step, e]
    | finish c => rcases hc c with e | e <;> simp [step, e]
    | settle c => rcases hc c with e | e <;> simp [step, e]
    | signal c w => cases w <;> rcases hc c with e | e <;> simp [step, e]
    | look w => rcases hw w with e | e <;> simp [step, e]
    | wfinish w => rcases hw w with e | e <;> simp [step, e]
    | wsettle w => rcases hw w with e | e <;> simp [step, e]
    | wake w => exact absurd rfl (he w)
    | destroy => have h2 := h.2; simp [allowed] at h2
  · rfl

end Verif.Pool
