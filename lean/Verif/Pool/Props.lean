import Verif.Pool.Order

/-!
# C101: a request that was taken is run once
-/

namespace Verif.Pool

theorem filter_sumBy {α : Type} (p : α → Bool) (f : α → Nat) (l : List α) (h : ∀ a, f a = if p a then 1 else 0) :
    (l.filter p).length = sumBy f l := by
  induction l with
  | nil => rfl
  | cons a l ih =>
    rw [sumBy_cons, h a, List.filter_cons]
    cases p a
    · simp only [Bool.false_eq_true, if_false]; omega
    · simp only [if_true, List.length_cons]; omega

theorem count_sumBy {α : Type} [DecidableEq α] (x : α) (f : α → Nat) (l : List α) (h : ∀ a, (if a = x then 1 else 0) ≤ f a) :
    l.count x ≤ sumBy f l := by
  induction l with
  | nil => simp [sumBy]
  | cons a l ih =>
    rw [sumBy_cons, List.count_cons]
    have := h a
    simp only [beq_iff_eq]
    omega

/-- C101: a task is run no more often than it was given; one that is given once is run at most once,
and not by two threads. -/
theorem C101_once {cfg : Cfg} {m : Nat} {s : State} (h : Reach cfg m s) (t : Task) :
    s.done.count t + running s t ≤ s.taken.count t := by
  have hi := inv_reach h
  have := hi.place t
  have h1 : s.calls.count (.running t) ≤ sumBy (Call.has t) s.calls := by
    refine count_sumBy _ _ _ fun a => ?_
    split
    · rename_i e; subst e; simp [Call.has]
    · exact Nat.zero_le _
  have h2 : s.workers.count (.running t) ≤ sumBy (Work.has t) s.workers := by
    refine count_sumBy _ _ _ fun a => ?_
    split
    · rename_i e; subst e; simp [Work.has]
    · exact Nat.zero_le _
  unfold running
  omega

/-- C101: without new tasks the threads come to rest, in whatever order they take their steps. -/
theorem C101_ends (cfg : Cfg) (s : State) :
    ∃ n, ∀ l s', (∀ e ∈ l, e.own = true) → run cfg l s = some s' → l.length ≤ n := by
  refine ⟨left s, ?_⟩
  intro l
  induction l generalizing s with
  | nil => intro _ _ _; simp
  | cons e l ih =>
    intro s' ho h
    simp only [run] at h
    cases hs : step cfg s e with
    | none => rw [hs] at h; cases h
    | some u =>
      rw [hs] at h
      have h1 := left_step (ho e List.mem_cons_self) hs
      have h2 := ih u s' (fun e' he' => ho e' (List.mem_cons_of_mem _ he')) h
      rw [List.length_cons]
      omega

theorem still_calls {cfg : Cfg} {s : State} (h : Still cfg s) : ∀ c ∈ s.calls, c = .idle := by
  intro c hc
  obtain ⟨i, hi⟩ := List.getElem?_of_mem hc
  cases c with
  | idle => rfl
  | checked t b => have := h (.count i) rfl; simp [step, hi] at this
  | counted t b => have := h (.go i) rfl; simp [step, hi] at this
  | running t => have := h (.finish i) rfl; simp [step, hi] at this
  | ran t => have := h (.settle i) rfl; simp [step, hi] at this
  | pushed =>
    by_cases hw : Work.waiting ∈ s.workers
    · obtain ⟨j, hj⟩ := List.getElem?_of_mem hw
      have := h (.signal i (some j)) rfl
      simp [step, hi, hj] at this
    · have := h (.signal i none) rfl
      simp [step, hi, hw] at this

theorem still_workers {cfg : Cfg} {s : State} (h : Still cfg s) : ∀ w ∈ s.workers, w = .waiting ∨ w = .gone := by
  intro w hw
  obtain ⟨i, hi⟩ := List.getElem?_of_mem hw
  cases w with
  | waiting => exact .inl rfl
  | gone => exact .inr rfl
  | look => have := h (.look i) rfl; simp [step, hi] at this
  | running t => have := h (.wfinish i) rfl; simp [step, hi] at this
  | ran t => have := h (.wsettle i) rfl; simp [step, hi] at this

theorem still_done {cfg : Cfg} {m : Nat} {s : State} (hi : Inv cfg m s) (hn : 0 < cfg.workers) (hs : s.stop = false)
    (h : Still cfg s) : s.queue = [] ∧ s.pending = 0 ∧ ∀ t, s.done.count t = s.taken.count t := by
  have hc := still_calls h
  have hw := still_workers h
  have z : ∀ f : Call → Nat, f .idle = 0 → sumBy f s.calls = 0 := fun f hf => sumBy_zero f fun a ha => by rw [hc a ha, hf]
  have zw : ∀ f : Work → Nat, f .waiting = 0 → f .gone = 0 → sumBy f s.workers = 0 := fun f hf hg =>
    sumBy_zero f fun a ha => by rcases hw a ha with e | e <;> rw [e] <;> assumption
  have hq : s.queue = [] := by
    cases hq : s.queue with
    | nil => rfl
    | cons t q =>
      have := hi.wake hn hs (by rw [hq]; simp)
      rw [z Call.sig rfl, zw Work.up rfl rfl] at this
      omega
  refine ⟨hq, ?_, ?_⟩
  · have := hi.pend
    rw [hq, z Call.cnt rfl, zw Work.cnt rfl rfl] at this
    simpa using this
  · intro t
    have := hi.place t
    rw [hq, z (Call.has t) rfl, zw (Work.has t) rfl rfl] at this
    simpa using this.symm

/-- C101: when the threads are at rest, every task that was taken has been run, as often as it was
given (no wake-up is lost). -/
theorem C101_run {cfg : Cfg} {m : Nat} {s : State} (h : Reach cfg m s) (hn : 0 < cfg.workers) (hs : s.stop = false)
    (hr : Still cfg s) : s.queue = [] ∧ ∀ t, s.done.count t = s.taken.count t :=
  ⟨(still_done (inv_reach h) hn hs hr).1, (still_done (inv_reach h) hn hs hr).2.2⟩

theorem pending_eq {cfg : Cfg} {m : Nat} {s : State} (hi : Inv cfg m s) :
    s.pending + s.done.length + raising s = s.taken.length + lowering s := by
  have h1 := hi.pend
  have h2 := hi.size
  have a1 : (s.calls.filter fun c => match c with | .ran _ => true | _ => false).length =
      sumBy (fun c => match c with | .ran _ => 1 | _ => 0) s.calls := filter_sumBy _ _ _ (by intro a; cases a <;> rfl)
  have a2 : (s.workers.filter fun c => match c with | .ran _ => true | _ => false).length =
      sumBy (fun c => match c with | .ran _ => 1 | _ => 0) s.workers := filter_sumBy _ _ _ (by intro a; cases a <;> rfl)
  have a3 : raising s = sumBy Call.chk s.calls := filter_sumBy _ _ _ (by intro a; cases a <;> rfl)
  have b1 : ∀ l : List Call, sumBy Call.any l + sumBy (fun c => match c with | .ran _ => 1 | _ => 0) l =
      sumBy Call.cnt l + sumBy Call.chk l := by
    intro l
    induction l with
    | nil => rfl
    | cons a l ih =>
      simp only [sumBy_cons]
      cases a <;> simp only [Call.any, Call.cnt, Call.chk] <;> omega
  have b2 : ∀ l : List Work, sumBy Work.any l + sumBy (fun c => match c with | .ran _ => 1 | _ => 0) l = sumBy Work.cnt l := by
    intro l
    induction l with
    | nil => rfl
    | cons a l ih =>
      simp only [sumBy_cons]
      cases a <;> simp only [Work.any, Work.cnt] <;> omega
  have c1 := b1 s.calls
  have c2 := b2 s.workers
  have a4 : lowering s = sumBy (fun c => match c with | .ran _ => 1 | _ => 0) s.calls +
      sumBy (fun c => match c with | .ran _ => 1 | _ => 0) s.workers := by
    rw [← a1, ← a2]
    rfl
  rw [a4, a3]
  omega

/-- C101: a task is refused exactly if there is a limit and the tasks taken and not run, and those
just run, are more (less those just taken). -/
theorem C101_refused {cfg : Cfg} {m : Nat} {s s' : State} {c t : Nat} (h : Reach cfg m s)
    (hs : step cfg s (.submit c t) = some s') :
    (s'.refused = s.refused ++ [(c, t)] ∧ s'.taken = s.taken ↔
      0 < cfg.max ∧ cfg.max + s.done.length + raising s < s.taken.length + lowering s) ∧
    (s'.taken = s.taken ++ [(c, t)] ∧ s'.refused = s.refused ↔
      ¬ (0 < cfg.max ∧ cfg.max + s.done.length + raising s < s.taken.length + lowering s)) := by
  have hi := inv_reach h
  have hp := pending_eq hi
  have hp0 : 0 ≤ s.pending := by have := hi.pend; omega
  have n1 : ∀ l : List Task, l ≠ l ++ [(c, t)] := fun l e => by
    have := congrArg List.length e
    simp at this
  have hiff : (0 < cfg.max ∧ cfg.max < asU s.pending) ↔
      (0 < cfg.max ∧ cfg.max + s.done.length + raising s < s.taken.length + lowering s) := by
    rw [asU_of_nonneg hp0]
    constructor <;> rintro ⟨h1, h2⟩ <;> exact ⟨h1, by omega⟩
  rw [← hiff]
  simp only [step] at hs
  split at hs
  · cases hs
    unfold submit
    split
    · rename_i hc
      refine ⟨⟨fun _ => hc, fun _ => ⟨rfl, rfl⟩⟩, ⟨fun e => absurd e.1 (n1 _), fun e => absurd hc e⟩⟩
    · rename_i hc
      refine ⟨⟨fun e => absurd e.2 (Ne.symm (n1 _)), fun e => absurd e hc⟩, ⟨fun _ => hc, fun _ => ⟨rfl, rfl⟩⟩⟩
  · cases hs

/-- C101: with a limit, the tasks taken and not run are at most the limit and one for each caller. -/
theorem C101_bound {cfg : Cfg} {m : Nat} {s : State} (h : Reach cfg m s) (hm : 0 < cfg.max) :
    (s.taken.length : Int) ≤ s.done.length + cfg.max + m := by
  have hi := inv_reach h
  have hp := pending_eq hi
  have hb := hi.bound hm
  have a3 : raising s = sumBy Call.chk s.calls := filter_sumBy _ _ _ (by intro a; cases a <;> rfl)
  omega

/-- C101: the workers begin the tasks in the order in which they were put into the queue. -/
theorem C101_order {cfg : Cfg} {m : Nat} {s : State} (h : Reach cfg m s) : s.begun <+: s.queued := by
  have := (inv_reach h).fifo
  exact ⟨s.queue, this.symm⟩

/-- C101: if no task is run in place, the tasks one caller gives are begun in the order it gives them. -/
theorem C101_order_partial {cfg : Cfg} {m : Nat} {s : State} (h : Reach cfg m s) (hc : cfg.inplace = false) (c : Nat) :
    ofCaller c s.begun <+: ofCaller c s.taken := by
  obtain ⟨l, hl⟩ := h
  have hi := inv_run l (inv_init cfg m) hl
  have ho := ord_run hc l (inv_init cfg m) (ord_init cfg m) hl
  rw [ho.order c, hi.fifo, ofCaller_append, List.append_assoc]
  exact List.prefix_append _ _

/-- All the workers have ended. -/
def Over (s : State) : Prop := ∀ w ∈ s.workers, w = .gone

theorem over_step {cfg : Cfg} {s s' : State} {e : Ev} (ho : Over s) (h : step cfg s e = some s') :
    Over s' ∧ s.queue <+: s'.queue := by
  have hw : ∀ (w : Nat) x, s.workers[w]? = some x → x = .gone := fun w x hx => ho x (List.mem_of_getElem? hx)
  cases e with
  | submit c t =>
    simp only [step] at h
    split at h
    · cases h
      unfold submit
      split <;> exact ⟨ho, List.prefix_rfl⟩
    · cases h
  | count c =>
    simp only [step] at h
    split at h
    · cases h; exact ⟨ho, List.prefix_rfl⟩
    · cases h
  | go c =>
    simp only [step] at h
    split at h
    · cases h
      unfold go
      split
      · exact ⟨ho, List.prefix_rfl⟩
      · exact ⟨ho, List.prefix_append _ _⟩
    · cases h
  | finish c =>
    simp only [step] at h
    split at h
    · cases h; exact ⟨ho, List.prefix_rfl⟩
    · cases h
  | settle c =>
    simp only [step] at h
    split at h
    · cases h; exact ⟨ho, List.prefix_rfl⟩
    · cases h
  | signal c w =>
    cases w with
    | none =>
      simp only [step] at h
      split at h
      · cases h; exact ⟨ho, List.prefix_rfl⟩
      · cases h
    | some w =>
      simp only [step] at h
      split at h
      · rename_i hc
        have := hw w _ hc.2
        cases this
      · cases h
  | look w =>
    simp only [step] at h
    split at h
    · rename_i hc
      have := hw w _ hc
      cases this
    · cases h
  | wfinish w =>
    simp only [step] at h
    split at h
    · rename_i t hc
      have := hw w _ hc
      cases this
    · cases h
  | wsettle w =>
    simp only [step] at h
    split at h
    · rename_i t hc
      have := hw w _ hc
      cases this
    · cases h
  | wake w =>
    simp only [step] at h
    split at h
    · rename_i hc
      have := hw w _ hc
      cases this
    · cases h
  | destroy =>
    simp only [step] at h
    cases h
    exact ⟨ho, List.prefix_rfl⟩

theorem over_run {cfg : Cfg} (l : List Ev) {s s' : State} (ho : Over s) (h : run cfg l s = some s') : s.queue <+: s'.queue := by
  induction l generalizing s with
  | nil => cases h; exact List.prefix_rfl
  | cons e l ih =>
    simp only [run] at h
    cases hs : step cfg s e with
    | none => rw [hs] at h; cases h
    | some u =>
      rw [hs] at h
      obtain ⟨h1, h2⟩ := over_step ho hs
      exact h2.trans (ih h1 h)

/-- A worker ends only when it has been told to and the queue is empty: all that was put into the
queue before has been begun. -/
theorem C101_stop_partial {cfg : Cfg} {m : Nat} {s s' : State} {w : Nat} (h : Reach cfg m s)
    (hs : step cfg s (.look w) = some s') (hg : s'.workers[w]? = some .gone) :
    s.stop = true ∧ s.begun = s.queued := by
  have hi := inv_reach h
  simp only [step] at hs
  split at hs
  · rename_i hw
    have hlt : w < s.workers.length := by
      rcases Nat.lt_or_ge w s.workers.length with e | e
      · exact e
      · rw [List.getElem?_eq_none e] at hw; cases hw
    cases hs
    unfold look at hg
    split at hg
    · rename_i hq
      simp only [List.getElem?_set_self hlt] at hg
      cases hst : s.stop with
      | true =>
        refine ⟨rfl, ?_⟩
        have := hi.fifo
        rw [hq, List.append_nil] at this
        exact this.symm
      | false => rw [hst] at hg; simp at hg
    · simp only [List.getElem?_set_self hlt] at hg
      cases hg
  · cases hs

end Verif.Pool
