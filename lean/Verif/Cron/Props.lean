import Verif.Cron.Model

/-! # Periodic work of servers (C114) -/

namespace Verif.Cron

/-! ## Specification -/

/-- What happens to a periodic work of a server that is up: time passes, timers fire, runs begin and
end; it is not started again, paused or destroyed. -/
def Up : Ev → Prop
  | .start | .pause | .destroy => False
  | _ => True

/-- Times that are an interval apart, the first an interval after the start. -/
def Apart (interval : Nat) (times : List Nat) : Prop := (0 :: times).Pairwise (fun a b => a + interval ≤ b)

/-! ## Lemmas -/

/-- What holds of a chain. -/
def Ok (j : Job) (s : St) : Chain → Prop
  | .timer due => s.imm = true ∧ (∀ a ∈ 0 :: s.calls, a + j.interval ≤ due) ∧ s.runs = s.calls.length ∧
      (j.max = 0 ∨ s.runs < j.max) ∧ s.timer = some 0
  | .fresh => (s.imm = false → s.calls = []) ∧ (s.imm = true → ∀ a ∈ 0 :: s.calls, a + j.interval ≤ s.now) ∧
      s.runs = s.calls.length ∧ (j.max = 0 ∨ s.runs < j.max)
  | .running => s.imm = true ∧ s.calls.length = s.runs + 1 ∧ (j.max = 0 ∨ s.runs < j.max)
  | .done => s.runs = s.calls.length ∧ j.max ≠ 0 ∧ s.runs = j.max

/-- What holds at all times. -/
structure Inv (j : Job) (s : St) : Prop where
  alive : s.alive = true
  fault : s.fault = false
  pause : s.pause = false
  past : ∀ a ∈ s.calls, a ≤ s.now
  apart : Apart j.interval s.calls
  chain : ∃ c, s.chains = [c] ∧ Ok j s c

theorem inv_added (j : Job) : Inv j (added j) := by
  refine ⟨rfl, rfl, rfl, ?_, ?_, .fresh, rfl, ?_⟩
  · intro a ha
    cases ha
  · simp [Apart, added, step]
  · refine ⟨fun _ => rfl, ?_, rfl, ?_⟩
    · intro h
      cases h
    · change j.max = 0 ∨ 0 < j.max
      omega

theorem rearm_inv {j : Job} {s : St} (ha : s.alive = true) (hf : s.fault = false) (hp : s.pause = false)
    (hpast : ∀ a ∈ s.calls, a ≤ s.now) (hap : Apart j.interval s.calls) {c : Chain} (hc : s.chains = [c])
    (himm : s.imm = true) (hr : s.runs = s.calls.length) (hm : j.max = 0 ∨ s.runs ≤ j.max) : Inv j (rearm j s 0) := by
  unfold rearm
  split
  · rename_i h
    refine ⟨ha, hf, hp, hpast, hap, .timer (s.now + j.interval), ?_, himm, ?_, hr, h, rfl⟩
    · simp [hc]
    · intro a h
      rcases List.mem_cons.1 h with rfl | h
      · omega
      · have := hpast a h
        omega
  · rename_i h
    refine ⟨ha, hf, hp, hpast, hap, .done, ?_, hr, ?_, ?_⟩
    · simp [hc]
    · omega
    · change s.runs = j.max
      omega

theorem inv_step {j : Job} {s : St} (h : Inv j s) {e : Ev} (he : Up e) : Inv j (step j s e) := by
  obtain ⟨c, hc, hok⟩ := h.chain
  cases e with
  | start => exact he.elim
  | pause => exact he.elim
  | destroy => exact he.elim
  | tick d =>
    refine ⟨h.alive, h.fault, h.pause, ?_, h.apart, c, hc, ?_⟩
    · intro a ha
      have := h.past a ha
      simp only [step]
      omega
    · cases c with
      | fresh =>
        refine ⟨hok.1, ?_, hok.2.2⟩
        intro hi a ha
        have := hok.2.1 hi a ha
        simp only [step]
        omega
      | _ => exact hok
  | bodyEnd =>
    refine ⟨h.alive, h.fault, h.pause, h.past, h.apart, c, hc, ?_⟩
    cases c <;> exact hok
  | fire i =>
    cases i with
    | succ i => simp only [step, hc]; simpa using h
    | zero =>
      simp only [step, hc, List.getElem?_cons_zero]
      cases c with
      | timer due =>
        simp only
        split
        · rename_i hd
          refine ⟨h.alive, h.fault, h.pause, h.past, h.apart, .fresh, rfl, ?_, ?_, hok.2.2.1, hok.2.2.2.1⟩
          · intro hi
            have := hok.1
            rw [this] at hi
            cases hi
          · intro _ a ha
            have := hok.2.1 a ha
            exact Nat.le_trans this hd
        · exact h
      | _ => exact h
  | run i =>
    cases i with
    | succ i => simp only [step, hc]; simpa using h
    | zero =>
      cases c with
      | fresh =>
        obtain ⟨h1, h2, h3, h4⟩ := hok
        have hg : s.chains[0]? = some .fresh := by rw [hc]; rfl
        simp only [step]
        rw [hg]
        dsimp only
        rw [if_neg (by simp [h.alive]), if_neg (by simp [h.pause])]
        split
        · rename_i hi
          refine ⟨h.alive, h.fault, h.pause, ?_, ?_, .running, by simp [hc], hi, ?_, h4⟩
          · intro a ha
            rcases List.mem_append.1 ha with ha | ha
            · exact h.past a ha
            · have := List.mem_singleton.1 ha
              subst this
              exact Nat.le_refl _
          · have := h.apart
            unfold Apart at this ⊢
            rw [← List.cons_append, List.pairwise_append]
            refine ⟨this, List.pairwise_singleton .., ?_⟩
            intro a ha b hb
            have := List.mem_singleton.1 hb
            subst this
            exact h2 hi a ha
          · simp [h3]
        · rename_i hi
          have hcalls := h1 (by simpa using hi)
          exact rearm_inv (s := { s with imm := true }) h.alive h.fault h.pause h.past h.apart hc rfl h3 (by dsimp only; omega)
      | _ => simp only [step, hc, List.getElem?_cons_zero]; exact h
  | finish i =>
    cases i with
    | succ i => simp only [step, hc]; simpa using h
    | zero =>
      cases c with
      | running =>
        obtain ⟨h1, h2, h3⟩ := hok
        have hg : s.chains[0]? = some .running := by rw [hc]; rfl
        simp only [step]
        rw [hg]
        dsimp only
        rw [if_neg (by simp [h.alive])]
        exact rearm_inv (s := { s with runs := s.runs + 1 }) h.alive h.fault h.pause h.past h.apart hc h1 h2.symm
          (by dsimp only; omega)
      | _ => simp only [step, hc, List.getElem?_cons_zero]; exact h

theorem inv_exec {j : Job} : ∀ {l : List Ev} {s : St}, Inv j s → (∀ e ∈ l, Up e) → Inv j (exec j s l)
  | [], _, h, _ => h
  | e :: l, s, h, hl => by
    have h1 : Inv j (step j s e) := inv_step h (hl e (List.mem_cons_self ..))
    exact inv_exec (l := l) h1 (fun x hx => hl x (List.mem_cons_of_mem _ hx))

/-! ## Properties -/

/-- A periodic work of a server that is up is carried by one chain that goes on for ever (if it has
no limit): its function is never called while a call goes on, and its memory is not misused. -/
theorem C114_single (j : Job) {l : List Ev} (hl : ∀ e ∈ l, Up e) :
    (exec j (added j) l).fault = false ∧
      ∃ c, (exec j (added j) l).chains = [c] ∧ (j.max = 0 → c ≠ .done) := by
  have h := inv_exec (inv_added j) hl
  obtain ⟨c, hc, hok⟩ := h.chain
  refine ⟨h.fault, c, hc, ?_⟩
  intro h0 e
  subst e
  exact hok.2.1 h0

/-- Its function is called at times that are at least an interval apart, the first time an interval
after the start. -/
theorem C114_apart (j : Job) {l : List Ev} (hl : ∀ e ∈ l, Up e) : Apart j.interval (exec j (added j) l).calls :=
  (inv_exec (inv_added j) hl).apart

/-- It is called no more often than its limit says, and it goes on until it was called so often. -/
theorem C114_limit (j : Job) {l : List Ev} (hl : ∀ e ∈ l, Up e) (hm : j.max ≠ 0) :
    (exec j (added j) l).calls.length ≤ j.max ∧
      ((exec j (added j) l).chains = [.done] → (exec j (added j) l).calls.length = j.max) := by
  have h := inv_exec (inv_added j) hl
  obtain ⟨c, hc, hok⟩ := h.chain
  refine ⟨?_, ?_⟩
  · cases c with
    | timer d =>
      obtain ⟨_, _, h3, h4, _⟩ := hok
      omega
    | fresh =>
      obtain ⟨_, _, h3, h4⟩ := hok
      omega
    | running =>
      obtain ⟨_, h3, h4⟩ := hok
      omega
    | done =>
      obtain ⟨h3, _, h4⟩ := hok
      omega
  · intro hd
    rw [hc] at hd
    have := (List.cons.inj hd).1
    subst this
    obtain ⟨h3, _, h4⟩ := hok
    omega

/-- When its timer has been due, the function is called: nothing but the firing of the timer is
needed. -/
theorem C114_called (j : Job) {l : List Ev} (hl : ∀ e ∈ l, Up e) {due : Nat}
    (hc : (exec j (added j) l).chains = [.timer due]) (hd : due ≤ (exec j (added j) l).now) :
    (exec j (added j) (l ++ [.fire 0, .run 0])).calls
      = (exec j (added j) l).calls ++ [(exec j (added j) l).now] := by
  have h := inv_exec (inv_added j) hl
  have e : exec j (added j) (l ++ [.fire 0, .run 0]) = step j (step j (exec j (added j) l) (.fire 0)) (.run 0) := by
    simp [exec]
  rw [e]
  generalize exec j (added j) l = s at *
  obtain ⟨c, hc', hok⟩ := h.chain
  rw [hc] at hc'
  have := (List.cons.inj hc').1
  subst this
  have e1 : step j s (.fire 0) = { s with chains := [.fresh] } := by
    simp only [step, hc, List.getElem?_cons_zero]
    rw [if_pos hd]
    rfl
  rw [e1]
  simp [step, h.alive, h.pause, hok.1]

/-- A work that is destroyed while its timer is set is never called again, and its memory is not
misused.  (Missing: while it runs, `C114_destroy_false`.) -/
theorem C114_destroy_partial (j : Job) {l m : List Ev} (hl : ∀ e ∈ l, Up e) {due : Nat}
    (hc : (exec j (added j) l).chains = [.timer due]) :
    (exec j (added j) (l ++ .destroy :: m)).fault = false ∧
      (exec j (added j) (l ++ .destroy :: m)).calls = (exec j (added j) l).calls := by
  have h := inv_exec (inv_added j) hl
  have e : exec j (added j) (l ++ .destroy :: m) = exec j (step j (exec j (added j) l) .destroy) m := by
    simp [exec]
  rw [e]
  generalize exec j (added j) l = s at *
  obtain ⟨c, hc', hok⟩ := h.chain
  rw [hc] at hc'
  have := (List.cons.inj hc').1
  subst this
  have e1 : step j s .destroy = { s with alive := false, chains := [.done] } := by
    simp only [step, h.alive, if_true, delTimer]
    rw [hok.2.2.2.2, hc]
    rfl
  rw [e1]
  suffices ∀ (m : List Ev) (s t : St), t.alive = false → t.fault = false → t.chains = [.done] → t.calls = s.calls →
      (exec j t m).fault = false ∧ (exec j t m).calls = s.calls from this m s _ rfl h.fault rfl rfl
  intro m
  induction m with
  | nil => exact fun s t _ h2 _ h4 => ⟨h2, h4⟩
  | cons ev m ih =>
    intro s t h1 h2 h3 h4
    have hg : ∀ i : Nat, t.chains[i]? = some Chain.done ∨ t.chains[i]? = none := by
      intro i
      rw [h3]
      cases i <;> simp
    refine ih s (step j t ev) ?_ ?_ ?_ ?_ <;> cases ev with
      | tick d => simp [step, h1, h2, h3, h4]
      | start => simp [step, h1, h2, h3, h4]
      | pause => simp [step, h1, h2, h3, h4]
      | destroy => simp [step, h1, h2, h3, h4]
      | bodyEnd => simp [step, h1, h2, h3, h4]
      | fire i => rcases hg i with hi | hi <;> (simp only [step]; rw [hi]; first | exact h1 | exact h2 | exact h3 | exact h4)
      | run i => rcases hg i with hi | hi <;> (simp only [step]; rw [hi]; first | exact h1 | exact h2 | exact h3 | exact h4)
      | finish i => rcases hg i with hi | hi <;> (simp only [step]; rw [hi]; first | exact h1 | exact h2 | exact h3 | exact h4)

/-! ### Guards -/

/-- Handlers that test and set with nothing between. -/
inductive Blk | begin | enter (i : Nat) | leave (i : Nat)

/-- The steps of a block. -/
def Blk.steps : Blk → List GEv
  | .begin => [.begin]
  | .enter i => [.test i, .set i]
  | .leave i => [.leave i]

structure GInv (g : Guard) : Prop where
  noSet : ∀ i : Nat, g.hs[i]? ≠ some .set
  one : ∀ i k : Nat, g.hs[i]? = some .work → g.hs[k]? = some .work → i = k
  flag : ∀ i : Nat, g.hs[i]? = some .work → g.flag = true

theorem ginv_blk {g : Guard} (h : GInv g) (b : Blk) : GInv (gexec g b.steps) := by
  cases b with
  | begin =>
    have hx : ∀ (i : Nat) (p : HPC), p ≠ .test → (g.hs ++ [.test])[i]? = some p → g.hs[i]? = some p := by
      intro i p hp hi
      rw [List.getElem?_append] at hi
      split at hi
      · exact hi
      · cases hq : i - g.hs.length with
        | zero =>
          rw [hq] at hi
          simp at hi
          exact absurd hi.symm hp
        | succ q =>
          rw [hq] at hi
          simp at hi
    refine ⟨fun i hi => h.noSet i (hx i _ (by decide) hi), fun i k hi hk => h.one i k (hx i _ (by decide) hi) (hx k _ (by decide) hk),
      fun i hi => h.flag i (hx i _ (by decide) hi)⟩
  | enter i =>
    simp only [Blk.steps, gexec, List.foldl_cons, List.foldl_nil]
    by_cases ht : g.hs[i]? = some .test
    · have hlt : i < g.hs.length := (List.getElem?_eq_some_iff.1 ht).1
      have e1 : gstep g (.test i) = { g with hs := g.hs.set i (if g.flag then .out else .set) } := by
        simp only [gstep]
        rw [if_pos ht]
      rw [e1]
      cases hf : g.flag with
      | true =>
        have hne : (g.hs.set i .out)[i]? ≠ some .set := by
          rw [List.getElem?_set_self hlt]
          decide
        simp only [gstep, if_true]
        rw [if_neg hne]
        have hx : ∀ (k : Nat) (p : HPC), p ≠ .out → (g.hs.set i .out)[k]? = some p → g.hs[k]? = some p := by
          intro k p hp hk
          by_cases e : i = k
          · subst e
            rw [List.getElem?_set_self hlt] at hk
            exact absurd (Option.some.inj hk).symm hp
          · rwa [List.getElem?_set_ne e] at hk
        refine ⟨fun k hk => h.noSet k (hx k _ (by decide) hk), fun a b ha hb => h.one a b (hx a _ (by decide) ha) (hx b _ (by decide) hb),
          fun k hk => rfl⟩
      | false =>
        have hse : (g.hs.set i .set)[i]? = some .set := List.getElem?_set_self hlt
        simp only [gstep, Bool.false_eq_true, if_false]
        rw [if_pos hse, List.set_set]
        have hnw : ∀ k : Nat, g.hs[k]? ≠ some .work := by
          intro k hk
          have := h.flag k hk
          rw [hf] at this
          cases this
        have hx : ∀ k : Nat, (g.hs.set i .work)[k]? = some .work → k = i := by
          intro k hk
          by_cases e : i = k
          · exact e.symm
          · rw [List.getElem?_set_ne e] at hk
            exact absurd hk (hnw k)
        refine ⟨?_, fun a b ha hb => (hx a ha).trans (hx b hb).symm, fun _ _ => rfl⟩
        intro k hk
        by_cases e : i = k
        · subst e
          rw [List.getElem?_set_self hlt] at hk
          cases hk
        · rw [List.getElem?_set_ne e] at hk
          exact h.noSet k hk
    · have e1 : gstep g (.test i) = g := by
        simp only [gstep]
        rw [if_neg ht]
      have e2 : gstep g (.set i) = g := by
        simp only [gstep]
        rw [if_neg (h.noSet i)]
      rw [e1, e2]
      exact h
  | leave i =>
    simp only [Blk.steps, gexec, List.foldl_cons, List.foldl_nil, gstep]
    split
    · rename_i hw
      have hlt : i < g.hs.length := (List.getElem?_eq_some_iff.1 hw).1
      have hnw : ∀ k : Nat, (g.hs.set i .out)[k]? ≠ some .work := by
        intro k hk
        by_cases e : i = k
        · subst e
          rw [List.getElem?_set_self hlt] at hk
          cases hk
        · rw [List.getElem?_set_ne e] at hk
          exact e (h.one i k hw hk)
      refine ⟨?_, fun a b ha _ => absurd ha (hnw a), fun a ha => absurd ha (hnw a)⟩
      intro k hk
      by_cases e : i = k
      · subst e
        rw [List.getElem?_set_self hlt] at hk
        cases hk
      · rw [List.getElem?_set_ne e] at hk
        exact h.noSet k hk
    · exact h

/-- Collections of garbage do not overlap if none begins between the test and the setting of
another.  (Missing: test and setting are two steps, `C114_guard_false`.) -/
theorem C114_guard_partial (l : List Blk) {i k : Nat}
    (hi : (gexec ⟨false, []⟩ (l.flatMap Blk.steps)).hs[i]? = some .work)
    (hk : (gexec ⟨false, []⟩ (l.flatMap Blk.steps)).hs[k]? = some .work) : i = k := by
  have : ∀ (l : List Blk) (g : Guard), GInv g → GInv (gexec g (l.flatMap Blk.steps)) := by
    intro l
    induction l with
    | nil => exact fun g h => h
    | cons b l ih =>
      intro g h
      have := ih _ (ginv_blk h b)
      rw [List.flatMap_cons]
      unfold gexec at this ⊢
      rw [List.foldl_append]
      exact this
  exact (this l ⟨false, []⟩ ⟨by simp, by simp, by simp⟩).one i k hi hk

/-- Every server that holds data sends heartbeats, follows the safe points, collects garbage, takes
snapshots and clears streams; the coordinator works on jobs, leases, states and orphans. -/
theorem C114_table (r : Role) :
    (r ≠ .coordinator → ∀ w ∈ [Work.heartbeat, .storeMetrics, .updateSafePoint, .doGc, .raftSnapshot, .recycleStream], w ∈ worksOf r) ∧
      (r = .coordinator → ∀ w ∈ [Work.updateState, .jobs, .recycleOrphan, .lease, .compaction, .raftSnapshot], w ∈ worksOf r) := by
  cases r <;> decide +kernel

/-! ## What does not hold -/

/-- A server that ends while a periodic work runs: when the function returns, memory that was freed
is used. -/
theorem C114_destroy_false : ∃ l : List Ev,
    l = [.run 0, .tick 5, .fire 0, .run 0, .destroy, .finish 0] ∧ (exec ⟨5, 0, false⟩ (added ⟨5, 0, false⟩) l).fault = true :=
  ⟨_, rfl, by decide +kernel⟩

/-- A work that is paused and started again while it runs has two chains: its function is called
while a call goes on. -/
theorem C114_restart_false : ∃ l : List Ev,
    l = [.run 0, .tick 5, .fire 0, .run 0, .pause, .start, .run 1] ∧
      (exec ⟨5, 0, false⟩ (added ⟨5, 0, false⟩) l).chains = [.running, .running] :=
  ⟨_, rfl, by decide +kernel⟩

/-- Works that run in the background, as all do, may overlap with themselves. -/
theorem C114_async_false : ∃ l : List Ev,
    l = [.run 0, .tick 5, .fire 0, .run 0, .finish 0, .tick 5, .fire 0, .run 0, .finish 0] ∧ (∀ e ∈ l, e ≠ .start ∧ e ≠ .pause) ∧
      (exec ⟨5, 0, true⟩ (added ⟨5, 0, true⟩) l).bodies = 2 :=
  ⟨_, rfl, by decide +kernel⟩

/-- Two collections of garbage that both test before one sets go on side by side, and then even a
third while one of them works. -/
theorem C114_guard_false : ∃ l : List GEv,
    l = [.begin, .begin, .test 0, .test 1, .set 0, .set 1, .leave 0, .begin, .test 2, .set 2] ∧
      (gexec ⟨false, []⟩ l).hs = [.out, .work, .work] :=
  ⟨_, rfl, by decide +kernel⟩

/-- No server ever scrubs its document indexes: the entry for it is for index nodes and scrubs their
vector indexes a second time. -/
theorem C114_scrub_false : (∀ r, Work.scrubDocument ∉ worksOf r) ∧ (worksOf .index).count .scrubVector = 2 := by
  refine ⟨?_, by decide +kernel⟩
  intro r
  cases r <;> decide +kernel

/-! ## Cases of the theorems -/

/-- A work that is called twice, as its limit says. -/
def sample : List Ev := [.run 0, .tick 7, .fire 0, .run 0, .tick 1, .finish 0, .tick 5, .fire 0, .run 0, .finish 0, .tick 9, .fire 0]

example : (∀ e ∈ sample, Up e) ∧ (exec ⟨5, 2, false⟩ (added ⟨5, 2, false⟩) sample).calls = [7, 13] ∧
    (exec ⟨5, 2, false⟩ (added ⟨5, 2, false⟩) sample).chains = [.done] := by
  refine ⟨?_, by decide +kernel, by decide +kernel⟩
  intro e he
  simp only [sample, List.mem_cons, List.not_mem_nil, or_false] at he
  rcases he with rfl | rfl | rfl | rfl | rfl | rfl | rfl | rfl | rfl | rfl | rfl | rfl <;> trivial

/-- Its timer is due. -/
example : (exec ⟨5, 0, false⟩ (added ⟨5, 0, false⟩) (sample.take 2)).chains = [.timer 5] ∧
    5 ≤ (exec ⟨5, 0, false⟩ (added ⟨5, 0, false⟩) (sample.take 2)).now := by decide +kernel

/-- A collection of garbage works, a second goes out. -/
example : (gexec ⟨false, []⟩ ([Blk.begin, .begin, .enter 1, .enter 0].flatMap Blk.steps)).hs = [.out, .work] := by decide +kernel

end Verif.Cron
