import Verif.Job.Advance

/-!
# C86: jobs are done step by step

The theorems are about every run (`Run`): requests, passes, reports of failures, requests to clean
jobs, each preparing an entry from the jobs of its time, and entries applied in any order or lost.
-/

namespace Verif.Job

/-! ## Order -/

/-- A command is only sent as part of a job that was asked for, to the store the job names (or to
the leader), when what the coordinator knows meets all conditions of its step, and when all earlier
steps are done: their conditions held at some time, and all their commands were accepted. -/
theorem C86_order {cap : Nat} {s : State} {h : Obs → Prop} (hr : Run cap s h) {v : View} {order : List Nat}
    {reply : Nat → Bool → Reply} {x : Sent} (hx : x ∈ s.sends cap (.pass v order reply)) :
    ∃ j t o c, h (.made j) ∧ j.id = x.job ∧ j.tasks[x.step]? = some t ∧ o ∈ t.ops ∧ c ∈ o.cmds ∧ For x o c ∧
      (∀ o ∈ t.ops, o.check.Holds v) ∧ ∀ m, m < x.step → Done h j m := by
  obtain ⟨j, j0, hj, _, h0, hd⟩ := pass_sent (run_inv hr) hx
  obtain ⟨t, ht, hp, o, hot, hst, hc⟩ := hd.task
  obtain ⟨t0, ht0, htl⟩ := h0.like.get ht
  obtain ⟨o0, ho0, c0, hc0, he, hs0⟩ := htl.place o hot x.cmd hc
  refine ⟨j0, t0, o0, c0, h0.made, by rw [hd.job, h0.like.id], by rw [hd.step]; exact ht0, ho0, hc0, ⟨he.symm, ?_⟩,
    htl.holds hp, fun m hm => h0.done m (by rw [← hd.step]; exact hm)⟩
  intro hf
  rw [hst, hs0 (by rw [← plain_type he]; exact hf)]

/-- Whenever the coordinator turns to a step of a job, all earlier steps are done. -/
theorem C86_looked {cap : Nat} {s : State} {h : Obs → Prop} (hr : Run cap s h) {id m : Nat} {v : View}
    (hl : h (.looked id m v)) : ∃ j, h (.made j) ∧ j.id = id ∧ ∀ k, k < m → Done h j k := by
  induction hr with
  | start => cases hl
  | @step s s' h e hr hf hs ih =>
    rcases hl with hl | hl
    · obtain ⟨j, h1, h2, h3⟩ := ih hl
      exact ⟨j, Or.inl h1, h2, fun k hk => (h3 k hk).mono (fun _ => Or.inl)⟩
    · cases hl with
      | looked hj _ =>
        obtain ⟨j0, h0⟩ := (run_inv hr).tab.ok _ hj
        exact ⟨j0, Or.inl h0.made, h0.like.id.symm, fun k hk => (h0.done k hk).mono (fun _ => Or.inl)⟩

/-- A job that is said to have succeeded was asked for, and all its steps were done, unless somebody
asked for it to be cleaned.  Missing: cleaned jobs are said to have succeeded as well
(`C86_cleaned_false`). -/
theorem C86_success_partial {cap : Nat} {s : State} {h : Obs → Prop} (hr : Run cap s h) {j : Job}
    (hj : (j, true) ∈ s.jobs.archive) :
    ∃ j0, h (.made j0) ∧ j0.id = j.id ∧ j0.kind = j.kind ∧
      ((∀ m, m < j0.tasks.length → Done h j0 m) ∨ ∃ n, h (.cleaned n) ∧ (n = 0 ∨ n = j.id)) := by
  have hi := run_inv hr
  obtain ⟨⟨j0, h0, hl⟩, hor⟩ := hi.tab.arch j hj
  refine ⟨j0, h0, hl.id.symm, hl.kind.symm, ?_⟩
  rcases hor with ⟨j1, h1, h2, h3⟩ | hc
  · have : j1 = j0 := hi.hist.uniq j1 j0 h1 h0 (by rw [h2, hl.id])
    subst this
    exact Or.inl h3
  · exact Or.inr hc

/-! ## Progress -/

/-- A pass whose entry is applied before anything else is: it does not end the coordinator; a job
with all steps done is archived as successful; a job whose conditions do not hold stays as it is;
and a job whose conditions hold, and whose commands, if there are any, are all sent and accepted,
goes on to the next step. -/
theorem C86_advances {cap : Nat} {s : State} {h : Obs → Prop} (hr : Run cap s h) {v : View} {order : List Nat}
    (ho : order.Nodup) (reply : Nat → Bool → Reply) :
    ∃ s', s.jobs.applyAll (s.prepare cap (.pass v order reply)) = some s' ∧
      ∀ j ∈ s.jobs.jobs, j.id ∈ order →
        (j.next = j.tasks.length → (j, true) ∈ s'.archive ∧ ∀ k ∈ s'.jobs, k.id ≠ j.id) ∧
        (∀ t, j.tasks[j.next]? = some t → (¬ ∀ o ∈ t.ops, o.check.Holds v) → j ∈ s'.jobs) ∧
        (∀ t, j.tasks[j.next]? = some t → (∀ o ∈ t.ops, o.check.Holds v) →
          (∀ r ∈ t.drops, ∃ q, v.regions r = some q) →
          (∀ o ∈ t.ops, ∀ c ∈ o.cmds, (⟨o.store, j.id, j.next, c⟩ : Sent) ∈ s.sends cap (.pass v order reply) ∧
            ∃ code, answer reply ⟨o.store, j.id, j.next, c⟩ = some (.code code) ∧ Accepts c.type code) →
          ∃ j' ∈ s'.jobs, j'.id = j.id ∧ j'.next = j.next + 1 ∧ j'.tasks.length = j.tasks.length) := by
  have hi := run_inv hr
  obtain ⟨s', ha⟩ := pass_applies (cap := cap) (s := s) (v := v) ho reply
  refine ⟨s', ha, ?_⟩
  intro j hj hjo
  refine ⟨?_, ?_, ?_⟩
  · intro hn
    obtain ⟨h1, h2⟩ := advance_end hi hj hjo hn ha
    exact ⟨h2, fun k hk hid => by simpa [hid] using List.find?_eq_none.mp h1 k hk⟩
  · intro t ht hp
    exact (get_some (waits hi hj ht hp ha)).1
  · intro t ht hp hd hall
    by_cases hc : t.cmds = []
    · obtain ⟨h1, _⟩ := get_some (advance_empty hi hj hjo ht hp hd hc ha)
      exact ⟨_, h1, rfl, rfl, rfl⟩
    · obtain ⟨j', hg, h1, h2⟩ := advance_cmds hi hj ht hc hall ha
      exact ⟨j', (get_some hg).1, (get_some hg).2, h1, h2⟩

/-- The commands of a job whose conditions hold are sent, if no more commands than a store may be
sent at once are waiting. -/
theorem C86_sent {cap : Nat} {s : State} {h : Obs → Prop} (hr : Run cap s h) {v : View} {order : List Nat}
    (reply : Nat → Bool → Reply) (hcap : sizes s.jobs order ≤ cap + 1) {j : Job} (hj : j ∈ s.jobs.jobs) (hjo : j.id ∈ order)
    {t : Task} (ht : j.tasks[j.next]? = some t) (hp : ∀ o ∈ t.ops, o.check.Holds v) :
    ∀ o ∈ t.ops, ∀ c ∈ o.cmds, (⟨o.store, j.id, j.next, c⟩ : Sent) ∈ s.sends cap (.pass v order reply) :=
  fun _ ho _ hc => processAll_sends (run_inv hr).tab.ids hj ht hp ho hc hjo (by simpa using hcap)

/-! ## A run -/

/-- Events one after the other. -/
def State.steps (cap : Nat) (s : State) : List Ev → Option State
  | [] => some s
  | e :: es => (s.step cap e).bind (fun s => s.steps cap es)

/-- Events of which nothing needs to be assumed. -/
theorem Run.steps {cap : Nat} : ∀ {es : List Ev} {s s' : State} {h : Obs → Prop}, Run cap s h → (∀ e ∈ es, ∀ h, Fair h e) →
    s.steps cap es = some s' → ∃ h', Run cap s' h' ∧ ∀ o, h o → h' o
  | [], s, s', h, hr, _, hs => by cases hs; exact ⟨h, hr, fun _ ho => ho⟩
  | e :: es, s, s', h, hr, hf, hs => by
    unfold State.steps at hs
    cases he : s.step cap e with
    | none => rw [he] at hs; cases hs
    | some s1 =>
      rw [he, Option.bind_some] at hs
      obtain ⟨h', hr', hm⟩ := Run.steps (hr.step (hf e (List.mem_cons_self ..) h) he) (fun e he => hf e (List.mem_cons_of_mem _ he)) hs
      exact ⟨h', hr', fun o ho => hm o (Or.inl ho)⟩

namespace Example

/-- Region 7 on stores 1, 2 and 3, led by store 1. -/
def rec7 (peers : List Nat) : Rec := ⟨.normal, ⟨[1], [9]⟩, peers, false, 1, true, true, 1, 0, 0⟩

/-- What the coordinator knows: the peers of region 7, and whether store 4 has reported it. -/
def view (peers : List Nat) (seen : Bool) : View :=
  ⟨fun r => if r = 7 then some (rec7 peers) else none,
   fun st r => if r = 7 ∧ (st ∈ [1, 2, 3] ∨ (st = 4 ∧ seen)) then some ⟨.normal, false, false, 0⟩ else none⟩

/-- All commands are accepted. -/
def allOk : Nat → Bool → Reply := fun _ _ => some (fun _ => some (.code .ok))

/-- Store 1 is not the leader any more, store 2 is. -/
def moved : Nat → Bool → Reply := fun st _ =>
  some (fun c => if c.type.leader ∧ st = 1 then some (.notLeader 2) else some (.code .ok))

theorem fair_ok (v : View) (order : List Nat) (h : Obs → Prop) : Fair h (.pass v order allOk) := by
  intro st b f c n hf hc
  cases hf
  simp at hc

theorem fair_moved (v : View) (order : List Nat) (h : Obs → Prop) : Fair h (.pass v order moved) := by
  intro st b f c n hf hc
  cases hf
  simp only at hc
  split at hc
  · rename_i hh; exact hh.1
  · cases hc

/-- A peer is added on store 4: until the new replica is reported. -/
def start : List Ev :=
  [.request (view [1, 2, 3] false) (.addPeer 7 4), .commit 0, .pass (view [1, 2, 3] false) [1] allOk, .commit 0]

/-- The rest of it. -/
def rest : List Ev :=
  [.pass (view [1, 2, 3] true) [1] allOk, .commit 0, .pass (view [1, 2, 3] true) [1] moved, .commit 0]

def state (es : List Ev) : State := (State.empty.steps 100 es).getD .empty

theorem run_of (es : List Ev) (hf : ∀ e ∈ es, ∀ h, Fair h e) (hs : (State.empty.steps 100 es).isSome = true) :
    ∃ h, Run 100 (state es) h := by
  unfold state
  cases he : State.empty.steps 100 es with
  | none => rw [he] at hs; cases hs
  | some s =>
    obtain ⟨h, hr, _⟩ := Run.start.steps hf he
    exact ⟨h, hr⟩

theorem fair_list {es : List Ev} (hf : ∀ e ∈ es, (∃ v q, e = .request v q) ∨ (∃ i, e = .commit i) ∨ (∃ i, e = .clean i) ∨
    (∃ v o, e = .pass v o allOk) ∨ ∃ v o, e = .pass v o moved) : ∀ e ∈ es, ∀ h, Fair h e := by
  intro e he h
  rcases hf e he with ⟨v, q, rfl⟩ | ⟨i, rfl⟩ | ⟨i, rfl⟩ | ⟨v, o, rfl⟩ | ⟨v, o, rfl⟩
  · trivial
  · trivial
  · trivial
  · exact fair_ok v o h
  · exact fair_moved v o h

theorem fair_start : ∀ e ∈ start, ∀ h, Fair h e := by
  apply fair_list
  intro e he
  simp only [start, List.mem_cons, List.not_mem_nil, or_false] at he
  rcases he with rfl | rfl | rfl | rfl
  · exact Or.inl ⟨_, _, rfl⟩
  · exact Or.inr (Or.inl ⟨_, rfl⟩)
  · exact Or.inr (Or.inr (Or.inr (Or.inl ⟨_, _, rfl⟩)))
  · exact Or.inr (Or.inl ⟨_, rfl⟩)

theorem fair_rest : ∀ e ∈ rest, ∀ h, Fair h e := by
  apply fair_list
  intro e he
  simp only [rest, List.mem_cons, List.not_mem_nil, or_false] at he
  rcases he with rfl | rfl | rfl | rfl
  · exact Or.inr (Or.inr (Or.inr (Or.inl ⟨_, _, rfl⟩)))
  · exact Or.inr (Or.inl ⟨_, rfl⟩)
  · exact Or.inr (Or.inr (Or.inr (Or.inr ⟨_, _, rfl⟩)))
  · exact Or.inr (Or.inl ⟨_, rfl⟩)

/-- The change of peers is sent to the new leader, store 2, after the steps before it. -/
example : ∃ h, Run 100 (state (start ++ rest)) h ∧
    (⟨2, 1, 2, ⟨2, .changePeer, 7, none, [4, 1, 2, 3], false⟩⟩ : Sent) ∈
      (state (start ++ rest)).sends 100 (.pass (view [1, 2, 3] true) [1] allOk) := by
  obtain ⟨h, hr⟩ := run_of (start ++ rest) (by
    intro e he
    rcases List.mem_append.mp he with he | he
    · exact fair_start e he
    · exact fair_rest e he) (by decide +kernel)
  exact ⟨h, hr, by decide +kernel⟩

/-- The coordinator looks at the second step of the job. -/
example : ∃ s h, Run 100 s h ∧ h (.looked 1 1 (view [1, 2, 3] true)) := by
  obtain ⟨h, hr⟩ := run_of start fair_start (by decide +kernel)
  refine ⟨_, _, hr.step (fair_ok (view [1, 2, 3] true) [1] h) rfl, Or.inr ?_⟩
  have hj : ∃ j ∈ (state start).jobs.jobs, j.id = 1 ∧ j.next = 1 := by decide +kernel
  obtain ⟨j, hj, h1, h2⟩ := hj
  have := Shows.looked (cap := 100) (v := view [1, 2, 3] true) (order := [1]) (reply := allOk) hj (by rw [h1]; simp)
  rw [h1, h2] at this
  exact this

/-- The whole job. -/
def whole : List Ev := start ++ rest ++
  [.pass (view [1, 2, 3] true) [1] allOk, .commit 0, .pass (view [4, 1, 2, 3] true) [1] allOk, .commit 0,
   .pass (view [1, 2, 3, 4] true) [1] allOk, .commit 0]

/-- The job is archived as successful. -/
example : ∃ h, Run 100 (state whole) h ∧ ((state whole).jobs.archive.any (fun j => j.2 && decide (j.1.id = 1))) = true := by
  obtain ⟨h, hr⟩ := run_of whole (by
    intro e he
    rcases List.mem_append.mp he with he | he
    · rcases List.mem_append.mp he with he | he
      · exact fair_start e he
      · exact fair_rest e he
    · simp only [List.mem_cons, List.not_mem_nil, or_false] at he
      intro h
      rcases he with rfl | rfl | rfl | rfl | rfl | rfl
      · exact fair_ok _ _ h
      · trivial
      · exact fair_ok _ _ h
      · trivial
      · exact fair_ok _ _ h
      · trivial) (by decide +kernel)
  exact ⟨h, hr, by decide +kernel⟩

/-- The first step of the job is sent and accepted (hypotheses of `C86_advances` and `C86_sent`). -/
example : ∃ h, Run 100 (state (start.take 2)) h ∧ sizes (state (start.take 2)).jobs [1] ≤ 101 ∧
    ∃ j ∈ (state (start.take 2)).jobs.jobs, j.id = 1 ∧ ∃ t, j.tasks[j.next]? = some t ∧ t.ops.length = 1 ∧ t.cmds.length = 1 ∧
      (∀ o ∈ t.ops, o.check = .none) ∧ t.drops = [] ∧
      (∀ o ∈ t.ops, ∀ c ∈ o.cmds, (⟨o.store, j.id, j.next, c⟩ : Sent) ∈
        (state (start.take 2)).sends 100 (.pass (view [1, 2, 3] false) [1] allOk)) := by
  obtain ⟨h, hr⟩ := run_of (start.take 2) (fun e he => fair_start e (List.mem_of_mem_take he)) (by decide +kernel)
  exact ⟨h, hr, by decide +kernel, by
    refine ⟨(state (start.take 2)).jobs.jobs.head (by decide +kernel), List.head_mem _, by decide +kernel,
      ((state (start.take 2)).jobs.jobs.head (by decide +kernel)).tasks.head (by decide +kernel), ?_⟩
    refine ⟨?_, ?_, ?_, ?_, ?_, ?_⟩ <;> decide +kernel⟩

end Example

/-! ## What does not hold -/

namespace Example

theorem run_append {es es' : List Ev} {h : Obs → Prop} (hr : Run 100 (state es) h) (hf : ∀ e ∈ es', ∀ h, Fair h e)
    (hs : ((state es).steps 100 es').isSome = true) : ∃ h', Run 100 (((state es).steps 100 es').getD .empty) h' ∧ ∀ o, h o → h' o := by
  cases he : (state es).steps 100 es' with
  | none => rw [he] at hs; cases hs
  | some s => exact hr.steps hf he

end Example

open Example in
/-- Not so: that a command that failed is sent again before the job goes on.  A store reports that
a command it had accepted failed while a pass is under way that found the next step done; the
failure is applied, and then the entry of the pass, which puts back the job as the pass had read
it.  The failure is forgotten. -/
theorem C86_lost_failure_false : ∃ (s s1 s2 : State) (h : Obs → Prop) (e : List Inc), Run 100 s h ∧
    s.pending = [e, [.status 1 1 .fail]] ∧
    s.step 100 (.commit 1) = some s1 ∧ (s1.jobs.get 1).map (fun j => (j.next, j.tasks.any (fun t => t.cmds.any Cmd.retry))) = some (0, true) ∧
    s1.step 100 (.commit 0) = some s2 ∧ (s2.jobs.get 1).map (fun j => (j.next, j.tasks.any (fun t => t.cmds.any Cmd.retry))) = some (2, false) := by
  obtain ⟨h, hr⟩ := run_of (start.take 2) (fun e he => fair_start e (List.mem_of_mem_take he)) (by decide +kernel)
  -- the creation is sent
  have hx : (⟨4, 1, 0, ⟨1, .create, 7, none, [], false⟩⟩ : Sent) ∈
      (state (start.take 2)).sends 100 (.pass (view [1, 2, 3] false) [1] allOk) := by decide +kernel
  have h1 := hr.step (fair_ok (view [1, 2, 3] false) [1] h) rfl
  obtain ⟨h2, hr2, hm⟩ := h1.steps (es := [.commit 0, .pass (view [1, 2, 3] true) [1] allOk]) (s' :=
    state (start ++ [.pass (view [1, 2, 3] true) [1] allOk])) (by
      intro e he h
      simp only [List.mem_cons, List.not_mem_nil, or_false] at he
      rcases he with rfl | rfl
      · trivial
      · exact fair_ok _ _ h) rfl
  have h3 := hr2.step (e := .report 1 1) ⟨_, hm _ (Or.inr (.sent hx)), rfl, rfl⟩ rfl
  exact ⟨_, _, _, _, _, h3, rfl, rfl, by decide +kernel, rfl, by decide +kernel⟩

open Example in
/-- Not so: that a command that failed is accepted again before the job goes on.  That an operation
succeeded is never taken back: of a region created on stores 1 and 2, store 1 reports a failure;
then only store 2 answers to the commands sent again, and the job goes on. -/
theorem C86_retry_false : ∃ (s : State) (s' : Jobs) (h : Obs → Prop) (v : View) (reply : Nat → Bool → Reply) (j j' : Job) (t : Task) (o : Op) (c : Cmd),
    Run 100 s h ∧ s.pending = [] ∧ j ∈ s.jobs.jobs ∧ j.tasks[j.next]? = some t ∧ o ∈ t.ops ∧ c ∈ o.cmds ∧ c.retry = true ∧
    answer reply ⟨o.store, j.id, j.next, c⟩ = none ∧
    s.jobs.applyAll (s.prepare 100 (.pass v [j.id] reply)) = some s' ∧ j' ∈ s'.jobs ∧ j'.id = j.id ∧ j'.next = j.next + 1 := by
  have hp : ∀ e ∈ [Ev.request (view [1, 2, 3] false) (.create 7 [1, 2]), .commit 0], ∀ h, Fair h e := by
    intro e he h
    simp only [List.mem_cons, List.not_mem_nil, or_false] at he
    rcases he with rfl | rfl <;> trivial
  obtain ⟨h, hr⟩ := run_of _ hp (by decide +kernel)
  have hx : (⟨1, 1, 0, ⟨1, .create, 7, none, [], false⟩⟩ : Sent) ∈
      (state [Ev.request (view [1, 2, 3] false) (.create 7 [1, 2]), .commit 0]).sends 100 (.pass (view [1, 2, 3] false) [1] allOk) := by decide +kernel
  have h1 := hr.step (fair_ok (view [1, 2, 3] false) [1] h) rfl
  have h2 := h1.step (e := .commit 0) trivial rfl
  have h3 := h2.step (e := .report 1 1) ⟨_, Or.inl (Or.inr (.sent hx)), rfl, rfl⟩ rfl
  have h4 := h3.step (e := .commit 0) trivial rfl
  refine ⟨_, _, _, view [1, 2, 3] false, fun st _ => if st = 1 then none else some (fun _ => some (.code .repeated)),
    _, _, _, _, _, h4, rfl, List.Mem.head _, rfl, List.Mem.head _, List.Mem.head _, rfl, by decide +kernel, rfl, List.Mem.head _, rfl, rfl⟩

open Example in
/-- Not so: that a job said to have succeeded was done.  Cleaning jobs archives them as successful,
here one for which nothing was ever sent. -/
theorem C86_cleaned_false : ∃ (s : State) (h : Obs → Prop) (j : Job), Run 100 s h ∧ (j, true) ∈ s.jobs.archive ∧
    (∃ t ∈ j.tasks, t.cmds ≠ []) ∧ ∀ x, ¬ h (.sent x) := by
  have h1 := Run.start.step (cap := 100) (e := .request (view [1, 2, 3] false) (.addPeer 7 4)) trivial rfl
  have h2 := h1.step (e := .commit 0) trivial rfl
  have h3 := h2.step (e := .clean 0) trivial rfl
  have h4 := h3.step (e := .commit 0) trivial rfl
  refine ⟨_, _, _, h4, List.Mem.head _, ⟨_, List.Mem.head _, (by intro h; cases h)⟩, ?_⟩
  intro x hx
  rcases hx with (((hx | hx) | hx) | hx) | hx
  · exact hx
  all_goals cases hx

open Example in
/-- Not so: that a job that was cleaned is gone.  If it is cleaned while a pass is under way, the
entry of the pass puts it back, and its commands go on being sent. -/
theorem C86_back_false : ∃ (s : State) (h : Obs → Prop) (j : Job) (x : Sent), Run 100 s h ∧ s.pending = [] ∧
    (j, true) ∈ s.jobs.archive ∧ x ∈ s.sends 100 (.pass (view [1, 2, 3] true) [1] allOk) ∧ x.job = j.id ∧ x.cmd.type = .changePeer := by
  have hf : ∀ e ∈ start ++ [.pass (view [1, 2, 3] true) [1] allOk, .clean 0, .commit 1, .commit 0], ∀ h, Fair h e := by
    intro e he
    rcases List.mem_append.mp he with he | he
    · exact fair_start e he
    · simp only [List.mem_cons, List.not_mem_nil, or_false] at he
      intro h
      rcases he with rfl | rfl | rfl | rfl
      · exact fair_ok _ _ h
      all_goals trivial
  obtain ⟨h, hr⟩ := run_of _ hf (by decide +kernel)
  exact ⟨_, h, _, _, hr, rfl, List.Mem.head _, List.Mem.head _, rfl, rfl⟩

open Example in
/-- Not so: that the coordinator goes on whatever is asked of it.  When the same job is cleaned
twice at once (or cleaned while a pass archives it), the second entry asks for a job that is not
there, and every coordinator that applies it ends. -/
theorem C86_abort_false : ∃ (s : State) (h : Obs → Prop), Run 100 s h ∧ s.step 100 (.commit 0) = none := by
  have hf : ∀ e ∈ start.take 2 ++ [.clean 0, .clean 0, .commit 0], ∀ h, Fair h e := by
    intro e he
    rcases List.mem_append.mp he with he | he
    · exact fair_start e (List.mem_of_mem_take he)
    · simp only [List.mem_cons, List.not_mem_nil, or_false] at he
      intro h
      rcases he with rfl | rfl | rfl <;> trivial
  obtain ⟨h, hr⟩ := run_of _ hf (by decide +kernel)
  exact ⟨_, h, hr, by rfl⟩

open Example in
/-- Not so: that an entry may be applied again.  A coordinator that ends between the writes of an
entry that archives a job and the write of the applied index finds the job gone when it starts
again and applies the entry again, and ends. -/
theorem C86_replay_false : ∃ (s : State) (h : Obs → Prop) (e : List Inc) (s' : Jobs), Run 100 s h ∧ e ∈ s.pending ∧
    s.jobs.applyAll e = some s' ∧ s'.applyAll e = none := by
  have hf : ∀ e ∈ start.take 2 ++ [.clean 1], ∀ h, Fair h e := by
    intro e he
    rcases List.mem_append.mp he with he | he
    · exact fair_start e (List.mem_of_mem_take he)
    · simp only [List.mem_cons, List.not_mem_nil, or_false] at he
      intro h
      rw [he]; trivial
  obtain ⟨h, hr⟩ := run_of _ hf (by decide +kernel)
  exact ⟨_, h, _, _, hr, List.Mem.head _, rfl, rfl⟩

end Verif.Job
