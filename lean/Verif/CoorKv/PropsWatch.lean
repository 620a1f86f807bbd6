import Verif.CoorKv.WatchStep

/-!
# C35: one-time watches

`run c .init evs` is any interleaving of the thread that applies entries with watch requests,
cancellations and changes of leadership.  `log` is the list of changes made so far (`C35_log`), `asks r`
what request `r` asks for, `present r` the revision when it was made, and `reads r` how many changes
there were when it read its key.
-/

namespace Verif.CoorKv.Watch
attribute [-instance] Verif.Txn.instDecidableLt_verif Verif.Txn.KeyOrder.toLT
open Verif.Codec (Bytes)

instance (a : Ask) (c : Change) : Decidable (Due a c) := by unfold Due; infer_instance

/-- **C35, the log is what readers see.**  At any moment a read of a key shows the key after the
changes in the log; their revisions never fall. -/
theorem C35_log (c : Conf) (evs : List Ev) (k : Bytes) :
    (kvRange c.maxKey (run c .init evs).node k [] 1 false false).kvs.head? =
      (stateAt (run c .init evs).log k).map (fun x => answer false (k, x)) ∧
    (run c .init evs).log.Pairwise fun a b => a.rev ≤ b.rev := by
  have h : WInv False (run c .init evs) := run_winv c evs init_winv (fun h => h.elim)
  obtain ⟨U, hg⟩ := h.base.good
  refine ⟨?_, h.logs.sorted⟩
  rw [single_good hg, h.base.abs, ← h.logs.state]

/-- **C35, at most once.**  No request is answered twice, and the server is not brought down. -/
theorem C35_at_most_once (c : Conf) (evs : List Ev) :
    ((run c .init evs).answers.map (·.1)).Nodup ∧ (run c .init evs).aborted = false := by
  have h : WInv False (run c .init evs) := run_winv c evs init_winv (fun h => h.elim)
  exact ⟨h.reg.ans, h.ok⟩

/-- **C35, answers are right.**  Every answer is to a request that was made, and is empty or right:
"does not exist" if the key did not exist when it was read; the key's state then if it was past the
start revision; or else a change of the key, at the start revision or later, of a kind the request
wants, with the value, revisions, version and lease it has, and the previous state on demand. -/
theorem C35_right (c : Conf) (evs : List Ev) (r : Nat) (a : Answer) (h : (r, a) ∈ (run c .init evs).answers) :
    ∃ ask, (run c .init evs).asks r = some ask ∧
      (a = .nothing ∨ ∃ p, (run c .init evs).reads r = some p ∧ p ≤ (run c .init evs).log.length ∧
        Right False (run c .init evs).log ask (ask.from ((run c .init evs).present r)) p a) := by
  have h' : WInv False (run c .init evs) := run_winv c evs init_winv (fun h => h.elim)
  exact h'.right r a h

/-- **C35, nothing is missed.**  In a careful schedule a request that is not answered is waiting,
and of the changes since it read its key none is one it asks for, except perhaps the last one while
the apply thread has not announced it; and the key as it was read was not past the start revision.
Missing (`Careful`): the apply thread may look at the map while a request that has read its key is
about to enter it, and a request may register between the end of one leadership and the start of
the next; and changes before the read. -/
theorem C35_no_miss_partial (c : Conf) (evs : List Ev) (hc : CarefulRun c .init evs = true) (r : Nat)
    (hr : r < (run c .init evs).asked) (hna : r ∉ (run c .init evs).answers.map (·.1))
    (hnh : (run c .init evs).holder.map (·.req) ≠ some r) :
    ∃ ask p, (run c .init evs).asks r = some ask ∧ (run c .init evs).reads r = some p ∧
      (∃ w ∈ (run c .init evs).watches, w.req = r) ∧
      NoDue (run c .init evs).log p ((run c .init evs).log.length - 1) ask ∧
      ((run c .init evs).job = none → NoDue (run c .init evs).log p (run c .init evs).log.length ask) ∧
      (∀ x, stateAt ((run c .init evs).log.take p) ask.key = some x → ask.start ≠ 0 → x.mod ≤ ask.start) := by
  have h : WInv True (run c .init evs) := run_winv c evs init_winv (fun _ => hc)
  rcases h.all trivial r hr with h1 | h1 | ⟨w, hw, rfl⟩
  · exact absurd h1 hna
  · exact absurd h1 hnh
  · have hwt := h.wait _ (mem_waiters_watch hw)
    obtain ⟨p, h1, h2, h3, h4⟩ := hwt.read
    refine ⟨w.ask, p, hwt.ask, h1, ⟨w, hw, rfl⟩, ?_, ?_, ?_⟩
    · intro i ch hi1 hi2 hi3
      refine h4 trivial i ch hi1 (Nat.lt_of_lt_of_le hi2 ?_) hi3
      unfold settled
      split
      · split <;> omega
      · omega
    · intro hj
      have := h4 trivial
      rw [hj] at this
      exact this
    · intro x hx h0
      have := h3 x hx
      rw [hwt.start.given h0] at this
      exact this

/-- **C35, the first change.**  In a careful schedule the change a request is answered with is the
first one it asks for since it read its key. -/
theorem C35_first_partial (c : Conf) (evs : List Ev) (hc : CarefulRun c .init evs = true) (r : Nat) (a : Answer)
    (h : (r, a) ∈ (run c .init evs).answers) (hne : a ≠ .nothing) :
    ∃ ask p, (run c .init evs).asks r = some ask ∧ (run c .init evs).reads r = some p ∧
      Right True (run c .init evs).log ask (ask.from ((run c .init evs).present r)) p a := by
  have h' : WInv True (run c .init evs) := run_winv c evs init_winv (fun _ => hc)
  obtain ⟨ask, h1, h2⟩ := h'.right r a h
  rcases h2 with h2 | ⟨p, g1, _, g2⟩
  · exact absurd h2 hne
  · exact ⟨ask, p, h1, g1, g2⟩

/-- **C35, empty answers.**  A request is answered without an event only if it comes when too many keys
are watched, if it is cancelled, or if the leader steps down while it waits. -/
theorem C35_empty (c : Conf) (evs : List Ev) (ev : Ev) (r : Nat)
    (h : (r, .nothing) ∈ (run c .init (evs ++ [ev])).answers) (hn : (r, .nothing) ∉ (run c .init evs).answers) :
    (∃ w ∈ (run c .init evs).watches, w.req = r ∧ (ev = .stop ∨ ev = .drop w.id)) ∨
    (r = (run c .init evs).asked ∧ (∃ a, ev = .lock a) ∧
      c.maxWatches < ((run c .init evs).watches.map (·.ask.key)).eraseDups.length) := by
  have hw : WInv False (run c .init evs) := run_winv c evs init_winv (fun h => h.elim)
  have hrun : run c .init (evs ++ [ev]) = (run c .init evs).step c ev := by simp [run, List.foldl_append]
  rw [hrun] at h
  generalize run c .init evs = st at *
  cases ev with
  | begin e => refine absurd ?_ hn; simp only [St.step, St.begin] at h; split at h <;> exact h
  | draw => refine absurd ?_ hn; simp only [St.step, St.draw] at h; split at h <;> (try split at h) <;> exact h
  | write => refine absurd ?_ hn; simp only [St.step, St.write] at h; split at h <;> exact h
  | check =>
    refine absurd ?_ hn
    simp only [St.step, St.check] at h
    split at h
    · split at h
      · exact h
      · split at h <;> exact h
      · exact h
    · exact h
  | finish => refine absurd ?_ hn; simp only [St.step, St.finish] at h; split at h <;> exact h
  | register => refine absurd ?_ hn; simp only [St.step, St.register] at h; split at h <;> (try split at h) <;> exact h
  | start => refine absurd ?_ hn; simp only [St.step] at h; split at h <;> exact h
  | fire =>
    refine absurd ?_ hn
    simp only [St.step, St.fire] at h
    split at h
    · split at h
      · rw [trigger_eq hw.reg] at h
        simp only [St.answer, List.mem_append, List.mem_map] at h
        rcases h with h | ⟨w, _, e⟩
        · exact h
        · cases e
      · exact h
    · exact h
  | read =>
    refine absurd ?_ hn
    simp only [St.step, St.read] at h
    split at h
    · split at h
      · exact h
      · split at h
        · split at h
          · exact h
          · simp only [List.mem_append, List.mem_singleton] at h
            rcases h with h | h
            · exact h
            · cases h
        · split at h
          · simp only [List.mem_append, List.mem_singleton] at h
            rcases h with h | h
            · exact h
            · cases h
          · exact h
    · exact h
  | lock a =>
    simp only [St.step, St.lock] at h
    split at h
    · exact absurd h hn
    · split at h
      next hlt =>
        simp only [Nat.add_sub_cancel, List.mem_append, List.mem_singleton] at h
        rcases h with h | h
        · exact absurd h hn
        · cases h
          exact .inr ⟨rfl, ⟨a, rfl⟩, hlt⟩
      · exact absurd h hn
  | drop id =>
    simp only [St.step] at h
    split at h
    · exact absurd h hn
    · by_cases hid : ∀ w ∈ st.watches, w.id ≠ id
      · rw [remove_none hw.reg hid] at h; exact absurd h hn
      · obtain ⟨w, hw1⟩ := Classical.not_forall.1 hid
        obtain ⟨hw2, hid'⟩ := Classical.not_imp.1 hw1
        have hid' : w.id = id := Classical.not_not.1 hid'
        clear hw1 hid
        subst hid'
        rw [remove_watch hw.reg hw2] at h
        simp only [St.answer, List.map_cons, List.map_nil, List.mem_append, List.mem_singleton] at h
        rcases h with h | h
        · exact absurd h hn
        · cases h
          exact .inl ⟨w, hw2, rfl, .inr rfl⟩
  | stop =>
    simp only [St.step] at h
    split at h
    · exact absurd h hn
    · simp only [List.mem_append, List.mem_map] at h
      rcases h with h | ⟨cl, hcl, e⟩
      · exact absurd h hn
      · cases e
        obtain ⟨h1, h2⟩ := List.mem_filter.1 hcl
        obtain ⟨w, hw1, e⟩ := hw.reg.cw cl h1 (by simpa using h2)
        have h3 := id_inj hw.reg.cid (hw.reg.wc w hw1) h1 e
        exact .inl ⟨w, hw1, by rw [← h3], .inl rfl⟩

/-! ### The apply thread gets on -/

/-- One operation. -/
def oneOp : List Ev := [.draw, .write, .check, .fire]

/-- What is left to do. -/
def St.left (st : St) : Nat :=
  match st.job with
  | none => 0
  | some j => j.ops.length

theorem trigger_fields {st : St} (h : WInv P st) (e : Event) : (st.trigger e).holder = st.holder := by
  rw [trigger_eq h.reg]; rfl

theorem oneOp_spec (c : Conf) {st : St} (h : WInv False st) (hh : st.holder = none) {j : Job} (hj : st.job = some j)
    (hne : j.ops ≠ []) : ∃ j', (run c st oneOp).job = some j' ∧ j'.ops = j.ops.tail ∧ j'.stage = .ready ∧
      (run c st oneOp).holder = none := by
  -- the last two steps
  have fire_of : ∀ (st : St) (j : Job), WInv False st → st.holder = none → st.job = some j → (∀ e, j.stage ≠ .checked e) →
      st.fire = st := by
    intro st j _ hh hj hs
    unfold St.fire
    rw [hj, hh]
    simp only
  have fire2 : ∀ (st : St) (j : Job) (e : Event), WInv False st → st.holder = none → st.job = some j → j.stage = .checked e →
      st.fire.job = some j.next ∧ st.fire.holder = none := by
    intro st j e h hh hj hs
    unfold St.fire
    rw [hj, hh]
    simp only [hs, true_and]
    exact (trigger_fields h e).trans hh
  have tail2 : ∀ (st : St) (j : Job) (e : Option Event), WInv False st → st.holder = none → st.job = some j → j.stage = .written e →
      st.check.fire.job = some j.next ∧ st.check.fire.holder = none := by
    intro st j e h hh hj hs
    have hc := check_winv h (fun hf => hf.elim)
    have hch : st.check.holder = none := by
      unfold St.check; rw [hj]; simp only [hs]
      cases e with
      | none => exact hh
      | some e => simp only; split <;> exact hh
    by_cases hx : st.check.job = some j.next
    · rw [fire_of _ _ hc hch hx (fun e he => by cases he)]
      exact ⟨hx, hch⟩
    · cases e with
      | none => exact absurd (by unfold St.check; rw [hj]; simp only [hs]) hx
      | some e =>
        have hx2 : st.check.job = some { j with stage := .checked e } := by
          unfold St.check at hx ⊢
          rw [hj] at hx ⊢
          simp only [hs] at hx ⊢
          split
          next hw => rw [if_pos hw] at hx; exact absurd rfl hx
          · rfl
        obtain ⟨a, b⟩ := fire2 _ _ e hc hch hx2 rfl
        exact ⟨a, b⟩
  have hrun : run c st oneOp = st.draw.write.check.fire := rfl
  rw [hrun]
  obtain ⟨main, sub, ops, ids, term, index, stage⟩ := j
  cases ops with
  | nil => exact absurd rfl hne
  | cons o ops =>
    have hm : Mid st.node st.spec ⟨main, sub, o :: ops, ids, term, index, stage⟩ := by
      have := h.base; rw [hj] at this; exact this
    have done : ∀ (st' : St) (e : Option Event) (m : Option Int) , WInv False st' → st'.holder = none →
        st'.job = some ⟨m, sub, o :: ops, ids, term, index, .written e⟩ →
        ∃ j', st'.check.fire.job = some j' ∧ j'.ops = ops ∧ j'.stage = .ready ∧ st'.check.fire.holder = none := by
      intro st' e m h1 h2 h3
      obtain ⟨a, b⟩ := tail2 st' _ e h1 h2 h3 rfl
      exact ⟨_, a, rfl, rfl, b⟩
    have wr : ∀ (st' : St) (m : Int), WInv False st' → st'.holder = none →
        st'.job = some ⟨some m, sub, o :: ops, ids, term, index, .drawn⟩ →
        ∃ j', st'.write.check.fire.job = some j' ∧ j'.ops = ops ∧ j'.stage = .ready ∧ st'.write.check.fire.holder = none := by
      intro st' m h1 h2 h3
      refine done st'.write (opWrite st'.node ⟨m, sub⟩ o).2 (some m) (write_winv h1) ?_ ?_
      · unfold St.write; rw [h3]; exact h2
      · unfold St.write; rw [h3]
    cases stage with
    | ready =>
      by_cases hd : o.draws = true
      · refine wr st.draw (drawRev st.node main sub).2.main (draw_winv h) ?_ ?_
        · unfold St.draw; rw [hj]; simp only [hd, if_true]; exact hh
        · unfold St.draw; rw [hj]; simp only [hd, if_true]
      · have e1 : st.draw = st := by unfold St.draw; rw [hj]; simp only [hd, Bool.false_eq_true, if_false]
        rw [e1]
        cases o with
        | put k il l iv v => exact absurd rfl hd
        | delete k => exact absurd rfl hd
        | compact k v =>
          have e2 : st.write.job = some ⟨main, sub, ops, ids, term, index, .ready⟩ := by
            unfold St.write; rw [hj]; cases main <;> rfl
          have e3 : st.write.holder = none := by unfold St.write; rw [hj]; cases main <;> exact hh
          have e4 : st.write.check = st.write := by unfold St.check; rw [e2]
          rw [e4, fire_of _ _ (write_winv h) e3 e2 (fun e he => by cases he)]
          exact ⟨_, e2, rfl, rfl, e3⟩
    | drawn =>
      have e1 : st.draw = st := by unfold St.draw; rw [hj]
      rw [e1]
      cases main with
      | none => have := (hm.one rfl).2; cases this
      | some m => exact wr st m h hh hj
    | written e =>
      have e1 : st.draw = st := by unfold St.draw; rw [hj]
      have e2 : st.write = st := by
        unfold St.write; rw [hj]
        cases main <;> cases o <;> rfl
      rw [e1, e2]
      exact done st e main h hh hj
    | checked e =>
      have e1 : st.draw = st := by unfold St.draw; rw [hj]
      have e2 : st.write = st := by
        unfold St.write; rw [hj]
        cases main <;> cases o <;> rfl
      have e3 : st.check = st := by unfold St.check; rw [hj]
      rw [e1, e2, e3]
      obtain ⟨a, b⟩ := fire2 st _ e h hh hj rfl
      exact ⟨_, a, rfl, rfl, b⟩

/-- **C35, entries are finished.**  Wherever it is in an entry, the apply thread comes to its end as
soon as the mutex is free, so that `C35_no_miss_partial` speaks about every change. -/
theorem C35_progress (c : Conf) (evs : List Ev) (hh : (run c .init evs).holder = none) :
    ∃ n, (run c .init (evs ++ (List.replicate n oneOp).flatten ++ [.finish])).job = none := by
  have h : WInv False (run c .init evs) := run_winv c evs init_winv (fun h => h.elim)
  have key : ∀ (n : Nat) (st : St), WInv False st → st.holder = none → st.left = n →
      ∃ m, (run c st ((List.replicate m oneOp).flatten ++ [.finish])).job = none := by
    intro n
    induction n with
    | zero =>
      intro st h hh hl
      cases hj : st.job with
      | none =>
        refine ⟨0, ?_⟩
        have : run c st ((List.replicate 0 oneOp).flatten ++ [.finish]) = st.finish := rfl
        rw [this]
        unfold St.finish; rw [hj]; exact hj
      | some j =>
        obtain ⟨main, sub, ops, ids, term, index, stage⟩ := j
        have hn : ops = [] := by
          simp only [St.left, hj] at hl
          exact List.length_eq_zero_iff.1 hl
        subst hn
        have hm : Mid st.node st.spec ⟨main, sub, [], ids, term, index, stage⟩ := by
          have := h.base; rw [hj] at this; exact this
        have hs : stage = .ready := by
          cases hs : stage with
          | ready => rfl
          | drawn => obtain ⟨_, _, e, _⟩ := hm.ops (by rw [hs]; exact fun e => by cases e); cases e
          | written e => obtain ⟨_, _, e, _⟩ := hm.ops (by rw [hs]; exact fun e => by cases e); cases e
          | checked e => obtain ⟨_, _, e, _⟩ := hm.ops (by rw [hs]; exact fun e => by cases e); cases e
        subst hs
        refine ⟨0, ?_⟩
        have : run c st ((List.replicate 0 oneOp).flatten ++ [.finish]) = st.finish := rfl
        rw [this]
        unfold St.finish; rw [hj]
    | succ n ih =>
      intro st h hh hl
      cases hj : st.job with
      | none => simp only [St.left, hj] at hl; cases hl
      | some j =>
        have hne : j.ops ≠ [] := by
          intro e
          simp only [St.left, hj, e] at hl
          cases hl
        obtain ⟨j', h1, h2, _, h4⟩ := oneOp_spec c h hh hj hne
        have hw : WInv False (run c st oneOp) := run_winv c oneOp h (fun hf => hf.elim)
        obtain ⟨m, hm⟩ := ih (run c st oneOp) hw h4 (by
          simp only [St.left, hj] at hl
          simp only [St.left, h1, h2, List.length_tail]
          omega)
        refine ⟨m + 1, ?_⟩
        rw [List.replicate_succ, List.flatten_cons, List.append_assoc]
        simp only [run, List.foldl_append] at hm ⊢
        exact hm
  obtain ⟨n, hn⟩ := key _ _ h hh rfl
  refine ⟨n, ?_⟩
  rw [List.append_assoc]
  simp only [run, List.foldl_append] at hn ⊢
  exact hn

/-! ### Cases -/

def exConf : Conf := ⟨100, 100⟩
def exPut (i : Int) (v : UInt8) : List Ev :=
  [.begin ⟨1, i, ⟨[], [.put [97] false 0 false [v]], []⟩⟩, .draw, .write, .check, .fire, .finish]
def exDel (i : Int) : List Ev :=
  [.begin ⟨1, i, ⟨[], [.delete [97]], []⟩⟩, .draw, .write, .check, .fire, .finish]
def exAsk : Ask := ⟨[97], 0, false, false, true, true⟩
def exWatch (a : Ask) : List Ev := [.lock a, .read, .register]

/-- A watch, a put of its key, and a put that is not its business any more. -/
def exRun : List Ev := exPut 1 1 ++ exWatch exAsk ++ exPut 2 2 ++ exPut 3 3

example : CarefulRun exConf .init exRun = true ∧
    (run exConf .init exRun).answers =
      [(0, .event true ⟨[97], [2], 10001, 10002, 2, 0⟩ (some ⟨[97], [1], 10001, 10001, 2, 0⟩))] := by
  refine ⟨?_, ?_⟩ <;> decide +kernel

/-- A request that waits. -/
example : CarefulRun exConf .init (exPut 1 1 ++ exWatch exAsk) = true ∧
    (run exConf .init (exPut 1 1 ++ exWatch exAsk)).asked = 1 ∧
    (run exConf .init (exPut 1 1 ++ exWatch exAsk)).answers = [] ∧
    (run exConf .init (exPut 1 1 ++ exWatch exAsk)).holder.isNone = true ∧
    (run exConf .init (exPut 1 1 ++ exWatch exAsk)).job.isNone = true := by
  refine ⟨?_, ?_, ?_, ?_, ?_⟩ <;> decide +kernel

/-- In the middle of an entry. -/
example : ((run exConf .init (exWatch exAsk ++ (exPut 1 1).take 4)).job.map (·.ops.length)) = some 1 ∧
    (run exConf .init (exWatch exAsk ++ (exPut 1 1).take 4)).holder.isNone = true := by
  refine ⟨?_, ?_⟩ <;> decide +kernel

/-- A request is cancelled. -/
example : (0, Answer.nothing) ∈ (run exConf .init (exWatch exAsk ++ [.drop 1000])).answers ∧
    (0, Answer.nothing) ∉ (run exConf .init (exWatch exAsk)).answers := by
  refine ⟨?_, ?_⟩ <;> decide +kernel

/-! ### What does not hold -/

/-- **C35 fails: lost wake-up.**  The thread that applies a put looks whether anyone watches without
the mutex.  If a request has read the key before the put but is not yet in the map, the put is not
announced, and the request goes on waiting. -/
theorem C35_lost_wakeup_false : ∃ (c : Conf) (evs : List Ev), (run c .init evs).job.isNone = true ∧
    ∃ w ∈ (run c .init evs).watches, (run c .init evs).reads w.req = some 0 ∧ ∃ ch ∈ (run c .init evs).log, Due w.ask ch :=
  ⟨exConf, [.begin ⟨1, 1, ⟨[], [.put [97] false 0 false [1]], []⟩⟩, .draw, .lock exAsk, .read, .write, .check,
    .register, .finish], by decide +kernel⟩

/-- **C35 fails: the start revision itself.**  A registered watch is answered by a change at its
start revision, but a request that comes after that change is not answered. -/
theorem C35_equal_false : ∃ (c : Conf) (evs : List Ev), CarefulRun c .init evs = true ∧ (run c .init evs).job.isNone = true ∧
    ∃ w ∈ (run c .init evs).watches, w.ask.start ≠ 0 ∧ ∃ ch ∈ (run c .init evs).log, Due w.ask ch ∧ ch.rev = w.ask.start :=
  ⟨exConf, exPut 1 1 ++ exWatch { exAsk with start := 10001 }, by decide +kernel⟩

/-- **C35 fails: a delete before the request.**  A request that waits for a key that does not exist
is not told that it was deleted after the start revision. -/
theorem C35_deleted_false : ∃ (c : Conf) (evs : List Ev), CarefulRun c .init evs = true ∧ (run c .init evs).job.isNone = true ∧
    ∃ w ∈ (run c .init evs).watches, w.ask.start ≠ 0 ∧ ∃ ch ∈ (run c .init evs).log, Due w.ask ch ∧ w.ask.start < ch.rev :=
  ⟨exConf, exPut 1 1 ++ exDel 2 ++ exWatch { exAsk with start := 10001 }, by decide +kernel⟩

/-- **C35 fails: puts that were filtered out.**  A request that wants no put events is answered with
one if the key has been put after the start revision when it comes. -/
theorem C35_noput_false : ∃ (c : Conf) (evs : List Ev), CarefulRun c .init evs = true ∧
    ((run c .init evs).asks 0).map (·.noPut) = some true ∧
    (run c .init evs).answers = [(0, .event true ⟨[97], [2], 10001, 10002, 2, 0⟩ none)] :=
  ⟨exConf, exPut 1 1 ++ exPut 2 2 ++ exWatch { exAsk with start := 10001, noPut := true }, by decide +kernel⟩

/-- **C35 fails: the previous version.**  The previous state in an event has a version one higher than
the key had. -/
theorem C35_prev_version_false : ∃ (c : Conf) (evs : List Ev), CarefulRun c .init evs = true ∧
    (run c .init evs).reads 0 = some 1 ∧ ((stateAt ((run c .init evs).log.take 1) [97]).map (·.version)) = some 1 ∧
    (run c .init evs).answers =
      [(0, .event true ⟨[97], [2], 10001, 10002, 2, 0⟩ (some ⟨[97], [1], 10001, 10001, 2, 0⟩))] :=
  ⟨exConf, exPut 1 1 ++ exWatch exAsk ++ exPut 2 2, by decide +kernel⟩

/-- **C35 fails: deletes of nothing.**  A delete of a key that is deleted already is announced. -/
theorem C35_spurious_delete_false : ∃ (c : Conf) (evs : List Ev), CarefulRun c .init evs = true ∧
    (run c .init evs).reads 0 = some 2 ∧ stateAt ((run c .init evs).log.take 2) [97] = none ∧
    stateAt (run c .init evs).log [97] = none ∧ (run c .init evs).log.length = 3 ∧
    ((run c .init evs).answers.map fun x => match x.2 with | .event put _ _ => some put | _ => none) = [some false] :=
  ⟨exConf, exPut 1 1 ++ exDel 2 ++ exWatch exAsk ++ exDel 3, by decide +kernel⟩

/-- **C35 fails: a request that comes between two leaderships** is dropped without an answer when the
node starts to lead. -/
theorem C35_leader_start_false : ∃ (c : Conf) (evs : List Ev), (run c .init evs).asked = 1 ∧
    (run c .init evs).answers = [] ∧ (run c .init evs).holder.isNone = true ∧ (run c .init evs).watches.isEmpty = true :=
  ⟨exConf, [.stop] ++ exWatch exAsk ++ [.start], by decide +kernel⟩

end Verif.CoorKv.Watch
