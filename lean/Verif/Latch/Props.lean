import Verif.Latch.Run

/-!
# Latches: the properties

C37 (mutual exclusion, arrival order, no failed assertion) and C38 (no deadlock).  All
theorems range over every hash function, every number of slots, every set of requests and
every schedule.  The hash 0 is special in the code (`Latch::MaybeShrink` drops entries
with hash 0), so they ask that no key has this hash; `C37_zero_hash_false` shows why.
-/

namespace Verif.Latch

/-! ## The keys in a thread are the keys of its request -/

theorem step_keys {e : Env} {s s' : State} {c : Cid} (h : step e s c = some s') (d : Cid) :
    (Live s' d → Live s d ∧ (s'.thr d).keys = (s.thr d).keys) := by
  intro hl
  unfold step at h
  split at h
  · cases h
  have key : ∀ (t : Thread) (x : State), s' = x.setThr c t → t.keys = (s.thr c).keys →
      (s.thr c).pc ≠ .idle → x.thr = s.thr → Live s d ∧ (s'.thr d).keys = (s.thr d).keys := by
    intro t x hs ht hp hx
    subst hs
    unfold Live at hl ⊢
    simp only [State.setThr, hx] at hl ⊢
    by_cases hd : d = c
    · subst hd; rw [upd_same]; exact ⟨hp, ht⟩
    · rw [upd_ne _ _ hd] at hl ⊢; exact ⟨hl, rfl⟩
  have same : s'.thr = s.thr → Live s d ∧ (s'.thr d).keys = (s.thr d).keys := by
    intro hx; unfold Live at hl ⊢; rw [hx] at hl ⊢; exact ⟨hl, rfl⟩
  dsimp only at h
  cases hpc : (s.thr c).pc with
  | idle => rw [hpc] at h; cases h
  | hold => rw [hpc] at h; cases h
  | acq k n =>
    rw [hpc] at h; dsimp only at h
    have hp : (s.thr c).pc ≠ .idle := by rw [hpc]; simp
    split at h
    · cases h; exact key _ _ rfl rfl hp rfl
    · split at h
      · split at h
        · cases h; exact key _ _ rfl rfl hp rfl
        · cases h; exact key _ _ rfl rfl hp rfl
      · cases h; exact key _ _ rfl rfl hp rfl
  | wait =>
    rw [hpc] at h; dsimp only at h
    have hp : (s.thr c).pc ≠ .idle := by rw [hpc]; simp
    split at h
    · cases h
    · cases h; exact key _ _ rfl rfl hp rfl
  | rel k ws =>
    rw [hpc] at h; dsimp only at h
    have hp : (s.thr c).pc ≠ .idle := by rw [hpc]; simp
    split at h
    · split at h
      · cases h; exact same rfl
      · split at h
        · cases h; exact same rfl
        · split at h
          · cases h; exact key _ _ rfl rfl hp rfl
          · cases h; exact same rfl
    · cases h; exact key _ _ rfl rfl hp rfl
  | wake l =>
    rw [hpc] at h
    have hp : (s.thr c).pc ≠ .idle := by rw [hpc]; simp
    cases l with
    | nil =>
      dsimp only at h; cases h
      unfold Live at hl ⊢
      simp only [State.setThr] at hl ⊢
      by_cases hd : d = c
      · subst hd; rw [upd_same] at hl; exact absurd rfl hl
      · rw [upd_ne _ _ hd] at hl ⊢; exact ⟨hl, rfl⟩
    | cons w ws =>
      dsimp only at h
      split at h
      · cases h; exact same rfl
      · rename_i hw
        cases h
        unfold Live at hl ⊢
        simp only [State.setThr] at hl ⊢
        by_cases hd : d = c
        · subst hd; rw [upd_same]; exact ⟨hp, rfl⟩
        · rw [upd_ne _ _ hd] at hl ⊢
          by_cases hdw : d = w
          · subst hdw; rw [upd_same]; exact ⟨hw, rfl⟩
          · rw [upd_ne _ _ hdw] at hl ⊢; exact ⟨hl, rfl⟩
  | poke w ws =>
    rw [hpc] at h; dsimp only at h
    have hp : (s.thr c).pc ≠ .idle := by rw [hpc]; simp
    cases h
    unfold Live at hl ⊢
    simp only [State.setThr] at hl ⊢
    by_cases hd : d = c
    · subst hd; rw [upd_same]; exact ⟨hp, rfl⟩
    · rw [upd_ne _ _ hd] at hl ⊢; exact ⟨hl, rfl⟩

theorem exec_keys {e : Env} (c : Cid) (es : List Ev) : ∀ (s s' : State)
    (r : Option (List (List UInt8))), (Live s c → r = some (s.thr c).keys) →
    exec e s es = some s' → Live s' c →
    es.foldl (fun r v => match v with
      | .start d keys => if d = c then some keys else r
      | _ => r) r = some (s'.thr c).keys := by
  induction es with
  | nil => intro s s' r h0 h hl; cases h; exact h0 hl
  | cons v es ih =>
    intro s s' r h0 h hl
    unfold exec at h
    obtain ⟨s1, h1, h2⟩ := Option.bind_eq_some_iff.1 h
    rw [List.foldl_cons]
    cases v with
    | run d =>
      refine ih s1 s' _ ?_ h2 hl
      intro hl1
      obtain ⟨a, b⟩ := step_keys h1 c hl1
      dsimp only; rw [b]; exact h0 a
    | finish d =>
      refine ih s1 s' _ ?_ h2 hl
      intro hl1
      unfold event at h1; dsimp only at h1
      split at h1
      · rename_i hc
        cases h1
        unfold Live at hl1 h0
        simp only [State.setThr] at hl1 ⊢
        by_cases hd : c = d
        · subst hd; rw [upd_same]; exact h0 (by rw [hc.2]; simp)
        · rw [upd_ne _ _ hd] at hl1 ⊢; exact h0 hl1
      · cases h1
    | start d keys =>
      refine ih s1 s' _ ?_ h2 hl
      intro hl1
      unfold event at h1; dsimp only at h1
      split at h1
      · cases h1
        unfold Live at hl1 h0
        dsimp only
        simp only [State.setThr] at hl1 ⊢
        by_cases hd : c = d
        · subst hd; rw [upd_same, if_pos rfl]
        · rw [upd_ne _ _ hd] at hl1 ⊢
          rw [if_neg (fun x => hd x.symm)]; exact h0 hl1
      · cases h1

theorem executing_keys {e : Env} {c : Cid} {es : List Ev} {s : State}
    (h : exec e State.init es = some s) (hl : Live s c) :
    lastAsked c es = some (s.thr c).keys :=
  exec_keys c es State.init s none (fun x => absurd rfl x) h hl

/-! ## C37 -/

/-- **C37.** Two requests that are executed at the same time have no key in common, and
no two keys with the same hash. -/
theorem C37_exclusion_partial (e : Env) (es : List Ev) (s : State) (hz : NoZero e es)
    (hr : exec e State.init es = some s) (c d : Cid) (hc : Executing s c) (hd : Executing s d)
    (keysC keysD : List (List UInt8)) (hkc : lastAsked c es = some keysC)
    (hkd : lastAsked d es = some keysD)
    (k k' : List UInt8) (h1 : k ∈ keysC) (h2 : k' ∈ keysD) (hh : e.hash k = e.hash k') :
    c = d := by
  obtain ⟨g, _, _⟩ := exec_inv (init_inv e) hz hr
  have lc : Live s c := by unfold Live; rw [hc]; simp
  have ld : Live s d := by unfold Live; rw [hd]; simp
  rw [executing_keys hr lc] at hkc; cases hkc
  rw [executing_keys hr ld] at hkd; cases hkd
  have a := g.hold_owns hc h1
  have b := g.hold_owns hd h2
  rw [hh] at a
  exact g.excl a b

/-- **C37.** `Release` always finds its own entry at the head of the line (no assertion
fails, no empty optional is read), and no destroyed condition variable is decremented. -/
theorem C37_never_aborts_partial (e : Env) (es : List Ev) (s : State) (hz : NoZero e es)
    (hr : exec e State.init es = some s) : s.aborted = false :=
  (exec_inv (init_inv e) hz hr).1.alive

theorem LineRun.spec {l l' : List Cid} (h : LineRun l l') :
    ∃ new n, l' = (l ++ new).drop n ∧ n ≤ (l ++ new).length := by
  induction h with
  | refl l => exact ⟨[], 0, by simp, by simp⟩
  | @step l l1 l2 h1 _ ih =>
    obtain ⟨new, n, h2, h3⟩ := ih
    rcases h1 with rfl | ⟨c, rfl⟩ | ⟨c, rfl⟩
    · exact ⟨new, n, h2, h3⟩
    · refine ⟨c :: new, n, ?_, ?_⟩
      · rw [h2]; simp
      · simp only [List.append_assoc, List.singleton_append] at h3; exact h3
    · refine ⟨new, n + 1, ?_, ?_⟩
      · rw [h2]; simp
      · simp only [List.cons_append, List.length_cons]; omega

/-- **C37.** First come, first served.  The requests that asked for a hash form a line: in
any history, requests join it at its end and leave it at its front; the one that is
executed is the first of the line of each of its keys; a request that is blocked stands
in the line of one of its keys. -/
theorem C37_arrival_order_partial (e : Env) (es es' : List Ev) (s s' : State)
    (hz : NoZero e (es ++ es')) (hr : exec e State.init es = some s)
    (hr' : exec e s es' = some s') :
    (∀ h, ∃ new n, line e s' h = (line e s h ++ new).drop n) ∧
    (∀ h, (line e s' h).Nodup) ∧
    (∀ c, Executing s' c → ∀ k ∈ (s'.thr c).keys,
      (line e s' (e.hash k).toNat).head? = some c) ∧
    (∀ c, (s'.thr c).pc = .wait → ∃ k ∈ (s'.thr c).keys, c ∈ line e s' (e.hash k).toNat) := by
  have hz1 : NoZero e es := fun c k hm => hz c k (List.mem_append_left _ hm)
  have hz2 : NoZero e es' := fun c k hm => hz c k (List.mem_append_right _ hm)
  obtain ⟨g, _, _⟩ := exec_inv (init_inv e) hz1 hr
  obtain ⟨g', hl, _⟩ := exec_inv g hz2 hr'
  refine ⟨?_, g'.inv.nodup, ?_, ?_⟩
  · intro h
    obtain ⟨new, n, h1, _⟩ := (hl h).spec
    exact ⟨new, n, h1⟩
  · intro c hc k hk
    exact g'.inv.head c _ (g'.hold_owns hc hk)
  · intro c hc
    have hs := g'.inv.shape c
    simp only [Shape, hc] at hs
    have hk : (s'.thr c).req[(s'.thr c).owned]? = some ((s'.thr c).req[(s'.thr c).owned]'hs) :=
      List.getElem?_eq_getElem hs
    have hm := List.mem_of_getElem? hk
    generalize (s'.thr c).req[(s'.thr c).owned]'hs = x at hk hm
    rw [g'.keys c] at hm
    obtain ⟨k, h1, h2⟩ := required_mem.1 hm
    refine ⟨k, h1, ?_⟩
    rw [h2]
    exact g'.inv.inq c x hc ⟨_, hk, by simp [nxt, hc]⟩

/-! ## C38 -/

/-- **C38.** No deadlock: as long as some request is in progress, some request in progress
can take a step (or is being executed and can finish). -/
theorem C38_no_deadlock_partial (e : Env) (es : List Ev) (s : State) (hz : NoZero e es)
    (hr : exec e State.init es = some s) (c : Cid) (hl : Live s c) :
    ∃ d v s', Live s d ∧ (v = .run d ∨ v = .finish d) ∧ event e s v = some s' := by
  obtain ⟨d, s', h1, h2⟩ := (exec_inv (init_inv e) hz hr).1.progress hl
  rcases h2 with h2 | h2
  · exact ⟨d, _, s', h1, .inl rfl, h2⟩
  · exact ⟨d, _, s', h1, .inr rfl, h2⟩

/-- **C38.** No livelock: a request for `n` keys takes at most `6 n + 4` steps from its
arrival to its end, whatever the others do.  So a history without new arrivals is finite,
and by `C38_no_deadlock_partial` it can only end when no request is in progress. -/
theorem C38_bounded_partial (e : Env) (es : List Ev) (s : State) (hz : NoZero e es)
    (hr : exec e State.init es = some s) (c : Cid) : moves c es ≤ asked c es := by
  have h := (exec_inv (init_inv e) hz hr).2.2 c
  have h0 : fuel (line e State.init) c (State.init.thr c) = 0 := rfl
  omega

/-- **C38.** A blocked request is woken: if it is the first in line for the key it waits
for, then its wake-up has been sent or is about to be sent by a request that can move. -/
theorem C38_woken_partial (e : Env) (es : List Ev) (s : State) (hz : NoZero e es)
    (hr : exec e State.init es = some s) (c : Cid) (hw : (s.thr c).pc = .wait) :
    (∃ s', event e s (.run c) = some s') ∨
    (∃ d ws, (s.thr d).pc ≠ .wait ∧ (s.thr d).pc ≠ .idle ∧ c ∈ ws ∧
      ((∃ i, (s.thr d).pc = .rel i ws) ∨ (s.thr d).pc = .wake ws ∨
        ∃ w, (s.thr d).pc = .poke w ws)) ∨
    (∃ k ∈ (s.thr c).keys, ∃ d, d ≠ c ∧ (line e s (e.hash k).toNat).head? = some d ∧
      c ∈ line e s (e.hash k).toNat) := by
  obtain ⟨g, _, _⟩ := exec_inv (init_inv e) hz hr
  have i := g.inv
  have hs := i.shape c
  simp only [Shape, hw] at hs
  have hk : (s.thr c).req[(s.thr c).owned]? = some ((s.thr c).req[(s.thr c).owned]'hs) :=
    List.getElem?_eq_getElem hs
  have hm := List.mem_of_getElem? hk
  generalize (s.thr c).req[(s.thr c).owned]'hs = x at hk hm
  rw [g.keys c] at hm
  obtain ⟨k, h1, h2⟩ := required_mem.1 hm
  have hwant : Wants (s.thr c) x := ⟨_, hk, by simp [nxt, hw]⟩
  have hq := i.inq c x hw hwant
  obtain ⟨o, ho⟩ : ∃ o, (line e s x).head? = some o := by
    cases hx : line e s x with
    | nil => rw [hx] at hq; cases hq
    | cons a l => exact ⟨a, rfl⟩
  by_cases hoc : o = c
  · subst hoc
    rcases i.tok o x hw hwant ho with hc | ⟨r, hr⟩
    · left
      refine ⟨s.setThr o { s.thr o with count := (s.thr o).count + 1, pc := .acq (s.thr o).owned 0 },
        ?_⟩
      unfold event step; simp only [g.alive, Bool.false_eq_true, if_false, hw]
      rw [if_neg (by omega)]
    · right; left
      refine ⟨r, pend (s.thr r), ?_, ?_, hr, ?_⟩
      · intro y; simp [pend, y] at hr
      · intro y; simp [pend, y] at hr
      · cases hp : (s.thr r).pc <;> simp [pend, hp] at hr ⊢
  · right; right
    exact ⟨k, h1, o, hoc, by rw [h2]; exact ho, by rw [h2]; exact hq⟩

/-! ## Where the full statements fail -/

/-- A hash function for the examples: the key `[0]` has hash 0, the key `[1]` has hash
2048 (the same slot as 0), the key `[n]` has hash `n`. -/
def sampleEnv : Env where
  hash := fun k => match k with
    | [x] => if x = 1 then 2048 else x.toUInt64
    | _ => 77

/-- Request 12 is being executed with latch `[0]`; request 11 releases a latch in the same
slot; request 13 asks for `[0]`. -/
def zeroRun : List Ev :=
  [.start 11 [[1]], .run 11, .run 11, .start 12 [[0]], .run 12, .run 12,
   .finish 11, .run 11, .start 13 [[0]], .run 13, .run 13]

/-- **C37 is false for a key whose hash is 0**: `Latch::MaybeShrink` drops its entry when
another request of the slot releases; two requests are then executed with the same key. -/
theorem C37_zero_hash_false :
    ∃ s, exec sampleEnv State.init zeroRun = some s ∧
      Executing s 12 ∧ Executing s 13 ∧ (s.thr 12).keys = [[0]] ∧ (s.thr 13).keys = [[0]] := by
  have h : ((exec sampleEnv State.init zeroRun).map fun s =>
      ((s.thr 12).pc, (s.thr 13).pc, (s.thr 12).keys, (s.thr 13).keys)) =
      some (.hold, .hold, [[0]], [[0]]) := by decide +kernel
  obtain ⟨s, h1, h2⟩ := Option.map_eq_some_iff.1 h
  simp only [Prod.mk.injEq] at h2
  exact ⟨s, h1, h2.1, h2.2.1, h2.2.2.1, h2.2.2.2⟩

/-- The process then ends in `Release`: the last of the two finds no entry. -/
theorem C37_zero_hash_abort_false :
    ∃ s, exec sampleEnv State.init (zeroRun ++ [.finish 13, .run 13, .run 13, .run 13,
      .finish 12, .run 12]) = some s ∧ s.aborted = true := by
  have h : (exec sampleEnv State.init (zeroRun ++ [.finish 13, .run 13, .run 13, .run 13,
      .finish 12, .run 12])).map (fun s => s.aborted) = some true := by decide +kernel
  exact Option.map_eq_some_iff.1 h

/-- Request 12 waits for request 11; 11 decrements the counter of 12 and is stopped before
`bthread_cond_signal`; 12 gets through its whole life. -/
def danglingRun : List Ev :=
  [.start 11 [[5]], .run 11, .run 11, .start 12 [[5]], .run 12, .finish 11, .run 11, .run 11,
   .run 11, .run 12, .run 12, .run 12, .finish 12, .run 12, .run 12, .run 12, .run 11]

/-- **A request signals a destroyed condition variable.** `BthreadCond::DecreaseSignal`
calls `bthread_cond_signal` after it has unlocked the mutex; the waiter may have seen the
counter, finished, and destroyed its `LatchContext`, which lives on its stack. -/
theorem C37_dangling_signal_false :
    NoZero sampleEnv danglingRun ∧
    ∃ s, exec sampleEnv State.init danglingRun = some s ∧ s.dangling = true := by
  refine ⟨?_, ?_⟩
  · intro c keys hm k hk
    simp [danglingRun] at hm
    rcases hm with ⟨_, rfl⟩ | ⟨_, rfl⟩ <;> (simp at hk; subst hk; decide)
  · have h : (exec sampleEnv State.init danglingRun).map (fun s => s.dangling) = some true := by
      decide +kernel
    exact Option.map_eq_some_iff.1 h

/-! ## Examples: the hypotheses are met -/

/-- Two requests with a key in common: the second waits, the first is executed. -/
def sampleRun : List Ev :=
  [.start 11 [[7], [5], [7]], .start 12 [[9], [5]], .run 11, .run 12, .run 11, .run 11]

example : NoZero sampleEnv sampleRun := by
  intro c keys hm k hk
  simp [sampleRun] at hm
  rcases hm with ⟨_, rfl⟩ | ⟨_, rfl⟩ <;> simp at hk
  · rcases hk with rfl | rfl | rfl <;> decide
  · rcases hk with rfl | rfl <;> decide

example : (exec sampleEnv State.init sampleRun).map (fun s =>
    ((s.thr 11).pc, (s.thr 12).pc, line sampleEnv s 5, line sampleEnv s 7, line sampleEnv s 9)) =
    some (.hold, .wait, [11, 12], [11], []) := by decide +kernel

/-- Both requests run to their end. -/
example : (exec sampleEnv State.init (sampleRun ++ [.finish 11, .run 11, .run 11, .run 11, .run 11,
    .run 11, .run 11, .run 12, .run 12, .run 12, .run 12, .finish 12, .run 12, .run 12, .run 12,
    .run 12])).map (fun s => ((s.thr 11).pc, (s.thr 12).pc, s.dangling)) =
    some (.idle, .idle, false) := by decide +kernel

example : moves 12 (sampleRun ++ [.finish 11]) = 1 ∧ asked 12 sampleRun = 16 := by decide

/-! ## The slot of a hash exists -/

theorem smear_lt {n b : Nat} (k : Nat) (h : n < 2 ^ b) : (n ||| n >>> k) < 2 ^ b := by
  apply Nat.or_lt_two_pow h
  exact Nat.lt_of_le_of_lt (Nat.shiftRight_le n k) h

/-- **C37.** `GetSlot` stays inside the vector of slots, for every value of the flag
`latch_slot_num` (a `uint32`). -/
theorem C37_slot_exists (e : Env) (hn : e.slotNum < 2 ^ 32) (h : Nat) :
    slotOf e h < nextPowerOfTwo e.slotNum := by
  have hpos : 0 < nextPowerOfTwo e.slotNum := by
    unfold nextPowerOfTwo
    split
    · decide
    · dsimp only
      have h0 : e.slotNum - 1 < 2 ^ 32 := by omega
      have := smear_lt 32 (smear_lt 16 (smear_lt 8 (smear_lt 4 (smear_lt 2 (smear_lt 1 h0)))))
      rw [Nat.mod_eq_of_lt (by omega)]
      omega
  unfold slotOf
  have := @Nat.and_le_right h (nextPowerOfTwo e.slotNum - 1)
  omega

example : nextPowerOfTwo 2048 = 2048 ∧ nextPowerOfTwo 1000 = 1024 := by decide

end Verif.Latch
