import Verif.ReadOnly.Model

/-! # Read-only clusters (C112) -/

namespace Verif.ReadOnly

/-! ## Specification -/

/-- Requests that only read, but for backups. -/
def reads : List Kind := [.get, .batchGet, .scan, .txnGet, .txnBatchGet, .txnScan, .vectorSearch, .documentSearch]

/-- Requests that remove and do not add. -/
def removes : List Kind := [.batchDelete, .deleteRange, .vectorDelete, .vectorImportDelete, .documentDelete]

/-- Requests that swap a value if it is the expected one. -/
def swaps : List Kind := [.compareAndSet, .batchCompareAndSet]

/-- Nothing in the history says that store `i` is no longer short, or that it is gone, and the same
coordinator leads. -/
def StaysLow (i : Nat) (e : Ev) : Prop :=
  match e with
  | .beat j m _ => j = i → m ≠ some false
  | .offline j => j ≠ i
  | .elect _ _ => False
  | _ => True

/-- No store says that it is short. -/
def NoneLow (e : Ev) : Prop :=
  match e with
  | .beat _ m _ => m ≠ some true
  | .elect _ _ => False
  | _ => True

/-- No answer reaches store `j`. -/
def NotTold (j : Nat) (e : Ev) : Prop :=
  match e with
  | .beat k _ got => k = j → got = false
  | _ => True

/-! ## Lemmas -/

@[simp] theorem upd_self (f : Nat → Bool) (i : Nat) (b : Bool) : upd f i b i = b := by simp [upd]

theorem upd_ne (f : Nat → Bool) {i j : Nat} (h : j ≠ i) (b : Bool) : upd f i b j = f j := by simp [upd, h]

theorem exec_append (s : St) (a b : List Ev) : exec s (a ++ b) = exec (exec s a) b := by
  simp [exec, List.foldl_append]

/-- Store `i` is short and the coordinator knows. -/
structure Low (i : Nat) (s : St) : Prop where
  mem : i ∈ s.ids
  normal : s.normal i = true
  low : s.low i = true
  flag : s.flag = true
  pending : s.pending ≠ some false

theorem low_step {i : Nat} {s : St} (h : Low i s) {e : Ev} (he : StaysLow i e) : Low i (step s e) := by
  cases e with
  | beat j m got =>
    refine ⟨?_, ?_, ?_, ?_, h.pending⟩
    · simp only [step]
      split
      · exact h.mem
      · exact List.mem_cons_of_mem _ h.mem
    · simp only [step]
      by_cases e : i = j
      · subst e
        exact upd_self ..
      · rw [upd_ne _ e]
        exact h.normal
    · simp only [step]
      cases m with
      | none => exact h.low
      | some b =>
        simp only
        by_cases e : i = j
        · subst e
          rw [upd_self]
          have := he rfl
          cases b
          · exact absurd rfl this
          · rfl
        · rw [upd_ne _ e]
          exact h.low
    · simp [step, h.flag]
  | offline j =>
    refine ⟨h.mem, ?_, h.low, h.flag, h.pending⟩
    simp only [step]
    rw [upd_ne _ (Ne.symm he)]
    exact h.normal
  | look =>
    refine ⟨h.mem, h.normal, h.low, h.flag, ?_⟩
    have : s.ids.any (fun i => s.low i && s.normal i) = true :=
      List.any_eq_true.2 ⟨i, h.mem, by simp [h.low, h.normal]⟩
    simp [step, this]
  | set =>
    refine ⟨h.mem, h.normal, h.low, ?_, by simp [step]⟩
    have := h.pending
    simp only [step]
    cases hp : s.pending with
    | none => exact h.flag
    | some b =>
      cases b
      · exact absurd hp this
      · rfl
  | force b => exact ⟨h.mem, h.normal, h.low, h.flag, h.pending⟩
  | elect f l => exact he.elim

theorem low_exec {i : Nat} : ∀ {l : List Ev} {s : St}, Low i s → (∀ e ∈ l, StaysLow i e) → Low i (exec s l)
  | [], _, h, _ => h
  | a :: l, s, h, hl => by
    have h1 : Low i (step s a) := low_step h (hl a (List.mem_cons_self ..))
    exact low_exec (l := l) h1 (fun e he => hl e (List.mem_cons_of_mem _ he))

theorem low_beat {i : Nat} {s : St} (hp : s.pending ≠ some false) (got : Bool) :
    Low i (step s (.beat i (some true) got)) := by
  refine ⟨?_, by simp [step], by simp [step], by simp [step], hp⟩
  simp only [step]
  split
  · rename_i h
    simpa using h
  · exact List.mem_cons_self ..

theorem told_exec {j : Nat} : ∀ {l : List Ev} {s : St}, (∀ e ∈ l, NotTold j e) →
    (exec s l).ro j = s.ro j ∧ (exec s l).forced j = s.forced j
  | [], _, _ => ⟨rfl, rfl⟩
  | e :: l, s, hl => by
    have ih := told_exec (j := j) (l := l) (s := step s e) (fun e he => hl e (List.mem_cons_of_mem _ he))
    have he := hl e (List.mem_cons_self ..)
    have : (step s e).ro j = s.ro j ∧ (step s e).forced j = s.forced j := by
      cases e with
      | beat k m got =>
        simp only [step]
        by_cases hk : k = j
        · have := he hk
          simp [this]
        · cases got
          · simp
          · simp only [if_true]
            rw [upd_ne _ (Ne.symm hk), upd_ne _ (Ne.symm hk)]
            exact ⟨rfl, rfl⟩
      | _ => exact ⟨rfl, rfl⟩
    exact ⟨ih.1.trans this.1, ih.2.trans this.2⟩

/-! ## Properties -/

/-- Requests that neither only read, nor only remove, nor swap. -/
def Adds (k : Kind) : Prop := k ∉ reads ∧ k ∉ removes ∧ k ∉ swaps

theorem checked_iff (k : Kind) : k.checked = true ↔ Adds k := by
  cases k <;> simp [Kind.checked, Adds, reads, removes, swaps]

/-- When a store has said that it is short, every store that is answered afterwards refuses all that
add, until it is answered otherwise: as long as the first store stays short and in the cluster,
through any heartbeats, checks and changes of others.  (Missing: swaps are not refused,
`C112_swap_false`; a check that had begun before, `C112_race_false`; another leader,
`C112_leader_false`.) -/
theorem C112_stops_partial {before mid rest : List Ev} {i j : Nat} {got : Bool} {m : Option Bool} {k : Kind}
    (hp : (exec start before).pending ≠ some false)
    (hmid : ∀ e ∈ mid, StaysLow i e) (hrest : ∀ e ∈ rest, NotTold j e) (hk : Adds k) :
    passes (exec start (before ++ .beat i (some true) got :: mid ++ .beat j m true :: rest)) j k = false := by
  have h1 : Low i (exec (step (exec start before) (.beat i (some true) got)) mid) := low_exec (low_beat hp got) hmid
  have e : exec start (before ++ .beat i (some true) got :: mid ++ .beat j m true :: rest)
      = exec (step (exec (step (exec start before) (.beat i (some true) got)) mid) (.beat j m true)) rest := by
    simp [exec]
  rw [e]
  generalize exec (step (exec start before) (.beat i (some true) got)) mid = t at h1
  have h2 : (step t (.beat j m true)).ro j = true := by simp [step, h1.flag]
  unfold passes
  rw [(told_exec hrest).1, (checked_iff k).2 hk, h2]
  rfl

/-- A store that says that it is short and is answered refuses all that add from this answer on, until
it is answered otherwise, whatever the coordinator knew before. -/
theorem C112_self (s : St) {rest : List Ev} {i : Nat} {k : Kind} (hrest : ∀ e ∈ rest, NotTold i e) (hk : Adds k) :
    passes (exec s (.beat i (some true) true :: rest)) i k = false := by
  have h2 : (step s (.beat i (some true) true)).ro i = true := by simp [step]
  have e : exec s (.beat i (some true) true :: rest) = exec (step s (.beat i (some true) true)) rest := rfl
  unfold passes
  rw [e, (told_exec hrest).1, (checked_iff k).2 hk, h2]
  rfl

example : passes (exec start [.beat 1 (some true) true, .look, .set]) 1 .put = false := rfl

/-- What the administrator has forbidden is refused by every store that is answered afterwards. -/
theorem C112_forced {before mid rest : List Ev} {j : Nat} {m : Option Bool} {k : Kind}
    (hmid : ∀ e ∈ mid, ∀ b, e ≠ .force b) (hrest : ∀ e ∈ rest, NotTold j e) (hk : Adds k) :
    passes (exec start (before ++ .force true :: mid ++ .beat j m true :: rest)) j k = false := by
  have hf : ∀ (l : List Ev) (s : St), (∀ e ∈ l, ∀ b, e ≠ .force b) → (exec s l).force = s.force := by
    intro l
    induction l with
    | nil => intro s _; rfl
    | cons e l ih =>
      intro s hl
      have := ih (step s e) (fun e he => hl e (List.mem_cons_of_mem _ he))
      refine this.trans ?_
      cases e with
      | force b => exact absurd rfl (hl _ (List.mem_cons_self ..) b)
      | _ => rfl
  have e : exec start (before ++ .force true :: mid ++ .beat j m true :: rest)
      = exec (step (exec (step (exec start before) (.force true)) mid) (.beat j m true)) rest := by
    simp [exec]
  rw [e]
  have h1 : (exec (step (exec start before) (.force true)) mid).force = true := hf _ _ hmid
  generalize exec (step (exec start before) (.force true)) mid = t at h1
  have h2 : (step t (.beat j m true)).forced j = true := by simp [step, h1]
  unfold passes
  rw [(told_exec hrest).2, (checked_iff k).2 hk, h2]
  simp

/-- The flag of the coordinator comes down with the next check after the last shortage, and stays down. -/
theorem C112_clears {s : St} {mid : List Ev} (hl : ∀ i ∈ s.ids, s.normal i = true → s.low i = false)
    (hmid : ∀ e ∈ mid, NoneLow e) (hn : ∀ e ∈ mid, e ≠ .look) :
    (exec s (.look :: .set :: mid)).flag = false := by
  have h0 : (step (step s .look) .set).flag = false := by
    simp only [step, Option.getD_some]
    rw [List.any_eq_false]
    intro i hi
    cases hx : s.normal i
    · simp
    · simp [hl i hi hx]
  have hp0 : (step (step s .look) .set).pending = none := rfl
  have e : exec s (.look :: .set :: mid) = exec (step (step s .look) .set) mid := rfl
  rw [e]
  generalize step (step s .look) .set = t at *
  suffices ∀ (l : List Ev) (t : St), t.flag = false → t.pending = none → (∀ e ∈ l, NoneLow e) → (∀ e ∈ l, e ≠ .look) →
      (exec t l).flag = false from this mid t h0 hp0 hmid hn
  intro l
  induction l with
  | nil => exact fun t h _ _ _ => h
  | cons ev l ih =>
    intro t h hp h1 h2
    have h1' := h1 ev (List.mem_cons_self ..)
    have h2' := h2 ev (List.mem_cons_self ..)
    refine ih (step t ev) ?_ ?_ (fun e he => h1 e (List.mem_cons_of_mem _ he)) (fun e he => h2 e (List.mem_cons_of_mem _ he))
    · cases ev with
      | beat j m got =>
        simp only [step, h, Bool.false_or]
        cases hb : (m == some true)
        · rfl
        · exact absurd (by simpa using hb) h1'
      | set => simp [step, hp, h]
      | elect f l => exact h1'.elim
      | _ => exact h
    · cases ev with
      | look => exact absurd rfl h2'
      | set => rfl
      | elect f l => rfl
      | _ => exact hp

/-- When all have said that they are not short, and the flag is down, no check and no heartbeat raises
it, until a store says that it is short. -/
theorem C112_stays_clear {s : St} {mid : List Ev} (hl : ∀ i, s.low i = false) (hf : s.flag = false)
    (hp : s.pending ≠ some true) (hmid : ∀ e ∈ mid, NoneLow e) : (exec s mid).flag = false := by
  induction mid generalizing s with
  | nil => exact hf
  | cons ev l ih =>
    have h1 := hmid ev (List.mem_cons_self ..)
    refine ih (s := step s ev) ?_ ?_ ?_ (fun e he => hmid e (List.mem_cons_of_mem _ he))
    · cases ev with
      | beat j m got =>
        intro i
        simp only [step]
        cases m with
        | none => exact hl i
        | some b =>
          simp only [upd]
          split
          · cases b
            · rfl
            · exact absurd rfl h1
          · exact hl i
      | elect f l => exact h1.elim
      | _ => exact hl
    · cases ev with
      | beat j m got =>
        simp only [step, hf, Bool.false_or]
        cases hb : (m == some true)
        · rfl
        · exact absurd (by simpa using hb) h1
      | set =>
        simp only [step]
        cases hq : s.pending with
        | none => exact hf
        | some b =>
          cases b
          · rfl
          · exact absurd hq hp
      | elect f l => exact h1.elim
      | _ => exact hf
    · cases ev with
      | look => simp [step, hl]
      | set => simp [step]
      | elect f l => exact h1.elim
      | _ => exact hp

/-- Then a store that is answered accepts all requests again, unless the administrator forbids. -/
theorem C112_resumes {s : St} {j : Nat} {m : Option Bool} (hf : s.flag = false) (hm : m ≠ some true)
    (hforce : s.force = false) (k : Kind) : passes (step s (.beat j m true)) j k = true := by
  have : (m == some true) = false := by
    cases hb : (m == some true)
    · rfl
    · exact absurd (by simpa using hb) hm
  simp [passes, step, hf, hforce, this]

/-- Reads and removals are accepted in any state. -/
theorem C112_reads (s : St) (i : Nat) {k : Kind} (hk : k ∈ reads ∨ k ∈ removes) : passes s i k = true := by
  have : k.checked = false := by
    cases hc : k.checked
    · rfl
    · obtain ⟨h1, h2, _⟩ := (checked_iff k).1 hc
      rcases hk with hk | hk
      · exact absurd hk h1
      · exact absurd hk h2
  simp [passes, this]

/-- A store that no answer ever told so refuses nothing. -/
theorem C112_untold {l : List Ev} {j : Nat} (hl : ∀ e ∈ l, NotTold j e) (k : Kind) :
    passes (exec start l) j k = true := by
  unfold passes
  rw [(told_exec hl).1, (told_exec hl).2]
  simp [start]

/-! ## What does not hold -/

/-- Swaps are accepted in any state, also by a store that knows that it must not write. -/
theorem C112_swap_false (s : St) (i : Nat) {k : Kind} (hk : k ∈ swaps) : passes s i k = true := by
  have : k.checked = false := by
    cases hc : k.checked
    · rfl
    · exact absurd hk ((checked_iff k).1 hc).2.2
  simp [passes, this]

/-- A check that computed before a store said that it is short takes the flag away afterwards: stores
are told that they may write. -/
theorem C112_race_false : ∃ l : List Ev,
    l = [.beat 1 (some false) true, .look, .beat 1 (some true) true, .set, .beat 2 (some false) true, .beat 1 none true] ∧
      (exec start l).low 1 = true ∧ (exec start l).normal 1 = true ∧
      passes (exec start l) 1 .put = true ∧ passes (exec start l) 2 .put = true :=
  ⟨_, rfl, rfl, rfl, rfl, rfl⟩

/-- A new leader does not know which stores are short: stores are told that they may write. -/
theorem C112_leader_false : ∃ l : List Ev,
    l = [.beat 1 (some true) true, .beat 2 (some false) true, .elect false (fun _ => false), .beat 2 (some false) true] ∧
      passes (exec start (l.take 2)) 2 .put = false ∧ passes (exec start l) 2 .put = true :=
  ⟨_, rfl, rfl, rfl⟩

/-- Commits, the resolving of locks and the asking for the status of transactions are refused too:
locks that are there when a cluster becomes read-only stay, and reads that meet them cannot go on. -/
theorem C112_finish_false {s : St} {i : Nat} (h : s.ro i = true) {k : Kind}
    (hk : k ∈ [Kind.commit, .resolveLock, .checkTxnStatus, .checkSecondaryLocks, .batchRollback, .pessimisticRollback]) :
    passes s i k = false := by
  simp only [List.mem_cons, List.not_mem_nil, or_false] at hk
  rcases hk with rfl | rfl | rfl | rfl | rfl | rfl <;> simp [passes, Kind.checked, h]

/-- Backups are refused too, though they only read. -/
theorem C112_backup_false {s : St} {i : Nat} (h : s.ro i = true ∨ s.forced i = true) :
    passes s i .backupData = false ∧ passes s i .backupMeta = false := by
  rcases h with h | h <;> simp [passes, Kind.checked, h]

/-! ## Cases of the theorems -/

example : passes (exec start [.beat 1 (some false) true, .beat 2 (some true) true, .look, .set, .beat 1 (some false) true]) 1 .put
    = false := rfl

example : passes (exec start [.beat 1 (some true) true, .beat 1 (some false) true, .look, .set, .beat 1 (some false) true]) 1 .put
    = true := rfl

example : (exec start []).pending ≠ some false ∧ StaysLow 1 .look ∧ StaysLow 1 .set ∧ StaysLow 1 (.beat 2 (some false) true) ∧
    Adds .put ∧ Adds .prewrite ∧ Adds .vectorAdd := by
  refine ⟨?_, trivial, trivial, ?_, ?_, ?_, ?_⟩
  · simp [exec, start]
  · intro h
    cases h
  all_goals simp [Adds, reads, removes, swaps]

end Verif.ReadOnly
