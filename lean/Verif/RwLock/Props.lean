import Verif.RwLock.Model

/-! # The lock of indexes and logs (C110) -/

namespace Verif.RwLock

/-- One if it holds. -/
def one (b : Bool) : Nat := if b then 1 else 0

theorem countP_set {l : List PC} {i : Nat} {t a : PC} (p : PC → Bool) (h : l[i]? = some t) :
    (l.set i a).countP p + one (p t) = l.countP p + one (p a) := by
  induction l generalizing i with
  | nil => cases h
  | cons x l ih =>
    cases i with
    | zero =>
      simp only [List.getElem?_cons_zero, Option.some.injEq] at h
      subst h
      simp only [List.set_cons_zero, List.countP_cons, one]
      omega
    | succ i =>
      simp only [List.getElem?_cons_succ] at h
      have := ih h
      simp only [List.set_cons_succ, List.countP_cons]
      omega

def isR (p : PC) : Bool := p == .reading
def isW (p : PC) : Bool := p == .writing
/-- Asks to write. -/
def asksW (p : PC) : Bool := p == .wWait || p == .wSleep

@[simp] theorem one_t : one true = 1 := rfl
@[simp] theorem one_f : one false = 0 := rfl
@[simp] theorem r_idle : isR .idle = false := rfl
@[simp] theorem r_rWait : isR .rWait = false := rfl
@[simp] theorem r_rSleep : isR .rSleep = false := rfl
@[simp] theorem r_reading : isR .reading = true := rfl
@[simp] theorem r_wWait : isR .wWait = false := rfl
@[simp] theorem r_wSleep : isR .wSleep = false := rfl
@[simp] theorem r_writing : isR .writing = false := rfl
@[simp] theorem w_idle : isW .idle = false := rfl
@[simp] theorem w_rWait : isW .rWait = false := rfl
@[simp] theorem w_rSleep : isW .rSleep = false := rfl
@[simp] theorem w_reading : isW .reading = false := rfl
@[simp] theorem w_wWait : isW .wWait = false := rfl
@[simp] theorem w_wSleep : isW .wSleep = false := rfl
@[simp] theorem w_writing : isW .writing = true := rfl
@[simp] theorem q_idle : asksW .idle = false := rfl
@[simp] theorem q_rWait : asksW .rWait = false := rfl
@[simp] theorem q_rSleep : asksW .rSleep = false := rfl
@[simp] theorem q_reading : asksW .reading = false := rfl
@[simp] theorem q_wWait : asksW .wWait = true := rfl
@[simp] theorem q_wSleep : asksW .wSleep = true := rfl
@[simp] theorem q_writing : asksW .writing = false := rfl

theorem countP_wake (p : PC → Bool) (hp : ∀ x : PC, p x.wake = p x) (l : List PC) :
    (l.map PC.wake).countP p = l.countP p := by
  rw [List.countP_map]
  congr 1
  funext x
  exact hp x

/-- What always holds. -/
structure Inv (s : St) : Prop where
  r : s.readers = (s.req.countP isR : Nat)
  w : one s.writer = s.req.countP isW
  q : s.waiting = (s.req.countP asksW : Nat)
  ex : s.writer = true → s.readers = 0
  rs : PC.rSleep ∈ s.req → s.canRead = false
  ws : PC.wSleep ∈ s.req → s.canWrite = false

theorem inv_start (n : Nat) : Inv (start n) := by
  have h : ∀ p : PC → Bool, p .idle = false → (List.replicate n PC.idle).countP p = 0 := by
    intro p hp
    rw [List.countP_eq_zero]
    intro x hx
    rw [(List.mem_replicate.1 hx).2, hp]
    simp
  refine ⟨?_, ?_, ?_, by simp [start], ?_, ?_⟩
  · simp [start, h isR rfl]
  · simp [start, h isW rfl, one]
  · simp [start, h asksW rfl]
  · intro hx
    have := (List.mem_replicate.1 hx).2
    cases this
  · intro hx
    have := (List.mem_replicate.1 hx).2
    cases this

theorem mem_set' {l : List PC} {i : Nat} {a b : PC} (h : b ∈ l.set i a) : b ∈ l ∨ b = a :=
  List.mem_or_eq_of_mem_set h

theorem no_sleep (l : List PC) : PC.rSleep ∉ l.map PC.wake ∧ PC.wSleep ∉ l.map PC.wake := by
  constructor <;>
  · intro h
    rw [List.mem_map] at h
    obtain ⟨x, _, hx⟩ := h
    cases x <;> cases hx

/-- What `tryRead` needs of the request. -/
theorem inv_tryRead {s : St} (h : Inv s) {i : Nat} {t : PC} (hi : s.req[i]? = some t)
    (ht : t = .idle ∨ t = .rWait) : Inv (tryRead s i) := by
  have hr : isR t = false := by rcases ht with rfl | rfl <;> rfl
  have hw : isW t = false := by rcases ht with rfl | rfl <;> rfl
  have hq : asksW t = false := by rcases ht with rfl | rfl <;> rfl
  unfold tryRead
  split
  · rename_i hc
    have h1 := countP_set (a := .reading) isR hi
    have h2 := countP_set (a := .reading) isW hi
    have h3 := countP_set (a := .reading) asksW hi
    simp [hr, hw, hq] at h1 h2 h3
    have hc' := hc
    simp only [St.canRead, Bool.and_eq_true, Bool.not_eq_true', beq_iff_eq] at hc'
    refine ⟨?_, ?_, ?_, ?_, ?_, ?_⟩
    · have := h.r
      dsimp only
      omega
    · have := h.w
      dsimp only
      omega
    · have := h.q
      dsimp only
      omega
    · intro hx
      simp only at hx
      rw [hc'.1] at hx
      cases hx
    · intro hx
      rcases mem_set' hx with hx | hx
      · rw [h.rs hx] at hc
        cases hc
      · cases hx
    · intro hx
      have h0 := h.r
      simp only [St.canWrite, Bool.and_eq_false_iff]
      left
      simp only [beq_eq_false_iff_ne, ne_eq]
      omega
  · rename_i hc
    have h1 := countP_set (a := .rSleep) isR hi
    have h2 := countP_set (a := .rSleep) isW hi
    have h3 := countP_set (a := .rSleep) asksW hi
    simp [hr, hw, hq] at h1 h2 h3
    refine ⟨?_, ?_, ?_, h.ex, ?_, ?_⟩
    · have := h.r
      dsimp only
      omega
    · have := h.w
      dsimp only
      omega
    · have := h.q
      dsimp only
      omega
    · intro _
      simpa [St.canRead] using hc
    · intro hx
      rcases mem_set' hx with hx | hx
      · exact h.ws hx
      · cases hx

/-- `LockWrite` after the count was raised: all but the count hold. -/
theorem inv_tryWrite {s : St} {i : Nat} {t : PC} (hi : s.req[i]? = some t)
    (r : s.readers = (s.req.countP isR : Nat)) (w : one s.writer = s.req.countP isW)
    (q : s.waiting = (s.req.countP asksW : Nat) + 1 - one (asksW t))
    (hr : isR t = false) (hw : isW t = false)
    (ex : s.writer = true → s.readers = 0) (rs : PC.rSleep ∈ s.req → s.canRead = false)
    (ws : PC.wSleep ∈ s.req → s.canWrite = false) : Inv (tryWrite s i) := by
  have hqc : one (asksW t) ≤ s.req.countP asksW := by
    by_cases ha : asksW t = true
    · have : 0 < s.req.countP asksW := List.countP_pos_iff.2 ⟨t, List.mem_of_getElem? hi, ha⟩
      simp only [one, ha, if_true]
      omega
    · simp [one, ha]
  unfold tryWrite
  split
  · rename_i hc
    have h1 := countP_set (a := .writing) isR hi
    have h2 := countP_set (a := .writing) isW hi
    have h3 := countP_set (a := .writing) asksW hi
    rw [hr] at h1
    rw [hw] at h2
    have hc' := hc
    simp only [St.canWrite, Bool.and_eq_true, Bool.not_eq_true', beq_iff_eq] at hc'
    have ea : isR .writing = false := rfl
    have eb : isW .writing = true := rfl
    have ec : asksW .writing = false := rfl
    rw [ea] at h1
    rw [eb] at h2
    rw [ec] at h3
    have w' := w
    rw [hc'.2] at w'
    simp only [one] at h1 h2 h3 w' q
    refine ⟨?_, ?_, ?_, fun _ => hc'.1, ?_, ?_⟩
    · simp only
      omega
    · simp only [one]
      simp at h2 w' ⊢
      omega
    · simp only
      simp at h3
      split at h3
      · rename_i ha
        simp only [ha, if_true] at q
        omega
      · rename_i ha
        simp only [ha] at q
        simp at q
        omega
    · intro _
      simp [St.canRead]
    · intro _
      simp [St.canWrite]
  · rename_i hc
    have h1 := countP_set (a := .wSleep) isR hi
    have h2 := countP_set (a := .wSleep) isW hi
    have h3 := countP_set (a := .wSleep) asksW hi
    rw [hr] at h1
    rw [hw] at h2
    have ea : isR .wSleep = false := rfl
    have eb : isW .wSleep = false := rfl
    have ec : asksW .wSleep = true := rfl
    rw [ea] at h1
    rw [eb] at h2
    rw [ec] at h3
    refine ⟨?_, ?_, ?_, ex, ?_, ?_⟩
    · simp only
      omega
    · simp only
      omega
    · simp only
      have e1 : one true = 1 := rfl
      rw [e1] at h3
      omega
    · intro hx
      rcases mem_set' hx with hx | hx
      · exact rs hx
      · cases hx
    · intro _
      simpa [St.canWrite] using hc

theorem inv_broadcast {s : St} (r : s.readers = (s.req.countP isR : Nat)) (w : one s.writer = s.req.countP isW)
    (q : s.waiting = (s.req.countP asksW : Nat)) (ex : s.writer = true → s.readers = 0) : Inv (broadcast s) := by
  refine ⟨?_, ?_, ?_, ex, fun hx => absurd hx (no_sleep _).1, fun hx => absurd hx (no_sleep _).2⟩
  · simp only [broadcast]
    rw [countP_wake isR (by intro x; cases x <;> rfl)]
    exact r
  · simp only [broadcast]
    rw [countP_wake isW (by intro x; cases x <;> rfl)]
    exact w
  · simp only [broadcast]
    rw [countP_wake asksW (by intro x; cases x <;> rfl)]
    exact q

theorem inv_step {s : St} (h : Inv s) (e : Ev) : Inv (step s e) := by
  cases e with
  | read i =>
    unfold step
    simp only
    split
    · rename_i hi
      exact inv_tryRead h hi (.inl rfl)
    · exact h
  | write i =>
    unfold step
    simp only
    split
    · rename_i hi
      refine inv_tryWrite (t := .idle) (s := { s with waiting := s.waiting + 1 }) hi h.r h.w ?_ rfl rfl h.ex ?_ h.ws
      · have := h.q
        simp only [one, asksW]
        simp
        exact this
      · intro _
        have := h.q
        simp only [St.canRead, Bool.and_eq_false_iff]
        right
        simp only [beq_eq_false_iff_ne, ne_eq]
        omega
    · exact h
  | retry i =>
    unfold step
    simp only
    split
    · rename_i hi
      exact inv_tryRead h hi (.inr rfl)
    · split
      · rename_i hi
        refine inv_tryWrite hi h.r h.w ?_ rfl rfl h.ex h.rs h.ws
        have := h.q
        simp only [one, asksW]
        simp
        exact this
      · exact h
  | unlock i =>
    unfold step
    simp only
    split
    · rename_i hi
      have h1 := countP_set (a := .idle) isR hi
      have h2 := countP_set (a := .idle) isW hi
      have h3 := countP_set (a := .idle) asksW hi
      have hpos : 0 < s.req.countP isR := List.countP_pos_iff.2 ⟨_, List.mem_of_getElem? hi, rfl⟩
      have hr := h.r
      have hw := h.w
      have hq := h.q
      have hnw : s.writer = false := by
        cases hw' : s.writer
        · rfl
        · have := h.ex hw'
          omega
      simp at h1 h2 h3
      have r' : s.readers - 1 = ((s.req.set i .idle).countP isR : Nat) := by
        try dsimp only
        omega
      have w' : one s.writer = (s.req.set i .idle).countP isW := by
        try dsimp only
        omega
      have q' : s.waiting = ((s.req.set i .idle).countP asksW : Nat) := by
        try dsimp only
        omega
      have ex' : s.writer = true → s.readers - 1 = 0 := by
        intro hx
        rw [hnw] at hx
        cases hx
      unfold unlockRead
      simp only
      split
      · exact inv_broadcast (s := ⟨s.readers - 1, s.waiting, s.writer, s.req.set i .idle⟩) r' w' q' ex'
      · rename_i hc
        refine ⟨r', w', q', ex', ?_, ?_⟩
        · intro hx
          rcases mem_set' hx with hx | hx
          · exact h.rs hx
          · cases hx
        · intro _
          simp only [St.canWrite, Bool.and_eq_false_iff]
          left
          simpa using hc
    · split
      · rename_i hi
        have h1 := countP_set (a := .idle) isR hi
        have h2 := countP_set (a := .idle) isW hi
        have h3 := countP_set (a := .idle) asksW hi
        have hpos : 0 < s.req.countP isW := List.countP_pos_iff.2 ⟨_, List.mem_of_getElem? hi, rfl⟩
        have hr := h.r
        have hw := h.w
        have hq := h.q
        have hle : one s.writer ≤ 1 := by unfold one; split <;> omega
        simp at h1 h2 h3
        unfold unlockWrite
        refine inv_broadcast (s := ⟨s.readers, s.waiting, false, s.req.set i .idle⟩) ?_ ?_ ?_ ?_
        · try dsimp only
          omega
        · have e0 : one false = 0 := rfl
          dsimp only
          omega
        · try dsimp only
          omega
        · intro hx
          cases hx
      · exact h
  | spurious i =>
    unfold step
    simp only
    split
    · rename_i hi
      have h1 := countP_set (a := .rWait) isR hi
      have h2 := countP_set (a := .rWait) isW hi
      have h3 := countP_set (a := .rWait) asksW hi
      have hr := h.r
      have hw := h.w
      have hq := h.q
      simp at h1 h2 h3
      refine ⟨?_, ?_, ?_, h.ex, ?_, ?_⟩
      · try dsimp only
        omega
      · try dsimp only
        omega
      · try dsimp only
        omega
      · intro hx
        rcases mem_set' hx with hx | hx
        · exact h.rs hx
        · cases hx
      · intro hx
        rcases mem_set' hx with hx | hx
        · exact h.ws hx
        · cases hx
    · split
      · rename_i hi
        have h1 := countP_set (a := .wWait) isR hi
        have h2 := countP_set (a := .wWait) isW hi
        have h3 := countP_set (a := .wWait) asksW hi
        have hr := h.r
        have hw := h.w
        have hq := h.q
        simp at h1 h2 h3
        refine ⟨?_, ?_, ?_, h.ex, ?_, ?_⟩
        · try dsimp only
          omega
        · try dsimp only
          omega
        · try dsimp only
          omega
        · intro hx
          rcases mem_set' hx with hx | hx
          · exact h.rs hx
          · cases hx
        · intro hx
          rcases mem_set' hx with hx | hx
          · exact h.ws hx
          · cases hx
      · exact h

theorem inv_foldl (evs : List Ev) : ∀ s, Inv s → Inv (exec s evs) := by
  unfold exec
  induction evs with
  | nil => exact fun s h => h
  | cons e evs ih => exact fun s h => ih _ (inv_step h e)

theorem inv_exec (n : Nat) (evs : List Ev) : Inv (exec (start n) evs) := inv_foldl evs _ (inv_start n)

/-! ## Properties -/

/-- Two requests that have the lock at the same time are both readers. -/
theorem C110_exclusive (n : Nat) (evs : List Ev) {i j : Nat} (hij : i ≠ j)
    (hi : (exec (start n) evs).req[i]? = some .writing) :
    (exec (start n) evs).req[j]? ≠ some .writing ∧ (exec (start n) evs).req[j]? ≠ some .reading := by
  have h := inv_exec n evs
  generalize exec (start n) evs = s at *
  have hpos : 0 < s.req.countP isW := List.countP_pos_iff.2 ⟨_, List.mem_of_getElem? hi, rfl⟩
  have hw : s.writer = true := by
    cases hw : s.writer
    · have := h.w
      rw [hw] at this
      have e0 : one false = 0 := rfl
      omega
    · rfl
  have h1 : s.req.countP isW = 1 := by
    have := h.w
    rw [hw] at this
    exact this.symm
  constructor
  · intro hj
    have hs := countP_set (a := .idle) isW hi
    have hj' : (s.req.set i .idle)[j]? = some .writing := by
      rw [List.getElem?_set_ne hij]
      exact hj
    have : 0 < (s.req.set i .idle).countP isW := List.countP_pos_iff.2 ⟨_, List.mem_of_getElem? hj', rfl⟩
    have ea : one (isW .writing) = 1 := rfl
    have eb : one (isW .idle) = 0 := rfl
    omega
  · intro hj
    have : 0 < s.req.countP isR := List.countP_pos_iff.2 ⟨_, List.mem_of_getElem? hj, rfl⟩
    have := h.ex hw
    have := h.r
    omega

/-- The request waits for the lock. -/
def Waits (p : PC) : Prop := p = .rWait ∨ p = .rSleep ∨ p = .wWait ∨ p = .wSleep

/-- The request has the lock. -/
def Holds (p : PC) : Prop := p = .reading ∨ p = .writing

/-- No one is left asleep: if a request waits and none has the lock, one that is awake gets it as soon
as it looks. -/
theorem C110_no_lost_wakeup (n : Nat) (evs : List Ev) {p : PC} (hp : p ∈ (exec (start n) evs).req) (hw : Waits p)
    (hn : ∀ q ∈ (exec (start n) evs).req, ¬ Holds q) :
    ∃ i q, (exec (start n) (evs ++ [.retry i])).req[i]? = some q ∧ Holds q := by
  have h := inv_exec n evs
  have e : ∀ i, exec (start n) (evs ++ [.retry i]) = step (exec (start n) evs) (.retry i) := by
    intro i
    simp [exec]
  simp only [e]
  generalize exec (start n) evs = s at *
  have hR : s.readers = 0 := by
    have := h.r
    have h0 : s.req.countP isR = 0 := by
      rw [List.countP_eq_zero]
      intro q hq hx
      exact hn q hq (.inl (by simpa [isR] using hx))
    omega
  have hW : s.writer = false := by
    cases hw' : s.writer
    · rfl
    · exfalso
      have h0 : s.req.countP isW = 0 := by
        rw [List.countP_eq_zero]
        intro q hq hx
        exact hn q hq (.inr (by simpa [isW] using hx))
      have := h.w
      rw [hw', h0] at this
      cases this
  have hcw : s.canWrite = true := by simp [St.canWrite, hR, hW]
  by_cases hex : PC.wWait ∈ s.req
  · obtain ⟨i, hi⟩ := List.getElem?_of_mem hex
    refine ⟨i, .writing, ?_, .inr rfl⟩
    have hlt : i < s.req.length := (List.getElem?_eq_some_iff.1 hi).1
    have e1 : step s (.retry i) = tryWrite s i := by
      simp only [step]
      rw [hi]
      simp
    rw [e1]
    simp [tryWrite, hcw, hlt]
  · have hnow : ∀ q ∈ s.req, asksW q = false := by
      intro q hq
      cases q <;> try rfl
      · exact absurd hq hex
      · have := h.ws hq
        rw [hcw] at this
        cases this
    have hQ : s.waiting = 0 := by
      have := h.q
      have h0 : s.req.countP asksW = 0 := by
        rw [List.countP_eq_zero]
        intro q hq
        simp [hnow q hq]
      omega
    have hcr : s.canRead = true := by simp [St.canRead, hQ, hW]
    have hmem : PC.rWait ∈ s.req := by
      rcases hw with rfl | rfl | rfl | rfl
      · exact hp
      · have := h.rs hp
        rw [hcr] at this
        cases this
      · exact absurd hp hex
      · have := h.ws hp
        rw [hcw] at this
        cases this
    obtain ⟨i, hi⟩ := List.getElem?_of_mem hmem
    refine ⟨i, .reading, ?_, .inl rfl⟩
    have hlt : i < s.req.length := (List.getElem?_eq_some_iff.1 hi).1
    have e1 : step s (.retry i) = tryRead s i := by
      simp only [step]
      rw [hi]
      simp
    rw [e1]
    simp [tryRead, hcr, hlt]

/-- A lock that nobody has or waits for is given at once. -/
theorem C110_free (n : Nat) (evs : List Ev) (hn : ∀ q ∈ (exec (start n) evs).req, q = .idle) {i : Nat} (hi : i < n) :
    (exec (start n) (evs ++ [.read i])).req[i]? = some .reading ∧
      (exec (start n) (evs ++ [.write i])).req[i]? = some .writing := by
  have h := inv_exec n evs
  have e : ∀ ev, exec (start n) (evs ++ [ev]) = step (exec (start n) evs) ev := by
    intro ev
    simp [exec]
  have hlen : ∀ (l : List Ev) s, (exec s l).req.length = s.req.length := by
    intro l
    induction l with
    | nil => intro s; rfl
    | cons ev l ih =>
      intro s
      have : (step s ev).req.length = s.req.length := by
        cases ev <;> simp only [step] <;> repeat' split
        all_goals first
          | rfl
          | simp [tryRead, tryWrite, unlockRead, unlockWrite, broadcast] <;> split <;> simp
          | simp [tryRead, tryWrite, unlockRead, unlockWrite, broadcast]
      exact (ih _).trans this
  have hl : i < (exec (start n) evs).req.length := by
    rw [hlen]
    simpa [start] using hi
  simp only [e]
  generalize exec (start n) evs = s at *
  have h0 : ∀ f : PC → Bool, f .idle = false → s.req.countP f = 0 := by
    intro f hf
    rw [List.countP_eq_zero]
    intro q hq
    rw [hn q hq, hf]
    simp
  have hR : s.readers = 0 := by
    have := h.r
    rw [h0 isR rfl] at this
    exact this
  have hQ : s.waiting = 0 := by
    have := h.q
    rw [h0 asksW rfl] at this
    exact this
  have hW : s.writer = false := by
    cases hw' : s.writer
    · rfl
    · have := h.w
      rw [hw', h0 isW rfl] at this
      cases this
  have hi' : s.req[i]? = some .idle := by
    rw [List.getElem?_eq_getElem hl, hn _ (List.getElem_mem hl)]
  constructor
  · have e1 : step s (.read i) = tryRead s i := by
      simp only [step]
      rw [if_pos hi']
    rw [e1]
    simp [tryRead, St.canRead, hQ, hW, hl]
  · have e1 : step s (.write i) = tryWrite { s with waiting := s.waiting + 1 } i := by
      simp only [step]
      rw [if_pos hi']
    rw [e1]
    simp [tryWrite, St.canWrite, hR, hW, hl]

theorem get_set_of {l : List PC} {i k : Nat} {a p : PC} (h : (l.set i a)[k]? = some p) (hne : p ≠ a) :
    l[k]? = some p := by
  by_cases e : i = k
  · subst e
    by_cases hl : i < l.length
    · simp [hl] at h
      exact absurd h.symm hne
    · have : (l.set i a)[i]? = none := by
        rw [List.getElem?_eq_none_iff]
        simp
        omega
      rw [this] at h
      cases h
  · rwa [List.getElem?_set_ne e] at h

/-- Readers do not overtake a writer that waits: while one waits, no request begins to read. -/
theorem C110_writer_first (n : Nat) (evs : List Ev) (e : Ev) {p : PC} (hp : p ∈ (exec (start n) evs).req)
    (hw : p = .wWait ∨ p = .wSleep) {k : Nat} (hk : (exec (start n) (evs ++ [e])).req[k]? = some .reading) :
    (exec (start n) evs).req[k]? = some .reading := by
  have h := inv_exec n evs
  have ee : exec (start n) (evs ++ [e]) = step (exec (start n) evs) e := by simp [exec]
  rw [ee] at hk
  generalize exec (start n) evs = s at *
  have hc : ∀ x : Int, s.waiting ≤ x → (¬ x = 0) := by
    intro x hx
    have : 0 < s.req.countP asksW := List.countP_pos_iff.2 ⟨p, hp, by rcases hw with rfl | rfl <;> rfl⟩
    have := h.q
    omega
  have hcr : s.canRead = false := by
    simp [St.canRead, hc s.waiting (Int.le_refl _)]
  have hwake : ∀ {l : List PC}, (l.map PC.wake)[k]? = some .reading → l[k]? = some .reading := by
    intro l hl
    rw [List.getElem?_map, Option.map_eq_some_iff] at hl
    obtain ⟨x, hx, hx'⟩ := hl
    cases x <;> first | exact hx | cases hx'
  cases e with
  | read i =>
    simp only [step] at hk
    split at hk
    · simp only [tryRead, hcr] at hk
      exact get_set_of hk (by simp)
    · exact hk
  | write i =>
    simp only [step] at hk
    split at hk
    · simp only [tryWrite] at hk
      split at hk
      · exact get_set_of hk (by simp)
      · exact get_set_of hk (by simp)
    · exact hk
  | retry i =>
    simp only [step] at hk
    split at hk
    · simp only [tryRead, hcr] at hk
      exact get_set_of hk (by simp)
    · split at hk
      · simp only [tryWrite] at hk
        split at hk
        · exact get_set_of hk (by simp)
        · exact get_set_of hk (by simp)
      · exact hk
  | unlock i =>
    simp only [step] at hk
    split at hk
    · simp only [unlockRead] at hk
      split at hk
      · exact get_set_of (hwake hk) (by simp)
      · exact get_set_of hk (by simp)
    · split at hk
      · exact get_set_of (hwake hk) (by simp)
      · exact hk
  | spurious i =>
    simp only [step] at hk
    split at hk
    · exact get_set_of hk (by simp)
    · split at hk
      · exact get_set_of hk (by simp)
      · exact hk

end Verif.RwLock
