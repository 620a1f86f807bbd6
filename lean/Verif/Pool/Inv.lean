import Verif.Pool.Spec

/-!
# Queues of tasks: invariants
-/

namespace Verif.Pool

/-! ## Sums over the threads -/

def sumBy {α : Type} (f : α → Nat) (l : List α) : Nat := (l.map f).sum

theorem sumBy_cons {α : Type} (f : α → Nat) (a : α) (l : List α) : sumBy f (a :: l) = f a + sumBy f l := by
  simp [sumBy]

theorem sumBy_set {α : Type} (f : α → Nat) {l : List α} {i : Nat} {a : α} (b : α) (h : l[i]? = some a) :
    sumBy f (l.set i b) + f a = sumBy f l + f b := by
  induction l generalizing i with
  | nil => simp at h
  | cons x l ih =>
    cases i with
    | zero =>
      simp only [List.getElem?_cons_zero, Option.some.injEq] at h
      subst h
      simp only [List.set_cons_zero, sumBy_cons]
      omega
    | succ i =>
      simp only [List.getElem?_cons_succ] at h
      simp only [List.set_cons_succ, sumBy_cons]
      have := ih h
      omega

theorem sumBy_replicate {α : Type} (f : α → Nat) (a : α) (n : Nat) (h : f a = 0) : sumBy f (.replicate n a) = 0 := by
  induction n with
  | zero => rfl
  | succ n ih => rw [List.replicate_succ, sumBy_cons, h, ih]

theorem sumBy_le {α : Type} (f : α → Nat) (l : List α) (h : ∀ a, f a ≤ 1) : sumBy f l ≤ l.length := by
  induction l with
  | nil => simp [sumBy]
  | cons a l ih =>
    rw [sumBy_cons, List.length_cons]
    have := h a
    omega

theorem sumBy_pos {α : Type} (f : α → Nat) {l : List α} {i : Nat} {a : α} (h : l[i]? = some a) : f a ≤ sumBy f l := by
  induction l generalizing i with
  | nil => simp at h
  | cons x l ih =>
    cases i with
    | zero =>
      simp only [List.getElem?_cons_zero, Option.some.injEq] at h
      subst h
      rw [sumBy_cons]; omega
    | succ i =>
      simp only [List.getElem?_cons_succ] at h
      rw [sumBy_cons]
      have := ih h
      omega

theorem sumBy_mem {α : Type} (f : α → Nat) {l : List α} (h : 0 < sumBy f l) : ∃ (i : Nat) (a : α), l[i]? = some a ∧ 0 < f a := by
  induction l with
  | nil => simp [sumBy] at h
  | cons x l ih =>
    rw [sumBy_cons] at h
    by_cases hx : 0 < f x
    · exact ⟨0, x, rfl, hx⟩
    · obtain ⟨i, a, hi, ha⟩ := ih (by omega)
      exact ⟨i + 1, a, hi, ha⟩

theorem sumBy_zero {α : Type} (f : α → Nat) {l : List α} (h : ∀ a ∈ l, f a = 0) : sumBy f l = 0 := by
  induction l with
  | nil => rfl
  | cons x l ih =>
    rw [sumBy_cons, h x List.mem_cons_self, ih fun a ha => h a (List.mem_cons_of_mem _ ha)]

/-! ## What a thread contributes -/

/-- The task a caller has in hand. -/
def Call.has (t : Task) : Call → Nat
  | .checked t' _ => if t' = t then 1 else 0
  | .counted t' _ => if t' = t then 1 else 0
  | .running t' => if t' = t then 1 else 0
  | _ => 0

def Work.has (t : Task) : Work → Nat
  | .running t' => if t' = t then 1 else 0
  | _ => 0

/-- A caller has a task in hand. -/
def Call.any : Call → Nat
  | .checked _ _ => 1
  | .counted _ _ => 1
  | .running _ => 1
  | _ => 0

def Work.any : Work → Nat
  | .running _ => 1
  | _ => 0

/-- A caller is counted. -/
def Call.cnt : Call → Nat
  | .counted _ _ => 1
  | .running _ => 1
  | .ran _ => 1
  | _ => 0

def Work.cnt : Work → Nat
  | .running _ => 1
  | .ran _ => 1
  | _ => 0

def Call.chk : Call → Nat
  | .checked _ _ => 1
  | _ => 0

def Call.sig : Call → Nat
  | .pushed => 1
  | _ => 0

def Work.up : Work → Nat
  | .waiting => 0
  | .gone => 0
  | _ => 1

def Work.out : Work → Nat
  | .gone => 1
  | _ => 0

/-- Steps a thread may still take. -/
def Call.left : Call → Nat
  | .idle => 0
  | .checked _ _ => 7
  | .counted _ _ => 6
  | .running _ => 2
  | .ran _ => 1
  | .pushed => 2

def Work.left : Work → Nat
  | .look => 1
  | .waiting => 0
  | .running _ => 3
  | .ran _ => 2
  | .gone => 0

/-- Steps that may still be taken without new tasks. -/
def left (s : State) : Nat := sumBy Call.left s.calls + sumBy Work.left s.workers + 3 * s.queue.length

/-! ## The invariant -/

structure Inv (cfg : Cfg) (m : Nat) (s : State) : Prop where
  ncalls : s.calls.length = m
  nworkers : s.workers.length = cfg.workers
  place : ∀ t, s.taken.count t = s.done.count t + s.queue.count t + sumBy (Call.has t) s.calls + sumBy (Work.has t) s.workers
  size : s.taken.length = s.done.length + s.queue.length + sumBy Call.any s.calls + sumBy Work.any s.workers
  pend : s.pending = s.queue.length + sumBy Call.cnt s.calls + sumBy Work.cnt s.workers
  bound : 0 < cfg.max → s.pending + sumBy Call.chk s.calls ≤ cfg.max + m
  wake : 0 < cfg.workers → s.stop = false → s.queue ≠ [] → 0 < sumBy Work.up s.workers + sumBy Call.sig s.calls
  alive : s.stop = false → sumBy Work.out s.workers = 0
  fifo : s.queued = s.begun ++ s.queue
  own : ∀ (c : Nat) (t : Task) (h : Bool), (s.calls[c]? = some (.checked t h) ∨ s.calls[c]? = some (.counted t h)) → t.1 = c

theorem inv_init (cfg : Cfg) (m : Nat) : Inv cfg m (.init cfg m) where
  ncalls := by simp [State.init]
  nworkers := by simp [State.init]
  place t := by
    simp only [State.init]
    rw [sumBy_replicate (Call.has t) .idle m rfl, sumBy_replicate (Work.has t) .look _ rfl]
    rfl
  size := by
    simp only [State.init]
    rw [sumBy_replicate Call.any .idle m rfl, sumBy_replicate Work.any .look _ rfl]
    rfl
  pend := by
    simp only [State.init]
    rw [sumBy_replicate Call.cnt .idle m rfl, sumBy_replicate Work.cnt .look _ rfl]
    rfl
  bound h := by
    simp only [State.init]
    rw [sumBy_replicate Call.chk .idle m rfl]
    omega
  wake _ _ h := absurd rfl h
  alive _ := by
    simp only [State.init]
    rw [sumBy_replicate Work.out .look _ rfl]
  fifo := rfl
  own c t h := by
    simp only [State.init, List.getElem?_replicate]
    rintro (h | h) <;> split at h <;> simp at h

theorem asU_of_nonneg {p : Int} (h : 0 ≤ p) : asU p = p := by
  unfold asU; rw [if_neg (by omega)]

theorem chk_lt {l : List Call} {c : Nat} (h : l[c]? = some .idle) : sumBy Call.chk l < l.length := by
  have h1 := sumBy_set Call.chk (.checked (0, 0) true) h
  have h2 := sumBy_le Call.chk (l.set c (.checked (0, 0) true)) (by intro a; cases a <;> simp [Call.chk])
  rw [List.length_set] at h2
  simp only [Call.chk] at h1
  omega

theorem own_set {l : List Call} (c : Nat) (x : Call)
    (h : ∀ (c : Nat) (t : Task) (h : Bool), (l[c]? = some (.checked t h) ∨ l[c]? = some (.counted t h)) → t.1 = c)
    (hx : ∀ t h, (x = .checked t h ∨ x = .counted t h) → t.1 = c) :
    ∀ (c' : Nat) (t : Task) (h : Bool), ((l.set c x)[c']? = some (.checked t h) ∨ (l.set c x)[c']? = some (.counted t h)) → t.1 = c' := by
  intro c' t b hb
  rw [List.getElem?_set] at hb
  by_cases e : c = c'
  · subst e
    rw [if_pos rfl] at hb
    split at hb
    · exact hx t b (by simpa using hb)
    · simp at hb
  · rw [if_neg e] at hb
    exact h c' t b hb

theorem inv_step {cfg : Cfg} {m : Nat} {s s' : State} {e : Ev} (hi : Inv cfg m s) (h : step cfg s e = some s') : Inv cfg m s' := by
  have hp : 0 ≤ s.pending := by have := hi.pend; omega
  cases e with
  | submit c t =>
    simp only [step] at h
    split at h
    · rename_i hc
      cases h
      unfold submit
      split
      · exact ⟨hi.ncalls, hi.nworkers, hi.place, hi.size, hi.pend, hi.bound, hi.wake, hi.alive, hi.fifo, hi.own⟩
      · rename_i hl
        rw [asU_of_nonneg hp] at hl
        have hk := chk_lt hc
        rw [hi.ncalls] at hk
        refine ⟨by simp [hi.ncalls], hi.nworkers, ?_, ?_, ?_, ?_, ?_, hi.alive, hi.fifo, own_set c _ hi.own ?_⟩
        · intro u
          have := hi.place u
          have h1 := sumBy_set (Call.has u) (.checked (c, t) (cfg.inplace && decide (asU s.pending < cfg.workers))) hc
          simp only [Call.has] at h1
          simp only [List.count_append, List.count_cons, List.count_nil, beq_iff_eq]
          by_cases e : (c, t) = u <;> simp only [e, if_true, if_false] at h1 ⊢ <;> omega
        · have := hi.size
          have h1 := sumBy_set Call.any (.checked (c, t) (cfg.inplace && decide (asU s.pending < cfg.workers))) hc
          simp only [Call.any] at h1
          simp only [List.length_append, List.length_cons, List.length_nil]
          omega
        · have := hi.pend
          have h1 := sumBy_set Call.cnt (.checked (c, t) (cfg.inplace && decide (asU s.pending < cfg.workers))) hc
          simp only [Call.cnt] at h1
          show s.pending = _
          simp only
          omega
        · intro hm
          have h1 := sumBy_set Call.chk (.checked (c, t) (cfg.inplace && decide (asU s.pending < cfg.workers))) hc
          simp only [Call.chk] at h1
          show s.pending + _ ≤ _
          simp only
          have : ¬ cfg.max < s.pending := fun e => hl ⟨hm, e⟩
          omega
        · intro h0 h1 h2
          have := hi.wake h0 h1 h2
          have h3 := sumBy_set Call.sig (.checked (c, t) (cfg.inplace && decide (asU s.pending < cfg.workers))) hc
          simp only [Call.sig] at h3
          simp only
          omega
        · intro t' b hb
          rcases hb with hb | hb <;> cases hb
          rfl
    · cases h
  | count c =>
    simp only [step] at h
    split at h
    · rename_i t b hc
      cases h
      unfold countUp
      refine ⟨by simp [hi.ncalls], hi.nworkers, ?_, ?_, ?_, ?_, ?_, hi.alive, hi.fifo, own_set c _ hi.own ?_⟩
      · intro u
        have := hi.place u
        have h1 := sumBy_set (Call.has u) (.counted t b) hc
        simp only [Call.has] at h1 ⊢
        omega
      · have := hi.size
        have h1 := sumBy_set Call.any (.counted t b) hc
        simp only [Call.any] at h1 ⊢
        omega
      · have := hi.pend
        have h1 := sumBy_set Call.cnt (.counted t b) hc
        simp only [Call.cnt] at h1 ⊢
        omega
      · intro hm
        have := hi.bound hm
        have h1 := sumBy_set Call.chk (.counted t b) hc
        simp only [Call.chk] at h1 ⊢
        omega
      · intro h0 h1 h2
        have := hi.wake h0 h1 h2
        have h3 := sumBy_set Call.sig (.counted t b) hc
        simp only [Call.sig] at h3 ⊢
        omega
      · intro t' b' hb
        rcases hb with hb | hb <;> cases hb
        exact hi.own c _ _ (.inl hc)
    · cases h
  | go c =>
    simp only [step] at h
    split at h
    · rename_i t b hc
      cases h
      unfold go
      cases b with
      | true =>
        refine ⟨by simp [hi.ncalls], hi.nworkers, ?_, ?_, ?_, ?_, ?_, hi.alive, hi.fifo, own_set c _ hi.own ?_⟩
        · intro u
          have := hi.place u
          have h1 := sumBy_set (Call.has u) (.running t) hc
          simp only [Call.has] at h1
          simp only [if_true]
          omega
        · have := hi.size
          have h1 := sumBy_set Call.any (.running t) hc
          simp only [Call.any] at h1
          simp only [if_true]
          omega
        · have := hi.pend
          have h1 := sumBy_set Call.cnt (.running t) hc
          simp only [Call.cnt] at h1
          simp only [if_true]
          omega
        · intro hm
          have := hi.bound hm
          have h1 := sumBy_set Call.chk (.running t) hc
          simp only [Call.chk] at h1
          simp only [if_true]
          omega
        · intro h0 h1 h2
          have := hi.wake h0 h1 h2
          have h3 := sumBy_set Call.sig (.running t) hc
          simp only [Call.sig] at h3
          simp only [if_true]
          omega
        · intro t' b' hb
          rcases hb with hb | hb <;> cases hb
      | false =>
        refine ⟨by simp [hi.ncalls], hi.nworkers, ?_, ?_, ?_, ?_, ?_, hi.alive, ?_, own_set c _ hi.own ?_⟩
        · intro u
          have := hi.place u
          have h1 := sumBy_set (Call.has u) .pushed hc
          simp only [Call.has] at h1
          simp only [Bool.false_eq_true, if_false, List.count_append, List.count_cons, List.count_nil, beq_iff_eq]
          by_cases e : t = u <;> simp only [e, if_true, if_false] at h1 ⊢ <;> omega
        · have := hi.size
          have h1 := sumBy_set Call.any .pushed hc
          simp only [Call.any] at h1
          simp only [Bool.false_eq_true, if_false, List.length_append, List.length_cons, List.length_nil]
          omega
        · have := hi.pend
          have h1 := sumBy_set Call.cnt .pushed hc
          simp only [Call.cnt] at h1
          simp only [Bool.false_eq_true, if_false, List.length_append, List.length_cons, List.length_nil]
          omega
        · intro hm
          have := hi.bound hm
          have h1 := sumBy_set Call.chk .pushed hc
          simp only [Call.chk] at h1
          simp only [Bool.false_eq_true, if_false]
          omega
        · intro h0 h1 h2
          have h3 := sumBy_set Call.sig .pushed hc
          simp only [Call.sig] at h3
          simp only [Bool.false_eq_true, if_false]
          omega
        · simp only [Bool.false_eq_true, if_false, hi.fifo, List.append_assoc]
        · intro t' b' hb
          rcases hb with hb | hb <;> cases hb
    · cases h
  | finish c =>
    simp only [step] at h
    split at h
    · rename_i t hc
      cases h
      refine ⟨by simp [hi.ncalls], hi.nworkers, ?_, ?_, ?_, ?_, ?_, hi.alive, hi.fifo, own_set c _ hi.own ?_⟩
      · intro u
        have := hi.place u
        have h1 := sumBy_set (Call.has u) (.ran t) hc
        simp only [Call.has] at h1
        simp only [List.count_append, List.count_cons, List.count_nil, beq_iff_eq]
        by_cases e : t = u <;> simp only [e, if_true, if_false] at h1 ⊢ <;> omega
      · have := hi.size
        have h1 := sumBy_set Call.any (.ran t) hc
        simp only [Call.any] at h1
        simp only [List.length_append, List.length_cons, List.length_nil]
        omega
      · have := hi.pend
        have h1 := sumBy_set Call.cnt (.ran t) hc
        simp only [Call.cnt] at h1 ⊢
        omega
      · intro hm
        have := hi.bound hm
        have h1 := sumBy_set Call.chk (.ran t) hc
        simp only [Call.chk] at h1 ⊢
        omega
      · intro h0 h1 h2
        have := hi.wake h0 h1 h2
        have h3 := sumBy_set Call.sig (.ran t) hc
        simp only [Call.sig] at h3 ⊢
        omega
      · intro t' b' hb
        rcases hb with hb | hb <;> cases hb
    · cases h
  | settle c =>
    simp only [step] at h
    split at h
    · rename_i t hc
      cases h
      refine ⟨by simp [hi.ncalls], hi.nworkers, ?_, ?_, ?_, ?_, ?_, hi.alive, hi.fifo, own_set c _ hi.own ?_⟩
      · intro u
        have := hi.place u
        have h1 := sumBy_set (Call.has u) .idle hc
        simp only [Call.has] at h1 ⊢
        omega
      · have := hi.size
        have h1 := sumBy_set Call.any .idle hc
        simp only [Call.any] at h1 ⊢
        omega
      · have := hi.pend
        have h1 := sumBy_set Call.cnt .idle hc
        simp only [Call.cnt] at h1 ⊢
        omega
      · intro hm
        have := hi.bound hm
        have h1 := sumBy_set Call.chk .idle hc
        simp only [Call.chk] at h1 ⊢
        omega
      · intro h0 h1 h2
        have := hi.wake h0 h1 h2
        have h3 := sumBy_set Call.sig .idle hc
        simp only [Call.sig] at h3 ⊢
        omega
      · intro t' b' hb
        rcases hb with hb | hb <;> cases hb
    · cases h
  | signal c w =>
    cases w with
    | none =>
      simp only [step] at h
      split at h
      · rename_i hc
        obtain ⟨hc, hw⟩ := hc
        cases h
        refine ⟨by simp [hi.ncalls], hi.nworkers, ?_, ?_, ?_, ?_, ?_, hi.alive, hi.fifo, own_set c _ hi.own ?_⟩
        · intro u
          have := hi.place u
          have h1 := sumBy_set (Call.has u) .idle hc
          simp only [Call.has] at h1 ⊢
          omega
        · have := hi.size
          have h1 := sumBy_set Call.any .idle hc
          simp only [Call.any] at h1 ⊢
          omega
        · have := hi.pend
          have h1 := sumBy_set Call.cnt .idle hc
          simp only [Call.cnt] at h1 ⊢
          omega
        · intro hm
          have := hi.bound hm
          have h1 := sumBy_set Call.chk .idle hc
          simp only [Call.chk] at h1 ⊢
          omega
        · intro h0 h1 h2
          have hal := hi.alive h1
          have hn := hi.nworkers
          cases hws : s.workers with
          | nil => rw [hws] at hn; simp at hn; omega
          | cons x l =>
            have hx : x ∈ s.workers := by rw [hws]; exact List.mem_cons_self
            have : 0 < Work.up x := by
              cases x with
              | waiting => exact absurd hx hw
              | gone =>
                rw [hws, sumBy_cons] at hal
                simp [Work.out] at hal
              | look => exact Nat.one_pos
              | running _ => exact Nat.one_pos
              | ran _ => exact Nat.one_pos
            simp only [hws, sumBy_cons]
            omega
        · intro t' b' hb
          rcases hb with hb | hb <;> cases hb
      · cases h
    | some w =>
      simp only [step] at h
      split at h
      · rename_i hc
        obtain ⟨hc, hw⟩ := hc
        cases h
        refine ⟨by simp [hi.ncalls], by simp [hi.nworkers], ?_, ?_, ?_, ?_, ?_, ?_, hi.fifo, own_set c _ hi.own ?_⟩
        · intro u
          have := hi.place u
          have h1 := sumBy_set (Call.has u) .idle hc
          have h2 := sumBy_set (Work.has u) .look hw
          simp only [Call.has, Work.has] at h1 h2 ⊢
          omega
        · have := hi.size
          have h1 := sumBy_set Call.any .idle hc
          have h2 := sumBy_set Work.any .look hw
          simp only [Call.any, Work.any] at h1 h2 ⊢
          omega
        · have := hi.pend
          have h1 := sumBy_set Call.cnt .idle hc
          have h2 := sumBy_set Work.cnt .look hw
          simp only [Call.cnt, Work.cnt] at h1 h2 ⊢
          omega
        · intro hm
          have := hi.bound hm
          have h1 := sumBy_set Call.chk .idle hc
          simp only [Call.chk] at h1 ⊢
          omega
        · intro h0 h1 h2
          have h3 := sumBy_set Work.up .look hw
          simp only [Work.up] at h3 ⊢
          omega
        · intro hs
          have := hi.alive hs
          have h3 := sumBy_set Work.out .look hw
          simp only [Work.out] at h3 ⊢
          omega
        · intro t' b' hb
          rcases hb with hb | hb <;> cases hb
      · cases h
  | look w =>
    simp only [step] at h
    split at h
    · rename_i hw
      cases h
      unfold look
      cases hq : s.queue with
      | nil =>
        have hz : ∀ t, Work.has t (if s.stop then Work.gone else .waiting) = 0 := by intro t; cases s.stop <;> rfl
        refine ⟨hi.ncalls, by simp [hi.nworkers], ?_, ?_, ?_, hi.bound, ?_, ?_, ?_, hi.own⟩
        · intro u
          have := hi.place u
          rw [hq] at this
          have h2 := sumBy_set (Work.has u) (if s.stop then Work.gone else .waiting) hw
          rw [hz] at h2
          simp only [Work.has] at h2
          simp only
          omega
        · have := hi.size
          rw [hq] at this
          have h2 := sumBy_set Work.any (if s.stop then Work.gone else .waiting) hw
          have h3 : Work.any (if s.stop then Work.gone else .waiting) = 0 := by cases s.stop <;> rfl
          simp only [Work.any] at h2 h3
          simp only
          omega
        · have := hi.pend
          rw [hq] at this
          have h2 := sumBy_set Work.cnt (if s.stop then Work.gone else .waiting) hw
          have h3 : Work.cnt (if s.stop then Work.gone else .waiting) = 0 := by cases s.stop <;> rfl
          simp only [Work.cnt] at h2 h3
          simp only
          omega
        · intro _ _ h2
          exact absurd rfl h2
        · intro hs
          simp only at hs
          have := hi.alive hs
          have h3 := sumBy_set Work.out .waiting hw
          simp only [hs, Bool.false_eq_true, if_false]
          simp only [Work.out] at h3 ⊢
          omega
        · have := hi.fifo
          rw [hq] at this
          exact this
      | cons t q =>
        refine ⟨hi.ncalls, by simp [hi.nworkers], ?_, ?_, ?_, hi.bound, ?_, ?_, ?_, hi.own⟩
        · intro u
          have := hi.place u
          rw [hq, List.count_cons] at this
          have h2 := sumBy_set (Work.has u) (.running t) hw
          simp only [Work.has] at h2
          simp only [beq_iff_eq] at this ⊢
          by_cases e : t = u <;> simp only [e, if_true, if_false] at h2 this ⊢ <;> omega
        · have := hi.size
          rw [hq, List.length_cons] at this
          have h2 := sumBy_set Work.any (.running t) hw
          simp only [Work.any] at h2 ⊢
          omega
        · have := hi.pend
          rw [hq, List.length_cons] at this
          have h2 := sumBy_set Work.cnt (.running t) hw
          simp only [Work.cnt] at h2 ⊢
          omega
        · intro _ _ _
          have h3 := sumBy_set Work.up (.running t) hw
          have := sumBy_pos Work.up hw
          simp only [Work.up] at h3 this ⊢
          omega
        · intro hs
          have := hi.alive hs
          have h3 := sumBy_set Work.out (.running t) hw
          simp only [Work.out] at h3 ⊢
          omega
        · have := hi.fifo
          rw [hq] at this
          simp [this]
    · cases h
  | wfinish w =>
    simp only [step] at h
    split at h
    · rename_i t hw
      cases h
      refine ⟨hi.ncalls, by simp [hi.nworkers], ?_, ?_, ?_, hi.bound, ?_, ?_, hi.fifo, hi.own⟩
      · intro u
        have := hi.place u
        have h1 := sumBy_set (Work.has u) (.ran t) hw
        simp only [Work.has] at h1
        simp only [List.count_append, List.count_cons, List.count_nil, beq_iff_eq]
        by_cases e : t = u <;> simp only [e, if_true, if_false] at h1 ⊢ <;> omega
      · have := hi.size
        have h1 := sumBy_set Work.any (.ran t) hw
        simp only [Work.any] at h1
        simp only [List.length_append, List.length_cons, List.length_nil]
        omega
      · have := hi.pend
        have h1 := sumBy_set Work.cnt (.ran t) hw
        simp only [Work.cnt] at h1 ⊢
        omega
      · intro h0 h1 h2
        have := hi.wake h0 h1 h2
        have h3 := sumBy_set Work.up (.ran t) hw
        simp only [Work.up] at h3 ⊢
        omega
      · intro hs
        have := hi.alive hs
        have h3 := sumBy_set Work.out (.ran t) hw
        simp only [Work.out] at h3 ⊢
        omega
    · cases h
  | wsettle w =>
    simp only [step] at h
    split at h
    · rename_i t hw
      cases h
      refine ⟨hi.ncalls, by simp [hi.nworkers], ?_, ?_, ?_, ?_, ?_, ?_, hi.fifo, hi.own⟩
      · intro u
        have := hi.place u
        have h1 := sumBy_set (Work.has u) .look hw
        simp only [Work.has] at h1 ⊢
        omega
      · have := hi.size
        have h1 := sumBy_set Work.any .look hw
        simp only [Work.any] at h1 ⊢
        omega
      · have := hi.pend
        have h1 := sumBy_set Work.cnt .look hw
        simp only [Work.cnt] at h1 ⊢
        omega
      · intro hm
        have := hi.bound hm
        simp only
        omega
      · intro h0 h1 h2
        have := hi.wake h0 h1 h2
        have h3 := sumBy_set Work.up .look hw
        simp only [Work.up] at h3 ⊢
        omega
      · intro hs
        have := hi.alive hs
        have h3 := sumBy_set Work.out .look hw
        simp only [Work.out] at h3 ⊢
        omega
    · cases h
  | wake w =>
    simp only [step] at h
    split at h
    · rename_i hw
      cases h
      refine ⟨hi.ncalls, by simp [hi.nworkers], ?_, ?_, ?_, hi.bound, ?_, ?_, hi.fifo, hi.own⟩
      · intro u
        have := hi.place u
        have h1 := sumBy_set (Work.has u) .look hw
        simp only [Work.has] at h1 ⊢
        omega
      · have := hi.size
        have h1 := sumBy_set Work.any .look hw
        simp only [Work.any] at h1 ⊢
        omega
      · have := hi.pend
        have h1 := sumBy_set Work.cnt .look hw
        simp only [Work.cnt] at h1 ⊢
        omega
      · intro h0 h1 h2
        have h3 := sumBy_set Work.up .look hw
        simp only [Work.up] at h3 ⊢
        omega
      · intro hs
        have := hi.alive hs
        have h3 := sumBy_set Work.out .look hw
        simp only [Work.out] at h3 ⊢
        omega
    · cases h
  | destroy =>
    simp only [step] at h
    cases h
    exact ⟨hi.ncalls, hi.nworkers, hi.place, hi.size, hi.pend, hi.bound, fun _ h => by simp at h, fun h => by simp at h,
      hi.fifo, hi.own⟩

theorem inv_run {cfg : Cfg} {m : Nat} (l : List Ev) {s s' : State} (hi : Inv cfg m s) (h : run cfg l s = some s') : Inv cfg m s' := by
  induction l generalizing s with
  | nil => cases h; exact hi
  | cons e l ih =>
    simp only [run] at h
    cases hs : step cfg s e with
    | none => rw [hs] at h; cases h
    | some u => rw [hs] at h; exact ih (inv_step hi hs) h

theorem inv_reach {cfg : Cfg} {m : Nat} {s : State} (h : Reach cfg m s) : Inv cfg m s := by
  obtain ⟨l, hl⟩ := h
  exact inv_run l (inv_init cfg m) hl

/-! ## Own steps come to an end -/

theorem left_step {cfg : Cfg} {s s' : State} {e : Ev} (he : e.own = true) (h : step cfg s e = some s') : left s' < left s := by
  unfold left
  cases e with
  | submit _ _ => simp [Ev.own] at he
  | wake _ => simp [Ev.own] at he
  | destroy => simp [Ev.own] at he
  | count c =>
    simp only [step] at h
    split at h
    · rename_i t b hc
      cases h
      have h1 := sumBy_set Call.left (.counted t b) hc
      simp only [Call.left] at h1
      simp only [countUp]
      omega
    · cases h
  | go c =>
    simp only [step] at h
    split at h
    · rename_i t b hc
      cases h
      unfold go
      cases b with
      | true =>
        have h1 := sumBy_set Call.left (.running t) hc
        simp only [Call.left] at h1
        simp only [if_true]
        omega
      | false =>
        have h1 := sumBy_set Call.left .pushed hc
        simp only [Call.left] at h1
        simp only [Bool.false_eq_true, if_false, List.length_append, List.length_cons, List.length_nil]
        omega
    · cases h
  | finish c =>
    simp only [step] at h
    split at h
    · rename_i t hc
      cases h
      have h1 := sumBy_set Call.left (.ran t) hc
      simp only [Call.left] at h1
      simp only
      omega
    · cases h
  | settle c =>
    simp only [step] at h
    split at h
    · rename_i t hc
      cases h
      have h1 := sumBy_set Call.left .idle hc
      simp only [Call.left] at h1
      simp only
      omega
    · cases h
  | signal c w =>
    cases w with
    | none =>
      simp only [step] at h
      split at h
      · rename_i hc
        cases h
        have h1 := sumBy_set Call.left .idle hc.1
        simp only [Call.left] at h1
        simp only
        omega
      · cases h
    | some w =>
      simp only [step] at h
      split at h
      · rename_i hc
        cases h
        have h1 := sumBy_set Call.left .idle hc.1
        have h2 := sumBy_set Work.left .look hc.2
        simp only [Call.left, Work.left] at h1 h2
        simp only
        omega
      · cases h
  | look w =>
    simp only [step] at h
    split at h
    · rename_i hw
      cases h
      unfold look
      cases hq : s.queue with
      | nil =>
        have h2 := sumBy_set Work.left (if s.stop then Work.gone else .waiting) hw
        have h3 : Work.left (if s.stop then Work.gone else .waiting) = 0 := by cases s.stop <;> rfl
        rw [h3] at h2
        simp only [Work.left] at h2
        simp only [hq, List.length_nil]
        omega
      | cons t q =>
        have h2 := sumBy_set Work.left (.running t) hw
        simp only [Work.left] at h2
        simp only [List.length_cons]
        omega
    · cases h
  | wfinish w =>
    simp only [step] at h
    split at h
    · rename_i t hw
      cases h
      have h1 := sumBy_set Work.left (.ran t) hw
      simp only [Work.left] at h1
      simp only
      omega
    · cases h
  | wsettle w =>
    simp only [step] at h
    split at h
    · rename_i t hw
      cases h
      have h1 := sumBy_set Work.left .look hw
      simp only [Work.left] at h1
      simp only
      omega
    · cases h

end Verif.Pool
