import Verif.Txn.ScanIter

/-!
# Transactional scans: Seek, Next and pages
-/

namespace Verif.Txn
open Verif.Codec

namespace ScanCtx
variable {c : ScanCtx}

/-- Keys strictly between `p` and `m` have no value and no lock in the way. -/
def Quiet (c : ScanCtx) (p m : Bytes) : Prop :=
  ∀ k, p < k → k < m → c.InRange k → c.val k = [] ∧ c.NoConflict k

/-- Keys after `p` have no value and no lock in the way. -/
def QuietAll (c : ScanCtx) (p : Bytes) : Prop :=
  ∀ k, p < k → c.InRange k → c.val k = [] ∧ c.NoConflict k

theorem val_of_no_record {k : Bytes} (h : ∀ e ∈ c.W0, e.1.key ≠ k) : c.val k = [] := by
  have : c.W0.find? (visible k c.T) = none := by
    rw [List.find?_eq_none]
    intro x hx
    simp only [visible, decide_eq_true_eq, not_and]
    intro he; exact absurd he (h x hx)
  rw [val, this]

theorem Gap.quiet {p m : Bytes} (h : c.Gap p m) : c.Quiet p m := by
  intro k hp hm _
  refine ⟨val_of_no_record ?_, ?_⟩
  · intro e he hk
    exact h.2 e he (hk ▸ hp) (hk ▸ hm)
  · intro l hl
    exact absurd hm (h.1 _ hl hp)

/-- The iterator after `Seek` or `Next` from frontier `p`. -/
structure Settled (c : ScanCtx) (p : Bytes) (it : Iter) : Prop where
  result : it.result = none
  ok : (it.key ≠ [] ∧ p < it.key ∧ it.value ≠ [] ∧ c.Post it ∧ c.Quiet p it.key ∧ c.NoConflict it.key) ∨
    (it.key = [] ∧ c.QuietAll p)

/-- The iterator met a lock. -/
structure Stuck (c : ScanCtx) (p : Bytes) (it : Iter) (m : Bytes) (l : LockInfo) : Prop where
  key : it.key = []
  result : it.result = some (.locked l)
  lt : p < m
  range : c.InRange m
  lock : (m, l) ∈ c.L0
  conflict : lockConflict l c.iso c.ts c.resolved = true
  quiet : c.Quiet p m

theorem Quiet.trans {p m q : Bytes} (h : c.Quiet p m) (hm : c.val m = []) (hn : c.NoConflict m) (h' : c.Quiet m q) :
    c.Quiet p q := by
  intro k hp hq hr
  rcases lt_trichotomy k m with hk | hk | hk
  · exact h k hp hk hr
  · subst hk; exact ⟨hm, hn⟩
  · exact h' k hk hq hr

theorem Quiet.transAll {p m : Bytes} (h : c.Quiet p m) (hm : c.val m = []) (hn : c.NoConflict m) (h' : c.QuietAll m) :
    c.QuietAll p := by
  intro k hp hr
  rcases lt_trichotomy k m with hk | hk | hk
  · exact h k hp hk hr
  · subst hk; exact ⟨hm, hn⟩
  · exact h' k hk hr

theorem innerNext_spec (h : c.Ok) {it : Iter} (hp : c.Post it) :
    (∃ it', innerNext c.live c.iso c.ts c.resolved it = (.ok, it') ∧ it'.key = [] ∧ it'.value = [] ∧
      it'.result = none ∧ c.QuietAll it.key) ∨
    ∃ m, c.Taken it.key (innerNext c.live c.iso c.ts c.resolved it) m := by
  simp only [innerNext, hp.key, if_false, hp.result, ne_eq, not_true_eq_false]
  -- position after the lock iterator has moved
  have hpre : ∃ lk ls, (if it.locks ≠ [] ∧ ¬ it.key < it.lastLock then
        { it with value := [], lastLock := (advLocks it.key it.locks).1, locks := (advLocks it.key it.locks).2, result := none }
      else { it with value := [], result := none }) = { it with value := [], lastLock := lk, locks := ls, result := none } ∧
      c.Pre { it with value := [], lastLock := lk, locks := ls, result := none } it.key := by
    by_cases hc : it.locks ≠ [] ∧ ¬ it.key < it.lastLock
    · rw [if_pos hc]
      obtain ⟨e, rest, hL⟩ : ∃ e rest, it.locks = e :: rest := by
        cases hL : it.locks with
        | nil => exact absurd hL hc.1
        | cons a b => exact ⟨a, b, rfl⟩
      have he : ¬ it.key < e.1 := by
        have := hc.2; rw [hp.lastLock, hL] at this; exact this
      have hasc := hp.asc
      rw [hL] at hasc
      obtain ⟨a1, a2⟩ := advLocks_spec rest e hasc he
      rw [← hL] at a1 a2
      exact ⟨_, _, rfl, rfl, rfl, by simp only [a1, hp.locks], hp.writes, a2, hp.head, hp.stale⟩
    · rw [if_neg hc]
      refine ⟨it.lastLock, it.locks, rfl, rfl, rfl, ?_, hp.writes, hp.lastLock, hp.head, hp.stale⟩
      rw [← hp.locks, filter_eq_self_of]
      intro a ha
      cases hL : it.locks with
      | nil => rw [hL] at ha; cases ha
      | cons e rest =>
        have hlt : it.key < e.1 := by
          by_cases hlt : it.key < it.lastLock
          · rw [hp.lastLock, hL] at hlt; exact hlt
          · exact absurd ⟨by rw [hL]; simp, hlt⟩ hc
        rw [hL] at ha
        have hasc := hp.asc
        rw [hL] at hasc
        rcases List.mem_cons.1 ha with rfl | ha
        · simpa using hlt
        · simpa using KeyOrder.trans hlt ((List.pairwise_cons.1 hasc).1 a ha)
  obtain ⟨lk, ls, heq, hpre⟩ := hpre
  simp only [ne_eq] at heq
  rw [heq]
  simp only
  have hnf : ¬ (¬ it.key < it.lastWrite ∧ ¬ it.writes = []) := by
    rintro ⟨h1, h2⟩
    cases hW : it.writes with
    | nil => exact h2 hW
    | cons e rest =>
      obtain ⟨w1, _, _⟩ := head_min_writes hpre hW
      have := hp.head h2
      rw [this, hW] at h1
      exact h1 w1
  rw [if_neg hnf]
  have hempty : ls = [] → it.writes = [] → c.QuietAll it.key := by
    intro h1 h2 k hk _
    have e1 := hpre.locks
    have e2 := hpre.writes
    simp only [h1, h2] at e1 e2
    have e1 := List.filter_eq_nil_iff.1 e1.symm
    have e2 := List.filter_eq_nil_iff.1 e2.symm
    refine ⟨val_of_no_record ?_, ?_⟩
    · intro e he hke
      exact e2 e he (by simpa [hke] using hk)
    · intro l hl
      exact absurd hk (by simpa using e1 _ hl)
  by_cases hboth : lk = [] ∧ it.lastWrite = []
  · rw [if_pos hboth]
    left
    have hls : ls = [] := by
      cases hL : ls with
      | nil => rfl
      | cons e rest =>
        have := head_min_locks hpre hL
        have hll := hpre.lastLock
        simp only [hL, headKey] at hll
        exact absurd (hll.symm.trans hboth.1) (ne_nil h (L0_range this.2.1))
    have hws : it.writes = [] := by
      cases hW : it.writes with
      | nil => rfl
      | cons e rest =>
        have := head_min_writes hpre hW
        have hlw := hp.head (by rw [hW]; simp)
        rw [hW] at hlw
        exact absurd (hlw.symm.trans hboth.2) (ne_nil h (W0_range h this.2.1))
    rw [if_pos ⟨hls, hws⟩]
    exact ⟨_, rfl, rfl, rfl, rfl, hempty hls hws⟩
  · rw [if_neg hboth]
    by_cases hend : ¬ it.key < lk ∧ ¬ it.key < it.lastWrite
    · rw [if_pos hend]
      left
      have hls : ls = [] := by
        cases hL : ls with
        | nil => rfl
        | cons e rest =>
          have := head_min_locks hpre hL
          have hll := hpre.lastLock
          simp only [hL, headKey] at hll
          rw [hll] at hend
          exact absurd this.1 hend.1
      have hws : it.writes = [] := by
        cases hW : it.writes with
        | nil => rfl
        | cons e rest =>
          have := head_min_writes hpre hW
          have hlw := hp.head (by rw [hW]; simp)
          rw [hW] at hlw
          rw [hlw] at hend
          exact absurd this.1 hend.2
      exact ⟨_, rfl, rfl, rfl, rfl, hempty hls hws⟩
    · rw [if_neg hend]
      right
      have hne : ls ≠ [] ∨ it.writes ≠ [] := by
        by_cases h1 : ls = []
        · right
          intro h2
          refine hend ⟨?_, hp.stale h2⟩
          have := hpre.lastLock
          simp only [h1, headKey] at this
          rw [this]; exact not_lt_nil _
        · exact Or.inl h1
      exact current_spec h hpre hne

theorem filter_length_le {α : Type} {p q : α → Bool} (l : List α) (h : ∀ a ∈ l, q a = true → p a = true) :
    (l.filter q).length ≤ (l.filter p).length := by
  induction l with
  | nil => simp
  | cons x l ih =>
    have ih := ih (fun a ha => h a (List.mem_cons_of_mem _ ha))
    have hx := h x List.mem_cons_self
    by_cases hq : q x = true
    · rw [List.filter_cons_of_pos hq, List.filter_cons_of_pos (hx hq)]; simpa using ih
    · rw [List.filter_cons_of_neg hq]
      by_cases hp : p x = true
      · rw [List.filter_cons_of_pos hp]; simp only [List.length_cons]; omega
      · rw [List.filter_cons_of_neg hp]; exact ih

theorem filter_length_lt {α : Type} {p q : α → Bool} (l : List α) (h : ∀ a ∈ l, q a = true → p a = true)
    {x : α} (hx : x ∈ l) (hp : p x = true) (hq : q x = false) :
    (l.filter q).length < (l.filter p).length := by
  induction l with
  | nil => cases hx
  | cons y l ih =>
    have hle := filter_length_le (p := p) (q := q) l (fun a ha => h a (List.mem_cons_of_mem _ ha))
    rcases List.mem_cons.1 hx with rfl | hx
    · rw [List.filter_cons_of_neg (by simp [hq]), List.filter_cons_of_pos hp]
      simp only [List.length_cons]; omega
    · have ih := ih (fun a ha => h a (List.mem_cons_of_mem _ ha)) hx
      have hy := h y List.mem_cons_self
      by_cases hqy : q y = true
      · rw [List.filter_cons_of_pos hqy, List.filter_cons_of_pos (hy hqy)]; simpa using ih
      · rw [List.filter_cons_of_neg hqy]
        by_cases hpy : p y = true
        · rw [List.filter_cons_of_pos hpy]; simp only [List.length_cons]; omega
        · rw [List.filter_cons_of_neg hpy]; exact ih

theorem left_mono {p m : Bytes} (h : p < m) : c.left m ≤ c.left p := by
  have h1 := filter_length_le (p := fun e : Bytes × LockInfo => decide (p < e.1))
    (q := fun e => decide (m < e.1)) c.L0 (by intro a _ hm; simp at hm ⊢; exact KeyOrder.trans h hm)
  have h2 := filter_length_le (p := fun e : VKey × WriteInfo => decide (p < e.1.key))
    (q := fun e => decide (m < e.1.key)) c.W0 (by intro a _ hm; simp at hm ⊢; exact KeyOrder.trans h hm)
  simp only [left]; omega

/-- A key with an entry is consumed. -/
theorem left_lt {p m : Bytes} (h : p < m) (hm : (∃ l, (m, l) ∈ c.L0) ∨ ∃ e ∈ c.W0, e.1.key = m) :
    c.left m < c.left p := by
  have h1 := filter_length_le (p := fun e : Bytes × LockInfo => decide (p < e.1))
    (q := fun e => decide (m < e.1)) c.L0 (by intro a _ hm; simp at hm ⊢; exact KeyOrder.trans h hm)
  have h2 := filter_length_le (p := fun e : VKey × WriteInfo => decide (p < e.1.key))
    (q := fun e => decide (m < e.1.key)) c.W0 (by intro a _ hm; simp at hm ⊢; exact KeyOrder.trans h hm)
  simp only [left]
  rcases hm with ⟨l, hl⟩ | ⟨e, he, rfl⟩
  · have := filter_length_lt (p := fun e : Bytes × LockInfo => decide (p < e.1))
      (q := fun e => decide (m < e.1)) c.L0 (by intro a _ hm; simp at hm ⊢; exact KeyOrder.trans h hm)
      hl (by simpa using h) (by simp [lt_irrefl])
    omega
  · have := filter_length_lt (p := fun e : VKey × WriteInfo => decide (p < e.1.key))
      (q := fun x => decide (e.1.key < x.1.key)) c.W0 (by intro a _ hm; simp at hm ⊢; exact KeyOrder.trans h hm)
      he (by simpa using h) (by simp [lt_irrefl])
    omega

theorem Post.left_le {it : Iter} (h : c.Post it) : c.left it.key ≤ it.locks.length + it.writes.length := by
  simp only [left, ← h.locks, ← h.writes]
  have := List.length_filter_le (fun e : Bytes × LockInfo => decide (it.key < e.1)) it.locks
  omega

/-- Result of `Next` and `Seek` from frontier `p`. -/
def Moved (c : ScanCtx) (p : Bytes) (out : IterOut × Iter) : Prop :=
  (out.1 = .ok ∧ c.Settled p out.2) ∨ (∃ m l, out.1 = .conflict ∧ c.Stuck p out.2 m l)

theorem Moved.before {p m : Bytes} {out : IterOut × Iter} (hpm : p < m) (hq : c.Quiet p m) (hv : c.val m = [])
    (hn : c.NoConflict m) (h : c.Moved m out) : c.Moved p out := by
  rcases h with ⟨h1, h2⟩ | ⟨m', l, h1, h2⟩
  · left
    refine ⟨h1, h2.result, ?_⟩
    rcases h2.ok with ⟨a, b, v, d, e, f⟩ | ⟨a, b⟩
    · exact Or.inl ⟨a, KeyOrder.trans hpm b, v, d, hq.trans hv hn e, f⟩
    · exact Or.inr ⟨a, hq.transAll hv hn b⟩
  · right
    exact ⟨m', l, h1, h2.key, h2.result, KeyOrder.trans hpm h2.lt, h2.range, h2.lock, h2.conflict,
      hq.trans hv hn h2.quiet⟩

/-- `GetCurrentValue` took key `m`: either it is settled there, or it stands on a key
without a value. -/
theorem Taken.cases {p m : Bytes} {out : IterOut × Iter} (h : c.Taken p out m) :
    (∃ l, out.1 = .conflict ∧ c.Stuck p out.2 m l) ∨
    (out.1 = .ok ∧ out.2.value ≠ [] ∧ c.Settled p out.2) ∨
    (out.1 = .ok ∧ out.2.value = [] ∧ out.2.key = m ∧ c.Post out.2 ∧ c.NoConflict m ∧ c.val m = []) := by
  rcases h.out with ⟨l, a, b, d, e, f⟩ | ⟨a, b, d, e⟩
  · exact Or.inl ⟨l, d, e, f, h.lt, h.range, a, b, h.gap.quiet⟩
  · right
    by_cases hv : out.2.value = []
    · exact Or.inr ⟨b, hv, d, e, a, by rw [← d, ← e.value, hv]⟩
    · exact Or.inl ⟨b, hv, e.result, Or.inl ⟨e.key, d ▸ h.lt, hv, e, d ▸ h.gap.quiet, d ▸ a⟩⟩

theorem innerNext_nil {it : Iter} (hk : it.key = []) :
    innerNext c.live c.iso c.ts c.resolved it = (.finish, it) := by
  simp only [innerNext, hk, if_true]

/-- `Next` after a key. -/
theorem iterNext_spec (h : c.Ok) (n : Nat) {it : Iter} (hp : c.Post it) (hn : c.left it.key + 1 < n) :
    c.Moved it.key (iterNext c.live c.iso c.ts c.resolved n it) := by
  induction n generalizing it with
  | zero => omega
  | succ n ih =>
    simp only [iterNext]
    rcases innerNext_spec h hp with ⟨it', e, k, v, r, q⟩ | ⟨m, ht⟩
    · simp only [e, v, ne_eq, not_true_eq_false, if_false]
      obtain ⟨n', rfl⟩ : ∃ n', n = n' + 1 := ⟨n - 1, by omega⟩
      simp only [iterNext, innerNext_nil (c := c) k]
      exact Or.inl ⟨rfl, r, Or.inr ⟨k, q⟩⟩
    · rcases ht.cases with ⟨l, e, hs⟩ | ⟨e, hv, hs⟩ | ⟨e, hv, hk, hpo, hnc, hval⟩
      · generalize innerNext c.live c.iso c.ts c.resolved it = out at e hs
        obtain ⟨o, it'⟩ := out
        simp only at e; subst e
        exact Or.inr ⟨m, l, rfl, hs⟩
      · generalize innerNext c.live c.iso c.ts c.resolved it = out at e hs hv
        obtain ⟨o, it'⟩ := out
        simp only at e hv; subst e
        simp only [ne_eq, hv, not_false_eq_true, if_true]
        exact Or.inl ⟨rfl, hs⟩
      · have hlt := left_lt ht.lt ht.entry
        have hq := ht.gap.quiet
        have hpm := ht.lt
        clear ht
        generalize innerNext c.live c.iso c.ts c.resolved it = out at e hk hpo hv
        obtain ⟨o, it'⟩ := out
        simp only at e hv hk; subst e
        simp only [ne_eq, hv, not_true_eq_false, if_false]
        have := ih hpo (by rw [hk]; omega)
        simp only [hk] at this
        exact this.before hpm hq hval hnc

theorem next_spec (h : c.Ok) {it : Iter} (hp : c.Post it) :
    c.Moved it.key (iterNext c.live c.iso c.ts c.resolved it.fuel it) := by
  refine iterNext_spec h _ hp ?_
  have := hp.left_le
  simp only [Iter.fuel]; omega

theorem start_pre (h : c.Ok) :
    c.Pre { locks := c.L0, writes := c.W0, lastLock := headKey (·.1) c.L0, lastWrite := headKey (·.1.key) c.W0 } [] := by
  refine ⟨rfl, rfl, ?_, ?_, rfl, fun _ => rfl, ?_⟩
  · exact (filter_eq_self_of (fun a ha => by simpa using nil_lt (ne_nil h (L0_range ha)))).symm
  · exact (filter_eq_self_of (fun a ha => by simpa using nil_lt (ne_nil h (W0_range h ha)))).symm
  · intro hw; simp only at hw; simp only [hw, headKey]; exact not_lt_nil _

theorem innerSeek_eq : innerSeek c.st c.live c.iso c.ts c.resolved c.start c.stop =
    if headKey (·.1) c.L0 = [] ∧ headKey (·.1.key) c.W0 = [] then
      (.ok, { locks := c.L0, writes := c.W0, lastLock := headKey (·.1) c.L0, lastWrite := headKey (·.1.key) c.W0 })
    else getCurrentValue c.live c.iso c.ts c.resolved
      { locks := c.L0, writes := c.W0, lastLock := headKey (·.1) c.L0, lastWrite := headKey (·.1.key) c.W0 } := by
  obtain ⟨st, live, iso, ts, resolved, start, stop⟩ := c
  cases iso <;>
    rfl

/-- `Seek`. -/
theorem seek_spec (h : c.Ok) : c.Moved [] (iterSeek c.st c.live c.iso c.ts c.resolved c.start c.stop) := by
  have hpre := start_pre h
  simp only [iterSeek]
  rw [innerSeek_eq]
  by_cases hb : headKey (·.1) c.L0 = [] ∧ headKey (·.1.key) c.W0 = []
  · rw [if_pos hb]
    simp only [if_true]
    have hl : c.L0 = [] := by
      cases hL : c.L0 with
      | nil => rfl
      | cons e r =>
        have := hb.1; rw [hL] at this
        exact absurd this (ne_nil h (L0_range (by rw [hL]; simp)))
    have hw : c.W0 = [] := by
      cases hW : c.W0 with
      | nil => rfl
      | cons e r =>
        have := hb.2; rw [hW] at this
        exact absurd this (ne_nil h (W0_range h (by rw [hW]; simp)))
    simp only [Iter.fuel, iterNext]
    rw [innerNext_nil (c := c) (by rfl)]
    refine Or.inl ⟨rfl, rfl, Or.inr ⟨rfl, ?_⟩⟩
    intro k _ _
    exact ⟨val_of_no_record (by simp [hw]), by intro l hl'; rw [hl] at hl'; cases hl'⟩
  · rw [if_neg hb]
    have hne : c.L0 ≠ [] ∨ c.W0 ≠ [] := by
      by_cases h1 : c.L0 = []
      · right; intro h2; exact hb ⟨by rw [h1]; rfl, by rw [h2]; rfl⟩
      · exact Or.inl h1
    obtain ⟨m, ht⟩ := current_spec h hpre hne
    rcases ht.cases with ⟨l, e, hs⟩ | ⟨e, hv, hs⟩ | ⟨e, hv, hk, hpo, hnc, hval⟩
    · generalize getCurrentValue c.live c.iso c.ts c.resolved _ = out at e hs
      obtain ⟨o, it'⟩ := out
      simp only at e; subst e
      exact Or.inr ⟨m, l, rfl, hs⟩
    · generalize getCurrentValue c.live c.iso c.ts c.resolved _ = out at e hs hv
      obtain ⟨o, it'⟩ := out
      simp only at e hv; subst e
      simp only [hv, if_false]
      exact Or.inl ⟨rfl, hs⟩
    · have hq := ht.gap.quiet
      have hpm := ht.lt
      clear ht
      generalize getCurrentValue c.live c.iso c.ts c.resolved _ = out at e hk hpo hv
      obtain ⟨o, it'⟩ := out
      simp only at e hv hk; subst e
      simp only [hv, if_true]
      have := next_spec h hpo
      simp only [hk] at this
      exact this.before hpm hq hval hnc

end ScanCtx
end Verif.Txn
