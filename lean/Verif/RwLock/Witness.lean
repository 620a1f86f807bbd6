import Verif.RwLock.Props

/-! # What does not hold of the lock (C110), and cases of the theorems -/

namespace Verif.RwLock

/-- A request that reads keeps its place, and one that waits to write behind it too. -/
theorem held_step {s : St} (h : Inv s) {i j : Nat} (hi : s.req[i]? = some .reading)
    (hj : s.req[j]? = some .wWait ∨ s.req[j]? = some .wSleep) (e : Ev) (he : e ≠ .unlock i) :
    (step s e).req[i]? = some .reading ∧
      ((step s e).req[j]? = some .wWait ∨ (step s e).req[j]? = some .wSleep) := by
  have hr : 0 < s.req.countP isR := List.countP_pos_iff.2 ⟨_, List.mem_of_getElem? hi, rfl⟩
  have hrd : ¬ s.readers = 0 := by
    have := h.r
    omega
  have hwr : s.writer = false := by
    cases hw : s.writer
    · rfl
    · exact absurd (h.ex hw) hrd
  have keep : ∀ {k : Nat} {a x y : PC}, s.req[k]? = some x → ∀ m : Nat, s.req[m]? = some y → y ≠ x → (s.req.set k a)[m]? = some y := by
    intro k a x y hk m hm hne
    by_cases hkm : k = m
    · subst hkm
      rw [hk] at hm
      cases hm
      exact absurd rfl hne
    · rw [List.getElem?_set_ne hkm]
      exact hm
  have keepj : ∀ {k : Nat} {a x : PC}, s.req[k]? = some x → x ≠ .wWait → x ≠ .wSleep →
      ((s.req.set k a)[j]? = some .wWait ∨ (s.req.set k a)[j]? = some .wSleep) := by
    intro k a x hk h1 h2
    rcases hj with hj | hj
    · exact .inl (keep hk j hj (Ne.symm h1))
    · exact .inr (keep hk j hj (Ne.symm h2))
  have setj : ∀ {k : Nat} {a : PC}, (a = .wWait ∨ a = .wSleep) →
      ((s.req.set k a)[j]? = some .wWait ∨ (s.req.set k a)[j]? = some .wSleep) := by
    intro k a ha
    by_cases hkj : k = j
    · subst hkj
      have hl : k < s.req.length := by
        rcases hj with hj | hj <;> exact (List.getElem?_eq_some_iff.1 hj).1
      rcases ha with rfl | rfl
      · exact .inl (by simp [hl])
      · exact .inr (by simp [hl])
    · rw [List.getElem?_set_ne hkj]
      exact hj
  cases e with
  | read k =>
    simp only [step]
    split
    · rename_i hk
      unfold tryRead
      split
      · exact ⟨keep hk i hi (by simp), keepj hk (by simp) (by simp)⟩
      · exact ⟨keep hk i hi (by simp), keepj hk (by simp) (by simp)⟩
    · exact ⟨hi, hj⟩
  | write k =>
    simp only [step]
    split
    · rename_i hk
      simp only [tryWrite, St.canWrite, hwr, beq_iff_eq, hrd, Bool.and_eq_true, false_and, if_false]
      exact ⟨keep hk i hi (by simp), keepj hk (by simp) (by simp)⟩
    · exact ⟨hi, hj⟩
  | retry k =>
    simp only [step]
    split
    · rename_i hk
      unfold tryRead
      split
      · exact ⟨keep hk i hi (by simp), keepj hk (by simp) (by simp)⟩
      · exact ⟨keep hk i hi (by simp), keepj hk (by simp) (by simp)⟩
    · split
      · rename_i hk
        simp only [tryWrite, St.canWrite, hwr, beq_iff_eq, hrd, Bool.and_eq_true, false_and, if_false]
        exact ⟨keep hk i hi (by simp), setj (.inr rfl)⟩
      · exact ⟨hi, hj⟩
  | unlock k =>
    have hki : k ≠ i := fun e => he (by rw [e])
    simp only [step]
    split
    · rename_i hk
      have h1 : (s.req.set k .idle)[i]? = some .reading := by
        rw [List.getElem?_set_ne hki]
        exact hi
      have h2 := keepj (a := .idle) hk (by simp) (by simp)
      unfold unlockRead
      simp only
      split
      · simp only [broadcast, List.getElem?_map]
        rw [h1]
        refine ⟨rfl, ?_⟩
        rcases h2 with h2 | h2 <;> rw [h2] <;> exact .inl rfl
      · exact ⟨h1, h2⟩
    · split
      · rename_i hk
        exfalso
        have : 0 < s.req.countP isW := List.countP_pos_iff.2 ⟨_, List.mem_of_getElem? hk, rfl⟩
        have hw := h.w
        rw [hwr] at hw
        have e0 : one false = 0 := rfl
        omega
      · exact ⟨hi, hj⟩
  | spurious k =>
    simp only [step]
    split
    · rename_i hk
      exact ⟨keep hk i hi (by simp), keepj hk (by simp) (by simp)⟩
    · split
      · rename_i hk
        exact ⟨keep hk i hi (by simp), setj (.inl rfl)⟩
      · exact ⟨hi, hj⟩

/-- The lock cannot be taken twice by one thread: if it reads, another waits to write, and it asks to
read again before it has given the lock back, then it waits for ever, and so do all others. -/
theorem C110_nested_false (n : Nat) (evs : List Ev) {i j k : Nat}
    (hi : (exec (start n) evs).req[i]? = some .reading)
    (hj : (exec (start n) evs).req[j]? = some .wWait ∨ (exec (start n) evs).req[j]? = some .wSleep)
    (hk : (exec (start n) evs).req[k]? ≠ some .reading) (later : List Ev) (hl : Ev.unlock i ∉ later) :
    (exec (start n) (evs ++ later)).req[k]? ≠ some .reading ∧
      (exec (start n) (evs ++ later)).req[k]? ≠ some .writing := by
  suffices ∀ (later : List Ev) (evs : List Ev), (exec (start n) evs).req[i]? = some .reading →
      ((exec (start n) evs).req[j]? = some .wWait ∨ (exec (start n) evs).req[j]? = some .wSleep) →
      (exec (start n) evs).req[k]? ≠ some .reading → Ev.unlock i ∉ later →
      (exec (start n) (evs ++ later)).req[i]? = some .reading ∧
        (exec (start n) (evs ++ later)).req[k]? ≠ some .reading by
    obtain ⟨h1, h2⟩ := this later evs hi hj hk hl
    refine ⟨h2, ?_⟩
    intro hw
    have hne : k ≠ i := by
      intro e
      subst e
      rw [h1] at hw
      cases hw
    exact (C110_exclusive n (evs ++ later) hne hw).2 h1
  intro later
  induction later with
  | nil =>
    intro evs hi _ hk _
    rw [List.append_nil]
    exact ⟨hi, hk⟩
  | cons e later ih =>
    intro evs hi hj hk hl
    have e1 : evs ++ e :: later = (evs ++ [e]) ++ later := by simp
    have e2 : exec (start n) (evs ++ [e]) = step (exec (start n) evs) e := by simp [exec]
    have hst := held_step (inv_exec n evs) hi hj e (fun h => hl (by rw [h]; exact List.mem_cons_self ..))
    rw [e1]
    refine ih (evs ++ [e]) (by rw [e2]; exact hst.1) (by rw [e2]; exact hst.2) ?_
      (fun h => hl (List.mem_cons_of_mem _ h))
    intro hk'
    rcases hj with hj | hj
    · exact hk (C110_writer_first n evs e (List.mem_of_getElem? hj) (.inl rfl) hk')
    · exact hk (C110_writer_first n evs e (List.mem_of_getElem? hj) (.inr rfl) hk')

/-- Request 0 writes, request 1 waits to write, request 2 waits to read. -/
def busy : List Ev := [.write 0, .write 1, .read 2]

/-- The writers take turns; request 2 looks each time it is woken. -/
def turn : List Ev :=
  [.unlock 0, .retry 2, .retry 1, .write 0, .unlock 1, .retry 2, .retry 0, .write 1]

/-- Writers that come again and again keep a reader out for ever, though it looks each time the lock is
given back: after a round all is as before, and it has not been served. -/
theorem C110_starve_false :
    exec (exec (start 3) busy) turn = exec (start 3) busy ∧
      (∀ l, l <+: turn → (exec (exec (start 3) busy) l).req[2]? ≠ some .reading) ∧
      ∀ m : Nat, exec (start 3) (busy ++ (List.replicate m turn).flatten) = exec (start 3) busy := by
  have h1 : exec (exec (start 3) busy) turn = exec (start 3) busy := by decide +kernel
  refine ⟨h1, ?_, ?_⟩
  · intro l hl
    rw [List.prefix_iff_eq_take] at hl
    rw [hl]
    have : ∀ m, m ≤ 8 → (exec (exec (start 3) busy) (turn.take m)).req[2]? ≠ some .reading := by decide +kernel
    by_cases hm : l.length ≤ 8
    · exact this _ hm
    · rw [List.take_of_length_le (by simp [turn]; omega)]
      exact this 8 (Nat.le_refl _)
  · intro m
    induction m with
    | zero => simp
    | succ m ih =>
      rw [List.replicate_succ', List.flatten_append, ← List.append_assoc]
      unfold exec at ih h1 ⊢
      rw [List.foldl_append, ih]
      simpa using h1

/-- Two read, one waits to write, one waits to read. -/
def mixed : List Ev := [.read 0, .read 1, .write 2, .read 3, .unlock 0]

example : (exec (start 4) mixed).req = [.idle, .reading, .wSleep, .rSleep] ∧
    (exec (start 4) (mixed ++ [.unlock 1])).req = [.idle, .idle, .wWait, .rWait] ∧
    (exec (start 4) (mixed ++ [.unlock 1, .retry 3, .retry 2])).req = [.idle, .idle, .writing, .rSleep] ∧
    (exec (start 4) (mixed ++ [.unlock 1, .retry 3, .retry 2, .unlock 2, .retry 3])).req
      = [.idle, .idle, .idle, .reading] := by
  refine ⟨?_, ?_, ?_, ?_⟩ <;> decide +kernel

end Verif.RwLock
