import Verif.Latch.Spec

/-!
# Latches: lemmas on queues and on `Lock::Lock`
-/

namespace Verif.Latch

@[simp] theorem upd_same {α : Type} (f : Nat → α) (i : Nat) (x : α) : upd f i x i = x := by
  simp [upd]

theorem upd_ne {α : Type} (f : Nat → α) {i j : Nat} (x : α) (h : j ≠ i) : upd f i x j = f j := by
  simp [upd, h]

/-! ## `Lock::Lock` -/

theorem insertSorted_mem {x y : Nat} {l : List Nat} :
    y ∈ insertSorted x l ↔ y = x ∨ y ∈ l := by
  induction l with
  | nil => simp [insertSorted]
  | cons z l ih =>
    unfold insertSorted
    split <;> simp [ih] <;> grind

theorem insertSorted_sorted {x : Nat} {l : List Nat} (h : l.Pairwise (· ≤ ·)) :
    (insertSorted x l).Pairwise (· ≤ ·) := by
  induction l with
  | nil => simp [insertSorted]
  | cons z l ih =>
    unfold insertSorted
    rw [List.pairwise_cons] at h
    split
    · rename_i hxz
      rw [List.pairwise_cons, List.pairwise_cons]
      refine ⟨?_, h⟩
      intro a ha
      rcases List.mem_cons.1 ha with rfl | ha
      · exact hxz
      · have := h.1 a ha; omega
    · rw [List.pairwise_cons]
      refine ⟨?_, ih h.2⟩
      intro a ha
      rcases insertSorted_mem.1 ha with rfl | ha
      · omega
      · exact h.1 a ha

theorem insertSorted_length {x : Nat} {l : List Nat} :
    (insertSorted x l).length = l.length + 1 := by
  induction l with
  | nil => rfl
  | cons z l ih => unfold insertSorted; split <;> simp [ih]

theorem sort_mem {y : Nat} {l : List Nat} : y ∈ sort l ↔ y ∈ l := by
  induction l with
  | nil => simp [sort]
  | cons z l ih =>
    have : sort (z :: l) = insertSorted z (sort l) := rfl
    rw [this, insertSorted_mem, ih]; simp

theorem sort_sorted (l : List Nat) : (sort l).Pairwise (· ≤ ·) := by
  induction l with
  | nil => simp [sort]
  | cons z l ih => exact insertSorted_sorted ih

theorem sort_length (l : List Nat) : (sort l).length = l.length := by
  induction l with
  | nil => rfl
  | cons z l ih =>
    have : sort (z :: l) = insertSorted z (sort l) := rfl
    rw [this, insertSorted_length, ih]; rfl

theorem unique_mem {y : Nat} {l : List Nat} : y ∈ unique l ↔ y ∈ l := by
  induction l with
  | nil => simp [unique]
  | cons z l ih =>
    unfold unique
    split
    · rename_i h
      have : z ∈ l := List.mem_of_mem_head? h
      rw [ih]; grind
    · simp [ih]

theorem unique_length_le (l : List Nat) : (unique l).length ≤ l.length := by
  induction l with
  | nil => simp [unique]
  | cons z l ih => unfold unique; split <;> simp <;> omega

theorem unique_sorted {l : List Nat} (h : l.Pairwise (· ≤ ·)) : (unique l).Pairwise (· < ·) := by
  induction l with
  | nil => simp [unique]
  | cons z l ih =>
    rw [List.pairwise_cons] at h
    unfold unique
    split
    · exact ih h.2
    · rename_i hne
      rw [List.pairwise_cons]
      refine ⟨?_, ih h.2⟩
      intro a ha
      rw [unique_mem] at ha
      have h1 := h.1 a ha
      cases l with
      | nil => simp at ha
      | cons b l =>
        simp at hne
        have h2 := h.1 b (List.mem_cons_self)
        have h3 := h.2
        rw [List.pairwise_cons] at h3
        rcases List.mem_cons.1 ha with rfl | ha
        · omega
        · have := h3.1 a ha; omega

theorem required_sorted (e : Env) (keys : List (List UInt8)) :
    (required e keys).Pairwise (· < ·) := unique_sorted (sort_sorted _)

theorem required_mem {e : Env} {keys : List (List UInt8)} {h : Nat} :
    h ∈ required e keys ↔ ∃ k ∈ keys, (e.hash k).toNat = h := by
  unfold required; rw [unique_mem, sort_mem]; simp

theorem required_length_le (e : Env) (keys : List (List UInt8)) :
    (required e keys).length ≤ keys.length := by
  have h := unique_length_le (sort (keys.map fun k => (e.hash k).toNat))
  rw [sort_length, List.length_map] at h
  exact h

/-- In a strictly sorted list, positions are ordered like values. -/
theorem sorted_getElem_lt {l : List Nat} (h : l.Pairwise (· < ·)) {i j a b : Nat}
    (ha : l[i]? = some a) (hb : l[j]? = some b) (hij : i < j) : a < b := by
  obtain ⟨hi, rfl⟩ := List.getElem?_eq_some_iff.1 ha
  obtain ⟨hj, rfl⟩ := List.getElem?_eq_some_iff.1 hb
  exact List.pairwise_iff_getElem.1 h i j hi hj hij

theorem sorted_getElem_inj {l : List Nat} (h : l.Pairwise (· < ·)) {i j a : Nat}
    (ha : l[i]? = some a) (hb : l[j]? = some a) : i = j := by
  rcases Nat.lt_trichotomy i j with hij | hij | hij
  · have := sorted_getElem_lt h ha hb hij; omega
  · exact hij
  · have := sorted_getElem_lt h hb ha hij; omega

/-! ## Queues, seen one hash at a time -/

/-- The requests in a queue that asked for hash `h`. -/
def sel (h : Nat) (q : Queue) : List Cid := q.filterMap fun x => if x.1 = h then some x.2 else none

theorem sel_cons (h x : Nat) (w : Cid) (q : Queue) :
    sel h ((x, w) :: q) = if x = h then w :: sel h q else sel h q := by
  unfold sel; split <;> simp_all

theorem firstReq_eq (q : Queue) (h : Nat) : firstReq q h = (sel h q).head? := by
  induction q with
  | nil => rfl
  | cons x q ih =>
    obtain ⟨x, w⟩ := x
    rw [sel_cons]; unfold firstReq
    split <;> simp [*]

theorem sel_waitForWake (h h' : Nat) (c : Cid) (q : Queue) :
    sel h' (waitForWake h c q) = if h' = h then sel h' q ++ [c] else sel h' q := by
  unfold waitForWake sel
  rw [List.filterMap_append]
  by_cases hh : h' = h
  · subst hh; simp
  · have hh2 : ¬ h = h' := fun x => hh x.symm
    simp [hh, hh2]

theorem mem_waitForWake {x : Nat × Cid} {h : Nat} {c : Cid} {q : Queue} :
    x ∈ waitForWake h c q ↔ x ∈ q ∨ x = (h, c) := by
  unfold waitForWake; simp

theorem maybeShrink_id {q : Queue} (h : ∀ x ∈ q, x.1 ≠ 0) : maybeShrink q = q := by
  unfold maybeShrink
  rw [List.filter_eq_self]
  intro x hx
  simpa using h x hx

theorem eraseFirst_spec {h : Nat} {q : Queue} {w : Cid} {l : List Cid} (hs : sel h q = w :: l) :
    ∃ q', eraseFirst h q = some (w, q') ∧ sel h q' = l ∧ (∀ h', h' ≠ h → sel h' q' = sel h' q) ∧
      ∀ x ∈ q', x ∈ q := by
  induction q with
  | nil => simp [sel] at hs
  | cons x q ih =>
    obtain ⟨x, v⟩ := x
    rw [sel_cons] at hs
    unfold eraseFirst
    by_cases hx : x = h
    · subst hx
      simp only [if_true, List.cons.injEq] at hs
      refine ⟨q, by simp [hs.1], hs.2, ?_, fun y hy => List.mem_cons_of_mem _ hy⟩
      intro h' hne
      rw [sel_cons, if_neg (fun x => hne x.symm)]
    · rw [if_neg hx] at hs
      obtain ⟨q', h1, h2, h3, h4⟩ := ih hs
      refine ⟨(x, v) :: q', by simp [hx, h1], by rw [sel_cons, if_neg hx, h2], ?_, ?_⟩
      · intro h' hne
        rw [sel_cons, sel_cons, h3 h' hne]
      · intro y hy
        rcases List.mem_cons.1 hy with rfl | hy
        · exact List.mem_cons_self
        · exact List.mem_cons_of_mem _ (h4 y hy)

theorem popFront_spec {h : Nat} {q : Queue} {w : Cid} {l : List Cid} (hs : sel h q = w :: l)
    (hz : ∀ x ∈ q, x.1 ≠ 0) :
    ∃ q', popFront h q = some (w, q') ∧ sel h q' = l ∧ (∀ h', h' ≠ h → sel h' q' = sel h' q) ∧
      ∀ x ∈ q', x ∈ q := by
  cases q with
  | nil => simp [sel] at hs
  | cons x q =>
    obtain ⟨x, v⟩ := x
    unfold popFront
    by_cases hx : x = h
    · subst hx
      rw [sel_cons] at hs
      simp only [if_true, List.cons.injEq] at hs
      have hz' : ∀ y ∈ q, y.1 ≠ 0 := fun y hy => hz y (List.mem_cons_of_mem _ hy)
      refine ⟨q, by simp [hs.1, maybeShrink_id hz'], hs.2, ?_,
        fun y hy => List.mem_cons_of_mem _ hy⟩
      intro h' hne
      rw [sel_cons, if_neg (fun x => hne x.symm)]
    · simp only [if_neg hx]
      exact eraseFirst_spec hs

end Verif.Latch
