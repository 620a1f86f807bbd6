import Verif.AutoSplit.Loop

/-!
# C93: which neighbours a store asks to merge
-/

namespace Verif.AutoSplit
open Verif.Codec

theorem sameStores_iff {a b : Reg} : differentPeers a b = false ↔ SameStores a b := by
  unfold differentPeers SameStores
  have : ∀ p, (b.peers.any fun q => decide (p = q)) = decide (p ∈ b.peers) := by
    intro p
    rw [Bool.eq_iff_iff]
    simp
  simp [this]

/-- A pair of regions that may be merged, in a pass up or down: the first one is the one that goes
away. -/
structure Fit (c : Cfg) (now : Nat) (up : Bool) (checking : List Nat) (a b : Reg) : Prop where
  next : if up then a.stop = b.start else a.start = b.stop
  alike : Alike a b
  small : Small c now a b
  known : a.known = true ∧ b.known = true
  free : a.id ∉ checking

theorem eligible_iff {c : Cfg} {now : Nat} {up : Bool} {checking : List Nat} {a b : Reg} :
    eligible c now up checking a b = true ↔ Fit c now up checking a b := by
  have hr : ∀ r : Reg, recent c now r = false ↔ r.lastSplit = 0 ∨ r.lastSplit + c.interval ≤ now := by
    intro r
    unfold recent
    simp only [Bool.and_eq_false_iff, decide_eq_false_iff_not]
    omega
  unfold eligible needMerge
  simp only [Bool.and_eq_true, Bool.not_eq_true', decide_eq_true_eq, decide_eq_false_iff_not, hr, sameStores_iff,
    Bool.or_eq_false_iff]
  constructor
  · rintro ⟨⟨⟨⟨⟨⟨⟨⟨⟨⟨⟨⟨⟨⟨⟨⟨h1, h2⟩, h3⟩, h4⟩, h5⟩, h6⟩, h7⟩, h8⟩, h9⟩, h10⟩, h11⟩, h12⟩, h13⟩, h14⟩, h15⟩, h16⟩, ⟨_, h17⟩, h18⟩
    refine ⟨?_, ⟨h11, ⟨h14, h15⟩, h16, ⟨h3, h4⟩, h8⟩, ⟨⟨by omega, by omega⟩, ⟨by omega, by omega⟩, h9, h10⟩, ⟨h1, h2⟩, h5⟩
    cases up <;> simpa using (by first | simpa using h12 | simpa using h13)
  · rintro ⟨h1, ⟨h2, ⟨h3, h4⟩, h5, ⟨h6, h7⟩, h8⟩, ⟨⟨h9, h10⟩, ⟨h11, h12⟩, h13, h14⟩, ⟨h15, h16⟩, h17⟩
    refine ⟨⟨⟨⟨⟨⟨⟨⟨⟨⟨⟨⟨⟨⟨⟨⟨h15, h16⟩, h6⟩, h7⟩, h17⟩, by omega⟩, by omega⟩, h8⟩, h13⟩, h14⟩, h2⟩, ?_⟩, ?_⟩, h3⟩, h4⟩, h5⟩, ⟨⟨by omega, by omega⟩, by omega⟩, by omega⟩
    · cases up
      · rfl
      · simpa using h1
    · cases up
      · simpa using h1
      · rfl

theorem pass_mem {c : Cfg} {now : Nat} {up : Bool} {checking : List Nat} {l : List Reg} {x : Reg × Reg}
    (h : x ∈ mergePass c now up checking l) :
    Fit c now up checking x.1 x.2 ∧ ∃ p d s, l = p ++ x.1 :: x.2 :: d :: s := by
  fun_induction mergePass c now up checking l with
  | case1 a b d rest he ih =>
    rcases List.mem_cons.mp h with rfl | h
    · exact ⟨eligible_iff.mp he, [], d, rest, rfl⟩
    · obtain ⟨h1, p, d', s, h2⟩ := ih h
      exact ⟨h1, a :: b :: p, d', s, by rw [h2]; rfl⟩
  | case2 a b d rest he ih =>
    obtain ⟨h1, p, d', s, h2⟩ := ih h
    exact ⟨h1, a :: p, d', s, by rw [h2]; rfl⟩
  | case3 => cases h

theorem pass_sub (c : Cfg) (now : Nat) (up : Bool) (checking : List Nat) (l : List Reg) :
    ((mergePass c now up checking l).flatMap (fun x => [x.1, x.2])).Sublist l := by
  fun_induction mergePass c now up checking l with
  | case1 a b d rest he ih => exact (ih.cons_cons b).cons_cons a
  | case2 a b d rest he ih => exact ih.cons a
  | case3 => exact List.nil_sublist _

/-! ## Theorems -/

/-- Regions a store gives a task to merge are neighbours with the same part, engines and stores, in a
normal state, led by the store and small. -/
theorem C93_fit {c : Cfg} {now : Nat} {up : Bool} {checking : List Nat} {l : List Reg} {a b : Reg}
    (h : (a, b) ∈ mergePass c now up checking l) :
    a ∈ l ∧ b ∈ l ∧ Adjacent a b ∧ Alike a b ∧ Small c now a b ∧ a.id ∉ checking := by
  obtain ⟨h1, p, d, s, h2⟩ := pass_mem h
  refine ⟨by rw [h2]; simp, by rw [h2]; simp, ?_, h1.alike, h1.small, h1.free⟩
  have := h1.next
  cases up
  · exact Or.inr this
  · exact Or.inl this

/-- No region gets two tasks in one pass. -/
theorem C93_once (c : Cfg) (now : Nat) (up : Bool) (checking : List Nat) {l : List Reg} (h : (l.map Reg.id).Nodup) :
    ((mergePass c now up checking l).flatMap (fun x => [x.1.id, x.2.id])).Nodup := by
  have := (pass_sub c now up checking l).map Reg.id
  rw [List.map_flatMap] at this
  exact List.Sublist.nodup this h

/-- Neighbours that may be merged get a task, if the pair before them may not be and they are not
the last two of the pass: one of three regions in a row that fit is always taken.  Missing: the last
two of a pass (`C93_last_false`). -/
theorem C93_asks_partial {c : Cfg} {now : Nat} {up : Bool} {checking : List Nat} {p s : List Reg} {a b d : Reg}
    (h : Fit c now up checking a b) :
    (a, b) ∈ mergePass c now up checking (p ++ a :: b :: d :: s) ∨
    ∃ q z, p = q ++ [z] ∧ (z, a) ∈ mergePass c now up checking (p ++ a :: b :: d :: s) := by
  have he := eligible_iff.mpr h
  generalize hl : p ++ a :: b :: d :: s = l
  fun_induction mergePass c now up checking l generalizing p with
  | case1 x y z rest hx ih =>
    match p with
    | [] =>
      simp only [List.nil_append, List.cons.injEq] at hl
      obtain ⟨rfl, rfl, rfl, rfl⟩ := hl
      exact Or.inl (by simp)
    | [w] =>
      simp only [List.cons_append, List.nil_append, List.cons.injEq] at hl
      obtain ⟨rfl, rfl, rfl, rfl⟩ := hl
      exact Or.inr ⟨[], w, rfl, by simp⟩
    | w :: w' :: p =>
      simp only [List.cons_append, List.cons.injEq] at hl
      obtain ⟨rfl, rfl, hl⟩ := hl
      rcases ih hl with h | ⟨q, z', rfl, h⟩
      · exact Or.inl (by simp [h])
      · exact Or.inr ⟨w :: w' :: q, z', rfl, by simp [h]⟩
  | case2 x y z rest hx ih =>
    match p with
    | [] =>
      simp only [List.nil_append, List.cons.injEq] at hl
      obtain ⟨rfl, rfl, rfl, rfl⟩ := hl
      exact absurd he hx
    | w :: p =>
      simp only [List.cons_append, List.cons.injEq] at hl
      obtain ⟨rfl, hl⟩ := hl
      rcases ih hl with h | ⟨q, z', rfl, h⟩
      · exact Or.inl h
      · exact Or.inr ⟨w :: q, z', rfl, h⟩
  | case3 l hn =>
    exfalso
    match p, hl with
    | [], hl => exact hn a b d s hl.symm
    | [w], hl => exact hn w a b (d :: s) hl.symm
    | [w, w'], hl => exact hn w w' a (b :: d :: s) hl.symm
    | w :: w' :: w'' :: p, hl => exact hn w w' w'' (p ++ a :: b :: d :: s) hl.symm

/-- The last two regions of a pass are never looked at: two regions that are alone on a store are
never merged, however small they are. -/
theorem C93_last_false (c : Cfg) (now : Nat) (up : Bool) (checking : List Nat) (a b : Reg) :
    mergePass c now up checking [a, b] = [] ∧
    ∀ p : List Reg, (p ++ [a, b]).Nodup → (a, b) ∉ mergePass c now up checking (p ++ [a, b]) := by
  refine ⟨rfl, ?_⟩
  intro p hp h
  obtain ⟨_, q, d, s, h2⟩ := pass_mem h
  have hb : ∀ (x : List Reg), (p ++ [a, b]) = q ++ a :: b :: x → x = [] := by
    intro x hx
    have h1 := congrArg (fun l => l.idxOf a) hx
    have ha : a ∉ p := by
      intro hm
      exact (List.nodup_append.mp hp).2.2 a hm a (by simp) rfl
    have hp' := hp
    rw [hx] at hp'
    have ha' : a ∉ q := by
      intro hm
      exact (List.nodup_append.mp hp').2.2 a hm a (by simp) rfl
    have h3 := List.append_inj_left hx ?_
    · subst h3
      have := List.append_cancel_left hx
      simpa using this
    · simp only [List.idxOf_append, if_neg ha, if_neg ha', List.idxOf_cons_self] at h1
      omega
  exact absurd (hb _ h2) (by simp)

/-- The two parts of a region that was split are not merged again before the interval is over. -/
theorem C93_after_split {c : Cfg} {now : Nat} {up : Bool} {checking : List Nat} {l : List Reg} {a b : Reg}
    (h : (a, b) ∈ mergePass c now up checking l) {t : Nat} (h0 : 0 < t) (ht : a.lastSplit = t ∨ b.lastSplit = t) :
    t + c.interval ≤ now := by
  have := (C93_fit h).2.2.2.2.1.rest
  omega

/-- A region made of two that were merged is not asked to be split right away, if it was measured
exactly and merging is below splitting in the settings. -/
theorem C93_calm {c : Cfg} {now : Nat} {up : Bool} {checking : List Nat} {l : List Reg} {a b : Reg}
    (h : (a, b) ∈ mergePass c now up checking l) {p : Policy} {ca cb : List Ent}
    (ha : p.weight ca ≤ p.measured a) (hb : p.weight cb ≤ p.measured b) (hc : p.merged c < p.max) :
    ¬ Large p (ca ++ cb) := by
  have hs := (C93_fit h).2.2.2.2.1.both
  cases p with
  | half C M =>
    simp only [Large, Policy.weight, Policy.measured, Policy.merged, Policy.max, total_append] at *
    omega
  | size C M =>
    simp only [Large, Policy.weight, Policy.measured, Policy.merged, Policy.max, total_append] at *
    omega
  | keys C M =>
    simp only [Large, Policy.weight, Policy.measured, Policy.merged, Policy.max] at *
    rintro ⟨ks, h1, h2, h3⟩
    have : ks.length ≤ ((ca ++ cb).map Ent.key).length := by
      refine length_le_of_subset h1 ?_
      intro k hk
      obtain ⟨e, he, rfl⟩ := h2 k hk
      exact List.mem_map_of_mem he
    rw [List.length_map, List.length_append] at this
    omega

/-- When the task runs, what can have changed is looked at again: the coordinator is asked only for
two regions with the same part, engines and stores, in a normal state and led by the store. -/
theorem C93_task {a b : Reg} : mergeCheck a b = true ↔ Alike a b := by
  unfold mergeCheck
  simp only [Bool.and_eq_true, Bool.not_eq_true', decide_eq_true_eq, sameStores_iff]
  constructor
  · rintro ⟨⟨⟨⟨⟨⟨h1, h2⟩, h3⟩, h4⟩, h5⟩, h6⟩, h7⟩
    exact ⟨h6, ⟨h4, h5⟩, h7, ⟨h1, h2⟩, h3⟩
  · rintro ⟨h6, ⟨h4, h5⟩, h7, ⟨h1, h2⟩, h3⟩
    exact ⟨⟨⟨⟨⟨⟨h1, h2⟩, h3⟩, h4⟩, h5⟩, h6⟩, h7⟩

/-- What is not looked at again is the range, the size and the time of the last split: for a region
that was split between the pass and the task the coordinator is asked although the two are no longer
neighbours.  (It refuses then: `Job.plan` needs a range that both make up.) -/
theorem C93_task_false : ∃ a a' b : Reg, Fit ⟨10, 10, 0, 20, 20⟩ 5 true [] a b ∧
    a'.id = a.id ∧ mergeCheck a' b = true ∧ ¬ Adjacent a' b := by
  refine ⟨⟨1, [1], [3], 0, 0, 0, [1, 2, 3], true, true, true, 4, 4, 0⟩,
    ⟨1, [1], [2], 0, 0, 0, [1, 2, 3], true, true, true, 4, 4, 4⟩,
    ⟨2, [3], [5], 0, 0, 0, [1, 3, 2], true, true, true, 4, 4, 0⟩, eligible_iff.mp (by decide), rfl, by decide, ?_⟩
  unfold Adjacent
  decide

/-! ## Cases -/

def someReg (i : Nat) (size : Nat) : Reg :=
  ⟨i, [UInt8.ofNat i], [UInt8.ofNat (i + 1)], 0, 0, 0, [1, 2, 3], true, true, true, size, size, 0⟩

/-- `C93_fit`, `C93_once`, `C93_after_split`: a pass with two pairs. -/
example : mergePass ⟨10, 10, 0, 20, 20⟩ 5 true [] ([1, 2, 3, 4, 5].map (fun i => someReg i 4)) =
    [(someReg 1 4, someReg 2 4), (someReg 3 4, someReg 4 4)] ∧
    (([1, 2, 3, 4, 5].map (fun i => someReg i 4)).map Reg.id).Nodup := by decide +kernel

/-- A region that was split between the pass and the task, and is still a neighbour, is merged before
the interval is over. -/
theorem C93_task_recent_false : ∃ a a' b : Reg, Fit ⟨10, 10, 100, 20, 20⟩ 5 false [] a b ∧
    a'.id = a.id ∧ mergeCheck a' b = true ∧ Adjacent a' b ∧ 0 < a'.lastSplit ∧ a'.lastSplit + 100 > 5 := by
  refine ⟨⟨1, [3], [7], 0, 0, 0, [1, 2, 3], true, true, true, 4, 4, 0⟩,
    ⟨1, [3], [5], 0, 0, 0, [1, 2, 3], true, true, true, 4, 4, 5⟩,
    ⟨2, [1], [3], 0, 0, 0, [1, 3, 2], true, true, true, 4, 4, 0⟩, eligible_iff.mp (by decide), rfl, by decide, ?_, by decide, by decide⟩
  exact Or.inr rfl

/-- Down: the regions go into the ones before them. -/
example : mergePass ⟨10, 10, 0, 20, 20⟩ 5 false [] ([5, 4, 3, 2, 1].map (fun i => someReg i (i * 3))) =
    [(someReg 3 9, someReg 2 6)] := by decide +kernel

/-- `C93_asks_partial`, `C93_last_false`: what they need is met. -/
example : Fit ⟨10, 10, 0, 20, 20⟩ 5 true [] (someReg 1 4) (someReg 2 4) := eligible_iff.mp (by decide +kernel)

/-- `C93_calm`: settings as they are by default in proportion (a fifth). -/
example : ¬ Large (.half 3 100) (([⟨[1], 4⟩] : List Ent) ++ [⟨[2], 4⟩]) :=
  C93_calm (c := ⟨10, 10, 0, 20, 20⟩) (now := 5) (up := true) (checking := []) (l := [1, 2, 3].map (fun i => someReg i 4))
    (a := someReg 1 4) (b := someReg 2 4) (by decide +kernel) (p := .half 3 100)
    (by decide +kernel) (by decide +kernel) (by decide)

end Verif.AutoSplit
