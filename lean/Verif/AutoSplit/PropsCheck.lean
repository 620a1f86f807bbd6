import Verif.AutoSplit.Spec

/-!
# C94: regions being checked
-/

namespace Verif.AutoSplit

theorem run_cons {s s' : Chk} {e : ChkEv} {es : List ChkEv} (h : s.run (e :: es) = some s') :
    ∃ m, s.step e = some m ∧ m.run es = some s' := by
  unfold Chk.run at h
  cases hm : s.step e with
  | none => rw [hm] at h; cases h
  | some m => rw [hm] at h; exact ⟨m, rfl, h⟩

/-! ## Splits -/

/-- Every region in the set, and every one about to be entered, has a task; no region is in both. -/
structure SInvar (s : Chk) : Prop where
  backed : s.Backed
  entering : ∀ i ∈ s.entering, [i] ∈ s.tasks
  single : ∀ t ∈ s.tasks, ∃ i, t = [i]
  once : s.tasks.Nodup
  out : ∀ i ∈ s.entering, i ∉ s.set
  apart : s.entering.Nodup

/-- A schedule of splits alone. -/
def SplitsOnly (es : List ChkEv) : Prop := ∀ e ∈ es, ∀ a b, e ≠ .mergeStart a b

/-- The pass is one thread: it enters a region before it goes on to the next. -/
def OneByOne (s : Chk) : List ChkEv → Prop
  | [] => True
  | e :: es => (∀ i, e = .splitStart i → s.entering = []) ∧ ∀ s', s.step e = some s' → OneByOne s' es

theorem splits_inv {es : List ChkEv} : ∀ {s s' : Chk}, SInvar s → SplitsOnly es → OneByOne s es → Orderly s es →
    (∀ t ∈ s.tasks, ∀ i ∈ t, i ∈ s.set ∨ i ∈ s.entering) →
    s.run es = some s' → SInvar s' ∧ ∀ t ∈ s'.tasks, ∀ i ∈ t, i ∈ s'.set ∨ i ∈ s'.entering := by
  induction es with
  | nil => intro s s' h _ _ _ hc hr; simp only [Chk.run, Option.some.injEq] at hr; subst hr; exact ⟨h, hc⟩
  | cons e es ih =>
    intro s s' h hs ho hord hc hr
    obtain ⟨m, hm, hr⟩ := run_cons hr
    have ho' := ho.2 m hm
    have hord' := hord.2 m hm
    have hs' : SplitsOnly es := fun x hx => hs x (by simp [hx])
    refine ih ?_ hs' ho' hord' ?_ hr
    · cases e with
      | splitStart i =>
        simp only [Chk.step] at hm
        split at hm
        · cases hm
        · rename_i hi
          have hent := ho.1 i rfl
          simp only [Option.some.injEq] at hm
          subst hm
          refine ⟨?_, ?_, ?_, ?_, ?_, ?_⟩
          · intro j hj
            obtain ⟨t, ht, hjt⟩ := h.backed j hj
            exact ⟨t, by simp [ht], hjt⟩
          · simp [hent]
          · intro t ht
            rcases List.mem_cons.mp ht with rfl | ht
            · exact ⟨i, rfl⟩
            · exact h.single t ht
          · refine List.nodup_cons.mpr ⟨?_, h.once⟩
            intro ht
            rcases hc [i] ht i (by simp) with h1 | h1
            · exact hi h1
            · rw [hent] at h1; cases h1
          · simpa [hent] using hi
          · simp [hent]
      | splitEnter i =>
        simp only [Chk.step] at hm
        split at hm
        · rename_i hi
          simp only [Option.some.injEq] at hm
          have hni := h.out i hi
          rw [if_neg hni] at hm
          subst hm
          refine ⟨?_, ?_, h.single, h.once, ?_, ?_⟩
          · intro j hj
            rcases List.mem_cons.mp hj with rfl | hj
            · exact ⟨[j], h.entering j hi, by simp⟩
            · exact h.backed j hj
          · intro j hj
            exact h.entering j (List.mem_of_mem_erase hj)
          · intro j hj
            have hne : j ≠ i := by
              rintro rfl
              exact (h.apart.not_mem_erase) hj
            simp only [List.mem_cons, not_or]
            exact ⟨hne, h.out j (List.mem_of_mem_erase hj)⟩
          · exact h.apart.erase i
        · cases hm
      | mergeStart a b => exact absurd rfl (hs _ (by simp) a b)
      | finish t =>
        simp only [Chk.step] at hm
        split at hm
        · rename_i ht
          simp only [Option.some.injEq] at hm
          have hfin := hord.1 t rfl
          obtain ⟨i, rfl⟩ := h.single t ht
          subst hm
          refine ⟨?_, ?_, ?_, h.once.erase _, ?_, h.apart⟩
          · intro j hj
            simp only [List.mem_filter, List.mem_singleton, Bool.not_eq_true', decide_eq_false_iff_not] at hj
            obtain ⟨t', ht', hjt⟩ := h.backed j hj.1
            refine ⟨t', (List.mem_erase_of_ne ?_).mpr ht', hjt⟩
            rintro rfl
            simp only [List.mem_singleton] at hjt
            exact hj.2 hjt
          · intro j hj
            refine (List.mem_erase_of_ne ?_).mpr (h.entering j hj)
            rintro hji
            simp only [List.cons.injEq, and_true] at hji
            subst hji
            exact hfin j (by simp) hj
          · intro t' ht'
            exact h.single t' (List.mem_of_mem_erase ht')
          · intro j hj hjs
            exact h.out j hj (List.mem_filter.mp hjs).1
        · cases hm
    · cases e with
      | splitStart i =>
        simp only [Chk.step] at hm
        split at hm
        · cases hm
        · simp only [Option.some.injEq] at hm
          subst hm
          intro t ht j hj
          rcases List.mem_cons.mp ht with rfl | ht
          · simp only [List.mem_singleton] at hj
            subst hj
            exact Or.inr (by simp)
          · rcases hc t ht j hj with h1 | h1
            · exact Or.inl h1
            · exact Or.inr (by simp [h1])
      | splitEnter i =>
        simp only [Chk.step] at hm
        split at hm
        · rename_i hi
          simp only [Option.some.injEq] at hm
          rw [if_neg (h.out i hi)] at hm
          subst hm
          intro t ht j hj
          rcases hc t ht j hj with h1 | h1
          · exact Or.inl (by simp [h1])
          · by_cases hji : j = i
            · exact Or.inl (by simp [hji])
            · exact Or.inr ((List.mem_erase_of_ne hji).mpr h1)
        · cases hm
      | mergeStart a b => exact absurd rfl (hs _ (by simp) a b)
      | finish t =>
        simp only [Chk.step] at hm
        split at hm
        · rename_i ht
          simp only [Option.some.injEq] at hm
          obtain ⟨i, rfl⟩ := h.single t ht
          subst hm
          intro t' ht' j hj
          have hmem := List.mem_of_mem_erase ht'
          rcases hc t' hmem j hj with h1 | h1
          · refine Or.inl (List.mem_filter.mpr ⟨h1, ?_⟩)
            simp only [List.mem_singleton, Bool.not_eq_true', decide_eq_false_iff_not]
            rintro rfl
            obtain ⟨w, rfl⟩ := h.single t' hmem
            simp only [List.mem_singleton] at hj
            subst hj
            exact (h.once.not_mem_erase) ht'
          · exact Or.inr h1
        · cases hm

/-- If no task for a split ends before its region is entered, then a region has at most one task at
a time, and once no tasks are left every region can be checked again.  Missing: a task that ends
before (`C94_split_false`). -/
theorem C94_split_partial {es : List ChkEv} {s : Chk} (hs : SplitsOnly es) (ho : OneByOne {} es) (hord : Orderly {} es)
    (h : Chk.run {} es = some s) :
    s.tasks.Nodup ∧ (∀ t ∈ s.tasks, ∃ i, t = [i]) ∧ s.Backed ∧ (s.tasks = [] → s.set = [] ∧ s.entering = []) := by
  have h0 : SInvar {} := ⟨by intro i hi; simp at hi, by simp, by simp, by simp, by simp, by simp⟩
  obtain ⟨h1, _⟩ := splits_inv h0 hs ho hord (by simp) h
  refine ⟨h1.once, h1.single, h1.backed, fun ht => ⟨?_, ?_⟩⟩
  · cases hset : s.set with
    | nil => rfl
    | cons i l =>
      obtain ⟨t, ht', _⟩ := h1.backed i (by rw [hset]; simp)
      rw [ht] at ht'; cases ht'
  · cases hset : s.entering with
    | nil => rfl
    | cons i l =>
      have := h1.entering i (by rw [hset]; simp)
      rw [ht] at this; cases this

theorem stays {i : Nat} {es : List ChkEv} : ∀ {s s' : Chk}, i ∈ s.set → (∀ t ∈ s.tasks, i ∉ t) → SplitsOnly es →
    s.run es = some s' → i ∈ s'.set ∧ (∀ t ∈ s'.tasks, i ∉ t) ∧ .splitStart i ∉ es := by
  induction es with
  | nil => intro s s' h1 h2 _ hr; simp only [Chk.run, Option.some.injEq] at hr; subst hr; exact ⟨h1, h2, by simp⟩
  | cons e es ih =>
    intro s s' h1 h2 hs hr
    obtain ⟨m, hm, hr⟩ := run_cons hr
    have hs' : SplitsOnly es := fun x hx => hs x (by simp [hx])
    have key : i ∈ m.set ∧ (∀ t ∈ m.tasks, i ∉ t) ∧ e ≠ .splitStart i := by
      cases e with
      | splitStart j =>
        simp only [Chk.step] at hm
        split at hm
        · cases hm
        · rename_i hj
          simp only [Option.some.injEq] at hm
          subst hm
          have hne : i ≠ j := by rintro rfl; exact hj h1
          refine ⟨h1, ?_, ?_⟩
          · intro t ht
            rcases List.mem_cons.mp ht with rfl | ht
            · simpa using hne
            · exact h2 t ht
          · intro hc; cases hc; exact hne rfl
      | splitEnter j =>
        simp only [Chk.step] at hm
        split at hm
        · simp only [Option.some.injEq] at hm
          subst hm
          refine ⟨?_, h2, by simp⟩
          show i ∈ (if j ∈ s.set then s.set else j :: s.set)
          split
          · exact h1
          · simp [h1]
        · cases hm
      | mergeStart a b => exact absurd rfl (hs _ (by simp) a b)
      | finish t =>
        simp only [Chk.step] at hm
        split at hm
        · rename_i ht
          simp only [Option.some.injEq] at hm
          subst hm
          refine ⟨?_, fun t' ht' => h2 t' (List.mem_of_mem_erase ht'), by simp⟩
          have := h2 t ht
          simp [h1, this]
        · cases hm
    obtain ⟨k1, k2, k3⟩ := key
    obtain ⟨g1, g2, g3⟩ := ih k1 k2 hs' hr
    refine ⟨g1, g2, ?_⟩
    simp only [List.mem_cons, not_or]
    exact ⟨fun hc => k3 hc.symm, g3⟩

/-- A task that ends before the pass has entered its region leaves the region in the set for good:
whatever happens later, it is never checked for a split again. -/
theorem C94_split_false (i : Nat) :
    Chk.run {} [.splitStart i, .finish [i], .splitEnter i] = some ⟨[i], [], []⟩ ∧
    ∀ (es : List ChkEv) (s : Chk), SplitsOnly es → Chk.run {} ([.splitStart i, .finish [i], .splitEnter i] ++ es) = some s →
      .splitStart i ∉ es ∧ i ∈ s.set ∧ ∀ t ∈ s.tasks, i ∉ t := by
  have h0 : Chk.run {} [.splitStart i, .finish [i], .splitEnter i] = some ⟨[i], [], []⟩ := by
    simp [Chk.run, Chk.step]
  refine ⟨h0, ?_⟩
  intro es s hs hr
  have : Chk.run ⟨[i], [], []⟩ es = some s := by
    have hm : ∀ (a b : List ChkEv) (x y : Chk), Chk.run x a = some y → Chk.run x (a ++ b) = Chk.run y b := by
      intro a
      induction a with
      | nil => intro b x y h; simp only [Chk.run, Option.some.injEq] at h; subst h; rfl
      | cons e a ih =>
        intro b x y h
        obtain ⟨m, h1, h2⟩ := run_cons h
        rw [List.cons_append, Chk.run, h1]
        exact ih b m y h2
    rw [hm _ _ _ _ h0] at hr
    exact hr
  obtain ⟨h1, h2, h3⟩ := stays (i := i) (by simp) (by simp) hs this
  exact ⟨h3, h1, h2⟩

/-! ## Merges -/

/-- A schedule of merges alone. -/
def MergesOnly (es : List ChkEv) : Prop := ∀ e ∈ es, ∀ i, e ≠ .splitStart i ∧ e ≠ .splitEnter i

theorem merges_backed {es : List ChkEv} : ∀ {s s' : Chk}, (∀ i ∈ s.set, ∃ t ∈ s.tasks, i ∈ t) → MergesOnly es →
    s.run es = some s' → ∀ i ∈ s'.set, ∃ t ∈ s'.tasks, i ∈ t := by
  induction es with
  | nil => intro s s' h _ hr; simp only [Chk.run, Option.some.injEq] at hr; subst hr; exact h
  | cons e es ih =>
    intro s s' h hs hr
    obtain ⟨m, hm, hr⟩ := run_cons hr
    refine ih ?_ (fun x hx => hs x (by simp [hx])) hr
    cases e with
    | splitStart i => exact absurd rfl (hs _ (by simp) i).1
    | splitEnter i => exact absurd rfl (hs _ (by simp) i).2
    | mergeStart a b =>
      simp only [Chk.step] at hm
      split at hm
      · cases hm
      · rename_i ha
        simp only [Option.some.injEq] at hm
        subst hm
        intro i hi
        have : i = a ∨ i = b ∨ i ∈ s.set := by
          have hi : i ∈ (if b ∈ a :: s.set then a :: s.set else b :: a :: s.set) := hi
          split at hi
          · simp only [List.mem_cons] at hi
            rcases hi with h | h
            · exact Or.inl h
            · exact Or.inr (Or.inr h)
          · simp only [List.mem_cons] at hi
            rcases hi with h | h | h
            · exact Or.inr (Or.inl h)
            · exact Or.inl h
            · exact Or.inr (Or.inr h)
        rcases this with rfl | rfl | h1
        · exact ⟨_, List.mem_cons_self, by simp⟩
        · exact ⟨_, List.mem_cons_self, by simp⟩
        · obtain ⟨t, ht, hit⟩ := h i h1
          exact ⟨t, List.mem_cons_of_mem _ ht, hit⟩
    | finish t =>
      simp only [Chk.step] at hm
      split at hm
      · rename_i ht
        simp only [Option.some.injEq] at hm
        subst hm
        intro i hi
        simp only [List.mem_filter, Bool.not_eq_true', decide_eq_false_iff_not] at hi
        obtain ⟨t', ht', hit⟩ := h i hi.1
        exact ⟨t', (List.mem_erase_of_ne (by rintro rfl; exact hi.2 hit)).mpr ht', hit⟩
      · cases hm

/-- Every region kept from being checked for a merge has a task that has not ended, in every
schedule; once no tasks are left, all can be checked again. -/
theorem C94_merge {es : List ChkEv} {s : Chk} (hs : MergesOnly es) (h : Chk.run {} es = some s) :
    s.Backed ∧ (s.tasks = [] → s.set = []) := by
  have hb := merges_backed (s := {}) (by simp) hs h
  refine ⟨hb, ?_⟩
  intro ht
  cases hset : s.set with
  | nil => rfl
  | cons i l =>
    obtain ⟨t, ht', _⟩ := hb i (by rw [hset]; simp)
    rw [ht] at ht'; cases ht'

/-- A region that another one is to be merged into is not looked up in the set, only the one that
goes away: two tasks may name the same region, and the end of the first lets the second region be
checked while the other task still runs. -/
theorem C94_merge_false : ∃ (es : List ChkEv) (s : Chk), MergesOnly es ∧ Chk.run {} es = some s ∧
    [1, 2] ∈ s.tasks ∧ 2 ∉ s.set ∧
    (∃ es' s', MergesOnly es' ∧ Chk.run s es' = some s' ∧ [1, 2] ∈ s'.tasks ∧ [2, 4] ∈ s'.tasks) := by
  refine ⟨[.mergeStart 1 2, .mergeStart 3 2, .finish [3, 2]], ⟨[1], [[1, 2]], []⟩, ?_, by decide, by decide, by decide,
    [.mergeStart 2 4], ⟨[4, 2, 1], [[2, 4], [1, 2]], []⟩, ?_, by decide, by decide, by decide⟩
  · intro e he i
    simp only [List.mem_cons, List.not_mem_nil, or_false] at he
    rcases he with rfl | rfl | rfl <;> simp
  · intro e he i
    simp only [List.mem_singleton] at he
    subst he
    simp

/-! ## Cases -/

/-- `C94_split_partial`: two regions, one after the other. -/
example : let es : List ChkEv := [.splitStart 1, .splitEnter 1, .splitStart 2, .splitEnter 2, .finish [1]]
    SplitsOnly es ∧ OneByOne {} es ∧ Orderly {} es ∧ Chk.run {} es = some ⟨[2], [[2]], []⟩ := by
  refine ⟨?_, ?_, ?_, by decide⟩
  · intro e he a b
    simp only [List.mem_cons, List.not_mem_nil, or_false] at he
    rcases he with rfl | rfl | rfl | rfl | rfl <;> simp
  · simp [OneByOne, Chk.step]
  · simp [Orderly, Chk.step]

/-- `C94_merge`. -/
example : Chk.run {} [.mergeStart 1 2, .mergeStart 3 4, .finish [1, 2]] = some ⟨[4, 3], [[3, 4]], []⟩ := by decide

end Verif.AutoSplit
