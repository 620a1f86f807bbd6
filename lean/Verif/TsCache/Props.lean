import Verif.TsCache.LemmasRet

/-!
# Timestamp cache: properties

A history is a list of events of any number of threads and of the worker, in the order in
which their atomic operations happen.
-/

namespace Verif.TsCache

/-- The ranges `[first, last)` of timestamps that the oracle gave to this store, in
order. -/
def oracleRanges (es : List Event) : List (Int × Int) :=
  es.filterMap fun
    | .push p l c _ => some (p * 262144 + l, p * 262144 + (l + c))
    | _ => none

/-- `t` is one of the timestamps of the range. -/
def InRange (t : Int) (a : Int × Int) : Prop := a.1 ≤ t ∧ t < a.2

/-- `n` operations of thread `i`, which calls `GetTs(0)` whenever it is free. -/
def getAll (i : Nat) (n : Nat) : List Event := (List.replicate n [.call i 0, .act i 0 false]).flatten

/-- The worker appends the batch `p * 2^18 + [l, l + c)`. -/
def pushAll (p l : Int) (c : Nat) : List Event := .push p l c 0 :: List.replicate 5 (.work false)

/-- Two batches; threads 0 and 1 take timestamps in turn, then thread 2 alone. -/
def demo : List Event :=
  pushAll 1 0 2 ++ (List.replicate 30 [.call 0 0, .call 1 0, .act 0 0 false, .act 1 0 false]).flatten ++ pushAll 1 2 6 ++
    (List.replicate 60 [.call 0 0, .call 1 0, .act 0 0 false, .act 1 0 false]).flatten ++ getAll 2 30

theorem oracleRanges_eq (es : List Event) : oracleRanges es = es.filterMap Event.range := by
  unfold oracleRanges
  congr 1

theorem inRange {es : List Event} {r : Ret} (hr : r ∈ returns {} es) (hts : r.ts ≠ 0) :
    ∃ k, ∃ h : k < (batches (run {} es)).length, r.batch = k + 2 ∧ InRange r.ts (batches (run {} es))[k] := by
  have H := RInv.init.run es
  rw [List.nil_append] at H
  obtain ⟨a1, a2, a3, a4, a5, a6⟩ := (H.ret r hr).ok hts
  have hhs : (run {} es).head < (run {} es).size := by
    have := H.inv.lst_lt; have := H.inv.headTail; have := H.inv.tailLst; omega
  have h2 : 2 ≤ r.batch := by
    refine Nat.le_of_not_lt fun hlt => ?_
    rw [sentinel_run {} .init es r.batch hlt] at a4
    simp only at a4
    omega
  refine ⟨r.batch - 2, by simp only [batches, List.length_map, List.length_range]; omega, by omega, ?_⟩
  simp only [batches, List.getElem_map, List.getElem_range]
  have e : r.batch - 2 + 2 = r.batch := by omega
  rw [e]
  exact ⟨a2, a4⟩

theorem batches_sub (es : List Event) : (batches (run {} es)).Sublist (oracleRanges es) := by
  obtain ⟨L, h1, h2⟩ := batches_run {} .init es
  have : batches {} = [] := rfl
  rw [this, List.nil_append] at h1
  rw [h1, oracleRanges_eq]
  exact h2

/-- C28: whatever the threads of a store do, if the ranges that the oracle gave to the
store have no timestamp in common then no timestamp is handed out twice; and each
timestamp handed out is one of the oracle's, is positive and is above the caller's
bound. -/
theorem C28_unique (es : List Event)
    (hd : (oracleRanges es).Pairwise fun a b => ∀ t, ¬ (InRange t a ∧ InRange t b)) :
    ((returns {} es).Pairwise fun a b => a.ts ≠ 0 → b.ts ≠ 0 → a.ts ≠ b.ts) ∧
    ∀ r ∈ returns {} es, r.ts ≠ 0 → 0 < r.ts ∧ r.after < r.ts ∧ ∃ a ∈ oracleRanges es, InRange r.ts a := by
  have H := RInv.init.run es
  rw [List.nil_append] at H
  have hsub := batches_sub es
  have hd' := hd.sublist hsub
  refine ⟨?_, ?_⟩
  · refine List.Pairwise.imp_of_mem ?_ H.uniq
    intro a b ha hb hab h1 h2 heq
    by_cases hbt : a.batch = b.batch
    · exact hab h1 h2 hbt heq
    · obtain ⟨k, hk, k1, k2⟩ := inRange ha h1
      obtain ⟨m, hm, m1, m2⟩ := inRange hb h2
      rw [List.pairwise_iff_getElem] at hd'
      rcases Nat.lt_trichotomy k m with hlt | he | hlt
      · exact hd' k m hk hm hlt a.ts ⟨k2, by rw [heq]; exact m2⟩
      · omega
      · exact hd' m k hm hk hlt a.ts ⟨by rw [heq]; exact m2, k2⟩
  · intro r hr hts
    obtain ⟨k, hk, k1, k2⟩ := inRange hr hts
    obtain ⟨_, _, _, _, a5, a6⟩ := (H.ret r hr).ok hts
    exact ⟨a6, a5, _, hsub.subset (List.getElem_mem hk), k2⟩

/-- The hypothesis holds for `demo`, in which eight timestamps are handed out from both batches. -/
example : ((oracleRanges demo).Pairwise fun a b => ∀ t, ¬ (InRange t a ∧ InRange t b)) ∧
    ((returns {} demo).map (·.ts)).filter (· ≠ 0) =
      [262144, 262145, 262146, 262147, 262148, 262149, 262150, 262151] := by
  refine ⟨?_, by decide +kernel⟩
  have : oracleRanges demo = [(262144, 262146), (262146, 262152)] := by decide +kernel
  rw [this]
  simp only [InRange, List.pairwise_cons, List.mem_singleton, forall_eq, List.not_mem_nil, false_imp_iff, implies_true,
    List.Pairwise.nil, and_true]
  omega

/-- C28: if moreover each range from the oracle lies above the earlier ones, a call that
starts after another has returned gets a larger timestamp. -/
theorem C28_order (es : List Event) (hd : (oracleRanges es).Pairwise fun a b => a.2 ≤ b.1)
    (a : Ret) (ha : a ∈ returns {} es) (b : Ret) (hb : b ∈ returns {} es) (h1 : a.ts ≠ 0) (h2 : b.ts ≠ 0)
    (hlt : a.returned < b.called) : a.ts < b.ts := by
  have H := RInv.init.run es
  rw [List.nil_append] at H
  have hd' := hd.sublist (batches_sub es)
  rcases H.order a ha b hb h1 h2 hlt with h | ⟨_, h⟩
  · obtain ⟨k, hk, k1, k2⟩ := inRange ha h1
    obtain ⟨m, hm, m1, m2⟩ := inRange hb h2
    rw [List.pairwise_iff_getElem] at hd'
    have h3 := hd' k m hk hm (by omega)
    have h4 := k2.2
    have h5 := m2.1
    omega
  · exact h

example : ((oracleRanges demo).Pairwise fun a b => a.2 ≤ b.1) ∧
    ∃ a ∈ returns {} demo, ∃ b ∈ returns {} demo, a.ts ≠ 0 ∧ b.ts ≠ 0 ∧ a.returned < b.called := by
  decide +kernel

/-- C28 (part): as long as only one thread calls `SetMinValidTs`, a timestamp requested
after such a call has returned is above its argument.  Missing: several threads, see
`C28_min_false`. -/
theorem C28_min_partial (es : List Event) (k : Nat) (hk : ∀ i v, Event.setMin i v ∈ es → i = k)
    (v : Int) (t : Nat) (hv : (v, t) ∈ (run {} es).mins) (r : Ret) (hr : r ∈ returns {} es) (hts : r.ts ≠ 0) (hlt : t < r.called) :
    v < r.ts := by
  have H := (MInv.init k).run es hk
  rw [List.nil_append] at H
  exact H.ret r hr hts (v, t) hv hlt

/-- One thread sets the bound 262148; the next timestamp handed out is 262149. -/
example :
    let es := pushAll 1 0 10 ++ [.setMin 0 262148, .act 0 0 false, .act 0 0 false] ++ getAll 2 60
    (262148, 8) ∈ (run {} es).mins ∧ ∃ r ∈ returns {} es, r.ts = 262149 ∧ 8 < r.called := by
  decide +kernel

/-- C28: `SetMinValidTs` loads the bound and then stores it.  Two threads (two regions whose
leaders start on this store) raise it to 262148 and to 262146: the second has read the old
bound, so it lowers the bound again, and a timestamp below the first bound is handed out
after both have returned. -/
theorem C28_min_false : ∃ es, ∃ v t, (v, t) ∈ (run {} es).mins ∧
    ∃ r ∈ returns {} es, r.ts ≠ 0 ∧ t < r.called ∧ r.ts ≤ v :=
  ⟨pushAll 1 0 10 ++ [.setMin 0 262148, .setMin 1 262146, .act 0 0 false, .act 1 0 false, .act 0 0 false, .act 1 0 false] ++
      getAll 2 60,
    262148, 10, by decide +kernel, by decide +kernel⟩

end Verif.TsCache
