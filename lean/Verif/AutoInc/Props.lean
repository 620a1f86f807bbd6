import Verif.AutoInc.Lemmas

/-!
# Auto-increment service: properties

A history is any list of events: requests checked on any replica, commits in any order,
lost proposals, applies, snapshots, restarts.
-/

namespace Verif.AutoInc

/-- In the log of the history, each request that sets the counter of table `t` was checked
on the state it was applied to (no other request was committed in between). -/
def Undisturbed (s : State) (t : Int) : Prop :=
  ∀ (q : Nat) (e : Entry), s.log[q]? = some e → e.req.sets t → e.seen = q

/-- The counter of table `t` is never deleted nor set by force. -/
def NoReset (s : State) (t : Int) : Prop := ∀ e ∈ s.log, ¬ e.req.resets t

theorem up_range {s : State} (h : Inv s) {t : Int} (hu : Undisturbed s t) (hn : NoReset s t) (a d : Nat) (m m' : Map)
    (h1 : mapAt s.log a = some m) (h2 : mapAt s.log (a + d) = some m') : Up (m t) (m' t) := by
  induction d generalizing m' with
  | zero => rw [Nat.add_zero, h1] at h2; cases h2; exact Up.refl _
  | succ d ih =>
    cases he : s.log[a + d]? with
    | none =>
      have hlen : s.log.length ≤ a + d := List.getElem?_eq_none_iff.1 he
      refine ih m' ?_
      rw [← h2]
      unfold mapAt
      rw [List.take_of_length_le hlen, List.take_of_length_le (by omega)]
    | some e =>
      rw [← Nat.add_assoc, mapAt_succ he] at h2
      cases hm : mapAt s.log (a + d) with
      | none => rw [hm] at h2; cases h2
      | some m2 =>
        rw [hm] at h2
        simp only [Option.bind_some, Option.map_eq_some_iff] at h2
        obtain ⟨⟨m3, r⟩, h3, h4⟩ := h2
        simp only at h4
        subst h4
        refine (ih m2 hm).trans ?_
        obtain ⟨m0, h5, h6⟩ := (h.log e (List.mem_of_getElem? he)).req
        refine ops_up h6 h3 (hn e (List.mem_of_getElem? he)) fun hs => ?_
        rw [hu _ e he hs, hm] at h5
        cases h5; rfl

/-- C29 (part): the ranges generated for a table are pairwise disjoint, and a request made
after another one was answered gets a higher range, as long as the table's counter is not
deleted or set by force and the other requests that set it do not race.  Missing: see
`C29_create_false`, `C30_false`. -/
theorem C29_partial (es : List Event) (t : Int) (hu : Undisturbed (run {} es) t) (hn : NoReset (run {} es) t) :
    ((grants {} es).Pairwise fun a b => a.resp.table = t → b.resp.table = t →
      a.resp.stop ≤ b.resp.start ∨ b.resp.stop ≤ a.resp.start) ∧
    ∀ a ∈ grants {} es, ∀ b ∈ grants {} es, a.resp.table = t → b.resp.table = t → a.returned < b.called →
      a.resp.stop ≤ b.resp.start := by
  have H := RInv.init.run es
  rw [List.nil_append] at H
  have key : ∀ a ∈ grants {} es, ∀ b ∈ grants {} es, a.resp.table = t → b.resp.table = t → a.pos < b.pos →
      a.resp.stop ≤ b.resp.start := by
    intro a ha b hb hat hbt hlt
    obtain ⟨ea, a1, ⟨ma, ma', a2, a3⟩, _, _⟩ := (H.ok a ha).entry
    obtain ⟨eb, b1, ⟨mb, mb', b2, b3⟩, _, _⟩ := (H.ok b hb).entry
    obtain ⟨_, _, a4⟩ := (H.inv.log ea (List.mem_of_getElem? a1)).req
    obtain ⟨_, _, b4⟩ := (H.inv.log eb (List.mem_of_getElem? b1)).req
    have a5 := (ops_resp a4 a3).2.2.2.2.2.2.2.2.1
    have b5 := (ops_resp b4 b3).2.2.2.2.2.2.2.1
    have a6 : mapAt (run {} es).log (a.pos + 1) = some ma' := by
      rw [mapAt_succ a1, a2]; simp [a3]
    have e : b.pos = a.pos + 1 + (b.pos - a.pos - 1) := by omega
    rw [e] at b2
    obtain ⟨w, w1, w2⟩ := up_range H.inv hu hn _ _ ma' mb a6 b2 a.resp.stop (by rw [← hat]; exact a5)
    rw [hbt, w1] at b5
    cases b5
    exact w2
  refine ⟨?_, ?_⟩
  · refine List.Pairwise.imp_of_mem ?_ H.uniq
    intro a b ha hb hne hat hbt
    rcases Nat.lt_or_gt_of_ne hne with h | h
    · exact Or.inl (key a ha b hb hat hbt h)
    · exact Or.inr (key b hb a ha hbt hat h)
  · intro a ha b hb hat hbt hlt
    obtain ⟨eb, b1, _, b2, _⟩ := (H.ok b hb).entry
    exact key a ha b hb hat hbt ((H.ok a ha).order b.pos eb b1 (by omega))

/-- C29 (part): a generated range `[start, stop)` ends `count * inc` after an id `f` of the
form `k * inc + off`, which is the first such id from `start` on (if `off = inc` it may be the
second): the range has `count` ids of that form.  (An offset above the increment counts
as 1.)  Missing: products `count * inc` of 2^32 and more, see `C29_wrap_false`. -/
theorem C29_count_partial (es : List Event) (g : Grant) (hg : g ∈ grants {} es) (h0 : 0 ≤ g.resp.start)
    (hw : g.resp.count * g.resp.inc < 4294967296) :
    ∃ f : Int, g.resp.start ≤ f ∧ f ≤ g.resp.start + g.resp.inc ∧ (g.resp.off ≠ g.resp.inc → g.resp.inc ≠ 1 → f < g.resp.start + g.resp.inc) ∧
      f % g.resp.inc = (if g.resp.off ≤ g.resp.inc then g.resp.off else 1 : Nat) % g.resp.inc ∧
      g.resp.stop = f + g.resp.count * g.resp.inc := by
  have H := RInv.init.run es
  rw [List.nil_append] at H
  obtain ⟨e, a1, ⟨m, m', a2, a3⟩, _, _⟩ := (H.ok g hg).entry
  obtain ⟨_, _, a4⟩ := (H.inv.log e (List.mem_of_getElem? a1)).req
  obtain ⟨_, c1, c2, i1, i2, o1, o2, _, _, h⟩ := ops_resp a4 a3
  revert h hw i1 i2 o1 o2 h0
  generalize g.resp.start = s
  generalize g.resp.stop = p
  generalize g.resp.inc = i
  generalize g.resp.off = o
  generalize g.resp.count = c
  intro h0 hw i1 i2 o1 o2 h
  have q1 : offsetMax = 65535 := rfl
  have e1 : (if i = 0 ∨ i > offsetMax then 1 else i) = i := if_neg (by omega)
  have e2 : (if o = 0 ∨ o > offsetMax ∨ o > i then 1 else o) = (if o ≤ i then o else 1) := by
    by_cases hoi : o ≤ i
    · rw [if_pos hoi, if_neg (by omega)]
    · rw [if_neg hoi, if_pos (by omega)]
  unfold endId at h
  simp only [e1, e2] at h
  have o3 : 1 ≤ (if o ≤ i then o else 1) ∧ (if o ≤ i then o else 1) ≤ i ∧ (o ≠ i → i ≠ 1 → (if o ≤ i then o else 1) < i) := by
    split <;> omega
  revert h o3
  generalize (if o ≤ i then o else 1) = o'
  intro h o3
  split at h
  · rename_i hc
    refine ⟨s, Int.le_refl _, by omega, by omega, ?_, ?_⟩
    · rw [hc.1]; omega
    · rw [h, hc.1]; omega
  · rw [Nat.mod_eq_of_lt hw] at h
    have hr : s.tmod i = s % i := Int.tmod_eq_emod_of_nonneg h0
    have hr1 := Int.emod_nonneg s (b := (i : Int)) (by omega)
    have hr2 := Int.emod_lt_of_pos s (b := (i : Int)) (by omega)
    refine ⟨realStart s i o', realStart_ge s i o' (by omega), ?_, ?_, ?_, by rw [h]; simp⟩
    · unfold realStart
      simp only [hr]
      split
      · omega
      · split <;> omega
    · intro q2 q3
      have := o3.2.2 q2 q3
      unfold realStart
      simp only [hr]
      split
      · omega
      · split <;> omega
    · unfold realStart
      simp only [hr]
      have e3 : s - s % i = i * (s / i) := by have := Int.mul_ediv_add_emod s i; omega
      split
      · rw [e3, Int.add_comm, Int.add_mul_emod_self_left]
      · split
        · have : s - s % i + i + o' = o' + i * (s / i + 1) := by
            rw [Int.mul_add, Int.mul_one, ← e3]; omega
          rw [this, Int.add_mul_emod_self_left]
        · have : s % i = o' := by omega
          rw [this]
          by_cases h' : o' = i
          · subst h'; omega
          · rw [Int.emod_eq_of_lt (by omega) (by omega)]

/-- C30 (part): an update that is not forced, checked on the state it is applied to, raises
the counter on every replica that applies it.  Missing: see `C30_false`. -/
theorem C30_partial (es : List Event) (i : Nat) (e : Entry) (t start : Int)
    (he : (run {} es).log[((run {} es).node i).applied]? = some e) (hr : e.req = .update t start false)
    (hs : e.seen = ((run {} es).node i).applied) (hd : ((run {} es).node i).dead = false) :
    ∃ v, ((run {} es).node i).map t = some v ∧ v < start ∧ ((run {} (es ++ [.apply i])).node i).map t = some start := by
  have H := RInv.init.run es
  rw [List.nil_append] at H
  obtain ⟨m, h1, h2⟩ := (H.inv.log e (List.mem_of_getElem? he)).req
  rw [hs, (H.inv.node i).map] at h1
  cases h1
  have hrun : ∀ s : State, run s (es ++ [.apply i]) = (step (run s es) (.apply i)).1 := by
    clear he hs hd h2 H
    intro s
    induction es generalizing s with
    | nil => rfl
    | cons x xs ih => exact ih _
  rw [hrun]
  generalize run {} es = s at *
  rw [hr] at h2
  simp only [propose] at h2
  cases hm : (s.node i).map t with
  | none => rw [hm] at h2; cases h2
  | some v =>
    rw [hm] at h2
    simp only at h2
    split at h2
    · cases h2
    · rename_i hc
      have hc' : ¬ start ≤ v := fun h => hc ⟨h, by simp⟩
      simp only [Option.some.injEq] at h2
      refine ⟨v, rfl, by omega, ?_⟩
      simp only [step, stepAt, hd, Bool.false_eq_true, if_false, State.applyNode, he, ← h2, applyOps, applyOp, hm]
      simp [State.setNode, Map.set]

/-- Requests one after the other on replica 0. -/
def serve (r : Request) : List Event := [.request 0 r, .commit 0, .apply 0]

/-- Two tables; ranges with several increments; replica 1 takes over after a snapshot; an
update in between. -/
def demo : List Event :=
  serve (.create [(1, 1), (2, 7)]) ++ serve (.generate 1 10 1 1) ++ serve (.generate 1 3 5 2) ++
    [.save 0, .install 1 0, .restart 0, .request 1 (.generate 1 2 1 1), .commit 0, .apply 1,
     .request 1 (.update 1 100 false), .commit 0, .apply 1, .request 1 (.generate 1 4 10 20), .commit 0, .apply 1]

example : (Undisturbed (run {} demo) 1 ∧ NoReset (run {} demo) 1) ∧
    (grants {} demo).map (fun g => (g.resp.start, g.resp.stop)) = [(1, 11), (11, 27), (27, 29), (100, 141)] := by
  refine ⟨⟨?_, ?_⟩, by decide +kernel⟩
  · intro q e he
    have hlog : ((run {} demo).log.zipIdx.all fun x => x.1.seen == x.2) = true := by decide +kernel
    rw [List.all_eq_true] at hlog
    intro _
    have := hlog (e, q) (by rw [List.mem_zipIdx_iff_getElem?]; exact he)
    exact eq_of_beq this
  · have hlog : ((run {} demo).log.all fun e => match e.req with
        | .update _ _ f => !f
        | .delete _ => false
        | _ => true) = true := by decide +kernel
    rw [List.all_eq_true] at hlog
    intro e he hr
    have := hlog e he
    revert this hr
    cases e.req <;> simp [Request.resets]

/-- C30 applies to the update of the demo. -/
example : let es := demo.take 17
    (run {} es).log[((run {} es).node 1).applied]? = some ⟨[.update 1 100], 1, 0, .update 1 100 false, 4, 16⟩ ∧
      ((run {} es).node 1).applied = 4 ∧ ((run {} es).node 1).dead = false := by decide +kernel

/-- C29: two concurrent create requests for one table (a client that retries) are both
accepted; the second to be applied sets the counter back, and the ids are generated twice. -/
theorem C29_create_false : ∃ es, (∀ i r, Event.request i r ∈ es → r = .create [(1, 1)] ∨ r = .generate 1 10 1 1) ∧
    ∃ a ∈ grants {} es, ∃ b ∈ grants {} es, a.resp.table = b.resp.table ∧ a.returned < b.called ∧
      a.resp.start = b.resp.start ∧ a.resp.start < a.resp.stop ∧ a.resp.stop = b.resp.stop :=
  ⟨[.request 0 (.create [(1, 1)]), .request 0 (.create [(1, 1)]), .commit 0, .apply 0,
    .request 0 (.generate 1 10 1 1), .commit 1, .apply 0, .commit 0, .apply 0] ++ serve (.generate 1 10 1 1),
    by simp only [serve]; grind, by decide +kernel⟩

/-- C30: an update that is not forced is checked before it is replicated, against the counter
of that moment, and applied unconditionally: ids generated in between are generated
again. -/
theorem C30_false : ∃ es, (∀ i r, Event.request i r ∈ es → r = .create [(1, 1)] ∨ r = .update 1 5 false ∨ r = .generate 1 10 1 1) ∧
    ∃ a ∈ grants {} es, ∃ b ∈ grants {} es, a.resp.table = b.resp.table ∧ a.returned < b.called ∧ b.resp.start < a.resp.stop :=
  ⟨serve (.create [(1, 1)]) ++ [.request 0 (.update 1 5 false), .request 0 (.generate 1 10 1 1), .commit 1, .apply 0,
    .commit 0, .apply 0] ++ serve (.generate 1 10 1 1),
    by simp only [serve]; grind, by decide +kernel⟩

/-- C29: the number of ids is multiplied by the increment in 32 bits.  65539 ids with increment 65534 a
range with less than three ids. -/
theorem C29_wrap_false : ∃ es, ∃ g ∈ grants {} es, g.resp.count = 65539 ∧ g.resp.inc = 65534 ∧ g.resp.off = 1 ∧ g.resp.start = 1 ∧
    g.resp.stop < g.resp.start + 3 * 65534 :=
  ⟨serve (.create [(1, 1)]) ++ serve (.generate 1 65539 65534 1), by decide +kernel⟩

/-- C29: an update to the largest id is accepted; the next generate request overflows on
every replica that applies it, also after a restart. -/
theorem C29_overflow_false : ∃ es, (∀ i r, Event.request i r ∈ es → r = .create [(1, 1)] ∨ r = .update 1 maxI64 false ∨ r = .generate 1 1 1 1) ∧
    ((run {} es).node 0).dead = true ∧ ((run {} es).node 1).dead = true :=
  ⟨serve (.create [(1, 1)]) ++ serve (.update 1 maxI64 false) ++ serve (.generate 1 1 1 1) ++
    [.apply 1, .apply 1, .apply 1, .restart 1, .apply 1, .apply 1, .apply 1],
    by simp only [serve]; grind, by decide +kernel⟩

end Verif.AutoInc
