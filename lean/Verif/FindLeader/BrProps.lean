import Verif.FindLeader.Br

/-!
# C118: a request of backup or restore that succeeds was carried out, and by all servers if sent to all
-/

namespace Verif.FindLeader.Br

/-- The call reached a server that may have acted on it. -/
def Ans.reached : Ans → Bool
  | .ok => true
  | .err => true
  | .failed => true
  | _ => false

/-! ## Lemmas -/

theorem next_lt {s : St} (h : s.idx < s.eps.length) : (next s).idx < (next s).eps.length :=
  Nat.mod_lt _ (by omega)

theorem jump_lt {s : St} (a : Nat) : (jump s a).idx < (jump s a).eps.length := by
  unfold jump
  split
  · rename_i i hi
    exact (List.findIdx?_eq_some_iff_getElem.1 hi).1
  · simp

theorem map_after {o : Option Res} {x : Nat × Ans} {t : Res} (h : o.map (Res.after x) = some t) :
    ∃ u, o = some u ∧ t = Res.after x u := by
  cases o with
  | none => cases h
  | some u => exact ⟨u, rfl, by injection h with h; exact h.symm⟩

theorem loop_spec (w : Nat → Nat → Ans) (R T : Nat) : ∀ (fuel k retry left : Nat) (stOk resp : Bool)
    (s : St) (t : Res), loop w R T fuel k retry left stOk resp s = some t →
    ((t.stat = true ∧ t.resp = true) ↔ ∃ a, (a, Ans.ok) ∈ t.asked) ∧
    (t.asked.filter fun x => x.2.reached).length ≤ 1 := by
  intro fuel
  induction fuel with
  | zero => intro k retry left stOk resp s t h; cases h
  | succ fuel ih =>
    intro k retry left stOk resp s t h
    have key : ∀ (o : Option Res) (x : Nat × Ans), x.2.reached = false →
        (∀ u, o = some u → ((u.stat = true ∧ u.resp = true) ↔ ∃ a, (a, Ans.ok) ∈ u.asked) ∧
          (u.asked.filter fun x => x.2.reached).length ≤ 1) →
        o.map (Res.after x) = some t →
        ((t.stat = true ∧ t.resp = true) ↔ ∃ a, (a, Ans.ok) ∈ t.asked) ∧
          (t.asked.filter fun x => x.2.reached).length ≤ 1 := by
      intro o x hx ho hm
      obtain ⟨u, hu, rfl⟩ := map_after hm
      obtain ⟨h1, h2⟩ := ho u hu
      obtain ⟨a, ans⟩ := x
      refine ⟨h1.trans ⟨fun ⟨b, hb⟩ => ⟨b, List.mem_cons_of_mem _ hb⟩, fun ⟨b, hb⟩ => ⟨b, ?_⟩⟩, ?_⟩
      · rcases List.mem_cons.1 hb with hb | hb
        · injection hb with _ hb; rw [← hb] at hx; cases hx
        · exact hb
      · show (((a, ans) :: u.asked).filter fun x => x.2.reached).length ≤ 1
        rw [List.filter_cons, if_neg (by rw [hx]; exact Bool.noConfusion)]; exact h2
    unfold loop at h
    split at h
    · cases h
    · split at h
      · split at h
        · exact key _ _ rfl (fun u hu => ih _ _ _ _ _ _ u hu) h
        · cases h; simp [Ans.reached]
      · cases h; simp [Ans.reached]
      · cases h; simp [Ans.reached]
      · cases h; simp [Ans.reached]
      · split at h
        · exact key _ _ rfl (fun u hu => ih _ _ _ _ _ _ u hu) h
        · cases h; simp [Ans.reached]
      · split at h
        · exact key _ _ rfl (fun u hu => ih _ _ _ _ _ _ u hu) h
        · cases h; simp [Ans.reached]
      · split at h
        · cases h; simp [Ans.reached]
        · split at h
          · exact key _ _ rfl (fun u hu => ih _ _ _ _ _ _ u hu) h
          · cases h; simp [Ans.reached]

theorem loop_ends (w : Nat → Nat → Ans) (R T : Nat) (hT : 0 < T) : ∀ (fuel k retry left : Nat)
    (stOk resp : Bool) (s : St), s.idx < s.eps.length → left * (R + 1) + (R - retry) < fuel →
    (loop w R T fuel k retry left stOk resp s).isSome = true := by
  intro fuel
  induction fuel with
  | zero => intro k retry left stOk resp s _ h; omega
  | succ fuel ih =>
    intro k retry left stOk resp s hs hf
    unfold loop
    rw [List.getElem?_eq_getElem hs]
    dsimp only
    split
    · split
      · rw [Option.isSome_map]; exact ih _ _ _ _ _ _ (next_lt hs) (by omega)
      · rfl
    · rfl
    · rfl
    · rfl
    · split
      · rw [Option.isSome_map]; exact ih _ _ _ _ _ _ hs (by omega)
      · rfl
    · split
      · rw [Option.isSome_map]; exact ih _ _ _ _ _ _ (jump_lt _) (by omega)
      · rfl
    · split
      · rfl
      · split
        · rw [Option.isSome_map]
          refine ih _ _ _ _ _ _ (next_lt hs) ?_
          have : (left - T) * (R + 1) + (R + 1) ≤ left * (R + 1) := by
            rw [← Nat.succ_mul]; exact Nat.mul_le_mul_right _ (by omega)
          omega
        · rfl

theorem loop_clean (w : Nat → Nat → Ans) (R T : Nat) : ∀ (fuel k retry left : Nat) (stOk resp : Bool)
    (s : St) (t : Res), loop w R T fuel k retry left stOk resp s = some t → t.stat = true →
    ∀ x ∈ t.asked, x.2 ≠ .failed ∧ x.2 ≠ .err := by
  intro fuel
  induction fuel with
  | zero => intro k retry left stOk resp s t h; cases h
  | succ fuel ih =>
    intro k retry left stOk resp s t h
    have key : ∀ (o : Option Res) (x : Nat × Ans), x.2.reached = false →
        (∀ u, o = some u → u.stat = true → ∀ x ∈ u.asked, x.2 ≠ .failed ∧ x.2 ≠ .err) →
        o.map (Res.after x) = some t → t.stat = true → ∀ x ∈ t.asked, x.2 ≠ .failed ∧ x.2 ≠ .err := by
      intro o x hx ho hm hst y hy
      obtain ⟨u, hu, rfl⟩ := map_after hm
      rcases List.mem_cons.1 hy with rfl | hy
      · constructor <;> intro he <;> rw [he] at hx <;> cases hx
      · exact ho u hu hst y hy
    unfold loop at h
    split at h
    · cases h
    · split at h
      · split at h
        · exact key _ _ rfl (fun u hu => ih _ _ _ _ _ _ u hu) h
        · cases h; simp
      · cases h; simp
      · cases h; simp
      · cases h; simp
      · split at h
        · exact key _ _ rfl (fun u hu => ih _ _ _ _ _ _ u hu) h
        · cases h; simp
      · split at h
        · exact key _ _ rfl (fun u hu => ih _ _ _ _ _ _ u hu) h
        · cases h; simp
      · split at h
        · cases h; simp
        · split at h
          · exact key _ _ rfl (fun u hu => ih _ _ _ _ _ _ u hu) h
          · cases h; simp

theorem loop_stat (w : Nat → Nat → Ans) (R T : Nat) : ∀ (fuel k retry left : Nat) (stOk resp : Bool)
    (s : St) (t : Res), loop w R T fuel k retry left stOk resp s = some t →
    (t.stat = true ↔ (∃ a, (a, Ans.ok) ∈ t.asked) ∨
      stOk = true ∧ ∀ x ∈ t.asked, ∃ h, x.2 = .redirect h) := by
  intro fuel
  induction fuel with
  | zero => intro k retry left stOk resp s t h; cases h
  | succ fuel ih =>
    intro k retry left stOk resp s t h
    unfold loop at h
    split at h
    · cases h
    · split at h
      · split at h
        · obtain ⟨u, hu, rfl⟩ := map_after h
          have := ih _ _ _ _ _ _ u hu
          simp only [Res.after]; rw [this]; simp
        · cases h; simp
      · cases h; simp
      · cases h; simp
      · cases h; simp
      · split at h
        · obtain ⟨u, hu, rfl⟩ := map_after h
          have := ih _ _ _ _ _ _ u hu
          simp only [Res.after]; rw [this]; simp
        · cases h; simp
      · split at h
        · obtain ⟨u, hu, rfl⟩ := map_after h
          have := ih _ _ _ _ _ _ u hu
          simp only [Res.after]; rw [this]; simp
        · cases h; simp
      · split at h
        · cases h; simp
        · split at h
          · obtain ⟨u, hu, rfl⟩ := map_after h
            have := ih _ _ _ _ _ _ u hu
            simp only [Res.after]; rw [this]; simp
          · cases h; simp

/-! ## One request -/

/-- **C118** (it ends). Whatever the servers answer, a request is over after at most
`W * (R + 1) + R + 1` calls if the tick is not zero, and no call uses an index out of range. -/
theorem C118_ends (w : Nat → Nat → Ans) (R T W : Nat) (s : St) (hT : 0 < T) (hs : s.idx < s.eps.length) :
    (send w R T W s).isSome = true :=
  loop_ends w R T hT _ _ _ _ _ _ _ hs (by omega)

/-- **C118** (in part: a caller that looks at both the status and the response). Both are `OK` exactly
if a server answered `OK`, and at most one call of a request reaches a server that may act on it. -/
theorem C118_sent_partial (w : Nat → Nat → Ans) (R T W : Nat) (s : St) (t : Res)
    (h : send w R T W s = some t) :
    ((t.stat = true ∧ t.resp = true) ↔ ∃ a, (a, Ans.ok) ∈ t.asked) ∧
    (t.asked.filter fun x => x.2.reached).length ≤ 1 :=
  loop_spec w R T _ _ _ _ _ _ _ _ h

/-- Server 7 is down, 8 names 9, which is not in the list and leads. -/
example : send (fun _ a => if a = 9 then .ok else if a = 8 then .redirect (.to 9) else .down) 10 1 2 ⟨[7, 8], 0⟩ =
    some ⟨true, true, ⟨[7, 8, 9], 2⟩, [(7, .down), (8, .redirect (.to 9)), (9, .ok)]⟩ := by decide +kernel

/-- **C118** (what the status alone tells). It is `OK` exactly if a server answered `OK` or every call
was redirected. -/
theorem C118_status (w : Nat → Nat → Ans) (R T W : Nat) (s : St) (t : Res)
    (h : send w R T W s = some t) :
    t.stat = true ↔ (∃ a, (a, Ans.ok) ∈ t.asked) ∨ ∀ x ∈ t.asked, ∃ h, x.2 = .redirect h := by
  rw [loop_stat w R T _ _ _ _ _ _ _ _ h]; simp

/-- **C118** is false for the status alone: if every call is redirected without a leader being named,
the request gives up with the status `OK`, for all servers, limits and times. -/
theorem C118_status_false (w : Nat → Nat → Ans) (R T W : Nat) (s : St) (hT : 0 < T)
    (hs : s.idx < s.eps.length) (hw : ∀ k a, w k a = .redirect .absent) :
    ∃ t, send w R T W s = some t ∧ t.stat = true ∧ ∀ x ∈ t.asked, x.2 = .redirect .absent := by
  have key : ∀ (fuel k retry left : Nat) (resp : Bool) (s : St) (t : Res),
      loop w R T fuel k retry left true resp s = some t →
      t.stat = true ∧ ∀ x ∈ t.asked, x.2 = .redirect .absent := by
    intro fuel
    induction fuel with
    | zero => intro k retry left resp s t h; cases h
    | succ fuel ih =>
      intro k retry left resp s t h
      unfold loop at h
      split at h
      · cases h
      · rw [hw] at h
        dsimp only at h
        split at h
        · cases h; simp
        · split at h
          · obtain ⟨u, hu, rfl⟩ := map_after h
            obtain ⟨h1, h2⟩ := ih _ _ _ _ _ _ hu
            refine ⟨h1, fun x hx => ?_⟩
            rcases List.mem_cons.1 hx with rfl | hx
            · rfl
            · exact h2 x hx
          · cases h; simp
  obtain ⟨t, ht⟩ := Option.isSome_iff_exists.1 (C118_ends w R T W s hT hs)
  exact ⟨t, ht, key _ _ _ _ _ _ _ ht⟩

example : send (fun _ _ => .redirect .absent) 10 1 3 ⟨[0, 1], 0⟩ = some ⟨true, false, ⟨[0, 1], 1⟩,
    [(0, .redirect .absent), (1, .redirect .absent), (0, .redirect .absent)]⟩ := by decide +kernel

/-! ## A request to all servers -/

/-- **C118** (in part: every server answers `OK`). A request sent to all servers is carried out by each
of them, wherever it begins. -/
theorem C118_all_partial (w : Nat → Nat → Nat → Ans) (R T W : Nat) (s : St)
    (hs : s.idx < s.eps.length) (hw : ∀ i k a, a ∈ s.eps → w i k a = .ok) :
    ∃ t, sendAll w R T W (s.eps.length + 1) 0 true s = some t ∧ t.stat = true ∧ t.resp = true ∧
      ∀ a ∈ s.eps, (a, Ans.ok) ∈ t.asked := by
  obtain ⟨eps, idx⟩ := s
  dsimp only at hs hw ⊢
  have one : ∀ i x, x < eps.length → ∃ a, eps[x]? = some a ∧
      send (w i) R T W ⟨eps, x⟩ = some ⟨true, true, ⟨eps, x⟩, [(a, .ok)]⟩ := by
    intro i x hx
    refine ⟨eps[x], List.getElem?_eq_getElem hx, ?_⟩
    unfold send
    rw [show W * (R + 1) + R + 1 = (W * (R + 1) + R) + 1 from rfl]
    unfold loop
    dsimp only
    rw [List.getElem?_eq_getElem hx]
    dsimp only
    rw [hw i 0 _ (List.getElem_mem hx)]
  have run : ∀ m i x, x < eps.length → i + m = eps.length →
      ∃ t, sendAll w R T W (m + 1) i true ⟨eps, x⟩ = some t ∧ t.stat = true ∧ t.resp = true ∧
        ∀ j, j < m → ∀ a, eps[(x + j) % eps.length]? = some a → (a, Ans.ok) ∈ t.asked := by
    intro m
    induction m with
    | zero =>
      intro i x hx hi
      refine ⟨⟨true, true, ⟨eps, x⟩, []⟩, ?_, rfl, rfl, fun j hj => by omega⟩
      unfold sendAll; dsimp only; rw [if_pos (by omega)]
    | succ m ih =>
      intro i x hx hi
      obtain ⟨a, ha, hsend⟩ := one i x hx
      obtain ⟨u, hu, h1, h2, h3⟩ := ih (i + 1) ((x + 1) % eps.length) (Nat.mod_lt _ (by omega)) (by omega)
      refine ⟨{ u with asked := [(a, .ok)] ++ u.asked }, ?_, h1, h2, ?_⟩
      · unfold sendAll
        dsimp only
        rw [if_neg (by omega), hsend]
        dsimp only
        rw [if_neg (by exact Bool.noConfusion)]
        unfold next
        dsimp only
        rw [hu]; rfl
      · intro j hj b hb
        cases j with
        | zero =>
          rw [Nat.add_zero, Nat.mod_eq_of_lt hx, ha] at hb
          injection hb with hb; subst hb; exact List.mem_cons_self
        | succ j =>
          refine List.mem_cons_of_mem _ (h3 j (by omega) b ?_)
          rw [Nat.mod_add_mod, show x + 1 + j = x + (j + 1) by omega]; exact hb
  obtain ⟨t, ht, h1, h2, h3⟩ := run eps.length 0 idx hs (by omega)
  refine ⟨t, ht, h1, h2, fun a ha => ?_⟩
  obtain ⟨y, hy, rfl⟩ := List.getElem_of_mem ha
  refine h3 (if idx ≤ y then y - idx else eps.length + y - idx) ?_ _ ?_
  · split <;> omega
  · have : (idx + if idx ≤ y then y - idx else eps.length + y - idx) % eps.length = y := by
      split
      · rw [show idx + (y - idx) = y by omega, Nat.mod_eq_of_lt hy]
      · rw [show idx + (eps.length + y - idx) = eps.length + y by omega, Nat.add_mod_left,
          Nat.mod_eq_of_lt hy]
    rw [this]; exact List.getElem?_eq_getElem hy

example : sendAll (fun _ _ _ => .ok) 10 1 2 4 0 true ⟨[5, 6, 7], 1⟩ =
    some ⟨true, true, ⟨[5, 6, 7], 1⟩, [(6, .ok), (7, .ok), (5, .ok)]⟩ := by decide +kernel

/-- **C118** (failures). A request sent to all servers is not `OK` if one of them answered with an
error, or a call to one of them failed otherwise than by its host being down. -/
theorem C118_all_failed (w : Nat → Nat → Nat → Ans) (R T W : Nat) (fuel : Nat) (s : St) (t : Res)
    (h : sendAll w R T W fuel 0 true s = some t) (x : Nat × Ans) (hx : x ∈ t.asked)
    (hf : x.2 = .failed ∨ x.2 = .err) : t.stat = false := by
  have key : ∀ (fuel i : Nat) (resp : Bool) (s : St) (t : Res), sendAll w R T W fuel i resp s = some t →
      t.stat = true → ∀ x ∈ t.asked, x.2 ≠ .failed ∧ x.2 ≠ .err := by
    intro fuel
    induction fuel with
    | zero => intro i resp s t h; cases h
    | succ fuel ih =>
      intro i resp s t h hst
      unfold sendAll at h
      split at h
      · cases h; intro x hx; cases hx
      · split at h
        · cases h
        · rename_i u hu
          split at h
          · rename_i hf; cases h; rw [hf] at hst; cases hst
          · rename_i hf
            cases hr : sendAll w R T W fuel (i + 1) u.resp (next u.st) with
            | none => rw [hr] at h; cases h
            | some v =>
              rw [hr] at h
              injection h with h
              subst h
              intro x hx
              rcases List.mem_append.1 hx with hx | hx
              · exact loop_clean _ _ _ _ _ _ _ _ _ _ _ hu (by simpa using hf) x hx
              · exact ih _ _ _ _ hr hst x hx
  cases hst : t.stat with
  | false => rfl
  | true =>
    have := key _ _ _ _ _ h hst x hx
    rcases hf with hf | hf
    · exact absurd hf this.1
    · exact absurd hf this.2

example : sendAll (fun _ _ a => if a = 6 then .err else .ok) 10 1 2 4 0 true ⟨[5, 6, 7], 0⟩ =
    some ⟨false, false, ⟨[5, 6, 7], 1⟩, [(5, .ok), (6, .err)]⟩ := by decide +kernel

/-- **C118** is false for all servers: one of them is down, or redirects; another is asked in its
place, status and response are `OK`, and it never carried the request out. -/
theorem C118_all_false :
    (∃ t, sendAll (fun _ _ a => if a = 6 then .down else .ok) 10 1 2 4 0 true ⟨[5, 6, 7], 0⟩ = some t ∧
      t.stat = true ∧ t.resp = true ∧ (6, Ans.ok) ∉ t.asked) ∧
    (∃ t, sendAll (fun _ _ a => if a = 5 then .ok else .redirect (.to 5)) 10 1 2 4 0 true ⟨[5, 6, 7], 0⟩ = some t ∧
      t.stat = true ∧ t.resp = true ∧ (6, Ans.ok) ∉ t.asked ∧ (7, Ans.ok) ∉ t.asked) := by
  refine ⟨⟨⟨true, true, ⟨[5, 6, 7], 1⟩, [(5, .ok), (6, .down), (7, .ok), (5, .ok)]⟩, by decide +kernel⟩,
    ⟨⟨true, true, ⟨[5, 6, 7], 1⟩, [(5, .ok), (6, .redirect (.to 5)), (5, .ok), (6, .redirect (.to 5)), (5, .ok)]⟩, by decide +kernel⟩⟩

/-- **C118** is false for all servers though all of them are up: a request that gave up counts as
done, the server it was to turn to next is passed over and never asked, and the response is that of
the last request. -/
theorem C118_all_lost_false : ∃ (w : Nat → Nat → Nat → Ans) (t : Res),
    (∀ i k a, w i k a = .ok ∨ w i k a = .redirect .absent) ∧
    sendAll w 10 1 1 4 0 true ⟨[5, 6, 7], 0⟩ = some t ∧ t.stat = true ∧ t.resp = true ∧
    ∀ x ∈ t.asked, x.1 ≠ 6 := by
  refine ⟨fun i _ _ => if i = 0 then .redirect .absent else .ok,
    ⟨true, true, ⟨[5, 6, 7], 1⟩, [(5, .redirect .absent), (7, .ok), (5, .ok)]⟩, ?_, by decide +kernel⟩
  intro i _ _
  by_cases h : i = 0
  · exact Or.inr (if_pos h)
  · exact Or.inl (if_neg h)

end Verif.FindLeader.Br
