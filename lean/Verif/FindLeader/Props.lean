import Verif.FindLeader.Model

/-!
# C117: a request to the coordinators finds their leader, and its status is what the leader answered
-/

namespace Verif.FindLeader

/-- The request was carried out, or may have been refused for a reason of its own: not for the server
not being the leader. -/
def Ans.reached : Ans → Bool
  | .notLeader _ => false
  | _ => true

/-- The request was carried out. -/
def Ans.ran : Ans → Bool
  | .failed r => r
  | .ok => true
  | _ => false

/-- `L` leads during the whole request: it answers, and every other server either does not answer or
names it. -/
def Leads (w : Nat → Nat → Ans) (L : Nat) : Prop :=
  (∀ k, w k L = .ok) ∧ ∀ k s, s ≠ L → (∃ b, w k s = .failed b) ∨ w k s = .notLeader (some L)

/-! ## Lemmas -/

theorem byList_spec (n : Nat) (w : Nat → Nat → Ans) (sp : Nat → Bool) : ∀ (r k idx : Nat) (b : Bool),
    0 < n → idx < n →
    let t := byList n w sp r k idx b
    t.known < n ∧ t.asked.length ≤ r ∧ (∀ x ∈ t.asked, x.1 < n) ∧
    (t.asked.filter fun x => x.2.reached).length ≤ 1 ∧
    (t.status = .ok ↔ ∃ s, (s, Ans.ok) ∈ t.asked) ∧
    (∀ e, t.status = .err e ↔ ∃ s, (s, Ans.err e) ∈ t.asked) ∧
    (t.status = .broken ↔ ∃ s c, (s, Ans.failed c) ∈ t.asked) ∧
    (t.status = .internal → t.asked.length = r)
  | 0, k, idx, b, hn, hi => by simp [byList, hi]
  | r + 1, k, idx, b, hn, hi => by
    have hx : nextLeader n idx (sp k) idx < n := by
      unfold nextLeader; split
      · exact Nat.mod_lt _ hn
      · exact hi
    have ih := byList_spec n w sp r (k + 1) _ false hn hx
    unfold byList
    cases hw : w k idx with
    | failed ran => simp [hi, Ans.reached]
    | ok => simp [hi, Ans.reached]
    | err e => simp [hi, Ans.reached, eq_comm]
    | notLeader h =>
      dsimp only at ih ⊢
      obtain ⟨h1, h2, h3, h4, h5, h6, h7, h8⟩ := ih
      refine ⟨h1, by simpa using h2, ?_, ?_, ?_, ?_, ?_, ?_⟩
      · intro x hx
        rcases List.mem_cons.1 hx with rfl | hx
        · exact hi
        · exact h3 x hx
      · simpa [List.filter_cons, Ans.reached] using h4
      · simpa using h5
      · simpa using h6
      · simpa using h7
      · intro hs; simpa using h8 hs

theorem byList_finds (n : Nat) (w : Nat → Nat → Ans) (sp : Nat → Bool) (L : Nat) (hL : L < n)
    (hw : ∀ k, w k L = .ok) (ho : ∀ k s, s < n → s ≠ L → ∃ h, w k s = .notLeader h)
    (hsp : ∀ k, sp k = false) : ∀ (d r k idx : Nat) (b : Bool), idx < n → (idx + d) % n = L → d < r →
    (byList n w sp r k idx b).status = .ok ∧ (byList n w sp r k idx b).known = L
  | d, 0, k, idx, b, _, _, hr => by omega
  | d, r + 1, k, idx, b, hi, hd, hr => by
    unfold byList
    by_cases he : idx = L
    · subst he; rw [hw]; exact ⟨rfl, rfl⟩
    · obtain ⟨h, hh⟩ := ho k idx hi he
      rw [hh]
      have hd0 : d ≠ 0 := by
        intro h0; subst h0; rw [Nat.add_zero, Nat.mod_eq_of_lt hi] at hd; exact he hd
      have hnx : nextLeader n idx (sp k) idx = (idx + 1) % n := by
        unfold nextLeader; rw [if_pos ⟨rfl, hsp k⟩]
      dsimp only
      rw [hnx]
      refine byList_finds n w sp L hL hw ho hsp (d - 1) r (k + 1) _ false
        (Nat.mod_lt _ (by omega)) ?_ (by omega)
      rw [Nat.mod_add_mod, show idx + 1 + (d - 1) = idx + d by omega]; exact hd

theorem byService_spec (w : Nat → Nat → Ans) (io : Nat → Nat → Bool) (pick : Nat → Nat) :
    ∀ (r k : Nat) (l : Option Nat) (b : Bool),
    let t := byService w io pick r k l b
    t.asked.length ≤ r ∧
    (t.status = .ok ↔ ∃ s, (s, Ans.ok) ∈ t.asked) ∧
    (∀ e, t.status = .err e ↔ ∃ s, (s, Ans.err e) ∈ t.asked) ∧
    t.status ≠ .broken ∧
    (∀ s, (s, Ans.ok) ∈ t.asked → t.known = some s) ∧
    (∀ s e, (s, Ans.err e) ∈ t.asked → t.known = some s)
  | 0, k, l, b => by simp [byService]
  | r + 1, k, some s, b => by
    unfold byService
    split
    · have ih := byService_spec w io pick r (k + 1) (some s) b
      dsimp only at ih ⊢
      exact ⟨by omega, ih.2⟩
    · cases hw : w k s with
      | failed ran =>
        have ih := byService_spec w io pick r (k + 1) none b
        simpa using ih
      | ok => simp
      | err e => simp [eq_comm]
      | notLeader h =>
        have ih := byService_spec w io pick r (k + 1) h true
        simpa using ih
  | r + 1, k, none, b => by
    unfold byService
    cases hw : w k (pick k) with
    | failed ran =>
      have ih := byService_spec w io pick r (k + 1) none b
      simpa using ih
    | ok => simp
    | err e => simp [eq_comm]
    | notLeader h =>
      have ih := byService_spec w io pick r (k + 1) h true
      simpa using ih

theorem byService_known (w : Nat → Nat → Ans) (io : Nat → Nat → Bool) (pick : Nat → Nat) (L : Nat)
    (hL : Leads w L) (hio : ∀ k s, io k s = true) (r k : Nat) (b : Bool) (hr : 0 < r) :
    (byService w io pick r k (some L) b).status = .ok ∧
      (byService w io pick r k (some L) b).known = some L := by
  obtain ⟨r, rfl⟩ : ∃ q, r = q + 1 := ⟨r - 1, by omega⟩
  unfold byService
  rw [if_neg (by rw [hio]; exact Bool.noConfusion), hL.1]
  exact ⟨rfl, rfl⟩

theorem byService_none (w : Nat → Nat → Ans) (io : Nat → Nat → Bool) (pick : Nat → Nat) (L : Nat)
    (hL : Leads w L) (hio : ∀ k s, io k s = true) : ∀ (j r k : Nat) (b : Bool), j + 2 ≤ r →
    (∀ c, w (k + j) (pick (k + j)) ≠ .failed c) →
    (byService w io pick r k none b).status = .ok ∧
      (byService w io pick r k none b).known = some L
  | j, 0, k, b, hr, _ => by omega
  | j, r + 1, k, b, hr, hj => by
    unfold byService
    by_cases hp : pick k = L
    · rw [hp, hL.1]; exact ⟨rfl, rfl⟩
    · rcases hL.2 k (pick k) hp with ⟨c, hc⟩ | hc
      · rw [hc]
        dsimp only
        cases j with
        | zero => exact absurd hc (hj c)
        | succ j =>
          refine byService_none w io pick L hL hio j r (k + 1) b (by omega) ?_
          rw [show k + 1 + j = k + (j + 1) by omega]; exact hj
      · rw [hc]
        exact byService_known w io pick L hL hio r (k + 1) true (by omega)

/-! ## By a list of addresses -/

/-- **C117** (status). By a list: a request is `OK` exactly if a server answered `OK`, fails with an
error exactly if a server answered so, and is broken exactly if a call was. At most one call of a
request reaches a server that acts on it: a request is carried out at most once. At most five servers
are asked, all of them in the list, and the request gives up only after five. -/
theorem C117_list (n : Nat) (w : Nat → Nat → Ans) (sp : Nat → Bool) (idx : Nat) (hi : idx < n) :
    let t := sendByList n w sp idx
    (t.status = .ok ↔ ∃ s, (s, Ans.ok) ∈ t.asked) ∧
    (∀ e, t.status = .err e ↔ ∃ s, (s, Ans.err e) ∈ t.asked) ∧
    (t.status = .broken ↔ ∃ s c, (s, Ans.failed c) ∈ t.asked) ∧
    (t.asked.filter fun x => x.2.reached).length ≤ 1 ∧
    t.asked.length ≤ 5 ∧ (t.status = .internal → t.asked.length = 5) ∧
    (∀ x ∈ t.asked, x.1 < n) ∧ t.known < n := by
  have h := byList_spec n w sp 5 0 idx true (by omega) hi
  obtain ⟨h1, h2, h3, h4, h5, h6, h7, h8⟩ := h
  exact ⟨h5, h6, h7, h4, h2, h8, h3, h1⟩

/-- **C117** (leader found, in part: at most five servers, all of which answer). The request succeeds
wherever it begins, and the next one begins at the leader. -/
theorem C117_list_finds_partial (n : Nat) (w : Nat → Nat → Ans) (sp : Nat → Bool) (idx L : Nat)
    (hn : n ≤ 5) (hi : idx < n) (hL : L < n) (hw : ∀ k, w k L = .ok)
    (ho : ∀ k s, s < n → s ≠ L → ∃ h, w k s = .notLeader h) (hsp : ∀ k, sp k = false) :
    (sendByList n w sp idx).status = .ok ∧ (sendByList n w sp idx).known = L := by
  refine byList_finds n w sp L hL hw ho hsp (if idx ≤ L then L - idx else n + L - idx) 5 0 idx true hi ?_ ?_
  · split
    · rw [show idx + (L - idx) = L by omega, Nat.mod_eq_of_lt hL]
    · rw [show idx + (n + L - idx) = n + L by omega, Nat.add_mod_left, Nat.mod_eq_of_lt hL]
  · split <;> omega

example : (3 : Nat) ≤ 5 ∧ (sendByList 3 (fun _ s => if s = 1 then .ok else .notLeader none)
    (fun _ => false) 2).asked = [(2, .notLeader none), (0, .notLeader none), (1, .ok)] := by
  decide +kernel

/-- **C117** (many requests). However many requests learn that the server `i` does not lead, the index
moves by one at most, and by one if one of them changes it. -/
theorem C117_list_race (n i : Nat) (hn : 1 < n) (hi : i < n) (l : List Bool) :
    l.foldl (fun c sp => nextLeader n i sp c) i = if l.all id then i else (i + 1) % n := by
  have hne : (i + 1) % n ≠ i := by
    by_cases h : i + 1 < n
    · rw [Nat.mod_eq_of_lt h]; omega
    · rw [show i + 1 = n by omega, Nat.mod_self]; omega
  have hst : ∀ l : List Bool, l.foldl (fun c sp => nextLeader n i sp c) ((i + 1) % n) = (i + 1) % n := by
    intro l
    induction l with
    | nil => rfl
    | cons a l ih =>
      rw [List.foldl_cons, show nextLeader n i a ((i + 1) % n) = (i + 1) % n from ?_, ih]
      unfold nextLeader; rw [if_neg (fun h => hne h.1)]
  induction l with
  | nil => rfl
  | cons a l ih =>
    rw [List.foldl_cons]
    cases a with
    | true =>
      rw [show nextLeader n i true i = i from ?_, ih]
      · simp
      · unfold nextLeader; rw [if_neg (by simp)]
    | false =>
      rw [show nextLeader n i false i = (i + 1) % n from ?_, hst]
      · simp
      · unfold nextLeader; rw [if_pos ⟨rfl, rfl⟩]

example : [true, false, false].foldl (fun c sp => nextLeader 3 2 sp c) 2 = 0 := by decide +kernel

/-- **C117** is false by a list when a server is down: as long as the server at the index does not
answer, every request fails after this one call, whoever leads meanwhile; no request turns to another
server. -/
theorem C117_list_down_false (n : Nat) (w : Nat → Nat → Nat → Ans) (sp : Nat → Nat → Bool) (idx : Nat)
    (hd : ∀ m k, ∃ c, w m k idx = .failed c) (m : Nat) :
    ∀ t ∈ runList n w sp m idx, t.status = .broken ∧ ∃ c, t.asked = [(idx, .failed c)] := by
  induction m with
  | zero => intro t ht; cases ht
  | succ m ih =>
    obtain ⟨c, hc⟩ := hd m 0
    have he : sendByList n (w m) (sp m) idx = ⟨.broken, idx, true, [(idx, .failed c)]⟩ := by
      unfold sendByList maxRetry byList; rw [hc]
    intro t ht
    unfold runList at ht
    dsimp only at ht
    rw [he] at ht
    rcases List.mem_cons.1 ht with rfl | ht
    · exact ⟨rfl, c, rfl⟩
    · exact ih t ht

/-- Server 0 is down, server 1 leads: no request succeeds. -/
example : Leads (fun _ s => if s = 1 then .ok else .failed false) 1 ∧
    ((runList 3 (fun _ _ s => if s = 1 then .ok else .failed false) (fun _ _ => false) 4 0).map
      Res.status) = [.broken, .broken, .broken, .broken] := by
  refine ⟨⟨fun _ => rfl, fun _ s h => Or.inl ⟨false, if_neg h⟩⟩, by decide +kernel⟩

/-- **C117** is false by a list of six servers: all of them answer, one leads, the request fails. -/
theorem C117_list_six_false : ∃ w : Nat → Nat → Ans, Leads w 5 ∧
    (sendByList 6 w (fun _ => false) 0).status = .internal := by
  refine ⟨fun _ s => if s = 5 then .ok else .notLeader (some 5), ⟨fun _ => rfl, fun _ s h => Or.inr (if_neg h)⟩,
    by decide +kernel⟩

/-! ## By the name of a service -/

/-- **C117** (status). By the name of a service: a request is `OK` exactly if a server answered `OK`,
and fails with an error exactly if a server answered so; that server is then taken for the leader. A
broken call is not the end of it. At most five calls are made. -/
theorem C117_service (w : Nat → Nat → Ans) (io : Nat → Nat → Bool) (pick : Nat → Nat) (l : Option Nat) :
    let t := sendByService w io pick l
    t.asked.length ≤ 5 ∧
    (t.status = .ok ↔ ∃ s, (s, Ans.ok) ∈ t.asked) ∧
    (∀ e, t.status = .err e ↔ ∃ s, (s, Ans.err e) ∈ t.asked) ∧
    t.status ≠ .broken ∧
    (∀ s, (s, Ans.ok) ∈ t.asked → t.known = some s) ∧
    (∀ s e, (s, Ans.err e) ∈ t.asked → t.known = some s) :=
  byService_spec w io pick 5 0 l true

/-- **C117** (leader found, in part: channels can be made). A request finds the leader whatever was
taken for it before, also when servers are down, if one of the second to fourth picks of the service
channel is a server that answers. -/
theorem C117_service_finds_partial (w : Nat → Nat → Ans) (io : Nat → Nat → Bool) (pick : Nat → Nat)
    (l : Option Nat) (L : Nat) (hL : Leads w L) (hio : ∀ k s, io k s = true)
    (hp : ∃ j, 1 ≤ j ∧ j ≤ 3 ∧ ∀ c, w j (pick j) ≠ .failed c) :
    (sendByService w io pick l).status = .ok ∧ (sendByService w io pick l).known = some L := by
  obtain ⟨j, h1, h3, hj⟩ := hp
  unfold sendByService maxRetry
  cases l with
  | none => exact byService_none w io pick L hL hio j 5 0 true (by omega) (by rw [Nat.zero_add]; exact hj)
  | some s =>
    by_cases hs : s = L
    · subst hs; exact byService_known w io pick s hL hio 5 0 true (by omega)
    · unfold byService
      rw [if_neg (by rw [hio]; exact Bool.noConfusion)]
      rcases hL.2 0 s hs with ⟨c, hc⟩ | hc
      · rw [hc]
        refine byService_none w io pick L hL hio (j - 1) 4 (0 + 1) true (by omega) ?_
        rw [show 0 + 1 + (j - 1) = j by omega]; exact hj
      · rw [hc]
        exact byService_known w io pick L hL hio 4 (0 + 1) true (by omega)

/-- Servers 0 and 2 are down, 1 leads, 3 names it; 0 was taken for the leader. -/
example : (sendByService (fun _ s => if s = 1 then .ok else if s = 3 then .notLeader (some 1) else .failed false)
    (fun _ _ => true) (fun k => k + 1) (some 0)).asked =
    [(0, .failed false), (2, .failed false), (3, .notLeader (some 1)), (1, .ok)] := by decide +kernel

/-- **C117** is false by the name of a service: a request whose reply was lost is sent again, and is
carried out twice though its status is that of one request. -/
theorem C117_service_twice_false : ∃ (w : Nat → Nat → Ans) (io : Nat → Nat → Bool) (pick : Nat → Nat),
    (sendByService w io pick (some 1)).status = .ok ∧
    ((sendByService w io pick (some 1)).asked.filter fun x => x.2.ran).length = 2 := by
  refine ⟨fun k _ => if k = 0 then .failed true else .ok, fun _ _ => true, fun _ => 1, by decide +kernel⟩

/-- **C117** is false by the name of a service: the response of a request that failed may carry `OK`. -/
theorem C117_service_response_false : ∃ (w : Nat → Nat → Ans) (io : Nat → Nat → Bool) (pick : Nat → Nat),
    (sendByService w io pick none).status = .internal ∧
    (sendByService w io pick none).respOk = true ∧
    ∀ x ∈ (sendByService w io pick none).asked, x.2 = .notLeader none := by
  refine ⟨fun _ _ => .notLeader none, fun _ _ => true, fun k => k, by decide +kernel⟩

/-- By a list it does not: the response of a request that gave up carries the last error. -/
theorem C117_list_response (n : Nat) (w : Nat → Nat → Ans) (sp : Nat → Bool) (idx : Nat)
    (h : (sendByList n w sp idx).status = .internal) : (sendByList n w sp idx).respOk = false := by
  have key : ∀ (r k idx : Nat), (byList n w sp r k idx false).status = .internal →
      (byList n w sp r k idx false).respOk = false := by
    intro r
    induction r with
    | zero => intro k idx _; rfl
    | succ r ih =>
      intro k idx h
      unfold byList at h ⊢
      cases hw : w k idx with
      | failed c => rw [hw] at h <;> cases h
      | ok => rw [hw] at h <;> cases h
      | err e => rw [hw] at h <;> cases h
      | notLeader q => rw [hw] at h; exact ih _ _ h
  unfold sendByList maxRetry byList at h ⊢
  cases hw : w 0 idx with
  | failed c => rw [hw] at h <;> cases h
  | ok => rw [hw] at h <;> cases h
  | err e => rw [hw] at h <;> cases h
  | notLeader q => rw [hw] at h; exact key _ _ _ h

example : (sendByList 3 (fun _ _ => .notLeader none) (fun _ => false) 0).status = .internal := by
  decide +kernel

/-- **C117** is false by the name of a service: while no channel can be made to the address taken for
the leader's, every request fails without a call, and the address is never given up. -/
theorem C117_service_stuck_false (w : Nat → Nat → Nat → Ans) (io : Nat → Nat → Nat → Bool)
    (pick : Nat → Nat → Nat) (s : Nat) (hs : ∀ m k, io m k s = false) (m : Nat) :
    ∀ t ∈ runService w io pick m (some s), t.status = .internal ∧ t.asked = [] ∧ t.known = some s := by
  have key : ∀ (m r k : Nat) (b : Bool), byService (w m) (io m) (pick m) r k (some s) b = ⟨.internal, some s, b, []⟩ := by
    intro m r
    induction r with
    | zero => intro k b; rfl
    | succ r ih => intro k b; unfold byService; rw [if_pos (hs m k)]; exact ih _ _
  induction m with
  | zero => intro t ht; cases ht
  | succ m ih =>
    intro t ht
    unfold runService at ht
    dsimp only at ht
    unfold sendByService at ht
    rw [key] at ht
    rcases List.mem_cons.1 ht with rfl | ht
    · exact ⟨rfl, rfl, rfl⟩
    · exact ih t ht


end Verif.FindLeader
