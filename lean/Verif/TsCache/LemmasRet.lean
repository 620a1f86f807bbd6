import Verif.TsCache.Lemmas

/-! # Timestamp cache: the finished calls -/

namespace Verif.TsCache

/-- The batch whose timestamps a thread is looking at. -/
def Pc.hold : Pc → Option Nat
  | .loadTail _ h | .loadNext _ h _ | .stale _ h _ _ | .fetch _ h _ _ | .check _ h _ _ _ | .advance _ h _ _ => some h
  | _ => none

theorem act_other (s : State) (i : Nat) (now : Int) (w : Bool) (j : Nat) (hj : j ≠ i) :
    (s.act i now w).1.thread j = s.thread j := by
  unfold State.act
  simp only
  cases (s.thread i).pc <;> simp only
  all_goals first
    | rfl
    | (simp [State.setPc, hj]; done)
    | (simp [State.setPc, State.setBatch, hj]; done)
    | skip
  case check => split <;> simp [State.setPc, hj]
  case advance a h t n =>
    cases n with
    | none => simp [State.setPc, hj]
    | some m =>
      simp only
      split
      · split <;> simp [State.setPc, hj]
      · split <;> simp [State.setPc, hj]
  case deadLink a h d n =>
    cases n with
    | none => simp only; split <;> simp [State.setPc, State.setBatch, hj]
    | some m => simp only; split <;> simp [State.setPc, hj]
  case minLoad v => split <;> simp [State.setPc, hj]

theorem act_called (s : State) (i : Nat) (now : Int) (w : Bool) (j : Nat) :
    ((s.act i now w).1.thread j).called = (s.thread j).called := by
  by_cases hj : j = i
  · subst hj
    unfold State.act
    simp only
    cases (s.thread j).pc <;> simp only
    all_goals first
      | rfl
      | (simp [State.setPc]; done)
      | (simp [State.setPc, State.setBatch]; done)
      | skip
    case check => split <;> simp [State.setPc]
    case advance a h t n =>
      cases n with
      | none => simp [State.setPc]
      | some m =>
        simp only
        split
        · split <;> simp [State.setPc]
        · split <;> simp [State.setPc]
    case deadLink a h d n =>
      cases n with
      | none => simp only; split <;> simp [State.setPc, State.setBatch]
      | some m => simp only; split <;> simp [State.setPc]
    case minLoad v => split <;> simp [State.setPc]
  · rw [act_other s i now w j hj]

/-- The batches and ranges under a thread's operation. -/
theorem act_batch (s : State) (i : Nat) (now : Int) (w : Bool) :
    (s.act i now w).1.size = s.size ∧ ∀ n, ((s.act i now w).1.batch n).first = (s.batch n).first ∧
      ((s.act i now w).1.batch n).last = (s.batch n).last ∧ (s.batch n).cur ≤ ((s.act i now w).1.batch n).cur := by
  have key : ∀ (b : Batch) (m : Nat), b.first = (s.batch m).first → b.last = (s.batch m).last → (s.batch m).cur ≤ b.cur →
      ∀ (pc : Pc) (n : Nat), (((s.setBatch m b).setPc i pc).batch n).first = (s.batch n).first ∧
      (((s.setBatch m b).setPc i pc).batch n).last = (s.batch n).last ∧
      (s.batch n).cur ≤ (((s.setBatch m b).setPc i pc).batch n).cur := by
    intro b m h1 h2 h3 pc n
    simp only [State.setPc, State.setBatch]
    split
    · rename_i hn; subst hn; exact ⟨h1, h2, h3⟩
    · exact ⟨rfl, rfl, Int.le_refl _⟩
  have triv : ∀ n, (s.batch n).first = (s.batch n).first ∧ (s.batch n).last = (s.batch n).last ∧ (s.batch n).cur ≤ (s.batch n).cur :=
    fun n => ⟨rfl, rfl, Int.le_refl _⟩
  unfold State.act
  simp only
  cases (s.thread i).pc <;> simp only
  all_goals first
    | exact ⟨rfl, triv⟩
    | skip
  case idle => exact ⟨trivial, fun n => ⟨trivial, trivial, Int.le_refl _⟩⟩
  case check => split <;> exact ⟨rfl, triv⟩
  case fetch a h t n => exact ⟨rfl, key { s.batch h with cur := (s.batch h).cur + 1 } h rfl rfl
    (by show (s.batch h).cur ≤ (s.batch h).cur + 1; omega) _⟩
  case deadClear a h => exact ⟨rfl, key { s.batch h with next := none } h rfl rfl (Int.le_refl _) _⟩
  case advance a h t n =>
    cases n with
    | none => exact ⟨rfl, triv⟩
    | some m =>
      simp only
      split
      · split <;> exact ⟨rfl, triv⟩
      · split <;> exact ⟨rfl, triv⟩
  case deadLink a h d n =>
    cases n with
    | none =>
      simp only
      split
      · exact ⟨rfl, key { s.batch d with next := some h } d rfl rfl (Int.le_refl _) _⟩
      · exact ⟨rfl, triv⟩
    | some m => simp only; split <;> exact ⟨rfl, triv⟩
  case minLoad v => split <;> exact ⟨rfl, triv⟩

/-- What the acting thread holds afterwards. -/
theorem act_hold (s : State) (i : Nat) (now : Int) (w : Bool) (h : Nat)
    (hh : (((s.act i now w).1.thread i).pc).hold = some h) : h = s.head ∨ ((s.thread i).pc).hold = some h := by
  revert hh
  unfold State.act
  simp only
  cases hpc : (s.thread i).pc <;> simp only
  all_goals first
    | (simp only [setPc_pc, if_true, Pc.hold]; intro hh; first | exact Or.inr hh | (cases hh; exact Or.inl rfl) | cases hh; done)
    | skip
  case idle => intro hh; rw [hpc] at hh; cases hh
  case stale a h t n => rw [setPc_pc, if_pos rfl]; split <;> exact Or.inr
  case check a h t n ts => split <;> simp only [setPc_pc, if_true, Pc.hold] <;> intro hh <;> first | exact Or.inr hh | cases hh
  case advance a h t n =>
    cases n with
    | none => simp only [setPc_pc, if_true, Pc.hold]; intro hh; cases hh
    | some m =>
      simp only
      split
      · simp only [setPc_pc, if_true, Pc.hold]; intro hh; cases hh
      · split <;> simp only [setPc_pc, if_true, Pc.hold] <;> intro hh <;> cases hh
  case deadAgain a h d n => simp only [setPc_pc, if_true]; split <;> (simp only [Pc.hold]; intro hh; cases hh)
  case deadLink a h d n =>
    cases n with
    | none => simp only; split <;> simp only [setPc_pc, if_true, Pc.hold] <;> intro hh <;> cases hh
    | some m => simp only; simp only [setPc_pc, if_true, Pc.hold]; intro hh; cases hh
  case minLoad v => split <;> simp only [setPc_pc, if_true, Pc.hold] <;> intro hh <;> cases hh

/-- A timestamp in the hands of the acting thread is the next one of the batch. -/
theorem act_check (s : State) (i : Nat) (now : Int) (w : Bool) {a : Int} {h t : Nat} {n : Option Nat} {ts : Int}
    (hh : ((s.act i now w).1.thread i).pc = .check a h t n ts) (hts : ts ≠ 0) : ts = (s.batch h).cur := by
  revert hh
  unfold State.act
  simp only
  cases hpc : (s.thread i).pc <;> simp only
  all_goals first
    | (simp only [setPc_pc, if_true]; intro hh; cases hh; done)
    | skip
  case idle => rw [hpc]; intro hh; cases hh
  case stale a h t n => simp only [setPc_pc, if_true]; split <;> (intro hh; cases hh)
  case fetch a h t n =>
    simp only [setPc_pc, if_true]
    intro hh
    cases hh
    split at hts
    · rename_i hlt; rw [if_pos hlt]
    · exact absurd rfl hts
  case check a h t n ts => split <;> simp only [setPc_pc, if_true] <;> intro hh <;> cases hh
  case advance a h t n =>
    cases n with
    | none => simp only [setPc_pc, if_true]; intro hh; cases hh
    | some m =>
      simp only
      split
      · simp only [setPc_pc, if_true]; intro hh; cases hh
      · split <;> simp only [setPc_pc, if_true] <;> intro hh <;> cases hh
  case deadAgain a h d n => simp only [setPc_pc, if_true]; split <;> (intro hh; cases hh)
  case deadLink a h d n =>
    cases n with
    | none => simp only; split <;> simp only [setPc_pc, if_true] <;> intro hh <;> cases hh
    | some m => simp only; simp only [setPc_pc, if_true]; intro hh; cases hh
  case minLoad v => split <;> simp only [setPc_pc, if_true] <;> intro hh <;> cases hh

/-- What a thread returns. -/
theorem act_ret (s : State) (i : Nat) (now : Int) (w : Bool) {r : Ret} (hr : (s.act i now w).2 = some r) :
    r.called = (s.thread i).called ∧ r.returned = s.time ∧
      (r.ts = 0 ∨ ∃ t n, (s.thread i).pc = .check r.after r.batch t n r.ts ∧ r.after < r.ts ∧ 0 < r.ts ∧ s.minValid < r.ts) := by
  revert hr
  unfold State.act
  simp only
  cases hpc : (s.thread i).pc <;> simp only
  all_goals first
    | (intro hh; cases hh; done)
    | skip
  case check a h t n ts =>
    split
    · rename_i hc
      intro hh
      cases hh
      exact ⟨rfl, rfl, Or.inr ⟨t, n, rfl, hc.1, hc.2.1, hc.2.2⟩⟩
    · intro hh; cases hh
  case advance a h t n =>
    cases n with
    | none => intro hh; cases hh; exact ⟨rfl, rfl, Or.inl rfl⟩
    | some m =>
      simp only
      split
      · intro hh; cases hh
      · split <;> intro hh <;> cases hh
  case deadLink a h d n =>
    cases n with
    | none => simp only; split <;> intro hh <;> cases hh
    | some m => simp only; intro hh; cases hh
  case minLoad v => split <;> intro hh <;> cases hh

theorem act_head (s : State) (h : Inv s) (i : Nat) (now : Int) (w : Bool) : s.head ≤ (s.act i now w).1.head := by
  have hp := h.pc i
  revert hp
  unfold State.act
  simp only
  cases hpc : (s.thread i).pc <;> simp only <;> intro hp
  all_goals first
    | exact Nat.le_refl _
    | skip
  case check => split <;> exact Nat.le_refl _
  case advance a h0 t n =>
    cases n with
    | none => exact Nat.le_refl _
    | some m =>
      simp only
      split
      · split <;> exact Nat.le_refl _
      · split
        · rename_i hc
          have := (hp.2.2.2.2 m rfl hc.1.symm).1
          have := hc.1
          show s.head ≤ m
          omega
        · exact Nat.le_refl _
  case deadLink a h d n =>
    cases n with
    | none => simp only; split <;> exact Nat.le_refl _
    | some m => simp only; split <;> exact Nat.le_refl _
  case minLoad v => split <;> exact Nat.le_refl _

/-- A finished call. -/
structure RetOk (s : State) (r : Ret) : Prop where
  called : r.called ≤ r.returned
  past : r.returned < s.time
  ok : r.ts ≠ 0 → r.batch ≤ s.head ∧ (s.batch r.batch).first ≤ r.ts ∧ r.ts < (s.batch r.batch).cur ∧
    r.ts < (s.batch r.batch).last ∧ r.after < r.ts ∧ 0 < r.ts

structure RInv (s : State) (R : List Ret) : Prop where
  inv : Inv s
  ret : ∀ r ∈ R, RetOk s r
  thr : ∀ i h, ((s.thread i).pc).hold = some h → ∀ r ∈ R, r.ts ≠ 0 → r.returned < (s.thread i).called → r.batch ≤ h
  chk : ∀ i a h t n ts, (s.thread i).pc = .check a h t n ts → ts ≠ 0 → ∀ r ∈ R, r.ts ≠ 0 → r.batch = h →
    r.ts ≠ ts ∧ (r.returned < (s.thread i).called → r.ts < ts)
  uniq : R.Pairwise fun a b => a.ts ≠ 0 → b.ts ≠ 0 → a.batch = b.batch → a.ts ≠ b.ts
  order : ∀ a ∈ R, ∀ b ∈ R, a.ts ≠ 0 → b.ts ≠ 0 → a.returned < b.called →
    a.batch < b.batch ∨ (a.batch = b.batch ∧ a.ts < b.ts)

theorem RInv.init : RInv {} [] :=
  ⟨.init, by simp, by simp, by simp, List.Pairwise.nil, by simp⟩

/-- A step in which nothing is returned and no thread begins to hold a batch. -/
theorem RInv.quiet {s s' : State} {R : List Ret} (H : RInv s R) (hi : Inv s') (ht : s.time ≤ s'.time) (hh : s.head ≤ s'.head)
    (hb : ∀ n, n < s.size → (s'.batch n).first = (s.batch n).first ∧ (s'.batch n).last = (s.batch n).last ∧
      (s.batch n).cur ≤ (s'.batch n).cur)
    (hth : ∀ i, s'.thread i = s.thread i ∨ ((s'.thread i).pc).hold = none) : RInv s' R := by
  have hhs : s.head < s.size := by have := H.inv.lst_lt; have := H.inv.headTail; have := H.inv.tailLst; omega
  refine ⟨hi, ?_, ?_, ?_, H.uniq, H.order⟩
  · intro r hr
    have h1 := H.ret r hr
    refine ⟨h1.called, Nat.lt_of_lt_of_le h1.past ht, fun hts => ?_⟩
    obtain ⟨a1, a2, a3, a4, a5, a6⟩ := h1.ok hts
    obtain ⟨b1, b2, b3⟩ := hb r.batch (by omega)
    rw [b1, b2]
    exact ⟨by omega, a2, by omega, a4, a5, a6⟩
  · intro i h hpc r hr hts hc
    rcases hth i with he | he
    · rw [he] at hpc hc; exact H.thr i h hpc r hr hts hc
    · rw [he] at hpc; cases hpc
  · intro i a h t n ts hpc hts r hr hrt hrb
    rcases hth i with he | he
    · rw [he] at hpc ⊢; exact H.chk i a h t n ts hpc hts r hr hrt hrb
    · rw [hpc] at he; cases he

theorem work_keep (s : State) (w : Bool) : (s.work w).size = s.size ∧ (s.work w).head = s.head ∧ (s.work w).thread = s.thread ∧
    ∀ n, ((s.work w).batch n).first = (s.batch n).first ∧ ((s.work w).batch n).last = (s.batch n).last ∧
      (s.batch n).cur ≤ ((s.work w).batch n).cur := by
  have triv : ∀ n, (s.batch n).first = (s.batch n).first ∧ (s.batch n).last = (s.batch n).last ∧ (s.batch n).cur ≤ (s.batch n).cur :=
    fun n => ⟨rfl, rfl, Int.le_refl _⟩
  unfold State.work
  cases s.worker <;> simp only
  all_goals first
    | exact ⟨rfl, rfl, rfl, triv⟩
    | skip
  case idle | loadTail | loadNext | again | physical => exact ⟨trivial, trivial, trivial, fun n => ⟨trivial, trivial, Int.le_refl _⟩⟩
  case link b t n =>
    cases n with
    | some m => exact ⟨rfl, rfl, rfl, triv⟩
    | none =>
      simp only
      split
      · refine ⟨rfl, rfl, rfl, fun n => ?_⟩
        simp only [State.setBatch]
        split
        · rename_i hn; subst hn; exact ⟨rfl, rfl, Int.le_refl _⟩
        · exact triv n
      · exact ⟨rfl, rfl, rfl, triv⟩

theorem RInv.step {s : State} {R : List Ret} (H : RInv s R) (e : Event) :
    RInv (TsCache.step s e).1 (R ++ (TsCache.step s e).2.toList) := by
  have hi := H.inv.step e
  have hhs : s.head < s.size := by have := H.inv.lst_lt; have := H.inv.headTail; have := H.inv.tailLst; omega
  have triv : ∀ n, (s.batch n).first = (s.batch n).first ∧ (s.batch n).last = (s.batch n).last ∧ (s.batch n).cur ≤ (s.batch n).cur :=
    fun n => ⟨rfl, rfl, Int.le_refl _⟩
  cases e with
  | call i after =>
    have : (TsCache.step s (.call i after)).2 = none := by simp only [TsCache.step]; split <;> rfl
    rw [this, Option.toList_none, List.append_nil]
    refine H.quiet hi ?_ ?_ ?_ ?_ <;> simp only [TsCache.step]
    · split <;> exact Nat.le_succ _
    · split <;> exact Nat.le_refl _
    · split <;> exact fun n _ => triv n
    · intro j
      split
      · by_cases hj : j = i
        · right; simp [hj, Pc.hold]
        · left; simp [hj]
      · exact Or.inl rfl
  | setMin i v =>
    have : (TsCache.step s (.setMin i v)).2 = none := rfl
    rw [this, Option.toList_none, List.append_nil]
    refine H.quiet hi ?_ ?_ ?_ ?_ <;> simp only [TsCache.step]
    · split <;> exact Nat.le_succ _
    · split <;> exact Nat.le_refl _
    · split <;> exact fun n _ => triv n
    · intro j
      split
      · by_cases hj : j = i
        · right; simp [State.setPc, hj, Pc.hold]
        · left; simp [State.setPc, hj]
      · exact Or.inl rfl
  | push p l c now =>
    have : (TsCache.step s (.push p l c now)).2 = none := by simp only [TsCache.step]; split <;> rfl
    rw [this, Option.toList_none, List.append_nil]
    refine H.quiet hi ?_ ?_ ?_ ?_ <;> simp only [TsCache.step]
    · split <;> exact Nat.le_succ _
    · split <;> exact Nat.le_refl _
    · split
      · intro n hn
        have : n ≠ s.size := by omega
        simp only [State.setBatch, if_neg this]
        exact ⟨trivial, trivial, Int.le_refl _⟩
      · exact fun n _ => triv n
    · intro j
      split <;> exact Or.inl rfl
  | work w =>
    have : (TsCache.step s (.work w)).2 = none := rfl
    rw [this, Option.toList_none, List.append_nil]
    obtain ⟨k1, k2, k3, k4⟩ := work_keep s w
    refine H.quiet hi (Nat.le_succ _) (Nat.le_of_eq k2.symm) (fun n _ => k4 n) (fun j => Or.inl ?_)
    show (s.work w).thread j = _
    rw [k3]
  | act i now w =>
    obtain ⟨hsz, hb⟩ := act_batch s i now w
    have hother := act_other s i now w
    have hcalled := act_called s i now w
    have hhead := act_head s H.inv i now w
    have hhold := act_hold s i now w
    have hcheck := @act_check s i now w
    have hret := @act_ret s i now w
    have hpci := H.inv.pc i
    have hcl := H.inv.called
    revert hi
    simp only [TsCache.step]
    generalize hA : s.act i now w = A at *
    obtain ⟨s', ro⟩ := A
    simp only at hsz hb hother hcalled hhead hhold hcheck hret ⊢
    intro hi
    -- old returns in the new state
    have hold : ∀ r ∈ R, RetOk { s' with time := s.time + 1 } r := by
      intro r hr
      have h1 := H.ret r hr
      refine ⟨h1.called, Nat.lt_succ_of_lt h1.past, fun hts => ?_⟩
      obtain ⟨a1, a2, a3, a4, a5, a6⟩ := h1.ok hts
      obtain ⟨b1, b2, b3⟩ := hb r.batch
      refine ⟨Nat.le_trans a1 hhead, ?_, ?_, ?_, a5, a6⟩
      · show (s'.batch r.batch).first ≤ _; rw [b1]; exact a2
      · show _ < (s'.batch r.batch).cur; omega
      · show _ < (s'.batch r.batch).last; rw [b2]; exact a4
    have hthr : ∀ j h, ((s'.thread j).pc).hold = some h → ∀ r ∈ R, r.ts ≠ 0 → r.returned < (s'.thread j).called → r.batch ≤ h := by
      intro j h hp r hr hts hc
      rw [hcalled] at hc
      by_cases hj : j = i
      · subst hj
        rcases hhold h hp with e | e
        · rw [e]; exact ((H.ret r hr).ok hts).1
        · exact H.thr j h e r hr hts hc
      · rw [hother j hj] at hp; exact H.thr j h hp r hr hts hc
    have hchk : ∀ j a h t n ts, (s'.thread j).pc = .check a h t n ts → ts ≠ 0 → ∀ r ∈ R, r.ts ≠ 0 → r.batch = h →
        r.ts ≠ ts ∧ (r.returned < (s'.thread j).called → r.ts < ts) := by
      intro j a h t n ts hp hts r hr hrt hrb
      rw [hcalled]
      by_cases hj : j = i
      · subst hj
        have e := hcheck hp hts
        have := ((H.ret r hr).ok hrt).2.2.1
        rw [hrb] at this
        exact ⟨by omega, fun _ => by omega⟩
      · rw [hother j hj] at hp; exact H.chk j a h t n ts hp hts r hr hrt hrb
    cases ro with
    | none =>
      rw [Option.toList_none, List.append_nil]
      exact ⟨hi, hold, hthr, hchk, H.uniq, H.order⟩
    | some r0 =>
      obtain ⟨c1, c2, c3⟩ := hret rfl
      rw [Option.toList_some]
      have hci := hcl i
      -- facts about the new return
      have hnew : r0.ts ≠ 0 → ∃ t n, (s.thread i).pc = .check r0.after r0.batch t n r0.ts ∧ r0.after < r0.ts ∧ 0 < r0.ts := by
        intro hts
        rcases c3 with c3 | ⟨t, n, d1, d2, d3, _⟩
        · exact absurd c3 hts
        · exact ⟨t, n, d1, d2, d3⟩
      refine ⟨hi, ?_, ?_, ?_, ?_, ?_⟩
      · intro r hr
        rcases List.mem_append.1 hr with hr | hr
        · exact hold r hr
        · rw [List.mem_singleton] at hr
          subst hr
          refine ⟨by omega, by show r.returned < s.time + 1; omega, fun hts => ?_⟩
          obtain ⟨t, n, d1, d2, d3⟩ := hnew hts
          rw [d1] at hpci
          obtain ⟨q1, q2, q3, q4, q5, q6⟩ := hpci
          obtain ⟨b1, b2, b3⟩ := hb r.batch
          rcases q6 with q6 | ⟨q6, q7, q8⟩
          · exact absurd q6 hts
          · refine ⟨Nat.le_trans q2 hhead, ?_, ?_, ?_, d2, d3⟩
            · show (s'.batch r.batch).first ≤ _; rw [b1]; exact q6
            · show _ < (s'.batch r.batch).cur; omega
            · show _ < (s'.batch r.batch).last; rw [b2]; exact q8
      · intro j h hp r hr hts hc
        rcases List.mem_append.1 hr with hr | hr
        · exact hthr j h hp r hr hts hc
        · rw [List.mem_singleton] at hr
          subst hr
          exfalso
          replace hc : r.returned < (s'.thread j).called := hc
          rw [hcalled] at hc
          have := hcl j
          omega
      · intro j a h t n ts hp hts r hr hrt hrb
        rcases List.mem_append.1 hr with hr | hr
        · exact hchk j a h t n ts hp hts r hr hrt hrb
        · rw [List.mem_singleton] at hr
          subst hr
          obtain ⟨t', n', d1, d2, d3⟩ := hnew hrt
          have hc' : ¬ r.returned < (s.thread j).called := by have := hcl j; omega
          refine ⟨?_, fun hc => absurd (by rw [← hcalled]; exact hc) hc'⟩
          replace hp : (s'.thread j).pc = .check a h t n ts := hp
          by_cases hj : j = i
          · subst hj
            have e := hcheck hp hts
            rw [d1] at hpci
            obtain ⟨q1, q2, q3, q4, q5, q6⟩ := hpci
            rcases q6 with q6 | ⟨q6, q7, q8⟩
            · exact absurd q6 hrt
            · rw [hrb] at q7; omega
          · rw [hother j hj] at hp
            rw [hrb] at d1
            exact H.inv.held i j _ _ _ _ _ _ _ _ _ d1 hp hrt (Ne.symm hj)
      · rw [List.pairwise_append]
        refine ⟨H.uniq, List.pairwise_singleton _ _, ?_⟩
        intro r hr r' hr' h1 h2 h3
        rw [List.mem_singleton] at hr'
        subst hr'
        obtain ⟨t, n, d1, d2, d3⟩ := hnew h2
        exact (H.chk i _ _ _ _ _ d1 h2 r hr h1 h3).1
      · intro a ha b hb' h1 h2 hlt
        rcases List.mem_append.1 ha with hx | hx <;> rcases List.mem_append.1 hb' with hy | hy
        · exact H.order a hx b hy h1 h2 hlt
        · rw [List.mem_singleton] at hy
          subst hy
          obtain ⟨t, n, d1, d2, d3⟩ := hnew h2
          rw [c1] at hlt
          have g1 := H.thr i b.batch (by rw [d1]; rfl) a hx h1 hlt
          by_cases hab : a.batch = b.batch
          · exact Or.inr ⟨hab, (H.chk i _ _ _ _ _ d1 h2 a hx h1 hab).2 hlt⟩
          · left; omega
        · rw [List.mem_singleton] at hx
          subst hx
          have := (H.ret b hy).called
          have := (H.ret b hy).past
          omega
        · rw [List.mem_singleton] at hx hy
          subst hx; subst hy
          omega

theorem RInv.run {s : State} {R : List Ret} (H : RInv s R) (es : List Event) :
    RInv (TsCache.run s es) (R ++ returns s es) := by
  induction es generalizing s R with
  | nil => rw [returns, List.append_nil]; exact H
  | cons e es ih =>
    have := ih (H.step e)
    rw [List.append_assoc] at this
    exact this

/-! ## The batches are the ranges received -/

/-- The ranges of the batches, in order. -/
def batches (s : State) : List (Int × Int) :=
  (List.range (s.size - 2)).map fun k => ((s.batch (k + 2)).first, (s.batch (k + 2)).last)

theorem batches_congr {s s' : State} (h1 : s'.size = s.size)
    (h2 : ∀ n, n < s.size → (s'.batch n).first = (s.batch n).first ∧ (s'.batch n).last = (s.batch n).last) : batches s' = batches s := by
  unfold batches
  rw [h1]
  apply List.map_congr_left
  intro k hk
  rw [List.mem_range] at hk
  have := h2 (k + 2) (by omega)
  rw [this.1, this.2]

/-- The range of timestamps that the oracle gave with a `push`. -/
def Event.range : Event → Option (Int × Int)
  | .push p l c _ => some (composeTs p l, composeTs p (l + c))
  | _ => none

theorem batches_step (s : State) (hs : 2 ≤ s.size) (e : Event) :
    ∃ L, batches (step s e).1 = batches s ++ L ∧ L.Sublist e.range.toList := by
  have keep : ∀ s', s'.size = s.size → (∀ n, (s'.batch n).first = (s.batch n).first ∧ (s'.batch n).last = (s.batch n).last) →
      ∃ L, batches s' = batches s ++ L ∧ L.Sublist e.range.toList :=
    fun s' h1 h2 => ⟨[], by rw [List.append_nil]; exact batches_congr h1 fun n _ => h2 n, List.nil_sublist _⟩
  cases e with
  | call i after => refine keep _ ?_ ?_ <;> simp only [step] <;> split <;> first | rfl | exact fun n => ⟨rfl, rfl⟩
  | setMin i v => refine keep _ ?_ ?_ <;> simp only [step] <;> split <;> first | rfl | exact fun n => ⟨rfl, rfl⟩
  | act i now w =>
    obtain ⟨h1, h2⟩ := act_batch s i now w
    exact keep _ h1 fun n => ⟨(h2 n).1, (h2 n).2.1⟩
  | work w =>
    obtain ⟨h1, _, _, h2⟩ := work_keep s w
    exact keep _ h1 fun n => ⟨(h2 n).1, (h2 n).2.1⟩
  | push p l c now =>
    simp only [step]
    split
    · refine ⟨[(composeTs p l, composeTs p (l + c))], ?_, List.Sublist.refl _⟩
      unfold batches
      have e1 : s.size + 1 - 2 = (s.size - 2) + 1 := by omega
      simp only [State.setBatch]
      rw [e1, List.range_succ, List.map_append, List.map_singleton]
      congr 1
      · apply List.map_congr_left
        intro k hk
        rw [List.mem_range] at hk
        rw [if_neg (by omega)]
      · rw [if_pos (by omega)]
        rfl
    · exact keep _ rfl fun n => ⟨rfl, rfl⟩

theorem batches_run (s : State) (hs : Inv s) (es : List Event) :
    ∃ L, batches (run s es) = batches s ++ L ∧ L.Sublist (es.filterMap Event.range) := by
  induction es generalizing s with
  | nil => exact ⟨[], (List.append_nil _).symm, List.nil_sublist _⟩
  | cons e es ih =>
    obtain ⟨L, h1, h2⟩ := batches_step s hs.size e
    obtain ⟨M, h3, h4⟩ := ih (step s e).1 (hs.step e)
    refine ⟨L ++ M, ?_, ?_⟩
    · show batches (run (step s e).1 es) = _
      rw [h3, h1, List.append_assoc]
    · have : (e :: es).filterMap Event.range = e.range.toList ++ es.filterMap Event.range := by
        rw [List.filterMap_cons]; cases e.range <;> rfl
      rw [this]
      exact h2.append h4

/-- The two sentinels are empty. -/
theorem sentinel_step (s : State) (hs : 2 ≤ s.size) (e : Event) (n : Nat) (hn : n < 2) :
    ((step s e).1.batch n).last = (s.batch n).last := by
  cases e with
  | call i after => simp only [step]; split <;> rfl
  | setMin i v => simp only [step]; split <;> rfl
  | act i now w => exact ((act_batch s i now w).2 n).2.1
  | work w => exact ((work_keep s w).2.2.2 n).2.1
  | push p l c now =>
    simp only [step]
    split
    · simp only [State.setBatch]; rw [if_neg (by omega)]
    · rfl

theorem sentinel_run (s : State) (hs : Inv s) (es : List Event) (n : Nat) (hn : n < 2) :
    ((run s es).batch n).last = (s.batch n).last := by
  induction es generalizing s with
  | nil => rfl
  | cons e es ih => exact (ih _ (hs.step e)).trans (sentinel_step s hs.size e n hn)

/-! ## `SetMinValidTs` -/

/-- Only thread `k` calls `SetMinValidTs`. -/
structure MInv (k : Nat) (s : State) (R : List Ret) : Prop where
  only : ∀ i v, ((s.thread i).pc = .minLoad v ∨ (s.thread i).pc = .minStore v) → i = k
  store : ∀ v, (s.thread k).pc = .minStore v → s.minValid < v
  mins : ∀ m ∈ s.mins, m.1 ≤ s.minValid
  past : ∀ i, (s.thread i).called ≤ s.time
  rpast : ∀ r ∈ R, r.called ≤ s.time
  ret : ∀ r ∈ R, r.ts ≠ 0 → ∀ m ∈ s.mins, m.2 < r.called → m.1 < r.ts

theorem MInv.init (k : Nat) : MInv k {} [] :=
  ⟨by simp, by simp, by simp, by simp, by simp, by simp⟩

theorem act_min (s : State) (i : Nat) (now : Int) (w : Bool) :
    ((s.act i now w).1.minValid = s.minValid ∧ (s.act i now w).1.mins = s.mins ∧
      (∀ v, ((s.act i now w).1.thread i).pc ≠ .minLoad v) ∧
      ∀ v, ((s.act i now w).1.thread i).pc = .minStore v → (s.thread i).pc = .minLoad v ∧ s.minValid < v) ∨
    ((s.act i now w).2 = none ∧ ∃ v, ((s.thread i).pc = .minLoad v ∧ v ≤ s.minValid ∧ (s.act i now w).1.minValid = s.minValid ∨
        (s.thread i).pc = .minStore v ∧ (s.act i now w).1.minValid = v) ∧ (s.act i now w).1.mins = s.mins ++ [(v, s.time)] ∧
      ((s.act i now w).1.thread i).pc = .idle) := by
  unfold State.act
  simp only
  cases hpc : (s.thread i).pc <;> simp only
  all_goals first
    | (left; refine ⟨rfl, rfl, ?_, ?_⟩ <;> simp [setPc_pc]; done)
    | skip
  case idle => left; refine ⟨trivial, trivial, ?_, ?_⟩ <;> simp [hpc]
  case stale a h t n => left; refine ⟨rfl, rfl, ?_, ?_⟩ <;> rw [setPc_pc, if_pos rfl] <;> split <;> simp
  case check a h t n ts => left; split <;> refine ⟨rfl, rfl, ?_, ?_⟩ <;> simp [setPc_pc]
  case advance a h t n =>
    left
    cases n with
    | none => refine ⟨rfl, rfl, ?_, ?_⟩ <;> simp [setPc_pc]
    | some m =>
      simp only
      split
      · split <;> refine ⟨rfl, rfl, ?_, ?_⟩ <;> simp [setPc_pc]
      · split <;> refine ⟨rfl, rfl, ?_, ?_⟩ <;> simp [setPc_pc]
  case deadAgain a h d n => left; refine ⟨rfl, rfl, ?_, ?_⟩ <;> rw [setPc_pc, if_pos rfl] <;> split <;> simp
  case deadLink a h d n =>
    left
    cases n with
    | none => simp only; split <;> refine ⟨rfl, rfl, ?_, ?_⟩ <;> simp [setPc_pc]
    | some m => simp only; split <;> refine ⟨rfl, rfl, ?_, ?_⟩ <;> simp [setPc_pc]
  case minLoad v =>
    split
    · rename_i hv
      left
      refine ⟨rfl, rfl, ?_, ?_⟩
      · simp [setPc_pc]
      · intro v' h'
        rw [setPc_pc, if_pos rfl] at h'
        cases h'
        exact ⟨rfl, hv⟩
    · rename_i hv
      right
      refine ⟨rfl, v, Or.inl ⟨rfl, by omega, rfl⟩, rfl, ?_⟩
      simp [setPc_pc]
  case minStore v =>
    right
    refine ⟨trivial, v, Or.inr ⟨rfl, rfl⟩, rfl, ?_⟩
    simp [setPc_pc]

theorem work_min (s : State) (w : Bool) : (s.work w).minValid = s.minValid ∧ (s.work w).mins = s.mins := by
  unfold State.work
  cases s.worker <;> simp only
  all_goals first
    | exact ⟨rfl, rfl⟩
    | exact ⟨trivial, trivial⟩
    | skip
  case link b t n => cases n <;> simp only <;> first | exact ⟨trivial, trivial⟩ | (split <;> exact ⟨rfl, rfl⟩)

theorem MInv.quiet {k : Nat} {s s' : State} {R : List Ret} (H : MInv k s R) (h1 : s'.minValid = s.minValid) (h2 : s'.mins = s.mins)
    (h3 : s.time ≤ s'.time)
    (h4 : ∀ i, (s'.thread i).pc = (s.thread i).pc ∨ ((∀ v, (s'.thread i).pc ≠ .minStore v) ∧ ∀ v, (s'.thread i).pc = .minLoad v → i = k))
    (h5 : ∀ i, (s'.thread i).called ≤ s'.time) : MInv k s' R := by
  refine ⟨?_, ?_, ?_, h5, fun r hr => Nat.le_trans (H.rpast r hr) h3, by rw [h2]; exact H.ret⟩
  · intro i v hv
    rcases h4 i with h | ⟨ha, hb⟩
    · rw [h] at hv; exact H.only i v hv
    · rcases hv with hv | hv
      · exact hb v hv
      · exact absurd hv (ha v)
  · intro v hv
    rcases h4 k with h | ⟨ha, hb⟩
    · rw [h] at hv; rw [h1]; exact H.store v hv
    · exact absurd hv (ha v)
  · rw [h1, h2]; exact H.mins

theorem MInv.step {k : Nat} {s : State} {R : List Ret} (H : MInv k s R) (e : Event) (he : ∀ i v, e = .setMin i v → i = k) :
    MInv k (TsCache.step s e).1 (R ++ (TsCache.step s e).2.toList) := by
  cases e with
  | call i after =>
    have : (TsCache.step s (.call i after)).2 = none := by simp only [TsCache.step]; split <;> rfl
    rw [this, Option.toList_none, List.append_nil]
    refine H.quiet ?_ ?_ ?_ ?_ ?_ <;> simp only [TsCache.step] <;> split <;> try first | rfl | exact Nat.le_succ _
    · intro j
      by_cases hj : j = i
      · right; simp [hj]
      · left; simp [hj]
    · exact fun j => Or.inl rfl
    · intro j
      by_cases hj : j = i
      · simp [hj]
      · simp only [if_neg hj]; exact Nat.le_succ_of_le (H.past j)
    · exact fun j => Nat.le_succ_of_le (H.past j)
  | setMin i v =>
    have : (TsCache.step s (.setMin i v)).2 = none := rfl
    rw [this, Option.toList_none, List.append_nil]
    refine H.quiet ?_ ?_ ?_ ?_ ?_ <;> simp only [TsCache.step] <;> split <;> try first | rfl | exact Nat.le_succ _
    · intro j
      by_cases hj : j = i
      · right
        rw [hj, setPc_pc, if_pos rfl]
        exact ⟨by simp, fun _ _ => he i v rfl⟩
      · left; rw [setPc_pc, if_neg hj]
    · exact fun j => Or.inl rfl
    · intro j; rw [setPc_called]; exact Nat.le_succ_of_le (H.past j)
    · exact fun j => Nat.le_succ_of_le (H.past j)
  | push p l c now =>
    have : (TsCache.step s (.push p l c now)).2 = none := by simp only [TsCache.step]; split <;> rfl
    rw [this, Option.toList_none, List.append_nil]
    refine H.quiet ?_ ?_ ?_ ?_ ?_ <;> simp only [TsCache.step] <;> split <;>
      first | rfl | exact Nat.le_succ _ | exact fun j => Or.inl rfl | exact fun j => Nat.le_succ_of_le (H.past j)
  | work w =>
    have : (TsCache.step s (.work w)).2 = none := rfl
    rw [this, Option.toList_none, List.append_nil]
    obtain ⟨a1, a2⟩ := work_min s w
    obtain ⟨_, _, b1, _⟩ := work_keep s w
    refine H.quiet a1 a2 (Nat.le_succ _) (fun j => Or.inl ?_) (fun j => ?_)
    · show ((s.work w).thread j).pc = _; rw [b1]
    · show ((s.work w).thread j).called ≤ _; rw [b1]; exact Nat.le_succ_of_le (H.past j)
  | act i now w =>
    have hother := act_other s i now w
    have hcalled := act_called s i now w
    have hret := @act_ret s i now w
    have hmin := act_min s i now w
    simp only [TsCache.step]
    generalize hA : s.act i now w = A at *
    obtain ⟨s', ro⟩ := A
    simp only at hother hcalled hret hmin ⊢
    have hpast : ∀ j, (s'.thread j).called ≤ s.time + 1 := by
      intro j; rw [hcalled]; exact Nat.le_succ_of_le (H.past j)
    rcases hmin with ⟨m1, m2, m3, m4⟩ | ⟨m1, v, m2, m3, m4⟩
    · have honly : ∀ j v, ((s'.thread j).pc = .minLoad v ∨ (s'.thread j).pc = .minStore v) → j = k := by
        intro j v hv
        by_cases hj : j = i
        · subst hj
          rcases hv with hv | hv
          · exact absurd hv (m3 v)
          · exact H.only j v (Or.inl (m4 v hv).1)
        · rw [hother j hj] at hv; exact H.only j v hv
      refine ⟨honly, ?_, ?_, hpast, ?_, ?_⟩
      · intro v hv
        replace hv : (s'.thread k).pc = .minStore v := hv
        show s'.minValid < v
        rw [m1]
        by_cases hj : k = i
        · subst hj; exact (m4 v hv).2
        · rw [hother k hj] at hv; exact H.store v hv
      · show ∀ m ∈ s'.mins, m.1 ≤ s'.minValid
        rw [m1, m2]; exact H.mins
      · intro r hr
        rcases List.mem_append.1 hr with hr | hr
        · exact Nat.le_succ_of_le (H.rpast r hr)
        · rw [Option.mem_toList] at hr
          obtain ⟨c1, _, _⟩ := hret hr
          show r.called ≤ s.time + 1
          rw [c1]
          exact Nat.le_succ_of_le (H.past i)
      · show ∀ r ∈ R ++ ro.toList, r.ts ≠ 0 → ∀ m ∈ s'.mins, m.2 < r.called → m.1 < r.ts
        rw [m2]
        intro r hr hts m hm hlt
        rcases List.mem_append.1 hr with hr | hr
        · exact H.ret r hr hts m hm hlt
        · rw [Option.mem_toList] at hr
          obtain ⟨_, _, c3⟩ := hret hr
          rcases c3 with c3 | ⟨_, _, _, _, _, c4⟩
          · exact absurd c3 hts
          · have := H.mins m hm; omega
    · subst m1
      rw [Option.toList_none, List.append_nil]
      have hk : i = k := by
        rcases m2 with ⟨e, _, _⟩ | ⟨e, _⟩
        · exact H.only i v (Or.inl e)
        · exact H.only i v (Or.inr e)
      have hge : s.minValid ≤ s'.minValid ∧ v ≤ s'.minValid := by
        rcases m2 with ⟨e, h1, h2⟩ | ⟨e, h1⟩
        · exact ⟨by omega, by omega⟩
        · rw [hk] at e
          have := H.store v e
          exact ⟨by omega, by omega⟩
      refine ⟨?_, ?_, ?_, hpast, fun r hr => Nat.le_succ_of_le (H.rpast r hr), ?_⟩
      · intro j v' hv
        replace hv : (s'.thread j).pc = .minLoad v' ∨ (s'.thread j).pc = .minStore v' := hv
        by_cases hj : j = i
        · rw [hj]; exact hk
        · rw [hother j hj] at hv; exact H.only j v' hv
      · intro v' hv
        replace hv : (s'.thread k).pc = .minStore v' := hv
        rw [← hk, m4] at hv
        cases hv
      · show ∀ m ∈ s'.mins, m.1 ≤ s'.minValid
        rw [m3]
        intro m hm
        rcases List.mem_append.1 hm with hm | hm
        · have := H.mins m hm; omega
        · rw [List.mem_singleton] at hm; subst hm; exact hge.2
      · show ∀ r ∈ R, r.ts ≠ 0 → ∀ m ∈ s'.mins, m.2 < r.called → m.1 < r.ts
        rw [m3]
        intro r hr hts m hm hlt
        rcases List.mem_append.1 hm with hm | hm
        · exact H.ret r hr hts m hm hlt
        · rw [List.mem_singleton] at hm
          subst hm
          have := H.rpast r hr
          simp only at hlt
          omega

theorem MInv.run {k : Nat} {s : State} {R : List Ret} (H : MInv k s R) (es : List Event) (he : ∀ i v, Event.setMin i v ∈ es → i = k) :
    MInv k (TsCache.run s es) (R ++ returns s es) := by
  induction es generalizing s R with
  | nil => rw [returns, List.append_nil]; exact H
  | cons e es ih =>
    have := ih (H.step e fun i v h => he i v (h ▸ List.mem_cons_self)) fun i v h => he i v (List.mem_cons_of_mem _ h)
    rw [List.append_assoc] at this
    exact this

end Verif.TsCache
