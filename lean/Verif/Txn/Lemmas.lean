import Verif.Txn.Spec

/-!
# Transaction engine: what the readers return, per key

Helper lemmas: the loops over the write column family expressed through point
lookups, and the effect of a write batch on one key.
-/

namespace Verif.Txn
open Verif.Codec

/-! ## Loops over versions of one key -/

/-- The filter `GetWriteInfo` applies to a record. -/
def wiMatch (startTs : Int) (rb del put : Bool) (w : WriteInfo) : Bool :=
  (decide (¬ (startTs > 0 ∧ w.startTs ≠ startTs))) &&
    (match w.op with
      | .rollback => rb
      | .delete => del
      | .put => put
      | _ => false)

theorem writeInfoLoop_cons (mn s : Int) (k : Bytes) (rb del put : Bool) (vk : VKey) (w : WriteInfo)
    (l : List (VKey × WriteInfo)) :
    writeInfoLoop mn s k rb del put ((vk, w) :: l) =
      if vk < ⟨k, mn⟩ ∧ mn ≤ vk.ts then
        if wiMatch s rb del put w then some (w, vk.ts) else writeInfoLoop mn s k rb del put l
      else none := by
  rw [writeInfoLoop]
  by_cases h1 : vk < ⟨k, mn⟩
  · rw [if_neg (by simpa using h1)]
    by_cases h2 : vk.ts < mn
    · rw [if_pos h2, if_neg (by omega)]
    · have h12 : vk < ⟨k, mn⟩ ∧ mn ≤ vk.ts := ⟨h1, by omega⟩
      rw [if_neg h2, if_pos (c := vk < ⟨k, mn⟩ ∧ mn ≤ vk.ts) h12]
      by_cases h3 : s > 0 ∧ w.startTs ≠ s
      · rw [if_pos h3]
        have : wiMatch s rb del put w = false := by
          rw [wiMatch, decide_eq_false (fun h => h h3), Bool.false_and]
        rw [this]; rfl
      · rw [if_neg h3]
        rw [wiMatch, decide_eq_true h3, Bool.true_and]
        rfl
  · rw [if_pos (by simpa using h1), if_neg (fun h => h1 h.1)]

theorem vkey_lt_same {k : Bytes} {a b : Int} : (⟨k, a⟩ : VKey) < ⟨k, b⟩ ↔ b < a := by
  rw [VKey.lt_def]
  constructor
  · rintro (h | h)
    · exact absurd h (lt_irrefl _)
    · exact h.2
  · intro h; exact Or.inr ⟨rfl, h⟩

/-- In range `[⟨k,mx⟩, ⟨k,mn⟩)` exactly the versions of `k` in `(mn, mx]`. -/
theorem vkey_range {k : Bytes} {mn mx : Int} {vk : VKey} (h1 : ¬ vk < ⟨k, mx⟩) (h2 : vk < ⟨k, mn⟩) :
    vk.key = k ∧ mn < vk.ts ∧ vk.ts ≤ mx := by
  rw [VKey.lt_def] at h1 h2
  simp only [not_or, not_and] at h1
  rcases h2 with h2 | ⟨h2, h3⟩
  · exact absurd h2 h1.1
  · have := h1.2 h2
    simp only at *
    exact ⟨h2, h3, by omega⟩

theorem writeInfoLoop_some {mn s : Int} {k : Bytes} {rb del put : Bool} {mx : Int}
    {l : List (VKey × WriteInfo)} (hasc : Asc l) (hge : ∀ e ∈ l, ¬ e.1 < ⟨k, mx⟩) {w : WriteInfo} {t : Int}
    (h : writeInfoLoop mn s k rb del put l = some (w, t)) :
    mn < t ∧ t ≤ mx ∧ ((⟨k, t⟩ : VKey), w) ∈ l ∧ wiMatch s rb del put w = true ∧
      ∀ t' w', t < t' → ((⟨k, t'⟩ : VKey), w') ∈ l → wiMatch s rb del put w' = false := by
  induction l with
  | nil => simp [writeInfoLoop] at h
  | cons e l ih =>
    obtain ⟨vk, w0⟩ := e
    have hx := List.pairwise_cons.1 hasc
    rw [writeInfoLoop_cons] at h
    split at h
    · rename_i hr
      obtain ⟨hk, hmn, hmx⟩ := vkey_range (hge _ List.mem_cons_self) hr.1
      split at h
      · rename_i hm
        simp only [Option.some.injEq, Prod.mk.injEq] at h
        obtain ⟨rfl, rfl⟩ := h
        refine ⟨hmn, hmx, ?_, hm, ?_⟩
        · rw [← hk]; exact List.mem_cons_self
        · intro t' w' ht' hmem
          rcases List.mem_cons.1 hmem with he | he
          · have : vk.ts = t' := by rw [← congrArg (fun x : VKey × WriteInfo => x.1.ts) he]
            omega
          · have := hx.1 _ he
            have hvk : vk = ⟨k, vk.ts⟩ := by rw [← hk]
            simp only at this
            rw [hvk, vkey_lt_same] at this
            omega
      · rename_i hm
        obtain ⟨a1, a2, a3, a4, a5⟩ := ih hx.2 (fun e he => hge e (List.mem_cons_of_mem _ he)) h
        refine ⟨a1, a2, List.mem_cons_of_mem _ a3, a4, ?_⟩
        intro t' w' ht' hmem
        rcases List.mem_cons.1 hmem with he | he
        · have : w' = w0 := congrArg Prod.snd he
          rw [this]; simpa using hm
        · exact a5 t' w' ht' he
    · cases h

theorem writeInfoLoop_none {mn s : Int} {k : Bytes} {rb del put : Bool} {mx : Int}
    {l : List (VKey × WriteInfo)} (hasc : Asc l) (hge : ∀ e ∈ l, ¬ e.1 < ⟨k, mx⟩)
    (h : writeInfoLoop mn s k rb del put l = none) :
    ∀ t' w', mn < t' → ((⟨k, t'⟩ : VKey), w') ∈ l → wiMatch s rb del put w' = false := by
  induction l with
  | nil => simp
  | cons e l ih =>
    obtain ⟨vk, w0⟩ := e
    have hx := List.pairwise_cons.1 hasc
    rw [writeInfoLoop_cons] at h
    intro t' w' ht' hmem
    split at h
    · split at h
      · cases h
      · rename_i hm
        rcases List.mem_cons.1 hmem with he | he
        · have : w' = w0 := congrArg Prod.snd he
          rw [this]; simpa using hm
        · exact ih hx.2 (fun e he => hge e (List.mem_cons_of_mem _ he)) h t' w' ht' he
    · rename_i hr
      exfalso
      apply hr
      have h1 : vk < ⟨k, mn⟩ := by
        rcases List.mem_cons.1 hmem with he | he
        · have hv : vk = ⟨k, t'⟩ := (congrArg Prod.fst he).symm
          rw [hv, vkey_lt_same]; exact ht'
        · exact KeyOrder.trans (hx.1 _ he) (vkey_lt_same.2 ht')
      refine ⟨h1, ?_⟩
      have := (vkey_range (hge _ List.mem_cons_self) h1).2.1
      simp only at this
      omega

theorem mem_seek_get (c : CF VKey WriteInfo) (k : Bytes) (mx t : Int) (w : WriteInfo) :
    ((⟨k, t⟩ : VKey), w) ∈ c.seek ⟨k, mx⟩ ↔ c.get ⟨k, t⟩ = some w ∧ t ≤ mx := by
  rw [CF.mem_seek, CF.mem_iff_get, vkey_lt_same, Int.not_lt]

theorem getWriteInfo_some {st : State} {mn mx s : Int} {k : Bytes} {rb del put : Bool}
    {w : WriteInfo} {t : Int} (h : getWriteInfo st mn mx s k rb del put = some (w, t)) :
    mn < t ∧ t ≤ mx ∧ st.write.get ⟨k, t⟩ = some w ∧ wiMatch s rb del put w = true ∧
      ∀ t' w', t < t' → t' ≤ mx → st.write.get ⟨k, t'⟩ = some w' → wiMatch s rb del put w' = false := by
  obtain ⟨a1, a2, a3, a4, a5⟩ := writeInfoLoop_some (mx := mx) (CF.asc_seek st.write ⟨k, mx⟩)
    (fun e he => ((CF.mem_seek _ _ _).1 he).2) h
  refine ⟨a1, a2, ((mem_seek_get _ _ _ _ _).1 a3).1, a4, ?_⟩
  intro t' w' h1 h2 h3
  exact a5 t' w' h1 ((mem_seek_get _ _ _ _ _).2 ⟨h3, h2⟩)

theorem getWriteInfo_none {st : State} {mn mx s : Int} {k : Bytes} {rb del put : Bool}
    (h : getWriteInfo st mn mx s k rb del put = none) :
    ∀ t' w', mn < t' → t' ≤ mx → st.write.get ⟨k, t'⟩ = some w' → wiMatch s rb del put w' = false := by
  intro t' w' h1 h2 h3
  exact writeInfoLoop_none (mx := mx) (CF.asc_seek st.write ⟨k, mx⟩)
    (fun e he => ((CF.mem_seek _ _ _).1 he).2) h t' w' h1 ((mem_seek_get _ _ _ _ _).2 ⟨h3, h2⟩)

theorem committedLoop_some {s : Int} {k : Bytes} {l : List (VKey × WriteInfo)} {mx : Int}
    (hge : ∀ e ∈ l, ¬ e.1 < ⟨k, mx⟩) {w : WriteInfo} {t : Int}
    (h : committedLoop s k l = some (w, t)) :
    s ≤ t ∧ t ≤ mx ∧ ((⟨k, t⟩ : VKey), w) ∈ l ∧ w.startTs = s ∧ w.op ≠ .rollback := by
  induction l with
  | nil => simp [committedLoop] at h
  | cons e l ih =>
    obtain ⟨vk, w0⟩ := e
    rw [committedLoop] at h
    split at h
    · cases h
    · rename_i h1
      have hle : vk.key = k ∧ s ≤ vk.ts ∧ vk.ts ≤ mx := by
        have h2 : vk < ⟨k, s - 1⟩ := by
          rcases KeyOrder.tri (⟨k, s⟩ : VKey) vk with h | h | h
          · exact absurd h h1
          · rw [← h, vkey_lt_same]; omega
          · exact KeyOrder.trans h (vkey_lt_same.2 (by omega))
        have := vkey_range (hge _ List.mem_cons_self) h2
        exact ⟨this.1, Int.le_of_sub_one_lt this.2.1, this.2.2⟩
      split at h
      · have := ih (fun e he => hge e (List.mem_cons_of_mem _ he)) h
        exact ⟨this.1, this.2.1, List.mem_cons_of_mem _ this.2.2.1, this.2.2.2⟩
      · rename_i h2
        split at h
        · cases h
        · rename_i h3
          simp only [Option.some.injEq, Prod.mk.injEq] at h
          obtain ⟨rfl, rfl⟩ := h
          refine ⟨hle.2.1, hle.2.2, ?_, by simpa using h2, h3⟩
          rw [← hle.1]; exact List.mem_cons_self

theorem checkCommitted_some {st : State} {s : Int} {k : Bytes} {w : WriteInfo} {t : Int}
    (h : checkCommitted st s k = some (w, t)) :
    s ≤ t ∧ st.write.get ⟨k, t⟩ = some w ∧ w.startTs = s ∧ w.op ≠ .rollback := by
  obtain ⟨a1, a2, a3, a4, a5⟩ := committedLoop_some (mx := maxVer)
    (fun e he => ((CF.mem_seek _ _ _).1 he).2) h
  exact ⟨a1, ((mem_seek_get _ _ _ _ _).1 a3).1, a4, a5⟩

/-! ## One key's view of a write batch -/

theorem lock_apply (st : State) (b : Batch) (k : Bytes) :
    (st.apply b).lock.get k =
      if k ∈ b.delLock then none else (CF.lastPut b.putLock k).or (st.lock.get k) := by
  simp only [State.apply]
  rw [CF.get_delAll, CF.get_putAll]
  by_cases h : k ∈ b.delLock <;> simp only [h, if_true, if_false]

theorem write_apply (st : State) (b : Batch) (vk : VKey) :
    (st.apply b).write.get vk = (CF.lastPut b.putWrite vk).or (st.write.get vk) := by
  simp only [State.apply]
  rw [CF.get_putAll]

theorem data_apply (st : State) (b : Batch) (vk : VKey) :
    (st.apply b).data.get vk =
      if vk ∈ b.delData then none else (CF.lastPut b.putData vk).or (st.data.get vk) := by
  simp only [State.apply]
  rw [CF.get_delAll, CF.get_putAll]

theorem maxTs_apply (st : State) (b : Batch) : (st.apply b).maxTs = st.maxTs := rfl

@[simp] theorem lock_access (st : State) (t : Int) : (st.access t).lock = st.lock := rfl
@[simp] theorem write_access (st : State) (t : Int) : (st.access t).write = st.write := rfl
@[simp] theorem data_access (st : State) (t : Int) : (st.access t).data = st.data := rfl

end Verif.Txn
