import Verif.Txn.Exact

/-!
# Transaction engine: prewritten values reach the commit record (helper lemmas)
-/

namespace Verif.Txn
open Verif.Codec

/-- The lock of `s` on this key would write `v`. -/
def KS.pend (x : KS) (s : Int) : Option Bytes → Prop
  | some v => ∃ l, x.lock = some l ∧ l.lockTs = s ∧ l.type = .put ∧
      (l.shortValue ≠ [] ∧ v = l.shortValue ∨ l.shortValue = [] ∧ x.data s = some v)
  | none => ∃ l, x.lock = some l ∧ l.lockTs = s ∧ l.type = .delete

/-- The commit record of `s` at `c` carries `v`. -/
def KS.wrote (x : KS) (s c : Int) : Option Bytes → Prop
  | some v => ∃ w, x.write c = some w ∧ w.startTs = s ∧ w.op = .put ∧
      (w.shortValue ≠ [] ∧ v = w.shortValue ∨ w.shortValue = [] ∧ x.data s = some v)
  | none => ∃ w, x.write c = some w ∧ w.startTs = s ∧ w.op = .delete

/-- Rollback record of `s`. -/
def KS.rolled (x : KS) (s : Int) : Prop := ∃ w, x.write s = some w ∧ w.startTs = s ∧ w.op = .rollback

theorem pending_iff {st : State} {k : Bytes} {s : Int} {v : Option Bytes} :
    Pending st k s v ↔ (view st k).pend s v := by
  cases v <;> simp only [Pending, KS.pend, lockOn_iff, view, CF.mem_iff_get]

theorem wrote_iff {st : State} {k : Bytes} {s c : Int} {v : Option Bytes} :
    Wrote st k s c v ↔ (view st k).wrote s c v := by
  cases v with
  | none => exact wrote_none_iff
  | some v => exact wrote_some_iff

theorem KS.pend.lock {x : KS} {s : Int} {v : Option Bytes} (h : x.pend s v) :
    ∃ l, x.lock = some l ∧ l.lockTs = s ∧ l.type ≠ .lock := by
  cases v with
  | none => obtain ⟨l, h1, h2, h3⟩ := h; exact ⟨l, h1, h2, by rw [h3]; decide⟩
  | some v => obtain ⟨l, h1, h2, h3, _⟩ := h; exact ⟨l, h1, h2, by rw [h3]; decide⟩

theorem KS.wrote.record {x : KS} {s c : Int} {v : Option Bytes} (h : x.wrote s c v) :
    ∃ w, x.write c = some w ∧ w.startTs = s ∧ w.committed := by
  cases v with
  | none => obtain ⟨w, h1, h2, h3⟩ := h; exact ⟨w, h1, h2, Or.inr h3⟩
  | some v => obtain ⟨w, h1, h2, h3, _⟩ := h; exact ⟨w, h1, h2, Or.inl h3⟩

/-- Committing the lock turns the pending value into the written one. -/
theorem KS.pend.commit {x : KS} {s c : Int} {v : Option Bytes} (h : x.pend s v) {l : LockInfo}
    (hl : x.lock = some l) :
    KS.wrote ⟨none, upd x.write c (some { startTs := s, op := l.type, shortValue := l.shortValue }), x.data⟩ s c v := by
  cases v with
  | none =>
    obtain ⟨l', h1, h2, h3⟩ := h
    rw [hl] at h1; cases h1
    exact ⟨_, upd_same _ _ _, rfl, h3⟩
  | some v =>
    obtain ⟨l', h1, h2, h3, h4⟩ := h
    rw [hl] at h1; cases h1
    exact ⟨_, upd_same _ _ _, rfl, h3, h4⟩

theorem KStep.wrote {D : TsOwner} {k : Bytes} {mx : Int} {x y : KS} {e : Ev} (h : KStep k mx x e y)
    (hk : KInv k x) (hx : DInv D x) (hd : e.Disc D x) {s c : Int} {v : Option Bytes} (hw : x.wrote s c v) :
    y.wrote s c v := by
  cases v with
  | none => obtain ⟨w, h1, h2, h3⟩ := hw; exact ⟨w, h.keep hk hx hd h1, h2, h3⟩
  | some v =>
    obtain ⟨w, h1, h2, h3, h4⟩ := hw
    refine ⟨w, h.keep hk hx hd h1, h2, h3, ?_⟩
    rcases h4 with h4 | ⟨h4, h5⟩
    · exact Or.inl h4
    · subst h2
      exact Or.inr ⟨h4, by rw [h.keepData hk hx hd h1 (Or.inl h3)]; exact h5⟩

/-- A pending value stays pending, or is committed unchanged, or is rolled back. -/
def KS.has (x : KS) (s : Int) (v : Option Bytes) : Prop :=
  x.pend s v ∨ (∃ c, x.wrote s c v) ∨ x.rolled s

theorem KStep.has {D : TsOwner} {k : Bytes} {mx : Int} {x y : KS} {e : Ev} (h : KStep k mx x e y)
    (hk : KInv k x) (hx : DInv D x) (hd : e.Disc D x) {s : Int} {v : Option Bytes} (hw : x.has s v) :
    y.has s v := by
  rcases hw with hp | ⟨c, hw⟩ | ⟨w, h1, h2, h3⟩
  rotate_left
  · exact Or.inr (Or.inl ⟨c, h.wrote hk hx hd hw⟩)
  · exact Or.inr (Or.inr ⟨w, h.keep hk hx hd h1, h2, h3⟩)
  obtain ⟨l, hl, hts, hty⟩ := hp.lock
  cases h with
  | nop => exact Or.inl hp
  | prewrite s' pess l' d hfree =>
    rcases hfree with hf | ⟨_, l0, hf, _, h3⟩
    · rw [hl] at hf; cases hf
    · rw [hl] at hf; cases hf; exact absurd h3 hty
  | pessLock s' fu l' hpre =>
    rcases hpre with hf | ⟨l0, hf, h2, _⟩
    · rw [hl] at hf; cases hf.1
    · rw [hl] at hf; cases hf; exact absurd (hd.2.2 l hl h2) hty
  | commit s' c rs l' hlock hts' =>
    have he := hlock
    rw [hl] at he; cases he
    have : s' = s := by omega
    subst this
    exact Or.inr (Or.inl ⟨c, hp.commit hl⟩)
  | rollback s' l' hlock hts' =>
    rw [hl] at hlock; cases hlock
    have : s' = s := by omega
    subst this
    exact Or.inr (Or.inr ⟨_, upd_same _ _ _, rfl, rfl⟩)
  | mark s' =>
    left
    cases v <;> exact hp
  | onePc s' c pess op short d hfree =>
    rcases hfree with hf | ⟨_, l0, hf, _, h3⟩
    · rw [hl] at hf; cases hf
    · rw [hl] at hf; cases hf; exact absurd h3 hty
  | update l' ttl mc hlock =>
    rw [hl] at hlock; cases hlock
    left
    cases v with
    | none =>
      obtain ⟨l', h1, h2, h3⟩ := hp
      rw [hl] at h1; cases h1
      exact ⟨_, rfl, h2, h3⟩
    | some v =>
      obtain ⟨l', h1, h2, h3, h4⟩ := hp
      rw [hl] at h1; cases h1
      exact ⟨_, rfl, h2, h3, h4⟩
  | unlock s' l' hlock _ h3 => rw [hl] at hlock; cases hlock; exact absurd h3 hty

theorem run_has {D : Bytes → TsOwner} {st : State} (h : Good D st) {rs : List Req} (hd : Disciplined D st rs)
    {k : Bytes} {s : Int} {v : Option Bytes} (hp : (view st k).has s v) : (view (run st rs) k).has s v :=
  run_preserve h hd k (P := fun x => x.has s v) (C := fun _ _ => True)
    (fun _ _ _ _ _ _ => trivial) (fun _ _ _ _ hk hx hd _ hs hp => hs.has hk hx hd hp) hp

/-- A commit that succeeds on a key with a value pending (or already committed)
writes that value at that timestamp. -/
theorem commit_wrote {D : Bytes → TsOwner} {st : State} (h : Good D st) {s c : Int} (hs : 0 < s) (hc : c ≤ maxVer)
    {keys : List Bytes} (hr : (commit st s c keys).2 = .ok none) {k : Bytes} (hk : k ∈ keys) {v : Option Bytes}
    (hh : (view st k).has s v) :
    (view (commit st s c keys).1 k).wrote s c v ∧
      ∀ l, (view (commit st s c keys).1 k).lock = some l → l.lockTs ≠ s := by
  obtain ⟨hsc, hx⟩ := commit_exact h.inv hs hc hr
  rcases (hx k).1 hk with ⟨l, h1, h2, h3, _, h5⟩ | ⟨h1, ⟨w, h2, h3, h4⟩, h5⟩
  · have hno := (h.dinv k).lock l h1
    rw [h5]
    refine ⟨?_, by simp⟩
    rcases hh with hp | ⟨c', hw⟩ | ⟨w, a1, a2, a3⟩
    · exact hp.commit h1
    · obtain ⟨w, a1, a2, _⟩ := hw.record
      exact absurd (a2.trans h2.symm) (hno.2.2 h3 c' w a1)
    · exact absurd (a2.trans h2.symm) (hno.2.2 h3 s w a1)
  · rw [h5]
    refine ⟨?_, h1⟩
    rcases hh with hp | ⟨c', hw⟩ | ⟨w', a1, a2, a3⟩
    · obtain ⟨l, b1, b2, _⟩ := hp.lock
      exact absurd b2 (h1 l b1)
    · obtain ⟨w', a1, a2, _⟩ := hw.record
      have := (h.dinv k).unique c' c w' w a1 h2 (by omega)
      subst this
      exact hw
    · have := (h.dinv k).unique s c w' w a1 h2 (by omega)
      omega

/-! ## What prewrite leaves behind -/

theorem nodup_mut {ms : List Mut} (hnd : (ms.map (·.key)).Nodup) {m m' : Mut} (h : m ∈ ms) (h' : m' ∈ ms)
    (hk : m.key = m'.key) : m = m' := by
  induction ms with
  | nil => cases h
  | cons x ms ih =>
    simp only [List.map_cons, List.nodup_cons, List.mem_map, not_exists, not_and] at hnd
    rcases List.mem_cons.1 h with rfl | h1
    · rcases List.mem_cons.1 h' with rfl | h2
      · rfl
      · exact absurd hk.symm (hnd.1 m' h2)
    · rcases List.mem_cons.1 h' with rfl | h2
      · exact absurd hk (hnd.1 m h1)
      · exact ih hnd.2 h1 h2

/-- The value an entry of the batch carries is the mutation's. -/
theorem ent_value {D : Bytes → TsOwner} {st : State} (h : Good D st) {r : PrewriteReq} {m : Mut} {l : LockInfo}
    (he : Ent st r m l) {v : Option Bytes} (hv : m.effect = some v) :
    match v with
    | some v => l.type = .put ∧ v = m.value ∧ v ≠ [] ∧
        l.shortValue = (if m.value.length ≤ maxShortValue then m.value else [])
    | none => l.type = .delete := by
  have hshort : (getLock st m.key).shortValue = [] := by
    rcases pass_free h.inv he.pass with hf | ⟨_, l0, hf, _, h3⟩
    · simp only [view] at hf; simp [getLock, hf]
    · rw [getLock_of_some hf]; exact (h.dinv m.key).lockShort l0 hf h3
  rcases he.op with ⟨h1, h2, h3, h4⟩ | ⟨h1, h2, _⟩
  · have : v = some m.value := by
      rcases h1 with h1 | h1 <;> · simp only [Mut.effect, h1] at hv; cases hv; rfl
    subst this
    refine ⟨h2, rfl, h3, ?_⟩
    rw [h4, hshort]
  · have : v = none := by simp only [Mut.effect, h1] at hv; cases hv; rfl
    subst this
    exact h2

theorem lastPut_data {st : State} {r : PrewriteReq} {a : PwAcc} (ha : AccOk st r r.mutations a)
    (hnd : (r.mutations.map (·.key)).Nodup) {m : Mut} (hm : m ∈ r.mutations) (hd : DataOf r a m)
    (hop : m.op ≠ .delete) (hlen : ¬ m.value.length ≤ maxShortValue) :
    CF.lastPut a.data ⟨m.key, r.startTs⟩ = some m.value := by
  cases hp : CF.lastPut a.data ⟨m.key, r.startTs⟩ with
  | none => exact absurd rfl (CF.lastPut_none.1 hp _ (hd hop (by omega)))
  | some v =>
    obtain ⟨m', hm', he, _⟩ := ha.data _ (CF.lastPut_mem hp)
    simp only [Prod.mk.injEq, VKey.mk.injEq, and_true] at he
    rw [nodup_mut hnd hm hm' he.1, he.2]

theorem effect_ne {m : Mut} {v : Option Bytes} (hv : m.effect = some v) : m.op ≠ .checkNotExists := by
  intro h; simp [Mut.effect, h] at hv

theorem effect_some_ne {m : Mut} {v : Bytes} (hv : m.effect = some (some v)) : m.op ≠ .delete := by
  intro h; simp [Mut.effect, h] at hv

/-- Locks written by prewrite hold the mutations' values. -/
theorem prewriteBatch_pend {D : Bytes → TsOwner} {st : State} (h : Good D st) {r : PrewriteReq} {a : PwAcc}
    (ha : AccOk st r r.mutations a) (hnd : (r.mutations.map (·.key)).Nodup) {m : Mut} (hm : m ∈ r.mutations)
    {l0 : LockInfo} (hl0 : (m.key, l0) ∈ a.locks ∨ (m.key, m.value, l0, m.pess) ∈ a.onePc)
    {v : Option Bytes} (hv : m.effect = some v) :
    (view (st.apply (prewriteBatch a)) m.key).pend r.startTs v := by
  have hall : ∀ e ∈ (prewriteBatch a).putLock, ∃ m ∈ r.mutations, e.1 = m.key ∧ Ent st r m e.2 ∧ DataOf r a m := by
    intro e he
    simp only [prewriteBatch, List.mem_append, List.mem_map] at he
    rcases he with he | ⟨x, hx, rfl⟩
    · exact ha.locks e he
    · obtain ⟨m, b1, b2, _, _, b5, b6, _⟩ := ha.onePc x hx
      exact ⟨m, b1, b2, b5, b6⟩
  have hmem : (m.key, l0) ∈ (prewriteBatch a).putLock := by
    simp only [prewriteBatch, List.mem_append, List.mem_map]
    rcases hl0 with hl | hl
    · exact Or.inl hl
    · exact Or.inr ⟨_, hl, rfl⟩
  cases hl : CF.lastPut (prewriteBatch a).putLock m.key with
  | none => exact absurd rfl (CF.lastPut_none.1 hl _ hmem)
  | some l =>
    obtain ⟨m', b1, b2, b3, b4⟩ := hall (m.key, l) (CF.lastPut_mem hl)
    simp only at b2 b3
    have := nodup_mut hnd hm b1 b2
    subst this
    have hlock : (view (st.apply (prewriteBatch a)) m.key).lock = some l := by
      simp only [view]
      rw [lock_apply, if_neg (by simp [prewriteBatch]), hl]; rfl
    have hval := ent_value h b3 hv
    cases v with
    | none => exact ⟨l, hlock, b3.ts, hval⟩
    | some v =>
      obtain ⟨c1, rfl, c3, c4⟩ := hval
      refine ⟨l, hlock, b3.ts, c1, ?_⟩
      by_cases hlen : m.value.length ≤ maxShortValue
      · rw [if_pos hlen] at c4
        exact Or.inl ⟨by rw [c4]; exact c3, c4.symm⟩
      · rw [if_neg hlen] at c4
        refine Or.inr ⟨c4, ?_⟩
        simp only [view]
        rw [data_apply, if_neg (by simp [prewriteBatch])]
        rw [show (prewriteBatch a).putData = a.data from rfl, lastPut_data ha hnd hm b4 (effect_some_ne hv) hlen]
        rfl

/-- One-phase commit writes the mutations' values. -/
theorem onePcBatch_wrote {D : Bytes → TsOwner} {st : State} (h : Good D st) {r : PrewriteReq} {a : PwAcc}
    (ha : AccOk st r r.mutations a) (ht : a.tryOnePc = true) (hnd : (r.mutations.map (·.key)).Nodup) {m : Mut}
    (hm : m ∈ r.mutations) {l0 : LockInfo} (hl0 : (m.key, l0) ∈ a.locks ∨ (m.key, m.value, l0, m.pess) ∈ a.onePc)
    {v : Option Bytes} (hv : m.effect = some v) :
    (view (st.apply (onePcBatch r.startTs a.finalMin a)) m.key).wrote r.startTs a.finalMin v := by
  have hl0 : (m.key, m.value, l0, m.pess) ∈ a.onePc := by
    rcases hl0 with hl | hl
    · rw [ha.noLocks ht] at hl; cases hl
    · exact hl
  have hb5 : ∀ x ∈ a.onePc, x.2.2.1.type ≠ .putIfAbsent := by
    intro x hx
    obtain ⟨_, _, _, _, _, b5, _⟩ := ha.onePc x hx
    rcases b5.op with ⟨_, h2, _⟩ | ⟨_, h2, _⟩ <;> rw [h2] <;> decide
  cases hp : CF.lastPut (onePcBatch r.startTs a.finalMin a).putWrite ⟨m.key, a.finalMin⟩ with
  | none =>
    exact absurd rfl (CF.lastPut_none.1 hp (⟨m.key, a.finalMin⟩, _)
      (mem_onePcWrites.2 ⟨_, hl0, hb5 _ hl0, rfl⟩))
  | some w =>
    obtain ⟨x, hx, _, he⟩ := mem_onePcWrites.1 (CF.lastPut_mem hp)
    obtain ⟨m', b1, b2, b3, b4, b5, b6, _⟩ := ha.onePc x hx
    simp only [Prod.mk.injEq, VKey.mk.injEq, and_true] at he
    have := nodup_mut hnd hm b1 (he.1.trans b2)
    subst this
    have hw : (view (st.apply (onePcBatch r.startTs a.finalMin a)) m.key).write a.finalMin = some w := by
      simp only [view, write_apply, hp]; rfl
    have hval := ent_value h b5 hv
    have he2 := he.2
    cases v with
    | none =>
      refine ⟨w, hw, by rw [he2], by rw [he2]; exact hval⟩
    | some v =>
      obtain ⟨c1, rfl, c3, c4⟩ := hval
      refine ⟨w, hw, by rw [he2], by rw [he2]; exact c1, ?_⟩
      by_cases hlen : m.value.length ≤ maxShortValue
      · rw [if_pos hlen] at c4
        left
        rw [he2]
        simp only [c4, ne_eq, c3, not_false_eq_true, if_true, b3, and_self]
      · rw [if_neg hlen] at c4
        right
        rw [he2]
        refine ⟨by simp [c4], ?_⟩
        simp only [view]
        rw [data_apply, if_neg (by simp [onePcBatch])]
        rw [show (onePcBatch r.startTs a.finalMin a).putData = a.data from rfl,
          lastPut_data ha hnd hm b6 (effect_some_ne hv) hlen]
        rfl

end Verif.Txn
