import Verif.Txn.Scan
import Verif.Txn.Read

/-!
# Transactional scans: lemmas
-/

namespace Verif.Txn
open Verif.Codec

variable {ν : Type}

theorem le_of_not_lt {a b : Bytes} (h : ¬ a < b) : b < a ∨ a = b := by
  rcases lt_trichotomy a b with h' | h' | h'
  · exact absurd h' h
  · exact Or.inr h'
  · exact Or.inl h'

theorem not_lt_nil (a : Bytes) : ¬ a < [] := by simp

theorem nil_lt {a : Bytes} (h : a ≠ []) : ([] : Bytes) < a := by
  rcases lt_trichotomy [] a with h' | h' | h'
  · exact h'
  · exact absurd h'.symm h
  · exact absurd h' (not_lt_nil _)

/-! ## Bounded iterators -/

theorem mem_takeWhile_lt {κ : Type} [KeyOrder κ] {l : List (κ × ν)} (h : Asc l) (b : κ) (e : κ × ν) :
    e ∈ l.takeWhile (fun e => e.1 < b) ↔ e ∈ l ∧ e.1 < b := by
  induction l with
  | nil => simp
  | cons x l ih =>
    have hx := List.pairwise_cons.1 h
    simp only [List.takeWhile_cons]
    by_cases hb : x.1 < b
    · simp only [hb, decide_true, if_true, List.mem_cons, ih hx.2]
      constructor
      · rintro (rfl | ⟨h1, h2⟩)
        · exact ⟨Or.inl rfl, hb⟩
        · exact ⟨Or.inr h1, h2⟩
      · rintro ⟨rfl | h1, h2⟩
        · exact Or.inl rfl
        · exact Or.inr ⟨h1, h2⟩
    · simp only [hb, decide_false, Bool.false_eq_true, if_false, List.not_mem_nil, List.mem_cons, false_iff]
      rintro ⟨rfl | h1, h2⟩
      · exact hb h2
      · exact hb (KeyOrder.trans (hx.1 _ h1) h2)

/-- The write records a scan of `[start, stop)` sees. -/
def scanWrites (st : State) (start stop : Bytes) (T : Int) : List (VKey × WriteInfo) :=
  (st.write.seek ⟨start, T⟩).takeWhile (fun e => e.1 < ⟨stop, maxVer⟩)

/-- The locks a scan of `[start, stop)` sees. -/
def scanLocks (st : State) (start stop : Bytes) : List (Bytes × LockInfo) :=
  (st.lock.seek start).takeWhile (fun e => e.1 < stop)

theorem asc_scanWrites (st : State) (start stop : Bytes) (T : Int) : Asc (scanWrites st start stop T) :=
  List.Pairwise.sublist (List.takeWhile_sublist _) (CF.asc_seek _ _)

theorem asc_scanLocks (st : State) (start stop : Bytes) : Asc (scanLocks st start stop) :=
  List.Pairwise.sublist (List.takeWhile_sublist _) (CF.asc_seek _ _)

theorem mem_scanLocks {st : State} {start stop : Bytes} {k : Bytes} {l : LockInfo} :
    (k, l) ∈ scanLocks st start stop ↔ LockOn st k l ∧ ¬ k < start ∧ k < stop := by
  rw [scanLocks, mem_takeWhile_lt (CF.asc_seek _ _), CF.mem_seek, and_assoc]; rfl

theorem mem_scanWrites {st : State} (hI : Inv st) {start stop : Bytes} {T : Int} {k : Bytes} {t : Int} {w : WriteInfo} :
    (⟨k, t⟩, w) ∈ scanWrites st start stop T ↔
      st.write.get ⟨k, t⟩ = some w ∧ k < stop ∧ (start < k ∨ k = start ∧ t ≤ T) := by
  rw [scanWrites, mem_takeWhile_lt (CF.asc_seek _ _), CF.mem_seek, and_assoc, CF.mem_iff_get]
  constructor
  · rintro ⟨h1, h2, h3⟩
    refine ⟨h1, ?_, ?_⟩
    · simp only [VKey.lt_def] at h3
      rcases h3 with h3 | ⟨rfl, h3⟩
      · exact h3
      · have := ((hI k).write t w h1).2.1; omega
    · simp only [VKey.lt_def, not_or, not_and] at h2
      rcases lt_trichotomy k start with h | h | h
      · exact absurd h h2.1
      · exact Or.inr ⟨h, by have := h2.2 h; omega⟩
      · exact Or.inl h
  · rintro ⟨h1, h2, h3⟩
    refine ⟨h1, ?_, Or.inl h2⟩
    simp only [VKey.lt_def, not_or, not_and]
    rcases h3 with h3 | ⟨rfl, h3⟩
    · exact ⟨fun h => KeyOrder.asymm h h3, fun h => absurd h3 (h ▸ lt_irrefl _)⟩
    · exact ⟨lt_irrefl _, fun _ => by omega⟩

/-! ## Lists in ascending order -/

/-- Ascending user keys (several versions of a key allowed). -/
def KeysLe (l : List (VKey × WriteInfo)) : Prop := l.Pairwise (fun a b => ¬ b.1.key < a.1.key)

theorem Asc.keysLe {l : List (VKey × WriteInfo)} (h : Asc l) : KeysLe l := by
  refine List.Pairwise.imp ?_ h
  rintro ⟨⟨k, t⟩, w⟩ ⟨⟨k', t'⟩, w'⟩ h
  simp only [VKey.lt_def] at h
  rcases h with h | ⟨rfl, _⟩
  · exact KeyOrder.asymm h
  · exact lt_irrefl _

theorem filter_eq_self_of {α : Type} {p : α → Bool} {l : List α} (h : ∀ a ∈ l, p a = true) : l.filter p = l :=
  List.filter_eq_self.2 h

/-- Where the write iterator stands after the versions of `m`. -/
structure WritesAt (W : List (VKey × WriteInfo)) (m : Bytes) (lw : Bytes) (ws : List (VKey × WriteInfo)) : Prop where
  eq : ws = W.filter (fun e => decide (m < e.1.key))
  head : ws ≠ [] → lw = headKey (·.1.key) ws
  stale : ws = [] → lw = m

theorem gotoNext_spec {m : Bytes} (l : List (VKey × WriteInfo)) (hl : KeysLe l) (e : VKey × WriteInfo)
    (he : e.1.key = m) (hle : ∀ x ∈ l, ¬ x.1.key < m) :
    WritesAt (e :: l) m (gotoNext m (e :: l) m).1 (gotoNext m (e :: l) m).2 := by
  induction l generalizing e with
  | nil =>
    have : ¬ m < e.1.key := by rw [he]; exact lt_irrefl _
    refine ⟨?_, ?_, ?_⟩ <;> simp [gotoNext, this]
  | cons x l ih =>
    have hx := List.pairwise_cons.1 hl
    simp only [gotoNext]
    have hem : ¬ m < e.1.key := by rw [he]; exact lt_irrefl _
    by_cases h : m < x.1.key
    · rw [if_pos h]
      refine ⟨?_, by simp [headKey], by simp⟩
      rw [List.filter_cons_of_neg (by simpa using hem), filter_eq_self_of]
      intro a ha
      rcases List.mem_cons.1 ha with rfl | ha
      · simpa using h
      · have := hx.1 a ha
        rcases le_of_not_lt this with h' | h'
        · simp [KeyOrder.trans h h']
        · simp [h', h]
    · rw [if_neg h]
      have hxm : x.1.key = m := by
        rcases le_of_not_lt h with h' | h'
        · exact absurd h' (hle x List.mem_cons_self)
        · exact h'.symm
      rw [hxm]
      have := ih hx.2 x hxm (fun y hy => hle y (List.mem_cons_of_mem _ hy))
      refine ⟨?_, this.head, this.stale⟩
      rw [this.eq, List.filter_cons_of_neg (a := e) (by simpa using hem)]

/-- The record a scan reads for `m`: the first one of the key that is visible at `T`
and no rollback mark. -/
def visible (m : Bytes) (T : Int) (e : VKey × WriteInfo) : Bool :=
  decide (e.1.key = m ∧ e.1.ts ≤ T ∧ e.2.op ≠ .rollback)

/-- The value of a write record, from the data column family as it is now. -/
def valueIn (live : CF VKey Bytes) (m : Bytes) (w : WriteInfo) : Bytes :=
  if w.op = .put then if w.shortValue ≠ [] then w.shortValue else (live.get ⟨m, w.startTs⟩).getD [] else []

theorem getUserValue_spec {live : CF VKey Bytes} {iso : Iso} {ts : Int} {m : Bytes} (W : List (VKey × WriteInfo))
    (hW : KeysLe W) (hge : ∀ e ∈ W, ¬ e.1.key < m)
    (hop : ∀ e ∈ W, e.1.key = m → e.2.op = .rollback ∨ e.2.op = .put ∨ e.2.op = .delete)
    (hmx : ∀ e ∈ W, e.1.ts ≤ maxVer)
    (hdata : ∀ e ∈ W, e.1.key = m → e.2.op = .put → e.2.shortValue = [] → (live.get ⟨m, e.2.startTs⟩).isSome)
    (lw : Bytes) (hlw : W = [] → lw = m) (v : Bytes) (f : Bool) (hv : v = [] ) :
    ∃ u, getUserValue live iso ts m W lw v f = .ok u ∧ WritesAt W m u.lastWrite u.writes ∧
      u.found = (f || W.any (fun e => decide (e.1.key = m))) ∧
      u.value = (match W.find? (visible m (iterTs iso ts)) with | some e => valueIn live m e.2 | none => []) := by
  induction W generalizing lw v f with
  | nil =>
    refine ⟨_, rfl, ⟨rfl, by simp, fun _ => hlw rfl⟩, by simp, by simpa using hv⟩
  | cons e W ih =>
    obtain ⟨vk, w⟩ := e
    have hx := List.pairwise_cons.1 hW
    have hge' := fun x hx => hge x (List.mem_cons_of_mem _ hx)
    have ih := ih hx.2 hge' (fun x h => hop x (List.mem_cons_of_mem _ h)) (fun x h => hmx x (List.mem_cons_of_mem _ h))
      (fun x h => hdata x (List.mem_cons_of_mem _ h))
    simp only [getUserValue]
    by_cases h1 : m < vk.key
    · rw [if_pos h1]
      have hall : ∀ x ∈ (vk, w) :: W, m < x.1.key := by
        intro x hxm
        rcases List.mem_cons.1 hxm with rfl | hxm
        · exact h1
        · rcases le_of_not_lt (hx.1 x hxm) with h' | h'
          · exact KeyOrder.trans h1 h'
          · simp only at h'; exact h' ▸ h1
      refine ⟨_, rfl, ⟨?_, by simp [headKey], by simp⟩, ?_, ?_⟩
      · rw [filter_eq_self_of]; intro x hxm; simpa using hall x hxm
      · have : (((vk, w) :: W).any fun e => decide (e.1.key = m)) = false := by
          rw [List.any_eq_false]; intro x hxm
          have := hall x hxm
          simp only [decide_eq_true_eq]; intro he; rw [he] at this; exact lt_irrefl _ this
        rw [this]; simp
      · have : ((vk, w) :: W).find? (visible m (iterTs iso ts)) = none := by
          rw [List.find?_eq_none]; intro x hxm
          have := hall x hxm
          simp only [visible, decide_eq_true_eq, not_and]; intro he; rw [he] at this; exact absurd this (lt_irrefl _)
        rw [this]; exact hv
    · rw [if_neg h1]
      have hk : vk.key = m := by
        rcases le_of_not_lt h1 with h' | h'
        · exact absurd h' (hge _ List.mem_cons_self)
        · exact h'.symm
      have hany : (((vk, w) :: W).any fun e => decide (e.1.key = m)) = true := by simp [hk]
      have hskip : ∀ lw' (hlw' : lw' = m), visible m (iterTs iso ts) (vk, w) = false →
          ∃ u, getUserValue live iso ts m W lw' [] true = .ok u ∧ WritesAt ((vk, w) :: W) m u.lastWrite u.writes ∧
            u.found = (f || ((vk, w) :: W).any (fun e => decide (e.1.key = m))) ∧
            u.value = (match ((vk, w) :: W).find? (visible m (iterTs iso ts)) with
              | some e => valueIn live m e.2 | none => []) := by
        intro lw' hlw' hvis
        obtain ⟨u, a1, a2, a3, a4⟩ := ih lw' (fun _ => hlw') [] true rfl
        refine ⟨u, a1, ⟨?_, a2.head, a2.stale⟩, by rw [a3, hany]; simp, ?_⟩
        · rw [a2.eq, List.filter_cons_of_neg]; simpa using h1
        · rw [a4, List.find?_cons, hvis]
      by_cases h2 : iso = .si ∧ vk.ts > ts
      · rw [if_pos h2]
        refine hskip _ hk ?_
        simp only [visible, decide_eq_false_iff_not, not_and]
        intro _ h3
        rw [h2.1] at h3; simp only [iterTs] at h3; omega
      · rw [if_neg h2]
        have hle : vk.ts ≤ iterTs iso ts := by
          cases iso with
          | si => simp only [true_and] at h2; simp only [iterTs]; omega
          | rc => exact hmx _ List.mem_cons_self
        have hgn := gotoNext_spec W hx.2 (vk, w) hk hge'
        rcases hop _ List.mem_cons_self hk with ho | ho | ho
        · simp only at ho
          rw [ho]
          refine hskip _ hk ?_
          simp [visible, ho]
        · simp only at ho
          have hvis : visible m (iterTs iso ts) (vk, w) = true := by simp [visible, hk, hle, ho]
          have hfind : ((vk, w) :: W).find? (visible m (iterTs iso ts)) = some (vk, w) := by
            rw [List.find?_cons, hvis]
          rw [ho, hfind, hk]
          simp only
          by_cases h3 : w.shortValue = []
          · have hd := hdata _ List.mem_cons_self hk ho h3
            simp only at hd
            rw [if_neg (by simpa using h3)]
            cases hl : live.get ⟨m, w.startTs⟩ with
            | none => rw [hl] at hd; cases hd
            | some x => exact ⟨_, rfl, hgn, by rw [hany]; simp, by simp [valueIn, ho, h3, hl]⟩
          · rw [if_pos h3]
            exact ⟨_, rfl, hgn, by rw [hany]; simp, by simp [valueIn, ho, h3]⟩
        · simp only at ho
          have hvis : visible m (iterTs iso ts) (vk, w) = true := by simp [visible, hk, hle, ho]
          have hfind : ((vk, w) :: W).find? (visible m (iterTs iso ts)) = some (vk, w) := by
            rw [List.find?_cons, hvis]
          rw [ho, hfind, hk]
          exact ⟨_, rfl, hgn, by rw [hany]; simp, by simp [valueIn, ho]⟩

theorem advLocks_spec {m : Bytes} (l : List (Bytes × LockInfo)) (e : Bytes × LockInfo) (hl : Asc (e :: l))
    (he : ¬ m < e.1) :
    (advLocks m (e :: l)).2 = (e :: l).filter (fun x => decide (m < x.1)) ∧
    (advLocks m (e :: l)).1 = headKey (·.1) (advLocks m (e :: l)).2 := by
  induction l generalizing e with
  | nil => simp [advLocks, he, headKey]
  | cons x l ih =>
    have hx := List.pairwise_cons.1 hl
    have hx2 := List.pairwise_cons.1 hx.2
    simp only [advLocks]
    rw [List.filter_cons_of_neg (a := e) (by simpa using he)]
    by_cases h : m < x.1
    · rw [if_pos h]
      refine ⟨?_, rfl⟩
      rw [filter_eq_self_of]
      intro a ha
      rcases List.mem_cons.1 ha with rfl | ha
      · simpa using h
      · simpa using KeyOrder.trans h (hx2.1 a ha)
    · rw [if_neg h]
      exact ih x hx.2 h

end Verif.Txn
