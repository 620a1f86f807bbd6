import Verif.Txn.History

/-!
# Transaction engine: point reads
-/

namespace Verif.Txn
open Verif.Codec

/-- The timestamp a point read seeks to. -/
def iterTs (iso : Iso) (ts : Int) : Int := match iso with | .si => ts | .rc => maxVer

/-- The value of a write record. -/
def valueAt (st : State) (k : Bytes) (w : WriteInfo) : Bytes :=
  if w.op = .put then
    if w.shortValue ≠ [] then w.shortValue else (st.data.get ⟨k, w.startTs⟩).getD []
  else []

theorem getLoop_eq {st : State} {k : Bytes} {iso : Iso} {ts : Int} (l : List (VKey × WriteInfo))
    (hge : ∀ e ∈ l, ¬ e.1 < ⟨k, iterTs iso ts⟩)
    (hop : ∀ e ∈ l, e.1.key = k → e.2.op = .rollback ∨ e.2.committed) :
    getLoop st k iso ts l = .ok (match writeInfoLoop 0 0 k false true true l with
      | some (w, _) => valueAt st k w
      | none => []) := by
  induction l with
  | nil => rfl
  | cons e l ih =>
    obtain ⟨vk, w⟩ := e
    have ih := ih (fun e he => hge e (List.mem_cons_of_mem _ he)) (fun e he => hop e (List.mem_cons_of_mem _ he))
    rw [writeInfoLoop_cons, getLoop]
    by_cases h1 : vk < ⟨k, 0⟩
    · obtain ⟨hk, h0, hmx⟩ := vkey_range (hge _ List.mem_cons_self) h1
      simp only at hk h0 hmx
      rw [if_neg (by simpa using h1), if_pos (c := vk < ⟨k, 0⟩ ∧ 0 ≤ vk.ts) ⟨h1, by omega⟩]
      have hin : iso = .rc ∨ vk.ts ≤ ts := by
        cases iso with
        | rc => exact Or.inl rfl
        | si => exact Or.inr hmx
      rw [if_pos hin]
      rcases hop _ List.mem_cons_self hk with ho | ho | ho
      · simp only at ho
        have : wiMatch 0 false true true w = false := by simp [wiMatch, ho]
        rw [ho, this]; simpa using ih
      · simp only at ho
        have : wiMatch 0 false true true w = true := by simp [wiMatch, ho]
        rw [ho, this]
        simp only [if_true, valueAt, ho]
        split
        · rfl
        · cases st.data.get ⟨k, w.startTs⟩ <;> rfl
      · simp only at ho
        have : wiMatch 0 false true true w = true := by simp [wiMatch, ho]
        rw [ho, this]
        simp [valueAt, ho]
    · rw [if_pos (by simpa using h1), if_neg (fun h => h1 h.1)]

theorem getKey_loop {st : State} (hI : Inv st) {k : Bytes} {iso : Iso} {ts : Int} :
    getLoop st k iso ts (st.write.seek ⟨k, iterTs iso ts⟩) =
      .ok (match getWriteInfo st 0 (iterTs iso ts) 0 k false true true with
      | some (w, _) => valueAt st k w
      | none => []) := by
  rw [getLoop_eq]
  · rfl
  · intro e he; exact ((CF.mem_seek _ _ _).1 he).2
  · intro e he hk
    have hg := (CF.mem_iff_get st.write e.1 e.2).1 ((CF.mem_seek _ _ _).1 he).1
    have : e.1 = ⟨k, e.1.ts⟩ := by rw [← hk]
    rw [this] at hg
    rcases ((hI k).write _ _ hg).2.2 with h | h
    · exact Or.inl h.1
    · exact Or.inr h.1

/-- Uniqueness of the snapshot. -/
theorem Snapshot.unique {st : State} {k : Bytes} {ts : Int} {v v' : Option Bytes}
    (h : Snapshot st k ts v) (h' : Snapshot st k ts v') : v = v' := by
  have com : ∀ {s c v}, Wrote st k s c v → CommittedOn st k s c := by
    intro s c v hw
    cases v with
    | none => obtain ⟨w, h1, h2, h3⟩ := hw; exact ⟨w, h1, h2, Or.inr h3⟩
    | some v => obtain ⟨w, h1, h2, h3, _⟩ := hw; exact ⟨w, h1, h2, Or.inl h3⟩
  rcases h with ⟨h1, h2⟩ | ⟨s, c, h1, h2, h3⟩ <;> rcases h' with ⟨h1', h2'⟩ | ⟨s', c', h1', h2', h3'⟩
  · rw [h1, h1']
  · have := h2 s' c' (com h2'); omega
  · have := h2' s c (com h2); omega
  · have e1 := h3 s' c' (com h2') h1'
    have e2 := h3' s c (com h2) h1
    have hc : c = c' := by omega
    subst hc
    cases v with
    | none =>
      obtain ⟨w, a1, a2, a3⟩ := wrote_none_iff.1 h2
      cases v' with
      | none => rfl
      | some v' =>
        obtain ⟨w', b1, b2, b3, _⟩ := wrote_some_iff.1 h2'
        rw [a1] at b1; cases b1; rw [a3] at b3; cases b3
    | some v =>
      obtain ⟨w, a1, a2, a3, a4⟩ := wrote_some_iff.1 h2
      cases v' with
      | none =>
        obtain ⟨w', b1, b2, b3⟩ := wrote_none_iff.1 h2'
        rw [a1] at b1; cases b1; rw [a3] at b3; cases b3
      | some v' =>
        obtain ⟨w', b1, b2, b3, b4⟩ := wrote_some_iff.1 h2'
        rw [a1] at b1; cases b1
        have : s = s' := by omega
        subst this
        rcases a4 with ⟨a4, rfl⟩ | ⟨a4, a5⟩ <;> rcases b4 with ⟨b4, rfl⟩ | ⟨b4, b5⟩
        · rfl
        · exact absurd b4 a4
        · exact absurd a4 b4
        · rw [a5] at b5; cases b5; rfl

/-- What a point read that is not blocked returns. -/
theorem getWriteInfo_snapshot {st : State} (hI : Inv st) {k : Bytes}
    (hdata : ∀ t w, st.write.get ⟨k, t⟩ = some w → w.op = .put → w.shortValue = [] →
      (st.data.get ⟨k, w.startTs⟩).isSome) {ts : Int} (hts : ts ≤ maxVer) {ts' : Int} (hle : ts' = ts) :
    Snapshot st k ts (valueOf (match getWriteInfo st 0 ts' 0 k false true true with
      | some (w, _) => valueAt st k w
      | none => [])) := by
  subst hle
  cases hg : getWriteInfo st 0 ts' 0 k false true true with
  | none =>
    left
    refine ⟨rfl, ?_⟩
    intro s c hc
    obtain ⟨w, h1, h2, h3⟩ := committedOn_iff.1 hc
    have hb := (hI k).write c w h1
    by_cases hle : c ≤ ts'
    · have := getWriteInfo_none hg c w (by omega) hle h1
      rw [wiMatch_all.2 h3] at this
      cases this
    · omega
  | some x =>
    obtain ⟨w, t⟩ := x
    obtain ⟨h1, h2, h3, h4, h5⟩ := getWriteInfo_some hg
    right
    refine ⟨w.startTs, t, h2, ?_, ?_⟩
    · have hc := wiMatch_all.1 h4
      simp only [valueAt]
      rcases hc with hc | hc
      · rw [if_pos hc]
        by_cases hsv : w.shortValue = []
        · rw [if_neg (by simpa using hsv)]
          have := hdata t w h3 hc hsv
          cases hd : st.data.get ⟨k, w.startTs⟩ with
          | none => rw [hd] at this; cases this
          | some v =>
            have hne := (hI k).data _ v hd
            rw [Option.getD_some, valueOf, if_neg hne]
            exact wrote_some_iff.2 ⟨w, h3, rfl, hc, Or.inr ⟨hsv, hd⟩⟩
        · rw [if_pos hsv, valueOf, if_neg hsv]
          exact wrote_some_iff.2 ⟨w, h3, rfl, hc, Or.inl ⟨hsv, rfl⟩⟩
      · rw [if_neg (by rw [hc]; decide), valueOf, if_pos rfl]
        exact wrote_none_iff.2 ⟨w, h3, rfl, hc⟩
    · intro s' c' hc' hle
      obtain ⟨w', b1, b2, b3⟩ := committedOn_iff.1 hc'
      by_cases hlt : t < c'
      · have := h5 c' w' hlt hle b1
        rw [wiMatch_all.2 b3] at this
        cases this
      · omega

theorem lockConflict_iff {l : LockInfo} (hl : 0 < l.lockTs) {ts : Int} {resolved : List Int} :
    lockConflict l .si ts resolved = true ↔ Blocks l ts resolved := by
  simp only [lockConflict, Blocks]
  by_cases h1 : l.lockTs ∈ resolved
  · have : resolved ≠ [] := by rintro rfl; simp at h1
    simp [h1, this]
  · simp only [h1, and_false, if_false, not_false_eq_true, true_and]
    by_cases h2 : l.minCommitTs > ts
    · rw [if_pos h2]
      simp only [Bool.false_eq_true, false_iff]
      omega
    · rw [if_neg h2, if_pos hl]
      simp only [gt_iff_lt]
      split <;> simp <;> omega

theorem lockConflict_default {ts : Int} {resolved : List Int} {iso : Iso} :
    lockConflict {} iso ts resolved = false := by
  simp only [lockConflict]
  split
  · rfl
  · split
    · rfl
    · simp

/-- One key of a snapshot read. -/
theorem getKey_si {D : Bytes → TsOwner} {st : State} (h : Good D st) {k : Bytes} {ts : Int} (hts : ts ≤ maxVer)
    (resolved : List Int) :
    (∃ l, getKey st .si ts resolved k = .inl l ∧ LockOn st k l ∧ Blocks l ts resolved) ∨
    (∃ v, getKey st .si ts resolved k = .inr (.ok v) ∧ Snapshot st k ts (valueOf v) ∧
      ∀ l, LockOn st k l → ¬ Blocks l ts resolved) := by
  simp only [getKey]
  have hloop := getKey_loop h.inv (k := k) (iso := .si) (ts := ts)
  simp only [iterTs] at hloop
  have hsnap := getWriteInfo_snapshot h.inv (k := k) (fun t w h1 h2 h3 => (h.dinv k).writeData t w h1 h2 h3) hts
    (ts' := ts) rfl
  rcases getLock_cases h.inv k with ⟨h1, h2⟩ | ⟨h1, h2⟩
  · right
    rw [h2, lockConflict_default, if_neg (by simp), hloop]
    refine ⟨_, rfl, hsnap, ?_⟩
    intro l hl
    rw [lockOn_iff] at hl
    simp only [view] at hl
    rw [h1] at hl; cases hl
  · by_cases hc : lockConflict (getLock st k) .si ts resolved = true
    · left
      rw [if_pos hc]
      exact ⟨_, rfl, lockOn_iff.2 h1, (lockConflict_iff h2.ts.1).1 hc⟩
    · right
      rw [if_neg hc, hloop]
      refine ⟨_, rfl, hsnap, ?_⟩
      intro l hl hb
      rw [lockOn_iff] at hl
      simp only [view] at hl
      rw [h1] at hl; cases hl
      exact hc ((lockConflict_iff h2.ts.1).2 hb)

theorem batchGetLoop_si {D : Bytes → TsOwner} {st : State} (h : Good D st) {ts : Int} (hts : ts ≤ maxVer)
    (resolved : List Int) (ks : List Bytes) (acc : List (Bytes × Bytes)) :
    (∃ kvs, batchGetLoop st .si ts resolved (fun _ _ => 0) 1 ks 0 acc = .ok { kvs := acc ++ kvs } ∧
      kvs.map Prod.fst = ks ∧ (∀ kv ∈ kvs, Snapshot st kv.1 ts (valueOf kv.2)) ∧
      ∀ k ∈ ks, ∀ l, LockOn st k l → ¬ Blocks l ts resolved) ∨
    (∃ kvs l, batchGetLoop st .si ts resolved (fun _ _ => 0) 1 ks 0 acc =
        .ok { result := some (.locked l), kvs := acc ++ kvs } ∧
      (∀ kv ∈ kvs, Snapshot st kv.1 ts (valueOf kv.2)) ∧
      ∃ k ∈ ks, LockOn st k l ∧ Blocks l ts resolved) := by
  induction ks generalizing acc with
  | nil => left; exact ⟨[], by simp [batchGetLoop], rfl, by simp, by simp⟩
  | cons k ks ih =>
    simp only [batchGetLoop]
    rcases getKey_si h (k := k) hts resolved with ⟨l, h1, h2, h3⟩ | ⟨v, h1, h2, h3⟩
    · right
      rw [h1]
      exact ⟨[], l, by simp, by simp, k, List.mem_cons_self, h2, h3⟩
    · rw [h1]
      simp only [Nat.add_zero, ge_iff_le, Nat.le_zero_eq, Nat.one_ne_zero, if_false]
      rcases ih (acc ++ [(k, v)]) with ⟨kvs, a1, a2, a3, a4⟩ | ⟨kvs, l, a1, a2, k', a3, a4⟩
      · left
        refine ⟨(k, v) :: kvs, ?_, ?_, ?_, ?_⟩
        · rw [a1]; simp
        · simp [a2]
        · intro kv hkv
          rcases List.mem_cons.1 hkv with rfl | hkv
          · exact h2
          · exact a3 kv hkv
        · intro k' hk'
          rcases List.mem_cons.1 hk' with rfl | hk'
          · exact h3
          · exact a4 k' hk'
      · right
        refine ⟨(k, v) :: kvs, l, ?_, ?_, k', List.mem_cons_of_mem _ a3, a4⟩
        · rw [a1]; simp
        · intro kv hkv
          rcases List.mem_cons.1 hkv with rfl | hkv
          · exact h2
          · exact a2 kv hkv

end Verif.Txn
