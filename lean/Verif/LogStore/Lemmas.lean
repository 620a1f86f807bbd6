import Verif.LogStore.Spec

/-! # Raft log storage: codec and database lemmas -/

namespace Verif.LogStore
open Verif.Codec
open Verif.Txn (CF KeyOrder Asc)

/-- An index that keys can hold in order. -/
def ValidI (i : Int) : Prop := 0 ≤ i ∧ i < 2 ^ 63

theorem encodeKey_lt_r {r r' i i' : Int} (h : ValidR r) (h' : ValidR r') (hlt : r < r') :
    encodeKey r i < encodeKey r' i' := by
  simp only [encodeKey, cons_lt_iff]
  right
  exact ⟨trivial, writeLong_lt h.1 hlt h'.2 _ _⟩

theorem encodeKey_lt_i {r i i' : Int} (h : ValidI i) (h' : ValidI i') (hlt : i < i') :
    encodeKey r i < encodeKey r i' := by
  simp only [encodeKey, cons_lt_iff]
  right
  refine ⟨trivial, ?_⟩
  rw [append_lt_append_left]
  have := writeLong_lt h.1 hlt h'.2 [] []
  simpa using this

theorem encodeKey_lt {r r' i i' : Int} (hr : ValidR r) (hr' : ValidR r') (hi : ValidI i) (hi' : ValidI i') :
    encodeKey r i < encodeKey r' i' ↔ r < r' ∨ (r = r' ∧ i < i') := by
  constructor
  · intro h
    by_cases h1 : r < r'
    · exact .inl h1
    · by_cases h2 : r = r'
      · subst h2
        refine .inr ⟨rfl, ?_⟩
        by_cases h3 : i < i'
        · exact h3
        · by_cases h4 : i = i'
          · subst h4; exact absurd h (lt_irrefl _)
          · exact absurd (encodeKey_lt_i (r := r) hi' hi (by omega)) (lt_asymm h)
      · exact absurd (encodeKey_lt_r (i := i') (i' := i) hr' hr (by omega)) (lt_asymm h)
  · rintro (h | ⟨rfl, h⟩)
    · exact encodeKey_lt_r hr hr' h
    · exact encodeKey_lt_i hi hi' h

theorem writeLong_length (v : Int) : (writeLong v).length = 8 := rfl

theorem decodeKey_encodeKey {r i : Int} (hr : ValidR r) (hi : ValidI i) :
    decodeKey (encodeKey r i) = some (r, i) := by
  have h1 : (encodeKey r i).drop 1 = writeLong r ++ writeLong i := rfl
  have h2 : (encodeKey r i).drop 9 = writeLong i ++ [] := by
    simp only [List.append_nil]
    show (writeLong r ++ writeLong i).drop 8 = _
    rw [List.drop_append_of_le_length (by rw [writeLong_length]; omega)]
    rfl
  have h3 : (encodeKey r i).length = 17 := rfl
  unfold ValidR ValidI at *
  rw [decodeKey, if_pos h3, h1, h2, readLong_append (by omega) (by omega), readLong_append (by omega) (by omega)]

theorem encodeKey_inj {r r' i i' : Int} (hr : ValidR r) (hr' : ValidR r') (hi : ValidI i) (hi' : ValidI i')
    (h : encodeKey r i = encodeKey r' i') : r = r' ∧ i = i' := by
  have := decodeKey_encodeKey hr hi
  rw [h, decodeKey_encodeKey hr' hi'] at this
  simp only [Option.some.injEq, Prod.mk.injEq] at this
  exact ⟨this.1.symm, this.2.symm⟩

theorem fromBe_le32 {n : Nat} (h : n < 2 ^ 32) : fromBe (le32 n).reverse = n := by
  simp only [le32, fromBe, List.reverse_cons, List.reverse_nil, List.nil_append, List.cons_append,
    List.foldl_cons, List.foldl_nil, toNat_ofNat]
  omega

theorem decodeValue_encodeValue {e : LogEntry} (h : GoodEntry e) : decodeValue (encodeValue e) = some e := by
  obtain ⟨h1, h2, h3, h4⟩ := h
  have hl : (encodeValue e).length = e.data.length + 12 := by
    simp only [encodeValue, List.length_append, List.length_reverse, writeLong_length]; rfl
  have hp : 0 < e.data.length := by
    cases hd : e.data with
    | nil => exact absurd hd h4
    | cons => simp
  have ha : (encodeValue e).drop ((encodeValue e).length - 12) = le32 e.typ ++ (writeLong e.term).reverse := by
    rw [hl, show e.data.length + 12 - 12 = e.data.length by omega, encodeValue, List.drop_left]
  have hb : (encodeValue e).drop ((encodeValue e).length - 8) = (writeLong e.term).reverse := by
    have : (encodeValue e).length - 8 = (encodeValue e).length - 12 + 4 := by omega
    rw [this, ← List.drop_drop, ha]; rfl
  have hc : (encodeValue e).take ((encodeValue e).length - 12) = e.data := by
    rw [hl, show e.data.length + 12 - 12 = e.data.length by omega, encodeValue, List.take_left]
  have hd : (le32 e.typ ++ (writeLong e.term).reverse).take 4 = le32 e.typ := rfl
  rw [decodeValue, if_pos (by omega), ha, hb, hc, hd, fromBe_le32 h1, List.reverse_reverse]
  have : toI64 (fromBe (writeLong e.term)) = e.term := by
    rw [writeLong, fromBe_be64 (toU64_lt _), toI64_toU64 (by omega) (by omega)]
  rw [this]

theorem get_deleteRange (db : Db) (lo hi k : Bytes) :
    (deleteRange db lo hi).get k = if k < lo ∨ ¬ k < hi then db.get k else none := by
  have hm : ∀ v, (deleteRange db lo hi).get k = some v ↔ (k < lo ∨ ¬ k < hi) ∧ db.get k = some v := by
    intro v
    rw [← CF.mem_iff_get, ← CF.mem_iff_get]
    simp only [deleteRange, List.mem_filter, decide_eq_true_eq]
    exact And.comm
  by_cases h : k < lo ∨ ¬ k < hi
  · rw [if_pos h]
    cases hg : db.get k with
    | some v => exact (hm v).2 ⟨h, hg⟩
    | none =>
      cases hd : (deleteRange db lo hi).get k with
      | none => rfl
      | some v => rw [((hm v).1 hd).2] at hg; cases hg
  · rw [if_neg h]
    cases hd : (deleteRange db lo hi).get k with
    | none => rfl
    | some v => exact absurd ((hm v).1 hd).1 h

/-- Deleting indexes `[a, b)` of one region, seen from one key. -/
theorem get_deleteRange_key (db : Db) {r r' a b i : Int} (hr : ValidR r) (hr' : ValidR r')
    (ha : ValidI a) (hb : ValidI b) (hi : ValidI i) :
    (deleteRange db (encodeKey r a) (encodeKey r b)).get (encodeKey r' i)
      = if r' = r ∧ a ≤ i ∧ i < b then none else db.get (encodeKey r' i) := by
  rw [get_deleteRange]
  simp only [encodeKey_lt hr' hr hi ha, encodeKey_lt hr' hr hi hb]
  by_cases h : r' = r ∧ a ≤ i ∧ i < b
  · rw [if_pos h, if_neg (by omega)]
  · rw [if_neg h, if_pos (by omega)]

theorem foldOpt_append {α β : Type} (f : α → β → Option α) (a : α) (l m : List β) :
    foldOpt f a (l ++ m) = (foldOpt f a l).bind (fun a' => foldOpt f a' m) := by
  induction l generalizing a with
  | nil => rfl
  | cons x l ih =>
    simp only [List.cons_append, foldOpt]
    cases f a x with
    | none => rfl
    | some a' => exact ih a'

/-- A batch is the sequence of its mutations. -/
theorem exec_cons (s : State) (m : Mutation) (ms : List Mutation) :
    (exec s (m :: ms)).map (fun x => { x with unsynced := [] })
      = ((exec s [m]).bind (fun s' => exec s' ms)).map (fun x => { x with unsynced := [] }) := by
  simp only [exec, foldOpt]
  cases hm : adjust s.metas m with
  | none => rfl
  | some metas =>
    cases hc : cacheAfter s.cacheOn s.cache m with
    | none =>
      simp only []
      cases foldOpt adjust metas ms <;> rfl
    | some cache =>
      simp only [Option.bind_some, List.flatMap_cons, List.flatMap_nil, List.append_nil, List.foldl_cons, List.foldl_nil]
      cases foldOpt adjust metas ms with
      | none => rfl
      | some metas' =>
        cases foldOpt (cacheAfter s.cacheOn) cache ms with
        | none => rfl
        | some cache' => simp only [Option.map_some, applyOps, List.foldl_append]

end Verif.LogStore
