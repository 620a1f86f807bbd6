import Verif.Codec.Lemmas

/-!
# Column families as finite ordered maps

RocksDB is assumed to be an ordered map (see DESIGN.md).  A column family is a
list of (key, value) pairs in strictly ascending key order; the order is carried
in the structure, so no separate invariant is needed.
-/

namespace Verif.Txn
open Verif.Codec

/-- A decidable strict total order: what RocksDB's comparator provides. -/
class KeyOrder (κ : Type) extends LT κ where
  decEq : DecidableEq κ
  decLt : DecidableRel (α := κ) (· < ·)
  irrefl : ∀ a : κ, ¬ a < a
  trans : ∀ {a b c : κ}, a < b → b < c → a < c
  tri : ∀ a b : κ, a < b ∨ a = b ∨ b < a

instance {κ} [h : KeyOrder κ] : DecidableEq κ := h.decEq
instance {κ} [h : KeyOrder κ] (a b : κ) : Decidable (a < b) := h.decLt a b

/-- `memcmp` order on byte strings, RocksDB's default comparator. -/
instance : KeyOrder Bytes where
  decEq := inferInstance
  decLt := fun a b => inferInstanceAs (Decidable (a < b))
  irrefl := lt_irrefl
  trans := lt_trans
  tri := lt_trichotomy

/-- A decoded versioned key: what `mvcc::Codec::EncodeKey(key, ts)` stands for.
The data and write column families are keyed by it. -/
structure VKey where
  key : Bytes
  ts : Int
deriving DecidableEq, Repr

/-- Order of encoded keys (proved for the byte encoding in
`Codec.C02_encodeKey_order`): ascending key, then descending timestamp. -/
instance : LT VKey := ⟨fun a b => a.key < b.key ∨ (a.key = b.key ∧ b.ts < a.ts)⟩

theorem VKey.lt_def (a b : VKey) : a < b ↔ a.key < b.key ∨ (a.key = b.key ∧ b.ts < a.ts) := Iff.rfl

instance (a b : VKey) : Decidable (a < b) :=
  inferInstanceAs (Decidable (a.key < b.key ∨ (a.key = b.key ∧ b.ts < a.ts)))

instance : KeyOrder VKey where
  decEq := inferInstance
  decLt := fun a b => inferInstanceAs (Decidable (a < b))
  irrefl := by
    rintro ⟨k, t⟩ (h | ⟨_, h⟩)
    · exact lt_irrefl _ h
    · exact Int.lt_irrefl _ h
  trans := by
    rintro ⟨k, t⟩ ⟨k', t'⟩ ⟨k'', t''⟩ h h'
    simp only [VKey.lt_def] at *
    rcases h with h | ⟨rfl, h⟩ <;> rcases h' with h' | ⟨rfl, h'⟩
    · exact Or.inl (lt_trans h h')
    · exact Or.inl h
    · exact Or.inl h'
    · exact Or.inr ⟨rfl, by omega⟩
  tri := by
    rintro ⟨k, t⟩ ⟨k', t'⟩
    simp only [VKey.lt_def, VKey.mk.injEq]
    rcases lt_trichotomy k k' with h | rfl | h
    · exact Or.inl (Or.inl h)
    · rcases Int.lt_trichotomy t t' with h | rfl | h
      · exact Or.inr (Or.inr (Or.inr ⟨rfl, h⟩))
      · exact Or.inr (Or.inl ⟨rfl, rfl⟩)
      · exact Or.inl (Or.inr ⟨rfl, h⟩)
    · exact Or.inr (Or.inr (Or.inl h))

variable {κ ν : Type} [KeyOrder κ]

theorem KeyOrder.asymm {a b : κ} (h : a < b) : ¬ b < a :=
  fun h' => KeyOrder.irrefl _ (KeyOrder.trans h h')

/-- Strictly ascending keys. -/
def Asc (l : List (κ × ν)) : Prop := l.Pairwise (fun a b => a.1 < b.1)

/-- A column family. -/
structure CF (κ ν : Type) [KeyOrder κ] where
  l : List (κ × ν)
  asc : Asc l

instance [DecidableEq ν] : DecidableEq (CF κ ν) := fun a b =>
  if h : a.l = b.l then isTrue (by cases a; cases b; cases h; rfl)
  else isFalse (fun h' => h (by rw [h']))

namespace CF

/-- The empty column family. -/
def empty : CF κ ν := ⟨[], List.Pairwise.nil⟩

/-- Insert or replace in a sorted list. -/
def insList (k : κ) (v : ν) : List (κ × ν) → List (κ × ν)
  | [] => [(k, v)]
  | e :: l => if k < e.1 then (k, v) :: e :: l
              else if k = e.1 then (k, v) :: l
              else e :: insList k v l

theorem mem_insList {k : κ} {v : ν} {l : List (κ × ν)} {e : κ × ν}
    (h : e ∈ insList k v l) : e = (k, v) ∨ e ∈ l := by
  induction l with
  | nil => simp [insList] at h; exact Or.inl h
  | cons x l ih =>
    simp only [insList] at h
    split at h
    · rcases List.mem_cons.1 h with h | h
      · exact Or.inl h
      · exact Or.inr h
    · split at h
      · rcases List.mem_cons.1 h with h | h
        · exact Or.inl h
        · exact Or.inr (List.mem_cons_of_mem _ h)
      · rcases List.mem_cons.1 h with h | h
        · exact Or.inr (h ▸ List.mem_cons_self)
        · rcases ih h with h | h
          · exact Or.inl h
          · exact Or.inr (List.mem_cons_of_mem _ h)

theorem asc_insList (k : κ) (v : ν) {l : List (κ × ν)} (h : Asc l) : Asc (insList k v l) := by
  induction l with
  | nil => exact List.pairwise_singleton _ _
  | cons x l ih =>
    have hx := List.pairwise_cons.1 h
    simp only [insList]
    split
    · rename_i hk
      refine List.pairwise_cons.2 ⟨?_, h⟩
      intro e he
      rcases List.mem_cons.1 he with rfl | he
      · exact hk
      · exact KeyOrder.trans hk (hx.1 e he)
    · split
      · rename_i hk
        subst hk
        exact List.pairwise_cons.2 ⟨hx.1, hx.2⟩
      · rename_i h1 h2
        refine List.pairwise_cons.2 ⟨?_, ih hx.2⟩
        intro e he
        rcases mem_insList he with rfl | he
        · rcases KeyOrder.tri k x.1 with h | h | h
          · exact absurd h h1
          · exact absurd h h2
          · exact h
        · exact hx.1 e he

/-- `rocksdb::WriteBatch::Put` as applied, `engine/rocks_raw_engine.cc:615`. -/
def put (c : CF κ ν) (k : κ) (v : ν) : CF κ ν := ⟨insList k v c.l, asc_insList k v c.asc⟩

/-- `rocksdb::WriteBatch::Delete` as applied, `engine/rocks_raw_engine.cc:636`. -/
def del (c : CF κ ν) (k : κ) : CF κ ν :=
  ⟨c.l.filter (fun e => e.1 ≠ k), List.Pairwise.filter _ c.asc⟩

/-- Point lookup, `Reader::KvGet`. -/
def get (c : CF κ ν) (k : κ) : Option ν := (c.l.find? (fun e => e.1 = k)).map (·.2)

/-- Iterator after `Seek(k)`: the remaining entries, ascending. -/
def seek (c : CF κ ν) (k : κ) : List (κ × ν) := c.l.dropWhile (fun e => e.1 < k)

/-- Several puts of one write batch, in order: later ones win. -/
def putAll (c : CF κ ν) (kvs : List (κ × ν)) : CF κ ν := kvs.foldl (fun c e => c.put e.1 e.2) c

/-- Several deletes of one write batch. -/
def delAll (c : CF κ ν) (ks : List κ) : CF κ ν := ks.foldl del c

/-! ## Laws -/

theorem mem_iff_get (c : CF κ ν) (k : κ) (v : ν) : (k, v) ∈ c.l ↔ c.get k = some v := by
  obtain ⟨l, h⟩ := c
  simp only [get]
  induction l with
  | nil => simp
  | cons x l ih =>
    have hx := List.pairwise_cons.1 h
    simp only [List.mem_cons, List.find?_cons]
    by_cases hk : x.1 = k
    · simp only [hk, decide_true, Option.map_some, Option.some.injEq]
      constructor
      · rintro (h' | h')
        · rw [← h']
        · exact absurd (hk ▸ hx.1 _ h') (KeyOrder.irrefl _)
      · rintro rfl; exact Or.inl (by rw [← hk])
    · simp only [hk, decide_false]
      rw [← ih hx.2]
      constructor
      · rintro (h' | h')
        · exact absurd (by rw [← h']) hk
        · exact h'
      · exact Or.inr

theorem get_put (c : CF κ ν) (k : κ) (v : ν) (k' : κ) :
    (c.put k v).get k' = if k' = k then some v else c.get k' := by
  obtain ⟨l, h⟩ := c
  simp only [get, put]
  induction l with
  | nil =>
    simp only [insList, List.find?_cons, List.find?_nil]
    by_cases hk : k = k'
    · simp [hk]
    · simp [hk, Ne.symm hk]
  | cons x l ih =>
    have hx := List.pairwise_cons.1 h
    simp only [insList]
    split
    · simp only [List.find?_cons]
      by_cases hk : k = k'
      · simp [hk]
      · simp [hk, Ne.symm hk]
    · split
      · rename_i h1 h2
        simp only [List.find?_cons]
        by_cases hk : k = k'
        · simp [hk]
        · rw [← h2]; simp [hk, Ne.symm hk]
      · rename_i h1 h2
        simp only [List.find?_cons]
        by_cases hk : x.1 = k'
        · have : ¬ k' = k := fun e => h2 (e ▸ hk.symm)
          simp [hk, this]
        · simp only [hk, decide_false]
          exact ih hx.2

theorem get_del (c : CF κ ν) (k k' : κ) :
    (c.del k).get k' = if k' = k then none else c.get k' := by
  obtain ⟨l, h⟩ := c
  simp only [get, del]
  clear h
  induction l with
  | nil => simp
  | cons x l ih =>
    simp only [List.filter_cons]
    by_cases hx : x.1 = k
    · simp only [hx, ne_eq, not_true_eq_false, decide_false, Bool.false_eq_true, if_false]
      simp only [ne_eq] at ih
      rw [ih]
      by_cases hk : k' = k
      · simp [hk]
      · simp only [hk, if_false, List.find?_cons, hx]
        simp [Ne.symm hk]
    · simp only [ne_eq] at ih
      simp only [ne_eq, hx, not_false_eq_true, decide_true, if_true, List.find?_cons]
      by_cases hk : x.1 = k'
      · have : ¬ k' = k := fun e => hx (hk.trans e)
        simp [hk, this]
      · simp only [hk, decide_false]
        exact ih

theorem get_empty (k : κ) : (empty : CF κ ν).get k = none := rfl

/-- Two column families with the same content are equal. -/
theorem ext_get {c d : CF κ ν} (h : ∀ k, c.get k = d.get k) : c = d := by
  have hm : ∀ e, e ∈ c.l ↔ e ∈ d.l := by
    rintro ⟨k, v⟩; rw [mem_iff_get, mem_iff_get, h]
  obtain ⟨l, hl⟩ := c
  obtain ⟨m, hm'⟩ := d
  congr 1
  simp only at hm
  clear h
  induction l generalizing m with
  | nil =>
    cases m with
    | nil => rfl
    | cons y m => exact absurd ((hm y).2 List.mem_cons_self) (by simp)
  | cons x l ih =>
    cases m with
    | nil => exact absurd ((hm x).1 List.mem_cons_self) (by simp)
    | cons y m =>
      have hx := List.pairwise_cons.1 hl
      have hy := List.pairwise_cons.1 hm'
      have hxy : x = y := by
        rcases List.mem_cons.1 ((hm x).1 List.mem_cons_self) with h | h
        · exact h
        · rcases List.mem_cons.1 ((hm y).2 List.mem_cons_self) with h' | h'
          · exact h'.symm
          · exact absurd (KeyOrder.trans (hx.1 _ h') (hy.1 _ h)) (KeyOrder.irrefl _)
      subst hxy
      congr 1
      refine ih hx.2 m hy.2 ?_
      intro e
      constructor
      · intro he
        rcases List.mem_cons.1 ((hm e).1 (List.mem_cons_of_mem _ he)) with h | h
        · exact absurd (h ▸ hx.1 _ he) (KeyOrder.irrefl _)
        · exact h
      · intro he
        rcases List.mem_cons.1 ((hm e).2 (List.mem_cons_of_mem _ he)) with h | h
        · exact absurd (h ▸ hy.1 _ he) (KeyOrder.irrefl _)
        · exact h

theorem put_get_self {c : CF κ ν} {k : κ} {v : ν} (h : c.get k = some v) : c.put k v = c := by
  apply ext_get
  intro k'
  rw [get_put]
  split
  · rename_i hk; rw [hk, h]
  · rfl

/-- The last value put for `k` in a batch. -/
def lastPut (kvs : List (κ × ν)) (k : κ) : Option ν :=
  kvs.foldl (fun acc e => if e.1 = k then some e.2 else acc) none

theorem lastPut_foldl (kvs : List (κ × ν)) (k : κ) (a : Option ν) :
    kvs.foldl (fun acc e => if e.1 = k then some e.2 else acc) a = (lastPut kvs k).or a := by
  induction kvs generalizing a with
  | nil => simp [lastPut]
  | cons x l ih =>
    simp only [lastPut, List.foldl_cons]
    rw [ih, ih]
    by_cases hx : x.1 = k <;> simp only [hx, if_true, if_false] <;> cases lastPut l k <;> simp

theorem lastPut_cons (x : κ × ν) (l : List (κ × ν)) (k : κ) :
    lastPut (x :: l) k = (lastPut l k).or (if x.1 = k then some x.2 else none) := by
  rw [lastPut, List.foldl_cons, lastPut_foldl]

theorem get_putAll (c : CF κ ν) (kvs : List (κ × ν)) (k : κ) :
    (c.putAll kvs).get k = (lastPut kvs k).or (c.get k) := by
  induction kvs generalizing c with
  | nil => simp [putAll, lastPut]
  | cons x l ih =>
    simp only [putAll, List.foldl_cons]
    have := ih (c.put x.1 x.2)
    simp only [putAll] at this
    rw [this, get_put, lastPut_cons]
    by_cases hx : x.1 = k
    · subst hx; cases lastPut l x.1 <;> simp
    · simp only [hx, Ne.symm hx, if_false]; cases lastPut l k <;> simp

theorem lastPut_mem {kvs : List (κ × ν)} {k : κ} {v : ν} (h : lastPut kvs k = some v) :
    (k, v) ∈ kvs := by
  induction kvs with
  | nil => simp [lastPut] at h
  | cons x l ih =>
    rw [lastPut_cons] at h
    cases hl : lastPut l k with
    | some w =>
      rw [hl] at h
      simp only [Option.some_or, Option.some.injEq] at h
      subst h
      exact List.mem_cons_of_mem _ (ih hl)
    | none =>
      rw [hl] at h
      simp only [Option.none_or] at h
      split at h
      · rename_i hx
        cases h
        exact List.mem_cons.2 (Or.inl (by rw [← hx]))
      · cases h

theorem lastPut_none {kvs : List (κ × ν)} {k : κ} :
    lastPut kvs k = none ↔ ∀ e ∈ kvs, e.1 ≠ k := by
  induction kvs with
  | nil => simp [lastPut]
  | cons x l ih =>
    rw [lastPut_cons, Option.or_eq_none_iff, ih]
    simp only [List.mem_cons, forall_eq_or_imp]
    constructor
    · rintro ⟨h, h'⟩
      refine ⟨?_, h⟩
      intro e
      simp [e] at h'
    · rintro ⟨h, h'⟩
      exact ⟨h', by simp [h]⟩

theorem lastPut_append (a b : List (κ × ν)) (k : κ) :
    lastPut (a ++ b) k = (lastPut b k).or (lastPut a k) := by
  induction a with
  | nil => simp [lastPut]
  | cons x a ih =>
    rw [List.cons_append, lastPut_cons, lastPut_cons, ih]
    cases lastPut b k <;> simp

theorem get_delAll (c : CF κ ν) (ks : List κ) (k : κ) :
    (c.delAll ks).get k = if k ∈ ks then none else c.get k := by
  induction ks generalizing c with
  | nil => simp [delAll]
  | cons x l ih =>
    simp only [delAll, List.foldl_cons]
    have := ih (c.del x)
    simp only [delAll] at this
    rw [this, get_del]
    by_cases hk : k = x
    · subst hk; simp
    · simp [hk]

theorem mem_seek (c : CF κ ν) (k : κ) (e : κ × ν) :
    e ∈ c.seek k ↔ e ∈ c.l ∧ ¬ e.1 < k := by
  obtain ⟨l, h⟩ := c
  simp only [seek]
  induction l with
  | nil => simp
  | cons x l ih =>
    have hx := List.pairwise_cons.1 h
    simp only [List.dropWhile_cons]
    by_cases hk : x.1 < k
    · simp only [hk, decide_true, if_true, ih hx.2, List.mem_cons]
      constructor
      · rintro ⟨h1, h2⟩; exact ⟨Or.inr h1, h2⟩
      · rintro ⟨rfl | h1, h2⟩
        · exact absurd hk h2
        · exact ⟨h1, h2⟩
    · simp only [hk, decide_false, Bool.false_eq_true, if_false, List.mem_cons]
      constructor
      · rintro (rfl | h1)
        · exact ⟨Or.inl rfl, hk⟩
        · exact ⟨Or.inr h1, fun h2 => hk (KeyOrder.trans (hx.1 _ h1) h2)⟩
      · exact fun h => h.1

theorem asc_seek (c : CF κ ν) (k : κ) : Asc (c.seek k) :=
  List.Pairwise.sublist (List.dropWhile_sublist _) c.asc

end CF
end Verif.Txn
