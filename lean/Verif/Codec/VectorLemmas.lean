import Verif.Codec.VectorSpec
import Verif.Codec.Props

/-!
# Keys of vectors and documents (lemmas)
-/

namespace Verif.Codec

/-- The bytes after the partition. -/
def VKey.rest : VKey → Bytes
  | .part _ => []
  | .id _ i => writeLongComparable i
  | .scalar _ i s => writeLongComparable i ++ s

theorem writeLong_length (v : Int) : (writeLong v).length = 8 := be64_length _

theorem VKey.bytes_eq {pre : UInt8} (hp : pre ≠ 0) {k : VKey} (h : k.Valid) :
    k.bytes pre = some (pre :: (writeLong k.p ++ k.rest)) := by
  cases k with
  | part p => simp [VKey.bytes, packagePart, VKey.p, VKey.rest, hp, h.1]
  | id p i => simp [VKey.bytes, packageId, VKey.p, VKey.rest, hp, h.1, h.2.2.1]
  | scalar p i s =>
    simp [VKey.bytes, packageScalar, VKey.p, VKey.rest, hp, h.1, h.2.2.1, h.2.2.2.2]

theorem VKey.Valid.p_pos {k : VKey} (h : k.Valid) : 0 < k.p ∧ k.p < 2 ^ 63 := by
  cases k with
  | part p => exact h
  | id p i => exact ⟨h.1, h.2.1⟩
  | scalar p i s => exact ⟨h.1, h.2.1⟩

theorem VKey.rest_length (k : VKey) (h : k.Valid) :
    k.rest.length = 0 ∨ k.rest.length ≥ 8 := by
  cases k with
  | part p => left; rfl
  | id p i => right; simp [VKey.rest, writeLongComparable_length]
  | scalar p i s => right; simp [VKey.rest, writeLongComparable_length]

theorem unPackagePart_bytes {pre : UInt8} {p : Int} (h0 : 0 < p) (h1 : p < 2 ^ 63) (r : Bytes) :
    unPackagePart (pre :: (writeLong p ++ r)) = some p := by
  unfold unPackagePart minLen
  rw [if_pos (by simp [writeLong_length])]
  rw [List.drop_succ_cons, List.drop_zero, List.take_append, List.take_of_length_le (by simp [writeLong_length])]
  exact readLong_append (by omega) h1 _

theorem drop9 (pre : UInt8) (p : Int) (r : Bytes) : (pre :: (writeLong p ++ r)).drop 9 = r := by
  rw [List.drop_succ_cons, List.drop_append, writeLong_length]
  simp [List.drop_of_length_le, writeLong_length]

theorem unPackageId_bytes {pre : UInt8} {p i : Int} (h0 : 0 ≤ i) (h1 : i < 2 ^ 63) (s : Bytes) :
    unPackageId (pre :: (writeLong p ++ (writeLongComparable i ++ s))) = some i := by
  unfold unPackageId maxLen
  rw [if_pos (by simp [writeLong_length, writeLongComparable_length]; omega), drop9,
    List.take_append, List.take_of_length_le (by simp [writeLongComparable_length])]
  exact readLongComparable_append (by omega) h1 _

theorem unPackageId_part {pre : UInt8} {p : Int} :
    unPackageId (pre :: (writeLong p ++ [])) = some 0 := by
  simp [unPackageId, maxLen, minLen, writeLong_length]

theorem unPackageScalar_bytes {pre : UInt8} {p i : Int} {s : Bytes} (h : s ≠ []) :
    unPackageScalar (pre :: (writeLong p ++ (writeLongComparable i ++ s))) = some s := by
  have hs : 0 < s.length := List.length_pos_iff.2 h
  unfold unPackageScalar maxLen
  rw [if_pos (by simp [writeLong_length, writeLongComparable_length]; omega)]
  have : (17 : Nat) = 9 + 8 := rfl
  rw [this, ← List.drop_drop, drop9, List.drop_append, writeLongComparable_length]
  simp [List.drop_of_length_le, writeLongComparable_length]

theorem plainOf_encode {pre : UInt8} (k : VKey) (h : k.Valid) :
    plainOf (encodeBytes (pre :: (writeLong k.p ++ k.rest)))
      = some (pre :: (writeLong k.p ++ k.rest)) := by
  have hl := encodeBytes_length (pre :: (writeLong k.p ++ k.rest))
  have hr := k.rest_length h
  have hw := writeLong_length k.p
  unfold plainOf
  rw [if_pos (by simp only [List.length_cons, List.length_append] at hl; omega),
    decodeBytes_encodeBytes]

theorem plainOfTs_encode {pre : UInt8} (k : VKey) (h : k.Valid) {ts : Int} (ht : ValidTs ts)
    {e : Bytes} (he : encodeKey (pre :: (writeLong k.p ++ k.rest)) ts = some e) :
    plainOfTs e = some (pre :: (writeLong k.p ++ k.rest)) ∧ truncateKey e = some ts ∧
      (k.rest.length ≥ 8 → e.length ≥ 35) := by
  obtain ⟨e', he', h1, h2⟩ := C01_truncate (pre :: (writeLong k.p ++ k.rest)) ts ht
  rw [he] at he'; cases he'
  have hl := encodeBytes_length (pre :: (writeLong k.p ++ k.rest))
  have hr := k.rest_length h
  have hw := writeLong_length k.p
  have hb := be64_length (2 ^ 64 - 1 - ts.toNat)
  rw [encodeKey_eq ht] at he
  simp only [Option.some.injEq] at he
  simp only [List.length_cons, List.length_append] at hl
  have hle : e.length = (encodeBytes (pre :: (writeLong k.p ++ k.rest))).length + 8 := by
    rw [← he]; simp [hb]
  refine ⟨?_, ?_, ?_⟩
  · unfold plainOfTs truncateTs
    rw [if_pos (by omega), if_pos (by omega)]
    have : e.take (e.length - 8) = encodeBytes (pre :: (writeLong k.p ++ k.rest)) := by
      rw [hle, ← he]; simp
    rw [this]
    simp [decodeBytes_encodeBytes]
  · unfold truncateKey
    unfold truncateKeyForTs at h2
    rw [if_pos (by omega)]
    split at h2
    · cases h2
    · exact h2
  · intro; omega

theorem cons_append_lt (pre : UInt8) (w : Bytes) (r r' : Bytes) :
    pre :: (w ++ r) < pre :: (w ++ r') ↔ r < r' := by
  rw [cons_lt_iff, append_lt_append_left]
  constructor
  · rintro (h | ⟨_, h⟩)
    · exact absurd h (by simp)
    · exact h
  · intro h; exact Or.inr ⟨rfl, h⟩

theorem cons_writeLong_lt (pre : UInt8) {p p' : Int} (h0 : 0 < p) (h : p < p')
    (h1 : p' < 2 ^ 63) (r r' : Bytes) :
    pre :: (writeLong p ++ r) < pre :: (writeLong p' ++ r') := by
  rw [cons_lt_iff]
  exact Or.inr ⟨rfl, writeLong_lt (by omega) h h1 _ _⟩

theorem wlc_cons (i : Int) (s : Bytes) : ∃ b t, writeLongComparable i ++ s = b :: t := by
  have := writeLongComparable_length i
  cases h : writeLongComparable i with
  | nil => rw [h] at this; cases this
  | cons b t => exact ⟨b, t ++ s, rfl⟩

theorem wlc_lt_iff {i i' : Int} (h0 : 0 ≤ i) (h1 : i < 2 ^ 63) (h0' : 0 ≤ i') (h1' : i' < 2 ^ 63)
    (s s' : Bytes) :
    writeLongComparable i ++ s < writeLongComparable i' ++ s' ↔ i < i' ∨ i = i' ∧ s < s' := by
  rcases Int.lt_trichotomy i i' with h | h | h
  · exact ⟨fun _ => Or.inl h, fun _ => writeLongComparable_lt (by omega) h h1' _ _⟩
  · subst h
    rw [append_lt_append_left]
    exact ⟨fun h => Or.inr ⟨rfl, h⟩, fun h => h.elim (fun h => absurd h (by omega)) (·.2)⟩
  · have := writeLongComparable_lt (by omega) h h1 s' s
    exact ⟨fun h' => absurd this (lt_asymm h'), fun h' => by omega⟩

theorem VKey.lt_iff (pre : UInt8) {k k' : VKey} (h : k.Valid) (h' : k'.Valid) :
    pre :: (writeLong k.p ++ k.rest) < pre :: (writeLong k'.p ++ k'.rest) ↔
      k.p < k'.p ∨ k.p = k'.p ∧ k.rest < k'.rest := by
  have hp := h.p_pos
  have hp' := h'.p_pos
  rcases Int.lt_trichotomy k.p k'.p with e | e | e
  · exact ⟨fun _ => Or.inl e, fun _ => cons_writeLong_lt pre hp.1 e hp'.2 _ _⟩
  · rw [e, cons_append_lt]
    exact ⟨fun h => Or.inr ⟨rfl, h⟩, fun h => h.elim (fun h => absurd h (by omega)) (·.2)⟩
  · have := cons_writeLong_lt pre hp'.1 e hp.2 k'.rest k.rest
    exact ⟨fun h' => absurd this (lt_asymm h'), fun h' => by omega⟩

theorem VKey.rest_lt_iff {k k' : VKey} (h : k.Valid) (h' : k'.Valid) :
    (k.p < k'.p ∨ k.p = k'.p ∧ k.rest < k'.rest) ↔ k.before k' := by
  have nl : ∀ l : Bytes, ¬ l < [] := fun l => List.not_lt_nil l
  have pos : ∀ (i : Int) (s : Bytes), [] < writeLongComparable i ++ s := fun i s => by
    obtain ⟨b, t, e⟩ := wlc_cons i s
    rw [e]; exact List.nil_lt_cons b t
  cases k <;> cases k' <;> simp only [VKey.Valid] at h h' <;>
    simp only [VKey.p, VKey.rest, VKey.before, nl, and_false, or_false]
  · rename_i p p' i
    have := pos i []
    simp only [List.append_nil] at this
    simp only [this, and_true]; omega
  · rename_i p p' i s
    simp only [pos i s, and_true]; omega
  · rename_i p i p' i'
    have := wlc_lt_iff (i := i) (i' := i') h.2.2.1 h.2.2.2 h'.2.2.1 h'.2.2.2 [] []
    simp only [List.append_nil, nl, and_false, or_false] at this
    rw [this]
  · rename_i p i p' i' s
    have := wlc_lt_iff (i := i) (i' := i') h.2.2.1 h.2.2.2 h'.2.2.1 h'.2.2.2.1 [] s
    have hs : [] < s := by
      cases s with
      | nil => exact absurd rfl h'.2.2.2.2
      | cons b t => exact List.nil_lt_cons b t
    simp only [List.append_nil, hs, and_true] at this
    rw [this]; omega
  · rename_i p i s p' i'
    have := wlc_lt_iff (i := i) (i' := i') h.2.2.1 h.2.2.2.1 h'.2.2.1 h'.2.2.2 s []
    simp only [List.append_nil, nl, and_false, or_false] at this
    rw [this]
  · rename_i p i s p' i' s'
    rw [wlc_lt_iff (i := i) (i' := i') h.2.2.1 h.2.2.2.1 h'.2.2.1 h'.2.2.2.1 s s']

theorem VKey.bytes_lt {pre : UInt8} (hp : pre ≠ 0) {k k' : VKey} (h : k.Valid) (h' : k'.Valid)
    {b b' : Bytes} (hb : k.bytes pre = some b) (hb' : k'.bytes pre = some b') :
    b < b' ↔ k.before k' := by
  rw [VKey.bytes_eq hp h] at hb
  rw [VKey.bytes_eq hp h'] at hb'
  cases hb; cases hb'
  rw [VKey.lt_iff pre h h', VKey.rest_lt_iff h h']

theorem VKey.before_total {k k' : VKey} (h : k.Valid) (h' : k'.Valid) (h1 : ¬ k.before k')
    (h2 : ¬ k'.before k) : k = k' := by
  cases k <;> cases k' <;> simp only [VKey.before, VKey.Valid] at h h' h1 h2
  · congr 1; omega
  · omega
  · omega
  · omega
  · simp only [VKey.id.injEq]; omega
  · omega
  · omega
  · omega
  · rename_i p i s p' i' s'
    have hp : p = p' := by omega
    have hi : i = i' := by omega
    subst hp; subst hi
    rcases lt_trichotomy s s' with e | e | e
    · exact absurd (Or.inr ⟨rfl, Or.inr ⟨rfl, e⟩⟩) h1
    · rw [e]
    · exact absurd (Or.inr ⟨rfl, Or.inr ⟨rfl, e⟩⟩) h2

theorem VKey.before_irrefl (k : VKey) : ¬ k.before k := by
  cases k <;> simp [VKey.before, lt_irrefl]

theorem VKey.bytes_inj {pre : UInt8} (hp : pre ≠ 0) {k k' : VKey} (h : k.Valid) (h' : k'.Valid)
    (hb : k.bytes pre = k'.bytes pre) : k = k' := by
  obtain ⟨b, e⟩ : ∃ b, k.bytes pre = some b := ⟨_, VKey.bytes_eq hp h⟩
  have e' : k'.bytes pre = some b := by rw [← hb]; exact e
  refine VKey.before_total h h' ?_ ?_
  · rw [← VKey.bytes_lt hp h h' e e']; exact lt_irrefl b
  · rw [← VKey.bytes_lt hp h' h e' e]; exact lt_irrefl b

/-- Id of a logical key, 0 for a partition. -/
def VKey.i : VKey → Int
  | .part _ => 0
  | .id _ i => i
  | .scalar _ i _ => i

theorem VKey.id_bytes {pre : UInt8} {k : VKey} (h : k.Valid) :
    unPackageId (pre :: (writeLong k.p ++ k.rest)) =
      some k.i := by
  cases k with
  | part p => exact unPackageId_part
  | id p i =>
    have := unPackageId_bytes (pre := pre) (p := p) (i := i) h.2.2.1 h.2.2.2 []
    rwa [List.append_nil] at this
  | scalar p i s => exact unPackageId_bytes h.2.2.1 h.2.2.2.1 s

theorem rangeToIds_eq {pre : UInt8} {ks ke : VKey} (hs : ks.Valid) (he : ke.Valid) :
    rangeToIds (pre :: (writeLong ks.p ++ ks.rest)) (pre :: (writeLong ke.p ++ ke.rest)) =
      some (ks.i, if ke.i = 0 ∧ ks.p < ke.p then i64Max else ke.i) := by
  unfold rangeToIds
  rw [VKey.id_bytes hs, VKey.id_bytes he, unPackagePart_bytes hs.p_pos.1 hs.p_pos.2,
    unPackagePart_bytes he.p_pos.1 he.p_pos.2]
  dsimp only
  by_cases h : ke.i = 0
  · by_cases h' : ks.p < ke.p
    · simp [h, h']
    · simp [h, h']
  · simp [h]

end Verif.Codec
