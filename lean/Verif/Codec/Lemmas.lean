import Verif.Codec.Model

/-! # Lemmas about the byte codecs -/

namespace Verif.Codec

/-! ## Lexicographic order -/

theorem cons_lt_iff {a b : UInt8} {l m : Bytes} :
    a :: l < b :: m ↔ a < b ∨ a = b ∧ l < m := List.cons_lt_cons_iff

theorem append_lt_append_left (p : Bytes) {l m : Bytes} : p ++ l < p ++ m ↔ l < m := by
  induction p with
  | nil => simp
  | cons a p ih =>
    simp only [List.cons_append, cons_lt_iff]
    constructor
    · rintro (h | ⟨_, h⟩)
      · exact absurd h (UInt8.lt_irrefl _)
      · exact ih.1 h
    · intro h; exact Or.inr ⟨trivial, ih.2 h⟩

theorem lt_irrefl (l : Bytes) : ¬ l < l := List.lt_irrefl l

theorem lt_trichotomy (l m : Bytes) : l < m ∨ l = m ∨ m < l := by
  rcases Decidable.em (l < m) with h | h
  · exact Or.inl h
  · rcases Decidable.em (m < l) with h' | h'
    · exact Or.inr (Or.inr h')
    · exact Or.inr (Or.inl (List.le_antisymm (List.not_lt.1 h') (List.not_lt.1 h)))

theorem lt_trans {l m n : Bytes} (h : l < m) (h' : m < n) : l < n := List.lt_trans h h'

theorem lt_asymm {l m : Bytes} (h : l < m) : ¬ m < l := fun h' => lt_irrefl _ (lt_trans h h')

/-- If two lists of equal length are ordered, any suffixes keep the order. -/
theorem append_lt_append_of_lt {l m : Bytes} (hl : l.length = m.length) (h : l < m)
    (s t : Bytes) : l ++ s < m ++ t := by
  induction l generalizing m with
  | nil => cases m with
    | nil => exact absurd h (lt_irrefl _)
    | cons => simp at hl
  | cons a l ih =>
    cases m with
    | nil => simp at hl
    | cons b m =>
      simp only [List.cons_append, cons_lt_iff] at *
      rcases h with h | ⟨h1, h2⟩
      · exact Or.inl h
      · exact Or.inr ⟨h1, ih (by simpa using hl) h2⟩

/-- The prefix order is below the lexicographic order. -/
theorem lt_append_cons (p : Bytes) (b : UInt8) (s : Bytes) : p < p ++ b :: s := by
  have h := (append_lt_append_left p (l := []) (m := b :: s)).2 (List.nil_lt_cons b s)
  simpa using h

theorem le_append (p s : Bytes) : p ≤ p ++ s := by
  cases s with
  | nil => simp
  | cons b s => exact List.le_of_lt (lt_append_cons p b s)

/-! ## Big-endian integers -/

/-- Big-endian digits, most significant first, recursively. -/
def beN : Nat → Nat → Bytes
  | 0, _ => []
  | k + 1, n => UInt8.ofNat (n / 256 ^ k) :: beN k n

theorem be64_eq (n : Nat) : be64 n = beN 8 n := by
  simp [be64, beN]

theorem beN_length (k n : Nat) : (beN k n).length = k := by
  induction k with
  | zero => rfl
  | succ k ih => simp [beN, ih]

theorem be64_length (n : Nat) : (be64 n).length = 8 := rfl

theorem toNat_ofNat (n : Nat) : (UInt8.ofNat n).toNat = n % 256 := by simp

theorem mod_pow_succ (n k : Nat) :
    n % 256 ^ (k + 1) = n % 256 ^ k + 256 ^ k * (n / 256 ^ k % 256) := by
  rw [Nat.pow_succ, Nat.mod_mul]

theorem foldl_beN (k n acc : Nat) :
    (beN k n).foldl (fun l b => l * 256 + b.toNat) acc = acc * 256 ^ k + n % 256 ^ k := by
  induction k generalizing acc with
  | zero => simp [beN, Nat.mod_one]
  | succ k ih =>
    simp only [beN, List.foldl_cons, ih, toNat_ofNat]
    rw [mod_pow_succ, Nat.add_mul, Nat.pow_succ, Nat.mul_assoc, Nat.mul_comm 256 (256 ^ k),
      Nat.mul_comm (n / 256 ^ k % 256)]
    omega

theorem fromBe_be64 {n : Nat} (h : n < 2 ^ 64) : fromBe (be64 n) = n := by
  rw [be64_eq, fromBe, foldl_beN]
  simp
  omega

theorem beN_lt {k n m : Nat} (h : n % 256 ^ k < m % 256 ^ k) (s t : Bytes) :
    beN k n ++ s < beN k m ++ t := by
  induction k with
  | zero => simp [Nat.mod_one] at h
  | succ k ih =>
    simp only [beN, List.cons_append, cons_lt_iff]
    rw [mod_pow_succ, mod_pow_succ] at h
    have hp : 0 < 256 ^ k := Nat.pow_pos (by decide)
    have hn := Nat.mod_lt n hp
    have hm := Nat.mod_lt m hp
    rw [UInt8.lt_iff_toNat_lt, ← UInt8.toNat_inj, toNat_ofNat, toNat_ofNat]
    rcases Nat.lt_trichotomy (n / 256 ^ k % 256) (m / 256 ^ k % 256) with h1 | h1 | h1
    · exact Or.inl h1
    · refine Or.inr ⟨h1, ih ?_⟩
      rw [h1] at h; omega
    · exfalso
      have := Nat.mul_le_mul_left (256 ^ k) (Nat.succ_le_of_lt h1)
      rw [Nat.succ_eq_add_one, Nat.mul_add, Nat.mul_one] at this
      omega

theorem be64_lt {n m : Nat} (hm : m < 2 ^ 64) (h : n < m) (s t : Bytes) :
    be64 n ++ s < be64 m ++ t := by
  rw [be64_eq, be64_eq]
  apply beN_lt
  rw [Nat.mod_eq_of_lt, Nat.mod_eq_of_lt] <;> omega

theorem be64_inj {n m : Nat} (hn : n < 2 ^ 64) (hm : m < 2 ^ 64) (h : be64 n = be64 m) : n = m := by
  have := congrArg fromBe h
  rwa [fromBe_be64 hn, fromBe_be64 hm] at this

theorem toU64_lt (v : Int) : toU64 v < 2 ^ 64 := by
  unfold toU64; omega

theorem toI64_toU64 {v : Int} (h1 : -2 ^ 63 ≤ v) (h2 : v < 2 ^ 63) : toI64 (toU64 v) = v := by
  unfold toI64 toU64; split <;> omega

theorem toU64_ofNat {n : Nat} (h : n < 2 ^ 64) : toU64 (n : Int) = n := by
  unfold toU64; omega

theorem readLong_append {v : Int} (h1 : -2 ^ 63 ≤ v) (h2 : v < 2 ^ 63) (s : Bytes) :
    readLong (writeLong v ++ s) = some v := by
  unfold readLong writeLong
  have hl := be64_length (toU64 v)
  rw [if_neg (by simp [hl])]
  rw [List.take_append_of_le_length (by omega), List.take_of_length_le (by omega),
    fromBe_be64 (toU64_lt v), toI64_toU64 h1 h2]

set_option maxRecDepth 10000 in
theorem xor_80 (b : UInt8) : (b ^^^ 0x80).toNat = (b.toNat + 128) % 256 := by
  have h : ∀ n, n < 256 → n ^^^ 128 = (n + 128) % 256 := by decide
  have := h b.toNat b.toNat_lt
  simpa using this

theorem xor_80_80 (b : UInt8) : b ^^^ 0x80 ^^^ 0x80 = b := by
  rw [← UInt8.toNat_inj, xor_80, xor_80]
  have := b.toNat_lt
  omega

theorem flipTop_flipTop (b : Bytes) : flipTop (flipTop b) = b := by
  cases b with
  | nil => rfl
  | cons a b => simp [flipTop, xor_80_80]

theorem flipTop_length (b : Bytes) : (flipTop b).length = b.length := by
  cases b <;> rfl

/-- Flipping the top bit is adding `2^63` modulo `2^64`. -/
theorem flipTop_be64 (n : Nat) : flipTop (be64 n) = be64 ((n + 2 ^ 63) % 2 ^ 64) := by
  simp only [be64, flipTop]
  simp only [List.cons.injEq, ← UInt8.toNat_inj, xor_80, toNat_ofNat, and_true]
  and_intros <;> omega

theorem writeLongComparable_eq (v : Int) :
    writeLongComparable v = be64 ((toU64 v + 2 ^ 63) % 2 ^ 64) := flipTop_be64 _

theorem writeLongComparable_length (v : Int) : (writeLongComparable v).length = 8 := by
  rw [writeLongComparable_eq]; rfl

theorem readLongComparable_append {v : Int} (h1 : -2 ^ 63 ≤ v) (h2 : v < 2 ^ 63) (s : Bytes) :
    readLongComparable (writeLongComparable v ++ s) = some v := by
  unfold readLongComparable
  have hl := writeLongComparable_length v
  rw [if_neg (by simp [hl])]
  rw [List.take_append_of_le_length (by omega), List.take_of_length_le (by omega)]
  unfold writeLongComparable
  rw [flipTop_flipTop, fromBe_be64 (toU64_lt v), toI64_toU64 h1 h2]

theorem writeLongComparable_lt {v w : Int} (h1 : -2 ^ 63 ≤ v) (h : v < w) (h2 : w < 2 ^ 63)
    (s t : Bytes) : writeLongComparable v ++ s < writeLongComparable w ++ t := by
  rw [writeLongComparable_eq, writeLongComparable_eq]
  apply be64_lt <;> (unfold toU64; omega)

theorem writeLong_lt {v w : Int} (h1 : 0 ≤ v) (h : v < w) (h2 : w < 2 ^ 63)
    (s t : Bytes) : writeLong v ++ s < writeLong w ++ t := by
  unfold writeLong
  apply be64_lt <;> (unfold toU64; omega)

/-- The timestamp suffix. -/
theorem writeLongWithNegation_eq {ts : Int} (h0 : 0 ≤ ts) (h : ts < 2 ^ 63) :
    writeLongWithNegation ts = some (be64 (2 ^ 64 - 1 - ts.toNat)) := by
  unfold writeLongWithNegation
  rw [if_neg (by omega)]
  congr 2
  unfold toU64; omega

theorem readLongWithNegation_be64 {ts : Int} (h0 : 0 ≤ ts) (h : ts < 2 ^ 63) :
    readLongWithNegation (be64 (2 ^ 64 - 1 - ts.toNat)) = some ts := by
  unfold readLongWithNegation readLong
  simp only [be64_length, Nat.lt_irrefl, if_false, Option.map_some, Option.some.injEq]
  rw [List.take_of_length_le (by simp [be64_length]), fromBe_be64 (by omega)]
  unfold toI64
  rw [if_neg (by omega)]
  omega

/-! ## `EncodeBytes` -/

theorem encodeBytes_short {k : Bytes} (h : k.length < 8) :
    encodeBytes k =
      k ++ List.replicate (8 - k.length) 0 ++ [UInt8.ofNat (255 - (8 - k.length))] := by
  rw [encodeBytes, dif_pos h]

theorem encodeBytes_long {k : Bytes} (h : 8 ≤ k.length) :
    encodeBytes k = k.take 8 ++ (255 : UInt8) :: encodeBytes (k.drop 8) := by
  rw [encodeBytes, dif_neg (by omega)]

theorem encodeBytes_length (k : Bytes) : (encodeBytes k).length = (k.length / 8 + 1) * 9 := by
  fun_induction encodeBytes k with
  | case1 k h => simp; omega
  | case2 k h ih => simp [ih]; omega

/-- Induction principle used for `encodeBytes`. -/
theorem groups_induction {P : Bytes → Prop}
    (short : ∀ k, k.length < 8 → P k)
    (long : ∀ k, 8 ≤ k.length → P (k.drop 8) → P k) (k : Bytes) : P k := by
  fun_induction encodeBytes k with
  | case1 k h => exact short k h
  | case2 k h ih => exact long k (by omega) ih

/-- The last byte is never `0xff`; it lies in `[247, 254]`. -/
theorem encodeBytes_last (k : Bytes) :
    ∃ p b, encodeBytes k = p ++ [b] ∧ 247 ≤ b.toNat ∧ b.toNat ≤ 254 := by
  induction k using groups_induction with
  | short k h =>
    refine ⟨_, _, encodeBytes_short h, ?_, ?_⟩ <;> simp <;> omega
  | long k h ih =>
    obtain ⟨p, b, hp, h1, h2⟩ := ih
    refine ⟨k.take 8 ++ 255 :: p, b, ?_, h1, h2⟩
    rw [encodeBytes_long h, hp]; simp

theorem encodeBytes_getLast? (k : Bytes) :
    ∃ b, (encodeBytes k).getLast? = some b ∧ b ≠ 255 := by
  obtain ⟨p, b, h, _, h2⟩ := encodeBytes_last k
  refine ⟨b, by simp [h], ?_⟩
  rintro rfl
  simp at h2

/-! ### Order -/

/-- Zero padding up to length `n`. -/
def pad : Nat → Bytes → Bytes
  | 0, _ => []
  | n + 1, [] => 0 :: pad n []
  | n + 1, b :: bs => b :: pad n bs

theorem pad_nil (n : Nat) : pad n [] = List.replicate n 0 := by
  induction n with
  | zero => rfl
  | succ n ih => simp [pad, ih, List.replicate_succ]

theorem pad_eq {n : Nat} {k : Bytes} (h : k.length ≤ n) :
    pad n k = k ++ List.replicate (n - k.length) 0 := by
  induction n generalizing k with
  | zero =>
    have : k = [] := List.length_eq_zero_iff.1 (by omega)
    simp [this, pad]
  | succ n ih =>
    cases k with
    | nil => rw [pad_nil]; simp
    | cons b k =>
      simp only [pad, List.cons_append, List.length_cons]
      rw [ih (by simpa using h)]
      congr 3
      omega

theorem pad_length (n : Nat) (k : Bytes) : (pad n k).length = n := by
  induction n generalizing k with
  | zero => rfl
  | succ n ih => cases k <;> simp [pad, ih]

theorem zero_le (b : UInt8) : (0 : UInt8) < b ∨ (0 : UInt8) = b := by
  rw [UInt8.lt_iff_toNat_lt, ← UInt8.toNat_inj]
  simp; omega

theorem pad_nil_lt {n : Nat} {b : Bytes} {ma mb : UInt8} (hm : ma < mb) (s t : Bytes) :
    pad n [] ++ ma :: s < pad n b ++ mb :: t := by
  induction n generalizing b with
  | zero => simp only [pad, List.nil_append, cons_lt_iff]; exact Or.inl hm
  | succ n ih =>
    cases b with
    | nil =>
      simp only [pad, List.cons_append, cons_lt_iff]
      exact Or.inr ⟨trivial, ih⟩
    | cons b bs =>
      simp only [pad, List.cons_append, cons_lt_iff]
      rcases zero_le b with h | h
      · exact Or.inl h
      · exact Or.inr ⟨h, ih⟩

/-- One padded group: order of the contents decides, then the marker. -/
theorem pad_lt {n : Nat} {a b : Bytes} {ma mb : UInt8} (hb : b.length ≤ n)
    (h : a < b) (hm : a.length < b.length → ma < mb) (s t : Bytes) :
    pad n a ++ ma :: s < pad n b ++ mb :: t := by
  induction n generalizing a b with
  | zero =>
    have : b = [] := List.length_eq_zero_iff.1 (by omega)
    subst this
    exact absurd h (List.not_lt_nil a)
  | succ n ih =>
    cases b with
    | nil => exact absurd h (List.not_lt_nil a)
    | cons b bs =>
      cases a with
      | nil => exact pad_nil_lt (hm (by simp)) s t
      | cons a as =>
        simp only [pad, List.cons_append, cons_lt_iff] at *
        rcases h with h | ⟨h1, h2⟩
        · exact Or.inl h
        · exact Or.inr ⟨h1, ih (by simpa using hb) h2 (fun h => hm (by simpa using h))⟩

theorem take_lt_of_short {a b : Bytes} {n : Nat} (h : a < b) (ha : a.length < n) :
    a < b.take n := by
  induction n generalizing a b with
  | zero => omega
  | succ n ih =>
    cases b with
    | nil => exact absurd h (List.not_lt_nil a)
    | cons b bs =>
      cases a with
      | nil => exact List.nil_lt_cons _ _
      | cons a as =>
        simp only [List.take_succ_cons, cons_lt_iff] at *
        rcases h with h | ⟨h1, h2⟩
        · exact Or.inl h
        · exact Or.inr ⟨h1, ih h2 (by simpa using ha)⟩

theorem take_lt_of_long {a b : Bytes} {n : Nat} (h : a < b) (ha : n ≤ a.length) (hb : b.length < n) :
    a.take n < b := by
  induction n generalizing a b with
  | zero => omega
  | succ n ih =>
    cases b with
    | nil => exact absurd h (List.not_lt_nil a)
    | cons b bs =>
      cases a with
      | nil => simp at ha
      | cons a as =>
        simp only [List.take_succ_cons, cons_lt_iff] at *
        rcases h with h | ⟨h1, h2⟩
        · exact Or.inl h
        · exact Or.inr ⟨h1, ih h2 (by simpa using ha) (by simpa using hb)⟩

theorem take_drop_lt {a b : Bytes} {n : Nat} (h : a < b) (ha : n ≤ a.length) (hb : n ≤ b.length) :
    a.take n < b.take n ∨ a.take n = b.take n ∧ a.drop n < b.drop n := by
  induction n generalizing a b with
  | zero => simpa using h
  | succ n ih =>
    cases b with
    | nil => exact absurd h (List.not_lt_nil a)
    | cons b bs =>
      cases a with
      | nil => simp at ha
      | cons a as =>
        simp only [List.take_succ_cons, List.drop_succ_cons, cons_lt_iff] at *
        rcases h with h | ⟨h1, h2⟩
        · exact Or.inl (Or.inl h)
        · rcases ih h2 (by simpa using ha) (by simpa using hb) with h3 | ⟨h3, h4⟩
          · exact Or.inl (Or.inr ⟨h1, h3⟩)
          · exact Or.inr ⟨by rw [h1, h3], h4⟩

theorem encodeBytes_short_pad {k : Bytes} (h : k.length < 8) :
    encodeBytes k = pad 8 k ++ [UInt8.ofNat (255 - (8 - k.length))] := by
  rw [encodeBytes_short h, pad_eq (by omega)]

theorem encodeBytes_long_pad {k : Bytes} (h : 8 ≤ k.length) :
    encodeBytes k = pad 8 (k.take 8) ++ (255 : UInt8) :: encodeBytes (k.drop 8) := by
  rw [encodeBytes_long h, pad_eq (by simp; omega)]
  have : (8 - (k.take 8).length) = 0 := by simp; omega
  rw [this]; simp

/-- The strong order lemma: whatever follows the encodings. -/
theorem encodeBytes_lt {k k' : Bytes} (h : k < k') (s t : Bytes) :
    encodeBytes k ++ s < encodeBytes k' ++ t := by
  induction k using groups_induction generalizing k' with
  | short k hk =>
    rw [encodeBytes_short_pad hk]
    rcases Nat.lt_or_ge k'.length 8 with hk' | hk'
    · rw [encodeBytes_short_pad hk']
      simp only [List.append_assoc, List.cons_append, List.nil_append]
      apply pad_lt (by omega) h
      intro hl
      rw [UInt8.lt_iff_toNat_lt, toNat_ofNat, toNat_ofNat]
      omega
    · rw [encodeBytes_long_pad hk']
      simp only [List.append_assoc, List.cons_append, List.nil_append]
      apply pad_lt (by simp; omega) (take_lt_of_short h hk)
      intro _
      rw [UInt8.lt_iff_toNat_lt, toNat_ofNat]
      show _ < 255
      omega
  | long k hk ih =>
    rw [encodeBytes_long_pad hk]
    rcases Nat.lt_or_ge k'.length 8 with hk' | hk'
    · rw [encodeBytes_short_pad hk']
      simp only [List.append_assoc, List.cons_append, List.nil_append]
      apply pad_lt (by omega) (take_lt_of_long h hk hk')
      intro hl
      simp at hl; omega
    · rw [encodeBytes_long_pad hk']
      simp only [List.append_assoc, List.cons_append]
      rcases take_drop_lt h hk hk' with h1 | ⟨h1, h2⟩
      · apply pad_lt (by simp; omega) h1
        intro hl
        simp at hl; omega
      · rw [h1, append_lt_append_left, cons_lt_iff]
        exact Or.inr ⟨rfl, ih h2⟩

theorem encodeBytes_inj {k k' : Bytes} (h : encodeBytes k = encodeBytes k') : k = k' := by
  rcases lt_trichotomy k k' with h1 | h1 | h1
  · have := encodeBytes_lt h1 [] []
    rw [h] at this
    exact absurd this (lt_irrefl _)
  · exact h1
  · have := encodeBytes_lt h1 [] []
    rw [h] at this
    exact absurd this (lt_irrefl _)

/-- Encodings are prefix free. -/
theorem encodeBytes_append_inj {k k' s t : Bytes} (h : encodeBytes k ++ s = encodeBytes k' ++ t) :
    k = k' ∧ s = t := by
  have hk : k = k' := by
    rcases lt_trichotomy k k' with h1 | h1 | h1
    · have := encodeBytes_lt h1 s t
      rw [h] at this
      exact absurd this (lt_irrefl _)
    · exact h1
    · have := encodeBytes_lt h1 t s
      rw [h] at this
      exact absurd this (lt_irrefl _)
  subst hk
  exact ⟨rfl, List.append_cancel_left h⟩

/-! ### Decoding -/

theorem checkZeros_replicate (n : Nat) (s : Bytes) :
    checkZeros n (List.replicate n 0 ++ s) = .ok () := by
  induction n with
  | zero => cases s <;> rfl
  | succ n ih => simp [List.replicate_succ, checkZeros, ih]

theorem checkZeros_ok {n : Nat} {e : Bytes} (h : checkZeros n e = .ok ()) :
    ∃ s, e = List.replicate n 0 ++ s := by
  induction n generalizing e with
  | zero => exact ⟨e, by simp⟩
  | succ n ih =>
    cases e with
    | nil => simp [checkZeros] at h
    | cons b e =>
      simp only [checkZeros] at h
      split at h
      · cases h
      · rename_i hb
        obtain ⟨s, hs⟩ := ih h
        refine ⟨s, ?_⟩
        simp only [ne_eq, Decidable.not_not] at hb
        rw [hb, hs]; simp [List.replicate_succ]

/-- Decoding an encoding followed by anything (the rest is ignored). -/
theorem decodeLoop_encodeBytes (k s out : Bytes) :
    decodeLoop (encodeBytes k ++ s) out = .ok (out ++ k) := by
  induction k using groups_induction generalizing out with
  | short k h =>
    rw [encodeBytes_short h, decodeLoop, dif_neg (by simp)]
    have h8 : (k ++ List.replicate (8 - k.length) (0 : UInt8) ++
        [UInt8.ofNat (255 - (8 - k.length))] ++ s)[8]? =
        some (UInt8.ofNat (255 - (8 - k.length))) := by
      rw [List.append_assoc, List.getElem?_append_right (by simp; omega)]
      simp
      have : 8 - (k.length + (8 - k.length)) = 0 := by omega
      rw [this]; rfl
    rw [h8]
    have hp : 255 - (UInt8.ofNat (255 - (8 - k.length))).toNat = 8 - k.length := by
      rw [toNat_ofNat]; omega
    simp only [hp]
    rw [if_neg (by omega)]
    have hd : (k ++ List.replicate (8 - k.length) (0 : UInt8) ++
        [UInt8.ofNat (255 - (8 - k.length))] ++ s).drop (8 - (8 - k.length)) =
        List.replicate (8 - k.length) 0 ++ ([UInt8.ofNat (255 - (8 - k.length))] ++ s) := by
      have : 8 - (8 - k.length) = k.length := by omega
      rw [this]; simp
    have ht : (k ++ List.replicate (8 - k.length) (0 : UInt8) ++
        [UInt8.ofNat (255 - (8 - k.length))] ++ s).take (8 - (8 - k.length)) = k := by
      have : 8 - (8 - k.length) = k.length := by omega
      rw [this]; simp
    rw [hd, ht, checkZeros_replicate]
  | long k h ih =>
    rw [encodeBytes_long h, decodeLoop, dif_neg (by simp)]
    have hl : (k.take 8).length = 8 := by simp; omega
    have h8 : (k.take 8 ++ (255 : UInt8) :: encodeBytes (k.drop 8) ++ s)[8]? = some 255 := by
      rw [List.append_assoc, List.getElem?_append_right (by omega), hl]; rfl
    rw [h8]
    have hd : (k.take 8 ++ (255 : UInt8) :: encodeBytes (k.drop 8) ++ s).drop 9 =
        encodeBytes (k.drop 8) ++ s := by
      rw [List.append_assoc, List.drop_append, hl, List.drop_eq_nil_of_le (by omega)]; simp
    have ht : (k.take 8 ++ (255 : UInt8) :: encodeBytes (k.drop 8) ++ s).take 8 = k.take 8 := by
      rw [List.append_assoc, List.take_append, hl, List.take_of_length_le (by omega)]; simp
    simp only [hd, ht]
    rw [if_pos (by decide), ih]
    simp

theorem decodeBytes_encodeBytes (k : Bytes) : decodeBytes (encodeBytes k) = .ok k := by
  unfold decodeBytes
  rw [if_neg (by rw [encodeBytes_length]; omega)]
  obtain ⟨b, hb, hne⟩ := encodeBytes_getLast? k
  simp only [hb, if_neg hne]
  have := decodeLoop_encodeBytes k [] []
  simpa using this

/-- What an accepted input looks like: either it starts with the canonical
encoding of the result, or it uses an over-long padding count (marker below
247), in which case the bytes after the last full group start with `pad > 8`
zeros. -/
theorem decodeLoop_ok {e out r : Bytes} (h : decodeLoop e out = .ok r)
    (hm : ∀ i b, e[i]? = some b → i % 9 = 8 → 247 ≤ b.toNat) (hl : e.length % 9 = 0)
    (hlast : ∃ b, e.getLast? = some b ∧ b ≠ 255) :
    ∃ k s, r = out ++ k ∧ e = encodeBytes k ++ s := by
  fun_induction decodeLoop e out with
  | case1 e out h0 =>
    exfalso
    obtain ⟨b, hb, _⟩ := hlast
    have : e = [] := List.length_eq_zero_iff.1 h0
    subst this
    simp at hb
  | case2 e out h0 h1 => cases h
  | case3 e out h0 marker h1 pad hp ih =>
    have hlen : 8 < e.length := by
      rcases Nat.lt_or_ge 8 e.length with h' | h'
      · exact h'
      · rw [List.getElem?_eq_none h'] at h1; cases h1
    have hmk : marker = 255 := by
      have : marker.toNat = 255 := by have := marker.toNat_lt; omega
      rw [← UInt8.toNat_inj]; simpa using this
    have hsplit : e = e.take 8 ++ marker :: e.drop 9 := by
      conv => lhs; rw [← List.take_append_drop 8 e]
      congr 1
      rw [List.drop_eq_getElem_cons hlen]
      congr 1
      have := List.getElem?_eq_getElem hlen
      rw [h1] at this
      exact (Option.some.inj this).symm
    have hrest : e.drop 9 ≠ [] := by
      intro h'
      rw [h'] at hsplit
      obtain ⟨b, hb, hne⟩ := hlast
      rw [hsplit] at hb
      simp at hb
      exact hne (by rw [← hb, hmk])
    obtain ⟨k, s, hr, he⟩ := ih h
      (by
        intro i b hb hi
        rw [List.getElem?_drop] at hb
        exact hm (9 + i) b hb (by omega))
      (by rw [List.length_drop]; omega)
      (by
        obtain ⟨b, hb, hne⟩ := hlast
        refine ⟨b, ?_, hne⟩
        rw [List.getLast?_drop, if_neg, hb]
        intro h'
        exact hrest (List.drop_eq_nil_of_le h'))
    have hl8 : (e.take 8).length = 8 := by simp; omega
    refine ⟨e.take 8 ++ k, s, by rw [hr]; simp, ?_⟩
    rw [encodeBytes_long (by simp; omega)]
    have h1' : (e.take 8 ++ k).take 8 = e.take 8 := by rw [List.take_append, hl8, List.take_of_length_le (by omega)]; simp
    have h2' : (e.take 8 ++ k).drop 8 = k := by rw [List.drop_append, hl8]; simp
    rw [h1', h2', List.append_assoc, List.cons_append, ← he]
    rw [hmk] at hsplit
    exact hsplit
  | case4 e out h0 marker h1 pad hp h2 =>
    have hlen : 8 < e.length := by
      rcases Nat.lt_or_ge 8 e.length with h' | h'
      · exact h'
      · rw [List.getElem?_eq_none h'] at h1; cases h1
    have hmk : 247 ≤ marker.toNat := hm 8 marker h1 (by decide)
    have hmk' := marker.toNat_lt
    have hpad : pad = 255 - marker.toNat := rfl
    obtain ⟨s, hs⟩ := checkZeros_ok h2
    refine ⟨e.take (8 - pad), s.drop 1, by cases h; rfl, ?_⟩
    have hsplit : e = e.take (8 - pad) ++ (List.replicate pad 0 ++ s) := by
      rw [← hs]; simp
    have hl : (e.take (8 - pad)).length = 8 - pad := by simp; omega
    have hs1 : s = marker :: s.drop 1 := by
      rw [hsplit, List.getElem?_append_right (by omega), hl,
        List.getElem?_append_right (by simp; omega)] at h1
      have : 8 - (8 - pad) - (List.replicate pad (0 : UInt8)).length = 0 := by simp; omega
      rw [this] at h1
      cases s with
      | nil => simp at h1
      | cons a s => simp at h1; simp [h1]
    rw [encodeBytes_short (by omega), hl]
    have h3 : 8 - (8 - pad) = pad := by omega
    have h4 : UInt8.ofNat (255 - pad) = marker := by
      rw [← UInt8.toNat_inj, toNat_ofNat]; omega
    rw [h3, h4]
    conv => lhs; rw [hsplit, hs1]
    simp
  | case5 => cases h
  | case6 => cases h

end Verif.Codec
