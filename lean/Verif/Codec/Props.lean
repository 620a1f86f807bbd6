import Verif.Codec.Prefix

/-!
# Properties C01–C05, C42: key and value encodings

Specification vocabulary: user keys are byte lists under `<`; a timestamp is
`ValidTs` when it is a non-negative `int64_t`.  Everything else is the codec API.
-/

namespace Verif.Codec

/-- A timestamp the store can be given: a non-negative `int64_t`. -/
def ValidTs (ts : Int) : Prop := 0 ≤ ts ∧ ts < 2 ^ 63

theorem encodeKey_eq {k : Bytes} {ts : Int} (h : ValidTs ts) :
    encodeKey k ts = some (encodeBytes k ++ be64 (2 ^ 64 - 1 - ts.toNat)) := by
  simp [encodeKey, writeLongWithNegation_eq h.1 h.2]

/-! ## C01 -/

/-- C01: every key and timestamp encodes, and decodes to itself. -/
theorem C01_key_roundtrip (k : Bytes) (ts : Int) (h : ValidTs ts) :
    ∃ e, encodeKey k ts = some e ∧ decodeKey e = .ok (k, ts) := by
  refine ⟨_, encodeKey_eq h, ?_⟩
  have hl := encodeBytes_length k
  have hl' := be64_length (2 ^ 64 - 1 - ts.toNat)
  unfold decodeKey
  have hd : (encodeBytes k ++ be64 (2 ^ 64 - 1 - ts.toNat)).length - 8 = (encodeBytes k).length := by
    simp [hl']
  rw [if_neg (by simp [hl, hl']; omega), hd]
  simp only [List.take_left, List.drop_left]
  simp only [decodeBytes_encodeBytes, readLongWithNegation_be64 h.1 h.2]

/-- C01: timestamp-less encodings round-trip too. -/
theorem C01_bytes_roundtrip (k : Bytes) : decodeBytes (encodeBytes k) = .ok k :=
  decodeBytes_encodeBytes k

/-- C01: two different (key, timestamp) pairs never share a stored key. -/
theorem C01_key_injective (k k' : Bytes) (ts ts' : Int) (h : ValidTs ts) (h' : ValidTs ts')
    (he : encodeKey k ts = encodeKey k' ts') : k = k' ∧ ts = ts' := by
  obtain ⟨e, h1, h2⟩ := C01_key_roundtrip k ts h
  obtain ⟨e', h1', h2'⟩ := C01_key_roundtrip k' ts' h'
  rw [h1, h1'] at he
  cases he
  rw [h2] at h2'
  cases h2'
  exact ⟨rfl, rfl⟩

/-- C01: the two halves of a stored key can be taken apart without decoding. -/
theorem C01_truncate (k : Bytes) (ts : Int) (h : ValidTs ts) :
    ∃ e, encodeKey k ts = some e ∧ truncateTsForKey e = some (encodeBytes k) ∧
      truncateKeyForTs e = some ts := by
  refine ⟨_, encodeKey_eq h, ?_⟩
  have hl := encodeBytes_length k
  have hl' := be64_length (2 ^ 64 - 1 - ts.toNat)
  have hd : (encodeBytes k ++ be64 (2 ^ 64 - 1 - ts.toNat)).length - 8 = (encodeBytes k).length := by
    simp [hl']
  constructor
  · unfold truncateTsForKey
    rw [if_neg (by simp [hl, hl']; omega), hd, List.take_left]
  · unfold truncateKeyForTs
    rw [if_neg (by simp [hl, hl']; omega), hd, List.drop_left, readLongWithNegation_be64 h.1 h.2]

example : ValidTs 449912345678901234 ∧
    decodeKey ((encodeKey [0, 255, 1, 2, 3, 4, 5, 6, 7] 449912345678901234).getD []) =
      .ok ([0, 255, 1, 2, 3, 4, 5, 6, 7], 449912345678901234) := by
  constructor
  · constructor <;> decide
  · obtain ⟨e, h1, h2⟩ := C01_key_roundtrip [0, 255, 1, 2, 3, 4, 5, 6, 7] 449912345678901234
      (by constructor <;> decide)
    rw [h1]; exact h2

/-! ## C02 -/

/-- C02: byte order of stored keys = (key ascending, timestamp descending). -/
theorem C02_order (k k' : Bytes) (ts ts' : Int) (h : ValidTs ts) (h' : ValidTs ts') (e e' : Bytes)
    (he : encodeKey k ts = some e) (he' : encodeKey k' ts' = some e') :
    e < e' ↔ k < k' ∨ (k = k' ∧ ts' < ts) := by
  rw [encodeKey_eq h] at he
  rw [encodeKey_eq h'] at he'
  cases he; cases he'
  obtain ⟨h0, h1⟩ := h
  obtain ⟨h0', h1'⟩ := h'
  have key : ∀ (a b : Int), 0 ≤ a → a < 2 ^ 63 → 0 ≤ b → b < a →
      be64 (2 ^ 64 - 1 - a.toNat) < be64 (2 ^ 64 - 1 - b.toNat) := by
    intro a b ha ha' hb hab
    have := be64_lt (n := 2 ^ 64 - 1 - a.toNat) (m := 2 ^ 64 - 1 - b.toNat)
      (by omega) (by omega) [] []
    simpa using this
  constructor
  · intro hlt
    rcases lt_trichotomy k k' with hk | hk | hk
    · exact Or.inl hk
    · subst hk
      refine Or.inr ⟨rfl, ?_⟩
      rw [append_lt_append_left] at hlt
      rcases Int.lt_trichotomy ts' ts with h2 | h2 | h2
      · exact h2
      · subst h2; exact absurd hlt (lt_irrefl _)
      · exact absurd hlt (lt_asymm (key ts' ts h0' h1' h0 h2))
    · exact absurd hlt (lt_asymm (encodeBytes_lt hk _ _))
  · rintro (hk | ⟨rfl, hts⟩)
    · exact encodeBytes_lt hk _ _
    · rw [append_lt_append_left]
      exact key ts ts' h0 h1 h0' hts

/-- C02: the versions of one user key are contiguous. -/
theorem C02_contiguous (k k' : Bytes) (t1 t2 t3 : Int) (e1 e2 e3 : Bytes)
    (h1 : ValidTs t1) (h2 : ValidTs t2) (h3 : ValidTs t3)
    (he1 : encodeKey k t1 = some e1) (he2 : encodeKey k' t2 = some e2)
    (he3 : encodeKey k t3 = some e3) (h12 : e1 < e2) (h23 : e2 < e3) : k' = k := by
  rw [C02_order k k' t1 t2 h1 h2 e1 e2 he1 he2] at h12
  rw [C02_order k' k t2 t3 h2 h3 e2 e3 he2 he3] at h23
  rcases h12 with h12 | ⟨h12, _⟩
  · rcases h23 with h23 | ⟨h23, _⟩
    · exact absurd h12 (lt_asymm h23)
    · exact h23
  · exact h12.symm

/-- C02 for timestamp-less encodings (used for ranges and region boundaries). -/
theorem C02_bytes_order (k k' : Bytes) : encodeBytes k < encodeBytes k' ↔ k < k' := by
  constructor
  · intro h
    rcases lt_trichotomy k k' with hk | hk | hk
    · exact hk
    · subst hk; exact absurd h (lt_irrefl _)
    · have := encodeBytes_lt hk [] []
      simp only [List.append_nil] at this
      exact absurd h (lt_asymm this)
  · intro h
    have := encodeBytes_lt h [] []
    simpa using this

-- a key that is a proper prefix of another one, and two versions of it
example : (∃ e e', encodeKey [1, 2] 5 = some e ∧ encodeKey [1, 2, 0] 9 = some e' ∧ e < e') ∧
    (∃ e e', encodeKey [1, 2] 9 = some e ∧ encodeKey [1, 2] 5 = some e' ∧ e < e') := by
  have v5 : ValidTs 5 := by constructor <;> decide
  have v9 : ValidTs 9 := by constructor <;> decide
  refine ⟨⟨_, _, encodeKey_eq v5, encodeKey_eq v9, ?_⟩, ⟨_, _, encodeKey_eq v9, encodeKey_eq v5, ?_⟩⟩
  · exact (C02_order _ _ _ _ v5 v9 _ _ (encodeKey_eq v5) (encodeKey_eq v9)).2 (Or.inl (by decide))
  · exact (C02_order _ _ _ _ v9 v5 _ _ (encodeKey_eq v9) (encodeKey_eq v5)).2 (Or.inr (by decide))

/-! ## C03 -/

/-- C03: a stored version lies in the encoded range iff its user key lies in
the user range. -/
theorem C03_range (start stop k : Bytes) (ts : Int) (h : ValidTs ts) (e : Bytes)
    (he : encodeKey k ts = some e) :
    ((encodeRange (start, stop)).1 ≤ e ∧ e < (encodeRange (start, stop)).2) ↔
      (start ≤ k ∧ k < stop) := by
  rw [encodeKey_eq h] at he
  cases he
  simp only [encodeRange]
  constructor
  · rintro ⟨h1, h2⟩
    constructor
    · rw [← List.not_lt]
      intro hk
      have := encodeBytes_lt hk (be64 (2 ^ 64 - 1 - ts.toNat)) []
      rw [List.append_nil] at this
      exact absurd this (List.not_lt.2 h1)
    · rcases lt_trichotomy k stop with hk | hk | hk
      · exact hk
      · subst hk
        exact absurd h2 (List.not_lt.2 (le_append _ _))
      · have := encodeBytes_lt hk [] (be64 (2 ^ 64 - 1 - ts.toNat))
        rw [List.append_nil] at this
        exact absurd h2 (lt_asymm this)
  · rintro ⟨h1, h2⟩
    constructor
    · rw [le_iff_lt_or_eq] at h1
      rcases h1 with h1 | h1
      · have := encodeBytes_lt h1 [] (be64 (2 ^ 64 - 1 - ts.toNat))
        rw [List.append_nil] at this
        exact List.le_of_lt this
      · subst h1; exact le_append _ _
    · have := encodeBytes_lt h2 (be64 (2 ^ 64 - 1 - ts.toNat)) []
      rwa [List.append_nil] at this

/-- C03, point form: the iterator bounds `[EncodeBytes k, PrefixNext(EncodeBytes k))`
used by point reads contain exactly the versions of `k`. -/
theorem C03_point (k k' : Bytes) (ts : Int) (h : ValidTs ts) (e : Bytes)
    (he : encodeKey k' ts = some e) :
    (encodeBytes k ≤ e ∧ e < prefixNext (encodeBytes k)) ↔ k' = k := by
  rw [encodeKey_eq h] at he
  cases he
  obtain ⟨p, b, hp, _, hb⟩ := encodeBytes_last k
  have hb' : b ≠ 255 := by rintro rfl; simp at hb
  rw [hp, prefixNext_append p hb', between_succ p hb', ← hp]
  constructor
  · rintro ⟨t, ht⟩
    exact (encodeBytes_append_inj ht.symm).1
  · rintro rfl
    exact List.prefix_append _ _

-- a key inside and one outside of a user range, at some version
example : ((encodeRange ([1], [2])).1 ≤ encodeBytes [1, 255] ++ be64 (2 ^ 64 - 1 - 7) ∧
    encodeBytes [1, 255] ++ be64 (2 ^ 64 - 1 - 7) < (encodeRange ([1], [2])).2) ∧
    ¬ ((encodeRange ([1], [2])).1 ≤ encodeBytes [2] ++ be64 (2 ^ 64 - 1 - 7) ∧
    encodeBytes [2] ++ be64 (2 ^ 64 - 1 - 7) < (encodeRange ([1], [2])).2) := by
  have v : ValidTs 7 := by constructor <;> decide
  refine ⟨(C03_range [1] [2] [1, 255] 7 v _ (encodeKey_eq v)).2 (by decide), fun hh => ?_⟩
  exact absurd ((C03_range [1] [2] [2] 7 v _ (encodeKey_eq v)).1 hh) (by decide)

/-! ## C04 -/

/-- An `int64_t`. -/
def IsI64 (v : Int) : Prop := -2 ^ 63 ≤ v ∧ v < 2 ^ 63

/-- C04: unpacking a packaged value returns the same kind, TTL and value. -/
theorem C04_value_roundtrip (flag : ValueFlag) (ttl : Int) (v : Bytes) (h : IsI64 ttl) :
    unPackageValueTTL (packageValue flag ttl v) =
      some (match flag with
        | .put => (.put, 0, v)
        | .putTTL => (.putTTL, ttl, v)
        | .delete => (.delete, 0, [])) ∧
    unPackageValue (packageValue flag ttl v) = some (if flag = .delete then [] else v) ∧
    getValueFlag (packageValue flag ttl v) = some flag := by
  cases flag with
  | put => simp [unPackageValueTTL, unPackageValue, packageValue, getValueFlag, ValueFlag.byte]
  | delete => simp [unPackageValueTTL, unPackageValue, packageValue, getValueFlag, ValueFlag.byte]
  | putTTL =>
    have hl : (writeLong ttl).length = 8 := be64_length _
    have e1 : (v ++ writeLong ttl ++ [(1 : UInt8)]).length - 9 = v.length := by simp [hl]
    have hd : (v ++ writeLong ttl ++ [(1 : UInt8)]).drop v.length = writeLong ttl ++ [1] := by simp
    have ht : (v ++ writeLong ttl ++ [(1 : UInt8)]).take v.length = v := by simp
    have hf : getValueFlag (v ++ writeLong ttl ++ [(1 : UInt8)]) = some .putTTL := by
      simp [getValueFlag]
    have hlen : ¬ (v ++ writeLong ttl ++ [(1 : UInt8)]).length < 9 := by simp [hl]
    have hpk : packageValue .putTTL ttl v = v ++ writeLong ttl ++ [(1 : UInt8)] := rfl
    rw [hpk]
    refine ⟨?_, ?_, ?_⟩
    · simp only [unPackageValueTTL, hf]
      rw [if_neg hlen, e1, hd, ht, readLong_append h.1 h.2]
      rfl
    · simp only [unPackageValue, hf]
      rw [if_neg hlen, e1, ht]
      simp
    · exact hf

/-- C04 (partial): reading the TTL of a TTL value never aborts and returns the
TTL, when the value is not empty.  Missing: the empty value, for which the
claim is false (`C04_ttl_abort`). -/
theorem C04_ttl_partial (ttl : Int) (v : Bytes) (h : IsI64 ttl) (hv : v ≠ []) :
    getValueTTL (packageValue .putTTL ttl v) = some ttl := by
  have hl : (writeLong ttl).length = 8 := be64_length _
  have hv' : 0 < v.length := List.length_pos_iff.2 hv
  have e1 : (v ++ writeLong ttl ++ [(1 : UInt8)]).length - 9 = v.length := by simp [hl]
  have hd : (v ++ writeLong ttl ++ [(1 : UInt8)]).drop v.length = writeLong ttl ++ [1] := by simp
  have hpk : packageValue .putTTL ttl v = v ++ writeLong ttl ++ [(1 : UInt8)] := rfl
  rw [hpk]
  unfold getValueTTL
  rw [if_neg (by simp [hl]; omega), if_neg (by simp), e1, hd, readLong_append h.1 h.2]

/-- C04 is false of the code: an empty value stored with a TTL aborts the
process when its TTL is read. -/
theorem C04_ttl_abort (ttl : Int) : getValueTTL (packageValue .putTTL ttl []) = none := by
  have hl : (writeLong ttl).length = 8 := be64_length _
  simp [getValueTTL, packageValue, ValueFlag.byte, hl]

theorem C04_no_abort_false :
    ¬ ∀ (ttl : Int) (v : Bytes), IsI64 ttl → getValueTTL (packageValue .putTTL ttl v) ≠ none :=
  fun h => h 5 [] (by constructor <;> decide) (C04_ttl_abort 5)

example : unPackageValueTTL (packageValue .putTTL (-3) [7, 1]) = some (.putTTL, -3, [7, 1]) ∧
    IsI64 (-3) := ⟨by decide +kernel, by constructor <;> decide⟩

/-! ## C05 -/

/-- Every ninth byte (group marker) is at least 247, i.e. announces at most 8
padding bytes. -/
def MarkersSane (e : Bytes) : Prop := ∀ i b, e[i]? = some b → i % 9 = 8 → 247 ≤ b.toNat

/-- C05 (partial): on inputs whose group markers are sane, an accepted input
starts with the canonical encoding of the result.  Missing: the full claim
`e = encodeBytes k` (false: `C05_strict_false`), and inputs with markers below
247 (`C05_can_throw`). -/
theorem C05_strict_partial (e k : Bytes) (hm : MarkersSane e) (h : decodeBytes e = .ok k) :
    ∃ rest, e = encodeBytes k ++ rest ∧ rest.length % 9 = 0 := by
  unfold decodeBytes at h
  split at h
  · cases h
  rename_i hl
  have hl : e.length % 9 = 0 := by omega
  cases hg : e.getLast? with
  | none => rw [hg] at h; cases h
  | some b =>
    rw [hg] at h
    simp only at h
    split at h
    · cases h
    rename_i hb
    obtain ⟨k', s, h1, h2⟩ := decodeLoop_ok h hm hl ⟨b, hg, hb⟩
    simp only [List.nil_append] at h1
    subst h1
    refine ⟨s, h2, ?_⟩
    have := congrArg List.length h2
    rw [List.length_append, encodeBytes_length] at this
    omega

/-- C05 (partial): an accepted input that has the length of an encoding of the
result is that encoding. -/
theorem C05_exact_length_partial (e k : Bytes) (hm : MarkersSane e) (h : decodeBytes e = .ok k)
    (hl : e.length = (k.length / 8 + 1) * 9) : e = encodeBytes k := by
  obtain ⟨rest, h1, _⟩ := C05_strict_partial e k hm h
  have := congrArg List.length h1
  rw [List.length_append, encodeBytes_length] at this
  have : rest = [] := List.length_eq_zero_iff.1 (by omega)
  rw [h1, this, List.append_nil]

/-- C05 is false of the code: trailing groups are ignored, so two different
stored keys decode to the same user key. -/
theorem C05_strict_false : ¬ ∀ e k, decodeBytes e = .ok k → e = encodeBytes k := by
  intro h
  have := h (encodeBytes [1] ++ encodeBytes [2]) [1] (by decide +kernel)
  exact absurd this (by decide +kernel)

/-- C05 is false of the code: a marker below 247 makes the decoder read past
the end of the input (`std::out_of_range`), and an empty input reads `back()`
of an empty view. -/
theorem C05_can_throw : (∃ e : Bytes, e.length = 9 ∧ decodeBytes e = .crash) ∧
    decodeBytes [] = .crash :=
  ⟨⟨[0, 0, 0, 0, 0, 0, 0, 0, 0], by decide, by decide +kernel⟩, by decide +kernel⟩

theorem checkZeros_no_crash {n : Nat} {e : Bytes} (h : n ≤ e.length) : checkZeros n e ≠ .crash := by
  induction n generalizing e with
  | zero => simp [checkZeros]
  | succ n ih =>
    cases e with
    | nil => simp at h
    | cons b e =>
      simp only [checkZeros]
      split
      · simp
      · exact ih (by simpa using h)

/-- C05 (partial): a non-empty input with sane markers never makes the decoder
read out of bounds. -/
theorem C05_no_crash_partial (e : Bytes) (hm : MarkersSane e) (hne : e ≠ []) :
    decodeBytes e ≠ .crash := by
  unfold decodeBytes
  split
  · simp
  rename_i hl
  have hl : e.length % 9 = 0 := by omega
  cases hg : e.getLast? with
  | none => exact absurd (List.getLast?_eq_none_iff.1 hg) hne
  | some b =>
    simp only
    split
    · simp
    · suffices hh : ∀ (e out : Bytes), MarkersSane e → e.length % 9 = 0 → decodeLoop e out ≠ .crash from
        hh e [] hm hl
      clear hl hg hne hm
      intro e out hm hl
      fun_induction decodeLoop e out with
      | case1 => simp
      | case2 e out h0 h1 =>
        have := List.getElem?_eq_none_iff.1 h1
        omega
      | case3 e out h0 marker h1 pad hp ih =>
        apply ih
        · intro i b hb hi
          rw [List.getElem?_drop] at hb
          exact hm (9 + i) b hb (by omega)
        · rw [List.length_drop]; omega
      | case4 => simp
      | case5 => simp
      | case6 e out h0 marker h1 pad hp h2 =>
        exfalso
        have := hm 8 marker h1 (by decide)
        refine checkZeros_no_crash ?_ h2
        rw [List.length_drop]
        omega

example : MarkersSane (encodeBytes [1] ++ encodeBytes [2]) ∧
    decodeBytes (encodeBytes [1] ++ encodeBytes [2]) = .ok [1] := by
  constructor
  · have e : encodeBytes [1] ++ encodeBytes [2] =
        [1, 0, 0, 0, 0, 0, 0, 0, 248, 2, 0, 0, 0, 0, 0, 0, 0, 248] := by decide +kernel
    rw [e]
    intro i b hb hi
    have hlt : i < 18 := by
      rcases Nat.lt_or_ge i 18 with h | h
      · exact h
      · rw [List.getElem?_eq_none (by simpa using h)] at hb; cases hb
    have : i = 8 ∨ i = 17 := by omega
    rcases this with rfl | rfl <;> (simp at hb; subst hb; decide)
  · decide +kernel

/-! ## C42 -/

/-- `u` is the least strict upper bound of all strings with prefix `p`. -/
def LeastAbove (p u : Bytes) : Prop :=
  (∀ s, p <+: s → s < u) ∧ ∀ u', (∀ s, p <+: s → s < u') → u ≤ u'

/-- C42 (partial): exact when the last byte of the prefix is not `0xff` (as for
every encoded key).  Missing: prefixes ending in `0xff`, where the claim is
false (`C42_exact_false`). -/
theorem C42_least_partial (q : Bytes) (b : UInt8) (hb : b ≠ 255) :
    LeastAbove (q ++ [b]) (prefixNext (q ++ [b])) := by
  rw [prefixNext_append q hb]
  constructor
  · intro s hs
    exact ((between_succ q hb s).2 hs).2
  · intro u' hu'
    rw [← List.not_lt]
    intro hlt
    rcases lt_trichotomy u' (q ++ [b]) with h | h | h
    · exact absurd (lt_trans h (hu' _ (List.prefix_refl _))) (lt_irrefl _)
    · exact absurd (hu' _ (List.prefix_refl _)) (by rw [h]; exact lt_irrefl _)
    · have hp := (between_succ q hb u').1 ⟨List.le_of_lt h, hlt⟩
      exact absurd (hu' u' hp) (lt_irrefl _)

/-- C42 (partial): for any prefix that is not all `0xff`, among strings at
least as long as the prefix, `[p, PrefixNext p)` is exactly the set of strings
with prefix `p`. -/
theorem C42_range_partial (p s : Bytes) (h : ∃ b ∈ p, b ≠ 255) (hs : p.length ≤ s.length) :
    (p ≤ s ∧ s < prefixNext p) ↔ p <+: s :=
  prefixNext_spec h hs

/-- C42 is false of the code for a prefix ending in `0xff`: the bound is not the
least one (and the range contains a string without the prefix), and for an
all-`0xff` prefix it is not an upper bound at all. -/
theorem C42_exact_false : ¬ LeastAbove [97, 255] (prefixNext [97, 255]) ∧
    ¬ LeastAbove [255] (prefixNext [255]) ∧
    ([97, 255] ≤ [98] ∧ ([98] : Bytes) < prefixNext [97, 255] ∧ ¬ ([97, 255] : Bytes) <+: [98]) := by
  refine ⟨?_, ?_, by decide⟩
  · rintro ⟨_, h⟩
    have := h [98] (by
      rintro s ⟨t, rfl⟩
      exact List.cons_lt_cons_iff.2 (Or.inl (by decide)))
    exact absurd this (by decide)
  · rintro ⟨h, _⟩
    exact absurd (h [255] (List.prefix_refl _)) (by decide)

example : LeastAbove [97, 98] [97, 99] := C42_least_partial [97] 98 (by decide)
example : (∃ b ∈ ([97, 255] : Bytes), b ≠ 255) ∧ prefixNext [97, 255] = [98, 0] := by decide

end Verif.Codec
