import Verif.Codec.VectorLemmas

/-!
# C43: keys of vectors and documents

Clients address vectors and documents by (partition, id); the store turns them into byte
keys, orders and splits by the byte keys, and turns region ranges back into id ranges.
-/

namespace Verif.Codec

/-- C43: every (partition, id), with or without scalar field, gets a key, and the key gives
back the partition, the id and the field. -/
theorem C43_plain_roundtrip (pre : UInt8) (hp : pre ≠ 0) (p i : Int) (s : Bytes)
    (h : (VKey.scalar p i s).Valid) :
    (∃ b, packagePart pre p = some b ∧ unPackagePart b = some p ∧ unPackageId b = some 0) ∧
    (∃ b, packageId pre p i = some b ∧ unPackagePart b = some p ∧ unPackageId b = some i) ∧
    (∃ b, packageScalar pre p i s = some b ∧ unPackagePart b = some p ∧ unPackageId b = some i ∧
      unPackageScalar b = some s) := by
  have hi : (VKey.id p i).Valid := ⟨h.1, h.2.1, h.2.2.1, h.2.2.2.1⟩
  have hq : (VKey.part p).Valid := ⟨h.1, h.2.1⟩
  exact ⟨⟨_, VKey.bytes_eq hp hq, unPackagePart_bytes h.1 h.2.1 _, VKey.id_bytes hq⟩,
    ⟨_, VKey.bytes_eq hp hi, unPackagePart_bytes h.1 h.2.1 _, VKey.id_bytes hi⟩,
    ⟨_, VKey.bytes_eq hp h, unPackagePart_bytes h.1 h.2.1 _, VKey.id_bytes h,
      unPackageScalar_bytes h.2.2.2.2⟩⟩

example : (VKey.scalar 1001 7 [97, 98]).Valid := by
  simp only [VKey.Valid]; decide

/-- C43: the same for the keys as stored, without timestamp. -/
theorem C43_encoded_roundtrip (pre : UInt8) (hp : pre ≠ 0) (p i : Int) (s : Bytes)
    (h : (VKey.scalar p i s).Valid) :
    (∃ e, encodePart pre p = some e ∧ decodePart e = some p ∧ decodeId e = some 0) ∧
    (∃ e, encodeId pre p i = some e ∧ decodePart e = some p ∧ decodeId e = some i) ∧
    (∃ e, encodeScalar pre p i s = some e ∧ decodePart e = some p ∧ decodeId e = some i ∧
      decodeScalar e = some s) := by
  have hi : (VKey.id p i).Valid := ⟨h.1, h.2.1, h.2.2.1, h.2.2.2.1⟩
  have hq : (VKey.part p).Valid := ⟨h.1, h.2.1⟩
  have bq := VKey.bytes_eq hp hq
  have bi := VKey.bytes_eq hp hi
  have bs := VKey.bytes_eq hp h
  have pq := plainOf_encode (pre := pre) _ hq
  have pi := plainOf_encode (pre := pre) _ hi
  have ps := plainOf_encode (pre := pre) _ h
  simp only [VKey.bytes] at bq bi bs
  refine ⟨⟨_, by rw [encodePart, bq]; rfl, ?_, ?_⟩, ⟨_, by rw [encodeId, bi]; rfl, ?_, ?_⟩,
    ⟨_, by rw [encodeScalar, bs]; rfl, ?_, ?_, ?_⟩⟩
  · rw [decodePart, pq]; exact unPackagePart_bytes h.1 h.2.1 _
  · rw [decodeId, pq]; exact VKey.id_bytes hq
  · rw [decodePart, pi]; exact unPackagePart_bytes h.1 h.2.1 _
  · rw [decodeId, pi]; exact VKey.id_bytes hi
  · rw [decodePart, ps]; exact unPackagePart_bytes h.1 h.2.1 _
  · rw [decodeId, ps]; exact VKey.id_bytes h
  · unfold decodeScalar
    rw [ps, if_pos]
    · exact unPackageScalar_bytes h.2.2.2.2
    · have hw := writeLong_length (VKey.scalar p i s).p
      have hc := writeLongComparable_length i
      rw [encodeBytes_length]
      simp only [List.length_cons, List.length_append, VKey.rest]
      omega

/-- C43: the same for the stored keys with a timestamp, which is given back too. -/
theorem C43_encoded_ts_roundtrip (pre : UInt8) (hp : pre ≠ 0) (p i : Int) (s : Bytes) (ts : Int)
    (h : (VKey.scalar p i s).Valid) (ht : ValidTs ts) :
    (∃ e, encodeIdTs pre p i ts = some e ∧ decodePartTs e = some p ∧ decodeIdTs e = some i ∧
      truncateKey e = some ts) ∧
    (∃ e, encodeScalarTs pre p i s ts = some e ∧ decodePartTs e = some p ∧
      decodeIdTs e = some i ∧ decodeScalarTs e = some s ∧ decodeAllTs e = some (p, i, s) ∧
      truncateKey e = some ts) := by
  have hi : (VKey.id p i).Valid := ⟨h.1, h.2.1, h.2.2.1, h.2.2.2.1⟩
  have bi := VKey.bytes_eq hp hi
  have bs := VKey.bytes_eq hp h
  simp only [VKey.bytes] at bi bs
  have up := unPackagePart_bytes (pre := pre) h.1 h.2.1
  constructor
  · refine ⟨_, by rw [encodeIdTs, bi]; exact encodeKey_eq ht, ?_⟩
    obtain ⟨h1, h2, _⟩ := plainOfTs_encode (pre := pre) _ hi ht (encodeKey_eq ht)
    refine ⟨?_, ?_, h2⟩
    · rw [decodePartTs, h1]; exact up _
    · rw [decodeIdTs, h1]; exact VKey.id_bytes hi
  · refine ⟨_, by rw [encodeScalarTs, bs]; exact encodeKey_eq ht, ?_⟩
    obtain ⟨h1, h2, h3⟩ := plainOfTs_encode (pre := pre) _ h ht (encodeKey_eq ht)
    have us := unPackageScalar_bytes (pre := pre) (p := p) (i := i) h.2.2.2.2
    have ui := VKey.id_bytes (pre := pre) h
    refine ⟨?_, ?_, ?_, ?_, h2⟩
    · rw [decodePartTs, h1]; exact up _
    · rw [decodeIdTs, h1]; exact ui
    · rw [decodeScalarTs, h1, if_pos]
      · exact us
      · apply h3; simp [VKey.rest, writeLongComparable_length]
    · rw [decodeAllTs, h1]
      simp only [VKey.p, VKey.rest, VKey.i, Option.bind_some] at ui ⊢
      rw [ui, up, us]

example : ValidTs 400 := by unfold ValidTs; decide

/-- C43: byte order of the keys is the order by partition, then id, then scalar field. -/
theorem C43_order (pre : UInt8) (hp : pre ≠ 0) (k k' : VKey) (h : k.Valid) (h' : k'.Valid)
    (b b' : Bytes) (hb : k.bytes pre = some b) (hb' : k'.bytes pre = some b') :
    b < b' ↔ k.before k' := VKey.bytes_lt hp h h' hb hb'

/-- C43: stored versions are ordered by logical key, then newest first. -/
theorem C43_order_ts (pre : UInt8) (hp : pre ≠ 0) (k k' : VKey) (h : k.Valid) (h' : k'.Valid)
    (ts ts' : Int) (ht : ValidTs ts) (ht' : ValidTs ts') (e e' : Bytes)
    (he : (k.bytes pre).bind (encodeKey · ts) = some e)
    (he' : (k'.bytes pre).bind (encodeKey · ts') = some e') :
    e < e' ↔ k.before k' ∨ k = k' ∧ ts' < ts := by
  obtain ⟨b, hb⟩ : ∃ b, k.bytes pre = some b := ⟨_, VKey.bytes_eq hp h⟩
  obtain ⟨b', hb'⟩ : ∃ b, k'.bytes pre = some b := ⟨_, VKey.bytes_eq hp h'⟩
  rw [hb] at he
  rw [hb'] at he'
  rw [C02_order b b' ts ts' ht ht' e e' he he', VKey.bytes_lt hp h h' hb hb']
  constructor
  · rintro (e | ⟨e, l⟩)
    · exact Or.inl e
    · exact Or.inr ⟨VKey.bytes_inj hp h h' (by rw [hb, hb', e]), l⟩
  · rintro (e | ⟨e, l⟩)
    · exact Or.inl e
    · subst e
      rw [hb] at hb'
      exact Or.inr ⟨Option.some.inj hb', l⟩

example : (VKey.id 1 255).before (.id 1 256) ∧ (VKey.id 1 256).Valid := by
  simp only [VKey.before, VKey.Valid]; decide

/-- C43: the test for split keys admits exactly the keys from which an id can be read; any
other key aborts the process there. -/
theorem C43_valid_key (k : Bytes) : isValidKey k = true ↔ ∃ i, unPackageId k = some i := by
  unfold isValidKey unPackageId
  by_cases h : k.length ≥ maxLen
  · rw [if_pos h]
    simp only [h, decide_true, Bool.or_true, true_iff]
    have hm : maxLen = 17 := rfl
    unfold readLongComparable
    rw [if_neg (by simp; omega)]
    exact ⟨_, rfl⟩
  · rw [if_neg h]
    by_cases h' : k.length = minLen
    · simp [h']
    · simp [h', h]

/-- C43 (partial: only for `Regular` ranges, and ids below the reserved `INT64_MAX`; the
two `_false` theorems show the ranges left out): a region accepts an id of its partition
exactly when the key of that id lies in the region's range. -/
theorem C43_ids_partial (pre : UInt8) (hp : pre ≠ 0) (ks ke : VKey) (hs : ks.Valid)
    (he : ke.Valid) (hr : Regular ks ke) (start stop : Bytes) (hb : ks.bytes pre = some start)
    (hb' : ke.bytes pre = some stop) (id : Int) (h0 : 0 ≤ id) (h1 : id < i64Max) (key : Bytes)
    (hk : packageId pre ks.p id = some key) :
    (idsAccepted start stop [id] = some true ↔ Holds start stop key) ∧
    rangeToIdsEnc (encodeBytes start) (encodeBytes stop) = rangeToIds start stop := by
  have hv : (VKey.id ks.p id).Valid :=
    ⟨hs.p_pos.1, hs.p_pos.2, h0, by unfold i64Max at h1; omega⟩
  have lo : start ≤ key ↔ ¬ (VKey.id ks.p id).before ks := by
    rw [← VKey.bytes_lt hp hv hs hk hb]; exact Iff.rfl
  have hi : key < stop ↔ (VKey.id ks.p id).before ke := VKey.bytes_lt hp hv he hk hb'
  unfold Holds
  rw [lo, hi]
  rw [VKey.bytes_eq hp hs] at hb
  rw [VKey.bytes_eq hp he] at hb'
  cases hb; cases hb'
  have d1 := plainOf_encode (pre := pre) _ hs
  have d2 := plainOf_encode (pre := pre) _ he
  constructor
  · unfold idsAccepted
    rw [rangeToIds_eq hs he]
    simp only [Option.map_some, List.all_cons, List.all_nil, Bool.and_true, Option.some.injEq,
      Bool.not_eq_true', Bool.or_eq_false_iff, decide_eq_false_iff_not]
    obtain ⟨m, hm, hc⟩ : ∃ m, (if ke.i = 0 ∧ ks.p < ke.p then i64Max else ke.i) = m ∧
        ((ke.i = 0 ∧ ks.p < ke.p) ∧ m = i64Max ∨ ¬ (ke.i = 0 ∧ ks.p < ke.p) ∧ m = ke.i) := by
      refine ⟨_, rfl, ?_⟩
      by_cases c : ke.i = 0 ∧ ks.p < ke.p
      · exact Or.inl ⟨c, if_pos c⟩
      · exact Or.inr ⟨c, if_neg c⟩
    rw [hm]
    clear lo hi d1 d2 hv hk hm
    cases ks <;> cases ke <;> simp only [Regular, VKey.Valid] at hr hs he <;>
      simp only [VKey.p, VKey.before, VKey.i, true_and] at hc ⊢ <;> omega
  · unfold rangeToIdsEnc rangeToIds decodeId decodePart
    rw [d1, d2]; rfl

example : Regular (.id 5 10) (.part 6) ∧ Regular (.id 5 10) (.id 5 20) ∧
    Regular (.part 5) (.id 6 0) := by
  simp only [Regular]; decide

/-- C43 (partial as above): cutting a region at the key of an id of its partition leaves
every id it accepted with exactly one of the two halves, and gives neither half an id the
region did not accept. -/
theorem C43_split_partial (pre : UInt8) (hp : pre ≠ 0) (ks ke : VKey) (c : Int) (hs : ks.Valid)
    (he : ke.Valid) (hc : (VKey.id ks.p c).Valid) (hr : Regular ks ke)
    (hsc : ks.before (.id ks.p c)) (hce : (VKey.id ks.p c).before ke) (start cut stop : Bytes)
    (hb : ks.bytes pre = some start) (hbc : packageId pre ks.p c = some cut)
    (hb' : ke.bytes pre = some stop) (id : Int) (h0 : 0 ≤ id) (h1 : id < i64Max) :
    (idsAccepted start stop [id] = some true ↔
      (idsAccepted start cut [id] = some true ∨ idsAccepted cut stop [id] = some true)) ∧
    ¬ (idsAccepted start cut [id] = some true ∧ idsAccepted cut stop [id] = some true) := by
  have hv : (VKey.id ks.p id).Valid :=
    ⟨hs.p_pos.1, hs.p_pos.2, h0, by unfold i64Max at h1; omega⟩
  obtain ⟨key, hk⟩ : ∃ key, packageId pre ks.p id = some key := ⟨_, VKey.bytes_eq hp hv⟩
  have r1 : Regular ks (.id ks.p c) := by
    cases ks <;> simp_all [Regular, VKey.p]
  have r2 : Regular (.id ks.p c) ke := by
    cases ks <;> cases ke <;> simp_all [Regular, VKey.p]
  have a := (C43_ids_partial pre hp ks ke hs he hr start stop hb hb' id h0 h1 key hk).1
  have b := (C43_ids_partial pre hp ks _ hs hc r1 start cut hb hbc id h0 h1 key hk).1
  have d := (C43_ids_partial pre hp _ ke hc he r2 cut stop hbc hb' id h0 h1 key hk).1
  have l1 : start < cut := (VKey.bytes_lt hp hs hc hb hbc).2 hsc
  have l2 : cut < stop := (VKey.bytes_lt hp hc he hbc hb').2 hce
  rw [a, b, d]
  unfold Holds
  have dich : key < cut ∨ cut ≤ key := by
    by_cases h : key < cut
    · exact Or.inl h
    · exact Or.inr h
  refine ⟨⟨?_, ?_⟩, ?_⟩
  · rintro ⟨x, y⟩
    rcases dich with h | h
    · exact Or.inl ⟨x, h⟩
    · exact Or.inr ⟨h, y⟩
  · rintro (⟨x, y⟩ | ⟨x, y⟩)
    · exact ⟨x, lt_trans y l2⟩
    · exact ⟨fun h => x (lt_trans h l1), y⟩
  · rintro ⟨⟨_, y⟩, ⟨x, _⟩⟩
    exact x y

example : (VKey.part 5).before (.id 5 10) ∧ (VKey.id 5 10).before (.part 6) ∧
    Regular (.part 5) (.part 6) := by
  simp only [VKey.before, Regular]; decide

/-- C43 is false for a region cut at a scalar field's key: an id is accepted by the right
region only, while its key belongs to the left one.  Such cuts pass the check of split
keys: `split/split_checker.cc` takes a key from any column family, among them the one whose
keys carry a scalar field. -/
theorem C43_scalar_split_false :
    ∃ (start cut stop key : Bytes), isValidKey cut = true ∧
      VKey.bytes 114 (.part 1) = some start ∧ VKey.bytes 114 (.scalar 1 7 [97]) = some cut ∧
      VKey.bytes 114 (.part 2) = some stop ∧ packageId 114 1 7 = some key ∧
      Holds start cut key ∧ ¬ Holds cut stop key ∧
      idsAccepted start cut [7] = some false ∧ idsAccepted cut stop [7] = some true := by
  refine ⟨114 :: writeLong 1, 114 :: writeLong 1 ++ writeLongComparable 7 ++ [97],
    114 :: writeLong 2, 114 :: writeLong 1 ++ writeLongComparable 7, ?_⟩
  refine ⟨?_, ?_, ?_, ?_, ?_, ?_, ?_, ?_, ?_⟩ <;> decide +kernel

/-- C43 is false for a range that ends inside another partition: ids whose keys lie in the
region are refused. -/
theorem C43_cross_partition_false :
    ∃ (start stop key : Bytes), VKey.bytes 114 (.part 1) = some start ∧
      VKey.bytes 114 (.id 2 5) = some stop ∧ packageId 114 1 9 = some key ∧
      Holds start stop key ∧ idsAccepted start stop [9] = some false := by
  refine ⟨114 :: writeLong 1, 114 :: writeLong 2 ++ writeLongComparable 5,
    114 :: writeLong 1 ++ writeLongComparable 9, ?_⟩
  refine ⟨?_, ?_, ?_, ?_, ?_⟩ <;> decide +kernel

end Verif.Codec
