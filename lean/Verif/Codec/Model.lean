/-!
# Byte-level codecs (model)

Models `src/common/serial_helper.cc`, `src/mvcc/codec.cc` and
`Helper::PrefixNext` of `src/common/helper.cc`.

A `std::string` is a list of bytes; `std::string::compare` / RocksDB's default
comparator is the lexicographic order `<` on `List UInt8`.
An `int64_t` is an `Int` in `[-2^63, 2^63)`; `toU64`/`toI64` convert to and from
its 64-bit two's complement pattern.
-/

namespace Verif.Codec

/-- `std::string` contents. -/
abbrev Bytes := List UInt8

/-! ## src/common/serial_helper.cc -/

/-- Two's complement pattern of an `int64_t` (the implicit reinterpretation in
`serial_helper.cc:31-53`). -/
def toU64 (v : Int) : Nat := (v % 2 ^ 64).toNat

/-- `static_cast<int64_t>(uint64_t)`, `serial_helper.cc:75`. -/
def toI64 (n : Nat) : Int := if n < 2 ^ 63 then (n : Int) else (n : Int) - 2 ^ 64

/-- The eight `push_back(static_cast<char>(value >> k))` of
`SerialHelper::WriteLong`, `serial_helper.cc:33-41` (little-endian host branch;
the big-endian branch of the source is not modelled).
`static_cast<char>` keeps the low 8 bits, as `UInt8.ofNat` does. -/
def be64 (n : Nat) : Bytes :=
  [UInt8.ofNat (n / 2 ^ 56), UInt8.ofNat (n / 2 ^ 48), UInt8.ofNat (n / 2 ^ 40),
   UInt8.ofNat (n / 2 ^ 32), UInt8.ofNat (n / 2 ^ 24), UInt8.ofNat (n / 2 ^ 16),
   UInt8.ofNat (n / 2 ^ 8), UInt8.ofNat n]

/-- `l <<= 8; l |= b` repeated, `serial_helper.cc:58-73`.  The low eight bits are
zero after the shift, so `|=` is `+`. -/
def fromBe (bs : Bytes) : Nat := bs.foldl (fun l b => l * 256 + b.toNat) 0

/-- `SerialHelper::WriteLong`, `serial_helper.cc:31-53`. -/
def writeLong (v : Int) : Bytes := be64 (toU64 v)

/-- `SerialHelper::ReadLong`, `serial_helper.cc:55-76`.  `none` is the `CHECK`
failure (process abort) on fewer than 8 bytes. -/
def readLong (b : Bytes) : Option Int :=
  if b.length < 8 then none else some (toI64 (fromBe (b.take 8)))

/-- `SerialHelper::WriteLongWithNegation`, `serial_helper.cc:78-104`.
`~value` is `-value - 1`.  `none` is the `CHECK(value >= 0)` abort. -/
def writeLongWithNegation (v : Int) : Option Bytes :=
  if v < 0 then none else some (be64 (toU64 (-v - 1)))

/-- `SerialHelper::ReadLongWithNegation`, `serial_helper.cc:106`. -/
def readLongWithNegation (b : Bytes) : Option Int :=
  (readLong b).map (fun v => -v - 1)

/-- Flip the top bit of the first byte (`^ 0x80`), `serial_helper.cc:112,140`. -/
def flipTop : Bytes → Bytes
  | [] => []
  | b :: bs => (b ^^^ 0x80) :: bs

/-- `SerialHelper::WriteLongComparable`, `serial_helper.cc:108-133`. -/
def writeLongComparable (v : Int) : Bytes := flipTop (be64 (toU64 v))

/-- `SerialHelper::ReadLongComparable`, `serial_helper.cc:135-168`. -/
def readLongComparable (b : Bytes) : Option Int :=
  if b.length < 8 then none else some (toI64 (fromBe (flipTop (b.take 8))))

/-! ## src/mvcc/codec.cc -/

/-- `Codec::EncodeBytes`, `mvcc/codec.cc:52-75`: every full group of 8 bytes is
followed by `0xff`; the last (possibly empty) partial group is padded with
zeros to 8 bytes and followed by `0xff - padding_num`.  The index loop of the
source is written as a recursion over groups. -/
def encodeBytes (k : Bytes) : Bytes :=
  if _h : k.length < 8 then
    k ++ List.replicate (8 - k.length) 0 ++ [UInt8.ofNat (255 - (8 - k.length))]
  else
    k.take 8 ++ (255 : UInt8) :: encodeBytes (k.drop 8)
termination_by k.length
decreasing_by simp; omega

/-- Outcome of a decoder: a value, `return false`, or an abort
(`std::out_of_range` from `at()`, or undefined behaviour). -/
inductive Dec (α : Type) where
  | ok (a : α)
  | reject
  | crash
deriving DecidableEq, Repr

/-- The inner loop `if (encode_key.at(i++) != 0) return false;` executed
`n` times, `mvcc/codec.cc:101-105`. -/
def checkZeros (n : Nat) (e : Bytes) : Dec Unit :=
  match n, e with
  | 0, _ => .ok ()
  | _ + 1, [] => .crash
  | n + 1, b :: e => if b ≠ 0 then .reject else checkZeros n e

/-- The outer loop of `Codec::DecodeBytes`, `mvcc/codec.cc:91-110`; `e` is the
input from index `i` on, `out` the bytes pushed so far.  `8 - pad` is the
number of iterations of a C++ loop counting up to `kGroupSize - pad_count`,
which is none when negative, as with truncated subtraction.  The loop stops at
the first group with a marker other than `0xff`; what follows is ignored. -/
def decodeLoop (e : Bytes) (out : Bytes) : Dec Bytes :=
  if _h : e.length = 0 then .ok out
  else
    match e[8]? with
    | none => .crash
    | some marker =>
      let pad := 255 - marker.toNat
      if pad = 0 then decodeLoop (e.drop 9) (out ++ e.take 8)
      else
        match checkZeros pad (e.drop (8 - pad)) with
        | .ok () => .ok (out ++ e.take (8 - pad))
        | .reject => .reject
        | .crash => .crash
termination_by e.length
decreasing_by simp; omega

/-- `Codec::DecodeBytes`, `mvcc/codec.cc:81-113`.  On an empty input the source
evaluates `back()` of an empty view, undefined behaviour: `crash`. -/
def decodeBytes (e : Bytes) : Dec Bytes :=
  if e.length % 9 ≠ 0 then .reject
  else
    match e.getLast? with
    | none => .crash
    | some b => if b = 255 then .reject else decodeLoop e []

/-- `Codec::EncodeKey`, `mvcc/codec.cc:115-133`; `none` is the abort on a
negative timestamp. -/
def encodeKey (k : Bytes) (ts : Int) : Option Bytes :=
  (writeLongWithNegation ts).map (fun s => encodeBytes k ++ s)

/-- `Codec::DecodeKey`, `mvcc/codec.cc:139-160`. -/
def decodeKey (e : Bytes) : Dec (Bytes × Int) :=
  if e.length < 17 then .reject
  else
    match decodeBytes (e.take (e.length - 8)) with
    | .reject => .reject
    | .crash => .crash
    | .ok k =>
      match readLongWithNegation (e.drop (e.length - 8)) with
      | none => .crash
      | some ts => .ok (k, ts)

/-- `Codec::TruncateTsForKey`, `mvcc/codec.cc:172-184` (`none`: CHECK abort). -/
def truncateTsForKey (e : Bytes) : Option Bytes :=
  if e.length < 17 then none else some (e.take (e.length - 8))

/-- `Codec::TruncateKeyForTs`, `mvcc/codec.cc:186-202`. -/
def truncateKeyForTs (e : Bytes) : Option Int :=
  if e.length < 17 then none else readLongWithNegation (e.drop (e.length - 8))

/-- `Codec::EncodeRange`, `mvcc/codec.cc` (EncodeRange): both ends encoded
without a timestamp. -/
def encodeRange (r : Bytes × Bytes) : Bytes × Bytes := (encodeBytes r.1, encodeBytes r.2)

/-! ## Values -/

/-- `enum class ValueFlag`, `mvcc/codec.h`: kPut = 0, kPutTTL = 1, kDelete = 2. -/
inductive ValueFlag where
  | put | putTTL | delete
deriving DecidableEq, Repr

def ValueFlag.byte : ValueFlag → UInt8
  | .put => 0
  | .putTTL => 1
  | .delete => 2

/-- `Codec::PackageValue(flag, ttl, value, output)`, `mvcc/codec.cc:254-282`
(with `output` empty; the in-place overload `:232-252` computes the same, and
the overload without `ttl`, `:202-230`, writes `ttl = 0`). -/
def packageValue (flag : ValueFlag) (ttl : Int) (value : Bytes) : Bytes :=
  match flag with
  | .put => value ++ [ValueFlag.put.byte]
  | .putTTL => value ++ writeLong ttl ++ [ValueFlag.putTTL.byte]
  | .delete => [ValueFlag.delete.byte]

/-- `Codec::GetValueFlag`, `mvcc/codec.cc:351-367`.  `none` is a `CHECK` abort
(empty value, or a last byte above 2). -/
def getValueFlag (pkg : Bytes) : Option ValueFlag :=
  match pkg.getLast? with
  | none => none
  | some b =>
    if b = 0 then some .put
    else if b = 1 then some .putTTL
    else if b = 2 then some .delete
    else none

/-- `Codec::GetValueTTL(string_view)`, `mvcc/codec.cc:379-387`.  `none` is a
`CHECK` abort: length not above 9, or flag not `kPutTTL`. -/
def getValueTTL (pkg : Bytes) : Option Int :=
  if pkg.length ≤ 9 then none
  else if pkg.getLast? ≠ some 1 then none
  else readLong (pkg.drop (pkg.length - 9))

/-- `Codec::UnPackageValue(string_view)`, `mvcc/codec.cc:306-321` (and
`UnPackageValueInPlace`, `:284-300`).  `none`: `CHECK(false)` abort on another
last byte, `back()` of an empty string (undefined), or a `kPutTTL` value
shorter than 9 bytes (length underflow). -/
def unPackageValue (pkg : Bytes) : Option Bytes :=
  match getValueFlag pkg with
  | none => none
  | some .put => some (pkg.take (pkg.length - 1))
  | some .putTTL => if pkg.length < 9 then none else some (pkg.take (pkg.length - 9))
  | some .delete => some []

/-- `Codec::UnPackageValue(string_view, flag, ttl)`, `mvcc/codec.cc:323-349`.
The `kPutTTL` branch calls `substr(size - 9, ...)`, which throws when the value
is shorter than 9 bytes. -/
def unPackageValueTTL (pkg : Bytes) : Option (ValueFlag × Int × Bytes) :=
  match getValueFlag pkg with
  | none => none
  | some .put => some (.put, 0, pkg.take (pkg.length - 1))
  | some .putTTL =>
    if pkg.length < 9 then none
    else (readLong (pkg.drop (pkg.length - 9))).map
      (fun ttl => (.putTTL, ttl, pkg.take (pkg.length - 9)))
  | some .delete => some (.delete, 0, [])

/-- `Helper::PrefixNext`, `common/helper.cc:415-428`, right-to-left carry.
Returns the incremented string and the final carry. -/
def prefixNextAux : Bytes → Bytes × Bool
  | [] => ([], true)
  | b :: bs =>
    let (r, carry) := prefixNextAux bs
    if carry then
      if b = 255 then (0 :: r, true) else ((b + 1) :: r, false)
    else (b :: r, false)

/-- `Helper::PrefixNext`, `common/helper.cc:415-443`: the input itself if every
byte is `0xff` (also for the empty string). -/
def prefixNext (p : Bytes) : Bytes :=
  let (r, carry) := prefixNextAux p
  if carry then p else r

end Verif.Codec
