import Verif.Codec.Model

/-!
# Keys of vectors and documents (model)

`src/vector/codec.cc` and `src/document/codec.cc`.  The two files are the same function by
function (`PackageVectorKey`/`PackageDocumentKey`, ...; the length constants of
`common/constant.h:67-72` are equal), so one model stands for both; line numbers are those
of `vector/codec.cc`.  `none` is a failed `CHECK` or `LOG(FATAL)` (process abort).

Not modelled: `DebugKey`, `DebugRange`, the JSON tokenizer parameters of documents.
-/

namespace Verif.Codec

/-- `Constant::kVectorKeyMinLenWithPrefix`, `common/constant.h:67`. -/
def minLen : Nat := 9
/-- `Constant::kVectorKeyMaxLenWithPrefix`, `common/constant.h:68`. -/
def maxLen : Nat := 17

/-- `PackageVectorKey(prefix, partition_id)`, `vector/codec.cc:31-42`. -/
def packagePart (pre : UInt8) (part : Int) : Option Bytes :=
  if pre ≠ 0 ∧ part > 0 then some (pre :: writeLong part) else none

/-- `PackageVectorKey(prefix, partition_id, vector_id)`, `vector/codec.cc:44-57`. -/
def packageId (pre : UInt8) (part id : Int) : Option Bytes :=
  if pre ≠ 0 ∧ part > 0 ∧ id ≥ 0 then some (pre :: writeLong part ++ writeLongComparable id)
  else none

/-- `PackageVectorKey(prefix, partition_id, vector_id, scalar_key)`,
`vector/codec.cc:59-75`. -/
def packageScalar (pre : UInt8) (part id : Int) (scalar : Bytes) : Option Bytes :=
  if pre ≠ 0 ∧ part > 0 ∧ id ≥ 0 ∧ scalar ≠ [] then
    some (pre :: writeLong part ++ writeLongComparable id ++ scalar)
  else none

/-- `UnPackagePartitionId`, `vector/codec.cc:77-82`: `substr(1, 9)` takes up to nine bytes
from position 1. -/
def unPackagePart (k : Bytes) : Option Int :=
  if k.length ≥ minLen then readLong ((k.drop 1).take 9) else none

/-- `UnPackageVectorId`, `vector/codec.cc:84-96`. -/
def unPackageId (k : Bytes) : Option Int :=
  if k.length ≥ maxLen then readLongComparable ((k.drop 9).take 17)
  else if k.length = minLen then some 0
  else none

/-- `UnPackageScalarKey`, `vector/codec.cc:98-103`. -/
def unPackageScalar (k : Bytes) : Option Bytes :=
  if k.length > maxLen then some (k.drop maxLen) else none

/-- `EncodeVectorKey(prefix, partition_id)`, `vector/codec.cc:105-109`. -/
def encodePart (pre : UInt8) (part : Int) : Option Bytes := (packagePart pre part).map encodeBytes

/-- `EncodeVectorKey(prefix, partition_id, vector_id)`, `vector/codec.cc:111-115`. -/
def encodeId (pre : UInt8) (part id : Int) : Option Bytes :=
  (packageId pre part id).map encodeBytes

/-- `EncodeVectorKey(prefix, partition_id, vector_id, ts)`, `vector/codec.cc:117-121`. -/
def encodeIdTs (pre : UInt8) (part id ts : Int) : Option Bytes :=
  (packageId pre part id).bind fun k => encodeKey k ts

/-- `EncodeVectorKey(prefix, partition_id, vector_id, scalar_key)`,
`vector/codec.cc:123-128`. -/
def encodeScalar (pre : UInt8) (part id : Int) (scalar : Bytes) : Option Bytes :=
  (packageScalar pre part id scalar).map encodeBytes

/-- `EncodeVectorKey(prefix, partition_id, vector_id, scalar_key, ts)`,
`vector/codec.cc:130-135`. -/
def encodeScalarTs (pre : UInt8) (part id : Int) (scalar : Bytes) (ts : Int) : Option Bytes :=
  (packageScalar pre part id scalar).bind fun k => encodeKey k ts

/-- The common beginning of the decoders without timestamp, `vector/codec.cc:138-142`:
the length check and `CHECK(DecodeBytes)`. -/
def plainOf (e : Bytes) : Option Bytes :=
  if e.length = 18 ∨ e.length ≥ 27 then
    match decodeBytes e with
    | .ok k => some k
    | _ => none
  else none

/-- `TruncateTsForKey`, `vector/codec.cc:247-257`. -/
def truncateTs (e : Bytes) : Option Bytes :=
  if e.length ≥ 25 then some (e.take (e.length - 8)) else none

/-- `TruncateKeyForTs`, `vector/codec.cc:259-273`.  (The `string_view` overload of the document
codec checks `>= 88`; it has no caller, the `string` overload is the one modelled.) -/
def truncateKey (e : Bytes) : Option Int :=
  if e.length ≥ 8 then readLongWithNegation (e.drop (e.length - 8)) else none

/-- The common beginning of the decoders with timestamp, `vector/codec.cc:148-153`. -/
def plainOfTs (e : Bytes) : Option Bytes :=
  if e.length = 26 ∨ e.length ≥ 35 then
    (truncateTs e).bind fun e' =>
      match decodeBytes e' with
      | .ok k => some k
      | _ => none
  else none

/-- `DecodePartitionIdFromEncodeKey`, `vector/codec.cc:137-145`. -/
def decodePart (e : Bytes) : Option Int := (plainOf e).bind unPackagePart
/-- `DecodePartitionIdFromEncodeKeyWithTs`, `vector/codec.cc:147-156`. -/
def decodePartTs (e : Bytes) : Option Int := (plainOfTs e).bind unPackagePart
/-- `DecodeVectorIdFromEncodeKey`, `vector/codec.cc:158-166`. -/
def decodeId (e : Bytes) : Option Int := (plainOf e).bind unPackageId
/-- `DecodeVectorIdFromEncodeKeyWithTs`, `vector/codec.cc:168-177`. -/
def decodeIdTs (e : Bytes) : Option Int := (plainOfTs e).bind unPackageId

/-- `DecodeScalarKeyFromEncodeKey`, `vector/codec.cc:179-187`.  The document version also
admits length 18 here; the plain key is then too short for `UnPackageScalarKey`, which
aborts as well. -/
def decodeScalar (e : Bytes) : Option Bytes :=
  if e.length ≥ 27 then (plainOf e).bind unPackageScalar else none
/-- `DecodeScalarKeyFromEncodeKeyWithTs`, `vector/codec.cc:188-196`. -/
def decodeScalarTs (e : Bytes) : Option Bytes :=
  if e.length ≥ 35 then (plainOfTs e).bind unPackageScalar else none

/-- `DecodeFromEncodeKeyWithTs(key, partition_id, vector_id, scalar_key)`,
`vector/codec.cc:234-245`. -/
def decodeAllTs (e : Bytes) : Option (Int × Int × Bytes) :=
  (plainOfTs e).bind fun k =>
    match unPackagePart k, unPackageId k, unPackageScalar k with
    | some p, some i, some s => some (p, i, s)
    | _, _, _ => none

/-- `INT64_MAX`. -/
def i64Max : Int := 2 ^ 63 - 1

/-- `DecodeRangeToVectorId`, `vector/codec.cc:293-310` with `is_encode = false`, on plain keys. -/
def rangeToIds (start stop : Bytes) : Option (Int × Int) :=
  match unPackageId start, unPackageId stop with
  | some b, some e =>
    if e = 0 then
      match unPackagePart stop, unPackagePart start with
      | some pe, some ps => if pe > ps then some (b, i64Max) else some (b, e)
      | _, _ => none
    else some (b, e)
  | _, _ => none

/-- `DecodeRangeToVectorId`, `vector/codec.cc:293-310` with `is_encode = true`, on encoded keys. -/
def rangeToIdsEnc (start stop : Bytes) : Option (Int × Int) :=
  match decodeId start, decodeId stop with
  | some b, some e =>
    if e = 0 then
      match decodePart stop, decodePart start with
      | some pe, some ps => if pe > ps then some (b, i64Max) else some (b, e)
      | _, _ => none
    else some (b, e)
  | _, _ => none

/-- `IsValidKey`, `vector/codec.cc:312-314`: what `RegionController` asks of the split key
of an index region (`store/region_controller.cc:517`). -/
def isValidKey (k : Bytes) : Bool := k.length = minLen || k.length ≥ maxLen

/-- `IsLegalVectorId`, `vector/codec.cc:316`. -/
def isLegalId (id : Int) : Bool := id > 0 && id ≠ i64Max

/-- The loop of `ServiceHelper::ValidateIndexRegion` and `ValidateDocumentRegion`,
`server/service_helper.cc:198-236`: are all ids accepted by a region with this range?
The check of the region's state is left out. -/
def idsAccepted (start stop : Bytes) (ids : List Int) : Option Bool :=
  (rangeToIds start stop).map fun r => ids.all fun id => !(id < r.1 || id ≥ r.2)

end Verif.Codec
