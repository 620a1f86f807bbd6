import Verif.Codec.Model

/-!
# Request validation (model)

`server/service_helper.cc:56-196`, the range helpers of `common/helper.cc:446-472`, and the
way the key, scan and delete-range requests of `server/store_service.cc` use them.
`std::string` comparison is lexicographic on unsigned bytes, as `<` on `Bytes`.
-/

namespace Verif.Region
open Verif.Codec (Bytes prefixNext)

/-- `pb::common::Range`. -/
structure Range where
  start : Bytes
  stop : Bytes
  deriving DecidableEq, Repr

/-- `pb::common::RegionEpoch`. -/
structure Epoch where
  conf : Int
  version : Int
  deriving DecidableEq, Repr

/-- `pb::common::StoreRegionState`. -/
inductive RState where
  | new | normal | standby | splitting | merging | deleting | deleted | orphan | tombstone
  deriving DecidableEq, Repr

/-- The fields of `store::Region` (`meta/store_meta_manager.h`) used by the validation. -/
structure Info where
  epoch : Epoch
  state : RState
  range : Range
  deriving DecidableEq, Repr

deriving instance DecidableEq for Except

/-- The error codes of the validation. -/
inductive Err where
  | version | state | keyEmpty | illegal | rangeInvalid | outOfRange
  deriving DecidableEq, Repr

/-- `ValidateRegionEpoch`, `service_helper.cc:56-65`. -/
def validateEpoch (req : Epoch) (r : Info) : Bool :=
  !(r.epoch.conf ≠ req.conf || r.epoch.version ≠ req.version)

/-- `ValidateRegionState`, `service_helper.cc:90-118` (a missing region is turned away
before, in the closure's constructor). -/
def validateState (r : Info) : Bool :=
  match r.state with
  | .new | .standby | .deleting | .deleted | .merging | .orphan | .tombstone => false
  | .normal | .splitting => true

/-- `ValidateRange`, `service_helper.cc:120-132`. -/
def validateRange (q : Range) : Except Err Unit :=
  if q.start = [] ∨ q.stop = [] then .error .illegal
  else if ¬ q.start < q.stop then .error .rangeInvalid
  else .ok ()

/-- `ValidateKeyInRange`, `service_helper.cc:135-146`. -/
def validateKeys (r : Range) : List Bytes → Bool
  | [] => true
  | k :: ks => if k < r.start || r.stop ≤ k then false else validateKeys r ks

/-- `ValidateRangeInRange`, `service_helper.cc:149-182`. -/
def validateRangeInRange (r q : Range) : Bool :=
  let m := min r.start.length q.start.length
  if q.start.take m < r.start.take m then false
  else
    let n := min r.stop.length q.stop.length
    let qe := if q.stop.length > r.stop.length then prefixNext (q.stop.take n) else q.stop.take n
    let re := if q.stop.length < r.stop.length then prefixNext (r.stop.take n) else r.stop.take n
    !(re < qe)

/-- `pb::common::RangeWithOptions`. -/
structure RangeOpt where
  range : Range
  withStart : Bool
  withEnd : Bool
  deriving DecidableEq, Repr

/-- `Helper::TransformRangeWithOptions`, `common/helper.cc:446-456`. -/
def transform (q : RangeOpt) : Range :=
  { start := if q.withStart then q.range.start else prefixNext q.range.start
    stop := if q.withEnd then prefixNext q.range.stop else q.range.stop }

/-- `Helper::IntersectRange`, `common/helper.cc:459-466`. -/
def intersect (a b : Range) : Range :=
  { start := if a.start ≤ b.start then b.start else a.start
    stop := if a.stop ≤ b.stop then a.stop else b.stop }

/-- Point requests, e.g. `ValidateKvGetRequest`, `store_service.cc:58-80` with
`ValidateRegion`, `service_helper.cc:184-196`: epoch, non-empty keys, state, range. -/
def keyRequest (e : Epoch) (keys : List Bytes) (r : Info) : Except Err Unit :=
  if !validateEpoch e r then .error .version
  else if keys.any (· = []) then .error .keyEmpty
  else if !validateState r then .error .state
  else if !validateKeys r.range keys then .error .outOfRange
  else .ok ()

/-- The common order of checks of range requests, e.g. `ValidateKvDeleteRangeRequest`,
`store_service.cc:806-829`. -/
def rangeChecks (e : Epoch) (q : Range) (r : Info) : Except Err Unit :=
  if !validateEpoch e r then .error .version
  else match validateRange q with
    | .error x => .error x
    | .ok () =>
      if !validateRangeInRange r.range q then .error .outOfRange
      else if !validateState r then .error .state
      else .ok ()

/-- `DoKvDeleteRange`, `DoKvScanBegin`, `DoKvScanBeginV2`, `DoTxnScan`,
`store_service.cc:831-868`, `1145-1190`, `1434-1475`, `1794-1822`: the range the storage is
asked to delete or scan.  `r` is the region when the request is validated, `r'` when its
range is read again for the intersection: no lock is held in between. -/
def clippedRequest (e : Epoch) (q : RangeOpt) (r r' : Info) : Except Err Range :=
  match rangeChecks e (transform q) r with
  | .error x => .error x
  | .ok () => .ok (intersect r'.range (transform q))

/-- `DoTxnDeleteRange`, `store_service.cc:3283-3352`: the range goes unclipped to
`TxnEngineHelper::DeleteRange` (`txn_engine_helper.cc:4722-4763`) and from there to
`HandleTxnDeleteRangeRequest` (`raft_apply_handler_txn.cc:256-291`).  (The checks are those
of the other range requests, and that the cluster is not read-only, which is left out.) -/
def txnDeleteRange (e : Epoch) (q : Range) (r : Info) : Except Err Range :=
  match rangeChecks e q r with
  | .error x => .error x
  | .ok () => .ok q

/-- Does a range delete remove this key? `HandleTxnDeleteRangeRequest`,
`raft_apply_handler_txn.cc:268-283`: the encoded range of the engine shared by all regions
of the store (C03 relates it to the plain range). -/
def removes (d : Range) (k : Bytes) : Bool := d.start ≤ k && k < d.stop

end Verif.Region
