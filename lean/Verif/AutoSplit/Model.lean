import Verif.Codec.Props

/-!
# Splits and merges that stores ask for (model)

Models `src/split/split_checker.cc` and `src/merge/merge_checker.cc`: a store looks at the
regions it leads, and asks the coordinator to split the large ones and to merge small neighbours.

* Sizes are natural numbers (`int64_t` and `uint32_t` in the code).
* Products with ratios (`split_size_ * split_ratio_` and the like) are parameters, rounded as the
  code rounds them: floating point numbers are not modelled.
* The numbers a pass over the regions sees (sizes, counts of keys) are given; that a pass brings
  them up to date while it runs is not modelled.
* Not modelled: the log, metrics that are only reported.
-/

namespace Verif.AutoSplit
open Verif.Codec

/-! ## Choosing a key -/

/-- An entry of a column family: its key and `KeyValueSize()`, `split_checker.cc:87-90`. -/
structure Ent where
  key : Bytes
  size : Nat
deriving DecidableEq, Repr

/-- What an iterator over a column family that was sought to `start` and is bounded by `stop` has
ahead, `split_checker.cc:51-65`. -/
def ahead (start stop : Bytes) (cf : List Ent) : List Ent :=
  (cf.dropWhile (fun e => decide (e.key < start))).takeWhile (fun e => decide (e.key < stop))

/-- `MergedIterator`, `split_checker.cc:48-101`: the entries of the column families by key.  (Of
entries with the same key the heap may have any first, here it is the one of the first column
family.) -/
def scan (start stop : Bytes) (cfs : List (List Ent)) : List Ent :=
  cfs.foldr (fun cf rest => List.merge (ahead start stop cf) rest (fun a b => decide (a.key ≤ b.key))) []

/-- The policies, `BuildSplitChecker`, `:411-432`.  `half`: sample size and threshold; `size`:
`split_size_ * split_ratio_` and threshold; `keys`: `split_keys_number_ * split_keys_ratio_` and
threshold. -/
inductive Policy where
  | half (chunk max : Nat)
  | size (pos max : Nat)
  | keys (num max : Nat)
deriving DecidableEq, Repr

/-- The variables of the loop of `HalfSplitChecker::SplitKey`, `:109-112`. -/
structure Half where
  size : Nat := 0
  chunk : Nat := 0
  keys : List Bytes := []
  over : Bool := false

/-- The body of the loop, `:114-123`. -/
def Half.step (chunk max : Nat) (s : Half) (e : Ent) : Half where
  size := s.size + e.size
  chunk := if s.chunk + e.size ≥ chunk then 0 else s.chunk + e.size
  keys := if s.chunk + e.size ≥ chunk then s.keys ++ [e.key] else s.keys
  over := s.over || decide (s.size + e.size ≥ max)

/-- The variables of the loop of `SizeSplitChecker::SplitKey`, `:146-148`; `n` is `size`. -/
structure One where
  n : Nat := 0
  prev : Bytes := []
  key : Bytes := []
  over : Bool := false

/-- The body of the loop, `:151-156`. -/
def One.sizeStep (pos max : Nat) (s : One) (e : Ent) : One :=
  let n := s.n + e.size
  if s.key = [] ∧ n ≥ pos then { s with n := n, key := e.key }
  else if n ≥ max then { s with n := n, over := true }
  else { s with n := n }

/-- The body of the loop of `KeysSplitChecker::SplitKey`, `:183-194`; `n` is
`split_key_count`. -/
def One.keysStep (num max : Nat) (s : One) (e : Ent) : One :=
  let n := if s.prev ≠ e.key then s.n + 1 else s.n
  if s.key = [] ∧ n ≥ num then { s with n := n, prev := e.key, key := e.key }
  else if n = max then { s with n := n, prev := e.key, over := true }
  else { s with n := n, prev := e.key }

/-- `SplitKey` of the policies, `:104-138`, `:141-169`, `:172-202`; `[]`: none. -/
def splitKey (es : List Ent) : Policy → Bytes
  | .half chunk max =>
    let s := es.foldl (Half.step chunk max) {}
    if s.over then s.keys[s.keys.length / 2]?.getD [] else []
  | .size pos max =>
    let s := es.foldl (One.sizeStep pos max) {}
    if s.over then s.key else []
  | .keys num max =>
    let s := es.foldl (One.keysStep num max) {}
    if s.over then s.key else []

/-- What the task sees of the region after the scan, `:296-338`: version, range,
`DisableChange()`, `TemporaryDisableChange()`, state `NORMAL`, `CheckLeaderAndFollowerStatus`,
a mono store with `enable_region_split_and_merge_for_lite` off, too many vector index tasks. -/
structure Look where
  version : Nat
  start : Bytes
  stop : Bytes
  disabled : Bool
  tmpDisabled : Bool
  normal : Bool
  leads : Bool
  monoOff : Bool
  busy : Bool
deriving DecidableEq, Repr

/-- The checks before the coordinator is asked, `:290-339`. -/
def Look.allows (n : Look) (version : Nat) (key : Bytes) : Bool :=
  decide (key ≠ []) && decide (n.version = version) && (decide (n.start ≤ key) && decide (key < n.stop)) &&
    !n.disabled && !n.tmpDisabled && n.normal && n.leads && !n.monoOff && !n.busy

/-- `SplitCheckTask::SplitCheck`, `:242-365`: the key the coordinator is asked to split the region
at, if any.  `none`: the process ends, `:273-275`. -/
def splitCheck (p : Policy) (cfs : List (List Ent)) (version : Nat) (start stop : Bytes) (n : Look) :
    Option (Option Bytes) :=
  let e := splitKey (scan (encodeBytes start) (encodeBytes stop) cfs) p
  if e = [] then some none
  else match decodeKey e with
    | .ok (k, _) => some (if n.allows version k then some k else none)
    | _ => none

/-! ## Choosing neighbours -/

/-- What a pass sees of a region: `GetAllAliveRegion` and the metrics, `merge_checker.cc:378-402`.
`valid` is `ValidRegion`, `:96-123`; `leads` is `CheckLeaderAndFollowerStatus`, `:125-161`;
`known`: it has metrics; `peers`: the stores; `lastSplit`: `LastSplitTimestamp()`. -/
structure Reg where
  id : Nat
  start : Bytes
  stop : Bytes
  part : Nat
  storeEngine : Nat
  rawEngine : Nat
  peers : List Nat
  valid : Bool
  leads : Bool
  known : Bool
  size : Nat
  keys : Nat
  lastSplit : Nat
deriving DecidableEq, Repr

/-- `GetMergeCheckSize`, `GetMergeCheckKeysCount`, `GetSplitMergeInterval` in milliseconds, and the
products `split_threshold_size * merge_size_ratio`, `split_key_number * merge_keys_ratio` of
`NeedMerge`, `merge_checker.cc:294-307`. -/
structure Cfg where
  maxSize : Nat
  maxKeys : Nat
  interval : Nat
  sumSize : Nat
  sumKeys : Nat
deriving DecidableEq, Repr

/-- `Helper::IsDifferencePeers`, `common/helper.cc:339-359`. -/
def differentPeers (a b : Reg) : Bool :=
  decide (a.peers.length ≠ b.peers.length) || a.peers.any (fun p => !b.peers.any (fun q => decide (p = q)))

/-- `NeedMerge`, `merge_checker.cc:248-319`. -/
def needMerge (c : Cfg) (a b : Reg) : Bool :=
  !(decide (a.size > c.maxSize) || decide (a.keys > c.maxKeys)) &&
    !decide (a.size + b.size > c.sumSize) && !decide (a.keys + b.keys > c.sumKeys)

/-- The region was split less than an interval ago, `:445-456`. -/
def recent (c : Cfg) (now : Nat) (r : Reg) : Bool :=
  decide (r.lastSplit ≠ 0) && decide (r.lastSplit + c.interval > now)

/-- The checks of a pair, `:406-497`; `checking`: the regions with a task. -/
def eligible (c : Cfg) (now : Nat) (up : Bool) (checking : List Nat) (a b : Reg) : Bool :=
  a.known && b.known && a.valid && b.valid && !decide (a.id ∈ checking) &&
    !decide (a.size > c.maxSize) && !decide (a.keys > c.maxKeys) && a.leads &&
    !recent c now a && !recent c now b && decide (a.part = b.part) &&
    !(up && decide (a.stop ≠ b.start)) && !(!up && decide (a.start ≠ b.stop)) &&
    decide (a.storeEngine = b.storeEngine) && decide (a.rawEngine = b.rawEngine) &&
    !differentPeers a b && needMerge c a b

/-- The loop of `PreMergeCheckTask::PreMergeCheck`, `:396-514`, over the regions in the order of
their start keys, up or down (`:383-392`): the pairs that get a task. -/
def mergePass (c : Cfg) (now : Nat) (up : Bool) (checking : List Nat) : List Reg → List (Reg × Reg)
  | a :: b :: d :: rest =>
    if eligible c now up checking a b then (a, b) :: mergePass c now up checking (d :: rest)
    else mergePass c now up checking (b :: d :: rest)
  | _ => []

/-- `MergeCheckTask::MergeCheck`, `:163-246`, with the regions as they are when it runs: whether
the coordinator is asked to merge `a` into `b`. -/
def mergeCheck (a b : Reg) : Bool :=
  a.valid && b.valid && a.leads && decide (a.storeEngine = b.storeEngine) && decide (a.rawEngine = b.rawEngine) &&
    decide (a.part = b.part) && !differentPeers a b

/-! ## Regions being checked -/

/-- `checking_regions_` and the threads: tasks that were started and have not ended, regions a pass
has started a task for and not yet entered (`split_checker.cc:535-537`). -/
structure Chk where
  set : List Nat := []
  tasks : List (List Nat) := []
  entering : List Nat := []
deriving DecidableEq, Repr

inductive ChkEv where
  /-- `PreSplitCheck` finds that region `i` is not being checked and starts a task, `:480`, `:535`. -/
  | splitStart (i : Nat)
  /-- `AddRegionChecking`, `:536`. -/
  | splitEnter (i : Nat)
  /-- `PreMergeCheck` enters both regions and starts a task, `merge_checker.cc:425`, `:507-510`. -/
  | mergeStart (a b : Nat)
  /-- A task ends: `Run`, `split_checker.h`, `merge_checker.h`. -/
  | finish (t : List Nat)
deriving DecidableEq, Repr

/-- One step; `none`: not possible.  Splits and merges have a set each; this is one of them. -/
def Chk.step (s : Chk) : ChkEv → Option Chk
  | .splitStart i =>
    if i ∈ s.set then none else some { s with tasks := [i] :: s.tasks, entering := i :: s.entering }
  | .splitEnter i =>
    if i ∈ s.entering then
      some { s with set := if i ∈ s.set then s.set else i :: s.set, entering := s.entering.erase i }
    else none
  | .mergeStart a b =>
    if a ∈ s.set then none
    else
      let set := if a ∈ s.set then s.set else a :: s.set
      some { s with set := if b ∈ set then set else b :: set, tasks := [a, b] :: s.tasks }
  | .finish t =>
    if t ∈ s.tasks then some { s with set := s.set.filter (fun i => !decide (i ∈ t)), tasks := s.tasks.erase t }
    else none

def Chk.run (s : Chk) : List ChkEv → Option Chk
  | [] => some s
  | e :: es => (s.step e).bind (fun s => s.run es)

end Verif.AutoSplit
