/-!
# Read-only clusters (model)

A store that is short of disk or memory says so with its heartbeat; the coordinator then answers all
heartbeats with "read-only", and the stores refuse writes: `server/coordinator_service.cc:655-719`,
`coordinator/coordinator_control_coor.cc:841-881, 6931-7042`, `store/heartbeat.cc:330-348, 474-475`,
`server/service_helper.cc:241-266`, and the checks of requests in `server/store_service.cc`,
`server/index_service.cc`, `server/document_service.cc`.

* Whether a store is short is an input of its heartbeat (`metrics/store_metrics_manager.cc:178-212`).
* A heartbeat makes the store's state normal at once (in the code when its change has been applied).
* Reasons (texts) are left out.  `force_read_only` is replicated; the flag and the metrics are in the
  memory of the leading coordinator.
-/

namespace Verif.ReadOnly

/-- The leading coordinator and what the stores were last told. -/
structure St where
  /-- the stores in `store_metrics_map_` -/
  ids : List Nat
  /-- `STORE_NORMAL` -/
  normal : Nat → Bool
  /-- `is_ready_only` of the last metrics -/
  low : Nat → Bool
  /-- `cluster_is_read_only_` of the coordinator -/
  flag : Bool
  /-- `kForceReadOnlyKey` -/
  force : Bool
  /-- what a running check has computed and not yet set -/
  pending : Option Bool
  /-- `cluster_is_read_only_`, `cluster_is_force_read_only_` of the stores -/
  ro : Nat → Bool
  forced : Nat → Bool

/-- A function with one value changed. -/
def upd (f : Nat → Bool) (i : Nat) (b : Bool) : Nat → Bool := fun j => if j = i then b else f j

/-- What happens. -/
inductive Ev
  /-- a heartbeat, with what it says about shortage if it has metrics; whether the answer arrives -/
  | beat (i : Nat) (m : Option Bool) (got : Bool)
  /-- a store is set offline after a minute without heartbeat -/
  | offline (i : Nat)
  /-- the check computes, `coordinator_control_coor.cc:842-870` -/
  | look
  /-- the check sets, lines 872-880 -/
  | set
  /-- `UpdateForceReadOnly` -/
  | force (b : Bool)
  /-- another coordinator leads, with the flag and metrics its memory has -/
  | elect (flag : Bool) (low : Nat → Bool)

/-- A step. -/
def step (s : St) : Ev → St
  | .beat i m got =>
    -- UpdateStoreMap, UpdateStoreMetrics, then lines 695-705
    let flag := s.flag || m == some true
    { s with
      ids := if s.ids.contains i then s.ids else i :: s.ids
      normal := upd s.normal i true
      low := match m with
        | some b => upd s.low i b
        | none => s.low
      flag := flag
      -- lines 707-719 and store/heartbeat.cc:330-348
      ro := if got then upd s.ro i flag else s.ro
      forced := if got then upd s.forced i s.force else s.forced }
  | .offline i => { s with normal := upd s.normal i false }
  | .look => { s with pending := some (s.ids.any (fun i => s.low i && s.normal i)) }
  | .set => { s with flag := s.pending.getD s.flag, pending := none }
  | .force b => { s with force := b }
  | .elect flag low => { s with flag := flag, low := low, pending := none }

/-- A history. -/
def exec (s : St) (l : List Ev) : St := l.foldl step s

/-- The beginning. -/
def start : St := ⟨[], fun _ => false, fun _ => false, false, false, none, fun _ => false, fun _ => false⟩

/-- Requests of clients. -/
inductive Kind
  | get | batchGet | scan | txnGet | txnBatchGet | txnScan | vectorSearch | documentSearch
  | put | batchPut | putIfAbsent | batchPutIfAbsent | compareAndSet | batchCompareAndSet
  | batchDelete | deleteRange
  | pessimisticLock | pessimisticRollback | prewrite | commit | checkTxnStatus | checkSecondaryLocks
  | resolveLock | batchRollback | txnHeartBeat | gc | txnDeleteRange
  | vectorAdd | vectorImportAdd | vectorDelete | vectorImportDelete
  | documentAdd | documentDelete
  | backupData | backupMeta | restoreData | restoreMeta
deriving DecidableEq, Repr

/-- Whether the check of the request (`Validate…Request`) calls `ValidateClusterReadOnly`: of the store
lines 273, 382, 492, 605 (not 699-722, 806-825, 896-918, 997-1024), 1930, 2064, 2185, 2323, 2441, 2556, 2663,
2898, 3127, 3220, 3311, 3403, 3504, 3650, 3761; of the index node 506, 1316 (not 602-640, 1341-1395); of the document node 462
(not 546-590).  Requests of transactions are those of store nodes; index and document nodes check the same
ones but for heartbeats, garbage collection and deletion of ranges. -/
def Kind.checked : Kind → Bool
  | .put | .batchPut | .putIfAbsent | .batchPutIfAbsent => true
  | .pessimisticLock | .pessimisticRollback | .prewrite | .commit | .checkTxnStatus | .checkSecondaryLocks => true
  | .resolveLock | .batchRollback | .txnHeartBeat | .gc | .txnDeleteRange => true
  | .vectorAdd | .vectorImportAdd | .documentAdd => true
  | .backupData | .backupMeta | .restoreData | .restoreMeta => true
  | _ => false

/-- Whether store `i` lets a request pass, as far as this check is concerned:
`ValidateClusterReadOnly`, `server/service_helper.cc:241-266`. -/
def passes (s : St) (i : Nat) (k : Kind) : Bool := !(k.checked && (s.ro i || s.forced i))

end Verif.ReadOnly
