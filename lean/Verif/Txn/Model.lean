import Verif.Txn.CF

/-!
# Transaction engine (model)

Models `src/engine/txn_engine_helper.cc` (Percolator-style transactions) and the
parts of `src/server/store_service.cc` that touch its state.

Simplifications common to all definitions:
* Column families are keyed by decoded keys: the lock column family by user key
  (its version is always `kLockVer`), data and write by (user key, timestamp),
  ordered as their byte encodings are (`Codec.C02_encodeKey_order`).
* A protobuf message parses back to itself.  A missing message is the default
  one, as in the C++ (`GetLockInfo` leaves `lock_info` default).
* One request is one step: it reads a snapshot and its raft write is applied
  atomically before any conflicting request reads (latches on the keys, held
  until the raft write returns).  A raft write that fails leaves the state
  unchanged and is not modelled as a step.
* One plain store region; vector and document index side effects, epoch checks,
  size limits on the number of keys, logging and metrics are left out.
* `Out.fatal` is a process abort (`DINGO_LOG(FATAL)`, `CHECK`) or signed
  overflow.
-/

namespace Verif.Txn
open Verif.Codec

/-- `pb::store::Op`. -/
inductive Op where
  | none | put | delete | putIfAbsent | rollback | lock | checkNotExists
deriving DecidableEq, Repr

/-- `pb::store::LockInfo`; the default value is the empty message. -/
structure LockInfo where
  primary : Bytes := []
  lockTs : Int := 0
  key : Bytes := []
  ttl : Int := 0
  txnSize : Int := 0
  type : Op := .none
  shortValue : Bytes := []
  extra : Bytes := []
  forUpdateTs : Int := 0
  minCommitTs : Int := 0
  useAsync : Bool := false
  secondaries : List Bytes := []
deriving DecidableEq, Repr

/-- `pb::store::WriteInfo`. -/
structure WriteInfo where
  startTs : Int := 0
  op : Op := .none
  shortValue : Bytes := []
deriving DecidableEq, Repr

/-- `Constant::kMaxVer` (`common/constant.h`): `INT64_MAX`. -/
def maxVer : Int := 2 ^ 63 - 1

/-- `FLAGS_max_short_value_in_write_cf`, `engine/txn_engine_helper.cc:64`. -/
def maxShortValue : Nat := 256

/-- State of one region: the three transactional column families and
`Region::TxnAccessMaxTs` (`meta/store_meta_manager.h:188-199`). -/
structure State where
  lock : CF Bytes LockInfo
  write : CF VKey WriteInfo
  data : CF VKey Bytes
  maxTs : Int
deriving DecidableEq

/-- The empty region. -/
def State.init : State := ⟨CF.empty, CF.empty, CF.empty, 0⟩

/-- A `MultiCfPutAndDeleteRequest`. -/
structure Batch where
  putData : List (VKey × Bytes) := []
  putLock : List (Bytes × LockInfo) := []
  putWrite : List (VKey × WriteInfo) := []
  delLock : List Bytes := []
  delData : List VKey := []
deriving DecidableEq, Repr

/-- `TxnHandler::HandleMultiCfPutAndDeleteRequest`,
`handler/raft_apply_handler_txn.cc:40-103`, with `KvBatchPutAndDelete`,
`engine/rocks_raw_engine.cc:595-654`: one atomic batch, all puts before all
deletes. -/
def State.apply (st : State) (b : Batch) : State :=
  { st with
    lock := (st.lock.putAll b.putLock).delAll b.delLock
    write := st.write.putAll b.putWrite
    data := (st.data.putAll b.putData).delAll b.delData }

/-- `Region::SetTxnAccessMaxTs`, `meta/store_meta_manager.h:188-199`. -/
def State.access (st : State) (ts : Int) : State := { st with maxTs := max st.maxTs ts }

/-! ## Responses -/

/-- `pb::store::WriteConflict_Reason`. -/
inductive Reason where
  | optimistic | selfRolledBack | pessimisticRetry
deriving DecidableEq, Repr

/-- `pb::store::TxnResultInfo`. -/
inductive TxnResult where
  | locked (l : LockInfo)
  | writeConflict (reason : Reason) (startTs conflictTs : Int) (key : Bytes)
  | commitTsExpired (startTs attempted : Int) (key : Bytes) (minCommitTs : Int)
  | txnNotFound (startTs : Int) (key : Bytes)
  | primaryMismatch (l : LockInfo)
deriving DecidableEq, Repr

/-- Error statuses that reach the client. -/
inductive Err where
  | illegalParameters | valueEmpty | internal
deriving DecidableEq, Repr

/-- Outcome of a handler. -/
inductive Out (α : Type) where
  | ok (a : α)
  | err (e : Err)
  | fatal
deriving DecidableEq, Repr

/-! ## TxnReader -/

/-- `TxnReader::GetLockInfo`, `engine/txn_engine_helper.cc:131-169`: the default
message when there is no lock. -/
def getLock (st : State) (k : Bytes) : LockInfo :=
  match st.lock.get k with
  | some l => l
  | none => {}

/-- Loop of `TxnReader::GetWriteInfo`, `engine/txn_engine_helper.cc:218-279`;
the list is the iterator position. -/
def writeInfoLoop (minTs startTs : Int) (k : Bytes) (inclRollback inclDelete inclPut : Bool) :
    List (VKey × WriteInfo) → Option (WriteInfo × Int)
  | [] => none
  | (vk, w) :: rest =>
    if ¬ vk < ⟨k, minTs⟩ then none
    else if vk.ts < minTs then none
    else if startTs > 0 ∧ w.startTs ≠ startTs then
      writeInfoLoop minTs startTs k inclRollback inclDelete inclPut rest
    else
      let incl := match w.op with
        | .rollback => inclRollback
        | .delete => inclDelete
        | .put => inclPut
        | _ => false
      if incl then some (w, vk.ts)
      else writeInfoLoop minTs startTs k inclRollback inclDelete inclPut rest

/-- `TxnReader::GetWriteInfo`, `engine/txn_engine_helper.cc:204-282`; `none` when
the out-parameters are left untouched. -/
def getWriteInfo (st : State) (minTs maxTs startTs : Int) (k : Bytes)
    (inclRollback inclDelete inclPut : Bool) : Option (WriteInfo × Int) :=
  writeInfoLoop minTs startTs k inclRollback inclDelete inclPut (st.write.seek ⟨k, maxTs⟩)

/-- The out-parameter `commit_ts` of `GetWriteInfo`: callers start it at 0. -/
def ctsOf : Option (WriteInfo × Int) → Int
  | some (_, t) => t
  | none => 0

/-- The out-parameter `write_info` of `GetWriteInfo`: callers start it empty. -/
def wiOf : Option (WriteInfo × Int) → WriteInfo
  | some (w, _) => w
  | none => {}

/-- Loop of `TxnReader::CheckCommittedRecord`, `engine/txn_engine_helper.cc:296-329`. -/
def committedLoop (startTs : Int) (k : Bytes) : List (VKey × WriteInfo) → Option (WriteInfo × Int)
  | [] => none
  | (vk, w) :: rest =>
    if (⟨k, startTs⟩ : VKey) < vk then none
    else if w.startTs ≠ startTs then committedLoop startTs k rest
    else if w.op = .rollback then none
    else some (w, vk.ts)

/-- `TxnReader::CheckCommittedRecord`, `engine/txn_engine_helper.cc:284-331`. -/
def checkCommitted (st : State) (startTs : Int) (k : Bytes) : Option (WriteInfo × Int) :=
  committedLoop startTs k (st.write.seek ⟨k, maxVer⟩)

/-- `TxnReader::GetRollbackInfo`, `engine/txn_engine_helper.cc:333-384`:
`ok true` when a rollback record of this transaction sits at `start_ts`. -/
def getRollback (st : State) (startTs : Int) (k : Bytes) : Out Bool :=
  match st.write.get ⟨k, startTs⟩ with
  | none => .ok false
  | some w =>
    if w.startTs ≠ startTs then .ok false
    else if w.op = .rollback then .ok true
    else .fatal

/-! ## Point reads -/

/-- `pb::store::IsolationLevel`. -/
inductive Iso where
  | si | rc
deriving DecidableEq, Repr

/-- `TxnEngineHelper::CheckLockConflict`, `engine/txn_engine_helper.cc:1063-1121`. -/
def lockConflict (l : LockInfo) (iso : Iso) (startTs : Int) (resolved : List Int) : Bool :=
  if resolved ≠ [] ∧ l.lockTs ∈ resolved then false
  else if l.minCommitTs > startTs then false
  else if l.lockTs > 0 then
    match iso with
    | .si => if l.forUpdateTs > 0 then decide (l.forUpdateTs < startTs) else decide (l.lockTs < startTs)
    | .rc =>
      if l.forUpdateTs > 0 then
        if l.type = .lock then false else decide (l.forUpdateTs < startTs)
      else false
  else false

/-- Version loop of `TxnEngineHelper::BatchGet`,
`engine/txn_engine_helper.cc:1350-1431`: the value returned for the key (empty
when there is none). -/
def getLoop (st : State) (k : Bytes) (iso : Iso) (startTs : Int) :
    List (VKey × WriteInfo) → Out Bytes
  | [] => .ok []
  | (vk, w) :: rest =>
    if ¬ vk < ⟨k, 0⟩ then .ok []
    else if iso = .rc ∨ vk.ts ≤ startTs then
      match w.op with
      | .rollback => getLoop st k iso startTs rest
      | .delete => .ok []
      | .put =>
        if w.shortValue ≠ [] then .ok w.shortValue
        else
          -- GetDataValue, 171-202: a missing data record is logged and read as empty
          match st.data.get ⟨k, w.startTs⟩ with
          | some v => .ok v
          | none => .ok []
      | _ => .err .internal
    else getLoop st k iso startTs rest

/-- One key of `TxnEngineHelper::BatchGet`, `engine/txn_engine_helper.cc:1292-1440`:
`inl` is the conflicting lock. -/
def getKey (st : State) (iso : Iso) (startTs : Int) (resolved : List Int) (k : Bytes) :
    LockInfo ⊕ Out Bytes :=
  let l := getLock st k
  if lockConflict l iso startTs resolved then .inl l
  else
    let iterTs := match iso with | .si => startTs | .rc => maxVer
    .inr (getLoop st k iso startTs (st.write.seek ⟨k, iterTs⟩))

/-- Response of `BatchGet`. -/
structure GetResp where
  result : Option TxnResult := .none
  kvs : List (Bytes × Bytes) := []
deriving DecidableEq, Repr

/-- `TxnEngineHelper::BatchGet`, `engine/txn_engine_helper.cc:1223-1461`, key loop.
`size` stands for `kv.ByteSizeLong()` and `limit` for
`FLAGS_max_batch_get_memory_size` (`1442-1450`). -/
def batchGetLoop (st : State) (iso : Iso) (startTs : Int) (resolved : List Int)
    (size : Bytes → Bytes → Nat) (limit : Nat) :
    List Bytes → Nat → List (Bytes × Bytes) → Out GetResp
  | [], _, acc => .ok { kvs := acc }
  | k :: ks, used, acc =>
    match getKey st iso startTs resolved k with
    | .inl l => .ok { result := some (.locked l), kvs := acc }
    | .inr (.err e) => .err e
    | .inr .fatal => .fatal
    | .inr (.ok v) =>
      let used' := used + size k v
      if used' ≥ limit then .ok { kvs := acc ++ [(k, v)] }
      else batchGetLoop st iso startTs resolved size limit ks used' (acc ++ [(k, v)])

/-- `TxnEngineHelper::BatchGet`. -/
def batchGet (st : State) (iso : Iso) (startTs : Int) (resolved : List Int)
    (size : Bytes → Bytes → Nat) (limit : Nat) (ks : List Bytes) : Out GetResp :=
  batchGetLoop st iso startTs resolved size limit ks 0 []

/-! ## Pessimistic locks -/

/-- `TxnReader::GetOldValue`, `engine/txn_engine_helper.cc:386-444`.  `prev` is
`prev_write_info` when `prev_write_load`. -/
def getOldValue (st : State) (k : Bytes) (startTs : Int) (prev : Option WriteInfo) : Bytes :=
  let w : WriteInfo := match prev with
    | some w => w
    | none => wiOf (getWriteInfo st 0 startTs 0 k false true true)
  if w.op = .put then
    if w.shortValue ≠ [] then w.shortValue
    else match st.data.get ⟨k, w.startTs⟩ with
      | some v => v
      | none => []
  else []

/-- A mutation of a `TxnPessimisticLock` request (its `op` must be `Lock`). -/
structure PessMut where
  op : Op
  key : Bytes
  value : Bytes
deriving DecidableEq, Repr

/-- A `TxnPessimisticLock` request. -/
structure PessReq where
  mutations : List PessMut
  primary : Bytes
  startTs : Int
  ttl : Int
  forUpdateTs : Int
  returnValues : Bool
deriving DecidableEq, Repr

/-- Accumulated response and writes of `PessimisticLock`. -/
structure PessAcc where
  results : List TxnResult := []
  kvs : List (Bytes × Bytes) := []
  locks : List (Bytes × LockInfo) := []
deriving DecidableEq, Repr

/-- One mutation of `TxnEngineHelper::PessimisticLock`,
`engine/txn_engine_helper.cc:1738-1925`. -/
def pessOne (st : State) (r : PessReq) (m : PessMut) (a : PessAcc) : PessAcc :=
  let l := getLock st m.key
  if l.primary ≠ [] then
    if l.forUpdateTs = 0 then { a with results := a.results ++ [.locked l] }
    else if l.lockTs = r.startTs then
      if l.forUpdateTs = r.forUpdateTs then
        if r.returnValues then
          { a with kvs := a.kvs ++ [(m.key, getOldValue st m.key r.startTs none)] }
        else a
      else if l.forUpdateTs < r.forUpdateTs then
        let l' := { l with primary := r.primary, lockTs := r.startTs, forUpdateTs := r.forUpdateTs,
                           key := m.key, ttl := r.ttl, type := .lock, extra := m.value }
        let a' := { a with locks := a.locks ++ [(m.key, l')] }
        if r.returnValues then
          { a' with kvs := a'.kvs ++ [(m.key, getOldValue st m.key r.startTs none)] }
        else a'
      else { a with results := a.results ++ [.locked l] }
    else { a with results := a.results ++ [.locked l] }
  else
    let minTs := if r.returnValues then 0 else r.startTs
    let w := getWriteInfo st minTs maxVer 0 m.key false true true
    if ctsOf w ≥ r.forUpdateTs then
      { a with results := a.results ++ [.writeConflict .pessimisticRetry r.startTs (ctsOf w) m.key] }
    else
      let l' : LockInfo := { primary := r.primary, lockTs := r.startTs, forUpdateTs := r.forUpdateTs,
                             key := m.key, ttl := r.ttl, type := .lock, extra := m.value }
      let a' := { a with locks := a.locks ++ [(m.key, l')] }
      if r.returnValues then
        { a' with kvs := a'.kvs ++ [(m.key, getOldValue st m.key r.startTs (some (wiOf w)))] }
      else a'

/-- Loop of `PessimisticLock`, `1727-1926`. -/
def pessLoop (st : State) (r : PessReq) : List PessMut → PessAcc → Out PessAcc
  | [], a => .ok a
  | m :: ms, a => if m.op ≠ .lock then .err .illegalParameters else pessLoop st r ms (pessOne st r m a)

/-- Response of `PessimisticLock` and `PessimisticRollback`. -/
structure PessResp where
  results : List TxnResult := []
  kvs : List (Bytes × Bytes) := []
deriving DecidableEq, Repr

/-- `TxnEngineHelper::PessimisticLock`, `engine/txn_engine_helper.cc:1684-1968`. -/
def pessimisticLock (st : State) (r : PessReq) : State × Out PessResp :=
  match pessLoop st r r.mutations {} with
  | .err e => (st, .err e)
  | .fatal => (st, .fatal)
  | .ok a =>
    let resp := { results := a.results, kvs := a.kvs : PessResp }
    if a.results ≠ [] then (st, .ok resp)
    else (st.apply { putLock := a.locks }, .ok resp)

/-- One key of `PessimisticRollback`, `engine/txn_engine_helper.cc:2076-2142`:
response entries and lock deletions. -/
def pessRollbackOne (st : State) (startTs forUpdateTs : Int) (k : Bytes)
    (a : List TxnResult × List Bytes) : List TxnResult × List Bytes :=
  let l := getLock st k
  if l.primary ≠ [] then
    if l.type ≠ .lock then (a.1 ++ [.locked l], a.2)
    else if l.lockTs = startTs then
      if l.forUpdateTs ≤ forUpdateTs then (a.1, a.2 ++ [k])
      else (a.1 ++ [.locked l], a.2)
    else (a.1 ++ [.locked l], a.2)
  else a

/-- `TxnEngineHelper::PessimisticRollback`, `engine/txn_engine_helper.cc:2034-2178`. -/
def pessimisticRollback (st : State) (startTs forUpdateTs : Int) (keys : List Bytes) :
    State × Out PessResp :=
  let a := keys.foldl (fun a k => pessRollbackOne st startTs forUpdateTs k a) ([], [])
  if a.1 ≠ [] then (st, .ok { results := a.1 })
  else (st.apply { delLock := a.2 }, .ok {})

/-! ## Prewrite -/

/-- A mutation of a `TxnPrewrite` request together with the entries of
`pessimistic_checks`, `for_update_ts_checks` and `lock_extra_datas` for its index
(`server/store_service.cc:2247-2261`). -/
structure Mut where
  op : Op
  key : Bytes
  value : Bytes := []
  pess : Bool := false
  fuCheck : Option Int := .none
  extra : Bytes := []
deriving DecidableEq, Repr

/-- A `TxnPrewrite` request; `secondaries` is non-empty only when async commit is
requested (`server/store_service.cc:2262-2268`). -/
structure PrewriteReq where
  mutations : List Mut
  primary : Bytes
  startTs : Int
  ttl : Int := 0
  txnSize : Int := 0
  tryOnePc : Bool := false
  minCommitTs : Int := 0
  maxCommitTs : Int := 0
  secondaries : List Bytes := []
deriving DecidableEq, Repr

/-- Result of `GenFinalMinCommitTs`: signed overflow, or the chosen timestamp. -/
def genFinalMinCommitTs (maxTs : Int) (l : LockInfo) (startTs forUpdateTs maxCommitTs : Int) :
    Option Int :=
  -- engine/txn_engine_helper.cc:2182-2206
  let m := max (max maxTs startTs) forUpdateTs
  if m ≥ maxVer then none      -- `+ 1` overflows int64_t
  else
    let minTs := m + 1
    let final := max minTs l.minCommitTs
    some (if maxCommitTs ≠ 0 ∧ minTs > maxCommitTs then 0 else final)

/-- Accumulated writes and response of `Prewrite`. -/
structure PwAcc where
  data : List (VKey × Bytes) := []
  locks : List (Bytes × LockInfo) := []
  onePc : List (Bytes × Bytes × LockInfo × Bool) := []
  tryOnePc : Bool := false
  async : Bool := false
  finalMin : Int := 0
  results : List TxnResult := []
  exist : List Bytes := []
deriving DecidableEq, Repr

/-- The lock `GenPrewriteDataAndLock` builds from the previous one,
`engine/txn_engine_helper.cc:2233-2257` (and `2287-2305`, `2342-2366`,
`2404-2422`). -/
def mkLock (r : PrewriteReq) (m : Mut) (prev : LockInfo) (type : Op) (short : Bytes)
    (async : Bool) : LockInfo :=
  let l := { prev with primary := r.primary, lockTs := r.startTs, key := m.key, ttl := r.ttl,
                       txnSize := r.txnSize, type := type,
                       minCommitTs := if prev.minCommitTs < r.minCommitTs then r.minCommitTs
                                      else prev.minCommitTs }
  let l := if short ≠ [] then { l with shortValue := short } else l
  let l := if m.extra ≠ [] then { l with extra := m.extra } else l
  if async then
    { l with useAsync := true,
             secondaries := if m.key = r.primary then r.secondaries else l.secondaries }
  else l

/-- Common tail of the `GenPrewriteDataAndLock` branches that write a lock,
`engine/txn_engine_helper.cc:2258-2278`. -/
def finishLock (st : State) (r : PrewriteReq) (m : Mut) (l : LockInfo) (a : PwAcc) :
    Option (PwAcc × Int) :=
  if a.tryOnePc ∨ a.async then
    match genFinalMinCommitTs st.maxTs l r.startTs (m.fuCheck.getD 0) r.maxCommitTs with
    | none => none
    | some f =>
      if f = 0 then
        let l' := { l with useAsync := false, secondaries := [] }
        some ({ a with tryOnePc := false, async := false, locks := a.locks ++ [(m.key, l')] }, f)
      else
        let l' := { l with minCommitTs := f }
        if a.tryOnePc then some ({ a with onePc := a.onePc ++ [(m.key, m.value, l', m.pess)] }, f)
        else some ({ a with locks := a.locks ++ [(m.key, l')] }, f)
  else some ({ a with locks := a.locks ++ [(m.key, l)] }, 0)

/-- A `Put`-like branch of `GenPrewriteDataAndLock`, `2220-2279` and `2331-2388`. -/
def genPut (st : State) (r : PrewriteReq) (m : Mut) (prev : LockInfo) (a : PwAcc) :
    Out (PwAcc × Int) :=
  let a := if m.value.length > maxShortValue then
      { a with data := a.data ++ [(⟨m.key, r.startTs⟩, m.value)] } else a
  if m.value = [] then .err .valueEmpty
  else
    let short := if m.value.length ≤ maxShortValue then m.value else []
    match finishLock st r m (mkLock r m prev .put short a.async) a with
    | none => .fatal
    | some x => .ok x

/-- `TxnEngineHelper::GenPrewriteDataAndLock`,
`engine/txn_engine_helper.cc:2208-2453`; `w` is `write_info`.  Returns the
accumulator and `final_min_commit_ts`. -/
def genPrewrite (st : State) (r : PrewriteReq) (m : Mut) (prev : LockInfo) (w : WriteInfo)
    (a : PwAcc) : Out (PwAcc × Int) :=
  match m.op with
  | .put => genPut st r m prev a
  | .putIfAbsent =>
    if w.op = .put then
      match finishLock st r m (mkLock r m prev .putIfAbsent [] a.async) a with
      | none => .fatal
      | some x => .ok x
    else genPut st r m prev a
  | .checkNotExists =>
    if a.tryOnePc ∨ a.async then
      if r.startTs ≥ maxVer then .fatal      -- `start_ts + 1` overflows int64_t
      else .ok (a, r.startTs + 1)
    else .ok (a, 0)
  | .delete =>
    match finishLock st r m (mkLock r m prev .delete [] a.async) a with
    | none => .fatal
    | some x => .ok x
  | _ => .err .internal

/-- Result of the lock check of one mutation, `engine/txn_engine_helper.cc:2833-3034`. -/
inductive LockCheck where
  | pass (repeated : Bool)
  | committed (ts : Int)
  | locked (l : LockInfo)
deriving DecidableEq, Repr

/-- The lock check of one mutation, `engine/txn_engine_helper.cc:2833-3034`. -/
def prewriteLockCheck (st : State) (r : PrewriteReq) (m : Mut) : LockCheck :=
  let l := getLock st m.key
  let other : LockCheck :=
    match checkCommitted st r.startTs m.key with
    | some (_, t) => .committed t
    | none => .locked l
  if m.pess = false then
    if l.type = .lock then other
    else if l.primary ≠ [] then
      if l.lockTs = r.startTs then .pass true else other
    else .pass false
  else
    if l.primary ≠ [] then
      if l.lockTs = r.startTs then
        if l.type ≠ .lock then .pass true
        else
          match m.fuCheck with
          | some f => if l.forUpdateTs ≠ f then .locked l else .pass false
          | none => .pass false
      else other
    else .pass false

/-- Result of one mutation of the `Prewrite` loop. -/
inductive PwStep where
  | cont (a : PwAcc)
  | brk (a : PwAcc)
  /-- early `return OK` of an already committed transaction -/
  | ret (a : PwAcc) (commitTs : Int)
  | err (e : Err)
  | fatal
deriving DecidableEq, Repr

/-- One mutation of the `Prewrite` loop, `engine/txn_engine_helper.cc:2816-3225`. -/
def prewriteOne (st : State) (r : PrewriteReq) (m : Mut) (a : PwAcc) : PwStep :=
  match prewriteLockCheck st r m with
  | .committed t => .ret a t
  | .locked l => .cont { a with results := a.results ++ [.locked l] }
  | .pass repeated =>
    match getRollback st r.startTs m.key with
    | .fatal => .fatal
    | .err e => .err e
    | .ok true =>
      .brk { a with results := a.results ++ [.writeConflict .selfRolledBack r.startTs r.startTs m.key] }
    | .ok false =>
      let wi := getWriteInfo st 0 maxVer 0 m.key false true true
      let commitTs := ctsOf wi
      let w := wiOf wi
      if commitTs ≥ r.startTs ∧ m.pess = false then
        match checkCommitted st r.startTs m.key with
        | some (_, t) => .ret a t
        | none => .brk { a with results := a.results ++
            [.writeConflict .optimistic r.startTs commitTs m.key] }
      else if m.op = .putIfAbsent ∧ w.op = .put then .brk { a with exist := a.exist ++ [m.key] }
      else if m.op = .checkNotExists ∧ m.pess then .err .illegalParameters
      else
        let a := if m.op = .checkNotExists ∧ w.op = .put then { a with exist := a.exist ++ [m.key] } else a
        if repeated then .cont { a with tryOnePc := false, async := false }
        else
          match genPrewrite st r m (getLock st m.key) w a with
          | .err e => .err e
          | .fatal => .fatal
          | .ok (a, f) =>
            if a.tryOnePc ∨ a.async then
              .cont { a with finalMin := if a.finalMin < f then f else a.finalMin }
            else .cont { a with finalMin := 0 }

/-- The `Prewrite` loop, `engine/txn_engine_helper.cc:2816-3225`. -/
def prewriteLoop (st : State) (r : PrewriteReq) : List Mut → PwAcc → PwStep
  | [], a => .brk a
  | m :: ms, a =>
    match prewriteOne st r m a with
    | .cont a => prewriteLoop st r ms a
    | s => s

/-- Response of `Prewrite`. -/
structure PrewriteResp where
  results : List TxnResult := []
  exist : List Bytes := []
  minCommitTs : Int := 0
  onePcTs : Int := 0
deriving DecidableEq, Repr

/-- Write records of `OnePCommit`, `engine/txn_engine_helper.cc:2485-2510`. -/
def onePcWrites (startTs commitTs : Int) :
    List (Bytes × Bytes × LockInfo × Bool) → List (VKey × WriteInfo)
  | [] => []
  | (k, v, l, _) :: rest =>
    if l.type = .putIfAbsent then onePcWrites startTs commitTs rest
    else (⟨k, commitTs⟩, { startTs := startTs, op := l.type,
                           shortValue := if l.shortValue ≠ [] then v else [] })
          :: onePcWrites startTs commitTs rest

/-- `TxnEngineHelper::OnePCommit`, `engine/txn_engine_helper.cc:2468-2625`. -/
def onePcBatch (startTs commitTs : Int) (a : PwAcc) : Batch :=
  { putData := a.data
    putWrite := onePcWrites startTs commitTs a.onePc
    delLock := (a.onePc.filter (fun e => e.2.2.2)).map (·.1) }

/-- `FallbackTo1PCLocks` and `DoPreWrite`, `engine/txn_engine_helper.cc:2455-2465`,
`2627-2677`. -/
def prewriteBatch (a : PwAcc) : Batch :=
  { putData := a.data
    putLock := a.locks ++ a.onePc.map (fun e => (e.1, e.2.2.1)) }

/-- `TxnEngineHelper::Prewrite`, `engine/txn_engine_helper.cc:2736-3262`. -/
def prewrite (st : State) (r : PrewriteReq) : State × Out PrewriteResp :=
  let async := r.secondaries ≠ []
  match prewriteLoop st r r.mutations { tryOnePc := r.tryOnePc, async := async } with
  | .err e => (st, .err e)
  | .fatal => (st, .fatal)
  | .ret a t =>
    (st, .ok { results := a.results, exist := a.exist
               minCommitTs := if a.async then t else 0
               onePcTs := if a.tryOnePc then t else 0 })
  | .brk a | .cont a =>
    let resp : PrewriteResp := { results := a.results, exist := a.exist
                                 minCommitTs := if a.async then a.finalMin else 0 }
    if a.results ≠ [] then (st, .ok resp)
    else if a.exist ≠ [] then (st, .ok resp)
    else if a.tryOnePc then
      (st.apply (onePcBatch r.startTs a.finalMin a), .ok { resp with onePcTs := a.finalMin })
    else (st.apply (prewriteBatch a), .ok resp)

/-! ## Commit -/

/-- Write records of `DoTxnCommit`, `engine/txn_engine_helper.cc:3514-3552`. -/
def commitWrites (startTs commitTs : Int) : List LockInfo → List (VKey × WriteInfo)
  | [] => []
  | l :: rest =>
    if l.type = .putIfAbsent then commitWrites startTs commitTs rest
    else (⟨l.key, commitTs⟩, { startTs := startTs, op := l.type, shortValue := l.shortValue })
          :: commitWrites startTs commitTs rest

/-- `TxnEngineHelper::DoTxnCommit`, `engine/txn_engine_helper.cc:3485-3657`. -/
def commitBatch (startTs commitTs : Int) (ls : List LockInfo) : Batch :=
  { putWrite := commitWrites startTs commitTs ls
    delLock := ls.map (·.key) }

/-- Result of one key of the `Commit` loop. -/
inductive CmStep where
  | lock (l : LockInfo)
  | already
  | ret (r : TxnResult)
  | fatal
deriving DecidableEq, Repr

/-- One key of the `Commit` loop, `engine/txn_engine_helper.cc:3328-3463`. -/
def commitOne (st : State) (startTs commitTs : Int) (k : Bytes) : CmStep :=
  let l := getLock st k
  if l.lockTs = startTs then
    if l.type = .lock then .ret (.locked l)
    else if l.type ≠ .put ∧ l.type ≠ .delete ∧ l.type ≠ .putIfAbsent then .ret (.locked l)
    else if l.minCommitTs > 0 ∧ commitTs < l.minCommitTs then
      .ret (.commitTsExpired startTs commitTs k l.minCommitTs)
    else .lock l
  else
    match getWriteInfo st startTs commitTs startTs k false true true with
    | some (_, t) =>
      if t = commitTs then .already
      else
        match getRollback st startTs k with
        | .fatal => .fatal
        | .err _ => .fatal
        -- write_info was filled by GetWriteInfo (or the rollback): same start_ts
        | .ok _ => .ret (.writeConflict .selfRolledBack startTs startTs k)
    | none =>
      match getRollback st startTs k with
      | .fatal => .fatal
      | .err _ => .fatal
      | .ok true => .ret (.writeConflict .selfRolledBack startTs startTs k)
      | .ok false =>
        if l.lockTs > 0 then .ret (.locked l) else .ret (.txnNotFound startTs k)

/-- The `Commit` loop, `3328-3464`. -/
def commitLoop (st : State) (startTs commitTs : Int) :
    List Bytes → List LockInfo → Out (List LockInfo ⊕ TxnResult)
  | [], ls => .ok (.inl ls)
  | k :: ks, ls =>
    match commitOne st startTs commitTs k with
    | .lock l => commitLoop st startTs commitTs ks (ls ++ [l])
    | .already => commitLoop st startTs commitTs ks ls
    | .ret r => .ok (.inr r)
    | .fatal => .fatal

/-- `TxnEngineHelper::Commit`, `engine/txn_engine_helper.cc:3266-3481`.  The
response is the `txn_result` (`none`: success). -/
def commit (st : State) (startTs commitTs : Int) (keys : List Bytes) :
    State × Out (Option TxnResult) :=
  if commitTs ≤ startTs then (st, .err .illegalParameters)
  else
    match commitLoop st startTs commitTs keys [] with
    | .err e => (st, .err e)
    | .fatal => (st, .fatal)
    | .ok (.inr r) => (st, .ok (some r))
    | .ok (.inl ls) => (st.apply (commitBatch startTs commitTs ls), .ok none)

/-! ## Rollback -/

/-- The rollback record of a transaction. -/
def rollbackRec (startTs : Int) : WriteInfo := { startTs := startTs, op := .rollback }

/-- `TxnEngineHelper::DoRollback`, `engine/txn_engine_helper.cc:4076-4186`. -/
def rollbackBatch (withData withoutData missLock : List Bytes) (startTs : Int) : Batch :=
  { putWrite := (withoutData ++ withData ++ missLock).map (fun k => (⟨k, startTs⟩, rollbackRec startTs))
    delLock := withoutData ++ withData
    delData := withData.map (fun k => ⟨k, startTs⟩) }

/-- Keys collected by `BatchRollback` / `ResolveLock`. -/
structure RbAcc where
  withData : List Bytes := []
  withoutData : List Bytes := []
  missLock : List Bytes := []
deriving DecidableEq, Repr

/-- Result of one key of `BatchRollback`. -/
inductive RbStep where
  | cont (a : RbAcc)
  | ret (r : TxnResult)
  | fatal
deriving DecidableEq, Repr

/-- One key of `BatchRollback`, `engine/txn_engine_helper.cc:3973-4059`. -/
def batchRollbackOne (st : State) (startTs : Int) (k : Bytes) (a : RbAcc) : RbStep :=
  let l := getLock st k
  if l.primary = [] then
    match getRollback st startTs k with
    | .fatal => .fatal
    | .err _ => .fatal
    | .ok true => .cont a
    | .ok false =>
      match getWriteInfo st startTs maxVer startTs k false true true with
      | some _ => .cont a
      | none => .cont { a with missLock := a.missLock ++ [k] }
  else if l.lockTs ≠ startTs then .ret (.locked l)
  else if l.type = .lock then .ret (.locked l)
  else if l.type ≠ .put ∧ l.type ≠ .delete ∧ l.type ≠ .putIfAbsent then .ret (.locked l)
  else if l.shortValue = [] then .cont { a with withData := a.withData ++ [k] }
  else .cont { a with withoutData := a.withoutData ++ [k] }

/-- Loop of `BatchRollback`. -/
def batchRollbackLoop (st : State) (startTs : Int) : List Bytes → RbAcc → RbStep
  | [], a => .cont a
  | k :: ks, a =>
    match batchRollbackOne st startTs k a with
    | .cont a => batchRollbackLoop st startTs ks a
    | s => s

/-- `TxnEngineHelper::BatchRollback`, `engine/txn_engine_helper.cc:3918-4071`. -/
def batchRollback (st : State) (startTs : Int) (keys : List Bytes) :
    State × Out (Option TxnResult) :=
  match batchRollbackLoop st startTs keys {} with
  | .fatal => (st, .fatal)
  | .ret r => (st, .ok (some r))
  | .cont a => (st.apply (rollbackBatch a.withData a.withoutData a.missLock startTs), .ok none)

/-- `TxnEngineHelper::MarkRollBackOnMissingLock`, `engine/txn_engine_helper.cc:4189-4225`. -/
def markRollbackBatch (k : Bytes) (startTs : Int) : Batch :=
  { putWrite := [(⟨k, startTs⟩, rollbackRec startTs)] }

/-! ## CheckTxnStatus -/

/-- `pb::store::Action`. -/
inductive Action where
  | noAction | ttlExpireRollback | lockNotExistRollback | minCommitTsPushed | lockNotExistDoNothing
deriving DecidableEq, Repr

/-- A `TxnCheckTxnStatus` request. -/
structure CheckReq where
  primaryKey : Bytes
  lockTs : Int
  callerStartTs : Int
  currentTs : Int
  forceSyncCommit : Bool := false
  rollbackIfNotExist : Bool := false
deriving DecidableEq, Repr

/-- Response of `CheckTxnStatus`; protobuf default action is `NoAction`. -/
structure CheckResp where
  result : Option TxnResult := .none
  lockTtl : Int := 0
  commitTs : Int := 0
  action : Action := .noAction
deriving DecidableEq, Repr

/-- `TxnEngineHelper::CheckTxnStatus`, `engine/txn_engine_helper.cc:3661-3914`.
`current_ts >> 18` is floor division by `2^18`. -/
def checkTxnStatus (st : State) (r : CheckReq) : State × Out CheckResp :=
  let l := getLock st r.primaryKey
  if l.lockTs = r.lockTs then
    if l.key ≠ l.primary then (st, .ok { result := some (.primaryMismatch l) })
    else if l.useAsync ∧ ¬ r.forceSyncCommit then (st, .ok { result := some (.locked l) })
    else if l.type ≠ .lock ∧ l.type ≠ .put ∧ l.type ≠ .delete ∧ l.type ≠ .putIfAbsent then
      (st, .ok { result := some (.locked l), lockTtl := l.ttl })
    else
      let res : Option TxnResult := if l.type = .lock then some (.locked l) else .none
      if l.ttl ≥ r.currentTs / 2 ^ 18 then
        if l.minCommitTs < r.callerStartTs then
          (st.apply { putLock := [(l.key, { l with minCommitTs := r.callerStartTs })] },
            .ok { result := res, lockTtl := l.ttl, action := .minCommitTsPushed })
        else (st, .ok { result := res, lockTtl := l.ttl })
      else
        let b := if l.shortValue = [] then rollbackBatch [r.primaryKey] [] [] r.lockTs
                 else rollbackBatch [] [r.primaryKey] [] r.lockTs
        (st.apply b, .ok { result := res, action := .ttlExpireRollback })
  else
    match getRollback st r.lockTs r.primaryKey with
    | .fatal => (st, .fatal)
    | .err _ => (st, .fatal)
    | .ok true => (st, .ok { action := .lockNotExistRollback })
    | .ok false =>
      match getWriteInfo st r.lockTs maxVer r.lockTs r.primaryKey false true true with
      | some (_, t) => (st, .ok { commitTs := t, action := .lockNotExistDoNothing })
      | none =>
        if r.rollbackIfNotExist then
          (st.apply (markRollbackBatch r.primaryKey r.lockTs), .ok { action := .lockNotExistRollback })
        else (st, .ok { result := some (.txnNotFound r.lockTs r.primaryKey) })

/-! ## CheckSecondaryLocks -/

/-- Response of `TxnCheckSecondaryLocks`. -/
structure SecondaryResp where
  locks : List LockInfo := []
  commitTs : Int := 0
  result : Option TxnResult := .none
deriving DecidableEq, Repr

/-- `TxnEngineHelper::TxnCheckSecondaryLocks`, `engine/txn_engine_helper.cc:4233-4340`. -/
def checkSecondaryLoop (st : State) (startTs : Int) :
    List Bytes → List LockInfo → State × Out SecondaryResp
  | [], acc => (st, .ok { locks := acc })
  | k :: ks, acc =>
    let l := getLock st k
    if l.lockTs = startTs then
      if l.type ≠ .put ∧ l.type ≠ .delete ∧ l.type ≠ .putIfAbsent then
        (st, .ok { locks := acc, result := some (.locked l) })
      else checkSecondaryLoop st startTs ks (acc ++ [l])
    else
      match getRollback st startTs k with
      | .fatal => (st, .fatal)
      | .err _ => (st, .fatal)
      | .ok true => (st, .ok { locks := acc })
      | .ok false =>
        match getWriteInfo st startTs maxVer startTs k false true true with
        | none => (st.apply (markRollbackBatch k startTs),
            .ok { locks := acc, result := some (.txnNotFound startTs k) })
        | some (_, t) => (st, .ok { locks := acc, commitTs := t })

/-- `TxnEngineHelper::TxnCheckSecondaryLocks`. -/
def checkSecondary (st : State) (startTs : Int) (keys : List Bytes) : State × Out SecondaryResp :=
  checkSecondaryLoop st startTs keys []

/-! ## ResolveLock -/

/-- Locks and keys collected by `ResolveLock`. -/
structure RsAcc where
  commits : List LockInfo := []
  withData : List Bytes := []
  withoutData : List Bytes := []
deriving DecidableEq, Repr

/-- One lock of `ResolveLock` / `BatchResolveLock`,
`engine/txn_engine_helper.cc:4530-4556`, `4371-4397`: `inr` is the early return. -/
def resolveOne (commitTs : Int) (k : Bytes) (l : LockInfo) (a : RsAcc) : RsAcc ⊕ TxnResult :=
  if l.type = .lock then .inr (.locked l)
  else if l.type ≠ .put ∧ l.type ≠ .delete ∧ l.type ≠ .putIfAbsent then .inr (.locked l)
  else if commitTs > 0 then .inl { a with commits := a.commits ++ [l] }
  else if l.shortValue = [] then .inl { a with withData := a.withData ++ [k] }
  else .inl { a with withoutData := a.withoutData ++ [k] }

/-- Key loop of `ResolveLock`, `engine/txn_engine_helper.cc:4502-4557`. -/
def resolveLoop (st : State) (startTs commitTs : Int) :
    List Bytes → RsAcc → RsAcc ⊕ TxnResult
  | [], a => .inl a
  | k :: ks, a =>
    let l := getLock st k
    if l.primary = [] then resolveLoop st startTs commitTs ks a
    else if l.lockTs ≠ startTs then resolveLoop st startTs commitTs ks a
    else
      match resolveOne commitTs k l a with
      | .inl a => resolveLoop st startTs commitTs ks a
      | .inr r => .inr r

/-- The writes of `ResolveLock`, `engine/txn_engine_helper.cc:4580-4605`: one raft
write for the commits, one for the rollbacks.  (Only one of the two is non-empty,
because `commit_ts` decides for all keys.) -/
def resolveApply (st : State) (startTs commitTs : Int) (a : RsAcc) : State :=
  (st.apply (commitBatch startTs commitTs a.commits)).apply
    (rollbackBatch a.withData a.withoutData [] startTs)

/-- `TxnEngineHelper::ResolveLock` with keys, `engine/txn_engine_helper.cc:4430-4608`. -/
def resolveLock (st : State) (startTs commitTs : Int) (keys : List Bytes) :
    State × Out (Option TxnResult) :=
  if commitTs < 0 then (st, .err .illegalParameters)
  else if commitTs > 0 ∧ commitTs ≤ startTs then (st, .err .illegalParameters)
  else
    match resolveLoop st startTs commitTs keys {} with
    | .inr r => (st, .ok (some r))
    | .inl a => (resolveApply st startTs commitTs a, .ok none)

/-- `ScanLockInfo` restricted to one transaction and the whole region,
`engine/txn_engine_helper.cc:1147-1219`, as used at `4362`: locks with
`lock_ts = start_ts`, in key order.  The stream limit of the scan is not modelled
(all locks are returned). -/
def scanLocksOf (st : State) (startTs : Int) : List (Bytes × LockInfo) :=
  st.lock.l.filter (fun e => ¬ e.2.lockTs = 0 ∧ startTs ≤ e.2.lockTs ∧ e.2.lockTs < startTs + 1)

/-- Lock loop of `BatchResolveLock`, `engine/txn_engine_helper.cc:4369-4398`; the
key used is the one stored in the lock. -/
def batchResolveLoop (commitTs : Int) : List (Bytes × LockInfo) → RsAcc → RsAcc ⊕ TxnResult
  | [], a => .inl a
  | e :: es, a =>
    match resolveOne commitTs e.2.key e.2 a with
    | .inl a => batchResolveLoop commitTs es a
    | .inr r => .inr r

/-- One transaction of `BatchResolveLock`, `engine/txn_engine_helper.cc:4350-4426`. -/
def batchResolveOne (st : State) (startTs commitTs : Int) : State × Option TxnResult :=
  match batchResolveLoop commitTs (scanLocksOf st startTs) {} with
  | .inr r => (st, some r)
  | .inl a => (resolveApply st startTs commitTs a, .none)

/-- `TxnEngineHelper::BatchResolveLock`, `engine/txn_engine_helper.cc:4344-4428`. -/
def batchResolveRun : State → List (Int × Int) → State × Option TxnResult
  | st, [] => (st, .none)
  | st, (s, c) :: rest =>
    match batchResolveOne st s c with
    | (st', some r) => (st', some r)
    | (st', none) => batchResolveRun st' rest

/-- `TxnEngineHelper::ResolveLock` without keys, `engine/txn_engine_helper.cc:4560-4578`.
`infos` is the `txn_infos` map (ascending, distinct `start_ts`). -/
def batchResolve (st : State) (infos : List (Int × Int)) : State × Out (Option TxnResult) :=
  if infos.any (fun i => i.2 < 0 ∨ (i.2 > 0 ∧ i.2 ≤ i.1)) then (st, .err .illegalParameters)
  else
    let (st', r) := batchResolveRun st infos
    (st', .ok r)

/-! ## HeartBeat -/

/-- Response of `HeartBeat`. -/
structure HeartResp where
  result : Option TxnResult := .none
  lockTtl : Int := 0
deriving DecidableEq, Repr

/-- `TxnEngineHelper::HeartBeat`, `engine/txn_engine_helper.cc:4612-4718`. -/
def heartBeat (st : State) (primary : Bytes) (startTs adviseTtl : Int) : State × Out HeartResp :=
  let l := getLock st primary
  if l.primary = [] then (st, .ok { result := some (.txnNotFound startTs []) })
  else if l.lockTs ≠ startTs then (st, .ok { result := some (.txnNotFound startTs []) })
  else if l.ttl ≥ adviseTtl then (st, .ok { lockTtl := l.ttl })
  else (st.apply { putLock := [(primary, { l with ttl := adviseTtl })] }, .ok { lockTtl := adviseTtl })

/-! ## Service level -/

/-- Requests of the transactional store service. -/
inductive Req where
  | get (iso : Iso) (startTs : Int) (resolved : List Int) (keys : List Bytes)
  | pessimisticLock (r : PessReq)
  | pessimisticRollback (startTs forUpdateTs : Int) (keys : List Bytes)
  | prewrite (r : PrewriteReq)
  | commit (startTs commitTs : Int) (keys : List Bytes)
  | batchRollback (startTs : Int) (keys : List Bytes)
  | checkTxnStatus (r : CheckReq)
  | checkSecondary (startTs : Int) (keys : List Bytes)
  | resolveLock (startTs commitTs : Int) (keys : List Bytes)
  | batchResolve (infos : List (Int × Int))
  | heartBeat (primary : Bytes) (startTs adviseTtl : Int)
deriving DecidableEq, Repr

/-- Responses. -/
inductive Resp where
  | get (r : Out GetResp)
  | pess (r : Out PessResp)
  | prewrite (r : Out PrewriteResp)
  | basic (r : Out (Option TxnResult))
  | check (r : Out CheckResp)
  | secondary (r : Out SecondaryResp)
  | heart (r : Out HeartResp)
deriving DecidableEq, Repr

/-- The `Do...` handlers of `server/store_service.cc`: `DoTxnGet`/`DoTxnBatchGet`
1676-1735/2780-2860, `DoTxnPessimisticLock` 1958-2014, `DoTxnPessimisticRollback`
2084-2140, `DoTxnPrewrite` 2205-2279, `DoTxnCommit` 2343-2400,
`DoTxnCheckTxnStatus` 2456-2510, `DoTxnCheckSecondaryLocks` 2564-2620,
`DoTxnResolveLock` 2671-2725, `DoTxnBatchRollback` 2906-2955, `DoTxnHeartBeat`
3143-3185.  Request validation is `Req.Valid` below; the memory limit of
`BatchGet` is taken as not reached (see `batchGet` for the exact function). -/
def step (st : State) : Req → State × Resp
  | .get iso s resolved keys =>
    let st := st.access s
    (st, .get (batchGet st iso s resolved (fun _ _ => 0) 1 keys))
  | .pessimisticLock r => let (s, o) := pessimisticLock st r; (s, .pess o)
  | .pessimisticRollback s f keys => let (s, o) := pessimisticRollback st s f keys; (s, .pess o)
  | .prewrite r => let (s, o) := prewrite st r; (s, .prewrite o)
  | .commit s c keys => let (s, o) := commit (st.access c) s c keys; (s, .basic o)
  | .batchRollback s keys => let (s, o) := batchRollback st s keys; (s, .basic o)
  | .checkTxnStatus r =>
    let (s, o) := checkTxnStatus (st.access (max r.lockTs r.callerStartTs)) r; (s, .check o)
  | .checkSecondary s keys => let (s, o) := checkSecondary (st.access s) s keys; (s, .secondary o)
  | .resolveLock s c keys => let (s, o) := resolveLock (st.access c) s c keys; (s, .basic o)
  | .batchResolve infos => let (s, o) := batchResolve st infos; (s, .basic o)
  | .heartBeat p s t => let (s, o) := heartBeat st p s t; (s, .heart o)

/-- A timestamp a client can obtain: positive and below `INT64_MAX`. -/
def PosTs (t : Int) : Prop := 0 < t ∧ t ≤ maxVer

instance (t : Int) : Decidable (PosTs t) := inferInstanceAs (Decidable (_ ∧ _))

/-- What the `Validate...Request` functions of `server/store_service.cc` demand of
the fields (1382-1430, 1897-1956, 2039-2080, 2152-2203, 2303-2341, 2417-2454,
2530-2562, 2641-2669, 2870-2904, 3107-3141), with negative timestamps (on which
`EncodeKey` aborts, see `Codec.encodeKey`) excluded. -/
def Req.Valid : Req → Prop
  | .get _ s _ keys => 0 ≤ s ∧ s ≤ maxVer ∧ ∀ k ∈ keys, k ≠ []
  | .pessimisticLock r => PosTs r.startTs ∧ PosTs r.forUpdateTs ∧ r.primary ≠ [] ∧
      ∀ m ∈ r.mutations, m.key ≠ []
  | .pessimisticRollback s f keys => PosTs s ∧ PosTs f ∧ ∀ k ∈ keys, k ≠ []
  | .prewrite r => PosTs r.startTs ∧ r.primary ≠ [] ∧ r.minCommitTs ≤ maxVer ∧
      ∀ m ∈ r.mutations, m.key ≠ []
  | .commit s c keys => PosTs s ∧ PosTs c ∧ ∀ k ∈ keys, k ≠ []
  | .batchRollback s keys => PosTs s ∧ ∀ k ∈ keys, k ≠ []
  | .checkTxnStatus r => PosTs r.lockTs ∧ PosTs r.callerStartTs ∧ r.primaryKey ≠ []
  | .checkSecondary s keys => PosTs s ∧ ∀ k ∈ keys, k ≠ []
  | .resolveLock s c keys => PosTs s ∧ c ≤ maxVer ∧ ∀ k ∈ keys, k ≠ []
  | .batchResolve infos => ∀ i ∈ infos, PosTs i.1 ∧ i.2 ≤ maxVer
  | .heartBeat p s _ => PosTs s ∧ p ≠ []

/-- A history of requests. -/
def run (st : State) : List Req → State
  | [] => st
  | r :: rs => run (step st r).1 rs

end Verif.Txn
