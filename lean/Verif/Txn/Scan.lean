import Verif.Txn.Model

/-!
# Transactional scans (model)

`TxnIterator` (`engine/txn_engine_helper.cc:446-1057`), `TxnEngineHelper::Scan`
(`1478-1680`) without coprocessor, and `TxnEngineHelper::ScanLockInfo`
(`1147-1219`).  An engine iterator is the list of entries from its position on; it
is valid when the list is not empty.  Loops that run until the iterators are used up
take a fuel argument; running out of it is the distinct outcome `IterOut.fuel`,
which is proved not to occur.
-/

namespace Verif.Txn
open Verif.Codec

/-- The fields of `TxnIterator` (`engine/txn_engine_helper.h`). -/
structure Iter where
  key : Bytes := []
  value : Bytes := []
  lastLock : Bytes := []
  lastWrite : Bytes := []
  locks : List (Bytes × LockInfo) := []
  writes : List (VKey × WriteInfo) := []
  result : Option TxnResult := .none
deriving DecidableEq, Repr

/-- Status of an iterator function. -/
inductive IterOut where
  | ok | finish | conflict | resultNotNull
  | err (e : Err)
  | fatal | fuel
deriving DecidableEq, Repr

/-- `TxnIterator::GotoNextUserKeyInWriteIter`, `engine/txn_engine_helper.cc:782-807`:
new `last_write_key` and iterator. -/
def gotoNext (prev : Bytes) : List (VKey × WriteInfo) → Bytes → Bytes × List (VKey × WriteInfo)
  | [], lw => (lw, [])
  | _ :: [], lw => (lw, [])
  | _ :: e :: rest, _ => if prev < e.1.key then (e.1.key, e :: rest) else gotoNext prev (e :: rest) e.1.key

/-- Result of `GetUserValueInWriteIter`. -/
structure UserValue where
  found : Bool
  value : Bytes
  lastWrite : Bytes
  writes : List (VKey × WriteInfo)
deriving DecidableEq, Repr

/-- `TxnIterator::GetUserValueInWriteIter`, `engine/txn_engine_helper.cc:822-951`.
`live` is the data column family at the time of the call: it is read without the
iterator's snapshot (`905`). -/
def getUserValue (live : CF VKey Bytes) (iso : Iso) (startTs : Int) (userKey : Bytes) :
    List (VKey × WriteInfo) → Bytes → Bytes → Bool → Out UserValue
  | [], lw, v, f => .ok ⟨f, v, lw, []⟩
  | (vk, w) :: rest, _, v, f =>
    if userKey < vk.key then .ok ⟨f, v, vk.key, (vk, w) :: rest⟩
    else if iso = .si ∧ vk.ts > startTs then getUserValue live iso startTs userKey rest vk.key [] true
    else match w.op with
      | .delete =>
        let (lw, ws) := gotoNext vk.key ((vk, w) :: rest) vk.key
        .ok ⟨true, [], lw, ws⟩
      | .rollback => getUserValue live iso startTs userKey rest vk.key [] true
      | .put =>
        if w.shortValue ≠ [] then
          let (lw, ws) := gotoNext vk.key ((vk, w) :: rest) vk.key
          .ok ⟨true, w.shortValue, lw, ws⟩
        else match live.get ⟨userKey, w.startTs⟩ with
          | none => .err .internal
          | some v =>
            let (lw, ws) := gotoNext vk.key ((vk, w) :: rest) vk.key
            .ok ⟨true, v, lw, ws⟩
      | _ => getUserValue live iso startTs userKey rest vk.key v f

/-- Tail of both branches of `GetCurrentValue` (`995-1015`, `1021-1041`): fetch the
value of `key_`. -/
def fetchValue (live : CF VKey Bytes) (iso : Iso) (startTs : Int) (it : Iter) : IterOut × Iter :=
  match getUserValue live iso startTs it.key it.writes it.lastWrite it.value false with
  | .err e => (.err e, { it with key := [], value := [] })
  | .fatal => (.fatal, it)
  | .ok u =>
    let it := { it with value := u.value, lastWrite := u.lastWrite, writes := u.writes }
    if u.found then (.ok, it) else (.ok, { it with key := [] })

/-- `TxnIterator::GetCurrentValue`, `engine/txn_engine_helper.cc:953-1044`. -/
def getCurrentValue (live : CF VKey Bytes) (iso : Iso) (startTs : Int) (resolved : List Int) (it : Iter) :
    IterOut × Iter :=
  if it.lastWrite = [] ∧ it.lastLock = [] then (.fatal, it)
  else
    let lockFirst :=
      if it.lastWrite = [] then true
      else if it.lastLock ≠ [] then
        if ¬ it.lastWrite < it.lastLock then true
        else if it.writes = [] then true else false
      else false
    if lockFirst then
      match it.locks with
      | [] => (.fatal, it)   -- reading an invalid iterator
      | (_, l) :: _ =>
        if lockConflict l iso startTs resolved then
          (.conflict, { it with key := [], value := [], result := some (.locked l) })
        else if it.lastLock = it.lastWrite then
          fetchValue live iso startTs { it with key := it.lastLock }
        else (.ok, { it with key := it.lastLock })
    else fetchValue live iso startTs { it with key := it.lastWrite }

/-- Key an iterator stands on, empty when it is not valid. -/
def headKey {α : Type} (f : α → Bytes) : List α → Bytes
  | [] => []
  | e :: _ => f e

/-- `TxnIterator::InnerSeek`, `engine/txn_engine_helper.cc:578-651`, with the iterator
bounds of `Init` (`446-541`): `range_` is `[start, stop)`. -/
def innerSeek (st : State) (live : CF VKey Bytes) (iso : Iso) (startTs : Int) (resolved : List Int)
    (start stop : Bytes) : IterOut × Iter :=
  let seekTs : Int := match iso with | .si => startTs | .rc => maxVer
  let locks := (st.lock.seek start).takeWhile (fun e => e.1 < stop)
  let writes := (st.write.seek ⟨start, seekTs⟩).takeWhile (fun e => e.1 < ⟨stop, maxVer⟩)
  let it : Iter := { locks := locks, writes := writes, lastLock := headKey (·.1) locks, lastWrite := headKey (·.1.key) writes }
  if it.lastLock = [] ∧ it.lastWrite = [] then (.ok, it)
  else getCurrentValue live iso startTs resolved it

/-- Loop of `InnerNext` over the lock iterator, `engine/txn_engine_helper.cc:697-717`. -/
def advLocks (key : Bytes) : List (Bytes × LockInfo) → Bytes × List (Bytes × LockInfo)
  | [] => ([], [])
  | _ :: [] => ([], [])
  | _ :: e :: rest => if key < e.1 then (e.1, e :: rest) else advLocks key (e :: rest)

/-- `TxnIterator::InnerNext`, `engine/txn_engine_helper.cc:681-780`. -/
def innerNext (live : CF VKey Bytes) (iso : Iso) (startTs : Int) (resolved : List Int) (it : Iter) : IterOut × Iter :=
  if it.key = [] then (.finish, it)
  else if it.result ≠ none then (.resultNotNull, it)
  else
    let it := { it with value := [] }
    let it :=
      if it.locks ≠ [] ∧ ¬ it.key < it.lastLock then
        let (lk, ls) := advLocks it.key it.locks
        { it with lastLock := lk, locks := ls }
      else it
    if ¬ it.key < it.lastWrite ∧ it.writes ≠ [] then (.fatal, it)
    else if it.lastLock = [] ∧ it.lastWrite = [] then
      if it.locks = [] ∧ it.writes = [] then (.ok, { it with key := [] }) else (.ok, it)
    else if ¬ it.key < it.lastLock ∧ ¬ it.key < it.lastWrite then (.ok, { it with key := [] })
    else getCurrentValue live iso startTs resolved it

/-- `TxnIterator::Next`, `engine/txn_engine_helper.cc:653-679`; also the loop of `Seek`
(`560-574`), which is entered only with an empty value. -/
def iterNext (live : CF VKey Bytes) (iso : Iso) (startTs : Int) (resolved : List Int) : Nat → Iter → IterOut × Iter
  | 0, it => (.fuel, it)
  | n + 1, it =>
    match innerNext live iso startTs resolved it with
    | (.finish, it) => (.ok, it)
    | (.ok, it) => if it.value ≠ [] then (.ok, it) else iterNext live iso startTs resolved n it
    | (o, it) => (o, it)

/-- Upper bound on the number of user keys ahead of the iterator. -/
def Iter.fuel (it : Iter) : Nat := it.locks.length + it.writes.length + 2

/-- `TxnIterator::Seek`, `engine/txn_engine_helper.cc:543-576`. -/
def iterSeek (st : State) (live : CF VKey Bytes) (iso : Iso) (startTs : Int) (resolved : List Int)
    (start stop : Bytes) : IterOut × Iter :=
  match innerSeek st live iso startTs resolved start stop with
  | (.ok, it) => if it.value = [] then iterNext live iso startTs resolved it.fuel it else (.ok, it)
  | (o, it) => (o, it)

/-- `TxnIterator::Valid`, `engine/txn_engine_helper.cc:1046-1057`. -/
def Iter.valid (it : Iter) : Bool := decide (it.result = none ∧ it.key ≠ [])

/-- Response of `TxnScan`. -/
structure ScanResp where
  result : Option TxnResult := .none
  kvs : List (Bytes × Bytes) := []
  hasMore : Bool := false
  endKey : Bytes := []
deriving DecidableEq, Repr

/-- Loop of `TxnEngineHelper::Scan`, `engine/txn_engine_helper.cc:1592-1643`.  `full`
is the stop checker `Stream::Check` (`common/stream.cc:43-45`) on the pairs collected
so far.  Result: `inl` an early return, `inr` the collected pairs, `has_more` and the
iterator. -/
def scanLoop (live : CF VKey Bytes) (iso : Iso) (startTs : Int) (resolved : List Int) (keyOnly : Bool)
    (full : List (Bytes × Bytes) → Bool) :
    Nat → Iter → List (Bytes × Bytes) → (Out ScanResp × Iter) ⊕ (List (Bytes × Bytes) × Bool × Iter)
  | 0, it, _ => .inl (.fatal, it)
  | n + 1, it, acc =>
    if it.valid then
      let acc := acc ++ [(it.key, if keyOnly then [] else it.value)]
      if full acc then .inr (acc, true, it)
      else match iterNext live iso startTs resolved it.fuel it with
        | (.ok, it) => scanLoop live iso startTs resolved keyOnly full n it acc
        | (.conflict, it) => .inl (.ok { result := it.result, kvs := acc, hasMore := true }, it)
        | (.err e, it) => .inl (.err e, it)
        | (_, it) => .inl (.fatal, it)
    else .inr (acc, false, it)

/-- `TxnEngineHelper::Scan` on the stream's iterator, `engine/txn_engine_helper.cc:1562-1680`. -/
def scanPage (live : CF VKey Bytes) (iso : Iso) (startTs : Int) (resolved : List Int) (keyOnly : Bool)
    (full : List (Bytes × Bytes) → Bool) (it : Iter) : Out ScanResp × Iter :=
  match scanLoop live iso startTs resolved keyOnly full it.fuel it [] with
  | .inl r => r
  | .inr (kvs, more, it) =>
    if it.valid then
      match iterNext live iso startTs resolved it.fuel it with
      | (.ok, it') => (.ok { result := it.result, kvs := kvs, hasMore := more, endKey := it.key }, it')
      | (.conflict, it') => (.ok { result := it'.result, kvs := kvs, hasMore := true, endKey := it.key }, it')
      | (.err e, it') => (.err e, it')
      | (_, it') => (.fatal, it')
    else (.ok { result := it.result, kvs := kvs, hasMore := more }, it)

/-- First `TxnScan` request of a stream, `engine/txn_engine_helper.cc:1508-1560`: the
iterator that the stream keeps is the second component (`none`: not kept). -/
def scanFirst (st : State) (iso : Iso) (startTs : Int) (resolved : List Int) (keyOnly : Bool)
    (full : List (Bytes × Bytes) → Bool) (start stop : Bytes) : Out ScanResp × Option Iter :=
  match iterSeek st st.data iso startTs resolved start stop with
  | (.ok, it) =>
    let (o, it) := scanPage st.data iso startTs resolved keyOnly full it
    (o, some it)
  | (.conflict, it) => (.ok { result := it.result, hasMore := true }, none)
  | (.err e, _) => (.err e, none)
  | (_, _) => (.fatal, none)

/-- Later `TxnScan` requests on the stream: each with the data column family as it is
by then and its own limit (`engine/storage.cc`, `TxnScan` with a stream id). -/
def scanPages (iso : Iso) (startTs : Int) (resolved : List Int) (keyOnly : Bool) :
    List (CF VKey Bytes × (List (Bytes × Bytes) → Bool)) → Iter → List (Out ScanResp)
  | [], _ => []
  | (live, full) :: ps, it =>
    let (o, it) := scanPage live iso startTs resolved keyOnly full it
    o :: scanPages iso startTs resolved keyOnly ps it

/-- The responses of a scan stream. -/
def scanStream (st : State) (iso : Iso) (startTs : Int) (resolved : List Int) (keyOnly : Bool) (start stop : Bytes)
    (full : List (Bytes × Bytes) → Bool) (ps : List (CF VKey Bytes × (List (Bytes × Bytes) → Bool))) :
    List (Out ScanResp) :=
  match scanFirst st iso startTs resolved keyOnly full start stop with
  | (o, some it) => o :: scanPages iso startTs resolved keyOnly ps it
  | (o, none) => [o]

/-! ## Scanning locks -/

/-- Loop of `TxnEngineHelper::ScanLockInfo`, `engine/txn_engine_helper.cc:1168-1217`:
locks, `has_more`, `end_scan_key` and the iterator kept by the stream.  When the page
is full the loop is left before `iter->Next()`. -/
def scanLockLoop (minTs maxTs : Int) (full : List LockInfo → Bool) :
    List (Bytes × LockInfo) → List LockInfo → Bytes → List LockInfo × Bool × Bytes × List (Bytes × LockInfo)
  | [], acc, ek => (acc, false, ek, [])
  | (k, l) :: rest, acc, _ =>
    if l.lockTs = 0 then scanLockLoop minTs maxTs full rest acc l.key
    else if l.lockTs < minTs ∨ l.lockTs ≥ maxTs then scanLockLoop minTs maxTs full rest acc l.key
    else if full (acc ++ [l]) then (acc ++ [l], true, l.key, (k, l) :: rest)
    else scanLockLoop minTs maxTs full rest (acc ++ [l]) l.key

/-- A page of `TxnScanLock` (`Storage::TxnScanLock`, `engine/storage.cc:1785-1820`: the
minimum is 0) on the iterator the stream keeps. -/
def scanLockPage (maxTs : Int) (full : List LockInfo → Bool) (it : List (Bytes × LockInfo)) :
    List LockInfo × Bool × Bytes × List (Bytes × LockInfo) :=
  scanLockLoop 0 maxTs full it [] []

/-- Iterator of a new stream, `TxnScanLockStreamState::New`,
`engine/txn_engine_helper.cc:1133-1142`. -/
def scanLockStart (st : State) (start stop : Bytes) : List (Bytes × LockInfo) :=
  (st.lock.seek start).takeWhile (fun e => e.1 < stop)

/-- One response of `TxnScanLock`. -/
structure ScanLockResp where
  locks : List LockInfo
  hasMore : Bool
  endKey : Bytes
deriving DecidableEq, Repr

/-- Requests on one `TxnScanLock` stream (the stream keeps the iterator,
`engine/txn_engine_helper.cc:1153-1156`). -/
def scanLockPages (maxTs : Int) : List (List LockInfo → Bool) → List (Bytes × LockInfo) → List ScanLockResp
  | [], _ => []
  | full :: ps, it =>
    let (locks, more, ek, it) := scanLockPage maxTs full it
    ⟨locks, more, ek⟩ :: scanLockPages maxTs ps it

end Verif.Txn
