import Verif.Codec.Model

/-!
# Raw (non-transactional) KV: storage, MVCC iterator, reader and writer (model)

Models `src/mvcc/iterator.cc`, `src/mvcc/reader.cc` (`KvReader`), the raw part of
`src/engine/raft_store_engine.cc` (`Writer`) and the apply handlers
`PutHandler`/`DeleteBatchHandler`/`DeleteRangeHandler` of
`src/handler/raft_apply_handler.cc`.

A column family is a list of (stored key, stored value) pairs, ascending and
without duplicate keys (RocksDB is assumed to be an ordered map).  A raft write
is applied atomically.  `none` stands for a process abort (`CHECK`).
-/

namespace Verif.Mvcc
open Verif.Codec

/-- A stored key/value pair. -/
abbrev Entry := Bytes × Bytes

/-- One column family, ascending by key. -/
abbrev Store := List Entry

/-! ## Raw engine -/

/-- `rocksdb::DB::Put`, `engine/rocks_raw_engine.cc:494-511`: ordered insert,
replacing the value of an existing key. -/
def put : Store → Bytes → Bytes → Store
  | [], k, v => [(k, v)]
  | (k', v') :: st, k, v =>
    if k < k' then (k, v) :: (k', v') :: st
    else if k = k' then (k, v) :: st
    else (k', v') :: put st k v

/-- `Writer::KvBatchPut`, `engine/rocks_raw_engine.cc:513-545`: one write batch;
later pairs of the batch override earlier ones. -/
def batchPut (st : Store) (kvs : List Entry) : Store :=
  kvs.foldl (fun s e => put s e.1 e.2) st

/-- `Writer::KvDeleteRange`, `engine/rocks_raw_engine.cc:675-699`.  An empty or
inverted range is an error and deletes nothing. -/
def deleteRange (st : Store) (lo hi : Bytes) : Store :=
  if lo.isEmpty ∨ hi.isEmpty ∨ ¬ lo < hi then st
  else st.filter (fun e => ¬ (lo ≤ e.1 ∧ e.1 < hi))

/-- Iterator positioned by `Seek(target)` with `iterate_upper_bound = upper`,
`engine/rocks_raw_engine.cc:451-469`: the entries it will visit going forward. -/
def seek (st : Store) (target upper : Bytes) : List Entry :=
  (st.dropWhile (fun e => e.1 < target)).takeWhile (fun e => e.1 < upper)

/-- Iterator positioned by `SeekForPrev(target)` with `lower_bound = lower`: the
entries it will visit going backward. -/
def seekForPrev (st : Store) (target lower : Bytes) : List Entry :=
  (st.takeWhile (fun e => e.1 ≤ target)).reverse.takeWhile (fun e => lower ≤ e.1)

/-! ## src/mvcc/iterator.cc -/

/-- `Iterator::NextVisibleKey`, `mvcc/iterator.cc:90-120`.  The list is the
position of the inner iterator; `prev` is `prev_encode_key_`.  Returns the new
`prev_encode_key_` and position (`[]`: no longer valid). -/
def nextVisible (ts now : Int) (prev : Bytes) : List Entry → Option (Bytes × List Entry)
  | [] => some (prev, [])
  | (k, v) :: rest =>
    match truncateTsForKey k with
    | none => none
    | some ek =>
      if ek = prev then nextVisible ts now prev rest
      else
        match truncateKeyForTs k with
        | none => none
        | some t =>
          if t > ts then nextVisible ts now prev rest
          else
            match getValueFlag v with
            | none => none
            | some .delete => nextVisible ts now ek rest
            | some .putTTL =>
              match getValueTTL v with
              | none => none
              | some ttl =>
                if ttl < now then nextVisible ts now ek rest
                else some (ek, (k, v) :: rest)
            | some .put => some (ek, (k, v) :: rest)

theorem nextVisible_length {ts now : Int} {prev : Bytes} {l : List Entry} {p : Bytes}
    {m : List Entry} (h : nextVisible ts now prev l = some (p, m)) : m.length ≤ l.length := by
  fun_induction nextVisible ts now prev l <;> simp_all <;> try omega
  all_goals (obtain ⟨_, rfl⟩ := h; simp)

/-- The loop `for (iter->Seek(start); iter->Valid(); iter->Next())` of
`KvReader::KvScan`, `mvcc/reader.cc:75-88`: all entries the MVCC iterator stops
at.  `Next()` re-enters `NextVisibleKey` with the inner iterator still on the
current entry, which is skipped because its encoded key equals
`prev_encode_key_`; here the loop continues right behind it. -/
def forwardAll (ts now : Int) (prev : Bytes) (l : List Entry) : Option (List Entry) :=
  match _h : nextVisible ts now prev l with
  | none => none
  | some (_, []) => some []
  | some (p, e :: rest) =>
    match forwardAll ts now p rest with
    | none => none
    | some es => some (e :: es)
termination_by l.length
decreasing_by
  have := nextVisible_length _h
  simp at this; omega

/-- `Iterator::PrevVisibleKey`, `mvcc/iterator.cc:126-171`.  `cur` is
(`prev_key`, `prev_value`); the list is the inner iterator going backward.
Returns the final `key_`/`value_` (`none`: empty, not valid) and position. -/
def prevVisible (ts now : Int) (cur : Option Entry) : List Entry → Option (Option Entry × List Entry)
  | [] => some (cur, [])
  | (k, v) :: rest =>
    match truncateTsForKey k with
    | none => none
    | some ek =>
      -- `if (!prev_key.empty())`: a stored key is never empty
      let stop : Option Bool :=
        match cur with
        | none => some false
        | some (pk, _) => (truncateTsForKey pk).map (fun pek => decide (ek ≠ pek))
      match stop with
      | none => none
      | some true => some (cur, (k, v) :: rest)
      | some false =>
        match truncateKeyForTs k with
        | none => none
        | some t =>
          if t > ts then prevVisible ts now cur rest
          else
            match getValueFlag v with
            | none => none
            | some .delete => prevVisible ts now none rest
            | some .putTTL =>
              match getValueTTL v with
              | none => none
              | some ttl =>
                if ttl < now then prevVisible ts now none rest
                else prevVisible ts now (some (k, v)) rest
            | some .put => prevVisible ts now (some (k, v)) rest

theorem prevVisible_length {ts now : Int} {cur : Option Entry} {l : List Entry} {c : Option Entry}
    {m : List Entry} (h : prevVisible ts now cur l = some (c, m)) :
    m.length ≤ l.length ∧ (cur = none → c ≠ none → m.length < l.length) := by
  induction l generalizing cur with
  | nil => simp [prevVisible] at h; obtain ⟨rfl, rfl⟩ := h; simp
  | cons e rest ih =>
    obtain ⟨k, v⟩ := e
    simp only [prevVisible] at h
    have step : ∀ {cur' : Option Entry}, prevVisible ts now cur' rest = some (c, m) →
        m.length ≤ ((k, v) :: rest).length ∧
          (cur = none → c ≠ none → m.length < ((k, v) :: rest).length) := by
      intro cur' h'
      have := (ih h').1
      simp only [List.length_cons]
      exact ⟨by omega, fun _ _ => by omega⟩
    repeat' (split at h)
    all_goals first
      | exact step h
      | (cases h; done)
      | skip
    all_goals (
      simp only [Option.some.injEq, Prod.mk.injEq] at h
      obtain ⟨rfl, rfl⟩ := h
      refine ⟨Nat.le_refl _, fun hc => ?_⟩
      subst hc
      simp_all)

/-- A full backward traversal `for (iter->SeekForPrev(..); iter->Valid();
iter->Prev())`. -/
def backwardAll (ts now : Int) (l : List Entry) : Option (List Entry) :=
  match _h : prevVisible ts now none l with
  | none => none
  | some (none, _) => some []
  | some (some e, rest) =>
    match backwardAll ts now rest with
    | none => none
    | some es => some (e :: es)
termination_by l.length
decreasing_by exact (prevVisible_length _h).2 rfl (by simp)

/-! ## src/mvcc/reader.cc -/

/-- `ts > 0 ? ts : INT64_MAX`, `mvcc/reader.cc:46` (and in the `Iterator`
constructor, `mvcc/iterator.h:29`). -/
def effTs (ts : Int) : Int := if ts > 0 then ts else 2 ^ 63 - 1

/-- Outcome of a point read. -/
inductive GetOut where
  | keyEmpty
  | notFound
  | value (v : Bytes)
  | crash
deriving DecidableEq, Repr

/-- `KvReader::KvGet`, `mvcc/reader.cc:35-57`. -/
def kvGet (st : Store) (now ts : Int) (k : Bytes) : GetOut :=
  if k.isEmpty then .keyEmpty
  else
    let ek := encodeBytes k
    match nextVisible (effTs ts) now [] (seek st ek (prefixNext ek)) with
    | none => .crash
    | some (_, []) => .notFound
    | some (_, (_, v) :: _) =>
      match unPackageValue v with
      | none => .crash
      | some pv => .value pv

/-- Outcome of a range read. -/
inductive ScanOut (α : Type) where
  | keyEmpty
  | ok (a : α)
  | crash
deriving DecidableEq, Repr

/-- Decode one stored entry, `mvcc/reader.cc:76-85`: `DecodeKey`'s result is not
checked in the source; a failing decode is a `crash` here (it would leave the
key empty), so that theorems cannot rely on it. -/
def decodeEntry (e : Entry) : Option (Bytes × Int × Bytes) :=
  match decodeKey e.1, unPackageValue e.2 with
  | .ok (k, t), some v => some (k, t, v)
  | _, _ => none

/-- `KvReader::KvScan`, `mvcc/reader.cc:59-92`: (key, ts, value) in order. -/
def kvScan (st : Store) (now ts : Int) (start stop : Bytes) : ScanOut (List (Bytes × Int × Bytes)) :=
  if start.isEmpty ∨ stop.isEmpty then .keyEmpty
  else
    match forwardAll (effTs ts) now [] (seek st (encodeBytes start) (encodeBytes stop)) with
    | none => .crash
    | some es =>
      match es.mapM decodeEntry with
      | none => .crash
      | some out => .ok out

/-- `KvReader::KvCount`, `mvcc/reader.cc:126-150`. -/
def kvCount (st : Store) (now ts : Int) (start stop : Bytes) : ScanOut Nat :=
  if start.isEmpty ∨ stop.isEmpty then .keyEmpty
  else
    match forwardAll (effTs ts) now [] (seek st (encodeBytes start) (encodeBytes stop)) with
    | none => .crash
    | some es => .ok es.length

/-- `KvReader::KvMinKey`, `mvcc/reader.cc:152-178` (`none`: output untouched). -/
def kvMinKey (st : Store) (now ts : Int) (start stop : Bytes) : ScanOut (Option Bytes) :=
  if start.isEmpty ∨ stop.isEmpty then .keyEmpty
  else
    match nextVisible (effTs ts) now [] (seek st (encodeBytes start) (encodeBytes stop)) with
    | none => .crash
    | some (_, []) => .ok none
    | some (_, e :: _) =>
      match decodeKey e.1 with
      | .ok (k, _) => .ok (some k)
      | _ => .crash

/-- `KvReader::KvMaxKey`, `mvcc/reader.cc:180-206`. -/
def kvMaxKey (st : Store) (now ts : Int) (start stop : Bytes) : ScanOut (Option Bytes) :=
  if start.isEmpty ∨ stop.isEmpty then .keyEmpty
  else
    match prevVisible (effTs ts) now none (seekForPrev st (encodeBytes stop) (encodeBytes start)) with
    | none => .crash
    | some (none, _) => .ok none
    | some (some e, _) =>
      match decodeKey e.1 with
      | .ok (k, _) => .ok (some k)
      | _ => .crash

/-! ## Writers: src/engine/raft_store_engine.cc and the apply handlers -/

/-- `Codec::EncodeKeyValuesWithPut/WithTTL` for one pair, `mvcc/codec.cc:421-456`,
choosing the kind as `Writer::KvPut` does (`raft_store_engine.cc:727`): plain if
the absolute expiry `ttl` is 0. `none`: negative timestamp, abort. -/
def encodePut (ts ttl : Int) (kv : Bytes × Bytes) : Option Entry :=
  (encodeKey kv.1 ts).map (fun ek =>
    (ek, if ttl = 0 then packageValue .put 0 kv.2 else packageValue .putTTL ttl kv.2))

/-- Encoding of one deletion mark: `EncodeKeys` (`mvcc/codec.cc:389-398`) at the
writer and `ValueFlagDelete` at apply (`raft_apply_handler.cc:135-151`). -/
def encodeDelete (ts : Int) (k : Bytes) : Option Entry :=
  (encodeKey k ts).map (fun ek => (ek, packageValue .delete 0 []))

/-- `Writer::KvPut`, `raft_store_engine.cc:721-752`, then `PutHandler`. -/
def writerPut (st : Store) (ts ttl : Int) (kvs : List (Bytes × Bytes)) : Option Store :=
  (kvs.mapM (encodePut ts ttl)).map (batchPut st)

/-- `Writer::KvDelete`, `raft_store_engine.cc:754-775`, then
`DeleteBatchHandler`; the key states reported are those of a read at the
context timestamp (0, i.e. newest). -/
def writerDelete (st : Store) (now ts : Int) (keys : List Bytes) : Option (List Bool × Store) :=
  (keys.mapM (encodeDelete ts)).map (fun es =>
    (keys.map (fun k => match kvGet st now 0 k with | .value _ => true | _ => false),
     batchPut st es))

/-- `Writer::KvDeleteRange`, `raft_store_engine.cc:777-781`, then
`DeleteRangeHandler`. -/
def writerDeleteRange (st : Store) (start stop : Bytes) : Store :=
  deleteRange st (encodeBytes start) (encodeBytes stop)

/-- Status and key states of a conditional write. -/
inductive CondOut where
  | states (s : List Bool)
  | keyEmpty
  | notFound
  | crash
deriving DecidableEq, Repr

/-- Decision loop of `Writer::KvPutIfAbsent`, `raft_store_engine.cc:800-834`,
over the pairs; every read sees the store before the request.  Result: `inl`
early return, `inr` the pairs to put and the per-key states. -/
def pifLoop (st : Store) (now : Int) (atomic : Bool) :
    List (Bytes × Bytes) → (CondOut ⊕ (List (Bytes × Bytes) × List Bool))
  | [] => .inr ([], [])
  | kv :: rest =>
    match kvGet st now 0 kv.1 with
    | .keyEmpty => .inl .keyEmpty
    | .crash => .inl .crash
    | .value _ =>
      if atomic then .inl (.states [])
      else
        match pifLoop st now atomic rest with
        | .inl o => .inl o
        | .inr (puts, ss) => .inr (puts, false :: ss)
    | .notFound =>
      match pifLoop st now atomic rest with
      | .inl o => .inl o
      | .inr (puts, ss) => .inr (kv :: puts, true :: ss)

/-- `Writer::KvPutIfAbsent`, `raft_store_engine.cc:783-861`.  On an early
`return butil::Status()` the key states stay all false, represented here by
`replicate false`. -/
def writerPutIfAbsent (st : Store) (now ts ttl : Int) (kvs : List (Bytes × Bytes)) (atomic : Bool) :
    CondOut × Store :=
  if kvs.isEmpty then (.keyEmpty, st)
  else
    match pifLoop st now atomic kvs with
    | .inl (.states _) => (.states (List.replicate kvs.length false), st)
    | .inl o => (o, st)
    | .inr (puts, ss) =>
      if puts.isEmpty then (.states (List.replicate kvs.length false), st)
      else
        match writerPut st ts ttl puts with
        | none => (.crash, st)
        | some st' => (.states ss, st')

/-- Decision loop of `Writer::KvCompareAndSet`, `raft_store_engine.cc:884-935`. -/
def casLoop (st : Store) (now : Int) (atomic : Bool) :
    List ((Bytes × Bytes) × Bytes) → (CondOut ⊕ (List (Bytes × Bytes) × List Bool))
  | [] => .inr ([], [])
  | (kv, expect) :: rest =>
    let take :=
      match casLoop st now atomic rest with
      | .inl o => Sum.inl o
      | .inr (puts, ss) => .inr (kv :: puts, true :: ss)
    let skip :=
      match casLoop st now atomic rest with
      | .inl o => Sum.inl o
      | .inr (puts, ss) => .inr (puts, false :: ss)
    match kvGet st now 0 kv.1 with
    | .keyEmpty => .inl .keyEmpty
    | .crash => .inl .crash
    | .value old =>
      if old ≠ expect then (if atomic then .inl (.states []) else skip) else take
    | .notFound =>
      if ¬ expect.isEmpty then (if atomic then .inl .notFound else skip) else take

/-- Encoding of one pair in `KvCompareAndSet`, `raft_store_engine.cc:919-930`:
an empty new value is a deletion. -/
def encodeCas (ts ttl : Int) (kv : Bytes × Bytes) : Option Entry :=
  if kv.2.isEmpty then encodeDelete ts kv.1 else encodePut ts ttl kv

/-- `Writer::KvCompareAndSet`, `raft_store_engine.cc:863-963`. -/
def writerCas (st : Store) (now ts ttl : Int) (kvs : List (Bytes × Bytes)) (expects : List Bytes)
    (atomic : Bool) : CondOut × Store :=
  if kvs.isEmpty then (.keyEmpty, st)
  else if kvs.length ≠ expects.length then (.keyEmpty, st)
  else
    match casLoop st now atomic (kvs.zip expects) with
    | .inl (.states _) => (.states (List.replicate kvs.length false), st)
    | .inl o => (o, st)
    | .inr (puts, ss) =>
      if puts.isEmpty then (.states (List.replicate kvs.length false), st)
      else
        match puts.mapM (encodeCas ts ttl) with
        | none => (.crash, st)
        | some es => (.states ss, batchPut st es)

end Verif.Mvcc
