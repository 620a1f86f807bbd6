import Verif.Txn.CF

/-!
# The raft log storage (model)

Models `src/log/rocks_log_storage.cc` (one RocksDB instance holds the raft logs of
all regions of a store; every region's raft node uses it through
`RocksLogStorageWrapper`) and `src/log/index_term_map.cc` (the optional cache of
terms, `FLAGS_rocks_log_enable_get_term_cache`).

Simplifications.  RocksDB is an ordered map with atomic write batches.  The index
metas of the prefix `'M'` are kept apart from the entries of the prefix `'D'`
(their serialisation is protobuf).  A mutation that was handed to the execution
queue is `pending` until some batch executes it; a batch may take any pending
mutations in any order, which includes the queue's order and every delay between
computing a mutation and queueing it.  The term cache of a region is updated
together with the batch that completes the call (the node's disk thread does
nothing else in between).  `none` stands for a process abort (`CHECK`,
`DINGO_LOG(FATAL)`, undefined behaviour).  `hist` and `released` are ghost fields:
they record the calls and are read by no function of the model.
-/

namespace Verif.LogStore
open Verif.Codec
open Verif.Txn (CF)

/-- The RocksDB instance of the log, `rocks_log_storage.h:257` (`db_`), prefix `'D'`. -/
abbrev Db := CF Bytes Bytes

/-- `INT64_MAX`. -/
def maxI64 : Int := 2 ^ 63 - 1

/-- `LogEntry`, `rocks_log_storage.h:80-107`, without region and index.  `typ` is the
`int` value of `LogEntryType` (`rocks_log_storage.h:47-53`). -/
structure LogEntry where
  typ : Nat
  term : Int
  data : Bytes
deriving DecidableEq, Repr

/-- `LogEntryType::kEntryTypeData`, `rocks_log_storage.h:50`. -/
def typeData : Nat := 2
/-- `LogEntryType::kEntryTypeConfiguration`, `rocks_log_storage.h:51`. -/
def typeConf : Nat := 3

/-! ## Codec -/

/-- `Codec::EncodeKey`, `rocks_log_storage.cc:132-143`. -/
def encodeKey (r i : Int) : Bytes := 0x44 :: (writeLong r ++ writeLong i)

/-- `Codec::DecodeKey`, `rocks_log_storage.cc:145-150`; `none` is the `CHECK`. -/
def decodeKey (k : Bytes) : Option (Int × Int) :=
  if k.length = 17 then
    match readLong (k.drop 1), readLong (k.drop 9) with
    | some r, some i => some (r, i)
    | _, _ => none
  else none

/-- `memcpy` of a 4-byte integer on a little-endian machine. -/
def le32 (n : Nat) : Bytes :=
  [UInt8.ofNat n, UInt8.ofNat (n / 2 ^ 8), UInt8.ofNat (n / 2 ^ 16), UInt8.ofNat (n / 2 ^ 24)]

/-- `Codec::EncodeValue`, `rocks_log_storage.cc:152-171`: data, type (4 bytes), term
(8 bytes), the integers in the machine's (little-endian) order. -/
def encodeValue (e : LogEntry) : Bytes := e.data ++ (le32 e.typ ++ (writeLong e.term).reverse)

/-- `Codec::DecodeValue` and `value.resize(value.size() - 12)`,
`rocks_log_storage.cc:173-185, 1072`; `none` is the `CHECK` on the size. -/
def decodeValue (v : Bytes) : Option LogEntry :=
  if 12 < v.length then
    some { typ := fromBe (((v.drop (v.length - 12)).take 4).reverse)
           term := toI64 (fromBe (v.drop (v.length - 8)).reverse)
           data := v.take (v.length - 12) }
  else none

/-! ## Term cache, src/log/index_term_map.cc -/

/-- `IndexTermMap::term_cache_`: (index, term) pairs. -/
abbrev TermMap := List (Int × Int)

/-- The search of `std::upper_bound` by halving, as libstdc++ does it, with
`IndexTermMap::Cmp`, `index_term_map.h:34-36`. -/
def upperBound (l : TermMap) (index : Int) (start len : Nat) : Nat :=
  if _h : len = 0 then start
  else
    let half := len / 2
    match l[start + half]? with
    | none => start
    | some e =>
      if index < e.1 then upperBound l index start half
      else upperBound l index (start + half + 1) (len - half - 1)
termination_by len
decreasing_by all_goals omega

/-- `IndexTermMap::GetTerm`, `index_term_map.cc:29-56`. -/
def TermMap.getTerm (l : TermMap) (index : Int) : Int :=
  match l.getLast? with
  | none => 0
  | some b =>
    if b.1 ≤ index then b.2
    else if l.length < 15 then
      match l.reverse.find? (fun e => e.1 ≤ index) with
      | some e => e.2
      | none => 0
    else
      let p := upperBound l index 0 l.length
      if p = 0 then 0
      else match l[p - 1]? with
        | some e => e.2
        | none => 0

/-- `IndexTermMap::Append`, `index_term_map.cc:58-75`; `none` is the return value -1. -/
def TermMap.append (l : TermMap) (i t : Int) : Option TermMap :=
  match l.getLast? with
  | none => some [(i, t)]
  | some b =>
    if i ≤ b.1 ∨ t < b.2 then none
    else if t = b.2 then some l
    else some (l ++ [(i, t)])

/-- `IndexTermMap::TruncatePrefix`, `index_term_map.cc:77-93`: drop the front while the
next entry still covers the first index kept. -/
def TermMap.cutPrefix (k : Int) : TermMap → TermMap
  | a :: b :: l => if b.1 ≤ k then TermMap.cutPrefix k (b :: l) else a :: b :: l
  | l => l

/-- `IndexTermMap::TruncateSuffix`, `index_term_map.cc:95-99`. -/
def TermMap.cutSuffix (k : Int) (l : TermMap) : TermMap :=
  (l.reverse.dropWhile (fun e => k < e.1)).reverse

/-! ## Mutations and batches -/

/-- `ClientType`, `rocks_log_storage.h:40-43`. -/
inductive Client where
  | raft | vec
deriving DecidableEq, Repr

/-- `LogIndexMeta`, `rocks_log_storage.h:57-78`; `keeps` is `truncate_prefixs`. -/
structure Meta where
  first : Int
  last : Int
  keeps : List (Client × Int)
deriving DecidableEq, Repr

/-- `Mutation`, `rocks_log_storage.h:109-138`.  `own` of a prefix truncation is the
index passed to `RocksLogStorageWrapper::truncate_prefix` when the node itself (not
the vector index) made the call: the wrapper passes it on to the term cache. -/
inductive Mutation where
  | append (r : Int) (es : List (Int × LogEntry))
  | cutPrefix (r stop : Int) (own : Option Int)
  | cutSuffix (r start : Int)
  | reset (r next : Int)
  | destroy (r : Int)
deriving DecidableEq, Repr

/-- The region of a mutation. -/
def Mutation.region : Mutation → Int
  | .append r _ | .cutPrefix r _ _ | .cutSuffix r _ | .reset r _ | .destroy r => r

/-- `WriteOp`, `rocks_log_storage.h:140-167`. -/
inductive WriteOp where
  | put (k v : Bytes)
  | deleteRange (lo hi : Bytes)
deriving DecidableEq, Repr

/-- `AppendToWriteBatch`, `rocks_log_storage.cc:708-755`. -/
def writeOps : Mutation → List WriteOp
  | .append r es => es.map (fun e => .put (encodeKey r e.1) (encodeValue e.2))
  | .cutPrefix r stop _ => [.deleteRange (encodeKey r 0) (encodeKey r stop)]
  | .cutSuffix r start => [.deleteRange (encodeKey r start) (encodeKey r maxI64)]
  | .reset r _ => [.deleteRange (encodeKey r 0) (encodeKey r maxI64)]
  | .destroy r => [.deleteRange (encodeKey r 0) (encodeKey r maxI64)]

/-- `rocksdb::WriteBatch::DeleteRange` as applied, `rocks_log_storage.cc:767`: the keys
of `[lo, hi)` are gone. -/
def deleteRange (db : Db) (lo hi : Bytes) : Db :=
  ⟨db.l.filter (fun e => e.1 < lo ∨ ¬ e.1 < hi), List.Pairwise.filter _ db.asc⟩

/-- One operation of the write batch, `rocks_log_storage.cc:761-769`. -/
def applyOp (db : Db) : WriteOp → Db
  | .put k v => db.put k v
  | .deleteRange lo hi => deleteRange db lo hi

/-- `ApplyWriteOp`, `rocks_log_storage.cc:757-787`: one write batch. -/
def applyOps (db : Db) (ops : List WriteOp) : Db := ops.foldl applyOp db

/-- Replace the value of a map at one region. -/
def upd {α : Type} (f : Int → α) (r : Int) (v : α) : Int → α := fun x => if x = r then v else f x

/-- One turn of `AdjustIndexMeta`, `rocks_log_storage.cc:789-853`; `none` is the `CHECK`
that the region is known, or `back()` of an empty vector. -/
def adjust (metas : Int → Option Meta) : Mutation → Option (Int → Option Meta)
  | .append r es =>
    match es.getLast?, metas r with
    | some e, some m => some (upd metas r (some { m with last := e.1 }))
    | _, _ => none
  | .cutPrefix r stop _ =>
    match metas r with
    | none => none
    | some m =>
      if m.first < stop then
        some (upd metas r (some { m with first := stop, last := if m.last < stop then stop - 1 else m.last }))
      else some metas
  | .cutSuffix r start =>
    match metas r with
    | none => none
    | some m =>
      if start ≤ m.last then
        some (upd metas r (some { m with last := start - 1, first := if start ≤ m.first then start else m.first }))
      else some metas
  | .reset r next =>
    match metas r with
    | none => none
    | some m => some (upd metas r (some { first := next, last := next - 1, keeps := m.keeps.map (fun c => (c.1, 0)) }))
  | .destroy r => some (upd metas r none)

/-- The calls `index_term_map_.Append` after an append, `rocks_log_storage.cc:1494-1498,
1532-1538`; `none` is the `DINGO_LOG(FATAL)`. -/
def appendTerms (l : TermMap) : List (Int × LogEntry) → Option TermMap
  | [] => some l
  | e :: es =>
    match l.append e.1 e.2.term with
    | none => none
    | some l' => appendTerms l' es

/-- What the wrapper does with its term cache when a mutation of its own completes,
`rocks_log_storage.cc:1484-1601`.  `on` is `FLAGS_rocks_log_enable_get_term_cache`; a
region that has no wrapper (`none`) has no cache.  Destroying a region ends its
wrapper. -/
def cacheAfter (on : Bool) (cache : Int → Option TermMap) : Mutation → Option (Int → Option TermMap)
  | .append r es =>
    match on, cache r with
    | true, some l =>
      match appendTerms l es with
      | none => none
      | some l' => some (upd cache r (some l'))
    | _, _ => some cache
  | .cutPrefix r _ own =>
    match own with
    | some k => some (upd cache r ((cache r).map (TermMap.cutPrefix k)))
    | none => some cache
  | .cutSuffix r start => some (upd cache r ((cache r).map (TermMap.cutSuffix (start - 1))))
  | .reset r _ => some (upd cache r ((cache r).map (fun _ => [])))
  | .destroy r => some (upd cache r none)

/-! ## State -/

/-- Ghost: a call of the raft node of a region. -/
inductive Call where
  | append (es : List (Int × LogEntry))
  | truncPrefix (k : Int)
  | truncSuffix (k : Int)
  | reset (next : Int)
deriving DecidableEq, Repr

/-- The log storage of one store process and what survives it. -/
structure State where
  /-- `client_types_` (`server/server.cc:481-484`) -/
  clients : List Client
  /-- `braft::FLAGS_raft_sync` -/
  sync : Bool
  /-- `FLAGS_rocks_log_enable_get_term_cache` -/
  cacheOn : Bool
  db : Db
  /-- contents of the database before the batches that are not synced, newest first -/
  unsynced : List Db
  /-- the stored index metas (prefix `'M'`) -/
  saved : List (Int × List (Client × Int))
  /-- `log_index_metas_` -/
  metas : Int → Option Meta
  /-- the wrappers of this process, each with its `index_term_map_` -/
  cache : Int → Option TermMap
  /-- mutations handed to the execution queue and not executed yet -/
  pending : List Mutation
  /-- ghost: completed calls of each region's raft node since the region was created
  (prefix truncations: since they were called), oldest first -/
  hist : Int → List Call
  /-- ghost: prefix truncations called for each region since it was created -/
  released : Int → List (Client × Int)

/-- A new log storage. -/
def State.init (clients : List Client) (sync cacheOn : Bool) : State where
  clients := clients
  sync := sync
  cacheOn := cacheOn
  db := CF.empty
  unsynced := []
  saved := []
  metas := fun _ => none
  cache := fun _ => none
  pending := []
  hist := fun _ => []
  released := fun _ => []

/-- Ghost: the call that a mutation completes. -/
def histAfter (hist : Int → List Call) : Mutation → Int → List Call
  | .append r es => upd hist r (hist r ++ [.append es])
  | .cutPrefix _ _ _ => hist
  | .cutSuffix r start => upd hist r (hist r ++ [.truncSuffix (start - 1)])
  | .reset r next => upd hist r (hist r ++ [.reset next])
  | .destroy r => upd hist r []

/-- Ghost: a destroyed region starts over. -/
def releasedAfter (released : Int → List (Client × Int)) : Mutation → Int → List (Client × Int)
  | .destroy r => upd released r []
  | _ => released

/-- The first `some` chain over a list. -/
def foldOpt {α β : Type} (f : α → β → Option α) : α → List β → Option α
  | a, [] => some a
  | a, b :: l =>
    match f a b with
    | none => none
    | some a' => foldOpt f a' l

/-- `sync_log_func` of `ExecuteRoutine`, `rocks_log_storage.cc:305-335`: one batch, then
the metas, then (with `raft_sync`) the sync of the log, then the callers go on. -/
def exec (s : State) (ms : List Mutation) : Option State :=
  match foldOpt adjust s.metas ms, foldOpt (cacheAfter s.cacheOn) s.cache ms with
  | some metas, some cache =>
    some { s with
      db := applyOps s.db (ms.flatMap writeOps)
      unsynced := if s.sync then [] else s.db :: s.unsynced
      metas := metas
      cache := cache
      hist := ms.foldl histAfter s.hist
      released := ms.foldl releasedAfter s.released }
  | _, _ => none

/-! ## Reads -/

/-- `RocksLogStorage::GetEntry`, `rocks_log_storage.cc:1049-1075`: `none` is an abort,
`some none` the null pointer. -/
def getEntry (db : Db) (r i : Int) : Option (Option LogEntry) :=
  match db.get (encodeKey r i) with
  | none => some none
  | some v =>
    match decodeValue v with
    | none => none
    | some e => some (some e)

/-- `RocksLogStorage::GetTerm`, `rocks_log_storage.cc:1017-1047`, without the two lookups
of the region's meta that only serve its log lines; `none` is an abort. -/
def getTerm (db : Db) (r i : Int) : Option Int :=
  match db.get (encodeKey r i) with
  | none => some 0
  | some v =>
    match decodeValue v with
    | none => none
    | some e => if 0 < e.term then some e.term else none

/-- Iterator `Seek(lo)` bounded by `hi`, `rocks_log_storage.cc:1081-1093`. -/
def seekRange (db : Db) (lo hi : Bytes) : List (Bytes × Bytes) :=
  (db.seek lo).takeWhile (fun e => e.1 < hi)

/-- The loop of `GetEntries`, `rocks_log_storage.cc:1093-1117`; `none` is an abort. -/
def decodeAll (r : Int) : List (Bytes × Bytes) → Option (List (Int × LogEntry))
  | [] => some []
  | (k, v) :: l =>
    match decodeKey k with
    | none => none
    | some (r', i) =>
      if r' ≠ r then none
      else match decodeValue v with
        | none => none
        | some e =>
          match decodeAll r l with
          | none => none
          | some es => some ((i, e) :: es)

/-- `RocksLogStorage::GetEntries`, `rocks_log_storage.cc:1077-1121`. -/
def getEntries (db : Db) (r a b : Int) : Option (List (Int × LogEntry)) :=
  decodeAll r (seekRange db (encodeKey r a) (encodeKey r b))

/-- `RocksLogStorage::GetDataEntries`, `rocks_log_storage.cc:1123-1135`. -/
def getDataEntries (db : Db) (r a b : Int) : Option (List (Int × LogEntry)) :=
  (getEntries db r a b).map (fun l => l.filter (fun e => e.2.typ = typeData))

/-- `RocksLogStorage::GetConfigurations`, `rocks_log_storage.cc:1137-1184`. -/
def getConfigurations (db : Db) (r : Int) : Option (List (Int × LogEntry)) :=
  (getEntries db r 0 maxI64).map (fun l => l.filter (fun e => e.2.typ = typeConf))

/-- `RocksLogStorage::GetFirstLogIndex`, `rocks_log_storage.cc:946-972`. -/
def firstOnDisk (db : Db) (r : Int) : Option Int :=
  match seekRange db (encodeKey r 0) (encodeKey r maxI64) with
  | [] => some 1
  | (k, _) :: _ =>
    match decodeKey k with
    | none => none
    | some (r', i) => if r' = r then some i else none

/-- `RocksLogStorage::GetLastLogIndex`, `rocks_log_storage.cc:974-1000`:
`SeekForPrev(end_key)` on an iterator bounded by `end_key`. -/
def lastOnDisk (db : Db) (r : Int) : Option Int :=
  match (db.l.filter (fun e => e.1 < encodeKey r maxI64)).getLast? with
  | none => some 0
  | some (k, _) =>
    if k < encodeKey r 0 then some 0
    else match decodeKey k with
      | none => none
      | some (r', i) => if r' = r then some i else none

/-- The loop of `RegisterIdTermToMap`, `rocks_log_storage.cc:1204-1219`: the return value
of `Append` is ignored. -/
def registerTerms : TermMap → List (Int × LogEntry) → TermMap
  | l, [] => l
  | l, e :: es => registerTerms ((l.append e.1 e.2.term).getD l) es

/-- `RocksLogStorageWrapper::get_term` with the cache on, `rocks_log_storage.cc:1458-1464`. -/
def State.getTermCached (s : State) (r i : Int) : Option Int := (s.cache r).map (fun l => l.getTerm i)

/-! ## Calls -/

/-- The loop over `truncate_prefixs` in `TruncatePrefix`, `rocks_log_storage.cc:1247-1260`:
the new list, and the minimum, or `none` for the early return. -/
def scanKeeps (c : Client) (k : Int) : List (Client × Int) → List (Client × Int) × Option Int
  | [] => ([], some maxI64)
  | (c', v) :: l =>
    if c' = c then
      if k ≤ v then ((c', v) :: l, none)
      else
        let x := scanKeeps c k l
        ((c', k) :: x.1, x.2.map (min k))
    else
      let x := scanKeeps c k l
      ((c', v) :: x.1, x.2.map (min v))

/-- What the wrapper does with the term cache after a prefix truncation that returned 0
without a mutation, `rocks_log_storage.cc:1567-1570`. -/
def cutOwn (c : Client) (cache : Int → Option TermMap) (r k : Int) : Int → Option TermMap :=
  if c = .raft then upd cache r ((cache r).map (TermMap.cutPrefix k)) else cache

/-- `RocksLogStorage::TruncatePrefix`, `rocks_log_storage.cc:1228-1276`, and
`RocksLogStorageWrapper::truncate_prefix`, `rocks_log_storage.cc:1560-1572`. -/
def truncPrefix (s : State) (c : Client) (r k : Int) : Option State :=
  match s.metas r with
  | none => none
  | some m =>
    let s1 := { s with
      hist := if c = Client.raft then upd s.hist r (s.hist r ++ [Call.truncPrefix k]) else s.hist
      released := upd s.released r (s.released r ++ [(c, k)]) }
    if k ≤ m.first then some { s1 with cache := cutOwn c s1.cache r k }
    else
      let x := scanKeeps c k m.keeps
      let s2 := { s1 with metas := upd s1.metas r (some { m with keeps := x.1 }) }
      match x.2 with
      | none => some { s2 with cache := cutOwn c s2.cache r k }
      | some stop =>
        if stop = maxI64 ∨ stop ≤ m.first then some { s2 with cache := cutOwn c s2.cache r k }
        else some { s2 with
          pending := s2.pending ++ [Mutation.cutPrefix r stop (if c = Client.raft then some k else none)] }

/-- `RocksLogStorage::TruncateSuffix`, `rocks_log_storage.cc:1279-1307`.  With
`keep_last_index` equal to the last index nothing is written and the call returns 0;
the term cache has no entry above it. -/
def truncSuffix (s : State) (r k : Int) : Option State :=
  match s.metas r with
  | none => none
  | some m =>
    if m.last < k then some s
    else if k = m.last then
      some { s with
        cache := upd s.cache r ((s.cache r).map (TermMap.cutSuffix k))
        hist := upd s.hist r (s.hist r ++ [.truncSuffix k]) }
    else some { s with pending := s.pending ++ [.cutSuffix r (k + 1)] }

/-- `RegisterRegion`, `rocks_log_storage.cc:664-688`. -/
def register (s : State) (r : Int) : State :=
  match s.metas r with
  | some _ => s
  | none =>
    let ks := s.clients.map (fun c => (c, (0 : Int)))
    { s with
      metas := upd s.metas r (some { first := 1, last := 0, keeps := ks })
      saved := (r, ks) :: s.saved.filter (fun e => e.1 ≠ r) }

/-- `RocksLogStorageWrapper::init`, `rocks_log_storage.cc:1421-1446`. -/
def openRegion (s : State) (r : Int) : Option State :=
  let s1 := register s r
  match getConfigurations s1.db r, getEntries s1.db r 0 maxI64 with
  | some _, some es =>
    some { s1 with cache := upd s1.cache r (some (if s1.cacheOn then registerTerms [] es else [])) }
  | _, _ => none

/-- `InitIndexMeta`, `rocks_log_storage.cc:583-624`. -/
def loadMetas (db : Db) : List (Int × List (Client × Int)) → Option (Int → Option Meta)
  | [] => some (fun _ => none)
  | (r, ks) :: l =>
    match firstOnDisk db r, lastOnDisk db r, loadMetas db l with
    | some f, some t, some metas => some (upd metas r (some { first := f, last := t, keeps := ks }))
    | _, _, _ => none

/-- A new process on a given database, `rocks_log_storage.cc:626-649`. -/
def boot (s : State) (db : Db) : Option State :=
  match loadMetas db s.saved with
  | none => none
  | some metas =>
    some { s with
      db := db
      unsynced := []
      metas := metas
      cache := fun _ => none
      pending := [] }

/-- Take the pending mutations at the given positions, in that order. -/
def pick : List Mutation → List Nat → List Mutation × List Mutation
  | p, [] => ([], p)
  | p, n :: ns =>
    match p[n]? with
    | none => pick p ns
    | some m =>
      let x := pick (p.eraseIdx n) ns
      (m :: x.1, x.2)

/-- What can happen. -/
inductive Event where
  /-- the raft node of a region starts (`RocksLogStorageWrapper::init`) -/
  | openRegion (r : Int)
  /-- `append_entries` of the node of a region, `rocks_log_storage.cc:1477-1558` -/
  | append (r : Int) (es : List (Int × LogEntry))
  /-- `truncate_prefix` of the node, or the vector index's call, `vector/vector_index_snapshot_manager.cc:788`, `handler/raft_vote_handler.cc:57,99,110` -/
  | truncPrefix (c : Client) (r k : Int)
  /-- `truncate_suffix` of the node -/
  | truncSuffix (r k : Int)
  /-- `reset` of the node, `rocks_log_storage.cc:1586-1602` -/
  | reset (r next : Int)
  /-- `DestroyRegionLog`, `rocks_log_storage.cc:1309-1322` -/
  | destroy (r : Int)
  /-- the execution queue executes some pending mutations as one batch -/
  | flush (sel : List Nat)
  /-- the process stops at any point and a new one starts -/
  | restart
  /-- the machine stops: the last `n` batches that are not synced are lost -/
  | crash (n : Nat)
deriving DecidableEq, Repr

/-- One event; `none` is a process abort. -/
def step (s : State) : Event → Option State
  | .openRegion r => openRegion s r
  | .append r es => some { s with pending := s.pending ++ [.append r es] }
  | .truncPrefix c r k => truncPrefix s c r k
  | .truncSuffix r k => truncSuffix s r k
  | .reset r next => some { s with pending := s.pending ++ [.reset r next] }
  | .destroy r => some { s with pending := s.pending ++ [.destroy r] }
  | .flush sel =>
    let x := pick s.pending sel
    exec { s with pending := x.2 } x.1
  | .restart => boot s s.db
  | .crash n => boot s (((s.db :: s.unsynced)[n]?).getD s.db)

/-- A history; `none` if the process aborts in it. -/
def run (s : State) (es : List Event) : Option State := foldOpt step s es

end Verif.LogStore
