import Verif.Mvcc.Model

/-!
# Scan sessions (model)

Models `src/scan/scan.cc`, `src/scan/scan_manager.cc`, `src/scan/scan_filter.cc`,
the scan functions of `src/engine/storage.cc` (293-456) and the request checks of
`src/server/store_service.cc` (1113-1647), over the MVCC iterator of
`Verif.Mvcc.Model`.

* A request is a thread that runs in the steps between which other threads can
  interleave: the scan manager's functions take the manager's mutex, the handlers
  take the session's mutex, and nothing is held in between.
* A session is an object on a heap (`objs`); the manager's map and the threads hold
  references to it (`std::shared_ptr`), so an object outlives its map entry.
* `RocksDB` iterators read the data as of their creation: the iterator carries the
  entries of the store at that time.
* Not modelled: coprocessors (`disable_coprocessor` requests only), the checks of
  the region's epoch, range and state, the `bvar` counters, the compiled-out
  `ENABLE_SCAN_OPTIMIZATION` code.
* The two managers (`ScanManager`, ids drawn by the server; `ScanManagerV2`, ids
  chosen by the client) have the same code otherwise and are separate objects;
  one instance of the model stands for either, with both kinds of Begin.  Ids are
  byte strings: V2 compares the decimal form of the number in the context.
-/

namespace Verif.Scan
open Verif.Codec Verif.Mvcc

/-- `ScanState`, `scan/scan.h:40-58`. -/
inductive SState where
  | uninit | opening | opened | beginning | begun | continuing | continued
  | releasing | released | error | begunTimeout | continuedTimeout
  | releasedTimeout | recycle | destroy
deriving DecidableEq, Repr

/-- `mvcc::Iterator` after a `Seek`, `mvcc/iterator.h:28-66`: `ts_`, `now_time_`,
`prev_encode_key_` and what the inner iterator has ahead (its head is the current
entry; empty: not `Valid`). -/
structure It where
  ts : Int
  now : Int
  prev : Bytes
  pos : List Entry
deriving DecidableEq, Repr

/-- `NewIterator` with the upper bound and `Seek`, `scan/scan.cc:424-434`,
`mvcc/iterator.cc:43-50`: the clock is read once, at the seek.  `none`: abort. -/
def seekIt (st : Store) (ts now : Int) (start stop : Bytes) : Option It :=
  (nextVisible (effTs ts) now [] (seek st (encodeBytes start) (encodeBytes stop))).map
    (fun r => ⟨effTs ts, now, r.1, r.2⟩)

/-- `Iterator::Next`, `mvcc/iterator.cc:60-64`. -/
def It.next (i : It) : Option It :=
  (nextVisible i.ts i.now i.prev i.pos).map (fun r => { i with prev := r.1, pos := r.2 })

/-- A returned pair. -/
abbrev KV := Bytes × Bytes

/-- `ScanFilter::UptoLimit`, `scan/scan_filter.cc:26-42`: (stop?, count, bytes). -/
def uptoLimit (keyOnly : Bool) (maxCnt : Nat) (maxBytes : Int) (cnt : Nat) (bytes : Int) (kv : KV) :
    Bool × Nat × Int :=
  if cnt + 1 ≥ maxCnt then (true, cnt + 1, bytes)
  else
    let b := bytes + kv.1.length + (if keyOnly then 0 else (kv.2.length : Int))
    (decide (b ≥ maxBytes), cnt + 1, b)

/-- The pair made of the current entry, `scan/scan.cc:147-155`. `DecodeKey`'s
result is not checked in the source; a failing decode is an abort here (it would
leave the key empty), so that theorems cannot rely on it. -/
def pairOf (keyOnly : Bool) (e : Entry) : Option KV :=
  match decodeKey e.1 with
  | .ok (k, _) => if keyOnly then some (k, []) else (unPackageValue e.2).map (fun v => (k, v))
  | _ => none

/-- The loop of `ScanContext::GetKeyValue` without coprocessor,
`scan/scan.cc:143-167`: pairs, `has_more`, iterator.  `none`: abort.  The fuel is
the number of entries ahead plus one; running out of it counts as an abort. -/
def getKv (keyOnly : Bool) (maxCnt : Nat) (maxBytes : Int) :
    Nat → Nat → Int → It → Option (List KV × Bool × It)
  | 0, _, _, _ => none
  | f + 1, cnt, bytes, it =>
    match it.pos with
    | [] => some ([], false, it)
    | e :: _ =>
      match pairOf keyOnly e with
      | none => none
      | some kv =>
        let u := uptoLimit keyOnly maxCnt maxBytes cnt bytes kv
        match it.next with
        | none => none
        | some it' =>
          if u.1 then some ([kv], true, it')
          else
            match getKv keyOnly maxCnt maxBytes f u.2.1 u.2.2 it' with
            | none => none
            | some (kvs, more, it'') => some (kv :: kvs, more, it'')

/-- Limits set by the manager, `scan/scan_manager.cc:63-96, 113-115`. -/
structure Cfg where
  timeout : Int
  maxBytes : Int
  maxCnt : Int
deriving DecidableEq, Repr

/-- Conversion of an `int64_t` to `size_t` (the parameter of `ScanFilter`). -/
def toSize (x : Int) : Nat := (x % 18446744073709551616).toNat

/-- `ScanContext::GetKeyValue`, `scan/scan.cc:132-168`. -/
def getKeyValue (cfg : Cfg) (keyOnly : Bool) (maxFetch : Int) (it : It) :
    Option (List KV × Bool × It) :=
  getKv keyOnly (toSize (min maxFetch cfg.maxCnt)) cfg.maxBytes (it.pos.length + 1) 0 0 it

/-- `ScanContext`, `scan/scan.h:60-150` and its constructor `scan/scan.cc:45-65`
(`last`: the time of creation at first). -/
structure Ctx where
  id : Bytes := []
  st : SState := .uninit
  ts : Int := 0
  keyOnly : Bool := false
  noAuto : Bool := false
  it : Option It := none
  last : Int
deriving DecidableEq, Repr

/-- Status codes. -/
inductive Err where
  | illegal | internal | notFound | notLeader | keyEmpty
deriving DecidableEq, Repr

/-- Arguments of a Begin request. -/
structure BeginReq where
  start : Bytes
  stop : Bytes
  ts : Int := 0
  max : Int
  keyOnly : Bool := false
  noAuto : Bool := false
deriving DecidableEq, Repr

/-- Outcome of a session handler. -/
inductive HOut where
  | ok (kvs : List KV) (more : Bool)
  | err (e : Err)
  | crash
deriving DecidableEq, Repr

/-- `ScanContext::Open`, `scan/scan.cc:74-105` (reader and column family are
always given). -/
def openCtx (c : Ctx) (id : Bytes) (ts : Int) : Ctx × Option Err :=
  if id = [] then (c, some .illegal)
  else if c.st ≠ .uninit then ({ c with st := .error }, some .internal)
  else ({ c with st := .opened, id := id, ts := ts }, none)

/-- `ScanHandler::ScanBegin`, `scan/scan.cc:364-464`; `t` is the clock at the seek,
`t'` at the end. -/
def scanBegin (cfg : Cfg) (st : Store) (t t' : Int) (c : Ctx) (r : BeginReq) : Ctx × HOut :=
  if r.start = [] ∨ r.stop = [] then (c, .err .illegal)
  else if ¬ r.start < r.stop then (c, .err .illegal)
  else if c.st ≠ .opened then ({ c with st := .error }, .err .internal)
  else
    let c1 := { c with keyOnly := r.keyOnly, noAuto := r.noAuto }
    match seekIt st c.ts t r.start r.stop with
    | none => (c1, .crash)
    | some it =>
      if r.max > 0 then
        match getKeyValue cfg r.keyOnly r.max it with
        | none => (c1, .crash)
        | some (kvs, more, it') => ({ c1 with it := some it', st := .begun, last := t' }, .ok kvs more)
      else ({ c1 with it := some it, st := .begun, last := t' }, .ok [] false)

/-- `ScanHandler::ScanContinue`, `scan/scan.cc:466-516`.  (The comparison of the
ids happens before the session's mutex is taken; it is one step here.) -/
def scanContinue (cfg : Cfg) (t' : Int) (c : Ctx) (id : Bytes) (max : Int) : Ctx × HOut :=
  if id = [] ∨ id ≠ c.id then (c, .err .illegal)
  else if max = 0 then (c, .err .illegal)
  else if c.st ≠ .begun ∧ c.st ≠ .continued then ({ c with st := .error }, .err .internal)
  else
    match c.it with
    | none => (c, .crash)
    | some it =>
      match getKeyValue cfg c.keyOnly max it with
      | none => (c, .crash)
      | some (kvs, more, it') => ({ c with it := some it', st := .continued, last := t' }, .ok kvs more)

/-- `ScanHandler::ScanRelease`, `scan/scan.cc:518-558`. -/
def scanRelease (t' : Int) (c : Ctx) (id : Bytes) : Ctx × HOut :=
  if id = [] ∨ id ≠ c.id then (c, .err .illegal)
  else if c.st ≠ .begun ∧ c.st ≠ .continued then ({ c with st := .error }, .err .internal)
  else if c.noAuto = false then ({ c with st := .recycle }, .ok [] false)
  else ({ c with st := .released, last := t' }, .ok [] false)

/-- `ScanContext::IsRecyclable` once the mutex is free, `scan/scan.cc:223-257`. -/
def isRecyclable (cfg : Cfg) (now : Int) (c : Ctx) : Ctx × Bool :=
  if c.st = .recycle ∨ c.st = .error ∨ c.st = .begunTimeout ∨ c.st = .continuedTimeout ∨
      c.st = .releasedTimeout then (c, true)
  else if now - c.last ≥ cfg.timeout then ({ c with st := .recycle }, true)
  else (c, false)

/-- Where a request's thread stands. -/
inductive Pc where
  /-- Begin, after `CreateScan`: next `Open` (`storage.cc:304-308`, `383-392`). -/
  | opening (o : Nat) (id : Bytes) (r : BeginReq)
  /-- Begin, next `ScanBegin` (`storage.cc:316`, `400`). -/
  | begin (o : Nat) (id : Bytes) (r : BeginReq)
  /-- Continue, after `FindScan`: next `ScanContinue` (`storage.cc:339`, `424`). -/
  | cont (o : Nat) (id : Bytes) (max : Int)
  /-- Release, after `FindScan`: next `ScanRelease` (`storage.cc:359`, `445`). -/
  | rel (o : Nat) (id : Bytes)
  /-- The call failed with `e`: next `DeleteScan` (`storage.cc:311, 320, 341, 361`). -/
  | drop (id : Bytes) (e : Err)
  /-- Release succeeded: next `TryDeleteScan` (`storage.cc:367`, `453`). -/
  | tryDel (o : Nat) (id : Bytes)
  | done
deriving DecidableEq, Repr

/-- The scan manager, the sessions, the threads and the region's data. -/
structure State where
  store : Store
  objs : List Ctx
  /-- `alive_scans_`. -/
  map : List (Bytes × Nat)
  ths : List Pc
  /-- The process aborted. -/
  dead : Bool
deriving DecidableEq, Repr

def State.init (st : Store) : State := ⟨st, [], [], [], false⟩

/-- Responses; `th` is the number of the request (its thread).  The other tags say
what they answer: the session object, the id named and the request's arguments. -/
inductive Out where
  | begun (th o : Nat) (id : Bytes) (r : BeginReq) (kvs : List KV)
  | page (th o : Nat) (id : Bytes) (max : Int) (kvs : List KV) (more : Bool)
  | released (th o : Nat) (id : Bytes)
  | refused (th : Nat) (e : Err)
  /-- Begin on an inverted range: an empty response without session and error. -/
  | nothing (th : Nat)
  | crash
deriving DecidableEq, Repr

/-- What happens. -/
inductive Ev where
  /-- The data changes in any way (writes, garbage collection, splits). -/
  | data (st : Store)
  /-- `KvScanBegin` arrives; `guids` are the ids drawn in turn, `now` the clock,
  `leader` the result of `ValidateLeader`. -/
  | beginV1 (guids : List Bytes) (r : BeginReq) (now : Int) (leader : Bool)
  /-- `KvScanBeginV2` arrives with the client's id. -/
  | beginV2 (id : Bytes) (r : BeginReq) (now : Int) (leader : Bool)
  | cont (id : Bytes) (max : Int)
  | release (id : Bytes)
  /-- Thread `i` takes its next step; `t`, `t'` are the clock at its start and end,
  `busy` whether `trylock` fails in `IsRecyclable`. -/
  | go (i : Nat) (t t' : Int) (busy : Bool)
  /-- `RegularCleaningHandler` runs; `busy` are the sessions whose mutex is held. -/
  | clean (now : Int) (busy : List Nat)
deriving DecidableEq, Repr

/-- `alive_scans_.find`. -/
def find (m : List (Bytes × Nat)) (id : Bytes) : Option Nat :=
  (m.find? (fun e => e.1 = id)).map (·.2)

/-- `alive_scans_.erase`: `DeleteScan`, `scan/scan_manager.cc:131-141, 252-262`. -/
def erase (m : List (Bytes × Nat)) (id : Bytes) : List (Bytes × Nat) :=
  m.filter (fun e => e.1 ≠ id)

/-- The loop of `RegularCleaningHandler`, `scan/scan_manager.cc:170-178, 291-299`. -/
def cleanMap (cfg : Cfg) (now : Int) (busy : List Nat) :
    List (Bytes × Nat) → List Ctx → List (Bytes × Nat) × List Ctx
  | [], objs => ([], objs)
  | (id, o) :: m, objs =>
    if busy.contains o then
      let r := cleanMap cfg now busy m objs
      ((id, o) :: r.1, r.2)
    else
      match objs[o]? with
      | none => cleanMap cfg now busy m objs
      | some c =>
        let x := isRecyclable cfg now c
        let r := cleanMap cfg now busy m (objs.set o x.1)
        (if x.2 then r.1 else (id, o) :: r.1, r.2)

/-- Request checks of Begin: `DoKvScanBegin`, `ValidateKvScanBeginRequest`,
`store_service.cc:1113-1161, 1402-1453`, then `ValidateLeader`,
`storage.cc:298-301, 377-380`.  `some`: the response. -/
def beginCheck (r : BeginReq) (leader : Bool) (th : Nat) : Option Out :=
  if r.ts < 0 then some (.refused th .illegal)
  else if r.start = [] ∨ r.stop = [] then some (.refused th .illegal)
  else if ¬ r.start < r.stop then some (.nothing th)
  else if leader = false then some (.refused th .notLeader)
  else none

/-- `CreateScan` with a free id: a new session object in the map. -/
def create (s : State) (id : Bytes) (r : BeginReq) (now : Int) : State :=
  { s with
    objs := s.objs ++ [{ last := now }]
    map := (id, s.objs.length) :: s.map
    ths := s.ths ++ [.opening s.objs.length id r] }

/-- A thread that has already answered. -/
def answer (s : State) : State := { s with ths := s.ths ++ [.done] }

/-- The next step of thread `i` standing at `pc`. -/
def goStep (cfg : Cfg) (s : State) (i : Nat) (t t' : Int) (busy : Bool) : Pc → State × List Out
  | .opening o id r =>
    match s.objs[o]? with
    | none => (s, [])
    | some c =>
      let x := openCtx c id r.ts
      match x.2 with
      | none => ({ s with objs := s.objs.set o x.1, ths := s.ths.set i (.begin o id r) }, [])
      | some e => ({ s with objs := s.objs.set o x.1, ths := s.ths.set i (.drop id e) }, [])
  | .begin o id r =>
    match s.objs[o]? with
    | none => (s, [])
    | some c =>
      let x := scanBegin cfg s.store t t' c r
      match x.2 with
      | .ok kvs _ =>
        ({ s with objs := s.objs.set o x.1, ths := s.ths.set i .done }, [.begun i o id r kvs])
      | .err e => ({ s with objs := s.objs.set o x.1, ths := s.ths.set i (.drop id e) }, [])
      | .crash => ({ s with dead := true }, [.crash])
  | .cont o id max =>
    match s.objs[o]? with
    | none => (s, [])
    | some c =>
      let x := scanContinue cfg t' c id max
      match x.2 with
      | .ok kvs more =>
        ({ s with objs := s.objs.set o x.1, ths := s.ths.set i .done }, [.page i o id max kvs more])
      | .err e => ({ s with objs := s.objs.set o x.1, ths := s.ths.set i (.drop id e) }, [])
      | .crash => ({ s with dead := true }, [.crash])
  | .rel o id =>
    match s.objs[o]? with
    | none => (s, [])
    | some c =>
      let x := scanRelease t' c id
      match x.2 with
      | .ok _ _ => ({ s with objs := s.objs.set o x.1, ths := s.ths.set i (.tryDel o id) }, [])
      | .err e => ({ s with objs := s.objs.set o x.1, ths := s.ths.set i (.drop id e) }, [])
      | .crash => ({ s with dead := true }, [.crash])
  | .drop id e => ({ s with map := erase s.map id, ths := s.ths.set i .done }, [.refused i e])
  | .tryDel o0 id =>
    -- `TryDeleteScan`, `scan/scan_manager.cc:143-154, 264-275`
    let s1 := { s with ths := s.ths.set i .done }
    match find s.map id with
    | none => (s1, [.released i o0 id])
    | some o =>
      if busy then (s1, [.released i o0 id])
      else
        match s.objs[o]? with
        | none => (s1, [.released i o0 id])
        | some c =>
          let x := isRecyclable cfg t c
          ({ s1 with objs := s.objs.set o x.1, map := if x.2 then erase s.map id else s.map },
            [.released i o0 id])
  | .done => (s, [])

/-- One event. -/
def step (cfg : Cfg) (s : State) (e : Ev) : State × List Out :=
  if s.dead then (s, [])
  else
    match e with
    | .data st => ({ s with store := st }, [])
    | .beginV1 guids r now leader =>
      match beginCheck r leader s.ths.length with
      | some out => (answer s, [out])
      | none =>
        -- `ScanManager::CreateScan`, `scan/scan_manager.cc:98-120`: draws ids until
        -- one is neither empty nor in use; still drawing if none here is
        match guids.find? (fun g => g ≠ [] ∧ find s.map g = none) with
        | none => (s, [])
        | some id => (create s id r now, [])
    | .beginV2 id r now leader =>
      match beginCheck r leader s.ths.length with
      | some out => (answer s, [out])
      | none =>
        -- `ScanManagerV2::CreateScan`, `scan/scan_manager.cc:225-241`
        match find s.map id with
        | some _ => (answer s, [.refused s.ths.length .illegal])
        | none => (create s id r now, [])
    | .cont id max =>
      -- `ValidateKvScanContinueRequest`, `store_service.cc:1219-1236, 1511-1529`
      -- (`scan_id` empty: only V1 checks; `ScanContinue` does again)
      if id = [] then (answer s, [.refused s.ths.length .illegal])
      else if max = 0 then (answer s, [.refused s.ths.length .keyEmpty])
      else
        -- `FindScan`, `storage.cc:332-337, 416-422`
        match find s.map id with
        | none => (answer s, [.refused s.ths.length .notFound])
        | some o => ({ s with ths := s.ths ++ [.cont o id max] }, [])
    | .release id =>
      if id = [] then (answer s, [.refused s.ths.length .illegal])
      else
        match find s.map id with
        | none => (answer s, [.refused s.ths.length .notFound])
        | some o => ({ s with ths := s.ths ++ [.rel o id] }, [])
    | .go i t t' busy =>
      match s.ths[i]? with
      | none => (s, [])
      | some pc => goStep cfg s i t t' busy pc
    | .clean now busy =>
      let r := cleanMap cfg now busy s.map s.objs
      ({ s with map := r.1, objs := r.2 }, [])

/-- A run: final state and all responses in order. -/
def run (cfg : Cfg) : State → List Ev → State × List Out
  | s, [] => (s, [])
  | s, e :: es =>
    let x := step cfg s e
    let y := run cfg x.1 es
    (y.1, x.2 ++ y.2)

end Verif.Scan
