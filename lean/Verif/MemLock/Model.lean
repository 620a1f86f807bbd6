/-!
# Reads against async-commit and one-phase prewrites in one region

Step-by-step model of the threads that race when the store, not the client, picks a commit
timestamp: snapshot reads (`DoTxnGet`, `DoTxnScan`, `DoTxnBatchGet`), prewrites (`DoTxnPrewrite` and
`DoTxnPrewriteVector`), and the requests that change locks on disk.  Every event is one step that is
atomic in the code; a run is any list of events.

Files: src/engine/concurrency_manager.cc, src/engine/txn_engine_helper.cc,
src/server/store_service.cc, src/server/index_service.cc, src/meta/store_meta_manager.h,
src/handler/raft_apply_handler.cc.

Simplifications: timestamps are unbounded integers; values are left out; only snapshot isolation
reads appear (other reads skip `CheckKeys`, store_service.cc:1704); a refused mutation ends the
prewrite at once (the code goes through the others and then returns without writing,
txn_engine_helper.cc:3234-3247); the reasons of refusal that do not look at locks are the event
`fail`.
-/

namespace Verif.MemLock

abbrev Key := List UInt8

/-- The fields of `pb::store::LockInfo` that matter: `lock_ts`, `for_update_ts`, `min_commit_ts`,
`use_async_commit`, and whether `lock_type` is `Op::Lock` (a pessimistic lock). -/
structure Lock where
  ts : Int
  fut : Int
  min : Int
  async : Bool
  pess : Bool
  deriving DecidableEq, Repr

/-- `ConcurrencyManager::LockEntry`, src/engine/concurrency_manager.h:36-46.  `ready` is false while
the prewriter holds `rw_lock` for writing; `deleted` is `is_deleted`. -/
structure Entry where
  key : Key
  lock : Lock
  ready : Bool
  deleted : Bool
  deriving DecidableEq, Repr

/-- A write record.  `chosen` says that the commit timestamp came from the store: a one-phase
commit, or the commit of an async-commit lock. -/
structure Rec where
  key : Key
  commit : Int
  start : Int
  chosen : Bool
  deriving DecidableEq, Repr

/-- Where a reader stands.  `checking l`: `l` are the memory locks still to look at.  `served`: it
answered from the snapshot `snap` of the write records. -/
inductive RPhase where
  | begun
  | raised
  | checking (todo : List Nat)
  | served (got : Key → Bool) (snap : List Rec)
  | memory (e : Nat)
  | refused

/-- A snapshot read at `ts` of the keys `sel`: one key, several keys or a range.  `resolved` is
`context.resolved_locks`. -/
structure Reader where
  ts : Int
  sel : Key → Bool
  resolved : List Int
  phase : RPhase

/-- `CheckNotExists` takes no lock. -/
inductive Op where
  | put
  | delete
  | check
  deriving DecidableEq, Repr

/-- A mutation with its `pessimistic_checks` flag and its `for_update_ts_checks` entry. -/
structure Mut where
  key : Key
  op : Op
  pess : Bool
  fut : Option Int
  deriving DecidableEq, Repr

/-- The service that takes the request: `StoreServiceImpl::TxnPrewrite`, or
`IndexServiceImpl::TxnPrewrite` / `DocumentServiceImpl::TxnPrewrite`. -/
inductive Svc where
  | store
  | index
  deriving DecidableEq, Repr

/-- `TxnPrewriteRequest`.  `async` is `use_async_commit` with `secondaries` not empty
(store_service.cc:2264, txn_engine_helper.cc:2792-2795). -/
structure Req where
  svc : Svc
  start : Int
  muts : List Mut
  onePc : Bool
  async : Bool
  min : Int
  max : Int
  deriving DecidableEq, Repr

/-- A lock that a prewrite is about to write; `pess` is `need_check_pessimistic_lock`. -/
structure Done where
  key : Key
  lock : Lock
  pess : Bool
  deriving DecidableEq, Repr

inductive PPhase where
  | run
  | sent
  | applied
  | failed
  | ended
  deriving DecidableEq, Repr

/-- A prewrite under way.  `cur` is the memory lock it holds for writing, with the mutation and the
lock it is for. -/
structure Pw where
  req : Req
  todo : List Mut
  onePc : Bool
  async : Bool
  final : Int
  done : List Done
  cur : Option (Nat × Mut × Lock)
  phase : PPhase
  deriving DecidableEq, Repr

/-- A region.  `maxTs n` is `txn_access_max_ts_` on node `n` (memory only), `table` is
`lock_table_` of the leader, `entries` are all the memory locks ever made on it, `locks` and
`writes` are the lock and write column families. -/
structure Sys where
  maxTs : Nat → Int
  leader : Nat
  table : List (Key × Nat)
  entries : List Entry
  readers : List Reader
  pws : List Pw
  locks : List (Key × Lock)
  writes : List Rec

/-- A region just created. -/
def init : Sys := ⟨fun _ => 0, 0, [], [], [], [], [], []⟩

/-- `TxnEngineHelper::CheckLockConflict` for snapshot isolation,
src/engine/txn_engine_helper.cc:1063-1099. -/
def conflict (l : Lock) (ts : Int) (resolved : List Int) : Bool :=
  if resolved.contains l.ts then false
  else if l.min > ts then false
  else if l.ts > 0 then
    if l.fut > 0 then decide (l.fut < ts) else decide (l.ts < ts)
  else false

/-- Insert or overwrite a map entry. -/
def assign {α : Type} (m : List (Key × α)) (k : Key) (v : α) : List (Key × α) :=
  (k, v) :: m.filter (fun p => p.1 != k)

/-- Look up a map entry. -/
def lookup {α : Type} (m : List (Key × α)) (k : Key) : Option α :=
  (m.find? (fun p => p.1 == k)).map (·.2)

/-- Remove a map entry. -/
def erase {α : Type} (m : List (Key × α)) (k : Key) : List (Key × α) :=
  m.filter (fun p => p.1 != k)

/-- `Region::SetTxnAccessMaxTs`, src/meta/store_meta_manager.h:188-199. -/
def raiseMax (m : Nat → Int) (n : Nat) (ts : Int) : Nat → Int :=
  fun i => if i = n then (if m n < ts then ts else m n) else m i

/-- What the latch of a mutation is taken on.  The store service and every other request use the
key (store_service.cc:2223-2226); the prewrite of the vector and of the document service uses the
decimal id out of `mutation.vector()` or `mutation.document()` (index_service.cc:3004-3007,
document_service.cc:1674-1677), which only a put has to carry (index_service.cc:2893-2977), so it is
"0" for the others.  `(false, k)` is a key and `(true, k)` the decimal id of key `k`. -/
def latchOf (svc : Svc) (m : Mut) : Bool × Key :=
  match svc with
  | .store => (false, m.key)
  | .index => if m.op = .put then (true, m.key) else (true, [])

def latches (r : Req) : List (Bool × Key) := r.muts.map (latchOf r.svc)

/-- Is none of these latches held?  `LatchesAcquire` waits until it is so (C37). -/
def free (s : Sys) (l : List (Bool × Key)) : Bool :=
  s.pws.all (fun p => p.phase = .ended || (latches p.req).all (fun x => !l.contains x))

/-- What the check of the lock on disk says, src/engine/txn_engine_helper.cc:2829-3033. -/
inductive Admit where
  | refuse
  | again
  | go
  deriving DecidableEq, Repr

/-- txn_engine_helper.cc:2852-2949 for a mutation that is not pessimistic, 2951-3033 for one that
is. -/
def admit (m : Mut) (start : Int) (prev : Option Lock) : Admit :=
  match prev with
  | none => .go
  | some l =>
    if !m.pess then
      if l.pess then .refuse else if l.ts = start then .again else .refuse
    else if l.ts = start then
      if !l.pess then .again
      else match m.fut with
        | some f => if l.fut = f then .go else .refuse
        | none => .go
    else .refuse

/-- The lock put together for a mutation, txn_engine_helper.cc:2233-2257 (the same for deletes,
2404-2422).  A pessimistic lock found on disk is copied first, so its `for_update_ts` and
`min_commit_ts` are kept. -/
def build (r : Req) (async : Bool) (prev : Option Lock) : Lock :=
  let m := match prev with | none => 0 | some l => l.min
  ⟨r.start, match prev with | none => 0 | some l => l.fut, if m < r.min then r.min else m, async,
    false⟩

/-- One round of the loop of `Prewrite`, txn_engine_helper.cc:2816-3225, up to the point where
`GenFinalMinCommitTs` has put the new entry in the table (2185-2188). -/
def next (s : Sys) (i : Nat) (p : Pw) (m : Mut) (rest : List Mut) : Sys :=
  let prev := lookup s.locks m.key
  let p' := { p with todo := rest }
  match admit m p.req.start prev with
  | .refuse => { s with pws := s.pws.set i { p' with phase := .failed } }
  | .again => { s with pws := s.pws.set i { p' with onePc := false, async := false } }
  | .go =>
    let both := p.onePc || p.async
    if m.op = .check then
      let t := p.req.start + 1
      let f := if both then (if p.final < t then t else p.final) else 0
      { s with pws := s.pws.set i { p' with final := f } }
    else
      let l := build p.req p.async prev
      let done := p.done.filter (fun d => d.key != m.key)
      if both then
        { s with
          entries := s.entries ++ [⟨m.key, l, false, false⟩]
          table := assign s.table m.key s.entries.length
          pws := s.pws.set i { p' with done := done, cur := some (s.entries.length, m, l) } }
      else
        { s with pws := s.pws.set i { p' with final := 0, done := ⟨m.key, l, m.pess⟩ :: done } }

/-- The rest of `GenFinalMinCommitTs`, txn_engine_helper.cc:2190-2206: read `txn_access_max_ts_`,
pick the timestamp, release the entry; then 2258-2278 and 3218-3224. -/
def fix (s : Sys) (i : Nat) (p : Pw) (e : Nat) (m : Mut) (l : Lock) : Sys :=
  let mc := max (s.maxTs s.leader) (max p.req.start (m.fut.getD 0)) + 1
  let fin := if p.req.max ≠ 0 ∧ mc > p.req.max then 0 else max mc l.min
  let l' := if fin > 0 then { l with min := fin } else l
  let entries := s.entries.set e ⟨m.key, l', true, false⟩
  if fin = 0 then
    { s with
      entries := entries
      pws := s.pws.set i
        { p with onePc := false, async := false, final := 0, cur := none,
                 done := ⟨m.key, { l' with async := false }, m.pess⟩ :: p.done } }
  else
    { s with
      entries := entries
      pws := s.pws.set i
        { p with final := if p.final < fin then fin else p.final, cur := none,
                 done := ⟨m.key, l', m.pess⟩ :: p.done } }

/-- The write records of a one-phase commit, `OnePCommit`, txn_engine_helper.cc:2468-2625. -/
def onePcRecs (p : Pw) : List Rec :=
  p.done.map (fun d => ⟨d.key, p.final, p.req.start, true⟩)

/-- The locks on disk after it: those of pessimistic mutations are deleted. -/
def onePcLocks (locks : List (Key × Lock)) (p : Pw) : List (Key × Lock) :=
  locks.filter (fun x => !p.done.any (fun d => d.pess && d.key == x.1))

/-- `FallbackTo1PCLocks` and `DoPreWrite`, txn_engine_helper.cc:2455-2466, 2627-2677. -/
def putLocks (locks : List (Key × Lock)) (d : List Done) : List (Key × Lock) :=
  d.foldl (fun m x => assign m x.key x.lock) locks

/-- The raft log entry of a prewrite is applied. -/
def apply (s : Sys) (i : Nat) (p : Pw) : Sys :=
  let q := { p with phase := PPhase.applied }
  if p.onePc then
    { s with
      writes := s.writes ++ onePcRecs p
      locks := onePcLocks s.locks p
      pws := s.pws.set i q }
  else
    { s with locks := putLocks s.locks p.done, pws := s.pws.set i q }

/-- `ConcurrencyManager::UnlockKeys`, src/engine/concurrency_manager.cc:30-40. -/
def unlockKeys (s : Sys) (keys : List Key) : Sys :=
  { s with
    entries := s.entries.mapIdx (fun e x =>
      if s.table.any (fun p => keys.contains p.1 && p.2 == e) then { x with deleted := true } else x)
    table := s.table.filter (fun p => !keys.contains p.1) }

/-- A prewrite returns: the store service takes its memory locks out (store_service.cc:2232), the
vector and the document service do not (index_service.cc:2986-3065, document_service.cc:1656-1736);
the latches are released. -/
def finish (s : Sys) (i : Nat) (p : Pw) : Sys :=
  let s1 := match p.req.svc with
    | .store => unlockKeys s (p.req.muts.map Mut.key)
    | .index => s
  { s1 with pws := s1.pws.set i { p with phase := .ended } }

inductive Ev where
  /-- A request that is refused later, or a commit, check or resolve request, raises
  `txn_access_max_ts_` on the node it reached. -/
  | touch (n : Nat) (ts : Int)
  | begin (ts : Int) (sel : Key → Bool) (resolved : List Int)
  | raise (i : Nat)
  | look (i : Nat)
  | check (i : Nat) (skip : Bool)
  | serve (i : Nat) (got : Key → Bool)
  | drop (i : Nat)
  | prewrite (r : Req)
  | next (i : Nat)
  | fix (i : Nat)
  | send (i : Nat)
  | apply (i : Nat)
  | lose (i : Nat)
  | fail (i : Nat)
  | finish (i : Nat)
  | plock (k : Key) (start fut : Int)
  | commit (k : Key) (start commit : Int)
  | rollback (k : Key) (start : Int)
  | push (k : Key) (start ts : Int)
  | lead (n : Nat)
  | copy (m n : Nat)
  | move (n : Nat)

def setPhase (s : Sys) (i : Nat) (r : Reader) (ph : RPhase) : Sys :=
  { s with readers := s.readers.set i { r with phase := ph } }

/-- The steps of a reader: `SetTxnAccessMaxTs` (store_service.cc:1686); the table is read under its
lock (concurrency_manager.cc:44-56, 78-90); each entry found is skipped if deleted, else looked at
when its `rw_lock` can be had (58-68); the locks and write records are read from one snapshot of
the engine (txn_engine_helper.cc:1223-1330, TxnReader).  `got` is the part of `sel` that is read: a
scan stops at its limit.  The deletion mark is read before the `rw_lock` is had, so an entry may
also be looked at though it is deleted by then (`skip` false). -/
def readerStep (s : Sys) (i : Nat) (r : Reader) : Ev → Sys
  | .raise _ =>
    match r.phase with
    | .begun => setPhase { s with maxTs := raiseMax s.maxTs s.leader r.ts } i r .raised
    | _ => s
  | .look _ =>
    match r.phase with
    | .raised => setPhase s i r (.checking ((s.table.filter (fun p => r.sel p.1)).map (·.2)))
    | _ => s
  | .check _ skip =>
    match r.phase with
    | .checking (e :: rest) =>
      match s.entries[e]? with
      | none => s
      | some x =>
        if skip && x.deleted then setPhase s i r (.checking rest)
        else if !x.ready then s
        else if conflict x.lock r.ts r.resolved then setPhase s i r (.memory e)
        else setPhase s i r (.checking rest)
    | _ => s
  | .serve _ got =>
    match r.phase with
    | .checking [] =>
      if s.locks.any (fun p => r.sel p.1 && got p.1 && conflict p.2 r.ts r.resolved) then
        setPhase s i r .refused
      else setPhase s i r (.served got s.writes)
    | _ => s
  | .drop _ =>
    match r.phase with
    | .served _ _ => s
    | .memory _ => s
    | _ => setPhase s i r .refused
  | _ => s

/-- The steps of a prewrite. -/
def pwStep (s : Sys) (i : Nat) (p : Pw) : Ev → Sys
  | .next _ =>
    match p.phase, p.cur, p.todo with
    | .run, none, m :: rest => Verif.MemLock.next s i p m rest
    | _, _, _ => s
  | .fix _ =>
    match p.phase, p.cur with
    | .run, some (e, m, l) => Verif.MemLock.fix s i p e m l
    | _, _ => s
  | .send _ =>
    match p.phase, p.cur, p.todo with
    | .run, none, [] => { s with pws := s.pws.set i { p with phase := .sent } }
    | _, _, _ => s
  | .apply _ =>
    match p.phase with
    | .sent => Verif.MemLock.apply s i p
    | _ => s
  | .lose _ =>
    match p.phase with
    | .sent => { s with pws := s.pws.set i { p with phase := .failed } }
    | _ => s
  | .fail _ =>
    match p.phase, p.cur with
    | .run, none => { s with pws := s.pws.set i { p with phase := .failed } }
    | _, _ => s
  | .finish _ =>
    match p.phase with
    | .applied => Verif.MemLock.finish s i p
    | .failed => Verif.MemLock.finish s i p
    | _ => s
  | _ => s

/-- The threads of a node that is no longer the leader end without answering; its memory locks are
not consulted again. -/
def endReader (r : Reader) : Reader :=
  match r.phase with
  | .served _ _ => r
  | .memory _ => r
  | _ => { r with phase := .refused }

/-- When the keys move to another region of the same node, requests that have not been validated
are refused for their epoch (store_service.cc:1687), those that have been go on and read the engine
all the same.  Simplified: a reader with memory locks left to look at passes them; they are of
prewrites whose log entries are refused from now on. -/
def moveReader (r : Reader) : Reader :=
  match r.phase with
  | .begun => { r with phase := .refused }
  | .raised => { r with phase := .refused }
  | .checking _ => { r with phase := .checking [] }
  | _ => r

/-- One event. -/
def step (s : Sys) (ev : Ev) : Sys :=
  match ev with
  | .touch n ts => { s with maxTs := raiseMax s.maxTs n ts }
  | .begin ts sel resolved => { s with readers := s.readers ++ [⟨ts, sel, resolved, .begun⟩] }
  | .raise i | .look i | .check i _ | .serve i _ | .drop i =>
    match s.readers[i]? with
    | none => s
    | some r => readerStep s i r ev
  | .prewrite r =>
    if r.start ≠ 0 ∧ free s (latches r) then
      { s with pws := s.pws ++ [⟨r, r.muts, r.onePc, r.async, 0, [], none, .run⟩] }
    else s
  | .next i | .fix i | .send i | .apply i | .lose i | .fail i | .finish i =>
    match s.pws[i]? with
    | none => s
    | some p => pwStep s i p ev
  /- `PessimisticLock`, txn_engine_helper.cc:1684-1968: under the latch of the key; a lock of the
  same transaction is taken over with a later `for_update_ts`. -/
  | .plock k start fut =>
    if free s [(false, k)] then
      match lookup s.locks k with
      | none => { s with locks := assign s.locks k ⟨start, fut, 0, false, true⟩ }
      | some l =>
        if l.ts = start ∧ l.pess then
          { s with locks := assign s.locks k { l with fut := if l.fut < fut then fut else l.fut } }
        else s
    else s
  /- `Commit`, txn_engine_helper.cc:3343-3375 and `DoTxnCommit`; `ResolveLock` with a commit
  timestamp does the same without looking at `min_commit_ts`, and here the client sends one that is
  large enough.  Simplified: evaluated and applied in one step; the code holds the latch of the key in
  between. -/
  | .commit k start commit =>
    match lookup s.locks k with
    | none => s
    | some l =>
      if l.ts = start ∧ l.pess = false ∧ l.min ≤ commit ∧ start < commit then
        { s with
          locks := erase s.locks k
          writes := s.writes ++ [⟨k, commit, start, l.async⟩] }
      else s
  /- `BatchRollback`, `PessimisticRollback`, `ResolveLock` without a commit timestamp,
  `CheckTxnStatus` on a lock that has expired. -/
  | .rollback k start =>
    match lookup s.locks k with
    | none => s
    | some l => if l.ts = start then { s with locks := erase s.locks k } else s
  /- `CheckTxnStatus`, txn_engine_helper.cc:3789-3815: the maximum is raised first
  (store_service.cc:2466-2472), then, under the latch of the key (2484-2486), `min_commit_ts`.
  Simplified: in one step. -/
  | .push k start ts =>
    if free s [(false, k)] then
      { s with
        maxTs := raiseMax s.maxTs s.leader ts
        locks := match lookup s.locks k with
          | none => s.locks
          | some l =>
            if l.ts = start ∧ l.min < ts then assign s.locks k { l with min := ts } else s.locks }
    else s
  | .lead n =>
    { s with
      leader := n
      table := []
      readers := s.readers.map endReader
      pws := s.pws.map (fun p => { p with phase := .ended }) }
  /- `to_region->SetTxnAccessMaxTs(from_region->TxnAccessMaxTs())`,
  src/handler/raft_apply_handler.cc:306, 571, 982-983.  Region `n` is the child of a split or the
  target of a merge, `m` the parent or the source; a region's maximum is kept like that of a node. -/
  | .copy m n => { s with maxTs := raiseMax s.maxTs n (s.maxTs m) }
  /- The epochs and ranges are updated, raft_apply_handler.cc:317-321, 577, 964-974: from now on the
  keys are served by region `n`, and log entries of prewrites that carry the old epoch are
  refused. -/
  | .move n =>
    { s with
      leader := n
      table := []
      readers := s.readers.map moveReader
      pws := s.pws.map (fun p => { p with phase := .ended }) }

def run (s : Sys) (evs : List Ev) : Sys := evs.foldl step s

end Verif.MemLock
