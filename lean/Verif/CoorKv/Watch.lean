import Verif.CoorKv.Model
import Verif.CoorKv.Spec

/-!
# One-time watches (model)

`coordinator/kv_control_watch.cc` with the thread that applies entries
(`kv_control_kv.cc:565-886`, `kv_control_fsm.cc:327-595`).  One step is one access to shared
memory: the apply thread draws a revision, writes index and record, looks whether there are
watches, without the mutex, and fires under the mutex; a watch request takes the mutex and reads
the present revision, reads the key, and registers.  Any interleaving of these is allowed.
Simplified: the writes of one operation are one step (record before index for a put, so a reader
who finds the new index finds its record; a delete removes the key with its first write), and so
are the two reads of `KvRange`.  `one_time_watch_map_` is the list of its nodes: the code drops
the key of a node map that became empty.  Left out: crashes, which end all connections.
-/

namespace Verif.CoorKv.Watch
attribute [-instance] Verif.Txn.instDecidableLt_verif Verif.Txn.KeyOrder.toLT
open Verif.Codec (Bytes)

/-! ### What clients are told about -/

/-- A change of a key: a put that is not refused, or a delete, at a revision; the key before and
after. -/
structure Change where
  key : Bytes
  put : Bool
  rev : Int
  before : Option Item
  after : Option Item

/-- The change one operation makes, in terms of the specified map. -/
def changeOf (m : Int) (S : Spec) : Op → List Change
  | .put k il l iv v =>
    let lease := if il then ((S.map k).map (·.lease)).getD 0 else l
    if 0 < lease ∧ S.leases lease = none then []
    else [⟨k, true, m, S.map k, (S.op m (.put k il l iv v)).map k⟩]
  | .delete k => [⟨k, false, m, S.map k, none⟩]
  | .compact _ _ => []

/-- The key after the changes of a log. -/
def stateAt (log : List Change) (k : Bytes) : Option Item :=
  (log.filter fun c => decide (c.key = k)).getLast?.bind (·.after)

/-- A watch request (`pb::version::OneTimeWatchRequest`); `start = 0` is "from now on". -/
structure Ask where
  key : Bytes
  start : Int
  noPut : Bool
  noDelete : Bool
  needPrev : Bool
  waitNew : Bool

/-- What a watch is to be answered with. -/
def Due (a : Ask) (c : Change) : Prop :=
  c.key = a.key ∧ (c.put = true ∨ c.before.isSome = true) ∧ ¬ (c.put = true ∧ a.noPut = true) ∧
    ¬ (c.put = false ∧ a.noDelete = true) ∧ (a.start = 0 ∨ a.start ≤ c.rev)

inductive Answer where
  | event (put : Bool) (kv : Kv) (prev : Option Kv)
  | notExists
  /-- A response without an event: too many watches, cancelled, or the leader stepped down. -/
  | nothing
  deriving DecidableEq

/-- `pb::version::Kv` with no field set. -/
def Kv.unset : Kv := ⟨[], [], 0, 0, 0, 0⟩

/-- The key as an event for the change shows it. -/
def Shows (c : Change) (kv : Kv) : Prop :=
  if c.put then ∃ x, c.after = some x ∧ kv = answer false (c.key, x)
  else kv.key = c.key ∧ kv.value = [] ∧ kv.lease = 0 ∧ kv.mod = c.rev

/-- The previous state of the key as events show it: the version is one too high
(`C35_prev_version_false`). -/
def prevShown (c : Change) : Kv :=
  match c.before with
  | none => Kv.unset
  | some x => { answer false (c.key, x) with version := x.version + 1 }

/-- The revision a request asks for changes from; 0 is the revision at the time of the request. -/
def Ask.from (a : Ask) (present : Int) : Int := if a.start = 0 then present else a.start

/-- Nothing the request is to be answered with among the changes from `lo` to `hi`. -/
def NoDue (log : List Change) (lo hi : Nat) (a : Ask) : Prop :=
  ∀ i c, lo ≤ i → i < hi → log[i]? = some c → ¬ Due a c

/-- What justifies an answer to a request from the revision `start` on that read the key after `p`
changes: the key's state at that time, past the start revision, or a change that the request asks for, later or the last one then, and, if
`P`, the first such change. -/
def Right (P : Prop) (log : List Change) (a : Ask) (start : Int) (p : Nat) : Answer → Prop
  | .event put kv prev =>
    (put = true ∧ prev = none ∧
      ∃ x, stateAt (log.take p) a.key = some x ∧ start < x.mod ∧ kv = answer false (a.key, x)) ∨
    (∃ i c, p ≤ i + 1 ∧ log[i]? = some c ∧ c.key = a.key ∧ c.put = put ∧ ¬ (put = true ∧ a.noPut = true) ∧
      ¬ (put = false ∧ a.noDelete = true) ∧ start ≤ c.rev ∧ Shows c kv ∧
      prev = (if a.needPrev then some (prevShown c) else none) ∧ (P → NoDue log p i a))
  | .notExists => a.waitNew = false ∧ stateAt (log.take p) a.key = none
  | .nothing => True

/-! ### The code -/

/-- `KvWatchNode` and its place in the map; `req` is the number of the request (not in the code). -/
structure Node' where
  id : Nat
  req : Nat
  ask : Ask
  start : Int

/-- `DeferDone`: `done` is whether `Done` has been called. -/
structure Closure where
  id : Nat
  req : Nat
  key : Bytes
  done : Bool

/-- The request that holds the mutex; `seen` once it has read the key and is going to register. -/
structure Holder where
  req : Nat
  ask : Ask
  start : Int
  seen : Bool

/-- The event `KvPutApply` and `KvDeleteApply` build. -/
structure Event where
  key : Bytes
  put : Bool
  kv : Kv
  prev : Kv

inductive Stage where
  | ready
  /-- The revision is drawn. -/
  | drawn
  | written (e : Option Event)
  /-- The map was not empty. -/
  | checked (e : Event)

/-- An entry being applied. -/
structure Job where
  main : Option Int
  sub : Int
  ops : List Op
  leaseIds : List Int
  term : Int
  index : Int
  stage : Stage

/-- The leader.  Not in the code: `asked` counts the requests, `asks`, `present` and `reads` are the
requests and, for each, the revision when it was made and how long the log was when it read the key; `answers` is what clients were sent;
`log` and `spec` are what the operations applied so far mean. -/
structure St where
  node : Node
  job : Option Job
  holder : Option Holder
  seq : Nat
  watches : List Node'
  closures : List Closure
  aborted : Bool
  asked : Nat
  asks : Nat → Option Ask
  present : Nat → Int
  reads : Nat → Option Nat
  answers : List (Nat × Answer)
  log : List Change
  spec : Spec

def St.init : St :=
  { node := .init, job := none, holder := none, seq := 1000, watches := [], closures := [], aborted := false, asked := 0
    asks := fun _ => none, present := fun _ => 0, reads := fun _ => none, answers := [], log := [], spec := .init }

/-- `prev_kv`, `kv_control_kv.cc:634-637`, `724-728` and `799-802`, `866-870`: the version is read
after it has been counted up. -/
def prevOf (s : Node) (k : Bytes) : Kv :=
  match s.index.get k with
  | none => Kv.unset
  | some i =>
    match i.gens.getLast? with
    | none => Kv.unset
    | some g =>
      match g.create with
      | none => Kv.unset
      | some c =>
        if 0 < c.main then ⟨k, (s.record i.mod).value, c.main, i.mod.main, g.version + 1, (s.record i.mod).lease⟩
        else ⟨[], [], c.main, i.mod.main, g.version + 1, 0⟩

/-- The writes of one operation and the event it has for watches, `kv_control_kv.cc:565-745`,
`747-886`. -/
def opWrite (s : Node) (r : Rev) : Op → Node × Option Event
  | .put k il l iv v =>
    let t := putApply s k r il l iv v
    let s' := t.1.getLastD s
    (s', if t.2 then some ⟨k, true, (s'.record r).toKv false, prevOf s k⟩ else none)
  | .delete k =>
    match s.index.get k with
    | none => (s, none)
    | some i =>
      ((deleteApply s k r).getLastD s,
        some ⟨k, false, ⟨k, [], (delIndex i r).2.1.main, r.main, (delIndex i r).2.2, 0⟩, prevOf s k⟩)
  | .compact _ _ => (s, none)

/-- `RemoveOneTimeWatchWithLock`, `kv_control_watch.cc:149-197`, the response being `a`.  The closure
stays in `one_time_watch_closure_map_`. -/
def St.remove (st : St) (id : Nat) (a : Answer) : St :=
  match st.closures.find? (fun c => c.id = id) with
  | none => st
  | some c =>
    { st with
      closures := st.closures.map fun c' => if c'.id = id then { c' with done := true } else c'
      answers := if c.done then st.answers else st.answers ++ [(c.req, a)]
      watches := st.watches.filter fun w => ¬ (w.id = id ∧ w.ask.key = c.key) }

/-- Whether a node is answered, `kv_control_watch.cc:290-307`. -/
def Node'.fires (w : Node') (e : Event) : Bool :=
  decide (w.ask.key = e.key) && !(w.ask.noPut && e.put) && !(w.ask.noDelete && !e.put) && !decide (e.kv.mod < w.start)

/-- `TriggerOneWatch`, `kv_control_watch.cc:271-369`; a node without a closure is fatal. -/
def St.trigger (st : St) (e : Event) : St :=
  (st.watches.filter (·.fires e)).foldl
    (fun st w =>
      if (st.closures.find? (fun c => c.id = w.id)).isSome then
        st.remove w.id (.event e.put e.kv (if w.ask.needPrev then some e.prev else none))
      else { st with aborted := true })
    st

/-- The next operation of the entry. -/
def Job.next (j : Job) : Job := { j with ops := j.ops.tail, sub := j.sub + 1, stage := .ready }

inductive Ev where
  -- the apply thread
  | begin (e : Entry)
  | draw
  | write
  | check
  | fire
  | finish
  -- a watch request
  | lock (a : Ask)
  | read
  | register
  -- a cancelled request is removed
  | drop (id : Nat)
  -- the leader stops and starts leading
  | stop
  | start

/-- The configuration: `FLAGS_max_kv_key_size` and `FLAGS_version_watch_max_count`. -/
structure Conf where
  maxKey : Nat
  maxWatches : Nat

/-- `ApplyMetaIncrement`, `kv_control_fsm.cc:327-595`, up to the operations. -/
def St.begin (st : St) (e : Entry) : St :=
  if st.job.isSome ∨ st.node.skips e = true then st
  else
    { st with
      node := e.inc.leases.foldl leaseApply st.node
      spec := e.inc.leases.foldl Spec.lease st.spec
      job := some ⟨none, 1, e.inc.ops, e.inc.leaseIds, e.term, e.index, .ready⟩ }

/-- Drawing the revision of the next operation, `kv_control_fsm.cc:450-456`, `478-484`. -/
def St.draw (st : St) : St :=
  match st.job with
  | some ⟨main, sub, o :: ops, ids, term, index, .ready⟩ =>
    if o.draws then
      { st with
        node := (drawRev st.node main sub).1
        job := some ⟨some (drawRev st.node main sub).2.main, sub, o :: ops, ids, term, index, .drawn⟩ }
    else st
  | _ => st

/-- The writes of an operation; compactions fire nothing. -/
def St.write (st : St) : St :=
  match st.job with
  | some ⟨some m, sub, o :: ops, ids, term, index, .drawn⟩ =>
    { st with
      node := (opWrite st.node ⟨m, sub⟩ o).1
      job := some ⟨some m, sub, o :: ops, ids, term, index, .written (opWrite st.node ⟨m, sub⟩ o).2⟩
      log := st.log ++ changeOf m st.spec o
      spec := st.spec.op m o }
  | some ⟨main, sub, .compact k v :: ops, ids, term, index, .ready⟩ =>
    { st with
      node := (compactApply st.node k v).getLastD st.node
      job := some ⟨main, sub, ops, ids, term, index, .ready⟩ }
  | _ => st

/-- `if (!one_time_watch_map_.empty())`, `kv_control_kv.cc:720`, `862`, without the mutex. -/
def St.check (st : St) : St :=
  match st.job with
  | some j =>
    match j.stage with
    | .written none => { st with job := some j.next }
    | .written (some e) =>
      if st.watches.isEmpty then { st with job := some j.next } else { st with job := some { j with stage := .checked e } }
    | _ => st
  | none => st

def St.fire (st : St) : St :=
  match st.job, st.holder with
  | some j, none =>
    match j.stage with
    | .checked e => { st.trigger e with job := some j.next }
    | _ => st
  | _, _ => st

/-- The end of the entry, `kv_control_fsm.cc:527-594`. -/
def St.finish (st : St) : St :=
  match st.job with
  | some ⟨main, _, [], ids, term, index, .ready⟩ =>
    { st with
      node := Verif.CoorKv.finish st.node main ids term index
      job := none
      spec := { st.spec with rev := if main.isSome then st.spec.rev + 1 else st.spec.rev } }
  | _ => st

/-- `OneTimeWatch` up to reading the key, `kv_control_watch.cc:57-74`. -/
def St.lock (c : Conf) (st : St) (a : Ask) : St :=
  if st.holder.isSome then st
  else
    let st := { st with
      asked := st.asked + 1
      asks := fun r => if r = st.asked then some a else st.asks r
      present := fun r => if r = st.asked then st.node.memRev.getD 0 else st.present r }
    if c.maxWatches < (st.watches.map (·.ask.key)).eraseDups.length then
      { st with answers := st.answers ++ [(st.asked - 1, .nothing)] }
    else
      { st with
        holder := some ⟨st.asked - 1, a, if a.start = 0 then st.node.memRev.getD 0 else a.start, false⟩ }

/-- `OneTimeWatch`, `kv_control_watch.cc:77-101`. -/
def St.read (c : Conf) (st : St) : St :=
  match st.holder with
  | some h =>
    if h.seen then st
    else
      let st := { st with reads := fun r => if r = h.req then some st.log.length else st.reads r }
      match (kvRange c.maxKey st.node h.ask.key [] 1 false false).kvs.head? with
      | none =>
        if h.ask.waitNew then { st with holder := some { h with seen := true } }
        else { st with holder := none, answers := st.answers ++ [(h.req, .notExists)] }
      | some kv =>
        if h.start < kv.mod then { st with holder := none, answers := st.answers ++ [(h.req, .event true kv none)] }
        else { st with holder := some { h with seen := true } }
  | none => st

/-- `OneTimeWatch` and `AddOneTimeWatch`, `kv_control_watch.cc:104-147`. -/
def St.register (st : St) : St :=
  match st.holder with
  | some h =>
    if h.seen then
      { st with
        holder := none
        seq := st.seq + 1
        closures := ⟨st.seq, h.req, h.ask.key, false⟩ :: st.closures
        watches := ⟨st.seq, h.req, h.ask, h.start⟩ :: st.watches }
    else st
  | none => st

def St.step (c : Conf) (st : St) : Ev → St
  | .begin e => st.begin e
  | .draw => st.draw
  | .write => st.write
  | .check => st.check
  | .fire => st.fire
  | .finish => st.finish
  | .lock a => st.lock c a
  | .read => st.read c
  | .register => st.register
  -- `RemoveOneTimeWatch`, `kv_control_watch.cc:207-269`, of any request
  | .drop id => if st.holder.isSome then st else st.remove id .nothing
  -- `OnLeaderStop`, `kv_control_fsm.cc:94-111`
  | .stop =>
    if st.holder.isSome then st
    else
      { st with
        answers := st.answers ++ ((st.closures.filter fun c => !c.done).map fun c => (c.req, .nothing))
        watches := []
        closures := [] }
  -- `OnLeaderStart`, `kv_control_fsm.cc:72-92`
  | .start => if st.holder.isSome then st else { st with watches := [], closures := [] }

def run (c : Conf) (st : St) (evs : List Ev) : St := evs.foldl (St.step c) st

end Verif.CoorKv.Watch
