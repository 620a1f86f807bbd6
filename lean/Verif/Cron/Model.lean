/-!
# Periodic work of servers (model)

`crontab/crontab.{h,cc}`, the list of periodic work in `server/server.cc:507-842`, and the guards of
garbage collection against a second run (`engine/txn_engine_helper.cc:5889-5898, 5953-5962`).

* Times are milliseconds since the start.  A timer may be late by any time, never early.
* A chain is a bthread or timer that carries `CrontabManager::Run` from one run to the next; only
  `StartCrontab` begins chains.
* Memory that is freed (`crontabs_.erase`: the timer holds a bare pointer) is the flag `alive`; its
  use afterwards is the outcome `fault`.
* `async` work: the function called starts a bthread and returns, so its call is short; the work
  itself is `bodies`.
-/

namespace Verif.Cron

/-- What is fixed of a `Crontab`. -/
structure Job where
  interval : Nat
  /-- `max_times`, 0 for no limit -/
  max : Nat
  async : Bool
deriving DecidableEq, Repr

/-- Where a chain is. -/
inductive Chain
  /-- the timer is set, due at a time -/
  | timer (due : Nat)
  /-- in `Run`, before line 31 -/
  | fresh
  /-- in the function, line 36 -/
  | running
  | done
deriving DecidableEq, Repr

/-- A `Crontab`. -/
structure St where
  now : Nat := 0
  pause : Bool := false
  /-- `immediately` -/
  imm : Bool := false
  /-- `run_count` -/
  runs : Nat := 0
  alive : Bool := true
  fault : Bool := false
  chains : List Chain := []
  /-- `timer_id`, of the chain that set it last -/
  timer : Option Nat := none
  /-- times at which the function was called -/
  calls : List Nat := []
  /-- async work that has not ended -/
  bodies : Nat := 0
deriving DecidableEq, Repr

/-- What happens. -/
inductive Ev
  | tick (d : Nat)
  /-- `StartCrontab`, lines 112-132 -/
  | start
  /-- `PauseCrontab`, lines 134-152 -/
  | pause
  /-- `Destroy`, lines 161-169 -/
  | destroy
  /-- the timer of a chain fires -/
  | fire (i : Nat)
  /-- a chain goes on from the beginning of `Run` -/
  | run (i : Nat)
  /-- the function returns -/
  | finish (i : Nat)
  /-- async work ends -/
  | bodyEnd
deriving DecidableEq, Repr

/-- The timer is set again, lines 46-48. -/
def rearm (j : Job) (s : St) (i : Nat) : St :=
  if j.max = 0 ∨ s.runs < j.max then
    { s with chains := s.chains.set i (.timer (s.now + j.interval)), timer := some i }
  else { s with chains := s.chains.set i .done }

/-- `bthread_timer_del`: a timer that has fired is not stopped. -/
def delTimer (s : St) : List Chain :=
  match s.timer with
  | some i =>
    match s.chains[i]? with
    | some (.timer _) => s.chains.set i .done
    | _ => s.chains
  | none => s.chains

/-- A step; what cannot happen changes nothing. -/
def step (j : Job) (s : St) : Ev → St
  | .tick d => { s with now := s.now + d }
  | .start => if s.alive then { s with pause := false, chains := s.chains ++ [.fresh] } else s
  | .pause => if s.alive then { s with pause := true, chains := delTimer s } else s
  | .destroy => if s.alive then { s with alive := false, chains := delTimer s } else s
  | .fire i =>
    match s.chains[i]? with
    | some (.timer due) => if due ≤ s.now then { s with chains := s.chains.set i .fresh } else s
    | _ => s
  | .run i =>
    match s.chains[i]? with
    | some .fresh =>
      if !s.alive then { s with fault := true, chains := s.chains.set i .done }
      else if s.pause then { s with chains := s.chains.set i .done }
      else if s.imm then
        { s with chains := s.chains.set i .running, calls := s.calls ++ [s.now],
                 bodies := if j.async then s.bodies + 1 else s.bodies }
      else rearm j { s with imm := true } i
    | _ => s
  | .finish i =>
    match s.chains[i]? with
    | some .running =>
      if !s.alive then { s with fault := true, chains := s.chains.set i .done }
      else rearm j { s with runs := s.runs + 1 } i
    | _ => s
  | .bodyEnd => { s with bodies := s.bodies - 1 }

/-- A history. -/
def exec (j : Job) (s : St) (l : List Ev) : St := l.foldl (step j) s

/-- `AddAndRunCrontab`, lines 95-100. -/
def added (j : Job) : St := step j {} .start

/-! ## Guards against a second run -/

/-- Where a handler is. -/
inductive HPC | test | set | work | out
deriving DecidableEq, Repr

/-- The flag and the handlers. -/
structure Guard where
  flag : Bool
  hs : List HPC
deriving DecidableEq, Repr

/-- Steps of handlers. -/
inductive GEv
  | begin
  /-- `load`, line 5956 -/
  | test (i : Nat)
  /-- `AtomicGuard` sets, line 5962 -/
  | set (i : Nat)
  /-- `AtomicGuard` clears -/
  | leave (i : Nat)
deriving DecidableEq, Repr

/-- A step. -/
def gstep (g : Guard) : GEv → Guard
  | .begin => { g with hs := g.hs ++ [.test] }
  | .test i => if g.hs[i]? = some .test then { g with hs := g.hs.set i (if g.flag then .out else .set) } else g
  | .set i => if g.hs[i]? = some .set then { flag := true, hs := g.hs.set i .work } else g
  | .leave i => if g.hs[i]? = some .work then { flag := false, hs := g.hs.set i .out } else g

/-- A history. -/
def gexec (g : Guard) (l : List GEv) : Guard := l.foldl gstep g

/-! ## The list of periodic work -/

/-- Roles of servers. -/
inductive Role | coordinator | store | index | document
deriving DecidableEq, Repr

/-- Periodic work. -/
inductive Work
  | heartbeat | regionMetrics | storeMetrics | sizeMetrics | scan | scanV2 | splitCheck | mergeCheck
  | updateState | jobs | calculate | recycleOrphan | metaWatchClean | removeWatch | lease | compaction
  | scrubVector | scrubDocument | raftSnapshot | updateSafePoint | doGc | balanceLeader | balanceRegion
  | recycleJob | getTso | recycleStream
deriving DecidableEq, Repr

/-- `server/server.cc:507-842`, with all that can be switched on: what is called and the roles it is
for, in the order there.  (The entry SCRUB_DOCUMENT_INDEX, lines 732-739, is the second `scrubVector`.) -/
def table : List (Work × List Role) :=
  let data : List Role := [.store, .index, .document]
  [(.heartbeat, data), (.regionMetrics, data), (.storeMetrics, data), (.sizeMetrics, data),
    (.scan, [.store]), (.scanV2, [.store]), (.splitCheck, [.store, .index]), (.mergeCheck, [.store, .index]),
    (.updateState, [.coordinator]), (.jobs, [.coordinator]), (.calculate, [.coordinator]),
    (.recycleOrphan, [.coordinator]), (.metaWatchClean, [.coordinator]), (.removeWatch, [.coordinator]),
    (.lease, [.coordinator]), (.compaction, [.coordinator]), (.scrubVector, [.index]), (.scrubVector, [.index]),
    (.raftSnapshot, .coordinator :: data), (.updateSafePoint, data), (.doGc, data),
    (.balanceLeader, [.coordinator]), (.balanceRegion, [.coordinator]), (.recycleJob, [.coordinator]),
    (.getTso, [.store, .index]), (.recycleStream, data)]

/-- The work of a server, `AddCrontab`, lines 53-64. -/
def worksOf (r : Role) : List Work := (table.filter (fun e => e.2.contains r)).map (·.1)

end Verif.Cron
