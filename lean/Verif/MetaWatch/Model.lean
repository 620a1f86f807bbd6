/-!
# Watches of metadata changes

A client creates a watch of some types of metadata events, then polls it: a poll is answered with
the events that have happened since the last answer, or waits for the next one.  The coordinator
keeps the events of the latest revisions in memory.

Modelled: `src/coordinator/coordinator_control_watch.cc` (creation, polling, cancelling, adding of
events, recycling, trimming) for one watch; several watches share only the record of events, which
no watch changes.  A step is one critical section.

Simplified: the content of an event is its type; looking the events up and sending them happens in
the same step as taking the revisions from the watch; erasing a watch from the bitmap and from the
map is one step, and so is entering it in both; times are not modelled, so recycling may cancel or
answer a watch at any moment; a negative start revision (refused at lines 195-200), an already used
watch id and the limit on the number of watches are left out.
-/

namespace Verif.MetaWatch

/-- A revision and the types of its events: an entry of `meta_event_map_`
(`src/coordinator/coordinator_control.h`, filled at
`src/coordinator/coordinator_control_watch.cc:519`). -/
abbrev Rec := Nat × List Nat

/-- How a poll is answered: `event_response.canceled()` (lines 93-96) or `EWATCH_NOT_EXIST`
(lines 114-118). -/
inductive Kind where
  | events | canceled | notExist
  deriving DecidableEq, Repr

/-- One sending of the same events to a set of polls
(`src/coordinator/coordinator_control_watch.cc:76-103`, called in loops at 158-166 and 556-563);
an event is its revision and its type. -/
structure Batch where
  to : List Nat
  events : List (Nat × Nat)
  kind : Kind
  deriving DecidableEq, Repr

/-- Where the creation of the watch is (`src/coordinator/coordinator_control_watch.cc:181-361`):
not begun; entered in the map (lines 255-259), the history not read; the history read (line 288), not
yet put in the watch; over. -/
inductive Phase where
  | none | reading | supplying (revs : List Nat) | done
  deriving DecidableEq, Repr

/-- The record of events and one watch (`MetaWatchNode`,
`src/coordinator/coordinator_control.h:77-111`).  `busy` is the change the only thread of
`meta_watch_worker_set_` (`src/coordinator/coordinator_control.cc:122`) has recorded and not yet
shown to the watches; `entering` are the polls that have found the watch (line 112) and not yet
taken its mutex (line 128); `created` is the answer to the creation; `out` is everything sent. -/
structure St where
  log : List Rec
  busy : Option Rec
  phase : Phase
  live : Bool
  start : Nat
  types : List Nat
  pending : List Nat
  waiting : List Nat
  entering : List Nat
  created : Option Bool
  out : List Batch
  deriving DecidableEq, Repr

/-- A coordinator with a record of events and no watch. -/
def St.init (log : List Rec) : St :=
  ⟨log, none, .none, false, 0, [], [], [], [], none, []⟩

inductive Op where
  | put (rev : Nat) (evs : List Nat)
  | notify
  | create (start : Nat) (types : List Nat)
  | read
  | prepend
  | ask (c : Nat)
  | enter (c : Nat)
  | idle
  | cancel
  | trim (n : Nat)
  deriving DecidableEq, Repr

/-- Whether the types watched and those of the events meet: `bit_set & watch_bitset`
(`src/coordinator/coordinator_control_watch.cc:320-330` and `525-526`). -/
def hit (types evs : List Nat) : Bool := evs.any fun e => types.contains e

/-- `MetaWatchGetEventsForRevisions` and the filter of `MetaWatchSendEvents`
(`src/coordinator/coordinator_control_watch.cc:42-74`, `83-88`). -/
def gather (log : List Rec) (types revs : List Nat) : List (Nat × Nat) :=
  revs.flatMap fun r =>
    match log.lookup r with
    | some evs => (evs.filter fun e => types.contains e).map fun e => (r, e)
    | none => []

/-- A revision no longer recorded makes the answer cancelled
(`src/coordinator/coordinator_control_watch.cc:48-54`, `90-93`). -/
def kindOf (log : List Rec) (revs : List Nat) : Kind :=
  if revs.any fun r => (log.lookup r).isNone then .canceled else .events

/-- `MetaWatchCancel` (`src/coordinator/coordinator_control_watch.cc:363-399`). -/
def drop (s : St) : St :=
  { s with live := false, waiting := [],
           out := s.out ++ (if s.waiting.isEmpty then [] else [⟨s.waiting, [], .canceled⟩]) }

/-- `GetRangeKeyValues(start_revision, last_event_revision)`: the upper bound is excluded
(`src/common/safe_map.h:791-814`, called at
`src/coordinator/coordinator_control_watch.cc:276-288`). -/
def range (log : List Rec) (start : Nat) : List Rec :=
  log.filter fun r => decide (start ≤ r.1) && decide (r.1 < (log.getLast?.map (·.1)).getD 0)

/-- One critical section; `none`: not possible in this state. -/
def step (s : St) : Op → Option St
  -- AddEventList, line 519; revisions are the indexes of the raft log, so they grow
  -- (`src/coordinator/coordinator_control_fsm.cc:1109`)
  | .put rev evs =>
    if s.busy.isNone && s.log.all (fun r => decide (r.1 < rev)) && decide (0 < rev) then
      some { s with log := s.log ++ [(rev, evs)], busy := some (rev, evs) }
    else none
  -- AddEventList, lines 521-573
  | .notify =>
    match s.busy with
    | none => none
    | some (rev, evs) =>
      if s.live && hit s.types evs then
        if s.waiting.isEmpty then
          some { s with busy := none,
                        pending := if s.start < rev then s.pending ++ [rev] else s.pending }
        else
          some { s with busy := none, pending := [], waiting := [],
                        out := s.out ++ [⟨s.waiting, gather s.log s.types (s.pending ++ [rev]),
                                          kindOf s.log (s.pending ++ [rev])⟩] }
      else some { s with busy := none }
  -- MetaWatchCreate, lines 202-272
  | .create start types =>
    match s.phase with
    | .none =>
      if decide (0 < start) && decide (start < (s.log.head?.map (·.1)).getD 0) then
        some { s with phase := .done, created := some false }
      else if start = 0 then
        some { s with phase := .done, live := true, start := start, types := types,
                      created := some true }
      else some { s with phase := .reading, live := true, start := start, types := types }
    | _ => none
  -- MetaWatchCreate, lines 276-333
  | .read =>
    match s.phase with
    | .reading =>
      match range s.log s.start with
      | [] => some { s with phase := .done, created := some true }
      | r :: l =>
        if s.start < r.1 then some { drop s with phase := .done, created := some false }
        else some { s with phase :=
                      .supplying (((r :: l).filter fun x => hit s.types x.2).map (·.1)) }
    | _ => none
  -- MetaWatchCreate, lines 336-360
  | .prepend =>
    match s.phase with
    | .supplying revs =>
      some { s with phase := .done, created := some true, pending := revs ++ s.pending }
    | _ => none
  -- MetaWatchProgress, lines 110-123
  | .ask c =>
    if s.live then some { s with entering := c :: s.entering }
    else some { s with out := s.out ++ [⟨[c], [], .notExist⟩] }
  -- MetaWatchProgress, lines 125-178
  | .enter c =>
    if s.entering.contains c then
      if s.pending.isEmpty then
        some { s with entering := s.entering.erase c, waiting := s.waiting ++ [c] }
      else
        some { s with entering := s.entering.erase c, waiting := [], pending := [],
                      live := s.live && decide (kindOf s.log s.pending = .events),
                      out := s.out ++ [⟨c :: s.waiting, gather s.log s.types s.pending,
                                        kindOf s.log s.pending⟩] }
    else none
  -- RecycledMetaWatcherByTime, lines 609-642
  | .idle =>
    if s.live && !s.waiting.isEmpty then
      some { s with waiting := [], pending := [],
                    out := s.out ++ [⟨s.waiting, gather s.log s.types s.pending,
                                      kindOf s.log s.pending⟩] }
    else none
  -- MetaWatchCancel, lines 363-399
  | .cancel => if s.live then some (drop s) else none
  -- TrimMetaWatchEventList, lines 660-699: the oldest revisions go
  | .trim n => some { s with log := s.log.drop n }

def run (s : St) : List Op → Option St
  | [] => some s
  | o :: l => match step s o with
    | none => none
    | some t => run t l

end Verif.MetaWatch
