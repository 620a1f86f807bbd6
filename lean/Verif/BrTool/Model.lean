/-!
# The threads of the backup tool (model)

`BackupSdkData::Run`, `BackupSqlData::Run` (`br/backup_sdk_data.cc:147-313`, the same in
`br/backup_sql_data.cc`) with `BackupDataBase::DoBackupRegionInternal` (`br/backup_data_base.cc:277-350`):
one thread for the regions of the stores, one for those of the index nodes, one for those of the
document nodes.  `RestoreRegionDataManager::Run` with `DoRestoreRegionDataInternal`
(`br/restore_region_data_manager.cc:119-440`): several threads that take from one list.

* A region is a number; the answer of a request for it is an input of the step.
* A step is what one thread does up to the next access of what is shared; steps interleave in any order.
* Statuses are "ok" or not.  Output of progress is left out.
-/

namespace Verif.BrTool

/-! ## Backup -/

/-- Where a thread of the backup is. -/
inductive PC
  /-- at the head of the loop, `br/backup_data_base.cc:285` -/
  | run
  /-- waiting for the answer for a region, line 311 -/
  | send (r : Nat)
  /-- after the loop, line 342 -/
  | leave
  /-- its exit flag is set, its status is not yet written, line 344 -/
  | flagged
  | done
deriving DecidableEq, Repr

/-- A thread of the backup: `saved` are the regions backed up, `failed` those whose request failed.
`started` is false if there is no node of its kind (`br/backup_sdk_data.cc:175-208`). -/
structure Thr where
  regions : List Nat
  started : Bool := true
  todo : List Nat := regions
  pc : PC := if started then .run else .done
  status : Bool := true
  saved : List Nat := []
  failed : List Nat := []
deriving DecidableEq, Repr

/-- Where the main thread is: in the loop of `br/backup_sdk_data.cc:250-269`, waiting for the threads
(271-290), or at the end with a status (292-312). -/
inductive Main
  | wait
  | join
  | fin (ok : Bool)
deriving DecidableEq, Repr

/-- What the threads share: `is_need_exit_`, `last_error_`. -/
structure St where
  thr : List Thr
  needExit : Bool := false
  last : Bool := true
  main : Main := .wait
deriving DecidableEq, Repr

/-- What a thread does next, `br/backup_data_base.cc:277-350`: the thread, `is_need_exit_`, and what it
writes to `last_error_`.  `ok`: the answer to its request, if it is waiting for one. -/
def thrStep (needExit : Bool) (ok : Bool) (t : Thr) : Thr × Bool × Option Bool :=
  match t.pc with
  | .run =>
    if needExit then ({ t with pc := .leave }, needExit, none)
    else match t.todo with
      | [] => ({ t with pc := .leave }, needExit, none)
      | r :: l => ({ t with pc := .send r, todo := l }, needExit, none)
  | .send r =>
    if ok then ({ t with pc := .run, saved := t.saved ++ [r], status := true }, needExit, none)
    else ({ t with pc := .leave, failed := t.failed ++ [r], status := false }, true, none)
  | .leave => ({ t with pc := .flagged }, needExit, none)
  | .flagged => ({ t with pc := .done }, needExit, some t.status)
  | .done => (t, needExit, none)

/-- Whether a thread's exit flag is set. -/
def Thr.exited (t : Thr) : Bool := t.pc == .flagged || t.pc == .done

/-- `total_regions_count`, `br/backup_sdk_data.cc:165-166`. -/
def total (l : List Thr) : Nat := (l.map (fun t => t.regions.length)).sum

/-- `already_handle_regions_`, `br/backup_sdk_data.cc:251-252`. -/
def handled (l : List Thr) : Nat := (l.map (fun t => t.saved.length)).sum

/-- What the main thread does next, `br/backup_sdk_data.cc:250-312`.  (Its limit of time is never
reached: `end_time_s` is not set in the loop.) -/
def mainStep (s : St) : St :=
  match s.main with
  | .wait => if s.needExit || decide (total s.thr ≤ handled s.thr) then { s with main := .join } else s
  | .join => if s.thr.all Thr.exited then { s with main := .fin (if s.needExit then s.last else true) } else s
  | .fin _ => s

/-- Who goes on. -/
inductive Ev
  | thr (i : Nat) (ok : Bool)
  | main
deriving DecidableEq, Repr

/-- A step. -/
def step (s : St) : Ev → St
  | .main => mainStep s
  | .thr i ok =>
    match s.thr[i]? with
    | none => s
    | some t =>
      let x := thrStep s.needExit ok t
      { s with thr := s.thr.set i x.1, needExit := x.2.1, last := x.2.2.getD s.last }

/-- The beginning: the regions of each kind, and whether there are nodes of the kind. -/
def start (l : List (List Nat × Bool)) : St := ⟨l.map (fun x => { regions := x.1, started := x.2 }), false, true, .wait⟩

/-- A schedule. -/
def exec (s : St) (l : List Ev) : St := l.foldl step s

/-! ## Restore -/

/-- Where a thread of the restore is, `br/restore_region_data_manager.cc:329-440`: at the head of the
loop, at work on a region, about to note its error, or out. -/
inductive RPC
  | run
  | work (g : Nat)
  | err
  | out
deriving DecidableEq, Repr

/-- What is shared: the regions left, `is_need_exit_`, `last_error_`; `done` are the regions restored,
`failed` those whose restore failed, `dropped` those given up on the way because another failed. -/
structure RSt where
  groups : List Nat
  thr : List RPC
  needExit : Bool := false
  last : Bool := true
  done : List Nat := []
  failed : List Nat := []
  dropped : List Nat := []
  main : Main := .wait
  gaveUp : Bool := false
deriving DecidableEq, Repr

/-- How the restore of a region goes. -/
inductive RO
  | ok
  | fail
  /-- it is seen between two phases that another has failed -/
  | stop
deriving DecidableEq, Repr

/-- Who goes on. -/
inductive REv
  | thr (i : Nat) (o : RO)
  | main
  /-- the main thread has waited for too long, line 226 -/
  | giveUp
deriving DecidableEq, Repr

/-- What a thread does next.  The list is taken from its end in the code; here `groups` is in the order in
which regions are taken.  A region whose id is not in the map of regions (lines 357-366: the end of the map is
read, undefined) is left out, and so is a thread that dies. -/
def rthr (s : RSt) (i : Nat) (o : RO) : RSt :=
  match s.thr[i]? with
  | none => s
  | some .run =>
    if s.needExit then { s with thr := s.thr.set i .out }
    else match s.groups with
      | [] => { s with thr := s.thr.set i .out }
      | g :: l => { s with groups := l, thr := s.thr.set i (.work g) }
  | some (.work g) =>
    match o with
    | .ok => { s with thr := s.thr.set i .run, done := s.done ++ [g] }
    | .fail => { s with thr := s.thr.set i .err, failed := s.failed ++ [g], needExit := true }
    | .stop => if s.needExit then { s with thr := s.thr.set i .out, dropped := s.dropped ++ [g] } else s
  | some .err => { s with thr := s.thr.set i .out, last := false }
  | some .out => s

/-- A step; the main thread as in `br/restore_region_data_manager.cc:191-273`, for `n` regions. -/
def rstep (n : Nat) (s : RSt) : REv → RSt
  | .thr i o => rthr s i o
  | .main =>
    match s.main with
    | .wait => if s.needExit || decide (n ≤ s.done.length) || !s.last then { s with main := .join } else s
    | .join => if s.thr.all (· == .out) then { s with main := .fin s.last } else s
    | .fin _ => s
  | .giveUp =>
    match s.main with
    | .join => { s with main := .fin s.last, gaveUp := true }
    | _ => s

/-- The beginning: for each thread, whether it could be started (lines 125-146). -/
def rstart (groups : List Nat) (threads : List Bool) : RSt :=
  { groups := groups, thr := threads.map (fun b => if b then .run else .out), last := threads.all id }

/-- A schedule. -/
def rexec (n : Nat) (s : RSt) (l : List REv) : RSt := l.foldl (rstep n) s

end Verif.BrTool
