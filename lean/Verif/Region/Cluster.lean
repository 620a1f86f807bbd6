import Verif.Region.Model

/-!
# Region split and merge (model of several stores)

Every region has one log, the same on all stores (raft's guarantee, assumed).  A store that
leads a region checks and appends commands; every store applies each log in order, at its
own pace.  Which store leads a region is not modelled: any store may append.
-/

namespace Verif.Region
open Verif.Codec (Bytes)

structure Cluster where
  stores : List Store
  logs : Nat → List Entry

inductive Ev where
  /-- A client's write, with the epoch it knows, reaches store `s`. -/
  | write (s r : Nat) (e : Epoch) (k : Bytes) (v : Option Nat) (ts : Int)
  /-- The coordinator's split command reaches store `s`. -/
  | split (s r : Nat) (job : Int) (child : Nat) (key : Bytes) (post : Bool)
  /-- The coordinator's merge command reaches store `s`. -/
  | merge (s src tgt : Nat) (job : Int)
  /-- The `n`-th merge loop of store `s` proposes its commit. -/
  | launch (s n : Nat)
  /-- Store `s` applies the next entry of region `r`. -/
  | apply (s r : Nat)
  /-- The snapshot taken after a split or merge is finished on store `s`. -/
  | snapshotDone (s r : Nat)
  deriving DecidableEq, Repr

def Cluster.append (c : Cluster) (r : Nat) (e : Entry) : Cluster :=
  { c with logs := fun j => if j = r then c.logs j ++ [e] else c.logs j }

def Cluster.setStore (c : Cluster) (i : Nat) (s : Store) : Cluster := { c with stores := c.stores.set i s }

def Cmd.isChange : Cmd → Bool
  | .write .. => false
  | _ => true

/-- `ValidateSplitRegion`, `store/region_controller.cc:420-485`, at store `s` (`436-469`) and at
the region's peers (`472-485`). -/
def validateSplit (stores : List Store) (s : Store) (r child : Nat) (key : Bytes) (post : Bool) : Bool :=
  match s.regs r with
  | none => false
  | some p =>
    !p.disabled && (post || (s.regs child).map Reg.state == some .standby) &&
      decide (p.range.start < key) && decide (key < p.range.stop) && p.state == .normal &&
      stores.all fun t => (t.regs r).map Reg.state == some .normal

/-- `ValidateMergeRegion`, `store/region_controller.cc:681-892`, taken at one instant: both
regions are free and in the normal state on every store, all stores agree on both epochs, the
ranges are neighbours, and no split or merge entry of either region is still unapplied
anywhere.  The code makes these checks one after the other; the last one looks for such
entries beyond the committed index only, so the model refuses more. -/
def validateMerge (c : Cluster) (s : Store) (src tgt : Nat) : Bool :=
  match s.regs src, s.regs tgt with
  | some a, some b =>
    !a.disabled && !b.disabled &&
      (c.stores.all fun t => (t.regs src).map (fun g => (g.state, g.epoch)) == some (.normal, a.epoch) &&
        (t.regs tgt).map (fun g => (g.state, g.epoch)) == some (.normal, b.epoch) &&
        ((c.logs src).drop (t.applied src)).all (fun e => !e.cmd.isChange) &&
        ((c.logs tgt).drop (t.applied tgt)).all (fun e => !e.cmd.isChange)) &&
      (decide (a.range.stop = b.range.start) || decide (a.range.start = b.range.stop))
  | _, _ => false

def minApplied (stores : List Store) (r : Nat) : Nat :=
  match stores with
  | [] => 0
  | s :: ss => ss.foldl (fun m t => min m (t.applied r)) (s.applied r)

/-- One event; `none` if it cannot happen. -/
def cstep (c : Cluster) : Ev → Option Cluster
  -- `ServiceHelper` checks, then `Storage` and the raft engine append the entry.
  | .write s r e k v ts =>
    match c.stores[s]? with
    | none => none
    | some st =>
      match st.regs r with
      | none => none
      | some g =>
        if keyRequest e [k] ⟨g.epoch, g.state, g.range⟩ = .ok () then some (c.append r ⟨e, .write k v ts⟩) else none
  -- `SplitRegionTask::SplitRegion`, `region_controller.cc:556-600`.
  | .split s r job child key post =>
    match c.stores[s]? with
    | none => none
    | some st =>
      match st.regs r with
      | none => none
      | some g =>
        if validateSplit c.stores st r child key post then
          some (c.append r ⟨g.epoch, .split job child key g.epoch.version post⟩)
        else none
  -- `MergeRegionTask::MergeRegion`, `region_controller.cc:894-941`.
  | .merge s src tgt job =>
    match c.stores[s]? with
    | none => none
    | some st =>
      match st.regs src, st.regs tgt with
      | some a, some b =>
        if validateMerge c st src tgt then
          let st := (st.on src (Reg.setDisabled true)).on tgt (Reg.setDisabled true)
          some ((c.setStore s st).append src ⟨a.epoch, .prepareMerge job tgt b.epoch (minApplied c.stores src)⟩)
        else none
      | _, _ => none
  -- `LaunchCommitMergeCommand`, `raft_apply_handler.cc:766-784`.
  | .launch s n =>
    match c.stores[s]? with
    | none => none
    | some st =>
      match st.loops[n]? with
      | none => none
      | some l => if l.active st then some (c.append l.target l.entry) else none
  | .apply s r =>
    match c.stores[s]? with
    | none => none
    | some st =>
      match (c.logs r)[st.applied r]? with
      | none => none
      | some e =>
        match applyEntry c.logs st r (st.applied r + 1) e with
        | .ok st' => some (c.setStore s st')
        | .error _ => none
  -- `SplitHandler::SplitClosure::Run`, `raft_apply_handler.cc:205-232`.
  | .snapshotDone s r =>
    match c.stores[s]? with
    | none => none
    | some st => some (c.setStore s (st.on r (Reg.setDisabled false)))

def crun : Cluster → List Ev → Option Cluster
  | c, [] => some c
  | c, e :: es =>
    match cstep c e with
    | none => none
    | some c' => crun c' es

end Verif.Region
