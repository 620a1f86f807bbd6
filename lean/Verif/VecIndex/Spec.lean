import Verif.VecIndex.Model

/-!
# What the theorems about vector indexes are stated with

Nothing here is part of the code.
-/

namespace Verif.VecIndex

/-- The ids a call names. -/
def Op.ids : Op → List Nat
  | .add _ vs => vs.map (·.1)
  | .del ids => ids

/-- What a call says about an id: the last vector given for it, that it is to be gone, or nothing. -/
def Op.val : Op → Nat → Option (Option Nat)
  | .add _ vs, i => (held vs i).getLast?.map some
  | .del ids, i => if i ∈ ids then some none else none

/-- What the last of several writes that names an id says. -/
def lastVal (os : List Op) (i : Nat) : Option (Option Nat) := os.reverse.findSome? (Op.val · i)

/-- The vector an id has after the writes, if it has one. -/
def lastWrite (os : List Op) (i : Nat) : Option Nat := (lastVal os i).join

/-- The writes of an entry. -/
def Entry.ops (e : Entry) : List Op := e.calls.map (·.1)

/-- The entry names the id. -/
def Entry.names (e : Entry) (i : Nat) : Bool := e.ops.any (fun o => o.ids.contains i)

/-- All writes of a log. -/
def writes (log : List Entry) : List Op := log.flatMap Entry.ops

/-- The number of writes of the first `n` entries. -/
def off (log : List Entry) (n : Nat) : Nat := (writes (log.take n)).length

/-- The vectors an entry carries. -/
def Cmd.vecs : Cmd → List (Nat × Nat)
  | .add _ vs => vs
  | .batch _ vs _ => vs
  | .txn vs _ => vs
  | _ => []

/-- The calls after which an index holds exactly what it was told: no id twice in what is added, an
inverted-file index is not given an id it already holds unless it is told to update, and an HNSW
index is asked to delete ids it holds, each once. -/
def Op.fine (g : Cfg) (c : Content) : Op → Bool
  | .add up vs => distinct (vs.map (·.1)) &&
      (g.kind != .ivf || up || vs.all (fun p => (held c p.1).isEmpty))
  | .del ids => g.kind != .hnsw || (distinct ids && ids.all (fun i => !(held c i).isEmpty))

/-- Several such calls in order. -/
def fineAll (g : Cfg) : Content → List Op → Bool
  | _, [] => true
  | c, o :: os => o.fine g c && fineAll g (o.run g c).1 os

/-- An entry a replay does right: an add or delete that was applied, or one that writes no vector. -/
def Entry.plain (e : Entry) : Bool :=
  match e.cmd with
  | .add _ _ => e.valid
  | .del _ => e.valid
  | _ => e.calls.isEmpty

/-- The number of writes the apply thread is through with. -/
def St.pos (s : St) : Nat :=
  match s.ph with
  | .idle => off s.log s.applied
  | .at p _ => off s.log s.applied + p
  | .wait p => off s.log s.applied + p
  | .passed p => off s.log s.applied + p
  | .got p _ => off s.log s.applied + p
  | .did p _ => off s.log s.applied + p + 1

/-- The steps for which the index is kept right.  Each exception is a defect, shown by one of the
theorems whose names end in `_false`:
* `call`: the call is one the kind of index does right;
* `check`: the delete of a transaction's entry is not repeated, its add having been left out;
* `replay`: the entries replayed are plain and the calls gathered from them fine;
* `swap`: no entry that writes vectors is applied, or will be left out, without being in the new
  index; and no entry is under way that has looked at the old one;
* `save`: the index saved is still the region's, and no entry has been marked as applied of which a
  call is still to come. -/
def okEv (g : Cfg) (s : St) : Ev → Bool
  | .call =>
    match s.ph with
    | .got p k =>
      match s.calls[p]?, s.idxs[k]? with
      | some (o, _), some x => o.fine g x.content
      | _, _ => true
    | _ => true
  | .check =>
    match s.ph with
    | .at p _ =>
      match s.calls[p]? with
      | some (_, .always) => s.own.isNone || s.hot || decide (s.wapply ≤ s.applied)
      | _ => true
    | _ => true
  | .replay t =>
    match s.tasks[t]? with
    | some { idx := k, ph := _ } =>
      match s.idxs[k]? with
      | some x =>
        let es := span s.log x.applyLog s.applied
        es.all Entry.plain && fineAll g x.content (gather g.buildBatch es [] [])
      | none => true
    | none => true
  | .swap t =>
    match s.tasks[t]? with
    | some { idx := k, ph := _ } =>
      match s.idxs[k]? with
      | some x =>
        decide (off s.log (max s.wapply s.applied) ≤ off s.log x.applyLog) &&
        (match s.ph with
          | .idle => true
          | .at 0 false => true
          | .wait 0 => decide (x.applyLog ≤ s.applied)
          | .passed 0 => decide (x.applyLog ≤ s.applied)
          | _ => false)
      | none => true
    | none => true
  | .save => s.saving == s.own &&
      (!s.hot || decide (s.wapply ≤ s.applied) || decide (off s.log (s.applied + 1) ≤ s.pos))
  | _ => true

/-- All steps of a run are such. -/
def okRunFrom (g : Cfg) : St → List Ev → Bool
  | _, [] => true
  | s, ev :: evs => okEv g s ev && okRunFrom g (step g s ev) evs

/-- All steps of a run from the empty replica are such. -/
def okRun (g : Cfg) (evs : List Ev) : Bool := okRunFrom g {} evs

/-- The steps of a run that are not. -/
def badFrom (g : Cfg) : St → List Ev → List Ev
  | _, [] => []
  | s, ev :: evs => (if okEv g s ev then [] else [ev]) ++ badFrom g (step g s ev) evs

/-- The steps of a run from the empty replica that are not. -/
def bad (g : Cfg) (evs : List Ev) : List Ev := badFrom g {} evs

/-- Everything is at rest: no entry is being applied and no data is ahead of the applied index, no
task runs, and the region has an index. -/
def St.rest (s : St) : Bool :=
  s.ph == .idle && s.applied == s.dataLog && s.applied == s.log.length && s.tasks.isEmpty &&
    !s.switching && s.own.isSome

/-- What the region's index holds under an id. -/
def St.inIndex (s : St) (i : Nat) : List Nat :=
  match s.own with
  | some k =>
    match s.idxs[k]? with
    | some x => held x.content i
    | none => []
  | none => []

end Verif.VecIndex
