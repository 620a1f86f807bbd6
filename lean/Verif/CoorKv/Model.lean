import Verif.Txn.CF
import Verif.Codec.Model

/-!
# The coordinator's key-value store (model of one replica)

`coordinator/kv_control_kv.cc`, `kv_control_fsm.cc`, `kv_control.cc` and the maps of
`coordinator_meta_storage.h`.  Left out: logging, the limits on the number of keys, the
`FATAL` when a counter reaches `2^63 - 1`, failing disk writes.
-/

namespace Verif.CoorKv
attribute [-instance] Verif.Txn.instDecidableLt_verif Verif.Txn.KeyOrder.toLT
open Verif.Codec (Bytes prefixNext)
open Verif.Txn (CF KeyOrder)

instance : KeyOrder Int where
  decEq := inferInstance
  decLt := fun a b => inferInstanceAs (Decidable (a < b))
  irrefl := Int.lt_irrefl
  trans := Int.lt_trans
  tri := Int.lt_trichotomy

/-- `RevisionInternal`.  Records are stored under `RevisionToString`
(`kv_control_kv.cc:54-64`), 8 bytes each for both numbers, so under the pair. -/
structure Rev where
  main : Int
  sub : Int
  deriving DecidableEq, Repr

/-- `KvIndexInternal::Generation`. -/
structure Gen where
  create : Option Rev
  version : Int
  revs : List Rev
  deriving DecidableEq, Repr

/-- `KvIndexInternal`; its `id` is the key. -/
structure Index where
  mod : Rev
  gens : List Gen
  deriving DecidableEq, Repr

/-- `KvRevInternal::kv`. -/
structure Rec where
  key : Bytes
  value : Bytes
  create : Rev
  mod : Rev
  version : Int
  lease : Int
  deleted : Bool
  deriving DecidableEq, Repr

/-- The message with no field set. -/
def Rec.unset : Rec := ⟨[], [], ⟨0, 0⟩, ⟨0, 0⟩, 0, 0, false⟩

/-- `LeaseInternal` without its id. -/
structure Lease where
  ttl : Int
  created : Int
  renewed : Int
  deriving DecidableEq, Repr

/-- A replica.  The maps of keys, revisions and leases are written through to disk, so one
copy stands for both; of the two counters `mem…` is the copy in memory and `disk…` the one on
disk (`none`: never written).  `term` and `applied` are the last entry applied, written with
the counters. -/
structure Node where
  index : CF Bytes Index
  revs : Rev → Option Rec
  leases : CF Int Lease
  memRev : Option Int
  diskRev : Option Int
  memLease : Option Int
  diskLease : Option Int
  term : Int
  applied : Int

/-- `GetRawKvRev`, `kv_control_kv.cc:155-164`, over `MetaDiskMap::Get`,
`coordinator_meta_storage.h:376-394`: a record that is not there is read as the message with no
field set, without an error. -/
def Node.record (s : Node) (r : Rev) : Rec := (s.revs r).getD Rec.unset

def Node.setRec (s : Node) (r : Rev) (x : Rec) : Node :=
  { s with revs := fun r' => if r' = r then some x else s.revs r' }

def Node.eraseRec (s : Node) (r : Rev) : Node :=
  { s with revs := fun r' => if r' = r then none else s.revs r' }

def Node.setIndex (s : Node) (k : Bytes) (i : Index) : Node := { s with index := s.index.put k i }

def Node.eraseIndex (s : Node) (k : Bytes) : Node := { s with index := s.index.del k }

/-- One entry of `MetaIncrement::kv_indexes` (`kv_control_fsm.cc:444-524`). -/
inductive Op where
  | put (key : Bytes) (ignoreLease : Bool) (lease : Int) (ignoreValue : Bool) (value : Bytes)
  | delete (key : Bytes)
  | compact (key : Bytes) (rev : Int)
  deriving DecidableEq, Repr

/-- One entry of `MetaIncrement::leases` (`kv_control_fsm.cc:362-391`); creating and updating
are the same. -/
inductive LeaseOp where
  | put (id : Int) (l : Lease)
  | erase (id : Int)
  deriving DecidableEq, Repr

/-- `MetaIncrement`: leases, keys and new values of the lease counter (`idepochs`). -/
structure Inc where
  leases : List LeaseOp
  ops : List Op
  leaseIds : List Int
  deriving DecidableEq, Repr

def Inc.isEmpty (i : Inc) : Bool := i.leases.isEmpty && i.ops.isEmpty && i.leaseIds.isEmpty

/-! ### Applying one operation -/

/-- A put into the last generation, `kv_control_kv.cc:620-642`. -/
def Gen.put (op : Rev) (g : Gen) : Gen :=
  match g.create with
  | some c => ⟨some c, g.version + 1, g.revs ++ [op]⟩
  | none => ⟨some op, 1, g.revs ++ [op]⟩

def Gen.fresh (op : Rev) : Gen := ⟨some op, 1, [op]⟩

/-- The generation written by a put: the last one, or a new one (`kv_control_kv.cc:584-650`). -/
def putGen (old : Option Index) (op : Rev) : Gen :=
  match old with
  | none => .fresh op
  | some i =>
    match i.gens.getLast? with
    | none => .fresh op
    | some g => g.put op

def oldGens (old : Option Index) : List Gen :=
  match old with
  | none => []
  | some i => i.gens.dropLast

def lastMod (old : Option Index) : Rev :=
  match old with
  | none => ⟨0, 0⟩
  | some i => i.mod

/-- `KvPutApply`, `kv_control_kv.cc:565-745`: the states after each disk write (record, then
index), and whether it succeeds. -/
def putApply (s : Node) (k : Bytes) (op : Rev) (ignoreLease : Bool) (lease : Int) (ignoreValue : Bool)
    (value : Bytes) : List Node × Bool :=
  let old := s.index.get k
  let g := putGen old op
  let last := s.record (lastMod old)
  let x : Rec :=
    { key := k, value := if ignoreValue then last.value else value, create := g.create.getD op, mod := op,
      version := g.version, lease := if ignoreLease then last.lease else lease, deleted := false }
  if 0 < x.lease ∧ s.leases.get x.lease = none then ([], false)
  else
    let s₁ := s.setRec op x
    ([s₁, s₁.setIndex k ⟨op, oldGens old ++ [g]⟩], true)

/-- The generation with no field set, as added by a delete. -/
def Gen.unset : Gen := ⟨none, 0, []⟩

/-- The index, create revision and version after a delete, `kv_control_kv.cc:776-815`. -/
def delIndex (i : Index) (op : Rev) : Index × Rev × Int :=
  match i.gens.getLast? with
  | none => (⟨op, [.unset]⟩, op, 1)
  | some g =>
    match g.create with
    | some c => (⟨op, i.gens.dropLast ++ [⟨some c, g.version + 1, g.revs ++ [op]⟩, .unset]⟩, c, g.version + 1)
    | none => (⟨op, i.gens⟩, ⟨0, 0⟩, g.version)

/-- `KvDeleteApply`, `kv_control_kv.cc:747-886`: the states after each disk write (index, then
record). -/
def deleteApply (s : Node) (k : Bytes) (op : Rev) : List Node :=
  match s.index.get k with
  | none => []
  | some i =>
    let (i', c, v) := delIndex i op
    let s₁ := s.setIndex k i'
    [s₁, s₁.setRec op ⟨k, [], c, op, v, 0, true⟩]

/-- The older generations in a compaction, `kv_control_kv.cc:1011-1037`: once one is kept the
rest is kept as it is.  The second list is `revisions_to_delete`. -/
def compactOld (rev : Int) : List Gen → List Gen × List Rev
  | [] => ([], [])
  | g :: gs =>
    match g.create with
    | none => compactOld rev gs
    | some c =>
      let dead := g.revs.filter (fun r => r.main < rev)
      let kept := g.revs.filter (fun r => ¬ r.main < rev)
      if kept.isEmpty then
        let (gs', d) := compactOld rev gs
        (gs', dead ++ d)
      else (⟨some c, g.version, kept⟩ :: gs, dead)

/-- The last generation, `kv_control_kv.cc:1040-1078`, `keep` being whether an older one is kept. -/
def compactLast (rev : Int) (keep : Bool) (g : Gen) : List Gen × List Rev :=
  if keep then ([g], [])
  else
    match g.create with
    | none => ([], [])
    | some c =>
      let dead := g.revs.dropLast.filter (fun r => r.main < rev)
      let kept := g.revs.dropLast.filter (fun r => ¬ r.main < rev) ++ g.revs.getLast?.toList
      if kept.isEmpty then ([], dead) else ([⟨some c, g.version, kept⟩], dead)

/-- Erasing records, one disk write each (`kv_control_kv.cc:1095-1104`). -/
def eraseAll (s : Node) : List Rev → List Node
  | [] => []
  | r :: rs => s.eraseRec r :: eraseAll (s.eraseRec r) rs

/-- `KvCompactApply`, `kv_control_kv.cc:984-1107`: the states after each disk write. -/
def compactApply (s : Node) (k : Bytes) (rev : Int) : List Node :=
  match s.index.get k with
  | none => []
  | some i =>
    match i.gens.getLast? with
    | none => []
    | some g =>
      let (old, d) := compactOld rev i.gens.dropLast
      let (last, d') := compactLast rev (!old.isEmpty) g
      let s₁ := if (old ++ last).isEmpty then s.eraseIndex k else s.setIndex k ⟨i.mod, old ++ last⟩
      s₁ :: eraseAll s₁ (d ++ d')

/-! ### Applying one log entry -/

/-- `DingoSafeIdEpochMap::GetNextId`, `coordinator_meta_storage.h:142-163`. -/
def nextId : Option Int → Int
  | none => 1001
  | some v => v + 1

/-- `UpdatePresentId`, `coordinator_meta_storage.h:203-223`: never downwards. -/
def raiseId (cur : Option Int) (v : Int) : Option Int :=
  match cur with
  | none => some v
  | some c => some (max c v)

/-- The revision given to the next put or delete of an entry: its first one draws a new main
revision (`kv_control_fsm.cc:450-456`, `478-484`); `main` is the one drawn so far, `sub` the
next sub revision. -/
def drawRev (s : Node) (main : Option Int) (sub : Int) : Node × Rev :=
  match main with
  | some m => (s, ⟨m, sub⟩)
  | none => ({ s with memRev := some (nextId s.memRev) }, ⟨nextId s.memRev, sub⟩)

/-- The states after each disk write of the operations of an entry, the state after them and
the main revision drawn. -/
def opsRun (s : Node) (main : Option Int) (sub : Int) : List Op → List Node × Node × Option Int
  | [] => ([], s, main)
  | .put k il l iv v :: ops =>
    let (s, r) := drawRev s main sub
    let t := (putApply s k r il l iv v).1
    let (t', s', m) := opsRun (t.getLastD s) (some r.main) (sub + 1) ops
    (t ++ t', s', m)
  | .delete k :: ops =>
    let (s, r) := drawRev s main sub
    let t := deleteApply s k r
    let (t', s', m) := opsRun (t.getLastD s) (some r.main) (sub + 1) ops
    (t ++ t', s', m)
  | .compact k v :: ops =>
    let t := compactApply s k v
    let (t', s', m) := opsRun (t.getLastD s) main sub ops
    (t ++ t', s', m)

def leaseApply (s : Node) : LeaseOp → Node
  | .put id l => { s with leases := s.leases.put id l }
  | .erase id => { s with leases := s.leases.del id }

/-- The states after each disk write of the leases of an entry. -/
def leasesRun (s : Node) : List LeaseOp → List Node
  | [] => []
  | o :: os => leaseApply s o :: leasesRun (leaseApply s o) os

/-- The last write, one batch: counters, term and index (`kv_control_fsm.cc:527-594`). -/
def finish (s : Node) (main : Option Int) (leaseIds : List Int) (term index : Int) : Node :=
  { s with
    memRev := match main with | none => s.memRev | some m => raiseId s.memRev m
    diskRev := match main with | none => s.diskRev | some m => some m
    memLease := leaseIds.foldl raiseId s.memLease
    diskLease := match leaseIds.getLast? with | none => s.diskLease | some v => some v
    term := term
    applied := index }

/-- A log entry. -/
structure Entry where
  term : Int
  index : Int
  inc : Inc
  deriving DecidableEq, Repr

/-- Whether an entry is passed over (`kv_control_fsm.cc:340-353`). -/
def Node.skips (s : Node) (e : Entry) : Bool :=
  (decide (e.index ≤ s.applied) && decide (e.term ≤ s.term)) || e.inc.isEmpty

/-- The states after each disk write of `ApplyMetaIncrement`, `kv_control_fsm.cc:327-595`. -/
def Node.writes (s : Node) (e : Entry) : List Node :=
  let tl := leasesRun s e.inc.leases
  let (t, s', m) := opsRun (tl.getLastD s) none 1 e.inc.ops
  tl ++ t ++ [finish s' m e.inc.leaseIds e.term e.index]

/-- `ApplyMetaIncrement`. -/
def Node.apply (s : Node) (e : Entry) : Node :=
  if s.skips e then s
  else
    let tl := leasesRun s e.inc.leases
    let (_, s', m) := opsRun (tl.getLastD s) none 1 e.inc.ops
    finish s' m e.inc.leaseIds e.term e.index

/-- `InitIds`, `kv_control.cc:73-80`. -/
def initId (base : Int) : Option Int → Option Int
  | none => some base
  | some v => if v = 0 then some base else some v

/-- `Recover`, `kv_control.cc:82-160`: what a replica has in memory after a start. -/
def Node.restart (s : Node) : Node :=
  { s with memRev := initId 10000 s.diskRev, memLease := initId 90000 s.diskLease }

/-- The replica after a crash in the middle of an entry, `n` disk writes of it having been made,
and a restart. -/
def Node.crash (s : Node) (e : Entry) (n : Nat) : Node :=
  if s.skips e then s.restart else (((s :: s.writes e)[n]?).getD s).restart

/-- `LoadMetaFromSnapshotFile`, `kv_control_fsm.cc:176-302`, of a snapshot taken on `src`
(`PrepareRaftSnapshot` reads the disk): unlike a restart it does not call `InitIds`. -/
def Node.install (src : Node) : Node :=
  { src with memRev := src.diskRev, memLease := src.diskLease }

/-- A replica started with an empty disk. -/
def Node.init : Node :=
  { index := .empty, revs := fun _ => none, leases := .empty, memRev := some 10000, diskRev := none
    memLease := some 90000, diskLease := none, term := 0, applied := 0 }

/-! ### Reading -/

/-- The key exists: its last generation has been created and holds a revision
(`kv_control_kv.cc:105-113`, `230-239`). -/
def Index.live (i : Index) : Bool :=
  match i.gens.getLast? with
  | none => false
  | some g => g.create.isSome && !g.revs.isEmpty

/-- `RangeRawKvIndex`, `kv_control_kv.cc:90-130`, over `GetRangeValues`, `safe_map.h:712-737`;
`maxKey` is `FLAGS_max_kv_key_size`. -/
def rangeIndex (maxKey : Nat) (s : Node) (key stop : Bytes) : List (Bytes × Index) :=
  let upper := if stop = [0] then List.replicate maxKey 255 else if stop = [] then prefixNext key else stop
  ((s.index.seek key).takeWhile fun e => decide (e.1 < upper)).filter fun e =>
    e.2.live && (if stop = [] then decide (key = e.1)
      else if stop = [0] then decide (key ≤ e.1)
      else decide (key ≤ e.1) && decide (e.1 < stop))

/-- `pb::version::Kv`. -/
structure Kv where
  key : Bytes
  value : Bytes
  create : Int
  mod : Int
  version : Int
  lease : Int
  deriving DecidableEq, Repr

def Rec.toKv (keysOnly : Bool) (x : Rec) : Kv :=
  ⟨x.key, if keysOnly then [] else x.value, x.create.main, x.mod.main, x.version, x.lease⟩

/-- The loop of `KvRange`, `kv_control_kv.cc:228-287`; `n` is `limit_count`, whose 32 bits are
taken to be enough. -/
def rangeLoop (s : Node) (limit : Int) (keysOnly countOnly : Bool) : Nat → List (Bytes × Index) → List Kv × Bool
  | _, [] => ([], false)
  | n, e :: es =>
    if e.2.live then
      if limit < (n + 1 : Nat) then ([], true)
      else
        let (kvs, more) := rangeLoop s limit keysOnly countOnly (n + 1) es
        if countOnly then (kvs, more) else ((s.record e.2.mod).toKv keysOnly :: kvs, more)
    else rangeLoop s limit keysOnly countOnly n es

/-- What `KvRange` gives: keys, count and whether there are more. -/
structure RangeOut where
  kvs : List Kv
  count : Nat
  more : Bool
  deriving DecidableEq, Repr

/-- `KvRange`, `kv_control_kv.cc:195-297`. -/
def kvRange (maxKey : Nat) (s : Node) (key stop : Bytes) (limit : Int) (keysOnly countOnly : Bool) : RangeOut :=
  let limit := if limit = 0 then 2 ^ 63 - 1 else limit
  let idx := if stop = [] then
      match s.index.get key with
      | none => []
      | some i => [(key, i)]
    else rangeIndex maxKey s key stop
  let (kvs, more) := rangeLoop s limit keysOnly countOnly 0 idx
  ⟨kvs, kvs.length, more⟩

end Verif.CoorKv
