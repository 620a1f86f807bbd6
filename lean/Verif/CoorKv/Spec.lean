import Verif.CoorKv.Model

/-!
# What the coordinator's key-value store is expected to be

A map from keys to items, a set of leases and one counter of revisions.  Nothing here mentions
generations or records.
-/

namespace Verif.CoorKv
attribute [-instance] Verif.Txn.instDecidableLt_verif Verif.Txn.KeyOrder.toLT
open Verif.Codec (Bytes)

/-- A key as a client sees it. -/
structure Item where
  value : Bytes
  create : Int
  mod : Int
  version : Int
  lease : Int
  deriving DecidableEq, Repr

structure Spec where
  map : Bytes → Option Item
  leases : Int → Option Lease
  rev : Int

/-- The first revision is 10001 (`kv_control.cc:73-80`). -/
def Spec.init : Spec := ⟨fun _ => none, fun _ => none, 10000⟩

def Spec.set (S : Spec) (k : Bytes) (x : Option Item) : Spec :=
  { S with map := fun k' => if k' = k then x else S.map k' }

/-- One operation at revision `m`.  A put keeps the creation revision of a key that exists and
counts the puts since; it is refused if its lease does not exist.  A compaction does nothing. -/
def Spec.op (m : Int) (S : Spec) : Op → Spec
  | .put k ignoreLease lease ignoreValue value =>
    let old := S.map k
    let lease := if ignoreLease then (old.map (·.lease)).getD 0 else lease
    let value := if ignoreValue then (old.map (·.value)).getD [] else value
    if 0 < lease ∧ S.leases lease = none then S
    else S.set k (some ⟨value, (old.map (·.create)).getD m, m, (old.map (·.version)).getD 0 + 1, lease⟩)
  | .delete k => S.set k none
  | .compact _ _ => S

def Spec.lease (S : Spec) : LeaseOp → Spec
  | .put id l => { S with leases := fun i => if i = id then some l else S.leases i }
  | .erase id => { S with leases := fun i => if i = id then none else S.leases i }

/-- Whether the operation takes a revision. -/
def Op.draws : Op → Bool
  | .compact _ _ => false
  | _ => true

/-- One log entry: leases first; the operations of an entry share one new revision. -/
def Spec.entry (S : Spec) (e : Entry) : Spec :=
  let S₁ := e.inc.leases.foldl Spec.lease S
  let S₂ := e.inc.ops.foldl (Spec.op (S.rev + 1)) S₁
  { S₂ with rev := if e.inc.ops.any Op.draws then S.rev + 1 else S.rev }

/-- `l` lists the keys with property `P`, in ascending order, with their items. -/
structure Lists (m : Bytes → Option Item) (P : Bytes → Prop) (l : List (Bytes × Item)) : Prop where
  asc : l.Pairwise fun a b => a.1 < b.1
  mem : ∀ k x, (k, x) ∈ l ↔ P k ∧ m k = some x

/-- The keys a request is about: one key, everything from `key` on (`stop = "\0"`), or an interval. -/
def InRange (key stop k : Bytes) : Prop :=
  if stop = [] then k = key else if stop = [0] then ¬ k < key else ¬ k < key ∧ k < stop

/-- A key in an answer. -/
def answer (keysOnly : Bool) (e : Bytes × Item) : Kv :=
  ⟨e.1, if keysOnly then [] else e.2.value, e.2.create, e.2.mod, e.2.version, e.2.lease⟩

end Verif.CoorKv
