import Verif.Mvcc.Model
import Verif.Codec.Props

/-!
# Raw KV: specification vocabulary

Nothing here refers to iterators or readers: a store is read as a set of
versions (key, timestamp, what was written).
-/

namespace Verif.Mvcc
open Verif.Codec

/-- One write to a key: a plain put, a put that expires, or a deletion mark. -/
inductive Ver where
  | put (v : Bytes)
  | putTTL (ttl : Int) (v : Bytes)
  | del
deriving DecidableEq, Repr

/-- A version: user key, timestamp and what was written. -/
structure Rec where
  key : Bytes
  ts : Int
  ver : Ver
deriving DecidableEq, Repr

def Ver.pkg : Ver → Bytes
  | .put v => packageValue .put 0 v
  | .putTTL ttl v => packageValue .putTTL ttl v
  | .del => packageValue .delete 0 []

def Ver.Valid : Ver → Prop
  | .putTTL ttl _ => IsI64 ttl
  | _ => True

/-- Stored form of a version. -/
def Rec.enc (r : Rec) : Entry :=
  (encodeBytes r.key ++ be64 (2 ^ 64 - 1 - r.ts.toNat), r.ver.pkg)

def Rec.Valid (r : Rec) : Prop := ValidTs r.ts ∧ r.ver.Valid

/-- A version a reader at clock `now` sees as present. -/
def Ver.Live (now : Int) : Ver → Prop
  | .put _ => True
  | .putTTL ttl _ => now ≤ ttl
  | .del => False

instance (now : Int) (v : Ver) : Decidable (v.Live now) := by
  cases v <;> unfold Ver.Live <;> infer_instance

/-- The value a version carries. -/
def Ver.value : Ver → Bytes
  | .put v => v
  | .putTTL _ v => v
  | .del => []

/-- Empty value with TTL: reading it aborts (C04). -/
def Ver.emptyTTL : Ver → Prop
  | .putTTL _ [] => True
  | _ => False

instance (v : Ver) : Decidable v.emptyTTL := by
  cases v with
  | putTTL t v => cases v <;> unfold Ver.emptyTTL <;> infer_instance
  | _ => unfold Ver.emptyTTL; infer_instance

/-- Ascending store. -/
def SortedStore (st : Store) : Prop := st.Pairwise (fun a b => a.1 < b.1)

/-- A store as raw writers leave it: ascending, every entry is a version. -/
def WFStore (st : Store) : Prop :=
  SortedStore st ∧ ∀ e ∈ st, ∃ r : Rec, r.Valid ∧ e = r.enc

/-- The store holds version `r`. -/
def Stored (st : Store) (r : Rec) : Prop := r.Valid ∧ r.enc ∈ st

/-- The timestamp a read at `ts` looks at: a positive timestamp itself, anything
else means the newest possible. -/
def readTs (ts : Int) : Int := if ts ≤ 0 then 9223372036854775807 else ts

/-- `r` is the newest stored version of `k` at or below `T`. -/
def Newest (st : Store) (T : Int) (k : Bytes) (r : Rec) : Prop :=
  Stored st r ∧ r.key = k ∧ r.ts ≤ T ∧
    ∀ r', Stored st r' → r'.key = k → r'.ts ≤ T → r'.ts ≤ r.ts

/-- No stored version is an empty value with a TTL (such a version aborts the
reader, C04). -/
def NoEmptyTTL (st : Store) : Prop := ∀ r, Stored st r → ¬ r.ver.emptyTTL

/-! ## Histories -/

/-- Unconditional raw writes as applied. `ttl = 0`: no expiry, otherwise the
absolute expiry time. -/
inductive Op where
  | put (ts ttl : Int) (kvs : List (Bytes × Bytes))
  | delete (now ts : Int) (keys : List Bytes)
  | deleteRange (start stop : Bytes)
deriving DecidableEq, Repr

/-- The model's effect of a write on the store (an abort leaves it unchanged). -/
def exec (st : Store) : Op → Store
  | .put ts ttl kvs => (writerPut st ts ttl kvs).getD st
  | .delete now ts keys => ((writerDelete st now ts keys).map (·.2)).getD st
  | .deleteRange start stop => writerDeleteRange st start stop

/-- Requests the server accepts: timestamps from the oracle, 64-bit expiry. -/
def Op.Valid : Op → Prop
  | .put ts ttl _ => ValidTs ts ∧ IsI64 ttl
  | .delete _ ts _ => ValidTs ts
  | .deleteRange start stop => start < stop

/-- Abstract content: what was last written at (key, ts). -/
abbrev Content := Bytes → Int → Option Ver

/-- The version a put stores. -/
def putVer (ttl : Int) (v : Bytes) : Ver := if ttl = 0 then .put v else .putTTL ttl v

/-- Value of the last pair for `k` in a batch. -/
def lastFor (kvs : List (Bytes × Bytes)) (k : Bytes) : Option Bytes :=
  ((kvs.filter (fun kv => decide (kv.1 = k))).getLast?).map (·.2)

/-- Abstract effect of a write. -/
def specStep (m : Content) : Op → Content
  | .put ts ttl kvs => fun k t =>
    if t = ts then
      match lastFor kvs k with
      | some v => some (putVer ttl v)
      | none => m k t
    else m k t
  | .delete _ ts keys => fun k t => if t = ts ∧ k ∈ keys then some .del else m k t
  | .deleteRange start stop => fun k t => if start ≤ k ∧ k < stop then none else m k t

end Verif.Mvcc
