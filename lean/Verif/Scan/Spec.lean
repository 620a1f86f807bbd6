import Verif.Scan.Model

/-!
# Scan sessions: specification vocabulary

Nothing here refers to iterators, session states or threads: only to responses.
-/

namespace Verif.Scan
open Verif.Codec Verif.Mvcc

/-- The pairs a response hands out for session `o`. -/
def Out.pairs (o : Nat) : Out → List KV
  | .begun _ o' _ _ kvs => if o' = o then kvs else []
  | .page _ o' _ _ kvs _ => if o' = o then kvs else []
  | _ => []

/-- All pairs handed out for session `o`, in order. -/
def pairsOf (o : Nat) (outs : List Out) : List KV := outs.flatMap (Out.pairs o)

/-- What a client asking for keys only, or for keys and values, is owed for a
scanned pair. -/
def asked (keyOnly : Bool) (x : Bytes × Int × Bytes) : KV :=
  (x.1, if keyOnly then [] else x.2.2)

/-- The response is a page of session `o`. -/
def Out.isPage (o : Nat) : Out → Bool
  | .page _ o' _ _ _ _ => decide (o' = o)
  | _ => false

/-- The response starts session `o`. -/
def Out.isBegun (o : Nat) : Out → Bool
  | .begun _ o' _ _ _ => decide (o' = o)
  | _ => false

/-- The response says that the end was reached: no pairs, or no more of them. -/
def Out.isLast (o : Nat) : Out → Bool
  | .page _ o' _ _ kvs more => decide (o' = o ∧ (more = false ∨ kvs = []))
  | _ => false

/-- Bytes of a pair that count towards the limit of a response. -/
def size (kv : KV) : Int := kv.1.length + kv.2.length

/-- Bytes of some pairs. -/
def sizes (kvs : List KV) : Int := (kvs.map size).sum

end Verif.Scan
