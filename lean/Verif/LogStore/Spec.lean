import Verif.LogStore.Model

/-!
# What a raft node expects of its log storage (specification)

`specLog` is the log of one region as its raft node sees it: computed from the calls
of that node alone, without databases, batches, caches, other regions or other
clients.  `Ok` is what the callers keep to.
-/

namespace Verif.LogStore
open Verif.Codec
open Verif.Txn (CF)

/-- The log of a region: the entries appended and not cut off at the end, and the
window `[first, last]` of those the node still wants. -/
structure RLog where
  first : Int
  last : Int
  ent : Int → Option LogEntry

/-- A new log. -/
def RLog.empty : RLog := ⟨1, 0, fun _ => none⟩

/-- One more entry. -/
def RLog.put (L : RLog) (e : Int × LogEntry) : RLog :=
  { L with last := e.1, ent := fun i => if i = e.1 then some e.2 else L.ent i }

/-- The effect of one call. -/
def RLog.apply (L : RLog) : Call → RLog
  | .append es => es.foldl RLog.put L
  | .truncPrefix k =>
    if L.first < k then { L with first := k, last := if L.last < k then k - 1 else L.last } else L
  | .truncSuffix k => { L with last := k, ent := fun i => if i ≤ k then L.ent i else none }
  | .reset n => ⟨n, n - 1, fun _ => none⟩

/-- The log after some calls. -/
def specLog (h : List Call) : RLog := h.foldl RLog.apply RLog.empty

/-- A region id. -/
def ValidR (r : Int) : Prop := 0 ≤ r ∧ r < 2 ^ 63

/-- Indexes count up from `n`. -/
def Consecutive : Int → List (Int × LogEntry) → Prop
  | _, [] => True
  | n, e :: es => e.1 = n ∧ Consecutive (n + 1) es

/-- An entry as braft makes it: a type, a positive term, some data. -/
def GoodEntry (e : LogEntry) : Prop := e.typ < 2 ^ 32 ∧ 0 < e.term ∧ e.term < 2 ^ 63 ∧ e.data ≠ []

/-- Entries a node may append to its log: they continue it, terms never decrease. -/
structure Appendable (L : RLog) (es : List (Int × LogEntry)) : Prop where
  some : es ≠ []
  next : Consecutive (L.last + 1) es
  fits : L.last + es.length < maxI64
  good : ∀ e ∈ es, GoodEntry e.2
  asc : es.Pairwise (fun a b => a.2.term ≤ b.2.term)
  above : ∀ i e, L.ent i = Option.some e → ∀ x ∈ es, e.term ≤ x.2.term

/-- The mutation belongs to the raft node or ends the region. -/
def Mutation.own : Mutation → Bool
  | .cutPrefix _ _ none => false
  | _ => true

/-- The raft node of the region is waiting for no call. -/
def Idle (s : State) (r : Int) : Prop := ∀ m ∈ s.pending, m.region = r → m.own = false

/-- Nothing at all is pending for the region. -/
def Quiet (s : State) (r : Int) : Prop := ∀ m ∈ s.pending, m.region ≠ r

/-- The region's log, seen from its node. -/
def State.log (s : State) (r : Int) : RLog := specLog (s.hist r)

/-- The discipline of the callers.  A raft node makes one call at a time (braft's disk
thread), after it was started, with entries that continue its log; the vector index
truncates only logs that exist; a region is destroyed when no call is pending for it;
and the machine may lose what was not synced only if `raft_sync` is on. -/
def Ok (s : State) : Event → Prop
  | .openRegion r => ValidR r ∧ s.cache r = none ∧ Quiet s r
  | .append r es => ValidR r ∧ s.cache r ≠ none ∧ Idle s r ∧ Appendable (s.log r) es
  | .truncPrefix .raft r k => ValidR r ∧ s.cache r ≠ none ∧ Idle s r ∧ k < maxI64
  | .truncPrefix .vec r k => s.metas r ≠ none ∧ Mutation.destroy r ∉ s.pending ∧ k ≤ maxI64
  | .truncSuffix r k =>
    ValidR r ∧ s.cache r ≠ none ∧ Idle s r ∧ (s.log r).first ≤ k + 1 ∧ k ≤ (s.log r).last
  | .reset r n => ValidR r ∧ s.cache r ≠ none ∧ Idle s r ∧ (s.log r).first ≤ n ∧ n < maxI64
  | .destroy r => ValidR r ∧ Quiet s r
  | .flush _ => True
  | .restart => True
  | .crash n => s.sync = true ∨ n = 0

/-- Every event of a history keeps to the discipline (up to an abort, if there is one). -/
def AllOk : State → List Event → Prop
  | _, [] => True
  | s, e :: es => Ok s e ∧ ∀ s', step s e = some s' → AllOk s' es

/-- An append continues the log whose last index the storage reports. -/
def NextOk (s : State) : Event → Prop
  | .append r es => ∀ m, s.metas r = some m → ∀ e, es.head? = some e → e.1 = m.last + 1
  | _ => True

/-- Every append of a history continues the log the storage reports. -/
def AllNext : State → List Event → Prop
  | _, [] => True
  | s, e :: es => NextOk s e ∧ ∀ s', step s e = some s' → AllNext s' es

/-- The event does not ask to drop entry `i` of region `r`, prefix truncations apart. -/
def Keeps (r i : Int) : Event → Prop
  | .truncSuffix r' k => r' = r → i ≤ k
  | .reset r' _ => r' ≠ r
  | .destroy r' => r' ≠ r
  | _ => True

/-- The event does not release entry `i` of region `r` for the client `c`. -/
def Holds (c : Client) (r i : Int) : Event → Prop
  | .truncPrefix c' r' k => c' = c → r' = r → k ≤ i
  | _ => True

/-- The batch of the next flush contains this mutation. -/
def InBatch (s : State) (sel : List Nat) (m : Mutation) : Prop := m ∈ (pick s.pending sel).1

end Verif.LogStore
