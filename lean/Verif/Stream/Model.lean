import Verif.Codec.Model

/-!
# Streams of answers (model)

`StreamManager`, `StreamSet`, `Stream` (`common/stream.cc`, `common/stream.h`) and the requests that
use them: `Storage::TxnScan` (`engine/storage.cc:1560-1607`), `TxnScanLock` (`1785-1822`) and
`DocumentSearchAll` (`1428-1462`).

* What a request does with its stream's state is a parameter (`Eng`): the scan of C10, the scan of locks
  of C52, the search of C107.
* A request is one step; two requests of one stream at the same time, which share its iterator without
  a lock in the code, are not modelled.
* New ids (`GenStreamId`, a GUID) are an input of the step.
-/

namespace Verif.Stream
open Verif.Codec

/-- The requests that use streams.  The state of a stream is of the class of its kind. -/
inductive Kind
  | scan
  | scanLock
  | searchAll
deriving DecidableEq, Repr

/-- `Stream`, `common/stream.h:46-86`. -/
structure Stream (σ : Type) where
  id : Bytes
  limit : Nat
  state : Option (Kind × σ)
  last : Int

/-- `StreamManager`, with the streams of its `StreamSet`. -/
structure Mgr (σ : Type) where
  streams : List (Stream σ) := []

/-- `StreamRequestMeta`, with the limit of the request in place of a limit of 0
(`engine/storage.cc:1573`, `1797`). -/
structure Req where
  id : Bytes
  limit : Nat
  close : Bool := false

/-- How the engine answers. -/
inductive Status
  | ok
  | notFound
  | fail
deriving DecidableEq, Repr

/-- What the engine does: the state it leaves, how it answers, results and whether there are more. -/
structure Ran (σ ρ : Type) where
  state : Option σ
  status : Status
  res : ρ
  more : Bool

/-- What the engine does with the limit and state of a stream. -/
abbrev Eng (σ ρ : Type) := Nat → Option σ → Ran σ ρ

/-- The answer to a request. -/
inductive Out (ρ : Type)
  | expired
  | error
  | page (id : Bytes) (res : ρ) (more : Bool)
  | crash
deriving DecidableEq

/-- `StreamSet::GetStream`, `common/stream.cc:71-76`. -/
def Mgr.find {σ : Type} (m : Mgr σ) (id : Bytes) : Option (Stream σ) := m.streams.find? (fun s => decide (s.id = id))

/-- `StreamSet::RemoveStream`, `common/stream.cc:63-69`. -/
def Mgr.remove {σ : Type} (m : Mgr σ) (id : Bytes) : Mgr σ := ⟨m.streams.filter (fun s => !decide (s.id = id))⟩

/-- The stream as it is after a step (in the code it is changed in place). -/
def Mgr.put {σ : Type} (m : Mgr σ) (s : Stream σ) : Mgr σ := ⟨s :: (m.remove s.id).streams⟩

/-- Whether the stream stays after the answer, `engine/storage.cc:1451-1459`, `1591-1603`,
`1810-1818`: "not found" is success without a look at `has_more` (an error for locks). -/
def stays {σ ρ : Type} (k : Kind) (close : Bool) (o : Ran σ ρ) : Bool :=
  match o.status with
  | .ok => o.more && !close
  | .notFound => match k with
    | .scanLock => false
    | _ => true
  | .fail => false

/-- The answer, `engine/storage.cc:1451-1461`, `1591-1605`, `1810-1820`. -/
def answer {σ ρ : Type} (k : Kind) (id : Bytes) (o : Ran σ ρ) : Out ρ :=
  match o.status with
  | .ok => .page id o.res o.more
  | .notFound => match k with
    | .scanLock => .error
    | _ => .page id o.res o.more
  | .fail => .error

/-- The request with its stream: the cast of the state to the class of the request's kind gives null
for a state of another kind, which is then used (`engine/txn_engine_helper.cc:1157-1159`,
`1560-1561`, `document/document_reader.cc:138-153`). -/
def work {σ ρ : Type} (m : Mgr σ) (s : Stream σ) (k : Kind) (r : Req) (now : Int) (e : Eng σ ρ) : Mgr σ × Out ρ :=
  let go (x : Option σ) : Mgr σ × Out ρ :=
    let o := e s.limit x
    (if stays k r.close o then m.put { s with last := now, state := o.state.map (fun x => (k, x)) } else m.remove s.id,
      answer k s.id o)
  match s.state with
  | none => go none
  | some (k', x) => if k' = k then go (some x) else (⟨[]⟩, .crash)

/-- A request: `GetOrNew`, `common/stream.cc:105-118`, then `work`. -/
def request {σ ρ : Type} (m : Mgr σ) (k : Kind) (r : Req) (fresh : Bytes) (now : Int) (e : Eng σ ρ) : Mgr σ × Out ρ :=
  match m.find r.id with
  | some s => work m s k r now e
  | none =>
    if r.id ≠ [] then (m, .expired)
    else if (m.find fresh).isSome then (⟨[]⟩, .crash)
    else work m ⟨fresh, r.limit, none, now⟩ k r now e

/-- `FLAGS_stream_expire_interval_ms`, `common/stream.cc:28`. -/
def interval : Int := 60000

/-- `RecycleExpireStream`, `common/stream.cc:120-131`. -/
def recycle {σ : Type} (m : Mgr σ) (now : Int) : Mgr σ :=
  ⟨m.streams.filter (fun s => !decide (s.last < now - interval))⟩

/-- What happens at a store. -/
inductive Op (σ ρ : Type)
  | req (k : Kind) (r : Req) (fresh : Bytes) (now : Int) (e : Eng σ ρ)
  | tick (now : Int)

/-- One step, with its answer if it is a request. -/
def step {σ ρ : Type} (m : Mgr σ) : Op σ ρ → Mgr σ × Option (Out ρ)
  | .req k r f t e => ((request m k r f t e).1, some (request m k r f t e).2)
  | .tick t => (recycle m t, none)

/-- A history, with the operations and their answers. -/
def run {σ ρ : Type} : Mgr σ → List (Op σ ρ) → List (Op σ ρ × Option (Out ρ))
  | _, [] => []
  | m, o :: l => (o, (step m o).2) :: run (step m o).1 l

end Verif.Stream
