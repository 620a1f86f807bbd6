import Verif.Txn.Gc
import Verif.Txn.Spec

/-!
# Garbage collection: specification vocabulary
-/

namespace Verif.Txn
open Verif.Codec

/-- Key `k` is in the region. -/
def InRegion (start stop k : Bytes) : Prop := ¬ k < start ∧ k < stop

/-- All batches written, one after the other. -/
def applyAll (bs : List GcBatch) (st : State) : State := bs.foldl (fun st b => b.apply st) st

/-- A GC job with safe point `sp` and the batches `plan`, started in state `st`, runs
while the store serves other requests: `GcRun D sp plan st left st'` says that the
store has come to state `st'` and `left` are the batches not yet written.  A batch can
be written, or lost (a failed write is logged and the job goes on); the job may stop
anywhere.  The other requests keep the discipline and commit nothing at or below the
safe point. -/
inductive GcRun (D : Bytes → TsOwner) (sp : Int) (plan : List GcBatch) (st : State) :
    List GcBatch → State → Prop
  | start : GcRun D sp plan st plan st
  | req {left : List GcBatch} {st' : State} {r : Req} (h : GcRun D sp plan st left st') (hv : r.Valid)
      (hd : r.Disc D st')
      (hl : ∀ k s c, c ≤ sp → CommittedOn (step st' r).1 k s c → CommittedOn st' k s c) :
      GcRun D sp plan st left (step st' r).1
  | write {left : List GcBatch} {st' : State} {b : GcBatch} (h : GcRun D sp plan st (b :: left) st') :
      GcRun D sp plan st left (b.apply st')
  | lost {left : List GcBatch} {st' : State} {b : GcBatch} (h : GcRun D sp plan st (b :: left) st') :
      GcRun D sp plan st left st'

/-- States reached by disciplined histories in which GC jobs run. -/
inductive GcReachable (D : Bytes → TsOwner) : State → Prop
  | init : GcReachable D State.init
  | req {st : State} {r : Req} (h : GcReachable D st) (hv : r.Valid) (hd : r.Disc D st) :
      GcReachable D (step st r).1
  | gc {st st' : State} {sp : Int} {n : Nat} {start stop : Bytes} {stops : List Bool} {left : List GcBatch}
      (h : GcReachable D st) (hr : GcRun D sp (gcPlan st sp n start stop stops) st left st') : GcReachable D st'

/-- States reached by any history of valid requests, with or without discipline, in
which records may be removed by GC at any time (here: any records). -/
inductive ValidReachable : State → Prop
  | init : ValidReachable State.init
  | req {st : State} {r : Req} (h : ValidReachable st) (hv : r.Valid) : ValidReachable (step st r).1
  | gc {st : State} (h : ValidReachable st) (b : GcBatch) : ValidReachable (b.apply st)

end Verif.Txn
