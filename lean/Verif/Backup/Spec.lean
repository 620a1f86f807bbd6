import Verif.Backup.Model
import Verif.Txn.GcSpec

/-!
# Backup and restore: specification vocabulary
-/

namespace Verif.Backup
open Verif.Codec Verif.Txn

/-- `w`, committed at `c`, is what the newest transaction committed on `k` at or below `tso`
has written. -/
def Newest (st : State) (tso : Int) (k : Bytes) (c : Int) (w : WriteInfo) : Prop :=
  (⟨k, c⟩, w) ∈ st.write.l ∧ c ≤ tso ∧ (w.op = .put ∨ w.op = .delete) ∧
    ∀ s' c', CommittedOn st k s' c' → c' ≤ tso → c' ≤ c

/-- `st'` is `st` with the records of `f` put into it, and nothing else changed. -/
def Holds (f : Files) (st st' : State) : Prop :=
  st'.lock = st.lock ∧ st'.maxTs = st.maxTs ∧
  (∀ k w, (k, w) ∈ f.write → (k, w) ∈ st'.write.l) ∧
  (∀ k, (∀ w, (k, w) ∉ f.write) → ∀ w, (k, w) ∈ st'.write.l ↔ (k, w) ∈ st.write.l) ∧
  (∀ k v, (k, v) ∈ f.data → (k, v) ∈ st'.data.l) ∧
  (∀ k, (∀ v, (k, v) ∉ f.data) → ∀ v, (k, v) ∈ st'.data.l ↔ (k, v) ∈ st.data.l)

/-- No key occurs twice in a file. -/
def Files.Distinct (f : Files) : Prop :=
  (f.write.map Prod.fst).Nodup ∧ (f.data.map Prod.fst).Nodup

/-- The number of records and index operations in a request. -/
def RReq.items (r : RReq) : Nat := r.data.length + r.write.length + r.add.length + r.del.length

/-- The bytes in a request. -/
def RReq.bytes (c : Conf) (r : RReq) : Nat :=
  (r.data.map (fun e => c.key e.1 + c.value e.2)).sum + (r.write.map (fun e => c.key e.1 + c.write e.2)).sum +
    (r.add.map c.item).sum

end Verif.Backup

namespace Verif.Backup
open Verif.Codec Verif.Txn

/-- The value that goes with a write record of a backup: in the record, or in the other file. -/
def HasValue (f : Files) (e : VKey × WriteInfo) (v : Bytes) : Prop :=
  (e.2.shortValue ≠ [] ∧ v = e.2.shortValue) ∨
  (e.2.shortValue = [] ∧ ((⟨e.1.key, e.2.startTs⟩ : VKey), v) ∈ f.data)

end Verif.Backup
