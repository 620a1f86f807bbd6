import Verif.Txn.Model

/-!
# Transaction engine: specification vocabulary

What the property theorems are stated with.  Everything is phrased over the raw
contents of the column families (membership in their entry lists), without the
readers of the model.
-/

namespace Verif.Txn
open Verif.Codec

/-- Key `k` carries lock `l`. -/
def LockOn (st : State) (k : Bytes) (l : LockInfo) : Prop := (k, l) ∈ st.lock.l

/-- Transaction `s` is recorded as committed on `k` at `c`. -/
def CommittedOn (st : State) (k : Bytes) (s c : Int) : Prop :=
  ∃ w, (⟨k, c⟩, w) ∈ st.write.l ∧ w.startTs = s ∧ (w.op = .put ∨ w.op = .delete)

/-- Transaction `s` is recorded as rolled back on `k`. -/
def RolledBackOn (st : State) (k : Bytes) (s : Int) : Prop :=
  ∃ w, (⟨k, s⟩, w) ∈ st.write.l ∧ w.startTs = s ∧ w.op = .rollback

/-- Transaction `s`, committed on `k` at `c`, wrote `v` there (`none`: deleted it). -/
def Wrote (st : State) (k : Bytes) (s c : Int) : Option Bytes → Prop
  | some v => ∃ w, (⟨k, c⟩, w) ∈ st.write.l ∧ w.startTs = s ∧ w.op = .put ∧
      (w.shortValue ≠ [] ∧ v = w.shortValue ∨ w.shortValue = [] ∧ (⟨k, s⟩, v) ∈ st.data.l)
  | none => ∃ w, (⟨k, c⟩, w) ∈ st.write.l ∧ w.startTs = s ∧ w.op = .delete

/-- Transaction `s` holds a prewritten lock on `k` that would write `v`. -/
def Pending (st : State) (k : Bytes) (s : Int) : Option Bytes → Prop
  | some v => ∃ l, LockOn st k l ∧ l.lockTs = s ∧ l.type = .put ∧
      (l.shortValue ≠ [] ∧ v = l.shortValue ∨ l.shortValue = [] ∧ (⟨k, s⟩, v) ∈ st.data.l)
  | none => ∃ l, LockOn st k l ∧ l.lockTs = s ∧ l.type = .delete

/-- What a mutation asks to write: `some none` is a deletion, `none` nothing. -/
def Mut.effect (m : Mut) : Option (Option Bytes) :=
  match m.op with
  | .put | .putIfAbsent => some (some m.value)
  | .delete => some none
  | _ => none

/-- What a snapshot at `ts` contains for `k`: the write of the newest transaction
committed at or below `ts`. -/
def Snapshot (st : State) (k : Bytes) (ts : Int) (v : Option Bytes) : Prop :=
  (v = none ∧ ∀ s c, CommittedOn st k s c → ts < c) ∨
  ∃ s c, c ≤ ts ∧ Wrote st k s c v ∧ ∀ s' c', CommittedOn st k s' c' → c' ≤ ts → c' ≤ c

/-- `TxnGet` reports an absent key as an empty value. -/
def valueOf (v : Bytes) : Option Bytes := if v = [] then none else some v

/-- Lock `l` stands in the way of a snapshot read at `ts` by a client that has
resolved the transactions in `resolved`. -/
def Blocks (l : LockInfo) (ts : Int) (resolved : List Int) : Prop :=
  l.lockTs ∉ resolved ∧ l.minCommitTs ≤ ts ∧ (if 0 < l.forUpdateTs then l.forUpdateTs else l.lockTs) < ts

/-! ## Discipline of clients and of the timestamp oracle -/

/-- Which timestamps are start timestamps of transactions on a key, and which
transaction owns a commit timestamp. -/
structure TsOwner where
  start : Int → Prop
  owner : Int → Int

/-- `c` is a commit timestamp of transaction `s`, and no start timestamp. -/
def TsOwner.commitOf (D : TsOwner) (s c : Int) : Prop := ¬ D.start c ∧ D.owner c = s

/-- The discipline of a request sent in state `st`, given the roles `D k` of the
timestamps used on each key `k`:
* start timestamps are start timestamps, commit timestamps (also those chosen by
  the store for one-phase commits) are commit timestamps of that transaction;
* a pessimistic prewrite or lock that finds no lock is not sent for a transaction
  already committed on the key;
* `PessimisticLock` is not sent over a lock that the transaction has prewritten. -/
def Req.Disc (D : Bytes → TsOwner) (st : State) (r : Req) : Prop :=
  match r with
  | .get .. | .pessimisticRollback .. | .heartBeat .. => True
  | .pessimisticLock q => ∀ m ∈ q.mutations, (D m.key).start q.startTs ∧
      ((¬ ∃ l, LockOn st m.key l) → ∀ c, ¬ CommittedOn st m.key q.startTs c) ∧
      ∀ l, LockOn st m.key l → l.lockTs = q.startTs → l.type = .lock
  | .prewrite q => ∀ m ∈ q.mutations, (D m.key).start q.startTs ∧
      (m.pess = true → (¬ ∃ l, LockOn st m.key l) → ∀ c, ¬ CommittedOn st m.key q.startTs c) ∧
      ∀ resp, (step st (.prewrite q)).2 = .prewrite (.ok resp) → 0 < resp.onePcTs →
        (D m.key).commitOf q.startTs resp.onePcTs
  | .commit s c keys => ∀ k ∈ keys, ∀ l, LockOn st k l → l.lockTs = s → (D k).commitOf s c
  | .resolveLock s c keys => 0 < c → ∀ k ∈ keys, ∀ l, LockOn st k l → l.lockTs = s → (D k).commitOf s c
  | .batchResolve infos => ∀ i ∈ infos, 0 < i.2 → ∀ k l, LockOn st k l → l.lockTs = i.1 →
      (D k).commitOf i.1 i.2
  | .batchRollback s keys => ∀ k ∈ keys, (D k).start s
  | .checkTxnStatus q => (D q.primaryKey).start q.lockTs
  | .checkSecondary s keys => ∀ k ∈ keys, (D k).start s

/-- A history of valid requests that keeps the discipline. -/
def Disciplined (D : Bytes → TsOwner) : State → List Req → Prop
  | _, [] => True
  | st, r :: rs => r.Valid ∧ r.Disc D st ∧ Disciplined D (step st r).1 rs

/-- States reached by disciplined histories. -/
def Reachable (D : Bytes → TsOwner) (st : State) : Prop :=
  ∃ rs, Disciplined D State.init rs ∧ st = run State.init rs

/-- A history of valid requests. -/
def AllValid (rs : List Req) : Prop := ∀ r ∈ rs, r.Valid

/-- Only optimistic transactions: no pessimistic locks and no pessimistic checks. -/
def Optimistic (rs : List Req) : Prop :=
  ∀ r ∈ rs, match r with
    | .pessimisticLock _ => False
    | .prewrite q => ∀ m ∈ q.mutations, m.pess = false
    | _ => True

/-- All commit timestamps sent by clients are above `ts`. -/
def CommitsAbove (ts : Int) (rs : List Req) : Prop :=
  ∀ r ∈ rs, match r with
    | .commit _ c _ => ts < c
    | .resolveLock _ c _ => 0 < c → ts < c
    | .batchResolve infos => ∀ i ∈ infos, 0 < i.2 → ts < i.2
    | _ => True

/-- The request acts on behalf of transaction `s`. -/
def Req.actsFor (r : Req) (s : Int) : Prop :=
  match r with
  | .get .. => False
  | .pessimisticLock q => q.startTs = s
  | .pessimisticRollback s' _ _ => s' = s
  | .prewrite q => q.startTs = s
  | .commit s' _ _ => s' = s
  | .batchRollback s' _ => s' = s
  | .checkTxnStatus q => q.lockTs = s
  | .checkSecondary s' _ => s' = s
  | .resolveLock s' _ _ => s' = s
  | .batchResolve infos => ∃ c, (s, c) ∈ infos
  | .heartBeat _ s' _ => s' = s

end Verif.Txn
