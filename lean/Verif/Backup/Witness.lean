import Verif.Backup.Props
import Verif.Txn.PropsRead

/-! # Backup and restore: concrete cases, and what does not hold -/

namespace Verif.Backup
open Verif.Codec Verif.Txn

/-- Limits under which every request holds one item, and a format in which every value parses. -/
def conf1 : Conf where
  maxSize := 1000000
  maxCount := 0
  key := fun k => k.key.length + 8
  write := fun w => w.shortValue.length + 8
  value := List.length
  parses := fun _ => true
  item := List.length
  id := fun k => k.length

/-- A state as stores are in: transaction 10 has written two keys, one with a long value, 20
was rolled back, 30 has deleted `kA`, 40 holds a lock on `kB`. -/
def files20 : Files :=
  { write := [(⟨kA, 15⟩, ⟨10, .put, vA⟩), (⟨kB, 15⟩, ⟨10, .put, []⟩)], data := [(⟨kB, 10⟩, vLong)] }

def files35 : Files :=
  { write := [(⟨kA, 31⟩, ⟨30, .delete, []⟩), (⟨kB, 15⟩, ⟨10, .put, []⟩)], data := [(⟨kB, 10⟩, vLong)] }

theorem backup20 : backup sampleState 20 [1] [2] = .ok files20 := by decide +kernel
theorem backup35 : backup sampleState 35 [1] [2] = .ok files35 := by decide +kernel

/-- C103_backup, hypotheses met, and the backups of the sample state at two times, and of a part
of the region. -/
example : GcReachable sampleRoles.spec sampleState ∧ ([1] : Bytes) ≠ [] ∧
    backup sampleState 20 [1] [2] = .ok files20 ∧ backup sampleState 35 [1] [2] = .ok files35 ∧
    backup sampleState 14 [1] [2] = .ok {} ∧
    backup sampleState 35 [1, 0] [2] = .ok { write := [(⟨kB, 15⟩, ⟨10, .put, []⟩)], data := [(⟨kB, 10⟩, vLong)] } :=
  ⟨sample_gc, by decide, backup20, backup35, by decide +kernel, by decide +kernel⟩

/-- C103_restored: the sample state backed up at 35 and restored, and a read of the copy. -/
example : (step (applyReqs (restoreData conf1 .store files35 []).2 State.init) (.get .si 40 [] [kA, kB])).2 =
    .get (.ok { kvs := [(kA, []), (kB, vLong)] }) := by decide +kernel

/-- C103_repeat_partial, hypotheses met: a read at 35 has been served (by the history below),
then transaction 40 commits at 45. -/
example : 35 ≤ (run sampleState [.get .si 35 [] [kA]]).maxTs ∧ CommitsAbove 35 [.commit 40 45 [kB]] ∧
    disciplinedB sampleRoles (run sampleState [.get .si 35 [] [kA]]) [.commit 40 45 [kB]] = true ∧
    run sampleState [.get .si 35 [] [kA], .commit 40 45 [kB]] ≠ sampleState := by
  refine ⟨by decide +kernel, ?_, by decide +kernel, by decide +kernel⟩
  intro r hr
  rw [List.mem_singleton.1 hr]
  decide

/-- Clients that do not keep the discipline: transaction 10 asks for a pessimistic lock on a
key on which it has committed. -/
def wildHist : List Req :=
  [.prewrite { mutations := [{ op := .put, key := kA, value := vA }], primary := kA, startTs := 10, ttl := 100 },
   .commit 10 15 [kA],
   .pessimisticLock { mutations := [⟨.lock, kA, []⟩], primary := kA, startTs := 10, ttl := 100, forUpdateTs := 40,
                      returnValues := false }]

/-- C103_refused: both cases occur. -/
example : backup (run State.init wildHist) 20 [1] [2] = .foundLock kA ∧
    backup (run State.init wildHist) 14 [1] [2] = .ok {} ∧ AllValid wildHist := by
  refine ⟨by decide +kernel, by decide +kernel, ?_⟩
  intro r hr
  simp only [wildHist, List.mem_cons, List.not_mem_nil, or_false] at hr
  rcases hr with rfl | rfl | rfl <;> decide

/-! ## Transactions that are not yet over -/

/-- Transaction 10 has written both keys; transaction 20 has written both again and has been
committed at 25 on its primary key `kA`; its commit on `kB` is under way. -/
def tornHist : List Req :=
  [.prewrite { mutations := [{ op := .put, key := kA, value := [7] }, { op := .put, key := kB, value := [7] }],
               primary := kA, startTs := 10, ttl := 100 },
   .commit 10 15 [kA, kB],
   .prewrite { mutations := [{ op := .put, key := kA, value := [8] }, { op := .put, key := kB, value := [8] }],
               primary := kA, startTs := 20, ttl := 100 },
   .commit 20 25 [kA]]

/-- C103, the full claim that a backup at `tso` holds the transactions committed at or below
`tso`, whole: false.  The store takes the backup although a transaction committed at 25 is still
locked on one of its keys; the copy holds its write on `kA` and not the one on `kB`.  A read
at 28 of the original is told of the lock, and once the commit arrives reads both writes.
(The backup tool asks the coordinator that locks up to `tso` have been resolved; the store
does not look.) -/
theorem C103_torn_false : ∃ (st : State) (f : Files) (rs : List RReq), Reachable sampleRoles.spec st ∧
    backup st 28 [1] [2] = .ok f ∧ restoreData conf1 .store f [] = (some true, rs) ∧
    (step (applyReqs rs State.init) (.get .si 28 [] [kA, kB])).2 = .get (.ok { kvs := [(kA, [8]), (kB, [7])] }) ∧
    (∃ l, (step st (.get .si 28 [] [kB])).2 = .get (.ok { result := some (.locked l) }) ∧ l.primary = kA ∧ l.lockTs = 20) ∧
    (step st (.get .si 28 [] [kA])).2 = .get (.ok { kvs := [(kA, [8])] }) ∧
    Disciplined sampleRoles.spec st [.commit 20 25 [kB]] ∧
    (step (run st [.commit 20 25 [kB]]) (.get .si 28 [] [kA, kB])).2 = .get (.ok { kvs := [(kA, [8]), (kB, [8])] }) := by
  refine ⟨run State.init tornHist,
    { write := [(⟨kA, 25⟩, ⟨20, .put, [8]⟩), (⟨kB, 15⟩, ⟨10, .put, [7]⟩)], data := [] },
    (restoreData conf1 .store { write := [(⟨kA, 25⟩, ⟨20, .put, [8]⟩), (⟨kB, 15⟩, ⟨10, .put, [7]⟩)], data := [] } []).2,
    reachable_of (by decide +kernel), by decide +kernel, by decide +kernel, by decide +kernel,
    ⟨((run State.init tornHist).lock.get kB).get (by decide +kernel), by decide +kernel, by decide +kernel,
      by decide +kernel⟩, by decide +kernel, disciplinedB_sound (by decide +kernel), by decide +kernel⟩

/-- C103, the claim that no transaction commits at or below the time of a backup once it has
been taken: false, also with no lock in the region.  The store does not note that the region
has been read at 35, and a one-phase commit that arrives afterwards is given the timestamp
31. -/
theorem C103_onepc_false : ∃ (st : State) (r : Req) (f : Files), Reachable sampleRoles.spec st ∧
    (∀ k l, ¬ LockOn st k l) ∧ backup st 35 [1] [2] = .ok f ∧ Disciplined sampleRoles.spec st [r] ∧
    CommitsAbove 35 [r] ∧ (∃ f', backup (run st [r]) 35 [1] [2] = .ok f' ∧ f' ≠ f) ∧
    CommittedOn (run st [r]) kA 30 31 := by
  refine ⟨run State.init (tornHist.take 2),
    .prewrite { mutations := [{ op := .put, key := kA, value := [9] }], primary := kA, startTs := 30, ttl := 100,
                tryOnePc := true },
    { write := [(⟨kA, 15⟩, ⟨10, .put, [7]⟩), (⟨kB, 15⟩, ⟨10, .put, [7]⟩)], data := [] },
    reachable_of (by decide +kernel), ?_, by decide +kernel, disciplinedB_sound (by decide +kernel), ?_,
    ⟨{ write := [(⟨kA, 31⟩, ⟨30, .put, [9]⟩), (⟨kB, 15⟩, ⟨10, .put, [7]⟩)], data := [] }, by decide +kernel,
      by decide +kernel⟩, ?_⟩
  · have h0 : (run State.init (tornHist.take 2)).lock.l = [] := by decide +kernel
    intro k l hl
    simp only [LockOn, h0] at hl
    cases hl
  · intro r hr
    rw [List.mem_singleton.1 hr]
    trivial
  · exact ⟨⟨30, .put, [9]⟩, by decide +kernel, rfl, Or.inl rfl⟩

/-! ## Restores that fail -/

/-- C104_all_partial, hypotheses met, for a plain region and for one with an index. -/
example : files20.Distinct ∧ (∀ e ∈ files20.write, e.2.op = .put ∧ ∃ v, HasValue files20 e v ∧ conf1.parses v = true) ∧
    restoreData conf1 .indexed files20 [.ok, .ok] =
      (some true, [{ add := [vA] }, { add := [vLong] }, { data := files20.data },
        { write := [(⟨kA, 15⟩, ⟨10, .put, vA⟩)] }, { write := [(⟨kB, 15⟩, ⟨10, .put, []⟩)] }, {}]) := by
  refine ⟨by unfold Files.Distinct; decide, ?_, by decide +kernel⟩
  intro e he
  simp only [files20, List.mem_cons, List.not_mem_nil, or_false] at he
  rcases he with rfl | rfl
  · exact ⟨rfl, vA, Or.inl ⟨by decide, rfl⟩, rfl⟩
  · exact ⟨rfl, vLong, Or.inr ⟨rfl, by simp [files20]⟩, rfl⟩

/-- C104_size: the limit on bytes is met by the requests of the sample, and is passed by the
long value. -/
example : ((restoreData { conf1 with maxSize := 50, maxCount := 100 } .indexed files20 []).2.map (RReq.bytes conf1)) =
    [301, 310, 36] := by decide +kernel

/-- C104_stopped and C104_cut: a restore stopped after two writes has put the value and one
write record into the region. -/
example : (restoreData conf1 .store files20 [.ok, .ok, .perm]).2 =
      [{ data := files20.data }, { write := [(⟨kA, 15⟩, ⟨10, .put, vA⟩)] }] ∧
    ∃ e, e ∈ ((restoreData conf1 .store files20 []).2.take 2).flatMap RReq.write :=
  ⟨by decide +kernel, (⟨kA, 15⟩, ⟨10, .put, vA⟩), by decide +kernel⟩

/-- C104, the claim that a restore that fails is answered with an error: false for every
region, every backup and whatever becomes of the writes.  The status looked at is that of
opening the last file. -/
theorem C104_answer_false (c : Conf) (k : Kind) (f : Files) (res : List WRes) :
    (restoreData c k f res).1 ≠ some false := by
  unfold restoreData
  split
  · simp
  · split <;> simp

/-- C104, such an answer: the store is no longer leader, nothing has been restored, the client
is told that all is well. -/
theorem C104_nothing_false : ∃ (st : State) (f : Files), Reachable sampleRoles.spec st ∧
    backup st 20 [1] [2] = .ok f ∧ f.write ≠ [] ∧ (restoreTxn conf1 .store f [.perm]).1 = .notLeader ∧
    restoreData conf1 .store f [.perm] = (some true, []) :=
  ⟨sampleState, files20, sample_reachable, backup20, by decide, by decide +kernel, by decide +kernel⟩

/-- C104, the claim that a restored region holds what was backed up: false when one of the
writes fails, even by the answer that `RestoreTxn` gives itself.  The data record is lost, the
write record is not, and the key reads as absent. -/
theorem C104_lost_false : ∃ (st : State) (f : Files), Reachable sampleRoles.spec st ∧
    backup st 20 [1] [2] = .ok f ∧ (restoreTxn conf1 .store f [.failed false]).1 = .ok ∧
    (step st (.get .si 20 [] [kB])).2 = .get (.ok { kvs := [(kB, vLong)] }) ∧
    (step (applyReqs (restoreTxn conf1 .store f [.failed false]).2 State.init) (.get .si 20 [] [kB])).2 =
      .get (.ok { kvs := [(kB, [])] }) :=
  ⟨sampleState, files20, sample_reachable, backup20, by decide +kernel, by decide +kernel, by decide +kernel⟩

/-- C104, the claim that the backup of an index or document region can be restored: false when
it holds a deletion.  The restore gives up before it has put any record into the region, and
answers success. -/
theorem C104_index_false : ∃ (st : State) (f : Files), Reachable sampleRoles.spec st ∧
    backup st 35 [1] [2] = .ok f ∧ (∃ e ∈ f.write, e.2.op = .delete ∧ ∀ v, ¬ HasValue f e v) ∧
    (restoreTxn conf1 .indexed f []).1 = .internal ∧ (restoreTxn conf1 .plainIndex f []).1 = .internal ∧
    (restoreData conf1 .indexed f []).1 = some true ∧ (restoreData conf1 .plainIndex f []).1 = some true ∧
    applyReqs (restoreData conf1 .indexed f []).2 State.init = State.init := by
  refine ⟨sampleState, files35, sample_reachable, backup35,
    ⟨(⟨kA, 31⟩, ⟨30, .delete, []⟩), by simp [files35], rfl, ?_⟩, by decide +kernel, by decide +kernel,
    by decide +kernel, by decide +kernel, by decide +kernel⟩
  rintro v (⟨h, _⟩ | ⟨_, h⟩)
  · exact h rfl
  · revert h
    simp only [files35, List.mem_singleton, Prod.mk.injEq]
    intro h
    exact absurd h.1 (by decide)

end Verif.Backup
