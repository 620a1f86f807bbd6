import Verif.RawBackup.Props

/-! # Backup and restore without transactions: concrete cases, and what does not hold -/

namespace Verif.RawBackup
open Verif.Codec Verif.Mvcc Verif.Backup

/-- Requests of one record. -/
def conf1 : RawConf where
  maxSize := 1000000
  maxCount := 0
  parses := fun _ => true
  item := List.length
  id := List.length

/-- A history with overwrites, a deletion and a key that expires. -/
def sampleHist : List Op :=
  [.put 3 0 [([97], [1]), ([97, 0], [2]), ([98], [3])], .put 5 100 [([97], [9])], .delete 0 7 [[98]],
   .put 9 0 [([99], [4])]]

theorem sample_valid : ∀ op ∈ sampleHist, op.Valid := by
  intro op h
  simp only [sampleHist, List.mem_cons, List.not_mem_nil, or_false] at h
  rcases h with rfl | rfl | rfl | rfl
  · exact ⟨by constructor <;> decide, by constructor <;> decide⟩
  · exact ⟨by constructor <;> decide, by constructor <;> decide⟩
  · exact ⟨by decide, by decide⟩
  · exact ⟨by constructor <;> decide, by constructor <;> decide⟩

def sampleStore : Store := sampleHist.foldl exec []

theorem sample_wf : WFStore sampleStore := (C08_history sampleHist sample_valid).1

/-- The backups at 4 and at 8 of the sample, and of the part from `a\0` on. -/
def file4 : List Entry :=
  [Rec.enc ⟨[97], 3, .put [1]⟩, Rec.enc ⟨[97, 0], 3, .put [2]⟩, Rec.enc ⟨[98], 3, .put [3]⟩]
def file8 : List Entry :=
  [Rec.enc ⟨[97], 5, .putTTL 100 [9]⟩, Rec.enc ⟨[97, 0], 3, .put [2]⟩, Rec.enc ⟨[98], 7, .del⟩]

theorem backup4 : rawBackup sampleStore 4 [97] [122] = some file4 := by decide +kernel
theorem backup8 : rawBackup sampleStore 8 [97] [122] = some file8 := by decide +kernel

/-- C105_backup, hypotheses met, with what the backups are. -/
example : WFStore sampleStore ∧ ([97] : Bytes) ≠ [] ∧ rawBackup sampleStore 4 [97] [122] = some file4 ∧
    rawBackup sampleStore 8 [97] [122] = some file8 ∧ rawBackup sampleStore 2 [97] [122] = some [] ∧
    rawBackup sampleStore 8 [97, 0] [98] = some [Rec.enc ⟨[97, 0], 3, .put [2]⟩] :=
  ⟨sample_wf, by decide, backup4, backup8, by decide +kernel, by decide +kernel⟩

/-- C105_restored: the copy of the backup at 8, read before and after the expiry. -/
example : (restoreStore conf1 file8 [.ok, .ok]).1 = .ok ∧
    kvScan (applyKvs (restoreStore conf1 file8 [.ok, .ok]).2 []) 50 0 [97] [122] =
      .ok [([97], 5, [9]), ([97, 0], 3, [2])] ∧
    kvScan (applyKvs (restoreStore conf1 file8 [.ok, .ok]).2 []) 150 0 [97] [122] = .ok [([97, 0], 3, [2])] := by
  refine ⟨?_, ?_, ?_⟩ <;> decide +kernel

/-- C105_repeat_partial, hypotheses met: key `a` is written at 11 and `b` deleted at 12. -/
example : ∀ op ∈ ([.put 11 0 [([97], [7])], .delete 0 12 [[98]]] : List Op), op.Valid ∧ WritesAbove 8 op := by
  intro op h
  simp only [List.mem_cons, List.not_mem_nil, or_false] at h
  rcases h with rfl | rfl
  · exact ⟨⟨by constructor <;> decide, by constructor <;> decide⟩, by show (8 : Int) < 11; decide⟩
  · exact ⟨⟨by decide, by decide⟩, by show (8 : Int) < 12; decide⟩

/-- C105_stopped and C105_only: three requests; the second is refused. -/
example : (restoreStore conf1 file8 []).2.length = 3 ∧
    (restoreStore conf1 file8 (List.replicate 1 .ok ++ .perm :: [])) = (.notLeader, [file8.take 1]) := by
  constructor <;> decide +kernel

/-- C105_document: a restore in one request, with a deletion. -/
example : (restoreDoc { conf1 with maxCount := 100 } file8 []).2.map (fun x => (x.add.map (·.2), x.del.length)) =
    [([[9], [2]], 1)] := by decide +kernel

/-- C105, the claim that a backup at `tso` holds all that is read at `tso` from then on: false.
A put takes its timestamp before it is applied; one with a timestamp below `tso` may be applied
after the backup, and nothing holds it back. -/
theorem C105_late_false : ∃ (st : Store) (op : Op) (f : List Entry), WFStore st ∧ op.Valid ∧
    rawBackup st 8 [97] [122] = some f ∧ (∃ f', rawBackup (exec st op) 8 [97] [122] = some f' ∧ f' ≠ f) ∧
    kvGet (exec st op) 50 8 [97] = .value [6] ∧
    kvGet (applyKvs (restoreStore conf1 f []).2 []) 50 8 [97] = .value [9] :=
  ⟨sampleStore, .put 6 0 [([97], [6])], file8, sample_wf,
    ⟨by constructor <;> decide, by constructor <;> decide⟩, backup8,
    ⟨Rec.enc ⟨[97], 6, .put [6]⟩ :: file8.tail, by decide +kernel, by decide +kernel⟩,
    by decide +kernel, by decide +kernel⟩

/-- C105, the claim that a restore that fails is answered with an error: false whatever became of
the writes. -/
theorem C105_answer_false (c : RawConf) (f : List Entry) (res : List WRes) :
    answer (restoreStore c f res).1 ≠ some false ∧ answer (restoreDoc c f res).1 ≠ some false := by
  constructor <;> (unfold answer; split <;> simp)

/-- C105, concretely: nothing at all is written, and success is answered. -/
theorem C105_nothing_false : ∃ (st : Store) (f : List Entry), WFStore st ∧
    rawBackup st 8 [97] [122] = some f ∧ f ≠ [] ∧ restoreStore conf1 f [.perm] = (.notLeader, []) ∧
    answer (restoreStore conf1 f [.perm]).1 = some true :=
  ⟨sampleStore, file8, sample_wf, backup8, by decide +kernel, by decide +kernel, by decide +kernel⟩

/-- C105, the claim that a restore whose own status is success has put everything back: false.
An error other than a loss of leadership is forgotten by the next write. -/
theorem C105_lost_false : ∃ (st : Store) (f : List Entry), WFStore st ∧
    rawBackup st 8 [97] [122] = some f ∧ (restoreStore conf1 f [.failed false]).1 = .ok ∧
    kvGet st 50 8 [97] = .value [9] ∧
    kvGet (applyKvs (restoreStore conf1 f [.failed false]).2 []) 50 8 [97] = .notFound :=
  ⟨sampleStore, file8, sample_wf, backup8, by decide +kernel, by decide +kernel, by decide +kernel⟩

end Verif.RawBackup
