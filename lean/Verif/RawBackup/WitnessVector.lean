import Verif.RawBackup.PropsVector
import Verif.RawBackup.Witness

/-! # Backup and restore of vector regions: concrete cases, and what does not hold -/

namespace Verif.RawBackup
open Verif.Codec Verif.Mvcc Verif.Backup

/-- Requests of one vector or record. -/
def confV : VConf where
  maxSize := 1000000
  maxCount := 0
  parses := fun _ => true
  size := fun _ => 0

/-- Vectors `a` and `b` are added, `a` again with an expiry, `b` is deleted, `c` is added late. -/
def vecHist : List VOp :=
  [.add 3 0 [⟨[97], [1], [11], [21], fun _ => [31]⟩, ⟨[98], [2], [12], [22], fun _ => [32]⟩],
   .add 5 100 [⟨[97], [9], [19], [29], fun _ => [39]⟩], .delete 7 [[98]],
   .add 9 0 [⟨[99], [4], [14], [24], fun _ => [34]⟩]]

theorem vecHist_valid : ∀ op ∈ vecHist, op.Valid := by
  intro op h
  simp only [vecHist, List.mem_cons, List.not_mem_nil, or_false] at h
  rcases h with rfl | rfl | rfl | rfl
  · exact ⟨by constructor <;> decide, by constructor <;> decide⟩
  · exact ⟨by constructor <;> decide, by constructor <;> decide⟩
  · exact ⟨by decide, by decide⟩
  · exact ⟨by constructor <;> decide, by constructor <;> decide⟩

/-- The key of a version of the sample. -/
def vkey (k : Bytes) (ts : Int) : Bytes := (Rec.enc ⟨k, ts, .del⟩).1

/-- The backup at 8 of the sample with one field for speed-up. -/
def vfile8 : VFiles where
  data := [(vkey [97] 5, Ver.pkg (.putTTL 100 [9])), (vkey [98] 7, Ver.pkg .del)]
  scalar := [(vkey [97] 5, Ver.pkg (.putTTL 100 [19])), (vkey [98] 7, Ver.pkg .del)]
  table := [(vkey [97] 5, Ver.pkg (.putTTL 100 [29])), (vkey [98] 7, Ver.pkg .del)]
  speed := [((vkey [97] 5, [102]), Ver.pkg (.putTTL 100 [39])), ((vkey [98] 7, [102]), Ver.pkg .del)]

theorem vbackup8 : vecBackup (vecHist.foldl (vexec [[102]]) {}) [[102]] 8 [97] [122] = some vfile8 := by decide +kernel

/-- C106_backup, hypotheses met, with what the backups are: with one field, and with two or none. -/
example : ([[102]] : List Bytes).Nodup ∧ ([97] : Bytes) ≠ [] ∧
    vecBackup (vecHist.foldl (vexec [[102]]) {}) [[102]] 8 [97] [122] = some vfile8 ∧
    ((vecBackup (vecHist.foldl (vexec [[102], [103]]) {}) [[102], [103]] 8 [97] [122]).map (·.speed.length)) = some 4 ∧
    vecBackup (vecHist.foldl (vexec []) {}) [] 8 [97] [122] = some { vfile8 with speed := [] } := by
  refine ⟨by decide, by decide, vbackup8, ?_, ?_⟩ <;> decide +kernel

/-- C106_restored and C106_copy: the index is given `a` as of 5 and not `b`, whichever way the
records are matched (with one field by place, with two by key). -/
example : ((vecRestore confV vfile8 []).2.flatMap VReq.vecs) = [⟨vkey [97] 5, [9], some [19], some [29]⟩] ∧
    (vecRestore confV vfile8 []).2.length = 9 ∧
    ((vecBackup (vecHist.foldl (vexec [[102], [103]]) {}) [[102], [103]] 8 [97] [122]).map
      (fun f => (vecRestore confV f []).2.flatMap VReq.vecs)) = some [⟨vkey [97] 5, [9], some [19], some [29]⟩] ∧
    kvGet (applyV (vecRestore confV vfile8 []).2 {}).data 50 0 [97] = .value [9] ∧
    kvGet (applyV (vecRestore confV vfile8 []).2 {}).data 50 0 [98] = .notFound := by
  refine ⟨?_, ?_, ?_, ?_, ?_⟩ <;> decide +kernel

/-- The format hypothesis of C106_restored is met by the sample. -/
example : ∀ (k : Bytes) (v : Ver), v ≠ .del → (k, v.pkg) ∈ vfile8.data ∨ (k, v.pkg) ∈ vfile8.scalar ∨
    (k, v.pkg) ∈ vfile8.table → confV.parses v.value = true := fun _ _ _ _ => rfl

/-- C106, the claim that the index never has a vector which the region does not hold: false.  The
vectors are given to the index first; if leadership is lost before the records are written, they
stay in the index. -/
theorem C106_stopped_false : ∃ (ops : List VOp) (f : VFiles), (∀ op ∈ ops, op.Valid) ∧
    vecBackup (ops.foldl (vexec [[102]]) {}) [[102]] 8 [97] [122] = some f ∧
    (vecRestore confV f [.ok, .perm]).1 = .notLeader ∧
    (∃ v ∈ (vecRestore confV f [.ok, .perm]).2.flatMap VReq.vecs, v.key = vkey [97] 5) ∧
    (applyV (vecRestore confV f [.ok, .perm]).2 {}).data = [] :=
  ⟨vecHist, vfile8, vecHist_valid, vbackup8, by decide +kernel,
    ⟨⟨vkey [97] 5, [9], some [19], some [29]⟩, by decide +kernel, rfl⟩, by decide +kernel⟩

/-- C106, the claim that a vector in the restored region has its scalar data there: false if
leadership is lost between the families. -/
theorem C106_half_false : ∃ (ops : List VOp) (f : VFiles), (∀ op ∈ ops, op.Valid) ∧
    vecBackup (ops.foldl (vexec [[102]]) {}) [[102]] 8 [97] [122] = some f ∧
    kvGet (applyV (vecRestore confV f [.ok, .ok, .ok, .perm]).2 {}).data 50 0 [97] = .value [9] ∧
    sget (applyV (vecRestore confV f [.ok, .ok, .ok, .perm]).2 {}).scalar (vkey [97] 5) = none :=
  ⟨vecHist, vfile8, vecHist_valid, vbackup8, by decide +kernel, by decide +kernel⟩

end Verif.RawBackup
