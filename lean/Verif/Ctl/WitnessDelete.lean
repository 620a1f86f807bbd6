import Verif.Ctl.PropsStuck
import Verif.Ctl.Solo

/-!
# C98: examples, and what does not hold
-/

namespace Verif.Ctl
open Verif.Codec (Bytes)
open Verif.Region (RState Range)

/-- `n` steps of the worker of region `r`. -/
def works (r n : Nat) : List Ev := List.replicate n (.work r true 100)

/-- Region 1 is created on `[3, 7)`. -/
def made (id : Nat) : List Ev := .push ⟨id, 1, .create ⟨[3], [7]⟩ 0, false⟩ true :: works 1 6

/-- Region 1 is created and a key is written. -/
def written : List Ev := made 1 ++ [.write 1 [5]]

def delete1 (id : Nat) : Ev := .push ⟨id, 1, .delete, false⟩ true

-- region 1 is there, with its key; its deletion is not interrupted
example : get 1 (run .init written).regs = some ⟨.normal, ⟨[3], [7]⟩⟩ ∧ (run .init written).data = [[5]] ∧
    (run .init written).nodes 1 = true := by decide +kernel

example : let s := run .init (written ++ delete1 2 :: works 1 2)
    s.exec 1 = some ⟨some (⟨2, 1, .delete, false⟩, 1), []⟩ ∧ get 1 s.regs = some ⟨.normal, ⟨[3], [7]⟩⟩ := by decide +kernel

-- the step that erases the record (`C98_erased`), the one that removes the key (`C98_removed`)
example : let s := run .init (written ++ delete1 2 :: works 1 8)
    Calm s ∧ get 1 s.regs = some ⟨.deleted, ⟨[3], [7]⟩⟩ ∧ get 1 (step s (.work 1 true 100)).regs = none :=
  ⟨calm_solo [1] (by decide +kernel), by decide +kernel, by decide +kernel⟩

example : let s := run .init (written ++ delete1 2 :: works 1 6)
    Calm s ∧ ([5] : Bytes) ∈ s.data ∧ ([5] : Bytes) ∉ (step s (.work 1 true 100)).data :=
  ⟨calm_solo [1] (by decide +kernel), by decide +kernel, by decide +kernel⟩

-- a region is entered (`C98_empty`)
example : let s := run .init (written ++ delete1 2 :: works 1 10 ++ [.share] ++ (made 3).take 3)
    Plain s ∧ get 1 s.regs = none ∧ get 1 (step s (.work 1 true 100)).regs = some ⟨.new, ⟨[3], [7]⟩⟩ :=
  ⟨plain_solo [1] (by decide +kernel) (by decide +kernel), by decide +kernel, by decide +kernel⟩

/-- A deletion is interrupted when its region is marked. -/
def interrupted : List Ev := written ++ delete1 2 :: works 1 3 ++ [.crash]

-- what is left (`C98_interrupted`, `C98_stuck`): the key is still there
example : Plain (run .init interrupted) ∧ Left (run .init interrupted) 1 ⟨.deleting, ⟨[3], [7]⟩⟩ ∧
    ([5] : Bytes) ∈ (run .init interrupted).data := by
  refine ⟨plain_solo [1] (by decide +kernel) (by decide +kernel), ?_, by decide +kernel⟩
  refine ⟨by decide +kernel, Or.inl rfl, by decide +kernel, ?_⟩
  intro c n h
  have : cur (run .init interrupted) 1 = none := by decide +kernel
  rw [this] at h
  exact absurd h (by simp)

-- the command sent before fails, and so do the ones sent later
example : (run .init (interrupted ++ works 1 2 ++ [delete1 3])).outs.head? = some (2, false) ∧
    (run .init (interrupted ++ works 1 2 ++ [delete1 3])).acks.head? = some (3, .invalid) := by decide +kernel

/-! ### What does not hold -/

/-- The store stops when the record of region 1 is erased and the command is not yet marked as
done; region 1 comes back to the store, gets a key, and the store stops once more. -/
def stale : List Ev :=
  written ++ delete1 2 :: works 1 9 ++ [.crash] ++ made 3 ++ [.write 1 [6], .crash]

/-- C98, not so: a deletion that was carried out is carried out again after a restart, on a region
that was created since: its key is lost though nobody asked for its deletion. -/
theorem C98_stale_false :
    Plain (run .init stale) ∧ get 1 (run .init stale).regs = some ⟨.normal, ⟨[3], [7]⟩⟩ ∧
      (run .init stale).nodes 1 = true ∧ ([6] : Bytes) ∈ (run .init stale).data ∧
      (run .init stale).outs = [(3, true), (1, true)] ∧
      get 1 (run .init (stale ++ works 1 10)).regs = none ∧ ([6] : Bytes) ∉ (run .init (stale ++ works 1 10)).data := by
  refine ⟨plain_solo [1] (by decide +kernel) (by decide +kernel), ?_⟩
  decide +kernel

/-- A deletion is interrupted before the keys are removed, the region purged and created again. -/
def purged : List Ev :=
  written ++ delete1 2 :: works 1 5 ++ [.crash, .push ⟨3, 1, .purge, false⟩ true, .share] ++ made 4

/-- C98, not so with purges: a region that is created has a key from before. -/
theorem C98_purge_false :
    Calm (run .init purged) ∧ (run .init purged).outs = [(4, true), (3, true), (1, true)] ∧
      get 1 (run .init purged).regs = some ⟨.normal, ⟨[3], [7]⟩⟩ ∧ ([5] : Bytes) ∈ (run .init purged).data := by
  refine ⟨calm_solo [1] (by decide +kernel), ?_⟩
  decide +kernel

/-- Two purges are accepted when the region is deleted; the second is carried out when it has been
created again. -/
def twice : List Ev :=
  written ++ delete1 2 :: works 1 5 ++
    [.crash, .push ⟨3, 1, .purge, false⟩ true, .push ⟨4, 1, .purge, false⟩ true, .share] ++ made 5 ++ [.share]

/-- C98, not so with purges: a region that is not being deleted leaves the table while its raft node
is running. -/
theorem C98_purge_live_false :
    Calm (run .init twice) ∧ (run .init twice).outs = [(4, true), (5, true), (3, true), (1, true)] ∧
      get 1 (run .init twice).regs = none ∧ (run .init twice).nodes 1 = true := by
  refine ⟨calm_solo [1] (by decide +kernel), ?_⟩
  decide +kernel

end Verif.Ctl
