import Verif.Ctl.PropsCreate
import Verif.Ctl.WitnessDelete

/-!
# C97: examples, and what does not hold
-/

namespace Verif.Ctl
open Verif.Codec (Bytes)
open Verif.Region (RState Range)

theorem reach_run (es : List Ev) : ∀ {s : St}, Reach s → Reach (run s es) := by
  induction es with
  | nil => exact fun h => h
  | cons e es ih => exact fun h => ih (.step e h)

def create2 (id : Nat) (g : Range) (p : Nat) : Ev := .push ⟨id, 2, .create g p, false⟩ true

-- both outcomes of the check (`C97_checked`)
example : (step (run .init written) (create2 2 ⟨[7], [9]⟩ 0)).acks.head? = some (2, .ok) ∧
    (step (run .init written) (create2 2 ⟨[6], [9]⟩ 0)).acks.head? = some (2, .invalid) ∧
    (step (run .init written) (.push ⟨2, 1, .create ⟨[8], [9]⟩ 0, false⟩ true)).acks.head? = some (2, .invalid) := by
  decide +kernel

/-- Two regions: 1 on `[3, 7)`, and 2 that stands by until 1 is split at 5. -/
def two : List Ev := written ++ create2 2 ⟨[9], [3]⟩ 1 :: works 2 6

-- a store with two regions that was never entering two at once (`C97_apart_partial`), before and
-- after the split
example : let s := run .init (two ++ [.split 1 2 [5]])
    Plain s ∧ get 1 s.regs = some ⟨.normal, ⟨[5], [7]⟩⟩ ∧ get 2 s.regs = some ⟨.normal, ⟨[3], [5]⟩⟩ :=
  ⟨plain_solo [1, 2] (by decide +kernel) (by decide +kernel), by decide +kernel, by decide +kernel⟩

-- and after a merge of what was split
example : let s := run .init (two ++ [.split 1 2 [5], .write 2 [4], .merge 2 1])
    Plain s ∧ get 1 s.regs = some ⟨.normal, ⟨[3], [7]⟩⟩ ∧ (get 2 s.regs).map (·.state) = some .tombstone :=
  ⟨plain_solo [1, 2] (by decide +kernel) (by decide +kernel), by decide +kernel, by decide +kernel⟩

-- the last step of a creation (`C97_done`)
example : let s := run .init ((made 1).take 6)
    Plain s ∧ cur s 1 = some (⟨1, 1, .create ⟨[3], [7]⟩ 0, false⟩, 4) ∧
      (step s (.work 1 true 100)).outs = (1, true) :: s.outs :=
  ⟨plain_solo [1] (by decide +kernel) (by decide +kernel), by decide +kernel, by decide +kernel⟩

/-! ### What does not hold -/

/-- Regions 1 and 2 are created at the same time, both on `[3, 7)`: both workers look at the table
before either has entered its region. -/
def clash : List Ev :=
  [.push ⟨1, 1, .create ⟨[3], [7]⟩ 0, false⟩ true, .push ⟨2, 2, .create ⟨[3], [7]⟩ 0, false⟩ true,
    .work 1 true 100, .work 2 true 100, .work 1 true 100, .work 2 true 100] ++ works 1 4 ++ works 2 4

/-- A key is written to region 1, and region 2 deleted. -/
def lost : List Ev := clash ++ [.write 1 [5], .push ⟨3, 2, .delete, false⟩ true] ++ works 2 10

/-- C97, not so in general: two regions with a common key are created, both creations end well; the
deletion of one then removes a key that was written to the other. -/
theorem C97_false :
    Reach (run .init clash) ∧ (run .init clash).outs = [(2, true), (1, true)] ∧
      get 1 (run .init clash).regs = some ⟨.normal, ⟨[3], [7]⟩⟩ ∧
      get 2 (run .init clash).regs = some ⟨.normal, ⟨[3], [7]⟩⟩ ∧
      (run .init (clash ++ [.write 1 [5]])).data = [[5]] ∧
      (run .init lost).data = [] ∧ get 1 (run .init lost).regs = some ⟨.normal, ⟨[3], [7]⟩⟩ := by
  refine ⟨reach_run _ .init, ?_⟩
  decide +kernel

/-- The store stops when region 1 is entered into the table and its raft node is not yet made. -/
def half : List Ev := (made 1).take 4 ++ [.crash] ++ works 1 2

/-- C97, not so: a creation that is interrupted is not taken up again after the restart.  It fails,
the region stays new, without a raft node, and later commands to create it are refused. -/
theorem C97_half_false :
    Plain (run .init half) ∧ (run .init half).outs = [(1, false)] ∧
      get 1 (run .init half).regs = some ⟨.new, ⟨[3], [7]⟩⟩ ∧ (run .init half).nodes 1 = false ∧
      (run .init (half ++ [.push ⟨2, 1, .create ⟨[3], [7]⟩ 0, false⟩ true])).acks.head? = some (2, .invalid) ∧
      (run .init (half ++ [.crash])).nodes 1 = false := by
  refine ⟨plain_solo [1] (by decide +kernel) (by decide +kernel), ?_⟩
  decide +kernel

/-- The store stops when region 1 is up and the command not yet marked as done. -/
def late : List Ev := (made 1).take 6 ++ [.crash] ++ works 1 2

/-- C97, not so: a creation whose outcome is failure has created nothing.  Here the region is up and
takes writes. -/
theorem C97_failed_false :
    Plain (run .init late) ∧ (run .init late).outs = [(1, false)] ∧
      get 1 (run .init late).regs = some ⟨.normal, ⟨[3], [7]⟩⟩ ∧ (run .init late).nodes 1 = true ∧
      (step (run .init late) (.write 1 [5])).data = [[5]] := by
  refine ⟨plain_solo [1] (by decide +kernel) (by decide +kernel), ?_⟩
  decide +kernel

end Verif.Ctl
