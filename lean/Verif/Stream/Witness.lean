import Verif.Stream.Props

/-! # Streams: cases that meet the hypotheses, and what does not hold (C108) -/

namespace Verif.Stream
open Verif.Codec

/-- An engine that hands out a list, page by page. -/
def exEng (l : List Nat) : Eng (List Nat) (List Nat) := fun limit st =>
  let rest := st.getD l
  ⟨some (rest.drop limit), .ok, rest.take limit, !(rest.drop limit).isEmpty⟩

/-- Two clients, one of them scanning, one looking for locks; streams are cleaned up in between. -/
def exOps : List (Op (List Nat) (List Nat)) :=
  [.req .scanLock ⟨[], 1, false⟩ [2] 10 (exEng [7, 8]), .req .scan ⟨[1], 9, false⟩ [3] 20 (exEng []),
    .tick 60000, .req .scanLock ⟨[2], 0, false⟩ [4] 60001 (exEng []), .tick 60020,
    .req .scan ⟨[1], 2, false⟩ [5] 60030 (exEng []), .req .scan ⟨[1], 2, false⟩ [6] 60031 (exEng [])]

/-- The scan, with pages of two. -/
def exFirst : Op (List Nat) (List Nat) := .req .scan ⟨[], 2, false⟩ [1] 0 (exEng [1, 2, 3, 4, 5])

example : (step {} exFirst).2 :: mineOut [1] (run (step {} exFirst).1 exOps) =
    [some (.page [1] [1, 2] true), some (.page [1] [3, 4] true), some (.page [1] [5] false), some .expired] := by
  decide +kernel

theorem exFair : Fair .scan [1] exOps := by
  intro o ho
  simp only [exOps, List.mem_cons, List.not_mem_nil, or_false] at ho
  rcases ho with rfl | rfl | rfl | rfl | rfl | rfl | rfl <;> simp

theorem exCalm : Calm (run {} (exFirst :: exOps)) := by
  have : (run {} (exFirst :: exOps)).map (·.2) =
      [some (.page [1] [1, 2] true), some (.page [2] [7] true), some (.page [1] [3, 4] true), none,
        some (.page [2] [8] false), none, some (.page [1] [5] false), some .expired] := by
    decide +kernel
  intro x hx
  have hm : x.2 ∈ (run {} (exFirst :: exOps)).map (·.2) := List.mem_map_of_mem hx
  rw [this] at hm
  simp only [List.mem_cons, List.not_mem_nil, or_false] at hm
  rcases hm with h | h | h | h | h | h | h | h <;> rw [h] <;> simp

theorem exPrompt : Prompt [1] 0 exOps := by
  simp [exOps, Prompt, interval]

example : (step {} exFirst).2 :: mineOut [1] (run (step {} exFirst).1 exOps) =
    alone .scan [1] 2 none ((false, exEng [1, 2, 3, 4, 5]) :: mine [1] exOps) :=
  C108_begin rfl rfl rfl (by decide) exPrompt exFair exCalm

/-- A client that goes on after more than a minute, and after a cleaning up, is refused. -/
example : (run {} [exFirst, .tick 60001, .req .scan ⟨[1], 2, false⟩ [3] 60002 (exEng [])]).map (·.2) =
    [some (.page [1] [1, 2] true), none, some .expired] := by
  decide +kernel

/-- A client that closes its stream is refused afterwards, though there was more. -/
example : (run {} [exFirst, .req .scan ⟨[1], 2, true⟩ [3] 1 (exEng []), .req .scan ⟨[1], 2, false⟩ [4] 2 (exEng [])]).map (·.2) =
    [some (.page [1] [1, 2] true), some (.page [1] [3, 4] true), some .expired] := by
  decide +kernel

/-- Going on with a scan by a request for locks: the store aborts. -/
theorem C108_crash_false :
    (run {} [exFirst, .req .scanLock ⟨[1], 2, false⟩ [3] 1 (exEng [])]).map (·.2) =
      [some (.page [1] [1, 2] true), some .crash] := by
  decide +kernel

/-- An answer "not found" leaves its stream behind, though it says that there is no more: going on
with it is not refused, but begins again. -/
theorem C108_left_false :
    (run {} [.req .searchAll ⟨[], 2, false⟩ [1] 0 (fun _ _ => ⟨none, .notFound, [], false⟩),
        .req .searchAll ⟨[1], 2, false⟩ [3] 1 (exEng [1, 2, 3])]).map (·.2) =
      [some (.page [1] [] false), some (.page [1] [1, 2] true)] := by
  decide +kernel

end Verif.Stream
