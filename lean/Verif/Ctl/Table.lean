import Verif.Ctl.Spec
import Verif.Codec.Prefix

/-!
# The commands a store carries out (lemmas about the tables)
-/

namespace Verif.Ctl
open Verif.Codec (Bytes)
open Verif.Region (RState Range)

theorem mem_del {r : Nat} {l : Regs} {a : Nat × Rec} : a ∈ del r l ↔ a ∈ l ∧ a.1 ≠ r := by
  simp [del]

theorem mem_put {r : Nat} {x : Rec} {l : Regs} {a : Nat × Rec} :
    a ∈ put r x l ↔ a = (r, x) ∨ (a ∈ l ∧ a.1 ≠ r) := by
  simp [put, mem_del]

theorem get_mem {r : Nat} {x : Rec} {l : Regs} (h : get r l = some x) : (r, x) ∈ l := by
  unfold get at h
  cases hf : l.find? (fun a => a.1 == r) with
  | none => rw [hf] at h; simp at h
  | some a =>
    rw [hf] at h
    have h1 := List.find?_some hf
    have h2 := List.mem_of_find?_eq_some hf
    have h3 : a.2 = x := by simpa using h
    have h4 : a.1 = r := by simpa using h1
    rw [← h3, ← h4]
    exact h2

theorem get_none {r : Nat} {l : Regs} : get r l = none ↔ ∀ a ∈ l, a.1 ≠ r := by
  unfold get
  rw [Option.map_eq_none_iff, List.find?_eq_none]
  simp

/-- One record for each region. -/
def Uniq (l : Regs) : Prop := ∀ a ∈ l, ∀ b ∈ l, a.1 = b.1 → a = b

theorem get_iff {r : Nat} {x : Rec} {l : Regs} (hu : Uniq l) : get r l = some x ↔ (r, x) ∈ l := by
  refine ⟨get_mem, fun h => ?_⟩
  cases hg : get r l with
  | none => exact absurd rfl (get_none.1 hg _ h)
  | some y =>
    have := hu _ (get_mem hg) _ h rfl
    rw [Prod.mk.injEq] at this
    rw [this.2]

theorem Uniq.del {l : Regs} (h : Uniq l) (r : Nat) : Uniq (del r l) :=
  fun a ha b hb => h a (mem_del.1 ha).1 b (mem_del.1 hb).1

theorem Uniq.put {l : Regs} (h : Uniq l) (r : Nat) (x : Rec) : Uniq (put r x l) := by
  intro a ha b hb e
  rcases mem_put.1 ha with ha | ⟨ha, ha'⟩ <;> rcases mem_put.1 hb with hb | ⟨hb, hb'⟩
  · rw [ha, hb]
  · rw [ha] at e; exact absurd e.symm hb'
  · rw [hb] at e; exact absurd e ha'
  · exact h a ha b hb e

theorem Rec.move_range (t : RState) (x : Rec) : (x.move t).range = x.range := by
  unfold Rec.move; split <;> rfl

theorem upd_same {α : Type} (f : Nat → α) (r : Nat) (a : α) : upd f r a r = a := by simp [upd]

theorem upd_ne {α : Type} (f : Nat → α) {r x : Nat} (a : α) (h : x ≠ r) : upd f r a x = f x := by simp [upd, h]

theorem inRange_iff {g : Range} {k : Bytes} : inRange g k = true ↔ g.start ≤ k ∧ k < g.stop := by
  simp [inRange]

theorem le_lt {a b c : Bytes} (h : a ≤ b) (h' : b < c) : a < c := by
  rcases (Codec.le_iff_lt_or_eq a b).1 h with e | e
  · exact Codec.lt_trans e h'
  · rwa [e]

theorem lt_le {a b c : Bytes} (h : a < b) (h' : b ≤ c) : a < c := by
  rcases (Codec.le_iff_lt_or_eq b c).1 h' with e | e
  · exact Codec.lt_trans h e
  · rwa [← e]

theorem apart_of {a b : Range} (h : conflict a b = false) : Apart a b := by
  intro k hk
  cases hb : inRange b k with
  | false => rfl
  | true =>
    rw [inRange_iff] at hk hb
    simp only [conflict, Bool.not_eq_false', Bool.or_eq_true, decide_eq_true_eq] at h
    rcases h with h | h
    · exact absurd (le_lt hk.1 hb.2) (List.not_lt.2 h)
    · exact absurd (le_lt hb.1 hk.2) (List.not_lt.2 h)

theorem Apart.symm {a b : Range} (h : Apart a b) : Apart b a := by
  intro k hk
  cases ha : inRange a k with
  | false => rfl
  | true => rw [h k ha] at hk; exact absurd hk (by simp)

theorem conflict_comm (a b : Range) : conflict a b = conflict b a := by
  simp [conflict, Bool.or_comm]

theorem createOk_iff {l : Regs} {r : Nat} {g : Range} :
    createOk l r g = true ↔ ∀ a ∈ l, a.1 ≠ r ∧ conflict a.2.range g = false := by
  unfold createOk
  simp only [Bool.and_eq_true, List.all_eq_true, bne_iff_ne, Bool.not_eq_true']
  constructor
  · rintro ⟨-, h⟩; exact h
  · intro h
    refine ⟨?_, h⟩
    rw [get_none.2 fun a ha => (h a ha).1]

/-! ### Dispatching -/

/-- What a dispatch leaves alone. -/
structure Same (s s' : St) : Prop where
  regs : s'.regs = s.regs
  metas : s'.metas = s.metas
  nodes : s'.nodes = s.nodes
  data : s'.data = s.data
  cur : cur s' = cur s
  outs : s'.outs = s.outs

theorem Same.rfl' (s : St) : Same s s := ⟨rfl, rfl, rfl, rfl, rfl, rfl⟩

theorem Same.trans {a b c : St} (h : Same a b) (h' : Same b c) : Same a c :=
  ⟨h'.regs.trans h.regs, h'.metas.trans h.metas, h'.nodes.trans h.nodes, h'.data.trans h.data, h'.cur.trans h.cur,
    h'.outs.trans h.outs⟩

theorem cur_upd (s : St) (r : Nat) (x : Option Exec) (e : (x.bind (·.run)) = cur s r) :
    (fun y => (upd s.exec r x y).bind (·.run)) = cur s := by
  funext y
  unfold upd
  by_cases h : y = r
  · rw [if_pos h, e, h]
  · rw [if_neg h]; rfl

theorem same_register (s : St) (r : Nat) : Same s (register s r) := by
  unfold register
  split
  · exact .rfl' s
  · next h =>
    refine ⟨rfl, rfl, rfl, rfl, ?_, rfl⟩
    exact cur_upd s r (some ⟨none, []⟩) (by simp [cur, h])

theorem same_enqueue (s : St) (c : Cmd) : Same s (enqueue s c).1 := by
  unfold enqueue
  split
  · exact ⟨rfl, rfl, rfl, rfl, rfl, rfl⟩
  · exact ⟨rfl, rfl, rfl, rfl, rfl, rfl⟩
  · split
    · exact .rfl' s
    · next x h =>
      refine ⟨rfl, rfl, rfl, rfl, ?_, rfl⟩
      exact cur_upd s c.region (some { x with wait := x.wait ++ [c] }) (by simp [cur, h])

theorem same_dispatchImpl (s : St) (c : Cmd) : Same s (dispatchImpl s c).1 := by
  unfold dispatchImpl
  split
  · exact (same_register s c.region).trans (same_enqueue _ c)
  · exact same_enqueue s c

theorem same_dispatch (s : St) (c : Cmd) : Same s (dispatch s c).1 := by
  unfold dispatch
  split
  · exact .rfl' s
  · exact Same.trans (b := { s with cmds := addCmd c s.cmds }) ⟨rfl, rfl, rfl, rfl, rfl, rfl⟩ (same_dispatchImpl _ c)

theorem same_push (s : St) (c : Cmd) (ok : Bool) : Same s (push s c ok) := by
  unfold push
  split
  · have h := same_dispatch s c
    exact ⟨h.regs, h.metas, h.nodes, h.data, h.cur, h.outs⟩
  · exact ⟨rfl, rfl, rfl, rfl, rfl, rfl⟩

theorem same_recover (l : List Cmd) (s : St) : Same s (recover l s) := by
  induction l generalizing s with
  | nil => exact .rfl' s
  | cons c l ih => exact (same_dispatchImpl s c).trans (ih _)

theorem cur_reboot (s : St) : cur (reboot s) = fun _ => none := by
  funext r
  simp only [cur, reboot]
  split
  · split <;> rfl
  · rfl

theorem cur_crash (s : St) : cur (crash s) = fun _ => none := by
  rw [crash, (same_recover _ _).cur, cur_reboot]

theorem cur_goto (s : St) (r : Nat) (c : Cmd) (q : List Cmd) (n : Nat) :
    cur (goto s r c q n) = upd (cur s) r (some (c, n)) := by
  funext y
  simp only [cur, goto, upd]
  split <;> rfl

theorem cur_finish (s : St) (r : Nat) (c : Cmd) (q : List Cmd) (ok : Bool) :
    cur (finish s r c q ok) = upd (cur s) r none := by
  funext y
  simp only [cur, finish, upd]
  split <;> rfl

theorem cur_of_exec {s : St} {r : Nat} {c : Cmd} {n : Nat} {q : List Cmd} (h : s.exec r = some ⟨some (c, n), q⟩) :
    cur s r = some (c, n) := by
  simp [cur, h]

end Verif.Ctl
