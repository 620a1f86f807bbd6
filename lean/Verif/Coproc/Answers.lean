import Verif.Coproc.Schema
import Verif.Coproc.Pages

/-!
# When a scan with aggregates answers
-/

namespace Verif.Coproc
open Verif.Codec Verif.Txn Verif.Scan

variable {F : Type}

/-! ## Aggregation functions do not fail -/

theorem apply_ty {e : Env F} {f : Fn} {p r r' : Cell F} (h : f.apply e p r = .ok r') : r'.ty = r.ty := by
  unfold Fn.apply at h
  repeat' split at h
  all_goals first
    | cases h; done
    | (obtain ⟨z, _, rfl⟩ := map_ok h; rfl)
    | (rw [← Except.ok.inj h]; rfl)

theorem runCol_ty {e : Env F} {f : Fn} : ∀ {cells : List (Cell F)} {i c : Cell F}, runCol e f i cells = .ok c →
    c.ty = i.ty
  | [], i, c, h => by
    simp only [runCol, Except.ok.injEq] at h
    rw [h]
  | p :: ps, i, c, h => by
    simp only [runCol] at h
    split at h
    · cases h
    · rename_i r' hr
      rw [runCol_ty h, apply_ty hr]

theorem initCell_ty {e : Env F} {op : Op} {t : Ty} {i : Cell F} (h : initCell e op t = .ok i) : i.ty = t := by
  unfold initCell at h
  simp only at h
  split at h
  all_goals first
    | (rw [← Except.ok.inj h]; rfl)
    | cases h

theorem initCell_total (e : Env F) (op : Op) {t : Ty} (h : plainTy t = true) : ∃ i, initCell e op t = .ok i := by
  cases t <;> simp only [plainTy, Bool.false_eq_true] at h <;> exact ⟨_, rfl⟩

theorem sumV_total {α : Type} {add : α → α → Except Bad α} (p r : Option α)
    (h : ∀ x y, p = some x → r = some y → ∃ z, add y x = .ok z) : ∃ z, sumV add p r = .ok z := by
  cases p with
  | none => exact ⟨r, rfl⟩
  | some x =>
    cases r with
    | none => exact ⟨some x, rfl⟩
    | some y =>
      obtain ⟨z, hz⟩ := h x y rfl rfl
      exact ⟨some z, by simp only [sumV, hz]⟩

theorem foldl_abs : ∀ (vs : List Int) (a : Int), (vs.foldl (· + ·) a).natAbs ≤ a.natAbs + (vs.map Int.natAbs).sum
  | [], a => by simp
  | v :: vs, a => by
    have := foldl_abs vs (a + v)
    simp only [List.foldl_cons, List.map_cons, List.sum_cons]
    omega

theorem total_abs {vs : List Int} {oz : Bool} {w : Int} (h : total (· + ·) 0 oz vs = some w) :
    w.natAbs ≤ (vs.map Int.natAbs).sum := by
  cases vs with
  | nil =>
    cases oz <;> simp [total] at h
    simp [← h]
  | cons v vs =>
    cases oz with
    | true =>
      simp only [total, if_true, Option.some.injEq] at h
      have := foldl_abs (v :: vs) 0
      rw [h] at this
      simpa using this
    | false =>
      simp only [total, Bool.false_eq_true, if_false, Option.some.injEq] at h
      have := foldl_abs vs v
      rw [h] at this
      simpa using this

theorem magnitude_int (l : List (Option Int)) :
    ((l.map (Cell.int (F := F))).map magnitude).sum = ((there l).map Int.natAbs).sum := by
  induction l with
  | nil => rfl
  | cons a l ih =>
    cases a with
    | none => simpa [magnitude, there] using ih
    | some v =>
      rw [there_cons]
      simp only [List.map_cons, List.sum_cons, magnitude]
      rw [ih]

theorem magnitude_long (l : List (Option Int)) :
    ((l.map (Cell.long (F := F))).map magnitude).sum = ((there l).map Int.natAbs).sum := by
  induction l with
  | nil => rfl
  | cons a l ih =>
    cases a with
    | none => simpa [magnitude, there] using ih
    | some v =>
      rw [there_cons]
      simp only [List.map_cons, List.sum_cons, magnitude]
      rw [ih]

theorem add32_total {a b : Int} (h : a.natAbs + b.natAbs ≤ 2147483647) : ∃ c, add32 a b = .ok c := by
  unfold add32
  rw [if_pos (by omega)]
  exact ⟨_, rfl⟩

theorem add64_total {a b : Int} (h : a.natAbs + b.natAbs ≤ 9223372036854775807) : ∃ c, add64 a b = .ok c := by
  unfold add64
  rw [if_pos (by omega)]
  exact ⟨_, rfl⟩

theorem map_total {α β : Type} {g : α → β} {x : Except Bad α} {a : α} (h : x = .ok a) : ∃ b, x.map g = .ok b := by
  rw [h]; exact ⟨_, rfl⟩

/-- The sum of integers does not fail if the absolute values are not too large. -/
theorem sum_total {e : Env F} {t : Ty} (ht : sumTy t = true) {op : Op} {i c v : Cell F} {cells : List (Cell F)}
    (hi : initCell e op t = .ok i) (hr : runCol e (.sum t) i cells = .ok c) (hv : v.ty = t)
    (h32 : t = .int → ((cells ++ [v]).map magnitude).sum ≤ 2147483647)
    (h64 : t = .long → ((cells ++ [v]).map magnitude).sum ≤ 9223372036854775807) :
    ∃ c', (Fn.sum t).apply e v c = .ok c' := by
  have hct : c.ty = t := by rw [runCol_ty hr, initCell_ty hi]
  cases t with
  | bool =>
    cases v <;> simp only [Cell.ty, reduceCtorEq] at hv
    cases c <;> simp only [Cell.ty, reduceCtorEq] at hct
    simp only [Fn.apply]
    obtain ⟨z, hz⟩ := sumV_total (add := fun a b => .ok (a || b)) _ _ (fun x y _ _ => ⟨_, rfl⟩)
    exact map_total hz
  | float =>
    cases v <;> simp only [Cell.ty, reduceCtorEq] at hv
    cases c <;> simp only [Cell.ty, reduceCtorEq] at hct
    simp only [Fn.apply]
    obtain ⟨z, hz⟩ := sumV_total (add := fun a b => .ok (e.f32.add a b)) _ _ (fun x y _ _ => ⟨_, rfl⟩)
    exact map_total hz
  | double =>
    cases v <;> simp only [Cell.ty, reduceCtorEq] at hv
    cases c <;> simp only [Cell.ty, reduceCtorEq] at hct
    simp only [Fn.apply]
    obtain ⟨z, hz⟩ := sumV_total (add := fun a b => .ok (e.f64.add a b)) _ _ (fun x y _ _ => ⟨_, rfl⟩)
    exact map_total hz
  | int =>
    have hb := h32 rfl
    cases v <;> simp only [Cell.ty, reduceCtorEq] at hv
    rename_i v
    simp only [initCell, Except.ok.injEq] at hi
    rw [← hi] at hr
    obtain ⟨l, z, hl, hz, hf⟩ := runCol_fold Cell.int (sumV add32) (by
      intro p x r' h
      cases p <;> simp only [Fn.apply] at h <;> first | cases h | skip
      obtain ⟨z, hz, hr⟩ := map_ok h
      exact ⟨_, z, rfl, hz, hr⟩) _ _ _ hr
    have hzt := foldV_sum (tadd := (· + ·)) (fun a b c h => add32_ok h) 0 _ l z hf
    rw [hz]
    simp only [Fn.apply]
    obtain ⟨w, hw⟩ := sumV_total (add := add32) v z (by
      intro x y hx hy
      apply add32_total
      rw [hy] at hzt
      have h1 := total_abs hzt.symm
      rw [List.map_append, List.sum_append, hl, magnitude_int, hx] at hb
      simp only [List.map_cons, List.map_nil, List.sum_cons, List.sum_nil, magnitude] at hb
      omega)
    exact map_total hw
  | long =>
    have hb := h64 rfl
    cases v <;> simp only [Cell.ty, reduceCtorEq] at hv
    rename_i v
    simp only [initCell, Except.ok.injEq] at hi
    rw [← hi] at hr
    obtain ⟨l, z, hl, hz, hf⟩ := runCol_fold Cell.long (sumV add64) (by
      intro p x r' h
      cases p <;> simp only [Fn.apply] at h <;> first | cases h | skip
      obtain ⟨z, hz, hr⟩ := map_ok h
      exact ⟨_, z, rfl, hz, hr⟩) _ _ _ hr
    have hzt := foldV_sum (tadd := (· + ·)) (fun a b c h => add64_ok h) 0 _ l z hf
    rw [hz]
    simp only [Fn.apply]
    obtain ⟨w, hw⟩ := sumV_total (add := add64) v z (by
      intro x y hx hy
      apply add64_total
      rw [hy] at hzt
      have h1 := total_abs hzt.symm
      rw [List.map_append, List.sum_append, hl, magnitude_long, hx] at hb
      simp only [List.map_cons, List.map_nil, List.sum_cons, List.sum_nil, magnitude] at hb
      omega)
    exact map_total hw
  | _ => simp [sumTy] at ht

theorem count64 {n : Nat} (h : n < 9223372036854775807) : add64 (0 + (n : Int)) 1 = .ok (0 + (n : Int) + 1) := by
  unfold add64
  rw [if_pos]
  constructor <;> omega

theorem countNullV_total {y z : Int} (h : add64 y 1 = .ok z) : countNullV (some y) = .ok (some z) := by
  simp only [countNullV, h]

theorem countV_total {y z : Int} (b : Bool) (h : add64 y 1 = .ok z) : ∃ o, countV b (some y) = .ok o := by
  cases b with
  | true => exact ⟨some y, rfl⟩
  | false => exact ⟨some z, by simp only [countV, Bool.false_eq_true, if_false, h]⟩

theorem countNull_apply {e : Env F} {v : Cell F} {y z : Int} (h : add64 y 1 = .ok z) :
    ∃ c', Fn.countNull.apply e v (.long (some y)) = .ok c' := by
  simp only [Fn.apply]
  exact map_total (countNullV_total h)

theorem count_apply {e : Env F} {t : Ty} {v : Cell F} {y z : Int} (hv : v.ty = t) (h : add64 y 1 = .ok z) :
    ∃ c', (Fn.count t).apply e v (.long (some y)) = .ok c' := by
  simp only [Fn.apply, if_pos hv]
  obtain ⟨o, ho⟩ := countV_total v.isNull h
  exact map_total ho

theorem countNull_total {e : Env F} {c v : Cell F} {cells : List (Cell F)} (hn : cells.length < 9223372036854775807)
    (hr : runCol e .countNull (.long (some 0)) cells = .ok c) : ∃ c', Fn.countNull.apply e v c = .ok c' :=
  (run_countNull hr).symm ▸ countNull_apply (count64 hn)

theorem count_total {e : Env F} {t : Ty} {c v : Cell F} {cells : List (Cell F)}
    (hn : cells.length < 9223372036854775807) (hv : v.ty = t)
    (hr : runCol e (.count t) (.long (some 0)) cells = .ok c) : ∃ c', (Fn.count t).apply e v c = .ok c' :=
  (run_count hr).symm ▸ count_apply hv
    (count64 (Nat.lt_of_le_of_lt (List.length_filter_le (fun c : Cell F => !c.isNull) cells) hn))

theorem best_total {e : Env F} {t : Ty} (ht : plainTy t = true) {c v : Cell F} (hv : v.ty = t) (hc : c.ty = t) :
    (∃ c', (Fn.max t).apply e v c = .ok c') ∧ ∃ c', (Fn.min t).apply e v c = .ok c' := by
  subst hv
  cases v <;> simp only [Cell.ty, plainTy, Bool.false_eq_true] at ht <;>
    cases c <;> simp only [Cell.ty, reduceCtorEq] at hc <;>
    exact ⟨⟨_, rfl⟩, ⟨_, rfl⟩⟩

theorem apply_total {e : Env F} {op : Op} {ix : Int} {pt rt : Ty} {f : Fn} {i c v : Cell F} {cells : List (Cell F)}
    (hf : addFn op ix pt rt = .ok f) (hi : initCell e op rt = .ok i) (hr : runCol e f i cells = .ok c)
    (hv : v.ty = pt) (hn : cells.length < 9223372036854775807)
    (h32 : op = .sum ∨ op = .sum0 → pt = .int → ((cells ++ [v]).map magnitude).sum ≤ 2147483647)
    (h64 : op = .sum ∨ op = .sum0 → pt = .long → ((cells ++ [v]).map magnitude).sum ≤ 9223372036854775807) :
    ∃ c', f.apply e v c = .ok c' := by
  have hct := runCol_ty hr
  rw [initCell_ty hi] at hct
  cases op with
  | sum =>
    simp only [addFn] at hf
    split at hf
    · rename_i h
      rw [← Except.ok.inj hf] at hr ⊢
      rw [h.2] at hi
      exact sum_total h.1 hi hr hv (h32 (Or.inl rfl)) (h64 (Or.inl rfl))
    · cases hf
  | sum0 =>
    simp only [addFn] at hf
    split at hf
    · rename_i h
      rw [← Except.ok.inj hf] at hr ⊢
      rw [h.2] at hi
      exact sum_total h.1 hi hr hv (h32 (Or.inr rfl)) (h64 (Or.inr rfl))
    · cases hf
  | count =>
    simp only [addFn] at hf
    split at hf
    · split at hf
      · rename_i h
        rw [← Except.ok.inj hf] at hr ⊢
        rw [h.2] at hi
        simp only [initCell, Except.ok.injEq] at hi
        rw [← hi] at hr
        exact countNull_total hn hr
      · cases hf
    · split at hf
      · rename_i h
        rw [← Except.ok.inj hf] at hr ⊢
        rw [h.2] at hi
        simp only [initCell, Except.ok.injEq] at hi
        rw [← hi] at hr
        exact count_total hn hv hr
      · cases hf
  | countNull =>
    simp only [addFn] at hf
    split at hf
    · rename_i h
      rw [← Except.ok.inj hf] at hr ⊢
      rw [h.2] at hi
      simp only [initCell, Except.ok.injEq] at hi
      rw [← hi] at hr
      exact countNull_total hn hr
    · cases hf
  | max =>
    simp only [addFn] at hf
    split at hf
    · rename_i h
      rw [← Except.ok.inj hf] at hr ⊢
      exact (best_total h.1 hv (by rw [hct, h.2])).1
    · cases hf
  | min =>
    simp only [addFn] at hf
    split at hf
    · rename_i h
      rw [← Except.ok.inj hf] at hr ⊢
      exact (best_total h.1 hv (by rw [hct, h.2])).2
    · cases hf
  | none => cases hf

theorem addFn_total {op : Op} {ix : Int} {t r : Ty} (h : Suits op t r) :
    plainTy t = true ∧ plainTy r = true ∧ ∃ f, addFn op ix t r = .ok f := by
  have mem6 : t ∈ [.bool, .int, .float, .long, .double, .str] → plainTy t = true := by
    intro hm
    simp only [List.mem_cons, List.not_mem_nil, or_false] at hm
    rcases hm with rfl | rfl | rfl | rfl | rfl | rfl <;> rfl
  have mem5 : t ∈ [.bool, .int, .float, .long, .double] → sumTy t = true ∧ plainTy t = true := by
    intro hm
    simp only [List.mem_cons, List.not_mem_nil, or_false] at hm
    rcases hm with rfl | rfl | rfl | rfl | rfl <;> exact ⟨rfl, rfl⟩
  cases op with
  | sum =>
    obtain ⟨h1, h2⟩ := mem5 h.1
    exact ⟨h2, by rw [h.2]; exact h2, .sum t, by simp only [addFn]; rw [if_pos ⟨h1, h.2⟩]⟩
  | sum0 =>
    obtain ⟨h1, h2⟩ := mem5 h.1
    exact ⟨h2, by rw [h.2]; exact h2, .sum t, by simp only [addFn]; rw [if_pos ⟨h1, h.2⟩]⟩
  | count =>
    have h1 := mem6 h.1
    refine ⟨h1, by rw [h.2]; rfl, ?_⟩
    simp only [addFn]
    split
    · exact ⟨_, if_pos ⟨h1, h.2⟩⟩
    · exact ⟨_, if_pos ⟨h1, h.2⟩⟩
  | countNull =>
    have h1 := mem6 h.1
    exact ⟨h1, by rw [h.2]; rfl, .countNull, by simp only [addFn]; rw [if_pos ⟨h1, h.2⟩]⟩
  | max =>
    have h1 := mem6 h.1
    exact ⟨h1, by rw [h.2]; exact h1, .max t, by simp only [addFn]; rw [if_pos ⟨h1, h.2⟩]⟩
  | min =>
    have h1 := mem6 h.1
    exact ⟨h1, by rw [h.2]; exact h1, .min t, by simp only [addFn]; rw [if_pos ⟨h1, h.2⟩]⟩
  | none => exact h.elim

/-! ## Sums over fewer rows -/

theorem sum_sublist {a b : List Nat} (h : a.Sublist b) : a.sum ≤ b.sum := by
  induction h with
  | slnil => exact Nat.le_refl _
  | cons x _ ih => simp only [List.sum_cons]; omega
  | cons_cons x _ ih => simp only [List.sum_cons]; omega

theorem column_sublist {a b : List (List (Cell F))} (h : a.Sublist b) (i : Nat) :
    ((column i a).map magnitude).sum ≤ ((column i b).map magnitude).sum :=
  sum_sublist ((h.filterMap _).map _)

theorem column_length (i : Nat) (a : List (List (Cell F))) : (column i a).length ≤ a.length :=
  List.length_filterMap_le _ _

end Verif.Coproc
