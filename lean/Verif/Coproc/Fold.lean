import Verif.Coproc.Spec

/-!
# Aggregation functions over a column
-/

namespace Verif.Coproc
open Verif.Codec Verif.Scan

variable {F : Type}

/-- An aggregation function applied to the values of a column. -/
def runCol (e : Env F) (f : Fn) : Cell F → List (Cell F) → Except Bad (Cell F)
  | r, [] => .ok r
  | r, p :: ps =>
    match f.apply e p r with
    | .error x => .error x
    | .ok r' => runCol e f r' ps

theorem runCol_append (e : Env F) (f : Fn) : ∀ (r : Cell F) (a : List (Cell F)) (p : Cell F),
    runCol e f r (a ++ [p]) = match runCol e f r a with
      | .error x => .error x
      | .ok r' => f.apply e p r'
  | r, [], p => by
    simp only [List.nil_append, runCol]
    cases f.apply e p r <;> rfl
  | r, b :: a, p => by
    simp only [List.cons_append, runCol]
    cases f.apply e b r with
    | error x => rfl
    | ok r' => exact runCol_append e f r' a p

/-- A left fold of optional values with a partial operation. -/
def foldV {α : Type} (g : Option α → Option α → Except Bad (Option α)) :
    Option α → List (Option α) → Except Bad (Option α)
  | o, [] => .ok o
  | o, x :: l =>
    match g x o with
    | .error e => .error e
    | .ok o' => foldV g o' l

theorem runCol_fold {e : Env F} {f : Fn} {α : Type} (mk : Option α → Cell F)
    (g : Option α → Option α → Except Bad (Option α))
    (h : ∀ p x r', f.apply e p (mk x) = .ok r' → ∃ y z, p = mk y ∧ g y x = .ok z ∧ r' = mk z) :
    ∀ (o : Option α) (cells : List (Cell F)) (out : Cell F), runCol e f (mk o) cells = .ok out →
      ∃ l z, cells = l.map mk ∧ out = mk z ∧ foldV g o l = .ok z := by
  intro o cells
  induction cells generalizing o with
  | nil =>
    intro out hr
    simp only [runCol, Except.ok.injEq] at hr
    exact ⟨[], o, rfl, hr.symm, rfl⟩
  | cons p ps ih =>
    intro out hr
    simp only [runCol] at hr
    split at hr
    · cases hr
    · rename_i r' ha
      obtain ⟨y, z, hp, hg, hr'⟩ := h p o r' ha
      rw [hr'] at hr
      obtain ⟨l, z', hl, ho, hf⟩ := ih z out hr
      refine ⟨y :: l, z', by rw [hp, hl]; rfl, ho, ?_⟩
      simp only [foldV, hg]
      exact hf

/-! ## Sums -/

theorem there_cons {α : Type} (x : Option α) (l : List (Option α)) :
    there (x :: l) = (match x with | none => there l | some v => v :: there l) := by
  cases x <;> rfl

/-- What a partial addition gives is what a total one gives. -/
theorem foldV_some {α : Type} {add : α → α → Except Bad α} {tadd : α → α → α}
    (h : ∀ a b c, add a b = .ok c → c = tadd a b) : ∀ (l : List (Option α)) (a : α) (z : Option α),
    foldV (sumV add) (some a) l = .ok z → z = some ((there l).foldl tadd a)
  | [], a, z, hz => by
    simp only [foldV, Except.ok.injEq] at hz
    rw [← hz]; rfl
  | none :: l, a, z, hz => by
    simp only [foldV, sumV] at hz
    rw [foldV_some h l a z hz]; rfl
  | some x :: l, a, z, hz => by
    simp only [foldV, sumV] at hz
    split at hz
    · cases hz
    · rename_i o' heq
      split at heq
      · rename_i c hc
        simp only [Except.ok.injEq] at heq
        subst heq
        rw [foldV_some h l c z hz, h a x c hc]; rfl
      · cases heq

theorem foldV_none {α : Type} {add : α → α → Except Bad α} {tadd : α → α → α}
    (h : ∀ a b c, add a b = .ok c → c = tadd a b) (zero : α) : ∀ (l : List (Option α)) (z : Option α),
    foldV (sumV add) none l = .ok z → z = total tadd zero false (there l)
  | [], z, hz => by
    simp only [foldV, Except.ok.injEq] at hz
    rw [← hz]; rfl
  | none :: l, z, hz => by
    simp only [foldV, sumV] at hz
    rw [foldV_none h zero l z hz]; rfl
  | some x :: l, z, hz => by
    simp only [foldV, sumV] at hz
    rw [foldV_some h l x z hz]; rfl

theorem foldV_sum {α : Type} {add : α → α → Except Bad α} {tadd : α → α → α}
    (h : ∀ a b c, add a b = .ok c → c = tadd a b) (zero : α) (orZero : Bool) (l : List (Option α)) (z : Option α)
    (hz : foldV (sumV add) (if orZero then some zero else none) l = .ok z) :
    z = total tadd zero orZero (there l) := by
  cases orZero with
  | true =>
    rw [foldV_some h l zero z hz]
    cases there l <;> rfl
  | false => exact foldV_none h zero l z hz

theorem add32_ok {a b c : Int} (h : add32 a b = .ok c) : c = a + b := by
  unfold add32 at h
  split at h
  · simpa using h.symm
  · cases h

theorem add64_ok {a b c : Int} (h : add64 a b = .ok c) : c = a + b := by
  unfold add64 at h
  split at h
  · simpa using h.symm
  · cases h

theorem map_ok {α β : Type} {g : α → β} {x : Except Bad α} {y : β} (h : x.map g = .ok y) :
    ∃ a, x = .ok a ∧ y = g a := by
  cases x with
  | error e => cases h
  | ok a =>
    simp only [Except.map, Except.ok.injEq] at h
    exact ⟨a, rfl, h.symm⟩

theorem run_sum {e : Env F} {t : Ty} (ht : sumTy t = true) {orZero : Bool} {op : Op}
    (ho : (decide (op = .count ∨ op = .countNull ∨ op = .sum0)) = orZero) {i out : Cell F} {cells : List (Cell F)}
    (hi : initCell e op t = .ok i) (hr : runCol e (.sum t) i cells = .ok out) : SumIs e orZero cells out := by
  cases t with
  | bool =>
    simp only [initCell, ho, Except.ok.injEq] at hi
    rw [← hi] at hr
    obtain ⟨l, z, hl, hz, hf⟩ := runCol_fold Cell.bool (sumV fun a b => .ok (a || b)) (by
      intro p x r' h
      cases p <;> simp only [Fn.apply] at h <;> first | cases h | skip
      obtain ⟨z, hz, hr⟩ := map_ok h
      exact ⟨_, z, rfl, hz, hr⟩) _ _ _ hr
    refine Or.inl ⟨l, hl, ?_⟩
    rw [hz, foldV_sum (tadd := fun a b => a || b) (by intro a b c h; simpa using h.symm) false orZero l z hf]
  | int =>
    simp only [initCell, ho, Except.ok.injEq] at hi
    rw [← hi] at hr
    obtain ⟨l, z, hl, hz, hf⟩ := runCol_fold Cell.int (sumV add32) (by
      intro p x r' h
      cases p <;> simp only [Fn.apply] at h <;> first | cases h | skip
      obtain ⟨z, hz, hr⟩ := map_ok h
      exact ⟨_, z, rfl, hz, hr⟩) _ _ _ hr
    refine Or.inr (Or.inl ⟨l, hl, ?_⟩)
    rw [hz, foldV_sum (tadd := (· + ·)) (fun a b c h => add32_ok h) 0 orZero l z hf]
  | float =>
    simp only [initCell, ho, Except.ok.injEq] at hi
    rw [← hi] at hr
    obtain ⟨l, z, hl, hz, hf⟩ := runCol_fold Cell.float (sumV fun a b => .ok (e.f32.add a b)) (by
      intro p x r' h
      cases p <;> simp only [Fn.apply] at h <;> first | cases h | skip
      obtain ⟨z, hz, hr⟩ := map_ok h
      exact ⟨_, z, rfl, hz, hr⟩) _ _ _ hr
    refine Or.inr (Or.inr (Or.inl ⟨l, hl, ?_⟩))
    rw [hz, foldV_sum (tadd := e.f32.add) (by intro a b c h; simpa using h.symm) e.f32.zero orZero l z hf]
  | long =>
    simp only [initCell, ho, Except.ok.injEq] at hi
    rw [← hi] at hr
    obtain ⟨l, z, hl, hz, hf⟩ := runCol_fold Cell.long (sumV add64) (by
      intro p x r' h
      cases p <;> simp only [Fn.apply] at h <;> first | cases h | skip
      obtain ⟨z, hz, hr⟩ := map_ok h
      exact ⟨_, z, rfl, hz, hr⟩) _ _ _ hr
    refine Or.inr (Or.inr (Or.inr (Or.inl ⟨l, hl, ?_⟩)))
    rw [hz, foldV_sum (tadd := (· + ·)) (fun a b c h => add64_ok h) 0 orZero l z hf]
  | double =>
    simp only [initCell, ho, Except.ok.injEq] at hi
    rw [← hi] at hr
    obtain ⟨l, z, hl, hz, hf⟩ := runCol_fold Cell.double (sumV fun a b => .ok (e.f64.add a b)) (by
      intro p x r' h
      cases p <;> simp only [Fn.apply] at h <;> first | cases h | skip
      obtain ⟨z, hz, hr⟩ := map_ok h
      exact ⟨_, z, rfl, hz, hr⟩) _ _ _ hr
    refine Or.inr (Or.inr (Or.inr (Or.inr ⟨l, hl, ?_⟩)))
    rw [hz, foldV_sum (tadd := e.f64.add) (by intro a b c h; simpa using h.symm) e.f64.zero orZero l z hf]
  | _ => simp [sumTy] at ht

/-! ## Counts -/

theorem run_countNull {e : Env F} : ∀ {cells : List (Cell F)} {n : Int} {out : Cell F},
    runCol e .countNull (.long (some n)) cells = .ok out → out = .long (some (n + cells.length))
  | [], n, out, h => by
    simp only [runCol, Except.ok.injEq] at h
    simp [← h]
  | p :: ps, n, out, h => by
    simp only [runCol, Fn.apply, countNullV] at h
    split at h
    · cases h
    · rename_i r' hr
      obtain ⟨z, hz, hr⟩ := map_ok hr
      split at hz
      · rename_i c hc
        rw [← Except.ok.inj hz] at hr
        rw [hr] at h
        rw [run_countNull h, add64_ok hc, List.length_cons]
        congr 2
        omega
      · cases hz

theorem run_count {e : Env F} {t : Ty} : ∀ {cells : List (Cell F)} {n : Int} {out : Cell F},
    runCol e (.count t) (.long (some n)) cells = .ok out →
      out = .long (some (n + (cells.filter (fun c => !c.isNull)).length))
  | [], n, out, h => by
    simp only [runCol, Except.ok.injEq] at h
    simp [← h]
  | p :: ps, n, out, h => by
    simp only [runCol, Fn.apply] at h
    split at h
    · cases h
    · rename_i r' hr
      split at hr
      · obtain ⟨z, hz, hr⟩ := map_ok hr
        unfold countV at hz
        cases hn : p.isNull with
        | true =>
          simp only [hn, if_true, Except.ok.injEq] at hz
          rw [← hz] at hr
          rw [hr] at h
          rw [run_count h]
          simp [hn]
        | false =>
          simp only [hn, Bool.false_eq_true, if_false] at hz
          split at hz
          · rename_i c hc
            rw [← Except.ok.inj hz] at hr
            rw [hr] at h
            rw [run_count h, add64_ok hc]
            simp only [List.filter_cons, hn, Bool.not_false, if_true, List.length_cons]
            congr 2
            omega
          · cases hz
      · cases hr

/-! ## Best values -/

/-- `bestV` never fails. -/
def bestE {α : Type} (worse : α → α → Bool) (p r : Option α) : Except Bad (Option α) := .ok (bestV worse p r)

theorem foldV_best_some {α : Type} (worse : α → α → Bool) : ∀ (l : List (Option α)) (a : α) (z : Option α),
    foldV (bestE worse) (some a) l = .ok z →
      z = some ((there l).foldl (fun m v => if worse m v then v else m) a)
  | [], a, z, hz => by
    simp only [foldV, Except.ok.injEq] at hz
    rw [← hz]; rfl
  | none :: l, a, z, hz => by
    simp only [foldV, bestE, bestV] at hz
    rw [foldV_best_some worse l a z hz]; rfl
  | some x :: l, a, z, hz => by
    simp only [foldV, bestE, bestV] at hz
    have h' : (if worse a x then some x else some a) = some (if worse a x then x else a) := by split <;> rfl
    rw [h'] at hz
    rw [foldV_best_some worse l _ z hz]; rfl

theorem foldV_best {α : Type} (worse : α → α → Bool) : ∀ (l : List (Option α)) (z : Option α),
    foldV (bestE worse) none l = .ok z → z = lastBetter worse (there l)
  | [], z, hz => by
    simp only [foldV, Except.ok.injEq] at hz
    rw [← hz]; rfl
  | none :: l, z, hz => by
    simp only [foldV, bestE, bestV] at hz
    rw [foldV_best worse l z hz]; rfl
  | some x :: l, z, hz => by
    simp only [foldV, bestE, bestV] at hz
    rw [foldV_best_some worse l x z hz]; rfl

theorem better_best {α : Type} {worse : α → α → Bool} {le : α → α → Prop} (hrefl : ∀ a, le a a)
    (htrans : ∀ a b c, le a b → le b c → le a c) (hw : ∀ a b, worse a b = true → le a b)
    (hn : ∀ a b, worse a b = false → le b a) : ∀ (vs : List α) (v : α),
    (vs.foldl (fun m v => if worse m v then v else m) v) ∈ v :: vs ∧
      ∀ w ∈ v :: vs, le w (vs.foldl (fun m v => if worse m v then v else m) v)
  | [], v => ⟨List.mem_cons_self, by intro w hw; rw [List.mem_singleton.1 hw]; exact hrefl v⟩
  | x :: vs, v => by
    rw [List.foldl_cons]
    obtain ⟨h1, h2⟩ := better_best hrefl htrans hw hn vs (if worse v x then x else v)
    cases hvx : worse v x with
    | true =>
      simp only [hvx, if_true] at h1 h2 ⊢
      refine ⟨List.mem_cons_of_mem _ h1, ?_⟩
      intro w hw'
      rcases List.mem_cons.1 hw' with rfl | hw'
      · exact htrans _ _ _ (hw _ _ hvx) (h2 x List.mem_cons_self)
      · exact h2 w hw'
    | false =>
      simp only [hvx, Bool.false_eq_true, if_false] at h1 h2 ⊢
      refine ⟨?_, ?_⟩
      · rcases List.mem_cons.1 h1 with h1 | h1
        · rw [h1]; exact List.mem_cons_self
        · exact List.mem_cons_of_mem _ (List.mem_cons_of_mem _ h1)
      · intro w hw'
        rcases List.mem_cons.1 hw' with rfl | hw'
        · exact h2 w List.mem_cons_self
        · rcases List.mem_cons.1 hw' with rfl | hw'
          · exact htrans _ _ _ (hn _ _ hvx) (h2 v List.mem_cons_self)
          · exact h2 w (List.mem_cons_of_mem _ hw')

theorem lastBetter_best {α : Type} {worse : α → α → Bool} {le : α → α → Prop} (hrefl : ∀ a, le a a)
    (htrans : ∀ a b c, le a b → le b c → le a c) (hw : ∀ a b, worse a b = true → le a b)
    (hn : ∀ a b, worse a b = false → le b a) (vs : List α) : Best le vs (lastBetter worse vs) := by
  cases vs with
  | nil => exact rfl
  | cons v vs => exact better_best hrefl htrans hw hn vs v

theorem best_bool_max (l : List Bool) :
    Best (fun a b => a = true → b = true) l (lastBetter boolLt l) :=
  lastBetter_best (fun _ h => h) (fun _ _ _ h1 h2 h => h2 (h1 h)) (by decide) (by decide) l

theorem best_bool_min (l : List Bool) :
    Best (fun a b => b = true → a = true) l (lastBetter (fun a b => boolLt b a) l) :=
  lastBetter_best (fun _ h => h) (fun _ _ _ h1 h2 h => h1 (h2 h)) (by decide) (by decide) l

theorem best_int_max (l : List Int) : Best (fun a b => a ≤ b) l (lastBetter (fun a b => decide (a < b)) l) :=
  lastBetter_best (fun _ => Int.le_refl _) (fun _ _ _ => Int.le_trans) (by intro a b h; have := of_decide_eq_true h; omega)
    (by intro a b h; have := of_decide_eq_false h; omega) l

theorem best_int_min (l : List Int) : Best (fun a b => b ≤ a) l (lastBetter (fun a b => decide (b < a)) l) :=
  lastBetter_best (le := fun a b : Int => b ≤ a) (fun _ => Int.le_refl _) (fun _ _ _ h1 h2 => Int.le_trans h2 h1)
    (by intro a b h; have := of_decide_eq_true h; omega)
    (by intro a b h; have := of_decide_eq_false h; omega) l

open Verif.Txn in
theorem best_str_max (l : List Bytes) : Best (fun a b => ¬ b < a) l (lastBetter (fun a b => decide (a < b)) l) := by
  refine lastBetter_best (le := fun a b => ¬ b < a) (fun a => KeyOrder.irrefl a) ?_ ?_ ?_ l
  · intro a b c h1 h2 h3
    rcases KeyOrder.tri a b with h | h | h
    · exact h2 (KeyOrder.trans h3 h)
    · exact h2 (h ▸ h3)
    · exact h1 h
  · intro a b h
    exact KeyOrder.asymm (of_decide_eq_true h)
  · intro a b h
    exact of_decide_eq_false h

open Verif.Txn in
theorem best_str_min (l : List Bytes) : Best (fun a b => ¬ a < b) l (lastBetter (fun a b => decide (b < a)) l) := by
  refine lastBetter_best (le := fun a b => ¬ a < b) (fun a => KeyOrder.irrefl a) ?_ ?_ ?_ l
  · intro a b c h1 h2 h3
    rcases KeyOrder.tri b c with h | h | h
    · exact h2 h
    · exact h1 (h ▸ h3)
    · exact h1 (KeyOrder.trans h3 h)
  · intro a b h
    exact KeyOrder.asymm (of_decide_eq_true h)
  · intro a b h
    exact of_decide_eq_false h

theorem run_max {e : Env F} {t : Ty} {op : Op} (ht : plainTy t = true)
    (ho : (decide (op = .count ∨ op = .countNull ∨ op = .sum0)) = false) {i out : Cell F} {cells : List (Cell F)}
    (hi : initCell e op t = .ok i) (hr : runCol e (.max t) i cells = .ok out) : MaxIs e cells out := by
  cases t <;> simp only [initCell, ho, Bool.false_eq_true, if_false, Except.ok.injEq, plainTy] at hi ht <;>
    (try rw [← hi] at hr)
  · obtain ⟨l, z, hl, hz, hf⟩ := runCol_fold Cell.bool (bestE boolLt) (by
      intro p x r' h
      cases p <;> simp only [Fn.apply, Cell.ty] at h <;> simp at h
      exact ⟨_, _, rfl, rfl, h.symm⟩) _ _ _ hr
    exact Or.inl ⟨l, z, hl, hz, by rw [foldV_best _ l z hf]; exact best_bool_max _⟩
  · obtain ⟨l, z, hl, hz, hf⟩ := runCol_fold Cell.int (bestE fun a b => decide (a < b)) (by
      intro p x r' h
      cases p <;> simp only [Fn.apply, Cell.ty] at h <;> simp at h
      exact ⟨_, _, rfl, rfl, h.symm⟩) _ _ _ hr
    exact Or.inr (Or.inl ⟨l, z, hl, hz, by rw [foldV_best _ l z hf]; exact best_int_max _⟩)
  · obtain ⟨l, z, hl, hz, hf⟩ := runCol_fold Cell.float (bestE e.f32.lt) (by
      intro p x r' h
      cases p <;> simp only [Fn.apply, Cell.ty] at h <;> simp at h
      exact ⟨_, _, rfl, rfl, h.symm⟩) _ _ _ hr
    exact Or.inr (Or.inr (Or.inl ⟨l, hl, by rw [hz, foldV_best _ l z hf]⟩))
  · obtain ⟨l, z, hl, hz, hf⟩ := runCol_fold Cell.long (bestE fun a b => decide (a < b)) (by
      intro p x r' h
      cases p <;> simp only [Fn.apply, Cell.ty] at h <;> simp at h
      exact ⟨_, _, rfl, rfl, h.symm⟩) _ _ _ hr
    exact Or.inr (Or.inr (Or.inr (Or.inl ⟨l, z, hl, hz, by rw [foldV_best _ l z hf]; exact best_int_max _⟩)))
  · obtain ⟨l, z, hl, hz, hf⟩ := runCol_fold Cell.double (bestE e.f64.lt) (by
      intro p x r' h
      cases p <;> simp only [Fn.apply, Cell.ty] at h <;> simp at h
      exact ⟨_, _, rfl, rfl, h.symm⟩) _ _ _ hr
    exact Or.inr (Or.inr (Or.inr (Or.inr (Or.inl ⟨l, hl, by rw [hz, foldV_best _ l z hf]⟩))))
  · obtain ⟨l, z, hl, hz, hf⟩ := runCol_fold Cell.str (bestE fun a b => decide (a < b)) (by
      intro p x r' h
      cases p <;> simp only [Fn.apply, Cell.ty] at h <;> simp at h
      exact ⟨_, _, rfl, rfl, h.symm⟩) _ _ _ hr
    exact Or.inr (Or.inr (Or.inr (Or.inr (Or.inr ⟨l, z, hl, hz, by rw [foldV_best _ l z hf]; exact best_str_max _⟩))))
  all_goals cases ht

theorem run_min {e : Env F} {t : Ty} {op : Op} (ht : plainTy t = true)
    (ho : (decide (op = .count ∨ op = .countNull ∨ op = .sum0)) = false) {i out : Cell F} {cells : List (Cell F)}
    (hi : initCell e op t = .ok i) (hr : runCol e (.min t) i cells = .ok out) : MinIs e cells out := by
  cases t <;> simp only [initCell, ho, Bool.false_eq_true, if_false, Except.ok.injEq, plainTy] at hi ht <;>
    (try rw [← hi] at hr)
  · obtain ⟨l, z, hl, hz, hf⟩ := runCol_fold Cell.bool (bestE fun a b => boolLt b a) (by
      intro p x r' h
      cases p <;> simp only [Fn.apply, Cell.ty] at h <;> simp at h
      exact ⟨_, _, rfl, rfl, h.symm⟩) _ _ _ hr
    exact Or.inl ⟨l, z, hl, hz, by rw [foldV_best _ l z hf]; exact best_bool_min _⟩
  · obtain ⟨l, z, hl, hz, hf⟩ := runCol_fold Cell.int (bestE fun a b => decide (b < a)) (by
      intro p x r' h
      cases p <;> simp only [Fn.apply, Cell.ty] at h <;> simp at h
      exact ⟨_, _, rfl, rfl, h.symm⟩) _ _ _ hr
    exact Or.inr (Or.inl ⟨l, z, hl, hz, by rw [foldV_best _ l z hf]; exact best_int_min _⟩)
  · obtain ⟨l, z, hl, hz, hf⟩ := runCol_fold Cell.float (bestE fun a b => e.f32.lt b a) (by
      intro p x r' h
      cases p <;> simp only [Fn.apply, Cell.ty] at h <;> simp at h
      exact ⟨_, _, rfl, rfl, h.symm⟩) _ _ _ hr
    exact Or.inr (Or.inr (Or.inl ⟨l, hl, by rw [hz, foldV_best _ l z hf]⟩))
  · obtain ⟨l, z, hl, hz, hf⟩ := runCol_fold Cell.long (bestE fun a b => decide (b < a)) (by
      intro p x r' h
      cases p <;> simp only [Fn.apply, Cell.ty] at h <;> simp at h
      exact ⟨_, _, rfl, rfl, h.symm⟩) _ _ _ hr
    exact Or.inr (Or.inr (Or.inr (Or.inl ⟨l, z, hl, hz, by rw [foldV_best _ l z hf]; exact best_int_min _⟩)))
  · obtain ⟨l, z, hl, hz, hf⟩ := runCol_fold Cell.double (bestE fun a b => e.f64.lt b a) (by
      intro p x r' h
      cases p <;> simp only [Fn.apply, Cell.ty] at h <;> simp at h
      exact ⟨_, _, rfl, rfl, h.symm⟩) _ _ _ hr
    exact Or.inr (Or.inr (Or.inr (Or.inr (Or.inl ⟨l, hl, by rw [hz, foldV_best _ l z hf]⟩))))
  · obtain ⟨l, z, hl, hz, hf⟩ := runCol_fold Cell.str (bestE fun a b => decide (b < a)) (by
      intro p x r' h
      cases p <;> simp only [Fn.apply, Cell.ty] at h <;> simp at h
      exact ⟨_, _, rfl, rfl, h.symm⟩) _ _ _ hr
    exact Or.inr (Or.inr (Or.inr (Or.inr (Or.inr ⟨l, z, hl, hz, by rw [foldV_best _ l z hf]; exact best_str_min _⟩))))
  all_goals cases ht

/-- A column run through the function chosen for an operator gives what the operator means. -/
theorem run_agg {e : Env F} {op : Op} {ix : Int} {pt rt : Ty} {f : Fn} {i out : Cell F} {cells : List (Cell F)}
    (hf : addFn op ix pt rt = .ok f) (hi : initCell e op rt = .ok i) (hr : runCol e f i cells = .ok out) :
    ∃ m, meaning op ix = some m ∧ AggIs e cells out m := by
  cases op with
  | sum =>
    simp only [addFn] at hf
    split at hf
    · rename_i h
      rw [← Except.ok.inj hf] at hr
      rw [h.2] at hi
      exact ⟨.sum, rfl, run_sum h.1 (by decide) hi hr⟩
    · cases hf
  | sum0 =>
    simp only [addFn] at hf
    split at hf
    · rename_i h
      rw [← Except.ok.inj hf] at hr
      rw [h.2] at hi
      exact ⟨.sum0, rfl, run_sum h.1 (by decide) hi hr⟩
    · cases hf
  | count =>
    simp only [addFn] at hf
    split at hf
    · rename_i hix
      split at hf
      · rename_i h
        rw [← Except.ok.inj hf] at hr
        rw [h.2] at hi
        simp only [initCell, Except.ok.injEq] at hi
        rw [← hi] at hr
        refine ⟨.rows, by simp [meaning, hix], ?_⟩
        have := run_countNull hr
        simpa [AggIs] using this
      · cases hf
    · rename_i hix
      split at hf
      · rename_i h
        rw [← Except.ok.inj hf] at hr
        rw [h.2] at hi
        simp only [initCell, Except.ok.injEq] at hi
        rw [← hi] at hr
        refine ⟨.count, by simp [meaning, hix], ?_⟩
        have := run_count hr
        simpa [AggIs] using this
      · cases hf
  | countNull =>
    simp only [addFn] at hf
    split at hf
    · rename_i h
      rw [← Except.ok.inj hf] at hr
      rw [h.2] at hi
      simp only [initCell, Except.ok.injEq] at hi
      rw [← hi] at hr
      refine ⟨.rows, rfl, ?_⟩
      have := run_countNull hr
      simpa [AggIs] using this
    · cases hf
  | max =>
    simp only [addFn] at hf
    split at hf
    · rename_i h
      rw [← Except.ok.inj hf] at hr
      rw [h.2] at hi
      exact ⟨.max, rfl, run_max h.1 (by decide) hi hr⟩
    · cases hf
  | min =>
    simp only [addFn] at hf
    split at hf
    · rename_i h
      rw [← Except.ok.inj hf] at hr
      rw [h.2] at hi
      exact ⟨.min, rfl, run_min h.1 (by decide) hi hr⟩
    · cases hf
  | none => cases hf

end Verif.Coproc
