import Verif.Balance.Hours

/-! # Hours of balancing (C111) -/

namespace Verif.Balance

/-! ## Specification -/

/-- The usual value of decimal digits. -/
def decimal : List Char → Nat
  | [] => 0
  | c :: l => (c.toNat - 48) * 10 ^ l.length + decimal l

/-- A number of an hour, as one writes it. -/
def IsNumber (l : List Char) : Prop := l ≠ [] ∧ (∀ c ∈ l, c.isDigit = true) ∧ decimal l < 2147483648

/-- A text that gives periods `ps` as the configuration says: "start,end;start,end". -/
inductive Writes : List Char → List (Nat × Nat) → Prop
  | one {a b : List Char} : IsNumber a → IsNumber b → Writes (a ++ ',' :: b) [(decimal a, decimal b)]
  | more {a b t : List Char} {ps : List (Nat × Nat)} : IsNumber a → IsNumber b → Writes t ps →
      Writes (a ++ ',' :: b ++ ';' :: t) ((decimal a, decimal b) :: ps)

/-! ## Lemmas -/

theorem pieces_ne (c : Char) (l : List Char) : pieces c l ≠ [] := by
  cases l with
  | nil => simp [pieces]
  | cons x l =>
    unfold pieces
    split
    · simp
    · split <;> simp

theorem pieces_append (c : Char) (a b : List Char) : pieces c (a ++ c :: b) = pieces c a ++ pieces c b := by
  induction a with
  | nil => simp [pieces]
  | cons x a ih =>
    simp only [List.cons_append, pieces]
    split
    · rw [ih]
      rfl
    · rw [ih]
      cases h : pieces c a with
      | nil => exact absurd h (pieces_ne c a)
      | cons p ps => simp

theorem pieces_none {c : Char} {l : List Char} (h : c ∉ l) : pieces c l = [l] := by
  induction l with
  | nil => rfl
  | cons x l ih =>
    have hx : x ≠ c := fun e => h (by rw [e]; exact List.mem_cons_self ..)
    have hl : c ∉ l := fun e => h (List.mem_cons_of_mem _ e)
    simp only [pieces, hx, if_false, ih hl]

theorem dropWhile_none {l : List Char} (h : ∀ c ∈ l, isSpace c = false) : l.dropWhile isSpace = l := by
  cases l with
  | nil => rfl
  | cons x l =>
    have := h x (List.mem_cons_self ..)
    simp [List.dropWhile, this]

theorem trim_id {l : List Char} (h : ∀ c ∈ l, isSpace c = false) : trim l = l := by
  unfold trim
  rw [dropWhile_none h, dropWhile_none (fun c hc => h c (List.mem_reverse.1 hc)), List.reverse_reverse]

theorem period_nil : period [] = none := rfl

theorem periods_eq (l : List Char) : periods l = ((pieces ';' l).map trim).filterMap period := by
  unfold periods split
  simp only
  split
  · rename_i h
    rw [h]
    rfl
  · rfl

theorem digit_code {c : Char} (h : c.isDigit = true) : 48 ≤ c.toNat ∧ c.toNat ≤ 57 := by
  simp only [Char.isDigit, ge_iff_le, Bool.and_eq_true, decide_eq_true_eq, UInt32.le_iff_toNat_le] at h
  exact h

theorem not_space {c : Char} (h : c.isDigit = true) : isSpace c = false := by
  cases hs : isSpace c
  · rfl
  · exfalso
    have hd := digit_code h
    simp only [isSpace, Bool.or_eq_true, beq_iff_eq] at hs
    rcases hs with ((((rfl | rfl) | rfl) | rfl) | rfl) | rfl <;> exact absurd hd (by decide)

theorem digit_ne {c d : Char} (h : c.isDigit = true) (hd : d.isDigit = false) : c ≠ d := by
  intro e
  rw [e, hd] at h
  cases h

theorem foldl_decimal (l : List Char) : ∀ n : Nat,
    l.foldl (fun n c => n * 10 + (c.toNat - 48)) n = n * 10 ^ l.length + decimal l := by
  induction l with
  | nil => intro n; simp [decimal]
  | cons c l ih =>
    intro n
    rw [List.foldl_cons, ih]
    simp only [decimal, List.length_cons, Nat.pow_succ, Nat.add_mul]
    rw [Nat.mul_assoc, Nat.mul_comm 10 (10 ^ l.length)]
    omega

theorem hour_number {l : List Char} (h : IsNumber l) : hour l = some (decimal l : Int) := by
  obtain ⟨hne, hd, hlt⟩ := h
  have hv : digitsValue l = (decimal l : Int) := by
    unfold digitsValue
    rw [foldl_decimal]
    simp
  have hcl : toInt (clamp (decimal l : Int)) = (decimal l : Int) := by
    have e : clamp (decimal l : Int) = (decimal l : Int) := by
      unfold clamp
      rw [if_neg (by omega), if_neg (by omega)]
    rw [e]
    unfold toInt
    rw [Int.bmod_def]
    have : (decimal l : Int) % ((4294967296 : Nat) : Int) = (decimal l : Int) := Int.emod_eq_of_lt (by omega) (by omega)
    rw [this]
    rw [if_pos (by omega)]
  have hall : l.all Char.isDigit = true := List.all_eq_true.2 hd
  cases l with
  | nil => exact absurd rfl hne
  | cons c l =>
    have hc := hd c (List.mem_cons_self ..)
    have h1 : c ≠ '-' := digit_ne hc (by decide)
    have h2 : c ≠ '+' := digit_ne hc (by decide)
    unfold hour
    split
    rename_i neg ds heq
    split at heq
    · rename_i heq'
      injection heq' with e _
      exact absurd e h1
    · rename_i heq'
      injection heq' with e _
      exact absurd e h2
    · cases heq
      rw [if_pos ⟨hne, hall⟩]
      simp only [Bool.false_eq_true, if_false]
      rw [hv, hcl]

theorem period_number {a b : List Char} (ha : IsNumber a) (hb : IsNumber b) :
    period (a ++ ',' :: b) = some ((decimal a : Int), (decimal b : Int)) := by
  have e : split ',' (a ++ ',' :: b) = [a, b] := by
    unfold split
    rw [pieces_append, pieces_none (fun h => digit_ne (ha.2.1 _ h) (d := ',') (by decide) rfl),
      pieces_none (fun h => digit_ne (hb.2.1 _ h) (d := ',') (by decide) rfl)]
    simp only [List.cons_append, List.nil_append, List.map_cons, List.map_nil]
    rw [trim_id (fun c hc => not_space (ha.2.1 c hc)), trim_id (fun c hc => not_space (hb.2.1 c hc))]
    simp
  unfold period
  rw [e]
  simp only [ha.1, hb.1, if_false, hour_number ha, hour_number hb]

theorem part_facts {a b : List Char} (ha : IsNumber a) (hb : IsNumber b) :
    pieces ';' (a ++ ',' :: b) = [a ++ ',' :: b] ∧ trim (a ++ ',' :: b) = a ++ ',' :: b := by
  have hm : ∀ c ∈ a ++ ',' :: b, c.isDigit = true ∨ c = ',' := by
    intro c hc
    rcases List.mem_append.1 hc with hc | hc
    · exact .inl (ha.2.1 c hc)
    · rcases List.mem_cons.1 hc with hc | hc
      · exact .inr hc
      · exact .inl (hb.2.1 c hc)
  constructor
  · apply pieces_none
    intro h
    rcases hm _ h with h | h
    · revert h
      decide
    · revert h
      decide
  · apply trim_id
    intro c hc
    rcases hm c hc with h | rfl
    · exact not_space h
    · decide

theorem periods_writes {t : List Char} {ps : List (Nat × Nat)} (h : Writes t ps) :
    periods t = ps.map (fun p => ((p.1 : Int), (p.2 : Int))) := by
  induction h with
  | one ha hb =>
    rw [periods_eq, (part_facts ha hb).1]
    simp [(part_facts ha hb).2, period_number ha hb]
  | more ha hb _ ih =>
    rw [periods_eq] at ih ⊢
    rw [pieces_append, (part_facts ha hb).1]
    simp only [List.cons_append, List.nil_append, List.map_cons, (part_facts ha hb).2, ih,
      List.filterMap_cons, period_number ha hb]

/-! ## Properties -/

/-- With a text written as the configuration says, a pass that is not forced begins at an hour exactly
if the hour is in one of the periods, ends included. -/
theorem C111_hours {t : List Char} {ps : List (Nat × Nat)} (h : Writes t ps) (n : Nat) :
    passBegins false t n = true ↔ ∃ p ∈ ps, p.1 ≤ n ∧ n ≤ p.2 := by
  unfold passBegins shouldRun
  rw [Bool.false_or, periods_writes h, List.any_map, List.any_eq_true]
  constructor
  · rintro ⟨p, hp, hx⟩
    simp only [Function.comp, Bool.and_eq_true, decide_eq_true_eq] at hx
    exact ⟨p, hp, by omega, by omega⟩
  · rintro ⟨p, hp, h1, h2⟩
    refine ⟨p, hp, ?_⟩
    simp only [Function.comp, Bool.and_eq_true, decide_eq_true_eq]
    omega

/-- A pass that is forced begins at any hour. -/
theorem C111_forced (t : List Char) (n : Int) : passBegins true t n = true := rfl

/-- Whatever is written: what stands on both sides of a semicolon counts by itself, so a mistake in
one period does not change the others. -/
theorem C111_apart (a b : List Char) (n : Int) :
    passBegins false (a ++ ';' :: b) n = (passBegins false a n || passBegins false b n) := by
  unfold passBegins shouldRun
  rw [periods_eq, periods_eq a, periods_eq b, pieces_append, List.map_append, List.filterMap_append, List.any_append]
  simp

/-- A period over midnight is no period: with "22,3" (and all texts whose periods end before they
begin) no pass ever begins unless forced. -/
theorem C111_midnight_false {t : List Char} {ps : List (Nat × Nat)} (h : Writes t ps) (hb : ∀ p ∈ ps, p.2 < p.1)
    (n : Nat) : passBegins false t n = false := by
  cases hx : passBegins false t n
  · rfl
  · obtain ⟨p, hp, h1, h2⟩ := (C111_hours h n).1 hx
    have := hb p hp
    omega

example : Writes "22,3".toList [(22, 3)] :=
  Writes.one (a := ['2', '2']) (b := ['3']) ⟨by simp, by decide, by decide⟩ ⟨by simp, by decide, by decide⟩

example : Writes "2,4;15,16".toList [(2, 4), (15, 16)] :=
  Writes.more (a := ['2']) (b := ['4']) ⟨by simp, by decide, by decide⟩ ⟨by simp, by decide, by decide⟩
    (Writes.one (a := ['1', '5']) (b := ['1', '6']) ⟨by simp, by decide, by decide⟩ ⟨by simp, by decide, by decide⟩)

example : passBegins false "2,4;15,16".toList 15 = true ∧ passBegins false "2,4;15,16".toList 5 = false ∧
    periods " 2 , 4 ".toList = [(2, 4)] ∧ periods "2,;,7".toList = [(2, 23), (0, 7)] ∧ periods "2,a;a,".toList = [] ∧
    periods "".toList = [] ∧ periods "4294967298,9".toList = [(2, 9)] := by
  decide +kernel

end Verif.Balance
