import Verif.Replica.Model

/-! Facts about the region's history, and what they say about a replica that lags behind it. -/

namespace Verif.Replica

/-- The region after the first `n` entries. -/
def S (v : View) (log : List Entry) (n : Nat) : View := v.after (log.take n)

theorem S_succ (v : View) {log : List Entry} {n : Nat} {e : Entry} (h : log[n]? = some e) :
    S v log (n + 1) = (S v log n).next e := by
  have hlt : n < log.length := (List.getElem?_eq_some_iff.1 h).1
  have he : log[n] = e := (List.getElem?_eq_some_iff.1 h).2
  unfold S View.after
  rw [List.take_add_one, List.foldl_append, h]
  rfl

theorem S_append (v : View) {log : List Entry} {n : Nat} (es : List Entry) (h : n ≤ log.length) :
    S v (log ++ es) n = S v log n := by
  unfold S
  rw [List.take_append_of_le_length h]

theorem S_all (v : View) (log : List Entry) : S v log log.length = v.after log := by
  unfold S; rw [List.take_length]

theorem next_version (v : View) (e : Entry) :
    v.version ≤ (v.next e).version ∧ ((v.next e).version = v.version → (v.next e).range = v.range) := by
  unfold View.next
  by_cases h : e.version = v.version
  · rw [if_pos h]
    cases e.cmd <;> dsimp only <;> refine ⟨by omega, ?_⟩
    · intro _; trivial
    · intro _; trivial
    · intro _; trivial
    · intro h; omega
    · intro _; trivial
  · rw [if_neg h]; exact ⟨Int.le_refl _, fun _ => rfl⟩

theorem S_version (v : View) (log : List Entry) {i : Nat} : ∀ {j : Nat}, i ≤ j → j ≤ log.length →
    (S v log i).version ≤ (S v log j).version ∧
      ((S v log j).version = (S v log i).version → (S v log j).range = (S v log i).range) := by
  intro j
  induction j with
  | zero => intro h _; obtain rfl : i = 0 := by omega
            exact ⟨Int.le_refl _, fun _ => rfl⟩
  | succ j ih =>
    intro h hj
    rcases Nat.lt_or_ge j i with h' | h'
    · obtain rfl : i = j + 1 := by omega
      exact ⟨Int.le_refl _, fun _ => rfl⟩
    · obtain ⟨h1, h2⟩ := ih h' (by omega)
      have hlt : j < log.length := by omega
      have he : log[j]? = some log[j] := List.getElem?_eq_getElem hlt
      rw [S_succ v he]
      obtain ⟨h3, h4⟩ := next_version (S v log j) log[j]
      refine ⟨by omega, fun heq => ?_⟩
      rw [h4 (by omega), h2 (by omega)]

/-- Which versions a log's entries may carry, and what they may ask for. -/
def LogOk (cfs : List Nat) (v : View) (log : List Entry) : Prop :=
  ∀ i e, log[i]? = some e → e.version ≤ (S v log i).version ∧
    (e.version = (S v log i).version → valid cfs (S v log i).range e.cmd = true)

/-- Between the entries `p` and `n` there is one of version `ver` that sets `k`. -/
def Touched (log : List Entry) (ver : Int) (p n : Nat) (k : Key) : Prop :=
  ∃ i e, p ≤ i ∧ i < n ∧ log[i]? = some e ∧ e.version = ver ∧ effect e.cmd k ≠ none

theorem Touched.mono {log : List Entry} {ver : Int} {p q n : Nat} {k : Key} (h : Touched log ver p n k)
    (hq : q ≤ p) : Touched log ver q n k := by
  obtain ⟨i, e, h1, h2⟩ := h; exact ⟨i, e, by omega, h2⟩

theorem Touched.append {log : List Entry} {ver : Int} {p n : Nat} {k : Key} (es : List Entry)
    (h : Touched log ver p n k) (hn : n ≤ log.length) : Touched (log ++ es) ver p n k := by
  obtain ⟨i, e, h1, h2, h3, h4⟩ := h
  exact ⟨i, e, h1, h2, by rw [List.getElem?_append_left (by omega)]; exact h3, h4⟩

theorem S_data (v : View) {log : List Entry} {p : Nat} {k : Key} :
    ∀ {n : Nat}, p ≤ n → n ≤ log.length → (S v log p).version = (S v log n).version →
      ¬ Touched log (S v log n).version p n k → (S v log n).data k = (S v log p).data k := by
  intro n
  induction n with
  | zero => intro h _ _ _; obtain rfl : p = 0 := by omega
            rfl
  | succ n ih =>
    intro h hn hv ht
    rcases Nat.lt_or_ge n p with h' | h'
    · obtain rfl : p = n + 1 := by omega
      rfl
    · have hlt : n < log.length := by omega
      have he : log[n]? = some log[n] := List.getElem?_eq_getElem hlt
      have h1 := (S_version v log h' (by omega : n ≤ log.length)).1
      have h2 := (S_version v log (by omega : n ≤ n + 1) hn).1
      have hvn : (S v log n).version = (S v log (n + 1)).version := by omega
      rw [← ih h' (by omega) (by omega) (fun ⟨i, e, a, b, c, d, f⟩ => ht ⟨i, e, a, by omega, c, by omega, f⟩)]
      rw [S_succ v he]
      unfold View.next
      by_cases hev : log[n].version = (S v log n).version
      · rw [if_pos hev]
        have hno : effect log[n].cmd k = none := by
          apply Classical.byContradiction
          intro hne
          exact ht ⟨n, log[n], h', by omega, he, by omega, hne⟩
        generalize log[n].cmd = c at *
        cases c <;> dsimp only <;> first | rfl | (rw [hno]; rfl)
      · rw [if_neg hev]

theorem foldl_set_puts (puts : List (Key × Nat)) : ∀ (d : Data) (k : Key),
    puts.foldl (fun d p => set d p.1 (some p.2)) d k =
      (((puts.reverse.find? (fun p => p.1 == k)).map (fun p => some p.2)).getD (d k)) := by
  induction puts with
  | nil => intro d k; rfl
  | cons p ps ih =>
    intro d k
    rw [List.foldl_cons, ih, List.reverse_cons, List.find?_append]
    cases List.find? (fun p => p.1 == k) ps.reverse with
    | some q => rfl
    | none =>
      rw [Option.none_or, List.find?_cons, List.find?_nil]
      unfold set
      by_cases h : p.1 = k
      · subst h; simp
      · have h2 : (p.1 == k) = false := by simp [h]
        rw [h2, if_neg (fun h3 => h h3.symm)]

theorem foldl_set_dels (dels : List Key) : ∀ (d : Data) (k : Key),
    dels.foldl (fun d x => set d x none) d k = if dels.contains k then none else d k := by
  induction dels with
  | nil => intro d k; rfl
  | cons x xs ih =>
    intro d k
    rw [List.foldl_cons, ih]
    unfold set
    by_cases h1 : xs.contains k = true
    · rw [if_pos h1, if_pos (by simp only [List.contains_cons, h1, Bool.or_true])]
    · rw [if_neg h1]
      by_cases h : k = x
      · subst h; rw [if_pos rfl, if_pos (by simp)]
      · rw [if_neg h, if_neg]
        simp only [List.contains_cons, Bool.or_eq_true, not_or]
        exact ⟨by simp [h], h1⟩

theorem foldl_wipe (cf : Nat) (rs : List Range) : ∀ (d : Data) (k : Key),
    rs.foldl (fun d r => wipeRange d [cf] r) d k =
      if k.1 = cf ∧ (rs.any fun r => r.has k.2) = true then none else d k := by
  induction rs with
  | nil => intro d k; rw [if_neg (by simp)]; rfl
  | cons r rs ih =>
    intro d k
    rw [List.foldl_cons, ih]
    unfold wipeRange
    simp only [List.any_cons, Bool.or_eq_true, List.contains_cons, List.contains_nil, Bool.or_false,
      beq_iff_eq]
    by_cases h1 : k.1 = cf <;> by_cases h2 : r.has k.2 = true <;>
      by_cases h3 : (rs.any fun r => r.has k.2) = true <;> simp [h1, h2, h3]

theorem exec_eq (d : Data) (c : Cmd) (k : Key) : exec d c k = (effect c k).getD (d k) := by
  cases c with
  | write puts dels =>
    unfold exec effect
    dsimp only
    rw [foldl_set_dels, foldl_set_puts]
    by_cases h : dels.contains k = true
    · rw [if_pos h, if_pos h]; rfl
    · rw [if_neg h, if_neg h]
  | deleteRange cf rs =>
    unfold exec effect
    dsimp only
    rw [foldl_wipe]
    by_cases h : k.1 = cf ∧ (rs.any fun r => r.has k.2) = true
    · rw [if_pos h, if_pos h]; rfl
    · rw [if_neg h, if_neg h]; rfl
  | txnDeleteRange r =>
    unfold exec effect wipeRange
    dsimp only
    by_cases h : txnCfs.contains k.1 = true ∧ r.has k.2 = true
    · rw [if_pos h, if_pos h]; rfl
    · rw [if_neg h, if_neg h]; rfl
  | split => rfl
  | other => rfl

/-- The replica holds, in its range, what the region held after the first `n` entries — except for keys
that will be set again by entries still to be delivered. -/
def CloseN (cfs : List Nat) (v : View) (log : List Entry) (ver : Int) (r : Range) (d : Data) (p n : Nat) :
    Prop :=
  n ≤ log.length ∧ p ≤ n ∧ ver = (S v log n).version ∧ r = (S v log n).range ∧
    ∀ k : Key, cfs.contains k.1 = true → r.has k.2 = true →
      Touched log ver p n k ∨ d k = (S v log n).data k

def Close (cfs : List Nat) (v : View) (log : List Entry) (b : Node) (p : Nat) : Prop :=
  ∃ n, CloseN cfs v log b.version b.range b.data p n

theorem CloseN.lower {cfs : List Nat} {v : View} {log : List Entry} {ver : Int} {r : Range} {d : Data}
    {p q n : Nat} (h : CloseN cfs v log ver r d p n) (hq : q ≤ p) : CloseN cfs v log ver r d q n := by
  obtain ⟨h1, h2, h3, h4, h5⟩ := h
  refine ⟨h1, by omega, h3, h4, fun k hc hr => ?_⟩
  rcases h5 k hc hr with h | h
  · exact .inl (h.mono hq)
  · exact .inr h

theorem Close.lower {cfs : List Nat} {v : View} {log : List Entry} {b : Node} {p q : Nat}
    (h : Close cfs v log b p) (hq : q ≤ p) : Close cfs v log b q := by
  obtain ⟨n, h⟩ := h; exact ⟨n, h.lower hq⟩

theorem CloseN.append {cfs : List Nat} {v : View} {log : List Entry} {ver : Int} {r : Range} {d : Data}
    {p n : Nat} (es : List Entry) (h : CloseN cfs v log ver r d p n) :
    CloseN cfs v (log ++ es) ver r d p n := by
  obtain ⟨h1, h2, h3, h4, h5⟩ := h
  refine ⟨by rw [List.length_append]; omega, h2, ?_, ?_, ?_⟩
  · rw [S_append v es h1]; exact h3
  · rw [S_append v es h1]; exact h4
  · intro k hc hr
    rw [S_append v es h1]
    rcases h5 k hc hr with h | h
    · exact .inl (h.append es h1)
    · exact .inr h

theorem Close.append {cfs : List Nat} {v : View} {log : List Entry} {b : Node} {p : Nat}
    (es : List Entry) (h : Close cfs v log b p) : Close cfs v (log ++ es) b p := by
  obtain ⟨n, h⟩ := h; exact ⟨n, h.append es⟩

/-- A replica whose version is above all the entries before `q` may skip them. -/
theorem CloseN.skip {cfs : List Nat} {v : View} {log : List Entry} (hlog : LogOk cfs v log) {ver : Int}
    {r : Range} {d : Data} {p n q m : Nat} (h : CloseN cfs v log ver r d p n) (hq : q ≤ m)
    (hm : m ≤ log.length) (hv : (S v log m).version < ver) : CloseN cfs v log ver r d q n := by
  obtain ⟨h1, h2, h3, h4, h5⟩ := h
  have hn : m ≤ n := by
    rcases Nat.lt_or_ge n m with h' | h'
    · have := (S_version v log (Nat.le_of_lt h') hm).1
      omega
    · exact h'
  refine ⟨h1, by omega, h3, h4, fun k hc hr => ?_⟩
  rcases h5 k hc hr with ⟨i, e, a1, a2, a3, a4, a5⟩ | h
  · refine .inl ⟨i, e, ?_, a2, a3, a4, a5⟩
    rcases Nat.lt_or_ge i q with h' | h'
    · have g1 := (hlog i e a3).1
      have g2 := (S_version v log (by omega : i ≤ m) hm).1
      omega
    · exact h'
  · exact .inr h

/-- One entry delivered. -/
theorem Close.apply {cfs : List Nat} {v : View} {log : List Entry} (hlog : LogOk cfs v log) {b : Node}
    {e : Entry} (h : Close cfs v log b b.pos) (he : log[b.pos]? = some e) (own : Bool)
    (hown : e.version = b.version → (∃ r, e.cmd = .txnDeleteRange r) → own = true) :
    (applyEntry b e own).phase = b.phase ∧ (applyEntry b e own).applied = b.pos + 1 ∧
    (applyEntry b e own).base = b.base ∧
    Close cfs v log (applyEntry b e own) (b.pos + 1) := by
  obtain ⟨n, h1, h2, h3, h4, h5⟩ := h
  generalize hp : b.pos = p at *
  have hplt : p < log.length := (List.getElem?_eq_some_iff.1 he).1
  obtain ⟨hle, hval⟩ := hlog p e he
  have hpn := (S_version v log h2 h1).1
  unfold applyEntry
  dsimp only
  rw [hp]
  by_cases hev : e.version = b.version
  · rw [if_neg (by simp [hev])]
    have hsp : (S v log p).version = b.version := by omega
    have hval' := hval (by omega)
    have hrg := (S_version v log h2 h1).2 (by omega)
    -- data commands
    have key : ∀ c, e.cmd = c → (∀ s, c ≠ .split s) →
        Close cfs v log { b with data := exec b.data c, applied := p + 1 } (p + 1) := by
      intro c hc hns
      have hnext : (S v log (p + 1)).version = b.version ∧ (S v log (p + 1)).range = (S v log p).range ∧
          ∀ k, (S v log (p + 1)).data k = (effect c k).getD ((S v log p).data k) := by
        rw [S_succ v he]
        unfold View.next
        rw [if_pos (by omega), hc]
        cases c with
        | split s => exact absurd rfl (hns s)
        | write _ _ => exact ⟨hsp, rfl, fun _ => rfl⟩
        | deleteRange _ _ => exact ⟨hsp, rfl, fun _ => rfl⟩
        | txnDeleteRange _ => exact ⟨hsp, rfl, fun _ => rfl⟩
        | other => exact ⟨hsp, rfl, fun _ => rfl⟩
      obtain ⟨hn1, hn2, hn3⟩ := hnext
      rcases Nat.lt_or_ge p n with hlt | hge
      · refine ⟨n, h1, hlt, h3, h4, fun k hcf hr => ?_⟩
        dsimp only
        by_cases hT : Touched log b.version (p + 1) n k
        · exact .inl hT
        · right
          rw [exec_eq]
          have hd := S_data v (k := k) (p := p + 1) (n := n) hlt h1 (by omega) (by rw [← h3]; exact hT)
          rw [hd, hn3]
          cases hef : effect c k with
          | some w => rfl
          | none =>
            simp only [Option.getD_none]
            rcases h5 k hcf hr with ⟨i, e', a1, a2, a3, a4, a5⟩ | hd'
            · exfalso
              by_cases hip : i = p
              · subst hip
                rw [he] at a3
                obtain rfl := Option.some.inj a3
                rw [hc] at a5
                exact a5 hef
              · exact hT ⟨i, e', by omega, a2, a3, a4, a5⟩
            · rw [hd', hd, hn3, hef]; rfl
      · obtain rfl : p = n := by omega
        refine ⟨p + 1, by omega, by omega, hn1.symm, ?_, fun k hcf hr => ?_⟩
        · rw [hn2]; exact h4
        · right
          dsimp only
          rw [exec_eq, hn3]
          rcases h5 k hcf hr with ⟨i, e', a1, a2, _⟩ | hd'
          · omega
          · rw [hd']
    cases hcmd : e.cmd with
    | split key =>
      rw [hcmd] at hval'
      have hv2 : (S v log p).range.lo < key ∧ key < (S v log p).range.hi := by
        unfold valid at hval'
        simp only [Bool.and_eq_true, decide_eq_true_eq] at hval'
        exact hval'
      have hbr : b.range.lo < key ∧ key < b.range.hi := by rw [h4, hrg]; exact hv2
      dsimp only
      rw [if_pos hbr]
      refine ⟨rfl, rfl, rfl, ?_⟩
      have hS : S v log (p + 1) =
          ⟨(S v log p).version + 1, ⟨key, (S v log p).range.hi⟩, (S v log p).data⟩ := by
        rw [S_succ v he]
        unfold View.next
        rw [if_pos (by omega), hcmd]
      have hpn' : p = n := by
        rcases Nat.lt_or_ge p n with hlt | hge
        · have := (S_version v log hlt h1).1
          rw [hS] at this
          dsimp only at this
          omega
        · omega
      subst hpn'
      refine ⟨p + 1, by omega, by omega, ?_, ?_, fun k hcf hr => ?_⟩
      · rw [hS]; dsimp only; omega
      · rw [hS]; dsimp only; rw [h4]
      · right
        rw [hS]
        dsimp only
        have hr' : b.range.has k.2 = true := by
          dsimp only at hr
          unfold Range.has at hr ⊢
          simp only [Bool.and_eq_true, decide_eq_true_eq] at hr ⊢
          exact ⟨List.le_trans (List.le_of_lt hbr.1) hr.1, hr.2⟩
        rcases h5 k hcf hr' with ⟨i, e', a1, a2, _⟩ | hd'
        · omega
        · exact hd'
    | txnDeleteRange r =>
      have := hown hev ⟨r, hcmd⟩
      dsimp only
      rw [if_pos this]
      exact ⟨rfl, rfl, rfl, key _ hcmd (by intro s hs; cases hs)⟩
    | write a c => exact ⟨rfl, rfl, rfl, key _ hcmd (by intro s hs; cases hs)⟩
    | deleteRange a c => exact ⟨rfl, rfl, rfl, key _ hcmd (by intro s hs; cases hs)⟩
    | other => exact ⟨rfl, rfl, rfl, key _ hcmd (by intro s hs; cases hs)⟩
  · rw [if_pos (by simpa using hev)]
    refine ⟨rfl, rfl, rfl, ?_⟩
    rcases Nat.lt_or_ge p n with hlt | hge
    · refine ⟨n, h1, hlt, h3, h4, fun k hcf hr => ?_⟩
      rcases h5 k hcf hr with ⟨i, e', a1, a2, a3, a4, a5⟩ | hd'
      · refine .inl ⟨i, e', ?_, a2, a3, a4, a5⟩
        rcases Nat.lt_or_ge i (p + 1) with h' | h'
        · obtain rfl : i = p := by omega
          rw [he] at a3
          obtain rfl := Option.some.inj a3
          exact absurd a4 hev
        · exact h'
      · exact .inr hd'
    · obtain rfl : p = n := by omega
      have hS : S v log (p + 1) = S v log p := by
        rw [S_succ v he]
        unfold View.next
        rw [if_neg (by omega)]
      refine ⟨p + 1, by omega, by omega, ?_, ?_, fun k hcf hr => ?_⟩
      · rw [hS]; exact h3
      · rw [hS]; exact h4
      · rw [hS]
        rcases h5 k hcf hr with ⟨i, e', a1, a2, _⟩ | hd'
        · omega
        · exact .inr hd'

end Verif.Replica
