import Verif.Coproc.Plan

/-!
# Schemas of requests
-/

namespace Verif.Coproc
open Verif.Codec Verif.Scan

theorem origLoop_ok : ∀ {l : List Col} {i : Nat} {v : List Int}, (∀ c ∈ l, 0 ≤ c.index ∧ c.index < v.length) →
    ∃ w, origLoop l i v = .ok w
  | [], i, v, _ => ⟨v, rfl⟩
  | c :: l, i, v, h => by
    simp only [origLoop, if_pos (h c List.mem_cons_self)]
    exact origLoop_ok (fun d hd => by
      have := h d (List.mem_cons_of_mem _ hd)
      simpa using this)

theorem origLoop_get : ∀ {l : List Col} {i : Nat} {v w : List Int}, origLoop l i v = .ok w → ∀ k : Nat,
    k < v.length → (∃ (j : Nat) (c : Col), l[j]? = some c ∧ c.index = (k : Int) ∧ w[k]? = some ((i + j : Nat) : Int)) ∨
      ((∀ c ∈ l, c.index ≠ (k : Int)) ∧ w[k]? = v[k]?)
  | [], i, v, w, h, k, _ => by
    simp only [origLoop, Except.ok.injEq] at h
    subst h
    exact Or.inr ⟨(by intro c hc; cases hc), rfl⟩
  | c :: l, i, v, w, h, k, hk => by
    simp only [origLoop] at h
    split at h
    · rename_i hc
      rcases origLoop_get h k (by simpa using hk) with ⟨j, d, h1, h2, h3⟩ | ⟨h1, h2⟩
      · left
        refine ⟨j + 1, d, by simpa using h1, h2, ?_⟩
        rw [h3]
        congr 2
        omega
      · by_cases hck : c.index = (k : Int)
        · left
          refine ⟨0, c, rfl, hck, ?_⟩
          rw [h2, hck]
          simp [hk]
        · right
          refine ⟨?_, ?_⟩
          · intro d hd
            rcases List.mem_cons.1 hd with rfl | hd
            · exact hck
            · exact h1 d hd
          · rw [h2]
            have : c.index.toNat ≠ k := by omega
            simp [List.getElem?_set, this]
    · cases h

theorem find_index : ∀ {l : List Col} {j : Nat} {c : Col} {k : Int}, (l.map (·.index)).Nodup → l[j]? = some c →
    c.index = k → l.find? (fun c => decide (c.index = k)) = some c
  | [], j, c, k, _, h, _ => by simp at h
  | d :: l, 0, c, k, _, h, hk => by
    simp only [List.getElem?_cons_zero, Option.some.injEq] at h
    subst h
    simp [hk]
  | d :: l, j + 1, c, k, hn, h, hk => by
    simp only [List.getElem?_cons_succ] at h
    rw [List.map_cons, List.nodup_cons] at hn
    have hne : d.index ≠ k := by
      intro hx
      apply hn.1
      rw [hx, ← hk]
      exact List.mem_map_of_mem (List.mem_of_getElem? h)
    simp only [List.find?_cons, hne, decide_false]
    exact find_index hn.2 h hk

theorem idx_some {α : Type} {v : List α} {i : Int} {a : α} (h0 : 0 ≤ i) (h : v[i.toNat]? = some a) : idx v i = .ok a := by
  unfold idx
  rw [if_neg (by omega), h]

theorem mapE_total {α β : Type} {f : α → Except Bad β} : ∀ {l : List α}, (∀ a ∈ l, ∃ b, f a = .ok b) →
    ∃ l', mapE f l = .ok l'
  | [], _ => ⟨[], rfl⟩
  | a :: l, h => by
    obtain ⟨b, hb⟩ := h a List.mem_cons_self
    obtain ⟨l', hl⟩ := mapE_total (fun x hx => h x (List.mem_cons_of_mem _ hx))
    exact ⟨b :: l', by simp only [mapE, hb, hl]⟩

/-- The position of a column in the schema, by its index. -/
theorem orig_indexes {q : Req} (h : WellFormed q) : ∃ oi, origIndexes q = .ok oi ∧ oi.length = q.orig.length ∧
    ∀ k : Nat, k < q.orig.length → ∃ (j : Nat) (c : Col), oi[k]? = some (j : Int) ∧ q.orig[j]? = some c ∧
      byIndex q k = some c.ty := by
  obtain ⟨oi, ho⟩ := origLoop_ok (l := q.orig) (i := 0) (v := List.replicate q.orig.length (-1))
    (by intro c hc; simpa using h.range c hc)
  refine ⟨oi, ho, by simpa using origLoop_len ho, ?_⟩
  intro k hk
  rcases origLoop_get ho k (by simpa using hk) with ⟨j, c, h1, h2, h3⟩ | ⟨h1, _⟩
  · refine ⟨j, c, by simpa using h3, h1, ?_⟩
    unfold byIndex
    rw [find_index h.once h1 h2]; rfl
  · obtain ⟨c, hc, hck⟩ := h.full k hk
    exact absurd hck (h1 c hc)

/-- The position in the schema of a selected column. -/
theorem sel_indexes {q : Req} (h : WellFormed q) : ∃ oi si, origIndexes q = .ok oi ∧ selIndexes q oi = .ok si ∧
    si.length = width q ∧ ∀ i : Nat, i < width q → ∃ (j : Nat) (c : Col), si[i]? = some (j : Int) ∧
      q.orig[j]? = some c ∧ colTy q i = some c.ty := by
  obtain ⟨oi, ho, hl, hg⟩ := orig_indexes h
  by_cases hs : q.sel = []
  · have : ∃ si, mapE (fun i => match idx oi i with
        | .ok _ => .ok i
        | .error e => .error e) oi = .ok si := by
      apply mapE_total
      intro a ha
      obtain ⟨k, hk⟩ := List.getElem?_of_mem ha
      have hkl : k < oi.length := (List.getElem?_eq_some_iff.1 hk).1
      obtain ⟨j, c, h1, h2, _⟩ := hg k (by omega)
      rw [hk] at h1
      have haj := Option.some.inj h1
      have hjl : j < q.orig.length := (List.getElem?_eq_some_iff.1 h2).1
      have : oi[a.toNat]? = some oi[j] := by
        rw [haj]; simp
      rw [idx_some (by omega) this]
      exact ⟨a, rfl⟩
    obtain ⟨si, hsi⟩ := this
    have hsel : selIndexes q oi = .ok si := by
      unfold selIndexes; rw [if_pos hs]; exact hsi
    refine ⟨oi, si, ho, hsel, (selIndexes_len ho hsel).1, ?_⟩
    intro i hi
    unfold width at hi
    rw [if_pos hs] at hi
    obtain ⟨j, c, h1, h2, h3⟩ := hg i hi
    obtain ⟨b, hb1, hb2⟩ := (mapE_ok hsi).2 i j h1
    have hbj : b = (j : Int) := by
      split at hb1
      · exact (Except.ok.inj hb1).symm
      · cases hb1
    refine ⟨j, c, by rw [hb2, hbj], h2, ?_⟩
    unfold colTy
    rw [if_pos hs]; exact h3
  · have : ∃ si, mapE (idx oi) q.sel = .ok si := by
      apply mapE_total
      intro a ha
      obtain ⟨h1, h2⟩ := h.sel a ha
      have hk : a.toNat < oi.length := by omega
      exact ⟨oi[a.toNat], idx_some h1 (by simp [hk])⟩
    obtain ⟨si, hsi⟩ := this
    have hsel : selIndexes q oi = .ok si := by
      unfold selIndexes; rw [if_neg hs]; exact hsi
    refine ⟨oi, si, ho, hsel, (selIndexes_len ho hsel).1, ?_⟩
    intro i hi
    unfold width at hi
    rw [if_neg hs] at hi
    have hsi' : q.sel[i]? = some q.sel[i] := by simp [hi]
    obtain ⟨b, hb1, hb2⟩ := (mapE_ok hsi).2 i _ hsi'
    obtain ⟨h1, h2⟩ := h.sel q.sel[i] (List.getElem_mem hi)
    obtain ⟨j, c, h3, h4, h5⟩ := hg q.sel[i].toNat (by omega)
    have hbj : b = (j : Int) := by
      unfold idx at hb1
      rw [if_neg (by omega), h3] at hb1
      exact (Except.ok.inj hb1).symm
    refine ⟨j, c, by rw [hb2, hbj], h4, ?_⟩
    unfold colTy
    rw [if_neg hs, hsi']
    simp only [Option.bind]
    rw [show (q.sel[i] : Int) = (q.sel[i].toNat : Int) by omega]
    exact h5

/-- The types looked up for columns. -/
theorem create_get {q : Req} (h : WellFormed q) {oi si cols : List Int} {ts : List Ty} (ho : origIndexes q = .ok oi)
    (hs : selIndexes q oi = .ok si) (hq : q.orig ≠ []) (hc : create q si cols = .ok ts) (i : Nat) (k : Int)
    (hk : cols[i]? = some k) (hkr : 0 ≤ k ∧ k < width q) : ts[i]? = colTy q k.toNat := by
  obtain ⟨oi', si', ho', hs', _, hg⟩ := sel_indexes h
  rw [ho] at ho'
  cases Except.ok.inj ho'
  rw [hs] at hs'
  cases Except.ok.inj hs'
  unfold create at hc
  rw [if_neg hq] at hc
  obtain ⟨b, hb, hts⟩ := (mapE_ok hc).2 i k hk
  obtain ⟨j, c, h1, h2, h3⟩ := hg k.toNat (by omega)
  rw [idx_some hkr.1 h1] at hb
  simp only at hb
  rw [idx_some (by omega) (by simpa using h2)] at hb
  simp only [cloneTy] at hb
  split at hb
  · cases hb
  · rw [hts, h3, Except.ok.inj hb]

theorem create_total {q : Req} (h : WellFormed q) {oi si : List Int} (ho : origIndexes q = .ok oi)
    (hs : selIndexes q oi = .ok si) (hq : q.orig ≠ []) {cols : List Int}
    (hr : ∀ k ∈ cols, 0 ≤ k ∧ k < width q ∧ colTy q k.toNat ≠ some .decimal) : ∃ ts, create q si cols = .ok ts := by
  obtain ⟨oi', si', ho', hs', _, hg⟩ := sel_indexes h
  rw [ho] at ho'
  cases Except.ok.inj ho'
  rw [hs] at hs'
  cases Except.ok.inj hs'
  unfold create
  rw [if_neg hq]
  apply mapE_total
  intro k hk
  obtain ⟨h1, h2, h3⟩ := hr k hk
  obtain ⟨j, c, h4, h5, h6⟩ := hg k.toNat (by omega)
  rw [idx_some h1 h4]
  simp only
  rw [idx_some (by omega) (by simpa using h5)]
  simp only [cloneTy]
  rw [if_neg]
  · exact ⟨_, rfl⟩
  · intro hd
    rw [h6, hd] at h3
    exact h3 rfl

/-! ## Sorted columns -/

theorem insCol_perm (c : Col) : ∀ l : List Col, (insCol c l).Perm (c :: l)
  | [] => List.Perm.refl _
  | d :: l => by
    unfold insCol
    split
    · exact List.Perm.refl _
    · exact ((insCol_perm c l).cons d).trans (List.Perm.swap c d l)

theorem sortCols_perm : ∀ l : List Col, (sortCols l).Perm l
  | [] => List.Perm.refl _
  | c :: l => (insCol_perm c (sortCols l)).trans ((sortCols_perm l).cons c)

theorem insCol_sorted (c : Col) : ∀ {l : List Col}, l.Pairwise (fun a b => a.index ≤ b.index) →
    (insCol c l).Pairwise (fun a b => a.index ≤ b.index)
  | [], _ => by simp [insCol]
  | d :: l, h => by
    unfold insCol
    rw [List.pairwise_cons] at h
    split
    · rename_i hlt
      rw [List.pairwise_cons, List.pairwise_cons]
      refine ⟨?_, h⟩
      intro b hb
      rcases List.mem_cons.1 hb with rfl | hb
      · omega
      · have := h.1 b hb
        omega
    · rename_i hlt
      rw [List.pairwise_cons]
      refine ⟨?_, insCol_sorted c h.2⟩
      intro b hb
      rcases List.mem_cons.1 ((insCol_perm c l).mem_iff.1 hb) with rfl | hb
      · omega
      · exact h.1 b hb

theorem sortCols_sorted : ∀ l : List Col, (sortCols l).Pairwise (fun a b => a.index ≤ b.index)
  | [] => List.Pairwise.nil
  | c :: l => insCol_sorted c (sortCols_sorted l)

theorem checkIdx_get : ∀ {l : List Col} {i : Nat}, checkIdx l i = true ↔
    ∀ (j : Nat) (c : Col), l[j]? = some c → c.index = ((i + j : Nat) : Int)
  | [], i => by simp [checkIdx]
  | d :: l, i => by
    simp only [checkIdx, Bool.and_eq_true, decide_eq_true_eq]
    rw [checkIdx_get]
    constructor
    · rintro ⟨h1, h2⟩ j c hj
      cases j with
      | zero =>
        simp only [List.getElem?_cons_zero, Option.some.injEq] at hj
        rw [← hj]; exact h1
      | succ j =>
        simp only [List.getElem?_cons_succ] at hj
        have := h2 j c hj
        omega
    · intro h
      refine ⟨h 0 d rfl, ?_⟩
      intro j c hj
      have := h (j + 1) c (by simpa using hj)
      omega

/-- Strictly ascending integers in a range as long as the list are all of them. -/
theorem range_get : ∀ {l : List Int} {i : Int}, l.Pairwise (· < ·) → (∀ x ∈ l, i ≤ x ∧ x < i + l.length) →
    ∀ (j : Nat) (x : Int), l[j]? = some x → x = i + j
  | [], _, _, _, j, x, h => by simp at h
  | y :: l, i, hp, hr, j, x, h => by
    rw [List.pairwise_cons] at hp
    have hlen : ∀ {l : List Int} {y : Int} (_ : l.Pairwise (· < ·)) (_ : ∀ x ∈ l, y < x) (n : Int)
        (_ : ∀ x ∈ l, x < n), y < n → y + l.length < n := by
      intro l
      induction l with
      | nil => intro y _ _ n _ hy; simpa using hy
      | cons a l ih =>
        intro y hp hy n hn _
        rw [List.pairwise_cons] at hp
        have := ih hp.2 hp.1 n (fun x hx => hn x (List.mem_cons_of_mem _ hx)) (hn a List.mem_cons_self)
        have := hy a List.mem_cons_self
        simp only [List.length_cons]
        omega
    have h0 := hr y List.mem_cons_self
    have h1 := hlen hp.2 hp.1 (i + (y :: l).length) (fun x hx => (hr x (List.mem_cons_of_mem _ hx)).2) h0.2
    simp only [List.length_cons] at h0 h1
    have hy : y = i := by omega
    cases j with
    | zero =>
      simp only [List.getElem?_cons_zero, Option.some.injEq] at h
      omega
    | succ j =>
      simp only [List.getElem?_cons_succ] at h
      have := range_get (i := i + 1) hp.2 (fun x hx => by
        have h2 := hr x (List.mem_cons_of_mem _ hx)
        have h3 := hp.1 x hx
        simp only [List.length_cons] at h2
        omega) j x h
      omega

/-- The check of the result schema: its columns are numbered 0, 1, ..., in any order. -/
theorem checkIdx_iff (l : List Col) : checkIdx (sortCols l) 0 = true ↔
    (∀ c ∈ l, 0 ≤ c.index ∧ c.index < l.length) ∧ (l.map (·.index)).Nodup := by
  have hpm := sortCols_perm l
  have hlen := hpm.length_eq
  constructor
  · intro h
    rw [checkIdx_get] at h
    refine ⟨?_, ?_⟩
    · intro c hc
      obtain ⟨j, hj⟩ := List.getElem?_of_mem (hpm.mem_iff.2 hc)
      have := h j c hj
      have hjl : j < (sortCols l).length := (List.getElem?_eq_some_iff.1 hj).1
      omega
    · apply ((hpm.map (·.index)).nodup_iff).1
      rw [List.Nodup, List.pairwise_iff_getElem]
      intro i j hi hj hij heq
      simp only [List.length_map] at hi hj
      have h1 := h i (sortCols l)[i] (by simp [hi])
      have h2 := h j (sortCols l)[j] (by simp [hj])
      simp only [List.getElem_map] at heq
      omega
  · rintro ⟨h1, h2⟩
    rw [checkIdx_get]
    intro j c hj
    have hsn : ((sortCols l).map (·.index)).Nodup := ((hpm.map (·.index)).nodup_iff).2 h2
    have hst : ((sortCols l).map (·.index)).Pairwise (· < ·) := by
      rw [List.pairwise_map]
      have h3 := sortCols_sorted l
      rw [List.Nodup, List.pairwise_map] at hsn
      refine (h3.and hsn).imp ?_
      intro a b hab
      omega
    have := range_get (i := 0) hst (fun x hx => by
      obtain ⟨d, hd, rfl⟩ := List.mem_map.1 hx
      have := h1 d (hpm.mem_iff.1 hd)
      simp only [List.length_map]
      omega) j c.index (by simp [hj])
    omega

theorem checkOp_iff (n : Nat) (o : Op × Int) : checkOp n o = true ↔ OpOk n o := by
  unfold checkOp OpOk
  obtain ⟨op, i⟩ := o
  simp only
  by_cases h1 : op = .none
  · simp [h1]
  · rw [if_neg h1]
    split
    · rename_i h2
      simp only [decide_eq_true_eq]
      constructor
      · intro h; exact ⟨h1, fun _ => h, fun _ => by omega⟩
      · intro h; exact h.2.1 h2
    · rename_i h2
      split
      · rename_i h3
        simp only [decide_eq_true_eq]
        constructor
        · intro h; exact ⟨h1, fun hx => absurd hx h2, fun _ => h⟩
        · intro h; exact h.2.2 h3
      · rename_i h3
        simp only [true_iff]
        exact ⟨h1, fun hx => absurd hx h2, fun hx => absurd hx h3⟩

end Verif.Coproc
