import Verif.Coproc.Fold

/-!
# What an accepted request looks like
-/

namespace Verif.Coproc
open Verif.Codec Verif.Scan

theorem mapE_ok {α β : Type} {f : α → Except Bad β} : ∀ {l : List α} {l' : List β}, mapE f l = .ok l' →
    l'.length = l.length ∧ ∀ (i : Nat) (a : α), l[i]? = some a → ∃ b, f a = .ok b ∧ l'[i]? = some b
  | [], l', h => by
    simp only [mapE, Except.ok.injEq] at h
    subst h
    exact ⟨rfl, by intro i a h; simp at h⟩
  | x :: l, l', h => by
    simp only [mapE] at h
    split at h
    · cases h
    · rename_i b hb
      split at h
      · cases h
      · rename_i bs hbs
        rw [← Except.ok.inj h]
        obtain ⟨h1, h2⟩ := mapE_ok hbs
        refine ⟨by simp [h1], ?_⟩
        intro i a hi
        cases i with
        | zero =>
          simp only [List.getElem?_cons_zero, Option.some.injEq] at hi
          subst hi
          exact ⟨b, hb, by simp⟩
        | succ i =>
          simp only [List.getElem?_cons_succ] at hi
          obtain ⟨b', h3, h4⟩ := h2 i a hi
          exact ⟨b', h3, by simpa using h4⟩

theorem origLoop_len : ∀ {l : List Col} {i : Nat} {v w : List Int}, origLoop l i v = .ok w → w.length = v.length
  | [], i, v, w, h => by
    simp only [origLoop, Except.ok.injEq] at h
    rw [h]
  | c :: l, i, v, w, h => by
    simp only [origLoop] at h
    split at h
    · rw [origLoop_len h]; simp
    · cases h

theorem selIndexes_len {q : Req} {oi si : List Int} (ho : origIndexes q = .ok oi) (h : selIndexes q oi = .ok si) :
    si.length = width q ∧ (si ≠ [] → q.orig ≠ []) := by
  have hl : oi.length = q.orig.length := by
    have := origLoop_len ho
    simpa using this
  unfold selIndexes at h
  unfold width
  split at h
  · rename_i hs
    have := (mapE_ok h).1
    rw [if_pos hs]
    refine ⟨by omega, ?_⟩
    intro hn hq
    apply hn
    rw [← List.length_eq_zero_iff]
    rw [hq, List.length_nil] at hl
    omega
  · rename_i hs
    obtain ⟨h1, h2⟩ := mapE_ok h
    rw [if_neg hs]
    refine ⟨h1, ?_⟩
    intro hn hq
    rw [hq] at hl
    have ho : oi = [] := List.length_eq_zero_iff.1 (by simpa using hl)
    cases hsel : q.sel with
    | nil => exact hs hsel
    | cons a l =>
      obtain ⟨b, hb, _⟩ := h2 0 a (by rw [hsel]; rfl)
      rw [ho] at hb
      unfold idx at hb
      split at hb
      · cases hb
      · simp at hb

theorem create_len {q : Req} {si cols : List Int} {ts : List Ty} (hq : q.orig ≠ []) (h : create q si cols = .ok ts) :
    ts.length = cols.length := by
  unfold create at h
  rw [if_neg hq] at h
  exact (mapE_ok h).1

theorem insCol_len (c : Col) : ∀ l : List Col, (insCol c l).length = l.length + 1
  | [] => rfl
  | d :: l => by
    unfold insCol
    split
    · rfl
    · simp [insCol_len c l]

theorem sortCols_len : ∀ l : List Col, (sortCols l).length = l.length
  | [] => rfl
  | c :: l => by simp [sortCols, insCol_len, sortCols_len l]

/-- What an accepted request that groups or aggregates looks like. -/
structure Opened (q : Req) (p : Plan) : Prop where
  nsel : p.nsel = width q
  keys : p.keyTys.length = q.groupBy.length
  opsN : q.ops = [] → p.opTys = none
  ops : ∀ os, p.opTys = some os → os.length = q.ops.length
  result : p.result.length = q.groupBy.length + q.ops.length
  sorted : p.sorted.length = p.result.length
  valid : ∀ i ∈ q.groupBy, 0 ≤ i ∧ i < width q
  okOps : ∀ o ∈ q.ops, checkOp (width q) o = true

theorem openReq_steps {q : Req} {p : Plan} (h : openReq q = .ok p) : ∃ oi si ks os, trans q.orig = .ok () ∧
    origIndexes q = .ok oi ∧ selIndexes q oi = .ok si ∧ initGroupBy q si = .ok (ks, os) ∧
    openResult q si.length ks os = .ok p := by
  unfold openReq at h
  split at h
  · cases h
  · rename_i ht
    split at h
    · cases h
    · rename_i oi hoi
      split at h
      · cases h
      · rename_i si hsi
        split at h
        · cases h
        · rename_i ks os hg
          exact ⟨oi, si, ks, os, ht, hoi, hsi, hg, h⟩

theorem initGroupBy_steps {q : Req} {si : List Int} {ks : List Ty} {os : Option (List Ty)}
    (h : initGroupBy q si = .ok (ks, os)) : checkGroupBy q.groupBy si.length = true ∧
    (q.groupBy = [] → ks = []) ∧ (q.groupBy ≠ [] → create q si q.groupBy = .ok ks) ∧
    q.ops.all (checkOp si.length) = true ∧ (q.ops = [] → os = none) ∧
    (q.ops ≠ [] → ∃ l, os = some l ∧ create q si (q.ops.map (fun o => opCol si.length o.2)) = .ok l) := by
  unfold initGroupBy at h
  split at h
  · cases h
  · rename_i h1
    split at h
    · cases h
    · rename_i ks' hk
      split at h
      · cases h
      · rename_i h2
        have hks : (q.groupBy = [] → ks' = []) ∧ (q.groupBy ≠ [] → create q si q.groupBy = .ok ks') := by
          refine ⟨?_, ?_⟩
          · intro he
            rw [if_pos he] at hk
            exact (Except.ok.inj hk).symm
          · intro he
            rw [if_neg he] at hk
            exact hk
        split at h
        · rename_i h3
          simp only [Except.ok.injEq, Prod.mk.injEq] at h
          obtain ⟨rfl, rfl⟩ := h
          exact ⟨by simpa using h1, hks.1, hks.2, by simpa using h2, fun _ => rfl, fun hn => absurd h3 hn⟩
        · rename_i h3
          split at h
          · cases h
          · rename_i l hl
            simp only [Except.ok.injEq, Prod.mk.injEq] at h
            obtain ⟨rfl, rfl⟩ := h
            exact ⟨by simpa using h1, hks.1, hks.2, by simpa using h2, fun hn => absurd hn h3, fun _ => ⟨l, rfl, hl⟩⟩

theorem openResult_steps {q : Req} {n : Nat} {ks : List Ty} {os : Option (List Ty)} {p : Plan}
    (h : openResult q n ks os = .ok p) : ∃ st, trans q.result = .ok () ∧
    mapE (fun c : Col => cloneTy c.ty) (sortCols q.result) = .ok st ∧ checkIdx (sortCols q.result) 0 = true ∧
    p = ⟨ks, os, q.result.map (·.ty), st, !(ks.isEmpty && (os.getD []).isEmpty), n⟩ ∧
    (p.group = true → q.result.length = ks.length + (os.getD []).length) := by
  unfold openResult at h
  split at h
  · cases h
  · rename_i ht
    split at h
    · cases h
    · rename_i st hst
      split at h
      · cases h
      · rename_i hc
        simp only at h
        split at h
        · cases h
        · rename_i hn
          have hp := Except.ok.inj h
          refine ⟨st, ht, hst, by simpa using hc, hp.symm, ?_⟩
          intro hg
          rw [← hp] at hg
          simp only at hg
          exact Decidable.not_not.1 (fun hx => hn ⟨hg, hx⟩)

theorem openReq_group {q : Req} {p : Plan} (h : openReq q = .ok p) :
    p.group = true ↔ q.orig ≠ [] ∧ (q.groupBy ≠ [] ∨ q.ops ≠ []) := by
  obtain ⟨oi, si, ks, os, _, hoi, hsi, hg, hr⟩ := openReq_steps h
  obtain ⟨h1, h2, h3, h4, h5, h6⟩ := initGroupBy_steps hg
  obtain ⟨st, _, _, _, hp, _⟩ := openResult_steps hr
  obtain ⟨hl, hne⟩ := selIndexes_len hoi hsi
  have hgr : p.group = !(ks.isEmpty && (os.getD []).isEmpty) := by rw [hp]
  rw [hgr]
  by_cases ho : q.orig = []
  · have hsi0 : si = [] := Decidable.not_not.1 (fun hn => hne hn ho)
    have hgb : q.groupBy = [] := by
      cases hb : q.groupBy with
      | nil => rfl
      | cons a l =>
        rw [hb, hsi0] at h1
        simp [checkGroupBy] at h1
        omega
    have hk := h2 hgb
    have hos : os.getD [] = [] := by
      by_cases hop : q.ops = []
      · rw [h5 hop]; rfl
      · obtain ⟨l, hl, hc⟩ := h6 hop
        unfold create at hc
        rw [if_pos ho] at hc
        rw [hl, ← Except.ok.inj hc]; rfl
    rw [hk, hos]
    simp [ho]
  · constructor
    · intro hx
      refine ⟨ho, ?_⟩
      by_cases hb : q.groupBy = []
      · right
        intro hop
        rw [h2 hb, h5 hop] at hx
        simp at hx
      · exact Or.inl hb
    · rintro ⟨_, hx⟩
      rcases hx with hx | hx
      · have := create_len ho (h3 hx)
        cases ks with
        | nil =>
          simp at this
          exact absurd this.symm (by simpa using hx)
        | cons a l => simp
      · obtain ⟨l, hl, hc⟩ := h6 hx
        have := create_len ho hc
        simp only [List.length_map] at this
        rw [hl]
        cases l with
        | nil =>
          simp at this
          exact absurd this.symm (by simpa using hx)
        | cons a l => simp

theorem opened {q : Req} {p : Plan} (h : openReq q = .ok p) (hgr : p.group = true) : Opened q p := by
  have ho := ((openReq_group h).1 hgr).1
  obtain ⟨oi, si, ks, os, _, hoi, hsi, hg, hr⟩ := openReq_steps h
  obtain ⟨h1, h2, h3, h4, h5, h6⟩ := initGroupBy_steps hg
  obtain ⟨st, _, hst, _, hp, hlen⟩ := openResult_steps hr
  obtain ⟨hl, hne⟩ := selIndexes_len hoi hsi
  have hk : ks.length = q.groupBy.length := by
    by_cases hb : q.groupBy = []
    · rw [h2 hb, hb]; rfl
    · exact create_len ho (h3 hb)
  have hos : ∀ l, os = some l → l.length = q.ops.length := by
    intro l hl
    by_cases hop : q.ops = []
    · rw [h5 hop] at hl; cases hl
    · obtain ⟨l', hl', hc⟩ := h6 hop
      rw [hl] at hl'
      rw [Option.some.inj hl']
      simpa using create_len ho hc
  have hod : (os.getD []).length = q.ops.length := by
    cases hx : os with
    | none =>
      by_cases hop : q.ops = []
      · simp [hop]
      · obtain ⟨l', hl', _⟩ := h6 hop
        rw [hx] at hl'; cases hl'
    | some l => exact hos l hx
  have hres := hlen hgr
  refine ⟨by rw [hp]; exact hl, by rw [hp]; exact hk, by rw [hp]; exact h5, by rw [hp]; exact hos, ?_, ?_, ?_, ?_⟩
  · rw [hp]
    simp only [List.length_map]
    omega
  · rw [hp]
    simp only [List.length_map]
    rw [(mapE_ok hst).1, sortCols_len]
  · intro i hi
    have := List.all_eq_true.1 h1 i hi
    have := of_decide_eq_true this
    rw [hl] at this
    exact this
  · intro o ho'
    have := List.all_eq_true.1 h4 o ho'
    rw [hl] at this
    exact this

end Verif.Coproc
