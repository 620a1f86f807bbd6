import Verif.LogStore.Terms

/-! # The specification log and the term cache against it -/

namespace Verif.LogStore
open Verif.Codec

/-- What every log of a disciplined node is like. -/
structure SpecOk (L : RLog) : Prop where
  f1 : 1 ≤ L.first
  fl : L.first ≤ L.last + 1
  lm : L.last < maxI64
  rng : ∀ i e, L.ent i = some e → 1 ≤ i ∧ i ≤ L.last ∧ GoodEntry e
  win : ∀ i, L.first ≤ i → i ≤ L.last → ∃ e, L.ent i = some e
  asc : ∀ i j a b, i ≤ j → L.ent i = some a → L.ent j = some b → a.term ≤ b.term

theorem SpecOk.empty : SpecOk RLog.empty where
  f1 := by simp [RLog.empty]
  fl := by simp [RLog.empty]
  lm := by simp [RLog.empty, maxI64]
  rng := by simp [RLog.empty]
  win := by simp only [RLog.empty]; omega
  asc := by simp [RLog.empty]

theorem SpecOk.put {L : RLog} (h : SpecOk L) {e : Int × LogEntry} (he : e.1 = L.last + 1)
    (hf : L.last + 1 < maxI64) (hg : GoodEntry e.2) (ha : ∀ i x, L.ent i = some x → x.term ≤ e.2.term) :
    SpecOk (L.put e) where
  f1 := h.f1
  fl := by simp only [RLog.put]; have := h.fl; omega
  lm := by simp only [RLog.put]; omega
  rng := by
    intro i x hx
    simp only [RLog.put] at hx ⊢
    split at hx
    · cases hx
      have := h.f1; have := h.fl
      exact ⟨by omega, by omega, hg⟩
    · have := h.rng i x hx
      exact ⟨this.1, by omega, this.2.2⟩
  win := by
    intro i h1 h2
    simp only [RLog.put] at h1 h2 ⊢
    split
    · exact ⟨_, rfl⟩
    · exact h.win i h1 (by omega)
  asc := by
    intro i j a b hij hx hy
    simp only [RLog.put] at hx hy
    split at hx <;> split at hy
    · cases hx; cases hy; exact Int.le_refl _
    · have := (h.rng j b hy).2.1
      omega
    · cases hy; exact ha i a hx
    · exact h.asc i j a b hij hx hy

/-- Entries that may follow a log, possibly none. -/
structure Fits (L : RLog) (es : List (Int × LogEntry)) : Prop where
  next : Consecutive (L.last + 1) es
  fits : es = [] ∨ L.last + es.length < maxI64
  good : ∀ e ∈ es, GoodEntry e.2
  asc : es.Pairwise (fun a b => a.2.term ≤ b.2.term)
  above : ∀ i e, L.ent i = some e → ∀ x ∈ es, e.term ≤ x.2.term

theorem Appendable.toFits {L : RLog} {es : List (Int × LogEntry)} (h : Appendable L es) : Fits L es :=
  ⟨h.next, .inr h.fits, h.good, h.asc, h.above⟩

theorem Fits.tail {L : RLog} {e : Int × LogEntry} {es : List (Int × LogEntry)} (h : Fits L (e :: es)) :
    Fits (L.put e) es := by
  obtain ⟨h1, h2⟩ := h.next
  refine ⟨?_, ?_, fun x hx => h.good x (by simp [hx]), (List.pairwise_cons.1 h.asc).2, ?_⟩
  · simp only [RLog.put]; rw [h1]; exact h2
  · right
    simp only [RLog.put]
    rcases h.fits with hf | hf
    · cases hf
    · simp only [List.length_cons] at hf
      omega
  · intro i x hx y hy
    simp only [RLog.put] at hx
    split at hx
    · cases hx
      exact (List.pairwise_cons.1 h.asc).1 y hy
    · exact h.above i x hx y (by simp [hy])

theorem Fits.head {L : RLog} {e : Int × LogEntry} {es : List (Int × LogEntry)} (h : Fits L (e :: es)) :
    e.1 = L.last + 1 ∧ L.last + 1 < maxI64 ∧ GoodEntry e.2 ∧ ∀ i x, L.ent i = some x → x.term ≤ e.2.term := by
  refine ⟨h.next.1, ?_, h.good e (by simp), fun i x hx => h.above i x hx e (by simp)⟩
  rcases h.fits with hf | hf
  · cases hf
  · simp only [List.length_cons] at hf
    omega

theorem SpecOk.append {L : RLog} (h : SpecOk L) {es : List (Int × LogEntry)} (hf : Fits L es) :
    SpecOk (L.apply (.append es)) := by
  simp only [RLog.apply]
  induction es generalizing L with
  | nil => exact h
  | cons e es ih =>
    rw [List.foldl_cons]
    obtain ⟨a, b, c, d⟩ := hf.head
    exact ih (h.put a b c d) hf.tail

theorem SpecOk.truncPrefix {L : RLog} (h : SpecOk L) {k : Int} (hk : k < maxI64) :
    SpecOk (L.apply (.truncPrefix k)) := by
  simp only [RLog.apply]
  by_cases hc : L.first < k
  · rw [if_pos hc]
    have := h.f1
    have := h.fl
    have := h.lm
    constructor
    · simp only; omega
    · simp only; split <;> omega
    · simp only; split <;> omega
    · intro i e he
      have := h.rng i e he
      simp only
      refine ⟨this.1, ?_, this.2.2⟩
      split <;> omega
    · intro i h1 h2
      simp only at h1 h2 ⊢
      refine h.win i (by omega) ?_
      split at h2 <;> omega
    · exact h.asc
  · rw [if_neg hc]; exact h

theorem SpecOk.truncSuffix {L : RLog} (h : SpecOk L) {k : Int} (h1 : L.first ≤ k + 1) (h2 : k ≤ L.last) :
    SpecOk (L.apply (.truncSuffix k)) := by
  have := h.lm
  simp only [RLog.apply]
  constructor
  · exact h.f1
  · exact h1
  · simp only; omega
  · intro i e he
    simp only at he
    split at he
    · have := h.rng i e he
      exact ⟨this.1, by assumption, this.2.2⟩
    · cases he
  · intro i a b
    simp only at b ⊢
    rw [if_pos b]
    exact h.win i a (by omega)
  · intro i j a b hij hx hy
    simp only at hx hy
    split at hx <;> split at hy
    · exact h.asc i j a b hij hx hy
    all_goals first | cases hx | cases hy
    all_goals cases hy

theorem SpecOk.reset {L : RLog} (h : SpecOk L) {n : Int} (h1 : L.first ≤ n) (h2 : n < maxI64) :
    SpecOk (L.apply (.reset n)) := by
  have := h.f1
  simp only [RLog.apply]
  constructor
  · simp only; omega
  · simp only; omega
  · simp only; omega
  · intro i e he; cases he
  · intro i a b; simp only at a b; omega
  · intro i j a b _ hx; cases hx

/-! ## Term cache -/

/-- The cache knows the term of every entry the node still wants. -/
structure CacheOk (l : TermMap) (L : RLog) : Prop where
  asc : AscTerms l
  sub : ∀ x ∈ l, ∃ e, L.ent x.1 = some e ∧ e.term = x.2
  look : ∀ i e, L.first ≤ i → L.ent i = some e → lookup l i = some e.term

theorem ent_put_ne {L : RLog} (hL : SpecOk L) {e : Int × LogEntry} (he : e.1 = L.last + 1) {i : Int} {x : LogEntry}
    (hx : L.ent i = some x) : (L.put e).ent i = some x := by
  have := hL.rng i x hx
  simp only [RLog.put]
  rw [if_neg (by omega), hx]

theorem CacheOk.append {l : TermMap} {L : RLog} (h : CacheOk l L) (hL : SpecOk L) {es : List (Int × LogEntry)}
    (hf : Fits L es) : ∃ l', appendTerms l es = some l' ∧ CacheOk l' (L.apply (.append es)) := by
  simp only [RLog.apply]
  induction es generalizing l L with
  | nil => exact ⟨l, rfl, h⟩
  | cons e es ih =>
    obtain ⟨a, b, c, d⟩ := hf.head
    have hl : ∀ x ∈ l, x.1 < e.1 ∧ x.2 ≤ e.2.term := by
      intro x hx
      obtain ⟨y, hy1, hy2⟩ := h.sub x hx
      have := hL.rng _ _ hy1
      have := d _ _ hy1
      omega
    obtain ⟨l1, p1, p2, p3, p4, p5⟩ := append_ok h.asc hl
    have h1 : CacheOk l1 (L.put e) := by
      refine ⟨p2, ?_, ?_⟩
      · intro x hx
        rcases p3 x hx with hx | rfl
        · obtain ⟨y, hy1, hy2⟩ := h.sub x hx
          exact ⟨y, ent_put_ne hL a hy1, hy2⟩
        · exact ⟨e.2, by simp [RLog.put], rfl⟩
      · intro i x hi hx
        simp only [RLog.put] at hi hx
        split at hx
        · cases hx
          exact p5 i (by omega)
        · have := hL.rng i x hx
          rw [p4 i (by omega)]
          exact h.look i x hi hx
    obtain ⟨l2, q1, q2⟩ := ih h1 (hL.put a b c d) hf.tail
    refine ⟨l2, ?_, q2⟩
    simp only [appendTerms, p1]
    exact q1

theorem CacheOk.truncPrefix {l : TermMap} {L : RLog} (h : CacheOk l L) {k j : Int} (hj : j ≤ (L.apply (.truncPrefix k)).first) :
    CacheOk (TermMap.cutPrefix j l) (L.apply (.truncPrefix k)) := by
  have hent : (L.apply (.truncPrefix k)).ent = L.ent := by
    simp only [RLog.apply]; split <;> rfl
  have hfirst : L.first ≤ (L.apply (.truncPrefix k)).first := by
    simp only [RLog.apply]; split
    · simp only; omega
    · exact Int.le_refl _
  have hsuf := cutPrefix_suffix j l
  refine ⟨?_, ?_, ?_⟩
  · exact List.Pairwise.sublist hsuf.sublist h.asc
  · intro x hx
    rw [hent]
    exact h.sub x (hsuf.subset hx)
  · intro i e hi he
    rw [hent] at he
    rw [lookup_cutPrefix j l i (by omega)]
    exact h.look i e (by omega) he

/-- Only the node's window matters. -/
theorem CacheOk.window {l : TermMap} {L M : RLog} (h : CacheOk l L) (he : M.ent = L.ent) (hf : L.first ≤ M.first) :
    CacheOk l M :=
  ⟨h.asc, fun x hx => by rw [he]; exact h.sub x hx, fun i e hi hx => h.look i e (by omega) (by rw [← he]; exact hx)⟩

theorem CacheOk.cutPrefix {l : TermMap} {L : RLog} (h : CacheOk l L) {j : Int} (hj : j ≤ L.first) :
    CacheOk (TermMap.cutPrefix j l) L := by
  have hsuf := cutPrefix_suffix j l
  refine ⟨List.Pairwise.sublist hsuf.sublist h.asc, fun x hx => h.sub x (hsuf.subset hx), ?_⟩
  intro i e hi he
  rw [lookup_cutPrefix j l i (by omega)]
  exact h.look i e hi he

theorem CacheOk.truncSuffix {l : TermMap} {L : RLog} (h : CacheOk l L) (k : Int) :
    CacheOk (TermMap.cutSuffix k l) (L.apply (.truncSuffix k)) := by
  obtain ⟨d, h1, h2⟩ := cutSuffix_split k l
  have hsub : (TermMap.cutSuffix k l).Sublist l := by
    have := List.sublist_append_left (TermMap.cutSuffix k l) d
    rwa [← h1] at this
  refine ⟨List.Pairwise.sublist hsub h.asc, ?_, ?_⟩
  · intro x hx
    have hk := cutSuffix_le h.asc x hx
    obtain ⟨e, he1, he2⟩ := h.sub x (hsub.subset hx)
    refine ⟨e, ?_, he2⟩
    simp only [RLog.apply]
    rw [if_pos hk, he1]
  · intro i e hi he
    simp only [RLog.apply] at hi he
    split at he
    · rename_i hik
      rw [lookup_cutSuffix k l i hik]
      exact h.look i e hi he
    · cases he

theorem CacheOk.nil {L : RLog} (h : ∀ i, L.ent i = none) : CacheOk [] L :=
  ⟨List.Pairwise.nil, by simp, fun i e _ he => by rw [h] at he; cases he⟩

end Verif.LogStore
