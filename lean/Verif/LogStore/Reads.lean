import Verif.LogStore.SpecLemmas

/-! # Reads of the log database -/

namespace Verif.LogStore
open Verif.Codec
open Verif.Txn (CF KeyOrder Asc)

/-- Every stored pair is an entry of its region's log. -/
def DbOk (db : Db) (L : Int → RLog) : Prop :=
  ∀ k v, db.get k = some v → ∃ r i e, ValidR r ∧ (L r).ent i = some e ∧ k = encodeKey r i ∧ v = encodeValue e

theorem validI_of_ent {L : RLog} (h : SpecOk L) {i : Int} {e : LogEntry} (he : L.ent i = some e) :
    ValidI i ∧ i < maxI64 ∧ 1 ≤ i := by
  have := h.rng i e he
  have := h.lm
  unfold ValidI
  simp only [maxI64] at *
  omega

theorem validI_max : ValidI maxI64 := by simp [ValidI, maxI64]
theorem validI_zero : ValidI 0 := by simp [ValidI]

/-- Reading a key of a sound database. -/
theorem DbOk.get {db : Db} {L : Int → RLog} (h : DbOk db L) (hL : ∀ r, ValidR r → SpecOk (L r)) {r i : Int} (hr : ValidR r)
    (hi : ValidI i) {v : Bytes} (hg : db.get (encodeKey r i) = some v) :
    ∃ e, (L r).ent i = some e ∧ v = encodeValue e := by
  obtain ⟨r', i', e, a, b, c, d⟩ := h _ _ hg
  obtain ⟨rfl, rfl⟩ := encodeKey_inj hr a hi (validI_of_ent (hL r' a) b).1 c
  exact ⟨e, b, d⟩

theorem takeWhile_asc {κ ν : Type} [KeyOrder κ] {l : List (κ × ν)} (h : Asc l) (hi : κ) (x : κ × ν) :
    x ∈ l.takeWhile (fun e => decide (e.1 < hi)) ↔ x ∈ l ∧ x.1 < hi := by
  induction l with
  | nil => simp
  | cons a l ih =>
    have hp := List.pairwise_cons.1 h
    by_cases ha : a.1 < hi
    · rw [List.takeWhile_cons_of_pos (by simpa using ha), List.mem_cons, List.mem_cons, ih hp.2]
      constructor
      · rintro (rfl | ⟨h1, h2⟩)
        · exact ⟨.inl rfl, ha⟩
        · exact ⟨.inr h1, h2⟩
      · rintro ⟨rfl | h1, h2⟩
        · exact .inl rfl
        · exact .inr ⟨h1, h2⟩
    · rw [List.takeWhile_cons_of_neg (by simpa using ha)]
      constructor
      · intro hx; cases hx
      · rintro ⟨hx, h2⟩
        rw [List.mem_cons] at hx
        rcases hx with rfl | hx
        · exact absurd h2 ha
        · exact absurd (KeyOrder.trans (hp.1 x hx) h2) ha

theorem mem_seekRange (db : Db) (lo hi : Bytes) (x : Bytes × Bytes) :
    x ∈ seekRange db lo hi ↔ db.get x.1 = some x.2 ∧ ¬ x.1 < lo ∧ x.1 < hi := by
  unfold seekRange
  rw [takeWhile_asc (CF.asc_seek db lo), CF.mem_seek, ← CF.mem_iff_get]
  constructor
  · rintro ⟨⟨a, b⟩, c⟩; exact ⟨a, b, c⟩
  · rintro ⟨a, b, c⟩; exact ⟨⟨a, b⟩, c⟩

theorem asc_seekRange (db : Db) (lo hi : Bytes) : Asc (seekRange db lo hi) :=
  List.Pairwise.sublist (List.takeWhile_sublist _) (CF.asc_seek db lo)

theorem exists_map {α β : Type} (f : α → β) (Q : α → Prop) (l : List β) (h : ∀ x ∈ l, ∃ a, Q a ∧ x = f a) :
    ∃ as : List α, l = as.map f ∧ ∀ a ∈ as, Q a := by
  induction l with
  | nil => exact ⟨[], rfl, by simp⟩
  | cons x l ih =>
    obtain ⟨a, ha, rfl⟩ := h x (by simp)
    obtain ⟨as, rfl, has⟩ := ih (fun y hy => h y (by simp [hy]))
    refine ⟨a :: as, rfl, ?_⟩
    intro b hb
    simp only [List.mem_cons] at hb
    rcases hb with rfl | hb
    · exact ha
    · exact has b hb

/-- How an entry is stored. -/
def enc (r : Int) (p : Int × LogEntry) : Bytes × Bytes := (encodeKey r p.1, encodeValue p.2)

theorem decodeAll_map {r : Int} (hr : ValidR r) (ps : List (Int × LogEntry))
    (h : ∀ p ∈ ps, ValidI p.1 ∧ GoodEntry p.2) : decodeAll r (ps.map (enc r)) = some ps := by
  induction ps with
  | nil => rfl
  | cons p ps ih =>
    have hp := h p (by simp)
    simp only [List.map_cons, enc, decodeAll, decodeKey_encodeKey hr hp.1, ne_eq, not_true_eq_false, if_false,
      decodeValue_encodeValue hp.2]
    rw [ih (fun q hq => h q (by simp [hq]))]

/-- The stored pairs of an index range of a region. -/
theorem seekRange_enc {db : Db} {L : Int → RLog} (h : DbOk db L) (hL : ∀ r, ValidR r → SpecOk (L r)) {r a b : Int}
    (hr : ValidR r) (ha : ValidI a) (hb : ValidI b) :
    ∃ ps : List (Int × LogEntry), seekRange db (encodeKey r a) (encodeKey r b) = ps.map (enc r)
      ∧ (∀ p ∈ ps, ValidI p.1 ∧ GoodEntry p.2)
      ∧ ps.Pairwise (fun p q => p.1 < q.1)
      ∧ ∀ i e, (i, e) ∈ ps ↔ (a ≤ i ∧ i < b ∧ (L r).ent i = some e ∧ db.get (encodeKey r i) = some (encodeValue e)) := by
  have key : ∀ x ∈ seekRange db (encodeKey r a) (encodeKey r b),
      ∃ p : Int × LogEntry, (a ≤ p.1 ∧ p.1 < b ∧ (L r).ent p.1 = some p.2) ∧ x = enc r p := by
    rintro ⟨k, v⟩ hx
    rw [mem_seekRange] at hx
    obtain ⟨hx1, hx2, hx3⟩ := hx
    simp only at hx1 hx2 hx3
    obtain ⟨r', i, e, c1, c2, c3, c4⟩ := h _ _ hx1
    have hi := validI_of_ent (hL r' c1) c2
    subst c3 c4
    rw [encodeKey_lt c1 hr hi.1 ha] at hx2
    rw [encodeKey_lt c1 hr hi.1 hb] at hx3
    have hrr : r' = r := by omega
    subst hrr
    exact ⟨(i, e), ⟨by simp only; omega, by simp only; omega, c2⟩, rfl⟩
  obtain ⟨ps, hps, hq⟩ := exists_map (enc r) _ _ key
  have hv : ∀ p ∈ ps, ValidI p.1 ∧ GoodEntry p.2 := fun p hp =>
    ⟨(validI_of_ent (hL r hr) (hq p hp).2.2).1, ((hL r hr).rng _ _ (hq p hp).2.2).2.2⟩
  refine ⟨ps, hps, hv, ?_, ?_⟩
  · have hasc := asc_seekRange db (encodeKey r a) (encodeKey r b)
    rw [hps] at hasc
    unfold Asc at hasc
    rw [List.pairwise_map] at hasc
    refine List.Pairwise.imp_of_mem ?_ hasc
    intro p q hp hq' hlt
    simp only [enc] at hlt
    rw [encodeKey_lt hr hr (hv p hp).1 (hv q hq').1] at hlt
    omega
  · intro i e
    constructor
    · intro hp
      obtain ⟨g1, g2, g3⟩ := hq _ hp
      refine ⟨g1, g2, g3, ?_⟩
      have : enc r (i, e) ∈ seekRange db (encodeKey r a) (encodeKey r b) := by
        rw [hps]; exact List.mem_map_of_mem hp
      exact ((mem_seekRange _ _ _ _).1 this).1
    · rintro ⟨g1, g2, g3, g4⟩
      have hi := validI_of_ent (hL r hr) g3
      have : enc r (i, e) ∈ seekRange db (encodeKey r a) (encodeKey r b) := by
        rw [mem_seekRange]
        refine ⟨g4, ?_, ?_⟩
        · simp only [enc]; rw [encodeKey_lt hr hr hi.1 ha]; omega
        · simp only [enc]; rw [encodeKey_lt hr hr hi.1 hb]; omega
      rw [hps, List.mem_map] at this
      obtain ⟨⟨i', e'⟩, hp, heq⟩ := this
      simp only [enc, Prod.mk.injEq] at heq
      have hii := (encodeKey_inj hr hr (hv _ hp).1 hi.1 heq.1).2
      subst hii
      have : e' = e := by
        have h1 := (hq _ hp).2.2
        simp only at h1
        rw [g3] at h1
        cases h1; rfl
      subst this
      exact hp

theorem getEntries_spec {db : Db} {L : Int → RLog} (h : DbOk db L) (hL : ∀ r, ValidR r → SpecOk (L r)) {r a b : Int}
    (hr : ValidR r) (ha : ValidI a) (hb : ValidI b) :
    ∃ ps, getEntries db r a b = some ps ∧ ps.Pairwise (fun p q => p.1 < q.1)
      ∧ ∀ i e, (i, e) ∈ ps ↔ (a ≤ i ∧ i < b ∧ (L r).ent i = some e ∧ db.get (encodeKey r i) = some (encodeValue e)) := by
  obtain ⟨ps, h1, h2, h3, h4⟩ := seekRange_enc h hL hr ha hb
  exact ⟨ps, by rw [getEntries, h1, decodeAll_map hr ps h2], h3, h4⟩

/-- What `GetFirstLogIndex` finds. -/
theorem firstOnDisk_spec {db : Db} {L : Int → RLog} (h : DbOk db L) (hL : ∀ r, ValidR r → SpecOk (L r)) {r : Int} (hr : ValidR r) :
    ∃ f, firstOnDisk db r = some f ∧ 1 ≤ f
      ∧ ((f = 1 ∧ ∀ i, ValidI i → i < maxI64 → db.get (encodeKey r i) = none)
         ∨ ((∃ v, db.get (encodeKey r f) = some v) ∧ f < maxI64
            ∧ ∀ i v, ValidI i → i < maxI64 → db.get (encodeKey r i) = some v → f ≤ i)) := by
  obtain ⟨ps, h1, h2, h3, h4⟩ := seekRange_enc h hL hr validI_zero validI_max
  unfold firstOnDisk
  rw [h1]
  have cov : ∀ i v, ValidI i → i < maxI64 → db.get (encodeKey r i) = some v → ∃ e, (i, e) ∈ ps := by
    intro i v hi hm hg
    obtain ⟨e, he, rfl⟩ := h.get hL hr hi hg
    exact ⟨e, (h4 i e).2 ⟨hi.1, hm, he, hg⟩⟩
  cases ps with
  | nil =>
    refine ⟨1, rfl, by omega, .inl ⟨rfl, ?_⟩⟩
    intro i hi hm
    cases hg : db.get (encodeKey r i) with
    | none => rfl
    | some v => obtain ⟨e, he⟩ := cov i v hi hm hg; cases he
  | cons p ps =>
    obtain ⟨i, e⟩ := p
    have hv := h2 (i, e) (by simp)
    have hg := (h4 i e).1 (by simp)
    refine ⟨i, ?_, (validI_of_ent (hL r hr) hg.2.2.1).2.2, .inr ⟨⟨_, hg.2.2.2⟩, hg.2.1, ?_⟩⟩
    · simp only [List.map_cons, enc, decodeKey_encodeKey hr hv.1, if_pos]
    · intro j v hj hm hgj
      obtain ⟨e', he'⟩ := cov j v hj hm hgj
      rw [List.mem_cons] at he'
      rcases he' with he' | he'
      · cases he'; exact Int.le_refl _
      · have := (List.pairwise_cons.1 h3).1 _ he'
        simp only at this; omega

theorem getLast_asc {κ ν : Type} [KeyOrder κ] {l : List (κ × ν)} (h : Asc l) {x y : κ × ν} (hl : l.getLast? = some x)
    (hy : y ∈ l) : ¬ x.1 < y.1 := by
  obtain ⟨m, rfl⟩ := List.getLast?_eq_some_iff.1 hl
  rw [List.mem_append, List.mem_singleton] at hy
  rcases hy with hy | rfl
  · exact KeyOrder.asymm ((List.pairwise_append.1 h).2.2 y hy x (by simp))
  · exact KeyOrder.irrefl _

/-- What `GetLastLogIndex` finds. -/
theorem lastOnDisk_spec {db : Db} {L : Int → RLog} (h : DbOk db L) (hL : ∀ r, ValidR r → SpecOk (L r)) {r : Int} (hr : ValidR r) :
    ∃ t, lastOnDisk db r = some t ∧ 0 ≤ t
      ∧ ((t = 0 ∧ ∀ i, ValidI i → i < maxI64 → db.get (encodeKey r i) = none)
         ∨ ((∃ v, db.get (encodeKey r t) = some v) ∧ t < maxI64
            ∧ ∀ i v, ValidI i → i < maxI64 → db.get (encodeKey r i) = some v → i ≤ t)) := by
  unfold lastOnDisk
  have hasc : Asc (db.l.filter (fun e => decide (e.1 < encodeKey r maxI64))) := List.Pairwise.filter _ db.asc
  have cov : ∀ i v, ValidI i → i < maxI64 → db.get (encodeKey r i) = some v →
      (encodeKey r i, v) ∈ db.l.filter (fun e => decide (e.1 < encodeKey r maxI64)) := by
    intro i v hi hm hg
    rw [List.mem_filter, CF.mem_iff_get]
    exact ⟨hg, by simp only [decide_eq_true_eq]; rw [encodeKey_lt hr hr hi validI_max]; omega⟩
  cases hl : (db.l.filter (fun e => decide (e.1 < encodeKey r maxI64))).getLast? with
  | none =>
    rw [List.getLast?_eq_none_iff] at hl
    refine ⟨0, rfl, by omega, .inl ⟨rfl, ?_⟩⟩
    intro i hi hm
    cases hg : db.get (encodeKey r i) with
    | none => rfl
    | some v => have := cov i v hi hm hg; rw [hl] at this; cases this
  | some x =>
    obtain ⟨k, v⟩ := x
    simp only
    have hmem : (k, v) ∈ db.l.filter (fun e => decide (e.1 < encodeKey r maxI64)) := by
      obtain ⟨m, hm⟩ := List.getLast?_eq_some_iff.1 hl
      rw [hm]; simp
    rw [List.mem_filter, CF.mem_iff_get] at hmem
    obtain ⟨hg, hk⟩ := hmem
    simp only [decide_eq_true_eq] at hk
    obtain ⟨r', i', e', c1, c2, c3, c4⟩ := h _ _ hg
    have hi' := validI_of_ent (hL r' c1) c2
    subst c3 c4
    rw [encodeKey_lt c1 hr hi'.1 validI_max] at hk
    by_cases h0 : encodeKey r' i' < encodeKey r 0
    · rw [if_pos h0]
      refine ⟨0, rfl, by omega, .inl ⟨rfl, ?_⟩⟩
      intro i hi hm
      cases hgi : db.get (encodeKey r i) with
      | none => rfl
      | some w =>
        have h1 := getLast_asc hasc hl (cov i w hi hm hgi)
        simp only at h1
        rw [encodeKey_lt c1 hr hi'.1 validI_zero] at h0
        rw [encodeKey_lt c1 hr hi'.1 hi] at h1
        have := hi.1
        have := hi'.1.1
        omega
    · rw [if_neg h0]
      rw [encodeKey_lt c1 hr hi'.1 validI_zero] at h0
      have hrr : r' = r := by
        have := hi'.1.1
        omega
      subst hrr
      refine ⟨i', ?_, hi'.1.1, .inr ⟨⟨_, hg⟩, hi'.2.1, ?_⟩⟩
      · simp only [decodeKey_encodeKey hr hi'.1, if_pos]
      · intro i w hi hm hgi
        have h1 := getLast_asc hasc hl (cov i w hi hm hgi)
        simp only at h1
        rw [encodeKey_lt hr hr hi'.1 hi] at h1
        omega

end Verif.LogStore
