import Verif.Mvcc.Gc
import Verif.Mvcc.Props

/-!
# Garbage collection of raw versions: what the loop deletes
-/

namespace Verif.Mvcc
open Verif.Codec

/-- The turn of the loop in terms of versions. -/
def recEntry (sp now : Int) (g : RawGcFlags) (r : Rec) : RawGcFlags × Bool :=
  let g := g.enter sp r.key r.ts
  if r.ts > sp then (g, false)
  else if ¬ g.exist ∧ g.first then ({ g with first := false, exist := true }, ! decide (r.ver.Live now))
  else (g, true)

theorem rawGcEntry_enc {sp now : Int} {g : RawGcFlags} {r : Rec} (hv : r.Valid) (hn : ¬ r.ver.emptyTTL) :
    rawGcEntry sp now g r.enc = some (recEntry sp now g r) := by
  obtain ⟨key, ts, ver⟩ := r
  have hd := decodeKey_enc hv
  simp only [rawGcEntry, hd, recEntry]
  generalize g.enter sp key ts = g'
  by_cases h : ts > sp
  · simp [h]
  · simp only [h, if_false]
    cases ver with
    | put v =>
      have : getValueFlag (Rec.enc ⟨key, ts, .put v⟩).2 = some .put := flag_put v
      rw [this]
      by_cases hc : ¬ g'.exist ∧ g'.first
      · have hl : decide ((Ver.put v).Live now) = true := decide_eq_true trivial
        simp only [hc, hl]; rfl
      · simp only [hc, if_false]
    | putTTL ttl v =>
      have h1 : getValueFlag (Rec.enc ⟨key, ts, .putTTL ttl v⟩).2 = some .putTTL := flag_putTTL v hv.2
      have hne : v ≠ [] := by rintro rfl; exact hn trivial
      have h2 : getValueTTL (Rec.enc ⟨key, ts, .putTTL ttl v⟩).2 = some ttl := C04_ttl_partial ttl v hv.2 hne
      rw [h1]
      simp only [h2]
      by_cases hc : ¬ g'.exist ∧ g'.first
      · simp only [hc]; simp [Ver.Live]
      · simp only [hc, if_false]
    | del =>
      have : getValueFlag (Rec.enc ⟨key, ts, .del⟩).2 = some .delete := flag_del
      rw [this]
      by_cases hc : ¬ g'.exist ∧ g'.first
      · have hl : decide (Ver.del.Live now) = false := decide_eq_false id
        simp only [hc, hl]; rfl
      · simp only [hc, if_false]

/-- What a job with safe point `sp`, started at clock `now`, deletes: versions at or
below the safe point that have a newer version or are not live. -/
def Doomed (sp now : Int) (L : List Rec) (r : Rec) : Prop :=
  r.ts ≤ sp ∧ ((∃ x ∈ L, x.key = r.key ∧ r.ts < x.ts) ∨ ¬ r.ver.Live now)

instance (sp now : Int) (L : List Rec) (r : Rec) : Decidable (Doomed sp now L r) := by
  unfold Doomed; infer_instance

/-- What the flags say about the versions seen so far. -/
structure RawSummary (pre : List Rec) (g : RawGcFlags) : Prop where
  before : ∀ a ∈ pre, a.key = g.last ∨ a.key < g.last
  seen : pre ≠ [] → ∃ a ∈ pre, a.key = g.last
  exist : pre ≠ [] → g.exist = true
  start : pre = [] → g = {}

theorem recEntry_spec {sp now : Int} {pre rest : List Rec} {r : Rec} {g : RawGcFlags}
    (h : RawSummary pre g) (ha : (pre ++ r :: rest).Pairwise Rec.lt) (hk : r.key ≠ []) :
    RawSummary (pre ++ [r]) (recEntry sp now g r).1 ∧
    (recEntry sp now g r).2 = decide (Doomed sp now pre r) := by
  have hpre : ∀ a ∈ pre, a.lt r := fun a hm =>
    (List.pairwise_append.1 ha).2.2 a hm r List.mem_cons_self
  have hle : ∀ a ∈ pre ++ [r], a.key = r.key ∨ a.key < r.key := by
    intro a hm
    rcases List.mem_append.1 hm with hm | hm
    · rcases hpre a hm with h1 | h1
      · exact Or.inr h1
      · exact Or.inl h1.1
    · rw [List.mem_singleton.1 hm]; exact Or.inl rfl
  -- a version of this key was seen before iff the flags are not reset
  have hsame : (∃ a ∈ pre, a.key = r.key) ↔ g.last = r.key := by
    constructor
    · rintro ⟨a, h1, h2⟩
      have hne : pre ≠ [] := by intro h0; rw [h0] at h1; cases h1
      obtain ⟨b, h3, h4⟩ := h.seen hne
      rcases hle b (List.mem_append_left _ h3) with h5 | h5
      · rw [← h4, h5]
      · rcases h.before a h1 with h6 | h6
        · rw [← h6, h2]
        · rw [h2, ← h4] at h6
          exact absurd (lt_trans h5 h6) (lt_irrefl _)
    · intro h1
      by_cases hne : pre = []
      · rw [h.start hne] at h1
        exact absurd h1.symm hk
      · obtain ⟨b, h3, h4⟩ := h.seen hne
        exact ⟨b, h3, by rw [h4, h1]⟩
  have mk : ∀ g' : RawGcFlags, g'.last = r.key → g'.exist = true → RawSummary (pre ++ [r]) g' := by
    intro g' h1 h2
    exact ⟨by rw [h1]; exact hle, fun _ => ⟨r, by simp, h1.symm⟩, fun _ => h2, fun h0 => by simp at h0⟩
  by_cases hs : g.last = r.key
  · obtain ⟨a, h1, h2⟩ := hsame.2 hs
    have hne : pre ≠ [] := by intro h0; rw [h0] at h1; cases h1
    have hex := h.exist hne
    have hent : g.enter sp r.key r.ts = g := by simp [RawGcFlags.enter, hs]
    have hnew : ∃ x ∈ pre, x.key = r.key ∧ r.ts < x.ts := by
      refine ⟨a, h1, h2, ?_⟩
      rcases hpre a h1 with h3 | h3
      · rw [h2] at h3; exact absurd h3 (lt_irrefl _)
      · exact h3.2
    simp only [recEntry, hent, hex]
    by_cases ht : r.ts > sp
    · simp only [ht, if_true]
      refine ⟨mk g hs hex, ?_⟩
      symm; rw [decide_eq_false_iff_not]
      rintro ⟨h3, _⟩; omega
    · simp only [ht, if_false, not_true, false_and]
      refine ⟨mk g hs hex, ?_⟩
      symm; rw [decide_eq_true_iff]
      exact ⟨by omega, Or.inl hnew⟩
  · have hno : ¬ ∃ x ∈ pre, x.key = r.key ∧ r.ts < x.ts := by
      rintro ⟨x, h1, h2, _⟩; exact hs (hsame.1 ⟨x, h1, h2⟩)
    by_cases ht : r.ts > sp
    · have hent : g.enter sp r.key r.ts = { last := r.key, exist := true, first := false } := by
        simp [RawGcFlags.enter, hs, ht]
      simp only [recEntry, hent, ht, if_true]
      refine ⟨mk _ rfl rfl, ?_⟩
      symm; rw [decide_eq_false_iff_not]
      rintro ⟨h3, _⟩; omega
    · have hent : g.enter sp r.key r.ts = { last := r.key, exist := false, first := true } := by
        simp [RawGcFlags.enter, hs, ht]
      simp only [recEntry, hent, ht, if_false]
      refine ⟨mk _ (by simp) (by simp), ?_⟩
      simp only [Bool.false_eq_true, not_false_eq_true, and_self, if_true]
      rw [← decide_not]
      congr 1
      apply propext
      constructor
      · intro h1; exact ⟨by omega, Or.inr h1⟩
      · rintro ⟨_, h1 | h1⟩
        · exact absurd h1 hno
        · exact h1

theorem doomed_pre {sp now : Int} {pre rest : List Rec} {r : Rec} (ha : (pre ++ r :: rest).Pairwise Rec.lt) :
    Doomed sp now pre r ↔ Doomed sp now (pre ++ r :: rest) r := by
  have hpost := (List.pairwise_cons.1 (List.pairwise_append.1 ha).2.1).1
  unfold Doomed
  constructor
  · rintro ⟨h1, ⟨x, h2, h3⟩ | h2⟩
    · exact ⟨h1, Or.inl ⟨x, List.mem_append_left _ h2, h3⟩⟩
    · exact ⟨h1, Or.inr h2⟩
  · rintro ⟨h1, ⟨x, h2, h3, h4⟩ | h2⟩
    · refine ⟨h1, Or.inl ⟨x, ?_, h3, h4⟩⟩
      rcases List.mem_append.1 h2 with h5 | h5
      · exact h5
      · exfalso
        rcases List.mem_cons.1 h5 with rfl | h5
        · omega
        · rcases hpost x h5 with h6 | h6
          · rw [h3] at h6; exact lt_irrefl _ h6
          · omega
    · exact ⟨h1, Or.inr h2⟩

/-- The job deletes the doomed versions in order, all of them unless it is stopped. -/
theorem rawGcLoop_spec {sp now : Int} {n : Nat} (rest : List Rec) : ∀ (pre : List Rec) (g : RawGcFlags)
    (acc : RawGcBatch) (stops : List Bool), RawSummary pre g → (pre ++ rest).Pairwise Rec.lt →
    (∀ r ∈ rest, r.Valid ∧ ¬ r.ver.emptyTTL ∧ r.key ≠ []) →
    (rawGcLoop sp now n (rest.map Rec.enc) g acc stops).abort = false ∧
    ∃ tl, acc ++ (rest.filter (fun r => decide (Doomed sp now (pre ++ rest) r))).map (fun r => r.enc.1) =
      (rawGcLoop sp now n (rest.map Rec.enc) g acc stops).batches.flatten ++ tl ∧
      ((∀ b ∈ stops, b = false) → tl = []) := by
  have fin : ∀ (acc : RawGcBatch) (stops : List Bool), ∀ more : List Bytes,
      ((∀ b ∈ stops, b = false) → more = []) →
      (rawGcFinish acc stops).abort = false ∧ ∃ tl, acc ++ more = (rawGcFinish acc stops).batches.flatten ++ tl ∧
        ((∀ b ∈ stops, b = false) → tl = []) := by
    intro acc stops more hm
    refine ⟨rfl, ?_⟩
    simp only [rawGcFinish]
    cases stops with
    | nil => exact ⟨more, by simp, hm⟩
    | cons b bs =>
      cases b with
      | true => exact ⟨acc ++ more, by simp, fun h => by have := h true (by simp); cases this⟩
      | false => exact ⟨more, by simp, hm⟩
  induction rest with
  | nil =>
    intro pre g acc stops _ _ _
    have := fin acc stops [] (fun _ => rfl)
    simpa [rawGcLoop] using this
  | cons r rest ih =>
    intro pre g acc stops hsum ha hv
    obtain ⟨hv1, hv2, hv3⟩ := hv r List.mem_cons_self
    obtain ⟨hs1, hs2⟩ := recEntry_spec (sp := sp) (now := now) hsum ha hv3
    have happ : pre ++ r :: rest = (pre ++ [r]) ++ rest := by simp
    have hrest : ∀ r ∈ rest, r.Valid ∧ ¬ r.ver.emptyTTL ∧ r.key ≠ [] := fun x hx => hv x (List.mem_cons_of_mem _ hx)
    have ha' : ((pre ++ [r]) ++ rest).Pairwise Rec.lt := happ ▸ ha
    have hd : decide (Doomed sp now (pre ++ r :: rest) r) = (recEntry sp now g r).2 := by
      rw [hs2]; congr 1; exact propext (doomed_pre ha).symm
    have hent := rawGcEntry_enc (sp := sp) (now := now) (g := g) hv1 hv2
    simp only [List.map_cons, rawGcLoop, hent, List.filter_cons, hd]
    generalize (recEntry sp now g r) = p at *
    obtain ⟨g', del⟩ := p
    cases del with
    | false =>
      have := ih (pre ++ [r]) g' acc stops hs1 ha' hrest
      rw [← happ] at this
      simpa using this
    | true =>
      simp only [if_true, List.map_cons]
      have hcons : ∀ l : List Bytes, acc ++ r.enc.1 :: l = (acc ++ [r.enc.1]) ++ l := by simp
      by_cases hn : n ≤ (acc ++ [r.enc.1]).length
      · rw [if_pos hn]
        by_cases hst : stops.headD false = true
        · rw [if_pos hst]
          have hne : ¬ ∀ b ∈ stops, b = false := by
            cases stops with
            | nil => simp at hst
            | cons b bs => intro h; have := h b (by simp); simp at hst; rw [hst] at this; cases this
          obtain ⟨h1, h2⟩ := fin (acc ++ [r.enc.1]) stops.tail [] (fun _ => rfl)
          refine ⟨h1, ?_⟩
          obtain ⟨tl, h3, _⟩ := h2
          rw [List.append_nil (acc ++ [r.enc.1])] at h3
          exact ⟨tl ++ (List.filter (fun x => decide (Doomed sp now (pre ++ r :: rest) x)) rest).map (fun r => r.enc.1), by
            rw [hcons, ← List.append_assoc, ← h3], fun h => absurd h hne⟩
        · rw [if_neg hst]
          obtain ⟨h1, tl, h2, h3⟩ := ih (pre ++ [r]) g' [] stops.tail hs1 ha' hrest
          rw [← happ] at h2
          refine ⟨h1, tl, ?_, fun h => h3 (fun b hb => h b (List.mem_of_mem_tail hb))⟩
          simp only [List.flatten_cons, List.append_assoc]
          rw [← h2]; simp
      · rw [if_neg hn]
        have := ih (pre ++ [r]) g' (acc ++ [r.enc.1]) stops hs1 ha' hrest
        rw [← happ] at this
        simpa only [List.append_assoc, List.cons_append, List.nil_append] using this

theorem rawGcEntries_recs {rs : List Rec} (hv : ∀ r ∈ rs, r.Valid) (hp : rs.Pairwise Rec.lt) (start stop : Bytes) :
    rawGcEntries (rs.map Rec.enc) start stop = (rs.filter (inRange start stop)).map Rec.enc := by
  have hval : ∀ k : Bytes, (Rec.mk k 9223372036854775807 .del).Valid := fun k => ⟨⟨by simp, by simp⟩, trivial⟩
  have he : ∀ k : Bytes, encodeKey k 9223372036854775807 = some (Rec.mk k 9223372036854775807 .del).enc.1 :=
    fun k => enc_eq_encodeKey (hval k)
  simp only [rawGcEntries, he]
  rw [seek_eq_filter ((sorted_recs hv).2 hp)]
  apply filter_recs hv
  intro r hr
  have h1 := enc_lt hr (hval start)
  have h2 := enc_lt hr (hval stop)
  have hts : r.ts < 2 ^ 63 := hr.1.2
  simp only [inRange]
  congr 1
  apply propext
  rw [show ((Rec.mk start 9223372036854775807 .del).enc.1 ≤ r.enc.1) ↔ ¬ r.enc.1 < (Rec.mk start 9223372036854775807 .del).enc.1 from
    by rw [List.not_lt], h1, h2]
  simp only [Rec.lt]
  constructor
  · rintro ⟨h3, h4 | h4⟩
    · exact ⟨List.not_lt.1 (fun h => h3 (Or.inl h)), h4⟩
    · omega
  · rintro ⟨h3, h4⟩
    refine ⟨?_, Or.inl h4⟩
    rintro (h5 | h5)
    · exact List.not_lt.2 h3 h5
    · omega

end Verif.Mvcc
