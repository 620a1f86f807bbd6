import Verif.Txn.GcSpec
import Verif.Txn.Read

/-!
# Garbage collection of transaction records: what the loop deletes
-/

namespace Verif.Txn
open Verif.Codec

/-- The loop deletes this record when `L` lists the records of the region. -/
def doomed (sp : Int) (L : List (VKey × WriteInfo)) (e : VKey × WriteInfo) : Bool :=
  decide (e.1.ts ≤ sp) && match e.2.op with
    | .rollback | .delete => true
    | .put => L.any (fun x => decide (x.1.key = e.1.key ∧ x.2.committed ∧ e.1.ts < x.1.ts))
    | _ => false

/-- The deletions for one record. -/
def gcItem (data : CF VKey Bytes) (e : VKey × WriteInfo) : GcItem :=
  ⟨e.1, if e.2.op = .put ∧ e.2.shortValue = [] ∧ (data.get ⟨e.1.key, e.2.startTs⟩).isSome
    then some ⟨e.1.key, e.2.startTs⟩ else none⟩

/-- What the flags say about the records seen so far. -/
structure Summary (sp : Int) (pre : List (VKey × WriteInfo)) (g : GcFlags) : Prop where
  before : ∀ a ∈ pre, a.1.key = g.last ∨ a.1.key < g.last
  seen : pre ≠ [] → ∃ a ∈ pre, a.1.key = g.last
  exist : g.exist = true ↔ ∃ a ∈ pre, a.1.key = g.last ∧ a.2.committed ∧ sp < a.1.ts
  first : g.exist = false → (g.first = false ↔ ∃ a ∈ pre, a.1.key = g.last ∧ a.2.committed ∧ a.1.ts ≤ sp)

theorem Summary.nil (sp : Int) : Summary sp [] {} := ⟨by simp, by simp, by simp, by simp⟩

/-- The flags after the check for a new key. -/
def gcReset (g : GcFlags) (k : Bytes) : GcFlags :=
  if g.last ≠ k then { last := k, exist := false, first := true } else g

theorem gcReset_last (g : GcFlags) (k : Bytes) : (gcReset g k).last = k := by
  simp only [gcReset]; split
  · rfl
  · rename_i h; exact Classical.not_not.1 h

theorem asc_pre {pre rest : List (VKey × WriteInfo)} {e : VKey × WriteInfo} (h : Asc (pre ++ e :: rest)) :
    (∀ a ∈ pre, a.1 < e.1) ∧ (∀ a ∈ rest, e.1 < a.1) := by
  have := List.pairwise_append.1 h
  exact ⟨fun a ha => this.2.2 a ha e List.mem_cons_self, (List.pairwise_cons.1 this.2.1).1⟩

theorem Summary.reset {sp : Int} {pre rest : List (VKey × WriteInfo)} {e : VKey × WriteInfo} {g : GcFlags}
    (h : Summary sp pre g) (ha : Asc (pre ++ e :: rest)) :
    ((gcReset g e.1.key).exist = true ↔ ∃ a ∈ pre, a.1.key = e.1.key ∧ a.2.committed ∧ sp < a.1.ts) ∧
    ((gcReset g e.1.key).exist = false →
      ((gcReset g e.1.key).first = false ↔ ∃ a ∈ pre, a.1.key = e.1.key ∧ a.2.committed ∧ a.1.ts ≤ sp)) := by
  by_cases hk : g.last = e.1.key
  · have : gcReset g e.1.key = g := by simp [gcReset, hk]
    rw [this, ← hk]
    exact ⟨h.exist, h.first⟩
  · have : gcReset g e.1.key = { last := e.1.key, exist := false, first := true } := by simp [gcReset, hk]
    rw [this]
    have hno : ∀ a ∈ pre, a.1.key ≠ e.1.key := by
      intro a hmem heq
      have hne : pre ≠ [] := by intro h0; rw [h0] at hmem; cases hmem
      obtain ⟨b, hb, hbk⟩ := h.seen hne
      have hle : g.last = e.1.key ∨ g.last < e.1.key := by
        have := (asc_pre ha).1 b hb
        rw [VKey.lt_def, hbk] at this
        rcases this with h | h
        · exact Or.inr h
        · exact Or.inl h.1
      rcases hle with h1 | h1
      · exact hk h1
      · rcases h.before a hmem with h2 | h2
        · exact hk (by rw [← h2, heq])
        · rw [heq] at h2
          exact lt_irrefl _ (lt_trans h1 h2)
    constructor
    · simp only [Bool.false_eq_true, false_iff]
      rintro ⟨a, h1, h2, _⟩; exact hno a h1 h2
    · intro _
      simp only [Bool.true_eq_false, false_iff]
      rintro ⟨a, h1, h2, _⟩; exact hno a h1 h2

theorem gcEntry_spec {sp : Int} {data : CF VKey Bytes} {pre rest : List (VKey × WriteInfo)} {e : VKey × WriteInfo}
    {g : GcFlags} (h : Summary sp pre g) (ha : Asc (pre ++ e :: rest)) :
    Summary sp (pre ++ [e]) (gcEntry sp data g e).1 ∧
    (if doomed sp pre e then (gcEntry sp data g e).2 = .del (gcItem data e)
      else (gcEntry sp data g e).2 = .skip ∨ (gcEntry sp data g e).2 = .ignore) := by
  obtain ⟨hE, hF⟩ := h.reset ha
  have hpre := (asc_pre ha).1
  have hlast := gcReset_last g e.1.key
  have hbefore : ∀ a ∈ pre ++ [e], a.1.key = e.1.key ∨ a.1.key < e.1.key := by
    intro a hm
    rcases List.mem_append.1 hm with hm | hm
    · rcases hpre a hm with h1 | h1
      · exact Or.inr h1
      · exact Or.inl h1.1
    · rw [List.mem_singleton.1 hm]; exact Or.inl rfl
  have hnewer : ∀ a ∈ pre, a.1.key = e.1.key → e.1.ts < a.1.ts := by
    intro a hm hk
    rcases hpre a hm with h1 | h1
    · rw [hk] at h1; exact absurd h1 (lt_irrefl _)
    · exact h1.2
  have mk : ∀ g' : GcFlags, g'.last = e.1.key →
      (g'.exist = true ↔ (gcReset g e.1.key).exist = true ∨ (e.2.committed ∧ sp < e.1.ts)) →
      (g'.exist = false → (g'.first = false ↔ (gcReset g e.1.key).first = false ∨ (e.2.committed ∧ e.1.ts ≤ sp))) →
      Summary sp (pre ++ [e]) g' := by
    intro g' h1 h2 h3
    refine ⟨by rw [h1]; exact hbefore, fun _ => ⟨e, by simp, h1.symm⟩, ?_, ?_⟩
    · rw [h2, hE, h1]
      simp only [List.mem_append, List.mem_singleton]
      constructor
      · rintro (⟨a, h4, h5⟩ | h4)
        · exact ⟨a, Or.inl h4, h5⟩
        · exact ⟨e, Or.inr rfl, rfl, h4⟩
      · rintro ⟨a, h4 | rfl, h5⟩
        · exact Or.inl ⟨a, h4, h5⟩
        · exact Or.inr h5.2
    · intro h4
      have h5 : (gcReset g e.1.key).exist = false := by
        cases h6 : (gcReset g e.1.key).exist with
        | false => rfl
        | true => rw [h2.2 (Or.inl h6)] at h4; cases h4
      rw [h3 h4, hF h5, h1]
      simp only [List.mem_append, List.mem_singleton]
      constructor
      · rintro (⟨a, h4, h5⟩ | h4)
        · exact ⟨a, Or.inl h4, h5⟩
        · exact ⟨e, Or.inr rfl, rfl, h4⟩
      · rintro ⟨a, h4 | rfl, h5⟩
        · exact Or.inl ⟨a, h4, h5⟩
        · exact Or.inr h5.2
  have hany : pre.any (fun x => decide (x.1.key = e.1.key ∧ x.2.committed ∧ e.1.ts < x.1.ts)) = true ↔
      ((gcReset g e.1.key).exist = true ∨ (gcReset g e.1.key).first = false) ∨
        ((gcReset g e.1.key).exist = true) := by
    simp only [List.any_eq_true, decide_eq_true_eq]
    constructor
    · rintro ⟨a, h1, h2, h3, h4⟩
      by_cases h5 : sp < a.1.ts
      · exact Or.inr (hE.2 ⟨a, h1, h2, h3, h5⟩)
      · cases h6 : (gcReset g e.1.key).exist with
        | true => exact Or.inr rfl
        | false => exact Or.inl (Or.inr ((hF h6).2 ⟨a, h1, h2, h3, by omega⟩))
    · intro h1
      cases h6 : (gcReset g e.1.key).exist with
      | true =>
        obtain ⟨a, h2, h3, h4, h5⟩ := hE.1 h6
        exact ⟨a, h2, h3, h4, hnewer a h2 h3⟩
      | false =>
        rw [h6] at h1
        obtain ⟨a, h2, h3, h4, h5⟩ := (hF h6).1 (by simpa using h1)
        exact ⟨a, h2, h3, h4, hnewer a h2 h3⟩
  have hunf : gcEntry sp data g e = (
      let g := gcReset g e.1.key
      if e.1.ts > sp then
        (if ¬ g.exist ∧ (e.2.op = .put ∨ e.2.op = .delete) then { g with exist := true } else g, .skip)
      else match e.2.op with
        | .put =>
          if ¬ g.exist ∧ g.first then ({ g with first := false }, .skip)
          else
            let dk : VKey := ⟨e.1.key, e.2.startTs⟩
            (g, .del ⟨e.1, if e.2.shortValue = [] ∧ (data.get dk).isSome then some dk else none⟩)
        | .delete => (if ¬ g.exist ∧ g.first then { g with first := false } else g, .del ⟨e.1, none⟩)
        | .rollback => (g, .del ⟨e.1, none⟩)
        | _ => (g, .ignore)) := rfl
  generalize gcReset g e.1.key = G at *
  rw [hunf]
  dsimp only
  by_cases hts : e.1.ts > sp
  · have hd : doomed sp pre e = false := by
      simp only [doomed, Bool.and_eq_false_iff, decide_eq_false_iff_not]; left; omega
    simp only [hts, if_true, hd, Bool.false_eq_true, if_false, true_or, and_true]
    refine mk _ ?_ ?_ ?_
    · split <;> exact hlast
    · split
      · rename_i h1
        simp only [true_iff]
        exact Or.inr ⟨h1.2, hts⟩
      · rename_i h1
        constructor
        · exact Or.inl
        · rintro (h2 | h2)
          · exact h2
          · cases h3 : G.exist with
            | true => rfl
            | false => exact absurd ⟨by simp [h3], h2.1⟩ h1
    · have : ¬ e.1.ts ≤ sp := by omega
      split <;> simp [this]
  · have hts' : e.1.ts ≤ sp := by omega
    simp only [hts, if_false]
    cases hop : e.2.op with
    | put =>
      have hd : doomed sp pre e = pre.any (fun x => decide (x.1.key = e.1.key ∧ x.2.committed ∧ e.1.ts < x.1.ts)) := by
        simp [doomed, hts', hop]
      by_cases hc : ¬ G.exist = true ∧ G.first = true
      · have : doomed sp pre e = false := by
          rw [hd]
          cases h1 : pre.any (fun x => decide (x.1.key = e.1.key ∧ x.2.committed ∧ e.1.ts < x.1.ts)) with
          | false => rfl
          | true =>
            have := hany.1 h1
            rw [hc.2] at this
            rcases this with (h2 | h2) | h2
            · exact absurd h2 hc.1
            · cases h2
            · exact absurd h2 hc.1
        rw [if_pos (c := ¬ G.exist = true ∧ G.first = true) hc, this]
        simp only [Bool.false_eq_true, if_false, true_or, and_true]
        refine mk _ hlast ?_ ?_
        · constructor
          · exact Or.inl
          · rintro (h2 | h2)
            · exact h2
            · omega
        · intro _
          simp only [true_iff]
          exact Or.inr ⟨Or.inl hop, hts'⟩
      · have : doomed sp pre e = true := by
          rw [hd]
          refine hany.2 ?_
          cases h1 : G.exist with
          | true => exact Or.inr rfl
          | false =>
            cases h2 : G.first with
            | true => exact absurd ⟨by simp [h1], h2⟩ hc
            | false => exact Or.inl (Or.inr rfl)
        simp only [hc, if_false, this, if_true]
        refine ⟨mk _ hlast ?_ ?_, ?_⟩
        · constructor
          · exact Or.inl
          · rintro (h2 | h2)
            · exact h2
            · omega
        · intro h1
          constructor
          · exact Or.inl
          · rintro (h2 | h2)
            · exact h2
            · cases h3 : G.first with
              | false => rfl
              | true => exact absurd ⟨by simp [h1], h3⟩ hc
        · simp [gcItem, hop]
    | delete =>
      have hd : doomed sp pre e = true := by simp [doomed, hts', hop]
      simp only [hd, if_true]
      refine ⟨mk _ ?_ ?_ ?_, ?_⟩
      · split <;> exact hlast
      · have : (if ¬ G.exist = true ∧ G.first = true then { G with first := false } else G).exist = G.exist := by
          split <;> rfl
        rw [this]
        constructor
        · exact Or.inl
        · rintro (h2 | h2)
          · exact h2
          · omega
      · split
        · intro _
          simp only [true_iff]
          exact Or.inr ⟨Or.inr hop, hts'⟩
        · rename_i hc
          intro h1
          constructor
          · exact Or.inl
          · rintro (h2 | h2)
            · exact h2
            · cases h3 : G.first with
              | false => rfl
              | true => exact absurd ⟨by simp [h1], h3⟩ hc
      · simp [gcItem, hop]
    | rollback =>
      have hd : doomed sp pre e = true := by simp [doomed, hts', hop]
      have hnc : ¬ e.2.committed := by simp [WriteInfo.committed, hop]
      simp only [hd, if_true]
      refine ⟨mk _ hlast ?_ ?_, ?_⟩ <;> simp [hnc, gcItem, hop]
    | lock =>
      have hd : doomed sp pre e = false := by simp [doomed, hop]
      have hnc : ¬ e.2.committed := by simp [WriteInfo.committed, hop]
      simp only [hd, Bool.false_eq_true, if_false]
      refine ⟨mk _ hlast ?_ ?_, ?_⟩ <;> simp [hnc]
    | putIfAbsent =>
      have hd : doomed sp pre e = false := by simp [doomed, hop]
      have hnc : ¬ e.2.committed := by simp [WriteInfo.committed, hop]
      simp only [hd, Bool.false_eq_true, if_false]
      refine ⟨mk _ hlast ?_ ?_, ?_⟩ <;> simp [hnc]
    | checkNotExists =>
      have hd : doomed sp pre e = false := by simp [doomed, hop]
      have hnc : ¬ e.2.committed := by simp [WriteInfo.committed, hop]
      simp only [hd, Bool.false_eq_true, if_false]
      refine ⟨mk _ hlast ?_ ?_, ?_⟩ <;> simp [hnc]
    | none =>
      have hd : doomed sp pre e = false := by simp [doomed, hop]
      have hnc : ¬ e.2.committed := by simp [WriteInfo.committed, hop]
      simp only [hd, Bool.false_eq_true, if_false]
      refine ⟨mk _ hlast ?_ ?_, ?_⟩ <;> simp [hnc]

/-- A put record is judged by the records before it. -/
theorem doomed_pre {sp : Int} {pre rest : List (VKey × WriteInfo)} {e : VKey × WriteInfo}
    (ha : Asc (pre ++ e :: rest)) : doomed sp (pre ++ e :: rest) e = doomed sp pre e := by
  simp only [doomed]
  congr 1
  split <;> try rfl
  rw [Bool.eq_iff_iff]
  simp only [List.any_eq_true, List.mem_append, List.mem_cons, decide_eq_true_eq]
  constructor
  · rintro ⟨a, h1 | rfl | h1, h2, h3, h4⟩
    · exact ⟨a, h1, h2, h3, h4⟩
    · omega
    · rcases (asc_pre ha).2 a h1 with h5 | h5
      · rw [h2] at h5; exact absurd h5 (lt_irrefl _)
      · omega
  · rintro ⟨a, h1, h2⟩
    exact ⟨a, Or.inl h1, h2⟩

/-- What the job writes is a first part of the deletions of all doomed records, and
all of them if it is not told to stop. -/
theorem gcLoop_spec {sp : Int} {n : Nat} {data : CF VKey Bytes} (rest : List (VKey × WriteInfo)) :
    ∀ (pre : List (VKey × WriteInfo)) (g : GcFlags) (acc : GcBatch) (stops : List Bool),
    Summary sp pre g → Asc (pre ++ rest) →
    ∃ left, (gcLoop sp n data rest g acc stops).flatten ++ left =
        acc ++ (rest.filter (doomed sp (pre ++ rest))).map (gcItem data) ∧
      ((∀ b ∈ stops, b = false) → left = []) := by
  have hfin : ∀ (acc : GcBatch) (stops : List Bool), ∃ left,
      (gcFinish acc stops).flatten ++ left = acc ∧ ((∀ b ∈ stops, b = false) → left = []) := by
    intro acc stops
    simp only [gcFinish]
    split
    · rename_i h
      refine ⟨acc, by simp, fun hb => ?_⟩
      cases stops with
      | nil => simp at h
      | cons b l => simp only [List.headD_cons] at h; rw [hb b List.mem_cons_self] at h; cases h
    · exact ⟨[], by simp, fun _ => rfl⟩
  induction rest with
  | nil =>
    intro pre g acc stops hs ha
    obtain ⟨left, h1, h2⟩ := hfin acc stops
    exact ⟨left, by simp [gcLoop, h1], h2⟩
  | cons e rest ih =>
    intro pre g acc stops hs ha
    obtain ⟨hs', hact⟩ := gcEntry_spec (data := data) hs ha
    have hL : pre ++ e :: rest = (pre ++ [e]) ++ rest := by simp
    have ih := ih (pre ++ [e]) (gcEntry sp data g e).1
    rw [← hL] at ih
    have hcons : (e :: rest).filter (doomed sp (pre ++ e :: rest)) =
        (if doomed sp pre e then [e] else []) ++ rest.filter (doomed sp (pre ++ e :: rest)) := by
      rw [List.filter_cons, doomed_pre ha]; split <;> simp
    rw [hcons]
    generalize rest.filter (doomed sp (pre ++ e :: rest)) = F at *
    have hstops : (∀ b ∈ stops, b = false) → ∀ b ∈ stops.tail, b = false :=
      fun h b hb => h b (List.mem_of_mem_tail hb)
    -- the batch check
    have check : ∀ acc' : GcBatch, ∃ left,
        (if n ≤ acc'.size then
          if stops.headD false then gcFinish acc' stops.tail
          else acc' :: gcLoop sp n data rest (gcEntry sp data g e).1 [] stops.tail
        else gcLoop sp n data rest (gcEntry sp data g e).1 acc' stops).flatten ++ left =
          acc' ++ F.map (gcItem data) ∧ ((∀ b ∈ stops, b = false) → left = []) := by
      intro acc'
      split
      · split
        · rename_i h
          obtain ⟨left, h1, h2⟩ := hfin acc' stops.tail
          refine ⟨left ++ F.map (gcItem data), by rw [← List.append_assoc, h1], fun hb => ?_⟩
          cases stops with
          | nil => simp at h
          | cons b l => simp only [List.headD_cons] at h; rw [hb b List.mem_cons_self] at h; cases h
        · obtain ⟨left, h1, h2⟩ := ih [] stops.tail hs' ha
          exact ⟨left, by rw [List.flatten_cons, List.append_assoc, h1, List.nil_append], fun h => h2 (hstops h)⟩
      · exact ih acc' stops hs' ha
    generalize hge : gcEntry sp data g e = G at *
    obtain ⟨g', act⟩ := G
    simp only at *
    by_cases hd : doomed sp pre e = true
    · simp only [hd, if_true] at hact
      subst hact
      obtain ⟨left, h1, h2⟩ := check (acc ++ [gcItem data e])
      refine ⟨left, ?_, h2⟩
      simp only [gcLoop, hge, hd, if_true]
      rw [h1]; simp
    · simp only [hd, if_false, Bool.false_eq_true] at hact
      rcases hact with hact | hact <;> subst hact
      · obtain ⟨left, h1, h2⟩ := ih acc stops hs' ha
        refine ⟨left, ?_, h2⟩
        simp only [gcLoop, hge, hd, if_false, Bool.false_eq_true]
        rw [h1]; simp
      · obtain ⟨left, h1, h2⟩ := check acc
        refine ⟨left, ?_, h2⟩
        simp only [gcLoop, hge, hd, if_false, Bool.false_eq_true]
        rw [h1]; simp

theorem asc_gcRecords (st : State) (a b : Bytes) : Asc (gcRecords st a b) :=
  List.Pairwise.sublist (List.takeWhile_sublist _) (CF.asc_seek _ _)

theorem mem_takeWhile_asc {l : List (VKey × WriteInfo)} (h : Asc l) (b : VKey) (e : VKey × WriteInfo) :
    e ∈ l.takeWhile (fun e => e.1 < b) ↔ e ∈ l ∧ e.1 < b := by
  induction l with
  | nil => simp
  | cons x l ih =>
    have hx := List.pairwise_cons.1 h
    simp only [List.takeWhile_cons]
    by_cases hk : x.1 < b
    · simp only [hk, decide_true, if_true, List.mem_cons, ih hx.2]
      constructor
      · rintro (rfl | h1)
        · exact ⟨Or.inl rfl, hk⟩
        · exact ⟨Or.inr h1.1, h1.2⟩
      · rintro ⟨rfl | h1, h2⟩
        · exact Or.inl rfl
        · exact Or.inr ⟨h1, h2⟩
    · simp only [hk, decide_false, Bool.false_eq_true, if_false, List.not_mem_nil, List.mem_cons, false_iff]
      rintro ⟨rfl | h1, h2⟩
      · exact hk h2
      · exact hk (KeyOrder.trans (hx.1 _ h1) h2)

theorem mem_gcRecords {st : State} (hI : Inv st) {start stop k : Bytes} {t : Int} {w : WriteInfo} :
    (⟨k, t⟩, w) ∈ gcRecords st start stop ↔ (view st k).write t = some w ∧ InRegion start stop k := by
  simp only [gcRecords, mem_takeWhile_asc (CF.asc_seek _ _), CF.mem_seek, CF.mem_iff_get]
  constructor
  · rintro ⟨⟨h1, h2⟩, h3⟩
    have hle := (hI k).write t w h1
    refine ⟨h1, fun h => h2 (Or.inl h), ?_⟩
    rcases h3 with h3 | ⟨h3, h4⟩
    · exact h3
    · simp only at h4; omega
  · rintro ⟨h1, h2, h3⟩
    have hle := (hI k).write t w h1
    refine ⟨⟨h1, ?_⟩, Or.inl h3⟩
    rintro (h | ⟨_, h⟩)
    · exact h2 h
    · simp only at h; omega

/-- What `doomed` means for a reachable state. -/
def KS.Doomed (x : KS) (sp t : Int) : Prop :=
  ∃ w, x.write t = some w ∧ t ≤ sp ∧
    (w.op = .put → ∃ t' w', x.write t' = some w' ∧ w'.committed ∧ t < t')

theorem doomed_iff {st : State} (hI : Inv st) {start stop k : Bytes} {t sp : Int} {w : WriteInfo}
    (hw : (view st k).write t = some w) (hr : InRegion start stop k) :
    doomed sp (gcRecords st start stop) (⟨k, t⟩, w) = true ↔ (view st k).Doomed sp t := by
  have hop := ((hI k).write t w hw).2.2
  have hop : w.op = .rollback ∨ w.op = .put ∨ w.op = .delete := by
    rcases hop with h | h
    · exact Or.inl h.1
    · exact Or.inr h.1
  have hany : (gcRecords st start stop).any (fun x => decide (x.1.key = k ∧ x.2.committed ∧ t < x.1.ts)) = true ↔
      ∃ t' w', (view st k).write t' = some w' ∧ w'.committed ∧ t < t' := by
    simp only [List.any_eq_true, decide_eq_true_eq]
    constructor
    · rintro ⟨⟨⟨k', t'⟩, w'⟩, h1, rfl, h3, h4⟩
      exact ⟨t', w', ((mem_gcRecords hI).1 h1).1, h3, h4⟩
    · rintro ⟨t', w', h1, h2, h3⟩
      exact ⟨(⟨k, t'⟩, w'), (mem_gcRecords hI).2 ⟨h1, hr⟩, rfl, h2, h3⟩
  simp only [KS.Doomed, hw, Option.some.injEq]
  rcases hop with h | h | h
  · simp [doomed, h]
  · simp only [doomed, h, Bool.and_eq_true, decide_eq_true_eq, hany]
    constructor
    · rintro ⟨h1, h2⟩; exact ⟨w, rfl, h1, fun _ => h2⟩
    · rintro ⟨w1, rfl, h1, h2⟩; exact ⟨h1, h2 h⟩
  · simp [doomed, h]

end Verif.Txn
