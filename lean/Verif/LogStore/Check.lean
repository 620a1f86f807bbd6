import Verif.LogStore.Window

/-! # Raft log storage: deciding the discipline for a concrete history -/

namespace Verif.LogStore
open Verif.Codec

def entriesOf (h : List Call) : List LogEntry :=
  h.flatMap (fun c => match c with | .append es => es.map (·.2) | _ => [])

def consecB : Int → List (Int × LogEntry) → Bool
  | _, [] => true
  | n, e :: es => decide (e.1 = n) && consecB (n + 1) es

theorem consecB_sound (n : Int) (es : List (Int × LogEntry)) (h : consecB n es = true) : Consecutive n es := by
  induction es generalizing n with
  | nil => trivial
  | cons e es ih =>
    simp only [consecB, Bool.and_eq_true, decide_eq_true_eq] at h
    exact ⟨h.1, ih _ h.2⟩

def goodB (e : LogEntry) : Bool :=
  decide (e.typ < 2 ^ 32) && decide (0 < e.term) && decide (e.term < 2 ^ 63) && decide (e.data ≠ [])

def appendableB (h : List Call) (es : List (Int × LogEntry)) : Bool :=
  decide (es ≠ []) && consecB ((specLog h).last + 1) es && decide ((specLog h).last + es.length < maxI64)
  && es.all (fun e => goodB e.2) && decide (es.Pairwise (fun a b => a.2.term ≤ b.2.term))
  && (entriesOf h).all (fun x => es.all (fun e => decide (x.term ≤ e.2.term)))

theorem ent_entriesOf (h : List Call) (L : RLog) (i : Int) (e : LogEntry) (he : (h.foldl RLog.apply L).ent i = some e) :
    e ∈ entriesOf h ∨ ∃ j, L.ent j = some e := by
  induction h generalizing L with
  | nil => exact .inr ⟨i, he⟩
  | cons c h ih =>
    simp only [List.foldl_cons] at he
    rcases ih _ he with hx | ⟨j, hj⟩
    · left
      simp only [entriesOf, List.flatMap_cons, List.mem_append] at hx ⊢
      exact .inr hx
    · cases c with
      | append es =>
        simp only [RLog.apply] at hj
        have : ∀ (es : List (Int × LogEntry)) (L : RLog), (es.foldl RLog.put L).ent j = some e →
            e ∈ es.map (·.2) ∨ ∃ j, L.ent j = some e := by
          intro es
          induction es with
          | nil => intro L hL; exact .inr ⟨j, hL⟩
          | cons x es ih2 =>
            intro L hL
            simp only [List.foldl_cons] at hL
            rcases ih2 _ hL with h1 | ⟨j', h1⟩
            · exact .inl (by rw [List.map_cons]; exact List.mem_cons_of_mem _ h1)
            · simp only [RLog.put] at h1
              split at h1
              · cases h1; exact .inl (by simp)
              · exact .inr ⟨j', h1⟩
        rcases this es L hj with h1 | h1
        · left
          simp only [entriesOf, List.flatMap_cons, List.mem_append]
          exact .inl h1
        · exact .inr h1
      | truncPrefix k =>
        right
        simp only [RLog.apply] at hj
        split at hj
        · exact ⟨j, hj⟩
        · exact ⟨j, hj⟩
      | truncSuffix k =>
        right
        simp only [RLog.apply] at hj
        split at hj
        · exact ⟨j, hj⟩
        · cases hj
      | reset n => simp only [RLog.apply] at hj; cases hj

theorem appendableB_sound {h : List Call} {es : List (Int × LogEntry)} (hb : appendableB h es = true) :
    Appendable (specLog h) es := by
  simp only [appendableB, Bool.and_eq_true, decide_eq_true_eq, List.all_eq_true] at hb
  obtain ⟨⟨⟨⟨⟨h1, h2⟩, h3⟩, h4⟩, h5⟩, h6⟩ := hb
  refine ⟨h1, consecB_sound _ _ h2, h3, ?_, h5, ?_⟩
  · intro e he
    have := h4 e he
    simp only [goodB, Bool.and_eq_true, decide_eq_true_eq] at this
    exact ⟨this.1.1.1, this.1.1.2, this.1.2, this.2⟩
  · intro i e he x hx
    rcases ent_entriesOf h RLog.empty i e he with h | ⟨j, hj⟩
    · exact h6 e h x hx
    · cases hj

def validRB (r : Int) : Bool := decide (0 ≤ r ∧ r < 2 ^ 63)
def idleB (s : State) (r : Int) : Bool := s.pending.all (fun m => decide (m.region = r → m.own = false))
def quietB (s : State) (r : Int) : Bool := s.pending.all (fun m => decide (m.region ≠ r))

def okB (s : State) : Event → Bool
  | .openRegion r => validRB r && (s.cache r).isNone && quietB s r
  | .append r es => validRB r && (s.cache r).isSome && idleB s r && appendableB (s.hist r) es
  | .truncPrefix .raft r k => validRB r && (s.cache r).isSome && idleB s r && decide (k < maxI64)
  | .truncPrefix .vec r k => (s.metas r).isSome && decide (Mutation.destroy r ∉ s.pending) && decide (k ≤ maxI64)
  | .truncSuffix r k => validRB r && (s.cache r).isSome && idleB s r
      && decide ((specLog (s.hist r)).first ≤ k + 1) && decide (k ≤ (specLog (s.hist r)).last)
  | .reset r n => validRB r && (s.cache r).isSome && idleB s r && decide ((specLog (s.hist r)).first ≤ n) && decide (n < maxI64)
  | .destroy r => validRB r && quietB s r
  | .flush _ => true
  | .restart => true
  | .crash n => s.sync || decide (n = 0)

theorem isSome_ne {α : Type} {o : Option α} (h : o.isSome = true) : o ≠ none := by
  cases o with
  | none => cases h
  | some a => simp

theorem okB_sound {s : State} {e : Event} (h : okB s e = true) : Ok s e := by
  have hv : ∀ r, validRB r = true → ValidR r := fun r hr => by simp only [validRB, decide_eq_true_eq] at hr; exact hr
  have hi : ∀ r, idleB s r = true → Idle s r := by
    intro r hr m hm
    simp only [idleB, List.all_eq_true, decide_eq_true_eq] at hr
    exact hr m hm
  have hq : ∀ r, quietB s r = true → Quiet s r := by
    intro r hr m hm
    simp only [quietB, List.all_eq_true, decide_eq_true_eq] at hr
    exact hr m hm
  cases e with
  | openRegion r =>
    simp only [okB, Bool.and_eq_true, Option.isNone_iff_eq_none] at h
    exact ⟨hv r h.1.1, h.1.2, hq r h.2⟩
  | append r es =>
    simp only [okB, Bool.and_eq_true] at h
    exact ⟨hv r h.1.1.1, isSome_ne h.1.1.2, hi r h.1.2, appendableB_sound h.2⟩
  | truncPrefix c r k =>
    cases c with
    | raft =>
      simp only [okB, Bool.and_eq_true, decide_eq_true_eq] at h
      exact ⟨hv r h.1.1.1, isSome_ne h.1.1.2, hi r h.1.2, h.2⟩
    | vec =>
      simp only [okB, Bool.and_eq_true, decide_eq_true_eq] at h
      exact ⟨isSome_ne h.1.1, h.1.2, h.2⟩
  | truncSuffix r k =>
    simp only [okB, Bool.and_eq_true, decide_eq_true_eq] at h
    exact ⟨hv r h.1.1.1.1, isSome_ne h.1.1.1.2, hi r h.1.1.2, h.1.2, h.2⟩
  | reset r n =>
    simp only [okB, Bool.and_eq_true, decide_eq_true_eq] at h
    exact ⟨hv r h.1.1.1.1, isSome_ne h.1.1.1.2, hi r h.1.1.2, h.1.2, h.2⟩
  | destroy r =>
    simp only [okB, Bool.and_eq_true] at h
    exact ⟨hv r h.1, hq r h.2⟩
  | flush sel => trivial
  | restart => trivial
  | crash n =>
    simp only [okB, Bool.or_eq_true, decide_eq_true_eq] at h
    exact h

def okAllB : State → List Event → Bool
  | _, [] => true
  | s, e :: es => okB s e && (match step s e with | none => true | some s' => okAllB s' es)

theorem okAllB_sound {s : State} {es : List Event} (h : okAllB s es = true) : AllOk s es := by
  induction es generalizing s with
  | nil => trivial
  | cons e es ih =>
    simp only [okAllB, Bool.and_eq_true] at h
    refine ⟨okB_sound h.1, ?_⟩
    intro s' hs
    have h2 := h.2
    rw [hs] at h2
    exact ih h2

def nextB (s : State) : Event → Bool
  | .append r es =>
    match s.metas r, es.head? with
    | some m, some e => decide (e.1 = m.last + 1)
    | _, _ => true
  | _ => true

theorem nextB_sound {s : State} {e : Event} (h : nextB s e = true) : NextOk s e := by
  cases e with
  | append r es =>
    intro m hm e he
    simp only [nextB, hm, he, decide_eq_true_eq] at h
    exact h
  | _ => trivial

def nextAllB : State → List Event → Bool
  | _, [] => true
  | s, e :: es => nextB s e && (match step s e with | none => true | some s' => nextAllB s' es)

theorem nextAllB_sound {s : State} {es : List Event} (h : nextAllB s es = true) : AllNext s es := by
  induction es generalizing s with
  | nil => trivial
  | cons e es ih =>
    simp only [nextAllB, Bool.and_eq_true] at h
    refine ⟨nextB_sound h.1, ?_⟩
    intro s' hs
    have h2 := h.2
    rw [hs] at h2
    exact ih h2

end Verif.LogStore
