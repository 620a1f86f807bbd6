import Verif.MemLock.Model

/-!
The invariant behind C19.  What makes the race safe: the reader raises the maximum before it looks
at the table, the prewriter puts its entry in the table before it reads the maximum, and the entry
stays there until the lock or the write record is on disk.
-/

namespace Verif.MemLock

/-- A reader need not see what the transaction commits: it reads below the least commit timestamp,
or was told to ignore the transaction. -/
def clear (r : Reader) (l : Lock) : Prop := r.ts < l.min ∨ l.ts ∈ r.resolved

/-- A reader that has read the table has the entry on its list or is clear of the lock. -/
def safeFor (r : Reader) (e : Nat) (k : Key) (l : Lock) : Prop :=
  r.sel k = true →
  match r.phase with
  | .checking todo => e ∈ todo ∨ clear r l
  | .served got _ => got k = true → clear r l
  | _ => True

def started (r : Reader) : Prop :=
  match r.phase with
  | .raised => True
  | .checking _ => True
  | .served _ _ => True
  | _ => False

def lockOk (l : Lock) : Prop := 0 < l.ts ∧ l.ts < l.min ∧ l.fut < l.min

theorem conflict_false {l : Lock} {r : Reader} (h : conflict l r.ts r.resolved = false)
    (hl : lockOk l) : clear r l := by
  obtain ⟨h1, h2, h3⟩ := hl
  unfold conflict at h
  unfold clear
  grind

/-- The memory lock of a pending write is in the table, can be read, and guards it. -/
def Held (t : List (Key × Nat)) (es : List Entry) (rs : List Reader) (k : Key) (l : Lock) : Prop :=
  ∃ e, (k, e) ∈ t ∧ es[e]? = some ⟨k, l, true, false⟩ ∧ ∀ r ∈ rs, safeFor r e k l

structure PwOk (t : List (Key × Nat)) (es : List Entry) (rs : List Reader) (p : Pw) : Prop where
  start : 0 < p.req.start
  svc : p.req.svc = .store
  muts : ∀ m ∈ p.req.muts, m.pess = true → m.fut.isSome = true
  todo : ∀ m ∈ p.todo, m ∈ p.req.muts
  dkey : ∀ d ∈ p.done, ∃ m ∈ p.req.muts, m.key = d.key
  dpess : ∀ d ∈ p.done, d.lock.pess = false
  pend : p.phase = .run ∨ p.phase = .sent → ∀ d ∈ p.done, p.onePc = true ∨ d.lock.async = true →
    lockOk d.lock ∧ d.lock.ts = p.req.start ∧ Held t es rs d.key d.lock
  fin : p.onePc = true → ∀ d ∈ p.done, d.lock.min ≤ p.final
  cur : ∀ e m l, p.phase = .run → p.cur = some (e, m, l) →
    (m.key, e) ∈ t ∧ es[e]? = some ⟨m.key, l, false, false⟩ ∧ l.ts = p.req.start ∧
    (l.fut ≤ m.fut.getD 0 ∨ l.fut ≤ 0) ∧ (p.onePc = true ∨ p.async = true) ∧ l.pess = false ∧
    m ∈ p.req.muts ∧ ∀ d ∈ p.done, d.key ≠ m.key

/-- What the table holds for a key is a memory lock of that key. -/
def TblOk (t : List (Key × Nat)) (es : List Entry) : Prop :=
  ∀ k e, (k, e) ∈ t → ∃ x, es[e]? = some x ∧ x.key = k

structure Inv (s : Sys) : Prop where
  low : ∀ r ∈ s.readers, started r → r.ts ≤ s.maxTs s.leader
  disj : ∀ (i j : Nat) (p q : Pw), i ≠ j → s.pws[i]? = some p → s.pws[j]? = some q →
    p.phase ≠ .ended → q.phase ≠ .ended → ∀ m ∈ p.req.muts, ∀ m' ∈ q.req.muts, m.key ≠ m'.key
  tbl : TblOk s.table s.entries
  pws : ∀ p ∈ s.pws, PwOk s.table s.entries s.readers p
  locks : ∀ k l, (k, l) ∈ s.locks → l.async = true → l.pess = false ∧ lockOk l ∧
    ∀ r ∈ s.readers, ∀ got snap, r.phase = .served got snap → r.sel k = true → got k = true →
      clear r l
  recs : ∀ r ∈ s.readers, ∀ got snap, r.phase = .served got snap →
    (∀ w ∈ snap, w ∈ s.writes) ∧
    ∀ w ∈ s.writes, w.chosen = true → r.sel w.key = true → got w.key = true →
      w ∈ snap ∨ r.ts < w.commit ∨ w.start ∈ r.resolved

theorem init_inv : Inv init := by
  constructor <;> simp [init, TblOk]

/-- What the theorems ask of the events: requests come in by the store service, transactions have a
positive start timestamp, a pessimistic mutation carries the `for_update_ts` of its lock; a node
that becomes the leader has seen a timestamp as late as every read served before; and a region that
takes over the keys has been given one as late as every read that is under way or was served. -/
def okEv (s : Sys) : Ev → Bool
  | .prewrite r => r.svc = .store && decide (0 < r.start) &&
      r.muts.all (fun m => !m.pess || m.fut.isSome)
  | .lead n => s.readers.all (fun r =>
      match r.phase with
      | .served _ _ => decide (r.ts ≤ s.maxTs n)
      | _ => true)
  | .move n => s.readers.all (fun r =>
      match r.phase with
      | .served _ _ => decide (r.ts ≤ s.maxTs n)
      | .checking _ => decide (r.ts ≤ s.maxTs n)
      | _ => true)
  | _ => true

def okRun (s : Sys) : List Ev → Bool
  | [] => true
  | e :: es => okEv s e && okRun (step s e) es

theorem raiseMax_le (m : Nat → Int) (n : Nat) (ts : Int) (i : Nat) : m i ≤ raiseMax m n ts i := by
  unfold raiseMax
  split <;> (try split) <;> grind

theorem raiseMax_ge (m : Nat → Int) (n : Nat) (ts : Int) : ts ≤ raiseMax m n ts n := by
  unfold raiseMax
  simp only [if_true]
  split <;> omega

theorem mem_assign {α : Type} {m : List (Key × α)} {k : Key} {v : α} {x : Key × α} :
    x ∈ assign m k v ↔ x = (k, v) ∨ (x ∈ m ∧ x.1 ≠ k) := by
  simp [assign]

theorem mem_erase {α : Type} {m : List (Key × α)} {k : Key} {x : Key × α} :
    x ∈ erase m k ↔ x ∈ m ∧ x.1 ≠ k := by
  simp [erase]

theorem lookup_mem {α : Type} {m : List (Key × α)} {k : Key} {v : α} (h : lookup m k = some v) :
    (k, v) ∈ m := by
  unfold lookup at h
  cases hf : m.find? (fun p => p.1 == k) with
  | none => rw [hf] at h; simp at h
  | some p =>
    rw [hf] at h
    have h1 := List.find?_some hf
    have h2 := List.mem_of_find?_eq_some hf
    simp at h h1
    obtain ⟨a, b⟩ := p
    simp at h h1
    subst h h1
    exact h2

/-- Replacing one reader. -/
theorem mem_set {α : Type} {l : List α} {i : Nat} {a x : α} (h : x ∈ l.set i a) : x ∈ l ∨ x = a :=
  List.mem_or_eq_of_mem_set h

/-- Pending writes keep their guard when the readers change to safe ones. -/
theorem PwOk.readers {t es rs rs' p} (h : PwOk t es rs p)
    (hr : ∀ e k l, es[e]? = some ⟨k, l, true, false⟩ → (k, e) ∈ t → lockOk l →
      (∀ r ∈ rs, safeFor r e k l) → ∀ r ∈ rs', safeFor r e k l) : PwOk t es rs' p := by
  refine { h with pend := ?_ }
  intro hp d hd hc
  obtain ⟨h1, h2, e, h3, h4, h5⟩ := h.pend hp d hd hc
  exact ⟨h1, h2, e, h3, h4, hr e _ _ h4 h3 h1 h5⟩

/-- Changing one reader in a way that leaves it unserved. -/
theorem setPhase_inv {s : Sys} (h : Inv s) {i : Nat} {r : Reader} (hi : s.readers[i]? = some r)
    {ph : RPhase} (hlow : started { r with phase := ph } → r.ts ≤ s.maxTs s.leader)
    (hs : ∀ e k l, s.entries[e]? = some ⟨k, l, true, false⟩ → (k, e) ∈ s.table → lockOk l →
      safeFor r e k l → safeFor { r with phase := ph } e k l)
    (hserved : ∀ got snap, ph = .served got snap →
      snap = s.writes ∧ ∀ k l, (k, l) ∈ s.locks → l.async = true → r.sel k = true → got k = true →
        clear r l) : Inv (setPhase s i r ph) := by
  have hm : r ∈ s.readers := List.mem_of_getElem? hi
  constructor
  · intro x hx hst
    rcases mem_set hx with hx | rfl
    · exact h.low x hx hst
    · exact hlow hst
  · exact h.disj
  · exact h.tbl
  · intro p hp
    refine (h.pws p hp).readers ?_
    intro e k l h1 h2 h3 h4 x hx
    rcases mem_set hx with hx | rfl
    · exact h4 x hx
    · exact hs e k l h1 h2 h3 (h4 r hm)
  · intro k l hkl ha
    obtain ⟨h1, h2, h3⟩ := h.locks k l hkl ha
    refine ⟨h1, h2, ?_⟩
    intro x hx got snap hph hsel hg
    rcases mem_set hx with hx | rfl
    · exact h3 x hx got snap hph hsel hg
    · exact (hserved got snap hph).2 k l hkl ha hsel hg
  · intro x hx got snap hph
    rcases mem_set hx with hx | rfl
    · exact h.recs x hx got snap hph
    · have := (hserved got snap hph).1
      subst this
      exact ⟨fun w hw => hw, fun w hw _ _ _ => Or.inl hw⟩

theorem maxTs_inv {s : Sys} (h : Inv s) {m : Nat → Int} (hm : ∀ i, s.maxTs i ≤ m i) :
    Inv { s with maxTs := m } :=
  { h with low := fun r hr hst => Int.le_trans (h.low r hr hst) (hm _) }

theorem readerStep_inv {s : Sys} (h : Inv s) {i : Nat} {r : Reader} (hi : s.readers[i]? = some r)
    (ev : Ev) : Inv (readerStep s i r ev) := by
  have hm : r ∈ s.readers := List.mem_of_getElem? hi
  unfold readerStep
  split
  · split
    · rename_i hph
      refine setPhase_inv (s := { s with maxTs := raiseMax s.maxTs s.leader r.ts })
        (maxTs_inv h (raiseMax_le _ _ _)) hi ?_ ?_ ?_
      · intro _; exact raiseMax_ge _ _ _
      · intro e k l _ _ _ _ _; trivial
      · intro got snap e; cases e
    · exact h
  · split
    · rename_i hph
      refine setPhase_inv h hi ?_ ?_ ?_
      · intro _; exact h.low r hm (by unfold started; rw [hph]; trivial)
      · intro e k l h1 h2 h3 h4 hsel
        left
        exact List.mem_map.2 ⟨(k, e), List.mem_filter.2 ⟨h2, hsel⟩, rfl⟩
      · intro got snap e; cases e
    · exact h
  · split
    · rename_i e rest hph
      split
      · exact h
      · rename_i x hx
        have hlow : r.ts ≤ s.maxTs s.leader := h.low r hm (by unfold started; rw [hph]; trivial)
        split
        · rename_i hsk
          refine setPhase_inv h hi (fun _ => hlow) ?_ (fun _ _ e => by cases e)
          intro e' k l h1 h2 h3 h4 hsel
          have h5 := h4 hsel
          rw [hph] at h5
          rcases h5 with h5 | h5
          · rcases List.mem_cons.1 h5 with rfl | h5
            · rw [hx] at h1
              cases h1
              simp at hsk
            · exact Or.inl h5
          · exact Or.inr h5
        · split
          · exact h
          · split
            · refine setPhase_inv h hi (fun hst => by cases hst) ?_ (fun _ _ e => by cases e)
              intro e k l _ _ _ _ _; trivial
            · rename_i hcf
              refine setPhase_inv h hi (fun _ => hlow) ?_ (fun _ _ e => by cases e)
              intro e' k l h1 h2 h3 h4 hsel
              have h5 := h4 hsel
              rw [hph] at h5
              rcases h5 with h5 | h5
              · rcases List.mem_cons.1 h5 with rfl | h5
                · rw [hx] at h1
                  cases h1
                  exact Or.inr (conflict_false (by simpa using hcf) h3)
                · exact Or.inl h5
              · exact Or.inr h5
    · exact h
  · split
    · rename_i hph
      have hlow : r.ts ≤ s.maxTs s.leader := h.low r hm (by unfold started; rw [hph]; trivial)
      split
      · refine setPhase_inv h hi (fun hst => by cases hst) ?_ (fun _ _ e => by cases e)
        intro e k l _ _ _ _ _; trivial
      · rename_i hcf
        refine setPhase_inv h hi (fun _ => hlow) ?_ ?_
        · intro e k l h1 h2 h3 h4 hsel hg
          have h5 := h4 hsel
          rw [hph] at h5
          rcases h5 with h5 | h5
          · cases h5
          · exact h5
        · intro got' snap e
          cases e
          refine ⟨rfl, ?_⟩
          intro k l hkl ha hsel hg
          refine conflict_false ?_ (h.locks k l hkl ha).2.1
          cases hc : conflict l r.ts r.resolved with
          | false => rfl
          | true =>
            exfalso
            apply hcf
            exact List.any_eq_true.2 ⟨(k, l), hkl, by simp [hsel, hg, hc]⟩
    · exact h
  · split
    · exact h
    · exact h
    · refine setPhase_inv h hi (fun hst => by cases hst) ?_ (fun _ _ e => by cases e)
      intro e k l _ _ _ _ _; trivial
  · exact h

end Verif.MemLock
