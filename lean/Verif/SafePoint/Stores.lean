import Verif.SafePoint.Mono
/-!
Lemmas on what an event does to the stores and to the list of garbage collections.
-/
namespace Verif.SafePoint

/-- What an event does to store `i`. -/
inductive StMoves (s : Sys) (i : Nat) : Ev → Store → Prop where
  | same {e} : StMoves s i e (s.stores i)
  | poll {n} (hl : (s.nodes n).leader = true) :
      StMoves s i (.poll i n) { s.stores i with poll := some (s.nodes n).served }
  | recv {r} (hr : (s.stores i).poll = some r) :
      StMoves s i (.recv i) { s.stores i with poll := none, mgr := (s.stores i).mgr.set r }
  | drop : StMoves s i (.drop i) { s.stores i with poll := none }
  | gcBegin {w} : StMoves s i (.gcBegin i w) { s.stores i with
      mgr := (s.stores i).mgr.dropZero,
      gc := some (fun t => match (s.stores i).mgr.active t with
        | some e => if e.ts ≤ 0 then none else some e.ts
        | none => none, false) }
  | gcResume {g} (hg : (s.stores i).gc = some (g, false)) : StMoves s i (.gcResume i)
      { s.stores i with mgr := (s.stores i).mgr.setStop (fun t => (g t).isSome) false,
                        gc := some (g, true) }
  | gcEnd : StMoves s i (.gcEnd i) { s.stores i with gc := none }

theorem setStore_moves {s : Sys} {j i : Nat} {x : Store} {e : Ev} (h : i = j → StMoves s i e x) :
    StMoves s i e ((s.setStore j x).stores i) := by
  simp only [Sys.setStore, put]
  split
  · rename_i hm; exact h hm
  · exact .same

theorem step_stores (s : Sys) (e : Ev) (i : Nat) : StMoves s i e ((step s e).stores i) := by
  have same : ∀ s' : Sys, s'.stores = s.stores → StMoves s i e (s'.stores i) := by
    intro s' h; rw [h]; exact .same
  cases e with
  | request n r => refine same _ ?_; simp only [step, doRequest]; split <;> rfl
  | eval k =>
    refine same _ ?_; simp only [step, doEval]; split <;> (try split) <;> (try split) <;> (try split) <;> rfl
  | refuse k => refine same _ ?_; simp only [step, doRefuse]; split <;> (try split) <;> rfl
  | propose k => refine same _ ?_; simp only [step, doPropose]; split <;> (try split) <;> rfl
  | commit k => refine same _ ?_; simp only [step, doCommit]; split <;> (try split) <;> rfl
  | lose k => refine same _ ?_; simp only [step, doLose]; split <;> (try split) <;> rfl
  | answer k => refine same _ ?_; simp only [step, doAnswer]; split <;> (try split) <;> (try split) <;> rfl
  | begin n => refine same _ ?_; simp only [step, doBegin]; split <;> rfl
  | tenant n => refine same _ ?_; simp only [step, doTenant]; split <;> (try split) <;> rfl
  | finish n => refine same _ ?_; simp only [step, doFinish]; split <;> (try split) <;> rfl
  | lead n => exact same _ rfl
  | unlead n => exact same _ rfl
  | crash n => exact same _ rfl
  | save n => refine same _ ?_; simp only [step, doSave]; split <;> rfl
  | install n k => refine same _ ?_; simp only [step, doInstall]; split <;> (try split) <;> rfl
  | poll j n =>
    simp only [step, doPoll]
    split
    · rename_i hc
      exact setStore_moves fun hm => by subst hm; exact .poll hc.2
    · exact .same
  | recv j =>
    simp only [step, doRecv]
    split
    · exact .same
    · rename_i r hr
      exact setStore_moves fun hm => by subst hm; exact .recv hr
  | drop j => exact setStore_moves fun hm => by subst hm; exact .drop
  | gcBegin j w =>
    simp only [step, doGcBegin]
    split
    · split
      · exact .same
      · exact setStore_moves fun hm => by subst hm; exact .gcBegin
    · exact .same
  | gcResume j =>
    simp only [step, doGcResume]
    split
    · rename_i g hg
      exact setStore_moves fun hm => by subst hm; exact .gcResume hg
    · exact .same
  | gcRun j t =>
    refine same _ ?_; simp only [step, doGcRun]; split <;> (try split) <;> (try split) <;> rfl
  | gcEnd j => exact setStore_moves fun hm => by subst hm; exact .gcEnd

/-- The list of garbage collections grows only by one of a group, of a tenant whose flag is not
set. -/
theorem step_runs (s : Sys) (e : Ev) : (step s e).runs = s.runs ∨
    ∃ i t g ts, (s.stores i).gc = some (g, true) ∧ g t = some ts ∧
      ((s.stores i).mgr.get t).stop = false ∧ (step s e).runs = s.runs ++ [(i, t, ts)] := by
  cases e with
  | request n r => refine Or.inl ?_; simp only [step, doRequest]; split <;> rfl
  | eval k =>
    refine Or.inl ?_; simp only [step, doEval]; split <;> (try split) <;> (try split) <;> (try split) <;> rfl
  | refuse k => refine Or.inl ?_; simp only [step, doRefuse]; split <;> (try split) <;> rfl
  | propose k => refine Or.inl ?_; simp only [step, doPropose]; split <;> (try split) <;> rfl
  | commit k => refine Or.inl ?_; simp only [step, doCommit]; split <;> (try split) <;> rfl
  | lose k => refine Or.inl ?_; simp only [step, doLose]; split <;> (try split) <;> rfl
  | answer k => refine Or.inl ?_; simp only [step, doAnswer]; split <;> (try split) <;> (try split) <;> rfl
  | begin n => refine Or.inl ?_; simp only [step, doBegin]; split <;> rfl
  | tenant n => refine Or.inl ?_; simp only [step, doTenant]; split <;> (try split) <;> rfl
  | finish n => refine Or.inl ?_; simp only [step, doFinish]; split <;> (try split) <;> rfl
  | lead n => exact Or.inl rfl
  | unlead n => exact Or.inl rfl
  | crash n => exact Or.inl rfl
  | save n => refine Or.inl ?_; simp only [step, doSave]; split <;> rfl
  | install n k => refine Or.inl ?_; simp only [step, doInstall]; split <;> (try split) <;> rfl
  | poll j n => refine Or.inl ?_; simp only [step, doPoll]; split <;> rfl
  | recv j => refine Or.inl ?_; simp only [step, doRecv]; split <;> rfl
  | drop j => exact Or.inl rfl
  | gcBegin j w => refine Or.inl ?_; simp only [step, doGcBegin]; split <;> (try split) <;> rfl
  | gcResume j => refine Or.inl ?_; simp only [step, doGcResume]; split <;> rfl
  | gcRun j t =>
    simp only [step, doGcRun]
    split
    · rename_i g hg
      split
      · exact Or.inl rfl
      · rename_i ts hts
        split
        · exact Or.inl rfl
        · rename_i hst
          exact Or.inr ⟨j, t, g, ts, hg, hts, by simpa using hst, rfl⟩
    · exact Or.inl rfl
  | gcEnd j => exact Or.inl rfl

/-! ### Points of stores, whatever is known of those of the coordinators -/

theorem StoreInv.imp {A B : Kind → Int → Int → Prop} {st : Store} (h : StoreInv A st)
    (hab : ∀ t v, A .gc t v → B .gc t v) : StoreInv B st := by
  have ok : ∀ t v, OkEntry A t v → OkEntry B t v := fun t v h => h.imp id (fun h => ⟨h.1, hab t v h.2⟩)
  exact ⟨fun t e he => ok _ _ (h.active t e he), fun t e he => ok _ _ (h.all t e he),
    fun r hr t v hv => ok _ _ (h.poll r hr t v hv), fun g b hg t v hv =>
      ⟨(h.gc g b hg t v hv).1, hab t v (h.gc g b hg t v hv).2⟩⟩

theorem StMoves.inv {A} {s : Sys} {i : Nat} {e : Ev} {x : Store} (hm : StMoves s i e x)
    (hs : StoreInv A (s.stores i))
    (hn : ∀ n t v, (s.nodes n).served.sp t = some v → OkEntry A t v) : StoreInv A x := by
  cases hm with
  | same => exact hs
  | poll hl => exact ⟨hs.active, hs.all, (fun r hr t v hv => by cases hr; exact hn _ t v hv), hs.gc⟩
  | @recv r hr =>
    refine ⟨?_, ?_, (fun _ hr => by cases hr), hs.gc⟩
    · intro t e he
      exact (set1_ok (P := OkEntry A t) (hs.active t) (hs.all t) (hs.poll r hr t)).1 e he
    · intro t e he
      exact (set1_ok (P := OkEntry A t) (hs.active t) (hs.all t) (hs.poll r hr t)).2 e he
  | drop => exact ⟨hs.active, hs.all, (fun _ hr => by cases hr), hs.gc⟩
  | gcBegin =>
    refine ⟨?_, ?_, hs.poll, ?_⟩
    · intro t e he
      simp only [Mgr.dropZero] at he
      have ha := hs.active t
      grind
    · intro t e he
      simp only [Mgr.dropZero] at he
      have ha := hs.active t
      have hl := hs.all t
      rcases hh : (s.stores i).mgr.all t with _ | x <;> rw [hh] at he hl <;> grind [Option.or]
    · intro g b hg t v hv
      simp only [Option.some.injEq, Prod.mk.injEq] at hg
      rw [← hg.1] at hv
      have ha := hs.active t
      simp only [OkEntry] at ha
      grind
  | @gcResume g hg =>
    refine ⟨?_, ?_, hs.poll, ?_⟩
    · intro t e he
      simp only [Mgr.setStop] at he
      split at he
      · obtain ⟨x, hx, rfl⟩ := Option.map_eq_some_iff.1 he
        exact hs.active t x hx
      · exact hs.active t e he
    · intro t e he
      simp only [Mgr.setStop] at he
      split at he
      · obtain ⟨x, hx, rfl⟩ := Option.map_eq_some_iff.1 he
        exact hs.all t x hx
      · exact hs.all t e he
    · intro g' b hg' t v hv
      simp only [Option.some.injEq, Prod.mk.injEq] at hg'
      rw [← hg'.1] at hv
      exact hs.gc g false hg t v hv
  | gcEnd => exact ⟨hs.active, hs.all, hs.poll, (fun _ _ hr => by cases hr)⟩

/-! ### Committed points -/

/-- The GC point `v` of tenant `t`, other than the default one, is in an entry of the log. -/
def InLog (log : List Inc) (t v : Int) : Prop :=
  ∃ e ∈ log, ∃ y, TInc.update t y ∈ e.tenants ∧ y.sp = v

/-- `InLog` in the shape of what has been asked for. -/
def LogA (log : List Inc) : Kind → Int → Int → Prop
  | .gc, t, v => t ≠ 0 → InLog log t v
  | .rl, _, _ => True

theorem Inv.okLogA {A s} (h : Inv A s) : OkLog (LogA s.log) s.log := by
  intro e he
  have := h.log e he
  refine ⟨?_, ?_, this.nodup⟩
  · intro k v hkv
    refine ⟨(this.ids k v hkv).1, ?_⟩
    cases k
    · exact fun h => absurd rfl h
    · trivial
  · intro j t hm
    have h2 := this.tenants j t hm
    exact ⟨h2.1.imp id (fun h => ⟨h.1, fun _ => ⟨e, he, t, hm, rfl⟩⟩), h2.2.imp id (fun h => ⟨h.1, trivial⟩)⟩

theorem Inv.servedLog {A s} (h : Inv A s) (n : Nat) {t v : Int}
    (hv : (s.nodes n).served.sp t = some v) : OkEntry (LogA s.log) t v := by
  have hn := h.nodes n
  refine Node.served_ok (log := s.log) ⟨hn.applied, hn.disk, hn.stop, hn.ids, hn.mid, hn.tenants, ?_⟩
    h.okLogA hv
  intro k v hkv
  refine ⟨(hn.temp k v hkv).1, ?_⟩
  cases k
  · exact fun h => absurd rfl h
  · trivial

/-- The points of stores and collections are committed. -/
structure Committed (s : Sys) : Prop where
  stores : ∀ i, StoreInv (LogA s.log) (s.stores i)
  runs : ∀ i t v, (i, t, v) ∈ s.runs → t ≠ 0 → InLog s.log t v

theorem step_committed {A s e} (h : Inv A s) (hc : Committed s) : Committed (step s e) := by
  have hl : ∀ t v, InLog s.log t v → InLog (step s e).log t v := by
    intro t v ⟨x, hx, hy⟩
    refine ⟨x, ?_, hy⟩
    rcases step_log s e with h1 | ⟨th, _, _, h1⟩
    · rw [h1]; exact hx
    · rw [h1]; exact List.mem_append_left _ hx
  constructor
  · intro i
    refine ((step_stores s e i).inv (hc.stores i) (fun n t v hv => h.servedLog n hv)).imp ?_
    intro t v ha h0
    exact hl t v (ha h0)
  · intro i t v hm h0
    rcases step_runs s e with h1 | ⟨j, u, g, ts, hg, hts, _, h1⟩
    · rw [h1] at hm; exact hl t v (hc.runs i t v hm h0)
    · rw [h1] at hm
      rcases List.mem_append.1 hm with h2 | h2
      · exact hl t v (hc.runs i t v h2 h0)
      · simp only [List.mem_singleton, Prod.mk.injEq] at h2
        obtain ⟨rfl, rfl, rfl⟩ := h2
        exact hl t v (((hc.stores i).gc g true hg t v hts).2 h0)

theorem run_committed {A} {evs : List Ev} : ∀ {s : Sys}, Inv A s →
    (∀ n r, Ev.request n r ∈ evs → Knows A r) → Committed s → Committed (run s evs) := by
  induction evs with
  | nil => intro s _ _ h; exact h
  | cons e evs ih =>
    intro s h hA hc
    exact ih (s := step s e) (step_inv h (fun n r he => hA n r (by simp [he])))
      (fun n r hm => hA n r (by simp [hm])) (step_committed h hc)

theorem init_committed : Committed Sys.init :=
  ⟨fun _ => ⟨(fun _ _ h => by cases h), (fun _ _ h => by cases h), (fun _ h => by cases h),
    (fun _ _ h => by cases h)⟩, fun _ _ _ h => by simp [Sys.init] at h⟩

/-! ### The two maps of a store -/

/-- A tenant is in one of the two maps, and in the active one only without the flag. -/
def Apart (st : Store) : Prop :=
  ∀ t e, st.mgr.active t = some e → st.mgr.all t = none ∧ e.stop = false

theorem set1_apart {a l : Option Entry} {stop : Bool} {v : Option Int}
    (h : ∀ e, a = some e → l = none ∧ e.stop = false) :
    ∀ e, (Mgr.set1 a l stop v).1 = some e → (Mgr.set1 a l stop v).2 = none ∧ e.stop = false := by
  rcases a with _ | ⟨s1, a⟩ <;> rcases l with _ | ⟨s2, l⟩ <;> rcases v with _ | v <;>
    cases stop <;> (try cases s1) <;> (try cases s2) <;>
    simp_all [Option.or, Mgr.set1]

theorem StMoves.apart {s : Sys} {i : Nat} {e : Ev} {x : Store} (hm : StMoves s i e x)
    (h : Apart (s.stores i)) : Apart x := by
  cases hm with
  | same => exact h
  | poll _ => exact h
  | recv hr => exact fun t => set1_apart (h t)
  | drop => exact h
  | gcBegin =>
    intro t e he
    have ht := h t
    simp only [Mgr.dropZero] at he ⊢
    rcases ha : (s.stores i).mgr.active t with _ | x
    · rw [ha] at he; cases he
    · rw [ha] at he
      dsimp only at he ⊢
      have := ht x ha
      split at he
      · cases he
      · rename_i hx
        cases he
        rw [if_neg hx]
        exact this
  | gcResume hg =>
    intro t e he
    have ht := h t
    simp only [Mgr.setStop] at he ⊢
    rcases ha : (s.stores i).mgr.active t with _ | x
    · rw [ha] at he; simp at he
    · rw [ha] at he
      have := ht x ha
      rw [this.1]
      simp only [Option.map_none, ite_self, true_and]
      split at he
      · cases he; rfl
      · cases he; exact this.2
  | gcEnd => exact h

theorem run_apart {evs : List Ev} : ∀ {s : Sys}, (∀ i, Apart (s.stores i)) →
    ∀ i, Apart ((run s evs).stores i) := by
  induction evs with
  | nil => intro s h; exact h
  | cons e evs ih => intro s h; exact ih (s := step s e) (fun i => (step_stores s e i).apart (h i))

theorem init_apart (i : Nat) : Apart (Sys.init.stores i) := fun _ _ h => by cases h

theorem set1_told {a l : Option Entry} {stop : Bool} {v : Int}
    (h : ∀ e, a = some e → l = none ∧ e.stop = false) :
    Mgr.set1 a l stop (some v) = if stop then (none, some ⟨true, v⟩) else (some ⟨false, v⟩, none) := by
  rcases a with _ | ⟨s1, a⟩ <;> rcases l with _ | ⟨s2, l⟩ <;>
    cases stop <;> (try cases s1) <;> (try cases s2) <;>
    simp_all [Option.or, Mgr.set1]

/-! ### After a stop -/

/-- Tenant `t` is stopped at the store. -/
structure Stopped (st : Store) (t : Int) : Prop where
  active : st.mgr.active t = none
  all : ∃ e, st.mgr.all t = some e ∧ e.stop = true
  gc : ∀ g, st.gc = some (g, false) → g t = none

theorem StMoves.stopped {s : Sys} {i : Nat} {e : Ev} {x : Store} {t : Int} (hm : StMoves s i e x)
    (h : Stopped (s.stores i) t) (he : e ≠ .recv i) : Stopped x t := by
  obtain ⟨h1, ⟨y, h2, h3⟩, h4⟩ := h
  cases hm with
  | same => exact ⟨h1, ⟨y, h2, h3⟩, h4⟩
  | poll _ => exact ⟨h1, ⟨y, h2, h3⟩, h4⟩
  | recv hr => exact absurd rfl he
  | drop => exact ⟨h1, ⟨y, h2, h3⟩, h4⟩
  | gcBegin =>
    refine ⟨?_, ⟨y, ?_, h3⟩, ?_⟩
    · simp only [Mgr.dropZero, h1]
    · simp only [Mgr.dropZero, h1, h2]
    · intro g hg
      simp only [Option.some.injEq, Prod.mk.injEq] at hg
      rw [← hg.1]
      simp only [h1]
  | gcResume hg =>
    have hz := h4 _ hg
    refine ⟨?_, ⟨y, ?_, h3⟩, ?_⟩
    · simp only [Mgr.setStop, h1, hz, Option.isSome_none, Bool.false_eq_true, if_false]
    · simp only [Mgr.setStop, h2, hz, Option.isSome_none, Bool.false_and, Bool.false_eq_true, if_false]
    · intro g' hg'
      simp only [Option.some.injEq, Prod.mk.injEq, Bool.true_eq_false, and_false] at hg'
  | gcEnd => exact ⟨h1, ⟨y, h2, h3⟩, (fun _ hg => by cases hg)⟩

theorem run_stopped {i : Nat} {t : Int} {evs : List Ev} : ∀ {s : Sys}, Stopped (s.stores i) t →
    (∀ e ∈ evs, e ≠ .recv i) →
    (run s evs).runs.filter (fun r => r.1 == i && r.2.1 == t) =
      s.runs.filter (fun r => r.1 == i && r.2.1 == t) := by
  induction evs with
  | nil => intro s _ _; rfl
  | cons e evs ih =>
    intro s h he
    have h' := (step_stores s e i).stopped h (he e (by simp))
    have := ih (s := step s e) h' (fun x hx => he x (by simp [hx]))
    have hr : run s (e :: evs) = run (step s e) evs := rfl
    rw [hr, this]
    rcases step_runs s e with h1 | ⟨j, u, g, ts, hg, hts, hst, h1⟩
    · rw [h1]
    · rw [h1, List.filter_append]
      by_cases hju : j = i ∧ u = t
      · obtain ⟨rfl, rfl⟩ := hju
        obtain ⟨y, h2, h3⟩ := h.all
        simp [Mgr.get, h.active, h2, h3] at hst
      · have : ((j == i && u == t) = false) := by simpa using hju
        simp [this]

end Verif.SafePoint
