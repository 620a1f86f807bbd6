import Verif.Scan.Good

/-! # Scan sessions: what keeps a session in use -/

namespace Verif.Scan
open Verif.Codec Verif.Mvcc

/-- The session a thread holds a reference to. -/
def Pc.obj? : Pc → Option Nat
  | .opening o _ _ => some o
  | .begin o _ _ => some o
  | .cont o _ _ => some o
  | .rel o _ => some o
  | _ => none

/-- The id the request of an unfinished thread names. -/
def Pc.id? : Pc → Option Bytes
  | .opening _ id _ => some id
  | .begin _ id _ => some id
  | .cont _ id _ => some id
  | .rel _ id => some id
  | .drop id _ => some id
  | .tryDel _ id => some id
  | .done => none

/-- The events satisfy a condition on the state they meet. -/
def okRun (cfg : Cfg) (ok : State → Ev → Prop) : State → List Ev → Prop
  | _, [] => True
  | s, e :: es => ok s e ∧ okRun cfg ok (step cfg s e).1 es

theorem mem_of_find {m : List (Bytes × Nat)} {id : Bytes} {o : Nat} (h : find m id = some o) : (id, o) ∈ m := by
  unfold find at h
  cases hf : m.find? (fun e => e.1 = id) with
  | none => rw [hf] at h; cases h
  | some x =>
    rw [hf] at h
    simp only [Option.map_some, Option.some.injEq] at h
    have h1 := List.mem_of_find?_eq_some hf
    have h2 := List.find?_some hf
    simp only [decide_eq_true_eq] at h2
    rw [← h2, ← h]; exact h1

theorem find_none {m : List (Bytes × Nat)} {id : Bytes} (h : find m id = none) : ∀ o, (id, o) ∉ m := by
  unfold find at h
  simp only [Option.map_eq_none_iff, List.find?_eq_none, decide_eq_true_eq] at h
  intro o ho
  exact h _ ho rfl

theorem find_of_mem {m : List (Bytes × Nat)} {id : Bytes} {o : Nat} (hn : (m.map (·.1)).Nodup)
    (h : (id, o) ∈ m) : find m id = some o := by
  cases hf : find m id with
  | none => exact absurd h (find_none hf o)
  | some o' =>
    have h' := mem_of_find hf
    clear hf
    induction m with
    | nil => cases h
    | cons x m ih =>
      simp only [List.map_cons, List.nodup_cons] at hn
      rcases List.mem_cons.1 h with e | h1
      · rcases List.mem_cons.1 h' with e' | h2
        · rw [← e] at e'; cases e'; rfl
        · exact absurd (List.mem_map.2 ⟨_, h2, by rw [← e]⟩) hn.1
      · rcases List.mem_cons.1 h' with e' | h2
        · exact absurd (List.mem_map.2 ⟨_, h1, by rw [← e']⟩) hn.1
        · exact ih hn.2 h1 h2

theorem erase_sub (m : List (Bytes × Nat)) (id : Bytes) : (erase m id).Sublist m := List.filter_sublist

theorem mem_erase {m : List (Bytes × Nat)} {id id' : Bytes} {o : Nat} :
    (id', o) ∈ erase m id ↔ (id', o) ∈ m ∧ id' ≠ id := by
  simp [erase]

theorem cleanMap_sub (cfg : Cfg) (now : Int) (busy : List Nat) (m : List (Bytes × Nat)) (objs : List Ctx) :
    (cleanMap cfg now busy m objs).1.Sublist m := by
  induction m generalizing objs with
  | nil => exact List.Sublist.slnil
  | cons x m ih =>
    obtain ⟨id, o⟩ := x
    simp only [cleanMap]
    split
    · exact (ih objs).cons_cons _
    · split
      · exact (ih objs).cons _
      · simp only
        split
        · exact (ih _).cons _
        · exact (ih _).cons_cons _

theorem cleanMap_keep {cfg : Cfg} {now : Int} {busy : List Nat} {m : List (Bytes × Nat)} {objs : List Ctx}
    {o : Nat} {c : Ctx} (h : objs[o]? = some c) (hr : isRecyclable cfg now c = (c, false)) :
    (cleanMap cfg now busy m objs).2[o]? = some c ∧
    ∀ id, (id, o) ∈ m → (id, o) ∈ (cleanMap cfg now busy m objs).1 := by
  induction m generalizing objs with
  | nil => exact ⟨h, fun id hm => hm⟩
  | cons x m ih =>
    obtain ⟨id', o'⟩ := x
    simp only [cleanMap]
    split
    · obtain ⟨a, b⟩ := ih h
      refine ⟨a, fun id hm => ?_⟩
      rcases List.mem_cons.1 hm with e | hm
      · exact e ▸ List.mem_cons_self
      · exact List.mem_cons_of_mem _ (b id hm)
    · split
      · rename_i hn
        obtain ⟨a, b⟩ := ih h
        refine ⟨a, fun id hm => ?_⟩
        rcases List.mem_cons.1 hm with e | hm
        · cases e; rw [h] at hn; cases hn
        · exact b id hm
      · rename_i c' hc'
        simp only
        have h' : (objs.set o' (isRecyclable cfg now c').1)[o]? = some c := by
          by_cases ho : o' = o
          · subst ho
            rw [h] at hc'; cases hc'
            have hlt := (List.getElem?_eq_some_iff.1 h).1
            rw [List.getElem?_set_self hlt, hr]
          · rw [List.getElem?_set_ne ho, h]
        obtain ⟨a, b⟩ := ih h'
        refine ⟨a, fun id hm => ?_⟩
        rcases List.mem_cons.1 hm with e | hm
        · cases e
          rw [h] at hc'; cases hc'
          rw [hr]
          simp
        · have := b id hm
          split
          · exact this
          · exact List.mem_cons_of_mem _ this

/-- Well-formed manager and thread references. -/
structure MInv (s : State) : Prop where
  nodup : (s.map.map (·.1)).Nodup
  lt : ∀ (id : Bytes) (o : Nat), (id, o) ∈ s.map → o < s.objs.length
  uniq : ∀ (id id' : Bytes) (o : Nat), (id, o) ∈ s.map → (id', o) ∈ s.map → id = id'
  ths : ∀ (j : Nat) (pc : Pc) (o : Nat), s.ths[j]? = some pc → pc.obj? = some o → o < s.objs.length

theorem MInv.init (st : Store) : MInv (State.init st) := by
  refine ⟨by simp [State.init], fun id o h => ?_, fun id id' o h => ?_, fun j pc o h => ?_⟩ <;> simp [State.init] at h

theorem MInv.of {s s' : State} (h : MInv s) (hm : s'.map.Sublist s.map) (hl : s.objs.length ≤ s'.objs.length)
    (ht : ∀ (j : Nat) (pc : Pc) (o : Nat), s'.ths[j]? = some pc → pc.obj? = some o → o < s'.objs.length) :
    MInv s' :=
  ⟨h.nodup.sublist (hm.map _), fun id o hx => Nat.lt_of_lt_of_le (h.lt id o (hm.subset hx)) hl,
    fun id id' o hx hy => h.uniq id id' o (hm.subset hx) (hm.subset hy), ht⟩

theorem MInv.app {s : State} (h : MInv s) (pc : Pc) (hp : ∀ o, pc.obj? = some o → o < s.objs.length)
    {s' : State} (e1 : s'.map = s.map) (e2 : s'.objs = s.objs) (e3 : s'.ths = s.ths ++ [pc]) : MInv s' := by
  refine h.of (by rw [e1]; exact List.Sublist.refl _) (by rw [e2]; exact Nat.le_refl _) ?_
  intro j p o hj ho
  rw [e2]
  rw [e3] at hj
  rcases Nat.lt_or_ge j s.ths.length with hl | hl
  · rw [List.getElem?_append_left hl] at hj; exact h.ths j p o hj ho
  · rw [List.getElem?_append_right hl] at hj
    have := List.mem_of_getElem? hj
    simp only [List.mem_singleton] at this
    subst this
    exact hp o ho

theorem MInv.set {s : State} (h : MInv s) {i : Nat} {pc0 pc : Pc} (hi : s.ths[i]? = some pc0)
    {s' : State} (e3 : s'.ths = s.ths.set i pc) (hp : pc.obj? = none ∨ pc.obj? = pc0.obj?)
    (e1 : s'.map.Sublist s.map) (e2 : s'.objs.length = s.objs.length) : MInv s' := by
  refine h.of e1 (by rw [e2]; exact Nat.le_refl _) ?_
  intro j p o hj ho
  rw [e2]
  rw [e3] at hj
  by_cases hji : i = j
  · subst hji
    rw [List.getElem?_set] at hj
    simp only [if_true] at hj
    split at hj
    · cases hj
      rcases hp with hp | hp
      · rw [hp] at ho; cases ho
      · exact h.ths i pc0 o hi (hp ▸ ho)
    · cases hj
  · rw [List.getElem?_set_ne hji] at hj; exact h.ths j p o hj ho

theorem MInv.create {s : State} (h : MInv s) {id : Bytes} {r : BeginReq} {now : Int} (hf : find s.map id = none) :
    MInv (create s id r now) := by
  refine ⟨?_, ?_, ?_, ?_⟩
  · simp only [Verif.Scan.create, List.map_cons, List.nodup_cons]
    refine ⟨?_, h.nodup⟩
    intro hx
    obtain ⟨⟨a, b⟩, hm, rfl⟩ := List.mem_map.1 hx
    exact find_none hf b hm
  · intro id' o hx
    simp only [Verif.Scan.create, List.mem_cons, Prod.mk.injEq, List.length_append, List.length_singleton] at hx ⊢
    rcases hx with ⟨_, e⟩ | hx
    · omega
    · have := h.lt _ _ hx; omega
  · intro id1 id2 o hx hy
    simp only [Verif.Scan.create, List.mem_cons, Prod.mk.injEq] at hx hy
    rcases hx with ⟨e1, e2⟩ | hx
    · rcases hy with ⟨e3, _⟩ | hy
      · rw [e1, e3]
      · have := h.lt _ _ hy; omega
    · rcases hy with ⟨_, e⟩ | hy
      · have := h.lt _ _ hx; omega
      · exact h.uniq _ _ _ hx hy
  · intro j p o hj ho
    simp only [Verif.Scan.create, List.length_append, List.length_singleton] at hj ⊢
    rcases Nat.lt_or_ge j s.ths.length with hl | hl
    · rw [List.getElem?_append_left hl] at hj
      have := h.ths j p o hj ho; omega
    · rw [List.getElem?_append_right hl] at hj
      have := List.mem_of_getElem? hj
      simp only [List.mem_singleton] at this
      subst this
      simp only [Pc.obj?, Option.some.injEq] at ho
      omega

theorem MInv.goStep {cfg : Cfg} {s : State} (h : MInv s) {i : Nat} {t t' : Int} {b : Bool} {pc : Pc}
    (hi : s.ths[i]? = some pc) : MInv (goStep cfg s i t t' b pc).1 := by
  have ref := List.Sublist.refl s.map
  have dead : MInv { s with dead := true } :=
    h.of ref (Nat.le_refl _) (fun j p o hj ho => h.ths j p o hj ho)
  cases pc with
  | opening o id r =>
    simp only [Verif.Scan.goStep]
    split
    · exact h
    · split
      · exact h.set hi rfl (Or.inr rfl) ref (List.length_set ..)
      · exact h.set hi rfl (Or.inl rfl) ref (List.length_set ..)
  | begin o id r =>
    simp only [Verif.Scan.goStep]
    split
    · exact h
    · split
      · exact h.set hi rfl (Or.inl rfl) ref (List.length_set ..)
      · exact h.set hi rfl (Or.inl rfl) ref (List.length_set ..)
      · exact dead
  | cont o id m =>
    simp only [Verif.Scan.goStep]
    split
    · exact h
    · split
      · exact h.set hi rfl (Or.inl rfl) ref (List.length_set ..)
      · exact h.set hi rfl (Or.inl rfl) ref (List.length_set ..)
      · exact dead
  | rel o id =>
    simp only [Verif.Scan.goStep]
    split
    · exact h
    · split
      · exact h.set hi rfl (Or.inl rfl) ref (List.length_set ..)
      · exact h.set hi rfl (Or.inl rfl) ref (List.length_set ..)
      · exact dead
  | drop id e =>
    simp only [Verif.Scan.goStep]
    exact h.set hi rfl (Or.inl rfl) (erase_sub _ _) rfl
  | tryDel o id =>
    simp only [Verif.Scan.goStep]
    split
    · exact h.set hi rfl (Or.inl rfl) ref rfl
    · split
      · exact h.set hi rfl (Or.inl rfl) ref rfl
      · split
        · exact h.set hi rfl (Or.inl rfl) ref rfl
        · refine h.set hi rfl (Or.inl rfl) ?_ (List.length_set ..)
          simp only
          split
          · exact erase_sub _ _
          · exact ref
  | done => exact h

theorem MInv.step {cfg : Cfg} {s : State} (h : MInv s) (e : Ev) : MInv (step cfg s e).1 := by
  have ans : MInv (answer s) := h.app .done (fun o ho => by cases ho) rfl rfl rfl
  unfold Verif.Scan.step
  split
  · exact h
  · cases e with
    | data st => exact h.of (List.Sublist.refl _) (Nat.le_refl _) (fun j p o hj ho => h.ths j p o hj ho)
    | beginV1 guids r now leader =>
      simp only
      split
      · exact ans
      · split
        · exact h
        · rename_i id hf
          have := List.find?_some hf
          simp only [decide_eq_true_eq] at this
          exact h.create this.2
    | beginV2 id r now leader =>
      simp only
      split
      · exact ans
      · split
        · exact ans
        · rename_i hf; exact h.create hf
    | cont id m =>
      simp only
      split
      · exact ans
      · split
        · exact ans
        · split
          · exact ans
          · rename_i o hf
            refine h.app (.cont o id m) ?_ rfl rfl rfl
            intro o' ho'
            cases ho'
            exact h.lt _ _ (mem_of_find hf)
    | release id =>
      simp only
      split
      · exact ans
      · split
        · exact ans
        · rename_i o hf
          refine h.app (.rel o id) ?_ rfl rfl rfl
          intro o' ho'
          cases ho'
          exact h.lt _ _ (mem_of_find hf)
    | go i t t' b =>
      simp only
      split
      · exact h
      · rename_i pc hi; exact h.goStep hi
    | clean now busy =>
      refine h.of (cleanMap_sub ..) (by simp only [cleanMap_length]; exact Nat.le_refl _) ?_
      intro j p o hj ho
      simp only [cleanMap_length]
      exact h.ths j p o hj ho

theorem MInv.run (cfg : Cfg) (st : Store) (evs : List Ev) : MInv (run cfg (State.init st) evs).1 :=
  run_ind (P := fun s _ => MInv s) (ok := fun _ => True) (MInv.init st) (fun _ _ e h _ => h.step e) evs
    (fun _ _ => trivial)

/-! ## A session held by its own requests -/

/-- Session `o` is registered under `id`, satisfies `C`, and the only threads
naming `id` or holding `o` are those in `A`. -/
structure Own (id : Bytes) (o : Nat) (A : Nat → Pc → Prop) (C : Ctx → Prop) (s : State) : Prop where
  mem : (id, o) ∈ s.map
  obj : ∃ c, s.objs[o]? = some c ∧ C c
  th : ∀ (j : Nat) (pc : Pc), s.ths[j]? = some pc → (pc.obj? = some o ∨ pc.id? = some id) → A j pc

/-- Events that are no business of session `o` under `id`. -/
def Other (cfg : Cfg) (id : Bytes) (o : Nat) (s : State) : Ev → Prop
  | .cont id' _ => id' ≠ id
  | .release id' => id' ≠ id
  | .go i _ _ _ => ∀ pc, s.ths[i]? = some pc → pc.obj? ≠ some o ∧ pc.id? ≠ some id
  | .clean now _ => ∀ c, s.objs[o]? = some c → isRecyclable cfg now c = (c, false)
  | _ => True

theorem Own.app {id : Bytes} {o : Nat} {A : Nat → Pc → Prop} {C : Ctx → Prop} {s s' : State}
    (h : Own id o A C s) (pc : Pc) (hp : pc.obj? ≠ some o ∧ pc.id? ≠ some id)
    (e1 : (id, o) ∈ s'.map) (e2 : s'.objs[o]? = s.objs[o]?) (e3 : s'.ths = s.ths ++ [pc]) : Own id o A C s' := by
  obtain ⟨c, hc, hC⟩ := h.obj
  refine ⟨e1, ⟨c, e2.trans hc, hC⟩, ?_⟩
  intro j p hj ho
  rw [e3] at hj
  rcases Nat.lt_or_ge j s.ths.length with hl | hl
  · rw [List.getElem?_append_left hl] at hj; exact h.th j p hj ho
  · rw [List.getElem?_append_right hl] at hj
    have := List.mem_of_getElem? hj
    simp only [List.mem_singleton] at this
    subst this
    rcases ho with ho | ho
    · exact absurd ho hp.1
    · exact absurd ho hp.2

theorem Own.set {id : Bytes} {o : Nat} {A : Nat → Pc → Prop} {C : Ctx → Prop} {s s' : State}
    (h : Own id o A C s) {i : Nat} {pc : Pc} (e3 : s'.ths = s.ths.set i pc)
    (hp : pc.obj? ≠ some o ∧ pc.id? ≠ some id)
    (e1 : (id, o) ∈ s'.map) (e2 : s'.objs[o]? = s.objs[o]?) : Own id o A C s' := by
  obtain ⟨c, hc, hC⟩ := h.obj
  refine ⟨e1, ⟨c, e2.trans hc, hC⟩, ?_⟩
  intro j p hj ho
  rw [e3] at hj
  by_cases hij : i = j
  · subst hij
    rw [List.getElem?_set] at hj
    simp only [if_true] at hj
    split at hj
    · cases hj
      rcases ho with ho | ho
      · exact absurd ho hp.1
      · exact absurd ho hp.2
    · cases hj
  · rw [List.getElem?_set_ne hij] at hj; exact h.th j p hj ho

theorem Own.of {id : Bytes} {o : Nat} {A : Nat → Pc → Prop} {C : Ctx → Prop} {s s' : State}
    (h : Own id o A C s) (e1 : (id, o) ∈ s'.map) (e2 : s'.objs[o]? = s.objs[o]?) (e3 : s'.ths = s.ths) :
    Own id o A C s' := by
  obtain ⟨c, hc, hC⟩ := h.obj
  exact ⟨e1, ⟨c, e2.trans hc, hC⟩, fun j p hj ho => h.th j p (e3 ▸ hj) ho⟩

theorem Own.goStep {cfg : Cfg} {id : Bytes} {o : Nat} {A : Nat → Pc → Prop} {C : Ctx → Prop} {s : State}
    (h : Own id o A C s) (hm : MInv s) (i : Nat) (t t' : Int) (b : Bool) (pc : Pc)
    (hp : pc.obj? ≠ some o ∧ pc.id? ≠ some id) : Own id o A C (goStep cfg s i t t' b pc).1 := by
  have nd : ∀ o', (id, o') ∈ s.map → o' = o := by
    intro o' ho'
    have a := find_of_mem hm.nodup ho'
    rw [find_of_mem hm.nodup h.mem] at a
    cases a; rfl
  have setne : ∀ (o' : Nat) (x : Ctx), o' ≠ o → (s.objs.set o' x)[o]? = s.objs[o]? :=
    fun o' x ho => List.getElem?_set_ne ho
  cases pc with
  | opening o' id' r =>
    have ho : o' ≠ o := fun e => hp.1 (by rw [← e]; rfl)
    simp only [Verif.Scan.goStep]
    split
    · exact h
    · split
      · exact h.set rfl hp h.mem (setne _ _ ho)
      · exact h.set rfl ⟨nofun, hp.2⟩ h.mem (setne _ _ ho)
  | begin o' id' r =>
    have ho : o' ≠ o := fun e => hp.1 (by rw [← e]; rfl)
    simp only [Verif.Scan.goStep]
    split
    · exact h
    · split
      · exact h.set rfl ⟨nofun, nofun⟩ h.mem (setne _ _ ho)
      · exact h.set rfl ⟨nofun, hp.2⟩ h.mem (setne _ _ ho)
      · exact h.of h.mem rfl rfl
  | cont o' id' m =>
    have ho : o' ≠ o := fun e => hp.1 (by rw [← e]; rfl)
    simp only [Verif.Scan.goStep]
    split
    · exact h
    · split
      · exact h.set rfl ⟨nofun, nofun⟩ h.mem (setne _ _ ho)
      · exact h.set rfl ⟨nofun, hp.2⟩ h.mem (setne _ _ ho)
      · exact h.of h.mem rfl rfl
  | rel o' id' =>
    have ho : o' ≠ o := fun e => hp.1 (by rw [← e]; rfl)
    simp only [Verif.Scan.goStep]
    split
    · exact h
    · split
      · exact h.set rfl ⟨nofun, hp.2⟩ h.mem (setne _ _ ho)
      · exact h.set rfl ⟨nofun, hp.2⟩ h.mem (setne _ _ ho)
      · exact h.of h.mem rfl rfl
  | drop id' e =>
    have hne : id ≠ id' := fun e => hp.2 (by rw [e]; rfl)
    simp only [Verif.Scan.goStep]
    exact h.set rfl ⟨nofun, nofun⟩ (mem_erase.2 ⟨h.mem, hne⟩) rfl
  | tryDel o0 id' =>
    have hne : id ≠ id' := fun e => hp.2 (by rw [e]; rfl)
    simp only [Verif.Scan.goStep]
    split
    · exact h.set rfl ⟨nofun, nofun⟩ h.mem rfl
    · rename_i o' hf
      have ho : o' ≠ o := by
        intro e
        subst e
        exact hne (hm.uniq _ _ _ h.mem (mem_of_find hf))
      split
      · exact h.set rfl ⟨nofun, nofun⟩ h.mem rfl
      · split
        · exact h.set rfl ⟨nofun, nofun⟩ h.mem rfl
        · refine h.set rfl ⟨nofun, nofun⟩ ?_ (setne _ _ ho)
          simp only
          split
          · exact mem_erase.2 ⟨h.mem, hne⟩
          · exact h.mem
  | done => exact h

theorem Own.create {id : Bytes} {o : Nat} {A : Nat → Pc → Prop} {C : Ctx → Prop} {s : State}
    (h : Own id o A C s) (hm : MInv s) {id' : Bytes} {r : BeginReq} {now : Int} (hf : find s.map id' = none) :
    Own id o A C (create s id' r now) := by
  have hl := hm.lt _ _ h.mem
  refine h.app (.opening s.objs.length id' r) ⟨?_, ?_⟩ (List.mem_cons_of_mem _ h.mem) ?_ rfl
  · intro e
    simp only [Pc.obj?, Option.some.injEq] at e
    omega
  · intro e
    simp only [Pc.id?, Option.some.injEq] at e
    subst e
    exact find_none hf o h.mem
  · simp only [Verif.Scan.create]
    rw [List.getElem?_append_left hl]

/-- Other requests, writes and cleaning leave a session in use alone. -/
theorem Own.other {cfg : Cfg} {id : Bytes} {o : Nat} {A : Nat → Pc → Prop} {C : Ctx → Prop} {s : State}
    (h : Own id o A C s) (hm : MInv s) (e : Ev) (he : Other cfg id o s e) :
    Own id o A C (step cfg s e).1 := by
  have ans : Own id o A C (answer s) := h.app .done ⟨nofun, nofun⟩ h.mem rfl rfl
  unfold Verif.Scan.step
  split
  · exact h
  · cases e with
    | data st => exact h.of h.mem rfl rfl
    | beginV1 guids r now leader =>
      simp only
      split
      · exact ans
      · split
        · exact h
        · rename_i id' hf
          have := List.find?_some hf
          simp only [decide_eq_true_eq] at this
          exact h.create hm this.2
    | beginV2 id' r now leader =>
      simp only
      split
      · exact ans
      · split
        · exact ans
        · rename_i hf; exact h.create hm hf
    | cont id' m =>
      have hne : id' ≠ id := he
      simp only
      split
      · exact ans
      · split
        · exact ans
        · split
          · exact ans
          · rename_i o' hf
            refine h.app (.cont o' id' m) ⟨?_, ?_⟩ h.mem rfl rfl
            · intro e
              cases e
              exact hne (hm.uniq _ _ _ (mem_of_find hf) h.mem)
            · intro e
              cases e
              exact hne rfl
    | release id' =>
      have hne : id' ≠ id := he
      simp only
      split
      · exact ans
      · split
        · exact ans
        · rename_i o' hf
          refine h.app (.rel o' id') ⟨?_, ?_⟩ h.mem rfl rfl
          · intro e
            cases e
            exact hne (hm.uniq _ _ _ (mem_of_find hf) h.mem)
          · intro e
            cases e
            exact hne rfl
    | go i t t' b =>
      simp only
      split
      · exact h
      · rename_i pc hi; exact h.goStep hm i t t' b pc (he pc hi)
    | clean now busy =>
      obtain ⟨c, hc, hC⟩ := h.obj
      obtain ⟨a, b⟩ := cleanMap_keep (busy := busy) (m := s.map) hc (he c hc)
      exact h.of (b id h.mem) (a.trans hc.symm) rfl

end Verif.Scan
