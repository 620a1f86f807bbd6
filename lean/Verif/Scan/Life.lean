import Verif.Scan.Own

/-! # Scan sessions: from Begin to the next page -/

namespace Verif.Scan
open Verif.Codec Verif.Mvcc

/-- The client does not name `id` again before it has an answer, and the cleaner
does not find the session idle for `timeout`. -/
def beginning (cfg : Cfg) (id : Bytes) (o : Nat) (s : State) : Ev → Prop
  | .cont id' _ => id' ≠ id
  | .release id' => id' ≠ id
  | .clean now _ => ∀ c, s.objs[o]? = some c → now - c.last < cfg.timeout
  | _ => True

/-- The client does not release `id`, and the cleaner does not find the session idle
for `timeout`. -/
def using_ (cfg : Cfg) (id : Bytes) (o : Nat) (s : State) : Ev → Prop
  | .release id' => id' ≠ id
  | .clean now _ => ∀ c, s.objs[o]? = some c → now - c.last < cfg.timeout
  | _ => True

theorem beginning_using {cfg : Cfg} {id : Bytes} {o : Nat} {s : State} {e : Ev} (h : beginning cfg id o s e) :
    using_ cfg id o s e := by
  cases e <;> first | exact h | trivial

def P1 (k : Nat) (id : Bytes) (o : Nat) (r : BeginReq) (s : State) : Prop :=
  Own id o (fun j pc => j = k ∧ pc = .opening o id r) (fun c => c.st = .uninit) s

def P2 (k : Nat) (id : Bytes) (o : Nat) (r : BeginReq) (s : State) : Prop :=
  Own id o (fun j pc => j = k ∧ pc = .begin o id r) (fun c => c.st = .opened ∧ c.id = id) s

def P3 (na : Bool) (id : Bytes) (o : Nat) (s : State) : Prop :=
  Own id o (fun _ pc => ∃ m, m ≠ 0 ∧ pc = .cont o id m)
    (fun c => (c.st = .begun ∨ c.st = .continued) ∧ c.id = id ∧ c.it ≠ none ∧ c.noAuto = na) s

theorem not_recyclable {cfg : Cfg} {now : Int} {c : Ctx} (h : now - c.last < cfg.timeout)
    (hs : c.st = .uninit ∨ c.st = .opened ∨ c.st = .begun ∨ c.st = .continued ∨ c.st = .released) :
    isRecyclable cfg now c = (c, false) := by
  unfold isRecyclable
  rw [if_neg, if_neg (by omega)]
  rcases hs with e | e | e | e | e <;> rw [e] <;> simp

/-- An event that starts no thread on the session itself is no business of it. -/
theorem other_of {cfg : Cfg} {id : Bytes} {o : Nat} {s : State} {e : Ev} {A : Nat → Pc → Prop} {C : Ctx → Prop}
    (h : Own id o A C s)
    (hC : ∀ c, C c → c.st = .uninit ∨ c.st = .opened ∨ c.st = .begun ∨ c.st = .continued ∨ c.st = .released)
    (he : beginning cfg id o s e)
    (hg : ∀ i t t' b pc, e = .go i t t' b → s.ths[i]? = some pc → ¬ A i pc) : Other cfg id o s e := by
  cases e with
  | go i t t' b =>
    intro pc hpc
    exact ⟨fun hx => hg i t t' b pc rfl hpc (h.th i pc hpc (Or.inl hx)),
      fun hx => hg i t t' b pc rfl hpc (h.th i pc hpc (Or.inr hx))⟩
  | clean now busy =>
    intro c hc
    obtain ⟨c', hc', hCc⟩ := h.obj
    rw [hc] at hc'; cases hc'
    exact not_recyclable (he c hc) (hC c hCc)
  | cont id' m => exact he
  | release id' => exact he
  | data st => trivial
  | beginV1 => trivial
  | beginV2 => trivial

theorem P1.step {cfg : Cfg} {k : Nat} {id : Bytes} {o : Nat} {r : BeginReq} {s : State} (h : P1 k id o r s)
    (hid : id ≠ []) (hm : MInv s) (e : Ev) (he : beginning cfg id o s e) :
    P1 k id o r (step cfg s e).1 ∨ P2 k id o r (step cfg s e).1 := by
  by_cases hd : s.dead = true
  · left
    have : Verif.Scan.step cfg s e = (s, []) := by unfold Verif.Scan.step; rw [if_pos hd]
    rw [this]; exact h
  by_cases hgo : ∃ t t' b, e = .go k t t' b ∧ s.ths[k]? = some (.opening o id r)
  · obtain ⟨t, t', b, rfl, hk⟩ := hgo
    right
    obtain ⟨c, hc, hC⟩ := h.obj
    have hl := (List.getElem?_eq_some_iff.1 hc).1
    have ho : openCtx c id r.ts = ({ c with st := .opened, id := id, ts := r.ts }, none) := by
      unfold openCtx
      rw [if_neg hid, if_neg (by rw [hC]; simp)]
    have es : Verif.Scan.step cfg s (.go k t t' b) =
        ({ s with objs := s.objs.set o { c with st := .opened, id := id, ts := r.ts },
                  ths := s.ths.set k (.begin o id r) }, []) := by
      simp only [Verif.Scan.step, if_neg hd, hk, goStep, hc, ho]
    rw [es]
    refine ⟨h.mem, ⟨_, List.getElem?_set_self hl, rfl, rfl⟩, ?_⟩
    intro j pc hj hx
    by_cases hjk : k = j
    · subst hjk
      simp only [List.getElem?_set, if_true] at hj
      split at hj
      · cases hj; exact ⟨rfl, rfl⟩
      · cases hj
    · simp only [List.getElem?_set_ne hjk] at hj
      exact absurd (h.th j pc hj hx).1.symm hjk
  · left
    refine h.other hm e (other_of h (fun c hc => Or.inl hc) he ?_)
    rintro i t t' b pc rfl hpc ⟨rfl, rfl⟩
    exact hgo ⟨t, t', b, rfl, hpc⟩

theorem P2.step {cfg : Cfg} {k : Nat} {id : Bytes} {o : Nat} {r : BeginReq} {s : State} (h : P2 k id o r s)
    (hr : r.start ≠ [] ∧ r.stop ≠ [] ∧ r.start < r.stop) (hm : MInv s) (e : Ev) (he : beginning cfg id o s e) :
    P2 k id o r (step cfg s e).1 ∨ P3 r.noAuto id o (step cfg s e).1 ∨ (step cfg s e).1.dead = true := by
  by_cases hd : s.dead = true
  · left
    have : Verif.Scan.step cfg s e = (s, []) := by unfold Verif.Scan.step; rw [if_pos hd]
    rw [this]; exact h
  by_cases hgo : ∃ t t' b, e = .go k t t' b ∧ s.ths[k]? = some (.begin o id r)
  · obtain ⟨t, t', b, rfl, hk⟩ := hgo
    right
    obtain ⟨c, hc, hC, hci⟩ := h.obj
    have hl := (List.getElem?_eq_some_iff.1 hc).1
    have he1 : ∀ c' kvs more, scanBegin cfg s.store t t' c r = (c', .ok kvs more) →
        P3 r.noAuto id o (Verif.Scan.step cfg s (.go k t t' b)).1 := by
      intro c' kvs more hb
      have es : Verif.Scan.step cfg s (.go k t t' b) =
          ({ s with objs := s.objs.set o c', ths := s.ths.set k .done }, [.begun k o id r kvs]) := by
        simp only [Verif.Scan.step, if_neg hd, hk, goStep, hc, hb]
      rw [es]
      obtain ⟨_, _, _, _, it, it', _, _, hc'⟩ := scanBegin_ok hb
      refine ⟨h.mem, ⟨_, List.getElem?_set_self hl, ?_⟩, ?_⟩
      · rw [hc']; exact ⟨Or.inl rfl, hci, by simp, rfl⟩
      · intro j pc hj hx
        by_cases hjk : k = j
        · subst hjk
          simp only [List.getElem?_set, if_true] at hj
          split at hj
          · cases hj; rcases hx with hx | hx <;> cases hx
          · cases hj
        · simp only [List.getElem?_set_ne hjk] at hj
          exact absurd (h.th j pc hj hx).1.symm hjk
    cases hb : scanBegin cfg s.store t t' c r with
    | mk c' out =>
      cases out with
      | ok kvs more => exact Or.inl (he1 c' kvs more hb)
      | crash =>
        right
        simp only [Verif.Scan.step, if_neg hd, hk, goStep, hc, hb]
      | err x =>
        exfalso
        unfold scanBegin at hb
        rw [if_neg (by rintro (e | e); exact hr.1 e; exact hr.2.1 e), if_neg (by simpa using hr.2.2),
          if_neg (by rw [hC]; simp)] at hb
        simp only at hb
        repeat' (split at hb)
        all_goals cases hb
  · left
    refine h.other hm e (other_of h (fun c hc => Or.inr (Or.inl hc.1)) he ?_)
    rintro i t t' b pc rfl hpc ⟨rfl, rfl⟩
    exact hgo ⟨t, t', b, rfl, hpc⟩

/-- A Continue of a session in use is answered with a page (or the process aborts). -/
theorem P3.go {cfg : Cfg} {na : Bool} {id : Bytes} {o : Nat} {s : State} (h : P3 na id o s) (hid : id ≠ [])
    (hd : s.dead = false) {i : Nat} {m : Int} (hm0 : m ≠ 0) (hi : s.ths[i]? = some (.cont o id m)) (t t' : Int) (b : Bool) :
    (P3 na id o (step cfg s (.go i t t' b)).1 ∧
      ∃ kvs more, (step cfg s (.go i t t' b)).2 = [.page i o id m kvs more]) ∨
    ((step cfg s (.go i t t' b)).1.dead = true ∧ (step cfg s (.go i t t' b)).2 = [.crash]) := by
  obtain ⟨c, hc, hC, hci, hit, hna⟩ := h.obj
  have hl := (List.getElem?_eq_some_iff.1 hc).1
  have hd' : ¬ (s.dead = true) := by rw [hd]; simp
  cases hb : scanContinue cfg t' c id m with
  | mk c' out =>
    cases out with
    | ok kvs more =>
      left
      have es : Verif.Scan.step cfg s (.go i t t' b) =
          ({ s with objs := s.objs.set o c', ths := s.ths.set i .done }, [.page i o id m kvs more]) := by
        simp only [Verif.Scan.step, if_neg hd', hi, goStep, hc, hb]
      rw [es]
      obtain ⟨_, _, _, _, it, it', _, _, hc'⟩ := scanContinue_ok hb
      refine ⟨⟨h.mem, ⟨_, List.getElem?_set_self hl, ?_⟩, ?_⟩, kvs, more, rfl⟩
      · rw [hc']; exact ⟨Or.inr rfl, hci, by simp, hna⟩
      · intro j pc hj hx
        by_cases hjk : i = j
        · subst hjk
          simp only [List.getElem?_set, if_true] at hj
          split at hj
          · cases hj; rcases hx with hx | hx <;> cases hx
          · cases hj
        · simp only [List.getElem?_set_ne hjk] at hj
          exact h.th j pc hj hx
    | crash =>
      right
      constructor <;> simp only [Verif.Scan.step, if_neg hd', hi, goStep, hc, hb]
    | err x =>
      exfalso
      unfold scanContinue at hb
      rw [if_neg (by rintro (e | e); exact hid e; exact e hci.symm), if_neg hm0,
        if_neg (by rintro ⟨a, b⟩; rcases hC with e | e; exact a e; exact b e)] at hb
      repeat' (split at hb)
      all_goals cases hb

theorem P3.cont {cfg : Cfg} {na : Bool} {id : Bytes} {o : Nat} {s : State} (h : P3 na id o s) (hid : id ≠ []) (hm : MInv s)
    (hd : s.dead = false) {m : Int} (hm0 : m ≠ 0) :
    step cfg s (.cont id m) = ({ s with ths := s.ths ++ [.cont o id m] }, []) ∧
    P3 na id o (step cfg s (.cont id m)).1 := by
  have es : Verif.Scan.step cfg s (.cont id m) = ({ s with ths := s.ths ++ [.cont o id m] }, []) := by
    simp only [Verif.Scan.step, hd, Bool.false_eq_true, if_false, if_neg hid, if_neg hm0,
      find_of_mem hm.nodup h.mem]
  refine ⟨es, ?_⟩
  rw [es]
  obtain ⟨c, hc, hC⟩ := h.obj
  refine ⟨h.mem, ⟨c, hc, hC⟩, ?_⟩
  intro j pc hj hx
  rcases Nat.lt_or_ge j s.ths.length with hl | hl
  · simp only [List.getElem?_append_left hl] at hj; exact h.th j pc hj hx
  · simp only [List.getElem?_append_right hl] at hj
    have := List.mem_of_getElem? hj
    simp only [List.mem_singleton] at this
    exact ⟨m, hm0, this⟩

theorem P3.step {cfg : Cfg} {na : Bool} {id : Bytes} {o : Nat} {s : State} (h : P3 na id o s) (hid : id ≠ []) (hm : MInv s)
    (e : Ev) (he : using_ cfg id o s e) :
    P3 na id o (step cfg s e).1 ∨ (step cfg s e).1.dead = true := by
  cases hd : s.dead with
  | true =>
    left
    have : Verif.Scan.step cfg s e = (s, []) := by unfold Verif.Scan.step; rw [if_pos hd]
    rw [this]; exact h
  | false =>
    have oth : ∀ e, beginning cfg id o s e → (∀ i t t' b pc, e = .go i t t' b → s.ths[i]? = some pc →
        ¬ ∃ m, m ≠ 0 ∧ pc = .cont o id m) → P3 na id o (Verif.Scan.step cfg s e).1 := fun e h1 h2 =>
      h.other hm e (other_of h (fun c hc => hc.1.elim (fun x => Or.inr (Or.inr (Or.inl x)))
        (fun x => Or.inr (Or.inr (Or.inr (Or.inl x))))) h1 h2)
    cases e with
    | go i t t' b =>
      by_cases hgo : ∃ m, m ≠ 0 ∧ s.ths[i]? = some (.cont o id m)
      · obtain ⟨m, hm0, hi⟩ := hgo
        rcases h.go (cfg := cfg) hid hd hm0 hi t t' b with ⟨a, _⟩ | ⟨a, _⟩
        · exact Or.inl a
        · exact Or.inr a
      · left
        refine oth _ he ?_
        rintro i t t' b pc e hpc ⟨m, hm0, rfl⟩
        cases e
        exact hgo ⟨m, hm0, hpc⟩
    | cont id' m =>
      by_cases hi : id' = id
      · subst hi
        by_cases hm0 : m = 0
        · left
          subst hm0
          have es : Verif.Scan.step cfg s (.cont id' 0) = (answer s, [.refused s.ths.length .keyEmpty]) := by
            simp only [Verif.Scan.step, hd, Bool.false_eq_true, if_false, if_neg hid, if_true]
          rw [es]
          exact Own.app h .done ⟨nofun, nofun⟩ h.mem rfl rfl
        · exact Or.inl (h.cont hid hm hd hm0).2
      · exact Or.inl (oth _ hi (by intros; contradiction))
    | release id' => exact Or.inl (oth _ he (by intros; contradiction))
    | clean now busy => exact Or.inl (oth _ he (by intros; contradiction))
    | data st => exact Or.inl (oth _ trivial (by intros; contradiction))
    | beginV1 guids r now leader => exact Or.inl (oth _ trivial (by intros; contradiction))
    | beginV2 id' r now leader => exact Or.inl (oth _ trivial (by intros; contradiction))

theorem step_dead_stays {cfg : Cfg} {s : State} {e : Ev} (h : s.dead = true) : (step cfg s e).1.dead = true := by
  unfold step; rw [if_pos h]; exact h

theorem run_phase {cfg : Cfg} {k : Nat} {id : Bytes} {o : Nat} {r : BeginReq} (hid : id ≠ [])
    (hr : r.start ≠ [] ∧ r.stop ≠ [] ∧ r.start < r.stop) (evs : List Ev) {s : State} (hm : MInv s)
    (h : P1 k id o r s ∨ P2 k id o r s ∨ P3 r.noAuto id o s ∨ s.dead = true)
    (hok : okRun cfg (beginning cfg id o) s evs) :
    P1 k id o r (run cfg s evs).1 ∨ P2 k id o r (run cfg s evs).1 ∨ P3 r.noAuto id o (run cfg s evs).1 ∨
      (run cfg s evs).1.dead = true := by
  induction evs generalizing s with
  | nil => exact h
  | cons e es ih =>
    simp only [run]
    refine ih (hm.step e) ?_ hok.2
    rcases h with h | h | h | h
    · rcases h.step hid hm e hok.1 with a | a
      · exact Or.inl a
      · exact Or.inr (Or.inl a)
    · rcases h.step hr hm e hok.1 with a | a | a
      · exact Or.inr (Or.inl a)
      · exact Or.inr (Or.inr (Or.inl a))
      · exact Or.inr (Or.inr (Or.inr a))
    · rcases h.step hid hm e (beginning_using hok.1) with a | a
      · exact Or.inr (Or.inr (Or.inl a))
      · exact Or.inr (Or.inr (Or.inr a))
    · exact Or.inr (Or.inr (Or.inr (step_dead_stays h)))

theorem run_using {cfg : Cfg} {na : Bool} {id : Bytes} {o : Nat} (hid : id ≠ []) (evs : List Ev) {s : State} (hm : MInv s)
    (h : P3 na id o s ∨ s.dead = true) (hok : okRun cfg (using_ cfg id o) s evs) :
    P3 na id o (run cfg s evs).1 ∨ (run cfg s evs).1.dead = true := by
  induction evs generalizing s with
  | nil => exact h
  | cons e es ih =>
    simp only [run]
    refine ih (hm.step e) ?_ hok.2
    rcases h with h | h
    · exact h.step hid hm e hok.1
    · exact Or.inr (step_dead_stays h)

theorem MInv.runFrom {cfg : Cfg} {s : State} (h : MInv s) (evs : List Ev) : MInv (Verif.Scan.run cfg s evs).1 := by
  induction evs generalizing s with
  | nil => exact h
  | cons e es ih => exact ih (h.step e)

/-- The new session is in its first phase if nothing else names its id. -/
theorem P1.create {s : State} (hm : MInv s) {id : Bytes} {r : BeginReq} {now : Int}
    (hq : ∀ (j : Nat) (pc : Pc), s.ths[j]? = some pc → pc.id? ≠ some id) :
    P1 s.ths.length id s.objs.length r (create s id r now) := by
  refine ⟨List.mem_cons_self, ⟨{ last := now }, ?_, rfl⟩, ?_⟩
  · simp only [Verif.Scan.create]
    rw [List.getElem?_append_right (Nat.le_refl _)]
    simp
  · intro j pc hj hx
    simp only [Verif.Scan.create] at hj
    rcases Nat.lt_or_ge j s.ths.length with hl | hl
    · rw [List.getElem?_append_left hl] at hj
      rcases hx with hx | hx
      · have := hm.ths j pc _ hj hx; omega
      · exact absurd hx (hq j pc hj)
    · rw [List.getElem?_append_right hl] at hj
      have hj' := List.getElem?_eq_some_iff.1 hj
      obtain ⟨hlt, hv⟩ := hj'
      simp only [List.length_singleton] at hlt
      have : j = s.ths.length := by omega
      subst this
      simp at hv
      exact ⟨rfl, hv.symm⟩

end Verif.Scan
