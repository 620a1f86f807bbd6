/-
Ids given out never repeat.
-/
import Verif.Meta.Steps

namespace Verif.Meta

/-- The two counters. -/
inductive Ctr where
  | tab
  | sch
  deriving DecidableEq

/-- The ids an answer gives out. -/
def Resp.given : Ctr → Resp → List Int
  | .tab, .ids l => l
  | .sch, .schema id => [id]
  | _, _ => []

def Data.next (d : Data) : Ctr → Int
  | .tab => d.nextTable
  | .sch => d.nextSchema

def Temp.next (t : Temp) : Ctr → Int
  | .tab => last t.nextTable
  | .sch => last t.nextSchema

def Ctr.write : Ctr → Int → Write
  | .tab, v => .nextTable v
  | .sch, v => .nextSchema v

/-- The guard for one counter: the one of the terms, and for schemas that a new schema has its id from the counter. -/
def okCtr (c : Ctr) (s : State) (e : Ev) : Bool :=
  okTerm s e && match c, e with
    | .sch, .begin (.createSchema _ _ j) => j ≤ 0
    | _, _ => true

def okCtrRun (c : Ctr) (s : State) : List Ev → Bool
  | [] => true
  | e :: es => okCtr c s e && okCtrRun c (step s e).1 es

theorem idsAfter_mem {v : Int} {n : Nat} {x : Int} : x ∈ idsAfter v n ↔ v < x ∧ x ≤ v + n := by
  unfold idsAfter
  simp only [List.mem_map, List.mem_range]
  constructor
  · rintro ⟨i, hi, e⟩
    omega
  · rintro ⟨h1, h2⟩
    exact ⟨(x - v - 1).toNat, by omega, by omega⟩

theorem idsAfter_nodup (v : Int) (n : Nat) : (idsAfter v n).Nodup := by
  unfold idsAfter
  refine List.Pairwise.map _ ?_ List.nodup_range
  intro a b hab e
  exact hab (by omega)

/-- The ids of a plan are new, and its entry moves the counter past them. -/
theorem prepare_given {c : Ctr} {d : Data} {t t' : Temp} {r : Req} {p : Plan} (h : prepare d t r = (t', .ok p))
    (hr : c = .sch → ∀ tn n j, r = .createSchema tn n j → j ≤ 0) :
    (p.resp.given c).Nodup ∧ ∀ x ∈ p.resp.given c, t.next c < x ∧ x ≤ t'.next c ∧
      ∃ v, x ≤ v ∧ c.write v ∈ p.incr.ids := by
  have hs := prepare_shape h
  cases hs with
  | objs _ h1 h2 =>
    have : p.resp.given c = [] := by
      cases hp : p.resp with
      | ids l => exact absurd hp (h1 l)
      | schema i => exact absurd hp (h2 i)
      | ok => cases c <;> rfl
      | made l => cases c <;> rfl
    rw [this]; exact ⟨List.nodup_nil, by simp⟩
  | tenant _ _ hp => rw [hp]; cases c <;> exact ⟨List.nodup_nil, by simp [Resp.given]⟩
  | noSchema _ _ _ _ hp => rw [hp]; cases c <;> exact ⟨List.nodup_nil, by simp [Resp.given]⟩
  | newSchema id s ids hi hp _ _ _ hid =>
    rw [hp]
    cases c with
    | tab => exact ⟨List.nodup_nil, by simp [Resp.given]⟩
    | sch =>
      refine ⟨by simp [Resp.given], ?_⟩
      intro x hx
      have hx : x = id := List.mem_singleton.1 hx
      subst hx
      have hok : okReq d r = true ∨ ∃ tn sid, r = .dropSchema tn sid := by
        cases r <;> first | exact Or.inl rfl | skip
        · exact Or.inl (by simpa [okReq] using hr rfl _ _ _ rfl)
        · exact Or.inr ⟨_, _, rfl⟩
      rcases hok with hok | ⟨tn, sid, rfl⟩
      · have h1 := (prepare_req h hok).2.1 x s (by rw [hi]; exact List.mem_singleton.2 rfl)
        have h2 := (prepare_req h hok).1 x s (by rw [hi]; exact List.mem_singleton.2 rfl)
        rw [hi] at h2
        dsimp only at h2
        refine ⟨by show last t.nextSchema < x; omega, ?_, x, Int.le_refl _, by rw [hi]; exact h2⟩
        rcases hid with ⟨_, e, _⟩ | ⟨_, _, e⟩
        · rw [e] at h2; cases h2
        · show x ≤ last t'.nextSchema
          rw [e]; exact Int.le_refl _
      · dsimp only [prepare] at h
        unfold dropSchema at h
        (repeat' split at h) <;> cases h
        cases hp
  | ids l ws hi hp _ _ _ h3 h4 hl hw =>
    rw [hp]
    cases c with
    | sch => exact ⟨List.nodup_nil, by simp [Resp.given]⟩
    | tab =>
      dsimp only [Resp.given, Temp.next, Ctr.write]
      refine ⟨by rw [hl]; exact idsAfter_nodup _ _, ?_⟩
      intro x hx
      have hx' := hx
      rw [hl, idsAfter_mem] at hx'
      refine ⟨hx'.1, by omega, last t'.nextTable, by omega, ?_⟩
      rcases hw with ⟨e, _⟩ | ⟨e, _⟩
      · rw [e] at hx; cases hx
      · rw [hi]; exact e

/-- The ids of the request with this number. -/
def idsOf (c : Ctr) (s : State) (i : Nat) : List Int :=
  match s.ths[i]? with
  | some th => th.plan.resp.given c
  | none => []

/-- The ids that may still be given out. -/
def owed (c : Ctr) (s : State) : List Int :=
  s.log.flatMap (fun x => idsOf c s x.1) ++ (s.ths.filter (Th.open s)).flatMap (fun th => th.plan.resp.given c)

structure IdInv (c : Ctr) (s : State) (iss : List Int) : Prop extends Base s where
  nodup : (iss ++ owed c s).Nodup
  below : ∀ x ∈ iss, x ≤ s.data.next c
  due : ∀ n, s.leader = some n → s.fresh = false → ∀ x ∈ owed c s, x ≤ (s.temps n).next c
  ask : ∀ th ∈ s.ths, ∀ x ∈ th.plan.resp.given c, ∃ v, x ≤ v ∧ c.write v ∈ th.plan.incr.ids

theorem Base.next {s : State} (h : Base s) (c : Ctr) {n : Nat} (hl : s.leader = some n) (hf : s.fresh = false) :
    s.data.next c ≤ (s.temps n).next c := by
  cases c
  · exact (h.tnext n hl hf).1
  · exact (h.snext n hl hf).1

theorem given_of_modify {c : Ctr} {l : List Th} {i j : Nat} {pc : Pc} :
    (match (l.modify i (fun th => { th with pc := pc }))[j]? with
      | some th => th.plan.resp.given c
      | none => []) = (match l[j]? with
      | some th => th.plan.resp.given c
      | none => []) := by
  rw [List.getElem?_modify]
  cases h : l[j]? with
  | none => rfl
  | some th => by_cases e : i = j <;> simp [e]

theorem idsOf_setPc (c : Ctr) (s : State) (i j : Nat) (pc : Pc) : idsOf c (setPc s i pc) j = idsOf c s j :=
  given_of_modify

theorem filter_modify_sub {α β : Type} {p : α → Bool} {f : α → α} {g : α → List β} (hg : ∀ a, g (f a) = g a)
    (hp : ∀ a, p (f a) = true → p a = true) : ∀ {l : List α} {i : Nat},
    (((l.modify i f).filter p).flatMap g).Sublist ((l.filter p).flatMap g) := by
  intro l
  induction l with
  | nil => intro i; simp
  | cons x l ih =>
    intro i
    cases i with
    | zero =>
      rw [List.modify_zero_cons, List.filter_cons, List.filter_cons]
      by_cases h : p (f x) = true
      · rw [if_pos h, if_pos (hp x h), List.flatMap_cons, List.flatMap_cons, hg]
        exact List.Sublist.refl _
      · rw [if_neg h]
        split
        · rw [List.flatMap_cons]; exact List.sublist_append_right _ _
        · exact List.Sublist.refl _
    | succ i =>
      rw [List.modify_succ_cons, List.filter_cons, List.filter_cons]
      split
      · rw [List.flatMap_cons, List.flatMap_cons]
        exact List.Sublist.append (List.Sublist.refl _) ih
      · exact ih

/-- Fewer ids may still be given out. -/
theorem IdInv.sub {c : Ctr} {s s' : State} {iss : List Int} (h : IdInv c s iss) (hb : Base s')
    (ho : (owed c s').Sublist (owed c s)) (hd : ∀ x ∈ iss, x ≤ s'.data.next c)
    (ht : ∀ n, s'.leader = some n → s'.fresh = false → s.leader = some n ∧ s.fresh = false ∧ (s.temps n).next c ≤ (s'.temps n).next c)
    (ha : ∀ th ∈ s'.ths, ∃ th' ∈ s.ths, th'.plan = th.plan) : IdInv c s' iss := by
  refine { hb with nodup := ?_, below := hd, due := ?_, ask := ?_ }
  · exact h.nodup.sublist (List.Sublist.append (List.Sublist.refl _) ho)
  · intro n hl hf x hx
    obtain ⟨a, b, c⟩ := ht n hl hf
    have := h.due n a b x (ho.subset hx)
    omega
  · intro th hth
    obtain ⟨th', h1, h2⟩ := ha th hth
    rw [← h2]; exact h.ask th' h1

theorem flatMap_same {α β : Type} {f g : α → List β} : ∀ {l : List α}, (∀ x ∈ l, f x = g x) → l.flatMap f = l.flatMap g := by
  intro l
  induction l with
  | nil => intro _; rfl
  | cons a l ih =>
    intro h
    rw [List.flatMap_cons, List.flatMap_cons, h a List.mem_cons_self, ih (fun x hx => h x (List.mem_cons_of_mem _ hx))]

theorem sub_of_eq {α : Type} {a b : List α} (h : a = b) : a.Sublist b := h ▸ List.Sublist.refl _

theorem owed_setPc {c : Ctr} {s : State} {i : Nat} {pc : Pc} (hpc : pc ≠ .ready) :
    (owed c (setPc s i pc)).Sublist (owed c s) := by
  unfold owed
  refine List.Sublist.append ?_ ?_
  · rw [show (setPc s i pc).log = s.log from rfl, show (fun x : Nat × Incr => idsOf c (setPc s i pc) x.1) = fun x => idsOf c s x.1 by
      funext x; exact idsOf_setPc c s i x.1 pc]
    exact List.Sublist.refl _
  · refine filter_modify_sub (p := Th.open s) (f := fun th => { th with pc := pc }) (g := fun th => th.plan.resp.given c) (fun _ => rfl) ?_
    intro a ha
    unfold Th.open at ha
    simp [hpc] at ha

theorem modify_plan {l : List Th} {i : Nat} {pc : Pc} : ∀ th ∈ l.modify i (fun th => { th with pc := pc }),
    ∃ th' ∈ l, th'.plan = th.plan := by
  intro th hth
  obtain ⟨j, hj⟩ := List.mem_iff_getElem?.1 hth
  rw [List.getElem?_modify] at hj
  obtain ⟨a, ha, e⟩ := Option.map_eq_some_iff.1 hj
  refine ⟨a, List.mem_of_getElem? ha, ?_⟩
  rw [← e]
  split <;> rfl

theorem pending_of_next {t : Temp} {c : Ctr} {t' : Temp} (h : Still t t') : t'.next c = t.next c := by
  cases c <;> dsimp only [Temp.next]
  · rw [h.nextTable]
  · rw [h.nextSchema]

theorem IdInv.begin {c : Ctr} {s : State} {r : Req} {iss : List Int} (h : IdInv c s iss) (hf : s.fresh = false)
    (hr : c = .sch → ∀ tn n j, r = .createSchema tn n j → j ≤ 0) : IdInv c (stepBegin s r).1 iss := by
  rcases begin_cases s r with ⟨_, e⟩ | ⟨n, t, er, hl, hp, e⟩ | ⟨n, t, p, hl, hp, e⟩
  · rw [e]; exact h
  · rw [e]
    have hre := (prepare_refused hp).1
    have hle : (s.temps n).next c ≤ t.next c := by
      cases c
      · exact hre.nextTable
      · exact hre.nextSchema
    refine h.sub (h.toBase.refused hl hp) (List.Sublist.refl _) h.below ?_ (fun th hth => ⟨th, hth, rfl⟩)
    intro m (hm : s.leader = some m) hf
    have e : m = n := Option.some.inj (hm.symm.trans hl)
    subst e
    rw [setTemp_self]
    exact ⟨hm, hf, hle⟩
  · rw [e]
    obtain ⟨g1, g2⟩ := prepare_given hp hr
    obtain ⟨n1, n2, _, _⟩ := (prepare_shape hp).next
    have hle : (s.temps n).next c ≤ t.next c := by
      cases c
      · exact n1
      · exact n2
    have eo : owed c (setTemp { s with ths := s.ths ++ [⟨n, s.term, r, p, .ready⟩] } n t) = owed c s ++ p.resp.given c := by
      unfold owed
      dsimp only [setTemp]
      have e0 : (s.ths ++ [(⟨n, s.term, r, p, .ready⟩ : Th)]).filter (Th.open s) = s.ths.filter (Th.open s) ++ [(⟨n, s.term, r, p, .ready⟩ : Th)] := by
        rw [List.filter_append]
        congr 1
        rw [List.filter_cons_of_pos]
        · rfl
        · unfold Th.open; simp [hl]
      refine (congrArg (fun l => List.flatMap (fun x : Nat × Incr => idsOf c (setTemp { s with ths := s.ths ++ [⟨n, s.term, r, p, .ready⟩] } n t) x.1) s.log
        ++ List.flatMap (fun th : Th => Resp.given c th.plan.resp) l) e0).trans ?_
      rw [List.flatMap_append, ← List.append_assoc]
      congr 1
      · congr 1
        refine flatMap_same ?_
        intro x hx
        obtain ⟨th, h1, _⟩ := h.log x hx
        unfold idsOf setTemp
        dsimp only
        rw [List.getElem?_append_left (List.getElem?_eq_some_iff.1 h1).1]
      · simp
    refine { h.toBase.taken hf hl hp with nodup := ?_, below := h.below, due := ?_, ask := ?_ }
    · rw [eo, ← List.append_assoc]
      refine List.nodup_append.2 ⟨h.nodup, g1, ?_⟩
      intro a ha b hb e
      have h1 := (g2 b hb).1
      have h2 : a ≤ (s.temps n).next c := by
        rcases List.mem_append.1 ha with ha | ha
        · have := h.below a ha
          have := h.toBase.next c hl hf
          omega
        · exact h.due n hl hf a ha
      omega
    · intro m (hm : s.leader = some m) _
      have e : m = n := Option.some.inj (hm.symm.trans hl)
      subst e
      rw [eo, setTemp_self]
      intro x hx
      rcases List.mem_append.1 hx with hx | hx
      · have := h.due m hl hf x hx; omega
      · exact (g2 x hx).2.1
    · intro th hth
      rcases List.mem_append.1 hth with hth | hth
      · exact h.ask th hth
      · rw [List.mem_singleton.1 hth]
        intro x hx
        exact (g2 x hx).2.2

theorem IdInv.submit {c : Ctr} {s : State} {i : Nat} {iss : List Int} (h : IdInv c s iss)
    (hok : okTerm s (.submit i) = true) : IdInv c (stepSubmit s i).1 iss := by
  have hb := h.toBase.submit hok
  unfold stepSubmit at *
  cases hi : s.ths[i]? with
  | none => exact h
  | some th =>
    rw [hi] at hb
    dsimp only at hb ⊢
    by_cases cc : th.pc = .ready ∧ s.leader = some th.node
    · rw [if_pos cc] at hb ⊢
      have ht : th.term = s.term := by
        dsimp only [okTerm] at hok
        rw [hi] at hok
        simpa using hok
      have ho : th.open s = true := by unfold Th.open; simp [cc.1, ht, cc.2]
      have hperm : (owed c (setPc { s with log := s.log ++ [(i, th.plan.incr)] } i .waiting)).Perm (owed c s) := by
        unfold owed
        have h1 := filter_modify_drop (p := Th.open s) (f := fun th => { th with pc := .waiting }) hi ho
          (by unfold Th.open; simp)
        rw [show (setPc { s with log := s.log ++ [(i, th.plan.incr)] } i .waiting).log = s.log ++ [(i, th.plan.incr)] from rfl,
          List.flatMap_append, List.append_assoc]
        rw [show (fun x : Nat × Incr => idsOf c (setPc { s with log := s.log ++ [(i, th.plan.incr)] } i .waiting) x.1) = fun x => idsOf c s x.1 by
          funext x; exact given_of_modify]
        refine List.Perm.append_left _ ?_
        have h2 := h1.flatMap_right (fun th => th.plan.resp.given c)
        rw [List.flatMap_cons] at h2
        refine List.Perm.trans ?_ h2.symm
        have : [(i, th.plan.incr)].flatMap (fun x => idsOf c s x.1) = th.plan.resp.given c := by
          simp [idsOf, hi]
        rw [this]
        exact .refl _
      refine { hb with nodup := ?_, below := h.below, due := ?_, ask := ?_ }
      · exact (List.Perm.append_left _ hperm.symm).nodup h.nodup
      · intro n hl hf x hx
        exact h.due n hl hf x (hperm.mem_iff.1 hx)
      · intro th' hth'
        obtain ⟨a, h1, h2⟩ := modify_plan th' hth'
        rw [← h2]; exact h.ask a h1
    · rw [if_neg cc]; exact h

theorem IdInv.fail {c : Ctr} {s : State} {i : Nat} {iss : List Int} (h : IdInv c s iss) :
    IdInv c (stepFail s i).1 iss := by
  have hb := h.toBase.fail (i := i)
  unfold stepFail at *
  cases hi : s.ths[i]? with
  | none => exact h
  | some th =>
    rw [hi] at hb
    dsimp only at hb ⊢
    split
    · rename_i cc
      rw [if_pos cc] at hb
      refine h.sub hb (owed_setPc (s := setTemp s th.node (free (s.temps th.node) th.plan.back)) nofun) h.below ?_ modify_plan
      intro n (hl : s.leader = some n) hf
      refine ⟨hl, hf, ?_⟩
      show _ ≤ Temp.next (if n = th.node then free (s.temps th.node) th.plan.back else s.temps n) c
      split
      · rename_i e
        rw [e, pending_of_next (free_still _ _)]; exact Int.le_refl _
      · exact Int.le_refl _
    · exact h

theorem execAll_ctr {d d' : Data} {ws : List Write} (h : execAll d ws = some d') (c : Ctr) :
    d.next c ≤ d'.next c ∧ ∀ v, c.write v ∈ ws → v ≤ d'.next c := by
  obtain ⟨a1, a2, a3, a4, _⟩ := execAll_next h
  cases c
  · exact ⟨a1, a3⟩
  · exact ⟨a2, a4⟩

theorem Incr.ids_writes {i : Incr} {w : Write} (h : w ∈ i.ids) : w ∈ i.writes := List.mem_append_right _ h

theorem IdInv.apply {c : Ctr} {s : State} {iss : List Int} (h : IdInv c s iss) :
    IdInv c (stepApply s).1 (iss ++ match (stepApply s).2 with
      | .replied _ r => r.given c
      | _ => []) := by
  have hb := h.toBase.apply
  rcases h.toBase.apply_cases with ⟨_, e⟩ | ⟨i, inc, rest, hl, ha, e⟩ | ⟨i, inc, rest, d, th, hl, ha, hi, hinc, ho, hc⟩
  · rw [e]; simp only [List.append_nil]; exact h
  · rw [e] at hb ⊢
    simp only [List.append_nil]
    exact { hb with nodup := h.nodup, below := h.below, due := h.due, ask := h.ask }
  · obtain ⟨a1, a2⟩ := execAll_ctr ha c
    have eo : owed c s = th.plan.resp.given c ++ owed c { s with data := d, log := rest } := by
      unfold owed
      rw [hl, List.flatMap_cons, List.append_assoc]
      congr 1
      unfold idsOf
      rw [hi]
    have hbelow : ∀ x ∈ th.plan.resp.given c, x ≤ d.next c := by
      intro x hx
      obtain ⟨v, h1, h2⟩ := h.ask th (List.mem_of_getElem? hi) x hx
      have := a2 v (hinc ▸ Incr.ids_writes h2)
      omega
    have hn := h.nodup
    rw [eo, ← List.append_assoc] at hn
    rcases hc with ⟨_, e⟩ | ⟨_, e⟩
    · rw [e] at hb ⊢
      dsimp only
      have hsub := owed_setPc (c := c) (s := { s with data := d, log := rest }) (i := i) (pc := .done) nofun
      refine { hb with nodup := hn.sublist (List.Sublist.append (List.Sublist.refl _) hsub), below := ?_, due := ?_, ask := ?_ }
      · intro x hx
        show x ≤ d.next c
        rcases List.mem_append.1 hx with hx | hx
        · have := h.below x hx; omega
        · exact hbelow x hx
      · intro n hl hf x hx
        exact h.due n hl hf x (by rw [eo]; exact List.mem_append_right _ (hsub.subset hx))
      · intro th' hth'
        obtain ⟨a, h1, h2⟩ := modify_plan th' hth'
        rw [← h2]; exact h.ask a h1
    · rw [e] at hb ⊢
      simp only [List.append_nil]
      refine h.sub hb ?_ ?_ (fun n hl hf => ⟨hl, hf, Int.le_refl _⟩) (fun th hth => ⟨th, hth, rfl⟩)
      · rw [eo]; exact List.sublist_append_right _ _
      · intro x hx
        show x ≤ d.next c
        have := h.below x hx
        omega

theorem owed_noleader {c : Ctr} {s : State} (h : s.leader = none) : owed c s = s.log.flatMap (fun x => idsOf c s x.1) := by
  unfold owed
  rw [List.filter_eq_nil_iff.2]
  · simp
  · intro th _
    rw [open_noleader h]; simp

theorem IdInv.down {c : Ctr} {s : State} {iss : List Int} (h : IdInv c s iss) :
    IdInv c { s with leader := none, fresh := false } iss := by
  refine h.sub h.toBase.down ?_ h.below nofun (fun th hth => ⟨th, hth, rfl⟩)
  rw [owed_noleader (s := { s with leader := none, fresh := false }) rfl]
  exact List.sublist_append_left _ _

theorem IdInv.elect {c : Ctr} {s : State} {n : Nat} {iss : List Int} (h : IdInv c s iss) (hl : s.log = []) :
    IdInv c { s with leader := some n, term := s.term + 1, fresh := true } iss := by
  refine h.sub (h.toBase.elect hl) ?_ h.below nofun (fun th hth => ⟨th, hth, rfl⟩)
  have : owed c { s with leader := some n, term := s.term + 1, fresh := true } = [] := by
    unfold owed
    dsimp only
    rw [hl, List.filter_eq_nil_iff.2]
    · rfl
    · intro th hth
      have := h.terms th hth
      unfold Th.open
      simp only [Bool.and_eq_true, decide_eq_true_eq]
      intro h1
      omega
  rw [this]; exact List.nil_sublist _

theorem IdInv.build {c : Ctr} {s : State} {n : Nat} {iss : List Int} (h : IdInv c s iss) (hl : s.leader = some n)
    (hf : s.fresh = true) : IdInv c { setTemp s n (build s.data) with fresh := false } iss := by
  have ho : owed c s = [] := by
    unfold owed
    rw [(h.fresh hf).1, List.filter_eq_nil_iff.2]
    · rfl
    · intro th hth
      rw [(h.fresh hf).2 th hth]; simp
  refine { h.toBase.build hl hf with nodup := h.nodup, below := h.below, due := ?_, ask := h.ask }
  intro m _ _ x hx
  have hx : x ∈ owed c s := hx
  rw [ho] at hx; cases hx

theorem idsOf_kill (c : Ctr) (s : State) (n : Nat) (j : Nat) :
    idsOf c (setTemp { s with ths := s.ths.map (fun th => if th.node = n then { th with pc := .done } else th) } n Temp.empty) j
      = idsOf c s j := by
  unfold idsOf setTemp
  dsimp only
  rw [List.getElem?_map]
  cases s.ths[j]? with
  | none => rfl
  | some th => by_cases e : th.node = n <;> simp [e]

theorem kill_plan {l : List Th} {n : Nat} : ∀ th ∈ l.map (fun th => if th.node = n then { th with pc := .done } else th),
    ∃ th' ∈ l, th'.plan = th.plan := by
  intro th hth
  obtain ⟨a, ha, e⟩ := List.mem_map.1 hth
  refine ⟨a, ha, ?_⟩
  rw [← e]
  split <;> rfl

theorem IdInv.restart {c : Ctr} {s : State} {n : Nat} {iss : List Int} (h : IdInv c s iss) (hd : s.dead = false) :
    IdInv c (step s (.restart n)).1 iss := by
  have hb := h.toBase.restart (n := n) hd
  have hids : (fun x : Nat × Incr => idsOf c (setTemp { s with ths := s.ths.map (fun th => if th.node = n then { th with pc := .done } else th) } n Temp.empty) x.1)
      = fun x => idsOf c s x.1 := by
    funext x; exact idsOf_kill c s n x.1
  by_cases hl : s.leader = some n
  · rw [step_restart_leader hd hl] at hb ⊢
    refine h.sub hb ?_ h.below nofun kill_plan
    rw [owed_noleader rfl]
    unfold owed
    refine List.Sublist.trans ?_ (List.sublist_append_left _ _)
    exact sub_of_eq (congrArg (fun f => s.log.flatMap f) hids)
  · rw [step_restart_other hd hl] at hb ⊢
    refine h.sub hb ?_ h.below ?_ kill_plan
    · refine sub_of_eq ?_
      unfold owed
      have := map_done_filter (s := s) (n := n) (p := Th.open s) (fun th hth ho e => hl (e ▸ h.node th hth ho))
        (fun th => by unfold Th.open; simp)
      rw [hids]
      congr 1
      exact congrArg _ this
    · intro m (hm : s.leader = some m) hf
      refine ⟨hm, hf, ?_⟩
      show _ ≤ Temp.next (if m = n then Temp.empty else s.temps m) c
      rw [if_neg (fun e : m = n => hl (e ▸ hm))]
      exact Int.le_refl _

/-- The ids seen in one step. -/
def Out.given (c : Ctr) : Out → List Int
  | .replied _ r => r.given c
  | _ => []

theorem quiet_out {s : State} {e : Ev} (he : e ≠ .apply) (c : Ctr) : (step s e).2.given c = [] := by
  unfold step
  split
  · rfl
  · cases e with
    | apply => exact absurd rfl he
    | begin r =>
      rcases begin_cases s r with ⟨_, e⟩ | ⟨n, t, er, hl, hp, e⟩ | ⟨n, t, p, hl, hp, e⟩ <;>
        (dsimp only; rw [e]; rfl)
    | submit i => dsimp only; unfold stepSubmit; split; rfl; split <;> rfl
    | fail i => dsimp only; unfold stepFail; split; rfl; split <;> rfl
    | stepDown => rfl
    | elect n => dsimp only; split <;> rfl
    | build => dsimp only; split; split <;> rfl; rfl
    | restart n => rfl

theorem IdInv.step {c : Ctr} {s : State} {e : Ev} {iss : List Int} (h : IdInv c s iss) (hok : okCtr c s e = true) :
    IdInv c (step s e).1 (iss ++ (step s e).2.given c) := by
  cases hd : s.dead with
  | true => rw [step_dead hd]; simpa [Out.given] using h
  | false =>
    unfold okCtr at hok
    rw [Bool.and_eq_true] at hok
    obtain ⟨hok, hj⟩ := hok
    by_cases he : e = .apply
    · subst he
      rw [step_apply hd]
      have := h.apply
      cases ho : (stepApply s).2 <;> rw [ho] at this <;> exact this
    · rw [quiet_out he, List.append_nil]
      cases e with
      | begin r =>
        rw [step_begin hd]
        refine h.begin (by simpa [okTerm] using hok) ?_
        intro hc tn n j e
        subst hc; subst e
        simpa using hj
      | submit i => rw [step_submit hd]; exact h.submit hok
      | fail i => rw [step_fail hd]; exact h.fail
      | apply => exact absurd rfl he
      | stepDown => rw [step_down hd]; exact h.down
      | elect n =>
        rw [step_elect hd]
        split
        · rename_i c; exact h.elect c.2
        · exact h
      | build =>
        rcases step_build hd with ⟨hf, n, hl, e⟩ | ⟨_, e⟩
        · rw [e]; exact h.build hl hf
        · rw [e]; exact h
      | restart n => exact h.restart hd

theorem IdInv.init (c : Ctr) : IdInv c Verif.Meta.init [] :=
  { Base.init with nodup := List.nodup_nil, below := by simp, due := nofun, ask := by intro th h; cases h }

theorem IdInv.run {c : Ctr} {es : List Ev} : ∀ {s : State} {iss : List Int}, IdInv c s iss → okCtrRun c s es = true →
    IdInv c (run s es).1 (iss ++ (run s es).2.flatMap (Out.given c)) := by
  induction es with
  | nil => intro s iss h _; simpa [Verif.Meta.run] using h
  | cons e es ih =>
    intro s iss h hok
    rw [okCtrRun, Bool.and_eq_true] at hok
    have h1 := ih (h.step hok.1) hok.2
    have e1 : (Verif.Meta.run s (e :: es)).1 = (Verif.Meta.run (Verif.Meta.step s e).1 es).1 := rfl
    have e2 : (Verif.Meta.run s (e :: es)).2 = (Verif.Meta.step s e).2 :: (Verif.Meta.run (Verif.Meta.step s e).1 es).2 := rfl
    rw [e1, e2, List.flatMap_cons, ← List.append_assoc]
    exact h1

end Verif.Meta
