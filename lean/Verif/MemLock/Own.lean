import Verif.MemLock.Step

/-!
Who holds what, when every prewrite comes in by the store service: memory locks belong to prewrites
under way, and locks on disk are only touched for the transaction that holds them.  Leader changes
are arbitrary here.
-/

namespace Verif.MemLock

/-- Every prewrite comes in by the store service. -/
def storeEv : Ev → Bool
  | .prewrite r => r.svc = .store
  | _ => true

def storeOnly (evs : List Ev) : Bool := evs.all storeEv

/-- The prewrite has the entry locked for writing. -/
def holds (p : Pw) (e : Nat) : Prop := p.phase = .run ∧ ∃ m l, p.cur = some (e, m, l)

/-- The entry exists, and if it cannot be read some prewrite is about to release it. -/
def Waits (ps : List Pw) (es : List Entry) (e : Nat) : Prop :=
  ∃ x, es[e]? = some x ∧ (x.ready = true ∨ ∃ p ∈ ps, holds p e)

/-- The lock on disk, if any, is of the same transaction as `l0` and asks for no more than `l0`. -/
def Mine (locks : List (Key × Lock)) (k : Key) (l0 : Lock) : Prop :=
  ∀ l, lookup locks k = some l → l.ts = l0.ts ∧ l.min ≤ l0.min ∧ l.fut ≤ l0.fut

structure POwn (locks : List (Key × Lock)) (p : Pw) : Prop where
  svc : p.req.svc = .store
  todo : ∀ m ∈ p.todo, m ∈ p.req.muts
  done : p.phase = .run ∨ p.phase = .sent → ∀ d ∈ p.done,
    (∃ m ∈ p.req.muts, m.key = d.key) ∧ d.lock.ts = p.req.start ∧ d.lock.pess = false ∧
    Mine locks d.key d.lock
  cur : ∀ e m l, p.phase = .run → p.cur = some (e, m, l) →
    m ∈ p.req.muts ∧ l.ts = p.req.start ∧ l.pess = false ∧ Mine locks m.key l

structure Own (s : Sys) : Prop where
  disj : ∀ (i j : Nat) (p q : Pw), i ≠ j → s.pws[i]? = some p → s.pws[j]? = some q →
    p.phase ≠ .ended → q.phase ≠ .ended → ∀ m ∈ p.req.muts, ∀ m' ∈ q.req.muts, m.key ≠ m'.key
  pws : ∀ p ∈ s.pws, POwn s.locks p
  table : ∀ k e, (k, e) ∈ s.table → Waits s.pws s.entries e ∧
    ∃ p ∈ s.pws, p.phase ≠ .ended ∧ ∃ m ∈ p.req.muts, m.key = k
  readers : ∀ r ∈ s.readers, ∀ todo, r.phase = .checking todo → ∀ e ∈ todo,
    Waits s.pws s.entries e

theorem init_own : Own init := by
  constructor <;> simp [init]

theorem lookup_assign {α : Type} (m : List (Key × α)) (k : Key) (v : α) (k' : Key) :
    lookup (assign m k v) k' = if k' = k then some v else lookup m k' := by
  unfold lookup assign
  by_cases h : k' = k
  · subst h
    simp
  · rw [if_neg h, List.find?_cons_of_neg (by simpa using fun e => h e.symm), List.find?_filter]
    congr 1
    apply congrArg (List.find? · m)
    funext p
    by_cases hp : p.1 = k'
    · simp [hp, h]
    · simp [hp]

theorem lookup_filter {α : Type} (m : List (Key × α)) (f : Key → Bool) (k : Key) :
    lookup (m.filter (fun x => f x.1)) k = if f k then lookup m k else none := by
  unfold lookup
  rw [List.find?_filter]
  by_cases h : f k = true
  · rw [if_pos h]
    congr 1
    apply congrArg (List.find? · m)
    funext p
    by_cases hp : p.1 = k
    · simp [hp, h]
    · simp [hp]
  · rw [if_neg h]
    rw [Option.map_eq_none_iff, List.find?_eq_none]
    intro x _ hx
    simp only [beq_iff_eq, decide_eq_true_eq] at hx
    exact h (hx.2 ▸ hx.1)

theorem lookup_erase {α : Type} (m : List (Key × α)) (k k' : Key) :
    lookup (erase m k) k' = if k' = k then none else lookup m k' := by
  unfold erase
  rw [lookup_filter m (fun x => x != k) k']
  by_cases h : k' = k <;> simp [h]

theorem lookup_putLocks (locks : List (Key × Lock)) (d : List Done) (k : Key) :
    lookup (putLocks locks d) k = lookup locks k ∨
      ∃ x ∈ d, x.key = k ∧ lookup (putLocks locks d) k = some x.lock := by
  induction d generalizing locks with
  | nil => exact Or.inl rfl
  | cons a d ih =>
    rcases ih (assign locks a.key a.lock) with h | ⟨x, hx, hk, h⟩
    · rw [lookup_assign] at h
      by_cases hka : k = a.key
      · rw [if_pos hka] at h
        exact Or.inr ⟨a, List.mem_cons_self, hka.symm, h⟩
      · rw [if_neg hka] at h
        exact Or.inl h
    · exact Or.inr ⟨x, List.mem_cons_of_mem _ hx, hk, h⟩

/-- Changing the locks on disk so that no lock of a transaction with a prewrite under way on the key
becomes another's. -/
theorem POwn.locks {locks locks' : List (Key × Lock)} {p : Pw} (h : POwn locks p)
    (hl : p.phase ≠ .ended → ∀ m ∈ p.req.muts, ∀ l0, Mine locks m.key l0 →
      Mine locks' m.key l0) : POwn locks' p := by
  refine ⟨h.svc, h.todo, ?_, ?_⟩
  · intro hp d hd
    obtain ⟨⟨m, hm, hk⟩, h2, h4, h3⟩ := h.done hp d hd
    refine ⟨⟨m, hm, hk⟩, h2, h4, ?_⟩
    rw [← hk] at h3 ⊢
    refine hl ?_ m hm _ h3
    rcases hp with e | e <;> rw [e] <;> decide
  · intro e m l hp hc
    obtain ⟨h1, h2, h4, h3⟩ := h.cur e m l hp hc
    exact ⟨h1, h2, h4, hl (by rw [hp]; decide) m h1 _ h3⟩

theorem POwn.phase {locks : List (Key × Lock)} {p : Pw} (h : POwn locks p) {ph : PPhase}
    (hph : ph = .run ∨ ph = .sent → p.phase = .run) : POwn locks { p with phase := ph } := by
  refine ⟨h.svc, h.todo, ?_, ?_⟩
  · intro hp
    exact h.done (Or.inl (hph hp))
  · intro e m l hp hc
    exact h.cur e m l (hph (Or.inl hp)) hc

/-- One prewrite moves. -/
theorem setPw_own {s : Sys} (h : Own s) {i : Nat} {p p' : Pw} (hi : s.pws[i]? = some p)
    (hreq : p'.req = p.req) (hend : p'.phase ≠ .ended → p.phase ≠ .ended)
    {t' : List (Key × Nat)} {es' : List Entry} {locks' : List (Key × Lock)} {ws : List Rec}
    (hp : POwn locks' p')
    (ho : ∀ j q, j ≠ i → s.pws[j]? = some q → POwn locks' q)
    (hes : ∀ e, Waits s.pws s.entries e → Waits (s.pws.set i p') es' e)
    (ht : ∀ k e, (k, e) ∈ t' → ((k, e) ∈ s.table ∧
        (p'.phase = .ended → ∀ m ∈ p.req.muts, m.key ≠ k)) ∨
      (Waits (s.pws.set i p') es' e ∧ p'.phase ≠ .ended ∧ ∃ m ∈ p.req.muts, m.key = k)) :
    Own { s with table := t', entries := es', locks := locks', writes := ws,
                 pws := s.pws.set i p' } := by
  refine ⟨?_, ?_, ?_, ?_⟩
  · intro a b x y hab hx hy hxe hye m hm m' hm'
    rcases getElem?_set_some hx with ⟨rfl, rfl⟩ | ⟨hai, hx1⟩
    · rcases getElem?_set_some hy with ⟨rfl, rfl⟩ | ⟨hbi, hy1⟩
      · exact absurd rfl hab
      · rw [hreq] at hm
        exact h.disj a b p y hab hi hy1 (hend hxe) hye m hm m' hm'
    · rcases getElem?_set_some hy with ⟨rfl, rfl⟩ | ⟨hbi, hy1⟩
      · rw [hreq] at hm'
        exact h.disj a b x p hab hx1 hi hxe (hend hye) m hm m' hm'
      · exact h.disj a b x y hab hx1 hy1 hxe hye m hm m' hm'
  · intro q hq
    obtain ⟨j, hj⟩ := List.mem_iff_getElem?.1 hq
    rcases getElem?_set_some hj with ⟨rfl, rfl⟩ | ⟨hji, hj⟩
    · exact hp
    · exact ho j q hji hj
  · intro k e hke
    have hlt : i < s.pws.length := (List.getElem?_eq_some_iff.1 hi).1
    have hself : p' ∈ s.pws.set i p' := List.mem_iff_getElem?.2 ⟨i, by
      rw [List.getElem?_set_self hlt]⟩
    rcases ht k e hke with ⟨hke, hne⟩ | ⟨hw, hne, m, hm, hk⟩
    · obtain ⟨hw, q, hq, hqe, m, hm, hk⟩ := h.table k e hke
      refine ⟨hes e hw, ?_⟩
      obtain ⟨j, hj⟩ := List.mem_iff_getElem?.1 hq
      by_cases hji : j = i
      · subst hji
        rw [hi] at hj
        cases hj
        refine ⟨p', hself, ?_, m, by rw [hreq]; exact hm, hk⟩
        intro he
        exact hne he m hm hk
      · refine ⟨q, List.mem_iff_getElem?.2 ⟨j, ?_⟩, hqe, m, hm, hk⟩
        rw [List.getElem?_set_ne (Ne.symm hji)]
        exact hj
    · exact ⟨hw, p', hself, hne, m, by rw [hreq]; exact hm, hk⟩
  · intro r hr todo hph e he
    exact hes e (h.readers r hr todo hph e he)

/-- Entries kept, and what the moving prewrite held is kept or readable. -/
theorem waits_set {ps : List Pw} {es es' : List Entry} {i : Nat} {p p' : Pw} (hi : ps[i]? = some p)
    (hes : ∀ (e : Nat) (x : Entry), es[e]? = some x →
      ∃ y, es'[e]? = some y ∧ (x.ready = true → y.ready = true) ∧
      (holds p e → holds p' e ∨ y.ready = true)) (e : Nat)
    (h : Waits ps es e) : Waits (ps.set i p') es' e := by
  obtain ⟨x, hx, hr⟩ := h
  obtain ⟨y, hy, h1, h2⟩ := hes e x hx
  refine ⟨y, hy, ?_⟩
  have hlt : i < ps.length := (List.getElem?_eq_some_iff.1 hi).1
  rcases hr with hr | ⟨q, hq, hh⟩
  · exact Or.inl (h1 hr)
  · obtain ⟨j, hj⟩ := List.mem_iff_getElem?.1 hq
    by_cases hji : j = i
    · subst hji
      rw [hi] at hj
      cases hj
      rcases h2 hh with h3 | h3
      · exact Or.inr ⟨p', List.mem_iff_getElem?.2 ⟨j, by rw [List.getElem?_set_self hlt]⟩, h3⟩
      · exact Or.inl h3
    · exact Or.inr ⟨q, List.mem_iff_getElem?.2
        ⟨j, by rw [List.getElem?_set_ne (Ne.symm hji)]; exact hj⟩, hh⟩

theorem waits_same {ps : List Pw} {es : List Entry} {i : Nat} {p p' : Pw} (hi : ps[i]? = some p)
    (hh : ∀ e, ¬ holds p e) (e : Nat) (h : Waits ps es e) : Waits (ps.set i p') es e :=
  waits_set hi (fun e x hx => ⟨x, hx, fun h => h, fun h => absurd h (hh e)⟩) e h

/-- A prewrite that holds no entry moves, nothing else changes. -/
theorem setPw_own' {s : Sys} (h : Own s) {i : Nat} {p p' : Pw} (hi : s.pws[i]? = some p)
    (hreq : p'.req = p.req) (hend : p'.phase ≠ .ended) (hend' : p.phase ≠ .ended)
    (hp : POwn s.locks p') (hh : ∀ e, ¬ holds p e) : Own { s with pws := s.pws.set i p' } :=
  setPw_own (ws := s.writes) h hi hreq (fun _ => hend') hp
    (fun _ q _ hq => h.pws q (List.mem_of_getElem? hq))
    (waits_same hi hh) (fun _ _ hke => Or.inl ⟨hke, fun e => absurd e hend⟩)

theorem admit_go_ts {m : Mut} {start : Int} {prev : Option Lock} (h : admit m start prev = .go) :
    ∀ l, prev = some l → l.ts = start := by
  intro l hl
  subst hl
  unfold admit at h
  grind

theorem next_own {s : Sys} (h : Own s) {i : Nat} {p : Pw} {m : Mut} {rest : List Mut}
    (hi : s.pws[i]? = some p) (hph : p.phase = .run) (hcur : p.cur = none)
    (htodo : p.todo = m :: rest) : Own (next s i p m rest) := by
  have hp := h.pws p (List.mem_of_getElem? hi)
  have hm : m ∈ p.req.muts := hp.todo m (by rw [htodo]; exact List.mem_cons_self)
  have hrest : ∀ x ∈ rest, x ∈ p.req.muts := fun x hx =>
    hp.todo x (by rw [htodo]; exact List.mem_cons_of_mem _ hx)
  have hh : ∀ e, ¬ holds p e := by
    rintro e ⟨_, m, l, hc⟩
    rw [hcur] at hc
    cases hc
  have hne : p.phase ≠ .ended := by rw [hph]; decide
  unfold next
  dsimp only
  split
  · refine setPw_own' h hi (by rfl) (by simp) hne ?_ hh
    exact ⟨hp.svc, hrest, fun e => by simp at e, fun e m l e1 => by cases e1⟩
  · refine setPw_own' h hi (by rfl) hne hne ?_ hh
    refine ⟨hp.svc, hrest, hp.done, ?_⟩
    intro e m l _ hc
    rw [show p.cur = none from hcur] at hc
    cases hc
  · rename_i hgo
    have hmine : ∀ a, Mine s.locks m.key (build p.req a (lookup s.locks m.key)) := by
      intro a l hl
      refine ⟨admit_go_ts hgo l hl, ?_⟩
      rw [hl]
      simp only [build]
      refine ⟨?_, Int.le_refl _⟩
      split <;> omega
    split
    · refine setPw_own' h hi (by rfl) hne hne ?_ hh
      refine ⟨hp.svc, hrest, hp.done, ?_⟩
      intro e m l _ hc
      rw [show p.cur = none from hcur] at hc
      cases hc
    · split
      · refine setPw_own (ws := s.writes) h hi (by rfl) (fun _ => hne) ?_
          (fun _ q _ hq => h.pws q (List.mem_of_getElem? hq)) ?_ ?_
        · refine ⟨hp.svc, hrest, ?_, ?_⟩
          · intro hpp d hd
            exact hp.done hpp d (List.mem_filter.1 hd).1
          · intro e m' l _ hc
            cases hc
            exact ⟨hm, rfl, rfl, hmine _⟩
        · apply waits_set hi
          intro e x hx
          refine ⟨x, ?_, fun h => h, fun h => absurd h (hh e)⟩
          rw [List.getElem?_append_left]
          · exact hx
          · exact (List.getElem?_eq_some_iff.1 hx).1
        · intro k e hke
          rcases mem_assign.1 hke with he | ⟨hke, _⟩
          · cases he
            refine Or.inr ⟨⟨_, by rw [List.getElem?_append_right (Nat.le_refl _)]; simp; rfl,
              Or.inr ⟨_, List.mem_iff_getElem?.2
                ⟨i, List.getElem?_set_self (List.getElem?_eq_some_iff.1 hi).1⟩, hph, _, _, rfl⟩⟩,
              hne, m, hm, rfl⟩
          · exact Or.inl ⟨hke, fun e => absurd e hne⟩
      · refine setPw_own' h hi (by rfl) hne hne ?_ hh
        refine ⟨hp.svc, hrest, ?_, ?_⟩
        · intro hpp d hd
          rcases List.mem_cons.1 hd with rfl | hd
          · exact ⟨⟨m, hm, rfl⟩, rfl, rfl, hmine _⟩
          · exact hp.done hpp d (List.mem_filter.1 hd).1
        · intro e m l _ hc
          rw [show p.cur = none from hcur] at hc
          cases hc

theorem fix_own {s : Sys} (h : Own s) {i : Nat} {p : Pw} {e : Nat} {m : Mut} {l : Lock}
    (hi : s.pws[i]? = some p) (hph : p.phase = .run) (hcur : p.cur = some (e, m, l)) :
    Own (fix s i p e m l) := by
  have hp := h.pws p (List.mem_of_getElem? hi)
  obtain ⟨hm, hts, hps, hmine⟩ := hp.cur e m l hph hcur
  have hne : p.phase ≠ .ended := by rw [hph]; decide
  have hw : ∀ (x : Entry) (p' : Pw), x.ready = true → ∀ a, Waits s.pws s.entries a →
      Waits (s.pws.set i p') (s.entries.set e x) a := by
    intro x p' hx
    apply waits_set hi
    intro a y hy
    rw [List.getElem?_set]
    by_cases hae : e = a
    · subst hae
      rw [if_pos rfl, if_pos (List.getElem?_eq_some_iff.1 hy).1]
      exact ⟨x, rfl, fun _ => hx, fun _ => Or.inr hx⟩
    · rw [if_neg hae]
      refine ⟨y, hy, fun h => h, ?_⟩
      rintro ⟨_, m', l', hc⟩
      rw [hcur] at hc
      cases hc
      exact absurd rfl hae
  unfold fix
  dsimp only
  generalize hmc : max (s.maxTs s.leader) (max p.req.start (m.fut.getD 0)) + 1 = mc
  generalize hfin : (if p.req.max ≠ 0 ∧ mc > p.req.max then (0 : Int) else max mc l.min) = fin
  have hts' : ∀ b, (if fin > 0 then { l with min := fin } else l) = b →
      b.ts = p.req.start ∧ b.pess = false ∧ Mine s.locks m.key b := by
    intro b hb
    rw [← hb]
    split
    · rename_i hpos
      refine ⟨hts, hps, fun l' hl' => ?_⟩
      obtain ⟨h1, h2, h3⟩ := hmine l' hl'
      refine ⟨h1, ?_, h3⟩
      have hle : l.min ≤ fin := by
        rw [← hfin] at hpos ⊢
        split
        · rename_i hc; rw [if_pos hc] at hpos; omega
        · omega
      dsimp only
      omega
    · exact ⟨hts, hps, hmine⟩
  by_cases hz : fin = 0
  · rw [if_pos hz]
    refine setPw_own (ws := s.writes) h hi (by rfl) (fun _ => hne) ?_
      (fun _ q _ hq => h.pws q (List.mem_of_getElem? hq)) (hw _ _ rfl)
      (fun k e hke => Or.inl ⟨hke, fun e => absurd e hne⟩)
    refine ⟨hp.svc, hp.todo, ?_, fun e m l _ hc => by cases hc⟩
    intro hpp d hd
    rcases List.mem_cons.1 hd with rfl | hd
    · have := hts' _ rfl
      exact ⟨⟨m, hm, rfl⟩, this⟩
    · exact hp.done hpp d hd
  · rw [if_neg hz]
    refine setPw_own (ws := s.writes) h hi (by rfl) (fun _ => hne) ?_
      (fun _ q _ hq => h.pws q (List.mem_of_getElem? hq)) (hw _ _ rfl)
      (fun k e hke => Or.inl ⟨hke, fun e => absurd e hne⟩)
    refine ⟨hp.svc, hp.todo, ?_, fun e m l _ hc => by cases hc⟩
    intro hpp d hd
    rcases List.mem_cons.1 hd with rfl | hd
    · exact ⟨⟨m, hm, rfl⟩, hts' _ rfl⟩
    · exact hp.done hpp d hd

theorem onePcLocks_lookup (locks : List (Key × Lock)) (p : Pw) (k : Key) :
    lookup (onePcLocks locks p) k =
      if p.done.any (fun d => d.pess && d.key == k) then none else lookup locks k := by
  unfold onePcLocks
  rw [lookup_filter locks (fun x => !p.done.any (fun d => d.pess && d.key == x)) k]
  by_cases h : p.done.any (fun d => d.pess && d.key == k) = true <;> simp [h]

theorem apply_own {s : Sys} (h : Own s) {i : Nat} {p : Pw} (hi : s.pws[i]? = some p)
    (hph : p.phase = .sent) : Own (apply s i p) := by
  have hp := h.pws p (List.mem_of_getElem? hi)
  have hne : p.phase ≠ .ended := by rw [hph]; decide
  have hh : ∀ e, ¬ holds p e := by
    rintro e ⟨hr, _⟩
    rw [hph] at hr
    cases hr
  unfold apply
  dsimp only
  split
  · refine setPw_own h hi (by rfl) (fun _ => hne) ?_ ?_ (waits_same hi hh)
      (fun k e hke => Or.inl ⟨hke, fun e => by cases e⟩)
    · exact ⟨hp.svc, hp.todo, fun e => by simp at e, fun e m l e1 => by cases e1⟩
    · intro j q hji hq
      refine (h.pws q (List.mem_of_getElem? hq)).locks ?_
      intro _ m _ _ hmn l hl
      rw [onePcLocks_lookup] at hl
      split at hl
      · cases hl
      · exact hmn l hl
  · refine setPw_own (ws := s.writes) h hi (by rfl) (fun _ => hne) ?_ ?_ (waits_same hi hh)
      (fun k e hke => Or.inl ⟨hke, fun e => by cases e⟩)
    · exact ⟨hp.svc, hp.todo, fun e => by simp at e, fun e m l e1 => by cases e1⟩
    · intro j q hji hq
      refine (h.pws q (List.mem_of_getElem? hq)).locks ?_
      intro hqe m hm _ hmn l hl
      rcases lookup_putLocks s.locks p.done m.key with h1 | ⟨d, hd, hk, h1⟩
      · exact hmn l (h1.symm.trans hl)
      · exfalso
        obtain ⟨⟨m', hm', hk'⟩, _, _⟩ := hp.done (Or.inr hph) d hd
        exact h.disj i j p q (Ne.symm hji) hi hq hne hqe m' hm' m hm (hk'.trans hk)

theorem finish_own {s : Sys} (h : Own s) {i : Nat} {p : Pw} (hi : s.pws[i]? = some p)
    (hph : p.phase = .applied ∨ p.phase = .failed) : Own (finish s i p) := by
  have hp := h.pws p (List.mem_of_getElem? hi)
  have hne : p.phase ≠ .ended := by rcases hph with e | e <;> rw [e] <;> decide
  have hh : ∀ e, ¬ holds p e := by
    rintro e ⟨hr, _⟩
    rcases hph with e | e <;> rw [e] at hr <;> cases hr
  unfold finish
  rw [hp.svc]
  dsimp only [unlockKeys]
  refine setPw_own (ws := s.writes) h hi (by rfl) (fun e => absurd rfl e) ?_
    (fun _ q _ hq => h.pws q (List.mem_of_getElem? hq)) ?_ ?_
  · exact ⟨hp.svc, hp.todo, fun e => by simp at e, fun e m l e1 => by cases e1⟩
  · apply waits_set hi
    intro a x hx
    rw [List.getElem?_mapIdx, hx]
    refine ⟨_, rfl, ?_, fun h => absurd h (hh a)⟩
    intro hr
    split <;> exact hr
  · intro k e hke
    obtain ⟨hke, hk⟩ := List.mem_filter.1 hke
    refine Or.inl ⟨hke, ?_⟩
    intro _ m hm hmk
    have : (p.req.muts.map Mut.key).contains k = true :=
      List.contains_iff_mem.2 (List.mem_map.2 ⟨m, hm, hmk⟩)
    rw [this] at hk
    cases hk

theorem pwStep_own {s : Sys} (h : Own s) {i : Nat} {p : Pw} (hi : s.pws[i]? = some p) (ev : Ev) :
    Own (pwStep s i p ev) := by
  have hp := h.pws p (List.mem_of_getElem? hi)
  unfold pwStep
  split
  · split
    · rename_i h1 h2 h3
      exact next_own h hi h1 h2 h3
    · exact h
  · split
    · rename_i h1 h2
      exact fix_own h hi h1 h2
    · exact h
  · split
    · rename_i h1 h2 h3
      refine setPw_own' h hi (by rfl) (by simp) (by rw [h1]; decide) (hp.phase (fun _ => h1)) ?_
      rintro e ⟨_, m, l, hc⟩
      rw [h2] at hc
      cases hc
    · exact h
  · split
    · rename_i h1
      exact apply_own h hi h1
    · exact h
  · split
    · rename_i h1
      refine setPw_own' h hi (by rfl) (by simp) (by rw [h1]; decide) (hp.phase (by simp)) ?_
      rintro e ⟨hr, _⟩
      rw [h1] at hr
      cases hr
    · exact h
  · split
    · rename_i h1 h2
      refine setPw_own' h hi (by rfl) (by simp) (by rw [h1]; decide) (hp.phase (by simp)) ?_
      rintro e ⟨_, m, l, hc⟩
      rw [h2] at hc
      cases hc
    · exact h
  · split
    · rename_i h1
      exact finish_own h hi (Or.inl h1)
    · rename_i h1
      exact finish_own h hi (Or.inr h1)
    · exact h
  · exact h

theorem setPhase_own {s : Sys} (h : Own s) {i : Nat} {r : Reader} {ph : RPhase}
    (hph : ∀ todo, ph = .checking todo → ∀ e ∈ todo, Waits s.pws s.entries e) :
    Own (setPhase s i r ph) := by
  refine ⟨h.disj, h.pws, h.table, ?_⟩
  intro x hx todo hxp e he
  rcases mem_set hx with hx | rfl
  · exact h.readers x hx todo hxp e he
  · exact hph todo hxp e he

theorem readerStep_own {s : Sys} (h : Own s) {i : Nat} {r : Reader} (hi : s.readers[i]? = some r)
    (ev : Ev) : Own (readerStep s i r ev) := by
  have hm : r ∈ s.readers := List.mem_of_getElem? hi
  unfold readerStep
  split
  · split
    · exact setPhase_own (s := { s with maxTs := raiseMax s.maxTs s.leader r.ts })
        ⟨h.disj, h.pws, h.table, h.readers⟩ (fun _ e => by cases e)
    · exact h
  · split
    · refine setPhase_own h ?_
      intro todo e a ha
      cases e
      obtain ⟨⟨k, b⟩, hk, rfl⟩ := List.mem_map.1 ha
      exact (h.table k b (List.mem_filter.1 hk).1).1
    · exact h
  · split
    · rename_i e rest hph
      have hrest : ∀ a ∈ rest, Waits s.pws s.entries a := fun a ha =>
        h.readers r hm _ hph a (List.mem_cons_of_mem _ ha)
      split
      · exact h
      · split
        · exact setPhase_own h (fun todo e => by cases e; exact hrest)
        · split
          · exact h
          · split
            · exact setPhase_own h (fun _ e => by cases e)
            · exact setPhase_own h (fun todo e => by cases e; exact hrest)
    · exact h
  · split
    · split
      · exact setPhase_own h (fun _ e => by cases e)
      · exact setPhase_own h (fun _ e => by cases e)
    · exact h
  · split
    · exact h
    · exact h
    · exact setPhase_own h (fun _ e => by cases e)
  · exact h

/-- A key whose latch is free has no prewrite under way. -/
theorem free_key {s : Sys} (h : Own s) {k : Key} (hf : free s [(false, k)] = true) {q : Pw}
    (hq : q ∈ s.pws) (hqe : q.phase ≠ .ended) : ∀ m ∈ q.req.muts, m.key ≠ k := by
  intro m hm hk
  have h1 := List.all_eq_true.1 hf q hq
  simp only [Bool.or_eq_true, decide_eq_true_eq] at h1
  rcases h1 with h1 | h1
  · exact hqe h1
  · have h2 := List.all_eq_true.1 h1 (latchOf q.req.svc m) (List.mem_map.2 ⟨m, hm, rfl⟩)
    rw [(h.pws q hq).svc] at h2
    simp [latchOf, hk] at h2

theorem free_req {s : Sys} (h : Own s) {r : Req} (hr : r.svc = .store)
    (hf : free s (latches r) = true) {q : Pw} (hq : q ∈ s.pws) (hqe : q.phase ≠ .ended) :
    ∀ m ∈ r.muts, ∀ m' ∈ q.req.muts, m.key ≠ m'.key := by
  intro m hm m' hm' hk
  have h1 := List.all_eq_true.1 hf q hq
  simp only [Bool.or_eq_true, decide_eq_true_eq] at h1
  rcases h1 with h1 | h1
  · exact hqe h1
  · have h2 := List.all_eq_true.1 h1 (latchOf q.req.svc m') (List.mem_map.2 ⟨m', hm', rfl⟩)
    have h3 : latchOf q.req.svc m' ∈ latches r := by
      refine List.mem_map.2 ⟨m, hm, ?_⟩
      rw [hr, (h.pws q hq).svc]
      simp [latchOf, hk]
    have h4 := List.contains_iff_mem.2 h3
    rw [h4] at h2
    cases h2

theorem locks_own {s : Sys} (h : Own s) {locks' : List (Key × Lock)} {ws : List Rec}
    (hl : ∀ p ∈ s.pws, p.phase ≠ .ended → ∀ m ∈ p.req.muts, ∀ l0, Mine s.locks m.key l0 →
      Mine locks' m.key l0) : Own { s with locks := locks', writes := ws } :=
  ⟨h.disj, fun p hp => (h.pws p hp).locks (hl p hp), h.table, h.readers⟩

theorem waits_append {ps : List Pw} {es : List Entry} {p : Pw} {e : Nat} (h : Waits ps es e) :
    Waits (ps ++ [p]) es e := by
  obtain ⟨x, hx, hr⟩ := h
  refine ⟨x, hx, ?_⟩
  rcases hr with hr | ⟨q, hq, hh⟩
  · exact Or.inl hr
  · exact Or.inr ⟨q, List.mem_append_left _ hq, hh⟩

theorem step_own {s : Sys} (h : Own s) {ev : Ev} (hok : storeEv ev = true) : Own (step s ev) := by
  unfold step
  split
  · exact ⟨h.disj, h.pws, h.table, h.readers⟩
  · refine ⟨h.disj, h.pws, h.table, ?_⟩
    intro x hx todo hxp
    rcases List.mem_append.1 hx with hx | hx
    · exact h.readers x hx todo hxp
    · rw [List.mem_singleton.1 hx] at hxp; cases hxp
  iterate 5
    split
    · exact h
    · rename_i r hr
      exact readerStep_own h hr _
  · split
    · rename_i r hc
      have ho1 : r.svc = .store := by simpa [storeEv] using hok
      refine ⟨?_, ?_, ?_, ?_⟩
      · intro a b x y hab hx hy hxe hye m hm m' hm'
        rw [List.getElem?_append] at hx hy
        split at hx
        · split at hy
          · exact h.disj a b x y hab hx hy hxe hye m hm m' hm'
          · have hy' := List.mem_of_getElem? hy
            rw [List.mem_singleton.1 hy'] at hm'
            exact fun e => free_req h ho1 hc.2 (List.mem_of_getElem? hx) hxe m' hm' m hm e.symm
        · have hx' := List.mem_of_getElem? hx
          rw [List.mem_singleton.1 hx'] at hm
          split at hy
          · exact free_req h ho1 hc.2 (List.mem_of_getElem? hy) hye m hm m' hm'
          · have h1 := (List.getElem?_eq_some_iff.1 hx).1
            have h2 := (List.getElem?_eq_some_iff.1 hy).1
            simp only [List.length_singleton] at h1 h2
            exact absurd (by omega) hab
      · intro p hp
        rcases List.mem_append.1 hp with hp | hp
        · exact h.pws p hp
        · rw [List.mem_singleton.1 hp]
          refine ⟨ho1, fun m hm => hm, ?_, ?_⟩
          · intro _ d hd; cases hd
          · intro e m l _ hcc; cases hcc
      · intro k e hke
        obtain ⟨h1, q, hq, h2⟩ := h.table k e hke
        exact ⟨waits_append h1, q, List.mem_append_left _ hq, h2⟩
      · intro x hx todo hxp e he
        exact waits_append (h.readers x hx todo hxp e he)
    · exact h
  iterate 7
    split
    · exact h
    · rename_i p hp
      exact pwStep_own h hp _
  · rename_i k start fut
    split
    · rename_i hf
      have hk : ∀ l, Own { s with locks := assign s.locks k l } := by
        intro l
        refine locks_own (ws := s.writes) h ?_
        intro p hp hpe m hm _ hmn l' hl'
        rw [lookup_assign, if_neg (free_key h hf hp hpe m hm)] at hl'
        exact hmn l' hl'
      split
      · exact hk _
      · split
        · exact hk _
        · exact h
    · exact h
  · split
    · exact h
    · split
      · refine locks_own h ?_
        intro p hp hpe m hm _ hmn l' hl'
        rw [lookup_erase] at hl'
        split at hl'
        · cases hl'
        · exact hmn l' hl'
      · exact h
  · split
    · exact h
    · split
      · refine locks_own (ws := s.writes) h ?_
        intro p hp hpe m hm _ hmn l' hl'
        rw [lookup_erase] at hl'
        split at hl'
        · cases hl'
        · exact hmn l' hl'
      · exact h
  · split
    · rename_i hf
      have hI : ∀ LL t, (∀ p ∈ s.pws, p.phase ≠ .ended → ∀ m ∈ p.req.muts, ∀ l0,
          Mine s.locks m.key l0 → Mine LL m.key l0) →
          Own { s with maxTs := raiseMax s.maxTs s.leader t, locks := LL } := fun LL t hLL =>
        have h' := locks_own (ws := s.writes) h hLL
        ⟨h'.disj, h'.pws, h'.table, h'.readers⟩
      refine hI _ _ ?_
      intro p hp hpe m hm _ hmn l' hl'
      split at hl'
      · exact hmn l' hl'
      · split at hl'
        · rw [lookup_assign, if_neg (free_key h hf hp hpe m hm)] at hl'
          exact hmn l' hl'
        · exact hmn l' hl'
    · exact h
  · refine ⟨?_, ?_, ?_, ?_⟩
    · intro a b x y hab hx hy hxe
      rw [List.getElem?_map] at hx
      obtain ⟨x0, _, rfl⟩ := Option.map_eq_some_iff.1 hx
      exact absurd rfl hxe
    · intro p hp
      obtain ⟨q, hq, rfl⟩ := List.mem_map.1 hp
      have hqo := h.pws q hq
      exact ⟨hqo.svc, hqo.todo, (fun e => by simp at e), (fun e m l e1 => by cases e1)⟩
    · intro k e hke; cases hke
    · intro r hr todo hrp
      obtain ⟨x, hx, he⟩ := List.mem_map.1 hr
      exfalso
      subst he
      unfold endReader at hrp
      split at hrp
      · rename_i hp; rw [hp] at hrp; cases hrp
      · rename_i hp; rw [hp] at hrp; cases hrp
      · cases hrp
  · exact ⟨h.disj, h.pws, h.table, h.readers⟩
  · refine ⟨?_, ?_, ?_, ?_⟩
    · intro a b x y hab hx hy hxe
      rw [List.getElem?_map] at hx
      obtain ⟨x0, _, rfl⟩ := Option.map_eq_some_iff.1 hx
      exact absurd rfl hxe
    · intro p hp
      obtain ⟨q, hq, rfl⟩ := List.mem_map.1 hp
      have hqo := h.pws q hq
      exact ⟨hqo.svc, hqo.todo, (fun e => by simp at e), (fun e m l e1 => by cases e1)⟩
    · intro k e hke; cases hke
    · intro r hr todo hrp e he
      obtain ⟨x, hx, hxr⟩ := List.mem_map.1 hr
      exfalso
      subst hxr
      cases hp : x.phase <;> simp [moveReader, hp] at hrp
      subst hrp
      cases he

theorem run_own {s : Sys} (h : Own s) {evs : List Ev} (hok : storeOnly evs = true) :
    Own (run s evs) := by
  induction evs generalizing s with
  | nil => exact h
  | cons e es ih =>
    simp only [storeOnly, List.all_cons, Bool.and_eq_true] at hok
    exact ih (step_own h hok.1) hok.2

end Verif.MemLock
