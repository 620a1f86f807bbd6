import Verif.MemLock.Seen

/-!
What a prewrite has gathered when it is sent: every mutation once, one timestamp above all that was
asked for.  For every run, whatever service requests come in by.
-/

namespace Verif.MemLock

/-- What one event makes of a prewrite. -/
inductive Moved (s : Sys) (p : Pw) : Pw → Prop
  | phase (ph : PPhase) (h : ph ≠ .run) (hs : ph = .sent → p.phase = .run ∧ p.cur = none ∧ p.todo = []) :
      Moved s p { p with phase := ph }
  | again (m : Mut) (rest : List Mut) (ph : p.phase = .run) (hc : p.cur = none)
      (ht : p.todo = m :: rest) :
      Moved s p { p with todo := rest, onePc := false, async := false }
  | fail (m : Mut) (rest : List Mut) (ph : p.phase = .run) (hc : p.cur = none)
      (ht : p.todo = m :: rest) :
      Moved s p { p with todo := rest, phase := .failed }
  | check (m : Mut) (rest : List Mut) (ph : p.phase = .run) (hc : p.cur = none)
      (ht : p.todo = m :: rest) (ho : m.op = .check) :
      Moved s p { p with
        todo := rest
        final := if (p.onePc || p.async) = true then
          (if p.final < p.req.start + 1 then p.req.start + 1 else p.final) else 0 }
  | take (m : Mut) (rest : List Mut) (ph : p.phase = .run) (hc : p.cur = none)
      (ht : p.todo = m :: rest) (ho : m.op ≠ .check) (e : Nat)
      (ha : admit m p.req.start (lookup s.locks m.key) = .go) :
      Moved s p { p with
        todo := rest
        done := p.done.filter (fun d => d.key != m.key)
        cur := some (e, m, build p.req p.async (lookup s.locks m.key)) }
  | plain (m : Mut) (rest : List Mut) (ph : p.phase = .run) (hc : p.cur = none)
      (ht : p.todo = m :: rest) (ho : m.op ≠ .check) (hb : (p.onePc || p.async) = false)
      (ha : admit m p.req.start (lookup s.locks m.key) = .go) :
      Moved s p { p with
        todo := rest
        final := 0
        done := ⟨m.key, build p.req p.async (lookup s.locks m.key), m.pess⟩ ::
          p.done.filter (fun d => d.key != m.key) }
  | back (e : Nat) (m : Mut) (l l' : Lock) (ph : p.phase = .run) (hc : p.cur = some (e, m, l))
      (hl : l'.pess = l.pess) :
      Moved s p { p with
        onePc := false, async := false, final := 0, cur := none
        done := ⟨m.key, { l' with async := false }, m.pess⟩ :: p.done }
  | fix (e : Nat) (m : Mut) (l : Lock) (mc fin : Int) (ph : p.phase = .run)
      (hc : p.cur = some (e, m, l)) (hmc : p.req.start < mc) (hmx : s.maxTs s.leader < mc)
      (hfin : fin = max mc l.min)
      (hmax : p.req.max ≠ 0 → mc ≤ p.req.max) :
      Moved s p { p with
        final := if p.final < fin then fin else p.final
        cur := none
        done := ⟨m.key, if fin > 0 then { l with min := fin } else l, m.pess⟩ :: p.done }

theorem next_moved {s : Sys} {i : Nat} {p : Pw} {m : Mut} {rest : List Mut} (ph : p.phase = .run)
    (hc : p.cur = none) (ht : p.todo = m :: rest) :
    ∃ p', Moved s p p' ∧ (next s i p m rest).pws = s.pws.set i p' := by
  unfold next
  dsimp only
  split
  · exact ⟨_, .fail m rest ph hc ht, rfl⟩
  · exact ⟨_, .again m rest ph hc ht, rfl⟩
  · rename_i hgo
    split
    · rename_i ho
      exact ⟨_, .check m rest ph hc ht ho, rfl⟩
    · rename_i ho
      split
      · exact ⟨_, .take m rest ph hc ht ho _ hgo, rfl⟩
      · rename_i hb
        exact ⟨_, .plain m rest ph hc ht ho (by simpa using hb) hgo, rfl⟩

theorem fix_moved {s : Sys} {i : Nat} {p : Pw} {e : Nat} {m : Mut} {l : Lock} (ph : p.phase = .run)
    (hc : p.cur = some (e, m, l)) :
    ∃ p', Moved s p p' ∧ (fix s i p e m l).pws = s.pws.set i p' := by
  unfold fix
  dsimp only
  generalize hmc : max (s.maxTs s.leader) (max p.req.start (m.fut.getD 0)) + 1 = mc
  have hlt : p.req.start < mc := by omega
  by_cases hx : p.req.max ≠ 0 ∧ mc > p.req.max
  · rw [if_pos hx, if_pos rfl]
    exact ⟨_, .back e m l _ ph hc (by split <;> rfl), rfl⟩
  · rw [if_neg hx]
    by_cases hz : max mc l.min = 0
    · rw [if_pos hz]
      exact ⟨_, .back e m l _ ph hc (by split <;> rfl), rfl⟩
    · rw [if_neg hz]
      exact ⟨_, .fix e m l mc _ ph hc hlt (by omega) rfl (fun h => by omega), rfl⟩

/-- The prewrites after an event: as before, moved, or new. -/
theorem step_pws {s : Sys} {ev : Ev} {p' : Pw} (h : p' ∈ (step s ev).pws) :
    p' ∈ s.pws ∨ (∃ p ∈ s.pws, Moved s p p') ∨
      (∃ r, ev = .prewrite r ∧ p' = ⟨r, r.muts, r.onePc, r.async, 0, [], none, .run⟩) := by
  have hset : ∀ {s' : Sys} {i : Nat} {p q : Pw}, s.pws[i]? = some p → Moved s p q →
      s'.pws = s.pws.set i q → p' ∈ s'.pws → p' ∈ s.pws ∨ (∃ p ∈ s.pws, Moved s p p') ∨
      (∃ r, ev = .prewrite r ∧ p' = ⟨r, r.muts, r.onePc, r.async, 0, [], none, .run⟩) := by
    intro s' i p q hi hm he hp
    rw [he] at hp
    rcases mem_set hp with hp | rfl
    · exact .inl hp
    · exact .inr (.inl ⟨p, List.mem_of_getElem? hi, hm⟩)
  unfold step at h
  split at h
  · exact .inl h
  · exact .inl h
  iterate 5
    split at h
    · exact .inl h
    · refine .inl ?_
      revert h
      unfold readerStep setPhase
      dsimp only
      repeat' split
      all_goals exact id
  · split at h
    · rcases List.mem_append.1 h with h | h
      · exact .inl h
      · exact .inr (.inr ⟨_, rfl, List.mem_singleton.1 h⟩)
    · exact .inl h
  · -- next
    split at h
    · exact .inl h
    · rename_i p hi
      simp only [pwStep] at h
      split at h
      · rename_i h1 h2 h3
        obtain ⟨q, hm, he⟩ := next_moved (s := s) (i := _) h1 h2 h3
        exact hset hi hm he h
      · exact .inl h
  · split at h
    · exact .inl h
    · rename_i p hi
      simp only [pwStep] at h
      split at h
      · rename_i h1 h2
        obtain ⟨q, hm, he⟩ := fix_moved (s := s) (i := _) h1 h2
        exact hset hi hm he h
      · exact .inl h
  · split at h
    · exact .inl h
    · rename_i p hi
      simp only [pwStep] at h
      split at h
      · rename_i h1 h2 h3
        exact hset hi (.phase .sent (by decide) (fun _ => ⟨h1, h2, h3⟩)) rfl h
      · exact .inl h
  · split at h
    · exact .inl h
    · rename_i p hi
      simp only [pwStep] at h
      split at h
      · refine hset hi (.phase .applied (by decide) (fun e => by cases e)) ?_ h
        unfold Verif.MemLock.apply
        dsimp only
        split <;> rfl
      · exact .inl h
  · split at h
    · exact .inl h
    · rename_i p hi
      simp only [pwStep] at h
      split at h
      · exact hset hi (.phase .failed (by decide) (fun e => by cases e)) rfl h
      · exact .inl h
  · split at h
    · exact .inl h
    · rename_i p hi
      simp only [pwStep] at h
      split at h
      · exact hset hi (.phase .failed (by decide) (fun e => by cases e)) rfl h
      · exact .inl h
  · split at h
    · exact .inl h
    · rename_i p hi
      have hf : ∀ i, (finish s i p).pws = s.pws.set i { p with phase := .ended } := by
        intro i
        unfold finish
        dsimp only
        split <;> rfl
      simp only [pwStep] at h
      split at h
      · exact hset hi (.phase .ended (by decide) (fun e => by cases e)) (hf _) h
      · exact hset hi (.phase .ended (by decide) (fun e => by cases e)) (hf _) h
      · exact .inl h
  · -- plock
    revert h
    repeat' split
    all_goals exact .inl
  · revert h
    repeat' split
    all_goals exact .inl
  · revert h
    repeat' split
    all_goals exact .inl
  · revert h
    repeat' split
    all_goals exact .inl
  · obtain ⟨p, hp, rfl⟩ := List.mem_map.1 h
    exact .inr (.inl ⟨p, hp, .phase .ended (by decide) (fun e => by cases e)⟩)
  · exact .inl h
  · obtain ⟨p, hp, rfl⟩ := List.mem_map.1 h
    exact .inr (.inl ⟨p, hp, .phase .ended (by decide) (fun e => by cases e)⟩)

/-- What a prewrite under way has gathered. -/
structure Cov (p : Pw) : Prop where
  todo : ∀ m ∈ p.todo, m ∈ p.req.muts
  done : ∀ d ∈ p.done, ∃ m ∈ p.req.muts, m.op ≠ .check ∧ m.key = d.key
  nodup : (p.done.map Done.key).Nodup
  cur : ∀ e m l, p.cur = some (e, m, l) →
    m ∈ p.req.muts ∧ m.op ≠ .check ∧ p.req.min ≤ l.min ∧ ∀ d ∈ p.done, d.key ≠ m.key
  sent : p.phase = .sent → p.cur = none ∧ p.todo = []
  all : p.phase = .run ∨ p.phase = .sent → p.onePc = true → ∀ m ∈ p.req.muts, m.op ≠ .check →
    m ∈ p.todo ∨ (∃ e m' l, p.cur = some (e, m', l) ∧ m'.key = m.key) ∨ ∃ d ∈ p.done, d.key = m.key
  fin : p.onePc = true → ∀ d ∈ p.done, p.req.start < p.final ∧ p.req.min ≤ p.final ∧
    d.lock.min ≤ p.final

theorem Cov.new (r : Req) : Cov ⟨r, r.muts, r.onePc, r.async, 0, [], none, .run⟩ where
  todo := fun _ h => h
  done := fun _ h => by cases h
  nodup := List.nodup_nil
  cur := fun _ _ _ h => by cases h
  sent := fun h => by cases h
  all := fun _ _ m hm _ => .inl hm
  fin := fun _ _ h => by cases h

theorem Cov.moved {s : Sys} {p p' : Pw} (h : Cov p) (hm : Moved s p p') : Cov p' := by
  have hnod : ∀ k, ((p.done.filter (fun d => d.key != k)).map Done.key).Nodup := fun k =>
    (List.Sublist.map _ List.filter_sublist).nodup h.nodup
  cases hm with
  | phase ph hp hs =>
    refine ⟨h.todo, h.done, h.nodup, h.cur, fun e => (hs e).2, ?_, h.fin⟩
    intro hpp ho
    refine h.all (.inl ?_) ho
    rcases hpp with e | e
    · exact absurd e hp
    · exact (hs e).1
  | again m rest ph hc ht =>
    refine ⟨fun x hx => h.todo x (by rw [ht]; exact List.mem_cons_of_mem _ hx), h.done, h.nodup, h.cur,
      (fun e => by rw [show p.phase = .run from ph] at e; cases e), (fun _ e => by cases e),
      (fun e => by cases e)⟩
  | fail m rest ph hc ht =>
    refine ⟨fun x hx => h.todo x (by rw [ht]; exact List.mem_cons_of_mem _ hx), h.done, h.nodup, h.cur,
      (fun e => by cases e), (fun e => by rcases e with e | e <;> cases e), h.fin⟩
  | check m rest ph hc ht ho =>
    refine ⟨fun x hx => h.todo x (by rw [ht]; exact List.mem_cons_of_mem _ hx), h.done, h.nodup, h.cur,
      (fun e => by rw [show p.phase = .run from ph] at e; cases e), ?_, ?_⟩
    · intro _ ho' x hx hop
      rcases h.all (.inl ph) ho' x hx hop with e | e
      · rw [ht] at e
        rcases List.mem_cons.1 e with rfl | e
        · exact absurd ho hop
        · exact .inl e
      · exact .inr e
    · intro ho' d hd
      obtain ⟨h1, h2, h3⟩ := h.fin ho' d hd
      have hb : (p.onePc || p.async) = true := by rw [show p.onePc = true from ho']; rfl
      dsimp only
      rw [if_pos hb]
      split <;> omega
  | take m rest ph hc ht ho e ha =>
    have hmem : m ∈ p.req.muts := h.todo m (by rw [ht]; exact List.mem_cons_self)
    refine ⟨fun x hx => h.todo x (by rw [ht]; exact List.mem_cons_of_mem _ hx),
      fun d hd => h.done d (List.mem_filter.1 hd).1, hnod _, ?_,
      (fun e => by rw [show p.phase = .run from ph] at e; cases e), ?_,
      fun ho' d hd => h.fin ho' d (List.mem_filter.1 hd).1⟩
    · intro e' m' l' hc'
      cases hc'
      refine ⟨hmem, ho, ?_, ?_⟩
      · simp only [build]
        split <;> omega
      · intro d hd
        simpa using (List.mem_filter.1 hd).2
    · intro _ ho' x hx hop
      by_cases hk : m.key = x.key
      · exact .inr (.inl ⟨_, _, _, rfl, hk⟩)
      · rcases h.all (.inl ph) ho' x hx hop with e | ⟨e, m', l, h1, _⟩ | ⟨d, hd, hdk⟩
        · rw [ht] at e
          rcases List.mem_cons.1 e with rfl | e
          · exact absurd rfl hk
          · exact .inl e
        · rw [hc] at h1; cases h1
        · refine .inr (.inr ⟨d, List.mem_filter.2 ⟨hd, ?_⟩, hdk⟩)
          rw [hdk]
          simpa using fun e => hk e.symm
  | plain m rest ph hc ht ho hb ha =>
    have hmem : m ∈ p.req.muts := h.todo m (by rw [ht]; exact List.mem_cons_self)
    have hno : p.onePc = false := by
      cases hp : p.onePc with
      | false => rfl
      | true => rw [hp] at hb; cases hb
    refine ⟨fun x hx => h.todo x (by rw [ht]; exact List.mem_cons_of_mem _ hx), ?_, ?_, ?_,
      (fun e => by rw [show p.phase = .run from ph] at e; cases e),
      (fun _ e => by rw [show p.onePc = false from hno] at e; cases e),
      (fun e => by rw [show p.onePc = false from hno] at e; cases e)⟩
    · intro d hd
      rcases List.mem_cons.1 hd with rfl | hd
      · exact ⟨m, hmem, ho, rfl⟩
      · exact h.done d (List.mem_filter.1 hd).1
    · refine List.nodup_cons.2 ⟨?_, hnod _⟩
      intro hin
      obtain ⟨d, hd, hk⟩ := List.mem_map.1 hin
      have := (List.mem_filter.1 hd).2
      rw [hk] at this
      simp at this
    · intro e m' l hc'
      rw [show p.cur = none from hc] at hc'
      cases hc'
  | back e m l l' ph hc hpe =>
    obtain ⟨h1, h2, h3, h4⟩ := h.cur e m l hc
    refine ⟨h.todo, ?_, ?_, (fun _ _ _ e => by cases e),
      (fun e => by rw [show p.phase = .run from ph] at e; cases e), (fun _ e => by cases e),
      (fun e => by cases e)⟩
    · intro d hd
      rcases List.mem_cons.1 hd with rfl | hd
      · exact ⟨m, h1, h2, rfl⟩
      · exact h.done d hd
    · refine List.nodup_cons.2 ⟨?_, h.nodup⟩
      intro hin
      obtain ⟨d, hd, hk⟩ := List.mem_map.1 hin
      exact h4 d hd hk
  | fix e m l mc fin ph hc hmc hmx hfin hmax =>
    obtain ⟨h1, h2, h3, h4⟩ := h.cur e m l hc
    refine ⟨h.todo, ?_, ?_, (fun _ _ _ e => by cases e),
      (fun e => by rw [show p.phase = .run from ph] at e; cases e), ?_, ?_⟩
    · intro d hd
      rcases List.mem_cons.1 hd with rfl | hd
      · exact ⟨m, h1, h2, rfl⟩
      · exact h.done d hd
    · refine List.nodup_cons.2 ⟨?_, h.nodup⟩
      intro hin
      obtain ⟨d, hd, hk⟩ := List.mem_map.1 hin
      exact h4 d hd hk
    · intro _ ho' x hx hop
      rcases h.all (.inl ph) ho' x hx hop with e | ⟨e', m', l', h5, h6⟩ | ⟨d, hd, hdk⟩
      · exact .inl e
      · rw [hc] at h5
        cases h5
        exact .inr (.inr ⟨_, List.mem_cons_self, h6⟩)
      · exact .inr (.inr ⟨d, List.mem_cons_of_mem _ hd, hdk⟩)
    · intro ho' d hd
      have hge : fin ≤ (if p.final < fin then fin else p.final) ∧
          p.final ≤ (if p.final < fin then fin else p.final) := by split <;> omega
      dsimp only
      rcases List.mem_cons.1 hd with rfl | hd
      · dsimp only
        refine ⟨by omega, by omega, ?_⟩
        split
        · exact hge.1
        · omega
      · obtain ⟨h5, h6, h7⟩ := h.fin ho' d hd
        omega

theorem run_cov {s : Sys} (h : ∀ p ∈ s.pws, Cov p) (evs : List Ev) : ∀ p ∈ (run s evs).pws, Cov p := by
  induction evs generalizing s with
  | nil => exact h
  | cons ev evs ih =>
    refine ih (s := step s ev) ?_
    intro p hp
    rcases step_pws hp with hp | ⟨q, hq, hm⟩ | ⟨r, _, rfl⟩
    · exact h p hp
    · exact (h q hq).moved hm
    · exact Cov.new r

/-! ### The upper bound -/

/-- A node that takes over has seen a timestamp as late as every pessimistic lock was pushed to. -/
def seenEv (s : Sys) : Ev → Bool
  | .lead n => s.locks.all (fun x => !x.2.pess || decide (x.2.min ≤ max (s.maxTs n) 0))
  | .move n => s.locks.all (fun x => !x.2.pess || decide (x.2.min ≤ max (s.maxTs n) 0))
  | _ => true

def seenRun (s : Sys) : List Ev → Bool
  | [] => true
  | e :: es => seenEv s e && seenRun (step s e) es

/-- What stays below the `max_commit_ts` of a request; `M` is the maximum of the leader. -/
structure Lim (M : Int) (p : Pw) : Prop where
  dpess : ∀ d ∈ p.done, d.lock.pess = false
  cpess : ∀ e m l, p.cur = some (e, m, l) → l.pess = false
  cmin : p.phase = .run → ∀ e m l, p.cur = some (e, m, l) → l.min ≤ max (max M 0) p.req.min
  lim : 0 < p.req.max → p.req.min ≤ p.req.max → p.req.start < p.req.max →
    (p.onePc = true → p.final ≤ p.req.max) ∧
    ∀ d ∈ p.done, d.lock.async = true → d.lock.min ≤ p.req.max

theorem Lim.new (M : Int) (r : Req) :
    Lim M ⟨r, r.muts, r.onePc, r.async, 0, [], none, .run⟩ where
  dpess := fun _ h => by cases h
  cpess := fun _ _ _ h => by cases h
  cmin := fun _ _ _ _ h => by cases h
  lim := fun h _ _ => ⟨fun _ => Int.le_of_lt h, fun _ h => (by cases h)⟩

theorem Lim.grow {M M' : Int} {p : Pw} (h : Lim M p) (hM : p.phase = .run → M ≤ M') : Lim M' p :=
  ⟨h.dpess, h.cpess, fun hp e m l hc => by have := h.cmin hp e m l hc; have := hM hp; omega, h.lim⟩

theorem admit_go_pess {m : Mut} {start : Int} {prev : Option Lock} (h : admit m start prev = .go) :
    ∀ l, prev = some l → l.pess = true := by
  intro l hl
  subst hl
  unfold admit at h
  grind

theorem Lim.moved {s : Sys} {p p' : Pw} (h : Lim (s.maxTs s.leader) p)
    (hl : ∀ k l, (k, l) ∈ s.locks → l.pess = true → l.min ≤ max (s.maxTs s.leader) 0)
    (hm : Moved s p p') : Lim (s.maxTs s.leader) p' := by
  cases hm with
  | phase ph hp hs =>
    exact ⟨h.dpess, h.cpess, fun e => absurd e hp, h.lim⟩
  | again m rest ph hc ht =>
    exact ⟨h.dpess, h.cpess, h.cmin, fun h1 h2 h3 =>
      ⟨fun e => (by cases e), (h.lim h1 h2 h3).2⟩⟩
  | fail m rest ph hc ht => exact ⟨h.dpess, h.cpess, fun e => (by cases e), h.lim⟩
  | check m rest ph hc ht ho =>
    refine ⟨h.dpess, h.cpess, h.cmin, fun h1 h2 h3 => ⟨?_, (h.lim h1 h2 h3).2⟩⟩
    intro ho'
    have := (h.lim h1 h2 h3).1 ho'
    dsimp only at h1 h2 h3 ⊢
    split
    · split <;> omega
    · omega
  | take m rest ph hc ht ho e ha =>
    refine ⟨fun d hd => h.dpess d (List.mem_filter.1 hd).1, ?_, ?_, fun h1 h2 h3 =>
      ⟨(h.lim h1 h2 h3).1, fun d hd => (h.lim h1 h2 h3).2 d (List.mem_filter.1 hd).1⟩⟩
    · intro e' m' l' hc'
      cases hc'
      rfl
    · intro _ e' m' l' hc'
      cases hc'
      cases hlk : lookup s.locks m.key with
      | none => simp only [build]; split <;> omega
      | some l =>
        have := hl m.key l (lookup_mem hlk) (admit_go_pess ha l hlk)
        simp only [build]
        split <;> omega
  | plain m rest ph hc ht ho hbo ha =>
    have has : p.async = false := by
      cases hp : p.async with
      | false => rfl
      | true => rw [hp, Bool.or_true] at hbo; cases hbo
    refine ⟨?_, h.cpess, h.cmin, fun h1 h2 h3 => ⟨fun _ => Int.le_of_lt h1, ?_⟩⟩
    · intro d hd
      rcases List.mem_cons.1 hd with rfl | hd
      · rfl
      · exact h.dpess d (List.mem_filter.1 hd).1
    · intro d hd hda
      rcases List.mem_cons.1 hd with rfl | hd
      · simp only [build] at hda
        rw [has] at hda
        cases hda
      · exact (h.lim h1 h2 h3).2 d (List.mem_filter.1 hd).1 hda
  | back e m l l' ph hc hpe =>
    have hcp := h.cpess e m l hc
    refine ⟨?_, fun _ _ _ e => (by cases e), fun _ _ _ _ e => (by cases e), fun h1 h2 h3 =>
      ⟨fun e => (by cases e), ?_⟩⟩
    · intro d hd
      rcases List.mem_cons.1 hd with rfl | hd
      · exact hpe.trans hcp
      · exact h.dpess d hd
    · intro d hd hda
      rcases List.mem_cons.1 hd with rfl | hd
      · cases hda
      · exact (h.lim h1 h2 h3).2 d hd hda
  | fix e m l mc fin ph hc hmc hmx hfin hmax =>
    have hcp := h.cpess e m l hc
    have hcm := h.cmin ph e m l hc
    refine ⟨?_, fun _ _ _ e => (by cases e), fun _ _ _ _ e => (by cases e), fun h1 h2 h3 => ⟨?_, ?_⟩⟩
    · intro d hd
      rcases List.mem_cons.1 hd with rfl | hd
      · dsimp only
        split <;> exact hcp
      · exact h.dpess d hd
    · intro ho'
      have h5 := (h.lim h1 h2 h3).1 ho'
      have h6 := hmax (by dsimp only at h1; omega)
      dsimp only at h1 h2 h3 ⊢
      split <;> omega
    · intro d hd hda
      have h6 := hmax (by dsimp only at h1; omega)
      rcases List.mem_cons.1 hd with rfl | hd
      · dsimp only at h1 h2 h3 ⊢
        split
        · dsimp only; omega
        · omega
      · exact (h.lim h1 h2 h3).2 d hd hda

/-- The pessimistic locks on disk after an event. -/
theorem step_pess {s : Sys} (hd : ∀ p ∈ s.pws, ∀ d ∈ p.done, d.lock.pess = false) {ev : Ev} {k : Key}
    {l : Lock} (h : (k, l) ∈ (step s ev).locks) (hp : l.pess = true) :
    (∃ l0, (k, l0) ∈ s.locks ∧ l0.pess = true ∧ l.min = l0.min) ∨ l.min = 0 ∨
      ∃ st, ev = .push k st l.min := by
  have hin : (k, l) ∈ s.locks → (∃ l0, (k, l0) ∈ s.locks ∧ l0.pess = true ∧ l.min = l0.min) ∨
      l.min = 0 ∨ ∃ st, ev = .push k st l.min := fun h => .inl ⟨l, h, hp, rfl⟩
  have hput : ∀ (ds : List Done) (locks : List (Key × Lock)), (∀ d ∈ ds, d.lock.pess = false) →
      (k, l) ∈ putLocks locks ds → (k, l) ∈ locks := by
    intro ds
    induction ds with
    | nil => exact fun _ _ h => h
    | cons d ds ih =>
      intro locks hds h
      have h1 := ih (assign locks d.key d.lock) (fun x hx => hds x (List.mem_cons_of_mem _ hx)) h
      rcases mem_assign.1 h1 with e | ⟨e, _⟩
      · have := hds d List.mem_cons_self
        rw [← (Prod.mk.inj e).2, hp] at this
        cases this
      · exact e
  unfold step at h
  split at h
  · exact hin h
  · exact hin h
  iterate 5
    split at h
    · exact hin h
    · refine hin ?_
      revert h
      unfold readerStep setPhase
      dsimp only
      repeat' split
      all_goals exact id
  · split at h <;> exact hin h
  · split at h
    · exact hin h
    · simp only [pwStep] at h
      refine hin ?_
      revert h
      unfold next
      dsimp only
      repeat' split
      all_goals exact id
  · split at h
    · exact hin h
    · simp only [pwStep] at h
      refine hin ?_
      split at h
      · rename_i p _ _ _ e m l _ _
        obtain ⟨x, p', _, _, _, hf⟩ := fix_shape s _ p e m l
        rw [hf] at h
        exact h
      · exact h
  · split at h
    · exact hin h
    · simp only [pwStep] at h
      split at h <;> exact hin h
  · split at h
    · exact hin h
    · rename_i p hi
      simp only [pwStep] at h
      split at h
      · refine hin ?_
        revert h
        unfold Verif.MemLock.apply
        dsimp only
        split
        · exact fun h => (List.mem_filter.1 h).1
        · exact hput _ _ (hd p (List.mem_of_getElem? hi))
      · exact hin h
  · split at h
    · exact hin h
    · simp only [pwStep] at h
      split at h <;> exact hin h
  · split at h
    · exact hin h
    · simp only [pwStep] at h
      split at h <;> exact hin h
  · split at h
    · exact hin h
    · refine hin ?_
      revert h
      simp only [pwStep]
      unfold finish unlockKeys
      dsimp only
      repeat' split
      all_goals exact id
  · split at h
    · split at h
      · rcases mem_assign.1 h with e | ⟨e, _⟩
        · cases e
          exact .inr (.inl rfl)
        · exact hin e
      · rename_i l0 hl0
        split at h
        · rename_i hc
          rcases mem_assign.1 h with e | ⟨e, _⟩
          · cases e
            exact .inl ⟨l0, lookup_mem hl0, hc.2, rfl⟩
          · exact hin e
        · exact hin h
    · exact hin h
  · split at h
    · exact hin h
    · split at h
      · exact hin (mem_erase.1 h).1
      · exact hin h
  · split at h
    · exact hin h
    · split at h
      · exact hin (mem_erase.1 h).1
      · exact hin h
  · split at h
    · dsimp only at h
      split at h
      · exact hin h
      · split at h
        · rcases mem_assign.1 h with e | ⟨e, _⟩
          · cases e
            exact .inr (.inr ⟨_, rfl⟩)
          · exact hin e
        · exact hin h
    · exact hin h
  · exact hin h
  · exact hin h
  · exact hin h

/-- The maximum of the leader is only raised, unless another node takes over; then no prewrite is under
way. -/
theorem step_max (s : Sys) (ev : Ev) :
    s.maxTs s.leader ≤ (step s ev).maxTs (step s ev).leader ∨
      ((∃ n, (ev = .lead n ∨ ev = .move n) ∧ (step s ev).maxTs (step s ev).leader = s.maxTs n ∧
        (step s ev).locks = s.locks) ∧ ∀ p ∈ (step s ev).pws, p.phase = .ended) := by
  unfold step
  split
  · exact .inl (raiseMax_le _ _ _ _)
  · exact .inl (Int.le_refl _)
  iterate 5
    left
    split
    · exact Int.le_refl _
    · unfold readerStep setPhase
      dsimp only
      repeat' split
      all_goals first | exact Int.le_refl _ | exact raiseMax_le _ _ _ _
  · left; split <;> exact Int.le_refl _
  · left
    split
    · exact Int.le_refl _
    · simp only [pwStep]
      unfold next
      dsimp only
      repeat' split
      all_goals exact Int.le_refl _
  · left
    split
    · exact Int.le_refl _
    · simp only [pwStep]
      split
      · rename_i p _ _ _ e m l _ _
        obtain ⟨x, p', _, _, _, hf⟩ := fix_shape s _ p e m l
        rw [hf]
        exact Int.le_refl _
      · exact Int.le_refl _
  iterate 4
    left
    split
    · exact Int.le_refl _
    · simp only [pwStep]
      try unfold Verif.MemLock.apply
      try dsimp only
      repeat' split
      all_goals exact Int.le_refl _
  · left
    split
    · exact Int.le_refl _
    · simp only [pwStep]
      unfold finish unlockKeys
      dsimp only
      repeat' split
      all_goals exact Int.le_refl _
  iterate 3
    · left
      repeat' split
      all_goals exact Int.le_refl _
  · left
    split
    · exact raiseMax_le _ _ _ _
    · exact Int.le_refl _
  · refine .inr ⟨⟨_, .inl rfl, rfl, rfl⟩, ?_⟩
    intro p hp
    obtain ⟨q, _, rfl⟩ := List.mem_map.1 hp
    rfl
  · exact .inl (raiseMax_le _ _ _ _)
  · refine .inr ⟨⟨_, .inr rfl, rfl, rfl⟩, ?_⟩
    intro p hp
    obtain ⟨q, _, rfl⟩ := List.mem_map.1 hp
    rfl

/-- A push has raised the maximum of the leader. -/
theorem step_push {s : Sys} {k : Key} {st ts : Int} {x : Key × Lock}
    (h : x ∈ (step s (.push k st ts)).locks) : x ∈ s.locks ∨
      ts ≤ (step s (.push k st ts)).maxTs (step s (.push k st ts)).leader := by
  simp only [step] at h ⊢
  split at h
  · rename_i hf
    simp only [hf, if_true]
    exact .inr (raiseMax_ge _ _ _)
  · exact .inl h

theorem run_lim {s : Sys}
    (h : (∀ k l, (k, l) ∈ s.locks → l.pess = true → l.min ≤ max (s.maxTs s.leader) 0) ∧
      ∀ p ∈ s.pws, Lim (s.maxTs s.leader) p)
    {evs : List Ev} (hp : seenRun s evs = true) :
    ∀ p ∈ (run s evs).pws, ∃ M, Lim M p := by
  induction evs generalizing s with
  | nil => exact fun p hp => ⟨_, h.2 p hp⟩
  | cons ev evs ih =>
    simp only [seenRun, Bool.and_eq_true] at hp
    refine ih (s := step s ev) ?_ hp.2
    have hlim : ∀ p ∈ (step s ev).pws, Lim (s.maxTs s.leader) p := by
      intro p hpp
      rcases step_pws hpp with hpp | ⟨q, hq, hm⟩ | ⟨r, _, rfl⟩
      · exact h.2 p hpp
      · exact (h.2 q hq).moved h.1 hm
      · exact Lim.new _ r
    rcases step_max s ev with hle | ⟨⟨n, hn, hmax, hlk⟩, hend⟩
    · refine ⟨?_, fun p hpp => (hlim p hpp).grow (fun _ => hle)⟩
      intro k l hkl hpe
      rcases step_pess (fun p hp => (h.2 p hp).dpess) hkl hpe with ⟨l0, h1, h2, h3⟩ | h1 | ⟨st, h1⟩
      · rw [h3]
        have := h.1 k l0 h1 h2
        omega
      · omega
      · subst h1
        rcases step_push hkl with h1 | h1
        · have := h.1 k l h1 hpe
          omega
        · omega
    · refine ⟨?_, fun p hpp => (hlim p hpp).grow (fun e => by rw [hend p hpp] at e; cases e)⟩
      intro k l hkl hpe
      rw [hlk] at hkl
      rw [hmax]
      have hsn : s.locks.all (fun x => !x.2.pess || decide (x.2.min ≤ max (s.maxTs n) 0)) = true := by
        rcases hn with rfl | rfl <;> exact hp.1
      have := List.all_eq_true.1 hsn (k, l) hkl
      simpa [hpe] using this

end Verif.MemLock
