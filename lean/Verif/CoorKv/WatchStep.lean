import Verif.CoorKv.WatchInv

/-!
# Every step keeps the invariant of the one-time watches
-/

namespace Verif.CoorKv.Watch
attribute [-instance] Verif.Txn.instDecidableLt_verif Verif.Txn.KeyOrder.toLT
open Verif.Codec (Bytes)

/-- Schedules in which no wake-up is lost: the apply thread does not find the map empty while a
request that has read its key is about to register it, and nobody waits when the node starts leading. -/
def Careful (st : St) : Ev → Bool
  | .check =>
    match st.job, st.holder with
    | some j, some h =>
      match j.stage with
      | .written (some e) => !(st.watches.isEmpty && h.seen && decide (h.ask.key = e.key))
      | _ => true
    | _, _ => true
  | .start => st.watches.isEmpty
  | _ => true

variable {P : Prop} {st : St}

theorem le_refl_mem (n : Option Int) : ∀ m', n = some m' → ∃ m, n = some m ∧ m ≤ m' := fun m h => ⟨m, h, Int.le_refl _⟩

theorem settled_le (log : List Change) (j : Option Job) : settled log j ≤ log.length := by
  unfold settled
  cases j with
  | none => exact Nat.le_refl _
  | some j => simp only; split <;> omega

theorem begin_winv (h : WInv P st) (e : Entry) : WInv P (st.begin e) := by
  unfold St.begin
  split
  · exact h
  next hn =>
    have hj : st.job = none := by
      cases hj : st.job with
      | none => rfl
      | some j => exact absurd (Or.inl (by rw [hj]; rfl)) hn
    have hb := h.base
    rw [hj] at hb
    obtain ⟨a, b, c⟩ := hb.begin e
    refine h.apply a c (by rw [b]; exact le_refl_mem _) ?_ ?_
    · intro hP x hx p hp
      have := h.noDue hP x hx p hp
      rw [hj] at this
      exact this
    · intro j e' hj' hs
      cases hj'
      rcases hs with hs | hs <;> cases hs

theorem draw_winv (h : WInv P st) : WInv P st.draw := by
  unfold St.draw
  split
  next main sub o ops ids term index hj =>
    by_cases hd : o.draws = true
    · rw [if_pos hd]
      have hb := h.base
      rw [hj] at hb
      obtain ⟨a, b⟩ := hb.draw hd
      refine h.apply a rfl ?_ ?_ ?_
      · rw [b]
        intro m' hm'
        cases hm'
        have := Mid.mem hb
        refine ⟨_, this, ?_⟩
        cases main <;> simp <;> omega
      · intro hP x hx p hp
        have := h.noDue hP x hx p hp
        rw [hj] at this
        exact this
      · intro j e' hj' hs
        cases hj'
        rcases hs with hs | hs <;> cases hs
    · rw [if_neg hd]; exact h
  · exact h

theorem finish_winv (h : WInv P st) : WInv P st.finish := by
  unfold St.finish
  split
  next main sub ids term index hj =>
    have hb := h.base
    rw [hj] at hb
    obtain ⟨a, b⟩ := hb.finish
    refine h.apply a rfl (by rw [b]; exact le_refl_mem _) ?_ ?_
    · intro hP x hx p hp
      have := h.noDue hP x hx p hp
      rw [hj] at this
      exact this
    · intro j e' hj' _
      cases hj'
  · exact h

theorem changeOf_cases (m : Int) (S : Spec) (o : Op) : changeOf m S o = [] ∨ ∃ c, changeOf m S o = [c] ∧ c.rev = m := by
  cases o with
  | put k il l iv v =>
    by_cases hacc : 0 < (if il then ((S.map k).map (·.lease)).getD 0 else l) ∧
        S.leases (if il then ((S.map k).map (·.lease)).getD 0 else l) = none
    · left; simp only [changeOf]; exact if_pos hacc
    · right; exact ⟨_, by simp only [changeOf]; exact if_neg hacc, rfl⟩
  | delete k => exact .inr ⟨_, rfl, rfl⟩
  | compact k v => exact .inl rfl

theorem changeOf_length (m : Int) (S : Spec) (o : Op) : (changeOf m S o).length ≤ 1 := by
  rcases changeOf_cases m S o with h | ⟨c, h, _⟩ <;> rw [h] <;> simp

theorem write_winv (h : WInv P st) : WInv P st.write := by
  unfold St.write
  split
  next m sub o ops ids term index hj =>
    have hb := h.base
    rw [hj] at hb
    obtain ⟨a, b, c, d, e, f⟩ := hb.write h.logs.create
    have hset : settled st.log st.job = st.log.length := by rw [hj]; rfl
    have hpos : 0 < m := by have := hb.pos; omega
    refine ⟨a, ?_, ?_, h.reg, ?_, ?_, h.fresh, ?_, h.all, h.ok⟩
    · simp only [b]; exact h.logs.write c hpos
    · intro j e' hj' hs
      cases hj'
      rcases hs with hs | hs
      · simp only [Stage.written.injEq] at hs
        obtain ⟨ch, h1, h2⟩ := e e' hs
        refine ⟨st.log, ch, by simp only [h1], h2, ?_⟩
        simp only [b, c]
        rcases changeOf_cases m st.spec o with h3 | ⟨c', h3, h4⟩
        · rw [h3] at h1; cases h1
        · rw [h3] at h1; cases h1; rw [h4]
      · cases hs
    · intro x hx
      have hw := h.wait x hx
      obtain ⟨p, h1, h2, h3, h4⟩ := hw.read
      refine ⟨hw.ask, hw.start.mono (by simp only [b]; exact le_refl_mem _), p, h1, ?_, ?_, ?_⟩
      · simp only [List.length_append]; omega
      · simp only [List.take_append_of_le_length h2]; exact h3
      · intro hP
        have h5 := h4 hP
        rw [hset] at h5
        intro i ch hi1 hi2 hi3
        simp only at hi2 hi3
        by_cases hlt : i < st.log.length
        · rw [List.getElem?_append_left hlt] at hi3
          exact h5 i ch hi1 hlt hi3
        · -- the new change: the event is settled at once only if there is none
          rw [List.getElem?_append_right (by omega)] at hi3
          have hmem := List.mem_of_getElem? hi3
          have hlen := changeOf_length m st.spec o
          cases hev : (opWrite st.node ⟨m, sub⟩ o).2 with
          | none =>
            obtain ⟨g1, g2⟩ := f hev ch hmem
            rintro ⟨_, q, _⟩
            rcases q with q | q
            · rw [g1] at q; cases q
            · rw [g2] at q; cases q
          | some ev =>
            simp only [settled, hev, List.length_append] at hi2
            omega
    · intro h0 e1 e2
      obtain ⟨a1, b1, c1⟩ := h.hold h0 e1 e2
      exact ⟨a1, b1.mono (by simp only [b]; exact le_refl_mem _), c1⟩
    · intro r an hr
      obtain ⟨ask, h1, h2⟩ := h.right r an hr
      refine ⟨ask, h1, ?_⟩
      rcases h2 with h2 | ⟨p, g1, g2, g3⟩
      · exact .inl h2
      · exact .inr ⟨p, g1, by simp only [List.length_append]; omega, g3.append g2 _⟩
  next main sub k v ops ids term index hj =>
    have hb := h.base
    rw [hj] at hb
    obtain ⟨a, b⟩ := hb.compact
    refine h.apply a rfl (by rw [b]; exact le_refl_mem _) ?_ ?_
    · intro hP x hx p hp
      have := h.noDue hP x hx p hp
      rw [hj] at this
      exact this
    · intro j e' hj' hs
      cases hj'
      rcases hs with hs | hs <;> cases hs
  · exact h

theorem flight_next (log : List Change) (mem : Option Int) (j : Job) : Flight log mem (some j.next) := by
  intro j' e' hj' hs
  cases hj'
  rcases hs with hs | hs <;> cases hs

theorem check_winv (h : WInv P st) (hc : P → Careful st .check = true) : WInv P st.check := by
  unfold St.check
  split
  next j hj =>
    have hb := h.base
    rw [hj] at hb
    split
    next hs =>
      refine h.apply (hb.next (.inl ⟨_, hs⟩)) rfl (le_refl_mem _) ?_ (flight_next _ _ _)
      intro hP x hx p hp
      have := h.noDue hP x hx p hp
      rw [hj] at this
      simp only [settled, hs] at this
      exact this
    next e hs =>
      split
      next he =>
        have hw : st.watches = [] := by simpa using he
        refine h.apply (hb.next (.inl ⟨_, hs⟩)) rfl (le_refl_mem _) ?_ (flight_next _ _ _)
        intro hP x hx p hp
        have h1 := h.noDue hP x hx p hp
        obtain ⟨log', c, hl, hsay, _⟩ := h.flight j e hj (.inl hs)
        rw [hj] at h1
        simp only [settled, hs] at h1
        intro i c' hi1 hi2 hi3 hdue
        have hi2 : i < st.log.length := hi2
        by_cases hlt : i < st.log.length - 1
        · exact h1 i c' hi1 hlt hi3 hdue
        · -- the last change, which no waiting request asks for
          have hi : i = log'.length := by rw [hl] at hi2 hlt; simp at hi2 hlt; omega
          rw [hl, hi, List.getElem?_concat_length] at hi3
          cases hi3
          simp only [waiters, hw, List.map_nil, List.append_nil] at hx
          cases hh : st.holder with
          | none => rw [hh] at hx; cases hx
          | some h0 =>
            rw [hh] at hx
            simp only at hx
            split at hx
            next hseen =>
              rw [List.mem_singleton] at hx
              subst hx
              have h2 := hc hP
              simp only [Careful, hj, hh, hs, hw, List.isEmpty_nil, hseen, Bool.true_and, Bool.not_eq_true',
                decide_eq_false_iff_not] at h2
              exact h2 (by rw [hsay.key]; exact hdue.1.symm)
            · cases hx
      next he =>
        refine h.apply (hb.checked hs) rfl (le_refl_mem _) ?_ ?_
        · intro hP x hx p hp
          have := h.noDue hP x hx p hp
          rw [hj] at this
          simp only [settled, hs] at this
          exact this
        · intro j' e' hj' hs'
          cases hj'
          rcases hs' with hs' | hs'
          · cases hs'
          · cases hs'
            exact h.flight j e hj (.inl hs)
    · exact h
  · exact h

theorem mem_waiters_watch {hd : Option Holder} {ws : List Node'} {w : Node'} (hw : w ∈ ws) : (w.req, w.ask, w.start) ∈ waiters hd ws :=
  List.mem_append.2 (.inr (List.mem_map.2 ⟨w, hw, rfl⟩))

/-- Answering waiting requests. -/
theorem WInv.answer (h : WInv P st) (L : List Node') (a : Node' → Answer) (hL : ∀ w ∈ L, w ∈ st.watches)
    (hn : (L.map (·.id)).Nodup) (job' : Option Job) (hb : Base st.node st.spec job')
    (hf : Flight st.log st.node.memRev job')
    (ha : ∀ w ∈ L, ∀ p, st.reads w.req = some p → a w = .nothing ∨ Right P st.log w.ask (w.ask.from (st.present w.req)) p (a w))
    (hs : P → ∀ x ∈ waiters st.holder (st.answer L a).watches, ∀ p, st.reads x.1 = some p →
      NoDue st.log p (settled st.log job') x.2.1) : WInv P { st.answer L a with job := job' } := by
  refine ⟨hb, h.logs, hf, ?_, ?_, h.hold, h.fresh, ?_, ?_, h.ok⟩
  · have := h.reg.answer L hL hn
    simp only [St.answer, List.map_append, List.map_map]
    exact this
  · intro x hx
    have hx' : x ∈ waiters st.holder st.watches := by
      rcases List.mem_append.1 hx with hx | hx
      · exact List.mem_append.2 (.inl hx)
      · obtain ⟨w, hw, rfl⟩ := List.mem_map.1 hx
        exact mem_waiters_watch (List.mem_filter.1 hw).1
    have := h.wait x hx'
    obtain ⟨p, h1, h2, h3, _⟩ := this.read
    exact ⟨this.ask, this.start, p, h1, h2, h3, fun hP => hs hP x hx p h1⟩
  · intro r an hr
    simp only [St.answer, List.mem_append, List.mem_map] at hr
    rcases hr with hr | ⟨w, hw, e⟩
    · exact h.right r an hr
    · cases e
      have hwt := h.wait _ (mem_waiters_watch (hL w hw))
      obtain ⟨p, h1, h2, _⟩ := hwt.read
      refine ⟨w.ask, hwt.ask, ?_⟩
      rcases ha w hw p h1 with h3 | h3
      · exact .inl h3
      · exact .inr ⟨p, h1, h2, h3⟩
  · intro hP r hr
    rcases h.all hP r hr with h1 | h1 | ⟨w, hw, e⟩
    · left; simp only [St.answer, List.map_append, List.mem_append]; exact .inl h1
    · exact .inr (.inl h1)
    · by_cases hm : w.id ∈ L.map (·.id)
      · obtain ⟨w', hw', e'⟩ := List.mem_map.1 hm
        have := wid_inj h.reg.wid (hL w' hw') hw e'
        subst this
        left
        simp only [St.answer, List.map_append, List.mem_append, List.map_map]
        exact .inr (List.mem_map.2 ⟨w', hw', e⟩)
      · right; right
        exact ⟨w, List.mem_filter.2 ⟨hw, decide_eq_true hm⟩, e⟩

theorem fire_winv (h : WInv P st) : WInv P st.fire := by
  unfold St.fire
  split
  next j hj hh =>
    split
    next e hs =>
      have hb := h.base
      rw [hj] at hb
      obtain ⟨log', c, hl, hsay, hmem⟩ := h.flight j e hj (.inr hs)
      have hlen : st.log.length = log'.length + 1 := by rw [hl]; simp
      have hmod : e.kv.mod = c.rev := hsay.mod
      rw [trigger_eq h.reg]
      have hset : settled st.log st.job = st.log.length - 1 := by rw [hj]; simp only [settled, hs]
      -- what a watch that fires is told
      have hfire : ∀ w ∈ st.watches, w.fires e = true → c.key = w.ask.key ∧ ¬ (c.put = true ∧ w.ask.noPut = true) ∧
          ¬ (c.put = false ∧ w.ask.noDelete = true) ∧ w.start ≤ c.rev := by
        intro w _ hf
        simp only [Node'.fires, Bool.and_eq_true, decide_eq_true_eq, Bool.not_eq_true', Bool.and_eq_false_iff,
          decide_eq_false_iff_not, Int.not_lt, hmod, hsay.put, hsay.key] at hf
        obtain ⟨⟨⟨f1, f2⟩, f3⟩, f4⟩ := hf
        refine ⟨f1.symm, ?_, ?_, f4⟩
        · rintro ⟨g1, g2⟩; rcases f2 with f2 | f2
          · rw [g2] at f2; cases f2
          · rw [g1] at f2; cases f2
        · rintro ⟨g1, g2⟩; rcases f3 with f3 | f3
          · rw [g2] at f3; cases f3
          · rw [g1] at f3; cases f3
      refine h.answer _ _ (fun w hw => (List.mem_filter.1 hw).1) (h.reg.wid.sublist (List.Sublist.map _ List.filter_sublist))
        (some j.next) (hb.next (.inr ⟨_, hs⟩)) (flight_next _ _ _) ?_ ?_
      · intro w hw p hp
        right
        obtain ⟨hw1, hw2⟩ := List.mem_filter.1 hw
        have hwt := h.wait _ (mem_waiters_watch hw1)
        obtain ⟨q, h1, h2, h3, h4⟩ := hwt.read
        simp only at h1 h3 h4
        rw [h1] at hp; cases hp
        obtain ⟨g1, g2, g3, g4⟩ := hfire w hw1 hw2
        right
        have hrev : w.ask.from (st.present w.req) ≤ c.rev := by
          have := hwt.start.eq
          simp only at this
          omega
        refine ⟨log'.length, c, by omega, by rw [hl, List.getElem?_concat_length], g1, hsay.put.symm, ?_, ?_, hrev, hsay.shows,
          ?_, ?_⟩
        · rw [hsay.put]; exact g2
        · rw [hsay.put]; exact g3
        · rw [hsay.prev]
        · intro hP
          have := h4 hP
          rw [hset, hlen] at this
          exact this
      · intro hP x hx p hp i c' hi1 hi2 hi3 hdue
        have hi2 : i < st.log.length := hi2
        rw [hh] at hx
        obtain ⟨w, hw, rfl⟩ := List.mem_map.1 hx
        obtain ⟨hw1, hw2⟩ := List.mem_filter.1 hw
        have hwt := h.wait _ (mem_waiters_watch hw1)
        obtain ⟨q, h1, h2, h3, h4⟩ := hwt.read
        simp only at h1 h3 h4 hp hdue
        rw [h1] at hp; cases hp
        by_cases hlt : i < st.log.length - 1
        · exact (by rw [hset] at h4; exact h4 hP i c' hi1 hlt hi3 hdue)
        · have hi : i = log'.length := by omega
          rw [hl, hi, List.getElem?_concat_length] at hi3
          cases hi3
          simp only [decide_eq_true_eq] at hw2
          refine hw2 (List.mem_map.2 ⟨w, List.mem_filter.2 ⟨hw1, ?_⟩, rfl⟩)
          obtain ⟨d1, _, d3, d4, d5⟩ := hdue
          have hst : w.start ≤ c.rev := by
            by_cases h0 : w.ask.start = 0
            · exact (hwt.start.now h0).2 _ hmem
            · have := hwt.start.given h0
              simp only at this
              rcases d5 with d5 | d5
              · exact absurd d5 h0
              · omega
          simp only [Node'.fires, Bool.and_eq_true, decide_eq_true_eq, Bool.not_eq_true', Bool.and_eq_false_iff,
            decide_eq_false_iff_not, Int.not_lt, hmod, hsay.put, hsay.key]
          refine ⟨⟨⟨d1.symm, ?_⟩, ?_⟩, hst⟩
          · cases hn : w.ask.noPut with
            | false => exact .inl rfl
            | true => right; cases hp : c.put with
              | false => rfl
              | true => exact absurd ⟨hp, hn⟩ d3
          · cases hn : w.ask.noDelete with
            | false => exact .inl rfl
            | true => right; cases hp : c.put with
              | true => rfl
              | false => exact absurd ⟨hp, hn⟩ d4
    · exact h
  · exact h

theorem lock_winv (h : WInv P st) (c : Conf) (a : Ask) : WInv P (st.lock c a) := by
  unfold St.lock
  split
  · exact h
  next hn =>
    have hh : st.holder = none := by
      cases hh : st.holder with
      | none => rfl
      | some j => exact absurd (by rw [hh]; rfl) hn
    have hreq : ∀ c ∈ st.closures, c.req ≠ st.asked := fun c hc => by have := (h.reg.cl c hc).2; omega
    have hans : st.asked ∉ st.answers.map (·.1) := fun hm => by have := h.reg.lt _ hm; omega
    have hask : ∀ r b, st.asks r = some b → (if r = st.asked then some a else st.asks r) = some b := by
      intro r b hb
      rw [if_neg, hb]
      intro e
      rw [(h.fresh r (by omega)).1] at hb; cases hb
    have hpres : ∀ r b, st.asks r = some b →
        (if r = st.asked then st.node.memRev.getD 0 else st.present r) = st.present r := by
      intro r b hb
      rw [if_neg]
      intro e
      rw [(h.fresh r (by omega)).1] at hb; cases hb
    have hright : ∀ r an, (r, an) ∈ st.answers → ∃ ask, (if r = st.asked then some a else st.asks r) = some ask ∧
        (an = .nothing ∨ ∃ p, st.reads r = some p ∧ p ≤ st.log.length ∧
          Right P st.log ask (ask.from (if r = st.asked then st.node.memRev.getD 0 else st.present r)) p an) := by
      intro r an hr
      obtain ⟨b, h1, h2⟩ := h.right r an hr
      exact ⟨b, hask _ _ h1, by rw [hpres _ _ h1]; exact h2⟩
    have hwait : ∀ x ∈ waiters none st.watches, Wait P st.log (fun r => if r = st.asked then some a else st.asks r)
        (fun r => if r = st.asked then st.node.memRev.getD 0 else st.present r) st.reads st.node.memRev (settled st.log st.job) x := by
      intro x hx
      have := h.wait x (by rw [hh]; exact hx)
      exact ⟨hask _ _ this.ask, by simp only [hpres _ _ this.ask]; exact this.start, this.read⟩
    have hfresh : ∀ r, st.asked + 1 ≤ r → (if r = st.asked then some a else st.asks r) = none ∧ st.reads r = none := by
      intro r hr
      rw [if_neg (by omega)]
      exact h.fresh r (by omega)
    simp only [Nat.add_sub_cancel]
    split
    · refine ⟨h.base, h.logs, h.flight, ?_, ?_, ?_, hfresh, ?_, ?_, h.ok⟩
      · obtain ⟨a1, a2, a3, a4, a5, a6, a7, a8, a9, a10⟩ := h.reg
        refine ⟨a1, a2, a3, fun c hc => ⟨(a4 c hc).1, Nat.lt_succ_of_lt (a4 c hc).2⟩, a5, a6, ?_, ?_, ?_, ?_⟩
        · simp only [List.map_append, List.map_cons, List.map_nil]
          rw [List.nodup_append]
          refine ⟨a7, List.pairwise_singleton _ _, ?_⟩
          intro x hx y hy e
          rw [List.mem_singleton] at hy
          rw [e, hy] at hx
          exact hans hx
        · intro r hr
          simp only [List.map_append, List.map_cons, List.map_nil, List.mem_append, List.mem_singleton] at hr
          rcases hr with hr | rfl
          · exact Nat.lt_succ_of_lt (a8 r hr)
          · exact Nat.lt_succ_self _
        · intro c hc hd
          simp only [List.map_append, List.map_cons, List.map_nil, List.mem_append, List.mem_singleton, not_or]
          exact ⟨a9 c hc hd, hreq c hc⟩
        · intro r hr
          simp only [hh, Option.map_none] at hr
          cases hr
      · simp only [hh]; exact hwait
      · intro h0 e1; simp only [hh] at e1; cases e1
      · intro r an hr
        simp only [List.mem_append, List.mem_singleton] at hr
        rcases hr with hr | hr
        · exact hright r an hr
        · cases hr
          exact ⟨a, if_pos rfl, .inl rfl⟩
      · intro hP r hr
        simp only [List.map_append, List.map_cons, List.map_nil, List.mem_append, List.mem_singleton]
        by_cases e : r = st.asked
        · exact .inl (.inr e)
        · rcases h.all hP r (by simp only at hr; omega) with h1 | h1
          · exact .inl (.inl h1)
          · exact .inr h1
    · refine ⟨h.base, h.logs, h.flight, ?_, ?_, ?_, hfresh, ?_, ?_, h.ok⟩
      · obtain ⟨a1, a2, a3, a4, a5, a6, a7, a8, a9, a10⟩ := h.reg
        refine ⟨a1, a2, a3, fun c hc => ⟨(a4 c hc).1, Nat.lt_succ_of_lt (a4 c hc).2⟩, a5, a6, a7,
          fun r hr => Nat.lt_succ_of_lt (a8 r hr), a9, ?_⟩
        intro r hr
        simp only [Option.map_some, Option.some.injEq] at hr
        subst hr
        refine ⟨Nat.lt_succ_self _, hans, ?_⟩
        intro hm
        obtain ⟨c, hc, e⟩ := List.mem_map.1 hm
        exact hreq c hc e
      · exact hwait
      · intro h0 e1 _
        simp only [Option.some.injEq] at e1
        subst e1
        refine ⟨if_pos rfl, ?_, (h.fresh _ (Nat.le_refl _)).2⟩
        obtain ⟨m, hm, hle⟩ := h.base.mem
        have hp := h.base.pos
        refine ⟨by simp only [Ask.from, if_true], fun h0 => ?_⟩
        simp only
        rw [if_pos h0, hm]
        simp only [Option.getD_some]
        exact ⟨by omega, fun m' hm' => by cases hm'; exact Int.le_refl _⟩
      · exact hright
      · intro hP r hr
        by_cases e : r = st.asked
        · exact .inr (.inl (by simp [e]))
        · rcases h.all hP r (by simp only at hr; omega) with h1 | h1 | h1
          · exact .inl h1
          · rw [hh] at h1; cases h1
          · exact .inr (.inr h1)

theorem read_winv (h : WInv P st) (c : Conf) : WInv P (st.read c) := by
  unfold St.read
  split
  next h0 hh =>
    split
    · exact h
    next hns =>
      have hs : h0.seen = false := by simpa using hns
      obtain ⟨k1, k2, k3⟩ := h.hold h0 hh hs
      obtain ⟨U, hg⟩ := h.base.good
      have hkv := single_good hg h0.ask.key c.maxKey
      rw [h.base.abs, ← h.logs.state] at hkv
      have hread : ∀ r p, st.reads r = some p → (if r = h0.req then some st.log.length else st.reads r) = some p := by
        intro r p hp
        rw [if_neg, hp]
        intro e
        rw [e, k3] at hp; cases hp
      have hfresh : ∀ r, st.asked ≤ r → st.asks r = none ∧ (if r = h0.req then some st.log.length else st.reads r) = none := by
        intro r hr
        have := (h.reg.hold h0.req (by rw [hh]; rfl)).1
        rw [if_neg (by omega)]
        exact h.fresh r hr
      have hwait : ∀ x ∈ waiters none st.watches, Wait P st.log st.asks st.present (fun r => if r = h0.req then some st.log.length else st.reads r)
          st.node.memRev (settled st.log st.job) x := by
        intro x hx
        have := h.wait x (List.mem_append.2 (.inr hx))
        obtain ⟨p, h1, h2⟩ := this.read
        exact ⟨this.ask, this.start, p, hread _ _ h1, h2⟩
      have hright : ∀ r a, (r, a) ∈ st.answers → ∃ ask, st.asks r = some ask ∧
          (a = .nothing ∨ ∃ p, (if r = h0.req then some st.log.length else st.reads r) = some p ∧ p ≤ st.log.length ∧
            Right P st.log ask (ask.from (st.present r)) p a) := by
        intro r a hr
        obtain ⟨b, h1, h2⟩ := h.right r a hr
        refine ⟨b, h1, ?_⟩
        rcases h2 with h2 | ⟨p, g1, g2⟩
        · exact .inl h2
        · exact .inr ⟨p, hread _ _ g1, g2⟩
      have hreg0 : ∀ a : Answer, Reg st.seq st.asked st.watches st.closures ((st.answers ++ [(h0.req, a)]).map (·.1)) none := by
        intro a
        obtain ⟨a1, a2, a3, a4, a5, a6, a7, a8, a9, a10⟩ := h.reg
        obtain ⟨b1, b2, b3⟩ := a10 h0.req (by rw [hh]; rfl)
        simp only [List.map_append, List.map_cons, List.map_nil]
        refine ⟨a1, a2, a3, a4, a5, a6, ?_, ?_, ?_, fun r hr => by cases hr⟩
        · rw [List.nodup_append]
          refine ⟨a7, List.pairwise_singleton _ _, ?_⟩
          intro x hx y hy e
          rw [List.mem_singleton] at hy
          rw [e, hy] at hx
          exact b2 hx
        · intro r hr
          simp only [List.mem_append, List.mem_singleton] at hr
          rcases hr with hr | rfl
          · exact a8 r hr
          · exact b1
        · intro c hc hd
          simp only [List.mem_append, List.mem_singleton, not_or]
          exact ⟨a9 c hc hd, fun e => b3 (List.mem_map.2 ⟨c, hc, e⟩)⟩
      -- answered at once
      have done : ∀ a : Answer, Right P st.log h0.ask (h0.ask.from (st.present h0.req)) st.log.length a →
          WInv P { st with holder := none, reads := fun r => if r = h0.req then some st.log.length else st.reads r,
                           answers := st.answers ++ [(h0.req, a)] } := by
        intro a ha
        refine ⟨h.base, h.logs, h.flight, hreg0 a, hwait, (fun _ e => by cases e), hfresh, ?_, ?_, h.ok⟩
        · intro r an hr
          simp only [List.mem_append, List.mem_singleton] at hr
          rcases hr with hr | hr
          · exact hright r an hr
          · cases hr
            exact ⟨h0.ask, k1, .inr ⟨st.log.length, if_pos rfl, Nat.le_refl _, ha⟩⟩
        · intro hP r hr
          simp only [List.map_append, List.map_cons, List.map_nil, List.mem_append, List.mem_singleton]
          rcases h.all hP r hr with h1 | h1 | h1
          · exact .inl (.inl h1)
          · rw [hh] at h1
            simp only [Option.map_some, Option.some.injEq] at h1
            exact .inl (.inr h1.symm)
          · exact .inr (.inr h1)
      -- going to register
      have wait : (∀ y, stateAt st.log h0.ask.key = some y → y.mod ≤ h0.start) →
          WInv P { st with holder := some { h0 with seen := true },
                           reads := fun r => if r = h0.req then some st.log.length else st.reads r } := by
        intro hst
        refine ⟨h.base, h.logs, h.flight, ?_, ?_, ?_, hfresh, hright, ?_, h.ok⟩
        · have := h.reg
          rw [hh] at this
          exact this
        · intro x hx
          rcases List.mem_append.1 hx with hx | hx
          · simp only [if_true, List.mem_singleton] at hx
            subst hx
            refine ⟨k1, k2, st.log.length, if_pos rfl, Nat.le_refl _, by rw [List.take_length]; exact hst, ?_⟩
            intro _ i ch hi1 hi2
            have := settled_le st.log st.job
            simp only at hi2
            omega
          · exact hwait x hx
        · intro h1 e1 e2
          simp only [Option.some.injEq] at e1
          subst e1
          cases e2
        · intro hP r hr
          have := h.all hP r hr
          rw [hh] at this
          exact this
      simp only
      split
      next hnone =>
        rw [hnone] at hkv
        have hst : stateAt st.log h0.ask.key = none := by
          cases he : stateAt st.log h0.ask.key with
          | none => rfl
          | some x => rw [he] at hkv; cases hkv
        split
        · exact wait (fun y hy => by rw [hst] at hy; cases hy)
        next hw =>
          refine done .notExists ⟨by simpa using hw, ?_⟩
          rw [List.take_length]; exact hst
      next kv hsome =>
        rw [hsome] at hkv
        obtain ⟨x, hx, hkx⟩ : ∃ x, stateAt st.log h0.ask.key = some x ∧ kv = answer false (h0.ask.key, x) := by
          cases he : stateAt st.log h0.ask.key with
          | none => rw [he] at hkv; cases hkv
          | some x => rw [he] at hkv; exact ⟨x, rfl, by simpa using hkv⟩
        have hmod : kv.mod = x.mod := by rw [hkx]; rfl
        split
        next hlt =>
          refine done (.event true kv none) (.inl ⟨rfl, rfl, x, by rw [List.take_length]; exact hx, ?_, hkx⟩)
          have := k2.eq
          omega
        next hge =>
          refine wait (fun y hy => ?_)
          rw [hx] at hy; cases hy
          omega
  · exact h

theorem register_winv (h : WInv P st) : WInv P st.register := by
  unfold St.register
  split
  next h0 hh =>
    split
    next hs =>
      obtain ⟨a1, a2, a3, a4, a5, a6, a7, a8, a9, a10⟩ := h.reg
      obtain ⟨b1, b2, b3⟩ := a10 h0.req (by rw [hh]; rfl)
      refine ⟨h.base, h.logs, h.flight, ?_, ?_, (fun _ e => by cases e), h.fresh, h.right, ?_, h.ok⟩
      · refine ⟨?_, ?_, ?_, ?_, ?_, ?_, a7, a8, ?_, fun r hr => by cases hr⟩
        · simp only [List.map_cons, List.nodup_cons]
          refine ⟨?_, a1⟩
          intro hm
          obtain ⟨w, hw, e⟩ := List.mem_map.1 hm
          have := (a4 _ (a5 w hw)).1
          simp only at this
          omega
        · simp only [List.map_cons, List.nodup_cons]
          refine ⟨?_, a2⟩
          intro hm
          obtain ⟨w, hw, e⟩ := List.mem_map.1 hm
          have := (a4 w hw).1
          omega
        · simp only [List.map_cons, List.nodup_cons]
          exact ⟨b3, a3⟩
        · intro c hc
          rcases List.mem_cons.1 hc with rfl | hc
          · exact ⟨Nat.lt_succ_self _, b1⟩
          · exact ⟨Nat.lt_succ_of_lt (a4 c hc).1, (a4 c hc).2⟩
        · intro w hw
          rcases List.mem_cons.1 hw with rfl | hw
          · exact List.mem_cons_self ..
          · exact List.mem_cons_of_mem _ (a5 w hw)
        · intro c hc hd
          rcases List.mem_cons.1 hc with rfl | hc
          · exact ⟨_, List.mem_cons_self .., rfl⟩
          · obtain ⟨w, hw, e⟩ := a6 c hc hd
            exact ⟨w, List.mem_cons_of_mem _ hw, e⟩
        · intro c hc hd
          rcases List.mem_cons.1 hc with rfl | hc
          · exact b2
          · exact a9 c hc hd
      · have : waiters none (⟨st.seq, h0.req, h0.ask, h0.start⟩ :: st.watches) = waiters st.holder st.watches := by
          rw [hh]
          simp [waiters, hs]
        simp only [this]
        exact h.wait
      · intro hP r hr
        rcases h.all hP r hr with h1 | h1 | ⟨w, hw, e⟩
        · exact .inl h1
        · rw [hh] at h1
          simp only [Option.map_some, Option.some.injEq] at h1
          exact .inr (.inr ⟨_, List.mem_cons_self .., h1⟩)
        · exact .inr (.inr ⟨w, List.mem_cons_of_mem _ hw, e⟩)
    · exact h
  · exact h

theorem drop_winv (h : WInv P st) (id : Nat) : WInv P (st.remove id .nothing) := by
  by_cases hn : ∀ w ∈ st.watches, w.id ≠ id
  · rw [remove_none h.reg hn]; exact h
  · obtain ⟨w, hw⟩ := Classical.not_forall.1 hn
    obtain ⟨hw', hid⟩ := Classical.not_imp.1 hw
    have hid : w.id = id := Classical.not_not.1 hid
    clear hw
    subst hid
    rw [remove_watch h.reg hw']
    refine h.answer [w] (fun _ => .nothing) (by simpa using hw') (by simp) st.job h.base h.flight (fun _ _ _ _ => .inl rfl) ?_
    intro hP x hx
    refine h.noDue hP x ?_
    rcases List.mem_append.1 hx with hx | hx
    · exact List.mem_append.2 (.inl hx)
    · obtain ⟨w, hw, rfl⟩ := List.mem_map.1 hx
      exact mem_waiters_watch (List.mem_filter.1 hw).1

theorem reg_clear {seq asked : Nat} {ws : List Node'} {cs : List Closure} {ans : List Nat} (h : Reg seq asked ws cs ans none)
    (L : List Nat) (hL : ∀ r ∈ L, r < asked) (hn : L.Nodup) (hd : ∀ r ∈ L, r ∉ ans) : Reg seq asked [] [] (ans ++ L) none := by
  refine ⟨List.Pairwise.nil, List.Pairwise.nil, List.Pairwise.nil, (fun _ hc => by cases hc), (fun _ hc => by cases hc),
    (fun _ hc => by cases hc), ?_, ?_, (fun _ hc => by cases hc), (fun _ hc => by cases hc)⟩
  · rw [List.nodup_append]
    exact ⟨h.ans, hn, fun a ha b hb e => hd b hb (e ▸ ha)⟩
  · intro r hr
    rcases List.mem_append.1 hr with hr | hr
    · exact h.lt r hr
    · exact hL r hr

theorem step_winv (c : Conf) (h : WInv P st) (ev : Ev) (hc : P → Careful st ev = true) : WInv P (st.step c ev) := by
  cases ev with
  | begin e => exact begin_winv h e
  | draw => exact draw_winv h
  | write => exact write_winv h
  | check => exact check_winv h hc
  | fire => exact fire_winv h
  | finish => exact finish_winv h
  | lock a => exact lock_winv h c a
  | read => exact read_winv h c
  | register => exact register_winv h
  | drop id =>
    simp only [St.step]
    split
    · exact h
    · exact drop_winv h id
  | stop =>
    simp only [St.step]
    split
    · exact h
    next hn =>
      have hh : st.holder = none := by
        cases hh : st.holder with
        | none => rfl
        | some j => exact absurd (by rw [hh]; rfl) hn
      have hr := h.reg
      rw [hh] at hr
      refine ⟨h.base, h.logs, h.flight, ?_, ?_, h.hold, h.fresh, ?_, ?_, h.ok⟩
      · simp only [List.map_append, List.map_map, hh, Option.map_none]
        refine reg_clear hr _ ?_ ?_ ?_
        · intro r hr'
          obtain ⟨cl, hcl, rfl⟩ := List.mem_map.1 hr'
          exact (h.reg.cl cl (List.mem_filter.1 hcl).1).2
        · exact h.reg.creq.sublist (List.Sublist.map _ List.filter_sublist)
        · intro r hr'
          obtain ⟨cl, hcl, rfl⟩ := List.mem_map.1 hr'
          obtain ⟨h1, h2⟩ := List.mem_filter.1 hcl
          exact h.reg.open' cl h1 (by simpa using h2)
      · intro x hx
        simp only [hh] at hx
        cases hx
      · intro r an hr'
        simp only [List.mem_append, List.mem_map] at hr'
        rcases hr' with hr' | ⟨cl, hcl, e⟩
        · exact h.right r an hr'
        · cases e
          obtain ⟨h1, h2⟩ := List.mem_filter.1 hcl
          obtain ⟨w, hw, e⟩ := h.reg.cw cl h1 (by simpa using h2)
          have h3 := id_inj h.reg.cid (h.reg.wc w hw) h1 e
          have h4 : w.req = cl.req := by rw [← h3]
          exact ⟨w.ask, by rw [← h4]; exact (h.wait _ (mem_waiters_watch hw)).ask, .inl rfl⟩
      · intro hP r hr'
        simp only [List.map_append, List.map_map, List.mem_append]
        rcases h.all hP r hr' with h1 | h1 | ⟨w, hw, e⟩
        · exact .inl (.inl h1)
        · exact .inr (.inl h1)
        · exact .inl (.inr (List.mem_map.2 ⟨_, List.mem_filter.2 ⟨h.reg.wc w hw, rfl⟩, e⟩))
  | start =>
    simp only [St.step]
    split
    · exact h
    next hn =>
      have hh : st.holder = none := by
        cases hh : st.holder with
        | none => rfl
        | some j => exact absurd (by rw [hh]; rfl) hn
      have hr := h.reg
      rw [hh] at hr
      refine ⟨h.base, h.logs, h.flight, ?_, ?_, h.hold, h.fresh, h.right, ?_, h.ok⟩
      · have := reg_clear hr [] (fun _ h => by cases h) List.Pairwise.nil (fun _ h => by cases h)
        rw [List.append_nil] at this
        simp only [hh]
        exact this
      · intro x hx
        simp only [hh] at hx
        cases hx
      · intro hP r hr'
        rcases h.all hP r hr' with h1 | h1 | ⟨w, hw, _⟩
        · exact .inl h1
        · exact .inr (.inl h1)
        · have h2 := hc hP
          simp only [Careful, List.isEmpty_iff] at h2
          rw [h2] at hw; cases hw

theorem init_winv : WInv P St.init := by
  refine ⟨init_ok, ?_, (fun _ _ e => by cases e), ?_, (fun _ hx => by cases hx), (fun _ e => by cases e), fun _ _ => ⟨rfl, rfl⟩,
    (fun _ _ hx => by cases hx), fun _ _ hr => absurd hr (Nat.not_lt_zero _), rfl⟩
  · refine ⟨List.Pairwise.nil, (fun _ h => by cases h), (fun _ h => by cases h), fun _ => rfl, (fun _ _ h => by cases h)⟩
  · exact ⟨List.Pairwise.nil, List.Pairwise.nil, List.Pairwise.nil, (fun _ hc => by cases hc), (fun _ hc => by cases hc),
      (fun _ hc => by cases hc), List.Pairwise.nil, (fun _ hc => by cases hc), (fun _ hc => by cases hc), (fun _ hc => by cases hc)⟩

/-- Schedules all of whose steps are careful. -/
def CarefulRun (c : Conf) (st : St) : List Ev → Bool
  | [] => true
  | ev :: evs => Careful st ev && CarefulRun c (st.step c ev) evs

theorem run_winv (c : Conf) (evs : List Ev) (h : WInv P st) (hc : P → CarefulRun c st evs = true) : WInv P (run c st evs) := by
  induction evs generalizing st with
  | nil => exact h
  | cons ev evs ih =>
    simp only [CarefulRun, Bool.and_eq_true] at hc
    exact ih (step_winv c h ev fun hP => (hc hP).1) fun hP => (hc hP).2

end Verif.CoorKv.Watch
