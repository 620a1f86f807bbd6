import Verif.CoorKv.WatchNode

/-!
# Invariant of the one-time watches
-/

namespace Verif.CoorKv.Watch
attribute [-instance] Verif.Txn.instDecidableLt_verif Verif.Txn.KeyOrder.toLT
open Verif.Codec (Bytes)

/-! ### The log of changes -/

structure Logs (log : List Change) (S : Spec) (mem : Option Int) : Prop where
  sorted : log.Pairwise fun a b => a.rev ≤ b.rev
  le : ∀ c ∈ log, 0 < c.rev ∧ ∀ m, mem = some m → c.rev ≤ m
  mod : ∀ c ∈ log, ∀ x, c.after = some x → x.mod = c.rev
  state : ∀ k, stateAt log k = S.map k
  create : ∀ k x, S.map k = some x → 0 < x.create

theorem stateAt_snoc (log : List Change) (c : Change) (k : Bytes) :
    stateAt (log ++ [c]) k = if c.key = k then c.after else stateAt log k := by
  unfold stateAt
  by_cases h : c.key = k
  · simp [h]
  · simp [h]

/-- Every change of a key is at or before the revision of its state. -/
theorem state_mod {log : List Change} {k : Bytes} {x : Item} (hs : log.Pairwise fun a b => a.rev ≤ b.rev)
    (hm : ∀ c ∈ log, ∀ x, c.after = some x → x.mod = c.rev) (h : stateAt log k = some x) :
    ∀ c ∈ log, c.key = k → c.rev ≤ x.mod := by
  obtain ⟨r, hr⟩ : ∃ r, log = r.reverse := ⟨log.reverse, (List.reverse_reverse _).symm⟩
  subst hr
  induction r generalizing x with
  | nil => exact fun _ hc => by cases hc
  | cons d r ih =>
    rw [List.reverse_cons] at hs hm h ⊢
    generalize r.reverse = log at *
    rw [List.pairwise_append] at hs
    rw [stateAt_snoc] at h
    intro c hc hk
    rw [List.mem_append, List.mem_singleton] at hc
    split at h
    · have := hm d (by simp) x h
      rcases hc with hc | rfl
      · rw [this]; exact hs.2.2 c hc d (by simp)
      · omega
    · next hne =>
      rcases hc with hc | rfl
      · exact ih hs.1 (fun c hc => hm c (by simp [hc])) h c hc hk
      · exact absurd hk hne

/-- The change of one operation. -/
theorem Logs.write {log : List Change} {S : Spec} {m : Int} {mem : Option Int} {o : Op} (h : Logs log S mem)
    (hmem : mem = some m) (hp : 0 < m) : Logs (log ++ changeOf m S o) (S.op m o) mem := by
  have hall : ∀ c ∈ log, c.rev ≤ m := fun c hc => (h.le c hc).2 m hmem
  have one : ∀ c : Change, c.rev = m → (∀ x, c.after = some x → x.mod = m) →
      (∀ k, (S.op m o).map k = if c.key = k then c.after else S.map k) →
      (∀ k x, (S.op m o).map k = some x → 0 < x.create) → Logs (log ++ [c]) (S.op m o) mem := by
    intro c hr hm hst hcr
    refine ⟨?_, ?_, ?_, ?_, hcr⟩
    · rw [List.pairwise_append]
      refine ⟨h.sorted, List.pairwise_singleton _ _, ?_⟩
      intro a ha b hb
      rw [List.mem_singleton] at hb
      subst hb; rw [hr]; exact hall a ha
    · intro d hd
      rw [List.mem_append, List.mem_singleton] at hd
      rcases hd with hd | rfl
      · exact h.le d hd
      · rw [hr]; exact ⟨hp, fun m' hm' => by rw [hmem] at hm'; cases hm'; exact Int.le_refl _⟩
    · intro d hd
      rw [List.mem_append, List.mem_singleton] at hd
      rcases hd with hd | rfl
      · exact h.mod d hd
      · rw [hr]; exact hm
    · intro k; rw [stateAt_snoc, hst, h.state]
  cases o with
  | compact k v =>
    have e1 : changeOf m S (.compact k v) = [] := rfl
    rw [e1, List.append_nil]
    exact h
  | delete k =>
    refine one ⟨k, false, m, S.map k, none⟩ rfl (fun _ e => (nomatch e)) ?_ ?_
    · intro k'
      simp only [Spec.op, Spec.set]
      by_cases e : k' = k
      · simp [e]
      · rw [if_neg e, if_neg (fun e' => e e'.symm)]
    · intro k' x hx
      simp only [Spec.op, Spec.set] at hx
      split at hx
      · cases hx
      · exact h.create k' x hx
  | put k il l iv v =>
    by_cases hacc : 0 < (if il then ((S.map k).map (·.lease)).getD 0 else l) ∧
        S.leases (if il then ((S.map k).map (·.lease)).getD 0 else l) = none
    · have e1 : changeOf m S (.put k il l iv v) = [] := by simp only [changeOf]; exact if_pos hacc
      have e2 : S.op m (.put k il l iv v) = S := by simp only [Spec.op]; exact if_pos hacc
      rw [e1, e2, List.append_nil]; exact h
    · have e1 : changeOf m S (.put k il l iv v) = [⟨k, true, m, S.map k, (S.op m (.put k il l iv v)).map k⟩] := by
        simp only [changeOf]; exact if_neg hacc
      have e2 : S.op m (.put k il l iv v) = S.set k (some ⟨if iv then ((S.map k).map (·.value)).getD [] else v,
          ((S.map k).map (·.create)).getD m, m, ((S.map k).map (·.version)).getD 0 + 1,
          if il then ((S.map k).map (·.lease)).getD 0 else l⟩) := by
        simp only [Spec.op]; exact if_neg hacc
      rw [e1]
      refine one _ rfl ?_ ?_ ?_
      · intro x hx
        simp only at hx
        rw [e2, set_map] at hx
        cases hx; rfl
      · intro k'
        rw [e2, set_map]
        simp only [Spec.set]
        by_cases e : k' = k
        · simp [e]
        · rw [if_neg e, if_neg (fun e' => e e'.symm)]
      · intro k' x hx
        rw [e2] at hx
        simp only [Spec.set] at hx
        split at hx
        · cases hx
          cases hk : S.map k with
          | none => simpa [hk] using hp
          | some y => simpa [hk] using h.create k y hk
        · exact h.create k' x hx

/-! ### Registered watches -/

structure Reg (seq asked : Nat) (ws : List Node') (cs : List Closure) (as : List Nat) (hr : Option Nat) : Prop where
  wid : (ws.map (·.id)).Nodup
  cid : (cs.map (·.id)).Nodup
  creq : (cs.map (·.req)).Nodup
  cl : ∀ c ∈ cs, c.id < seq ∧ c.req < asked
  wc : ∀ w ∈ ws, ⟨w.id, w.req, w.ask.key, false⟩ ∈ cs
  cw : ∀ c ∈ cs, c.done = false → ∃ w ∈ ws, w.id = c.id
  ans : as.Nodup
  lt : ∀ r ∈ as, r < asked
  open' : ∀ c ∈ cs, c.done = false → c.req ∉ as
  hold : ∀ r, hr = some r → r < asked ∧ r ∉ as ∧ r ∉ cs.map (·.req)

theorem id_inj {cs : List Closure} (h : (cs.map (·.id)).Nodup) {a b : Closure} (ha : a ∈ cs) (hb : b ∈ cs) (e : a.id = b.id) :
    a = b := by
  induction cs with
  | nil => cases ha
  | cons c cs ih =>
    rw [List.map_cons, List.nodup_cons] at h
    rcases List.mem_cons.1 ha with ha | ha
    · rcases List.mem_cons.1 hb with hb | hb
      · rw [ha, hb]
      · exact absurd (List.mem_map.2 ⟨b, hb, by rw [← e, ha]⟩) h.1
    · rcases List.mem_cons.1 hb with hb | hb
      · exact absurd (List.mem_map.2 ⟨a, ha, by rw [e, hb]⟩) h.1
      · exact ih h.2 ha hb

theorem wid_inj {ws : List Node'} (h : (ws.map (·.id)).Nodup) {a b : Node'} (ha : a ∈ ws) (hb : b ∈ ws) (e : a.id = b.id) :
    a = b := by
  induction ws with
  | nil => cases ha
  | cons c cs ih =>
    rw [List.map_cons, List.nodup_cons] at h
    rcases List.mem_cons.1 ha with ha | ha
    · rcases List.mem_cons.1 hb with hb | hb
      · rw [ha, hb]
      · exact absurd (List.mem_map.2 ⟨b, hb, by rw [← e, ha]⟩) h.1
    · rcases List.mem_cons.1 hb with hb | hb
      · exact absurd (List.mem_map.2 ⟨a, ha, by rw [e, hb]⟩) h.1
      · exact ih h.2 ha hb

theorem find_of_mem {cs : List Closure} (h : (cs.map (·.id)).Nodup) {c : Closure} (hc : c ∈ cs) :
    cs.find? (fun c' => c'.id = c.id) = some c := by
  cases hf : cs.find? (fun c' => decide (c'.id = c.id)) with
  | none =>
    have := List.find?_eq_none.1 hf c hc
    simp at this
  | some d =>
    have h1 := List.mem_of_find?_eq_some hf
    have h2 := List.find?_some hf
    simp only [decide_eq_true_eq] at h2
    rw [id_inj h h1 hc h2]

/-- Closing closures. -/
def close (L : List Nat) (cs : List Closure) : List Closure :=
  cs.map fun c => if c.id ∈ L then { c with done := true } else c

theorem close_id (L : List Nat) (cs : List Closure) : (close L cs).map (·.id) = cs.map (·.id) := by
  simp only [close, List.map_map]
  refine List.map_congr_left fun c _ => ?_
  simp only [Function.comp]
  split <;> rfl

theorem close_req (L : List Nat) (cs : List Closure) : (close L cs).map (·.req) = cs.map (·.req) := by
  simp only [close, List.map_map]
  refine List.map_congr_left fun c _ => ?_
  simp only [Function.comp]
  split <;> rfl

theorem mem_close {L : List Nat} {cs : List Closure} {c : Closure} :
    c ∈ close L cs ↔ (c ∈ cs ∧ c.id ∉ L) ∨ (c.id ∈ L ∧ c.done = true ∧ ∃ d, ⟨c.id, c.req, c.key, d⟩ ∈ cs) := by
  simp only [close, List.mem_map]
  constructor
  · rintro ⟨d, hd, rfl⟩
    by_cases h : d.id ∈ L
    · rw [if_pos h]; exact .inr ⟨h, rfl, d.done, hd⟩
    · rw [if_neg h]; exact .inl ⟨hd, h⟩
  · rintro (⟨h1, h2⟩ | ⟨h1, h2, d, h3⟩)
    · exact ⟨c, h1, if_neg h2⟩
    · refine ⟨_, h3, ?_⟩
      rw [if_pos h1]
      cases c; simp_all

/-- Answering some of the registered watches. -/
def St.answer (st : St) (L : List Node') (a : Node' → Answer) : St :=
  { st with
    closures := close (L.map (·.id)) st.closures
    answers := st.answers ++ L.map fun w => (w.req, a w)
    watches := st.watches.filter fun w => decide (w.id ∉ L.map (·.id)) }

theorem Reg.req_inj {seq asked : Nat} {ws : List Node'} {cs : List Closure} {ans : List Nat} {hr : Option Nat}
    (h : Reg seq asked ws cs ans hr) : ∀ w ∈ ws, ∀ w' ∈ ws, w.req = w'.req → w = w' := by
  intro w hw w' hw' e
  have h1 := h.wc w hw
  have h2 := h.wc w' hw'
  have : (⟨w.id, w.req, w.ask.key, false⟩ : Closure) = ⟨w'.id, w'.req, w'.ask.key, false⟩ := by
    have hn := h.creq
    clear h
    induction cs with
    | nil => cases h1
    | cons c cs ih =>
      rw [List.map_cons, List.nodup_cons] at hn
      rcases List.mem_cons.1 h1 with e1 | h1
      · rcases List.mem_cons.1 h2 with e2 | h2
        · rw [e1, e2]
        · exact absurd (List.mem_map.2 ⟨_, h2, by rw [← e1]; exact e.symm⟩) hn.1
      · rcases List.mem_cons.1 h2 with e2 | h2
        · exact absurd (List.mem_map.2 ⟨_, h1, by rw [← e2]; exact e⟩) hn.1
        · exact ih h1 h2 hn.2
  exact wid_inj h.wid hw hw' (by injection this)

theorem Reg.answer {seq asked : Nat} {ws : List Node'} {cs : List Closure} {ans : List Nat} {hr : Option Nat}
    (h : Reg seq asked ws cs ans hr) (L : List Node') (hL : ∀ w ∈ L, w ∈ ws) (hn : (L.map (·.id)).Nodup) :
    Reg seq asked (ws.filter fun w => decide (w.id ∉ L.map (·.id))) (close (L.map (·.id)) cs) (ans ++ L.map (·.req)) hr := by
  have hreq := h.req_inj
  refine ⟨?_, ?_, ?_, ?_, ?_, ?_, ?_, ?_, ?_, ?_⟩
  · exact h.wid.sublist (List.Sublist.map _ (List.filter_sublist))
  · rw [close_id]; exact h.cid
  · rw [close_req]; exact h.creq
  · intro c hc
    rcases mem_close.1 hc with ⟨a, _⟩ | ⟨_, _, d, b⟩
    · exact h.cl c a
    · have := h.cl _ b; exact this
  · intro w hw
    rw [List.mem_filter] at hw
    exact mem_close.2 (.inl ⟨h.wc w hw.1, by simpa using hw.2⟩)
  · intro c hc hd
    rcases mem_close.1 hc with ⟨a, b⟩ | ⟨_, b, _⟩
    · obtain ⟨w, hw, e⟩ := h.cw c a hd
      exact ⟨w, List.mem_filter.2 ⟨hw, by rw [e]; exact decide_eq_true b⟩, e⟩
    · rw [b] at hd; cases hd
  · rw [List.nodup_append]
    refine ⟨h.ans, ?_, ?_⟩
    · clear h
      induction L with
      | nil => exact List.Pairwise.nil
      | cons w L ih =>
        rw [List.map_cons, List.nodup_cons] at hn ⊢
        refine ⟨?_, ih (fun w hw => hL w (List.mem_cons_of_mem _ hw)) hn.2⟩
        intro hm
        obtain ⟨w', hw', e⟩ := List.mem_map.1 hm
        have := hreq w' (hL w' (List.mem_cons_of_mem _ hw')) w (hL w (List.mem_cons_self ..)) e
        exact hn.1 (List.mem_map.2 ⟨w', hw', by rw [this]⟩)
    · intro a ha b hb e
      obtain ⟨w, hw, rfl⟩ := List.mem_map.1 hb
      exact h.open' _ (h.wc w (hL w hw)) rfl (e ▸ ha)
  · intro r hr'
    rcases List.mem_append.1 hr' with hr' | hr'
    · exact h.lt r hr'
    · obtain ⟨w, hw, rfl⟩ := List.mem_map.1 hr'
      exact (h.cl _ (h.wc w (hL w hw))).2
  · intro c hc hd
    rcases mem_close.1 hc with ⟨a, b⟩ | ⟨_, b, _⟩
    · rw [List.mem_append]
      rintro (hm | hm)
      · exact h.open' c a hd hm
      · obtain ⟨w, hw, e⟩ := List.mem_map.1 hm
        obtain ⟨w2, hw2, e2⟩ := h.cw c a hd
        have h3 := id_inj h.cid (h.wc w2 hw2) a e2
        have h4 : w2.req = c.req := by rw [← h3]
        have := hreq w (hL w hw) w2 hw2 (by rw [e, h4])
        subst this
        exact b (List.mem_map.2 ⟨w, hw, e2⟩)
    · rw [b] at hd; cases hd
  · intro r hr'
    obtain ⟨a, b, c⟩ := h.hold r hr'
    refine ⟨a, ?_, by rw [close_req]; exact c⟩
    rw [List.mem_append]
    rintro (hm | hm)
    · exact b hm
    · obtain ⟨w, hw, e⟩ := List.mem_map.1 hm
      exact c (List.mem_map.2 ⟨_, h.wc w (hL w hw), e⟩)

theorem answer_nil (st : St) (a : Node' → Answer) : st.answer [] a = st := by
  have h1 : close [] st.closures = st.closures := by simp [close]
  have h2 : st.watches.filter (fun _ => true) = st.watches := by simp
  simp only [St.answer, List.map_nil, List.append_nil, List.not_mem_nil, not_false_eq_true, decide_true, h1, h2]

/-- `RemoveOneTimeWatchWithLock` of a registered watch answers it. -/
theorem remove_watch {st : St} {hr : Option Nat} (h : Reg st.seq st.asked st.watches st.closures (st.answers.map (·.1)) hr)
    {w : Node'} (hw : w ∈ st.watches) (a : Answer) : st.remove w.id a = st.answer [w] (fun _ => a) := by
  unfold St.remove
  have hc := h.wc w hw
  rw [show st.closures.find? (fun c => decide (c.id = w.id)) = some ⟨w.id, w.req, w.ask.key, false⟩ from
    find_of_mem h.cid hc]
  have h2 : st.watches.filter (fun v => decide (¬ (v.id = w.id ∧ v.ask.key = w.ask.key))) =
      st.watches.filter (fun v => decide (v.id ∉ [w.id])) := by
    refine List.filter_congr fun v hv => ?_
    by_cases e : v.id = w.id
    · have := wid_inj h.wid hv hw e
      subst this
      simp
    · simp [e]
  have h3 : (st.closures.map fun c' => if c'.id = w.id then { c' with done := true } else c') = close [w.id] st.closures := by
    simp only [close, List.mem_singleton]
  simp only [St.answer, List.map_cons, List.map_nil, h2, h3, Bool.false_eq_true, if_false]

/-- `RemoveOneTimeWatchWithLock` of anything else does nothing. -/
theorem remove_none {st : St} {hr : Option Nat} (h : Reg st.seq st.asked st.watches st.closures (st.answers.map (·.1)) hr)
    {id : Nat} (hn : ∀ w ∈ st.watches, w.id ≠ id) (a : Answer) : st.remove id a = st := by
  unfold St.remove
  cases hf : st.closures.find? (fun c => decide (c.id = id)) with
  | none => rfl
  | some c =>
    have hc := List.mem_of_find?_eq_some hf
    have hid : c.id = id := by have := List.find?_some hf; simpa using this
    cases hd : c.done with
    | false =>
      obtain ⟨w, hw, he⟩ := h.cw c hc hd
      exact absurd (by rw [he, hid]) (hn w hw)
    | true =>
      have h3 : st.watches.filter (fun w => decide (¬ (w.id = id ∧ w.ask.key = c.key))) = st.watches := by
        rw [List.filter_eq_self]; intro w hw; simpa using Or.inl (hn w hw)
      have h4 : (st.closures.map fun c' => if c'.id = id then { c' with done := true } else c') = st.closures := by
        refine (List.map_congr_left fun c' hc' => ?_).trans (List.map_id _)
        split
        · next e =>
          have := id_inj h.cid hc' hc (by rw [e, hid])
          subst this
          cases c'; simp_all
        · rfl
      simp only [h3, h4, hd, if_true]

theorem close_close (L M : List Nat) (cs : List Closure) : close M (close L cs) = close (L ++ M) cs := by
  simp only [close, List.map_map]
  refine List.map_congr_left fun c _ => ?_
  simp only [Function.comp, List.mem_append]
  by_cases h1 : c.id ∈ L <;> by_cases h2 : c.id ∈ M <;> simp [h1, h2]

theorem answer_answer (st : St) (L M : List Node') (a : Node' → Answer) :
    (st.answer L a).answer M a = st.answer (L ++ M) a := by
  simp only [St.answer, close_close, List.map_append, List.append_assoc, List.filter_filter]
  congr 1
  refine List.filter_congr fun w _ => ?_
  simp only [List.mem_append, not_or, Bool.decide_and]
  rw [Bool.and_comm]

/-- `TriggerOneWatch` answers the watches that fire. -/
theorem trigger_eq {st : St} {hr : Option Nat} (h : Reg st.seq st.asked st.watches st.closures (st.answers.map (·.1)) hr)
    (e : Event) :
    st.trigger e = st.answer (st.watches.filter (·.fires e))
      (fun w => .event e.put e.kv (if w.ask.needPrev then some e.prev else none)) := by
  have key : ∀ (L : List Node') (st : St), Reg st.seq st.asked st.watches st.closures (st.answers.map (·.1)) hr →
      (∀ w ∈ L, w ∈ st.watches) → (L.map (·.id)).Nodup →
      L.foldl (fun st w =>
        if (st.closures.find? (fun c => c.id = w.id)).isSome then
          st.remove w.id (.event e.put e.kv (if w.ask.needPrev then some e.prev else none))
        else { st with aborted := true }) st =
      st.answer L (fun w => .event e.put e.kv (if w.ask.needPrev then some e.prev else none)) := by
    intro L
    induction L with
    | nil => intro st _ _ _; rw [answer_nil]; rfl
    | cons w L ih =>
      intro st h hL hn
      rw [List.map_cons, List.nodup_cons] at hn
      have hw := hL w (List.mem_cons_self ..)
      have hf : st.closures.find? (fun c => decide (c.id = w.id)) = some ⟨w.id, w.req, w.ask.key, false⟩ :=
        find_of_mem h.cid (h.wc w hw)
      have h1 := remove_watch h hw (.event e.put e.kv (if w.ask.needPrev then some e.prev else none))
      have h2 : st.answer [w] (fun _ => .event e.put e.kv (if w.ask.needPrev then some e.prev else none)) =
          st.answer [w] (fun w => .event e.put e.kv (if w.ask.needPrev then some e.prev else none)) := rfl
      rw [List.foldl_cons, if_pos (by rw [hf]; rfl), h1, h2, ih, answer_answer]
      · rfl
      · have := h.answer [w] (by simpa using hw) (by simp)
        simpa [St.answer] using this
      · intro v hv
        simp only [St.answer, List.mem_filter]
        refine ⟨hL v (List.mem_cons_of_mem _ hv), ?_⟩
        simp only [List.map_cons, List.map_nil, List.mem_singleton, decide_eq_true_eq]
        intro e'
        exact hn.1 (List.mem_map.2 ⟨v, hv, e'⟩)
      · exact hn.2
  exact key _ st h (fun w hw => (List.mem_filter.1 hw).1) (h.wid.sublist (List.Sublist.map _ List.filter_sublist))

/-! ### The invariant -/

/-- The changes whose event has been dealt with. -/
def settled (log : List Change) : Option Job → Nat
  | some j =>
    match j.stage with
    | .written (some _) => log.length - 1
    | .checked _ => log.length - 1
    | _ => log.length
  | none => log.length

/-- The event of the last change is being dealt with. -/
def Flight (log : List Change) (mem : Option Int) (job : Option Job) : Prop :=
  ∀ j e, job = some j → (j.stage = .written (some e) ∨ j.stage = .checked e) →
    ∃ log' c, log = log' ++ [c] ∧ Says e c ∧ mem = some c.rev

structure StartOk (mem : Option Int) (a : Ask) (present start : Int) : Prop where
  eq : start = a.from present
  now : a.start = 0 → 0 ≤ start ∧ ∀ m, mem = some m → start ≤ m

/-- The requests that wait: number, request, start revision. -/
def waiters (h : Option Holder) (ws : List Node') : List (Nat × Ask × Int) :=
  (match h with
    | some h => if h.seen then [(h.req, h.ask, h.start)] else []
    | none => []) ++ ws.map fun w => (w.req, w.ask, w.start)

structure Wait (P : Prop) (log : List Change) (asks : Nat → Option Ask) (present : Nat → Int) (reads : Nat → Option Nat) (mem : Option Int)
    (hi : Nat) (x : Nat × Ask × Int) : Prop where
  ask : asks x.1 = some x.2.1
  start : StartOk mem x.2.1 (present x.1) x.2.2
  read : ∃ p, reads x.1 = some p ∧ p ≤ log.length ∧
    (∀ y, stateAt (log.take p) x.2.1.key = some y → y.mod ≤ x.2.2) ∧ (P → NoDue log p hi x.2.1)

structure WInv (P : Prop) (st : St) : Prop where
  base : Base st.node st.spec st.job
  logs : Logs st.log st.spec st.node.memRev
  flight : Flight st.log st.node.memRev st.job
  reg : Reg st.seq st.asked st.watches st.closures (st.answers.map (·.1)) (st.holder.map (·.req))
  wait : ∀ x ∈ waiters st.holder st.watches, Wait P st.log st.asks st.present st.reads st.node.memRev (settled st.log st.job) x
  hold : ∀ h, st.holder = some h → h.seen = false →
    st.asks h.req = some h.ask ∧ StartOk st.node.memRev h.ask (st.present h.req) h.start ∧ st.reads h.req = none
  fresh : ∀ r, st.asked ≤ r → st.asks r = none ∧ st.reads r = none
  right : ∀ r a, (r, a) ∈ st.answers → ∃ ask, st.asks r = some ask ∧
    (a = .nothing ∨ ∃ p, st.reads r = some p ∧ p ≤ st.log.length ∧ Right P st.log ask (ask.from (st.present r)) p a)
  all : P → ∀ r, r < st.asked →
    r ∈ st.answers.map (·.1) ∨ st.holder.map (·.req) = some r ∨ ∃ w ∈ st.watches, w.req = r
  ok : st.aborted = false

theorem NoDue.append {log : List Change} {lo hi : Nat} {a : Ask} (h : NoDue log lo hi a) (l : List Change) (hh : hi ≤ log.length) :
    NoDue (log ++ l) lo hi a := by
  intro i c h1 h2 h3
  rw [List.getElem?_append_left (by omega)] at h3
  exact h i c h1 h2 h3

theorem Right.append {P : Prop} {log : List Change} {a : Ask} {f : Int} {p : Nat} {ans : Answer} (h : Right P log a f p ans)
    (hp : p ≤ log.length) (l : List Change) : Right P (log ++ l) a f p ans := by
  have ht : (log ++ l).take p = log.take p := List.take_append_of_le_length hp
  cases ans with
  | nothing => trivial
  | notExists => exact ⟨h.1, by rw [ht]; exact h.2⟩
  | event put kv prev =>
    rcases h with ⟨h1, h2, x, h3, h4⟩ | ⟨i, c, h1, h2, h3, h4, h5, h6, h7, h8, h9, h10⟩
    · exact .inl ⟨h1, h2, x, by rw [ht]; exact h3, h4⟩
    · have hi : i < log.length := (List.getElem?_eq_some_iff.1 h2).1
      refine .inr ⟨i, c, h1, ?_, h3, h4, h5, h6, h7, h8, h9, fun hP => (h10 hP).append l (by omega)⟩
      rw [List.getElem?_append_left hi]; exact h2

theorem StartOk.given {mem : Option Int} {a : Ask} {pres start : Int} (h : StartOk mem a pres start) (h0 : a.start ≠ 0) :
    start = a.start := by rw [h.eq, Ask.from, if_neg h0]

theorem StartOk.mono {mem mem' : Option Int} {a : Ask} {pres start : Int} (h : StartOk mem a pres start)
    (hm : ∀ m', mem' = some m' → ∃ m, mem = some m ∧ m ≤ m') : StartOk mem' a pres start := by
  refine ⟨h.eq, fun h0 => ⟨(h.now h0).1, fun m' hm' => ?_⟩⟩
  obtain ⟨m, h1, h2⟩ := hm m' hm'
  have := (h.now h0).2 m h1
  omega

/-- Steps of the apply thread that change no key. -/
theorem WInv.apply {P : Prop} {st : St} (h : WInv P st) {node' : Node} {spec' : Spec} {job' : Option Job}
    (hb : Base node' spec' job') (hmap : spec'.map = st.spec.map)
    (hm : ∀ m', node'.memRev = some m' → ∃ m, st.node.memRev = some m ∧ m ≤ m')
    (hs : P → ∀ x ∈ waiters st.holder st.watches, ∀ p, st.reads x.1 = some p →
      NoDue st.log p (settled st.log job') x.2.1)
    (hf : Flight st.log node'.memRev job') : WInv P { st with node := node', spec := spec', job := job' } := by
  refine ⟨hb, ?_, hf, h.reg, ?_, ?_, h.fresh, h.right, h.all, h.ok⟩
  · refine ⟨h.logs.sorted, fun c hc => ⟨(h.logs.le c hc).1, fun m' hm' => ?_⟩, h.logs.mod, ?_, ?_⟩
    · obtain ⟨m, h1, h2⟩ := hm m' hm'
      exact Int.le_trans ((h.logs.le c hc).2 m h1) h2
    · simp only [hmap]; exact h.logs.state
    · simp only [hmap]; exact h.logs.create
  · intro x hx
    have := h.wait x hx
    obtain ⟨p, h1, h2, h3, _⟩ := this.read
    exact ⟨this.ask, this.start.mono hm, p, h1, h2, h3, fun hP => hs hP x hx p h1⟩
  · intro h0 e1 e2
    obtain ⟨a, b, c⟩ := h.hold h0 e1 e2
    exact ⟨a, b.mono hm, c⟩

theorem WInv.noDue {P : Prop} {st : St} (h : WInv P st) (hP : P) : ∀ x ∈ waiters st.holder st.watches, ∀ p,
    st.reads x.1 = some p → NoDue st.log p (settled st.log st.job) x.2.1 := by
  intro x hx p hp
  obtain ⟨q, h1, _, _, h4⟩ := (h.wait x hx).read
  rw [h1] at hp; cases hp
  exact h4 hP

end Verif.CoorKv.Watch
