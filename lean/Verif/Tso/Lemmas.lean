import Verif.Tso.Model

/-! # Timestamp oracle: invariant of histories without client updates -/

namespace Verif.Tso

/-- Events other than updates sent by clients, and requests for a positive number of
timestamps. -/
def Event.Plain : Event → Prop
  | .admin _ _ => False
  | .ask _ count => 0 < count
  | _ => True

def Entry.physical (e : Entry) : Int := match e.cmd with | .update p _ _ => p | .reset p _ _ _ => p
def Entry.logical (e : Entry) : Int := match e.cmd with | .update _ l _ => l | .reset _ l _ _ => l
def Entry.save (e : Entry) : Int := match e.cmd with | .update _ _ s => s | .reset _ _ s _ => s

/-- What every entry looks like. -/
structure EntryOk (e : Entry) : Prop where
  cmd : e.cmd = .update e.physical 0 e.save
  src : e.src ≠ .admin
  pos : 0 < e.physical
  lt : e.physical < e.save

def Entry.before (a b : Entry) : Prop := a.term ≤ b.term ∧ a.physical < b.physical ∧ a.save ≤ b.save

structure SnapOk (log : List Entry) (s : Nat × Int) : Prop where
  le : s.1 ≤ log.length
  past : ∀ e ∈ log.take s.1, e.save ≤ s.2
  attained : s.2 = 0 ∨ ∃ e ∈ log.take s.1, e.save = s.2
  future : ∀ e ∈ log.drop s.1, s.2 ≤ e.save

structure NodeOk (log : List Entry) (n : Node) : Prop where
  snap : SnapOk log (n.applied, n.obj.lastSave)
  physical : n.obj.physical = 0 ∨ ∃ e ∈ log.take n.applied, e.physical = n.obj.physical
  future : ∀ e ∈ log.drop n.applied, n.obj.physical < e.physical
  leadPast : ∀ t, n.term = some t → ∀ e ∈ log.take n.applied, e.term ≤ t
  leadFuture : ∀ t, n.term = some t → ∀ e ∈ log.drop n.applied, t ≤ e.term
  free : ∀ t, n.term = some t → n.busy = false → ∀ e ∈ log.take n.applied, e.physical ≤ n.obj.physical
  synced : ∀ t, n.term = some t → n.synced = true → ∃ e ∈ log.take n.applied, e.term = t ∧ e.physical = n.obj.physical

structure Inv (c : Cluster) : Prop where
  ok : ∀ e ∈ c.log, EntryOk e
  sorted : c.log.Pairwise Entry.before
  terms : ∀ e ∈ c.log, e.term ≤ c.term
  node : ∀ i, NodeOk c.log (c.node i)
  lead : ∀ i t, (c.node i).term = some t → t ≤ c.term
  one : ∀ i j t, (c.node i).term = some t → (c.node j).term = some t → i = j
  idle : ∀ i, (c.node i).term = some c.term → (c.node i).busy = false →
    c.pending = [] ∧ (c.node i).applied = c.log.length
  busy : ∀ i, (c.node i).term = some c.term → c.pending.length + c.log.length ≤ (c.node i).applied + 1
  pend : ∀ q ∈ c.pending, EntryOk q ∧ q.term = c.term ∧ ∀ e ∈ c.log, e.before q
  pend1 : c.pending.length ≤ 1
  snaps : ∀ s ∈ c.snaps, SnapOk c.log s

theorem Inv.init : Inv {} where
  ok := by simp
  sorted := by simp
  terms := by simp
  node := fun i => ⟨⟨by simp, by simp, by simp, by simp⟩, by simp, by simp, by simp, by simp, by simp, by simp⟩
  lead := by simp
  one := by simp
  idle := by simp
  busy := by simp
  pend := by simp
  pend1 := by simp
  snaps := by simp

theorem SnapOk.append {log : List Entry} {s : Nat × Int} (h : SnapOk log s) {q : Entry} (hs : s.2 ≤ q.save) :
    SnapOk (log ++ [q]) s := by
  have e1 : (log ++ [q]).take s.1 = log.take s.1 := List.take_append_of_le_length h.le
  have e2 : (log ++ [q]).drop s.1 = log.drop s.1 ++ [q] := List.drop_append_of_le_length h.le
  refine ⟨by have := h.le; simp; omega, by rw [e1]; exact h.past, by rw [e1]; exact h.attained, ?_⟩
  rw [e2]
  intro e he
  rcases List.mem_append.1 he with he | he
  · exact h.future e he
  · rw [List.mem_singleton.1 he]; exact hs

theorem SnapOk.bound {log : List Entry} {s : Nat × Int} (h : SnapOk log s) {q : Entry} (hq : EntryOk q)
    (hb : ∀ e ∈ log, e.before q) : s.2 ≤ q.save := by
  rcases h.attained with h1 | ⟨e, h1, h2⟩
  · have := hq.pos; have := hq.lt; omega
  · have := (hb e (List.mem_of_mem_take h1)).2.2; omega

theorem NodeOk.append {log : List Entry} {n : Node} (h : NodeOk log n) {q : Entry} (hq : EntryOk q)
    (hb : ∀ e ∈ log, e.before q) (ht : ∀ t, n.term = some t → t ≤ q.term) : NodeOk (log ++ [q]) n := by
  have e1 : (log ++ [q]).take n.applied = log.take n.applied := List.take_append_of_le_length h.snap.le
  have e2 : (log ++ [q]).drop n.applied = log.drop n.applied ++ [q] := List.drop_append_of_le_length h.snap.le
  refine ⟨h.snap.append (h.snap.bound hq hb), by rw [e1]; exact h.physical, ?_, by rw [e1]; exact h.leadPast, ?_,
    by rw [e1]; exact h.free, by rw [e1]; exact h.synced⟩
  · rw [e2]
    intro e he
    rcases List.mem_append.1 he with he | he
    · exact h.future e he
    · rw [List.mem_singleton.1 he]
      rcases h.physical with h1 | ⟨e, h1, h2⟩
      · have := hq.pos; omega
      · have := (hb e (List.mem_of_mem_take h1)).2.1; omega
  · rw [e2]
    intro t h1 e he
    rcases List.mem_append.1 he with he | he
    · exact h.leadFuture t h1 e he
    · rw [List.mem_singleton.1 he]; exact ht t h1

/-- Lists cut at a position. -/
theorem take_succ_mem {log : List Entry} {k : Nat} {e : Entry} (h : log[k]? = some e) {x : Entry} :
    x ∈ log.take (k + 1) ↔ x ∈ log.take k ∨ x = e := by
  rw [List.take_add_one, h]; simp

theorem drop_cons {log : List Entry} {k : Nat} {e : Entry} (h : log[k]? = some e) :
    log.drop k = e :: log.drop (k + 1) := by
  obtain ⟨hk, he⟩ := List.getElem?_eq_some_iff.1 h
  rw [← he]
  exact List.drop_eq_getElem_cons hk

theorem before_take_drop {log : List Entry} (h : log.Pairwise Entry.before) {k : Nat} {a b : Entry}
    (ha : a ∈ log.take k) (hb : b ∈ log.drop k) : a.before b := by
  rw [← List.take_append_drop k log] at h
  exact (List.pairwise_append.1 h).2.2 a ha b hb

/-- A replica applies the next entry. -/
theorem NodeOk.apply {log : List Entry} {n : Node} (h : NodeOk log n) (hs : log.Pairwise Entry.before)
    (hok : ∀ e ∈ log, EntryOk e) {e : Entry} (he : log[n.applied]? = some e) (ht : ∀ t, n.term = some t → ¬ t < e.term) :
    NodeOk log (n.applyEntry e) ∧ (n.applyEntry e).applied = n.applied + 1 ∧ (n.applyEntry e).term = n.term ∧
      (n.applyEntry e).obj = ⟨e.physical, 0, e.save⟩ ∧ n.obj.physical < e.physical ∧
      ((n.applyEntry e).busy = false → n.busy = false ∨ n.term = some e.term) := by
  have hd := drop_cons he
  have hmem : e ∈ log.drop n.applied := by rw [hd]; simp
  have hlog : e ∈ log := List.mem_of_mem_drop hmem
  have hE := hok e hlog
  have h1 := h.future e hmem
  have h2 := h.snap.future e hmem
  simp only at h2
  have hcmd : applyCmd n.obj e.cmd = some ⟨e.physical, 0, e.save⟩ := by
    rw [hE.cmd]
    simp only [applyCmd, updateTso]
    rw [if_neg (by omega)]
  have hpast : ∀ x ∈ log.take n.applied, x.before e := fun x hx => before_take_drop hs hx hmem
  have hfut : ∀ x ∈ log.drop (n.applied + 1), e.before x := by
    intro x hx
    have : (log.drop n.applied).Pairwise Entry.before := hs.sublist (List.drop_sublist _ _)
    rw [hd] at this
    exact (List.pairwise_cons.1 this).1 x hx
  have hle : n.applied + 1 ≤ log.length := by
    have := (List.getElem?_eq_some_iff.1 he).1; omega
  have hobj : (n.applyEntry e).obj = ⟨e.physical, 0, e.save⟩ := by simp [Node.applyEntry, hcmd]
  have happ : (n.applyEntry e).applied = n.applied + 1 := rfl
  have hterm : (n.applyEntry e).term = n.term := rfl
  have hbusy : (n.applyEntry e).busy = if n.term = some e.term then false else n.busy := by
    simp [Node.applyEntry, hE.src]
  have hsync : (n.applyEntry e).synced = if n.term = some e.term then true else n.synced := by
    simp [Node.applyEntry, hE.src, hcmd]
  refine ⟨?_, rfl, rfl, hobj, h1, ?_⟩
  · constructor
    · rw [hobj, happ]
      refine ⟨hle, ?_, Or.inr ⟨e, (take_succ_mem he).2 (Or.inr rfl), rfl⟩, fun x hx => (hfut x hx).2.2⟩
      intro x hx
      rcases (take_succ_mem he).1 hx with hx | hx
      · exact (hpast x hx).2.2
      · rw [hx]; simp
    · rw [hobj, happ]
      exact Or.inr ⟨e, (take_succ_mem he).2 (Or.inr rfl), rfl⟩
    · rw [hobj, happ]
      exact fun x hx => (hfut x hx).2.1
    · rw [happ, hterm]
      intro t h3 x hx
      rcases (take_succ_mem he).1 hx with hx | hx
      · exact h.leadPast t h3 x hx
      · have := ht t h3; rw [hx]; omega
    · rw [happ, hterm]
      intro t h3 x hx
      exact h.leadFuture t h3 x (by rw [hd]; exact List.mem_cons_of_mem _ hx)
    · rw [happ, hterm, hobj]
      intro t h3 _ x hx
      rcases (take_succ_mem he).1 hx with hx | hx
      · have := (hpast x hx).2.1; simp only; omega
      · rw [hx]; simp
    · rw [happ, hterm, hobj, hsync]
      intro t h3 h4
      refine ⟨e, (take_succ_mem he).2 (Or.inr rfl), ?_, rfl⟩
      have e1 := ht t h3
      have e2 := h.leadFuture t h3 e hmem
      omega
  · intro h3
    rw [hbusy] at h3
    by_cases h4 : n.term = some e.term
    · exact Or.inr h4
    · rw [if_neg h4] at h3; exact Or.inl h3

theorem NodeOk.install {log : List Entry} {n : Node} (h : NodeOk log n) {s : Nat × Int} (hs : SnapOk log s)
    (ht : n.term = none) (hle : n.applied ≤ s.1) :
    NodeOk log { n with applied := s.1, obj := { n.obj with lastSave := s.2 } } := by
  refine ⟨hs, ?_, ?_, ?_, ?_, ?_, ?_⟩
  · rcases h.physical with h1 | ⟨e, h1, h2⟩
    · exact Or.inl h1
    · refine Or.inr ⟨e, ?_, h2⟩
      have : log.take n.applied = (log.take s.1).take n.applied := by rw [List.take_take, Nat.min_eq_left hle]
      rw [this] at h1
      exact List.mem_of_mem_take h1
  · intro e he
    apply h.future
    have : log.drop s.1 = (log.drop n.applied).drop (s.1 - n.applied) := by rw [List.drop_drop]; congr 1; omega
    simp only at he
    rw [this] at he
    exact List.mem_of_mem_drop he
  all_goals (intro t h1; simp only [ht] at h1; cases h1)

theorem NodeOk.fresh {log : List Entry} (hok : ∀ e ∈ log, EntryOk e) {s : Nat × Int} (hs : SnapOk log s) :
    NodeOk log { applied := s.1, obj := { lastSave := s.2 } } := by
  refine ⟨hs, Or.inl rfl, fun e he => (hok e (List.mem_of_mem_drop he)).pos, ?_, ?_, ?_, ?_⟩
  all_goals (intro t h1; cases h1)

theorem SnapOk.zero {log : List Entry} (hok : ∀ e ∈ log, EntryOk e) : SnapOk log (0, 0) :=
  ⟨by simp, by simp, by simp, fun e he => by
    have h0 := hok e (List.mem_of_mem_drop he); have := h0.pos; have := h0.lt
    simp only; omega⟩

/-- What `GenTso` does to a replica. -/
theorem gen_spec (n : Node) (k : Nat) :
    ((n.gen k).2 = none ∧ (n.gen k).1 = n) ∨
    ∃ count, count ∈ n.waiting ∧ n.obj.physical ≠ 0 ∧ n.obj.logical + count < maxLogical ∧
      (n.gen k).2 = some ⟨n.term, n.obj.physical, n.obj.logical, count, n.synced⟩ ∧
      (n.gen k).1 = { n with obj := { n.obj with logical := n.obj.logical + count }, waiting := n.waiting.eraseIdx k } := by
  unfold Node.gen
  split
  · exact Or.inl ⟨rfl, rfl⟩
  · rename_i count ht
    split
    · exact Or.inl ⟨rfl, rfl⟩
    · rename_i h1
      split
      · rename_i h2
        exact Or.inr ⟨count, List.mem_of_getElem? ht, h1, h2, rfl, rfl⟩
      · exact Or.inl ⟨rfl, rfl⟩

theorem ask_spec (n : Node) (count : Int) : n.ask count = n ∨
    n.ask count = { n with waiting := n.waiting ++ [count] } := by
  unfold Node.ask
  split
  · exact Or.inl rfl
  · exact Or.inr rfl

theorem NodeOk.wait {log : List Entry} {n : Node} (h : NodeOk log n) (l : List Int) :
    NodeOk log { n with waiting := l } :=
  ⟨h.snap, h.physical, h.future, h.leadPast, h.leadFuture, h.free, h.synced⟩

theorem NodeOk.logical {log : List Entry} {n : Node} (h : NodeOk log n) (l : Int) (w : List Int) :
    NodeOk log { n with obj := { n.obj with logical := l }, waiting := w } :=
  ⟨h.snap, h.physical, h.future, h.leadPast, h.leadFuture, h.free, h.synced⟩

theorem set_node (c : Cluster) (i : Nat) (n : Node) (j : Nat) :
    (c.set i n).node j = if j = i then n else c.node j := rfl

/-- Changing one replica in a way that keeps its term and position. -/
theorem Inv.set_same {c : Cluster} (h : Inv c) {i : Nat} {n : Node} (hn : NodeOk c.log n)
    (ht : n.term = (c.node i).term) (ha : n.applied = (c.node i).applied) (hb : n.busy = false → (c.node i).busy = false) :
    Inv (c.set i n) := by
  have key : ∀ j, ((c.set i n).node j).term = (c.node j).term := by
    intro j; rw [set_node]; split
    · rename_i h1; rw [h1, ht]
    · rfl
  have keya : ∀ j, ((c.set i n).node j).applied = (c.node j).applied := by
    intro j; rw [set_node]; split
    · rename_i h1; rw [h1, ha]
    · rfl
  refine ⟨h.ok, h.sorted, h.terms, ?_, ?_, ?_, ?_, ?_, h.pend, h.pend1, h.snaps⟩
  · intro j; rw [set_node]; split
    · exact hn
    · exact h.node j
  · intro j t h1; rw [key] at h1; exact h.lead j t h1
  · intro j k t h1 h2; rw [key] at h1 h2; exact h.one j k t h1 h2
  · intro j h1 h2
    rw [key] at h1
    rw [keya]
    refine h.idle j h1 ?_
    rw [set_node] at h2
    split at h2
    · rename_i h3; rw [h3]; exact hb h2
    · exact h2
  · intro j h1; rw [key] at h1; rw [keya]; exact h.busy j h1

/-- A replica that is not leader afterwards. -/
theorem Inv.set_none {c : Cluster} (h : Inv c) {i : Nat} {n : Node} (hn : NodeOk c.log n) (ht : n.term = none) :
    Inv (c.set i n) := by
  have key : ∀ j t, ((c.set i n).node j).term = some t → (c.set i n).node j = c.node j ∧ (c.node j).term = some t := by
    intro j t; rw [set_node]; split
    · intro h1; rw [ht] at h1; cases h1
    · intro h1; exact ⟨rfl, h1⟩
  refine ⟨h.ok, h.sorted, h.terms, ?_, ?_, ?_, ?_, ?_, h.pend, h.pend1, h.snaps⟩
  · intro j; rw [set_node]; split
    · exact hn
    · exact h.node j
  · intro j t h1; exact h.lead j t (key j t h1).2
  · intro j k t h1 h2; exact h.one j k t (key j t h1).2 (key k t h2).2
  · intro j h1 h2
    obtain ⟨e1, e2⟩ := key j _ h1
    rw [e1] at h2 ⊢
    exact h.idle j e2 h2
  · intro j h1
    obtain ⟨e1, e2⟩ := key j _ h1
    rw [e1]; exact h.busy j e2

theorem timerCmd_spec {o : Obj} {now : Int} {cmd : Cmd} (h : timerCmd o now = some cmd) :
    ∃ p s, cmd = .update p 0 s ∧ o.physical < p ∧ o.lastSave ≤ s ∧ p < s := by
  unfold timerCmd at h
  by_cases hg : now - o.physical > guardMs ∨ o.logical > maxLogical / 2
  · simp only [hg, if_true, Option.some.injEq] at h
    have g1 : guardMs = 1 := rfl
    have g2 : saveMs = 3000 := rfl
    refine ⟨_, _, h.symm, ?_, ?_, ?_⟩ <;> split <;> (try split) <;> omega
  · simp only [hg, if_false] at h; cases h

theorem Inv.step {c : Cluster} (h : Inv c) {ev : Event} (hp : ev.Plain) : Inv (step c ev).1 := by
  cases ev with
  | admin i cmd => exact absurd hp id
  | snapshot i =>
    refine ⟨h.ok, h.sorted, h.terms, h.node, h.lead, h.one, h.idle, h.busy, h.pend, h.pend1, ?_⟩
    intro s hs
    rcases List.mem_append.1 hs with hs | hs
    · exact h.snaps s hs
    · rw [List.mem_singleton.1 hs]; exact (h.node i).snap
  | ask i count =>
    simp only [Tso.step]
    rcases ask_spec (c.node i) count with h2 | h2
    · rw [h2]; exact h.set_same (h.node i) rfl rfl id
    · rw [h2]; exact h.set_same ((h.node i).wait _) rfl rfl id
  | gen i k =>
    simp only [Tso.step]
    rcases gen_spec (c.node i) k with ⟨_, h2⟩ | ⟨t, _, _, _, _, h2⟩
    · rw [h2]; exact h.set_same (h.node i) rfl rfl id
    · rw [h2]; exact h.set_same ((h.node i).logical _ _) rfl rfl id
  | stop i =>
    refine h.set_none ?_ rfl
    have hn := h.node i
    refine ⟨hn.snap, hn.physical, hn.future, ?_, ?_, ?_, ?_⟩
    all_goals (intro t h1; cases h1)
  | install i s =>
    simp only [Tso.step]
    cases hs : c.snaps[s]? with
    | none => exact h
    | some sv =>
      obtain ⟨idx, save⟩ := sv
      simp only
      split
      · rename_i h1
        exact h.set_none ((h.node i).install (h.snaps _ (List.mem_of_getElem? hs)) h1.1 h1.2) h1.1
      · exact h
  | restart i s =>
    simp only [Tso.step]
    cases hs : s.bind (c.snaps[·]?) with
    | none => exact h.set_none (NodeOk.fresh h.ok (SnapOk.zero h.ok)) rfl
    | some sv =>
      obtain ⟨idx, save⟩ := sv
      obtain ⟨k, _, hk⟩ := Option.bind_eq_some_iff.1 hs
      exact h.set_none (NodeOk.fresh h.ok (h.snaps _ (List.mem_of_getElem? hk))) rfl
  | commit =>
    simp only [Tso.step]
    cases hpd : c.pending with
    | nil => exact h
    | cons q rest =>
      have hrest : rest = [] := by
        have := h.pend1; rw [hpd] at this
        cases rest with
        | nil => rfl
        | cons a l => simp at this
      subst hrest
      obtain ⟨hq1, hq2, hq3⟩ := h.pend q (by rw [hpd]; simp)
      simp only
      refine ⟨?_, ?_, ?_, ?_, h.lead, h.one, ?_, ?_, by simp, by simp, ?_⟩
      · intro e he
        rcases List.mem_append.1 he with he | he
        · exact h.ok e he
        · rw [List.mem_singleton.1 he]; exact hq1
      · rw [List.pairwise_append]
        exact ⟨h.sorted, by simp, fun a ha b hb => by rw [List.mem_singleton.1 hb]; exact hq3 a ha⟩
      · intro e he
        rcases List.mem_append.1 he with he | he
        · exact h.terms e he
        · rw [List.mem_singleton.1 he]; exact Nat.le_of_eq hq2
      · intro i
        exact (h.node i).append hq1 hq3 (fun t h1 => hq2 ▸ h.lead i t h1)
      · intro i h1 h2
        have := (h.idle i h1 h2).1
        rw [hpd] at this; cases this
      · intro i h1
        have := h.busy i h1
        rw [hpd] at this
        simp at this ⊢; omega
      · intro s hs
        exact (h.snaps s hs).append ((h.snaps s hs).bound hq1 hq3)
  | apply i =>
    simp only [Tso.step]
    cases he : c.log[(c.node i).applied]? with
    | none => exact h
    | some e =>
      simp only
      have main : (∀ t, (c.node i).term = some t → ¬ t < e.term) → Inv (c.set i ((c.node i).applyEntry e)) := by
        intro ht
        obtain ⟨h1, h2, h3, h4, h5, h6⟩ := (h.node i).apply h.sorted h.ok he ht
        have hlen : (c.node i).applied < c.log.length := (List.getElem?_eq_some_iff.1 he).1
        have key : ∀ j, ((c.set i ((c.node i).applyEntry e)).node j).term = (c.node j).term := by
          intro j; rw [set_node]; split
          · rename_i h1; rw [h1, h3]
          · rfl
        refine ⟨h.ok, h.sorted, h.terms, ?_, ?_, ?_, ?_, ?_, h.pend, h.pend1, h.snaps⟩
        · intro j; rw [set_node]; split
          · exact h1
          · exact h.node j
        · intro j t h1; rw [key] at h1; exact h.lead j t h1
        · intro j k t h1 h2; rw [key] at h1 h2; exact h.one j k t h1 h2
        · intro j g1 g2
          rw [key] at g1
          rw [set_node] at g2 ⊢
          split
          · rename_i hj
            subst hj
            have hb := h.busy j g1
            rw [h2]
            simp only [Cluster.set]
            refine ⟨?_, by omega⟩
            cases hpd : c.pending with
            | nil => rfl
            | cons a l => rw [hpd] at hb; simp at hb; omega
          · rename_i hj
            rw [if_neg hj] at g2
            exact h.idle j g1 g2
        · intro j g1
          rw [key] at g1
          rw [set_node]
          split
          · rename_i hj
            subst hj
            have hb := h.busy j g1
            rw [h2]; simp only [Cluster.set]; omega
          · exact h.busy j g1
      cases ht : (c.node i).term with
      | none => exact main (fun t h1 => by rw [ht] at h1; cases h1)
      | some t =>
        simp only
        split
        · exact h
        · rename_i hlt
          refine main (fun t' h1 => ?_)
          rw [ht] at h1; cases h1; exact hlt
  | lead i now =>
    simp only [Tso.step]
    split
    · rename_i hc
      obtain ⟨h1, h2⟩ := hc
      have hn := h.node i
      have htake : c.log.take (c.node i).applied = c.log := by rw [h2]; exact List.take_length
      have hdrop : c.log.drop (c.node i).applied = [] := by rw [h2]; exact List.drop_length
      have hsave : ∀ e ∈ c.log, e.save ≤ (c.node i).obj.lastSave := by
        intro e he; exact hn.snap.past e (by simp only; rw [htake]; exact he)
      have hnn : 0 ≤ (c.node i).obj.lastSave := by
        rcases hn.snap.attained with h3 | ⟨e, h3, h4⟩
        · simp only at h3; omega
        · have h0 := h.ok e (List.mem_of_mem_take h3)
          have := h0.pos; have := h0.lt
          simp only at h4; omega
      refine ⟨h.ok, h.sorted, ?_, ?_, ?_, ?_, ?_, ?_, ?_, by simp, h.snaps⟩
      · intro e he; exact Nat.le_succ_of_le (h.terms e he)
      · intro j
        simp only [Cluster.set]
        split
        · refine ⟨hn.snap, hn.physical, hn.future, ?_, ?_, ?_, ?_⟩
          · intro t h3 e he
            cases h3
            exact Nat.le_succ_of_le (h.terms e (List.mem_of_mem_take he))
          · intro t h3 e he
            simp only at he
            rw [hdrop] at he; cases he
          · intro t h3 h4; cases h4
          · intro t h3 h4; cases h4
        · exact h.node j
      · intro j t
        simp only [Cluster.set]
        split
        · intro h3; cases h3; exact Nat.le_refl _
        · intro h3; exact Nat.le_succ_of_le (h.lead j t h3)
      · intro j k t
        simp only [Cluster.set]
        intro h3 h4
        split at h3 <;> split at h4
        · rename_i a b; rw [a, b]
        · cases h3; have := h.lead k _ h4; omega
        · cases h4; have := h.lead j _ h3; omega
        · exact h.one j k t h3 h4
      · intro j
        simp only [Cluster.set]
        intro h3 h4
        split at h3
        · rename_i hj; rw [if_pos hj] at h4; cases h4
        · have := h.lead j _ h3; omega
      · intro j
        simp only [Cluster.set]
        intro h3
        split at h3
        · rename_i hj; rw [if_pos hj]; simp; omega
        · have := h.lead j _ h3; omega
      · intro q hq
        simp only [List.mem_singleton] at hq
        subst hq
        simp only [startCmd, intervalMs, guardMs, saveMs]
        generalize hP : (if now < (c.node i).obj.lastSave + 50 then (c.node i).obj.lastSave + 1 else now) = P
        have hPgt : (c.node i).obj.lastSave < P := by rw [← hP]; split <;> omega
        refine ⟨⟨rfl, by simp, by simp only [Entry.physical]; omega, by simp only [Entry.physical, Entry.save]; omega⟩, trivial, ?_⟩
        intro e he
        have e1 := hsave e he
        have e2 := (h.ok e he).lt
        refine ⟨Nat.le_succ_of_le (h.terms e he), ?_, ?_⟩ <;> simp only [Entry.physical, Entry.save] at * <;> omega
    · exact h
  | tick i now =>
    simp only [Tso.step]
    cases ht : (c.node i).term with
    | none => exact h
    | some t =>
      simp only
      split
      · exact h
      · rename_i hnb
        have hnb : (c.node i).busy = false := by simpa using hnb
        cases hcmd : timerCmd (c.node i).obj now with
        | none => exact h
        | some cmd =>
          simp only
          have hn := h.node i
          have hn' : NodeOk c.log { (c.node i) with term := some t, busy := true } := by
            rw [← ht]
            exact ⟨hn.snap, hn.physical, hn.future, hn.leadPast, hn.leadFuture, fun _ _ h2 => (by cases h2), hn.synced⟩
          have h' : Inv (c.set i { (c.node i) with term := some t, busy := true }) :=
            h.set_same hn' ht.symm rfl (fun h1 => (by cases h1))
          unfold Cluster.propose
          split
          · rename_i hterm
            have hterm : t = c.term := hterm
            subst hterm
            obtain ⟨hp1, hp2⟩ := h.idle i ht hnb
            have htake : c.log.take (c.node i).applied = c.log := by rw [hp2]; exact List.take_length
            have hfree : ∀ e ∈ c.log, e.physical ≤ (c.node i).obj.physical := by
              intro e he; exact hn.free _ ht hnb e (by rw [htake]; exact he)
            have hsave : ∀ e ∈ c.log, e.save ≤ (c.node i).obj.lastSave := by
              intro e he; exact hn.snap.past e (by simp only; rw [htake]; exact he)
            have hpos : 0 ≤ (c.node i).obj.physical := by
              rcases hn.physical with h3 | ⟨e, h3, h4⟩
              · omega
              · have := (h.ok e (List.mem_of_mem_take h3)).pos; omega
            refine ⟨h'.ok, h'.sorted, h'.terms, h'.node, h'.lead, h'.one, ?_, ?_, ?_, ?_, h'.snaps⟩
            · intro j h3 h4
              simp only [Cluster.set] at h3 h4
              split at h3
              · rename_i hj; rw [if_pos hj] at h4; cases h4
              · rename_i hj; exact absurd (h.one j i _ h3 ht) hj
            · intro j h3
              simp only [Cluster.set, hp1] at h3 ⊢
              split at h3
              · rename_i hj; rw [if_pos hj]; simp; omega
              · rename_i hj; exact absurd (h.one j i _ h3 ht) hj
            · intro q hq
              simp only [Cluster.set, hp1, List.nil_append, List.mem_singleton] at hq
              subst hq
              obtain ⟨P, S, rfl, hPgt, hSgt, hPS⟩ := timerCmd_spec hcmd
              refine ⟨⟨rfl, by simp, by simp only [Entry.physical]; omega, by simp only [Entry.physical, Entry.save]; omega⟩, rfl, ?_⟩
              intro e he
              have e1 := hsave e he
              have e2 := hfree e he
              refine ⟨h.terms e he, ?_, ?_⟩ <;> simp only [Entry.physical, Entry.save] at * <;> omega
            · simp [Cluster.set, hp1]
          · exact h'

/-! ## Grants -/

/-- What is known of a grant in later states. -/
structure GrantOk (c : Cluster) (g : Grant) : Prop where
  term : ∀ t, g.term = some t → t ≤ c.term
  entry : ∀ t, g.term = some t → ∃ e ∈ c.log, e.physical = g.physical ∧ e.term ≤ t ∧ (g.synced = true → e.term = t)
  logical : 0 ≤ g.logical
  fits : g.logical + g.count < maxLogical
  node : ∀ i t, g.term = some t → (c.node i).term = some t →
    g.physical < (c.node i).obj.physical ∨
      (g.physical = (c.node i).obj.physical ∧ g.logical + g.count ≤ (c.node i).obj.logical)

def LogicalOk (c : Cluster) : Prop := ∀ i, 0 ≤ (c.node i).obj.logical ∧ ∀ x ∈ (c.node i).waiting, 0 < x

theorem LogicalOk.step {c : Cluster} (h : LogicalOk c) (hi : Inv c) {ev : Event} (hp : ev.Plain) :
    LogicalOk (step c ev).1 := by
  have set_ok : ∀ i n, (0 ≤ n.obj.logical ∧ ∀ x ∈ n.waiting, 0 < x) → LogicalOk (c.set i n) := by
    intro i n hn j
    rw [set_node]; split
    · exact hn
    · exact h j
  cases ev with
  | admin i cmd => exact absurd hp id
  | snapshot i => exact h
  | ask i count =>
    simp only [Tso.step]
    refine set_ok i _ ?_
    have hp : 0 < count := hp
    rcases ask_spec (c.node i) count with h2 | h2
    · rw [h2]; exact h i
    · rw [h2]
      refine ⟨(h i).1, ?_⟩
      intro x hx
      rcases List.mem_append.1 hx with hx | hx
      · exact (h i).2 x hx
      · rw [List.mem_singleton.1 hx]; exact hp
  | gen i k =>
    simp only [Tso.step]
    refine set_ok i _ ?_
    rcases gen_spec (c.node i) k with ⟨_, h2⟩ | ⟨count, hc, _, _, _, h2⟩
    · rw [h2]; exact h i
    · rw [h2]
      have e1 := (h i).1
      have e2 := (h i).2 count hc
      refine ⟨by simp only; omega, ?_⟩
      intro x hx
      exact (h i).2 x (List.mem_of_mem_eraseIdx hx)
  | stop i => exact set_ok i _ (h i)
  | install i s =>
    simp only [Tso.step]
    cases hs : c.snaps[s]? with
    | none => exact h
    | some sv =>
      obtain ⟨idx, save⟩ := sv
      simp only
      split
      · exact set_ok i _ (h i)
      · exact h
  | restart i s =>
    simp only [Tso.step]
    cases hs : s.bind (c.snaps[·]?) with
    | none => exact set_ok i _ (by simp)
    | some sv => exact set_ok i _ (by simp)
  | commit =>
    simp only [Tso.step]
    cases hpd : c.pending with
    | nil => exact h
    | cons q rest => exact h
  | apply i =>
    simp only [Tso.step]
    cases he : c.log[(c.node i).applied]? with
    | none => exact h
    | some e =>
      simp only
      have hok := hi.ok e (List.mem_of_getElem? he)
      have main : 0 ≤ ((c.node i).applyEntry e).obj.logical ∧ ∀ x ∈ ((c.node i).applyEntry e).waiting, 0 < x := by
        refine ⟨?_, (h i).2⟩
        simp only [Node.applyEntry]
        rw [hok.cmd]
        simp only [applyCmd, updateTso]
        split
        · exact (h i).1
        · simp
      split
      · split
        · exact h
        · exact set_ok i _ main
      · exact set_ok i _ main
  | lead i now =>
    simp only [Tso.step]
    split
    · intro j
      simp only [Cluster.set]
      split
      · exact h i
      · exact h j
    · exact h
  | tick i now =>
    simp only [Tso.step]
    split
    · exact h
    · split
      · exact h
      · split
        · exact h
        · unfold Cluster.propose
          split
          · exact set_ok i _ (h i)
          · exact set_ok i _ (h i)

theorem GrantOk.step {c : Cluster} {g : Grant} (h : GrantOk c g) (hi : Inv c) (hl : LogicalOk c) {ev : Event} (hp : ev.Plain) :
    GrantOk (step c ev).1 g := by
  have set_ok : ∀ i n, (∀ t, g.term = some t → n.term = some t → g.physical < n.obj.physical ∨
      (g.physical = n.obj.physical ∧ g.logical + g.count ≤ n.obj.logical)) → GrantOk (c.set i n) g := by
    intro i n hn
    refine ⟨h.term, h.entry, h.logical, h.fits, ?_⟩
    intro j
    rw [set_node]; split
    · exact hn
    · exact h.node j
  cases ev with
  | admin i cmd => exact absurd hp id
  | snapshot i => exact ⟨h.term, h.entry, h.logical, h.fits, h.node⟩
  | ask i count =>
    simp only [Tso.step]
    refine set_ok i _ ?_
    rcases ask_spec (c.node i) count with h2 | h2 <;> rw [h2] <;> exact h.node i
  | gen i k =>
    simp only [Tso.step]
    refine set_ok i _ ?_
    rcases gen_spec (c.node i) k with ⟨_, h2⟩ | ⟨count, hc, _, _, _, h2⟩
    · rw [h2]; exact h.node i
    · rw [h2]
      have := (hl i).2 count hc
      intro t h3 h3'
      rcases h.node i t h3 h3' with h4 | ⟨h4, h5⟩
      · exact Or.inl h4
      · exact Or.inr ⟨h4, by simp only; omega⟩
  | stop i => exact set_ok i _ (fun _ _ h1 => by cases h1)
  | install i s =>
    simp only [Tso.step]
    cases hs : c.snaps[s]? with
    | none => exact h
    | some sv =>
      obtain ⟨idx, save⟩ := sv
      simp only
      split
      · exact set_ok i _ (h.node i)
      · exact h
  | restart i s =>
    simp only [Tso.step]
    cases hs : s.bind (c.snaps[·]?) with
    | none => exact set_ok i _ (fun _ _ h1 => by cases h1)
    | some sv => exact set_ok i _ (fun _ _ h1 => by cases h1)
  | commit =>
    simp only [Tso.step]
    cases hpd : c.pending with
    | nil => exact h
    | cons q rest =>
      refine ⟨h.term, ?_, h.logical, h.fits, h.node⟩
      intro t ht
      obtain ⟨e, h1, h2⟩ := h.entry t ht
      exact ⟨e, List.mem_append_left _ h1, h2⟩
  | apply i =>
    simp only [Tso.step]
    cases he : c.log[(c.node i).applied]? with
    | none => exact h
    | some e =>
      simp only
      have main : (∀ t, (c.node i).term = some t → ¬ t < e.term) → GrantOk (c.set i ((c.node i).applyEntry e)) g := by
        intro ht
        obtain ⟨_, _, h3, h4, h5, _⟩ := (hi.node i).apply hi.sorted hi.ok he ht
        refine set_ok i _ ?_
        intro t h6' h6
        rw [h3] at h6
        rw [h4]
        left
        rcases h.node i t h6' h6 with h7 | ⟨h7, _⟩ <;> simp only <;> omega
      cases ht : (c.node i).term with
      | none => exact main (fun t h1 => by rw [ht] at h1; cases h1)
      | some t =>
        simp only
        split
        · exact h
        · rename_i hlt
          refine main (fun t' h1 => ?_)
          rw [ht] at h1; cases h1; exact hlt
  | lead i now =>
    simp only [Tso.step]
    split
    · refine ⟨fun t ht => Nat.le_succ_of_le (h.term t ht), h.entry, h.logical, h.fits, ?_⟩
      intro j
      simp only [Cluster.set]
      split
      · intro t h0 h1
        simp only [Option.some.injEq] at h1
        have := h.term t h0; omega
      · exact h.node j
    · exact h
  | tick i now =>
    simp only [Tso.step]
    split
    · exact h
    · rename_i t ht
      split
      · exact h
      · split
        · exact h
        · have := set_ok i { (c.node i) with busy := true } (h.node i)
          unfold Cluster.propose
          split
          · exact ⟨this.term, this.entry, this.logical, this.fits, this.node⟩
          · exact this

/-- A new grant: only `gen` makes one; it is above all earlier grants of its term. -/
theorem GrantOk.new {c : Cluster} (hi : Inv c) (hl : LogicalOk c) {ev : Event} (hp : ev.Plain) {b : Grant}
    (hb : (Tso.step c ev).2 = some b) :
    GrantOk (Tso.step c ev).1 b ∧
      ∀ a t, GrantOk c a → a.term = some t → b.term = some t →
        a.physical < b.physical ∨ (a.physical = b.physical ∧ a.logical + a.count ≤ b.logical) := by
  cases ev with
  | gen i k =>
    simp only [Tso.step] at hb ⊢
    rcases gen_spec (c.node i) k with ⟨h1, _⟩ | ⟨count, h1, h2, h3, h4, h5⟩
    · rw [h1] at hb; cases hb
    · rw [h4] at hb
      cases hb
      rw [h5]
      have hn := hi.node i
      refine ⟨⟨fun t ht => hi.lead i t ht, ?_, (hl i).1, h3, ?_⟩, ?_⟩
      · intro t ht
        simp only at ht
        by_cases hs : (c.node i).synced = true
        · obtain ⟨e, e1, e2, e3⟩ := hn.synced t ht hs
          exact ⟨e, List.mem_of_mem_take e1, e3, Nat.le_of_eq e2, fun _ => e2⟩
        · rcases hn.physical with h6 | ⟨e, e1, e2⟩
          · exact absurd h6 h2
          · exact ⟨e, List.mem_of_mem_take e1, e2, hn.leadPast t ht e e1, fun h7 => absurd h7 hs⟩
      · intro j t ht hj
        simp only [set_node] at hj ht ⊢
        split at hj
        · rename_i e1
          rw [if_pos e1]
          exact Or.inr ⟨rfl, Int.le_refl _⟩
        · rename_i e1
          exact absurd (hi.one j i t hj ht) e1
      · intro a t ha h6 h7
        exact ha.node i t h6 h7
  | ask i count => cases hb
  | admin i cmd => exact absurd hp id
  | snapshot i => cases hb
  | stop i => cases hb
  | install i s =>
    simp only [Tso.step] at hb
    split at hb
    · cases hb
    · split at hb <;> cases hb
  | restart i s =>
    simp only [Tso.step] at hb
    split at hb <;> cases hb
  | commit =>
    simp only [Tso.step] at hb
    split at hb <;> cases hb
  | apply i =>
    simp only [Tso.step] at hb
    split at hb
    · cases hb
    · split at hb
      · split at hb <;> cases hb
      · cases hb
  | lead i now =>
    simp only [Tso.step] at hb
    split at hb <;> cases hb
  | tick i now =>
    simp only [Tso.step] at hb
    split at hb
    · cases hb
    · split at hb
      · cases hb
      · split at hb <;> cases hb

/-- All histories. -/
theorem grants_spec (evs : List Event) : ∀ (c : Cluster) (G : List Grant), Inv c → LogicalOk c →
    (∀ g ∈ G, GrantOk c g) → (∀ e ∈ evs, e.Plain) →
    Inv (run c evs) ∧ LogicalOk (run c evs) ∧ (∀ g ∈ G ++ grants c evs, GrantOk (run c evs) g) ∧
    (∀ a ∈ G, ∀ b ∈ grants c evs, ∀ t, a.term = some t → b.term = some t →
      a.physical < b.physical ∨ (a.physical = b.physical ∧ a.logical + a.count ≤ b.logical)) ∧
    (grants c evs).Pairwise (fun a b => ∀ t, a.term = some t → b.term = some t →
      a.physical < b.physical ∨ (a.physical = b.physical ∧ a.logical + a.count ≤ b.logical)) := by
  induction evs with
  | nil =>
    intro c G hi hl hg _
    exact ⟨hi, hl, by simpa [grants, run] using hg, by simp [grants], by simp [grants]⟩
  | cons ev evs ih =>
    intro c G hi hl hg hp
    have hp1 := hp ev (by simp)
    have hi' := hi.step hp1
    have hl' := hl.step hi hp1
    have hg' : ∀ g ∈ G, GrantOk (step c ev).1 g := fun g h => (hg g h).step hi hl hp1
    have hp2 : ∀ e ∈ evs, e.Plain := fun e he => hp e (List.mem_cons_of_mem _ he)
    simp only [grants, run]
    cases hb : (step c ev).2 with
    | none =>
      obtain ⟨a1, a2, a3, a4, a5⟩ := ih _ G hi' hl' hg' hp2
      simp only [Option.toList, List.nil_append]
      exact ⟨a1, a2, a3, a4, a5⟩
    | some b =>
      obtain ⟨n1, n2⟩ := GrantOk.new hi hl hp1 hb
      obtain ⟨a1, a2, a3, a4, a5⟩ := ih _ (G ++ [b]) hi' hl' (by
        intro g h
        rcases List.mem_append.1 h with h | h
        · exact hg' g h
        · rw [List.mem_singleton.1 h]; exact n1) hp2
      simp only [Option.toList, List.singleton_append]
      refine ⟨a1, a2, ?_, ?_, ?_⟩
      · simpa only [List.append_assoc, List.singleton_append] using a3
      · intro a ha x hx
        rcases List.mem_cons.1 hx with hx | hx
        · rw [hx]; exact fun t => n2 a t (hg a ha)
        · exact a4 a (List.mem_append_left _ ha) x hx
      · rw [List.pairwise_cons]
        exact ⟨fun x hx => a4 b (by simp) x hx, a5⟩

/-- `is_healty_` stays false. -/
theorem unhealthy_step {c : Cluster} {i : Nat} (h : (c.node i).healthy = false) {ev : Event}
    (hl : ∀ e ∈ c.log, ∃ p l s, e.cmd = .update p l s)
    (ha : ∀ s, ev ≠ .restart i s) : ((step c ev).1.node i).healthy = false := by
  have set_ok : ∀ j n, (j = i → n.healthy = false) → ((c.set j n).node i).healthy = false := by
    intro j n hn
    rw [set_node]; split
    · rename_i h1; exact hn h1.symm
    · exact h
  cases ev with
  | admin j cmd =>
    simp only [Tso.step]
    split
    · exact h
    · unfold Cluster.propose; split <;> exact h
  | snapshot j => exact h
  | ask j count =>
    simp only [Tso.step]
    refine set_ok j _ ?_
    intro h1; subst h1
    rcases ask_spec (c.node j) count with h2 | h2 <;> rw [h2] <;> exact h
  | gen j k =>
    simp only [Tso.step]
    refine set_ok j _ ?_
    intro h1; subst h1
    rcases gen_spec (c.node j) k with ⟨_, h2⟩ | ⟨t, _, _, _, _, h2⟩ <;> rw [h2] <;> exact h
  | stop j =>
    refine set_ok j _ ?_
    intro h1; subst h1
    simp only
    split
    · rfl
    · exact h
  | install j s =>
    simp only [Tso.step]
    split
    · exact h
    · split
      · refine set_ok j _ ?_
        intro h1; subst h1; exact h
      · exact h
  | restart j s =>
    have : j ≠ i := fun h1 => ha s (by rw [h1])
    simp only [Tso.step]
    split <;> exact set_ok j _ (fun h1 => absurd h1 this)
  | commit =>
    simp only [Tso.step]
    split <;> exact h
  | apply j =>
    simp only [Tso.step]
    split
    · exact h
    · rename_i e he
      have main : ((c.set j ((c.node j).applyEntry e)).node i).healthy = false := by
        refine set_ok j _ ?_
        intro h1; subst h1
        obtain ⟨p, l, s, h2⟩ := hl e (List.mem_of_getElem? he)
        simp only [Node.applyEntry, h2]
        split <;> (try split) <;> first | exact h | rfl | (rename_i h3 _; cases h3)
      split
      · split
        · exact h
        · exact main
      · exact main
  | lead j now =>
    simp only [Tso.step]
    split
    · simp only [Cluster.set]
      split
      · rename_i h1; subst h1; exact h
      · exact h
    · exact h
  | tick j now =>
    simp only [Tso.step]
    split
    · exact h
    · split
      · exact h
      · split
        · exact h
        · unfold Cluster.propose
          split <;> (refine set_ok j _ ?_; intro h1; subst h1; exact h)

end Verif.Tso
