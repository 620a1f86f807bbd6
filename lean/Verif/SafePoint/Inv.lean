import Verif.SafePoint.Replay
/-!
The invariant of the safe-point model and that every event keeps it.  `A` says what has been asked
for.
-/
namespace Verif.SafePoint

/-- The tenant increments of entry number `i`. -/
def nextTs (log : List Inc) (i : Nat) : List TInc :=
  match log[i]? with
  | some e => e.tenants
  | none => []

/-- The tenants of a coordinator that has applied `i` entries, and `k` tenant increments of the next
one. -/
def PartTs (log : List Inc) (i : Nat) (m : Int → Option Tenant) (p : Nat) : Prop :=
  ∃ k, p ≤ k ∧ k ≤ (nextTs log i).length ∧
    m = applyTs (replay log i).tenants ((nextTs log i).take k)

structure NodeInv (A : Kind → Int → Int → Prop) (log : List Inc) (n : Node) : Prop where
  applied : n.applied ≤ log.length
  disk : n.disk = (replay log n.applied).ids
  stop : n.stop = (replay log n.applied).stop
  ids : n.phase = none → n.ids = n.disk
  mid : ∀ p, n.phase = some p → ∃ e, log[n.applied]? = some e ∧ n.ids = applyIds n.disk e.ids ∧
    p ≤ e.tenants.length
  tenants : PartTs log n.applied n.tenants (n.phase.getD 0)
  temp : OkMap A n.temp

structure SnapInv (log : List Inc) (f : Snap) : Prop where
  applied : f.applied ≤ log.length
  ids : f.ids = (replay log f.applied).ids
  stop : f.stop = (replay log f.applied).stop
  tenants : PartTs log f.applied f.tenants 0

/-- The tenant an increment of which must not be there yet when the task is done. -/
def Task.fresh : Task → Option Int
  | .tsp id _ => if id = 0 then none else some id
  | .create id _ => some id
  | .drop id => some id
  | .rename id _ => some id
  | _ => none

/-- The tenant an increment of which the task may make. -/
def Task.adds : Task → Option Int
  | .trl id _ => some id
  | t => t.fresh

def OkTask (A : Kind → Int → Int → Prop) : Task → Prop
  | .see k v => A k 0 v
  | .lift k v => 0 < v ∧ A k 0 v
  | .tsp id v => id ≠ 0 → A .gc id v
  | .trl id v => id ≠ 0 → A .rl id v
  | _ => True

/-- A point of the default tenant: still to be read, or read and high enough, or to be raised, or in
the increment. -/
def Follows (th : Thread) (k : Kind) (v : Int) : Prop :=
  Task.see k v ∈ th.todo ∨ ∃ x, th.seen k = some x ∧
    (x < v → Task.lift k v ∈ th.todo ∨ (k, v) ∈ th.inc.ids)

/-- The default tenant's point of that kind in a request. -/
def Upd.point (r : Upd) : Kind → Int
  | .gc => r.sp
  | .rl => r.rl

/-- The GC point of a tenant likewise. -/
def FollowsT (th : Thread) (t v : Int) : Prop :=
  Task.tsp t v ∈ th.todo ∨ ∃ x, th.seenT t = some x ∧
    (x < v → ∃ y, TInc.update t y ∈ th.inc.tenants ∧ y.sp = v)

structure ThInv (A : Kind → Int → Int → Prop) (log : List Inc) (th : Thread) : Prop where
  inc : OkInc A th.inc
  todo : ∀ x ∈ th.todo, OkTask A x
  fresh : ∀ x ∈ th.todo, ∀ j, x.fresh = some j → j ∉ th.inc.tenants.map TInc.id
  order : th.todo.Pairwise (fun a b => ∀ j, b.fresh = some j → a.adds ≠ some j)
  entry : ∀ i, th.entry = some i → log[i]? = some th.inc
  committed : ∀ i, th.status = .committed i → th.entry = some i
  early : (th.status = .eval ∨ th.status = .proposed) → th.entry = none
  over : (th.status = .proposed ∨ (∃ i, th.status = .committed i) ∨ th.status = .ok) → th.todo = []
  ok : th.status = .ok → th.entry = none → th.inc.isEmpty = true
  one : ∀ r, th.req = .update r → ∀ k v, Task.see k v ∈ th.todo → v = r.point k
  def' : ∀ r, th.req = .update r → ∀ k, Follows th k (r.point k)
  uniq : ∀ r, th.req = .update r → (r.tsp.map (·.1)).Nodup
  mem : ∀ r, th.req = .update r → ∀ t v, Task.tsp t v ∈ th.todo → (t, v) ∈ r.tsp
  tsp : ∀ r, th.req = .update r → ∀ t v, (t, v) ∈ r.tsp → t ≠ 0 → FollowsT th t v

/-- A store holds, or is about to hold, only points that were asked for. -/
def OkEntry (A : Kind → Int → Int → Prop) (t : Int) (v : Int) : Prop := v = 0 ∨ (0 < v ∧ A .gc t v)

structure StoreInv (A : Kind → Int → Int → Prop) (st : Store) : Prop where
  active : ∀ t e, st.mgr.active t = some e → OkEntry A t e.ts
  all : ∀ t e, st.mgr.all t = some e → OkEntry A t e.ts
  poll : ∀ r, st.poll = some r → ∀ t v, r.sp t = some v → OkEntry A t v
  gc : ∀ g b, st.gc = some (g, b) → ∀ t v, g t = some v → 0 < v ∧ A .gc t v

structure Inv (A : Kind → Int → Int → Prop) (s : Sys) : Prop where
  log : OkLog A s.log
  nodes : ∀ n, NodeInv A s.log (s.nodes n)
  threads : ∀ th ∈ s.threads, ThInv A s.log th
  snaps : ∀ f ∈ s.snaps, SnapInv s.log f
  stores : ∀ i, StoreInv A (s.stores i)
  runs : ∀ i t v, (i, t, v) ∈ s.runs → 0 < v ∧ A .gc t v

/-! ### Growth of the log -/

theorem PartTs.append {log : List Inc} {l i m p} (h : PartTs log i m p) (hi : i ≤ log.length) :
    PartTs (log ++ l) i m p := by
  obtain ⟨k, h1, h2, h3⟩ := h
  rcases Nat.lt_or_ge i log.length with hlt | hge
  · have hn : nextTs (log ++ l) i = nextTs log i := by
      unfold nextTs; rw [List.getElem?_append_left hlt]
    exact ⟨k, h1, by rw [hn]; exact h2, by rw [hn, replay_append hi]; exact h3⟩
  · have hn : nextTs log i = [] := by
      unfold nextTs; rw [List.getElem?_eq_none_iff.2 hge]
    rw [hn] at h2 h3
    simp only [List.length_nil, Nat.le_zero] at h2
    subst h2
    have : p = 0 := by omega
    subst this
    refine ⟨0, Nat.le_refl _, Nat.zero_le _, ?_⟩
    rw [replay_append hi]
    simpa using h3

theorem NodeInv.append {A log l n} (h : NodeInv A log n) : NodeInv A (log ++ l) n where
  applied := by simp; exact Nat.le_trans h.applied (Nat.le_add_right _ _)
  disk := by rw [replay_append h.applied]; exact h.disk
  stop := by rw [replay_append h.applied]; exact h.stop
  ids := h.ids
  mid := by
    intro p hp
    obtain ⟨e, he, h1, h2⟩ := h.mid p hp
    refine ⟨e, ?_, h1, h2⟩
    rw [List.getElem?_append_left (List.getElem?_eq_some_iff.1 he).1]
    exact he
  tenants := h.tenants.append h.applied
  temp := h.temp

theorem SnapInv.append {log l f} (h : SnapInv log f) : SnapInv (log ++ l) f where
  applied := by simp; exact Nat.le_trans h.applied (Nat.le_add_right _ _)
  ids := by rw [replay_append h.applied]; exact h.ids
  stop := by rw [replay_append h.applied]; exact h.stop
  tenants := h.tenants.append h.applied

theorem ThInv.append {A log l th} (h : ThInv A log th) : ThInv A (log ++ l) th := by
  refine { h with entry := ?_ }
  intro i hi
  rw [List.getElem?_append_left (List.getElem?_eq_some_iff.1 (h.entry i hi)).1]
  exact h.entry i hi

/-! ### Frames -/

theorem Inv.setNode {A s n x} (h : Inv A s) (hx : NodeInv A s.log x) : Inv A (s.setNode n x) where
  log := h.log
  nodes := by
    intro m
    simp only [Sys.setNode, put]
    split
    · exact hx
    · exact h.nodes m
  threads := h.threads
  snaps := h.snaps
  stores := h.stores
  runs := h.runs

theorem Inv.setThread {A s k th} (h : Inv A s) (hx : ThInv A s.log th) :
    Inv A (s.setThread k th) where
  log := h.log
  nodes := h.nodes
  threads := by
    intro t ht
    rcases List.mem_or_eq_of_mem_set ht with h1 | h1
    · exact h.threads t h1
    · rw [h1]; exact hx
  snaps := h.snaps
  stores := h.stores
  runs := h.runs

theorem Inv.setStore {A s i x} (h : Inv A s) (hx : StoreInv A x) : Inv A (s.setStore i x) where
  log := h.log
  nodes := h.nodes
  threads := h.threads
  snaps := h.snaps
  stores := by
    intro m
    simp only [Sys.setStore, put]
    split
    · exact hx
    · exact h.stores m
  runs := h.runs

theorem Inv.thread {A} {s : Sys} {k : Nat} {th : Thread} (h : Inv A s) (hk : s.threads[k]? = some th) : ThInv A s.log th :=
  h.threads th (List.mem_of_getElem? hk)

/-- What the tenants of a coordinator hold was asked for. -/
theorem NodeInv.okTs {A log n} (h : NodeInv A log n) (hl : OkLog A log) : OkTs A n.tenants := by
  obtain ⟨k, _, _, hk⟩ := h.tenants
  rw [hk]
  refine ((hl.replay n.applied).tenants).applyTs ?_
  intro id t hm
  have hm := List.mem_of_mem_take hm
  unfold nextTs at hm
  split at hm
  · rename_i e he
    exact (hl e (List.mem_of_getElem? he)).tenants id t hm
  · simp at hm

theorem NodeInv.okDisk {A log n} (h : NodeInv A log n) (hl : OkLog A log) : OkMap A n.disk := by
  rw [h.disk]; exact (hl.replay _).ids

theorem NodeInv.okIds {A log n} (h : NodeInv A log n) (hl : OkLog A log) : OkMap A n.ids := by
  rcases hp : n.phase with _ | p
  · rw [h.ids hp]; exact h.okDisk hl
  · obtain ⟨e, he, h1, _⟩ := h.mid p hp
    rw [h1]
    exact (h.okDisk hl).applyIds (hl e (List.mem_of_getElem? he)).ids

/-! ### Applying entries -/

theorem Inv.begin {A s n} (h : Inv A s) : Inv A (doBegin s n) := by
  unfold doBegin
  dsimp only
  split
  · rename_i e hp he
    have hn := h.nodes n
    refine h.setNode ⟨hn.applied, hn.disk, hn.stop, (fun h => by cases h), ?_, ?_, hn.temp⟩
    · intro p hq
      cases hq
      exact ⟨e, he, by rw [hn.ids hp], Nat.zero_le _⟩
    · have := hn.tenants
      rw [hp] at this
      exact this
  · exact h

theorem Inv.tenant {A s n} (h : Inv A s) : Inv A (doTenant s n) := by
  unfold doTenant
  dsimp only
  split
  · rename_i k e hp he
    split
    · rename_i i hi
      have hn := h.nodes n
      refine h.setNode ⟨hn.applied, hn.disk, hn.stop, (fun h => by cases h), ?_, ?_, hn.temp⟩
      · intro p hq
        cases hq
        obtain ⟨e', he', h1, h2⟩ := hn.mid k hp
        rw [he] at he'
        cases he'
        exact ⟨e, he, h1, (List.getElem?_eq_some_iff.1 hi).1⟩
      · obtain ⟨j, h1, h2, h3⟩ := hn.tenants
        rw [hp] at h1
        simp only [Option.getD_some] at h1
        have hnx : nextTs s.log (s.nodes n).applied = e.tenants := by unfold nextTs; rw [he]
        rw [hnx] at h2 h3
        have hnd := (h.log e (List.mem_of_getElem? he)).nodup
        have hkl : k < e.tenants.length := (List.getElem?_eq_some_iff.1 hi).1
        show PartTs s.log (s.nodes n).applied (applyTenant (s.nodes n).tenants i) (k + 1)
        rcases Nat.lt_or_ge k j with hlt | hge
        · refine ⟨j, hlt, by rw [hnx]; exact h2, ?_⟩
          rw [hnx, h3]
          refine applyTs_again ?_ ?_
          · rw [List.map_take]
            exact hnd.sublist (List.take_sublist _ _)
          · refine List.mem_of_getElem? (i := k) ?_
            rw [List.getElem?_take_of_lt hlt]
            exact hi
        · have hjk : j = k := Nat.le_antisymm hge h1
          subst hjk
          refine ⟨j + 1, Nat.le_refl _, by rw [hnx]; exact hkl, ?_⟩
          rw [hnx, h3, List.take_add_one, hi, applyTs_append]
          rfl
    · exact h
  · exact h

theorem Inv.finish {A s n} (h : Inv A s) : Inv A (doFinish s n) := by
  unfold doFinish
  dsimp only
  split
  · rename_i k e hp he
    by_cases hk : k = e.tenants.length
    · rw [if_pos hk]
      have hn := h.nodes n
      have hlt := (List.getElem?_eq_some_iff.1 he).1
      obtain ⟨e', he', h1, h2⟩ := hn.mid k hp
      rw [he] at he'
      cases he'
      refine h.setNode ⟨hlt, ?_, ?_, (fun _ => rfl), (fun p hq => by cases hq), ?_, hn.temp⟩
      · show (s.nodes n).ids = _
        rw [replay_succ he, h1, hn.disk]
        rfl
      · show e.stop.getD (s.nodes n).stop = _
        rw [replay_succ he, hn.stop]
        rfl
      · refine ⟨0, Nat.le_refl _, Nat.zero_le _, ?_⟩
        show (s.nodes n).tenants = _
        obtain ⟨j, h3, h4, h5⟩ := hn.tenants
        have hnx : nextTs s.log (s.nodes n).applied = e.tenants := by unfold nextTs; rw [he]
        rw [hp] at h3
        simp only [Option.getD_some] at h3
        rw [hnx] at h4 h5
        rw [replay_succ he, h5, List.take_of_length_le (by omega)]
        rfl
    · rw [if_neg hk]; exact h
  · exact h

theorem Inv.lead {A s n} (h : Inv A s) : Inv A (doLead s n) := by
  have hn := h.nodes n
  exact h.setNode ⟨hn.applied, hn.disk, hn.stop, hn.ids, hn.mid, hn.tenants, hn.okIds h.log⟩

theorem Inv.unlead {A s n} (h : Inv A s) : Inv A (doUnlead s n) := by
  have hn := h.nodes n
  exact h.setNode ⟨hn.applied, hn.disk, hn.stop, hn.ids, hn.mid, hn.tenants, hn.temp⟩

theorem PartTs.weaken {log i m p} (h : PartTs log i m p) : PartTs log i m 0 := by
  obtain ⟨k, _, h2, h3⟩ := h
  exact ⟨k, Nat.zero_le _, h2, h3⟩

theorem Inv.crash {A s n} (h : Inv A s) : Inv A (doCrash s n) := by
  have hn := h.nodes n
  exact h.setNode ⟨hn.applied, hn.disk, hn.stop, (fun _ => rfl), (fun p hq => by cases hq),
    hn.tenants.weaken, hn.okDisk h.log⟩

theorem Inv.save {A s n} (h : Inv A s) : Inv A (doSave s n) := by
  unfold doSave
  dsimp only
  split
  · rename_i hp
    have hn := h.nodes n
    refine ⟨h.log, h.nodes, h.threads, ?_, h.stores, h.runs⟩
    intro f hf
    rcases List.mem_append.1 hf with h1 | h1
    · exact h.snaps f h1
    · rw [List.mem_singleton] at h1
      subst h1
      exact ⟨hn.applied, hn.disk, hn.stop, hn.tenants.weaken⟩
  · exact h

theorem Inv.install {A s n i} (h : Inv A s) : Inv A (doInstall s n i) := by
  unfold doInstall
  dsimp only
  split
  · exact h
  · rename_i f hf
    by_cases hc : (s.nodes n).phase = none ∧ (s.nodes n).applied < f.applied
    · rw [if_pos hc]
      have hs := h.snaps f (List.mem_of_getElem? hf)
      refine h.setNode ⟨hs.applied, hs.ids, hs.stop, (fun _ => rfl), ?_, ?_, ?_⟩
      · intro p hp
        exact absurd (hc.1.symm.trans hp) (by simp)
      · show PartTs s.log f.applied f.tenants ((s.nodes n).phase.getD 0)
        rw [hc.1]
        exact hs.tenants
      · show OkMap A f.ids
        rw [hs.ids]
        exact (h.log.replay _).ids
    · rw [if_neg hc]; exact h

/-! ### Stores -/

theorem Node.served_ok {A log n} (h : NodeInv A log n) (hl : OkLog A log) {t v}
    (hv : n.served.sp t = some v) : OkEntry A t v := by
  simp only [Node.served] at hv
  by_cases ht : t = 0
  · subst ht
    rw [if_pos rfl] at hv
    cases hv
    rcases ho : n.temp .gc with _ | x
    · exact Or.inl rfl
    · exact Or.inr (h.temp _ _ ho)
  · rw [if_neg ht] at hv
    obtain ⟨x, hx, he⟩ := Option.map_eq_some_iff.1 hv
    rw [← he]
    exact (h.okTs hl t x hx).1

theorem set1_ok {P : Int → Prop} {a l : Option Entry} {stop : Bool} {v : Option Int}
    (ha : ∀ e, a = some e → P e.ts) (hl : ∀ e, l = some e → P e.ts) (hv : ∀ x, v = some x → P x) :
    (∀ e, (Mgr.set1 a l stop v).1 = some e → P e.ts) ∧
    (∀ e, (Mgr.set1 a l stop v).2 = some e → P e.ts) := by
  simp only [Mgr.set1]
  rcases a with _ | ⟨s1, a⟩ <;> rcases l with _ | ⟨s2, l⟩ <;> rcases v with _ | v <;>
    cases stop <;> (try cases s1) <;> (try cases s2) <;>
    simp_all [Option.or]

theorem Inv.poll {A s i n} (h : Inv A s) : Inv A (doPoll s i n) := by
  unfold doPoll
  dsimp only
  split
  · have hs := h.stores i
    refine h.setStore ⟨hs.active, hs.all, ?_, hs.gc⟩
    intro r hr t v hv
    cases hr
    exact Node.served_ok (h.nodes n) h.log hv
  · exact h

theorem Inv.recv {A s i} (h : Inv A s) : Inv A (doRecv s i) := by
  unfold doRecv
  dsimp only
  split
  · exact h
  · rename_i r hr
    have hs := h.stores i
    refine h.setStore ⟨?_, ?_, (fun _ hr => by cases hr), hs.gc⟩
    · intro t e he
      exact (set1_ok (P := OkEntry A t) (hs.active t) (hs.all t) (hs.poll r hr t)).1 e he
    · intro t e he
      exact (set1_ok (P := OkEntry A t) (hs.active t) (hs.all t) (hs.poll r hr t)).2 e he

theorem Inv.drop {A s i} (h : Inv A s) : Inv A (doDrop s i) := by
  have hs := h.stores i
  exact h.setStore ⟨hs.active, hs.all, (fun _ hr => by cases hr), hs.gc⟩

theorem Inv.gcEnd {A s i} (h : Inv A s) : Inv A (doGcEnd s i) := by
  have hs := h.stores i
  exact h.setStore ⟨hs.active, hs.all, hs.poll, (fun _ _ hr => by cases hr)⟩

theorem Inv.gcBegin {A s i w} (h : Inv A s) : Inv A (doGcBegin s i w) := by
  unfold doGcBegin
  dsimp only
  split
  · split
    · exact h
    · have hs := h.stores i
      refine h.setStore ⟨?_, ?_, hs.poll, ?_⟩
      · intro t e he
        simp only [Mgr.dropZero] at he
        have ha := hs.active t
        grind
      · intro t e he
        simp only [Mgr.dropZero] at he
        have ha := hs.active t
        have hl := hs.all t
        rcases hh : (s.stores i).mgr.all t with _ | x <;> rw [hh] at he hl <;> grind [Option.or]
      · intro g b hg t v hv
        simp only [Option.some.injEq, Prod.mk.injEq] at hg
        rw [← hg.1] at hv
        have ha := hs.active t
        simp only [OkEntry] at ha
        grind
  · exact h

theorem Inv.gcResume {A s i} (h : Inv A s) : Inv A (doGcResume s i) := by
  unfold doGcResume
  dsimp only
  split
  · rename_i g hg
    have hs := h.stores i
    refine h.setStore ⟨?_, ?_, hs.poll, ?_⟩
    · intro t e he
      simp only [Mgr.setStop] at he
      split at he
      · obtain ⟨x, hx, rfl⟩ := Option.map_eq_some_iff.1 he
        exact hs.active t x hx
      · exact hs.active t e he
    · intro t e he
      simp only [Mgr.setStop] at he
      split at he
      · obtain ⟨x, hx, rfl⟩ := Option.map_eq_some_iff.1 he
        exact hs.all t x hx
      · exact hs.all t e he
    · intro g' b hg' t v hv
      simp only [Option.some.injEq, Prod.mk.injEq] at hg'
      rw [← hg'.1] at hv
      exact hs.gc g false hg t v hv
  · exact h

theorem Inv.gcRun {A s i t} (h : Inv A s) : Inv A (doGcRun s i t) := by
  unfold doGcRun
  dsimp only
  split
  · rename_i g hg
    split
    · exact h
    · rename_i ts hts
      split
      · exact h
      · refine ⟨h.log, h.nodes, h.threads, h.snaps, h.stores, ?_⟩
        intro j u v hm
        rcases List.mem_append.1 hm with h1 | h1
        · exact h.runs j u v h1
        · simp only [List.mem_singleton, Prod.mk.injEq] at h1
          obtain ⟨rfl, rfl, rfl⟩ := h1
          exact (h.stores j).gc g true hg u v hts
  · exact h

end Verif.SafePoint
