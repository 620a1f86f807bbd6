import Verif.CoorKv.PropsMap

/-!
# Crashes while a log entry is applied: helper lemmas
-/

namespace Verif.CoorKv
attribute [-instance] Verif.Txn.instDecidableLt_verif Verif.Txn.KeyOrder.toLT
open Verif.Codec (Bytes)
open Verif.Txn (CF KeyOrder)

variable {N : Prop} {U : Rev → Bytes → Prop} {s : Node}

/-! ### Leases -/

/-- The last operation on a lease. -/
def lastLease (os : List LeaseOp) (id : Int) (cur : Option Lease) : Option Lease :=
  os.foldl (fun c o => match o with
    | .put i l => if id = i then some l else c
    | .erase i => if id = i then none else c) cur

theorem leases_get (os : List LeaseOp) (s : Node) (id : Int) :
    (os.foldl leaseApply s).leases.get id = lastLease os id (s.leases.get id) := by
  induction os generalizing s with
  | nil => rfl
  | cons o os ih =>
    rw [List.foldl_cons, ih]
    unfold lastLease
    rw [List.foldl_cons]
    congr 1
    cases o with
    | put i l => simp only [leaseApply, CF.get_put]
    | erase i => simp only [leaseApply, CF.get_del]

theorem lastLease_const (os : List LeaseOp) (id : Int) :
    (∀ c, lastLease os id c = c) ∨ ∃ r, ∀ c, lastLease os id c = r := by
  induction os with
  | nil => exact .inl fun c => rfl
  | cons o os ih =>
    have hcons : ∀ c, lastLease (o :: os) id c = lastLease os id (match o with
      | .put i l => if id = i then some l else c
      | .erase i => if id = i then none else c) := fun c => rfl
    rcases ih with ih | ⟨r, ih⟩
    · cases o with
      | put i l =>
        by_cases h : id = i
        · exact .inr ⟨some l, fun c => by rw [hcons, ih]; simp [h]⟩
        · exact .inl fun c => by rw [hcons, ih]; simp [h]
      | erase i =>
        by_cases h : id = i
        · exact .inr ⟨none, fun c => by rw [hcons, ih]; simp [h]⟩
        · exact .inl fun c => by rw [hcons, ih]; simp [h]
    · exact .inr ⟨r, fun c => by rw [hcons, ih]⟩

theorem lastLease_append (p q : List LeaseOp) (id : Int) (c : Option Lease) :
    lastLease (p ++ q) id c = lastLease q id (lastLease p id c) := by
  simp [lastLease, List.foldl_append]

/-- Applying the leases again after some of them gives the same. -/
theorem leases_again (p q : List LeaseOp) (s t : Node) (ht : t.leases = (p.foldl leaseApply s).leases) :
    ((p ++ q).foldl leaseApply t).leases = ((p ++ q).foldl leaseApply s).leases := by
  refine CF.ext_get fun id => ?_
  rw [leases_get, leases_get, ht, leases_get, lastLease_append, lastLease_append]
  rcases lastLease_const p id with h | ⟨r, h⟩
  · rw [h, h]
  · rw [h, h]

/-- The states of `leasesRun`. -/
theorem mem_leasesRun (os : List LeaseOp) (s t : Node) (h : t ∈ leasesRun s os) :
    ∃ p q, os = p ++ q ∧ t = p.foldl leaseApply s := by
  induction os generalizing s with
  | nil => cases h
  | cons o os ih =>
    rw [leasesRun, List.mem_cons] at h
    rcases h with rfl | h
    · exact ⟨[o], os, rfl, rfl⟩
    · obtain ⟨p, q, rfl, rfl⟩ := ih _ h
      exact ⟨o :: p, q, rfl, rfl⟩

theorem leasesRun_length (os : List LeaseOp) (s : Node) : (leasesRun s os).length = os.length := by
  induction os generalizing s with
  | nil => rfl
  | cons o os ih => rw [leasesRun, List.length_cons, ih, List.length_cons]

/-! ### Deletes -/

/-- The revisions given out before `m`, and those that an entry deleting `ks` gives its keys. -/
def Udel (m : Int) (ks : List Bytes) (r : Rev) (k : Bytes) : Prop :=
  Below m 1 r k ∨ (r.main = m ∧ 1 ≤ r.sub ∧ ks[(r.sub - 1).toNat]? = some k)

/-- A state in the middle of an entry that deletes `ks`, the entry being applied any number of times. -/
structure DelOk (N : Prop) (m : Int) (ks : List Bytes) (s : Node) : Prop where
  good : Good N (Udel m ks) s
  older : ∀ k i, s.index.get k = some i → i.live = true → ∀ r ∈ i.all, r.main < m
  recs : ∀ r x, s.revs r = some x → r.main = m → x.lease = 0 ∧ x.value = []

theorem DelOk.congr {m : Int} {ks : List Bytes} {t : Node} (h : DelOk N m ks s) (hi : t.index = s.index)
    (hr : t.revs = s.revs) : DelOk N m ks t :=
  ⟨h.good.congr hi hr, by rw [hi]; exact h.older, by rw [hr]; exact h.recs⟩

/-- What remains of a map in the middle of a delete. -/
def Partly (ks : List Bytes) (a b : Bytes → Option Item) : Prop := ∀ k, b k = a k ∨ (k ∈ ks ∧ b k = none)

theorem Partly.trans {ks : List Bytes} {a b c : Bytes → Option Item} (h : Partly ks a b) (h' : Partly ks b c) :
    Partly ks a c := by
  intro k
  rcases h' k with e | e
  · rcases h k with e' | e'
    · exact .inl (e.trans e')
    · exact .inr ⟨e'.1, e.trans e'.2⟩
  · exact .inr e

theorem delete_step {m sub : Int} {ks : List Bytes} {k : Bytes} (h : DelOk N m ks s) (hs : 1 ≤ sub)
    (hk : ks[(sub - 1).toNat]? = some k) :
    ∀ t ∈ deleteApply s k ⟨m, sub⟩, DelOk N m ks t ∧ (∀ k', abs t k' = if k' = k then none else abs s k') ∧ Keeps s t := by
  intro t ht
  have hop : (⟨m, sub⟩ : Rev) ≠ ⟨0, 0⟩ := by intro e; cases e; omega
  have huq : ∀ k', Udel m ks ⟨m, sub⟩ k' → k' = k := by
    rintro k' (⟨_, h⟩ | ⟨_, _, h⟩)
    · simp only at h; omega
    · rw [hk] at h; cases h; rfl
  have hgood := delete_good h.good hop (.inr ⟨rfl, hs, hk⟩) huq (fun x hx => h.recs _ x hx rfl)
    (fun _ i hi hl hm => absurd (h.older k i hi hl _ hm) (by simp only; omega)) 0 t ht
  refine ⟨⟨hgood.1, ?_, ?_⟩, ?_, deleteApply_keeps _ _ _ t ht⟩
  · intro k' i hi hl
    by_cases e : k' = k
    · -- the key is deleted
      subst e
      have habs : abs t k' = none := by
        have := congrFun (congrArg Spec.map hgood.2) k'
        simpa [specOf, Spec.op, Spec.set] using this
      simp [abs, hi, hl] at habs
    · refine h.older k' i ?_ hl
      unfold deleteApply at ht
      split at ht
      · cases ht
      · simp only [List.mem_cons, List.not_mem_nil, or_false] at ht
        rcases ht with rfl | rfl <;> simpa [Node.setIndex, Node.setRec, CF.get_put, e] using hi
  · intro r x hx hm
    unfold deleteApply at ht
    split at ht
    · cases ht
    · simp only [List.mem_cons, List.not_mem_nil, or_false] at ht
      rcases ht with rfl | rfl
      · exact h.recs r x hx hm
      · simp only [Node.setRec, Node.setIndex] at hx
        split at hx
        · cases hx; exact ⟨rfl, rfl⟩
        · exact h.recs r x hx hm
  · intro k'
    have := congrFun (congrArg Spec.map hgood.2) k'
    simpa [specOf, Spec.op, Spec.set] using this

/-- The key is gone even if the delete finds nothing to do. -/
theorem delete_last {m sub : Int} {ks : List Bytes} {k : Bytes} (h : DelOk N m ks s) (hs : 1 ≤ sub)
    (hk : ks[(sub - 1).toNat]? = some k) :
    DelOk N m ks ((deleteApply s k ⟨m, sub⟩).getLastD s) ∧
      (∀ k', abs ((deleteApply s k ⟨m, sub⟩).getLastD s) k' = if k' = k then none else abs s k') ∧
      Keeps s ((deleteApply s k ⟨m, sub⟩).getLastD s) := by
  rw [List.getLastD_eq_getLast?]
  cases hl : (deleteApply s k ⟨m, sub⟩).getLast? with
  | none =>
    refine ⟨h, fun k' => ?_, Keeps.refl s⟩
    rw [List.getLast?_eq_none_iff] at hl
    split
    · next e =>
      subst e
      unfold deleteApply at hl
      split at hl
      · next hi => simp [abs, hi]
      · cases hl
    · rfl
  | some t => exact delete_step h hs hk t (List.mem_of_getLast? hl)

theorem deletes_run {m : Int} {ks : List Bytes} (suf pre : List Bytes) (hks : ks = pre ++ suf) (s : Node) (main : Option Int)
    (h : DelOk N m ks s) (hm : mainOf s main = m) (hmem : ∀ m, main = some m → s.memRev = some m) :
    (∀ t ∈ (opsRun s main (pre.length + 1) (suf.map Op.delete)).1,
      DelOk N m ks t ∧ Partly ks (abs s) (abs t) ∧ KeepsX s t) ∧
    DelOk N m ks (opsRun s main (pre.length + 1) (suf.map Op.delete)).2.1 ∧
    (∀ k, abs (opsRun s main (pre.length + 1) (suf.map Op.delete)).2.1 k = if k ∈ suf then none else abs s k) ∧
    (opsRun s main (pre.length + 1) (suf.map Op.delete)).2.2 = (if main.isSome || !suf.isEmpty then some m else none) ∧
    (opsRun s main (pre.length + 1) (suf.map Op.delete)).2.1.memRev = (if suf.isEmpty then s.memRev else some m) ∧
    KeepsX s (opsRun s main (pre.length + 1) (suf.map Op.delete)).2.1 := by
  induction suf generalizing pre s main with
  | nil =>
    refine ⟨fun t ht => (by cases ht), h, fun k => (by simp [opsRun]), ?_, rfl, (Keeps.refl s).x⟩
    cases main with
    | none => rfl
    | some m' => have : m' = m := hm
                 subst this; rfl
  | cons k suf ih =>
    obtain ⟨dr, dm, di, drv, dk⟩ := drawRev_spec s main (pre.length + 1) hmem
    rw [hm] at dr dm
    have h' := h.congr di drv
    have hk : ks[((pre.length + 1 : Int) - 1).toNat]? = some k := by
      have : ((pre.length + 1 : Int) - 1).toNat = pre.length := by omega
      rw [this, hks]; simp
    have hst := delete_step h' (sub := pre.length + 1) (by omega) hk
    obtain ⟨a, b, c⟩ := delete_last h' (sub := pre.length + 1) (by omega) hk
    have habs : abs (drawRev s main (pre.length + 1)).1 = abs s := by
      funext k'; simp only [abs, Node.record, di, drv]
    rw [habs] at b
    rw [← dr] at hst a b c
    generalize hs₁ : (deleteApply (drawRev s main (pre.length + 1)).1 k (drawRev s main (pre.length + 1)).2).getLastD
      (drawRev s main (pre.length + 1)).1 = s₁ at a b c
    have hrun : opsRun s main (pre.length + 1) ((k :: suf).map Op.delete) =
        (deleteApply (drawRev s main (pre.length + 1)).1 k (drawRev s main (pre.length + 1)).2 ++
          (opsRun s₁ (some m) ((pre ++ [k]).length + 1) (suf.map Op.delete)).1,
         (opsRun s₁ (some m) ((pre ++ [k]).length + 1) (suf.map Op.delete)).2) := by
      rw [List.map_cons, opsRun]
      simp only [hs₁]
      have : (drawRev s main (pre.length + 1)).2.main = m := by rw [dr]
      rw [this]
      have : ((pre.length : Int) + 1 + 1) = (((pre ++ [k]).length : Nat) : Int) + 1 := by simp
      rw [this]
    obtain ⟨t1, t2, t3, t4, t5, t6⟩ := ih (pre ++ [k]) (by rw [hks]; simp) s₁ (some m) a rfl
      (fun m' hm' => by cases hm'; exact c.memRev.trans dm)
    have hmemk : k ∈ ks := by rw [hks]; simp
    have hpart : Partly ks (abs s) (abs s₁) := by
      intro k'
      rw [b k']
      split
      · next e => exact .inr ⟨e ▸ hmemk, rfl⟩
      · exact .inl rfl
    rw [hrun]
    refine ⟨?_, t2, ?_, ?_, ?_, (dk.trans c.x).trans t6⟩
    · intro t ht
      rcases List.mem_append.1 ht with ht | ht
      · obtain ⟨x, y, z⟩ := hst t ht
        refine ⟨x, ?_, dk.trans z.x⟩
        intro k'
        rw [y k', habs]
        split
        · next e => exact .inr ⟨e ▸ hmemk, rfl⟩
        · exact .inl rfl
      · obtain ⟨x, y, z⟩ := t1 t ht
        exact ⟨x, hpart.trans y, (dk.trans c.x).trans z⟩
    · intro k'
      simp only
      rw [t3 k', b k']
      simp only [List.mem_cons]
      by_cases e : k' = k
      · simp [e]
      · simp [e]
    · simp only [t4]; simp
    · simp only [t5, List.isEmpty_cons, Bool.false_eq_true, if_false]
      split
      · exact c.memRev.trans dm
      · rfl

/-! ### Compactions -/

theorem compacts_run (hN : N) (cs : List (Bytes × Int)) (s : Node) (sub : Int) (h : Good N U s) :
    (∀ t ∈ (opsRun s none sub (cs.map fun c => Op.compact c.1 c.2)).1, Good N U t ∧ abs t = abs s ∧ Keeps s t) ∧
    Good N U (opsRun s none sub (cs.map fun c => Op.compact c.1 c.2)).2.1 ∧
    abs (opsRun s none sub (cs.map fun c => Op.compact c.1 c.2)).2.1 = abs s ∧
    Keeps s (opsRun s none sub (cs.map fun c => Op.compact c.1 c.2)).2.1 ∧
    (opsRun s none sub (cs.map fun c => Op.compact c.1 c.2)).2.2 = none := by
  induction cs generalizing s with
  | nil => exact ⟨fun t ht => (by cases ht), h, rfl, Keeps.refl s, rfl⟩
  | cons c cs ih =>
    have hst := compact_good (k := c.1) (rev := c.2) hN h 0
    obtain ⟨a, b, k⟩ := compact_last (k := c.1) (rev := c.2) hN h 0
    have hb : abs ((compactApply s c.1 c.2).getLastD s) = abs s := by have := congrArg Spec.map b; exact this
    obtain ⟨t1, t2, t3, t4, t5⟩ := ih _ a
    rw [List.map_cons]
    simp only [opsRun]
    refine ⟨?_, t2, t3.trans hb, k.trans t4, t5⟩
    intro t ht
    rcases List.mem_append.1 ht with ht | ht
    · obtain ⟨x, y, z⟩ := hst t ht
      exact ⟨x, by have := congrArg Spec.map y; exact this, z⟩
    · obtain ⟨x, y, z⟩ := t1 t ht
      exact ⟨x, y.trans hb, k.trans z⟩

/-! ### Puts -/

/-- A record under the revision of the put does not change what the put does. -/
theorem put_stale {m : Int} {k : Bytes} {il : Bool} {l : Int} {iv : Bool} {v : Bytes} {f : Rev → Option Rec} (x : Rec)
    (h : Good N (Below m 1) { s with revs := f }) :
    (putApply { s with revs := fun r => if r = ⟨m, 1⟩ then some x else f r } k ⟨m, 1⟩ il l iv v).1 =
      (putApply { s with revs := f } k ⟨m, 1⟩ il l iv v).1 := by
  have hlast : lastMod (s.index.get k) ≠ ⟨m, 1⟩ := by
    cases hi : s.index.get k with
    | none => simp [lastMod]
    | some i => exact fun e => not_below (m := m) (sub := 1) k (by have := (h.keys k i hi).mod; simp only [lastMod] at e; rwa [e] at this)
  have hrec : ∀ g : Rev → Option Rec, (Node.record { s with revs := fun r => if r = ⟨m, 1⟩ then some x else g r } (lastMod (s.index.get k))) =
      Node.record { s with revs := g } (lastMod (s.index.get k)) := by
    intro g; simp only [Node.record, if_neg hlast]
  simp only [putApply, hrec]
  generalize (if il = true then _ else _ : Int) = L
  by_cases hb : 0 < L ∧ s.leases.get L = none
  · simp only [if_pos hb]
  · simp only [if_neg hb]
    have : ∀ y : Rec, Node.setRec { s with revs := fun r => if r = ⟨m, 1⟩ then some x else f r } ⟨m, 1⟩ y =
        Node.setRec { s with revs := f } ⟨m, 1⟩ y := by
      intro y
      simp only [Node.setRec, Node.mk.injEq, true_and, and_true]
      funext r; split <;> rfl
    simp only [this]

/-- … and is seen by nobody. -/
theorem stale_good {m : Int} {f : Rev → Option Rec} (x : Rec) (h : Good N (Below m 1) { s with revs := f }) :
    Good N (Below (m + 1) 1) { s with revs := fun r => if r = ⟨m, 1⟩ then some x else f r } ∧
      abs { s with revs := fun r => if r = ⟨m, 1⟩ then some x else f r } = abs { s with revs := f } := by
  have hne : ∀ {r : Rev} {k : Bytes}, Below m 1 r k → r ≠ ⟨m, 1⟩ := by
    rintro r k hb rfl; exact not_below k hb
  have up : ∀ r k, Below m 1 r k → Below (m + 1) 1 r k := by
    rintro r k ⟨a, b⟩; exact ⟨a, by omega⟩
  refine ⟨⟨?_, ?_, ?_⟩, ?_⟩
  · have := h.zero
    simpa using this
  · intro r y hy
    simp only at hy
    split at hy
    · next e => subst e; exact ⟨by simp, .inl (by simp only; omega)⟩
    · exact up _ _ (h.recs r y hy)
  · intro k i hi
    have o := h.keys k i hi
    refine ⟨?_, o.nodup, fun r hr => up _ _ (o.used r hr), up _ _ o.mod, ?_⟩
    · obtain ⟨g, hg, hl⟩ := o.last
      exact ⟨g, hg, hl.frame (by simp only [if_neg (hne o.mod)])⟩
    · intro r hr y hy
      simp only [if_neg (hne (o.used r hr))] at hy
      exact o.owned r hr y hy
  · funext k
    unfold abs
    cases hi : s.index.get k with
    | none => simp only
    | some i =>
      have o := h.keys k i hi
      simp only [Node.record, if_neg (hne o.mod)]

/-! ### A replica in the middle of an entry -/

/-- What is left of the operations of an entry applied in part, any number of times, on a replica
that represented `S`.  `m` is the revision of the entry. -/
inductive KeysMid (N : Prop) (S : Spec) (m : Int) : List Op → Node → Prop
  | put (s : Node) (k : Bytes) (il : Bool) (l : Int) (iv : Bool) (v : Bytes) (f : Rev → Option Rec)
      (hf : s.revs = f ∨ ∃ x, s.revs = fun r => if r = ⟨m, 1⟩ then some x else f r)
      (hg : Good N (Below m 1) { s with revs := f }) (ha : abs { s with revs := f } = S.map) :
      KeysMid N S m [.put k il l iv v] s
  | deletes (s : Node) (ks : List Bytes) (h : DelOk N m ks s) (ha : Partly ks S.map (abs s)) :
      KeysMid N S m (ks.map Op.delete) s
  | compacts (s : Node) (cs : List (Bytes × Int)) (hN : N) (hg : Good N (Below m 1) s) (ha : abs s = S.map) :
      KeysMid N S m (cs.map fun c => Op.compact c.1 c.2) s

theorem abs_congr {t : Node} (hi : t.index = s.index) (hr : t.revs = s.revs) : abs t = abs s := by
  funext k; simp only [abs, Node.record, hi, hr]

theorem KeysMid.congr {S : Spec} {m : Int} {ops : List Op} {t : Node} (h : KeysMid N S m ops s) (hi : t.index = s.index)
    (hr : t.revs = s.revs) : KeysMid N S m ops t := by
  cases h with
  | put _ k il l iv v f hf hg ha =>
    exact .put t k il l iv v f (by rw [hr]; exact hf) (hg.congr hi rfl)
      ((abs_congr (t := { t with revs := f }) (s := { s with revs := f }) hi rfl).trans ha)
  | deletes _ ks h ha => exact .deletes t ks (h.congr hi hr) (by rw [abs_congr hi hr]; exact ha)
  | compacts _ cs hN hg ha => exact .compacts t cs hN (hg.congr hi hr) ((abs_congr hi hr).trans ha)

/-- The increments that requests make: one put, deletes, or compactions (and leases). -/
inductive Generated : List Op → Prop
  | put (k : Bytes) (il : Bool) (l : Int) (iv : Bool) (v : Bytes) : Generated [.put k il l iv v]
  | deletes (ks : List Bytes) : Generated (ks.map Op.delete)
  | compacts (cs : List (Bytes × Int)) : Generated (cs.map fun c => Op.compact c.1 c.2)

/-- The middle of an entry. -/
structure Mid (N : Prop) (S : Spec) (e : Entry) (s : Node) : Prop where
  applied : s.applied < e.index
  mem : s.memRev = some S.rev
  disk : initId 10000 s.diskRev = some S.rev
  pos : 10000 ≤ S.rev
  leases : (e.inc.leases.foldl leaseApply s).leases.get = (e.inc.leases.foldl Spec.lease S).leases
  keys : KeysMid N S (S.rev + 1) e.inc.ops s

/-- The end of it. -/
structure Done (N : Prop) (S : Spec) (e : Entry) (s : Node) : Prop where
  ok : Ok N s (S.entry e)
  applied : s.applied = e.index
  term : s.term = e.term

theorem Ok.mid {S : Spec} {e : Entry} (h : Ok N s S) (ha : s.applied < e.index) (hg : Generated e.inc.ops)
    (hN : (e.inc.ops.any fun o => !o.draws) = true → N) : Mid N S e s := by
  have habs : abs s = S.map := by have := congrArg Spec.map h.spec; exact this
  refine ⟨ha, h.mem, h.disk, h.pos, ?_, ?_⟩
  · have := congrArg Spec.leases (leases_spec e.inc.leases s S.rev).1
    rw [h.spec] at this
    exact this
  · generalize e.inc.ops = ops at hg hN
    cases hg with
    | put k il l iv v => exact .put s k il l iv v s.revs (.inl rfl) h.good habs
    | deletes ks =>
      refine .deletes s ks ⟨h.good.mono fun r k hu => .inl hu, ?_, ?_⟩ fun k => .inl (congrFun habs k)
      · intro k i hi _ r hr
        obtain ⟨a, b⟩ := (h.good.keys k i hi).used r hr
        omega
      · intro r x hx hm
        obtain ⟨a, b⟩ := h.good.recs r x hx
        omega
    | compacts cs =>
      cases cs with
      | nil =>
        refine .deletes s [] ⟨h.good.mono fun r k hu => .inl hu, ?_, ?_⟩ fun k => .inl (congrFun habs k)
        · intro k i hi _ r hr
          obtain ⟨a, b⟩ := (h.good.keys k i hi).used r hr
          omega
        · intro r x hx hm
          obtain ⟨a, b⟩ := h.good.recs r x hx
          omega
      | cons c cs => exact .compacts s _ (hN (by simp [Op.draws])) h.good habs

/-- The state before the last write of an entry. -/
structure RunOk (N : Prop) (S : Spec) (e : Entry) (t : Node) (main : Option Int) : Prop where
  good : Good N (Below ((S.entry e).rev + 1) 1) t
  map : abs t = (S.entry e).map
  leases : t.leases.get = (S.entry e).leases
  main : main = if e.inc.ops.any Op.draws then some (S.rev + 1) else none
  mem : t.memRev = some (S.entry e).rev
  disk : initId 10000 t.diskRev = some S.rev
  pos : 10000 ≤ S.rev

theorem RunOk.done {S : Spec} {e : Entry} {t : Node} {main : Option Int} (h : RunOk N S e t main) :
    Done N S e (finish t main e.inc.leaseIds e.term e.index) := by
  have hrev : (S.entry e).rev = if e.inc.ops.any Op.draws then S.rev + 1 else S.rev := rfl
  refine ⟨⟨h.good.congr rfl rfl, ?_, ?_, ?_, ?_⟩, rfl, rfl⟩
  · simp only [finish, h.main, h.mem, hrev]
    cases e.inc.ops.any Op.draws <;> simp [raiseId]
  · simp only [finish, h.main, hrev]
    cases e.inc.ops.any Op.draws
    · simp only [Bool.false_eq_true, if_false]; exact h.disk
    · have := h.pos; simp [initId]; omega
  · have := h.pos
    rw [hrev]; split <;> omega
  · exact Spec.ext' ((abs_congr rfl rfl).trans h.map) h.leases rfl

theorem spec_ops_leases (ops : List Op) (m : Int) (S : Spec) : (ops.foldl (Spec.op m) S).leases = S.leases := by
  induction ops generalizing S with
  | nil => rfl
  | cons o ops ih =>
    rw [List.foldl_cons, ih]
    cases o with
    | put => simp only [Spec.op]; split <;> split <;> rfl
    | delete => rfl
    | compact => rfl

theorem spec_deletes (ks : List Bytes) (m : Int) (S : Spec) :
    ((ks.map Op.delete).foldl (Spec.op m) S).map = fun k => if k ∈ ks then none else S.map k := by
  induction ks generalizing S with
  | nil => funext k; simp
  | cons k ks ih =>
    rw [List.map_cons, List.foldl_cons, ih]
    funext k'
    simp only [Spec.op, Spec.set, List.mem_cons]
    by_cases e : k' = k
    · simp [e]
    · simp [e]

theorem spec_compacts (cs : List (Bytes × Int)) (m : Int) (S : Spec) :
    (cs.map fun c => Op.compact c.1 c.2).foldl (Spec.op m) S = S := by
  induction cs generalizing S with
  | nil => rfl
  | cons c cs ih => rw [List.map_cons, List.foldl_cons, ih]; rfl

theorem udel_below {m : Int} {ks : List Bytes} (r : Rev) (k : Bytes) (h : Udel m ks r k) : Below (m + 1) 1 r k := by
  rcases h with ⟨a, b⟩ | ⟨a, b, _⟩
  · exact ⟨a, by omega⟩
  · exact ⟨b, by omega⟩

theorem udel_nil {m : Int} (r : Rev) (k : Bytes) (h : Udel m [] r k) : Below m 1 r k := by
  rcases h with h | ⟨a, b, h⟩
  · exact h
  · simp at h

/-- Applying the whole entry on a replica in the middle of it. -/
theorem Mid.run {S : Spec} {e : Entry} (h : Mid N S e s) :
    let s₁ := e.inc.leases.foldl leaseApply s
    let r := opsRun s₁ none 1 e.inc.ops
    RunOk N S e r.2.1 r.2.2 ∧
    (∀ n t, r.1[n]? = some t → (∀ k il l iv v, e.inc.ops = [.put k il l iv v] → n ≠ 1) →
      KeysMid N S (S.rev + 1) e.inc.ops t ∧ KeepsX s₁ t) := by
  intro s₁ r
  have hl := (leases_spec e.inc.leases s S.rev).2
  have hleases : s₁.leases.get = (e.inc.leases.foldl Spec.lease S).leases := h.leases
  have hmem : s₁.memRev = some S.rev := hl.memRev.trans h.mem
  have hdisk : initId 10000 s₁.diskRev = some S.rev := by rw [show s₁.diskRev = s.diskRev from hl.diskRev]; exact h.disk
  have hkeys : KeysMid N S (S.rev + 1) e.inc.ops s₁ := h.keys.congr hl.index hl.revs
  have hpos := h.pos
  have hmain : mainOf s₁ none = S.rev + 1 := by simp [mainOf, hmem, nextId]
  have hent : (S.entry e).leases = (e.inc.leases.foldl Spec.lease S).leases := spec_ops_leases _ _ _
  have hmap : (S.entry e).map = (e.inc.ops.foldl (Spec.op (S.rev + 1)) (e.inc.leases.foldl Spec.lease S)).map := rfl
  have hrev : (S.entry e).rev = if e.inc.ops.any Op.draws then S.rev + 1 else S.rev := rfl
  have hr : r = opsRun s₁ none 1 e.inc.ops := rfl
  clear_value r s₁
  clear h hl
  generalize hops : e.inc.ops = ops at hkeys hmap hrev hr
  cases hkeys with
  | deletes _ ks hd ha =>
    obtain ⟨t1, t2, t3, t4, t5, t6⟩ := deletes_run ks [] rfl s₁ none hd hmain (fun m hm => by cases hm)
    simp only [List.length_nil, Int.ofNat_zero, Int.zero_add, List.nil_append] at t1 t2 t3 t4 t5 t6
    rw [← hr] at t1 t2 t3 t4 t5 t6
    have hany : (ks.map Op.delete).any Op.draws = !ks.isEmpty := by
      cases ks with
      | nil => rfl
      | cons k ks => simp [Op.draws]
    refine ⟨⟨?_, ?_, ?_, ?_, ?_, ?_, hpos⟩, ?_⟩
    · rw [hrev, hany]
      cases ks with
      | nil => exact t2.good.mono udel_nil
      | cons k ks => exact t2.good.mono udel_below
    · rw [hmap, spec_deletes, leases_map]
      funext k
      rw [t3 k]
      split
      · rfl
      · rcases ha k with e | ⟨e, _⟩
        · exact e
        · contradiction
    · rw [t6.leases, hleases, hent]
    · rw [hops, hany, t4]
      rfl
    · rw [t5, hrev, hany, hmem]
      cases ks <;> rfl
    · rw [t6.diskRev]; exact hdisk
    · intro n t ht _
      obtain ⟨a, b, c⟩ := t1 t (List.mem_of_getElem? ht)
      exact ⟨.deletes t ks a (ha.trans b), c⟩
  | compacts _ cs hN hg ha =>
    obtain ⟨t1, t2, t3, t4, t5⟩ := compacts_run hN cs s₁ 1 hg
    rw [← hr] at t1 t2 t3 t4 t5
    have hany : (cs.map fun c => Op.compact c.1 c.2).any Op.draws = false := by
      simp [Op.draws]
    rw [hany] at hrev
    simp only [Bool.false_eq_true, if_false] at hrev
    refine ⟨⟨?_, ?_, ?_, ?_, ?_, ?_, hpos⟩, ?_⟩
    · rw [hrev]; exact t2
    · rw [hmap, spec_compacts, leases_map, t3, ha]
    · rw [t4.leases, hleases, hent]
    · rw [hops, hany, t5]; rfl
    · rw [t4.memRev, hrev, hmem]
    · rw [t4.diskRev]; exact hdisk
    · intro n t ht _
      obtain ⟨a, b, c⟩ := t1 t (List.mem_of_getElem? ht)
      exact ⟨.compacts t cs hN a (b.trans ha), c.x⟩
  | put _ k il l iv v f hf hg ha =>
    have hrev' : (S.entry e).rev = S.rev + 1 := hrev
    -- the revision is drawn
    obtain ⟨dr, dm, di, drv, dk⟩ := drawRev_spec s₁ none 1 (fun m hm => by cases hm)
    rw [hmain] at dr dm
    generalize hs₂ : (drawRev s₁ none 1).1 = s₂ at dm di drv dk
    have hg₂ : Good N (Below (S.rev + 1) 1) { s₂ with revs := f } := hg.congr di rfl
    have ha₂ : abs { s₂ with revs := f } = S.map := (abs_congr (t := { s₂ with revs := f }) (s := { s₁ with revs := f }) di rfl).trans ha
    have hf₂ : s₂ = { s₂ with revs := f } ∨ ∃ x, s₂ = { s₂ with revs := fun r => if r = ⟨S.rev + 1, 1⟩ then some x else f r } := by
      rcases hf with e | ⟨x, e⟩
      · exact .inl (by rw [← e, ← drv])
      · exact .inr ⟨x, by rw [← e, ← drv]⟩
    have hput : (putApply s₂ k ⟨S.rev + 1, 1⟩ il l iv v).1 = (putApply { s₂ with revs := f } k ⟨S.rev + 1, 1⟩ il l iv v).1 := by
      rcases hf₂ with e | ⟨x, e⟩
      · rw [← e]
      · refine Eq.trans ?_ (put_stale (k := k) (il := il) (l := l) (iv := iv) (v := v) x hg₂)
        rw [← e]
    have hrun : r = ((putApply s₂ k ⟨S.rev + 1, 1⟩ il l iv v).1,
        (putApply s₂ k ⟨S.rev + 1, 1⟩ il l iv v).1.getLastD s₂, some (S.rev + 1)) := by
      rw [hr]
      simp only [opsRun, List.append_nil]
      rw [dr, hs₂]
    obtain ⟨p1, p2, p3⟩ := put_fresh (k := k) (il := il) (l := l) (iv := iv) (v := v) hg₂ (by omega) S.rev
    have hspec : specOf { s₂ with revs := f } S.rev = e.inc.leases.foldl Spec.lease S := by
      refine Spec.ext' ?_ ?_ ?_
      · rw [leases_map]; exact ha₂
      · have : s₂.leases.get = s₁.leases.get := by rw [dk.leases]
        exact this.trans hleases
      · rw [spec_leases_rev]; rfl
    have up : ∀ r k, Below (S.rev + 1) (1 + 1) r k → Below (S.rev + 1 + 1) 1 r k := by
      rintro r k ⟨a, b⟩; exact ⟨a, by omega⟩
    have hmap' : (S.entry e).map = abs ((putApply { s₂ with revs := f } k ⟨S.rev + 1, 1⟩ il l iv v).1.getLastD { s₂ with revs := f }) := by
      have := congrArg Spec.map p2
      rw [hspec] at this
      rw [hmap]
      exact this.symm
    have hkeep : KeepsX s₁ ((putApply s₂ k ⟨S.rev + 1, 1⟩ il l iv v).1.getLastD s₂) ∧
        ((putApply s₂ k ⟨S.rev + 1, 1⟩ il l iv v).1.getLastD s₂).memRev = some (S.rev + 1) := by
      rw [List.getLastD_eq_getLast?]
      cases hl : (putApply s₂ k ⟨S.rev + 1, 1⟩ il l iv v).1.getLast? with
      | none => exact ⟨dk, dm⟩
      | some t =>
        have := putApply_keeps _ _ _ _ _ _ _ t (List.mem_of_getLast? hl)
        exact ⟨dk.trans this.x, this.memRev.trans dm⟩
    have hfinal : Good N (Below (S.rev + 1 + 1) 1) ((putApply s₂ k ⟨S.rev + 1, 1⟩ il l iv v).1.getLastD s₂) ∧
        abs ((putApply s₂ k ⟨S.rev + 1, 1⟩ il l iv v).1.getLastD s₂) = (S.entry e).map := by
      rw [List.getLastD_eq_getLast?] at p1 hmap' ⊢
      rw [← hput] at p1 hmap'
      cases hl : (putApply s₂ k ⟨S.rev + 1, 1⟩ il l iv v).1.getLast? with
      | none =>
        rw [hl] at p1 hmap'
        rcases hf₂ with e | ⟨x, e⟩
        · simp only [Option.getD_none] at p1 hmap' ⊢
          rw [← e] at p1 hmap'
          exact ⟨p1.mono up, hmap'.symm⟩
        · obtain ⟨a, b⟩ := stale_good x hg₂
          rw [← e] at a b
          exact ⟨a, b.trans hmap'.symm⟩
      | some t =>
        rw [hl] at p1 hmap'
        exact ⟨p1.mono up, hmap'.symm⟩
    rw [hrun]
    refine ⟨⟨?_, hfinal.2, ?_, ?_, ?_, ?_, hpos⟩, ?_⟩
    · rw [hrev']; exact hfinal.1
    · rw [hkeep.1.leases, hleases, hent]
    · rw [hops]; rfl
    · rw [hkeep.2, hrev']
    · rw [hkeep.1.diskRev]; exact hdisk
    · intro n t ht hn
      have hn := hn k il l iv v rfl
      rw [hput] at ht
      simp only [putApply] at ht
      have hk : KeepsX s₁ t := dk.trans (putApply_keeps _ _ _ _ _ _ _ t (by
        rw [hput]; simp only [putApply]; exact List.mem_of_getElem? ht)).x
      refine ⟨?_, hk⟩
      generalize (if il = true then _ else _ : Int) = L at ht
      by_cases hb : 0 < L ∧ s₂.leases.get L = none
      · simp only [if_pos hb] at ht
        simp at ht
      · simp only [if_neg hb] at ht
        match n, hn with
        | 0, _ =>
          simp only [List.getElem?_cons_zero, Option.some.injEq] at ht
          subst ht
          exact .put _ k il l iv v f (.inr ⟨_, rfl⟩) (hg₂.congr rfl rfl) ((abs_congr rfl rfl).trans ha₂)
        | n + 2, _ => simp at ht

end Verif.CoorKv
