import Verif.CoorKv.Spec

/-!
# Invariant of the coordinator's key-value store and effect of each operation
-/

namespace Verif.CoorKv
attribute [-instance] Verif.Txn.instDecidableLt_verif Verif.Txn.KeyOrder.toLT
open Verif.Codec (Bytes)
open Verif.Txn (CF KeyOrder)

/-- All revisions listed in an index. -/
def Index.all (i : Index) : List Rev := i.gens.flatMap (·.revs)

def Rec.item (x : Rec) : Item := ⟨x.value, x.create.main, x.mod.main, x.version, x.lease⟩

/-- What a client can see of a key. -/
def abs (s : Node) (k : Bytes) : Option Item :=
  match s.index.get k with
  | none => none
  | some i => if i.live then some (s.record i.mod).item else none

/-- The last generation is empty and the key does not exist, or it holds the last revision, whose
record agrees with it. -/
inductive LastOk (s : Node) (k : Bytes) (mod : Rev) : Gen → Prop
  | dead (g : Gen) (hc : g.create = none) (hr : g.revs = []) (hl : (s.record mod).lease = 0)
      (hv : (s.record mod).value = []) : LastOk s k mod g
  | live (g : Gen) (c : Rev) (x : Rec) (hc : g.create = some c) (hr : g.revs.getLast? = some mod)
      (hx : s.revs mod = some x) (hk : x.key = k) (hxc : x.create = c) (hxm : x.mod = mod)
      (hxv : x.version = g.version) : LastOk s k mod g

/-- `U r k`: revision `r` may have been given to key `k`; `N`: no revision is listed twice. -/
structure KeyOk (N : Prop) (U : Rev → Bytes → Prop) (s : Node) (k : Bytes) (i : Index) : Prop where
  last : ∃ g, i.gens.getLast? = some g ∧ LastOk s k i.mod g
  nodup : N → i.all.Nodup
  used : ∀ r ∈ i.all, U r k
  mod : U i.mod k
  owned : ∀ r ∈ i.all, ∀ x, s.revs r = some x → x.key = k

structure Good (N : Prop) (U : Rev → Bytes → Prop) (s : Node) : Prop where
  zero : s.revs ⟨0, 0⟩ = none
  recs : ∀ r x, s.revs r = some x → U r x.key
  keys : ∀ k i, s.index.get k = some i → KeyOk N U s k i

variable {N : Prop} {U V : Rev → Bytes → Prop} {s : Node}

theorem Good.mono (h : Good N U s) (huv : ∀ r k, U r k → V r k) : Good N V s :=
  ⟨h.zero, fun r x hx => huv _ _ (h.recs r x hx), fun k i hi =>
    let o := h.keys k i hi
    ⟨o.last, o.nodup, fun r hr => huv _ _ (o.used r hr), huv _ _ o.mod, o.owned⟩⟩

/-- Only the maps of keys and records matter. -/
theorem Good.congr {t : Node} (h : Good N U s) (hi : t.index = s.index) (hr : t.revs = s.revs) : Good N U t := by
  obtain ⟨ti, tr, a, b, c, d, e, f, g⟩ := t
  obtain ⟨si, sr, a', b', c', d', e', f', g'⟩ := s
  simp only at hi hr
  subst hi hr
  exact ⟨h.zero, h.recs, fun k i hi =>
    let o := h.keys k i hi
    ⟨by
      obtain ⟨g, hg, hl⟩ := o.last
      refine ⟨g, hg, ?_⟩
      cases hl with
      | dead hc hr hl hv => exact .dead g hc hr hl hv
      | live c x hc hr hx hk hxc hxm hxv => exact .live g c x hc hr hx hk hxc hxm hxv,
      o.nodup, o.used, o.mod, o.owned⟩⟩

theorem LastOk.live_iff {k : Bytes} {i : Index} {g : Gen} (hg : i.gens.getLast? = some g) (h : LastOk s k i.mod g) :
    i.live = true ↔ g.create.isSome = true := by
  simp only [Index.live, hg]
  cases h with
  | dead hc => simp [hc]
  | live c x hc hr =>
    simp only [hc, Option.isSome_some, Bool.true_and, Bool.not_eq_true', List.isEmpty_eq_false_iff, iff_true]
    intro h; rw [h] at hr; cases hr

/-- Records other than the last one of the key do not matter. -/
theorem LastOk.frame {t : Node} {k : Bytes} {m : Rev} {g : Gen} (h : LastOk s k m g) (hr : t.revs m = s.revs m) :
    LastOk t k m g := by
  have hrec : t.record m = s.record m := by simp only [Node.record, hr]
  cases h with
  | dead hc hr' hl hv => exact .dead g hc hr' (by rw [hrec]; exact hl) (by rw [hrec]; exact hv)
  | live c x hc hr' hx hk hxc hxm hxv => exact .live g c x hc hr' (by rw [hr]; exact hx) hk hxc hxm hxv

theorem abs_eq {k : Bytes} {i : Index} {g : Gen} (hi : s.index.get k = some i) (hg : i.gens.getLast? = some g)
    (h : LastOk s k i.mod g) :
    abs s k = if g.create.isSome then some (s.record i.mod).item else none := by
  unfold abs
  rw [hi]
  have := h.live_iff hg
  simp only
  cases hl : i.live <;> cases hc : g.create.isSome <;> simp_all

/-! ### Writing a record and then the index of one key -/

/-- Setting the index of `k` and the record `op`, which belongs to `k` alone. -/
theorem Good.write {k : Bytes} {op : Rev} {i : Index} {x : Rec} (h : Good N U s) (hop : op ≠ ⟨0, 0⟩)
    (hu : U op k) (huq : ∀ k', U op k' → k' = k) (hxk : x.key = k) (him : i.mod = op)
    (hlast : ∃ g, i.gens.getLast? = some g ∧ LastOk ((s.setRec op x).setIndex k i) k i.mod g)
    (hnodup : N → i.all.Nodup)
    (hall : ∀ r ∈ i.all, r = op ∨ ∃ i', s.index.get k = some i' ∧ r ∈ i'.all) :
    Good N U ((s.setRec op x).setIndex k i) := by
  refine ⟨?_, ?_, ?_⟩
  · simp only [Node.setRec, Node.setIndex, if_neg (Ne.symm hop), h.zero]
  · intro r y hy
    simp only [Node.setRec, Node.setIndex] at hy
    split at hy
    · next e => cases hy; rw [e, hxk]; exact hu
    · exact h.recs r y hy
  · intro k' i' hi'
    simp only [Node.setRec, Node.setIndex, CF.get_put] at hi'
    split at hi'
    · next e =>
      cases hi'
      subst e
      refine ⟨hlast, hnodup, ?_, by rw [him]; exact hu, ?_⟩
      · intro r hr
        rcases hall r hr with e | ⟨j, hj, hrj⟩
        · rw [e]; exact hu
        · exact (h.keys _ j hj).used r hrj
      · intro r hr y hy
        simp only [Node.setRec, Node.setIndex] at hy
        split at hy
        · cases hy; exact hxk
        · rcases hall r hr with e | ⟨j, hj, hrj⟩
          · contradiction
          · exact (h.keys _ j hj).owned r hrj y hy
    · next hne =>
      have o := h.keys k' i' hi'
      have hmne : i'.mod ≠ op := fun e => hne (huq k' (e ▸ o.mod))
      refine ⟨?_, o.nodup, o.used, o.mod, ?_⟩
      · obtain ⟨g, hg, hl⟩ := o.last
        exact ⟨g, hg, hl.frame (by simp only [Node.setRec, Node.setIndex, if_neg hmne])⟩
      · intro r hr y hy
        simp only [Node.setRec, Node.setIndex] at hy
        split at hy
        · next e => exact absurd (huq k' (e ▸ o.used r hr)) hne
        · exact o.owned r hr y hy

/-- … which changes what can be seen of no other key. -/
theorem abs_write_ne {k k' : Bytes} {op : Rev} {i : Index} {x : Rec} (h : Good N U s)
    (huq : ∀ k', U op k' → k' = k) (hne : k' ≠ k) : abs ((s.setRec op x).setIndex k i) k' = abs s k' := by
  unfold abs
  simp only [Node.setIndex, Node.setRec, CF.get_put, if_neg hne]
  cases hi : s.index.get k' with
  | none => rfl
  | some i' =>
    have hmne : i'.mod ≠ op := fun e => hne (huq k' (e ▸ (h.keys k' i' hi).mod))
    simp only [Node.record, if_neg hmne]

theorem setRec_setIndex (s : Node) (k : Bytes) (i : Index) (op : Rev) (x : Rec) :
    (s.setIndex k i).setRec op x = (s.setRec op x).setIndex k i := rfl

/-! ### Put -/

theorem all_mk (m : Rev) (gs : List Gen) : (Index.mk m gs).all = gs.flatMap (·.revs) := rfl

theorem all_append (m : Rev) (gs hs : List Gen) : (Index.mk m (gs ++ hs)).all = gs.flatMap (·.revs) ++ hs.flatMap (·.revs) := by
  simp [Index.all]

/-- An index is its older generations and the last one. -/
theorem all_of_last {i : Index} {g : Gen} (h : i.gens.getLast? = some g) :
    i.all = i.gens.dropLast.flatMap (·.revs) ++ g.revs := by
  obtain ⟨m, gs⟩ := i
  have : gs = gs.dropLast ++ [g] := by
    obtain ⟨l, rfl⟩ := List.getLast?_eq_some_iff.1 h
    simp
  change gs.flatMap _ = _
  rw [this]
  simp

/-- The lists of a put. -/
theorem put_all {k : Bytes} {op : Rev} (h : Good N U s) :
    (Index.mk op (oldGens (s.index.get k) ++ [putGen (s.index.get k) op])).all =
      ((s.index.get k).elim [] Index.all) ++ [op] := by
  cases hi : s.index.get k with
  | none => rfl
  | some i =>
    obtain ⟨g, hg, hl⟩ := (h.keys k i hi).last
    simp only [Option.elim_some, all_of_last hg, oldGens, putGen, hg, all_append]
    cases hl with
    | dead hc hr => simp [Gen.put, hc, hr]
    | live c x hc => simp [Gen.put, hc, List.append_assoc]

/-- The part of a replica that the operations on keys leave alone. -/
structure Keeps (s t : Node) : Prop where
  leases : t.leases = s.leases
  memRev : t.memRev = s.memRev
  diskRev : t.diskRev = s.diskRev
  memLease : t.memLease = s.memLease
  diskLease : t.diskLease = s.diskLease
  term : t.term = s.term
  applied : t.applied = s.applied

theorem Keeps.refl (s : Node) : Keeps s s := ⟨rfl, rfl, rfl, rfl, rfl, rfl, rfl⟩

theorem Keeps.trans {s t u : Node} (h : Keeps s t) (h' : Keeps t u) : Keeps s u :=
  ⟨h'.leases.trans h.leases, h'.memRev.trans h.memRev, h'.diskRev.trans h.diskRev, h'.memLease.trans h.memLease,
    h'.diskLease.trans h.diskLease, h'.term.trans h.term, h'.applied.trans h.applied⟩

/-- What a client can see of a replica. -/
def specOf (s : Node) (rev : Int) : Spec := ⟨abs s, s.leases.get, rev⟩

/-- What a put finds of the key. -/
theorem put_last {k : Bytes} (h : Good N U s) :
    (s.record (lastMod (s.index.get k))).lease = ((abs s k).map (·.lease)).getD 0 ∧
    (s.record (lastMod (s.index.get k))).value = ((abs s k).map (·.value)).getD [] := by
  cases hi : s.index.get k with
  | none => simp [lastMod, abs, hi, Node.record, h.zero, Rec.unset]
  | some i =>
    obtain ⟨g, hg, hl⟩ := (h.keys k i hi).last
    rw [abs_eq hi hg hl]
    cases hl with
    | dead hc hr hl hv => simp [lastMod, hc, hl, hv]
    | live c x hc hr hx => simp [lastMod, hc, Node.record, hx, Rec.item]

/-- What a put makes of the generations. -/
theorem put_gen {k : Bytes} {op : Rev} (h : Good N U s) :
    ∃ c, (putGen (s.index.get k) op).create = some c ∧
      c.main = ((abs s k).map (·.create)).getD op.main ∧
      (putGen (s.index.get k) op).version = ((abs s k).map (·.version)).getD 0 + 1 ∧
      (putGen (s.index.get k) op).revs.getLast? = some op := by
  cases hi : s.index.get k with
  | none => exact ⟨op, rfl, by simp [abs, hi], by simp [abs, hi, putGen, Gen.fresh], rfl⟩
  | some i =>
    obtain ⟨g, hg, hl⟩ := (h.keys k i hi).last
    rw [abs_eq hi hg hl]
    simp only [putGen, hg]
    cases hl with
    | dead hc hr hl hv => exact ⟨op, by simp [Gen.put, hc], by simp [hc], by simp [Gen.put, hc], by simp [Gen.put, hc, hr]⟩
    | live c x hc hr hx hk hxc hxm hxv =>
      refine ⟨c, by simp [Gen.put, hc], ?_, ?_, by simp [Gen.put, hc]⟩
      · simp [hc, Node.record, hx, Rec.item, hxc]
      · simp [hc, Gen.put, Node.record, hx, Rec.item, hxv]

theorem putApply_keeps (s : Node) (k : Bytes) (op : Rev) (il : Bool) (l : Int) (iv : Bool) (v : Bytes) :
    ∀ t ∈ (putApply s k op il l iv v).1, Keeps s t := by
  intro t ht
  simp only [putApply] at ht
  generalize (if il = true then _ else _ : Int) = L at ht
  split at ht
  · cases ht
  · simp only [List.mem_cons, List.not_mem_nil, or_false] at ht
    rcases ht with rfl | rfl <;> exact ⟨rfl, rfl, rfl, rfl, rfl, rfl, rfl⟩

theorem put_good {k : Bytes} {op : Rev} {il : Bool} {l : Int} {iv : Bool} {v : Bytes} (h : Good N U s)
    (hop : op ≠ ⟨0, 0⟩) (hu : U op k) (huq : ∀ k', U op k' → k' = k)
    (hnew : N → ∀ i, s.index.get k = some i → op ∉ i.all) (rv : Int) :
    Good N U ((putApply s k op il l iv v).1.getLastD s) ∧
      specOf ((putApply s k op il l iv v).1.getLastD s) rv = (specOf s rv).op op.main (.put k il l iv v) := by
  obtain ⟨hlease, hvalue⟩ := put_last (k := k) h
  obtain ⟨c, hc, hcm, hver, hlast⟩ := put_gen (k := k) (op := op) h
  simp only [putApply, Spec.op, specOf]
  rw [hlease, hvalue]
  by_cases hb : (0 < if il = true then ((abs s k).map (·.lease)).getD 0 else l) ∧
      s.leases.get (if il = true then ((abs s k).map (·.lease)).getD 0 else l) = none
  · simp only [if_pos hb]
    exact ⟨h, (if_pos hb).symm⟩
  · simp only [if_neg hb, List.getLastD_cons, List.getLastD_nil]
    generalize hx : Rec.mk _ _ _ _ _ _ _ = x
    have hlok : LastOk ((s.setRec op x).setIndex k ⟨op, oldGens (s.index.get k) ++ [putGen (s.index.get k) op]⟩) k op
        (putGen (s.index.get k) op) := by
      refine .live _ c x hc hlast (by simp [Node.setRec, Node.setIndex]) (by rw [← hx]) ?_ (by rw [← hx]) (by rw [← hx])
      rw [← hx, hc]; rfl
    have hgood : Good N U ((s.setRec op x).setIndex k ⟨op, oldGens (s.index.get k) ++ [putGen (s.index.get k) op]⟩) := by
      refine h.write hop hu huq (by rw [← hx]) rfl ⟨_, by simp, hlok⟩ ?_ ?_
      · intro hn
        rw [put_all h]
        cases hi : s.index.get k with
        | none => simp
        | some i =>
          rw [Option.elim_some, List.nodup_append]
          refine ⟨(h.keys k i hi).nodup hn, by simp, ?_⟩
          intro a ha b hb e
          rw [List.mem_singleton] at hb
          exact hnew hn i hi (by rw [← hb, ← e]; exact ha)
      · intro r hr
        rw [put_all h, List.mem_append, List.mem_singleton] at hr
        cases hi : s.index.get k with
        | none => rw [hi] at hr; simp at hr; exact .inl hr
        | some i =>
          rw [hi] at hr
          rcases hr with hr | hr
          · exact .inr ⟨i, rfl, hr⟩
          · exact .inl hr
    refine ⟨hgood, Eq.trans ?_ (if_neg hb).symm⟩
    simp only [Spec.set, Spec.mk.injEq, and_true]
    refine ⟨?_, rfl⟩
    funext k'
    split
    · next e =>
      subst e
      rw [abs_eq (i := ⟨op, oldGens (s.index.get k') ++ [putGen (s.index.get k') op]⟩)
        (by simp [Node.setIndex, Node.setRec, CF.get_put]) (by simp) hlok]
      simp only [hc, Option.isSome_some, if_true, Option.some.injEq]
      have : (Node.setIndex (s.setRec op x) k' ⟨op, oldGens (s.index.get k') ++ [putGen (s.index.get k') op]⟩).record op = x := by
        simp [Node.record, Node.setIndex, Node.setRec]
      rw [this, ← hx]
      simp only [Rec.item, hc, Option.getD_some, hcm, hver]
    · next hne => exact abs_write_ne h huq hne

/-! ### Delete -/

theorem deleteApply_keeps (s : Node) (k : Bytes) (op : Rev) : ∀ t ∈ deleteApply s k op, Keeps s t := by
  intro t ht
  unfold deleteApply at ht
  split at ht
  · cases ht
  · simp only [List.mem_cons, List.not_mem_nil, or_false] at ht
    rcases ht with rfl | rfl <;> exact ⟨rfl, rfl, rfl, rfl, rfl, rfl, rfl⟩

theorem unset_ok {t : Node} {k : Bytes} {op : Rev} {g : Gen} (hc : g.create = none) (hr : g.revs = [])
    (h : t.revs op = none ∨ ∃ x, t.revs op = some x ∧ x.lease = 0 ∧ x.value = []) : LastOk t k op g := by
  rcases h with h | ⟨x, h, hl, hv⟩
  · exact .dead g hc hr (by simp [Node.record, h, Rec.unset]) (by simp [Node.record, h, Rec.unset])
  · exact .dead g hc hr (by simp [Node.record, h, hl]) (by simp [Node.record, h, hv])

/-- The index after a delete. -/
theorem delIndex_spec {k : Bytes} {i : Index} {op : Rev} (h : Good N U s) (hi : s.index.get k = some i) :
    (delIndex i op).1.mod = op ∧
    (∃ g, (delIndex i op).1.gens.getLast? = some g ∧ g.create = none ∧ g.revs = []) ∧
    (delIndex i op).1.all = i.all ++ (if i.live then [op] else []) := by
  obtain ⟨g, hg, hl⟩ := (h.keys k i hi).last
  have hlive := hl.live_iff hg
  rw [all_of_last hg]
  cases hl with
  | dead hc hr =>
    have : i.live = false := by
      cases e : i.live
      · rfl
      · rw [hlive, hc] at e; cases e
    simp only [delIndex, hg, hc, this, Bool.false_eq_true, if_false, List.append_nil]
    exact ⟨trivial, ⟨g, rfl, hc, hr⟩, by rw [← all_of_last hg]; rfl⟩
  | live c x hc =>
    have : i.live = true := hlive.2 (by rw [hc]; rfl)
    simp only [delIndex, hg, hc, this, if_true]
    refine ⟨trivial, ⟨Gen.unset, by simp, rfl, rfl⟩, ?_⟩
    rw [all_append]
    simp [Gen.unset, List.append_assoc]

/-- After either write of a delete the key is gone and nothing else has changed. -/
theorem delete_good {k : Bytes} {op : Rev} (h : Good N U s) (hop : op ≠ ⟨0, 0⟩) (hu : U op k)
    (huq : ∀ k', U op k' → k' = k)
    (hrec : ∀ x, s.revs op = some x → x.lease = 0 ∧ x.value = [])
    (hnew : N → ∀ i, s.index.get k = some i → i.live = true → op ∉ i.all) (rv : Int) :
    ∀ t ∈ deleteApply s k op, Good N U t ∧ specOf t rv = (specOf s rv).op op.main (.delete k) := by
  intro t ht
  unfold deleteApply at ht
  split at ht
  · cases ht
  · next i hi =>
    obtain ⟨hm, ⟨g, hg, hgc, hgr⟩, hall⟩ := delIndex_spec (op := op) h hi
    have key : ∀ x : Option Rec, (∀ y, x = some y → y.key = k ∧ y.lease = 0 ∧ y.value = []) →
        let t : Node := { s.setIndex k (delIndex i op).1 with revs := fun r => if r = op then x else s.revs r }
        Good N U t ∧ specOf t rv = (specOf s rv).op op.main (.delete k) := by
      intro x hx
      intro t
      have hl : LastOk t k op g := by
        refine unset_ok hgc hgr ?_
        cases x with
        | none => exact .inl (by simp [t])
        | some y => exact .inr ⟨y, by simp [t], (hx y rfl).2⟩
      refine ⟨⟨?_, ?_, ?_⟩, ?_⟩
      · simp only [t, if_neg (Ne.symm hop), h.zero]
      · intro r y hy
        simp only [t] at hy
        split at hy
        · next e => rw [e, (hx y hy).1]; exact hu
        · exact h.recs r y hy
      · intro k' i' hi'
        simp only [t, Node.setIndex, CF.get_put] at hi'
        split at hi'
        · next e =>
          cases hi'
          subst e
          have hsub : ∀ r ∈ (delIndex i op).1.all, r = op ∨ r ∈ i.all := by
            intro r hr
            rw [hall, List.mem_append] at hr
            rcases hr with hr | hr
            · exact .inr hr
            · split at hr
              · exact .inl (List.mem_singleton.1 hr)
              · cases hr
          refine ⟨⟨g, hg, by rw [hm]; exact hl⟩, ?_, ?_, by rw [hm]; exact hu, ?_⟩
          · intro hn
            rw [hall, List.nodup_append]
            refine ⟨(h.keys _ i hi).nodup hn, by split <;> simp, ?_⟩
            intro a ha b hb e
            split at hb
            · next hlive =>
              rw [List.mem_singleton] at hb
              exact hnew hn i hi hlive (by rw [← hb, ← e]; exact ha)
            · cases hb
          · intro r hr
            rcases hsub r hr with e | hr
            · rw [e]; exact hu
            · exact (h.keys _ i hi).used r hr
          · intro r hr y hy
            simp only [t] at hy
            split at hy
            · exact (hx y hy).1
            · rcases hsub r hr with e | hr
              · contradiction
              · exact (h.keys _ i hi).owned r hr y hy
        · next hne =>
          have o := h.keys k' i' hi'
          have hmne : i'.mod ≠ op := fun e => hne (huq k' (e ▸ o.mod))
          refine ⟨?_, o.nodup, o.used, o.mod, ?_⟩
          · obtain ⟨g, hg, hl⟩ := o.last
            exact ⟨g, hg, hl.frame (by simp only [t, if_neg hmne])⟩
          · intro r hr y hy
            simp only [t] at hy
            split at hy
            · next e => exact absurd (huq k' (e ▸ o.used r hr)) hne
            · exact o.owned r hr y hy
      · simp only [Spec.op, Spec.set, specOf, Spec.mk.injEq, and_true]
        refine ⟨?_, rfl⟩
        funext k'
        split
        · next e =>
          subst e
          rw [abs_eq (i := (delIndex i op).1) (by simp [t, Node.setIndex, CF.get_put]) hg (by rw [hm]; exact hl)]
          simp [hgc]
        · next hne =>
          unfold abs
          simp only [t, Node.setIndex, CF.get_put, if_neg hne]
          cases hi' : s.index.get k' with
          | none => rfl
          | some i' =>
            have hmne : i'.mod ≠ op := fun e => hne (huq k' (e ▸ (h.keys k' i' hi').mod))
            simp only [Node.record, if_neg hmne]
    simp only [List.mem_cons, List.not_mem_nil, or_false] at ht
    rcases ht with rfl | rfl
    · have := key (s.revs op) (fun y hy => ⟨huq _ (h.recs op y hy), hrec y hy⟩)
      have e : (fun r => if r = op then s.revs op else s.revs r) = s.revs := by
        funext r; split
        · next e => rw [e]
        · rfl
      simp only [e] at this
      exact this
    · exact key (some _) (fun y hy => by cases hy; exact ⟨rfl, rfl, rfl⟩)

/-- A delete of a key that has no index. -/
theorem delete_absent {k : Bytes} (h : s.index.get k = none) (op : Rev) (rv m : Int) :
    deleteApply s k op = [] ∧ (specOf s rv).op m (.delete k) = specOf s rv := by
  refine ⟨by simp [deleteApply, h], ?_⟩
  simp only [Spec.op, Spec.set, specOf, Spec.mk.injEq, and_true]
  funext k'
  split
  · next e => subst e; simp [abs, h]
  · rfl

/-! ### Compaction -/

/-- Erasing a record that is not the last one of a key that exists. -/
theorem erase_good {r : Rev} (h : Good N U s)
    (hr : ∀ k i, s.index.get k = some i → i.live = true → i.mod ≠ r) (rv : Int) :
    Good N U (s.eraseRec r) ∧ specOf (s.eraseRec r) rv = specOf s rv := by
  refine ⟨⟨?_, ?_, ?_⟩, ?_⟩
  · simp only [Node.eraseRec, h.zero, ite_self]
  · intro r' x hx
    simp only [Node.eraseRec] at hx
    split at hx
    · cases hx
    · exact h.recs r' x hx
  · intro k i hi
    have o := h.keys k i hi
    refine ⟨?_, o.nodup, o.used, o.mod, ?_⟩
    · obtain ⟨g, hg, hl⟩ := o.last
      refine ⟨g, hg, ?_⟩
      by_cases hm : i.mod = r
      · have hlive := hl.live_iff hg
        cases hl with
        | dead hc hr' => exact unset_ok hc hr' (.inl (by simp [Node.eraseRec, hm]))
        | live c x hc => exact absurd hm (hr k i hi (hlive.2 (by rw [hc]; rfl)))
      · exact hl.frame (by simp only [Node.eraseRec, if_neg hm])
    · intro r' hr' x hx
      simp only [Node.eraseRec] at hx
      split at hx
      · cases hx
      · exact o.owned r' hr' x hx
  · simp only [specOf, Spec.mk.injEq, and_true]
    refine ⟨?_, rfl⟩
    funext k
    unfold abs
    change (match s.index.get k with | none => none | some i => _) = _
    cases hi : s.index.get k with
    | none => rfl
    | some i =>
      simp only
      split
      · next hl => simp only [Node.record, Node.eraseRec, if_neg (hr k i hi hl)]
      · rfl

theorem eraseAll_good (rs : List Rev) (h : Good N U s)
    (hr : ∀ k i, s.index.get k = some i → i.live = true → i.mod ∉ rs) (rv : Int) :
    ∀ t ∈ eraseAll s rs, Good N U t ∧ specOf t rv = specOf s rv ∧ Keeps s t := by
  induction rs generalizing s with
  | nil => intro t ht; cases ht
  | cons r rs ih =>
    have h1 := erase_good (r := r) h (fun k i hi hl e => hr k i hi hl (by rw [e]; exact List.mem_cons_self ..)) rv
    intro t ht
    rw [eraseAll, List.mem_cons] at ht
    rcases ht with rfl | ht
    · exact ⟨h1.1, h1.2, ⟨rfl, rfl, rfl, rfl, rfl, rfl, rfl⟩⟩
    · obtain ⟨a, b, c⟩ := ih h1.1 (fun k i hi hl hm => hr k i hi hl (List.mem_cons_of_mem _ hm)) t ht
      exact ⟨a, b.trans h1.2, c.leases, c.memRev, c.diskRev, c.memLease, c.diskLease, c.term, c.applied⟩

theorem compactOld_sub (rev : Int) (gs : List Gen) :
    List.Sublist ((compactOld rev gs).1.flatMap (·.revs)) (gs.flatMap (·.revs)) ∧
      ∀ r ∈ (compactOld rev gs).2, r ∈ gs.flatMap (·.revs) := by
  induction gs with
  | nil => exact ⟨List.Sublist.refl _, fun r hr => by cases hr⟩
  | cons g gs ih =>
    rw [compactOld]
    rw [List.flatMap_cons]
    split
    · exact ⟨ih.1.trans (List.sublist_append_right ..), fun r hr => List.mem_append_right _ (ih.2 r hr)⟩
    · dsimp only
      split
      · refine ⟨ih.1.trans (List.sublist_append_right ..), fun r hr => ?_⟩
        rcases List.mem_append.1 hr with hr | hr
        · exact List.mem_append_left _ (List.mem_filter.1 hr).1
        · exact List.mem_append_right _ (ih.2 r hr)
      · refine ⟨?_, fun r hr => List.mem_append_left _ (List.mem_filter.1 hr).1⟩
        rw [List.flatMap_cons]
        exact List.Sublist.append List.filter_sublist (List.Sublist.refl _)

/-- The last generation of a compaction: kept, with its last revision, or empty with all others. -/
theorem compactLast_spec (rev : Int) (keep : Bool) (g : Gen) {k : Bytes} {m : Rev} (hl : LastOk s k m g) :
    (∀ r ∈ (compactLast rev keep g).2, r ∈ g.revs.dropLast) ∧
    List.Sublist ((compactLast rev keep g).1.flatMap (·.revs)) g.revs ∧
    ((∃ g', (compactLast rev keep g).1 = [g'] ∧ LastOk s k m g' ∧ g'.create = g.create) ∨
      ((compactLast rev keep g).1 = [] ∧ g.create = none ∧ keep = false)) := by
  unfold compactLast
  split
  · exact ⟨fun r hr => (by cases hr), by simp, .inl ⟨g, rfl, hl, rfl⟩⟩
  · next hk =>
    cases hl with
    | dead hc hr =>
      simp only [hc]
      exact ⟨fun r hr => (by cases hr), by simp, .inr ⟨trivial, trivial, by simpa using hk⟩⟩
    | live c x hc hr hx hxk hxc hxm hxv =>
      simp only [hc, hr, Option.toList_some]
      have hne : (List.filter (fun r => decide ¬ r.main < rev) g.revs.dropLast ++ [m]).isEmpty = false := by simp
      rw [hne]
      simp only [Bool.false_eq_true, if_false]
      refine ⟨fun r hr => (List.mem_filter.1 hr).1, ?_, .inl ⟨_, rfl, .live _ c x rfl (by simp) hx hxk hxc hxm hxv, rfl⟩⟩
      obtain ⟨l, hl⟩ := List.getLast?_eq_some_iff.1 hr
      rw [hl]
      simp only [List.flatMap_cons, List.flatMap_nil, List.append_nil, List.dropLast_concat]
      exact List.Sublist.append List.filter_sublist (List.Sublist.refl _)

/-- Replacing the index of a key by one that lists fewer revisions and means the same. -/
theorem Good.shrink {k : Bytes} {i i' : Index} (h : Good N U s) (hi : s.index.get k = some i) (hm : i'.mod = i.mod)
    (hsub : List.Sublist i'.all i.all) (hlast : ∃ g, i'.gens.getLast? = some g ∧ LastOk s k i.mod g) :
    Good N U (s.setIndex k i') := by
  refine ⟨h.zero, h.recs, ?_⟩
  intro k' j hj
  simp only [Node.setIndex, CF.get_put] at hj
  split at hj
  · next e =>
    cases hj
    subst e
    have o := h.keys k' i hi
    obtain ⟨g, hg, hl⟩ := hlast
    refine ⟨⟨g, hg, ?_⟩, fun hn => (o.nodup hn).sublist hsub, fun r hr => o.used r (hsub.subset hr), by rw [hm]; exact o.mod,
      fun r hr => o.owned r (hsub.subset hr)⟩
    rw [hm]
    exact hl.frame rfl
  · have o := h.keys k' j hj
    obtain ⟨g, hg, hl⟩ := o.last
    exact ⟨⟨g, hg, hl.frame rfl⟩, o.nodup, o.used, o.mod, o.owned⟩

theorem Good.dropIndex {k : Bytes} (h : Good N U s) : Good N U (s.eraseIndex k) := by
  refine ⟨h.zero, h.recs, ?_⟩
  intro k' j hj
  simp only [Node.eraseIndex, CF.get_del] at hj
  split at hj
  · cases hj
  · have o := h.keys k' j hj
    obtain ⟨g, hg, hl⟩ := o.last
    exact ⟨⟨g, hg, hl.frame rfl⟩, o.nodup, o.used, o.mod, o.owned⟩

/-- After every write of a compaction nothing a client can see has changed. -/
theorem compact_good {k : Bytes} {rev : Int} (hN : N) (h : Good N U s) (rv : Int) :
    ∀ t ∈ compactApply s k rev, Good N U t ∧ specOf t rv = specOf s rv ∧ Keeps s t := by
  unfold compactApply
  cases hi : s.index.get k with
  | none => intro t ht; cases ht
  | some i =>
    have o := h.keys k i hi
    obtain ⟨g, hg, hl⟩ := o.last
    simp only [hg]
    obtain ⟨hsub, hdead⟩ := compactOld_sub rev i.gens.dropLast
    obtain ⟨hdead', hsub', hcase⟩ := compactLast_spec rev (!(compactOld rev i.gens.dropLast).1.isEmpty) g hl
    generalize compactOld rev i.gens.dropLast = co at *
    obtain ⟨old, d⟩ := co
    generalize compactLast rev (!old.isEmpty) g = cl at *
    obtain ⟨last, d'⟩ := cl
    simp only at hsub hdead hdead' hsub' hcase ⊢
    have hall := all_of_last hg
    have hnd := o.nodup hN
    rw [hall, List.nodup_append] at hnd
    -- the first write
    have first : Good N U (if (old ++ last).isEmpty = true then s.eraseIndex k else s.setIndex k ⟨i.mod, old ++ last⟩) ∧
        specOf (if (old ++ last).isEmpty = true then s.eraseIndex k else s.setIndex k ⟨i.mod, old ++ last⟩) rv = specOf s rv := by
      rcases hcase with ⟨g', hg', hl', hcr⟩ | ⟨hnil, hcr, hkeep⟩
      · subst hg'
        have : (old ++ [g']).isEmpty = false := by simp
        rw [this]
        simp only [Bool.false_eq_true, if_false]
        have hsh : Good N U (s.setIndex k ⟨i.mod, old ++ [g']⟩) :=
          h.shrink hi rfl (by
            rw [hall, all_append]
            simp only [List.flatMap_cons, List.flatMap_nil, List.append_nil] at hsub' ⊢
            exact List.Sublist.append hsub hsub') ⟨g', by simp, hl'⟩
        refine ⟨hsh, ?_⟩
        simp only [specOf, Spec.mk.injEq, and_true]
        refine ⟨?_, rfl⟩
        funext k'
        by_cases e : k' = k
        · subst e
          rw [abs_eq (s := s.setIndex k' ⟨i.mod, old ++ [g']⟩) (i := ⟨i.mod, old ++ [g']⟩)
            (by simp [Node.setIndex, CF.get_put]) (by simp) (hl'.frame rfl), abs_eq hi hg hl, hcr]
          rfl
        · unfold abs
          simp only [Node.setIndex, CF.get_put, if_neg e]
          rfl
      · subst hnil
        have he : old.isEmpty = true := by simpa using hkeep
        have he' : (old ++ []).isEmpty = true := by simpa using he
        rw [he']
        simp only [if_true]
        refine ⟨h.dropIndex, ?_⟩
        simp only [specOf, Spec.mk.injEq, and_true]
        refine ⟨?_, rfl⟩
        funext k'
        by_cases e : k' = k
        · subst e
          rw [abs_eq hi hg hl, hcr]
          simp [abs, Node.eraseIndex, CF.get_del]
        · unfold abs
          simp only [Node.eraseIndex, CF.get_del, if_neg e]
          rfl
    generalize hs₁ : (if (old ++ last).isEmpty = true then s.eraseIndex k else s.setIndex k ⟨i.mod, old ++ last⟩) = s₁ at first
    have hk₁ : Keeps s s₁ ∧ s₁.revs = s.revs ∧ ∀ k' j, k' ≠ k → s₁.index.get k' = some j → s.index.get k' = some j := by
      rw [← hs₁]
      split
      · exact ⟨⟨rfl, rfl, rfl, rfl, rfl, rfl, rfl⟩, rfl, fun k' j hne hj => by
          simpa [Node.eraseIndex, CF.get_del, hne] using hj⟩
      · exact ⟨⟨rfl, rfl, rfl, rfl, rfl, rfl, rfl⟩, rfl, fun k' j hne hj => by
          simpa [Node.setIndex, CF.get_put, hne] using hj⟩
    have hin : ∀ r ∈ d ++ d', r ∈ i.all := by
      intro r hr
      rw [hall]
      rcases List.mem_append.1 hr with hr | hr
      · exact List.mem_append_left _ (hdead r hr)
      · exact List.mem_append_right _ (List.dropLast_sublist _ |>.subset (hdead' r hr))
    have hfree : ∀ k' j, s₁.index.get k' = some j → j.live = true → j.mod ∉ d ++ d' := by
      intro k' j hj hlive hmem
      by_cases e : k' = k
      · subst e
        -- the key itself
        rcases hcase with ⟨g', hg', hl', hcr⟩ | ⟨hnil, hcr, hkeep⟩
        · subst hg'
          have : (old ++ [g']).isEmpty = false := by simp
          rw [this] at hs₁
          simp only [Bool.false_eq_true, if_false] at hs₁
          rw [← hs₁] at hj
          simp only [Node.setIndex, CF.get_put, if_true, Option.some.injEq] at hj
          subst hj
          have hsome := (LastOk.live_iff (i := ⟨i.mod, old ++ [g']⟩) (by simp) hl').1 hlive
          rw [hcr] at hsome
          simp only at hmem
          cases hl with
          | dead hc => rw [hc] at hsome; cases hsome
          | live c x hc hr =>
            obtain ⟨l, hl⟩ := List.getLast?_eq_some_iff.1 hr
            rcases List.mem_append.1 hmem with hm | hm
            · exact hnd.2.2 _ (hdead _ hm) _ (by rw [hl]; simp) rfl
            · have hm := hdead' _ hm
              rw [hl, List.dropLast_concat] at hm
              have := hnd.2.1
              rw [hl, List.nodup_append] at this
              exact this.2.2 _ hm _ (List.mem_singleton_self _) rfl
        · subst hnil
          have he : (old ++ []).isEmpty = true := by simpa using hkeep
          rw [he] at hs₁
          simp only [if_true] at hs₁
          rw [← hs₁] at hj
          simp [Node.eraseIndex, CF.get_del] at hj
      · have hj' := hk₁.2.2 k' j e hj
        obtain ⟨g', hg', hl'⟩ := (h.keys k' j hj').last
        have hsome := (hl'.live_iff hg').1 hlive
        cases hl' with
        | dead hc => rw [hc] at hsome; cases hsome
        | live c x hc hr hx hxk => exact e (hxk.symm.trans (o.owned _ (hin _ hmem) x hx))
    intro t ht
    rw [List.mem_cons] at ht
    rcases ht with rfl | ht
    · exact ⟨first.1, first.2, hk₁.1⟩
    · obtain ⟨a, b, c⟩ := eraseAll_good (d ++ d') first.1 hfree rv t ht
      exact ⟨a, b.trans first.2, hk₁.1.trans c⟩

/-! ### The operations of an entry -/

/-- Revisions given out before `⟨m, sub⟩`. -/
def Below (m sub : Int) (r : Rev) (_ : Bytes) : Prop := 1 ≤ r.sub ∧ (r.main < m ∨ (r.main = m ∧ r.sub < sub))

/-- … and one more, for one key. -/
def Plus (U : Rev → Bytes → Prop) (op : Rev) (k : Bytes) (r : Rev) (k' : Bytes) : Prop := U r k' ∨ (r = op ∧ k' = k)

theorem below_plus {m sub : Int} (hs : 1 ≤ sub) {k : Bytes} (r : Rev) (k' : Bytes) (h : Plus (Below m sub) ⟨m, sub⟩ k r k') :
    Below m (sub + 1) r k' := by
  rcases h with ⟨h1, h2⟩ | ⟨h1, _⟩
  · refine ⟨h1, ?_⟩; omega
  · subst h1; exact ⟨hs, .inr ⟨rfl, by simp only; omega⟩⟩

theorem not_below {m sub : Int} (k : Bytes) : ¬ Below m sub ⟨m, sub⟩ k := by
  rintro ⟨_, h⟩; simp only at h; omega

theorem put_fresh {m sub : Int} {k : Bytes} {il : Bool} {l : Int} {iv : Bool} {v : Bytes}
    (h : Good N (Below m sub) s) (hs : 1 ≤ sub) (rv : Int) :
    Good N (Below m (sub + 1)) ((putApply s k ⟨m, sub⟩ il l iv v).1.getLastD s) ∧
      specOf ((putApply s k ⟨m, sub⟩ il l iv v).1.getLastD s) rv = (specOf s rv).op m (.put k il l iv v) ∧
      Keeps s ((putApply s k ⟨m, sub⟩ il l iv v).1.getLastD s) := by
  have h' : Good N (Plus (Below m sub) ⟨m, sub⟩ k) s := h.mono fun r k' hu => .inl hu
  have hop : (⟨m, sub⟩ : Rev) ≠ ⟨0, 0⟩ := by intro e; cases e; omega
  obtain ⟨a, b⟩ := put_good (il := il) (l := l) (iv := iv) (v := v) h' hop (.inr ⟨rfl, rfl⟩) (fun k' hu => by
    rcases hu with hu | ⟨_, hu⟩
    · exact absurd hu (not_below _)
    · exact hu) (fun _ i hi hm => not_below _ ((h.keys k i hi).used _ hm)) rv
  refine ⟨a.mono (below_plus hs), b, ?_⟩
  rw [List.getLastD_eq_getLast?]
  cases hl : (putApply s k ⟨m, sub⟩ il l iv v).1.getLast? with
  | none => exact Keeps.refl s
  | some t => exact putApply_keeps _ _ _ _ _ _ _ t (List.mem_of_getLast? hl)

theorem delete_fresh {m sub : Int} {k : Bytes} (h : Good N (Below m sub) s) (hs : 1 ≤ sub) (rv : Int) :
    Good N (Below m (sub + 1)) ((deleteApply s k ⟨m, sub⟩).getLastD s) ∧
      specOf ((deleteApply s k ⟨m, sub⟩).getLastD s) rv = (specOf s rv).op m (.delete k) ∧
      Keeps s ((deleteApply s k ⟨m, sub⟩).getLastD s) := by
  have h' : Good N (Plus (Below m sub) ⟨m, sub⟩ k) s := h.mono fun r k' hu => .inl hu
  have hop : (⟨m, sub⟩ : Rev) ≠ ⟨0, 0⟩ := by intro e; cases e; omega
  cases hi : s.index.get k with
  | none =>
    obtain ⟨e, e'⟩ := delete_absent hi ⟨m, sub⟩ rv m
    rw [e]
    exact ⟨h.mono fun r k' hu => below_plus (k := k) hs r k' (.inl hu), e'.symm, Keeps.refl s⟩
  | some i =>
    have key := delete_good h' hop (.inr ⟨rfl, rfl⟩) (fun k' hu => by
      rcases hu with hu | ⟨_, hu⟩
      · exact absurd hu (not_below _)
      · exact hu) (fun x hx => absurd (h.recs _ x hx) (not_below _))
      (fun _ i hi _ hm => not_below _ ((h.keys k i hi).used _ hm)) rv
    have hkeep := deleteApply_keeps s k ⟨m, sub⟩
    rw [List.getLastD_eq_getLast?]
    cases hl : (deleteApply s k ⟨m, sub⟩).getLast? with
    | none =>
      rw [List.getLast?_eq_none_iff] at hl
      simp [deleteApply, hi] at hl
    | some t =>
      have ht := List.mem_of_getLast? hl
      exact ⟨(key t ht).1.mono (below_plus hs), (key t ht).2, hkeep t ht⟩

theorem compact_last {k : Bytes} {rev : Int} (hN : N) (h : Good N U s) (rv : Int) :
    Good N U ((compactApply s k rev).getLastD s) ∧ specOf ((compactApply s k rev).getLastD s) rv = specOf s rv ∧
      Keeps s ((compactApply s k rev).getLastD s) := by
  rw [List.getLastD_eq_getLast?]
  cases hl : (compactApply s k rev).getLast? with
  | none => exact ⟨h, rfl, Keeps.refl s⟩
  | some t => exact compact_good hN h rv t (List.mem_of_getLast? hl)

/-- The parts of a replica that no operation on keys changes. -/
structure KeepsX (s t : Node) : Prop where
  leases : t.leases = s.leases
  diskRev : t.diskRev = s.diskRev
  memLease : t.memLease = s.memLease
  diskLease : t.diskLease = s.diskLease
  term : t.term = s.term
  applied : t.applied = s.applied

theorem Keeps.x {s t : Node} (h : Keeps s t) : KeepsX s t :=
  ⟨h.leases, h.diskRev, h.memLease, h.diskLease, h.term, h.applied⟩

theorem KeepsX.trans {s t u : Node} (h : KeepsX s t) (h' : KeepsX t u) : KeepsX s u :=
  ⟨h'.leases.trans h.leases, h'.diskRev.trans h.diskRev, h'.memLease.trans h.memLease,
    h'.diskLease.trans h.diskLease, h'.term.trans h.term, h'.applied.trans h.applied⟩

/-- The main revision of the entry. -/
def mainOf (s : Node) (main : Option Int) : Int := main.getD (nextId s.memRev)

theorem drawRev_spec (s : Node) (main : Option Int) (sub : Int) (hmem : ∀ m, main = some m → s.memRev = some m) :
    (drawRev s main sub).2 = ⟨mainOf s main, sub⟩ ∧ (drawRev s main sub).1.memRev = some (mainOf s main) ∧
      (drawRev s main sub).1.index = s.index ∧ (drawRev s main sub).1.revs = s.revs ∧ KeepsX s (drawRev s main sub).1 := by
  cases main with
  | none => exact ⟨rfl, rfl, rfl, rfl, rfl, rfl, rfl, rfl, rfl, rfl⟩
  | some m => exact ⟨rfl, hmem m rfl, rfl, rfl, rfl, rfl, rfl, rfl, rfl, rfl⟩

theorem specOf_congr {t : Node} (hi : t.index = s.index) (hr : t.revs = s.revs) (hl : t.leases = s.leases) (rv : Int) :
    specOf t rv = specOf s rv := by
  simp only [specOf, hl, Spec.mk.injEq, and_true]
  funext k
  simp only [abs, Node.record, hi, hr]

theorem ops_good (rv : Int) (ops : List Op) (s : Node) (main : Option Int) (sub : Int)
    (h : Good N (Below (mainOf s main) sub) s) (hsub : 1 ≤ sub) (h1 : main = none → sub = 1)
    (hmem : ∀ m, main = some m → s.memRev = some m) (hN : (ops.any fun o => !o.draws) = true → N) :
    Good N (Below (nextId (opsRun s main sub ops).2.1.memRev) 1) (opsRun s main sub ops).2.1 ∧
    specOf (opsRun s main sub ops).2.1 rv = ops.foldl (Spec.op (mainOf s main)) (specOf s rv) ∧
    (opsRun s main sub ops).2.2 = (if main.isSome || ops.any Op.draws then some (mainOf s main) else none) ∧
    (opsRun s main sub ops).2.1.memRev = (if ops.any Op.draws then some (mainOf s main) else s.memRev) ∧
    KeepsX s (opsRun s main sub ops).2.1 := by
  induction ops generalizing s main sub with
  | nil =>
    refine ⟨?_, rfl, ?_, rfl, (Keeps.refl s).x⟩
    · cases main with
      | none => rw [h1 rfl] at h; exact h
      | some m =>
        have : s.memRev = some m := hmem m rfl
        simp only [opsRun, this, nextId]
        refine h.mono ?_
        rintro r k ⟨a, b⟩
        simp only [mainOf, Option.getD_some] at b
        exact ⟨a, by omega⟩
    · cases main <;> rfl
  | cons op ops ih =>
    have hN' : (ops.any fun o => !o.draws) = true → N := fun hh => hN (by simp [hh])
    -- a step that takes a revision
    have draw : ∀ t : Node, Good N (Below (mainOf s main) (sub + 1)) t → t.memRev = some (mainOf s main) → KeepsX s t →
        specOf t rv = Spec.op (mainOf s main) (specOf s rv) op → op.draws = true →
        (opsRun s main sub (op :: ops)).2 = (opsRun t (some (mainOf s main)) (sub + 1) ops).2 →
        Good N (Below (nextId (opsRun s main sub (op :: ops)).2.1.memRev) 1) (opsRun s main sub (op :: ops)).2.1 ∧
        specOf (opsRun s main sub (op :: ops)).2.1 rv = (op :: ops).foldl (Spec.op (mainOf s main)) (specOf s rv) ∧
        (opsRun s main sub (op :: ops)).2.2 = (if main.isSome || (op :: ops).any Op.draws then some (mainOf s main) else none) ∧
        (opsRun s main sub (op :: ops)).2.1.memRev = (if (op :: ops).any Op.draws then some (mainOf s main) else s.memRev) ∧
        KeepsX s (opsRun s main sub (op :: ops)).2.1 := by
      intro t hg hm hk hsp hd hrun
      obtain ⟨a, b, c, d, e⟩ := ih t (some (mainOf s main)) (sub + 1) hg (by omega) (fun hh => by cases hh)
        (fun m hm' => by cases hm'; exact hm) hN'
      have hmain : mainOf t (some (mainOf s main)) = mainOf s main := rfl
      rw [hrun]
      refine ⟨a, ?_, ?_, ?_, hk.trans e⟩
      · rw [b, hsp, hmain]; rfl
      · rw [c, hmain]; simp [hd]
      · rw [d, hmain]; simp only [List.any_cons, hd, Bool.true_or, if_true, hm, ite_self]
    obtain ⟨dr, dm, di, drv, dk⟩ := drawRev_spec s main sub hmem
    have hgood : Good N (Below (mainOf s main) sub) (drawRev s main sub).1 := h.congr di drv
    cases op with
    | put k il l iv v =>
      obtain ⟨a, b, c⟩ := put_fresh (k := k) (il := il) (l := l) (iv := iv) (v := v) hgood hsub rv
      rw [← dr] at a b c
      refine draw _ a (c.memRev.trans dm) (dk.trans c.x) ?_ rfl ?_
      · rw [b, specOf_congr di drv dk.leases]
      · simp only [opsRun]
        rw [show (drawRev s main sub).2.main = mainOf s main from by rw [dr]]
    | delete k =>
      obtain ⟨a, b, c⟩ := delete_fresh (k := k) hgood hsub rv
      rw [← dr] at a b c
      refine draw _ a (c.memRev.trans dm) (dk.trans c.x) ?_ rfl ?_
      · rw [b, specOf_congr di drv dk.leases]
      · simp only [opsRun]
        rw [show (drawRev s main sub).2.main = mainOf s main from by rw [dr]]
    | compact k rev =>
      have hn : N := hN (by simp [Op.draws])
      obtain ⟨a, b, c⟩ := compact_last (k := k) (rev := rev) hn h rv
      have hmain : mainOf ((compactApply s k rev).getLastD s) main = mainOf s main := by
        simp only [mainOf, c.memRev]
      obtain ⟨a', b', c', d', e'⟩ := ih ((compactApply s k rev).getLastD s) main sub (by rw [hmain]; exact a) hsub h1
        (fun m hm => c.memRev.trans (hmem m hm)) hN'
      have hrun : (opsRun s main sub (.compact k rev :: ops)).2 =
          (opsRun ((compactApply s k rev).getLastD s) main sub ops).2 := rfl
      rw [hrun]
      refine ⟨a', ?_, ?_, ?_, c.x.trans e'⟩
      · rw [b', hmain, b]; rfl
      · rw [c', hmain]; simp [Op.draws]
      · rw [d', hmain, c.memRev]; simp [Op.draws]

/-! ### Leases and whole entries -/

theorem leasesRun_last (os : List LeaseOp) (s : Node) : (leasesRun s os).getLastD s = os.foldl leaseApply s := by
  induction os generalizing s with
  | nil => rfl
  | cons o os ih => rw [leasesRun, List.getLastD_cons, List.foldl_cons, ih]

/-- What the leases of an entry leave alone. -/
structure KeepsL (s t : Node) : Prop where
  index : t.index = s.index
  revs : t.revs = s.revs
  memRev : t.memRev = s.memRev
  diskRev : t.diskRev = s.diskRev
  memLease : t.memLease = s.memLease
  diskLease : t.diskLease = s.diskLease
  term : t.term = s.term
  applied : t.applied = s.applied

theorem leaseApply_spec (o : LeaseOp) (s : Node) (rv : Int) :
    specOf (leaseApply s o) rv = (specOf s rv).lease o ∧ KeepsL s (leaseApply s o) := by
  cases o with
  | put id l =>
    refine ⟨?_, rfl, rfl, rfl, rfl, rfl, rfl, rfl, rfl⟩
    simp only [specOf, leaseApply, Spec.lease, Spec.mk.injEq, and_true]
    exact ⟨rfl, by funext i; rw [CF.get_put]⟩
  | erase id =>
    refine ⟨?_, rfl, rfl, rfl, rfl, rfl, rfl, rfl, rfl⟩
    simp only [specOf, leaseApply, Spec.lease, Spec.mk.injEq, and_true]
    exact ⟨rfl, by funext i; rw [CF.get_del]⟩

theorem leases_spec (os : List LeaseOp) (s : Node) (rv : Int) :
    specOf (os.foldl leaseApply s) rv = os.foldl Spec.lease (specOf s rv) ∧ KeepsL s (os.foldl leaseApply s) := by
  induction os generalizing s with
  | nil => exact ⟨rfl, rfl, rfl, rfl, rfl, rfl, rfl, rfl, rfl⟩
  | cons o os ih =>
    obtain ⟨a, b⟩ := leaseApply_spec o s rv
    obtain ⟨c, d⟩ := ih (leaseApply s o)
    refine ⟨?_, d.index.trans b.index, d.revs.trans b.revs, d.memRev.trans b.memRev, d.diskRev.trans b.diskRev,
      d.memLease.trans b.memLease, d.diskLease.trans b.diskLease, d.term.trans b.term, d.applied.trans b.applied⟩
    rw [List.foldl_cons, c, a]; rfl

/-- The replica represents the specified state. -/
structure Ok (N : Prop) (s : Node) (S : Spec) : Prop where
  good : Good N (Below (S.rev + 1) 1) s
  mem : s.memRev = some S.rev
  disk : initId 10000 s.diskRev = some S.rev
  pos : 10000 ≤ S.rev
  spec : specOf s S.rev = S

theorem spec_ops_rev (ops : List Op) (m : Int) (S : Spec) : (ops.foldl (Spec.op m) S).rev = S.rev := by
  induction ops generalizing S with
  | nil => rfl
  | cons o ops ih =>
    rw [List.foldl_cons, ih]
    cases o with
    | put => simp only [Spec.op]; split <;> split <;> rfl
    | delete => rfl
    | compact => rfl

theorem spec_leases_rev (os : List LeaseOp) (S : Spec) : (os.foldl Spec.lease S).rev = S.rev := by
  induction os generalizing S with
  | nil => rfl
  | cons o os ih => rw [List.foldl_cons, ih]; cases o <;> rfl

theorem Spec.ext' {S T : Spec} (h1 : S.map = T.map) (h2 : S.leases = T.leases) (h3 : S.rev = T.rev) : S = T := by
  cases S; cases T; simp_all

theorem init_ok : Ok N Node.init Spec.init where
  good := ⟨rfl, fun _ _ h => (by cases h), fun k i h => (by cases h)⟩
  mem := rfl
  disk := rfl
  pos := by decide
  spec := rfl

/-- An entry that is applied. -/
theorem entry_ok {S : Spec} {e : Entry} (h : Ok N s S) (hN : (e.inc.ops.any fun o => !o.draws) = true → N) :
    let r := opsRun ((leasesRun s e.inc.leases).getLastD s) none 1 e.inc.ops
    Ok N (finish r.2.1 r.2.2 e.inc.leaseIds e.term e.index) (S.entry e) := by
  intro r
  obtain ⟨a, b⟩ := leases_spec e.inc.leases s S.rev
  have hr : r = opsRun (e.inc.leases.foldl leaseApply s) none 1 e.inc.ops := by
    simp only [r, leasesRun_last]
  generalize e.inc.leases.foldl leaseApply s = s₁ at a b hr
  have hmain : mainOf s₁ none = S.rev + 1 := by simp [mainOf, b.memRev, h.mem, nextId]
  have hg : Good N (Below (mainOf s₁ none) 1) s₁ := by rw [hmain]; exact h.good.congr b.index b.revs
  obtain ⟨c, d, f, g, k⟩ := ops_good S.rev e.inc.ops s₁ none 1 hg (by omega) (fun _ => rfl) (fun m hm => by cases hm) hN
  rw [← hr] at c d f g k
  simp only [Option.isSome_none, Bool.false_or] at f
  rw [hmain] at f g d
  have hrev : (S.entry e).rev = if e.inc.ops.any Op.draws then S.rev + 1 else S.rev := rfl
  have hmem' : (finish r.2.1 r.2.2 e.inc.leaseIds e.term e.index).memRev = some (S.entry e).rev := by
    simp only [finish, f, g, hrev]
    cases e.inc.ops.any Op.draws
    · simp only [Bool.false_eq_true, if_false, b.memRev, h.mem]
    · simp [raiseId]
  refine ⟨?_, hmem', ?_, ?_, ?_⟩
  · have : nextId r.2.1.memRev = (S.entry e).rev + 1 := by
      rw [g, hrev]
      split
      · rfl
      · rw [b.memRev, h.mem]; rfl
    rw [this] at c
    exact c.congr rfl rfl
  · simp only [finish, f, hrev]
    cases e.inc.ops.any Op.draws
    · simp only [Bool.false_eq_true, if_false, k.diskRev, b.diskRev]; exact h.disk
    · have := h.pos; simp [initId]; omega
  · have := h.pos
    rw [hrev]; split <;> omega
  · have h1 : specOf (finish r.2.1 r.2.2 e.inc.leaseIds e.term e.index) S.rev = specOf r.2.1 S.rev :=
      specOf_congr rfl rfl rfl _
    rw [d, a, h.spec] at h1
    refine Spec.ext' ?_ ?_ rfl
    · have := congrArg Spec.map h1; exact this
    · have := congrArg Spec.leases h1; exact this

end Verif.CoorKv
