import Verif.CoorKv.Lease
import Verif.CoorKv.PropsMap

/-!
# Leases of the coordinator's key-value store: invariant
-/

namespace Verif.CoorKv
attribute [-instance] Verif.Txn.instDecidableLt_verif Verif.Txn.KeyOrder.toLT
open Verif.Codec (Bytes)
open Verif.Txn (CF KeyOrder)

variable {c : Cfg} {s : Node} {S P : Spec}

/-! ### What entries mean -/

def Spec.inc (S : Spec) (i : Inc) : Spec := S.entry ⟨0, 0, i⟩

def after (S : Spec) (is : List Inc) : Spec := is.foldl Spec.inc S

theorem after_snoc (S : Spec) (is : List Inc) (i : Inc) : after S (is ++ [i]) = (after S is).inc i := by
  simp [after]

theorem inc_map (S : Spec) (i : Inc) :
    (S.inc i).map = (i.ops.foldl (Spec.op (S.rev + 1)) (i.leases.foldl Spec.lease S)).map := rfl

theorem ops_leases (ops : List Op) (m : Int) (S : Spec) : (ops.foldl (Spec.op m) S).leases = S.leases := by
  induction ops generalizing S with
  | nil => rfl
  | cons o ops ih =>
    rw [List.foldl_cons, ih]
    cases o with
    | put => simp only [Spec.op]; split <;> split <;> rfl
    | delete => rfl
    | compact => rfl

theorem inc_leases (S : Spec) (i : Inc) : (S.inc i).leases = (i.leases.foldl Spec.lease S).leases := by
  change (i.ops.foldl (Spec.op (S.rev + 1)) (i.leases.foldl Spec.lease S)).leases = _
  rw [ops_leases]

/-- The lease an operation attaches its key to. -/
def Op.attach : Op → Option Int
  | .put _ false id _ _ => if id = 0 then none else some id
  | _ => none

theorem op_attach {m : Int} {op : Op} {k : Bytes} {x : Item} {id : Int} (ho : op.attach ≠ some id) (h0 : id ≠ 0)
    (h : (S.op m op).map k = some x) (hx : x.lease = id) : ∃ y, S.map k = some y ∧ y.lease = id := by
  cases op with
  | compact => exact ⟨x, h, hx⟩
  | delete k' =>
    simp only [Spec.op, Spec.set] at h
    split at h
    · cases h
    · exact ⟨x, h, hx⟩
  | put k' il l iv v =>
    simp only [Spec.op] at h
    by_cases hb : 0 < (if il = true then ((S.map k').map (·.lease)).getD 0 else l) ∧
        S.leases (if il = true then ((S.map k').map (·.lease)).getD 0 else l) = none
    · rw [if_pos hb] at h; exact ⟨x, h, hx⟩
    · rw [if_neg hb] at h
      simp only [Spec.set] at h
      by_cases e : k = k'
      · rw [if_pos e] at h
        cases h
        simp only at hx
        cases il with
        | false =>
          simp only [Bool.false_eq_true, if_false] at hx
          subst hx
          simp [Op.attach, h0] at ho
        | true =>
          simp only [if_true] at hx
          cases hy : S.map k' with
          | none => rw [hy] at hx; simp at hx; omega
          | some y => rw [hy] at hx; simp at hx; exact ⟨y, by rw [e, hy], hx⟩
      · rw [if_neg e] at h; exact ⟨x, h, hx⟩

theorem ops_attach {m : Int} {k : Bytes} {id : Int} (ops : List Op) (ho : ∀ op ∈ ops, op.attach ≠ some id) (h0 : id ≠ 0)
    (S : Spec) {x : Item} (h : (ops.foldl (Spec.op m) S).map k = some x) (hx : x.lease = id) :
    ∃ y, S.map k = some y ∧ y.lease = id := by
  induction ops generalizing S with
  | nil => exact ⟨x, h, hx⟩
  | cons o ops ih =>
    obtain ⟨y, hy, hyl⟩ := ih (fun op h => ho op (List.mem_cons_of_mem _ h)) _ h
    exact op_attach (ho o (List.mem_cons_self ..)) h0 hy hyl

theorem inc_attach {i : Inc} {k : Bytes} {id : Int} (ho : ∀ op ∈ i.ops, op.attach ≠ some id) (h0 : id ≠ 0)
    {x : Item} (h : (S.inc i).map k = some x) (hx : x.lease = id) : ∃ y, S.map k = some y ∧ y.lease = id := by
  rw [inc_map] at h
  obtain ⟨y, hy, hyl⟩ := ops_attach i.ops ho h0 _ h hx
  rw [leases_map] at hy
  exact ⟨y, hy, hyl⟩

theorem after_attach {is : List Inc} {k : Bytes} {id : Int} (ho : ∀ i ∈ is, ∀ op ∈ i.ops, op.attach ≠ some id) (h0 : id ≠ 0)
    {x : Item} (h : (after S is).map k = some x) (hx : x.lease = id) : ∃ y, S.map k = some y ∧ y.lease = id := by
  induction is generalizing S with
  | nil => exact ⟨x, h, hx⟩
  | cons i is ih =>
    obtain ⟨y, hy, hyl⟩ := ih (S := S.inc i) (fun j hj => ho j (List.mem_cons_of_mem _ hj)) h
    exact inc_attach (ho i (List.mem_cons_self ..)) h0 hy hyl

theorem after_leases {is : List Inc} (h : ∀ i ∈ is, i.leases = []) : (after S is).leases = S.leases := by
  induction is generalizing S with
  | nil => rfl
  | cons i is ih =>
    refine (ih (S := S.inc i) fun j hj => h j (List.mem_cons_of_mem _ hj)).trans ?_
    rw [inc_leases, h i (List.mem_cons_self ..)]
    rfl

theorem deletes_map (ks : List Bytes) (m : Int) (S : Spec) (k : Bytes) :
    ((ks.map Op.delete).foldl (Spec.op m) S).map k = if k ∈ ks then none else S.map k := by
  induction ks generalizing S with
  | nil => simp
  | cons a ks ih =>
    simp only [List.map_cons, List.foldl_cons, ih, List.mem_cons]
    by_cases h : k ∈ ks
    · simp [h]
    · simp only [h, if_false, or_false, Spec.op, Spec.set]

theorem erases_leases (R : List Int) (S : Spec) (id : Int) :
    ((R.map LeaseOp.erase).foldl Spec.lease S).leases id = if id ∈ R then none else S.leases id := by
  induction R generalizing S with
  | nil => simp
  | cons a R ih =>
    simp only [List.map_cons, List.foldl_cons, ih, List.mem_cons]
    by_cases h : id ∈ R
    · simp [h]
    · simp only [h, if_false, or_false, Spec.lease]

theorem compacts_map (ks : List (Bytes × Int)) (m : Int) (S : Spec) :
    (ks.map fun e => Op.compact e.1 e.2).foldl (Spec.op m) S = S := by
  induction ks generalizing S with
  | nil => rfl
  | cons a ks ih => simp only [List.map_cons, List.foldl_cons, ih, Spec.op]

/-! ### Reads -/

theorem Ok.abs {N : Prop} (h : Ok N s S) (k : Bytes) : abs s k = S.map k := by
  have := congrArg (fun T => Spec.map T k) h.spec
  exact this

theorem Ok.leases {N : Prop} (h : Ok N s S) (id : Int) : s.leases.get id = S.leases id := by
  have := congrArg (fun T => Spec.leases T id) h.spec
  exact this

theorem single_eq {N : Prop} (h : Ok N s S) (k : Bytes) (limit : Int) (hl : 0 < limit) (ko : Bool) (mk : Nat) :
    (kvRange mk s k [] limit ko false).kvs = ((S.map k).map fun x => answer ko (k, x)).toList := by
  rw [kvRange_eq, ← h.abs]
  simp only
  have hlim : (if limit = 0 then (2 : Int) ^ 63 - 1 else limit) = limit := if_neg (by omega)
  rw [hlim]
  rcases rangeLoop_spec (limit := limit) (ko := ko) h.good (looks mk s k []) looks_get 0 with e | e
  · rw [e]
    simp only
    have hv : visible s (looks mk s k []) = ((CoorKv.abs s k).map fun x => (k, x)).toList := by
      unfold looks CoorKv.abs visible
      simp only [if_true]
      cases s.index.get k with
      | none => rfl
      | some i => simp only [List.filterMap_cons, List.filterMap_nil]; cases i.live <;> rfl
    rw [hv]
    cases CoorKv.abs s k with
    | none => simp
    | some x =>
      simp only [Option.map_some, Option.toList_some]
      rw [List.take_of_length_le (by simp; omega)]
      rfl
  · simp at e; omega

theorem look_eq {N : Prop} (h : Ok N s S) (k : Bytes) : look c s k = (S.map k).map fun x => answer false (k, x) := by
  unfold look
  rw [single_eq h k 1 (by omega)]
  cases S.map k <;> rfl

theorem toDelete_single {N : Prop} (h : Ok N s S) (k : Bytes) :
    toDelete c s k [] false = ((S.map k).map fun x => answer true (k, x)).toList :=
  single_eq h k _ (by decide) true c.maxKey

/-- The keys a delete lists. -/
theorem toDelete_mem {N : Prop} (h : Ok N s S) (key stop : Bytes) (np : Bool) :
    ∃ l : List (Bytes × Item), toDelete c s key stop np = l.map (answer !np) ∧ l.Pairwise (fun a b => a.1 < b.1) ∧
      (∀ e ∈ l, S.map e.1 = some e.2 ∧ InRange key stop e.1) := by
  unfold toDelete
  rw [kvRange_eq]
  simp only
  have hlim : (if (2 : Int) ^ 63 - 1 = 0 then (2 : Int) ^ 63 - 1 else 2 ^ 63 - 1) = 2 ^ 63 - 1 := by split <;> rfl
  rw [hlim]
  rcases rangeLoop_spec (limit := 2 ^ 63 - 1) (ko := !np) h.good (looks c.maxKey s key stop) looks_get 0 with e | e
  · rw [e]
    have hv := visible_lists (s := s) (maxKey := c.maxKey) (key := key) (stop := stop)
    refine ⟨_, rfl, hv.asc.sublist (List.take_sublist _ _), ?_⟩
    intro x hx
    have := (hv.mem x.1 x.2).1 (List.mem_of_mem_take hx)
    rw [h.abs] at this
    exact ⟨this.2, this.1.1⟩
  · simp at e

theorem toDelete_all {N : Prop} (h : Ok N s S) (key stop : Bytes) (np : Bool) :
    ∃ l : List (Bytes × Item), Lists S.map (Finds c.maxKey key stop) l ∧
      (l.length < 2 ^ 63 → toDelete c s key stop np = l.map (answer !np)) := by
  have hv := visible_lists (s := s) (maxKey := c.maxKey) (key := key) (stop := stop)
  refine ⟨_, ⟨hv.asc, fun k x => (hv.mem k x).trans (by rw [h.abs])⟩, ?_⟩
  intro hlen
  unfold toDelete
  rw [kvRange_eq]
  simp only
  have hlim : (if (2 : Int) ^ 63 - 1 = 0 then (2 : Int) ^ 63 - 1 else 2 ^ 63 - 1) = 2 ^ 63 - 1 := by split <;> rfl
  rw [hlim]
  rcases rangeLoop_spec (limit := 2 ^ 63 - 1) (ko := !np) h.good (looks c.maxKey s key stop) looks_get 0 with e | e
  · rw [e, List.take_of_length_le]
    have hn : ((2 : Int) ^ 63 - 1 - (0 : Nat)).toNat = 2 ^ 63 - 1 := by decide
    rw [hn]; omega
  · simp at e

/-! ### The map of leases -/

/-- Key `k` is listed under lease `id`. -/
def Listed (held : CF Int Held) (id : Int) (k : Bytes) : Prop := ∃ h, held.get id = some h ∧ h.keys.get k = some ()

/-- No key outlives its lease. -/
def NoOrphan (S : Spec) : Prop := ∀ k x, S.map k = some x → x.lease ≠ 0 → (S.leases x.lease).isSome = true

structure Tracks (held : CF Int Held) (S : Spec) : Prop where
  dom : ∀ id, (held.get id).isSome = (S.leases id).isSome
  att : ∀ k x, S.map k = some x → x.lease ≠ 0 → Listed held x.lease k

theorem addKey_spec {held held' : CF Int Held} {id : Int} {k : Bytes} (h : addKey held id k = some held') :
    (∀ i, (held'.get i).isSome = (held.get i).isSome) ∧ (∀ i k', Listed held' i k' ↔ Listed held i k' ∨ (i = id ∧ k' = k)) ∧
      (∀ i, (held'.get i).map (·.lease) = (held.get i).map (·.lease)) := by
  unfold addKey at h
  split at h
  · cases h
  · next hh hg =>
    cases h
    refine ⟨fun i => ?_, fun i k' => ?_, fun i => ?_⟩
    · rw [CF.get_put]; split
      · next e => rw [e, hg]; rfl
      · rfl
    · unfold Listed
      rw [CF.get_put]
      by_cases hi : i = id
      · simp only [hi, if_true, Option.some.injEq, exists_eq_left', CF.get_put, hg, true_and]
        by_cases hk : k' = k
        · simp [hk]
        · simp [hk]
      · simp [hi]
    · rw [CF.get_put]; split
      · next e => rw [e, hg]; rfl
      · rfl

theorem removeKey_spec (held : CF Int Held) (id : Int) (k : Bytes) :
    (∀ i, ((removeKey held id k).get i).isSome = (held.get i).isSome) ∧
      (∀ i k', Listed (removeKey held id k) i k' ↔ Listed held i k' ∧ ¬ (i = id ∧ k' = k)) ∧
      (∀ i, ((removeKey held id k).get i).map (·.lease) = (held.get i).map (·.lease)) := by
  unfold removeKey
  split
  · next hg =>
    refine ⟨fun _ => rfl, fun i k' => ?_, fun _ => rfl⟩
    constructor
    · intro h
      refine ⟨h, ?_⟩
      rintro ⟨rfl, rfl⟩
      obtain ⟨x, hx, _⟩ := h
      rw [hg] at hx; cases hx
    · exact fun h => h.1
  · next hh hg =>
    refine ⟨fun i => ?_, fun i k' => ?_, fun i => ?_⟩
    · rw [CF.get_put]; split
      · next e => rw [e, hg]; rfl
      · rfl
    · unfold Listed
      rw [CF.get_put]
      by_cases hi : i = id
      · simp only [hi, if_true, Option.some.injEq, exists_eq_left', CF.get_del, hg, true_and]
        by_cases hk : k' = k
        · simp [hk]
        · simp [hk]
      · simp [hi]
    · rw [CF.get_put]; split
      · next e => rw [e, hg]; rfl
      · rfl

theorem removeAll_spec (l : List (Int × Bytes)) (held : CF Int Held) :
    (∀ i, ((l.foldl (fun h e => removeKey h e.1 e.2) held).get i).isSome = (held.get i).isSome) ∧
      (∀ i k', Listed (l.foldl (fun h e => removeKey h e.1 e.2) held) i k' ↔ Listed held i k' ∧ (i, k') ∉ l) ∧
      (∀ i, ((l.foldl (fun h e => removeKey h e.1 e.2) held).get i).map (·.lease) = (held.get i).map (·.lease)) := by
  induction l generalizing held with
  | nil => exact ⟨fun _ => rfl, fun _ _ => by simp, fun _ => rfl⟩
  | cons e l ih =>
    obtain ⟨a, b, d⟩ := ih (removeKey held e.1 e.2)
    obtain ⟨a', b', d'⟩ := removeKey_spec held e.1 e.2
    refine ⟨fun i => (a i).trans (a' i), fun i k' => ?_, fun i => (d i).trans (d' i)⟩
    rw [List.foldl_cons, b, b', List.mem_cons, not_or]
    obtain ⟨e1, e2⟩ := e
    simp only [Prod.mk.injEq]
    exact ⟨fun ⟨⟨x, y⟩, z⟩ => ⟨x, y, z⟩, fun ⟨x, y, z⟩ => ⟨⟨x, y⟩, z⟩⟩

theorem toRemove_mem {kvs : List Kv} {id : Int} {k : Bytes} (h : (id, k) ∈ (toRemove kvs).l) :
    ∃ kv ∈ kvs, kv.lease = id ∧ kv.key = k := by
  rw [CF.mem_iff_get] at h
  unfold toRemove at h
  suffices H : ∀ (kvs : List Kv) (m : CF Int Bytes),
      (kvs.foldl (fun m kv => if kv.lease = 0 then m else m.put kv.lease kv.key) m).get id = some k →
      m.get id = some k ∨ ∃ kv ∈ kvs, kv.lease = id ∧ kv.key = k by
    rcases H kvs .empty h with h | h
    · cases h
    · exact h
  intro kvs
  induction kvs with
  | nil => exact fun m h => .inl h
  | cons a kvs ih =>
    intro m h
    rcases ih _ h with h | ⟨kv, h1, h2⟩
    · dsimp only at h
      split at h
      · exact .inl h
      · rw [CF.get_put] at h
        split at h
        · next e => cases h; exact .inr ⟨a, List.mem_cons_self .., e.symm, rfl⟩
        · exact .inl h
    · exact .inr ⟨kv, List.mem_cons_of_mem _ h1, h2⟩

/-- Revoking: the leases `R` are revoked and the keys `D` deleted. -/
theorem revokeAll_spec {N : Prop} (hok : Ok N s S) (ids : List Int) (held : CF Int Held) :
    ∃ (R : List Int) (D : List Bytes), (revokeAll c s held ids).2 = ⟨R.map .erase, D.map .delete, []⟩ ∧
      (∀ id ∈ R, id ∈ ids ∧ (held.get id).isSome = true) ∧
      (∀ id ∈ ids, (held.get id).isSome = true → (S.leases id).isSome = true → id ∈ R) ∧
      (∀ id, (revokeAll c s held ids).1.get id = if id ∈ R then none else held.get id) ∧
      (∀ k, k ∈ D ↔ ∃ id ∈ R, Listed held id k ∧ (S.map k).isSome = true) := by
  induction ids generalizing held with
  | nil => exact ⟨[], [], rfl, by simp, by simp, by simp [revokeAll], by simp⟩
  | cons a ids ih =>
    unfold revokeAll
    cases hr : revoke c s held a with
    | none =>
      obtain ⟨R, D, h1, h2, h3, h4, h5⟩ := ih held
      refine ⟨R, D, h1, fun id hid => ⟨List.mem_cons_of_mem _ (h2 id hid).1, (h2 id hid).2⟩, ?_, h4, h5⟩
      intro id hid hh hl
      rcases List.mem_cons.1 hid with e | hid
      · subst e
        obtain ⟨h, hh⟩ := Option.isSome_iff_exists.1 hh
        simp only [revoke, hh] at hr
        split at hr
        · next hn => rw [hok.leases] at hn; rw [hn] at hl; cases hl
        · cases hr
      · exact h3 id hid hh hl
    | some r =>
      obtain ⟨held', inc⟩ := r
      unfold revoke at hr
      split at hr
      · cases hr
      · next h hg =>
        split at hr
        · cases hr
        · next hn =>
          simp only [Option.some.injEq, Prod.mk.injEq] at hr
          obtain ⟨rfl, rfl⟩ := hr
          obtain ⟨R, D, h1, h2, h3, h4, h5⟩ := ih (held.del a)
          have hkeys : ∃ D0 : List Bytes,
              (h.keys.l.flatMap fun e => (toDelete c s e.1 [] false).map fun kv => Op.delete kv.key) = D0.map .delete ∧
              ∀ k, k ∈ D0 ↔ h.keys.get k = some () ∧ (S.map k).isSome = true := by
            have hm : ∀ k, h.keys.get k = some () ↔ (k, ()) ∈ h.keys.l := fun k => (CF.mem_iff_get h.keys k ()).symm
            simp only [hm]
            generalize h.keys.l = L
            induction L with
            | nil => exact ⟨[], rfl, by simp⟩
            | cons e L ihL =>
              obtain ⟨D0, e1, e2⟩ := ihL
              rw [List.flatMap_cons, e1, toDelete_single hok]
              cases hx : S.map e.1 with
              | none =>
                refine ⟨D0, rfl, fun k => ?_⟩
                rw [e2, List.mem_cons]
                constructor
                · exact fun ⟨x, y⟩ => ⟨.inr x, y⟩
                · rintro ⟨x | x, y⟩
                  · rw [← x] at hx; rw [hx] at y; cases y
                  · exact ⟨x, y⟩
              | some x =>
                refine ⟨e.1 :: D0, rfl, fun k => ?_⟩
                rw [List.mem_cons, e2, List.mem_cons]
                constructor
                · rintro (rfl | ⟨x, y⟩)
                  · exact ⟨.inl rfl, by rw [hx]; rfl⟩
                  · exact ⟨.inr x, y⟩
                · rintro ⟨x | x, y⟩
                  · exact .inl (congrArg Prod.fst x)
                  · exact .inr ⟨x, y⟩
          obtain ⟨D0, e1, e2⟩ := hkeys
          have hget : ∀ id, (held.del a).get id = if id = a then none else held.get id := fun id => CF.get_del held a id
          have haR : a ∉ R := fun hm => by have := (h2 a hm).2; rw [hget, if_pos rfl] at this; cases this
          refine ⟨a :: R, D0 ++ D, ?_, ?_, ?_, ?_, ?_⟩
          · simp only [h1, e1, Inc.append, List.map_cons, List.map_append, List.append_nil, List.cons_append, List.nil_append]
          · intro id hid
            rcases List.mem_cons.1 hid with rfl | hid
            · exact ⟨List.mem_cons_self .., by rw [hg]; rfl⟩
            · obtain ⟨x, y⟩ := h2 id hid
              rw [hget] at y
              split at y
              · cases y
              · exact ⟨List.mem_cons_of_mem _ x, y⟩
          · intro id hid hh hl
            by_cases e : id = a
            · rw [e]; exact List.mem_cons_self ..
            · rcases List.mem_cons.1 hid with e' | hid
              · exact absurd e' e
              · exact List.mem_cons_of_mem _ (h3 id hid (by rw [hget, if_neg e]; exact hh) hl)
          · intro id
            simp only [h4, hget, List.mem_cons]
            by_cases e : id = a <;> by_cases f : id ∈ R <;> simp [e, f]
          · intro k
            rw [List.mem_append, e2, h5]
            constructor
            · rintro (⟨x, y⟩ | ⟨id, x, ⟨hh, y, y'⟩, z⟩)
              · exact ⟨a, List.mem_cons_self .., ⟨h, hg, x⟩, y⟩
              · rw [hget] at y
                split at y
                · cases y
                · exact ⟨id, List.mem_cons_of_mem _ x, ⟨hh, y, y'⟩, z⟩
            · rintro ⟨id, x, ⟨hh, y, y'⟩, z⟩
              by_cases e : id = a
              · subst e
                rw [hg] at y
                cases y
                exact .inl ⟨y', z⟩
              · refine .inr ⟨id, ?_, ⟨hh, by rw [hget, if_neg e]; exact y, y'⟩, z⟩
                rcases List.mem_cons.1 x with x | x
                · exact absurd x e
                · exact x

theorem revokeAll_one (held : CF Int Held) (id : Int) :
    revokeAll c s held [id] = match revoke c s held id with
      | none => (held, ⟨[], [], []⟩)
      | some (held', inc) => (held', inc) := by
  unfold revokeAll
  cases revoke c s held id with
  | none => rfl
  | some r => simp [revokeAll, Inc.append]

/-- A map just built lists what is attached. -/
theorem build_spec {N : Prop} (hok : Ok N s S) :
    (∀ id, ((build s).get id).map (·.lease) = S.leases id) ∧
      (∀ id k, Listed (build s) id k ↔ id ≠ 0 ∧ (S.leases id).isSome = true ∧ ∃ x, S.map k = some x ∧ x.lease = id) := by
  have h0 : ∀ id, (s.leases.l.foldl (fun m e => m.put e.1 ⟨e.2, .empty⟩) (.empty : CF Int Held)).get id =
      (s.leases.get id).map fun l => ⟨l, .empty⟩ := by
    intro id
    have : s.leases.l.foldl (fun m e => m.put e.1 ⟨e.2, .empty⟩) (.empty : CF Int Held) =
        CF.putAll .empty (s.leases.l.map fun e => (e.1, (⟨e.2, .empty⟩ : Held))) := by
      unfold CF.putAll
      rw [List.foldl_map]
    rw [this, CF.get_putAll]
    cases hl : s.leases.get id with
    | none =>
      have : CF.lastPut (s.leases.l.map fun e => (e.1, (⟨e.2, .empty⟩ : Held))) id = none := by
        rw [CF.lastPut_none]
        intro e he
        obtain ⟨x, hx, rfl⟩ := List.mem_map.1 he
        intro e'
        simp only at e'
        have := (CF.mem_iff_get s.leases x.1 x.2).1 hx
        rw [e', hl] at this; cases this
      rw [this]; rfl
    | some l =>
      cases hp : CF.lastPut (s.leases.l.map fun e => (e.1, (⟨e.2, .empty⟩ : Held))) id with
      | none =>
        rw [CF.lastPut_none] at hp
        exact absurd rfl (hp (id, ⟨l, .empty⟩) (List.mem_map.2 ⟨(id, l), (CF.mem_iff_get s.leases id l).2 hl, rfl⟩))
      | some h =>
        have := CF.lastPut_mem hp
        obtain ⟨x, hx, e⟩ := List.mem_map.1 this
        simp only [Prod.mk.injEq] at e
        have hx' := (CF.mem_iff_get s.leases x.1 x.2).1 hx
        rw [e.1, hl] at hx'
        cases hx'
        rw [← e.2]; rfl
  -- one key after the other
  let f : CF Int Held → Bytes × Index → CF Int Held := fun m e =>
    match e.2.gens.getLast? with
    | none => m
    | some g =>
      if g.create.isSome then
        let x := s.record e.2.mod
        if x.lease = 0 then m else (addKey m x.lease x.key).getD m
      else m
  have hf : ∀ (m : CF Int Held) (e : Bytes × Index), s.index.get e.1 = some e.2 →
      (∀ id, ((f m e).get id).map (·.lease) = (m.get id).map (·.lease)) ∧
      (∀ id k, Listed (f m e) id k ↔ Listed m id k ∨
        (k = e.1 ∧ id ≠ 0 ∧ (m.get id).isSome = true ∧ ∃ x, S.map e.1 = some x ∧ x.lease = id)) := by
    intro m e he
    obtain ⟨g, hg, hlast⟩ := (hok.good.keys _ _ he).last
    have habs := abs_eq he hg hlast
    rw [hok.abs] at habs
    simp only [f, hg]
    cases hlast with
    | dead hc =>
      rw [hc] at habs ⊢
      simp only [Option.isSome_none, Bool.false_eq_true, if_false] at habs ⊢
      exact ⟨fun _ => trivial, fun id k => by simp [habs]⟩
    | live cr x hc hr hx hk hxc hxm hxv =>
      rw [hc] at habs ⊢
      have hrec : s.record e.2.mod = x := by simp [Node.record, hx]
      simp only [Option.isSome_some, if_true, hrec] at habs ⊢
      by_cases hz : x.lease = 0
      · simp only [hz, if_true]
        refine ⟨fun _ => trivial, fun id k => ?_⟩
        constructor
        · exact .inl
        · rintro (h | ⟨_, h, _, y, hy, hyl⟩)
          · exact h
          · rw [habs] at hy
            cases hy
            simp only [Rec.item] at hyl
            omega
      · simp only [hz, if_false]
        have hiff : ∀ id, (∃ y, S.map e.1 = some y ∧ y.lease = id) ↔ x.lease = id := by
          intro id
          rw [habs]
          simp [Rec.item]
        simp only [hiff]
        cases ha : addKey m x.lease x.key with
        | none =>
          have hn : m.get x.lease = none := by
            unfold addKey at ha
            split at ha
            · assumption
            · cases ha
          refine ⟨fun _ => rfl, fun id k => ?_⟩
          constructor
          · exact .inl
          · rintro (h | ⟨_, _, h, rfl⟩)
            · exact h
            · rw [hn] at h; cases h
        | some m' =>
          obtain ⟨a, b, d⟩ := addKey_spec ha
          refine ⟨d, fun id k => ?_⟩
          simp only [Option.getD_some, b, hk]
          have hs : (m.get x.lease).isSome = true := by
            unfold addKey at ha
            split at ha
            · cases ha
            · next hh => rw [hh]; rfl
          constructor
          · rintro (h | ⟨rfl, rfl⟩)
            · exact .inl h
            · exact .inr ⟨rfl, hz, hs, rfl⟩
          · rintro (h | ⟨rfl, _, _, rfl⟩)
            · exact .inl h
            · exact .inr ⟨rfl, rfl⟩
  have hfold : ∀ (L : List (Bytes × Index)), (∀ e ∈ L, s.index.get e.1 = some e.2) → ∀ m : CF Int Held,
      (∀ id, ((L.foldl f m).get id).map (·.lease) = (m.get id).map (·.lease)) ∧
      (∀ id k, Listed (L.foldl f m) id k ↔ Listed m id k ∨
        ((∃ e ∈ L, e.1 = k) ∧ id ≠ 0 ∧ (m.get id).isSome = true ∧ ∃ x, S.map k = some x ∧ x.lease = id)) := by
    intro L
    induction L with
    | nil => exact fun _ m => ⟨fun _ => rfl, fun id k => by simp⟩
    | cons e L ih =>
      intro hL m
      obtain ⟨a, b⟩ := ih (fun x hx => hL x (List.mem_cons_of_mem _ hx)) (f m e)
      obtain ⟨a', b'⟩ := hf m e (hL e (List.mem_cons_self ..))
      refine ⟨fun id => (a id).trans (a' id), fun id k => ?_⟩
      have hs : ((f m e).get id).isSome = (m.get id).isSome := by
        have := congrArg Option.isSome (a' id)
        simpa using this
      rw [List.foldl_cons, b, b', hs]
      constructor
      · rintro ((h | ⟨rfl, h⟩) | ⟨⟨x, h1, h2⟩, h⟩)
        · exact .inl h
        · exact .inr ⟨⟨e, List.mem_cons_self .., rfl⟩, h⟩
        · exact .inr ⟨⟨x, List.mem_cons_of_mem _ h1, h2⟩, h⟩
      · rintro (h | ⟨⟨x, h1, h2⟩, h⟩)
        · exact .inl (.inl h)
        · rcases List.mem_cons.1 h1 with rfl | h1
          · subst h2; exact .inl (.inr ⟨rfl, h⟩)
          · exact .inr ⟨⟨x, h1, h2⟩, h⟩
  obtain ⟨a, b⟩ := hfold s.index.l (fun e he => (CF.mem_iff_get s.index e.1 e.2).1 he)
    (s.leases.l.foldl (fun m e => m.put e.1 ⟨e.2, .empty⟩) .empty)
  refine ⟨fun id => ?_, fun id k => ?_⟩
  · refine (a id).trans ?_
    rw [h0, hok.leases]
    cases S.leases id <;> rfl
  · refine (b id k).trans ?_
    unfold Listed
    rw [h0, hok.leases]
    constructor
    · rintro (⟨h, h1, h2⟩ | ⟨_, h1, h2, h3⟩)
      · cases hl : S.leases id with
        | none => rw [hl] at h1; cases h1
        | some l => rw [hl] at h1; cases h1; cases h2
      · refine ⟨h1, ?_, h3⟩
        cases hl : S.leases id with
        | none => rw [hl] at h2; cases h2
        | some l => rfl
    · rintro ⟨h1, h2, x, hx, hxl⟩
      refine .inr ⟨?_, h1, ?_, x, hx, hxl⟩
      · rw [← hok.abs] at hx
        unfold CoorKv.abs at hx
        split at hx
        · cases hx
        · next i hi => exact ⟨(k, i), (CF.mem_iff_get s.index k i).2 hi, rfl⟩
      · cases hl : S.leases id with
        | none => rw [hl] at h2; cases h2
        | some l => rfl

end Verif.CoorKv
