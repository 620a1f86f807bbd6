import Verif.CoorKv.LeaseInv

/-!
# Requests to the coordinator's key-value store, one at a time
-/

namespace Verif.CoorKv
attribute [-instance] Verif.Txn.instDecidableLt_verif Verif.Txn.KeyOrder.toLT
open Verif.Codec (Bytes)
open Verif.Txn (CF KeyOrder)

/-- A request evaluated and applied before the next one. -/
def Leader.exec (c : Cfg) (l : Leader) (r : Req) : Leader × Option Out :=
  match l.eval c r with
  | (l', none) => (l', none)
  | (l', some (inc, o)) => (({ l' with pending := l'.pending ++ [inc] } : Leader).commit, some o)

inductive SEv where
  | req (r : Req)
  | elect (held : CF Int Held) (memLease : Option Int)

def Leader.sstep (c : Cfg) (l : Leader) : SEv → Leader
  | .req r => (l.exec c r).1
  | .elect held m => l.step c (.elect 0 held m)

def runSeq (c : Cfg) (l : Leader) (evs : List SEv) : Leader := evs.foldl (Leader.sstep c) l

/-- The existing keys of the range have different leases, or none. -/
def Apart (c : Cfg) (s : Node) (key stop : Bytes) : Prop :=
  ∀ k k' kv kv', InRange key stop k → InRange key stop k' → look c s k = some kv → look c s k' = some kv' →
    kv.lease = kv'.lease → kv.lease ≠ 0 → k = k'

/-- The condition on a request: no revocation while the map is not built; no delete of several
keys of one lease. -/
def SFine (c : Cfg) (l : Leader) : Req → Prop
  | .revoke _ => l.inited = true
  | .delete key stop _ => Apart c l.node key stop
  | _ => True

def SFines (c : Cfg) : Leader → List SEv → Prop
  | _, [] => True
  | l, .req r :: evs => SFine c l r ∧ SFines c (l.sstep c (.req r)) evs
  | l, e :: evs => SFines c (l.sstep c e) evs

/-! ### Helpers -/

structure Exact (held : CF Int Held) (S : Spec) : Prop where
  only : ∀ id k, Listed held id k → ∃ x, S.map k = some x ∧ x.lease = id
  same : ∀ id, (held.get id).map (·.lease) = S.leases id
  zero : ∀ k, ¬ Listed held 0 k

structure SInv (l : Leader) (S : Spec) : Prop where
  inv : LInv l S
  idle : l.pending = []
  exact' : l.inited = true → Exact l.held S

variable {c : Cfg} {l : Leader} {S : Spec}

theorem SInv.clean (h : SInv l S) : NoOrphan S := h.inv.clean 0

theorem SInv.tracks (h : SInv l S) (hi : l.inited = true) : Tracks l.held S := by
  have := h.inv.tracks hi
  rw [h.idle] at this
  exact this

/-- A put that is accepted. -/
theorem put_accepted (h : SInv l S) {now : Int} {key value : Bytes} {lease : Int} {np iv il : Bool} {l' : Leader} {i : Inc}
    {o : Out} (he : putEval c l now key value lease np iv il = (l', some (i, o))) :
    ∃ id, (il = false → id = lease) ∧ (∀ x, S.map key = some x → x.lease = id) ∧ (il = true → (S.map key).isSome = true) ∧
      (∀ k, (S.inc i).map k = if k = key then some ⟨if iv then [] else value,
        ((S.map key).map (·.create)).getD (S.rev + 1), S.rev + 1, ((S.map key).map (·.version)).getD 0 + 1, id⟩ else S.map k) ∧
      (S.inc i).leases = S.leases ∧ (S.inc i).rev = S.rev + 1 ∧ l'.inited = l.inited ∧
      (if id = 0 then some l.held else addKey l.held id key) = some l'.held ∧
      o = .put (if np then look c l.node key else none) := by
  unfold putEval at he
  split at he
  · cases he
  · cases hp : putLease c l now key lease il with
    | none => rw [hp] at he; cases he
    | some id =>
      obtain ⟨hp1, hp2, hp3⟩ := putLease_some hp
      rw [hp] at he
      simp only at he
      cases hh : (if id = 0 then some l.held else addKey l.held id key) with
      | none => rw [hh] at he; cases he
      | some held =>
        rw [hh] at he
        cases he
        have hlook : ∀ x, S.map key = some x → x.lease = id := by
          intro x hx
          exact hp3 (answer false (key, x)) (by rw [look_eq h.inv.ok, hx]; rfl)
        have hsome : il = true → ∃ x, S.map key = some x := by
          intro e
          obtain ⟨kv, hkv, _⟩ := hp2 e
          rw [look_eq h.inv.ok] at hkv
          cases hx : S.map key with
          | none => rw [hx] at hkv; cases hkv
          | some x => exact ⟨x, rfl⟩
        have hL : (if il = true then ((S.map key).map (·.lease)).getD 0 else id) = id := by
          cases il with
          | false => rfl
          | true =>
            obtain ⟨x, hx⟩ := hsome rfl
            simp [hx, hlook x hx]
        have hex : ¬ (0 < id ∧ S.leases id = none) := by
          rintro ⟨h0, hn⟩
          cases il with
          | false =>
            obtain ⟨rfl, ha⟩ := hp1 rfl
            obtain ⟨hi, hs⟩ := ha (by omega)
            rw [(h.tracks hi).dom, hn] at hs; cases hs
          | true =>
            obtain ⟨x, hx⟩ := hsome rfl
            have := h.clean key x hx (by rw [hlook x hx]; omega)
            rw [hlook x hx, hn] at this; cases this
        refine ⟨id, fun e => (hp1 e).1, hlook, fun e => ?_, ?_, ?_, ?_, rfl, hh, rfl⟩
        · obtain ⟨x, hx⟩ := hsome e; rw [hx]; rfl
        · intro k
          rw [inc_map]
          simp only [List.foldl_cons, List.foldl_nil, Spec.op, Bool.false_eq_true, if_false]
          rw [hL, if_neg hex]
          rfl
        · rw [inc_leases]; rfl
        · simp [Spec.inc, Spec.entry, Op.draws]

theorem toRemove_dom {kvs : List Kv} {kv : Kv} (hm : kv ∈ kvs) (h0 : kv.lease ≠ 0) :
    ∃ k, (kv.lease, k) ∈ (toRemove kvs).l := by
  suffices H : ∀ (kvs : List Kv) (m : CF Int Bytes), ((m.get kv.lease).isSome = true ∨ kv ∈ kvs) →
      ((kvs.foldl (fun m kv => if kv.lease = 0 then m else m.put kv.lease kv.key) m).get kv.lease).isSome = true by
    obtain ⟨k, hk⟩ := Option.isSome_iff_exists.1 (H kvs .empty (.inr hm))
    exact ⟨k, (CF.mem_iff_get _ _ _).2 hk⟩
  intro kvs
  induction kvs with
  | nil => rintro m (h | h)
           · exact h
           · cases h
  | cons a kvs ih =>
    intro m h
    refine ih _ ?_
    dsimp only
    rcases h with h | h
    · refine .inl ?_
      split
      · exact h
      · rw [CF.get_put]; split
        · rfl
        · exact h
    · rcases List.mem_cons.1 h with rfl | h
      · refine .inl ?_
        rw [if_neg h0, CF.get_put, if_pos rfl]; rfl
      · exact .inr h

/-- Revoking leases of a map that is exact. -/
theorem revoke_exact (hok : Ok True l.node S) {held : CF Int Held} (ht : Tracks held S) (hx : Exact held S) (ids : List Int) :
    Exact (revokeAll c l.node held ids).1 (S.inc (revokeAll c l.node held ids).2) ∧
      (∀ k, (S.inc (revokeAll c l.node held ids).2).map k =
        match S.map k with
        | none => none
        | some x => if x.lease ≠ 0 ∧ x.lease ∈ ids then none else some x) ∧
      (∀ i, (S.inc (revokeAll c l.node held ids).2).leases i = if i ∈ ids then none else S.leases i) := by
  obtain ⟨R, D, h1, h2, h3, h4, h5⟩ := revokeAll_spec (c := c) hok ids held
  rw [h1]
  have hm : ∀ k, (S.inc ⟨R.map .erase, D.map .delete, []⟩).map k = if k ∈ D then none else S.map k := by
    intro k
    rw [inc_map]
    simp only
    rw [deletes_map, leases_map]
  have hl : ∀ i, (S.inc ⟨R.map .erase, D.map .delete, []⟩).leases i = if i ∈ R then none else S.leases i := by
    intro i
    rw [inc_leases]
    exact erases_leases R S i
  refine ⟨⟨?_, ?_, ?_⟩, ?_, ?_⟩
  · rintro id k ⟨h, a, b⟩
    rw [h4] at a
    split at a
    · cases a
    · next hR =>
      obtain ⟨x, hxm, hxl⟩ := hx.only id k ⟨h, a, b⟩
      refine ⟨x, ?_, hxl⟩
      rw [hm, if_neg, hxm]
      intro hD
      obtain ⟨id', hid', hlist, _⟩ := (h5 k).1 hD
      obtain ⟨y, hy, hyl⟩ := hx.only id' k hlist
      rw [hxm] at hy
      cases hy
      rw [hxl] at hyl
      exact hR (hyl ▸ hid')
  · intro id
    rw [h4, hl]
    split
    · rfl
    · exact hx.same id
  · rintro k ⟨h, a, b⟩
    rw [h4] at a
    split at a
    · cases a
    · exact hx.zero k ⟨h, a, b⟩
  · intro k
    rw [hm]
    cases hk : S.map k with
    | none => simp
    | some x =>
      simp only
      have hiff : k ∈ D ↔ x.lease ≠ 0 ∧ x.lease ∈ ids := by
        rw [h5]
        constructor
        · rintro ⟨id, hid, hlist, _⟩
          obtain ⟨y, hy, rfl⟩ := hx.only id k hlist
          rw [hk] at hy
          cases hy
          refine ⟨?_, (h2 _ hid).1⟩
          intro h0
          rw [h0] at hlist
          exact hx.zero k hlist
        · rintro ⟨h0, hid⟩
          refine ⟨x.lease, ?_, ht.att k x hk h0, by rw [hk]; rfl⟩
          obtain ⟨h, a, _⟩ := ht.att k x hk h0
          have hs : (held.get x.lease).isSome = true := by rw [a]; rfl
          exact h3 _ hid hs (by rw [← ht.dom]; exact hs)
      by_cases hD : k ∈ D
      · rw [if_pos hD, if_pos (hiff.1 hD)]
      · rw [if_neg hD, if_neg (fun hh => hD (hiff.2 hh))]
  · intro i
    rw [hl]
    by_cases hi : i ∈ ids
    · rw [if_pos hi]
      by_cases hR : i ∈ R
      · rw [if_pos hR]
      · rw [if_neg hR]
        cases hs : S.leases i with
        | none => rfl
        | some x =>
          have : (S.leases i).isSome = true := by rw [hs]; rfl
          exact absurd (h3 i hi (by rw [ht.dom]; exact this) this) hR
    · rw [if_neg hi, if_neg (fun hR => hi (h2 i hR).1)]

theorem build_exact (hok : Ok True l.node S) (hc : NoOrphan S) : Exact (build l.node) S ∧ Tracks (build l.node) S := by
  obtain ⟨a, b⟩ := build_spec hok
  refine ⟨⟨fun id k h => ((b id k).1 h).2.2, a, fun k h => ((b 0 k).1 h).1 rfl⟩, fun id => ?_, fun k x hx h0 => ?_⟩
  · rw [← a]; simp
  · exact (b _ _).2 ⟨h0, hc k x hx h0, x, hx, rfl⟩

theorem taskHeld_exact (h : SInv l S) : Exact (taskHeld l) S ∧ Tracks (taskHeld l) S := by
  unfold taskHeld
  split
  · next hi => exact ⟨h.exact' hi, h.tracks hi⟩
  · exact build_exact h.inv.ok h.clean

/-- An accepted request leaves the map exact. -/
theorem eval_exact (h : SInv l S) (r : Req) (hf : SFine c l r) (l' : Leader) (o : Option (Inc × Out))
    (he : l.eval c r = (l', o)) :
    (o = none → l'.inited = true → Exact l'.held S) ∧
      (∀ i out, o = some (i, out) → l'.inited = true → Exact l'.held (S.inc i)) := by
  cases r with
  | put now key value lease np iv il =>
    have he' : putEval c l now key value lease np iv il = (l', o) := he
    cases o with
    | none =>
      refine ⟨fun _ hi => ?_, fun _ _ e => (nomatch e)⟩
      have : l' = l := by
        unfold putEval at he'
        split at he'
        · cases he'; rfl
        · split at he'
          · cases he'; rfl
          · split at he' <;> cases he'; rfl
      subst this
      exact h.exact' hi
    | some io =>
      obtain ⟨i, out⟩ := io
      refine ⟨fun e => (nomatch e), fun i' out' e hi => ?_⟩
      cases e
      obtain ⟨id, h1, h2, h3, h4, h5, h6, h7, h8, h9⟩ := put_accepted h he'
      rw [h7] at hi
      have hx := h.exact' hi
      have hkey : (∀ i k', Listed l'.held i k' → Listed l.held i k' ∨ (id ≠ 0 ∧ i = id ∧ k' = key)) ∧
          ∀ i, (l'.held.get i).map (·.lease) = (l.held.get i).map (·.lease) := by
        split at h8
        · rw [← Option.some.inj h8]; exact ⟨fun _ _ h => .inl h, fun _ => rfl⟩
        · next h0 =>
          obtain ⟨_, b, d⟩ := addKey_spec h8
          exact ⟨fun i k' hh => ((b i k').1 hh).imp_right fun e => ⟨h0, e⟩, d⟩
      refine ⟨fun id' k hk => ?_, fun id' => ?_, fun k hk => ?_⟩
      · rw [h4]
        rcases hkey.1 _ _ hk with hk | ⟨h0, rfl, rfl⟩
        · obtain ⟨x, hx1, hx2⟩ := hx.only id' k hk
          by_cases e : k = key
          · rw [if_pos e]
            rw [e] at hx1
            exact ⟨_, rfl, (h2 x hx1).symm.trans hx2⟩
          · rw [if_neg e]; exact ⟨x, hx1, hx2⟩
        · rw [if_pos rfl]; exact ⟨_, rfl, rfl⟩
      · rw [hkey.2, h5]; exact hx.same id'
      · rcases hkey.1 _ _ hk with hk | ⟨h0, e, _⟩
        · exact hx.zero k hk
        · exact h0 e.symm
  | delete key stop np =>
    have he' : deleteEval c l key stop np = (l', o) := he
    unfold deleteEval at he'
    split at he'
    · cases he'
      exact ⟨fun _ hi => h.exact' hi, fun _ _ e => (nomatch e)⟩
    · simp only at he'
      cases he'
      refine ⟨fun e => (nomatch e), fun i out e hi => ?_⟩
      cases e
      have hx := h.exact' hi
      obtain ⟨L, hL, _, hLm⟩ := toDelete_mem (c := c) h.inv.ok key stop np
      rw [hL]
      have hmap : ((L.map (answer !np)).map fun kv => Op.delete kv.key) = (L.map (·.1)).map .delete := by
        simp [answer, Function.comp_def]
      rw [hmap]
      obtain ⟨hm, hl⟩ := delete_inc S (L.map (·.1))
      obtain ⟨_, b, d⟩ := removeAll_spec (toRemove (L.map (answer !np))).l l.held
      refine ⟨fun id k hk => ?_, fun id => ?_, fun k hk => hx.zero k ((b 0 k).1 hk).1⟩
      · obtain ⟨hk1, hk2⟩ := (b id k).1 hk
        obtain ⟨x, hx1, rfl⟩ := hx.only id k hk1
        refine ⟨x, ?_, rfl⟩
        rw [hm, if_neg, hx1]
        intro hin
        obtain ⟨e, he, rfl⟩ := List.mem_map.1 hin
        have h0 : x.lease ≠ 0 := fun e0 => hx.zero e.1 (by rw [e0] at hk1; exact hk1)
        have hex := (hLm e he).1
        rw [hx1] at hex
        have he2 : x = e.2 := by cases hex; rfl
        obtain ⟨k', hk'⟩ := toRemove_dom (kvs := L.map (answer !np)) (kv := answer (!np) e)
          (List.mem_map_of_mem he) (by simp only [answer]; rw [← he2]; exact h0)
        obtain ⟨kv, hkv, hkv1, hkv2⟩ := toRemove_mem hk'
        obtain ⟨e', he', rfl⟩ := List.mem_map.1 hkv
        simp only [answer] at hkv1 hkv2 hk'
        have := hf e'.1 e.1 (answer false e') (answer false e) (hLm e' he').2 (hLm e he).2
          (by rw [look_eq h.inv.ok, (hLm e' he').1]; rfl) (by rw [look_eq h.inv.ok, (hLm e he).1]; rfl)
          hkv1 (by simp only [answer]; rw [hkv1, ← he2]; exact h0)
        rw [← hkv2, this, ← he2] at hk'
        exact hk2 hk'
      · rw [hl, d]; exact hx.same id
  | grant now id ttl =>
    have he' : grantEval c l now id ttl = (l', o) := he
    unfold grantEval at he'
    split at he'
    · cases he'
      exact ⟨fun _ hi => h.exact' hi, fun _ _ e => (nomatch e)⟩
    · simp only at he'
      generalize hl1 : (if id = 0 then { l with node := { l.node with memLease := some (nextId l.node.memLease) } } else l) = l1 at he'
      have hsame : l1.node.leases = l.node.leases ∧ l1.held = l.held ∧ l1.inited = l.inited := by
        rw [← hl1]; split <;> exact ⟨rfl, rfl, rfl⟩
      generalize (if id = 0 then [l1.node.memLease.getD 0] else []) = ids at he'
      generalize (if id = 0 then l1.node.memLease.getD 0 else id) = g at he'
      generalize (if c.maxTtl < ttl then c.maxTtl else if ttl < c.minTtl then c.minTtl else ttl) = t at he'
      split at he'
      · cases he'
        refine ⟨fun _ hi => ?_, fun _ _ e => (nomatch e)⟩
        rw [hsame.2.1]; exact h.exact' (by rw [← hsame.2.2]; exact hi)
      · next hn =>
        cases he'
        refine ⟨fun e => (nomatch e), fun i out e hi => ?_⟩
        cases e
        have hi' : l.inited = true := by rw [← hsame.2.2]; exact hi
        have hx := h.exact' hi'
        rw [hsame.1, h.inv.ok.leases] at hn
        have hno : (l.held.get g).isSome = false := by
          rw [(h.tracks hi').dom]; simpa using hn
        simp only [hsame.2.1, hno, Bool.false_eq_true, if_false]
        have hsub : ∀ id k, Listed (l.held.put g ⟨⟨t, now, now⟩, .empty⟩) id k → Listed l.held id k := by
          rintro id k ⟨x, a, b⟩
          rw [CF.get_put] at a
          split at a
          · cases a; cases b
          · exact ⟨x, a, b⟩
        refine ⟨fun id k hk => hx.only id k (hsub id k hk), fun id => ?_, fun k hk => hx.zero k (hsub 0 k hk)⟩
        rw [(lease_put_inc S g _ ids).2, CF.get_put]
        split
        · rfl
        · exact hx.same id
  | renew now id =>
    have he' : renewEval l now id = (l', o) := he
    unfold renewEval at he'
    split at he'
    · cases he'
      exact ⟨fun _ hi => h.exact' hi, fun _ _ e => (nomatch e)⟩
    · next hc =>
      have hin : l.inited = true := by
        simp only [not_or] at hc
        cases hi : l.inited
        · exact absurd hi hc.2
        · rfl
      have hx := h.exact' hin
      cases hg : l.held.get id with
      | none =>
        rw [hg] at he'
        cases he'
        exact ⟨fun _ hi => hx, fun _ _ e => (nomatch e)⟩
      | some hh =>
        rw [hg] at he'
        simp only at he'
        have hs : S.leases id = some hh.lease := by rw [← hx.same, hg]; rfl
        rw [h.inv.ok.leases, hs] at he'
        cases he'
        refine ⟨fun e => (nomatch e), fun i out e _ => ?_⟩
        cases e
        have hsub : ∀ i k, Listed (l.held.put id ⟨{ hh.lease with renewed := now }, hh.keys⟩) i k → Listed l.held i k := by
          rintro i k ⟨x, a, b⟩
          rw [CF.get_put] at a
          split at a
          · next e => cases a; exact ⟨hh, by rw [e]; exact hg, b⟩
          · exact ⟨x, a, b⟩
        refine ⟨fun i k hk => hx.only i k (hsub i k hk), fun i => ?_, fun k hk => hx.zero k (hsub 0 k hk)⟩
        rw [(lease_put_inc S id _ []).2, CF.get_put]
        split
        · rfl
        · exact hx.same i
  | revoke id =>
    have hin : l.inited = true := hf
    have hx := h.exact' hin
    unfold Leader.eval at he
    simp only at he
    split at he
    · cases he
      exact ⟨fun _ hi => hx, fun _ _ e => (nomatch e)⟩
    · obtain ⟨a, _⟩ := revoke_exact (c := c) h.inv.ok (h.tracks hin) hx [id]
      rw [revokeAll_one] at a
      cases hr : revoke c l.node l.held id with
      | none =>
        rw [hr] at he
        cases he
        exact ⟨fun _ hi => hx, fun _ _ e => (nomatch e)⟩
      | some r =>
        obtain ⟨held, inc⟩ := r
        rw [hr] at he a
        cases he
        refine ⟨fun e => (nomatch e), fun i out e _ => ?_⟩
        cases e
        exact a
  | task now =>
    have he' : taskEval c l now = (l', o) := he
    obtain ⟨hx, ht⟩ := taskHeld_exact h
    obtain ⟨a, _⟩ := revoke_exact (c := c) h.inv.ok ht hx (expired (taskHeld l) now)
    unfold taskEval at he'
    cases he'
    refine ⟨fun e => (nomatch e), fun i out e _ => ?_⟩
    cases e
    exact a
  | compact ks =>
    have he' : (l, some ((⟨[], ks.map fun e => .compact e.1 e.2, []⟩ : Inc), Out.done)) = (l', o) := he
    cases he'
    refine ⟨fun e => (nomatch e), fun i out e hi => ?_⟩
    cases e
    have hx := h.exact' hi
    refine ⟨fun id k hk => ?_, fun id => ?_, hx.zero⟩
    · rw [inc_map]; simp only [List.foldl_nil, compacts_map]; exact hx.only id k hk
    · rw [inc_leases]; exact hx.same id

theorem SFine.fine (h : SInv l S) {r : Req} (hf : SFine c l r) : Fine l r := by
  have hno : ∀ id, NoneAttaching l id := fun id i hi => by rw [h.idle] at hi; cases hi
  cases r with
  | revoke id => exact ⟨hf, hno id⟩
  | task now => exact fun id _ => hno id
  | _ => trivial

/-- A request executed. -/
theorem exec_sinv (h : SInv l S) (r : Req) (hf : SFine c l r) {l' : Leader} {o : Option Out} (he : l.exec c r = (l', o)) :
    (o = none → SInv l' S) ∧
      (∀ out, o = some out → ∃ le i, l.eval c r = (le, some (i, out)) ∧ SInv l' (S.inc i)) := by
  have hinv := req_inv (c := c) h.inv r (SFine.fine h hf)
  have heff := eval_eff (c := c) h.inv r (SFine.fine h hf)
  simp only [Leader.step] at hinv
  unfold Leader.exec at he
  rcases hres : l.eval c r with ⟨l1, o1⟩
  have hex := eval_exact h r hf l1 o1 hres
  rw [hres] at he hinv heff
  have hp : l1.pending = [] := by rw [heff.pending]; exact h.idle
  cases o1 with
  | none =>
    cases he
    exact ⟨fun _ => ⟨hinv, hp, hex.1 rfl⟩, fun _ e => (nomatch e)⟩
  | some io =>
    obtain ⟨i, out⟩ := io
    simp only at hinv he
    cases he
    refine ⟨fun e => (nomatch e), fun out' e => ?_⟩
    cases e
    refine ⟨l1, i, rfl, ?_⟩
    obtain ⟨a, b⟩ := commit_cons hinv (i := i) (rest := []) (by simp only [hp, List.nil_append])
    refine ⟨a, b, ?_⟩
    have : ({ l1 with pending := l1.pending ++ [i] } : Leader).commit.inited = l1.inited ∧
        ({ l1 with pending := l1.pending ++ [i] } : Leader).commit.held = l1.held := by
      unfold Leader.commit
      simp [hp]
    rw [this.1, this.2]
    exact hex.2 i out rfl

theorem elect_sinv (h : SInv l S) (held : CF Int Held) (m : Option Int) : SInv (l.sstep c (.elect held m)) S := by
  refine ⟨⟨h.inv.ok.memLease m, h.inv.idx, fun n => ?_, fun e => (nomatch e), fun _ _ e => (nomatch e)⟩, rfl,
    fun e => (nomatch e)⟩
  have := h.clean
  simpa [Leader.sstep, Leader.step, after] using this

theorem SFines_append {evs evs' : List SEv} {l : Leader} (h : SFines c l (evs ++ evs')) :
    SFines c l evs ∧ SFines c (runSeq c l evs) evs' := by
  induction evs generalizing l with
  | nil => exact ⟨trivial, h⟩
  | cons e evs ih =>
    cases e with
    | req r => obtain ⟨a, b⟩ := ih h.2; exact ⟨⟨h.1, a⟩, b⟩
    | elect held m => exact ih h

theorem runSeq_sinv (evs : List SEv) {l : Leader} {S : Spec} (h : SInv l S) (hf : SFines c l evs) :
    ∃ S', SInv (runSeq c l evs) S' := by
  induction evs generalizing l S with
  | nil => exact ⟨S, h⟩
  | cons e evs ih =>
    cases e with
    | req r =>
      rcases hx : l.exec c r with ⟨l', o⟩
      have hl : l.sstep c (.req r) = l' := by simp only [Leader.sstep, hx]
      obtain ⟨a, b⟩ := exec_sinv h r hf.1 hx
      have hf2 := hf.2
      simp only [runSeq, List.foldl_cons]
      rw [hl] at hf2 ⊢
      cases o with
      | none => exact ih (a rfl) hf2
      | some out =>
        obtain ⟨_, _, _, h'⟩ := b out rfl
        exact ih h' hf2
    | elect held m =>
      exact ih (elect_sinv h held m) hf

theorem init_sinv : SInv Leader.init Spec.init := ⟨init_inv, rfl, fun e => (nomatch e)⟩

/-- What a request leaves of a lease. -/
theorem lease_life (h : SInv l S) (r : Req) (hf : SFine c l r) {l' : Leader} {i : Inc} {o : Out}
    (he : l.eval c r = (l', some (i, o))) {id t ttl : Int} {y : Lease} (hy : S.leases id = some y)
    (hw : match r with
      | .revoke i => i ≠ id
      | .task now => now ≤ ttl + t
      | .renew now i => i = id → t ≤ now
      | _ => True) (h2 : y.ttl = ttl) (h3 : t ≤ y.renewed) :
    ∃ z, (S.inc i).leases id = some z ∧ z.ttl = ttl ∧ t ≤ z.renewed := by
  cases r with
  | put now key value lease np iv il =>
    obtain ⟨_, _, _, _, _, h5, _⟩ := put_accepted h he
    rw [h5]; exact ⟨y, hy, h2, h3⟩
  | delete key stop np =>
    have he' : deleteEval c l key stop np = (l', some (i, o)) := he
    unfold deleteEval at he'
    split at he'
    · cases he'
    · cases he'
      rw [inc_leases]; exact ⟨y, hy, h2, h3⟩
  | compact ks =>
    have he' : (l, some ((⟨[], ks.map fun e => .compact e.1 e.2, []⟩ : Inc), Out.done)) = (l', some (i, o)) := he
    cases he'
    rw [inc_leases]; exact ⟨y, hy, h2, h3⟩
  | grant now id' ttl' =>
    have he' : grantEval c l now id' ttl' = (l', some (i, o)) := he
    unfold grantEval at he'
    split at he'
    · cases he'
    · simp only at he'
      generalize hl1 : (if id' = 0 then { l with node := { l.node with memLease := some (nextId l.node.memLease) } } else l) = l1 at he'
      have hsame : l1.node.leases = l.node.leases := by rw [← hl1]; split <;> rfl
      generalize (if id' = 0 then [l1.node.memLease.getD 0] else []) = ids at he'
      generalize (if id' = 0 then l1.node.memLease.getD 0 else id') = g at he'
      split at he'
      · cases he'
      · next hn =>
        cases he'
        rw [(lease_put_inc S g _ ids).2, if_neg]
        · exact ⟨y, hy, h2, h3⟩
        · rintro rfl
          rw [hsame, h.inv.ok.leases, hy] at hn
          exact hn rfl
  | renew now id' =>
    have he' : renewEval l now id' = (l', some (i, o)) := he
    unfold renewEval at he'
    split at he'
    · cases he'
    · split at he'
      · cases he'
      · simp only at he'
        split at he'
        · cases he'
        · next x hx =>
          cases he'
          rw [(lease_put_inc S id' _ []).2]
          split
          · next e =>
            rw [h.inv.ok.leases, ← e, hy] at hx
            cases hx
            exact ⟨_, rfl, h2, hw e.symm⟩
          · exact ⟨y, hy, h2, h3⟩
  | revoke id' =>
    have hin : l.inited = true := hf
    obtain ⟨_, _, hl⟩ := revoke_exact (c := c) h.inv.ok (h.tracks hin) (h.exact' hin) [id']
    rw [revokeAll_one] at hl
    unfold Leader.eval at he
    simp only at he
    split at he
    · cases he
    · cases hr : revoke c l.node l.held id' with
      | none => rw [hr] at he; cases he
      | some r =>
        obtain ⟨held, inc⟩ := r
        rw [hr] at he hl
        cases he
        simp only at hl
        rw [hl, if_neg]
        · exact ⟨y, hy, h2, h3⟩
        · rw [List.mem_singleton]; exact fun e => hw e.symm
  | task now =>
    obtain ⟨hx, ht⟩ := taskHeld_exact h
    obtain ⟨_, _, hl⟩ := revoke_exact (c := c) h.inv.ok ht hx (expired (taskHeld l) now)
    have he' : taskEval c l now = (l', some (i, o)) := he
    unfold taskEval at he'
    cases he'
    rw [hl, if_neg]
    · exact ⟨y, hy, h2, h3⟩
    · intro hm
      simp only [expired, List.mem_map, List.mem_filter, decide_eq_true_eq] at hm
      obtain ⟨⟨j, hh⟩, ⟨e1, e2⟩, rfl⟩ := hm
      have e3 := hx.same j
      rw [(CF.mem_iff_get _ _ _).1 e1] at e3
      simp only at hy e2
      rw [hy] at e3
      have e4 : hh.lease = y := Option.some.inj e3
      rw [e4] at e2
      simp only at hw
      omega

end Verif.CoorKv
