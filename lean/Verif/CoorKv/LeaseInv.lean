import Verif.CoorKv.LeaseLemmas

/-!
# Leases of the coordinator's key-value store: every step keeps the invariant
-/

namespace Verif.CoorKv
attribute [-instance] Verif.Txn.instDecidableLt_verif Verif.Txn.KeyOrder.toLT
open Verif.Codec (Bytes)
open Verif.Txn (CF KeyOrder)

variable {c : Cfg} {l : Leader} {S P : Spec}

/-- The entry attaches no key to a lease and changes no lease. -/
def Quiet (i : Inc) : Prop := i.leases = [] ∧ ∀ op ∈ i.ops, op.attach = none

structure LInv (l : Leader) (S : Spec) : Prop where
  ok : Ok True l.node S
  idx : l.node.applied ≤ l.index
  clean : ∀ n, NoOrphan (after S (l.pending.take n))
  tracks : l.inited = true → Tracks l.held (after S l.pending)
  quiet : l.inited = false → ∀ i ∈ l.pending, Quiet i

theorem LInv.last (h : LInv l S) : NoOrphan (after S l.pending) := by
  have := h.clean l.pending.length
  rwa [List.take_length] at this

theorem Ok.memLease {N : Prop} {s : Node} (h : Ok N s S) (m : Option Int) : Ok N { s with memLease := m } S :=
  ⟨h.good.congr rfl rfl, h.mem, h.disk, h.pos, h.spec⟩

/-- What an evaluation does to a leader whose queue will lead to `P`. -/
structure Eff (l : Leader) (P : Spec) (r : Leader × Option (Inc × Out)) : Prop where
  node : ∃ m, r.1.node = { l.node with memLease := m }
  index : r.1.index = l.index
  pending : r.1.pending = l.pending
  refused : r.2 = none → r.1.inited = l.inited ∧ (l.inited = true → Tracks r.1.held P)
  clean : ∀ i o, r.2 = some (i, o) → NoOrphan (P.inc i)
  tracks : ∀ i o, r.2 = some (i, o) → r.1.inited = true → Tracks r.1.held (P.inc i)
  quiet : ∀ i o, r.2 = some (i, o) → r.1.inited = false → l.inited = false ∧ Quiet i

theorem Eff.none (h : LInv l S) : Eff l (after S l.pending) (l, none) where
  node := ⟨_, rfl⟩
  index := rfl
  pending := rfl
  refused := fun _ => ⟨rfl, h.tracks⟩
  clean := fun _ _ e => (nomatch e)
  tracks := fun _ _ e => (nomatch e)
  quiet := fun _ _ e => (nomatch e)

/-! ### Puts -/

theorem putLease_some {now : Int} {key : Bytes} {lease id : Int} {il : Bool} (h : putLease c l now key lease il = some id) :
    (il = false → id = lease ∧ (lease ≠ 0 → l.inited = true ∧ (l.held.get lease).isSome = true)) ∧
    (il = true → ∃ kv, look c l.node key = some kv ∧ kv.lease = id) ∧
    (∀ kv, look c l.node key = some kv → kv.lease = id) := by
  unfold putLease at h
  split at h
  · cases h
  · next hc =>
    cases hl : look c l.node key with
    | none =>
      rw [hl] at h
      cases il with
      | true => simp at h
      | false =>
        simp only [Bool.false_eq_true, if_false, Option.some.injEq] at h
        subst h
        refine ⟨fun _ => ⟨rfl, fun h0 => ?_⟩, fun e => (nomatch e), fun _ e => (nomatch e)⟩
        simp only [Bool.false_eq_true, not_false_eq_true, true_and, h0, ne_eq, Bool.not_eq_false] at hc
        unfold Leader.alive at hc
        rw [Bool.and_eq_true] at hc
        refine ⟨hc.1, ?_⟩
        cases hg : l.held.get lease with
        | none => rw [hg] at hc; simp at hc
        | some _ => rfl
    | some kv =>
      rw [hl] at h
      cases il with
      | true =>
        simp only [if_true, Option.some.injEq] at h
        exact ⟨fun e => (nomatch e), fun _ => ⟨kv, rfl, h⟩, fun kv' e => by cases e; exact h⟩
      | false =>
        simp only [Bool.false_eq_true, if_false] at h
        split at h
        · next e =>
          cases h
          refine ⟨fun _ => ⟨rfl, fun h0 => ?_⟩, fun e => (nomatch e), fun kv' e' => by cases e'; exact e⟩
          simp only [Bool.false_eq_true, not_false_eq_true, true_and, h0, ne_eq, Bool.not_eq_false] at hc
          unfold Leader.alive at hc
          rw [Bool.and_eq_true] at hc
          refine ⟨hc.1, ?_⟩
          cases hg : l.held.get lease with
          | none => rw [hg] at hc; simp at hc
          | some _ => rfl
        · cases h

/-- What a single put makes of the map. -/
theorem put_map (P : Spec) (k : Bytes) (il : Bool) (id : Int) (v : Bytes) (k' : Bytes) (x : Item)
    (h : (P.inc ⟨[], [.put k il id false v], []⟩).map k' = some x) :
    P.map k' = some x ∨ (k' = k ∧ x.lease = if il then ((P.map k).map (·.lease)).getD 0 else id) := by
  rw [inc_map] at h
  simp only [List.foldl_cons, List.foldl_nil, Spec.op] at h
  generalize (if il = true then ((P.map k).map (·.lease)).getD 0 else id : Int) = L at h ⊢
  by_cases hb : 0 < L ∧ P.leases L = none
  · rw [if_pos hb] at h; exact .inl h
  · rw [if_neg hb] at h
    simp only [Spec.set] at h
    split at h
    · next e => cases h; exact .inr ⟨e, rfl⟩
    · exact .inl h

theorem put_eff (h : LInv l S) (now : Int) (key value : Bytes) (lease : Int) (np iv il : Bool) :
    Eff l (after S l.pending) (putEval c l now key value lease np iv il) := by
  unfold putEval
  split
  · exact Eff.none h
  · cases hp : putLease c l now key lease il with
    | none => exact Eff.none h
    | some id =>
      obtain ⟨hp1, hp2, hp3⟩ := putLease_some hp
      simp only
      cases hh : (if id = 0 then some l.held else addKey l.held id key) with
      | none => exact Eff.none h
      | some held =>
        simp only
        generalize hP : after S l.pending = P
        have hclean : NoOrphan P := hP ▸ h.last
        have htr : l.inited = true → Tracks l.held P := hP ▸ h.tracks
        have hleases : ∀ i : Inc, i.leases = [] → (P.inc i).leases = P.leases := fun i hi => by
          rw [inc_leases, hi]; rfl
        have hgrow : (∀ i, (held.get i).isSome = (l.held.get i).isSome) ∧
            (∀ i k', Listed l.held i k' ∨ (id ≠ 0 ∧ i = id ∧ k' = key) → Listed held i k') := by
          split at hh
          · next e => cases hh; exact ⟨fun _ => rfl, fun i k' h => h.elim (fun h => h) fun h => absurd e h.1⟩
          · obtain ⟨a, b, _⟩ := addKey_spec hh
            exact ⟨a, fun i k' h => (b i k').2 (h.imp_right fun h => h.2)⟩
        have hno : NoOrphan (P.inc ⟨[], [.put key il id false (if iv = true then [] else value)], []⟩) := by
          intro k x hx h0
          rw [hleases _ rfl]
          rcases put_map P _ _ _ _ _ _ hx with hx | ⟨rfl, hx⟩
          · exact hclean k x hx h0
          · cases il with
            | true =>
              simp only [if_true] at hx
              cases hk : P.map k with
              | none => rw [hk] at hx; simp at hx; omega
              | some y => rw [hk] at hx; simp at hx; rw [hx]; exact hclean k y hk (by omega)
            | false =>
              simp only [Bool.false_eq_true, if_false] at hx
              obtain ⟨rfl, hal⟩ := hp1 rfl
              rw [hx] at h0
              obtain ⟨hi, hs⟩ := hal h0
              rw [hx, ← (htr hi).dom]; exact hs
        refine ⟨⟨_, rfl⟩, rfl, rfl, fun e => (nomatch e), ?_, ?_, ?_⟩
        · intro i o e
          cases e
          exact hno
        · intro i o e hi
          cases e
          refine ⟨fun id' => ?_, fun k x hx h0 => ?_⟩
          · rw [hgrow.1, hleases _ rfl]; exact (htr hi).dom id'
          · rcases put_map P _ _ _ _ _ _ hx with hx | ⟨rfl, hx⟩
            · exact hgrow.2 _ _ (.inl ((htr hi).att k x hx h0))
            · cases il with
              | true =>
                simp only [if_true] at hx
                cases hk : P.map k with
                | none => rw [hk] at hx; simp at hx; omega
                | some y =>
                  rw [hk] at hx; simp at hx; rw [hx]
                  exact hgrow.2 _ _ (.inl ((htr hi).att k y hk (by omega)))
              | false =>
                simp only [Bool.false_eq_true, if_false] at hx
                exact hgrow.2 _ _ (.inr ⟨by omega, hx, rfl⟩)
        · intro i o e hi
          cases e
          refine ⟨hi, rfl, ?_⟩
          intro op ho
          rw [List.mem_singleton] at ho
          subst ho
          cases il with
          | true => rfl
          | false =>
            obtain ⟨rfl, hal⟩ := hp1 rfl
            by_cases h0 : id = 0
            · simp [Op.attach, h0]
            · have := (hal h0).1
              simp only at hi
              rw [hi] at this; cases this

/-! ### Deletes -/

theorem delete_inc (P : Spec) (ks : List Bytes) :
    (∀ k, (P.inc ⟨[], ks.map .delete, []⟩).map k = if k ∈ ks then none else P.map k) ∧
      (P.inc ⟨[], ks.map .delete, []⟩).leases = P.leases :=
  ⟨fun k => by rw [inc_map]; exact deletes_map ks _ _ k, by rw [inc_leases]; rfl⟩

theorem delete_eff (h : LInv l S) (key stop : Bytes) (np : Bool) :
    Eff l (after S l.pending) (deleteEval c l key stop np) := by
  unfold deleteEval
  split
  · exact Eff.none h
  · simp only
    generalize hP : after S l.pending = P
    have hclean : NoOrphan P := hP ▸ h.last
    have htr : l.inited = true → Tracks l.held P := hP ▸ h.tracks
    generalize toDelete c l.node key stop np = kvs
    have hmap : (kvs.map fun kv => Op.delete kv.key) = (kvs.map (·.key)).map .delete := by simp
    rw [hmap]
    obtain ⟨hm, hl⟩ := delete_inc P (kvs.map (·.key))
    obtain ⟨a, b, _⟩ := removeAll_spec (toRemove kvs).l l.held
    refine ⟨⟨_, rfl⟩, rfl, rfl, fun e => (nomatch e), ?_, ?_, ?_⟩
    · intro i o e
      cases e
      intro k x hx h0
      rw [hm] at hx
      rw [hl]
      split at hx
      · cases hx
      · exact hclean k x hx h0
    · intro i o e hi
      cases e
      refine ⟨fun id => ?_, fun k x hx h0 => ?_⟩
      · rw [a, hl]; exact (htr hi).dom id
      · rw [hm] at hx
        split at hx
        · cases hx
        · next hk =>
          rw [b]
          refine ⟨(htr hi).att k x hx h0, fun hm => hk ?_⟩
          obtain ⟨kv, h1, _, h2⟩ := toRemove_mem hm
          exact List.mem_map.2 ⟨kv, h1, h2⟩
    · intro i o e hi
      cases e
      refine ⟨hi, rfl, ?_⟩
      intro op ho
      obtain ⟨k, _, rfl⟩ := List.mem_map.1 ho
      rfl

/-! ### Leases -/

theorem lease_put_inc (P : Spec) (id : Int) (x : Lease) (ids : List Int) :
    (P.inc ⟨[.put id x], [], ids⟩).map = P.map ∧
      ∀ i, (P.inc ⟨[.put id x], [], ids⟩).leases i = if i = id then some x else P.leases i :=
  ⟨rfl, fun _ => rfl⟩

theorem Tracks.held {held held' : CF Int Held} (h : Tracks held P) (hd : ∀ i, (held'.get i).isSome = (held.get i).isSome)
    (hk : ∀ i k, Listed held i k → Listed held' i k) : Tracks held' P :=
  ⟨fun i => (hd i).trans (h.dom i), fun k x hx h0 => hk _ _ (h.att k x hx h0)⟩

theorem grant_eff (h : LInv l S) (now id ttl : Int) : Eff l (after S l.pending) (grantEval c l now id ttl) := by
  unfold grantEval
  split
  · exact Eff.none h
  · next hc =>
    have hin : l.inited = true := by
      simp only [not_or] at hc
      cases hi : l.inited
      · exact absurd hi hc.2.2
      · rfl
    simp only
    generalize hl' : (if id = 0 then { l with node := { l.node with memLease := some (nextId l.node.memLease) } } else l) = l'
    have hsame : (∃ m, l'.node = { l.node with memLease := m }) ∧ l'.held = l.held ∧ l'.inited = l.inited ∧
        l'.index = l.index ∧ l'.pending = l.pending := by
      rw [← hl']
      split
      · exact ⟨⟨_, rfl⟩, rfl, rfl, rfl, rfl⟩
      · exact ⟨⟨l.node.memLease, rfl⟩, rfl, rfl, rfl, rfl⟩
    obtain ⟨h1, h2, h3, h4, h5⟩ := hsame
    generalize (if id = 0 then [l'.node.memLease.getD 0] else []) = ids
    generalize (if id = 0 then l'.node.memLease.getD 0 else id) = g
    generalize (if c.maxTtl < ttl then c.maxTtl else if ttl < c.minTtl then c.minTtl else ttl) = t
    generalize hP : after S l.pending = P
    have hclean : NoOrphan P := hP ▸ h.last
    have htr : Tracks l.held P := hP ▸ h.tracks hin
    split
    · exact ⟨h1, h4, h5, fun _ => ⟨h3, fun _ => by rw [h2]; exact htr⟩, fun _ _ e => (nomatch e),
        fun _ _ e => (nomatch e), fun _ _ e => (nomatch e)⟩
    · refine ⟨h1, h4, h5, fun e => (nomatch e), ?_, ?_, ?_⟩
      · intro i o e
        cases e
        intro k x hx h0
        rw [(lease_put_inc P g _ ids).2]
        split
        · rfl
        · exact hclean k x hx h0
      · intro i o e _
        cases e
        rw [h2]
        have hkeep : ∀ i k, Listed l.held i k →
            Listed (if (l.held.get g).isSome = true then l.held else l.held.put g ⟨⟨t, now, now⟩, .empty⟩) i k := by
          intro i k hk
          split
          · exact hk
          · next hg =>
            obtain ⟨hh, a, b⟩ := hk
            refine ⟨hh, ?_, b⟩
            rw [CF.get_put]
            split
            · next e => rw [← e, a] at hg; exact absurd rfl hg
            · exact a
        refine ⟨fun i => ?_, fun k x hx h0 => hkeep _ _ (htr.att k x hx h0)⟩
        rw [(lease_put_inc P g _ ids).2]
        by_cases hg : (l.held.get g).isSome = true
        · rw [if_pos hg]
          split
          · next e => rw [e, hg]; rfl
          · exact htr.dom i
        · rw [if_neg hg, CF.get_put]
          split
          · rfl
          · exact htr.dom i
      · intro i o e hi
        cases e
        simp only [h3, hin] at hi
        cases hi

theorem renew_eff (h : LInv l S) (now id : Int) : Eff l (after S l.pending) (renewEval l now id) := by
  unfold renewEval
  split
  · exact Eff.none h
  · next hc =>
    have hin : l.inited = true := by
      simp only [not_or] at hc
      cases hi : l.inited
      · exact absurd hi hc.2
      · rfl
    cases hg : l.held.get id with
    | none => exact Eff.none h
    | some hh =>
      simp only
      generalize hP : after S l.pending = P
      have hclean : NoOrphan P := hP ▸ h.last
      have htr : Tracks l.held P := hP ▸ h.tracks hin
      have hd : ∀ i, ((l.held.put id ⟨{ hh.lease with renewed := now }, hh.keys⟩).get i).isSome = (l.held.get i).isSome := by
        intro i
        rw [CF.get_put]
        split
        · next e => rw [e, hg]; rfl
        · rfl
      have hk : ∀ i k, Listed l.held i k → Listed (l.held.put id ⟨{ hh.lease with renewed := now }, hh.keys⟩) i k := by
        rintro i k ⟨x, a, b⟩
        unfold Listed
        rw [CF.get_put]
        split
        · next e => rw [e, hg] at a; cases a; exact ⟨_, rfl, b⟩
        · exact ⟨x, a, b⟩
      cases hn : l.node.leases.get id with
      | none =>
        exact ⟨⟨_, rfl⟩, rfl, rfl, fun _ => ⟨rfl, fun _ => htr.held hd hk⟩, fun _ _ e => (nomatch e),
          fun _ _ e => (nomatch e), fun _ _ e => (nomatch e)⟩
      | some x =>
        have hs : (P.leases id).isSome = true := by rw [← htr.dom, hg]; rfl
        refine ⟨⟨_, rfl⟩, rfl, rfl, fun e => (nomatch e), ?_, ?_, ?_⟩
        · intro i o e
          cases e
          intro k y hy h0
          rw [(lease_put_inc P id _ []).2]
          split
          · rfl
          · exact hclean k y hy h0
        · intro i o e _
          cases e
          have := htr.held hd hk
          refine ⟨fun i => ?_, this.att⟩
          rw [(lease_put_inc P id _ []).2, this.dom]
          split
          · next e => rw [e, hs]; rfl
          · rfl
        · intro i o e hi
          cases e
          simp only [hin] at hi
          cases hi

/-- Nothing in the queue attaches a key to the lease. -/
def NoneAttaching (l : Leader) (id : Int) : Prop := ∀ i ∈ l.pending, ∀ op ∈ i.ops, op.attach ≠ some id

/-- Revoking some leases of a map that tracks the state the queue leads to. -/
theorem revoke_tracks (h : LInv l S) {held : CF Int Held} (htr : Tracks held (after S l.pending)) (ids : List Int)
    (hno : ∀ id ∈ ids, NoneAttaching l id) :
    NoOrphan ((after S l.pending).inc (revokeAll c l.node held ids).2) ∧
      Tracks (revokeAll c l.node held ids).1 ((after S l.pending).inc (revokeAll c l.node held ids).2) := by
  have hclean := h.last
  obtain ⟨R, D, h1, h2, h3, h4, h5⟩ := revokeAll_spec (c := c) h.ok ids held
  rw [h1]
  generalize hP : after S l.pending = P at *
  have hm : ∀ k, (P.inc ⟨R.map .erase, D.map .delete, []⟩).map k = if k ∈ D then none else P.map k := by
    intro k
    rw [inc_map]
    simp only
    rw [deletes_map, leases_map]
  have hl : ∀ i, (P.inc ⟨R.map .erase, D.map .delete, []⟩).leases i = if i ∈ R then none else P.leases i := by
    intro i
    rw [inc_leases]
    exact erases_leases R P i
  have hnot : ∀ k x, k ∉ D → P.map k = some x → x.lease ≠ 0 → x.lease ∉ R := by
    intro k x hk hx h0 hR
    refine hk ((h5 k).2 ⟨_, hR, htr.att k x hx h0, ?_⟩)
    rw [← hP] at hx
    obtain ⟨y, hy, _⟩ := after_attach (hno _ (h2 _ hR).1) h0 hx rfl
    rw [hy]; rfl
  refine ⟨?_, ?_, ?_⟩
  · intro k x hx h0
    rw [hm] at hx
    split at hx
    · cases hx
    · next hk =>
      rw [hl, if_neg (hnot k x hk hx h0)]
      exact hclean k x hx h0
  · intro i
    rw [h4, hl]
    split
    · rfl
    · exact htr.dom i
  · intro k x hx h0
    rw [hm] at hx
    split at hx
    · cases hx
    · next hk =>
      obtain ⟨y, a, b⟩ := htr.att k x hx h0
      exact ⟨y, by rw [h4, if_neg (hnot k x hk hx h0)]; exact a, b⟩

theorem build_tracks (h : LInv l S) (hi : l.inited = false) : Tracks (build l.node) (after S l.pending) := by
  have hq := h.quiet hi
  obtain ⟨a, b⟩ := build_spec h.ok
  have hl : (after S l.pending).leases = S.leases := after_leases fun i hi => (hq i hi).1
  refine ⟨fun id => ?_, fun k x hx h0 => ?_⟩
  · rw [hl, ← a]; simp
  · obtain ⟨y, hy, hyl⟩ := after_attach (fun i hi op ho => by rw [(hq i hi).2 op ho]; exact fun e => (nomatch e)) h0 hx rfl
    refine (b _ _).2 ⟨h0, ?_, y, hy, hyl⟩
    have := h.last k x hx h0
    rw [hl] at this; exact this

theorem taskHeld_tracks (h : LInv l S) : Tracks (taskHeld l) (after S l.pending) := by
  unfold taskHeld
  split
  · next hi => exact h.tracks hi
  · next hi => exact build_tracks h (by simpa using hi)

theorem task_eff (h : LInv l S) (now : Int) (hno : ∀ id ∈ expired (taskHeld l) now, NoneAttaching l id) :
    Eff l (after S l.pending) (taskEval c l now) := by
  obtain ⟨a, b⟩ := revoke_tracks (c := c) h (taskHeld_tracks h) _ hno
  refine ⟨⟨_, rfl⟩, rfl, rfl, fun e => (nomatch e), ?_, ?_, ?_⟩
  · intro i o e; cases e; exact a
  · intro i o e _; cases e; exact b
  · intro i o e hi; cases e; cases hi

theorem revoke_eff (h : LInv l S) (id : Int) (hin : l.inited = true) (hno : NoneAttaching l id) :
    Eff l (after S l.pending) (l.eval c (.revoke id)) := by
  unfold Leader.eval
  simp only
  split
  · exact Eff.none h
  · obtain ⟨a, b⟩ := revoke_tracks (c := c) h (h.tracks hin) [id] (fun i hi => by rw [List.mem_singleton] at hi; rw [hi]; exact hno)
    rw [revokeAll_one] at a b
    cases hr : revoke c l.node l.held id with
    | none => exact Eff.none h
    | some r =>
      obtain ⟨held, inc⟩ := r
      rw [hr] at a b
      refine ⟨⟨_, rfl⟩, rfl, rfl, fun e => (nomatch e), ?_, ?_, ?_⟩
      · intro i o e; cases e; exact a
      · intro i o e _; cases e; exact b
      · intro i o e hi; cases e; rw [hin] at hi; cases hi

theorem compact_eff (h : LInv l S) (ks : List (Bytes × Int)) : Eff l (after S l.pending) (l.eval c (.compact ks)) := by
  have hm : ∀ P : Spec, (P.inc ⟨[], ks.map fun e => .compact e.1 e.2, []⟩).map = P.map ∧
      (P.inc ⟨[], ks.map fun e => .compact e.1 e.2, []⟩).leases = P.leases := by
    intro P
    refine ⟨?_, by rw [inc_leases]; rfl⟩
    rw [inc_map]
    simp only [List.foldl_nil, compacts_map]
  refine ⟨⟨_, rfl⟩, rfl, rfl, fun e => (nomatch e), ?_, ?_, ?_⟩
  · intro i o e
    cases e
    intro k x hx h0
    rw [(hm _).1] at hx
    rw [(hm _).2]
    exact h.last k x hx h0
  · intro i o e hi
    cases e
    have := h.tracks hi
    exact ⟨fun i => by rw [(hm _).2]; exact this.dom i, fun k x hx h0 => this.att k x (by rw [← (hm _).1]; exact hx) h0⟩
  · intro i o e hi
    cases e
    refine ⟨hi, rfl, ?_⟩
    intro op ho
    obtain ⟨k, _, rfl⟩ := List.mem_map.1 ho
    rfl

/-! ### All requests -/

/-- What the theorem about interleavings leaves out: a revocation while the map is not built, and
one while an entry that attaches a key to the lease is in the queue. -/
def Fine (l : Leader) : Req → Prop
  | .revoke id => l.inited = true ∧ NoneAttaching l id
  | .task now => ∀ id ∈ expired (taskHeld l) now, NoneAttaching l id
  | _ => True

theorem eval_eff (h : LInv l S) (r : Req) (hf : Fine l r) : Eff l (after S l.pending) (l.eval c r) := by
  cases r with
  | put => exact put_eff h ..
  | delete => exact delete_eff h ..
  | grant => exact grant_eff h ..
  | renew => exact renew_eff h ..
  | revoke id => exact revoke_eff h id hf.1 hf.2
  | task now => exact task_eff h now hf
  | compact ks => exact compact_eff h ks

theorem req_inv (h : LInv l S) (r : Req) (hf : Fine l r) : LInv (l.step c (.req r)) S := by
  have heff := eval_eff (c := c) h r hf
  unfold Leader.step
  rcases hres : l.eval c r with ⟨l', o⟩
  rw [hres] at heff
  obtain ⟨⟨m, hn⟩, hidx, hpend, href, hcl, htr, hq⟩ := heff
  simp only [hres]
  simp only at hn hidx hpend href hcl htr hq
  have hok : Ok True l'.node S := by rw [hn]; exact h.ok.memLease m
  have happ : l'.node.applied ≤ l'.index := by rw [hn, hidx]; exact h.idx
  cases o with
  | none =>
    obtain ⟨hi, ht⟩ := href rfl
    exact ⟨hok, happ, by rw [hpend]; exact h.clean, by rw [hi, hpend]; exact ht, by rw [hi, hpend]; exact h.quiet⟩
  | some io =>
    obtain ⟨i, o⟩ := io
    refine ⟨hok, happ, ?_, ?_, ?_⟩
    · intro n
      simp only [hpend]
      by_cases hn : n ≤ l.pending.length
      · rw [List.take_append_of_le_length hn]; exact h.clean n
      · rw [List.take_of_length_le (by simp; omega), after_snoc]
        exact hcl i o rfl
    · intro hi
      simp only [hpend, after_snoc] at hi ⊢
      exact htr i o rfl hi
    · intro hi j hj
      simp only [hpend] at hi hj
      obtain ⟨h1, h2⟩ := hq i o rfl hi
      rcases List.mem_append.1 hj with hj | hj
      · exact h.quiet h1 j hj
      · rw [List.mem_singleton] at hj; rw [hj]; exact h2

theorem commit_cons (h : LInv l S) {i : Inc} {rest : List Inc} (hp : l.pending = i :: rest) :
    LInv l.commit (S.inc i) ∧ l.commit.pending = rest := by
  unfold Leader.commit
  rw [hp]
  obtain ⟨a, b⟩ := apply_ok (e := ⟨l.term, l.index + 1, i⟩) h.ok (by have := h.idx; simp only; omega) (fun _ => trivial)
  refine ⟨⟨a, b, ?_, ?_, ?_⟩, rfl⟩
  · intro n
    have := h.clean (n + 1)
    rw [hp] at this
    exact this
  · intro hi
    have := h.tracks hi
    rw [hp] at this
    exact this
  · intro hi j hj
    exact h.quiet hi j (by rw [hp]; exact List.mem_cons_of_mem _ hj)

theorem commit_inv (h : LInv l S) : ∃ S', LInv l.commit S' := by
  cases hp : l.pending with
  | nil =>
    refine ⟨S, ?_⟩
    unfold Leader.commit
    rw [hp]
    exact h
  | cons i rest => exact ⟨_, (commit_cons h hp).1⟩

theorem commits_inv (n : Nat) : ∀ {l : Leader} {S : Spec}, LInv l S → ∃ S', LInv (l.commits n) S' := by
  induction n with
  | zero => exact fun h => ⟨_, h⟩
  | succ n ih =>
    intro l S h
    obtain ⟨S', h'⟩ := commit_inv h
    exact ih h'

theorem elect_inv (h : LInv l S) (n : Nat) (held : CF Int Held) (m : Option Int) :
    ∃ S', LInv (l.step c (.elect n held m)) S' := by
  obtain ⟨S', h'⟩ := commits_inv n h
  refine ⟨S', ⟨h'.ok.memLease m, h'.idx, ?_, fun e => (nomatch e), fun _ _ e => (nomatch e)⟩⟩
  intro k
  have := h'.clean 0
  simp only [Leader.step, List.take_nil, List.take_zero] at this ⊢
  exact this

theorem init_inv : LInv Leader.init Spec.init where
  ok := init_ok
  idx := by decide
  clean := fun n k x hx => by simp [Leader.init, after, Spec.init] at hx
  tracks := fun e => (nomatch e)
  quiet := fun _ _ e => (nomatch e)

end Verif.CoorKv
