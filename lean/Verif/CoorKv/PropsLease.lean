import Verif.CoorKv.LeaseSeq

/-!
# C34, C60: leases, and what a put or a delete request does

`look` is a read of one key (`KvRange`), `Node.leases` what `ListLeases` shows.
-/

namespace Verif.CoorKv
attribute [-instance] Verif.Txn.instDecidableLt_verif Verif.Txn.KeyOrder.toLT
open Verif.Codec (Bytes)
open Verif.Txn (CF KeyOrder)

/-! ### Any interleaving of requests and log entries -/

def runEvs (c : Cfg) (l : Leader) (evs : List LEv) : Leader := evs.foldl (Leader.step c) l

/-- `Fine` for every request of a run, and entries are handed to raft in the order the requests
are evaluated. -/
def Fines (c : Cfg) : Leader → List LEv → Prop
  | _, [] => True
  | l, .req r :: evs => Fine l r ∧ Fines c (l.step c (.req r)) evs
  | _, .eval _ :: _ => False
  | _, .propose _ :: _ => False
  | l, e :: evs => Fines c (l.step c e) evs

theorem runEvs_inv {c : Cfg} (evs : List LEv) {l : Leader} {S : Spec} (h : LInv l S) (hf : Fines c l evs) :
    ∃ S', LInv (runEvs c l evs) S' := by
  induction evs generalizing l S with
  | nil => exact ⟨S, h⟩
  | cons e evs ih =>
    cases e with
    | req r => exact ih (req_inv h r hf.1) hf.2
    | eval r => exact hf.elim
    | propose n => exact hf.elim
    | commit =>
      obtain ⟨S', h'⟩ := commit_inv h
      exact ih h' hf
    | elect n held m =>
      obtain ⟨S', h'⟩ := elect_inv (c := c) h n held m
      exact ih h' hf

/-- **C34, no key outlives its lease.**  Whatever requests are evaluated, whenever their entries
are applied and however often the leader changes, a key that can be read with a lease has a
lease that exists.  Missing (`Fine`): a revocation or an expiry evaluated while an entry that
attaches a key to the lease is still in the queue; a revocation by a new leader whose map is
not built; entries handed to raft in another order than their requests were evaluated in. -/
theorem C34_no_orphan_partial (c : Cfg) (evs : List LEv) (hf : Fines c .init evs) (k : Bytes) (kv : Kv)
    (hk : look c (runEvs c .init evs).node k = some kv) (h0 : kv.lease ≠ 0) :
    ((runEvs c .init evs).node.leases.get kv.lease).isSome = true := by
  obtain ⟨S, h⟩ := runEvs_inv evs init_inv hf
  rw [look_eq h.ok] at hk
  cases hx : S.map k with
  | none => rw [hx] at hk; cases hk
  | some x =>
    rw [hx] at hk
    cases hk
    rw [h.ok.leases]
    have := h.clean 0
    exact this k x hx h0

def exCfg : Cfg := ⟨4096, 8192, 3, 300⟩

/-- Leases 7 and 8, a put under each, lease 7 revoked while the put under lease 8 waits. -/
def exLEvs : List LEv :=
  [.req (.task 0), .req (.grant 0 7 10), .req (.grant 0 8 10), .commit, .commit, .commit,
   .req (.put 1 [97] [1] 7 false false false), .commit, .req (.put 1 [98] [2] 8 false false false),
   .req (.revoke 7), .req (.delete [97] [0] false), .commit, .commit, .elect 1 .empty none, .req (.task 2)]

instance (l : Leader) (id : Int) : Decidable (NoneAttaching l id) :=
  inferInstanceAs (Decidable (∀ i ∈ l.pending, ∀ op ∈ i.ops, op.attach ≠ some id))

instance (l : Leader) (r : Req) : Decidable (Fine l r) := by
  cases r <;> unfold Fine <;> infer_instance

instance decFines (c : Cfg) : (l : Leader) → (evs : List LEv) → Decidable (Fines c l evs)
  | _, [] => isTrue trivial
  | l, .req r :: evs => have := decFines c (l.step c (.req r)) evs; inferInstanceAs (Decidable (_ ∧ _))
  | _, .eval _ :: _ => isFalse id
  | _, .propose _ :: _ => isFalse id
  | l, .commit :: evs => decFines c (l.step c .commit) evs
  | l, .elect n h m :: evs => decFines c (l.step c (.elect n h m)) evs

set_option maxRecDepth 10000 in
example : Fines exCfg .init exLEvs := by decide +kernel
set_option maxRecDepth 10000 in
example : let s := (runEvs exCfg .init exLEvs).node
    look exCfg s [97] = none ∧ (look exCfg s [98]).map (·.lease) = some 8 ∧ s.leases.get 7 = none ∧
      (s.leases.get 8).isSome = true := by decide +kernel

/-- **The first condition is needed.**  A put under a lease waits in the queue while the lease is
revoked: the put is accepted, the revocation too, and the key stays for ever with a lease that
does not exist.  It cannot be put again under `ignore_lease`, nor under its lease. -/
theorem C34_orphan_false :
    ∃ evs, let l := runEvs exCfg .init evs
      l.pending = [] ∧ (look exCfg l.node [97]).map (·.lease) = some 7 ∧ l.node.leases.get 7 = none ∧
      (l.eval exCfg (.put 1 [97] [1] 0 false false true)).2 = none ∧
      (l.eval exCfg (.put 1 [97] [1] 7 false false false)).2 = none :=
  ⟨[.req (.task 0), .req (.grant 0 7 10), .commit, .commit, .req (.put 1 [97] [1] 7 false false false),
    .req (.revoke 7), .commit, .commit], by
      refine ⟨?_, ?_, ?_, ?_, ?_⟩ <;> decide +kernel⟩

/-- **So is the second.**  A new leader revokes with the map of an earlier term: the key attached
since then stays. -/
theorem C34_stale_map_false :
    ∃ evs held, let l := runEvs exCfg .init (evs ++ [.elect 0 held none, .req (.revoke 7), .commit])
      l.pending = [] ∧ (look exCfg l.node [97]).map (·.lease) = some 7 ∧ l.node.leases.get 7 = none ∧
      -- the map is one an earlier moment had
      ∃ before, evs = before ++ [.req (.put 1 [97] [1] 7 false false false), .commit] ∧
        held = (runEvs exCfg .init before).held :=
  ⟨[.req (.task 0), .req (.grant 0 7 10), .commit, .commit, .req (.put 1 [97] [1] 7 false false false), .commit],
    (runEvs exCfg .init [.req (.task 0), .req (.grant 0 7 10), .commit, .commit]).held, by
      refine ⟨?_, ?_, ?_, _, rfl, rfl⟩ <;> decide +kernel⟩

/-- **And the third.**  A put under lease 7 and a delete of the key are evaluated in this order and
handed to raft in the other.  The lease is revoked later, with nothing else going on, and the key
stays. -/
theorem C34_order_false :
    ∃ evs evs', let l := runEvs exCfg .init (evs ++ evs')
      evs' = [.req (.revoke 7), .commit] ∧ (runEvs exCfg .init evs).pending = [] ∧
      (runEvs exCfg .init evs).flight.length = 0 ∧ (runEvs exCfg .init evs).inited = true ∧
      (look exCfg l.node [97]).map (·.lease) = some 7 ∧ l.node.leases.get 7 = none :=
  ⟨[.req (.task 0), .req (.grant 0 7 10), .commit, .commit, .req (.put 1 [97] [1] 7 false false false), .commit,
    .eval (.put 1 [97] [2] 7 false false false), .eval (.delete [97] [] false), .propose 1, .propose 0, .commit, .commit],
    _, rfl, by refine ⟨?_, ?_, ?_, ?_, ?_⟩ <;> decide +kernel⟩

/-- A renewal handed to raft after a revocation that was evaluated later brings the lease back: it
is listed, but cannot be renewed or revoked and does not expire. -/
theorem C34_zombie_false :
    ∃ evs, let l := runEvs exCfg .init evs
      l.pending = [] ∧ l.flight.length = 0 ∧ l.inited = true ∧
      l.node.leases.get 7 = some ⟨10, 0, 5⟩ ∧
      (l.eval exCfg (.renew 6 7)).2 = none ∧ (l.eval exCfg (.revoke 7)).2 = none ∧
      ∀ now, ((l.eval exCfg (.task now)).2.map (·.1.leases)) = some [] := by
  refine ⟨[.req (.task 0), .req (.grant 0 7 10), .commit, .commit, .eval (.renew 5 7), .eval (.revoke 7), .propose 1,
    .propose 0, .commit, .commit], ?_⟩
  refine ⟨?_, ?_, ?_, ?_, ?_, ?_, ?_⟩
  all_goals first | decide +kernel | skip
  intro now
  have h : (runEvs exCfg .init [.req (.task 0), .req (.grant 0 7 10), .commit, .commit, .eval (.renew 5 7),
      .eval (.revoke 7), .propose 1, .propose 0, .commit, .commit]).held.l.length = 0 := by decide +kernel
  have hi : (runEvs exCfg .init [.req (.task 0), .req (.grant 0 7 10), .commit, .commit, .eval (.renew 5 7),
      .eval (.revoke 7), .propose 1, .propose 0, .commit, .commit]).inited = true := by decide +kernel
  generalize runEvs exCfg .init _ = l at h hi
  simp only [Leader.eval, taskEval, taskHeld, hi, if_true, expired, List.eq_nil_of_length_eq_zero h, List.filter_nil,
    List.map_nil, revokeAll, Option.map_some]

/-! ### One request at a time -/

/-- **C34, revocation.**  With requests executed one at a time, by whatever leaders, the lease is
known exactly if it exists, and revoking it deletes exactly the keys attached to it at that
moment.  Missing: concurrent requests (see `C34_no_orphan_partial`), a delete of several keys of
one lease in the history (`C34_exact_false`), and a leader without a map (`C34_stale_map_false`). -/
theorem C34_revoke_partial (c : Cfg) (evs : List SEv) (hf : SFines c .init evs) (id : Int) (h0 : id ≠ 0)
    (hin : (runSeq c .init evs).inited = true) (l' : Leader) (o : Option Out)
    (he : (runSeq c .init evs).exec c (.revoke id) = (l', o)) :
    let l := runSeq c .init evs
    (o = none ↔ l.node.leases.get id = none) ∧
    (o ≠ none →
      (∀ k, look c l'.node k = if (look c l.node k).any (fun kv => kv.lease = id) then none else look c l.node k) ∧
      (∀ i, l'.node.leases.get i = if i = id then none else l.node.leases.get i)) := by
  obtain ⟨S, h⟩ := runSeq_sinv evs init_sinv hf
  generalize runSeq c .init evs = l at h hin he
  dsimp only
  have hx := h.exact' hin
  have ht := h.tracks hin
  obtain ⟨a, b⟩ := exec_sinv h (.revoke id) hin he
  obtain ⟨_, hm, hl⟩ := revoke_exact (c := c) h.inv.ok ht hx [id]
  have hev : l.eval c (.revoke id) = match revoke c l.node l.held id with
      | none => (l, none)
      | some (held, inc) => ({ l with held := held }, some (inc, .done)) := by
    exact if_neg h0
  have hiff : revoke c l.node l.held id = none ↔ S.leases id = none := by
    unfold revoke
    cases hg : l.held.get id with
    | none =>
      have := ht.dom id
      rw [hg] at this
      simp only [true_iff]
      cases hs : S.leases id with
      | none => rfl
      | some _ => rw [hs] at this; cases this
    | some hh =>
      have hle : l.node.leases.get id = S.leases id := h.inv.ok.leases id
      simp only
      rw [hle]
      split
      · next e => exact ⟨fun _ => e, fun _ => rfl⟩
      · next e => exact ⟨fun e' => (nomatch e'), fun e' => absurd e' e⟩
  rw [h.inv.ok.leases, ← hiff]
  cases hr : revoke c l.node l.held id with
  | none =>
    rw [hr] at hev
    have : l.exec c (.revoke id) = (l, none) := by unfold Leader.exec; rw [hev]
    rw [this] at he
    cases he
    exact ⟨by simp, fun e => absurd rfl e⟩
  | some r =>
    obtain ⟨held, inc⟩ := r
    rw [hr] at hev
    cases o with
    | none =>
      exfalso
      unfold Leader.exec at he
      rw [hev] at he
      cases he
    | some out =>
      refine ⟨by simp, fun _ => ?_⟩
      obtain ⟨le, i, he', h'⟩ := b out rfl
      rw [hev] at he'
      cases he'
      rw [revokeAll_one, hr] at hm hl
      simp only at hm hl
      refine ⟨fun k => ?_, fun i => ?_⟩
      · rw [look_eq h'.inv.ok, look_eq h.inv.ok, hm]
        cases hk : S.map k with
        | none => rfl
        | some x =>
          simp only [List.mem_singleton, Option.map_some, Option.any_some, answer]
          by_cases e : x.lease = id
          · simp [e, h0]
          · simp [e]
      · rw [h'.inv.ok.leases, h.inv.ok.leases, hl]
        simp

/-- **C34, expiry.**  The periodic task deletes exactly the leases whose time has run out since
their last renewal, and exactly the keys attached to them.  It also works for a leader whose map
is not built. -/
theorem C34_expiry_partial (c : Cfg) (evs : List SEv) (hf : SFines c .init evs) (now : Int) :
    let l := runSeq c .init evs
    let l' := (l.exec c (.task now)).1
    let dead : Int → Prop := fun id => ∃ x, l.node.leases.get id = some x ∧ x.ttl + x.renewed < now
    (∀ id, dead id → l'.node.leases.get id = none) ∧
    (∀ id, ¬ dead id → l'.node.leases.get id = l.node.leases.get id) ∧
    (∀ k kv, look c l.node k = some kv → kv.lease ≠ 0 → dead kv.lease → look c l'.node k = none) ∧
    (∀ k, (∀ kv, look c l.node k = some kv → kv.lease = 0 ∨ ¬ dead kv.lease) → look c l'.node k = look c l.node k) := by
  obtain ⟨S, h⟩ := runSeq_sinv evs init_sinv hf
  generalize runSeq c .init evs = l at h
  dsimp only
  obtain ⟨hx, ht⟩ := taskHeld_exact h
  obtain ⟨_, hm, hl⟩ := revoke_exact (c := c) h.inv.ok ht hx (expired (taskHeld l) now)
  rcases hex : l.exec c (.task now) with ⟨l1, o⟩
  obtain ⟨a, b⟩ := exec_sinv h (.task now) trivial hex
  have hdead : ∀ id, id ∈ expired (taskHeld l) now ↔ ∃ x, l.node.leases.get id = some x ∧ x.ttl + x.renewed < now := by
    intro id
    simp only [expired, List.mem_map, List.mem_filter, decide_eq_true_eq, h.inv.ok.leases, ← hx.same]
    constructor
    · rintro ⟨⟨i, hh⟩, ⟨h1, h2⟩, rfl⟩
      have := (CF.mem_iff_get _ _ _).1 h1
      exact ⟨hh.lease, by rw [this]; rfl, h2⟩
    · rintro ⟨x, h1, h2⟩
      cases hg : (taskHeld l).get id with
      | none => rw [hg] at h1; cases h1
      | some hh =>
        rw [hg] at h1
        cases h1
        exact ⟨(id, hh), ⟨(CF.mem_iff_get _ _ _).2 hg, h2⟩, rfl⟩
  cases o with
  | none =>
    exfalso
    unfold Leader.exec Leader.eval taskEval at hex
    cases hex
  | some out =>
    obtain ⟨le, i, he', h'⟩ := b out rfl
    have hi : i = (revokeAll c l.node (taskHeld l) (expired (taskHeld l) now)).2 := by
      have : taskEval c l now = (le, some (i, out)) := he'
      unfold taskEval at this
      simp only [Prod.mk.injEq, Option.some.injEq] at this
      exact this.2.1.symm
    rw [hi] at h'
    refine ⟨fun id hd => ?_, fun id hd => ?_, fun k kv hk hz hd => ?_, fun k hk => ?_⟩
    · rw [h'.inv.ok.leases, hl, if_pos ((hdead id).2 hd)]
    · rw [h'.inv.ok.leases, hl, if_neg (fun hh => hd ((hdead id).1 hh)), h.inv.ok.leases]
    · rw [look_eq h.inv.ok] at hk
      rw [look_eq h'.inv.ok, hm]
      cases hs : S.map k with
      | none => rw [hs] at hk; cases hk
      | some x =>
        rw [hs] at hk
        cases hk
        simp only
        rw [if_pos ⟨hz, (hdead _).2 hd⟩]
        rfl
    · rw [look_eq h'.inv.ok, hm, look_eq h.inv.ok]
      cases hs : S.map k with
      | none => rfl
      | some x =>
        simp only
        rw [if_neg]
        rintro ⟨hz, hd⟩
        rcases hk (answer false (k, x)) (by rw [look_eq h.inv.ok, hs]; rfl) with e | e
        · exact hz e
        · exact e ((hdead _).1 hd)

/-- A history with a single-key delete, a change of leader and a map built again. -/
def exSeq : List SEv :=
  [.req (.task 0), .req (.grant 0 7 10), .req (.put 1 [97] [1] 7 false false false),
   .req (.put 1 [98] [2] 7 false false false), .req (.put 1 [99] [2] 0 false false false), .req (.delete [98] [] false),
   .elect .empty none, .req (.task 2)]

example : SFines exCfg .init exSeq := by
  refine ⟨trivial, trivial, trivial, trivial, trivial, ?_, trivial, trivial⟩
  intro k k' kv kv' h h' _ _ _ _
  have h1 : k = [98] := h
  have h2 : k' = [98] := h'
  rw [h1, h2]
example : (runSeq exCfg .init exSeq).inited = true ∧ (look exCfg (runSeq exCfg .init exSeq).node [97]).isSome = true ∧
    look exCfg ((runSeq exCfg .init exSeq).exec exCfg (.revoke 7)).1.node [97] = none ∧
    (look exCfg ((runSeq exCfg .init exSeq).exec exCfg (.revoke 7)).1.node [99]).isSome = true ∧
    (look exCfg ((runSeq exCfg .init exSeq).exec exCfg (.task 10)).1.node [97]).isSome = true ∧
    look exCfg ((runSeq exCfg .init exSeq).exec exCfg (.task 11)).1.node [97] = none := by
  refine ⟨?_, ?_, ?_, ?_, ?_, ?_⟩ <;> decide +kernel

/-- **The condition on deletes is needed.**  Two keys of a lease are deleted by one request; one
of them is put again without a lease; revoking the lease deletes it. -/
theorem C34_exact_false :
    ∃ evs, let l := runSeq exCfg .init evs
      l.inited = true ∧ look exCfg l.node [97] = some ⟨[97], [3], 10004, 10004, 1, 0⟩ ∧
      look exCfg (l.exec exCfg (.revoke 7)).1.node [97] = none :=
  ⟨[.req (.task 0), .req (.grant 0 7 10), .req (.put 1 [97] [1] 7 false false false),
    .req (.put 1 [98] [2] 7 false false false), .req (.delete [97] [99] false),
    .req (.put 1 [97] [3] 0 false false false)], by
      refine ⟨?_, ?_, ?_⟩ <;> decide +kernel⟩

/-! ### C60: what a request does -/

/-- **C60, put.**  A put that is answered with success gives the key its new value at the next
revision, keeps or starts its creation revision and version, attaches it to the lease asked for
(or keeps the lease, if asked to), changes no other key, and returns the previous value if asked
to.  Missing: `ignore_value` (`C60_ignore_value_false`) and concurrent requests
(`C60_prev_false`). -/
theorem C60_put_partial (c : Cfg) (evs : List SEv) (hf : SFines c .init evs) (now : Int) (key value : Bytes) (lease : Int)
    (needPrev ignoreLease : Bool) (l' : Leader) (o : Out)
    (he : (runSeq c .init evs).exec c (.put now key value lease needPrev false ignoreLease) = (l', some o)) :
    let l := runSeq c .init evs
    ∃ m, l.node.memRev = some m ∧ l'.node.memRev = some (m + 1) ∧
      (∀ k, look c l'.node k = if k = key then
          some ⟨key, value, ((look c l.node key).map (·.create)).getD (m + 1), m + 1,
            ((look c l.node key).map (·.version)).getD 0 + 1,
            if ignoreLease then ((look c l.node key).map (·.lease)).getD 0 else lease⟩
        else look c l.node k) ∧
      (∀ i, l'.node.leases.get i = l.node.leases.get i) ∧
      o = .put (if needPrev then look c l.node key else none) := by
  obtain ⟨S, h⟩ := runSeq_sinv evs init_sinv hf
  generalize runSeq c .init evs = l at h he
  dsimp only
  obtain ⟨_, b⟩ := exec_sinv h (.put now key value lease needPrev false ignoreLease) trivial he
  obtain ⟨le, i, he', h'⟩ := b o rfl
  obtain ⟨id, h1, h2, h3, h4, h5, h6, h7, h8, h9⟩ := put_accepted h he'
  refine ⟨S.rev, h.inv.ok.mem, by rw [h'.inv.ok.mem, h6], ?_, ?_, h9⟩
  · intro k
    rw [look_eq h'.inv.ok, look_eq h.inv.ok, look_eq h.inv.ok, h4]
    by_cases e : k = key
    · subst e
      rw [if_pos rfl, if_pos rfl]
      cases hk : S.map k with
      | none =>
        cases ignoreLease with
        | false => simp [answer, h1]
        | true => have := h3 rfl; rw [hk] at this; cases this
      | some x =>
        have := h2 x hk
        cases ignoreLease with
        | false => simp [answer, h1]
        | true => simp [answer, this]
    · rw [if_neg e, if_neg e]
  · intro i
    rw [h'.inv.ok.leases, h.inv.ok.leases, h5]

example : SFines exCfg .init exSeq ∧ ((runSeq exCfg .init exSeq).exec exCfg (.put 3 [97] [9] 7 true false true)).2 =
    some (.put (some ⟨[97], [1], 10001, 10001, 1, 7⟩)) := by
  refine ⟨⟨trivial, trivial, trivial, trivial, trivial, ?_, trivial, trivial⟩, by decide +kernel⟩
  intro k k' kv kv' h h' _ _ _ _
  have h1 : k = [98] := h
  have h2 : k' = [98] := h'
  rw [h1, h2]

/-- What a put must satisfy: sizes; the lease exists with time left, and is the one the key has if the
key exists; the key exists if its lease is to be kept. -/
def PutOk (c : Cfg) (n : Node) (now : Int) (key value : Bytes) (lease : Int) (ignoreValue ignoreLease : Bool) : Prop :=
  key ≠ [] ∧ key.length ≤ c.maxKey ∧ (ignoreValue = false → value ≠ [] ∧ value.length ≤ c.maxValue) ∧
    if ignoreLease then (look c n key).isSome = true
    else (lease ≠ 0 → ∃ x, n.leases.get lease = some x ∧ now < x.renewed + x.ttl) ∧
      ∀ kv, look c n key = some kv → kv.lease = lease

/-- **C60, acceptance.**  Exactly the puts that satisfy these conditions are accepted. -/
theorem C60_accepts (c : Cfg) (evs : List SEv) (hf : SFines c .init evs) (now : Int) (key value : Bytes) (lease : Int)
    (needPrev ignoreValue ignoreLease : Bool) (hin : (runSeq c .init evs).inited = true) :
    let l := runSeq c .init evs
    (l.exec c (.put now key value lease needPrev ignoreValue ignoreLease)).2.isSome = true ↔
      PutOk c l.node now key value lease ignoreValue ignoreLease := by
  obtain ⟨S, h⟩ := runSeq_sinv evs init_sinv hf
  generalize runSeq c .init evs = l at h hin
  dsimp only
  have hx := h.exact' hin
  have hev : ∀ r, (l.exec c r).2.isSome = (l.eval c r).2.isSome := by
    intro r
    unfold Leader.exec
    rcases l.eval c r with ⟨a, _ | ⟨b, d⟩⟩ <;> rfl
  rw [hev]
  have hal : ∀ id, l.alive now id = true ↔ ∃ x, l.node.leases.get id = some x ∧ now < x.renewed + x.ttl := by
    intro id
    have e := hx.same id
    rw [← h.inv.ok.leases] at e
    unfold Leader.alive
    rw [hin, ← e]
    cases l.held.get id with
    | none => simp
    | some hh => simp; omega
  have hadd : ∀ id, (l.node.leases.get id).isSome = true → (addKey l.held id key).isSome = true := by
    intro id hi
    rw [h.inv.ok.leases, ← (h.tracks hin).dom] at hi
    obtain ⟨a, ha⟩ := Option.isSome_iff_exists.1 hi
    simp [addKey, ha]
  change (putEval c l now key value lease needPrev ignoreValue ignoreLease).2.isSome = true ↔ _
  unfold putEval PutOk
  by_cases hb : key = [] ∨ c.maxKey < key.length ∨ (¬ ignoreValue = true ∧ value = []) ∨
      (¬ ignoreValue = true ∧ c.maxValue < value.length)
  · rw [if_pos hb]
    refine ⟨fun e => (nomatch e), ?_⟩
    rintro ⟨h1, h2, h3, _⟩
    rcases hb with e | e | ⟨e, e'⟩ | ⟨e, e'⟩
    · exact absurd e h1
    · omega
    · exact absurd e' (h3 (by simpa using e)).1
    · have := (h3 (by simpa using e)).2; omega
  · rw [if_neg hb]
    have hs : key ≠ [] ∧ key.length ≤ c.maxKey ∧ (ignoreValue = false → value ≠ [] ∧ value.length ≤ c.maxValue) := by
      refine ⟨fun e => hb (.inl e), ?_, fun e => ⟨fun e' => hb (.inr (.inr (.inl ⟨by simp [e], e'⟩))), ?_⟩⟩
      · exact Nat.le_of_not_lt fun e => hb (.inr (.inl e))
      · exact Nat.le_of_not_lt fun e' => hb (.inr (.inr (.inr ⟨by simp [e], e'⟩)))
    have hsome : ∀ id, (id = 0 ∨ (l.node.leases.get id).isSome = true) →
        ((if id = 0 then some l.held else addKey l.held id key)).isSome = true := by
      intro id hid
      by_cases h0 : id = 0
      · simp [h0]
      · rw [if_neg h0]; exact hadd id (hid.resolve_left h0)
    have fin : ∀ (id : Int) (o : Out), (id = 0 ∨ (l.node.leases.get id).isSome = true) →
        (match if id = 0 then some l.held else addKey l.held id key with
          | none => (l, none)
          | some held =>
            ({ l with held := held },
              some ((⟨[], [.put key ignoreLease id false (if ignoreValue then [] else value)], []⟩ : Inc),
                o))).2.isSome = true := by
      intro id o hid
      obtain ⟨a, ha⟩ := Option.isSome_iff_exists.1 (hsome id hid)
      rw [ha]
      rfl
    refine Iff.trans ?_ (Iff.intro (fun e => ⟨hs.1, hs.2.1, hs.2.2, e⟩) (fun e => e.2.2.2))
    cases ignoreLease with
    | true =>
      simp only [putLease, not_true_eq_false, false_and, if_false, if_true]
      cases hk : look c l.node key with
      | none => simp
      | some kv =>
        simp only [Option.isSome_some, iff_true]
        refine fin kv.lease _ ?_
        by_cases h0 : kv.lease = 0
        · exact .inl h0
        · rw [look_eq h.inv.ok] at hk
          cases hm : S.map key with
          | none => rw [hm] at hk; cases hk
          | some x =>
            rw [hm] at hk
            have : answer false (key, x) = kv := Option.some.inj hk
            subst this
            exact .inr (by rw [h.inv.ok.leases]; exact h.clean key x hm h0)
    | false =>
      by_cases hl : lease ≠ 0 ∧ l.alive now lease = false
      · have : putLease c l now key lease false = none := by
          unfold putLease; rw [if_pos ⟨by simp, hl⟩]
        rw [this]
        simp only [Bool.false_eq_true, if_false]
        refine ⟨fun e => (nomatch e), fun e => ?_⟩
        have := (hal lease).2 (e.1 hl.1)
        rw [hl.2] at this; cases this
      · have hl' : lease ≠ 0 → ∃ x, l.node.leases.get lease = some x ∧ now < x.renewed + x.ttl := by
          intro e
          refine (hal lease).1 ?_
          cases ha : l.alive now lease with
          | true => rfl
          | false => exact absurd ⟨e, ha⟩ hl
        have hid : lease = 0 ∨ (l.node.leases.get lease).isSome = true := by
          by_cases h0 : lease = 0
          · exact .inl h0
          · obtain ⟨x, hx, _⟩ := hl' h0; exact .inr (by rw [hx]; rfl)
        simp only [Bool.false_eq_true, if_false]
        have hp : putLease c l now key lease false =
            match look c l.node key with
            | none => some lease
            | some kv => if kv.lease = lease then some lease else none := by
          unfold putLease
          rw [if_neg (by rintro ⟨_, e⟩; exact hl e)]
          cases look c l.node key <;> rfl
        rw [hp]
        cases hk : look c l.node key with
        | none => exact ⟨fun _ => ⟨hl', fun _ e => (nomatch e)⟩, fun _ => fin lease _ hid⟩
        | some kv =>
          by_cases he : kv.lease = lease
          · simp only [if_pos he]
            exact ⟨fun _ => ⟨hl', fun _ e => by cases e; exact he⟩, fun _ => fin lease _ hid⟩
          · simp only [if_neg he]
            exact ⟨fun e => (nomatch e), fun e => absurd (e.2 kv rfl) he⟩

example : (runSeq exCfg .init exSeq).inited = true ∧
    ((runSeq exCfg .init exSeq).exec exCfg (.put 9 [97] [9] 7 false false false)).2.isSome = true ∧
    ((runSeq exCfg .init exSeq).exec exCfg (.put 10 [97] [9] 7 false false false)).2 = none ∧
    ((runSeq exCfg .init exSeq).exec exCfg (.put 9 [97] [9] 0 false false false)).2 = none := by
  refine ⟨?_, ?_, ?_, ?_⟩ <;> decide +kernel

/-- **C60, refusal.**  A request that is refused changes no key and no lease. -/
theorem C60_refused (c : Cfg) (evs : List SEv) (hf : SFines c .init evs) (r : Req) (hr : SFine c (runSeq c .init evs) r)
    (l' : Leader) (he : (runSeq c .init evs).exec c r = (l', none)) :
    (∀ k, look c l'.node k = look c (runSeq c .init evs).node k) ∧
      (∀ i, l'.node.leases.get i = (runSeq c .init evs).node.leases.get i) := by
  obtain ⟨S, h⟩ := runSeq_sinv evs init_sinv hf
  have h' := (exec_sinv h r hr he).1 rfl
  exact ⟨fun k => by rw [look_eq h'.inv.ok, look_eq h.inv.ok], fun i => by rw [h'.inv.ok.leases, h.inv.ok.leases]⟩

/-- **C60, delete.**  A delete that is answered removes exactly the existing keys of its range, says
how many they were, returns them if asked to, and changes nothing else. -/
theorem C60_delete_partial (c : Cfg) (evs : List SEv) (hf : SFines c .init evs) (key stop : Bytes) (needPrev : Bool)
    (hr : Apart c (runSeq c .init evs).node key stop) (l' : Leader) (o : Out)
    (he : (runSeq c .init evs).exec c (.delete key stop needPrev) = (l', some o)) :
    let l := runSeq c .init evs
    ∃ ks : List Bytes, ks.Pairwise (· < ·) ∧
      (∀ k, k ∈ ks ↔ InRange key stop k ∧ (stop = [0] → k < List.replicate c.maxKey 255) ∧ (look c l.node k).isSome = true) ∧
      (ks.length < 2 ^ 63 →
        (∀ k, look c l'.node k = if k ∈ ks then none else look c l.node k) ∧
        (∀ i, l'.node.leases.get i = l.node.leases.get i) ∧
        o = .delete ks.length (if needPrev then ks.filterMap (look c l.node) else [])) := by
  obtain ⟨S, h⟩ := runSeq_sinv evs init_sinv hf
  generalize runSeq c .init evs = l at h he hr
  dsimp only
  obtain ⟨_, b⟩ := exec_sinv h (.delete key stop needPrev) hr he
  obtain ⟨le, i, he', h'⟩ := b o rfl
  obtain ⟨L, hL, hdel⟩ := toDelete_all (c := c) h.inv.ok key stop needPrev
  refine ⟨L.map (·.1), ?_, ?_, ?_⟩
  · rw [List.pairwise_map]; exact hL.asc
  · intro k
    rw [look_eq h.inv.ok]
    constructor
    · intro hk
      obtain ⟨e, he, rfl⟩ := List.mem_map.1 hk
      have := (hL.mem e.1 e.2).1 he
      exact ⟨this.1.1, this.1.2, by rw [this.2]; rfl⟩
    · rintro ⟨a, b, d⟩
      cases hk : S.map k with
      | none => rw [hk] at d; cases d
      | some x => exact List.mem_map.2 ⟨(k, x), (hL.mem k x).2 ⟨⟨a, b⟩, hk⟩, rfl⟩
  · intro hlen
    rw [List.length_map] at hlen
    have hd := hdel hlen
    have he2 : deleteEval c l key stop needPrev = (le, some (i, o)) := he'
    unfold deleteEval at he2
    split at he2
    · cases he2
    · simp only [hd, Prod.mk.injEq, Option.some.injEq] at he2
      obtain ⟨hle, rfl, rfl⟩ := he2
      have hmap : ((L.map (answer !needPrev)).map fun kv => Op.delete kv.key) = (L.map (·.1)).map .delete := by
        simp [answer, Function.comp_def]
      rw [hmap] at h'
      obtain ⟨hm, hl⟩ := delete_inc S (L.map (·.1))
      refine ⟨fun k => ?_, fun i => ?_, ?_⟩
      · rw [look_eq h'.inv.ok, look_eq h.inv.ok, hm]
        split <;> rfl
      · rw [h'.inv.ok.leases, h.inv.ok.leases, hl]
      · simp only [List.length_map, Out.delete.injEq, true_and]
        cases needPrev with
        | false => rfl
        | true =>
          simp only [if_true, Bool.not_true, List.filterMap_map]
          have hsub : ∀ e ∈ L, S.map e.1 = some e.2 := fun e he => ((hL.mem e.1 e.2).1 he).2
          have key : ∀ L : List (Bytes × Item), (∀ e ∈ L, S.map e.1 = some e.2) →
              L.map (answer false) = L.filterMap (look c l.node ∘ fun x => x.1) := by
            intro L
            induction L with
            | nil => exact fun _ => rfl
            | cons e L ih =>
              intro hsub
              rw [List.map_cons, List.filterMap_cons, ih fun x hx => hsub x (List.mem_cons_of_mem _ hx)]
              simp only [Function.comp_apply, look_eq h.inv.ok, hsub e (List.mem_cons_self ..), Option.map_some]
          exact key L hsub

/-- **`ignore_value` empties the key.**  A put asked to keep the value of an existing key succeeds and
leaves an empty value. -/
theorem C60_ignore_value_false :
    ∃ evs, let l := runSeq exCfg .init evs
      let r := l.exec exCfg (.put 0 [97] [] 0 false true false)
      look exCfg l.node [97] = some ⟨[97], [1], 10001, 10001, 1, 0⟩ ∧ r.2 = some (.put none) ∧
      look exCfg r.1.node [97] = some ⟨[97], [], 10001, 10002, 2, 0⟩ :=
  ⟨[.req (.put 0 [97] [1] 0 false false false)], by refine ⟨?_, ?_, ?_⟩ <;> decide +kernel⟩

/-- **The previous value is that of the evaluation.**  Of two puts evaluated before either is applied
both say the key did not exist. -/
theorem C60_prev_false :
    ∃ evs r, let l := runEvs exCfg .init evs
      (look exCfg l.commit.node [97]).isSome = true ∧ (l.eval exCfg r).2.map (·.2) = some (.put none) ∧
      r = .put 0 [97] [2] 0 true false false ∧ evs.length = 1 ∧ l.pending.length = 1 :=
  ⟨[.req (.put 0 [97] [1] 0 true false false)], _, by
    refine ⟨?_, ?_, rfl, ?_, ?_⟩ <;> decide +kernel⟩

/-! ### C61: how long a lease lives -/

/-- **C61, grant.**  A lease is granted only under an id that no lease has, with the time to live asked
for, brought between the limits; nothing else changes. -/
theorem C61_grant (c : Cfg) (evs : List SEv) (hf : SFines c .init evs) (now id ttl : Int) (l' : Leader) (o : Out)
    (he : (runSeq c .init evs).exec c (.grant now id ttl) = (l', some o)) :
    let l := runSeq c .init evs
    ∃ g t, o = .grant g t ∧ t = (if c.maxTtl < ttl then c.maxTtl else max ttl c.minTtl) ∧ (id ≠ 0 → g = id) ∧
      l.node.leases.get g = none ∧
      (∀ i, l'.node.leases.get i = if i = g then some ⟨t, now, now⟩ else l.node.leases.get i) ∧
      (∀ k, look c l'.node k = look c l.node k) := by
  obtain ⟨S, h⟩ := runSeq_sinv evs init_sinv hf
  generalize runSeq c .init evs = l at h he
  dsimp only
  obtain ⟨_, b⟩ := exec_sinv h (.grant now id ttl) trivial he
  obtain ⟨le, i, he', h'⟩ := b o rfl
  have he2 : grantEval c l now id ttl = (le, some (i, o)) := he'
  unfold grantEval at he2
  split at he2
  · cases he2
  · simp only at he2
    generalize hl1 : (if id = 0 then { l with node := { l.node with memLease := some (nextId l.node.memLease) } } else l) = l1 at he2
    have hsame : l1.node.leases = l.node.leases := by rw [← hl1]; split <;> rfl
    generalize (if id = 0 then [l1.node.memLease.getD 0] else []) = ids at he2
    generalize hg : (if id = 0 then l1.node.memLease.getD 0 else id) = g at he2
    split at he2
    · cases he2
    · next hn =>
      simp only [Prod.mk.injEq, Option.some.injEq] at he2
      obtain ⟨_, rfl, rfl⟩ := he2
      refine ⟨g, _, rfl, ?_, ?_, ?_, ?_, ?_⟩
      · split
        · rfl
        · split <;> omega
      · intro h0; rw [← hg, if_neg h0]
      · rw [hsame] at hn
        cases hx : l.node.leases.get g with
        | none => rfl
        | some _ => rw [hx] at hn; exact absurd rfl hn
      · intro i
        rw [h'.inv.ok.leases, h.inv.ok.leases, (lease_put_inc S g _ ids).2]
      · intro k
        rw [look_eq h'.inv.ok, look_eq h.inv.ok, (lease_put_inc S g _ ids).1]

/-- **C61, acceptance.**  A grant under an id that no lease has, for a positive time, is accepted. -/
theorem C61_grant_accepts (c : Cfg) (l : Leader) (now id ttl : Int) (hin : l.inited = true) (h0 : 0 < id) (ht : 0 < ttl) :
    (l.exec c (.grant now id ttl)).2.isSome = true ↔ l.node.leases.get id = none := by
  have hne : id ≠ 0 := by omega
  have hev : (l.exec c (.grant now id ttl)).2.isSome = (grantEval c l now id ttl).2.isSome := by
    have e : l.eval c (.grant now id ttl) = grantEval c l now id ttl := rfl
    unfold Leader.exec
    rw [e]
    rcases grantEval c l now id ttl with ⟨a, _ | ⟨b, d⟩⟩ <;> rfl
  rw [hev]
  unfold grantEval
  rw [if_neg (by rw [hin]; simp; omega)]
  simp only [if_neg hne]
  cases hl : l.node.leases.get id <;> simp

/-- **C61, renewal.**  A renewal is accepted for a lease that exists, and only for such, answers its
time to live, starts its time again and changes nothing else. -/
theorem C61_renew (c : Cfg) (evs : List SEv) (hf : SFines c .init evs) (now id : Int) (h0 : id ≠ 0)
    (hin : (runSeq c .init evs).inited = true) (l' : Leader) (o : Option Out)
    (he : (runSeq c .init evs).exec c (.renew now id) = (l', o)) :
    let l := runSeq c .init evs
    match l.node.leases.get id with
    | none => o = none
    | some x => o = some (.renew x.ttl) ∧
      (∀ i, l'.node.leases.get i = if i = id then some { x with renewed := now } else l.node.leases.get i) ∧
      (∀ k, look c l'.node k = look c l.node k) := by
  obtain ⟨S, h⟩ := runSeq_sinv evs init_sinv hf
  generalize runSeq c .init evs = l at h he hin
  dsimp only
  have hx := h.exact' hin
  have hev : l.eval c (.renew now id) = renewEval l now id := rfl
  have hr : renewEval l now id = match l.held.get id with
      | none => (l, none)
      | some h =>
        let l := { l with held := l.held.put id ⟨{ h.lease with renewed := now }, h.keys⟩ }
        match l.node.leases.get id with
        | none => (l, none)
        | some x => (l, some (⟨[.put id { x with renewed := now }], [], []⟩, .renew x.ttl)) := by
    unfold renewEval
    rw [if_neg (by rintro (e | e); exact h0 e; rw [hin] at e; cases e)]
    rfl
  obtain ⟨_, b⟩ := exec_sinv h (.renew now id) trivial he
  cases hs : l.node.leases.get id with
  | none =>
    have : l.held.get id = none := by
      have := (h.tracks hin).dom id
      rw [← h.inv.ok.leases, hs] at this
      cases hh : l.held.get id with
      | none => rfl
      | some _ => rw [hh] at this; cases this
    rw [this] at hr
    unfold Leader.exec at he
    rw [hev, hr] at he
    cases he
    rfl
  | some x =>
    have : ∃ hh, l.held.get id = some hh := by
      have := (h.tracks hin).dom id
      rw [← h.inv.ok.leases, hs] at this
      exact Option.isSome_iff_exists.1 this
    obtain ⟨hh, hg⟩ := this
    rw [hg] at hr
    simp only [hs] at hr
    have ho : o = some (.renew x.ttl) := by
      unfold Leader.exec at he
      rw [hev, hr] at he
      cases he
      rfl
    subst ho
    obtain ⟨le, i, he', h'⟩ := b _ rfl
    rw [hev, hr] at he'
    simp only [Prod.mk.injEq, Option.some.injEq] at he'
    obtain ⟨_, rfl, _⟩ := he'
    refine ⟨rfl, fun i => ?_, fun k => ?_⟩
    · rw [h'.inv.ok.leases, h.inv.ok.leases, (lease_put_inc S id _ []).2]
    · rw [look_eq h'.inv.ok, look_eq h.inv.ok, (lease_put_inc S id _ []).1]

example : ((runSeq exCfg .init exSeq).exec exCfg (.grant 3 0 5)).2.isSome = true ∧
    ((runSeq exCfg .init exSeq).exec exCfg (.grant 3 7 5)).2 = none ∧
    ((runSeq exCfg .init exSeq).exec exCfg (.renew 9 7)).2 = some (.renew 10) ∧
    ((runSeq exCfg .init exSeq).exec exCfg (.renew 9 8)).2 = none ∧
    (runSeq exCfg .init exSeq).inited = true := by
  refine ⟨?_, ?_, ?_, ?_, ?_⟩ <;> decide +kernel

/-- The clocks as far as lease `id`, renewed at `t` for `ttl`, is concerned: no revocation, the task
runs only until `t + ttl`, no renewal before `t`. -/
def Within (id t ttl : Int) : SEv → Prop
  | .req (.revoke i) => i ≠ id
  | .req (.task now) => now ≤ ttl + t
  | .req (.renew now i) => i = id → t ≤ now
  | _ => True

/-- **C61, life.**  Once granted or renewed, a lease exists as long as it is not revoked and its time
has not run out on the clock of the leader: whatever requests are executed, one at a time, and
however the leaders change. -/
theorem C61_life_partial (c : Cfg) (evs evs' : List SEv) (hf : SFines c .init (evs ++ evs')) (id : Int) (x : Lease)
    (hx : (runSeq c .init evs).node.leases.get id = some x) (hw : ∀ e ∈ evs', Within id x.renewed x.ttl e) :
    ∃ y, (runSeq c .init (evs ++ evs')).node.leases.get id = some y ∧ y.ttl = x.ttl ∧ x.renewed ≤ y.renewed := by
  obtain ⟨hf1, hf2⟩ := SFines_append hf
  obtain ⟨S, h⟩ := runSeq_sinv evs init_sinv hf1
  rw [runSeq, List.foldl_append]
  change ∃ y, (runSeq c (runSeq c .init evs) evs').node.leases.get id = some y ∧ _
  generalize runSeq c .init evs = l at h hf2 hx
  have key : ∀ (evs : List SEv) (l : Leader) (S : Spec) (y : Lease), SInv l S → SFines c l evs →
      (∀ e ∈ evs, Within id x.renewed x.ttl e) → S.leases id = some y → y.ttl = x.ttl → x.renewed ≤ y.renewed →
      ∃ y, (runSeq c l evs).node.leases.get id = some y ∧ y.ttl = x.ttl ∧ x.renewed ≤ y.renewed := by
    intro evs
    induction evs with
    | nil => exact fun l S y h _ _ h1 h2 h3 => ⟨y, by rw [← h1]; exact h.inv.ok.leases id, h2, h3⟩
    | cons e evs ih =>
      intro l S y h hf hw h1 h2 h3
      have hw' := fun e he => hw e (List.mem_cons_of_mem _ he)
      have hwe := hw e (List.mem_cons_self ..)
      cases e with
      | elect held m =>
        exact ih (l.sstep c (.elect held m)) S y (elect_sinv h held m) hf hw' h1 h2 h3
      | req r =>
        rcases hr : l.exec c r with ⟨l', o⟩
        have hl : l.sstep c (.req r) = l' := by simp only [Leader.sstep, hr]
        obtain ⟨a, b⟩ := exec_sinv h r hf.1 hr
        have hf2 := hf.2
        simp only [runSeq, List.foldl_cons]
        rw [hl] at hf2 ⊢
        cases o with
        | none => exact ih l' S y (a rfl) hf2 hw' h1 h2 h3
        | some out =>
          obtain ⟨le, i, he', h'⟩ := b out rfl
          obtain ⟨z, z1, z2, z3⟩ := lease_life h r hf.1 he' h1 (t := x.renewed) (ttl := x.ttl)
            (by revert hwe; cases r <;> exact fun h => h) h2 h3
          exact ih l' _ z h' hf2 hw' z1 z2 z3
  exact key evs' l S x h hf2 hw (by rw [← h.inv.ok.leases]; exact hx) rfl (Int.le_refl _)

example : (runSeq exCfg .init (exSeq.take 2)).node.leases.get 7 = some ⟨10, 0, 0⟩ ∧
    (∀ e ∈ exSeq.drop 2, Within 7 0 10 e) ∧ exSeq.take 2 ++ exSeq.drop 2 = exSeq := by
  refine ⟨by decide +kernel, ?_, List.take_append_drop ..⟩
  intro e he
  simp only [exSeq, List.drop, List.mem_cons, List.not_mem_nil, or_false] at he
  rcases he with rfl | rfl | rfl | rfl | rfl | rfl
  all_goals first | trivial | (simp [Within])

end Verif.CoorKv
