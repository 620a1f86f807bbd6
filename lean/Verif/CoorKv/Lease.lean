import Verif.CoorKv.Model

/-!
# Requests to the coordinator's key-value store (model of the leader)

How the leader turns a request into a log entry: `KvPut` and `KvDeleteRange`
(`kv_control_kv.cc:348-563`), the leases (`kv_control_lease.cc`) and the checks of
`server/version_service.cc`.  Each request is evaluated in one step; its entry joins the queue
`pending` at once or, if other requests come in between, later.  Entries are applied one by one,
in the order of the queue.  Left out: the limits on
the number of keys and leases, locks inside one evaluation, an entry that fails without a
change of leader.
-/

namespace Verif.CoorKv
attribute [-instance] Verif.Txn.instDecidableLt_verif Verif.Txn.KeyOrder.toLT
open Verif.Codec (Bytes)
open Verif.Txn (CF KeyOrder)

/-- `FLAGS_max_kv_key_size`, `FLAGS_max_kv_value_size`, `FLAGS_version_lease_min_ttl_seconds`,
`FLAGS_version_lease_max_ttl_seconds`. -/
structure Cfg where
  maxKey : Nat
  maxValue : Nat
  minTtl : Int
  maxTtl : Int

/-- `KvLeaseWithKeys`: a lease and the set of its keys. -/
structure Held where
  lease : Lease
  keys : CF Bytes Unit

/-- The leader.  `held` is `lease_to_key_map_`, `inited` is `IsLeaseToKeyMapInited`
(`kv_control_lease.cc:266-269`), `index` the last log index given out, `flight` the entries of
requests that are evaluated and not yet handed to raft. -/
structure Leader where
  node : Node
  held : CF Int Held
  inited : Bool
  term : Int
  index : Int
  pending : List Inc
  flight : List Inc := []

/-- A request, with the leader's clock in seconds where it is read. -/
inductive Req where
  | put (now : Int) (key value : Bytes) (lease : Int) (needPrev ignoreValue ignoreLease : Bool)
  | delete (key stop : Bytes) (needPrev : Bool)
  | grant (now id ttl : Int)
  | renew (now id : Int)
  | revoke (id : Int)
  /-- `LeaseTask`, run from time to time by the leader itself. -/
  | task (now : Int)
  | compact (keys : List (Bytes × Int))

/-- What a request is answered with once its entry is applied. -/
inductive Out where
  | put (prev : Option Kv)
  | delete (count : Nat) (prev : List Kv)
  | grant (id ttl : Int)
  | renew (ttl : Int)
  | done
  deriving DecidableEq

/-- `LeaseAddKeys` of one key, `kv_control_lease.cc:467-493`. -/
def addKey (held : CF Int Held) (id : Int) (k : Bytes) : Option (CF Int Held) :=
  match held.get id with
  | none => none
  | some h => some (held.put id ⟨h.lease, h.keys.put k ()⟩)

/-- One round of `LeaseRemoveMultiLeaseKeys`, `kv_control_lease.cc:528-553`. -/
def removeKey (held : CF Int Held) (id : Int) (k : Bytes) : CF Int Held :=
  match held.get id with
  | none => held
  | some h => held.put id ⟨h.lease, h.keys.del k⟩

/-- `LeaseQuery`, `kv_control_lease.cc:233-264`, as far as its status goes. -/
def Leader.alive (l : Leader) (now id : Int) : Bool :=
  l.inited && match l.held.get id with
    | none => false
    | some h => decide (0 < h.lease.ttl - (now - h.lease.renewed))

/-- `KvRange` of one key. -/
def look (c : Cfg) (s : Node) (k : Bytes) : Option Kv := (kvRange c.maxKey s k [] 1 false false).kvs.head?

/-- The lease a put is made under, or `none` if it is refused, `kv_control_kv.cc:389-429`. -/
def putLease (c : Cfg) (l : Leader) (now : Int) (key : Bytes) (lease : Int) (ignoreLease : Bool) : Option Int :=
  if ¬ ignoreLease ∧ lease ≠ 0 ∧ l.alive now lease = false then none
  else
    match look c l.node key with
    | none => if ignoreLease then none else some lease
    | some kv => if ignoreLease then some kv.lease else if kv.lease = lease then some lease else none

/-- `KvPut`, `kv_control_kv.cc:348-483`.  The entry never says to keep the old value:
`ignore_value` is set only where it is false (lines 474-477). -/
def putEval (c : Cfg) (l : Leader) (now : Int) (key value : Bytes) (lease : Int)
    (needPrev ignoreValue ignoreLease : Bool) : Leader × Option (Inc × Out) :=
  if key = [] ∨ c.maxKey < key.length ∨ (¬ ignoreValue ∧ value = []) ∨ (¬ ignoreValue ∧ c.maxValue < value.length) then
    (l, none)
  else
    match putLease c l now key lease ignoreLease with
    | none => (l, none)
    | some id =>
      match if id = 0 then some l.held else addKey l.held id key with
      | none => (l, none)
      | some held =>
        ({ l with held := held },
          some (⟨[], [.put key ignoreLease id false (if ignoreValue then [] else value)], []⟩,
            .put (if needPrev then look c l.node key else none)))

/-- `keys_to_remove_lease`, `kv_control_kv.cc:514-542`: `insert_or_assign` leaves one key for each
lease. -/
def toRemove (kvs : List Kv) : CF Int Bytes :=
  kvs.foldl (fun m kv => if kv.lease = 0 then m else m.put kv.lease kv.key) .empty

/-- The keys to delete, `kv_control_kv.cc:500-512`. -/
def toDelete (c : Cfg) (s : Node) (key stop : Bytes) (needPrev : Bool) : List Kv :=
  (kvRange c.maxKey s key stop (2 ^ 63 - 1) (!needPrev) false).kvs

/-- `KvDeleteRange` for a client, `kv_control_kv.cc:492-563`, `version_service.cc:561-605`. -/
def deleteEval (c : Cfg) (l : Leader) (key stop : Bytes) (needPrev : Bool) : Leader × Option (Inc × Out) :=
  if key = [] then (l, none)
  else
    let kvs := toDelete c l.node key stop needPrev
    ({ l with held := (toRemove kvs).l.foldl (fun h e => removeKey h e.1 e.2) l.held },
      some (⟨[], kvs.map fun kv => .delete kv.key, []⟩, .delete kvs.length (if needPrev then kvs else [])))

/-- `LeaseGrant`, `kv_control_lease.cc:51-118`, `version_service.cc:187-227`. -/
def grantEval (c : Cfg) (l : Leader) (now id ttl : Int) : Leader × Option (Inc × Out) :=
  if ttl ≤ 0 ∨ id < 0 ∨ l.inited = false then (l, none)
  else
    let ttl := if c.maxTtl < ttl then c.maxTtl else if ttl < c.minTtl then c.minTtl else ttl
    let l := if id = 0 then { l with node := { l.node with memLease := some (nextId l.node.memLease) } } else l
    let ids := if id = 0 then [l.node.memLease.getD 0] else []
    let id := if id = 0 then l.node.memLease.getD 0 else id
    if (l.node.leases.get id).isSome then (l, none)
    else
      let lease : Lease := ⟨ttl, now, now⟩
      ({ l with held := if (l.held.get id).isSome then l.held else l.held.put id ⟨lease, .empty⟩ },
        some (⟨[.put id lease], [], ids⟩, .grant id ttl))

/-- `LeaseRenew`, `kv_control_lease.cc:120-161`, `version_service.cc:243-274`. -/
def renewEval (l : Leader) (now id : Int) : Leader × Option (Inc × Out) :=
  if id = 0 ∨ l.inited = false then (l, none)
  else
    match l.held.get id with
    | none => (l, none)
    | some h =>
      let l := { l with held := l.held.put id ⟨{ h.lease with renewed := now }, h.keys⟩ }
      match l.node.leases.get id with
      | none => (l, none)
      | some x => (l, some (⟨[.put id { x with renewed := now }], [], []⟩, .renew x.ttl))

/-- `LeaseRevoke`, `kv_control_lease.cc:163-221`: the map without the lease and the entry. -/
def revoke (c : Cfg) (s : Node) (held : CF Int Held) (id : Int) : Option (CF Int Held × Inc) :=
  match held.get id with
  | none => none
  | some h =>
    if s.leases.get id = none then none
    else some (held.del id,
      ⟨[.erase id], h.keys.l.flatMap fun e => (toDelete c s e.1 [] false).map fun kv => .delete kv.key, []⟩)

/-- `BuildLeaseToKeyMap`, `kv_control_lease.cc:359-465`. -/
def build (s : Node) : CF Int Held :=
  s.index.l.foldl
    (fun m e =>
      match e.2.gens.getLast? with
      | none => m
      | some g =>
        if g.create.isSome then
          let x := s.record e.2.mod
          if x.lease = 0 then m else (addKey m x.lease x.key).getD m
        else m)
    (s.leases.l.foldl (fun m e => m.put e.1 ⟨e.2, .empty⟩) .empty)

/-- The leases `LeaseTask` finds expired, `kv_control_lease.cc:324-337`. -/
def expired (held : CF Int Held) (now : Int) : List Int :=
  (held.l.filter fun e => decide (e.2.lease.ttl + e.2.lease.renewed < now)).map (·.1)

def Inc.append (a b : Inc) : Inc := ⟨a.leases ++ b.leases, a.ops ++ b.ops, a.leaseIds ++ b.leaseIds⟩

/-- Revoking several leases in one entry, `kv_control_lease.cc:339-341`; one that cannot be
revoked is passed over. -/
def revokeAll (c : Cfg) (s : Node) : CF Int Held → List Int → CF Int Held × Inc
  | held, [] => (held, ⟨[], [], []⟩)
  | held, id :: ids =>
    match revoke c s held id with
    | none => revokeAll c s held ids
    | some (held', inc) => ((revokeAll c s held' ids).1, inc.append (revokeAll c s held' ids).2)

/-- What the map is when the revocations of `LeaseTask` start: built if need be. -/
def taskHeld (l : Leader) : CF Int Held := if l.inited then l.held else build l.node

/-- `LeaseTask` of the leader, `kv_control_lease.cc:271-357`. -/
def taskEval (c : Cfg) (l : Leader) (now : Int) : Leader × Option (Inc × Out) :=
  let r := revokeAll c l.node (taskHeld l) (expired (taskHeld l) now)
  ({ l with held := r.1, inited := true }, some (r.2, .done))

/-- Evaluating a request: the leader's memory after it, and the entry it proposes and its
answer unless it is refused. -/
def Leader.eval (c : Cfg) (l : Leader) : Req → Leader × Option (Inc × Out)
  | .put now key value lease needPrev ignoreValue ignoreLease =>
    putEval c l now key value lease needPrev ignoreValue ignoreLease
  | .delete key stop needPrev => deleteEval c l key stop needPrev
  | .grant now id ttl => grantEval c l now id ttl
  | .renew now id => renewEval l now id
  | .revoke id =>
    if id = 0 then (l, none)
    else
      match revoke c l.node l.held id with
      | none => (l, none)
      | some (held, inc) => ({ l with held := held }, some (inc, .done))
  | .task now => taskEval c l now
  | .compact ks => (l, some (⟨[], ks.map fun e => .compact e.1 e.2, []⟩, .done))

/-- Applying the first entry of the queue. -/
def Leader.commit (l : Leader) : Leader :=
  match l.pending with
  | [] => l
  | inc :: rest =>
    { l with node := l.node.apply ⟨l.term, l.index + 1, inc⟩, index := l.index + 1, pending := rest }

def Leader.commits (l : Leader) : Nat → Leader
  | 0 => l
  | n + 1 => l.commit.commits n

inductive LEv where
  /-- A request is evaluated and its entry handed to raft. -/
  | req (r : Req)
  /-- A request is evaluated, and only later … -/
  | eval (r : Req)
  /-- … is its entry (the `n`th such) handed to raft, `server/version_service.cc:516-530`. -/
  | propose (n : Nat)
  | commit
  /-- The leader changes.  The first `n` entries of the queue survive and are applied before the
  new leader serves; its map is whatever an earlier term left there, and so is its counter. -/
  | elect (n : Nat) (held : CF Int Held) (memLease : Option Int)

def Leader.step (c : Cfg) (l : Leader) : LEv → Leader
  | .req r =>
    match l.eval c r with
    | (l', none) => l'
    | (l', some (inc, _)) => { l' with pending := l'.pending ++ [inc] }
  | .eval r =>
    match l.eval c r with
    | (l', none) => l'
    | (l', some (inc, _)) => { l' with flight := l'.flight ++ [inc] }
  | .propose n => { l with pending := l.pending ++ l.flight[n]?.toList, flight := l.flight.eraseIdx n }
  | .commit => l.commit
  | .elect n held memLease =>
    let l' := l.commits n
    { l' with
      node := { l'.node with memLease := memLease }, held := held, inited := false, term := l'.term + 1, pending := [],
      flight := [] }

/-- A new store with its first leader. -/
def Leader.init : Leader :=
  { node := .init, held := .empty, inited := false, term := 1, index := 0, pending := [] }

end Verif.CoorKv
