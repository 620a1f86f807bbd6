/-!
# Requests of a server to the coordinators

Models `src/coordinator/coordinator_interaction.h` and `.cc`: how a store finds the leader of the
coordinators, by a list of addresses or by the name of a service. Servers are numbers. Not modelled:
`GetServiceDescriptor` and the lookup of methods, timeouts as such (they are among the failures of a
call), a null channel in the map (lines 155-161; only channels that are not null are put).
-/

namespace Verif.FindLeader

/-- What becomes of one call. `failed`: `cntl.Failed()`; `ran` tells whether the server carried the
request out before its reply was lost. `notLeader`: `ERAFT_NOTLEADER`, with the address of the leader
if the answer has one that can be parsed (an address that cannot be parsed is `IP_ANY`, which stands
for none, line 137). `err`: any other error. -/
inductive Ans where
  | failed (ran : Bool)
  | ok
  | notLeader (hint : Option Nat)
  | err (code : Nat)
deriving DecidableEq, Repr

/-- The status of a request: `broken` is the error of the call itself (lines 263-267), `internal` is
`EINTERNAL` after the last attempt (lines 233-235, 282-284). -/
inductive Status where
  | ok
  | broken
  | err (code : Nat)
  | internal
deriving DecidableEq, Repr

/-- What a request leaves: its status, what is known of the leader, whether the error of the response
is `OK`, and the calls made with what became of them. -/
structure Res (κ : Type) where
  status : Status
  known : κ
  respOk : Bool
  asked : List (Nat × Ans)
deriving DecidableEq, Repr

/-- `kMaxRetry`, `coordinator_interaction.h` 40. -/
def maxRetry : Nat := 5

/-- `NextLeader`, `coordinator_interaction.cc` 69-72, by a request that saw the index `seen`:
`compare_exchange_weak` changes the index `cur` if it is still `seen`, and may fail without reason
(`spurious`). -/
def nextLeader (n seen : Nat) (spurious : Bool) (cur : Nat) : Nat :=
  if cur = seen ∧ spurious = false then (seen + 1) % n else cur

/-- The loop of `SendRequestByList`, `coordinator_interaction.h` 253-284, with `r` attempts left, the
next one being the `k`-th. `w k s` is what becomes of the `k`-th call if it goes to the server `s`.
Simplified: one request at a time (for many, see `nextLeader`). -/
def byList (n : Nat) (w : Nat → Nat → Ans) (spurious : Nat → Bool) :
    Nat → Nat → Nat → Bool → Res Nat
  | 0, _, idx, respOk => ⟨.internal, idx, respOk, []⟩
  | r + 1, k, idx, respOk =>
    match w k idx with
    | .failed ran => ⟨.broken, idx, respOk, [(idx, .failed ran)]⟩
    | .ok => ⟨.ok, idx, true, [(idx, .ok)]⟩
    | .err e => ⟨.err e, idx, false, [(idx, .err e)]⟩
    | .notLeader h =>
      let t := byList n w spurious r (k + 1) (nextLeader n idx (spurious k) idx) false
      { t with asked := (idx, .notLeader h) :: t.asked }

/-- `SendRequestByList`, lines 238-285, with a fresh response. -/
def sendByList (n : Nat) (w : Nat → Nat → Ans) (spurious : Nat → Bool) (idx : Nat) : Res Nat :=
  byList n w spurious maxRetry 0 idx true

/-- The loop of `SendRequestByService`, lines 125-235, with `r` attempts left. `leader` is
`leader_addr_`, `none` for `IP_ANY`; `initOk k s`: a channel to `s` is in the map or can be made at
the `k`-th attempt (lines 139-154); `pick k`: the server that the channel of the service name takes. -/
def byService (w : Nat → Nat → Ans) (initOk : Nat → Nat → Bool) (pick : Nat → Nat) :
    Nat → Nat → Option Nat → Bool → Res (Option Nat)
  | 0, _, leader, respOk => ⟨.internal, leader, respOk, []⟩
  | r + 1, k, some s, respOk =>
    if initOk k s = false then byService w initOk pick r (k + 1) (some s) respOk
    else
      match w k s with
      | .failed ran =>
        let t := byService w initOk pick r (k + 1) none respOk
        { t with asked := (s, .failed ran) :: t.asked }
      | .ok => ⟨.ok, some s, true, [(s, .ok)]⟩
      | .notLeader h =>
        let t := byService w initOk pick r (k + 1) h true
        { t with asked := (s, .notLeader h) :: t.asked }
      | .err e => ⟨.err e, some s, false, [(s, .err e)]⟩
  | r + 1, k, none, respOk =>
    match w k (pick k) with
    | .failed ran =>
      let t := byService w initOk pick r (k + 1) none respOk
      { t with asked := (pick k, .failed ran) :: t.asked }
    | .notLeader h =>
      let t := byService w initOk pick r (k + 1) h true
      { t with asked := (pick k, .notLeader h) :: t.asked }
    | .ok => ⟨.ok, some (pick k), true, [(pick k, .ok)]⟩
    | .err e => ⟨.err e, some (pick k), false, [(pick k, .err e)]⟩

/-- `SendRequestByService`, lines 109-236, with a fresh response. -/
def sendByService (w : Nat → Nat → Ans) (initOk : Nat → Nat → Bool) (pick : Nat → Nat)
    (leader : Option Nat) : Res (Option Nat) :=
  byService w initOk pick maxRetry 0 leader true

/-- One request after another by the list: request `i` meets the answers `w i`. -/
def runList (n : Nat) (w : Nat → Nat → Nat → Ans) (spurious : Nat → Nat → Bool) :
    Nat → Nat → List (Res Nat)
  | 0, _ => []
  | m + 1, idx =>
    let t := sendByList n (w m) (spurious m) idx
    t :: runList n w spurious m t.known

/-- One request after another by the service name. -/
def runService (w : Nat → Nat → Nat → Ans) (initOk : Nat → Nat → Nat → Bool) (pick : Nat → Nat → Nat) :
    Nat → Option Nat → List (Res (Option Nat))
  | 0, _ => []
  | m + 1, leader =>
    let t := sendByService (w m) (initOk m) (pick m) leader
    t :: runService w initOk pick m t.known

end Verif.FindLeader
