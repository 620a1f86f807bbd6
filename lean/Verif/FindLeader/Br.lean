/-!
# Requests of backup and restore to coordinators and stores

Models `src/br/interation.h` and `interation.cc`: `SendRequest`, `AllSendRequest` and both
`NextLeader`. Servers are numbers (their addresses). Not modelled: lookup of methods, latencies, the
lengths of sleeps (seconds left are counted as the code counts them), requests at the same time.
-/

namespace Verif.FindLeader.Br

/-- The leader that an answer names: `absent` if its port is 0, `bad` if it cannot be parsed or no
channel to it can be made (`interation.cc` 91-95, 104), otherwise its address. -/
inductive Hint where
  | absent
  | bad
  | to (a : Nat)
deriving DecidableEq, Repr

/-- What becomes of one call. `down`: it failed with code 112, host is down; `failed`: it failed with
another code; `redirect`: `ERAFT_NOTLEADER`, `EREGION_NOT_FOUND` or `ERAFT_NOT_CONSISTENT_READ`. -/
inductive Ans where
  | down
  | failed
  | ok
  | redirect (h : Hint)
  | err
deriving DecidableEq, Repr

/-- `endpoints_` and `leader_index_`. -/
structure St where
  eps : List Nat
  idx : Nat
deriving DecidableEq, Repr

/-- `NextLeader(int)`, `interation.cc` 79-82, of the present index. -/
def next (s : St) : St := { s with idx := (s.idx + 1) % s.eps.length }

/-- `NextLeader(location)`, `interation.cc` 84-107: the index of the address, which is added to the
list if it is not there. -/
def jump (s : St) (a : Nat) : St :=
  match s.eps.findIdx? (· == a) with
  | some i => { s with idx := i }
  | none => { eps := s.eps ++ [a], idx := s.eps.length }

/-- What a request leaves: whether its status is `OK`, whether the error of its response is, the
list of servers, and the calls made. -/
structure Res where
  stat : Bool
  resp : Bool
  st : St
  asked : List (Nat × Ans)
deriving DecidableEq, Repr

/-- Puts a call before those of the rest of the loop. -/
def Res.after (x : Nat × Ans) (t : Res) : Res := { t with asked := x :: t.asked }

/-- The loop of `SendRequest`, `interation.h` 114-241. `R` is `br_server_interaction_max_retry`, `T`
the tick of waiting; `k` numbers the calls, `retry` is `retry_count`, `left` the seconds left of
`region_leader_select_timeout_s`, `stOk` tells whether `status` is still the default one, `resp`
whether the error of `response` is `OK`. `w k a` is what becomes of the `k`-th call if it goes to `a`.
`none`: not over after `fuel` calls, or an index out of range. -/
def loop (w : Nat → Nat → Ans) (R T : Nat) :
    Nat → Nat → Nat → Nat → Bool → Bool → St → Option Res
  | 0, _, _, _, _, _, _ => none
  | fuel + 1, k, retry, left, stOk, resp, s =>
    match s.eps[s.idx]? with
    | none => none
    | some a =>
      match w k a with
      | .down =>
        if retry + 1 < R then
          (loop w R T fuel (k + 1) (retry + 1) left false resp (next s)).map (Res.after (a, .down))
        else some ⟨false, resp, next s, [(a, .down)]⟩
      | .failed => some ⟨false, resp, s, [(a, .failed)]⟩
      | .ok => some ⟨true, true, s, [(a, .ok)]⟩
      | .err => some ⟨false, false, s, [(a, .err)]⟩
      | .redirect .bad =>
        if retry + 1 < R then
          (loop w R T fuel (k + 1) (retry + 1) left stOk false s).map (Res.after (a, .redirect .bad))
        else some ⟨stOk, false, s, [(a, .redirect .bad)]⟩
      | .redirect (.to b) =>
        if retry + 1 < R then
          (loop w R T fuel (k + 1) (retry + 1) left stOk false (jump s b)).map
            (Res.after (a, .redirect (.to b)))
        else some ⟨stOk, false, jump s b, [(a, .redirect (.to b))]⟩
      | .redirect .absent =>
        if left ≤ T then some ⟨stOk, false, next s, [(a, .redirect .absent)]⟩
        else if 0 < R then
          (loop w R T fuel (k + 1) 0 (left - T) stOk false (next s)).map
            (Res.after (a, .redirect .absent))
        else some ⟨stOk, false, next s, [(a, .redirect .absent)]⟩

/-- `SendRequest`, `interation.h` 87-242, with `W` seconds to wait for a leader and a fresh response.
The fuel is enough for every run (`C118_ends`). -/
def send (w : Nat → Nat → Ans) (R T W : Nat) (s : St) : Option Res :=
  loop w R T (W * (R + 1) + R + 1) 0 0 W true true s

/-- `AllSendRequest`, `interation.h` 244-257, from the `i`-th request on. Simplified: the response is
fresh for every request (it is the same object in the code and is overwritten). `none`: not over after
`fuel` requests. -/
def sendAll (w : Nat → Nat → Nat → Ans) (R T W : Nat) :
    Nat → Nat → Bool → St → Option Res
  | 0, _, _, _ => none
  | fuel + 1, i, resp, s =>
    if s.eps.length ≤ i then some ⟨true, resp, s, []⟩
    else
      match send (w i) R T W s with
      | none => none
      | some t =>
        if t.stat = false then some t
        else
          (sendAll w R T W fuel (i + 1) t.resp (next t.st)).map fun u =>
            { u with asked := t.asked ++ u.asked }

end Verif.FindLeader.Br
