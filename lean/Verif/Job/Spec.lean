import Verif.Job.Model

/-!
# Jobs of the coordinator (specification)

What can be seen of the jobs from outside: which jobs were asked for, what the coordinator knew of
the cluster when it looked at a job, which commands it sent, and which of them the stores accepted.
-/

namespace Verif.Job

/-- A command was accepted: the store took it, had taken it before, or is doing or has done what it
asks for. -/
inductive Accepts : CmdType → Code → Prop
  | ok (ty : CmdType) : Accepts ty .ok
  | again (ty : CmdType) : Accepts ty .repeated
  | create : Accepts .create .exist
  | deleting : Accepts .delete .deleting
  | deleted : Accepts .delete .notFound
  | split : Accepts .split .splitting
  | merge : Accepts .merge .merging
  | change : Accepts .changePeer .peerChanging

/-- A condition on what the coordinator knows. -/
def Check.Holds (v : View) : Check → Prop
  | .none => True
  | .region c => ∃ r, v.regions c.region = some r ∧
      (∀ st, c.state = some st → r.state = st) ∧
      (c.healthy = true → r.healthy = true) ∧
      (∀ g, c.range = some g → r.range = g) ∧
      (c.peers ≠ [] → r.peers.Perm c.peers) ∧
      c.snapshotLog ≤ r.snapshotLog
  | .store c => (∃ r, v.regions c.region = some r) ∧ ∃ m, v.metric c.store c.region = some m ∧
      (∀ st, c.state = some st → m.state = st) ∧
      (∀ n, c.index = some n → m.hold = true ∧ m.ready = true ∧ (n ≠ 0 → m.version = n))

/-- What happened. -/
inductive Obs where
  /-- this job was asked for (or follows from another) -/
  | made (j : Job)
  /-- the coordinator looked at this step of this job, knowing this -/
  | looked (job step : Nat) (v : View)
  /-- this command was sent -/
  | sent (x : Sent)
  /-- this command was sent, and accepted -/
  | took (x : Sent)
  /-- somebody asked for this job (0: all) to be cleaned -/
  | cleaned (id : Nat)

/-- The answer of a store to a command. -/
def answer (reply : Nat → Bool → Reply) (x : Sent) : Option Res :=
  match reply x.store (decide (x.cmd.type = .create)) with
  | .none => .none
  | some f => f x.cmd

/-- The jobs an entry makes. -/
def creates : List Inc → List Job
  | [] => []
  | .create j :: is => j :: creates is
  | _ :: is => creates is

/-- What an event shows. -/
inductive Shows (cap : Nat) (s : State) : Ev → Obs → Prop
  | request {v q j} : j ∈ creates (s.prepare cap (.request v q)) → Shows cap s (.request v q) (.made j)
  | follow {v order reply j} : j ∈ creates (s.prepare cap (.pass v order reply)) →
      Shows cap s (.pass v order reply) (.made j)
  | looked {v order reply j} : j ∈ s.jobs.jobs → j.id ∈ order →
      Shows cap s (.pass v order reply) (.looked j.id j.next v)
  | sent {v order reply x} : x ∈ s.sends cap (.pass v order reply) → Shows cap s (.pass v order reply) (.sent x)
  | took {v order reply x c} : x ∈ s.sends cap (.pass v order reply) → answer reply x = some (.code c) →
      Accepts x.cmd.type c → Shows cap s (.pass v order reply) (.took x)
  | cleaned {id} : Shows cap s (.clean id) (.cleaned id)

/-- What may be assumed of an event: a store only reports the failure of a command it was sent, and
only answers that it is not the leader to commands for leaders. -/
def Fair (h : Obs → Prop) : Ev → Prop
  | .report job cmd => ∃ x, h (.sent x) ∧ x.job = job ∧ x.cmd.id = cmd
  | .pass _ _ reply => ∀ st b f c n, reply st b = some f → f c = some (.notLeader n) → c.type.leader = true
  | _ => True

/-- A coordinator without jobs. -/
def State.empty : State := ⟨⟨[], []⟩, 1, []⟩

/-- A state that events lead to, and what was seen until then. -/
inductive Run (cap : Nat) : State → (Obs → Prop) → Prop
  | start : Run cap .empty (fun _ => False)
  | step {s s' h e} : Run cap s h → Fair h e → s.step cap e = some s' →
      Run cap s' (fun o => h o ∨ Shows cap s e o)

/-- The command as it was first made. -/
def Cmd.plain (c : Cmd) : Cmd := { c with retry := false }

/-- A command that was sent is this one of this operation: sent to its store, unless it is one for
the leader of a region, who may be another by now. -/
def For (x : Sent) (o : Op) (c : Cmd) : Prop :=
  x.cmd.plain = c.plain ∧ (c.type.leader = false → x.store = o.store)

/-- Step `m` of a job is done: at some time the coordinator looked at it when all its conditions
held, and all its commands were accepted. -/
def Done (h : Obs → Prop) (j : Job) (m : Nat) : Prop :=
  ∃ t, j.tasks[m]? = some t ∧
    (∃ v, h (.looked j.id m v) ∧ ∀ o ∈ t.ops, o.check.Holds v) ∧
    ∀ o ∈ t.ops, ∀ c ∈ o.cmds, ∃ x, h (.took x) ∧ x.job = j.id ∧ x.step = m ∧ For x o c

end Verif.Job
