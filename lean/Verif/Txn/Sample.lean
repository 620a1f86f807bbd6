import Verif.Txn.Outcome
import Verif.Txn.GcRun

/-!
# Transaction engine: checking concrete histories

A decision procedure for the discipline of a concrete history, used only by the
`example`s that show the hypotheses of the property theorems are met.
-/

namespace Verif.Txn
open Verif.Codec

/-- Decidable timestamp roles (the same on every key). -/
structure Roles where
  start : Int → Bool
  owner : Int → Int

/-- The roles as a specification. -/
def Roles.spec (R : Roles) : Bytes → TsOwner := fun _ => ⟨fun t => R.start t = true, R.owner⟩

def noCommitB (st : State) (k : Bytes) (s : Int) : Bool :=
  st.write.l.all (fun e => !(e.1.key == k && e.2.startTs == s && (e.2.op == .put || e.2.op == .delete)))

def Roles.commitOfB (R : Roles) (s c : Int) : Bool := !R.start c && R.owner c == s

def lockAllB (st : State) (k : Bytes) (f : LockInfo → Bool) : Bool :=
  st.lock.l.all (fun e => !(e.1 == k) || f e.2)

/-- Sound check of `Req.Disc`. -/
def discB (R : Roles) (st : State) : Req → Bool
  | .get .. | .pessimisticRollback .. | .heartBeat .. => true
  | .pessimisticLock q => q.mutations.all fun m => R.start q.startTs && noCommitB st m.key q.startTs &&
      lockAllB st m.key (fun l => !(l.lockTs == q.startTs) || l.type == .lock)
  | .prewrite q => q.mutations.all fun m => R.start q.startTs &&
      (!m.pess || noCommitB st m.key q.startTs) &&
      (match (step st (.prewrite q)).2 with
        | .prewrite (.ok resp) => !decide (0 < resp.onePcTs) || R.commitOfB q.startTs resp.onePcTs
        | _ => true)
  | .commit s c keys => keys.all fun k => lockAllB st k (fun l => !(l.lockTs == s) || R.commitOfB s c)
  | .resolveLock s c keys => !decide (0 < c) || keys.all fun k => lockAllB st k (fun l => !(l.lockTs == s) || R.commitOfB s c)
  | .batchResolve infos => infos.all fun i => !decide (0 < i.2) ||
      st.lock.l.all (fun e => !(e.2.lockTs == i.1) || R.commitOfB i.1 i.2)
  | .batchRollback s keys => keys.all fun _ => R.start s
  | .checkTxnStatus q => R.start q.lockTs
  | .checkSecondary s keys => keys.all fun _ => R.start s

instance Req.decValid (r : Req) : Decidable r.Valid := by
  cases r <;> simp only [Req.Valid] <;> infer_instance

/-- Sound check of `Disciplined`. -/
def disciplinedB (R : Roles) : State → List Req → Bool
  | _, [] => true
  | st, r :: rs => decide r.Valid && discB R st r && disciplinedB R (step st r).1 rs

theorem noCommitB_sound {st : State} {k : Bytes} {s : Int} (h : noCommitB st k s = true) :
    ∀ c, ¬ CommittedOn st k s c := by
  rintro c ⟨w, h1, h2, h3⟩
  have := List.all_eq_true.1 h _ h1
  simp only [beq_self_eq_true, Bool.true_and, Bool.not_eq_true', Bool.and_eq_false_iff, beq_eq_false_iff_ne,
    ne_eq, Bool.or_eq_false_iff] at this
  rcases this with h | h
  · exact h h2
  · rcases h3 with h' | h'
    · exact h.1 h'
    · exact h.2 h'

theorem lockAllB_sound {st : State} {k : Bytes} {f : LockInfo → Bool} (h : lockAllB st k f = true) :
    ∀ l, LockOn st k l → f l = true := by
  intro l hl
  have := List.all_eq_true.1 h _ hl
  simpa using this

theorem commitOfB_sound {R : Roles} {k : Bytes} {s c : Int} (h : R.commitOfB s c = true) :
    (R.spec k).commitOf s c := by
  simp only [Roles.commitOfB, Bool.and_eq_true, Bool.not_eq_true', beq_iff_eq] at h
  exact ⟨by simp [Roles.spec, h.1], h.2⟩

theorem discB_sound {R : Roles} {st : State} {r : Req} (h : discB R st r = true) : r.Disc R.spec st := by
  cases r with
  | get => trivial
  | pessimisticRollback => trivial
  | heartBeat => trivial
  | pessimisticLock q =>
    intro m hm
    have := List.all_eq_true.1 h m hm
    simp only [Bool.and_eq_true] at this
    obtain ⟨⟨h1, h2⟩, h3⟩ := this
    refine ⟨h1, fun _ => noCommitB_sound h2, fun l hl hs => ?_⟩
    have := lockAllB_sound h3 l hl
    simpa [hs] using this
  | prewrite q =>
    intro m hm
    have := List.all_eq_true.1 h m hm
    simp only [Bool.and_eq_true] at this
    obtain ⟨⟨h1, h2⟩, h3⟩ := this
    refine ⟨h1, fun hp _ => ?_, fun resp hr hpos => ?_⟩
    · rw [hp] at h2; exact noCommitB_sound h2
    · rw [hr] at h3
      simp only [hpos, decide_true, Bool.not_true, Bool.false_or] at h3
      exact commitOfB_sound h3
  | commit s c keys =>
    intro k hk l hl hs
    have := lockAllB_sound (List.all_eq_true.1 h k hk) l hl
    exact commitOfB_sound (by simpa [hs] using this)
  | resolveLock s c keys =>
    intro hc k hk l hl hs
    simp only [discB, hc, decide_true, Bool.not_true, Bool.false_or] at h
    have := lockAllB_sound (List.all_eq_true.1 h k hk) l hl
    exact commitOfB_sound (by simpa [hs] using this)
  | batchResolve infos =>
    intro i hi hc k l hl hs
    have := List.all_eq_true.1 h i hi
    simp only [hc, decide_true, Bool.not_true, Bool.false_or] at this
    have := List.all_eq_true.1 this _ hl
    exact commitOfB_sound (by simpa [hs] using this)
  | batchRollback s keys => intro k hk; exact List.all_eq_true.1 h k hk
  | checkTxnStatus q => exact h
  | checkSecondary s keys => intro k hk; exact List.all_eq_true.1 h k hk

theorem disciplinedB_sound {R : Roles} {st : State} {rs : List Req} (h : disciplinedB R st rs = true) :
    Disciplined R.spec st rs := by
  induction rs generalizing st with
  | nil => trivial
  | cons r rs ih =>
    simp only [disciplinedB, Bool.and_eq_true, decide_eq_true_eq] at h
    exact ⟨h.1.1, discB_sound h.1.2, ih h.2⟩

theorem reachable_of {R : Roles} {rs : List Req} (h : disciplinedB R State.init rs = true) :
    Reachable R.spec (run State.init rs) := ⟨rs, disciplinedB_sound h, rfl⟩

instance (st : State) (k : Bytes) (l : LockInfo) : Decidable (LockOn st k l) :=
  inferInstanceAs (Decidable (_ ∈ _))

/-! ## A sample history -/

/-- Timestamps used below: multiples of ten start transactions, `10 n + 5` commits
the transaction started at `10 n`, `10 n + 1` is its one-phase commit timestamp. -/
def sampleRoles : Roles := ⟨fun t => t % 10 == 0, fun t => t / 10 * 10⟩

def kA : Bytes := [1]
def kB : Bytes := [1, 0]
def vA : Bytes := [7]
/-- A value too long to be stored inline. -/
def vLong : Bytes := List.replicate 300 9

/-- Transaction 10 writes `kA` and `kB` and commits at 15; transaction 20 is
rolled back on `kA`; transaction 30 deletes `kA` with a one-phase commit at 31;
transaction 40 locks `kB` pessimistically and prewrites it. -/
def sampleHist : List Req :=
  [.prewrite { mutations := [{ op := .put, key := kA, value := vA }, { op := .put, key := kB, value := vLong }],
               primary := kA, startTs := 10, ttl := 100 },
   .get .si 5 [] [kA, kB],
   .commit 10 15 [kA, kB],
   .prewrite { mutations := [{ op := .put, key := kA, value := [8] }], primary := kA, startTs := 20, ttl := 100 },
   .batchRollback 20 [kA],
   .get .si 30 [] [kA, kB],
   .prewrite { mutations := [{ op := .delete, key := kA }], primary := kA, startTs := 30, ttl := 100, tryOnePc := true },
   .pessimisticLock { mutations := [⟨.lock, kB, []⟩], primary := kB, startTs := 40, ttl := 100, forUpdateTs := 40,
                      returnValues := true },
   .prewrite { mutations := [{ op := .put, key := kB, value := [3], pess := true, fuCheck := some 40 }],
               primary := kB, startTs := 40, ttl := 100 }]

/-- The state after `sampleHist`. -/
def sampleState : State := run State.init sampleHist

set_option maxRecDepth 20000 in
theorem sample_disciplined : disciplinedB sampleRoles State.init sampleHist = true := by decide +kernel

theorem sample_reachable : Reachable sampleRoles.spec sampleState := reachable_of sample_disciplined

theorem sample_gc : GcReachable sampleRoles.spec sampleState := sample_reachable.gc

end Verif.Txn
