import Verif.Txn.Lemmas

/-!
# Transaction engine: the life of one key

Every request, seen from one key, is one of a few transitions (`KStep`).  This
file defines them and the invariants they preserve; `Steps.lean` proves that the
model's requests only perform these transitions.
-/

namespace Verif.Txn
open Verif.Codec

/-- What the store knows about one key. -/
structure KS where
  lock : Option LockInfo
  write : Int → Option WriteInfo
  data : Int → Option Bytes

/-- The part of the state that belongs to key `k`. -/
def view (st : State) (k : Bytes) : KS :=
  ⟨st.lock.get k, fun t => st.write.get ⟨k, t⟩, fun t => st.data.get ⟨k, t⟩⟩

@[ext] theorem KS.ext {x y : KS} (h1 : x.lock = y.lock) (h2 : ∀ t, x.write t = y.write t)
    (h3 : ∀ t, x.data t = y.data t) : x = y := by
  cases x; cases y
  simp only at h1 h2 h3
  rw [h1, funext h2, funext h3]

/-- The record is a committed put or delete. -/
def WriteInfo.committed (w : WriteInfo) : Prop := w.op = .put ∨ w.op = .delete

instance (w : WriteInfo) : Decidable w.committed := inferInstanceAs (Decidable (_ ∨ _))

/-- Function update. -/
def upd {α : Type} (f : Int → α) (t : Int) (v : α) : Int → α := fun t' => if t' = t then v else f t'

theorem upd_same {α : Type} (f : Int → α) (t : Int) (v : α) : upd f t v t = v := by simp [upd]
theorem upd_ne {α : Type} (f : Int → α) {t t' : Int} (v : α) (h : t' ≠ t) : upd f t v t' = f t' := by
  simp [upd, h]
theorem upd_self {α : Type} (f : Int → α) (t : Int) : upd f t (f t) = f := by
  funext t'; simp only [upd]; split
  · rename_i h; rw [h]
  · rfl

/-- No record of transaction `s`. -/
def KS.noRecord (x : KS) (s : Int) : Prop := ∀ t w, x.write t = some w → w.startTs ≠ s

/-- No rollback record of transaction `s`. -/
def KS.noRollback (x : KS) (s : Int) : Prop :=
  ∀ w, x.write s = some w → ¬ (w.startTs = s ∧ w.op = .rollback)

/-- No commit record of transaction `s`. -/
def KS.noCommit (x : KS) (s : Int) : Prop := ∀ t w, x.write t = some w → w.committed → w.startTs ≠ s

/-- No committed record at or above `s`. -/
def KS.commitsBelow (x : KS) (s : Int) : Prop := ∀ t w, x.write t = some w → w.committed → t < s

/-- No lock, or a lock by transaction `s` taken with `PessimisticLock` when `pess`. -/
def KS.freeFor (x : KS) (s : Int) (pess : Bool) : Prop :=
  x.lock = none ∨ (pess = true ∧ ∃ l, x.lock = some l ∧ l.lockTs = s ∧ l.type = .lock)

/-- A well formed lock of key `k`. -/
structure LockOk (k : Bytes) (l : LockInfo) : Prop where
  key : l.key = k
  primary : l.primary ≠ []
  ts : 0 < l.lockTs ∧ l.lockTs ≤ maxVer
  type : l.type = .put ∨ l.type = .delete ∨ l.type = .lock
  fu0 : 0 ≤ l.forUpdateTs
  fu : l.type = .lock → 0 < l.forUpdateTs
  minTs : l.minCommitTs ≤ maxVer

/-- Names of the transitions. -/
inductive Ev where
  | nop
  | prewrite (s : Int) (pess : Bool)
  | pessLock (s fu : Int)
  | commit (s c : Int) (resolve : Bool)
  | rollback (s : Int)
  | mark (s : Int)
  | onePc (s c : Int) (pess : Bool)
  | update
  | unlock (s : Int)
deriving DecidableEq, Repr

/-- Transitions of one key; `mx` is the region's largest accessed timestamp. -/
inductive KStep (k : Bytes) (mx : Int) : KS → Ev → KS → Prop
  | nop (x) : KStep k mx x .nop x
  | prewrite (x : KS) (s : Int) (pess : Bool) (l : LockInfo) (d : Option Bytes)
      (hfree : x.freeFor s pess) (hrb : x.noRollback s) (hconf : pess = false → x.commitsBelow s)
      (hok : LockOk k l) (hts : l.lockTs = s) (htype : l.type ≠ .lock)
      (hval : l.type = .put → l.shortValue = [] → d.isSome)
      (hfu : (∀ l0, x.lock = some l0 → l.forUpdateTs = l0.forUpdateTs) ∧
        (x.lock = none → l.forUpdateTs = 0))
      (hd : ∀ v, d = some v → v ≠ [])
      (hmc : ∀ l0, x.lock = some l0 → l0.minCommitTs ≤ l.minCommitTs) :
      KStep k mx x (.prewrite s pess)
        ⟨some l, x.write, upd x.data s (d.or (x.data s))⟩
  | pessLock (x : KS) (s fu : Int) (l : LockInfo)
      (hpre : x.lock = none ∧ l.shortValue = [] ∨
        ∃ l0, x.lock = some l0 ∧ l0.lockTs = s ∧ l.shortValue = l0.shortValue ∧ 0 < l0.forUpdateTs ∧
          l0.forUpdateTs < fu ∧ l0.minCommitTs ≤ l.minCommitTs)
      (hfresh : x.lock = none → s ≤ fu → ∀ t w, x.write t = some w → w.committed → t ≤ fu)
      (hok : LockOk k l) (hts : l.lockTs = s) (htype : l.type = .lock) (hfu : l.forUpdateTs = fu) :
      KStep k mx x (.pessLock s fu) ⟨some l, x.write, x.data⟩
  | commit (x : KS) (s c : Int) (resolve : Bool) (l : LockInfo)
      (hlock : x.lock = some l) (hts : l.lockTs = s) (htype : l.type ≠ .lock)
      (hmin : resolve = false → l.minCommitTs ≤ c) (hc : s < c ∧ c ≤ maxVer) :
      KStep k mx x (.commit s c resolve)
        ⟨none, upd x.write c (some { startTs := s, op := l.type, shortValue := l.shortValue }), x.data⟩
  | rollback (x : KS) (s : Int) (l : LockInfo)
      (hlock : x.lock = some l) (hts : l.lockTs = s) :
      KStep k mx x (.rollback s)
        ⟨none, upd x.write s (some (rollbackRec s)),
          if l.shortValue = [] then upd x.data s none else x.data⟩
  | mark (x : KS) (s : Int) (hs : 0 < s ∧ s ≤ maxVer)
      (hlock : ∀ l, x.lock = some l → l.lockTs ≠ s) (hno : x.noRecord s) :
      KStep k mx x (.mark s) ⟨x.lock, upd x.write s (some (rollbackRec s)), x.data⟩
  | onePc (x : KS) (s c : Int) (pess : Bool) (op : Op) (short : Bytes) (d : Option Bytes)
      (hfree : x.freeFor s pess) (hrb : x.noRollback s) (hconf : pess = false → x.commitsBelow s)
      (hop : op = .put ∨ op = .delete) (hval : op = .put → short = [] → d.isSome)
      (hd : ∀ v, d = some v → v ≠ []) (hmc : ∀ l0, x.lock = some l0 → l0.minCommitTs ≤ c)
      (hs : 0 < s) (hc : s < c ∧ mx < c ∧ c ≤ maxVer) :
      KStep k mx x (.onePc s c pess)
        ⟨none, upd x.write c (some { startTs := s, op := op, shortValue := short }),
          upd x.data s (d.or (x.data s))⟩
  | update (x : KS) (l : LockInfo) (ttl mc : Int) (hlock : x.lock = some l)
      (hmc : l.minCommitTs ≤ mc ∧ mc ≤ maxVer) :
      KStep k mx x .update ⟨some { l with ttl := ttl, minCommitTs := mc }, x.write, x.data⟩
  | unlock (x : KS) (s : Int) (l : LockInfo) (hlock : x.lock = some l) (hts : l.lockTs = s)
      (htype : l.type = .lock) :
      KStep k mx x (.unlock s) ⟨none, x.write, x.data⟩

/-- Several transitions in a row. -/
inductive KPath (k : Bytes) (mx : Int) : KS → List Ev → KS → Prop
  | nil (x) : KPath k mx x [] x
  | cons {x y z : KS} {e : Ev} {es : List Ev} (h : KStep k mx x e y) (t : KPath k mx y es z) :
      KPath k mx x (e :: es) z

/-! ## Invariant that holds in every state -/

/-- Well-formedness of one key. -/
structure KInv (k : Bytes) (x : KS) : Prop where
  lock : ∀ l, x.lock = some l → LockOk k l
  write : ∀ t w, x.write t = some w → 0 < t ∧ t ≤ maxVer ∧
    ((w.op = .rollback ∧ w.startTs = t) ∨ (w.committed ∧ 0 < w.startTs ∧ w.startTs < t))
  data : ∀ t v, x.data t = some v → v ≠ []
  rbShort : ∀ t w, x.write t = some w → w.op = .rollback → w.shortValue = []

theorem upd_rbShort {f : Int → Option WriteInfo} {c : Int} {w0 : WriteInfo}
    (hf : ∀ t w, f t = some w → w.op = .rollback → w.shortValue = []) (h0 : w0.op = .rollback → w0.shortValue = []) :
    ∀ t w, upd f c (some w0) t = some w → w.op = .rollback → w.shortValue = [] := by
  intro t w h
  simp only [upd] at h
  split at h
  · cases h; exact h0
  · exact hf t w h

theorem upd_or_ne {f : Int → Option Bytes} {s : Int} {d : Option Bytes} (hf : ∀ t v, f t = some v → v ≠ [])
    (hd : ∀ v, d = some v → v ≠ []) : ∀ t v, upd f s (d.or (f s)) t = some v → v ≠ [] := by
  intro t v h
  simp only [upd] at h
  split at h
  · cases d with
    | none => exact hf s v h
    | some v' => simp only [Option.some_or, Option.some.injEq] at h; subst h; exact hd _ rfl
  · exact hf t v h

theorem KStep.inv {k : Bytes} {mx : Int} {x y : KS} {e : Ev} (h : KStep k mx x e y) (hx : KInv k x) :
    KInv k y := by
  cases h with
  | nop => exact hx
  | prewrite s pess l d hfree hrb hconf hok hts htype hval hfu hd =>
    exact ⟨fun l' hl => by simp only [Option.some.injEq] at hl; exact hl ▸ hok, hx.write, upd_or_ne hx.data hd, hx.rbShort⟩
  | pessLock s fu l hpre hfresh hok hts htype hfu =>
    exact ⟨fun l' hl => by simp only [Option.some.injEq] at hl; exact hl ▸ hok, hx.write, hx.data, hx.rbShort⟩
  | commit s c resolve l hlock hts htype hmin hc =>
    refine ⟨fun l' hl => by simp at hl, ?_, hx.data, upd_rbShort hx.rbShort ?_⟩
    rotate_left
    · intro hh
      rcases (hx.lock l hlock).type with h | h | h <;> simp only at hh <;> rw [h] at hh <;> cases hh
    intro t w hw
    simp only [upd] at hw
    split at hw
    · rename_i ht
      cases hw
      have hok := hx.lock l hlock
      subst ht
      have h1 := hok.ts
      refine ⟨by omega, hc.2, Or.inr ⟨?_, by simp only; omega, hc.1⟩⟩
      rcases hok.type with h | h | h
      · exact Or.inl h
      · exact Or.inr h
      · exact absurd h htype
    · exact hx.write t w hw
  | rollback s l hlock hts =>
    refine ⟨fun l' hl => by simp at hl, ?_, ?_, upd_rbShort hx.rbShort (fun _ => rfl)⟩
    rotate_left
    · intro t v hv
      simp only at hv
      split at hv
      · simp only [upd] at hv
        split at hv
        · cases hv
        · exact hx.data t v hv
      · exact hx.data t v hv
    intro t w hw
    simp only [upd] at hw
    split at hw
    · rename_i ht
      cases hw
      subst ht
      have hok := hx.lock l hlock
      have h1 := hok.ts
      exact ⟨by omega, by omega, Or.inl ⟨rfl, rfl⟩⟩
    · exact hx.write t w hw
  | mark s hs hlock hno =>
    refine ⟨hx.lock, ?_, hx.data, upd_rbShort hx.rbShort (fun _ => rfl)⟩
    intro t w hw
    simp only [upd] at hw
    split at hw
    · rename_i ht
      cases hw
      subst ht
      exact ⟨hs.1, hs.2, Or.inl ⟨rfl, rfl⟩⟩
    · exact hx.write t w hw
  | onePc s c pess op short d hfree hrb hconf hop hval hd hmc hs hc =>
    refine ⟨fun l' hl => by simp at hl, ?_, upd_or_ne hx.data hd, upd_rbShort hx.rbShort ?_⟩
    rotate_left
    · intro hh
      rcases hop with h | h <;> simp only at hh <;> rw [h] at hh <;> cases hh
    intro t w hw
    simp only [upd] at hw
    split at hw
    · rename_i ht
      cases hw
      subst ht
      exact ⟨by omega, hc.2.2, Or.inr ⟨hop, hs, hc.1⟩⟩
    · exact hx.write t w hw
  | update l ttl mc hlock hmc =>
    refine ⟨fun l' hl => ?_, hx.write, hx.data, hx.rbShort⟩
    simp only [Option.some.injEq] at hl
    subst hl
    have := hx.lock l hlock
    exact ⟨this.key, this.primary, this.ts, this.type, this.fu0, this.fu, hmc.2⟩
  | unlock s l hlock hts htype => exact ⟨fun l' hl => by simp at hl, hx.write, hx.data, hx.rbShort⟩

theorem KPath.inv {k : Bytes} {mx : Int} {x y : KS} {es : List Ev} (h : KPath k mx x es y)
    (hx : KInv k x) : KInv k y := by
  induction h with
  | nil => exact hx
  | cons h t ih => exact ih (h.inv hx)

/-! ## Invariant under timestamp and client discipline -/

/-- What the clients must respect for a transition on a key in state `x`.
* Start and commit timestamps used on one key do not coincide, and a commit
  timestamp belongs to one transaction.
* A pessimistic prewrite or lock that finds no lock is not sent for a transaction
  already committed on the key.
* `PessimisticLock` is not sent over a lock the transaction already prewrote. -/
def Ev.Disc (D : TsOwner) (x : KS) : Ev → Prop
  | .nop | .update | .unlock _ | .rollback _ => True
  | .prewrite s pess => D.start s ∧ (pess = true → x.lock = none → x.noCommit s)
  | .pessLock s _ => D.start s ∧ (x.lock = none → x.noCommit s) ∧
      ∀ l, x.lock = some l → l.lockTs = s → l.type = .lock
  | .commit s c _ => D.commitOf s c
  | .mark s => D.start s
  | .onePc s c pess => D.start s ∧ D.commitOf s c ∧ (pess = true → x.lock = none → x.noCommit s)

/-- One outcome per transaction and key, and its value is present. -/
structure DInv (D : TsOwner) (x : KS) : Prop where
  lock : ∀ l, x.lock = some l → D.start l.lockTs ∧ x.noCommit l.lockTs ∧
    (l.type ≠ .lock → x.noRecord l.lockTs)
  lockShort : ∀ l, x.lock = some l → l.type = .lock → l.shortValue = []
  lockData : ∀ l, x.lock = some l → l.type = .put → l.shortValue = [] → (x.data l.lockTs).isSome
  commit : ∀ t w, x.write t = some w → w.op ≠ .rollback → ¬ D.start t ∧ D.owner t = w.startTs
  roll : ∀ t w, x.write t = some w → w.op = .rollback → D.start t
  unique : ∀ t t' w w', x.write t = some w → x.write t' = some w' → w.startTs = w'.startTs → t = t'
  writeData : ∀ t w, x.write t = some w → w.op = .put → w.shortValue = [] → (x.data w.startTs).isSome

theorem noRecord_of {k : Bytes} {x : KS} {s : Int} (hk : KInv k x) (hrb : x.noRollback s)
    (hc : x.commitsBelow s) : x.noRecord s := by
  intro t w hw hs
  obtain ⟨h1, h2, h3⟩ := hk.write t w hw
  rcases h3 with ⟨h3, h4⟩ | ⟨h3, h4, h5⟩
  · have : t = s := by omega
    subst this
    exact hrb w hw ⟨h4, h3⟩
  · have := hc t w hw h3
    omega

theorem noRecord_of_noCommit {k : Bytes} {x : KS} {s : Int} (hk : KInv k x) (hrb : x.noRollback s)
    (hc : x.noCommit s) : x.noRecord s := by
  intro t w hw hs
  obtain ⟨h1, h2, h3⟩ := hk.write t w hw
  rcases h3 with ⟨h3, h4⟩ | ⟨h3, h4, h5⟩
  · have : t = s := by omega
    subst this
    exact hrb w hw ⟨h4, h3⟩
  · exact hc t w hw h3 hs

/-- A record of `s` on a key where `s` is not committed is its rollback record. -/
theorem noCommit_record {k : Bytes} {x : KS} {s : Int} (hk : KInv k x) (hc : x.noCommit s)
    {t : Int} {w : WriteInfo} (hw : x.write t = some w) (hs : w.startTs = s) : t = s ∧ w.op = .rollback := by
  obtain ⟨h1, h2, h3⟩ := hk.write t w hw
  rcases h3 with ⟨h3, h4⟩ | ⟨h3, h4, h5⟩
  · exact ⟨by omega, h3⟩
  · exact absurd hs (hc t w hw h3)

/-- A prewrite or 1PC that passes the store's checks finds no record of its own. -/
theorem noRecord_prewrite {D : TsOwner} {k : Bytes} {x : KS} {s : Int} {pess : Bool} (hk : KInv k x)
    (hx : DInv D x) (hfree : x.freeFor s pess) (hrb : x.noRollback s)
    (hconf : pess = false → x.commitsBelow s) (hp : pess = true → x.lock = none → x.noCommit s) :
    x.noRecord s := by
  cases pess with
  | false => exact noRecord_of hk hrb (hconf rfl)
  | true =>
    rcases hfree with hf | ⟨_, l, hf, hl, _⟩
    · exact noRecord_of_noCommit hk hrb (hp rfl hf)
    · exact noRecord_of_noCommit hk hrb (hl ▸ (hx.lock l hf).2.1)

theorem upd_isSome {f : Int → Option Bytes} {s t : Int} {d : Option Bytes}
    (h : (f t).isSome) : (upd f s (d.or (f s)) t).isSome := by
  simp only [upd]
  split
  · rename_i ht; subst ht; cases d <;> simp [h]
  · exact h

theorem KStep.dinv {D : TsOwner} {k : Bytes} {mx : Int} {x y : KS} {e : Ev} (h : KStep k mx x e y)
    (hk : KInv k x) (hx : DInv D x) (hd : e.Disc D x) : DInv D y := by
  cases h with
  | nop => exact hx
  | prewrite s pess l d hfree hrb hconf hok hts htype hval =>
    obtain ⟨hs, hp⟩ := hd
    have hno : x.noRecord s := noRecord_prewrite hk hx hfree hrb hconf hp
    refine ⟨?_, ?_, ?_, hx.commit, hx.roll, hx.unique, ?_⟩
    · intro l' hl; simp only [Option.some.injEq] at hl; subst hl; rw [hts]; exact ⟨hs, fun t w hw _ => hno t w hw, fun _ => hno⟩
    · intro l' hl ht; simp only [Option.some.injEq] at hl; subst hl; exact absurd ht htype
    · intro l' hl ht hsv
      simp only [Option.some.injEq] at hl; subst hl
      have := hval ht hsv
      simp only [upd, hts]
      cases d with
      | none => simp at this
      | some v => simp
    · intro t w hw h1 h2
      exact upd_isSome (hx.writeData t w hw h1 h2)
  | pessLock s fu l hpre hfresh hok hts htype hfu =>
    obtain ⟨hs, hno0, hown⟩ := hd
    have hno : x.noCommit s := by
      rcases hpre with h | ⟨l0, h0, h1, _⟩
      · exact hno0 h.1
      · rw [← h1]; exact (hx.lock l0 h0).2.1
    refine ⟨?_, ?_, ?_, hx.commit, hx.roll, hx.unique, hx.writeData⟩
    · intro l' hl; simp only [Option.some.injEq] at hl; subst hl; rw [hts]; exact ⟨hs, hno, fun hne => absurd htype hne⟩
    · intro l' hl _
      simp only [Option.some.injEq] at hl; subst hl
      rcases hpre with h | ⟨l0, h0, h1, h2⟩
      · exact h.2
      · rw [h2.1]; exact hx.lockShort l0 h0 (hown l0 h0 h1)
    · intro l' hl ht; simp only [Option.some.injEq] at hl; subst hl; rw [htype] at ht; cases ht
  | commit s c resolve l hlock hts htype hmin hc =>
    obtain ⟨hc1, hc2⟩ := hd
    have hno := (hx.lock l hlock).2.2 htype
    rw [hts] at hno
    have hok := hk.lock l hlock
    have hty : l.type ≠ .rollback := by
      rcases hok.type with h | h | h <;> rw [h] <;> decide
    refine ⟨by simp, by simp, by simp, ?_, ?_, ?_, ?_⟩
    · intro t w hw hop
      simp only [upd] at hw
      split at hw
      · rename_i ht; cases hw; subst ht; exact ⟨hc1, hc2⟩
      · exact hx.commit t w hw hop
    · intro t w hw hop
      simp only [upd] at hw
      split at hw
      · cases hw; exact absurd hop hty
      · exact hx.roll t w hw hop
    · intro t t' w w' hw hw' he
      simp only [upd] at hw hw'
      split at hw
      · rename_i ht
        split at hw'
        · rename_i ht'; rw [ht, ht']
        · cases hw; exact absurd he.symm (hno t' w' hw')
      · split at hw'
        · cases hw'; exact absurd he (hno t w hw)
        · exact hx.unique t t' w w' hw hw' he
    · intro t w hw h1 h2
      simp only [upd] at hw
      split at hw
      · cases hw
        have := hx.lockData l hlock h1 h2
        rw [hts] at this; exact this
      · exact hx.writeData t w hw h1 h2
  | rollback s l hlock hts =>
    have hs : D.start s := by rw [← hts]; exact (hx.lock l hlock).1
    have hno := (hx.lock l hlock).2.1
    rw [hts] at hno
    refine ⟨by simp, by simp, by simp, ?_, ?_, ?_, ?_⟩
    · intro t w hw hop
      simp only [upd] at hw
      split at hw
      · cases hw; exact absurd rfl hop
      · exact hx.commit t w hw hop
    · intro t w hw hop
      simp only [upd] at hw
      split at hw
      · rename_i ht; subst ht; exact hs
      · exact hx.roll t w hw hop
    · intro t t' w w' hw hw' he
      simp only [upd] at hw hw'
      split at hw
      · rename_i ht
        split at hw'
        · rename_i ht'; rw [ht, ht']
        · rename_i ht'; cases hw; exact absurd (noCommit_record hk hno hw' he.symm).1 ht'
      · split at hw'
        · rename_i ht' _; cases hw'; exact absurd (noCommit_record hk hno hw he).1 ht'
        · exact hx.unique t t' w w' hw hw' he
    · intro t w hw h1 h2
      simp only [upd] at hw
      split at hw
      · cases hw; cases h1
      · have := hx.writeData t w hw h1 h2
        split
        · simp only [upd, hno t w hw (Or.inl h1), if_false]; exact this
        · exact this
  | mark s hs0 hlock hno =>
    have hs : D.start s := hd
    refine ⟨?_, hx.lockShort, hx.lockData, ?_, ?_, ?_, ?_⟩
    · intro l hl
      refine ⟨(hx.lock l hl).1, ?_, ?_⟩
      · intro t w hw
        simp only [upd] at hw
        split at hw
        · cases hw; exact fun _ => Ne.symm (hlock l hl)
        · exact (hx.lock l hl).2.1 t w hw
      · intro hty t w hw
        simp only [upd] at hw
        split at hw
        · cases hw; exact Ne.symm (hlock l hl)
        · exact (hx.lock l hl).2.2 hty t w hw
    · intro t w hw hop
      simp only [upd] at hw
      split at hw
      · cases hw; exact absurd rfl hop
      · exact hx.commit t w hw hop
    · intro t w hw hop
      simp only [upd] at hw
      split at hw
      · rename_i ht; subst ht; exact hs
      · exact hx.roll t w hw hop
    · intro t t' w w' hw hw' he
      simp only [upd] at hw hw'
      split at hw
      · rename_i ht
        split at hw'
        · rename_i ht'; rw [ht, ht']
        · cases hw; exact absurd he.symm (hno t' w' hw')
      · split at hw'
        · cases hw'; exact absurd he (hno t w hw)
        · exact hx.unique t t' w w' hw hw' he
    · intro t w hw h1 h2
      simp only [upd] at hw
      split at hw
      · cases hw; cases h1
      · exact hx.writeData t w hw h1 h2
  | onePc s c pess op short d hfree hrb hconf hop hval hdn hmc hs0 hc =>
    obtain ⟨hs, ⟨hc1, hc2⟩, hp⟩ := hd
    have hno : x.noRecord s := noRecord_prewrite hk hx hfree hrb hconf hp
    have hty : op ≠ .rollback := by
      rcases hop with h | h <;> rw [h] <;> decide
    refine ⟨by simp, by simp, by simp, ?_, ?_, ?_, ?_⟩
    · intro t w hw hop
      simp only [upd] at hw
      split at hw
      · rename_i ht; cases hw; subst ht; exact ⟨hc1, hc2⟩
      · exact hx.commit t w hw hop
    · intro t w hw hop
      simp only [upd] at hw
      split at hw
      · cases hw; exact absurd hop hty
      · exact hx.roll t w hw hop
    · intro t t' w w' hw hw' he
      simp only [upd] at hw hw'
      split at hw
      · rename_i ht
        split at hw'
        · rename_i ht'; rw [ht, ht']
        · cases hw; exact absurd he.symm (hno t' w' hw')
      · split at hw'
        · cases hw'; exact absurd he (hno t w hw)
        · exact hx.unique t t' w w' hw hw' he
    · intro t w hw h1 h2
      simp only [upd] at hw
      split at hw
      · cases hw
        have := hval h1 h2
        simp only [upd, if_true]
        cases d with
        | none => simp at this
        | some v => simp
      · exact upd_isSome (hx.writeData t w hw h1 h2)
  | update l ttl mc hlock hmc =>
    refine ⟨?_, ?_, ?_, hx.commit, hx.roll, hx.unique, hx.writeData⟩
    · intro l' hl; simp only [Option.some.injEq] at hl; subst hl; exact hx.lock l hlock
    · intro l' hl; simp only [Option.some.injEq] at hl; subst hl; exact hx.lockShort l hlock
    · intro l' hl; simp only [Option.some.injEq] at hl; subst hl; exact hx.lockData l hlock
  | unlock s l hlock hts htype =>
    exact ⟨by simp, by simp, by simp, hx.commit, hx.roll, hx.unique, hx.writeData⟩

end Verif.Txn
