import Verif.Txn.ScanLemmas

/-!
# Transactional scans: the iterator
-/

namespace Verif.Txn
open Verif.Codec

/-- What a scan is run with. -/
structure ScanCtx where
  st : State
  live : CF VKey Bytes
  iso : Iso
  ts : Int
  resolved : List Int
  start : Bytes
  stop : Bytes

namespace ScanCtx
variable (c : ScanCtx)

def T : Int := iterTs c.iso c.ts
def L0 : List (Bytes × LockInfo) := scanLocks c.st c.start c.stop
def W0 : List (VKey × WriteInfo) := scanWrites c.st c.start c.stop c.T

/-- Value found for a key. -/
def val (m : Bytes) : Bytes :=
  match c.W0.find? (visible m c.T) with | some e => valueIn c.live m e.2 | none => []

/-- Entries ahead of `p`. -/
def left (p : Bytes) : Nat :=
  (c.L0.filter (fun e => decide (p < e.1))).length + (c.W0.filter (fun e => decide (p < e.1.key))).length

structure Ok : Prop where
  inv : Inv c.st
  start : c.start ≠ []
  data : ∀ k t w, c.st.write.get ⟨k, t⟩ = some w → w.op = .put → w.shortValue = [] →
    (c.live.get ⟨k, w.startTs⟩).isSome

/-- Nothing stored strictly between two keys. -/
def Gap (p m : Bytes) : Prop :=
  (∀ e ∈ c.L0, p < e.1 → ¬ e.1 < m) ∧ (∀ e ∈ c.W0, p < e.1.key → ¬ e.1.key < m)

def NoConflict (m : Bytes) : Prop :=
  ∀ l, (m, l) ∈ c.L0 → lockConflict l c.iso c.ts c.resolved = false

def InRange (m : Bytes) : Prop := ¬ m < c.start ∧ m < c.stop

structure Pre (it : Iter) (p : Bytes) : Prop where
  result : it.result = none
  value : it.value = []
  locks : it.locks = c.L0.filter (fun e => decide (p < e.1))
  writes : it.writes = c.W0.filter (fun e => decide (p < e.1.key))
  lastLock : it.lastLock = headKey (·.1) it.locks
  head : it.writes ≠ [] → it.lastWrite = headKey (·.1.key) it.writes
  stale : it.writes = [] → ¬ p < it.lastWrite

structure Post (it : Iter) : Prop where
  key : it.key ≠ []
  range : c.InRange it.key
  value : it.value = c.val it.key
  result : it.result = none
  asc : Asc it.locks
  locks : it.locks.filter (fun e => decide (it.key < e.1)) = c.L0.filter (fun e => decide (it.key < e.1))
  lastLock : it.lastLock = headKey (·.1) it.locks
  writes : it.writes = c.W0.filter (fun e => decide (it.key < e.1.key))
  head : it.writes ≠ [] → it.lastWrite = headKey (·.1.key) it.writes
  stale : it.writes = [] → ¬ it.key < it.lastWrite

variable {c}

theorem mem_L0 {k : Bytes} {l : LockInfo} : (k, l) ∈ c.L0 ↔ LockOn c.st k l ∧ c.InRange k := mem_scanLocks

theorem L0_range {e : Bytes × LockInfo} (h : e ∈ c.L0) : c.InRange e.1 := (mem_L0 (k := e.1) (l := e.2) |>.1 h).2

theorem W0_range (h : c.Ok) {e : VKey × WriteInfo} (he : e ∈ c.W0) : c.InRange e.1.key := by
  obtain ⟨⟨k, t⟩, w⟩ := e
  obtain ⟨_, h2, h3⟩ := (mem_scanWrites h.inv).1 he
  refine ⟨?_, h2⟩
  rcases h3 with h3 | ⟨rfl, _⟩
  · exact KeyOrder.asymm h3
  · exact lt_irrefl _

theorem ne_nil (h : c.Ok) {m : Bytes} (hm : c.InRange m) : m ≠ [] := by
  rintro rfl
  exact hm.1 (nil_lt h.start)

theorem filter_filter_lt {α : Type} {f : α → Bytes} {p m : Bytes} (hpm : p < m) (l : List α) :
    (l.filter (fun e => decide (p < f e))).filter (fun e => decide (m < f e)) = l.filter (fun e => decide (m < f e)) := by
  rw [List.filter_filter]
  congr 1
  funext e
  by_cases h : m < f e
  · simp [h, KeyOrder.trans hpm h]
  · simp [h]

theorem find_filter {p m : Bytes} (hpm : p < m) {T : Int} (l : List (VKey × WriteInfo)) :
    (l.filter (fun e => decide (p < e.1.key))).find? (visible m T) = l.find? (visible m T) := by
  rw [List.find?_filter]
  congr 1
  funext e
  by_cases h : e.1.key = m
  · simp [visible, h, hpm]
  · simp [visible, h]

/-- Fetching the value of the key the write iterator stands on. -/
theorem fetch_spec (h : c.Ok) {it : Iter} {p m : Bytes} (hp : c.Pre it p) (hpm : p < m) (hm : c.InRange m)
    (hne : it.writes ≠ []) (hhead : headKey (·.1.key) it.writes = m) (hl : it.locks.filter (fun e => decide (m < e.1)) =
      c.L0.filter (fun e => decide (m < e.1))) (hkey : it.key = m) :
    ∃ it', fetchValue c.live c.iso c.ts it = (.ok, it') ∧ it'.key = m ∧ c.Post it' := by
  have hW0 : Asc c.W0 := asc_scanWrites _ _ _ _
  have hW : KeysLe it.writes := by
    rw [hp.writes]; exact (Asc.keysLe (List.Pairwise.filter _ hW0))
  have hmem : ∀ e ∈ it.writes, e ∈ c.W0 := by
    intro e he; rw [hp.writes] at he; exact (List.mem_filter.1 he).1
  have hget : ∀ e ∈ it.writes, c.st.write.get e.1 = some e.2 := by
    intro e he
    obtain ⟨⟨k, t⟩, w⟩ := e
    exact ((mem_scanWrites h.inv).1 (hmem _ he)).1
  obtain ⟨e0, rest, hcons⟩ : ∃ e0 rest, it.writes = e0 :: rest := by
    cases hw : it.writes with
    | nil => exact absurd hw hne
    | cons a b => exact ⟨a, b, rfl⟩
  have he0 : e0.1.key = m := by rw [hcons] at hhead; exact hhead
  have hge : ∀ e ∈ it.writes, ¬ e.1.key < m := by
    intro e he
    rw [hcons] at he hW
    rcases List.mem_cons.1 he with rfl | he
    · rw [he0]; exact lt_irrefl _
    · have := (List.pairwise_cons.1 hW).1 e he
      rwa [he0] at this
  obtain ⟨u, h1, h2, h3, h4⟩ := getUserValue_spec (live := c.live) (iso := c.iso) (ts := c.ts) (m := m) it.writes hW hge
    (by
      intro e he _
      obtain ⟨⟨k, t⟩, w⟩ := e
      rcases ((h.inv k).write t w (hget _ he)).2.2 with a | a
      · exact Or.inl a.1
      · exact Or.inr a.1)
    (by
      intro e he
      obtain ⟨⟨k, t⟩, w⟩ := e
      exact ((h.inv k).write t w (hget _ he)).2.1)
    (by
      intro e he hk ho hs
      obtain ⟨⟨k, t⟩, w⟩ := e
      simp only at hk
      subst hk
      exact h.data k t w (hget _ he) ho hs)
    it.lastWrite (fun hw => absurd hw hne) it.value false hp.value
  have hfound : u.found = true := by rw [h3, hcons]; simp [he0]
  refine ⟨{ it with value := u.value, lastWrite := u.lastWrite, writes := u.writes }, ?_, hkey, ?_⟩
  · simp only [fetchValue, hkey, h1, hfound, if_true]
  · have hws : u.writes = c.W0.filter (fun e => decide (m < e.1.key)) := by
      rw [h2.eq, hp.writes, filter_filter_lt hpm (f := fun e : VKey × WriteInfo => e.1.key)]
    refine ⟨?_, ?_, ?_, hp.result, ?_, ?_, hp.lastLock, ?_, h2.head, ?_⟩
    · simp only [hkey]; exact ne_nil h hm
    · simp only [hkey]; exact hm
    · simp only [hkey, val]; rw [h4, hp.writes, find_filter hpm]; rfl
    · rw [hp.locks]; exact List.Pairwise.filter _ (asc_scanLocks _ _ _)
    · simp only [hkey]; exact hl
    · simp only [hkey]; exact hws
    · intro hw
      simp only at hw ⊢
      rw [h2.stale hw, hkey]; exact lt_irrefl _

theorem head_min_locks {it : Iter} {p : Bytes} (hp : c.Pre it p) {e : Bytes × LockInfo} {rest}
    (hc : it.locks = e :: rest) : p < e.1 ∧ e ∈ c.L0 ∧ ∀ x ∈ c.L0, p < x.1 → ¬ x.1 < e.1 := by
  have hm : e ∈ it.locks := by rw [hc]; exact List.mem_cons_self
  have hasc : Asc it.locks := by rw [hp.locks]; exact List.Pairwise.filter _ (asc_scanLocks _ _ _)
  rw [hp.locks] at hm
  obtain ⟨h1, h2⟩ := List.mem_filter.1 hm
  refine ⟨by simpa using h2, h1, ?_⟩
  intro x hx hpx
  have : x ∈ it.locks := by rw [hp.locks]; exact List.mem_filter.2 ⟨hx, by simpa using hpx⟩
  rw [hc] at this hasc
  rcases List.mem_cons.1 this with rfl | h
  · exact lt_irrefl _
  · exact KeyOrder.asymm ((List.pairwise_cons.1 hasc).1 x h)

theorem head_min_writes {it : Iter} {p : Bytes} (hp : c.Pre it p) {e : VKey × WriteInfo} {rest}
    (hc : it.writes = e :: rest) : p < e.1.key ∧ e ∈ c.W0 ∧ ∀ x ∈ c.W0, p < x.1.key → ¬ x.1.key < e.1.key := by
  have hm : e ∈ it.writes := by rw [hc]; exact List.mem_cons_self
  have hasc : KeysLe it.writes := by rw [hp.writes]; exact Asc.keysLe (List.Pairwise.filter _ (asc_scanWrites _ _ _ _))
  rw [hp.writes] at hm
  obtain ⟨h1, h2⟩ := List.mem_filter.1 hm
  refine ⟨by simpa using h2, h1, ?_⟩
  intro x hx hpx
  have : x ∈ it.writes := by rw [hp.writes]; exact List.mem_filter.2 ⟨hx, by simpa using hpx⟩
  rw [hc] at this hasc
  rcases List.mem_cons.1 this with rfl | h
  · exact lt_irrefl _
  · exact (List.pairwise_cons.1 hasc).1 x h

/-- What `GetCurrentValue` does from a position: it takes the next key `m`. -/
structure Taken (c : ScanCtx) (p : Bytes) (out : IterOut × Iter) (m : Bytes) : Prop where
  lt : p < m
  range : c.InRange m
  gap : c.Gap p m
  entry : (∃ l, (m, l) ∈ c.L0) ∨ ∃ e ∈ c.W0, e.1.key = m
  out : (∃ l, (m, l) ∈ c.L0 ∧ lockConflict l c.iso c.ts c.resolved = true ∧ out.1 = .conflict ∧ out.2.key = [] ∧
      out.2.result = some (.locked l)) ∨
    (c.NoConflict m ∧ out.1 = .ok ∧ out.2.key = m ∧ c.Post out.2)

theorem lock_unique {k : Bytes} {l l' : LockInfo} (h : (k, l) ∈ c.L0) (h' : (k, l') ∈ c.L0) : l = l' := by
  have a := (mem_L0.1 h).1
  have b := (mem_L0.1 h').1
  unfold LockOn at a b
  rw [CF.mem_iff_get] at a b
  rw [a] at b
  exact Option.some.inj b

/-- The lock branch when the lock is on the least key and no record is there. -/
theorem lockOnly (h : c.Ok) {it : Iter} {p : Bytes} (hp : c.Pre it p) {m : Bytes} {l : LockInfo} {rest}
    (hc : it.locks = (m, l) :: rest) (hw : ∀ e ∈ c.W0, p < e.1.key → m < e.1.key) :
    c.Taken p (if lockConflict l c.iso c.ts c.resolved then
        (.conflict, { it with key := [], value := [], result := some (.locked l) })
      else (.ok, { it with key := m })) m := by
  obtain ⟨h1, h2, h3⟩ := head_min_locks hp hc
  simp only at h1 h3
  have hr := L0_range h2
  refine ⟨h1, hr, ⟨h3, fun e he hpe => KeyOrder.asymm (hw e he hpe)⟩, Or.inl ⟨l, h2⟩, ?_⟩
  by_cases hcf : lockConflict l c.iso c.ts c.resolved = true
  · left; rw [if_pos hcf]; exact ⟨l, h2, hcf, rfl, rfl, rfl⟩
  · right
    rw [if_neg hcf]
    refine ⟨fun l' hl' => by rw [← lock_unique h2 hl']; simpa using hcf, rfl, rfl, ?_⟩
    have hws : it.writes = c.W0.filter (fun e => decide (m < e.1.key)) := by
      rw [hp.writes]
      apply List.filter_congr
      intro e he
      by_cases hpe : p < e.1.key
      · simp [hpe, hw e he hpe]
      · have : ¬ m < e.1.key := fun h' => hpe (KeyOrder.trans h1 h')
        simp [hpe, this]
    refine ⟨ne_nil h hr, hr, ?_, hp.result, ?_, ?_, hp.lastLock, hws, hp.head, ?_⟩
    · simp only [hp.value, val]
      have : c.W0.find? (visible m c.T) = none := by
        rw [List.find?_eq_none]
        intro x hx
        simp only [visible, decide_eq_true_eq, not_and]
        intro he
        have := hw x hx (he ▸ h1)
        rw [he] at this; exact absurd this (lt_irrefl _)
      rw [this]
    · rw [hp.locks]; exact List.Pairwise.filter _ (asc_scanLocks _ _ _)
    · simp only [hp.locks, filter_filter_lt h1 (f := fun e : Bytes × LockInfo => e.1)]
    · intro hwn h'
      exact hp.stale hwn (KeyOrder.trans h1 h')

theorem current_spec (h : c.Ok) {it : Iter} {p : Bytes} (hp : c.Pre it p) (hne : it.locks ≠ [] ∨ it.writes ≠ []) :
    ∃ m, c.Taken p (getCurrentValue c.live c.iso c.ts c.resolved it) m := by
  simp only [getCurrentValue]
  cases hL : it.locks with
  | nil =>
    cases hW : it.writes with
    | nil => rw [hL, hW] at hne; simp at hne
    | cons e rest =>
      obtain ⟨h1, h2, h3⟩ := head_min_writes hp hW
      have hr := W0_range h h2
      have hll : it.lastLock = [] := by rw [hp.lastLock, hL]; rfl
      have hlw : it.lastWrite = e.1.key := by rw [hp.head (by rw [hW]; simp), hW]; rfl
      have hnn := ne_nil h hr
      rw [if_neg (by rw [hlw]; exact fun x => hnn x.1)]
      simp only [hlw, hnn, hll, ne_eq, not_true_eq_false, if_false, Bool.false_eq_true]
      refine ⟨e.1.key, h1, hr, ⟨?_, h3⟩, Or.inr ⟨e, h2, rfl⟩, Or.inr ?_⟩
      · intro x hx hpx
        have : x ∈ it.locks := by rw [hp.locks]; exact List.mem_filter.2 ⟨hx, by simpa using hpx⟩
        rw [hL] at this; cases this
      · have hp' : c.Pre { it with key := e.1.key } p := ⟨hp.result, hp.value, hp.locks, hp.writes, hp.lastLock, hp.head, hp.stale⟩
        obtain ⟨it', a1, a2, a3⟩ := fetch_spec h hp' h1 hr (by simp [hW]) (by simp [hW, headKey])
          (by simp only; rw [hp.locks, filter_filter_lt h1 (f := fun e : Bytes × LockInfo => e.1)]) rfl
        have ee : ({ it with key := e.1.key } : Iter) = { it with key := e.1.key, locks := it.locks } := rfl
        simp only [hL, hW, hll, hlw] at a1 ⊢
        rw [a1]
        refine ⟨?_, rfl, a2, a3⟩
        intro l hl
        have : (e.1.key, l) ∈ it.locks := by rw [hp.locks]; exact List.mem_filter.2 ⟨hl, by simpa using h1⟩
        rw [hL] at this; cases this
  | cons e rest =>
    obtain ⟨m, l⟩ := e
    obtain ⟨h1, h2, h3⟩ := head_min_locks hp hL
    simp only at h1 h3
    have hr := L0_range h2
    simp only at hr
    have hll : it.lastLock = m := by rw [hp.lastLock, hL]; rfl
    have hnn := ne_nil h hr
    rw [if_neg (by rw [hll]; exact fun x => hnn x.2)]
    cases hW : it.writes with
    | nil =>
      have hno : ∀ e ∈ c.W0, p < e.1.key → m < e.1.key := by
        intro x hx hpx
        have : x ∈ it.writes := by rw [hp.writes]; exact List.mem_filter.2 ⟨hx, by simpa using hpx⟩
        rw [hW] at this; cases this
      have hst := hp.stale hW
      have hneq : ¬ it.lastLock = it.lastWrite := by
        rw [hll]; intro he; rw [← he] at hst; exact hst h1
      have := lockOnly h hp hL hno
      refine ⟨m, ?_⟩
      simp only [hL, hW, hll] at this hneq ⊢
      by_cases hx : it.lastWrite = []
      · simp only [hx, if_true, hnn, if_false] at this ⊢
        exact this
      · simp only [hx, if_false, ne_eq, hnn, not_false_eq_true, if_true, ite_self, hneq]
        exact this
    | cons e' rest' =>
      obtain ⟨w1, w2, w3⟩ := head_min_writes hp hW
      have hwr := W0_range h w2
      have hwn := ne_nil h hwr
      have hlw : it.lastWrite = e'.1.key := by rw [hp.head (by rw [hW]; simp), hW]; rfl
      simp only [hlw, hwn, if_false, hll, ne_eq, hnn, not_false_eq_true, if_true, reduceCtorEq]
      rcases lt_trichotomy m e'.1.key with hlt | heq | hgt
      · have hno : ∀ e ∈ c.W0, p < e.1.key → m < e.1.key := by
          intro x hx hpx
          rcases le_of_not_lt (w3 x hx hpx) with h' | h'
          · exact KeyOrder.trans hlt h'
          · exact h' ▸ hlt
        have hnl : ¬ e'.1.key < m := KeyOrder.asymm hlt
        have hneq : ¬ m = e'.1.key := fun he => lt_irrefl _ (he ▸ hlt)
        simp only [hnl, not_false_eq_true, if_true, hneq, if_false]
        have := lockOnly h hp hL hno
        simp only [hL, hW, hll, hlw] at this
        exact ⟨m, this⟩
      · have hnl : ¬ e'.1.key < m := by rw [heq]; exact lt_irrefl _
        rw [← heq] at hlw w3
        rw [← heq]
        simp only [lt_irrefl, not_false_eq_true, if_true]
        refine ⟨m, h1, hr, ⟨h3, w3⟩, Or.inl ⟨l, h2⟩, ?_⟩
        by_cases hcf : lockConflict l c.iso c.ts c.resolved = true
        · left; rw [if_pos hcf]; exact ⟨l, h2, hcf, rfl, rfl, rfl⟩
        · right
          rw [if_neg hcf]
          have hp' : c.Pre { it with key := m } p := ⟨hp.result, hp.value, hp.locks, hp.writes, hp.lastLock, hp.head, hp.stale⟩
          obtain ⟨it', a1, a2, a3⟩ := fetch_spec h hp' h1 hr (by simp [hW]) (by simp only [hW, headKey]; exact heq.symm)
            (by simp only; rw [hp.locks, filter_filter_lt h1 (f := fun e : Bytes × LockInfo => e.1)]) rfl
          simp only [hL, hW, hll, hlw] at a1 ⊢
          rw [a1]
          exact ⟨fun l' hl' => by rw [← lock_unique h2 hl']; simpa using hcf, rfl, a2, a3⟩
      · simp only [hgt, not_true_eq_false, if_false, Bool.false_eq_true]
        refine ⟨e'.1.key, w1, hwr, ⟨?_, w3⟩, Or.inr ⟨e', w2, rfl⟩, Or.inr ?_⟩
        · intro x hx hpx hxe
          exact h3 x hx hpx (KeyOrder.trans hxe hgt)
        · have hp' : c.Pre { it with key := e'.1.key } p :=
            ⟨hp.result, hp.value, hp.locks, hp.writes, hp.lastLock, hp.head, hp.stale⟩
          obtain ⟨it', a1, a2, a3⟩ := fetch_spec h hp' w1 hwr (by simp [hW]) (by simp [hW, headKey])
            (by simp only; rw [hp.locks, filter_filter_lt w1 (f := fun e : Bytes × LockInfo => e.1)]) rfl
          simp only [hL, hW, hll, hlw] at a1 ⊢
          rw [a1]
          refine ⟨?_, rfl, a2, a3⟩
          intro l' hl'
          exact absurd hgt (h3 _ hl' w1)

end ScanCtx
end Verif.Txn
