import Verif.Latch.Lemmas

/-!
# Latches: the invariant

Stated on the line of requests for every hash (`Q`) and the threads (`T`).
-/

namespace Verif.Latch

/-- The positions `lo ≤ j < hi` of `requiredHashes` are the hashes a request owns. -/
def lo (t : Thread) : Nat := match t.pc with
  | .rel i _ => i
  | _ => 0

def hi (t : Thread) : Nat := match t.pc with
  | .acq i _ => i
  | .wait => t.owned
  | .hold => t.owned
  | .rel _ _ => t.owned
  | _ => 0

/-- The position of the hash a request wants next. -/
def nxt (t : Thread) : Option Nat := match t.pc with
  | .acq i _ => some i
  | .wait => some t.owned
  | _ => none

/-- The requests it still has to wake. -/
def pend (t : Thread) : List Cid := match t.pc with
  | .rel _ ws => ws
  | .wake ws => ws
  | .poke _ ws => ws
  | _ => []

def Holds (t : Thread) (h : Nat) : Prop := ∃ j, t.req[j]? = some h ∧ lo t ≤ j ∧ j < hi t

def Wants (t : Thread) (h : Nat) : Prop := ∃ j, t.req[j]? = some h ∧ nxt t = some j

def Shape (t : Thread) : Prop := match t.pc with
  | .idle => t = {}
  | .acq i n => i = t.owned + n ∧ i ≤ t.req.length
  | .wait => t.owned < t.req.length
  | .hold => t.owned = t.req.length
  | .rel i _ => t.owned = t.req.length ∧ i ≤ t.req.length
  | _ => True

structure Inv (Q : Nat → List Cid) (T : Cid → Thread) : Prop where
  sorted : ∀ c, (T c).req.Pairwise (· < ·)
  nz : ∀ c, ∀ h ∈ (T c).req, h ≠ 0
  shape : ∀ c, Shape (T c)
  nodup : ∀ h, (Q h).Nodup
  mem : ∀ c h, c ∈ Q h → Holds (T c) h ∨
    (Wants (T c) h ∧ ((T c).pc = .wait ∨ (Q h).head? = some c))
  head : ∀ c h, Holds (T c) h → (Q h).head? = some c
  inq : ∀ c h, (T c).pc = .wait → Wants (T c) h → c ∈ Q h
  pwait : ∀ r w, w ∈ pend (T r) → (T w).pc = .wait ∧ (T w).count = 0 ∧
    ∀ h, Wants (T w) h → (Q h).head? = some w
  pone : ∀ r r' w, w ∈ pend (T r) → w ∈ pend (T r') → r = r'
  pnodup : ∀ r, (pend (T r)).Nodup
  tok : ∀ w h, (T w).pc = .wait → Wants (T w) h → (Q h).head? = some w →
    (T w).count = -1 ∨ ∃ r, w ∈ pend (T r)
  cnt : ∀ w, (T w).count = 0 ∨ ((T w).pc = .wait ∧ (T w).count = -1 ∧
    ∀ h, Wants (T w) h → (Q h).head? = some w)

/-- A step of thread `c` that leaves the lines alone, has nothing to wake before and
after, and keeps the hashes it owns or wants. -/
theorem Inv.local {Q : Nat → List Cid} {T : Cid → Thread} (i : Inv Q T) {c : Cid} {t : Thread}
    (hreq : t.req = (T c).req) (hsh : Shape t)
    (hw : t.pc ≠ .wait) (hw' : (T c).pc ≠ .wait) (hc : t.count = (T c).count)
    (hp : pend t = pend (T c))
    (hh : ∀ h, Holds t h → (Q h).head? = some c)
    (hm : ∀ h, c ∈ Q h → Holds t h ∨ (Wants t h ∧ (Q h).head? = some c)) :
    Inv Q (upd T c t) := by
  have hcc : (T c).count = 0 := by
    rcases i.cnt c with h | h
    · exact h
    · exact absurd h.1 hw'
  have hnp : ∀ r, c ∉ pend (T r) := fun r hr => hw' (i.pwait r c hr).1
  have hpend : ∀ r, pend (upd T c t r) = pend (T r) := by
    intro r; by_cases hr : r = c
    · subst hr; rw [upd_same, hp]
    · rw [upd_ne _ _ hr]
  constructor
  · intro d; by_cases hd : d = c
    · subst hd; rw [upd_same, hreq]; exact i.sorted d
    · rw [upd_ne _ _ hd]; exact i.sorted d
  · intro d; by_cases hd : d = c
    · subst hd; rw [upd_same, hreq]; exact i.nz d
    · rw [upd_ne _ _ hd]; exact i.nz d
  · intro d; by_cases hd : d = c
    · subst hd; rw [upd_same]; exact hsh
    · rw [upd_ne _ _ hd]; exact i.shape d
  · exact i.nodup
  · intro d h hmem; by_cases hd : d = c
    · subst hd; rw [upd_same]
      rcases hm h hmem with hx | hx
      · exact .inl hx
      · exact .inr ⟨hx.1, .inr hx.2⟩
    · rw [upd_ne _ _ hd]; exact i.mem d h hmem
  · intro d h hx; by_cases hd : d = c
    · subst hd; rw [upd_same] at hx; exact hh h hx
    · rw [upd_ne _ _ hd] at hx; exact i.head d h hx
  · intro d h h1 h2; by_cases hd : d = c
    · subst hd; rw [upd_same] at h1; exact absurd h1 hw
    · rw [upd_ne _ _ hd] at h1 h2; exact i.inq d h h1 h2
  · intro r w hr
    rw [hpend] at hr
    have hwc : w ≠ c := fun x => hnp r (x ▸ hr)
    rw [upd_ne _ _ hwc]; exact i.pwait r w hr
  · intro r r' w h1 h2
    rw [hpend] at h1 h2
    exact i.pone r r' w h1 h2
  · intro r; rw [hpend]; exact i.pnodup r
  · intro w h h1 h2 h3
    have hwc : w ≠ c := by
      intro x; subst x; rw [upd_same] at h1; exact hw h1
    rw [upd_ne _ _ hwc] at h1 h2 ⊢
    rcases i.tok w h h1 h2 h3 with hx | ⟨r, hr⟩
    · exact .inl hx
    · exact .inr ⟨r, by rw [hpend]; exact hr⟩
  · intro w; by_cases hwc : w = c
    · subst hwc; rw [upd_same]; left; rw [hc, hcc]
    · rw [upd_ne _ _ hwc]; exact i.cnt w

section steps
variable {Q : Nat → List Cid} {T : Cid → Thread} (i : Inv Q T) {c : Cid}
include i

/-- The loop of `Acquire` is over. -/
theorem Inv.acqEnd {k n : Nat} (hpc : (T c).pc = .acq k n) (hk : (T c).req[k]? = none) :
    Inv Q (upd T c ((T c).finish n)) ∧ ((T c).finish n).pc = .hold := by
  have hs := i.shape c
  simp only [Shape, hpc] at hs
  have hlen := List.getElem?_eq_none_iff.1 hk
  have hf : ((T c).finish n) = { T c with owned := (T c).owned + n, pc := .hold } := by
    unfold Thread.finish; dsimp only; rw [if_pos (by omega)]
  rw [hf]
  refine ⟨i.local rfl ?_ (by simp) (by simp [hpc]) rfl (by simp [pend, hpc]) ?_ ?_, rfl⟩
  · simp only [Shape]; omega
  · rintro h ⟨j, h1, h2, h3⟩
    refine i.head c h ⟨j, h1, by simp [lo, hpc], ?_⟩
    simp only [hi, hpc] at h3 ⊢; omega
  · intro h hm
    rcases i.mem c h hm with ⟨j, h1, _, h3⟩ | ⟨⟨j, h1, h2⟩, _⟩
    · left; refine ⟨j, h1, by simp [lo], ?_⟩
      simp only [hi, hpc] at h3 ⊢; omega
    · simp only [nxt, hpc, Option.some.injEq] at h2
      subst h2; rw [hk] at h1; simp at h1

/-- The next hash is already owned (after a wake-up). -/
theorem Inv.acqOwn {k n h : Nat} (hpc : (T c).pc = .acq k n) (hk : (T c).req[k]? = some h)
    (hh : (Q h).head? = some c) :
    Inv Q (upd T c { T c with pc := .acq (k + 1) (n + 1) }) := by
  have hs := i.shape c
  simp only [Shape, hpc] at hs
  have hlen := (List.getElem?_eq_some_iff.1 hk).1
  refine i.local rfl ?_ (by simp) (by simp [hpc]) rfl (by simp [pend, hpc]) ?_ ?_
  · simp only [Shape]; omega
  · rintro h' ⟨j, h1, h2, h3⟩
    simp only [hi] at h3 h1
    by_cases hj : j = k
    · subst hj; rw [hk] at h1; cases h1; exact hh
    · exact i.head c h' ⟨j, h1, by simp [lo, hpc], by simp only [hi, hpc]; omega⟩
  · intro h' hm
    rcases i.mem c h' hm with ⟨j, h1, _, h3⟩ | ⟨⟨j, h1, h2⟩, _⟩
    · left; refine ⟨j, h1, by simp [lo], ?_⟩
      simp only [hi, hpc] at h3 ⊢; omega
    · simp only [nxt, hpc, Option.some.injEq] at h2
      subst h2
      left; exact ⟨k, h1, by simp [lo], by simp [hi]⟩

/-- The request queues up behind others, or takes a free hash. -/
theorem Inv.push {k n h : Nat} {t : Thread} (hpc : (T c).pc = .acq k n)
    (hk : (T c).req[k]? = some h) (hh : (Q h).head? ≠ some c)
    (ht : ((Q h) ≠ [] ∧ t = { T c with owned := k, pc := .wait }) ∨
      (Q h = [] ∧ t = { T c with pc := .acq (k + 1) (n + 1) })) :
    Inv (upd Q h (Q h ++ [c])) (upd T c t) := by
  have hs := i.shape c
  simp only [Shape, hpc] at hs
  have hlen := (List.getElem?_eq_some_iff.1 hk).1
  have hsort := i.sorted c
  have hnot : c ∉ Q h := by
    intro hm
    rcases i.mem c h hm with ⟨j, h1, _, h3⟩ | ⟨_, h2⟩
    · simp only [hi, hpc] at h3
      have := sorted_getElem_inj hsort h1 hk; omega
    · rcases h2 with h2 | h2
      · rw [hpc] at h2; cases h2
      · exact hh h2
  have hreq : t.req = (T c).req := by rcases ht with ⟨_, rfl⟩ | ⟨_, rfl⟩ <;> rfl
  have hcnt : t.count = (T c).count := by rcases ht with ⟨_, rfl⟩ | ⟨_, rfl⟩ <;> rfl
  have hpend0 : pend t = [] := by rcases ht with ⟨_, rfl⟩ | ⟨_, rfl⟩ <;> rfl
  have hlo : lo t = 0 := by rcases ht with ⟨_, rfl⟩ | ⟨_, rfl⟩ <;> rfl
  have hcc : (T c).count = 0 := by
    rcases i.cnt c with hx | hx
    · exact hx
    · rw [hpc] at hx; cases hx.1
  have hnp : ∀ r, c ∉ pend (T r) := by
    intro r hr; have := (i.pwait r c hr).1; rw [hpc] at this; cases this
  have hpend : ∀ r, pend (upd T c t r) = pend (T r) := by
    intro r; by_cases hr : r = c
    · subst hr; rw [upd_same, hpend0]; simp [pend, hpc]
    · rw [upd_ne _ _ hr]
  -- heads of lines stay
  have hstay : ∀ h' d, (Q h').head? = some d → (upd Q h (Q h ++ [c]) h').head? = some d := by
    intro h' d hd
    by_cases hx : h' = h
    · subst hx; rw [upd_same]
      cases hq : Q h' with
      | nil => rw [hq] at hd; simp at hd
      | cons a l => rw [hq] at hd; simpa using hd
    · rw [upd_ne _ _ hx]; exact hd
  have hstay' : ∀ h' d, d ≠ c → (upd Q h (Q h ++ [c]) h').head? = some d →
      (Q h').head? = some d := by
    intro h' d hdc hd
    by_cases hx : h' = h
    · subst hx; rw [upd_same] at hd
      cases hq : Q h' with
      | nil => rw [hq] at hd; simp at hd; exact absurd hd.symm hdc
      | cons a l => rw [hq] at hd; simpa using hd
    · rw [upd_ne _ _ hx] at hd; exact hd
  have hmem : ∀ h' d, d ∈ upd Q h (Q h ++ [c]) h' → d ∈ Q h' ∨ (d = c ∧ h' = h) := by
    intro h' d hd
    by_cases hx : h' = h
    · subst hx; rw [upd_same] at hd; simp at hd
      rcases hd with hd | hd
      · exact .inl hd
      · exact .inr ⟨hd, rfl⟩
    · rw [upd_ne _ _ hx] at hd; exact .inl hd
  have hmem' : ∀ h' d, d ∈ Q h' → d ∈ upd Q h (Q h ++ [c]) h' := by
    intro h' d hd
    by_cases hx : h' = h
    · subst hx; rw [upd_same]; simp [hd]
    · rw [upd_ne _ _ hx]; exact hd
  -- what `c` owned it still owns
  have hkeep : ∀ h', Holds (T c) h' → Holds t h' := by
    rintro h' ⟨j, h1, _, h3⟩
    refine ⟨j, by rw [hreq]; exact h1, by rw [hlo]; omega, ?_⟩
    simp only [hi, hpc] at h3
    rcases ht with ⟨_, rfl⟩ | ⟨_, rfl⟩ <;> simp only [hi] <;> omega
  constructor
  · intro d; by_cases hd : d = c
    · subst hd; rw [upd_same, hreq]; exact i.sorted d
    · rw [upd_ne _ _ hd]; exact i.sorted d
  · intro d; by_cases hd : d = c
    · subst hd; rw [upd_same, hreq]; exact i.nz d
    · rw [upd_ne _ _ hd]; exact i.nz d
  · intro d; by_cases hd : d = c
    · subst hd; rw [upd_same]
      rcases ht with ⟨_, rfl⟩ | ⟨_, rfl⟩
      · simp only [Shape]; omega
      · simp only [Shape]; omega
    · rw [upd_ne _ _ hd]; exact i.shape d
  · intro h'; by_cases hx : h' = h
    · subst hx; rw [upd_same, List.nodup_append]
      refine ⟨i.nodup h', by simp, ?_⟩
      intro a ha b hb
      simp at hb; subst hb
      exact fun x => hnot (x ▸ ha)
    · rw [upd_ne _ _ hx]; exact i.nodup h'
  · intro d h' hd
    by_cases hdc : d = c
    · subst hdc; rw [upd_same]
      by_cases hx : h' = h
      · subst hx
        rcases ht with ⟨_, rfl⟩ | ⟨hq, rfl⟩
        · exact .inr ⟨⟨k, hk, rfl⟩, .inl rfl⟩
        · exact .inl ⟨k, hk, by simp [lo], by simp [hi]⟩
      · rcases hmem h' d hd with hd | hd
        · rcases i.mem d h' hd with h1 | ⟨⟨j, h1, h2⟩, _⟩
          · exact .inl (hkeep h' h1)
          · simp only [nxt, hpc, Option.some.injEq] at h2
            subst h2; rw [hk] at h1; cases h1; exact absurd rfl hx
        · exact absurd hd.2 hx
    · rw [upd_ne _ _ hdc]
      rcases hmem h' d hd with hd | hd
      · rcases i.mem d h' hd with h1 | ⟨h1, h2⟩
        · exact .inl h1
        · rcases h2 with h2 | h2
          · exact .inr ⟨h1, .inl h2⟩
          · exact .inr ⟨h1, .inr (hstay h' d h2)⟩
      · exact absurd hd.1 hdc
  · intro d h' hd
    by_cases hdc : d = c
    · subst hdc; rw [upd_same] at hd
      obtain ⟨j, h1, h2, h3⟩ := hd
      rw [hreq] at h1
      by_cases hj : j < k
      · exact hstay h' d (i.head d h' ⟨j, h1, by simp [lo, hpc], by simp only [hi, hpc]; omega⟩)
      · rcases ht with ⟨_, rfl⟩ | ⟨hq, rfl⟩
        · simp only [hi] at h3; omega
        · simp only [hi] at h3
          have : j = k := by omega
          subst this; rw [hk] at h1; cases h1
          rw [upd_same, hq]; rfl
    · rw [upd_ne _ _ hdc] at hd
      exact hstay h' d (i.head d h' hd)
  · intro d h' h1 h2
    by_cases hdc : d = c
    · subst hdc; rw [upd_same] at h1 h2
      rcases ht with ⟨_, rfl⟩ | ⟨_, rfl⟩
      · obtain ⟨j, h3, h4⟩ := h2
        simp only [nxt, Option.some.injEq] at h4
        subst h4
        rw [show ({ T d with owned := k, pc := Pc.wait } : Thread).req = (T d).req from rfl, hk] at h3
        cases h3
        rw [upd_same]; simp
      · simp at h1
    · rw [upd_ne _ _ hdc] at h1 h2
      exact hmem' h' d (i.inq d h' h1 h2)
  · intro r w hr
    rw [hpend] at hr
    have hwc : w ≠ c := fun x => hnp r (x ▸ hr)
    rw [upd_ne _ _ hwc]
    obtain ⟨h1, h2, h3⟩ := i.pwait r w hr
    exact ⟨h1, h2, fun h' hx => hstay h' w (h3 h' hx)⟩
  · intro r r' w h1 h2
    rw [hpend] at h1 h2
    exact i.pone r r' w h1 h2
  · intro r; rw [hpend]; exact i.pnodup r
  · intro w h' h1 h2 h3
    by_cases hwc : w = c
    · subst hwc; rw [upd_same] at h1 h2
      rcases ht with ⟨hq, rfl⟩ | ⟨_, rfl⟩
      · obtain ⟨j, h4, h5⟩ := h2
        simp only [nxt, Option.some.injEq] at h5
        subst h5
        rw [show ({ T w with owned := k, pc := Pc.wait } : Thread).req = (T w).req from rfl, hk] at h4
        cases h4
        rw [upd_same] at h3
        cases hq' : Q h with
        | nil => exact absurd hq' hq
        | cons a l =>
          rw [hq'] at h3; simp at h3; subst h3
          exact absurd (by rw [hq']; exact List.mem_cons_self) hnot
      · simp at h1
    · rw [upd_ne _ _ hwc] at h1 h2 ⊢
      rcases i.tok w h' h1 h2 (hstay' h' w hwc h3) with hx | ⟨r, hr⟩
      · exact .inl hx
      · exact .inr ⟨r, by rw [hpend]; exact hr⟩
  · intro w; by_cases hwc : w = c
    · subst hwc; rw [upd_same]; left; rw [hcnt, hcc]
    · rw [upd_ne _ _ hwc]
      rcases i.cnt w with hx | ⟨h1, h2, h3⟩
      · exact .inl hx
      · exact .inr ⟨h1, h2, fun h' hx => hstay h' w (h3 h' hx)⟩

/-- A request waiting was woken. -/
theorem Inv.wakeUp (hpc : (T c).pc = .wait) (hc : ¬ (T c).count + 1 > 0) :
    Inv Q (upd T c { T c with count := (T c).count + 1, pc := .acq (T c).owned 0 }) := by
  have hs := i.shape c
  simp only [Shape, hpc] at hs
  have hcm : (T c).count = -1 := by
    rcases i.cnt c with hx | hx
    · omega
    · exact hx.2.1
  have hhd : ∀ h, Wants (T c) h → (Q h).head? = some c := by
    rcases i.cnt c with hx | hx
    · omega
    · exact hx.2.2
  have hnp : ∀ r, c ∉ pend (T r) := by
    intro r hr; have := (i.pwait r c hr).2.1; omega
  let t : Thread := { T c with count := (T c).count + 1, pc := .acq (T c).owned 0 }
  have hpend : ∀ r, pend (upd T c t r) = pend (T r) := by
    intro r; by_cases hr : r = c
    · subst hr; rw [upd_same]; simp [pend, hpc, t]
    · rw [upd_ne _ _ hr]
  have hholds : ∀ h, Holds t h ↔ Holds (T c) h := by
    intro h; simp only [Holds, lo, hi, hpc, t]
  have hwants : ∀ h, Wants t h ↔ Wants (T c) h := by
    intro h; simp only [Wants, nxt, hpc, t]
  change Inv Q (upd T c t)
  constructor
  · intro d; by_cases hd : d = c
    · subst hd; rw [upd_same]; exact i.sorted d
    · rw [upd_ne _ _ hd]; exact i.sorted d
  · intro d; by_cases hd : d = c
    · subst hd; rw [upd_same]; exact i.nz d
    · rw [upd_ne _ _ hd]; exact i.nz d
  · intro d; by_cases hd : d = c
    · subst hd; rw [upd_same]; simp only [Shape, t]; omega
    · rw [upd_ne _ _ hd]; exact i.shape d
  · exact i.nodup
  · intro d h' hd; by_cases hdc : d = c
    · subst hdc; rw [upd_same, hholds, hwants]
      rcases i.mem d h' hd with h1 | ⟨h1, _⟩
      · exact .inl h1
      · exact .inr ⟨h1, .inr (hhd h' h1)⟩
    · rw [upd_ne _ _ hdc]; exact i.mem d h' hd
  · intro d h' hd; by_cases hdc : d = c
    · subst hdc; rw [upd_same, hholds] at hd; exact i.head d h' hd
    · rw [upd_ne _ _ hdc] at hd; exact i.head d h' hd
  · intro d h' h1 h2; by_cases hdc : d = c
    · subst hdc; rw [upd_same] at h1; simp [t] at h1
    · rw [upd_ne _ _ hdc] at h1 h2; exact i.inq d h' h1 h2
  · intro r w hr
    rw [hpend] at hr
    have hwc : w ≠ c := fun x => hnp r (x ▸ hr)
    rw [upd_ne _ _ hwc]; exact i.pwait r w hr
  · intro r r' w h1 h2
    rw [hpend] at h1 h2
    exact i.pone r r' w h1 h2
  · intro r; rw [hpend]; exact i.pnodup r
  · intro w h' h1 h2 h3
    have hwc : w ≠ c := by
      intro x; subst x; rw [upd_same] at h1; simp [t] at h1
    rw [upd_ne _ _ hwc] at h1 h2 ⊢
    rcases i.tok w h' h1 h2 h3 with hx | ⟨r, hr⟩
    · exact .inl hx
    · exact .inr ⟨r, by rw [hpend]; exact hr⟩
  · intro w; by_cases hwc : w = c
    · subst hwc; rw [upd_same]; left; simp only [t]; omega
    · rw [upd_ne _ _ hwc]; exact i.cnt w

/-- In `Release`, the request is at the head of the line of the next hash. -/
theorem Inv.rel_head {k h : Nat} {ws : List Cid} (hpc : (T c).pc = .rel k ws)
    (hk : (T c).req[k]? = some h) (hlt : k < (T c).owned) : (Q h).head? = some c :=
  i.head c h ⟨k, hk, by simp [lo, hpc], by simp only [hi, hpc]; exact hlt⟩

/-- One turn of the loop of `Release`. -/
theorem Inv.pop {k h : Nat} {ws ws' l : List Cid} (hpc : (T c).pc = .rel k ws)
    (hk : (T c).req[k]? = some h) (hq : Q h = c :: l)
    (hws : ws' = match l.head? with
      | some x => ws ++ [x]
      | none => ws) :
    Inv (upd Q h l) (upd T c { T c with pc := .rel (k + 1) ws' }) := by
  have hs := i.shape c
  simp only [Shape, hpc] at hs
  have hlen := (List.getElem?_eq_some_iff.1 hk).1
  have hsort := i.sorted c
  have hnd := i.nodup h
  rw [hq, List.nodup_cons] at hnd
  -- the next in line waits, and nobody has woken it
  have hnext : ∀ x, l.head? = some x → x ≠ c ∧ (T x).pc = .wait ∧ Wants (T x) h ∧
      (T x).count = 0 ∧ ∀ r, x ∉ pend (T r) := by
    intro x hx
    have hxl : x ∈ l := List.mem_of_mem_head? hx
    have hxc : x ≠ c := fun y => hnd.1 (y ▸ hxl)
    have hnh : (Q h).head? ≠ some x := by
      rw [hq]; simp; exact fun y => hxc y.symm
    have hxq : x ∈ Q h := by rw [hq]; exact List.mem_cons_of_mem _ hxl
    rcases i.mem x h hxq with h1 | ⟨h1, h2⟩
    · exact absurd (i.head x h h1) hnh
    · rcases h2 with h2 | h2
      · refine ⟨hxc, h2, h1, ?_, ?_⟩
        · rcases i.cnt x with h3 | h3
          · exact h3
          · exact absurd (h3.2.2 h h1) hnh
        · intro r hr
          exact hnh ((i.pwait r x hr).2.2 h h1)
      · exact absurd h2 hnh
  let t : Thread := { T c with pc := .rel (k + 1) ws' }
  change Inv (upd Q h l) (upd T c t)
  have hpt : pend t = ws' := rfl
  have hpc' : pend (T c) = ws := by simp [pend, hpc]
  have hws_mem : ∀ w, w ∈ ws' ↔ w ∈ ws ∨ l.head? = some w := by
    intro w
    rw [hws]
    cases hl : l.head? with
    | none => simp
    | some x =>
      simp only [List.mem_append, List.mem_singleton, Option.some.injEq]
      constructor
      · rintro (a | a)
        · exact .inl a
        · exact .inr a.symm
      · rintro (a | a)
        · exact .inl a
        · exact .inr a.symm
  have hQne : ∀ h', h' ≠ h → upd Q h l h' = Q h' := fun h' hx => upd_ne _ _ hx
  have hpend : ∀ r w, w ∈ pend (upd T c t r) ↔ w ∈ pend (T r) ∨ (r = c ∧ l.head? = some w) := by
    intro r w; by_cases hr : r = c
    · subst hr; rw [upd_same, hpt, hpc', hws_mem]; simp
    · rw [upd_ne _ _ hr]; simp [hr]
  have hnp : ∀ r, c ∉ pend (T r) := by
    intro r hr; have := (i.pwait r c hr).1; rw [hpc] at this; cases this
  constructor
  · intro d; by_cases hd : d = c
    · subst hd; rw [upd_same]; exact i.sorted d
    · rw [upd_ne _ _ hd]; exact i.sorted d
  · intro d; by_cases hd : d = c
    · subst hd; rw [upd_same]; exact i.nz d
    · rw [upd_ne _ _ hd]; exact i.nz d
  · intro d; by_cases hd : d = c
    · subst hd; rw [upd_same]; simp only [Shape, t]; omega
    · rw [upd_ne _ _ hd]; exact i.shape d
  · intro h'; by_cases hx : h' = h
    · subst hx; rw [upd_same]; exact hnd.2
    · rw [hQne h' hx]; exact i.nodup h'
  · intro d h' hd; by_cases hdc : d = c
    · subst hdc; rw [upd_same]
      by_cases hx : h' = h
      · subst hx; rw [upd_same] at hd; exact absurd hd hnd.1
      · rw [hQne h' hx] at hd ⊢
        rcases i.mem d h' hd with ⟨j, h1, h2, h3⟩ | ⟨⟨j, h1, h2⟩, _⟩
        · left
          refine ⟨j, h1, ?_, ?_⟩
          · simp only [lo, hpc] at h2; simp only [lo, t]
            have : j ≠ k := by
              intro y; subst y; rw [hk] at h1; cases h1; exact hx rfl
            omega
          · simp only [hi, hpc] at h3; simp only [hi, t]; exact h3
        · simp only [nxt, hpc] at h2; cases h2
    · rw [upd_ne _ _ hdc]
      by_cases hx : h' = h
      · subst hx; rw [upd_same] at hd ⊢
        have hdq : d ∈ Q h' := by rw [hq]; exact List.mem_cons_of_mem _ hd
        have hnh : (Q h').head? ≠ some d := by
          rw [hq]; simp; exact fun y => hdc y.symm
        rcases i.mem d h' hdq with h1 | ⟨h1, h2⟩
        · exact absurd (i.head d h' h1) hnh
        · rcases h2 with h2 | h2
          · exact .inr ⟨h1, .inl h2⟩
          · exact absurd h2 hnh
      · rw [hQne h' hx] at hd ⊢; exact i.mem d h' hd
  · intro d h' hd; by_cases hdc : d = c
    · subst hdc; rw [upd_same] at hd
      obtain ⟨j, h1, h2, h3⟩ := hd
      simp only [lo, t] at h2
      simp only [hi, t] at h3
      have hx : h' ≠ h := by
        intro y; subst y
        have := sorted_getElem_inj hsort h1 hk; omega
      rw [hQne h' hx]
      exact i.head d h' ⟨j, h1, by simp only [lo, hpc]; omega, by simp only [hi, hpc]; exact h3⟩
    · rw [upd_ne _ _ hdc] at hd
      have h1 := i.head d h' hd
      have hx : h' ≠ h := by
        intro y; subst y; rw [hq] at h1; simp at h1; exact hdc h1.symm
      rw [hQne h' hx]; exact h1
  · intro d h' h1 h2; by_cases hdc : d = c
    · subst hdc; rw [upd_same] at h1; simp [t] at h1
    · rw [upd_ne _ _ hdc] at h1 h2
      have h3 := i.inq d h' h1 h2
      by_cases hx : h' = h
      · subst hx; rw [upd_same]; rw [hq] at h3
        rcases List.mem_cons.1 h3 with h3 | h3
        · exact absurd h3 hdc
        · exact h3
      · rw [hQne h' hx]; exact h3
  · intro r w hr
    rw [hpend] at hr
    rcases hr with hr | ⟨_, hr⟩
    · have hwc : w ≠ c := fun x => hnp r (x ▸ hr)
      rw [upd_ne _ _ hwc]
      obtain ⟨h1, h2, h3⟩ := i.pwait r w hr
      refine ⟨h1, h2, ?_⟩
      intro h' hx
      have h4 := h3 h' hx
      have h5 : h' ≠ h := by
        intro y; subst y; rw [hq] at h4; simp at h4; exact hwc h4.symm
      rw [hQne h' h5]; exact h4
    · obtain ⟨h1, h2, h3, h4, h5⟩ := hnext w hr
      rw [upd_ne _ _ h1]
      refine ⟨h2, h4, ?_⟩
      intro h' hx
      obtain ⟨j, h6, h7⟩ := hx
      obtain ⟨j', h8, h9⟩ := h3
      rw [h7] at h9; cases h9
      rw [h6] at h8; cases h8
      rw [upd_same]; exact hr
  · intro r r' w h1 h2
    rw [hpend] at h1 h2
    rcases h1 with h1 | ⟨h1, hx⟩ <;> rcases h2 with h2 | ⟨h2, hy⟩
    · exact i.pone r r' w h1 h2
    · exact absurd h1 ((hnext w hy).2.2.2.2 r)
    · exact absurd h2 ((hnext w hx).2.2.2.2 r')
    · rw [h1, h2]
  · intro r; by_cases hr : r = c
    · subst hr; rw [upd_same, hpt, hws]
      have h1 := i.pnodup r
      rw [hpc'] at h1
      cases hl : l.head? with
      | none => exact h1
      | some x =>
        rw [List.nodup_append]
        refine ⟨h1, by simp, ?_⟩
        intro a ha b hb
        simp at hb; subst hb
        intro y; subst y
        have := (hnext a hl).2.2.2.2 r
        rw [hpc'] at this; exact this ha
    · rw [upd_ne _ _ hr]; exact i.pnodup r
  · intro w h' h1 h2 h3
    have hwc : w ≠ c := by
      intro x; subst x; rw [upd_same] at h1; simp [t] at h1
    rw [upd_ne _ _ hwc] at h1 h2 ⊢
    by_cases hx : h' = h
    · subst hx; rw [upd_same] at h3
      exact .inr ⟨c, by rw [hpend]; exact .inr ⟨rfl, h3⟩⟩
    · rw [hQne h' hx] at h3
      rcases i.tok w h' h1 h2 h3 with hx | ⟨r, hr⟩
      · exact .inl hx
      · exact .inr ⟨r, by rw [hpend]; exact .inl hr⟩
  · intro w; by_cases hwc : w = c
    · subst hwc; rw [upd_same]; left
      change (T w).count = 0
      rcases i.cnt w with hx | hx
      · exact hx
      · rw [hpc] at hx; cases hx.1
    · rw [upd_ne _ _ hwc]
      rcases i.cnt w with hx | ⟨h1, h2, h3⟩
      · exact .inl hx
      · refine .inr ⟨h1, h2, ?_⟩
        intro h' hx
        have h4 := h3 h' hx
        have h5 : h' ≠ h := by
          intro y; subst y; rw [hq] at h4; simp at h4; exact hwc h4.symm
        rw [hQne h' h5]; exact h4

/-- A request that owns and wants nothing moves on. -/
theorem Inv.after {t : Thread} (hb : ∀ h, ¬ Holds (T c) h) (hbw : ∀ h, ¬ Wants (T c) h)
    (hreq : t.req.Pairwise (· < ·)) (hnz : ∀ h ∈ t.req, h ≠ 0) (hsh : Shape t)
    (hw : t.pc ≠ .wait) (hw' : (T c).pc ≠ .wait) (hc : t.count = (T c).count)
    (hp : pend t = pend (T c)) (ha : ∀ h, ¬ Holds t h) :
    Inv Q (upd T c t) := by
  have hcc : (T c).count = 0 := by
    rcases i.cnt c with h | h
    · exact h
    · exact absurd h.1 hw'
  have hnp : ∀ r, c ∉ pend (T r) := fun r hr => hw' (i.pwait r c hr).1
  have hpend : ∀ r, pend (upd T c t r) = pend (T r) := by
    intro r; by_cases hr : r = c
    · subst hr; rw [upd_same, hp]
    · rw [upd_ne _ _ hr]
  have hq : ∀ h, c ∉ Q h := by
    intro h hm
    rcases i.mem c h hm with h1 | h1
    · exact hb h h1
    · exact hbw h h1.1
  constructor
  · intro d; by_cases hd : d = c
    · subst hd; rw [upd_same]; exact hreq
    · rw [upd_ne _ _ hd]; exact i.sorted d
  · intro d; by_cases hd : d = c
    · subst hd; rw [upd_same]; exact hnz
    · rw [upd_ne _ _ hd]; exact i.nz d
  · intro d; by_cases hd : d = c
    · subst hd; rw [upd_same]; exact hsh
    · rw [upd_ne _ _ hd]; exact i.shape d
  · exact i.nodup
  · intro d h hmem; by_cases hd : d = c
    · subst hd; exact absurd hmem (hq h)
    · rw [upd_ne _ _ hd]; exact i.mem d h hmem
  · intro d h hx; by_cases hd : d = c
    · subst hd; rw [upd_same] at hx; exact absurd hx (ha h)
    · rw [upd_ne _ _ hd] at hx; exact i.head d h hx
  · intro d h h1 h2; by_cases hd : d = c
    · subst hd; rw [upd_same] at h1; exact absurd h1 hw
    · rw [upd_ne _ _ hd] at h1 h2; exact i.inq d h h1 h2
  · intro r w hr
    rw [hpend] at hr
    have hwc : w ≠ c := fun x => hnp r (x ▸ hr)
    rw [upd_ne _ _ hwc]; exact i.pwait r w hr
  · intro r r' w h1 h2
    rw [hpend] at h1 h2
    exact i.pone r r' w h1 h2
  · intro r; rw [hpend]; exact i.pnodup r
  · intro w h h1 h2 h3
    have hwc : w ≠ c := by
      intro x; subst x; rw [upd_same] at h1; exact hw h1
    rw [upd_ne _ _ hwc] at h1 h2 ⊢
    rcases i.tok w h h1 h2 h3 with hx | ⟨r, hr⟩
    · exact .inl hx
    · exact .inr ⟨r, by rw [hpend]; exact hr⟩
  · intro w; by_cases hwc : w = c
    · subst hwc; rw [upd_same]; left; rw [hc, hcc]
    · rw [upd_ne _ _ hwc]; exact i.cnt w

/-- The first half of `DecreaseSignal`. -/
theorem Inv.dec {w : Cid} {ws : List Cid} (hpc : (T c).pc = .wake (w :: ws)) :
    w ≠ c ∧ (T w).pc = .wait ∧
    Inv Q (upd (upd T w { T w with count := (T w).count - 1 }) c { T c with pc := .poke w ws }) := by
  have hwp : w ∈ pend (T c) := by simp [pend, hpc]
  obtain ⟨h1, h2, h3⟩ := i.pwait c w hwp
  have hwc : w ≠ c := by intro x; subst x; rw [hpc] at h1; cases h1
  refine ⟨hwc, h1, ?_⟩
  have hnd := i.pnodup c
  simp only [pend, hpc, List.nodup_cons] at hnd
  let T' := upd (upd T w { T w with count := (T w).count - 1 }) c { T c with pc := .poke w ws }
  change Inv Q T'
  have eC : T' c = { T c with pc := .poke w ws } := upd_same _ _ _
  have eW : T' w = { T w with count := (T w).count - 1 } := by
    simp only [T']; rw [upd_ne _ _ hwc, upd_same]
  have eD : ∀ d, d ≠ c → d ≠ w → T' d = T d := by
    intro d hd1 hd2; simp only [T']; rw [upd_ne _ _ hd1, upd_ne _ _ hd2]
  have hreq : ∀ d, (T' d).req = (T d).req := by
    intro d
    by_cases hd1 : d = c
    · subst hd1; rw [eC]
    · by_cases hd2 : d = w
      · subst hd2; rw [eW]
      · rw [eD d hd1 hd2]
  have hpcd : ∀ d, d ≠ c → (T' d).pc = (T d).pc := by
    intro d hd1
    by_cases hd2 : d = w
    · subst hd2; rw [eW]
    · rw [eD d hd1 hd2]
  have hHolds : ∀ d h, Holds (T' d) h ↔ Holds (T d) h := by
    intro d h
    by_cases hd1 : d = c
    · subst hd1; rw [eC]; simp [Holds, lo, hi, hpc]
    · by_cases hd2 : d = w
      · subst hd2; rw [eW]; simp [Holds, lo, hi]
      · rw [eD d hd1 hd2]
  have hWants : ∀ d h, Wants (T' d) h ↔ Wants (T d) h := by
    intro d h
    by_cases hd1 : d = c
    · subst hd1; rw [eC]; simp [Wants, nxt, hpc]
    · by_cases hd2 : d = w
      · subst hd2; rw [eW]; simp [Wants, nxt]
      · rw [eD d hd1 hd2]
  have hpcw : ∀ d, (T' d).pc = .wait ↔ (T d).pc = .wait := by
    intro d
    by_cases hd1 : d = c
    · subst hd1; rw [eC, hpc]; simp
    · rw [hpcd d hd1]
  have hpend : ∀ r x, x ∈ pend (T' r) ↔ x ∈ pend (T r) ∧ x ≠ w := by
    intro r x
    by_cases hr : r = c
    · subst hr; rw [eC]; simp only [pend, hpc, List.mem_cons]
      constructor
      · intro hx; exact ⟨.inr hx, fun y => hnd.1 (y ▸ hx)⟩
      · rintro ⟨hx | hx, hy⟩
        · exact absurd hx hy
        · exact hx
    · have : pend (T' r) = pend (T r) := by
        by_cases hd2 : r = w
        · subst hd2; rw [eW]; simp [pend]
        · rw [eD r hr hd2]
      rw [this]
      constructor
      · intro hx; refine ⟨hx, ?_⟩
        intro y; subst y; exact hr (i.pone r c x hx hwp)
      · exact fun hx => hx.1
  have hcount : ∀ d, d ≠ w → (T' d).count = (T d).count := by
    intro d hd2
    by_cases hd1 : d = c
    · subst hd1; rw [eC]
    · rw [eD d hd1 hd2]
  have hcw : (T' w).count = -1 := by rw [eW]; simp only; omega
  constructor
  · intro d; rw [hreq]; exact i.sorted d
  · intro d; rw [hreq]; exact i.nz d
  · intro d
    by_cases hd1 : d = c
    · subst hd1; rw [eC]; simp [Shape]
    · by_cases hd2 : d = w
      · subst hd2; rw [eW]
        have := i.shape d
        simp only [Shape, h1] at this ⊢; exact this
      · rw [eD d hd1 hd2]; exact i.shape d
  · exact i.nodup
  · intro d h hd; rw [hHolds, hWants, hpcw]; exact i.mem d h hd
  · intro d h hd; rw [hHolds] at hd; exact i.head d h hd
  · intro d h hx hy; rw [hpcw] at hx; rw [hWants] at hy; exact i.inq d h hx hy
  · intro r x hx
    rw [hpend] at hx
    obtain ⟨a, b, d⟩ := i.pwait r x hx.1
    refine ⟨(hpcw x).2 a, by rw [hcount x hx.2]; exact b, ?_⟩
    intro h hh; rw [hWants] at hh; exact d h hh
  · intro r r' x hx hy
    rw [hpend] at hx hy
    exact i.pone r r' x hx.1 hy.1
  · intro r
    by_cases hr : r = c
    · subst hr; rw [eC]; simp only [pend]; exact hnd.2
    · have : pend (T' r) = pend (T r) := by
        by_cases hd2 : r = w
        · subst hd2; rw [eW]; simp [pend]
        · rw [eD r hr hd2]
      rw [this]; exact i.pnodup r
  · intro x h hx hy hz
    rw [hpcw] at hx; rw [hWants] at hy
    by_cases hxw : x = w
    · subst hxw; exact .inl hcw
    · rcases i.tok x h hx hy hz with ha | ⟨r, hr⟩
      · left; rw [hcount x hxw]; exact ha
      · right; exact ⟨r, (hpend r x).2 ⟨hr, hxw⟩⟩
  · intro x
    by_cases hxw : x = w
    · subst hxw; right
      refine ⟨(hpcw x).2 h1, hcw, ?_⟩
      intro h hh; rw [hWants] at hh; exact h3 h hh
    · rw [hcount x hxw, hpcw]
      rcases i.cnt x with ha | ⟨ha, hb, hc⟩
      · exact .inl ha
      · refine .inr ⟨ha, hb, ?_⟩
        intro h hh; rw [hWants] at hh; exact hc h hh

end steps

end Verif.Latch
