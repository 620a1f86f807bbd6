import Verif.Txn.Steps

/-!
# Transaction engine: the prewrite loop
-/

namespace Verif.Txn
open Verif.Codec

/-- What a lock that `Prewrite` is going to write says about its mutation. -/
structure Ent (st : State) (r : PrewriteReq) (m : Mut) (l : LockInfo) : Prop where
  pass : prewriteLockCheck st r m = .pass false
  rb : (view st m.key).noRollback r.startTs
  conf : m.pess = false → (view st m.key).commitsBelow r.startTs
  ok : LockOk m.key l
  ts : l.lockTs = r.startTs
  primary : l.primary = r.primary
  ttl : l.ttl = r.ttl
  minTs : r.minCommitTs ≤ l.minCommitTs
  prevMin : (getLock st m.key).minCommitTs ≤ l.minCommitTs
  fu : l.forUpdateTs = (getLock st m.key).forUpdateTs
  op : ((m.op = .put ∨ m.op = .putIfAbsent) ∧ l.type = .put ∧ m.value ≠ [] ∧
      l.shortValue = if m.value.length ≤ maxShortValue then m.value else (getLock st m.key).shortValue) ∨
    (m.op = .delete ∧ l.type = .delete ∧ l.shortValue = (getLock st m.key).shortValue)

/-- The value of a long put is among the data writes. -/
def DataOf (r : PrewriteReq) (a : PwAcc) (m : Mut) : Prop :=
  m.op ≠ .delete → m.value.length > maxShortValue → ((⟨m.key, r.startTs⟩ : VKey), m.value) ∈ a.data

/-- Invariant of the prewrite loop; `ms` are the mutations handled so far. -/
structure AccOk (st : State) (r : PrewriteReq) (ms : List Mut) (a : PwAcc) : Prop where
  locks : ∀ e ∈ a.locks, ∃ m ∈ ms, e.1 = m.key ∧ Ent st r m e.2 ∧ DataOf r a m
  onePc : ∀ e ∈ a.onePc, ∃ m ∈ ms, e.1 = m.key ∧ e.2.1 = m.value ∧ e.2.2.2 = m.pess ∧ Ent st r m e.2.2.1 ∧
    DataOf r a m ∧ st.maxTs < e.2.2.1.minCommitTs ∧ r.startTs < e.2.2.1.minCommitTs
  data : ∀ e ∈ a.data, ∃ m ∈ ms, e = (⟨m.key, r.startTs⟩, m.value) ∧ m.op ≠ .delete ∧
    m.value.length > maxShortValue ∧
    ∃ l, ((m.key, l) ∈ a.locks ∨ (m.key, m.value, l, m.pess) ∈ a.onePc) ∧ Ent st r m l
  final : a.tryOnePc = true → ∀ e ∈ a.onePc, e.2.2.1.minCommitTs ≤ a.finalMin
  async : a.async = true → ∀ e ∈ a.locks, st.maxTs < e.2.minCommitTs ∧ e.2.minCommitTs ≤ a.finalMin
  asyncOne : a.async = true → ∀ e ∈ a.onePc, e.2.2.1.minCommitTs ≤ a.finalMin
  fmax : a.finalMin ≤ maxVer
  noLocks : a.tryOnePc = true → a.locks = []
  cov : a.results = [] → ∀ m ∈ ms, m.op ≠ .checkNotExists →
    (∃ l, ((m.key, l) ∈ a.locks ∨ (m.key, m.value, l, m.pess) ∈ a.onePc) ∧ Ent st r m l) ∨
      (prewriteLockCheck st r m = .pass true ∧ a.tryOnePc = false ∧ a.async = false)
  rb : a.results = [] → ∀ m ∈ ms, (view st m.key).noRollback r.startTs
  conf : a.results = [] → ∀ m ∈ ms, m.pess = false → (view st m.key).commitsBelow r.startTs
  exist : a.results = [] → a.exist = [] → ∀ m ∈ ms, m.op = .putIfAbsent ∨ m.op = .checkNotExists →
    (wiOf (getWriteInfo st 0 maxVer 0 m.key false true true)).op ≠ .put

theorem genFinal_spec {mx : Int} {l : LockInfo} {s fu mc f : Int}
    (h : genFinalMinCommitTs mx l s fu mc = some f) :
    f = 0 ∨ (mx < f ∧ s < f ∧ l.minCommitTs ≤ f ∧ (l.minCommitTs ≤ maxVer → f ≤ maxVer)) := by
  simp only [genFinalMinCommitTs] at h
  split at h
  · cases h
  · rename_i hm
    simp only [Option.some.injEq] at h
    split at h
    · exact Or.inl h.symm
    · right; omega

/-- `l'` differs from `l` only in the async-commit fields and a larger minimum. -/
structure SameCore (l l' : LockInfo) : Prop where
  primary : l'.primary = l.primary
  lockTs : l'.lockTs = l.lockTs
  key : l'.key = l.key
  ttl : l'.ttl = l.ttl
  type : l'.type = l.type
  short : l'.shortValue = l.shortValue
  fu : l'.forUpdateTs = l.forUpdateTs
  minTs : l.minCommitTs ≤ l'.minCommitTs
  maxTs : l'.minCommitTs ≤ maxVer

theorem finishLock_spec {st : State} {r : PrewriteReq} {m : Mut} {l : LockInfo} {a a' : PwAcc} {f : Int}
    (hs : 0 < r.startTs) (hl : l.minCommitTs ≤ maxVer) (h : finishLock st r m l a = some (a', f)) :
    ∃ l', SameCore l l' ∧ a'.data = a.data ∧ a'.results = a.results ∧ a'.exist = a.exist ∧
      a'.finalMin = a.finalMin ∧ f ≤ maxVer ∧
      ((a'.locks = a.locks ++ [(m.key, l')] ∧ a'.onePc = a.onePc ∧ a'.tryOnePc = false ∧
          (a'.async = true → a.async = true ∧ st.maxTs < l'.minCommitTs ∧ l'.minCommitTs ≤ f)) ∨
        (a'.locks = a.locks ∧ a'.onePc = a.onePc ++ [(m.key, m.value, l', m.pess)] ∧ a'.tryOnePc = true ∧
          a.tryOnePc = true ∧ a'.async = a.async ∧
          st.maxTs < l'.minCommitTs ∧ r.startTs < l'.minCommitTs ∧ l'.minCommitTs ≤ f)) := by
  simp only [finishLock] at h
  split at h
  · rename_i hta
    split at h
    · cases h
    · rename_i f' hf
      rcases genFinal_spec hf with h0 | ⟨h1, h2, h3, h4'⟩
      · rw [if_pos h0] at h
        simp only [Option.some.injEq, Prod.mk.injEq] at h
        obtain ⟨rfl, rfl⟩ := h
        refine ⟨{ l with useAsync := false, secondaries := [] },
          ⟨rfl, rfl, rfl, rfl, rfl, rfl, rfl, Int.le_refl _, hl⟩, rfl, rfl, rfl, rfl, ?_, Or.inl ⟨rfl, rfl, rfl, ?_⟩⟩
        · rw [h0]; simp [maxVer]
        · intro hh; cases hh
      · have h4 := h4' hl
        have hne : f' ≠ 0 := by omega
        rw [if_neg hne] at h
        split at h
        · rename_i ht
          simp only [Option.some.injEq, Prod.mk.injEq] at h
          obtain ⟨rfl, rfl⟩ := h
          exact ⟨{ l with minCommitTs := f' }, ⟨rfl, rfl, rfl, rfl, rfl, rfl, rfl, h3, h4⟩, rfl, rfl, rfl, rfl, h4,
            Or.inr ⟨rfl, rfl, ht, ht, rfl, h1, h2, Int.le_refl _⟩⟩
        · rename_i ht
          simp only [Option.some.injEq, Prod.mk.injEq] at h
          obtain ⟨rfl, rfl⟩ := h
          exact ⟨{ l with minCommitTs := f' }, ⟨rfl, rfl, rfl, rfl, rfl, rfl, rfl, h3, h4⟩, rfl, rfl, rfl, rfl, h4,
            Or.inl ⟨rfl, rfl, by simpa using ht, fun ha => ⟨ha, h1, Int.le_refl _⟩⟩⟩
  · rename_i hta
    simp only [Option.some.injEq, Prod.mk.injEq] at h
    obtain ⟨rfl, rfl⟩ := h
    simp only [not_or, Bool.not_eq_true] at hta
    refine ⟨l, ⟨rfl, rfl, rfl, rfl, rfl, rfl, rfl, Int.le_refl _, hl⟩, rfl, rfl, rfl, rfl, by simp [maxVer], Or.inl ⟨rfl, rfl, hta.1, ?_⟩⟩
    intro hh
    simp only at hh
    rw [hta.2] at hh; cases hh

theorem getLock_fu0 {st : State} (h : Inv st) (k : Bytes) : 0 ≤ (getLock st k).forUpdateTs := by
  rcases getLock_cases h k with ⟨_, h2⟩ | ⟨_, h2⟩
  · rw [h2]; simp
  · exact h2.fu0

theorem getLock_minTs {st : State} (h : Inv st) (k : Bytes) : (getLock st k).minCommitTs ≤ maxVer := by
  rcases getLock_cases h k with ⟨_, h2⟩ | ⟨_, h2⟩
  · rw [h2]; simp [maxVer]
  · exact h2.minTs

theorem mkLock_spec {r : PrewriteReq} {m : Mut} {prev : LockInfo} {ty : Op} {short : Bytes} {as : Bool} :
    (mkLock r m prev ty short as).primary = r.primary ∧ (mkLock r m prev ty short as).lockTs = r.startTs ∧
    (mkLock r m prev ty short as).key = m.key ∧ (mkLock r m prev ty short as).ttl = r.ttl ∧
    (mkLock r m prev ty short as).type = ty ∧
    (mkLock r m prev ty short as).shortValue = (if short = [] then prev.shortValue else short) ∧
    (mkLock r m prev ty short as).forUpdateTs = prev.forUpdateTs ∧
    (mkLock r m prev ty short as).minCommitTs = max prev.minCommitTs r.minCommitTs := by
  have hmax : (if prev.minCommitTs < r.minCommitTs then r.minCommitTs else prev.minCommitTs) =
      max prev.minCommitTs r.minCommitTs := by omega
  simp only [mkLock, ne_eq]
  by_cases h1 : short = [] <;> by_cases h2 : m.extra = [] <;> cases as <;>
    simp [h1, h2, hmax]

/-- The facts `prewriteOne` has established when it reaches `GenPrewriteDataAndLock`. -/
structure Reach (st : State) (r : PrewriteReq) (m : Mut) : Prop where
  rb : (view st m.key).noRollback r.startTs
  conf : m.pess = false → (view st m.key).commitsBelow r.startTs
  pia : m.op = .putIfAbsent → (wiOf (getWriteInfo st 0 maxVer 0 m.key false true true)).op ≠ .put

theorem ent_of {st : State} (h : Inv st) {r : PrewriteReq} (hs : 0 < r.startTs ∧ r.startTs ≤ maxVer)
    (hp : r.primary ≠ []) {m : Mut} (hr : Reach st r m)
    (hpass : prewriteLockCheck st r m = .pass false) {ty : Op} {short : Bytes} {as : Bool}
    (hty : ty = .put ∧ (m.op = .put ∨ m.op = .putIfAbsent) ∧ m.value ≠ [] ∧
        short = (if m.value.length ≤ maxShortValue then m.value else []) ∨
      ty = .delete ∧ m.op = .delete ∧ short = [])
    {l' : LockInfo} (hc : SameCore (mkLock r m (getLock st m.key) ty short as) l') : Ent st r m l' := by
  obtain ⟨k1, k2, k3, k4, k5, k6, k7, k8⟩ :=
    @mkLock_spec r m (getLock st m.key) ty short as
  have hty' : ty = .put ∨ ty = .delete := by
    rcases hty with h | h
    · exact Or.inl h.1
    · exact Or.inr h.1
  refine ⟨hpass, hr.rb, hr.conf, ⟨?_, ?_, ?_, ?_, ?_, ?_, hc.maxTs⟩, ?_, ?_, ?_, ?_, ?_, ?_, ?_⟩
  · rw [hc.key, k3]
  · rw [hc.primary, k1]; exact hp
  · rw [hc.lockTs, k2]; exact hs
  · rw [hc.type, k5]
    rcases hty' with h | h
    · exact Or.inl h
    · exact Or.inr (Or.inl h)
  · rw [hc.fu, k7]; exact getLock_fu0 h _
  · intro ht; rw [hc.type, k5] at ht
    rcases hty' with h | h <;> rw [h] at ht <;> cases ht
  · rw [hc.lockTs, k2]
  · rw [hc.primary, k1]
  · rw [hc.ttl, k4]
  · have := hc.minTs; omega
  · have := hc.minTs; omega
  · rw [hc.fu, k7]
  · rw [hc.type, k5, hc.short, k6]
    rcases hty with ⟨h1, h2, h3, h4⟩ | ⟨h1, h2, h3⟩
    · left
      refine ⟨h2, h1, h3, ?_⟩
      rw [h4]
      by_cases hlen : m.value.length ≤ maxShortValue
      · rw [if_pos hlen, if_pos hlen, if_neg h3]
      · rw [if_neg hlen, if_neg hlen, if_pos rfl]
    · right
      refine ⟨h2, h1, ?_⟩
      rw [h3, if_pos rfl]

theorem DataOf.mono {r : PrewriteReq} {a a' : PwAcc} {m : Mut} (hd : ∀ e ∈ a.data, e ∈ a'.data)
    (h : DataOf r a m) : DataOf r a' m := fun h1 h2 => hd _ (h h1 h2)

/-- One lock-writing mutation keeps the loop invariant. -/
theorem AccOk.push {st : State} {r : PrewriteReq} {ms : List Mut} {m : Mut}
    {a a1 a' : PwAcc} {f : Int} {l' : LockInfo}
    (ha : AccOk st r ms a) (hr : Reach st r m) (hent : Ent st r m l')
    (hcne : m.op ≠ .checkNotExists)
    (hd1 : a1.data = if m.op ≠ .delete ∧ m.value.length > maxShortValue
        then a.data ++ [(⟨m.key, r.startTs⟩, m.value)] else a.data)
    (h1 : a1.locks = a.locks ∧ a1.onePc = a.onePc ∧ a1.tryOnePc = a.tryOnePc ∧ a1.async = a.async ∧
      a1.finalMin = a.finalMin ∧ a1.results = a.results ∧ a1.exist = a.exist)
    (hdata : a'.data = a1.data) (hres : a'.results = a1.results) (hex : a'.exist = a1.exist)
    (hfm : a'.finalMin = a1.finalMin) (hf : f ≤ maxVer)
    (hcase : (a'.locks = a1.locks ++ [(m.key, l')] ∧ a'.onePc = a1.onePc ∧ a'.tryOnePc = false ∧
          (a'.async = true → a1.async = true ∧ st.maxTs < l'.minCommitTs ∧ l'.minCommitTs ≤ f)) ∨
        (a'.locks = a1.locks ∧ a'.onePc = a1.onePc ++ [(m.key, m.value, l', m.pess)] ∧ a'.tryOnePc = true ∧
          a1.tryOnePc = true ∧ a'.async = a1.async ∧
          st.maxTs < l'.minCommitTs ∧ r.startTs < l'.minCommitTs ∧ l'.minCommitTs ≤ f)) :
    AccOk st r (ms ++ [m])
      (if a'.tryOnePc ∨ a'.async then { a' with finalMin := if a'.finalMin < f then f else a'.finalMin }
        else { a' with finalMin := 0 }) := by
  obtain ⟨c1, c2, c3, c4, c5, c6, c7⟩ := h1
  rw [c1, c2, c3, c4] at hcase
  rw [c5] at hfm
  rw [c6] at hres
  rw [c7] at hex
  have hsub : ∀ e ∈ a.data, e ∈ a'.data := by
    intro e he
    rw [hdata, hd1]
    split
    · exact List.mem_append_left _ he
    · exact he
  have hdm : DataOf r a' m := by
    intro h2 h3
    rw [hdata, hd1, if_pos ⟨h2, h3⟩]
    exact List.mem_append_right _ List.mem_cons_self
  -- the parts that do not depend on finalMin
  have hlocks : ∀ e ∈ a'.locks, ∃ m' ∈ ms ++ [m], e.1 = m'.key ∧ Ent st r m' e.2 ∧ DataOf r a' m' := by
    intro e he
    have : e ∈ a.locks ∨ e = (m.key, l') := by
      rcases hcase with hc | hc
      · rw [hc.1] at he; simpa using he
      · rw [hc.1] at he; exact Or.inl he
    rcases this with h | rfl
    · obtain ⟨m', b1, b2, b3, b4⟩ := ha.locks e h
      exact ⟨m', List.mem_append_left _ b1, b2, b3, b4.mono hsub⟩
    · exact ⟨m, by simp, rfl, hent, hdm⟩
  have hone : ∀ e ∈ a'.onePc, ∃ m' ∈ ms ++ [m], e.1 = m'.key ∧ e.2.1 = m'.value ∧ e.2.2.2 = m'.pess ∧
      Ent st r m' e.2.2.1 ∧ DataOf r a' m' ∧ st.maxTs < e.2.2.1.minCommitTs ∧
      r.startTs < e.2.2.1.minCommitTs := by
    intro e he
    have : e ∈ a.onePc ∨ (e = (m.key, m.value, l', m.pess) ∧ st.maxTs < l'.minCommitTs ∧
        r.startTs < l'.minCommitTs) := by
      rcases hcase with hc | hc
      · rw [hc.2.1] at he; exact Or.inl he
      · rw [hc.2.1] at he
        rcases List.mem_append.1 he with he | he
        · exact Or.inl he
        · exact Or.inr ⟨by simpa using he, hc.2.2.2.2.2.1, hc.2.2.2.2.2.2.1⟩
    rcases this with h | ⟨rfl, h, h'⟩
    · obtain ⟨m', b1, b2, b3, b4, b5, b6, b7⟩ := ha.onePc e h
      exact ⟨m', List.mem_append_left _ b1, b2, b3, b4, b5, b6.mono hsub, b7⟩
    · exact ⟨m, by simp, rfl, rfl, rfl, hent, hdm, h, h'⟩
  have hin : ((m.key, l') ∈ a'.locks ∨ (m.key, m.value, l', m.pess) ∈ a'.onePc) := by
    rcases hcase with hc | hc
    · left; rw [hc.1]; simp
    · right; rw [hc.2.1]; simp
  have hup : ∀ (m' : Mut) (l : LockInfo), ((m'.key, l) ∈ a.locks ∨ (m'.key, m'.value, l, m'.pess) ∈ a.onePc) →
      ((m'.key, l) ∈ a'.locks ∨ (m'.key, m'.value, l, m'.pess) ∈ a'.onePc) := by
    intro m' l hh
    rcases hcase with hc | hc
    · rcases hh with hh | hh
      · left; rw [hc.1]; exact List.mem_append_left _ hh
      · right; rw [hc.2.1]; exact hh
    · rcases hh with hh | hh
      · left; rw [hc.1]; exact hh
      · right; rw [hc.2.1]; exact List.mem_append_left _ hh
  have hdat : ∀ e ∈ a'.data, ∃ m' ∈ ms ++ [m], e = (⟨m'.key, r.startTs⟩, m'.value) ∧ m'.op ≠ .delete ∧
      m'.value.length > maxShortValue ∧
      ∃ l, ((m'.key, l) ∈ a'.locks ∨ (m'.key, m'.value, l, m'.pess) ∈ a'.onePc) ∧ Ent st r m' l := by
    intro e he
    rw [hdata, hd1] at he
    have : e ∈ a.data ∨ (e = (⟨m.key, r.startTs⟩, m.value) ∧ m.op ≠ .delete ∧ m.value.length > maxShortValue) := by
      split at he
      · rename_i hh
        rcases List.mem_append.1 he with he | he
        · exact Or.inl he
        · exact Or.inr ⟨by simpa using he, hh⟩
      · exact Or.inl he
    rcases this with h | ⟨rfl, h2, h3⟩
    · obtain ⟨m', b1, b2, b3, b4, l, b5, b6⟩ := ha.data e h
      exact ⟨m', List.mem_append_left _ b1, b2, b3, b4, l, hup m' l b5, b6⟩
    · exact ⟨m, by simp, rfl, h2, h3, l', hin, hent⟩
  have hcov : a'.results = [] → ∀ m' ∈ ms ++ [m], m'.op ≠ .checkNotExists →
      (∃ l, ((m'.key, l) ∈ a'.locks ∨ (m'.key, m'.value, l, m'.pess) ∈ a'.onePc) ∧ Ent st r m' l) ∨
        (prewriteLockCheck st r m' = .pass true ∧ a'.tryOnePc = false ∧ a'.async = false) := by
    intro hre m' hm' hne
    rcases List.mem_append.1 hm' with hm' | hm'
    · rcases ha.cov (hres ▸ hre) m' hm' hne with ⟨l, b1, b2⟩ | ⟨b1, b2, b3⟩
      · exact Or.inl ⟨l, hup m' l b1, b2⟩
      · right
        rcases hcase with hc | hc
        · refine ⟨b1, hc.2.2.1, ?_⟩
          cases has : a'.async with
          | false => rfl
          | true => have := (hc.2.2.2 has).1; rw [b3] at this; cases this
        · have := hc.2.2.2.1; rw [b2] at this; cases this
    · simp only [List.mem_singleton] at hm'
      subst hm'
      exact Or.inl ⟨l', hin, hent⟩
  have hrb : a'.results = [] → ∀ m' ∈ ms ++ [m], (view st m'.key).noRollback r.startTs := by
    intro hre m' hm'
    rcases List.mem_append.1 hm' with hm' | hm'
    · exact ha.rb (hres ▸ hre) m' hm'
    · simp only [List.mem_singleton] at hm'; subst hm'; exact hr.rb
  have hcf : a'.results = [] → ∀ m' ∈ ms ++ [m], m'.pess = false → (view st m'.key).commitsBelow r.startTs := by
    intro hre m' hm'
    rcases List.mem_append.1 hm' with hm' | hm'
    · exact ha.conf (hres ▸ hre) m' hm'
    · simp only [List.mem_singleton] at hm'; subst hm'; exact hr.conf
  have hexi : a'.results = [] → a'.exist = [] → ∀ m' ∈ ms ++ [m], m'.op = .putIfAbsent ∨ m'.op = .checkNotExists →
      (wiOf (getWriteInfo st 0 maxVer 0 m'.key false true true)).op ≠ .put := by
    intro hre hee m' hm' hop
    rcases List.mem_append.1 hm' with hm' | hm'
    · exact ha.exist (hres ▸ hre) (hex ▸ hee) m' hm' hop
    · simp only [List.mem_singleton] at hm'
      subst hm'
      rcases hop with hop | hop
      · exact hr.pia hop
      · exact absurd hop hcne
  have hnl : a'.tryOnePc = true → a'.locks = [] := by
    intro ht
    rcases hcase with hc | hc
    · rw [hc.2.2.1] at ht; cases ht
    · rw [hc.1]; exact ha.noLocks hc.2.2.2.1
  have hfa := ha.fmax
  split
  · refine ⟨hlocks, hone, hdat, ?_, ?_, ?_, ?_, hnl, hcov, hrb, hcf, hexi⟩
    · intro ht e he
      simp only at ht he ⊢
      rcases hcase with hc | hc
      · rw [hc.2.2.1] at ht; cases ht
      · rw [hc.2.1] at he
        rcases List.mem_append.1 he with he | he
        · have := ha.final hc.2.2.2.1 e he
          rw [hfm]; omega
        · simp only [List.mem_singleton] at he
          subst he
          have := hc.2.2.2.2.2.2.2
          simp only
          omega
    · intro ht e he
      simp only at ht he ⊢
      rcases hcase with hc | hc
      · rw [hc.1] at he
        obtain ⟨b1, b2, b3⟩ := hc.2.2.2 ht
        rcases List.mem_append.1 he with he | he
        · have := ha.async b1 e he
          rw [hfm]; omega
        · simp only [List.mem_singleton] at he
          subst he
          simp only
          omega
      · rw [hc.1, ha.noLocks hc.2.2.2.1] at he; cases he
    · intro ht e he
      simp only at ht he ⊢
      rcases hcase with hc | hc
      · rw [hc.2.1] at he
        have := ha.asyncOne (hc.2.2.2 ht).1 e he
        rw [hfm]; omega
      · rw [hc.2.1] at he
        rcases List.mem_append.1 he with he | he
        · have := ha.final hc.2.2.2.1 e he
          rw [hfm]; omega
        · simp only [List.mem_singleton] at he
          subst he
          have := hc.2.2.2.2.2.2.2
          simp only
          omega
    · simp only; omega
  · rename_i hno
    simp only [not_or, Bool.not_eq_true] at hno
    refine ⟨hlocks, hone, hdat, ?_, ?_, ?_, ?_, hnl, hcov, hrb, hcf, hexi⟩
    · intro ht; simp only at ht; rw [hno.1] at ht; cases ht
    · intro ht; simp only at ht; rw [hno.2] at ht; cases ht
    · intro ht; simp only at ht; rw [hno.2] at ht; cases ht
    · simp [maxVer]

/-- The part of `prewriteOne` after the checks. -/
theorem genPrewrite_ok {st : State} (h : Inv st) {r : PrewriteReq} (hs : 0 < r.startTs ∧ r.startTs ≤ maxVer)
    (hp : r.primary ≠ []) (hmin : r.minCommitTs ≤ maxVer) {ms : List Mut} {m : Mut} (hr : Reach st r m)
    (hpass : prewriteLockCheck st r m = .pass false) {a a' : PwAcc} {f : Int} (ha : AccOk st r ms a)
    (hcne : m.op = .checkNotExists → a.exist = [] → (wiOf (getWriteInfo st 0 maxVer 0 m.key false true true)).op ≠ .put)
    (he : genPrewrite st r m (getLock st m.key) (wiOf (getWriteInfo st 0 maxVer 0 m.key false true true)) a
      = .ok (a', f)) :
    AccOk st r (ms ++ [m])
      (if a'.tryOnePc ∨ a'.async then { a' with finalMin := if a'.finalMin < f then f else a'.finalMin }
        else { a' with finalMin := 0 }) := by
  have hmk : ∀ ty short as, (mkLock r m (getLock st m.key) ty short as).minCommitTs ≤ maxVer := by
    intro ty short as
    obtain ⟨_, _, _, _, _, _, _, k8⟩ := @mkLock_spec r m (getLock st m.key) ty short as
    have := getLock_minTs h m.key
    omega
  have hput : (m.op = .put ∨ m.op = .putIfAbsent) → genPut st r m (getLock st m.key) a = .ok (a', f) →
      AccOk st r (ms ++ [m])
      (if a'.tryOnePc ∨ a'.async then { a' with finalMin := if a'.finalMin < f then f else a'.finalMin }
        else { a' with finalMin := 0 }) := by
    intro hop he
    simp only [genPut] at he
    split at he
    · cases he
    · rename_i hv
      split at he
      · cases he
      · rename_i x hx
        simp only [Out.ok.injEq] at he
        subst he
        obtain ⟨l', b1, b2, b3, b4, b5, b6, b7⟩ := finishLock_spec hs.1 (hmk _ _ _) hx
        have hent := ent_of h hs hp hr hpass (Or.inl ⟨rfl, hop, hv, rfl⟩) b1
        have hnd : m.op ≠ .delete := by rcases hop with h | h <;> rw [h] <;> decide
        have hnc : m.op ≠ .checkNotExists := by rcases hop with h | h <;> rw [h] <;> decide
        refine AccOk.push ha hr hent hnc ?_ ?_ b2 b3 b4 b5 b6 b7
        · by_cases hlen : m.value.length > maxShortValue
          · simp [hlen, hnd]
          · simp [hlen]
        · split <;> exact ⟨rfl, rfl, rfl, rfl, rfl, rfl, rfl⟩
  simp only [genPrewrite] at he
  split at he
  · rename_i hop; exact hput (Or.inl hop) he
  · rename_i hop
    split at he
    · rename_i hh; exact absurd hh (hr.pia hop)
    · exact hput (Or.inr hop) he
  · rename_i hop
    have : a' = a ∧ f ≤ maxVer := by
      split at he
      · split at he
        · cases he
        · simp only [Out.ok.injEq, Prod.mk.injEq] at he
          exact ⟨he.1.symm, by omega⟩
      · simp only [Out.ok.injEq, Prod.mk.injEq] at he
        refine ⟨he.1.symm, ?_⟩
        rw [← he.2]; simp [maxVer]
    obtain ⟨rfl, hf⟩ := this
    have hcov : a'.results = [] → ∀ m' ∈ ms ++ [m], m'.op ≠ .checkNotExists →
        (∃ l, ((m'.key, l) ∈ a'.locks ∨ (m'.key, m'.value, l, m'.pess) ∈ a'.onePc) ∧ Ent st r m' l) ∨
          (prewriteLockCheck st r m' = .pass true ∧ a'.tryOnePc = false ∧ a'.async = false) := by
      intro hre m' hm' hne
      rcases List.mem_append.1 hm' with hm' | hm'
      · exact ha.cov hre m' hm' hne
      · simp only [List.mem_singleton] at hm'; subst hm'; exact absurd hop hne
    have hrb : a'.results = [] → ∀ m' ∈ ms ++ [m], (view st m'.key).noRollback r.startTs := by
      intro hre m' hm'
      rcases List.mem_append.1 hm' with hm' | hm'
      · exact ha.rb hre m' hm'
      · simp only [List.mem_singleton] at hm'; subst hm'; exact hr.rb
    have hcf : a'.results = [] → ∀ m' ∈ ms ++ [m], m'.pess = false → (view st m'.key).commitsBelow r.startTs := by
      intro hre m' hm'
      rcases List.mem_append.1 hm' with hm' | hm'
      · exact ha.conf hre m' hm'
      · simp only [List.mem_singleton] at hm'; subst hm'; exact hr.conf
    have hexi : a'.results = [] → a'.exist = [] → ∀ m' ∈ ms ++ [m], m'.op = .putIfAbsent ∨ m'.op = .checkNotExists →
        (wiOf (getWriteInfo st 0 maxVer 0 m'.key false true true)).op ≠ .put := by
      intro hre hee m' hm' hop'
      rcases List.mem_append.1 hm' with hm' | hm'
      · exact ha.exist hre hee m' hm' hop'
      · simp only [List.mem_singleton] at hm'; subst hm'; exact hcne hop hee
    have hl : ∀ e ∈ a'.locks, ∃ m' ∈ ms ++ [m], e.1 = m'.key ∧ Ent st r m' e.2 ∧ DataOf r a' m' := by
      intro e he
      obtain ⟨m', b1, b2⟩ := ha.locks e he
      exact ⟨m', List.mem_append_left _ b1, b2⟩
    have ho : ∀ e ∈ a'.onePc, ∃ m' ∈ ms ++ [m], e.1 = m'.key ∧ e.2.1 = m'.value ∧ e.2.2.2 = m'.pess ∧
        Ent st r m' e.2.2.1 ∧ DataOf r a' m' ∧ st.maxTs < e.2.2.1.minCommitTs ∧
        r.startTs < e.2.2.1.minCommitTs := by
      intro e he
      obtain ⟨m', b1, b2⟩ := ha.onePc e he
      exact ⟨m', List.mem_append_left _ b1, b2⟩
    have hd : ∀ e ∈ a'.data, ∃ m' ∈ ms ++ [m], e = (⟨m'.key, r.startTs⟩, m'.value) ∧ m'.op ≠ .delete ∧
        m'.value.length > maxShortValue ∧
        ∃ l, ((m'.key, l) ∈ a'.locks ∨ (m'.key, m'.value, l, m'.pess) ∈ a'.onePc) ∧ Ent st r m' l := by
      intro e he
      obtain ⟨m', b1, b2⟩ := ha.data e he
      exact ⟨m', List.mem_append_left _ b1, b2⟩
    have hfa := ha.fmax
    split
    · refine ⟨hl, ho, hd, ?_, ?_, ?_, ?_, ha.noLocks, hcov, hrb, hcf, hexi⟩
      · intro ht e he
        have := ha.final ht e he
        simp only; omega
      · intro ht e he
        have := ha.async ht e he
        simp only; omega
      · intro ht e he
        have := ha.asyncOne ht e he
        simp only; omega
      · simp only; omega
    · rename_i hno
      simp only [not_or, Bool.not_eq_true] at hno
      refine ⟨hl, ho, hd, ?_, ?_, ?_, ?_, ha.noLocks, hcov, hrb, hcf, hexi⟩
      · intro ht; simp only at ht; rw [hno.1] at ht; cases ht
      · intro ht; simp only at ht; rw [hno.2] at ht; cases ht
      · intro ht; simp only at ht; rw [hno.2] at ht; cases ht
      · simp [maxVer]
  · rename_i hop
    split at he
    · cases he
    · rename_i x hx
      simp only [Out.ok.injEq] at he
      subst he
      obtain ⟨l', b1, b2, b3, b4, b5, b6, b7⟩ := finishLock_spec hs.1 (hmk _ _ _) hx
      have hent := ent_of h hs hp hr hpass (Or.inr ⟨rfl, hop, rfl⟩) b1
      refine AccOk.push ha hr hent (by rw [hop]; decide) ?_ ⟨rfl, rfl, rfl, rfl, rfl, rfl, rfl⟩ b2 b3 b4 b5 b6 b7
      simp [hop]
  · cases he

/-- A mutation that only adds a result. -/
theorem AccOk.result {st : State} {r : PrewriteReq} {ms : List Mut} {m : Mut} {a : PwAcc} {x : TxnResult}
    (ha : AccOk st r ms a) : AccOk st r (ms ++ [m]) { a with results := a.results ++ [x] } := by
  refine ⟨?_, ?_, ?_, ha.final, ha.async, ha.asyncOne, ha.fmax, ha.noLocks, ?_, ?_, ?_, ?_⟩
  · intro e he; obtain ⟨m', b1, b2⟩ := ha.locks e he; exact ⟨m', List.mem_append_left _ b1, b2⟩
  · intro e he; obtain ⟨m', b1, b2⟩ := ha.onePc e he; exact ⟨m', List.mem_append_left _ b1, b2⟩
  · intro e he; obtain ⟨m', b1, b2⟩ := ha.data e he; exact ⟨m', List.mem_append_left _ b1, b2⟩
  · intro hre; simp at hre
  · intro hre; simp at hre
  · intro hre; simp at hre
  · intro hre; simp at hre

/-- What the result of one mutation, or of the loop, guarantees. -/
def PwStep.Good (st : State) (r : PrewriteReq) (ms : List Mut) : PwStep → Prop
  | .cont a => AccOk st r ms a
  | .brk a => AccOk st r ms a ∨ a.results ≠ [] ∨ a.exist ≠ []
  | _ => True

theorem prewriteOne_ok {st : State} (h : Inv st) {r : PrewriteReq} (hs : 0 < r.startTs ∧ r.startTs ≤ maxVer)
    (hp : r.primary ≠ []) (hmin : r.minCommitTs ≤ maxVer) {ms : List Mut} {m : Mut}
    {a : PwAcc} (ha : AccOk st r ms a) : (prewriteOne st r m a).Good st r (ms ++ [m]) := by
  simp only [prewriteOne]
  split
  · trivial
  · exact ha.result
  · rename_i rep hpass
    rcases getRollback_spec h r.startTs m.key with ⟨hr, _⟩ | ⟨hr, hrb⟩
    · rw [hr]; simp only [PwStep.Good]; right; left; simp
    · rw [hr]
      simp only
      split
      · split
        · trivial
        · simp only [PwStep.Good]; right; left; simp
      · rename_i hconf
        split
        · simp only [PwStep.Good]; right; right; simp
        · rename_i hpia
          split
          · trivial
          · have hcf : m.pess = false → (view st m.key).commitsBelow r.startTs := by
              intro hpe
              exact commitsBelow_of h (fun hh => hconf ⟨hh, hpe⟩)
            have hR : Reach st r m := ⟨hrb, hcf, fun h1 h2 => hpia ⟨h1, h2⟩⟩
            generalize hb : (if m.op = .checkNotExists ∧
              (wiOf (getWriteInfo st 0 maxVer 0 m.key false true true)).op = .put then
                { a with exist := a.exist ++ [m.key] } else a) = b
            have hbe : b.data = a.data ∧ b.locks = a.locks ∧ b.onePc = a.onePc ∧ b.tryOnePc = a.tryOnePc ∧
                b.async = a.async ∧ b.finalMin = a.finalMin ∧ b.results = a.results ∧
                (b.exist = [] → a.exist = [] ∧ (m.op = .checkNotExists →
                  (wiOf (getWriteInfo st 0 maxVer 0 m.key false true true)).op ≠ .put)) := by
              subst hb
              split
              · exact ⟨rfl, rfl, rfl, rfl, rfl, rfl, rfl, fun hh => by simp at hh⟩
              · rename_i hno
                exact ⟨rfl, rfl, rfl, rfl, rfl, rfl, rfl, fun hh => ⟨hh, fun h1 h2 => hno ⟨h1, h2⟩⟩⟩
            obtain ⟨e1, e2, e3, e4, e5, e6, e7, e8⟩ := hbe
            have hDO : ∀ m', DataOf r a m' → DataOf r b m' := fun m' hh => hh.mono (by rw [e1]; exact fun e he => he)
            have hbok : AccOk st r ms b := by
              refine ⟨?_, ?_, ?_, ?_, ?_, ?_, by rw [e6]; exact ha.fmax, ?_, ?_, ?_, ?_, ?_⟩
              · rw [e2]; intro e he; obtain ⟨m', b1, b2, b3, b4⟩ := ha.locks e he
                exact ⟨m', b1, b2, b3, hDO _ b4⟩
              · rw [e3]; intro e he; obtain ⟨m', b1, b2, b3, b4, b5, b6, b7⟩ := ha.onePc e he
                exact ⟨m', b1, b2, b3, b4, b5, hDO _ b6, b7⟩
              · rw [e1, e2, e3]; exact ha.data
              · rw [e3, e4, e6]; exact ha.final
              · rw [e2, e5, e6]; exact ha.async
              · rw [e3, e5, e6]; exact ha.asyncOne
              · rw [e2, e4]; exact ha.noLocks
              · rw [e2, e3, e4, e5, e7]; exact ha.cov
              · rw [e7]; exact ha.rb
              · rw [e7]; exact ha.conf
              · rw [e7]; intro h1 h2; exact ha.exist h1 (e8 h2).1
            split
            · rename_i hrep
              subst hrep
              simp only [PwStep.Good]
              refine ⟨?_, ?_, ?_, ?_, ?_, ?_, hbok.fmax, ?_, ?_, ?_, ?_, ?_⟩
              · intro e he; obtain ⟨m', b1, b2⟩ := hbok.locks e he; exact ⟨m', List.mem_append_left _ b1, b2⟩
              · intro e he; obtain ⟨m', b1, b2⟩ := hbok.onePc e he; exact ⟨m', List.mem_append_left _ b1, b2⟩
              · intro e he; obtain ⟨m', b1, b2⟩ := hbok.data e he; exact ⟨m', List.mem_append_left _ b1, b2⟩
              · intro hh; cases hh
              · intro hh; cases hh
              · intro hh; cases hh
              · intro hh; cases hh
              · intro hre m' hm' hne
                rcases List.mem_append.1 hm' with hm' | hm'
                · rcases hbok.cov hre m' hm' hne with hh | hh
                  · exact Or.inl hh
                  · exact Or.inr ⟨hh.1, rfl, rfl⟩
                · simp only [List.mem_singleton] at hm'; subst hm'
                  exact Or.inr ⟨hpass, rfl, rfl⟩
              · intro hre m' hm'
                rcases List.mem_append.1 hm' with hm' | hm'
                · exact hbok.rb hre m' hm'
                · simp only [List.mem_singleton] at hm'; subst hm'; exact hrb
              · intro hre m' hm'
                rcases List.mem_append.1 hm' with hm' | hm'
                · exact hbok.conf hre m' hm'
                · simp only [List.mem_singleton] at hm'; subst hm'; exact hcf
              · intro hre hee m' hm' hop
                rcases List.mem_append.1 hm' with hm' | hm'
                · exact hbok.exist hre hee m' hm' hop
                · simp only [List.mem_singleton] at hm'; subst hm'
                  rcases hop with hop | hop
                  · exact fun h2 => hpia ⟨hop, h2⟩
                  · exact (e8 hee).2 hop
            · rename_i hrep
              have hrep : rep = false := by simpa using hrep
              subst hrep
              split
              · trivial
              · trivial
              · rename_i a' f hg
                have := genPrewrite_ok h hs hp hmin hR hpass hbok (fun h1 h2 => (e8 h2).2 h1) hg
                split at this
                · rename_i hta; rw [if_pos hta]; exact this
                · rename_i hta; rw [if_neg hta]; exact this

theorem prewriteLoop_ok {st : State} (h : Inv st) {r : PrewriteReq} (hs : 0 < r.startTs ∧ r.startTs ≤ maxVer)
    (hp : r.primary ≠ []) (hmin : r.minCommitTs ≤ maxVer) (ms done : List Mut)
    {a : PwAcc} (ha : AccOk st r done a) : (prewriteLoop st r ms a).Good st r (done ++ ms) := by
  induction ms generalizing done a with
  | nil => simp only [prewriteLoop, PwStep.Good, List.append_nil]; exact Or.inl ha
  | cons m ms ih =>
    have h1 := prewriteOne_ok h hs hp hmin (m := m) ha
    simp only [prewriteLoop]
    cases hx : prewriteOne st r m a with
    | cont a1 =>
      rw [hx] at h1
      have := ih (done ++ [m]) h1
      simpa using this
    | brk a1 =>
      simp only [prewriteOne] at hx
      simp only [PwStep.Good]
      right
      -- a break always leaves a result or an existing key
      split at hx
      · cases hx
      · cases hx
      · rcases getRollback_spec h r.startTs m.key with ⟨hr, _⟩ | ⟨hr, hrb⟩
        · rw [hr] at hx; simp only [PwStep.brk.injEq] at hx; subst hx; left; simp
        · rw [hr] at hx
          simp only at hx
          split at hx
          · split at hx
            · cases hx
            · simp only [PwStep.brk.injEq] at hx; subst hx; left; simp
          · split at hx
            · simp only [PwStep.brk.injEq] at hx; subst hx; right; simp
            · split at hx
              · cases hx
              · generalize (if m.op = .checkNotExists ∧
                  (wiOf (getWriteInfo st 0 maxVer 0 m.key false true true)).op = .put then
                    { a with exist := a.exist ++ [m.key] } else a) = b at hx
                split at hx
                · cases hx
                · split at hx
                  · cases hx
                  · cases hx
                  · split at hx <;> cases hx
    | ret a1 t => trivial
    | err e => trivial
    | fatal => trivial

theorem AccOk.nil (st : State) (r : PrewriteReq) (t as : Bool) : AccOk st r [] { tryOnePc := t, async := as } :=
  ⟨fun e he => (by cases he), fun e he => (by cases he), fun e he => (by cases he),
    fun _ e he => (by cases he), fun _ e he => (by cases he), fun _ e he => (by cases he), by simp [maxVer],
    fun _ => rfl, fun _ m hm => (by cases hm), fun _ m hm => (by cases hm), fun _ m hm => (by cases hm),
    fun _ _ m hm => (by cases hm)⟩

/-- The ways `Prewrite` can end. -/
inductive PwEnd (st : State) (r : PrewriteReq) : State × Out PrewriteResp → Prop
  /-- nothing written -/
  | none (o : Out PrewriteResp) (h : ∀ resp, o = .ok resp → resp.results = [] → resp.exist = [] →
      ∃ m ∈ r.mutations, ∃ w t, checkCommitted st r.startTs m.key = some (w, t)) : PwEnd st r (st, o)
  | onePc (a : PwAcc) (h : AccOk st r r.mutations a) (hr : a.results = []) (he : a.exist = [])
      (ht : a.tryOnePc = true) :
      PwEnd st r (st.apply (onePcBatch r.startTs a.finalMin a),
        .ok { minCommitTs := if a.async then a.finalMin else 0, onePcTs := a.finalMin })
  | locks (a : PwAcc) (h : AccOk st r r.mutations a) (hr : a.results = []) (he : a.exist = [])
      (ht : a.tryOnePc = false) :
      PwEnd st r (st.apply (prewriteBatch a), .ok { minCommitTs := if a.async then a.finalMin else 0 })

theorem prewriteOne_ret {st : State} {r : PrewriteReq} {m : Mut} {a a' : PwAcc} {t : Int}
    (h : prewriteOne st r m a = .ret a' t) : ∃ w, checkCommitted st r.startTs m.key = some (w, t) := by
  simp only [prewriteOne] at h
  have key : ∀ (l : LockInfo) (t : Int), (match checkCommitted st r.startTs m.key with
      | some (_, t) => LockCheck.committed t
      | none => LockCheck.locked l) = .committed t → ∃ w, checkCommitted st r.startTs m.key = some (w, t) := by
    intro l t hh
    split at hh
    · rename_i w t' hc; cases hh; exact ⟨w, hc⟩
    · cases hh
  split at h
  · rename_i t' hc
    simp only [PwStep.ret.injEq] at h
    obtain ⟨_, rfl⟩ := h
    simp only [prewriteLockCheck] at hc
    split at hc
    · split at hc
      · exact key _ _ hc
      · split at hc
        · split at hc
          · cases hc
          · exact key _ _ hc
        · cases hc
    · split at hc
      · split at hc
        · split at hc
          · cases hc
          · split at hc
            · split at hc <;> cases hc
            · cases hc
        · exact key _ _ hc
      · cases hc
  · cases h
  · split at h
    · cases h
    · cases h
    · cases h
    · split at h
      · split at h
        · rename_i w t' hc
          simp only [PwStep.ret.injEq] at h
          obtain ⟨_, rfl⟩ := h
          exact ⟨w, hc⟩
        · cases h
      · split at h
        · cases h
        · split at h
          · cases h
          · generalize (if m.op = .checkNotExists ∧
              (wiOf (getWriteInfo st 0 maxVer 0 m.key false true true)).op = .put then
                { a with exist := a.exist ++ [m.key] } else a) = b at h
            split at h
            · cases h
            · split at h
              · cases h
              · cases h
              · split at h <;> cases h

theorem prewriteLoop_ret {st : State} {r : PrewriteReq} (ms : List Mut) {a a' : PwAcc} {t : Int}
    (h : prewriteLoop st r ms a = .ret a' t) : ∃ m ∈ ms, ∃ w, checkCommitted st r.startTs m.key = some (w, t) := by
  induction ms generalizing a with
  | nil => simp [prewriteLoop] at h
  | cons m ms ih =>
    simp only [prewriteLoop] at h
    split at h
    · obtain ⟨m', h1, h2⟩ := ih h
      exact ⟨m', List.mem_cons_of_mem _ h1, h2⟩
    · obtain ⟨w, hw⟩ := prewriteOne_ret h
      exact ⟨m, List.mem_cons_self, w, hw⟩

theorem prewrite_end {st : State} (h : Inv st) {r : PrewriteReq} (hs : 0 < r.startTs ∧ r.startTs ≤ maxVer)
    (hp : r.primary ≠ []) (hmin : r.minCommitTs ≤ maxVer) : PwEnd st r (prewrite st r) := by
  have hgood := prewriteLoop_ok h hs hp hmin r.mutations []
    (AccOk.nil st r r.tryOnePc (decide (r.secondaries ≠ [])))
  simp only [prewrite]
  cases hx : prewriteLoop st r r.mutations { tryOnePc := r.tryOnePc, async := decide (r.secondaries ≠ []) } with
  | err e => exact PwEnd.none _ (fun resp hh => by cases hh)
  | fatal => exact PwEnd.none _ (fun resp hh => by cases hh)
  | ret a t =>
    refine PwEnd.none _ ?_
    intro resp _ _ _
    obtain ⟨m, h1, w, h2⟩ := prewriteLoop_ret _ hx
    exact ⟨m, h1, w, t, h2⟩
  | brk a =>
    rw [hx] at hgood
    simp only [PwStep.Good, List.nil_append] at hgood
    simp only
    split
    · rename_i hr
      refine PwEnd.none _ ?_
      intro resp hh h1 _
      simp only [Out.ok.injEq] at hh; subst hh; exact absurd h1 hr
    · rename_i hr
      have hr : a.results = [] := by simpa using hr
      split
      · rename_i he
        refine PwEnd.none _ ?_
        intro resp hh _ h2
        simp only [Out.ok.injEq] at hh; subst hh; exact absurd h2 he
      · rename_i he
        have he : a.exist = [] := by simpa using he
        have hok : AccOk st r r.mutations a := by
          rcases hgood with hg | hg | hg
          · exact hg
          · exact absurd hr hg
          · exact absurd he hg
        split
        · rename_i ht; rw [hr, he]; exact PwEnd.onePc a hok hr he ht
        · rename_i ht; rw [hr, he]; exact PwEnd.locks a hok hr he (by simpa using ht)
  | cont a =>
    exfalso
    have : ∀ (ms : List Mut) (a b : PwAcc), prewriteLoop st r ms a ≠ .cont b := by
      intro ms
      induction ms with
      | nil => intro a b hh; simp [prewriteLoop] at hh
      | cons m ms ih =>
        intro a b hh
        simp only [prewriteLoop] at hh
        split at hh
        · exact ih _ _ hh
        · rename_i hno; exact hno b hh
    exact this _ _ _ hx

theorem mem_onePcWrites {s c : Int} {es : List (Bytes × Bytes × LockInfo × Bool)} {e : VKey × WriteInfo} :
    e ∈ onePcWrites s c es ↔ ∃ x ∈ es, x.2.2.1.type ≠ .putIfAbsent ∧
      e = (⟨x.1, c⟩, { startTs := s, op := x.2.2.1.type,
                       shortValue := if x.2.2.1.shortValue ≠ [] then x.2.1 else [] }) := by
  induction es with
  | nil => simp [onePcWrites]
  | cons x es ih =>
    obtain ⟨k, v, l, p⟩ := x
    simp only [onePcWrites]
    split
    · rename_i hl
      rw [ih]
      simp [hl]
    · rename_i hl
      rw [List.mem_cons, ih]
      simp only [List.mem_cons, exists_eq_or_imp]
      constructor
      · rintro (h | h)
        · exact Or.inl ⟨hl, h⟩
        · exact Or.inr h
      · rintro (h | h)
        · exact Or.inl h.2
        · exact Or.inr h

/-- The lock check lets a mutation pass only on an unlocked key or on the
transaction's own pessimistic lock. -/
theorem pass_free {st : State} (h : Inv st) {r : PrewriteReq} {m : Mut}
    (hp : prewriteLockCheck st r m = .pass false) : (view st m.key).freeFor r.startTs m.pess := by
  simp only [prewriteLockCheck] at hp
  have hother : ∀ (l : LockInfo) (b : Bool), (match checkCommitted st r.startTs m.key with
      | some (_, t) => LockCheck.committed t
      | none => LockCheck.locked l) = .pass b → False := by
    intro l b hh
    split at hh <;> cases hh
  split at hp
  · split at hp
    · exact absurd hp (fun hh => hother _ _ hh)
    · split at hp
      · split at hp
        · cases hp
        · exact absurd hp (fun hh => hother _ _ hh)
      · rename_i hpr
        exact Or.inl ((getLock_primary h m.key).1 (by simpa using hpr))
  · rename_i hpe
    have hpe : m.pess = true := by simpa using hpe
    split at hp
    · rename_i hpr
      split at hp
      · rename_i hts
        split at hp
        · cases hp
        · rename_i hty
          have hl : st.lock.get m.key = some (getLock st m.key) := by
            rcases getLock_cases h m.key with ⟨_, h2⟩ | h2
            · rw [h2] at hpr; exact absurd rfl hpr
            · exact h2.1
          exact Or.inr ⟨hpe, _, hl, hts, by simpa using hty⟩
      · exact absurd hp (fun hh => hother _ _ hh)
    · rename_i hpr
      exact Or.inl ((getLock_primary h m.key).1 (by simpa using hpr))

theorem ent_fu {st : State} {r : PrewriteReq} {m : Mut} {l : LockInfo} (he : Ent st r m l) :
    (∀ l0, (view st m.key).lock = some l0 → l.forUpdateTs = l0.forUpdateTs) ∧
      ((view st m.key).lock = none → l.forUpdateTs = 0) := by
  rw [he.fu]
  refine ⟨fun l0 h0 => ?_, fun h0 => ?_⟩
  · simp only [view] at h0; rw [getLock_of_some h0]
  · simp only [view] at h0; simp [getLock, h0]

theorem ent_min {st : State} {r : PrewriteReq} {m : Mut} {l : LockInfo} (he : Ent st r m l) :
    ∀ l0, (view st m.key).lock = some l0 → l0.minCommitTs ≤ l.minCommitTs := by
  intro l0 h0
  simp only [view] at h0
  have := he.prevMin
  rwa [getLock_of_some h0] at this

/-- Values written to the data column family are long. -/
theorem data_ne {st : State} {r : PrewriteReq} {ms : List Mut} {a : PwAcc} (ha : AccOk st r ms a) (vk : VKey) :
    ∀ v, CF.lastPut a.data vk = some v → v ≠ [] := by
  intro v hv
  obtain ⟨m, _, he, _, hlen, _⟩ := ha.data _ (CF.lastPut_mem hv)
  have : v = m.value := congrArg Prod.snd he
  rintro rfl
  rw [← this] at hlen
  simp at hlen

/-- The data put of a long value is found by the batch. -/
theorem data_isSome {r : PrewriteReq} {a : PwAcc} {m : Mut} {l : LockInfo} {st : State}
    (he : Ent st r m l) (hd : DataOf r a m) (ht : l.type = .put) (hsv : l.shortValue = []) :
    (CF.lastPut a.data ⟨m.key, r.startTs⟩).isSome := by
  have hlong : m.op ≠ .delete ∧ m.value.length > maxShortValue := by
    rcases he.op with ⟨h1, _, h3, h4⟩ | ⟨_, h2, _⟩
    · refine ⟨by rcases h1 with h | h <;> rw [h] <;> decide, ?_⟩
      by_cases hlen : m.value.length ≤ maxShortValue
      · rw [if_pos hlen] at h4; rw [h4] at hsv; exact absurd hsv h3
      · omega
    · rw [h2] at ht; cases ht
  cases hp : CF.lastPut a.data ⟨m.key, r.startTs⟩ with
  | none => exact absurd rfl (CF.lastPut_none.1 hp _ (hd hlong.1 hlong.2))
  | some v => rfl

theorem prewriteBatch_view {st : State} (h : Inv st) {r : PrewriteReq} {a : PwAcc} (ha : AccOk st r r.mutations a)
    (k : Bytes) : ∃ e, KStep k st.maxTs (view st k) e (view (st.apply (prewriteBatch a)) k) ∧
      (e = .nop ∨ ∃ m ∈ r.mutations, m.key = k ∧ e = .prewrite r.startTs m.pess) := by
  have hall : ∀ e ∈ (prewriteBatch a).putLock, ∃ m ∈ r.mutations, e.1 = m.key ∧ Ent st r m e.2 ∧ DataOf r a m := by
    intro e he
    simp only [prewriteBatch, List.mem_append, List.mem_map] at he
    rcases he with he | ⟨x, hx, rfl⟩
    · exact ha.locks e he
    · obtain ⟨m, b1, b2, _, _, b5, b6, _⟩ := ha.onePc x hx
      exact ⟨m, b1, b2, b5, b6⟩
  have hdk : ∀ e ∈ a.data, e.1.ts = r.startTs ∧ ∃ l, (e.1.key, l) ∈ (prewriteBatch a).putLock := by
    intro e he
    obtain ⟨m, _, rfl, _, _, l, hl, _⟩ := ha.data e he
    refine ⟨rfl, l, ?_⟩
    simp only [prewriteBatch, List.mem_append, List.mem_map]
    rcases hl with hl | hl
    · exact Or.inl hl
    · exact Or.inr ⟨_, hl, rfl⟩
  cases hl : CF.lastPut (prewriteBatch a).putLock k with
  | none =>
    have hno := CF.lastPut_none.1 hl
    refine ⟨.nop, (KStep.nop _).to ?_, Or.inl rfl⟩
    apply view_apply_untouched
    · exact hno
    · simp [prewriteBatch]
    · simp [prewriteBatch]
    · intro e he hk
      obtain ⟨_, l, hm⟩ := hdk e he
      exact hno _ hm hk
    · simp [prewriteBatch]
  | some l =>
    obtain ⟨m, b1, b2, b3, b4⟩ := hall (k, l) (CF.lastPut_mem hl)
    simp only at b2 b3
    subst b2
    refine ⟨.prewrite r.startTs m.pess,
      (KStep.prewrite (view st m.key) r.startTs m.pess l (CF.lastPut a.data ⟨m.key, r.startTs⟩)
        (pass_free h b3.pass) b3.rb b3.conf b3.ok b3.ts ?_ (data_isSome b3 b4) (ent_fu b3)
        (data_ne ha _) (ent_min b3)).to ?_,
      Or.inr ⟨m, b1, rfl, rfl⟩⟩
    · rcases b3.op with ⟨_, h2, _⟩ | ⟨_, h2, _⟩ <;> rw [h2] <;> decide
    · apply KS.ext
      · simp only [view]
        rw [lock_apply, if_neg (by simp [prewriteBatch]), hl]; rfl
      · intro t; simp only [view, write_apply]; simp [prewriteBatch, CF.lastPut]
      · intro t
        simp only [view, data_apply, upd]
        rw [if_neg (by simp [prewriteBatch])]
        by_cases ht : t = r.startTs
        · subst ht; simp [prewriteBatch]
        · rw [if_neg ht]
          have : CF.lastPut (prewriteBatch a).putData ⟨m.key, t⟩ = none := by
            rw [CF.lastPut_none]
            intro e he hh
            have := (hdk e he).1
            rw [hh] at this
            exact ht this
          rw [this, Option.none_or]

theorem onePcBatch_view {st : State} (h : Inv st) {r : PrewriteReq} (hs : 0 < r.startTs) {a : PwAcc}
    (ha : AccOk st r r.mutations a) (ht : a.tryOnePc = true) (k : Bytes) :
    ∃ e, KStep k st.maxTs (view st k) e (view (st.apply (onePcBatch r.startTs a.finalMin a)) k) ∧
      (e = .nop ∨ ∃ m ∈ r.mutations, m.key = k ∧ e = .onePc r.startTs a.finalMin m.pess) := by
  have hnl := ha.noLocks ht
  by_cases hk : ∃ x ∈ a.onePc, x.1 = k
  · -- the record that wins
    have hex : ∃ w, CF.lastPut (onePcBatch r.startTs a.finalMin a).putWrite ⟨k, a.finalMin⟩ = some w := by
      obtain ⟨x, hx, rfl⟩ := hk
      obtain ⟨m, b1, b2, b3, b4, b5, b6, b7⟩ := ha.onePc x hx
      cases hp : CF.lastPut (onePcBatch r.startTs a.finalMin a).putWrite ⟨x.1, a.finalMin⟩ with
      | none =>
        refine absurd rfl (CF.lastPut_none.1 hp (⟨x.1, a.finalMin⟩, _) (mem_onePcWrites.2 ⟨x, hx, ?_, rfl⟩))
        rcases b5.op with ⟨_, h2, _⟩ | ⟨_, h2, _⟩ <;> rw [h2] <;> decide
      | some w => exact ⟨w, rfl⟩
    obtain ⟨w, hw⟩ := hex
    obtain ⟨x, hx, _, he⟩ := mem_onePcWrites.1 (CF.lastPut_mem hw)
    obtain ⟨m, b1, b2, b3, b4, b5, b6, b7, b8⟩ := ha.onePc x hx
    simp only [Prod.mk.injEq, VKey.mk.injEq, and_true] at he
    obtain ⟨hkx, hwx⟩ := he
    rw [b2] at hkx
    subst hkx
    have hfin := ha.final ht x hx
    have hfm := ha.fmax
    refine ⟨.onePc r.startTs a.finalMin m.pess,
      (KStep.onePc (view st m.key) r.startTs a.finalMin m.pess x.2.2.1.type
        (if x.2.2.1.shortValue ≠ [] then x.2.1 else []) (CF.lastPut a.data ⟨m.key, r.startTs⟩)
        (pass_free h b5.pass) b5.rb b5.conf ?_ ?_ (data_ne ha _)
        (fun l0 h0 => Int.le_trans (ent_min b5 l0 h0) hfin) hs ⟨by omega, by omega, hfm⟩).to ?_,
      Or.inr ⟨m, b1, rfl, rfl⟩⟩
    · rcases b5.op with ⟨_, h2, _⟩ | ⟨_, h2, _⟩
      · exact Or.inl h2
      · exact Or.inr h2
    · intro hty hsv
      refine data_isSome b5 b6 hty ?_
      cases hsh : x.2.2.1.shortValue with
      | nil => rfl
      | cons y ys =>
        rw [if_pos (by rw [hsh]; simp), b3] at hsv
        rcases b5.op with ⟨_, _, h3, _⟩ | ⟨_, h2, _⟩
        · exact absurd hsv h3
        · rw [h2] at hty; cases hty
    · apply KS.ext
      · simp only [view]
        rw [lock_apply]
        by_cases hd : m.key ∈ (onePcBatch r.startTs a.finalMin a).delLock
        · rw [if_pos hd]
        · rw [if_neg hd]
          have hpl : CF.lastPut (onePcBatch r.startTs a.finalMin a).putLock m.key = none := rfl
          rw [hpl, Option.none_or]
          rcases pass_free h b5.pass with hf | ⟨hpe, _⟩
          · exact hf
          · exfalso
            apply hd
            simp only [onePcBatch, List.mem_map, List.mem_filter]
            exact ⟨x, ⟨hx, by rw [b4]; exact hpe⟩, b2⟩
      · intro t
        simp only [view, write_apply, upd]
        by_cases htt : t = a.finalMin
        · subst htt; rw [hw, hwx]; simp
        · rw [if_neg htt]
          have : CF.lastPut (onePcBatch r.startTs a.finalMin a).putWrite ⟨m.key, t⟩ = none := by
            rw [CF.lastPut_none]
            intro e he hh
            obtain ⟨x', _, _, rfl⟩ := mem_onePcWrites.1 he
            simp only [VKey.mk.injEq] at hh
            exact htt hh.2.symm
          rw [this, Option.none_or]
      · intro t
        simp only [view, data_apply, upd]
        rw [if_neg (by simp [onePcBatch])]
        by_cases htt : t = r.startTs
        · subst htt; simp [onePcBatch]
        · rw [if_neg htt]
          have : CF.lastPut (onePcBatch r.startTs a.finalMin a).putData ⟨m.key, t⟩ = none := by
            rw [CF.lastPut_none]
            intro e he hh
            obtain ⟨m', _, rfl, _⟩ := ha.data e he
            simp only [VKey.mk.injEq] at hh
            exact htt hh.2.symm
          rw [this, Option.none_or]
  · refine ⟨.nop, (KStep.nop _).to ?_, Or.inl rfl⟩
    apply view_apply_untouched
    · simp [onePcBatch]
    · simp only [onePcBatch, List.mem_map, List.mem_filter]
      rintro ⟨x, ⟨hx, _⟩, hh⟩
      exact hk ⟨x, hx, hh⟩
    · intro e he hh
      obtain ⟨x, hx, _, rfl⟩ := mem_onePcWrites.1 he
      exact hk ⟨x, hx, hh⟩
    · intro e he hh
      obtain ⟨m', _, rfl, _, _, l, hl, _⟩ := ha.data e he
      rw [hnl] at hl
      rcases hl with hl | hl
      · cases hl
      · exact hk ⟨_, hl, hh⟩
    · simp [onePcBatch]

theorem prewrite_allowed {st : State} (h : Inv st) {r : PrewriteReq} (hs : 0 < r.startTs ∧ r.startTs ≤ maxVer)
    (hp : r.primary ≠ []) (hmin : r.minCommitTs ≤ maxVer) :
    Allowed st (.prewrite r) (prewrite st r).1 := by
  have hend := prewrite_end h hs hp hmin
  intro k
  generalize hx : prewrite st r = x at hend
  cases hend with
  | none o _ => exact ⟨.nop, KStep.nop _, trivial⟩
  | onePc a ha hr he ht =>
    obtain ⟨e, h1, h2⟩ := onePcBatch_view h hs.1 ha ht k
    refine ⟨e, h1, ?_⟩
    rcases h2 with rfl | ⟨m, h3, h4, rfl⟩
    · trivial
    · refine ⟨r, rfl, rfl, ⟨{ minCommitTs := if a.async then a.finalMin else 0, onePcTs := a.finalMin }, ?_, rfl⟩,
        m, h3, h4, rfl⟩
      simp only [step, hx]
  | locks a ha hr he ht =>
    obtain ⟨e, h1, h2⟩ := prewriteBatch_view h ha k
    refine ⟨e, h1, ?_⟩
    rcases h2 with rfl | ⟨m, h3, h4, rfl⟩
    · trivial
    · exact ⟨r, rfl, rfl, m, h3, h4, rfl⟩

/-! ## All requests -/

/-- Transitions other than 1PC do not depend on the store's maximal timestamp. -/
theorem KStep.mx_irrel {k : Bytes} {mx mx' : Int} {x y : KS} {e : Ev} (h1 : KStep k mx x e y)
    (hno : ∀ s c p, e ≠ .onePc s c p) : KStep k mx' x e y := by
  cases h1 with
  | nop => exact KStep.nop _
  | prewrite s pess l d a b c d' e f g i j o => exact KStep.prewrite _ s pess l d a b c d' e f g i j o
  | pessLock s fu l a b c d e f => exact KStep.pessLock _ s fu l a b c d e f
  | commit s c rs l a b c' d e => exact KStep.commit _ s c rs l a b c' d e
  | rollback s l a b => exact KStep.rollback _ s l a b
  | mark s a b c => exact KStep.mark _ s a b c
  | onePc s c pess => exact absurd rfl (hno s c pess)
  | update l ttl mc a b => exact KStep.update _ l ttl mc a b
  | unlock s l a b c => exact KStep.unlock _ s l a b c

/-- Every request is, on every key, a sequence of allowed transitions it causes.
All requests but `batchResolve` make one transition. -/
theorem step_path {st : State} (h : Inv st) {r : Req} (hv : r.Valid) (k : Bytes) :
    ∃ es, KPath k st.maxTs (view st k) es (view (step st r).1 k) ∧ (∀ e ∈ es, Caused st r k e) ∧
      ((∃ e, es = [e]) ∨ ∀ e ∈ es, e = .nop ∨ (∃ s c, e = .commit s c true) ∨ ∃ s, e = .rollback s) := by
  have one : ∀ {st' : State}, (∃ e, KStep k st.maxTs (view st k) e (view st' k) ∧ Caused st r k e) →
      ∃ es, KPath k st.maxTs (view st k) es (view st' k) ∧ (∀ e ∈ es, Caused st r k e) ∧
      ((∃ e, es = [e]) ∨ ∀ e ∈ es, e = .nop ∨ (∃ s c, e = .commit s c true) ∨ ∃ s, e = .rollback s) := by
    rintro st' ⟨e, h1, h2⟩
    refine ⟨[e], KPath.cons h1 (KPath.nil _), ?_, Or.inl ⟨e, rfl⟩⟩
    intro e' he'
    simp only [List.mem_singleton] at he'
    subst he'; exact h2
  -- Transitions other than 1PC do not depend on `maxTs` or the response.
  have acc : ∀ (t : Int) {st' : State}, (∀ q, r ≠ .prewrite q) → Allowed (st.access t) r st' →
      ∃ e, KStep k st.maxTs (view st k) e (view st' k) ∧ Caused st r k e := by
    intro t st' hnp hall
    obtain ⟨e, h1, h2⟩ := hall k
    have hview : view (st.access t) k = view st k := rfl
    rw [hview] at h1
    have hno : ∀ s c p, e ≠ .onePc s c p := by
      rintro s c p rfl
      obtain ⟨q, hq, _⟩ := h2
      exact hnp q hq
    refine ⟨e, h1.mx_irrel hno, ?_⟩
    cases e with
    | onePc s c p => exact absurd rfl (hno s c p)
    | commit s c rs => cases rs <;> exact h2
    | _ => exact h2
  cases r with
  | get iso s res keys => exact one ⟨.nop, KStep.nop _, trivial⟩
  | pessimisticLock q => exact one (pessimisticLock_allowed h q hv.1 hv.2.1.1 hv.2.2.1 k)
  | pessimisticRollback s f keys => exact one (pessimisticRollback_allowed h s f keys k)
  | prewrite q => exact one (prewrite_allowed h hv.1 hv.2.1 hv.2.2.1 k)
  | commit s c keys =>
    exact one (acc c (fun q => by simp) (commit_allowed (h.access c) hv.1.1 hv.2.1.2 keys))
  | batchRollback s keys => exact one (batchRollback_allowed h hv.1 keys k)
  | checkTxnStatus q =>
    exact one (acc _ (fun q => by simp) (checkTxnStatus_allowed (h.access _) q hv.1 hv.2.1.2))
  | checkSecondary s keys =>
    exact one (acc s (fun q => by simp)
      (checkSecondaryLoop_allowed (h.access s) hv.1 keys keys (fun k hk => hk) []))
  | resolveLock s c keys =>
    exact one (acc c (fun q => by simp) (resolveLock_allowed (h.access c) hv.1 hv.2.1 keys))
  | batchResolve infos =>
    simp only [step, batchResolve]
    split
    · exact one ⟨.nop, KStep.nop _, trivial⟩
    · rename_i hany
      have hgood : ∀ i ∈ infos, (0 < i.1 ∧ i.1 ≤ maxVer) ∧ (0 < i.2 → i.1 < i.2 ∧ i.2 ≤ maxVer) := by
        intro i hi
        refine ⟨(hv i hi).1, fun hpos => ?_⟩
        simp only [Bool.not_eq_true, List.any_eq_false, decide_eq_true_eq] at hany
        have := hany i hi
        refine ⟨by omega, (hv i hi).2⟩
      obtain ⟨es, h1, h2⟩ := batchResolveRun_path st infos infos (fun i hi => hi) hgood h k
      exact ⟨es, h1, fun e he => (h2 e he).1, Or.inr (fun e he => (h2 e he).2)⟩
  | heartBeat p s t => exact one (heartBeat_allowed h p s t k)

theorem step_inv {st : State} (h : Inv st) {r : Req} (hv : r.Valid) : Inv (step st r).1 := by
  intro k
  obtain ⟨es, h1, _⟩ := step_path h hv k
  exact h1.inv (h k)

theorem run_inv {st : State} (h : Inv st) {rs : List Req} (hv : ∀ r ∈ rs, r.Valid) : Inv (run st rs) := by
  induction rs generalizing st with
  | nil => exact h
  | cons r rs ih =>
    exact ih (step_inv h (hv r List.mem_cons_self)) (fun r hr => hv r (List.mem_cons_of_mem _ hr))

end Verif.Txn
