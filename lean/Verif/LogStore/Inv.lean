import Verif.LogStore.Reads

/-! # Raft log storage: the invariant, one region at a time -/

namespace Verif.LogStore
open Verif.Codec
open Verif.Txn (CF KeyOrder Asc)

/-- Everything the state holds about one region. -/
structure View where
  db : Int → Option Bytes
  hist : List Call
  rel : List (Client × Int)
  mt : Option Meta
  ca : Option TermMap
  pend : List Mutation

def cells (db : Db) (r : Int) : Int → Option Bytes := fun i =>
  if 0 ≤ i ∧ i < maxI64 then db.get (encodeKey r i) else none

def State.view (s : State) (r : Int) : View where
  db := cells s.db r
  hist := s.hist r
  rel := s.released r
  mt := s.metas r
  ca := s.cache r
  pend := s.pending.filter (fun m => m.region = r)

def View.log (v : View) : RLog := specLog v.hist

def Mutation.isDestroy : Mutation → Bool
  | .destroy _ => true
  | _ => false

/-- A pending mutation may be executed. -/
def PendOk (cl : List Client) (v : View) : Mutation → Prop
  | .append _ es => v.mt ≠ none ∧ Appendable v.log es
  | .cutPrefix _ stop own =>
    v.mt ≠ none ∧ 0 ≤ stop ∧ stop < maxI64 ∧ (∀ c ∈ cl, ∃ k, (c, k) ∈ v.rel ∧ stop ≤ k)
      ∧ ∀ k, own = some k → k ≤ v.log.first
  | .cutSuffix _ start => v.mt ≠ none ∧ v.log.first ≤ start ∧ start ≤ v.log.last + 1
  | .reset _ n => v.mt ≠ none ∧ v.log.first ≤ n ∧ n < maxI64
  | .destroy _ => True

structure RInv (cl : List Client) (on : Bool) (v : View) : Prop where
  spec : SpecOk v.log
  stored : ∀ i x, v.db i = some x → ∃ e, v.log.ent i = some e ∧ x = encodeValue e
  kept : ∀ i e, v.log.ent i = some e → v.db i = some (encodeValue e) ∨ ∀ c ∈ cl, ∃ k, (c, k) ∈ v.rel ∧ i < k
  relRaft : ∀ k, (Client.raft, k) ∈ v.rel → k ≤ v.log.first
  mt : ∀ m, v.mt = some m → 0 ≤ m.first ∧ m.keeps.map (·.1) = cl
    ∧ ∀ c x, (c, x) ∈ m.keeps → x ≤ 0 ∨ ∃ k, (c, k) ∈ v.rel ∧ x ≤ k
  ca : ∀ l, v.ca = some l → v.mt ≠ none ∧ (on = true → CacheOk l v.log)
  pend : ∀ m ∈ v.pend, PendOk cl v m
  mlast : ∀ m, v.mt = some m → ∀ i x, v.db i = some x → i ≤ m.last
  bare : v.mt = none → ∀ i, v.db i = none

theorem specLog_append (h : List Call) (c : Call) : specLog (h ++ [c]) = (specLog h).apply c := by
  simp only [specLog, List.foldl_append, List.foldl_cons, List.foldl_nil]

/-- The vector index's pending truncations only depend on what was released. -/
theorem PendOk.vec {cl : List Client} {v v' : View} {m : Mutation} (h : PendOk cl v m) (hm : m.own = false)
    (hrel : v'.rel = v.rel) (hmt : v'.mt ≠ none) : PendOk cl v' m := by
  cases m with
  | cutPrefix r stop own =>
    cases own with
    | some k => cases hm
    | none =>
      obtain ⟨_, h1, h2, h3, _⟩ := h
      exact ⟨hmt, h1, h2, by rw [hrel]; exact h3, fun k hk => by cases hk⟩
  | _ => cases hm

/-- Nothing about a pending mutation changes when the log stays as it is. -/
theorem PendOk.same {cl : List Client} {v v' : View} {m : Mutation} (h : PendOk cl v m)
    (hh : v'.hist = v.hist) (hrel : ∀ x ∈ v.rel, x ∈ v'.rel) (hmt : v'.mt ≠ none) : PendOk cl v' m := by
  have hlog : v'.log = v.log := by simp only [View.log, hh]
  cases m with
  | append r es => exact ⟨hmt, by rw [hlog]; exact h.2⟩
  | cutPrefix r stop own =>
    obtain ⟨_, h1, h2, h3, h4⟩ := h
    refine ⟨hmt, h1, h2, ?_, by rw [hlog]; exact h4⟩
    intro c hc
    obtain ⟨k, hk, hle⟩ := h3 c hc
    exact ⟨k, hrel _ hk, hle⟩
  | cutSuffix r start => exact ⟨hmt, by rw [hlog]; exact h.2⟩
  | reset r n => exact ⟨hmt, by rw [hlog]; exact h.2⟩
  | destroy r => trivial

/-! ## Executing one mutation -/

/-- The meta after a prefix truncation. -/
def cutPrefixMeta (m : Meta) (stop : Int) : Meta :=
  if m.first < stop then { m with first := stop, last := if m.last < stop then stop - 1 else m.last } else m

def cutSuffixMeta (m : Meta) (start : Int) : Meta :=
  if start ≤ m.last then { m with last := start - 1, first := if start ≤ m.first then start else m.first } else m

theorem RInv.cutPrefix {cl : List Client} {on : Bool} {v : View} {r stop : Int} {own : Option Int} {m : Meta}
    {rest : List Mutation} (h : RInv cl on v) (hp : v.pend = Mutation.cutPrefix r stop own :: rest) (hm : v.mt = some m) :
    RInv cl on { v with
      db := fun i => if 0 ≤ i ∧ i < stop then none else v.db i
      mt := some (cutPrefixMeta m stop)
      ca := match own with | some k => v.ca.map (TermMap.cutPrefix k) | none => v.ca
      pend := rest } := by
  obtain ⟨_, p1, p2, p3, p4⟩ := h.pend (Mutation.cutPrefix r stop own) (by rw [hp]; simp)
  obtain ⟨m1, m2, m3⟩ := h.mt m hm
  refine ⟨h.spec, ?_, ?_, h.relRaft, ?_, ?_, ?_, ?_, by simp⟩
  · intro i x hx
    simp only at hx
    split at hx
    · cases hx
    · exact h.stored i x hx
  · intro i e he
    simp only
    have hr := h.spec.rng i e he
    rcases h.kept i e he with hk | hk
    · by_cases hi : i < stop
      · right
        intro c hc
        obtain ⟨k, hk1, hk2⟩ := p3 c hc
        exact ⟨k, hk1, by omega⟩
      · left; rw [if_neg (by omega)]; exact hk
    · exact .inr hk
  · intro m' hm'
    simp only [Option.some.injEq] at hm'
    subst hm'
    unfold cutPrefixMeta
    split
    · exact ⟨p1, m2, m3⟩
    · exact ⟨m1, m2, m3⟩
  · intro l hl
    refine ⟨by simp, ?_⟩
    intro hon
    simp only at hl
    cases own with
    | some k =>
      cases hc : v.ca with
      | none => rw [hc] at hl; cases hl
      | some l0 =>
        rw [hc] at hl
        simp only [Option.map_some, Option.some.injEq] at hl
        subst hl
        exact ((h.ca l0 hc).2 hon).cutPrefix (p4 k rfl)
    | none => exact (h.ca l hl).2 hon
  · intro m' hm'
    exact PendOk.same (h.pend m' (by rw [hp]; simp [hm'])) rfl (fun x hx => hx) (by simp)
  · intro m' hm' i x hx
    simp only [Option.some.injEq] at hm' hx
    subst hm'
    split at hx
    · cases hx
    · have := h.mlast m hm i x hx
      unfold cutPrefixMeta
      split
      · simp only; split <;> omega
      · exact this

theorem RInv.cutSuffix {cl : List Client} {on : Bool} {v : View} {r start : Int} {m : Meta}
    {rest : List Mutation} (h : RInv cl on v) (hp : v.pend = Mutation.cutSuffix r start :: rest) (hm : v.mt = some m)
    (hrest : ∀ x ∈ rest, x.own = false) :
    RInv cl on { v with
      db := fun i => if start ≤ i ∧ i < maxI64 then none else v.db i
      hist := v.hist ++ [.truncSuffix (start - 1)]
      mt := some (cutSuffixMeta m start)
      ca := v.ca.map (TermMap.cutSuffix (start - 1))
      pend := rest } := by
  obtain ⟨_, p1, p2⟩ := h.pend (Mutation.cutSuffix r start) (by rw [hp]; simp)
  obtain ⟨m1, m2, m3⟩ := h.mt m hm
  have hf := h.spec.f1
  have hlog : specLog (v.hist ++ [.truncSuffix (start - 1)]) = v.log.apply (.truncSuffix (start - 1)) :=
    specLog_append _ _
  refine ⟨?_, ?_, ?_, ?_, ?_, ?_, ?_, ?_, by simp⟩
  · simp only [View.log, hlog]
    exact h.spec.truncSuffix (by omega) (by omega)
  · intro i x hx
    simp only at hx
    split at hx
    · cases hx
    · rename_i hc
      obtain ⟨e, he, rfl⟩ := h.stored i x hx
      have := h.spec.rng i e he
      have := h.spec.lm
      refine ⟨e, ?_, rfl⟩
      simp only [View.log, hlog, RLog.apply]
      rw [if_pos (by omega)]
      exact he
  · intro i e he
    simp only [View.log, hlog, RLog.apply] at he
    split at he
    · rename_i hi
      rcases h.kept i e he with hk | hk
      · left; simp only; rw [if_neg (by omega)]; exact hk
      · exact .inr hk
    · cases he
  · intro k hk
    simp only [View.log, hlog, RLog.apply]
    exact h.relRaft k hk
  · intro m' hm'
    simp only [Option.some.injEq] at hm'
    subst hm'
    unfold cutSuffixMeta
    split
    · refine ⟨?_, m2, m3⟩
      simp only
      split <;> omega
    · exact ⟨m1, m2, m3⟩
  · intro l hl
    refine ⟨by simp, ?_⟩
    intro hon
    simp only at hl
    cases hc : v.ca with
    | none => rw [hc] at hl; cases hl
    | some l0 =>
      rw [hc] at hl
      simp only [Option.map_some, Option.some.injEq] at hl
      subst hl
      simp only [View.log, hlog]
      exact ((h.ca l0 hc).2 hon).truncSuffix _
  · intro m' hm'
    exact PendOk.vec (h.pend m' (by rw [hp]; simp [hm'])) (hrest m' hm') rfl (by simp)
  · intro m' hm' i x hx
    simp only [Option.some.injEq] at hm' hx
    subst hm'
    split at hx
    · cases hx
    · have h1 := h.mlast m hm i x hx
      obtain ⟨e, he, _⟩ := h.stored i x hx
      have h2 := h.spec.rng i e he
      have h3 := h.spec.lm
      unfold cutSuffixMeta
      split
      · simp only; omega
      · exact h1

theorem RInv.reset {cl : List Client} {on : Bool} {v : View} {r n : Int} {m : Meta}
    {rest : List Mutation} (h : RInv cl on v) (hp : v.pend = Mutation.reset r n :: rest) (hm : v.mt = some m)
    (hrest : ∀ x ∈ rest, x.own = false) :
    RInv cl on { v with
      db := fun i => if 0 ≤ i ∧ i < maxI64 then none else v.db i
      hist := v.hist ++ [.reset n]
      mt := some { first := n, last := n - 1, keeps := m.keeps.map (fun c => (c.1, 0)) }
      ca := v.ca.map (fun _ => [])
      pend := rest } := by
  obtain ⟨_, p1, p2⟩ := h.pend (Mutation.reset r n) (by rw [hp]; simp)
  obtain ⟨m1, m2, m3⟩ := h.mt m hm
  have hf := h.spec.f1
  have hlog : specLog (v.hist ++ [.reset n]) = v.log.apply (.reset n) := specLog_append _ _
  refine ⟨?_, ?_, ?_, ?_, ?_, ?_, ?_, ?_, by simp⟩
  · simp only [View.log, hlog]
    exact h.spec.reset p1 p2
  · intro i x hx
    simp only at hx
    split at hx
    · cases hx
    · obtain ⟨e, he, rfl⟩ := h.stored i x hx
      have := h.spec.rng i e he
      have := h.spec.lm
      omega
  · intro i e he
    simp only [View.log, hlog, RLog.apply] at he
    cases he
  · intro k hk
    simp only [View.log, hlog, RLog.apply]
    have := h.relRaft k hk
    omega
  · intro m' hm'
    simp only [Option.some.injEq] at hm'
    subst hm'
    refine ⟨by simp only; omega, ?_, ?_⟩
    · simp only [List.map_map]
      exact m2
    · intro c x hx
      simp only [List.mem_map, Prod.mk.injEq] at hx
      obtain ⟨_, _, _, rfl⟩ := hx
      exact .inl (Int.le_refl _)
  · intro l hl
    refine ⟨by simp, ?_⟩
    intro hon
    simp only at hl
    cases hc : v.ca with
    | none => rw [hc] at hl; cases hl
    | some l0 =>
      rw [hc] at hl
      simp only [Option.map_some, Option.some.injEq] at hl
      subst hl
      simp only [View.log, hlog]
      exact CacheOk.nil (fun i => rfl)
  · intro m' hm'
    exact PendOk.vec (h.pend m' (by rw [hp]; simp [hm'])) (hrest m' hm') rfl (by simp)
  · intro m' hm' i x hx
    simp only at hx
    split at hx
    · cases hx
    · obtain ⟨e, he, _⟩ := h.stored i x hx
      have h2 := h.spec.rng i e he
      have h3 := h.spec.lm
      omega

theorem RInv.destroy (cl : List Client) (on : Bool) :
    RInv cl on { db := fun _ => none, hist := [], rel := [], mt := none, ca := none, pend := [] } where
  spec := SpecOk.empty
  stored := by intro i x hx; cases hx
  kept := by intro i e he; cases he
  relRaft := by intro k hk; cases hk
  mt := by intro m hm; cases hm
  ca := by intro l hl; cases hl
  pend := by intro m hm; cases hm
  mlast := by intro m hm; cases hm
  bare := by intros; rfl

/-- The cells after the puts of an append. -/
def putCells (f : Int → Option Bytes) (es : List (Int × LogEntry)) : Int → Option Bytes :=
  es.foldl (fun f e => fun i => if i = e.1 then some (encodeValue e.2) else f i) f

theorem putCells_ok {L : RLog} (hL : SpecOk L) {cl : List Client} {rel : List (Client × Int)} {f : Int → Option Bytes}
    (h1 : ∀ i x, f i = some x → ∃ e, L.ent i = some e ∧ x = encodeValue e)
    (h2 : ∀ i e, L.ent i = some e → f i = some (encodeValue e) ∨ ∀ c ∈ cl, ∃ k, (c, k) ∈ rel ∧ i < k)
    {es : List (Int × LogEntry)} (hf : Fits L es) :
    (∀ i x, putCells f es i = some x → ∃ e, (L.apply (.append es)).ent i = some e ∧ x = encodeValue e)
    ∧ (∀ i e, (L.apply (.append es)).ent i = some e →
        putCells f es i = some (encodeValue e) ∨ ∀ c ∈ cl, ∃ k, (c, k) ∈ rel ∧ i < k)
    ∧ (L.apply (.append es)).first = L.first := by
  simp only [RLog.apply, putCells]
  induction es generalizing L f with
  | nil => exact ⟨h1, h2, rfl⟩
  | cons e es ih =>
    simp only [List.foldl_cons]
    obtain ⟨a, b, c, d⟩ := hf.head
    refine ih (L := L.put e) (hL.put a b c d) ?_ ?_ hf.tail
    · intro i x hx
      split at hx
      · rename_i hi
        cases hx
        exact ⟨e.2, by simp [RLog.put, hi], rfl⟩
      · obtain ⟨y, hy, rfl⟩ := h1 i x hx
        exact ⟨y, ent_put_ne hL a hy, rfl⟩
    · intro i x hx
      simp only [RLog.put] at hx
      split at hx
      · rename_i hi
        cases hx
        left; rw [if_pos hi]
      · rename_i hi
        rw [if_neg hi]
        exact h2 i x hx

theorem append_last (L : RLog) {es : List (Int × LogEntry)} {e : Int × LogEntry} (h : es.getLast? = some e) :
    (L.apply (.append es)).last = e.1 := by
  obtain ⟨m, rfl⟩ := List.getLast?_eq_some_iff.1 h
  simp only [RLog.apply, List.foldl_append, List.foldl_cons, List.foldl_nil, RLog.put]

theorem RInv.append {cl : List Client} {on : Bool} {v : View} {r : Int} {es : List (Int × LogEntry)} {m : Meta}
    {rest : List Mutation} (h : RInv cl on v) (hp : v.pend = Mutation.append r es :: rest) (hm : v.mt = some m)
    (hrest : ∀ x ∈ rest, x.own = false) :
    ∃ e ca, es.getLast? = some e
      ∧ (match on, v.ca with
         | true, some l => appendTerms l es = ca ∧ ca ≠ none
         | _, _ => ca = v.ca)
      ∧ RInv cl on { v with
          db := putCells v.db es
          hist := v.hist ++ [.append es]
          mt := some { m with last := e.1 }
          ca := ca
          pend := rest } := by
  obtain ⟨_, p1⟩ := h.pend (Mutation.append r es) (by rw [hp]; simp)
  obtain ⟨m1, m2, m3⟩ := h.mt m hm
  obtain ⟨g1, g2, g3⟩ := putCells_ok h.spec h.stored h.kept p1.toFits
  have hlog : specLog (v.hist ++ [.append es]) = v.log.apply (.append es) := specLog_append _ _
  obtain ⟨e, he⟩ : ∃ e, es.getLast? = some e := by
    cases hl : es.getLast? with
    | none => rw [List.getLast?_eq_none_iff] at hl; exact absurd hl p1.some
    | some e => exact ⟨e, rfl⟩
  have main : ∀ ca : Option TermMap, (∀ l, ca = some l → on = true → CacheOk l (v.log.apply (.append es))) →
      RInv cl on { v with
          db := putCells v.db es
          hist := v.hist ++ [.append es]
          mt := some { m with last := e.1 }
          ca := ca
          pend := rest } := by
    intro ca hca
    refine ⟨?_, ?_, ?_, ?_, ?_, ?_, ?_, ?_, by simp⟩
    · simp only [View.log, hlog]
      exact h.spec.append p1.toFits
    · simp only [View.log, hlog]; exact g1
    · simp only [View.log, hlog]; exact g2
    · simp only [View.log, hlog]
      intro k hk
      simp only [View.log] at g3
      rw [g3]; exact h.relRaft k hk
    · intro m' hm'
      simp only [Option.some.injEq] at hm'
      subst hm'
      exact ⟨m1, m2, m3⟩
    · intro l hl
      refine ⟨by simp, ?_⟩
      simp only [View.log, hlog]
      exact hca l hl
    · intro m' hm'
      exact PendOk.vec (h.pend m' (by rw [hp]; simp [hm'])) (hrest m' hm') rfl (by simp)
    · intro m' hm' i x hx
      simp only [Option.some.injEq] at hm'
      subst hm'
      obtain ⟨y, hy, _⟩ := g1 i x hx
      have := ((h.spec.append p1.toFits).rng i y hy).2.1
      rw [append_last _ he] at this
      exact this
  cases on with
  | false =>
    refine ⟨e, v.ca, he, rfl, main _ ?_⟩
    intro l hl ho; cases ho
  | true =>
    cases hc : v.ca with
    | none =>
      refine ⟨e, none, he, rfl, main _ ?_⟩
      intro l hl; cases hl
    | some l =>
      obtain ⟨l', q1, q2⟩ := ((h.ca l hc).2 rfl).append h.spec p1.toFits
      refine ⟨e, some l', he, ⟨q1, by simp⟩, main _ ?_⟩
      intro x hx _; cases hx; exact q2

end Verif.LogStore
