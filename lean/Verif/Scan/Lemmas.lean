import Verif.Scan.Spec
import Verif.Mvcc.Props

/-! # Scan sessions: what the iterator and the paging loop do -/

namespace Verif.Scan
open Verif.Codec Verif.Mvcc

/-- A successful `NextVisibleKey` on versions. -/
theorem nextVisible_some {ts now : Int} {prev : Option Bytes} {rs : List Rec} {p : Bytes}
    {m : List Entry} (hv : ∀ r ∈ rs, r.Valid)
    (h : nextVisible ts now (encPrev prev) (rs.map Rec.enc) = some (p, m)) :
    (m = [] ∧ scanR ts now prev rs = []) ∨
    ∃ r rest, p = encodeBytes r.key ∧ m = r.enc :: rest.map Rec.enc ∧
      (∃ pre, rs = pre ++ r :: rest) ∧
      scanR ts now prev rs = r :: scanR ts now (some r.key) rest := by
  induction rs generalizing prev with
  | nil =>
    simp only [List.map_nil, nextVisible, Option.some.injEq, Prod.mk.injEq] at h
    exact Or.inl ⟨h.2.symm, rfl⟩
  | cons r rs ih =>
    have ih' := fun prev => ih (prev := prev) (fun r hr => hv r (List.mem_cons_of_mem _ hr))
    rw [List.map_cons, nextVisible_cons (hv r (by simp))] at h
    simp only [scanR]
    by_cases h1 : prev = some r.key ∨ r.ts > ts
    · rw [if_pos h1] at h ⊢
      rcases ih' _ h with h2 | ⟨x, rest, a, b, ⟨pre, c⟩, d⟩
      · exact Or.inl h2
      · exact Or.inr ⟨x, rest, a, b, ⟨r :: pre, by rw [c]; rfl⟩, d⟩
    · rw [if_neg h1] at h ⊢
      by_cases h2 : r.ver.emptyTTL
      · rw [if_pos h2] at h; cases h
      · rw [if_neg h2] at h
        by_cases h3 : r.ver.Live now
        · rw [if_pos h3] at h ⊢
          cases h
          exact Or.inr ⟨r, rs, rfl, rfl, ⟨[], rfl⟩, rfl⟩
        · rw [if_neg h3] at h ⊢
          rcases ih' (some r.key) h with h2 | ⟨x, rest, a, b, ⟨pre, c⟩, d⟩
          · exact Or.inl h2
          · exact Or.inr ⟨x, rest, a, b, ⟨r :: pre, by rw [c]; rfl⟩, d⟩

/-- The iterator has the versions `rem` ahead. -/
def Ahead (it : It) (rem : List Rec) : Prop :=
  (it.pos = [] ∧ rem = []) ∨
  ∃ r rest, it.pos = r.enc :: rest.map Rec.enc ∧ it.prev = encodeBytes r.key ∧
    (∀ x ∈ r :: rest, x.Valid) ∧ rem = r :: scanR it.ts it.now (some r.key) rest

theorem ahead_seek {rs : List Rec} (hv : ∀ r ∈ rs, r.Valid) (hp : rs.Pairwise Rec.lt)
    {ts now : Int} {start stop : Bytes} {it : It}
    (h : seekIt (rs.map Rec.enc) ts now start stop = some it) :
    Ahead it (scanR (effTs ts) now none (rs.filter (inRange start stop))) := by
  unfold seekIt at h
  rw [seek_range hv hp] at h
  cases hn : nextVisible (effTs ts) now [] ((rs.filter (inRange start stop)).map Rec.enc) with
  | none => rw [hn] at h; cases h
  | some x =>
    obtain ⟨p, m⟩ := x
    rw [hn] at h
    simp only [Option.map_some, Option.some.injEq] at h
    subst h
    have hvf : ∀ r ∈ rs.filter (inRange start stop), r.Valid :=
      fun r hr => hv r (List.mem_filter.1 hr).1
    rcases nextVisible_some (prev := none) hvf hn with ⟨a, b⟩ | ⟨r, rest, a, b, ⟨pre, c⟩, d⟩
    · exact Or.inl ⟨a, b⟩
    · refine Or.inr ⟨r, rest, b, a, ?_, d⟩
      intro x hx
      exact hvf x (by rw [c]; exact List.mem_append_right _ hx)

/-- `Next` moves one version on. -/
theorem ahead_next {it it' : It} {r : Rec} {rem : List Rec} (h : Ahead it (r :: rem))
    (hn : it.next = some it') : Ahead it' rem ∧ it'.pos.length < it.pos.length := by
  rcases h with ⟨_, h⟩ | ⟨r', rest, h1, h2, h3, h4⟩
  · cases h
  · simp only [List.cons.injEq] at h4
    obtain ⟨rfl, rfl⟩ := h4
    unfold It.next at hn
    rw [h1, h2] at hn
    cases hx : nextVisible it.ts it.now (encodeBytes r.key) (r.enc :: rest.map Rec.enc) with
    | none => rw [hx] at hn; cases hn
    | some x =>
      obtain ⟨p, m⟩ := x
      rw [hx] at hn
      simp only [Option.map_some, Option.some.injEq] at hn
      subst hn
      have hc := nextVisible_cons (ts := it.ts) (now := it.now) (prev := some r.key)
        (l := rest.map Rec.enc) (h3 r (by simp))
      rw [if_pos (Or.inl rfl)] at hc
      have hx' : nextVisible it.ts it.now (encPrev (some r.key)) (rest.map Rec.enc) = some (p, m) := by
        rw [← hc]; exact hx
      have hv : ∀ x ∈ rest, x.Valid := fun x hx => h3 x (by simp [hx])
      refine ⟨?_, ?_⟩
      · rcases nextVisible_some hv hx' with ⟨a, b⟩ | ⟨y, rest', a, b, ⟨pre, c⟩, d⟩
        · exact Or.inl ⟨a, b⟩
        · refine Or.inr ⟨y, rest', b, a, ?_, d⟩
          intro z hz
          exact hv z (by rw [c]; exact List.mem_append_right _ hz)
      · have := nextVisible_length hx'
        rw [h1]
        simp only [List.length_cons]
        omega

/-- The pair owed for a version. -/
def kvOf (keyOnly : Bool) (r : Rec) : KV := (r.key, if keyOnly then [] else r.ver.value)

theorem pairOf_enc {keyOnly : Bool} {r : Rec} (h : r.Valid) :
    pairOf keyOnly r.enc = some (kvOf keyOnly r) := by
  unfold pairOf kvOf
  rw [decodeKey_enc h]
  cases keyOnly
  · simp [unPackage_enc h]
  · simp

theorem Ahead.head {it : It} {rem : List Rec} (h : Ahead it rem) :
    (it.pos = [] ∧ rem = []) ∨
    ∃ e es r rem', it.pos = e :: es ∧ rem = r :: rem' ∧ r.Valid ∧ e = r.enc := by
  rcases h with h | ⟨r, rest, h1, _, h3, h4⟩
  · exact Or.inl h
  · exact Or.inr ⟨_, _, _, _, h1, h4, h3 r (by simp), rfl⟩

/-- What one run of the paging loop hands out. -/
structure PageOk (keyOnly : Bool) (maxCnt : Nat) (maxBytes : Int) (cnt : Nat) (bytes : Int)
    (rem : List Rec) (kvs : List KV) (more : Bool) (it' : It) : Prop where
  ahead : ∃ rem', Ahead it' rem' ∧ kvs ++ rem'.map (kvOf keyOnly) = rem.map (kvOf keyOnly) ∧
    (more = false → rem' = [])
  empty : kvs = [] → rem = []
  count : cnt < maxCnt → cnt + kvs.length ≤ maxCnt
  bytesLt : bytes < maxBytes → kvs ≠ [] → bytes + sizes kvs.dropLast < maxBytes
  full : more = true → kvs ≠ [] ∧ (cnt + kvs.length ≥ maxCnt ∨ bytes + sizes kvs ≥ maxBytes)
  stops : more = false → kvs ≠ [] → cnt + kvs.length < maxCnt ∧ bytes + sizes kvs < maxBytes

theorem sizes_cons (kv : KV) (kvs : List KV) : sizes (kv :: kvs) = size kv + sizes kvs := by
  simp [sizes]

theorem getKv_ok {keyOnly : Bool} {maxCnt : Nat} {maxBytes : Int} {f cnt : Nat} {bytes : Int}
    {it it' : It} {rem : List Rec} {kvs : List KV} {more : Bool} (ha : Ahead it rem)
    (h : getKv keyOnly maxCnt maxBytes f cnt bytes it = some (kvs, more, it')) :
    PageOk keyOnly maxCnt maxBytes cnt bytes rem kvs more it' := by
  induction f generalizing cnt bytes it rem kvs with
  | zero => cases h
  | succ f ih =>
    rw [getKv] at h
    rcases ha.head with ⟨h1, h2⟩ | ⟨e, es, r, rem1, h1, h2, h3, h4⟩
    · rw [h1] at h
      simp only [Option.some.injEq, Prod.mk.injEq] at h
      obtain ⟨rfl, rfl, rfl⟩ := h
      subst h2
      exact ⟨⟨[], ha, rfl, fun _ => rfl⟩, fun _ => rfl, fun h => by simp; omega, fun _ h => absurd rfl h,
        (fun h => by cases h), fun _ h => absurd rfl h⟩
    · subst h2
      rw [h1] at h
      simp only [h4, pairOf_enc h3] at h
      cases hn : it.next with
      | none => rw [hn] at h; cases h
      | some it1 =>
        rw [hn] at h
        simp only at h
        obtain ⟨ha1, hlt⟩ := ahead_next ha hn
        have hsz : (kvOf keyOnly r).1.length +
            (if keyOnly then 0 else ((kvOf keyOnly r).2.length : Int)) = size (kvOf keyOnly r) := by
          unfold size kvOf; cases keyOnly <;> simp
        have hub : uptoLimit keyOnly maxCnt maxBytes cnt bytes (kvOf keyOnly r) =
            if cnt + 1 ≥ maxCnt then (true, cnt + 1, bytes)
            else (decide (bytes + size (kvOf keyOnly r) ≥ maxBytes), cnt + 1,
              bytes + size (kvOf keyOnly r)) := by
          unfold uptoLimit
          simp only [Int.add_assoc, hsz]
        rw [hub] at h
        by_cases hc : cnt + 1 ≥ maxCnt
        · rw [if_pos hc] at h
          simp only [if_true, Option.some.injEq, Prod.mk.injEq] at h
          obtain ⟨rfl, rfl, rfl⟩ := h
          refine ⟨⟨rem1, ha1, rfl, nofun⟩, nofun, ?_, ?_, ?_, nofun⟩
          · intro _; simp only [List.length_cons, List.length_nil]; omega
          · intro hb _
            have e0 : sizes (List.dropLast [kvOf keyOnly r]) = 0 := rfl
            rw [e0]; omega
          · intro _; exact ⟨by simp, Or.inl (by simpa using hc)⟩
        · rw [if_neg hc] at h
          simp only at h
          by_cases hb : bytes + size (kvOf keyOnly r) ≥ maxBytes
          · simp only [hb, decide_true, if_true, Option.some.injEq, Prod.mk.injEq] at h
            obtain ⟨rfl, rfl, rfl⟩ := h
            refine ⟨⟨rem1, ha1, rfl, nofun⟩, nofun, ?_, ?_, ?_, nofun⟩
            · intro _; simp only [List.length_cons, List.length_nil]; omega
            · intro hb _
              have e0 : sizes (List.dropLast [kvOf keyOnly r]) = 0 := rfl
              rw [e0]; omega
            · intro _; exact ⟨by simp, Or.inr (by simpa [sizes] using hb)⟩
          · simp only [hb, decide_false, Bool.false_eq_true, if_false] at h
            cases hg : getKv keyOnly maxCnt maxBytes f (cnt + 1) (bytes + size (kvOf keyOnly r)) it1 with
            | none => rw [hg] at h; cases h
            | some x =>
              obtain ⟨kvs1, more1, it2⟩ := x
              rw [hg] at h
              simp only [Option.some.injEq, Prod.mk.injEq] at h
              obtain ⟨rfl, rfl, rfl⟩ := h
              have p := ih ha1 hg
              obtain ⟨rem2, a1, a2, a3⟩ := p.ahead
              refine ⟨⟨rem2, a1, ?_, a3⟩, nofun, ?_, ?_, ?_, ?_⟩
              · rw [List.cons_append, a2]; rfl
              · intro _
                have := p.count (by omega)
                simp only [List.length_cons]; omega
              · intro hb' _
                by_cases hk : kvs1 = []
                · subst hk
                  have e0 : sizes (List.dropLast [kvOf keyOnly r]) = 0 := rfl
                  rw [e0]; omega
                · have := p.bytesLt (by omega) hk
                  rw [List.dropLast_cons_of_ne_nil hk, sizes_cons]
                  omega
              · intro hm
                obtain ⟨_, b⟩ := p.full hm
                refine ⟨by simp, ?_⟩
                rw [sizes_cons]
                simp only [List.length_cons]
                rcases b with b | b
                · left; omega
                · right; omega
              · intro hm _
                rw [sizes_cons]
                simp only [List.length_cons]
                by_cases hk : kvs1 = []
                · subst hk
                  simp only [sizes, List.map_nil, List.sum_nil, List.length_nil]
                  constructor <;> omega
                · obtain ⟨b, c⟩ := p.stops hm hk
                  constructor <;> omega

/-- The loop cannot run out of fuel: it aborts only if the data holds an empty
value with a TTL. -/
theorem getKv_total {keyOnly : Bool} {maxCnt : Nat} {maxBytes : Int} {f cnt : Nat} {bytes : Int}
    {it : It} {rem : List Rec} (ha : Ahead it rem) (hf : it.pos.length < f)
    (hne : ∀ e ∈ it.pos, ∀ r : Rec, r.Valid → e = r.enc → ¬ r.ver.emptyTTL) :
    ∃ x, getKv keyOnly maxCnt maxBytes f cnt bytes it = some x := by
  induction f generalizing cnt bytes it rem with
  | zero => omega
  | succ f ih =>
    rw [getKv]
    rcases ha with ⟨h1, h2⟩ | ⟨r, rest, h1, h2, h3, h4⟩
    · rw [h1]; exact ⟨_, rfl⟩
    · have ha : Ahead it rem := Or.inr ⟨r, rest, h1, h2, h3, h4⟩
      rw [h1]
      simp only [pairOf_enc (h3 r (by simp))]
      have hv : ∀ x ∈ rest, x.Valid := fun x hx => h3 x (by simp [hx])
      have hnx : ∃ it1, it.next = some it1 ∧ ∀ e ∈ it1.pos, e ∈ it.pos := by
        unfold It.next
        rw [h1, h2]
        have hc := nextVisible_cons (ts := it.ts) (now := it.now) (prev := some r.key)
          (l := rest.map Rec.enc) (h3 r (by simp))
        rw [if_pos (Or.inl rfl)] at hc
        simp only [encPrev] at hc
        rw [hc]
        have hn' : ∀ x ∈ rest, ¬ x.ver.emptyTTL := by
          intro x hx
          refine hne x.enc ?_ x (hv x hx) rfl
          rw [h1]; exact List.mem_cons_of_mem _ (List.mem_map.2 ⟨x, hx, rfl⟩)
        rcases nextVisible_spec (ts := it.ts) (now := it.now) (prev := some r.key) hv hn' with
          ⟨_, p, e⟩ | ⟨y, rest', ⟨pre, c⟩, e, _⟩
        · simp only [encPrev] at e
          rw [e]; exact ⟨_, rfl, by simp⟩
        · simp only [encPrev] at e
          rw [e]
          refine ⟨_, rfl, ?_⟩
          intro z hz
          refine List.mem_cons_of_mem _ ?_
          simp only at hz
          rw [c, List.map_append, List.map_cons]
          exact List.mem_append_right _ hz
      obtain ⟨it1, e1, e2⟩ := hnx
      rw [e1]
      simp only
      split
      · exact ⟨_, rfl⟩
      · subst h4
        obtain ⟨ha1, hlt⟩ := ahead_next ha e1
        obtain ⟨x, hx⟩ := ih (cnt := (uptoLimit keyOnly maxCnt maxBytes cnt bytes (kvOf keyOnly r)).2.1)
          (bytes := (uptoLimit keyOnly maxCnt maxBytes cnt bytes (kvOf keyOnly r)).2.2) ha1 (by omega)
          (fun e he => hne e (e2 e he))
        rw [hx]
        exact ⟨_, rfl⟩

end Verif.Scan
