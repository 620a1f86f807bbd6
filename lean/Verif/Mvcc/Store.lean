import Verif.Mvcc.Lemmas

/-! # Lemmas: well-formed stores, exact readers -/

namespace Verif.Mvcc
open Verif.Codec

theorem recs_exist {st : Store} (h : ∀ e ∈ st, ∃ r : Rec, r.Valid ∧ e = r.enc) :
    ∃ rs : List Rec, st = rs.map Rec.enc ∧ ∀ r ∈ rs, r.Valid := by
  induction st with
  | nil => exact ⟨[], rfl, by simp⟩
  | cons e st ih =>
    obtain ⟨rs, h1, h2⟩ := ih (fun e he => h e (List.mem_cons_of_mem _ he))
    obtain ⟨r, hr, he⟩ := h e (by simp)
    refine ⟨r :: rs, by rw [List.map_cons, ← h1, ← he], ?_⟩
    intro x hx
    rcases List.mem_cons.1 hx with rfl | hx
    · exact hr
    · exact h2 x hx

theorem sorted_recs {rs : List Rec} (hv : ∀ r ∈ rs, r.Valid) :
    SortedStore (rs.map Rec.enc) ↔ rs.Pairwise Rec.lt := by
  unfold SortedStore
  rw [List.pairwise_map]
  constructor
  · intro h
    exact h.imp_of_mem (fun {a b} ha hb hab => (enc_lt (hv a ha) (hv b hb)).1 hab)
  · intro h
    exact h.imp_of_mem (fun {a b} ha hb hab => (enc_lt (hv a ha) (hv b hb)).2 hab)

theorem WFStore.recs {st : Store} (h : WFStore st) :
    ∃ rs : List Rec, st = rs.map Rec.enc ∧ (∀ r ∈ rs, r.Valid) ∧ rs.Pairwise Rec.lt := by
  obtain ⟨rs, h1, h2⟩ := recs_exist h.2
  exact ⟨rs, h1, h2, (sorted_recs h2).1 (h1 ▸ h.1)⟩

theorem stored_map {rs : List Rec} (hv : ∀ r ∈ rs, r.Valid) {r : Rec} :
    Stored (rs.map Rec.enc) r ↔ r ∈ rs := by
  constructor
  · rintro ⟨h1, h2⟩
    obtain ⟨s, hs, he⟩ := List.mem_map.1 h2
    rw [← enc_inj (hv s hs) h1 he]
    exact hs
  · intro h
    exact ⟨hv r h, List.mem_map.2 ⟨r, h, rfl⟩⟩

/-- A store determines the version at (key, ts). -/
theorem Stored.unique {st : Store} (h : WFStore st) {r s : Rec} (hr : Stored st r)
    (hs : Stored st s) (hk : r.key = s.key) (ht : r.ts = s.ts) : r = s := by
  obtain ⟨rs, rfl, hv, hp⟩ := h.recs
  rw [stored_map hv] at hr hs
  by_cases hne : r = s
  · exact hne
  · exfalso
    have key : ∀ {l : List Rec}, l.Pairwise Rec.lt → r ∈ l → s ∈ l → False := by
      intro l
      induction l with
      | nil => intro _ h; simp at h
      | cons a l ih =>
        intro hp hr hs
        rw [List.pairwise_cons] at hp
        rcases List.mem_cons.1 hr with rfl | hr'
        · rcases List.mem_cons.1 hs with rfl | hs
          · exact hne rfl
          · rcases hp.1 s hs with h | ⟨_, h⟩
            · rw [hk] at h; exact lt_irrefl _ h
            · omega
        · rcases List.mem_cons.1 hs with rfl | hs
          · rcases hp.1 r (by assumption) with h | ⟨_, h⟩
            · rw [hk] at h; exact lt_irrefl _ h
            · omega
          · exact ih hp.2 hr' hs
    exact key hp hr hs

theorem filter_recs {rs : List Rec} (hv : ∀ r ∈ rs, r.Valid) (p : Entry → Bool) (q : Rec → Bool)
    (h : ∀ r, r.Valid → p r.enc = q r) :
    (rs.map Rec.enc).filter p = (rs.filter q).map Rec.enc := by
  rw [List.filter_map]
  congr 1
  apply List.filter_congr
  intro r hr
  exact h r (hv r hr)

/-- Versions of the keys in `[start, stop)`. -/
def inRange (start stop : Bytes) (r : Rec) : Bool := decide (start ≤ r.key ∧ r.key < stop)

theorem seek_range {rs : List Rec} (hv : ∀ r ∈ rs, r.Valid) (hp : rs.Pairwise Rec.lt)
    (start stop : Bytes) :
    seek (rs.map Rec.enc) (encodeBytes start) (encodeBytes stop) =
      (rs.filter (inRange start stop)).map Rec.enc := by
  rw [seek_eq_filter ((sorted_recs hv).2 hp)]
  apply filter_recs hv
  intro r hr
  unfold inRange
  congr 1
  exact propext (C03_range start stop r.key r.ts hr.1 _ (enc_eq_encodeKey hr))

theorem seek_point {rs : List Rec} (hv : ∀ r ∈ rs, r.Valid) (hp : rs.Pairwise Rec.lt) (k : Bytes) :
    seek (rs.map Rec.enc) (encodeBytes k) (prefixNext (encodeBytes k)) =
      (rs.filter (fun r => decide (r.key = k))).map Rec.enc := by
  rw [seek_eq_filter ((sorted_recs hv).2 hp)]
  apply filter_recs hv
  intro r hr
  congr 1
  exact propext (C03_point k r.key r.ts hr.1 _ (enc_eq_encodeKey hr))

/-- An encoded key is a strict prefix of the stored keys, so the inclusive
`SeekForPrev(EncodeBytes(end))` bound never includes a version of `end`. -/
theorem enc_le_bound {r : Rec} (hr : r.Valid) (stop : Bytes) :
    r.enc.1 ≤ encodeBytes stop ↔ r.key < stop := by
  have hlt := (C03_range [] stop r.key r.ts hr.1 _ (enc_eq_encodeKey hr))
  simp only [encodeRange] at hlt
  have hne : r.enc.1 ≠ encodeBytes stop := by
    intro h
    have := congrArg List.length h
    simp only [Rec.enc, List.length_append, be64_length, encodeBytes_length] at this
    omega
  have h0 : encodeBytes [] ≤ r.enc.1 := by
    rw [← List.not_lt]
    intro h
    have : r.enc.1 < encodeBytes [] ++ be64 (2 ^ 64 - 1 - r.ts.toNat) := by
      exact Std.lt_of_lt_of_le h (le_append _ _)
    have h2 := (C02_order r.key [] r.ts r.ts hr.1 hr.1 _ _ (enc_eq_encodeKey hr) (encodeKey_eq hr.1)).1 this
    rcases h2 with h2 | ⟨_, h2⟩
    · exact absurd h2 (by simp)
    · omega
  constructor
  · intro h
    have : r.enc.1 < encodeBytes stop := by
      rcases (le_iff_lt_or_eq _ _).1 h with h | h
      · exact h
      · exact absurd h hne
    exact (hlt.1 ⟨h0, this⟩).2
  · intro h
    exact List.le_of_lt (hlt.2 ⟨by simp, h⟩).2

theorem seekForPrev_range {rs : List Rec} (hv : ∀ r ∈ rs, r.Valid) (hp : rs.Pairwise Rec.lt)
    (start stop : Bytes) :
    seekForPrev (rs.map Rec.enc) (encodeBytes stop) (encodeBytes start) =
      ((rs.filter (inRange start stop)).reverse).map Rec.enc := by
  rw [seekForPrev_eq_filter ((sorted_recs hv).2 hp), List.map_reverse]
  congr 1
  apply filter_recs hv
  intro r hr
  unfold inRange
  congr 1
  apply propext
  have h1 := C03_range start (start ++ [0]) r.key r.ts hr.1 _ (enc_eq_encodeKey hr)
  have h2 := enc_le_bound hr start
  rw [enc_le_bound hr stop]
  constructor
  · rintro ⟨ha, hb⟩
    refine ⟨?_, hb⟩
    rw [← List.not_lt]
    intro hlt
    have hle := h2.2 hlt
    have : r.enc.1 = encodeBytes start := List.le_antisymm hle ha
    have := congrArg List.length this
    simp only [Rec.enc, List.length_append, be64_length, encodeBytes_length] at this
    omega
  · rintro ⟨ha, hb⟩
    refine ⟨?_, hb⟩
    rw [← List.not_lt]
    intro hlt
    have := h2.1 (List.le_of_lt hlt)
    rw [← List.not_lt] at ha
    exact ha this

/-! ## Exact forward scan, with the abort -/

/-- The forward traversal on versions, `none` on reading an empty TTL value. -/
def scanO (ts now : Int) (prev : Option Bytes) : List Rec → Option (List Rec)
  | [] => some []
  | r :: rs =>
    if prev = some r.key ∨ r.ts > ts then scanO ts now prev rs
    else if r.ver.emptyTTL then none
    else if r.ver.Live now then (scanO ts now (some r.key) rs).map (r :: ·)
    else scanO ts now (some r.key) rs

theorem scanO_some {ts now : Int} {prev : Option Bytes} {rs out : List Rec}
    (h : scanO ts now prev rs = some out) : out = scanR ts now prev rs := by
  induction rs generalizing prev out with
  | nil => simp only [scanO, Option.some.injEq] at h; simp [scanR, h]
  | cons r rs ih =>
    simp only [scanO] at h
    simp only [scanR]
    split
    · rename_i hc; rw [if_pos hc] at h; exact ih h
    · rename_i hc; rw [if_neg hc] at h
      split at h
      · cases h
      · split
        · rename_i hl; rw [if_pos hl] at h
          cases hs : scanO ts now (some r.key) rs with
          | none => rw [hs] at h; cases h
          | some l => rw [hs] at h; cases h; rw [ih hs]
        · rename_i hl; rw [if_neg hl] at h; exact ih h

theorem scanO_filter {ts now : Int} {prev : Option Bytes} {rs : List Rec} (q : Rec → Bool)
    (hq : ∀ r, r.ts ≤ ts → q r = true) :
    scanO ts now prev (rs.filter q) = scanO ts now prev rs := by
  induction rs generalizing prev with
  | nil => rfl
  | cons r rs ih =>
    by_cases h : q r
    · rw [List.filter_cons, if_pos h]
      simp only [scanO, ih]
    · rw [List.filter_cons, if_neg h, ih, scanO]
      have : r.ts > ts := by
        by_cases h' : r.ts ≤ ts
        · exact absurd (hq r h') h
        · omega
      rw [if_pos (Or.inr this)]

/-- The scan aborts exactly when some key's newest version at `ts` is an empty
TTL value. -/
theorem scanO_none {ts now : Int} {prev : Option Bytes} {rs : List Rec} (hs : rs.Pairwise Rec.lt)
    (hp : ∀ p, prev = some p → ∀ r ∈ rs, p ≤ r.key) :
    scanO ts now prev rs = none ↔
      ∃ x, NewestIn rs ts x ∧ x.ver.emptyTTL ∧ prev ≠ some x.key := by
  induction rs generalizing prev with
  | nil => simp [scanO, NewestIn]
  | cons r rs ih =>
    rw [List.pairwise_cons] at hs
    obtain ⟨hr, hs⟩ := hs
    have le_of : ∀ y ∈ rs, r.key ≤ y.key := by
      intro y hy
      rcases hr y hy with h | ⟨h, _⟩
      · exact List.le_of_lt h
      · rw [h]; exact List.le_refl _
    have hp' : ∀ p, prev = some p → ∀ r ∈ rs, p ≤ r.key :=
      fun p h r hr => hp p h r (List.mem_cons_of_mem _ hr)
    simp only [scanO]
    by_cases h1 : prev = some r.key ∨ r.ts > ts
    · rw [if_pos h1, ih hs hp']
      constructor
      · rintro ⟨x, ⟨h2, h3, h4⟩, h5, h6⟩
        refine ⟨x, ⟨List.mem_cons_of_mem _ h2, h3, ?_⟩, h5, h6⟩
        intro y hy hk ht
        rcases List.mem_cons.1 hy with rfl | hy
        · rcases h1 with h1 | h1
          · exact absurd (h1.trans (by rw [hk])) h6
          · omega
        · exact h4 y hy hk ht
      · rintro ⟨x, ⟨h2, h3, h4⟩, h5, h6⟩
        rcases List.mem_cons.1 h2 with rfl | h2
        · rcases h1 with h1 | h1
          · exact absurd h1 h6
          · omega
        · exact ⟨x, ⟨h2, h3, fun y hy => h4 y (List.mem_cons_of_mem _ hy)⟩, h5, h6⟩
    · rw [if_neg h1]
      have h1a : prev ≠ some r.key := fun h => h1 (Or.inl h)
      have h1b : r.ts ≤ ts := by
        by_cases h : r.ts > ts
        · exact absurd (Or.inr h) h1
        · omega
      by_cases h2 : r.ver.emptyTTL
      · rw [if_pos h2]
        refine ⟨fun _ => ⟨r, ⟨by simp, h1b, ?_⟩, h2, h1a⟩, fun _ => rfl⟩
        intro y hy hk _
        rcases List.mem_cons.1 hy with rfl | hy
        · omega
        · rcases hr y hy with h | ⟨_, h⟩
          · rw [hk] at h; exact absurd h (lt_irrefl _)
          · omega
      · rw [if_neg h2]
        have hpr : ∀ p, some r.key = some p → ∀ y ∈ rs, p ≤ y.key := by
          intro p h y hy; cases h; exact le_of y hy
        have e : ((if r.ver.Live now then (scanO ts now (some r.key) rs).map (r :: ·)
            else scanO ts now (some r.key) rs) = none) ↔ scanO ts now (some r.key) rs = none := by
          split
          · simp
          · rfl
        rw [e, ih hs hpr]
        constructor
        · rintro ⟨x, ⟨h3, h4, h5⟩, h6, h7⟩
          refine ⟨x, ⟨List.mem_cons_of_mem _ h3, h4, ?_⟩, h6, ?_⟩
          · intro y hy hk ht
            rcases List.mem_cons.1 hy with rfl | hy
            · exact absurd (by rw [hk]) h7
            · exact h5 y hy hk ht
          · intro hpx
            have hle : x.key ≤ r.key := hp x.key hpx r (by simp)
            have : x.key = r.key := List.le_antisymm hle (le_of x h3)
            exact h7 (by rw [this])
        · rintro ⟨x, ⟨h3, h4, h5⟩, h6, h7⟩
          rcases List.mem_cons.1 h3 with rfl | h3
          · exact absurd h6 h2
          · refine ⟨x, ⟨h3, h4, fun y hy => h5 y (List.mem_cons_of_mem _ hy)⟩, h6, ?_⟩
            intro hk
            have hk : r.key = x.key := Option.some.inj hk
            have h8 := h5 r (by simp) hk h1b
            rcases hr x h3 with h | ⟨_, h⟩
            · rw [hk] at h; exact lt_irrefl _ h
            · omega

/-- What one `NextVisibleKey` call does, aborts included. -/
theorem nextVisible_exact {ts now : Int} {prev : Option Bytes} {rs : List Rec}
    (hv : ∀ r ∈ rs, r.Valid) :
    (scanO ts now prev rs = none ∧ nextVisible ts now (encPrev prev) (rs.map Rec.enc) = none) ∨
    (scanO ts now prev rs = some [] ∧
      ∃ p, nextVisible ts now (encPrev prev) (rs.map Rec.enc) = some (p, [])) ∨
    ∃ r rest, (∃ pre, rs = pre ++ r :: rest) ∧
      nextVisible ts now (encPrev prev) (rs.map Rec.enc) =
        some (encodeBytes r.key, r.enc :: rest.map Rec.enc) ∧
      scanO ts now prev rs = (scanO ts now (some r.key) rest).map (r :: ·) := by
  induction rs generalizing prev with
  | nil => exact Or.inr (Or.inl ⟨rfl, _, rfl⟩)
  | cons r rs ih =>
    have hvr := hv r (by simp)
    have ih' := fun prev => ih (prev := prev) (fun r hr => hv r (List.mem_cons_of_mem _ hr))
    rw [List.map_cons, nextVisible_cons hvr]
    simp only [scanO]
    have lift : ∀ prev', ((scanO ts now prev' rs = none ∧
          nextVisible ts now (encPrev prev') (rs.map Rec.enc) = none) ∨
        (scanO ts now prev' rs = some [] ∧
          ∃ p, nextVisible ts now (encPrev prev') (rs.map Rec.enc) = some (p, [])) ∨
        ∃ x rest, (∃ pre, r :: rs = pre ++ x :: rest) ∧
          nextVisible ts now (encPrev prev') (rs.map Rec.enc) =
            some (encodeBytes x.key, x.enc :: rest.map Rec.enc) ∧
          scanO ts now prev' rs = (scanO ts now (some x.key) rest).map (x :: ·)) := by
      intro prev'
      rcases ih' prev' with h | h | ⟨x, rest, ⟨pre, hpre⟩, h1, h2⟩
      · exact Or.inl h
      · exact Or.inr (Or.inl h)
      · exact Or.inr (Or.inr ⟨x, rest, ⟨r :: pre, by rw [hpre]; rfl⟩, h1, h2⟩)
    by_cases h1 : prev = some r.key ∨ r.ts > ts
    · rw [if_pos h1, if_pos h1]; exact lift prev
    · rw [if_neg h1, if_neg h1]
      by_cases h0 : r.ver.emptyTTL
      · rw [if_pos h0, if_pos h0]; exact Or.inl ⟨rfl, rfl⟩
      · rw [if_neg h0, if_neg h0]
        by_cases h2 : r.ver.Live now
        · rw [if_pos h2, if_pos h2]
          exact Or.inr (Or.inr ⟨r, rs, ⟨[], rfl⟩, rfl, rfl⟩)
        · rw [if_neg h2, if_neg h2]
          exact lift (some r.key)

theorem forwardAll_exact {ts now : Int} {prev : Option Bytes} {rs : List Rec}
    (hv : ∀ r ∈ rs, r.Valid) :
    forwardAll ts now (encPrev prev) (rs.map Rec.enc) =
      (scanO ts now prev rs).map (List.map Rec.enc) := by
  induction hn : rs.length using Nat.strongRecOn generalizing prev rs with
  | _ n ih =>
    rw [forwardAll]
    rcases nextVisible_exact (ts := ts) (now := now) (prev := prev) hv with
      ⟨h1, h2⟩ | ⟨h1, p, h2⟩ | ⟨r, rest, ⟨pre, hpre⟩, h1, h2⟩
    · split
      · rw [h1]; rfl
      · rename_i h; rw [h2] at h; cases h
      · rename_i h; rw [h2] at h; cases h
    · split
      · rename_i h; rw [h2] at h; cases h
      · rw [h1]; rfl
      · rename_i h; rw [h2] at h; cases h
    · have hlt : rest.length < n := by
        have := congrArg List.length hpre
        simp at this; omega
      have hsub : ∀ x ∈ rest, x ∈ rs := by
        intro x hx; rw [hpre]; simp [hx]
      have ih' := ih rest.length hlt (prev := some r.key) (rs := rest)
        (fun x hx => hv x (hsub x hx)) rfl
      split
      · rename_i h; rw [h1] at h; cases h
      · rename_i h; rw [h1] at h; cases h
      · rename_i p e es h
        rw [h1] at h
        cases h
        simp only [encPrev] at ih'
        rw [ih', h2]
        cases scanO ts now (some r.key) rest <;> rfl

theorem decodeEntry_enc {r : Rec} (h : r.Valid) :
    decodeEntry r.enc = some (r.key, r.ts, r.ver.value) := by
  unfold decodeEntry
  rw [decodeKey_enc h, unPackage_enc h]

theorem mapM_decodeEntry {rs : List Rec} (hv : ∀ r ∈ rs, r.Valid) :
    (rs.map Rec.enc).mapM decodeEntry = some (rs.map (fun r => (r.key, r.ts, r.ver.value))) := by
  induction rs with
  | nil => rfl
  | cons r rs ih =>
    rw [List.map_cons, List.mapM_cons, decodeEntry_enc (hv r (by simp)),
      ih (fun x hx => hv x (List.mem_cons_of_mem _ hx))]
    rfl

/-! ## The readers on versions -/

/-- Versions of key `k`. -/
def ofKey (k : Bytes) (r : Rec) : Bool := decide (r.key = k)

theorem kvGet_recs {rs : List Rec} (hv : ∀ r ∈ rs, r.Valid) (hp : rs.Pairwise Rec.lt)
    (now ts : Int) {k : Bytes} (hk : k ≠ []) :
    kvGet (rs.map Rec.enc) now ts k =
      match scanO (effTs ts) now none (rs.filter (ofKey k)) with
      | none => .crash
      | some [] => .notFound
      | some (r :: _) => .value r.ver.value := by
  unfold kvGet
  rw [if_neg (by simpa using hk)]
  simp only
  rw [seek_point hv hp]
  have hv' : ∀ r ∈ rs.filter (fun r => decide (r.key = k)), r.Valid :=
    fun r hr => hv r (List.mem_filter.1 hr).1
  have hof : rs.filter (ofKey k) = rs.filter (fun r => decide (r.key = k)) := rfl
  rw [hof]
  rcases nextVisible_exact (ts := effTs ts) (now := now) (prev := none) hv' with
    ⟨h1, h2⟩ | ⟨h1, p, h2⟩ | ⟨r, rest, ⟨pre, hpre⟩, h1, h2⟩
  · simp only [encPrev] at h2; rw [h1, h2]
  · simp only [encPrev] at h2; rw [h1, h2]
  · simp only [encPrev] at h1
    rw [h1]
    have hr : r.Valid := hv' r (by rw [hpre]; simp)
    have he : r.enc = (r.enc.1, r.enc.2) := rfl
    rw [he]
    simp only [unPackage_enc hr]
    -- no later entry can abort: they all have the same key
    have hkeys : ∀ x ∈ rest, x.key = r.key := by
      intro x hx
      have hx' : x ∈ rs.filter (fun r => decide (r.key = k)) := by rw [hpre]; simp [hx]
      have hr' : r ∈ rs.filter (fun r => decide (r.key = k)) := by rw [hpre]; simp
      have a := (List.mem_filter.1 hx').2
      have b := (List.mem_filter.1 hr').2
      simp only [decide_eq_true_eq] at a b
      rw [a, b]
    have hsk : ∀ l : List Rec, (∀ x ∈ l, x.key = r.key) →
        scanO (effTs ts) now (some r.key) l = some [] := by
      intro l
      induction l with
      | nil => intro _; rfl
      | cons x l ih =>
        intro h
        rw [scanO, if_pos (Or.inl (by rw [h x (by simp)]))]
        exact ih (fun y hy => h y (List.mem_cons_of_mem _ hy))
    rw [h2, hsk rest hkeys]
    rfl

theorem newestIn_filter {rs : List Rec} {ts : Int} {x : Rec} (p : Rec → Bool)
    (hp : ∀ r s : Rec, r.key = s.key → p r = p s) :
    NewestIn (rs.filter p) ts x ↔ NewestIn rs ts x ∧ p x = true := by
  unfold NewestIn
  constructor
  · rintro ⟨h1, h2, h3⟩
    obtain ⟨h1, h4⟩ := List.mem_filter.1 h1
    exact ⟨⟨h1, h2, fun r hr hk => h3 r (List.mem_filter.2 ⟨hr, by rw [hp r x hk]; exact h4⟩) hk⟩, h4⟩
  · rintro ⟨⟨h1, h2, h3⟩, h4⟩
    exact ⟨List.mem_filter.2 ⟨h1, h4⟩, h2, fun r hr => h3 r (List.mem_filter.1 hr).1⟩

theorem ofKey_congr (k : Bytes) (r s : Rec) (h : r.key = s.key) : ofKey k r = ofKey k s := by
  simp [ofKey, h]

theorem inRange_congr (a b : Bytes) (r s : Rec) (h : r.key = s.key) :
    inRange a b r = inRange a b s := by
  simp [inRange, h]

theorem no_prev {rs : List Rec} : ∀ p, (none : Option Bytes) = some p → ∀ r ∈ rs, p ≤ r.key := by
  intro p h; cases h

/-- Result of a point read in terms of the newest version. -/
theorem kvGet_newest {rs : List Rec} (hv : ∀ r ∈ rs, r.Valid) (hp : rs.Pairwise Rec.lt)
    (now ts : Int) {k : Bytes} (hk : k ≠ []) :
    (kvGet (rs.map Rec.enc) now ts k = .crash ∧
      ∃ x, NewestIn rs (effTs ts) x ∧ x.key = k ∧ x.ver.emptyTTL) ∨
    (kvGet (rs.map Rec.enc) now ts k = .notFound ∧
      ∀ x, NewestIn rs (effTs ts) x → x.key = k → ¬ x.ver.emptyTTL ∧ ¬ x.ver.Live now) ∨
    (∃ x, kvGet (rs.map Rec.enc) now ts k = .value x.ver.value ∧
      NewestIn rs (effTs ts) x ∧ x.key = k ∧ ¬ x.ver.emptyTTL ∧ x.ver.Live now) := by
  have hpf := hp.sublist (List.filter_sublist (p := ofKey k))
  have hn : ∀ {x}, NewestIn (rs.filter (ofKey k)) (effTs ts) x ↔
      NewestIn rs (effTs ts) x ∧ x.key = k := by
    intro x
    rw [newestIn_filter _ (ofKey_congr k)]
    simp [ofKey]
  rw [kvGet_recs hv hp now ts hk]
  cases hsc : scanO (effTs ts) now none (rs.filter (ofKey k)) with
  | none =>
    left
    refine ⟨rfl, ?_⟩
    obtain ⟨x, h1, h2, _⟩ := (scanO_none hpf no_prev).1 hsc
    obtain ⟨h3, h4⟩ := hn.1 h1
    exact ⟨x, h3, h4, h2⟩
  | some out =>
    have hne : ∀ x, NewestIn rs (effTs ts) x → x.key = k → ¬ x.ver.emptyTTL := by
      intro x h1 h2 h3
      have := (scanO_none (now := now) hpf no_prev).2 ⟨x, hn.2 ⟨h1, h2⟩, h3, by simp⟩
      rw [hsc] at this; cases this
    have hout := scanO_some hsc
    right
    cases out with
    | nil =>
      left
      refine ⟨rfl, ?_⟩
      intro x h1 h2
      refine ⟨hne x h1 h2, fun h3 => ?_⟩
      have := (mem_scanR hpf no_prev x).2 ⟨hn.2 ⟨h1, h2⟩, h3, by simp⟩
      rw [← hout] at this; simp at this
    | cons r out =>
      right
      have := (mem_scanR (now := now) (ts := effTs ts) hpf no_prev r).1 (by rw [← hout]; simp)
      obtain ⟨h1, h2, _⟩ := this
      obtain ⟨h3, h4⟩ := hn.1 h1
      exact ⟨r, rfl, h3, h4, hne r h3 h4, h2⟩

theorem newestIn_unique {rs : List Rec} (hv : ∀ r ∈ rs, r.Valid) (hp : rs.Pairwise Rec.lt)
    {ts : Int} {x y : Rec} (hx : NewestIn rs ts x) (hy : NewestIn rs ts y) (hk : x.key = y.key) :
    x = y := by
  have a := hx.2.2 y hy.1 hk.symm hy.2.1
  have b := hy.2.2 x hx.1 hk hx.2.1
  have wf : WFStore (rs.map Rec.enc) := ⟨(sorted_recs hv).2 hp, by
    intro e he
    obtain ⟨r, hr, rfl⟩ := List.mem_map.1 he
    exact ⟨r, hv r hr, rfl⟩⟩
  exact Stored.unique wf ((stored_map hv).2 hx.1) ((stored_map hv).2 hy.1) hk (by omega)

theorem kvScan_recs {rs : List Rec} (hv : ∀ r ∈ rs, r.Valid) (hp : rs.Pairwise Rec.lt)
    (now ts : Int) {start stop : Bytes} (h1 : start ≠ []) (h2 : stop ≠ []) :
    kvScan (rs.map Rec.enc) now ts start stop =
      match scanO (effTs ts) now none (rs.filter (inRange start stop)) with
      | none => .crash
      | some out => .ok (out.map (fun r => (r.key, r.ts, r.ver.value))) := by
  unfold kvScan
  rw [if_neg (by simp [h1, h2]), seek_range hv hp]
  have hv' : ∀ r ∈ rs.filter (inRange start stop), r.Valid :=
    fun r hr => hv r (List.mem_filter.1 hr).1
  have := forwardAll_exact (ts := effTs ts) (now := now) (prev := none) hv'
  simp only [encPrev] at this
  rw [this]
  cases hsc : scanO (effTs ts) now none (rs.filter (inRange start stop)) with
  | none => rfl
  | some out =>
    simp only [Option.map_some]
    have hsub : ∀ r ∈ out, r.Valid := by
      intro r hr
      rw [scanO_some hsc] at hr
      exact hv' r (scanR_sublist.subset hr)
    rw [mapM_decodeEntry hsub]

theorem kvCount_recs {rs : List Rec} (hv : ∀ r ∈ rs, r.Valid) (hp : rs.Pairwise Rec.lt)
    (now ts : Int) {start stop : Bytes} (h1 : start ≠ []) (h2 : stop ≠ []) :
    kvCount (rs.map Rec.enc) now ts start stop =
      match scanO (effTs ts) now none (rs.filter (inRange start stop)) with
      | none => .crash
      | some out => .ok out.length := by
  unfold kvCount
  rw [if_neg (by simp [h1, h2]), seek_range hv hp]
  have hv' : ∀ r ∈ rs.filter (inRange start stop), r.Valid :=
    fun r hr => hv r (List.mem_filter.1 hr).1
  have := forwardAll_exact (ts := effTs ts) (now := now) (prev := none) hv'
  simp only [encPrev] at this
  rw [this]
  cases hsc : scanO (effTs ts) now none (rs.filter (inRange start stop)) with
  | none => rfl
  | some out => simp

end Verif.Mvcc
