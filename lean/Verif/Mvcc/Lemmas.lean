import Verif.Mvcc.Spec

/-! # Lemmas: from stored bytes to versions, forward and backward traversal -/

namespace Verif.Mvcc
open Verif.Codec

theorem enc_eq_encodeKey {r : Rec} (h : r.Valid) : encodeKey r.key r.ts = some r.enc.1 :=
  encodeKey_eq h.1

/-! ## Byte-level facts for one entry -/

theorem truncateTs_enc {r : Rec} (h : r.Valid) :
    truncateTsForKey r.enc.1 = some (encodeBytes r.key) := by
  obtain ⟨e, h1, h2, _⟩ := C01_truncate r.key r.ts h.1
  rw [enc_eq_encodeKey h] at h1
  cases h1; exact h2

theorem truncateKey_enc {r : Rec} (h : r.Valid) : truncateKeyForTs r.enc.1 = some r.ts := by
  obtain ⟨e, h1, _, h2⟩ := C01_truncate r.key r.ts h.1
  rw [enc_eq_encodeKey h] at h1
  cases h1; exact h2

theorem decodeKey_enc {r : Rec} (h : r.Valid) : decodeKey r.enc.1 = .ok (r.key, r.ts) := by
  obtain ⟨e, h1, h2⟩ := C01_key_roundtrip r.key r.ts h.1
  rw [enc_eq_encodeKey h] at h1
  cases h1; exact h2

theorem unPackage_enc {r : Rec} (h : r.Valid) : unPackageValue r.enc.2 = some r.ver.value := by
  obtain ⟨k, t, v⟩ := r
  cases v with
  | put v =>
    have := (C04_value_roundtrip .put 0 v (by constructor <;> decide)).2.1
    simpa [Rec.enc, Ver.pkg, Ver.value] using this
  | putTTL ttl v =>
    have := (C04_value_roundtrip .putTTL ttl v h.2).2.1
    simpa [Rec.enc, Ver.pkg, Ver.value] using this
  | del =>
    have := (C04_value_roundtrip .delete 0 [] (by constructor <;> decide)).2.1
    simpa [Rec.enc, Ver.pkg, Ver.value] using this

theorem flag_put (v : Bytes) : getValueFlag (Ver.put v).pkg = some .put :=
  (C04_value_roundtrip .put 0 v (by constructor <;> decide)).2.2

theorem flag_putTTL {ttl : Int} (v : Bytes) (h : IsI64 ttl) :
    getValueFlag (Ver.putTTL ttl v).pkg = some .putTTL :=
  (C04_value_roundtrip .putTTL ttl v h).2.2

theorem flag_del : getValueFlag Ver.del.pkg = some .delete :=
  (C04_value_roundtrip .delete 0 [] (by constructor <;> decide)).2.2

theorem pkg_inj {v w : Ver} (hv : v.Valid) (hw : w.Valid) (h : v.pkg = w.pkg) : v = w := by
  have key : ∀ {v : Ver}, v.Valid → unPackageValueTTL v.pkg = some (match v with
      | .put x => (.put, 0, x)
      | .putTTL t x => (.putTTL, t, x)
      | .del => (.delete, 0, [])) := by
    intro v hv
    cases v with
    | put x => exact (C04_value_roundtrip .put 0 x (by constructor <;> decide)).1
    | putTTL t x => exact (C04_value_roundtrip .putTTL t x hv).1
    | del => exact (C04_value_roundtrip .delete 0 [] (by constructor <;> decide)).1
  have h1 := key hv
  have h2 := key hw
  rw [h, h2] at h1
  cases v <;> cases w <;> simp_all

theorem enc_inj {r s : Rec} (hr : r.Valid) (hs : s.Valid) (h : r.enc = s.enc) : r = s := by
  have hk : r.enc.1 = s.enc.1 := by rw [h]
  have := C01_key_injective r.key s.key r.ts s.ts hr.1 hs.1
    (by rw [enc_eq_encodeKey hr, enc_eq_encodeKey hs, hk])
  have hp := pkg_inj hr.2 hs.2 (congrArg Prod.snd h)
  cases r; cases s; simp_all

/-- Order of versions: key ascending, timestamp descending. -/
def Rec.lt (r s : Rec) : Prop := r.key < s.key ∨ (r.key = s.key ∧ s.ts < r.ts)

theorem enc_lt {r s : Rec} (hr : r.Valid) (hs : s.Valid) : r.enc.1 < s.enc.1 ↔ r.lt s :=
  C02_order r.key s.key r.ts s.ts hr.1 hs.1 _ _ (enc_eq_encodeKey hr) (enc_eq_encodeKey hs)

theorem encodeBytes_ne_nil (k : Bytes) : encodeBytes k ≠ [] := by
  intro h
  have := encodeBytes_length k
  rw [h] at this
  simp at this

/-! ## Forward traversal on versions -/

/-- The forward traversal on versions; `prev` is the key just handled. -/
def scanR (ts now : Int) (prev : Option Bytes) : List Rec → List Rec
  | [] => []
  | r :: rs =>
    if prev = some r.key ∨ r.ts > ts then scanR ts now prev rs
    else if r.ver.Live now then r :: scanR ts now (some r.key) rs
    else scanR ts now (some r.key) rs

/-- `r` is the newest version of its key at or below `ts` among `rs`. -/
def NewestIn (rs : List Rec) (ts : Int) (r : Rec) : Prop :=
  r ∈ rs ∧ r.ts ≤ ts ∧ ∀ r' ∈ rs, r'.key = r.key → r'.ts ≤ ts → r'.ts ≤ r.ts

theorem mem_scanR {ts now : Int} {prev : Option Bytes} {rs : List Rec} (hs : rs.Pairwise Rec.lt)
    (hp : ∀ p, prev = some p → ∀ r ∈ rs, p ≤ r.key) (x : Rec) :
    x ∈ scanR ts now prev rs ↔ NewestIn rs ts x ∧ x.ver.Live now ∧ prev ≠ some x.key := by
  induction rs generalizing prev x with
  | nil => simp [scanR, NewestIn]
  | cons r rs ih =>
    rw [List.pairwise_cons] at hs
    obtain ⟨hr, hs⟩ := hs
    have hp' : ∀ p, prev = some p → ∀ r ∈ rs, p ≤ r.key :=
      fun p h r hr => hp p h r (List.mem_cons_of_mem _ hr)
    simp only [scanR]
    have le_of : ∀ y ∈ rs, r.key ≤ y.key := by
      intro y hy
      rcases hr y hy with h | ⟨h, _⟩
      · exact List.le_of_lt h
      · rw [h]; exact List.le_refl _
    by_cases h1 : prev = some r.key
    · rw [if_pos (Or.inl h1), ih hs hp' x]
      constructor
      · rintro ⟨⟨h2, h3, h4⟩, h5, h6⟩
        refine ⟨⟨List.mem_cons_of_mem _ h2, h3, ?_⟩, h5, h6⟩
        intro y hy hk ht
        rcases List.mem_cons.1 hy with rfl | hy
        · exact absurd (h1.trans (by rw [hk])) h6
        · exact h4 y hy hk ht
      · rintro ⟨⟨h2, h3, h4⟩, h5, h6⟩
        rcases List.mem_cons.1 h2 with rfl | h2
        · exact absurd h1 h6
        · exact ⟨⟨h2, h3, fun y hy => h4 y (List.mem_cons_of_mem _ hy)⟩, h5, h6⟩
    · by_cases h2 : r.ts > ts
      · rw [if_pos (Or.inr h2), ih hs hp' x]
        constructor
        · rintro ⟨⟨h3, h4, h5⟩, h6, h7⟩
          refine ⟨⟨List.mem_cons_of_mem _ h3, h4, ?_⟩, h6, h7⟩
          intro y hy hk ht
          rcases List.mem_cons.1 hy with rfl | hy
          · omega
          · exact h5 y hy hk ht
        · rintro ⟨⟨h3, h4, h5⟩, h6, h7⟩
          rcases List.mem_cons.1 h3 with rfl | h3
          · omega
          · exact ⟨⟨h3, h4, fun y hy => h5 y (List.mem_cons_of_mem _ hy)⟩, h6, h7⟩
      · rw [if_neg (by rintro (h | h) <;> contradiction)]
        have hpr : ∀ p, some r.key = some p → ∀ y ∈ rs, p ≤ y.key := by
          intro p h y hy; cases h; exact le_of y hy
        have ih' := ih hs hpr x
        have newest_r : NewestIn (r :: rs) ts r := by
          refine ⟨by simp, by omega, ?_⟩
          intro y hy hk _
          rcases List.mem_cons.1 hy with rfl | hy
          · omega
          · rcases hr y hy with h | ⟨_, h⟩
            · rw [hk] at h; exact absurd h (lt_irrefl _)
            · omega
        have tail : x ≠ r → (x ∈ scanR ts now (some r.key) rs ↔
            NewestIn (r :: rs) ts x ∧ x.ver.Live now ∧ prev ≠ some x.key) := by
          intro hne
          rw [ih']
          constructor
          · rintro ⟨⟨h3, h4, h5⟩, h6, h7⟩
            refine ⟨⟨List.mem_cons_of_mem _ h3, h4, ?_⟩, h6, ?_⟩
            · intro y hy hk ht
              rcases List.mem_cons.1 hy with rfl | hy
              · exact absurd (by rw [hk]) h7
              · exact h5 y hy hk ht
            · intro hpx
              have hle : x.key ≤ r.key := hp x.key hpx r (by simp)
              have hge := le_of x h3
              have : x.key = r.key := List.le_antisymm hle hge
              exact h7 (by rw [this])
          · rintro ⟨⟨h3, h4, h5⟩, h6, h7⟩
            rcases List.mem_cons.1 h3 with rfl | h3
            · exact absurd rfl hne
            · refine ⟨⟨h3, h4, fun y hy => h5 y (List.mem_cons_of_mem _ hy)⟩, h6, ?_⟩
              intro hk
              have hk : r.key = x.key := Option.some.inj hk
              have h8 := h5 r (by simp) hk (by omega)
              rcases hr x h3 with h | ⟨_, h⟩
              · rw [hk] at h; exact lt_irrefl _ h
              · omega
        have notin : r ∉ scanR ts now (some r.key) rs := by
          rw [ih hs hpr r]
          rintro ⟨_, _, h⟩; exact h rfl
        by_cases h3 : r.ver.Live now
        · rw [if_pos h3, List.mem_cons]
          by_cases hx : x = r
          · subst hx
            exact ⟨fun _ => ⟨newest_r, h3, h1⟩, fun _ => Or.inl rfl⟩
          · rw [← tail hx]; simp [hx]
        · rw [if_neg h3]
          by_cases hx : x = r
          · subst hx
            exact ⟨fun h => absurd h notin, fun h => absurd h.2.1 h3⟩
          · exact tail hx

theorem scanR_sublist {ts now : Int} {prev : Option Bytes} {rs : List Rec} :
    (scanR ts now prev rs).Sublist rs := by
  induction rs generalizing prev with
  | nil => simp [scanR]
  | cons r rs ih =>
    simp only [scanR]
    split
    · exact ih.cons _
    · split
      · exact ih.cons_cons _
      · exact ih.cons _

/-- The scan yields strictly ascending keys. -/
theorem scanR_keys {ts now : Int} {prev : Option Bytes} {rs : List Rec} (hs : rs.Pairwise Rec.lt)
    (hp : ∀ p, prev = some p → ∀ r ∈ rs, p ≤ r.key) :
    (scanR ts now prev rs).Pairwise (fun r s => r.key < s.key) := by
  have h1 : (scanR ts now prev rs).Pairwise Rec.lt := hs.sublist scanR_sublist
  have h2 : ∀ r ∈ scanR ts now prev rs, ∀ s ∈ scanR ts now prev rs, r.key = s.key → r.ts = s.ts := by
    intro r hr s hs' hk
    obtain ⟨⟨m1, t1, n1⟩, _, _⟩ := (mem_scanR hs hp r).1 hr
    obtain ⟨⟨m2, t2, n2⟩, _, _⟩ := (mem_scanR hs hp s).1 hs'
    have a := n1 s m2 hk.symm t2
    have b := n2 r m1 hk t1
    omega
  refine h1.imp_of_mem ?_
  intro r s hr hs' h
  rcases h with h | ⟨hk, h⟩
  · exact h
  · have := h2 r hr s hs' hk; omega

/-! ## `NextVisibleKey` and the scan loop compute `scanR` -/

/-- `prev_encode_key_` for the key just handled. -/
def encPrev : Option Bytes → Bytes
  | none => []
  | some k => encodeBytes k

theorem encPrev_eq {prev : Option Bytes} {k : Bytes} : encodeBytes k = encPrev prev ↔ prev = some k := by
  cases prev with
  | none => simp [encPrev, encodeBytes_ne_nil]
  | some p =>
    simp only [encPrev, Option.some.injEq]
    exact ⟨fun h => (encodeBytes_inj h).symm, fun h => by rw [h]⟩

/-- One step of `nextVisible` in terms of versions. -/
theorem nextVisible_cons {ts now : Int} {prev : Option Bytes} {r : Rec} {l : List Entry}
    (h : r.Valid) :
    nextVisible ts now (encPrev prev) (r.enc :: l) =
      if prev = some r.key ∨ r.ts > ts then nextVisible ts now (encPrev prev) l
      else if r.ver.emptyTTL then none
      else if r.ver.Live now then some (encodeBytes r.key, r.enc :: l)
      else nextVisible ts now (encodeBytes r.key) l := by
  have he : r.enc = (r.enc.1, r.ver.pkg) := rfl
  rw [he, nextVisible, truncateTs_enc h]
  simp only
  by_cases h1 : prev = some r.key
  · rw [if_pos (encPrev_eq.2 h1), if_pos (Or.inl h1)]
  · rw [if_neg (fun hh => h1 (encPrev_eq.1 hh)), truncateKey_enc h]
    simp only
    by_cases h2 : r.ts > ts
    · rw [if_pos h2, if_pos (Or.inr h2)]
    · rw [if_neg h2, if_neg (by rintro (h | h) <;> contradiction)]
      obtain ⟨k, t, v⟩ := r
      cases v with
      | put v => simp [flag_put, Ver.emptyTTL, Ver.Live]
      | del => simp [flag_del, Ver.emptyTTL, Ver.Live]
      | putTTL ttl v =>
        have hv : IsI64 ttl := h.2
        simp only [flag_putTTL v hv]
        cases v with
        | nil => simp [Ver.pkg, C04_ttl_abort, Ver.emptyTTL]
        | cons b v =>
          have := C04_ttl_partial ttl (b :: v) hv (by simp)
          simp only [Ver.pkg] at this ⊢
          rw [this, if_neg (show ¬ Ver.emptyTTL (.putTTL ttl (b :: v)) from fun h => h)]
          by_cases h3 : ttl < now
          · rw [if_neg (show ¬ Ver.Live now (.putTTL ttl (b :: v)) from fun h => by
              simp only [Ver.Live] at h; omega)]
            simp [h3]
          · rw [if_pos (show Ver.Live now (.putTTL ttl (b :: v)) from by
              simp only [Ver.Live]; omega)]
            simp [h3]

/-- What one `NextVisibleKey` call does on a list of valid versions. -/
theorem nextVisible_spec {ts now : Int} {prev : Option Bytes} {rs : List Rec}
    (hv : ∀ r ∈ rs, r.Valid) (hne : ∀ r ∈ rs, ¬ r.ver.emptyTTL) :
    (scanR ts now prev rs = [] ∧ ∃ p, nextVisible ts now (encPrev prev) (rs.map Rec.enc) = some (p, [])) ∨
    ∃ r rest, (∃ pre, rs = pre ++ r :: rest) ∧
      nextVisible ts now (encPrev prev) (rs.map Rec.enc) =
        some (encodeBytes r.key, r.enc :: rest.map Rec.enc) ∧
      scanR ts now prev rs = r :: scanR ts now (some r.key) rest := by
  induction rs generalizing prev with
  | nil => exact Or.inl ⟨rfl, _, rfl⟩
  | cons r rs ih =>
    have hvr := hv r (by simp)
    have hner := hne r (by simp)
    have ih' := fun prev => ih (prev := prev) (fun r hr => hv r (List.mem_cons_of_mem _ hr))
      (fun r hr => hne r (List.mem_cons_of_mem _ hr))
    rw [List.map_cons, nextVisible_cons hvr]
    simp only [scanR]
    have lift : ∀ prev', ((scanR ts now prev' rs = [] ∧
          ∃ p, nextVisible ts now (encPrev prev') (rs.map Rec.enc) = some (p, [])) ∨
        ∃ x rest, (∃ pre, r :: rs = pre ++ x :: rest) ∧
          nextVisible ts now (encPrev prev') (rs.map Rec.enc) =
            some (encodeBytes x.key, x.enc :: rest.map Rec.enc) ∧
          scanR ts now prev' rs = x :: scanR ts now (some x.key) rest) := by
      intro prev'
      rcases ih' prev' with h | ⟨x, rest, ⟨pre, hpre⟩, h1, h2⟩
      · exact Or.inl h
      · exact Or.inr ⟨x, rest, ⟨r :: pre, by rw [hpre]; rfl⟩, h1, h2⟩
    by_cases h1 : prev = some r.key ∨ r.ts > ts
    · rw [if_pos h1, if_pos h1]; exact lift prev
    · rw [if_neg h1, if_neg h1, if_neg hner]
      by_cases h2 : r.ver.Live now
      · rw [if_pos h2, if_pos h2]
        exact Or.inr ⟨r, rs, ⟨[], rfl⟩, rfl, rfl⟩
      · rw [if_neg h2, if_neg h2]
        exact lift (some r.key)

theorem forwardAll_eq {ts now : Int} {prev : Option Bytes} {rs : List Rec}
    (hv : ∀ r ∈ rs, r.Valid) (hne : ∀ r ∈ rs, ¬ r.ver.emptyTTL) :
    forwardAll ts now (encPrev prev) (rs.map Rec.enc) = some ((scanR ts now prev rs).map Rec.enc) := by
  induction hn : rs.length using Nat.strongRecOn generalizing prev rs with
  | _ n ih =>
    rw [forwardAll]
    rcases nextVisible_spec (ts := ts) (now := now) (prev := prev) hv hne with
      ⟨h1, p, h2⟩ | ⟨r, rest, ⟨pre, hpre⟩, h1, h2⟩
    · split
      · rename_i h; rw [h2] at h; cases h
      · rw [h1]; rfl
      · rename_i h; rw [h2] at h; cases h
    · have hlt : rest.length < n := by
        have := congrArg List.length hpre
        simp at this; omega
      have hsub : ∀ x ∈ rest, x ∈ rs := by
        intro x hx; rw [hpre]; simp [hx]
      have ih' := ih rest.length hlt (prev := some r.key) (rs := rest)
        (fun x hx => hv x (hsub x hx)) (fun x hx => hne x (hsub x hx)) rfl
      split
      · rename_i h; rw [h1] at h; cases h
      · rename_i h; rw [h1] at h; cases h
      · rename_i p e es h
        rw [h1] at h
        cases h
        simp only [encPrev] at ih'
        rw [ih', h2]
        rfl

/-! ## Backward traversal -/

/-- Update of the pending version in `PrevVisibleKey`. -/
def backStep (ts now : Int) (cur : Option Rec) (r : Rec) : Option Rec :=
  if r.ts > ts then cur else if r.ver.Live now then some r else none

/-- The backward traversal on versions. -/
def backR (ts now : Int) : Option Rec → List Rec → List Rec
  | cur, [] => cur.toList
  | none, r :: rs => backR ts now (backStep ts now none r) rs
  | some c, r :: rs =>
    if c.key ≠ r.key then c :: backR ts now (backStep ts now none r) rs
    else backR ts now (backStep ts now (some c) r) rs

theorem mem_backR {ts now : Int} {cur : Option Rec} {l : List Rec}
    (hs : l.Pairwise (fun r s => s.lt r))
    (hc : ∀ c, cur = some c → c.ts ≤ ts ∧ c.ver.Live now ∧ ∀ r ∈ l, r.lt c) (x : Rec) :
    x ∈ backR ts now cur l ↔
      (x ∈ l ∨ cur = some x) ∧ x.ts ≤ ts ∧ x.ver.Live now ∧
        ∀ r ∈ l, r.key = x.key → r.ts ≤ ts → r.ts ≤ x.ts := by
  induction l generalizing cur with
  | nil =>
    cases cur with
    | none => simp [backR]
    | some c =>
      simp only [backR, Option.toList, List.mem_singleton, Option.some.injEq, List.not_mem_nil,
        false_or]
      constructor
      · rintro rfl
        obtain ⟨h1, h2, _⟩ := hc x rfl
        exact ⟨rfl, h1, h2, fun _ h => absurd h (by simp)⟩
      · rintro ⟨h, _⟩; exact h.symm
  | cons r rs ih =>
    rw [List.pairwise_cons] at hs
    obtain ⟨hr, hs⟩ := hs
    -- facts about a pending version produced at `r`
    have hstep : ∀ c0 : Option Rec, (∀ c, c0 = some c → c.ts ≤ ts ∧ c.ver.Live now ∧
          (∀ y ∈ rs, y.lt c)) →
        ∀ c, backStep ts now c0 r = some c → c.ts ≤ ts ∧ c.ver.Live now ∧ ∀ y ∈ rs, y.lt c := by
      intro c0 h0 c hcc
      unfold backStep at hcc
      split at hcc
      · exact h0 c hcc
      · split at hcc
        · cases hcc
          exact ⟨by omega, by assumption, hr⟩
        · cases hcc
    -- the core: processing `r` with pending `c0` of the same key or nothing
    have core : ∀ c0 : Option Rec, (∀ c, c0 = some c → c.key = r.key ∧ c.ts ≤ ts ∧ c.ver.Live now ∧
          c.ts < r.ts ∧ (∀ y ∈ rs, y.lt c)) →
        (x ∈ backR ts now (backStep ts now c0 r) rs ↔
          (x ∈ r :: rs ∨ c0 = some x) ∧ x.ts ≤ ts ∧ x.ver.Live now ∧
            ∀ y ∈ r :: rs, y.key = x.key → y.ts ≤ ts → y.ts ≤ x.ts) := by
      intro c0 h0
      rw [ih hs (hstep c0 (fun c h => ⟨(h0 c h).2.1, (h0 c h).2.2.1, (h0 c h).2.2.2.2⟩))]
      unfold backStep
      by_cases h1 : r.ts > ts
      · rw [if_pos h1]
        constructor
        · rintro ⟨h2, h3, h4, h5⟩
          refine ⟨?_, h3, h4, ?_⟩
          · rcases h2 with h2 | h2
            · exact Or.inl (List.mem_cons_of_mem _ h2)
            · exact Or.inr h2
          · intro y hy hk ht
            rcases List.mem_cons.1 hy with rfl | hy
            · omega
            · exact h5 y hy hk ht
        · rintro ⟨h2, h3, h4, h5⟩
          refine ⟨?_, h3, h4, fun y hy => h5 y (List.mem_cons_of_mem _ hy)⟩
          rcases h2 with h2 | h2
          · rcases List.mem_cons.1 h2 with rfl | h2
            · omega
            · exact Or.inl h2
          · exact Or.inr h2
      · rw [if_neg h1]
        -- anything pending of this key is superseded by `r`
        have gone : c0 = some x → ¬ (∀ y ∈ r :: rs, y.key = x.key → y.ts ≤ ts → y.ts ≤ x.ts) := by
          intro hcx hall
          obtain ⟨hk, _, _, hlt, _⟩ := h0 x hcx
          have := hall r (by simp) hk.symm (by omega)
          omega
        have keyr : x ∈ rs → x.key = r.key → r.ts < x.ts := by
          intro hx hk
          rcases hr x hx with h | ⟨_, h⟩
          · rw [hk] at h; exact absurd h (lt_irrefl _)
          · exact h
        by_cases h2 : r.ver.Live now
        · rw [if_pos h2]
          constructor
          · rintro ⟨h3, h4, h5, h6⟩
            refine ⟨?_, h4, h5, ?_⟩
            · rcases h3 with h3 | h3
              · exact Or.inl (List.mem_cons_of_mem _ h3)
              · cases h3; exact Or.inl (by simp)
            · intro y hy hk ht
              rcases List.mem_cons.1 hy with rfl | hy
              · rcases h3 with h3 | h3
                · have := keyr h3 hk.symm; omega
                · cases h3; omega
              · exact h6 y hy hk ht
          · rintro ⟨h3, h4, h5, h6⟩
            refine ⟨?_, h4, h5, fun y hy => h6 y (List.mem_cons_of_mem _ hy)⟩
            rcases h3 with h3 | h3
            · rcases List.mem_cons.1 h3 with rfl | h3
              · exact Or.inr rfl
              · exact Or.inl h3
            · exact absurd h6 (gone h3)
        · rw [if_neg h2]
          constructor
          · rintro ⟨h3, h4, h5, h6⟩
            rcases h3 with h3 | h3
            · refine ⟨Or.inl (List.mem_cons_of_mem _ h3), h4, h5, ?_⟩
              intro y hy hk ht
              rcases List.mem_cons.1 hy with rfl | hy
              · have := keyr h3 hk.symm; omega
              · exact h6 y hy hk ht
            · cases h3
          · rintro ⟨h3, h4, h5, h6⟩
            refine ⟨Or.inl ?_, h4, h5, fun y hy => h6 y (List.mem_cons_of_mem _ hy)⟩
            rcases h3 with h3 | h3
            · rcases List.mem_cons.1 h3 with rfl | h3
              · exact absurd h5 h2
              · exact h3
            · exact absurd h6 (gone h3)
    cases cur with
    | none =>
      simp only [backR]
      exact core none (by simp)
    | some c =>
      obtain ⟨c1, c2, c3⟩ := hc c rfl
      simp only [backR]
      by_cases hk : c.key = r.key
      · rw [if_neg (by simp [hk])]
        apply core
        intro c' h'
        cases h'
        refine ⟨hk, c1, c2, ?_, fun y hy => c3 y (List.mem_cons_of_mem _ hy)⟩
        rcases c3 r (by simp) with h | ⟨_, h⟩
        · rw [hk] at h; exact absurd h (lt_irrefl _)
        · exact h
      · rw [if_pos hk, List.mem_cons, core none (by simp)]
        have hlt : r.key < c.key := by
          rcases c3 r (by simp) with h | ⟨h, _⟩
          · exact h
          · exact absurd h.symm hk
        have all_lt : ∀ y ∈ r :: rs, y.key < c.key := by
          intro y hy
          rcases List.mem_cons.1 hy with rfl | hy
          · exact hlt
          · rcases hr y hy with h | ⟨h, _⟩
            · exact lt_trans h hlt
            · rw [h]; exact hlt
        constructor
        · rintro (rfl | ⟨h1, h2⟩)
          · refine ⟨Or.inr rfl, c1, c2, ?_⟩
            intro y hy hyk
            have := all_lt y hy
            rw [hyk] at this
            exact absurd this (lt_irrefl _)
          · refine ⟨?_, h2⟩
            rcases h1 with h1 | h1
            · exact Or.inl h1
            · cases h1
        · rintro ⟨h1, h2⟩
          rcases h1 with h1 | h1
          · exact Or.inr ⟨Or.inl h1, h2⟩
          · cases h1; exact Or.inl rfl

theorem mem_backR_imp {ts now : Int} {cur : Option Rec} {l : List Rec} {x : Rec}
    (h : x ∈ backR ts now cur l) : x ∈ l ∨ cur = some x := by
  induction l generalizing cur with
  | nil => cases cur <;> simp_all [backR]
  | cons r rs ih =>
    have step : ∀ c0, x ∈ backR ts now (backStep ts now c0 r) rs → x ∈ r :: rs ∨ c0 = some x := by
      intro c0 h
      rcases ih h with h | h
      · exact Or.inl (List.mem_cons_of_mem _ h)
      · unfold backStep at h
        split at h
        · exact Or.inr h
        · split at h
          · cases h; exact Or.inl (by simp)
          · cases h
    cases cur with
    | none => exact step none h
    | some c =>
      simp only [backR] at h
      split at h
      · rcases List.mem_cons.1 h with rfl | h
        · exact Or.inr rfl
        · rcases step none h with h | h
          · exact Or.inl h
          · cases h
      · exact step _ h

/-- The backward traversal yields strictly descending keys. -/
theorem backR_keys {ts now : Int} {cur : Option Rec} {l : List Rec}
    (hs : l.Pairwise (fun r s => s.lt r)) (hc : ∀ c, cur = some c → ∀ r ∈ l, r.lt c) :
    (backR ts now cur l).Pairwise (fun r s => s.key < r.key) := by
  induction l generalizing cur with
  | nil => cases cur <;> simp [backR]
  | cons r rs ih =>
    rw [List.pairwise_cons] at hs
    obtain ⟨hr, hs⟩ := hs
    have step : ∀ c0 : Option Rec, (∀ c, c0 = some c → ∀ y ∈ rs, y.lt c) →
        (backR ts now (backStep ts now c0 r) rs).Pairwise (fun r s => s.key < r.key) := by
      intro c0 h0
      apply ih hs
      intro c h
      unfold backStep at h
      split at h
      · exact h0 c h
      · split at h
        · cases h; exact hr
        · cases h
    cases cur with
    | none => exact step none (by simp)
    | some c =>
      simp only [backR]
      have c3 := hc c rfl
      split
      · rename_i hk
        rw [List.pairwise_cons]
        refine ⟨?_, step none (by simp)⟩
        intro y hy
        have hlt : r.key < c.key := by
          rcases c3 r (by simp) with h | ⟨h, _⟩
          · exact h
          · exact absurd h.symm hk
        have hy' : y ∈ r :: rs := by
          rcases mem_backR_imp hy with h | h
          · exact List.mem_cons_of_mem _ h
          · unfold backStep at h
            split at h
            · cases h
            · split at h
              · cases h; simp
              · cases h
        rcases List.mem_cons.1 hy' with rfl | hy'
        · exact hlt
        · rcases hr y hy' with h | ⟨h, _⟩
          · exact lt_trans h hlt
          · rw [h]; exact hlt
      · exact step (some c) (fun c' h' => by cases h'; exact fun y hy => c3 y (List.mem_cons_of_mem _ hy))

theorem prevVisible_cons {ts now : Int} {cur : Option Rec} {r : Rec} {l : List Entry}
    (h : r.Valid) (hcur : ∀ c, cur = some c → c.Valid) (hne : ¬ r.ver.emptyTTL) :
    prevVisible ts now (cur.map Rec.enc) (r.enc :: l) =
      if (∃ c, cur = some c ∧ c.key ≠ r.key) then some (cur.map Rec.enc, r.enc :: l)
      else prevVisible ts now ((backStep ts now cur r).map Rec.enc) l := by
  have he : r.enc = (r.enc.1, r.ver.pkg) := rfl
  rw [he, prevVisible, truncateTs_enc h]
  have rest : (match truncateKeyForTs r.enc.1 with
        | none => none
        | some t =>
          if t > ts then prevVisible ts now (cur.map Rec.enc) l
          else
            match getValueFlag r.ver.pkg with
            | none => none
            | some .delete => prevVisible ts now none l
            | some .putTTL =>
              match getValueTTL r.ver.pkg with
              | none => none
              | some ttl =>
                if ttl < now then prevVisible ts now none l
                else prevVisible ts now (some (r.enc.1, r.ver.pkg)) l
            | some .put => prevVisible ts now (some (r.enc.1, r.ver.pkg)) l) =
      prevVisible ts now ((backStep ts now cur r).map Rec.enc) l := by
    rw [truncateKey_enc h]
    unfold backStep
    simp only
    by_cases h2 : r.ts > ts
    · rw [if_pos h2, if_pos h2]
    · rw [if_neg h2, if_neg h2]
      obtain ⟨k, t, v⟩ := r
      cases v with
      | put v => simp [flag_put, Ver.Live, ← he]
      | del => simp [flag_del, Ver.Live]
      | putTTL ttl v =>
        have hv : IsI64 ttl := h.2
        simp only [flag_putTTL v hv]
        cases v with
        | nil => exact absurd trivial hne
        | cons b v =>
          have := C04_ttl_partial ttl (b :: v) hv (by simp)
          simp only [Ver.pkg] at this ⊢
          rw [this]
          by_cases h3 : ttl < now
          · rw [if_neg (show ¬ Ver.Live now (.putTTL ttl (b :: v)) from fun h => by
              simp only [Ver.Live] at h; omega)]
            simp [h3]
          · rw [if_pos (show Ver.Live now (.putTTL ttl (b :: v)) from by
              simp only [Ver.Live]; omega)]
            simp [h3, Rec.enc, Ver.pkg]
  cases cur with
  | none =>
    rw [if_neg (by simp)]
    exact rest
  | some c =>
    have hc := hcur c rfl
    have hce : c.enc = (c.enc.1, c.ver.pkg) := rfl
    simp only [Option.map_some]
    by_cases hk : c.key = r.key
    · rw [if_neg (by simp [hk])]
      rw [← rest]
      have : (truncateTsForKey c.enc.1).map (fun pek => decide (encodeBytes r.key ≠ pek)) = some false := by
        rw [truncateTs_enc hc]; simp [hk]
      simp only [this, Option.map_some]
      rfl
    · rw [if_pos ⟨c, rfl, hk⟩, hce]
      simp only [truncateTs_enc hc, Option.map_some]
      have : encodeBytes r.key ≠ encodeBytes c.key := fun h => hk (encodeBytes_inj h).symm
      simp [this]

/-- What one `PrevVisibleKey` call does. -/
theorem prevVisible_spec {ts now : Int} {cur : Option Rec} {rs : List Rec}
    (hv : ∀ r ∈ rs, r.Valid) (hcur : ∀ c, cur = some c → c.Valid)
    (hne : ∀ r ∈ rs, ¬ r.ver.emptyTTL) :
    (backR ts now cur rs = [] ∧
      ∃ l, prevVisible ts now (cur.map Rec.enc) (rs.map Rec.enc) = some (none, l)) ∨
    ∃ r rest, (∃ pre, rs = pre ++ rest) ∧
      prevVisible ts now (cur.map Rec.enc) (rs.map Rec.enc) = some (some r.enc, rest.map Rec.enc) ∧
      backR ts now cur rs = r :: backR ts now none rest ∧ r.Valid := by
  induction rs generalizing cur with
  | nil =>
    cases cur with
    | none => exact Or.inl ⟨rfl, _, rfl⟩
    | some c => exact Or.inr ⟨c, [], ⟨[], rfl⟩, rfl, rfl, hcur c rfl⟩
  | cons r rs ih =>
    have hvr := hv r (by simp)
    have hner := hne r (by simp)
    rw [List.map_cons, prevVisible_cons hvr hcur hner]
    have hbs : ∀ c0 : Option Rec, (∀ c, c0 = some c → c.Valid) →
        ∀ c, backStep ts now c0 r = some c → c.Valid := by
      intro c0 h0 c h
      unfold backStep at h
      split at h
      · exact h0 c h
      · split at h
        · cases h; exact hvr
        · cases h
    have ih' := fun c0 (h0 : ∀ c, c0 = some c → c.Valid) =>
      ih (cur := backStep ts now c0 r) (fun x hx => hv x (List.mem_cons_of_mem _ hx)) (hbs c0 h0)
        (fun x hx => hne x (List.mem_cons_of_mem _ hx))
    have lift : ∀ c0, (∀ c, c0 = some c → c.Valid) →
        backR ts now cur (r :: rs) = backR ts now (backStep ts now c0 r) rs →
        (backR ts now cur (r :: rs) = [] ∧
          ∃ l, prevVisible ts now ((backStep ts now c0 r).map Rec.enc) (rs.map Rec.enc) = some (none, l)) ∨
        ∃ x rest, (∃ pre, r :: rs = pre ++ rest) ∧
          prevVisible ts now ((backStep ts now c0 r).map Rec.enc) (rs.map Rec.enc) =
            some (some x.enc, rest.map Rec.enc) ∧
          backR ts now cur (r :: rs) = x :: backR ts now none rest ∧ x.Valid := by
      intro c0 h0 heq
      rcases ih' c0 h0 with ⟨h1, l, h2⟩ | ⟨x, rest, ⟨pre, hp⟩, h1, h2, h3⟩
      · exact Or.inl ⟨heq.trans h1, l, h2⟩
      · exact Or.inr ⟨x, rest, ⟨r :: pre, by rw [hp]; rfl⟩, h1, heq.trans h2, h3⟩
    cases cur with
    | none =>
      rw [if_neg (by simp)]
      exact lift none (by simp) rfl
    | some c =>
      by_cases hk : c.key = r.key
      · rw [if_neg (by simp [hk])]
        exact lift (some c) hcur (by simp only [backR]; rw [if_neg (by simp [hk])])
      · rw [if_pos ⟨c, rfl, hk⟩]
        refine Or.inr ⟨c, r :: rs, ⟨[], rfl⟩, rfl, ?_, hcur c rfl⟩
        simp only [backR]
        rw [if_pos hk]

theorem backwardAll_eq {ts now : Int} {rs : List Rec}
    (hv : ∀ r ∈ rs, r.Valid) (hne : ∀ r ∈ rs, ¬ r.ver.emptyTTL) :
    backwardAll ts now (rs.map Rec.enc) = some ((backR ts now none rs).map Rec.enc) := by
  induction hn : rs.length using Nat.strongRecOn generalizing rs with
  | _ n ih =>
    rw [backwardAll]
    rcases prevVisible_spec (ts := ts) (now := now) (cur := none) hv (by simp) hne with
      ⟨h1, l, h2⟩ | ⟨r, rest, ⟨pre, hpre⟩, h1, h2, _⟩
    · simp only [Option.map_none] at h2
      split
      · rename_i h; rw [h2] at h; cases h
      · rw [h1]; rfl
      · rename_i h; rw [h2] at h; cases h
    · simp only [Option.map_none] at h1
      have hlt : rest.length < n := by
        have := (prevVisible_length h1).2 rfl (by simp)
        simp at this; omega
      have hsub : ∀ x ∈ rest, x ∈ rs := by
        intro x hx; rw [hpre]; simp [hx]
      have ih' := ih rest.length hlt (rs := rest)
        (fun x hx => hv x (hsub x hx)) (fun x hx => hne x (hsub x hx)) rfl
      split
      · rename_i h; rw [h1] at h; cases h
      · rename_i h; rw [h1] at h; cases h
      · rename_i e es h
        rw [h1] at h
        cases h
        rw [ih', h2]
        rfl

/-! ## Seeking -/

/-- For an ascending store, seeking with bounds is filtering. -/
theorem takeWhile_dropWhile_filter {α : Type} (p q : α → Bool) (l : List α)
    (hp : l.Pairwise (fun a b => p b = true → p a = true))
    (hq : l.Pairwise (fun a b => q b = true → q a = true)) :
    (l.dropWhile p).takeWhile q = l.filter (fun a => !p a && q a) := by
  have h1 : ∀ l : List α, l.Pairwise (fun a b => p b = true → p a = true) →
      l.dropWhile p = l.filter (fun a => !p a) := by
    intro l
    induction l with
    | nil => simp
    | cons a l ih =>
      intro h
      rw [List.pairwise_cons] at h
      by_cases ha : p a
      · simp [List.dropWhile, ha, ih h.2]
      · simp only [Bool.not_eq_true] at ha
        rw [List.dropWhile_cons, if_neg (by simp [ha]), List.filter_cons, if_pos (by simp [ha])]
        congr 1
        rw [List.filter_eq_self.2]
        intro b hb
        by_cases hb' : p b
        · have := h.1 b hb hb'; rw [ha] at this; cases this
        · simpa using hb'
  have h2 : ∀ l : List α, l.Pairwise (fun a b => q b = true → q a = true) →
      l.takeWhile q = l.filter q := by
    intro l
    induction l with
    | nil => simp
    | cons a l ih =>
      intro h
      rw [List.pairwise_cons] at h
      by_cases ha : q a
      · simp [ha, ih h.2]
      · simp only [Bool.not_eq_true] at ha
        rw [List.takeWhile_cons, if_neg (by simp [ha]), List.filter_cons, if_neg (by simp [ha])]
        rw [eq_comm, List.filter_eq_nil_iff]
        intro b hb hb'
        have := h.1 b hb hb'
        rw [ha] at this; cases this
  rw [h1 l hp, h2 _ (hq.sublist List.filter_sublist), List.filter_filter]
  congr 1
  funext a
  exact Bool.and_comm _ _

theorem seek_eq_filter {st : Store} (h : SortedStore st) (lo hi : Bytes) :
    seek st lo hi = st.filter (fun e => decide (lo ≤ e.1 ∧ e.1 < hi)) := by
  unfold seek
  rw [takeWhile_dropWhile_filter]
  · congr 1
    funext e
    have : (!decide (e.1 < lo)) = decide (lo ≤ e.1) := by
      rw [Bool.eq_iff_iff]; simp
    rw [this, Bool.decide_and]
  · refine h.imp ?_
    intro a b hab hb
    simp only [decide_eq_true_eq] at *
    exact lt_trans hab hb
  · refine h.imp ?_
    intro a b hab hb
    simp only [decide_eq_true_eq] at *
    exact lt_trans hab hb

theorem takeWhile_filter {α : Type} (q : α → Bool) (l : List α)
    (hq : l.Pairwise (fun a b => q b = true → q a = true)) : l.takeWhile q = l.filter q := by
  have := takeWhile_dropWhile_filter (fun _ => false) q l (hq.imp (by simp)) hq
  have hd : l.dropWhile (fun _ => false) = l := by cases l <;> simp [List.dropWhile]
  rw [hd] at this
  simpa using this

theorem seekForPrev_eq_filter {st : Store} (h : SortedStore st) (hi lo : Bytes) :
    seekForPrev st hi lo = (st.filter (fun e => decide (lo ≤ e.1 ∧ e.1 ≤ hi))).reverse := by
  unfold seekForPrev
  rw [takeWhile_filter (fun e : Entry => decide (e.1 ≤ hi)), takeWhile_filter]
  · rw [← List.filter_reverse, ← List.filter_reverse, List.filter_filter]
    congr 1
    funext e
    rw [Bool.decide_and]
  · rw [List.pairwise_reverse]
    refine (h.sublist List.filter_sublist).imp ?_
    intro a b hab hb
    simp only [decide_eq_true_eq] at *
    exact List.le_trans hb (List.le_of_lt hab)
  · refine h.imp ?_
    intro a b hab hb
    simp only [decide_eq_true_eq] at *
    exact List.le_trans (List.le_of_lt hab) hb

end Verif.Mvcc
