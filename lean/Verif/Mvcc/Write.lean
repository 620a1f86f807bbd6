import Verif.Mvcc.Store

/-! # Lemmas: effect of writes on the set of stored versions -/

namespace Verif.Mvcc
open Verif.Codec

theorem mem_put {st : Store} (hs : SortedStore st) (k v : Bytes) (e : Entry) :
    e ∈ put st k v ↔ e = (k, v) ∨ (e.1 ≠ k ∧ e ∈ st) := by
  induction st with
  | nil => simp [put]
  | cons a st ih =>
    obtain ⟨k', v'⟩ := a
    unfold SortedStore at hs
    rw [List.pairwise_cons] at hs
    simp only [put]
    have hgt : ∀ b ∈ st, k' < b.1 := hs.1
    split
    · rename_i hlt
      rw [List.mem_cons]
      constructor
      · rintro (h | h)
        · exact Or.inl h
        · refine Or.inr ⟨?_, h⟩
          intro he
          rcases List.mem_cons.1 h with rfl | h
          · have he : k' = k := he
            rw [he] at hlt; exact lt_irrefl _ hlt
          · have := lt_trans hlt (hgt e h)
            rw [he] at this; exact lt_irrefl _ this
      · rintro (h | ⟨_, h⟩)
        · exact Or.inl h
        · exact Or.inr h
    · split
      · rename_i hlt heq
        subst heq
        rw [List.mem_cons, List.mem_cons]
        constructor
        · rintro (h | h)
          · exact Or.inl h
          · refine Or.inr ⟨?_, Or.inr h⟩
            intro he
            have := hgt e h
            rw [he] at this; exact lt_irrefl _ this
        · rintro (h | ⟨h1, rfl | h⟩)
          · exact Or.inl h
          · exact absurd rfl h1
          · exact Or.inr h
      · rename_i hlt hne
        rw [List.mem_cons, List.mem_cons, ih hs.2]
        constructor
        · rintro (rfl | h | ⟨h1, h2⟩)
          · exact Or.inr ⟨fun h => hne h.symm, Or.inl rfl⟩
          · exact Or.inl h
          · exact Or.inr ⟨h1, Or.inr h2⟩
        · rintro (h | ⟨h1, rfl | h⟩)
          · exact Or.inr (Or.inl h)
          · exact Or.inl rfl
          · exact Or.inr (Or.inr ⟨h1, h⟩)

theorem sorted_put {st : Store} (hs : SortedStore st) (k v : Bytes) : SortedStore (put st k v) := by
  induction st with
  | nil => simp [put, SortedStore]
  | cons a st ih =>
    obtain ⟨k', v'⟩ := a
    have hs' := hs
    unfold SortedStore at hs
    rw [List.pairwise_cons] at hs
    simp only [put]
    split
    · rename_i hlt
      unfold SortedStore
      rw [List.pairwise_cons]
      refine ⟨?_, hs'⟩
      intro b hb
      rcases List.mem_cons.1 hb with rfl | hb
      · exact hlt
      · exact lt_trans hlt (hs.1 b hb)
    · split
      · rename_i heq
        subst heq
        unfold SortedStore
        rw [List.pairwise_cons]
        exact ⟨hs.1, hs.2⟩
      · rename_i hlt hne
        unfold SortedStore
        rw [List.pairwise_cons]
        refine ⟨?_, ih hs.2⟩
        intro b hb
        rcases (mem_put hs.2 k v b).1 hb with rfl | ⟨_, hb⟩
        · rcases lt_trichotomy k k' with h | h | h
          · exact absurd h hlt
          · exact absurd h hne
          · exact h
        · exact hs.1 b hb

theorem enc_key_eq {r s : Rec} (hr : r.Valid) (hs : s.Valid) :
    r.enc.1 = s.enc.1 ↔ r.key = s.key ∧ r.ts = s.ts := by
  constructor
  · intro h
    exact C01_key_injective _ _ _ _ hr.1 hs.1 (by rw [enc_eq_encodeKey hr, enc_eq_encodeKey hs, h])
  · rintro ⟨h1, h2⟩
    have : encodeKey r.key r.ts = encodeKey s.key s.ts := by rw [h1, h2]
    rw [enc_eq_encodeKey hr, enc_eq_encodeKey hs] at this
    exact Option.some.inj this

/-- Putting an encoded version. -/
theorem stored_put {st : Store} (h : WFStore st) {r : Rec} (hr : r.Valid) :
    WFStore (put st r.enc.1 r.enc.2) ∧
      ∀ x, Stored (put st r.enc.1 r.enc.2) x ↔
        x = r ∨ (¬ (x.key = r.key ∧ x.ts = r.ts) ∧ Stored st x) := by
  refine ⟨⟨sorted_put h.1 _ _, ?_⟩, ?_⟩
  · intro e he
    rcases (mem_put h.1 _ _ e).1 he with rfl | ⟨_, he⟩
    · exact ⟨r, hr, rfl⟩
    · exact h.2 e he
  · intro x
    unfold Stored
    constructor
    · rintro ⟨hx, hm⟩
      rcases (mem_put h.1 _ _ _).1 hm with hm | ⟨hne, hm⟩
      · exact Or.inl (enc_inj hx hr hm)
      · exact Or.inr ⟨fun hk => hne ((enc_key_eq hx hr).2 hk), hx, hm⟩
    · rintro (rfl | ⟨hne, hx, hm⟩)
      · exact ⟨hr, (mem_put h.1 _ _ _).2 (Or.inl rfl)⟩
      · exact ⟨hx, (mem_put h.1 _ _ _).2 (Or.inr ⟨fun hk => hne ((enc_key_eq hx hr).1 hk), hm⟩)⟩

/-- Last version for (k, t) in a batch of versions. -/
def lastRec (rs : List Rec) (k : Bytes) (t : Int) : Option Ver :=
  ((rs.filter (fun r => decide (r.key = k ∧ r.ts = t))).getLast?).map (·.ver)

theorem lastRec_cons (r : Rec) (rs : List Rec) (k : Bytes) (t : Int) :
    lastRec (r :: rs) k t =
      match lastRec rs k t with
      | some v => some v
      | none => if r.key = k ∧ r.ts = t then some r.ver else none := by
  unfold lastRec
  rw [List.filter_cons]
  by_cases h : r.key = k ∧ r.ts = t
  · rw [if_pos (by simpa using h), List.getLast?_cons]
    cases hl : (rs.filter (fun r => decide (r.key = k ∧ r.ts = t))).getLast? with
    | none => simp [h]
    | some a => simp
  · rw [if_neg (by simpa using h)]
    cases hl : (rs.filter (fun r => decide (r.key = k ∧ r.ts = t))).getLast? with
    | none => simp [h]
    | some a => simp

theorem stored_batchPut {st : Store} (h : WFStore st) {rs : List Rec} (hv : ∀ r ∈ rs, r.Valid) :
    WFStore (batchPut st (rs.map Rec.enc)) ∧
      ∀ x, Stored (batchPut st (rs.map Rec.enc)) x ↔
        (match lastRec rs x.key x.ts with
          | some v => x.ver = v
          | none => Stored st x) := by
  induction rs generalizing st with
  | nil => exact ⟨h, fun x => by simp [lastRec, batchPut]⟩
  | cons r rs ih =>
    obtain ⟨h1, h2⟩ := stored_put h (hv r (by simp))
    obtain ⟨h3, h4⟩ := ih h1 (fun x hx => hv x (List.mem_cons_of_mem _ hx))
    refine ⟨h3, fun x => ?_⟩
    have : Stored (batchPut st ((r :: rs).map Rec.enc)) x ↔
        Stored (batchPut (put st r.enc.1 r.enc.2) (rs.map Rec.enc)) x := Iff.rfl
    rw [this, h4 x, lastRec_cons]
    cases hl : lastRec rs x.key x.ts with
    | some v => rfl
    | none =>
      simp only
      rw [h2 x]
      by_cases hk : r.key = x.key ∧ r.ts = x.ts
      · rw [if_pos hk]
        simp only
        constructor
        · rintro (rfl | ⟨hn, _⟩)
          · rfl
          · exact absurd ⟨hk.1.symm, hk.2.symm⟩ hn
        · intro hx
          left
          cases x; cases r; simp_all
      · rw [if_neg hk]
        simp only
        constructor
        · rintro (rfl | ⟨_, h⟩)
          · exact absurd ⟨rfl, rfl⟩ hk
          · exact h
        · intro hx
          exact Or.inr ⟨fun h => hk ⟨h.1.symm, h.2.symm⟩, hx⟩

theorem encodePut_rec {ts ttl : Int} (h : ValidTs ts) (kv : Bytes × Bytes) :
    encodePut ts ttl kv = some (Rec.enc ⟨kv.1, ts, putVer ttl kv.2⟩) := by
  unfold encodePut
  rw [encodeKey_eq h, Option.map_some]
  unfold Rec.enc putVer
  split <;> rfl

theorem encodeDelete_rec {ts : Int} (h : ValidTs ts) (k : Bytes) :
    encodeDelete ts k = some (Rec.enc ⟨k, ts, .del⟩) := by
  unfold encodeDelete
  rw [encodeKey_eq h, Option.map_some]
  rfl

theorem mapM_some {α β : Type} {f : α → Option β} {g : α → β} (h : ∀ a, f a = some (g a)) (l : List α) :
    l.mapM f = some (l.map g) := by
  induction l with
  | nil => rfl
  | cons a l ih => rw [List.mapM_cons, h, ih]; rfl

theorem putVer_valid {ttl : Int} (h : IsI64 ttl) (v : Bytes) : (putVer ttl v).Valid := by
  unfold putVer
  split
  · trivial
  · exact h

theorem lastFor_cons (kv : Bytes × Bytes) (kvs : List (Bytes × Bytes)) (k : Bytes) :
    lastFor (kv :: kvs) k =
      match lastFor kvs k with
      | some v => some v
      | none => if kv.1 = k then some kv.2 else none := by
  unfold lastFor
  rw [List.filter_cons]
  by_cases h : kv.1 = k
  · rw [if_pos (by simpa using h), List.getLast?_cons]
    cases hl : (kvs.filter (fun kv => decide (kv.1 = k))).getLast? with
    | none => simp [h]
    | some a => simp
  · rw [if_neg (by simpa using h)]
    cases hl : (kvs.filter (fun kv => decide (kv.1 = k))).getLast? with
    | none => simp [h]
    | some a => simp

theorem lastRec_put (ts ttl : Int) (kvs : List (Bytes × Bytes)) (k : Bytes) (t : Int) :
    lastRec (kvs.map (fun kv => ⟨kv.1, ts, putVer ttl kv.2⟩)) k t =
      if t = ts then (lastFor kvs k).map (putVer ttl) else none := by
  induction kvs with
  | nil => simp [lastRec, lastFor]
  | cons kv kvs ih =>
    rw [List.map_cons, lastRec_cons, ih, lastFor_cons]
    by_cases ht : t = ts
    · subst ht
      rw [if_pos rfl, if_pos rfl]
      cases lastFor kvs k with
      | none =>
        by_cases hk : kv.1 = k
        · simp [hk]
        · simp [hk]
      | some a => simp
    · have ht' : ¬ ts = t := fun h => ht h.symm
      simp [ht, ht']

theorem lastRec_del (ts : Int) (keys : List Bytes) (k : Bytes) (t : Int) :
    lastRec (keys.map (fun k => ⟨k, ts, .del⟩)) k t =
      if t = ts ∧ k ∈ keys then some .del else none := by
  induction keys with
  | nil => simp [lastRec]
  | cons a keys ih =>
    rw [List.map_cons, lastRec_cons, ih]
    by_cases ht : t = ts
    · subst ht
      have hmem : (k ∈ a :: keys) ↔ (k = a ∨ k ∈ keys) := List.mem_cons
      by_cases hk : k ∈ keys
      · simp only [hk, hmem, and_self, or_true, if_true]
      · by_cases ha : k = a
        · subst ha
          simp only [hk, hmem, and_false, if_false, true_or, and_self, if_true]
        · have ha' : ¬ a = k := fun h => ha h.symm
          simp only [hk, hmem, ha, ha', and_false, false_and, if_false, or_self]
    · have ht' : ¬ ts = t := fun h => ht h.symm
      simp [ht, ht']

theorem writerPut_eq {st : Store} {ts ttl : Int} (h : ValidTs ts) (kvs : List (Bytes × Bytes)) :
    writerPut st ts ttl kvs =
      some (batchPut st ((kvs.map (fun kv => (⟨kv.1, ts, putVer ttl kv.2⟩ : Rec))).map Rec.enc)) := by
  unfold writerPut
  rw [mapM_some (fun kv => encodePut_rec h kv), Option.map_some, List.map_map]
  rfl

theorem writerDelete_eq {st : Store} {now ts : Int} (h : ValidTs ts) (keys : List Bytes) :
    (writerDelete st now ts keys).map (·.2) =
      some (batchPut st ((keys.map (fun k => (⟨k, ts, .del⟩ : Rec))).map Rec.enc)) := by
  unfold writerDelete
  rw [mapM_some (fun k => encodeDelete_rec h k), Option.map_some, List.map_map]
  rfl

theorem stored_deleteRange {st : Store} (h : WFStore st) {start stop : Bytes} (hlt : start < stop) :
    WFStore (writerDeleteRange st start stop) ∧
      ∀ x, Stored (writerDeleteRange st start stop) x ↔
        ¬ (start ≤ x.key ∧ x.key < stop) ∧ Stored st x := by
  have e1 : (encodeBytes start).isEmpty = false := by simpa using encodeBytes_ne_nil start
  have e2 : (encodeBytes stop).isEmpty = false := by simpa using encodeBytes_ne_nil stop
  have hlt' := (C02_bytes_order start stop).2 hlt
  unfold writerDeleteRange deleteRange
  rw [if_neg (by simp only [e1, e2]; simp [hlt'])]
  refine ⟨⟨h.1.sublist List.filter_sublist, fun e he => h.2 e (List.mem_filter.1 he).1⟩, fun x => ?_⟩
  unfold Stored
  rw [List.mem_filter]
  constructor
  · rintro ⟨hx, hm, hc⟩
    refine ⟨fun hr => ?_, hx, hm⟩
    have := (C03_range start stop x.key x.ts hx.1 _ (enc_eq_encodeKey hx)).2 hr
    simp only [encodeRange] at this
    simp only [decide_not, Bool.not_eq_true', decide_eq_false_iff_not] at hc
    exact hc this
  · rintro ⟨hn, hx, hm⟩
    refine ⟨hx, hm, ?_⟩
    simp only [decide_not, Bool.not_eq_true', decide_eq_false_iff_not]
    intro hr
    exact hn ((C03_range start stop x.key x.ts hx.1 _ (enc_eq_encodeKey hx)).1 hr)

/-- Every write keeps the store well formed and acts on versions as the
abstract step does. -/
theorem exec_spec {st : Store} (h : WFStore st) {op : Op} (hop : op.Valid) {m : Content}
    (hm : ∀ x, Stored st x ↔ x.Valid ∧ m x.key x.ts = some x.ver) :
    WFStore (exec st op) ∧
      ∀ x, Stored (exec st op) x ↔ x.Valid ∧ specStep m op x.key x.ts = some x.ver := by
  cases op with
  | put ts ttl kvs =>
    obtain ⟨h1, h2⟩ := hop
    unfold exec
    simp only [writerPut_eq h1]
    have hv : ∀ r ∈ kvs.map (fun kv => (⟨kv.1, ts, putVer ttl kv.2⟩ : Rec)), r.Valid := by
      intro r hr
      obtain ⟨kv, _, rfl⟩ := List.mem_map.1 hr
      exact ⟨h1, putVer_valid h2 _⟩
    obtain ⟨hw, hs⟩ := stored_batchPut h hv
    refine ⟨hw, fun x => ?_⟩
    rw [Option.getD_some, hs x, lastRec_put]
    simp only [specStep]
    by_cases ht : x.ts = ts
    · rw [if_pos ht, if_pos ht]
      cases hl : lastFor kvs x.key with
      | none => simp only [Option.map_none]; exact hm x
      | some v =>
        simp only [Option.map_some]
        constructor
        · intro he
          refine ⟨⟨by rw [ht]; exact h1, by rw [he]; exact putVer_valid h2 _⟩, by rw [he]⟩
        · rintro ⟨_, he⟩; exact (Option.some.inj he).symm
    · rw [if_neg ht, if_neg ht]
      exact hm x
  | delete now ts keys =>
    unfold exec
    simp only
    rw [writerDelete_eq hop]
    have hv : ∀ r ∈ keys.map (fun k => (⟨k, ts, .del⟩ : Rec)), r.Valid := by
      intro r hr
      obtain ⟨kv, _, rfl⟩ := List.mem_map.1 hr
      exact ⟨hop, trivial⟩
    obtain ⟨hw, hs⟩ := stored_batchPut h hv
    refine ⟨hw, fun x => ?_⟩
    rw [Option.getD_some, hs x, lastRec_del]
    simp only [specStep]
    by_cases ht : x.ts = ts ∧ x.key ∈ keys
    · rw [if_pos ht, if_pos ht]
      simp only
      constructor
      · intro he
        refine ⟨⟨by rw [ht.1]; exact hop, by rw [he]; trivial⟩, by rw [he]⟩
      · rintro ⟨_, he⟩; exact (Option.some.inj he).symm
    · rw [if_neg ht, if_neg ht]
      exact hm x
  | deleteRange start stop =>
    obtain ⟨hw, hs⟩ := stored_deleteRange h hop
    refine ⟨hw, fun x => ?_⟩
    have : exec st (.deleteRange start stop) = writerDeleteRange st start stop := rfl
    rw [this, hs x]
    simp only [specStep]
    by_cases hr : start ≤ x.key ∧ x.key < stop
    · rw [if_pos hr]
      constructor
      · rintro ⟨h, _⟩; exact absurd hr h
      · rintro ⟨_, h⟩; cases h
    · rw [if_neg hr, hm x]
      constructor
      · rintro ⟨_, h⟩; exact h
      · intro h; exact ⟨hr, h⟩

/-- Strictly key-ascending lists with the same members are equal. -/
theorem eq_of_keys {l m : List Rec} (hl : l.Pairwise (fun r s => r.key < s.key))
    (hm : m.Pairwise (fun r s => r.key < s.key)) (h : ∀ x, x ∈ l ↔ x ∈ m) : l = m := by
  induction l generalizing m with
  | nil =>
    cases m with
    | nil => rfl
    | cons a m => exact absurd ((h a).2 (by simp)) (by simp)
  | cons a l ih =>
    rw [List.pairwise_cons] at hl
    cases m with
    | nil => exact absurd ((h a).1 (by simp)) (by simp)
    | cons b m =>
      rw [List.pairwise_cons] at hm
      have hab : a = b := by
        rcases List.mem_cons.1 ((h a).1 (by simp)) with h1 | h1
        · exact h1
        · rcases List.mem_cons.1 ((h b).2 (by simp)) with h2 | h2
          · exact h2.symm
          · exact absurd (hl.1 b h2) (lt_asymm (hm.1 a h1))
      subst hab
      congr 1
      apply ih hl.2 hm.2
      intro x
      constructor
      · intro hx
        rcases List.mem_cons.1 ((h x).1 (List.mem_cons_of_mem _ hx)) with rfl | h1
        · exact absurd (hl.1 x hx) (lt_irrefl _)
        · exact h1
      · intro hx
        rcases List.mem_cons.1 ((h x).2 (List.mem_cons_of_mem _ hx)) with rfl | h1
        · exact absurd (hm.1 x hx) (lt_irrefl _)
        · exact h1

theorem rec_lt_irrefl (r : Rec) : ¬ r.lt r := by
  rintro (h | ⟨_, h⟩)
  · exact lt_irrefl _ h
  · omega

theorem rec_lt_asymm {r s : Rec} (h : r.lt s) : ¬ s.lt r := by
  rcases h with h | ⟨hk, h⟩
  · rintro (h' | ⟨hk', _⟩)
    · exact lt_asymm h h'
    · rw [hk'] at h; exact lt_irrefl _ h
  · rintro (h' | ⟨_, h'⟩)
    · rw [hk] at h'; exact lt_irrefl _ h'
    · omega

/-- Sorted version lists with the same members are equal. -/
theorem eq_of_recs {l m : List Rec} (hl : l.Pairwise Rec.lt) (hm : m.Pairwise Rec.lt)
    (h : ∀ x, x ∈ l ↔ x ∈ m) : l = m := by
  induction l generalizing m with
  | nil =>
    cases m with
    | nil => rfl
    | cons a m => exact absurd ((h a).2 (by simp)) (by simp)
  | cons a l ih =>
    rw [List.pairwise_cons] at hl
    cases m with
    | nil => exact absurd ((h a).1 (by simp)) (by simp)
    | cons b m =>
      rw [List.pairwise_cons] at hm
      have hab : a = b := by
        rcases List.mem_cons.1 ((h a).1 (by simp)) with h1 | h1
        · exact h1
        · rcases List.mem_cons.1 ((h b).2 (by simp)) with h2 | h2
          · exact h2.symm
          · exact absurd (hl.1 b h2) (rec_lt_asymm (hm.1 a h1))
      subst hab
      congr 1
      apply ih hl.2 hm.2
      intro x
      constructor
      · intro hx
        rcases List.mem_cons.1 ((h x).1 (List.mem_cons_of_mem _ hx)) with rfl | h1
        · exact absurd (hl.1 x hx) (rec_lt_irrefl _)
        · exact h1
      · intro hx
        rcases List.mem_cons.1 ((h x).2 (List.mem_cons_of_mem _ hx)) with rfl | h1
        · exact absurd (hm.1 x hx) (rec_lt_irrefl _)
        · exact h1

end Verif.Mvcc
