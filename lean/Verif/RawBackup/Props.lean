import Verif.RawBackup.Lemmas

/-! # Backup and restore without transactions (C105) -/

namespace Verif.RawBackup
open Verif.Codec Verif.Mvcc Verif.Backup

theorem sublist_flatten {α : Type} {l m : List (List α)} (h : l.Sublist m) : l.flatten.Sublist m.flatten := by
  induction h with
  | slnil => exact List.Sublist.refl _
  | cons a _ ih => exact ih.trans (by simp)
  | cons_cons a _ ih => simpa using ih

theorem inRange_iff {start stop : Bytes} {r : Rec} : inRange start stop r = true ↔ Mvcc.InRegion start stop r.key := by
  simp [inRange, Mvcc.InRegion]

/-- C105: a backup of a region at `tso` never aborts and holds, in order, exactly the newest
version at or below `tso` of every key of the region. -/
theorem C105_backup {st : Store} (h : WFStore st) (tso : Int) {start stop : Bytes} (hs : start ≠ []) :
    ∃ f, rawBackup st tso start stop = some f ∧ f.Pairwise (fun a b => a.1 < b.1) ∧
      ∀ e, e ∈ f ↔ ∃ r, e = r.enc ∧ Mvcc.InRegion start stop r.key ∧ Mvcc.Newest st tso r.key r := by
  obtain ⟨rs, rfl, hv, hp⟩ := h.recs
  refine ⟨_, backup_recs hv hp tso start stop, ?_, ?_⟩
  · have hsub := (picksR_sublist tso (rs.filter (inRange start stop)) [] false).trans List.filter_sublist
    exact (sorted_recs (fun r hr => hv r (hsub.subset hr))).2 (hp.sublist hsub)
  · intro e
    rw [List.mem_map]
    constructor
    · rintro ⟨r, hr, rfl⟩
      obtain ⟨h1, h2⟩ := (mem_backup hp hs r).1 hr
      exact ⟨r, rfl, inRange_iff.1 h2, (newestIn_iff hv).2 ⟨h1, rfl⟩⟩
    · rintro ⟨r, rfl, h1, h2⟩
      exact ⟨r, (mem_backup hp hs r).2 ⟨((newestIn_iff hv).1 h2).1, inRange_iff.2 h1⟩, rfl⟩

/-- C105: a region backed up at `tso` and restored into an empty region, all writes having
succeeded, answers every read at or above `tso` (point, scan, count) as the original answers
one at `tso` at the same clock, and holds nothing outside the range backed up. -/
theorem C105_restored {st : Store} (h : WFStore st) {tso : Int} (ht : 0 < tso) {start stop : Bytes}
    (hs : start ≠ []) {f : List Entry} (hb : rawBackup st tso start stop = some f) (c : RawConf) {res : List WRes}
    (hres : ∀ r ∈ res, r = .ok) :
    ∃ rs, restoreStore c f res = (.ok, rs) ∧ answer .ok = some true ∧
      ∀ now ts, tso ≤ readTs ts →
        (∀ k, k ≠ [] → Mvcc.InRegion start stop k → kvGet (applyKvs rs []) now ts k = kvGet st now tso k) ∧
        (∀ k, k ≠ [] → ¬ Mvcc.InRegion start stop k → kvGet (applyKvs rs []) now ts k = .notFound) ∧
        (∀ a b, a ≠ [] → b ≠ [] → start ≤ a → b ≤ stop →
          kvScan (applyKvs rs []) now ts a b = kvScan st now tso a b ∧
          kvCount (applyKvs rs []) now ts a b = kvCount st now tso a b) := by
  refine ⟨_, sendAll_ok hres, rfl, ?_⟩
  intro now ts hts
  rw [applyKvs_flatten, cut_flatten, List.nil_append]
  obtain ⟨rs, rfl, hv, hp⟩ := h.recs
  rw [backup_recs hv hp] at hb
  cases hb
  generalize hl : picksR tso (rs.filter (inRange start stop)) [] false = l
  have hsub : l.Sublist rs := hl ▸ (picksR_sublist tso _ [] false).trans List.filter_sublist
  have hv' : ∀ r ∈ l, r.Valid := fun r hr => hv r (hsub.subset hr)
  have hp' := hp.sublist hsub
  have hmem : ∀ x, x ∈ l ↔ NewestIn rs tso x ∧ inRange start stop x = true := fun x => hl ▸ mem_backup hp hs x
  rw [put_empty hv' hp']
  have heff : effTs tso = tso := by unfold effTs; rw [if_pos (by omega)]
  rw [← effTs_eq] at hts
  -- the newest version in the copy is the one that was backed up
  have hnew : ∀ x, inRange start stop x = true → (NewestIn l (effTs ts) x ↔ NewestIn rs tso x) := by
    intro x hx
    constructor
    · rintro ⟨h1, _, _⟩
      exact ((hmem x).1 h1).1
    · intro hx'
      refine ⟨(hmem x).2 ⟨hx', hx⟩, by have := hx'.2.1; omega, ?_⟩
      intro y hy hk _
      have := ((hmem y).1 hy).1
      exact hx'.2.2 y this.1 hk this.2.1
  refine ⟨?_, ?_, ?_⟩
  · intro k hk hr
    rw [kvGet_recs hv' hp' now ts hk, kvGet_recs hv hp now tso hk, heff]
    rw [reads_same hv hp hv' hp' (ofKey_congr k) (fun x hx => hnew x ?_)]
    have : x.key = k := by simpa [ofKey] using hx
    exact inRange_iff.2 (this ▸ hr)
  · intro k hk hr
    rw [kvGet_recs hv' hp' now ts hk]
    have : l.filter (ofKey k) = [] := by
      rw [List.filter_eq_nil_iff]
      intro x hx hk'
      have : x.key = k := by simpa [ofKey] using hk'
      exact hr (this ▸ inRange_iff.1 ((hmem x).1 hx).2)
    rw [this]
    rfl
  · intro a b ha hb hsa hbs
    rw [kvScan_recs hv' hp' now ts ha hb, kvCount_recs hv' hp' now ts ha hb, kvScan_recs hv hp now tso ha hb,
      kvCount_recs hv hp now tso ha hb, heff]
    rw [reads_same hv hp hv' hp' (inRange_congr a b) (fun x hx => hnew x ?_)]
    · exact ⟨rfl, rfl⟩
    · have := inRange_iff.1 hx
      exact inRange_iff.2 ⟨List.le_trans hsa this.1, Std.lt_of_lt_of_le this.2 hbs⟩

/-- C105: as long as what is written later is written above `tso`, a backup at `tso` taken later
is the same.  That a write below `tso` may still be on its way is `C105_late_false`. -/
theorem C105_repeat_partial {st : Store} (h : WFStore st) {tso : Int} {start stop : Bytes} (ops : List Op)
    (hops : ∀ op ∈ ops, op.Valid ∧ WritesAbove tso op) :
    rawBackup (ops.foldl exec st) tso start stop = rawBackup st tso start stop := by
  have gen : ∀ st : Store, WFStore st → WFStore (ops.foldl exec st) ∧
      ∀ x, x.ts ≤ tso → (Stored (ops.foldl exec st) x ↔ Stored st x) := by
    induction ops with
    | nil => exact fun st h => ⟨h, fun _ _ => Iff.rfl⟩
    | cons op ops ih =>
      intro st h
      obtain ⟨h1, h2⟩ := stored_above h (hops op (by simp)).1 (hops op (by simp)).2
      obtain ⟨h3, h4⟩ := ih (fun o ho => hops o (by simp [ho])) (exec st op) h1
      exact ⟨h3, fun x hx => (h4 x hx).trans (h2 x hx)⟩
  obtain ⟨hw, hst⟩ := gen st h
  obtain ⟨rs, e1, hv, hp⟩ := h.recs
  obtain ⟨rs', e2, hv', hp'⟩ := hw.recs
  rw [e2, e1] at hst
  rw [e2, e1, backup_recs hv hp, backup_recs hv' hp']
  simp only [stored_map hv, stored_map hv'] at hst
  -- the loop does not depend on the versions above `tso`
  have hfil : ∀ (l : List Rec), l.Pairwise Rec.lt → ∀ (x : Rec),
      x ∈ picksR tso l [] false ↔ NewestIn l tso x ∧ (x.key = [] → False) := by
    intro l hl x
    rw [mem_picksR hl (fun x _ => by cases x.key <;> simp)]
    simp
  congr 2
  apply eq_of_recs
  · exact (hp'.sublist List.filter_sublist).sublist (picksR_sublist _ _ _ _)
  · exact (hp.sublist List.filter_sublist).sublist (picksR_sublist _ _ _ _)
  · intro x
    rw [hfil _ (hp'.sublist List.filter_sublist), hfil _ (hp.sublist List.filter_sublist)]
    have : NewestIn (rs'.filter (inRange start stop)) tso x ↔ NewestIn (rs.filter (inRange start stop)) tso x := by
      simp only [NewestIn, List.mem_filter]
      constructor
      · rintro ⟨⟨a1, a2⟩, a3, a4⟩
        exact ⟨⟨(hst x a3).1 a1, a2⟩, a3, fun y hy hk ht => a4 y ⟨(hst y ht).2 hy.1, hy.2⟩ hk ht⟩
      · rintro ⟨⟨a1, a2⟩, a3, a4⟩
        exact ⟨⟨(hst x a3).2 a1, a2⟩, a3, fun y hy hk ht => a4 y ⟨(hst y ht).1 hy.1, hy.2⟩ hk ht⟩
    rw [this]

/-- C105: a restore that is stopped after `n` writes has applied the first `n` requests of the
whole restore, which are an initial part of the backup. -/
theorem C105_stopped (c : RawConf) (f : List Entry) (n : Nat) (t : List WRes) :
    (restoreStore c f (List.replicate n .ok ++ .perm :: t)).2 = (restoreStore c f []).2.take n ∧
    (restoreStore c f (List.replicate n .ok ++ .perm :: t)).2.flatten <+: f ∧
    (restoreStore c f []).2.flatten = f := by
  have h0 : (restoreStore c f []).2 = cut c.maxSize c.maxCount (fun e => e.1.length + e.2.length) 1 f [] 0 0 := by
    unfold restoreStore; rw [sendAll_ok (by simp)]
  have h1 : (restoreStore c f (List.replicate n .ok ++ .perm :: t)).2 = (restoreStore c f []).2.take n := by
    rw [h0]; exact sendAll_stop _ _ _ _
  have h2 : (restoreStore c f []).2.flatten = f := by rw [h0, cut_flatten]; rfl
  refine ⟨h1, ?_, h2⟩
  rw [h1]
  generalize (restoreStore c f []).2 = l at h2 ⊢
  refine ⟨(l.drop n).flatten, ?_⟩
  rw [← List.flatten_append, List.take_append_drop, h2]

/-- C105: whatever becomes of the writes, a restore puts in only records of the backup, in their
order, and no request is above the limits without its last record. -/
theorem C105_only (c : RawConf) (f : List Entry) (res : List WRes) :
    (restoreStore c f res).2.flatten.Sublist f ∧
    ∀ r ∈ (restoreStore c f res).2, r ≠ [] ∧ r.length ≤ c.maxCount + 1 ∧
      (r.dropLast.map (fun e => e.1.length + e.2.length)).sum ≤ c.maxSize := by
  have hsub := sendAll_sublist (cut c.maxSize c.maxCount (fun e : Entry => e.1.length + e.2.length) 1 f [] 0 0) res .ok
  constructor
  · have := sublist_flatten hsub
    rw [cut_flatten] at this
    exact this
  · intro r hr
    have hsm := cut_small c.maxSize c.maxCount (fun e : Entry => e.1.length + e.2.length) 1 f [] (by simp) (by simp) r
      (hsub.subset hr)
    refine ⟨hsm.2.2, ?_, hsm.1⟩
    have := hsm.2.1
    simp only [List.length_dropLast] at this
    omega

/-! ## Document regions -/

theorem unPackageTTL_enc {r : Rec} (h : r.Valid) : unPackageValueTTL r.enc.2 = some (match r.ver with
      | .put x => (.put, 0, x)
      | .putTTL t x => (.putTTL, t, x)
      | .del => (.delete, 0, [])) := by
  obtain ⟨k, t, v⟩ := r
  cases v with
  | put v => exact (C04_value_roundtrip .put 0 v (by constructor <;> decide)).1
  | putTTL ttl v => exact (C04_value_roundtrip .putTTL ttl v h.2).1
  | del => exact (C04_value_roundtrip .delete 0 [] (by constructor <;> decide)).1

/-- What goes with a version. -/
def docOf (r : Rec) : Entry × (Bytes ⊕ Unit) := (r.enc, if r.ver = .del then .inr () else .inl r.ver.value)

theorem document_enc (c : RawConf) {r : Rec} (h : r.Valid) (hp : r.ver ≠ .del → c.parses r.ver.value = true) :
    document c r.enc = some (docOf r) := by
  unfold document docOf
  rw [unPackageTTL_enc h]
  obtain ⟨k, t, v⟩ := r
  cases v with
  | put v => simp_all [Ver.value]
  | putTTL ttl v => simp_all [Ver.value]
  | del => rfl

theorem mapM_document (c : RawConf) {rs : List Rec} (hv : ∀ r ∈ rs, r.Valid)
    (hp : ∀ r ∈ rs, r.ver ≠ .del → c.parses r.ver.value = true) :
    (rs.map Rec.enc).mapM (document c) = some (rs.map docOf) := by
  induction rs with
  | nil => rfl
  | cons r rs ih =>
    rw [List.map_cons, List.mapM_cons, document_enc c (hv r (by simp)) (hp r (by simp)),
      ih (fun x hx => hv x (by simp [hx])) (fun x hx => hp x (by simp [hx]))]
    rfl

theorem cut_map {α β : Type} (g : α → β) (a b : Nat) (size : β → Nat) (items : Nat) (l req : List α) (sz n : Nat) :
    cut a b size items (l.map g) (req.map g) sz n =
      (cut a b (fun x => size (g x)) items l req sz n).map (List.map g) := by
  induction l generalizing req sz n with
  | nil =>
    unfold cut
    cases req <;> simp
  | cons e rest ih =>
    simp only [List.map_cons, cut]
    have h0 := ih [] 0 0
    have h1 := ih (req ++ [e]) (sz + size (g e)) (n + items)
    simp only [List.map_append, List.map_cons, List.map_nil] at h0 h1
    split
    · simp [h0]
    · rw [h1]

/-- The documents to add and the ids to delete that go with versions. -/
def adds (c : RawConf) (l : List Rec) : List (Nat × Bytes) :=
  (l.filter (fun r => decide (r.ver ≠ .del))).map (fun r => (c.id r.enc.1, r.ver.value))
def dels (c : RawConf) (l : List Rec) : List Nat :=
  (l.filter (fun r => decide (r.ver = .del))).map (fun r => c.id r.enc.1)

theorem docReq_docOf (c : RawConf) (l : List Rec) :
    docReq c (l.map docOf) = ⟨l.map Rec.enc, adds c l, dels c l⟩ := by
  induction l with
  | nil => rfl
  | cons r l ih =>
    simp only [docReq, DocReq.mk.injEq] at ih
    obtain ⟨i1, i2, i3⟩ := ih
    simp only [docReq, List.map_cons, List.filterMap_cons, i1, i2, i3, DocReq.mk.injEq]
    by_cases h : r.ver = .del <;> simp [docOf, h, adds, dels]

/-- C105, document regions: whatever becomes of the writes, every request that is applied adds to
the document index exactly the documents of the versions it puts into the region, and deletes
those of its deletion marks; and if all writes succeed the whole backup is put back. -/
theorem C105_document (c : RawConf) {l : List Rec} (hv : ∀ r ∈ l, r.Valid)
    (hp : ∀ r ∈ l, r.ver ≠ .del → c.parses r.ver.value = true) (res : List WRes) :
    (∃ ls : List (List Rec), ls.flatten.Sublist l ∧
      (restoreDoc c (l.map Rec.enc) res).2 = ls.map (fun x =>
        { kvs := x.map Rec.enc
          add := (x.filter (fun r => decide (r.ver ≠ .del))).map (fun r => (c.id r.enc.1, r.ver.value))
          del := (x.filter (fun r => decide (r.ver = .del))).map (fun r => c.id r.enc.1) }) ∧
      (∀ x ∈ ls, x ≠ [] ∧ 2 * x.length ≤ c.maxCount + 2) ∧ ((∀ r ∈ res, r = .ok) → ls.flatten = l)) ∧
    ((∀ r ∈ res, r = .ok) → (restoreDoc c (l.map Rec.enc) res).1 = .ok) := by
  have hcut := cut_map docOf c.maxSize c.maxCount (docSize c) 2 l [] 0 0
  rw [List.map_nil] at hcut
  have hsub := sendAll_sublist (cut c.maxSize c.maxCount (fun x => docSize c (docOf x)) 2 l [] 0 0) res .ok
  have heq : restoreDoc c (l.map Rec.enc) res =
      ((sendAll .ok (cut c.maxSize c.maxCount (fun x => docSize c (docOf x)) 2 l [] 0 0) res).1,
       (sendAll .ok (cut c.maxSize c.maxCount (fun x => docSize c (docOf x)) 2 l [] 0 0) res).2.map
        (fun x => ⟨x.map Rec.enc, adds c x, dels c x⟩)) := by
    unfold restoreDoc
    rw [mapM_document c hv hp]
    simp only
    rw [hcut, List.map_map, sendAll_map]
    congr 2
    funext x
    exact docReq_docOf c x
  rw [heq]
  refine ⟨⟨_, ?_, rfl, ?_, ?_⟩, ?_⟩
  · have := sublist_flatten hsub
    rw [cut_flatten] at this
    exact this
  · intro x hx
    have hsm := cut_small c.maxSize c.maxCount (fun x => docSize c (docOf x)) 2 l [] (by simp) (by simp) x
      (hsub.subset hx)
    refine ⟨hsm.2.2, ?_⟩
    have := hsm.2.1
    simp only [List.length_dropLast] at this
    omega
  · intro hres
    rw [sendAll_ok hres, cut_flatten]
    rfl
  · intro hres
    rw [sendAll_ok hres]

end Verif.RawBackup
