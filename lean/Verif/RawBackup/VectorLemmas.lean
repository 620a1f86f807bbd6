import Verif.RawBackup.Props
import Verif.RawBackup.Vector

/-! # Lemmas: backup and restore of vector regions -/

namespace Verif.RawBackup
open Verif.Codec Verif.Mvcc Verif.Backup

theorem sget_iff {st : Store} (hs : SortedStore st) {k v : Bytes} : sget st k = some v ↔ (k, v) ∈ st := by
  unfold sget
  induction st with
  | nil => simp
  | cons a st ih =>
    have hs' := List.pairwise_cons.1 hs
    rw [List.find?_cons]
    by_cases h : a.1 = k
    · simp only [h, decide_true, Option.map_some, Option.some.injEq, List.mem_cons]
      constructor
      · intro e
        exact Or.inl (by rw [← h, ← e])
      · rintro (e | e)
        · rw [← e]
        · have := hs'.1 _ e
          rw [h] at this
          exact absurd this (List.lt_irrefl _)
    · simp only [h, decide_false, List.mem_cons]
      rw [ih hs'.2]
      constructor
      · exact Or.inr
      · rintro (e | e)
        · exact absurd (by rw [← e]) h
        · exact e

/-- A version that is taken, with its scalar and table data. -/
structure Pick where
  r : Rec
  s : Ver
  t : Ver

structure Pick.Good (p : Pick) : Prop where
  r : p.r.Valid
  s : p.s.Valid
  t : p.t.Valid
  sd : p.s = .del ↔ p.r.ver = .del
  td : p.t = .del ↔ p.r.ver = .del

/-- What holds of a region written by adds and deletes. -/
structure VInv (fields : List Bytes) (st : VStore) : Prop where
  wf : WFStore st.data
  ss : SortedStore st.scalar
  ts : SortedStore st.table
  whole : ∀ x, Stored st.data x →
    (∃ s : Ver, s.Valid ∧ (s = .del ↔ x.ver = .del) ∧ (x.enc.1, s.pkg) ∈ st.scalar) ∧
    (∃ t : Ver, t.Valid ∧ (t = .del ↔ x.ver = .del) ∧ (x.enc.1, t.pkg) ∈ st.table) ∧
    ∀ f ∈ fields, (st.speed (x.enc.1, f)).isSome = true

structure VWrite.Good (w : VWrite) : Prop where
  ts : ValidTs w.ts
  v : w.vec.Valid
  s : w.scalar.Valid
  t : w.table.Valid
  sd : w.scalar = .del ↔ w.vec = .del
  td : w.table = .del ↔ w.vec = .del

theorem VInv.put {fields : List Bytes} {st : VStore} (h : VInv fields st) {w : VWrite} (hw : w.Good) :
    VInv fields (vput fields st w) := by
  have hr : (⟨w.key, w.ts, w.vec⟩ : Rec).Valid := ⟨hw.ts, hw.v⟩
  obtain ⟨h1, h2⟩ := stored_put h.wf hr
  refine ⟨h1, sorted_put h.ss _ _, sorted_put h.ts _ _, ?_⟩
  intro x hx
  have hx' := (h2 x).1 hx
  simp only [vput]
  rcases hx' with rfl | ⟨hne, hold⟩
  · refine ⟨⟨w.scalar, hw.s, hw.sd, (mem_put h.ss _ _ _).2 (Or.inl rfl)⟩,
      ⟨w.table, hw.t, hw.td, (mem_put h.ts _ _ _).2 (Or.inl rfl)⟩, ?_⟩
    intro f hf
    rw [if_pos ⟨rfl, hf⟩]
    rfl
  · have hk : x.enc.1 ≠ (Rec.enc ⟨w.key, w.ts, w.vec⟩).1 := fun e => hne ((enc_key_eq hold.1 hr).1 e)
    obtain ⟨⟨s, a1, a2, a3⟩, ⟨t, b1, b2, b3⟩, c⟩ := h.whole x hold
    refine ⟨⟨s, a1, a2, (mem_put h.ss _ _ _).2 (Or.inr ⟨hk, a3⟩)⟩,
      ⟨t, b1, b2, (mem_put h.ts _ _ _).2 (Or.inr ⟨hk, b3⟩)⟩, ?_⟩
    intro f hf
    rw [if_neg (fun e => hk e.1)]
    exact c f hf

/-- Timestamps from the oracle, 64-bit expiry. -/
def VOp.Valid : VOp → Prop
  | .add ts ttl _ => ValidTs ts ∧ IsI64 ttl
  | .delete ts _ => ValidTs ts

theorem addVer_valid {ttl : Int} (h : IsI64 ttl) (v : Bytes) : (addVer ttl v).Valid ∧ addVer ttl v ≠ .del := by
  unfold addVer
  split
  · exact ⟨trivial, nofun⟩
  · exact ⟨h, nofun⟩

theorem writes_good {op : VOp} (h : op.Valid) : ∀ w ∈ op.writes, w.Good := by
  intro w hw
  cases op with
  | add ts ttl vs =>
    obtain ⟨v, _, rfl⟩ := List.mem_map.1 hw
    exact ⟨h.1, (addVer_valid h.2 _).1, (addVer_valid h.2 _).1, (addVer_valid h.2 _).1,
      by simp [addVer_valid h.2], by simp [addVer_valid h.2]⟩
  | delete ts keys =>
    obtain ⟨k, _, rfl⟩ := List.mem_map.1 hw
    exact ⟨h, trivial, trivial, trivial, Iff.rfl, Iff.rfl⟩

theorem VInv.empty (fields : List Bytes) : VInv fields {} :=
  ⟨⟨List.Pairwise.nil, by intro e he; cases he⟩, List.Pairwise.nil, List.Pairwise.nil, by rintro x ⟨_, hx⟩; cases hx⟩

theorem VInv.run {fields : List Bytes} {st : VStore} (h : VInv fields st) (ops : List VOp) (hops : ∀ op ∈ ops, op.Valid) :
    VInv fields (ops.foldl (vexec fields) st) := by
  have gen : ∀ (ws : List VWrite) (st : VStore), (∀ w ∈ ws, w.Good) → VInv fields st →
      VInv fields (ws.foldl (vput fields) st) := by
    intro ws
    induction ws with
    | nil => exact fun st _ h => h
    | cons w ws ih => exact fun st hg h => ih _ (fun x hx => hg x (by simp [hx])) (h.put (hg w (by simp)))
  induction ops generalizing st with
  | nil => exact h
  | cons op ops ih =>
    exact ih (gen _ _ (writes_good (hops op (by simp))) h) (fun o ho => hops o (by simp [ho]))

/-! ## Backup -/

theorem picks_of {fields : List Bytes} {st : VStore} (h : VInv fields st) (l : List Rec) (hl : ∀ r ∈ l, Stored st.data r) :
    ∃ ps : List Pick, ps.map (·.r) = l ∧ (∀ p ∈ ps, p.Good) ∧
      (l.map Rec.enc).filterMap (fun e => (sget st.scalar e.1).map (fun v => (e.1, v))) =
        ps.map (fun p => (p.r.enc.1, p.s.pkg)) ∧
      (l.map Rec.enc).filterMap (fun e => (sget st.table e.1).map (fun v => (e.1, v))) =
        ps.map (fun p => (p.r.enc.1, p.t.pkg)) := by
  induction l with
  | nil => exact ⟨[], rfl, by simp, rfl, rfl⟩
  | cons r l ih =>
    obtain ⟨ps, e1, e2, e3, e4⟩ := ih (fun x hx => hl x (by simp [hx]))
    obtain ⟨⟨s, a1, a2, a3⟩, ⟨t, b1, b2, b3⟩, _⟩ := h.whole r (hl r (by simp))
    refine ⟨⟨r, s, t⟩ :: ps, by simp [e1], ?_, ?_, ?_⟩
    · intro p hp
      rcases List.mem_cons.1 hp with rfl | hp
      · exact ⟨(hl _ (by simp)).1, a1, b1, a2, b2⟩
      · exact e2 p hp
    · rw [List.map_cons, List.filterMap_cons, (sget_iff h.ss).2 a3, e3]
      rfl
    · rw [List.map_cons, List.filterMap_cons, (sget_iff h.ts).2 b3, e4]
      rfl

/-- What is gathered of the speed-up family before it is ordered. -/
def gathered (st : VStore) (fields : List Bytes) (f : List Entry) : List (SpeedKey × Bytes) :=
  f.flatMap (fun e => fields.filterMap (fun x => (st.speed (e.1, x)).map (fun v => ((e.1, x), v))))

theorem mem_gathered {st : VStore} {fields : List Bytes} {f : List Entry} {q : SpeedKey × Bytes} :
    q ∈ gathered st fields f ↔ st.speed q.1 = some q.2 ∧ q.1.2 ∈ fields ∧ ∃ e ∈ f, e.1 = q.1.1 := by
  unfold gathered
  rw [List.mem_flatMap]
  constructor
  · rintro ⟨e, he, hq⟩
    obtain ⟨x, hx, hv⟩ := List.mem_filterMap.1 hq
    cases hs : st.speed (e.1, x) with
    | none => rw [hs] at hv; cases hv
    | some v =>
      rw [hs] at hv
      cases hv
      exact ⟨hs, hx, e, he, rfl⟩
  · rintro ⟨h1, h2, e, he, h3⟩
    refine ⟨e, he, List.mem_filterMap.2 ⟨q.1.2, h2, ?_⟩⟩
    rw [h3]
    have : st.speed (q.1.1, q.1.2) = some q.2 := h1
    rw [this]
    rfl

theorem insSpeed_perm {p : SpeedKey × Bytes} {m : List (SpeedKey × Bytes)} (h : ∀ q ∈ m, q.1 ≠ p.1) :
    (insSpeed p m).Perm (p :: m) := by
  induction m with
  | nil => exact List.Perm.refl _
  | cons q m ih =>
    unfold insSpeed
    split
    · exact List.Perm.refl _
    · rw [if_neg (fun e => h q (by simp) e.symm)]
      exact ((ih (fun x hx => h x (by simp [hx]))).cons q).trans (List.Perm.swap p q m)

theorem order_perm (l m : List (SpeedKey × Bytes)) (h : (l.map (·.1)).Nodup) (hm : ∀ p ∈ l, ∀ q ∈ m, q.1 ≠ p.1) :
    (l.foldl (fun m p => insSpeed p m) m).Perm (l ++ m) := by
  induction l generalizing m with
  | nil => exact List.Perm.refl _
  | cons p l ih =>
    have h' : p.1 ∉ l.map (·.1) ∧ (l.map (·.1)).Nodup := List.nodup_cons.1 h
    have hp := insSpeed_perm (p := p) (m := m) (fun q hq => hm p (by simp) q hq)
    rw [List.foldl_cons]
    refine (ih (insSpeed p m) h'.2 ?_).trans ?_
    · intro x hx q hq
      rcases List.mem_cons.1 (hp.subset hq) with rfl | hq
      · intro e
        exact h'.1 (List.mem_map.2 ⟨x, hx, e.symm⟩)
      · exact hm x (by simp [hx]) q hq
    · exact (List.Perm.append_left l hp).trans List.perm_middle

theorem order_sorted (l m : List (SpeedKey × Bytes)) (h : (m ++ l).Pairwise (fun a b => a.1.1 < b.1.1)) :
    l.foldl (fun m p => insSpeed p m) m = m ++ l := by
  induction l generalizing m with
  | nil => simp
  | cons p l ih =>
    have hlt : ∀ q ∈ m, q.1.1 < p.1.1 := fun q hq => (List.pairwise_append.1 h).2.2 q hq p (by simp)
    have hins : insSpeed p m = m ++ [p] := by
      clear ih h
      induction m with
      | nil => rfl
      | cons q m ihm =>
        have := hlt q (by simp)
        unfold insSpeed
        have h1 : speedLt p.1 q.1 = false := by
          unfold speedLt
          have ha : ¬ p.1.1 < q.1.1 := fun h => List.lt_asymm h this
          have hb : ¬ p.1.1 = q.1.1 := fun h => by rw [h] at this; exact List.lt_irrefl _ this
          simp [ha, hb]
        have h2 : ¬ p.1 = q.1 := fun h => by rw [h] at this; exact List.lt_irrefl _ this
        rw [h1, if_neg (by simp), if_neg h2, ihm (fun x hx => hlt x (by simp [hx]))]
        rfl
    rw [List.foldl_cons, hins, ih (m ++ [p]) (by simpa using h)]
    simp

theorem genKeys_nodup (l : List (SpeedKey × Bytes)) (prev : Option SpeedKey) (h : (l.map (·.1)).Nodup)
    (hp : ∀ k, prev = some k → k ∉ l.map (·.1)) : genKeys prev l = l.map (·.1.1) := by
  induction l generalizing prev with
  | nil => rfl
  | cons p l ih =>
    have h' := List.nodup_cons.1 (by simpa using h : (p.1 :: l.map (·.1)).Nodup)
    unfold genKeys
    rw [if_neg (fun e => hp p.1 e (by simp)), ih (some p.1) h'.2 (by rintro k ⟨⟩; exact h'.1)]
    rfl

/-! ## Restore -/

/-- What a packed version is unpacked to. -/
def Ver.parts : Ver → ValueFlag × Int × Bytes
  | .put x => (.put, 0, x)
  | .putTTL t x => (.putTTL, t, x)
  | .del => (.delete, 0, [])

theorem unpack_pkg {v : Ver} (h : v.Valid) : unPackageValueTTL v.pkg = some (Ver.parts v) := by
  cases v with
  | put x => exact (C04_value_roundtrip .put 0 x (by constructor <;> decide)).1
  | putTTL t x => exact (C04_value_roundtrip .putTTL t x h).1
  | del => exact (C04_value_roundtrip .delete 0 [] (by constructor <;> decide)).1

/-- The values of a version parse. -/
def Fits (c : VConf) (v : Ver) : Prop := v ≠ .del → c.parses v.value = true

theorem parsed_pkg {c : VConf} {v : Ver} (h : v.Valid) (hf : Fits c v) :
    parsed c v.pkg = some (if v = .del then none else some v.value) := by
  unfold parsed
  rw [unpack_pkg h]
  cases v with
  | put v =>
    have : c.parses v = true := hf nofun
    simp [Ver.parts, Ver.value, this]
  | putTTL ttl v =>
    have : c.parses v = true := hf nofun
    simp [Ver.parts, Ver.value, this]
  | del => rfl

structure Pick.Fits (c : VConf) (p : Pick) : Prop where
  r : RawBackup.Fits c p.r.ver
  s : RawBackup.Fits c p.s
  t : RawBackup.Fits c p.t

/-- The vectors the index is to be given. -/
def live (ps : List Pick) : List Vec :=
  ps.filterMap (fun p => if p.r.ver = .del then none else some ⟨p.r.enc.1, p.r.ver.value, some p.s.value, some p.t.value⟩)

theorem mapM_parsed {c : VConf} {α : Type} (g : α → Ver) (k : α → Bytes) (l : List α) (h : ∀ a ∈ l, (g a).Valid ∧ Fits c (g a)) :
    (l.map (fun a => (k a, (g a).pkg))).mapM (fun e => parsed c e.2) =
      some (l.map (fun a => if g a = .del then none else some (g a).value)) := by
  induction l with
  | nil => rfl
  | cons a l ih =>
    rw [List.map_cons, List.mapM_cons, parsed_pkg (h a (by simp)).1 (h a (by simp)).2, ih (fun x hx => h x (by simp [hx]))]
    rfl

theorem side_ok {c : VConf} {α : Type} (g : α → Ver) (k : α → Bytes) (l : List α) (h : ∀ a ∈ l, (g a).Valid ∧ Fits c (g a)) :
    side c (l.map k) (l.map (fun a => (k a, (g a).pkg))) =
      some (l.map (fun a => if g a = .del then none else some (g a).value)) := by
  induction l with
  | nil => rfl
  | cons a l ih =>
    simp only [List.map_cons, side]
    rw [if_neg (by simp), parsed_pkg (h a (by simp)).1 (h a (by simp)).2, ih (fun x hx => h x (by simp [hx]))]

theorem zip_live (ps : List Pick) (hg : ∀ p ∈ ps, p.Good) :
    ((ps.map (fun p => p.r.enc.1)).zip ((ps.map (fun p => if p.r.ver = .del then none else some p.r.ver.value)).zip
      ((ps.map (fun p => if p.s = .del then none else some p.s.value)).zip
       (ps.map (fun p => if p.t = .del then none else some p.t.value))))).filterMap (fun x =>
          x.2.1.map (fun v => (⟨x.1, v, x.2.2.1, x.2.2.2⟩ : Vec))) = live ps := by
  induction ps with
  | nil => rfl
  | cons p ps ih =>
    have ih := ih (fun x hx => hg x (by simp [hx]))
    have g := hg p (by simp)
    simp only [List.map_cons, List.zip_cons_cons, List.filterMap_cons, live]
    simp only [live] at ih
    by_cases hd : p.r.ver = .del
    · simp only [hd, if_true, Option.map_none]
      exact ih
    · have hs : ¬ p.s = .del := fun e => hd (g.sd.1 e)
      have ht : ¬ p.t = .del := fun e => hd (g.td.1 e)
      simp only [hd, hs, ht, if_false, Option.map_some]
      rw [ih]

theorem optimize_ok {c : VConf} {ps : List Pick} {f : VFiles} (hg : ∀ p ∈ ps, p.Good) (hf : ∀ p ∈ ps, p.Fits c)
    (e1 : f.data = ps.map (fun p => p.r.enc)) (e2 : f.scalar = ps.map (fun p => (p.r.enc.1, p.s.pkg)))
    (e3 : f.table = ps.map (fun p => (p.r.enc.1, p.t.pkg))) {keys : List Bytes}
    (hk : keys = [] ∨ keys = f.data.map (·.1)) : optimizePre c f keys = some (live ps) := by
  have hd : f.data = ps.map (fun p => (p.r.enc.1, p.r.ver.pkg)) := e1
  have hm : f.data.map (·.1) = ps.map (fun p => p.r.enc.1) := by rw [e1, List.map_map]; rfl
  unfold optimizePre
  rw [hd, mapM_parsed (fun p : Pick => p.r.ver) (fun p => p.r.enc.1) ps (fun a ha => ⟨(hg a ha).r.2, (hf a ha).r⟩), ← hd, hm, e2, e3]
  simp only
  rw [side_ok (fun p : Pick => p.s) (fun p => p.r.enc.1) ps (fun a ha => ⟨(hg a ha).s, (hf a ha).s⟩),
    side_ok (fun p : Pick => p.t) (fun p => p.r.enc.1) ps (fun a ha => ⟨(hg a ha).t, (hf a ha).t⟩)]
  simp only
  rw [if_pos ?_, zip_live ps hg]
  rcases hk with rfl | rfl
  · exact List.nil_prefix
  · rw [hm]; exact List.prefix_refl _

theorem unpacked_ok {α : Type} (g : α → Ver) (k : α → Bytes) (l : List α) (h : ∀ a ∈ l, (g a).Valid) :
    unpacked (l.map (fun a => (k a, (g a).pkg))) = some (l.map (fun a => (k a, (g a).value))) := by
  unfold unpacked
  induction l with
  | nil => rfl
  | cons a l ih =>
    rw [List.map_cons, List.mapM_cons, unpack_pkg (h a (by simp)), ih (fun x hx => h x (by simp [hx]))]
    simp only [List.map_cons]
    generalize g a = v
    cases v <;> rfl

theorem filter_rest {α : Type} (g : α → Bytes) (k : α → Bytes) (a : α) (l : List α) (h : ∀ b ∈ l, k b ≠ k a) :
    ((a :: l).map (fun a => (k a, g a))).filter (fun x => decide (x.1 ≠ k a)) = l.map (fun a => (k a, g a)) := by
  rw [List.map_cons, List.filter_cons]
  simp only [ne_eq, not_true_eq_false, decide_false, Bool.false_eq_true, if_false]
  rw [List.filter_eq_self]
  intro x hx
  obtain ⟨b, hb, rfl⟩ := List.mem_map.1 hx
  simpa using h b hb

theorem preLoop_ok {c : VConf} (ps : List Pick) (ss : List Bytes) (hg : ∀ p ∈ ps, p.Good) (hf : ∀ p ∈ ps, p.Fits c)
    (hn : (ps.map (fun p => p.r.enc.1)).Nodup) (hs : ∀ k ∈ ss, k ∈ ps.map (fun p => p.r.enc.1)) :
    preLoop c (ps.map (fun p => p.r.enc)) (ps.map (fun p => (p.r.enc.1, p.s.value)))
      (ps.map (fun p => (p.r.enc.1, p.t.value))) ss = some (live ps) := by
  induction ps generalizing ss with
  | nil =>
    have : ss = [] := List.eq_nil_iff_forall_not_mem.2 (fun k hk => by cases hs k hk)
    subst this
    rfl
  | cons p ps ih =>
    have hn' := List.nodup_cons.1 (by simpa using hn : (p.r.enc.1 :: ps.map (fun p => p.r.enc.1)).Nodup)
    have hne : ∀ b ∈ ps, b.r.enc.1 ≠ p.r.enc.1 := fun b hb e => hn'.1 (List.mem_map.2 ⟨b, hb, e⟩)
    have hrest : ∀ k ∈ ss.filter (fun k => decide (k ≠ p.r.enc.1)), k ∈ ps.map (fun p => p.r.enc.1) := by
      intro k hk
      obtain ⟨h1, h2⟩ := List.mem_filter.1 hk
      rcases List.mem_cons.1 (by simpa using hs k h1 : k ∈ p.r.enc.1 :: ps.map (fun p => p.r.enc.1)) with rfl | h
      · simp at h2
      · exact h
    have ih := ih (ss.filter (fun k => decide (k ≠ p.r.enc.1))) (fun x hx => hg x (by simp [hx]))
      (fun x hx => hf x (by simp [hx])) hn'.2 hrest
    have g := hg p (by simp)
    have fp := hf p (by simp)
    have hsm := filter_rest (fun p : Pick => p.s.value) (fun p => p.r.enc.1) p ps hne
    have htm := filter_rest (fun p : Pick => p.t.value) (fun p => p.r.enc.1) p ps hne
    have hps : sget ((p :: ps).map (fun p => (p.r.enc.1, p.s.value))) p.r.enc.1 = some p.s.value := by
      simp [sget]
    have hpt : sget ((p :: ps).map (fun p => (p.r.enc.1, p.t.value))) p.r.enc.1 = some p.t.value := by
      simp [sget]
    have hpar : parsed c p.r.enc.2 = some (if p.r.ver = .del then none else some p.r.ver.value) := parsed_pkg g.r.2 fp.r
    conv => lhs; rw [List.map_cons (f := fun p : Pick => p.r.enc)]
    unfold preLoop
    simp only
    rw [hpar, hsm, htm, hps, hpt]
    by_cases hd : p.r.ver = .del
    · simp only [hd, if_true]
      rw [ih]
      simp [live, hd]
    · have h1 : c.parses p.s.value = true := fp.s (fun e => hd (g.sd.1 e))
      have h2 : c.parses p.t.value = true := fp.t (fun e => hd (g.td.1 e))
      simp only [hd, if_false, Option.all_some, h1, h2, Bool.and_self, if_true]
      rw [ih]
      simp [live, hd]

theorem pre_ok {c : VConf} {ps : List Pick} {f : VFiles} (hg : ∀ p ∈ ps, p.Good) (hf : ∀ p ∈ ps, p.Fits c)
    (e1 : f.data = ps.map (fun p => p.r.enc)) (e2 : f.scalar = ps.map (fun p => (p.r.enc.1, p.s.pkg)))
    (e3 : f.table = ps.map (fun p => (p.r.enc.1, p.t.pkg))) (hn : (ps.map (fun p => p.r.enc.1)).Nodup) {keys : List Bytes}
    (hk : ∀ k ∈ keys, k ∈ f.data.map (·.1)) : pre c f keys = some (live ps) := by
  unfold pre
  rw [e2, e3, unpacked_ok (fun p : Pick => p.s) (fun p => p.r.enc.1) ps (fun a ha => (hg a ha).s),
    unpacked_ok (fun p : Pick => p.t) (fun p => p.r.enc.1) ps (fun a ha => (hg a ha).t), e1]
  refine preLoop_ok ps keys hg hf hn ?_
  intro k hk'
  have := hk k hk'
  rw [e1, List.map_map] at this
  exact this

end Verif.RawBackup
