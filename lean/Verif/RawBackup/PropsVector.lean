import Verif.RawBackup.VectorLemmas

/-! # Backup and restore of vector regions without transactions (C106) -/

namespace Verif.RawBackup
open Verif.Codec Verif.Mvcc Verif.Backup

theorem gathered_nodup {st : VStore} {fields : List Bytes} {f : List Entry} (hf : fields.Nodup)
    (hd : f.Pairwise (fun a b => a.1 < b.1)) : ((gathered st fields f).map (·.1)).Nodup := by
  unfold gathered
  rw [List.Nodup, List.pairwise_map, List.pairwise_flatMap]
  refine ⟨?_, ?_⟩
  · intro e _
    rw [List.pairwise_filterMap]
    refine List.Pairwise.imp ?_ hf
    intro a b hab x hx y hy e'
    obtain ⟨_, _, rfl⟩ := Option.map_eq_some_iff.1 hx
    obtain ⟨_, _, rfl⟩ := Option.map_eq_some_iff.1 hy
    exact hab (Prod.mk.inj e').2
  · refine List.Pairwise.imp ?_ hd
    intro a b hab x hx y hy e'
    obtain ⟨_, _, hx⟩ := List.mem_filterMap.1 hx
    obtain ⟨_, _, hy⟩ := List.mem_filterMap.1 hy
    obtain ⟨_, _, rfl⟩ := Option.map_eq_some_iff.1 hx
    obtain ⟨_, _, rfl⟩ := Option.map_eq_some_iff.1 hy
    have : a.1 = b.1 := (Prod.mk.inj e').1
    rw [this] at hab
    exact List.lt_irrefl _ hab

theorem gathered_length {st : VStore} {fields : List Bytes} {f : List Entry}
    (h : ∀ e ∈ f, ∀ x ∈ fields, (st.speed (e.1, x)).isSome = true) :
    (gathered st fields f).length = f.length * fields.length := by
  unfold gathered
  have inner : ∀ (e : Entry) (l : List Bytes), (∀ x ∈ l, (st.speed (e.1, x)).isSome = true) →
      (l.filterMap (fun x => (st.speed (e.1, x)).map (fun v => ((e.1, x), v)))).length = l.length := by
    intro e l
    induction l with
    | nil => intro _; rfl
    | cons x l ih =>
      intro hl
      obtain ⟨v, hv⟩ := Option.isSome_iff_exists.1 (hl x (by simp))
      rw [List.filterMap_cons, hv]
      simp [ih (fun y hy => hl y (by simp [hy]))]
  induction f with
  | nil => simp
  | cons e f ih =>
    rw [List.flatMap_cons, List.length_append, inner e fields (h e (by simp)), ih (fun y hy => h y (by simp [hy]))]
    simp [Nat.add_mul]
    omega

theorem gathered_one {st : VStore} {x : Bytes} {f : List Entry}
    (h : ∀ e ∈ f, (st.speed (e.1, x)).isSome = true) :
    (gathered st [x] f).map (·.1.1) = f.map (·.1) := by
  unfold gathered
  induction f with
  | nil => rfl
  | cons e f ih =>
    obtain ⟨v, hv⟩ := Option.isSome_iff_exists.1 (h e (by simp))
    rw [List.flatMap_cons, List.map_append, ih (fun y hy => h y (by simp [hy]))]
    simp [hv]

/-- What is taken of the vector family, of the others, and how the keys come out. -/
theorem backup_parts {fields : List Bytes} {st : VStore} (h : VInv fields st) (hn : fields.Nodup) {tso : Int}
    {start stop : Bytes} (hs : start ≠ []) {f : VFiles} (hb : vecBackup st fields tso start stop = some f) :
    ∃ ps : List Pick, (∀ p ∈ ps, p.Good ∧ p.r.enc ∈ st.data ∧ (p.r.enc.1, p.s.pkg) ∈ st.scalar ∧
        (p.r.enc.1, p.t.pkg) ∈ st.table) ∧
      f.data = ps.map (fun p => p.r.enc) ∧ f.scalar = ps.map (fun p => (p.r.enc.1, p.s.pkg)) ∧
      f.table = ps.map (fun p => (p.r.enc.1, p.t.pkg)) ∧
      f.data.Pairwise (fun a b => a.1 < b.1) ∧
      (∀ r, r ∈ ps.map (·.r) ↔ Mvcc.InRegion start stop r.key ∧ Mvcc.Newest st.data tso r.key r) ∧
      f.speed.Perm (gathered st fields f.data) ∧
      genKeys none f.speed = f.speed.map (·.1.1) ∧
      (fields.length = 1 → genKeys none f.speed = f.data.map (·.1)) := by
  obtain ⟨d, hd, hsorted, hmem⟩ := C105_backup h.wf tso (stop := stop) hs
  unfold vecBackup at hb
  rw [hd] at hb
  simp only [Option.map_some, Option.some.injEq] at hb
  subst hb
  obtain ⟨rs, hrs, hv, hp⟩ := h.wf.recs
  have hd' := backup_recs hv hp tso start stop
  rw [← hrs, hd] at hd'
  simp only [Option.some.injEq] at hd'
  generalize hl : picksR tso (rs.filter (inRange start stop)) [] false = l at hd'
  have hin : ∀ r ∈ l, r ∈ rs := fun r hr =>
    ((hl ▸ picksR_sublist tso _ [] false : l.Sublist (rs.filter (inRange start stop))).trans List.filter_sublist).subset hr
  have hst : ∀ r ∈ l, Stored st.data r := fun r hr => ⟨hv r (hin r hr), hrs ▸ List.mem_map.2 ⟨r, hin r hr, rfl⟩⟩
  obtain ⟨ps, e1, e2, e3, e4⟩ := picks_of h l hst
  have eps : d = ps.map (fun p => p.r.enc) := by rw [hd', ← e1, List.map_map]; rfl
  rw [← hd'] at e3 e4
  have mems : ∀ {fam : Store}, SortedStore fam → ∀ {g : Pick → Ver},
      d.filterMap (fun e => (sget fam e.1).map (fun v => (e.1, v))) = ps.map (fun p => (p.r.enc.1, (g p).pkg)) →
      ∀ p ∈ ps, (p.r.enc.1, (g p).pkg) ∈ fam := by
    intro fam hfam g he p hp
    have : (p.r.enc.1, (g p).pkg) ∈ d.filterMap (fun e => (sget fam e.1).map (fun v => (e.1, v))) := by
      rw [he]; exact List.mem_map.2 ⟨p, hp, rfl⟩
    obtain ⟨e, _, he⟩ := List.mem_filterMap.1 this
    obtain ⟨v, hv, he⟩ := Option.map_eq_some_iff.1 he
    rw [← he]
    exact (sget_iff hfam).1 hv
  have hgn := gathered_nodup (st := st) hn hsorted
  have hperm : ((gathered st fields d).foldl (fun m p => insSpeed p m) []).Perm (gathered st fields d) := by
    have := order_perm (gathered st fields d) [] hgn (by simp)
    simpa using this
  have hkeys := genKeys_nodup _ none ((hperm.map (·.1)).nodup_iff.2 hgn) (by nofun)
  refine ⟨ps, ?_, eps, e3, e4, hsorted, ?_, hperm, hkeys, ?_⟩
  · intro p hp
    have hpl : p.r ∈ l := e1 ▸ List.mem_map.2 ⟨p, hp, rfl⟩
    exact ⟨e2 p hp, (hst _ hpl).2, mems h.ss e3 p hp, mems h.ts e4 p hp⟩
  · intro r
    rw [e1, ← hl, mem_backup hp hs, inRange_iff, hrs, newestIn_iff hv]
    constructor
    · exact fun ⟨a, b⟩ => ⟨b, a, rfl⟩
    · exact fun ⟨a, b, _⟩ => ⟨b, a⟩
  · intro hone
    obtain ⟨x, hx⟩ := List.length_eq_one_iff.1 hone
    have hall : ∀ e ∈ d, (st.speed (e.1, x)).isSome = true := by
      intro e he
      rw [hd'] at he
      obtain ⟨r, hr, rfl⟩ := List.mem_map.1 he
      exact (h.whole r (hst r hr)).2.2 x (by rw [hx]; simp)
    have hg1 := gathered_one hall
    have hso : (gathered st fields d).Pairwise (fun a b => a.1.1 < b.1.1) := by
      have : ((gathered st fields d).map (·.1.1)).Pairwise (· < ·) := by
        rw [hx, hg1, List.pairwise_map]; exact hsorted
      rwa [List.pairwise_map] at this
    show genKeys none ((gathered st fields d).foldl (fun m p => insSpeed p m) []) = _
    rw [hkeys, order_sorted _ [] (by simpa using hso), List.nil_append, hx, hg1]

/-- C106: a backup of a vector region at `tso` does not abort; it holds the newest version at or
below `tso` of every vector of the region, with what the other families hold of that version. -/
theorem C106_backup {fields : List Bytes} (hn : fields.Nodup) {ops : List VOp} (hops : ∀ op ∈ ops, op.Valid)
    (tso : Int) {start stop : Bytes} (hs : start ≠ []) :
    let st := ops.foldl (vexec fields) {}
    ∃ f, vecBackup st fields tso start stop = some f ∧
      (∀ e, e ∈ f.data ↔ ∃ r, e = r.enc ∧ Mvcc.InRegion start stop r.key ∧ Mvcc.Newest st.data tso r.key r) ∧
      (∀ e, e ∈ f.scalar ↔ e ∈ st.scalar ∧ ∃ d ∈ f.data, d.1 = e.1) ∧
      (∀ e, e ∈ f.table ↔ e ∈ st.table ∧ ∃ d ∈ f.data, d.1 = e.1) ∧
      (∀ q, q ∈ f.speed ↔ st.speed q.1 = some q.2 ∧ q.1.2 ∈ fields ∧ ∃ d ∈ f.data, d.1 = q.1.1) ∧
      f.data.map (·.1) = f.scalar.map (·.1) ∧ f.data.map (·.1) = f.table.map (·.1) ∧
      ∀ d ∈ f.data, ∀ x ∈ fields, ∃ v, ((d.1, x), v) ∈ f.speed := by
  intro st
  have h : VInv fields st := (VInv.empty fields).run ops hops
  obtain ⟨d, hd, hsorted, hmem⟩ := C105_backup h.wf tso (stop := stop) hs
  have hfam : ∀ {fam : Store}, SortedStore fam → ∀ e,
      e ∈ d.filterMap (fun e => (sget fam e.1).map (fun v => (e.1, v))) ↔ e ∈ fam ∧ ∃ x ∈ d, x.1 = e.1 := by
    intro fam hfam e
    rw [List.mem_filterMap]
    constructor
    · rintro ⟨x, hx, he⟩
      obtain ⟨v, hv, rfl⟩ := Option.map_eq_some_iff.1 he
      exact ⟨(sget_iff hfam).1 hv, x, hx, rfl⟩
    · rintro ⟨he, x, hx, hk⟩
      refine ⟨x, hx, ?_⟩
      have : sget fam x.1 = some e.2 := (sget_iff hfam).2 (by rw [hk]; exact he)
      rw [this, hk]
      rfl
  obtain ⟨f, hf⟩ : ∃ f, vecBackup st fields tso start stop = some f := by
    unfold vecBackup; rw [hd]; exact ⟨_, rfl⟩
  obtain ⟨ps, hps, e1, e2, e3, -, -, hperm, -, -⟩ := backup_parts h hn hs hf
  have hf' := hf
  unfold vecBackup at hf'
  rw [hd] at hf'
  simp only [Option.map_some, Option.some.injEq] at hf'
  have ed : f.data = d := by rw [← hf']
  have es : f.scalar = d.filterMap (fun e => (sget st.scalar e.1).map (fun v => (e.1, v))) := by rw [← hf']
  have et : f.table = d.filterMap (fun e => (sget st.table e.1).map (fun v => (e.1, v))) := by rw [← hf']
  have hspeed : ∀ q, q ∈ f.speed ↔ st.speed q.1 = some q.2 ∧ q.1.2 ∈ fields ∧ ∃ d ∈ f.data, d.1 = q.1.1 := by
    intro q
    rw [hperm.mem_iff, mem_gathered]
  refine ⟨f, hf, ?_, ?_, ?_, hspeed, ?_, ?_, ?_⟩
  · intro e; rw [ed]; exact hmem e
  · intro e; rw [es, ed]; exact hfam h.ss e
  · intro e; rw [et, ed]; exact hfam h.ts e
  · rw [e1, e2, List.map_map, List.map_map]; rfl
  · rw [e1, e3, List.map_map, List.map_map]; rfl
  · intro e he x hx
    rw [ed] at he
    obtain ⟨r, rfl, _, hnew⟩ := (hmem e).1 he
    obtain ⟨v, hv⟩ := Option.isSome_iff_exists.1 ((h.whole r hnew.1).2.2 x hx)
    exact ⟨v, (hspeed _).2 ⟨hv, hx, r.enc, ed ▸ he, rfl⟩⟩

/-- C106: a restore of such a backup, all writes having succeeded and the values being of the right
format, writes every record of the backup once and in order, and gives the index exactly the
vectors that are not deleted at `tso`, in order of their keys, each with the scalar and table data
of that version. -/
theorem C106_restored {fields : List Bytes} (hn : fields.Nodup) {ops : List VOp} (hops : ∀ op ∈ ops, op.Valid)
    {tso : Int} {start stop : Bytes} (hs : start ≠ []) {st : VStore} (hst : st = ops.foldl (vexec fields) {})
    {f : VFiles} (hb : vecBackup st fields tso start stop = some f) {c : VConf}
    (hparse : ∀ k (v : Ver), v ≠ .del → (k, v.pkg) ∈ st.data ∨ (k, v.pkg) ∈ st.scalar ∨ (k, v.pkg) ∈ st.table →
      c.parses v.value = true)
    {res : List WRes} (hres : ∀ r ∈ res, r = .ok) :
    ∃ rs, vecRestore c f res = (.ok, rs) ∧ rs.flatMap VReq.datas = f.data ∧ rs.flatMap VReq.scalars = f.scalar ∧
      rs.flatMap VReq.tables = f.table ∧ rs.flatMap VReq.speeds = f.speed ∧
      (rs.flatMap VReq.vecs).Pairwise (fun a b => a.key < b.key) ∧
      ∀ v, v ∈ rs.flatMap VReq.vecs ↔ ∃ (r : Rec) (s t : Ver),
        Mvcc.InRegion start stop r.key ∧ Mvcc.Newest st.data tso r.key r ∧ r.ver ≠ .del ∧
        s.Valid ∧ (r.enc.1, s.pkg) ∈ st.scalar ∧ t.Valid ∧ (r.enc.1, t.pkg) ∈ st.table ∧
        v = ⟨r.enc.1, r.ver.value, some s.value, some t.value⟩ := by
  have h : VInv fields st := hst ▸ (VInv.empty fields).run ops hops
  obtain ⟨ps, hps, e1, e2, e3, hsorted, hmem, hperm, hkeys, hone⟩ := backup_parts h hn hs hb
  have hg : ∀ p ∈ ps, p.Good := fun p hp => (hps p hp).1
  have hf : ∀ p ∈ ps, p.Fits c := fun p hp =>
    ⟨fun hd => hparse _ _ hd (Or.inl (hps p hp).2.1), fun hd => hparse _ _ hd (Or.inr (Or.inl (hps p hp).2.2.1)),
      fun hd => hparse _ _ hd (Or.inr (Or.inr (hps p hp).2.2.2))⟩
  have hsk : (ps.map (fun p => p.r.enc.1)).Pairwise (· < ·) := by
    have := hsorted
    rw [e1, List.pairwise_map] at this
    rw [List.pairwise_map]
    exact this
  have hnd : (ps.map (fun p => p.r.enc.1)).Nodup :=
    List.Pairwise.imp (fun {a b} hab e => by rw [e] at hab; exact List.lt_irrefl _ hab) hsk
  have ho : (if f.data.length = f.scalar.length ∧ f.data.length = f.table.length ∧
      (f.data.length = (genKeys none f.speed).length ∨ (genKeys none f.speed).length = 0) then
      optimizePre c f (genKeys none f.speed) else pre c f (genKeys none f.speed)) = some (live ps) := by
    split
    · rename_i hc
      refine optimize_ok hg hf e1 e2 e3 ?_
      rcases hc.2.2 with hlen | h0
      · by_cases hz : f.data.length = 0
        · exact Or.inl (List.length_eq_zero_iff.1 (hlen ▸ hz))
        · refine Or.inr (hone ?_)
          have hall : ∀ e ∈ f.data, ∀ x ∈ fields, (st.speed (e.1, x)).isSome = true := by
            intro e he x hx
            rw [e1] at he
            obtain ⟨p, hp, rfl⟩ := List.mem_map.1 he
            exact (h.whole p.r ⟨(hg p hp).r, (hps p hp).2.1⟩).2.2 x hx
          have := gathered_length hall
          rw [← hperm.length_eq, ← List.length_map (f := fun q : SpeedKey × Bytes => q.1.1), ← hkeys, ← hlen] at this
          have h2 : f.data.length * 1 = f.data.length * fields.length := by rw [Nat.mul_one]; exact this
          exact (Nat.eq_of_mul_eq_mul_left (Nat.pos_of_ne_zero hz) h2).symm
      · exact Or.inl (List.length_eq_zero_iff.1 h0)
    · refine pre_ok hg hf e1 e2 e3 hnd ?_
      intro k hk
      rw [hkeys] at hk
      obtain ⟨q, hq, rfl⟩ := List.mem_map.1 hk
      obtain ⟨_, _, e, he, hek⟩ := mem_gathered.1 (hperm.mem_iff.1 hq)
      exact List.mem_map.2 ⟨e, he, hek⟩
  have hlive : (live ps).Pairwise (fun a b => a.key < b.key) := by
    unfold live
    rw [List.pairwise_filterMap]
    refine List.Pairwise.imp ?_ (List.pairwise_map.1 hsk)
    intro a b hab x hx y hy
    split at hx
    · cases hx
    · split at hy
      · cases hy
      · cases hx; cases hy; exact hab
  unfold vecRestore
  simp only
  rw [ho]
  refine ⟨_, sendAll_ok hres, ?_⟩
  have hz : ∀ {α β γ : Type} (g : List α → β) (k : β → List γ) (l : List (List α)), (∀ a, k (g a) = []) →
      (l.map g).flatMap k = [] := by
    intro α β γ g k l hk
    rw [List.flatMap_eq_nil_iff]
    intro x hx
    obtain ⟨a, _, rfl⟩ := List.mem_map.1 hx
    exact hk a
  have hi : ∀ {α β : Type} (g : List α → β) (k : β → List α) (l : List (List α)), (∀ a, k (g a) = a) →
      (l.map g).flatMap k = l.flatten := by
    intro α β g k l hk
    rw [List.flatMap_map]
    induction l with
    | nil => rfl
    | cons a l ih => rw [List.flatMap_cons, ih, hk]; rfl
  simp only [List.flatMap_append]
  rw [hz VReq.vectors VReq.datas _ (fun _ => rfl), hz VReq.scalar VReq.datas _ (fun _ => rfl),
    hz VReq.table VReq.datas _ (fun _ => rfl), hz VReq.speed VReq.datas _ (fun _ => rfl),
    hi VReq.data VReq.datas _ (fun _ => rfl),
    hz VReq.vectors VReq.scalars _ (fun _ => rfl), hz VReq.data VReq.scalars _ (fun _ => rfl),
    hz VReq.table VReq.scalars _ (fun _ => rfl), hz VReq.speed VReq.scalars _ (fun _ => rfl),
    hi VReq.scalar VReq.scalars _ (fun _ => rfl),
    hz VReq.vectors VReq.tables _ (fun _ => rfl), hz VReq.data VReq.tables _ (fun _ => rfl),
    hz VReq.scalar VReq.tables _ (fun _ => rfl), hz VReq.speed VReq.tables _ (fun _ => rfl),
    hi VReq.table VReq.tables _ (fun _ => rfl),
    hz VReq.vectors VReq.speeds _ (fun _ => rfl), hz VReq.data VReq.speeds _ (fun _ => rfl),
    hz VReq.scalar VReq.speeds _ (fun _ => rfl), hz VReq.table VReq.speeds _ (fun _ => rfl),
    hi VReq.speed VReq.speeds _ (fun _ => rfl),
    hz VReq.data VReq.vecs _ (fun _ => rfl), hz VReq.scalar VReq.vecs _ (fun _ => rfl),
    hz VReq.table VReq.vecs _ (fun _ => rfl), hz VReq.speed VReq.vecs _ (fun _ => rfl),
    hi VReq.vectors VReq.vecs _ (fun _ => rfl)]
  simp only [cut_flatten, List.nil_append, List.append_nil, true_and]
  refine ⟨hlive, ?_⟩
  intro v
  unfold live
  rw [List.mem_filterMap]
  constructor
  · rintro ⟨p, hp, hv⟩
    split at hv
    · cases hv
    · rename_i hd
      cases hv
      obtain ⟨a, b⟩ := (hmem p.r).1 (List.mem_map.2 ⟨p, hp, rfl⟩)
      exact ⟨p.r, p.s, p.t, a, b, hd, (hg p hp).s, (hps p hp).2.2.1, (hg p hp).t, (hps p hp).2.2.2, rfl⟩
  · rintro ⟨r, s, t, h1, h2, h3, hsv, h4, htv, h5, rfl⟩
    obtain ⟨p, hp, rfl⟩ := List.mem_map.1 ((hmem r).2 ⟨h1, h2⟩)
    refine ⟨p, hp, ?_⟩
    rw [if_neg h3]
    have uniq : ∀ {fam : Store}, SortedStore fam → ∀ {k : Bytes} {a b : Ver}, a.Valid → b.Valid →
        (k, a.pkg) ∈ fam → (k, b.pkg) ∈ fam → a = b := by
      intro fam hfam k a b ha hb' h1 h2
      have e : a.pkg = b.pkg := by
        have := (sget_iff hfam).2 h1
        rw [(sget_iff hfam).2 h2] at this
        exact (Option.some.inj this).symm
      exact pkg_inj ha hb' e
    rw [uniq h.ss (hg p hp).s hsv (hps p hp).2.2.1 h4, uniq h.ts (hg p hp).t htv (hps p hp).2.2.2 h5]

theorem speeds_applied (l : List (SpeedKey × Bytes)) (hn : (l.map (·.1)).Nodup) (m : SpeedKey → Option Bytes)
    (k : SpeedKey) : (∀ v, (k, v) ∈ l → (l.foldl (fun m p k => if k = p.1 then some p.2 else m k) m) k = some v) ∧
      (k ∉ l.map (·.1) → (l.foldl (fun m p k => if k = p.1 then some p.2 else m k) m) k = m k) := by
  induction l generalizing m with
  | nil => exact ⟨fun v hv => absurd hv (by simp), fun _ => rfl⟩
  | cons p l ih =>
    have hn' : p.1 ∉ l.map (·.1) ∧ (l.map (·.1)).Nodup := List.nodup_cons.1 hn
    obtain ⟨h1, h2⟩ := ih hn'.2 (fun k => if k = p.1 then some p.2 else m k)
    rw [List.foldl_cons]
    refine ⟨?_, ?_⟩
    · intro v hv
      rcases List.mem_cons.1 hv with rfl | hv
      · rw [h2 hn'.1, if_pos rfl]
      · exact h1 v hv
    · intro hk
      have hk' : k ≠ p.1 ∧ k ∉ l.map (·.1) := by
        constructor
        · rintro rfl; exact hk (by simp)
        · intro h; exact hk (by rw [List.map_cons]; exact List.mem_cons_of_mem _ h)
      rw [h2 hk'.2, if_neg hk'.1]

/-- C106: such a restore into an empty region makes a copy.  Reads of vectors at or above `tso` are
answered as by the original at `tso`; under the key of every version in the copy the other
families hold what the original holds there, and nothing under other keys. -/
theorem C106_copy {fields : List Bytes} (hn : fields.Nodup) {ops : List VOp} (hops : ∀ op ∈ ops, op.Valid)
    {tso : Int} (ht : 0 < tso) {start stop : Bytes} (hs : start ≠ []) {st : VStore}
    (hst : st = ops.foldl (vexec fields) {})
    {f : VFiles} (hb : vecBackup st fields tso start stop = some f) {c : VConf}
    (hparse : ∀ k (v : Ver), v ≠ .del → (k, v.pkg) ∈ st.data ∨ (k, v.pkg) ∈ st.scalar ∨ (k, v.pkg) ∈ st.table →
      c.parses v.value = true)
    {res : List WRes} (hres : ∀ r ∈ res, r = .ok) :
    let cp := applyV (vecRestore c f res).2 {}
    (∀ now ts, tso ≤ readTs ts →
      (∀ k, k ≠ [] → Mvcc.InRegion start stop k → kvGet cp.data now ts k = kvGet st.data now tso k) ∧
      (∀ a b, a ≠ [] → b ≠ [] → start ≤ a → b ≤ stop → kvScan cp.data now ts a b = kvScan st.data now tso a b)) ∧
    (∀ d ∈ cp.data, sget cp.scalar d.1 = sget st.scalar d.1 ∧ sget cp.table d.1 = sget st.table d.1 ∧
      ∀ x ∈ fields, cp.speed (d.1, x) = st.speed (d.1, x)) ∧
    (∀ k, k ∉ cp.data.map (·.1) → sget cp.scalar k = none ∧ sget cp.table k = none ∧ ∀ x, cp.speed (k, x) = none) := by
  intro cp
  obtain ⟨rs, hr, q1, q2, q3, q4, -, -⟩ := C106_restored hn hops hs hst hb hparse hres
  have h : VInv fields st := hst ▸ (VInv.empty fields).run ops hops
  obtain ⟨f', hf', -, -, -, m4, k1, k2, m5⟩ := C106_backup hn hops tso (stop := stop) hs
  have hff : f' = f := by
    rw [← hst, hb] at hf'
    exact (Option.some.inj hf').symm
  subst hff
  rw [← hst] at m4
  obtain ⟨ps, hps, e1, e2, e3, hsorted, hmem, hperm, hkeys, -⟩ := backup_parts h hn hs hb
  have hraw : rawBackup st.data tso start stop = some f'.data := by
    unfold vecBackup at hb
    cases hd : rawBackup st.data tso start stop with
    | none => rw [hd] at hb; cases hb
    | some d => rw [hd] at hb; cases hb; rfl
  have sorted_of : ∀ {l : List Entry}, f'.data.map (·.1) = l.map (·.1) → l.Pairwise (fun a b => a.1 < b.1) := by
    intro l hl
    have : (l.map (·.1)).Pairwise (· < ·) := by rw [← hl, List.pairwise_map]; exact hsorted
    rwa [List.pairwise_map] at this
  have d1 : cp.data = f'.data := by
    show batchPut [] ((vecRestore c f' res).2.flatMap VReq.datas) = _
    rw [hr, q1]; exact batchPut_empty hsorted
  have d2 : cp.scalar = f'.scalar := by
    show batchPut [] ((vecRestore c f' res).2.flatMap VReq.scalars) = _
    rw [hr, q2]; exact batchPut_empty (sorted_of k1)
  have d3 : cp.table = f'.table := by
    show batchPut [] ((vecRestore c f' res).2.flatMap VReq.tables) = _
    rw [hr, q3]; exact batchPut_empty (sorted_of k2)
  have d4 : cp.speed = f'.speed.foldl (fun m p k => if k = p.1 then some p.2 else m k) (fun _ => none) := by
    show ((vecRestore c f' res).2.flatMap VReq.speeds).foldl _ _ = _
    rw [hr, q4]
  have hnd : (f'.speed.map (·.1)).Nodup := (hperm.map (·.1)).nodup_iff.2 (gathered_nodup hn hsorted)
  refine ⟨?_, ?_, ?_⟩
  · intro now ts hts
    let c0 : RawConf := ⟨0, 0, fun _ => true, fun _ => 0, fun _ => 0⟩
    obtain ⟨rs', g1, _, g2⟩ := C105_restored h.wf ht hs hraw c0 (res := []) (by simp)
    have : applyKvs rs' [] = cp.data := by
      have e : (restoreStore c0 f'.data []).2 = rs' := by rw [g1]
      rw [← e]
      unfold restoreStore
      rw [sendAll_ok (by simp), applyKvs_flatten, cut_flatten, List.nil_append, d1]
      exact batchPut_empty hsorted
    rw [this] at g2
    obtain ⟨g3, _, g4⟩ := g2 now ts hts
    exact ⟨g3, fun a b ha hb h1 h2 => (g4 a b ha hb h1 h2).1⟩
  · intro d hd
    rw [d1] at hd
    have hd' := hd
    rw [e1] at hd'
    obtain ⟨p, hp, rfl⟩ := List.mem_map.1 hd'
    refine ⟨?_, ?_, ?_⟩
    · rw [d2, (sget_iff h.ss).2 (hps p hp).2.2.1]
      exact (sget_iff (sorted_of k1)).2 (e2 ▸ List.mem_map.2 ⟨p, hp, rfl⟩)
    · rw [d3, (sget_iff h.ts).2 (hps p hp).2.2.2]
      exact (sget_iff (sorted_of k2)).2 (e3 ▸ List.mem_map.2 ⟨p, hp, rfl⟩)
    · intro x hx
      obtain ⟨v, hv⟩ := m5 _ hd x hx
      rw [d4, (speeds_applied _ hnd _ _).1 v hv]
      exact ((m4 _).1 hv).1.symm
  · intro k hk
    rw [d1] at hk
    have none_of : ∀ {l : List Entry}, f'.data.map (·.1) = l.map (·.1) → sget l k = none := by
      intro l hl
      cases hg : sget l k with
      | none => rfl
      | some v => exact absurd (hl ▸ List.mem_map.2 ⟨(k, v), (sget_iff (sorted_of hl)).1 hg, rfl⟩) hk
    refine ⟨d2 ▸ none_of k1, d3 ▸ none_of k2, ?_⟩
    intro x
    rw [d4, (speeds_applied _ hnd _ _).2]
    intro hmem'
    obtain ⟨q, hq, e⟩ := List.mem_map.1 hmem'
    obtain ⟨_, _, d, hd, hdk⟩ := (m4 q).1 hq
    have e' : q.1 = (k, x) := e
    exact hk (List.mem_map.2 ⟨d, hd, by rw [hdk, e']⟩)

end Verif.RawBackup
