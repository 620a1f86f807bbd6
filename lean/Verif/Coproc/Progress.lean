import Verif.Coproc.Answers

/-!
# When a scan with aggregates answers: rows, groups and pages
-/

namespace Verif.Coproc
open Verif.Codec Verif.Txn Verif.Scan

variable {F : Type}

/-! ## What was opened -/

theorem plan_types {q : Req} {p : Plan} (hw : WellFormed q) (h : openReq q = .ok p) (hgr : p.group = true) :
    (∀ (i : Nat) (k : Int), q.groupBy[i]? = some k → p.keyTys[i]? = colTy q k.toNat) ∧
    (q.ops ≠ [] → ∃ os, p.opTys = some os ∧
      ∀ (j : Nat) (o : Op × Int), q.ops[j]? = some o → os[j]? = colTy q (colOf q o.2)) ∧
    p.result = q.result.map (·.ty) ∧ p.sorted = (sortCols q.result).map (·.ty) := by
  have hq := ((openReq_group h).1 hgr).1
  have hop := opened h hgr
  obtain ⟨oi, si, ks, os, _, hoi, hsi, hg, hr⟩ := openReq_steps h
  obtain ⟨h1, h2, h3, h4, h5, h6⟩ := initGroupBy_steps hg
  obtain ⟨st, _, hst, _, hp, _⟩ := openResult_steps hr
  obtain ⟨hl, _⟩ := selIndexes_len hoi hsi
  refine ⟨?_, ?_, by rw [hp], ?_⟩
  · intro i k hk
    have hb : q.groupBy ≠ [] := by intro hb; rw [hb] at hk; simp at hk
    rw [hp]
    exact create_get hw hoi hsi hq (h3 hb) i k hk (hop.valid k (List.mem_of_getElem? hk))
  · intro hops
    obtain ⟨l, hl', hc⟩ := h6 hops
    refine ⟨l, by rw [hp]; exact hl', ?_⟩
    intro j o hj
    have hcol : (opCol (width q) o.2).toNat = colOf q o.2 := by
      unfold opCol colOf
      split
      · rw [if_neg (by omega)]; rfl
      · rw [if_pos (by omega)]
    rw [← hcol]
    refine create_get hw hoi hsi hq hc j (opCol (width q) o.2) (by simp [hj, hl]) ?_
    have hpos : 0 < width q := by
      unfold width
      split
      · exact List.length_pos_iff.2 hq
      · rename_i hs
        exact List.length_pos_iff.2 hs
    unfold opCol
    split <;> omega
  · rw [hp]
    simp only
    apply List.ext_getElem?
    intro i
    obtain ⟨m1, m2⟩ := mapE_ok hst
    cases hi : (sortCols q.result)[i]? with
    | none =>
      rw [List.getElem?_map, hi]
      have := List.getElem?_eq_none_iff.1 hi
      rw [List.getElem?_eq_none_iff.2 (by omega)]; rfl
    | some c =>
      obtain ⟨b, hb, hbi⟩ := m2 i c hi
      rw [List.getElem?_map, hi, hbi]
      unfold cloneTy at hb
      split at hb
      · cases hb
      · rw [← Except.ok.inj hb]; rfl

theorem sortCols_id : ∀ {l : List Col}, l.Pairwise (fun a b => a.index < b.index) → sortCols l = l
  | [], _ => rfl
  | c :: l, h => by
    rw [List.pairwise_cons] at h
    rw [sortCols, sortCols_id h.2]
    cases l with
    | nil => rfl
    | cons d l =>
      unfold insCol
      rw [if_pos (h.1 d List.mem_cons_self)]

theorem inOrder_sorted {q : Req} (h : Fits q) : sortCols q.result = q.result := by
  apply sortCols_id
  rw [List.pairwise_iff_getElem]
  intro i j hi hj hij
  have h1 := h.inOrder i q.result[i] (by simp [hi])
  have h2 := h.inOrder j q.result[j] (by simp [hj])
  omega

theorem openFns_total {os rs : List Ty} {st : Int} : ∀ {ops : List (Op × Int)} {i : Nat},
    (∀ (j : Nat) o, ops[j]? = some o → ∃ pt rt f, idx os ((i + j : Nat) : Int) = .ok pt ∧
      idx rs (((i + j : Nat) : Int) + st) = .ok rt ∧ addFn o.1 o.2 pt rt = .ok f) →
    ∃ fs, openFns os rs st ops i = .ok fs
  | [], i, _ => ⟨[], rfl⟩
  | o :: ops, i, h => by
    obtain ⟨pt, rt, f, h1, h2, h3⟩ := h 0 o rfl
    obtain ⟨fs, hfs⟩ := openFns_total (ops := ops) (i := i + 1) (fun j o' ho => by
      obtain ⟨pt, rt, f, h4, h5, h6⟩ := h (j + 1) o' (by simpa using ho)
      rw [show i + (j + 1) = i + 1 + j by omega] at h4 h5
      exact ⟨pt, rt, f, h4, h5, h6⟩)
    simp only [Nat.add_zero] at h1 h2
    simp only [openFns, h1, h2, h3, hfs]
    exact ⟨_, rfl⟩

/-- What a suitable request is opened with. -/
structure Ready (e : Env F) (q : Req) (p : Plan) : Prop where
  op : Opened q p
  keyTys : ∀ (i : Nat) (k : Int), q.groupBy[i]? = some k → p.keyTys[i]? = colTy q k.toNat
  opTys : ∃ os, p.opTys = some os ∧
    ∀ (j : Nat) (o : Op × Int), q.ops[j]? = some o → os[j]? = colTy q (colOf q o.2)
  result : p.result = q.result.map (·.ty)
  sorted : p.sorted = q.result.map (·.ty)
  mgr : ∃ mg, openMgr (F := F) p q.ops = .ok mg
  agg : ∃ init, openAgg e p q.ops = .ok init

theorem ready {e : Env F} {q : Req} {p : Plan} (hw : WellFormed q) (hf : Fits q) (h : openReq q = .ok p)
    (hgr : p.group = true) : Ready e q p := by
  have hop := opened h hgr
  obtain ⟨h1, h2, h3, h4⟩ := plan_types hw h hgr
  obtain ⟨os, hos, hot⟩ := h2 hf.any
  have hol := hop.ops os hos
  have hrl := hop.result
  have hat : ∀ (j : Nat) o, q.ops[j]? = some o → ∃ t r, os[j]? = some t ∧
      p.result[q.groupBy.length + j]? = some r ∧ Suits o.1 t r := by
    intro j o hj
    obtain ⟨t, c, hc1, hc2, hc3⟩ := hf.aggs j o hj
    refine ⟨t, c.ty, by rw [hot j o hj, hc1], ?_, hc3⟩
    rw [h3, List.getElem?_map, hc2]; rfl
  refine ⟨hop, h1, ⟨os, hos, hot⟩, h3, by rw [h4, inOrder_sorted hf], ?_, ?_⟩
  · obtain ⟨fs, hfs⟩ := openFns_total (os := os) (rs := p.result) (st := (p.result.length : Int) - q.ops.length)
      (ops := q.ops) (i := 0) (fun j o hj => by
        obtain ⟨t, r, ht, hr, hs⟩ := hat j o hj
        obtain ⟨_, _, f, hadd⟩ := addFn_total (ix := o.2) hs
        refine ⟨t, r, f, ?_, ?_, hadd⟩
        · rw [Nat.zero_add]; exact idx_some (by omega) (by simpa using ht)
        · refine idx_some (by omega) ?_
          rw [← hr]
          congr 1
          omega)
    unfold openMgr
    rw [hos]
    simp only [Option.getD]
    rw [hfs]
    exact ⟨_, rfl⟩
  · unfold openAgg
    rw [hos]
    simp only
    rw [if_neg (by omega)]
    apply mapE_total
    rintro ⟨o, r⟩ hm
    obtain ⟨j, hj⟩ := List.getElem?_of_mem hm
    rw [List.getElem?_zip_eq_some] at hj
    obtain ⟨t, r', _, hr, hs⟩ := hat j o hj.1
    have hrr : r' = r := by
      have := hj.2
      rw [List.getElem?_drop, show p.result.length - os.length + j = q.groupBy.length + j by omega, hr] at this
      exact Option.some.inj this
    obtain ⟨_, hpl, _⟩ := addFn_total (ix := o.2) hs
    rw [hrr] at hpl
    exact initCell_total e o.1 hpl

/-! ## A row -/

theorem pick_total {r : List (Cell F)} : ∀ {is : List Int} {ts : List Ty},
    (∀ (i : Nat) (k : Int), is[i]? = some k → 0 ≤ k ∧ ∃ c, r[k.toNat]? = some c ∧ ts[i]? = some c.ty) →
    ∃ cs, pick r is ts = .ok cs
  | [], ts, _ => ⟨[], rfl⟩
  | k :: is, ts, h => by
    obtain ⟨h0, c, hc, ht⟩ := h 0 k rfl
    cases ts with
    | nil => simp at ht
    | cons t ts =>
      simp only [List.getElem?_cons_zero, Option.some.injEq] at ht
      obtain ⟨cs, hcs⟩ := pick_total (is := is) (ts := ts) (fun i k' hk => by
        obtain ⟨h1, c', h2, h3⟩ := h (i + 1) k' (by simpa using hk)
        exact ⟨h1, c', h2, by simpa using h3⟩)
      simp only [pick, idx_some h0 hc, clone, ht, if_true, hcs]
      exact ⟨_, rfl⟩

theorem execAgg_total {e : Env F} : ∀ {fs : List Fn} {vs rs : List (Cell F)},
    (∀ (j : Nat) v, vs[j]? = some v → ∃ f r r', fs[j]? = some f ∧ rs[j]? = some r ∧ f.apply e v r = .ok r') →
    ∃ rs', execAgg e fs vs rs = .ok rs'
  | fs, [], rs, _ => ⟨rs, by simp only [execAgg]⟩
  | fs, v :: vs, rs, h => by
    obtain ⟨f, r, r', h1, h2, h3⟩ := h 0 v rfl
    cases fs with
    | nil => simp at h1
    | cons f' fs =>
      cases rs with
      | nil => simp at h2
      | cons r0 rs =>
        simp only [List.getElem?_cons_zero, Option.some.injEq] at h1 h2
        subst h1; subst h2
        obtain ⟨rs', hrs⟩ := execAgg_total (fs := fs) (vs := vs) (rs := rs) (fun j v' hv => by
          obtain ⟨f, r, r', h4, h5, h6⟩ := h (j + 1) v' (by simpa using hv)
          exact ⟨f, r, r', by simpa using h4, by simpa using h5, h6⟩)
        simp only [execAgg, h3, hrs]
        exact ⟨_, rfl⟩

/-- A row has the selected columns, with their types. -/
def Typed (q : Req) (r : List (Cell F)) : Prop := ∀ i, i < width q → ∃ c, r[i]? = some c ∧ colTy q i = some c.ty

theorem colOf_lt {q : Req} (hq : 0 < width q) (i : Int) : colOf q i < width q := by
  unfold colOf
  split <;> omega

theorem aggRow_total {e : Env F} {q : Req} {p : Plan} (hr : Ready e q p) (hq : 0 < width q) {all recs : List (List (Cell F))}
    {r : List (Cell F)} (hall : (recs ++ [r]).Sublist all) {m : Option (Mgr F)} (hi : GInv e q p recs m)
    (ht : Typed q r) (hkey : q.groupBy ≠ [] → ∃ b, e.encKey (keyOf q r) = some b)
    (h32 : ∀ o ∈ q.ops, o.1 = .sum ∨ o.1 = .sum0 → colTy q (colOf q o.2) = some .int →
      ((column (colOf q o.2) all).map magnitude).sum ≤ 2147483647)
    (h64 : ∀ o ∈ q.ops, o.1 = .sum ∨ o.1 = .sum0 → colTy q (colOf q o.2) = some .long →
      ((column (colOf q o.2) all).map magnitude).sum ≤ 9223372036854775807)
    (hmany : all.length < 9223372036854775807) : ∃ mg, aggRow e q p m r = .ok mg := by
  obtain ⟨os, hos, hot⟩ := hr.opTys
  obtain ⟨mg0, hmg0⟩ := hr.mgr
  obtain ⟨init, hinit⟩ := hr.agg
  obtain ⟨hge, hfl, hil, hag⟩ := open_agree hr.op hmg0 hinit
  obtain ⟨ks, hks⟩ := pick_total (r := r) (is := q.groupBy) (ts := p.keyTys) (fun i k hk => by
    obtain ⟨h1, h2⟩ := hr.op.valid k (List.mem_of_getElem? hk)
    obtain ⟨c, hc, hct⟩ := ht k.toNat (by omega)
    exact ⟨h1, c, hc, by rw [hr.keyTys i k hk, hct]⟩)
  have hcolt : ∀ o : Op × Int, (opCol p.nsel o.2).toNat = colOf q o.2 ∧ 0 ≤ opCol p.nsel o.2 := by
    intro o
    rw [hr.op.nsel]
    refine ⟨opCol_colOf q o.2, ?_⟩
    unfold opCol
    split <;> omega
  obtain ⟨vs, hvs⟩ := pick_total (r := r) (is := q.ops.map (fun o => opCol p.nsel o.2)) (ts := p.opTys.getD [])
    (fun i k hk => by
      rw [List.getElem?_map, Option.map_eq_some_iff] at hk
      obtain ⟨o, ho, rfl⟩ := hk
      obtain ⟨c, hc, hct⟩ := ht (colOf q o.2) (colOf_lt hq _)
      refine ⟨(hcolt o).2, c, by rw [(hcolt o).1]; exact hc, ?_⟩
      rw [hos]
      simp only [Option.getD]
      rw [hot i o ho, hct])
  have hkk := (pick_ok hks).1
  have hgk : ∃ b, groupKey e p ks = .ok b := by
    unfold groupKey
    split
    · exact ⟨[], rfl⟩
    · rename_i hn
      obtain ⟨b, hb⟩ := hkey (by
        intro hx
        apply hn
        have := hr.op.keys
        rw [hx] at this
        exact List.length_eq_zero_iff.1 this)
      have : ks = keyOf q r := hkk
      rw [this, hb]
      exact ⟨b, rfl⟩
  obtain ⟨b, hb⟩ := hgk
  have hmg : ∃ mg, orElse m (openMgr p q.ops) = .ok mg ∧ mg.fns = mg0.fns ∧
      (∀ b a, mg.groups.get b = some a → ∃ init, openAgg e p q.ops = .ok init ∧
        Done e q mg.fns init (rowsAt e q recs b) a) ∧
      (∀ b, mg.groups.get b = none → rowsAt e q recs b = []) := by
    cases hm : m with
    | none =>
      refine ⟨mg0, hmg0, rfl, ?_, ?_⟩
      · intro b a hx
        rw [hge, CF.get_empty] at hx
        cases hx
      · intro b _
        rw [hi.non.1 hm]; rfl
    | some mg =>
      obtain ⟨mg1, h1, h2⟩ := hi.fns mg hm
      rw [hmg0] at h1
      cases Except.ok.inj h1
      exact ⟨mg, rfl, h2.symm, fun b a hx => (hi.present mg b a hm hx).2, fun b hx => hi.absent mg b hm hx⟩
  obtain ⟨mg, hmgo, hfn, hpres, habs⟩ := hmg
  have ha : ∃ a, orElse (mg.groups.get b) (openAgg e p q.ops) = .ok a ∧
      Done e q mg.fns init (rowsAt e q recs b) a := by
    cases hg : mg.groups.get b with
    | none =>
      refine ⟨init, hinit, ?_⟩
      rw [habs b hg]
      exact ⟨hil, fun j o f i _ _ hij => ⟨i, hij, rfl⟩⟩
    | some a =>
      obtain ⟨init', h1, h2⟩ := hpres b a hg
      rw [hinit] at h1
      cases Except.ok.inj h1
      exact ⟨a, rfl, h2⟩
  obtain ⟨a, hao, hdone⟩ := ha
  have hfull : Full q r := by
    intro o ho
    obtain ⟨c, hc, _⟩ := ht (colOf q o.2) (colOf_lt hq _)
    exact ⟨c, hc⟩
  have hvals : vs = valsOf q r := by
    rw [(pick_ok hvs).1, List.filterMap_map]
    unfold valsOf
    congr 1
    funext o
    simp only [Function.comp, (hcolt o).1]
  obtain ⟨hvl, hvg⟩ := valsOf_full hfull
  have hsub : (rowsAt e q recs b ++ [r]).Sublist all :=
    (List.Sublist.append List.filter_sublist (List.Sublist.refl [r])).trans hall
  have hex : ∃ a', execAgg e mg.fns vs a = .ok a' := by
    apply execAgg_total
    intro j v hv
    rw [hvals] at hv
    have hjl : j < q.ops.length := by
      rw [← hvl]; exact (List.getElem?_eq_some_iff.1 hv).1
    have ho : q.ops[j]? = some q.ops[j] := by simp [hjl]
    generalize q.ops[j] = o at ho
    obtain ⟨f, i, pt, rt, h1, h2, h3, h4, h5, h6⟩ := hag j o ho
    rw [← hfn] at h1
    obtain ⟨c, hc, hrun⟩ := hdone.2 j o f i ho h1 h2
    rw [hvg j o ho] at hv
    obtain ⟨v', hv', hvt⟩ := ht (colOf q o.2) (colOf_lt hq _)
    rw [hv] at hv'
    cases Option.some.inj hv'
    have hpt : pt = v.ty := by
      rw [hos] at h5
      simp only [Option.getD] at h5
      rw [hot j o ho, hvt] at h5
      exact (Option.some.inj h5).symm
    have hcol : column (colOf q o.2) (rowsAt e q recs b ++ [r]) = column (colOf q o.2) (rowsAt e q recs b) ++ [v] :=
      column_append _ _ _ _ hv
    have hom := List.mem_of_getElem? ho
    have hmono := column_sublist hsub (colOf q o.2)
    rw [hcol] at hmono
    obtain ⟨c', hc'⟩ := apply_total h3 h4 hrun hpt.symm (by
      have h7 := column_length (colOf q o.2) (rowsAt e q recs b)
      have h8 := hsub.length_le
      simp only [List.length_append, List.length_cons, List.length_nil] at h8
      omega) (fun hs hint => Nat.le_trans hmono (h32 o hom hs (by rw [hvt, ← hpt, hint])))
      (fun hs hint => Nat.le_trans hmono (h64 o hom hs (by rw [hvt, ← hpt, hint])))
    exact ⟨f, c, c', h1, hc, hc'⟩
  obtain ⟨a', ha'⟩ := hex
  unfold aggRow
  simp only [hks, hvs, hb, hmgo, Mgr.exec, hao, ha']
  exact ⟨_, rfl⟩

/-! ## All the rows -/

theorem foldRec_total {e : Env F} {q : Req} {p : Plan} (hr : Ready e q p) (hq : 0 < width q)
    {all : List (List (Cell F))} (ht : ∀ r ∈ all, Typed q r)
    (hkey : q.groupBy ≠ [] → ∀ r ∈ all, ∃ b, e.encKey (keyOf q r) = some b)
    (h32 : ∀ o ∈ q.ops, o.1 = .sum ∨ o.1 = .sum0 → colTy q (colOf q o.2) = some .int →
      ((column (colOf q o.2) all).map magnitude).sum ≤ 2147483647)
    (h64 : ∀ o ∈ q.ops, o.1 = .sum ∨ o.1 = .sum0 → colTy q (colOf q o.2) = some .long →
      ((column (colOf q o.2) all).map magnitude).sum ≤ 9223372036854775807)
    (hmany : all.length < 9223372036854775807) :
    ∀ {rest done : List (List (Cell F))} {m : Option (Mgr F)}, all = done ++ rest → GInv e q p done m →
      ∃ m', foldRec e q p m rest = .ok m'
  | [], done, m, _, _ => ⟨m, rfl⟩
  | r :: rest, done, m, ha, hi => by
    have hr' : r ∈ all := by rw [ha]; simp
    obtain ⟨mg, hmg⟩ := aggRow_total (all := all) (recs := done) (r := r) hr hq (by
      rw [ha, show done ++ r :: rest = (done ++ [r]) ++ rest by simp]
      exact List.sublist_append_left _ _) hi (ht r hr') (fun hg => hkey hg r hr') h32 h64 hmany
    simp only [foldRec, hmg]
    exact foldRec_total hr hq ht hkey h32 h64 hmany (rest := rest) (done := done ++ [r]) (by rw [ha]; simp)
      (aggRow_inv hr.op hi hmg)

/-- The rows can be read. -/
def CanRead (e : Env F) (q : Req) (rows : List KV) : Prop :=
  ∀ kv ∈ rows, ∃ r, e.decode kv = some r ∧ (q.expr = true → ∃ b, e.keep r = some b)

theorem readRow_total {e : Env F} {q : Req} {kv : KV} {r : List (Cell F)} (hd : e.decode kv = some r)
    (hk : q.expr = true → ∃ b, e.keep r = some b) : ∃ o, readRow e q kv = .ok o := by
  unfold readRow
  rw [hd]
  simp only
  split
  · rename_i hx
    obtain ⟨b, hb⟩ := hk hx
    rw [hb]
    cases b <;> exact ⟨_, rfl⟩
  · exact ⟨_, rfl⟩

theorem rowLoop_fold {e : Env F} {q : Req} {p : Plan} {l : Lim} (hg : p.group = true) :
    ∀ {rows : List KV} {cnt : Nat} {bytes : Int} {m m' : Option (Mgr F)}, CanRead e q rows →
      foldRec e q p m (kept e q rows) = .ok m' → rowLoop e q p l rows cnt bytes m = .ok ([], false, m', [])
  | [], cnt, bytes, m, m', _, h => by
    simp only [kept, List.filterMap_nil, foldRec, Except.ok.injEq] at h
    rw [rowLoop, h]
  | kv :: rows, cnt, bytes, m, m', hc, h => by
    obtain ⟨r, hd, hk⟩ := hc kv List.mem_cons_self
    obtain ⟨o, ho⟩ := readRow_total hd hk
    have hc' : CanRead e q rows := fun x hx => hc x (List.mem_cons_of_mem _ hx)
    rw [readRow_kept ho rows] at h
    simp only [rowLoop, doRow, ho]
    cases o with
    | none => exact rowLoop_fold hg hc' h
    | some r' =>
      simp only [Option.toList, List.singleton_append, foldRec] at h
      split at h
      · cases h
      · rename_i mg hmg
        simp only [hg, if_true, hmg]
        exact rowLoop_fold hg hc' h

theorem castAll_total : ∀ {cs : List (Cell F)} {ts : List Ty}, cs.map Cell.ty = ts → castAll cs ts = .ok cs
  | [], ts, _ => by simp [castAll]
  | c :: cs, ts, h => by
    subst h
    simp only [List.map_cons, castAll, clone, if_true, castAll_total rfl]

theorem emit_total {e : Env F} {q : Req} {p : Plan} (hr : Ready e q p) (hc : KeyCodec e) (hf : Fits q)
    (hres : ∀ r : List (Cell F), r.map Cell.ty = q.result.map (·.ty) → ∃ kv, e.encRow r = .kv kv)
    {recs : List (List (Cell F))} (ht : ∀ r ∈ recs, Typed q r) {mg : Mgr F} (hi : GInv e q p recs (some mg))
    {g : Bytes × List (Cell F)} (hg : g ∈ mg.groups.l) : ∃ kv, emit e p g = .ok kv := by
  obtain ⟨r, hrm, hkb, hkr, hdr⟩ := groups_keys hc hi hg
  obtain ⟨hkl, _⟩ := hi.rows r hrm
  have hget : mg.groups.get g.1 = some g.2 := (CF.mem_iff_get _ _ _).1 hg
  obtain ⟨_, init, hinit, hdone⟩ := hi.present mg g.1 g.2 rfl hget
  obtain ⟨mg0, hmg0, hfn⟩ := hi.fns mg rfl
  obtain ⟨_, _, _, hag⟩ := open_agree hr.op hmg0 hinit
  have hks : (if p.keyTys = [] then some [] else e.decKey g.1) = some (keyOf q r) := by
    have hk : p.keyTys = [] ↔ q.groupBy = [] := by
      have := hr.op.keys
      constructor
      · intro hx; rw [hx] at this; exact List.length_eq_zero_iff.1 this.symm
      · intro hx; rw [hx] at this; exact List.length_eq_zero_iff.1 this
    by_cases hx : q.groupBy = []
    · rw [if_pos (hk.2 hx)]
      simp [keyOf, hx]
    · rw [if_neg (fun hy => hx (hk.1 hy))]
      unfold kb at hkb
      rw [if_neg hx] at hkb
      exact hc _ _ hkb
  have hty : (keyOf q r ++ g.2).map Cell.ty = q.result.map (·.ty) := by
    apply List.ext_getElem?
    intro i
    have hrl := hr.op.result
    rw [hr.result, List.length_map] at hrl
    rw [List.getElem?_map, List.getElem?_map]
    by_cases h1 : i < q.groupBy.length
    · rw [List.getElem?_append_left (by omega)]
      have hk : q.groupBy[i]? = some q.groupBy[i] := by simp [h1]
      obtain ⟨c, hc1, hc2⟩ := hf.keys i _ hk
      obtain ⟨v1, v2⟩ := hr.op.valid _ (List.getElem_mem h1)
      obtain ⟨x, hx1, hx2⟩ := ht r hrm q.groupBy[i].toNat (by omega)
      have hki : (keyOf q r)[i]? = some x := by
        have hall : ∀ k ∈ q.groupBy, ∃ c, r[k.toNat]? = some c := by
          intro k hk
          obtain ⟨w1, w2⟩ := hr.op.valid k hk
          obtain ⟨y, hy, _⟩ := ht r hrm k.toNat (by omega)
          exact ⟨y, hy⟩
        unfold keyOf
        rw [(filterMap_full hall).2 i, hk]
        exact hx1
      rw [hki, hc1]
      simp only [Option.map_some]
      rw [hx2] at hc2
      exact hc2
    · by_cases h2 : i < q.groupBy.length + q.ops.length
      · rw [List.getElem?_append_right (by omega), hkl]
        have ho : q.ops[i - q.groupBy.length]? = some (q.ops[i - q.groupBy.length]'(by omega)) := by simp
        generalize q.ops[i - q.groupBy.length]'(by omega) = o at ho
        obtain ⟨f, i0, pt, rt, g1, g2, g3, g4, _, g6⟩ := hag _ o ho
        rw [hfn] at g1
        obtain ⟨c, hc1, hrun⟩ := hdone.2 _ o f i0 ho g1 g2
        rw [hc1]
        have hrt : c.ty = rt := by rw [runCol_ty hrun, initCell_ty g4]
        rw [show q.groupBy.length + (i - q.groupBy.length) = i by omega, hr.result, List.getElem?_map] at g6
        rw [g6, ← hrt]; rfl
      · have hal := hdone.1
        rw [List.getElem?_eq_none_iff.2 (by simp only [List.length_append]; omega),
          List.getElem?_eq_none_iff.2 (by omega)]
        rfl
  obtain ⟨kv, hkv⟩ := hres _ hty
  unfold emit
  rw [hks]
  simp only
  rw [castAll_total (by rw [hty, hr.sorted])]
  simp only [hkv]
  exact ⟨_, rfl⟩

theorem emitLoop_total {e : Env F} {p : Plan} {l : Lim} : ∀ {gs : List (Bytes × List (Cell F))} (_ : ∀ g ∈ gs,
    ∃ kv, emit e p g = .ok kv) (cnt : Nat) (bytes : Int), ∃ kvs gs', emitLoop e p l gs cnt bytes = .ok (kvs, gs') ∧
      ∀ g ∈ gs', g ∈ gs
  | [], _, cnt, bytes => ⟨[], [], rfl, fun _ h => h⟩
  | g :: gs, h, cnt, bytes => by
    obtain ⟨kv, hkv⟩ := h g List.mem_cons_self
    simp only [emitLoop, hkv]
    split
    · exact ⟨_, gs, rfl, fun x hx => List.mem_cons_of_mem _ hx⟩
    · obtain ⟨kvs, gs', h1, h2⟩ := emitLoop_total (e := e) (p := p) (l := l) (gs := gs)
        (fun x hx => h x (List.mem_cons_of_mem _ hx))
        (uptoLimit l.keyOnly l.maxCnt l.maxBytes cnt bytes (strip l kv)).2.1
        (uptoLimit l.keyOnly l.maxCnt l.maxBytes cnt bytes (strip l kv)).2.2
      rw [h1]
      exact ⟨_, gs', rfl, fun x hx => List.mem_cons_of_mem _ (h2 x hx)⟩

theorem pages_emit_total {e : Env F} {q : Req} {p : Plan} (hg : p.group = true) {mg : Option (Mgr F)}
    (hem : ∀ m, mg = some m → ∀ g ∈ m.groups.l, ∃ kv, emit e p g = .ok kv) : ∀ (ls : List Lim) (s : Ses F),
    s.rows = [] → s.mgr = mg → (∀ gs, s.it = some gs → ∀ g ∈ gs, ∃ kv, emit e p g = .ok kv) →
    ∃ out s', pages e q p ls s = .ok (out, s')
  | [], s, _, _, _ => ⟨[], s, rfl⟩
  | l :: ls, s, hr, hm, hit => by
    have hpage : ∃ kvs s', page e q p l s = .ok (kvs, s') ∧ s'.rows = [] ∧ s'.mgr = mg ∧
        ∀ gs, s'.it = some gs → ∀ g ∈ gs, ∃ kv, emit e p g = .ok kv := by
      unfold page
      rw [hr]
      simp only [rowLoop, hg, if_true]
      rw [hm]
      cases hmg : mg with
      | none => exact ⟨_, _, rfl, rfl, rfl, hit⟩
      | some m =>
        simp only
        have hall : ∀ g ∈ s.it.getD m.groups.l, ∃ kv, emit e p g = .ok kv := by
          cases hi : s.it with
          | none => exact hem m hmg
          | some gs => exact hit gs hi
        obtain ⟨kvs, gs', h1, h2⟩ := emitLoop_total (l := l) hall 0 0
        rw [h1]
        refine ⟨_, _, rfl, rfl, rfl, ?_⟩
        intro gs hgs g hgm
        simp only [Option.some.injEq] at hgs
        rw [← hgs] at hgm
        exact hall g (h2 g hgm)
    obtain ⟨kvs, s', h1, h2, h3, h4⟩ := hpage
    obtain ⟨out, s'', h5⟩ := pages_emit_total (q := q) hg hem ls s' h2 h3 h4
    simp only [pages, h1, h5]
    exact ⟨_, _, rfl⟩

theorem kept_decoded {e : Env F} {q : Req} {rows : List KV} {r : List (Cell F)} (h : r ∈ kept e q rows) :
    ∃ kv ∈ rows, e.decode kv = some r := by
  unfold kept at h
  obtain ⟨kv, hkv, hx⟩ := List.mem_filterMap.1 h
  refine ⟨kv, hkv, ?_⟩
  split at hx
  · cases hx
  · rename_i r' hr'
    split at hx
    · rw [hr', Option.some.inj hx]
    · cases hx

end Verif.Coproc
