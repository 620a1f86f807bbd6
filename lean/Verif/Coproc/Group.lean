import Verif.Coproc.Plan

/-!
# The map of groups after some rows
-/

namespace Verif.Coproc
open Verif.Codec Verif.Txn Verif.Scan

variable {F : Type}

/-! ## Columns of a row -/

theorem clone_ok {c c' : Cell F} {t : Ty} (h : clone c t = .ok c') : c' = c ∧ c.ty = t := by
  unfold clone at h
  split at h
  · rename_i ht
    exact ⟨(Except.ok.inj h).symm, ht⟩
  · cases h

theorem idx_ok {α : Type} {v : List α} {i : Int} {a : α} (h : idx v i = .ok a) : 0 ≤ i ∧ v[i.toNat]? = some a := by
  unfold idx at h
  split at h
  · cases h
  · split at h
    · rename_i h1 _ h2
      rw [← Except.ok.inj h]
      exact ⟨by omega, h2⟩
    · cases h

theorem pick_ok {r : List (Cell F)} : ∀ {is : List Int} {ts : List Ty} {cs : List (Cell F)},
    pick r is ts = .ok cs → cs = is.filterMap (fun i => r[i.toNat]?) ∧
      ∀ i ∈ is, ∃ c, r[i.toNat]? = some c
  | [], ts, cs, h => by
    simp only [pick, Except.ok.injEq] at h
    subst h
    exact ⟨rfl, by intro i hi; cases hi⟩
  | i :: is, ts, cs, h => by
    simp only [pick] at h
    split at h
    · cases h
    · rename_i c hc
      split at h
      · cases h
      · rename_i t ts'
        split at h
        · cases h
        · rename_i c' hcl
          split at h
          · cases h
          · rename_i cs' hp
            obtain ⟨h1, h2⟩ := pick_ok hp
            have hr := (idx_ok hc).2
            rw [(clone_ok hcl).1] at h
            refine ⟨?_, ?_⟩
            · rw [← Except.ok.inj h, h1, List.filterMap_cons, hr]
            · intro j hj
              rcases List.mem_cons.1 hj with rfl | hj
              · exact ⟨c, hr⟩
              · exact h2 j hj

/-- The key of a row's group in the map. -/
def kb (e : Env F) (q : Req) (r : List (Cell F)) : Option Bytes :=
  if q.groupBy = [] then some [] else e.encKey (keyOf q r)

/-- The values of a row that are aggregated. -/
def valsOf (q : Req) (r : List (Cell F)) : List (Cell F) := q.ops.filterMap (fun o => r[colOf q o.2]?)

/-- A row has the columns that are aggregated. -/
def Full (q : Req) (r : List (Cell F)) : Prop := ∀ o ∈ q.ops, ∃ c, r[colOf q o.2]? = some c

theorem opCol_colOf (q : Req) (i : Int) : (opCol (width q) i).toNat = colOf q i := by
  unfold opCol colOf
  split
  · rw [if_neg (by omega)]; rfl
  · rw [if_pos (by omega)]

theorem filterMap_full {α β : Type} {f : α → Option β} : ∀ {l : List α}, (∀ a ∈ l, ∃ b, f a = some b) →
    (l.filterMap f).length = l.length ∧ ∀ (j : Nat), (l.filterMap f)[j]? = l[j]?.bind f
  | [], _ => ⟨rfl, by intro j; simp⟩
  | a :: l, h => by
    obtain ⟨b, hb⟩ := h a List.mem_cons_self
    obtain ⟨h1, h2⟩ := filterMap_full (l := l) (fun x hx => h x (List.mem_cons_of_mem _ hx))
    rw [List.filterMap_cons, hb]
    refine ⟨by simp [h1], ?_⟩
    intro j
    cases j with
    | zero => simp [hb]
    | succ j => simp [h2 j]

theorem valsOf_full {q : Req} {r : List (Cell F)} (h : Full q r) : (valsOf q r).length = q.ops.length ∧
    ∀ (j : Nat) (o : Op × Int), q.ops[j]? = some o → (valsOf q r)[j]? = r[colOf q o.2]? := by
  obtain ⟨h1, h2⟩ := filterMap_full h
  refine ⟨h1, ?_⟩
  intro j o ho
  unfold valsOf
  rw [h2 j, ho]; rfl

theorem aggRow_ok {e : Env F} {q : Req} {p : Plan} (ho : Opened q p) {m : Option (Mgr F)} {r : List (Cell F)}
    {mg' : Mgr F} (h : aggRow e q p m r = .ok mg') : Full q r ∧
      (keyOf q r).length = q.groupBy.length ∧
      ∃ b mg, kb e q r = some b ∧ orElse m (openMgr p q.ops) = .ok mg ∧
        mg.exec e p q.ops b (valsOf q r) = .ok mg' := by
  unfold aggRow at h
  split at h
  · cases h
  · rename_i ks hks
    split at h
    · cases h
    · rename_i vs hvs
      split at h
      · cases h
      · rename_i key hkey
        split at h
        · cases h
        · rename_i mg hmg
          obtain ⟨hk1, hk2⟩ := pick_ok hks
          obtain ⟨hv1, hv2⟩ := pick_ok hvs
          rw [ho.nsel] at hv1 hv2
          have hvals : vs = valsOf q r := by
            rw [hv1, List.filterMap_map]
            unfold valsOf
            congr 1
            funext o
            simp only [Function.comp, opCol_colOf]
          have hfull : Full q r := by
            intro o hom
            obtain ⟨c, hc⟩ := hv2 (opCol (width q) o.2) (List.mem_map_of_mem hom)
            rw [opCol_colOf] at hc
            exact ⟨c, hc⟩
          refine ⟨hfull, (filterMap_full hk2).1, key, mg, ?_, hmg, by rw [← hvals]; exact h⟩
          unfold groupKey at hkey
          unfold kb
          split at hkey
          · rename_i hkt
            rw [if_pos, ← Except.ok.inj hkey]
            have := ho.keys
            rw [hkt] at this
            exact List.length_eq_zero_iff.1 this.symm
          · rename_i hkt
            rw [if_neg]
            · split at hkey
              · rename_i b hb
                rw [← Except.ok.inj hkey]
                rw [hk1] at hb
                exact hb
              · cases hkey
            · intro hn
              apply hkt
              have := ho.keys
              rw [hn] at this
              exact List.length_eq_zero_iff.1 this

theorem orElse_ok {α : Type} {a : Option α} {mk : Except Bad α} {x : α} (h : orElse a mk = .ok x) :
    a = some x ∨ (a = none ∧ mk = .ok x) := by
  unfold orElse at h
  split at h
  · left; rw [Except.ok.inj h]
  · right; exact ⟨rfl, h⟩

theorem exec_ok {e : Env F} {p : Plan} {ops : List (Op × Int)} {m m' : Mgr F} {key : Bytes} {vals : List (Cell F)}
    (h : m.exec e p ops key vals = .ok m') : ∃ a a', orElse (m.groups.get key) (openAgg e p ops) = .ok a ∧
      execAgg e m.fns vals a = .ok a' ∧ m' = ⟨m.fns, m.groups.put key a'⟩ := by
  unfold Mgr.exec at h
  split at h
  · cases h
  · rename_i a ha
    split at h
    · cases h
    · rename_i a' ha'
      exact ⟨a, a', ha, ha', (Except.ok.inj h).symm⟩

theorem execAgg_get {e : Env F} : ∀ {fs : List Fn} {vs rs rs' : List (Cell F)}, execAgg e fs vs rs = .ok rs' →
    rs'.length = rs.length ∧ ∀ (j : Nat) f v r, fs[j]? = some f → vs[j]? = some v → rs[j]? = some r →
      ∃ r', f.apply e v r = .ok r' ∧ rs'[j]? = some r'
  | fs, [], rs, rs', h => by
    simp only [execAgg, Except.ok.injEq] at h
    rw [h]
    exact ⟨rfl, by intro j f v r _ hv; simp at hv⟩
  | [], v :: vs, rs, rs', h => by simp [execAgg] at h
  | f :: fs, v :: vs, [], rs', h => by simp [execAgg] at h
  | f :: fs, v :: vs, r :: rs, rs', h => by
    simp only [execAgg] at h
    split at h
    · cases h
    · rename_i r' hr
      split at h
      · cases h
      · rename_i rs'' hrs
        obtain ⟨h1, h2⟩ := execAgg_get hrs
        rw [← Except.ok.inj h]
        refine ⟨by simp [h1], ?_⟩
        intro j f' v' c' hf hv hc
        cases j with
        | zero =>
          simp only [List.getElem?_cons_zero, Option.some.injEq] at hf hv hc
          subst hf; subst hv; subst hc
          exact ⟨r', hr, by simp⟩
        | succ j =>
          simp only [List.getElem?_cons_succ] at hf hv hc
          obtain ⟨x, h3, h4⟩ := h2 j f' v' c' hf hv hc
          exact ⟨x, h3, by simpa using h4⟩

theorem openFns_get {os rs : List Ty} {st : Int} : ∀ {ops : List (Op × Int)} {i : Nat} {fs : List Fn},
    openFns os rs st ops i = .ok fs → fs.length = ops.length ∧ ∀ (j : Nat) o, ops[j]? = some o →
      ∃ f pt rt, fs[j]? = some f ∧ idx os ((i + j : Nat) : Int) = .ok pt ∧
        idx rs (((i + j : Nat) : Int) + st) = .ok rt ∧ addFn o.1 o.2 pt rt = .ok f
  | [], i, fs, h => by
    simp only [openFns, Except.ok.injEq] at h
    subst h
    exact ⟨rfl, by intro j o ho; simp at ho⟩
  | o :: ops, i, fs, h => by
    simp only [openFns] at h
    split at h
    · cases h
    · rename_i pt hpt
      split at h
      · cases h
      · rename_i rt hrt
        split at h
        · cases h
        · rename_i f hf
          split at h
          · cases h
          · rename_i fs' hfs
            obtain ⟨h1, h2⟩ := openFns_get hfs
            rw [← Except.ok.inj h]
            refine ⟨by simp [h1], ?_⟩
            intro j o' ho
            cases j with
            | zero =>
              simp only [List.getElem?_cons_zero, Option.some.injEq] at ho
              subst ho
              exact ⟨f, pt, rt, by simp, hpt, hrt, hf⟩
            | succ j =>
              simp only [List.getElem?_cons_succ] at ho
              obtain ⟨f', pt', rt', h3, h4, h5, h6⟩ := h2 j o' ho
              refine ⟨f', pt', rt', by simpa using h3, ?_, ?_, h6⟩
              · rw [show i + (j + 1) = i + 1 + j by omega]; exact h4
              · rw [show i + (j + 1) = i + 1 + j by omega]; exact h5

/-- What a new group starts with, and the functions it is run through, fit the operators. -/
theorem open_agree {e : Env F} {q : Req} {p : Plan} (ho : Opened q p) {mg : Mgr F} {init : List (Cell F)}
    (hm : openMgr (F := F) p q.ops = .ok mg) (hi : openAgg e p q.ops = .ok init) :
    mg.groups = CF.empty ∧ mg.fns.length = q.ops.length ∧ init.length = q.ops.length ∧
    ∀ (j : Nat) o, q.ops[j]? = some o → ∃ f i pt rt, mg.fns[j]? = some f ∧ init[j]? = some i ∧
      addFn o.1 o.2 pt rt = .ok f ∧ initCell e o.1 rt = .ok i ∧ (p.opTys.getD [])[j]? = some pt ∧
      p.result[q.groupBy.length + j]? = some rt := by
  unfold openMgr at hm
  split at hm
  · cases hm
  · rename_i fs hfs
    rw [← Except.ok.inj hm]
    obtain ⟨hf1, hf2⟩ := openFns_get hfs
    unfold openAgg at hi
    split at hi
    · cases hi
    · rename_i os hos
      split at hi
      · cases hi
      · obtain ⟨hm1, hm2⟩ := mapE_ok hi
        have hol := ho.ops os hos
        have hres := ho.result
        have hdl : (p.result.drop (p.result.length - os.length)).length = q.ops.length := by
          rw [List.length_drop]; omega
        refine ⟨rfl, hf1, by rw [hm1, List.length_zip, hdl, Nat.min_self], ?_⟩
        intro j o hj
        obtain ⟨f, pt, rt, h3, h4, h5, h6⟩ := hf2 j o hj
        have hz : (q.ops.zip (p.result.drop (p.result.length - os.length)))[j]? = some (o, rt) := by
          rw [List.getElem?_zip_eq_some]
          refine ⟨hj, ?_⟩
          rw [List.getElem?_drop]
          have := (idx_ok h5).2
          rw [← this]
          congr 1
          simp only [Nat.zero_add]
          omega
        obtain ⟨i, h7, h8⟩ := hm2 j (o, rt) hz
        refine ⟨f, i, pt, rt, h3, h8, h6, h7, ?_, ?_⟩
        · have := (idx_ok h4).2
          simpa using this
        · have := (idx_ok h5).2
          rw [← this]
          congr 1
          omega

/-! ## The invariant -/

/-- The rows of the group with a key in the map. -/
def rowsAt (e : Env F) (q : Req) (recs : List (List (Cell F))) (b : Bytes) : List (List (Cell F)) :=
  recs.filter (fun r => decide (kb e q r = some b))

/-- The aggregates `a` are those of the rows. -/
def Done (e : Env F) (q : Req) (fns : List Fn) (init : List (Cell F)) (rows : List (List (Cell F)))
    (a : List (Cell F)) : Prop :=
  a.length = q.ops.length ∧ ∀ (j : Nat) o f i, q.ops[j]? = some o → fns[j]? = some f → init[j]? = some i →
    ∃ c, a[j]? = some c ∧ runCol e f i (column (colOf q o.2) rows) = .ok c

/-- The map of groups is that of the rows. -/
structure GInv (e : Env F) (q : Req) (p : Plan) (recs : List (List (Cell F))) (m : Option (Mgr F)) : Prop where
  non : m = none ↔ recs = []
  rows : ∀ r ∈ recs, (keyOf q r).length = q.groupBy.length ∧ ∃ b, kb e q r = some b
  fns : ∀ mg, m = some mg → ∃ mg0, openMgr (F := F) p q.ops = .ok mg0 ∧ mg0.fns = mg.fns
  absent : ∀ mg b, m = some mg → mg.groups.get b = none → rowsAt e q recs b = []
  present : ∀ mg b a, m = some mg → mg.groups.get b = some a → rowsAt e q recs b ≠ [] ∧
    ∃ init, openAgg e p q.ops = .ok init ∧ Done e q mg.fns init (rowsAt e q recs b) a

/-- Folding the rows that are kept into the map of groups. -/
def foldRec (e : Env F) (q : Req) (p : Plan) : Option (Mgr F) → List (List (Cell F)) → Except Bad (Option (Mgr F))
  | m, [] => .ok m
  | m, r :: rs =>
    match aggRow e q p m r with
    | .error x => .error x
    | .ok mg => foldRec e q p (some mg) rs

theorem rowsAt_append (e : Env F) (q : Req) (a : List (List (Cell F))) (r : List (Cell F)) (b : Bytes) :
    rowsAt e q (a ++ [r]) b = if kb e q r = some b then rowsAt e q a b ++ [r] else rowsAt e q a b := by
  unfold rowsAt
  rw [List.filter_append]
  by_cases h : kb e q r = some b <;> simp [h]

theorem column_append (i : Nat) (a : List (List (Cell F))) (r : List (Cell F)) (c : Cell F) (h : r[i]? = some c) :
    column i (a ++ [r]) = column i a ++ [c] := by
  unfold column
  rw [List.filterMap_append]
  simp [h]

theorem done_step {e : Env F} {q : Req} {fns : List Fn} {init a a' : List (Cell F)} {rows : List (List (Cell F))}
    {r : List (Cell F)} (hf : Full q r) (hfl : fns.length = q.ops.length) (h : Done e q fns init rows a)
    (hx : execAgg e fns (valsOf q r) a = .ok a') : Done e q fns init (rows ++ [r]) a' := by
  obtain ⟨h1, h2⟩ := execAgg_get hx
  obtain ⟨hl, hv⟩ := valsOf_full hf
  refine ⟨by rw [h1]; exact h.1, ?_⟩
  intro j o f i hj hfj hij
  obtain ⟨c, hc, hr⟩ := h.2 j o f i hj hfj hij
  obtain ⟨v, hvr⟩ := hf o (List.mem_of_getElem? hj)
  have hvj := hv j o hj
  rw [hvr] at hvj
  obtain ⟨c', h3, h4⟩ := h2 j f v c hfj hvj hc
  refine ⟨c', h4, ?_⟩
  rw [column_append _ _ _ _ hvr, runCol_append, hr]
  exact h3

theorem aggRow_inv {e : Env F} {q : Req} {p : Plan} (ho : Opened q p) {m : Option (Mgr F)} {r : List (Cell F)}
    {recs : List (List (Cell F))} {mg' : Mgr F} (hi : GInv e q p recs m) (h : aggRow e q p m r = .ok mg') :
    GInv e q p (recs ++ [r]) (some mg') := by
  obtain ⟨hfull, hkl, b, mg, hkb, hmg, hex⟩ := aggRow_ok ho h
  obtain ⟨a, a', ha, hxa, hmg'⟩ := exec_ok hex
  -- the manager before the row
  have hold : (∃ mg0, openMgr (F := F) p q.ops = .ok mg0 ∧ mg0.fns = mg.fns) ∧
      (∀ b, mg.groups.get b = none → rowsAt e q recs b = []) ∧
      (∀ b a, mg.groups.get b = some a → rowsAt e q recs b ≠ [] ∧
        ∃ init, openAgg e p q.ops = .ok init ∧ Done e q mg.fns init (rowsAt e q recs b) a) := by
    rcases orElse_ok hmg with hm | ⟨hm, hop⟩
    · exact ⟨hi.fns mg hm, fun b hb => hi.absent mg b hm hb, fun b a hb => hi.present mg b a hm hb⟩
    · have hr := hi.non.1 hm
      have he : mg.groups = CF.empty := by
        unfold openMgr at hop
        split at hop
        · cases hop
        · rw [← Except.ok.inj hop]
      refine ⟨⟨mg, hop, rfl⟩, ?_, ?_⟩
      · intro b _; rw [hr]; rfl
      · intro b a hb
        rw [he, CF.get_empty] at hb
        cases hb
  obtain ⟨⟨mg0, hmg0, hfn⟩, habs, hpres⟩ := hold
  -- the group's aggregates before the row
  have hbefore : ∃ init, openAgg e p q.ops = .ok init ∧ Done e q mg.fns init (rowsAt e q recs b) a := by
    rcases orElse_ok ha with hg | ⟨hg, hop⟩
    · exact (hpres b a hg).2
    · refine ⟨a, hop, ?_⟩
      rw [habs b hg]
      obtain ⟨_, _, hl, _⟩ := open_agree ho hmg0 hop
      exact ⟨hl, fun j o f i _ _ hij => ⟨i, hij, rfl⟩⟩
  obtain ⟨init, hinit, hdone⟩ := hbefore
  have hfl : mg.fns.length = q.ops.length := by
    rw [← hfn]
    exact (open_agree ho hmg0 hinit).2.1
  have hafter := done_step hfull hfl hdone hxa
  refine ⟨?_, ?_, ?_, ?_, ?_⟩
  · simp
  · intro r' hr'
    rcases List.mem_append.1 hr' with hr' | hr'
    · exact hi.rows r' hr'
    · rw [List.mem_singleton.1 hr']
      exact ⟨hkl, b, hkb⟩
  · intro mg1 h1
    rw [← Option.some.inj h1, hmg']
    exact ⟨mg0, hmg0, hfn⟩
  · intro mg1 b1 h1 hb1
    rw [← Option.some.inj h1, hmg'] at hb1
    simp only at hb1
    rw [CF.get_put] at hb1
    split at hb1
    · cases hb1
    · rename_i hne
      rw [rowsAt_append, if_neg]
      · exact habs b1 hb1
      · rw [hkb]
        intro hx
        first
          | exact hne (Option.some.inj hx)
          | exact hne (Option.some.inj hx).symm
  · intro mg1 b1 a1 h1 hb1
    rw [← Option.some.inj h1, hmg'] at hb1 ⊢
    simp only at hb1 ⊢
    rw [CF.get_put] at hb1
    split at hb1
    · rename_i he
      have he : b1 = b := by first | exact he | exact he.symm
      subst he
      rw [rowsAt_append, if_pos hkb, ← Option.some.inj hb1]
      exact ⟨by simp, init, hinit, hafter⟩
    · rename_i hne
      rw [rowsAt_append, if_neg]
      · exact hpres b1 a1 hb1
      · rw [hkb]
        intro hx
        first
          | exact hne (Option.some.inj hx)
          | exact hne (Option.some.inj hx).symm

theorem foldRec_inv {e : Env F} {q : Req} {p : Plan} (ho : Opened q p) : ∀ {recs done : List (List (Cell F))}
    {m m' : Option (Mgr F)}, GInv e q p done m → foldRec e q p m recs = .ok m' → GInv e q p (done ++ recs) m'
  | [], done, m, m', hi, h => by
    simp only [foldRec, Except.ok.injEq] at h
    rw [← h, List.append_nil]
    exact hi
  | r :: rs, done, m, m', hi, h => by
    simp only [foldRec] at h
    split at h
    · cases h
    · rename_i mg hmg
      have := foldRec_inv ho (aggRow_inv ho hi hmg) h
      rw [List.append_assoc] at this
      exact this

theorem ginv_nil (e : Env F) (q : Req) (p : Plan) : GInv e q p [] none :=
  ⟨by simp, (by intro r hr; cases hr), (by intro mg h; cases h), (by intro mg b h; cases h),
    (by intro mg b a h; cases h)⟩

end Verif.Coproc
