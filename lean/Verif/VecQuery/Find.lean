import Verif.VecQuery.PropsSearch
import Verif.VecQuery.PropsFilter

/-! # Searches and the data (lemmas) -/

namespace Verif.VecQuery

/-! ## What an index holds -/

theorem snoc_ind {α : Type} {p : List α → Prop} (h0 : p []) (h1 : ∀ l a, p l → p (l ++ [a])) : ∀ l, p l := by
  intro l
  have : ∀ l : List α, p l.reverse := by
    intro l
    induction l with
    | nil => exact h0
    | cons a l ih => rw [List.reverse_cons]; exact h1 _ _ ih
  have h := this l.reverse
  rwa [List.reverse_reverse] at h

theorem decided_snoc {T : Int} {id : Int} {ops : List Op} {o : Op} (ho : ∀ o' ∈ ops, o'.ts < o.ts) (hT : o.ts ≤ T) :
    decided T id (ops ++ [o]) = match o.says id with | none => decided T id ops | some s => s := by
  unfold decided newest
  rw [List.foldl_append]
  simp only [List.foldl_cons, List.foldl_nil]
  unfold stepOp
  cases hs : o.says id with
  | none => rw [if_neg (by simp)]
  | some s =>
    rw [if_pos]
    · simp [hs]
    · refine ⟨by simp, hT, ?_⟩
      intro o' h
      rcases foldl_mem h with h | h
      · cases h
      · exact Int.le_of_lt (ho o' h)

theorem says_add {ts ttl : Int} {vs : List VecIn} (hn : (vs.map (·.id)).Nodup) {x : VecIn} (hx : x ∈ vs) :
    (Op.add ts ttl vs).says x.id = some (some (ttl, x)) := by
  simp only [Op.says]
  cases hf : vs.reverse.find? fun v => decide (v.id = x.id) with
  | none =>
    have := List.find?_eq_none.1 hf x (List.mem_reverse.2 hx)
    simp at this
  | some y =>
    have h1 := List.find?_some hf
    have h2 := List.mem_reverse.1 (List.mem_of_find?_eq_some hf)
    have h1' : y.id = x.id := by simpa using h1
    have : y = x := by
      clear hf h1
      induction vs with
      | nil => cases hx
      | cons a vs ih =>
        rw [List.map_cons, List.nodup_cons] at hn
        rcases List.mem_cons.1 hx with e1 | e1 <;> rcases List.mem_cons.1 h2 with e2 | e2
        · rw [e1, e2]
        · subst e1
          exact absurd (List.mem_map.2 ⟨y, e2, h1'⟩) hn.1
        · subst e2
          exact absurd (List.mem_map.2 ⟨x, e1, h1'.symm⟩) hn.1
        · exact ih hn.2 e1 e2
    rw [this]
    rfl

theorem says_add_none {ts ttl : Int} {vs : List VecIn} {id : Int} (h : id ∉ vs.map (·.id)) :
    (Op.add ts ttl vs).says id = none := by
  simp only [Op.says]
  cases hf : vs.reverse.find? fun v => decide (v.id = id) with
  | none => rfl
  | some y =>
    have h1 := List.find?_some hf
    have h2 := List.mem_reverse.1 (List.mem_of_find?_eq_some hf)
    exact absurd (List.mem_map.2 ⟨y, h2, by simpa using h1⟩) h

theorem Plain.init {ops : List Op} {o : Op} (h : Plain (ops ++ [o])) : Plain ops ∧ ∀ o' ∈ ops, o'.ts < o.ts := by
  have := List.pairwise_append.1 h.order
  exact ⟨⟨this.1, fun ts ttl vs hm => h.forever ts ttl vs (List.mem_append_left _ hm),
    fun ts ttl vs hm => h.once ts ttl vs (List.mem_append_left _ hm)⟩, fun o' ho => this.2.2 o' ho o List.mem_cons_self⟩

/-- An index that follows plain writes holds the vectors there are. -/
theorem ixRun_holds {T : Int} : ∀ (ops : List Op), Plain ops → (∀ o ∈ ops, o.ts ≤ T) →
    ∀ id v, (id, v) ∈ ixRun ops ↔ ∃ p, decided T id ops = some p ∧ p.2.vec = v := by
  refine snoc_ind ?_ ?_
  · intro _ _ id v
    simp [ixRun, decided, newest]
  · intro ops o ih hp hT id v
    obtain ⟨h1, h2⟩ := hp.init
    have ih' := ih h1 (fun o' ho => hT o' (List.mem_append_left _ ho))
    rw [decided_snoc h2 (hT o (by simp))]
    have e : ixRun (ops ++ [o]) = ixExec (ixRun ops) o := by simp [ixRun]
    rw [e]
    cases o with
    | add ts ttl vs =>
      have hn := hp.once ts ttl vs (by simp)
      simp only [ixExec]
      rw [if_pos hn, List.mem_append, List.mem_filter, List.mem_map, ih' id v]
      by_cases hm : id ∈ vs.map (·.id)
      · obtain ⟨x, hx, rfl⟩ := List.mem_map.1 hm
        rw [says_add hn hx]
        constructor
        · rintro (⟨_, h⟩ | ⟨y, hy, e⟩)
          · rw [List.contains_iff_mem.2 hm] at h; cases h
          · have e1 : y.id = x.id := congrArg Prod.fst e
            have e2 : y.vec = v := congrArg Prod.snd e
            have := says_add (ts := ts) (ttl := ttl) hn hy
            rw [e1, says_add hn hx] at this
            refine ⟨_, rfl, ?_⟩
            cases this
            exact e2
        · rintro ⟨p, h3, rfl⟩
          cases h3
          exact Or.inr ⟨x, hx, rfl⟩
      · rw [says_add_none hm]
        have hc : (vs.map (·.id)).contains id = false := by
          rcases Bool.eq_false_or_eq_true ((vs.map (·.id)).contains id) with h | h
          · exact absurd (List.contains_iff_mem.1 h) hm
          · exact h
        constructor
        · rintro (⟨h, _⟩ | ⟨y, hy, e⟩)
          · exact h
          · exact absurd (List.mem_map.2 ⟨y, hy, congrArg Prod.fst e⟩) hm
        · intro h
          exact Or.inl ⟨h, by rw [hc]; rfl⟩
    | del ts ids =>
      simp only [ixExec, Op.says]
      rw [List.mem_filter, ih' id v]
      by_cases hm : id ∈ ids
      · rw [if_pos hm]
        simp
        intro _ _ _ _
        exact hm
      · rw [if_neg hm]
        have hc : ids.contains id = false := by
          rcases Bool.eq_false_or_eq_true (ids.contains id) with h | h
          · exact absurd (List.contains_iff_mem.1 h) hm
          · exact h
        constructor
        · rintro ⟨h, _⟩; exact h
        · intro h; exact ⟨h, by rw [hc]; rfl⟩

theorem op_ts {schema : List Field} {ops : List Op} (hv : Valid schema ops) : ∀ o ∈ ops, o.ts ≤ effTs 0 := by
  intro o ho
  have h := hv o ho
  have e : effTs 0 = 2 ^ 63 - 1 := by simp [effTs]
  rw [e]
  cases o with
  | add ts ttl vs => have : ts < 2 ^ 63 := h.1; show ts ≤ _; omega
  | del ts ids => have : ts < 2 ^ 63 := h.1; show ts ≤ _; omega

theorem ixRun_shows {schema : List Field} {ops : List Op} (hv : Valid schema ops) (hp : Plain ops) {now : Int} {id : Int} {v : Vec} :
    (id, v) ∈ ixRun ops ↔ ∃ ttl x, Shows ops 0 now ttl x ∧ x.id = id ∧ x.vec = v := by
  rw [ixRun_holds (T := effTs 0) ops hp (op_ts hv)]
  constructor
  · rintro ⟨⟨ttl, x⟩, h1, h2⟩
    obtain ⟨ts, vs, hm, _⟩ := decided_mem h1
    have hx := decided_id h1
    refine ⟨ttl, x, (shows_iff hv).2 ⟨by rw [hx]; exact h1, Or.inl (hp.forever _ _ _ hm)⟩, hx, h2⟩
  · rintro ⟨ttl, x, h1, rfl, h3⟩
    exact ⟨_, ((shows_iff hv).1 h1).1, h3⟩

theorem held_found {F : Faiss} {m : Metric} {w : Wrap} {g : Region} {schema : List Field} {ops : List Op} (hv : Valid schema ops)
    (hp : Plain ops) (hm : w.Mirrors g ops) {now : Int} {A : Int → Prop} {q : Vec} {h : Hit} :
    Held F m w g A q h ↔ Found F m ops now g (fun v => A v.id) q h := by
  unfold Held Found
  constructor
  · rintro ⟨v, h1, h2, h3, h4⟩
    obtain ⟨ttl, x, h5, h6, h7⟩ := (ixRun_shows hv hp (now := now)).1 ((hm _ _ h2.1 h2.2).1 h1)
    refine ⟨ttl, x, h5, by rw [h6]; exact h2, ?_, h6.symm, by rw [h7]; exact h4⟩
    show A x.id
    rw [h6]; exact h3
  · rintro ⟨ttl, x, h1, h2, h3, h4, h5⟩
    rw [← h4] at h2
    refine ⟨x.vec, (hm _ _ h2.1 h2.2).2 ((ixRun_shows hv hp (now := now)).2 ⟨ttl, x, h1, h4.symm, rfl⟩), h2, ?_, h5⟩
    have : A x.id := h3
    rw [h4]; exact this

theorem Found.congr {F : Faiss} {m : Metric} {ops : List Op} {now : Int} {g : Region} {A B : VecIn → Prop}
    (e : ∀ v, (∃ ttl, Shows ops 0 now ttl v) → (g.lo ≤ v.id ∧ v.id < g.hi) → (A v ↔ B v)) {q : Vec} {h : Hit} :
    Found F m ops now g A q h ↔ Found F m ops now g B q h := by
  unfold Found
  constructor
  · rintro ⟨ttl, v, h1, h2, h3, h4⟩
    exact ⟨ttl, v, h1, h2, (e v ⟨ttl, h1⟩ h2).1 h3, h4⟩
  · rintro ⟨ttl, v, h1, h2, h3, h4⟩
    exact ⟨ttl, v, h1, h2, (e v ⟨ttl, h1⟩ h2).2 h3, h4⟩

/-! ## The search without scalar data -/

theorem searchIndex_topK {E : Env} {w : Wrap} {g : Region} {ops : List Op} {now : Int} {r : SearchReq}
    (S : Settled E w g ops now r) (hr : r.radius = none) {k : Nat} (hk : 0 < k) (fs : List Filter) :
    ∃ rs, searchIndex E w g ⟨run E.schema ops, now⟩ r k fs = .ok rs ∧
      Each (r.qs.map (·.vec))
        (fun q res => TopK k (Found E.F E.m ops now g (fun v => ∀ f ∈ fs, f.check v.id = true) q) res) rs := by
  unfold searchIndex
  dsimp only
  rw [hr]
  rcases Bool.eq_false_or_eq_true r.brute with hb | hb
  · rw [hb, if_pos rfl]
    obtain ⟨rs, h1, h2, _⟩ := C81_brute_partial S.lib S.valid S.ready hk S.fair (m := E.m) (size := E.size) (g := g) (fs := fs) (now := now)
    exact ⟨rs, h1, h2 (S.some_ hb)⟩
  · rw [hb, if_neg (by simp)]
    obtain ⟨hf, hm, hp⟩ := S.index hb
    obtain ⟨rs, h1, h2⟩ := (C81_index_partial S.lib hf S.fair (m := E.m) (fs := fs) (k := k)).1 S.ready
    exact ⟨rs, h1, h2.imp fun q res h => h.congr fun x => held_found S.valid hp hm⟩

/-- What a range search finds, unless it is cut. -/
def Whole (S : Hit → Prop) (res : List Hit) : Prop := (res.map (·.id)).Nodup ∧ ∀ h, h ∈ res ↔ S h

theorem found_exists {F : Faiss} {m : Metric} {ops : List Op} {now : Int} {g : Region} {A : VecIn → Prop} {q : Vec} {h : Hit}
    (hf : Found F m ops now g A q h) : Exists ops 0 now h.id ∧ g.lo ≤ h.id ∧ h.id < g.hi := by
  obtain ⟨ttl, v, h1, h2, _, h4, _⟩ := hf
  rw [h4]
  exact ⟨⟨ttl, v, h1, rfl⟩, h2⟩

theorem searchIndex_range {E : Env} {w : Wrap} {g : Region} {ops : List Op} {now : Int} {r : SearchReq}
    (S : Settled E w g ops now r) {x : Int} (hr : r.radius = some x) (hc : r.brute = true → AtMost ops now g E.cap)
    (hs : r.brute = false → ∀ s, w.sibling = some s → s.length + w.own.length < 2 ^ 32) {k : Nat} (fs : List Filter) :
    ∃ rs, searchIndex E w g ⟨run E.schema ops, now⟩ r k fs = .ok rs ∧
      Each (r.qs.map (·.vec))
        (fun q res => Whole (fun h => Found E.F E.m ops now g (fun v => ∀ f ∈ fs, f.check v.id = true) q h ∧ h.dist < x) res) rs := by
  unfold searchIndex
  dsimp only
  rw [hr]
  rcases Bool.eq_false_or_eq_true r.brute with hb | hb
  · rw [hb, if_pos rfl]
    obtain ⟨rs, h1, h2, _⟩ := C81_brute_range_partial S.lib S.valid S.fair (m := E.m) (size := E.size) (cap := E.cap) (g := g) (fs := fs)
      (r := x) (now := now)
    refine ⟨rs, h1, (h2 (S.some_ hb)).imp ?_⟩
    rintro q res ⟨a, b, c, d⟩
    refine ⟨a, fun h => ⟨c h, fun hh => ?_⟩⟩
    apply Decidable.byContradiction
    intro hn
    by_cases hl : res.length < E.cap
    · exact hn (d hl h hh.1 hh.2)
    · have hid : h.id ∉ res.map (·.id) := by
        intro hm
        obtain ⟨y, hy, e⟩ := List.mem_map.1 hm
        obtain ⟨ttl, v, s1, _, _, s2, s3⟩ := (c y hy).1
        obtain ⟨ttl', v', t1, _, _, t2, t3⟩ := hh.1
        have hd := ((shows_iff S.valid).1 s1).1
        have hd' := ((shows_iff S.valid).1 t1).1
        have ev : v'.id = v.id := by rw [← t2, ← s2, e]
        rw [ev, hd] at hd'
        cases hd'
        have : y = h := by
          have e2 : y.dist = h.dist := by rw [s3, t3]
          cases y; cases h
          simp at e e2
          rw [e, e2]
        exact hn (this ▸ hy)
      have := hc hb (h.id :: res.map (·.id)) (List.nodup_cons.2 ⟨hid, a⟩) (by
        intro id hi
        rcases List.mem_cons.1 hi with rfl | hi
        · exact found_exists hh.1
        · obtain ⟨y, hy, rfl⟩ := List.mem_map.1 hi
          exact found_exists (c y hy).1)
      simp at this
      omega
  · rw [hb, if_neg (by simp)]
    obtain ⟨hf, hm, hp⟩ := S.index hb
    obtain ⟨rs, h1, h2⟩ := C81_index_range_partial S.lib S.ready hf S.fair (m := E.m) (fs := fs) (r := x) (hs hb)
    refine ⟨rs, h1, h2.imp fun q res h => ⟨h.1, fun y => ?_⟩⟩
    rw [h.2, held_found S.valid hp hm]

/-! ## Filters -/

/-- What the filters of a request that is not filtered afterwards let pass. -/
theorem filters_ok {E : Env} {w : Wrap} {g : Region} {ops : List Op} {now : Int} {r : SearchReq}
    (S : Settled E w g ops now r) (hnp : r.by_ = .post → r.want = []) :
    ∃ fs, search E w g ⟨run E.schema ops, now⟩ r = searchIndex E w g ⟨run E.schema ops, now⟩ r r.topN fs ∧
      ∀ v, (∃ ttl, Shows ops 0 now ttl v) → (g.lo ≤ v.id ∧ v.id < g.hi) → ((∀ f ∈ fs, f.check v.id = true) ↔ r.Takes v) := by
  have hq := S.queries
  have hg := S.given_
  have hc := S.compare
  have hk := S.kept
  have hs := S.sorted
  unfold search SearchReq.Takes
  unfold SearchReq.want at *
  cases hqs : r.qs with
  | nil => exact absurd hqs hq
  | cons q0 qs =>
    simp only [hqs] at hnp hg hc hk
    dsimp only
    cases hb : r.by_ with
    | post =>
      rw [if_pos (hnp hb)]
      refine ⟨[], rfl, fun v _ _ => ?_⟩
      simp [hnp hb, Matches]
    | ids l neg sorted =>
      refine ⟨_, rfl, fun v _ _ => ?_⟩
      rw [List.forall_mem_singleton]
      cases sorted with
      | false => exact C81_filter
      | true => exact C81_filter_sorted_partial (hs l neg hb)
    | pre =>
      dsimp only
      rw [if_neg (hg hb)]
      obtain ⟨ids, h1, _, h3⟩ := C80_prefilter_partial S.valid g hc (fun h => hk (Or.inr h)) (now := now)
      rw [h1]
      refine ⟨_, rfl, fun v hv hr => ?_⟩
      rw [List.forall_mem_singleton, C81_filter]
      simp only [Bool.false_eq_true, false_iff, Decidable.not_not]
      rw [h3]
      constructor
      · rintro ⟨_, _, ttl, v', h4, h5, h6⟩
        obtain ⟨ttl', hv'⟩ := hv
        have e1 := ((shows_iff S.valid).1 h4).1
        have e2 := ((shows_iff S.valid).1 hv').1
        rw [h5, e2] at e1
        cases e1
        exact h6
      · intro h
        obtain ⟨ttl', hv'⟩ := hv
        exact ⟨hr.1, hr.2, ttl', v, hv', rfl, h⟩

/-! ## Filtering afterwards -/

/-- The candidate matches. -/
def fits (d : World) (want : Scalar) (h : Hit) : Bool :=
  match getScalar d 0 h.id with
  | .value s => scalarMatch want s
  | _ => false

theorem postLoop_eq {d : World} {want : Scalar} : ∀ {c acc : List Hit} {limit : Option Nat},
    (∀ h ∈ c, ∃ s, getScalar d 0 h.id = .value s) → (∀ n, limit = some n → acc.length < n) →
    postLoop d want limit acc c =
      .ok (acc ++ match limit with | none => c.filter (fits d want) | some n => (c.filter (fits d want)).take (n - acc.length)) := by
  intro c
  induction c with
  | nil =>
    intro acc limit _ _
    unfold postLoop
    cases limit <;> simp
  | cons h c ih =>
    intro acc limit hv hl
    obtain ⟨s, hs⟩ := hv h List.mem_cons_self
    have hv' : ∀ x ∈ c, ∃ s, getScalar d 0 x.id = .value s := fun x hx => hv x (List.mem_cons_of_mem _ hx)
    have hf : fits d want h = scalarMatch want s := by unfold fits; rw [hs]
    unfold postLoop
    rw [hs]
    dsimp only
    rcases Bool.eq_false_or_eq_true (scalarMatch want s) with hm | hm
    · rw [if_pos hm]
      rw [hm] at hf
      cases limit with
      | none =>
        dsimp only
        rw [ih hv' (by intro n h; cases h), List.filter_cons_of_pos hf]
        simp
      | some n =>
        dsimp only
        have hln := hl n rfl
        rw [List.filter_cons_of_pos hf]
        split
        · rename_i hge
          rw [List.length_append, List.length_singleton] at hge
          have : n - acc.length = 1 := by omega
          rw [this]
          simp
        · rename_i hge
          rw [List.length_append, List.length_singleton] at hge
          rw [ih hv' (by intro m e; cases e; simp; omega)]
          obtain ⟨j, hj⟩ : ∃ j, n - acc.length = j + 1 := ⟨n - acc.length - 1, by omega⟩
          have hj' : n - (acc ++ [h]).length = j := by simp; omega
          dsimp only
          rw [hj, hj', List.take_succ_cons]
          simp
    · rw [if_neg (by simp [hm])]
      rw [hm] at hf
      rw [ih hv' hl]
      rw [List.filter_cons_of_neg (by simp [hf])]

theorem postAll_each {d : World} {want : Scalar} {limit : Option Nat} {C R : Vec → List Hit → Prop} :
    ∀ {qs : List Vec} {cs : List (List Hit)}, Each qs C cs →
      (∀ q c, C q c → ∃ a, postLoop d want limit [] c = .ok a ∧ R q a) →
      ∃ as, postAll d want limit cs = .ok as ∧ Each qs R as := by
  intro qs
  induction qs with
  | nil =>
    intro cs h _
    have : cs = [] := List.length_eq_zero_iff.1 (by simpa using h.1)
    subst this
    exact ⟨[], rfl, rfl, by intro j q hq; simp at hq⟩
  | cons q qs ih =>
    intro cs h hi
    cases cs with
    | nil => have := h.1; simp at this
    | cons c cs =>
      obtain ⟨res, h1, h2⟩ := h.2 0 q rfl
      cases h1
      obtain ⟨a, h3, h4⟩ := hi q c h2
      obtain ⟨as, h5, h6⟩ := ih (cs := cs) ⟨by have := h.1; simpa using this, fun j q' hq' => h.2 (j + 1) q' hq'⟩ hi
      refine ⟨a :: as, ?_, by simpa using h6.1, ?_⟩
      · unfold postAll
        rw [h3]
        dsimp only
        rw [h5]
      · intro j q' hq'
        cases j with
        | zero => cases hq'; exact ⟨a, rfl, h4⟩
        | succ j => exact h6.2 j q' hq'

theorem found_fits {schema : List Field} {F : Faiss} {m : Metric} {ops : List Op} (hv : Valid schema ops) {now : Int} {g : Region} {std : Scalar}
    (hc : Comparable std) (hk : ScalarKept ops) {q : Vec} {h : Hit} :
    (Found F m ops now g (fun _ => True) q h → ∃ s, getScalar ⟨run schema ops, now⟩ 0 h.id = .value s) ∧
    (Found F m ops now g (fun _ => True) q h ∧ fits ⟨run schema ops, now⟩ std h = true ↔
      Found F m ops now g (fun v => Matches std v.scalar) q h) := by
  have key : ∀ ttl v, Shows ops 0 now ttl v → getScalar ⟨run schema ops, now⟩ 0 v.id = .value v.scalar := by
    intro ttl v hs
    obtain ⟨h1, h2⟩ := (shows_iff hv).1 hs
    rw [getScalar_run, h1]
    unfold readS
    dsimp only
    by_cases h0 : ttl = 0
    · rw [if_pos h0]
    · rw [if_neg h0]
      obtain ⟨ts, vs, hm, hvv⟩ := decided_mem h1
      have hne := hk _ hm ts ttl vs rfl h0 v hvv
      have he : Blob.empty v.scalar = false := by
        cases hsc : v.scalar with
        | nil => exact absurd hsc hne
        | cons a l => rfl
      rw [he]
      simp only [Bool.false_eq_true, if_false]
      rw [if_neg (by omega)]
  have hnd : ∀ ttl v, Shows ops 0 now ttl v → (v.scalar.map (·.1)).Nodup := by
    intro ttl v hs
    obtain ⟨ts', vs, hm, hvv⟩ := decided_mem ((shows_iff hv).1 hs).1
    exact ((hv _ hm).2.2 _ hvv).2.1
  refine ⟨?_, ?_⟩
  · rintro ⟨ttl, v, h1, _, _, h4, _⟩
    rw [h4]
    exact ⟨_, key ttl v h1⟩
  · constructor
    · rintro ⟨⟨ttl, v, h1, h2, _, h4, h5⟩, hf⟩
      refine ⟨ttl, v, h1, h2, ?_, h4, h5⟩
      unfold fits at hf
      rw [h4, key ttl v h1] at hf
      exact (match_iff hc (hnd ttl v h1)).1 hf
    · rintro ⟨ttl, v, h1, h2, h3, h4, h5⟩
      refine ⟨⟨ttl, v, h1, h2, trivial, h4, h5⟩, ?_⟩
      unfold fits
      rw [h4, key ttl v h1]
      exact (match_iff hc (hnd ttl v h1)).2 h3

/-- The first `n` that match, of the `K` nearest. -/
theorem filter_topK {K n : Nat} {S : Hit → Prop} {c : List Hit} (hC : TopK K S c) (M : Hit → Bool) :
    Listing n (fun h => S h ∧ M h = true) ((c.filter M).take n) ∧
    ((((c.filter M).take n).length = n ∨ ∀ h, S h → h ∈ c) →
      TopK n (fun h => S h ∧ M h = true) ((c.filter M).take n)) := by
  have hsub : List.Sublist ((c.filter M).take n) c := (List.take_sublist _ _).trans List.filter_sublist
  have hL : Listing n (fun h => S h ∧ M h = true) ((c.filter M).take n) := by
    refine ⟨?_, ?_, ?_, ?_⟩
    · intro h hh
      have := List.mem_filter.1 (List.mem_of_mem_take hh)
      exact ⟨hC.mem h this.1, this.2⟩
    · exact List.Nodup.sublist (hsub.map _) hC.once
    · exact hC.sorted.sublist hsub
    · rw [List.length_take]; omega
  refine ⟨hL, fun hor => { hL with best := ?_ }⟩
  rintro h ⟨h1, h2⟩ hn
  by_cases hc : h ∈ c
  · have hm : h ∈ c.filter M := List.mem_filter.2 ⟨hc, h2⟩
    rw [← List.take_append_drop n (c.filter M), List.mem_append] at hm
    rcases hm with hm | hm
    · exact absurd hm hn
    · have hlen := List.length_pos_of_mem hm
      rw [List.length_drop] at hlen
      refine ⟨by rw [List.length_take]; omega, ?_⟩
      intro r hr
      have hs := hC.sorted.sublist (List.filter_sublist (p := M))
      rw [← List.take_append_drop n (c.filter M), List.pairwise_append] at hs
      exact hs.2.2 r hr h hm
  · rcases hor with hor | hor
    · exact ⟨hor, fun r hr => (hC.best h h1 hc).2 r (hsub.subset hr)⟩
    · exact absurd (hor h h1) hc

end Verif.VecQuery
