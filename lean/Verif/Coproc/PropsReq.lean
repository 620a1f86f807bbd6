import Verif.Coproc.Schema
import Verif.Coproc.PropsSelect
import Verif.Coproc.Progress

/-!
# C91: which requests are accepted, and which bring the store down
-/

namespace Verif.Coproc
open Verif.Codec Verif.Scan

theorem trans_iff (l : List Col) : trans l = .ok () ↔ ∀ c ∈ l, c.ty ≠ .decimalList := by
  unfold trans
  split
  · rename_i h
    simp only [List.any_eq_true, decide_eq_true_eq] at h
    obtain ⟨c, h1, h2⟩ := h
    simp only [reduceCtorEq, false_iff]
    intro hx
    exact hx c h1 h2
  · rename_i h
    simp only [true_iff]
    intro c hc hx
    apply h
    simp only [List.any_eq_true, decide_eq_true_eq]
    exact ⟨c, hc, hx⟩

theorem trans_error {l : List Col} {x : Bad} (h : trans l = .error x) : x = .refused := by
  unfold trans at h
  split at h
  · exact (Except.error.inj h).symm
  · cases h

theorem width_pos {q : Req} (h : q.orig ≠ []) : 0 < width q := by
  unfold width
  split
  · exact List.length_pos_iff.2 h
  · rename_i hs
    exact List.length_pos_iff.2 hs

theorem orig_of_width {q : Req} (hw : WellFormed q) (h : 0 < width q) : q.orig ≠ [] := by
  intro hq
  unfold width at h
  split at h
  · rw [hq] at h; simp at h
  · rename_i hs
    obtain ⟨i, hi⟩ := List.exists_mem_of_ne_nil _ hs
    have := hw.sel i hi
    rw [hq] at this
    simp at this
    omega

theorem initGroupBy_cases {q : Req} (hw : WellFormed q) {oi si : List Int} (ho : origIndexes q = .ok oi)
    (hs : selIndexes q oi = .ok si) :
    ((∀ i ∈ q.groupBy, 0 ≤ i ∧ i < width q) ∧ (∀ o ∈ q.ops, OpOk (width q) o) ∧
      ∃ ks os, initGroupBy q si = .ok (ks, os)) ∨
    (¬ ((∀ i ∈ q.groupBy, 0 ≤ i ∧ i < width q) ∧ ∀ o ∈ q.ops, OpOk (width q) o) ∧
      initGroupBy q si = .error .refused) := by
  have hl := (selIndexes_len ho hs).1
  have hgc : checkGroupBy q.groupBy si.length = true ↔ ∀ i ∈ q.groupBy, 0 ≤ i ∧ i < width q := by
    simp [checkGroupBy, List.all_eq_true, hl]
  have hoc : q.ops.all (checkOp si.length) = true ↔ ∀ o ∈ q.ops, OpOk (width q) o := by
    rw [List.all_eq_true, hl]
    constructor
    · intro h o ho; exact (checkOp_iff _ o).1 (h o ho)
    · intro h o ho; exact (checkOp_iff _ o).2 (h o ho)
  unfold initGroupBy
  by_cases h1 : checkGroupBy q.groupBy si.length = true
  · rw [if_neg (by rw [h1]; simp)]
    have hg := hgc.1 h1
    have hk : ∃ ks, (if q.groupBy = [] then (.ok [] : Except Bad (List Ty)) else create q si q.groupBy) = .ok ks := by
      by_cases hb : q.groupBy = []
      · exact ⟨[], if_pos hb⟩
      · rw [if_neg hb]
        obtain ⟨i, hi⟩ := List.exists_mem_of_ne_nil _ hb
        have := hg i hi
        have hq := orig_of_width hw (by omega)
        exact create_total hw ho hs hq (fun k hk => ⟨(hg k hk).1, (hg k hk).2, hw.groupTy k hk⟩)
    obtain ⟨ks, hk⟩ := hk
    rw [hk]
    simp only
    by_cases h2 : q.ops.all (checkOp si.length) = true
    · rw [if_neg (by rw [h2]; simp)]
      have hops := hoc.1 h2
      left
      refine ⟨hg, hops, ?_⟩
      by_cases h3 : q.ops = []
      · rw [if_pos h3]; exact ⟨_, _, rfl⟩
      · rw [if_neg h3]
        have hc : ∃ ts, create q si (q.ops.map (fun o => opCol si.length o.2)) = .ok ts := by
          by_cases hq : q.orig = []
          · exact ⟨[], by unfold create; rw [if_pos hq]⟩
          · apply create_total hw ho hs hq
            intro k hk
            obtain ⟨o, hom, rfl⟩ := List.mem_map.1 hk
            rw [hl]
            have hp := width_pos hq
            refine ⟨?_, ?_, ?_⟩
            · unfold opCol; split <;> omega
            · unfold opCol; split <;> omega
            · have : (opCol (width q) o.2).toNat = colOf q o.2 := by
                unfold opCol colOf
                split
                · rw [if_neg (by omega)]; rfl
                · rw [if_pos (by omega)]
              rw [this]
              exact hw.opTy o hom
        obtain ⟨ts, hts⟩ := hc
        rw [hts]
        exact ⟨_, _, rfl⟩
    · right
      rw [if_pos (by simpa using h2)]
      exact ⟨fun hx => h2 (hoc.2 hx.2), rfl⟩
  · right
    rw [if_pos (by simpa using h1)]
    exact ⟨fun hx => h1 (hgc.2 hx.1), rfl⟩

theorem open_cases {q : Req} (hw : WellFormed q) :
    (Acceptable q ∧ ∃ p, openReq q = .ok p) ∨ (¬ Acceptable q ∧ openReq q = .error .refused) := by
  obtain ⟨oi, si, ho, hs, hl, _⟩ := sel_indexes hw
  cases ht : trans q.orig with
  | error x =>
    right
    refine ⟨?_, by unfold openReq; rw [ht, trans_error ht]⟩
    intro ha
    rw [(trans_iff _).2 (fun c hc => ha.noLists c (List.mem_append_left _ hc))] at ht
    cases ht
  | ok _ =>
    rcases initGroupBy_cases hw ho hs with ⟨hg, hops, ks, os, hi⟩ | ⟨hn, hi⟩
    · have hopen : openReq q = openResult q si.length ks os := by
        unfold openReq; rw [ht]; simp only [ho, hs, hi]
      rw [hopen]
      unfold openResult
      cases htr : trans q.result with
      | error x =>
        right
        refine ⟨?_, by rw [trans_error htr]⟩
        intro ha
        rw [(trans_iff _).2 (fun c hc => ha.noLists c (List.mem_append_right _ hc))] at htr
        cases htr
      | ok _ =>
        simp only
        have hst : ∃ st, mapE (fun c : Col => cloneTy c.ty) (sortCols q.result) = .ok st := by
          apply mapE_total
          intro c hc
          have := hw.resTy c ((sortCols_perm q.result).mem_iff.1 hc)
          exact ⟨c.ty, by unfold cloneTy; rw [if_neg this]⟩
        obtain ⟨st, hst⟩ := hst
        rw [hst]
        simp only
        by_cases hc : checkIdx (sortCols q.result) 0 = true
        · rw [if_neg (by rw [hc]; simp)]
          have hres := (checkIdx_iff q.result).1 hc
          -- the size of the result
          obtain ⟨h1, h2, h3, h4, h5, h6⟩ := initGroupBy_steps hi
          have hsz : ((!(ks.isEmpty && (os.getD []).isEmpty)) = true ∧
              q.result.length ≠ ks.length + (os.getD []).length) ↔
              ¬ (q.orig ≠ [] → q.groupBy ≠ [] ∨ q.ops ≠ [] → q.result.length = q.groupBy.length + q.ops.length) := by
            by_cases hq : q.orig = []
            · have hw0 : width q = 0 := by
                cases hx : width q with
                | zero => rfl
                | succ n => exact absurd hq (orig_of_width hw (by omega))
              have hb : q.groupBy = [] := by
                cases hb : q.groupBy with
                | nil => rfl
                | cons a l =>
                  have := hg a (by rw [hb]; exact List.mem_cons_self)
                  omega
              have hos : os.getD [] = [] := by
                by_cases hop : q.ops = []
                · rw [h5 hop]; rfl
                · obtain ⟨l, hl', hcr⟩ := h6 hop
                  unfold create at hcr
                  rw [if_pos hq] at hcr
                  rw [hl', ← Except.ok.inj hcr]; rfl
              rw [h2 hb, hos]
              simp [hq]
            · have hk : ks.length = q.groupBy.length := by
                by_cases hb : q.groupBy = []
                · rw [h2 hb, hb]; rfl
                · exact create_len hq (h3 hb)
              have hod : (os.getD []).length = q.ops.length := by
                by_cases hop : q.ops = []
                · rw [h5 hop, hop]; rfl
                · obtain ⟨l, hl', hcr⟩ := h6 hop
                  rw [hl']
                  simpa using create_len hq hcr
              have hke : ks.isEmpty = true ↔ q.groupBy = [] := by
                rw [List.isEmpty_iff, ← List.length_eq_zero_iff, hk, List.length_eq_zero_iff]
              have hoe : (os.getD []).isEmpty = true ↔ q.ops = [] := by
                rw [List.isEmpty_iff, ← List.length_eq_zero_iff, hod, List.length_eq_zero_iff]
              rw [hk, hod]
              simp only [Bool.not_eq_true', Bool.and_eq_false_iff, ne_eq, hq, not_false_eq_true, true_implies]
              have e1 : ks.isEmpty = false ↔ ¬ q.groupBy = [] := by rw [← hke]; simp
              have e2 : (os.getD []).isEmpty = false ↔ ¬ q.ops = [] := by rw [← hoe]; simp
              rw [e1, e2]
              constructor
              · rintro ⟨h7, h8⟩ h9; exact h8 (h9 h7)
              · intro h7
                refine ⟨?_, fun h8 => h7 (fun _ => h8)⟩
                exact Classical.byContradiction (fun h8 => h7 (fun h9 => absurd h9 h8))
          by_cases hx : (!(ks.isEmpty && (os.getD []).isEmpty)) = true ∧
              q.result.length ≠ ks.length + (os.getD []).length
          · rw [if_pos hx]
            right
            exact ⟨fun ha => (hsz.1 hx) ha.size, rfl⟩
          · rw [if_neg hx]
            left
            refine ⟨⟨?_, hg, hops, hres, Classical.byContradiction (fun hy => hx (hsz.2 hy))⟩, _, rfl⟩
            intro c hcm
            rcases List.mem_append.1 hcm with hcm | hcm
            · exact (trans_iff _).1 (by rw [ht]) c hcm
            · exact (trans_iff _).1 (by rw [htr]) c hcm
        · right
          rw [if_pos (by simpa using hc)]
          exact ⟨fun ha => hc ((checkIdx_iff _).2 ha.result), rfl⟩
    · right
      refine ⟨fun ha => hn ⟨ha.groupBy, ha.ops⟩, ?_⟩
      unfold openReq; rw [ht]; simp only [ho, hs, hi]

/-- A well-formed request does not bring the store down when it is opened: it is accepted if it
makes sense, and refused otherwise.  Missing: requests that are not well-formed
(`C91_open_false`), and what happens later (`C91_distinct_false`, `C91_overflow_false`). -/
theorem C91_open_partial {q : Req} (hw : WellFormed q) :
    openReq q ≠ .error .crash ∧ ((∃ p, openReq q = .ok p) ↔ Acceptable q) := by
  rcases open_cases hw with ⟨ha, p, hp⟩ | ⟨ha, hp⟩
  · refine ⟨by rw [hp]; simp, fun _ => ha, fun _ => ⟨p, hp⟩⟩
  · refine ⟨by rw [hp]; simp, ?_, fun h => absurd h ha⟩
    rintro ⟨p, h⟩
    rw [hp] at h
    cases h

/-- Requests that bring the store down when they are opened: a column of the schema numbered
out of range, a selected column there is not, a decimal among the result columns, a decimal
that is grouped by. -/
theorem C91_open_false :
    openReq { toySel with orig := [⟨0, .int⟩, ⟨2, .long⟩] } = .error .crash ∧
    openReq { toySel with sel := [0, 2] } = .error .crash ∧
    openReq { toySel with result := [⟨0, .int⟩, ⟨1, .decimal⟩] } = .error .crash ∧
    openReq { toyReq with orig := [⟨0, .decimal⟩, ⟨1, .long⟩] } = .error .crash := by
  exact ⟨rfl, rfl, rfl, rfl⟩

/-- `SELECT DISTINCT g`: the groups without aggregates are accepted, and the first row brings the
store down. -/
theorem C91_distinct_false : ∃ p, openReq { toyReq with ops := [], result := [⟨0, .int⟩] } = .ok p ∧
    Acceptable { toyReq with ops := [], result := [⟨0, .int⟩] } ∧
    WellFormed { toyReq with ops := [], result := [⟨0, .int⟩] } ∧
    pages toyEnv { toyReq with ops := [], result := [⟨0, .int⟩] } p [⟨false, 5, 1000⟩] (start [([1], [5, 10])]) =
      .error .crash := by
  refine ⟨_, rfl, ⟨?_, ?_, ?_, ?_, ?_⟩, ⟨?_, ?_, ?_, ?_, ?_, ?_, ?_⟩, rfl⟩
  all_goals first
    | decide
    | (intro o ho; exact absurd ho List.not_mem_nil)
    | (intro i hi; have : i = 0 ∨ i = 1 := by
        have : i < 2 := hi
        omega
       rcases this with rfl | rfl <;> decide)

/-- The types of the columns are not compared when a request is opened: a scan that returns a sum
as another type is accepted, and fails at the first row. -/
theorem C91_types_false :
    ∃ p, openReq { toyReq with result := [⟨0, .int⟩, ⟨1, .int⟩, ⟨2, .long⟩, ⟨3, .long⟩] } = .ok p ∧
    pages toyEnv { toyReq with result := [⟨0, .int⟩, ⟨1, .int⟩, ⟨2, .long⟩, ⟨3, .long⟩] } p [⟨false, 5, 1000⟩]
      (start [([1], [5, 10])]) = .error .refused ∧
    pages toyEnv { toyReq with result := [⟨0, .int⟩, ⟨1, .int⟩, ⟨2, .long⟩, ⟨3, .long⟩] } p [⟨false, 5, 1000⟩]
      (start []) = .ok ([[]], start []) :=
  ⟨_, rfl, rfl, rfl⟩

/-- Two rows of 32-bit integers. -/
def bigEnv : Env Unit := { toyEnv with decode := fun _ => some [.int (some 2000000000), .long none] }

/-- The sum of a column of 32-bit integers overflows, in the signed arithmetic of the language. -/
theorem C91_overflow_false : ∃ p, openReq { toyReq with groupBy := [], ops := [(.sum, 0)], result := [⟨0, .int⟩] } = .ok p ∧
    pages bigEnv { toyReq with groupBy := [], ops := [(.sum, 0)], result := [⟨0, .int⟩] } p [⟨false, 5, 1000⟩]
      (start [([1], []), ([2], [])]) = .error .crash :=
  ⟨_, rfl, rfl⟩

/-- The hypothesis of `C91_open_partial`. -/
theorem toyReq_wellFormed : WellFormed toyReq := by
  refine ⟨?_, ?_, ?_, ?_, ?_, ?_, ?_⟩
  all_goals first
    | decide
    | (intro o ho; exact absurd ho List.not_mem_nil)
    | (intro i hi; have : i = 0 ∨ i = 1 := by
        have : i < 2 := hi
        omega
       rcases this with rfl | rfl <;> decide)

example : WellFormed toyReq := toyReq_wellFormed

/-! ## Answers -/

variable {F : Type}

/-- A scan with aggregates answers, whatever the limits of its pages, if the result schema fits
and the rows can be read. -/
theorem C89_answers {e : Env F} {q : Req} {p : Plan} {rows : List KV} (hc : KeyCodec e) (hw : WellFormed q)
    (ho : openReq q = .ok p) (hf : Fits q) (hr : Readable e q rows) (ls : List Lim) :
    ∃ out s, pages e q p ls (start rows) = .ok (out, s) := by
  cases ls with
  | nil => exact ⟨[], _, rfl⟩
  | cons l ls =>
    obtain ⟨o, hom⟩ := List.exists_mem_of_ne_nil _ hf.any
    obtain ⟨j, hj⟩ := List.getElem?_of_mem hom
    obtain ⟨t, c, ht, _, _⟩ := hf.aggs j o hj
    have hq : q.orig ≠ [] := by
      intro hx
      unfold colTy byIndex at ht
      rw [hx] at ht
      split at ht
      · cases ht
      · cases hs : q.sel[colOf q o.2]? <;> rw [hs] at ht <;> cases ht
    have hgr : p.group = true := (openReq_group ho).2 ⟨hq, Or.inr hf.any⟩
    have hrd : Ready e q p := ready hw hf ho hgr
    have hty : ∀ r ∈ kept e q rows, Typed q r := by
      intro r hrm
      obtain ⟨kv, hkv, hd⟩ := kept_decoded hrm
      obtain ⟨r', hd', _, h3⟩ := hr.row kv hkv
      rw [hd] at hd'
      cases Option.some.inj hd'
      exact h3
    have hmany : (kept e q rows).length < 9223372036854775807 :=
      Nat.lt_of_le_of_lt (List.length_filterMap_le _ _) hr.many
    obtain ⟨m', hm'⟩ := foldRec_total hrd (width_pos hq) hty hr.key hr.sum32 hr.sum64 hmany (done := [])
      (rest := kept e q rows) (m := none) rfl (ginv_nil e q p)
    have hi := foldRec_inv hrd.op (ginv_nil e q p) hm'
    rw [List.nil_append] at hi
    have hem : ∀ m, m' = some m → ∀ g ∈ m.groups.l, ∃ kv, emit e p g = .ok kv := by
      intro m hm g hg
      rw [hm] at hi
      exact emit_total hrd hc hf hr.result hty hi hg
    have hread : CanRead e q rows := by
      intro kv hkv
      obtain ⟨r, h1, h2, _⟩ := hr.row kv hkv
      exact ⟨r, h1, h2⟩
    obtain ⟨out, s, hp⟩ := pages_emit_total (q := q) hgr hem (l :: ls) ⟨m', none, []⟩ rfl rfl
      (by intro gs hgs; cases hgs)
    refine ⟨out, s, ?_⟩
    have hfirst : page e q p l (start rows) = page e q p l ⟨m', none, []⟩ := by
      unfold page
      simp only [start]
      rw [rowLoop_fold hgr hread hm']
      simp only [rowLoop]
    simp only [pages] at hp ⊢
    rw [hfirst]
    exact hp

/-- The hypotheses of `C89_answers`. -/
example : Fits toyReq := by
  refine ⟨?_, ?_, by decide, ?_⟩
  · intro i c h
    have : i < 4 := (List.getElem?_eq_some_iff.1 h).1
    have : i = 0 ∨ i = 1 ∨ i = 2 ∨ i = 3 := by omega
    rcases this with rfl | rfl | rfl | rfl <;> (cases h; rfl)
  · intro i k h
    have : i < 1 := (List.getElem?_eq_some_iff.1 h).1
    have : i = 0 := by omega
    subst this
    cases h
    exact ⟨_, rfl, rfl⟩
  · intro j o h
    have : j < 3 := (List.getElem?_eq_some_iff.1 h).1
    have : j = 0 ∨ j = 1 ∨ j = 2 := by omega
    rcases this with rfl | rfl | rfl <;> (cases h; exact ⟨_, _, rfl, rfl, by simp [Suits]⟩)

example : Readable { toyEnv with encRow := fun _ => .kv ([], []) } toyReq toyRows := by
  refine ⟨?_, ?_, fun _ _ => ⟨_, rfl⟩, ?_, ?_, by decide⟩
  · intro kv hkv
    simp only [toyRows, List.mem_cons, List.not_mem_nil, or_false] at hkv
    rcases hkv with rfl | rfl | rfl | rfl | rfl | rfl
    all_goals
      refine ⟨_, rfl, fun _ => ⟨_, rfl⟩, ?_⟩
      intro i hi
      have hi : i < 2 := hi
      have : i = 0 ∨ i = 1 := by omega
      rcases this with rfl | rfl <;> exact ⟨_, rfl, rfl⟩
  · intro _ r hr
    have : kept { toyEnv with encRow := fun _ => .kv ([], []) } toyReq toyRows =
        [[.int (some 5), .long (some 10)], [.int (some 3), .long (some 1)], [.int (some 5), .long none],
         [.int (some 3), .long (some 2)], [.int (some 4), .long none]] := rfl
    rw [this] at hr
    simp only [List.mem_cons, List.not_mem_nil, or_false] at hr
    rcases hr with rfl | rfl | rfl | rfl | rfl <;> exact ⟨_, rfl⟩
  · intro o ho _ _
    simp only [toyReq, List.mem_cons, List.not_mem_nil, or_false] at ho
    rcases ho with rfl | rfl | rfl <;> decide
  · intro o ho _ _
    simp only [toyReq, List.mem_cons, List.not_mem_nil, or_false] at ho
    rcases ho with rfl | rfl | rfl <;> decide

end Verif.Coproc
