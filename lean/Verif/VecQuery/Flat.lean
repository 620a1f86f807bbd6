import Verif.VecQuery.TopK

/-! # Filters, one index, parallel runs (lemmas) -/

namespace Verif.VecQuery

/-! ## The binary search -/

theorem insertId_mem {x y : Int} : ∀ {l : List Int}, y ∈ insertId x l ↔ y = x ∨ y ∈ l := by
  intro l
  induction l with
  | nil => simp [insertId]
  | cons z l ih =>
    unfold insertId
    split
    · simp
    · rw [List.mem_cons, ih, List.mem_cons]
      constructor
      · rintro (h | h | h) <;> simp [h]
      · rintro (h | h | h) <;> simp [h]

theorem sortIds_mem {y : Int} : ∀ {l : List Int}, y ∈ sortIds l ↔ y ∈ l := by
  intro l
  induction l with
  | nil => rfl
  | cons x l ih =>
    show y ∈ insertId x (sortIds l) ↔ _
    rw [insertId_mem, ih, List.mem_cons]

theorem insertId_sorted {x : Int} : ∀ {l : List Int}, l.Pairwise (· ≤ ·) → (insertId x l).Pairwise (· ≤ ·) := by
  intro l
  induction l with
  | nil => intro _; simp [insertId]
  | cons z l ih =>
    intro h
    obtain ⟨h1, h2⟩ := List.pairwise_cons.1 h
    unfold insertId
    split
    · rename_i hc
      refine List.pairwise_cons.2 ⟨?_, h⟩
      intro y hy
      rcases List.mem_cons.1 hy with rfl | hy
      · exact hc
      · exact Int.le_trans hc (h1 y hy)
    · rename_i hc
      refine List.pairwise_cons.2 ⟨?_, ih h2⟩
      intro y hy
      rcases insertId_mem.1 hy with rfl | hy
      · omega
      · exact h1 y hy

theorem sortIds_sorted : ∀ {l : List Int}, (sortIds l).Pairwise (· ≤ ·) := by
  intro l
  induction l with
  | nil => exact List.Pairwise.nil
  | cons x l ih => exact insertId_sorted ih

theorem isExist_iff {l : List Int} (hs : l.Pairwise (· ≤ ·)) {x : Int} : ∀ {n : Nat} {b e : Int}, 0 ≤ b → e < l.length →
    e - b < n → (isExist l x n b e = true ↔ ∃ i : Nat, b ≤ i ∧ i ≤ e ∧ l[i]? = some x) := by
  intro n
  induction n with
  | zero =>
    intro b e hb he hn
    constructor
    · intro h; cases h
    · rintro ⟨i, h1, h2, _⟩; omega
  | succ n ih =>
    intro b e hb he hn
    unfold isExist
    by_cases hbe : b ≤ e
    · rw [if_pos hbe]
      have hm1 : b ≤ (b + e) / 2 := by omega
      have hm2 : (b + e) / 2 ≤ e := by omega
      have hlt : ((b + e) / 2).toNat < l.length := by omega
      dsimp only
      have hget : l.getD ((b + e) / 2).toNat 0 = l[((b + e) / 2).toNat] := by
        rw [List.getD_eq_getElem?_getD, List.getElem?_eq_getElem hlt]
        rfl
      rw [hget]
      by_cases hx : x = l[((b + e) / 2).toNat]
      · rw [if_pos hx]
        constructor
        · intro _
          exact ⟨((b + e) / 2).toNat, by omega, by omega, by rw [List.getElem?_eq_getElem hlt, ← hx]⟩
        · intro _; rfl
      · rw [if_neg hx]
        have hmono : ∀ (i j : Nat) (hi : i < l.length) (hj : j < l.length), i ≤ j → l[i] ≤ l[j] := by
          intro i j hi hj hij
          rcases Nat.lt_or_ge i j with h | h
          · exact List.pairwise_iff_getElem.1 hs i j hi hj h
          · have : i = j := by omega
            subst this
            exact Int.le_refl _
        by_cases hlt' : x < l[((b + e) / 2).toNat]
        · rw [if_pos hlt', ih hb (by omega) (by omega)]
          constructor
          · rintro ⟨i, h1, h2, h3⟩; exact ⟨i, h1, by omega, h3⟩
          · rintro ⟨i, h1, h2, h3⟩
            refine ⟨i, h1, ?_, h3⟩
            obtain ⟨hi, h4⟩ := List.getElem?_eq_some_iff.1 h3
            apply Classical.byContradiction
            intro hc
            have := hmono _ _ hlt hi (by omega)
            omega
        · rw [if_neg hlt', ih (by omega) he (by omega)]
          constructor
          · rintro ⟨i, h1, h2, h3⟩; exact ⟨i, by omega, h2, h3⟩
          · rintro ⟨i, h1, h2, h3⟩
            refine ⟨i, ?_, h2, h3⟩
            obtain ⟨hi, h4⟩ := List.getElem?_eq_some_iff.1 h3
            apply Classical.byContradiction
            intro hc
            have := hmono _ _ hi hlt (by omega)
            omega
    · rw [if_neg hbe]
      constructor
      · intro h; cases h
      · rintro ⟨i, h1, h2, _⟩; omega

theorem check_ids {l : List Int} (hs : l.Pairwise (· ≤ ·)) {neg : Bool} {x : Int} :
    (Filter.ids l neg).check x = true ↔ (neg = true ↔ x ∉ l) := by
  have h : isExist l x (l.length + 1) 0 ((l.length : Int) - 1) = true ↔ x ∈ l := by
    rw [isExist_iff hs (by omega) (by omega) (by omega), List.mem_iff_getElem?]
    constructor
    · rintro ⟨i, _, _, h⟩; exact ⟨i, h⟩
    · rintro ⟨i, h⟩
      have := (List.getElem?_eq_some_iff.1 h).1
      exact ⟨i, by omega, by omega, h⟩
  unfold Filter.check
  dsimp only
  cases neg with
  | true =>
    rw [if_pos rfl, Bool.not_eq_true']
    constructor
    · intro h'
      refine ⟨fun _ hm => ?_, fun _ => rfl⟩
      rw [h.2 hm] at h'; cases h'
    · intro h'
      have := h'.1 rfl
      cases hc : isExist l x (l.length + 1) 0 ((l.length : Int) - 1) with
      | false => rfl
      | true => exact absurd (h.1 hc) this
  | false =>
    rw [if_neg (by simp), h]
    constructor
    · intro hm
      exact ⟨(by intro h; cases h), fun hn => absurd hm hn⟩
    · intro h'
      apply Classical.byContradiction
      intro hn
      cases h'.2 hn

theorem pass_iff {fs : List Filter} {x : Int} : pass fs x = true ↔ ∀ f ∈ fs, f.check x = true := by
  unfold pass; rw [List.all_eq_true]

/-! ## Parallel runs -/

theorem split_one {α : Type} : ∀ {n : Nat} {l : List α}, l.length ≤ n → split n 1 l = l.map fun x => [x] := by
  intro n
  induction n with
  | zero =>
    intro l h
    cases l with
    | nil => rfl
    | cons a l => simp at h
  | succ n ih =>
    intro l h
    cases l with
    | nil => rfl
    | cons a l =>
      unfold split
      simp only [List.isEmpty_cons, Bool.false_eq_true, if_false, List.take_succ_cons, List.take_zero,
        List.drop_succ_cons, List.drop_zero, List.map_cons]
      rw [ih (by simpa using h)]

theorem parallel_one {α : Type} {order : List Nat} {f : Vec → List α} {qs : List Vec}
    (ho : ∀ i, i < qs.length → i ∈ order) : parallel 1 order f qs = qs.map f := by
  unfold parallel
  rw [split_one (Nat.le_refl _)]
  have key : ∀ (order : List Nat) (res : List (List α)), res.length = qs.length →
      (order.foldl (endTask f (qs.map fun x => [x])) res).length = qs.length ∧
      ∀ i, (order.foldl (endTask f (qs.map fun x => [x])) res)[i]? =
        if i ∈ order then (qs.map f)[i]? else res[i]? := by
    intro order
    induction order with
    | nil => intro res h; exact ⟨h, fun i => by simp⟩
    | cons b order ih =>
      intro res h
      rw [List.foldl_cons]
      have hstep : (endTask f (qs.map fun x => [x]) res b).length = qs.length ∧
          ∀ i, (endTask f (qs.map fun x => [x]) res b)[i]? = if i = b then (qs.map f)[i]? else res[i]? := by
        unfold endTask
        rw [List.getElem?_map]
        cases hq : qs[b]? with
        | none =>
          simp only [Option.map_none]
          refine ⟨h, fun i => ?_⟩
          split
          · rename_i e
            subst e
            rw [List.getElem?_map, hq]
            rw [List.getElem?_eq_none_iff] at hq
            exact List.getElem?_eq_none (by omega)
          · rfl
        | some q =>
          have hb : b < res.length := by rw [h]; exact (List.getElem?_eq_some_iff.1 hq).1
          simp only [Option.map_some, List.map_cons, List.map_nil, writePart]
          refine ⟨by simpa using h, fun i => ?_⟩
          rw [List.getElem?_set]
          by_cases e : b = i
          · subst e
            rw [if_pos rfl, if_pos hb, if_pos rfl, List.getElem?_map, hq]
            rfl
          · rw [if_neg e, if_neg (fun e' => e e'.symm)]
      obtain ⟨h1, h2⟩ := ih _ hstep.1
      refine ⟨h1, fun i => ?_⟩
      rw [h2 i, hstep.2 i]
      by_cases hi : i ∈ order
      · rw [if_pos hi, if_pos (List.mem_cons_of_mem _ hi)]
      · rw [if_neg hi]
        by_cases e : i = b
        · rw [if_pos e, if_pos (by rw [e]; exact List.mem_cons_self)]
        · rw [if_neg e, if_neg]
          intro hm
          rcases List.mem_cons.1 hm with h | h
          · exact e h
          · exact hi h
  obtain ⟨h1, h2⟩ := key order (List.replicate qs.length []) (by simp)
  apply List.ext_getElem?
  intro i
  rw [h2 i]
  split
  · rfl
  · rename_i hi
    have : qs.length ≤ i := by
      apply Classical.byContradiction
      intro hc
      exact hi (ho i (by omega))
    rw [List.getElem?_eq_none (by simpa using this), List.getElem?_eq_none (by simpa using this)]

theorem parallel_fair {α : Type} {P : Pool} {qs : List Vec} (hP : P.Fair qs) (n : Nat) (f : Vec → List α) :
    parallel P.size (P.order n) f qs = qs.map f := by
  rw [hP.1]; exact parallel_one (hP.2 n)

theorem each_map {qs : List Vec} {f : Vec → List Hit} {R : Vec → List Hit → Prop} (h : ∀ q ∈ qs, R q (f q)) :
    Each qs R (qs.map f) := by
  refine ⟨by simp, ?_⟩
  intro j q hq
  exact ⟨f q, by rw [List.getElem?_map, hq]; rfl, h q (List.mem_of_getElem? hq)⟩

theorem Each.imp {qs : List Vec} {R R' : Vec → List Hit → Prop} {rs : List (List Hit)} (h : Each qs R rs)
    (hi : ∀ q res, R q res → R' q res) : Each qs R' rs := by
  refine ⟨h.1, fun j q hq => ?_⟩
  obtain ⟨res, h1, h2⟩ := h.2 j q hq
  exact ⟨res, h1, hi _ _ h2⟩

theorem each_zip {β : Type} {qs : List Vec} {R R'' : Vec → List Hit → Prop} {rs : List (List Hit)} {f : Vec → β}
    {c : List Hit → β → List Hit} (h : Each qs R rs) (hi : ∀ q ∈ qs, ∀ a, R q a → R'' q (c a (f q))) :
    Each qs R'' (List.zipWith c rs (qs.map f)) := by
  refine ⟨by simp [h.1], fun j q hq => ?_⟩
  obtain ⟨res, h1, h2⟩ := h.2 j q hq
  refine ⟨c res (f q), ?_, hi q (List.mem_of_getElem? hq) res h2⟩
  rw [List.getElem?_zipWith, h1, List.getElem?_map, hq]
  rfl

/-! ## One index -/

theorem userDist_eq {F : Faiss} {m : Metric} {q v : Vec} : userDist F m (F.score m q v) = distance F m q v := by
  cases m <;> rfl

theorem near_iff {F : Faiss} {m : Metric} {a b : Int} : m.near a b ↔ userDist F m a ≤ userDist F m b := by
  cases m <;> simp [Metric.near, userDist, Metric.inner] <;> omega

theorem userDist_inj {F : Faiss} {m : Metric} {a b : Int} : userDist F m a = userDist F m b ↔ a = b := by
  cases m <;> simp [userDist, Metric.inner] <;> omega

theorem scored_mem {F : Faiss} {m : Metric} {ix : Index} {fs : List Filter} {q : Vec} {h : Hit} :
    h ∈ scored F m ix fs q ↔ ∃ v, (h.id, v) ∈ ix ∧ pass fs h.id = true ∧ h.dist = F.score m q v := by
  unfold scored
  rw [List.mem_map]
  constructor
  · rintro ⟨⟨i, v⟩, h1, rfl⟩
    rw [List.mem_filter] at h1
    exact ⟨v, h1.1, h1.2, rfl⟩
  · rintro ⟨v, h1, h2, h3⟩
    exact ⟨(h.id, v), List.mem_filter.2 ⟨h1, h2⟩, by cases h; simp_all⟩

theorem scored_once {F : Faiss} {m : Metric} {ix : Index} {fs : List Filter} {q : Vec} (h : (ix.map (·.1)).Nodup) :
    ((scored F m ix fs q).map (·.id)).Nodup := by
  unfold scored
  rw [List.map_map]
  unfold List.Nodup at h ⊢
  rw [List.pairwise_map] at h ⊢
  exact h.filter _

/-- The hits of an index. -/
def InIx (F : Faiss) (m : Metric) (ix : Index) (fs : List Filter) (q : Vec) (h : Hit) : Prop :=
  ∃ v, (h.id, v) ∈ ix ∧ pass fs h.id = true ∧ h.dist = distance F m q v

theorem fill_hits {F : Faiss} {m : Metric} {res pad : List Hit} (hp : ∀ h ∈ pad, h.id = -1) (hr : ∀ h ∈ res, 0 ≤ h.id) :
    fillHits F m (res ++ pad) = res.map fun h => ⟨h.id, userDist F m h.dist⟩ := by
  unfold fillHits
  rw [List.filterMap_append]
  have h1 : pad.filterMap (fun h : Hit => if h.id < 0 then none else some (⟨h.id, userDist F m h.dist⟩ : Hit)) = [] := by
    rw [List.filterMap_eq_nil_iff]
    intro h hh
    rw [if_pos (by rw [hp h hh]; omega)]
  rw [h1, List.append_nil]
  clear h1
  induction res with
  | nil => rfl
  | cons a res ih =>
    rw [List.filterMap_cons, List.map_cons, if_neg (by have := hr a List.mem_cons_self; omega)]
    rw [← ih fun h hh => hr h (List.mem_cons_of_mem _ hh)]

theorem user_mem {F : Faiss} {m : Metric} {ix : Index} {fs : List Filter} {q : Vec} {h : Hit} :
    InIx F m ix fs q h ↔ ∃ h' ∈ scored F m ix fs q, h = ⟨h'.id, userDist F m h'.dist⟩ := by
  constructor
  · rintro ⟨v, h1, h2, h3⟩
    refine ⟨⟨h.id, F.score m q v⟩, scored_mem.2 ⟨v, h1, h2, rfl⟩, ?_⟩
    cases h
    simp only at h3
    simp [userDist_eq, h3]
  · rintro ⟨h', h1, rfl⟩
    obtain ⟨v, h2, h3, h4⟩ := scored_mem.1 h1
    exact ⟨v, h2, h3, by rw [h4]; exact userDist_eq⟩

theorem Faiss.Exact.good {F : Faiss} (h : F.Exact) : F.Good := by
  intro m L k h1 h2
  obtain ⟨res, pad, a, b, c, d, e, f, _⟩ := h.top m L k h1 h2
  exact ⟨res, pad, a, b, c, d, e, f⟩

theorem listing_map {F : Faiss} {m : Metric} {ix : Index} {fs : List Filter} {q : Vec} {k : Nat} {res : List Hit}
    (c : ∀ h ∈ res, h ∈ scored F m ix fs q) (d : (res.map (·.id)).Nodup)
    (e : res.Pairwise (fun a b => m.near a.dist b.dist)) (f : res.length ≤ k) :
    Listing k (InIx F m ix fs q) (res.map fun h => ⟨h.id, userDist F m h.dist⟩) := by
  refine { mem := ?_, once := ?_, sorted := ?_, short := by simpa using f }
  · intro h hh
    obtain ⟨h', h1, rfl⟩ := List.mem_map.1 hh
    exact user_mem.2 ⟨h', c h' h1, rfl⟩
  · rw [List.map_map]
    exact d
  · rw [List.pairwise_map]
    exact e.imp fun h => near_iff.1 h

theorem flat_sound {F : Faiss} (hF : F.Good) {m : Metric} {ix : Index} (ho : (ix.map (·.1)).Nodup)
    (hp : ∀ p ∈ ix, 0 ≤ p.1) {fs : List Filter} {k : Nat} {q : Vec} :
    Listing k (InIx F m ix fs q) (flatSearch F m ix fs k q) := by
  have hpos : ∀ h ∈ scored F m ix fs q, 0 ≤ h.id := by
    intro h hh
    obtain ⟨v, h1, _⟩ := scored_mem.1 hh
    exact hp _ h1
  obtain ⟨res, pad, a, b, c, d, e, f⟩ := hF m (scored F m ix fs q) k (scored_once ho) hpos
  unfold flatSearch
  rw [a, fill_hits b (fun h hh => hpos h (c h hh))]
  exact listing_map c d e f

theorem flat_topK {F : Faiss} (hF : F.Exact) {m : Metric} {ix : Index} (ho : (ix.map (·.1)).Nodup)
    (hp : ∀ p ∈ ix, 0 ≤ p.1) {fs : List Filter} {k : Nat} {q : Vec} :
    TopK k (InIx F m ix fs q) (flatSearch F m ix fs k q) := by
  have hpos : ∀ h ∈ scored F m ix fs q, 0 ≤ h.id := by
    intro h hh
    obtain ⟨v, h1, _⟩ := scored_mem.1 hh
    exact hp _ h1
  obtain ⟨res, pad, a, b, c, d, e, f, g⟩ := hF.top m (scored F m ix fs q) k (scored_once ho) hpos
  unfold flatSearch
  rw [a, fill_hits b (fun h hh => hpos h (c h hh))]
  refine { listing_map c d e f with best := ?_ }
  intro h hh hn
  obtain ⟨h', h1, rfl⟩ := user_mem.1 hh
  obtain ⟨h2, h3⟩ := g h' h1 (fun hr => hn (List.mem_map.2 ⟨h', hr, rfl⟩))
  refine ⟨by simpa using h2, ?_⟩
  intro r hr
  obtain ⟨r', h4, rfl⟩ := List.mem_map.1 hr
  exact near_iff.1 (h3 r' h4)

theorem range_mem {F : Faiss} (hF : F.Exact) {m : Metric} {ix : Index} (ho : (ix.map (·.1)).Nodup)
    {fs : List Filter} {r : Int} {q : Vec} :
    ((flatRange F m ix fs r q).map (·.id)).Nodup ∧
      ∀ h, h ∈ flatRange F m ix fs r q ↔ InIx F m ix fs q h ∧ h.dist < r := by
  obtain ⟨h1, h2⟩ := hF.within m (scored F m ix fs q) (if m.inner then F.one - r else r) (scored_once ho)
  have hr : ∀ x, ¬ m.near (if m.inner then F.one - r else r) x ↔ userDist F m x < r := by
    intro x
    cases m <;> simp [Metric.near, userDist, Metric.inner] <;> omega
  unfold flatRange
  refine ⟨by rw [List.map_map]; exact h1, ?_⟩
  intro h
  rw [List.mem_map, user_mem]
  constructor
  · rintro ⟨h', h3, rfl⟩
    obtain ⟨h4, h5⟩ := (h2 h').1 h3
    exact ⟨⟨h', h4, rfl⟩, (hr _).1 h5⟩
  · rintro ⟨⟨h', h3, rfl⟩, h4⟩
    exact ⟨h', (h2 h').2 ⟨h3, (hr _).2 h4⟩, rfl⟩

end Verif.VecQuery
