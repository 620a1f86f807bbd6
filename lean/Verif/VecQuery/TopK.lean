import Verif.VecQuery.SpecSearch

/-! # The nearest of a set (lemmas) -/

namespace Verif.VecQuery

theorem sub_of_len {α : Type} [DecidableEq α] : ∀ {R T : List α}, R.Nodup → (∀ x ∈ R, x ∈ T) → T.length ≤ R.length →
    ∀ x ∈ T, x ∈ R := by
  intro R
  induction R with
  | nil => intro T _ _ h x hx; cases T with
    | nil => cases hx
    | cons a T => simp at h
  | cons a R ih =>
    intro T hn hs hl x hx
    have hn' := List.nodup_cons.1 hn
    by_cases e : x = a
    · subst e; exact List.mem_cons_self
    · refine List.mem_cons_of_mem _ (ih (T := T.erase a) hn'.2 ?_ ?_ x ((List.mem_erase_of_ne e).2 hx))
      · intro y hy
        have : y ≠ a := by rintro rfl; exact hn'.1 hy
        exact (List.mem_erase_of_ne this).2 (hs y (List.mem_cons_of_mem _ hy))
      · rw [List.length_erase_of_mem (hs a List.mem_cons_self)]
        simp at hl
        omega

theorem len_of_sub {α : Type} [DecidableEq α] : ∀ {A B : List α}, A.Nodup → (∀ x ∈ A, x ∈ B) → A.length ≤ B.length := by
  intro A
  induction A with
  | nil => intro B _ _; simp
  | cons a A ih =>
    intro B hn hs
    have hn' := List.nodup_cons.1 hn
    have := ih (B := B.erase a) hn'.2 (by
      intro y hy
      have : y ≠ a := by rintro rfl; exact hn'.1 hy
      exact (List.mem_erase_of_ne this).2 (hs y (List.mem_cons_of_mem _ hy)))
    rw [List.length_erase_of_mem (hs a List.mem_cons_self)] at this
    have hp : 0 < B.length := List.length_pos_of_mem (hs a List.mem_cons_self)
    simp
    omega

theorem nodup_of_ids {L : List Hit} (h : (L.map (·.id)).Nodup) : L.Nodup := by
  unfold List.Nodup at h ⊢
  rw [List.pairwise_map] at h
  exact h.imp fun h e => h (by rw [e])

theorem Listing.congr {k : Nat} {S S' : Hit → Prop} {res : List Hit} (h : Listing k S res) (e : ∀ x, S x ↔ S' x) :
    Listing k S' res := { h with mem := fun x hx => (e x).1 (h.mem x hx) }

theorem TopK.congr {k : Nat} {S S' : Hit → Prop} {res : List Hit} (h : TopK k S res) (e : ∀ x, S x ↔ S' x) :
    TopK k S' res :=
  { h.toListing.congr e with best := fun x hx hn => h.best x ((e x).2 hx) hn }

/-- The `k` nearest of a set that is given by its own `k` nearest. -/
theorem TopK.widen {k : Nat} {S S2 : Hit → Prop} {R T : List Hit} (hT : TopK k (fun h => S h ∨ h ∈ R) T)
    (hR : TopK k S2 R) : TopK k (fun h => S h ∨ S2 h) T := by
  refine { hT with mem := ?_, best := ?_ }
  · intro h hh
    rcases hT.mem h hh with h1 | h1
    · exact Or.inl h1
    · exact Or.inr (hR.mem h h1)
  · rintro h (h1 | h1) hn
    · exact hT.best h (Or.inl h1) hn
    · by_cases hr : h ∈ R
      · exact hT.best h (Or.inr hr) hn
      · obtain ⟨h2, h3⟩ := hR.best h h1 hr
        by_cases hall : ∀ r ∈ R, r ∈ T
        · have hsub := sub_of_len (nodup_of_ids hR.once) hall (by have := hT.short; omega)
          refine ⟨?_, fun r hr => h3 r (hsub r hr)⟩
          have h4 := hT.short
          have := len_of_sub (nodup_of_ids hR.once) hall
          omega
        · obtain ⟨r, hrR, hrT⟩ : ∃ r, r ∈ R ∧ r ∉ T := by
            apply Classical.byContradiction
            intro hc
            apply hall
            intro r hr
            apply Classical.byContradiction
            intro hc'
            exact hc ⟨r, hr, hc'⟩
          obtain ⟨h4, h5⟩ := hT.best r (Or.inr hrR) hrT
          exact ⟨h4, fun t ht => Int.le_trans (h5 t ht) (h3 r hrR)⟩

/-! ## Merging -/

theorem mergeHits_listing : ∀ {k : Nat} {A B : List Hit}, (A.map (·.id)).Nodup → (B.map (·.id)).Nodup →
    (∀ a ∈ A, ∀ b ∈ B, a.id ≠ b.id) → A.Pairwise (fun a b => a.dist ≤ b.dist) → B.Pairwise (fun a b => a.dist ≤ b.dist) →
    TopK k (fun h => h ∈ A ∨ h ∈ B) (mergeHits k A B) := by
  intro k
  induction k with
  | zero =>
    intro A B _ _ _ _ _
    refine { mem := ?_, once := ?_, sorted := ?_, short := ?_, best := ?_ } <;> simp [mergeHits]
  | succ n ih =>
    -- taking the first of one list
    have key : ∀ {a : Hit} {C D res : List Hit}, (∀ x ∈ C, a.id ≠ x.id) → (∀ x ∈ D, a.id ≠ x.id) →
        (∀ x ∈ C, a.dist ≤ x.dist) → (∀ x ∈ D, a.dist ≤ x.dist) → TopK n (fun h => h ∈ C ∨ h ∈ D) res →
        TopK (n + 1) (fun h => h ∈ a :: C ∨ h ∈ D) (a :: res) := by
      intro a C D res h1 h2 h3 h4 hT
      refine { mem := ?_, once := ?_, sorted := ?_, short := ?_, best := ?_ }
      · intro h hh
        rcases List.mem_cons.1 hh with rfl | hh
        · exact Or.inl List.mem_cons_self
        · rcases hT.mem h hh with h5 | h5
          · exact Or.inl (List.mem_cons_of_mem _ h5)
          · exact Or.inr h5
      · rw [List.map_cons, List.nodup_cons]
        refine ⟨?_, hT.once⟩
        intro hm
        obtain ⟨x, hx, e⟩ := List.mem_map.1 hm
        rcases hT.mem x hx with h5 | h5
        · exact h1 x h5 e.symm
        · exact h2 x h5 e.symm
      · refine List.pairwise_cons.2 ⟨?_, hT.sorted⟩
        intro x hx
        rcases hT.mem x hx with h5 | h5
        · exact h3 x h5
        · exact h4 x h5
      · have := hT.short
        simp
        exact this
      · intro h hh hn
        have hne : h ≠ a := by rintro rfl; exact hn List.mem_cons_self
        have hnr : h ∉ res := fun hr => hn (List.mem_cons_of_mem _ hr)
        have hh' : h ∈ C ∨ h ∈ D := by
          rcases hh with hh | hh
          · rcases List.mem_cons.1 hh with e | hh
            · exact absurd e hne
            · exact Or.inl hh
          · exact Or.inr hh
        obtain ⟨h5, h6⟩ := hT.best h hh' hnr
        refine ⟨by simp [h5], ?_⟩
        intro r hr
        rcases List.mem_cons.1 hr with rfl | hr
        · rcases hh' with h7 | h7
          · exact h3 h h7
          · exact h4 h h7
        · exact h6 r hr
    have swap : ∀ {S S' : Hit → Prop} {k : Nat} {res : List Hit}, TopK k (fun h => S h ∨ S' h) res →
        TopK k (fun h => S' h ∨ S h) res := fun h => h.congr fun x => or_comm
    intro A B hA hB hd sA sB
    cases A with
    | nil =>
      cases B with
      | nil => refine { mem := ?_, once := ?_, sorted := ?_, short := ?_, best := ?_ } <;> simp [mergeHits]
      | cons b B =>
        rw [List.map_cons, List.nodup_cons] at hB
        have := ih (A := []) (B := B) List.nodup_nil hB.2 (by intro a ha; cases ha) List.Pairwise.nil sB.tail
        exact swap (key (fun x hx e => hB.1 (List.mem_map.2 ⟨x, hx, e.symm⟩)) (by intro x hx; cases hx)
          (List.pairwise_cons.1 sB).1 (by intro x hx; cases hx) (swap this))
    | cons a A =>
      rw [List.map_cons, List.nodup_cons] at hA
      cases B with
      | nil =>
        have := ih (A := A) (B := []) hA.2 List.nodup_nil (by intro a ha b hb; cases hb) sA.tail List.Pairwise.nil
        exact key (fun x hx e => hA.1 (List.mem_map.2 ⟨x, hx, e.symm⟩)) (by intro x hx; cases hx)
          (List.pairwise_cons.1 sA).1 (by intro x hx; cases hx) this
      | cons b B =>
        unfold mergeHits
        split
        · rename_i hle
          have := ih (A := A) (B := b :: B) hA.2 hB (fun x hx => hd x (List.mem_cons_of_mem _ hx)) sA.tail sB
          refine key (fun x hx e => hA.1 (List.mem_map.2 ⟨x, hx, e.symm⟩)) (fun x hx => hd a List.mem_cons_self x hx)
            (List.pairwise_cons.1 sA).1 ?_ this
          intro x hx
          rcases List.mem_cons.1 hx with rfl | hx
          · exact hle
          · exact Int.le_trans hle ((List.pairwise_cons.1 sB).1 x hx)
        · rename_i hle
          rw [List.map_cons, List.nodup_cons] at hB
          have := ih (A := a :: A) (B := B) (by rw [List.map_cons, List.nodup_cons]; exact hA) hB.2
            (fun x hx y hy => hd x hx y (List.mem_cons_of_mem _ hy)) sA sB.tail
          refine swap (key (fun x hx e => hB.1 (List.mem_map.2 ⟨x, hx, e.symm⟩))
            (fun x hx e => hd x hx b List.mem_cons_self e.symm) (List.pairwise_cons.1 sB).1 ?_ (swap this))
          intro x hx
          rcases List.mem_cons.1 hx with rfl | hx
          · omega
          · exact Int.le_trans (by omega) ((List.pairwise_cons.1 sA).1 x hx)

/-- Merging two lists of nearest. -/
theorem mergeHits_topK {k : Nat} {S S' : Hit → Prop} {A B : List Hit} (hA : TopK k S A) (hB : TopK k S' B)
    (hd : ∀ a b, S a → S' b → a.id ≠ b.id) : TopK k (fun h => S h ∨ S' h) (mergeHits k A B) := by
  have h1 := mergeHits_listing (k := k) hA.once hB.once (fun a ha b hb => hd a b (hA.mem a ha) (hB.mem b hb)) hA.sorted hB.sorted
  have h2 := h1.widen hB
  exact ((h2.congr fun x => or_comm).widen hA).congr fun x => or_comm

/-- Merging two sound lists. -/
theorem mergeHits_sound {k : Nat} {S S' : Hit → Prop} {A B : List Hit} (hA : Listing k S A) (hB : Listing k S' B)
    (hd : ∀ a b, S a → S' b → a.id ≠ b.id) : Listing k (fun h => S h ∨ S' h) (mergeHits k A B) := by
  have h1 := (mergeHits_listing (k := k) hA.once hB.once (fun a ha b hb => hd a b (hA.mem a ha) (hB.mem b hb)) hA.sorted hB.sorted).toListing
  refine { h1 with mem := ?_ }
  intro h hh
  rcases h1.mem h hh with h2 | h2
  · exact Or.inl (hA.mem h h2)
  · exact Or.inr (hB.mem h h2)

/-! ## The heap -/

/-- The order of the heap. -/
def HLt (a b : Hit) : Prop := a.dist < b.dist ∨ a.dist = b.dist ∧ a.id < b.id

theorem lt_iff {a b : Hit} : a.lt b = true ↔ HLt a b := by
  unfold Hit.lt HLt
  split
  · simp; omega
  · simp; omega

theorem insertHit_mem {h x : Hit} : ∀ {t : List Hit}, x ∈ insertHit h t ↔ x = h ∨ x ∈ t := by
  intro t
  induction t with
  | nil => simp [insertHit]
  | cons y t ih =>
    unfold insertHit
    split
    · simp
    · rw [List.mem_cons, ih, List.mem_cons]
      constructor
      · rintro (h | h | h) <;> simp [h]
      · rintro (h | h | h) <;> simp [h]

theorem insertHit_length {h : Hit} : ∀ {t : List Hit}, (insertHit h t).length = t.length + 1 := by
  intro t
  induction t with
  | nil => rfl
  | cons y t ih =>
    unfold insertHit
    split
    · rfl
    · simp [ih]

theorem insertHit_sorted {h : Hit} : ∀ {t : List Hit}, t.Pairwise HLt → (∀ x ∈ t, x.id ≠ h.id) →
    (insertHit h t).Pairwise HLt := by
  intro t
  induction t with
  | nil => intro _ _; simp [insertHit]
  | cons y t ih =>
    intro hs hn
    obtain ⟨h1, h2⟩ := List.pairwise_cons.1 hs
    unfold insertHit
    split
    · rename_i hc
      rw [lt_iff] at hc
      refine List.pairwise_cons.2 ⟨?_, hs⟩
      intro x hx
      rcases List.mem_cons.1 hx with rfl | hx
      · exact hc
      · have := h1 x hx
        unfold HLt at *
        omega
    · rename_i hc
      have hc' : ¬ HLt h y := fun h' => hc (lt_iff.2 h')
      refine List.pairwise_cons.2 ⟨?_, ih h2 (fun x hx => hn x (List.mem_cons_of_mem _ hx))⟩
      intro x hx
      rcases insertHit_mem.1 hx with rfl | hx
      · have := hn y List.mem_cons_self
        unfold HLt at *
        omega
      · exact h1 x hx

theorem sorted_dist {t : List Hit} (h : t.Pairwise HLt) : t.Pairwise fun a b => a.dist ≤ b.dist :=
  h.imp fun h => by unfold HLt at h; omega

theorem insertHit_once {h : Hit} {t : List Hit} (ho : (t.map (·.id)).Nodup) (hn : ∀ x ∈ t, x.id ≠ h.id) :
    ((insertHit h t).map (·.id)).Nodup := by
  induction t with
  | nil => simp [insertHit]
  | cons y t ih =>
    rw [List.map_cons, List.nodup_cons] at ho
    unfold insertHit
    split
    · rw [List.map_cons, List.nodup_cons, List.map_cons, List.nodup_cons]
      refine ⟨?_, ho⟩
      intro hm
      rcases List.mem_cons.1 hm with e | hm
      · exact hn y List.mem_cons_self e.symm
      · obtain ⟨x, hx, e⟩ := List.mem_map.1 hm
        exact hn x (List.mem_cons_of_mem _ hx) e
    · rw [List.map_cons, List.nodup_cons]
      refine ⟨?_, ih ho.2 (fun x hx => hn x (List.mem_cons_of_mem _ hx))⟩
      intro hm
      obtain ⟨x, hx, e⟩ := List.mem_map.1 hm
      rcases insertHit_mem.1 hx with rfl | hx
      · exact hn y List.mem_cons_self e.symm
      · exact ho.1 (List.mem_map.2 ⟨x, hx, e⟩)

/-- One more hit. -/
theorem pushHit_topK {k : Nat} (hk : 0 < k) {S : Hit → Prop} {t : List Hit} {h : Hit} (hT : TopK k S t)
    (hs : t.Pairwise HLt) (hn : ∀ x, S x → x.id ≠ h.id) :
    TopK k (fun x => S x ∨ x = h) (pushHit k t h) ∧ (pushHit k t h).Pairwise HLt := by
  have hnt : ∀ x ∈ t, x.id ≠ h.id := fun x hx => hn x (hT.mem x hx)
  unfold pushHit
  split
  · rename_i hl
    have hs' := insertHit_sorted hs hnt
    refine ⟨{ mem := ?_, once := insertHit_once hT.once hnt, sorted := sorted_dist hs', short := ?_, best := ?_ }, hs'⟩
    · intro x hx
      rcases insertHit_mem.1 hx with e | hx
      · exact Or.inr e
      · exact Or.inl (hT.mem x hx)
    · rw [insertHit_length]; omega
    · rintro x (hx | rfl) hno
      · have hxt : x ∉ t := fun hx' => hno (insertHit_mem.2 (Or.inr hx'))
        have := (hT.best x hx hxt).1
        omega
      · exact absurd (insertHit_mem.2 (Or.inl rfl)) hno
  · rename_i hl
    have hlen : t.length = k := by have := hT.short; omega
    rcases List.eq_nil_or_concat t with e | ⟨t', l, e⟩
    · subst e; simp at hlen; omega
    · rw [List.concat_eq_append] at e
      subst e
      rw [List.getLast?_append]
      simp only [List.getLast?_singleton, Option.some_or]
      rw [List.dropLast_concat]
      have hsplit := List.pairwise_append.1 hs
      have hlast : ∀ x ∈ t', x.dist ≤ l.dist := by
        intro x hx
        have := hsplit.2.2 x hx l List.mem_cons_self
        unfold HLt at this
        omega
      split
      · rename_i hgt
        have hnt' : ∀ x ∈ t', x.id ≠ h.id := fun x hx => hnt x (List.mem_append_left _ hx)
        have hs' := insertHit_sorted hsplit.1 hnt'
        have ho := hT.once
        rw [List.map_append, List.nodup_append] at ho
        refine ⟨{ mem := ?_, once := insertHit_once ho.1 hnt', sorted := sorted_dist hs', short := ?_, best := ?_ }, hs'⟩
        · intro x hx
          rcases insertHit_mem.1 hx with e | hx
          · exact Or.inr e
          · exact Or.inl (hT.mem x (List.mem_append_left _ hx))
        · rw [insertHit_length]; simp at hlen; omega
        · intro x hx hno
          have hlen' : (insertHit h t').length = k := by rw [insertHit_length]; simp at hlen; omega
          refine ⟨hlen', ?_⟩
          rcases hx with hx | rfl
          · have hge : l.dist ≤ x.dist := by
              by_cases hm : x ∈ t' ++ [l]
              · rcases List.mem_append.1 hm with hm | hm
                · exact absurd (insertHit_mem.2 (Or.inr hm)) hno
                · rw [List.mem_singleton] at hm; rw [hm]; exact Int.le_refl _
              · exact (hT.best x hx hm).2 l (List.mem_append_right _ List.mem_cons_self)
            intro r hr
            rcases insertHit_mem.1 hr with rfl | hr
            · omega
            · exact Int.le_trans (hlast r hr) hge
          · exact absurd (insertHit_mem.2 (Or.inl rfl)) hno
      · rename_i hle
        refine ⟨{ hT with mem := fun x hx => Or.inl (hT.mem x hx), best := ?_ }, hs⟩
        rintro x (hx | rfl) hno
        · exact hT.best x hx hno
        · refine ⟨hlen, ?_⟩
          intro r hr
          rcases List.mem_append.1 hr with hr | hr
          · exact Int.le_trans (hlast r hr) (by omega)
          · rw [List.mem_singleton] at hr; subst hr; omega

/-- The hits of a batch, one after another. -/
theorem foldl_pushHit {k : Nat} (hk : 0 < k) : ∀ {R : List Hit} {S : Hit → Prop} {t : List Hit}, TopK k S t →
    t.Pairwise HLt → (R.map (·.id)).Nodup → (∀ x, S x → ∀ r ∈ R, x.id ≠ r.id) →
    TopK k (fun x => S x ∨ x ∈ R) (R.foldl (pushHit k) t) ∧ (R.foldl (pushHit k) t).Pairwise HLt := by
  intro R
  induction R with
  | nil => intro S t hT hs _ _; exact ⟨hT.congr (by simp), hs⟩
  | cons r R ih =>
    intro S t hT hs ho hn
    rw [List.map_cons, List.nodup_cons] at ho
    obtain ⟨h1, h2⟩ := pushHit_topK hk hT hs (fun x hx => hn x hx r List.mem_cons_self)
    obtain ⟨h3, h4⟩ := ih h1 h2 ho.2 (by
      rintro x (hx | rfl) y hy
      · exact hn x hx y (List.mem_cons_of_mem _ hy)
      · intro e
        exact ho.1 (List.mem_map.2 ⟨y, hy, e.symm⟩))
    rw [List.foldl_cons]
    refine ⟨h3.congr ?_, h4⟩
    intro x
    rw [List.mem_cons]
    constructor
    · rintro ((h | h) | h)
      · exact Or.inl h
      · exact Or.inr (Or.inl h)
      · exact Or.inr (Or.inr h)
    · rintro (h | h | h)
      · exact Or.inl (Or.inl h)
      · exact Or.inl (Or.inr h)
      · exact Or.inr h

/-- The nearest of a batch, offered to the heap. -/
theorem batch_topK {k : Nat} (hk : 0 < k) {S S' : Hit → Prop} {t R : List Hit} (hT : TopK k S t) (hs : t.Pairwise HLt)
    (hR : TopK k S' R) (hd : ∀ a b, S a → S' b → a.id ≠ b.id) :
    TopK k (fun x => S x ∨ S' x) (R.foldl (pushHit k) t) ∧ (R.foldl (pushHit k) t).Pairwise HLt := by
  obtain ⟨h1, h2⟩ := foldl_pushHit hk hT hs hR.once (fun x hx r hr => hd x r hx (hR.mem r hr))
  exact ⟨h1.widen hR, h2⟩

end Verif.VecQuery
