import Verif.Replica.Inv

/-! Every step keeps the invariant. -/

namespace Verif.Replica

theorem NodeOk.save {cfs : List Nat} {v : View} {log : List Entry} {b : Node} (h : NodeOk cfs v log b)
    (hup : b.phase = .up) : NodeOk cfs v log { b with saved := b.applied } := by
  have hnd : b.phase ≠ .down := by rw [hup]; simp
  refine { h with saved_le := h.applied_le hnd, saved_applied := fun _ => Nat.le_refl _, blank0 := ?_, st := ?_ }
  · intro hb
    obtain ⟨_, h2, h3⟩ := h.blank0 hb
    exact ⟨h2 hnd, h2, h3⟩
  · have hst := h.st
    unfold StOk at hst ⊢
    dsimp only
    rw [hup] at hst ⊢
    exact hst

theorem NodeOk.snapshot {cfs : List Nat} {v : View} {log : List Entry} {b : Node} (h : NodeOk cfs v log b)
    (hup : b.phase = .up) (hlt : b.base < b.applied) :
    NodeOk cfs v log { b with base := b.applied, inst := none } := by
  have hnd : b.phase ≠ .down := by rw [hup]; simp
  have hst := h.st
  unfold StOk at hst
  rw [hup] at hst
  rcases hst with ⟨hb, hc⟩ | ⟨hb, _⟩
  · refine { h with base_le := h.applied_le hnd, blank0 := ?_, inst_ok := ?_, st := ?_ }
    · intro hb'; rw [hb] at hb'; cases hb'
    · intro sn hs; cases hs
    · unfold StOk
      dsimp only
      rw [hup]
      refine .inl ⟨hb, ?_⟩
      have e : b.pos = max b.applied b.applied := by unfold Node.pos; omega
      rw [e] at hc
      exact hc
  · have := (h.blank0 hb).2.1 hnd; omega

theorem NodeOk.crash {cfs : List Nat} {v : View} {log : List Entry} {b : Node} (h : NodeOk cfs v log b)
    (hf : fragile cfs b = false) : NodeOk cfs v log { b with phase := .down } := by
  refine { h with applied_le := ?_, saved_applied := ?_, blank0 := ?_, st := ?_ }
  · intro hh; exact absurd rfl hh
  · intro hh; exact absurd rfl hh
  · intro hb; exact ⟨(h.blank0 hb).1, fun hh => absurd rfl hh, (h.blank0 hb).2.2⟩
  · have hst := h.st
    have hfull : ∀ sn, b.inst = some sn → b.saved < sn.index → full cfs sn = true := by
      intro sn hs hlt
      unfold fragile at hf
      rw [hs] at hf
      simpa [hlt] using hf
    unfold StOk at hst ⊢
    dsimp only
    cases hp : b.phase with
    | down => rw [hp] at hst; exact hst
    | up =>
      rw [hp] at hst
      dsimp only at hst
      have hsa := h.saved_applied (by rw [hp]; simp)
      have hle : max b.saved b.base ≤ b.pos := by unfold Node.pos; omega
      rcases hst with ⟨h1, h2⟩ | ⟨h1, h2, h3⟩
      · cases hi : b.inst with
        | none => exact .inl ⟨h1, h2.lower hle⟩
        | some sn =>
          dsimp only
          rcases Nat.lt_or_ge b.saved sn.index with hlt | hge
          · exact .inl ⟨hlt, hfull sn hi hlt, .inr ⟨h1, _, h2⟩⟩
          · exact .inr ⟨hge, h1, h2.lower hle⟩
      · rw [h3]; exact .inr ⟨h1, h2⟩
    | load pc =>
      rw [hp] at hst
      cases pc with
      | check =>
        obtain ⟨sn, h1, h2, h3, h4⟩ := hst
        rw [h1]
        exact .inl ⟨h3, h2, h4⟩
      | wipe =>
        obtain ⟨sn, h1, h2, h3, h4, _⟩ := hst
        rw [h1]
        exact .inl ⟨h3, h2, .inl (by dsimp only; omega)⟩
      | ingest todo =>
        obtain ⟨sn, h1, h2, h3, h4, _⟩ := hst
        rw [h1]
        exact .inl ⟨h3, h2, .inl (by dsimp only; omega)⟩
      | clean todo =>
        obtain ⟨sn, h1, h2, h3, h4⟩ := hst
        have hi := hfull sn h1 h3
        rw [h1]
        exact .inl ⟨h3, hi, .inr ⟨h2, _, h4⟩⟩
      | done =>
        obtain ⟨sn, h1, h2, h3, h4⟩ := hst
        have hi := hfull sn h1 h3
        rw [h1]
        exact .inl ⟨h3, hi, .inr ⟨h2, _, h4⟩⟩

theorem NodeOk.start {cfs : List Nat} {v : View} {log : List Entry} {b : Node} (h : NodeOk cfs v log b) :
    NodeOk cfs v log (start b) := by
  have hst := h.st
  unfold StOk at hst
  unfold Verif.Replica.start
  cases hp : b.phase with
  | up => exact h
  | load pc => exact h
  | down =>
    rw [hp] at hst
    dsimp only at hst ⊢
    cases hi : b.inst with
    | none =>
      rw [hi] at hst
      dsimp only at hst ⊢
      refine { h with applied_le := fun _ => h.saved_le, saved_applied := fun _ => Nat.le_refl _, blank0 := ?_, inst_ok := ?_, st := ?_ }
      · intro hb; exact ⟨(h.blank0 hb).1, fun _ => (h.blank0 hb).1, fun _ => (h.blank0 hb).2.2 hi⟩
      · intro sn hs; cases hs
      · unfold StOk
        dsimp only
        rcases hst with ⟨h1, h2⟩ | ⟨h1, h2⟩
        · exact .inl ⟨h1, h2⟩
        · exact .inr ⟨h1, h2, rfl⟩
    | some sn =>
      rw [hi] at hst
      dsimp only at hst ⊢
      rcases hst with ⟨h1, h2, h3⟩ | ⟨h1, h2, h3⟩
      · rw [if_pos h1]
        refine { h with applied_le := fun _ => h.saved_le, saved_applied := fun _ => Nat.le_refl _, blank0 := ?_, inst_ok := ?_, st := ?_ }
        · intro hb; exact ⟨(h.blank0 hb).1, fun _ => (h.blank0 hb).1, fun hh => by cases hh⟩
        · intro sn' hs; exact h.inst_ok sn' (hi.trans hs)
        · unfold StOk
          dsimp only
          exact ⟨sn, rfl, h2, h1, h3⟩
      · rw [if_neg (by omega)]
        refine { h with applied_le := fun _ => h.saved_le, saved_applied := fun _ => Nat.le_refl _, blank0 := ?_, inst_ok := ?_, st := ?_ }
        · intro hb; exact ⟨(h.blank0 hb).1, fun _ => (h.blank0 hb).1, fun hh => by cases hh⟩
        · intro sn' hs; exact h.inst_ok sn' (hi.trans hs)
        · unfold StOk
          dsimp only
          exact .inl ⟨h2, h3⟩

theorem NodeOk.install {cfs : List Nat} {v : View} {log : List Entry} {b : Node} (h : NodeOk cfs v log b)
    {sn : Snap} (hg : GoodSnap cfs v log sn) (hf : full cfs sn = true) (hc : canInstall b sn = true)
    (hb : b.blank = true → b.version ≤ sn.version) : NodeOk cfs v log (installSnap b sn) := by
  unfold canInstall at hc
  simp only [Bool.and_eq_true, decide_eq_true_eq] at hc
  obtain ⟨⟨hup, hal⟩, hbl⟩ := hc
  have hnd : b.phase ≠ .down := by rw [hup]; simp
  have hst := h.st
  unfold StOk at hst
  rw [hup] at hst
  dsimp only at hst
  have g1 := hg.1
  have g2 := hg.2.1
  have g3 := hg.2.2.1
  have k1 := h.have_le
  have k2 := h.applied_le hnd
  have k3 := h.saved_le
  have k4 := h.saved_applied hnd
  unfold installSnap
  refine ⟨?_, ?_, ?_, ?_, ?_, ?_, h.ver, ?_, ?_⟩
  · dsimp only; omega
  · dsimp only; omega
  · intro _; dsimp only; omega
  · dsimp only; omega
  · intro _; exact k4
  · intro hbk
    obtain ⟨c1, c2, _⟩ := h.blank0 hbk
    exact ⟨c1, fun _ => c2 hnd, fun hh => by cases hh⟩
  · intro sn' hs'
    obtain rfl := Option.some.inj hs'
    exact ⟨hg, rfl⟩
  · unfold StOk
    dsimp only
    by_cases hlt : b.applied < sn.index
    · rw [if_pos hlt]
      refine ⟨sn, rfl, hf, by omega, ?_⟩
      rcases hst with ⟨h1, h2⟩ | ⟨h1, _⟩
      · exact .inr ⟨h1, _, h2⟩
      · exact .inl (hb h1)
    · rw [if_neg hlt]
      dsimp only
      rcases hst with ⟨h1, h2⟩ | ⟨h1, _⟩
      · refine .inl ⟨h1, ?_⟩
        have e : b.pos = max b.applied sn.last := by unfold Node.pos; omega
        rw [e] at h2
        exact h2
      · have := (h.blank0 h1).2.1 hnd; omega

theorem Close.data {cfs : List Nat} {v : View} {log : List Entry} {b : Node} {p : Nat}
    (h : Close cfs v log b p) (d : Data)
    (hd : ∀ k : Key, cfs.contains k.1 = true → b.range.has k.2 = true → d k = b.data k) :
    Close cfs v log { b with data := d } p := by
  obtain ⟨n, h1, h2, h3, h4, h5⟩ := h
  refine ⟨n, h1, h2, h3, h4, fun k hc hr => ?_⟩
  dsimp only
  rw [hd k hc hr]
  exact h5 k hc hr

/-- Data outside the range do not matter. -/
theorem NodeOk.data {cfs : List Nat} {v : View} {log : List Entry} {b : Node} (h : NodeOk cfs v log b)
    (d : Data) (hd : ∀ k : Key, cfs.contains k.1 = true → b.range.has k.2 = true → d k = b.data k) :
    NodeOk cfs v log { b with data := d } := by
  refine { h with st := ?_ }
  have hst := h.st
  unfold StOk at hst ⊢
  dsimp only
  cases hp : b.phase with
  | up =>
    rw [hp] at hst
    rcases hst with ⟨h1, h2⟩ | hst
    · exact .inl ⟨h1, h2.data d hd⟩
    · exact .inr hst
  | down =>
    rw [hp] at hst
    dsimp only at hst ⊢
    cases hi : b.inst with
    | none =>
      rw [hi] at hst
      rcases hst with ⟨h1, h2⟩ | hst
      · exact .inl ⟨h1, h2.data d hd⟩
      · exact .inr hst
    | some sn =>
      rw [hi] at hst
      rcases hst with ⟨h1, h2, h3 | ⟨h4, p, h5⟩⟩ | ⟨h1, h2, h3⟩
      · exact .inl ⟨h1, h2, .inl h3⟩
      · exact .inl ⟨h1, h2, .inr ⟨h4, p, h5.data d hd⟩⟩
      · exact .inr ⟨h1, h2, h3.data d hd⟩
  | load pc =>
    rw [hp] at hst
    cases pc with
    | check =>
      obtain ⟨sn, h1, h2, h3, h4 | ⟨h4, p, h5⟩⟩ := hst
      · exact ⟨sn, h1, h2, h3, .inl h4⟩
      · exact ⟨sn, h1, h2, h3, .inr ⟨h4, p, h5.data d hd⟩⟩
    | wipe => exact hst
    | ingest todo =>
      obtain ⟨sn, h1, h2, h3, h4, h5, h6, h7, n, e1, e2, e3, e4, e5, e6⟩ := hst
      refine ⟨sn, h1, h2, h3, h4, h5, h6, h7, n, e1, e2, e3, e4, e5, fun k hc hr => ?_⟩
      dsimp only
      rw [hd k hc (by rw [h5]; exact hr)]
      exact e6 k hc hr
    | clean todo => obtain ⟨sn, h1, h2, h3, h4⟩ := hst; exact ⟨sn, h1, h2, h3, h4.data d hd⟩
    | done => obtain ⟨sn, h1, h2, h3, h4⟩ := hst; exact ⟨sn, h1, h2, h3, h4.data d hd⟩

theorem NodeOk.load {cfs : List Nat} {v : View} {log : List Entry} (hlog : LogOk cfs v log)
    (hnd : cfs.Nodup) {b : Node} (h : NodeOk cfs v log b) {sn : Snap} {pc : Pc} (hp : b.phase = .load pc)
    (hi : b.inst = some sn) : NodeOk cfs v log (loadStep cfs b sn pc) := by
  have hst := h.st
  have hup : b.phase ≠ .down := by rw [hp]; simp
  obtain ⟨hg, hbase⟩ := h.inst_ok sn hi
  obtain ⟨g1, g2, g3, gn, q1, q2, q3, q4, q5⟩ := hg
  have k1 := h.applied_le hup
  have k2 := h.saved_applied hup
  unfold StOk at hst
  rw [hp] at hst
  unfold loadStep
  have hsn : ∀ sn', b.inst = some sn' → sn' = sn := by
    intro sn' hs; rw [hi] at hs; exact (Option.some.inj hs).symm
  cases pc with
  | check =>
    obtain ⟨sn', h1, h2, h3, h4⟩ := hst
    obtain rfl := hsn sn' h1
    dsimp only
    by_cases hlt : sn'.version < b.version
    · rw [if_pos hlt]
      refine { h with applied_le := fun _ => k1, saved_applied := fun _ => k2, blank0 := ?_, st := ?_ }
      · intro hb; exact ⟨(h.blank0 hb).1, fun _ => (h.blank0 hb).2.1 hup, (h.blank0 hb).2.2⟩
      · unfold StOk
        rcases h4 with h4 | ⟨h4, p, n, h5⟩
        · omega
        · exact ⟨sn', h1, h4, h3, n, h5.skip hlog q2 q1 (by omega)⟩
    · rw [if_neg hlt]
      by_cases hlt2 : b.version < sn'.version
      · rw [if_pos hlt2]
        refine { h with applied_le := fun _ => k1, saved_applied := fun _ => k2, blank0 := ?_, ver := ⟨gn, q1, q3, q4⟩, st := ?_ }
        · intro hb; exact ⟨(h.blank0 hb).1, fun _ => (h.blank0 hb).2.1 hup, (h.blank0 hb).2.2⟩
        · unfold StOk
          exact ⟨sn', h1, h2, h3, rfl, rfl⟩
      · rw [if_neg hlt2]
        refine { h with applied_le := fun _ => k1, saved_applied := fun _ => k2, blank0 := ?_, st := ?_ }
        · intro hb; exact ⟨(h.blank0 hb).1, fun _ => (h.blank0 hb).2.1 hup, (h.blank0 hb).2.2⟩
        · unfold StOk
          have hveq : b.version = sn'.version := by omega
          refine ⟨sn', h1, h2, h3, hveq, ?_⟩
          dsimp only
          obtain ⟨m, m1, m2, m3⟩ := h.ver
          rw [m3, q4]
          rcases Nat.le_total m gn with hmn | hmn
          · exact ((S_version v log hmn q1).2 (by omega)).symm
          · exact (S_version v log hmn m1).2 (by omega)
  | wipe =>
    obtain ⟨sn', h1, h2, h3, h4, h5⟩ := hst
    obtain rfl := hsn sn' h1
    refine { h with applied_le := fun _ => k1, saved_applied := fun _ => k2, blank0 := ?_, st := ?_ }
    · intro hb; exact ⟨(h.blank0 hb).1, fun _ => (h.blank0 hb).2.1 hup, (h.blank0 hb).2.2⟩
    · unfold StOk
      refine ⟨sn', h1, h2, h3, h4, h5, hnd, fun _ h => h, gn, q1, q2, q3, q4, q5, fun k hc hr => ?_⟩
      left
      refine ⟨hc, ?_⟩
      dsimp only
      unfold wipeRange
      rw [if_pos ⟨hc, by rw [h5]; exact hr⟩]
  | ingest todo =>
    obtain ⟨sn', h1, h2, h3, h4, h5, h6, h7, h8⟩ := hst
    obtain rfl := hsn sn' h1
    cases todo with
    | nil =>
      refine { h with applied_le := fun _ => k1, saved_applied := fun _ => k2, blank0 := ?_, st := ?_ }
      · intro hb; cases hb
      · unfold StOk
        obtain ⟨n, e1, e2, e3, e4, e5, e6⟩ := h8
        refine ⟨sn', h1, rfl, h3, n, e1, e2, ?_, ?_, fun k hc hr => ?_⟩
        · dsimp only; omega
        · dsimp only; rw [h5]; exact e4
        · dsimp only at hr ⊢
          rw [h5] at hr
          rcases e6 k hc hr with ⟨h, _⟩ | ⟨_, h⟩
          · simp at h
          · rw [h4]; exact h
    | cons c cs =>
      have hcc : c ∈ cfs := h7 c (List.mem_cons_self ..)
      have hfc : ∃ f, sn'.files c = some f := by
        unfold full at h2
        rw [List.all_eq_true] at h2
        have := h2 c hcc
        exact Option.isSome_iff_exists.1 this
      obtain ⟨f, hf⟩ := hfc
      dsimp only
      rw [hf]
      dsimp only
      refine { h with applied_le := fun _ => k1, saved_applied := fun _ => k2, blank0 := ?_, st := ?_ }
      · intro hb; exact ⟨(h.blank0 hb).1, fun _ => (h.blank0 hb).2.1 hup, (h.blank0 hb).2.2⟩
      · unfold StOk
        obtain ⟨n, e1, e2, e3, e4, e5, e6⟩ := h8
        obtain ⟨hnin, hnd'⟩ := List.nodup_cons.1 h6
        refine ⟨sn', h1, h2, h3, h4, h5, hnd', fun x hx => h7 x (List.mem_cons_of_mem _ hx), n, e1, e2, e3, e4, e5,
          fun k hc hr => ?_⟩
        dsimp only
        by_cases hk : k.1 = c
        · rw [if_pos hk]
          right
          refine ⟨by rw [hk]; simp [hnin], ?_⟩
          have hno : b.data k = none := by
            rcases e6 k hc hr with ⟨_, h⟩ | ⟨h, _⟩
            · exact h
            · rw [hk] at h; simp at h
          rcases e5 k f hc hr (by rw [hk]; exact hf) with ht | hd
          · exact .inl ht
          · right
            rw [← hd, hno]
            cases f k.2 <;> rfl
        · rw [if_neg hk]
          rcases e6 k hc hr with ⟨h, h'⟩ | ⟨h, h'⟩
          · left
            refine ⟨?_, h'⟩
            simpa [hk] using h
          · right
            refine ⟨?_, h'⟩
            simp only [List.contains_cons, Bool.or_eq_false_iff] at h
            exact h.2
  | clean todo =>
    obtain ⟨sn', h1, h2, h3, h4⟩ := hst
    obtain rfl := hsn sn' h1
    cases todo with
    | nil =>
      refine { h with applied_le := fun _ => k1, saved_applied := fun _ => k2, blank0 := ?_, st := ?_ }
      · intro hb; exact ⟨(h.blank0 hb).1, fun _ => (h.blank0 hb).2.1 hup, (h.blank0 hb).2.2⟩
      · unfold StOk
        exact ⟨sn', h1, h2, h3, h4⟩
    | cons c cs =>
      refine { h with applied_le := fun _ => k1, saved_applied := fun _ => k2, blank0 := ?_, inst_ok := ?_, st := ?_ }
      · intro hb; exact ⟨(h.blank0 hb).1, fun _ => (h.blank0 hb).2.1 hup, fun hh => by cases hh⟩
      · intro sn2 hs2
        obtain rfl := Option.some.inj hs2
        refine ⟨⟨g1, g2, g3, gn, q1, q2, q3, q4, ?_⟩, hbase⟩
        intro k f hc hr hff
        dsimp only at hff
        by_cases hkc : k.1 = c
        · rw [if_pos hkc] at hff; cases hff
        · rw [if_neg hkc] at hff; exact q5 k f hc hr hff
      · unfold StOk
        exact ⟨_, rfl, h2, h3, h4⟩
  | done =>
    obtain ⟨sn', h1, h2, h3, h4⟩ := hst
    obtain rfl := hsn sn' h1
    have k3 := h.base_le
    refine { h with applied_le := ?_, saved_le := ?_, saved_applied := fun _ => Nat.le_refl _, blank0 := ?_, st := ?_ }
    · intro _; dsimp only; omega
    · dsimp only; omega
    · intro hb; dsimp only at hb; rw [h2] at hb; cases hb
    · unfold StOk
      refine .inl ⟨h2, ?_⟩
      have e : sn'.last = max sn'.last b.base := by omega
      rw [e] at h4
      exact h4

theorem goodOpen {cfs : List Nat} {v : View} {log : List Entry} {b : Node} (h : NodeOk cfs v log b)
    (hup : b.phase = .up) (hb : b.blank = false) (h0 : 0 < b.base) (hba : b.base ≤ b.applied) :
    GoodSnap cfs v log (openSnap b) ∧ full cfs (openSnap b) = true := by
  have hnd : b.phase ≠ .down := by rw [hup]; simp
  have hst := h.st
  unfold StOk at hst
  rw [hup] at hst
  have k1 := h.applied_le hnd
  have k2 := h.have_le
  rcases hst with ⟨_, n, e1, e2, e3, e4, e5⟩ | ⟨h1, _⟩
  · refine ⟨⟨hba, h0, ?_, n, e1, ?_, e3, e4, ?_⟩, ?_⟩
    · unfold openSnap; dsimp only; omega
    · unfold openSnap Node.pos at *; dsimp only at *; omega
    · intro k f hc hr hf
      unfold openSnap at hr hf ⊢
      dsimp only at hr hf ⊢
      obtain rfl := Option.some.inj hf
      have hlo : b.range.lo ≤ k.2 := by
        unfold Range.has at hr
        simp only [Bool.and_eq_true, decide_eq_true_eq] at hr
        exact hr.1
      dsimp only
      rw [if_pos hlo]
      rcases e5 k hc hr with h | h
      · exact .inl (h.mono (by unfold Node.pos; omega))
      · exact .inr h
    · unfold full openSnap
      simp
  · rw [hb] at h1; cases h1

theorem Inv.setNode {v : View} {s : Cluster} (h : Inv v s) (a : Nat) (b : Node)
    (hb : NodeOk s.cfs v s.log b) : Inv v { s with nodes := s.nodes.set a b } := by
  refine { h with nodes := ?_ }
  intro i c hc
  dsimp only at hc ⊢
  rw [List.getElem?_set] at hc
  by_cases hi : a = i
  · rw [if_pos hi] at hc
    split at hc
    · obtain rfl := Option.some.inj hc; exact hb
    · cases hc
  · rw [if_neg hi] at hc; exact h.nodes i c hc

theorem Inv.onNode {v : View} {s : Cluster} (h : Inv v s) (a : Nat) (f : Node → Node)
    (hf : ∀ b, s.nodes[a]? = some b → NodeOk s.cfs v s.log b → NodeOk s.cfs v s.log (f b)) :
    Inv v (s.onNode a f) := by
  refine { h with nodes := ?_ }
  intro i c hc
  unfold Cluster.onNode at hc
  dsimp only at hc
  rw [List.getElem?_modify] at hc
  cases hn : s.nodes[i]? with
  | none => rw [hn] at hc; cases hc
  | some b =>
    rw [hn] at hc
    by_cases hi : a = i
    · subst hi
      simp only [if_true] at hc
      obtain rfl := Option.some.inj hc
      exact hf b hn (h.nodes a b hn)
    · simp only [if_neg hi] at hc
      obtain rfl := Option.some.inj hc
      exact h.nodes i _ hn

theorem Inv.step {v : View} {s : Cluster} (h : Inv v s) (ev : Ev) (hok : okEv s ev = true) :
    Inv v (step s ev) := by
  cases ev with
  | propose a c =>
    unfold Verif.Replica.step
    dsimp only
    unfold okEv at hok
    dsimp only at hok
    cases hn : s.nodes[a]? with
    | none => exact h
    | some n =>
      rw [hn] at hok
      dsimp only at hok ⊢
      by_cases hg : n.phase = .up ∧ n.have' = s.log.length ∧ valid s.cfs n.range c = true
      · rw [if_pos hg]
        have hno := h.nodes a n hn
        have hbl : n.blank = false := by simpa using hok
        obtain ⟨g1, g2, g3⟩ := hg
        have h' : Inv v { s with log := s.log ++ [⟨n.version, c⟩] } := by
          refine ⟨?_, h.nodup, ?_, ?_⟩
          · intro i e he
            dsimp only at he ⊢
            rcases Nat.lt_or_ge i s.log.length with hlt | hge
            · rw [List.getElem?_append_left hlt] at he
              rw [S_append v _ (Nat.le_of_lt hlt)]
              exact h.log i e he
            · have hi : i = s.log.length := by
                have := (List.getElem?_eq_some_iff.1 he).1
                rw [List.length_append] at this
                simp only [List.length_cons, List.length_nil] at this
                omega
              subst hi
              rw [List.getElem?_append_right (Nat.le_refl _), Nat.sub_self] at he
              obtain rfl := Option.some.inj he
              rw [S_append v _ (Nat.le_refl _)]
              obtain ⟨m, m1, m2, m3⟩ := hno.ver
              obtain ⟨w1, w2⟩ := S_version v s.log m1 (Nat.le_refl _)
              refine ⟨by dsimp only; omega, fun heq => ?_⟩
              dsimp only at heq ⊢
              rw [w2 (by omega), ← m3]
              exact g3
          · intro i b hb; exact (h.nodes i b hb).append _
          · intro i sn hs; exact ⟨(h.sent i sn hs).1.append _, (h.sent i sn hs).2⟩
        have hn' := (hno.append [⟨n.version, c⟩]).have (s.log.length + 1) n.first (by omega)
          (by rw [List.length_append]; simp) (by intro hb; rw [hbl] at hb; cases hb)
        exact h'.setNode a _ hn'
      · rw [if_neg hg]; exact h
  | ship a b =>
    unfold Verif.Replica.step
    unfold okEv at hok
    dsimp only at hok ⊢
    cases hn : s.nodes[a]? with
    | none => exact h
    | some n =>
      cases hm : s.nodes[b]? with
      | none => exact h
      | some m =>
        rw [hm] at hok
        have hbl : m.blank = false := by simpa using hok
        dsimp only
        by_cases hg : n.first ≤ m.have' ∧ m.have' < n.have'
        · rw [if_pos hg]
          have := (h.nodes b m hm).have n.have' m.first (by omega) (h.nodes a n hn).have_le
            (by intro hb; rw [hbl] at hb; cases hb)
          exact h.setNode b _ this
        · rw [if_neg hg]; exact h
  | apply b own =>
    unfold Verif.Replica.step
    unfold okEv at hok
    dsimp only at hok ⊢
    cases hn : s.nodes[b]? with
    | none => exact h
    | some n =>
      rw [hn] at hok
      dsimp only at hok ⊢
      by_cases hg : n.phase = .up ∧ n.pos < n.have'
      · rw [if_pos hg]
        cases he : s.log[n.pos]? with
        | none => exact h
        | some e =>
          rw [he] at hok
          dsimp only at hok ⊢
          refine h.setNode b _ ((h.nodes b n hn).apply h.log hg.1 hg.2 he ?_)
          intro hv ⟨r, hr⟩
          rw [hr] at hok
          simpa [hv, isTxnDel] using hok
      · rw [if_neg hg]; exact h
  | save b =>
    refine h.onNode b _ (fun n _ hn => ?_)
    split
    · rename_i hup; exact hn.save hup
    · exact hn
  | snapshot b =>
    refine h.onNode b _ (fun n _ hn => ?_)
    split
    · rename_i hg; exact hn.snapshot hg.1 hg.2
    · exact hn
  | trim b k =>
    refine h.onNode b _ (fun n _ hn => ?_)
    split
    · exact hn.have n.have' k (Nat.le_refl _) hn.have_le (fun _ => rfl)
    · exact hn
  | crash b =>
    refine h.onNode b _ (fun n hb hn => ?_)
    unfold okEv at hok
    dsimp only at hok
    rw [hb] at hok
    exact hn.crash (by simpa using hok)
  | start b => exact h.onNode b _ (fun n _ hn => hn.start)
  | openSnap a =>
    unfold Verif.Replica.step
    unfold okEv at hok
    dsimp only at hok ⊢
    cases hn : s.nodes[a]? with
    | none => exact h
    | some n =>
      rw [hn] at hok
      dsimp only at hok ⊢
      by_cases hg : n.phase = .up ∧ 0 < n.base
      · rw [if_pos hg]
        simp only [Bool.and_eq_true, decide_eq_true_eq, Bool.not_eq_true'] at hok
        have hgo := goodOpen (h.nodes a n hn) hg.1 hok.2 hg.2 hok.1
        refine { h with sent := ?_ }
        intro i sn hs
        dsimp only at hs ⊢
        rcases Nat.lt_or_ge i s.sent.length with hlt | hge
        · rw [List.getElem?_append_left hlt] at hs; exact h.sent i sn hs
        · rw [List.getElem?_append_right hge] at hs
          have : i - s.sent.length = 0 := by
            have := (List.getElem?_eq_some_iff.1 hs).1
            simp only [List.length_cons, List.length_nil] at this
            omega
          rw [this] at hs
          obtain rfl := Option.some.inj hs
          exact hgo
      · rw [if_neg hg]; exact h
  | install b i =>
    unfold Verif.Replica.step
    unfold okEv at hok
    dsimp only at hok ⊢
    cases hn : s.nodes[b]? with
    | none => exact h
    | some n =>
      cases hs : s.sent[i]? with
      | none => exact h
      | some sn =>
        rw [hn, hs] at hok
        dsimp only at hok ⊢
        by_cases hg : canInstall n sn = true
        · rw [if_pos hg]
          refine h.setNode b _ ((h.nodes b n hn).install (h.sent i sn hs).1 (h.sent i sn hs).2 hg ?_)
          intro hb
          rw [hb] at hok
          simp only [Bool.true_and, Bool.not_eq_true', decide_eq_false_iff_not] at hok
          omega
        · rw [if_neg hg]; exact h
  | load b =>
    refine h.onNode b _ (fun n _ hn => ?_)
    cases hp : n.phase with
    | load pc =>
      cases hi : n.inst with
      | none => exact hn
      | some sn => exact hn.load h.log h.nodup hp hi
    | up => exact hn
    | down => exact hn
  | foreign b k x =>
    refine h.onNode b _ (fun n _ hn => ?_)
    by_cases hg : s.cfs.contains k.1 = true ∧ n.range.has k.2 = true
    · rw [if_pos hg]; exact hn
    · rw [if_neg hg]
      refine hn.data _ (fun y hc hr => ?_)
      unfold set
      rw [if_neg]
      rintro rfl
      exact hg ⟨hc, hr⟩
  | join a d =>
    unfold Verif.Replica.step
    dsimp only
    cases hn : s.nodes[a]? with
    | none => exact h
    | some n =>
      refine { h with nodes := ?_ }
      intro i b hb
      dsimp only at hb ⊢
      rcases Nat.lt_or_ge i s.nodes.length with hlt | hge
      · rw [List.getElem?_append_left hlt] at hb; exact h.nodes i b hb
      · rw [List.getElem?_append_right hge] at hb
        have : i - s.nodes.length = 0 := by
          have := (List.getElem?_eq_some_iff.1 hb).1
          simp only [List.length_cons, List.length_nil] at this
          omega
        rw [this] at hb
        obtain rfl := Option.some.inj hb
        refine ⟨Nat.zero_le _, Nat.le_refl _, fun _ => Nat.le_refl _, Nat.le_refl _, fun _ => Nat.le_refl _,
          fun _ => ⟨rfl, fun _ => rfl, fun _ => rfl⟩, (h.nodes a n hn).ver, fun sn hs => (by cases hs), ?_⟩
        unfold StOk
        exact .inr ⟨rfl, rfl, rfl⟩

theorem Inv.run {v : View} : ∀ {evs : List Ev} {s : Cluster}, Inv v s → okRun s evs = true →
    Inv v (run s evs) := by
  intro evs
  induction evs with
  | nil => intro s h _; exact h
  | cons e es ih =>
    intro s h hok
    unfold okRun at hok
    rw [Bool.and_eq_true] at hok
    exact ih (h.step e hok.1) hok.2

theorem inv_init {cfs : List Nat} (hnd : cfs.Nodup) (v : View) (ds : List Data)
    (hd : ∀ d ∈ ds, ∀ k : Key, cfs.contains k.1 = true → v.range.has k.2 = true → d k = v.data k) :
    Inv v (init cfs v ds) := by
  refine ⟨?_, hnd, ?_, ?_⟩
  · intro i e he; unfold init at he; dsimp only at he; rw [List.getElem?_nil] at he; cases he
  · intro i b hb
    unfold init at hb
    dsimp only at hb
    rw [List.getElem?_map] at hb
    cases hdi : ds[i]? with
    | none => rw [hdi] at hb; cases hb
    | some d =>
      rw [hdi] at hb
      obtain rfl := Option.some.inj hb
      have hmem : d ∈ ds := List.mem_of_getElem? hdi
      refine ⟨Nat.zero_le _, Nat.le_refl _, fun _ => Nat.le_refl _, Nat.le_refl _, fun _ => Nat.le_refl _,
        fun hb => (by cases hb), ⟨0, Nat.zero_le _, rfl, rfl⟩, fun sn hs => (by cases hs), ?_⟩
      unfold StOk
      exact .inl ⟨rfl, 0, Nat.zero_le _, Nat.le_refl _, rfl, rfl, fun k hc hr => .inr (hd d hmem k hc hr)⟩
  · intro i sn hs; unfold init at hs; dsimp only at hs; rw [List.getElem?_nil] at hs; cases hs

end Verif.Replica
