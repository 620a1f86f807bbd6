import Verif.Ctl.Table

/-!
# The commands a store carries out (invariant)
-/

namespace Verif.Ctl
open Verif.Codec (Bytes)
open Verif.Region (RState Range canMove maxStartKey)

/-- What holds of the table of regions and the steps of the workers. -/
structure Inv (s : St) : Prop where
  uniq : Uniq s.regs
  apart : ∀ a ∈ s.regs, ∀ b ∈ s.regs, a.1 ≠ b.1 → Apart a.2.range b.2.range
  fresh : ∀ r g, Entering s r g → ∀ a ∈ s.regs, a.1 ≠ r ∧ Apart a.2.range g
  dead : ∀ r c n, cur s r = some (c, n) → c.kind = .delete → 3 ≤ n → s.nodes r = false
  down : ∀ r c n, cur s r = some (c, n) → c.kind = .delete → 5 ≤ n → s.metas r = false
  going : ∀ r c n, cur s r = some (c, n) → c.kind = .delete → 2 ≤ n → ∀ a ∈ s.regs, a.1 = r → a.2.state ≠ .standby
  clean : ∀ r c n, cur s r = some (c, n) → c.kind = .delete → 6 ≤ n →
    ∀ a ∈ s.regs, a.1 = r → ∀ k ∈ s.data, inRange a.2.range k = false
  gone : ∀ r c n, cur s r = some (c, n) → c.kind = .delete → 8 ≤ n → ∀ a ∈ s.regs, a.1 ≠ r

theorem entering_congr {s s' : St} (h : cur s' = cur s) {r : Nat} {g : Range} (he : Entering s' r g) : Entering s r g := by
  obtain ⟨c, p, h1, h2⟩ := he
  exact ⟨c, p, by rw [← h]; exact h1, h2⟩

theorem Inv.congr {s s' : St} (h : Inv s) (e1 : s'.regs = s.regs) (e2 : s'.metas = s.metas) (e3 : s'.nodes = s.nodes)
    (e4 : s'.data = s.data) (e5 : cur s' = cur s) : Inv s' where
  uniq := e1 ▸ h.uniq
  apart := e1 ▸ h.apart
  fresh := fun r g he => e1 ▸ h.fresh r g (entering_congr e5 he)
  dead := by rw [e5, e3]; exact h.dead
  down := by rw [e5, e2]; exact h.down
  going := by rw [e5, e1]; exact h.going
  clean := by rw [e5, e1, e4]; exact h.clean
  gone := by rw [e5, e1]; exact h.gone

theorem Inv.same {s s' : St} (h : Inv s) (e : Same s s') : Inv s' := h.congr e.regs e.metas e.nodes e.data e.cur

/-- No worker is at a step. -/
theorem Inv.idle {s : St} (hu : Uniq s.regs) (ha : ∀ a ∈ s.regs, ∀ b ∈ s.regs, a.1 ≠ b.1 → Apart a.2.range b.2.range)
    (hc : cur s = fun _ => none) : Inv s where
  uniq := hu
  apart := ha
  fresh := by rintro r g ⟨c, p, h, -⟩; rw [hc] at h; exact absurd h (by simp)
  dead := by intro r c n h; rw [hc] at h; exact absurd h (by simp)
  down := by intro r c n h; rw [hc] at h; exact absurd h (by simp)
  going := by intro r c n h; rw [hc] at h; exact absurd h (by simp)
  clean := by intro r c n h; rw [hc] at h; exact absurd h (by simp)
  gone := by intro r c n h; rw [hc] at h; exact absurd h (by simp)

theorem inv_crash {s : St} (h : Inv s) : Inv (crash s) := by
  have hs := same_recover (open' s.cmds) (reboot s)
  have hr : (crash s).regs = s.regs := hs.regs
  exact .idle (hr ▸ h.uniq) (hr ▸ h.apart) (cur_crash s)

/-! ### Changes of one record that keep its range -/

/-- The table with one record changed but not its range. -/
structure Restate (s : St) (r : Nat) (y : Rec) : Prop where
  old : ∃ x, (r, x) ∈ s.regs ∧ y.range = x.range

theorem inv_restate {s s' : St} {r : Nat} {y : Rec} (h : Inv s) (hy : Restate s r y)
    (hr : s'.regs = put r y s.regs) (hn : s'.nodes = s.nodes) (hm : s'.metas = s.metas) (hd : s'.data = s.data)
    (hc : cur s' = cur s) (hst : y.state = .standby → ∃ x, (r, x) ∈ s.regs ∧ x.state = .standby) : Inv s' := by
  obtain ⟨x, hx, hxr⟩ := hy.old
  -- every record has a counterpart with the same id and range
  have back : ∀ a ∈ s'.regs, ∃ b ∈ s.regs, b.1 = a.1 ∧ b.2.range = a.2.range ∧ (a.2.state = .standby → b.2.state = .standby) := by
    intro a ha
    rw [hr] at ha
    rcases mem_put.1 ha with e | ⟨ha, -⟩
    · refine ⟨(r, x), hx, by rw [e], by rw [e]; exact hxr.symm, ?_⟩
      intro hs
      rw [e] at hs
      obtain ⟨x', hx', hs'⟩ := hst hs
      have := h.uniq _ hx _ hx' rfl
      rw [Prod.mk.injEq] at this
      rw [this.2]
      exact hs'
    · exact ⟨a, ha, rfl, rfl, id⟩
  exact {
    uniq := hr ▸ h.uniq.put r y
    apart := by
      intro a ha b hb hne
      obtain ⟨a', ha', e1, e2, -⟩ := back a ha
      obtain ⟨b', hb', f1, f2, -⟩ := back b hb
      rw [← e2, ← f2]
      exact h.apart a' ha' b' hb' (by rw [e1, f1]; exact hne)
    fresh := by
      intro r' g he a ha
      obtain ⟨a', ha', e1, e2, -⟩ := back a ha
      have := h.fresh r' g (entering_congr hc he) a' ha'
      rw [e1, e2] at this
      exact this
    dead := by rw [hc, hn]; exact h.dead
    down := by rw [hc, hm]; exact h.down
    going := by
      rw [hc]
      intro r' c n hcur hk hn' a ha e hs
      obtain ⟨a', ha', e1, -, e3⟩ := back a ha
      exact h.going r' c n hcur hk hn' a' ha' (e1.trans e) (e3 hs)
    clean := by
      rw [hc, hd]
      intro r' c n hcur hk hn' a ha e k hkd
      obtain ⟨a', ha', e1, e2, -⟩ := back a ha
      rw [← e2]
      exact h.clean r' c n hcur hk hn' a' ha' (e1.trans e) k hkd
    gone := by
      rw [hc]
      intro r' c n hcur hk hn' a ha e
      obtain ⟨a', ha', e1, -, -⟩ := back a ha
      exact h.gone r' c n hcur hk hn' a' ha' (e1.trans e) }

theorem move_standby {x : Rec} {t : RState} (ht : t ≠ .standby) (h : (x.move t).state = .standby) : x.state = .standby := by
  unfold Rec.move at h
  split at h
  · exact absurd h ht
  · exact h

theorem inv_mark {s : St} (h : Inv s) (r : Nat) (t : RState) : Inv (mark s r t) := by
  unfold mark
  split
  · exact h
  · next x hx =>
    split
    · next hc =>
      have hm := get_mem hx
      refine inv_restate (r := r) (y := x.move t) h ⟨x, hm, Rec.move_range t x⟩ rfl rfl rfl rfl rfl ?_
      intro hs
      refine ⟨x, hm, move_standby ?_ hs⟩
      rintro rfl
      simp at hc
    · exact h

theorem inv_write {s : St} (h : Inv s) (r : Nat) (k : Bytes) : Inv (write s r k) := by
  unfold write
  split
  · exact h
  · next x hx =>
    split
    · next hw =>
      have hm := get_mem hx
      simp only [Bool.and_eq_true] at hw
      have hnode : s.nodes r = true := by
        have := hw.1
        simp only [applies, Bool.and_eq_true] at this
        exact this.1
      refine ⟨h.uniq, h.apart, h.fresh, h.dead, h.down, h.going, ?_, h.gone⟩
      intro r' c n hcur hk hn a ha e k' hk'
      rcases List.mem_cons.1 hk' with e' | hk'
      · subst e'
        by_cases hr : r = r'
        · subst hr
          have := h.dead r c n hcur hk (by omega)
          rw [hnode] at this
          exact absurd this (by simp)
        · exact h.apart _ hm a ha (by rw [e]; exact hr) k' hw.2
      · exact h.clean r' c n hcur hk hn a ha e k' hk'
    · exact h

/-! ### Splits and merges -/

theorem inv_split {s : St} (h : Inv s) (p c : Nat) (key : Bytes) : Inv (splitEv s p c key) := by
  unfold splitEv
  split
  · next x y hx hy =>
    split
    · next hc =>
      simp only [Bool.and_eq_true, beq_iff_eq, bne_iff_ne, decide_eq_true_eq] at hc
      obtain ⟨⟨⟨⟨⟨hap, hst⟩, -⟩, hpc⟩, hlo⟩, hhi⟩ := hc
      have hnode : s.nodes p = true := by
        simp only [applies, Bool.and_eq_true] at hap
        exact hap.1
      have hxm := get_mem hx
      have hym := get_mem hy
      -- the new records cover keys of the old record of p only
      have subp : ∀ k, inRange ⟨key, x.range.stop⟩ k = true → inRange x.range k = true := by
        intro k hk
        rw [inRange_iff] at hk ⊢
        exact ⟨List.le_of_lt (lt_le hlo hk.1), hk.2⟩
      have subc : ∀ k, inRange ⟨x.range.start, key⟩ k = true → inRange x.range k = true := by
        intro k hk
        rw [inRange_iff] at hk ⊢
        exact ⟨hk.1, Codec.lt_trans hk.2 hhi⟩
      have two : Apart ⟨key, x.range.stop⟩ ⟨x.range.start, key⟩ := by
        intro k hk
        cases hk' : inRange ⟨x.range.start, key⟩ k with
        | false => rfl
        | true =>
          rw [inRange_iff] at hk hk'
          exact absurd hk'.2 (List.not_lt.2 hk.1)
      have mem : ∀ a, a ∈ put p { (x.move .splitting).move .normal with range := ⟨key, x.range.stop⟩ }
          (put c { y.move .normal with range := ⟨x.range.start, key⟩ } s.regs) →
          (a.1 = p ∧ a.2.range = ⟨key, x.range.stop⟩) ∨ (a.1 = c ∧ a.2.range = ⟨x.range.start, key⟩) ∨
            (a ∈ s.regs ∧ a.1 ≠ p ∧ a.1 ≠ c) := by
        intro a ha
        rcases mem_put.1 ha with e | ⟨ha, hp⟩
        · left; rw [e]; exact ⟨rfl, rfl⟩
        · rcases mem_put.1 ha with e | ⟨ha, hc'⟩
          · right; left; rw [e]; exact ⟨rfl, rfl⟩
          · exact Or.inr (Or.inr ⟨ha, hp, hc'⟩)
      have hcp : ∀ cc n, cur s p = some (cc, n) → cc.kind = .delete → 3 ≤ n → False := by
        intro cc n hcur hk hn
        have := h.dead p cc n hcur hk hn
        rw [hnode] at this
        exact absurd this (by simp)
      have hcc : ∀ cc n, cur s c = some (cc, n) → cc.kind = .delete → 2 ≤ n → False := by
        intro cc n hcur hk hn
        exact h.going c cc n hcur hk hn _ hym rfl hst
      refine ⟨(h.uniq.put _ _).put _ _, ?_, ?_, h.dead, h.down, ?_, ?_, ?_⟩
      · intro a ha b hb hne
        rcases mem a ha with ⟨ea, ra⟩ | ⟨ea, ra⟩ | ⟨ha, np, nc⟩ <;> rcases mem b hb with ⟨eb, rb⟩ | ⟨eb, rb⟩ | ⟨hb, np', nc'⟩
        · exact absurd (ea.trans eb.symm) hne
        · rw [ra, rb]; exact two
        · intro k hk; rw [ra] at hk; exact h.apart _ hxm b hb (fun e => np' e.symm) k (subp k hk)
        · rw [ra, rb]; exact two.symm
        · exact absurd (ea.trans eb.symm) hne
        · intro k hk; rw [ra] at hk; exact h.apart _ hxm b hb (fun e => np' e.symm) k (subc k hk)
        · exact Apart.symm fun k hk => by
            rw [rb] at hk; exact h.apart _ hxm a ha (fun e => np e.symm) k (subp k hk)
        · exact Apart.symm fun k hk => by
            rw [rb] at hk; exact h.apart _ hxm a ha (fun e => np e.symm) k (subc k hk)
        · exact h.apart a ha b hb hne
      · intro r g he a ha
        have hp := h.fresh r g he _ hxm
        have hcf := h.fresh r g he _ hym
        rcases mem a ha with ⟨ea, ra⟩ | ⟨ea, ra⟩ | ⟨ha, np, nc⟩
        · refine ⟨by rw [ea]; exact hp.1, fun k hk => ?_⟩
          rw [ra] at hk; exact hp.2 k (subp k hk)
        · refine ⟨by rw [ea]; exact hcf.1, fun k hk => ?_⟩
          rw [ra] at hk; exact hp.2 k (subc k hk)
        · exact h.fresh r g he a ha
      · intro r cc n hcur hk hn a ha e hs
        rcases mem a ha with ⟨ea, ra⟩ | ⟨ea, ra⟩ | ⟨ha, np, nc⟩
        · -- the record of p: its state is not standby
          rcases mem_put.1 ha with e' | ⟨_, hne⟩
          · rw [e'] at hs
            have h1 := move_standby (x := x.move .splitting) (t := .normal) (by simp) hs
            have h2 := move_standby (x := x) (t := .splitting) (by simp) h1
            -- p standing by at step 2 of its deletion is impossible
            rw [ea] at e
            subst e
            exact h.going p cc n hcur hk hn _ hxm rfl h2
          · exact absurd ea hne
        · rw [ea] at e; subst e
          exact hcc cc n hcur hk hn
        · exact h.going r cc n hcur hk hn a ha e hs
      · intro r cc n hcur hk hn a ha e k hkd
        rcases mem a ha with ⟨ea, ra⟩ | ⟨ea, ra⟩ | ⟨ha, np, nc⟩
        · rw [ea] at e; subst e; exact absurd (hcp cc n hcur hk (by omega)) id
        · rw [ea] at e; subst e; exact absurd (hcc cc n hcur hk (by omega)) id
        · exact h.clean r cc n hcur hk hn a ha e k hkd
      · intro r cc n hcur hk hn a ha e
        rcases mem a ha with ⟨ea, ra⟩ | ⟨ea, ra⟩ | ⟨ha, np, nc⟩
        · rw [ea] at e; subst e; exact hcp cc n hcur hk (by omega)
        · rw [ea] at e; subst e; exact hcc cc n hcur hk (by omega)
        · exact h.gone r cc n hcur hk hn a ha e
    · exact h
  · exact h

theorem inv_merge {s : St} (h : Inv s) (p t : Nat) : Inv (mergeEv s p t) := by
  unfold mergeEv
  split
  · next x y hx hy =>
    split
    · next hc =>
      simp only [Bool.and_eq_true, beq_iff_eq, bne_iff_ne, decide_eq_true_eq, Bool.or_eq_true] at hc
      obtain ⟨⟨⟨⟨⟨⟨⟨hap, hnp⟩, hst⟩, hpt⟩, hxr⟩, hyr⟩, hmax⟩, hadj⟩ := hc
      have hnt : s.nodes t = true := by
        simp only [applies, Bool.and_eq_true] at hap
        exact hap.1
      have hxm := get_mem hx
      have hym := get_mem hy
      have none' : ∀ k, inRange ⟨maxStartKey, x.range.stop⟩ k = false := by
        intro k
        cases hk : inRange ⟨maxStartKey, x.range.stop⟩ k with
        | false => rfl
        | true =>
          rw [inRange_iff] at hk
          exact absurd (le_lt hk.1 hk.2) (List.not_lt.2 hmax)
      have sub : ∀ k, inRange (if x.range.stop = y.range.start then ⟨x.range.start, y.range.stop⟩
          else ⟨y.range.start, x.range.stop⟩) k = true → inRange x.range k = true ∨ inRange y.range k = true := by
        intro k hk
        split at hk
        · next e =>
          rw [inRange_iff] at hk
          by_cases hlt : k < x.range.stop
          · exact Or.inl (inRange_iff.2 ⟨hk.1, hlt⟩)
          · exact Or.inr (inRange_iff.2 ⟨by rw [← e]; exact List.not_lt.1 hlt, hk.2⟩)
        · next e =>
          have e' : x.range.start = y.range.stop := hadj.resolve_left e
          rw [inRange_iff] at hk
          by_cases hlt : k < y.range.stop
          · exact Or.inr (inRange_iff.2 ⟨hk.1, hlt⟩)
          · exact Or.inl (inRange_iff.2 ⟨by rw [e']; exact List.not_lt.1 hlt, hk.2⟩)
      generalize hR : (if x.range.stop = y.range.start then (⟨x.range.start, y.range.stop⟩ : Range)
          else ⟨y.range.start, x.range.stop⟩) = R at sub ⊢
      have mem : ∀ a, a ∈ put t { y with range := R }
          (put p { (x.move .merging).move .tombstone with range := ⟨maxStartKey, x.range.stop⟩ } s.regs) →
          (a.1 = t ∧ a.2.range = R ∧ a.2.state = y.state) ∨ (a.1 = p ∧ a.2.range = ⟨maxStartKey, x.range.stop⟩ ∧
            (a.2.state = .standby → x.state = .standby)) ∨ (a ∈ s.regs ∧ a.1 ≠ t ∧ a.1 ≠ p) := by
        intro a ha
        rcases mem_put.1 ha with e | ⟨ha, hp⟩
        · left; rw [e]; exact ⟨rfl, rfl, rfl⟩
        · rcases mem_put.1 ha with e | ⟨ha, hc'⟩
          · right; left; rw [e]
            refine ⟨rfl, rfl, fun hs => ?_⟩
            exact move_standby (by simp) (move_standby (x := x.move .merging) (t := .tombstone) (by simp) hs)
          · exact Or.inr (Or.inr ⟨ha, hp, hc'⟩)
      have up : ∀ r, (r = t ∨ r = p) → ∀ cc n, cur s r = some (cc, n) → cc.kind = .delete → 3 ≤ n → False := by
        intro r hr cc n hcur hk hn
        have := h.dead r cc n hcur hk hn
        rcases hr with rfl | rfl
        · rw [hnt] at this; exact absurd this (by simp)
        · rw [hnp] at this; exact absurd this (by simp)
      refine ⟨(h.uniq.put _ _).put _ _, ?_, ?_, h.dead, h.down, ?_, ?_, ?_⟩
      · intro a ha b hb hne
        rcases mem a ha with ⟨ea, ra, -⟩ | ⟨ea, ra, -⟩ | ⟨ha, nt, np⟩ <;>
          rcases mem b hb with ⟨eb, rb, -⟩ | ⟨eb, rb, -⟩ | ⟨hb, nt', np'⟩
        · exact absurd (ea.trans eb.symm) hne
        · intro k _; rw [rb]; exact none' k
        · intro k hk; rw [ra] at hk
          rcases sub k hk with hk | hk
          · exact h.apart _ hxm b hb (fun e => np' e.symm) k hk
          · exact h.apart _ hym b hb (fun e => nt' e.symm) k hk
        · intro k hk; rw [ra, none'] at hk; exact absurd hk (by simp)
        · exact absurd (ea.trans eb.symm) hne
        · intro k hk; rw [ra, none'] at hk; exact absurd hk (by simp)
        · exact Apart.symm fun k hk => by
            rw [rb] at hk
            rcases sub k hk with hk | hk
            · exact h.apart _ hxm a ha (fun e => np e.symm) k hk
            · exact h.apart _ hym a ha (fun e => nt e.symm) k hk
        · intro k _; rw [rb]; exact none' k
        · exact h.apart a ha b hb hne
      · intro r g he a ha
        have hp := h.fresh r g he _ hxm
        have ht := h.fresh r g he _ hym
        rcases mem a ha with ⟨ea, ra, -⟩ | ⟨ea, ra, -⟩ | ⟨ha, -, -⟩
        · refine ⟨by rw [ea]; exact ht.1, fun k hk => ?_⟩
          rw [ra] at hk
          rcases sub k hk with hk | hk
          · exact hp.2 k hk
          · exact ht.2 k hk
        · refine ⟨by rw [ea]; exact hp.1, fun k hk => ?_⟩
          rw [ra, none'] at hk; exact absurd hk (by simp)
        · exact h.fresh r g he a ha
      · intro r cc n hcur hk hn a ha e hs
        rcases mem a ha with ⟨ea, -, sa⟩ | ⟨ea, -, sa⟩ | ⟨ha, -, -⟩
        · rw [ea] at e; subst e
          exact h.going _ cc n hcur hk hn _ hym rfl (sa ▸ hs)
        · rw [ea] at e; subst e
          exact h.going _ cc n hcur hk hn _ hxm rfl (sa hs)
        · exact h.going r cc n hcur hk hn a ha e hs
      · intro r cc n hcur hk hn a ha e k hkd
        rcases mem a ha with ⟨ea, -, -⟩ | ⟨ea, -, -⟩ | ⟨ha, -, -⟩
        · exact absurd (up r (Or.inl (e.symm.trans ea)) cc n hcur hk (by omega)) id
        · exact absurd (up r (Or.inr (e.symm.trans ea)) cc n hcur hk (by omega)) id
        · exact h.clean r cc n hcur hk hn a ha e k hkd
      · intro r cc n hcur hk hn a ha e
        rcases mem a ha with ⟨ea, -, -⟩ | ⟨ea, -, -⟩ | ⟨ha, -, -⟩
        · exact up r (Or.inl (e.symm.trans ea)) cc n hcur hk (by omega)
        · exact up r (Or.inr (e.symm.trans ea)) cc n hcur hk (by omega)
        · exact h.gone r cc n hcur hk hn a ha e
    · exact h
  · exact h

/-! ### The workers -/

/-- A step of the worker of `r`, which leaves it at `z`. -/
theorem Inv.turn {s s' : St} {r : Nat} {z : Option (Cmd × Nat)} (h : Inv s) (hc : cur s' = upd (cur s) r z)
    (hu : Uniq s'.regs)
    (hap : ∀ a ∈ s'.regs, ∀ b ∈ s'.regs, a.1 = r → b.1 ≠ r → Apart a.2.range b.2.range)
    (hb : ∀ a ∈ s'.regs, a.1 ≠ r → a ∈ s.regs)
    (hf : ∀ r' g, r' ≠ r → Entering s r' g → ∀ a ∈ s'.regs, a.1 = r → Apart a.2.range g)
    (hd : ∀ k ∈ s'.data, k ∈ s.data) (hn : ∀ r', r' ≠ r → s'.nodes r' = s.nodes r')
    (hm : ∀ r', r' ≠ r → s'.metas r' = s.metas r')
    (z1 : ∀ c g p, z = some (c, 1) → c.kind = .create g p → ∀ a ∈ s'.regs, a.1 ≠ r ∧ Apart a.2.range g)
    (z2 : ∀ c n, z = some (c, n) → c.kind = .delete → (3 ≤ n → s'.nodes r = false) ∧ (5 ≤ n → s'.metas r = false) ∧
      (2 ≤ n → ∀ a ∈ s'.regs, a.1 = r → a.2.state ≠ .standby) ∧
      (6 ≤ n → ∀ a ∈ s'.regs, a.1 = r → ∀ k ∈ s'.data, inRange a.2.range k = false) ∧
      (8 ≤ n → ∀ a ∈ s'.regs, a.1 ≠ r)) : Inv s' := by
  have hcr : cur s' r = z := by rw [hc, upd_same]
  have hcn : ∀ r', r' ≠ r → cur s' r' = cur s r' := fun r' hne => by rw [hc, upd_ne _ _ hne]
  refine ⟨hu, ?_, ?_, ?_, ?_, ?_, ?_, ?_⟩
  · intro a ha b hb' hne
    by_cases e : a.1 = r
    · exact hap a ha b hb' e (fun e' => hne (e.trans e'.symm))
    · by_cases e' : b.1 = r
      · exact (hap b hb' a ha e' e).symm
      · exact h.apart a (hb a ha e) b (hb b hb' e') hne
  · rintro r' g ⟨c, p, h1, h2⟩ a ha
    by_cases e : r' = r
    · subst e
      exact z1 c g p (hcr.symm.trans h1) h2 a ha
    · have he : Entering s r' g := ⟨c, p, by rw [← hcn r' e]; exact h1, h2⟩
      by_cases e' : a.1 = r
      · exact ⟨fun e'' => e (e''.symm.trans e'), hf r' g e he a ha e'⟩
      · exact h.fresh r' g he a (hb a ha e')
  · intro r' c n hcur hk hle
    by_cases e : r' = r
    · subst e
      exact (z2 c n (hcr.symm.trans hcur) hk).1 hle
    · rw [hn r' e]; exact h.dead r' c n (by rw [← hcn r' e]; exact hcur) hk hle
  · intro r' c n hcur hk hle
    by_cases e : r' = r
    · subst e
      exact (z2 c n (hcr.symm.trans hcur) hk).2.1 hle
    · rw [hm r' e]; exact h.down r' c n (by rw [← hcn r' e]; exact hcur) hk hle
  · intro r' c n hcur hk hle a ha e'
    by_cases e : r' = r
    · subst e
      exact (z2 c n (hcr.symm.trans hcur) hk).2.2.1 hle a ha e'
    · exact h.going r' c n (by rw [← hcn r' e]; exact hcur) hk hle a (hb a ha (by rw [e']; exact e)) e'
  · intro r' c n hcur hk hle a ha e' k hkd
    by_cases e : r' = r
    · subst e
      exact (z2 c n (hcr.symm.trans hcur) hk).2.2.2.1 hle a ha e' k hkd
    · exact h.clean r' c n (by rw [← hcn r' e]; exact hcur) hk hle a (hb a ha (by rw [e']; exact e)) e' k (hd k hkd)
  · intro r' c n hcur hk hle a ha
    by_cases e : r' = r
    · subst e
      exact (z2 c n (hcr.symm.trans hcur) hk).2.2.2.2 hle a ha
    · intro e'
      exact h.gone r' c n (by rw [← hcn r' e]; exact hcur) hk hle a (hb a ha (by rw [e']; exact e)) e'

/-- A step that leaves the tables alone. -/
theorem Inv.turn_still {s s' : St} {r : Nat} {z : Option (Cmd × Nat)} (h : Inv s) (hc : cur s' = upd (cur s) r z)
    (hr : s'.regs = s.regs) (hd : s'.data = s.data) (hn : ∀ r', r' ≠ r → s'.nodes r' = s.nodes r')
    (hm : ∀ r', r' ≠ r → s'.metas r' = s.metas r')
    (z1 : ∀ c g p, z = some (c, 1) → c.kind = .create g p → ∀ a ∈ s.regs, a.1 ≠ r ∧ Apart a.2.range g)
    (z2 : ∀ c n, z = some (c, n) → c.kind = .delete → (3 ≤ n → s'.nodes r = false) ∧ (5 ≤ n → s'.metas r = false) ∧
      (2 ≤ n → ∀ a ∈ s.regs, a.1 = r → a.2.state ≠ .standby) ∧
      (6 ≤ n → ∀ a ∈ s.regs, a.1 = r → ∀ k ∈ s.data, inRange a.2.range k = false) ∧
      (8 ≤ n → ∀ a ∈ s.regs, a.1 ≠ r)) : Inv s' := by
  refine h.turn hc (hr ▸ h.uniq) ?_ (by rw [hr]; exact fun a ha _ => ha) ?_ (by rw [hd]; exact fun k hk => hk) hn hm
    (by rw [hr]; exact z1) (by rw [hr, hd]; exact z2)
  · rw [hr]; exact fun a ha b hb e e' => h.apart a ha b hb (fun e'' => e' (e''.symm.trans e))
  · rw [hr]; exact fun r' g _ he a ha _ => (h.fresh r' g he a ha).2

/-- A step that changes the record of `r` but not its range. -/
theorem Inv.turn_state {s s' : St} {r : Nat} {z : Option (Cmd × Nat)} (h : Inv s) (hc : cur s' = upd (cur s) r z)
    {f : Rec → Rec} (hf : ∀ x, (f x).range = x.range)
    (hr : s'.regs = on r f s.regs) (hd : s'.data = s.data) (hn : s'.nodes = s.nodes) (hm : s'.metas = s.metas)
    (z1 : ∀ c n, z = some (c, n) → n ≠ 1)
    (z2 : ∀ c n, z = some (c, n) → c.kind = .delete → (3 ≤ n → s.nodes r = false) ∧ (5 ≤ n → s.metas r = false) ∧
      (2 ≤ n → ∀ x, (r, x) ∈ s.regs → (f x).state ≠ .standby) ∧ n < 6) : Inv s' := by
  have mem : ∀ a ∈ s'.regs, (a ∈ s.regs ∧ a.1 ≠ r) ∨ ∃ x, (r, x) ∈ s.regs ∧ a = (r, f x) := by
    intro a ha
    rw [hr] at ha
    unfold on at ha
    split at ha
    · next hg => exact Or.inl ⟨ha, get_none.1 hg a ha⟩
    · next x hg =>
      rcases mem_put.1 ha with e | e
      · exact Or.inr ⟨x, get_mem hg, e⟩
      · exact Or.inl e
  have hu : Uniq s'.regs := by
    rw [hr]; unfold on
    split
    · exact h.uniq
    · exact h.uniq.put _ _
  refine h.turn hc hu ?_ ?_ ?_ (by rw [hd]; exact fun k hk => hk) (fun r' _ => by rw [hn]) (fun r' _ => by rw [hm])
    (fun c g p hz _ => absurd rfl (z1 c 1 hz)) ?_
  · intro a ha b hb e e'
    rcases mem a ha with ⟨-, hne⟩ | ⟨x, hx, ea⟩
    · exact absurd e hne
    · rcases mem b hb with ⟨hb, -⟩ | ⟨y, -, eb⟩
      · rw [ea, hf]; exact h.apart _ hx b hb (fun e'' => e' e''.symm)
      · rw [eb] at e'; exact absurd rfl e'
  · intro a ha e
    rcases mem a ha with ⟨ha, -⟩ | ⟨x, -, ea⟩
    · exact ha
    · rw [ea] at e; exact absurd rfl e
  · intro r' g _ he a ha e
    rcases mem a ha with ⟨-, hne⟩ | ⟨x, hx, ea⟩
    · exact absurd e hne
    · rw [ea, hf]; exact (h.fresh r' g he _ hx).2
  · intro c n hz hk
    obtain ⟨h1, h2, h3, h4⟩ := z2 c n hz hk
    rw [hn, hm]
    refine ⟨h1, h2, ?_, fun h => by omega, fun h => by omega⟩
    intro hle a ha e
    rcases mem a ha with ⟨-, hne⟩ | ⟨x, hx, ea⟩
    · exact absurd e hne
    · rw [ea]; exact h3 hle x hx

theorem inv_finish {s : St} (h : Inv s) (r : Nat) (c : Cmd) (q : List Cmd) (ok : Bool) : Inv (finish s r c q ok) :=
  h.turn_still (z := none) (cur_finish s r c q ok) rfl rfl (fun _ _ => rfl) (fun _ _ => rfl)
    (fun _ _ _ e => absurd e (by simp)) (fun _ _ e => absurd e (by simp))

theorem inv_stepCreate {s : St} (h : Inv s) (ho : OneByOne s) {r : Nat} {c : Cmd} {q : List Cmd} {n : Nat} {g : Range}
    {p : Nat} (hk : c.kind = .create g p) (hc : cur s r = some (c, n)) (ok : Bool) :
    Inv (stepCreate s r c q g p ok n) := by
  have nd : ∀ (m : Nat) (c' : Cmd) (n' : Nat), some (c, m) = some (c', n') → c'.kind ≠ .delete := by
    intro m c' n' e; cases e; rw [hk]; simp
  match n, hc with
  | 0, hc =>
    simp only [stepCreate]
    split
    · next ho' =>
      refine h.turn_still (cur_goto s r c q 1) rfl rfl (fun _ _ => rfl) (fun _ _ => rfl) ?_
        (fun c' n' e hd => absurd hd (nd 1 c' n' e))
      intro c' g' p' e hk' a ha
      cases e
      rw [hk] at hk'
      cases hk'
      have := createOk_iff.1 ho' a ha
      exact ⟨this.1, apart_of this.2⟩
    · exact inv_finish h r c q false
  | 1, hc =>
    simp only [stepCreate]
    have hent : Entering s r g := ⟨c, p, hc, hk⟩
    have hfr := h.fresh r g hent
    have hg : get r s.regs = none := get_none.2 fun a ha => (hfr a ha).1
    have hadd : add r ⟨.new, g⟩ s.regs = put r ⟨.new, g⟩ s.regs := by simp only [add, hg]
    rw [hadd]
    refine h.turn (s' := goto { s with regs := put r ⟨.new, g⟩ s.regs } r c q 2) (cur_goto _ r c q 2) (h.uniq.put _ _) ?_ ?_ ?_
      (fun k hk => hk) (fun _ _ => rfl) (fun _ _ => rfl) (fun c' g' p' e => absurd e (by simp))
      (fun c' n' e hd => absurd hd (nd 2 c' n' e))
    · intro a ha b hb e e'
      rcases mem_put.1 ha with ea | ⟨-, ea⟩
      · rcases mem_put.1 hb with eb | ⟨hb, -⟩
        · rw [eb] at e'; exact absurd rfl e'
        · rw [ea]; exact (hfr b hb).2.symm
      · exact absurd e ea
    · intro a ha e
      rcases mem_put.1 ha with ea | ⟨ha, -⟩
      · rw [ea] at e; exact absurd rfl e
      · exact ha
    · intro r' g' hne he a ha e
      rcases mem_put.1 ha with ea | ⟨-, ea⟩
      · rw [ea]; exact ho r r' g g' (fun e => hne e.symm) hent he
      · exact absurd e ea
  | 2, hc =>
    simp only [stepCreate]
    split
    · exact h.turn_still (s' := goto { s with nodes := upd s.nodes r true, metas := upd s.metas r true } r c q 3)
        (cur_goto _ r c q 3) rfl rfl (fun r' e => upd_ne _ _ e) (fun r' e => upd_ne _ _ e)
        (fun c' g' p' e => absurd e (by simp)) (fun c' n' e hd => absurd hd (nd 3 c' n' e))
    · exact inv_finish h r c q false
  | 3, hc =>
    simp only [stepCreate]
    exact h.turn_state (s' := goto { s with regs := on r (Rec.move (if p = 0 then .normal else .standby)) s.regs } r c q 4)
      (cur_goto _ r c q 4) (Rec.move_range _) rfl rfl rfl rfl
      (fun c' n' e => by cases e; omega) (fun c' n' e hd => absurd hd (nd 4 c' n' e))
  | _ + 4, hc => exact inv_finish h r c q true

theorem moved_deleting (x : Rec) : (x.move .deleting).state ≠ .standby := by
  unfold Rec.move
  split
  · simp
  · next h => intro e; rw [e] at h; exact h (by decide)

theorem inv_stepDelete {s : St} (h : Inv s) {r : Nat} {c : Cmd} {q : List Cmd} {n : Nat} (id : Nat)
    (hk : c.kind = .delete) (hc : cur s r = some (c, n)) : Inv (stepDelete s r c q id n) := by
  have nc : ∀ (m : Nat) (c' : Cmd) (g : Range) (p : Nat), some (c, m) = some (c', 1) → c'.kind ≠ .create g p := by
    intro m c' g p e; cases e; rw [hk]; simp
  match n, hc with
  | 0, hc =>
    simp only [stepDelete]
    split
    · refine h.turn_still (cur_goto s r c q 1) rfl rfl (fun _ _ => rfl) (fun _ _ => rfl)
        (fun c' g p e hd => absurd hd (nc 1 c' g p e)) ?_
      intro c' n' e _
      cases e
      exact ⟨fun h => by omega, fun h => by omega, fun h => by omega, fun h => by omega, fun h => by omega⟩
    · exact inv_finish h r c q false
  | 1, hc =>
    simp only [stepDelete]
    refine h.turn_state (s' := goto { s with regs := on r (Rec.move .deleting) s.regs } r c q 2)
      (cur_goto _ r c q 2) (Rec.move_range _) rfl rfl rfl rfl (fun c' n' e => by cases e; omega) ?_
    intro c' n' e _
    cases e
    exact ⟨fun h => by omega, fun h => by omega, fun _ x _ => moved_deleting x, by omega⟩
  | 2, hc =>
    simp only [stepDelete]
    refine h.turn_still (s' := goto { s with nodes := upd s.nodes r false } r c q 3)
      (cur_goto _ r c q 3) rfl rfl (fun r' e => upd_ne _ _ e) (fun _ _ => rfl)
      (fun c' g p e hd => absurd hd (nc 3 c' g p e)) ?_
    intro c' n' e _
    cases e
    exact ⟨fun _ => upd_same _ _ _, fun h => by omega, fun _ => h.going r c 2 hc hk (by omega), fun h => by omega,
      fun h => by omega⟩
  | 3, hc =>
    simp only [stepDelete]
    refine h.turn_state (s' := goto { s with regs := on r (Rec.move .deleted) s.regs } r c q 4)
      (cur_goto _ r c q 4) (Rec.move_range _) rfl rfl rfl rfl (fun c' n' e => by cases e; omega) ?_
    intro c' n' e _
    cases e
    refine ⟨fun _ => h.dead r c 3 hc hk (by omega), fun h => by omega, fun _ x hx hs => ?_, by omega⟩
    exact h.going r c 3 hc hk (by omega) _ hx rfl (move_standby (by simp) hs)
  | 4, hc =>
    simp only [stepDelete]
    refine h.turn_still (s' := goto { s with metas := upd s.metas r false } r c q 5)
      (cur_goto _ r c q 5) rfl rfl (fun _ _ => rfl) (fun r' e => upd_ne _ _ e)
      (fun c' g p e hd => absurd hd (nc 5 c' g p e)) ?_
    intro c' n' e _
    cases e
    exact ⟨fun _ => h.dead r c 4 hc hk (by omega), fun _ => upd_same _ _ _, fun _ => h.going r c 4 hc hk (by omega),
      fun h => by omega, fun h => by omega⟩
  | 5, hc =>
    simp only [stepDelete]
    refine h.turn (cur_goto _ r c q 6) h.uniq
      (fun a ha b hb e e' => h.apart a ha b hb (fun e'' => e' (e''.symm.trans e))) (fun a ha _ => ha)
      (fun r' g _ he a ha _ => (h.fresh r' g he a ha).2) ?_ (fun _ _ => rfl) (fun _ _ => rfl)
      (fun c' g p e hd => absurd hd (nc 6 c' g p e)) ?_
    · intro k hkd
      simp only [goto] at hkd
      split at hkd
      · exact hkd
      · exact (List.mem_filter.1 hkd).1
    · intro c' n' e _
      cases e
      refine ⟨fun _ => h.dead r c 5 hc hk (by omega), fun _ => h.down r c 5 hc hk (by omega),
        fun _ => h.going r c 5 hc hk (by omega), ?_, fun h => by omega⟩
      intro _ a ha e k hkd
      simp only [goto] at hkd ha
      split at hkd
      · next hg => exact absurd e (get_none.1 hg a ha)
      · next x hg =>
        have := (List.mem_filter.1 hkd).2
        have hx := h.uniq _ (get_mem hg) _ ha e.symm
        rw [← hx]
        simpa using this
  | 6, hc =>
    simp only [stepDelete]
    have hs := same_dispatch s ⟨id, r, .destroy, false⟩
    refine h.turn_still (s' := goto (dispatch s ⟨id, r, .destroy, false⟩).1 r c q 7)
      (by rw [cur_goto, hs.cur]) hs.regs hs.data (fun _ _ => by simp only [goto]; rw [hs.nodes])
      (fun _ _ => by simp only [goto]; rw [hs.metas])
      (fun c' g p e hd => absurd hd (nc 7 c' g p e)) ?_
    intro c' n' e _
    cases e
    simp only [goto]
    rw [hs.nodes, hs.metas]
    exact ⟨fun _ => h.dead r c 6 hc hk (by omega), fun _ => h.down r c 6 hc hk (by omega),
      fun _ => h.going r c 6 hc hk (by omega), fun _ => h.clean r c 6 hc hk (by omega), fun h => by omega⟩
  | 7, hc =>
    simp only [stepDelete]
    refine h.turn (s' := goto { s with regs := del r s.regs } r c q 8) (cur_goto _ r c q 8) (h.uniq.del r) ?_
      (fun a ha _ => (mem_del.1 ha).1) ?_ (fun k hk => hk) (fun _ _ => rfl) (fun _ _ => rfl)
      (fun c' g p e hd => absurd hd (nc 8 c' g p e)) ?_
    · intro a ha b hb e
      exact absurd e (mem_del.1 ha).2
    · intro r' g _ he a ha e
      exact absurd e (mem_del.1 ha).2
    · intro c' n' e _
      cases e
      exact ⟨fun _ => h.dead r c 7 hc hk (by omega), fun _ => h.down r c 7 hc hk (by omega),
        fun _ a ha e => absurd e (mem_del.1 ha).2, fun _ a ha e => absurd e (mem_del.1 ha).2,
        fun _ a ha => (mem_del.1 ha).2⟩
  | _ + 8, hc => exact inv_finish h r c q true

theorem inv_work {s : St} (h : Inv s) (ho : OneByOne s) (r : Nat) (ok : Bool) (id : Nat) : Inv (work s r ok id) := by
  unfold work
  split
  · exact h
  · exact h
  · next c q he =>
    refine h.turn_still (cur_goto s r c q 0) rfl rfl (fun _ _ => rfl) (fun _ _ => rfl)
      (fun c' g p e => absurd e (by simp)) ?_
    intro c' n' e _
    cases e
    exact ⟨fun h => by omega, fun h => by omega, fun h => by omega, fun h => by omega, fun h => by omega⟩
  · next c n q he =>
    have hc := cur_of_exec he
    split
    · next g p hk => exact inv_stepCreate h ho hk hc ok
    · next hk => exact inv_stepDelete h id hk hc
    · next hk =>
      split
      · refine h.turn_still (s' := finish { s with nodes := upd s.nodes r false } r c q true) (z := none)
          (cur_finish _ r c q true) rfl rfl (fun r' e => upd_ne _ _ e) (fun _ _ => rfl)
          (fun _ _ _ e => absurd e (by simp)) (fun _ _ e => absurd e (by simp))
      · exact inv_finish h r c q false
    · exact inv_finish h r c q ok
    · exact h
    · exact h

theorem inv_share {s : St} (h : Inv s) : Inv (workShare s) := by
  unfold workShare
  split
  · exact h
  · next c q hs =>
    split
    · -- a purge
      have hb : ∀ a ∈ del c.region s.regs, a ∈ s.regs := fun a ha => (mem_del.1 ha).1
      exact {
        uniq := h.uniq.del _
        apart := fun a ha b hb' => h.apart a (hb a ha) b (hb b hb')
        fresh := fun r g he a ha => h.fresh r g he a (hb a ha)
        dead := h.dead
        down := h.down
        going := fun r c' n h1 h2 h3 a ha => h.going r c' n h1 h2 h3 a (hb a ha)
        clean := fun r c' n h1 h2 h3 a ha => h.clean r c' n h1 h2 h3 a (hb a ha)
        gone := fun r c' n h1 h2 h3 a ha => h.gone r c' n h1 h2 h3 a (hb a ha) }
    · -- the removal of a worker
      split
      · exact h
      · exact h
      · next hn1 hn2 =>
        refine h.congr rfl rfl rfl rfl ?_
        refine cur_upd s c.region none ?_
        unfold cur
        cases hx : s.exec c.region with
        | none => rfl
        | some x =>
          match x, hx with
          | ⟨none, _⟩, _ => rfl
          | ⟨some y, w⟩, hx => exact absurd hx (hn1 y w)
    · exact h

theorem inv_step {s : St} (h : Inv s) (ho : OneByOne s) (e : Ev) : Inv (step s e) := by
  cases e with
  | push c ok => exact h.same (same_push s c ok)
  | work r ok id => exact inv_work h ho r ok id
  | share => exact inv_share h
  | crash => exact inv_crash h
  | write r k => exact inv_write h r k
  | split p c key => exact inv_split h p c key
  | merge p t => exact inv_merge h p t
  | mark r t => exact inv_mark h r t

theorem oneByOne_init : OneByOne .init := by
  rintro r r' g g' - ⟨c, p, h, -⟩
  simp [cur, St.init] at h

theorem Calm.oneByOne {s : St} (h : Calm s) : OneByOne s := by
  cases h with
  | init => exact oneByOne_init
  | step e _ ho => exact ho

theorem Calm.inv {s : St} (h : Calm s) : Inv s := by
  induction h with
  | init =>
    refine .idle ?_ ?_ ?_
    · intro a ha; simp [St.init] at ha
    · intro a ha; simp [St.init] at ha
    · funext r; simp [cur, St.init]
  | step e hs _ ih => exact inv_step ih hs.oneByOne e

end Verif.Ctl
