import Verif.Ctl.Inv

/-!
# The commands a store carries out (every key is in a region)
-/

namespace Verif.Ctl
open Verif.Codec (Bytes)
open Verif.Region (RState Range canMove maxStartKey)

/-- No command to purge a region is in the tables. -/
def NoPurge (s : St) : Prop := (∀ c ∈ s.share, c.kind ≠ .purge) ∧ ∀ e ∈ s.cmds, e.1.kind ≠ .purge

theorem mem_putCmd {c : Cmd} {t : Status} {l : List (Cmd × Status)} {e : Cmd × Status} (h : e ∈ putCmd c t l) :
    e = (c, t) ∨ e ∈ l := by
  induction l with
  | nil => simp only [putCmd, List.mem_singleton] at h; exact Or.inl h
  | cons d l ih =>
    simp only [putCmd] at h
    split at h
    · rcases List.mem_cons.1 h with h | h
      · exact Or.inl h
      · exact Or.inr (List.mem_cons_of_mem _ h)
    · split at h
      · rcases List.mem_cons.1 h with h | h
        · exact Or.inl h
        · exact Or.inr h
      · rcases List.mem_cons.1 h with h | h
        · exact Or.inr (h ▸ List.mem_cons_self)
        · exact (ih h).imp id (List.mem_cons_of_mem _)

theorem mem_addCmd {c : Cmd} {l : List (Cmd × Status)} {e : Cmd × Status} (h : e ∈ addCmd c l) :
    e = (c, .none) ∨ e ∈ l := by
  unfold addCmd at h
  split at h
  · exact Or.inr h
  · exact mem_putCmd h

theorem noPurge_register {s : St} (h : NoPurge s) (r : Nat) : NoPurge (register s r) := by
  unfold register; split <;> exact h

theorem noPurge_enqueue {s : St} (h : NoPurge s) {c : Cmd} (hc : c.kind ≠ .purge) : NoPurge (enqueue s c).1 := by
  unfold enqueue
  split
  · next hk => exact absurd hk hc
  · refine ⟨?_, h.2⟩
    intro d hd
    rcases List.mem_append.1 hd with hd | hd
    · exact h.1 d hd
    · rw [List.mem_singleton.1 hd]; exact hc
  · split <;> exact h

theorem noPurge_dispatchImpl {s : St} (h : NoPurge s) {c : Cmd} (hc : c.kind ≠ .purge) : NoPurge (dispatchImpl s c).1 := by
  unfold dispatchImpl
  split
  · exact noPurge_enqueue (noPurge_register h _) hc
  · exact noPurge_enqueue h hc

theorem noPurge_dispatch {s : St} (h : NoPurge s) {c : Cmd} (hc : c.kind ≠ .purge) : NoPurge (dispatch s c).1 := by
  unfold dispatch
  split
  · exact h
  · refine noPurge_dispatchImpl (s := { s with cmds := addCmd c s.cmds }) ⟨h.1, ?_⟩ hc
    intro e he
    rcases mem_addCmd he with e' | he
    · rw [e']; exact hc
    · exact h.2 e he

theorem noPurge_recover (l : List Cmd) : ∀ {s : St}, NoPurge s → (∀ c ∈ l, c.kind ≠ .purge) → NoPurge (recover l s) := by
  induction l with
  | nil => exact fun h _ => h
  | cons c l ih =>
    exact fun h hl => ih (noPurge_dispatchImpl h (hl c List.mem_cons_self)) (fun d hd => hl d (List.mem_cons_of_mem _ hd))

theorem noPurge_crash {s : St} (h : NoPurge s) : NoPurge (crash s) := by
  refine noPurge_recover _ ⟨?_, h.2⟩ ?_
  · intro c hc; simp [reboot] at hc
  · intro c hc
    simp only [open', List.mem_map, List.mem_filter] at hc
    obtain ⟨e, ⟨he, -⟩, rfl⟩ := hc
    exact h.2 e he

theorem noPurge_finish {s : St} (h : NoPurge s) (r : Nat) {c : Cmd} (hc : c.kind ≠ .purge) (q : List Cmd) (ok : Bool) :
    NoPurge (finish s r c q ok) := by
  refine ⟨h.1, ?_⟩
  intro e he
  rcases mem_putCmd he with e' | he
  · rw [e']; exact hc
  · exact h.2 e he

theorem noPurge_stepCreate {s : St} (h : NoPurge s) (r : Nat) {c : Cmd} (hc : c.kind ≠ .purge) (q : List Cmd) (g : Range)
    (p : Nat) (ok : Bool) (n : Nat) : NoPurge (stepCreate s r c q g p ok n) := by
  unfold stepCreate
  split
  · split
    · exact h
    · exact noPurge_finish h r hc q _
  · exact h
  · split
    · exact h
    · exact noPurge_finish h r hc q _
  · exact h
  · exact noPurge_finish h r hc q _

theorem noPurge_stepDelete {s : St} (h : NoPurge s) (r : Nat) {c : Cmd} (hc : c.kind ≠ .purge) (q : List Cmd) (id : Nat)
    (n : Nat) : NoPurge (stepDelete s r c q id n) := by
  unfold stepDelete
  split
  · split
    · exact h
    · exact noPurge_finish h r hc q _
  · exact h
  · exact h
  · exact h
  · exact h
  · exact h
  · exact noPurge_dispatch h (by simp)
  · exact h
  · exact noPurge_finish h r hc q _

theorem noPurge_step {s : St} (h : NoPurge s) (e : Ev) (he : e.plain = true) : NoPurge (step s e) := by
  cases e with
  | push c ok =>
    have hc : c.kind ≠ .purge := by simpa [Ev.plain] using he
    simp only [step, push]
    split
    · exact noPurge_dispatch h hc
    · exact h
  | work r ok id =>
    simp only [step, work]
    split
    · exact h
    · exact h
    · exact h
    · next c n q _ =>
      split
      · next hk => exact noPurge_stepCreate h r (by rw [hk]; simp) q _ _ ok n
      · next hk => exact noPurge_stepDelete h r (by rw [hk]; simp) q id n
      · next hk =>
        split
        · exact noPurge_finish (s := { s with nodes := upd s.nodes r false }) h r (by rw [hk]; simp) q _
        · exact noPurge_finish h r (by rw [hk]; simp) q _
      · next hk => exact noPurge_finish h r (by rw [hk]; simp) q _
      · exact h
      · exact h
  | share =>
    simp only [step, workShare]
    split
    · exact h
    · next c q hs =>
      split
      · next hk => exact absurd hk (h.1 c (by rw [hs]; exact List.mem_cons_self))
      · next hk =>
        split
        · exact h
        · exact h
        · refine ⟨fun d hd => h.1 d (by rw [hs]; exact List.mem_cons_of_mem _ hd), ?_⟩
          intro e he
          rcases mem_putCmd he with e' | he
          · rw [e', hk]; simp
          · exact h.2 e he
      · exact h
  | crash => exact noPurge_crash h
  | write r k => simp only [step, write]; split <;> (try split) <;> exact h
  | split p c key => simp only [step, splitEv]; split <;> (try split) <;> exact h
  | merge p t => simp only [step, mergeEv]; split <;> (try split) <;> exact h
  | mark r t => simp only [step, mark]; split <;> (try split) <;> exact h

/-- Every key in the store is in the range of a region. -/
def Covered (s : St) : Prop := ∀ k ∈ s.data, ∃ a ∈ s.regs, inRange a.2.range k = true

theorem Covered.more {s s' : St} (h : Covered s) (hd : ∀ k ∈ s'.data, k ∈ s.data)
    (hr : ∀ a ∈ s.regs, ∃ b ∈ s'.regs, b.2.range = a.2.range) : Covered s' := by
  intro k hk
  obtain ⟨a, ha, hak⟩ := h k (hd k hk)
  obtain ⟨b, hb, e⟩ := hr a ha
  exact ⟨b, hb, by rw [e]; exact hak⟩

theorem Covered.keep {s s' : St} (h : Covered s) (hd : s'.data = s.data) (hr : s'.regs = s.regs) : Covered s' :=
  h.more (by rw [hd]; exact fun k hk => hk) (by rw [hr]; exact fun a ha => ⟨a, ha, rfl⟩)

theorem put_ranges {l : Regs} (hu : Uniq l) {r : Nat} {x y : Rec} (hx : (r, x) ∈ l) (e : y.range = x.range) :
    ∀ a ∈ l, ∃ b ∈ put r y l, b.2.range = a.2.range := by
  intro a ha
  by_cases h : a.1 = r
  · have := hu _ ha _ hx h
    exact ⟨(r, y), mem_put.2 (Or.inl rfl), by rw [this]; exact e⟩
  · exact ⟨a, mem_put.2 (Or.inr ⟨ha, h⟩), rfl⟩

theorem on_ranges {l : Regs} (hu : Uniq l) (r : Nat) (f : Rec → Rec) (hf : ∀ x, (f x).range = x.range) :
    ∀ a ∈ l, ∃ b ∈ on r f l, b.2.range = a.2.range := by
  unfold on
  split
  · exact fun a ha => ⟨a, ha, rfl⟩
  · next x hg => exact put_ranges hu (get_mem hg) (hf x)

theorem add_ranges {l : Regs} (r : Nat) (x : Rec) : ∀ a ∈ l, ∃ b ∈ add r x l, b.2.range = a.2.range := by
  unfold add
  split
  · next hg => exact fun a ha => ⟨a, mem_put.2 (Or.inr ⟨ha, get_none.1 hg a ha⟩), rfl⟩
  · exact fun a ha => ⟨a, ha, rfl⟩

theorem covered_work {s : St} (hi : Inv s) (h : Covered s) (r : Nat) (ok : Bool) (id : Nat) : Covered (work s r ok id) := by
  unfold work
  split
  · exact h
  · exact h
  · exact h.keep rfl rfl
  · next c n q he =>
    have hc := cur_of_exec he
    split
    · next g p hk =>
      unfold stepCreate
      split
      · split <;> exact h.keep rfl rfl
      · exact h.more (fun k hk => hk) (add_ranges r _)
      · split <;> exact h.keep rfl rfl
      · exact h.more (fun k hk => hk) (on_ranges hi.uniq r _ (Rec.move_range _))
      · exact h.keep rfl rfl
    · next hk =>
      unfold stepDelete
      split
      · split <;> exact h.keep rfl rfl
      · exact h.more (fun k hk => hk) (on_ranges hi.uniq r _ (Rec.move_range _))
      · exact h.keep rfl rfl
      · exact h.more (fun k hk => hk) (on_ranges hi.uniq r _ (Rec.move_range _))
      · exact h.keep rfl rfl
      · refine h.more ?_ (fun a ha => ⟨a, ha, rfl⟩)
        intro k hkd
        simp only [goto] at hkd
        split at hkd
        · exact hkd
        · exact (List.mem_filter.1 hkd).1
      · have hs := same_dispatch s ⟨id, r, .destroy, false⟩
        exact h.keep hs.data hs.regs
      · intro k hkd
        obtain ⟨a, ha, hak⟩ := h k hkd
        by_cases e : a.1 = r
        · rw [hi.clean r c 7 hc hk (by omega) a ha e k hkd] at hak
          exact absurd hak (by simp)
        · exact ⟨a, mem_del.2 ⟨ha, e⟩, hak⟩
      · exact h.keep rfl rfl
    · split <;> exact h.keep rfl rfl
    · exact h.keep rfl rfl
    · exact h
    · exact h

theorem covered_split {s : St} (hi : Inv s) (h : Covered s) (p c : Nat) (key : Bytes) : Covered (splitEv s p c key) := by
  unfold splitEv
  split
  · next x y hx hy =>
    split
    · next hc =>
      simp only [Bool.and_eq_true, beq_iff_eq, bne_iff_ne, decide_eq_true_eq] at hc
      obtain ⟨⟨⟨⟨⟨-, -⟩, hemp⟩, hpc⟩, hlo⟩, hhi⟩ := hc
      intro k hk
      obtain ⟨a, ha, hak⟩ := h k hk
      by_cases ep : a.1 = p
      · have e := hi.uniq _ ha _ (get_mem hx) ep
        rw [e] at hak
        rw [inRange_iff] at hak
        by_cases hlt : k < key
        · exact ⟨(c, { y.move .normal with range := ⟨x.range.start, key⟩ }),
            mem_put.2 (Or.inr ⟨mem_put.2 (Or.inl rfl), fun e => hpc e.symm⟩), inRange_iff.2 ⟨hak.1, hlt⟩⟩
        · exact ⟨(p, { (x.move .splitting).move .normal with range := ⟨key, x.range.stop⟩ }),
            mem_put.2 (Or.inl rfl), inRange_iff.2 ⟨List.not_lt.1 hlt, hak.2⟩⟩
      · by_cases ec : a.1 = c
        · have e := hi.uniq _ ha _ (get_mem hy) ec
          rw [e, inRange_iff] at hak
          exact absurd (le_lt hak.1 hak.2) (List.not_lt.2 hemp)
        · exact ⟨a, mem_put.2 (Or.inr ⟨mem_put.2 (Or.inr ⟨ha, ec⟩), ep⟩), hak⟩
    · exact h
  · exact h

theorem covered_merge {s : St} (hi : Inv s) (h : Covered s) (p t : Nat) : Covered (mergeEv s p t) := by
  unfold mergeEv
  split
  · next x y hx hy =>
    split
    · next hc =>
      simp only [Bool.and_eq_true, beq_iff_eq, bne_iff_ne, decide_eq_true_eq, Bool.or_eq_true] at hc
      obtain ⟨⟨⟨⟨-, hxr⟩, hyr⟩, -⟩, hadj⟩ := hc
      intro k hk
      obtain ⟨a, ha, hak⟩ := h k hk
      have put' : ∀ k, inRange x.range k = true ∨ inRange y.range k = true →
          inRange (if x.range.stop = y.range.start then ⟨x.range.start, y.range.stop⟩
          else ⟨y.range.start, x.range.stop⟩) k = true := by
        intro k hk
        split
        · next e =>
          rw [inRange_iff]
          rcases hk with hk | hk <;> rw [inRange_iff] at hk
          · exact ⟨hk.1, Codec.lt_trans hk.2 (e ▸ hyr)⟩
          · exact ⟨List.le_of_lt (lt_le hxr (e ▸ hk.1)), hk.2⟩
        · next e =>
          have e' : x.range.start = y.range.stop := hadj.resolve_left e
          rw [inRange_iff]
          rcases hk with hk | hk <;> rw [inRange_iff] at hk
          · exact ⟨List.le_of_lt (lt_le hyr (e' ▸ hk.1)), hk.2⟩
          · exact ⟨hk.1, Codec.lt_trans hk.2 (e' ▸ hxr)⟩
      by_cases ep : a.1 = p
      · have e := hi.uniq _ ha _ (get_mem hx) ep
        rw [e] at hak
        exact ⟨(t, _), mem_put.2 (Or.inl rfl), put' k (Or.inl hak)⟩
      · by_cases et : a.1 = t
        · have e := hi.uniq _ ha _ (get_mem hy) et
          rw [e] at hak
          exact ⟨(t, _), mem_put.2 (Or.inl rfl), put' k (Or.inr hak)⟩
        · exact ⟨a, mem_put.2 (Or.inr ⟨mem_put.2 (Or.inr ⟨ha, ep⟩), et⟩), hak⟩
    · exact h
  · exact h

theorem covered_step {s : St} (hi : Inv s) (hp : NoPurge s) (h : Covered s) (e : Ev) : Covered (step s e) := by
  cases e with
  | push c ok => exact h.keep (same_push s c ok).data (same_push s c ok).regs
  | work r ok id => exact covered_work hi h r ok id
  | share =>
    simp only [step, workShare]
    split
    · exact h
    · next c q hs =>
      split
      · next hk => exact absurd hk (hp.1 c (by rw [hs]; exact List.mem_cons_self))
      · split <;> (first | exact h | exact h.keep rfl rfl)
      · exact h
  | crash => exact h.keep (same_recover _ _).data (same_recover _ _).regs
  | write r k =>
    simp only [step, write]
    split
    · exact h
    · next x hx =>
      split
      · next hw =>
        simp only [Bool.and_eq_true] at hw
        intro k' hk'
        rcases List.mem_cons.1 hk' with e | hk'
        · exact ⟨(r, x), get_mem hx, by rw [e]; exact hw.2⟩
        · exact h k' hk'
      · exact h
  | split p c key => exact covered_split hi h p c key
  | merge p t => exact covered_merge hi h p t
  | mark r t =>
    simp only [step, mark]
    split
    · exact h
    · next x hx =>
      split
      · exact h.more (fun k hk => hk) (put_ranges hi.uniq (get_mem hx) (Rec.move_range t x))
      · exact h

theorem Plain.covered {s : St} (h : Plain s) : NoPurge s ∧ Covered s := by
  induction h with
  | init => exact ⟨⟨by intro c hc; simp [St.init] at hc, by intro c hc; simp [St.init] at hc⟩,
      by intro k hk; simp [St.init] at hk⟩
  | step e hs _ he ih => exact ⟨noPurge_step ih.1 e he, covered_step hs.calm.inv ih.1 ih.2 e⟩

end Verif.Ctl
