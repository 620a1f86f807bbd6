import Verif.Ctl.Cover

/-!
# The commands a store carries out (the table of commands)
-/

namespace Verif.Ctl
open Verif.Codec (Bytes)
open Verif.Region (RState Range)

/-! ### The table -/

def Sorted (l : List (Cmd × Status)) : Prop := l.Pairwise fun a b => a.1.id < b.1.id

theorem Sorted.uniq {l : List (Cmd × Status)} (h : Sorted l) {a b : Cmd × Status} (ha : a ∈ l) (hb : b ∈ l)
    (e : a.1.id = b.1.id) : a = b := by
  induction l with
  | nil => simp at ha
  | cons d l ih =>
    have hp := List.pairwise_cons.1 h
    rcases List.mem_cons.1 ha with h1 | h1 <;> rcases List.mem_cons.1 hb with h2 | h2
    · rw [h1, h2]
    · have := hp.1 b h2; rw [← h1, e] at this; omega
    · have := hp.1 a h1; rw [← h2, e] at this; omega
    · exact ih hp.2 h1 h2

theorem mem_putCmd_iff {c : Cmd} {t : Status} {l : List (Cmd × Status)} (h : Sorted l) {e : Cmd × Status} :
    e ∈ putCmd c t l ↔ e = (c, t) ∨ (e ∈ l ∧ e.1.id ≠ c.id) := by
  induction l with
  | nil => simp [putCmd]
  | cons d l ih =>
    have hp := List.pairwise_cons.1 h
    simp only [putCmd]
    split
    · next he =>
      simp only [List.mem_cons]
      constructor
      · rintro (h1 | h1)
        · exact Or.inl h1
        · have := hp.1 e h1; exact Or.inr ⟨Or.inr h1, by omega⟩
      · rintro (h1 | ⟨h1 | h1, h2⟩)
        · exact Or.inl h1
        · rw [h1] at h2; exact absurd he h2
        · exact Or.inr h1
    · next he =>
      split
      · next hlt =>
        simp only [List.mem_cons]
        constructor
        · rintro (h1 | h1 | h1)
          · exact Or.inl h1
          · exact Or.inr ⟨Or.inl h1, by rw [h1]; exact he⟩
          · have := hp.1 e h1; exact Or.inr ⟨Or.inr h1, by omega⟩
        · rintro (h1 | ⟨h1 | h1, -⟩)
          · exact Or.inl h1
          · exact Or.inr (Or.inl h1)
          · exact Or.inr (Or.inr h1)
      · simp only [List.mem_cons, ih hp.2]
        constructor
        · rintro (h1 | h1 | h1)
          · exact Or.inr ⟨Or.inl h1, by rw [h1]; exact he⟩
          · exact Or.inl h1
          · exact Or.inr ⟨Or.inr h1.1, h1.2⟩
        · rintro (h1 | ⟨h1 | h1, h2⟩)
          · exact Or.inr (Or.inl h1)
          · exact Or.inl h1
          · exact Or.inr (Or.inr ⟨h1, h2⟩)

theorem sorted_putCmd (c : Cmd) (t : Status) {l : List (Cmd × Status)} (h : Sorted l) : Sorted (putCmd c t l) := by
  induction l with
  | nil => simp [putCmd, Sorted]
  | cons d l ih =>
    have hp := List.pairwise_cons.1 h
    simp only [putCmd]
    split
    · next he => exact List.pairwise_cons.2 ⟨fun e h1 => by have := hp.1 e h1; simp only; omega, hp.2⟩
    · split
      · next hlt =>
        refine List.pairwise_cons.2 ⟨fun e h1 => ?_, h⟩
        rcases List.mem_cons.1 h1 with h1 | h1
        · rw [h1]; exact hlt
        · have := hp.1 e h1; simp only; omega
      · next he hlt =>
        refine List.pairwise_cons.2 ⟨fun e h1 => ?_, ih hp.2⟩
        rcases (mem_putCmd_iff hp.2).1 h1 with h1 | h1
        · rw [h1]; simp only; omega
        · exact hp.1 e h1.1

theorem known_iff {l : List (Cmd × Status)} {id : Nat} : known l id = true ↔ ∃ e ∈ l, e.1.id = id := by
  simp [known]

/-! ### The invariant -/

structure CInv (s : St) : Prop where
  sorted : Sorted s.cmds
  home : ∀ r c, c ∈ pend s r → c.region = r ∧ c.kind ≠ .purge ∧ c.kind ≠ .destroy
  shared : ∀ c ∈ s.share, c.kind = .purge ∨ c.kind = .destroy
  ent : ∀ c, Pending s c → (c, .none) ∈ s.cmds
  nd : ∀ r, ((pend s r).map Cmd.id).Nodup
  nd' : (s.share.map Cmd.id).Nodup
  over : ∀ o ∈ s.outs, ∃ e ∈ s.cmds, e.1.id = o.1 ∧ e.2 = if o.2 then .done else .fail
  once : (s.outs.map Prod.fst).Nodup

theorem CInv.congr {s s' : St} (h : CInv s) (h1 : pend s' = pend s) (h2 : s'.share = s.share) (h3 : s'.cmds = s.cmds)
    (h4 : s'.outs = s.outs) : CInv s' where
  sorted := h3 ▸ h.sorted
  home := by rw [h1]; exact h.home
  shared := by rw [h2]; exact h.shared
  ent := by
    intro c hc
    rw [h3]
    refine h.ent c ?_
    unfold Pending at hc ⊢
    rw [h1, h2] at hc
    exact hc
  nd := by rw [h1]; exact h.nd
  nd' := by rw [h2]; exact h.nd'
  over := by rw [h3, h4]; exact h.over
  once := by rw [h4]; exact h.once

theorem pend_upd (s : St) (r : Nat) (x : Option Exec) (r' : Nat) :
    pend { s with exec := upd s.exec r x } r' =
      if r' = r then (match x with
        | none => []
        | some x => (x.run.map (·.1)).toList ++ x.wait) else pend s r' := by
  unfold pend
  by_cases e : r' = r
  · simp only [upd, if_pos e]; cases x <;> rfl
  · simp only [upd, if_neg e]

theorem pend_goto (s : St) (r : Nat) (c : Cmd) (q : List Cmd) (n : Nat) (r' : Nat) :
    pend (goto s r c q n) r' = if r' = r then c :: q else pend s r' := by
  unfold goto
  rw [pend_upd]
  rfl

theorem pend_finish (s : St) (r : Nat) (c : Cmd) (q : List Cmd) (ok : Bool) (r' : Nat) :
    pend (finish s r c q ok) r' = if r' = r then q else pend s r' := by
  have := pend_upd s r (some ⟨none, q⟩) r'
  simpa [finish, pend] using this

theorem pend_of_run {s : St} {r : Nat} {c : Cmd} {n : Nat} {q : List Cmd} (h : s.exec r = some ⟨some (c, n), q⟩) :
    pend s r = c :: q := by simp [pend, h]

theorem pend_of_wait {s : St} {r : Nat} {q : List Cmd} (h : s.exec r = some ⟨none, q⟩) : pend s r = q := by simp [pend, h]

/-- A worker goes on with its command. -/
theorem cinv_goto {s t : St} (h : CInv s) (h2 : t.share = s.share) (h3 : t.cmds = s.cmds) (h4 : t.outs = s.outs)
    (h5 : t.exec = s.exec) {r : Nat} {c : Cmd} {q : List Cmd} (hp : pend s r = c :: q) (n : Nat) :
    CInv (goto t r c q n) := by
  have e : pend t = pend s := by funext r'; simp [pend, h5]
  refine h.congr ?_ h2 h3 h4
  funext r'
  rw [pend_goto, e]
  split
  · next er => rw [er, hp]
  · rfl

/-- A command of a worker ends. -/
theorem cinv_finish {s t : St} (h : CInv s) (h2 : t.share = s.share) (h3 : t.cmds = s.cmds) (h4 : t.outs = s.outs)
    (h5 : t.exec = s.exec) {r : Nat} {c : Cmd} {q : List Cmd} (hp : pend s r = c :: q) (ok : Bool) :
    CInv (finish t r c q ok) := by
  have e : pend t = pend s := by funext r'; simp [pend, h5]
  have hpf : ∀ r', pend (finish t r c q ok) r' = if r' = r then q else pend s r' := by
    intro r'; rw [pend_finish, e]
  have hsub : ∀ r' d, d ∈ pend (finish t r c q ok) r' → d ∈ pend s r' := by
    intro r' d hd
    rw [hpf] at hd
    split at hd
    · next er => rw [er, hp]; exact List.mem_cons_of_mem _ hd
    · exact hd
  have hcp : Pending s c := Or.inl ⟨r, by rw [hp]; exact List.mem_cons_self⟩
  have hc := h.ent c hcp
  have hch := h.home r c (by rw [hp]; exact List.mem_cons_self)
  have hnd := h.nd r
  rw [hp, List.map_cons, List.nodup_cons] at hnd
  -- commands that stay have other ids
  have hne : ∀ d, Pending (finish t r c q ok) d → d.id ≠ c.id := by
    rintro d (⟨r', hd⟩ | hd) he
    · have hd' := hsub r' d hd
      have hed := h.sorted.uniq (h.ent d (Or.inl ⟨r', hd'⟩)) hc he
      rw [Prod.mk.injEq] at hed
      have hr : r' = r := by rw [← (h.home r' d hd').1, hed.1, hch.1]
      rw [hpf, if_pos hr] at hd
      exact hnd.1 (he ▸ List.mem_map_of_mem hd)
    · have hd' : d ∈ s.share := h2 ▸ hd
      have hed := h.sorted.uniq (h.ent d (Or.inr hd')) hc he
      rw [Prod.mk.injEq] at hed
      rcases h.shared d hd' with hk | hk
      · exact hch.2.1 (hed.1 ▸ hk)
      · exact hch.2.2 (hed.1 ▸ hk)
  have hcm : (finish t r c q ok).cmds = putCmd c (if ok then .done else .fail) s.cmds := by simp only [finish, h3]
  have hsh : (finish t r c q ok).share = s.share := h2
  have hou : (finish t r c q ok).outs = (c.id, ok) :: s.outs := by simp only [finish, h4]
  refine ⟨?_, fun r' d hd => h.home r' d (hsub r' d hd), by rw [hsh]; exact h.shared, ?_, ?_, by rw [hsh]; exact h.nd', ?_, ?_⟩
  · rw [hcm]; exact sorted_putCmd _ _ h.sorted
  · intro d hd
    rw [hcm, mem_putCmd_iff h.sorted]
    refine Or.inr ⟨h.ent d ?_, hne d hd⟩
    rcases hd with ⟨r', hd⟩ | hd
    · exact Or.inl ⟨r', hsub r' d hd⟩
    · exact Or.inr (h2 ▸ hd)
  · intro r'
    rw [hpf]
    split
    · exact hnd.2
    · exact h.nd r'
  · intro o ho
    rw [hou] at ho
    rw [hcm]
    rcases List.mem_cons.1 ho with ho | ho
    · exact ⟨_, (mem_putCmd_iff h.sorted).2 (Or.inl rfl), by rw [ho], by rw [ho]⟩
    · obtain ⟨d, hd, h6, h7⟩ := h.over o ho
      refine ⟨d, (mem_putCmd_iff h.sorted).2 (Or.inr ⟨hd, fun he => ?_⟩), h6, h7⟩
      have := h.sorted.uniq hd hc he
      rw [this] at h7
      simp only at h7
      split at h7 <;> exact absurd h7 (by simp)
  · rw [hou, List.map_cons, List.nodup_cons]
    refine ⟨fun hin => ?_, h.once⟩
    obtain ⟨o, ho, he⟩ := List.mem_map.1 hin
    obtain ⟨d, hd, h6, h7⟩ := h.over o ho
    have := h.sorted.uniq hd hc (h6.trans he)
    rw [this] at h7
    simp only at h7
    split at h7 <;> exact absurd h7 (by simp)

/-- A command in the table that no worker has is given to a worker. -/
theorem cinv_dispatchImpl {s : St} (h : CInv s) {c : Cmd} (hc : (c, .none) ∈ s.cmds) (hn : ∀ d, Pending s d → d.id ≠ c.id) :
    CInv (dispatchImpl s c).1 := by
  have reg : ∀ r, pend (register s r) = pend s := by
    intro r
    unfold register
    split
    · rfl
    · next hx =>
      funext r'
      rw [pend_upd]
      split
      · next e => simp [pend, e, hx]
      · rfl
  have enq : ∀ {t : St}, pend t = pend s → t.share = s.share → t.cmds = s.cmds → t.outs = s.outs → CInv (enqueue t c).1 := by
    intro t h1 h2 h3 h4
    have ht : CInv t := h.congr h1 h2 h3 h4
    have hnt : ∀ d, Pending t d → d.id ≠ c.id := by
      intro d hd; refine hn d ?_; unfold Pending at hd ⊢; rw [h1, h2] at hd; exact hd
    have hct : (c, Status.none) ∈ t.cmds := h3 ▸ hc
    have toShare : (c.kind = .purge ∨ c.kind = .destroy) → CInv { t with share := t.share ++ [c] } := by
      intro hk
      refine ⟨ht.sorted, ht.home, ?_, ?_, ht.nd, ?_, ht.over, ht.once⟩
      · intro d hd
        rcases List.mem_append.1 hd with hd | hd
        · exact ht.shared d hd
        · rw [List.mem_singleton.1 hd]; exact hk
      · rintro d (hd | hd)
        · exact ht.ent d (Or.inl hd)
        · rcases List.mem_append.1 hd with hd | hd
          · exact ht.ent d (Or.inr hd)
          · rw [List.mem_singleton.1 hd]; exact hct
      · rw [List.map_append, List.nodup_append]
        refine ⟨ht.nd', by simp, ?_⟩
        intro a ha b hb
        obtain ⟨d, hd, e⟩ := List.mem_map.1 ha
        have : b = c.id := by simpa using hb
        rw [this, ← e]
        exact hnt d (Or.inr hd)
    unfold enqueue
    split
    · next hk => exact toShare (Or.inl hk)
    · next hk => exact toShare (Or.inr hk)
    · next hk1 hk2 =>
      split
      · exact ht
      · next x hx =>
        have hp : ∀ r', pend { t with exec := upd t.exec c.region (some { x with wait := x.wait ++ [c] }) } r' =
            if r' = c.region then pend t c.region ++ [c] else pend t r' := by
          intro r'
          rw [pend_upd]
          split
          · simp [pend, hx]
          · rfl
        have mem : ∀ r' d, d ∈ pend { t with exec := upd t.exec c.region (some { x with wait := x.wait ++ [c] }) } r' →
            d ∈ pend t r' ∨ (d = c ∧ r' = c.region) := by
          intro r' d hd
          rw [hp] at hd
          split at hd
          · next e =>
            rcases List.mem_append.1 hd with hd | hd
            · exact Or.inl (e ▸ hd)
            · exact Or.inr ⟨List.mem_singleton.1 hd, e⟩
          · exact Or.inl hd
        refine ⟨ht.sorted, ?_, ht.shared, ?_, ?_, ht.nd', ht.over, ht.once⟩
        · intro r' d hd
          rcases mem r' d hd with hd | ⟨e, e'⟩
          · exact ht.home r' d hd
          · rw [e, e']; exact ⟨rfl, hk1, hk2⟩
        · rintro d (⟨r', hd⟩ | hd)
          · rcases mem r' d hd with hd | ⟨e, -⟩
            · exact ht.ent d (Or.inl ⟨r', hd⟩)
            · rw [e]; exact hct
          · exact ht.ent d (Or.inr hd)
        · intro r'
          rw [hp]
          split
          · rw [List.map_append, List.nodup_append]
            refine ⟨ht.nd _, by simp, ?_⟩
            intro a ha b hb
            obtain ⟨d, hd, e⟩ := List.mem_map.1 ha
            have : b = c.id := by simpa using hb
            rw [this, ← e]
            exact hnt d (Or.inl ⟨_, hd⟩)
          · exact ht.nd r'
  have hs : ∀ r, (register s r).share = s.share ∧ (register s r).cmds = s.cmds ∧ (register s r).outs = s.outs := by
    intro r; unfold register; split <;> exact ⟨rfl, rfl, rfl⟩
  unfold dispatchImpl
  split
  · exact enq (reg _) (hs _).1 (hs _).2.1 (hs _).2.2
  · exact enq rfl rfl rfl rfl

/-- A new command is entered into the table. -/
theorem cinv_add {s : St} (h : CInv s) {c : Cmd} (hk : known s.cmds c.id = false) :
    CInv { s with cmds := putCmd c .none s.cmds } ∧ ∀ d, Pending s d → d.id ≠ c.id := by
  have hno : ∀ e ∈ s.cmds, e.1.id ≠ c.id := by
    intro e he he'
    rw [known_iff.2 ⟨e, he, he'⟩] at hk
    exact absurd hk (by simp)
  have keep : ∀ e ∈ s.cmds, e ∈ putCmd c .none s.cmds :=
    fun e he => (mem_putCmd_iff h.sorted).2 (Or.inr ⟨he, hno e he⟩)
  refine ⟨⟨sorted_putCmd _ _ h.sorted, h.home, h.shared, fun d hd => keep _ (h.ent d hd), h.nd, h.nd', ?_, h.once⟩,
    fun d hd => hno _ (h.ent d hd)⟩
  intro o ho
  obtain ⟨e, he, h1, h2⟩ := h.over o ho
  exact ⟨e, keep e he, h1, h2⟩

theorem cinv_dispatch {s : St} (h : CInv s) {c : Cmd} (hr : c.retry = false) : CInv (dispatch s c).1 := by
  unfold dispatch
  split
  · exact h
  · next hk =>
    have hk' : known s.cmds c.id = false := by
      cases hkn : known s.cmds c.id with
      | false => rfl
      | true => simp [hr, hkn] at hk
    have ha : addCmd c s.cmds = putCmd c .none s.cmds := by simp [addCmd, hk']
    rw [ha]
    have hc := cinv_add h hk'
    exact cinv_dispatchImpl hc.1 ((mem_putCmd_iff h.sorted).2 (Or.inl rfl)) hc.2

theorem cmds_dispatchImpl (s : St) (c : Cmd) : (dispatchImpl s c).1.cmds = s.cmds := by
  have enq : ∀ t : St, (enqueue t c).1.cmds = t.cmds := by
    intro t; unfold enqueue; split <;> (try split) <;> rfl
  have reg : (register s c.region).cmds = s.cmds := by unfold register; split <;> rfl
  unfold dispatchImpl
  split
  · rw [enq, reg]
  · exact enq s

/-- Who has a command after it is given to a worker. -/
theorem pending_dispatchImpl {s : St} {c d : Cmd} (h : Pending (dispatchImpl s c).1 d) : Pending s d ∨ d = c := by
  have enq : ∀ t : St, Pending (enqueue t c).1 d → Pending t d ∨ d = c := by
    intro t ht
    unfold enqueue at ht
    have sh : Pending { t with share := t.share ++ [c] } d → Pending t d ∨ d = c := by
      rintro (hd | hd)
      · exact Or.inl (Or.inl hd)
      · rcases List.mem_append.1 hd with hd | hd
        · exact Or.inl (Or.inr hd)
        · exact Or.inr (List.mem_singleton.1 hd)
    split at ht
    · exact sh ht
    · exact sh ht
    · split at ht
      · exact Or.inl ht
      · next x hx =>
        rcases ht with ⟨r, hd⟩ | hd
        · rw [pend_upd] at hd
          split at hd
          · simp only [← List.append_assoc] at hd
            rcases List.mem_append.1 hd with hd | hd
            · refine Or.inl (Or.inl ⟨c.region, ?_⟩)
              unfold pend
              rw [hx]
              exact hd
            · exact Or.inr (List.mem_singleton.1 hd)
          · exact Or.inl (Or.inl ⟨r, hd⟩)
        · exact Or.inl (Or.inr hd)
  have reg : Pending (register s c.region) d → Pending s d := by
    intro hd
    unfold register at hd
    split at hd
    · exact hd
    · rcases hd with ⟨r, hd⟩ | hd
      · rw [pend_upd] at hd
        split at hd
        · simp at hd
        · exact Or.inl ⟨r, hd⟩
      · exact Or.inr hd
  unfold dispatchImpl at h
  split at h
  · exact (enq _ h).imp reg id
  · exact enq _ h

theorem cinv_recover (l : List Cmd) : ∀ {s : St}, CInv s → (∀ c ∈ l, (c, .none) ∈ s.cmds) → (l.map Cmd.id).Nodup →
    (∀ c ∈ l, ∀ d, Pending s d → d.id ≠ c.id) → CInv (recover l s) := by
  induction l with
  | nil => exact fun h _ _ _ => h
  | cons c l ih =>
    intro s h h1 h2 h3
    rw [List.map_cons, List.nodup_cons] at h2
    refine ih (cinv_dispatchImpl h (h1 c List.mem_cons_self) (h3 c List.mem_cons_self)) ?_ h2.2 ?_
    · intro d hd
      rw [cmds_dispatchImpl]
      exact h1 d (List.mem_cons_of_mem _ hd)
    · intro d hd d' hd'
      rcases pending_dispatchImpl hd' with hp | e
      · exact h3 d (List.mem_cons_of_mem _ hd) d' hp
      · rw [e]
        intro e'
        exact h2.1 (e' ▸ List.mem_map_of_mem hd)

theorem pending_reboot {s : St} {d : Cmd} (h : Pending (reboot s) d) : False := by
  rcases h with ⟨r, hd⟩ | hd
  · unfold pend at hd
    simp only [reboot] at hd
    split at hd
    · simp at hd
    · next hx =>
      split at hx
      · split at hx
        · cases hx; simp at hd
        · exact absurd hx (by simp)
      · exact absurd hx (by simp)
  · simp [reboot] at hd

theorem mem_open {l : List (Cmd × Status)} {c : Cmd} : c ∈ open' l ↔ (c, .none) ∈ l := by
  simp only [open', List.mem_map, List.mem_filter, waits, beq_iff_eq]
  constructor
  · rintro ⟨⟨c', t⟩, ⟨h1, h2⟩, h3⟩
    simp only at h2 h3
    rw [← h3, ← h2]; exact h1
  · exact fun h => ⟨(c, .none), ⟨h, rfl⟩, rfl⟩

theorem nodup_open {l : List (Cmd × Status)} (h : Sorted l) : ((open' l).map Cmd.id).Nodup := by
  unfold open'
  rw [List.map_map]
  have h1 : (l.filter waits).Pairwise fun a b => a.1.id < b.1.id := List.Pairwise.filter _ h
  exact List.pairwise_map.2 (h1.imp fun hab => Nat.ne_of_lt hab)

theorem cinv_crash {s : St} (h : CInv s) : CInv (crash s) := by
  refine cinv_recover _ ?_ (fun c hc => mem_open.1 hc) (nodup_open h.sorted) (fun c _ d hd => absurd hd (fun h => pending_reboot h))
  have np : ∀ r, pend (reboot s) r = [] := by
    intro r
    cases hp : pend (reboot s) r with
    | nil => rfl
    | cons d l => exact absurd (Or.inl ⟨r, by rw [hp]; exact List.mem_cons_self⟩ : Pending (reboot s) d) (fun h => pending_reboot h)
  refine ⟨h.sorted, ?_, ?_, fun d hd => absurd hd (fun h => pending_reboot h), ?_, by simp [reboot], h.over, h.once⟩
  · intro r c hc; rw [np] at hc; simp at hc
  · intro c hc; simp [reboot] at hc
  · intro r; rw [np]; simp

theorem cinv_work {s : St} (h : CInv s) (r : Nat) (ok : Bool) (id : Nat) : CInv (work s r ok id) := by
  unfold work
  split
  · exact h
  · exact h
  · next c q he => exact cinv_goto h rfl rfl rfl rfl (pend_of_wait he) 0
  · next c n q he =>
    have hp := pend_of_run he
    split
    · next g p hk =>
      unfold stepCreate
      split
      · split
        · exact cinv_goto h rfl rfl rfl rfl hp _
        · exact cinv_finish h rfl rfl rfl rfl hp _
      · exact cinv_goto (t := { s with regs := add r ⟨.new, g⟩ s.regs }) h rfl rfl rfl rfl hp _
      · split
        · exact cinv_goto (t := { s with nodes := upd s.nodes r true, metas := upd s.metas r true }) h rfl rfl rfl rfl hp _
        · exact cinv_finish h rfl rfl rfl rfl hp _
      · exact cinv_goto (t := { s with regs := on r (Rec.move (if p = 0 then .normal else .standby)) s.regs }) h rfl rfl rfl rfl hp _
      · exact cinv_finish h rfl rfl rfl rfl hp _
    · unfold stepDelete
      split
      · split
        · exact cinv_goto h rfl rfl rfl rfl hp _
        · exact cinv_finish h rfl rfl rfl rfl hp _
      · exact cinv_goto (t := { s with regs := on r (Rec.move .deleting) s.regs }) h rfl rfl rfl rfl hp _
      · exact cinv_goto (t := { s with nodes := upd s.nodes r false }) h rfl rfl rfl rfl hp _
      · exact cinv_goto (t := { s with regs := on r (Rec.move .deleted) s.regs }) h rfl rfl rfl rfl hp _
      · exact cinv_goto (t := { s with metas := upd s.metas r false }) h rfl rfl rfl rfl hp _
      · exact cinv_goto (t := { s with data := match get r s.regs with
          | none => s.data
          | some x => s.data.filter fun k => !inRange x.range k }) h rfl rfl rfl rfl hp _
      · have hd := cinv_dispatch h (c := ⟨id, r, .destroy, false⟩) rfl
        refine cinv_goto hd rfl rfl rfl rfl ?_ _
        have : (dispatch s ⟨id, r, .destroy, false⟩).1.exec = s.exec := by
          unfold dispatch
          split
          · rfl
          · rfl
        unfold pend
        rw [this, he]
        rfl
      · exact cinv_goto (t := { s with regs := del r s.regs }) h rfl rfl rfl rfl hp _
      · exact cinv_finish h rfl rfl rfl rfl hp _
    · split
      · exact cinv_finish (t := { s with nodes := upd s.nodes r false }) h rfl rfl rfl rfl hp _
      · exact cinv_finish h rfl rfl rfl rfl hp _
    · exact cinv_finish h rfl rfl rfl rfl hp _
    · exact h
    · exact h

/-- A command of the shared worker ends. -/
theorem cinv_shared {s t : St} (h : CInv s) {c : Cmd} {q : List Cmd} (hs : s.share = c :: q) (h1 : pend t = pend s)
    (h2 : t.share = q) (h3 : t.cmds = putCmd c .done s.cmds) (h4 : t.outs = (c.id, true) :: s.outs) : CInv t := by
  have hc := h.ent c (Or.inr (by rw [hs]; exact List.mem_cons_self))
  have hck := h.shared c (by rw [hs]; exact List.mem_cons_self)
  have hnd := h.nd'
  rw [hs, List.map_cons, List.nodup_cons] at hnd
  have hsub : ∀ d, Pending t d → Pending s d := by
    rintro d (⟨r, hd⟩ | hd)
    · exact Or.inl ⟨r, h1 ▸ hd⟩
    · exact Or.inr (by rw [hs]; exact List.mem_cons_of_mem _ (h2 ▸ hd))
  have hne : ∀ d, Pending t d → d.id ≠ c.id := by
    intro d hd he
    have hed := h.sorted.uniq (h.ent d (hsub d hd)) hc he
    rw [Prod.mk.injEq] at hed
    rcases hd with ⟨r, hd⟩ | hd
    · have := h.home r d (h1 ▸ hd)
      rw [hed.1] at this
      rcases hck with hk | hk
      · exact this.2.1 hk
      · exact this.2.2 hk
    · exact hnd.1 (he ▸ List.mem_map_of_mem (h2 ▸ hd))
  refine ⟨?_, by rw [h1]; exact h.home, ?_, ?_, by rw [h1]; exact h.nd, by rw [h2]; exact hnd.2, ?_, ?_⟩
  · rw [h3]; exact sorted_putCmd _ _ h.sorted
  · rw [h2]; exact fun d hd => h.shared d (by rw [hs]; exact List.mem_cons_of_mem _ hd)
  · intro d hd
    rw [h3, mem_putCmd_iff h.sorted]
    exact Or.inr ⟨h.ent d (hsub d hd), hne d hd⟩
  · intro o ho
    rw [h4] at ho
    rw [h3]
    rcases List.mem_cons.1 ho with ho | ho
    · exact ⟨_, (mem_putCmd_iff h.sorted).2 (Or.inl rfl), by rw [ho], by rw [ho]; rfl⟩
    · obtain ⟨d, hd, h6, h7⟩ := h.over o ho
      refine ⟨d, (mem_putCmd_iff h.sorted).2 (Or.inr ⟨hd, fun he => ?_⟩), h6, h7⟩
      have := h.sorted.uniq hd hc he
      rw [this] at h7
      simp only at h7
      split at h7 <;> exact absurd h7 (by simp)
  · rw [h4, List.map_cons, List.nodup_cons]
    refine ⟨fun hin => ?_, h.once⟩
    obtain ⟨o, ho, he⟩ := List.mem_map.1 hin
    obtain ⟨d, hd, h6, h7⟩ := h.over o ho
    have := h.sorted.uniq hd hc (h6.trans he)
    rw [this] at h7
    simp only at h7
    split at h7 <;> exact absurd h7 (by simp)

theorem pend_destroyed {s : St} {r : Nat} (h1 : ∀ y w, s.exec r ≠ some ⟨some y, w⟩) (h2 : ∀ c w, s.exec r ≠ some ⟨none, c :: w⟩) :
    pend s r = [] := by
  unfold pend
  cases hx : s.exec r with
  | none => rfl
  | some x =>
    match x, hx with
    | ⟨some y, w⟩, hx => exact absurd hx (h1 y w)
    | ⟨none, []⟩, _ => rfl
    | ⟨none, c :: w⟩, hx => exact absurd hx (h2 c w)

theorem cinv_share {s : St} (h : CInv s) : CInv (workShare s) := by
  unfold workShare
  split
  · exact h
  · next c q hs =>
    split
    · exact cinv_shared h hs rfl rfl rfl rfl
    · split
      · exact h
      · exact h
      · next hn1 hn2 =>
        refine cinv_shared h hs ?_ rfl rfl rfl
        funext r
        have := pend_upd s c.region none r
        refine this.trans ?_
        split
        · next e => rw [e]; exact (pend_destroyed (fun y w => hn1 y w) (fun c w => hn2 c w)).symm
        · rfl
    · exact h

theorem cinv_step {s : St} (h : CInv s) (e : Ev) (he : e.first = true) : CInv (step s e) := by
  cases e with
  | push c ok =>
    have hr : c.retry = false := by simpa [Ev.first] using he
    simp only [step, push]
    split
    · exact (cinv_dispatch h hr).congr rfl rfl rfl rfl
    · exact h.congr rfl rfl rfl rfl
  | work r ok id => exact cinv_work h r ok id
  | share => exact cinv_share h
  | crash => exact cinv_crash h
  | write r k => simp only [step, write]; split <;> (try split) <;> exact h.congr rfl rfl rfl rfl
  | split p c key => simp only [step, splitEv]; split <;> (try split) <;> exact h.congr rfl rfl rfl rfl
  | merge p t => simp only [step, mergeEv]; split <;> (try split) <;> exact h.congr rfl rfl rfl rfl
  | mark r t => simp only [step, mark]; split <;> (try split) <;> exact h.congr rfl rfl rfl rfl

theorem Tidy.cinv {s : St} (h : Tidy s) : CInv s := by
  induction h with
  | init =>
    refine ⟨by simp [Sorted, St.init], ?_, ?_, ?_, ?_, ?_, ?_, ?_⟩
    · intro r c hc; simp [pend, St.init] at hc
    · intro c hc; simp [St.init] at hc
    · rintro c (⟨r, hc⟩ | hc)
      · simp [pend, St.init] at hc
      · simp [St.init] at hc
    · intro r; simp [pend, St.init]
    · simp [St.init]
    · intro o ho; simp [St.init] at ho
    · simp [St.init]
  | step e _ he ih => exact cinv_step ih e he

end Verif.Ctl
