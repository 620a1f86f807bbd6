import Verif.Coproc.Group

/-!
# Pages of a scan with a coprocessor
-/

namespace Verif.Coproc
open Verif.Codec Verif.Txn Verif.Scan

variable {F : Type}

theorem readRow_kept {e : Env F} {q : Req} {kv : KV} {o : Option (List (Cell F))} (h : readRow e q kv = .ok o)
    (rows : List KV) : kept e q (kv :: rows) = o.toList ++ kept e q rows := by
  unfold readRow at h
  unfold kept
  rw [List.filterMap_cons]
  split at h
  · cases h
  · rename_i r hr
    rw [hr]
    simp only
    split at h
    · rename_i hx
      split at h
      · cases h
      · rename_i hk
        rw [← Except.ok.inj h, if_pos (Or.inr hk)]; rfl
      · rename_i hk
        rw [← Except.ok.inj h, if_neg]
        · rfl
        · rw [hk]; simp [hx]
    · rename_i hx
      rw [← Except.ok.inj h, if_pos (Or.inl (by simpa using hx))]; rfl

theorem rowLoop_group {e : Env F} {q : Req} {p : Plan} {l : Lim} (hg : p.group = true) :
    ∀ {rows : List KV} {cnt : Nat} {bytes : Int} {m m' : Option (Mgr F)} {kvs rows' : List KV} {b : Bool},
    rowLoop e q p l rows cnt bytes m = .ok (kvs, b, m', rows') → kvs = [] ∧ b = false ∧ rows' = [] ∧
      foldRec e q p m (kept e q rows) = .ok m'
  | [], cnt, bytes, m, m', kvs, rows', b, h => by
    simp only [rowLoop, Except.ok.injEq, Prod.mk.injEq] at h
    obtain ⟨rfl, rfl, rfl, rfl⟩ := h
    exact ⟨rfl, rfl, rfl, rfl⟩
  | kv :: rows, cnt, bytes, m, m', kvs, rows', b, h => by
    simp only [rowLoop, doRow] at h
    cases hr : readRow e q kv with
    | error x => rw [hr] at h; cases h
    | ok o =>
      rw [hr] at h
      rw [readRow_kept hr rows]
      cases o with
      | none => exact rowLoop_group hg h
      | some r =>
        simp only [hg, if_true] at h
        simp only [Option.toList, List.singleton_append, foldRec]
        cases ha : aggRow e q p m r with
        | error x => rw [ha] at h; cases h
        | ok mg =>
          rw [ha] at h
          exact rowLoop_group hg h

/-- What a page does to the rows, it does before returning groups. -/
theorem page_split {e : Env F} {q : Req} {p : Plan} {l : Lim} (hg : p.group = true) {s s' : Ses F} {kvs : List KV}
    (h : page e q p l s = .ok (kvs, s')) : ∃ m', foldRec e q p s.mgr (kept e q s.rows) = .ok m' ∧
      page e q p l ⟨m', s.it, []⟩ = .ok (kvs, s') := by
  unfold page at h
  split at h
  · cases h
  · rename_i hr
    cases (rowLoop_group hg hr).2.1
  · rename_i kvs0 m rows hr
    obtain ⟨rfl, _, rfl, hf⟩ := rowLoop_group hg hr
    refine ⟨m, hf, ?_⟩
    unfold page
    simp only [rowLoop]
    exact h

/-- The result of a group as a record. -/
def resRec (e : Env F) (q : Req) (g : Bytes × List (Cell F)) : List (Cell F) :=
  (if q.groupBy = [] then [] else (e.decKey g.1).getD []) ++ g.2

theorem castAll_ok : ∀ {cs r : List (Cell F)} {ts : List Ty}, castAll cs ts = .ok r → r = cs
  | [], r, ts, h => by
    simp only [castAll, Except.ok.injEq] at h
    exact h.symm
  | c :: cs, r, [], h => by simp [castAll] at h
  | c :: cs, r, t :: ts, h => by
    simp only [castAll] at h
    split at h
    · cases h
    · rename_i c' hc
      split at h
      · cases h
      · rename_i cs' hcs
        rw [← Except.ok.inj h, castAll_ok hcs, (clone_ok hc).1]

theorem emit_ok {e : Env F} {q : Req} {p : Plan} (ho : Opened q p) {g : Bytes × List (Cell F)} {kv : KV}
    (h : emit e p g = .ok kv) : e.encRow (resRec e q g) = .kv kv := by
  have hk : p.keyTys = [] ↔ q.groupBy = [] := by
    have := ho.keys
    constructor
    · intro hx; rw [hx] at this; exact List.length_eq_zero_iff.1 this.symm
    · intro hx; rw [hx] at this; exact List.length_eq_zero_iff.1 this
  unfold emit at h
  split at h
  · cases h
  · rename_i ks hks
    split at h
    · cases h
    · rename_i r hr
      have hrec : r = resRec e q g := by
        rw [castAll_ok hr]
        unfold resRec
        congr 1
        by_cases hx : p.keyTys = []
        · rw [if_pos hx] at hks
          rw [if_pos (hk.1 hx)]
          exact (Option.some.inj hks).symm
        · rw [if_neg hx] at hks
          rw [if_neg (fun hy => hx (hk.2 hy)), hks]; rfl
      split at h
      · rename_i kv' hkv
        rw [← Except.ok.inj h, ← hrec]
        exact hkv
      · cases h

theorem sent_emit {e : Env F} {q : Req} {p : Plan} (ho : Opened q p) {g : Bytes × List (Cell F)} {kv : KV} {l : Lim}
    (h : emit e p g = .ok kv) : sent e l.keyOnly (resRec e q g) = some (strip l kv) := by
  unfold sent
  rw [emit_ok ho h]
  rfl

theorem emitLoop_ok {e : Env F} {q : Req} {p : Plan} {l : Lim} (ho : Opened q p) :
    ∀ {gs gs' : List (Bytes × List (Cell F))} {cnt : Nat} {bytes : Int} {kvs : List KV},
    emitLoop e p l gs cnt bytes = .ok (kvs, gs') → ∃ d, gs = d ++ gs' ∧
      d.map (fun g => sent e l.keyOnly (resRec e q g)) = kvs.map some ∧ (kvs = [] → gs = [])
  | [], gs', cnt, bytes, kvs, h => by
    simp only [emitLoop, Except.ok.injEq, Prod.mk.injEq] at h
    obtain ⟨rfl, rfl⟩ := h
    exact ⟨[], rfl, rfl, fun _ => rfl⟩
  | g :: gs, gs', cnt, bytes, kvs, h => by
    simp only [emitLoop] at h
    split at h
    · cases h
    · rename_i kv hkv
      split at h
      · simp only [Except.ok.injEq, Prod.mk.injEq] at h
        obtain ⟨rfl, rfl⟩ := h
        exact ⟨[g], rfl, by simp [sent_emit ho hkv], by simp⟩
      · split at h
        · cases h
        · rename_i kvs' gs'' hrec
          simp only [Except.ok.injEq, Prod.mk.injEq] at h
          obtain ⟨rfl, rfl⟩ := h
          obtain ⟨d, h1, h2, _⟩ := emitLoop_ok ho hrec
          exact ⟨g :: d, by rw [h1]; rfl, by simp [sent_emit ho hkv, h2], by simp⟩

/-- The groups a session has still to return. -/
def rem (s : Ses F) : List (Bytes × List (Cell F)) :=
  match s.mgr with
  | none => []
  | some mg => s.it.getD mg.groups.l

theorem page_drain {e : Env F} {q : Req} {p : Plan} {l : Lim} (ho : Opened q p) (hg : p.group = true)
    {s s' : Ses F} {kvs : List KV} (hr : s.rows = []) (h : page e q p l s = .ok (kvs, s')) :
    s'.rows = [] ∧ ∃ d, rem s = d ++ rem s' ∧
      d.map (fun g => sent e l.keyOnly (resRec e q g)) = kvs.map some ∧ (kvs = [] → rem s = []) := by
  unfold page at h
  rw [hr] at h
  simp only [rowLoop, hg, if_true] at h
  cases hm : s.mgr with
  | none =>
    rw [hm] at h
    simp only [Except.ok.injEq, Prod.mk.injEq] at h
    obtain ⟨rfl, rfl⟩ := h
    refine ⟨rfl, [], ?_, rfl, ?_⟩
    · simp [rem, hm]
    · intro _; simp [rem, hm]
  | some mg =>
    rw [hm] at h
    simp only at h
    split at h
    · cases h
    · rename_i out gs hout
      simp only [Except.ok.injEq, Prod.mk.injEq] at h
      obtain ⟨rfl, rfl⟩ := h
      obtain ⟨d, h1, h2, h3⟩ := emitLoop_ok ho hout
      refine ⟨rfl, d, ?_, ?_, ?_⟩
      · simp [rem, hm, h1]
      · simpa using h2
      · intro hx
        simp only [rem, hm]
        exact h3 (by simpa using hx)

theorem pages_drain {e : Env F} {q : Req} {p : Plan} (ho : Opened q p) (hg : p.group = true) {ko : Bool} :
    ∀ {ls : List Lim} {s s' : Ses F} {out : List (List KV)}, (∀ l ∈ ls, l.keyOnly = ko) → s.rows = [] →
    pages e q p ls s = .ok (out, s') → ∃ d, rem s = d ++ rem s' ∧
      d.map (fun g => sent e ko (resRec e q g)) = out.flatten.map some ∧ ([] ∈ out → rem s' = [])
  | [], s, s', out, _, _, h => by
    simp only [pages, Except.ok.injEq, Prod.mk.injEq] at h
    obtain ⟨rfl, rfl⟩ := h
    exact ⟨[], rfl, rfl, by simp⟩
  | l :: ls, s, s', out, hk, hr, h => by
    simp only [pages] at h
    split at h
    · cases h
    · rename_i kvs s1 h1
      split at h
      · cases h
      · rename_i out' s2 h2
        simp only [Except.ok.injEq, Prod.mk.injEq] at h
        obtain ⟨rfl, rfl⟩ := h
        obtain ⟨hr1, d, hd1, hd2, hd3⟩ := page_drain ho hg hr h1
        obtain ⟨d', he1, he2, he3⟩ := pages_drain ho hg (fun l hl => hk l (List.mem_cons_of_mem _ hl)) hr1 h2
        refine ⟨d ++ d', ?_, ?_, ?_⟩
        · rw [hd1, he1, List.append_assoc]
        · rw [List.map_append, he2, List.flatten_cons, List.map_append, ← hd2, hk l List.mem_cons_self]
        · intro hx
          rcases List.mem_cons.1 hx with hx | hx
          · have := hd3 hx.symm
            rw [hd1, he1] at this
            simp only [List.append_eq_nil_iff] at this
            exact this.2.2
          · exact he3 hx

/-! ## The groups -/

theorem groups_keys {e : Env F} {q : Req} {p : Plan} (hc : KeyCodec e) {recs : List (List (Cell F))} {mg : Mgr F}
    (hi : GInv e q p recs (some mg)) {g : Bytes × List (Cell F)} (hg : g ∈ mg.groups.l) :
    ∃ r ∈ recs, kb e q r = some g.1 ∧ (resRec e q g).take q.groupBy.length = keyOf q r ∧
      (resRec e q g).drop q.groupBy.length = g.2 := by
  have hget : mg.groups.get g.1 = some g.2 := (CF.mem_iff_get _ _ _).1 hg
  obtain ⟨hne, _⟩ := hi.present mg g.1 g.2 rfl hget
  obtain ⟨r, hr⟩ := List.exists_mem_of_ne_nil _ hne
  have hr := List.mem_filter.1 hr
  have hkb := of_decide_eq_true hr.2
  obtain ⟨hl, _⟩ := hi.rows r hr.1
  refine ⟨r, hr.1, hkb, ?_⟩
  unfold resRec
  unfold kb at hkb
  by_cases hb : q.groupBy = []
  · rw [if_pos hb, hb]
    refine ⟨?_, rfl⟩
    simp [keyOf, hb]
  · rw [if_neg hb] at hkb ⊢
    rw [hc _ _ hkb]
    simp only [Option.getD]
    rw [← hl]
    exact ⟨List.take_left, List.drop_left⟩

variable [DecidableEq F]

theorem rowsAt_groupOf {e : Env F} {q : Req} (hc : KeyCodec e) {recs : List (List (Cell F))}
    (hr : ∀ r ∈ recs, ∃ b, kb e q r = some b) {r : List (Cell F)} {b : Bytes} (hkb : kb e q r = some b) :
    rowsAt e q recs b = groupOf q recs (keyOf q r) := by
  unfold rowsAt groupOf
  apply List.filter_congr
  intro x hx
  obtain ⟨bx, hbx⟩ := hr x hx
  by_cases hb : q.groupBy = []
  · have h1 : ∀ y : List (Cell F), kb e q y = some [] := by intro y; simp [kb, hb]
    rw [h1] at hkb
    rw [h1, ← hkb]
    simp [keyOf, hb]
  · have h1 : ∀ y : List (Cell F), kb e q y = e.encKey (keyOf q y) := by intro y; simp [kb, hb]
    rw [h1] at hkb hbx
    rw [h1]
    by_cases hk : keyOf q x = keyOf q r
    · rw [hk, hkb]; simp
    · have : e.encKey (keyOf q x) ≠ some b := by
        intro hx'
        apply hk
        have e1 := hc _ _ hx'
        rw [hc _ _ hkb] at e1
        exact (Option.some.inj e1).symm
      simp [hk, this]

theorem pairwise_of_asc {l : List (Bytes × List (Cell F))} (h : Asc l) : l.Pairwise (fun a b => a.1 < b.1) := h

/-- The map of groups holds the results of the groups. -/
theorem groups_of_inv {e : Env F} {q : Req} {p : Plan} (ho : Opened q p) (hc : KeyCodec e)
    {recs : List (List (Cell F))} {mg : Mgr F} (hi : GInv e q p recs (some mg)) :
    Groups e q recs (mg.groups.l.map (resRec e q)) := by
  have hrows : ∀ r ∈ recs, ∃ b, kb e q r = some b := fun r hr => (hi.rows r hr).2
  -- distinct keys in the map have distinct results
  have hkey : ∀ g ∈ mg.groups.l, ∀ g' ∈ mg.groups.l,
      (resRec e q g).take q.groupBy.length = (resRec e q g').take q.groupBy.length → g.1 = g'.1 := by
    intro g hg g' hg' heq
    obtain ⟨r, _, hkb, hk, _⟩ := groups_keys hc hi hg
    obtain ⟨r', _, hkb', hk', _⟩ := groups_keys hc hi hg'
    rw [hk, hk'] at heq
    have : kb e q r = kb e q r' := by
      unfold kb
      rw [heq]
    rw [hkb, hkb'] at this
    exact Option.some.inj this
  have hpw := pairwise_of_asc mg.groups.asc
  refine ⟨?_, ?_, ?_, ?_⟩
  · rw [List.map_map]
    rw [List.Nodup, List.pairwise_map]
    refine hpw.imp_of_mem ?_
    intro g g' hg hg' hlt heq
    have := hkey g hg g' hg' heq
    rw [this] at hlt
    exact KeyOrder.irrefl _ hlt
  · intro k
    rw [List.map_map]
    constructor
    · intro hk
      obtain ⟨g, hg, hgk⟩ := List.mem_map.1 hk
      obtain ⟨r, hr, _, hkr, _⟩ := groups_keys hc hi hg
      exact ⟨r, hr, by rw [← hgk]; exact hkr.symm⟩
    · rintro ⟨r, hr, rfl⟩
      obtain ⟨b, hb⟩ := hrows r hr
      have hmem : r ∈ rowsAt e q recs b := List.mem_filter.2 ⟨hr, by simp [hb]⟩
      cases hget : mg.groups.get b with
      | none =>
        rw [hi.absent mg b rfl hget] at hmem
        cases hmem
      | some a =>
        have hg := (CF.mem_iff_get _ _ _).2 hget
        refine List.mem_map.2 ⟨(b, a), hg, ?_⟩
        obtain ⟨r', hr', hkb', hkr', _⟩ := groups_keys hc hi hg
        simp only [Function.comp]
        rw [hkr']
        by_cases hgb : q.groupBy = []
        · simp [keyOf, hgb]
        · unfold kb at hb hkb'
          rw [if_neg hgb] at hb hkb'
          have e1 := hc _ _ hb
          rw [hc _ _ hkb'] at e1
          exact Option.some.inj e1
  · intro r hr
    obtain ⟨g, hg, rfl⟩ := List.mem_map.1 hr
    obtain ⟨r0, hr0, hkb, hkr, hdr⟩ := groups_keys hc hi hg
    have hget : mg.groups.get g.1 = some g.2 := (CF.mem_iff_get _ _ _).1 hg
    obtain ⟨_, init, hinit, hdone⟩ := hi.present mg g.1 g.2 rfl hget
    obtain ⟨mg0, hmg0, hfn⟩ := hi.fns mg rfl
    obtain ⟨_, _, _, hag⟩ := open_agree ho hmg0 hinit
    have hkl : ((resRec e q g).take q.groupBy.length).length = q.groupBy.length := by
      rw [hkr]; exact (hi.rows r0 hr0).1
    refine ⟨rfl, ?_, ?_⟩
    · have h1 : (resRec e q g).length = ((resRec e q g).take q.groupBy.length).length +
          ((resRec e q g).drop q.groupBy.length).length := by
        rw [← List.length_append, List.take_append_drop]
      rw [h1, hkl, hdr, hdone.1]
    · intro j o hj
      obtain ⟨f, i, pt, rt, hf, hij, hadd, hinitc, _, _⟩ := hag j o hj
      rw [hfn] at hf
      obtain ⟨c, hcj, hrun⟩ := hdone.2 j o f i hj hf hij
      obtain ⟨m, hm, hagg⟩ := run_agg hadd hinitc hrun
      refine ⟨m, c, hm, ?_, ?_⟩
      · rw [← hcj, ← hdr, List.getElem?_drop]
      · rw [hkr, ← rowsAt_groupOf hc hrows hkb]
        exact hagg
  · rw [List.pairwise_map]
    refine hpw.imp_of_mem ?_
    intro g g' hg hg' hlt x y hx hy
    by_cases hgb : q.groupBy = []
    · -- one group only
      obtain ⟨r, _, hkb, _, _⟩ := groups_keys hc hi hg
      obtain ⟨r', _, hkb', _, _⟩ := groups_keys hc hi hg'
      unfold kb at hkb hkb'
      rw [if_pos hgb] at hkb hkb'
      rw [← Option.some.inj hkb, ← Option.some.inj hkb'] at hlt
      exact absurd hlt (KeyOrder.irrefl _)
    · obtain ⟨r, _, hkb, hkr, _⟩ := groups_keys hc hi hg
      obtain ⟨r', _, hkb', hkr', _⟩ := groups_keys hc hi hg'
      unfold kb at hkb hkb'
      rw [if_neg hgb] at hkb hkb'
      rw [hkr] at hx
      rw [hkr'] at hy
      rw [hkb] at hx
      rw [hkb'] at hy
      rw [← Option.some.inj hx, ← Option.some.inj hy]
      exact hlt

theorem groups_nil (e : Env F) (q : Req) : Groups e q [] [] :=
  ⟨List.Pairwise.nil, by intro k; simp, (by intro r hr; cases hr), List.Pairwise.nil⟩

end Verif.Coproc
