import Verif.LogStore.Inv

/-! # Raft log storage: every disciplined step keeps the invariant and does not abort -/

namespace Verif.LogStore
open Verif.Codec
open Verif.Txn (CF KeyOrder Asc)

/-- Every key of the database belongs to an entry. -/
def KeysOk (db : Db) : Prop :=
  ∀ k v, db.get k = some v → ∃ r i, ValidR r ∧ 0 ≤ i ∧ i < maxI64 ∧ k = encodeKey r i

/-- Two mutations may be pending together. -/
def Compat (a b : Mutation) : Prop :=
  a.region = b.region → (a.own = false ∨ b.own = false) ∧ a.isDestroy = false ∧ b.isDestroy = false

theorem Compat.symm {a b : Mutation} (h : Compat a b) : Compat b a := by
  intro he
  obtain ⟨h1, h2, h3⟩ := h he.symm
  exact ⟨h1.symm, h3, h2⟩

structure Inv (s : State) : Prop where
  raft : Client.raft ∈ s.clients
  sync : s.sync = true → s.unsynced = []
  keys : KeysOk s.db
  reg : ∀ r, ValidR r → RInv s.clients s.cacheOn (s.view r)
  isSaved : ∀ r, s.metas r ≠ none → ∃ ks, (r, ks) ∈ s.saved
  known : ∀ r, s.metas r ≠ none → ValidR r
  pendR : ∀ m ∈ s.pending, ValidR m.region
  compat : s.pending.Pairwise Compat
  saved : ∀ x ∈ s.saved, ValidR x.1 ∧ x.2.map (·.1) = s.clients ∧ ∀ y ∈ x.2, y.2 = 0

theorem upd_same {α : Type} (f : Int → α) (r : Int) (v : α) : upd f r v r = v := if_pos rfl
theorem upd_ne {α : Type} (f : Int → α) {r x : Int} (v : α) (h : x ≠ r) : upd f r v x = f x := if_neg h

theorem validI_lt {i : Int} (h0 : 0 ≤ i) (h : i < maxI64) : ValidI i := ⟨h0, by simp only [maxI64] at h; omega⟩
theorem validI_le {i : Int} (h0 : 0 ≤ i) (h : i ≤ maxI64) : ValidI i := ⟨h0, by simp only [maxI64] at h; omega⟩

/-! ## The database -/

theorem cells_deleteRange (db : Db) {r r' a b : Int} (hr : ValidR r) (hr' : ValidR r') (ha : 0 ≤ a) (ha' : a ≤ maxI64)
    (hb : 0 ≤ b) (hb' : b ≤ maxI64) :
    cells (deleteRange db (encodeKey r a) (encodeKey r b)) r'
      = fun i => if r' = r ∧ a ≤ i ∧ i < b then none else cells db r' i := by
  funext i
  unfold cells
  by_cases hi : 0 ≤ i ∧ i < maxI64
  · rw [if_pos hi, if_pos hi, get_deleteRange_key db hr hr' (validI_le ha ha') (validI_le hb hb') (validI_lt hi.1 hi.2)]
  · rw [if_neg hi, if_neg hi]; split <;> rfl

theorem KeysOk.deleteRange {db : Db} (h : KeysOk db) (lo hi : Bytes) : KeysOk (LogStore.deleteRange db lo hi) := by
  intro k v hk
  rw [get_deleteRange] at hk
  split at hk
  · exact h k v hk
  · cases hk

theorem cells_put (db : Db) {r r' j : Int} (hr : ValidR r) (hr' : ValidR r') (h0 : 0 ≤ j) (hj : j < maxI64) (v : Bytes) :
    cells (db.put (encodeKey r j) v) r' = fun i => if r' = r ∧ i = j then some v else cells db r' i := by
  funext i
  unfold cells
  by_cases hi : 0 ≤ i ∧ i < maxI64
  · rw [if_pos hi, if_pos hi, CF.get_put]
    by_cases hk : r' = r ∧ i = j
    · rw [if_pos hk, if_pos (by rw [hk.1, hk.2])]
    · rw [if_neg hk, if_neg]
      intro he
      exact hk (encodeKey_inj hr' hr (validI_lt hi.1 hi.2) (validI_lt h0 hj) he)
  · rw [if_neg hi, if_neg hi]
    rw [if_neg (by omega)]

theorem KeysOk.put {db : Db} (h : KeysOk db) {r j : Int} (hr : ValidR r) (h0 : 0 ≤ j) (hj : j < maxI64) (v : Bytes) :
    KeysOk (db.put (encodeKey r j) v) := by
  intro k x hk
  rw [CF.get_put] at hk
  split at hk
  · rename_i he
    exact ⟨r, j, hr, h0, hj, he⟩
  · exact h k x hk

theorem applyOps_append (db : Db) {r : Int} (hr : ValidR r) (es : List (Int × LogEntry))
    (hes : ∀ e ∈ es, 0 ≤ e.1 ∧ e.1 < maxI64) (hk : KeysOk db) :
    KeysOk (applyOps db (writeOps (.append r es)))
    ∧ ∀ r', ValidR r' → cells (applyOps db (writeOps (.append r es))) r'
        = if r' = r then putCells (cells db r') es else cells db r' := by
  simp only [applyOps, writeOps, putCells]
  induction es generalizing db with
  | nil => exact ⟨hk, fun r' _ => by simp⟩
  | cons e es ih =>
    have he := hes e (by simp)
    simp only [List.map_cons, List.foldl_cons, applyOp]
    obtain ⟨h1, h2⟩ := ih (db.put (encodeKey r e.1) (encodeValue e.2)) (fun x hx => hes x (by simp [hx]))
      (hk.put hr he.1 he.2 _)
    refine ⟨h1, ?_⟩
    intro r' hr'
    rw [h2 r' hr', cells_put db hr hr' he.1 he.2]
    by_cases hrr : r' = r
    · rw [if_pos hrr, if_pos hrr]
      simp only [hrr, true_and]
    · rw [if_neg hrr, if_neg hrr]
      simp only [hrr, false_and, if_false]

theorem Fits.idx {L : RLog} {es : List (Int × LogEntry)} (h : Fits L es) : ∀ e ∈ es, L.last < e.1 ∧ e.1 < maxI64 := by
  induction es generalizing L with
  | nil => intro e he; cases he
  | cons x es ih =>
    intro e he
    have hh := h.head
    rw [List.mem_cons] at he
    rcases he with rfl | he
    · omega
    · have := ih h.tail e he
      simp only [RLog.put] at this
      omega

/-- The keys of a sound state are entries of the logs. -/
theorem Inv.dbOk {s : State} (h : Inv s) : DbOk s.db s.log := by
  intro k v hk
  obtain ⟨r, i, h1, h2, h3, rfl⟩ := h.keys k v hk
  have hv : (s.view r).db i = some v := by
    simp only [State.view, cells]
    rw [if_pos ⟨h2, h3⟩, hk]
  obtain ⟨e, he, rfl⟩ := (h.reg r h1).stored i v hv
  exact ⟨r, i, e, h1, he, rfl, rfl⟩

/-! ## Executing -/

/-- A change to one region. -/
theorem Inv.oneRegion {s s' : State} (h : Inv s) (r : Int) (hc : s'.clients = s.clients) (hon : s'.cacheOn = s.cacheOn)
    (hsync : s'.sync = true → s'.unsynced = []) (hsaved : s'.saved = s.saved) (hkeys : KeysOk s'.db)
    (hpend : ∀ m ∈ s'.pending, ValidR m.region) (hcompat : s'.pending.Pairwise Compat)
    (hother : ∀ r', r' ≠ r → ValidR r' → s'.view r' = s.view r')
    (hmetas : ∀ r', r' ≠ r → s'.metas r' = s.metas r')
    (hr : s'.metas r ≠ none → ValidR r) (hms : s'.metas r ≠ none → s.metas r ≠ none)
    (hreg : ValidR r → RInv s'.clients s'.cacheOn (s'.view r)) : Inv s' where
  raft := by rw [hc]; exact h.raft
  sync := hsync
  keys := hkeys
  reg := by
    intro r' hr'
    by_cases hrr : r' = r
    · subst hrr; exact hreg hr'
    · rw [hother r' hrr hr', hc, hon]; exact h.reg r' hr'
  isSaved := by
    intro r' hr'
    rw [hsaved]
    by_cases hrr : r' = r
    · subst hrr; exact h.isSaved r' (hms hr')
    · rw [hmetas r' hrr] at hr'; exact h.isSaved r' hr'
  known := by
    intro r' hr'
    by_cases hrr : r' = r
    · subst hrr; exact hr hr'
    · rw [hmetas r' hrr] at hr'; exact h.known r' hr'
  pendR := hpend
  compat := hcompat
  saved := by rw [hsaved, hc]; exact h.saved

theorem filter_pend_cons {m : Mutation} {rest : List Mutation} {r : Int} :
    (m :: rest).filter (fun x => decide (x.region = r))
      = if m.region = r then m :: rest.filter (fun x => decide (x.region = r)) else rest.filter (fun x => decide (x.region = r)) := by
  by_cases h : m.region = r
  · rw [if_pos h, List.filter_cons_of_pos (by simpa using h)]
  · rw [if_neg h, List.filter_cons_of_neg (by simpa using h)]

theorem Inv.exec1 {s : State} {m : Mutation} {rest : List Mutation} (h : Inv s) (hp : s.pending = m :: rest) :
    ∃ s', exec { s with pending := rest } [m] = some s' ∧ Inv s' ∧ s'.pending = rest := by
  have hr : ValidR m.region := h.pendR m (by rw [hp]; simp)
  have hcomp := h.compat
  rw [hp] at hcomp
  have hcomp' := List.pairwise_cons.1 hcomp
  have hR := h.reg m.region hr
  have hvp : (s.view m.region).pend = m :: rest.filter (fun x => decide (x.region = m.region)) := by
    simp only [State.view]
    rw [hp, filter_pend_cons, if_pos rfl]
  have hvp' : ∀ r', r' ≠ m.region → (s.view r').pend = rest.filter (fun x => decide (x.region = r')) := by
    intro r' hne
    simp only [State.view]
    rw [hp, filter_pend_cons, if_neg (fun he => hne he.symm)]
  have hrestOwn : m.own = true → ∀ x ∈ rest.filter (fun x => decide (x.region = m.region)), x.own = false := by
    intro hm x hx
    rw [List.mem_filter] at hx
    have := (hcomp'.1 x hx.1 (by have := hx.2; simp only [decide_eq_true_eq] at this; exact this.symm)).1
    rw [hm] at this
    simpa using this
  have hPend := hR.pend m (by rw [hvp]; simp)
  have pendR' : ∀ x ∈ rest, ValidR x.region := fun x hx => h.pendR x (by rw [hp]; simp [hx])
  have hsync : ∀ db : List Db, (s.sync = true → (if s.sync then ([] : List Db) else db) = []) := by
    intro db hs; rw [hs]; rfl
  cases m with
  | append r es =>
    change ValidR r at hr
    change RInv s.clients s.cacheOn (s.view r) at hR
    change (s.view r).pend = (Mutation.append r es) :: rest.filter (fun x => decide (x.region = r)) at hvp
    change ∀ r', r' ≠ r → (s.view r').pend = rest.filter (fun x => decide (x.region = r')) at hvp'
    change _ → ∀ x ∈ rest.filter (fun x => decide (x.region = r)), x.own = false at hrestOwn
    have hmt := hPend.1
    cases hm : s.metas r with
    | none => exact absurd hm hmt
    | some mt =>
      obtain ⟨e, ca, he, hca, hRI⟩ := hR.append hvp hm (hrestOwn rfl)
      obtain ⟨k1, k2⟩ := applyOps_append s.db hr es (fun e he => by
        have h1 := hPend.2.toFits.idx e he
        have h2 := hR.spec.fl
        have h3 := hR.spec.f1
        simp only [Mutation.region] at h1
        omega) h.keys
      have hcache : cacheAfter s.cacheOn s.cache (.append r es) = some (upd s.cache r ca) := by
        simp only [cacheAfter]
        simp only [State.view] at hca
        cases hon : s.cacheOn with
        | false =>
          rw [hon] at hca
          simp only at hca
          subst hca
          simp only
          refine congrArg some ?_
          funext x
          unfold upd; split
          · rename_i hx; rw [hx]
          · rfl
        | true =>
          cases hc : s.cache r with
          | none =>
            rw [hon, hc] at hca
            simp only at hca
            subst hca
            simp only
            refine congrArg some ?_
            funext x
            unfold upd; split
            · rename_i hx; rw [hx, hc]
            · rfl
          | some l =>
            rw [hon, hc] at hca
            simp only at hca ⊢
            rw [hca.1]
            cases ca with
            | none => exact absurd rfl hca.2
            | some l' => rfl
      have hadj : adjust s.metas (.append r es) = some (upd s.metas r (some { mt with last := e.1 })) := by
        simp only [adjust, he, hm]
      refine ⟨_, by simp only [exec, foldOpt, hadj, hcache]; rfl, ?_, rfl⟩
      refine Inv.oneRegion h r rfl rfl (hsync _) rfl ?_ pendR' hcomp'.2 ?_ ?_ (fun _ => hr) (fun _ => by rw [hm]; simp) ?_
      · simp only [List.flatMap_cons, List.flatMap_nil, List.append_nil]; exact k1
      · intro r' hne hr'
        have hv := hvp' r' hne
        simp only [State.view] at hv ⊢
        simp only [List.flatMap_cons, List.flatMap_nil, List.append_nil, List.foldl_cons, List.foldl_nil]
        rw [k2 r' hr', if_neg hne, hv]
        simp only [histAfter, releasedAfter, upd_ne _ _ hne]
      · intro r' hne; simp only [upd_ne _ _ hne]
      · intro _
        simp only [State.view, List.flatMap_cons, List.flatMap_nil, List.append_nil, List.foldl_cons, List.foldl_nil]
        rw [k2 r hr, if_pos rfl]
        simp only [histAfter, releasedAfter, upd_same]
        exact hRI
  | cutPrefix r stop own =>
    change ValidR r at hr
    change RInv s.clients s.cacheOn (s.view r) at hR
    change (s.view r).pend = (Mutation.cutPrefix r stop own) :: rest.filter (fun x => decide (x.region = r)) at hvp
    change ∀ r', r' ≠ r → (s.view r').pend = rest.filter (fun x => decide (x.region = r')) at hvp'
    change _ → ∀ x ∈ rest.filter (fun x => decide (x.region = r)), x.own = false at hrestOwn
    have hmt := hPend.1
    cases hm : s.metas r with
    | none => exact absurd hm hmt
    | some mt =>
      have hRI := hR.cutPrefix hvp hm
      have hcell := fun r' hr' => cells_deleteRange s.db (r := r) (r' := r') hr hr' (Int.le_refl 0)
        (by simp [maxI64]) hPend.2.1 (Int.le_of_lt hPend.2.2.1)
      have hcache : cacheAfter s.cacheOn s.cache (.cutPrefix r stop own)
          = some (upd s.cache r (match own with | some k => (s.cache r).map (TermMap.cutPrefix k) | none => s.cache r)) := by
        simp only [cacheAfter]
        cases own with
        | some k => rfl
        | none =>
          simp only
          refine congrArg some ?_
          funext x
          unfold upd; split
          · rename_i hx; rw [hx]
          · rfl
      have hadj : adjust s.metas (.cutPrefix r stop own) = some (upd s.metas r (some (cutPrefixMeta mt stop))) := by
        simp only [adjust, hm, cutPrefixMeta]
        split
        · rfl
        · refine congrArg some ?_
          funext x
          unfold upd; split
          · rename_i hx; rw [hx, hm]
          · rfl
      refine ⟨_, by simp only [exec, foldOpt, hadj, hcache]; rfl, ?_, rfl⟩
      refine Inv.oneRegion h r rfl rfl (hsync _) rfl ?_ pendR' hcomp'.2 ?_ ?_ (fun _ => hr) (fun _ => by rw [hm]; simp) ?_
      · exact h.keys.deleteRange _ _
      · intro r' hne hr'
        have hv := hvp' r' hne
        simp only [State.view] at hv ⊢
        simp only [List.flatMap_cons, List.flatMap_nil, List.append_nil, List.foldl_cons, List.foldl_nil,
          writeOps, applyOps, applyOp]
        rw [hcell r' hr', hv]
        simp only [histAfter, releasedAfter, upd_ne _ _ hne, hne, false_and, if_false]
      · intro r' hne; simp only [upd_ne _ _ hne]
      · intro _
        simp only [State.view, List.flatMap_cons, List.flatMap_nil, List.append_nil, List.foldl_cons, List.foldl_nil,
          writeOps, applyOps, applyOp]
        rw [hcell r hr]
        simp only [histAfter, releasedAfter, upd_same, true_and]
        cases own with
        | none => exact hRI
        | some k => exact hRI
  | cutSuffix r start =>
    change ValidR r at hr
    change RInv s.clients s.cacheOn (s.view r) at hR
    change (s.view r).pend = (Mutation.cutSuffix r start) :: rest.filter (fun x => decide (x.region = r)) at hvp
    change ∀ r', r' ≠ r → (s.view r').pend = rest.filter (fun x => decide (x.region = r')) at hvp'
    change _ → ∀ x ∈ rest.filter (fun x => decide (x.region = r)), x.own = false at hrestOwn
    have hmt := hPend.1
    cases hm : s.metas r with
    | none => exact absurd hm hmt
    | some mt =>
      have hRI := hR.cutSuffix hvp hm (hrestOwn rfl)
      have hb : 0 ≤ start ∧ start ≤ maxI64 := by
        have h1 := hPend.2
        have h2 := hR.spec.f1
        have h3 := hR.spec.lm
        simp only [Mutation.region] at h1
        omega
      have hcell := fun r' hr' => cells_deleteRange s.db (r := r) (r' := r') hr hr' hb.1 hb.2
        (show (0 : Int) ≤ maxI64 by simp [maxI64]) (Int.le_refl maxI64)
      have hadj : adjust s.metas (.cutSuffix r start) = some (upd s.metas r (some (cutSuffixMeta mt start))) := by
        simp only [adjust, hm, cutSuffixMeta]
        split
        · rfl
        · refine congrArg some ?_
          funext x
          unfold upd; split
          · rename_i hx; rw [hx, hm]
          · rfl
      refine ⟨_, by simp only [exec, foldOpt, hadj, cacheAfter]; rfl, ?_, rfl⟩
      refine Inv.oneRegion h r rfl rfl (hsync _) rfl ?_ pendR' hcomp'.2 ?_ ?_ (fun _ => hr) (fun _ => by rw [hm]; simp) ?_
      · exact h.keys.deleteRange _ _
      · intro r' hne hr'
        have hv := hvp' r' hne
        simp only [State.view] at hv ⊢
        simp only [List.flatMap_cons, List.flatMap_nil, List.append_nil, List.foldl_cons, List.foldl_nil,
          writeOps, applyOps, applyOp]
        rw [hcell r' hr', hv]
        simp only [histAfter, releasedAfter, upd_ne _ _ hne, hne, false_and, if_false]
      · intro r' hne; simp only [upd_ne _ _ hne]
      · intro _
        simp only [State.view, List.flatMap_cons, List.flatMap_nil, List.append_nil, List.foldl_cons, List.foldl_nil,
          writeOps, applyOps, applyOp]
        rw [hcell r hr]
        simp only [histAfter, releasedAfter, upd_same, true_and]
        exact hRI
  | reset r n =>
    change ValidR r at hr
    change RInv s.clients s.cacheOn (s.view r) at hR
    change (s.view r).pend = (Mutation.reset r n) :: rest.filter (fun x => decide (x.region = r)) at hvp
    change ∀ r', r' ≠ r → (s.view r').pend = rest.filter (fun x => decide (x.region = r')) at hvp'
    change _ → ∀ x ∈ rest.filter (fun x => decide (x.region = r)), x.own = false at hrestOwn
    have hmt := hPend.1
    cases hm : s.metas r with
    | none => exact absurd hm hmt
    | some mt =>
      have hRI := hR.reset hvp hm (hrestOwn rfl)
      have hcell := fun r' hr' => cells_deleteRange s.db (r := r) (r' := r') hr hr' (Int.le_refl 0)
        (by simp [maxI64]) (show (0 : Int) ≤ maxI64 by simp [maxI64]) (Int.le_refl maxI64)
      refine ⟨_, by simp only [exec, foldOpt, adjust, hm, cacheAfter]; rfl, ?_, rfl⟩
      refine Inv.oneRegion h r rfl rfl (hsync _) rfl ?_ pendR' hcomp'.2 ?_ ?_ (fun _ => hr) (fun _ => by rw [hm]; simp) ?_
      · exact h.keys.deleteRange _ _
      · intro r' hne hr'
        have hv := hvp' r' hne
        simp only [State.view] at hv ⊢
        simp only [List.flatMap_cons, List.flatMap_nil, List.append_nil, List.foldl_cons, List.foldl_nil,
          writeOps, applyOps, applyOp]
        rw [hcell r' hr', hv]
        simp only [histAfter, releasedAfter, upd_ne _ _ hne, hne, false_and, if_false]
      · intro r' hne; simp only [upd_ne _ _ hne]
      · intro _
        simp only [State.view, List.flatMap_cons, List.flatMap_nil, List.append_nil, List.foldl_cons, List.foldl_nil,
          writeOps, applyOps, applyOp]
        rw [hcell r hr]
        simp only [histAfter, releasedAfter, upd_same, true_and]
        exact hRI
  | destroy r =>
    change ValidR r at hr
    change RInv s.clients s.cacheOn (s.view r) at hR
    change (s.view r).pend = (Mutation.destroy r) :: rest.filter (fun x => decide (x.region = r)) at hvp
    change ∀ r', r' ≠ r → (s.view r').pend = rest.filter (fun x => decide (x.region = r')) at hvp'
    change _ → ∀ x ∈ rest.filter (fun x => decide (x.region = r)), x.own = false at hrestOwn
    have hcell := fun r' hr' => cells_deleteRange s.db (r := r) (r' := r') hr hr' (Int.le_refl 0)
      (by simp [maxI64]) (show (0 : Int) ≤ maxI64 by simp [maxI64]) (Int.le_refl maxI64)
    have hnone : rest.filter (fun x => decide (x.region = r)) = [] := by
      rw [List.filter_eq_nil_iff]
      intro x hx hxr
      have := (hcomp'.1 x hx (by simp only [decide_eq_true_eq] at hxr; exact hxr.symm)).2.1
      cases this
    refine ⟨_, by simp only [exec, foldOpt, adjust, cacheAfter]; rfl, ?_, rfl⟩
    refine Inv.oneRegion h r rfl rfl (hsync _) rfl ?_ pendR' hcomp'.2 ?_ ?_ (fun _ => hr) (fun he => absurd (upd_same _ _ _) he) ?_
    · exact h.keys.deleteRange _ _
    · intro r' hne hr'
      have hv := hvp' r' hne
      simp only [State.view] at hv ⊢
      simp only [List.flatMap_cons, List.flatMap_nil, List.append_nil, List.foldl_cons, List.foldl_nil,
        writeOps, applyOps, applyOp]
      rw [hcell r' hr', hv]
      simp only [histAfter, releasedAfter, upd_ne _ _ hne, hne, false_and, if_false]
    · intro r' hne; simp only [upd_ne _ _ hne]
    · intro _
      simp only [State.view, List.flatMap_cons, List.flatMap_nil, List.append_nil, List.foldl_cons, List.foldl_nil,
        writeOps, applyOps, applyOp]
      rw [hcell r hr, hnone]
      simp only [histAfter, releasedAfter, upd_same, true_and]
      have : (fun i => if 0 ≤ i ∧ i < maxI64 then none else cells s.db r i) = fun _ => (none : Option Bytes) := by
        funext i
        unfold cells
        split <;> rfl
      rw [this]
      exact RInv.destroy _ _

end Verif.LogStore
