import Verif.RawBackup.Model
import Verif.Mvcc.PropsGc

/-! # Backup and restore without transactions: lemmas -/

namespace Verif.RawBackup
open Verif.Codec Verif.Mvcc Verif.Backup

/-- The versions the loop of the backup takes. -/
def picksR (tso : Int) : List Rec → Bytes → Bool → List Rec
  | [], _, _ => []
  | r :: rs, last, more =>
    if r.ts ≤ tso ∧ (last ≠ r.key ∨ more = true) then r :: picksR tso rs r.key false
    else picksR tso rs r.key (decide (last ≠ r.key) || more)

theorem flag_enc {r : Rec} (h : r.Valid) : ∃ fl, getValueFlag r.enc.2 = some fl := by
  obtain ⟨k, t, v⟩ := r
  cases v with
  | put v => exact ⟨_, flag_put v⟩
  | putTTL ttl v => exact ⟨_, flag_putTTL v h.2⟩
  | del => exact ⟨_, flag_del⟩

theorem rawLoop_recs {tso : Int} {rs : List Rec} (hv : ∀ r ∈ rs, r.Valid) (last : Bytes) (more : Bool)
    (acc : List Entry) :
    rawLoop tso (rs.map Rec.enc) last more acc = some (acc ++ (picksR tso rs last more).map Rec.enc) := by
  induction rs generalizing last more acc with
  | nil => simp [rawLoop, picksR]
  | cons r rs ih =>
    have hr := hv r (by simp)
    have ih := ih (fun x hx => hv x (List.mem_cons_of_mem _ hx))
    obtain ⟨fl, hfl⟩ := flag_enc hr
    simp only [List.map_cons, rawLoop, decodeKey_enc hr, picksR, hfl]
    by_cases h1 : r.ts > tso
    · have h1' : ¬ r.ts ≤ tso := by omega
      simp only [h1, h1', if_true, false_and, if_false, ih]
      congr 3
      by_cases hk : last = r.key <;> simp [hk]
    · rw [if_neg h1]
      by_cases hk : last = r.key
      · subst hk
        cases more
        · simp [ih]
        · simp [ih, Int.not_lt.1 h1]
      · simp [hk, ih, Int.not_lt.1 h1]

theorem picksR_sublist (tso : Int) (rs : List Rec) (last : Bytes) (more : Bool) :
    (picksR tso rs last more).Sublist rs := by
  induction rs generalizing last more with
  | nil => exact List.Sublist.refl _
  | cons r rs ih =>
    unfold picksR
    split
    · exact (ih _ _).cons_cons _
    · exact (ih _ _).cons _

theorem mem_picksR {tso : Int} {rs : List Rec} (hs : rs.Pairwise Rec.lt) {last : Bytes}
    (hl : ∀ x ∈ rs, last ≤ x.key) {more : Bool} (x : Rec) :
    x ∈ picksR tso rs last more ↔ NewestIn rs tso x ∧ (x.key = last → more = true) := by
  induction rs generalizing last more with
  | nil => simp [picksR, NewestIn]
  | cons r rs ih =>
    have hp := List.pairwise_cons.1 hs
    have hr : ∀ y ∈ rs, r.key ≤ y.key := by
      intro y hy
      rcases hp.1 y hy with h | h
      · exact List.le_of_lt h
      · rw [h.1]; exact List.le_refl _
    have hts : ∀ y ∈ rs, y.key = r.key → y.ts < r.ts := by
      intro y hy hk
      rcases hp.1 y hy with h | h
      · rw [hk] at h; exact absurd h (List.lt_irrefl _)
      · exact h.2
    have ih := fun m => ih hp.2 hr (more := m)
    have hlr := hl r (by simp)
    -- a key already left does not come again
    have hgone : last ≠ r.key → ∀ y ∈ rs, y.key ≠ last := by
      intro h y hy he
      have := hr y hy
      rw [he] at this
      exact h (List.le_antisymm hlr this)
    unfold picksR
    by_cases h1 : r.ts ≤ tso
    · by_cases h2 : last ≠ r.key ∨ more = true
      · rw [if_pos ⟨h1, h2⟩, List.mem_cons, ih]
        constructor
        · rintro (rfl | ⟨⟨a1, a2, a3⟩, a4⟩)
          · refine ⟨⟨by simp, h1, ?_⟩, ?_⟩
            · rintro y hy hk -
              rcases List.mem_cons.1 hy with rfl | hy
              · omega
              · have := hts y hy hk; omega
            · intro he
              rcases h2 with h2 | h2
              · exact absurd he.symm h2
              · exact h2
          · have hne : x.key ≠ r.key := fun he => by simpa using a4 he
            refine ⟨⟨by simp [a1], a2, ?_⟩, ?_⟩
            · intro y hy hk ht
              rcases List.mem_cons.1 hy with rfl | hy
              · exact absurd hk.symm hne
              · exact a3 y hy hk ht
            · intro he
              rcases h2 with h2 | h2
              · exact absurd he (hgone h2 x a1)
              · exact h2
        · rintro ⟨⟨a1, a2, a3⟩, a4⟩
          rcases List.mem_cons.1 a1 with rfl | a1
          · exact Or.inl rfl
          · refine Or.inr ⟨⟨a1, a2, fun y hy => a3 y (by simp [hy])⟩, ?_⟩
            intro he
            have := a3 r (by simp) he.symm h1
            have := hts x a1 he
            omega
      · rw [if_neg (fun h => h2 h.2), ih]
        have h2' : last = r.key ∧ more = false := by
          by_cases hk : last = r.key <;> simp_all
        obtain ⟨rfl, rfl⟩ := h2'
        simp only [ne_eq, not_true_eq_false, decide_false, Bool.or_false]
        constructor
        · rintro ⟨⟨a1, a2, a3⟩, a4⟩
          refine ⟨⟨by simp [a1], a2, ?_⟩, a4⟩
          intro y hy hk ht
          rcases List.mem_cons.1 hy with rfl | hy
          · exact absurd (a4 hk.symm) (by simp)
          · exact a3 y hy hk ht
        · rintro ⟨⟨a1, a2, a3⟩, a4⟩
          rcases List.mem_cons.1 a1 with rfl | a1
          · exact absurd (a4 rfl) (by simp)
          · exact ⟨⟨a1, a2, fun y hy => a3 y (by simp [hy])⟩, a4⟩
    · rw [if_neg (fun h => h1 h.1), ih]
      constructor
      · rintro ⟨⟨a1, a2, a3⟩, a4⟩
        refine ⟨⟨by simp [a1], a2, ?_⟩, ?_⟩
        · intro y hy hk ht
          rcases List.mem_cons.1 hy with rfl | hy
          · omega
          · exact a3 y hy hk ht
        · intro he
          by_cases hk : last = r.key
          · subst hk; simpa using a4 he
          · exact absurd he (hgone hk x a1)
      · rintro ⟨⟨a1, a2, a3⟩, a4⟩
        rcases List.mem_cons.1 a1 with rfl | a1
        · omega
        · refine ⟨⟨a1, a2, fun y hy => a3 y (by simp [hy])⟩, ?_⟩
          intro he
          by_cases hk : last = r.key
          · subst hk; simpa using a4 he
          · simp [hk]

theorem backup_recs {rs : List Rec} (hv : ∀ r ∈ rs, r.Valid) (hp : rs.Pairwise Rec.lt) (tso : Int)
    (start stop : Bytes) :
    rawBackup (rs.map Rec.enc) tso start stop =
      some ((picksR tso (rs.filter (inRange start stop)) [] false).map Rec.enc) := by
  unfold rawBackup
  rw [rawGcEntries_recs hv hp, rawLoop_recs (fun r hr => hv r (List.mem_filter.1 hr).1)]
  simp

theorem mem_backup {rs : List Rec} (hp : rs.Pairwise Rec.lt) {tso : Int} {start stop : Bytes} (hs : start ≠ [])
    (x : Rec) : x ∈ picksR tso (rs.filter (inRange start stop)) [] false ↔
      NewestIn rs tso x ∧ inRange start stop x = true := by
  have hnil : ∀ k : Bytes, ([] : Bytes) ≤ k := fun k => by cases k <;> simp
  rw [mem_picksR (hp.sublist List.filter_sublist) (fun x _ => hnil _), newestIn_filter _ (inRange_congr start stop)]
  constructor
  · exact fun h => h.1
  · rintro ⟨h1, h2⟩
    refine ⟨⟨h1, h2⟩, fun he => ?_⟩
    exact absurd he (start_ne hs (by simpa [inRange] using (of_decide_eq_true h2).1))

/-! ## Requests -/

theorem cut_flatten {α : Type} (a b : Nat) (size : α → Nat) (items : Nat) (l req : List α) (sz n : Nat) :
    (cut a b size items l req sz n).flatten = req ++ l := by
  induction l generalizing req sz n with
  | nil => unfold cut; split <;> simp_all
  | cons e rest ih =>
    unfold cut
    split
    · simp [ih]
    · simp [ih]

/-- No request is larger than the limits without its last record. -/
theorem cut_small {α : Type} (a b : Nat) (size : α → Nat) (items : Nat) (l req : List α)
    (h1 : (req.map size).sum ≤ a) (h2 : req.length * items ≤ b) :
    ∀ r ∈ cut a b size items l req (req.map size).sum (req.length * items),
      (r.dropLast.map size).sum ≤ a ∧ r.dropLast.length * items ≤ b ∧ r ≠ [] := by
  induction l generalizing req with
  | nil =>
    intro r hr
    unfold cut at hr
    split at hr
    · cases hr
    · rename_i hne
      rw [List.mem_singleton.1 hr]
      have hd : (req.dropLast.map size).sum ≤ (req.map size).sum := by
        conv => rhs; rw [← List.dropLast_concat_getLast hne]
        simp
      refine ⟨Nat.le_trans hd h1, Nat.le_trans (Nat.mul_le_mul_right _ (by simp)) h2, hne⟩
  | cons e rest ih =>
    intro r hr
    unfold cut at hr
    have hsz : (req.map size).sum + size e = ((req ++ [e]).map size).sum := by simp
    have hn : req.length * items + items = (req ++ [e]).length * items := by simp [Nat.add_mul]
    split at hr
    · rcases List.mem_cons.1 hr with rfl | hr
      · simpa using ⟨h1, h2⟩
      · exact ih [] (by simp) (by simp) r (by simpa using hr)
    · rename_i hlim
      rw [hsz, hn] at hr hlim
      exact ih (req ++ [e]) (by omega) (by omega) r hr

/-- The requests one after the other, in another form: `cut` commutes with a map. -/
theorem sendAll_ok {α : Type} {l : List α} {res : List WRes} (h : ∀ r ∈ res, r = .ok) :
    sendAll .ok l res = (.ok, l) := by
  induction l generalizing res with
  | nil => rfl
  | cons r l ih =>
    have hd : res.headD .ok = .ok := by
      cases res with
      | nil => rfl
      | cons x xs => exact h x (by simp)
    simp only [sendAll, hd]
    rw [ih (fun x hx => h x (List.mem_of_mem_tail hx))]

theorem sendAll_stop {α : Type} (l : List α) (n : Nat) (t : List WRes) (ret : ROut) :
    (sendAll ret l (List.replicate n .ok ++ .perm :: t)).2 = l.take n := by
  induction l generalizing n ret with
  | nil => simp [sendAll]
  | cons r l ih =>
    cases n with
    | zero => simp [sendAll]
    | succ n => simp [sendAll, List.replicate_succ, ih]

theorem sendAll_sublist {α : Type} (l : List α) (res : List WRes) (ret : ROut) :
    (sendAll ret l res).2.Sublist l := by
  induction l generalizing res ret with
  | nil => exact List.Sublist.refl _
  | cons r l ih =>
    simp only [sendAll]
    split
    · exact (ih _ _).cons_cons _
    · exact List.nil_sublist _
    · simp only
      split
      · exact (ih _ _).cons_cons _
      · exact (ih _ _).cons _

theorem sendAll_map {α β : Type} (g : α → β) (l : List α) (res : List WRes) (ret : ROut) :
    sendAll ret (l.map g) res = ((sendAll ret l res).1, (sendAll ret l res).2.map g) := by
  induction l generalizing res ret with
  | nil => rfl
  | cons r l ih =>
    simp only [sendAll, List.map_cons]
    split
    · simp [ih]
    · rfl
    · rw [ih]
      simp only
      split <;> rfl

/-! ## The restored region -/

theorem applyKvs_flatten (rs : List (List Entry)) (st : Store) : applyKvs rs st = batchPut st rs.flatten := by
  induction rs generalizing st with
  | nil => rfl
  | cons r rs ih =>
    have : applyKvs (r :: rs) st = applyKvs rs (batchPut st r) := rfl
    rw [this, ih]
    simp [batchPut, List.foldl_append]

theorem wf_nil : WFStore [] := ⟨List.Pairwise.nil, by simp⟩

/-- Records put into an empty store in ascending order, each once. -/
theorem batchPut_empty {l : List Entry} (h : l.Pairwise (fun a b => a.1 < b.1)) : batchPut [] l = l := by
  have gen : ∀ (l acc : List Entry), (acc ++ l).Pairwise (fun a b => a.1 < b.1) → batchPut acc l = acc ++ l := by
    intro l
    induction l with
    | nil => intro acc _; simp [batchPut]
    | cons e l ih =>
      intro acc h
      have hput : put acc e.1 e.2 = acc ++ [e] := by
        have hlt : ∀ x ∈ acc, x.1 < e.1 := by
          intro x hx
          exact (List.pairwise_append.1 h).2.2 x hx e (by simp)
        clear ih h
        induction acc with
        | nil => rfl
        | cons a acc ih =>
          have := hlt a (by simp)
          obtain ⟨k, v⟩ := a
          simp only [put]
          rw [if_neg (fun h => List.lt_asymm h this), if_neg (fun h => by rw [h] at this; exact List.lt_irrefl _ this),
            ih (fun x hx => hlt x (by simp [hx]))]
          rfl
      have : batchPut acc (e :: l) = batchPut (put acc e.1 e.2) l := rfl
      rw [this, hput, ih (acc ++ [e]) (by simpa using h)]
      simp
  exact gen l [] h

/-- Versions put into an empty region, each once. -/
theorem put_empty {rs : List Rec} (hv : ∀ r ∈ rs, r.Valid) (hp : rs.Pairwise Rec.lt) :
    batchPut [] (rs.map Rec.enc) = rs.map Rec.enc := batchPut_empty ((sorted_recs hv).2 hp)

/-- Two regions with the same newest versions, each at its own time, answer alike. -/
theorem reads_same {rs rs' : List Rec} (hv : ∀ r ∈ rs, r.Valid) (hp : rs.Pairwise Rec.lt)
    (hv' : ∀ r ∈ rs', r.Valid) (hp' : rs'.Pairwise Rec.lt) {T T' now : Int} {p : Rec → Bool}
    (hc : ∀ r s : Rec, r.key = s.key → p r = p s)
    (h : ∀ x, p x = true → (NewestIn rs' T' x ↔ NewestIn rs T x)) :
    scanO T' now none (rs'.filter p) = scanO T now none (rs.filter p) := by
  have hpf := hp.sublist (List.filter_sublist (p := p))
  have hpf' := hp'.sublist (List.filter_sublist (p := p))
  have hn : ∀ x, NewestIn (rs'.filter p) T' x ↔ NewestIn (rs.filter p) T x := by
    intro x
    rw [newestIn_filter p hc, newestIn_filter p hc]
    constructor
    · rintro ⟨a, b⟩; exact ⟨(h x b).1 a, b⟩
    · rintro ⟨a, b⟩; exact ⟨(h x b).2 a, b⟩
  have h1 := scanO_none (now := now) (ts := T) hpf no_prev
  have h2 := scanO_none (now := now) (ts := T') hpf' no_prev
  cases e1 : scanO T now none (rs.filter p) with
  | none =>
    obtain ⟨x, a, b⟩ := h1.1 e1
    exact h2.2 ⟨x, (hn x).2 a, b⟩
  | some o1 =>
    cases e2 : scanO T' now none (rs'.filter p) with
    | none =>
      obtain ⟨x, a, b⟩ := h2.1 e2
      rw [h1.2 ⟨x, (hn x).1 a, b⟩] at e1
      cases e1
    | some o2 =>
      rw [scanO_some e1, scanO_some e2]
      congr 1
      apply eq_of_recs
      · exact hpf'.sublist scanR_sublist
      · exact hpf.sublist scanR_sublist
      · intro x
        rw [mem_scanR hpf' no_prev, mem_scanR hpf no_prev, hn]

end Verif.RawBackup
