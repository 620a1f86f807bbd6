import Verif.Backup.Spec
import Verif.Txn.Sample

/-! # Backup of a region: lemmas -/

namespace Verif.Backup
open Verif.Codec Verif.Txn

/-- The records the loop takes when it is not refused. -/
def picks (tso : Int) : List (VKey × WriteInfo) → Bytes → Bool → List (VKey × WriteInfo)
  | [], _, _ => []
  | e :: rest, last, more =>
    let more := if last ≠ e.1.key then true else more
    if e.1.ts > tso then picks tso rest e.1.key more
    else if ¬ more then picks tso rest e.1.key more
    else if e.2.op = .put ∨ e.2.op = .delete then e :: picks tso rest e.1.key false
    else picks tso rest e.1.key more

/-- The separate value of a record. -/
def valueRec (st : State) (e : VKey × WriteInfo) : Option (VKey × Bytes) :=
  (st.data.get ⟨e.1.key, e.2.startTs⟩).map (fun v => (⟨e.1.key, e.2.startTs⟩, v))

/-- The key of the record carries a lock of the transaction that wrote it. -/
def clash (st : State) (e : VKey × WriteInfo) : Prop :=
  ∃ l, st.lock.get e.1.key = some l ∧ l.lockTs = e.2.startTs

theorem takeRecord_ok {st : State} {e : VKey × WriteInfo} (h : ¬ clash st e) (f : Files) :
    takeRecord st f e = some { write := f.write ++ [e], data := f.data ++ (valueRec st e).toList } := by
  unfold takeRecord
  have : takeRecord.addRecord st e f =
      { write := f.write ++ [e], data := f.data ++ (valueRec st e).toList } := by
    unfold takeRecord.addRecord valueRec
    cases hd : st.data.get ⟨e.1.key, e.2.startTs⟩ <;> simp
  cases hl : st.lock.get e.1.key with
  | none => simp only [this]
  | some l =>
    have : ¬ l.lockTs = e.2.startTs := fun h' => h ⟨l, hl, h'⟩
    simp only [if_neg this]
    simp_all

theorem backupLoop_picks {st : State} {tso : Int} (l : List (VKey × WriteInfo)) (last : Bytes) (more : Bool)
    (f : Files) (h : ∀ e ∈ picks tso l last more, ¬ clash st e) :
    backupLoop st tso l last more f =
      .ok { write := f.write ++ picks tso l last more
            data := f.data ++ (picks tso l last more).filterMap (valueRec st) } := by
  induction l generalizing last more f with
  | nil => simp [backupLoop, picks]
  | cons e rest ih =>
    unfold picks at h ⊢
    unfold backupLoop
    simp only at h ⊢
    by_cases h1 : e.1.ts > tso
    · simp only [if_pos h1] at h ⊢
      exact ih _ _ _ h
    · simp only [if_neg h1] at h ⊢
      by_cases h2 : (if last ≠ e.1.key then true else more) = true
      · simp only [h2, not_true_eq_false, if_false] at h ⊢
        by_cases h3 : e.2.op = .put ∨ e.2.op = .delete
        · simp only [if_pos h3] at h ⊢
          have hc := h e List.mem_cons_self
          have hr := fun x hx => h x (List.mem_cons_of_mem _ hx)
          rcases h3 with h3 | h3 <;> simp only [h3, takeRecord_ok hc] <;> rw [ih _ _ _ hr] <;>
            cases hv : valueRec st e <;> simp [hv]
        · simp only [if_neg h3] at h ⊢
          cases ho : e.2.op
          case put => exact absurd (Or.inl ho) h3
          case delete => exact absurd (Or.inr ho) h3
          all_goals exact ih _ _ _ h
      · simp only [h2, not_false_eq_true, if_true] at h ⊢
        exact ih _ _ _ h

theorem asc_key_le {e : VKey × WriteInfo} {l : List (VKey × WriteInfo)} (h : Asc (e :: l)) :
    ∀ x ∈ l, ¬ x.1.key < e.1.key := by
  intro x hx hlt
  rcases (List.pairwise_cons.1 h).1 x hx with h' | ⟨h', _⟩
  · exact lt_irrefl _ (lt_trans h' hlt)
  · rw [h'] at hlt; exact lt_irrefl _ hlt

theorem mem_picks {tso : Int} {l : List (VKey × WriteInfo)} (ha : Asc l) {last : Bytes}
    (hl : ∀ x ∈ l, ¬ x.1.key < last) {more : Bool} (e : VKey × WriteInfo) :
    e ∈ picks tso l last more ↔ e ∈ l ∧ e.1.ts ≤ tso ∧ (e.2.op = .put ∨ e.2.op = .delete) ∧
      (e.1.key = last → more = true) ∧
      ∀ x ∈ l, x.1.key = e.1.key → x.1.ts ≤ tso → (x.2.op = .put ∨ x.2.op = .delete) → x.1.ts ≤ e.1.ts := by
  induction l generalizing last more with
  | nil => simp [picks]
  | cons y rest ih =>
    have hy := asc_key_le ha
    have hp := List.pairwise_cons.1 ha
    have hord : ∀ x ∈ rest, x.1.key = y.1.key → x.1.ts < y.1.ts := by
      intro x hx hk
      rcases hp.1 x hx with h' | ⟨_, h'⟩
      · rw [hk] at h'; exact absurd h' (lt_irrefl _)
      · exact h'
    -- a later key differs from `last` once `last` has been left
    have hne : last ≠ y.1.key → ∀ x ∈ rest, x.1.key ≠ last := by
      intro h x hx he
      have h1 := hl y List.mem_cons_self
      have h2 := hy x hx
      rw [he] at h2
      rcases lt_trichotomy last y.1.key with h3 | h3 | h3
      · exact h2 h3
      · exact h h3
      · exact h1 h3
    have key := fun m => ih hp.2 hy (more := m)
    unfold picks
    simp only
    by_cases h1 : y.1.ts > tso
    · rw [if_pos h1, key]
      simp only [List.mem_cons]
      constructor
      · rintro ⟨a1, a2, a3, a4, a5⟩
        refine ⟨Or.inr a1, a2, a3, ?_, ?_⟩
        · intro he
          by_cases hlk : last = y.1.key
          · have := a4 (he.trans hlk)
            simpa [hlk] using this
          · exact absurd he (hne hlk e a1)
        · rintro x (rfl | hx) b1 b2 b3
          · omega
          · exact a5 x hx b1 b2 b3
      · rintro ⟨rfl | a1, a2, a3, a4, a5⟩
        · omega
        · refine ⟨a1, a2, a3, ?_, fun x hx => a5 x (Or.inr hx)⟩
          intro he
          by_cases hlk : last = y.1.key
          · simpa [hlk] using a4 (he.trans hlk.symm)
          · simp [hlk]
    · rw [if_neg h1]
      by_cases h2 : (if last ≠ y.1.key then true else more) = true
      · simp only [h2, not_true_eq_false, if_false]
        by_cases h3 : y.2.op = .put ∨ y.2.op = .delete
        · rw [if_pos h3, List.mem_cons, key]
          simp only [List.mem_cons]
          constructor
          · rintro (rfl | ⟨a1, a2, a3, a4, a5⟩)
            · refine ⟨Or.inl rfl, by omega, h3, ?_, ?_⟩
              · intro he; simpa [he] using h2
              · rintro x (rfl | hx) b1 b2 b3
                · omega
                · have := hord x hx b1; omega
            · have hk : e.1.key ≠ y.1.key := fun he => by simpa using a4 he
              refine ⟨Or.inr a1, a2, a3, ?_, ?_⟩
              · intro he
                by_cases hlk : last = y.1.key
                · exact absurd (he.trans hlk) hk
                · exact absurd he (hne hlk e a1)
              · rintro x (rfl | hx) b1 b2 b3
                · exact absurd b1.symm hk
                · exact a5 x hx b1 b2 b3
          · rintro ⟨rfl | a1, a2, a3, a4, a5⟩
            · exact Or.inl rfl
            · refine Or.inr ⟨a1, a2, a3, ?_, fun x hx => a5 x (Or.inr hx)⟩
              intro he
              have := a5 y (Or.inl rfl) he.symm (by omega) h3
              have := hord e a1 he
              omega
        · rw [if_neg h3, key]
          simp only [List.mem_cons]
          constructor
          · rintro ⟨a1, a2, a3, a4, a5⟩
            refine ⟨Or.inr a1, a2, a3, ?_, ?_⟩
            · intro he
              by_cases hlk : last = y.1.key
              · simpa [hlk] using h2
              · exact absurd he (hne hlk e a1)
            · rintro x (rfl | hx) b1 b2 b3
              · exact absurd b3 h3
              · exact a5 x hx b1 b2 b3
          · rintro ⟨rfl | a1, a2, a3, a4, a5⟩
            · exact absurd a3 h3
            · exact ⟨a1, a2, a3, fun _ => by simp, fun x hx => a5 x (Or.inr hx)⟩
      · have hlk : last = y.1.key := by
          by_cases hlk : last = y.1.key
          · exact hlk
          · simp [hlk] at h2
        have hm : more = false := by simpa [hlk] using h2
        subst hm
        simp only [hlk, ne_eq, not_true_eq_false, if_false, Bool.false_eq_true, not_false_eq_true, if_true]
        rw [key]
        simp only [List.mem_cons]
        constructor
        · rintro ⟨a1, a2, a3, a4, a5⟩
          refine ⟨Or.inr a1, a2, a3, fun he => by simpa using a4 he, ?_⟩
          rintro x (rfl | hx) b1 b2 b3
          · exact absurd (a4 b1.symm) (by simp)
          · exact a5 x hx b1 b2 b3
        · rintro ⟨rfl | a1, a2, a3, a4, a5⟩
          · exact absurd (a4 rfl) (by simp)
          · exact ⟨a1, a2, a3, fun he => by simpa using a4 he, fun x hx => a5 x (Or.inr hx)⟩

theorem picks_sublist (tso : Int) (l : List (VKey × WriteInfo)) (last : Bytes) (more : Bool) :
    (picks tso l last more).Sublist l := by
  induction l generalizing last more with
  | nil => simp [picks]
  | cons e rest ih =>
    unfold picks
    simp only
    generalize (if last ≠ e.1.key then true else more) = m
    split
    · exact (ih _ _).cons _
    · split
      · exact (ih _ _).cons _
      · split
        · exact (ih _ _).cons_cons _
        · exact (ih _ _).cons _

/-- Membership in the files of a backup, in terms of the stored records. -/
theorem mem_picks_records {st : State} (hI : Inv st) {tso : Int} {start stop : Bytes} (hs : start ≠ [])
    {k : Bytes} {c : Int} {w : WriteInfo} :
    (⟨k, c⟩, w) ∈ picks tso (gcRecords st start stop) [] false ↔
      InRegion start stop k ∧ Newest st tso k c w := by
  have hnil : ∀ b : Bytes, b ≠ [] → ([] : Bytes) < b := by
    intro b hb
    cases b with
    | nil => exact absurd rfl hb
    | cons x b => exact List.Lex.nil
  rw [mem_picks (asc_gcRecords st start stop) (fun x _ h => absurd h (List.not_lt_nil _)), mem_gcRecords hI]
  constructor
  · rintro ⟨⟨h1, h2⟩, h3, h4, _, h5⟩
    refine ⟨h2, (CF.mem_iff_get _ _ _).2 h1, h3, h4, ?_⟩
    rintro s' c' ⟨w', b1, b2, b3⟩ hle
    exact h5 (⟨k, c'⟩, w') ((mem_gcRecords hI).2 ⟨(CF.mem_iff_get _ _ _).1 b1, h2⟩) rfl hle b3
  · rintro ⟨h1, h2, h3, h4, h5⟩
    refine ⟨⟨(CF.mem_iff_get _ _ _).1 h2, h1⟩, h3, h4, ?_, ?_⟩
    · intro hk
      simp only at hk
      subst hk
      exact absurd (hnil start hs) h1.1
    · rintro ⟨⟨k', c'⟩, w'⟩ hx hk hle hop
      simp only at hk hle
      subst hk
      exact h5 w'.startTs c' ⟨w', (CF.mem_iff_get _ _ _).2 ((mem_gcRecords hI).1 hx).1, rfl, hop⟩ hle

end Verif.Backup

namespace Verif.Backup
open Verif.Codec Verif.Txn

theorem takeRecord_none {st : State} {e : VKey × WriteInfo} (h : clash st e) (f : Files) :
    takeRecord st f e = none := by
  obtain ⟨l, h1, h2⟩ := h
  unfold takeRecord
  simp only [h1, if_pos h2]

theorem backupLoop_clash {st : State} {tso : Int} (l : List (VKey × WriteInfo)) (last : Bytes) (more : Bool)
    (f : Files) (h : ∃ e ∈ picks tso l last more, clash st e) :
    ∃ e ∈ picks tso l last more, clash st e ∧ backupLoop st tso l last more f = .foundLock e.1.key := by
  induction l generalizing last more f with
  | nil => obtain ⟨e, he, _⟩ := h; simp [picks] at he
  | cons y rest ih =>
    unfold picks at h ⊢
    unfold backupLoop
    simp only at h ⊢
    by_cases h1 : y.1.ts > tso
    · simp only [if_pos h1] at h ⊢
      exact ih _ _ _ h
    · simp only [if_neg h1] at h ⊢
      by_cases h2 : (if last ≠ y.1.key then true else more) = true
      · simp only [h2, not_true_eq_false, if_false] at h ⊢
        by_cases h3 : y.2.op = .put ∨ y.2.op = .delete
        · simp only [if_pos h3] at h ⊢
          by_cases hc : clash st y
          · refine ⟨y, List.mem_cons_self, hc, ?_⟩
            rcases h3 with h3 | h3 <;> simp only [h3, takeRecord_none hc]
          · obtain ⟨e, he, hce⟩ := h
            rcases List.mem_cons.1 he with rfl | he
            · exact absurd hce hc
            · have key := fun f' => ih y.1.key false f' ⟨e, he, hce⟩
              rcases h3 with h3 | h3 <;> simp only [h3, takeRecord_ok hc] <;>
                (obtain ⟨e', b1, b2, b3⟩ := key _; exact ⟨e', List.mem_cons_of_mem _ b1, b2, b3⟩)
        · simp only [if_neg h3] at h ⊢
          cases ho : y.2.op
          case put => exact absurd (Or.inl ho) h3
          case delete => exact absurd (Or.inr ho) h3
          all_goals exact ih _ _ _ h
      · simp only [h2, not_false_eq_true, if_true] at h ⊢
        exact ih _ _ _ h

/-- The files of a backup: one record for each key. -/
theorem picks_keys {tso : Int} {l : List (VKey × WriteInfo)} (ha : Asc l) :
    (picks tso l [] false).Pairwise (fun a b => a.1.key ≠ b.1.key) := by
  have hm := fun e => mem_picks (tso := tso) ha (last := []) (fun x _ h => absurd h (List.not_lt_nil _)) (more := false) e
  have hp : (picks tso l [] false).Pairwise (fun a b => a.1 < b.1) := ha.sublist (picks_sublist _ _ _ _)
  refine List.Pairwise.imp_of_mem ?_ hp
  intro a b hma hmb hab he
  obtain ⟨a1, a2, a3, _, a5⟩ := (hm a).1 hma
  obtain ⟨b1, b2, b3, _, b5⟩ := (hm b).1 hmb
  have h1 := a5 b b1 he.symm b2 b3
  have h2 := b5 a a1 he a2 a3
  rcases hab with h | ⟨_, h⟩
  · rw [he] at h; exact lt_irrefl _ h
  · omega

theorem picks_distinct {st : State} {tso : Int} {l : List (VKey × WriteInfo)} (ha : Asc l) :
    Files.Distinct { write := picks tso l [] false
                     data := (picks tso l [] false).filterMap (valueRec st) } := by
  refine ⟨?_, ?_⟩
  · refine (List.pairwise_map (R := fun a b => a ≠ b)).2 ?_
    exact (picks_keys ha).imp (fun h he => h (by rw [he]))
  · refine (List.pairwise_map (R := fun a b => a ≠ b)).2 ?_
    refine List.pairwise_filterMap.2 ?_
    refine (picks_keys (tso := tso) ha).imp ?_
    intro a b hab x hx y hy he
    simp only [valueRec, Option.map_eq_some_iff] at hx hy
    obtain ⟨v, _, rfl⟩ := hx
    obtain ⟨v', _, rfl⟩ := hy
    simp only [VKey.mk.injEq] at he
    exact hab he.1

/-- The region that a restore of these files into an empty one yields keeps the invariants
of disciplined histories. -/
theorem restored_good {D : Bytes → TsOwner} {st st' : State} (h : Good D st) {start stop : Bytes} {tso : Int}
    (hlock : ∀ k, st'.lock.get k = none)
    (hw : ∀ k c w, st'.write.get ⟨k, c⟩ = some w ↔ InRegion start stop k ∧ Newest st tso k c w)
    (hd : ∀ k s v, st'.data.get ⟨k, s⟩ = some v ↔ st.data.get ⟨k, s⟩ = some v ∧
      ∃ c w, InRegion start stop k ∧ Newest st tso k c w ∧ w.startTs = s) : Good D st' := by
  have hsub : ∀ k c w, st'.write.get ⟨k, c⟩ = some w → st.write.get ⟨k, c⟩ = some w := by
    intro k c w hx
    exact (CF.mem_iff_get _ _ _).1 ((hw k c w).1 hx).2.1
  have hno : ∀ k l, (view st' k).lock = some l → False := by
    intro k l hl
    simp only [view, hlock] at hl
    cases hl
  refine ⟨fun k => ⟨fun l hl => (hno k l hl).elim, ?_, ?_, ?_⟩, fun k =>
    ⟨fun l hl => (hno k l hl).elim, fun l hl => (hno k l hl).elim, fun l hl => (hno k l hl).elim, ?_, ?_, ?_, ?_⟩⟩
  · exact fun t w hx => (h.inv k).write t w (hsub k t w hx)
  · exact fun t v hx => (h.inv k).data t v ((hd k t v).1 hx).1
  · exact fun t w hx => (h.inv k).rbShort t w (hsub k t w hx)
  · exact fun t w hx => (h.dinv k).commit t w (hsub k t w hx)
  · exact fun t w hx => (h.dinv k).roll t w (hsub k t w hx)
  · exact fun t t' w w' hx hx' => (h.dinv k).unique t t' w w' (hsub k t w hx) (hsub k t' w' hx')
  · intro t w hx ho hs
    have hy := (hw k t w).1 hx
    have := (h.dinv k).writeData t w (hsub k t w hx) ho hs
    simp only [view] at this ⊢
    cases hg : st.data.get ⟨k, w.startTs⟩ with
    | none => rw [hg] at this; cases this
    | some v => rw [(hd k w.startTs v).2 ⟨hg, t, w, hy.1, hy.2, rfl⟩]; rfl

/-- What the restored region holds at or above the time of the backup. -/
theorem restored_snapshot {D : Bytes → TsOwner} {st st' : State} (h : Good D st) {start stop : Bytes} {tso : Int}
    (hw : ∀ k c w, st'.write.get ⟨k, c⟩ = some w ↔ InRegion start stop k ∧ Newest st tso k c w)
    (hd : ∀ k s v, st'.data.get ⟨k, s⟩ = some v ↔ st.data.get ⟨k, s⟩ = some v ∧
      ∃ c w, InRegion start stop k ∧ Newest st tso k c w ∧ w.startTs = s)
    {k : Bytes} (hk : InRegion start stop k) {ts : Int} (hts : tso ≤ ts) {v : Option Bytes}
    (hv : Snapshot st k tso v) : Snapshot st' k ts v := by
  have hcom : ∀ s c, CommittedOn st' k s c → CommittedOn st k s c ∧ c ≤ tso := by
    rintro s c ⟨w, h1, h2, h3⟩
    have := (hw k c w).1 ((CF.mem_iff_get _ _ _).1 h1)
    exact ⟨⟨w, this.2.1, h2, h3⟩, this.2.2.1⟩
  rcases hv with ⟨h1, h2⟩ | ⟨s, c, h1, h2, h3⟩
  · left
    refine ⟨h1, fun s c hc => ?_⟩
    obtain ⟨a, b⟩ := hcom s c hc
    have := h2 s c a
    omega
  · right
    refine ⟨s, c, by omega, ?_, fun s' c' hc' _ => h3 s' c' (hcom s' c' hc').1 (hcom s' c' hc').2⟩
    have new : ∀ w, (⟨k, c⟩, w) ∈ st.write.l → (w.op = .put ∨ w.op = .delete) → Newest st tso k c w :=
      fun w hw' ho => ⟨hw', h1, ho, h3⟩
    cases v with
    | none =>
      obtain ⟨w, b1, b2, b3⟩ := h2
      exact ⟨w, (CF.mem_iff_get _ _ _).2 ((hw k c w).2 ⟨hk, new w b1 (Or.inr b3)⟩), b2, b3⟩
    | some v =>
      obtain ⟨w, b1, b2, b3, b4⟩ := h2
      refine ⟨w, (CF.mem_iff_get _ _ _).2 ((hw k c w).2 ⟨hk, new w b1 (Or.inl b3)⟩), b2, b3, ?_⟩
      rcases b4 with b4 | ⟨b4, b5⟩
      · exact Or.inl b4
      · refine Or.inr ⟨b4, (CF.mem_iff_get _ _ _).2 ?_⟩
        exact (hd k s v).2 ⟨(CF.mem_iff_get _ _ _).1 b5, c, w, hk, new w b1 (Or.inl b3), b2⟩

end Verif.Backup
