import Verif.Txn.ScanPage

/-!
# Transactional scans: streams of pages, and the snapshot
-/

namespace Verif.Txn
open Verif.Codec

namespace ScanCtx
variable {c : ScanCtx}

/-- `kvs` is what a scan must return of the keys that satisfy `B`. -/
structure Covered (c : ScanCtx) (keyOnly : Bool) (B : Bytes → Prop) (kvs : List (Bytes × Bytes)) : Prop where
  asc : kvs.Pairwise (fun a b => a.1 < b.1)
  sound : ∀ kv ∈ kvs, B kv.1 ∧ c.InRange kv.1 ∧ c.val kv.1 ≠ [] ∧ kv.2 = if keyOnly then [] else c.val kv.1
  compl : ∀ k, B k → c.InRange k → c.NoConflict k ∧ (c.val k ≠ [] → k ∈ kvs.map Prod.fst)

theorem Covered.start (h : c.Ok) (ko : Bool) : c.Covered ko (fun k => ¬ [] < k) [] :=
  ⟨List.Pairwise.nil, by simp, fun _ hk hr => absurd (nil_lt (ne_nil h hr)) hk⟩

theorem Covered.take {ko : Bool} {q m v : Bytes} {kvs : List (Bytes × Bytes)} (h : c.Covered ko (fun k => ¬ q < k) kvs)
    (hqm : q < m) (hr : c.InRange m) (hv : v = c.val m) (hne : v ≠ []) (hq : c.Quiet q m) (hn : c.NoConflict m) :
    c.Covered ko (fun k => ¬ m < k) (kvs ++ [(m, if ko then [] else v)]) := by
  have hlt : ∀ kv ∈ kvs, kv.1 < m := by
    intro kv hkv
    rcases le_of_not_lt (h.sound kv hkv).1 with h' | h'
    · exact KeyOrder.trans h' hqm
    · exact h' ▸ hqm
  refine ⟨?_, ?_, ?_⟩
  · rw [List.pairwise_append]
    refine ⟨h.asc, by simp, ?_⟩
    intro a ha b hb
    simp only [List.mem_singleton] at hb
    subst hb
    exact hlt a ha
  · intro kv hkv
    rcases List.mem_append.1 hkv with hkv | hkv
    · exact ⟨KeyOrder.asymm (hlt kv hkv), (h.sound kv hkv).2⟩
    · simp only [List.mem_singleton] at hkv
      subst hkv
      exact ⟨lt_irrefl _, hr, hv ▸ hne, by rw [hv]⟩
  · intro k hk hrk
    rcases le_of_not_lt hk with hk | hk
    · by_cases hqk : q < k
      · obtain ⟨h1, h2⟩ := hq k hqk hk hrk
        exact ⟨h2, fun h3 => absurd h1 h3⟩
      · obtain ⟨h1, h2⟩ := h.compl k hqk hrk
        exact ⟨h1, fun h3 => by simp only [List.map_append]; exact List.mem_append_left _ (h2 h3)⟩
    · subst hk
      exact ⟨hn, fun _ => by simp⟩

theorem Covered.all {ko : Bool} {q : Bytes} {kvs : List (Bytes × Bytes)} (h : c.Covered ko (fun k => ¬ q < k) kvs)
    (hq : c.QuietAll q) : c.Covered ko (fun _ => True) kvs := by
  refine ⟨h.asc, fun kv hkv => ⟨trivial, (h.sound kv hkv).2⟩, ?_⟩
  intro k _ hr
  by_cases hqk : q < k
  · obtain ⟨h1, h2⟩ := hq k hqk hr
    exact ⟨h2, fun h3 => absurd h1 h3⟩
  · exact h.compl k hqk hr

theorem Covered.stuck {ko : Bool} {q m : Bytes} {kvs : List (Bytes × Bytes)} (h : c.Covered ko (fun k => ¬ q < k) kvs)
    (hqm : q < m) (hq : c.Quiet q m) : c.Covered ko (fun k => k < m) kvs := by
  refine ⟨h.asc, fun kv hkv => ⟨?_, (h.sound kv hkv).2⟩, ?_⟩
  · rcases le_of_not_lt (h.sound kv hkv).1 with h' | h'
    · exact KeyOrder.trans h' hqm
    · exact h' ▸ hqm
  · intro k hk hr
    by_cases hqk : q < k
    · obtain ⟨h1, h2⟩ := hq k hqk hk hr
      exact ⟨h2, fun h3 => absurd h1 h3⟩
    · exact h.compl k hqk hr

/-- A lock in the way has been met and everything before it returned. -/
def Blocked (c : ScanCtx) (ko : Bool) (kvs : List (Bytes × Bytes)) (l : LockInfo) : Prop :=
  ∃ m, (m, l) ∈ c.L0 ∧ lockConflict l c.iso c.ts c.resolved = true ∧ c.Covered ko (fun k => k < m) kvs

/-- State of a stream that has returned `kvs`. -/
def StreamAt (c : ScanCtx) (ko : Bool) (kvs : List (Bytes × Bytes)) (it : Iter) : Prop :=
  (∃ q, c.Covered ko (fun k => ¬ q < k) kvs ∧ c.Settled q it) ∨
  (∃ l, c.Blocked ko kvs l ∧ it.key = [] ∧ it.result = some (.locked l))

/-- What a response says, when the stream has returned `kvs` including this page. -/
def Says (c : ScanCtx) (ko : Bool) (kvs : List (Bytes × Bytes)) (r : ScanResp) : Prop :=
  (r.result = none ∧ r.hasMore = false ∧ c.Covered ko (fun _ => True) kvs) ∨
  (r.result = none ∧ r.hasMore = true ∧ r.kvs ≠ [] ∧ r.kvs.getLast?.map Prod.fst = some r.endKey ∧
    c.Covered ko (fun k => ¬ r.endKey < k) kvs) ∨
  (∃ l, r.result = some (.locked l) ∧ c.Blocked ko kvs l)

/-- The page stops as soon as it is full. -/
def Limit (full : List (Bytes × Bytes) → Bool) (r : ScanResp) : Prop :=
  (∀ a, a <+: r.kvs → a ≠ [] → a ≠ r.kvs → full a = false) ∧ (r.result = none → r.hasMore = true → full r.kvs = true)

/-- Result of the loop of `Scan`. -/
def LoopDone (c : ScanCtx) (ko : Bool) (full : List (Bytes × Bytes) → Bool) (pre : List (Bytes × Bytes)) :
    (Out ScanResp × Iter) ⊕ (List (Bytes × Bytes) × Bool × Iter) → Prop
  | .inl (o, it) => ∃ r l, o = .ok r ∧ r.result = some (.locked l) ∧ c.Blocked ko (pre ++ r.kvs) l ∧
      it.key = [] ∧ it.result = some (.locked l) ∧ Limit full r
  | .inr (kvs, more, it) =>
      (more = false ∧ ∃ q, c.Covered ko (fun k => ¬ q < k) (pre ++ kvs) ∧ c.Settled q it ∧ it.key = []) ∧
        (∀ a, a <+: kvs → a ≠ [] → a ≠ kvs → full a = false) ∨
      (more = true ∧ kvs.getLast?.map Prod.fst = some it.key ∧ c.Covered ko (fun k => ¬ it.key < k) (pre ++ kvs) ∧
        c.Post it ∧ full kvs = true) ∧ (∀ a, a <+: kvs → a ≠ [] → a ≠ kvs → full a = false)

theorem prefix_snoc {α : Type} {a l : List α} {x : α} (h : a <+: l ++ [x]) : a <+: l ∨ a = l ++ [x] := by
  obtain ⟨b, hb⟩ := h
  rcases List.eq_nil_or_concat b with rfl | ⟨b', y, rfl⟩
  · right; simpa using hb
  · left
    rw [List.concat_eq_append, ← List.append_assoc] at hb
    exact ⟨b', (List.append_inj' hb rfl).1⟩

theorem scanLoop_spec (h : c.Ok) (ko : Bool) (full : List (Bytes × Bytes) → Bool) (pre : List (Bytes × Bytes))
    (n : Nat) {q : Bytes} {it : Iter} {acc : List (Bytes × Bytes)}
    (hs : c.Settled q it) (hc : c.Covered ko (fun k => ¬ q < k) (pre ++ acc)) (hn : it.key ≠ [] → c.left it.key + 1 < n)
    (hn' : 0 < n) (hl : ∀ a, a <+: acc → a ≠ [] → full a = false) :
    LoopDone c ko full pre (scanLoop c.live c.iso c.ts c.resolved ko full n it acc) := by
  induction n generalizing it q acc with
  | zero => omega
  | succ n ih =>
    simp only [scanLoop]
    rcases hs.ok with ⟨hk, hqm, hv, hpo, hq, hnc⟩ | ⟨hk, hq⟩
    · have hval : it.valid = true := by simp [Iter.valid, hs.result, hk]
      rw [if_pos hval]
      have hc' := hc.take hqm hpo.range hpo.value hv hq hnc
      rw [List.append_assoc] at hc'
      have hl' : ∀ a, a <+: acc ++ [(it.key, if ko = true then [] else it.value)] → a ≠ [] →
          a ≠ acc ++ [(it.key, if ko = true then [] else it.value)] → full a = false := by
        intro a ha hne hne'
        rcases prefix_snoc ha with ha | ha
        · exact hl a ha hne
        · exact absurd ha hne'
      by_cases hf : full (acc ++ [(it.key, if ko = true then [] else it.value)]) = true
      · rw [if_pos hf]
        exact Or.inr ⟨⟨rfl, by simp, hc', hpo, hf⟩, hl'⟩
      · rw [if_neg hf]
        have hmv := next_spec h hpo
        have hn := hn hk
        generalize iterNext c.live c.iso c.ts c.resolved it.fuel it = out at hmv
        obtain ⟨o, it'⟩ := out
        rcases hmv with ⟨h1, h2⟩ | ⟨m, l, h1, h2⟩
        · simp only at h1 h2; subst h1
          refine ih h2 hc' ?_ (by omega) ?_
          · intro hk'
            rcases h2.ok with ⟨_, hlt, hv', hpo', _, _⟩ | ⟨hk'', _⟩
            · have : c.left it'.key < c.left it.key := by
                refine left_lt hlt (Or.inr ?_)
                apply Classical.byContradiction
                intro hno
                rw [hpo'.value, val_of_no_record] at hv'
                · exact hv' rfl
                · intro e he he'; exact hno ⟨e, he, he'⟩
              omega
            · exact absurd hk'' hk'
          · intro a ha hne
            rcases prefix_snoc ha with ha | ha
            · exact hl a ha hne
            · rw [ha]; simpa using hf
        · simp only at h1 h2; subst h1
          refine ⟨_, l, rfl, h2.result, ⟨m, h2.lock, h2.conflict, hc'.stuck h2.lt h2.quiet⟩, h2.key, h2.result, hl', ?_⟩
          intro hr; simp only [h2.result] at hr; cases hr
    · have hval : it.valid = false := by simp [Iter.valid, hk]
      rw [if_neg (by simp [hval])]
      exact Or.inl ⟨⟨rfl, q, hc, hs, hk⟩, fun a ha hne _ => hl a ha hne⟩

/-- One page of a stream. -/
theorem page_spec (h : c.Ok) {ko : Bool} (full : List (Bytes × Bytes) → Bool) {pre : List (Bytes × Bytes)} {it : Iter}
    (hs : c.StreamAt ko pre it) :
    ∃ r it', scanPage c.live c.iso c.ts c.resolved ko full it = (.ok r, it') ∧ c.StreamAt ko (pre ++ r.kvs) it' ∧
      c.Says ko (pre ++ r.kvs) r ∧ Limit full r := by
  rcases hs with ⟨q, hc, hs⟩ | ⟨l, hb, hk, hr⟩
  · have hloop := scanLoop_spec h ko full pre it.fuel (acc := []) hs (by simpa using hc)
      (by
        intro hk
        rcases hs.ok with ⟨_, _, _, hpo, _⟩ | ⟨hk', _⟩
        · have := hpo.left_le; simp only [Iter.fuel]; omega
        · exact absurd hk' hk)
      (by simp [Iter.fuel])
      (by intro a ha hne; exact absurd (List.prefix_nil.1 ha) hne)
    simp only [scanPage]
    generalize scanLoop c.live c.iso c.ts c.resolved ko full it.fuel it [] = res at hloop
    rcases res with ⟨o, it'⟩ | ⟨kvs, more, it'⟩
    · obtain ⟨r, l, rfl, h1, h2, h3, h4, h5⟩ := hloop
      exact ⟨r, it', rfl, Or.inr ⟨l, h2, h3, h4⟩, Or.inr (Or.inr ⟨l, h1, h2⟩), h5⟩
    · simp only
      rcases hloop with ⟨⟨rfl, q', h1, h2, h3⟩, hl⟩ | ⟨⟨rfl, h1, h2, h3, h4⟩, hl⟩
      · have hval : it'.valid = false := by simp [Iter.valid, h3]
        rw [if_neg (by simp [hval])]
        refine ⟨_, it', rfl, Or.inl ⟨q', h1, h2⟩, Or.inl ⟨h2.result, rfl, ?_⟩, hl, by simp⟩
        rcases h2.ok with ⟨hk, _⟩ | ⟨_, hq⟩
        · exact absurd h3 hk
        · exact h1.all hq
      · have hval : it'.valid = true := by simp [Iter.valid, h3.key, h3.result]
        rw [if_pos hval]
        have hne : kvs ≠ [] := by rintro rfl; simp at h1
        have hmv := next_spec h h3
        generalize iterNext c.live c.iso c.ts c.resolved it'.fuel it' = out at hmv
        obtain ⟨o, it''⟩ := out
        rcases hmv with ⟨e1, e2⟩ | ⟨m, l, e1, e2⟩
        · simp only at e1 e2; subst e1
          exact ⟨_, it'', rfl, Or.inl ⟨it'.key, h2, e2⟩, Or.inr (Or.inl ⟨h3.result, rfl, hne, h1, h2⟩), hl, fun _ _ => h4⟩
        · simp only at e1 e2; subst e1
          have hb : c.Blocked ko (pre ++ kvs) l := ⟨m, e2.lock, e2.conflict, h2.stuck e2.lt e2.quiet⟩
          exact ⟨_, it'', rfl, Or.inr ⟨l, hb, e2.key, e2.result⟩, Or.inr (Or.inr ⟨l, e2.result, hb⟩), hl, fun _ _ => h4⟩
  · have hval : it.valid = false := by simp [Iter.valid, hr]
    have he : scanPage c.live c.iso c.ts c.resolved ko full it = (.ok { result := it.result }, it) := by
      simp [scanPage, Iter.fuel, scanLoop, hval]
    refine ⟨_, it, he, Or.inr ⟨l, by simpa using hb, hk, hr⟩, Or.inr (Or.inr ⟨l, hr, by simpa using hb⟩), ?_, ?_⟩
    · intro a ha hne; exact absurd (List.prefix_nil.1 ha) hne
    · intro _ hm; cases hm

/-- The values do not depend on when the data is read. -/
def Agree (c : ScanCtx) (live : CF VKey Bytes) : Prop :=
  ∀ k t w, c.st.write.get ⟨k, t⟩ = some w → w.op = .put → live.get ⟨k, w.startTs⟩ = c.live.get ⟨k, w.startTs⟩

theorem val_agree (h : c.Ok) {live : CF VKey Bytes} (ha : c.Agree live) (m : Bytes) :
    ({ c with live := live } : ScanCtx).val m = c.val m := by
  show (match c.W0.find? (visible m c.T) with | some e => valueIn live m e.2 | none => []) = _
  simp only [val]
  cases hf : c.W0.find? (visible m c.T) with
  | none => rfl
  | some e =>
    obtain ⟨⟨k, t⟩, w⟩ := e
    have hm := List.mem_of_find?_eq_some hf
    have hp := List.find?_some hf
    simp only [visible, decide_eq_true_eq] at hp
    obtain ⟨rfl, _, _⟩ := hp
    have hg := ((mem_scanWrites h.inv).1 hm).1
    simp only [valueIn]
    split
    · rename_i hop
      rw [ha k t w hg hop]
    · rfl

theorem Ok.live (h : c.Ok) {live : CF VKey Bytes} (ha : c.Agree live) : ({ c with live := live } : ScanCtx).Ok :=
  ⟨h.inv, h.start, fun k t w hw hp hs => by
    show (live.get _).isSome
    rw [ha k t w hw hp]; exact h.data k t w hw hp hs⟩

theorem Post.live (h : c.Ok) {live : CF VKey Bytes} (ha : c.Agree live) {it : Iter} (hp : c.Post it) :
    ({ c with live := live } : ScanCtx).Post it :=
  ⟨hp.key, hp.range, by rw [val_agree h ha]; exact hp.value, hp.result, hp.asc, hp.locks, hp.lastLock, hp.writes,
    hp.head, hp.stale⟩

theorem Quiet.live (h : c.Ok) {live : CF VKey Bytes} (ha : c.Agree live) {p m : Bytes} (hq : c.Quiet p m) :
    ({ c with live := live } : ScanCtx).Quiet p m :=
  fun k h1 h2 h3 => ⟨by rw [val_agree h ha]; exact (hq k h1 h2 h3).1, (hq k h1 h2 h3).2⟩

theorem QuietAll.live (h : c.Ok) {live : CF VKey Bytes} (ha : c.Agree live) {p : Bytes} (hq : c.QuietAll p) :
    ({ c with live := live } : ScanCtx).QuietAll p :=
  fun k h1 h3 => ⟨by rw [val_agree h ha]; exact (hq k h1 h3).1, (hq k h1 h3).2⟩

theorem Covered.live (h : c.Ok) {live : CF VKey Bytes} (ha : c.Agree live) {ko : Bool} {B : Bytes → Prop}
    {kvs : List (Bytes × Bytes)} : c.Covered ko B kvs ↔ ({ c with live := live } : ScanCtx).Covered ko B kvs := by
  constructor
  · rintro ⟨h1, h2, h3⟩
    exact ⟨h1, fun kv hkv => by rw [val_agree h ha]; exact h2 kv hkv, fun k hk hr => by rw [val_agree h ha]; exact h3 k hk hr⟩
  · rintro ⟨h1, h2, h3⟩
    exact ⟨h1, fun kv hkv => by rw [← val_agree h ha]; exact h2 kv hkv, fun k hk hr => by rw [← val_agree h ha]; exact h3 k hk hr⟩

theorem Blocked.live (h : c.Ok) {live : CF VKey Bytes} (ha : c.Agree live) {ko : Bool}
    {kvs : List (Bytes × Bytes)} {l : LockInfo} :
    c.Blocked ko kvs l ↔ ({ c with live := live } : ScanCtx).Blocked ko kvs l := by
  constructor <;> rintro ⟨m, h1, h2, h3⟩
  · exact ⟨m, h1, h2, (Covered.live h ha).1 h3⟩
  · exact ⟨m, h1, h2, (Covered.live h ha).2 h3⟩

theorem StreamAt.live (h : c.Ok) {live : CF VKey Bytes} (ha : c.Agree live) {ko : Bool}
    {kvs : List (Bytes × Bytes)} {it : Iter} (hs : c.StreamAt ko kvs it) :
    ({ c with live := live } : ScanCtx).StreamAt ko kvs it := by
  rcases hs with ⟨q, h1, h2⟩ | ⟨l, h1, h2⟩
  · refine Or.inl ⟨q, (Covered.live h ha).1 h1, h2.result, ?_⟩
    rcases h2.ok with ⟨a1, a2, a3, a4, a5, a6⟩ | ⟨a1, a2⟩
    · exact Or.inl ⟨a1, a2, a3, a4.live h ha, a5.live h ha, a6⟩
    · exact Or.inr ⟨a1, a2.live h ha⟩
  · exact Or.inr ⟨l, (Blocked.live h ha).1 h1, h2⟩

theorem Says.live (h : c.Ok) {live : CF VKey Bytes} (ha : c.Agree live) {ko : Bool}
    {kvs : List (Bytes × Bytes)} {r : ScanResp} (hs : ({ c with live := live } : ScanCtx).Says ko kvs r) :
    c.Says ko kvs r := by
  rcases hs with ⟨h1, h2, h3⟩ | ⟨h1, h2, h3, h4, h5⟩ | ⟨l, h1, h2⟩
  · exact Or.inl ⟨h1, h2, (Covered.live h ha).2 h3⟩
  · exact Or.inr (Or.inl ⟨h1, h2, h3, h4, (Covered.live h ha).2 h5⟩)
  · exact Or.inr (Or.inr ⟨l, h1, (Blocked.live h ha).2 h2⟩)

/-- The pages of a stream after the first. -/
theorem pages_spec (h : c.Ok) {ko : Bool} (ps : List (CF VKey Bytes × (List (Bytes × Bytes) → Bool)))
    (hps : ∀ p ∈ ps, c.Agree p.1) {pre : List (Bytes × Bytes)} {it : Iter} (hs : c.StreamAt ko pre it) :
    ∃ rs : List ScanResp, scanPages c.iso c.ts c.resolved ko ps it = rs.map .ok ∧ rs.length = ps.length ∧
      (∀ r, rs.getLast? = some r → c.Says ko (pre ++ rs.flatMap (·.kvs)) r) ∧
      ∀ x ∈ rs.zip ps, Limit x.2.2 x.1 := by
  induction ps generalizing pre it with
  | nil => exact ⟨[], rfl, rfl, by simp, by simp⟩
  | cons p ps ih =>
    obtain ⟨live, full⟩ := p
    have ha : c.Agree live := hps _ List.mem_cons_self
    obtain ⟨r, it', h1, h2, h3, h4⟩ := page_spec (h.live ha) full (hs.live h ha)
    simp only at h1
    have h2' : c.StreamAt ko (pre ++ r.kvs) it' := by
      have := h2.live (h.live ha) (live := c.live) (fun k t w hw hp => (ha k t w hw hp).symm)
      exact this
    obtain ⟨rs, e1, e2, e3, e4⟩ := ih (fun p hp => hps p (List.mem_cons_of_mem _ hp)) h2'
    refine ⟨r :: rs, ?_, by simp [e2], ?_, ?_⟩
    · simp only [scanPages, h1, e1, List.map_cons]
    · intro r' hr'
      cases rs with
      | nil =>
        simp only [List.getLast?_singleton, Option.some.injEq] at hr'
        subst hr'
        simpa using h3.live h ha
      | cons x xs =>
        rw [List.getLast?_cons_cons] at hr'
        have := e3 r' hr'
        rw [List.append_assoc] at this
        simpa using this
    · intro x hx
      rw [List.zip_cons_cons] at hx
      rcases List.mem_cons.1 hx with rfl | hx
      · exact h4
      · exact e4 x hx

/-- A whole stream. -/
theorem stream_spec (h : c.Ok) (hl : c.live = c.st.data) {ko : Bool} (full : List (Bytes × Bytes) → Bool)
    (ps : List (CF VKey Bytes × (List (Bytes × Bytes) → Bool))) (hps : ∀ p ∈ ps, c.Agree p.1) :
    ∃ rs : List ScanResp, scanStream c.st c.iso c.ts c.resolved ko c.start c.stop full ps = rs.map .ok ∧ rs ≠ [] ∧
      (∀ r, rs.getLast? = some r → c.Says ko (rs.flatMap (·.kvs)) r) ∧
      ∀ x ∈ rs.zip ((c.live, full) :: ps), Limit x.2.2 x.1 := by
  have hs := seek_spec h
  simp only [scanStream, scanFirst]
  rw [← hl]
  generalize iterSeek c.st c.live c.iso c.ts c.resolved c.start c.stop = out at hs
  obtain ⟨o, it⟩ := out
  rcases hs with ⟨h1, h2⟩ | ⟨m, l, h1, h2⟩
  · simp only at h1 h2; subst h1
    have hst : c.StreamAt ko [] it := Or.inl ⟨[], Covered.start h ko, h2⟩
    obtain ⟨r, it', e1, e2, e3, e4⟩ := page_spec h full hst
    simp only [e1]
    simp only [List.nil_append] at e2 e3
    obtain ⟨rs, f1, f2, f3, f4⟩ := pages_spec h ps hps e2
    refine ⟨r :: rs, by rw [f1]; rfl, by simp, ?_, ?_⟩
    · intro r' hr'
      cases rs with
      | nil =>
        simp only [List.getLast?_singleton, Option.some.injEq] at hr'
        subst hr'
        simpa using e3
      | cons x xs =>
        rw [List.getLast?_cons_cons] at hr'
        simpa using f3 r' hr'
    · intro x hx
      rw [List.zip_cons_cons] at hx
      rcases List.mem_cons.1 hx with rfl | hx
      · exact e4
      · exact f4 x hx
  · simp only at h1 h2; subst h1
    refine ⟨[_], rfl, by simp, ?_, ?_⟩
    · intro r hr
      simp only [List.getLast?_singleton, Option.some.injEq] at hr
      subst hr
      refine Or.inr (Or.inr ⟨l, h2.result, m, h2.lock, h2.conflict, ?_⟩)
      simpa using (Covered.start h ko).stuck h2.lt h2.quiet
    · intro x hx
      rw [List.zip_cons_cons] at hx
      simp only [List.zip_nil_left, List.mem_singleton] at hx
      subst hx
      refine ⟨fun a ha hne => absurd (List.prefix_nil.1 ha) hne, ?_⟩
      intro hr; simp only [h2.result] at hr; cases hr

/-! ## The snapshot -/

theorem val_snapshot (h : c.Ok) (hl : c.live = c.st.data) {k : Bytes} (hr : c.InRange k) :
    Snapshot c.st k c.T (valueOf (c.val k)) := by
  have hin : ∀ t w, c.st.write.get ⟨k, t⟩ = some w → t ≤ c.T → (⟨k, t⟩, w) ∈ c.W0 := by
    intro t w hg ht
    refine (mem_scanWrites h.inv).2 ⟨hg, hr.2, ?_⟩
    rcases le_of_not_lt hr.1 with h' | h'
    · exact Or.inl h'
    · exact Or.inr ⟨h', ht⟩
  have hcom : ∀ s t, CommittedOn c.st k s t → t ≤ c.T → ∃ w, (⟨k, t⟩, w) ∈ c.W0 ∧ visible k c.T (⟨k, t⟩, w) = true := by
    intro s t hc ht
    obtain ⟨w, h1, _, h3⟩ := committedOn_iff.1 hc
    refine ⟨w, hin t w h1 ht, ?_⟩
    simp only [visible, decide_eq_true_eq]
    refine ⟨trivial, ht, ?_⟩
    rcases h3 with h3 | h3 <;> rw [h3] <;> decide
  simp only [val]
  cases hf : c.W0.find? (visible k c.T) with
  | none =>
    left
    refine ⟨rfl, ?_⟩
    intro s t hc
    by_cases ht : t ≤ c.T
    · obtain ⟨w, h1, h2⟩ := hcom s t hc ht
      rw [List.find?_eq_none] at hf
      exact absurd h2 (hf _ h1)
    · omega
  | some e =>
    obtain ⟨⟨k', t⟩, w⟩ := e
    have hm := List.mem_of_find?_eq_some hf
    have hp := List.find?_some hf
    simp only [visible, decide_eq_true_eq] at hp
    obtain ⟨rfl, ht, hop⟩ := hp
    have hg := ((mem_scanWrites h.inv).1 hm).1
    right
    refine ⟨w.startTs, t, ht, ?_, ?_⟩
    · have hmem := (CF.mem_iff_get c.st.write ⟨k', t⟩ w).2 hg
      rcases ((h.inv k').write t w hg).2.2 with hb | ⟨hb, _⟩
      · exact absurd hb.1 hop
      · simp only [valueIn]
        rcases hb with hb | hb
        · rw [if_pos hb]
          by_cases hsv : w.shortValue = []
          · rw [if_neg (by simpa using hsv), hl]
            have hd := h.data k' t w hg hb hsv
            rw [hl] at hd
            cases hd' : c.st.data.get ⟨k', w.startTs⟩ with
            | none => rw [hd'] at hd; cases hd
            | some v =>
              have hne := (h.inv k').data _ v hd'
              rw [Option.getD_some, valueOf, if_neg hne]
              exact ⟨w, hmem, rfl, hb, Or.inr ⟨hsv, (CF.mem_iff_get _ _ _).2 hd'⟩⟩
          · rw [if_pos (by simpa using hsv), valueOf, if_neg hsv]
            exact ⟨w, hmem, rfl, hb, Or.inl ⟨hsv, rfl⟩⟩
        · rw [if_neg (by rw [hb]; decide)]
          exact ⟨w, hmem, rfl, hb⟩
    · intro s' t' hc ht'
      obtain ⟨w', h1, h2⟩ := hcom s' t' hc ht'
      have hasc : Asc c.W0 := asc_scanWrites _ _ _ _
      obtain ⟨_, as, bs, heq, has⟩ := List.find?_eq_some_iff_append.1 hf
      rw [heq] at h1 hasc
      rcases List.mem_append.1 h1 with h1 | h1
      · have := has _ h1
        rw [h2] at this; cases this
      · rcases List.mem_cons.1 h1 with h1 | h1
        · cases h1; omega
        · have := (List.pairwise_cons.1 (List.pairwise_append.1 hasc).2.1).1 _ h1
          simp only [VKey.lt_def] at this
          rcases this with h' | ⟨_, h'⟩
          · exact absurd h' (lt_irrefl _)
          · omega

end ScanCtx
end Verif.Txn
