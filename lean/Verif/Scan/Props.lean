import Verif.Scan.Hist

/-!
# Scan sessions: the claims

C68 is what a client that keeps calling Continue receives; C69 is how long a
session lives and what it is shielded from.  Responses carry the number of the
session object they belong to (`o`), which the client does not see.
-/

namespace Verif.Scan
open Verif.Codec Verif.Mvcc

/-! ## C68: the listing -/

theorem begun_at {cfg : Cfg} {s : State} {i : Nat} {t t' : Int} {b : Bool} {o : Nat} {id : Bytes} {r : BeginReq}
    {kvs : List KV} (hb : .begun i o id r kvs ∈ (step cfg s (.go i t t' b)).2) :
    ∃ c c' more, s.ths[i]? = some (.begin o id r) ∧ s.objs[o]? = some c ∧
      scanBegin cfg s.store t t' c r = (c', .ok kvs more) ∧
      step cfg s (.go i t t' b) =
        ({ s with objs := s.objs.set o c', ths := s.ths.set i .done }, [.begun i o id r kvs]) := by
  rcases step_outs hb with ⟨i', t1, t1', b', o', id', r', c, c', kvs', more, h1, _, h2, h3, h4, h5, h6⟩ |
      ⟨i', t1, t1', b', o', id', m, c, c', kvs', more, h1, _, h2, h3, h4, h5, h6⟩ |
      ⟨_, _, _, _, _, _, _, _, h5⟩ | h5
  · cases h1; cases h5
    exact ⟨c, c', more, h2, h3, h4, h6⟩
  · cases h5
  · cases h5
  · exfalso
    simp only [reduceCtorEq, or_false, exists_false] at h5

/-- C68: let a session begin on the data `S` at clock `t`, whatever happened before.
Whatever happens afterwards — writes, splits, other sessions, the cleaner, any
number of concurrent Continue requests with any page sizes — the pairs the session
hands out, in the order of the responses, are a prefix of what one scan of the
range on `S` returns; and all of it once a response was empty or said that there
is no more. -/
theorem C68_listing (cfg : Cfg) (st0 : Store) (evs1 evs2 : List Ev) {i o : Nat} {t t' : Int} {b : Bool}
    {id : Bytes} {r : BeginReq} {kvs : List KV} {S : Store} {L : List (Bytes × Int × Bytes)}
    (hS : (run cfg (State.init st0) evs1).1.store = S) (hw : WFStore S)
    (hb : .begun i o id r kvs ∈ (step cfg (run cfg (State.init st0) evs1).1 (.go i t t' b)).2)
    (hL : kvScan S t r.ts r.start r.stop = .ok L) :
    ∃ rest, pairsOf o (run cfg (State.init st0) (evs1 ++ .go i t t' b :: evs2)).2 ++ rest =
        L.map (asked r.keyOnly) ∧
      ((∃ x ∈ (run cfg (State.init st0) (evs1 ++ .go i t t' b :: evs2)).2, x.isLast o = true) → rest = []) := by
  obtain ⟨c, c', more, h1, h2, h3, h4⟩ := begun_at hb
  have hI := RInv.run cfg st0 evs1
  generalize hs : run cfg (State.init st0) evs1 = X at *
  obtain ⟨s, outs⟩ := X
  simp only at hS hb h1 h2 h3 h4 hI
  obtain ⟨hop, hne1, hne2, hlt, it, it', hseek, hpg, hc'⟩ := scanBegin_ok h3
  have hts : c.ts = r.ts := by
    obtain ⟨c0, e1, _, e2, _⟩ := hI.begins i o id r h1
    rw [h2] at e1; cases e1; exact e2
  have hq : Quiet o outs := hI.fresh o (fun c0 h0 => by rw [h2] at h0; cases h0; exact Or.inr hop)
  obtain ⟨rs, rfl, hv, hp⟩ := hw.recs
  rw [hS, hts] at hseek
  have ha := ahead_seek hv hp hseek
  rw [kvScan_recs hv hp t r.ts hne1 hne2] at hL
  cases hsc : scanO (effTs r.ts) t none (rs.filter (inRange r.start r.stop)) with
  | none => rw [hsc] at hL; cases hL
  | some l =>
    rw [hsc] at hL
    cases hL
    have hl := scanO_some hsc
    rw [← hl] at ha
    have hmap : (l.map fun r => (r.key, r.ts, r.ver.value)).map (asked r.keyOnly) = l.map (kvOf r.keyOnly) := by
      rw [List.map_map]; rfl
    rw [hmap]
    -- the state after Begin
    have hlen := (List.getElem?_eq_some_iff.1 h2).1
    have hstep : ∃ rem', Ahead it' rem' ∧ kvs ++ rem'.map (kvOf r.keyOnly) = l.map (kvOf r.keyOnly) := by
      split at hpg
      · obtain ⟨rem', a, b, _⟩ := (getKeyValue_ok ha hpg).ahead
        exact ⟨rem', a, b⟩
      · rw [hpg.1, hpg.2]; exact ⟨l, ha, rfl⟩
    obtain ⟨rem', ha', hk'⟩ := hstep
    have hrun : run cfg (State.init st0) (evs1 ++ .go i t t' b :: evs2) =
        ((run cfg { s with objs := s.objs.set o c', ths := s.ths.set i .done } evs2).1,
          outs ++ .begun i o id r kvs ::
            (run cfg { s with objs := s.objs.set o c', ths := s.ths.set i .done } evs2).2) := by
      rw [run_append, hs]
      simp only [run, h4, List.singleton_append]
    rw [hrun]
    obtain ⟨rem2, e1, e2⟩ := listing_from (cfg := cfg) (o := o) evs2
      (s := { s with objs := s.objs.set o c', ths := s.ths.set i .done }) (c := c') (it := it') (rem := rem')
      (by simp only [List.getElem?_set_self hlen]) (by rw [hc']; simp [Young]) (by rw [hc']) ha'
    have hko : c'.keyOnly = r.keyOnly := by rw [hc']
    rw [hko] at e1
    refine ⟨rem2.map (kvOf r.keyOnly), ?_, ?_⟩
    · rw [pairsOf_append, hq.pairs, List.nil_append]
      have : pairsOf o (.begun i o id r kvs ::
          (run cfg { s with objs := s.objs.set o c', ths := s.ths.set i .done } evs2).2) =
          kvs ++ pairsOf o (run cfg { s with objs := s.objs.set o c', ths := s.ths.set i .done } evs2).2 := by
        simp [pairsOf, Out.pairs]
      rw [this, List.append_assoc, e1, hk']
    · rintro ⟨x, hx, hlast⟩
      rcases List.mem_append.1 hx with hx | hx
      · have := (hq x hx).1
        cases x <;> simp_all [Out.isLast, Out.isPage]
      · rcases List.mem_cons.1 hx with hx | hx
        · subst hx; cases hlast
        · rw [e2 ⟨x, hx, hlast⟩]; rfl

/-- C68: with no empty TTL value in `S`, what the session hands out is strictly
ascending, in the range, and each pair is what a point read on `S` at the session's
timestamp and clock returns. -/
theorem C68_sound (cfg : Cfg) (st0 : Store) (evs1 evs2 : List Ev) {i o : Nat} {t t' : Int} {b : Bool}
    {id : Bytes} {r : BeginReq} {kvs : List KV} {S : Store}
    (hS : (run cfg (State.init st0) evs1).1.store = S) (hw : WFStore S) (hn : NoEmptyTTL S)
    (hb : .begun i o id r kvs ∈ (step cfg (run cfg (State.init st0) evs1).1 (.go i t t' b)).2) :
    (pairsOf o (run cfg (State.init st0) (evs1 ++ .go i t t' b :: evs2)).2).Pairwise (fun x y => x.1 < y.1) ∧
    ∀ kv ∈ pairsOf o (run cfg (State.init st0) (evs1 ++ .go i t t' b :: evs2)).2,
      r.start ≤ kv.1 ∧ kv.1 < r.stop ∧
      ∃ v, kvGet S t r.ts kv.1 = .value v ∧ kv.2 = if r.keyOnly then [] else v := by
  obtain ⟨_, _, _, _, _, h3, _⟩ := begun_at hb
  obtain ⟨_, hne1, hne2, _⟩ := scanBegin_ok h3
  obtain ⟨hA, hB, hC⟩ := C07_scan S hw t r.ts r.start r.stop hne1 hne2
  cases hk : kvScan S t r.ts r.start r.stop with
  | keyEmpty => exact absurd hk hC
  | crash =>
    obtain ⟨k, ha, _, hc⟩ := hB.1 hk
    obtain ⟨x, hx, he⟩ := ((C06_kvGet_exact S hw t r.ts k (start_ne hne1 ha)).2.2.1).1 hc
    exact absurd he (hn x hx.1)
  | ok L =>
    obtain ⟨h1, h2, _, _⟩ := hA L hk
    obtain ⟨rest, e, _⟩ := C68_listing cfg st0 evs1 evs2 hS hw hb hk
    have hpre : pairsOf o (run cfg (State.init st0) (evs1 ++ .go i t t' b :: evs2)).2 <+: L.map (asked r.keyOnly) :=
      ⟨rest, e⟩
    refine ⟨?_, ?_⟩
    · refine List.Pairwise.sublist hpre.sublist ?_
      rw [List.pairwise_map]
      exact h2
    · intro kv hkv
      obtain ⟨⟨k, ts, v⟩, hm, rfl⟩ := List.mem_map.1 (hpre.subset hkv)
      obtain ⟨a, b, c⟩ := (h1 k v).1 ⟨ts, hm⟩
      exact ⟨a, b, v, c, rfl⟩

theorem toSize_pos {x : Int} (h0 : 0 < x) (h1 : x < 9223372036854775808) : (toSize x : Int) = x := by
  unfold toSize
  rw [Int.emod_eq_of_lt (by omega) (by omega)]
  omega

/-- The page limits: at most `n` pairs; all but the last pair stay below the byte
limit; 'more' exactly when a limit was reached. -/
structure Limits (n : Int) (bytes : Int) (kvs : List KV) (more : Bool) : Prop where
  count : kvs.length ≤ n
  size : kvs ≠ [] → sizes kvs.dropLast < bytes
  full : more = true → kvs ≠ [] ∧ (kvs.length = n ∨ sizes kvs ≥ bytes)
  stops : more = false → kvs ≠ [] → kvs.length < n ∧ sizes kvs < bytes

theorem limits_of {cfg : Cfg} {keyOnly : Bool} {max : Int} {rem : List Rec} {kvs : List KV} {more : Bool} {it' : It}
    (h : PageOk keyOnly (toSize (min max cfg.maxCnt)) cfg.maxBytes 0 0 rem kvs more it')
    (h1 : 0 < max) (h2 : 0 < cfg.maxCnt) (h3 : 0 < cfg.maxBytes) (h4 : max < 9223372036854775808) :
    Limits (min max cfg.maxCnt) cfg.maxBytes kvs more := by
  have e : (toSize (min max cfg.maxCnt) : Int) = min max cfg.maxCnt := toSize_pos (by omega) (by omega)
  generalize hk : toSize (min max cfg.maxCnt) = k at *
  have hc := h.count (by omega)
  refine ⟨by omega, ?_, ?_, ?_⟩
  · intro hne
    have := h.bytesLt h3 hne
    omega
  · intro hm
    obtain ⟨a, b⟩ := h.full hm
    exact ⟨a, by rcases b with b | b; left; omega; right; omega⟩
  · intro hm hne
    obtain ⟨a, b⟩ := h.stops hm hne
    exact ⟨by omega, by omega⟩

/-- C68 (partial), page sizes: when the client asks for a positive number of pairs,
every page has at most that number and at most the server's limit, exceeds the byte
limit by at most its last pair, stops early only at the end of the listing, and
says 'more' exactly when it stopped at a limit.  Missing: requests with a negative
number of pairs (`C68_cap_false`). -/
theorem C68_page_partial (cfg : Cfg) (st0 : Store) (evs : List Ev) (hw : WFStore st0)
    (hd : ∀ st, .data st ∈ evs → WFStore st) {i o : Nat} {id : Bytes} {max : Int} {kvs : List KV} {more : Bool}
    (hx : .page i o id max kvs more ∈ (run cfg (State.init st0) evs).2)
    (h1 : 0 < max) (h2 : 0 < cfg.maxCnt) (h3 : 0 < cfg.maxBytes) (h4 : max < 9223372036854775808) :
    Limits (min max cfg.maxCnt) cfg.maxBytes kvs more := by
  have hev : ∀ e ∈ evs, okData (fun _ => True) e := by
    intro e he
    cases e with
    | data st => exact ⟨hd st he, fun _ _ => trivial⟩
    | _ => trivial
  clear hd
  have key : ∀ s outs e, (GInv (fun _ => True) s ∧
      (.page i o id max kvs more ∈ outs → Limits (min max cfg.maxCnt) cfg.maxBytes kvs more)) →
      okData (fun _ => True) e → (GInv (fun _ => True) (step cfg s e).1 ∧
      (.page i o id max kvs more ∈ outs ++ (step cfg s e).2 → Limits (min max cfg.maxCnt) cfg.maxBytes kvs more)) := by
    rintro s outs e ⟨hg, hp⟩ hok
    refine ⟨hg.step e hok, fun hm => ?_⟩
    rcases List.mem_append.1 hm with hm | hm
    · exact hp hm
    · rcases step_outs hm with ⟨_, _, _, _, _, _, _, _, _, _, _, _, _, _, _, _, h5, _⟩ |
          ⟨i', t1, t1', b', o', id', m, c, c', kvs', more', _, _, _, h6, h7, h5, _⟩ |
          ⟨_, _, _, _, _, _, _, _, h5⟩ | h5
      · cases h5
      · cases h5
        obtain ⟨_, _, _, hst, it, it', hit, hgk, _⟩ := scanContinue_ok h7
        obtain ⟨it0, e0, ⟨rem, ha⟩, _⟩ := hg.its o c h6 hst
        rw [hit] at e0; cases e0
        exact limits_of (getKeyValue_ok ha hgk) h1 h2 h3 h4
      · cases h5
      · exfalso
        simp only [reduceCtorEq, or_false, exists_false] at h5
  exact (run_ind (P := fun s outs => GInv (fun _ => True) s ∧
    (.page i o id max kvs more ∈ outs → Limits (min max cfg.maxCnt) cfg.maxBytes kvs more))
    ⟨GInv.init ⟨hw, fun _ _ => trivial⟩, fun h => by cases h⟩ key evs hev).2 hx

/-- C68, the first page: Begin with a positive number of pairs obeys the same
limits; with zero or less it returns no pairs. -/
theorem C68_first_page (cfg : Cfg) (st0 : Store) (evs : List Ev) (hw : WFStore st0)
    (hd : ∀ st, .data st ∈ evs → WFStore st) {i o : Nat} {id : Bytes} {r : BeginReq} {kvs : List KV}
    (hx : .begun i o id r kvs ∈ (run cfg (State.init st0) evs).2) :
    (r.max ≤ 0 → kvs = []) ∧
    (0 < r.max → 0 < cfg.maxCnt → 0 < cfg.maxBytes → r.max < 9223372036854775808 →
      ∃ more, Limits (min r.max cfg.maxCnt) cfg.maxBytes kvs more) := by
  have hev : ∀ e ∈ evs, okData (fun _ => True) e := by
    intro e he
    cases e with
    | data st => exact ⟨hd st he, fun _ _ => trivial⟩
    | _ => trivial
  clear hd
  have key : ∀ s outs e, (GInv (fun _ => True) s ∧
      (.begun i o id r kvs ∈ outs → (r.max ≤ 0 → kvs = []) ∧
        (0 < r.max → 0 < cfg.maxCnt → 0 < cfg.maxBytes → r.max < 9223372036854775808 →
          ∃ more, Limits (min r.max cfg.maxCnt) cfg.maxBytes kvs more))) →
      okData (fun _ => True) e → (GInv (fun _ => True) (step cfg s e).1 ∧
      (.begun i o id r kvs ∈ outs ++ (step cfg s e).2 → (r.max ≤ 0 → kvs = []) ∧
        (0 < r.max → 0 < cfg.maxCnt → 0 < cfg.maxBytes → r.max < 9223372036854775808 →
          ∃ more, Limits (min r.max cfg.maxCnt) cfg.maxBytes kvs more))) := by
    rintro s outs e ⟨hg, hp⟩ hok
    refine ⟨hg.step e hok, fun hm => ?_⟩
    rcases List.mem_append.1 hm with hm | hm
    · exact hp hm
    · rcases step_outs hm with ⟨i', t1, t1', b', o', id', r', c, c', kvs', more', _, _, _, h6, h7, h5, _⟩ |
          ⟨_, _, _, _, _, _, _, _, _, _, _, _, _, _, _, _, h5, _⟩ |
          ⟨_, _, _, _, _, _, _, _, h5⟩ | h5
      · cases h5
        obtain ⟨_, _, _, _, it, it', hseek, hpg, _⟩ := scanBegin_ok h7
        refine ⟨fun h0 => ?_, fun a1 a2 a3 a4 => ?_⟩
        · rw [if_neg (by omega)] at hpg; exact hpg.1
        · rw [if_pos (by omega)] at hpg
          obtain ⟨⟨rem, ha⟩, _⟩ := itOk_seek hg.store hseek
          exact ⟨more', limits_of (getKeyValue_ok ha hpg) a1 a2 a3 a4⟩
      · cases h5
      · cases h5
      · exfalso
        simp only [reduceCtorEq, or_false, exists_false] at h5
  exact (run_ind (P := fun s outs => GInv (fun _ => True) s ∧
    (.begun i o id r kvs ∈ outs → (r.max ≤ 0 → kvs = []) ∧
        (0 < r.max → 0 < cfg.maxCnt → 0 < cfg.maxBytes → r.max < 9223372036854775808 →
          ∃ more, Limits (min r.max cfg.maxCnt) cfg.maxBytes kvs more)))
    ⟨GInv.init ⟨hw, fun _ _ => trivial⟩, fun h => by cases h⟩ key evs hev).2 hx

theorem crash_dead {cfg : Cfg} {s : State} {e : Ev} (h : .crash ∈ (step cfg s e).2) : (step cfg s e).1.dead = true := by
  by_cases hd : s.dead = true
  · rw [show step cfg s e = (s, []) by unfold step; rw [if_pos hd]] at h; cases h
  have ne : ∀ (r : BeginReq) (l : Bool) (out : Out), beginCheck r l s.ths.length = some out →
      .crash ∈ [out] → False := by
    intro r l out hb hm
    rcases beginCheck_quiet hb with ⟨e, rfl⟩ | rfl <;> simp at hm
  cases e with
  | go i t t' b =>
    simp only [step, if_neg hd] at h ⊢
    cases hi : s.ths[i]? with
    | none => rw [hi] at h; cases h
    | some pc =>
      rw [hi] at h
      simp only at h ⊢
      cases pc <;> simp only [goStep] at h ⊢
      case drop => simp at h
      case done => simp at h
      all_goals split at h
      all_goals try (simp at h; done)
      all_goals first
        | (split at h <;> first | (simp at h; done) | skip)
        | skip
      all_goals first
        | rfl
        | (split at h <;> simp at h)
  | data st => simp only [step, if_neg hd] at h; cases h
  | clean now busy => simp only [step, if_neg hd] at h; cases h
  | beginV1 guids r now leader =>
    simp only [step, if_neg hd] at h
    cases hb : beginCheck r leader s.ths.length with
    | some out => rw [hb] at h; exact (ne _ _ _ hb h).elim
    | none => rw [hb] at h; simp only at h; split at h <;> simp at h
  | beginV2 id r now leader =>
    simp only [step, if_neg hd] at h
    cases hb : beginCheck r leader s.ths.length with
    | some out => rw [hb] at h; exact (ne _ _ _ hb h).elim
    | none => rw [hb] at h; simp only at h; split at h <;> simp at h
  | cont id m =>
    simp only [step, if_neg hd] at h
    (repeat' split at h) <;> simp at h
  | release id =>
    simp only [step, if_neg hd] at h
    (repeat' split at h) <;> simp at h

/-- C68: as long as the data holds no empty value with a TTL, no request aborts the
process. -/
theorem C68_no_crash (cfg : Cfg) (st0 : Store) (evs : List Ev) (hw : WFStore st0) (hn : NoEmptyTTL st0)
    (hd : ∀ st, .data st ∈ evs → WFStore st ∧ NoEmptyTTL st) :
    .crash ∉ (run cfg (State.init st0) evs).2 ∧ (run cfg (State.init st0) evs).1.dead = false := by
  have hev : ∀ e ∈ evs, okData NE e := by
    intro e he
    cases e with
    | data st => exact hd st he
    | _ => trivial
  have := run_ind (cfg := cfg) (P := fun s outs => GInv NE s ∧ .crash ∉ outs ∧ s.dead = false) (s0 := State.init st0)
    ⟨GInv.init ⟨hw, hn⟩, (by simp), rfl⟩ (ok := okData NE) (by
      rintro s outs e ⟨hg, hc, hd⟩ he
      have h1 := step_dead (cfg := cfg) hg hd e
      refine ⟨hg.step e he, ?_, h1⟩
      intro hm
      rcases List.mem_append.1 hm with hm | hm
      · exact hc hm
      · rw [crash_dead hm] at h1; cases h1) evs hev
  exact this.2

/-- A Begin the checks accept. -/
def Acceptable (r : BeginReq) : Prop :=
  0 ≤ r.ts ∧ r.start ≠ [] ∧ r.stop ≠ [] ∧ r.start < r.stop

theorem beginCheck_ok {r : BeginReq} (h : Acceptable r) (n : Nat) : beginCheck r true n = none := by
  obtain ⟨h1, h2, h3, h4⟩ := h
  unfold beginCheck
  rw [if_neg (by omega), if_neg (by rintro (e | e); exact h2 e; exact h3 e), if_neg (by simpa using h4),
    if_neg (by simp)]

/-- C68: Begin on the leader with a range, a timestamp that is not negative and an
id not in use is answered with a session (or the process aborts on an empty TTL
value), whatever else is in flight. -/
theorem C68_begin (cfg : Cfg) (st0 : Store) (evs : List Ev) (id : Bytes) (r : BeginReq) (now t1 t1' t t' : Int)
    (b1 b : Bool) (hid : id ≠ []) (hr : Acceptable r)
    (hd : (run cfg (State.init st0) evs).1.dead = false)
    (hf : find (run cfg (State.init st0) evs).1.map id = none) :
    let s := (run cfg (State.init st0) evs).1
    let n := s.ths.length
    (∃ kvs, (run cfg s [.beginV2 id r now true, .go n t1 t1' b1, .go n t t' b]).2 =
        [.begun n s.objs.length id r kvs]) ∨
    (run cfg s [.beginV2 id r now true, .go n t1 t1' b1, .go n t t' b]).2 = [.crash] := by
  intro s n
  have hd' : ¬ s.dead = true := by rw [show s.dead = false from hd]; simp
  have e1 : step cfg s (.beginV2 id r now true) = (create s id r now, []) := by
    simp only [step, if_neg hd', beginCheck_ok hr, show find s.map id = none from hf]
  have hth : (create s id r now).ths[n]? = some (.opening s.objs.length id r) := by
    simp only [create]
    rw [List.getElem?_append_right (Nat.le_refl _)]; simp
  have hob : (create s id r now).objs[s.objs.length]? = some { last := now } := by
    simp only [create]
    rw [List.getElem?_append_right (Nat.le_refl _)]; simp
  have ho : openCtx { last := now } id r.ts =
      ({ last := now, st := .opened, id := id, ts := r.ts }, none) := by
    unfold openCtx
    rw [if_neg hid, if_neg (by simp)]
  generalize hs1 : create s id r now = s1 at *
  have hd1 : ¬ s1.dead = true := by rw [← hs1]; exact hd'
  have e2 : step cfg s1 (.go n t1 t1' b1) =
      ({ s1 with objs := s1.objs.set s.objs.length { last := now, st := .opened, id := id, ts := r.ts },
                 ths := s1.ths.set n (.begin s.objs.length id r) }, []) := by
    simp only [step, if_neg hd1, hth, goStep, hob, ho]
  have hl := (List.getElem?_eq_some_iff.1 hob).1
  have hl2 := (List.getElem?_eq_some_iff.1 hth).1
  simp only [run, e1, e2, List.nil_append, List.append_nil]
  simp only [step, if_neg hd1, List.getElem?_set_self hl2, goStep, List.getElem?_set_self hl]
  obtain ⟨_, h2, h3, h4⟩ := hr
  cases hb : scanBegin cfg s1.store t t' { last := now, st := .opened, id := id, ts := r.ts } r with
  | mk c' out =>
    cases out with
    | ok kvs more => exact Or.inl ⟨kvs, rfl⟩
    | crash => exact Or.inr rfl
    | err x =>
      exfalso
      unfold scanBegin at hb
      rw [if_neg (by rintro (e | e); exact h2 e; exact h3 e), if_neg (by simpa using h4),
        if_neg (by simp)] at hb
      simp only at hb
      repeat' (split at hb)
      all_goals cases hb

/-- C68: Begin is refused for a negative timestamp, an empty bound, a store that is
not the leader or an id in use, gets an empty answer for an inverted range, and
changes no session then. -/
theorem C68_begin_refused (cfg : Cfg) (s : State) (id : Bytes) (r : BeginReq) (now : Int) (leader : Bool)
    (hd : s.dead = false) :
    let x := step cfg s (.beginV2 id r now leader)
    (r.ts < 0 → x.2 = [.refused s.ths.length .illegal]) ∧
    (0 ≤ r.ts → r.start = [] ∨ r.stop = [] → x.2 = [.refused s.ths.length .illegal]) ∧
    (0 ≤ r.ts → r.start ≠ [] → r.stop ≠ [] → ¬ r.start < r.stop → x.2 = [.nothing s.ths.length]) ∧
    (Acceptable r → leader = false → x.2 = [.refused s.ths.length .notLeader]) ∧
    (Acceptable r → leader = true → (∃ o, (id, o) ∈ s.map) → x.2 = [.refused s.ths.length .illegal]) ∧
    (x.2 ≠ [] → x.1.map = s.map ∧ x.1.objs = s.objs) := by
  intro x
  have hd' : ¬ s.dead = true := by rw [hd]; simp
  refine ⟨?_, ?_, ?_, ?_, ?_, ?_⟩
  · intro h
    simp only [x, step, if_neg hd', beginCheck, if_pos h]
  · intro h1 h2
    simp only [x, step, if_neg hd', beginCheck, if_neg (show ¬ r.ts < 0 by omega), if_pos h2]
  · intro h1 h2 h3 h4
    simp only [x, step, if_neg hd', beginCheck, if_neg (show ¬ r.ts < 0 by omega),
      if_neg (show ¬ (r.start = [] ∨ r.stop = []) from fun h => h.elim h2 h3), if_pos h4]
  · rintro ⟨h1, h2, h3, h4⟩ h5
    simp only [x, step, if_neg hd', beginCheck, if_neg (show ¬ r.ts < 0 by omega),
      if_neg (show ¬ (r.start = [] ∨ r.stop = []) from fun h => h.elim h2 h3),
      if_neg (show ¬ ¬ r.start < r.stop from fun h => h h4), if_pos h5]
  · rintro hr rfl ⟨o, ho⟩
    cases hf : find s.map id with
    | none => exact absurd ho (find_none hf o)
    | some o' => simp only [x, step, if_neg hd', beginCheck_ok hr, hf]
  · simp only [x, step, if_neg hd']
    split
    · exact fun _ => ⟨rfl, rfl⟩
    · split
      · exact fun _ => ⟨rfl, rfl⟩
      · intro h; exact absurd rfl h

end Verif.Scan
