import Verif.Scan.Props

/-! # Scan sessions: how long they live (C69) -/

namespace Verif.Scan
open Verif.Codec Verif.Mvcc

/-- A Begin that will use `id`, on the leader. -/
def BeginsWith (e : Ev) (id : Bytes) (r : BeginReq) (now : Int) : Prop :=
  e = .beginV2 id r now true ∨ ∃ gs, e = .beginV1 (id :: gs) r now true

theorem begins_create {cfg : Cfg} {s : State} {e : Ev} {id : Bytes} {r : BeginReq} {now : Int}
    (he : BeginsWith e id r now) (hid : id ≠ []) (hr : Acceptable r) (hd : s.dead = false)
    (hf : find s.map id = none) : step cfg s e = (create s id r now, []) := by
  have hd' : ¬ s.dead = true := by rw [hd]; simp
  rcases he with rfl | ⟨gs, rfl⟩
  · simp only [step, if_neg hd', beginCheck_ok hr, hf]
  · have : (id :: gs).find? (fun g => decide (g ≠ [] ∧ find s.map g = none)) = some id := by
      rw [List.find?_cons_of_pos]
      simpa using ⟨hid, hf⟩
    simp only [step, if_neg hd', beginCheck_ok hr, this]

/-- The session is in use after Begin and any later requests but Release. -/
theorem in_use {cfg : Cfg} {st0 : Store} {evs0 evs1 evs2 : List Ev} {e : Ev} {id : Bytes} {r : BeginReq} {now : Int}
    {t t' : Int} {b : Bool} {kvs : List KV} {s0 s2 s3 : State} (h0 : (run cfg (State.init st0) evs0).1 = s0)
    (he : BeginsWith e id r now) (hid : id ≠ []) (hr : Acceptable r) (hd : s0.dead = false)
    (hf : find s0.map id = none) (hq : ∀ pc ∈ s0.ths, pc.id? ≠ some id)
    (hok1 : okRun cfg (beginning cfg id s0.objs.length) (step cfg s0 e).1 evs1)
    (h2 : (run cfg (step cfg s0 e).1 evs1).1 = s2)
    (hb : .begun s0.ths.length s0.objs.length id r kvs ∈ (step cfg s2 (.go s0.ths.length t t' b)).2)
    (h3 : (step cfg s2 (.go s0.ths.length t t' b)).1 = s3)
    (hok2 : okRun cfg (using_ cfg id s0.objs.length) s3 evs2) (hd4 : (run cfg s3 evs2).1.dead = false) :
    P3 r.noAuto id s0.objs.length (run cfg s3 evs2).1 ∧ MInv (run cfg s3 evs2).1 := by
  have hm0 : MInv s0 := h0 ▸ MInv.run cfg st0 evs0
  have hm1 : MInv (step cfg s0 e).1 := hm0.step e
  have hp1 : P1 s0.ths.length id s0.objs.length r (step cfg s0 e).1 := by
    rw [begins_create he hid hr hd hf]
    exact P1.create hm0 (fun j pc hj => hq pc (List.mem_of_getElem? hj))
  have hm2 : MInv s2 := h2 ▸ hm1.runFrom evs1
  have hph := run_phase (cfg := cfg) hid hr.2 evs1 hm1 (Or.inl hp1) hok1
  rw [h2] at hph
  have hm3 : MInv s3 := h3 ▸ hm2.step _
  obtain ⟨c, c', more, hth, hobj, hsb, hst⟩ := begun_at hb
  have hnd : s2.dead = false := by
    cases hdd : s2.dead with
    | false => rfl
    | true =>
      rw [show step cfg s2 (.go s0.ths.length t t' b) = (s2, []) by unfold step; rw [if_pos hdd]] at hb
      cases hb
  have hp3 : P3 r.noAuto id s0.objs.length s3 := by
    rcases hph with h | h | h | h
    · have := (h.th _ _ hth (Or.inl rfl)).2
      cases this
    · rcases h.step (cfg := cfg) hr.2 hm2 (.go s0.ths.length t t' b) trivial with a | a | a
      · rw [hst] at a
        obtain ⟨c1, e1, e2, _⟩ := a.obj
        have hl := (List.getElem?_eq_some_iff.1 hobj).1
        simp only [List.getElem?_set_self hl] at e1
        cases e1
        obtain ⟨_, _, _, _, it, it', _, _, hc'⟩ := scanBegin_ok hsb
        rw [hc'] at e2; cases e2
      · rw [h3] at a; exact a
      · rw [hst] at a
        simp only at a
        rw [hnd] at a; cases a
    · obtain ⟨m, _, hc⟩ := h.th _ _ hth (Or.inl rfl)
      cases hc
    · rw [hnd] at h; cases h
  refine ⟨?_, hm3.runFrom evs2⟩
  rcases run_using (cfg := cfg) hid evs2 hm3 (Or.inl hp3) hok2 with a | a
  · exact a
  · rw [hd4] at a; cases a

/-- C69 (partial): a session that began under an id nobody else was using goes on
answering Continue with pages until it is released, as long as the cleaner never
finds it idle for the timeout: other sessions, requests naming other ids, writes,
splits and concurrent Continue requests on the session itself do not end it.  The
client must not name the id again before Begin was answered, nor have an unanswered
request naming it from before (`C69_early_false`, `C69_reuse_false`). -/
theorem C69_survives_partial {cfg : Cfg} {st0 : Store} {evs0 evs1 evs2 : List Ev} {e : Ev} {id : Bytes}
    {r : BeginReq} {now : Int}
    {t t' : Int} {b : Bool} {kvs : List KV} {s0 s2 s3 s4 : State} (h0 : (run cfg (State.init st0) evs0).1 = s0)
    (he : BeginsWith e id r now) (hid : id ≠ []) (hr : Acceptable r) (hd : s0.dead = false)
    (hf : find s0.map id = none) (hq : ∀ pc ∈ s0.ths, pc.id? ≠ some id)
    (hok1 : okRun cfg (beginning cfg id s0.objs.length) (step cfg s0 e).1 evs1)
    (h2 : (run cfg (step cfg s0 e).1 evs1).1 = s2)
    (hb : .begun s0.ths.length s0.objs.length id r kvs ∈ (step cfg s2 (.go s0.ths.length t t' b)).2)
    (h3 : (step cfg s2 (.go s0.ths.length t t' b)).1 = s3)
    (hok2 : okRun cfg (using_ cfg id s0.objs.length) s3 evs2) (h4 : (run cfg s3 evs2).1 = s4)
    (hd4 : s4.dead = false) {m : Int} (hm : m ≠ 0) (u u' : Int) (b' : Bool) :
    (∃ kvs more, (run cfg s4 [.cont id m, .go s4.ths.length u u' b']).2 =
      [.page s4.ths.length s0.objs.length id m kvs more]) ∨
    (run cfg s4 [.cont id m, .go s4.ths.length u u' b']).2 = [.crash] := by
  subst h4
  obtain ⟨hp, hmi⟩ := in_use h0 he hid hr hd hf hq hok1 h2 hb h3 hok2 hd4
  generalize (run cfg s3 evs2).1 = s at *
  obtain ⟨e1, hp'⟩ := hp.cont (cfg := cfg) hid hmi hd4 hm
  have hth : (step cfg s (.cont id m)).1.ths[s.ths.length]? = some (.cont s0.objs.length id m) := by
    rw [e1]
    simp only
    rw [List.getElem?_append_right (Nat.le_refl _)]; simp
  have hd5 : (step cfg s (.cont id m)).1.dead = false := by rw [e1]; exact hd4
  have hrun : (run cfg s [.cont id m, .go s.ths.length u u' b']).2 =
      (step cfg (step cfg s (.cont id m)).1 (.go s.ths.length u u' b')).2 := by
    simp only [run, List.append_nil]
    rw [e1]; rfl
  rw [hrun]
  rcases hp'.go (cfg := cfg) hid hd5 hm hth u u' b' with ⟨_, a⟩ | ⟨_, a⟩
  · exact Or.inl a
  · exact Or.inr a

/-- C69 (partial), release: in the same situation Release is answered OK; unless the
client asked to release by itself, the id is free at once and Continue no longer
finds a session. -/
theorem C69_release_partial {cfg : Cfg} {st0 : Store} {evs0 evs1 evs2 : List Ev} {e : Ev} {id : Bytes}
    {r : BeginReq} {now : Int}
    {t t' : Int} {b : Bool} {kvs : List KV} {s0 s2 s3 s4 : State} (h0 : (run cfg (State.init st0) evs0).1 = s0)
    (he : BeginsWith e id r now) (hid : id ≠ []) (hr : Acceptable r) (hd : s0.dead = false)
    (hf : find s0.map id = none) (hq : ∀ pc ∈ s0.ths, pc.id? ≠ some id)
    (hok1 : okRun cfg (beginning cfg id s0.objs.length) (step cfg s0 e).1 evs1)
    (h2 : (run cfg (step cfg s0 e).1 evs1).1 = s2)
    (hb : .begun s0.ths.length s0.objs.length id r kvs ∈ (step cfg s2 (.go s0.ths.length t t' b)).2)
    (h3 : (step cfg s2 (.go s0.ths.length t t' b)).1 = s3)
    (hok2 : okRun cfg (using_ cfg id s0.objs.length) s3 evs2) (h4 : (run cfg s3 evs2).1 = s4)
    (hd4 : s4.dead = false) (u u' w w' : Int) (b1 : Bool) (m : Int) (hm : m ≠ 0) :
    let n := s4.ths.length
    let x := run cfg s4 [.release id, .go n u u' b1, .go n w w' false]
    x.2 = [.released n s0.objs.length id] ∧
    (r.noAuto = false → (∀ o, (id, o) ∉ x.1.map) ∧
      (step cfg x.1 (.cont id m)).2 = [.refused (n + 1) .notFound]) ∧
    (r.noAuto = true → w - u' < cfg.timeout → (id, s0.objs.length) ∈ x.1.map) := by
  subst h4
  obtain ⟨hp, hmi⟩ := in_use h0 he hid hr hd hf hq hok1 h2 hb h3 hok2 hd4
  generalize (run cfg s3 evs2).1 = s at *
  intro n
  obtain ⟨c, hc, hst, hci, hit, hna⟩ := hp.obj
  have hl := (List.getElem?_eq_some_iff.1 hc).1
  have hd' : ¬ s.dead = true := by rw [hd4]; simp
  have hfind := find_of_mem hmi.nodup hp.mem
  have e1 : step cfg s (.release id) = ({ s with ths := s.ths ++ [.rel s0.objs.length id] }, []) := by
    simp only [step, if_neg hd', if_neg hid, hfind]
  have hth : (s.ths ++ [Pc.rel s0.objs.length id])[n]? = some (.rel s0.objs.length id) := by
    rw [List.getElem?_append_right (Nat.le_refl _)]; simp [n]
  have hl2 := (List.getElem?_eq_some_iff.1 hth).1
  have hnot : ¬ (id = [] ∨ id ≠ c.id) := by rintro (x | x); exact hid x; exact x hci.symm
  have hnot2 : ¬ (c.st ≠ .begun ∧ c.st ≠ .continued) := by
    rintro ⟨x, y⟩; rcases hst with z | z; exact x z; exact y z
  cases hr2 : r.noAuto with
  | false =>
    rw [hr2] at hna
    have hsr : scanRelease u' c id = ({ c with st := .recycle }, .ok [] false) := by
      unfold scanRelease
      rw [if_neg hnot, if_neg hnot2, if_pos hna]
    have e2 : step cfg ⟨s.store, s.objs, s.map, s.ths ++ [Pc.rel s0.objs.length id], s.dead⟩ (.go n u u' b1) =
        (⟨s.store, s.objs.set s0.objs.length { c with st := .recycle }, s.map,
          (s.ths ++ [Pc.rel s0.objs.length id]).set n (Pc.tryDel s0.objs.length id), s.dead⟩, []) := by
      simp only [step, if_neg hd', hth, goStep, hc, hsr]
    have hrec : ∀ w, isRecyclable cfg w { c with st := .recycle } = ({ c with st := .recycle }, true) := by
      intro w; unfold isRecyclable; rw [if_pos (Or.inl rfl)]
    have e3 : step cfg ⟨s.store, s.objs.set s0.objs.length { c with st := .recycle }, s.map,
          (s.ths ++ [Pc.rel s0.objs.length id]).set n (Pc.tryDel s0.objs.length id), s.dead⟩ (.go n w w' false) =
        (⟨s.store, (s.objs.set s0.objs.length { c with st := .recycle }).set s0.objs.length { c with st := .recycle },
          erase s.map id,
          ((s.ths ++ [Pc.rel s0.objs.length id]).set n (Pc.tryDel s0.objs.length id)).set n Pc.done, s.dead⟩,
          [.released n s0.objs.length id]) := by
      simp only [step, if_neg hd', List.getElem?_set_self hl2, goStep, hfind, Bool.false_eq_true, if_false,
        List.getElem?_set_self hl, hrec, if_true]
    have hrun : run cfg s [.release id, .go n u u' b1, .go n w w' false] =
        (⟨s.store, (s.objs.set s0.objs.length { c with st := .recycle }).set s0.objs.length { c with st := .recycle },
          erase s.map id,
          ((s.ths ++ [Pc.rel s0.objs.length id]).set n (Pc.tryDel s0.objs.length id)).set n Pc.done, s.dead⟩,
          [.released n s0.objs.length id]) := by
      simp only [run, e1, e2, e3, List.nil_append, List.append_nil]
    simp only [hrun]
    have hno : ∀ o, (id, o) ∉ erase s.map id := fun o h => (mem_erase.1 h).2 rfl
    refine ⟨trivial, fun _ => ⟨hno, ?_⟩, nofun⟩
    have hfn : find (erase s.map id) id = none := by
      cases hx : find (erase s.map id) id with
      | none => rfl
      | some o => exact absurd (mem_of_find hx) (hno o)
    simp only [step, if_neg hd', if_neg hid, if_neg hm, hfn, List.length_set, List.length_append,
      List.length_singleton, n]
  | true =>
    rw [hr2] at hna
    have hsr : scanRelease u' c id = ({ c with st := .released, last := u' }, .ok [] false) := by
      unfold scanRelease
      rw [if_neg hnot, if_neg hnot2, if_neg (by rw [hna]; simp)]
    have e2 : step cfg ⟨s.store, s.objs, s.map, s.ths ++ [Pc.rel s0.objs.length id], s.dead⟩ (.go n u u' b1) =
        (⟨s.store, s.objs.set s0.objs.length { c with st := .released, last := u' }, s.map,
          (s.ths ++ [Pc.rel s0.objs.length id]).set n (Pc.tryDel s0.objs.length id), s.dead⟩, []) := by
      simp only [step, if_neg hd', hth, goStep, hc, hsr]
    have e3 : step cfg ⟨s.store, s.objs.set s0.objs.length { c with st := .released, last := u' }, s.map,
          (s.ths ++ [Pc.rel s0.objs.length id]).set n (Pc.tryDel s0.objs.length id), s.dead⟩ (.go n w w' false) =
        (⟨s.store, (s.objs.set s0.objs.length { c with st := .released, last := u' }).set s0.objs.length
            (isRecyclable cfg w { c with st := .released, last := u' }).1,
          if (isRecyclable cfg w { c with st := .released, last := u' }).2 then erase s.map id else s.map,
          ((s.ths ++ [Pc.rel s0.objs.length id]).set n (Pc.tryDel s0.objs.length id)).set n Pc.done, s.dead⟩,
          [.released n s0.objs.length id]) := by
      simp only [step, if_neg hd', List.getElem?_set_self hl2, goStep, hfind, Bool.false_eq_true, if_false,
        List.getElem?_set_self hl]
    simp only [run, e1, e2, e3, List.nil_append, List.append_nil]
    refine ⟨trivial, nofun, fun _ ht => ?_⟩
    have hnr : isRecyclable cfg w { c with st := .released, last := u' } = ({ c with st := .released, last := u' }, false) :=
      not_recyclable ht (by simp)
    rw [hnr]
    exact hp.mem

/-- C69: a session that was released hands out nothing more. -/
theorem C69_released (cfg : Cfg) (st0 : Store) (evs1 evs2 : List Ev) {i o : Nat} {id : Bytes}
    (h : .released i o id ∈ (run cfg (State.init st0) evs1).2) :
    ∀ x ∈ (run cfg (run cfg (State.init st0) evs1).1 evs2).2, x.isPage o = false ∧ x.isBegun o = false := by
  have key : ∃ c, (run cfg (State.init st0) evs1).1.objs[o]? = some c ∧ Final c := by
    have := run_ind (cfg := cfg) (s0 := State.init st0) (ok := fun _ => True)
      (P := fun s outs => FInv s ∧ (.released i o id ∈ outs → ∃ c, s.objs[o]? = some c ∧ Final c))
      ⟨FInv.init st0, fun h => by cases h⟩ (by
        rintro s outs e ⟨hf, hp⟩ _
        refine ⟨hf.step e, fun hm => ?_⟩
        have keep : (∃ c, s.objs[o]? = some c ∧ Final c) → ∃ c, (step cfg s e).1.objs[o]? = some c ∧ Final c := by
          rintro ⟨c, hc, hfc⟩
          obtain ⟨c', e1, m⟩ := step_obj cfg s e o c hc
          exact ⟨c', e1, (m.final hfc).1⟩
        rcases List.mem_append.1 hm with hm | hm
        · exact keep (hp hm)
        · rcases step_outs hm with ⟨_, _, _, _, _, _, _, _, _, _, _, _, _, _, _, _, h5, _⟩ |
              ⟨_, _, _, _, _, _, _, _, _, _, _, _, _, _, _, _, h5, _⟩ |
              ⟨i', _, _, _, o', id', _, h6, h5⟩ | h5
          · cases h5
          · cases h5
          · cases h5; exact keep (hf.del i o id h6)
          · exfalso
            simp only [reduceCtorEq, or_false, exists_false] at h5) evs1 (fun _ _ => trivial)
    exact this.2 h
  exact (run_final evs2 key).1

/-- C69: every page belongs to one session with one id: whatever the interleaving,
two responses of the same session object carry the same id. -/
theorem C69_one_id (cfg : Cfg) (st0 : Store) (evs : List Ev) {o : Nat} {x y : Out} {id id' : Bytes}
    (hx : x ∈ (run cfg (State.init st0) evs).2) (hy : y ∈ (run cfg (State.init st0) evs).2)
    (h1 : x.tag o = some id) (h2 : y.tag o = some id') : id = id' := by
  have h := RInv.run cfg st0 evs
  obtain ⟨c, hc, e1, _⟩ := h.tags x hx o id h1
  obtain ⟨c', hc', e2, _⟩ := h.tags y hy o id' h2
  rw [hc] at hc'; cases hc'
  rw [← e1, ← e2]

/-- C69: a session is begun once, and no page precedes that. -/
theorem C69_begun_first (cfg : Cfg) (st0 : Store) (evs : List Ev) (e : Ev) {x : Out} {o : Nat}
    (hx : x ∈ (step cfg (run cfg (State.init st0) evs).1 e).2) :
    (x.isBegun o = true → ∀ y ∈ (run cfg (State.init st0) evs).2, y.isPage o = false ∧ y.isBegun o = false) ∧
    (x.isPage o = true → ∃ y ∈ (run cfg (State.init st0) evs).2, y.isBegun o = true) := by
  have hR := RInv.run cfg st0 evs
  have hB := BInv.run cfg st0 evs
  refine ⟨fun hb => ?_, fun hp => ?_⟩
  · rcases step_outs hx with ⟨i, t, t', b, o', id, r, c, c', kvs, more, _, _, _, h6, h7, h5, _⟩ |
        ⟨_, _, _, _, _, _, _, _, _, _, _, _, _, _, _, _, h5, _⟩ | ⟨_, _, _, _, _, _, _, _, h5⟩ |
        ⟨_, _, h5⟩ | ⟨_, h5⟩ | h5
    · subst h5
      have : o' = o := by simpa [Out.isBegun] using hb
      subst this
      exact hR.fresh o' (fun c0 h0 => by rw [h6] at h0; cases h0; exact Or.inr (scanBegin_ok h7).1)
    all_goals (subst h5; cases hb)
  · rcases step_outs hx with ⟨_, _, _, _, _, _, _, _, _, _, _, _, _, _, _, _, h5, _⟩ |
        ⟨i, t, t', b, o', id, m, c, c', kvs, more, _, _, _, h6, h7, h5, _⟩ | ⟨_, _, _, _, _, _, _, _, h5⟩ |
        ⟨_, _, h5⟩ | ⟨_, h5⟩ | h5
    · subst h5; cases hp
    · subst h5
      have : o' = o := by simpa [Out.isPage] using hp
      subst this
      obtain ⟨_, _, _, hst, _⟩ := scanContinue_ok h7
      exact hB.begun o' c h6 hst
    all_goals (subst h5; cases hp)

/-- C69: at any time an id names at most one session, and a session has one id. -/
theorem C69_registry (cfg : Cfg) (st0 : Store) (evs : List Ev) :
    let s := (run cfg (State.init st0) evs).1
    (∀ id o o', (id, o) ∈ s.map → (id, o') ∈ s.map → o = o') ∧
    (∀ id id' o, (id, o) ∈ s.map → (id', o) ∈ s.map → id = id') := by
  intro s
  have h := MInv.run cfg st0 evs
  refine ⟨fun id o o' h1 h2 => ?_, fun id id' o h1 h2 => h.uniq id id' o h1 h2⟩
  have a := find_of_mem h.nodup h1
  rw [find_of_mem h.nodup h2] at a
  cases a; rfl

/-- C69: one pass of the cleaner ends exactly the sessions nobody is using at the
moment that are finished or were idle for the timeout. -/
theorem C69_clean_exact (cfg : Cfg) (st0 : Store) (evs : List Ev) (now : Int) (busy : List Nat)
    (hd : (run cfg (State.init st0) evs).1.dead = false) (id : Bytes) (o : Nat) :
    let s := (run cfg (State.init st0) evs).1
    (id, o) ∈ (step cfg s (.clean now busy)).1.map ↔
      (id, o) ∈ s.map ∧ (o ∈ busy ∨ ∃ c, s.objs[o]? = some c ∧ now - c.last < cfg.timeout ∧
        c.st ∉ [SState.recycle, .error, .begunTimeout, .continuedTimeout, .releasedTimeout]) := by
  intro s
  have hm := MInv.run cfg st0 evs
  have hd' : ¬ s.dead = true := by rw [show s.dead = false from hd]; simp
  simp only [step, if_neg hd']
  constructor
  · intro h
    have h1 := (cleanMap_sub ..).subset h
    refine ⟨h1, ?_⟩
    by_cases hb : o ∈ busy
    · exact Or.inl hb
    · right
      have hl := hm.lt id o h1
      have hc : s.objs[o]? = some s.objs[o] := List.getElem?_eq_getElem hl
      refine ⟨s.objs[o], hc, ?_⟩
      have hr : (isRecyclable cfg now s.objs[o]).2 = false := by
        cases hx : (isRecyclable cfg now s.objs[o]).2 with
        | false => rfl
        | true =>
          exact absurd h (cleanMap_drop hb (fun c h2 => by rw [hc] at h2; cases h2; exact hx) id)
      unfold isRecyclable at hr
      split at hr
      · cases hr
      · rename_i h3
        split at hr
        · cases hr
        · refine ⟨by omega, ?_⟩
          simpa using h3
  · rintro ⟨h1, hb | ⟨c, hc, ht, hst⟩⟩
    · exact cleanMap_busy hb id h1
    · refine (cleanMap_keep hc ?_).2 id h1
      unfold isRecyclable
      rw [if_neg (by simpa using hst), if_neg (by omega)]

/-- C69: a session whose requests had all ended by `T` is gone after a cleaning at
`T` plus the timeout or later, unless it is in use at that moment. -/
theorem C69_idle_ends (cfg : Cfg) (st0 : Store) (evs : List Ev) (T now : Int) (busy : List Nat) (o : Nat)
    (hi : okRun cfg (idleSince T o) (State.init st0) evs)
    (hd : (run cfg (State.init st0) evs).1.dead = false) (hn : T + cfg.timeout ≤ now) (hb : o ∉ busy) (id : Bytes) :
    (id, o) ∉ (step cfg (run cfg (State.init st0) evs).1 (.clean now busy)).1.map := by
  have hd' : ¬ (run cfg (State.init st0) evs).1.dead = true := by rw [hd]; simp
  have hl := run_last (cfg := cfg) (T := T) (o := o) evs (s := State.init st0)
    (fun c h => by simp [State.init] at h) hi
  simp only [step, if_neg hd']
  refine cleanMap_drop hb (fun c hc => ?_) id
  have := hl c hc
  unfold isRecyclable
  split
  · rfl
  · rw [if_pos (by omega)]

/-- C69: answering Begin or Continue restarts the session's idle time. -/
theorem C69_use_refreshes (cfg : Cfg) (st0 : Store) (evs : List Ev) (i : Nat) (t t' : Int) (b : Bool) {x : Out} {o : Nat}
    (hx : x ∈ (step cfg (run cfg (State.init st0) evs).1 (.go i t t' b)).2)
    (ho : x.isBegun o = true ∨ x.isPage o = true) :
    ∃ c, (step cfg (run cfg (State.init st0) evs).1 (.go i t t' b)).1.objs[o]? = some c ∧ c.last = t' := by
  rcases step_outs hx with ⟨i, t, t', b, o', id, r, c, c', kvs, more, he, _, _, h6, h7, h5, h8⟩ |
      ⟨i, t, t', b, o', id, m, c, c', kvs, more, he, _, _, h6, h7, h5, h8⟩ | ⟨_, _, _, _, _, _, _, _, h5⟩ |
      ⟨_, _, h5⟩ | ⟨_, h5⟩ | h5
  · cases he
    subst h5
    have : o' = o := by simpa [Out.isBegun, Out.isPage] using ho
    subst this
    rw [h8]
    have hl := (List.getElem?_eq_some_iff.1 h6).1
    obtain ⟨_, _, _, _, it, it', _, _, hc'⟩ := scanBegin_ok h7
    exact ⟨c', List.getElem?_set_self hl, by rw [hc']⟩
  · cases he
    subst h5
    have : o' = o := by simpa [Out.isBegun, Out.isPage] using ho
    subst this
    rw [h8]
    have hl := (List.getElem?_eq_some_iff.1 h6).1
    obtain ⟨_, _, _, _, it, it', _, _, hc'⟩ := scanContinue_ok h7
    exact ⟨c', List.getElem?_set_self hl, by rw [hc']⟩
  all_goals (subst h5; simp [Out.isBegun, Out.isPage] at ho)

end Verif.Scan
