import Verif.Scan.PropsLife

/-! # Scan sessions: concrete cases and refuted claims -/

namespace Verif.Scan
open Verif.Codec Verif.Mvcc

/-- Three pairs. -/
def abc : Store := (writerPut [] 5 0 [([97], [1]), ([98], [2]), ([99], [3])]).getD []

/-- Two pairs a page, timeout 100. -/
def cfg2 : Cfg := ⟨100, 1000, 2⟩

/-- Begin over everything, one pair at first. -/
def req : BeginReq := { start := [96], stop := [122], max := 1 }

/-- Begin under `id` at clock `t`; the request is number `n`. -/
def begins (id : Bytes) (n : Nat) (t : Int) : List Ev :=
  [.beginV2 id req t true, .go n t t false, .go n t t false]

theorem abc_wf : WFStore abc ∧ NoEmptyTTL abc := by
  have hw : WFStore abc := by
    refine ⟨by unfold SortedStore; decide +kernel, ?_⟩
    intro e he
    have he' : e ∈ [(⟨[97], 5, .put [1]⟩ : Rec).enc, (⟨[98], 5, .put [2]⟩ : Rec).enc, (⟨[99], 5, .put [3]⟩ : Rec).enc] := by
      have : abc = [(⟨[97], 5, .put [1]⟩ : Rec).enc, (⟨[98], 5, .put [2]⟩ : Rec).enc, (⟨[99], 5, .put [3]⟩ : Rec).enc] := by
        decide +kernel
      rw [← this]; exact he
    simp only [List.mem_cons, List.not_mem_nil, or_false] at he'
    have val : ∀ k v : UInt8, (⟨[k], 5, .put [v]⟩ : Rec).Valid := by
      intro k v; simp [Rec.Valid, ValidTs, Ver.Valid]
    rcases he' with rfl | rfl | rfl
    · exact ⟨_, val _ _, rfl⟩
    · exact ⟨_, val _ _, rfl⟩
    · exact ⟨_, val _ _, rfl⟩
  refine ⟨hw, ?_⟩
  intro r hr
  obtain ⟨hv, hm⟩ := hr
  have : abc = [(⟨[97], 5, .put [1]⟩ : Rec).enc, (⟨[98], 5, .put [2]⟩ : Rec).enc, (⟨[99], 5, .put [3]⟩ : Rec).enc] := by
    decide +kernel
  rw [this] at hm
  simp only [List.mem_cons, List.not_mem_nil, or_false] at hm
  have val : ∀ k v : UInt8, (⟨[k], 5, .put [v]⟩ : Rec).Valid := by
    intro k v; simp [Rec.Valid, ValidTs, Ver.Valid]
  rcases hm with e | e | e <;> (rw [enc_inj hv (val _ _) e]; simp [Ver.emptyTTL])

/-- C68_listing, C68_sound, C68_page, C68_first_page: a session over three pairs; the
data is wiped after Begin; two concurrent pages finish the listing. -/
example : run cfg2 (State.init abc)
      ([.beginV2 [1] req 10 true, .go 0 10 10 false] ++ .go 0 10 11 false ::
        [.data [], .cont [1] 1, .cont [1] 5, .go 2 12 12 false, .go 1 12 13 false]) =
    ((run cfg2 (State.init abc)
      ([.beginV2 [1] req 10 true, .go 0 10 10 false] ++ .go 0 10 11 false ::
        [.data [], .cont [1] 1, .cont [1] 5, .go 2 12 12 false, .go 1 12 13 false])).1,
      [.begun 0 0 [1] req [([97], [1])], .page 2 0 [1] 5 [([98], [2]), ([99], [3])] true, .page 1 0 [1] 1 [] false]) ∧
    kvScan abc 10 0 [96] [122] = .ok [([97], 5, [1]), ([98], 5, [2]), ([99], 5, [3])] := by
  refine ⟨Prod.ext rfl ?_, ?_⟩ <;> decide +kernel

/-- C68: a client that asks for a negative number of pairs gets pages beyond the
server's limit. -/
theorem C68_cap_false : ∃ (cfg : Cfg) (st : Store) (evs : List Ev) (i o : Nat) (id : Bytes) (kvs : List KV),
    WFStore st ∧ 0 < cfg.maxCnt ∧ 0 < cfg.maxBytes ∧ (∀ st', .data st' ∉ evs) ∧
    .page i o id (-1) kvs false ∈ (run cfg (State.init st) evs).2 ∧ cfg.maxCnt < kvs.length := by
  refine ⟨⟨100, 1000, 1⟩, abc, begins [1] 0 10 ++ [.cont [1] (-1), .go 1 11 11 false], 1, 0, [1],
    [([98], [2]), ([99], [3])], abc_wf.1, ?_, ?_, ?_, ?_, ?_⟩
  · decide
  · decide
  · intro st'; simp [begins]
  · decide +kernel
  · decide

/-- C68: 'more' may be said although everything was handed out. -/
theorem C68_more_false : ∃ (evs : List Ev) (i o : Nat) (id : Bytes) (kvs : List KV),
    .page i o id 2 kvs true ∈ (run cfg2 (State.init abc) evs).2 ∧
    pairsOf o (run cfg2 (State.init abc) evs).2 = [([97], [1]), ([98], [2]), ([99], [3])] :=
  ⟨begins [1] 0 10 ++ [.cont [1] 2, .go 1 11 11 false], 1, 0, [1], [([98], [2]), ([99], [3])], by decide +kernel,
    by decide +kernel⟩

/-- C69: a Continue that arrives while Begin with the same id is still at work ends
the session: Begin is answered OK afterwards, but the session is gone. -/
theorem C69_early_false : ∃ (evs : List Ev) (kvs : List KV) (id : Bytes),
    .begun 0 0 id req kvs ∈ (run cfg2 (State.init abc) evs).2 ∧
    (∀ o, (id, o) ∉ (run cfg2 (State.init abc) evs).1.map) ∧
    (∀ id', .release id' ∉ evs) ∧ (∀ now busy, .clean now busy ∉ evs) ∧
    (step cfg2 (run cfg2 (State.init abc) evs).1 (.cont id 1)).2 = [.refused 2 .notFound] := by
  refine ⟨[.beginV2 [1] req 10 true, .cont [1] 1, .go 1 10 10 false, .go 1 10 10 false, .go 0 10 10 false,
    .go 0 10 10 false], [([97], [1])], [1], by decide +kernel, ?_, ?_, ?_, by decide +kernel⟩
  · have : (run cfg2 (State.init abc) [.beginV2 [1] req 10 true, .cont [1] 1, .go 1 10 10 false,
      .go 1 10 10 false, .go 0 10 10 false, .go 0 10 10 false]).1.map = [] := by decide +kernel
    rw [this]; simp
  · intro id'; simp
  · intro now busy; simp

/-- C69: a Continue still in flight when its session was released ends a new session
that was begun under the same id. -/
theorem C69_reuse_false : ∃ (evs evs' : List Ev) (kvs : List KV) (id : Bytes),
    (run cfg2 (State.init abc) evs).2.getLast? = some (.begun 3 1 id req kvs) ∧
    (id, 1) ∈ (run cfg2 (State.init abc) evs).1.map ∧
    (∀ id', .release id' ∉ evs') ∧ (∀ now busy, .clean now busy ∉ evs') ∧ (∀ id' m, .cont id' m ∉ evs') ∧
    (step cfg2 (run cfg2 (run cfg2 (State.init abc) evs).1 evs').1 (.cont id 1)).2 = [.refused 4 .notFound] := by
  refine ⟨begins [1] 0 10 ++ [.cont [1] 1, .release [1], .go 2 11 11 false, .go 2 11 11 false] ++ begins [1] 3 12,
    [.go 1 13 13 false, .go 1 13 13 false], [([97], [1])], [1], by decide +kernel, by decide +kernel, ?_, ?_, ?_,
    by decide +kernel⟩
  · intro id'; simp
  · intro now busy; simp
  · intro id' m; simp

/-- C69_survives: Begin, then another session comes and goes, the cleaner runs and the
data changes; Continue still gets a page. -/
example :
    let s0 := (run cfg2 (State.init abc) (begins [9] 0 1)).1
    let e : Ev := .beginV1 [[1], [2]] req 10 true
    let s2 := (run cfg2 (step cfg2 s0 e).1 [.clean 50 [], .go 1 10 10 false]).1
    let s3 := (step cfg2 s2 (.go 1 10 11 false)).1
    let s4 := (run cfg2 s3 [.release [9], .go 2 20 20 false, .go 2 20 20 false, .data [], .clean 110 []]).1
    BeginsWith e [1] req 10 ∧ Acceptable req ∧ s0.dead = false ∧ find s0.map [1] = none ∧
    (∀ pc ∈ s0.ths, pc.id? ≠ some [1]) ∧ s0.ths.length = 1 ∧ s0.objs.length = 1 ∧
    okRun cfg2 (beginning cfg2 [1] 1) (step cfg2 s0 e).1 [.clean 50 [], .go 1 10 10 false] ∧
    .begun 1 1 [1] req [([97], [1])] ∈ (step cfg2 s2 (.go 1 10 11 false)).2 ∧
    okRun cfg2 (using_ cfg2 [1] 1) s3 [.release [9], .go 2 20 20 false, .go 2 20 20 false, .data [], .clean 110 []] ∧
    s4.dead = false ∧
    (run cfg2 s4 [.cont [1] 9, .go 3 111 111 false]).2 = [.page 3 1 [1] 9 [([98], [2]), ([99], [3])] true] := by
  intro s0 e s2 s3 s4
  have obj : ∀ (s : State) (l : Int), (s.objs[1]?).map (·.last) = some l →
      ∀ now, now - l < 100 → ∀ c, s.objs[1]? = some c → now - c.last < 100 := by
    intro s l hl now hn c hc
    rw [hc] at hl
    cases hl
    exact hn
  refine ⟨Or.inr ⟨[[2]], rfl⟩, by unfold Acceptable req; decide, by decide +kernel, by decide +kernel, by decide +kernel,
    by decide +kernel, by decide +kernel, ⟨?_, trivial, trivial⟩, by decide +kernel,
    ⟨by simp [using_], trivial, trivial, trivial, ?_, trivial⟩, by decide +kernel, by decide +kernel⟩
  · exact obj _ 10 (by decide +kernel) 50 (by decide)
  · exact obj _ 11 (by decide +kernel) 110 (by decide)

/-- C69_idle_ends, C69_clean_exact: idle for the timeout, the session ends; one tick
earlier it stays. -/
example : okRun cfg2 (idleSince 10 0) (State.init abc) (begins [1] 0 10) ∧
    (step cfg2 (run cfg2 (State.init abc) (begins [1] 0 10)).1 (.clean 110 [])).1.map = [] ∧
    (step cfg2 (run cfg2 (State.init abc) (begins [1] 0 10)).1 (.clean 109 [])).1.map = [([1], 0)] ∧
    (step cfg2 (run cfg2 (State.init abc) (begins [1] 0 10)).1 (.clean 110 [0])).1.map = [([1], 0)] := by
  refine ⟨⟨Or.inl (by decide), Or.inl (by decide), Or.inl (by decide), trivial⟩, ?_, ?_, ?_⟩ <;> decide +kernel

/-- C69_released, C69_release: after Release the session is gone. -/
example : (run cfg2 (State.init abc) (begins [1] 0 10 ++ [.release [1], .go 1 11 11 false, .go 1 11 11 false,
      .cont [1] 1])).2 =
    [.begun 0 0 [1] req [([97], [1])], .released 1 0 [1], .refused 2 .notFound] := by decide +kernel

/-- C68_begin_refused: an id in use, an inverted range, a follower. -/
example : (run cfg2 (State.init abc) (begins [1] 0 10 ++ [.beginV2 [1] req 11 true,
      .beginV2 [2] { req with stop := [96] } 11 true, .beginV2 [2] req 11 false])).2 =
    [.begun 0 0 [1] req [([97], [1])], .refused 1 .illegal, .nothing 2, .refused 3 .notLeader] := by decide +kernel

end Verif.Scan
