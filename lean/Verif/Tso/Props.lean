import Verif.Tso.Lemmas

/-! # Timestamp oracle: properties C26, C27, C54 -/

namespace Verif.Tso

/-! ## Specification -/

/-- The timestamps handed out by a grant: `count` consecutive numbers starting at
`physical * 2^18 + logical`. -/
def Grant.has (g : Grant) (ts : Int) : Prop :=
  g.physical * 262144 + g.logical ≤ ts ∧ ts < g.physical * 262144 + g.logical + g.count

/-- Every timestamp of `a` is smaller than every timestamp of `b`. -/
def Below (a b : Grant) : Prop := ∀ x y, a.has x → b.has y → x < y

/-- No client sends an update or reset, and clients ask for a positive number of
timestamps. -/
def PlainHistory (evs : List Event) : Prop :=
  ∀ e ∈ evs, match e with | .admin _ _ => False | .ask _ count => 0 < count | _ => True

theorem PlainHistory.plain {evs : List Event} (h : PlainHistory evs) : ∀ e ∈ evs, e.Plain := by
  intro e he
  have := h e he
  cases e <;> simp_all [Event.Plain]

theorem below_of_lex {a b : Grant} (ha : a.logical + a.count < maxLogical) (hb : 0 ≤ b.logical)
    (h : a.physical < b.physical ∨ (a.physical = b.physical ∧ a.logical + a.count ≤ b.logical)) : Below a b := by
  intro x y h1 h2
  have : maxLogical = 262144 := rfl
  simp only [Grant.has] at h1 h2
  omega

/-! ## C26: one leader -/

/-- In every history of the oracle cluster in which clients only ask for positive
numbers of timestamps, whatever the clocks, crashes, leader changes and snapshots do,
all timestamps handed out in one leader term by its leader are distinct and increase in
the order in which they are handed out.  Missing: requests with a negative count and
update requests sent by clients (`C26_negative_false`, `C26_update_false`). -/
theorem C26_partial (evs : List Event) (h : PlainHistory evs) :
    (grants {} evs).Pairwise (fun a b => ∀ t, a.term = some t → b.term = some t → Below a b) := by
  obtain ⟨_, _, h3, _, h5⟩ := grants_spec evs {} [] Inv.init (by intro i; simp) (by simp) h.plain
  refine h5.imp_of_mem ?_
  intro a b ha hb h1 t h2 h2'
  exact below_of_lex (h3 a (by simpa using ha)).fits (h3 b (by simpa using hb)).logical (h1 t h2 h2')

/-- The history used below: replica 0 becomes leader at time 1000 and serves. -/
def leader0 : List Event := [.lead 0 1000, .commit, .apply 0, .apply 1]

/-- A history of one leader with a negative count. -/
def negative : List Event :=
  leader0 ++ [.ask 0 10, .gen 0 0, .ask 0 (-5), .gen 0 0, .ask 0 10, .gen 0 0]

/-- A request with a negative count is served and moves the oracle backwards; the next
request gets timestamps already handed out. -/
theorem C26_negative_false : ¬ ∀ evs : List Event, (∀ e ∈ evs, ∀ i c, e ≠ .admin i c) →
    (grants {} evs).Pairwise (fun a b => ∀ t, a.term = some t → b.term = some t → Below a b) := by
  intro h
  have h1 := h negative (by
    intro e he i c hc
    subst hc
    simp [negative, leader0] at he)
  have h2 : grants {} negative =
      [⟨some 1, 1000, 0, 10, true⟩, ⟨some 1, 1000, 10, -5, true⟩, ⟨some 1, 1000, 5, 10, true⟩] := by decide +kernel
  rw [h2] at h1
  have h3 := (List.pairwise_cons.1 h1).1 ⟨some 1, 1000, 5, 10, true⟩ (by simp) 1 rfl rfl
    (1000 * 262144 + 7) (1000 * 262144 + 7) (by simp [Grant.has]) (by simp [Grant.has])
  omega

/-- A history of one leader with an update request of a client. -/
def adminUpdate : List Event :=
  leader0 ++ [.ask 0 10, .gen 0 0, .admin 0 (.update 1000 0 4000), .commit, .apply 0, .ask 0 10, .gen 0 0]

/-- An update request repeating the current physical time is accepted and resets the
logical counter; timestamps are handed out twice. -/
theorem C26_update_false : ¬ ∀ evs : List Event, (∀ e ∈ evs, ∀ i c, e = .ask i c → 0 < c) →
    (grants {} evs).Pairwise (fun a b => ∀ t, a.term = some t → b.term = some t → Below a b) := by
  intro h
  have h1 := h adminUpdate (by
    intro e he i c hc
    subst hc
    simp [adminUpdate, leader0] at he
    omega)
  have h2 : grants {} adminUpdate =
      [⟨some 1, 1000, 0, 10, true⟩, ⟨some 1, 1000, 0, 10, true⟩] := by decide +kernel
  rw [h2] at h1
  have h3 := (List.pairwise_cons.1 h1).1 ⟨some 1, 1000, 0, 10, true⟩ (by simp) 1 rfl rfl
    (1000 * 262144 + 7) (1000 * 262144 + 7) (by simp [Grant.has]) (by simp [Grant.has])
  omega

/-- An event that is a forced reset. -/
def Event.forced : Event → Prop
  | .admin _ (.reset _ _ _ true) => True
  | _ => False

theorem applyCmd_mono {o o' : Obj} {cmd : Cmd} (hf : ∀ p l s, cmd ≠ .reset p l s true) (h : applyCmd o cmd = some o') :
    o.physical ≤ o'.physical ∧ o.lastSave ≤ o'.lastSave := by
  cases cmd with
  | update p l s =>
    simp only [applyCmd, updateTso] at h
    split at h
    · cases h
    · cases h; simp only; omega
  | reset p l s f =>
    have : f = false := by
      cases f with
      | false => rfl
      | true => exact absurd rfl (hf p l s)
    subst this
    simp only [applyCmd, resetTso] at h
    split at h
    · split at h
      · cases h
      · rename_i h1; cases h; simp at h1; simp only; omega
    · cases h

/-- Update requests of clients included: unless a reset is forced, or a replica is
restarted or loads a snapshot, its physical time and its saved time never go back. -/
theorem C26_clock_partial (evs evs' : List Event) (i : Nat) (hf : ∀ e ∈ evs ++ evs', ¬ e.forced)
    (hr : ∀ s, Event.restart i s ∉ evs' ∧ ∀ k, Event.install i k ∉ evs') :
    ((run {} evs).node i).obj.physical ≤ ((run {} (evs ++ evs')).node i).obj.physical ∧
    ((run {} evs).node i).obj.lastSave ≤ ((run {} (evs ++ evs')).node i).obj.lastSave := by
  let ok (c : Cluster) : Prop := (∀ e ∈ c.log, ∀ p l s, e.cmd ≠ .reset p l s true) ∧
    (∀ e ∈ c.pending, ∀ p l s, e.cmd ≠ .reset p l s true)
  have hrun : ∀ (a b : List Event) (c : Cluster), run c (a ++ b) = run (run c a) b := by
    intro a b
    induction a with
    | nil => intro c; rfl
    | cons e a ih => intro c; simp only [List.cons_append, run]; exact ih _
  have key : ∀ (c : Cluster) (e : Event), ok c → ¬ e.forced → ok (step c e).1 ∧
      ((∀ s, e ≠ .restart i s) → (∀ k, e ≠ .install i k) →
        (c.node i).obj.physical ≤ ((step c e).1.node i).obj.physical ∧
        (c.node i).obj.lastSave ≤ ((step c e).1.node i).obj.lastSave) := by
    intro c e hok he
    have set_ok : ∀ j n, (j = i → (c.node i).obj.physical ≤ n.obj.physical ∧ (c.node i).obj.lastSave ≤ n.obj.lastSave) →
        (c.node i).obj.physical ≤ ((c.set j n).node i).obj.physical ∧
        (c.node i).obj.lastSave ≤ ((c.set j n).node i).obj.lastSave := by
      intro j n hn
      rw [set_node]
      split
      · rename_i h1; exact hn h1.symm
      · exact ⟨Int.le_refl _, Int.le_refl _⟩
    have refl : (c.node i).obj.physical ≤ (c.node i).obj.physical ∧ (c.node i).obj.lastSave ≤ (c.node i).obj.lastSave :=
      ⟨Int.le_refl _, Int.le_refl _⟩
    have pok : ∀ t e0, (∀ p l s, e0.cmd ≠ .reset p l s true) → ok (c.propose t e0) := by
      intro t e0 h0
      unfold Cluster.propose
      split
      · refine ⟨hok.1, ?_⟩
        intro e' h'
        rcases List.mem_append.1 h' with h' | h'
        · exact hok.2 e' h'
        · rw [List.mem_singleton.1 h']; exact h0
      · exact hok
    cases e with
    | lead j now =>
      simp only [step]
      split
      · refine ⟨⟨hok.1, ?_⟩, fun _ _ => ?_⟩
        · intro e' h'
          simp only [List.mem_singleton] at h'
          subst h'
          simp [startCmd]
        · simp only [Cluster.set]
          split
          · rename_i h1; subst h1; exact refl
          · exact refl
      · exact ⟨hok, fun _ _ => refl⟩
    | stop j => exact ⟨hok, fun _ _ => set_ok j _ (fun h1 => by subst h1; exact refl)⟩
    | apply j =>
      simp only [step]
      cases hl : c.log[(c.node j).applied]? with
      | none => exact ⟨hok, fun _ _ => refl⟩
      | some e' =>
        have main : ok (c.set j ((c.node j).applyEntry e')) ∧
            ((c.node i).obj.physical ≤ ((c.set j ((c.node j).applyEntry e')).node i).obj.physical ∧
            (c.node i).obj.lastSave ≤ ((c.set j ((c.node j).applyEntry e')).node i).obj.lastSave) := by
          refine ⟨hok, set_ok j _ ?_⟩
          intro h1
          subst h1
          simp only [Node.applyEntry]
          cases hc : applyCmd (c.node j).obj e'.cmd with
          | none => exact refl
          | some o' => exact applyCmd_mono (hok.1 e' (List.mem_of_getElem? hl)) hc
        simp only
        split
        · split
          · exact ⟨hok, fun _ _ => refl⟩
          · exact ⟨main.1, fun _ _ => main.2⟩
        · exact ⟨main.1, fun _ _ => main.2⟩
    | commit =>
      simp only [step]
      cases hpd : c.pending with
      | nil => exact ⟨hok, fun _ _ => refl⟩
      | cons q rest =>
        refine ⟨⟨?_, ?_⟩, fun _ _ => refl⟩
        · intro e' h'
          rcases List.mem_append.1 h' with h' | h'
          · exact hok.1 e' h'
          · rw [List.mem_singleton.1 h']; exact hok.2 q (by rw [hpd]; simp)
        · intro e' h'
          exact hok.2 e' (by rw [hpd]; exact List.mem_cons_of_mem _ h')
    | tick j now =>
      simp only [step]
      split
      · exact ⟨hok, fun _ _ => refl⟩
      · split
        · exact ⟨hok, fun _ _ => refl⟩
        · split
          · exact ⟨hok, fun _ _ => refl⟩
          · rename_i cmd hcmd
            obtain ⟨p, s, hc, _⟩ := timerCmd_spec hcmd
            unfold Cluster.propose
            split
            · refine ⟨⟨hok.1, ?_⟩, fun _ _ => set_ok j _ (fun h1 => by subst h1; exact refl)⟩
              intro e' h'
              rcases List.mem_append.1 h' with h' | h'
              · exact hok.2 e' h'
              · rw [List.mem_singleton.1 h', hc]; simp
            · exact ⟨hok, fun _ _ => set_ok j _ (fun h1 => by subst h1; exact refl)⟩
    | ask j count =>
      simp only [step]
      refine ⟨hok, fun _ _ => set_ok j _ (fun h1 => ?_)⟩
      subst h1
      rcases ask_spec (c.node j) count with h2 | h2 <;> rw [h2] <;> exact refl
    | gen j k =>
      simp only [step]
      refine ⟨hok, fun _ _ => set_ok j _ (fun h1 => ?_)⟩
      subst h1
      rcases gen_spec (c.node j) k with ⟨_, h2⟩ | ⟨_, _, _, _, _, h2⟩ <;> rw [h2] <;> exact refl
    | admin j cmd =>
      simp only [step]
      split
      · exact ⟨hok, fun _ _ => refl⟩
      · refine ⟨pok _ _ ?_, fun _ _ => ?_⟩
        · intro p l s hc
          simp only at hc
          subst hc
          exact he trivial
        · unfold Cluster.propose
          split <;> exact refl
    | snapshot j => exact ⟨hok, fun _ _ => refl⟩
    | install j k =>
      simp only [step]
      split
      · exact ⟨hok, fun _ _ => refl⟩
      · split
        · exact ⟨hok, fun _ hk => set_ok j _ (fun h1 => absurd (by rw [h1]) (hk k))⟩
        · exact ⟨hok, fun _ _ => refl⟩
    | restart j s =>
      simp only [step]
      split
      · exact ⟨hok, fun hs _ => set_ok j _ (fun h1 => absurd (by rw [h1]) (hs s))⟩
      · exact ⟨hok, fun hs _ => set_ok j _ (fun h1 => absurd (by rw [h1]) (hs s))⟩
  have okrun : ∀ (es : List Event) (c : Cluster), ok c → (∀ e ∈ es, ¬ e.forced) → ok (run c es) := by
    intro es
    induction es with
    | nil => intro c h1 _; exact h1
    | cons e es ih =>
      intro c h1 h2
      exact ih _ (key c e h1 (h2 e (by simp))).1 (fun x hx => h2 x (List.mem_cons_of_mem _ hx))
  have mono : ∀ (es : List Event) (c : Cluster), ok c → (∀ e ∈ es, ¬ e.forced) →
      (∀ s, Event.restart i s ∉ es) → (∀ k, Event.install i k ∉ es) →
      (c.node i).obj.physical ≤ ((run c es).node i).obj.physical ∧
      (c.node i).obj.lastSave ≤ ((run c es).node i).obj.lastSave := by
    intro es
    induction es with
    | nil => intro c _ _ _ _; exact ⟨Int.le_refl _, Int.le_refl _⟩
    | cons e es ih =>
      intro c h1 h2 h3 h4
      have k1 := key c e h1 (h2 e (by simp))
      have k2 := k1.2 (fun s hs => h3 s (by rw [hs]; simp)) (fun k hk => h4 k (by rw [hk]; simp))
      have k3 := ih _ k1.1 (fun x hx => h2 x (List.mem_cons_of_mem _ hx)) (fun s hs => h3 s (List.mem_cons_of_mem _ hs))
        (fun k hk => h4 k (List.mem_cons_of_mem _ hk))
      simp only [run]
      omega
  rw [hrun]
  refine mono evs' _ (okrun evs {} ⟨by simp, by simp⟩ (fun e he => hf e (List.mem_append_left _ he)))
    (fun e he => hf e (List.mem_append_right _ he)) (fun s => (hr s).1) (fun k => (hr none).2 k)

/-- Non-vacuity: an update request with an older time is applied and refused. -/
example : (((run {} (leader0 ++ [.admin 0 (.update 900 0 4000), .commit, .apply 0])).node 0).obj =
      (⟨1000, 0, 4000⟩ : Obj)) ∧
    (((run {} (leader0 ++ [.admin 0 (.update 1000 0 3900), .commit, .apply 0])).node 0).obj =
      (⟨1000, 0, 4000⟩ : Obj)) ∧
    (((run {} (leader0 ++ [.admin 0 (.update 2000 5 5000), .commit, .apply 0])).node 0).obj =
      (⟨2000, 5, 5000⟩ : Obj)) := by
  decide +kernel

/-! ## C27: across leaders -/

/-- Timestamps handed out by a leader after its first clock update took effect are
larger than every timestamp ever handed out by a leader of an earlier term, even by one
that does not know yet that it was replaced, whatever the clocks of the machines say.
Missing: grants made by a leader before its first update took effect
(`C27_window_false`) and by a replica that is not leader any more
(`C27_stale_false`). -/
theorem C27_partial (evs : List Event) (h : PlainHistory evs) :
    ∀ a ∈ grants {} evs, ∀ b ∈ grants {} evs, ∀ s t, a.term = some s → b.term = some t → s < t →
      b.synced = true → Below a b := by
  obtain ⟨h1, _, h3, _, _⟩ := grants_spec evs {} [] Inv.init (by intro i; simp) (by simp) h.plain
  intro a ha b hb sa sb hsa hsb hlt hs
  have ga := h3 a (by simpa using ha)
  have gb := h3 b (by simpa using hb)
  refine below_of_lex ga.fits gb.logical (Or.inl ?_)
  obtain ⟨ea, a1, a2, a3, _⟩ := ga.entry sa hsa
  obtain ⟨eb, b1, b2, _, b4⟩ := gb.entry sb hsb
  have b5 := b4 hs
  rw [← a2, ← b2]
  have hp := h1.sorted
  obtain ⟨i, hi, hi'⟩ := List.getElem_of_mem a1
  obtain ⟨j, hj, hj'⟩ := List.getElem_of_mem b1
  rw [List.pairwise_iff_getElem] at hp
  rcases Nat.lt_trichotomy i j with hij | hij | hij
  · have := hp i j hi hj hij
    rw [hi', hj'] at this
    exact this.2.1
  · subst hij
    rw [hi'] at hj'
    subst hj'
    omega
  · have := hp j i hj hi hij
    rw [hi', hj'] at this
    have := this.1
    omega

/-- All timestamps handed out by leaders that have completed their first clock update
are pairwise distinct, over the whole history of the cluster. -/
theorem C27_unique_partial (evs : List Event) (h : PlainHistory evs) :
    (grants {} evs).Pairwise (fun a b => a.term ≠ none → b.term ≠ none → a.synced = true → b.synced = true →
      ∀ ts, ¬ (a.has ts ∧ b.has ts)) := by
  have h1 := C26_partial evs h
  have h2 := C27_partial evs h
  refine h1.imp_of_mem ?_
  intro a b ha hb hab h3 h4 h5 h6 ts hts
  obtain ⟨s, hs⟩ := Option.ne_none_iff_exists'.1 h3
  obtain ⟨t, ht⟩ := Option.ne_none_iff_exists'.1 h4
  rcases Nat.lt_trichotomy s t with hlt | heq | hgt
  · exact absurd (h2 a ha b hb s t hs ht hlt h6 ts ts hts.1 hts.2) (by omega)
  · subst heq; exact absurd (hab s hs ht ts ts hts.1 hts.2) (by omega)
  · exact absurd (h2 b hb a ha t s ht hs hgt h5 ts ts hts.2 hts.1) (by omega)

/-- A history in which the leadership moves from replica 0 to replica 1; replica 1
serves a request before its first clock update is applied. -/
def handover : List Event := leader0 ++ [.ask 0 100, .gen 0 0, .stop 0, .lead 1 5000, .ask 1 100, .gen 1 0]

/-- The new leader hands out again the timestamps of the old one. -/
theorem C27_window_false : ¬ ∀ evs, PlainHistory evs →
    ∀ a ∈ grants {} evs, ∀ b ∈ grants {} evs, ∀ s t, a.term = some s → b.term = some t → s < t → Below a b := by
  intro h
  have h1 := h handover (by
    intro e he; simp [handover, leader0] at he
    rcases he with h | h | h | h | h | h | h | h | h | h <;> subst h <;> simp)
  have h2 : grants {} handover = [⟨some 1, 1000, 0, 100, true⟩, ⟨some 2, 1000, 0, 100, false⟩] := by decide +kernel
  rw [h2] at h1
  have := h1 ⟨some 1, 1000, 0, 100, true⟩ (by simp) ⟨some 2, 1000, 0, 100, false⟩ (by simp) 1 2 rfl rfl (by simp)
    (1000 * 262144 + 7) (1000 * 262144 + 7) (by simp [Grant.has]) (by simp [Grant.has])
  omega

/-- Replica 0 is leader and its logical counter is used up; a request waits.  Replica 1
takes over, its first clock update is applied on both, it serves a request; then the
request waiting on replica 0, a follower now, is served. -/
def stale : List Event :=
  leader0 ++ [.ask 0 262000, .gen 0 0, .ask 0 300, .gen 0 0, .stop 0, .lead 1 5000, .commit, .apply 1, .apply 0,
    .ask 1 100, .gen 1 0, .gen 0 0]

/-- A request that waits across a leader change is served by the former leader with
the timestamps that the new leader, its clock update completed, hands out too. -/
theorem C27_stale_false : ¬ ∀ evs, PlainHistory evs →
    (grants {} evs).Pairwise (fun a b => (a.term ≠ none → a.synced = true) → (b.term ≠ none → b.synced = true) →
      ∀ ts, ¬ (a.has ts ∧ b.has ts)) := by
  intro h
  have h1 := h stale (by
    intro e he; simp [stale, leader0] at he
    rcases he with h | h | h | h | h | h | h | h | h | h | h | h | h | h | h | h <;> subst h <;> simp)
  have h2 : grants {} stale =
      [⟨some 1, 1000, 0, 262000, true⟩, ⟨some 2, 5000, 0, 100, true⟩, ⟨none, 5000, 0, 300, false⟩] := by decide +kernel
  rw [h2] at h1
  have := (List.pairwise_cons.1 (List.pairwise_cons.1 h1).2).1 ⟨none, 5000, 0, 300, false⟩ (by simp) (by simp) (by simp)
    (5000 * 262144 + 7) (by simp [Grant.has])
  exact this

/-- Replica 1 installs a snapshot of replica 0 and becomes leader. -/
def installed : List Event :=
  leader0 ++ [.tick 0 2000, .commit, .apply 0, .ask 0 5, .gen 0 0, .snapshot 0, .install 1 0, .stop 0, .lead 1 2100,
    .ask 1 5, .gen 1 0]

/-- Timestamps can go back by any amount in the window before the first update: a
snapshot does not hold the physical time, and replica 1 serves with the physical time it
had applied before. -/
theorem C27_backwards_false : ¬ ∀ evs, PlainHistory evs →
    (grants {} evs).Pairwise (fun a b => ∀ x y, a.has x → b.has y → x < y + 999 * 262144) := by
  intro h
  have h1 := h installed (by
    intro e he; simp [installed, leader0] at he
    rcases he with h | h | h | h | h | h | h | h | h | h | h | h | h | h | h <;> subst h <;> simp)
  have h2 : grants {} installed = [⟨some 1, 2000, 0, 5, true⟩, ⟨some 2, 1000, 0, 5, false⟩] := by decide +kernel
  rw [h2] at h1
  have h3 := (List.pairwise_cons.1 h1).1 ⟨some 2, 1000, 0, 5, false⟩ (by simp)
    (2000 * 262144 + 1) (1000 * 262144 + 1) (by simp [Grant.has]) (by simp [Grant.has])
  omega

/-- Non-vacuity: two leaders, all grants after the first clock update. -/
def regular : List Event :=
  leader0 ++ [.ask 0 100, .gen 0 0, .tick 0 1200, .commit, .apply 0, .ask 0 7, .gen 0 0, .apply 1, .stop 0,
    .lead 1 5, .commit, .apply 1, .ask 1 3, .gen 1 0]

example : PlainHistory regular ∧ grants {} regular =
    [⟨some 1, 1000, 0, 100, true⟩, ⟨some 1, 1200, 0, 7, true⟩, ⟨some 2, 4001, 0, 3, true⟩] := by
  refine ⟨?_, by decide +kernel⟩
  intro e he; simp [regular, leader0] at he
  rcases he with h | h | h | h | h | h | h | h | h | h | h | h | h | h | h | h | h | h <;> subst h <;> simp

/-! ## C54: the leader serves -/

/-- After one clock update with a clock that has advanced, a healthy leader of the
latest term that has completed its first update serves every request for up to
`2^18 - 1` timestamps. -/
theorem C54_partial (evs : List Event) (h : PlainHistory evs) (i : Nat) (now count : Int)
    (hlead : ((run {} evs).node i).term = some (run {} evs).term)
    (hfree : ((run {} evs).node i).busy = false)
    (hhealthy : ((run {} evs).node i).healthy = true)
    (hnow : ((run {} evs).node i).obj.physical + 1 < now) (h0 : 0 < count) (h1 : count < 262144) :
    ∃ k g, (step (run {} (evs ++ [.tick i now, .commit, .apply i, .ask i count])) (.gen i k)).2 = some g ∧
      g.count = count ∧ g.physical = now ∧ g.term = some (run {} evs).term ∧ g.synced = true := by
  obtain ⟨hi, _, _, _, _⟩ := grants_spec evs {} [] Inv.init (by intro i; simp) (by simp) h.plain
  have hrun : ∀ (a b : List Event) (c : Cluster), run c (a ++ b) = run (run c a) b := by
    intro a b
    induction a with
    | nil => intro c; rfl
    | cons e a ih => intro c; simp only [List.cons_append, run]; exact ih _
  rw [hrun]
  generalize run {} evs = c at *
  obtain ⟨hp, ha⟩ := hi.idle i hlead hfree
  have hpos : 0 ≤ (c.node i).obj.physical := by
    rcases (hi.node i).physical with h3 | ⟨e, h3, h4⟩
    · omega
    · have := (hi.ok e (List.mem_of_mem_take h3)).pos; omega
  have g1 : guardMs = 1 := rfl
  have hcmd : ∃ s, timerCmd (c.node i).obj now = some (.update now 0 s) ∧ (c.node i).obj.lastSave ≤ s := by
    have hg : now - (c.node i).obj.physical > guardMs := by omega
    have g2 : saveMs = 3000 := rfl
    simp only [timerCmd, hg, true_or, if_true]
    refine ⟨_, rfl, ?_⟩
    split <;> omega
  obtain ⟨s, hcmd, hs⟩ := hcmd
  have s1 : (step c (.tick i now)).1 =
      { (c.set i { (c.node i) with busy := true }) with pending := [⟨c.term, .timer, .update now 0 s⟩] } := by
    simp only [step, hlead, hfree, hcmd]
    simp [Cluster.propose, Cluster.set, hp]
  simp only [run]
  rw [s1]
  simp only [step]
  have s2 : (c.set i { (c.node i) with busy := true }).node i = { (c.node i) with busy := true } := by
    simp [Cluster.set]
  simp only [s2]
  have s3 : ((c.set i { (c.node i) with busy := true }).log ++ [(⟨c.term, .timer, .update now 0 s⟩ : Entry)])[(c.node i).applied]? =
      some ⟨c.term, .timer, .update now 0 s⟩ := by
    simp [Cluster.set, ha]
  rw [s3]
  simp only [hlead, Nat.lt_irrefl, if_false]
  have s4 : updateTso (c.node i).obj now 0 s = some ⟨now, 0, s⟩ := by
    simp only [updateTso]
    rw [if_neg (by omega)]
  have hne : ¬ count = 0 := by omega
  have hnn : ¬ now = 0 := by omega
  simp only [Cluster.set, if_true, Node.applyEntry, applyCmd, s4, Node.gen, Node.ask, Option.getD_some, hhealthy,
    hne, false_or, maxLogical]
  refine ⟨(c.node i).waiting.length, ?_⟩
  simp [h1, hnn]

/-- An oracle replica whose first update as leader failed to complete (it lost the
leadership before) refuses all requests from then on, until it is restarted or reset. -/
theorem C54_stuck (evs evs' : List Event) (i : Nat) (count : Int) (h : PlainHistory (evs ++ evs'))
    (hbad : ((run {} evs).node i).healthy = false) (hr : ∀ s, Event.restart i s ∉ evs') :
    ((step (run (run {} evs) evs') (.ask i count)).1.node i).waiting = ((run (run {} evs) evs').node i).waiting := by
  have key : ∀ (es : List Event) (c : Cluster), Inv c → (∀ e ∈ es, e.Plain) → (c.node i).healthy = false →
      (∀ s, Event.restart i s ∉ es) → ((run c es).node i).healthy = false := by
    intro es
    induction es with
    | nil => intro c _ _ h2 _; exact h2
    | cons e es ih =>
      intro c h1 h2 h3 h4
      simp only [run]
      refine ih _ (h1.step (h2 e (by simp))) (fun x hx => h2 x (List.mem_cons_of_mem _ hx)) ?_
        (fun s hs => h4 s (List.mem_cons_of_mem _ hs))
      refine unhealthy_step h3 (fun e he => ⟨_, _, _, (h1.ok e he).cmd⟩) ?_
      intro s hs
      exact h4 s (by rw [hs]; simp)
  have h1 : Inv (run {} evs) := by
    refine (grants_spec evs {} [] Inv.init (by intro i; simp) (by simp) ?_).1
    exact fun e he => h.plain e (List.mem_append_left _ he)
  have h2 := key evs' _ h1 (fun e he => h.plain e (List.mem_append_right _ he)) hbad hr
  simp [step, Node.ask, h2, Cluster.set]

/-- Replica 0 is elected, replaced at once, and elected again; its first update of the
second term is applied. -/
def reelected : List Event := [.lead 0 1000, .stop 0, .lead 0 2000, .commit, .apply 0]

theorem reelected_plain : PlainHistory reelected := by
  intro e he; simp [reelected] at he
  rcases he with h | h | h | h | h <;> subst h <;> simp

example : ((run {} reelected).node 0).term = some (run {} reelected).term ∧
    ((run {} reelected).node 0).synced = true ∧ ((run {} reelected).node 0).healthy = false := by
  decide +kernel

/-- Not every elected leader whose first update took effect accepts a request at some
later time. -/
theorem C54_false : ¬ ∀ (evs : List Event) (i : Nat), PlainHistory evs →
    ((run {} evs).node i).term = some (run {} evs).term → ((run {} evs).node i).synced = true →
    ∃ evs' count, PlainHistory (evs ++ evs') ∧ (∀ s, Event.restart i s ∉ evs') ∧
      ((step (run (run {} evs) evs') (.ask i count)).1.node i).waiting ≠ ((run (run {} evs) evs').node i).waiting := by
  intro h
  obtain ⟨evs', count, h1, h2, h3⟩ := h reelected 0 reelected_plain (by decide +kernel) (by decide +kernel)
  exact h3 (C54_stuck reelected evs' 0 count h1 (by decide +kernel) h2)

/-- Non-vacuity of `C54_partial`. -/
example : PlainHistory leader0 ∧ ((run {} leader0).node 0).term = some (run {} leader0).term ∧
    ((run {} leader0).node 0).busy = false ∧ ((run {} leader0).node 0).healthy = true ∧
    ((run {} leader0).node 0).obj.physical = 1000 := by
  refine ⟨?_, by decide +kernel⟩
  intro e he; simp [leader0] at he
  rcases he with h | h | h | h <;> subst h <;> simp

end Verif.Tso
