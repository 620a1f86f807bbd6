import Verif.Replica.Outside

/-!
# Properties of the replicas of a region

C48: replicas that have applied the same log hold the same data, whatever crashes and restarts there
were.  C67: a snapshot sent to a replica leaves it with the region's data, and leaves other regions of
its store alone.

`v` is the region as it was created, `ds` what its stores held then; `v.after log` is what the log says
(`Spec.lean`); `b.pos` is the number of entries replica `b` is past: those it has applied, or else those
its snapshot covers.
-/

namespace Verif.Replica

/-- The stores hold the region's first data in its range. -/
def sameStart (cfs : List Nat) (v : View) (ds : List Data) : Prop :=
  ∀ d ∈ ds, ∀ k : Key, cfs.contains k.1 = true → v.range.has k.2 = true → d k = v.data k

/-- A running replica, at any time: it holds what the region held after the first `n` entries, for some
`n` not before the entry it is at, except for keys that entries it is about to apply will set again. -/
theorem C48_between_partial (cfs : List Nat) (hnd : cfs.Nodup) (v : View) (ds : List Data)
    (hds : sameStart cfs v ds) (evs : List Ev) (hok : okRun (init cfs v ds) evs = true) (i : Nat) (b : Node)
    (hb : (run (init cfs v ds) evs).nodes[i]? = some b) (hup : b.phase = .up) (h0 : 0 < b.pos) :
    ∃ n, b.pos ≤ n ∧ n ≤ (run (init cfs v ds) evs).log.length ∧
      b.version = (v.after ((run (init cfs v ds) evs).log.take n)).version ∧
      b.range = (v.after ((run (init cfs v ds) evs).log.take n)).range ∧
      ∀ k : Key, cfs.contains k.1 = true → b.range.has k.2 = true →
        b.data k = (v.after ((run (init cfs v ds) evs).log.take n)).data k ∨
        ∃ j e, b.pos ≤ j ∧ j < n ∧ (run (init cfs v ds) evs).log[j]? = some e ∧
          e.version = b.version ∧ effect e.cmd k ≠ none := by
  have h := (inv_init hnd v ds hds).run hok
  have hcfs : (run (init cfs v ds) evs).cfs = cfs := run_cfs evs _
  have hno := h.nodes i b hb
  rw [hcfs] at hno
  have hst := hno.st
  unfold StOk at hst
  rw [hup] at hst
  rcases hst with ⟨_, n, h1, h2, h3, h4, h5⟩ | ⟨h1, hz, _⟩
  · refine ⟨n, ?_, h1, h3, h4, fun k hc hr => ?_⟩
    · exact h2
    · rcases h5 k hc hr with ⟨j, e, a1, a2, a3, a4, a5⟩ | hd
      · exact .inr ⟨j, e, a1, a2, a3, a4, a5⟩
      · exact .inl hd
  · have := (hno.blank0 h1).2.1 (by rw [hup]; simp); unfold Node.pos at h0; omega

/-- **C48.** A running replica that has applied the whole log holds, in the region's range, exactly what
the log says.  Left out: the five cases of `okEv`. -/
theorem C48_same_data_partial (cfs : List Nat) (hnd : cfs.Nodup) (v : View) (ds : List Data)
    (hds : sameStart cfs v ds) (evs : List Ev) (hok : okRun (init cfs v ds) evs = true) (i : Nat) (b : Node)
    (hb : (run (init cfs v ds) evs).nodes[i]? = some b) (hup : b.phase = .up) (h0 : 0 < b.pos)
    (hall : (run (init cfs v ds) evs).log.length ≤ b.pos) :
    b.version = (v.after (run (init cfs v ds) evs).log).version ∧
    b.range = (v.after (run (init cfs v ds) evs).log).range ∧
    ∀ k : Key, cfs.contains k.1 = true → b.range.has k.2 = true →
      b.data k = (v.after (run (init cfs v ds) evs).log).data k := by
  obtain ⟨n, h1, h2, h3, h4, h5⟩ := C48_between_partial cfs hnd v ds hds evs hok i b hb hup h0
  have hn : n = (run (init cfs v ds) evs).log.length := by omega
  subst hn
  rw [List.take_length] at *
  refine ⟨h3, h4, fun k hc hr => ?_⟩
  rcases h5 k hc hr with h | ⟨j, e, a1, a2, _⟩
  · exact h
  · omega

/-- **C48.** Two such replicas agree. -/
theorem C48_agree_partial (cfs : List Nat) (hnd : cfs.Nodup) (v : View) (ds : List Data)
    (hds : sameStart cfs v ds) (evs : List Ev) (hok : okRun (init cfs v ds) evs = true) (i j : Nat) (b c : Node)
    (hb : (run (init cfs v ds) evs).nodes[i]? = some b) (hc : (run (init cfs v ds) evs).nodes[j]? = some c)
    (hbu : b.phase = .up) (hcu : c.phase = .up) (hb0 : 0 < b.pos) (hc0 : 0 < c.pos)
    (hball : (run (init cfs v ds) evs).log.length ≤ b.pos)
    (hcall : (run (init cfs v ds) evs).log.length ≤ c.pos) :
    b.version = c.version ∧ b.range = c.range ∧
    ∀ k : Key, cfs.contains k.1 = true → b.range.has k.2 = true → b.data k = c.data k := by
  obtain ⟨a1, a2, a3⟩ := C48_same_data_partial cfs hnd v ds hds evs hok i b hb hbu hb0 hball
  obtain ⟨b1, b2, b3⟩ := C48_same_data_partial cfs hnd v ds hds evs hok j c hc hcu hc0 hcall
  refine ⟨by rw [a1, b1], by rw [a2, b2], fun k h1 h2 => ?_⟩
  rw [a3 k h1 h2, b3 k h1 (by rw [b2, ← a2]; exact h2)]

/-- **C48.** A replica can always get there: started again and loading its snapshot if need be, it
applies all the entries it holds, and nothing but its own steps is needed.  (Entries are applied with
their closure here; without it a delete range request ends the process, see `C48_delete_range_false`.) -/
theorem C48_catch_up_partial (cfs : List Nat) (hnd : cfs.Nodup) (v : View) (ds : List Data)
    (hds : sameStart cfs v ds) (evs : List Ev) (hok : okRun (init cfs v ds) evs = true) (i : Nat) (b : Node)
    (hb : (run (init cfs v ds) evs).nodes[i]? = some b) :
    ∃ more c, (∀ e ∈ more, ownEv i e = true) ∧ okRun (init cfs v ds) (evs ++ more) = true ∧
      (run (init cfs v ds) (evs ++ more)).log = (run (init cfs v ds) evs).log ∧
      (run (init cfs v ds) (evs ++ more)).nodes[i]? = some c ∧ c.phase = .up ∧ c.pos = b.have' := by
  have h := (inv_init hnd v ds hds).run hok
  obtain ⟨more, c, e1, e2, e3, e4, e5, e6⟩ := catches_up h hb
  refine ⟨more, c, e1, ?_, ?_, ?_, e5, e6⟩
  · rw [okRun_append, hok, e2]; rfl
  · rw [run_append]; exact e4
  · rw [run_append]; exact e3

/-- **C48.** Applying the log changes no key outside the region's range, and neither does anything else
that happens to a replica, except loads of snapshots. -/
theorem C48_inside_partial (cfs : List Nat) (hnd : cfs.Nodup) (v : View) (ds : List Data)
    (hds : sameStart cfs v ds) (evs : List Ev) (hok : okRun (init cfs v ds) evs = true) (ev : Ev) (i : Nat)
    (b b' : Node) (hb : (run (init cfs v ds) evs).nodes[i]? = some b)
    (hb' : (step (run (init cfs v ds) evs) ev).nodes[i]? = some b') (h1 : ev ≠ .load i)
    (h2 : ∀ k x, ev ≠ .foreign i k x) (k : Key)
    (hk : cfs.contains k.1 = false ∨ b.range.has k.2 = false) : b'.data k = b.data k := by
  have h := (inv_init hnd v ds hds).run hok
  have hcfs : (run (init cfs v ds) evs).cfs = cfs := run_cfs evs _
  refine step_outside h hb hb' h1 h2 ?_
  rw [hcfs]
  rintro ⟨g1, g2⟩
  rcases hk with hk | hk
  · rw [hk] at g1; cases g1
  · rw [hk] at g2; cases g2

/-- **C48.** A split applied by a replica leaves the child, on that store, with what the region held in
the child's range when the split was logged, and the region with the rest. -/
theorem C48_child_partial (cfs : List Nat) (hnd : cfs.Nodup) (v : View) (ds : List Data)
    (hds : sameStart cfs v ds) (evs : List Ev) (hok : okRun (init cfs v ds) evs = true) (i : Nat)
    (b : Node) (key : Bytes) (own : Bool) (hb : (run (init cfs v ds) evs).nodes[i]? = some b)
    (hup : b.phase = .up) (hlt : b.pos < b.have')
    (he : (run (init cfs v ds) evs).log[b.pos]? = some ⟨b.version, .split key⟩) :
    ∃ b', (step (run (init cfs v ds) evs) (.apply i own)).nodes[i]? = some b' ∧
      b'.kids = b.kids ++ [⟨b.range.lo, key⟩] ∧ b'.range = ⟨key, b.range.hi⟩ ∧
      b'.version = b.version + 1 ∧ b'.phase = .up ∧ b'.pos = b.pos + 1 ∧
      ∀ k : Key, cfs.contains k.1 = true →
        Range.has ⟨b.range.lo, key⟩ k.2 = true ∨ Range.has ⟨key, b.range.hi⟩ k.2 = true →
        b'.data k = (v.after ((run (init cfs v ds) evs).log.take b.pos)).data k := by
  have h := (inv_init hnd v ds hds).run hok
  have hcfs : (run (init cfs v ds) evs).cfs = cfs := run_cfs evs _
  generalize run (init cfs v ds) evs = s at *
  have hno := h.nodes i b hb
  have hst := hno.st
  unfold StOk at hst
  rw [hup] at hst
  rcases hst with ⟨_, n, h1, h2, h3, h4, h5⟩ | ⟨hbl, _, hi⟩
  · obtain ⟨_, hval⟩ := h.log _ _ he
    dsimp only at hval
    have hle := (h.log _ _ he).1
    dsimp only at hle
    obtain ⟨w1, w2⟩ := S_version v s.log h2 h1
    have hv := hval (by omega)
    unfold valid at hv
    simp only [Bool.and_eq_true, decide_eq_true_eq] at hv
    rw [← w2 (by omega), ← h4] at hv
    have hap : applyEntry b ⟨b.version, .split key⟩ own =
        { b with version := b.version + 1, range := ⟨key, b.range.hi⟩,
                 kids := b.kids ++ [⟨b.range.lo, key⟩], applied := b.pos + 1 } := by
      unfold applyEntry
      dsimp only
      rw [if_neg (by simp), if_pos hv]
    have hpn : b.pos = n := by
      rcases Nat.lt_or_ge b.pos n with hlt' | hge
      · have := (S_version v s.log hlt' h1).1
        rw [S_succ v he] at this
        unfold View.next at this
        rw [if_pos (by dsimp only; omega)] at this
        dsimp only at this
        omega
      · omega
    refine ⟨applyEntry b ⟨b.version, .split key⟩ own, ?_, ?_⟩
    · unfold step
      dsimp only
      rw [hb]
      dsimp only
      rw [if_pos ⟨hup, hlt⟩, he]
      dsimp only
      rw [List.getElem?_set_self (List.getElem?_eq_some_iff.1 hb).1]
    · rw [hap]
      refine ⟨rfl, rfl, rfl, hup, ?_, fun k hc hk => ?_⟩
      · unfold Node.pos; dsimp only; omega
      · dsimp only
        have hr : b.range.has k.2 = true := by
          rcases hk with hk | hk
          · exact has_mono (r := b.range) (q := ⟨b.range.lo, key⟩) (List.le_refl _) (List.le_of_lt hv.2) hk
          · exact has_mono (r := b.range) (q := ⟨key, b.range.hi⟩) (List.le_of_lt hv.1) (List.le_refl _) hk
        rcases h5 k (by rw [hcfs]; exact hc) hr with ⟨j, e, a1, a2, _⟩ | hd
        · omega
        · rw [hd, hpn]; rfl
  · have := (hno.blank0 hbl).2.2 hi; omega

/-- **C67.** A load, once begun, ends, with `last_included_index` as the applied index, also on disk;
the replica then holds what the region held after the first `n` entries, for some `n` not before that
index, except for keys that entries after that index will set again. -/
theorem C67_load_partial (cfs : List Nat) (hnd : cfs.Nodup) (v : View) (ds : List Data)
    (hds : sameStart cfs v ds) (evs : List Ev) (hok : okRun (init cfs v ds) evs = true) (i : Nat) (b : Node)
    (sn : Snap) (pc : Pc) (hb : (run (init cfs v ds) evs).nodes[i]? = some b) (hp : b.phase = .load pc)
    (hs : b.inst = some sn) :
    ∃ m b', (run (init cfs v ds) (evs ++ List.replicate m (.load i))).nodes[i]? = some b' ∧
      b'.phase = .up ∧ b'.applied = sn.last ∧ b'.saved = sn.last ∧
      ∃ n, sn.last ≤ n ∧ n ≤ (run (init cfs v ds) evs).log.length ∧
        b'.version = (v.after ((run (init cfs v ds) evs).log.take n)).version ∧
        b'.range = (v.after ((run (init cfs v ds) evs).log.take n)).range ∧
        ∀ k : Key, cfs.contains k.1 = true → b'.range.has k.2 = true →
          b'.data k = (v.after ((run (init cfs v ds) evs).log.take n)).data k ∨
          ∃ j e, sn.last ≤ j ∧ j < n ∧ (run (init cfs v ds) evs).log[j]? = some e ∧
            e.version = b'.version ∧ effect e.cmd k ≠ none := by
  have h := (inv_init hnd v ds hds).run hok
  obtain ⟨more, b', e1, e2, e3, e4, e5, e6, e7, e8⟩ := load_ends i _ _ b sn pc (Nat.le_refl _) hb hp hs
  have hrep : more = List.replicate more.length (.load i) := List.eq_replicate_iff.2 ⟨rfl, e1⟩
  have h0 := ((h.nodes i b hb).inst_ok sn hs).1.2.1
  have hok2 : okRun (init cfs v ds) (evs ++ more) = true := by rw [okRun_append, hok, e2]; rfl
  have hb2 : (run (init cfs v ds) (evs ++ more)).nodes[i]? = some b' := by rw [run_append]; exact e3
  have hlog : (run (init cfs v ds) (evs ++ more)).log = (run (init cfs v ds) evs).log := by
    rw [run_append]; exact e4
  obtain ⟨n, g1, g2, g3, g4, g5⟩ := C48_between_partial cfs hnd v ds hds (evs ++ more) hok2 i b' hb2 e6
    (by unfold Node.pos; omega)
  rw [hlog] at g2 g3 g4 g5
  have hpos : sn.last ≤ b'.pos := by unfold Node.pos; omega
  refine ⟨more.length, b', ?_, e6, e7, e8, n, by omega, g2, g3, g4, fun k hc hr => ?_⟩
  · rw [← hrep]; exact hb2
  · rcases g5 k hc hr with h | ⟨j, e, a1, a2, a3⟩
    · exact .inl h
    · exact .inr ⟨j, e, by omega, a2, a3⟩

/-- **C67.** A load changes no key before the region's range and none of a column family that is not the
region's.  (Keys after the range it does change, see `C67_others_false`.) -/
theorem C67_others_partial (cfs : List Nat) (hnd : cfs.Nodup) (v : View) (ds : List Data)
    (hds : sameStart cfs v ds) (evs : List Ev) (hok : okRun (init cfs v ds) evs = true) (i : Nat)
    (b b' : Node) (hb : (run (init cfs v ds) evs).nodes[i]? = some b)
    (hb' : (step (run (init cfs v ds) evs) (.load i)).nodes[i]? = some b') (k : Key)
    (hk : cfs.contains k.1 = false ∨ k.2 < b.range.lo) : b'.data k = b.data k := by
  have h := (inv_init hnd v ds hds).run hok
  have hcfs : (run (init cfs v ds) evs).cfs = cfs := run_cfs evs _
  exact load_outside h ((lows_init cfs v ds).run) hb hb' (by rw [hcfs]; exact hk)

end Verif.Replica
