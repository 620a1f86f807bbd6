import Verif.Backup.BackupLemmas
import Verif.Backup.RestoreLemmas

/-! # Backup and restore of a transactional region: properties C103 and C104 -/

namespace Verif.Backup
open Verif.Codec Verif.Txn

/-! ## C103 -/

theorem backup_eq {st : State} {tso : Int} {start stop : Bytes}
    (h : ∀ e ∈ picks tso (gcRecords st start stop) [] false, ¬ clash st e) :
    backup st tso start stop = .ok { write := picks tso (gcRecords st start stop) [] false
                                     data := (picks tso (gcRecords st start stop) [] false).filterMap (valueRec st) } := by
  have := backupLoop_picks (st := st) (tso := tso) (gcRecords st start stop) [] false {} h
  simpa [backup, gcRecords] using this

/-- C103: in every state reached by disciplined clients, also while garbage is collected, a
backup of a region at `tso` succeeds.  The file of write records holds, for each key of the
region, the record of the newest transaction committed on it at or below `tso`, and nothing
else; the file of data records holds the separately stored values of those records, and
nothing else. -/
theorem C103_backup {D : Bytes → TsOwner} {st : State} (h : GcReachable D st) (tso : Int) {start stop : Bytes}
    (hs : start ≠ []) :
    ∃ f, backup st tso start stop = .ok f ∧ f.Distinct ∧
      (∀ k c w, (⟨k, c⟩, w) ∈ f.write ↔ InRegion start stop k ∧ Newest st tso k c w) ∧
      (∀ k s v, (⟨k, s⟩, v) ∈ f.data ↔ (⟨k, s⟩, v) ∈ st.data.l ∧
        ∃ c w, InRegion start stop k ∧ Newest st tso k c w ∧ w.startTs = s) := by
  have hg := h.good
  have hmem := fun k c w => mem_picks_records hg.inv (tso := tso) (stop := stop) hs (k := k) (c := c) (w := w)
  refine ⟨_, backup_eq ?_, picks_distinct (asc_gcRecords st start stop), hmem, ?_⟩
  · rintro ⟨⟨k, c⟩, w⟩ he ⟨l, h1, h2⟩
    obtain ⟨_, b1, _, b3, _⟩ := (hmem k c w).1 he
    have := ((hg.dinv k).lock l h1).2.1
    exact this c w ((CF.mem_iff_get _ _ _).1 b1) b3 h2.symm
  · intro k s v
    simp only [List.mem_filterMap, valueRec, Option.map_eq_some_iff, Prod.mk.injEq, VKey.mk.injEq]
    constructor
    · rintro ⟨⟨⟨k', c⟩, w⟩, h1, v', h2, ⟨rfl, rfl⟩, rfl⟩
      exact ⟨(CF.mem_iff_get _ _ _).2 h2, c, w, ((hmem _ _ _).1 h1).1, ((hmem _ _ _).1 h1).2, rfl⟩
    · rintro ⟨h1, c, w, h2, h3, rfl⟩
      exact ⟨(⟨k, c⟩, w), (hmem k c w).2 ⟨h2, h3⟩, v, (CF.mem_iff_get _ _ _).1 h1, ⟨rfl, rfl⟩, rfl⟩

/-- C103: whatever the clients do, a backup is refused only because of a key that carries a
lock of the very transaction whose write would be backed up, and a backup that succeeds holds
no such write. -/
theorem C103_refused {st : State} (h : ValidReachable st) {tso : Int} {start stop : Bytes} (hs : start ≠ []) :
    (∀ k, backup st tso start stop = .foundLock k →
      ∃ c w l, InRegion start stop k ∧ Newest st tso k c w ∧ LockOn st k l ∧ l.lockTs = w.startTs) ∧
    (∀ f, backup st tso start stop = .ok f → ∀ k c w, InRegion start stop k → Newest st tso k c w →
      (⟨k, c⟩, w) ∈ f.write ∧ ∀ l, LockOn st k l → l.lockTs ≠ w.startTs) := by
  have hmem := fun k c w => mem_picks_records h.inv (tso := tso) (stop := stop) hs (k := k) (c := c) (w := w)
  by_cases hc : ∃ e ∈ picks tso (gcRecords st start stop) [] false, clash st e
  · obtain ⟨⟨⟨k, c⟩, w⟩, h1, ⟨l, h2, h3⟩, h4⟩ := backupLoop_clash _ _ _ {} hc
    have h4 : backup st tso start stop = .foundLock k := h4
    rw [h4]
    refine ⟨?_, fun f hf => by cases hf⟩
    intro k' hk'
    cases hk'
    exact ⟨c, w, l, ((hmem k c w).1 h1).1, ((hmem k c w).1 h1).2, (CF.mem_iff_get _ _ _).2 h2, h3⟩
  · have hc' : ∀ e ∈ picks tso (gcRecords st start stop) [] false, ¬ clash st e := fun e he hx => hc ⟨e, he, hx⟩
    rw [backup_eq hc']
    refine ⟨(by intro k hk; cases hk), ?_⟩
    intro f hf k c w h1 h2
    cases hf
    have hm := (hmem k c w).2 ⟨h1, h2⟩
    refine ⟨hm, fun l hl he => hc' _ hm ⟨l, (CF.mem_iff_get _ _ _).1 hl, he⟩⟩

/-! ## C104 -/

/-- C104: if all raft writes succeed, a restore answers success and puts every record of the
files into the region and changes nothing else, whatever the limits on the size of a request.
For an index or document region this needs a value in the backup for every write record (so
no deletions, see `C104_index_false`), and the values are added to the index, each once and
in order.  Restoring an index region without these hypotheses is `C104_refused`. -/
theorem C104_all_partial (c : Conf) (k : Kind) (f : Files) (hd : f.Distinct) {res : List WRes}
    (hres : ∀ r ∈ res, r = .ok)
    (hidx : k ≠ .store → ∀ e ∈ f.write, e.2.op = .put ∧ ∃ v, HasValue f e v ∧ c.parses v = true) :
    ∃ rs, restoreData c k f res = (some true, rs) ∧ (∀ st, Holds f st (applyReqs rs st)) ∧
      rs.flatMap RReq.del = [] ∧
      (if k = .indexed then
        (rs.flatMap RReq.add).length = f.write.length ∧
          ∀ (i : Nat) e v, f.write[i]? = some e → (rs.flatMap RReq.add)[i]? = some v → HasValue f e v
       else rs.flatMap RReq.add = []) := by
  have hval : ∀ e v, HasValue f e v → dataValue f e = some v := by
    intro e v hv
    unfold dataValue
    rcases hv with ⟨h1, rfl⟩ | ⟨h1, h2⟩
    · rw [if_pos h1]
    · rw [if_neg (by simpa using h1), lastPut_of_nodup hd.2 h2]
  have hval' : ∀ e v, dataValue f e = some v → HasValue f e v := by
    intro e v hv
    unfold dataValue at hv
    split at hv
    · rename_i h; cases hv; exact Or.inl ⟨h, rfl⟩
    · rename_i h; exact Or.inr ⟨by simpa using h, CF.lastPut_mem hv⟩
  by_cases hne : f.data = [] ∧ f.write = []
  · refine ⟨[], by simp [restoreData, hne], fun st => holds_of hd (by simp [hne]) (by simp [hne]) st, rfl, ?_⟩
    split
    · simp [hne.2]
    · rfl
  · let add : VKey × WriteInfo → List Bytes := fun e => if k = .indexed then (dataValue f e).toList else []
    have hone : k ≠ .store → ∀ s : RS, ∀ e ∈ f.write, ∃ s', indexOne c k f s e = .ok s' ∧ s'.done = s.done ∧
        s'.res = s.res ∧ s'.req.add = s.req.add ++ add e ∧ s'.req.del = s.req.del := by
      intro hk s e he
      obtain ⟨ho, v, hv, hp⟩ := hidx hk e he
      have hv := hval e v hv
      cases k with
      | store => exact absurd rfl hk
      | plainIndex => exact ⟨s, by simp [indexOne, hv], rfl, rfl, by simp [add], rfl⟩
      | indexed =>
        exact ⟨{ s with req := { s.req with add := s.req.add ++ [v] }, size := s.size + c.item v, count := s.count + 1 },
          by simp only [indexOne, hv, ho, hp, if_true], rfl, rfl, by simp [add, hv], rfl⟩
    obtain ⟨s0, e0⟩ : ∃ s0, (if k = .store then .ok { res := res }
        else loop c (indexOne c k f) f.write { res := res }) = .ok s0 := by
      by_cases hk : k = .store
      · exact ⟨_, if_pos hk⟩
      · rw [if_neg hk]
        obtain ⟨s0, b1, _⟩ := loop_ok c (put := indexOne c k f) (l := f.write) (s := { res := res }) hres
          (fun s e he => by obtain ⟨s', b1, b2, b3, _⟩ := hone hk s e he; exact ⟨s', b1, b2, b3⟩)
          (fun _ => True) (fun _ _ _ _ _ _ => trivial) (fun _ _ _ _ _ => trivial) trivial
        exact ⟨s0, b1⟩
    obtain ⟨s1, s2, e1, e2, r0, r1, h1, h2, h3, h4⟩ := restore_ok c k f hres e0 hne
    have a0 : tot RReq.add s0 = f.write.flatMap add ∧ tot RReq.del s0 = [] := by
      by_cases hk : k = .store
      · rw [if_pos hk] at e0
        cases e0
        refine ⟨?_, rfl⟩
        simp [tot, add, hk]
      · rw [if_neg hk] at e0
        refine ⟨?_, ?_⟩
        · rw [loop_tot c hres RReq.add rfl add (fun s e he => by
            obtain ⟨s', b1, b2, b3, b4, b5⟩ := hone hk s e he; exact ⟨s', b1, b2, b3, b4⟩) e0]
          simp [tot]
        · rw [loop_tot c hres RReq.del rfl (fun _ => []) (fun s e he => by
            obtain ⟨s', b1, b2, b3, b4, b5⟩ := hone hk s e he; exact ⟨s', b1, b2, b3, by simp [b5]⟩) e0]
          simp [tot]
    have a2 : tot RReq.add s2 = f.write.flatMap add := by
      rw [loop_tot c (put := putWrite c) r1 RReq.add rfl (fun _ => []) (fun s e _ => ⟨_, rfl, rfl, rfl, by simp⟩) e2,
        loop_tot c (put := putData c) r0 RReq.add rfl (fun _ => []) (fun s e _ => ⟨_, rfl, rfl, rfl, by simp⟩) e1, a0.1]
      simp
    have d2 : tot RReq.del s2 = [] := by
      rw [loop_tot c (put := putWrite c) r1 RReq.del rfl (fun _ => []) (fun s e _ => ⟨_, rfl, rfl, rfl, by simp⟩) e2,
        loop_tot c (put := putData c) r0 RReq.del rfl (fun _ => []) (fun s e _ => ⟨_, rfl, rfl, rfl, by simp⟩) e1, a0.2]
      simp
    have htot : ∀ {β : Type} (g : RReq → List β), (s2.done ++ [s2.req]).flatMap g = tot g s2 := by
      intro β g; simp [tot]
    refine ⟨s2.done ++ [s2.req], ?_, fun st => holds_of hd (by rw [htot, h2]) (by rw [htot, h3]) st,
      by rw [htot, d2], ?_⟩
    · unfold restoreData
      rw [if_neg hne, h1]
    · rw [htot, a2]
      by_cases hk : k = .indexed
      · rw [if_pos hk]
        have hmap : ∀ l : List (VKey × WriteInfo), (∀ e ∈ l, e ∈ f.write) →
            (l.flatMap add).length = l.length ∧
            ∀ (i : Nat) e v, l[i]? = some e → (l.flatMap add)[i]? = some v → HasValue f e v := by
          intro l
          induction l with
          | nil => intro _; simp
          | cons x l ih =>
            intro hl
            obtain ⟨_, v, hv, _⟩ := hidx (by rw [hk]; decide) x (hl x List.mem_cons_self)
            have hx : add x = [v] := by simp [add, hk, hval x v hv]
            obtain ⟨i1, i2⟩ := ih (fun e he => hl e (List.mem_cons_of_mem _ he))
            refine ⟨by simp [hx, i1], ?_⟩
            intro i e v' h5 h6
            simp only [List.flatMap_cons, hx, List.cons_append, List.nil_append] at h6
            cases i with
            | zero =>
              simp only [List.getElem?_cons_zero, Option.some.injEq] at h5 h6
              subst h5; subst h6; exact hv
            | succ i => exact i2 i e v' (by simpa using h5) (by simpa using h6)
        exact hmap f.write (fun _ h => h)
      · rw [if_neg hk]
        simp [add, hk]

/-- C104: a restore that is cut short after any number `n` of writes (the store crashes, or the
next write is answered with `EPERM`) has applied the first `n` of the requests that the whole
restore writes, no others. -/
theorem C104_stopped (c : Conf) (k : Kind) (f : Files) (n : Nat) (t : List WRes) :
    (restoreData c k f (List.replicate n .ok ++ .perm :: t)).2 = (restoreData c k f []).2.take n := by
  have hsnd : ∀ res, (restoreData c k f res).2 = (restoreTxn c k f res).2 := by
    intro res
    unfold restoreData
    split
    · rename_i h; simp [restoreTxn, h]
    · split <;> simp_all
  rw [hsnd, hsnd]
  unfold restoreTxn
  by_cases hne : f.data = [] ∧ f.write = []
  · simp [hne]
  · simp only [if_neg hne]
    have h0 : StopRel n t (if k = .store then .ok { res := [] } else loop c (indexOne c k f) f.write { res := [] })
        (if k = .store then .ok { res := List.replicate n .ok ++ .perm :: t }
          else loop c (indexOne c k f) f.write { res := List.replicate n .ok ++ .perm :: t }) := by
      by_cases hk : k = .store
      · rw [if_pos hk, if_pos hk]
        exact ⟨rfl, Or.inl ⟨Nat.zero_le _, rfl⟩⟩
      · rw [if_neg hk, if_neg hk]
        exact loop_stop c (fun s e s' h => ⟨(indexOne_done h).1, (indexOne_done h).2.1⟩) indexOne_res n t f.write
          { res := [] } rfl (Nat.zero_le _)
    generalize (if k = .store then .ok { res := [] } else loop c (indexOne c k f) f.write { res := [] } :
      Except (ROut × List RReq) RS) = x0 at h0 ⊢
    generalize (if k = .store then .ok { res := List.replicate n .ok ++ .perm :: t }
          else loop c (indexOne c k f) f.write { res := List.replicate n .ok ++ .perm :: t } :
      Except (ROut × List RReq) RS) = y0 at h0 ⊢
    -- an outcome already settled
    have hmono : ∀ (s : RS), s.done <+: (match loop c (putData c) f.data s with
        | .error x => x
        | .ok s => match loop c (putWrite c) f.write s with
          | .error x => x
          | .ok s => lastWrite s : ROut × List RReq).2 := by
      intro s
      have m1 := loop_mono c (put := putData c) (fun s e s' h => by cases h; rfl) f.data s
      cases h1 : loop c (putData c) f.data s with
      | error x => rw [h1] at m1; exact m1
      | ok s1 =>
        rw [h1] at m1
        simp only at m1 ⊢
        refine m1.trans ?_
        have m2 := loop_mono c (put := putWrite c) (fun s e s' h => by cases h; rfl) f.write s1
        cases h2 : loop c (putWrite c) f.write s1 with
        | error x => rw [h2] at m2; exact m2
        | ok s2 =>
          rw [h2] at m2
          simp only at m2 ⊢
          refine m2.trans ?_
          unfold lastWrite
          split
          · exact List.prefix_append _ _
          · exact List.prefix_refl _
          · simp only; split
            · exact List.prefix_append _ _
            · exact List.prefix_refl _
    have htake : ∀ {d d' : List RReq}, d <+: d' → n < d.length → d.take n = d'.take n := by
      rintro d d' ⟨e, rfl⟩ hlt
      rw [List.take_append_of_le_length (by omega)]
    cases x0 with
    | error x =>
      rcases h0 with ⟨a, rfl⟩ | ⟨a, rfl⟩
      · simp only; rw [List.take_of_length_le a]
      · rfl
    | ok s0 =>
      obtain ⟨z0, h0⟩ := h0
      rcases h0 with ⟨a, rfl⟩ | ⟨a, rfl⟩
      · simp only
        have h1 := loop_stop c (put := putData c) (fun s e s' h => by cases h; exact ⟨rfl, rfl⟩)
          (fun s e r => rfl) n t f.data s0 z0 a
        have hm1 := loop_mono c (put := putData c) (fun s e s' h => by cases h; rfl) f.data s0
        cases hx1 : loop c (putData c) f.data s0 with
        | error x =>
          rw [hx1] at h1
          rcases h1 with ⟨b, h1⟩ | ⟨b, h1⟩
          · rw [h1]; simp only; rw [List.take_of_length_le b]
          · rw [h1]
        | ok s1 =>
          rw [hx1] at h1
          obtain ⟨z1, h1⟩ := h1
          rcases h1 with ⟨b, h1⟩ | ⟨b, h1⟩
          · rw [h1]
            simp only
            have h2 := loop_stop c (put := putWrite c) (fun s e s' h => by cases h; exact ⟨rfl, rfl⟩)
              (fun s e r => rfl) n t f.write s1 z1 b
            cases hx2 : loop c (putWrite c) f.write s1 with
            | error x =>
              rw [hx2] at h2
              rcases h2 with ⟨d, h2⟩ | ⟨d, h2⟩
              · rw [h2]; simp only; rw [List.take_of_length_le d]
              · rw [h2]
            | ok s2 =>
              rw [hx2] at h2
              obtain ⟨z2, h2⟩ := h2
              have hl2 : lastWrite s2 = (.ok, s2.done ++ [s2.req]) := by unfold lastWrite; rw [z2]; rfl
              rcases h2 with ⟨d, h2⟩ | ⟨d, h2⟩
              · rw [h2]
                simp only [hl2]
                by_cases hlt : s2.done.length < n
                · obtain ⟨m, hm⟩ : ∃ m, n - s2.done.length = m + 1 := ⟨n - s2.done.length - 1, by omega⟩
                  rw [List.take_of_length_le (by simp; omega)]
                  unfold lastWrite stopped
                  simp only [hm, List.replicate_succ, List.cons_append, List.headD_cons]
                · have hm : n - s2.done.length = 0 := by omega
                  rw [List.take_append_of_le_length (by omega), List.take_of_length_le (by omega)]
                  unfold lastWrite stopped
                  simp only [hm, List.replicate_zero, List.nil_append, List.headD_cons]
              · rw [h2]
                simp only [hl2]
                exact htake (List.prefix_append _ _) d
          · rw [h1]
            simp only
            refine htake ?_ b
            have m2 := loop_mono c (put := putWrite c) (fun s e s' h => by cases h; rfl) f.write s1
            cases h2 : loop c (putWrite c) f.write s1 with
            | error x => rw [h2] at m2; exact m2
            | ok s2 =>
              rw [h2] at m2
              simp only at m2 ⊢
              refine m2.trans ?_
              unfold lastWrite
              split
              · exact List.prefix_append _ _
              · exact List.prefix_refl _
              · simp only; split
                · exact List.prefix_append _ _
                · exact List.prefix_refl _
      · simp only
        exact htake (hmono s0) a

/-- C104: a restore that is cut short after any number of writes leaves no write record whose
value is missing: once one write record has been applied, all data records have been. -/
theorem C104_cut (c : Conf) (k : Kind) (f : Files) (n : Nat)
    (h : ∃ e, e ∈ ((restoreData c k f []).2.take n).flatMap RReq.write) :
    ((restoreData c k f []).2.take n).flatMap RReq.data = f.data := by
  obtain ⟨e, he⟩ := h
  unfold restoreData at he ⊢
  by_cases hne : f.data = [] ∧ f.write = []
  · simp [hne] at he
  · rw [if_neg hne] at he ⊢
    have hin := index_none c k f []
    cases e0 : (if k = .store then .ok { res := [] } else loop c (indexOne c k f) f.write { res := [] } :
      Except (ROut × List RReq) RS) with
    | error x =>
      exfalso
      rw [e0] at hin
      have hx : restoreTxn c k f [] = x := by unfold restoreTxn; rw [if_neg hne, e0]
      rw [hx] at he
      have hmem : ∀ r ∈ (match x with | (.fatal, d) => (none, d) | (_, d) => (some true, d) :
          Option Bool × List RReq).2, r ∈ x.2 := by
        obtain ⟨o, d⟩ := x
        cases o <;> exact fun r hr => hr
      obtain ⟨r, hr, her⟩ := List.mem_flatMap.1 he
      have hw := (hin r (hmem r (List.mem_of_mem_take hr))).2
      rw [hw] at her
      cases her
    | ok s0 =>
      obtain ⟨s1, s2, _, _, _, _, h1, _, _, h4⟩ := restore_ok c k f (res := []) (by simp) e0 hne
      rw [h1] at he ⊢
      exact h4 n (fun hnil => by simp only at he; rw [hnil] at he; cases he)

/-- C104: an index or document region whose backup holds a write record without a value, such
as the record of a deletion, is not restored: nothing is put into the column families,
whatever becomes of the writes. -/
theorem C104_refused (c : Conf) {k : Kind} (hk : k ≠ .store) (f : Files) {e : VKey × WriteInfo} (he : e ∈ f.write)
    (hv : ∀ v, ¬ HasValue f e v) (res : List WRes) :
    ∀ r ∈ (restoreData c k f res).2, r.data = [] ∧ r.write = [] := by
  have hnv : dataValue f e = none := by
    unfold dataValue
    split
    · rename_i h; exact absurd (Or.inl ⟨h, rfl⟩) (hv e.2.shortValue)
    · rename_i h
      cases hl : CF.lastPut f.data ⟨e.1.key, e.2.startTs⟩ with
      | none => rfl
      | some v => exact absurd (Or.inr ⟨by simpa using h, CF.lastPut_mem hl⟩) (hv v)
  have hloop : ∀ (l : List (VKey × WriteInfo)) (s s' : RS), e ∈ l → loop c (indexOne c k f) l s ≠ .ok s' := by
    intro l
    induction l with
    | nil => intro _ _ h; cases h
    | cons x l ih =>
      intro s s' hx h
      simp only [loop] at h
      rcases List.mem_cons.1 hx with rfl | hx
      · simp only [indexOne, hnv] at h; cases h
      · cases h1 : indexOne c k f s x with
        | error o => rw [h1] at h; cases h
        | ok s1 =>
          rw [h1] at h
          simp only at h
          cases h2 : flushIf c s1 with
          | error x => rw [h2] at h; cases h
          | ok s2 => rw [h2] at h; exact ih s2 s' hx h
  have hne : ¬ (f.data = [] ∧ f.write = []) := by
    rintro ⟨_, h⟩; rw [h] at he; cases he
  have hin := index_none c k f res
  have hx : restoreTxn c k f res = match loop c (indexOne c k f) f.write { res := res } with
      | .error x => x
      | .ok s => (.ok, []) := by
    unfold restoreTxn
    rw [if_neg hne, if_neg hk]
    cases e0 : loop c (indexOne c k f) f.write { res := res } with
    | error x => rfl
    | ok s => exact absurd e0 (hloop _ _ _ he)
  rw [if_neg hk] at hin
  unfold restoreData
  rw [if_neg hne, hx]
  cases e0 : loop c (indexOne c k f) f.write { res := res } with
  | error x =>
    rw [e0] at hin
    obtain ⟨o, d⟩ := x
    cases o <;> exact hin
  | ok s => exact absurd e0 (hloop _ _ _ he)

/-- C104: whatever becomes of the writes, a restore puts only records of the backup into the
region, and no request holds more than one item above the limit. -/
theorem C104_only (c : Conf) (k : Kind) (f : Files) (res : List WRes) :
    ∀ r ∈ (restoreData c k f res).2, (∀ e ∈ r.data, e ∈ f.data) ∧ (∀ e ∈ r.write, e ∈ f.write) ∧
      r.items ≤ c.maxCount + 1 := by
  let P : RS → Prop := fun s => (∀ r ∈ s.done ++ [s.req], (∀ e ∈ r.data, e ∈ f.data) ∧ (∀ e ∈ r.write, e ∈ f.write) ∧
    r.items ≤ c.maxCount + 1) ∧ s.req.items ≤ s.count ∧ s.count ≤ c.maxCount
  let Q : List RReq → Prop := fun d => ∀ r ∈ d, (∀ e ∈ r.data, e ∈ f.data) ∧ (∀ e ∈ r.write, e ∈ f.write) ∧
    r.items ≤ c.maxCount + 1
  have hPQ : ∀ s, P s → Q s.done := fun s hs r hr => hs.1 r (List.mem_append_left _ hr)
  have hempty : (∀ e ∈ ({} : RReq).data, e ∈ f.data) ∧ (∀ e ∈ ({} : RReq).write, e ∈ f.write) ∧
      ({} : RReq).items ≤ c.maxCount + 1 := ⟨by simp, by simp, by simp [RReq.items]⟩
  have hinit : P { res := res } := by
    refine ⟨?_, by simp [RReq.items], Nat.zero_le _⟩
    intro r hr
    have hr : r = {} := by simpa using hr
    rw [hr]
    exact hempty
  -- one record taken up, and the request written out if it has become large
  have hflush : ∀ s s' s'' : RS, P s → s'.done = s.done → (∀ e ∈ s'.req.data, e ∈ f.data) →
      (∀ e ∈ s'.req.write, e ∈ f.write) → s'.req.items ≤ s'.count → s'.count ≤ s.count + 1 →
      flushIf c s' = .ok s'' → P s'' := by
    intro s s' s'' hp hd h1 h2 h3 h4 hf
    have hq : Q (s'.done ++ [s'.req]) := by
      intro r hr
      rcases List.mem_append.1 hr with hr | hr
      · rw [hd] at hr; exact hp.1 r (List.mem_append_left _ hr)
      · rw [List.mem_singleton.1 hr]; exact ⟨h1, h2, by have := hp.2.2; omega⟩
    have hnew : ∀ d : List RReq, Q d → P { done := d, res := s'.res.tail } := by
      intro d hd'
      refine ⟨?_, by simp [RReq.items], Nat.zero_le _⟩
      intro r hr
      rcases List.mem_append.1 hr with hr | hr
      · exact hd' r hr
      · rw [List.mem_singleton.1 hr]; exact hempty
    unfold flushIf at hf
    split at hf
    · unfold flush at hf
      split at hf
      · cases hf; exact hnew _ hq
      · cases hf
      · cases hf
        refine hnew _ ?_
        split
        · exact hq
        · exact fun r hr => hq r (List.mem_append_left _ hr)
    · rename_i hno
      cases hf
      exact ⟨hq, h3, by omega⟩
  have hidx : ∀ s s' : RS, ∀ e ∈ f.write, P s → indexOne c k f s e = .ok s' → ∀ s'', flushIf c s' = .ok s'' → P s'' := by
    intro s s' e _ hp h s'' hf
    obtain ⟨d1, d2, d3, d4⟩ := indexOne_done h
    have hreq := hp.1 s.req (by simp)
    have hcount : s'.req.items ≤ s'.count ∧ s'.count ≤ s.count + 1 := by
      have := hp.2.1
      unfold indexOne at h
      repeat' split at h
      all_goals first
        | (cases h; done)
        | (cases h; simp only [RReq.items, List.length_append, List.length_singleton] at *; omega)
    exact hflush s s' s'' hp d1 (by rw [d3]; exact hreq.1) (by rw [d4]; exact hreq.2.1) hcount.1 hcount.2 hf
  have hdat : ∀ s s' : RS, ∀ e ∈ f.data, P s → putData c s e = .ok s' → ∀ s'', flushIf c s' = .ok s'' → P s'' := by
    intro s s' e he hp h s'' hf
    have hreq := hp.1 s.req (by simp)
    simp only [putData, Except.ok.injEq] at h
    refine hflush s s' s'' hp (by rw [← h]) ?_ (by rw [← h]; exact hreq.2.1) ?_ (by rw [← h]; exact Nat.le_refl _) hf
    · rw [← h]
      intro x hx
      rcases List.mem_append.1 hx with hx | hx
      · exact hreq.1 x hx
      · rw [List.mem_singleton.1 hx]; exact he
    · have := hp.2.1
      rw [← h]
      simp only [RReq.items, List.length_append, List.length_singleton] at *; omega
  have hwri : ∀ s s' : RS, ∀ e ∈ f.write, P s → putWrite c s e = .ok s' → ∀ s'', flushIf c s' = .ok s'' → P s'' := by
    intro s s' e he hp h s'' hf
    have hreq := hp.1 s.req (by simp)
    simp only [putWrite, Except.ok.injEq] at h
    refine hflush s s' s'' hp (by rw [← h]) (by rw [← h]; exact hreq.1) ?_ ?_ (by rw [← h]; exact Nat.le_refl _) hf
    · rw [← h]
      intro x hx
      rcases List.mem_append.1 hx with hx | hx
      · exact hreq.2.1 x hx
      · rw [List.mem_singleton.1 hx]; exact he
    · have := hp.2.1
      rw [← h]
      simp only [RReq.items, List.length_append, List.length_singleton] at *; omega
  have hmain : Q (restoreTxn c k f res).2 := by
    unfold restoreTxn
    split
    · intro r hr; cases hr
    · have h0 : match (if k = .store then .ok { res := res } else loop c (indexOne c k f) f.write { res := res } :
          Except (ROut × List RReq) RS) with
          | .ok s => P s
          | .error x => Q x.2 := by
        by_cases hk : k = .store
        · rw [if_pos hk]; exact hinit
        · rw [if_neg hk]
          exact loop_inv c P Q hPQ hidx (fun s s' e _ _ h => (indexOne_done h).1) hinit
      split
      · rename_i x hx; rw [hx] at h0; exact h0
      · rename_i s hx
        rw [hx] at h0
        have h1 := loop_inv c P Q hPQ hdat (fun s s' e _ _ h => by cases h; rfl) h0
        split
        · rename_i x hx; rw [hx] at h1; exact h1
        · rename_i s hx
          rw [hx] at h1
          have h2 := loop_inv c P Q hPQ hwri (fun s s' e _ _ h => by cases h; rfl) h1
          split
          · rename_i x hx; rw [hx] at h2; exact h2
          · rename_i s hx
            rw [hx] at h2
            unfold lastWrite
            split
            · exact h2.1
            · exact hPQ s h2
            · simp only
              split
              · exact h2.1
              · exact hPQ s h2
  unfold restoreData
  split
  · intro r hr; cases hr
  · split
    · rename_i d h; rw [h] at hmain; exact hmain
    · rename_i d h; rw [h] at hmain; exact hmain

/-- C104: if no item is larger than `m`, no request is larger than `m` above the limit. -/
theorem C104_size (c : Conf) (k : Kind) (f : Files) (res : List WRes) {m : Nat}
    (hmd : ∀ e ∈ f.data, c.key e.1 + c.value e.2 ≤ m) (hmw : ∀ e ∈ f.write, c.key e.1 + c.write e.2 ≤ m)
    (hma : ∀ e ∈ f.write, ∀ v, HasValue f e v → c.item v ≤ m) :
    ∀ r ∈ (restoreData c k f res).2, r.bytes c ≤ c.maxSize + m := by
  let Q : List RReq → Prop := fun d => ∀ r ∈ d, r.bytes c ≤ c.maxSize + m
  let P : RS → Prop := fun s => Q (s.done ++ [s.req]) ∧ s.req.bytes c ≤ s.size ∧ s.size ≤ c.maxSize
  have hPQ : ∀ s, P s → Q s.done := fun s hs r hr => hs.1 r (List.mem_append_left _ hr)
  have hempty : ({} : RReq).bytes c ≤ c.maxSize + m := by simp [RReq.bytes]
  have hinit : P { res := res } := by
    refine ⟨?_, by simp [RReq.bytes], Nat.zero_le _⟩
    intro r hr
    have hr : r = {} := by simpa using hr
    rw [hr]
    exact hempty
  have hflush : ∀ s s' s'' : RS, P s → s'.done = s.done → s'.req.bytes c ≤ s'.size → s'.size ≤ s.size + m →
      flushIf c s' = .ok s'' → P s'' := by
    intro s s' s'' hp hd h3 h4 hf
    have hq : Q (s'.done ++ [s'.req]) := by
      intro r hr
      rcases List.mem_append.1 hr with hr | hr
      · rw [hd] at hr; exact hp.1 r (List.mem_append_left _ hr)
      · rw [List.mem_singleton.1 hr]; have := hp.2.2; omega
    have hnew : ∀ d : List RReq, Q d → P { done := d, res := s'.res.tail } := by
      intro d hd'
      refine ⟨?_, by simp [RReq.bytes], Nat.zero_le _⟩
      intro r hr
      rcases List.mem_append.1 hr with hr | hr
      · exact hd' r hr
      · rw [List.mem_singleton.1 hr]; exact hempty
    unfold flushIf at hf
    split at hf
    · unfold flush at hf
      split at hf
      · cases hf; exact hnew _ hq
      · cases hf
      · cases hf
        refine hnew _ ?_
        split
        · exact hq
        · exact fun r hr => hq r (List.mem_append_left _ hr)
    · rename_i hno
      cases hf
      exact ⟨hq, h3, by omega⟩
  have hidx : ∀ s s' : RS, ∀ e ∈ f.write, P s → indexOne c k f s e = .ok s' → ∀ s'', flushIf c s' = .ok s'' → P s'' := by
    intro s s' e he hp h s'' hf
    have hb : s'.req.bytes c ≤ s'.size ∧ s'.size ≤ s.size + m := by
      have := hp.2.1
      unfold indexOne at h
      split at h
      · cases h
      · rename_i v hv
        have hval : HasValue f e v := by
          unfold dataValue at hv
          split at hv
          · rename_i hne; cases hv; exact Or.inl ⟨hne, rfl⟩
          · rename_i hne; exact Or.inr ⟨by simpa using hne, CF.lastPut_mem hv⟩
        have := hma e he v hval
        repeat' split at h
        all_goals first
          | (cases h; done)
          | (cases h
             simp only [RReq.bytes, List.map_append, List.sum_append, List.map_cons, List.map_nil, List.sum_cons,
               List.sum_nil] at *
             omega)
    exact hflush s s' s'' hp (indexOne_done h).1 hb.1 hb.2 hf
  have hdat : ∀ s s' : RS, ∀ e ∈ f.data, P s → putData c s e = .ok s' → ∀ s'', flushIf c s' = .ok s'' → P s'' := by
    intro s s' e he hp h s'' hf
    have h1 := hp.2.1
    have h2 := hmd e he
    simp only [putData, Except.ok.injEq] at h
    refine hflush s s' s'' hp (by rw [← h]) ?_ (by rw [← h]; simp only; omega) hf
    rw [← h]
    simp only [RReq.bytes, List.map_append, List.sum_append, List.map_cons, List.map_nil, List.sum_cons,
      List.sum_nil] at *
    omega
  have hwri : ∀ s s' : RS, ∀ e ∈ f.write, P s → putWrite c s e = .ok s' → ∀ s'', flushIf c s' = .ok s'' → P s'' := by
    intro s s' e he hp h s'' hf
    have h1 := hp.2.1
    have h2 := hmw e he
    simp only [putWrite, Except.ok.injEq] at h
    refine hflush s s' s'' hp (by rw [← h]) ?_ (by rw [← h]; simp only; omega) hf
    rw [← h]
    simp only [RReq.bytes, List.map_append, List.sum_append, List.map_cons, List.map_nil, List.sum_cons,
      List.sum_nil] at *
    omega
  have hmain : Q (restoreTxn c k f res).2 := by
    unfold restoreTxn
    split
    · intro r hr; cases hr
    · have h0 : match (if k = .store then .ok { res := res } else loop c (indexOne c k f) f.write { res := res } :
          Except (ROut × List RReq) RS) with
          | .ok s => P s
          | .error x => Q x.2 := by
        by_cases hk : k = .store
        · rw [if_pos hk]; exact hinit
        · rw [if_neg hk]
          exact loop_inv c P Q hPQ hidx (fun s s' e _ _ h => (indexOne_done h).1) hinit
      split
      · rename_i x hx; rw [hx] at h0; exact h0
      · rename_i s hx
        rw [hx] at h0
        have h1 := loop_inv c P Q hPQ hdat (fun s s' e _ _ h => by cases h; rfl) h0
        split
        · rename_i x hx; rw [hx] at h1; exact h1
        · rename_i s hx
          rw [hx] at h1
          have h2 := loop_inv c P Q hPQ hwri (fun s s' e _ _ h => by cases h; rfl) h1
          split
          · rename_i x hx; rw [hx] at h2; exact h2
          · rename_i s hx
            rw [hx] at h2
            unfold lastWrite
            split
            · exact h2.1
            · exact hPQ s h2
            · simp only
              split
              · exact h2.1
              · exact hPQ s h2
  unfold restoreData
  split
  · intro r hr; cases hr
  · split
    · rename_i d h; rw [h] at hmain; exact hmain
    · rename_i d h; rw [h] at hmain; exact hmain

/-! ## C103: backup, then restore -/

/-- C103: a region backed up at `tso` and restored into an empty region, all writes having
succeeded, answers every snapshot read at or above `tso` with what the original region held at
`tso`, without any lock in the way; and it holds nothing outside the region backed up. -/
theorem C103_restored {D : Bytes → TsOwner} {st : State} (h : GcReachable D st) {tso : Int} {start stop : Bytes}
    (hs : start ≠ []) {f : Files} (hb : backup st tso start stop = .ok f) (c : Conf) {res : List WRes}
    (hres : ∀ r ∈ res, r = .ok) :
    ∃ rs, restoreData c .store f res = (some true, rs) ∧
      (∀ k, ¬ InRegion start stop k → ∀ t w, (⟨k, t⟩, w) ∉ (applyReqs rs State.init).write.l) ∧
      ∀ ts keys, (Req.get .si ts [] keys).Valid → tso ≤ ts → (∀ k ∈ keys, InRegion start stop k) →
        ∃ resp, (step (applyReqs rs State.init) (.get .si ts [] keys)).2 = .get (.ok resp) ∧
          resp.result = none ∧ resp.kvs.map Prod.fst = keys ∧
          ∀ kv ∈ resp.kvs, Snapshot st kv.1 tso (valueOf kv.2) := by
  obtain ⟨f', hb', hdist, hw, hd⟩ := C103_backup h tso (stop := stop) hs
  rw [hb] at hb'
  cases hb'
  obtain ⟨rs, hr, hh, _⟩ := C104_all_partial c .store f hdist hres (fun hk => absurd rfl hk)
  obtain ⟨a1, a2, a3, a4, a5, a6⟩ := hh State.init
  refine ⟨rs, hr, ?_, ?_⟩
  · intro k hk t w hmem
    by_cases hx : ∃ w', (⟨k, t⟩, w') ∈ f.write
    · obtain ⟨w', hx⟩ := hx
      exact hk ((hw k t w').1 hx).1
    · have := (a4 ⟨k, t⟩ (fun w' hx' => hx ⟨w', hx'⟩) w).1 hmem
      cases this
  have gw : ∀ k c w, (applyReqs rs State.init).write.get ⟨k, c⟩ = some w ↔ InRegion start stop k ∧ Newest st tso k c w := by
    intro k c w
    rw [← CF.mem_iff_get, ← hw]
    constructor
    · intro hm
      by_cases hx : ∃ w', (⟨k, c⟩, w') ∈ f.write
      · obtain ⟨w', hx⟩ := hx
        have h1 := (CF.mem_iff_get _ _ _).1 (a3 _ _ hx)
        rw [(CF.mem_iff_get _ _ _).1 hm] at h1
        cases h1
        exact hx
      · have := (a4 ⟨k, c⟩ (fun w' hx' => hx ⟨w', hx'⟩) w).1 hm
        cases this
    · exact a3 _ _
  have gd : ∀ k s v, (applyReqs rs State.init).data.get ⟨k, s⟩ = some v ↔ st.data.get ⟨k, s⟩ = some v ∧
      ∃ c w, InRegion start stop k ∧ Newest st tso k c w ∧ w.startTs = s := by
    intro k s v
    rw [← CF.mem_iff_get, ← CF.mem_iff_get, ← hd]
    constructor
    · intro hm
      by_cases hx : ∃ v', (⟨k, s⟩, v') ∈ f.data
      · obtain ⟨v', hx⟩ := hx
        have h1 := (CF.mem_iff_get _ _ _).1 (a5 _ _ hx)
        rw [(CF.mem_iff_get _ _ _).1 hm] at h1
        cases h1
        exact hx
      · have := (a6 ⟨k, s⟩ (fun v' hx' => hx ⟨v', hx'⟩) v).1 hm
        cases this
    · exact a5 _ _
  have gl : ∀ k, (applyReqs rs State.init).lock.get k = none := by
    intro k; rw [a1]; rfl
  have hgood : Good D (applyReqs rs State.init) := restored_good h.good gl gw gd
  intro ts keys hv hts hk
  have hg : Good D ((applyReqs rs State.init).access ts) := hgood.step hv (r := .get .si ts [] keys) trivial
  have hback : ∀ k ∈ keys, ∀ v, Snapshot (applyReqs rs State.init) k ts v → Snapshot st k tso v := by
    intro k hkk v hv'
    have hsnap := getWriteInfo_snapshot h.good.inv (k := k)
      (fun t w h1 h2 h3 => (h.good.dinv k).writeData t w h1 h2 h3) (ts := tso) (by have := hv.2.1; omega) (ts' := tso) rfl
    have := restored_snapshot h.good gw gd (hk k hkk) hts hsnap
    rw [hv'.unique this]
    exact hsnap
  rcases batchGetLoop_si hg hv.2.1 [] keys [] with ⟨kvs, h1, h2, h3, h4⟩ | ⟨kvs, l, h1, h2, k, h3, h4, h5⟩
  · refine ⟨{ kvs := [] ++ kvs }, by simp only [step, batchGet]; rw [h1], rfl, h2, ?_⟩
    intro kv hkv
    have hmem : kv.1 ∈ keys := by rw [← h2]; exact List.mem_map_of_mem hkv
    exact hback kv.1 hmem _ (h3 kv hkv)
  · exfalso
    have hl : (applyReqs rs State.init).lock.get k = some l := (CF.mem_iff_get _ _ _).1 h4
    rw [gl k] at hl
    cases hl

/-- C103: once the region has served a read at or above `tso`, and as long as clients then
commit above `tso`, a backup at `tso` taken later is the same: any disciplined history leaves
what is backed up, record by record, as it was.  That a client may still commit below `tso`,
and that the backup itself does not see to the first condition, is `C103_torn_false` and
`C103_onepc_false`. -/
theorem C103_repeat_partial {D : Bytes → TsOwner} {st : State} (h : GcReachable D st) {tso : Int} (hmx : tso ≤ st.maxTs)
    {rs : List Req} (hd : Disciplined D st rs) (ha : CommitsAbove tso rs) {start stop : Bytes} (hs : start ≠ []) :
    backup (run st rs) tso start stop = backup st tso start stop := by
  have hg := h.good
  have hg' := hg.run hd
  have noclash : ∀ {st : State}, Good D st → ∀ e ∈ picks tso (gcRecords st start stop) [] false, ¬ clash st e := by
    rintro st hg ⟨⟨k, c⟩, w⟩ he ⟨l, h1, h2⟩
    obtain ⟨_, b1, _, b3, _⟩ := (mem_picks_records hg.inv (tso := tso) (stop := stop) hs).1 he
    exact ((hg.dinv k).lock l h1).2.1 c w ((CF.mem_iff_get _ _ _).1 b1) b3 h2.symm
  rw [backup_eq (noclash hg), backup_eq (noclash hg')]
  have hcom : ∀ k s c, c ≤ tso → (CommittedOn (run st rs) k s c ↔ CommittedOn st k s c) := by
    intro k s c hle
    constructor
    · intro hc
      obtain ⟨w, h1, h2, h3⟩ := committedOn_iff.1 hc
      exact committedOn_iff.2 ⟨w, run_above hg hd hmx ha hle h1 h3, h2, h3⟩
    · intro hc
      obtain ⟨w, h1, h2, h3⟩ := committedOn_iff.1 hc
      exact committedOn_iff.2 ⟨w, run_keep hg hd h1, h2, h3⟩
  have hnew : ∀ k c w, Newest (run st rs) tso k c w ↔ Newest st tso k c w := by
    intro k c w
    constructor
    · rintro ⟨h1, h2, h3, h4⟩
      refine ⟨(CF.mem_iff_get _ _ _).2 (run_above hg hd hmx ha h2 ((CF.mem_iff_get _ _ _).1 h1) h3), h2, h3, ?_⟩
      exact fun s' c' hc hle => h4 s' c' ((hcom k s' c' hle).2 hc) hle
    · rintro ⟨h1, h2, h3, h4⟩
      refine ⟨(CF.mem_iff_get _ _ _).2 (run_keep hg hd ((CF.mem_iff_get _ _ _).1 h1)), h2, h3, ?_⟩
      exact fun s' c' hc hle => h4 s' c' ((hcom k s' c' hle).1 hc) hle
  have hasc := fun st : State => List.Pairwise.sublist (picks_sublist tso (gcRecords st start stop) [] false)
    (asc_gcRecords st start stop)
  have hp : picks tso (gcRecords (run st rs) start stop) [] false = picks tso (gcRecords st start stop) [] false := by
    have : (⟨_, hasc (run st rs)⟩ : CF VKey WriteInfo) = ⟨_, hasc st⟩ := by
      apply CF.ext_get
      rintro ⟨k, c⟩
      refine Option.ext (fun w => ?_)
      rw [← CF.mem_iff_get, ← CF.mem_iff_get]
      simp only
      rw [mem_picks_records hg'.inv hs, mem_picks_records hg.inv hs, hnew]
    exact congrArg CF.l this
  rw [hp]
  have hv : (picks tso (gcRecords st start stop) [] false).filterMap (valueRec (run st rs)) =
      (picks tso (gcRecords st start stop) [] false).filterMap (valueRec st) := by
    have hcongr : ∀ (l : List (VKey × WriteInfo)), (∀ e ∈ l, valueRec (run st rs) e = valueRec st e) →
        l.filterMap (valueRec (run st rs)) = l.filterMap (valueRec st) := by
      intro l
      induction l with
      | nil => exact fun _ => rfl
      | cons e l ih =>
        intro hl
        simp only [List.filterMap_cons, hl e (by simp), ih (fun x hx => hl x (by simp [hx]))]
    apply hcongr
    rintro ⟨⟨k, c⟩, w⟩ he
    obtain ⟨_, b1, _, b3, _⟩ := (mem_picks_records hg.inv (tso := tso) (stop := stop) hs).1 he
    have := run_keepData hg hd ((CF.mem_iff_get _ _ _).1 b1) b3
    simp only [view] at this
    simp only [valueRec, this]
  rw [hv]

end Verif.Backup
