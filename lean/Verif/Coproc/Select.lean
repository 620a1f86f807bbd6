import Verif.Coproc.Pages

/-!
# Scans that filter and project rows
-/

namespace Verif.Coproc
open Verif.Codec Verif.Txn Verif.Scan

variable {F : Type}

theorem rowLoop_select {e : Env F} {q : Req} {p : Plan} {l : Lim} (hg : p.group = false) :
    ∀ {rows : List KV} {cnt : Nat} {bytes : Int} {m m' : Option (Mgr F)} {kvs rows' : List KV} {b : Bool},
    rowLoop e q p l rows cnt bytes m = .ok (kvs, b, m', rows') → ∃ u, rows = u ++ rows' ∧
      kvs = (kept e q u).filterMap (sent e l.keyOnly) ∧ (kvs = [] → rows' = []) ∧ (b = false → rows' = [])
  | [], cnt, bytes, m, m', kvs, rows', b, h => by
    simp only [rowLoop, Except.ok.injEq, Prod.mk.injEq] at h
    obtain ⟨rfl, rfl, rfl, rfl⟩ := h
    exact ⟨[], rfl, rfl, fun _ => rfl, fun _ => rfl⟩
  | kv :: rows, cnt, bytes, m, m', kvs, rows', b, h => by
    simp only [rowLoop, doRow] at h
    cases hr : readRow e q kv with
    | error x => rw [hr] at h; cases h
    | ok o =>
      rw [hr] at h
      cases o with
      | none =>
        obtain ⟨u, h1, h2, h3, h4⟩ := rowLoop_select hg h
        refine ⟨kv :: u, by rw [h1]; rfl, ?_, h3, h4⟩
        rw [readRow_kept hr u]
        exact h2
      | some r =>
        simp only [hg, Bool.false_eq_true, if_false] at h
        unfold selRow at h
        cases henc : e.encRow r with
        | throws => rw [henc] at h; cases h
        | neg =>
          rw [henc] at h
          obtain ⟨u, h1, h2, h3, h4⟩ := rowLoop_select hg h
          refine ⟨kv :: u, by rw [h1]; rfl, ?_, h3, h4⟩
          rw [readRow_kept hr u]
          simp only [Option.toList, List.singleton_append, List.filterMap_cons, sent, henc]
          exact h2
        | kv x =>
          rw [henc] at h
          simp only at h
          have hs : sent e l.keyOnly r = some (strip l x) := by simp only [sent, henc]; rfl
          split at h
          · simp only [Except.ok.injEq, Prod.mk.injEq] at h
            obtain ⟨rfl, rfl, rfl, rfl⟩ := h
            refine ⟨[kv], rfl, ?_, by simp, by simp⟩
            rw [readRow_kept hr []]
            simp [Option.toList, kept, hs]
          · split at h
            · cases h
            · rename_i kvs1 b1 m1 rows1 hrec
              simp only [Except.ok.injEq, Prod.mk.injEq] at h
              obtain ⟨rfl, rfl, rfl, rfl⟩ := h
              obtain ⟨u, h1, h2, h3, h4⟩ := rowLoop_select hg hrec
              refine ⟨kv :: u, by rw [h1]; rfl, ?_, by simp, h4⟩
              rw [readRow_kept hr u]
              simp only [Option.toList, List.singleton_append, List.filterMap_cons, hs, h2]

theorem page_select {e : Env F} {q : Req} {p : Plan} {l : Lim} (hg : p.group = false) {s s' : Ses F}
    {kvs : List KV} (h : page e q p l s = .ok (kvs, s')) : ∃ u, s.rows = u ++ s'.rows ∧
      kvs = (kept e q u).filterMap (sent e l.keyOnly) ∧ (kvs = [] → s'.rows = []) := by
  unfold page at h
  split at h
  · cases h
  · rename_i kvs0 m rows hr
    simp only [Except.ok.injEq, Prod.mk.injEq] at h
    obtain ⟨rfl, rfl⟩ := h
    obtain ⟨u, h1, h2, h3, _⟩ := rowLoop_select hg hr
    exact ⟨u, h1, h2, h3⟩
  · rename_i kvs0 m rows hr
    simp only [hg, Bool.false_eq_true, if_false, Except.ok.injEq, Prod.mk.injEq] at h
    obtain ⟨rfl, rfl⟩ := h
    obtain ⟨u, h1, h2, h3, _⟩ := rowLoop_select hg hr
    exact ⟨u, h1, h2, h3⟩

theorem kept_append (e : Env F) (q : Req) (a b : List KV) : kept e q (a ++ b) = kept e q a ++ kept e q b := by
  unfold kept
  rw [List.filterMap_append]

theorem pages_select {e : Env F} {q : Req} {p : Plan} (hg : p.group = false) {ko : Bool} :
    ∀ {ls : List Lim} {s s' : Ses F} {out : List (List KV)}, (∀ l ∈ ls, l.keyOnly = ko) →
    pages e q p ls s = .ok (out, s') → ∃ u, s.rows = u ++ s'.rows ∧
      out.flatten = (kept e q u).filterMap (sent e ko) ∧ ([] ∈ out → s'.rows = [])
  | [], s, s', out, _, h => by
    simp only [pages, Except.ok.injEq, Prod.mk.injEq] at h
    obtain ⟨rfl, rfl⟩ := h
    exact ⟨[], rfl, rfl, by simp⟩
  | l :: ls, s, s', out, hk, h => by
    simp only [pages] at h
    split at h
    · cases h
    · rename_i kvs s1 h1
      split at h
      · cases h
      · rename_i out' s2 h2
        simp only [Except.ok.injEq, Prod.mk.injEq] at h
        obtain ⟨rfl, rfl⟩ := h
        obtain ⟨u, hu1, hu2, hu3⟩ := page_select hg h1
        obtain ⟨w, hw1, hw2, hw3⟩ := pages_select hg (fun l hl => hk l (List.mem_cons_of_mem _ hl)) h2
        refine ⟨u ++ w, ?_, ?_, ?_⟩
        · rw [hu1, hw1, List.append_assoc]
        · rw [List.flatten_cons, hw2, hu2, kept_append, List.filterMap_append, hk l List.mem_cons_self]
        · intro hx
          rcases List.mem_cons.1 hx with hx | hx
          · have := hu3 hx.symm
            rw [hw1] at this
            exact (List.append_eq_nil_iff.1 this).2
          · exact hw3 hx

/-! ## Answers -/

theorem rowLoop_total {e : Env F} {q : Req} {p : Plan} {l : Lim} (hg : p.group = false) :
    ∀ {rows : List KV} (_ : ∀ kv ∈ rows, ∃ r, e.decode kv = some r ∧ (q.expr = true → ∃ b, e.keep r = some b) ∧
      e.encRow r ≠ .throws) (cnt : Nat) (bytes : Int) (m : Option (Mgr F)),
    ∃ kvs b m' rows', rowLoop e q p l rows cnt bytes m = .ok (kvs, b, m', rows') ∧ ∃ u, rows = u ++ rows'
  | [], _, cnt, bytes, m => ⟨[], false, m, [], rfl, [], rfl⟩
  | kv :: rows, h, cnt, bytes, m => by
    obtain ⟨r, hd, hk, hn⟩ := h kv List.mem_cons_self
    have ih := fun c b m => rowLoop_total (e := e) (q := q) (p := p) (l := l) hg
      (fun x hx => h x (List.mem_cons_of_mem _ hx)) c b m
    have skip : ∀ c b m, ∃ kvs b' m' rows', rowLoop e q p l rows c b m = .ok (kvs, b', m', rows') ∧
        ∃ u, kv :: rows = u ++ rows' := by
      intro c b m
      obtain ⟨kvs, b', m', rows', h1, u, h2⟩ := ih c b m
      exact ⟨kvs, b', m', rows', h1, kv :: u, by rw [h2]; rfl⟩
    have key : ∀ o, readRow e q kv = .ok o → (∀ r', o = some r' → r' = r) →
        ∃ kvs b m' rows', rowLoop e q p l (kv :: rows) cnt bytes m = .ok (kvs, b, m', rows') ∧
          ∃ u, kv :: rows = u ++ rows' := by
      intro o ho hor
      simp only [rowLoop, doRow, ho]
      cases o with
      | none => exact skip cnt bytes m
      | some r' =>
        rw [hor r' rfl]
        simp only [hg, Bool.false_eq_true, if_false, selRow]
        cases henc : e.encRow r with
        | throws => exact absurd henc hn
        | neg => exact skip cnt bytes m
        | kv x =>
          simp only
          split
          · exact ⟨_, _, _, rows, rfl, [kv], rfl⟩
          · obtain ⟨kvs, b', m', rows', h1, u, h2⟩ :=
              ih (uptoLimit l.keyOnly l.maxCnt l.maxBytes cnt bytes (strip l x)).2.1
                (uptoLimit l.keyOnly l.maxCnt l.maxBytes cnt bytes (strip l x)).2.2 m
            rw [h1]
            exact ⟨_, _, _, rows', rfl, kv :: u, by rw [h2]; rfl⟩
    cases hx : q.expr with
    | false =>
      refine key (some r) ?_ (by intro r' h'; exact (Option.some.inj h').symm)
      simp [readRow, hd, hx]
    | true =>
      obtain ⟨b, hb⟩ := hk hx
      cases b with
      | true =>
        refine key (some r) ?_ (by intro r' h'; exact (Option.some.inj h').symm)
        simp [readRow, hd, hx, hb]
      | false =>
        refine key none ?_ (by intro r' h'; cases h')
        simp [readRow, hd, hx, hb]

theorem pages_total {e : Env F} {q : Req} {p : Plan} (hg : p.group = false) : ∀ (ls : List Lim) (s : Ses F),
    (∀ kv ∈ s.rows, ∃ r, e.decode kv = some r ∧ (q.expr = true → ∃ b, e.keep r = some b) ∧ e.encRow r ≠ .throws) →
    ∃ out s', pages e q p ls s = .ok (out, s')
  | [], s, _ => ⟨[], s, rfl⟩
  | l :: ls, s, h => by
    obtain ⟨kvs, b, m', rows', h1, u, h2⟩ := rowLoop_total (p := p) (l := l) hg h 0 0 s.mgr
    have hrest : ∀ kv ∈ rows', ∃ r, e.decode kv = some r ∧ (q.expr = true → ∃ b, e.keep r = some b) ∧
        e.encRow r ≠ .throws := by
      intro kv hkv
      exact h kv (by rw [h2]; exact List.mem_append_right _ hkv)
    have hp : page e q p l s = .ok (kvs, { s with mgr := m', rows := rows' }) := by
      unfold page
      rw [h1]
      cases b with
      | true => rfl
      | false => simp only [hg, Bool.false_eq_true, if_false]
    obtain ⟨out, s', h3⟩ := pages_total hg ls { s with mgr := m', rows := rows' } hrest
    simp only [pages, hp, h3]
    exact ⟨_, _, rfl⟩

end Verif.Coproc
