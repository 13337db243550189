import Verif.PTable.CrashRep
import Verif.PTable.Props

/-!
# Properties C108 and C109: crashes inside `insertTuple`, one block

A history of a block is a list of inserts and of inserts that are interrupted by a crash behind the first `q` stores into the block
(after a restart the block is used as it was left; `insertTuple` does not run in a transaction).  Records that `hasEnoughSpace`
rejects are skipped.
-/

namespace Verif.PTable

/-- An insert, or an insert interrupted behind its first `q` stores. -/
inductive BEv
  | insert (vs : List Val)
  | crash (vs : List Val) (q : Nat)

/-- The record of the event. -/
def BEv.vals : BEv → List Val
  | .insert vs => vs
  | .crash vs _ => vs

/-- One event: the block and, for a completed insert, the record with the offsets returned for it. -/
def bstep (n : Nat) (b : Blk) : BEv → Res (Blk × List (List Val × List Nat))
  | .insert vs => do
    let e ← hasEnoughSpace n vs b
    if e then do
      let r ← insertBlk n vs b
      pure (r.1, [(vs, r.2)])
    else pure (b, [])
  | .crash vs q => do
    let e ← hasEnoughSpace n vs b
    if e then do
      let b ← insertBlkAt n vs b q
      pure (b, [])
    else pure (b, [])

/-- A history: the block and the completed inserts. -/
def bhist (n : Nat) : List BEv → Blk → Res (Blk × List (List Val × List Nat))
  | [], b => .ok (b, [])
  | e :: es, b => do
    let r ← bstep n b e
    let r' ← bhist n es r.1
    pure (r'.1, r.2 ++ r'.2)

/-! ## One event -/

theorem insertBlkAt_eq {n : Nat} {vs : List Val} {b b'' : Blk} {q : Nat} {ws : List Write} {os : List Nat}
    (e : insertBlkW n vs b = .ok (ws, os)) (h : stores b (ws.take q) = .ok b'') : insertBlkAt n vs b q = .ok b'' := by
  unfold insertBlkAt
  rw [e, Res.ok_bind, h]

theorem stores_all {b b' : Blk} {ws : List Write} (h : stores b ws = .ok b') {q : Nat} (hq : ws.length ≤ q) : stores b (ws.take q) = .ok b' := by
  rw [List.take_of_length_le hq, h]

theorem bstep_ok {sch : Schema} (hn : sch ≠ []) {b : Blk} {rows : List (List Val × List Nat)} (h : RepW sch b rows) (ev : BEv) (hv : Record sch ev.vals) :
    ∃ b' done add, bstep sch.length b ev = .ok (b', done) ∧ RepW sch b' (add ++ rows) ∧
      ((done = [] ∧ add = []) ∨ (∃ os, done = [] ∧ add = [(ev.vals, os)]) ∨ ∃ os, done = [(ev.vals, os)] ∧ add = [(ev.vals, os)]) ∧
      (RepB true sch b rows → RepB false sch b' (add ++ rows)) ∧ ((∃ vs, ev = .insert vs) → RepB true sch b rows → RepB true sch b' (add ++ rows)) := by
  cases ev with
  | insert vs =>
    obtain ⟨e, he, hf⟩ := hasEnoughSpaceW_ok h hv.1
    unfold bstep
    rw [show BEv.vals (.insert vs) = vs from rfl] at he hf hv ⊢
    dsimp only
    rw [he, Res.ok_bind]
    cases e with
    | false => exact ⟨b, [], [], rfl, h, Or.inl ⟨rfl, rfl⟩, RepB.mono h, fun _ h => h⟩
    | true =>
      obtain ⟨ws, b', os, e1, e2, f, hlen, hq⟩ := insertBlkW_ok hn h hv.1 hv.2 (hf rfl)
      obtain ⟨b'', g1, -, -, g4⟩ := hq ws.length
      rw [List.take_length, f] at g1
      cases g1
      rw [if_neg (by omega)] at g4
      refine ⟨b', [(vs, os)], [(vs, os)], ?_, g4.1, Or.inr (Or.inr ⟨os, rfl, rfl⟩), fun hb => RepB.mono g4.1 (g4.2 hb), fun _ => g4.2⟩
      rw [if_pos rfl, e2, Res.ok_bind]; rfl
  | crash vs q =>
    obtain ⟨e, he, hf⟩ := hasEnoughSpaceW_ok h hv.1
    unfold bstep
    rw [show BEv.vals (.crash vs q) = vs from rfl] at he hf hv ⊢
    dsimp only
    rw [he, Res.ok_bind]
    cases e with
    | false => exact ⟨b, [], [], rfl, h, Or.inl ⟨rfl, rfl⟩, RepB.mono h, fun ⟨_, h⟩ => by cases h⟩
    | true =>
      obtain ⟨ws, b', os, e1, e2, f, hlen, hq⟩ := insertBlkW_ok hn h hv.1 hv.2 (hf rfl)
      obtain ⟨b'', g1, -, -, g4⟩ := hq q
      rw [if_pos rfl, insertBlkAt_eq e1 g1, Res.ok_bind]
      by_cases hle : q + 2 ≤ ws.length
      · rw [if_pos hle] at g4
        exact ⟨b'', [], [], rfl, g4.1, Or.inl ⟨rfl, rfl⟩, g4.2, fun ⟨_, h⟩ => by cases h⟩
      · rw [if_neg hle] at g4
        exact ⟨b'', [], [(vs, os)], rfl, g4.1, Or.inr (Or.inl ⟨os, rfl, rfl⟩), fun hb => RepB.mono g4.1 (g4.2 hb), fun ⟨_, h⟩ => by cases h⟩

/-- A history: the rows of the block are the old ones and some of the events', among them all completed inserts. -/
theorem bhist_ok {sch : Schema} (hn : sch ≠ []) : ∀ (evs : List BEv) {b : Blk} {rows : List (List Val × List Nat)}, RepW sch b rows →
    (∀ ev ∈ evs, Record sch ev.vals) → ∃ b' done add, bhist sch.length evs b = .ok (b', done) ∧ RepW sch b' (add.reverse ++ rows) ∧
      done.Sublist add ∧ (add.map Prod.fst).Sublist (evs.map BEv.vals) ∧
      ((∀ ev ∈ evs, ∃ vs, ev = .insert vs) → RepB true sch b rows → RepB true sch b' (add.reverse ++ rows))
  | [], b, rows, h, _ => ⟨b, [], [], rfl, h, List.Sublist.refl _, List.Sublist.refl _, fun _ h => h⟩
  | ev :: evs, b, rows, h, hv => by
    obtain ⟨b1, done1, add1, e1, h1, hc, -, hB1⟩ := bstep_ok hn h ev (hv ev (List.mem_cons_self ..))
    obtain ⟨b2, done2, add2, e2, h2, hs2, hl2, hB2⟩ := bhist_ok hn evs h1 (fun ev' h' => hv ev' (List.mem_cons_of_mem _ h'))
    have hrev : add1.reverse = add1 := by
      rcases hc with ⟨-, rfl⟩ | ⟨os, -, rfl⟩ | ⟨os, -, rfl⟩ <;> rfl
    have hrows : (add1 ++ add2).reverse ++ rows = add2.reverse ++ (add1 ++ rows) := by
      rw [List.reverse_append, hrev, List.append_assoc]
    refine ⟨b2, done1 ++ done2, add1 ++ add2, ?_, by rw [hrows]; exact h2, ?_, ?_, fun hi hb => ?_⟩
    · rw [bhist, e1, Res.ok_bind]
      dsimp only
      rw [e2, Res.ok_bind]; rfl
    · refine List.Sublist.append ?_ hs2
      rcases hc with ⟨rfl, rfl⟩ | ⟨os, rfl, rfl⟩ | ⟨os, rfl, rfl⟩
      · exact List.Sublist.refl _
      · exact List.nil_sublist _
      · exact List.Sublist.refl _
    · rw [List.map_append, List.map_cons]
      rcases hc with ⟨-, rfl⟩ | ⟨os, -, rfl⟩ | ⟨os, -, rfl⟩
      · exact hl2.cons _
      · exact hl2.cons_cons _
      · exact hl2.cons_cons _
    · rw [hrows]
      exact hB2 (fun ev' h' => hi ev' (List.mem_cons_of_mem _ h')) (hB1 (hi ev (List.mem_cons_self ..)) hb)

theorem init_repW {sch : Schema} (hp : PagesBigEnough sch) {lo hi : Nat} (hlo : lo < 2 ^ 32) (hhi : hi < 2 ^ 32) :
    ∃ b, initBlock sch lo hi = .ok b ∧ RepW sch b [] ∧ RepB true sch b [] := by
  obtain ⟨b, e, h, -⟩ := initBlock_std hp hlo hhi
  exact ⟨b, e, h.weak⟩

theorem RepW.reads {sch : Schema} {b : Blk} {rows : List (List Val × List Nat)} (h : RepW sch b rows) {r : List Val × List Nat} (hr : r ∈ rows) :
    Reads sch b r := by
  obtain ⟨h1, h2⟩ := h.typed r hr
  refine ⟨by rw [← h1, List.length_map], h2, ?_⟩
  intro i t v o ht hv ho
  obtain ⟨v', o', e1, e2, e3⟩ := h.read hr ht
  rw [hv] at e1; rw [ho] at e2
  cases e1; cases e2
  exact e3

/-! ## C108 -/

/-- **C108**: every history of inserts into a new block and of inserts interrupted by a crash at any store runs without an error.  The records found in the
block by position are, in order, all records whose insert completed and some of the interrupted ones, each whole; each completed record is still
read through the offsets returned for it. -/
theorem C108_block {sch : Schema} (hn : sch ≠ []) (hp : PagesBigEnough sch) {lo hi : Nat} (hlo : lo < 2 ^ 32) (hhi : hi < 2 ^ 32)
    {evs : List BEv} (hv : ∀ ev ∈ evs, Record sch ev.vals) :
    ∃ b done l, (do let b ← initBlock sch lo hi; bhist sch.length evs b) = .ok (b, done) ∧ records sch b = .ok l ∧
      (done.map Prod.fst).Sublist l ∧ l.Sublist (evs.map BEv.vals) ∧ ∀ r ∈ done, Reads sch b r := by
  obtain ⟨b0, e0, h0, -⟩ := init_repW hp hlo hhi
  obtain ⟨b, done, add, e, h, hs, hl, -⟩ := bhist_ok hn evs h0 hv
  rw [List.append_nil] at h
  refine ⟨b, done, add.map Prod.fst, by rw [e0, Res.ok_bind, e], by rw [h.records, List.reverse_reverse], hs.map _, hl, fun r hr => h.reads ?_⟩
  exact List.mem_reverse.2 (hs.subset hr)

/-- C108, one crash: after any history, an interrupted insert leaves exactly the records of before, or these and the whole new record; there is a number of
stores below which it is the former, and the complete insert has one more. -/
theorem C108_crash {sch : Schema} (hn : sch ≠ []) (hp : PagesBigEnough sch) {lo hi : Nat} (hlo : lo < 2 ^ 32) (hhi : hi < 2 ^ 32)
    {evs : List BEv} (hv : ∀ ev ∈ evs, Record sch ev.vals) {b : Blk} {done : List (List Val × List Nat)}
    (hb : (do let b ← initBlock sch lo hi; bhist sch.length evs b) = .ok (b, done)) {l : List (List Val)} (hl : records sch b = .ok l)
    {vs : List Val} (hvs : Record sch vs) (hsp : hasEnoughSpace sch.length vs b = .ok true) :
    ∃ m, (∀ q, q ≤ m → ∃ b', insertBlkAt sch.length vs b q = .ok b' ∧ records sch b' = .ok l ∧ ∀ r ∈ done, Reads sch b' r) ∧
      (∀ q, m < q → ∃ b', insertBlkAt sch.length vs b q = .ok b' ∧ records sch b' = .ok (l ++ [vs]) ∧ ∀ r ∈ done, Reads sch b' r) ∧
      ∃ b' os, insertBlk sch.length vs b = .ok (b', os) ∧ ∀ q, m + 2 ≤ q → insertBlkAt sch.length vs b q = .ok b' := by
  obtain ⟨b0, e0, h0, -⟩ := init_repW hp hlo hhi
  obtain ⟨b1, done1, add, e, h, hs, -, -⟩ := bhist_ok hn evs h0 hv
  rw [e0, Res.ok_bind, e] at hb
  cases hb
  rw [List.append_nil] at h
  rw [h.records, List.reverse_reverse] at hl
  cases hl
  obtain ⟨a, ha, hf⟩ := hasEnoughSpaceW_ok h hvs.1
  rw [hsp] at ha
  cases ha
  obtain ⟨ws, b', os, e1, e2, f, hlen, hq⟩ := insertBlkW_ok hn h hvs.1 hvs.2 (hf rfl)
  refine ⟨ws.length - 2, fun q hle => ?_, fun q hlt => ?_, b', os, e2, fun q hle => insertBlkAt_eq e1 (stores_all f (by omega))⟩
  · obtain ⟨b'', g1, -, -, g4⟩ := hq q
    rw [if_pos (by omega)] at g4
    exact ⟨b'', insertBlkAt_eq e1 g1, by rw [g4.1.records, List.reverse_reverse], fun r hr => g4.1.reads (List.mem_reverse.2 (hs.subset hr))⟩
  · obtain ⟨b'', g1, -, -, g4⟩ := hq q
    rw [if_neg (by omega)] at g4
    refine ⟨b'', insertBlkAt_eq e1 g1, ?_, fun r hr => g4.1.reads (List.mem_cons_of_mem _ (List.mem_reverse.2 (hs.subset hr)))⟩
    rw [g4.1.records, List.reverse_cons, List.reverse_reverse, List.map_append]; rfl

/-! ## C109 -/

/-- The full statement of C109: after any history of inserts and crashes into a new block, the stored minimum and maximum of every column bound the
values of all records of the block. -/
def C109_statement : Prop :=
  ∀ (sch : Schema), PagesBigEnough sch → ∀ (lo hi : Nat), lo < 2 ^ 32 → hi < 2 ^ 32 → ∀ (evs : List BEv), (∀ ev ∈ evs, Record sch ev.vals) →
    ∀ (b : Blk) (done : List (List Val × List Nat)), (do let b ← initBlock sch lo hi; bhist sch.length evs b) = .ok (b, done) →
    ∀ (l : List (List Val)), records sch b = .ok l → l ≠ [] → ∀ (i : Nat) (t : Ty), sch[i]? = some t →
    ∃ mn mx, readSma b i t = .ok (mn, mx) ∧ ∀ vs ∈ l, ∀ v, vs[i]? = some v → ¬ v.less mn ∧ ¬ mx.less v

theorem RepW.sma_less {sch : Schema} {b : Blk} {rows : List (List Val × List Nat)} (h : RepW sch b rows) {i : Nat} {t : Ty} (ht : sch[i]? = some t)
    (hb : t = .str → RepB false sch b rows) {l : List (List Val)} (hl : PTable.records sch b = .ok l) (hne : l ≠ []) :
    ∃ mn mx, readSma b i t = .ok (mn, mx) ∧ ∀ vs ∈ l, ∀ v, vs[i]? = some v → ¬ v.less mn ∧ ¬ mx.less v := by
  rw [h.records] at hl
  cases hl
  obtain ⟨mn, mx, h1, -, -, h4⟩ := h.sma ht hb (by rintro rfl; exact hne rfl)
  refine ⟨mn, mx, h1, fun vs hvs v hv => ?_⟩
  obtain ⟨r, hr, rfl⟩ := List.mem_map.1 hvs
  have := h4 r (List.mem_reverse.1 hr) v hv
  exact ⟨(Val.not_lt_iff _ _).1 this.1, (Val.not_lt_iff _ _).1 this.2⟩

/-- **C109** for columns of integers and doubles, after any history; for all columns if only the last event is a crash.  Missing: string columns after a
crash followed by another insert (`C109_refuted`). -/
theorem C109_sma_partial {sch : Schema} (hp : PagesBigEnough sch) {lo hi : Nat} (hlo : lo < 2 ^ 32) (hhi : hi < 2 ^ 32)
    {evs : List BEv} (hv : ∀ ev ∈ evs, Record sch ev.vals) {b : Blk} {done : List (List Val × List Nat)}
    (hb : (do let b ← initBlock sch lo hi; bhist sch.length evs b) = .ok (b, done)) {l : List (List Val)} (hl : records sch b = .ok l) (hne : l ≠ [])
    {i : Nat} {t : Ty} (ht : sch[i]? = some t)
    (hs : t ≠ .str ∨ ∃ evs' ev, evs = evs' ++ [ev] ∧ ∀ e ∈ evs', ∃ vs, e = .insert vs) :
    ∃ mn mx, readSma b i t = .ok (mn, mx) ∧ ∀ vs ∈ l, ∀ v, vs[i]? = some v → ¬ v.less mn ∧ ¬ mx.less v := by
  have hn : sch ≠ [] := by rintro rfl; simp at ht
  obtain ⟨b0, e0, h0, hb0⟩ := init_repW hp hlo hhi
  rw [e0, Res.ok_bind] at hb
  rcases hs with hs | ⟨evs', ev, rfl, hins⟩
  · obtain ⟨b1, done1, add, e, h, -, -, -⟩ := bhist_ok hn evs h0 hv
    rw [e] at hb
    cases hb
    exact h.sma_less ht (fun h => absurd h hs) hl hne
  · have happ : ∀ (evs1 evs2 : List BEv) (b : Blk), bhist sch.length (evs1 ++ evs2) b =
        (bhist sch.length evs1 b >>= fun r => bhist sch.length evs2 r.1 >>= fun r' => pure (r'.1, r.2 ++ r'.2)) := by
      intro evs1
      induction evs1 with
      | nil =>
        intro evs2 b
        rw [List.nil_append, bhist, Res.ok_bind]
        dsimp only
        cases bhist sch.length evs2 b with
        | ok r => rfl
        | ub => rfl
        | throws => rfl
        | assertFail => rfl
      | cons e evs1 ih =>
        intro evs2 b
        rw [List.cons_append, bhist, bhist]
        cases bstep sch.length b e with
        | ok r =>
          rw [Res.ok_bind, Res.ok_bind, ih]
          cases bhist sch.length evs1 r.1 with
          | ok r1 =>
            rw [Res.ok_bind, Res.ok_bind]
            simp only [Res.pure_eq, Res.ok_bind]
            cases bhist sch.length evs2 r1.1 with
            | ok r2 => simp only [Res.ok_bind, List.append_assoc]
            | ub => rfl
            | throws => rfl
            | assertFail => rfl
          | ub => rfl
          | throws => rfl
          | assertFail => rfl
        | ub => rfl
        | throws => rfl
        | assertFail => rfl
    obtain ⟨b1, done1, add, e, h1, -, -, hB⟩ := bhist_ok hn evs' h0 (fun e he => hv e (List.mem_append_left _ he))
    have hB1 := hB hins hb0
    obtain ⟨b2, done2, add2, e2, h2, -, hB2, -⟩ := bstep_ok hn h1 ev (hv ev (by simp))
    rw [happ, e, Res.ok_bind, bhist, e2, Res.ok_bind] at hb
    cases hb
    exact h2.sma_less ht (fun _ => hB2 hB1) hl hne

/-- Consequence for range scans: a block skipped because of a predicate on an integer or double column has no matching record, after any history of inserts and
crashes. -/
theorem C109_skip_partial {sch : Schema} (hp : PagesBigEnough sch) {lo hi : Nat} (hlo : lo < 2 ^ 32) (hhi : hi < 2 ^ 32)
    {evs : List BEv} (hv : ∀ ev ∈ evs, Record sch ev.vals) {b : Blk} {done : List (List Val × List Nat)}
    (hb : (do let b ← initBlock sch lo hi; bhist sch.length evs b) = .ok (b, done)) {l : List (List Val)} (hl : records sch b = .ok l)
    {i : Nat} {t : Ty} (ht : sch[i]? = some t) (hs : t ≠ .str) {x y mn mx : Val} (hm : readSma b i t = .ok (mn, mx))
    (hskip : y.lt mn = true ∨ mx.lt x = true) : ∀ vs ∈ l, ∀ v, vs[i]? = some v → ¬ (x.le v ∧ v.le y) := by
  intro vs hvs v hv' ⟨h1, h2⟩
  obtain ⟨mn', mx', e, h4⟩ := C109_sma_partial hp hlo hhi hv hb hl (List.ne_nil_of_mem hvs) ht (Or.inl hs)
  rw [hm] at e
  cases e
  rcases hskip with h | h
  · exact (h4 vs hvs v hv').1 ((Val.lt_iff _ _).1 (le_lt h2 h))
  · exact (h4 vs hvs v hv').2 ((Val.lt_iff _ _).1 (lt_le h h1))

/-- A string column: `m` is inserted, the insert of `a` crashes when `a` is already the minimum but not counted, `z` is inserted in its place. -/
def exStrings : List BEv := [.insert [.str [109]], .crash [.str [97]] 5, .insert [.str [122]]]

theorem exStrings_ok : ∀ ev ∈ exStrings, Record [.str] ev.vals := by
  intro ev h
  simp only [exStrings, List.mem_cons, List.not_mem_nil, or_false] at h
  rcases h with rfl | rfl | rfl <;> exact ⟨rfl, by simp [Val.plain, BEv.vals]⟩

theorem exStrings_run : (do
    let b ← initBlock [.str] 0 15
    let r ← bhist 1 exStrings b
    let l ← records [.str] r.1
    let m ← readSma r.1 0 .str
    pure (r.2.map Prod.fst, l, m)) =
    Res.ok ([[.str [109]], [.str [122]]], [[.str [109]], [.str [122]]], (.str [122], .str [122])) := by
  decide +kernel

/-- **C109** as stated is false: the minimum of the block is `z` although it has `m`; a range scan for `m` skips the block. -/
theorem C109_refuted : ¬ C109_statement := by
  intro H
  obtain ⟨b0, e0, -⟩ := init_repW (sch := [.str]) (pagesBigEnough_of_length (by decide)) (lo := 0) (hi := 15) (by decide) (by decide)
  have hrun := exStrings_run
  rw [e0, Res.ok_bind] at hrun
  obtain ⟨r, er, hrun⟩ := Res.bind_eq_ok.1 hrun
  obtain ⟨l, el, hrun⟩ := Res.bind_eq_ok.1 hrun
  obtain ⟨m, em, hrun⟩ := Res.bind_eq_ok.1 hrun
  have hrun' := Res.ok.inj hrun
  simp only [Prod.mk.injEq] at hrun'
  obtain ⟨-, hl, hm⟩ := hrun'
  obtain ⟨mn, mx, e, h⟩ := H [.str] (pagesBigEnough_of_length (by decide)) 0 15 (by decide) (by decide) exStrings exStrings_ok r.1 r.2
    (by rw [e0, Res.ok_bind]; exact er) l el (by rw [hl]; simp) 0 .str rfl
  rw [em] at e
  rw [hm] at e
  cases e
  have := (h [.str [109]] (by rw [hl]; simp) (.str [109]) rfl).1
  exact this (by show ([109] : List UInt8) < [122]; decide)

/-! ## Concrete histories -/

/-- Three columns; an insert crashes behind ten stores, one behind the store of the count; the block has the two completed records and the second interrupted
one. -/
def exCrash : List BEv := [.insert [.int 7, .dbl 0x3FF8000000000000, .str [98, 111, 98]], .crash [.int 3, .dbl 0, .str [97]] 10,
  .insert [.int 0xFFFFFFFB, .dbl 0xC000000000000000, .str [97]], .crash [.int 9, .dbl 0, .str [122, 122]] 20]

theorem exCrash_ok : ∀ ev ∈ exCrash, Record exSchema ev.vals := by
  intro ev h
  simp only [exCrash, List.mem_cons, List.not_mem_nil, or_false] at h
  rcases h with rfl | rfl | rfl | rfl <;> exact ⟨rfl, by simp [Val.plain, BEv.vals]⟩

example : (do
    let b ← initBlock exSchema 0 1023
    let r ← bhist 3 exCrash b
    let l ← records exSchema r.1
    let m0 ← readSma r.1 0 .int
    let m2 ← readSma r.1 2 .str
    let w ← insertBlkW 3 [.int 9, .dbl 0, .str [122, 122]] r.1
    pure (r.2.map Prod.fst, l, m0, m2, w.1.length)) =
    Res.ok ([[.int 7, .dbl 0x3FF8000000000000, .str [98, 111, 98]], [.int 0xFFFFFFFB, .dbl 0xC000000000000000, .str [97]]],
      [[.int 7, .dbl 0x3FF8000000000000, .str [98, 111, 98]], [.int 0xFFFFFFFB, .dbl 0xC000000000000000, .str [97]], [.int 9, .dbl 0, .str [122, 122]]],
      (.int 0xFFFFFFFB, .int 9), (.str [97], .str [122, 122]), 19) := by
  decide +kernel

end Verif.PTable
