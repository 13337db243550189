import Verif.PTable.Use

/-!
# Crashes inside `insertTuple`: the changes of one block

`insertTuple` runs outside of a transaction (PTable.hpp:956-960).  Its changes of a block are written out as a list of stores in
program order: `copyToByteArray` byte by byte, assignments through references as a whole.  A crash leaves the first `q` of
them.
-/

namespace Verif.PTable

/-! ## Model -/

/-- A store: position and bytes. -/
abbrev Write := Nat × List UInt8

/-- Perform stores one after the other. -/
def stores : Blk → List Write → Res Blk
  | b, [] => .ok b
  | b, w :: ws => do
    let b ← put b w.1 w.2
    stores b ws

/-- utils.hpp:30-34 `copyToByteArray`, byte by byte. -/
def copyW (off : Nat) : List UInt8 → List Write
  | [] => []
  | x :: l => (off, [x]) :: copyW (off + 1) l

/-- PTable.hpp:852-857, 876-881: the stores for a new minimum and maximum of a column of `w`-byte values. -/
def smaScalarW (w : Nat) (lt : Nat → Nat → Bool) (sma cnt x : Nat) (b : Blk) : Res (List Write) := do
  let mn ← rd b sma w
  let w1 := if lt x mn || cnt = 0 then [(sma, enc w x)] else []
  let b ← stores b w1
  let mx ← rd b (sma + w) w
  pure (w1 ++ if lt mx x || cnt = 0 then [(sma + w, enc w x)] else [])

/-- PTable.hpp:842-864 (`w = 4`), 866-886 (`w = 8`): the stores for a value in its column, and its offset. -/
def insertScalarW (w : Nat) (lt : Nat → Nat → Bool) (sma data cnt x : Nat) (b : Blk) : Res (List Write × Nat) := do
  let off := data + cnt * w
  let b ← stores b (copyW off (enc w x))
  let ws ← smaScalarW w lt sma cnt x b
  pure (copyW off (enc w x) ++ ws, off % 65536)

/-- PTable.hpp:913-926: the stores for minimum and maximum of a string column. -/
def smaStringW (sma cnt pos : Nat) (s : List UInt8) (b : Blk) : Res (List Write) :=
  if cnt ≠ 0 then do
    let mnPos ← rd b sma 2
    let mxPos ← rd b (sma + 2) 2
    let mn ← cstr b mnPos
    let mx ← cstr b mxPos
    if ltStr s mn then pure [(sma, enc 2 pos)]
    else if ltStr mx s then pure [(sma + 2, enc 2 pos)]
    else pure []
  else pure [(sma, enc 2 pos), (sma + 2, enc 2 pos)]

/-- PTable.hpp:888-932: the stores for a string: its offset, its bytes, the SMA. -/
def insertStringW (n idx sma data cnt : Nat) (s : List UInt8) (b : Blk) : Res (List Write × Nat) := do
  let slot := data + cnt * 2
  let pos ← (if cnt = 0 then do
      let e ← pageEnd b n idx
      pure (sub16 e (s.length + 1))
    else do
      let last ← rd b (slot - 2) 2
      pure (sub16 last (s.length + 1)))
  let ws := copyW slot (enc 2 pos) ++ copyW pos (s ++ [0])
  let b ← stores b ws
  let ws' ← smaStringW sma cnt pos s b
  pure (ws ++ ws', pos)

/-- PTable.hpp:838-938: the stores for one column. -/
def insertColW (n cnt idx : Nat) (v : Val) (b : Blk) : Res (List Write × Nat) := do
  let sma ← smaPos b idx
  let data ← dataPos b idx
  match v with
  | .int x => insertScalarW 4 ltInt sma data cnt x.toNat b
  | .dbl x => insertScalarW 8 ltDbl sma data cnt x.toNat b
  | .str s => insertStringW n idx sma data cnt s b

/-- PTable.hpp:838-938: the loop over the columns. -/
def insertColsW (n cnt : Nat) : Nat → List Val → Blk → Res (List Write × List Nat)
  | _, [], _ => .ok ([], [])
  | idx, v :: vs, b => do
    let r ← insertColW n cnt idx v b
    let b ← stores b r.1
    let r' ← insertColsW n cnt (idx + 1) vs b
    pure (r.1 ++ r'.1, r.2 :: r'.2)

/-- PTable.hpp:828-941: all stores of `insertTuple` in the block: the columns, `++cnt`, `freeSpace -= recordSize`. -/
def insertBlkW (n : Nat) (vs : List Val) (b : Blk) : Res (List Write × List Nat) := do
  let cnt ← count b
  let r ← insertColsW n cnt 0 vs b
  let b ← stores b (r.1 ++ [(8, enc 4 (cnt + 1))])
  let free ← rd b 12 2
  pure (r.1 ++ [(8, enc 4 (cnt + 1)), (12, enc 2 (sub16 free (vs.map Val.recSize).sum))], r.2)

/-- The block after a crash behind the first `q` stores. -/
def insertBlkAt (n : Nat) (vs : List Val) (b : Blk) (q : Nat) : Res Blk := do
  let r ← insertBlkW n vs b
  stores b (r.1.take q)

/-- PTable.hpp:160-204, 1005-1057: the records of a block, by position, as the scans and `splitBlock` read them; `n` records are
left. -/
def recordsFrom (sch : Schema) (b : Blk) : Nat → Nat → Res (List (List Val))
  | 0, _ => .ok []
  | n + 1, pos => do
    let os ← offsetsFrom b pos 0 sch
    let vs ← createTuple b sch os
    let rest ← recordsFrom sch b n (pos + 1)
    pure (vs :: rest)

def records (sch : Schema) (b : Blk) : Res (List (List Val)) := do
  let cnt ← count b
  recordsFrom sch b cnt 0

/-! ## Stores -/

theorem stores_append (b : Blk) : ∀ (ws ws' : List Write) (b : Blk), stores b (ws ++ ws') = (stores b ws >>= fun b => stores b ws')
  | [], _, _ => rfl
  | w :: ws, ws', b => by
    rw [List.cons_append, stores, stores]
    cases put b w.1 w.2 with
    | ok b' => rw [Res.ok_bind, Res.ok_bind, stores_append b ws ws' b']
    | ub => rfl
    | throws => rfl
    | assertFail => rfl

theorem put_cons {b : Blk} {off : Nat} {x : UInt8} {l : List UInt8} (h : off + (x :: l).length ≤ blockSize) :
    (put b off [x] >>= fun b => put b (off + 1) l) = put b off (x :: l) := by
  rw [List.length_cons] at h
  unfold put
  rw [if_pos (by simp only [List.length_cons, List.length_nil]; omega), Res.ok_bind, if_pos (by omega), if_pos (by rw [List.length_cons]; omega)]
  congr 1
  funext i
  dsimp only
  by_cases h1 : off + 1 ≤ i
  · obtain ⟨j, rfl⟩ : ∃ j, i = off + 1 + j := ⟨i - (off + 1), by omega⟩
    rw [if_pos h1, if_pos (by omega), if_pos (by omega), show off + 1 + j - (off + 1) = j by omega, show off + 1 + j - off = j + 1 by omega]
    simp
  · rw [if_neg h1]
    by_cases h2 : off ≤ i
    · have : i = off := by omega
      subst this
      simp
    · rw [if_neg h2, if_neg h2]

/-- Byte by byte is the same as at once. -/
theorem stores_copy : ∀ (l : List UInt8) (b : Blk) (off : Nat), off + l.length ≤ blockSize → stores b (copyW off l) = put b off l
  | [], b, off, h => by
    unfold put
    rw [if_pos h]
    show Res.ok b = _
    congr 1
    funext i
    split <;> simp
  | x :: l, b, off, h => by
    rw [← put_cons h, copyW, stores]
    rw [List.length_cons] at h
    cases put b off [x] with
    | ok b' => rw [Res.ok_bind, Res.ok_bind, stores_copy l b' (off + 1) (by omega)]
    | ub => rfl
    | throws => rfl
    | assertFail => rfl

theorem copyW_take : ∀ (l : List UInt8) (off q : Nat), (copyW off l).take q = copyW off (l.take q)
  | [], _, q => by simp [copyW]
  | x :: l, off, 0 => by simp [copyW]
  | x :: l, off, q + 1 => by rw [copyW, List.take_succ_cons, List.take_succ_cons, copyW, copyW_take l]

/-- Every state between the stores exists and has property `P`. -/
def Pre (P : Blk → Prop) (b : Blk) (ws : List Write) : Prop := ∀ q, ∃ b', stores b (ws.take q) = .ok b' ∧ P b'

theorem Pre.nil {P : Blk → Prop} {b : Blk} (h : P b) : Pre P b [] := fun q => ⟨b, by simp [stores], h⟩

theorem Pre.append {P : Blk → Prop} {b b1 : Blk} {ws ws' : List Write} (h : Pre P b ws) (e : stores b ws = .ok b1) (h' : Pre P b1 ws') :
    Pre P b (ws ++ ws') := by
  intro q
  by_cases hq : q ≤ ws.length
  · rw [List.take_append_of_le_length hq]; exact h q
  · obtain ⟨b', e', hb⟩ := h' (q - ws.length)
    refine ⟨b', ?_, hb⟩
    rw [List.take_append, List.take_of_length_le (by omega), stores_append b, e, Res.ok_bind, e']

theorem Pre.mono {P Q : Blk → Prop} {b : Blk} {ws : List Write} (h : Pre P b ws) (hPQ : ∀ b', P b' → Q b') : Pre Q b ws := fun q => by
  obtain ⟨b', e, hb⟩ := h q
  exact ⟨b', e, hPQ b' hb⟩

theorem Pre.copy {P : Blk → Prop} {b : Blk} {off : Nat} {l : List UInt8} (h : off + l.length ≤ blockSize)
    (hP : ∀ b', Within off (off + l.length) b b' → P b') : Pre P b (copyW off l) := by
  intro q
  rw [copyW_take, stores_copy _ _ _ (by rw [List.length_take]; omega)]
  obtain ⟨b', e, _, w⟩ := put_ok b (off := off) (l := l.take q) (by rw [List.length_take]; omega)
  exact ⟨b', e, hP b' (w.mono (Nat.le_refl _) (by rw [List.length_take]; omega))⟩

theorem Pre.one {P : Blk → Prop} {b b' : Blk} {off : Nat} {l : List UInt8} (e : put b off l = .ok b') (h : P b) (h' : P b') :
    Pre P b [(off, l)] := by
  intro q
  cases q with
  | zero => exact ⟨b, rfl, h⟩
  | succ q => exact ⟨b', by rw [List.take_of_length_le (by simp), stores]; rw [e]; rfl, h'⟩

theorem Pre.last {P : Blk → Prop} {b b' : Blk} {ws : List Write} (h : Pre P b ws) (e : stores b ws = .ok b') : P b' := by
  obtain ⟨b1, e1, h1⟩ := h ws.length
  rw [List.take_length, e] at e1
  cases e1
  exact h1

theorem Pre.first {P : Blk → Prop} {b : Blk} {ws : List Write} (h : Pre P b ws) : P b := by
  obtain ⟨b1, e1, h1⟩ := h 0
  rw [List.take_zero] at e1
  cases e1
  exact h1

theorem stores_one {b : Blk} {w : Write} : stores b [w] = put b w.1 w.2 := by
  rw [stores]
  cases put b w.1 w.2 <;> rfl

/-! ## Columns of fixed-size values -/

/-- The invariant of a column of fixed-size values under crashes: minimum and maximum are bounds, but need not be values of
the column. -/
structure ScalarColW (w : Nat) (lt : Nat → Nat → Bool) (sma data lim : Nat) (b : Blk) (rows : List (Nat × Nat)) : Prop where
  stored : ScalarRows w data b rows
  room : data + rows.length * w ≤ lim
  bounds : rows ≠ [] → ∃ mn mx, mn < 256 ^ w ∧ mx < 256 ^ w ∧ bytes b sma w = enc w mn ∧
    bytes b (sma + w) w = enc w mx ∧ ∀ x ∈ rows.map Prod.fst, lt x mn = false ∧ lt mx x = false

theorem ScalarCol.weak {w sma data lim : Nat} {lt : Nat → Nat → Bool} {b : Blk} {rows : List (Nat × Nat)}
    (h : ScalarCol w lt sma data lim b rows) : ScalarColW w lt sma data lim b rows := by
  refine ⟨h.stored, h.room, fun hr => ?_⟩
  obtain ⟨mn, mx, h1, h2, h3⟩ := h.bounds hr
  exact ⟨mn, mx, h.stored.lt _ h1, h.stored.lt _ h2, h3⟩

theorem ScalarColW.tail {w sma data lim : Nat} {lt : Nat → Nat → Bool} {b : Blk} {e : Nat × Nat} {rows : List (Nat × Nat)}
    (h : ScalarColW w lt sma data lim b (e :: rows)) : ScalarColW w lt sma data lim b rows := by
  refine ⟨h.stored.2.2.2, ?_, fun _ => ?_⟩
  · have := h.room
    rw [List.length_cons, Nat.add_mul] at this
    omega
  · obtain ⟨mn, mx, h1, h2, h3, h4, h5⟩ := h.bounds (by simp)
    exact ⟨mn, mx, h1, h2, h3, h4, fun x hx => h5 x (by rw [List.map_cons]; exact List.mem_cons_of_mem _ hx)⟩

theorem ScalarColW.frame {w sma data lim : Nat} {lt : Nat → Nat → Bool} {b b' : Blk} {rows : List (Nat × Nat)}
    (h : ScalarColW w lt sma data lim b rows) (hs : sma + 2 * w ≤ data) (ha : Agree sma (data + rows.length * w) b b') :
    ScalarColW w lt sma data lim b' rows := by
  refine ⟨h.stored.frame (lim := data + rows.length * w) (ha.mono (by omega) (Nat.le_refl _)) (Nat.le_refl _), h.room, fun hr => ?_⟩
  obtain ⟨mn, mx, h1, h2, h3, h4, h5⟩ := h.bounds hr
  exact ⟨mn, mx, h1, h2, by rw [ha.bytes (Nat.le_refl _) (by omega), h3], by rw [ha.bytes (by omega) (by omega), h4], h5⟩

theorem smaScalarW_ok {w sma data lim : Nat} {lt : Nat → Nat → Bool} (hirr : ∀ x, lt x x = false)
    (htr : ∀ x y z, lt x y = true → lt y z = true → lt x z = true) {b : Blk} {rows : List (Nat × Nat)}
    (h : ScalarColW w lt sma data lim b rows) (hs : sma + 2 * w ≤ data) (hd : data ≤ blockSize)
    {x o : Nat} (hx : x < 256 ^ w) :
    ∃ ws b', smaScalarW w lt sma rows.length x b = .ok ws ∧ smaScalar w lt sma rows.length x b = .ok b' ∧ stores b ws = .ok b' ∧
      Pre (fun b'' => Within sma data b b'' ∧ ScalarColW w lt sma data lim b'' rows) b ws ∧
      ∃ mn mx, mn < 256 ^ w ∧ mx < 256 ^ w ∧ bytes b' sma w = enc w mn ∧ bytes b' (sma + w) w = enc w mx ∧
        ∀ y ∈ ((x, o) :: rows).map Prod.fst, lt y mn = false ∧ lt mx y = false := by
  have keep : ∀ b'' : Blk, Within sma data b b'' → ScalarRows w data b'' rows := fun b'' hw =>
    h.stored.frame (lim := data + rows.length * w) (hw.agree (by omega)) (Nat.le_refl _)
  unfold smaScalarW smaScalar
  rw [rd_ok (by omega), Res.ok_bind, Res.ok_bind]
  by_cases hr : rows = []
  · subst hr
    obtain ⟨b1, e1, r1, w1⟩ := put_enc b (off := sma) (n := w) (x := x) (by omega)
    obtain ⟨b2, e2, r2, w2⟩ := put_enc b1 (off := sma + w) (n := w) (x := x) (by omega)
    have w1' : Within sma data b b1 := w1.mono (Nat.le_refl _) (by omega)
    have w2' : Within sma data b b2 := w1'.trans (w2.mono (by omega) (by omega))
    have hcol : ∀ b'' : Blk, ScalarColW w lt sma data lim b'' [] := fun b'' => ⟨trivial, h.room, fun h => absurd rfl h⟩
    refine ⟨[(sma, enc w x)] ++ [(sma + w, enc w x)], b2, ?_, ?_, ?_, ?_, x, x, hx, hx, ?_, r2, ?_⟩
    · simp only [List.length_nil, decide_true, Bool.or_true, if_true]
      rw [stores_one, e1, Res.ok_bind, rd_ok (by omega), Res.ok_bind]
      rfl
    · simp only [List.length_nil, decide_true, Bool.or_true, if_true]
      rw [e1, Res.ok_bind, rd_ok (by omega), Res.ok_bind, e2]
    · rw [stores_append b, stores_one, e1, Res.ok_bind, stores_one, e2]
    · exact (Pre.one e1 ⟨Within.refl _ _ _, hcol _⟩ ⟨w1', hcol _⟩).append (by rw [stores_one, e1]) (Pre.one e2 ⟨w1', hcol _⟩ ⟨w2', hcol _⟩)
    · rw [w2.bytes (by omega), r1]
    · intro y hy
      have : y = x := by simpa using hy
      subst this
      exact ⟨hirr _, hirr _⟩
  · obtain ⟨mn, mx, hmn, hmx, rmn, rmx, hall⟩ := h.bounds hr
    have hl : ¬ rows.length = 0 := by simpa using hr
    rw [rmn, dec_enc_lt hmn]
    simp only [hl, decide_false, Bool.or_false]
    have step1 : ∃ b1, stores b (if lt x mn = true then [(sma, enc w x)] else []) = .ok b1 ∧
        (if lt x mn = true then put b sma (enc w x) else Res.ok b) = .ok b1 ∧ Within sma (sma + w) b b1 ∧
        ∃ mn', mn' < 256 ^ w ∧ bytes b1 sma w = enc w mn' ∧ ∀ y ∈ ((x, o) :: rows).map Prod.fst, lt y mn' = false := by
      by_cases hc : lt x mn = true
      · obtain ⟨b1, e1, r1, w1⟩ := put_enc b (off := sma) (n := w) (x := x) (by omega)
        refine ⟨b1, by rw [if_pos hc, stores_one, e1], by rw [if_pos hc, e1], w1, x, hx, r1, ?_⟩
        intro y hy
        rw [List.map_cons, List.mem_cons] at hy
        rcases hy with rfl | hy
        · exact hirr _
        · by_contra hn
          rw [Bool.not_eq_false] at hn
          have := htr y x mn hn hc
          rw [(hall y hy).1] at this
          cases this
      · refine ⟨b, by rw [if_neg hc]; rfl, by rw [if_neg hc], Within.refl _ _ _, mn, hmn, rmn, ?_⟩
        intro y hy
        rw [List.map_cons, List.mem_cons] at hy
        rcases hy with rfl | hy
        · simpa using hc
        · exact (hall y hy).1
    obtain ⟨b1, f1, e1, w1, mn', hmn', rmn', hall1⟩ := step1
    have w1' : Within sma data b b1 := w1.mono (Nat.le_refl _) (by omega)
    have c1 : ScalarColW w lt sma data lim b1 rows := ⟨keep b1 w1', h.room, fun _ => ⟨mn', mx, hmn', hmx, rmn', by rw [w1.bytes (by omega), rmx],
      fun y hy => ⟨hall1 y (by rw [List.map_cons]; exact List.mem_cons_of_mem _ hy), (hall y hy).2⟩⟩⟩
    have p1 : Pre (fun b'' => Within sma data b b'' ∧ ScalarColW w lt sma data lim b'' rows) b (if lt x mn = true then [(sma, enc w x)] else []) := by
      by_cases hc : lt x mn = true
      · rw [if_pos hc] at e1 ⊢
        exact Pre.one e1 ⟨Within.refl _ _ _, h⟩ ⟨w1', c1⟩
      · rw [if_neg hc]
        exact Pre.nil ⟨Within.refl _ _ _, h⟩
    rw [f1, Res.ok_bind, e1, Res.ok_bind, rd_ok (by omega), Res.ok_bind, Res.ok_bind, w1.bytes (by omega), rmx, dec_enc_lt hmx]
    by_cases hc : lt mx x = true
    · obtain ⟨b2, e2, r2, w2⟩ := put_enc b1 (off := sma + w) (n := w) (x := x) (by omega)
      have w2' : Within sma data b b2 := w1'.trans (w2.mono (by omega) (by omega))
      have hall2 : ∀ y ∈ ((x, o) :: rows).map Prod.fst, lt x y = false := by
        intro y hy
        rw [List.map_cons, List.mem_cons] at hy
        rcases hy with rfl | hy
        · exact hirr _
        · by_contra hn
          rw [Bool.not_eq_false] at hn
          have := htr mx x y hc hn
          rw [(hall y hy).2] at this
          cases this
      have rmn2 : bytes b2 sma w = enc w mn' := by rw [w2.bytes (by omega), rmn']
      refine ⟨_, b2, by rw [if_pos hc]; rfl, by rw [if_pos hc, e2], by rw [stores_append b, f1, Res.ok_bind, stores_one, e2], ?_, mn', x, hmn', hx, rmn2, r2,
        fun y hy => ⟨hall1 y hy, hall2 y hy⟩⟩
      refine p1.append f1 (Pre.one e2 ⟨w1', c1⟩ ⟨w2', keep b2 w2', h.room, fun _ => ⟨mn', x, hmn', hx, rmn2, r2, fun y hy => ?_⟩⟩)
      have hy' : y ∈ ((x, o) :: rows).map Prod.fst := by rw [List.map_cons]; exact List.mem_cons_of_mem _ hy
      exact ⟨hall1 y hy', hall2 y hy'⟩
    · refine ⟨_, b1, by rw [if_neg hc]; rfl, by rw [if_neg hc], by rw [List.append_nil, f1], by rw [List.append_nil]; exact p1, mn', mx, hmn', hmx, rmn',
        by rw [w1.bytes (by omega), rmx], ?_⟩
      intro y hy
      refine ⟨hall1 y hy, ?_⟩
      rw [List.map_cons, List.mem_cons] at hy
      rcases hy with rfl | hy
      · simpa using hc
      · exact (hall y hy).2

theorem insertScalarW_ok {w sma data lim : Nat} {lt : Nat → Nat → Bool} (hirr : ∀ x, lt x x = false)
    (htr : ∀ x y z, lt x y = true → lt y z = true → lt x z = true) {b : Blk} {rows : List (Nat × Nat)}
    (h : ScalarColW w lt sma data lim b rows) (hs : sma + 2 * w ≤ data) (hd : lim ≤ blockSize) (hw : 1 ≤ w)
    {x : Nat} (hx : x < 256 ^ w) (hroom : data + (rows.length + 1) * w ≤ lim) :
    ∃ ws b', insertScalarW w lt sma data rows.length x b = .ok (ws, data + rows.length * w) ∧
      insertScalar w lt sma data rows.length x b = .ok (b', data + rows.length * w) ∧ stores b ws = .ok b' ∧
      Pre (fun b'' => Within sma lim b b'' ∧ ScalarColW w lt sma data lim b'' rows) b ws ∧
      ScalarColW w lt sma data lim b' ((x, data + rows.length * w) :: rows) := by
  have hm : (rows.length + 1) * w = rows.length * w + w := by rw [Nat.add_mul, Nat.one_mul]
  have hbs : blockSize = 32768 := rfl
  obtain ⟨b1, e1, r1, w1⟩ := put_enc b (off := data + rows.length * w) (n := w) (x := x) (by omega)
  have hc1 : stores b (copyW (data + rows.length * w) (enc w x)) = .ok b1 := by rw [stores_copy _ _ _ (by rw [enc_length]; omega), e1]
  have c1 : ScalarColW w lt sma data lim b1 rows := h.frame hs (w1.agree (by omega))
  obtain ⟨ws, b2, e2, e2', f2, p2, hsma⟩ := smaScalarW_ok hirr htr (o := data + rows.length * w) c1 hs (by omega) hx
  have w12 : Within sma lim b b1 := w1.mono (by omega) (by omega)
  have w2 : Within sma data b1 b2 := (p2.last f2).1
  refine ⟨copyW (data + rows.length * w) (enc w x) ++ ws, b2, ?_, ?_, by rw [stores_append b, hc1, Res.ok_bind, f2], ?_, ⟨⟨rfl, ?_, hx, ?_⟩, ?_, fun _ => hsma⟩⟩
  · unfold insertScalarW
    dsimp only
    rw [hc1, Res.ok_bind, e2, Res.ok_bind, Res.pure_eq, Nat.mod_eq_of_lt (by omega)]
  · unfold insertScalar
    dsimp only
    rw [e1, Res.ok_bind, e2', Res.ok_bind, Res.pure_eq, Nat.mod_eq_of_lt (by omega)]
  · refine Pre.append (Pre.copy (by rw [enc_length]; omega) fun b'' hb => ?_) hc1 (p2.mono fun b'' hb => ⟨w12.trans (hb.1.mono (Nat.le_refl _) (by omega)), hb.2⟩)
    rw [enc_length] at hb
    exact ⟨hb.mono (by omega) (by omega), h.frame hs (hb.agree (by omega))⟩
  · rw [w2.bytes (by omega), r1]
  · exact c1.stored.frame (lim := data + rows.length * w) (w2.agree (by omega)) (Nat.le_refl _)
  · rw [List.length_cons, hm]; omega

/-! ## String columns -/

/-- The invariant of a string column under crashes: minimum and maximum may be positions anywhere in the minipage. -/
structure StrColW (sma data lim : Nat) (b : Blk) (rows : List (List UInt8 × Nat)) : Prop where
  stored : StrRows data lim b rows
  room : data + rows.length * 2 ≤ top lim rows
  ptrs : rows ≠ [] → ∃ p q, p < lim ∧ q < lim ∧ bytes b sma 2 = enc 2 p ∧ bytes b (sma + 2) 2 = enc 2 q

theorem StrCol.weak {sma data lim : Nat} {b : Blk} {rows : List (List UInt8 × Nat)} (h : StrCol sma data lim b rows) :
    StrColW sma data lim b rows := by
  refine ⟨h.stored, h.room, fun hr => ?_⟩
  obtain ⟨mn, mx, h1, h2, h3, h4, _⟩ := h.bounds hr
  have := (h.stored.get mn h1).2.2.2
  have := (h.stored.get mx h2).2.2.2
  exact ⟨mn.2, mx.2, by omega, by omega, h3, h4⟩

theorem StrColW.tail {sma data lim : Nat} {b : Blk} {e : List UInt8 × Nat} {rows : List (List UInt8 × Nat)}
    (h : StrColW sma data lim b (e :: rows)) : StrColW sma data lim b rows := by
  obtain ⟨h1, h2, h3, h4, h5⟩ := h.stored
  refine ⟨h5, ?_, fun _ => h.ptrs (by simp)⟩
  have := h.room
  rw [List.length_cons, show top lim (e :: rows) = e.2 from rfl] at this
  omega

theorem StrColW.frame {sma data lim : Nat} {b b' : Blk} {rows : List (List UInt8 × Nat)} (h : StrColW sma data lim b rows)
    (hs : sma + 4 ≤ data) (ha : Agree sma (data + rows.length * 2) b b') (hb : Agree (top lim rows) lim b b') : StrColW sma data lim b' rows := by
  refine ⟨h.stored.frame (t := top lim rows) (ha.mono (by omega) (Nat.le_refl _)) hb (Nat.le_refl _), h.room, fun hn => ?_⟩
  obtain ⟨p, q, h1, h2, h3, h4⟩ := h.ptrs hn
  exact ⟨p, q, h1, h2, by rw [ha.bytes (Nat.le_refl _) (by omega), h3], by rw [ha.bytes (by omega) (by omega), h4]⟩

/-- The last byte of the minipage ends the oldest string. -/
theorem StrRows.nul {data lim : Nat} {b : Blk} : ∀ {rows : List (List UInt8 × Nat)}, StrRows data lim b rows → rows ≠ [] → b (lim - 1) = 0
  | [], _, h => absurd rfl h
  | [e], ⟨_, h2, h3, _, _⟩, _ => by
    have h2 : e.2 + (e.1.length + 1) = lim := h2
    rw [bytes_append b e.1.length 1 e.2] at h3
    have := (List.append_inj h3 (by simp)).2
    have : b (e.2 + e.1.length) = 0 := by simpa [bytes] using this
    rwa [show lim - 1 = e.2 + e.1.length by omega]
  | _ :: e :: rest, ⟨_, _, _, _, h5⟩, _ => h5.nul (by simp)

theorem cstrAux_reads {b : Blk} : ∀ (n off : Nat), (∃ j, off ≤ j ∧ j < off + n ∧ b j = 0) → ∃ s, cstrAux b off n = .ok s
  | 0, off, ⟨j, h1, h2, _⟩ => by omega
  | n + 1, off, ⟨j, h1, h2, h3⟩ => by
    rw [cstrAux]
    by_cases h0 : b off = 0
    · exact ⟨[], by rw [if_pos h0]⟩
    · have hne : j ≠ off := fun e => h0 (e ▸ h3)
      obtain ⟨s, hs⟩ := cstrAux_reads n (off + 1) ⟨j, by omega, by omega, h3⟩
      exact ⟨_, by rw [if_neg h0, hs, Res.ok_bind]; rfl⟩

theorem cstr_total {b : Blk} {p lim : Nat} (hp : p < lim) (hl : lim ≤ blockSize) (h0 : b (lim - 1) = 0) : ∃ s, cstr b p = .ok s :=
  cstrAux_reads _ _ ⟨lim - 1, by omega, by omega, h0⟩

theorem smaStringW_ok {sma data lim : Nat} {b : Blk} {rows : List (List UInt8 × Nat)} (h : StrColW sma data lim b rows)
    (hs : sma + 4 ≤ data) (hl : lim ≤ blockSize) (s : List UInt8) {o : Nat} (ho : o < lim) :
    ∃ ws b', smaStringW sma rows.length o s b = .ok ws ∧ smaString sma rows.length o s b = .ok b' ∧ stores b ws = .ok b' ∧
      Pre (fun b'' => Within sma data b b'' ∧ StrColW sma data lim b'' rows) b ws ∧
      ∃ p q, p < lim ∧ q < lim ∧ bytes b' sma 2 = enc 2 p ∧ bytes b' (sma + 2) 2 = enc 2 q := by
  have hroom := h.room
  have htop := h.stored.top_le
  have hbs : blockSize = 32768 := rfl
  have keep : ∀ b'' : Blk, Within sma data b b'' → StrRows data lim b'' rows := fun b'' hw =>
    h.stored.frame (t := top lim rows) (hw.agree (by omega)) (hw.agree (by omega)) (Nat.le_refl _)
  unfold smaStringW smaString
  by_cases hr : rows = []
  · subst hr
    obtain ⟨b1, e1, r1, w1⟩ := put_enc b (off := sma) (n := 2) (x := o) (by omega)
    obtain ⟨b2, e2, r2, w2⟩ := put_enc b1 (off := sma + 2) (n := 2) (x := o) (by omega)
    have w1' : Within sma data b b1 := w1.mono (Nat.le_refl _) (by omega)
    have w2' : Within sma data b b2 := w1'.trans (w2.mono (by omega) (by omega))
    have hcol : ∀ b'' : Blk, StrColW sma data lim b'' [] := fun b'' => ⟨trivial, h.room, fun h => absurd rfl h⟩
    refine ⟨[(sma, enc 2 o)] ++ [(sma + 2, enc 2 o)], b2, by rw [if_neg (by simp)]; rfl, by rw [if_neg (by simp), e1, Res.ok_bind, e2],
      by rw [stores_append b, stores_one, e1, Res.ok_bind, stores_one, e2], ?_, o, o, ho, ho, by rw [w2.bytes (by omega), r1], r2⟩
    exact (Pre.one e1 ⟨Within.refl _ _ _, hcol _⟩ ⟨w1', hcol _⟩).append (by rw [stores_one, e1]) (Pre.one e2 ⟨w1', hcol _⟩ ⟨w2', hcol _⟩)
  · obtain ⟨p, q, hp, hq, rp, rq⟩ := h.ptrs hr
    have hl0 : rows.length ≠ 0 := by simpa using hr
    have hnul := h.stored.nul hr
    have r1 : rd b sma 2 = .ok p := rd_enc (by omega) rp (by omega)
    have r2 : rd b (sma + 2) 2 = .ok q := rd_enc (by omega) rq (by omega)
    obtain ⟨mn, e1⟩ := cstr_total hp hl hnul
    obtain ⟨mx, e2⟩ := cstr_total hq hl hnul
    rw [if_pos hl0, if_pos hl0, r1, Res.ok_bind, Res.ok_bind, r2, Res.ok_bind, Res.ok_bind, e1, Res.ok_bind, Res.ok_bind, e2, Res.ok_bind, Res.ok_bind]
    by_cases hc : ltStr s mn = true
    · obtain ⟨b1, f1, q1, w1⟩ := put_enc b (off := sma) (n := 2) (x := o) (by omega)
      have w1' : Within sma data b b1 := w1.mono (Nat.le_refl _) (by omega)
      have hq1 : bytes b1 (sma + 2) 2 = enc 2 q := by rw [w1.bytes (by omega), rq]
      exact ⟨_, b1, by rw [if_pos hc]; rfl, by rw [if_pos hc, f1], by rw [stores_one, f1],
        Pre.one f1 ⟨Within.refl _ _ _, h⟩ ⟨w1', keep b1 w1', hroom, fun _ => ⟨o, q, ho, hq, q1, hq1⟩⟩, o, q, ho, hq, q1, hq1⟩
    · rw [if_neg hc, if_neg hc]
      by_cases hc2 : ltStr mx s = true
      · obtain ⟨b1, f1, q1, w1⟩ := put_enc b (off := sma + 2) (n := 2) (x := o) (by omega)
        have w1' : Within sma data b b1 := w1.mono (by omega) (by omega)
        have hp1 : bytes b1 sma 2 = enc 2 p := by rw [w1.bytes (by omega), rp]
        exact ⟨_, b1, by rw [if_pos hc2]; rfl, by rw [if_pos hc2, f1], by rw [stores_one, f1],
          Pre.one f1 ⟨Within.refl _ _ _, h⟩ ⟨w1', keep b1 w1', hroom, fun _ => ⟨p, o, hp, ho, hp1, q1⟩⟩, p, o, hp, ho, hp1, q1⟩
      · exact ⟨_, b, by rw [if_neg hc2]; rfl, by rw [if_neg hc2], rfl, Pre.nil ⟨Within.refl _ _ _, h⟩, p, q, hp, hq, rp, rq⟩

/-- The position for the next string. -/
theorem nextPosW_ok {n idx data lim : Nat} {b : Blk} {rows : List (List UInt8 × Nat)} (hst : StrRows data lim b rows)
    (hroom : data + rows.length * 2 ≤ top lim rows)
    (hl : lim ≤ blockSize) (he : pageEnd b n idx = .ok lim) {k : Nat} (hk : k ≤ top lim rows) :
    (if rows.length = 0 then do
        let e ← pageEnd b n idx
        pure (sub16 e k)
      else do
        let last ← rd b (data + rows.length * 2 - 2) 2
        pure (sub16 last k)) = .ok (top lim rows - k) := by
  have htop := hst.top_le
  have hbs : blockSize = 32768 := rfl
  have hsub : ∀ t, t ≤ 32768 → k ≤ t → sub16 t k = t - k := by intro t _ _; unfold sub16; omega
  cases rows with
  | nil =>
    rw [List.length_nil, if_pos rfl, he, Res.ok_bind]
    rw [show top lim [] = lim from rfl] at hk ⊢
    rw [hsub lim (by omega) hk]; rfl
  | cons e rest =>
    have ht : top lim (e :: rest) = e.2 := rfl
    rw [ht] at hk htop ⊢
    rw [if_neg (by simp), rd_enc (x := e.2) ?_ ?_ (by omega), Res.ok_bind, hsub e.2 (by omega) hk]
    · rfl
    · rw [List.length_cons] at hroom ⊢
      rw [ht] at hroom; omega
    · rw [List.length_cons, show data + (rest.length + 1) * 2 - 2 = data + rest.length * 2 by omega]
      exact hst.1

theorem insertStringW_ok {n idx sma data lim : Nat} {b : Blk} {rows : List (List UInt8 × Nat)} (h : StrColW sma data lim b rows)
    (hs : sma + 4 ≤ data) (hl : lim ≤ blockSize) (he : pageEnd b n idx = .ok lim) {s : List UInt8} (hz : (0 : UInt8) ∉ s)
    (hroom : data + (rows.length + 1) * 2 + (s.length + 1) ≤ top lim rows) :
    ∃ ws b', insertStringW n idx sma data rows.length s b = .ok (ws, top lim rows - (s.length + 1)) ∧
      insertString n idx sma data rows.length s b = .ok (b', top lim rows - (s.length + 1)) ∧ stores b ws = .ok b' ∧
      Pre (fun b'' => Within sma lim b b'' ∧ StrColW sma data lim b'' rows) b ws ∧
      StrColW sma data lim b' ((s, top lim rows - (s.length + 1)) :: rows) := by
  have htop := h.stored.top_le
  have hbs : blockSize = 32768 := rfl
  obtain ⟨b1, e1, r1, w1⟩ := put_enc b (off := data + rows.length * 2) (n := 2) (x := top lim rows - (s.length + 1)) (by omega)
  obtain ⟨b2, e2, r2, w2⟩ := put_ok b1 (off := top lim rows - (s.length + 1)) (l := s ++ [0]) (by simp; omega)
  have hlen : (s ++ [(0 : UInt8)]).length = s.length + 1 := by simp
  have k1 : stores b (copyW (data + rows.length * 2) (enc 2 (top lim rows - (s.length + 1)))) = .ok b1 := by
    rw [stores_copy _ _ _ (by rw [enc_length]; omega), e1]
  have k2 : stores b1 (copyW (top lim rows - (s.length + 1)) (s ++ [0])) = .ok b2 := by
    rw [stores_copy _ _ _ (by rw [hlen]; omega), e2]
  rw [hlen] at r2 w2
  have c1 : StrColW sma data lim b1 rows := h.frame hs (w1.agree (by omega)) (w1.agree (by omega))
  have c2 : StrColW sma data lim b2 rows := c1.frame hs (w2.agree (by omega)) (w2.agree (by omega))
  obtain ⟨ws, b3, e3, e3', f3, p3, hsma⟩ := smaStringW_ok c2 hs hl s (o := top lim rows - (s.length + 1)) (by omega)
  have w3 : Within sma data b2 b3 := (p3.last f3).1
  have w1' : Within sma lim b b1 := w1.mono (by omega) (by omega)
  have w2' : Within sma lim b b2 := w1'.trans (w2.mono (by omega) (by omega))
  have k12 : stores b (copyW (data + rows.length * 2) (enc 2 (top lim rows - (s.length + 1))) ++ copyW (top lim rows - (s.length + 1)) (s ++ [0])) = .ok b2 := by
    rw [stores_append b, k1, Res.ok_bind, k2]
  refine ⟨(copyW (data + rows.length * 2) (enc 2 (top lim rows - (s.length + 1))) ++ copyW (top lim rows - (s.length + 1)) (s ++ [0])) ++ ws, b3, ?_, ?_, ?_,
    ?_, ⟨⟨?_, ?_, ?_, hz, ?_⟩, ?_, fun _ => hsma⟩⟩
  · unfold insertStringW
    dsimp only
    rw [nextPosW_ok h.stored h.room hl he (k := s.length + 1) (by omega), Res.ok_bind, k12, Res.ok_bind, e3, Res.ok_bind]
    rfl
  · unfold insertString
    dsimp only
    rw [nextPosW_ok h.stored h.room hl he (k := s.length + 1) (by omega), Res.ok_bind, e1, Res.ok_bind, e2, Res.ok_bind, e3', Res.ok_bind]
    rfl
  · rw [stores_append b, k12, Res.ok_bind, f3]
  · refine Pre.append (Pre.append (Pre.copy (by rw [enc_length]; omega) fun b'' hb => ?_) k1 (Pre.copy (by rw [hlen]; omega) fun b'' hb => ?_)) k12
      (p3.mono fun b'' hb => ⟨w2'.trans (hb.1.mono (Nat.le_refl _) (by omega)), hb.2⟩)
    · rw [enc_length] at hb
      exact ⟨hb.mono (by omega) (by omega), h.frame hs (hb.agree (by omega)) (hb.agree (by omega))⟩
    · rw [hlen] at hb
      exact ⟨w1'.trans (hb.mono (by omega) (by omega)), c1.frame hs (hb.agree (by omega)) (hb.agree (by omega))⟩
  · rw [w3.bytes (by omega), w2.bytes (by omega), r1]
  · show top lim rows - (s.length + 1) + (s.length + 1) = _
    omega
  · show bytes b3 (top lim rows - (s.length + 1)) (s.length + 1) = _
    rw [w3.bytes (by omega), r2]
  · exact c2.stored.frame (t := top lim rows) (w3.agree (by omega)) (w3.agree (by omega)) (Nat.le_refl _)
  · rw [List.length_cons]
    show _ ≤ top lim rows - (s.length + 1)
    omega

end Verif.PTable
