import Verif.PTable.Layout

/-!
# One column of a block

The entries of a column are listed newest first; an entry is a value and its offset in the block.
-/

namespace Verif.PTable

/-- `b'` has the same bytes as `b` in `[lo, hi)`. -/
def Agree (lo hi : Nat) (b b' : Blk) : Prop := ∀ i, lo ≤ i → i < hi → b' i = b i

theorem Agree.bytes {lo hi : Nat} {b b' : Blk} (h : Agree lo hi b b') {off n : Nat} (h1 : lo ≤ off) (h2 : off + n ≤ hi) :
    bytes b' off n = bytes b off n := bytes_congr n off (fun i h3 h4 => h i (by omega) (by omega))

theorem Within.agree {lo hi lo' hi' : Nat} {b b' : Blk} (h : Within lo hi b b') (hd : hi' ≤ lo ∨ hi ≤ lo') :
    Agree lo' hi' b b' := fun i h1 h2 => h i (by omega)

theorem Agree.mono {lo hi lo' hi' : Nat} {b b' : Blk} (h : Agree lo hi b b') (h1 : lo ≤ lo') (h2 : hi' ≤ hi) :
    Agree lo' hi' b b' := fun i h3 h4 => h i (by omega) (by omega)

/-! ## Columns of fixed-size values -/

/-- The stored values of a column of `w`-byte values. -/
def ScalarRows (w data : Nat) (b : Blk) : List (Nat × Nat) → Prop
  | [] => True
  | e :: rest => e.2 = data + rest.length * w ∧ bytes b e.2 w = enc w e.1 ∧ e.1 < 256 ^ w ∧ ScalarRows w data b rest

/-- The invariant of such a column. -/
structure ScalarCol (w : Nat) (lt : Nat → Nat → Bool) (sma data lim : Nat) (b : Blk) (rows : List (Nat × Nat)) : Prop where
  stored : ScalarRows w data b rows
  room : data + rows.length * w ≤ lim
  bounds : rows ≠ [] → ∃ mn mx, mn ∈ rows.map Prod.fst ∧ mx ∈ rows.map Prod.fst ∧ bytes b sma w = enc w mn ∧
    bytes b (sma + w) w = enc w mx ∧ ∀ x ∈ rows.map Prod.fst, lt x mn = false ∧ lt mx x = false

theorem ScalarRows.frame {w data lim : Nat} {b b' : Blk} (ha : Agree data lim b b') :
    ∀ {rows : List (Nat × Nat)}, ScalarRows w data b rows → data + rows.length * w ≤ lim → ScalarRows w data b' rows
  | [], _, _ => trivial
  | e :: rest, ⟨h1, h2, h3, h4⟩, hl => by
    rw [List.length_cons, Nat.add_mul, Nat.one_mul] at hl
    exact ⟨h1, by rw [ha.bytes (by omega) (by omega), h2], h3, h4.frame ha (by omega)⟩

theorem ScalarCol.frame {w sma data lim : Nat} {lt : Nat → Nat → Bool} {b b' : Blk} {rows : List (Nat × Nat)}
    (h : ScalarCol w lt sma data lim b rows) (hs : sma + 2 * w ≤ data) (ha : Agree sma lim b b') :
    ScalarCol w lt sma data lim b' rows := by
  refine ⟨h.stored.frame (ha.mono (by omega) (Nat.le_refl _)) h.room, h.room, fun hr => ?_⟩
  obtain ⟨mn, mx, h1, h2, h3, h4, h5⟩ := h.bounds hr
  have := h.room
  exact ⟨mn, mx, h1, h2, by rw [ha.bytes (Nat.le_refl _) (by omega), h3], by rw [ha.bytes (by omega) (by omega), h4], h5⟩

theorem ScalarRows.lt {w data : Nat} {b : Blk} : ∀ {rows : List (Nat × Nat)}, ScalarRows w data b rows →
    ∀ x ∈ rows.map Prod.fst, x < 256 ^ w
  | e :: rest, ⟨_, _, h3, h4⟩, x, hx => by
    rcases List.mem_cons.1 hx with rfl | hx
    · exact h3
    · exact h4.lt x hx

theorem ScalarRows.get {w data : Nat} {b : Blk} : ∀ {rows : List (Nat × Nat)}, ScalarRows w data b rows →
    ∀ e ∈ rows, bytes b e.2 w = enc w e.1 ∧ e.1 < 256 ^ w ∧ data ≤ e.2 ∧ e.2 + w ≤ data + rows.length * w
  | e' :: rest, ⟨h1, h2, h3, h4⟩, e, he => by
    rw [List.length_cons, Nat.add_mul, Nat.one_mul]
    rcases List.mem_cons.1 he with rfl | he
    · exact ⟨h2, h3, by omega, by omega⟩
    · obtain ⟨a, b, c, d⟩ := h4.get e he
      exact ⟨a, b, c, by omega⟩

theorem smaScalar_ok {w sma data lim : Nat} {lt : Nat → Nat → Bool} (hirr : ∀ x, lt x x = false)
    (htr : ∀ x y z, lt x y = true → lt y z = true → lt x z = true) {b b0 : Blk} {rows : List (Nat × Nat)}
    (h : ScalarCol w lt sma data lim b0 rows) (hb : Agree sma data b0 b) (hs : sma + 2 * w ≤ data) (hd : data ≤ blockSize)
    {x o : Nat} (hx : x < 256 ^ w) :
    ∃ b', smaScalar w lt sma rows.length x b = .ok b' ∧ Within sma data b b' ∧
      ∃ mn mx, mn ∈ ((x, o) :: rows).map Prod.fst ∧ mx ∈ ((x, o) :: rows).map Prod.fst ∧ bytes b' sma w = enc w mn ∧
        bytes b' (sma + w) w = enc w mx ∧ ∀ y ∈ ((x, o) :: rows).map Prod.fst, lt y mn = false ∧ lt mx y = false := by
  unfold smaScalar
  rw [rd_ok (by omega), Res.ok_bind]
  by_cases hr : rows = []
  · subst hr
    obtain ⟨b1, e1, r1, w1⟩ := put_enc b (off := sma) (n := w) (x := x) (by omega)
    obtain ⟨b2, e2, r2, w2⟩ := put_enc b1 (off := sma + w) (n := w) (x := x) (by omega)
    refine ⟨b2, ?_, (w1.mono (Nat.le_refl _) (by omega)).trans (w2.mono (by omega) (by omega)), x, x, by simp, by simp, ?_, r2, ?_⟩
    · simp only [List.length_nil, decide_true, Bool.or_true, if_true]
      rw [e1, Res.ok_bind, rd_ok (by omega), Res.ok_bind, e2]
    · rw [w2.bytes (by omega), r1]
    · intro y hy
      have : y = x := by simpa using hy
      subst this
      exact ⟨hirr _, hirr _⟩
  · obtain ⟨mn, mx, hmn, hmx, rmn, rmx, hall⟩ := h.bounds hr
    have hl : ¬ rows.length = 0 := by simpa using hr
    rw [hb.bytes (Nat.le_refl _) (by omega), rmn, dec_enc_lt (h.stored.lt _ hmn)]
    simp only [hl, decide_false, Bool.or_false]
    have step1 : ∃ b1, (if lt x mn = true then put b sma (enc w x) else Res.ok b) = .ok b1 ∧ Within sma (sma + w) b b1 ∧
        ∃ mn', mn' ∈ ((x, o) :: rows).map Prod.fst ∧ bytes b1 sma w = enc w mn' ∧
          ∀ y ∈ ((x, o) :: rows).map Prod.fst, lt y mn' = false := by
      by_cases hc : lt x mn = true
      · obtain ⟨b1, e1, r1, w1⟩ := put_enc b (off := sma) (n := w) (x := x) (by omega)
        refine ⟨b1, by rw [if_pos hc, e1], w1, x, by simp, r1, ?_⟩
        intro y hy
        rw [List.map_cons, List.mem_cons] at hy
        rcases hy with rfl | hy
        · exact hirr _
        · by_contra hn
          rw [Bool.not_eq_false] at hn
          have := htr y x mn hn hc
          rw [(hall y hy).1] at this
          cases this
      · refine ⟨b, by rw [if_neg hc], Within.refl _ _ _, mn, by rw [List.map_cons]; exact List.mem_cons_of_mem _ hmn, ?_, ?_⟩
        · rw [hb.bytes (Nat.le_refl _) (by omega), rmn]
        · intro y hy
          rw [List.map_cons, List.mem_cons] at hy
          rcases hy with rfl | hy
          · simpa using hc
          · exact (hall y hy).1
    obtain ⟨b1, e1, w1, mn', hmn', rmn', hall1⟩ := step1
    rw [e1, Res.ok_bind, rd_ok (by omega), Res.ok_bind, w1.bytes (by omega), hb.bytes (by omega) (by omega), rmx,
      dec_enc_lt (h.stored.lt _ hmx)]
    by_cases hc : lt mx x = true
    · obtain ⟨b2, e2, r2, w2⟩ := put_enc b1 (off := sma + w) (n := w) (x := x) (by omega)
      refine ⟨b2, by rw [if_pos hc, e2], (w1.mono (Nat.le_refl _) (by omega)).trans (w2.mono (by omega) (by omega)),
        mn', x, hmn', by simp, by rw [w2.bytes (by omega), rmn'], r2, ?_⟩
      intro y hy
      refine ⟨hall1 y hy, ?_⟩
      rw [List.map_cons, List.mem_cons] at hy
      rcases hy with rfl | hy
      · exact hirr _
      · by_contra hn
        rw [Bool.not_eq_false] at hn
        have := htr mx x y hc hn
        rw [(hall y hy).2] at this
        cases this
    · refine ⟨b1, by rw [if_neg hc], w1.mono (Nat.le_refl _) (by omega), mn', mx, hmn',
        by rw [List.map_cons]; exact List.mem_cons_of_mem _ hmx, rmn',
        by rw [w1.bytes (by omega), hb.bytes (by omega) (by omega), rmx], ?_⟩
      intro y hy
      refine ⟨hall1 y hy, ?_⟩
      rw [List.map_cons, List.mem_cons] at hy
      rcases hy with rfl | hy
      · simpa using hc
      · exact (hall y hy).2

theorem insertScalar_ok {w sma data lim : Nat} {lt : Nat → Nat → Bool} (hirr : ∀ x, lt x x = false)
    (htr : ∀ x y z, lt x y = true → lt y z = true → lt x z = true) {b : Blk} {rows : List (Nat × Nat)}
    (h : ScalarCol w lt sma data lim b rows) (hs : sma + 2 * w ≤ data) (hd : lim ≤ blockSize) (hw : 1 ≤ w)
    {x : Nat} (hx : x < 256 ^ w) (hroom : data + (rows.length + 1) * w ≤ lim) :
    ∃ b', insertScalar w lt sma data rows.length x b = .ok (b', data + rows.length * w) ∧ Within sma lim b b' ∧
      ScalarCol w lt sma data lim b' ((x, data + rows.length * w) :: rows) := by
  have hm : (rows.length + 1) * w = rows.length * w + w := by rw [Nat.add_mul, Nat.one_mul]
  have hbs : blockSize = 32768 := rfl
  obtain ⟨b1, e1, r1, w1⟩ := put_enc b (off := data + rows.length * w) (n := w) (x := x) (by omega)
  obtain ⟨b2, e2, w2, hsma⟩ := smaScalar_ok hirr htr (b := b1) (o := data + rows.length * w) h (w1.agree (by omega)) hs (by omega) hx
  refine ⟨b2, ?_, (w1.mono (by omega) (by omega)).trans (w2.mono (by omega) (by omega)), ⟨rfl, ?_, hx, ?_⟩, ?_, fun _ => hsma⟩
  · unfold insertScalar
    dsimp only
    rw [e1, Res.ok_bind, e2, Res.ok_bind, Res.pure_eq, Nat.mod_eq_of_lt (by omega)]
  · rw [w2.bytes (by omega), r1]
  · have hr1 := h.stored.frame (b' := b1) (lim := data + rows.length * w) (w1.agree (by omega)) (Nat.le_refl _)
    exact hr1.frame (lim := data + rows.length * w) (w2.agree (by omega)) (Nat.le_refl _)
  · rw [List.length_cons, hm]; omega

/-! ## String columns -/

/-- Lowest byte in use by the strings (the end of the minipage if there are none). -/
def top (lim : Nat) : List (List UInt8 × Nat) → Nat
  | [] => lim
  | e :: _ => e.2

/-- The stored strings of a column: the offset vector from `data` upwards, the strings from `lim` downwards. -/
def StrRows (data lim : Nat) (b : Blk) : List (List UInt8 × Nat) → Prop
  | [] => True
  | e :: rest => bytes b (data + rest.length * 2) 2 = enc 2 e.2 ∧ e.2 + (e.1.length + 1) = top lim rest ∧
      bytes b e.2 (e.1.length + 1) = e.1 ++ [0] ∧ (0 : UInt8) ∉ e.1 ∧ StrRows data lim b rest

/-- The invariant of a string column. -/
structure StrCol (sma data lim : Nat) (b : Blk) (rows : List (List UInt8 × Nat)) : Prop where
  stored : StrRows data lim b rows
  room : data + rows.length * 2 ≤ top lim rows
  bounds : rows ≠ [] → ∃ mn mx, mn ∈ rows ∧ mx ∈ rows ∧ bytes b sma 2 = enc 2 mn.2 ∧ bytes b (sma + 2) 2 = enc 2 mx.2 ∧
    ∀ e ∈ rows, ltStr e.1 mn.1 = false ∧ ltStr mx.1 e.1 = false

theorem StrRows.top_le {data lim : Nat} {b : Blk} : ∀ {rows : List (List UInt8 × Nat)}, StrRows data lim b rows →
    top lim rows ≤ lim
  | [], _ => Nat.le_refl _
  | e :: rest, ⟨_, h2, _, _, h5⟩ => by
    have := h5.top_le
    show e.2 ≤ lim
    omega

theorem StrRows.frame {data lim t : Nat} {b b' : Blk} :
    ∀ {rows : List (List UInt8 × Nat)}, StrRows data lim b rows → Agree data (data + rows.length * 2) b b' →
    Agree t lim b b' → t ≤ top lim rows → StrRows data lim b' rows
  | [], _, _, _, _ => trivial
  | e :: rest, ⟨h1, h2, h3, h4, h5⟩, ha, hb, ht => by
    have hle := h5.top_le
    rw [List.length_cons] at ha
    have ht' : t ≤ e.2 := ht
    refine ⟨?_, h2, ?_, h4, h5.frame (ha.mono (Nat.le_refl _) (by omega)) hb (by omega)⟩
    · rw [ha.bytes (by omega) (by omega), h1]
    · rw [hb.bytes (by omega) (by omega), h3]

theorem StrCol.frame {sma data lim : Nat} {b b' : Blk} {rows : List (List UInt8 × Nat)} (h : StrCol sma data lim b rows)
    (hs : sma + 4 ≤ data) (ha : Agree sma lim b b') : StrCol sma data lim b' rows := by
  have hr := h.room
  have ht := h.stored.top_le
  refine ⟨h.stored.frame (t := top lim rows) (ha.mono (by omega) (by omega)) (ha.mono (by omega) (Nat.le_refl _)) (Nat.le_refl _), hr, fun hn => ?_⟩
  obtain ⟨mn, mx, h1, h2, h3, h4, h5⟩ := h.bounds hn
  exact ⟨mn, mx, h1, h2, by rw [ha.bytes (Nat.le_refl _) (by omega), h3], by rw [ha.bytes (by omega) (by omega), h4], h5⟩

theorem StrRows.get {data lim : Nat} {b : Blk} : ∀ {rows : List (List UInt8 × Nat)}, StrRows data lim b rows →
    ∀ e ∈ rows, bytes b e.2 (e.1.length + 1) = e.1 ++ [0] ∧ (0 : UInt8) ∉ e.1 ∧ top lim rows ≤ e.2 ∧
      e.2 + (e.1.length + 1) ≤ lim
  | e' :: rest, ⟨h1, h2, h3, h4, h5⟩, e, he => by
    have hle := h5.top_le
    rcases List.mem_cons.1 he with rfl | he
    · exact ⟨h3, h4, Nat.le_refl _, by omega⟩
    · obtain ⟨p, q, r, s⟩ := h5.get e he
      refine ⟨p, q, ?_, s⟩
      show e'.2 ≤ e.2
      omega

theorem ltStr_irrefl : ∀ s, ltStr s s = false
  | [] => rfl
  | a :: s => by simp [ltStr, ltStr_irrefl s]

theorem ltStr_trans : ∀ s t u, ltStr s t = true → ltStr t u = true → ltStr s u = true
  | _, _, [], _, h => by cases (by simpa [ltStr] using h : False)
  | _, [], _ :: _, h, _ => by cases (by simpa [ltStr] using h : False)
  | [], _ :: _, _ :: _, _, _ => by simp [ltStr]
  | a :: s, b :: t, c :: u, h1, h2 => by
    simp only [ltStr, Bool.or_eq_true, decide_eq_true_eq, Bool.and_eq_true, beq_iff_eq] at h1 h2 ⊢
    rcases h1 with h1 | ⟨rfl, h1⟩
    · rcases h2 with h2 | ⟨rfl, h2⟩
      · left; omega
      · left; exact h1
    · rcases h2 with h2 | ⟨rfl, h2⟩
      · left; exact h2
      · right; exact ⟨rfl, ltStr_trans s t u h1 h2⟩

theorem cstr_row {sma data lim : Nat} {b b' : Blk} {rows : List (List UInt8 × Nat)} (h : StrCol sma data lim b rows)
    (hl : lim ≤ blockSize) (ha : Agree (top lim rows) lim b b') {e : List UInt8 × Nat} (he : e ∈ rows) : cstr b' e.2 = .ok e.1 := by
  obtain ⟨h1, h2, h3, h4⟩ := h.stored.get e he
  exact cstr_ok (by omega) h2 (by rw [ha.bytes h3 h4, h1])

theorem smaString_ok {sma data lim : Nat} {b b0 : Blk} {rows : List (List UInt8 × Nat)} (h : StrCol sma data lim b0 rows)
    (hb : Agree sma data b0 b) (hb' : Agree (top lim rows) lim b0 b) (hs : sma + 4 ≤ data) (hl : lim ≤ blockSize)
    (s : List UInt8) (o : Nat) :
    ∃ b', smaString sma rows.length o s b = .ok b' ∧ Within sma data b b' ∧
      ∃ mn mx, mn ∈ (s, o) :: rows ∧ mx ∈ (s, o) :: rows ∧ bytes b' sma 2 = enc 2 mn.2 ∧ bytes b' (sma + 2) 2 = enc 2 mx.2 ∧
        ∀ e ∈ (s, o) :: rows, ltStr e.1 mn.1 = false ∧ ltStr mx.1 e.1 = false := by
  have hroom := h.room
  have htop := h.stored.top_le
  have hbs : blockSize = 32768 := rfl
  unfold smaString
  by_cases hr : rows = []
  · subst hr
    obtain ⟨b1, e1, r1, w1⟩ := put_enc b (off := sma) (n := 2) (x := o) (by omega)
    obtain ⟨b2, e2, r2, w2⟩ := put_enc b1 (off := sma + 2) (n := 2) (x := o) (by omega)
    refine ⟨b2, ?_, (w1.mono (Nat.le_refl _) (by omega)).trans (w2.mono (by omega) (by omega)), (s, o), (s, o), by simp, by simp,
      by rw [w2.bytes (by omega), r1], r2, ?_⟩
    · rw [if_neg (by simp), e1, Res.ok_bind, e2]
    · intro e he
      have : e = (s, o) := by simpa using he
      subst this
      exact ⟨ltStr_irrefl _, ltStr_irrefl _⟩
  · obtain ⟨mn, mx, hmn, hmx, rmn, rmx, hall⟩ := h.bounds hr
    have hl0 : rows.length ≠ 0 := by simpa using hr
    have l1 := (h.stored.get mn hmn).2.2.2
    have l2 := (h.stored.get mx hmx).2.2.2
    have r1 : rd b sma 2 = .ok mn.2 := rd_enc (by omega) (by rw [hb.bytes (Nat.le_refl _) (by omega), rmn]) (by omega)
    have r2 : rd b (sma + 2) 2 = .ok mx.2 := rd_enc (by omega) (by rw [hb.bytes (by omega) (by omega), rmx]) (by omega)
    rw [if_pos hl0, r1, Res.ok_bind, r2, Res.ok_bind, cstr_row h hl hb' hmn, Res.ok_bind, cstr_row h hl hb' hmx, Res.ok_bind]
    by_cases hc : ltStr s mn.1 = true
    · obtain ⟨b1, e1, q1, w1⟩ := put_enc b (off := sma) (n := 2) (x := o) (by omega)
      refine ⟨b1, by rw [if_pos hc, e1], w1.mono (Nat.le_refl _) (by omega), (s, o), mx, by simp, List.mem_cons_of_mem _ hmx, q1,
        by rw [w1.bytes (by omega), hb.bytes (by omega) (by omega), rmx], ?_⟩
      intro e he
      rcases List.mem_cons.1 he with rfl | he
      · refine ⟨ltStr_irrefl _, ?_⟩
        by_contra hn
        rw [Bool.not_eq_false] at hn
        have := ltStr_trans _ _ _ hn hc
        rw [(hall mx hmx).1] at this
        cases this
      · refine ⟨?_, (hall e he).2⟩
        by_contra hn
        rw [Bool.not_eq_false] at hn
        have := ltStr_trans _ _ _ hn hc
        rw [(hall e he).1] at this
        cases this
    · rw [if_neg hc]
      by_cases hc2 : ltStr mx.1 s = true
      · obtain ⟨b1, e1, q1, w1⟩ := put_enc b (off := sma + 2) (n := 2) (x := o) (by omega)
        refine ⟨b1, by rw [if_pos hc2, e1], w1.mono (by omega) (by omega), mn, (s, o), List.mem_cons_of_mem _ hmn, by simp,
          by rw [w1.bytes (by omega), hb.bytes (by omega) (by omega), rmn], q1, ?_⟩
        intro e he
        rcases List.mem_cons.1 he with rfl | he
        · exact ⟨by simpa using hc, ltStr_irrefl _⟩
        · refine ⟨(hall e he).1, ?_⟩
          by_contra hn
          rw [Bool.not_eq_false] at hn
          have := ltStr_trans _ _ _ hc2 hn
          rw [(hall e he).2] at this
          cases this
      · refine ⟨b, by rw [if_neg hc2], Within.refl _ _ _, mn, mx, List.mem_cons_of_mem _ hmn, List.mem_cons_of_mem _ hmx,
          by rw [hb.bytes (by omega) (by omega), rmn], by rw [hb.bytes (by omega) (by omega), rmx], ?_⟩
        intro e he
        rcases List.mem_cons.1 he with rfl | he
        · exact ⟨by simpa using hc, by simpa using hc2⟩
        · exact hall e he

/-- The position for the next string. -/
theorem nextPos_ok {n idx sma data lim : Nat} {b : Blk} {rows : List (List UInt8 × Nat)} (h : StrCol sma data lim b rows)
    (hl : lim ≤ blockSize) (he : pageEnd b n idx = .ok lim) {k : Nat} (hk : k ≤ top lim rows) :
    (if rows.length = 0 then do
        let e ← pageEnd b n idx
        pure (sub16 e k)
      else do
        let last ← rd b (data + rows.length * 2 - 2) 2
        pure (sub16 last k)) = .ok (top lim rows - k) := by
  have htop := h.stored.top_le
  have hbs : blockSize = 32768 := rfl
  have hroom := h.room
  have hsub : ∀ t, t ≤ 32768 → k ≤ t → sub16 t k = t - k := by intro t _ _; unfold sub16; omega
  cases rows with
  | nil =>
    rw [List.length_nil, if_pos rfl, he, Res.ok_bind]
    rw [show top lim [] = lim from rfl] at hk ⊢
    rw [hsub lim (by omega) hk]; rfl
  | cons e rest =>
    have ht : top lim (e :: rest) = e.2 := rfl
    rw [ht] at hk htop ⊢
    rw [if_neg (by simp), rd_enc (x := e.2) ?_ ?_ (by omega), Res.ok_bind, hsub e.2 (by omega) hk]
    · rfl
    · rw [List.length_cons] at hroom ⊢
      rw [ht] at hroom; omega
    · rw [List.length_cons, show data + (rest.length + 1) * 2 - 2 = data + rest.length * 2 by omega]
      exact h.stored.1

theorem insertString_ok {n idx sma data lim : Nat} {b : Blk} {rows : List (List UInt8 × Nat)} (h : StrCol sma data lim b rows)
    (hs : sma + 4 ≤ data) (hl : lim ≤ blockSize) (he : pageEnd b n idx = .ok lim) {s : List UInt8} (hz : (0 : UInt8) ∉ s)
    (hroom : data + (rows.length + 1) * 2 + (s.length + 1) ≤ top lim rows) :
    ∃ b', insertString n idx sma data rows.length s b = .ok (b', top lim rows - (s.length + 1)) ∧ Within sma lim b b' ∧
      StrCol sma data lim b' ((s, top lim rows - (s.length + 1)) :: rows) := by
  have htop := h.stored.top_le
  have hbs : blockSize = 32768 := rfl
  obtain ⟨b1, e1, r1, w1⟩ := put_enc b (off := data + rows.length * 2) (n := 2) (x := top lim rows - (s.length + 1)) (by omega)
  obtain ⟨b2, e2, r2, w2⟩ := put_ok b1 (off := top lim rows - (s.length + 1)) (l := s ++ [0]) (by simp; omega)
  have hlen : (s ++ [(0 : UInt8)]).length = s.length + 1 := by simp
  rw [hlen] at r2 w2
  have hag : Agree sma data b b2 := fun i h1 h2 => by
    rw [w2 i (by omega), w1 i (by omega)]
  have hag2 : Agree (top lim rows) lim b b2 := fun i h1 h2 => by
    rw [w2 i (by omega), w1 i (by omega)]
  obtain ⟨b3, e3, w3, hsma⟩ := smaString_ok h hag hag2 hs hl s (top lim rows - (s.length + 1))
  refine ⟨b3, ?_, ?_, ⟨?_, ?_, ?_, hz, ?_⟩, ?_, fun _ => hsma⟩
  · unfold insertString
    dsimp only
    rw [nextPos_ok h hl he (k := s.length + 1) (by omega), Res.ok_bind, e1, Res.ok_bind, e2, Res.ok_bind, e3]
    rfl
  · exact ((w1.mono (by omega) (by omega)).trans (w2.mono (by omega) (by omega))).trans (w3.mono (by omega) (by omega))
  · rw [w3.bytes (by omega), w2.bytes (by omega), r1]
  · show top lim rows - (s.length + 1) + (s.length + 1) = _
    omega
  · show bytes b3 (top lim rows - (s.length + 1)) (s.length + 1) = _
    rw [w3.bytes (by omega), r2]
  · refine h.stored.frame (t := top lim rows) (fun i h1 h2 => ?_) (fun i h1 h2 => ?_) (Nat.le_refl _)
    · rw [w3 i (by omega), w2 i (by omega), w1 i (by omega)]
    · rw [w3 i (by omega), w2 i (by omega), w1 i (by omega)]
  · rw [List.length_cons]
    show _ ≤ top lim rows - (s.length + 1)
    omega

end Verif.PTable
