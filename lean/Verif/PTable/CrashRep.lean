import Verif.PTable.Crash

/-!
# Crashes inside `insertTuple`: the invariant of a block
-/

namespace Verif.PTable

/-! ## Minimum and maximum of a string column -/

/-- The stored minimum and maximum are complete strings from `lo` on that bound the column. -/
def StrBound (sma lo lim : Nat) (b : Blk) (rows : List (List UInt8 × Nat)) : Prop :=
  rows ≠ [] → ∃ mn mx : List UInt8 × Nat, bytes b sma 2 = enc 2 mn.2 ∧ bytes b (sma + 2) 2 = enc 2 mx.2 ∧
    (∀ e, e = mn ∨ e = mx → bytes b e.2 (e.1.length + 1) = e.1 ++ [0] ∧ (0 : UInt8) ∉ e.1 ∧ lo ≤ e.2 ∧ e.2 + (e.1.length + 1) ≤ lim) ∧
    ltStr mx.1 mn.1 = false ∧ ∀ e ∈ rows, ltStr e.1 mn.1 = false ∧ ltStr mx.1 e.1 = false

theorem StrCol.bound {sma data lim : Nat} {b : Blk} {rows : List (List UInt8 × Nat)} (h : StrCol sma data lim b rows) :
    StrBound sma (top lim rows) lim b rows := by
  intro hr
  obtain ⟨mn, mx, h1, h2, h3, h4, h5⟩ := h.bounds hr
  refine ⟨mn, mx, h3, h4, fun e he => ?_, (h5 mx h2).1, h5⟩
  rcases he with rfl | rfl
  · exact h.stored.get _ h1
  · exact h.stored.get _ h2

theorem StrBound.frame {sma data lo lim : Nat} {b b' : Blk} {rows : List (List UInt8 × Nat)} (h : StrBound sma lo lim b rows)
    (hs : sma + 4 ≤ data) (ha : Agree sma data b b') (hb : Agree lo lim b b') : StrBound sma lo lim b' rows := by
  intro hr
  obtain ⟨mn, mx, h1, h2, h3, h4⟩ := h hr
  refine ⟨mn, mx, by rw [ha.bytes (Nat.le_refl _) (by omega), h1], by rw [ha.bytes (by omega) (by omega), h2], fun e he => ?_, h4⟩
  obtain ⟨g1, g2, g3, g4⟩ := h3 e he
  exact ⟨by rw [hb.bytes g3 g4, g1], g2, g3, g4⟩

theorem StrBound.mono {sma lo lo' lim : Nat} {b : Blk} {rows : List (List UInt8 × Nat)} (h : StrBound sma lo lim b rows)
    (hl : lo' ≤ lo) : StrBound sma lo' lim b rows := by
  intro hr
  obtain ⟨mn, mx, h1, h2, h3, h4⟩ := h hr
  refine ⟨mn, mx, h1, h2, fun e he => ?_, h4⟩
  obtain ⟨g1, g2, g3, g4⟩ := h3 e he
  exact ⟨g1, g2, by omega, g4⟩

theorem StrBound.tail {sma lo lim : Nat} {b : Blk} {e : List UInt8 × Nat} {rows : List (List UInt8 × Nat)}
    (h : StrBound sma lo lim b (e :: rows)) : StrBound sma lo lim b rows := by
  intro _
  obtain ⟨mn, mx, h1, h2, h3, h4, h5⟩ := h (by simp)
  exact ⟨mn, mx, h1, h2, h3, h4, fun e he => h5 e (List.mem_cons_of_mem _ he)⟩

theorem smaString_bound {sma data lo lim : Nat} {b : Blk} {rows : List (List UInt8 × Nat)} (h : StrBound sma lo lim b rows)
    (hs : sma + 4 ≤ data) (hlo : data ≤ lo) (hl : lim ≤ blockSize) {s : List UInt8} {o : Nat} (hz : (0 : UInt8) ∉ s) (ho : lo ≤ o)
    (ho' : o + (s.length + 1) ≤ lim) (hb : bytes b o (s.length + 1) = s ++ [0]) {ws : List Write}
    (e : smaStringW sma rows.length o s b = .ok ws) :
    Pre (fun b'' => StrBound sma lo lim b'' rows) b ws ∧ ∀ b', stores b ws = .ok b' → StrBound sma lo lim b' ((s, o) :: rows) := by
  have hbs : blockSize = 32768 := rfl
  have keep : ∀ {b1 : Blk}, Within sma data b b1 → ∀ e : List UInt8 × Nat,
      (bytes b e.2 (e.1.length + 1) = e.1 ++ [0] ∧ (0 : UInt8) ∉ e.1 ∧ lo ≤ e.2 ∧ e.2 + (e.1.length + 1) ≤ lim) →
      (bytes b1 e.2 (e.1.length + 1) = e.1 ++ [0] ∧ (0 : UInt8) ∉ e.1 ∧ lo ≤ e.2 ∧ e.2 + (e.1.length + 1) ≤ lim) := by
    intro b1 w e ⟨g1, g2, g3, g4⟩
    exact ⟨by rw [w.bytes (by omega), g1], g2, g3, g4⟩
  have hnew : bytes b (s, o).2 ((s, o).1.length + 1) = (s, o).1 ++ [0] ∧ (0 : UInt8) ∉ (s, o).1 ∧ lo ≤ (s, o).2 ∧
      (s, o).2 + ((s, o).1.length + 1) ≤ lim := ⟨hb, hz, ho, ho'⟩
  unfold smaStringW at e
  by_cases hr : rows = []
  · subst hr
    rw [if_neg (by simp)] at e
    cases e
    obtain ⟨b1, e1, r1, w1⟩ := put_enc b (off := sma) (n := 2) (x := o) (by omega)
    obtain ⟨b2, e2, r2, w2⟩ := put_enc b1 (off := sma + 2) (n := 2) (x := o) (by omega)
    have hrun : stores b [(sma, enc 2 o), (sma + 2, enc 2 o)] = .ok b2 := by
      rw [stores, e1, Res.ok_bind, stores_one, e2]
    refine ⟨?_, fun b' hb' => ?_⟩
    · have h1 : ∀ b'' : Blk, StrBound sma lo lim b'' [] := fun _ h => absurd rfl h
      exact (Pre.one e1 (h1 _) (h1 _)).append (ws' := [(sma + 2, enc 2 o)]) (by rw [stores_one, e1]) (Pre.one e2 (h1 _) (h1 _))
    · rw [hrun] at hb'
      cases hb'
      intro _
      refine ⟨(s, o), (s, o), by rw [w2.bytes (by omega), r1], r2, fun e he => ?_, ltStr_irrefl _, fun e he => ?_⟩
      · have : e = (s, o) := by simpa using he
        subst this
        exact keep ((w1.mono (Nat.le_refl _) (by omega)).trans (w2.mono (by omega) (by omega))) _ hnew
      · have : e = (s, o) := by simpa using he
        subst this
        exact ⟨ltStr_irrefl _, ltStr_irrefl _⟩
  · obtain ⟨mn, mx, rmn, rmx, hst, hord, hall⟩ := h hr
    have hl0 : rows.length ≠ 0 := by simpa using hr
    obtain ⟨a1, a2, a3, a4⟩ := hst mn (Or.inl rfl)
    obtain ⟨c1, c2, c3, c4⟩ := hst mx (Or.inr rfl)
    rw [if_pos hl0, rd_enc (by omega) rmn (by omega), Res.ok_bind, rd_enc (by omega) rmx (by omega), Res.ok_bind, cstr_ok (by omega) a2 a1,
      Res.ok_bind, cstr_ok (by omega) c2 c1, Res.ok_bind] at e
    by_cases hc : ltStr s mn.1 = true
    · rw [if_pos hc] at e
      cases e
      obtain ⟨b1, e1, r1, w1⟩ := put_enc b (off := sma) (n := 2) (x := o) (by omega)
      have w1' : Within sma data b b1 := w1.mono (Nat.le_refl _) (by omega)
      have hall' : ∀ e ∈ (s, o) :: rows, ltStr e.1 s = false ∧ ltStr mx.1 e.1 = false := by
        intro e he
        rcases List.mem_cons.1 he with rfl | he
        · refine ⟨ltStr_irrefl _, ?_⟩
          by_contra hn
          rw [Bool.not_eq_false] at hn
          have := ltStr_trans _ _ _ hn hc
          rw [hord] at this
          cases this
        · refine ⟨?_, (hall e he).2⟩
          by_contra hn
          rw [Bool.not_eq_false] at hn
          have := ltStr_trans _ _ _ hn hc
          rw [(hall e he).1] at this
          cases this
      have key : StrBound sma lo lim b1 ((s, o) :: rows) := by
        intro _
        refine ⟨(s, o), mx, r1, by rw [w1.bytes (by omega), rmx], fun e he => ?_, (hall' (s, o) (by simp)).2, hall'⟩
        rcases he with rfl | rfl
        · exact keep w1' _ hnew
        · exact keep w1' _ ⟨c1, c2, c3, c4⟩
      refine ⟨Pre.one e1 h key.tail, fun b' hb' => ?_⟩
      rw [stores_one, e1] at hb'
      cases hb'
      exact key
    · rw [if_neg hc] at e
      by_cases hc2 : ltStr mx.1 s = true
      · rw [if_pos hc2] at e
        cases e
        obtain ⟨b1, e1, r1, w1⟩ := put_enc b (off := sma + 2) (n := 2) (x := o) (by omega)
        have w1' : Within sma data b b1 := w1.mono (by omega) (by omega)
        have key : StrBound sma lo lim b1 ((s, o) :: rows) := by
          intro _
          refine ⟨mn, (s, o), by rw [w1.bytes (by omega), rmn], r1, fun e he => ?_, by simpa using hc, fun e he => ?_⟩
          · rcases he with rfl | rfl
            · exact keep w1' _ ⟨a1, a2, a3, a4⟩
            · exact keep w1' _ hnew
          · rcases List.mem_cons.1 he with rfl | he
            · exact ⟨by simpa using hc, ltStr_irrefl _⟩
            · refine ⟨(hall e he).1, ?_⟩
              by_contra hn
              rw [Bool.not_eq_false] at hn
              have := ltStr_trans _ _ _ hc2 hn
              rw [(hall e he).2] at this
              cases this
        refine ⟨Pre.one e1 h key.tail, fun b' hb' => ?_⟩
        rw [stores_one, e1] at hb'
        cases hb'
        exact key
      · rw [if_neg hc2] at e
        cases e
        refine ⟨Pre.nil h, fun b' hb' => ?_⟩
        cases hb'
        intro _
        refine ⟨mn, mx, rmn, rmx, hst, hord, fun e he => ?_⟩
        rcases List.mem_cons.1 he with rfl | he
        · exact ⟨by simpa using hc, by simpa using hc2⟩
        · exact hall e he

theorem insertString_bound {n idx sma data lim : Nat} {b : Blk} {rows : List (List UInt8 × Nat)} (h : StrColW sma data lim b rows)
    (hbd : StrBound sma (top lim rows) lim b rows)
    (hs : sma + 4 ≤ data) (hl : lim ≤ blockSize) (he : pageEnd b n idx = .ok lim) {s : List UInt8} (hz : (0 : UInt8) ∉ s)
    (hroom : data + (rows.length + 1) * 2 + (s.length + 1) ≤ top lim rows) {ws : List Write} {o : Nat}
    (e : insertStringW n idx sma data rows.length s b = .ok (ws, o)) :
    Pre (fun b'' => StrBound sma o lim b'' rows) b ws ∧ ∀ b', stores b ws = .ok b' → StrBound sma o lim b' ((s, o) :: rows) := by
  have htop := h.stored.top_le
  have hbs : blockSize = 32768 := rfl
  have hlen : (s ++ [(0 : UInt8)]).length = s.length + 1 := by simp
  unfold insertStringW at e
  dsimp only at e
  rw [nextPosW_ok h.stored h.room hl he (k := s.length + 1) (by omega), Res.ok_bind] at e
  obtain ⟨b1, e1, r1, w1⟩ := put_enc b (off := data + rows.length * 2) (n := 2) (x := top lim rows - (s.length + 1)) (by omega)
  obtain ⟨b2, e2, r2, w2⟩ := put_ok b1 (off := top lim rows - (s.length + 1)) (l := s ++ [0]) (by simp; omega)
  have k1 : stores b (copyW (data + rows.length * 2) (enc 2 (top lim rows - (s.length + 1)))) = .ok b1 := by
    rw [stores_copy _ _ _ (by rw [enc_length]; omega), e1]
  have k2 : stores b1 (copyW (top lim rows - (s.length + 1)) (s ++ [0])) = .ok b2 := by
    rw [stores_copy _ _ _ (by rw [hlen]; omega), e2]
  have k12 : stores b (copyW (data + rows.length * 2) (enc 2 (top lim rows - (s.length + 1))) ++ copyW (top lim rows - (s.length + 1)) (s ++ [0])) = .ok b2 := by
    rw [stores_append b, k1, Res.ok_bind, k2]
  rw [k12, Res.ok_bind] at e
  obtain ⟨ws', e3, e⟩ := Res.bind_eq_ok.1 e
  have e' : (copyW (data + rows.length * 2) (enc 2 (top lim rows - (s.length + 1))) ++ copyW (top lim rows - (s.length + 1)) (s ++ [0]) ++ ws',
    top lim rows - (s.length + 1)) = (ws, o) := Res.ok.inj e
  obtain ⟨rfl, rfl⟩ := Prod.mk.inj e'
  rw [hlen] at r2 w2
  have f1 : StrBound sma (top lim rows) lim b1 rows := hbd.frame hs (w1.agree (by omega)) (w1.agree (by omega))
  have f2 : StrBound sma (top lim rows) lim b2 rows := f1.frame hs (w2.agree (by omega)) (w2.agree (by omega))
  obtain ⟨p3, l3⟩ := smaString_bound (f2.mono (lo' := top lim rows - (s.length + 1)) (by omega)) hs (by omega) hl hz (Nat.le_refl _) (by omega) r2 e3
  refine ⟨Pre.append (Pre.append (Pre.copy (by rw [enc_length]; omega) fun b'' hb => ?_) k1 (Pre.copy (by rw [hlen]; omega) fun b'' hb => ?_)) k12 p3,
    fun b' hb' => ?_⟩
  · rw [enc_length] at hb
    exact (hbd.frame hs (hb.agree (by omega)) (hb.agree (by omega))).mono (by omega)
  · rw [hlen] at hb
    exact (f1.frame hs (hb.agree (by omega)) (hb.agree (by omega))).mono (by omega)
  · rw [stores_append b, k12, Res.ok_bind] at hb'
    exact l3 b' hb'

/-! ## Columns of any type -/

/-- The invariant of a column of type `t` under crashes. -/
def ColW (t : Ty) (sma data lim : Nat) (b : Blk) (rows : List (Val × Nat)) : Prop :=
  match t with
  | .int => ∃ l : List (BitVec 32 × Nat), rows = l.map (fun e => (Val.int e.1, e.2)) ∧
      ScalarColW 4 ltInt sma data lim b (l.map fun e => (e.1.toNat, e.2))
  | .dbl => ∃ l : List (BitVec 64 × Nat), rows = l.map (fun e => (Val.dbl e.1, e.2)) ∧
      ScalarColW 8 ltDbl sma data lim b (l.map fun e => (e.1.toNat, e.2))
  | .str => ∃ l : List (List UInt8 × Nat), rows = l.map (fun e => (Val.str e.1, e.2)) ∧ StrColW sma data lim b l

/-- Minimum and maximum of a string column are complete strings from `lo` on that bound it. -/
def ColB (t : Ty) (sma lo lim : Nat) (b : Blk) (rows : List (Val × Nat)) : Prop :=
  t = .str → ∃ l : List (List UInt8 × Nat), rows = l.map (fun e => (Val.str e.1, e.2)) ∧ StrBound sma lo lim b l

theorem Col.weak {t : Ty} {sma data lim : Nat} {b : Blk} {rows : List (Val × Nat)} (h : Col t sma data lim b rows) :
    ColW t sma data lim b rows := by
  cases t with
  | int => obtain ⟨l, e, h⟩ := h; exact ⟨l, e, h.weak⟩
  | dbl => obtain ⟨l, e, h⟩ := h; exact ⟨l, e, h.weak⟩
  | str => obtain ⟨l, e, h⟩ := h; exact ⟨l, e, h.weak⟩

theorem Col.bound {t : Ty} {sma data lim : Nat} {b : Blk} {rows : List (Val × Nat)} (h : Col t sma data lim b rows) :
    ColB t sma (topV lim rows) lim b rows := by
  rintro rfl
  obtain ⟨l, rfl, h⟩ := h
  exact ⟨l, rfl, by rw [topV_str]; exact h.bound⟩

theorem ColW.frame {t : Ty} {sma data lim : Nat} {b b' : Blk} {rows : List (Val × Nat)} (h : ColW t sma data lim b rows)
    (hs : sma + t.smaSize = data) (ha : Agree sma lim b b') : ColW t sma data lim b' rows := by
  cases t with
  | int =>
    obtain ⟨l, e, h⟩ := h
    exact ⟨l, e, h.frame (by simp only [Ty.smaSize] at hs; omega) (ha.mono (Nat.le_refl _) h.room)⟩
  | dbl =>
    obtain ⟨l, e, h⟩ := h
    exact ⟨l, e, h.frame (by simp only [Ty.smaSize] at hs; omega) (ha.mono (Nat.le_refl _) h.room)⟩
  | str =>
    obtain ⟨l, e, h⟩ := h
    have := h.room
    have := h.stored.top_le
    simp only [Ty.smaSize] at hs
    exact ⟨l, e, h.frame (by omega) (ha.mono (Nat.le_refl _) (by omega)) (ha.mono (by omega) (Nat.le_refl _))⟩

theorem ColB.frame {t : Ty} {sma data lo lim : Nat} {b b' : Blk} {rows : List (Val × Nat)} (h : ColB t sma lo lim b rows)
    (hs : sma + t.smaSize = data) (hlo : data ≤ lo) (hd : data ≤ lim) (ha : Agree sma lim b b') : ColB t sma lo lim b' rows := by
  rintro rfl
  obtain ⟨l, e, h⟩ := h rfl
  simp only [Ty.smaSize] at hs
  exact ⟨l, e, h.frame (data := data) (by omega) (ha.mono (Nat.le_refl _) hd) (ha.mono (by omega) (Nat.le_refl _))⟩

theorem ColB.mono {t : Ty} {sma lo lo' lim : Nat} {b : Blk} {rows : List (Val × Nat)} (h : ColB t sma lo lim b rows) (hl : lo' ≤ lo) :
    ColB t sma lo' lim b rows := fun ht => by
  obtain ⟨l, e, h⟩ := h ht
  exact ⟨l, e, h.mono hl⟩

theorem ColW.data_le {t : Ty} {sma data lim : Nat} {b : Blk} {rows : List (Val × Nat)} (h : ColW t sma data lim b rows) (ht : t = .str) :
    data ≤ topV lim rows := by
  subst ht
  obtain ⟨l, rfl, h⟩ := h
  have := h.room
  rw [topV_str]; omega

theorem ColW.read {t : Ty} {sma data lim : Nat} {b : Blk} {rows : List (Val × Nat)} (h : ColW t sma data lim b rows)
    (hl : lim ≤ blockSize) {e : Val × Nat} (he : e ∈ rows) : readAttr b t e.2 = .ok e.1 := by
  cases t with
  | int =>
    obtain ⟨l, rfl, h⟩ := h
    obtain ⟨e, he', rfl⟩ := List.mem_map.1 he
    obtain ⟨h1, h2, h3, h4⟩ := h.stored.get (e.1.toNat, e.2) (List.mem_map_of_mem he')
    have := h.room
    show (rd b e.2 4 >>= fun x => pure (Val.int (BitVec.ofNat 32 x))) = _
    rw [rd_enc (by omega) h1 h2, Res.ok_bind, BitVec.ofNat_toNat, BitVec.setWidth_eq]
    rfl
  | dbl =>
    obtain ⟨l, rfl, h⟩ := h
    obtain ⟨e, he', rfl⟩ := List.mem_map.1 he
    obtain ⟨h1, h2, h3, h4⟩ := h.stored.get (e.1.toNat, e.2) (List.mem_map_of_mem he')
    have := h.room
    show (rd b e.2 8 >>= fun x => pure (Val.dbl (BitVec.ofNat 64 x))) = _
    rw [rd_enc (by omega) h1 h2, Res.ok_bind, BitVec.ofNat_toNat, BitVec.setWidth_eq]
    rfl
  | str =>
    obtain ⟨l, rfl, h⟩ := h
    obtain ⟨e, he', rfl⟩ := List.mem_map.1 he
    obtain ⟨h1, h2, h3, h4⟩ := h.stored.get e he'
    show (cstr b e.2 >>= fun x => pure (Val.str x)) = _
    rw [cstr_ok (by omega) h2 h1, Res.ok_bind]
    rfl

/-- The stored minimum and maximum bound the column. -/
theorem ColW.sma {t : Ty} {sma data lim : Nat} {b : Blk} {rows : List (Val × Nat)} (h : ColW t sma data lim b rows)
    (hb : ColB t sma data lim b rows)
    (hs : sma + t.smaSize = data) (hd : data ≤ lim) (hl : lim ≤ blockSize) {i : Nat} (hi : smaPos b i = .ok sma) (hr : rows ≠ []) :
    ∃ mn mx, readSma b i t = .ok (mn, mx) ∧ mn.ty = t ∧ mx.ty = t ∧
      ∀ v ∈ rows.map Prod.fst, Val.lt v mn = false ∧ Val.lt mx v = false := by
  unfold readSma
  rw [hi, Res.ok_bind]
  cases t with
  | int =>
    obtain ⟨l, rfl, h⟩ := h
    obtain ⟨mn, mx, h1, h2, h3, h4, h5⟩ := h.bounds (by simpa using hr)
    simp only [Ty.smaSize] at hs
    dsimp only
    rw [rd_enc (by omega) h3 h1, Res.ok_bind, rd_enc (by omega) h4 h2, Res.ok_bind]
    refine ⟨_, _, rfl, rfl, rfl, ?_⟩
    intro v hv
    simp only [List.map_map, List.mem_map, Function.comp] at hv
    obtain ⟨e, he, rfl⟩ := hv
    have := h5 e.1.toNat (by simp only [List.map_map, List.mem_map, Function.comp]; exact ⟨e, he, rfl⟩)
    simpa [ltInt, Val.lt] using this
  | dbl =>
    obtain ⟨l, rfl, h⟩ := h
    obtain ⟨mn, mx, h1, h2, h3, h4, h5⟩ := h.bounds (by simpa using hr)
    simp only [Ty.smaSize] at hs
    dsimp only
    rw [rd_enc (by omega) h3 h1, Res.ok_bind, rd_enc (by omega) h4 h2, Res.ok_bind]
    refine ⟨_, _, rfl, rfl, rfl, ?_⟩
    intro v hv
    simp only [List.map_map, List.mem_map, Function.comp] at hv
    obtain ⟨e, he, rfl⟩ := hv
    have := h5 e.1.toNat (by simp only [List.map_map, List.mem_map, Function.comp]; exact ⟨e, he, rfl⟩)
    simpa [ltDbl, Val.lt] using this
  | str =>
    obtain ⟨l, rfl, hB⟩ := hb rfl
    obtain ⟨mn, mx, h3, h4, h5, h6, h7⟩ := hB (by simpa using hr)
    obtain ⟨a1, a2, a3, a4⟩ := h5 mn (Or.inl rfl)
    obtain ⟨c1, c2, c3, c4⟩ := h5 mx (Or.inr rfl)
    simp only [Ty.smaSize] at hs
    have hbs : blockSize = 32768 := rfl
    dsimp only
    rw [rd_enc (by omega) h3 (by omega), Res.ok_bind, rd_enc (by omega) h4 (by omega), Res.ok_bind,
      cstr_ok (by omega) a2 a1, Res.ok_bind, cstr_ok (by omega) c2 c1, Res.ok_bind]
    refine ⟨_, _, rfl, rfl, rfl, ?_⟩
    intro v hv
    simp only [List.map_map, List.mem_map, Function.comp] at hv
    obtain ⟨e, he, rfl⟩ := hv
    exact h7 e he

/-- The stores for one value. -/
theorem insertColW_ok {sch : Schema} {b : Blk} (hl : Layout sch b) {i : Nat} {v : Val} (hi : sch[i]? = some v.ty)
    {rows : List (Val × Nat)} (h : ColW v.ty (smaAt b i) (dataAt b i) (endAt b sch.length i) b rows) (hp : v.plain)
    (hroom : Room (dataAt b i) (endAt b sch.length i) rows v) :
    ∃ ws b' o, insertColW sch.length rows.length i v b = .ok (ws, o) ∧ insertCol sch.length rows.length i v b = .ok (b', o) ∧ stores b ws = .ok b' ∧
      Pre (fun b'' => Within (smaAt b i) (endAt b sch.length i) b b'' ∧ ColW v.ty (smaAt b i) (dataAt b i) (endAt b sch.length i) b'' rows ∧
        (ColB v.ty (smaAt b i) (topV (endAt b sch.length i) rows) (endAt b sch.length i) b rows →
          ColB v.ty (smaAt b i) (dataAt b i) (endAt b sch.length i) b'' rows)) b ws ∧
      ColW v.ty (smaAt b i) (dataAt b i) (endAt b sch.length i) b' ((v, o) :: rows) ∧
      (ColB v.ty (smaAt b i) (topV (endAt b sch.length i) rows) (endAt b sch.length i) b rows →
        ColB v.ty (smaAt b i) o (endAt b sch.length i) b' ((v, o) :: rows)) := by
  have hlt : i < sch.length := (List.getElem?_eq_some_iff.1 hi).1
  have hs := hl.sma i _ hi
  have hin := hl.inside i hlt
  unfold insertColW insertCol
  rw [hl.smaPos hlt, Res.ok_bind, Res.ok_bind, hl.dataPos hlt, Res.ok_bind, Res.ok_bind]
  cases v with
  | int x =>
    obtain ⟨l, rfl, h⟩ := h
    simp only [Room, List.length_map] at hroom
    simp only [Val.ty, Ty.smaSize] at hs
    have := insertScalarW_ok ltInt_irrefl ltInt_trans h (by omega) hin (by omega) (x := x.toNat)
      (by have := x.isLt; omega) (by simpa using hroom)
    rw [List.length_map] at this ⊢
    obtain ⟨ws, b', e, e', f, p, hc⟩ := this
    exact ⟨ws, b', _, e, e', f, p.mono fun b'' hb => ⟨hb.1, ⟨l, rfl, hb.2⟩, fun _ h => by cases h⟩, ⟨(x, _) :: l, rfl, hc⟩, fun _ h => by cases h⟩
  | dbl x =>
    obtain ⟨l, rfl, h⟩ := h
    simp only [Room, List.length_map] at hroom
    simp only [Val.ty, Ty.smaSize] at hs
    have := insertScalarW_ok (lt := ltDbl) (fun x => dblLt_irrefl _) (fun x y z => dblLt_trans) h (by omega) hin (by omega) (x := x.toNat)
      (by have := x.isLt; omega) (by simpa using hroom)
    rw [List.length_map] at this ⊢
    obtain ⟨ws, b', e, e', f, p, hc⟩ := this
    exact ⟨ws, b', _, e, e', f, p.mono fun b'' hb => ⟨hb.1, ⟨l, rfl, hb.2⟩, fun _ h => by cases h⟩, ⟨(x, _) :: l, rfl, hc⟩, fun _ h => by cases h⟩
  | str s =>
    obtain ⟨l, rfl, h⟩ := h
    simp only [Room, List.length_map, topV_str] at hroom
    simp only [Val.ty, Ty.smaSize] at hs
    obtain ⟨ws, b', e, e', f, p, hc⟩ := insertStringW_ok h (by omega) hin (hl.pageEnd hlt) hp hroom
    rw [List.length_map]
    have hinj : ∀ {l l' : List (List UInt8 × Nat)}, l.map (fun e => (Val.str e.1, e.2)) = l'.map (fun e => (Val.str e.1, e.2)) → l = l' := by
      intro l l' h
      refine (List.map_injective_iff.2 ?_) h
      rintro ⟨x1, x2⟩ ⟨y1, y2⟩ hxy
      simpa using hxy
    refine ⟨ws, b', _, e, e', f, fun q => ?_, ⟨(s, _) :: l, rfl, hc⟩, fun hb _ => ?_⟩
    · obtain ⟨b'', r, hw, hcol⟩ := p q
      refine ⟨b'', r, hw, ⟨l, rfl, hcol⟩, fun hb _ => ⟨l, rfl, ?_⟩⟩
      obtain ⟨l', hl', hb⟩ := hb rfl
      obtain rfl := hinj hl'
      rw [topV_str] at hb
      obtain ⟨b3, r3, hb3⟩ := (insertString_bound h hb (by omega) hin (hl.pageEnd hlt) hp hroom e).1 q
      rw [r] at r3
      cases r3
      exact hb3.mono (by omega)
    · obtain ⟨l', hl', hb⟩ := hb rfl
      obtain rfl := hinj hl'
      rw [topV_str] at hb
      exact ⟨(s, _) :: l, rfl, (insertString_bound h hb (by omega) hin (hl.pageEnd hlt) hp hroom e).2 b' f⟩

theorem colSpaceW_ok {sch : Schema} {b : Blk} (hl : Layout sch b) {i : Nat} {v : Val} (hi : sch[i]? = some v.ty)
    {rows : List (Val × Nat)} (h : ColW v.ty (smaAt b i) (dataAt b i) (endAt b sch.length i) b rows) :
    colSpace sch.length rows.length i v b = .ok (decide (Room (dataAt b i) (endAt b sch.length i) rows v)) := by
  have hlt : i < sch.length := (List.getElem?_eq_some_iff.1 hi).1
  have hin := hl.inside i hlt
  have hdl := hl.data i hlt
  have hbs : blockSize = 32768 := rfl
  unfold colSpace
  rw [hl.dataPos hlt, Res.ok_bind]
  cases v with
  | int x =>
    obtain ⟨l, rfl, h⟩ := h
    have hr := h.room
    dsimp only
    rw [hl.pageEnd hlt, Res.ok_bind, Res.pure_eq]
    congr 1
    rw [decide_eq_decide]
    simp only [Room, List.length_map] at hr ⊢
    unfold sub64
    omega
  | dbl x =>
    obtain ⟨l, rfl, h⟩ := h
    have hr := h.room
    dsimp only
    rw [hl.pageEnd hlt, Res.ok_bind, Res.pure_eq]
    congr 1
    rw [decide_eq_decide]
    simp only [Room, List.length_map] at hr ⊢
    unfold sub64
    omega
  | str s =>
    obtain ⟨l, rfl, h⟩ := h
    have hr := h.room
    have ht := h.stored.top_le
    have key : (if (l.map fun e => (Val.str e.1, e.2)).length ≠ 0 then do
        let cur ← rd b (dataAt b i + (l.map fun e => (Val.str e.1, e.2)).length * 2 - 2) 2
        pure (sub16 cur (dataAt b i + (l.map fun e => (Val.str e.1, e.2)).length * 2))
      else do
        let e ← pageEnd b sch.length i
        pure (sub16 e (dataAt b i))) = Res.ok (top (endAt b sch.length i) l - (dataAt b i + l.length * 2)) := by
      rw [List.length_map]
      cases l with
      | nil =>
        rw [if_neg (by simp), hl.pageEnd hlt, Res.ok_bind, Res.pure_eq]
        congr 1
        show sub16 _ _ = endAt b sch.length i - (dataAt b i + 0)
        unfold sub16
        omega
      | cons e rest =>
        have he : top (endAt b sch.length i) (e :: rest) = e.2 := rfl
        rw [he] at hr ht ⊢
        rw [List.length_cons] at hr
        rw [if_pos (by simp), rd_enc (x := e.2) (by rw [List.length_cons]; omega)
          (by rw [List.length_cons, show dataAt b i + (rest.length + 1) * 2 - 2 = dataAt b i + rest.length * 2 by omega]
              exact h.stored.1) (by omega), Res.ok_bind, Res.pure_eq]
        congr 1
        rw [List.length_cons]
        unfold sub16
        omega
    dsimp only
    rw [key, Res.ok_bind, Res.pure_eq]
    congr 1
    rw [decide_eq_decide]
    simp only [Room, List.length_map, topV_str]
    omega

theorem ColW.offset {sch : Schema} {b : Blk} (hl : Layout sch b) {i : Nat} {t : Ty} (ht : sch[i]? = some t) {rows : List (Val × Nat)}
    (h : ColW t (smaAt b i) (dataAt b i) (endAt b sch.length i) b rows) {p : Nat} {e : Val × Nat} (he : rows.reverse[p]? = some e) :
    offsetAt b p i t = .ok e.2 := by
  have hi : i < sch.length := (List.getElem?_eq_some_iff.1 ht).1
  have hp : p < rows.length := by
    have := (List.getElem?_eq_some_iff.1 he).1
    simpa using this
  have hin := hl.inside i hi
  have hbs : blockSize = 32768 := rfl
  unfold offsetAt
  rw [hl.dataPos hi, Res.ok_bind]
  cases t with
  | int =>
    obtain ⟨l, rfl, h⟩ := h
    have hr := h.room
    rw [← List.map_reverse, List.getElem?_map] at he
    obtain ⟨e', he', rfl⟩ := Option.map_eq_some_iff.1 he
    have := h.stored.at (p := p) (e := (e'.1.toNat, e'.2)) (by rw [← List.map_reverse, List.getElem?_map, he']; rfl)
    rw [List.length_map] at hp hr
    dsimp only at this ⊢
    rw [Res.pure_eq]
    congr 1
    omega
  | dbl =>
    obtain ⟨l, rfl, h⟩ := h
    have hr := h.room
    rw [← List.map_reverse, List.getElem?_map] at he
    obtain ⟨e', he', rfl⟩ := Option.map_eq_some_iff.1 he
    have := h.stored.at (p := p) (e := (e'.1.toNat, e'.2)) (by rw [← List.map_reverse, List.getElem?_map, he']; rfl)
    rw [List.length_map] at hp hr
    dsimp only at this ⊢
    rw [Res.pure_eq]
    congr 1
    omega
  | str =>
    obtain ⟨l, rfl, h⟩ := h
    have hr := h.room
    have htop := h.stored.top_le
    rw [← List.map_reverse, List.getElem?_map] at he
    obtain ⟨e', he', rfl⟩ := Option.map_eq_some_iff.1 he
    have := h.stored.at he'
    have hm : e' ∈ l := by simpa using List.mem_of_getElem? he'
    have hb := (h.stored.get e' hm).2.2.2
    rw [List.length_map] at hp
    dsimp only
    exact rd_enc (by omega) this (by omega)

/-! ## Blocks -/

/-- Block `b` stores the records `rows` (newest first); minimum and maximum may be affected by crashes. -/
structure RepW (sch : Schema) (b : Blk) (rows : List (List Val × List Nat)) : Prop where
  lay : Layout sch b
  cnt : bytes b 8 4 = enc 4 rows.length
  small : rows.length < 2 ^ 32
  typed : ∀ r ∈ rows, r.1.map Val.ty = sch ∧ r.2.length = sch.length
  col : ∀ i t, sch[i]? = some t → ColW t (smaAt b i) (dataAt b i) (endAt b sch.length i) b (column i rows)

/-- Minimum and maximum of all string columns are complete strings; `strict`: of the records of the block. -/
def RepB (strict : Bool) (sch : Schema) (b : Blk) (rows : List (List Val × List Nat)) : Prop :=
  ∀ i t, sch[i]? = some t → ColB t (smaAt b i) (if strict then topV (endAt b sch.length i) (column i rows) else dataAt b i)
    (endAt b sch.length i) b (column i rows)

theorem Rep.weak {sch : Schema} {b : Blk} {rows : List (List Val × List Nat)} (h : Rep sch b rows) : RepW sch b rows ∧ RepB true sch b rows :=
  ⟨⟨h.lay, h.cnt, h.small, h.typed, fun i t ht => (h.col i t ht).weak⟩, fun i t ht => (h.col i t ht).bound⟩

theorem RepW.count {sch : Schema} {b : Blk} {rows : List (List Val × List Nat)} (h : RepW sch b rows) : count b = .ok rows.length :=
  rd_enc (by have : blockSize = 32768 := rfl; omega) h.cnt (by have := h.small; omega)

theorem RepW.length_le {sch : Schema} {b : Blk} {rows : List (List Val × List Nat)} (h : RepW sch b rows) (hn : sch ≠ []) :
    rows.length ≤ 32768 := by
  obtain ⟨t, ht⟩ : ∃ t, sch[0]? = some t := ⟨sch.head hn, by
    cases sch with
    | nil => exact absurd rfl hn
    | cons t ts => rfl⟩
  have hlt : 0 < sch.length := (List.getElem?_eq_some_iff.1 ht).1
  have hc := h.col 0 t ht
  have hin := h.lay.inside 0 hlt
  have hlen : (column 0 rows).length = rows.length := by simp [column]
  have hbs : blockSize = 32768 := rfl
  cases t with
  | int =>
    obtain ⟨l, e, hc⟩ := hc
    have := hc.room
    rw [e, List.length_map] at hlen
    rw [List.length_map] at this
    omega
  | dbl =>
    obtain ⟨l, e, hc⟩ := hc
    have := hc.room
    rw [e, List.length_map] at hlen
    rw [List.length_map] at this
    omega
  | str =>
    obtain ⟨l, e, hc⟩ := hc
    have := hc.room
    have := hc.stored.top_le
    rw [e, List.length_map] at hlen
    omega

/-- The stores of all columns. -/
theorem insertColsW_ok {sch : Schema} {rows : List (List Val × List Nat)} : ∀ (vs : List Val) (idx : Nat) (b : Blk), Layout sch b →
    (∀ k v, vs[k]? = some v → sch[idx + k]? = some v.ty ∧ v.plain ∧
      Room (dataAt b (idx + k)) (endAt b sch.length (idx + k)) (column (idx + k) rows) v) →
    (∀ i t, sch[i]? = some t → ColW t (smaAt b i) (dataAt b i) (endAt b sch.length i) b (column i rows)) →
    ∃ ws b' os, insertColsW sch.length rows.length idx vs b = .ok (ws, os) ∧ insertCols sch.length rows.length idx vs b = .ok (b', os) ∧
      stores b ws = .ok b' ∧ os.length = vs.length ∧
      Pre (fun b'' => Within (startAt sch b idx) blockSize b b'' ∧ ∀ i t, sch[i]? = some t →
        ColW t (smaAt b i) (dataAt b i) (endAt b sch.length i) b'' (column i rows) ∧
        (ColB t (smaAt b i) (topV (endAt b sch.length i) (column i rows)) (endAt b sch.length i) b (column i rows) →
          ColB t (smaAt b i) (dataAt b i) (endAt b sch.length i) b'' (column i rows))) b ws ∧
      ∀ k v, vs[k]? = some v → ColW v.ty (smaAt b (idx + k)) (dataAt b (idx + k)) (endAt b sch.length (idx + k)) b'
          ((v, os.getD k 0) :: column (idx + k) rows) ∧
        (ColB v.ty (smaAt b (idx + k)) (topV (endAt b sch.length (idx + k)) (column (idx + k) rows)) (endAt b sch.length (idx + k)) b (column (idx + k) rows) →
          ColB v.ty (smaAt b (idx + k)) (os.getD k 0) (endAt b sch.length (idx + k)) b' ((v, os.getD k 0) :: column (idx + k) rows))
  | [], idx, b, hl, _, hc => by
    refine ⟨[], b, [], rfl, rfl, rfl, rfl, Pre.nil ⟨Within.refl _ _ _, fun i t ht => ⟨hc i t ht, fun hb => ?_⟩⟩, fun k v h => by simp at h⟩
    intro hs
    exact (hb.mono ((hc i t ht).data_le hs)) hs
  | v :: vs, idx, b, hl, hv, hc => by
    obtain ⟨ht, hp, hr⟩ := hv 0 v rfl
    rw [Nat.add_zero] at ht hr
    have hlt : idx < sch.length := (List.getElem?_eq_some_iff.1 ht).1
    have hlen : (column idx rows).length = rows.length := by simp [column]
    obtain ⟨ws1, b1, o, e1, e1', f1, p1, c1, d1⟩ := insertColW_ok hl ht (hc idx _ ht) hp hr
    rw [hlen] at e1 e1'
    have w1 : Within (smaAt b idx) (endAt b sch.length idx) b b1 := (p1.last f1).1
    obtain ⟨hl1, hsd, hend⟩ := hl.within w1 (hl.behind idx hlt)
    have hother : ∀ i, i < sch.length → i ≠ idx → endAt b sch.length idx ≤ smaAt b i ∨ endAt b sch.length i ≤ smaAt b idx := by
      intro i hi hne
      rcases Nat.lt_or_gt_of_ne hne with h | h
      · exact Or.inr (hl.order h hlt)
      · exact Or.inl (hl.order h hi)
    have hag : ∀ i, i < sch.length → i ≠ idx → ∀ {b'' : Blk}, Within (smaAt b idx) (endAt b sch.length idx) b b'' →
        Agree (smaAt b i) (endAt b sch.length i) b b'' := fun i hi hne b'' hw => hw.agree (hother i hi hne).symm
    have hkey : ∀ k u, vs[k]? = some u → sch[idx + 1 + k]? = some u.ty := by
      intro k u hu
      have := (hv (k + 1) u (by simpa using hu)).1
      rwa [show idx + (k + 1) = idx + 1 + k by omega] at this
    -- every column in the states of the first part
    have hcol1 : ∀ b'', (Within (smaAt b idx) (endAt b sch.length idx) b b'' ∧
        ColW v.ty (smaAt b idx) (dataAt b idx) (endAt b sch.length idx) b'' (column idx rows) ∧
        (ColB v.ty (smaAt b idx) (topV (endAt b sch.length idx) (column idx rows)) (endAt b sch.length idx) b (column idx rows) →
          ColB v.ty (smaAt b idx) (dataAt b idx) (endAt b sch.length idx) b'' (column idx rows))) → ∀ i t, sch[i]? = some t →
        ColW t (smaAt b i) (dataAt b i) (endAt b sch.length i) b'' (column i rows) ∧
        (ColB t (smaAt b i) (topV (endAt b sch.length i) (column i rows)) (endAt b sch.length i) b (column i rows) →
          ColB t (smaAt b i) (dataAt b i) (endAt b sch.length i) b'' (column i rows)) := by
      intro b'' hb i t hti
      by_cases hi : i = idx
      · subst hi
        rw [ht] at hti
        cases hti
        exact ⟨hb.2.1, hb.2.2⟩
      · have hil : i < sch.length := (List.getElem?_eq_some_iff.1 hti).1
        refine ⟨(hc i t hti).frame (hl.sma i t hti) (hag i hil hi hb.1), fun hB hs => ?_⟩
        exact ((hB.mono ((hc i t hti).data_le hs)).frame (hl.sma i t hti) (Nat.le_refl _) (hl.data i hil) (hag i hil hi hb.1)) hs
    obtain ⟨ws2, b', os, e, e', f, hlo, p2, hcols⟩ := insertColsW_ok vs (idx + 1) b1 hl1
      (fun k u hu => by
        have hlk : idx + 1 + k < sch.length := (List.getElem?_eq_some_iff.1 (hkey k u hu)).1
        have := hv (k + 1) u (by simpa using hu)
        rw [show idx + (k + 1) = idx + 1 + k by omega] at this
        rw [(hsd _ hlk).2, hend _ hlk]
        exact this)
      (fun i t hti => by
        have hil : i < sch.length := (List.getElem?_eq_some_iff.1 hti).1
        rw [(hsd _ hil).1, (hsd _ hil).2, hend _ hil]
        exact (hcol1 b1 (p1.last f1) i t hti).1)
    have hst : startAt sch b1 (idx + 1) = startAt sch b (idx + 1) := by
      unfold startAt
      by_cases h1 : idx + 1 < sch.length
      · rw [if_pos h1, if_pos h1, (hsd _ h1).1]
      · rw [if_neg h1, if_neg h1]
    rw [hst] at p2
    have hse : endAt b sch.length idx ≤ startAt sch b (idx + 1) := startAt_mono hl (Nat.lt_succ_self idx) hlt
    have h0 : startAt sch b idx = smaAt b idx := by unfold startAt; rw [if_pos hlt]
    have w2 : Within (startAt sch b (idx + 1)) blockSize b1 b' := (p2.last f).1
    refine ⟨ws1 ++ ws2, b', o :: os, ?_, ?_, by rw [stores_append b, f1, Res.ok_bind, f], by simp [hlo], ?_, ?_⟩
    · rw [insertColsW, e1, Res.ok_bind]
      dsimp only
      rw [f1, Res.ok_bind, e, Res.ok_bind]; rfl
    · rw [insertCols, e1', Res.ok_bind]
      dsimp only
      rw [e', Res.ok_bind]; rfl
    · rw [h0]
      refine (p1.mono fun b'' hb => ⟨hb.1.mono (Nat.le_refl _) (hl.inside idx hlt), hcol1 b'' hb⟩).append f1 (p2.mono fun b'' hb => ?_)
      refine ⟨(w1.mono (Nat.le_refl _) (hl.inside idx hlt)).trans (hb.1.mono (by have := hl.sma_le hlt; have := hl.data idx hlt; omega) (Nat.le_refl _)),
        fun i t hti => ?_⟩
      have hil : i < sch.length := (List.getElem?_eq_some_iff.1 hti).1
      have h2 := hb.2 i t hti
      rw [(hsd _ hil).1, (hsd _ hil).2, hend _ hil] at h2
      refine ⟨h2.1, fun hB => ?_⟩
      by_cases hi : i = idx
      · subst hi
        -- already written: the strings lie outside of what is written later
        rw [ht] at hti
        cases hti
        exact ((p1.last f1).2.2 hB).frame (hl.sma i _ ht) (Nat.le_refl _) (hl.data i hil) (hb.1.agree (Or.inl hse))
      · refine h2.2 ?_
        intro hs
        exact (hB.frame (hl.sma i t hti) ((hc i t hti).data_le hs) (hl.data i hil) (hag i hil hi w1)) hs
    · intro k u hu
      cases k with
      | zero =>
        have eu : v = u := by simpa using hu
        subst eu
        rw [Nat.add_zero, List.getD_cons_zero]
        refine ⟨c1.frame (hl.sma idx _ ht) (w2.agree (Or.inl hse)), fun hB hs => ?_⟩
        exact (d1 hB).frame (hl.sma idx _ ht) (c1.data_le hs) (hl.data idx hlt) (w2.agree (Or.inl hse)) hs
      | succ k =>
        have hu' : vs[k]? = some u := by simpa using hu
        have hti := hkey k u hu'
        have hlk : idx + 1 + k < sch.length := (List.getElem?_eq_some_iff.1 hti).1
        have := hcols k u hu'
        rw [(hsd _ hlk).1, (hsd _ hlk).2, hend _ hlk] at this
        rw [show idx + (k + 1) = idx + 1 + k by omega, List.getD_cons_succ]
        refine ⟨this.1, fun hB => this.2 fun hs => ?_⟩
        exact hB.frame (hl.sma _ _ hti) ((hc _ _ hti).data_le hs) (hl.data _ hlk) (hag _ hlk (by omega) w1) hs

theorem column_cons {i : Nat} {vs : List Val} {os : List Nat} {rows : List (List Val × List Nat)} {v : Val} (hv : vs[i]? = some v) :
    column i ((vs, os) :: rows) = (v, os.getD i 0) :: column i rows := by
  show (vs.getD i (.int 0), os.getD i 0) :: _ = _
  rw [List.getD_eq_getElem?_getD, hv]; rfl

/-- The stores of `insertTuple` in a block with enough space: they are what `insertBlk` does; before the count is increased the block stores the old
records, afterwards also the new one. -/
theorem insertBlkW_ok {sch : Schema} (hn : sch ≠ []) {b : Blk} {rows : List (List Val × List Nat)} (h : RepW sch b rows) {vs : List Val}
    (ht : vs.map Val.ty = sch) (hp : ∀ v ∈ vs, v.plain) (hf : Fits sch b rows vs) :
    ∃ ws b' os, insertBlkW sch.length vs b = .ok (ws, os) ∧ insertBlk sch.length vs b = .ok (b', os) ∧ stores b ws = .ok b' ∧ 2 ≤ ws.length ∧
      ∀ q, ∃ b'', stores b (ws.take q) = .ok b'' ∧ (bytes b'' 0 8 = bytes b 0 8 ∧ (q + 2 ≤ ws.length → bytes b'' 12 2 = bytes b 12 2)) ∧
        (∀ i, i < sch.length → smaAt b'' i = smaAt b i ∧ dataAt b'' i = dataAt b i) ∧
        (if q + 2 ≤ ws.length then RepW sch b'' rows ∧ (RepB true sch b rows → RepB false sch b'' rows)
          else RepW sch b'' ((vs, os) :: rows) ∧ (RepB true sch b rows → RepB true sch b'' ((vs, os) :: rows))) := by
  have hl := h.lay
  have hfit := hl.fits
  have hhd : header sch.length = 14 + sch.length * 4 := rfl
  have hbs : blockSize = 32768 := rfl
  have hle := h.length_le hn
  obtain ⟨ws, b1, os, e1, e1', f1, hos, p1, c1⟩ := insertColsW_ok vs 0 b hl
    (fun k v hv => by
      rw [Nat.zero_add]
      exact ⟨typed_get ht hv, hp v (List.mem_of_getElem? hv), hf k v hv⟩)
    (fun i t hti => h.col i t hti)
  have hst := header_le_startAt hl 0
  have w1 : Within (startAt sch b 0) blockSize b b1 := (p1.last f1).1
  obtain ⟨b2, e2, r2, w2⟩ := put_enc b1 (off := 8) (n := 4) (x := rows.length + 1) (by omega)
  obtain ⟨b3, e3, r3, w3⟩ := put_enc b2 (off := 12) (n := 2) (x := sub16 (dec (bytes b2 12 2)) (vs.map Val.recSize).sum) (by omega)
  have f2 : stores b (ws ++ [(8, enc 4 (rows.length + 1))]) = .ok b2 := by rw [stores_append b, f1, Res.ok_bind, stores_one, e2]
  have f3 : stores b (ws ++ [(8, enc 4 (rows.length + 1)), (12, enc 2 (sub16 (dec (bytes b2 12 2)) (vs.map Val.recSize).sum))]) = .ok b3 := by
    rw [stores_append b, f1, Res.ok_bind, stores, e2, Res.ok_bind, stores_one, e3]
  -- the states behind the store of the count
  have late : ∀ b'', Within 8 14 b1 b'' → bytes b'' 8 4 = enc 4 (rows.length + 1) →
      bytes b'' 0 8 = bytes b 0 8 ∧ (∀ i, i < sch.length → smaAt b'' i = smaAt b i ∧ dataAt b'' i = dataAt b i) ∧
      RepW sch b'' ((vs, os) :: rows) ∧ (RepB true sch b rows → RepB true sch b'' ((vs, os) :: rows)) := by
    intro b'' w hcnt
    have hby : bytes b'' 14 (sch.length * 4) = bytes b 14 (sch.length * 4) := by
      rw [w.bytes (by omega), w1.bytes (by omega)]
    obtain ⟨hl3, hsd, hend⟩ := hl.frame hby
    have hget : ∀ (i : Nat) (t : Ty), sch[i]? = some t → ∃ v : Val, vs[i]? = some v ∧ t = v.ty := by
      intro i t hti
      have hil : i < sch.length := (List.getElem?_eq_some_iff.1 hti).1
      obtain ⟨v, hv⟩ : ∃ v, vs[i]? = some v := by
        have : i < vs.length := by rw [← ht, List.length_map] at hil; exact hil
        exact ⟨vs[i], List.getElem?_eq_getElem this⟩
      refine ⟨v, hv, ?_⟩
      have := typed_get ht hv
      rw [hti] at this
      exact Option.some.inj this
    refine ⟨by rw [w.bytes (by omega), w1.bytes (by omega)], hsd, ⟨hl3, by rw [hcnt, List.length_cons], by rw [List.length_cons]; omega, ?_, ?_⟩, ?_⟩
    · intro r hr
      rcases List.mem_cons.1 hr with rfl | hr
      · refine ⟨ht, ?_⟩
        rw [hos, ← ht, List.length_map]
      · exact h.typed r hr
    · intro i t hti
      have hil : i < sch.length := (List.getElem?_eq_some_iff.1 hti).1
      obtain ⟨v, hv, rfl⟩ := hget i t hti
      have := (c1 i v hv).1
      rw [Nat.zero_add] at this
      rw [(hsd _ hil).1, (hsd _ hil).2, hend _ hil, column_cons hv]
      refine this.frame (hl.sma i _ hti) (w.agree (Or.inr ?_))
      have := hl.behind i hil
      omega
    · intro hB i t hti
      have hil : i < sch.length := (List.getElem?_eq_some_iff.1 hti).1
      obtain ⟨v, hv, rfl⟩ := hget i t hti
      have hB' := hB i _ hti
      have := c1 i v hv
      rw [Nat.zero_add] at this
      rw [if_pos rfl] at hB' ⊢
      rw [(hsd _ hil).1, hend _ hil, column_cons hv]
      intro hs
      refine (this.2 hB').frame (hl.sma i _ hti) (this.1.data_le hs) (hl.data i hil) (w.agree (Or.inr ?_)) hs
      have := hl.behind i hil
      omega
  refine ⟨_, b3, os, ?_, ?_, f3, by simp, fun q => ?_⟩
  · unfold insertBlkW
    rw [h.count, Res.ok_bind, e1, Res.ok_bind]
    dsimp only
    rw [f2, Res.ok_bind, rd_ok (by omega), Res.ok_bind]
    rfl
  · unfold insertBlk
    rw [h.count, Res.ok_bind, e1', Res.ok_bind, e2, Res.ok_bind, rd_ok (by omega), Res.ok_bind, e3, Res.ok_bind]
    rfl
  · rw [List.length_append]
    by_cases hq : q ≤ ws.length
    · obtain ⟨b'', hr'', hw'', hc''⟩ := p1 q
      obtain ⟨hl3, hsd, hend⟩ := hl.within hw'' hst
      refine ⟨b'', by rw [List.take_append_of_le_length hq, hr''], ⟨by rw [hw''.bytes (by omega)], fun _ => by rw [hw''.bytes (by omega)]⟩, hsd, ?_⟩
      rw [if_pos (by simp only [List.length_cons, List.length_nil]; omega)]
      refine ⟨⟨hl3, by rw [hw''.bytes (by omega), h.cnt], h.small, h.typed, fun i t hti => ?_⟩, fun hB i t hti => ?_⟩
      · have hil : i < sch.length := (List.getElem?_eq_some_iff.1 hti).1
        rw [(hsd _ hil).1, (hsd _ hil).2, hend _ hil]
        exact (hc'' i t hti).1
      · have hil : i < sch.length := (List.getElem?_eq_some_iff.1 hti).1
        have hB' := hB i t hti
        rw [if_pos rfl] at hB'
        rw [(hsd _ hil).1, (hsd _ hil).2, hend _ hil, if_neg (by simp)]
        exact (hc'' i t hti).2 hB'
    · have hq2 : ¬ q + 2 ≤ ws.length + [(8, enc 4 (rows.length + 1)), (12, enc 2 (sub16 (dec (bytes b2 12 2)) (vs.map Val.recSize).sum))].length := by
        simp only [List.length_cons, List.length_nil]; omega
      simp only [if_neg hq2]
      by_cases hq1 : q = ws.length + 1
      · obtain ⟨a1, a2⟩ := late b2 (w2.mono (Nat.le_refl _) (by omega)) r2
        refine ⟨b2, ?_, ⟨a1, fun h => absurd h hq2⟩, a2⟩
        rw [hq1, List.take_append, List.take_of_length_le (by omega), show ws.length + 1 - ws.length = 1 by omega]
        exact f2
      · obtain ⟨a1, a2⟩ := late b3 ((w2.mono (Nat.le_refl _) (by omega)).trans (w3.mono (by omega) (by omega))) (by rw [w3.bytes (by omega), r2])
        refine ⟨b3, ?_, ⟨a1, fun h => absurd h hq2⟩, a2⟩
        rw [List.take_of_length_le (by simp only [List.length_append, List.length_cons, List.length_nil]; omega), f3]

theorem colsSpaceW_ok {sch : Schema} {b : Blk} {rows : List (List Val × List Nat)} (h : RepW sch b rows) :
    ∀ (vs : List Val) (idx : Nat), (∀ k v, vs[k]? = some v → sch[idx + k]? = some v.ty) →
    ∃ e, colsSpace sch.length rows.length idx vs b = .ok e ∧
      (e = true ↔ ∀ k v, vs[k]? = some v → Room (dataAt b (idx + k)) (endAt b sch.length (idx + k)) (column (idx + k) rows) v)
  | [], idx, _ => ⟨true, rfl, by simp⟩
  | v :: vs, idx, ht => by
    have h0 := ht 0 v rfl
    rw [Nat.add_zero] at h0
    have hlen : (column idx rows).length = rows.length := by simp [column]
    have hs := colSpaceW_ok h.lay h0 (h.col idx _ h0)
    rw [hlen] at hs
    obtain ⟨e, he, hiff⟩ := colsSpaceW_ok h vs (idx + 1) (fun k u hu => by
      have := ht (k + 1) u (by simpa using hu)
      rwa [show idx + (k + 1) = idx + 1 + k by omega] at this)
    rw [colsSpace, hs, Res.ok_bind]
    by_cases hr : Room (dataAt b idx) (endAt b sch.length idx) (column idx rows) v
    · rw [if_pos (by simpa using hr), he]
      refine ⟨e, rfl, hiff.trans ⟨fun hk k u hu => ?_, fun hk k u hu => ?_⟩⟩
      · cases k with
        | zero =>
          have : v = u := by simpa using hu
          subst this; exact hr
        | succ k =>
          have := hk k u (by simpa using hu)
          rwa [show idx + (k + 1) = idx + 1 + k by omega]
      · have := hk (k + 1) u (by simpa using hu)
        rwa [show idx + (k + 1) = idx + 1 + k by omega] at this
    · rw [if_neg (by simpa using hr)]
      refine ⟨false, rfl, ⟨fun hf => (Bool.false_ne_true hf).elim, fun hk => ?_⟩⟩
      exact absurd (hk 0 v rfl) hr

/-- `hasEnoughSpace` never answers yes without room in every column. -/
theorem hasEnoughSpaceW_ok {sch : Schema} {b : Blk} {rows : List (List Val × List Nat)} (h : RepW sch b rows) {vs : List Val}
    (ht : vs.map Val.ty = sch) :
    ∃ e, hasEnoughSpace sch.length vs b = .ok e ∧ (e = true → Fits sch b rows vs) := by
  have hfit := h.lay.fits
  have hbs : blockSize = 32768 := rfl
  unfold hasEnoughSpace
  rw [rd_ok (by omega), Res.ok_bind]
  split
  · exact ⟨false, rfl, fun hf => (Bool.false_ne_true hf).elim⟩
  · obtain ⟨e, he, hiff⟩ := colsSpaceW_ok h vs 0 (fun k v hv => by rw [Nat.zero_add]; exact typed_get ht hv)
    rw [h.count, Res.ok_bind]
    refine ⟨e, he, fun h1 => ?_⟩
    have := hiff.1 h1
    intro i v hv
    have := this i v hv
    rwa [Nat.zero_add] at this

variable {sch : Schema} {b : Blk} {rows : List (List Val × List Nat)}

theorem RepW.column_at (h : RepW sch b rows) {p : Nat} {r : List Val × List Nat} (hr : rows.reverse[p]? = some r) {i : Nat} (hi : i < sch.length) :
    ∃ v o, r.1[i]? = some v ∧ r.2[i]? = some o ∧ (column i rows).reverse[p]? = some (v, o) := by
  obtain ⟨h1, h2⟩ := h.typed r (by simpa using List.mem_of_getElem? hr)
  have hi1 : i < r.1.length := by rw [← h1, List.length_map] at hi; exact hi
  have hi2 : i < r.2.length := by omega
  refine ⟨r.1[i], r.2[i], List.getElem?_eq_getElem hi1, List.getElem?_eq_getElem hi2, ?_⟩
  rw [column_reverse]
  unfold column
  rw [List.getElem?_map, hr]
  simp only [Option.map_some]
  rw [List.getD_eq_getElem?_getD, List.getD_eq_getElem?_getD, List.getElem?_eq_getElem hi1, List.getElem?_eq_getElem hi2]
  rfl

theorem RepW.read (h : RepW sch b rows) {r : List Val × List Nat} (hr : r ∈ rows) {i : Nat} {t : Ty} (ht : sch[i]? = some t) :
    ∃ v o, r.1[i]? = some v ∧ r.2[i]? = some o ∧ readAttr b t o = .ok v := by
  have hi : i < sch.length := (List.getElem?_eq_some_iff.1 ht).1
  obtain ⟨p, hp⟩ := List.mem_iff_getElem?.1 (List.mem_reverse.2 hr)
  obtain ⟨v, o, h1, h2, h3⟩ := h.column_at hp hi
  refine ⟨v, o, h1, h2, (h.col i t ht).read (h.lay.inside i hi) (e := (v, o)) ?_⟩
  exact List.mem_reverse.1 (List.mem_of_getElem? h3)

theorem RepW.offsets (h : RepW sch b rows) {p : Nat} {r : List Val × List Nat} (hr : rows.reverse[p]? = some r) :
    offsetsFrom b p 0 sch = .ok r.2 := by
  have hm := (h.typed r (by simpa using List.mem_of_getElem? hr)).2
  refine offsetsFrom_ok sch 0 r.2 hm (fun k t o ht ho => ?_)
  rw [Nat.zero_add]
  obtain ⟨v, o', e1, e2, e3⟩ := h.column_at hr (List.getElem?_eq_some_iff.1 ht).1
  rw [ho] at e2
  cases e2
  exact ColW.offset h.lay ht (h.col k t ht) e3

theorem RepW.create (h : RepW sch b rows) {r : List Val × List Nat} (hr : r ∈ rows) : createTuple b sch r.2 = .ok r.1 := by
  obtain ⟨h1, h2⟩ := h.typed r hr
  refine createTuple_ok sch r.2 r.1 h2 (by rw [← h1, List.length_map]) (fun k t v o ht hv ho => ?_)
  obtain ⟨v', o', e1, e2, e3⟩ := h.read hr ht
  rw [hv] at e1; rw [ho] at e2
  cases e1; cases e2
  exact e3

theorem RepW.recordsFrom (h : RepW sch b rows) : ∀ (n pos : Nat), pos + n = rows.length →
    recordsFrom sch b n pos = .ok ((rows.reverse.drop pos).map Prod.fst)
  | 0, pos, hp => by
    rw [List.drop_of_length_le (by rw [List.length_reverse]; omega)]; rfl
  | n + 1, pos, hp => by
    have hlt : pos < rows.reverse.length := by rw [List.length_reverse]; omega
    have hget := List.getElem?_eq_getElem hlt
    rw [PTable.recordsFrom, h.offsets hget, Res.ok_bind, h.create (List.mem_reverse.1 (List.getElem_mem hlt)), Res.ok_bind, h.recordsFrom n (pos + 1) (by omega), Res.ok_bind,
      List.drop_eq_getElem_cons hlt, List.map_cons]
    rfl

/-- The records a scan finds. -/
theorem RepW.records (h : RepW sch b rows) : records sch b = .ok (rows.reverse.map Prod.fst) := by
  unfold PTable.records
  rw [h.count, Res.ok_bind, h.recordsFrom rows.length 0 (by omega), List.drop_zero]

/-- The stored minimum and maximum bound the values of a column. -/
theorem RepW.sma (h : RepW sch b rows) {i : Nat} {t : Ty} (ht : sch[i]? = some t) (hb : t = .str → RepB false sch b rows) (hr : rows ≠ []) :
    ∃ mn mx, readSma b i t = .ok (mn, mx) ∧ mn.ty = t ∧ mx.ty = t ∧
      ∀ r ∈ rows, ∀ v, r.1[i]? = some v → Val.lt v mn = false ∧ Val.lt mx v = false := by
  have hi : i < sch.length := (List.getElem?_eq_some_iff.1 ht).1
  have hB : ColB t (smaAt b i) (dataAt b i) (endAt b sch.length i) b (column i rows) := fun hs => by
    have := hb hs i t ht
    rw [if_neg (by simp)] at this
    exact this hs
  obtain ⟨mn, mx, h1, h2, h3, h4⟩ := (h.col i t ht).sma hB (h.lay.sma i t ht) (h.lay.data i hi) (h.lay.inside i hi) (h.lay.smaPos hi)
    (by simpa [column] using hr)
  refine ⟨mn, mx, h1, h2, h3, fun r hr v hv => h4 v ?_⟩
  unfold column
  simp only [List.map_map, List.mem_map, Function.comp]
  refine ⟨r, hr, ?_⟩
  rw [List.getD_eq_getElem?_getD, hv]; rfl

theorem RepB.mono (h : RepW sch b rows) (hb : RepB true sch b rows) : RepB false sch b rows := by
  intro i t ht hs
  have hb' := hb i t ht
  rw [if_pos rfl] at hb'
  rw [if_neg (by simp)]
  exact hb'.mono ((h.col i t ht).data_le hs) hs

end Verif.PTable
