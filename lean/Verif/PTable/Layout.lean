import Verif.PTable.Block

/-!
# Layout of a block
-/

namespace Verif.PTable

/-- SMA offset, data offset and end of the minipage of column `i`, from the header of the block. -/
def smaAt (b : Blk) (i : Nat) : Nat := dec (bytes b (14 + i * 4) 2)
def dataAt (b : Blk) (i : Nat) : Nat := dec (bytes b (16 + i * 4) 2)
def endAt (b : Blk) (n i : Nat) : Nat := if n ≤ i + 1 then blockSize else smaAt b (i + 1)

/-- A well-formed layout: behind the header every column has an SMA area directly followed by a data area; the
columns follow each other, and end inside of the block. -/
structure Layout (sch : Schema) (b : Blk) : Prop where
  fits : header sch.length ≤ blockSize
  behind : ∀ i, i < sch.length → header sch.length ≤ smaAt b i
  sma : ∀ i t, sch[i]? = some t → smaAt b i + t.smaSize = dataAt b i
  data : ∀ i, i < sch.length → dataAt b i ≤ endAt b sch.length i
  inside : ∀ i, i < sch.length → endAt b sch.length i ≤ blockSize

variable {sch : Schema} {b b' : Blk}

theorem Layout.smaPos (h : Layout sch b) {i : Nat} (hi : i < sch.length) : smaPos b i = .ok (smaAt b i) := by
  have := h.fits
  unfold header at this
  exact rd_ok (by omega)

theorem Layout.dataPos (h : Layout sch b) {i : Nat} (hi : i < sch.length) : dataPos b i = .ok (dataAt b i) := by
  have := h.fits
  unfold header at this
  exact rd_ok (by omega)

theorem Layout.pageEnd (h : Layout sch b) {i : Nat} (hi : i < sch.length) :
    pageEnd b sch.length i = .ok (endAt b sch.length i) := by
  unfold PTable.pageEnd endAt
  by_cases h1 : sch.length ≤ i + 1
  · rw [if_pos h1, if_pos h1]
  · rw [if_neg h1, if_neg h1, h.smaPos (by omega)]

theorem Layout.ty (_h : Layout sch b) {i : Nat} (hi : i < sch.length) : ∃ t, sch[i]? = some t :=
  ⟨sch[i], List.getElem?_eq_getElem hi⟩

theorem Layout.sma_le (h : Layout sch b) {i : Nat} (hi : i < sch.length) : smaAt b i ≤ endAt b sch.length i := by
  obtain ⟨t, ht⟩ := h.ty hi
  have := h.sma i t ht
  have := h.data i hi
  omega

/-- Earlier columns end before later ones begin. -/
theorem Layout.order (h : Layout sch b) {i : Nat} : ∀ {j : Nat}, i < j → j < sch.length →
    endAt b sch.length i ≤ smaAt b j := by
  intro j hij hj
  induction j with
  | zero => omega
  | succ j ih =>
    by_cases e : i = j
    · subst e
      unfold endAt; rw [if_neg (by omega)]
    · have h1 := ih (by omega) (by omega)
      have h2 := h.sma_le (i := j) (by omega)
      unfold endAt at h2
      rw [if_neg (by omega)] at h2
      omega

/-- The layout only depends on the column offsets in the header. -/
theorem Layout.frame (h : Layout sch b) (hb : bytes b' 14 (sch.length * 4) = bytes b 14 (sch.length * 4)) :
    Layout sch b' ∧ (∀ i, i < sch.length → smaAt b' i = smaAt b i ∧ dataAt b' i = dataAt b i) ∧
      ∀ i, i < sch.length → endAt b' sch.length i = endAt b sch.length i := by
  have key : ∀ i k, i < sch.length → k ≤ 2 → bytes b' (14 + (i * 4 + k)) 2 = bytes b (14 + (i * 4 + k)) 2 := by
    intro i k hi hk
    have e : sch.length * 4 = (i * 4 + k) + (2 + (sch.length * 4 - (i * 4 + k) - 2)) := by omega
    rw [e, bytes_append b' (i * 4 + k), bytes_append b (i * 4 + k)] at hb
    have hb2 := (List.append_inj hb (by simp)).2
    rw [bytes_append b' 2, bytes_append b 2] at hb2
    exact (List.append_inj hb2 (by simp)).1
  have h1 : ∀ i, i < sch.length → smaAt b' i = smaAt b i ∧ dataAt b' i = dataAt b i := by
    intro i hi
    have e0 := key i 0 hi (by omega)
    have e2 := key i 2 hi (by omega)
    rw [Nat.add_zero] at e0
    rw [show 14 + (i * 4 + 2) = 16 + i * 4 by omega] at e2
    exact ⟨congrArg dec e0, congrArg dec e2⟩
  have h2 : ∀ i, i < sch.length → endAt b' sch.length i = endAt b sch.length i := by
    intro i hi
    unfold endAt
    by_cases hn : sch.length ≤ i + 1
    · rw [if_pos hn, if_pos hn]
    · rw [if_neg hn, if_neg hn, (h1 (i + 1) (by omega)).1]
  refine ⟨⟨h.fits, ?_, ?_, ?_, ?_⟩, h1, h2⟩
  · intro i hi; rw [(h1 i hi).1]; exact h.behind i hi
  · intro i t ht
    have hi : i < sch.length := (List.getElem?_eq_some_iff.1 ht).1
    rw [(h1 i hi).1, (h1 i hi).2]; exact h.sma i t ht
  · intro i hi; rw [(h1 i hi).2, h2 i hi]; exact h.data i hi
  · intro i hi; rw [h2 i hi]; exact h.inside i hi

/-! ## `initBlock` -/

/-- Start of column `i` when the columns start at `off`. -/
def start (total p off : Nat) (sch : Schema) (i : Nat) : Nat := off + ((sch.take i).map (pageSize total p)).sum

theorem start_zero (total p off : Nat) (sch : Schema) : start total p off sch 0 = off := by simp [start]

theorem start_succ (total p off : Nat) (t : Ty) (sch : Schema) (i : Nat) :
    start total p off (t :: sch) (i + 1) = start total p (off + pageSize total p t) sch i := by
  simp [start]; omega

theorem start_next (total p off : Nat) : ∀ (sch : Schema) (i : Nat) (t : Ty), sch[i]? = some t →
    start total p off sch (i + 1) = start total p off sch i + pageSize total p t := by
  intro sch i t h
  unfold start
  rw [List.take_add_one, h]
  simp [Nat.add_assoc]

theorem initCols_ok (total p : Nat) : ∀ (sch : Schema) (idx off sz : Nat) (b : Blk),
    14 + (idx + sch.length) * 4 ≤ off → off + (sch.map (pageSize total p)).sum ≤ blockSize →
    (∀ t ∈ sch, t.smaSize ≤ pageSize total p t) →
    ∃ b', initCols total p idx off sz sch b = .ok (b', sz + (sch.map Ty.smaSize).sum) ∧
      Within (14 + idx * 4) (14 + (idx + sch.length) * 4) b b' ∧
      ∀ i t, sch[i]? = some t → smaAt b' (idx + i) = start total p off sch i ∧
        dataAt b' (idx + i) = start total p off sch i + t.smaSize
  | [], idx, off, sz, b, _, _, _ => ⟨b, rfl, Within.refl _ _ _, fun i t h => by simp at h⟩
  | t :: sch, idx, off, sz, b, h1, h2, h3 => by
    rw [List.length_cons] at h1
    rw [List.map_cons, List.sum_cons] at h2
    have ht := h3 t List.mem_cons_self
    have hbs : blockSize = 32768 := rfl
    obtain ⟨b1, e1, r1, w1⟩ := put_enc b (off := 14 + idx * 4) (n := 2) (x := off % 65536) (by omega)
    obtain ⟨b2, e2, r2, w2⟩ := put_enc b1 (off := 16 + idx * 4) (n := 2) (x := (off % 65536 + t.smaSize) % 65536) (by omega)
    obtain ⟨b', e, w, hc⟩ := initCols_ok total p sch (idx + 1) (off + pageSize total p t) (sz + t.smaSize) b2
      (by omega) (by omega) (fun u hu => h3 u (List.mem_cons_of_mem _ hu))
    refine ⟨b', ?_, ?_, ?_⟩
    · rw [initCols, e1, Res.ok_bind, e2, Res.ok_bind, e, List.map_cons, List.sum_cons, Nat.add_assoc]
    · rw [List.length_cons]
      exact ((w1.mono (Nat.le_refl _) (by omega)).trans (w2.mono (by omega) (by omega))).trans (w.mono (by omega) (by omega))
    · intro i u hu
      cases i with
      | zero =>
        have eu : t = u := by simpa using hu
        subst eu
        rw [start_zero]
        have hs : bytes b' (14 + idx * 4) 2 = enc 2 off := by
          rw [w.bytes (by omega), w2.bytes (by omega), r1, Nat.mod_eq_of_lt (by omega)]
        have hd : bytes b' (16 + idx * 4) 2 = enc 2 (off + t.smaSize) := by
          rw [w.bytes (by omega), r2, Nat.mod_eq_of_lt (a := off) (by omega), Nat.mod_eq_of_lt (by omega)]
        constructor
        · show dec (bytes b' (14 + (idx + 0) * 4) 2) = off
          rw [Nat.add_zero, hs, dec_enc_lt (by omega)]
        · show dec (bytes b' (16 + (idx + 0) * 4) 2) = _
          rw [Nat.add_zero, hd, dec_enc_lt (by omega)]
      | succ i =>
        have := hc i u (by simpa using hu)
        rw [start_succ, show idx + (i + 1) = idx + 1 + i by omega]
        exact this

theorem add_div_le (a b p : Nat) : a / p + b / p ≤ (a + b) / p := by
  rcases Nat.eq_zero_or_pos p with rfl | hp
  · simp
  · rw [Nat.le_div_iff_mul_le hp, Nat.add_mul]
    exact Nat.add_le_add (Nat.div_mul_le_self a p) (Nat.div_mul_le_self b p)

theorem le_sum_map {α : Type} (f : α → Nat) {a : α} : ∀ {l : List α}, a ∈ l → f a ≤ (l.map f).sum
  | x :: l, h => by
    rw [List.map_cons, List.sum_cons]
    rcases List.mem_cons.1 h with rfl | h
    · omega
    · have := le_sum_map f h
      omega

theorem sum_map_le {α : Type} (f g : α → Nat) : ∀ {l : List α}, (∀ a ∈ l, f a ≤ g a) → (l.map f).sum ≤ (l.map g).sum
  | [], _ => by simp
  | x :: l, h => by
    simp only [List.map_cons, List.sum_cons]
    have := sum_map_le f g (fun a ha => h a (List.mem_cons_of_mem _ ha))
    have := h x List.mem_cons_self
    omega

theorem sum_div_le (total p : Nat) : ∀ l : List Nat, (l.map (fun x => x * total / p)).sum ≤ l.sum * total / p
  | [] => by simp
  | x :: l => by
    rw [List.map_cons, List.sum_cons, List.sum_cons, Nat.add_mul]
    have := sum_div_le total p l
    refine Nat.le_trans ?_ (add_div_le (x * total) (l.sum * total) p)
    omega

theorem pages_le (total : Nat) (sch : Schema) : (sch.map (pageSize total (portions sch))).sum ≤ total := by
  have h1 : ∀ (p : Nat) (l : Schema), (l.map (pageSize total p)).sum ≤ ((l.map Ty.portion).map (fun x => x * total / p)).sum := by
    intro p l
    induction l with
    | nil => simp
    | cons t l ih =>
      simp only [List.map_cons, List.sum_cons]
      have : pageSize total p t ≤ t.portion * total / p := Nat.mod_le _ _
      omega
  refine (h1 _ sch).trans ((sum_div_le total _ _).trans ?_)
  show portions sch * total / portions sch ≤ total
  by_cases hp : portions sch = 0
  · simp [hp]
  · rw [Nat.mul_div_cancel_left _ (Nat.pos_of_ne_zero hp)]

/-- The minipages of a schema are large enough for their SMA areas. -/
def PagesBigEnough (sch : Schema) : Prop :=
  header sch.length ≤ blockSize ∧
    ∀ t ∈ sch, t.smaSize ≤ t.portion * (blockSize - header sch.length) / portions sch

theorem pageSize_eq {total : Nat} (ht : total ≤ 32768) {sch : Schema} {t : Ty} (h : t ∈ sch) :
    pageSize total (portions sch) t = t.portion * total / portions sch := by
  apply Nat.mod_eq_of_lt
  have hp : t.portion ≤ portions sch := by
    exact le_sum_map Ty.portion h
  have h1 : t.portion * total / portions sch ≤ total := by
    by_cases h0 : portions sch = 0
    · simp [h0]
    · refine Nat.div_le_of_le_mul ?_
      exact Nat.mul_le_mul_right _ hp
  omega

/-- A new block has a well-formed layout, no records, and the given BDCC range. -/
theorem initBlock_ok {sch : Schema} (hp : PagesBigEnough sch) {lo hi : Nat} (hlo : lo < 2 ^ 32) (hhi : hi < 2 ^ 32) :
    ∃ b, initBlock sch lo hi = .ok b ∧ Layout sch b ∧ bytes b 0 4 = enc 4 lo ∧ bytes b 4 4 = enc 4 hi ∧
      count b = .ok 0 ∧ rd b 12 2 = .ok (blockSize - header sch.length - (sch.map Ty.smaSize).sum) ∧
      ∀ i t, sch[i]? = some t → smaAt b i = start (blockSize - header sch.length) (portions sch) (header sch.length) sch i ∧
        dataAt b i = start (blockSize - header sch.length) (portions sch) (header sch.length) sch i + t.smaSize := by
  obtain ⟨hf, hb⟩ := hp
  have hbs : blockSize = 32768 := rfl
  have hh : header sch.length = 14 + sch.length * 4 := rfl
  have etotal : sub16 blockSize (header sch.length) = blockSize - header sch.length := by unfold sub16; omega
  obtain ⟨b1, e1, r1, w1⟩ := put_enc (fun _ => (0 : UInt8)) (off := 0) (n := 4) (x := lo) (by omega)
  obtain ⟨b2, e2, r2, w2⟩ := put_enc b1 (off := 4) (n := 4) (x := hi) (by omega)
  have hpl := pages_le (blockSize - header sch.length) sch
  have hpg : ∀ t ∈ sch, t.smaSize ≤ pageSize (blockSize - header sch.length) (portions sch) t := by
    intro t ht
    rw [pageSize_eq (by omega) ht]
    exact hb t ht
  obtain ⟨b3, e3, w3, hc⟩ := initCols_ok (blockSize - header sch.length) (portions sch) sch 0 (header sch.length) 0 b2
    (by omega) (by omega) hpg
  have hsm : (sch.map Ty.smaSize).sum ≤ (sch.map (pageSize (blockSize - header sch.length) (portions sch))).sum :=
    sum_map_le _ _ hpg
  have e16 : sub16 blockSize (header sch.length + (0 + (sch.map Ty.smaSize).sum)) =
      blockSize - header sch.length - (sch.map Ty.smaSize).sum := by
    unfold sub16; omega
  obtain ⟨b4, e4, r4, w4⟩ := put_enc b3 (off := 12) (n := 2)
    (x := sub16 blockSize (header sch.length + (0 + (sch.map Ty.smaSize).sum))) (by omega)
  have hs : ∀ i t, sch[i]? = some t → smaAt b4 i = start (blockSize - header sch.length) (portions sch) (header sch.length) sch i ∧
      dataAt b4 i = start (blockSize - header sch.length) (portions sch) (header sch.length) sch i + t.smaSize := by
    intro i t ht
    have := hc i t ht
    rw [Nat.zero_add] at this
    unfold smaAt dataAt at this ⊢
    rw [w4.bytes (by omega), w4.bytes (by omega)]
    exact this
  have hty : ∀ i, i < sch.length → ∃ t, sch[i]? = some t := fun i hi => ⟨sch[i], List.getElem?_eq_getElem hi⟩
  have hend : ∀ i, i < sch.length →
      start (blockSize - header sch.length) (portions sch) (header sch.length) sch (i + 1) ≤ endAt b4 sch.length i ∧
        endAt b4 sch.length i ≤ blockSize := by
    intro i hi
    have hle : ∀ j, start (blockSize - header sch.length) (portions sch) (header sch.length) sch j ≤ blockSize := by
      intro j
      unfold start
      have : ((sch.take j).map (pageSize (blockSize - header sch.length) (portions sch))).sum ≤
          (sch.map (pageSize (blockSize - header sch.length) (portions sch))).sum := by
        conv => rhs; arg 1; arg 2; rw [← List.take_append_drop j sch]
        rw [List.map_append, List.sum_append]
        omega
      omega
    unfold endAt
    by_cases hn : sch.length ≤ i + 1
    · rw [if_pos hn]; exact ⟨hle _, Nat.le_refl _⟩
    · rw [if_neg hn]
      obtain ⟨t, ht⟩ := hty (i + 1) (by omega)
      rw [(hs _ t ht).1]
      exact ⟨Nat.le_refl _, hle _⟩
  refine ⟨b4, ?_, ⟨hf, ?_, ?_, ?_, ?_⟩, ?_, ?_, ?_, ?_, hs⟩
  · unfold initBlock
    rw [e1, Res.ok_bind, e2, Res.ok_bind]
    dsimp only
    rw [etotal, e3, Res.ok_bind, e4]
  · intro i hi
    obtain ⟨t, ht⟩ := hty i hi
    rw [(hs i t ht).1]; unfold start; omega
  · intro i t ht
    rw [(hs i t ht).1, (hs i t ht).2]
  · intro i hi
    obtain ⟨t, ht⟩ := hty i hi
    rw [(hs i t ht).2]
    refine Nat.le_trans ?_ (hend i hi).1
    rw [start_next _ _ _ sch i t ht]
    have := hpg t (List.mem_of_getElem? ht)
    omega
  · intro i hi; exact (hend i hi).2
  · rw [w4.bytes (by omega), w3.bytes (by omega), w2.bytes (by omega), r1]
  · rw [w4.bytes (by omega), w3.bytes (by omega), r2]
  · unfold count
    rw [rd_ok (by omega), w4.bytes (by omega), w3.bytes (by omega), w2.bytes (by omega), w1.bytes (by omega)]
    rfl
  · rw [rd_ok (by omega), r4, e16, dec_enc_lt (by omega)]

end Verif.PTable
