import Verif.PTable.Column
import Verif.PTable.Table

/-!
# A block represents a list of records
-/

namespace Verif.PTable

theorem ltInt_irrefl (x : Nat) : ltInt x x = false := by simp [ltInt]

theorem ltInt_trans (x y z : Nat) (h1 : ltInt x y = true) (h2 : ltInt y z = true) : ltInt x z = true := by
  simp only [ltInt, decide_eq_true_eq] at *
  omega

theorem dblLt_irrefl (x : BitVec 64) : dblLt x x = false := by simp [dblLt]

theorem dblLt_trans {x y z : BitVec 64} (h1 : dblLt x y = true) (h2 : dblLt y z = true) : dblLt x z = true := by
  simp only [dblLt, Bool.and_eq_true, decide_eq_true_eq] at *
  exact ⟨⟨h1.1.1, h2.1.2⟩, by omega⟩

/-- The invariant of a column of type `t`. -/
def Col (t : Ty) (sma data lim : Nat) (b : Blk) (rows : List (Val × Nat)) : Prop :=
  match t with
  | .int => ∃ l : List (BitVec 32 × Nat), rows = l.map (fun e => (Val.int e.1, e.2)) ∧
      ScalarCol 4 ltInt sma data lim b (l.map fun e => (e.1.toNat, e.2))
  | .dbl => ∃ l : List (BitVec 64 × Nat), rows = l.map (fun e => (Val.dbl e.1, e.2)) ∧
      ScalarCol 8 ltDbl sma data lim b (l.map fun e => (e.1.toNat, e.2))
  | .str => ∃ l : List (List UInt8 × Nat), rows = l.map (fun e => (Val.str e.1, e.2)) ∧ StrCol sma data lim b l

/-- Lowest byte in use by the strings. -/
def topV (lim : Nat) : List (Val × Nat) → Nat
  | [] => lim
  | e :: _ => e.2

/-- There is room for the value in the column. -/
def Room (data lim : Nat) (rows : List (Val × Nat)) : Val → Prop
  | .int _ => data + (rows.length + 1) * 4 ≤ lim
  | .dbl _ => data + (rows.length + 1) * 8 ≤ lim
  | .str s => data + (rows.length + 1) * 2 + (s.length + 1) ≤ topV lim rows

instance (data lim : Nat) (rows : List (Val × Nat)) (v : Val) : Decidable (Room data lim rows v) := by
  unfold Room; cases v <;> infer_instance

/-- A string without NUL characters. -/
def Val.plain : Val → Prop
  | .str s => (0 : UInt8) ∉ s
  | _ => True

theorem Col.frame {t : Ty} {sma data lim : Nat} {b b' : Blk} {rows : List (Val × Nat)} (h : Col t sma data lim b rows)
    (hs : sma + t.smaSize = data) (ha : Agree sma lim b b') : Col t sma data lim b' rows := by
  cases t with
  | int =>
    obtain ⟨l, e, h⟩ := h
    exact ⟨l, e, h.frame (by simp only [Ty.smaSize] at hs; omega) ha⟩
  | dbl =>
    obtain ⟨l, e, h⟩ := h
    exact ⟨l, e, h.frame (by simp only [Ty.smaSize] at hs; omega) ha⟩
  | str =>
    obtain ⟨l, e, h⟩ := h
    exact ⟨l, e, h.frame (by simp only [Ty.smaSize] at hs; omega) ha⟩

theorem topV_str (lim : Nat) (l : List (List UInt8 × Nat)) : topV lim (l.map fun e => (Val.str e.1, e.2)) = top lim l := by
  cases l <;> rfl

/-- Reading a value of the column. -/
theorem Col.read {t : Ty} {sma data lim : Nat} {b : Blk} {rows : List (Val × Nat)} (h : Col t sma data lim b rows)
    (hl : lim ≤ blockSize) {e : Val × Nat} (he : e ∈ rows) : readAttr b t e.2 = .ok e.1 := by
  cases t with
  | int =>
    obtain ⟨l, rfl, h⟩ := h
    obtain ⟨e, he', rfl⟩ := List.mem_map.1 he
    obtain ⟨h1, h2, h3, h4⟩ := h.stored.get (e.1.toNat, e.2) (List.mem_map_of_mem he')
    have := h.room
    show (rd b e.2 4 >>= fun x => pure (Val.int (BitVec.ofNat 32 x))) = _
    rw [rd_enc (by omega) h1 h2, Res.ok_bind, BitVec.ofNat_toNat, BitVec.setWidth_eq]
    rfl
  | dbl =>
    obtain ⟨l, rfl, h⟩ := h
    obtain ⟨e, he', rfl⟩ := List.mem_map.1 he
    obtain ⟨h1, h2, h3, h4⟩ := h.stored.get (e.1.toNat, e.2) (List.mem_map_of_mem he')
    have := h.room
    show (rd b e.2 8 >>= fun x => pure (Val.dbl (BitVec.ofNat 64 x))) = _
    rw [rd_enc (by omega) h1 h2, Res.ok_bind, BitVec.ofNat_toNat, BitVec.setWidth_eq]
    rfl
  | str =>
    obtain ⟨l, rfl, h⟩ := h
    obtain ⟨e, he', rfl⟩ := List.mem_map.1 he
    show (cstr b e.2 >>= fun x => pure (Val.str x)) = _
    rw [cstr_row h hl (fun _ _ _ => rfl) he', Res.ok_bind]
    rfl

/-- A stored minimum and maximum bound the column, and are values of the column. -/
theorem Col.sma {t : Ty} {sma data lim : Nat} {b : Blk} {rows : List (Val × Nat)} (h : Col t sma data lim b rows)
    (hs : sma + t.smaSize = data) (hd : data ≤ lim) (hl : lim ≤ blockSize) {i : Nat} (hi : smaPos b i = .ok sma) (hr : rows ≠ []) :
    ∃ mn mx, readSma b i t = .ok (mn, mx) ∧ mn ∈ rows.map Prod.fst ∧ mx ∈ rows.map Prod.fst ∧
      ∀ v ∈ rows.map Prod.fst, Val.lt v mn = false ∧ Val.lt mx v = false := by
  unfold readSma
  rw [hi, Res.ok_bind]
  cases t with
  | int =>
    obtain ⟨l, rfl, h⟩ := h
    obtain ⟨mn, mx, h1, h2, h3, h4, h5⟩ := h.bounds (by simpa using hr)
    simp only [Ty.smaSize] at hs
    dsimp only
    rw [rd_enc (by omega) h3 (h.stored.lt _ h1), Res.ok_bind, rd_enc (by omega) h4 (h.stored.lt _ h2), Res.ok_bind]
    refine ⟨_, _, rfl, ?_, ?_, ?_⟩
    · simp only [List.map_map, List.mem_map, Function.comp] at h1 ⊢
      obtain ⟨e, he, rfl⟩ := h1
      exact ⟨e, he, by simp⟩
    · simp only [List.map_map, List.mem_map, Function.comp] at h2 ⊢
      obtain ⟨e, he, rfl⟩ := h2
      exact ⟨e, he, by simp⟩
    · intro v hv
      simp only [List.map_map, List.mem_map, Function.comp] at hv
      obtain ⟨e, he, rfl⟩ := hv
      have := h5 e.1.toNat (by simp only [List.map_map, List.mem_map, Function.comp]; exact ⟨e, he, rfl⟩)
      simpa [ltInt, Val.lt] using this
  | dbl =>
    obtain ⟨l, rfl, h⟩ := h
    obtain ⟨mn, mx, h1, h2, h3, h4, h5⟩ := h.bounds (by simpa using hr)
    simp only [Ty.smaSize] at hs
    dsimp only
    rw [rd_enc (by omega) h3 (h.stored.lt _ h1), Res.ok_bind, rd_enc (by omega) h4 (h.stored.lt _ h2), Res.ok_bind]
    refine ⟨_, _, rfl, ?_, ?_, ?_⟩
    · simp only [List.map_map, List.mem_map, Function.comp] at h1 ⊢
      obtain ⟨e, he, rfl⟩ := h1
      exact ⟨e, he, by simp⟩
    · simp only [List.map_map, List.mem_map, Function.comp] at h2 ⊢
      obtain ⟨e, he, rfl⟩ := h2
      exact ⟨e, he, by simp⟩
    · intro v hv
      simp only [List.map_map, List.mem_map, Function.comp] at hv
      obtain ⟨e, he, rfl⟩ := hv
      have := h5 e.1.toNat (by simp only [List.map_map, List.mem_map, Function.comp]; exact ⟨e, he, rfl⟩)
      simpa [ltDbl, Val.lt] using this
  | str =>
    obtain ⟨l, rfl, h⟩ := h
    obtain ⟨mn, mx, h1, h2, h3, h4, h5⟩ := h.bounds (by simpa using hr)
    simp only [Ty.smaSize] at hs
    have l1 := (h.stored.get mn h1).2.2.2
    have l2 := (h.stored.get mx h2).2.2.2
    have hbs : blockSize = 32768 := rfl
    dsimp only
    rw [rd_enc (by omega) h3 (by omega), Res.ok_bind, rd_enc (by omega) h4 (by omega), Res.ok_bind,
      cstr_row h hl (fun _ _ _ => rfl) h1, Res.ok_bind, cstr_row h hl (fun _ _ _ => rfl) h2, Res.ok_bind]
    refine ⟨_, _, rfl, ?_, ?_, ?_⟩
    · simp only [List.map_map, List.mem_map, Function.comp]; exact ⟨mn, h1, rfl⟩
    · simp only [List.map_map, List.mem_map, Function.comp]; exact ⟨mx, h2, rfl⟩
    · intro v hv
      simp only [List.map_map, List.mem_map, Function.comp] at hv
      obtain ⟨e, he, rfl⟩ := hv
      exact h5 e he

/-! ## One column of a block -/

theorem insertCol_ok {sch : Schema} {b : Blk} (hl : Layout sch b) {i : Nat} {v : Val} (hi : sch[i]? = some v.ty)
    {rows : List (Val × Nat)} (h : Col v.ty (smaAt b i) (dataAt b i) (endAt b sch.length i) b rows) (hp : v.plain)
    (hroom : Room (dataAt b i) (endAt b sch.length i) rows v) :
    ∃ b' o, insertCol sch.length rows.length i v b = .ok (b', o) ∧ Within (smaAt b i) (endAt b sch.length i) b b' ∧
      Col v.ty (smaAt b i) (dataAt b i) (endAt b sch.length i) b' ((v, o) :: rows) := by
  have hlt : i < sch.length := (List.getElem?_eq_some_iff.1 hi).1
  have hs := hl.sma i _ hi
  have hin := hl.inside i hlt
  unfold insertCol
  rw [hl.smaPos hlt, Res.ok_bind, hl.dataPos hlt, Res.ok_bind]
  cases v with
  | int x =>
    obtain ⟨l, rfl, h⟩ := h
    simp only [Room, List.length_map] at hroom
    simp only [Val.ty, Ty.smaSize] at hs
    have := insertScalar_ok ltInt_irrefl ltInt_trans h (by omega) hin (by omega) (x := x.toNat)
      (by have := x.isLt; omega) (by simpa using hroom)
    rw [List.length_map] at this ⊢
    obtain ⟨b', e, w, hc⟩ := this
    exact ⟨b', _, e, w, (x, _) :: l, rfl, hc⟩
  | dbl x =>
    obtain ⟨l, rfl, h⟩ := h
    simp only [Room, List.length_map] at hroom
    simp only [Val.ty, Ty.smaSize] at hs
    have := insertScalar_ok (lt := ltDbl) (fun x => dblLt_irrefl _) (fun x y z => dblLt_trans) h (by omega) hin (by omega) (x := x.toNat)
      (by have := x.isLt; omega) (by simpa using hroom)
    rw [List.length_map] at this ⊢
    obtain ⟨b', e, w, hc⟩ := this
    exact ⟨b', _, e, w, (x, _) :: l, rfl, hc⟩
  | str s =>
    obtain ⟨l, rfl, h⟩ := h
    simp only [Room, List.length_map, topV_str] at hroom
    simp only [Val.ty, Ty.smaSize] at hs
    obtain ⟨b', e, w, hc⟩ := insertString_ok h (by omega) hin (hl.pageEnd hlt) hp hroom
    rw [List.length_map]
    exact ⟨b', _, e, w, (s, _) :: l, rfl, hc⟩

theorem colSpace_ok {sch : Schema} {b : Blk} (hl : Layout sch b) {i : Nat} {v : Val} (hi : sch[i]? = some v.ty)
    {rows : List (Val × Nat)} (h : Col v.ty (smaAt b i) (dataAt b i) (endAt b sch.length i) b rows) :
    colSpace sch.length rows.length i v b = .ok (decide (Room (dataAt b i) (endAt b sch.length i) rows v)) := by
  have hlt : i < sch.length := (List.getElem?_eq_some_iff.1 hi).1
  have hin := hl.inside i hlt
  have hdl := hl.data i hlt
  have hbs : blockSize = 32768 := rfl
  unfold colSpace
  rw [hl.dataPos hlt, Res.ok_bind]
  cases v with
  | int x =>
    obtain ⟨l, rfl, h⟩ := h
    have hr := h.room
    dsimp only
    rw [hl.pageEnd hlt, Res.ok_bind, Res.pure_eq]
    congr 1
    rw [decide_eq_decide]
    simp only [Room, List.length_map] at hr ⊢
    unfold sub64
    omega
  | dbl x =>
    obtain ⟨l, rfl, h⟩ := h
    have hr := h.room
    dsimp only
    rw [hl.pageEnd hlt, Res.ok_bind, Res.pure_eq]
    congr 1
    rw [decide_eq_decide]
    simp only [Room, List.length_map] at hr ⊢
    unfold sub64
    omega
  | str s =>
    obtain ⟨l, rfl, h⟩ := h
    have hr := h.room
    have ht := h.stored.top_le
    have key : (if (l.map fun e => (Val.str e.1, e.2)).length ≠ 0 then do
        let cur ← rd b (dataAt b i + (l.map fun e => (Val.str e.1, e.2)).length * 2 - 2) 2
        pure (sub16 cur (dataAt b i + (l.map fun e => (Val.str e.1, e.2)).length * 2))
      else do
        let e ← pageEnd b sch.length i
        pure (sub16 e (dataAt b i))) = Res.ok (top (endAt b sch.length i) l - (dataAt b i + l.length * 2)) := by
      rw [List.length_map]
      cases l with
      | nil =>
        rw [if_neg (by simp), hl.pageEnd hlt, Res.ok_bind, Res.pure_eq]
        congr 1
        show sub16 _ _ = endAt b sch.length i - (dataAt b i + 0)
        unfold sub16
        omega
      | cons e rest =>
        have he : top (endAt b sch.length i) (e :: rest) = e.2 := rfl
        rw [he] at hr ht ⊢
        rw [List.length_cons] at hr
        rw [if_pos (by simp), rd_enc (x := e.2) (by rw [List.length_cons]; omega)
          (by rw [List.length_cons, show dataAt b i + (rest.length + 1) * 2 - 2 = dataAt b i + rest.length * 2 by omega]
              exact h.stored.1) (by omega), Res.ok_bind, Res.pure_eq]
        congr 1
        rw [List.length_cons]
        unfold sub16
        omega
    dsimp only
    rw [key, Res.ok_bind, Res.pure_eq]
    congr 1
    rw [decide_eq_decide]
    simp only [Room, List.length_map, topV_str]
    omega

/-! ## All columns -/

/-- Entries of column `i`, newest first. -/
def column (i : Nat) (rows : List (List Val × List Nat)) : List (Val × Nat) :=
  rows.map fun r => (r.1.getD i (.int 0), r.2.getD i 0)

/-- Block `b` stores the records `rows` (newest first), each with the offsets of its attributes. -/
structure Rep (sch : Schema) (b : Blk) (rows : List (List Val × List Nat)) : Prop where
  lay : Layout sch b
  cnt : bytes b 8 4 = enc 4 rows.length
  small : rows.length < 2 ^ 32
  typed : ∀ r ∈ rows, r.1.map Val.ty = sch ∧ r.2.length = sch.length
  col : ∀ i t, sch[i]? = some t → Col t (smaAt b i) (dataAt b i) (endAt b sch.length i) b (column i rows)

/-- There is room for the record in every column. -/
def Fits (sch : Schema) (b : Blk) (rows : List (List Val × List Nat)) (vs : List Val) : Prop :=
  ∀ i v, vs[i]? = some v → Room (dataAt b i) (endAt b sch.length i) (column i rows) v

/-- First byte of column `i` (the end of the block behind the last one). -/
def startAt (sch : Schema) (b : Blk) (i : Nat) : Nat := if i < sch.length then smaAt b i else blockSize

theorem startAt_mono {sch : Schema} {b : Blk} (h : Layout sch b) {i j : Nat} (hij : i < j) (hi : i < sch.length) :
    endAt b sch.length i ≤ startAt sch b j := by
  unfold startAt
  by_cases hj : j < sch.length
  · rw [if_pos hj]; exact h.order hij hj
  · rw [if_neg hj]; exact h.inside i hi

theorem header_le_startAt {sch : Schema} {b : Blk} (h : Layout sch b) (i : Nat) : header sch.length ≤ startAt sch b i := by
  unfold startAt
  by_cases hi : i < sch.length
  · rw [if_pos hi]; exact h.behind i hi
  · rw [if_neg hi]; exact h.fits

/-- A block changed only behind the header has the same layout. -/
theorem Layout.within {sch : Schema} {b b' : Blk} (h : Layout sch b) {lo hi : Nat} (hw : Within lo hi b b')
    (hlo : header sch.length ≤ lo) :
    Layout sch b' ∧ (∀ i, i < sch.length → smaAt b' i = smaAt b i ∧ dataAt b' i = dataAt b i) ∧
      ∀ i, i < sch.length → endAt b' sch.length i = endAt b sch.length i :=
  h.frame (hw.bytes (Or.inl (by unfold header at hlo; omega)))

theorem insertCols_ok {sch : Schema} {rows : List (List Val × List Nat)} : ∀ (vs : List Val) (idx : Nat) (b : Blk), Layout sch b →
    (∀ k v, vs[k]? = some v → sch[idx + k]? = some v.ty ∧ v.plain ∧
      Room (dataAt b (idx + k)) (endAt b sch.length (idx + k)) (column (idx + k) rows) v) →
    (∀ i t, idx ≤ i → sch[i]? = some t → Col t (smaAt b i) (dataAt b i) (endAt b sch.length i) b (column i rows)) →
    ∃ b' os, insertCols sch.length rows.length idx vs b = .ok (b', os) ∧ os.length = vs.length ∧
      Within (startAt sch b idx) blockSize b b' ∧
      ∀ k v, vs[k]? = some v → Col v.ty (smaAt b (idx + k)) (dataAt b (idx + k)) (endAt b sch.length (idx + k)) b'
        ((v, os.getD k 0) :: column (idx + k) rows)
  | [], idx, b, _, _, _ => ⟨b, [], rfl, rfl, Within.refl _ _ _, fun k v h => by simp at h⟩
  | v :: vs, idx, b, hl, hv, hc => by
    obtain ⟨ht, hp, hr⟩ := hv 0 v rfl
    rw [Nat.add_zero] at ht hr
    have hlt : idx < sch.length := (List.getElem?_eq_some_iff.1 ht).1
    have hlen : (column idx rows).length = rows.length := by simp [column]
    obtain ⟨b1, o, e1, w1, c1⟩ := insertCol_ok hl ht (hc idx _ (Nat.le_refl _) ht) hp hr
    rw [hlen] at e1
    obtain ⟨hl1, hsd, hend⟩ := hl.within w1 (hl.behind idx hlt)
    have hkey : ∀ k u, vs[k]? = some u → sch[idx + 1 + k]? = some u.ty := by
      intro k u hu
      have := (hv (k + 1) u (by simpa using hu)).1
      rwa [show idx + (k + 1) = idx + 1 + k by omega] at this
    obtain ⟨b', os, e, hlo, w, hcols⟩ := insertCols_ok vs (idx + 1) b1 hl1
      (fun k u hu => by
        have hlk : idx + 1 + k < sch.length := (List.getElem?_eq_some_iff.1 (hkey k u hu)).1
        have := hv (k + 1) u (by simpa using hu)
        rw [show idx + (k + 1) = idx + 1 + k by omega] at this
        rw [(hsd _ hlk).2, hend _ hlk]
        exact this)
      (fun i t hi hti => by
        have hil : i < sch.length := (List.getElem?_eq_some_iff.1 hti).1
        rw [(hsd _ hil).1, (hsd _ hil).2, hend _ hil]
        exact (hc i t (by omega) hti).frame (hl.sma i t hti) (w1.agree (Or.inr (hl.order (by omega) hil))))
    have hst : startAt sch b1 (idx + 1) = startAt sch b (idx + 1) := by
      unfold startAt
      by_cases h1 : idx + 1 < sch.length
      · rw [if_pos h1, if_pos h1, (hsd _ h1).1]
      · rw [if_neg h1, if_neg h1]
    rw [hst] at w
    have hse : endAt b sch.length idx ≤ startAt sch b (idx + 1) := startAt_mono hl (Nat.lt_succ_self idx) hlt
    refine ⟨b', o :: os, ?_, by simp [hlo], ?_, ?_⟩
    · rw [insertCols, e1, Res.ok_bind]
      show (insertCols sch.length rows.length (idx + 1) vs b1 >>= fun r' => pure (r'.1, o :: r'.2)) = _
      rw [e, Res.ok_bind]; rfl
    · have h0 : startAt sch b idx = smaAt b idx := by unfold startAt; rw [if_pos hlt]
      rw [h0]
      exact (w1.mono (Nat.le_refl _) (hl.inside idx hlt)).trans (w.mono (by have := hl.sma_le hlt; have := hl.data idx hlt; omega) (Nat.le_refl _))
    · intro k u hu
      cases k with
      | zero =>
        have eu : v = u := by simpa using hu
        subst eu
        rw [Nat.add_zero]
        exact c1.frame (hl.sma idx _ ht) (w.agree (Or.inl hse))
      | succ k =>
        have hu' : vs[k]? = some u := by simpa using hu
        have hlk : idx + 1 + k < sch.length := (List.getElem?_eq_some_iff.1 (hkey k u hu')).1
        have := hcols k u hu'
        rw [(hsd _ hlk).1, (hsd _ hlk).2, hend _ hlk] at this
        rw [show idx + (k + 1) = idx + 1 + k by omega, List.getD_cons_succ]
        exact this

theorem Rep.count {sch : Schema} {b : Blk} {rows : List (List Val × List Nat)} (h : Rep sch b rows) : count b = .ok rows.length :=
  rd_enc (by have : blockSize = 32768 := rfl; omega) h.cnt (by have := h.small; omega)

theorem typed_get {sch : Schema} {vs : List Val} (h : vs.map Val.ty = sch) {i : Nat} {v : Val} (hv : vs[i]? = some v) :
    sch[i]? = some v.ty := by
  rw [← h, List.getElem?_map, hv]; rfl

theorem Rep.length_le {sch : Schema} {b : Blk} {rows : List (List Val × List Nat)} (h : Rep sch b rows) (hn : sch ≠ []) :
    rows.length ≤ 32768 := by
  obtain ⟨t, ht⟩ : ∃ t, sch[0]? = some t := ⟨sch.head hn, by
    cases sch with
    | nil => exact absurd rfl hn
    | cons t ts => rfl⟩
  have hlt : 0 < sch.length := (List.getElem?_eq_some_iff.1 ht).1
  have hc := h.col 0 t ht
  have hin := h.lay.inside 0 hlt
  have hlen : (column 0 rows).length = rows.length := by simp [column]
  have hbs : blockSize = 32768 := rfl
  cases t with
  | int =>
    obtain ⟨l, e, hc⟩ := hc
    have := hc.room
    rw [e, List.length_map] at hlen
    rw [List.length_map] at this
    omega
  | dbl =>
    obtain ⟨l, e, hc⟩ := hc
    have := hc.room
    rw [e, List.length_map] at hlen
    rw [List.length_map] at this
    omega
  | str =>
    obtain ⟨l, e, hc⟩ := hc
    have := hc.room
    have := hc.stored.top_le
    rw [e, List.length_map] at hlen
    omega

/-- `insertTuple` in a block with enough space. -/
theorem insertBlk_ok {sch : Schema} (hn : sch ≠ []) {b : Blk} {rows : List (List Val × List Nat)} (h : Rep sch b rows) {vs : List Val}
    (ht : vs.map Val.ty = sch) (hp : ∀ v ∈ vs, v.plain) (hf : Fits sch b rows vs) :
    ∃ b' os, insertBlk sch.length vs b = .ok (b', os) ∧ Rep sch b' ((vs, os) :: rows) ∧ (bytes b' 0 8 = bytes b 0 8) ∧
      (∀ i, i < sch.length → smaAt b' i = smaAt b i ∧ dataAt b' i = dataAt b i) ∧
      ∀ i, i < sch.length → endAt b' sch.length i = endAt b sch.length i := by
  have hl := h.lay
  have hfit := hl.fits
  have hhd : header sch.length = 14 + sch.length * 4 := rfl
  have hbs : blockSize = 32768 := rfl
  have hle := h.length_le hn
  obtain ⟨b1, os, e1, hos, w1, c1⟩ := insertCols_ok vs 0 b hl
    (fun k v hv => by
      rw [Nat.zero_add]
      exact ⟨typed_get ht hv, hp v (List.mem_of_getElem? hv), hf k v hv⟩)
    (fun i t _ hti => h.col i t hti)
  have hst := header_le_startAt hl 0
  obtain ⟨b2, e2, r2, w2⟩ := put_enc b1 (off := 8) (n := 4) (x := rows.length + 1) (by omega)
  obtain ⟨b3, e3, r3, w3⟩ := put_enc b2 (off := 12) (n := 2) (x := sub16 (dec (bytes b2 12 2)) (vs.map Val.recSize).sum) (by omega)
  have w23 : Within 8 14 b1 b3 := (w2.mono (Nat.le_refl _) (by omega)).trans (w3.mono (by omega) (by omega))
  have hby : bytes b3 14 (sch.length * 4) = bytes b 14 (sch.length * 4) := by
    rw [w23.bytes (by omega), w1.bytes (by omega)]
  obtain ⟨hl3, hsd, hend⟩ := hl.frame hby
  refine ⟨b3, os, ?_, ⟨hl3, ?_, ?_, ?_, ?_⟩, ?_, hsd, hend⟩
  · unfold insertBlk
    rw [h.count, Res.ok_bind, e1, Res.ok_bind, e2, Res.ok_bind, rd_ok (by omega), Res.ok_bind, e3, Res.ok_bind]
    rfl
  · rw [w3.bytes (by omega), r2, List.length_cons]
  · rw [List.length_cons]; omega
  · intro r hr
    rcases List.mem_cons.1 hr with rfl | hr
    · refine ⟨ht, ?_⟩
      rw [hos, ← ht, List.length_map]
    · exact h.typed r hr
  · intro i t hti
    have hil : i < sch.length := (List.getElem?_eq_some_iff.1 hti).1
    obtain ⟨v, hv⟩ : ∃ v, vs[i]? = some v := by
      have : i < vs.length := by rw [← ht, List.length_map] at hil; exact hil
      exact ⟨vs[i], List.getElem?_eq_getElem this⟩
    have hty : t = v.ty := by
      have := typed_get ht hv
      rw [hti] at this
      exact Option.some.inj this
    subst hty
    have := c1 i v hv
    rw [Nat.zero_add] at this
    rw [(hsd _ hil).1, (hsd _ hil).2, hend _ hil]
    have hcol : column i ((vs, os) :: rows) = (v, os.getD i 0) :: column i rows := by
      show (vs.getD i (.int 0), os.getD i 0) :: _ = _
      rw [List.getD_eq_getElem?_getD, hv]; rfl
    rw [hcol]
    refine this.frame (hl.sma i _ hti) (w23.agree (Or.inr ?_))
    have := hl.behind i hil
    omega
  · rw [w23.bytes (by omega), w1.bytes (by omega)]

theorem colsSpace_ok {sch : Schema} {b : Blk} {rows : List (List Val × List Nat)} (h : Rep sch b rows) :
    ∀ (vs : List Val) (idx : Nat), (∀ k v, vs[k]? = some v → sch[idx + k]? = some v.ty) →
    ∃ e, colsSpace sch.length rows.length idx vs b = .ok e ∧
      (e = true ↔ ∀ k v, vs[k]? = some v → Room (dataAt b (idx + k)) (endAt b sch.length (idx + k)) (column (idx + k) rows) v)
  | [], idx, _ => ⟨true, rfl, by simp⟩
  | v :: vs, idx, ht => by
    have h0 := ht 0 v rfl
    rw [Nat.add_zero] at h0
    have hlen : (column idx rows).length = rows.length := by simp [column]
    have hs := colSpace_ok h.lay h0 (h.col idx _ h0)
    rw [hlen] at hs
    obtain ⟨e, he, hiff⟩ := colsSpace_ok h vs (idx + 1) (fun k u hu => by
      have := ht (k + 1) u (by simpa using hu)
      rwa [show idx + (k + 1) = idx + 1 + k by omega] at this)
    rw [colsSpace, hs, Res.ok_bind]
    by_cases hr : Room (dataAt b idx) (endAt b sch.length idx) (column idx rows) v
    · rw [if_pos (by simpa using hr), he]
      refine ⟨e, rfl, hiff.trans ⟨fun hk k u hu => ?_, fun hk k u hu => ?_⟩⟩
      · cases k with
        | zero =>
          have : v = u := by simpa using hu
          subst this; exact hr
        | succ k =>
          have := hk k u (by simpa using hu)
          rwa [show idx + (k + 1) = idx + 1 + k by omega]
      · have := hk (k + 1) u (by simpa using hu)
        rwa [show idx + (k + 1) = idx + 1 + k by omega] at this
    · rw [if_neg (by simpa using hr)]
      refine ⟨false, rfl, ⟨fun hf => (Bool.false_ne_true hf).elim, fun hk => ?_⟩⟩
      exact absurd (hk 0 v rfl) hr

/-- `hasEnoughSpace` never answers yes without room in every column. -/
theorem hasEnoughSpace_ok {sch : Schema} {b : Blk} {rows : List (List Val × List Nat)} (h : Rep sch b rows) {vs : List Val}
    (ht : vs.map Val.ty = sch) :
    ∃ e, hasEnoughSpace sch.length vs b = .ok e ∧ (e = true → Fits sch b rows vs) := by
  have hfit := h.lay.fits
  have hbs : blockSize = 32768 := rfl
  unfold hasEnoughSpace
  rw [rd_ok (by omega), Res.ok_bind]
  split
  · exact ⟨false, rfl, fun hf => (Bool.false_ne_true hf).elim⟩
  · obtain ⟨e, he, hiff⟩ := colsSpace_ok h vs 0 (fun k v hv => by rw [Nat.zero_add]; exact typed_get ht hv)
    rw [h.count, Res.ok_bind]
    refine ⟨e, he, fun h1 => ?_⟩
    have := hiff.1 h1
    intro i v hv
    have := this i v hv
    rwa [Nat.zero_add] at this

/-- Reading an attribute of a stored record. -/
theorem Rep.read {sch : Schema} {b : Blk} {rows : List (List Val × List Nat)} (h : Rep sch b rows) {r : List Val × List Nat} (hr : r ∈ rows)
    {i : Nat} {t : Ty} (ht : sch[i]? = some t) :
    ∃ v o, r.1[i]? = some v ∧ r.2[i]? = some o ∧ readAttr b t o = .ok v := by
  obtain ⟨h1, h2⟩ := h.typed r hr
  have hi : i < sch.length := (List.getElem?_eq_some_iff.1 ht).1
  have hi1 : i < r.1.length := by rw [← h1, List.length_map] at hi; exact hi
  have hi2 : i < r.2.length := by omega
  refine ⟨r.1[i], r.2[i], List.getElem?_eq_getElem hi1, List.getElem?_eq_getElem hi2, ?_⟩
  refine (h.col i t ht).read (h.lay.inside i hi) (e := (r.1[i], r.2[i])) ?_
  unfold column
  refine List.mem_map.2 ⟨r, hr, ?_⟩
  rw [List.getD_eq_getElem?_getD, List.getD_eq_getElem?_getD, List.getElem?_eq_getElem hi1, List.getElem?_eq_getElem hi2]
  rfl

theorem rep_init {sch : Schema} {b : Blk} (hl : Layout sch b) (h8 : bytes b 8 4 = enc 4 0) : Rep sch b [] := by
  refine ⟨hl, h8, by simp, by simp, ?_⟩
  intro i t ht
  have hi : i < sch.length := (List.getElem?_eq_some_iff.1 ht).1
  have := hl.data i hi
  cases t with
  | int => exact ⟨[], rfl, trivial, by simpa using this, fun h => absurd rfl h⟩
  | dbl => exact ⟨[], rfl, trivial, by simpa using this, fun h => absurd rfl h⟩
  | str => exact ⟨[], rfl, trivial, by simpa [top] using this, fun h => absurd rfl h⟩

end Verif.PTable
