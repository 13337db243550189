import Verif.PTable.CrashRep
import Verif.PTable.Live

/-!
# Space and positions in a block after crashes
-/

namespace Verif.PTable

/-- The space used stays within the column; there is room for a value exactly if it fits into what is left. -/
theorem ColW.use {t : Ty} {sma data lim : Nat} {b : Blk} {rows : List (Val × Nat)} (h : ColW t sma data lim b rows) :
    data + (rows.map fun e => e.1.recSize).sum ≤ lim ∧
      ∀ v : Val, v.ty = t → (Room data lim rows v ↔ data + (rows.map fun e => e.1.recSize).sum + v.recSize ≤ lim) := by
  cases t with
  | int =>
    obtain ⟨l, rfl, h⟩ := h
    have hr := h.room
    have e : ((l.map fun e => (Val.int e.1, e.2)).map fun e => e.1.recSize).sum = l.length * 4 := by
      rw [List.map_map]; exact sum_const l 4
    rw [List.length_map] at hr
    rw [e]
    refine ⟨hr, fun v hv => ?_⟩
    cases v <;> simp only [Val.ty, reduceCtorEq] at hv
    simp only [Room, Val.recSize, List.length_map]
    omega
  | dbl =>
    obtain ⟨l, rfl, h⟩ := h
    have hr := h.room
    have e : ((l.map fun e => (Val.dbl e.1, e.2)).map fun e => e.1.recSize).sum = l.length * 8 := by
      rw [List.map_map]; exact sum_const l 8
    rw [List.length_map] at hr
    rw [e]
    refine ⟨hr, fun v hv => ?_⟩
    cases v <;> simp only [Val.ty, reduceCtorEq] at hv
    simp only [Room, Val.recSize, List.length_map]
    omega
  | str =>
    obtain ⟨l, rfl, h⟩ := h
    have hr := h.room
    have ht := h.stored.top_eq
    have e : ((l.map fun e => (Val.str e.1, e.2)).map fun e => e.1.recSize).sum = l.length * 2 + (l.map fun e => e.1.length + 1).sum := by
      rw [List.map_map]
      clear hr ht h
      induction l with
      | nil => simp
      | cons a l ih =>
        rw [List.map_cons, List.sum_cons, ih, List.map_cons, List.sum_cons, List.length_cons]
        show a.1.length + 1 + 2 + _ = _
        omega
    rw [e]
    refine ⟨by omega, fun v hv => ?_⟩
    cases v <;> simp only [Val.ty, reduceCtorEq] at hv
    simp only [Room, Val.recSize, List.length_map, topV_str]
    omega

theorem RepW.use_le {sch : Schema} {b : Blk} {rows : List (List Val × List Nat)} (h : RepW sch b rows) (hs : Std sch b) {i : Nat} (hi : i < sch.length) :
    dataOf sch i + use i (rows.map Prod.fst) ≤ endOf sch i := by
  have := (h.col i sch[i] (List.getElem?_eq_getElem hi)).use.1
  rw [(hs i hi).2, hs.end, ← use_column hi (fun r hr => (h.typed r hr).1)] at this
  exact this

theorem RepW.fits_iff {sch : Schema} {b : Blk} {rows : List (List Val × List Nat)} (h : RepW sch b rows) (hs : Std sch b) {vs : List Val}
    (hv : vs.map Val.ty = sch) :
    Fits sch b rows vs ↔ ∀ i, i < sch.length → dataOf sch i + use i (vs :: rows.map Prod.fst) ≤ endOf sch i := by
  have key : ∀ i v, vs[i]? = some v → (Room (dataAt b i) (endAt b sch.length i) (column i rows) v ↔
      dataOf sch i + use i (vs :: rows.map Prod.fst) ≤ endOf sch i) := by
    intro i v hiv
    have ht := typed_get hv hiv
    have hi : i < sch.length := (List.getElem?_eq_some_iff.1 ht).1
    have := (h.col i _ ht).use.2 v rfl
    rw [this, (hs i hi).2, hs.end, ← use_column hi (fun r hr => (h.typed r hr).1), use_cons, useOf, hiv]
    simp only [Option.map_some, Option.getD_some]
    omega
  constructor
  · intro hf i hi
    have hi' : i < vs.length := by rw [← hv, List.length_map] at hi; exact hi
    exact (key i vs[i] (List.getElem?_eq_getElem hi')).1 (hf i _ (List.getElem?_eq_getElem hi'))
  · intro hf i v hiv
    refine (key i v hiv).2 (hf i ?_)
    exact (List.getElem?_eq_some_iff.1 (typed_get hv hiv)).1

theorem ColW.offset_both {sch : Schema} {b : Blk} (hl : Layout sch b) {i : Nat} {t : Ty} (ht : sch[i]? = some t) {rows : List (Val × Nat)}
    (h : ColW t (smaAt b i) (dataAt b i) (endAt b sch.length i) b rows) {p : Nat} {e : Val × Nat} (he : rows.reverse[p]? = some e) :
    offsetAt b p i t = .ok e.2 ∧ (t ≠ .str → e.2 = dataAt b i + p * t.dataSize) := by
  have hi : i < sch.length := (List.getElem?_eq_some_iff.1 ht).1
  have hp : p < rows.length := by
    have := (List.getElem?_eq_some_iff.1 he).1
    simpa using this
  have hin := hl.inside i hi
  have hbs : blockSize = 32768 := rfl
  unfold offsetAt
  rw [hl.dataPos hi, Res.ok_bind]
  cases t with
  | int =>
    obtain ⟨l, rfl, h⟩ := h
    have hr := h.room
    rw [← List.map_reverse, List.getElem?_map] at he
    obtain ⟨e', he', rfl⟩ := Option.map_eq_some_iff.1 he
    have := h.stored.at (p := p) (e := (e'.1.toNat, e'.2)) (by rw [← List.map_reverse, List.getElem?_map, he']; rfl)
    rw [List.length_map] at hp hr
    dsimp only at this ⊢
    rw [Res.pure_eq]
    refine ⟨?_, fun _ => this⟩
    congr 1
    omega
  | dbl =>
    obtain ⟨l, rfl, h⟩ := h
    have hr := h.room
    rw [← List.map_reverse, List.getElem?_map] at he
    obtain ⟨e', he', rfl⟩ := Option.map_eq_some_iff.1 he
    have := h.stored.at (p := p) (e := (e'.1.toNat, e'.2)) (by rw [← List.map_reverse, List.getElem?_map, he']; rfl)
    rw [List.length_map] at hp hr
    dsimp only at this ⊢
    rw [Res.pure_eq]
    refine ⟨?_, fun _ => this⟩
    congr 1
    omega
  | str =>
    obtain ⟨l, rfl, h⟩ := h
    have hr := h.room
    have htop := h.stored.top_le
    rw [← List.map_reverse, List.getElem?_map] at he
    obtain ⟨e', he', rfl⟩ := Option.map_eq_some_iff.1 he
    have := h.stored.at he'
    have hm : e' ∈ l := by simpa using List.mem_of_getElem? he'
    have hb := (h.stored.get e' hm).2.2.2
    rw [List.length_map] at hp
    dsimp only
    exact ⟨rd_enc (by omega) this (by omega), fun h => absurd rfl h⟩

variable {sch : Schema} {b : Blk} {rows : List (List Val × List Nat)} {c : Cfg}

/-- The offset of a record in a column of numbers. -/
theorem RepW.offset_scalar (h : RepW sch b rows) {p : Nat} {r : List Val × List Nat} (hr : rows.reverse[p]? = some r) {i : Nat} {t : Ty}
    (ht : sch[i]? = some t) (hs : t ≠ .str) : r.2[i]? = some (dataAt b i + p * t.dataSize) := by
  obtain ⟨v, o, e1, e2, e3⟩ := h.column_at hr (List.getElem?_eq_some_iff.1 ht).1
  rw [e2]
  exact congrArg some ((ColW.offset_both h.lay ht (h.col i t ht) e3).2 hs)

/-- The key read by `splitBlock`: the lower half of the attribute. -/
theorem RepW.key (h : RepW sch b rows) (ht : sch[c.kc]? = some .int) {p : Nat} {r : List Val × List Nat}
    (hr : rows.reverse[p]? = some r) : ∃ x : BitVec 32, r.1[c.kc]? = some (.int x) ∧ keyAt c b p = .ok (x.toNat % 65536) := by
  have hi : c.kc < sch.length := (List.getElem?_eq_some_iff.1 ht).1
  obtain ⟨v, o, e1, e2, e3⟩ := h.column_at hr hi
  have hoff := (ColW.offset_both h.lay ht (h.col _ _ ht) e3).2 (by simp)
  have hm : (v, o) ∈ column c.kc rows := by
    have := List.mem_of_getElem? e3
    simpa using this
  obtain ⟨l, hl, hcol⟩ := h.col _ _ ht
  rw [hl] at hm
  obtain ⟨e, he, hev⟩ := List.mem_map.1 hm
  have e1' : Val.int e.1 = v := congrArg Prod.fst hev
  have e2' : e.2 = o := congrArg Prod.snd hev
  subst e1'; subst e2'
  refine ⟨e.1, e1, ?_⟩
  obtain ⟨g1, g2, g3, g4⟩ := hcol.stored.get (e.1.toNat, e.2) (List.mem_map_of_mem he)
  have hroom := hcol.room
  have hin := h.lay.inside _ hi
  have hbs : blockSize = 32768 := rfl
  unfold keyAt
  rw [h.lay.dataPos hi, Res.ok_bind]
  dsimp only at hoff g1 g3 g4
  simp only [Ty.dataSize] at hoff
  rw [show (dataAt b c.kc + p * 4) % 65536 = e.2 by omega, rd_ok (by omega), bytes_take, g1, dec_take2]

/-- The position that `deleteByKey` marks is the position of the record, if the first column holds numbers. -/
theorem delPos_eqW (hg : c.Good) (h0 : c.sch[0]? ≠ some .str) {nd : Node} {rows : Rows} (ok : RepW c.sch nd.blk rows) (std : Std c.sch nd.blk) {p : Nat} {r : List Val × List Nat}
    (hr : rows.reverse[p]? = some r) : delPos c r.2 = p := by
  have hpos : 0 < c.sch.length := List.length_pos_iff.2 hg.ne
  have e2 : c.sch[0]? = some c.sch[0] := List.getElem?_eq_getElem hpos
  have hns : c.sch[0] ≠ .str := fun e => h0 (by rw [e2, e])
  have ho := ok.offset_scalar hr e2 hns
  rw [(std 0 hpos).2] at ho
  have hp : p < rows.length := by
    have := (List.getElem?_eq_some_iff.1 hr).1
    simpa using this
  have hle := ok.length_le hg.ne
  have hd : dataOf c.sch 0 ≤ blockSize := by
    have := ok.use_le std hpos
    have hin := ok.lay.inside 0 hpos
    rw [std.end] at hin
    have hbs : blockSize = 32768 := rfl
    omega
  have hbs : blockSize = 32768 := rfl
  unfold delPos
  rw [List.getD_eq_getElem?_getD, ho, e2]
  show (sub64 (dataOf c.sch 0 + p * c.sch[0].dataSize) (dataOf c.sch 0) / c.sch[0].dataSize) % 65536 = p
  cases ht : c.sch[0] with
  | int => unfold sub64 Ty.dataSize; dsimp only; omega
  | dbl => unfold sub64 Ty.dataSize; dsimp only; omega
  | str => exact absurd ht hns

end Verif.PTable
