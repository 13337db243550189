import Verif.PTable.Rep

/-!
# Space used in a block, and access to records by position
-/

namespace Verif.PTable

/-- Space of column `i` used by a record. -/
def useOf (i : Nat) (vs : List Val) : Nat := ((vs[i]?).map Val.recSize).getD 0

/-- Space of column `i` used by records. -/
def use (i : Nat) (recs : List (List Val)) : Nat := (recs.map (useOf i)).sum

theorem use_cons (i : Nat) (vs : List Val) (recs : List (List Val)) : use i (vs :: recs) = useOf i vs + use i recs := by
  simp [use]

theorem use_perm {i : Nat} {l l' : List (List Val)} (h : l.Perm l') : use i l = use i l' :=
  (h.map _).sum_nat

/-- Where a column starts, its data starts, and ends, in every block of the schema. -/
def smaOf (sch : Schema) (i : Nat) : Nat := start (blockSize - header sch.length) (portions sch) (header sch.length) sch i
def dataOf (sch : Schema) (i : Nat) : Nat := smaOf sch i + ((sch[i]?).map Ty.smaSize).getD 0
def endOf (sch : Schema) (i : Nat) : Nat := if sch.length ≤ i + 1 then blockSize else smaOf sch (i + 1)

/-- The header of the block is the one of a new block. -/
def Std (sch : Schema) (b : Blk) : Prop := ∀ i, i < sch.length → smaAt b i = smaOf sch i ∧ dataAt b i = dataOf sch i

theorem Std.end {sch : Schema} {b : Blk} (h : Std sch b) (i : Nat) : endAt b sch.length i = endOf sch i := by
  unfold endAt endOf
  split
  · rfl
  · exact (h (i + 1) (by omega)).1

theorem StrRows.top_eq {data lim : Nat} {b : Blk} : ∀ {l : List (List UInt8 × Nat)}, StrRows data lim b l →
    top lim l + (l.map fun e => e.1.length + 1).sum = lim
  | [], _ => by simp [top]
  | e :: rest, ⟨_, h2, _, _, h5⟩ => by
    have := h5.top_eq
    simp only [top, List.map_cons, List.sum_cons]
    omega

theorem use_column {i : Nat} {rows : List (List Val × List Nat)} {sch : Schema} (hi : i < sch.length) (ht : ∀ r ∈ rows, r.1.map Val.ty = sch) :
    use i (rows.map Prod.fst) = ((column i rows).map fun e => e.1.recSize).sum := by
  unfold use column
  rw [List.map_map, List.map_map]
  congr 1
  apply List.map_congr_left
  intro r hr
  have : i < r.1.length := by
    have := ht r hr
    rw [← this, List.length_map] at hi
    exact hi
  simp only [Function.comp, useOf]
  rw [List.getD_eq_getElem?_getD, List.getElem?_eq_getElem this]
  rfl

theorem sum_const {α : Type} (l : List α) (w : Nat) : (l.map fun _ => w).sum = l.length * w := by
  induction l with
  | nil => simp
  | cons a l ih => simp only [List.map_cons, List.sum_cons, ih, List.length_cons]; rw [Nat.add_mul]; omega

/-- The space used stays within the column; there is room for a value exactly if it fits into what is left. -/
theorem Col.use {t : Ty} {sma data lim : Nat} {b : Blk} {rows : List (Val × Nat)} (h : Col t sma data lim b rows) :
    data + (rows.map fun e => e.1.recSize).sum ≤ lim ∧
      ∀ v : Val, v.ty = t → (Room data lim rows v ↔ data + (rows.map fun e => e.1.recSize).sum + v.recSize ≤ lim) := by
  cases t with
  | int =>
    obtain ⟨l, rfl, h⟩ := h
    have hr := h.room
    have e : ((l.map fun e => (Val.int e.1, e.2)).map fun e => e.1.recSize).sum = l.length * 4 := by
      rw [List.map_map]; exact sum_const l 4
    rw [List.length_map] at hr
    rw [e]
    refine ⟨hr, fun v hv => ?_⟩
    cases v <;> simp only [Val.ty, reduceCtorEq] at hv
    simp only [Room, Val.recSize, List.length_map]
    omega
  | dbl =>
    obtain ⟨l, rfl, h⟩ := h
    have hr := h.room
    have e : ((l.map fun e => (Val.dbl e.1, e.2)).map fun e => e.1.recSize).sum = l.length * 8 := by
      rw [List.map_map]; exact sum_const l 8
    rw [List.length_map] at hr
    rw [e]
    refine ⟨hr, fun v hv => ?_⟩
    cases v <;> simp only [Val.ty, reduceCtorEq] at hv
    simp only [Room, Val.recSize, List.length_map]
    omega
  | str =>
    obtain ⟨l, rfl, h⟩ := h
    have hr := h.room
    have ht := h.stored.top_eq
    have e : ((l.map fun e => (Val.str e.1, e.2)).map fun e => e.1.recSize).sum = l.length * 2 + (l.map fun e => e.1.length + 1).sum := by
      rw [List.map_map]
      clear hr ht h
      induction l with
      | nil => simp
      | cons a l ih =>
        rw [List.map_cons, List.sum_cons, ih, List.map_cons, List.sum_cons, List.length_cons]
        show a.1.length + 1 + 2 + _ = _
        omega
    rw [e]
    refine ⟨by omega, fun v hv => ?_⟩
    cases v <;> simp only [Val.ty, reduceCtorEq] at hv
    simp only [Room, Val.recSize, List.length_map, topV_str]
    omega

theorem Rep.use_le {sch : Schema} {b : Blk} {rows : List (List Val × List Nat)} (h : Rep sch b rows) (hs : Std sch b) {i : Nat} (hi : i < sch.length) :
    dataOf sch i + use i (rows.map Prod.fst) ≤ endOf sch i := by
  have := (h.col i sch[i] (List.getElem?_eq_getElem hi)).use.1
  rw [(hs i hi).2, hs.end, ← use_column hi (fun r hr => (h.typed r hr).1)] at this
  exact this

theorem Rep.fits_iff {sch : Schema} {b : Blk} {rows : List (List Val × List Nat)} (h : Rep sch b rows) (hs : Std sch b) {vs : List Val}
    (hv : vs.map Val.ty = sch) :
    Fits sch b rows vs ↔ ∀ i, i < sch.length → dataOf sch i + use i (vs :: rows.map Prod.fst) ≤ endOf sch i := by
  have key : ∀ i v, vs[i]? = some v → (Room (dataAt b i) (endAt b sch.length i) (column i rows) v ↔
      dataOf sch i + use i (vs :: rows.map Prod.fst) ≤ endOf sch i) := by
    intro i v hiv
    have ht := typed_get hv hiv
    have hi : i < sch.length := (List.getElem?_eq_some_iff.1 ht).1
    have := (h.col i _ ht).use.2 v rfl
    rw [this, (hs i hi).2, hs.end, ← use_column hi (fun r hr => (h.typed r hr).1), use_cons, useOf, hiv]
    simp only [Option.map_some, Option.getD_some]
    omega
  constructor
  · intro hf i hi
    have hi' : i < vs.length := by rw [← hv, List.length_map] at hi; exact hi
    exact (key i vs[i] (List.getElem?_eq_getElem hi')).1 (hf i _ (List.getElem?_eq_getElem hi'))
  · intro hf i v hiv
    refine (key i v hiv).2 (hf i ?_)
    exact (List.getElem?_eq_some_iff.1 (typed_get hv hiv)).1

/-! ## Records by position -/

theorem ScalarRows.at {w data : Nat} {b : Blk} : ∀ {rows : List (Nat × Nat)}, ScalarRows w data b rows → ∀ {p : Nat} {e : Nat × Nat},
    rows.reverse[p]? = some e → e.2 = data + p * w
  | [], _, p, e, h => by simp at h
  | e' :: rest, ⟨h1, _, _, h4⟩, p, e, h => by
    rw [List.reverse_cons] at h
    by_cases hp : p < rest.reverse.length
    · rw [List.getElem?_append_left hp] at h
      exact h4.at h
    · rw [List.getElem?_append_right (by omega)] at h
      have hlen : rest.reverse.length = rest.length := List.length_reverse
      have : p - rest.reverse.length < 1 := by
        have := (List.getElem?_eq_some_iff.1 h).1
        simpa using this
      have hp' : p = rest.length := by omega
      subst hp'
      rw [hlen, Nat.sub_self] at h
      have : e' = e := by simpa using h
      subst this
      exact h1

theorem StrRows.at {data lim : Nat} {b : Blk} : ∀ {rows : List (List UInt8 × Nat)}, StrRows data lim b rows → ∀ {p : Nat} {e : List UInt8 × Nat},
    rows.reverse[p]? = some e → bytes b (data + p * 2) 2 = enc 2 e.2
  | [], _, p, e, h => by simp at h
  | e' :: rest, ⟨h1, _, _, _, h5⟩, p, e, h => by
    rw [List.reverse_cons] at h
    by_cases hp : p < rest.reverse.length
    · rw [List.getElem?_append_left hp] at h
      exact h5.at h
    · rw [List.getElem?_append_right (by omega)] at h
      have hlen : rest.reverse.length = rest.length := List.length_reverse
      have : p - rest.reverse.length < 1 := by
        have := (List.getElem?_eq_some_iff.1 h).1
        simpa using this
      have hp' : p = rest.length := by omega
      subst hp'
      rw [hlen, Nat.sub_self] at h
      have : e' = e := by simpa using h
      subst this
      exact h1

theorem Col.offset {sch : Schema} {b : Blk} (hl : Layout sch b) {i : Nat} {t : Ty} (ht : sch[i]? = some t) {rows : List (Val × Nat)}
    (h : Col t (smaAt b i) (dataAt b i) (endAt b sch.length i) b rows) {p : Nat} {e : Val × Nat} (he : rows.reverse[p]? = some e) :
    offsetAt b p i t = .ok e.2 ∧ (t ≠ .str → e.2 = dataAt b i + p * t.dataSize) := by
  have hi : i < sch.length := (List.getElem?_eq_some_iff.1 ht).1
  have hp : p < rows.length := by
    have := (List.getElem?_eq_some_iff.1 he).1
    simpa using this
  have hin := hl.inside i hi
  have hbs : blockSize = 32768 := rfl
  unfold offsetAt
  rw [hl.dataPos hi, Res.ok_bind]
  cases t with
  | int =>
    obtain ⟨l, rfl, h⟩ := h
    have hr := h.room
    rw [← List.map_reverse, List.getElem?_map] at he
    obtain ⟨e', he', rfl⟩ := Option.map_eq_some_iff.1 he
    have := h.stored.at (p := p) (e := (e'.1.toNat, e'.2)) (by rw [← List.map_reverse, List.getElem?_map, he']; rfl)
    rw [List.length_map] at hp hr
    dsimp only at this ⊢
    rw [Res.pure_eq]
    refine ⟨?_, fun _ => this⟩
    congr 1
    omega
  | dbl =>
    obtain ⟨l, rfl, h⟩ := h
    have hr := h.room
    rw [← List.map_reverse, List.getElem?_map] at he
    obtain ⟨e', he', rfl⟩ := Option.map_eq_some_iff.1 he
    have := h.stored.at (p := p) (e := (e'.1.toNat, e'.2)) (by rw [← List.map_reverse, List.getElem?_map, he']; rfl)
    rw [List.length_map] at hp hr
    dsimp only at this ⊢
    rw [Res.pure_eq]
    refine ⟨?_, fun _ => this⟩
    congr 1
    omega
  | str =>
    obtain ⟨l, rfl, h⟩ := h
    have hr := h.room
    have htop := h.stored.top_le
    rw [← List.map_reverse, List.getElem?_map] at he
    obtain ⟨e', he', rfl⟩ := Option.map_eq_some_iff.1 he
    have := h.stored.at he'
    have hm : e' ∈ l := by simpa using List.mem_of_getElem? he'
    have hb := (h.stored.get e' hm).2.2.2
    rw [List.length_map] at hp
    dsimp only
    exact ⟨rd_enc (by omega) this (by omega), fun h => absurd rfl h⟩

theorem offsetsFrom_ok {b : Blk} {p : Nat} : ∀ (sch : Schema) (idx : Nat) (os : List Nat), os.length = sch.length →
    (∀ k t o, sch[k]? = some t → os[k]? = some o → offsetAt b p (idx + k) t = .ok o) → offsetsFrom b p idx sch = .ok os
  | [], idx, os, h, _ => by
    cases os with
    | nil => rfl
    | cons o os => simp at h
  | t :: sch, idx, os, h, hk => by
    cases os with
    | nil => simp at h
    | cons o os =>
      rw [offsetsFrom]
      have h0 := hk 0 t o rfl rfl
      rw [Nat.add_zero] at h0
      rw [h0, Res.ok_bind, offsetsFrom_ok sch (idx + 1) os (by simpa using h) (fun k u o' h1 h2 => by
        have := hk (k + 1) u o' (by simpa using h1) (by simpa using h2)
        rwa [show idx + (k + 1) = idx + 1 + k by omega] at this), Res.ok_bind]
      rfl

theorem createTuple_ok {b : Blk} : ∀ (sch : Schema) (os : List Nat) (vs : List Val), os.length = sch.length → vs.length = sch.length →
    (∀ (k : Nat) t v o, sch[k]? = some t → vs[k]? = some v → os[k]? = some o → readAttr b t o = .ok v) → createTuple b sch os = .ok vs
  | [], os, vs, h1, h2, _ => by
    cases os <;> cases vs <;> simp at h1 h2
    rfl
  | t :: sch, os, vs, h1, h2, hk => by
    cases os with
    | nil => simp at h1
    | cons o os =>
      cases vs with
      | nil => simp at h2
      | cons v vs =>
        rw [createTuple, hk 0 t v o rfl rfl rfl, Res.ok_bind, createTuple_ok sch os vs (by simpa using h1) (by simpa using h2)
          (fun k u v' o' a1 a2 a3 => hk (k + 1) u v' o' (by simpa using a1) (by simpa using a2) (by simpa using a3)), Res.ok_bind]
        rfl

theorem column_reverse (i : Nat) (rows : List (List Val × List Nat)) : (column i rows).reverse = column i rows.reverse := by
  unfold column; rw [List.map_reverse]

variable {sch : Schema} {b : Blk} {rows : List (List Val × List Nat)}

theorem Rep.column_at (h : Rep sch b rows) {p : Nat} {r : List Val × List Nat} (hr : rows.reverse[p]? = some r) {i : Nat} (hi : i < sch.length) :
    ∃ v o, r.1[i]? = some v ∧ r.2[i]? = some o ∧ (column i rows).reverse[p]? = some (v, o) := by
  obtain ⟨h1, h2⟩ := h.typed r (by simpa using List.mem_of_getElem? hr)
  have hi1 : i < r.1.length := by rw [← h1, List.length_map] at hi; exact hi
  have hi2 : i < r.2.length := by omega
  refine ⟨r.1[i], r.2[i], List.getElem?_eq_getElem hi1, List.getElem?_eq_getElem hi2, ?_⟩
  rw [column_reverse]
  unfold column
  rw [List.getElem?_map, hr]
  simp only [Option.map_some]
  rw [List.getD_eq_getElem?_getD, List.getD_eq_getElem?_getD, List.getElem?_eq_getElem hi1, List.getElem?_eq_getElem hi2]
  rfl

/-- The offsets of a record found by its position. -/
theorem Rep.offsets (h : Rep sch b rows) {p : Nat} {r : List Val × List Nat} (hr : rows.reverse[p]? = some r) :
    offsetsFrom b p 0 sch = .ok r.2 := by
  have hm := (h.typed r (by simpa using List.mem_of_getElem? hr)).2
  refine offsetsFrom_ok sch 0 r.2 hm (fun k t o ht ho => ?_)
  rw [Nat.zero_add]
  obtain ⟨v, o', e1, e2, e3⟩ := h.column_at hr (List.getElem?_eq_some_iff.1 ht).1
  rw [ho] at e2
  cases e2
  exact (Col.offset h.lay ht (h.col k t ht) e3).1

/-- The offset of a record in a column of numbers. -/
theorem Rep.offset_scalar (h : Rep sch b rows) {p : Nat} {r : List Val × List Nat} (hr : rows.reverse[p]? = some r) {i : Nat} {t : Ty}
    (ht : sch[i]? = some t) (hs : t ≠ .str) : r.2[i]? = some (dataAt b i + p * t.dataSize) := by
  obtain ⟨v, o, e1, e2, e3⟩ := h.column_at hr (List.getElem?_eq_some_iff.1 ht).1
  rw [e2]
  exact congrArg some ((Col.offset h.lay ht (h.col i t ht) e3).2 hs)

theorem Rep.create (h : Rep sch b rows) {r : List Val × List Nat} (hr : r ∈ rows) : createTuple b sch r.2 = .ok r.1 := by
  obtain ⟨h1, h2⟩ := h.typed r hr
  refine createTuple_ok sch r.2 r.1 h2 (by rw [← h1, List.length_map]) (fun k t v o ht hv ho => ?_)
  obtain ⟨v', o', e1, e2, e3⟩ := h.read hr ht
  rw [hv] at e1; rw [ho] at e2
  cases e1; cases e2
  exact e3

theorem dec_take2 (x : Nat) : dec ((enc 4 x).take 2) = x % 65536 := by
  have : (enc 4 x).take 2 = enc 2 x := rfl
  rw [this, dec_enc]
  rfl

theorem bytes_take (b : Blk) (off : Nat) : bytes b off 2 = (bytes b off 4).take 2 := rfl

/-- The key read by `splitBlock`: the lower half of the attribute. -/
theorem Rep.key (h : Rep sch b rows) {c : Cfg} (ht : sch[c.kc]? = some .int) {p : Nat} {r : List Val × List Nat}
    (hr : rows.reverse[p]? = some r) : ∃ x : BitVec 32, r.1[c.kc]? = some (.int x) ∧ keyAt c b p = .ok (x.toNat % 65536) := by
  have hi : c.kc < sch.length := (List.getElem?_eq_some_iff.1 ht).1
  obtain ⟨v, o, e1, e2, e3⟩ := h.column_at hr hi
  have hoff := (Col.offset h.lay ht (h.col _ _ ht) e3).2 (by simp)
  have hm : (v, o) ∈ column c.kc rows := by
    have := List.mem_of_getElem? e3
    simpa using this
  obtain ⟨l, hl, hcol⟩ := h.col _ _ ht
  rw [hl] at hm
  obtain ⟨e, he, hev⟩ := List.mem_map.1 hm
  have e1' : Val.int e.1 = v := congrArg Prod.fst hev
  have e2' : e.2 = o := congrArg Prod.snd hev
  subst e1'; subst e2'
  refine ⟨e.1, e1, ?_⟩
  obtain ⟨g1, g2, g3, g4⟩ := hcol.stored.get (e.1.toNat, e.2) (List.mem_map_of_mem he)
  have hroom := hcol.room
  have hin := h.lay.inside _ hi
  have hbs : blockSize = 32768 := rfl
  unfold keyAt
  rw [h.lay.dataPos hi, Res.ok_bind]
  dsimp only at hoff g1 g3 g4
  simp only [Ty.dataSize] at hoff
  rw [show (dataAt b c.kc + p * 4) % 65536 = e.2 by omega, rd_ok (by omega), bytes_take, g1, dec_take2]

theorem initBlock_std {sch : Schema} (hp : PagesBigEnough sch) {lo hi : Nat} (hlo : lo < 2 ^ 32) (hhi : hi < 2 ^ 32) :
    ∃ b, initBlock sch lo hi = .ok b ∧ Rep sch b [] ∧ Std sch b ∧ bytes b 0 4 = enc 4 lo ∧ bytes b 4 4 = enc 4 hi := by
  obtain ⟨b, e, hl, h0, h4, hc, -, hs⟩ := initBlock_ok hp hlo hhi
  have hbs : blockSize = 32768 := rfl
  have h8 : bytes b 8 4 = enc 4 0 := by
    unfold count at hc
    rw [rd_ok (by omega)] at hc
    have hd : dec (bytes b 8 4) = 0 := Res.ok.inj hc
    have := enc_dec (bytes b 8 4)
    rw [hd, bytes_length] at this
    exact this.symm
  refine ⟨b, e, rep_init hl h8, fun i hi => ?_, h0, h4⟩
  obtain ⟨h1, h2⟩ := hs i sch[i] (List.getElem?_eq_getElem hi)
  refine ⟨h1, ?_⟩
  unfold dataOf
  rw [h2, List.getElem?_eq_getElem hi]
  rfl

end Verif.PTable
