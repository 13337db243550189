import Verif.PTable.Order
import Verif.PTable.Rep

/-!
# Properties C19, C20 and C21: data blocks of a table

A block is an array of 32768 bytes.  A schema is a list of column types, a record a list of values of these types,
and a record is read through the byte offsets that `insertTuple` returned for it.
-/

namespace Verif.PTable

/-- A record of the schema whose strings have no NUL character. -/
def Record (sch : Schema) (vs : List Val) : Prop := vs.map Val.ty = sch ∧ ∀ v ∈ vs, v.plain

/-- Every attribute of a record is read back through its offsets. -/
def Reads (sch : Schema) (b : Blk) (r : List Val × List Nat) : Prop :=
  r.1.length = sch.length ∧ r.2.length = sch.length ∧
    ∀ (i : Nat) (t : Ty) (v : Val) (o : Nat), sch[i]? = some t → r.1[i]? = some v → r.2[i]? = some o → readAttr b t o = .ok v

theorem Rep.reads {sch : Schema} {b : Blk} {rows : List (List Val × List Nat)} (h : Rep sch b rows) {r : List Val × List Nat} (hr : r ∈ rows) :
    Reads sch b r := by
  obtain ⟨h1, h2⟩ := h.typed r hr
  refine ⟨by rw [← h1, List.length_map], h2, ?_⟩
  intro i t v o ht hv ho
  obtain ⟨v', o', e1, e2, e3⟩ := h.read hr ht
  rw [hv] at e1; rw [ho] at e2
  cases e1; cases e2
  exact e3

theorem fill_rep {sch : Schema} (hn : sch ≠ []) : ∀ (recs : List (List Val)) (b : Blk) (rows : List (List Val × List Nat)), Rep sch b rows →
    (∀ vs ∈ recs, Record sch vs) → ∃ b' q, fill sch.length recs b = .ok (b', q) ∧ Rep sch b' (q.reverse ++ rows) ∧
      (q.map Prod.fst).Sublist recs ∧ bytes b' 0 8 = bytes b 0 8
  | [], b, rows, h, _ => ⟨b, [], rfl, h, List.Sublist.refl _, rfl⟩
  | vs :: recs, b, rows, h, hr => by
    obtain ⟨ht, hp⟩ := hr vs (List.mem_cons_self ..)
    obtain ⟨e, he, hf⟩ := hasEnoughSpace_ok h ht
    rw [fill, he, Res.ok_bind]
    cases e with
    | false =>
      obtain ⟨b', q, e1, h1, h2, h3⟩ := fill_rep hn recs b rows h (fun us hu => hr us (List.mem_cons_of_mem _ hu))
      exact ⟨b', q, e1, h1, h2.cons _, h3⟩
    | true =>
      obtain ⟨b1, os, e1, h1, h3, -⟩ := insertBlk_ok hn h ht hp (hf rfl)
      obtain ⟨b', q, e2, h2, hs, h4⟩ := fill_rep hn recs b1 _ h1 (fun us hu => hr us (List.mem_cons_of_mem _ hu))
      refine ⟨b', (vs, os) :: q, ?_, ?_, ?_, h4.trans h3⟩
      · rw [if_pos rfl, e1, Res.ok_bind]
        show (fill sch.length recs b1 >>= fun q => pure (q.1, (vs, os) :: q.2)) = _
        rw [e2, Res.ok_bind]; rfl
      · rw [List.reverse_cons, List.append_assoc]
        exact h2
      · exact hs.cons_cons _

/-! ## C19 -/

/-- Every schema with at most 700 columns has minipages that are large enough. -/
theorem pagesBigEnough_of_length {sch : Schema} (h : sch.length ≤ 700) : PagesBigEnough sch := by
  have hh : header sch.length = 14 + sch.length * 4 := rfl
  have hbs : blockSize = 32768 := rfl
  refine ⟨by omega, fun t ht => ?_⟩
  have hp : portions sch ≤ sch.length * 4 := by
    unfold portions
    clear ht h hh
    induction sch with
    | nil => simp
    | cons u us ih =>
      have : u.portion ≤ 4 := by cases u <;> decide
      simp only [List.map_cons, List.sum_cons, List.length_cons]
      omega
  have hp0 : 0 < portions sch := by
    have : t.portion ≤ portions sch := le_sum_map _ ht
    have : 0 < t.portion := by cases t <;> decide
    omega
  rw [Nat.le_div_iff_mul_le hp0]
  cases t <;> simp only [Ty.smaSize, Ty.portion] <;> omega

/-- **C19**: initialising a block succeeds.  Each column has an SMA area of the size its type needs, followed by a data area up to the
next column; the areas lie behind the header and inside the block, and those of different columns are disjoint.  The block has the
given BDCC range and no tuples, and its free space is what remains of the block. -/
theorem C19_layout {sch : Schema} (hp : PagesBigEnough sch) {lo hi : Nat} (hlo : lo < 2 ^ 32) (hhi : hi < 2 ^ 32) :
    ∃ b, initBlock sch lo hi = .ok b ∧ rd b 0 4 = .ok lo ∧ rd b 4 4 = .ok hi ∧ count b = .ok 0 ∧
      rd b 12 2 = .ok (blockSize - (14 + sch.length * 4) - (sch.map Ty.smaSize).sum) ∧
      ∃ sma data fin : Nat → Nat,
        (∀ i t, sch[i]? = some t →
          rd b (14 + i * 4) 2 = .ok (sma i) ∧ rd b (16 + i * 4) 2 = .ok (data i) ∧ pageEnd b sch.length i = .ok (fin i) ∧
          14 + sch.length * 4 ≤ sma i ∧ sma i + t.smaSize = data i ∧ data i ≤ fin i ∧ fin i ≤ blockSize) ∧
        ∀ i j, i < j → j < sch.length → fin i ≤ sma j := by
  obtain ⟨b, e, hl, h0, h4, hc, hf, -⟩ := initBlock_ok hp hlo hhi
  have := hl.fits
  have hh : header sch.length = 14 + sch.length * 4 := rfl
  refine ⟨b, e, rd_enc (by omega) h0 (by omega), rd_enc (by omega) h4 (by omega), hc, hf, smaAt b, dataAt b, endAt b sch.length, ?_,
    fun i j hij hj => hl.order hij hj⟩
  intro i t ht
  have hi : i < sch.length := (List.getElem?_eq_some_iff.1 ht).1
  exact ⟨hl.smaPos hi, hl.dataPos hi, hl.pageEnd hi, hl.behind i hi, hl.sma i t ht, hl.data i hi, hl.inside i hi⟩

/-- C19 for every schema with at most 700 columns. -/
theorem C19_layout_700 {sch : Schema} (h : sch.length ≤ 700) {lo hi : Nat} (hlo : lo < 2 ^ 32) (hhi : hi < 2 ^ 32) :
    ∃ b, initBlock sch lo hi = .ok b ∧ ∀ i j, i < j → j < sch.length →
      ∃ t d s u, sch[i]? = some t ∧ pageEnd b sch.length i = .ok s ∧ rd b (14 + j * 4) 2 = .ok u ∧
        rd b (16 + i * 4) 2 = .ok d ∧ d ≤ s ∧ s ≤ u ∧ u ≤ blockSize := by
  obtain ⟨b, e, -, -, -, -, sma, data, fin, h1, h2⟩ := C19_layout (pagesBigEnough_of_length h) hlo hhi
  refine ⟨b, e, fun i j hij hj => ?_⟩
  have hi : i < sch.length := by omega
  obtain ⟨-, p2, p3, -, -, p6, -⟩ := h1 i sch[i] (List.getElem?_eq_getElem hi)
  obtain ⟨q1, -, -, -, q5, q6, q7⟩ := h1 j sch[j] (List.getElem?_eq_getElem hj)
  exact ⟨_, _, _, _, List.getElem?_eq_getElem hi, p3, q1, p2, p6, h2 i j hij hj, by omega⟩

example : PagesBigEnough [.int, .dbl, .str] := pagesBigEnough_of_length (by decide)

/-- The size condition is needed: with 1000 string and 1000 integer columns the minipage of an integer column has four bytes, but its
SMA area needs eight. -/
theorem C19_needs_size : ¬ PagesBigEnough (List.replicate 1000 Ty.str ++ List.replicate 1000 Ty.int) := by
  have hp : ∀ m n, portions (List.replicate m Ty.str ++ List.replicate n Ty.int) = m * 4 + n := by
    intro m n; simp [portions, Ty.portion]
  have hl : ∀ m n, (List.replicate m Ty.str ++ List.replicate n Ty.int).length = m + n := by
    intro m n; simp
  intro h
  have := h.2 .int (List.mem_append.2 (Or.inr (List.mem_replicate.2 ⟨by omega, rfl⟩)))
  rw [hp, hl] at this
  revert this
  decide

/-! ## C20 -/

/-- A new block. -/
theorem fill_init {sch : Schema} (hn : sch ≠ []) (hp : PagesBigEnough sch) {lo hi : Nat} (hlo : lo < 2 ^ 32) (hhi : hi < 2 ^ 32)
    {recs : List (List Val)} (hr : ∀ vs ∈ recs, Record sch vs) :
    ∃ b q, (do let b ← initBlock sch lo hi; fill sch.length recs b) = .ok (b, q) ∧ Rep sch b q.reverse ∧
      (q.map Prod.fst).Sublist recs ∧ rd b 0 4 = .ok lo ∧ rd b 4 4 = .ok hi := by
  obtain ⟨b0, e0, hl, h0, h4, hc, -⟩ := initBlock_ok hp hlo hhi
  have hbs : blockSize = 32768 := rfl
  have h8 : bytes b0 8 4 = enc 4 0 := by
    unfold count at hc
    rw [rd_ok (by omega)] at hc
    have hd : dec (bytes b0 8 4) = 0 := Res.ok.inj hc
    have := enc_dec (bytes b0 8 4)
    rw [hd, bytes_length] at this
    exact this.symm
  obtain ⟨b, q, e, h, hs, h8'⟩ := fill_rep hn recs b0 [] (rep_init hl h8) hr
  rw [List.append_nil] at h
  have hsplit : ∀ c : Blk, bytes c 0 8 = bytes c 0 4 ++ bytes c 4 4 := fun c => bytes_append c 4 4 0
  rw [hsplit, hsplit] at h8'
  obtain ⟨h0', h4'⟩ := List.append_inj h8' (by simp [bytes])
  exact ⟨b, q, by rw [e0, Res.ok_bind]; exact e, h, hs, rd_enc (by omega) (h0'.trans h0) (by omega), rd_enc (by omega) (h4'.trans h4) (by omega)⟩

/-- **C20**: whatever was inserted into a block before, a record accepted by the space check is inserted without an error, all its
attributes read back through the returned offsets, and all earlier records still read their own attributes. -/
theorem C20_read_back {sch : Schema} (hn : sch ≠ []) (hp : PagesBigEnough sch) {lo hi : Nat} (hlo : lo < 2 ^ 32) (hhi : hi < 2 ^ 32)
    {recs : List (List Val)} (hr : ∀ vs ∈ recs, Record sch vs) :
    ∃ b q, (do let b ← initBlock sch lo hi; fill sch.length recs b) = .ok (b, q) ∧ count b = .ok q.length ∧
      (q.map Prod.fst).Sublist recs ∧ (∀ r ∈ q, Reads sch b r) ∧
      ∀ vs, Record sch vs → ∃ e, hasEnoughSpace sch.length vs b = .ok e ∧
        (e = true → ∃ b' os, insertBlk sch.length vs b = .ok (b', os) ∧ Reads sch b' (vs, os) ∧ (∀ r ∈ q, Reads sch b' r) ∧
          count b' = .ok (q.length + 1)) := by
  obtain ⟨b, q, e, h, hs, -⟩ := fill_init hn hp hlo hhi hr
  refine ⟨b, q, e, by simpa using h.count, hs, fun r hq => h.reads (by simpa using hq), fun vs hv => ?_⟩
  obtain ⟨a, ha, hf⟩ := hasEnoughSpace_ok h hv.1
  refine ⟨a, ha, fun h1 => ?_⟩
  obtain ⟨b', os, e1, h2, -⟩ := insertBlk_ok hn h hv.1 hv.2 (hf h1)
  exact ⟨b', os, e1, h2.reads (List.mem_cons_self ..), fun r hq => h2.reads (List.mem_cons_of_mem _ (by simpa using hq)), by simpa using h2.count⟩

/-! ## C21 -/

/-- `≤` of two values of the same type: by the number for doubles (false for NaN), lexicographic for strings. -/
def Val.le : Val → Val → Prop
  | .int x, .int y => x.toInt ≤ y.toInt
  | .dbl x, .dbl y => ∃ a b, ieee x = some a ∧ ieee y = some b ∧ a ≤ b
  | .str s, .str t => s ≤ t
  | _, _ => False

/-- `<` of two values of the same type. -/
def Val.less : Val → Val → Prop
  | .int x, .int y => x.toInt < y.toInt
  | .dbl x, .dbl y => ∃ a b, ieee x = some a ∧ ieee y = some b ∧ a < b
  | .str s, .str t => s < t
  | _, _ => False

/-- Not a NaN. -/
def Val.number : Val → Prop
  | .dbl x => ieee x ≠ none
  | _ => True

/-- The comparison of the model is the specified one. -/
theorem Val.lt_iff (u v : Val) : u.lt v = true ↔ u.less v := by
  cases u <;> cases v <;> simp only [Val.lt, Val.less, Bool.false_eq_true, decide_eq_true_eq]
  · exact dblLt_iff _ _
  · exact ltStr_iff _ _

theorem Val.not_lt_iff (u v : Val) : u.lt v = false ↔ ¬ u.less v := by
  rw [← Val.lt_iff, Bool.not_eq_true]

theorem le_lt {u v w : Val} (h1 : u.le v) (h2 : v.lt w = true) : u.lt w = true := by
  rw [Val.lt_iff] at h2 ⊢
  cases u <;> cases v <;> cases w <;> simp only [Val.le, Val.less] at h1 h2 ⊢
  · exact lt_of_le_of_lt h1 h2
  · obtain ⟨a, b, ha, hb, hab⟩ := h1
    obtain ⟨b', c, hb', hc, hbc⟩ := h2
    rw [hb] at hb'
    injection hb' with hb'
    subst hb'
    exact ⟨a, c, ha, hc, lt_of_le_of_lt hab hbc⟩
  · exact List.lt_of_le_of_lt h1 h2

theorem lt_le {u v w : Val} (h1 : u.lt v = true) (h2 : v.le w) : u.lt w = true := by
  rw [Val.lt_iff] at h1 ⊢
  cases u <;> cases v <;> cases w <;> simp only [Val.le, Val.less] at h1 h2 ⊢
  · exact lt_of_lt_of_le h1 h2
  · obtain ⟨a, b, ha, hb, hab⟩ := h1
    obtain ⟨b', c, hb', hc, hbc⟩ := h2
    rw [hb] at hb'
    injection hb' with hb'
    subst hb'
    exact ⟨a, c, ha, hc, lt_of_lt_of_le hab hbc⟩
  · exact by_contra fun hc => h2 (List.lt_of_le_of_lt (List.not_lt.1 hc) h1)

theorem le_of_not_lt {u v : Val} (ht : u.ty = v.ty) (hu : u.number) (hv : v.number) (h : v.lt u = false) : u.le v := by
  rw [Val.not_lt_iff] at h
  cases u <;> cases v <;> simp only [Val.ty, reduceCtorEq] at ht <;> simp only [Val.le, Val.less, Val.number] at *
  · exact not_lt.1 h
  · obtain ⟨a, ha⟩ := Option.ne_none_iff_exists'.1 hu
    obtain ⟨b, hb⟩ := Option.ne_none_iff_exists'.1 hv
    exact ⟨a, b, ha, hb, not_lt.1 fun hh => h ⟨b, a, hb, ha, hh⟩⟩
  · exact List.not_lt.1 h

/-- The values of column `i` of the records. -/
def valuesOf (i : Nat) (q : List (List Val × List Nat)) : List Val := q.filterMap (fun r => r.1[i]?)

/-- **C21**: for every column of a block that received a tuple, the stored minimum and maximum are values of the column, and no value
of the column is below the minimum or above the maximum. -/
theorem C21_sma {sch : Schema} (hp : PagesBigEnough sch) {lo hi : Nat} (hlo : lo < 2 ^ 32) (hhi : hi < 2 ^ 32)
    {recs : List (List Val)} (hr : ∀ vs ∈ recs, Record sch vs) {b : Blk} {q : List (List Val × List Nat)}
    (hb : (do let b ← initBlock sch lo hi; fill sch.length recs b) = .ok (b, q)) (hq : q ≠ [])
    {i : Nat} {t : Ty} (ht : sch[i]? = some t) :
    ∃ mn mx, readSma b i t = .ok (mn, mx) ∧ mn ∈ valuesOf i q ∧ mx ∈ valuesOf i q ∧ mn.ty = t ∧ mx.ty = t ∧
      ∀ v ∈ valuesOf i q, ¬ v.less mn ∧ ¬ mx.less v := by
  have hn : sch ≠ [] := by rintro rfl; simp at ht
  obtain ⟨b1, q1, e1, h, -⟩ := fill_init hn hp hlo hhi hr
  rw [hb] at e1
  cases e1
  have hi' : i < sch.length := (List.getElem?_eq_some_iff.1 ht).1
  obtain ⟨mn, mx, hs, h1, h2, h3⟩ := (h.col i t ht).sma (h.lay.sma i t ht) (h.lay.data i hi') (h.lay.inside i hi') (h.lay.smaPos hi')
    (by simpa [column] using hq)
  have hmem : ∀ v, v ∈ (column i q.reverse).map Prod.fst ↔ v ∈ valuesOf i q := by
    intro v
    unfold column valuesOf
    simp only [List.map_map, List.mem_map, List.mem_reverse, Function.comp, List.mem_filterMap]
    constructor
    · rintro ⟨r, hr', rfl⟩
      refine ⟨r, hr', ?_⟩
      have : i < r.1.length := by
        have := (h.typed r (by simpa using hr')).1
        rw [← this, List.length_map] at hi'
        exact hi'
      rw [List.getD_eq_getElem?_getD, List.getElem?_eq_getElem this]; rfl
    · rintro ⟨r, hr', hv⟩
      refine ⟨r, hr', ?_⟩
      rw [List.getD_eq_getElem?_getD, hv]; rfl
  have hty : ∀ v, v ∈ valuesOf i q → v.ty = t := by
    intro v hv
    obtain ⟨r, hr', hv⟩ := List.mem_filterMap.1 hv
    have := typed_get (h.typed r (by simpa using hr')).1 hv
    rw [ht] at this
    exact (Option.some.inj this).symm
  refine ⟨mn, mx, hs, (hmem mn).1 h1, (hmem mx).1 h2, hty _ ((hmem mn).1 h1), hty _ ((hmem mx).1 h2), fun v hv => ?_⟩
  have := h3 v ((hmem v).2 hv)
  exact ⟨(Val.not_lt_iff _ _).1 this.1, (Val.not_lt_iff _ _).1 this.2⟩

/-- C21 for columns without NaN: the minimum and maximum in the usual sense. -/
theorem C21_sma_numbers {sch : Schema} (hp : PagesBigEnough sch) {lo hi : Nat} (hlo : lo < 2 ^ 32) (hhi : hi < 2 ^ 32)
    {recs : List (List Val)} (hr : ∀ vs ∈ recs, Record sch vs) {b : Blk} {q : List (List Val × List Nat)}
    (hb : (do let b ← initBlock sch lo hi; fill sch.length recs b) = .ok (b, q)) (hq : q ≠ [])
    {i : Nat} {t : Ty} (ht : sch[i]? = some t) (hnum : ∀ v ∈ valuesOf i q, v.number) :
    ∃ mn mx, readSma b i t = .ok (mn, mx) ∧ mn ∈ valuesOf i q ∧ mx ∈ valuesOf i q ∧ ∀ v ∈ valuesOf i q, mn.le v ∧ v.le mx := by
  obtain ⟨mn, mx, h1, h2, h3, t2, t3, h4⟩ := C21_sma hp hlo hhi hr hb hq ht
  refine ⟨mn, mx, h1, h2, h3, fun v hv => ?_⟩
  obtain ⟨mn', mx', h1', -⟩ := C21_sma hp hlo hhi hr hb hq ht
  have hvt : v.ty = t := by
    obtain ⟨r, hr', hv'⟩ := List.mem_filterMap.1 hv
    have hn : sch ≠ [] := by rintro rfl; simp at ht
    obtain ⟨b1, q1, e1, h, -⟩ := fill_init hn hp hlo hhi hr
    rw [hb] at e1
    cases e1
    have := typed_get (h.typed r (by simpa using hr')).1 hv'
    rw [ht] at this
    exact (Option.some.inj this).symm
  exact ⟨le_of_not_lt (by rw [t2, hvt]) (hnum _ h2) (hnum _ hv) ((Val.not_lt_iff _ _).2 (h4 v hv).1), le_of_not_lt (by rw [t3, hvt]) (hnum _ hv) (hnum _ h3) ((Val.not_lt_iff _ _).2 (h4 v hv).2)⟩

/-- **C21**: a block that the range scan skips because of a predicate `x ≤ column ≤ y` has no matching record. -/
theorem C21_skip_sound {sch : Schema} (hp : PagesBigEnough sch) {lo hi : Nat} (hlo : lo < 2 ^ 32) (hhi : hi < 2 ^ 32)
    {recs : List (List Val)} (hr : ∀ vs ∈ recs, Record sch vs) {b : Blk} {q : List (List Val × List Nat)}
    (hb : (do let b ← initBlock sch lo hi; fill sch.length recs b) = .ok (b, q))
    {i : Nat} {t : Ty} (ht : sch[i]? = some t) {x y mn mx : Val} (hs : readSma b i t = .ok (mn, mx))
    (hskip : y.lt mn = true ∨ mx.lt x = true) : ∀ r ∈ q, ∀ v, r.1[i]? = some v → ¬ (x.le v ∧ v.le y) := by
  intro r hr' v hv ⟨h1, h2⟩
  obtain ⟨mn', mx', h1', -, -, -, -, h4⟩ := C21_sma hp hlo hhi hr hb (List.ne_nil_of_mem hr') ht
  rw [hs] at h1'
  cases h1'
  have hm : v ∈ valuesOf i q := List.mem_filterMap.2 ⟨r, hr', hv⟩
  rcases hskip with h | h
  · have := le_lt h2 h
    exact (h4 v hm).1 ((Val.lt_iff _ _).1 this)
  · have := lt_le h h1
    exact (h4 v hm).2 ((Val.lt_iff _ _).1 this)

/-! ## A concrete block -/

/-- Two records of a schema with an integer, a double and a string column. -/
def exSchema : Schema := [.int, .dbl, .str]
def exRecords : List (List Val) := [[.int 7, .dbl 0x3FF8000000000000, .str [98, 111, 98]], [.int 0xFFFFFFFB, .dbl 0xC000000000000000, .str [97]]]

theorem exRecords_ok : ∀ vs ∈ exRecords, Record exSchema vs := by
  intro vs h
  simp only [exRecords, List.mem_cons, List.not_mem_nil, or_false] at h
  rcases h with rfl | rfl <;> exact ⟨rfl, by simp [Val.plain]⟩

/-- Both records are accepted; the second one has the minimum of every column. -/
example : (do
    let b ← initBlock exSchema 0 1023
    let r ← fill 3 exRecords b
    let m0 ← readSma r.1 0 .int
    let m1 ← readSma r.1 1 .dbl
    let m2 ← readSma r.1 2 .str
    pure (r.2.map Prod.fst == exRecords, m0, m1, m2)) =
    Res.ok (true, (.int 0xFFFFFFFB, .int 7), (.dbl 0xC000000000000000, .dbl 0x3FF8000000000000), (.str [97], .str [98, 111, 98])) := by
  decide +kernel

end Verif.PTable
