import Verif.PTable.TableProps

/-!
# What the block iterator returns
-/

namespace Verif.PTable

variable {c : Cfg}

/-- The predicates name columns and have bounds of their types. -/
def PredsOK (c : Cfg) (ps : List Pred) : Prop := ∀ p ∈ ps, c.sch[p.col]? = some p.lo.ty ∧ p.hi.ty = p.lo.ty

/-- The test of a record by `isPTupleinRange`: no attribute is below the lower or above the upper bound. -/
def passes (ps : List Pred) (vs : List Val) : Bool :=
  ps.all fun p => match vs[p.col]? with
    | some v => !(p.hi.lt v || v.lt p.lo)
    | none => false

theorem tupleInRange_ok {b : Blk} {rows : Rows} (h : Rep c.sch b rows) {r : List Val × List Nat} (hr : r ∈ rows) :
    ∀ {ps : List Pred}, PredsOK c ps → tupleInRange c b r.2 ps = .ok (passes ps r.1)
  | [], _ => rfl
  | p :: ps, hp => by
    obtain ⟨h1, h2⟩ := hp p (List.mem_cons_self ..)
    obtain ⟨v, o, e1, e2, e3⟩ := h.read hr h1
    have ih := tupleInRange_ok h hr (ps := ps) (fun q hq => hp q (List.mem_cons_of_mem _ hq))
    unfold tupleInRange
    rw [h1, e2]
    dsimp only
    rw [if_pos ⟨rfl, h2⟩, e3, Res.ok_bind, ih]
    unfold passes
    rw [List.all_cons, e1]
    dsimp only
    by_cases hh : (p.hi.lt v || v.lt p.lo) = true
    · rw [if_pos hh, hh]; rfl
    · have hh := Bool.eq_false_iff.2 hh
      rw [hh]
      rfl

/-! ## Blocks -/

/-- A fresh block is zero behind its header and in the count field. -/
theorem initBlock_zero {sch : Schema} (hp : PagesBigEnough sch) {lo hi : Nat} {b : Blk} (e : initBlock sch lo hi = .ok b) :
    (∀ j, header sch.length ≤ j → b j = 0) ∧ b 8 = 0 := by
  obtain ⟨hf, hb⟩ := hp
  have hbs : blockSize = 32768 := rfl
  have hh : header sch.length = 14 + sch.length * 4 := rfl
  have etotal : sub16 blockSize (header sch.length) = blockSize - header sch.length := by unfold sub16; omega
  obtain ⟨b1, e1, r1, w1⟩ := put_enc (fun _ => (0 : UInt8)) (off := 0) (n := 4) (x := lo) (by omega)
  obtain ⟨b2, e2, r2, w2⟩ := put_enc b1 (off := 4) (n := 4) (x := hi) (by omega)
  have hpl := pages_le (blockSize - header sch.length) sch
  have hpg : ∀ t ∈ sch, t.smaSize ≤ pageSize (blockSize - header sch.length) (portions sch) t := by
    intro t ht
    rw [pageSize_eq (by omega) ht]
    exact hb t ht
  obtain ⟨b3, e3, w3, hc⟩ := initCols_ok (blockSize - header sch.length) (portions sch) sch 0 (header sch.length) 0 b2
    (by omega) (by omega) hpg
  obtain ⟨b4, e4, r4, w4⟩ := put_enc b3 (off := 12) (n := 2) (x := sub16 blockSize (header sch.length + (0 + (sch.map Ty.smaSize).sum))) (by omega)
  unfold initBlock at e
  rw [e1, Res.ok_bind, e2, Res.ok_bind] at e
  dsimp only at e
  rw [etotal, e3, Res.ok_bind] at e
  dsimp only at e
  rw [e4] at e
  cases e
  have hz : ∀ j, (header sch.length ≤ j ∨ j = 8) → b j = 0 := by
    intro j hj
    rw [w4 j (by omega), w3 j (by omega), w2 j (by omega), w1 j (by omega)]
  exact ⟨fun j hj => hz j (Or.inl hj), hz 8 (Or.inr rfl)⟩

theorem bytes_zero {b : Blk} : ∀ (n off : Nat), (∀ j, off ≤ j → b j = 0) → dec (bytes b off n) = 0
  | 0, _, _ => rfl
  | n + 1, off, h => by
    rw [bytes, dec, h off (le_refl _), bytes_zero n (off + 1) (fun j hj => h j (by omega))]
    rfl

theorem cstrAux_total {b : Blk} : ∀ (n off j : Nat), off ≤ j → j < off + n → b j = 0 → ∃ s, cstrAux b off n = .ok s
  | 0, off, j, h1, h2, _ => by omega
  | n + 1, off, j, h1, h2, h => by
    rw [cstrAux]
    by_cases h0 : b off = 0
    · exact ⟨[], if_pos h0⟩
    · rw [if_neg h0]
      obtain ⟨s, hs⟩ := cstrAux_total n (off + 1) j (by
        rcases Nat.lt_or_ge off j with h' | h'
        · omega
        · have : off = j := by omega
          rw [this] at h0; exact absurd h h0) (by omega) h
      exact ⟨_, by rw [hs, Res.ok_bind]; rfl⟩

/-- Every minipage has space for a value. -/
def Cfg.Roomy (c : Cfg) : Prop := ∀ i t, c.sch[i]? = some t → dataOf c.sch i + t.dataSize ≤ endOf c.sch i

theorem NodeOK.length_room {nd : Node} {rows : Rows} (h : NodeOK c nd rows) {i : Nat} {t : Ty} (ht : c.sch[i]? = some t) :
    dataOf c.sch i + rows.length * t.dataSize ≤ endOf c.sch i := by
  have hi : i < c.sch.length := (List.getElem?_eq_some_iff.1 ht).1
  have hl : (column i rows).length = rows.length := by simp [column]
  have hc := h.rep.col i t ht
  have h1 := (h.std i hi).2
  have h2 := h.std.end i
  rw [h1, h2] at hc
  cases t with
  | int =>
    obtain ⟨l, hl', hc⟩ := hc
    have := hc.room
    rw [List.length_map] at this
    rw [← hl, hl', List.length_map]
    exact this
  | dbl =>
    obtain ⟨l, hl', hc⟩ := hc
    have := hc.room
    rw [List.length_map] at this
    rw [← hl, hl', List.length_map]
    exact this
  | str =>
    obtain ⟨l, hl', hc⟩ := hc
    have h3 := hc.room
    rw [← hl, hl', List.length_map]
    have : top (endOf c.sch i) l ≤ endOf c.sch i := hc.stored.top_le
    simp only [Ty.dataSize]
    omega

theorem NodeOK.roomy {nd : Node} {rows : Rows} (h : NodeOK c nd rows) (hr : rows ≠ []) : c.Roomy := by
  intro i t ht
  have h1 := h.length_room ht
  have h2 : 0 < rows.length := List.length_pos_iff.2 hr
  have : 1 * t.dataSize ≤ rows.length * t.dataSize := Nat.mul_le_mul_right _ h2
  omega

theorem NodeOK.length_small (hg : c.Good) {nd : Node} {rows : Rows} (h : NodeOK c nd rows) : rows.length < 65536 := by
  obtain ⟨n, hn⟩ : ∃ n, c.sch.length = n + 1 := Nat.exists_eq_succ_of_ne_zero (fun h => hg.ne (List.length_eq_zero_iff.1 h))
  have ht : c.sch[0]? = some c.sch[0] := List.getElem?_eq_getElem (by omega)
  have h1 := h.length_room ht
  have h2 := h.rep.lay.inside 0 (by omega)
  rw [h.std.end] at h2
  have hbs : blockSize = 32768 := rfl
  have : rows.length * 1 ≤ rows.length * (c.sch[0]).dataSize := Nat.mul_le_mul_left _ (by cases c.sch[0] <;> simp [Ty.dataSize])
  omega

/-- In an empty block, the SMA test reads the same values as the test of the (absent) first record. -/
theorem NodeOK.zero (hg : c.Good) {nd : Node} (h : NodeOK c nd []) {i : Nat} {t : Ty} (ht : c.sch[i]? = some t) :
    ∃ z, readSma nd.blk i t = .ok (z, z) ∧ (c.Roomy → ∃ o, offsetAt nd.blk 0 i t = .ok o ∧ readAttr nd.blk t o = .ok z) := by
  obtain ⟨lo, hi, -, -, e⟩ := h.empty rfl
  obtain ⟨hz, h8⟩ := initBlock_zero hg.pages e
  have hbs : blockSize = 32768 := rfl
  have hi' : i < c.sch.length := (List.getElem?_eq_some_iff.1 ht).1
  have hb := h.rep.lay.behind i hi'
  have hs := h.rep.lay.sma i t ht
  have hd := h.rep.lay.data i hi'
  have hn := h.rep.lay.inside i hi'
  have hroom : c.Roomy → dataAt nd.blk i + t.dataSize ≤ blockSize := by
    intro hr
    have := hr i t ht
    rw [h.std.end] at hn
    rw [(h.std i hi').2]
    omega
  unfold readSma
  rw [h.rep.lay.smaPos hi', Res.ok_bind]
  have hdp : dataPos nd.blk i = .ok (dataAt nd.blk i) := h.rep.lay.dataPos hi'
  have hrd : ∀ off n, header c.sch.length ≤ off → off + n ≤ blockSize → rd nd.blk off n = .ok 0 := by
    intro off n h1 h2
    rw [rd_ok h2, bytes_zero n off (fun j hj => hz j (by omega))]
  cases t with
  | int =>
    simp only [Ty.smaSize] at hs
    refine ⟨.int 0, ?_, fun hr => ?_⟩
    · dsimp only
      rw [hrd _ _ (by omega) (by omega), Res.ok_bind, hrd _ _ (by omega) (by omega), Res.ok_bind]
      rfl
    · have := hroom hr
      simp only [Ty.dataSize] at this
      refine ⟨dataAt nd.blk i, ?_, ?_⟩
      · unfold offsetAt
        rw [hdp, Res.ok_bind]
        dsimp only
        rw [Res.pure_eq]
        congr 1; omega
      · unfold readAttr
        dsimp only
        rw [hrd _ _ (by omega) (by omega), Res.ok_bind]
        rfl
  | dbl =>
    simp only [Ty.smaSize] at hs
    refine ⟨.dbl 0, ?_, fun hr => ?_⟩
    · dsimp only
      rw [hrd _ _ (by omega) (by omega), Res.ok_bind, hrd _ _ (by omega) (by omega), Res.ok_bind]
      rfl
    · have := hroom hr
      simp only [Ty.dataSize] at this
      refine ⟨dataAt nd.blk i, ?_, ?_⟩
      · unfold offsetAt
        rw [hdp, Res.ok_bind]
        dsimp only
        rw [Res.pure_eq]
        congr 1; omega
      · unfold readAttr
        dsimp only
        rw [hrd _ _ (by omega) (by omega), Res.ok_bind]
        rfl
  | str =>
    simp only [Ty.smaSize] at hs
    obtain ⟨s, hs'⟩ := cstrAux_total (b := nd.blk) (blockSize - 0) 0 8 (by omega) (by omega) h8
    have hs' : cstr nd.blk 0 = .ok s := hs'
    refine ⟨.str s, ?_, fun hr => ?_⟩
    · dsimp only
      rw [hrd _ _ (by omega) (by omega), Res.ok_bind, hrd _ _ (by omega) (by omega), Res.ok_bind, hs', Res.ok_bind, Res.ok_bind]
      rfl
    · have := hroom hr
      simp only [Ty.dataSize] at this
      refine ⟨0, ?_, ?_⟩
      · unfold offsetAt
        rw [hdp, Res.ok_bind]
        exact hrd _ _ (by omega) (by omega)
      · unfold readAttr
        dsimp only
        rw [hs', Res.ok_bind]
        rfl

theorem NodeOK.readSma (hg : c.Good) {nd : Node} {rows : Rows} (h : NodeOK c nd rows) {i : Nat} {t : Ty} (ht : c.sch[i]? = some t) :
    ∃ m, readSma nd.blk i t = .ok m ∧ ∀ r ∈ rows, ∀ v, r.1[i]? = some v → v.lt m.1 = false ∧ m.2.lt v = false := by
  by_cases hr : rows = []
  · subst hr
    obtain ⟨z, hz, -⟩ := h.zero hg ht
    exact ⟨_, hz, fun r hr => by cases hr⟩
  · have hi' : i < c.sch.length := (List.getElem?_eq_some_iff.1 ht).1
    obtain ⟨mn, mx, hs, -, -, h3⟩ := (h.rep.col i t ht).sma (h.rep.lay.sma i t ht) (h.rep.lay.data i hi') (h.rep.lay.inside i hi')
      (h.rep.lay.smaPos hi') (by simpa [column] using hr)
    refine ⟨_, hs, fun r hr v hv => h3 v ?_⟩
    refine List.mem_map.2 ⟨(v, r.2.getD i 0), ?_, rfl⟩
    unfold column
    refine List.mem_map.2 ⟨r, hr, ?_⟩
    rw [List.getD_eq_getElem?_getD, hv]
    rfl

theorem NodeOK.blockInRange (hg : c.Good) {nd : Node} {rows : Rows} (h : NodeOK c nd rows) : ∀ {ps : List Pred}, PredsOK c ps →
    ∃ e, blockInRange c nd.blk ps = .ok e
  | [], _ => ⟨true, rfl⟩
  | p :: ps, hp => by
    obtain ⟨h1, h2⟩ := hp p (List.mem_cons_self ..)
    obtain ⟨m, hm, -⟩ := h.readSma hg h1
    unfold PTable.blockInRange
    rw [h1]
    dsimp only
    rw [if_pos ⟨rfl, h2⟩, hm, Res.ok_bind]
    split
    · exact ⟨false, rfl⟩
    · exact h.blockInRange hg (fun q hq => hp q (List.mem_cons_of_mem _ hq))

/-- All attributes named by predicates lie in the closed ranges. -/
def Inside (ps : List Pred) (vs : List Val) : Prop := ∀ p ∈ ps, ∃ v, vs[p.col]? = some v ∧ p.lo.le v ∧ v.le p.hi

/-- A block excluded by the SMA test has no record in the ranges. -/
theorem NodeOK.excluded (hg : c.Good) {nd : Node} {rows : Rows} (h : NodeOK c nd rows) : ∀ {ps : List Pred}, PredsOK c ps →
    PTable.blockInRange c nd.blk ps = .ok false → ∀ r ∈ rows, ¬ Inside ps r.1
  | [], _, e => by cases e
  | p :: ps, hp, e => by
    intro r hr hin
    obtain ⟨h1, h2⟩ := hp p (List.mem_cons_self ..)
    obtain ⟨m, hm, hb⟩ := h.readSma hg h1
    unfold PTable.blockInRange at e
    rw [h1] at e
    dsimp only at e
    rw [if_pos ⟨rfl, h2⟩, hm, Res.ok_bind] at e
    split at e
    · rename_i hc
      obtain ⟨v, hv, a1, a2⟩ := hin p (List.mem_cons_self ..)
      obtain ⟨b1, b2⟩ := hb r hr v hv
      rcases Bool.or_eq_true_iff.1 hc with hc | hc
      · rw [le_lt a2 hc] at b1; cases b1
      · rw [lt_le hc a1] at b2; cases b2
    · exact h.excluded hg (fun q hq => hp q (List.mem_cons_of_mem _ hq)) e r hr (fun q hq => hin q (List.mem_cons_of_mem _ hq))

theorem ltStr_self : ∀ s : List UInt8, ltStr s s = false
  | [] => rfl
  | a :: s => by
    unfold ltStr
    rw [ltStr_self s]
    simp

theorem Val.lt_self (v : Val) : v.lt v = false := by
  cases v with
  | int x => simp [Val.lt]
  | dbl x => simp [Val.lt, dblLt]
  | str s => exact ltStr_self s

/-- For numbers, the test of the code is the right one. -/
theorem passes_iff {ps : List Pred} {vs : List Val} (hp : PredsOK c ps) (hv : vs.map Val.ty = c.sch) (hn : ∀ v ∈ vs, v.number)
    (hq : ∀ p ∈ ps, p.lo.number ∧ p.hi.number) : passes ps vs = true ↔ Inside ps vs := by
  unfold passes Inside
  rw [List.all_eq_true]
  refine forall_congr' fun p => forall_congr' fun hpm => ?_
  obtain ⟨h1, h2⟩ := hp p hpm
  obtain ⟨q1, q2⟩ := hq p hpm
  have hl : p.col < vs.length := by
    have := (List.getElem?_eq_some_iff.1 h1).1
    rw [← hv, List.length_map] at this
    exact this
  have ht := typed_get hv (List.getElem?_eq_getElem hl)
  rw [h1] at ht
  have ht := Option.some.inj ht
  have hnum := hn _ (List.getElem_mem hl)
  rw [List.getElem?_eq_getElem hl]
  dsimp only
  generalize vs[p.col] = v at ht hnum
  constructor
  · intro h
    rw [Bool.not_eq_true', Bool.or_eq_false_iff] at h
    exact ⟨v, rfl, le_of_not_lt ht q1 hnum h.2, le_of_not_lt (h2.trans ht).symm hnum q2 h.1⟩
  · rintro ⟨v', e, a1, a2⟩
    cases e
    rw [Bool.not_eq_true', Bool.or_eq_false_iff]
    constructor
    · cases hh : p.hi.lt v with
      | false => rfl
      | true => have := le_lt a2 hh; rw [Val.lt_self] at this; cases this
    · cases hh : v.lt p.lo with
      | false => rfl
      | true => have := lt_le hh a1; rw [Val.lt_self] at this; cases this

/-! ## Candidates -/

/-- Is the block a candidate? -/
def cand (c : Cfg) (t : Tbl) (ps : List Pred) (id : Nat) : Bool :=
  match t.nodes id with
  | some nd => match blockInRange c nd.blk ps with
    | .ok e => e
    | _ => false
  | none => false

theorem candidates_ok (hg : c.Good) {t : Tbl} {R : Nat → Rows} {l0 : List Nat} (h : Inv c t R l0) {ps : List Pred} (hp : PredsOK c ps) :
    ∀ (l : List Nat) (p : Option Nat) (f : Nat), Chain t.nodes p l → l.length ≤ f → candidates c t ps f p = .ok (l.filter (cand c t ps))
  | [], p, f, hc, _ => by
    have hc : p = none := hc
    subst hc
    cases f <;> rfl
  | id :: l, p, 0, hc, hf => by simp at hf
  | id :: l, p, f + 1, ⟨h1, nd, h2, h3⟩, hf => by
    subst h1
    obtain ⟨e, he⟩ := (h.ok id nd h2).blockInRange hg hp
    have hcd : cand c t ps id = e := by unfold cand; rw [h2]; dsimp only; rw [he]
    rw [candidates, Tbl.get_ok h2, Res.ok_bind, he, Res.ok_bind,
      candidates_ok hg h hp l nd.next f h3 (by simpa using hf), Res.ok_bind, Res.pure_eq, List.filter_cons, hcd]

/-! ## The iterator -/

/-- The records of a node, oldest first. -/
def rowsAt (R : Nat → Rows) (id : Nat) : List Move := (R id).reverse.map fun r => (id, r)

/-- The records in later candidates, up to the first empty one. -/
def later (R : Nat → Rows) : List Nat → List Move
  | [] => []
  | id :: l => if R id = [] then [] else rowsAt R id ++ later R l

/-- An iterator behind position `p` of its block; `T`: the records ahead. -/
structure At (c : Cfg) (t : Tbl) (R : Nat → Rows) (ps : List Pred) (it : It) (id : Nat) (r : List Nat) (p : Nat) (T : List Move) : Prop where
  eq : it = ⟨id :: r, (R id).length, p⟩
  le : p ≤ (R id).length
  node : ∃ nd, t.nodes id = some nd
  nodes : ∀ j ∈ r, (∃ nd, t.nodes j = some nd) ∧ cand c t ps j = true ∧ (R j = [] → c.Roomy)
  ahead : T = (rowsAt R id).drop p ++ later R r

theorem empty_first (hg : c.Good) {nd : Node} (h : NodeOK c nd []) (hr : c.Roomy) :
    ∃ os, offsetsFrom nd.blk 0 0 c.sch = .ok os ∧ ∀ ps, PredsOK c ps → blockInRange c nd.blk ps = .ok true → tupleInRange c nd.blk os ps = .ok true := by
  have hz : ∀ i t, c.sch[i]? = some t → ∃ o, ∃ z, readSma nd.blk i t = .ok (z, z) ∧ offsetAt nd.blk 0 i t = .ok o ∧ readAttr nd.blk t o = .ok z := by
    intro i t ht
    obtain ⟨z, h1, h2⟩ := h.zero hg ht
    obtain ⟨o, h3, h4⟩ := h2 hr
    exact ⟨o, z, h1, h3, h4⟩
  choose o hzo using hz
  let os : List Nat := List.ofFn fun i : Fin c.sch.length => o i c.sch[i] (List.getElem?_eq_getElem i.2)
  have hos : ∀ i t (ht : c.sch[i]? = some t), os[i]? = some (o i t ht) := by
    intro i t ht
    obtain ⟨hi, e⟩ := List.getElem?_eq_some_iff.1 ht
    subst e
    simp [os, hi]
  refine ⟨os, offsetsFrom_ok c.sch 0 os (by simp [os]) (fun k t x ht hx => ?_), ?_⟩
  · rw [hos k t ht] at hx
    cases hx
    obtain ⟨z, -, h2, -⟩ := hzo k t ht
    rw [Nat.zero_add]
    exact h2
  · intro ps
    induction ps with
    | nil => intro _ _; rfl
    | cons p ps ih =>
      intro hp e
      obtain ⟨h1, h2⟩ := hp p (List.mem_cons_self ..)
      obtain ⟨z, g1, -, g3⟩ := hzo _ _ h1
      unfold blockInRange at e
      rw [h1] at e
      dsimp only at e
      rw [if_pos ⟨rfl, h2⟩, g1, Res.ok_bind] at e
      unfold tupleInRange
      rw [h1, hos _ _ h1]
      dsimp only
      rw [if_pos ⟨rfl, h2⟩, g3, Res.ok_bind]
      split at e
      · cases e
      · rename_i hh
        dsimp only at hh
        rw [if_neg hh]
        exact ih (fun q hq => hp q (List.mem_cons_of_mem _ hq)) e

/-- The record that the iterator reads at a position. -/
theorem deref_ok {t : Tbl} {R : Nat → Rows} {l : List Nat} (h : Inv c t R l) {id : Nat} {nd : Node} (hnd : t.nodes id = some nd) {r : List Nat} {n p : Nat}
    {m : Move} (hm : (rowsAt R id)[p]? = some m) : It.deref c t ⟨id :: r, n, p + 1⟩ = .ok (m.1, m.2.2) ∧ m.1 = id ∧ m.2 ∈ R id := by
  unfold rowsAt at hm
  rw [List.getElem?_map] at hm
  cases hr : (R id).reverse[p]? with
  | none => rw [hr] at hm; cases hm
  | some row =>
    rw [hr] at hm
    cases hm
    refine ⟨?_, rfl, by simpa using List.mem_of_getElem? hr⟩
    unfold It.deref
    dsimp only
    rw [Tbl.get_ok hnd, Res.ok_bind, Nat.add_sub_cancel, (h.ok id nd hnd).rep.offsets hr, Res.ok_bind]
    rfl

/-- The rest of `operator++` at a record. -/
theorem next_at {t : Tbl} {R : Nat → Rows} {l : List Nat} (h : Inv c t R l) {ps : List Pred} (hp : PredsOK c ps) {id : Nat} {nd : Node}
    (hnd : t.nodes id = some nd) {r : List Nat} {n p : Nat} {m : Move} (hm : (rowsAt R id)[p]? = some m) {β : Type} (k : Bool → Res β) :
    (do
      let h ← It.deref c t ⟨id :: r, n, p + 1⟩
      let nd ← t.get h.1
      let e ← tupleInRange c nd.blk h.2 ps
      k e) = k (passes ps m.2.1) := by
  obtain ⟨h1, h2, h3⟩ := deref_ok h hnd (r := r) (n := n) hm
  rw [h1, Res.ok_bind]
  dsimp only
  rw [h2, Tbl.get_ok hnd, Res.ok_bind, tupleInRange_ok (h.ok id nd hnd).rep h3 hp, Res.ok_bind]

theorem drop_at {m : Move} {T' L : List Move} {p : Nat} (h : L.drop p = m :: T') : L[p]? = some m ∧ L.drop (p + 1) = T' ∧ p < L.length := by
  have h1 : L[p]? = some m := by
    have : (L.drop p)[0]? = some m := by rw [h]; rfl
    rw [List.getElem?_drop] at this
    exact this
  refine ⟨h1, ?_, (List.getElem?_eq_some_iff.1 h1).1⟩
  rw [← List.drop_drop, h]
  rfl

theorem rowsAt_length (R : Nat → Rows) (id : Nat) : (rowsAt R id).length = (R id).length := by simp [rowsAt]

/-- `operator++` goes to the next record that passes the test, or to the end. -/
theorem next_ok (hg : c.Good) {t : Tbl} {R : Nat → Rows} {l : List Nat} (h : Inv c t R l) {ps : List Pred} (hp : PredsOK c ps) :
    ∀ (f : Nat) {it : It} {id : Nat} {r : List Nat} {p : Nat} {T : List Move}, At c t R ps it id r p T → T.length < f →
    (∃ pre m T', T = pre ++ m :: T' ∧ (∀ x ∈ pre, passes ps x.2.1 = false) ∧ passes ps m.2.1 = true ∧
      ∃ it' id' r' p', It.next c false t ps f it = .ok it' ∧ At c t R ps it' id' r' p' T' ∧ 0 < p' ∧ it'.deref c t = .ok (m.1, m.2.2)) ∨
    ((∀ x ∈ T, passes ps x.2.1 = false) ∧ ∃ it', It.next c false t ps f it = .ok it' ∧ it'.pos = 1 ∧ it'.cnt = 0)
  | 0, _, _, _, _, _, _, hf => by omega
  | f + 1, it, id, r, p, T, ha, hf => by
    obtain ⟨rfl, hle, ⟨nd, hnd⟩, hnodes, rfl⟩ := ha
    -- the common case: step onto a record
    have key : ∀ (id' : Nat) (r' : List Nat) (p' : Nat) (m : Move) (T' : List Move), (∃ nd, t.nodes id' = some nd) →
        (∀ j ∈ r', (∃ nd, t.nodes j = some nd) ∧ cand c t ps j = true ∧ (R j = [] → c.Roomy)) →
        (rowsAt R id').drop p' ++ later R r' = m :: T' → p' < (R id').length → (m :: T').length < f + 1 →
        It.next c false t ps (f + 1) ⟨id :: r, (R id).length, p⟩ = (do
          let h ← It.deref c t ⟨id' :: r', (R id').length, p' + 1⟩
          let nd ← t.get h.1
          let e ← tupleInRange c nd.blk h.2 ps
          if e then .ok ⟨id' :: r', (R id').length, p' + 1⟩ else It.next c false t ps f ⟨id' :: r', (R id').length, p' + 1⟩) →
        (∃ pre m1 T1, m :: T' = pre ++ m1 :: T1 ∧ (∀ x ∈ pre, passes ps x.2.1 = false) ∧ passes ps m1.2.1 = true ∧
          ∃ it' id' r' p', It.next c false t ps (f + 1) ⟨id :: r, (R id).length, p⟩ = .ok it' ∧ At c t R ps it' id' r' p' T1 ∧ 0 < p' ∧
            it'.deref c t = .ok (m1.1, m1.2.2)) ∨
        ((∀ x ∈ m :: T', passes ps x.2.1 = false) ∧ ∃ it', It.next c false t ps (f + 1) ⟨id :: r, (R id).length, p⟩ = .ok it' ∧ it'.pos = 1 ∧ it'.cnt = 0) := by
      intro id' r' p' m T' ⟨nd', hnd'⟩ hn' hT hp' hlen hnext
      have hlt : p' < (rowsAt R id').length := by rw [rowsAt_length]; exact hp'
      obtain ⟨m0, hm0⟩ : ∃ m0, (rowsAt R id')[p']? = some m0 := ⟨_, List.getElem?_eq_getElem hlt⟩
      have hd : (rowsAt R id').drop p' = m0 :: (rowsAt R id').drop (p' + 1) := by
        obtain ⟨hl', e⟩ := List.getElem?_eq_some_iff.1 hm0
        rw [List.drop_eq_getElem_cons hl', e]
      rw [hd, List.cons_append] at hT
      have hTm : m0 = m := (List.cons.inj hT).1
      have hTt := (List.cons.inj hT).2
      subst hTm
      rw [next_at h hp hnd' hm0 (fun e => if e then Res.ok (⟨id' :: r', (R id').length, p' + 1⟩ : It) else It.next c false t ps f ⟨id' :: r', (R id').length, p' + 1⟩)] at hnext
      have hat : At c t R ps ⟨id' :: r', (R id').length, p' + 1⟩ id' r' (p' + 1) T' := ⟨rfl, by omega, ⟨nd', hnd'⟩, hn', hTt.symm⟩
      cases hpass : passes ps m0.2.1 with
      | true =>
        rw [hpass] at hnext
        exact Or.inl ⟨[], m0, T', rfl, by simp, hpass, _, id', r', p' + 1, hnext, hat, by omega, (deref_ok h hnd' hm0).1⟩
      | false =>
        rw [hpass] at hnext
        have hnext : It.next c false t ps (f + 1) ⟨id :: r, (R id).length, p⟩ = It.next c false t ps f ⟨id' :: r', (R id').length, p' + 1⟩ := hnext
        rw [hnext]
        rcases next_ok hg h hp f hat (by rw [List.length_cons] at hlen; omega) with ⟨pre, m1, T1, e1, e2, e3, e4⟩ | ⟨e1, e2⟩
        · refine Or.inl ⟨m0 :: pre, m1, T1, by rw [e1]; rfl, ?_, e3, e4⟩
          intro x hx
          rcases List.mem_cons.1 hx with rfl | hx
          · exact hpass
          · exact e2 x hx
        · refine Or.inr ⟨?_, e2⟩
          intro x hx
          rcases List.mem_cons.1 hx with rfl | hx
          · exact hpass
          · exact e1 x hx
    by_cases hpl : p < (R id).length
    · have hlt : p < (rowsAt R id).length := by rw [rowsAt_length]; exact hpl
      have hd := List.drop_eq_getElem_cons hlt
      have hT : (rowsAt R id).drop p ++ later R r = (rowsAt R id)[p] :: ((rowsAt R id).drop (p + 1) ++ later R r) := by rw [hd]; rfl
      rw [hT] at hf ⊢
      refine key id r p _ _ ⟨nd, hnd⟩ hnodes hT hpl hf ?_
      rw [It.next]
      dsimp only
      rw [if_neg (by omega)]
      rfl
    · have hpe : p = (R id).length := by omega
      have hT0 : (rowsAt R id).drop p = [] := List.drop_eq_nil_of_le (by rw [rowsAt_length]; omega)
      rw [hT0, List.nil_append] at hf ⊢
      cases r with
      | nil =>
        refine Or.inr ⟨by simp [later], ⟨[], 0, 1⟩, ?_, rfl, rfl⟩
        rw [It.next]
        dsimp only
        rw [if_pos (by omega)]
        rfl
      | cons id' r' =>
        obtain ⟨⟨nd', hnd'⟩, hcd, hroom⟩ := hnodes id' (List.mem_cons_self ..)
        have ok := h.ok id' nd' hnd'
        have hsm := ok.length_small hg
        have hstep : It.next c false t ps (f + 1) ⟨id :: id' :: r', (R id).length, p⟩ = (do
          let h ← It.deref c t ⟨id' :: r', (R id').length, 0 + 1⟩
          let nd ← t.get h.1
          let e ← tupleInRange c nd.blk h.2 ps
          if e then .ok ⟨id' :: r', (R id').length, 0 + 1⟩ else It.next c false t ps f ⟨id' :: r', (R id').length, 0 + 1⟩) := by
          rw [It.next]
          dsimp only
          rw [if_pos (by omega)]
          dsimp only [List.tail]
          rw [Tbl.get_ok hnd', Res.ok_bind, ok.rep.count, Res.ok_bind, Res.pure_eq, Res.ok_bind]
          dsimp only
          rw [Nat.mod_eq_of_lt hsm]
        by_cases he : R id' = []
        · refine Or.inr ⟨by simp [later, he], ⟨id' :: r', (R id').length, 1⟩, ?_, rfl, by simp [he]⟩
          rw [he] at ok
          obtain ⟨os, h1, h2⟩ := empty_first hg ok (hroom he)
          have hbr : blockInRange c nd'.blk ps = .ok true := by
            obtain ⟨e, hee⟩ := ok.blockInRange hg hp
            unfold cand at hcd
            rw [hnd'] at hcd
            dsimp only at hcd
            rw [hee] at hcd ⊢
            exact congrArg Res.ok hcd
          have hder : It.deref c t ⟨id' :: r', (R id').length, 0 + 1⟩ = .ok (id', os) := by
            unfold It.deref
            dsimp only
            rw [Tbl.get_ok hnd', Res.ok_bind]
            show (do let os ← offsetsFrom nd'.blk 0 0 c.sch; pure (id', os)) = _
            rw [h1, Res.ok_bind]
            rfl
          rw [hstep, hder, Res.ok_bind]
          dsimp only
          rw [Tbl.get_ok hnd', Res.ok_bind, h2 ps hp hbr, Res.ok_bind]
          rfl
        · have hpos : 0 < (R id').length := List.length_pos_iff.2 he
          have hlt : 0 < (rowsAt R id').length := by rw [rowsAt_length]; exact hpos
          have hd := List.drop_eq_getElem_cons hlt
          have hl : later R (id' :: r') = (rowsAt R id').drop 0 ++ later R r' := by rw [later, if_neg he]; rfl
          have hT : (rowsAt R id').drop 0 ++ later R r' = (rowsAt R id')[0] :: ((rowsAt R id').drop (0 + 1) ++ later R r') := by rw [hd]; rfl
          rw [hl, hT] at hf ⊢
          exact key id' r' 0 _ _ ⟨nd', hnd'⟩ (fun j hj => hnodes j (List.mem_cons_of_mem _ hj)) hT hpos hf hstep

def handleOf (m : Move) : Handle := (m.1, m.2.2)

/-- The loop over the iterator, from a record on. -/
theorem collect_ok (hg : c.Good) {t : Tbl} {R : Nat → Rows} {l : List Nat} (h : Inv c t R l) {ps : List Pred} (hp : PredsOK c ps) (g : Nat) :
    ∀ (f : Nat) {it : It} {id : Nat} {r : List Nat} {p : Nat} {T : List Move} {m : Move}, At c t R ps it id r p T → 0 < p → it.deref c t = .ok (handleOf m) →
    T.length < g → T.length + 1 < f → It.collect c false t ps g f it = .ok (handleOf m :: (T.filter fun x => passes ps x.2.1).map handleOf)
  | 0, _, _, _, _, _, _, _, _, _, _, hf => by omega
  | f + 1, it, id, r, p, T, m, ha, hpos, hd, hgl, hf => by
    have hle := ha.le
    have heq := ha.eq
    rw [It.collect, if_neg (by rw [heq]; dsimp only; omega), hd, Res.ok_bind]
    rcases next_ok hg h hp g ha hgl with ⟨pre, m1, T', rfl, h2, h3, it', id', r', p', h4, h5, h6, h7⟩ | ⟨h1, it', h2, h3, h4⟩
    · rw [List.length_append, List.length_cons] at hgl hf
      rw [h4, Res.ok_bind, collect_ok hg h hp g f h5 h6 (m := m1) h7 (by omega) (by omega), Res.ok_bind, List.filter_append, List.filter_cons,
        if_pos h3, List.filter_eq_nil_iff (l := pre).2 (fun x hx => by rw [h2 x hx]; simp)]
      rfl
    · rw [h2, Res.ok_bind]
      have : It.collect c false t ps g f it' = .ok [] := by
        cases f with
        | zero => omega
        | succ f => rw [It.collect, if_pos ⟨h3, h4⟩]
      rw [this, Res.ok_bind, List.filter_eq_nil_iff.2 (fun x hx => by rw [h1 x hx]; simp)]
      rfl

/-- The records that a scan with the candidates `cs` goes through. -/
def scanned (R : Nat → Rows) : List Nat → List Move
  | [] => []
  | id :: l => rowsAt R id ++ later R l

/-- If a read of `*candidates.end()` gives a null pointer, a scan returns the records that pass the test in the first candidate and the following
ones, up to the first empty block. -/
theorem rangeScan_ok (hg : c.Good) {t : Tbl} {R : Nat → Rows} {l : List Nat} (h : Inv c t R l) {ps : List Pred} (hp : PredsOK c ps)
    (hroom : ∀ id ∈ (l.filter (cand c t ps)).tail, R id = [] → c.Roomy) :
    ∀ f, (scanned R (l.filter (cand c t ps))).length + 1 < f →
      rangeScan c false t ps f = .ok (((scanned R (l.filter (cand c t ps))).filter fun x => passes ps x.2.1).map handleOf) := by
  intro f hf
  unfold rangeScan
  rw [candidates_ok hg h hp l _ _ h.chain h.len, Res.ok_bind]
  cases hcs : l.filter (cand c t ps) with
  | nil => rfl
  | cons id r =>
    rw [hcs] at hroom hf
    have hmem : ∀ j ∈ id :: r, j ∈ l ∧ cand c t ps j = true := by
      intro j hj
      rw [← hcs] at hj
      exact List.mem_filter.1 hj
    obtain ⟨nd, hnd⟩ := h.chain.mem id (hmem id (List.mem_cons_self ..)).1
    have ok := h.ok id nd hnd
    dsimp only
    rw [Tbl.get_ok hnd, Res.ok_bind, ok.rep.count, Res.ok_bind, Nat.mod_eq_of_lt (ok.length_small hg)]
    have ha : At c t R ps ⟨id :: r, (R id).length, 0⟩ id r 0 (scanned R (id :: r)) := ⟨rfl, by omega, ⟨nd, hnd⟩, fun j hj =>
      ⟨h.chain.mem j (hmem j (List.mem_cons_of_mem _ hj)).1, (hmem j (List.mem_cons_of_mem _ hj)).2, hroom j hj⟩, rfl⟩
    generalize scanned R (id :: r) = T at hf ha
    rcases next_ok hg h hp f ha (by omega) with ⟨pre, m1, T', rfl, h2, h3, it', id', r', p', h4, h5, h6, h7⟩ | ⟨h1, it', h2, h3, h4⟩
    · rw [List.length_append, List.length_cons] at hf
      rw [h4, Res.ok_bind, collect_ok hg h hp f f h5 h6 (m := m1) h7 (by omega) (by omega), List.filter_append, List.filter_cons,
        if_pos h3, List.filter_eq_nil_iff (l := pre).2 (fun x hx => by rw [h2 x hx]; simp)]
      rfl
    · rw [h2, Res.ok_bind, List.filter_eq_nil_iff.2 (fun x hx => by rw [h1 x hx]; simp)]
      cases f with
      | zero => omega
      | succ f => rw [It.collect, if_pos ⟨h3, h4⟩]; rfl

/-! ## The scan of the code as written -/

/-- As written, `operator++` never ends a scan without reading `*candidates.end()`. -/
theorem next_strict {t : Tbl} {ps : List Pred} : ∀ (f : Nat) {it it' : It}, (∀ id ∈ it.rest.tail, ∃ nd n, t.nodes id = some nd ∧ count nd.blk = .ok n ∧ n % 65536 ≠ 0) →
    It.next c true t ps f it = .ok it' → (∀ id ∈ it'.rest.tail, ∃ nd n, t.nodes id = some nd ∧ count nd.blk = .ok n ∧ n % 65536 ≠ 0) ∧ it'.pos ≤ it'.cnt ∧ 0 < it'.pos
  | 0, _, _, _, e => by cases e
  | f + 1, it, it', hr, e => by
    rw [It.next] at e
    obtain ⟨o, e1, e⟩ := Res.bind_eq_ok.1 e
    have hgoal : ∀ j : It, (∀ id ∈ j.rest.tail, ∃ nd n, t.nodes id = some nd ∧ count nd.blk = .ok n ∧ n % 65536 ≠ 0) → j.pos ≤ j.cnt → 0 < j.pos →
        (do
          let h ← j.deref c t
          let nd ← t.get h.1
          let e ← tupleInRange c nd.blk h.2 ps
          if e then .ok j else It.next c true t ps f j) = .ok it' →
        (∀ id ∈ it'.rest.tail, ∃ nd n, t.nodes id = some nd ∧ count nd.blk = .ok n ∧ n % 65536 ≠ 0) ∧ it'.pos ≤ it'.cnt ∧ 0 < it'.pos := by
      intro j h1 h2 h3 e
      obtain ⟨hd, -, e⟩ := Res.bind_eq_ok.1 e
      obtain ⟨nd, -, e⟩ := Res.bind_eq_ok.1 e
      obtain ⟨b, -, e⟩ := Res.bind_eq_ok.1 e
      cases b with
      | true => cases e; exact ⟨h1, h2, h3⟩
      | false => exact next_strict f h1 e
    by_cases hc : it.cnt < it.pos + 1
    · rw [if_pos hc] at e1
      cases hrt : it.rest.tail with
      | nil => rw [hrt] at e1; cases e1
      | cons id r =>
        rw [hrt] at e1 hr
        dsimp only at e1
        obtain ⟨nd, n, h1, h2, h3⟩ := hr id (List.mem_cons_self ..)
        rw [Tbl.get_ok h1, Res.ok_bind, h2, Res.ok_bind] at e1
        cases e1
        exact hgoal ⟨id :: r, n % 65536, 1⟩ (fun i hi => hr i (List.mem_cons_of_mem _ hi)) (by dsimp only; omega) (by dsimp only; omega) e
    · rw [if_neg hc] at e1
      cases e1
      exact hgoal { it with pos := it.pos + 1 } hr (by dsimp only; omega) (by dsimp only; omega) e

theorem collect_strict {t : Tbl} {ps : List Pred} (g : Nat) : ∀ (f : Nat) {it : It} {hs : List Handle},
    (∀ id ∈ it.rest.tail, ∃ nd n, t.nodes id = some nd ∧ count nd.blk = .ok n ∧ n % 65536 ≠ 0) → it.pos ≤ it.cnt → 0 < it.pos →
    It.collect c true t ps g f it ≠ .ok hs
  | 0, _, _, _, _, _ => by intro e; cases e
  | f + 1, it, hs, h1, h2, h3 => by
    intro e
    rw [It.collect, if_neg (by omega)] at e
    obtain ⟨hd, -, e⟩ := Res.bind_eq_ok.1 e
    obtain ⟨it', e1, e⟩ := Res.bind_eq_ok.1 e
    obtain ⟨hs', e2, -⟩ := Res.bind_eq_ok.1 e
    obtain ⟨q1, q2, q3⟩ := next_strict g h1 e1
    exact collect_strict g f q1 q2 q3 e2

/-- A scan with a candidate block, and no empty later one, has no defined result. -/
theorem rangeScan_strict {t : Tbl} {ps : List Pred} {id : Nat} {r : List Nat} (hc : candidates c t ps t.fresh (some t.head) = .ok (id :: r))
    (hr : ∀ id ∈ r, ∃ nd n, t.nodes id = some nd ∧ count nd.blk = .ok n ∧ n % 65536 ≠ 0) (f : Nat) (hs : List Handle) : rangeScan c true t ps f ≠ .ok hs := by
  intro e
  unfold rangeScan at e
  rw [hc, Res.ok_bind] at e
  dsimp only at e
  obtain ⟨nd, -, e⟩ := Res.bind_eq_ok.1 e
  obtain ⟨n, -, e⟩ := Res.bind_eq_ok.1 e
  obtain ⟨it', e1, e⟩ := Res.bind_eq_ok.1 e
  obtain ⟨q1, q2, q3⟩ := next_strict f (it := ⟨id :: r, n % 65536, 0⟩) hr e1
  exact collect_strict f f q1 q2 q3 e

end Verif.PTable
