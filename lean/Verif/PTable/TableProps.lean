import Verif.PTable.Live
import Verif.PTable.Props
import Mathlib.Data.List.Nodup

/-!
# C23, C24, C59: block ranges, `count` and `getByKey`
-/

namespace Verif.PTable

variable {c : Cfg}

/-- When an empty block accepts a record: the size test passes, and every value fits into its minipage. -/
theorem accepted_of (hg : c.Good) {vs : List Val} (hv : vs.map Val.ty = c.sch)
    (hs : (vs.map Val.serSize).sum ≤ blockSize - header c.sch.length - (c.sch.map Ty.smaSize).sum)
    (hu : ∀ i, i < c.sch.length → dataOf c.sch i + useOf i vs ≤ endOf c.sch i) : c.Accepted vs := by
  intro lo hi b hlo hhi e
  obtain ⟨b', e', -, -, -, -, hfree, -⟩ := initBlock_ok hg.pages hlo hhi
  rw [e] at e'
  cases e'
  obtain ⟨b', e', hr, hstd, -, -⟩ := initBlock_std hg.pages hlo hhi
  rw [e] at e'
  cases e'
  have hf : Fits c.sch b [] vs := (hr.fits_iff hstd hv).2 (fun i hi => by
    have := hu i hi
    rw [use_cons]
    show dataOf c.sch i + (useOf i vs + 0) ≤ _
    omega)
  obtain ⟨e2, he2, hiff⟩ := colsSpace_ok hr vs 0 (fun k v hv' => by rw [Nat.zero_add]; exact typed_get hv hv')
  unfold hasEnoughSpace
  rw [hfree, Res.ok_bind, if_neg (by omega), hr.count, Res.ok_bind, he2]
  congr 1
  refine hiff.2 (fun k v hk => ?_)
  rw [Nat.zero_add]
  exact hf k v hk

/-! ## C23 -/

/-- C23: in every state reached by a history of calls (with well-typed records), the ranges of the blocks, in list order, cover
`[0, 2^bins - 1]` without gaps, and the search of `insert` finds a block for every BDCC value. -/
theorem C23_cover (hg : c.Good) {ops : List Op} (hr : ∀ op ∈ ops, ∀ vs ∈ op.recs, c.Rec vs) {f : Nat} {t0 t : Tbl}
    (h0 : init c = .ok t0) (e : run c f t0 ops = .ok t) :
    ∃ l, Chain t.nodes (some t.head) l ∧ l.Nodup ∧ Gapless 0 (l.map (rangeAt t)) (2 ^ c.bins - 1) ∧
      ∀ x, x < 2 ^ c.bins → ∃ id nd, findTarget t x t.fresh (some t.head) = .ok (some id) ∧ id ∈ l ∧ t.nodes id = some nd ∧
        range nd.blk = .ok (loOf nd.blk, hiOf nd.blk) ∧ loOf nd.blk ≤ x ∧ x ≤ hiOf nd.blk := by
  obtain ⟨t0', h0', hi, -⟩ := inv_init hg
  rw [h0] at h0'
  cases h0'
  obtain ⟨R, l, -, h⟩ := run_sound hg ops hi hr e
  refine ⟨l, h.chain, h.nodup, h.gap, fun x hx => ?_⟩
  have hf := findTarget_ok (c := c) (vs := []) (x := x) l _ t.fresh h.chain h.len
  obtain ⟨r, hr, h1, h2⟩ := h.gap.covers (Nat.zero_le x) (by omega)
  obtain ⟨i, hil, rfl⟩ := List.mem_map.1 hr
  have hrng : ∀ j, ((entOf c t [] j).lo, (entOf c t [] j).hi) = rangeAt t j := fun j => entOf_rng c t [] j
  have hlo : ∀ j, (entOf c t [] j).lo = (rangeAt t j).1 := fun j => (Prod.ext_iff.1 (hrng j)).1
  have hhi : ∀ j, (entOf c t [] j).hi = (rangeAt t j).2 := fun j => (Prod.ext_iff.1 (hrng j)).2
  cases hfd : l.find? (fun id => decide ((entOf c t [] id).lo ≤ x ∧ x ≤ (entOf c t [] id).hi)) with
  | none =>
    have := List.find?_eq_none.1 hfd i hil
    rw [hlo, hhi] at this
    exact absurd (by simp [h1, h2]) this
  | some id =>
    have hm := List.mem_of_find?_eq_some hfd
    have hp := List.find?_some hfd
    obtain ⟨nd, hnd⟩ := h.chain.mem id hm
    rw [entOf_some hnd] at hp
    have hp := of_decide_eq_true hp
    exact ⟨id, nd, by rw [hf, hfd], hm, hnd, range_ok _, hp.1, hp.2⟩

/-- C23: a history of records that fit into an empty block never fails: every insert finds a block, and the splits come to an end. -/
theorem C23_insert_succeeds (hg : c.Good) {ops : List Op} (hr : ∀ op ∈ ops, ∀ vs ∈ op.recs, c.Rec vs ∧ c.Accepted vs) :
    ∃ t0 t N, init c = .ok t0 ∧ ∀ f, N ≤ f → run c f t0 ops = .ok t := by
  obtain ⟨t0, h0, hi, -⟩ := inv_init hg
  obtain ⟨t, N, h⟩ := run_ok hg ops hi hr
  exact ⟨t0, t, N, h0, h⟩

/-! ## C24 and C59 -/

/-- The map of keys to records that a call should produce. -/
def specStep (M : Int → Option (List Val)) : Op → Int → Option (List Val)
  | .ins k vs => fun j => if j = k then some vs else M j
  | .del k => fun j => if j = k then none else M j
  | .upd k vs => fun j => if j = k ∧ M k ≠ none then some vs else M j

def specRun (ops : List Op) : Int → Option (List Val) := ops.foldl specStep (fun _ => none)

/-- An inserted key is absent. -/
def Op.Absent (M : Int → Option (List Val)) : Op → Prop
  | .ins k _ => M k = none
  | _ => True

/-- Keys are inserted only while they are absent. -/
def Legal : (Int → Option (List Val)) → List Op → Prop
  | _, [] => True
  | M, op :: ops => op.Absent M ∧ Legal (specStep M op) ops

/-- The record has the key as its key attribute, and the key has 16 bits. -/
def Op.Keyed (c : Cfg) : Op → Prop
  | .ins k vs => ∃ x, vs[c.kc]? = some (.int x) ∧ x.toInt = k ∧ 0 ≤ k ∧ k < 65536
  | .upd k vs => ∃ x, vs[c.kc]? = some (.int x) ∧ x.toInt = k ∧ 0 ≤ k ∧ k < 65536
  | .del _ => True

theorem key16_eq {vs : List Val} {k : Int} (h : ∃ x, vs[c.kc]? = some (.int x) ∧ x.toInt = k ∧ 0 ≤ k ∧ k < 65536) : key16 c vs = k := by
  obtain ⟨x, h1, h2, h3, h4⟩ := h
  unfold key16
  rw [h1]
  dsimp only
  have := BitVec.toInt_eq_toNat_cond x
  have hx := x.isLt
  split at this <;> omega

/-- The live records are the records of the map. -/
def Holds (c : Cfg) (M : Int → Option (List Val)) (recs : List (List Val)) : Prop := ∀ k vs, M k = some vs ↔ vs ∈ recs ∧ key16 c vs = k

def recsOf (t : Tbl) (R : Nat → Rows) (l : List Nat) : List (List Val) := (live t R l).map (fun m => m.2.1)

theorem Holds.perm {M : Int → Option (List Val)} {r r' : List (List Val)} (h : Holds c M r) (hp : r'.Perm r) : Holds c M r' := by
  intro k vs
  rw [h k vs, hp.mem_iff]

theorem index_none {t : Tbl} {R : Nat → Rows} {l : List Nat} {M : Int → Option (List Val)} (hl : LiveOK c t R l) (h : Holds c M (recsOf t R l)) (k : Int) :
    t.index k = none ↔ M k = none := by
  constructor
  · intro hn
    cases hM : M k with
    | none => rfl
    | some vs =>
      obtain ⟨h1, h2⟩ := (h k vs).1 hM
      obtain ⟨m, hm, rfl⟩ := List.mem_map.1 h1
      have := (hl.idx k (m.1, m.2.2)).2 ⟨m, hm, h2, rfl⟩
      rw [hn] at this
      cases this
  · intro hn
    cases hi : t.index k with
    | none => rfl
    | some hd =>
      obtain ⟨m, hm, e1, -⟩ := (hl.idx k hd).1 hi
      have := (h k m.2.1).2 ⟨List.mem_map.2 ⟨m, hm, rfl⟩, e1⟩
      rw [hn] at this
      cases this

theorem added_holds {t t1 t' : Tbl} {R R1 : Nat → Rows} {l l1 : List Nat} {key : Int} {vs : List Val} {id : Nat} {os : List Nat}
    {M : Int → Option (List Val)} (hl : LiveOK c t R l) (h : Holds c M (recsOf t R l)) (hs : Splits c t R l t1 R1 l1)
    (ha : Added c t1 R1 l1 key vs id os t') (hk : key16 c vs = key) (habs : M key = none) :
    LiveOK c t' (addRow R1 id (vs, os)) l1 ∧ Holds c (fun j => if j = key then some vs else M j) (recsOf t' (addRow R1 id (vs, os)) l1) := by
  obtain ⟨hl1, hp1⟩ := hs.liveOK hl
  have h1 : Holds c M (recsOf t1 R1 l1) := h.perm hp1
  obtain ⟨hl2, hp2⟩ := ha.liveOK hl1 hk.symm ((index_none hl1 h1 key).2 habs)
  refine ⟨hl2, Holds.perm ?_ (hp2.map (fun m : Move => m.2.1))⟩
  intro k vs'
  dsimp only
  rw [List.map_cons, List.mem_cons]
  by_cases hkk : k = key
  · rw [if_pos hkk]
    constructor
    · intro e
      rw [← Option.some.inj e]
      exact ⟨Or.inl rfl, by rw [hkk]; exact hk⟩
    · rintro ⟨e | e, e2⟩
      · rw [e]
      · have := (h1 k vs').2 ⟨e, e2⟩
        rw [hkk, habs] at this
        cases this
  · rw [if_neg hkk, h1 k vs']
    constructor
    · rintro ⟨e, e2⟩; exact ⟨Or.inr e, e2⟩
    · rintro ⟨e | e, e2⟩
      · rw [e] at e2
        exact absurd (e2.symm.trans hk) hkk
      · exact ⟨e, e2⟩

theorem deleted_holds (hg : c.Good) (h0 : c.sch[0]? ≠ some .str) {t : Tbl} {R : Nat → Rows} {l : List Nat} (hi : Inv c t R l)
    {M : Int → Option (List Val)} (hl : LiveOK c t R l) (h : Holds c M (recsOf t R l))
    {key : Int} {id : Nat} {os : List Nat} (hk : t.index key = some (id, os)) {nd : Node} (hnd : t.nodes id = some nd) :
    LiveOK c { t.put id { nd with deleted := nd.deleted ++ [delPos c os] } with index := setIx t.index key none } R l ∧
    Holds c (fun j => if j = key then none else M j)
      (recsOf { t.put id { nd with deleted := nd.deleted ++ [delPos c os] } with index := setIx t.index key none } R l) := by
  obtain ⟨hl', m, hm, hp⟩ := hl.delete hg h0 hi hk hnd
  generalize ({ t.put id { nd with deleted := nd.deleted ++ [delPos c os] } with index := setIx t.index key none } : Tbl) = t' at hl' hp ⊢
  refine ⟨hl', ?_⟩
  have hkn := ((hp.map (mkey c)).nodup_iff).1 hl.nodup
  rw [List.map_cons, List.nodup_cons] at hkn
  intro k vs
  have hmem : ∀ v, v ∈ recsOf t R l ↔ v = m.2.1 ∨ v ∈ recsOf t' R l := by
    intro v
    unfold recsOf
    rw [(hp.map (fun m : Move => m.2.1)).mem_iff, List.map_cons, List.mem_cons]
  dsimp only
  by_cases hkk : k = key
  · rw [if_pos hkk]
    constructor
    · intro e; cases e
    · rintro ⟨e1, e2⟩
      exfalso
      obtain ⟨m', hm', rfl⟩ := List.mem_map.1 e1
      refine hkn.1 ?_
      rw [hm, ← hkk, ← e2]
      exact List.mem_map.2 ⟨m', hm', rfl⟩
  · rw [if_neg hkk, h k vs, hmem]
    constructor
    · rintro ⟨e | e, e2⟩
      · rw [e] at e2
        exact absurd (e2.symm.trans hm) hkk
      · exact ⟨e, e2⟩
    · rintro ⟨e, e2⟩; exact ⟨Or.inr e, e2⟩

theorem Effect.holds (hg : c.Good) (h0 : c.sch[0]? ≠ some .str) {t t' : Tbl} {R R' : Nat → Rows} {l l' : List Nat} {op : Op} (hi : Inv c t R l)
    {M : Int → Option (List Val)} (hl : LiveOK c t R l) (h : Holds c M (recsOf t R l)) (hk : op.Keyed c) (hm : op.Absent M)
    (e : Effect c t R l op t' R' l') : LiveOK c t' R' l' ∧ Holds c (specStep M op) (recsOf t' R' l') := by
  cases e with
  | ins hs ha => exact added_holds hl h hs ha (key16_eq hk) hm
  | del hx hn => exact deleted_holds hg h0 hi hl h hx hn
  | @upd key vs id os nd t1 R1 l1 id' os' t' hx hn hs ha =>
    obtain ⟨q1, q2⟩ := deleted_holds hg h0 hi hl h hx hn
    obtain ⟨q3, q4⟩ := added_holds q1 q2 hs ha (key16_eq hk) (by simp)
    refine ⟨q3, ?_⟩
    have hne : M key ≠ none := fun hc => by
      rw [(index_none hl h key).2 hc] at hx
      cases hx
    have : specStep M (.upd key vs) = fun j => if j = key then some vs else if j = key then none else M j := by
      funext j
      simp only [specStep, hne, ne_eq, not_false_eq_true, and_true]
      split <;> rfl
    rw [this]; exact q4
  | @delAbsent key hx =>
    refine ⟨hl, ?_⟩
    have hn := (index_none hl h key).1 hx
    have : specStep M (.del key) = M := by
      funext j
      simp only [specStep]
      split
      · rename_i e; rw [e, hn]
      · rfl
    rw [this]; exact h
  | @updAbsent key vs hx =>
    refine ⟨hl, ?_⟩
    have hn := (index_none hl h key).1 hx
    have : specStep M (.upd key vs) = M := by
      funext j
      simp [specStep, hn]
    rw [this]; exact h

theorem Hist.holds (hg : c.Good) (h0 : c.sch[0]? ≠ some .str) {t t' : Tbl} {R R' : Nat → Rows} {l l' : List Nat} {ops : List Op}
    (h : Hist c t R l ops t' R' l') : ∀ {M : Int → Option (List Val)}, LiveOK c t R l → Holds c M (recsOf t R l) → (∀ op ∈ ops, op.Keyed c) → Legal M ops →
    LiveOK c t' R' l' ∧ Holds c (ops.foldl specStep M) (recsOf t' R' l') := by
  induction h with
  | nil => intro M hl hh _ _; exact ⟨hl, hh⟩
  | cons hi he _ ih =>
    intro M hl hh hk hm
    obtain ⟨q1, q2⟩ := he.holds hg h0 hi hl hh (hk _ (List.mem_cons_self ..)) hm.1
    exact ih q1 q2 (fun o ho => hk o (List.mem_cons_of_mem _ ho)) hm.2

theorem run_holds (hg : c.Good) (h0 : c.sch[0]? ≠ some .str) {ops : List Op} (hr : ∀ op ∈ ops, ∀ vs ∈ op.recs, c.Rec vs)
    (hk : ∀ op ∈ ops, op.Keyed c) (hm : Legal (fun _ => none) ops) {f : Nat} {t0 t : Tbl} (hi : init c = .ok t0) (e : run c f t0 ops = .ok t) :
    ∃ R l, Inv c t R l ∧ LiveOK c t R l ∧ Holds c (specRun ops) (recsOf t R l) := by
  obtain ⟨t0', h0', hinv, hnone, hdel⟩ := inv_init hg
  rw [hi] at h0'
  cases h0'
  obtain ⟨R, l, hh, h⟩ := run_sound hg ops hinv hr e
  have hlive : live t0 (fun _ => []) [0] = [] := by
    simp [live, liveAt, liveFrom]
  have hd : delsAt t0 0 = [] := by
    unfold delsAt
    split
    · rename_i nd hn; exact hdel 0 nd hn
    · rfl
  obtain ⟨q1, q2⟩ := hh.holds hg h0 (M := fun _ => none) ⟨fun id hid => by
      have : id = 0 := by simpa using hid
      rw [this, hd]; simp, by rw [hlive]; simp, fun k hd => by rw [hnone, hlive]; simp⟩
    (fun k vs => by unfold recsOf; rw [hlive]; simp) hk hm
  exact ⟨R, l, h, q1, q2⟩

theorem liveFrom_length {dels : List Nat} (hn : dels.Nodup) : ∀ (rs : Rows) (p : Nat),
    (liveFrom dels p rs).length + dels.countP (fun d => decide (p ≤ d ∧ d < p + rs.length)) = rs.length
  | [], p => by
    have : dels.countP (fun d => decide (p ≤ d ∧ d < p + ([] : Rows).length)) = 0 := by
      rw [List.countP_eq_zero]
      intro d _ hc
      have := of_decide_eq_true hc
      simp at this
      omega
    rw [this]; rfl
  | r :: rs, p => by
    have ih := liveFrom_length hn rs (p + 1)
    have hsplit : ∀ ds : List Nat, ds.countP (fun d => decide (p ≤ d ∧ d < p + (r :: rs).length)) =
        ds.count p + ds.countP (fun d => decide (p + 1 ≤ d ∧ d < p + 1 + rs.length)) := by
      intro ds
      induction ds with
      | nil => rfl
      | cons d ds ihd =>
        rw [List.countP_cons, List.countP_cons, List.count_cons, ihd, List.length_cons]
        by_cases hd : d = p
        · subst hd
          simp
          omega
        · have : (decide (p ≤ d ∧ d < p + (rs.length + 1)) : Bool) = decide (p + 1 ≤ d ∧ d < p + 1 + rs.length) := by
            rw [decide_eq_decide]; omega
          rw [this]
          simp [hd]
          omega
    rw [hsplit, liveFrom]
    by_cases hp : p ∈ dels
    · rw [if_pos hp, List.count_eq_one_of_mem hn hp, List.length_cons]
      omega
    · rw [if_neg hp, List.count_eq_zero_of_not_mem hp, List.length_cons, List.length_cons]
      omega

theorem countFrom_ok {t : Tbl} {R : Nat → Rows} {l0 : List Nat} (h : Inv c t R l0) (hl : ∀ id ∈ l0, (delsAt t id).Nodup ∧ ∀ p ∈ delsAt t id, p < (R id).length) :
    ∀ (l : List Nat) (p : Option Nat) (f : Nat), Chain t.nodes p l → l.length ≤ f → (∀ id ∈ l, id ∈ l0) → countFrom t f p = .ok ((live t R l).length % 2 ^ 64)
  | [], p, f, hc, _, _ => by
    have hc : p = none := hc
    subst hc
    rw [countFrom]
    rfl
  | id :: l, p, 0, hc, hf, _ => by simp at hf
  | id :: l, p, f + 1, ⟨h1, nd, h2, h3⟩, hf, hmem => by
    subst h1
    have ok := h.ok id nd h2
    rw [countFrom, Tbl.get_ok h2, Res.ok_bind, ok.rep.count, Res.ok_bind,
      countFrom_ok h hl l nd.next f h3 (by simpa using hf) (fun i hi => hmem i (List.mem_cons_of_mem _ hi)), Res.ok_bind, Res.pure_eq]
    congr 1
    obtain ⟨q1, q2⟩ := hl id (hmem id (List.mem_cons_self ..))
    have hd : delsAt t id = nd.deleted := by unfold delsAt; rw [h2]
    have hlen := liveFrom_length q1 (R id).reverse 0
    have hall : (delsAt t id).countP (fun d => decide (0 ≤ d ∧ d < 0 + (R id).reverse.length)) = (delsAt t id).length := by
      rw [List.countP_eq_length]
      intro d hd
      have := q2 d hd
      rw [List.length_reverse]
      simpa using this
    rw [hall, List.length_reverse, hd] at hlen
    have hcons : (live t R (id :: l)).length = (liveFrom nd.deleted 0 (R id).reverse).length + (live t R l).length := by
      unfold live
      rw [List.flatMap_cons, List.length_append]
      congr 1
      unfold liveAt
      rw [List.length_map, hd]
    rw [hcons]
    have hsmall := ok.rep.small
    unfold sub64
    omega

/-- The full statement of C24. -/
def C24_statement : Prop :=
  ∀ (c : Cfg), c.Good → ∀ (ops : List Op), (∀ op ∈ ops, ∀ vs ∈ op.recs, c.Rec vs) → ∀ (f : Nat) (t0 t : Tbl), init c = .ok t0 → run c f t0 ops = .ok t →
    ∃ ks : List Int, ks.Nodup ∧ (∀ k, k ∈ ks ↔ ∃ h, getByKey t k = .ok h) ∧ tableCount t = .ok ks.length

theorem nodup_le {ks : List Int} (hn : ks.Nodup) {n : Nat} (h : ∀ k ∈ ks, 0 ≤ k ∧ k < n) : ks.length ≤ n := by
  have h1 : ks.map Int.toNat ⊆ List.range n := by
    intro a ha
    obtain ⟨k, hk, rfl⟩ := List.mem_map.1 ha
    have := h k hk
    exact List.mem_range.2 (by omega)
  have h2 : (ks.map Int.toNat).Nodup := by
    refine List.Nodup.map_on (fun a ha b hb e => ?_) hn
    have := h a ha
    have := h b hb
    omega
  have := (List.Nodup.subperm h2 h1).length_le
  simpa using this

/-- C24, restricted: if keys have 16 bits, are the key attributes of their records, and are inserted only while absent, and the
first column is not a string, then `count` is the number of keys that `getByKey` finds.  Missing: inserts of present keys, larger
keys, keys that differ from the key attribute, and string columns in front; see `C24_refuted`. -/
theorem C24_count_partial (hg : c.Good) (h0 : c.sch[0]? ≠ some .str) {ops : List Op} (hr : ∀ op ∈ ops, ∀ vs ∈ op.recs, c.Rec vs)
    (hk : ∀ op ∈ ops, op.Keyed c) (hm : Legal (fun _ => none) ops) {f : Nat} {t0 t : Tbl} (hi : init c = .ok t0) (e : run c f t0 ops = .ok t) :
    ∃ ks : List Int, ks.Nodup ∧ (∀ k, k ∈ ks ↔ ∃ h, getByKey t k = .ok h) ∧ tableCount t = .ok ks.length := by
  obtain ⟨R, l, hinv, hl, -⟩ := run_holds hg h0 hr hk hm hi e
  have hiff : ∀ k, k ∈ (live t R l).map (mkey c) ↔ ∃ h, getByKey t k = .ok h := by
    intro k
    constructor
    · intro hk
      obtain ⟨m, hm, e⟩ := List.mem_map.1 hk
      refine ⟨(m.1, m.2.2), ?_⟩
      unfold getByKey
      rw [(hl.idx k (m.1, m.2.2)).2 ⟨m, hm, e, rfl⟩]
    · rintro ⟨h, e⟩
      unfold getByKey at e
      cases hx : t.index k with
      | none => rw [hx] at e; cases e
      | some h' =>
        obtain ⟨m, hm, e1, -⟩ := (hl.idx k h').1 hx
        exact List.mem_map.2 ⟨m, hm, e1⟩
  refine ⟨(live t R l).map (mkey c), hl.nodup, hiff, ?_⟩
  have hle : ((live t R l).map (mkey c)).length ≤ 65536 := by
    refine nodup_le hl.nodup (fun k hk => ?_)
    obtain ⟨m, -, e⟩ := List.mem_map.1 hk
    rw [← e]
    unfold mkey key16
    split
    · omega
    · omega
  unfold tableCount
  rw [countFrom_ok hinv hl.pos l _ _ hinv.chain hinv.len (fun _ h => h), List.length_map]
  rw [List.length_map] at hle
  rw [Nat.mod_eq_of_lt (by omega)]

/-- The full statement of C59. -/
def C59_statement : Prop :=
  ∀ (c : Cfg), c.Good → ∀ (ops : List Op), (∀ op ∈ ops, ∀ vs ∈ op.recs, c.Rec vs) → Legal (fun _ => none) ops →
    ∀ (f : Nat) (t0 t : Tbl), init c = .ok t0 → run c f t0 ops = .ok t →
    ∀ k, match specRun ops k with
      | some vs => ∃ h, getByKey t k = .ok h ∧ readHandle c t h = .ok vs
      | none => getByKey t k = .throws

/-- C59, restricted as C24. -/
theorem C59_get_partial (hg : c.Good) (h0 : c.sch[0]? ≠ some .str) {ops : List Op} (hr : ∀ op ∈ ops, ∀ vs ∈ op.recs, c.Rec vs)
    (hk : ∀ op ∈ ops, op.Keyed c) (hm : Legal (fun _ => none) ops) {f : Nat} {t0 t : Tbl} (hi : init c = .ok t0) (e : run c f t0 ops = .ok t) (k : Int) :
    match specRun ops k with
    | some vs => ∃ h, getByKey t k = .ok h ∧ readHandle c t h = .ok vs
    | none => getByKey t k = .throws := by
  obtain ⟨R, l, hinv, hl, hh⟩ := run_holds hg h0 hr hk hm hi e
  cases hM : specRun ops k with
  | none =>
    dsimp only
    unfold getByKey
    rw [(index_none hl hh k).2 hM]
  | some vs =>
    dsimp only
    obtain ⟨q1, q2⟩ := (hh k vs).1 hM
    obtain ⟨m, hm, rfl⟩ := List.mem_map.1 q1
    refine ⟨(m.1, m.2.2), ?_, ?_⟩
    · unfold getByKey
      rw [(hl.idx k (m.1, m.2.2)).2 ⟨m, hm, q2, rfl⟩]
    · obtain ⟨j, hj, hmj⟩ := List.mem_flatMap.1 hm
      unfold liveAt at hmj
      obtain ⟨q, hq, rfl⟩ := List.mem_map.1 hmj
      have hmem : q.2 ∈ R j := by simpa using (liveFrom_mem hq).1
      obtain ⟨nd, hnd⟩ := hinv.chain.mem j hj
      unfold readHandle
      dsimp only
      rw [Tbl.get_ok hnd, Res.ok_bind, (hinv.ok j nd hnd).rep.create hmem]

/-! ## Counterexamples -/

theorem Splits.index_ne {t t' : Tbl} {R R' : Nat → Rows} {l l' : List Nat} (h : Splits c t R l t' R' l') {k : Int} (hk : t.index k ≠ none) :
    t'.index k ≠ none := by
  have hf : ∀ (mv : List Move) (ix : Int → Option Handle), ix k ≠ none → mv.foldl (moveIx c) ix k ≠ none := by
    intro mv
    induction mv with
    | nil => intro ix h; exact h
    | cons m mv ih =>
      intro ix h
      rw [List.foldl_cons]
      refine ih _ ?_
      unfold moveIx setIx
      split
      · simp
      · exact h
  induction h with
  | refl => exact hk
  | step _ _ _ hs _ _ ih =>
    refine ih ?_
    rw [hs.index]
    exact hf _ _ hk

/-- Keys of the index and of the records satisfy `P`. -/
def KeysIn (c : Cfg) (P : Int → Prop) (t : Tbl) (R : Nat → Rows) : Prop := (∀ id, ∀ r ∈ R id, P (key16 c r.1)) ∧ ∀ k, t.index k ≠ none → P k

theorem Splits.keysIn {P : Int → Prop} {t t' : Tbl} {R R' : Nat → Rows} {l l' : List Nat} (h : Splits c t R l t' R' l') (hk : KeysIn c P t R) :
    KeysIn c P t' R' := by
  induction h with
  | refl => exact hk
  | @step t R pre id post nd t1 sv mv nd1 nd2 t' R' l' hi hnd hne hs _ _ ih =>
    refine ih ?_
    obtain ⟨k1, k2⟩ := hk
    have hmv : ∀ m ∈ mv, P (key16 c m.2.1) := by
      intro m hm
      have : (m.1, m.2.1) ∈ mv.map (fun m => (m.1, m.2.1)) := List.mem_map.2 ⟨m, hm, rfl⟩
      rw [hs.moved] at this
      obtain ⟨q, hq, e⟩ := List.mem_map.1 this
      have e : q.2.1 = m.2.1 := (Prod.ext_iff.1 e).2
      rw [← e]
      exact k1 id q.2 (by simpa using (liveFrom_mem hq).1)
    have hrows : ∀ i, ∀ r ∈ rowsAfter i mv [], P (key16 c r.1) := by
      intro i r hr
      unfold rowsAfter at hr
      rw [List.append_nil, List.mem_reverse] at hr
      obtain ⟨m, hm, rfl⟩ := List.mem_map.1 hr
      exact hmv m (List.mem_filter.1 hm).1
    refine ⟨fun j r hr => ?_, fun k hk => ?_⟩
    · unfold rowsSplit at hr
      split at hr
      · exact hrows _ r hr
      · split at hr
        · exact hrows _ r hr
        · exact k1 j r hr
    · rw [hs.index] at hk
      have hf : ∀ (mv : List Move) (ix : Int → Option Handle), (∀ m ∈ mv, P (key16 c m.2.1)) → (∀ k, ix k ≠ none → P k) →
          ∀ k, mv.foldl (moveIx c) ix k ≠ none → P k := by
        intro mv
        induction mv with
        | nil => intro ix _ h; exact h
        | cons m mv ih =>
          intro ix h1 h2
          rw [List.foldl_cons]
          refine ih _ (fun m' hm' => h1 m' (List.mem_cons_of_mem _ hm')) (fun k hk => ?_)
          unfold moveIx setIx at hk
          split at hk
          · rename_i e; rw [e]; exact h1 m (List.mem_cons_self ..)
          · exact h2 k hk
      exact hf mv t.index hmv k2 k hk

theorem Added.keysIn {P : Int → Prop} {t t' : Tbl} {R : Nat → Rows} {l : List Nat} {key : Int} {vs : List Val} {id : Nat} {os : List Nat}
    (h : Added c t R l key vs id os t') (hk : KeysIn c P t R) (h1 : P key) (h2 : P (key16 c vs)) : KeysIn c P t' (addRow R id (vs, os)) := by
  obtain ⟨nd, nd', -, rfl, -, -⟩ := h.node
  refine ⟨fun j r hr => ?_, fun k hx => ?_⟩
  · unfold addRow at hr
    split at hr
    · rcases List.mem_cons.1 hr with rfl | hr
      · exact h2
      · exact hk.1 id r hr
    · exact hk.1 j r hr
  · have hx : (if k = key then some (id, os) else t.index k) ≠ none := hx
    split at hx
    · rename_i e; rw [e]; exact h1
    · exact hk.2 k hx

/-- A table of integers with four bins; the BDCC value is the number modulo 16. -/
def exTable : Cfg := ⟨[.int], 0, 4, fun vs => match vs with | .int x :: _ => x.toNat % 16 | _ => 0⟩

theorem exTable_good : exTable.Good := by
  refine ⟨by simp [exTable], pagesBigEnough_of_length (by simp [exTable]), rfl, by simp [exTable], fun vs => ?_⟩
  show (match vs with | .int x :: _ => x.toNat % 16 | _ => 0) < 2 ^ 4
  split <;> omega

theorem exTable_rec (x : BitVec 32) : exTable.Rec [.int x] := ⟨rfl, by simp [Val.plain]⟩

set_option maxRecDepth 10000 in
/-- C24 is false: inserting a key twice counts it twice. -/
theorem C24_refuted : ¬ C24_statement := by
  intro hs
  have hcnt : (init exTable >>= fun t => run exTable 5 t [.ins 1 [.int 1], .ins 1 [.int 1]] >>= tableCount) = .ok 2 := by decide +kernel
  obtain ⟨t0, h0, hc⟩ := Res.bind_eq_ok.1 hcnt
  obtain ⟨t, ht, hc⟩ := Res.bind_eq_ok.1 hc
  have hrec : ∀ op ∈ [Op.ins 1 [.int 1], Op.ins 1 [.int 1]], ∀ vs ∈ op.recs, exTable.Rec vs := by
    intro op hop vs hvs
    simp at hop
    rw [hop] at hvs
    simp [Op.recs] at hvs
    rw [hvs]; exact exTable_rec 1
  obtain ⟨ks, hn, hiff, hlen⟩ := hs exTable exTable_good _ hrec 5 t0 t h0 ht
  rw [hc] at hlen
  have hlen := Res.ok.inj hlen
  obtain ⟨t0', h0', hinv, hnone, -⟩ := inv_init exTable_good
  rw [h0] at h0'
  cases h0'
  obtain ⟨R, l, hh, -⟩ := run_sound exTable_good _ hinv hrec ht
  have hk0 : KeysIn exTable (fun k => k = 1) t0 (fun _ => []) := ⟨by simp, fun k hk => absurd (hnone k) hk⟩
  have hkeys : ∀ k, t.index k ≠ none → k = 1 := by
    cases hh with
    | cons _ he hh =>
      cases he with
      | ins hs1 ha1 =>
        have k1 := ha1.keysIn (hs1.keysIn hk0) rfl (by rfl)
        cases hh with
        | cons _ he hh =>
          cases he with
          | ins hs2 ha2 =>
            have k2 := ha2.keysIn (hs2.keysIn k1) rfl (by rfl)
            cases hh with
            | nil => exact k2.2
  have hall : ∀ k ∈ ks, k = 1 := by
    intro k hk
    obtain ⟨h, e⟩ := (hiff k).1 hk
    refine hkeys k (fun hc => ?_)
    unfold getByKey at e
    rw [hc] at e
    cases e
  match ks, hn, hall, hlen with
  | [a, b], hn, hall, _ =>
    have h1 := hall a (by simp)
    have h2 := hall b (by simp)
    rw [h1, h2] at hn
    simp at hn

/-- Integers and strings; the BDCC value is the number modulo 16. -/
def exText : Cfg := ⟨[.int, .str], 0, 4, fun vs => match vs with | .int x :: _ => x.toNat % 16 | _ => 0⟩

theorem exText_good : exText.Good := by
  refine ⟨by simp [exText], pagesBigEnough_of_length (by simp [exText]), rfl, by simp [exText], fun vs => ?_⟩
  show (match vs with | .int x :: _ => x.toNat % 16 | _ => 0) < 2 ^ 4
  split <;> omega

/-- A record with a string of `n` characters `a`. -/
def exRow (x : BitVec 32) (n : Nat) : List Val := [.int x, .str (List.replicate n 97)]

theorem exRow_rec (x : BitVec 32) (n : Nat) : exText.Rec (exRow x n) := ⟨rfl, by
  intro v hv
  simp only [exRow, List.mem_cons, List.not_mem_nil, or_false] at hv
  rcases hv with rfl | rfl
  · trivial
  · intro hc
    have := List.eq_of_mem_replicate hc
    exact absurd this (by decide)⟩

theorem exRow_use (x : BitVec 32) (n : Nat) : useOf 1 (exRow x n) = n + 3 := by
  show ((List.replicate n (97 : UInt8)).length + 1 + 2) = n + 3
  rw [List.length_replicate]

theorem exRow_accepted (x : BitVec 32) {n : Nat} (hn : n ≤ 26000) : exText.Accepted (exRow x n) := by
  refine accepted_of exText_good rfl ?_ (fun i hi => ?_)
  · show 4 + (8 + (List.replicate n (97 : UInt8)).length + 0) ≤ _
    rw [List.length_replicate]
    have : blockSize - header exText.sch.length - (exText.sch.map Ty.smaSize).sum = 32734 := by decide
    omega
  · have hi : i = 0 ∨ i = 1 := by
      have : exText.sch.length = 2 := rfl
      omega
    rcases hi with rfl | rfl
    · have h1 : useOf 0 (exRow x n) = 4 := rfl
      rw [h1]; decide
    · rw [exRow_use]
      have h1 : dataOf exText.sch 1 = 6575 := by decide
      have h2 : endOf exText.sch 1 = 32768 := by decide
      omega

/-- Splits of a table without records do nothing. -/
theorem Splits.empty {t t' : Tbl} {R R' : Nat → Rows} {l l' : List Nat} (h : Splits c t R l t' R' l') (he : ∀ id, R id = []) : t' = t ∧ R' = R ∧ l' = l := by
  cases h with
  | refl => exact ⟨rfl, rfl, rfl⟩
  | step _ _ hne _ _ _ => exact absurd (he _) hne

/-- C59 is false for keys with more than 16 bits: a split enters key 65537 as 1. -/
theorem C59_refuted : ¬ C59_statement := by
  intro hs
  have hrec : ∀ op ∈ [Op.ins 65537 (exRow 65537 14000), Op.ins 5 (exRow 5 14000)], ∀ vs ∈ op.recs, exText.Rec vs ∧ exText.Accepted vs := by
    intro op hop vs hvs
    simp only [List.mem_cons, List.not_mem_nil, or_false] at hop
    rcases hop with rfl | rfl
    · have hvs : vs = exRow 65537 14000 := by simpa [Op.recs] using hvs
      rw [hvs]; exact ⟨exRow_rec _ _, exRow_accepted _ (by omega)⟩
    · have hvs : vs = exRow 5 14000 := by simpa [Op.recs] using hvs
      rw [hvs]; exact ⟨exRow_rec _ _, exRow_accepted _ (by omega)⟩
  obtain ⟨t0, h0, hinv, hnone, hdel⟩ := inv_init exText_good
  obtain ⟨t, N, hrun⟩ := run_ok exText_good _ hinv hrec
  have hrun := hrun N (Nat.le_refl _)
  have hbad := hs exText exText_good _ (fun op ho vs hv => (hrec op ho vs hv).1)
    ⟨rfl, rfl, trivial⟩ N t0 t h0 hrun 1
  have hbad : getByKey t 1 = .throws := hbad
  have hidx : t.index 1 = none := by
    unfold getByKey at hbad
    cases hx : t.index 1 with
    | none => rfl
    | some h => rw [hx] at hbad; cases hbad
  refine absurd hidx ?_
  obtain ⟨R, l, hh, hfin⟩ := run_sound exText_good _ hinv (fun op ho vs hv => (hrec op ho vs hv).1) hrun
  cases hh with
  | cons _ he hh =>
    cases he with
    | @ins _ _ t1 R1 l1 id os t' hs1 ha1 =>
      obtain ⟨rfl, rfl, rfl⟩ := hs1.empty (fun _ => rfl)
      have hid : id = 0 := by simpa using ha1.mem
      subst hid
      cases hh with
      | cons hi1 he hh =>
        cases he with
        | @ins _ _ t2 R2 l2 id2 os2 t'' hs2 ha2 =>
          cases hh with
          | nil =>
            have hR0 : addRow (fun _ => []) 0 (exRow 65537 14000, os) 0 = [(exRow 65537 14000, os)] := by
              unfold addRow; rw [if_pos rfl]
            have hfinal : t2.index 1 ≠ none → t.index 1 ≠ none := by
              obtain ⟨nd, nd', -, rfl, -, -⟩ := ha2.node
              intro h
              show (if (1 : Int) = 5 then some (id2, os2) else t2.index 1) ≠ none
              rw [if_neg (by decide)]; exact h
            refine hfinal ?_
            generalize hl0 : [0] = l0 at hs2
            cases hs2 with
            | refl =>
              subst hl0
              have hid2 : id2 = 0 := by simpa using ha2.mem
              subst hid2
              obtain ⟨nd, nd', -, -, hok, -⟩ := ha2.node
              rw [hR0] at hok
              have := hok.rep.use_le hok.std (show 1 < exText.sch.length by decide)
              rw [List.map_cons, List.map_cons, use_cons, use_cons, exRow_use, exRow_use] at this
              have h1 : dataOf exText.sch 1 = 6575 := by decide
              have h2 : endOf exText.sch 1 = 32768 := by decide
              omega
            | @step _ _ pre j post nd ts sv mv nd1 nd2 _ _ _ hinvs hnds hnes hsp _ hrest =>
              refine hrest.index_ne ?_
              have hj : j = 0 := by
                have : j ∈ [0] := by rw [hl0]; simp
                simpa using this
              subst hj
              have hdels : nd.deleted = [] := by
                obtain ⟨nda, ndb, q1, q2, -, q4⟩ := ha1.node
                rw [q2] at hnds
                have hnds : (if (0 : Nat) = 0 then some ndb else t1.nodes 0) = some nd := hnds
                rw [if_pos rfl] at hnds
                cases hnds
                rw [q4.2.1]
                exact hdel 0 nda q1
              have hmv := hsp.moved
              rw [hR0, hdels] at hmv
              obtain ⟨m, rfl⟩ : ∃ m, mv = [m] := by
                have := congrArg List.length hmv
                rw [List.length_map, List.length_map] at this
                exact List.length_eq_one_iff.1 this
              have hm : m.2.1 = exRow 65537 14000 := by
                have := congrArg (List.map Prod.snd) hmv
                exact (List.cons.inj this).1
              rw [hsp.index]
              show setIx _ (key16 exText m.2.1) _ 1 ≠ none
              rw [hm]
              have : key16 exText (exRow 65537 14000) = 1 := rfl
              rw [this]
              unfold setIx
              rw [if_pos rfl]
              simp

/-- A record that does not fit into an empty block: `insert` splits the empty block, which divides by zero. -/
theorem C23_oversized (hg : c.Good) {vs : List Val} (hv : vs.map Val.ty = c.sch) {i : Nat} (hi : i < c.sch.length)
    (hu : endOf c.sch i < dataOf c.sch i + useOf i vs) (key : Int) : ∃ t0, init c = .ok t0 ∧ ∀ f, insert c f t0 key vs = .ub := by
  obtain ⟨t0, h0, h, -⟩ := inv_init hg
  refine ⟨t0, h0, fun f => ?_⟩
  cases f with
  | zero => rfl
  | succ f =>
    obtain ⟨id, nd, ns, hp, hid, hnd, hlo, hhi, hns⟩ := h.pick vs (hg.xtr vs)
    have heq := insert_eq h hv (f := f) (key := key) hp
    rw [entOf_id] at heq
    have hnsT : ns = true := by
      cases ns with
      | true => rfl
      | false =>
        have hf := ((h.ok id nd hnd).space hv).2 (hns rfl)
        have := ((h.ok id nd hnd).rep.fits_iff (h.ok id nd hnd).std hv).1 hf i hi
        rw [use_cons] at this
        omega
    have hcnt := (h.ok id nd hnd).rep.count
    have : splitBlock c t0 id = .ub := by
      unfold splitBlock
      rw [Tbl.get_ok hnd, Res.ok_bind, range_ok, Res.ok_bind, hcnt, Res.ok_bind]
      rfl
    rw [heq, if_pos hnsT, this]
    rfl

/-- A string of 27000 characters does not fit. -/
example (key : Int) : ∃ t0, init exText = .ok t0 ∧ ∀ f, insert exText f t0 key (exRow 1 27000) = .ub :=
  C23_oversized exText_good rfl (i := 1) (by decide) (by
    rw [exRow_use]
    have h1 : dataOf exText.sch 1 = 6575 := by decide
    have h2 : endOf exText.sch 1 = 32768 := by decide
    omega) key

/-- A history with a split that meets the hypotheses of C23, C24 and C59. -/
def exOps : List Op := [.ins 1 (exRow 1 14000), .ins 5 (exRow 5 14000), .upd 1 (exRow 1 20000), .del 5, .del 7]

theorem exOps_ok : (∀ op ∈ exOps, ∀ vs ∈ op.recs, exText.Rec vs ∧ exText.Accepted vs) ∧ (∀ op ∈ exOps, op.Keyed exText) ∧ Legal (fun _ => none) exOps := by
  refine ⟨fun op hop vs hvs => ?_, fun op hop => ?_, ⟨rfl, rfl, trivial, trivial, trivial, trivial⟩⟩
  · simp only [exOps, List.mem_cons, List.not_mem_nil, or_false] at hop
    have : ∃ x n, n ≤ 26000 ∧ vs = exRow x n := by
      rcases hop with rfl | rfl | rfl | rfl | rfl
      · exact ⟨1, 14000, by omega, by simpa [Op.recs] using hvs⟩
      · exact ⟨5, 14000, by omega, by simpa [Op.recs] using hvs⟩
      · exact ⟨1, 20000, by omega, by simpa [Op.recs] using hvs⟩
      · simp [Op.recs] at hvs
      · simp [Op.recs] at hvs
    obtain ⟨x, n, hn, rfl⟩ := this
    exact ⟨exRow_rec x n, exRow_accepted x hn⟩
  · simp only [exOps, List.mem_cons, List.not_mem_nil, or_false] at hop
    rcases hop with rfl | rfl | rfl | rfl | rfl
    · exact ⟨1, rfl, by decide, by decide, by decide⟩
    · exact ⟨5, rfl, by decide, by decide, by decide⟩
    · exact ⟨1, rfl, by decide, by decide, by decide⟩
    · trivial
    · trivial

example : ∃ t0 t N, init exText = .ok t0 ∧ ∀ f, N ≤ f → run exText f t0 exOps = .ok t := C23_insert_succeeds exText_good exOps_ok.1

example {f : Nat} {t0 t : Tbl} (h0 : init exText = .ok t0) (e : run exText f t0 exOps = .ok t) :
    ∃ h, getByKey t 1 = .ok h ∧ readHandle exText t h = .ok (exRow 1 20000) :=
  C59_get_partial exText_good (by decide) (fun op ho vs hv => (exOps_ok.1 op ho vs hv).1) exOps_ok.2.1 exOps_ok.2.2 h0 e 1

end Verif.PTable
