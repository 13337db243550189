import Verif.PTable.CrashUse
import Verif.PTable.CrashProps
import Verif.PTable.TableProps

/-!
# Crashes inside `insert` and `updateComplete` of a table

`insertTuple` runs outside of a transaction; `splitBlock` and the changes of `deleteByKey` run inside of one and either happen or do not.
The insert into the index is one step here.
-/

namespace Verif.PTable

/-! ## Model -/

section
variable (c : Cfg)

/-- PTable.hpp:834-963: `insertTuple` interrupted behind `q` steps: the stores into the block, then the insert into the index (line 945),
then `bdccSum` (line 950). -/
def insertTupleAt (t : Tbl) (key : Int) (vs : List Val) (id q : Nat) : Res Tbl := do
  let nd ← t.get id
  let r ← insertBlkW c.sch.length vs nd.blk
  let b ← stores nd.blk (r.1.take q)
  let t := t.put id { nd with blk := b, sum := if r.1.length + 2 ≤ q then nd.sum + c.xtr vs else nd.sum }
  pure { t with index := if r.1.length + 1 ≤ q then setIx t.index key (some (id, r.2)) else t.index }

/-- PTable.hpp:345-396: `insert` interrupted behind `q` steps; a split is one step (its transaction). -/
def insertAt : Nat → Tbl → Int → List Val → Nat → Res Tbl
  | 0, _, _, _, _ => .ub
  | f + 1, t, key, vs, q => do
    let tg ← findTarget t (c.xtr vs) t.fresh (some t.head)
    match tg with
    | none => .ub
    | some id => do
      let r ← findInsertNodeOrSplit c t vs id
      if r.2 then
        match q with
        | 0 => .ok t
        | q + 1 => do
          let t ← splitBlock c t r.1
          insertAt f t key vs q
      else insertTupleAt c t key vs r.1 q

/-- A call interrupted behind `q` steps.  PTable.hpp:450-482: the changes of `deleteByKey` are one step (its transaction); 431-437
`updateComplete`. -/
def opAt (f : Nat) (t : Tbl) : Op → Nat → Res Tbl
  | .ins k vs, q => insertAt c f t k vs q
  | .del _, 0 => .ok t
  | .del k, _ + 1 => deleteByKey c t k
  | .upd _ _, 0 => .ok t
  | .upd k vs, q + 1 => do
    let t ← deleteByKey c t k
    insertAt c f t k vs q

/-- A call, or a call interrupted by a crash behind `q` steps. -/
inductive TEv
  | call (op : Op)
  | crash (op : Op) (q : Nat)

/-- The table after an event; a call that throws changes nothing. -/
def evStep (f : Nat) (t : Tbl) : TEv → Res Tbl
  | .call op => after c f t op
  | .crash op q =>
    match opAt c f t op q with
    | .throws => .ok t
    | r => r

/-- A history of calls and crashes. -/
def thist (f : Nat) : Tbl → List TEv → Res Tbl
  | t, [] => .ok t
  | t, e :: es => do
    let t ← evStep c f t e
    thist f t es

end

variable {c : Cfg}

/-! ## Nodes after crashes -/

/-- Free space of a new block. -/
def free0 (c : Cfg) : Nat := blockSize - header c.sch.length - (c.sch.map Ty.smaSize).sum

/-- A node stores the records `rows`; its BDCC sum is arbitrary.  `S`: the records that may occur. -/
structure NodeW (c : Cfg) (S : List Val → Prop) (nd : Node) (rows : Rows) : Prop where
  rep : RepW c.sch nd.blk rows
  std : Std c.sch nd.blk
  recs : ∀ r ∈ rows, c.Rec r.1 ∧ S r.1
  empty : rows = [] → rd nd.blk 12 2 = .ok (free0 c)

theorem NodeW.congr {S : List Val → Prop} {nd nd' : Node} {rows : Rows} (h : NodeW c S nd rows) (hb : nd'.blk = nd.blk) : NodeW c S nd' rows := by
  obtain ⟨b, n, d, s⟩ := nd
  obtain ⟨b', n', d', s'⟩ := nd'
  cases hb
  exact ⟨h.1, h.2, h.3, h.4⟩

theorem NodeOK.weak {S : List Val → Prop} (hg : c.Good) {nd : Node} {rows : Rows} (h : NodeOK c nd rows) (hS : ∀ r ∈ rows, S r.1) : NodeW c S nd rows := by
  refine ⟨h.rep.weak.1, h.std, fun r hr => ⟨h.recs r hr, hS r hr⟩, fun he => ?_⟩
  obtain ⟨lo, hi, h1, h2, e⟩ := h.empty he
  obtain ⟨b, e', -, -, -, -, hf, -⟩ := initBlock_ok hg.pages h1 h2
  rw [e] at e'
  cases e'
  exact hf

/-- The links and the range of a node are the same. -/
def SameW (nd nd' : Node) : Prop := nd'.next = nd.next ∧ nd'.deleted = nd.deleted ∧ loOf nd'.blk = loOf nd.blk ∧ hiOf nd'.blk = hiOf nd.blk

theorem SameW.refl (nd : Node) : SameW nd nd := ⟨rfl, rfl, rfl, rfl⟩

theorem SameW.trans {a b d : Node} (h : SameW a b) (g : SameW b d) : SameW a d :=
  ⟨g.1.trans h.1, g.2.1.trans h.2.1, g.2.2.1.trans h.2.2.1, g.2.2.2.trans h.2.2.2⟩

/-- `insertTuple` and all its crash states; `L` stores into the block. -/
theorem insertTupleAt_ok {S : List Val → Prop} (hg : c.Good) {t : Tbl} {id : Nat} {nd : Node} {rows : Rows} (hnd : t.nodes id = some nd) (h : NodeW c S nd rows)
    {vs : List Val} (hv : c.Rec vs) (hS : S vs) (hf : Fits c.sch nd.blk rows vs) (key : Int) :
    ∃ os L, 2 ≤ L ∧ ∀ q, ∃ nd', insertTupleAt c t key vs id q =
        .ok { t.put id nd' with index := if L + 1 ≤ q then setIx t.index key (some (id, os)) else t.index } ∧
      NodeW c S nd' (if q + 2 ≤ L then rows else (vs, os) :: rows) ∧ SameW nd nd' ∧
      (L + 2 ≤ q → insertTuple c t key vs id = insertTupleAt c t key vs id q ∧ nd'.sum = nd.sum + c.xtr vs) := by
  obtain ⟨ws, b', os, e1, e2, f, hlen, hq⟩ := insertBlkW_ok hg.ne h.rep hv.typed hv.plain hf
  refine ⟨os, ws.length, hlen, fun q => ?_⟩
  obtain ⟨b'', g1, ⟨g2, g5⟩, g3, g4⟩ := hq q
  have hsplit : ∀ c : Blk, bytes c 0 8 = bytes c 0 4 ++ bytes c 4 4 := fun c => bytes_append c 4 4 0
  rw [hsplit, hsplit] at g2
  obtain ⟨h0, h4⟩ := List.append_inj g2 (by simp)
  have elo : loOf b'' = loOf nd.blk := by unfold loOf; rw [h0]
  have ehi : hiOf b'' = hiOf nd.blk := by unfold hiOf; rw [h4]
  have eq : insertTupleAt c t key vs id q = .ok { t.put id { nd with blk := b'', sum := if ws.length + 2 ≤ q then nd.sum + c.xtr vs else nd.sum } with
      index := if ws.length + 1 ≤ q then setIx t.index key (some (id, os)) else t.index } := by
    unfold insertTupleAt
    rw [Tbl.get_ok hnd, Res.ok_bind, e1, Res.ok_bind]
    dsimp only
    rw [g1, Res.ok_bind]
    rfl
  have hstd : Std c.sch b'' := by
    intro i hi
    obtain ⟨q1, q2⟩ := g3 i hi
    obtain ⟨q3, q4⟩ := h.std i hi
    exact ⟨q1.trans q3, q2.trans q4⟩
  refine ⟨_, eq, ?_, ⟨rfl, rfl, elo, ehi⟩, fun hL => ⟨?_, if_pos hL⟩⟩
  · by_cases hc : q + 2 ≤ ws.length
    · rw [if_pos hc] at g4 ⊢
      refine ⟨g4.1, hstd, h.recs, fun he => ?_⟩
      have hb : blockSize = 32768 := rfl
      have := h.empty he
      rw [rd_ok (by omega)] at this
      show rd b'' 12 2 = _
      rw [rd_ok (by omega), g5 hc]
      exact this
    · rw [if_neg hc] at g4 ⊢
      refine ⟨g4.1, hstd, fun r hr => ?_, fun he => by cases he⟩
      rcases List.mem_cons.1 hr with rfl | hr
      · exact ⟨hv, hS⟩
      · exact h.recs r hr
  · rw [eq]
    rw [stores_all f (by omega)] at g1
    cases g1
    unfold insertTuple
    rw [Tbl.get_ok hnd, Res.ok_bind, e2, Res.ok_bind, if_pos hL, if_pos (by omega)]
    rfl

theorem insertTupleW_ok {S : List Val → Prop} (hg : c.Good) {t : Tbl} {id : Nat} {nd : Node} {rows : Rows} (hnd : t.nodes id = some nd) (h : NodeW c S nd rows)
    {vs : List Val} (hv : c.Rec vs) (hS : S vs) (hf : Fits c.sch nd.blk rows vs) (key : Int) :
    ∃ nd' os, insertTuple c t key vs id = .ok { t.put id nd' with index := setIx t.index key (some (id, os)) } ∧
      NodeW c S nd' ((vs, os) :: rows) ∧ SameW nd nd' ∧ nd'.sum = nd.sum + c.xtr vs := by
  obtain ⟨os, L, hL, hq⟩ := insertTupleAt_ok hg hnd h hv hS hf key
  obtain ⟨nd', e, hn, hs, he⟩ := hq (L + 2)
  rw [if_neg (by omega)] at hn
  rw [if_pos (by omega)] at e
  exact ⟨nd', os, (he (Nat.le_refl _)).1.trans e, hn, hs, (he (Nat.le_refl _)).2⟩

theorem enc_mod : ∀ (n x : Nat), enc n (x % 256 ^ n) = enc n x
  | 0, _ => rfl
  | n + 1, x => by
    have h1 : x % 256 ^ (n + 1) / 256 = x / 256 % 256 ^ n := by
      rw [Nat.pow_succ, Nat.mul_comm, Nat.mod_mul_right_div_self]
    have h2 : UInt8.ofNat (x % 256 ^ (n + 1)) = UInt8.ofNat x := by
      apply UInt8.toNat_inj.1
      rw [UInt8.toNat_ofNat', UInt8.toNat_ofNat', Nat.pow_succ, Nat.mul_comm]
      exact Nat.mod_mul_right_mod ..
    rw [enc, enc, h1, enc_mod n, h2]

theorem nodeW_new {S : List Val → Prop} (hg : c.Good) (lo hi : Nat) : ∃ b, initBlock c.sch lo hi = .ok b ∧
    (loOf b = lo % 2 ^ 32 ∧ hiOf b = hi % 2 ^ 32) ∧ ∀ nx, NodeW c S ⟨b, nx, [], 0⟩ [] := by
  have hm : initBlock c.sch lo hi = initBlock c.sch (lo % 2 ^ 32) (hi % 2 ^ 32) := by
    unfold initBlock
    rw [show (2 : Nat) ^ 32 = 256 ^ 4 from rfl, enc_mod, enc_mod]
  obtain ⟨b, e, h1, h2, h3, h4⟩ := initBlock_std hg.pages (lo := lo % 2 ^ 32) (hi := hi % 2 ^ 32) (Nat.mod_lt _ (by decide)) (Nat.mod_lt _ (by decide))
  obtain ⟨b', e', -, -, -, -, hf, -⟩ := initBlock_ok hg.pages (lo := lo % 2 ^ 32) (hi := hi % 2 ^ 32) (Nat.mod_lt _ (by decide)) (Nat.mod_lt _ (by decide))
  rw [e] at e'
  cases e'
  refine ⟨b, hm.trans e, ⟨?_, ?_⟩, fun nx => ⟨h1.weak.1, h2, by simp, fun _ => hf⟩⟩
  · unfold loOf; rw [h3]; exact dec_enc_lt (Nat.mod_lt _ (by decide))
  · unfold hiOf; rw [h4]; exact dec_enc_lt (Nat.mod_lt _ (by decide))

theorem loOf_lt (b : Blk) : loOf b < 2 ^ 32 := by
  have := dec_lt (bytes b 0 4)
  rw [bytes_length] at this
  exact this

/-! ## The invariant of a table after crashes, and splits -/

structure TInv (c : Cfg) (S : List Val → Prop) (t : Tbl) (R : Nat → Rows) (l : List Nat) : Prop where
  chain : Chain t.nodes (some t.head) l
  nodup : l.Nodup
  lt : ∀ id nd, t.nodes id = some nd → id < t.fresh
  ok : ∀ id nd, t.nodes id = some nd → NodeW c S nd (R id)
  idx : ∀ k id os, t.index k = some (id, os) → ∃ nd vs, t.nodes id = some nd ∧ (vs, os) ∈ R id
  cover : ∀ x, x < 2 ^ c.bins → ∃ id ∈ l, ∃ nd, t.nodes id = some nd ∧ loOf nd.blk ≤ x ∧ x ≤ hiOf nd.blk

theorem TInv.len {S : List Val → Prop} {t : Tbl} {R : Nat → Rows} {l : List Nat} (h : TInv c S t R l) : l.length ≤ t.fresh := by
  have hs : l ⊆ List.range t.fresh := by
    intro id hid
    obtain ⟨nd, hnd⟩ := h.chain.mem id hid
    exact List.mem_range.2 (h.lt id nd hnd)
  have := (List.Nodup.subperm h.nodup hs).length_le
  simpa using this

/-- DataNode.hpp:99-105: the value at which a node with `n` records is split. -/
def svOf (nd : Node) (n : Nat) : Nat := (nd.sum / n) % 2 ^ 32

/-- What a split does. -/
structure SplitW (c : Cfg) (t : Tbl) (R : Nat → Rows) (id : Nat) (nd : Node) (t' : Tbl) (mv : List Move) (nd1 nd2 : Node) : Prop where
  moved : mv.map (fun m => m.2.1) = (liveFrom nd.deleted 0 (R id).reverse).map (fun q => q.2.1)
  two : ∀ m ∈ mv, m.1 = t.fresh ∨ m.1 = t.fresh + 1
  index : t'.index = mv.foldl (moveIx c) t.index
  fresh : t'.fresh = t.fresh + 2
  node1 : t'.nodes t.fresh = some nd1
  node2 : t'.nodes (t.fresh + 1) = some nd2
  dels : nd1.deleted = [] ∧ nd2.deleted = []
  old : ∀ j n, t.nodes j = some n → ∃ n', t'.nodes j = some n' ∧ n'.blk = n.blk ∧ n'.deleted = n.deleted
  new : ∀ j n', t'.nodes j = some n' → j = t.fresh ∨ j = t.fresh + 1 ∨ ∃ n, t.nodes j = some n
  oldsum : ∀ j n n', t.nodes j = some n → t'.nodes j = some n' → n'.sum = n.sum
  tgts : mv.map (fun m => (m.1, m.2.1)) = (liveFrom nd.deleted 0 (R id).reverse).map
    (fun q => (tgt c (R id).length (svOf nd (R id).length) (hiOf nd.blk) t.fresh (t.fresh + 1) q.1 q.2.1, q.2.1))
  rng1 : loOf nd1.blk = loOf nd.blk ∧ hiOf nd1.blk = svOf nd (R id).length
  rng2 : loOf nd2.blk = (if svOf nd (R id).length = hiOf nd.blk then hiOf nd.blk else (svOf nd (R id).length + 1) % 2 ^ 32) ∧ hiOf nd2.blk = hiOf nd.blk
  sums : nd1.sum = xsum c (rowsAfter t.fresh mv []) ∧ nd2.sum = xsum c (rowsAfter (t.fresh + 1) mv [])

theorem splitLoopW_ok {S : List Val → Prop} (hg : c.Good) {b : Blk} {R0 : Rows} (hb : RepW c.sch b R0) {dels : List Nat} {cnt sv hi i1 i2 : Nat} (hne : i1 ≠ i2)
    (hrec : ∀ r ∈ R0, c.Rec r.1 ∧ S r.1) :
    ∀ (rs : Rows) (pos : Nat) (t : Tbl) (nd1 nd2 : Node) (rows1 rows2 : Rows), (∀ k : Nat, R0.reverse[pos + k]? = rs[k]?) →
    t.nodes i1 = some nd1 → t.nodes i2 = some nd2 → NodeW c S nd1 rows1 → NodeW c S nd2 rows2 →
    (∀ i, i < c.sch.length → dataOf c.sch i + use i (rows1.map Prod.fst) + use i (rs.map Prod.fst) ≤ endOf c.sch i ∧
      dataOf c.sch i + use i (rows2.map Prod.fst) + use i (rs.map Prod.fst) ≤ endOf c.sch i) →
    ∃ (mv : List Move) (nd1' nd2' : Node),
      splitLoop c b dels cnt sv hi i1 i2 rs.length pos t =
        .ok { t with nodes := put2 t i1 i2 nd1' nd2', index := mv.foldl (moveIx c) t.index } ∧
      mv.map (fun m => (m.1, m.2.1)) = (liveFrom dels pos rs).map (fun q => (tgt c cnt sv hi i1 i2 q.1 q.2.1, q.2.1)) ∧
      NodeW c S nd1' (rowsAfter i1 mv rows1) ∧ NodeW c S nd2' (rowsAfter i2 mv rows2) ∧ SameW nd1 nd1' ∧ SameW nd2 nd2' ∧
      nd1'.sum + xsum c rows1 = nd1.sum + xsum c (rowsAfter i1 mv rows1) ∧ nd2'.sum + xsum c rows2 = nd2.sum + xsum c (rowsAfter i2 mv rows2)
  | [], pos, t, nd1, nd2, rows1, rows2, _, h1, h2, g1, g2, _ => by
    refine ⟨[], nd1, nd2, ?_, rfl, g1, g2, SameW.refl _, SameW.refl _, rfl, rfl⟩
    have : put2 t i1 i2 nd1 nd2 = t.nodes := by
      funext j
      unfold put2
      split
      · rename_i h; rw [h, h2]
      · split
        · rename_i h; rw [h, h1]
        · rfl
    rw [this]; rfl
  | r :: rs, pos, t, nd1, nd2, rows1, rows2, hrs, h1, h2, g1, g2, hsp => by
    have hrs' : ∀ k : Nat, R0.reverse[pos + 1 + k]? = rs[k]? := fun k => by
      have := hrs (k + 1)
      rw [show pos + (k + 1) = pos + 1 + k by omega] at this
      rw [this]; rfl
    have hr0 : R0.reverse[pos]? = some r := by simpa using hrs 0
    have hmem : r ∈ R0 := by simpa using List.mem_of_getElem? hr0
    have huse : ∀ i, use i ((r :: rs).map Prod.fst) = useOf i r.1 + use i (rs.map Prod.fst) := fun i => use_cons i _ _
    rw [List.length_cons, splitLoop]
    by_cases hd : pos ∈ dels
    · rw [if_pos hd]
      have hl : liveFrom dels pos (r :: rs) = liveFrom dels (pos + 1) rs := by rw [liveFrom, if_pos hd]
      rw [hl]
      exact splitLoopW_ok hg hb hne hrec rs (pos + 1) t nd1 nd2 rows1 rows2 hrs' h1 h2 g1 g2 (fun i hi => by
        have := hsp i hi
        rw [huse] at this
        omega)
    · have hl : liveFrom dels pos (r :: rs) = (pos, r) :: liveFrom dels (pos + 1) rs := by rw [liveFrom, if_neg hd]
      rw [hl]
      obtain ⟨x, hx, hk⟩ := hb.key hg.key hr0
      have hk16 : key16 c r.1 = ((x.toNat % 65536 : Nat) : Int) := by unfold key16; rw [hx]
      rw [if_neg hd, hb.offsets hr0, Res.ok_bind, hk, Res.ok_bind]
      dsimp only
      rw [hb.create hmem, Res.ok_bind, ← hk16]
      have hv := hrec r hmem
      have hft : ∀ {nd : Node} {rows : Rows}, NodeW c S nd rows → (∀ i, i < c.sch.length →
          dataOf c.sch i + use i (rows.map Prod.fst) + use i ((r :: rs).map Prod.fst) ≤ endOf c.sch i) → Fits c.sch nd.blk rows r.1 := by
        intro nd rows g hs
        refine (g.rep.fits_iff g.std hv.1.typed).2 (fun i hi => ?_)
        have := hs i hi
        rw [huse] at this
        rw [use_cons]
        omega
      show ∃ (mv : List Move) (nd1' nd2' : Node), (insertTuple c { t with index := setIx t.index (key16 c r.1) none } (key16 c r.1) r.1
        (tgt c cnt sv hi i1 i2 pos r.1) >>= fun t => splitLoop c b dels cnt sv hi i1 i2 rs.length (pos + 1) t) = _ ∧ _
      rcases tgt_or c cnt sv hi i1 i2 pos r.1 with ht | ht
      · obtain ⟨nd1a, os, e, ga, sa, ua⟩ := insertTupleW_ok hg (t := { t with index := setIx t.index (key16 c r.1) none }) h1 g1 hv.1 hv.2
          (hft g1 fun i hi => (hsp i hi).1) (key16 c r.1)
        rw [ht, e, Res.ok_bind]
        obtain ⟨mv, nd1', nd2', e', hm, k1, k2, s1, s2, u1, u2⟩ := splitLoopW_ok hg hb hne hrec rs (pos + 1)
          { ({ t with index := setIx t.index (key16 c r.1) none } : Tbl).put i1 nd1a with index := setIx (setIx t.index (key16 c r.1) none) (key16 c r.1) (some (i1, os)) }
          nd1a nd2 ((r.1, os) :: rows1) rows2 hrs'
          (show (({ t with index := setIx t.index (key16 c r.1) none } : Tbl).put i1 nd1a).nodes i1 = some nd1a by simp [Tbl.put])
          (show (({ t with index := setIx t.index (key16 c r.1) none } : Tbl).put i1 nd1a).nodes i2 = some nd2 by simp [Tbl.put, hne.symm, h2])
          ga g2
          (fun i hi => by
            have := hsp i hi
            rw [huse] at this
            rw [List.map_cons, use_cons]
            dsimp only
            omega)
        refine ⟨(i1, r.1, os) :: mv, nd1', nd2', ?_, ?_, ?_, ?_, sa.trans s1, s2, ?_, ?_⟩
        · refine Eq.trans e' ?_
          congr 1
          show Tbl.mk _ _ _ _ = Tbl.mk _ _ _ _
          congr 1
          · funext j
            simp only [put2, Tbl.put]
            split
            · rfl
            · split <;> simp_all
          · show mv.foldl (moveIx c) (setIx (setIx t.index _ none) _ _) = mv.foldl (moveIx c) (moveIx c t.index (i1, r.1, os))
            rw [setIx_twice]; rfl
        · rw [List.map_cons, List.map_cons, hm, ht]
        · rw [rowsAfter_cons_self]; exact k1
        · rw [rowsAfter_cons_ne hne]; exact k2
        · rw [rowsAfter_cons_self]
          have e : xsum c ((r.1, os) :: rows1) = c.xtr r.1 + xsum c rows1 := by simp [xsum]
          rw [e] at u1
          omega
        · rw [rowsAfter_cons_ne hne]; exact u2
      · obtain ⟨nd2a, os, e, ga, sa, ua⟩ := insertTupleW_ok hg (t := { t with index := setIx t.index (key16 c r.1) none }) h2 g2 hv.1 hv.2
          (hft g2 fun i hi => (hsp i hi).2) (key16 c r.1)
        rw [ht, e, Res.ok_bind]
        obtain ⟨mv, nd1', nd2', e', hm, k1, k2, s1, s2, u1, u2⟩ := splitLoopW_ok hg hb hne hrec rs (pos + 1)
          { ({ t with index := setIx t.index (key16 c r.1) none } : Tbl).put i2 nd2a with index := setIx (setIx t.index (key16 c r.1) none) (key16 c r.1) (some (i2, os)) }
          nd1 nd2a rows1 ((r.1, os) :: rows2) hrs'
          (show (({ t with index := setIx t.index (key16 c r.1) none } : Tbl).put i2 nd2a).nodes i1 = some nd1 by simp [Tbl.put, hne, h1])
          (show (({ t with index := setIx t.index (key16 c r.1) none } : Tbl).put i2 nd2a).nodes i2 = some nd2a by simp [Tbl.put])
          g1 ga
          (fun i hi => by
            have := hsp i hi
            rw [huse] at this
            rw [List.map_cons, use_cons]
            dsimp only
            omega)
        refine ⟨(i2, r.1, os) :: mv, nd1', nd2', ?_, ?_, ?_, ?_, s1, sa.trans s2, ?_, ?_⟩
        · refine Eq.trans e' ?_
          congr 1
          show Tbl.mk _ _ _ _ = Tbl.mk _ _ _ _
          congr 1
          · funext j
            simp only [put2, Tbl.put]
            split
            · rfl
            · rfl
          · show mv.foldl (moveIx c) (setIx (setIx t.index _ none) _ _) = mv.foldl (moveIx c) (moveIx c t.index (i2, r.1, os))
            rw [setIx_twice]; rfl
        · rw [List.map_cons, List.map_cons, hm, ht]
        · rw [rowsAfter_cons_ne (Ne.symm hne)]; exact k1
        · rw [rowsAfter_cons_self]; exact k2
        · rw [rowsAfter_cons_ne (Ne.symm hne)]; exact u1
        · rw [rowsAfter_cons_self]
          have e : xsum c ((r.1, os) :: rows2) = c.xtr r.1 + xsum c rows2 := by simp [xsum]
          rw [e] at u2
          omega

theorem splitBlockW_ok {S : List Val → Prop} (hg : c.Good) {t : Tbl} {R : Nat → Rows} {pre post : List Nat} {id : Nat} (h : TInv c S t R (pre ++ id :: post)) {nd : Node}
    (hnd : t.nodes id = some nd) (hne : R id ≠ []) :
    ∃ t' mv nd1 nd2, splitBlock c t id = .ok t' ∧ SplitW c t R id nd t' mv nd1 nd2 ∧
      TInv c S t' (rowsSplit R t.fresh (t.fresh + 1) mv) (pre ++ t.fresh :: (t.fresh + 1) :: post) := by
  have ok := h.ok id nd hnd
  have hlen : 0 < (R id).length := List.length_pos_iff.2 hne
  have hlen2 := ok.rep.length_le hg.ne
  have hsv0 : (nd.sum / (R id).length) % 2 ^ 32 = svOf nd (R id).length := rfl
  have hsvlt : svOf nd (R id).length < 2 ^ 32 := Nat.mod_lt _ (by decide)
  generalize hsv' : svOf nd (R id).length = sv at hsv0 hsvlt
  have hsv := hsv0
  have hhilt := hiOf_lt nd.blk
  have hlolt := loOf_lt nd.blk
  have hid := h.lt id nd hnd
  obtain ⟨b1, e1, ⟨a1, a2⟩, n1⟩ := nodeW_new (S := S) hg (loOf nd.blk) sv
  obtain ⟨b2, e2, ⟨a3, a4⟩, n2⟩ : ∃ b, (if sv = hiOf nd.blk then initBlock c.sch (hiOf nd.blk) (hiOf nd.blk) else initBlock c.sch (sv + 1) (hiOf nd.blk)) = .ok b ∧
      (loOf b = (if sv = hiOf nd.blk then hiOf nd.blk else (sv + 1) % 2 ^ 32) ∧ hiOf b = hiOf nd.blk) ∧ ∀ nx, NodeW c S ⟨b, nx, [], 0⟩ [] := by
    by_cases hc : sv = hiOf nd.blk
    · rw [if_pos hc, if_pos hc]
      obtain ⟨b, q1, ⟨q2, q3⟩, q4⟩ := nodeW_new (S := S) hg (hiOf nd.blk) (hiOf nd.blk)
      exact ⟨b, q1, ⟨q2.trans (Nat.mod_eq_of_lt hhilt), q3.trans (Nat.mod_eq_of_lt hhilt)⟩, q4⟩
    · rw [if_neg hc, if_neg hc]
      obtain ⟨b, q1, ⟨q2, q3⟩, q4⟩ := nodeW_new (S := S) hg (sv + 1) (hiOf nd.blk)
      exact ⟨b, q1, ⟨q2, q3.trans (Nat.mod_eq_of_lt hhilt)⟩, q4⟩
  rw [Nat.mod_eq_of_lt hlolt] at a1
  rw [Nat.mod_eq_of_lt hsvlt] at a2
  generalize ht0 : (({ t with fresh := t.fresh + 2 } : Tbl).put t.fresh ⟨b1, none, [], 0⟩).put (t.fresh + 1) ⟨b2, none, [], 0⟩ = t0
  have f0 : t0.fresh = t.fresh + 2 := by rw [← ht0]; rfl
  have hd0 : t0.head = t.head := by rw [← ht0]; rfl
  have x0 : t0.index = t.index := by rw [← ht0]; rfl
  have m0 : ∀ j, t0.nodes j = if j = t.fresh + 1 then some ⟨b2, none, [], 0⟩ else if j = t.fresh then some ⟨b1, none, [], 0⟩ else t.nodes j := by
    intro j; rw [← ht0]; rfl
  obtain ⟨mv, nd1, nd2, eL, hmv, k1, k2, s1, s2, u1, u2⟩ := splitLoopW_ok (S := S) (dels := nd.deleted) (cnt := (R id).length) (sv := sv) (hi := hiOf nd.blk)
    hg ok.rep (show t.fresh ≠ t.fresh + 1 by omega) ok.recs (R id).reverse 0 t0
    ⟨b1, none, [], 0⟩ ⟨b2, none, [], 0⟩ [] [] (fun k => by rw [Nat.zero_add]) (by rw [m0]; simp) (by rw [m0]; simp) (n1 _) (n2 _)
    (fun i hi => by
      have := ok.rep.use_le ok.std hi
      have e : use i ((R id).reverse.map Prod.fst) = use i ((R id).map Prod.fst) := use_perm ((List.reverse_perm _).map _)
      have z : use i (List.map Prod.fst ([] : Rows)) = 0 := rfl
      rw [e, z]
      omega)
  rw [List.length_reverse] at eL
  generalize ht1 : ({ t0 with nodes := put2 t0 t.fresh (t.fresh + 1) nd1 nd2, index := mv.foldl (moveIx c) t0.index } : Tbl) = t1 at eL
  have f1 : t1.fresh = t.fresh + 2 := by rw [← ht1]; exact f0
  have hd1 : t1.head = t.head := by rw [← ht1]; exact hd0
  have x1 : t1.index = mv.foldl (moveIx c) t.index := by rw [← ht1, ← x0]
  have m1 : ∀ j, t1.nodes j = if j = t.fresh + 1 then some nd2 else if j = t.fresh then some nd1 else t.nodes j := by
    intro j
    rw [← ht1]
    show put2 t0 _ _ _ _ j = _
    unfold put2
    rw [m0]
    split
    · rfl
    · split <;> rfl
  have m1' : ∀ j n, t.nodes j = some n → t1.nodes j = some n := by
    intro j n hj
    have := h.lt j n hj
    rw [m1, if_neg (by omega), if_neg (by omega), hj]
  have hlt : ∀ j ∈ pre ++ id :: post, j < t.fresh := by
    intro j hj
    obtain ⟨n, hn⟩ := h.chain.mem j hj
    exact h.lt j n hn
  have ch1 : Chain t1.nodes (some t.head) (pre ++ id :: post) := h.chain.frame (fun j _ n hj => ⟨n, m1' j n hj, rfl⟩)
  -- the link to the first new node
  obtain ⟨t2, et2, f2, x2, ge2, old2, new2, ch2⟩ : ∃ t2 : Tbl, (if t1.head = id then pure { t1 with head := t.fresh } else do
      let p ← findPrev t1 id t1.fresh t1.head
      let q ← t1.get p
      pure (t1.put p { q with next := some t.fresh }) : Res Tbl) = .ok t2 ∧ t2.fresh = t1.fresh ∧ t2.index = t1.index ∧
      (∀ j, t.fresh ≤ j → t2.nodes j = t1.nodes j) ∧
      (∀ j n, t1.nodes j = some n → ∃ n', t2.nodes j = some n' ∧ n'.blk = n.blk ∧ n'.deleted = n.deleted ∧ n'.sum = n.sum ∧
        (j ∉ pre → n'.next = n.next)) ∧
      (∀ j n', t2.nodes j = some n' → ∃ n, t1.nodes j = some n) ∧
      (∀ (nodes' : Nat → Option Node) (l' : List Nat), (∀ j, j < t.fresh → nodes' j = t2.nodes j) → Chain nodes' (some t.fresh) l' →
        Chain nodes' (some t2.head) (pre ++ l')) := by
    rcases List.eq_nil_or_concat pre with rfl | ⟨pre', q, rfl⟩
    · have hh : t.head = id := by
        have := ch1.1
        exact Option.some.inj this
      refine ⟨{ t1 with head := t.fresh }, ?_, rfl, rfl, fun _ _ => rfl, fun j n hj => ⟨n, hj, rfl, rfl, rfl, fun _ => rfl⟩, fun j n hj => ⟨n, hj⟩, ?_⟩
      · rw [if_pos (by rw [hd1]; exact hh)]; rfl
      · intro nodes' l' _ hl; exact hl
    · rw [List.concat_eq_append] at ch1 hlt ⊢
      have hnd' := h.nodup
      rw [List.concat_eq_append, List.append_assoc, List.singleton_append] at hnd'
      rw [List.append_assoc, List.singleton_append] at ch1
      have hh : t.head ≠ id := by
        cases pre' with
        | nil =>
          have := ch1.1
          have := Option.some.inj this
          rw [this]
          intro hc
          rw [hc] at hnd'
          simp at hnd'
        | cons a as =>
          have := ch1.1
          have := Option.some.inj this
          rw [this]
          intro hc
          rw [hc] at hnd'
          simp at hnd'
      have hpl : pre'.length < t.fresh := by
        have := h.len
        simp at this
        omega
      have hfp := findPrev_ok pre' t.head t1.fresh ch1 hnd' (by omega)
      obtain ⟨nq, hnq⟩ := ch1.mem q (by simp)
      have hq : q < t.fresh := hlt q (by simp)
      refine ⟨t1.put q { nq with next := some t.fresh }, ?_, rfl, rfl, ?_, ?_, ?_, ?_⟩
      · rw [if_neg (by rw [hd1]; exact hh), hd1, hfp, Res.ok_bind, Tbl.get_ok hnq, Res.ok_bind]; rfl
      · intro j hj
        show (if j = q then _ else _) = _
        rw [if_neg (by omega)]
      · intro j n hj
        by_cases hjq : j = q
        · refine ⟨{ nq with next := some t.fresh }, ?_, ?_⟩
          · show (if j = q then _ else _) = _
            rw [if_pos hjq]
          · rw [hjq, hnq] at hj
            cases hj
            exact ⟨rfl, rfl, rfl, fun hc => absurd (by simp [hjq]) hc⟩
        · refine ⟨n, ?_, rfl, rfl, rfl, fun _ => rfl⟩
          show (if j = q then _ else _) = _
          rw [if_neg hjq]; exact hj
      · intro j n' hj
        have hj : (if j = q then _ else _) = some n' := hj
        by_cases hjq : j = q
        · exact ⟨nq, by rw [hjq]; exact hnq⟩
        · rw [if_neg hjq] at hj; exact ⟨n', hj⟩
      · intro nodes' l' hn hl
        show Chain nodes' (some t1.head) _
        rw [hd1, List.append_assoc, List.singleton_append]
        have hn' : ∀ j, j < t.fresh → nodes' j = if j = q then some { nq with next := some t.fresh } else t1.nodes j := hn
        refine ch1.relink (r := some t.fresh) (fun j hj n hjn => ?_) ⟨{ nq with next := some t.fresh }, by rw [hn' q hq, if_pos rfl], rfl⟩ hl
        refine ⟨n, ?_, rfl⟩
        have hjq : j ≠ q := by
          rintro rfl
          rw [List.nodup_append] at hnd'
          exact hnd'.2.2 j hj j (by simp) rfl
        rw [hn' j (hlt j (by simp [hj])), if_neg hjq]; exact hjn
  have g1 : t2.nodes t.fresh = some nd1 := by rw [ge2 _ (Nat.le_refl _), m1, if_neg (by omega), if_pos rfl]
  have g2 : t2.nodes (t.fresh + 1) = some nd2 := by rw [ge2 _ (by omega), m1, if_pos rfl]
  generalize ht' : ((t2.put t.fresh { nd1 with next := some (t.fresh + 1) }).put (t.fresh + 1) { nd2 with next := nd.next }) = t'
  have f' : t'.fresh = t.fresh + 2 := by rw [← ht']; exact f2.trans f1
  have x' : t'.index = mv.foldl (moveIx c) t.index := by rw [← ht']; exact x2.trans x1
  have hd' : t'.head = t2.head := by rw [← ht']; rfl
  have m' : ∀ j, t'.nodes j = if j = t.fresh + 1 then some { nd2 with next := nd.next } else
      if j = t.fresh then some { nd1 with next := some (t.fresh + 1) } else t2.nodes j := by
    intro j; rw [← ht']; rfl
  have old' : ∀ j n, t.nodes j = some n → ∃ n', t'.nodes j = some n' ∧ n'.blk = n.blk ∧ n'.deleted = n.deleted ∧ n'.sum = n.sum ∧
      (j ∉ pre → n'.next = n.next) := by
    intro j n hj
    have hl := h.lt j n hj
    rw [m', if_neg (by omega), if_neg (by omega)]
    exact old2 j n (m1' j n hj)
  have new' : ∀ j n', t'.nodes j = some n' → j = t.fresh ∨ j = t.fresh + 1 ∨ ∃ n, t.nodes j = some n := by
    intro j n' hj
    rw [m'] at hj
    by_cases h1 : j = t.fresh + 1
    · exact Or.inr (Or.inl h1)
    · by_cases h2 : j = t.fresh
      · exact Or.inl h2
      · rw [if_neg h1, if_neg h2] at hj
        obtain ⟨n, hn⟩ := new2 j n' hj
        rw [m1, if_neg h1, if_neg h2] at hn
        exact Or.inr (Or.inr ⟨n, hn⟩)
  have z1 : t'.nodes t.fresh = some { nd1 with next := some (t.fresh + 1) } := by rw [m', if_neg (by omega), if_pos rfl]
  have z2 : t'.nodes (t.fresh + 1) = some { nd2 with next := nd.next } := by rw [m', if_pos rfl]
  have hmod : (R id).length % 65536 = (R id).length := Nat.mod_eq_of_lt (by omega)
  have hmv1 : mv.map (fun m => m.2.1) = (liveFrom nd.deleted 0 (R id).reverse).map (fun q => q.2.1) := by
    have := congrArg (List.map Prod.snd) hmv
    rw [List.map_map, List.map_map] at this
    exact this
  have hmv2 : ∀ m ∈ mv, m.1 = t.fresh ∨ m.1 = t.fresh + 1 := by
    intro m hm
    have : (m.1, m.2.1) ∈ mv.map (fun m => (m.1, m.2.1)) := List.mem_map.2 ⟨m, hm, rfl⟩
    rw [hmv] at this
    obtain ⟨q, -, e⟩ := List.mem_map.1 this
    have e : tgt c (R id).length sv (hiOf nd.blk) t.fresh (t.fresh + 1) q.1 q.2.1 = m.1 := (Prod.ext_iff.1 e).1
    rw [← e]
    exact tgt_or ..
  have r1 : loOf nd1.blk = loOf nd.blk ∧ hiOf nd1.blk = sv := ⟨s1.2.2.1.trans a1, s1.2.2.2.trans a2⟩
  have r2 : loOf nd2.blk = (if sv = hiOf nd.blk then hiOf nd.blk else (sv + 1) % 2 ^ 32) ∧ hiOf nd2.blk = hiOf nd.blk :=
    ⟨s2.2.2.1.trans a3, s2.2.2.2.trans a4⟩
  have z0 : xsum c ([] : Rows) = 0 := rfl
  rw [z0, Nat.add_zero] at u1 u2
  refine ⟨t', mv, _, _, ?_, ⟨hmv1, hmv2, x', f', z1, z2, ⟨s1.2.1, s2.2.1⟩, fun j n hj => ?_, new', ?_, by rw [hsv']; exact hmv, by rw [hsv']; exact r1,
    by rw [hsv']; exact r2, by simpa using u1, by simpa using u2⟩, ?_⟩
  · unfold splitBlock
    rw [Tbl.get_ok hnd, Res.ok_bind, range_ok, Res.ok_bind, ok.rep.count, Res.ok_bind, if_neg (by omega)]
    dsimp only
    rw [hsv, e1, Res.ok_bind, e2, Res.ok_bind, ht0, hmod, eL, Res.ok_bind, et2, Res.ok_bind,
      Tbl.get_ok g1, Res.ok_bind]
    have g2' : (t2.put t.fresh { nd1 with next := some (t.fresh + 1) }).nodes (t.fresh + 1) = some nd2 := by
      show (if t.fresh + 1 = t.fresh then _ else _) = _
      rw [if_neg (by omega)]; exact g2
    rw [Tbl.get_ok g2', Res.ok_bind, ht']
    rfl
  · obtain ⟨n', q1, q2, q3, q4, -⟩ := old' j n hj
    exact ⟨n', q1, q2, q3⟩
  · intro j n n' hj hj'
    obtain ⟨n'', q1, -, -, q4, -⟩ := old' j n hj
    rw [hj'] at q1
    cases q1
    exact q4
  · have hpre : ∀ j ∈ pre, j < t.fresh := fun j hj => hlt j (by simp [hj])
    have hpost : ∀ j ∈ post, j < t.fresh := fun j hj => hlt j (by simp [hj])
    refine ⟨?_, ?_, ?_, ?_, ?_, ?_⟩
    · rw [hd']
      refine ch2 _ _ (fun j hj => by rw [m', if_neg (by omega), if_neg (by omega)]) ⟨rfl, _, z1, rfl, _, z2, ?_⟩
      obtain ⟨r, hr⟩ := h.chain.suffix
      obtain ⟨-, n, hn, hp⟩ := hr
      rw [hnd] at hn
      cases hn
      refine hp.frame (fun j hj n hn => ?_)
      obtain ⟨n', q1, -, -, -, q5⟩ := old' j n hn
      refine ⟨n', q1, q5 ?_⟩
      intro hc
      have := h.nodup
      rw [List.nodup_append] at this
      exact this.2.2 j hc j (by simp [hj]) rfl
    · have := h.nodup
      rw [List.nodup_append, List.nodup_cons] at this ⊢
      obtain ⟨a1, ⟨a2, a3⟩, a4⟩ := this
      refine ⟨a1, ⟨?_, List.nodup_cons.2 ⟨?_, a3⟩⟩, ?_⟩
      · intro hc
        rcases List.mem_cons.1 hc with hc | hc
        · omega
        · have := hpost _ hc; omega
      · intro hc
        have := hpost _ hc; omega
      · intro a ha b hb
        have := hpre a ha
        rcases List.mem_cons.1 hb with rfl | hb
        · omega
        · rcases List.mem_cons.1 hb with rfl | hb
          · omega
          · exact a4 a ha b (List.mem_cons_of_mem _ hb)
    · intro j n' hj
      rw [f']
      rcases new' j n' hj with q | q | ⟨n, q⟩
      · omega
      · omega
      · have := h.lt j n q; omega
    · intro j n' hj
      unfold rowsSplit
      by_cases h1 : j = t.fresh + 1
      · rw [if_pos h1]
        rw [h1, z2] at hj
        cases hj
        exact k2.congr rfl
      · rw [if_neg h1]
        by_cases h2 : j = t.fresh
        · rw [if_pos h2]
          rw [h2, z1] at hj
          cases hj
          exact k1.congr rfl
        · rw [if_neg h2]
          rcases new' j n' hj with q | q | ⟨n, q⟩
          · exact absurd q h2
          · exact absurd q h1
          · obtain ⟨n'', q1, q2, -, q4, -⟩ := old' j n q
            rw [hj] at q1
            cases q1
            exact (h.ok j n q).congr q2
    · intro k j os hk
      rw [x'] at hk
      rcases foldl_moveIx mv _ _ _ hk with hk | ⟨m, hm, e⟩
      · obtain ⟨n, vs, q1, q2⟩ := h.idx k j os hk
        obtain ⟨n', q3, -⟩ := old' j n q1
        refine ⟨n', vs, q3, ?_⟩
        have := h.lt j n q1
        unfold rowsSplit
        rw [if_neg (by omega), if_neg (by omega)]
        exact q2
      · cases e
        unfold rowsSplit
        rcases hmv2 m hm with hm1 | hm1
        · refine ⟨_, m.2.1, by rw [hm1]; exact z1, ?_⟩
          rw [if_neg (by omega), if_pos hm1]
          exact mem_rowsAfter hm hm1 []
        · refine ⟨_, m.2.1, by rw [hm1]; exact z2, ?_⟩
          rw [if_pos hm1]
          exact mem_rowsAfter hm hm1 []
    · intro x hx
      obtain ⟨j, hj, n, hn, hx1, hx2⟩ := h.cover x hx
      by_cases hjd : j = id
      · subst hjd
        rw [hnd] at hn
        cases hn
        by_cases hxs : x ≤ sv
        · exact ⟨t.fresh, by simp, _, z1, by show loOf nd1.blk ≤ x; rw [r1.1]; exact hx1, by show x ≤ hiOf nd1.blk; rw [r1.2]; exact hxs⟩
        · refine ⟨t.fresh + 1, by simp, _, z2, ?_, by show x ≤ hiOf nd2.blk; rw [r2.2]; exact hx2⟩
          show loOf nd2.blk ≤ x
          rw [r2.1, if_neg (by omega), Nat.mod_eq_of_lt (by omega)]
          omega
      · obtain ⟨n', q1, q2, -⟩ := old' j n hn
        refine ⟨j, ?_, n', q1, by rw [q2]; exact hx1, by rw [q2]; exact hx2⟩
        rcases List.mem_append.1 hj with hj | hj
        · simp [hj]
        · rcases List.mem_cons.1 hj with hj | hj
          · exact absurd hj hjd
          · simp [hj]

/-- Live records after a split. -/
theorem SplitW.live {t t' : Tbl} {R : Nat → Rows} {pre post : List Nat} {id : Nat} {nd nd1 nd2 : Node} {mv : List Move}
    {S : List Val → Prop} (h : TInv c S t R (pre ++ id :: post)) (hnd : t.nodes id = some nd) (hs : SplitW c t R id nd t' mv nd1 nd2) :
    (live t' (rowsSplit R t.fresh (t.fresh + 1) mv) (pre ++ t.fresh :: (t.fresh + 1) :: post)).Perm (live t R pre ++ (mv ++ live t R post)) ∧
    mv.map (fun m => m.2.1) = (liveAt t R id).map (fun m => m.2.1) ∧
    (∀ j ∈ pre ++ post, delsAt t' j = delsAt t j ∧ rowsSplit R t.fresh (t.fresh + 1) mv j = R j) ∧
    delsAt t' t.fresh = [] ∧ delsAt t' (t.fresh + 1) = [] := by
  have hlt : ∀ j ∈ pre ++ id :: post, j < t.fresh := by
    intro j hj
    obtain ⟨n, hn⟩ := h.chain.mem j hj
    exact h.lt j n hn
  have hsame : ∀ j ∈ pre ++ post, delsAt t' j = delsAt t j ∧ rowsSplit R t.fresh (t.fresh + 1) mv j = R j := by
    intro j hj
    have hj' : j ∈ pre ++ id :: post := by
      rcases List.mem_append.1 hj with h | h <;> simp [h]
    have hl := hlt j hj'
    refine ⟨?_, by unfold rowsSplit; rw [if_neg (by omega), if_neg (by omega)]⟩
    obtain ⟨n, hn⟩ := h.chain.mem j hj'
    obtain ⟨n', q1, -, q3⟩ := hs.old j n hn
    unfold delsAt
    rw [hn, q1]; exact q3
  have hcong : ∀ l : List Nat, (∀ j ∈ l, j ∈ pre ++ post) → PTable.live t' (rowsSplit R t.fresh (t.fresh + 1) mv) l = PTable.live t R l := by
    intro l hl
    unfold PTable.live
    rw [List.flatMap_def, List.flatMap_def]
    congr 1
    refine List.map_congr_left (fun j hj => ?_)
    obtain ⟨q1, q2⟩ := hsame j (hl j hj)
    unfold liveAt
    rw [q1, q2]
  have d1 : delsAt t' t.fresh = [] := by unfold delsAt; rw [hs.node1]; exact hs.dels.1
  have d2 : delsAt t' (t.fresh + 1) = [] := by unfold delsAt; rw [hs.node2]; exact hs.dels.2
  have r1 : rowsSplit R t.fresh (t.fresh + 1) mv t.fresh = rowsAfter t.fresh mv [] := by
    unfold rowsSplit; rw [if_neg (by omega), if_pos rfl]
  have r2 : rowsSplit R t.fresh (t.fresh + 1) mv (t.fresh + 1) = rowsAfter (t.fresh + 1) mv [] := by
    unfold rowsSplit; rw [if_pos rfl]
  refine ⟨?_, ?_, hsame, d1, d2⟩
  · have e : PTable.live t' (rowsSplit R t.fresh (t.fresh + 1) mv) (pre ++ t.fresh :: (t.fresh + 1) :: post) =
        PTable.live t R pre ++ ((mv.filter (fun m => decide (m.1 = t.fresh)) ++ mv.filter (fun m => decide (m.1 = t.fresh + 1))) ++ PTable.live t R post) := by
      rw [← hcong pre (fun j hj => by simp [hj]), ← hcong post (fun j hj => by simp [hj]), ← liveAt_new d1 r1, ← liveAt_new d2 r2]
      unfold PTable.live
      rw [List.flatMap_append, List.flatMap_cons, List.flatMap_cons, List.append_assoc]
    rw [e]
    refine List.Perm.append_left _ (List.Perm.append_right _ (filter_two (by omega) hs.two))
  · have e := hs.moved
    have hd : delsAt t id = nd.deleted := by unfold delsAt; rw [hnd]
    unfold liveAt
    rw [hd, List.map_map]
    exact e

end Verif.PTable
