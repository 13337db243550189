import Verif.PTable.Inv

/-!
# `insertTuple` and the loop of `splitBlock`
-/

namespace Verif.PTable

variable {c : Cfg}

/-- The links and bounds of a node are the same. -/
def Same (nd nd' : Node) : Prop :=
  nd'.next = nd.next ∧ nd'.deleted = nd.deleted ∧ loOf nd'.blk = loOf nd.blk ∧ hiOf nd'.blk = hiOf nd.blk

theorem Same.refl (nd : Node) : Same nd nd := ⟨rfl, rfl, rfl, rfl⟩

theorem Same.trans {a b d : Node} (h : Same a b) (g : Same b d) : Same a d :=
  ⟨g.1.trans h.1, g.2.1.trans h.2.1, g.2.2.1.trans h.2.2.1, g.2.2.2.trans h.2.2.2⟩

theorem insertTuple_ok (hg : c.Good) {t : Tbl} {id : Nat} {nd : Node} {rows : Rows} (hnd : t.nodes id = some nd) (h : NodeOK c nd rows)
    {vs : List Val} (hv : c.Rec vs) (hf : Fits c.sch nd.blk rows vs) (hr : loOf nd.blk ≤ c.xtr vs ∧ c.xtr vs ≤ hiOf nd.blk) (key : Int) :
    ∃ nd' os, insertTuple c t key vs id = .ok { t.put id nd' with index := setIx t.index key (some (id, os)) } ∧
      NodeOK c nd' ((vs, os) :: rows) ∧ Same nd nd' := by
  obtain ⟨b', os, e, hrep, h8, hsd, -⟩ := insertBlk_ok hg.ne h.rep hv.typed hv.plain hf
  have hsplit : ∀ c : Blk, bytes c 0 8 = bytes c 0 4 ++ bytes c 4 4 := fun c => bytes_append c 4 4 0
  rw [hsplit, hsplit] at h8
  obtain ⟨h0, h4⟩ := List.append_inj h8 (by simp)
  have elo : loOf b' = loOf nd.blk := by unfold loOf; rw [h0]
  have ehi : hiOf b' = hiOf nd.blk := by unfold hiOf; rw [h4]
  refine ⟨{ nd with blk := b', sum := nd.sum + c.xtr vs }, os, ?_, ⟨hrep, ?_, ?_, ?_, ?_, ?_, ?_⟩, rfl, rfl, elo, ehi⟩
  · unfold insertTuple
    rw [Tbl.get_ok hnd, Res.ok_bind, e, Res.ok_bind]; rfl
  · intro i hi
    obtain ⟨e1, e2⟩ := hsd i hi
    obtain ⟨e3, e4⟩ := h.std i hi
    exact ⟨e1.trans e3, e2.trans e4⟩
  · intro r hr'
    rcases List.mem_cons.1 hr' with rfl | hr'
    · exact hv
    · exact h.recs r hr'
  · show loOf b' ≤ hiOf b'
    rw [elo, ehi]; exact h.ord
  · intro r hr'
    show loOf b' ≤ _ ∧ _ ≤ hiOf b'
    rw [elo, ehi]
    rcases List.mem_cons.1 hr' with rfl | hr'
    · exact hr
    · exact h.rng r hr'
  · show nd.sum + c.xtr vs = xsum c ((vs, os) :: rows)
    rw [h.sum]; simp [xsum, Nat.add_comm]
  · intro h; cases h

/-- The key that `splitBlock` reads: the lower 16 bits of the key attribute. -/
def key16 (c : Cfg) (vs : List Val) : Int :=
  match vs[c.kc]? with
  | some (.int x) => ((x.toNat % 65536 : Nat) : Int)
  | _ => 0

/-- Records that are not marked as deleted, with their positions. -/
def liveFrom (dels : List Nat) : Nat → Rows → List (Nat × List Val × List Nat)
  | _, [] => []
  | p, r :: rs => if p ∈ dels then liveFrom dels (p + 1) rs else (p, r) :: liveFrom dels (p + 1) rs

/-- The new node of a record. -/
def tgt (c : Cfg) (cnt sv hi i1 i2 pos : Nat) (vs : List Val) : Nat :=
  if sv = hi then (if pos < cnt / 2 then i1 else i2) else (if c.xtr vs ≤ sv then i1 else i2)

/-- A record moved to a new node: node, record, offsets. -/
abbrev Move := Nat × List Val × List Nat

def moveIx (c : Cfg) (ix : Int → Option Handle) (m : Move) : Int → Option Handle := setIx ix (key16 c m.2.1) (some (m.1, m.2.2))

/-- Rows of node `i` after the moves. -/
def rowsAfter (i : Nat) (mv : List Move) (rows : Rows) : Rows := ((mv.filter (fun m => decide (m.1 = i))).map Prod.snd).reverse ++ rows

theorem rowsAfter_nil (i : Nat) (rows : Rows) : rowsAfter i [] rows = rows := rfl

theorem rowsAfter_cons_self (i : Nat) (m : List Val × List Nat) (mv : List Move) (rows : Rows) :
    rowsAfter i ((i, m) :: mv) rows = rowsAfter i mv (m :: rows) := by
  simp [rowsAfter]

theorem rowsAfter_cons_ne {i j : Nat} (h : j ≠ i) (m : List Val × List Nat) (mv : List Move) (rows : Rows) :
    rowsAfter i ((j, m) :: mv) rows = rowsAfter i mv rows := by
  simp [rowsAfter, h]

theorem setIx_twice (ix : Int → Option Handle) (k : Int) (a b : Option Handle) : setIx (setIx ix k a) k b = setIx ix k b := by
  funext j
  unfold setIx
  split <;> rfl

theorem tgt_or (c : Cfg) (cnt sv hi i1 i2 pos : Nat) (vs : List Val) : tgt c cnt sv hi i1 i2 pos vs = i1 ∨ tgt c cnt sv hi i1 i2 pos vs = i2 := by
  unfold tgt
  split <;> split <;> simp

/-- The heap after the loop. -/
def put2 (t : Tbl) (i1 i2 : Nat) (nd1 nd2 : Node) : Nat → Option Node :=
  fun j => if j = i2 then some nd2 else if j = i1 then some nd1 else t.nodes j

theorem splitLoop_ok (hg : c.Good) {b : Blk} {R0 : Rows} (hb : Rep c.sch b R0) {dels : List Nat} {cnt sv hi i1 i2 : Nat} (hne : i1 ≠ i2)
    (hrec : ∀ r ∈ R0, c.Rec r.1) :
    ∀ (rs : Rows) (pos : Nat) (t : Tbl) (nd1 nd2 : Node) (rows1 rows2 : Rows), (∀ k : Nat, R0.reverse[pos + k]? = rs[k]?) →
    t.nodes i1 = some nd1 → t.nodes i2 = some nd2 → NodeOK c nd1 rows1 → NodeOK c nd2 rows2 →
    (∀ q ∈ liveFrom dels pos rs, (tgt c cnt sv hi i1 i2 q.1 q.2.1 = i1 → loOf nd1.blk ≤ c.xtr q.2.1 ∧ c.xtr q.2.1 ≤ hiOf nd1.blk) ∧
      (tgt c cnt sv hi i1 i2 q.1 q.2.1 = i2 → loOf nd2.blk ≤ c.xtr q.2.1 ∧ c.xtr q.2.1 ≤ hiOf nd2.blk)) →
    (∀ i, i < c.sch.length → dataOf c.sch i + use i (rows1.map Prod.fst) + use i (rs.map Prod.fst) ≤ endOf c.sch i ∧
      dataOf c.sch i + use i (rows2.map Prod.fst) + use i (rs.map Prod.fst) ≤ endOf c.sch i) →
    ∃ (mv : List Move) (nd1' nd2' : Node),
      splitLoop c b dels cnt sv hi i1 i2 rs.length pos t =
        .ok { t with nodes := put2 t i1 i2 nd1' nd2', index := mv.foldl (moveIx c) t.index } ∧
      mv.map (fun m => (m.1, m.2.1)) = (liveFrom dels pos rs).map (fun q => (tgt c cnt sv hi i1 i2 q.1 q.2.1, q.2.1)) ∧
      NodeOK c nd1' (rowsAfter i1 mv rows1) ∧ NodeOK c nd2' (rowsAfter i2 mv rows2) ∧ Same nd1 nd1' ∧ Same nd2 nd2'
  | [], pos, t, nd1, nd2, rows1, rows2, _, h1, h2, g1, g2, _, _ => by
    refine ⟨[], nd1, nd2, ?_, rfl, g1, g2, Same.refl _, Same.refl _⟩
    have : put2 t i1 i2 nd1 nd2 = t.nodes := by
      funext j
      unfold put2
      split
      · rename_i h; rw [h, h2]
      · split
        · rename_i h; rw [h, h1]
        · rfl
    rw [this]; rfl
  | r :: rs, pos, t, nd1, nd2, rows1, rows2, hrs, h1, h2, g1, g2, hrg, hsp => by
    have hrs' : ∀ k : Nat, R0.reverse[pos + 1 + k]? = rs[k]? := fun k => by
      have := hrs (k + 1)
      rw [show pos + (k + 1) = pos + 1 + k by omega] at this
      rw [this]; rfl
    have hr0 : R0.reverse[pos]? = some r := by simpa using hrs 0
    have hmem : r ∈ R0 := by simpa using List.mem_of_getElem? hr0
    have huse : ∀ i, use i ((r :: rs).map Prod.fst) = useOf i r.1 + use i (rs.map Prod.fst) := fun i => use_cons i _ _
    rw [List.length_cons, splitLoop]
    by_cases hd : pos ∈ dels
    · rw [if_pos hd]
      have hl : liveFrom dels pos (r :: rs) = liveFrom dels (pos + 1) rs := by rw [liveFrom, if_pos hd]
      rw [hl] at hrg ⊢
      exact splitLoop_ok hg hb hne hrec rs (pos + 1) t nd1 nd2 rows1 rows2 hrs' h1 h2 g1 g2 hrg (fun i hi => by
        have := hsp i hi
        rw [huse] at this
        omega)
    · have hl : liveFrom dels pos (r :: rs) = (pos, r) :: liveFrom dels (pos + 1) rs := by rw [liveFrom, if_neg hd]
      rw [hl] at hrg ⊢
      obtain ⟨x, hx, hk⟩ := hb.key hg.key hr0
      have hk16 : key16 c r.1 = ((x.toNat % 65536 : Nat) : Int) := by unfold key16; rw [hx]
      rw [if_neg hd, hb.offsets hr0, Res.ok_bind, hk, Res.ok_bind]
      dsimp only
      rw [hb.create hmem, Res.ok_bind, ← hk16]
      have hv := hrec r hmem
      have htg := hrg (pos, r) (List.mem_cons_self ..)
      have hft : ∀ {nd : Node} {rows : Rows}, NodeOK c nd rows → (∀ i, i < c.sch.length →
          dataOf c.sch i + use i (rows.map Prod.fst) + use i ((r :: rs).map Prod.fst) ≤ endOf c.sch i) → Fits c.sch nd.blk rows r.1 := by
        intro nd rows g hs
        refine (g.rep.fits_iff g.std hv.typed).2 (fun i hi => ?_)
        have := hs i hi
        rw [huse] at this
        rw [use_cons]
        omega
      show ∃ (mv : List Move) (nd1' nd2' : Node), (insertTuple c { t with index := setIx t.index (key16 c r.1) none } (key16 c r.1) r.1
        (tgt c cnt sv hi i1 i2 pos r.1) >>= fun t => splitLoop c b dels cnt sv hi i1 i2 rs.length (pos + 1) t) = _ ∧ _
      rcases tgt_or c cnt sv hi i1 i2 pos r.1 with ht | ht
      · obtain ⟨nd1a, os, e, ga, sa⟩ := insertTuple_ok hg (t := { t with index := setIx t.index (key16 c r.1) none }) h1 g1 hv
          (hft g1 fun i hi => (hsp i hi).1) (htg.1 ht) (key16 c r.1)
        rw [ht, e, Res.ok_bind]
        obtain ⟨mv, nd1', nd2', e', hm, k1, k2, s1, s2⟩ := splitLoop_ok hg hb hne hrec rs (pos + 1)
          { ({ t with index := setIx t.index (key16 c r.1) none } : Tbl).put i1 nd1a with index := setIx (setIx t.index (key16 c r.1) none) (key16 c r.1) (some (i1, os)) }
          nd1a nd2 ((r.1, os) :: rows1) rows2 hrs'
          (show (({ t with index := setIx t.index (key16 c r.1) none } : Tbl).put i1 nd1a).nodes i1 = some nd1a by simp [Tbl.put])
          (show (({ t with index := setIx t.index (key16 c r.1) none } : Tbl).put i1 nd1a).nodes i2 = some nd2 by simp [Tbl.put, hne.symm, h2])
          ga g2
          (fun q hq => by
            have := hrg q (List.mem_cons_of_mem _ hq)
            rw [sa.2.2.1, sa.2.2.2]
            exact this)
          (fun i hi => by
            have := hsp i hi
            rw [huse] at this
            rw [List.map_cons, use_cons]
            dsimp only
            omega)
        refine ⟨(i1, r.1, os) :: mv, nd1', nd2', ?_, ?_, ?_, ?_, sa.trans s1, s2⟩
        · refine Eq.trans e' ?_
          congr 1
          show Tbl.mk _ _ _ _ = Tbl.mk _ _ _ _
          congr 1
          · funext j
            simp only [put2, Tbl.put]
            split
            · rfl
            · split <;> simp_all
          · show mv.foldl (moveIx c) (setIx (setIx t.index _ none) _ _) = mv.foldl (moveIx c) (moveIx c t.index (i1, r.1, os))
            rw [setIx_twice]; rfl
        · rw [List.map_cons, List.map_cons, hm, ht]
        · rw [rowsAfter_cons_self]; exact k1
        · rw [rowsAfter_cons_ne hne]; exact k2
      · obtain ⟨nd2a, os, e, ga, sa⟩ := insertTuple_ok hg (t := { t with index := setIx t.index (key16 c r.1) none }) h2 g2 hv
          (hft g2 fun i hi => (hsp i hi).2) (htg.2 ht) (key16 c r.1)
        rw [ht, e, Res.ok_bind]
        obtain ⟨mv, nd1', nd2', e', hm, k1, k2, s1, s2⟩ := splitLoop_ok hg hb hne hrec rs (pos + 1)
          { ({ t with index := setIx t.index (key16 c r.1) none } : Tbl).put i2 nd2a with index := setIx (setIx t.index (key16 c r.1) none) (key16 c r.1) (some (i2, os)) }
          nd1 nd2a rows1 ((r.1, os) :: rows2) hrs'
          (show (({ t with index := setIx t.index (key16 c r.1) none } : Tbl).put i2 nd2a).nodes i1 = some nd1 by simp [Tbl.put, hne, h1])
          (show (({ t with index := setIx t.index (key16 c r.1) none } : Tbl).put i2 nd2a).nodes i2 = some nd2a by simp [Tbl.put])
          g1 ga
          (fun q hq => by
            have := hrg q (List.mem_cons_of_mem _ hq)
            rw [sa.2.2.1, sa.2.2.2]
            exact this)
          (fun i hi => by
            have := hsp i hi
            rw [huse] at this
            rw [List.map_cons, use_cons]
            dsimp only
            omega)
        refine ⟨(i2, r.1, os) :: mv, nd1', nd2', ?_, ?_, ?_, ?_, s1, sa.trans s2⟩
        · refine Eq.trans e' ?_
          congr 1
          show Tbl.mk _ _ _ _ = Tbl.mk _ _ _ _
          congr 1
          · funext j
            simp only [put2, Tbl.put]
            split
            · rfl
            · rfl
          · show mv.foldl (moveIx c) (setIx (setIx t.index _ none) _ _) = mv.foldl (moveIx c) (moveIx c t.index (i2, r.1, os))
            rw [setIx_twice]; rfl
        · rw [List.map_cons, List.map_cons, hm, ht]
        · rw [rowsAfter_cons_ne (Ne.symm hne)]; exact k1
        · rw [rowsAfter_cons_self]; exact k2

end Verif.PTable
