import Verif.PTable.TableCrashProps

/-!
# C114: after calls and crashes, every insert comes to an end

A crash may leave a block whose BDCC sum lacks a record: its next split uses a wrong average, and the ranges of the new blocks may overlap others.
They still cover all BDCC values, and the sums of the new blocks are right again.
-/

namespace Verif.PTable

variable {c : Cfg} {S : List Val → Prop}

/-! ## The choice of the block, on lists -/

theorem NodeW.space {nd : Node} {rows : Rows} (h : NodeW c S nd rows) {vs : List Val} (hv : vs.map Val.ty = c.sch) :
    hasEnoughSpace c.sch.length vs nd.blk = .ok (!fullOf c vs nd) ∧ (fullOf c vs nd = false → Fits c.sch nd.blk rows vs) := by
  obtain ⟨e, he, hf⟩ := hasEnoughSpaceW_ok h.rep hv
  unfold fullOf
  rw [he]
  exact ⟨by simp, fun h => hf (by simpa using h)⟩

/-- A block without records accepts what a new block accepts. -/
theorem NodeW.not_full (hg : c.Good) {nd : Node} {rows : Rows} (h : NodeW c S nd rows) (hr : rows = []) {vs : List Val} (hv : vs.map Val.ty = c.sch)
    (ha : c.Accepted vs) : fullOf c vs nd = false := by
  subst hr
  obtain ⟨b, e, -, -, -, -, hf, -⟩ := initBlock_ok hg.pages (lo := 0) (hi := 0) (by decide) (by decide)
  obtain ⟨b', e', hr, hstd, -, -⟩ := initBlock_std hg.pages (lo := 0) (hi := 0) (by decide) (by decide)
  rw [e] at e'
  cases e'
  have hacc := ha 0 0 b (by decide) (by decide) e
  obtain ⟨a, ea, hfit⟩ := hasEnoughSpaceW_ok hr.weak.1 hv
  rw [hacc] at ea
  cases ea
  have huse := (hr.weak.1.fits_iff hstd hv).1 (hfit rfl)
  have hfit' := (h.rep.fits_iff h.std hv).2 huse
  obtain ⟨e2, he2, hiff⟩ := colsSpaceW_ok h.rep vs 0 (fun k v hv' => by rw [Nat.zero_add]; exact typed_get hv hv')
  have he2t : e2 = true := hiff.2 (fun k v hk => by rw [Nat.zero_add]; exact hfit' k v hk)
  have hsz : ¬ free0 c < (vs.map Val.serSize).sum := by
    intro hc
    unfold hasEnoughSpace at hacc
    unfold free0 at hc
    rw [hf, Res.ok_bind, if_pos hc] at hacc
    cases hacc
  have : hasEnoughSpace c.sch.length vs nd.blk = .ok true := by
    unfold hasEnoughSpace
    rw [h.empty rfl, Res.ok_bind, if_neg hsz, h.rep.count, Res.ok_bind, he2, he2t]
  unfold fullOf
  rw [this]
  rfl

theorem walkSame_entW {t : Tbl} {R : Nat → Rows} {vs : List Val} (hv : vs.map Val.ty = c.sch)
    (hok : ∀ id nd, t.nodes id = some nd → NodeW c S nd (R id)) : ∀ (l : List Nat) (id : Nat) (nd : Node) (f : Nat), t.nodes id = some nd →
    Chain t.nodes nd.next l → l.length < f →
    walkSame c t vs f id nd = .ok ((walkE (entOf c t vs id) (l.map (entOf c t vs))).id, (walkE (entOf c t vs id) (l.map (entOf c t vs))).lo,
      (walkE (entOf c t vs id) (l.map (entOf c t vs))).full)
  | [], id, nd, f, hnd, h, hf => by
    cases f with
    | zero => simp at hf
    | succ f =>
      have h : nd.next = none := h
      rw [walkSame, range_ok, Res.ok_bind, ((hok id nd hnd).space hv).1, Res.ok_bind, h]
      simp only [List.map_nil, walkE, entOf_some hnd, Bool.not_not, Res.pure_eq]
  | id' :: l, id, nd, f, hnd, ⟨h1, nd', h2, h3⟩, hf => by
    cases f with
    | zero => simp at hf
    | succ f =>
      rw [walkSame, range_ok, Res.ok_bind, ((hok id nd hnd).space hv).1, Res.ok_bind, h1]
      dsimp only
      rw [List.map_cons, walkE]
      by_cases hc : loOf nd.blk = hiOf nd.blk ∧ fullOf c vs nd = true
      · rw [if_pos ⟨hc.1, by simp [hc.2]⟩, Tbl.get_ok h2, Res.ok_bind, walkSame_entW hv hok l id' nd' f h2 h3 (by simpa using hf),
          if_pos (by rw [entOf_some hnd]; exact hc)]
      · rw [if_neg (fun h => hc ⟨h.1, by simpa using h.2⟩), if_neg (by rw [entOf_some hnd]; exact hc), entOf_some hnd]
        simp only [Bool.not_not, Res.pure_eq]

/-- The choice of the model is the one on the list of nodes. -/
theorem insert_choiceW {t : Tbl} {R : Nat → Rows} {l : List Nat} (h : TInv c S t R l) {vs : List Val} (hv : vs.map Val.ty = c.sch)
    {e : Ent} {ns : Bool} (hp : pick (c.xtr vs) (l.map (entOf c t vs)) = some (e, ns)) :
    ∃ id, findTarget t (c.xtr vs) t.fresh (some t.head) = .ok (some id) ∧ findInsertNodeOrSplit c t vs id = .ok (e.id, ns) := by
  have main : ∀ (l : List Nat) (p : Option Nat), Chain t.nodes p l → l.length ≤ t.fresh →
      pick (c.xtr vs) (l.map (entOf c t vs)) = some (e, ns) →
      ∃ id, l.find? (fun id => decide ((entOf c t vs id).lo ≤ c.xtr vs ∧ c.xtr vs ≤ (entOf c t vs id).hi)) = some id ∧
        findInsertNodeOrSplit c t vs id = .ok (e.id, ns) := by
    intro l
    induction l with
    | nil => intro p _ _ hp; simp [pick] at hp
    | cons id l ih =>
      intro p ⟨h1, nd, h2, h3⟩ hlen hp
      rw [List.map_cons, pick] at hp
      rw [List.find?_cons]
      by_cases hc : (entOf c t vs id).lo ≤ c.xtr vs ∧ c.xtr vs ≤ (entOf c t vs id).hi
      · rw [if_pos hc] at hp
        refine ⟨id, by simp [hc], ?_⟩
        unfold findInsertNodeOrSplit
        rw [Tbl.get_ok h2, Res.ok_bind, walkSame_entW hv h.ok l id nd t.fresh h2 h3 (by simp at hlen; omega), Res.ok_bind]
        dsimp only
        split at hp
        · rename_i hlt
          cases hp
          rw [if_pos hlt, entOf_id]; rfl
        · rename_i hlt
          cases hp
          rw [if_neg hlt]; rfl
      · rw [if_neg hc] at hp
        obtain ⟨id', e1, e2⟩ := ih nd.next h3 (by simp at hlen; omega) hp
        refine ⟨id', ?_, e2⟩
        rw [decide_eq_false hc]
        exact e1
  obtain ⟨id, e1, e2⟩ := main l _ h.chain h.len hp
  refine ⟨id, ?_, e2⟩
  rw [findTarget_ok (c := c) (vs := vs) l _ _ h.chain h.len, e1]

theorem insert_eqW {t : Tbl} {R : Nat → Rows} {l : List Nat} (h : TInv c S t R l) {vs : List Val} (hv : vs.map Val.ty = c.sch)
    {f : Nat} {key : Int} {e : Ent} {ns : Bool} (hp : pick (c.xtr vs) (l.map (entOf c t vs)) = some (e, ns)) :
    insert c (f + 1) t key vs = (if ns then (splitBlock c t e.id >>= fun t => insert c f t key vs) else insertTuple c t key vs e.id) ∧
    ∀ q, insertAt c (f + 1) t key vs q = (if ns then (match q with
        | 0 => .ok t
        | q + 1 => (splitBlock c t e.id >>= fun t => insertAt c f t key vs q)) else insertTupleAt c t key vs e.id q) := by
  obtain ⟨id, e1, e2⟩ := insert_choiceW h hv hp
  constructor
  · rw [insert, e1, Res.ok_bind]
    dsimp only
    rw [e2, Res.ok_bind]
  · intro q
    rw [insertAt, e1, Res.ok_bind]
    dsimp only
    rw [e2, Res.ok_bind]
    cases ns <;> cases q <;> rfl

theorem walkE_mem' (e : Ent) (l : List Ent) : walkE e l ∈ e :: l := by
  rcases walkE_mem l e with h | h
  · rw [h]; exact List.mem_cons_self ..
  · exact List.mem_cons_of_mem _ h.1

theorem pick_some {x : Nat} : ∀ {l : List Ent}, (∃ e ∈ l, e.lo ≤ x ∧ x ≤ e.hi) →
    ∃ e ns, pick x l = some (e, ns) ∧ e ∈ l ∧ (ns = false → e.full = false)
  | [], h => by obtain ⟨e, he, -⟩ := h; cases he
  | e :: l, h => by
    rw [pick]
    by_cases hc : e.lo ≤ x ∧ x ≤ e.hi
    · rw [if_pos hc]
      split
      · exact ⟨e, true, rfl, List.mem_cons_self .., by simp⟩
      · exact ⟨_, _, rfl, walkE_mem' e l, id⟩
    · rw [if_neg hc]
      obtain ⟨e', he', hx⟩ := h
      rcases List.mem_cons.1 he' with rfl | he'
      · exact absurd hx hc
      · obtain ⟨e1, ns, p1, p2, p3⟩ := pick_some (x := x) (l := l) ⟨e', he', hx⟩
        exact ⟨e1, ns, p1, List.mem_cons_of_mem _ p2, p3⟩

theorem pick_mem {x : Nat} {e : Ent} {ns : Bool} : ∀ {l : List Ent}, pick x l = some (e, ns) → e ∈ l
  | [], h => by simp [pick] at h
  | a :: l, h => by
    rw [pick] at h
    split at h
    · split at h
      · cases h; exact List.mem_cons_self ..
      · cases h; exact walkE_mem' a l
    · exact List.mem_cons_of_mem _ (pick_mem h)

/-- A node with space in place of the node to be split is chosen next. -/
theorem pick_landW {x : Nat} {s s' : Ent} (hs' : s'.full = false) (hr : s'.lo = s.lo ∧ s'.hi = s.hi) {post post' : List Ent} (hpost : s ∉ post) :
    ∀ (pre : List Ent), pick x (pre ++ s :: post) = some (s, true) → s ∉ pre → pick x (pre ++ s' :: post') = some (s', false)
  | [], h, _ => by
    rw [List.nil_append, pick] at h ⊢
    have hx : s.lo ≤ x ∧ x ≤ s.hi := by
      by_contra hc
      rw [if_neg hc] at h
      exact hpost (pick_mem h)
    rw [if_pos (by omega)]
    have hw : walkE s' post' = s' := by
      cases post' with
      | nil => rfl
      | cons p q => rw [walkE, if_neg (by simp [hs'])]
    rw [hw, if_neg (by omega), hs']
  | e :: pre, h, hn => by
    rw [List.cons_append, pick] at h ⊢
    by_cases hc : e.lo ≤ x ∧ x ≤ e.hi
    · rw [if_pos hc] at h ⊢
      split at h
      · have : e = s := by
          have := Option.some.inj h
          exact congrArg Prod.fst this
        exact absurd (List.mem_cons.2 (Or.inl this.symm)) hn
      · rename_i hlt
        have hw : walkE e (pre ++ s :: post) = s := congrArg Prod.fst (Option.some.inj h)
        rw [hw] at hlt
        rw [walkE_land hs' pre e post hw hn, if_neg (by omega), hs']
    · rw [if_neg hc] at h ⊢
      exact pick_landW hs' hr hpost pre h (fun hm => hn (List.mem_cons_of_mem _ hm))

/-! ## Splits come to an end -/

/-- 2 for a node with a wrong BDCC sum. -/
def badOf (c : Cfg) (t : Tbl) (R : Nat → Rows) (id : Nat) : Nat :=
  match t.nodes id with
  | some nd => if nd.sum = xsum c (R id) then 0 else 2
  | none => 0

/-- Total weight of the nodes. -/
def load (c : Cfg) (t : Tbl) (R : Nat → Rows) (l : List Nat) : Nat := (l.map fun id => wt c (rangeAt t id).2 (R id) + badOf c t R id).sum

theorem xsum_cons (r : List Val × List Nat) (rs : Rows) : xsum c (r :: rs) = c.xtr r.1 + xsum c rs := by simp [xsum]

theorem xsum_lt (hg : c.Good) : ∀ (rows : Rows), xsum c rows ≤ (2 ^ 32 - 1) * rows.length
  | [] => by simp [xsum]
  | r :: rs => by
    have := xsum_lt hg rs
    have h1 := hg.xtr r.1
    have h2 : 2 ^ c.bins ≤ 2 ^ 32 := Nat.pow_le_pow_right (by decide) hg.bins
    rw [xsum_cons, List.length_cons, Nat.mul_succ]
    omega

theorem wt_ge (hi : Nat) {rows : Rows} (h : rows ≠ []) : 4 * rows.length - 2 ≤ wt c hi rows := by
  unfold wt
  rw [if_neg h]
  omega

theorem filter_pair (i j : Nat) (hij : i ≠ j) : ∀ (mv : List Move),
    (mv.filter (fun m => decide (m.1 = i))).length + (mv.filter (fun m => decide (m.1 = j))).length ≤ mv.length
  | [] => by simp
  | m :: mv => by
    have := filter_pair i j hij mv
    rw [List.filter_cons, List.filter_cons, List.length_cons]
    by_cases h1 : m.1 = i
    · rw [if_pos (by simpa using h1), if_neg (by simp [h1, hij]), List.length_cons]
      omega
    · rw [if_neg (by simpa using h1)]
      split
      · rw [List.length_cons]; omega
      · omega

/-- A split makes the weight smaller, or leaves an empty node with the range of the node that was split. -/
theorem SplitW.load (hg : c.Good) {t t' : Tbl} {R : Nat → Rows} {pre post : List Nat} {id : Nat} {nd nd1 nd2 : Node} {mv : List Move}
    (h : TInv c S t R (pre ++ id :: post)) (hnd : t.nodes id = some nd) (hne : R id ≠ []) (hs : SplitW c t R id nd t' mv nd1 nd2) :
    load c t' (rowsSplit R t.fresh (t.fresh + 1) mv) (pre ++ t.fresh :: (t.fresh + 1) :: post) < load c t R (pre ++ id :: post) ∨
    (rowsAfter t.fresh mv [] = [] ∧ svOf nd (R id).length = hiOf nd.blk) := by
  have hlen : 0 < (R id).length := List.length_pos_iff.2 hne
  have hlt : ∀ j ∈ pre ++ id :: post, j < t.fresh := by
    intro j hj
    obtain ⟨n, hn⟩ := h.chain.mem j hj
    exact h.lt j n hn
  have r1 : rowsSplit R t.fresh (t.fresh + 1) mv t.fresh = rowsAfter t.fresh mv [] := by
    unfold rowsSplit; rw [if_neg (by omega), if_pos rfl]
  have r2 : rowsSplit R t.fresh (t.fresh + 1) mv (t.fresh + 1) = rowsAfter (t.fresh + 1) mv [] := by
    unfold rowsSplit; rw [if_pos rfl]
  have e1 : (rangeAt t' t.fresh).2 = svOf nd (R id).length := by unfold rangeAt; rw [hs.node1]; exact hs.rng1.2
  have e2 : (rangeAt t' (t.fresh + 1)).2 = hiOf nd.blk := by unfold rangeAt; rw [hs.node2]; exact hs.rng2.2
  have e0 : (rangeAt t id).2 = hiOf nd.blk := by unfold rangeAt; rw [hnd]
  have b1 : badOf c t' (rowsSplit R t.fresh (t.fresh + 1) mv) t.fresh = 0 := by
    unfold badOf; rw [hs.node1]; dsimp only; rw [r1, if_pos hs.sums.1]
  have b2 : badOf c t' (rowsSplit R t.fresh (t.fresh + 1) mv) (t.fresh + 1) = 0 := by
    unfold badOf; rw [hs.node2]; dsimp only; rw [r2, if_pos hs.sums.2]
  have b0 : badOf c t R id = if nd.sum = xsum c (R id) then 0 else 2 := by unfold badOf; rw [hnd]
  have hcong : ∀ l : List Nat, (∀ j ∈ l, j ∈ pre ++ id :: post) →
      (l.map fun id => wt c (rangeAt t' id).2 (rowsSplit R t.fresh (t.fresh + 1) mv id) + badOf c t' (rowsSplit R t.fresh (t.fresh + 1) mv) id) =
      l.map fun id => wt c (rangeAt t id).2 (R id) + badOf c t R id := by
    intro l hl
    refine List.map_congr_left (fun j hj => ?_)
    have hl' := hlt j (hl j hj)
    have q2 : rowsSplit R t.fresh (t.fresh + 1) mv j = R j := by unfold rowsSplit; rw [if_neg (by omega), if_neg (by omega)]
    obtain ⟨n, hn⟩ := h.chain.mem j (hl j hj)
    obtain ⟨n', q1, q3, -⟩ := hs.old j n hn
    have q4 := hs.oldsum j n n' hn q1
    unfold rangeAt badOf
    rw [hn, q1, q2]; dsimp only; rw [q3, q4]
  have hred : ∀ A : Prop, (wt c (svOf nd (R id).length) (rowsAfter t.fresh mv []) + wt c (hiOf nd.blk) (rowsAfter (t.fresh + 1) mv []) <
      wt c (hiOf nd.blk) (R id) + (if nd.sum = xsum c (R id) then 0 else 2) ∨ A) →
      (PTable.load c t' (rowsSplit R t.fresh (t.fresh + 1) mv) (pre ++ t.fresh :: (t.fresh + 1) :: post) < PTable.load c t R (pre ++ id :: post) ∨ A) := by
    intro A hA
    refine hA.imp_left (fun hlt => ?_)
    unfold PTable.load
    rw [List.map_append, List.map_cons, List.map_cons, List.map_append, List.map_cons, hcong pre (fun j hj => by simp [hj]),
      hcong post (fun j hj => by simp [hj]), List.sum_append, List.sum_append, List.sum_cons, List.sum_cons, List.sum_cons, e0, e1, e2, r1, r2, b0, b1, b2]
    omega
  refine hred _ ?_
  clear hred hcong b0 b1 b2 e0 e1 e2 r1 r2
  have m1 := rowsAfter_fst (i := t.fresh) (f := fun p vs => tgt c (R id).length (svOf nd (R id).length) (hiOf nd.blk) t.fresh (t.fresh + 1) p vs) hs.tgts
  have m2 := rowsAfter_fst (i := t.fresh + 1) (f := fun p vs => tgt c (R id).length (svOf nd (R id).length) (hiOf nd.blk) t.fresh (t.fresh + 1) p vs) hs.tgts
  have n1 := congrArg List.length m1
  have n2 := congrArg List.length m2
  rw [List.length_map, List.length_reverse, List.length_map] at n1 n2
  have n12 : (rowsAfter t.fresh mv []).length + (rowsAfter (t.fresh + 1) mv []).length ≤ (R id).length := by
    have hl := filter_pair t.fresh (t.fresh + 1) (by omega) mv
    have hm := congrArg List.length hs.moved
    rw [List.length_map, List.length_map] at hm
    have hsub := (liveFrom_sublist nd.deleted (R id).reverse 0).length_le
    rw [List.length_map, List.length_reverse] at hsub
    have el : ∀ i, (rowsAfter i mv []).length = (mv.filter (fun m => decide (m.1 = i))).length := by
      intro i
      unfold rowsAfter
      rw [List.append_nil, List.length_reverse, List.length_map]
    rw [el, el]
    omega
  have mem : ∀ i, ∀ r ∈ rowsAfter i mv [], ∃ r' ∈ R id, r'.1 = r.1 := by
    intro i r hr
    have hr' : r.1 ∈ (rowsAfter i mv []).map Prod.fst := List.mem_map.2 ⟨r, hr, rfl⟩
    rw [rowsAfter_fst (f := fun p vs => tgt c (R id).length (svOf nd (R id).length) (hiOf nd.blk) t.fresh (t.fresh + 1) p vs) hs.tgts, List.mem_reverse] at hr'
    obtain ⟨q, hq, e⟩ := List.mem_map.1 hr'
    have := (liveFrom_mem (List.mem_filter.1 hq).1).1
    exact ⟨q.2, by simpa using this, e⟩
  have w1 := wt_le (c := c) (svOf nd (R id).length) (rowsAfter t.fresh mv []) _ (Nat.le_refl _)
  have w2 := wt_le (c := c) (hiOf nd.blk) (rowsAfter (t.fresh + 1) mv []) _ (Nat.le_refl _)
  have wg := wt_ge (c := c) (hiOf nd.blk) hne
  by_cases hbad : nd.sum = xsum c (R id)
  swap
  · left
    rw [if_neg hbad]
    omega
  rw [if_pos hbad, Nat.add_zero]
  have havg : svOf nd (R id).length = xsum c (R id) / (R id).length := by
    unfold svOf
    rw [hbad]
    refine Nat.mod_eq_of_lt ?_
    have := Nat.div_le_of_le_mul (Nat.mul_comm _ _ ▸ xsum_lt hg (R id))
    omega
  generalize svOf nd (R id).length = sv at *
  have hdm := Nat.div_mul_le_self (xsum c (R id)) (R id).length
  rw [← havg] at hdm
  by_cases hc : sv = hiOf nd.blk
  · by_cases hemp : rowsAfter t.fresh mv [] = []
    · exact Or.inr ⟨hemp, hc⟩
    left
    have hp1 := List.length_pos_iff.2 hemp
    have b1 : (rowsAfter t.fresh mv []).length ≤ (R id).length / 2 := by
      rw [n1]
      refine Nat.le_trans (Nat.le_of_eq ?_) (Nat.le_trans (liveFrom_lt nd.deleted ((R id).length / 2) (R id).reverse 0) (by omega))
      congr 1
      refine List.filter_congr (fun q _ => ?_)
      unfold tgt
      rw [if_pos hc]
      by_cases hq : q.1 < (R id).length / 2 <;> simp [hq]
    by_cases hall : ∀ r ∈ R id, c.xtr r.1 = hiOf nd.blk
    · have hw : ∀ i, wt c (hiOf nd.blk) (rowsAfter i mv []) = if rowsAfter i mv [] = [] then 0 else 4 * (rowsAfter i mv []).length - 2 := by
        intro i
        unfold wt
        split
        · rfl
        · rw [if_pos (fun r hr => ?_)]; rfl
          obtain ⟨r', h1, h2⟩ := mem i r hr
          rw [← h2]; exact hall r' h1
      rw [hc, hw, hw, if_neg hemp]
      by_cases he2 : rowsAfter (t.fresh + 1) mv [] = []
      · rw [if_pos he2]
        omega
      · rw [if_neg he2]
        have := List.length_pos_iff.2 he2
        omega
    · have w0 : wt c (hiOf nd.blk) (R id) = 4 * (R id).length - 2 + 1 := by unfold wt; rw [if_neg hne, if_neg hall]
      rw [hc] at w1 ⊢
      by_cases he2 : (rowsAfter (t.fresh + 1) mv []).length = 0
      · omega
      · omega
  · left
    have hnall : ¬ ∀ r ∈ R id, c.xtr r.1 = hiOf nd.blk := by
      intro hall
      have : ∀ l : Rows, (∀ r ∈ l, c.xtr r.1 = hiOf nd.blk) → xsum c l = hiOf nd.blk * l.length := by
        intro l
        induction l with
        | nil => intro _; rfl
        | cons a l ih =>
          intro hl
          rw [xsum_cons, ih (fun q hq => hl q (List.mem_cons_of_mem _ hq)), hl a (List.mem_cons_self ..), List.length_cons, Nat.mul_succ]
          omega
      rw [this _ hall, Nat.mul_div_cancel _ hlen] at havg
      exact hc havg
    have w0 : wt c (hiOf nd.blk) (R id) = 4 * (R id).length - 2 + 1 := by unfold wt; rw [if_neg hne, if_neg hnall]
    have c1 : (rowsAfter t.fresh mv []).length ≤ (R id).countP (fun r => decide (c.xtr r.1 ≤ sv)) := by
      rw [n1, ← (List.reverse_perm (R id)).countP_eq]
      refine Nat.le_trans (Nat.le_of_eq ?_) (liveFrom_count nd.deleted (fun vs => decide (c.xtr vs ≤ sv)) (R id).reverse 0)
      congr 1
      refine List.filter_congr (fun q _ => ?_)
      unfold tgt
      rw [if_neg hc]
      by_cases hq : c.xtr q.2.1 ≤ sv <;> simp [hq]
    have c2 : (rowsAfter (t.fresh + 1) mv []).length ≤ (R id).countP (fun r => decide (¬ c.xtr r.1 ≤ sv)) := by
      rw [n2, ← (List.reverse_perm (R id)).countP_eq]
      refine Nat.le_trans (Nat.le_of_eq ?_) (liveFrom_count nd.deleted (fun vs => decide (¬ c.xtr vs ≤ sv)) (R id).reverse 0)
      congr 1
      refine List.filter_congr (fun q _ => ?_)
      unfold tgt
      rw [if_neg hc]
      by_cases hq : c.xtr q.2.1 ≤ sv <;> simp [hq]
    have k1 := List.countP_le_length (p := fun r : List Val × List Nat => decide (c.xtr r.1 ≤ sv)) (l := R id)
    have k2 := List.countP_le_length (p := fun r : List Val × List Nat => decide (¬ c.xtr r.1 ≤ sv)) (l := R id)
    have hn2 : (R id).countP (fun r => decide (¬ c.xtr r.1 ≤ sv)) < (R id).length := by
      rcases Nat.lt_or_ge ((R id).countP (fun r => decide (¬ c.xtr r.1 ≤ sv))) (R id).length with h | h
      · exact h
      · exfalso
        have hall := List.countP_eq_length.1 (Nat.le_antisymm k2 h)
        have : ∀ l : Rows, (∀ r ∈ l, decide (¬ c.xtr r.1 ≤ sv) = true) → (sv + 1) * l.length ≤ xsum c l := by
          intro l
          induction l with
          | nil => intro _; simp
          | cons a l ih =>
            intro hl
            have := ih (fun q hq => hl q (List.mem_cons_of_mem _ hq))
            have ha := hl a (List.mem_cons_self ..)
            have ha : ¬ c.xtr a.1 ≤ sv := by simpa using ha
            rw [xsum_cons, List.length_cons, Nat.mul_succ]
            omega
        have := (Nat.le_div_iff_mul_le hlen).2 (this _ hall)
        omega
    rw [w0]
    by_cases hfull : (rowsAfter t.fresh mv []).length = (R id).length
    · have hall := List.countP_eq_length.1 (Nat.le_antisymm k1 (by omega))
      have hall' : ∀ r ∈ R id, c.xtr r.1 = sv := xsum_all (fun r hr => by simpa using hall r hr) hdm
      have hne1 : rowsAfter t.fresh mv [] ≠ [] := by
        intro h; rw [h] at hfull; simp at hfull; omega
      have : wt c sv (rowsAfter t.fresh mv []) = 4 * (rowsAfter t.fresh mv []).length - 2 := by
        unfold wt
        rw [if_neg hne1, if_pos (fun r hr => ?_)]; rfl
        obtain ⟨r', h1, h2⟩ := mem _ r hr
        rw [← h2]; exact hall' r' h1
      rw [this]
      omega
    · omega

/-! ## Calls and interrupted calls come to an end -/

theorem TInv.pick {t : Tbl} {R : Nat → Rows} {l : List Nat} (h : TInv c S t R l) (vs : List Val) {x : Nat} (hx : x < 2 ^ c.bins) :
    ∃ id nd ns, pick x (l.map (entOf c t vs)) = some (entOf c t vs id, ns) ∧ id ∈ l ∧ t.nodes id = some nd ∧ (ns = false → fullOf c vs nd = false) := by
  obtain ⟨j, hj, n, hn, hx1, hx2⟩ := h.cover x hx
  obtain ⟨e, ns, p1, p2, p3⟩ := pick_some (x := x) (l := l.map (entOf c t vs)) ⟨entOf c t vs j, List.mem_map.2 ⟨j, hj, rfl⟩, by
    rw [entOf_some hn]; exact ⟨hx1, hx2⟩⟩
  obtain ⟨id, hid, rfl⟩ := List.mem_map.1 p2
  obtain ⟨nd, hnd⟩ := h.chain.mem id hid
  rw [entOf_some hnd] at p3
  exact ⟨id, nd, ns, p1, hid, hnd, p3⟩

theorem insert_landW (hg : c.Good) {vs : List Val} (hv : c.Rec vs) (hS : S vs) {key : Int} {t : Tbl} {R : Nat → Rows} {l : List Nat} {id : Nat} {nd : Node}
    (h : TInv c S t R l) (hnd : t.nodes id = some nd) (hf : fullOf c vs nd = false)
    (hp : pick (c.xtr vs) (l.map (entOf c t vs)) = some (entOf c t vs id, false)) :
    (∃ t', ∀ f, 1 ≤ f → insert c f t key vs = .ok t') ∧ ∀ q, ∃ t', ∀ f, 1 ≤ f → insertAt c f t key vs q = .ok t' := by
  have hfit := ((h.ok id nd hnd).space hv.typed).2 hf
  obtain ⟨nd', os, e, -⟩ := insertTupleW_ok hg hnd (h.ok id nd hnd) hv hS hfit key
  obtain ⟨os', L, -, hq⟩ := insertTupleAt_ok hg hnd (h.ok id nd hnd) hv hS hfit key
  constructor
  · have key' : ∀ r, insertTuple c t key vs id = r → ∀ f, 1 ≤ f → insert c f t key vs = r := by
      intro r e f hf
      obtain ⟨f, rfl⟩ : ∃ g, f = g + 1 := ⟨f - 1, by omega⟩
      rw [(insert_eqW h hv.typed (f := f) (key := key) hp).1, entOf_id]
      exact e
    exact ⟨_, key' _ e⟩
  · intro q
    obtain ⟨nd'', e', -⟩ := hq q
    have key' : ∀ r, insertTupleAt c t key vs id q = r → ∀ f, 1 ≤ f → insertAt c f t key vs q = r := by
      intro r e f hf
      obtain ⟨f, rfl⟩ : ∃ g, f = g + 1 := ⟨f - 1, by omega⟩
      rw [(insert_eqW h hv.typed (f := f) (key := key) hp).2, entOf_id]
      exact e
    exact ⟨_, key' _ e'⟩

theorem insert_total (hg : c.Good) {vs : List Val} (hv : c.Rec vs) (hS : S vs) (ha : c.Accepted vs) (key : Int) :
    ∀ (m : Nat) {t : Tbl} {R : Nat → Rows} {l : List Nat}, TInv c S t R l → load c t R l ≤ m →
    (∃ t', ∀ f, m + 2 ≤ f → insert c f t key vs = .ok t') ∧ ∀ q, ∃ t', ∀ f, m + 2 ≤ f → insertAt c f t key vs q = .ok t' := by
  intro m
  induction m using Nat.strongRecOn with
  | _ m ih =>
    intro t R l h hm
    obtain ⟨id, nd, ns, hp, hid, hnd, hns⟩ := h.pick vs (hg.xtr vs)
    cases ns with
    | false =>
      obtain ⟨⟨t', q1⟩, q2⟩ := insert_landW (key := key) hg hv hS h hnd (hns rfl) hp
      refine ⟨⟨t', fun f hf => q1 f (by omega)⟩, fun q => ?_⟩
      obtain ⟨t'', q3⟩ := q2 q
      exact ⟨t'', fun f hf => q3 f (by omega)⟩
    | true =>
      have heq := fun f => insert_eqW h hv.typed (f := f) (key := key) hp
      rw [entOf_id] at heq
      have hfull : fullOf c vs nd = true := by
        have := pick_full hp
        rw [entOf_some hnd] at this
        exact this
      have hne : R id ≠ [] := by
        intro he
        rw [(h.ok id nd hnd).not_full hg he hv.typed ha] at hfull
        cases hfull
      obtain ⟨pre, post, rfl⟩ := List.append_of_mem hid
      obtain ⟨t1, mv, nd1, nd2, es, hs, hi1⟩ := splitBlockW_ok hg h hnd hne
      have heq1 : ∀ f, insert c (f + 1) t key vs = insert c f t1 key vs := by
        intro f
        rw [(heq f).1, if_pos rfl, es, Res.ok_bind]
      have heq2 : ∀ f q, insertAt c (f + 1) t key vs (q + 1) = insertAt c f t1 key vs q := by
        intro f q
        rw [(heq f).2, if_pos rfl]
        dsimp only
        rw [es, Res.ok_bind]
      have heq0 : ∀ f, insertAt c (f + 1) t key vs 0 = .ok t := fun f => by rw [(heq f).2, if_pos rfl]
      have hfin : (∃ n, n ≤ m + 1 ∧ (∃ t', ∀ f, n ≤ f → insert c f t1 key vs = .ok t') ∧ ∀ q, ∃ t', ∀ f, n ≤ f → insertAt c f t1 key vs q = .ok t') →
          (∃ t', ∀ f, m + 2 ≤ f → insert c f t key vs = .ok t') ∧ ∀ q, ∃ t', ∀ f, m + 2 ≤ f → insertAt c f t key vs q = .ok t' := by
        rintro ⟨n, hn, ⟨t', q1⟩, q2⟩
        refine ⟨⟨t', fun f hf => ?_⟩, fun q => ?_⟩
        · obtain ⟨f, rfl⟩ : ∃ g, f = g + 1 := ⟨f - 1, by omega⟩
          rw [heq1]
          exact q1 f (by omega)
        · cases q with
          | zero =>
            refine ⟨t, fun f hf => ?_⟩
            obtain ⟨f, rfl⟩ : ∃ g, f = g + 1 := ⟨f - 1, by omega⟩
            exact heq0 f
          | succ q =>
            obtain ⟨t'', q3⟩ := q2 q
            refine ⟨t'', fun f hf => ?_⟩
            obtain ⟨f, rfl⟩ : ∃ g, f = g + 1 := ⟨f - 1, by omega⟩
            rw [heq2]
            exact q3 f (by omega)
      apply hfin
      rcases hs.load hg h hnd hne with hmu | ⟨he, hsv⟩
      · obtain ⟨m', hm'⟩ : ∃ m', load c t1 (rowsSplit R t.fresh (t.fresh + 1) mv) (pre ++ t.fresh :: (t.fresh + 1) :: post) = m' := ⟨_, rfl⟩
        rw [hm'] at hmu
        exact ⟨m' + 2, by omega, ih m' (by omega) hi1 (by omega)⟩
      · have hr1 : rowsSplit R t.fresh (t.fresh + 1) mv t.fresh = [] := by
          unfold rowsSplit
          rw [if_neg (by omega), if_pos rfl]
          exact he
        have hnf : fullOf c vs nd1 = false := (hi1.ok t.fresh nd1 hs.node1).not_full hg hr1 hv.typed ha
        have hent : ∀ j ∈ pre ++ id :: post, entOf c t1 vs j = entOf c t vs j := by
          intro j hj
          obtain ⟨n, hn⟩ := h.chain.mem j hj
          obtain ⟨n', q1, q2, -⟩ := hs.old j n hn
          rw [entOf_some hn, entOf_some q1]
          unfold fullOf
          rw [q2]
        have hnd' := h.nodup
        rw [List.nodup_append, List.nodup_cons] at hnd'
        have hland := pick_landW (x := c.xtr vs) (s := entOf c t vs id) (s' := entOf c t1 vs t.fresh)
          (post := post.map (entOf c t vs)) (post' := ((t.fresh + 1) :: post).map (entOf c t1 vs))
          (by rw [entOf_some hs.node1]; exact hnf)
          (by rw [entOf_some hs.node1, entOf_some hnd]; exact ⟨hs.rng1.1, hs.rng1.2.trans hsv⟩)
          (by
            intro hc
            obtain ⟨j, hj, e⟩ := List.mem_map.1 hc
            have e := congrArg Ent.id e
            rw [entOf_id, entOf_id] at e
            exact hnd'.2.1.1 (e ▸ hj))
          (pre.map (entOf c t vs)) (by rw [← List.map_cons, ← List.map_append]; exact hp)
          (by
            intro hc
            obtain ⟨j, hj, e⟩ := List.mem_map.1 hc
            have e := congrArg Ent.id e
            rw [entOf_id, entOf_id] at e
            exact hnd'.2.2 j hj id (by simp) e)
        have hp1 : PTable.pick (c.xtr vs) ((pre ++ t.fresh :: (t.fresh + 1) :: post).map (entOf c t1 vs)) = some (entOf c t1 vs t.fresh, false) := by
          rw [List.map_append, List.map_cons, List.map_congr_left (fun j hj => hent j (by simp [hj]))]
          exact hland
        exact ⟨1, by omega, insert_landW (key := key) hg hv hS hi1 hs.node1 hnf hp1⟩

/-- An event comes to an end. -/
theorem evStep_total (hg : c.Good) {t : Tbl} {R : Nat → Rows} {l : List Nat} (h : TInv c S t R l) {ev : TEv}
    (hr : ∀ vs ∈ ev.op.recs, (c.Rec vs ∧ S vs) ∧ c.Accepted vs) : ∃ t' N, ∀ f, N ≤ f → evStep c f t ev = .ok t' := by
  have hins : ∀ key vs, ((c.Rec vs ∧ S vs) ∧ c.Accepted vs) → ∀ {t : Tbl} {R : Nat → Rows} {l : List Nat}, TInv c S t R l →
      ∃ N, (∃ t', ∀ f, N ≤ f → insert c f t key vs = .ok t') ∧ ∀ q, ∃ t', ∀ f, N ≤ f → insertAt c f t key vs q = .ok t' :=
    fun key vs hv t R l h => ⟨_, insert_total hg hv.1.1 hv.1.2 hv.2 key _ h (Nat.le_refl _)⟩
  have hdel : ∀ key, t.index key = none ∨ ∃ t1 R1 l1, deleteByKey c t key = .ok t1 ∧ TInv c S t1 R1 l1 := by
    intro key
    cases hk : t.index key with
    | none => exact Or.inl rfl
    | some hd =>
      obtain ⟨id, os⟩ := hd
      obtain ⟨nd, hnd, hd⟩ := delete_okW hg h hk
      exact Or.inr ⟨_, R, l, hd, h.delete key hnd _⟩
  cases ev with
  | call op =>
    show ∃ t' N, ∀ f, N ≤ f → after c f t op = .ok t'
    cases op with
    | ins key vs =>
      obtain ⟨N, ⟨t', e⟩, -⟩ := hins key vs (hr vs (by simp [TEv.op, Op.recs])) h
      refine ⟨t', N, fun f hf => ?_⟩
      unfold after
      rw [step, e f hf]
    | del key =>
      rcases hdel key with hk | ⟨t1, R1, l1, hd, -⟩
      · refine ⟨t, 0, fun f _ => ?_⟩
        unfold after
        rw [step, delete_throws hk]
      · refine ⟨t1, 0, fun f _ => ?_⟩
        unfold after
        rw [step, hd]
    | upd key vs =>
      rcases hdel key with hk | ⟨t1, R1, l1, hd, h1⟩
      · refine ⟨t, 0, fun f _ => ?_⟩
        unfold after
        rw [step, updateComplete, delete_throws hk]; rfl
      · obtain ⟨N, ⟨t', e⟩, -⟩ := hins key vs (hr vs (by simp [TEv.op, Op.recs])) h1
        refine ⟨t', N, fun f hf => ?_⟩
        unfold after
        rw [step, updateComplete, hd, Res.ok_bind, e f hf]
  | crash op q =>
    cases op with
    | ins key vs =>
      obtain ⟨N, -, e⟩ := hins key vs (hr vs (by simp [TEv.op, Op.recs])) h
      obtain ⟨t', e⟩ := e q
      refine ⟨t', N, fun f hf => ?_⟩
      rw [evStep, opAt, e f hf]
    | del key =>
      cases q with
      | zero => exact ⟨t, 0, fun f _ => rfl⟩
      | succ q =>
        rcases hdel key with hk | ⟨t1, R1, l1, hd, -⟩
        · refine ⟨t, 0, fun f _ => ?_⟩
          rw [evStep, opAt, delete_throws hk]
        · refine ⟨t1, 0, fun f _ => ?_⟩
          rw [evStep, opAt, hd]
    | upd key vs =>
      cases q with
      | zero => exact ⟨t, 0, fun f _ => rfl⟩
      | succ q =>
        rcases hdel key with hk | ⟨t1, R1, l1, hd, h1⟩
        · refine ⟨t, 0, fun f _ => ?_⟩
          rw [evStep, opAt, delete_throws hk]; rfl
        · obtain ⟨N, -, e⟩ := hins key vs (hr vs (by simp [TEv.op, Op.recs])) h1
          obtain ⟨t', e⟩ := e q
          refine ⟨t', N, fun f hf => ?_⟩
          rw [evStep, opAt, hd, Res.ok_bind, e f hf]

theorem thist_total (hg : c.Good) : ∀ (evs : List TEv) {t : Tbl} {R : Nat → Rows} {l : List Nat}, TInv c S t R l →
    (∀ ev ∈ evs, ∀ vs ∈ ev.op.recs, (c.Rec vs ∧ S vs) ∧ c.Accepted vs) → ∃ t' N, ∀ f, N ≤ f → thist c f t evs = .ok t'
  | [], t, R, l, _, _ => ⟨t, 0, fun _ _ => rfl⟩
  | ev :: evs, t, R, l, h, hr => by
    obtain ⟨t1, N, e⟩ := evStep_total hg h (hr ev (List.mem_cons_self ..))
    obtain ⟨R1, l1, h1, -⟩ := evStep_W hg h (fun vs hv => (hr ev (List.mem_cons_self ..) vs hv).1) (e N (Nat.le_refl _))
    obtain ⟨t', N', e'⟩ := thist_total hg evs h1 (fun ev he => hr ev (List.mem_cons_of_mem _ he))
    refine ⟨t', max N N', fun f hf => ?_⟩
    rw [thist, e f (by omega), Res.ok_bind, e' f (by omega)]

/-! ## C114 -/

/-- C114: a history of calls and crashes of records that fit into an empty block never fails: every insert, update and erase comes to an end, also
behind crashes and also those that are interrupted later on. -/
theorem C114_total (hg : c.Good) {evs : List TEv} (hr : ∀ ev ∈ evs, ∀ vs ∈ ev.op.recs, c.Rec vs ∧ c.Accepted vs) {t0 : Tbl} (hi : init c = .ok t0) :
    ∃ t N, ∀ f, N ≤ f → thist c f t0 evs = .ok t := by
  obtain ⟨t0', h0', hinv, -⟩ := inv_init hg
  rw [hi] at h0'
  cases h0'
  exact thist_total hg evs (hinv.weak hg) (fun ev he vs hv => ⟨⟨(hr ev he vs hv).1, trivial⟩, (hr ev he vs hv).2⟩)

/-- C111, restricted to keys that no interrupted call names, for records that fit into an empty block: the history comes to an end, and
`getByKey` follows the calls that name the key.  Missing: keys of interrupted calls; see `C111_refuted`. -/
theorem C111_total_partial (hg : c.Good) (h0 : c.sch[0]? ≠ some .str) {evs : List TEv}
    (hr : ∀ ev ∈ evs, ∀ vs ∈ ev.op.recs, c.Rec vs ∧ c.Accepted vs) (hk : ∀ ev ∈ evs, ev.op.Keyed c) {t0 : Tbl} (hi : init c = .ok t0) :
    ∃ t N, (∀ f, N ≤ f → thist c f t0 evs = .ok t) ∧
      ∀ k, (∀ op q, TEv.crash op q ∈ evs → op.key ≠ k) → Legal (fun _ => none) (callsOf k evs) →
        LookAt c t k (specRun (callsOf k evs) k) := by
  obtain ⟨t, N, e⟩ := C114_total hg hr hi
  exact ⟨t, N, e, fun k hc hl => C111_other_keys_partial hg h0 (fun ev he vs hv => (hr ev he vs hv).1) hk hi (e N le_rfl) hc hl⟩

/-- C114: after a history of calls and crashes, `insert` finds a block for every BDCC value. -/
theorem C114_cover (hg : c.Good) {evs : List TEv} (hr : ∀ ev ∈ evs, ∀ vs ∈ ev.op.recs, c.Rec vs) {f : Nat} {t0 t : Tbl} (hi : init c = .ok t0)
    (e : thist c f t0 evs = .ok t) {x : Nat} (hx : x < 2 ^ c.bins) :
    ∃ id nd, findTarget t x t.fresh (some t.head) = .ok (some id) ∧ t.nodes id = some nd ∧ ∃ lo hi, range nd.blk = .ok (lo, hi) ∧ lo ≤ x ∧ x ≤ hi := by
  obtain ⟨t0', h0', hinv, -⟩ := inv_init hg
  rw [hi] at h0'
  cases h0'
  obtain ⟨R, l, h, -⟩ := thist_W hg evs (hinv.weak hg) (fun ev he vs hv => ⟨hr ev he vs hv, trivial⟩) e
  obtain ⟨j, hj, n, hn, hx1, hx2⟩ := h.cover x hx
  have hf := findTarget_ok (c := c) (vs := []) (x := x) l _ t.fresh h.chain h.len
  cases hfd : l.find? (fun id => decide ((entOf c t [] id).lo ≤ x ∧ x ≤ (entOf c t [] id).hi)) with
  | none =>
    have := List.find?_eq_none.1 hfd j hj
    rw [entOf_some hn] at this
    exact absurd (by simp [hx1, hx2]) this
  | some id =>
    have hm := List.mem_of_find?_eq_some hfd
    have hp := List.find?_some hfd
    obtain ⟨nd, hnd⟩ := h.chain.mem id hm
    rw [entOf_some hnd] at hp
    have hp := of_decide_eq_true hp
    exact ⟨id, nd, by rw [hf, hfd], hnd, _, _, range_ok _, hp.1, hp.2⟩

/-- A crash at any step of the first insert, an erase that throws, and an insert that may have to split a block. -/
theorem exGhost_total (q : Nat) : ∃ t0 t N, init exText = .ok t0 ∧ ∀ f, N ≤ f → thist exText f t0 (exGhost q) = .ok t := by
  obtain ⟨t0, h0, -⟩ := inv_init exText_good
  obtain ⟨t, N, h⟩ := C114_total exText_good (evs := exGhost q) (fun ev he vs hv => ⟨(exGhost_ok q).1 ev he vs hv, by
    simp only [exGhost, List.mem_cons, List.not_mem_nil, or_false] at he
    rcases he with rfl | rfl | rfl
    · have : vs = exRow 16 14000 := by simpa [TEv.op, Op.recs] using hv
      rw [this]; exact exRow_accepted 16 (by omega)
    · simp [TEv.op, Op.recs] at hv
    · have : vs = exRow 5 14000 := by simpa [TEv.op, Op.recs] using hv
      rw [this]; exact exRow_accepted 5 (by omega)⟩) h0
  exact ⟨t0, t, N, h0, h⟩

/-! ## C115 -/

/-- C115: after every history of calls, a record that `getByKey` finds is stored in a block whose range contains its BDCC value. -/
theorem C115_clustered (hg : c.Good) {ops : List Op} (hr : ∀ op ∈ ops, ∀ vs ∈ op.recs, c.Rec vs) {f : Nat} {t0 t : Tbl}
    (h0 : init c = .ok t0) (e : run c f t0 ops = .ok t) {k : Int} {h : Handle} (hk : getByKey t k = .ok h) :
    ∃ nd vs lo hi, t.nodes h.1 = some nd ∧ readHandle c t h = .ok vs ∧ range nd.blk = .ok (lo, hi) ∧ lo ≤ c.xtr vs ∧ c.xtr vs ≤ hi := by
  obtain ⟨t0', h0', hi, -⟩ := inv_init hg
  rw [h0] at h0'
  cases h0'
  obtain ⟨R, l, -, hinv⟩ := run_sound hg ops hi hr e
  unfold getByKey at hk
  cases hx : t.index k with
  | none => rw [hx] at hk; cases hk
  | some h' =>
    rw [hx] at hk
    cases hk
    obtain ⟨nd, vs, hnd, hm⟩ := hinv.idx k h.1 h.2 hx
    have hb := (hinv.ok h.1 nd hnd).rng _ hm
    exact ⟨nd, vs, _, _, hnd, (hinv.weakS (S := fun _ => True) hg (fun _ _ _ => trivial)).readW hnd hm, range_ok _, hb.1, hb.2⟩

/-- Two records in different blocks, after an update that splits. -/
example {f : Nat} {t0 t : Tbl} (h0 : init exText = .ok t0) (e : run exText f t0 exOps = .ok t) :
    ∃ h nd lo hi, getByKey t 1 = .ok h ∧ t.nodes h.1 = some nd ∧ range nd.blk = .ok (lo, hi) ∧ lo ≤ exText.xtr (exRow 1 20000) ∧
      exText.xtr (exRow 1 20000) ≤ hi := by
  obtain ⟨h, e1, e2⟩ := C59_get_partial exText_good (by decide) (fun op ho vs hv => (exOps_ok.1 op ho vs hv).1) exOps_ok.2.1 exOps_ok.2.2 h0 e 1
  obtain ⟨nd, vs, lo, hi, q1, q2, q3, q4⟩ := C115_clustered exText_good (fun op ho vs hv => (exOps_ok.1 op ho vs hv).1) h0 e e1
  rw [e2] at q2
  cases q2
  exact ⟨h, nd, lo, hi, e1, q1, q3, q4⟩

end Verif.PTable
