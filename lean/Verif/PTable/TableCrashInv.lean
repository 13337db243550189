import Verif.PTable.TableCrash

/-!
# Histories of calls and crashes of a table: invariants
-/

namespace Verif.PTable

variable {c : Cfg} {S : List Val → Prop}

/-! ## The block that `insert` chooses -/

theorem findTargetW {t : Tbl} {x : Nat} : ∀ (l : List Nat) (p : Option Nat) (f : Nat), Chain t.nodes p l → l.length ≤ f →
    findTarget t x f p = .ok none ∨ ∃ id ∈ l, findTarget t x f p = .ok (some id)
  | [], p, f, h, _ => by
    have h : p = none := h
    subst h
    left
    cases f <;> rfl
  | id :: l, p, 0, _, hf => by simp at hf
  | id :: l, p, f + 1, ⟨h1, nd, h2, h3⟩, hf => by
    subst h1
    rw [findTarget, Tbl.get_ok h2, Res.ok_bind, range_ok, Res.ok_bind]
    split
    · exact Or.inr ⟨id, List.mem_cons_self .., rfl⟩
    · rcases findTargetW l nd.next f h3 (by simpa using hf) with e | ⟨i, hi, e⟩
      · exact Or.inl e
      · exact Or.inr ⟨i, List.mem_cons_of_mem _ hi, e⟩

theorem walkSameW {t : Tbl} {R : Nat → Rows} (hok : ∀ id nd, t.nodes id = some nd → NodeW c S nd (R id)) {vs : List Val} (hv : vs.map Val.ty = c.sch) :
    ∀ (l : List Nat) (id : Nat) (nd : Node) (f : Nat), t.nodes id = some nd → Chain t.nodes nd.next l → l.length + 1 ≤ f →
    ∃ id' lo e nd', walkSame c t vs f id nd = .ok (id', lo, e) ∧ id' ∈ id :: l ∧ t.nodes id' = some nd' ∧ (e = false → Fits c.sch nd'.blk (R id') vs)
  | l, id, nd, 0, _, _, hf => by omega
  | l, id, nd, f + 1, hnd, hc, hf => by
    obtain ⟨e, he, hfit⟩ := hasEnoughSpaceW_ok (hok id nd hnd).rep hv
    have hend : ∃ id' lo e' nd', (Res.ok (id, (loOf nd.blk, hiOf nd.blk).1, !e) : Res (Nat × Nat × Bool)) = .ok (id', lo, e') ∧ id' ∈ id :: l ∧
        t.nodes id' = some nd' ∧ (e' = false → Fits c.sch nd'.blk (R id') vs) :=
      ⟨id, _, _, nd, rfl, List.mem_cons_self .., hnd, fun h => hfit (by simpa using h)⟩
    rw [walkSame, range_ok, Res.ok_bind, he, Res.ok_bind]
    cases hn : nd.next with
    | none => exact hend
    | some i =>
      dsimp only
      split
      · cases l with
        | nil =>
          rw [hn] at hc
          cases hc
        | cons j l =>
          obtain ⟨h1, nd2, h2, h3⟩ := hc
          rw [hn] at h1
          cases h1
          rw [Tbl.get_ok h2, Res.ok_bind]
          obtain ⟨id', lo, e', nd', q1, q2, q3, q4⟩ := walkSameW hok hv l i nd2 f h2 h3 (by simp at hf ⊢; omega)
          exact ⟨id', lo, e', nd', q1, List.mem_cons_of_mem _ q2, q3, q4⟩
      · exact hend

theorem choiceW {t : Tbl} {R : Nat → Rows} {l : List Nat} (h : TInv c S t R l) {vs : List Val} (hv : vs.map Val.ty = c.sch) :
    findTarget t (c.xtr vs) t.fresh (some t.head) = .ok none ∨
    ∃ id id' ns, findTarget t (c.xtr vs) t.fresh (some t.head) = .ok (some id) ∧ findInsertNodeOrSplit c t vs id = .ok (id', ns) ∧ id' ∈ l ∧
      ∃ nd, t.nodes id' = some nd ∧ (ns = false → Fits c.sch nd.blk (R id') vs) := by
  rcases findTargetW (x := c.xtr vs) l _ t.fresh h.chain h.len with e | ⟨id, hid, e⟩
  · exact Or.inl e
  right
  obtain ⟨pre, post, rfl⟩ := List.append_of_mem hid
  obtain ⟨r, hr⟩ := h.chain.suffix
  obtain ⟨-, nd, hnd, hc⟩ := hr
  have hlen := h.len
  rw [List.length_append, List.length_cons] at hlen
  obtain ⟨id', lo, e', nd', q1, q2, q3, q4⟩ := walkSameW h.ok hv post id nd t.fresh hnd hc (by omega)
  have q2' : id' ∈ pre ++ id :: post := List.mem_append_right _ q2
  by_cases hx : c.xtr vs < lo
  · refine ⟨id, id, true, e, ?_, hid, nd, hnd, fun h => by cases h⟩
    unfold findInsertNodeOrSplit
    rw [Tbl.get_ok hnd, Res.ok_bind, q1, Res.ok_bind, if_pos hx]; rfl
  · refine ⟨id, id', e', e, ?_, q2', nd', q3, q4⟩
    unfold findInsertNodeOrSplit
    rw [Tbl.get_ok hnd, Res.ok_bind, q1, Res.ok_bind, if_neg hx]; rfl

/-! ## Steps -/

inductive SplitsW (c : Cfg) (S : List Val → Prop) : Tbl → (Nat → Rows) → List Nat → Tbl → (Nat → Rows) → List Nat → Prop
  | refl {t R l} : TInv c S t R l → SplitsW c S t R l t R l
  | step {t R pre id post nd t1 mv nd1 nd2 t' R' l'} : TInv c S t R (pre ++ id :: post) → t.nodes id = some nd → R id ≠ [] →
    SplitW c t R id nd t1 mv nd1 nd2 →
    SplitsW c S t1 (rowsSplit R t.fresh (t.fresh + 1) mv) (pre ++ t.fresh :: (t.fresh + 1) :: post) t' R' l' →
    SplitsW c S t R (pre ++ id :: post) t' R' l'

theorem SplitsW.inv {t t' : Tbl} {R R' : Nat → Rows} {l l' : List Nat} (h : SplitsW c S t R l t' R' l') : TInv c S t' R' l' := by
  induction h with
  | refl h => exact h
  | step _ _ _ _ _ ih => exact ih

/-- A block changes; its records stay (`ro = none`), or one is added. -/
structure PutW (c : Cfg) (S : List Val → Prop) (t : Tbl) (R : Nat → Rows) (l : List Nat) (ro : Option (List Val × List Nat)) (ix : Int → Option Handle)
    (id : Nat) (t' : Tbl) : Prop where
  mem : id ∈ l
  node : ∃ nd nd', t.nodes id = some nd ∧ t' = { t.put id nd' with index := ix } ∧ SameW nd nd' ∧ NodeW c S nd' (ro.toList ++ R id)

def putRows (R : Nat → Rows) (id : Nat) (ro : Option (List Val × List Nat)) : Nat → Rows := fun j => if j = id then ro.toList ++ R id else R j

theorem PutW.inv {t t' : Tbl} {R : Nat → Rows} {l : List Nat} {ro : Option (List Val × List Nat)} {ix : Int → Option Handle} {id : Nat}
    (h : TInv c S t R l) (hp : PutW c S t R l ro ix id t')
    (hix : ix = t.index ∨ ∃ key r, ro = some r ∧ ix = setIx t.index key (some (id, r.2))) : TInv c S t' (putRows R id ro) l := by
  obtain ⟨nd, nd', h1, rfl, h2, h3⟩ := hp.node
  have hn : ∀ j n, t.nodes j = some n → ∃ n', (if j = id then some nd' else t.nodes j) = some n' ∧ n'.next = n.next := by
    intro j n hj
    by_cases hjd : j = id
    · rw [if_pos hjd]
      rw [hjd, h1] at hj
      cases hj
      exact ⟨_, rfl, h2.1⟩
    · rw [if_neg hjd]; exact ⟨n, hj, rfl⟩
  have hold : ∀ k j os, t.index k = some (j, os) → ∃ nd vs, (if j = id then some nd' else t.nodes j) = some nd ∧ (vs, os) ∈ putRows R id ro j := by
    intro k j os hk
    obtain ⟨n, vs, q1, q2⟩ := h.idx k j os hk
    obtain ⟨n', q3, -⟩ := hn j n q1
    refine ⟨n', vs, q3, ?_⟩
    unfold putRows
    split
    · rename_i e; rw [e] at q2; exact List.mem_append_right _ q2
    · exact q2
  refine ⟨h.chain.frame (fun j _ n hj => hn j n hj), h.nodup, ?_, ?_, ?_, ?_⟩
  · intro j n hj
    have hj : (if j = id then some nd' else t.nodes j) = some n := hj
    by_cases hjd : j = id
    · rw [hjd]; exact h.lt id nd h1
    · rw [if_neg hjd] at hj; exact h.lt j n hj
  · intro j n hj
    have hj : (if j = id then some nd' else t.nodes j) = some n := hj
    unfold putRows
    by_cases hjd : j = id
    · rw [if_pos hjd] at hj ⊢
      cases hj
      exact h3
    · rw [if_neg hjd] at hj ⊢; exact h.ok j n hj
  · intro k j os hk
    have hk : ix k = some (j, os) := hk
    rcases hix with rfl | ⟨key, r, rfl, rfl⟩
    · exact hold k j os hk
    · unfold setIx at hk
      split at hk
      · cases hk
        refine ⟨nd', r.1, if_pos rfl, ?_⟩
        unfold putRows
        rw [if_pos rfl]
        simp
      · exact hold k j os hk
  · intro x hx
    obtain ⟨j, hj, n, hn, hx1, hx2⟩ := h.cover x hx
    by_cases hjd : j = id
    · rw [hjd, h1] at hn
      cases hn
      exact ⟨j, hj, nd', if_pos hjd, by rw [h2.2.2.1]; exact hx1, by rw [h2.2.2.2]; exact hx2⟩
    · exact ⟨j, hj, n, by show (if j = id then some nd' else t.nodes j) = _; rw [if_neg hjd]; exact hn, hx1, hx2⟩

/-- What `insert` does. -/
theorem insertW_ok (hg : c.Good) {vs : List Val} (hv : c.Rec vs) (hS : S vs) {key : Int} : ∀ (f : Nat) {t : Tbl} {R : Nat → Rows} {l : List Nat}, TInv c S t R l →
    insert c f t key vs = .ub ∨ ∃ t' t1 R1 l1 id os, insert c f t key vs = .ok t' ∧ SplitsW c S t R l t1 R1 l1 ∧
      PutW c S t1 R1 l1 (some (vs, os)) (setIx t1.index key (some (id, os))) id t' := by
  intro f
  induction f with
  | zero => intro t R l h; exact Or.inl rfl
  | succ f ih =>
    intro t R l h
    rw [insert]
    rcases choiceW h hv.typed with e | ⟨i, id, ns, e1, e2, hid, nd, hnd, hns⟩
    · left; rw [e]; rfl
    rw [e1, Res.ok_bind]
    dsimp only
    rw [e2, Res.ok_bind]
    cases ns with
    | false =>
      right
      rw [if_neg (by simp)]
      obtain ⟨nd', os, e, hn, hs, -⟩ := insertTupleW_ok hg hnd (h.ok id nd hnd) hv hS (hns rfl) key
      exact ⟨_, t, R, l, id, os, e, .refl h, ⟨hid, nd, nd', hnd, rfl, hs, hn⟩⟩
    | true =>
      rw [if_pos rfl]
      by_cases hne : R id = []
      · left
        have hcnt := (h.ok id nd hnd).rep.count
        rw [hne] at hcnt
        have : splitBlock c t id = .ub := by
          unfold splitBlock
          rw [Tbl.get_ok hnd, Res.ok_bind, range_ok, Res.ok_bind, hcnt, Res.ok_bind]
          rfl
        rw [this]; rfl
      · obtain ⟨pre, post, rfl⟩ := List.append_of_mem hid
        obtain ⟨t1, mv, nd1, nd2, es, hs, hi1⟩ := splitBlockW_ok hg h hnd hne
        rw [es, Res.ok_bind]
        rcases ih hi1 with e | ⟨t', t2, R2, l2, id2, os, q1, q2, q3⟩
        · exact Or.inl e
        · exact Or.inr ⟨t', t2, R2, l2, id2, os, q1, .step h hnd hne hs q2, q3⟩

/-- What an interrupted `insert` does. -/
theorem insertAtW_ok (hg : c.Good) {vs : List Val} (hv : c.Rec vs) (hS : S vs) {key : Int} : ∀ (f : Nat) {t : Tbl} {R : Nat → Rows} {l : List Nat} (q : Nat),
    TInv c S t R l →
    insertAt c f t key vs q = .ub ∨ ∃ t' t1 R1 l1, insertAt c f t key vs q = .ok t' ∧ SplitsW c S t R l t1 R1 l1 ∧
      (t' = t1 ∨ ∃ id ro ix, PutW c S t1 R1 l1 ro ix id t' ∧ (∀ r, ro = some r → r.1 = vs) ∧
        (ix = t1.index ∨ ∃ r, ro = some r ∧ ix = setIx t1.index key (some (id, r.2)))) := by
  intro f
  induction f with
  | zero => intro t R l q h; exact Or.inl rfl
  | succ f ih =>
    intro t R l q h
    rw [insertAt]
    rcases choiceW h hv.typed with e | ⟨i, id, ns, e1, e2, hid, nd, hnd, hns⟩
    · left; rw [e]; rfl
    rw [e1, Res.ok_bind]
    dsimp only
    rw [e2, Res.ok_bind]
    cases ns with
    | false =>
      right
      rw [if_neg (by simp)]
      obtain ⟨os, L, hL, hq⟩ := insertTupleAt_ok hg hnd (h.ok id nd hnd) hv hS (hns rfl) key
      obtain ⟨nd', e, hn, hs, -⟩ := hq q
      refine ⟨_, t, R, l, e, .refl h, Or.inr ⟨id, if q + 2 ≤ L then none else some (vs, os), _, ⟨hid, nd, nd', hnd, rfl, hs, ?_⟩, ?_, ?_⟩⟩
      · split at hn
        · rename_i hc; rw [if_pos hc]; exact hn
        · rename_i hc; rw [if_neg hc]; exact hn
      · intro r hr
        split at hr
        · cases hr
        · cases hr; rfl
      · by_cases hc : L + 1 ≤ q
        · refine Or.inr ⟨(vs, os), ?_, ?_⟩
          · rw [if_neg (by omega)]
          · rw [if_pos hc]
        · left; rw [if_neg hc]
    | true =>
      rw [if_pos rfl]
      cases q with
      | zero => exact Or.inr ⟨t, t, R, l, rfl, .refl h, Or.inl rfl⟩
      | succ q =>
        dsimp only
        by_cases hne : R id = []
        · left
          have hcnt := (h.ok id nd hnd).rep.count
          rw [hne] at hcnt
          have : splitBlock c t id = .ub := by
            unfold splitBlock
            rw [Tbl.get_ok hnd, Res.ok_bind, range_ok, Res.ok_bind, hcnt, Res.ok_bind]
            rfl
          rw [this]; rfl
        · obtain ⟨pre, post, rfl⟩ := List.append_of_mem hid
          obtain ⟨t1, mv, nd1, nd2, es, hs, hi1⟩ := splitBlockW_ok hg h hnd hne
          rw [es, Res.ok_bind]
          rcases ih q hi1 with e | ⟨t', t2, R2, l2, q1, q2, q3⟩
          · exact Or.inl e
          · exact Or.inr ⟨t', t2, R2, l2, q1, .step h hnd hne hs q2, q3⟩

theorem delete_okW (hg : c.Good) {t : Tbl} {R : Nat → Rows} {l : List Nat} (h : TInv c S t R l) {key : Int} {id : Nat} {os : List Nat}
    (hk : t.index key = some (id, os)) : ∃ nd, t.nodes id = some nd ∧
      deleteByKey c t key = .ok { t.put id { nd with deleted := nd.deleted ++ [delPos c os] } with index := setIx t.index key none } := by
  obtain ⟨nd, vs, hnd, hm⟩ := h.idx key id os hk
  have ok := h.ok id nd hnd
  have hpos : 0 < c.sch.length := List.length_pos_iff.2 hg.ne
  have hos : os.length = c.sch.length := (ok.rep.typed _ hm).2
  refine ⟨nd, hnd, ?_⟩
  have hg1 : getByKey t key = .ok (id, os) := by unfold getByKey; rw [hk]
  have e1 : os[0]? = some (os.getD 0 0) := by
    rw [List.getD_eq_getElem?_getD, List.getElem?_eq_getElem (by omega : 0 < os.length)]; rfl
  have e2 : c.sch[0]? = some c.sch[0] := List.getElem?_eq_getElem hpos
  unfold deleteByKey
  rw [hg1, Res.ok_bind]
  dsimp only
  rw [Tbl.get_ok hnd, Res.ok_bind, ok.rep.lay.dataPos hpos, Res.ok_bind, e1, Res.ofOption_some, Res.ok_bind, e2, Res.ofOption_some, Res.ok_bind,
    (ok.std 0 hpos).2]
  unfold delPos
  rw [e2]
  rfl

theorem TInv.delete {t : Tbl} {R : Nat → Rows} {l : List Nat} (h : TInv c S t R l) (key : Int) {id : Nat} {nd : Node} (hnd : t.nodes id = some nd) (d : List Nat) :
    TInv c S { t.put id { nd with deleted := d } with index := setIx t.index key none } R l := by
  have hn : ∀ j n, t.nodes j = some n → ∃ n', (if j = id then some { nd with deleted := d } else t.nodes j) = some n' ∧ n'.next = n.next := by
    intro j n hj
    by_cases hjd : j = id
    · rw [if_pos hjd]
      rw [hjd, hnd] at hj
      cases hj
      exact ⟨_, rfl, rfl⟩
    · rw [if_neg hjd]; exact ⟨n, hj, rfl⟩
  refine ⟨h.chain.frame (fun j _ n hj => hn j n hj), h.nodup, ?_, ?_, ?_, ?_⟩
  · intro j n hj
    have hj : (if j = id then some { nd with deleted := d } else t.nodes j) = some n := hj
    by_cases hjd : j = id
    · rw [hjd]; exact h.lt id nd hnd
    · rw [if_neg hjd] at hj; exact h.lt j n hj
  · intro j n hj
    have hj : (if j = id then some { nd with deleted := d } else t.nodes j) = some n := hj
    by_cases hjd : j = id
    · rw [if_pos hjd] at hj
      cases hj
      rw [hjd]
      exact (h.ok id nd hnd).congr rfl
    · rw [if_neg hjd] at hj; exact h.ok j n hj
  · intro k j os hk
    have hk : (if k = key then none else t.index k) = some (j, os) := hk
    by_cases hkk : k = key
    · rw [if_pos hkk] at hk; cases hk
    · rw [if_neg hkk] at hk
      obtain ⟨n, vs', q1, q2⟩ := h.idx k j os hk
      obtain ⟨n', q3, -⟩ := hn j n q1
      exact ⟨n', vs', q3, q2⟩
  · intro x hx
    obtain ⟨j, hj, n, hn', hx1, hx2⟩ := h.cover x hx
    by_cases hjd : j = id
    · rw [hjd, hnd] at hn'
      cases hn'
      exact ⟨j, hj, _, if_pos hjd, hx1, hx2⟩
    · exact ⟨j, hj, n, by show (if j = id then some { nd with deleted := d } else t.nodes j) = _; rw [if_neg hjd]; exact hn', hx1, hx2⟩

/-! ## One key -/

/-- Live records with key `k`. -/
def keyRows (c : Cfg) (t : Tbl) (R : Nat → Rows) (l : List Nat) (k : Int) : List Move := (live t R l).filter (fun m => decide (mkey c m = k))

/-- The index finds records with the key. -/
def Keyed (c : Cfg) (t : Tbl) (R : Nat → Rows) : Prop := ∀ j id os, t.index j = some (id, os) → ∃ vs, (vs, os) ∈ R id ∧ key16 c vs = j

/-- Index and live records agree on `k`. -/
def KeyIs (ks : List Move) (h : Option Handle) : Option (List Val) → Prop
  | none => ks = [] ∧ h = none
  | some vs => ∃ m, ks = [m] ∧ m.2.1 = vs ∧ h = some (m.1, m.2.2)

theorem KeyIs.perm {ks ks' : List Move} {h : Option Handle} {M : Option (List Val)} (hk : KeyIs ks h M) (hp : ks'.Perm ks) : KeyIs ks' h M := by
  cases M with
  | none =>
    obtain ⟨rfl, hx⟩ := hk
    exact ⟨hp.eq_nil, hx⟩
  | some vs =>
    obtain ⟨m, rfl, hx⟩ := hk
    exact ⟨m, List.perm_singleton.1 hp, hx⟩

structure KInv (c : Cfg) (t : Tbl) (R : Nat → Rows) (l : List Nat) (k : Int) (M : Option (List Val)) : Prop where
  pos : ∀ id ∈ l, ∀ p ∈ delsAt t id, p < (R id).length
  keyed : Keyed c t R
  is : KeyIs (keyRows c t R l k) (t.index k) M

theorem foldl_moveIx_key (mv : List Move) : ∀ (ix : Int → Option Handle) (k : Int) (h : Handle), mv.foldl (moveIx c) ix k = some h →
    ix k = some h ∨ ∃ m ∈ mv, mkey c m = k ∧ h = (m.1, m.2.2) := by
  induction mv with
  | nil => intro ix k h e; exact Or.inl e
  | cons m mv ih =>
    intro ix k h e
    rw [List.foldl_cons] at e
    rcases ih _ k h e with e | ⟨m', hm, e⟩
    · unfold moveIx setIx at e
      split at e
      · rename_i hk
        exact Or.inr ⟨m, List.mem_cons_self .., hk.symm, (Option.some.inj e).symm⟩
      · exact Or.inl e
    · exact Or.inr ⟨m', List.mem_cons_of_mem _ hm, e⟩

theorem foldl_moveIx_other (k : Int) : ∀ (mv : List Move) (ix : Int → Option Handle), mv.filter (fun m => decide (mkey c m = k)) = [] →
    mv.foldl (moveIx c) ix k = ix k
  | [], _, _ => rfl
  | m :: mv, ix, h => by
    rw [List.filter_cons] at h
    split at h
    · cases h
    · rename_i hm
      have hm : ¬ mkey c m = k := by simpa using hm
      rw [List.foldl_cons, foldl_moveIx_other k mv _ h]
      unfold moveIx setIx
      rw [if_neg (fun e => hm e.symm)]

theorem foldl_moveIx_one (k : Int) (m0 : Move) : ∀ (mv : List Move) (ix : Int → Option Handle), mv.filter (fun m => decide (mkey c m = k)) = [m0] →
    mv.foldl (moveIx c) ix k = some (m0.1, m0.2.2)
  | [], _, h => by cases h
  | m :: mv, ix, h => by
    rw [List.foldl_cons]
    rw [List.filter_cons] at h
    split at h
    · rename_i hm
      have hm : mkey c m = k := by simpa using hm
      rw [List.cons.injEq] at h
      obtain ⟨rfl, h⟩ := h
      rw [foldl_moveIx_other k mv _ h]
      unfold moveIx setIx
      exact if_pos hm.symm
    · exact foldl_moveIx_one k m0 mv _ h

theorem Keyed.split {t t' : Tbl} {R : Nat → Rows} {pre post : List Nat} {id : Nat} {nd nd1 nd2 : Node} {mv : List Move}
    (h : TInv c S t R (pre ++ id :: post)) (hs : SplitW c t R id nd t' mv nd1 nd2) (hk : Keyed c t R) :
    Keyed c t' (rowsSplit R t.fresh (t.fresh + 1) mv) := by
  intro j i os hj
  rw [hs.index] at hj
  rcases foldl_moveIx_key mv _ _ _ hj with hj | ⟨m, hm, e1, e2⟩
  · obtain ⟨n, vs, q1, -⟩ := h.idx j i os hj
    obtain ⟨vs', q2, q3⟩ := hk j i os hj
    have := h.lt i n q1
    refine ⟨vs', ?_, q3⟩
    unfold rowsSplit
    rw [if_neg (by omega), if_neg (by omega)]
    exact q2
  · cases e2
    refine ⟨m.2.1, ?_, e1⟩
    unfold rowsSplit
    rcases hs.two m hm with hm1 | hm1
    · rw [if_neg (by omega), if_pos hm1]
      exact mem_rowsAfter hm hm1 []
    · rw [if_pos hm1]
      exact mem_rowsAfter hm hm1 []

theorem KInv.split {t t' : Tbl} {R : Nat → Rows} {pre post : List Nat} {id : Nat} {nd nd1 nd2 : Node} {mv : List Move}
    (h : TInv c S t R (pre ++ id :: post)) (hnd : t.nodes id = some nd) (hs : SplitW c t R id nd t' mv nd1 nd2) {k : Int} {M : Option (List Val)}
    (hk : KInv c t R (pre ++ id :: post) k M) :
    KInv c t' (rowsSplit R t.fresh (t.fresh + 1) mv) (pre ++ t.fresh :: (t.fresh + 1) :: post) k M := by
  obtain ⟨hp, hmv, hsame, d1, d2⟩ := hs.live h hnd
  refine ⟨?_, ?_, ?_⟩
  · intro j hj
    have hcase : j = t.fresh ∨ j = t.fresh + 1 ∨ j ∈ pre ++ post := by
      rcases List.mem_append.1 hj with h | h
      · simp [h]
      · rcases List.mem_cons.1 h with h | h
        · simp [h]
        · rcases List.mem_cons.1 h with h | h <;> simp [h]
    rcases hcase with e | e | e
    · rw [e, d1]; simp
    · rw [e, d2]; simp
    · obtain ⟨q1, q2⟩ := hsame j e
      rw [q1, q2]
      exact hk.pos j (by rcases List.mem_append.1 e with h | h <;> simp [h])
  · exact hk.keyed.split h hs
  · have hf : (mv.filter (fun m => decide (mkey c m = k))).map (fun m => m.2.1) =
        ((liveAt t R id).filter (fun m => decide (mkey c m = k))).map (fun m => m.2.1) := by
      have := congrArg (List.filter (fun v => decide (key16 c v = k))) hmv
      rw [List.filter_map, List.filter_map] at this
      exact this
    have hpf : (keyRows c t' (rowsSplit R t.fresh (t.fresh + 1) mv) (pre ++ t.fresh :: (t.fresh + 1) :: post) k).Perm
        (keyRows c t R pre k ++ (mv.filter (fun m => decide (mkey c m = k)) ++ keyRows c t R post k)) := by
      have := hp.filter (fun m => decide (mkey c m = k))
      rw [List.filter_append, List.filter_append] at this
      exact this
    have hold : keyRows c t R (pre ++ id :: post) k =
        keyRows c t R pre k ++ ((liveAt t R id).filter (fun m => decide (mkey c m = k)) ++ keyRows c t R post k) := by
      unfold keyRows
      rw [live_split_at, List.filter_append, List.filter_append]
    have his := hk.is
    rw [hold] at his
    refine KeyIs.perm ?_ hpf
    rw [hs.index]
    generalize keyRows c t R pre k = A at *
    generalize keyRows c t R post k = B at *
    generalize hF : mv.filter (fun m => decide (mkey c m = k)) = F at *
    generalize (liveAt t R id).filter (fun m => decide (mkey c m = k)) = G at *
    cases hG : G with
    | nil =>
      rw [hG] at hf his
      have hF0 : F = [] := by simpa using hf
      rw [hF0] at hF ⊢
      rw [foldl_moveIx_other k mv _ hF]
      exact his
    | cons g G' =>
      rw [hG] at hf his
      cases M with
      | none =>
        have := his.1
        simp at this
      | some vs =>
        obtain ⟨m, e, e1, e2⟩ := his
        have hlen := congrArg List.length e
        simp only [List.length_append, List.length_cons, List.length_nil] at hlen
        have hA : A = [] := List.eq_nil_of_length_eq_zero (by omega)
        have hB : B = [] := List.eq_nil_of_length_eq_zero (by omega)
        have hG' : G' = [] := List.eq_nil_of_length_eq_zero (by omega)
        rw [hA, hB, hG'] at e
        simp only [List.nil_append, List.append_nil, List.cons.injEq, and_true] at e
        rw [hG', e] at hf
        cases F with
        | nil => simp at hf
        | cons a F' =>
          simp only [List.map_cons, List.map_nil, List.cons.injEq, List.map_eq_nil_iff] at hf
          rw [hf.2] at hF ⊢
          rw [hA, hB, foldl_moveIx_one k a mv _ hF]
          exact ⟨a, rfl, hf.1.trans e1, rfl⟩

theorem SplitsW.kinv {t t' : Tbl} {R R' : Nat → Rows} {l l' : List Nat} (h : SplitsW c S t R l t' R' l') {k : Int} {M : Option (List Val)}
    (hk : KInv c t R l k M) : KInv c t' R' l' k M := by
  induction h with
  | refl h => exact hk
  | step h hnd _ hs _ ih => exact ih (hk.split h hnd hs)

theorem SplitsW.keyed {t t' : Tbl} {R R' : Nat → Rows} {l l' : List Nat} (h : SplitsW c S t R l t' R' l') (hk : Keyed c t R) : Keyed c t' R' := by
  induction h with
  | refl h => exact hk
  | step h hnd _ hs _ ih => exact ih (hk.split h hs)

theorem PutW.keyed {t t' : Tbl} {R : Nat → Rows} {l : List Nat} {ro : Option (List Val × List Nat)} {ix : Int → Option Handle} {id : Nat}
    (hp : PutW c S t R l ro ix id t') {key : Int} (hro : ∀ r, ro = some r → key16 c r.1 = key)
    (hix : ix = t.index ∨ ∃ r, ro = some r ∧ ix = setIx t.index key (some (id, r.2))) (hk : Keyed c t R) : Keyed c t' (putRows R id ro) := by
  obtain ⟨nd, nd', h1, rfl, h2, h3⟩ := hp.node
  have hold : ∀ j i os, t.index j = some (i, os) → ∃ vs, (vs, os) ∈ putRows R id ro i ∧ key16 c vs = j := by
    intro j i os hj
    obtain ⟨vs, q1, q2⟩ := hk j i os hj
    refine ⟨vs, ?_, q2⟩
    unfold putRows
    split
    · rename_i e; rw [e] at q1; exact List.mem_append_right _ q1
    · exact q1
  intro j i os hj
  have hj : ix j = some (i, os) := hj
  rcases hix with e | ⟨r, e, e'⟩
  · rw [e] at hj; exact hold j i os hj
  · rw [e'] at hj
    unfold setIx at hj
    split at hj
    · rename_i hjk
      cases hj
      refine ⟨r.1, ?_, by rw [hjk]; exact hro r e⟩
      unfold putRows
      rw [if_pos rfl, e]
      simp
    · exact hold j i os hj

theorem Keyed.delete {t : Tbl} {R : Nat → Rows} (hk : Keyed c t R) (key : Int) (id : Nat) (nd : Node) :
    Keyed c { t.put id nd with index := setIx t.index key none } R := by
  intro j i os hj
  have hj : setIx t.index key none j = some (i, os) := hj
  unfold setIx at hj
  split at hj
  · cases hj
  · exact hk j i os hj

theorem PutW.live {t t' : Tbl} {R : Nat → Rows} {l : List Nat} {ro : Option (List Val × List Nat)} {ix : Int → Option Handle} {id : Nat}
    (h : TInv c S t R l) (hp : PutW c S t R l ro ix id t') (hpos : ∀ id ∈ l, ∀ p ∈ delsAt t id, p < (R id).length) :
    (∀ j, delsAt t' j = delsAt t j) ∧
    (PTable.live t' (putRows R id ro) l).Perm (ro.toList.map (fun r => (id, r)) ++ PTable.live t R l) := by
  obtain ⟨nd, nd', h1, rfl, h2, h3⟩ := hp.node
  have hd : ∀ j, delsAt { t.put id nd' with index := ix } j = delsAt t j := by
    intro j
    unfold delsAt
    show (match (if j = id then some nd' else t.nodes j) with | some nd => _ | none => _) = _
    by_cases hj : j = id
    · rw [if_pos hj, hj, h1]; exact h2.2.1
    · rw [if_neg hj]; rfl
  refine ⟨hd, ?_⟩
  generalize ({ t.put id nd' with index := ix } : Tbl) = t' at hd ⊢
  have hmem := hp.mem
  obtain ⟨pre, post, rfl⟩ := List.append_of_mem hmem
  have hnd := h.nodup
  rw [List.nodup_append, List.nodup_cons] at hnd
  have hpre : PTable.live t' (putRows R id ro) pre = PTable.live t R pre := live_congr (fun j hj => ⟨hd j, by
    unfold putRows
    rw [if_neg (fun e => hnd.2.2 j hj id (List.mem_cons_self ..) e)]⟩)
  have hpost : PTable.live t' (putRows R id ro) post = PTable.live t R post := live_congr (fun j hj => ⟨hd j, by
    unfold putRows
    rw [if_neg (fun e : j = id => hnd.2.1.1 (e ▸ hj))]⟩)
  have hat : liveAt t' (putRows R id ro) id = liveAt t R id ++ ro.toList.map (fun r => (id, r)) := by
    unfold liveAt
    have : putRows R id ro id = ro.toList ++ R id := by unfold putRows; rw [if_pos rfl]
    rw [this, hd]
    cases ro with
    | none => simp
    | some r =>
      rw [Option.toList_some, List.singleton_append, List.reverse_cons, liveFrom_append, List.map_append]
      · rfl
      · intro hc
        have := hpos id hmem _ hc
        rw [List.length_reverse] at this
        omega
  rw [live_split_at, live_split_at, hpre, hpost, hat]
  have e1 : PTable.live t R pre ++ (liveAt t R id ++ ro.toList.map (fun r => (id, r)) ++ PTable.live t R post) =
      (PTable.live t R pre ++ liveAt t R id) ++ (ro.toList.map (fun r => (id, r)) ++ PTable.live t R post) := by
    rw [List.append_assoc, List.append_assoc]
  have e2 : ro.toList.map (fun r => (id, r)) ++ (PTable.live t R pre ++ (liveAt t R id ++ PTable.live t R post)) =
      (ro.toList.map (fun r => (id, r)) ++ (PTable.live t R pre ++ liveAt t R id)) ++ PTable.live t R post := by
    rw [List.append_assoc, List.append_assoc]
  rw [e1, e2, ← List.append_assoc]
  exact List.Perm.append_right _ List.perm_append_comm

/-- A change of a block under another key. -/
theorem PutW.kinv {t t' : Tbl} {R : Nat → Rows} {l : List Nat} {ro : Option (List Val × List Nat)} {ix : Int → Option Handle} {id : Nat}
    (h : TInv c S t R l) (hp : PutW c S t R l ro ix id t') {key : Int} (hro : ∀ r, ro = some r → key16 c r.1 = key)
    (hix : ix = t.index ∨ ∃ r, ro = some r ∧ ix = setIx t.index key (some (id, r.2))) {k : Int} {M : Option (List Val)} (hk : KInv c t R l k M) :
    (key ≠ k → KInv c t' (putRows R id ro) l k M) ∧
    (∀ r, ro = some r → ix = setIx t.index key (some (id, r.2)) → key = k → M = none → KInv c t' (putRows R id ro) l k (some r.1)) := by
  obtain ⟨hd, hperm⟩ := hp.live h hk.pos
  obtain ⟨nd, nd', h1, rfl, h2, h3⟩ := hp.node
  have hpos : ∀ i ∈ l, ∀ p ∈ delsAt { t.put id nd' with index := ix } i, p < (putRows R id ro i).length := by
    intro i hi p hp'
    rw [hd] at hp'
    have := hk.pos i hi p hp'
    unfold putRows
    split
    · rename_i e; rw [List.length_append, ← e]; omega
    · exact this
  have hkeyed := hp.keyed hro hix hk.keyed
  have hf := hperm.filter (fun m => decide (mkey c m = k))
  rw [List.filter_append] at hf
  constructor
  · intro hne
    refine ⟨hpos, hkeyed, ?_⟩
    have e0 : (ro.toList.map (fun r => (id, r))).filter (fun m => decide (mkey c m = k)) = [] := by
      cases hr : ro with
      | none => rfl
      | some r =>
        have : ¬ mkey c (id, r) = k := fun e => hne ((hro r hr).symm.trans e)
        simp [this]
    rw [e0, List.nil_append] at hf
    have hx : ix k = t.index k := by
      rcases hix with e | ⟨r, -, e⟩
      · rw [e]
      · rw [e]; unfold setIx; rw [if_neg (fun e => hne e.symm)]
    refine KeyIs.perm (ks := keyRows c t R l k) ?_ hf
    show KeyIs _ (ix k) M
    rw [hx]
    exact hk.is
  · intro r hr hi hkk hM
    refine ⟨hpos, hkeyed, ?_⟩
    have his := hk.is
    rw [hM] at his
    have e0 : (ro.toList.map (fun r => (id, r))).filter (fun m => decide (mkey c m = k)) = [(id, r)] := by
      have : mkey c (id, r) = k := (hro r hr).trans hkk
      simp [hr, this]
    rw [e0] at hf
    refine KeyIs.perm (ks := (id, r) :: keyRows c t R l k) ?_ hf
    refine ⟨(id, r), by rw [his.1], rfl, ?_⟩
    show ix k = _
    rw [hi]; unfold setIx; rw [if_pos hkk.symm]

theorem KInv.delete (hg : c.Good) (h0 : c.sch[0]? ≠ some .str) {t : Tbl} {R : Nat → Rows} {l : List Nat} (h : TInv c S t R l) {k : Int}
    {M : Option (List Val)} (hl : KInv c t R l k M) {key : Int} {id : Nat} {os : List Nat} (hk : t.index key = some (id, os)) {nd : Node}
    (hnd : t.nodes id = some nd) :
    KInv c { t.put id { nd with deleted := nd.deleted ++ [delPos c os] } with index := setIx t.index key none } R l k (if k = key then none else M) := by
  obtain ⟨vs, hmem, hkey⟩ := hl.keyed key id os hk
  obtain ⟨p, hrow⟩ := List.mem_iff_getElem?.1 (List.mem_reverse.2 hmem)
  have hdp : ∀ {p : Nat} {r : List Val × List Nat}, (R id).reverse[p]? = some r → delPos c r.2 = p :=
    fun hr => delPos_eqW hg h0 (h.ok id nd hnd).rep (h.ok id nd hnd).std hr
  have hp : delPos c os = p := hdp hrow
  have hplt : p < (R id).length := by simpa using (List.getElem?_eq_some_iff.1 hrow).1
  rw [hp]
  have hdid : delsAt t id = nd.deleted := by unfold delsAt; rw [hnd]
  have hd : ∀ i, delsAt { t.put id { nd with deleted := nd.deleted ++ [p] } with index := setIx t.index key none } i =
      if i = id then delsAt t id ++ [p] else delsAt t i := by
    intro i
    rw [hdid]
    unfold delsAt
    show (match (if i = id then some { nd with deleted := nd.deleted ++ [p] } else t.nodes i) with | some nd => _ | none => _) = _
    by_cases hi : i = id
    · rw [if_pos hi, if_pos hi]
    · rw [if_neg hi, if_neg hi]; rfl
  generalize ht' : ({ t.put id { nd with deleted := nd.deleted ++ [p] } with index := setIx t.index key none } : Tbl) = t' at hd
  have hix : t'.index = setIx t.index key none := by rw [← ht']
  have hat : ∀ i, liveAt t' R i = if i = id then ((liveFrom (delsAt t id) 0 (R id).reverse).filter (fun q => !decide (q.1 = p))).map (fun q => (id, q.2)) else liveAt t R i := by
    intro i
    unfold liveAt
    rw [hd]
    by_cases hi : i = id
    · rw [if_pos hi, if_pos hi, hi, liveFrom_del]
    · rw [if_neg hi, if_neg hi]
  have hsub : ∀ m ∈ live t' R l, m ∈ live t R l ∧ (m.1 = id → m.2.2 ≠ os) := by
    intro m hm
    obtain ⟨j, hj, hmj⟩ := List.mem_flatMap.1 hm
    rw [hat] at hmj
    by_cases hi : j = id
    · rw [if_pos hi] at hmj
      obtain ⟨q, hq, rfl⟩ := List.mem_map.1 hmj
      obtain ⟨hq1, hq2⟩ := List.mem_filter.1 hq
      refine ⟨List.mem_flatMap.2 ⟨j, hj, ?_⟩, fun _ e => ?_⟩
      · unfold liveAt
        rw [hi]
        exact List.mem_map.2 ⟨q, hq1, rfl⟩
      · obtain ⟨-, -, hrow', -⟩ := liveFrom_mem hq1
        rw [Nat.sub_zero] at hrow'
        have e1 := hdp hrow'
        have e : q.2.2 = os := e
        rw [e, hp] at e1
        simp [e1] at hq2
    · rw [if_neg hi] at hmj
      refine ⟨List.mem_flatMap.2 ⟨j, hj, hmj⟩, fun e => ?_⟩
      unfold liveAt at hmj
      obtain ⟨q, -, rfl⟩ := List.mem_map.1 hmj
      exact absurd e hi
  refine ⟨?_, ?_, ?_⟩
  · intro i hi q hq
    rw [hd] at hq
    split at hq
    · rename_i e
      rw [e] at hi ⊢
      rcases List.mem_append.1 hq with hq | hq
      · exact hl.pos id hi q hq
      · have : q = p := by simpa using hq
        rw [this]; exact hplt
    · exact hl.pos i hi q hq
  · intro j i os' hj
    rw [hix] at hj
    unfold setIx at hj
    split at hj
    · cases hj
    · exact hl.keyed j i os' hj
  · rw [hix]
    unfold setIx
    by_cases hkk : k = key
    · rw [if_pos hkk, if_pos hkk]
      refine ⟨?_, rfl⟩
      have his := hl.is
      cases M with
      | none =>
        have := his.2
        rw [hkk, hk] at this
        cases this
      | some vs' =>
        obtain ⟨m, e1, -, e2⟩ := his
        rw [hkk, hk] at e2
        have e3 : id = m.1 := (Prod.ext_iff.1 (Option.some.inj e2)).1
        have e4 : os = m.2.2 := (Prod.ext_iff.1 (Option.some.inj e2)).2
        unfold keyRows
        rw [List.filter_eq_nil_iff]
        intro m' hm' hmk
        obtain ⟨a1, a2⟩ := hsub m' hm'
        have : m' ∈ keyRows c t R l k := List.mem_filter.2 ⟨a1, hmk⟩
        rw [e1] at this
        have : m' = m := by simpa using this
        rw [this] at a2
        exact a2 e3.symm e4.symm
    · rw [if_neg hkk, if_neg hkk]
      have e : keyRows c t' R l k = keyRows c t R l k := by
        unfold keyRows PTable.live
        rw [List.filter_flatMap, List.filter_flatMap, List.flatMap_def, List.flatMap_def]
        congr 1
        refine List.map_congr_left (fun j hj => ?_)
        rw [hat]
        by_cases hi : j = id
        · rw [if_pos hi, hi]
          unfold liveAt
          rw [List.filter_map, List.filter_map, List.filter_filter]
          congr 1
          refine List.filter_congr (fun q hq => ?_)
          by_cases hqp : q.1 = p
          · obtain ⟨-, -, hrow', -⟩ := liveFrom_mem hq
            rw [Nat.sub_zero, hqp, hrow] at hrow'
            have e5 : q.2 = (vs, os) := (Option.some.inj hrow').symm
            have : ¬ mkey c (id, q.2) = k := by
              rw [e5]
              exact fun e => hkk (e.symm.trans hkey)
            simp [this]
          · simp [hqp]
        · rw [if_neg hi]
      rw [e]
      exact hl.is

end Verif.PTable
