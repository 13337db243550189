import Verif.PTable.Split

/-!
# `splitBlock`
-/

namespace Verif.PTable

variable {c : Cfg}

/-- A chain whose node `q` is linked to a new tail. -/
theorem Chain.relink {nodes nodes' : Nat → Option Node} {q : Nat} {l l' : List Nat} {r : Option Nat} : ∀ {pre : List Nat} {p : Option Nat},
    Chain nodes p (pre ++ q :: l) →
    (∀ id ∈ pre, ∀ nd, nodes id = some nd → ∃ nd', nodes' id = some nd' ∧ nd'.next = nd.next) →
    (∃ nd', nodes' q = some nd' ∧ nd'.next = r) → Chain nodes' r l' → Chain nodes' p (pre ++ q :: l')
  | [], _, ⟨h1, _⟩, _, ⟨nd', e1, e2⟩, hl => ⟨h1, nd', e1, by rw [e2]; exact hl⟩
  | j :: pre, _, ⟨h1, nd, h2, h3⟩, hf, hq, hl => by
    obtain ⟨nd', e1, e2⟩ := hf j (List.mem_cons_self ..) nd h2
    refine ⟨h1, nd', e1, ?_⟩
    rw [e2]
    exact h3.relink (fun i hi => hf i (List.mem_cons_of_mem _ hi)) hq hl

/-- The pointer behind a prefix of a chain. -/
theorem Chain.suffix {nodes : Nat → Option Node} {l : List Nat} : ∀ {pre : List Nat} {p : Option Nat}, Chain nodes p (pre ++ l) → ∃ r, Chain nodes r l
  | [], p, h => ⟨p, h⟩
  | _ :: _, _, ⟨_, _, _, h⟩ => h.suffix

theorem findPrev_ok {t : Tbl} {q id : Nat} {post : List Nat} : ∀ (pre : List Nat) (p : Nat) (f : Nat),
    Chain t.nodes (some p) (pre ++ q :: id :: post) → (pre ++ q :: id :: post).Nodup → pre.length < f → findPrev t id f p = .ok q
  | [], p, f + 1, h, _, _ => by
    obtain ⟨h1, nd, h2, h3⟩ := h
    obtain ⟨h3, -⟩ := h3
    cases h1
    rw [findPrev, Tbl.get_ok h2, Res.ok_bind, h3]
    simp
  | j :: pre, p, f + 1, h, hd, hf => by
    obtain ⟨h1, nd, h2, h3⟩ := h
    cases h1
    rw [findPrev, Tbl.get_ok h2, Res.ok_bind]
    obtain ⟨k, rest, hk⟩ : ∃ k rest, pre ++ q :: id :: post = k :: rest := by
      cases pre with
      | nil => exact ⟨q, _, rfl⟩
      | cons k ks => exact ⟨k, _, rfl⟩
    have hkid : k ≠ id := by
      rw [List.cons_append] at hd
      have hd' := (List.nodup_cons.1 hd).2
      cases pre with
      | nil =>
        simp only [List.nil_append, List.cons.injEq] at hk
        rw [← hk.1]
        intro hc
        rw [hc] at hd'
        simp at hd'
      | cons k' ks =>
        simp only [List.cons_append, List.cons.injEq] at hk
        rw [← hk.1]
        intro hc
        rw [hc] at hd'
        simp at hd'
    have hn : nd.next = some k := by
      have h3 : Chain t.nodes nd.next (pre ++ q :: id :: post) := h3
      rw [hk] at h3
      exact h3.1
    have h3 : Chain t.nodes nd.next (pre ++ q :: id :: post) := h3
    rw [hn] at h3
    rw [hn]
    dsimp only
    rw [if_neg hkid]
    exact findPrev_ok pre k f h3 (by rw [List.cons_append] at hd; exact (List.nodup_cons.1 hd).2) (by simp at hf; omega)

theorem nodeOK_new (hg : c.Good) {lo hi : Nat} (h : lo ≤ hi) (hh : hi < 2 ^ 32) :
    ∃ b, initBlock c.sch lo hi = .ok b ∧ loOf b = lo ∧ hiOf b = hi ∧ ∀ nx, NodeOK c ⟨b, nx, [], 0⟩ [] := by
  obtain ⟨b, e, h1, h2, h3, h4⟩ := initBlock_std hg.pages (lo := lo) (hi := hi) (by omega) hh
  have e1 : loOf b = lo := by unfold loOf; rw [h3, dec_enc]; exact Nat.mod_eq_of_lt (by have : 256 ^ 4 = 2 ^ 32 := rfl; omega)
  have e2 : hiOf b = hi := by unfold hiOf; rw [h4, dec_enc]; exact Nat.mod_eq_of_lt (by have : 256 ^ 4 = 2 ^ 32 := rfl; omega)
  refine ⟨b, e, e1, e2, fun nx => ⟨h1, h2, by simp, by show loOf b ≤ hiOf b; rw [e1, e2]; exact h, by simp, rfl, fun _ => ⟨lo, hi, by omega, hh, e⟩⟩⟩

theorem xsum_bounds {nd : Node} {rows : Rows} (h : NodeOK c nd rows) : loOf nd.blk * rows.length ≤ xsum c rows ∧ xsum c rows ≤ hiOf nd.blk * rows.length := by
  have hr := h.rng
  generalize loOf nd.blk = lo at hr ⊢
  generalize hiOf nd.blk = hi at hr ⊢
  clear h
  induction rows with
  | nil => simp [xsum]
  | cons r rs ih =>
    have := ih (fun q hq => hr q (List.mem_cons_of_mem _ hq))
    have h1 := hr r (List.mem_cons_self ..)
    have e : xsum c (r :: rs) = c.xtr r.1 + xsum c rs := by simp [xsum]
    rw [e, List.length_cons, Nat.mul_succ, Nat.mul_succ]
    omega

theorem xsum_all {hi : Nat} : ∀ {rows : Rows}, (∀ r ∈ rows, c.xtr r.1 ≤ hi) → hi * rows.length ≤ xsum c rows → ∀ r ∈ rows, c.xtr r.1 = hi
  | r :: rs, hr, h, q, hq => by
    have e : xsum c (r :: rs) = c.xtr r.1 + xsum c rs := by simp [xsum]
    have h1 := hr r (List.mem_cons_self ..)
    have hle : ∀ {l : Rows}, (∀ r ∈ l, c.xtr r.1 ≤ hi) → xsum c l ≤ hi * l.length := by
      intro l
      induction l with
      | nil => intro _; simp [xsum]
      | cons a l ih =>
        intro hl
        have := ih (fun q hq => hl q (List.mem_cons_of_mem _ hq))
        have h1 := hl a (List.mem_cons_self ..)
        have e : xsum c (a :: l) = c.xtr a.1 + xsum c l := by simp [xsum]
        rw [e, List.length_cons, Nat.mul_succ]
        omega
    have h2 := hle (fun q hq => hr q (List.mem_cons_of_mem _ hq))
    rw [e, List.length_cons, Nat.mul_succ] at h
    rcases List.mem_cons.1 hq with rfl | hq
    · omega
    · exact xsum_all (fun q hq => hr q (List.mem_cons_of_mem _ hq)) (by omega) q hq

theorem liveFrom_mem {dels : List Nat} : ∀ {rs : Rows} {p : Nat} {q : Nat × List Val × List Nat}, q ∈ liveFrom dels p rs →
    q.2 ∈ rs ∧ p ≤ q.1 ∧ rs[q.1 - p]? = some q.2 ∧ q.1 ∉ dels
  | [], _, _, h => by simp [liveFrom] at h
  | r :: rs, p, q, h => by
    rw [liveFrom] at h
    have aux : q ∈ liveFrom dels (p + 1) rs → q.2 ∈ r :: rs ∧ p ≤ q.1 ∧ (r :: rs)[q.1 - p]? = some q.2 ∧ q.1 ∉ dels := by
      intro h
      obtain ⟨h1, h2, h3, h4⟩ := liveFrom_mem h
      refine ⟨List.mem_cons_of_mem _ h1, by omega, ?_, h4⟩
      rw [show q.1 - p = (q.1 - (p + 1)) + 1 by omega, List.getElem?_cons_succ]
      exact h3
    split at h
    · exact aux h
    · rename_i hd
      rcases List.mem_cons.1 h with rfl | h
      · exact ⟨List.mem_cons_self .., Nat.le_refl _, by simp, hd⟩
      · exact aux h

/-- What a split does. -/
structure SplitTo (c : Cfg) (t : Tbl) (R : Nat → Rows) (id : Nat) (nd : Node) (t' : Tbl) (sv : Nat) (mv : List Move) (nd1 nd2 : Node) : Prop where
  avg : sv = xsum c (R id) / (R id).length
  svlo : loOf nd.blk ≤ sv
  svhi : sv ≤ hiOf nd.blk
  moved : mv.map (fun m => (m.1, m.2.1)) = (liveFrom nd.deleted 0 (R id).reverse).map
    (fun q => (tgt c (R id).length sv (hiOf nd.blk) t.fresh (t.fresh + 1) q.1 q.2.1, q.2.1))
  index : t'.index = mv.foldl (moveIx c) t.index
  fresh : t'.fresh = t.fresh + 2
  node1 : t'.nodes t.fresh = some nd1
  node2 : t'.nodes (t.fresh + 1) = some nd2
  dels : nd1.deleted = [] ∧ nd2.deleted = []
  lo1 : loOf nd1.blk = loOf nd.blk
  hi1 : hiOf nd1.blk = sv
  lo2 : loOf nd2.blk = if sv = hiOf nd.blk then hiOf nd.blk else sv + 1
  hi2 : hiOf nd2.blk = hiOf nd.blk
  old : ∀ j n, t.nodes j = some n → ∃ n', t'.nodes j = some n' ∧ n'.blk = n.blk ∧ n'.deleted = n.deleted ∧ n'.sum = n.sum
  new : ∀ j n', t'.nodes j = some n' → j = t.fresh ∨ j = t.fresh + 1 ∨ ∃ n, t.nodes j = some n

/-- Rows after a split. -/
def rowsSplit (R : Nat → Rows) (i1 i2 : Nat) (mv : List Move) : Nat → Rows :=
  fun j => if j = i2 then rowsAfter i2 mv [] else if j = i1 then rowsAfter i1 mv [] else R j

theorem foldl_moveIx (mv : List Move) : ∀ (ix : Int → Option Handle) (k : Int) (h : Handle), mv.foldl (moveIx c) ix k = some h →
    ix k = some h ∨ ∃ m ∈ mv, h = (m.1, m.2.2) := by
  induction mv with
  | nil => intro ix k h e; exact Or.inl e
  | cons m mv ih =>
    intro ix k h e
    rw [List.foldl_cons] at e
    rcases ih _ k h e with e | ⟨m', hm, e⟩
    · unfold moveIx setIx at e
      split at e
      · exact Or.inr ⟨m, List.mem_cons_self .., (Option.some.inj e).symm⟩
      · exact Or.inl e
    · exact Or.inr ⟨m', List.mem_cons_of_mem _ hm, e⟩

theorem NodeOK.congr {nd nd' : Node} {rows : Rows} (h : NodeOK c nd rows) (hb : nd'.blk = nd.blk) (hs : nd'.sum = nd.sum) : NodeOK c nd' rows := by
  obtain ⟨b, n, d, s⟩ := nd
  obtain ⟨b', n', d', s'⟩ := nd'
  cases hb
  cases hs
  exact ⟨h.1, h.2, h.3, h.4, h.5, h.6, h.7⟩

theorem mem_rowsAfter {i : Nat} {mv : List Move} {m : Move} (hm : m ∈ mv) (hi : m.1 = i) (rows : Rows) : m.2 ∈ rowsAfter i mv rows := by
  unfold rowsAfter
  refine List.mem_append_left _ (List.mem_reverse.2 (List.mem_map.2 ⟨m, List.mem_filter.2 ⟨hm, by simpa using hi⟩, rfl⟩))

theorem splitBlock_ok (hg : c.Good) {t : Tbl} {R : Nat → Rows} {pre post : List Nat} {id : Nat} (h : Inv c t R (pre ++ id :: post)) {nd : Node}
    (hnd : t.nodes id = some nd) (hne : R id ≠ []) :
    ∃ t' sv mv nd1 nd2, splitBlock c t id = .ok t' ∧ SplitTo c t R id nd t' sv mv nd1 nd2 ∧
      Inv c t' (rowsSplit R t.fresh (t.fresh + 1) mv) (pre ++ t.fresh :: (t.fresh + 1) :: post) := by
  have ok := h.ok id nd hnd
  have hlen : 0 < (R id).length := List.length_pos_iff.2 hne
  have hlen2 := ok.rep.length_le hg.ne
  obtain ⟨hx1, hx2⟩ := xsum_bounds ok
  have hhi := hiOf_lt nd.blk
  generalize hsv : xsum c (R id) / (R id).length = sv
  have hsl : loOf nd.blk ≤ sv := by rw [← hsv]; exact (Nat.le_div_iff_mul_le hlen).2 hx1
  have hsh : sv ≤ hiOf nd.blk := by rw [← hsv]; exact Nat.div_le_of_le_mul (by rw [Nat.mul_comm]; exact hx2)
  have hid := h.lt id nd hnd
  obtain ⟨b1, e1, l1, u1, n1⟩ := nodeOK_new hg hsl (by omega : sv < 2 ^ 32)
  obtain ⟨b2, e2, l2, u2, n2⟩ : ∃ b, (if sv = hiOf nd.blk then initBlock c.sch (hiOf nd.blk) (hiOf nd.blk) else initBlock c.sch (sv + 1) (hiOf nd.blk)) = .ok b ∧
      loOf b = (if sv = hiOf nd.blk then hiOf nd.blk else sv + 1) ∧ hiOf b = hiOf nd.blk ∧ ∀ nx, NodeOK c ⟨b, nx, [], 0⟩ [] := by
    by_cases hc : sv = hiOf nd.blk
    · rw [if_pos hc, if_pos hc]
      exact nodeOK_new hg (Nat.le_refl _) hhi
    · rw [if_neg hc, if_neg hc]
      exact nodeOK_new hg (by omega) hhi
  generalize ht0 : (({ t with fresh := t.fresh + 2 } : Tbl).put t.fresh ⟨b1, none, [], 0⟩).put (t.fresh + 1) ⟨b2, none, [], 0⟩ = t0
  have f0 : t0.fresh = t.fresh + 2 := by rw [← ht0]; rfl
  have hd0 : t0.head = t.head := by rw [← ht0]; rfl
  have x0 : t0.index = t.index := by rw [← ht0]; rfl
  have m0 : ∀ j, t0.nodes j = if j = t.fresh + 1 then some ⟨b2, none, [], 0⟩ else if j = t.fresh then some ⟨b1, none, [], 0⟩ else t.nodes j := by
    intro j; rw [← ht0]; rfl
  obtain ⟨mv, nd1, nd2, eL, hmv, k1, k2, s1, s2⟩ := splitLoop_ok (dels := nd.deleted) (cnt := (R id).length) (sv := sv) (hi := hiOf nd.blk)
    hg ok.rep (show t.fresh ≠ t.fresh + 1 by omega) ok.recs (R id).reverse 0 t0
    ⟨b1, none, [], 0⟩ ⟨b2, none, [], 0⟩ [] [] (fun k => by rw [Nat.zero_add]) (by rw [m0]; simp) (by rw [m0]; simp) (n1 _) (n2 _)
    (fun q hq => by
      have hq' : q.2 ∈ R id := by simpa using (liveFrom_mem hq).1
      have hr := ok.rng _ hq'
      refine ⟨fun ht => ?_, fun ht => ?_⟩
      · show loOf b1 ≤ _ ∧ _ ≤ hiOf b1
        rw [l1, u1]
        unfold tgt at ht
        split at ht
        · omega
        · split at ht
          · omega
          · omega
      · show loOf b2 ≤ _ ∧ _ ≤ hiOf b2
        rw [l2, u2]
        unfold tgt at ht
        by_cases hc : sv = hiOf nd.blk
        · rw [if_pos hc]
          have := xsum_all (fun r hr => (ok.rng r hr).2) (by
            have := Nat.div_mul_le_self (xsum c (R id)) (R id).length
            rw [hsv, hc] at this
            exact this) q.2 hq'
          omega
        · rw [if_neg hc] at ht ⊢
          split at ht
          · omega
          · omega)
    (fun i hi => by
      have := ok.rep.use_le ok.std hi
      have e : use i ((R id).reverse.map Prod.fst) = use i ((R id).map Prod.fst) := use_perm ((List.reverse_perm _).map _)
      have z : use i (List.map Prod.fst ([] : Rows)) = 0 := rfl
      rw [e, z]
      omega)
  rw [List.length_reverse] at eL
  generalize ht1 : ({ t0 with nodes := put2 t0 t.fresh (t.fresh + 1) nd1 nd2, index := mv.foldl (moveIx c) t0.index } : Tbl) = t1 at eL
  have f1 : t1.fresh = t.fresh + 2 := by rw [← ht1]; exact f0
  have hd1 : t1.head = t.head := by rw [← ht1]; exact hd0
  have x1 : t1.index = mv.foldl (moveIx c) t.index := by rw [← ht1, ← x0]
  have m1 : ∀ j, t1.nodes j = if j = t.fresh + 1 then some nd2 else if j = t.fresh then some nd1 else t.nodes j := by
    intro j
    rw [← ht1]
    show put2 t0 _ _ _ _ j = _
    unfold put2
    rw [m0]
    split
    · rfl
    · split <;> rfl
  have m1' : ∀ j n, t.nodes j = some n → t1.nodes j = some n := by
    intro j n hj
    have := h.lt j n hj
    rw [m1, if_neg (by omega), if_neg (by omega), hj]
  have hlt : ∀ j ∈ pre ++ id :: post, j < t.fresh := by
    intro j hj
    obtain ⟨n, hn⟩ := h.chain.mem j hj
    exact h.lt j n hn
  have ch1 : Chain t1.nodes (some t.head) (pre ++ id :: post) := h.chain.frame (fun j _ n hj => ⟨n, m1' j n hj, rfl⟩)
  -- the link to the first new node
  obtain ⟨t2, et2, f2, x2, ge2, old2, new2, ch2⟩ : ∃ t2 : Tbl, (if t1.head = id then pure { t1 with head := t.fresh } else do
      let p ← findPrev t1 id t1.fresh t1.head
      let q ← t1.get p
      pure (t1.put p { q with next := some t.fresh }) : Res Tbl) = .ok t2 ∧ t2.fresh = t1.fresh ∧ t2.index = t1.index ∧
      (∀ j, t.fresh ≤ j → t2.nodes j = t1.nodes j) ∧
      (∀ j n, t1.nodes j = some n → ∃ n', t2.nodes j = some n' ∧ n'.blk = n.blk ∧ n'.deleted = n.deleted ∧ n'.sum = n.sum ∧
        (j ∉ pre → n'.next = n.next)) ∧
      (∀ j n', t2.nodes j = some n' → ∃ n, t1.nodes j = some n) ∧
      (∀ (nodes' : Nat → Option Node) (l' : List Nat), (∀ j, j < t.fresh → nodes' j = t2.nodes j) → Chain nodes' (some t.fresh) l' →
        Chain nodes' (some t2.head) (pre ++ l')) := by
    rcases List.eq_nil_or_concat pre with rfl | ⟨pre', q, rfl⟩
    · have hh : t.head = id := by
        have := ch1.1
        exact Option.some.inj this
      refine ⟨{ t1 with head := t.fresh }, ?_, rfl, rfl, fun _ _ => rfl, fun j n hj => ⟨n, hj, rfl, rfl, rfl, fun _ => rfl⟩, fun j n hj => ⟨n, hj⟩, ?_⟩
      · rw [if_pos (by rw [hd1]; exact hh)]; rfl
      · intro nodes' l' _ hl; exact hl
    · rw [List.concat_eq_append] at ch1 hlt ⊢
      have hnd' := h.nodup
      rw [List.concat_eq_append, List.append_assoc, List.singleton_append] at hnd'
      rw [List.append_assoc, List.singleton_append] at ch1
      have hh : t.head ≠ id := by
        cases pre' with
        | nil =>
          have := ch1.1
          have := Option.some.inj this
          rw [this]
          intro hc
          rw [hc] at hnd'
          simp at hnd'
        | cons a as =>
          have := ch1.1
          have := Option.some.inj this
          rw [this]
          intro hc
          rw [hc] at hnd'
          simp at hnd'
      have hpl : pre'.length < t.fresh := by
        have := h.len
        simp at this
        omega
      have hfp := findPrev_ok pre' t.head t1.fresh ch1 hnd' (by omega)
      obtain ⟨nq, hnq⟩ := ch1.mem q (by simp)
      have hq : q < t.fresh := hlt q (by simp)
      refine ⟨t1.put q { nq with next := some t.fresh }, ?_, rfl, rfl, ?_, ?_, ?_, ?_⟩
      · rw [if_neg (by rw [hd1]; exact hh), hd1, hfp, Res.ok_bind, Tbl.get_ok hnq, Res.ok_bind]; rfl
      · intro j hj
        show (if j = q then _ else _) = _
        rw [if_neg (by omega)]
      · intro j n hj
        by_cases hjq : j = q
        · refine ⟨{ nq with next := some t.fresh }, ?_, ?_⟩
          · show (if j = q then _ else _) = _
            rw [if_pos hjq]
          · rw [hjq, hnq] at hj
            cases hj
            exact ⟨rfl, rfl, rfl, fun hc => absurd (by simp [hjq]) hc⟩
        · refine ⟨n, ?_, rfl, rfl, rfl, fun _ => rfl⟩
          show (if j = q then _ else _) = _
          rw [if_neg hjq]; exact hj
      · intro j n' hj
        have hj : (if j = q then _ else _) = some n' := hj
        by_cases hjq : j = q
        · exact ⟨nq, by rw [hjq]; exact hnq⟩
        · rw [if_neg hjq] at hj; exact ⟨n', hj⟩
      · intro nodes' l' hn hl
        show Chain nodes' (some t1.head) _
        rw [hd1, List.append_assoc, List.singleton_append]
        have hn' : ∀ j, j < t.fresh → nodes' j = if j = q then some { nq with next := some t.fresh } else t1.nodes j := hn
        refine ch1.relink (r := some t.fresh) (fun j hj n hjn => ?_) ⟨{ nq with next := some t.fresh }, by rw [hn' q hq, if_pos rfl], rfl⟩ hl
        refine ⟨n, ?_, rfl⟩
        have hjq : j ≠ q := by
          rintro rfl
          rw [List.nodup_append] at hnd'
          exact hnd'.2.2 j hj j (by simp) rfl
        rw [hn' j (hlt j (by simp [hj])), if_neg hjq]; exact hjn
  have g1 : t2.nodes t.fresh = some nd1 := by rw [ge2 _ (Nat.le_refl _), m1, if_neg (by omega), if_pos rfl]
  have g2 : t2.nodes (t.fresh + 1) = some nd2 := by rw [ge2 _ (by omega), m1, if_pos rfl]
  generalize ht' : ((t2.put t.fresh { nd1 with next := some (t.fresh + 1) }).put (t.fresh + 1) { nd2 with next := nd.next }) = t'
  have f' : t'.fresh = t.fresh + 2 := by rw [← ht']; exact f2.trans f1
  have x' : t'.index = mv.foldl (moveIx c) t.index := by rw [← ht']; exact x2.trans x1
  have hd' : t'.head = t2.head := by rw [← ht']; rfl
  have m' : ∀ j, t'.nodes j = if j = t.fresh + 1 then some { nd2 with next := nd.next } else
      if j = t.fresh then some { nd1 with next := some (t.fresh + 1) } else t2.nodes j := by
    intro j; rw [← ht']; rfl
  have old' : ∀ j n, t.nodes j = some n → ∃ n', t'.nodes j = some n' ∧ n'.blk = n.blk ∧ n'.deleted = n.deleted ∧ n'.sum = n.sum ∧
      (j ∉ pre → n'.next = n.next) := by
    intro j n hj
    have hl := h.lt j n hj
    rw [m', if_neg (by omega), if_neg (by omega)]
    exact old2 j n (m1' j n hj)
  have new' : ∀ j n', t'.nodes j = some n' → j = t.fresh ∨ j = t.fresh + 1 ∨ ∃ n, t.nodes j = some n := by
    intro j n' hj
    rw [m'] at hj
    by_cases h1 : j = t.fresh + 1
    · exact Or.inr (Or.inl h1)
    · by_cases h2 : j = t.fresh
      · exact Or.inl h2
      · rw [if_neg h1, if_neg h2] at hj
        obtain ⟨n, hn⟩ := new2 j n' hj
        rw [m1, if_neg h1, if_neg h2] at hn
        exact Or.inr (Or.inr ⟨n, hn⟩)
  have z1 : t'.nodes t.fresh = some { nd1 with next := some (t.fresh + 1) } := by rw [m', if_neg (by omega), if_pos rfl]
  have z2 : t'.nodes (t.fresh + 1) = some { nd2 with next := nd.next } := by rw [m', if_pos rfl]
  have lo1' : loOf nd1.blk = loOf nd.blk := s1.2.2.1.trans l1
  have hi1' : hiOf nd1.blk = sv := s1.2.2.2.trans u1
  have lo2' : loOf nd2.blk = (if sv = hiOf nd.blk then hiOf nd.blk else sv + 1) := s2.2.2.1.trans l2
  have hi2' : hiOf nd2.blk = hiOf nd.blk := s2.2.2.2.trans u2
  have hmod : (R id).length % 65536 = (R id).length := Nat.mod_eq_of_lt (by omega)
  refine ⟨t', sv, mv, _, _, ?_, ⟨hsv.symm, hsl, hsh, hmv, x', f', z1, z2, ⟨s1.2.1, s2.2.1⟩, lo1', hi1', lo2', hi2',
    fun j n hj => ?_, new'⟩, ?_⟩
  · unfold splitBlock
    rw [Tbl.get_ok hnd, Res.ok_bind, range_ok, Res.ok_bind, ok.rep.count, Res.ok_bind, if_neg (by omega)]
    dsimp only
    rw [ok.sum, hsv, Nat.mod_eq_of_lt (by omega : sv < 2 ^ 32), e1, Res.ok_bind, e2, Res.ok_bind, ht0, hmod, eL, Res.ok_bind, et2, Res.ok_bind,
      Tbl.get_ok g1, Res.ok_bind]
    have g2' : (t2.put t.fresh { nd1 with next := some (t.fresh + 1) }).nodes (t.fresh + 1) = some nd2 := by
      show (if t.fresh + 1 = t.fresh then _ else _) = _
      rw [if_neg (by omega)]; exact g2
    rw [Tbl.get_ok g2', Res.ok_bind, ht']
    rfl
  · obtain ⟨n', q1, q2, q3, q4, -⟩ := old' j n hj
    exact ⟨n', q1, q2, q3, q4⟩
  · have hro : ∀ j, j < t.fresh → rangeAt t' j = rangeAt t j := by
      intro j hj
      unfold rangeAt
      cases hn : t.nodes j with
      | some n =>
        obtain ⟨n', q1, q2, -⟩ := old' j n hn
        rw [q1]; dsimp only; rw [q2]
      | none =>
        cases hn' : t'.nodes j with
        | none => rfl
        | some n' =>
          rcases new' j n' hn' with q | q | ⟨n, q⟩
          · omega
          · omega
          · rw [hn] at q; cases q
    have hpre : ∀ j ∈ pre, j < t.fresh := fun j hj => hlt j (by simp [hj])
    have hpost : ∀ j ∈ post, j < t.fresh := fun j hj => hlt j (by simp [hj])
    refine ⟨?_, ?_, ?_, ?_, ?_, ?_⟩
    · rw [hd']
      refine ch2 _ _ (fun j hj => by rw [m', if_neg (by omega), if_neg (by omega)]) ⟨rfl, _, z1, rfl, _, z2, ?_⟩
      obtain ⟨r, hr⟩ := h.chain.suffix
      obtain ⟨-, n, hn, hp⟩ := hr
      rw [hnd] at hn
      cases hn
      refine hp.frame (fun j hj n hn => ?_)
      obtain ⟨n', q1, -, -, -, q5⟩ := old' j n hn
      refine ⟨n', q1, q5 ?_⟩
      intro hc
      have := h.nodup
      rw [List.nodup_append] at this
      exact this.2.2 j hc j (by simp [hj]) rfl
    · have := h.nodup
      rw [List.nodup_append, List.nodup_cons] at this ⊢
      obtain ⟨a1, ⟨a2, a3⟩, a4⟩ := this
      refine ⟨a1, ⟨?_, List.nodup_cons.2 ⟨?_, a3⟩⟩, ?_⟩
      · intro hc
        rcases List.mem_cons.1 hc with hc | hc
        · omega
        · have := hpost _ hc; omega
      · intro hc
        have := hpost _ hc; omega
      · intro a ha b hb
        have := hpre a ha
        rcases List.mem_cons.1 hb with rfl | hb
        · omega
        · rcases List.mem_cons.1 hb with rfl | hb
          · omega
          · exact a4 a ha b (List.mem_cons_of_mem _ hb)
    · intro j n' hj
      rw [f']
      rcases new' j n' hj with q | q | ⟨n, q⟩
      · omega
      · omega
      · have := h.lt j n q; omega
    · intro j n' hj
      unfold rowsSplit
      by_cases h1 : j = t.fresh + 1
      · rw [if_pos h1]
        rw [h1, z2] at hj
        cases hj
        exact k2.congr rfl rfl
      · rw [if_neg h1]
        by_cases h2 : j = t.fresh
        · rw [if_pos h2]
          rw [h2, z1] at hj
          cases hj
          exact k1.congr rfl rfl
        · rw [if_neg h2]
          rcases new' j n' hj with q | q | ⟨n, q⟩
          · exact absurd q h2
          · exact absurd q h1
          · obtain ⟨n'', q1, q2, -, q4, -⟩ := old' j n q
            rw [hj] at q1
            cases q1
            exact (h.ok j n q).congr q2 q4
    · have hg' := h.gap
      rw [List.map_append, List.map_cons] at hg' ⊢
      have er : rangeAt t id = (loOf nd.blk, hiOf nd.blk) := by unfold rangeAt; rw [hnd]
      have er1 : rangeAt t' t.fresh = (loOf nd.blk, sv) := by unfold rangeAt; rw [z1]; show (loOf nd1.blk, hiOf nd1.blk) = _; rw [lo1', hi1']
      have er2 : rangeAt t' (t.fresh + 1) = ((if sv = hiOf nd.blk then hiOf nd.blk else sv + 1), hiOf nd.blk) := by
        unfold rangeAt; rw [z2]; show (loOf nd2.blk, hiOf nd2.blk) = _; rw [lo2', hi2']
      rw [List.map_congr_left (fun j hj => hro j (hpre j hj)), List.map_cons, List.map_congr_left (fun j hj => hro j (hpost j hj)), er1, er2]
      rw [er] at hg'
      refine hg'.replace (new := [(loOf nd.blk, sv), ((if sv = hiOf nd.blk then hiOf nd.blk else sv + 1), hiOf nd.blk)]) (fun s hs => ?_)
      obtain ⟨hs1, hs2, hs3⟩ := hs
      dsimp only at hs1 hs2 hs3
      refine ⟨?_, hsl, ?_, ?_, hs3⟩
      · dsimp only; omega
      · dsimp only
        by_cases hc : sv = hiOf nd.blk
        · rw [if_pos hc]; omega
        · rw [if_neg hc]; omega
      · dsimp only
        by_cases hc : sv = hiOf nd.blk
        · rw [if_pos hc]
        · rw [if_neg hc]; omega
    · intro k j os hk
      rw [x'] at hk
      rcases foldl_moveIx mv _ _ _ hk with hk | ⟨m, hm, e⟩
      · obtain ⟨n, vs, q1, q2⟩ := h.idx k j os hk
        obtain ⟨n', q3, -⟩ := old' j n q1
        refine ⟨n', vs, q3, ?_⟩
        have := h.lt j n q1
        unfold rowsSplit
        rw [if_neg (by omega), if_neg (by omega)]
        exact q2
      · cases e
        have : (m.1, m.2.1) ∈ mv.map (fun m => (m.1, m.2.1)) := List.mem_map.2 ⟨m, hm, rfl⟩
        rw [hmv] at this
        obtain ⟨q, -, e⟩ := List.mem_map.1 this
        have e : tgt c (R id).length sv (hiOf nd.blk) t.fresh (t.fresh + 1) q.1 q.2.1 = m.1 := (Prod.ext_iff.1 e).1
        unfold rowsSplit
        rcases tgt_or c (R id).length sv (hiOf nd.blk) t.fresh (t.fresh + 1) q.1 q.2.1 with hc | hc
        · have hm1 : m.1 = t.fresh := e.symm.trans hc
          refine ⟨_, m.2.1, by rw [hm1]; exact z1, ?_⟩
          rw [if_neg (by omega), if_pos hm1]
          exact mem_rowsAfter hm hm1 []
        · have hm1 : m.1 = t.fresh + 1 := e.symm.trans hc
          refine ⟨_, m.2.1, by rw [hm1]; exact z2, ?_⟩
          rw [if_pos hm1]
          exact mem_rowsAfter hm hm1 []

end Verif.PTable
