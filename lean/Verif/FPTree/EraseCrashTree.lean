import Verif.FPTree.EraseCrashLoop

/-!
# Crashes inside an erase of the FPTree: siblings and the whole call
-/

set_option linter.unusedSectionVars false

namespace Verif.FPTree

open Verif Search BTree Assoc MapSpec

variable {K V : Type} {M : Nat} [LinearOrder K] [Inhabited K] {c : FCfg K V} {adm : K → Prop}

/-- The branch node above the leaf of `k`, and the neighbours of this leaf below it. -/
theorem leafParent_spec {F : FLaws c adm} {hM : 2 ≤ M} {Q : FLeaf M K V → Bd K → Bd K → Prop} {lm bm : Nat} (hbm : 1 ≤ bm)
    {h : Heap (FLeaf M K V)} (k : K) : ∀ (d top : Nat) (n : Tree K (d + 1)) (lo hi : Bd K), 1 ≤ top →
    Bt (fpLaws F hM) Q lm bm h (d + 1) top n lo hi → InR lo hi k →
    ∃ (pn : BNode K Nat) (c1 : List Nat) (id : Nat) (c2 pre post : List Nat) (m m' : Bd K) (l : FLeaf M K V),
      leafParent c M d n k = .ok pn ∧ lookupPos (fpOps c M) pn k = .ok c1.length ∧ pn.num = c1.length + c2.length ∧
      1 ≤ pn.num ∧ findLeaf (fpOps c M) (d + 1) n k = .ok id ∧ ids (d + 1) n = pre ++ (c1 ++ id :: c2) ++ post ∧
      h.data id = some l ∧ FOk c.hash adm l ∧ lm ≤ l.abs.length ∧ (∀ e ∈ l.abs, InR m m' e.1) ∧ Q l m m' ∧
      (0 < c1.length → ∃ c1' p lp m0, c1 = c1' ++ [p] ∧ h.data p = some lp ∧ FOk c.hash adm lp ∧ lm ≤ lp.abs.length ∧
        (∀ e ∈ lp.abs, InR m0 m e.1) ∧ Q lp m0 m) ∧
      (0 < c2.length → ∃ q c2' lq m2, c2 = q :: c2' ∧ h.data q = some lq ∧ FOk c.hash adm lq ∧ lm ≤ lq.abs.length ∧
        (∀ e ∈ lq.abs, InR m' m2 e.1) ∧ Q lq m' m2) := by
  intro d
  induction d with
  | zero =>
    intro top n lo hi h1 hb hk
    obtain ⟨cs, ks, hr, htop, ht⟩ := hb
    obtain ⟨hks, _, _⟩ := keys_sorted (fun c a b hc => Bt.lt hc) ht
    obtain ⟨c1, id, c2, k1, k2, b1, m, m', b2, f⟩ := exists_focus (fpLaws F hM) (fun c a b hc => Bt.lt hc) ht hk
    obtain ⟨_, l, hl, hok, hlen, hbd, hq⟩ := f.pc
    have hnum := hr.num
    rw [f.hks, List.length_append] at hnum
    have e1 := f.l1
    have e2 := f.l2
    have ht' : 1 ≤ k1.length + k2.length := by
      rw [f.hks, List.length_append] at htop; omega
    refine ⟨n, c1, id, c2, [], [], m, m', l, rfl, by rw [e1]; exact f.lookupPos hr hks, by omega, by omega, ?_, ?_, hl, hok, hlen, hbd,
      hq, fun hpos => ?_, fun hpos => ?_⟩
    · rw [findLeaf, f.lookupPos hr hks, Res.ok_bind, f.rdKid hr, Res.ok_bind, findLeaf]
    · rw [ids_rep (K := K) (d := 0) hr, ids_leaf_flatMap, f.hcs]; simp
    · obtain ⟨c1', p, k1', s, b1', m0, hc1, _, _, _, _, _, _, _, lp, hlp, hokp, hlenp, hbdp, hqp⟩ :=
        left_of f.l1 f.hb1 f.lb f.t1 (by omega)
      exact ⟨c1', p, lp, m0, hc1, hlp, hokp, hlenp, hbdp, hqp⟩
    · obtain ⟨q, c2', s, k2', m2, b2', hc2, _, _, _, _, ⟨_, lp, hlp, hokp, hlenp, hbdp, hqp⟩, _⟩ :=
        right_of f.l2 f.hb2 f.t2 (by omega)
      exact ⟨q, c2', lp, m2, hc2, hlp, hokp, hlenp, hbdp, hqp⟩
  | succ d ih =>
    intro top n lo hi h1 hb hk
    obtain ⟨cs, ks, hr, htop, ht⟩ := hb
    obtain ⟨hks, _, _⟩ := keys_sorted (fun c a b hc => Bt.lt hc) ht
    obtain ⟨d1, ch, d2, k1, k2, b1, a, a', b2, f⟩ := exists_focus (fpLaws F hM) (fun c a b hc => Bt.lt hc) ht hk
    obtain ⟨pn, c1, id, c2, pre, post, m, m', l, e1, e2, e3, e4, e5, e6, e7⟩ := ih (occ lm bm (d + 1)) ch a a' hbm f.pc f.inR
    have hrd : Slots.rd (c.N + 1) n.kids k1.length = .ok ch := f.rdKid hr
    refine ⟨pn, c1, id, c2, d1.flatMap (ids (d + 1)) ++ pre, post ++ d2.flatMap (ids (d + 1)), m, m', l, ?_, e2, e3, e4, ?_, ?_, e7⟩
    · rw [leafParent, f.lookupPos hr hks, Res.ok_bind, hrd, Res.ok_bind, e1]
    · rw [findLeaf, f.lookupPos hr hks, Res.ok_bind, f.rdKid hr, Res.ok_bind, e5]
    · rw [ids_rep hr, f.hcs, List.flatMap_append, List.flatMap_cons, e6]; simp

/-- `recover` gives a tree with the map `m`. -/
def RecM (c : FCfg K V) (h : Heap (FLeaf M K V)) (first : Nat) (m : K → Option V) : Prop :=
  ∃ s, recoverF (fpOps c M) h first = .ok s ∧ ∀ x, lookup (fpOps c M) s x = .ok (m x)

/-- No key is stored in two leaves of the leaf list. -/
def OneCopy (h : Heap (FLeaf M K V)) (first : Nat) : Prop :=
  ∀ is : List Nat, is.head? = some first → is.IsChain (fun a b => h.next a = some b) → ∀ i ∈ is, ∀ j ∈ is, i ≠ j →
    ∀ li lj, h.data i = some li → h.data j = some lj → ∀ p < M, ∀ q < M, Bitmap.bit li.bits p = true → Bitmap.bit lj.bits q = true →
      li.keys p ≠ lj.keys q

/-- What is shown for every crash point. -/
def After (F : FLaws c adm) (hM : 2 ≤ M) (h : Heap (FLeaf M K V)) (first : Nat) (m : K → Option V) : Prop :=
  RecM c h first m ∧ (OneCopy h first → ∃ is, is.head? = some first ∧ Pers1 F hM h is m)

theorem Pers1.chain {F : FLaws c adm} {hM : 2 ≤ M} {h : Heap (FLeaf M K V)} {is : List Nat} {m : K → Option V}
    (hp : Pers1 F hM h is m) : is.IsChain (fun a b => h.next a = some b) := by
  obtain ⟨p, w⟩ := hp.wf
  exact w.chain.1.imp (fun a b hab => hab.1)

theorem OneCopy.find {h : Heap (FLeaf M K V)} {first : Nat} (ho : OneCopy h first) {is : List Nat} (hf : is.head? = some first)
    (hc : is.IsChain (fun a b => h.next a = some b)) {i j : Nat} (hi : i ∈ is) (hj : j ∈ is) (hne : i ≠ j) {li lj : FLeaf M K V}
    (hdi : h.data i = some li) (hdj : h.data j = some lj) {e e' : K × V} (he : e ∈ li.abs) (he' : e' ∈ lj.abs) : e.1 ≠ e'.1 := by
  obtain ⟨p, hp, hb, rfl⟩ := mem_abs.1 he
  obtain ⟨q, hq, hb', rfl⟩ := mem_abs.1 he'
  exact ho is hf hc i hi j hj hne li lj hdi hdj p hp q hq hb hb'

theorem head_cons {is : List Nat} {a : Nat} (h : is.head? = some a) : ∃ r, is = a :: r := by
  cases is with
  | nil => simp at h
  | cons x r => simp at h; exact ⟨r, by rw [h]⟩

theorem Pers1.after {F : FLaws c adm} {hM : 2 ≤ M} (hN : 2 ≤ c.N) (hmax : ∀ k, adm k → k < c.lim.max)
    {h : Heap (FLeaf M K V)} {is : List Nat} {first : Nat} {m : K → Option V} (hp : Pers1 F hM h is m) (hf : is.head? = some first) :
    After F hM h first m := by
  refine ⟨?_, fun _ => ⟨is, hf, hp⟩⟩
  obtain ⟨r, rfl⟩ := head_cons hf
  exact hp.look hN hmax

/-- Rebalancing with the left sibling `p`. -/
theorem balanceL_crash {F : FLaws c adm} {hM : 2 ≤ M} (hN : 2 ≤ c.N) (hmax : ∀ k, adm k → k < c.lim.max)
    {h : Heap (FLeaf M K V)} {pre post : List Nat} {p id first : Nat} {m : K → Option V}
    (hp : Pers1 F hM h (pre ++ p :: id :: post) m) (hf : (pre ++ p :: id :: post).head? = some first)
    {lp l : FLeaf M K V} (hlp : h.data p = some lp) (hl : h.data id = some l) (okp : FOk c.hash adm lp) (ok : FOk c.hash adm l)
    (hlt : l.abs.length < lp.abs.length) (hne : l.abs ≠ []) (hk : lp.keys 0 < l.keys 0) (low : Nat → K → Prop)
    (hlow : ∀ e ∈ lp.abs, low id e.1) :
    ∃ us, balanceWrites c h p id = .ok us ∧ (∀ t, ¬ Torn low us t → ∃ h', applyE h (us.take t) = .ok h' ∧ After F hM h' first m) ∧
      ∃ h', balanceLeaf (fpOps c M) h p id = .ok h' ∧ applyE h us = .ok h' := by
  have hcap := abs_cap lp
  have h0 : 0 < M := by omega
  have hl1 : 1 ≤ l.abs.length := List.length_pos_iff.2 hne
  have hnd := hp.nodup
  have hpid : p ≠ id := by
    rw [List.nodup_append, List.nodup_cons] at hnd
    rintro rfl; exact hnd.2.1.1 (by simp)
  have hs : Sorted (lp.abs ++ l.abs) := by
    have := hp.sorted
    rw [content_append, content_cons, content_cons, ← List.append_assoc (ent _ _ p), sorted_append] at this
    have := (sorted_append.1 this.2.1).1
    simp only [ent, hlp, hl] at this
    exact this
  generalize hB : (lp.abs.length + l.abs.length) / 2 = B
  obtain ⟨ws, ew, hws, d1, r1, em, ea1⟩ := balUp_spec F hpid low (lp.abs.length - B) lp l (lp.abs.take B) (lp.abs.drop B) h hlp hl okp ok
    (List.take_append_drop _ _).symm (by simp) (by simp; omega) hs (by omega) hlow
  refine ⟨ws, ?_, fun t ht => ?_, (h.set p d1).set id r1, ?_, ea1⟩
  rotate_left
  rotate_left
  · have hb : FLeaf.balance c lp l = .ok (d1, r1) := by
      unfold FLeaf.balance
      rw [okp.count, ok.count, Res.assert_pos hlt, Res.ok_bind, hB]
      dsimp only
      rw [if_neg (by omega), rdA_ok h0, Res.ok_bind, rdA_ok h0, Res.ok_bind, if_pos hk, em]
    unfold balanceLeaf
    rw [Heap.get_of hlp, Res.ok_bind, Heap.get_of hl, Res.ok_bind, show (fpOps c M).balance lp l = .ok (d1, r1) from hb, Res.ok_bind]
    rfl
  · unfold balanceWrites
    rw [Heap.get, hlp, Res.ofOption_some, Res.ok_bind, Heap.get, hl, Res.ofOption_some, Res.ok_bind, okp.count, ok.count,
      Res.assert_pos hlt, Res.ok_bind, hB]
    dsimp only
    rw [if_neg (by omega), rdA_ok h0, Res.ok_bind, rdA_ok h0, Res.ok_bind, decide_eq_true hk, ew]
  · obtain ⟨d', r', d0, ea, okd, okr, ok0, he, hd0, hlen, hcase⟩ := hws t ht
    refine ⟨_, ea, ?_⟩
    have hq : Pers1 F hM ((h.set p d0).set id r') (pre ++ p :: id :: post) m :=
      hp.pair (la' := d0) (lb' := r') hlp hl (by simp [Heap.set, upd, hpid]) (by simp [Heap.set, upd])
        (fun i h1 h2 => by simp [Heap.set, upd, h1, h2]) rfl rfl ok0 okr hd0 (List.length_pos_iff.1 (by omega)) he
    obtain ⟨rest, hr⟩ := head_cons hf
    have hmin : d'.minKey c = d0.minKey c := by
      cases hd : d0.abs with
      | nil => exact absurd hd hd0
      | cons e es =>
        rw [minKey_ok F hmax ok0 hd]
        rcases hcase with h1 | ⟨e', h1, _⟩
        · exact minKey_ok F hmax okd (by rw [h1, hd])
        · exact minKey_ok F hmax okd (by rw [h1, hd]; rfl)
    have hone : OneCopy ((h.set p d').set id r') first → d'.abs = d0.abs := by
      intro ho
      rcases hcase with h3 | ⟨e, h3, h4⟩
      · exact h3
      · obtain ⟨v, hv⟩ := Option.ne_none_iff_exists'.1 h4
        exact absurd rfl (ho.find hf hp.chain (i := p) (j := id) (by simp) (by simp) hpid (li := d') (lj := r')
          (by simp [Heap.set, upd, hpid]) (by simp [Heap.set, upd]) (e := e) (e' := (e.1, v)) (by rw [h3]; simp)
          ((mem_iff_find okr.sorted).2 hv))
    refine ⟨?_, fun ho => ⟨_, hf, hp.pair (la' := d') (lb' := r') hlp hl (by simp [Heap.set, upd, hpid]) (by simp [Heap.set, upd])
        (fun i h1 h2 => by simp [Heap.set, upd, h1, h2]) rfl rfl okd okr (by rw [hone ho]; exact hd0)
        (List.length_pos_iff.1 (by omega)) (by rw [hone ho]; exact he)⟩⟩
    rw [hr] at hq
    refine hq.shadow hN hmax rfl rfl (fun i => ?_) (fun i hi l0 hl0 => ?_)
    · by_cases h1 : i = id
      · simp [Heap.set, upd, h1]
      · by_cases h2 : i = p
        · subst h2; simp [Heap.set, upd, h1, hmin]
        · simp [Heap.set, upd, h1, h2]
    · by_cases h1 : i = id
      · subst h1
        simp [Heap.set, upd] at hl0
        subst hl0
        exact ⟨r', by simp [Heap.set, upd], okr, fun x => Or.inl rfl⟩
      · by_cases h2 : i = p
        · subst h2
          simp [Heap.set, upd, h1] at hl0
          subst hl0
          refine ⟨d', by simp [Heap.set, upd, h1], okd, fun x => ?_⟩
          rcases hcase with h3 | ⟨e, h3, h4⟩
          · rw [h3]; exact Or.inl rfl
          · by_cases hx : e.1 = x
            · subst hx
              exact Or.inr ⟨id, by rw [← hr]; simp, Ne.symm h1, r', by simp [Heap.set, upd], h4⟩
            · left; rw [h3, find_append_left (by simpa using hx)]
        · simp [Heap.set, upd, h1, h2] at hl0
          obtain ⟨l1, e1, o1, _⟩ := hp.leaf i (by rw [hr]; exact hi)
          rw [hl0] at e1
          cases Option.some.inj e1
          exact ⟨l0, by simp [Heap.set, upd, h1, h2, hl0], o1, fun x => Or.inl rfl⟩

/-- Rebalancing with the right sibling `q`. -/
theorem balanceR_crash {F : FLaws c adm} {hM : 2 ≤ M} (hN : 2 ≤ c.N) (hmax : ∀ k, adm k → k < c.lim.max)
    {h : Heap (FLeaf M K V)} {pre post : List Nat} {q id first : Nat} {m : K → Option V}
    (hp : Pers1 F hM h (pre ++ id :: q :: post) m) (hf : (pre ++ id :: q :: post).head? = some first)
    {lq l : FLeaf M K V} (hlq : h.data q = some lq) (hl : h.data id = some l) (okq : FOk c.hash adm lq) (ok : FOk c.hash adm l)
    (hlt : l.abs.length < lq.abs.length) (hne : l.abs ≠ []) (hk : ¬ lq.keys 0 < l.keys 0) (low : Nat → K → Prop) :
    ∃ us, balanceWrites c h q id = .ok us ∧ (∀ t, ¬ Torn low us t → ∃ h', applyE h (us.take t) = .ok h' ∧ After F hM h' first m) ∧
      ∃ h', balanceLeaf (fpOps c M) h q id = .ok h' ∧ applyE h us = .ok h' := by
  have hcap := abs_cap lq
  have h0 : 0 < M := by omega
  have hl1 : 1 ≤ l.abs.length := List.length_pos_iff.2 hne
  have hnd := hp.nodup
  have hpid : q ≠ id := by
    rw [List.nodup_append, List.nodup_cons] at hnd
    rintro rfl; exact hnd.2.1.1 (by simp)
  have hs : Sorted (l.abs ++ lq.abs) := by
    have := hp.sorted
    rw [content_append, content_cons, content_cons, ← List.append_assoc (ent _ _ id), sorted_append] at this
    have := (sorted_append.1 this.2.1).1
    simp only [ent, hlq, hl] at this
    exact this
  generalize hB : (lq.abs.length + l.abs.length) / 2 = B
  obtain ⟨ws, ew, hws, d1, r1, em, ea1⟩ := balDown_spec F hpid low (lq.abs.length - B) lq l (lq.abs.take (lq.abs.length - B))
    (lq.abs.drop (lq.abs.length - B)) h hlq hl okq ok
    (List.take_append_drop _ _).symm (by simp) (by simp; omega) hs (by omega)
  refine ⟨ws, ?_, fun t ht => ?_, (h.set q d1).set id r1, ?_, ea1⟩
  rotate_left
  rotate_left
  · have hb : FLeaf.balance c lq l = .ok (d1, r1) := by
      unfold FLeaf.balance
      rw [okq.count, ok.count, Res.assert_pos hlt, Res.ok_bind, hB]
      dsimp only
      rw [if_neg (by omega), rdA_ok h0, Res.ok_bind, rdA_ok h0, Res.ok_bind, if_neg hk, em]
    unfold balanceLeaf
    rw [Heap.get_of hlq, Res.ok_bind, Heap.get_of hl, Res.ok_bind, show (fpOps c M).balance lq l = .ok (d1, r1) from hb, Res.ok_bind]
    rfl
  · unfold balanceWrites
    rw [Heap.get, hlq, Res.ofOption_some, Res.ok_bind, Heap.get, hl, Res.ofOption_some, Res.ok_bind, okq.count, ok.count,
      Res.assert_pos hlt, Res.ok_bind, hB]
    dsimp only
    rw [if_neg (by omega), rdA_ok h0, Res.ok_bind, rdA_ok h0, Res.ok_bind, decide_eq_false hk, ew]
  · obtain ⟨d', r', r0, ea, okd, okr, ok0, he, hd0, hlen, hcase⟩ := hws t ht
    refine ⟨_, ea, ?_⟩
    have hr0 : r0.abs ≠ [] := List.length_pos_iff.1 (by omega)
    have hq : Pers1 F hM ((h.set q d').set id r0) (pre ++ id :: q :: post) m :=
      hp.pair (la' := r0) (lb' := d') hl hlq (by simp [Heap.set, upd]) (by simp [Heap.set, upd, hpid])
        (fun i h1 h2 => by simp [Heap.set, upd, h1, h2]) rfl rfl ok0 okd hr0 hd0 he
    obtain ⟨rest, hr⟩ := head_cons hf
    have hmin : r'.minKey c = r0.minKey c := by
      cases hd : r0.abs with
      | nil => exact absurd hd hr0
      | cons e es =>
        rw [minKey_ok F hmax ok0 hd]
        rcases hcase with h1 | ⟨e', h1, _⟩
        · exact minKey_ok F hmax okr (by rw [h1, hd])
        · exact minKey_ok F hmax okr (by rw [h1, hd]; rfl)
    have hone : OneCopy ((h.set q d').set id r') first → r'.abs = r0.abs := by
      intro ho
      rcases hcase with h3 | ⟨e, h3, h4⟩
      · exact h3
      · obtain ⟨v, hv⟩ := Option.ne_none_iff_exists'.1 h4
        exact absurd rfl (ho.find hf hp.chain (i := id) (j := q) (by simp) (by simp) (Ne.symm hpid) (li := r') (lj := d')
          (by simp [Heap.set, upd]) (by simp [Heap.set, upd, hpid]) (e := e) (e' := (e.1, v)) (by rw [h3]; simp)
          ((mem_iff_find okd.sorted).2 hv))
    refine ⟨?_, fun ho => ⟨_, hf, hp.pair (la' := r') (lb' := d') hl hlq (by simp [Heap.set, upd]) (by simp [Heap.set, upd, hpid])
        (fun i h1 h2 => by simp [Heap.set, upd, h1, h2]) rfl rfl okr okd (by rw [hone ho]; exact hr0) hd0
        (by rw [hone ho]; exact he)⟩⟩
    rw [hr] at hq
    refine hq.shadow hN hmax rfl rfl (fun i => ?_) (fun i hi l0 hl0 => ?_)
    · by_cases h1 : i = id
      · subst h1; simp [Heap.set, upd, hmin]
      · simp [Heap.set, upd, h1]
    · by_cases h1 : i = id
      · subst h1
        simp [Heap.set, upd] at hl0
        subst hl0
        refine ⟨r', by simp [Heap.set, upd], okr, fun x => ?_⟩
        rcases hcase with h3 | ⟨e, h3, h4⟩
        · rw [h3]; exact Or.inl rfl
        · by_cases hx : e.1 = x
          · subst hx
            exact Or.inr ⟨q, by rw [← hr]; simp, hpid, d', by simp [Heap.set, upd, hpid], h4⟩
          · left; rw [h3, find_append_left (by simpa using hx)]
      · have hl0' : ((h.set q d').set id r').data i = some l0 := by
          simpa [Heap.set, upd, h1] using hl0
        obtain ⟨l1, e1, o1, _⟩ := hq.leaf i hi
        rw [hl0] at e1
        cases Option.some.inj e1
        exact ⟨l0, hl0', o1, fun x => Or.inl rfl⟩

/-- The assignments of the unlinking. -/
theorem unlink_apply {h : Heap (FLeaf M K V)} {a b : Nat} {la lb : FLeaf M K V} (ha : h.data a = some la) (hb : h.data b = some lb)
    {nx : Option Nat} (hx : ∀ x, nx = some x → (h.data x).isSome) {j : Nat} (hj : 1 ≤ j) :
    ∃ h' : Heap (FLeaf M K V), applyE h ((unlinkWrites (K := K) (V := V) a b nx).take j) = .ok h' ∧ (∀ i, i ≠ b → h'.data i = h.data i) ∧
      h'.next = upd h.next a nx ∧ h'.fresh = h.fresh := by
  obtain ⟨j, rfl⟩ : ∃ j', j = j' + 1 := ⟨j - 1, by omega⟩
  have e1 : (EWrite.next a nx : EWrite K V).apply h = .ok { h with next := upd h.next a nx } := by
    simp only [EWrite.apply, Heap.get_of ha, Res.ok_bind]; rfl
  have del : ∀ H : Heap (FLeaf M K V), H.data b = some lb → (EWrite.del b : EWrite K V).apply H = .ok (H.free b) := by
    intro H hH
    simp only [EWrite.apply, Heap.get_of hH, Res.ok_bind]; rfl
  have fr : ∀ H : Heap (FLeaf M K V), ∀ i, i ≠ b → (H.free b).data i = H.data i := by
    intro H i hi
    simp [Heap.free, upd, hi]
  cases nx with
  | none =>
    rw [unlinkWrites, List.take_succ_cons, applyE, e1, Res.ok_bind]
    cases j with
    | zero => exact ⟨_, rfl, fun _ _ => rfl, rfl, rfl⟩
    | succ j =>
      rw [List.take_succ_cons, applyE, del { h with next := upd h.next a none } hb, Res.ok_bind, List.take_nil]
      exact ⟨_, rfl, fr _, rfl, rfl⟩
  | some x =>
    rw [unlinkWrites, List.take_succ_cons, applyE, e1, Res.ok_bind]
    cases j with
    | zero => exact ⟨_, rfl, fun _ _ => rfl, rfl, rfl⟩
    | succ j =>
      obtain ⟨lx, hlx⟩ := Option.isSome_iff_exists.1 (hx x rfl)
      have e2 : (EWrite.w (.prev x a) : EWrite K V).apply { h with next := upd h.next a (some x) } =
          .ok { h with next := upd h.next a (some x), prev := upd h.prev x (some a) } := by
        have : ({ h with next := upd h.next a (some x) } : Heap (FLeaf M K V)).data x = some lx := hlx
        simp only [EWrite.apply, HWrite.apply, Heap.get_of this, Res.ok_bind]; rfl
      rw [List.take_succ_cons, applyE, e2, Res.ok_bind]
      cases j with
      | zero => exact ⟨_, rfl, fun _ _ => rfl, rfl, rfl⟩
      | succ j =>
        rw [List.take_succ_cons, applyE, del { h with next := upd h.next a (some x), prev := upd h.prev x (some a) } hb, Res.ok_bind,
          List.take_nil]
        exact ⟨_, rfl, fr _, rfl, rfl⟩

/-- Merging the neighbours `a` and `b`. -/
theorem merge_crash {F : FLaws c adm} {hM : 2 ≤ M} (hN : 2 ≤ c.N) (hmax : ∀ k, adm k → k < c.lim.max)
    {h : Heap (FLeaf M K V)} {pre post : List Nat} {a b first : Nat} {m : K → Option V}
    (hp : Pers1 F hM h (pre ++ a :: b :: post) m) (hf : (pre ++ a :: b :: post).head? = some first)
    {la lb : FLeaf M K V} (hla : h.data a = some la) (hlb : h.data b = some lb) (oka : FOk c.hash adm la) (okb : FOk c.hash adm lb)
    (hlen : la.abs.length + lb.abs.length ≤ M) (low : Nat → K → Prop) :
    ∃ us, mergeAllWrites h a b = .ok us ∧ (∀ t, ¬ Torn low us t → ∃ h', applyE h (us.take t) = .ok h' ∧ After F hM h' first m) ∧
      ∃ h', mergeLeaf (fpOps c M) h a b = .ok h' ∧ applyE h us = .ok h' := by
  have hnd := hp.nodup
  have hab : a ≠ b := by
    rw [List.nodup_append, List.nodup_cons] at hnd
    rintro rfl; exact hnd.2.1.1 (by simp)
  have hnea : la.abs ≠ [] := by
    obtain ⟨l, e1, _, e3⟩ := hp.leaf a (by simp)
    rw [hla] at e1
    cases Option.some.inj e1
    exact e3 (by simp; omega)
  have hnx : ∀ x, h.next b = some x → (h.data x).isSome := by
    obtain ⟨p, w⟩ := hp.wf
    intro x hx
    cases post with
    | nil =>
      have := w.chain.2 b (by simp)
      rw [hx] at this; simp at this
    | cons y post =>
      have := chain_pair (pre := pre ++ [a]) (by simpa using w.chain)
      rw [hx] at this
      cases Option.some.inj this.1
      exact w.alive x (by simp)
  have hs : Sorted (la.abs ++ lb.abs) := by
    have := hp.sorted
    rw [content_append, content_cons, content_cons, ← List.append_assoc (ent _ _ a), sorted_append] at this
    have := (sorted_append.1 this.2.1).1
    simp only [ent, hla, hlb] at this
    exact this
  have hlt := (sorted_append.1 hs).2.2
  have hpm := abs_perm lb
  obtain ⟨ws, ew, hws, r, er, ea⟩ := mergeWrites_spec okb a low M 0 la h (by omega) hla oka
    (by rw [show entsFrom lb 0 M = ents lb from rfl, ← hpm.length_eq]; exact hlen)
    (fun x hx y hy => ne_of_lt (hlt x hx y (hpm.mem_iff.2 hy)))
  obtain ⟨r', em, okr, hrabs⟩ := merge_law oka okb hlt hlen
  have hrr : r' = r := by
    unfold FLeaf.merge at em
    rw [Res.assert_pos (by rw [oka.count, okb.count]; exact hlen), Res.ok_bind, er] at em
    exact (Res.ok.inj em).symm
  subst hrr
  refine ⟨ws ++ unlinkWrites a b (h.next b), ?_, fun t ht => ?_, ?_⟩
  rotate_left
  rotate_left
  · have hda : (h.set a r').data a = some r' := by simp [Heap.set, upd]
    have hdb : (h.set a r').data b = some lb := by simp [Heap.set, upd, Ne.symm hab, hlb]
    unfold mergeLeaf
    rw [Heap.get_of hla, Res.ok_bind, Heap.get_of hlb, Res.ok_bind, show (fpOps c M).merge la lb = .ok r' from em, Res.ok_bind,
      applyE_append, ea, Res.ok_bind]
    dsimp only
    cases hn : h.next b with
    | none =>
      refine ⟨_, rfl, ?_⟩
      have hn' : (h.set a r').next b = none := hn
      have e1 : (EWrite.next a none : EWrite K V).apply (h.set a r') = .ok { h.set a r' with next := upd (h.set a r').next a none } := by
        simp only [EWrite.apply, Heap.get_of hda, Res.ok_bind]; rfl
      have e2 : (EWrite.del b : EWrite K V).apply { h.set a r' with next := upd (h.set a r').next a none } =
          .ok (Heap.free { h.set a r' with next := upd (h.set a r').next a none } b) := by
        have : ({ h.set a r' with next := upd (h.set a r').next a none } : Heap (FLeaf M K V)).data b = some lb := hdb
        simp only [EWrite.apply, Heap.get_of this, Res.ok_bind]; rfl
      rw [unlinkWrites, applyE, e1, Res.ok_bind, applyE, e2, Res.ok_bind, applyE, hn']
    | some x =>
      have hn' : (h.set a r').next b = some x := hn
      have hx : ∃ lx, (h.set a r').data x = some lx := by
        apply Option.isSome_iff_exists.1
        by_cases h1 : x = a
        · simp [Heap.set, upd, h1]
        · simpa [Heap.set, upd, h1] using hnx x hn
      obtain ⟨lx, hlx⟩ := hx
      have hlx' : ({ h.set a r' with next := upd (h.set a r').next a (some x) } : Heap (FLeaf M K V)).data x = some lx := hlx
      dsimp only
      rw [hn', Heap.get_of hlx', Res.ok_bind]
      refine ⟨_, rfl, ?_⟩
      have e1 : (EWrite.next a (some x) : EWrite K V).apply (h.set a r') =
          .ok { h.set a r' with next := upd (h.set a r').next a (some x) } := by
        simp only [EWrite.apply, Heap.get_of hda, Res.ok_bind]; rfl
      have e2 : (EWrite.w (.prev x a) : EWrite K V).apply { h.set a r' with next := upd (h.set a r').next a (some x) } =
          .ok { h.set a r' with next := upd (h.set a r').next a (some x), prev := upd (h.set a r').prev x (some a) } := by
        simp only [EWrite.apply, HWrite.apply, Heap.get_of hlx', Res.ok_bind]; rfl
      have e3 : (EWrite.del b : EWrite K V).apply
          { h.set a r' with next := upd (h.set a r').next a (some x), prev := upd (h.set a r').prev x (some a) } =
          .ok (Heap.free { h.set a r' with next := upd (h.set a r').next a (some x), prev := upd (h.set a r').prev x (some a) } b) := by
        have : ({ h.set a r' with next := upd (h.set a r').next a (some x), prev := upd (h.set a r').prev x (some a) } :
          Heap (FLeaf M K V)).data b = some lb := hdb
        simp only [EWrite.apply, Heap.get_of this, Res.ok_bind]; rfl
      rw [unlinkWrites, applyE, e1, Res.ok_bind, applyE, e2, Res.ok_bind, applyE, e3, Res.ok_bind, applyE]
  · unfold mergeAllWrites
    rw [Heap.get_of hla, Res.ok_bind, Heap.get_of hlb, Res.ok_bind, Res.assert_pos (by rw [oka.count, okb.count]; exact hlen),
      Res.ok_bind, ew, Res.ok_bind]
    rfl
  by_cases htl : t ≤ ws.length
  · rw [torn_left htl] at ht
    obtain ⟨a', extra, e1, ok', perm, hex⟩ := hws t ht
    rw [List.take_append_of_le_length htl]
    refine ⟨_, e1, ?_⟩
    have hexb : ∀ e ∈ extra, ∃ e' ∈ lb.abs, e'.1 = e.1 := by
      intro e he
      obtain ⟨e', h1, h2⟩ := hex e he
      exact ⟨e', hpm.mem_iff.2 h1, h2⟩
    have hmin : a'.minKey c = la.minKey c := by
      cases hl : la.abs with
      | nil => exact absurd hl hnea
      | cons e es =>
        rw [minKey_ok F hmax oka hl]
        have hmem : e ∈ a'.abs := perm.mem_iff.2 (by rw [hl]; simp)
        cases hl' : a'.abs with
        | nil => rw [hl'] at hmem; simp at hmem
        | cons f fs =>
          rw [minKey_ok F hmax ok' hl']
          congr 1
          have h1 : f.1 ≤ e.1 := by
            rw [hl'] at hmem
            rcases List.mem_cons.1 hmem with h2 | h2
            · rw [h2]
            · have := ok'.sorted
              rw [hl'] at this
              exact ((List.pairwise_cons.1 this).1 e h2).le
          have h3 : e.1 ≤ f.1 := by
            have : f ∈ la.abs ++ extra := perm.mem_iff.1 (by rw [hl']; simp)
            rcases List.mem_append.1 this with h2 | h2
            · rw [hl] at h2
              rcases List.mem_cons.1 h2 with h2 | h2
              · rw [h2]
              · have := oka.sorted
                rw [hl] at this
                exact ((List.pairwise_cons.1 this).1 f h2).le
            · obtain ⟨e', h4, h5⟩ := hexb f h2
              rw [← h5]
              exact (hlt e (by rw [hl]; simp) e' h4).le
          exact le_antisymm h1 h3
    obtain ⟨rest, hr⟩ := head_cons hf
    have hone : OneCopy (h.set a a') first → a'.abs = la.abs := by
      intro ho
      have hx : extra = [] := by
        cases hex' : extra with
        | nil => rfl
        | cons e es =>
          obtain ⟨e', h4, h5⟩ := hexb e (by rw [hex']; simp)
          exact absurd h5.symm (ho.find hf hp.chain (i := a) (j := b) (by simp) (by simp) hab (li := a') (lj := lb)
            (by simp [Heap.set, upd]) (by simp [Heap.set, upd, Ne.symm hab, hlb]) (e := e) (e' := e')
            (perm.mem_iff.2 (by rw [hex']; simp)) h4)
      rw [hx, List.append_nil] at perm
      exact sorted_eq_of_perm ok'.sorted oka.sorted perm
    have hcs : content (fpLaws F hM) h (pre ++ a :: b :: post) =
        content (fpLaws F hM) h pre ++ (la.abs ++ content (fpLaws F hM) h (b :: post)) := by
      rw [content_append, content_cons]
      simp only [ent, hla]
      rfl
    refine ⟨?_, fun ho => ⟨_, hf, hp.one (la' := a') hla (by simp [Heap.set, upd])
        (fun i h1 => by simp [Heap.set, upd, h1]) rfl rfl ok' (fun _ => by rw [hone ho]; exact hnea)
        (by rw [hone ho, ← hcs]; exact hp.sorted) (by rw [hone ho, ← hcs]; exact hp.find)⟩⟩
    have hp' := hp
    rw [hr] at hp'
    refine hp'.shadow hN hmax rfl rfl (fun i => ?_) (fun i hi l0 hl0 => ?_)
    · by_cases h1 : i = a
      · subst h1; simp [Heap.set, upd, hmin, hla]
      · simp [Heap.set, upd, h1]
    · by_cases h1 : i = a
      · subst h1
        rw [hla] at hl0
        cases Option.some.inj hl0
        refine ⟨a', by simp [Heap.set, upd], ok', fun x => ?_⟩
        by_cases hx : ∃ e ∈ extra, e.1 = x
        · obtain ⟨e, h2, h3⟩ := hx
          obtain ⟨e', h4, h5⟩ := hexb e h2
          refine Or.inr ⟨b, by rw [← hr]; simp, Ne.symm hab, lb, hlb, fun hn => ?_⟩
          exact find_eq_none.1 hn e' h4 (by rw [h5, h3])
        · left
          apply Option.ext
          intro v
          rw [← mem_iff_find ok'.sorted, ← mem_iff_find oka.sorted, perm.mem_iff, List.mem_append]
          constructor
          · rintro (h2 | h2)
            · exact h2
            · exact absurd ⟨_, h2, rfl⟩ hx
          · exact Or.inl
      · obtain ⟨l1, e1, o1, _⟩ := hp'.leaf i hi
        rw [hl0] at e1
        cases Option.some.inj e1
        exact ⟨l0, by simp [Heap.set, upd, h1, hl0], o1, fun x => Or.inl rfl⟩
  · have ht1 : ws.length ≤ t := by omega
    rw [List.take_append, List.take_of_length_le ht1, applyE_append, ea, Res.ok_bind]
    have hda : (h.set a r').data a = some r' := by simp [Heap.set, upd]
    have hdb : (h.set a r').data b = some lb := by simp [Heap.set, upd, Ne.symm hab, hlb]
    obtain ⟨h', e1, hd, hn, hfr⟩ := unlink_apply (nx := h.next b) (j := t - ws.length) hda hdb (fun x hx => by
      by_cases h1 : x = a
      · simp [Heap.set, upd, h1]
      · simpa [Heap.set, upd, h1] using hnx x hx) (by omega)
    refine ⟨h', e1, ?_⟩
    have hq : Pers1 F hM h' (pre ++ a :: post) m :=
      hp.unlink (la' := r') hla hlb (by rw [hd a hab, hda]) (fun i h1 h2 => by rw [hd i h2]; simp [Heap.set, upd, h1]) hn hfr okr
        (by rw [hrabs]; simp [hnea]) hrabs
    refine hq.after hN hmax ?_
    cases pre with
    | nil => simpa using hf
    | cons x pre => simpa using hf

/-- The leaves after `underflowAtLeafLevel`. -/
theorem underflowLeaf_heap {h : Heap (FLeaf M K V)} {n : BNode K Nat} {pos id : Nat} {u : EOut (FLeaf M K V) (BNode K Nat) Nat}
    (hu : underflowLeaf (fpOps c M) h n pos id = .ok u) :
    ∃ ls, leftSib (fpOps c M) h pos id = .ok ls ∧ if pos > 0 ∧ (M + 1) / 2 < ls.2 then balanceLeaf (fpOps c M) h ls.1 id = .ok u.heap
      else ∃ rs, rightSib (fpOps c M) h n.num pos id = .ok rs ∧
        if pos < n.num ∧ (M + 1) / 2 < rs.2 then balanceLeaf (fpOps c M) h rs.1 id = .ok u.heap
        else if pos > 0 ∧ ls.2 ≤ (M + 1) / 2 then mergeLeaf (fpOps c M) h ls.1 id = .ok u.heap
        else mergeLeaf (fpOps c M) h id rs.1 = .ok u.heap := by
  have drop : ∀ {h2 : Heap (FLeaf M K V)} {sv : Nat}, dropChild (fpOps c M) h2 n pos sv = .ok u → u.heap = h2 := by
    intro h2 sv hd
    unfold dropChild at hd
    split at hd
    · obtain ⟨_, _, hd⟩ := Res.bind_eq_ok.1 hd
      obtain ⟨_, _, hd⟩ := Res.bind_eq_ok.1 hd
      obtain ⟨_, _, hd⟩ := Res.bind_eq_ok.1 hd
      cases Res.ok.inj hd
      rfl
    · cases Res.ok.inj hd
      rfl
  unfold underflowLeaf at hu
  obtain ⟨_, _, hu⟩ := Res.bind_eq_ok.1 hu
  obtain ⟨ls, e1, hu⟩ := Res.bind_eq_ok.1 hu
  refine ⟨ls, e1, ?_⟩
  rw [show (fpOps c M).M = M from rfl] at hu
  by_cases c1 : pos > 0 ∧ (M + 1) / 2 < ls.2
  · rw [if_pos c1] at hu ⊢
    obtain ⟨h2, e2, hu⟩ := Res.bind_eq_ok.1 hu
    obtain ⟨_, _, hu⟩ := Res.bind_eq_ok.1 hu
    obtain ⟨_, _, hu⟩ := Res.bind_eq_ok.1 hu
    obtain ⟨_, _, hu⟩ := Res.bind_eq_ok.1 hu
    cases Res.ok.inj hu
    exact e2
  · rw [if_neg c1] at hu ⊢
    obtain ⟨rs, e2, hu⟩ := Res.bind_eq_ok.1 hu
    refine ⟨rs, e2, ?_⟩
    by_cases c2 : pos < n.num ∧ (M + 1) / 2 < rs.2
    · rw [if_pos c2] at hu ⊢
      obtain ⟨h2, e2, hu⟩ := Res.bind_eq_ok.1 hu
      obtain ⟨_, _, hu⟩ := Res.bind_eq_ok.1 hu
      obtain ⟨_, _, hu⟩ := Res.bind_eq_ok.1 hu
      obtain ⟨_, _, hu⟩ := Res.bind_eq_ok.1 hu
      cases Res.ok.inj hu
      exact e2
    · rw [if_neg c2] at hu ⊢
      by_cases c3 : pos > 0 ∧ ls.2 ≤ (M + 1) / 2
      · rw [if_pos c3] at hu ⊢
        obtain ⟨h2, e2, hu⟩ := Res.bind_eq_ok.1 hu
        rw [drop hu]
        exact e2
      · rw [if_neg c3] at hu ⊢
        split at hu
        · obtain ⟨h2, e2, hu⟩ := Res.bind_eq_ok.1 hu
          rw [drop hu]
          exact e2
        · cases hu

/-- `underflowAtLeafLevel`. -/
theorem underflow_crash {F : FLaws c adm} {hM : 2 ≤ M} (hN : 2 ≤ c.N) (hmax : ∀ k, adm k → k < c.lim.max)
    {h : Heap (FLeaf M K V)} {pre post c1 c2 : List Nat} {id first : Nat} {m : K → Option V} {n : BNode K Nat}
    (w : Wf h (pre ++ (c1 ++ id :: c2) ++ post)) (hp : Pers1 F hM h (pre ++ (c1 ++ id :: c2) ++ post) m)
    (hf : (pre ++ (c1 ++ id :: c2) ++ post).head? = some first) (hnum : n.num = c1.length + c2.length) (hn1 : 1 ≤ n.num)
    {l : FLeaf M K V} (hl : h.data id = some l) (ok : FOk c.hash adm l) (hlt : l.abs.length < (M + 1) / 2) (hne : l.abs ≠ [])
    (low : Nat → K → Prop)
    (hL : 0 < c1.length → ∃ c1' p lp, c1 = c1' ++ [p] ∧ h.data p = some lp ∧ FOk c.hash adm lp ∧ lp.keys 0 < l.keys 0 ∧
      ∀ e ∈ lp.abs, low id e.1)
    (hR : 0 < c2.length → ∃ q c2' lq, c2 = q :: c2' ∧ h.data q = some lq ∧ FOk c.hash adm lq ∧ ¬ lq.keys 0 < l.keys 0) :
    ∃ us, underflowWrites c h n c1.length id = .ok us ∧
      (∀ t, ¬ Torn low us t → ∃ h', applyE h (us.take t) = .ok h' ∧ After F hM h' first m) ∧
      ∀ u, underflowLeaf (fpOps c M) h n c1.length id = .ok u → applyE h us = .ok u.heap := by
  unfold underflowWrites
  rw [Res.assert_pos (by omega), Res.ok_bind]
  have numeq : ∀ l : FLeaf M K V, FOk c.hash adm l → (fpOps c M).num l = l.abs.length := fun l h => h.count
  -- the right sibling
  have right : 0 < c2.length → ∃ q c2' lq, c2 = q :: c2' ∧ h.data q = some lq ∧ FOk c.hash adm lq ∧ ¬ lq.keys 0 < l.keys 0 ∧
      rightSib (fpOps c M) h n.num c1.length id = .ok (q, lq.abs.length) := by
    intro h2
    obtain ⟨q, c2', lq, e, hd, hok, hk⟩ := hR h2
    refine ⟨q, c2', lq, e, hd, hok, hk, ?_⟩
    have hw : pre ++ (c1 ++ id :: c2) ++ post = (pre ++ c1) ++ id :: q :: (c2' ++ post) := by rw [e]; simp
    have hc := chain_pair (by rw [← hw]; exact w.chain)
    unfold rightSib
    rw [if_pos (by omega), hc.1, Res.ofOption_some, Res.ok_bind, Heap.get_of hd, Res.ok_bind, numeq lq hok]
    rfl
  have balR : ∀ q c2' lq, c2 = q :: c2' → h.data q = some lq → FOk c.hash adm lq → ¬ lq.keys 0 < l.keys 0 →
      (M + 1) / 2 < lq.abs.length → ∃ us, balanceWrites c h q id = .ok us ∧
        (∀ t, ¬ Torn low us t → ∃ h', applyE h (us.take t) = .ok h' ∧ After F hM h' first m) ∧
        ∃ h', balanceLeaf (fpOps c M) h q id = .ok h' ∧ applyE h us = .ok h' := by
    intro q c2' lq e hd hok hk hgt
    have hw : pre ++ (c1 ++ id :: c2) ++ post = (pre ++ c1) ++ id :: q :: (c2' ++ post) := by rw [e]; simp
    rw [hw] at hp hf
    exact balanceR_crash hN hmax hp hf hd hl hok ok (by omega) hne hk low
  by_cases hc1 : 0 < c1.length
  · obtain ⟨c1', p, lp, e1, hdp, okp, hk, hlow⟩ := hL hc1
    have hw : pre ++ (c1 ++ id :: c2) ++ post = (pre ++ c1') ++ p :: id :: (c2 ++ post) := by rw [e1]; simp
    have hc := chain_pair (by rw [← hw]; exact w.chain)
    have hls : leftSib (fpOps c M) h c1.length id = .ok (p, lp.abs.length) := by
      unfold leftSib
      rw [if_pos hc1, hc.2, Res.ofOption_some, Res.ok_bind, Heap.get_of hdp, Res.ok_bind, numeq lp okp]
      rfl
    have hp' := hp
    have hf' := hf
    rw [hw] at hp' hf'
    rw [hls, Res.ok_bind]
    dsimp only
    by_cases hb : (M + 1) / 2 < lp.abs.length
    · rw [if_pos ⟨hc1, hb⟩]
      obtain ⟨us, q1, q2, h', q3, q4⟩ := balanceL_crash hN hmax hp' hf' hdp hl okp ok (by omega) hne hk low hlow
      refine ⟨us, q1, q2, fun u hu => ?_⟩
      obtain ⟨ls, e2, hu⟩ := underflowLeaf_heap hu
      rw [hls] at e2
      cases Res.ok.inj e2
      rw [if_pos ⟨hc1, hb⟩, q3] at hu
      rw [q4, ← Res.ok.inj hu]
    · rw [if_neg (fun x => hb x.2)]
      by_cases hc2 : 0 < c2.length
      · obtain ⟨q, c2', lq, e, hd, hok, hk', hrs⟩ := right hc2
        rw [hrs, Res.ok_bind]
        dsimp only
        by_cases hb2 : (M + 1) / 2 < lq.abs.length
        · rw [if_pos ⟨by omega, hb2⟩]
          obtain ⟨us, q1, q2, h', q3, q4⟩ := balR q c2' lq e hd hok hk' hb2
          refine ⟨us, q1, q2, fun u hu => ?_⟩
          obtain ⟨ls, e2, hu⟩ := underflowLeaf_heap hu
          rw [hls] at e2
          cases Res.ok.inj e2
          rw [if_neg (fun x => hb x.2)] at hu
          obtain ⟨rs, e3, hu⟩ := hu
          rw [hrs] at e3
          cases Res.ok.inj e3
          rw [if_pos ⟨by omega, hb2⟩, q3] at hu
          rw [q4, ← Res.ok.inj hu]
        · rw [if_neg (fun x => hb2 x.2), if_pos ⟨hc1, by omega⟩]
          obtain ⟨us, q1, q2, h', q3, q4⟩ := merge_crash hN hmax hp' hf' hdp hl okp ok (by omega) low
          refine ⟨us, q1, q2, fun u hu => ?_⟩
          obtain ⟨ls, e2, hu⟩ := underflowLeaf_heap hu
          rw [hls] at e2
          cases Res.ok.inj e2
          rw [if_neg (fun x => hb x.2)] at hu
          obtain ⟨rs, e3, hu⟩ := hu
          rw [hrs] at e3
          cases Res.ok.inj e3
          rw [if_neg (fun x => hb2 x.2), if_pos ⟨hc1, by omega⟩, q3] at hu
          rw [q4, ← Res.ok.inj hu]
      · have hrs : rightSib (fpOps c M) h n.num c1.length id = .ok (0, 0) := by
          unfold rightSib
          rw [if_neg (by omega)]
        rw [hrs, Res.ok_bind]
        dsimp only
        rw [if_neg (fun x => by have := x.1; omega), if_pos ⟨hc1, by omega⟩]
        obtain ⟨us, q1, q2, h', q3, q4⟩ := merge_crash hN hmax hp' hf' hdp hl okp ok (by omega) low
        refine ⟨us, q1, q2, fun u hu => ?_⟩
        obtain ⟨ls, e2, hu⟩ := underflowLeaf_heap hu
        rw [hls] at e2
        cases Res.ok.inj e2
        rw [if_neg (fun x => hb x.2)] at hu
        obtain ⟨rs, e3, hu⟩ := hu
        rw [hrs] at e3
        cases Res.ok.inj e3
        rw [if_neg (fun x => by have := x.1; omega), if_pos ⟨hc1, by omega⟩, q3] at hu
        rw [q4, ← Res.ok.inj hu]
  · have hls : leftSib (fpOps c M) h c1.length id = .ok (0, 0) := by
      unfold leftSib
      rw [if_neg hc1]
    rw [hls, Res.ok_bind]
    dsimp only
    rw [if_neg (fun x => hc1 x.1)]
    obtain ⟨q, c2', lq, e, hd, hok, hk', hrs⟩ := right (by omega)
    rw [hrs, Res.ok_bind]
    dsimp only
    have hlen2 : c2.length = c2'.length + 1 := by rw [e]; simp
    by_cases hb2 : (M + 1) / 2 < lq.abs.length
    · rw [if_pos ⟨by omega, hb2⟩]
      obtain ⟨us, q1, q2, h', q3, q4⟩ := balR q c2' lq e hd hok hk' hb2
      refine ⟨us, q1, q2, fun u hu => ?_⟩
      obtain ⟨ls, e2, hu⟩ := underflowLeaf_heap hu
      rw [hls] at e2
      cases Res.ok.inj e2
      rw [if_neg (fun x => hc1 x.1)] at hu
      obtain ⟨rs, e3, hu⟩ := hu
      rw [hrs] at e3
      cases Res.ok.inj e3
      rw [if_pos ⟨by omega, hb2⟩, q3] at hu
      rw [q4, ← Res.ok.inj hu]
    · rw [if_neg (fun x => hb2 x.2), if_neg (fun x => hc1 x.1), if_pos ⟨by omega, by omega⟩]
      have hw : pre ++ (c1 ++ id :: c2) ++ post = (pre ++ c1) ++ id :: q :: (c2' ++ post) := by rw [e]; simp
      rw [hw] at hp hf
      obtain ⟨us, q1, q2, h', q3, q4⟩ := merge_crash hN hmax hp hf hl hd ok hok (by omega) low
      refine ⟨us, q1, q2, fun u hu => ?_⟩
      obtain ⟨ls, e2, hu⟩ := underflowLeaf_heap hu
      rw [hls] at e2
      cases Res.ok.inj e2
      rw [if_neg (fun x => hc1 x.1)] at hu
      obtain ⟨rs, e3, hu⟩ := hu
      rw [hrs] at e3
      cases Res.ok.inj e3
      rw [if_neg (fun x => hb2 x.2), if_neg (fun x => hc1 x.1), q3] at hu
      rw [q4, ← Res.ok.inj hu]

/-- All entries of the leaf `i` have larger keys than `x`. -/
def Low (s : State K (FLeaf M K V)) (i : Nat) (x : K) : Prop :=
  ∃ l, s.heap.data i = some l ∧ ∀ q < M, Bitmap.bit l.bits q = true → x < l.keys q

/-- The leaf of `k`, its erase and the list of leaves after it. -/
theorem erase_leaf_crash {F : FLaws c adm} {hM : 2 ≤ M} (h4 : 4 ≤ M) {bm rm : Nat} {s : State K (FLeaf M K V)} {m : K → Option V}
    (g : Good (fpLaws F hM) (M / 2) bm rm s) (hst : Stores (fpLaws F hM) s m) (k : K) :
    Pers1 F hM s.heap (ids s.depth s.root) m ∧
    ∃ (id : Nat) (l l' : FLeaf M K V) (p : Nat) (b : Bool), findLeaf (fpOps c M) s.depth s.root k = .ok id ∧ s.heap.data id = some l ∧
      FOk c.hash adm l ∧ l.pos c k = .ok p ∧ l.erase c k = .ok (b, l') ∧ FOk c.hash adm l' ∧ l'.abs = remove k l.abs ∧
      l'.keys = l.keys ∧ id ∈ ids s.depth s.root ∧
      applyE s.heap (if p < M then [.w (.reset id p)] else []) = .ok (s.heap.set id l') ∧
      (s.depth ≠ 0 → l'.abs ≠ []) ∧ (¬ p < M → m k = none) ∧
      Pers1 F hM (s.heap.set id l') (ids s.depth s.root) (fun x => if x = k then none else m x) := by
  have hlen : s.depth ≠ 0 → ∀ i ∈ ids s.depth s.root, ∃ l, s.heap.data i = some l ∧ FOk c.hash adm l ∧ M / 2 ≤ l.abs.length :=
    fun hd => Bt.leaf_len _ _ _ _ _ g.bt (fun h => absurd h hd)
  have hdep : 1 < (ids s.depth s.root).length → s.depth ≠ 0 := by
    intro h1 hd
    obtain ⟨d, t, h⟩ := s
    dsimp only at hd
    subst hd
    simp [ids] at h1
  have hp0 : Pers1 F hM s.heap (ids s.depth s.root) m := by
    refine ⟨⟨s.heap.prev, g.wf⟩, g.sorted, fun i hi => ?_, hst⟩
    obtain ⟨l, hl, hok⟩ := Bt.leaf_ok _ _ _ _ _ g.bt i hi
    refine ⟨l, hl, hok, fun h1 => ?_⟩
    obtain ⟨l2, hl2, _, h2⟩ := hlen (hdep h1) i hi
    rw [hl] at hl2
    cases Option.some.inj hl2
    exact List.length_pos_iff.1 (by omega)
  refine ⟨hp0, ?_⟩
  obtain ⟨id, l, pre, post, a, b, ef, hi, hl, ok, _, _, hk, _, _, h1, h2⟩ :=
    findLeaf_spec k s.depth (rootMin rm s.depth) s.root ⊥ ⊤ g.bt (inR_univ k)
  change FOk c.hash adm l at ok
  obtain ⟨p, ep, hp⟩ := pos_spec ok k
  obtain ⟨l', ee, ok', habs, hkeys⟩ := erase_law ok k
  have hmem : id ∈ ids s.depth s.root := by rw [hi]; simp
  have hne : s.depth ≠ 0 → l'.abs ≠ [] := by
    intro hd
    obtain ⟨l2, hl2, _, h3⟩ := hlen hd id hmem
    rw [hl] at hl2
    cases Option.some.inj hl2
    rw [habs]
    by_cases hfn : find k l.abs = none
    · rw [remove_eq_self (find_eq_none.1 hfn)]; exact List.length_pos_iff.1 (by omega)
    · have := remove_length ok.sorted hfn
      exact List.length_pos_iff.1 (by omega)
  have hnpre : ∀ e ∈ content (fpLaws F hM) s.heap pre, e.1 ≠ k := by
    intro e he hk'
    have := lt_of_lt_of_le (h1 e he) hk.1
    rw [hk'] at this; exact absurd this (lt_irrefl _)
  have hnpost : ∀ e ∈ content (fpLaws F hM) s.heap post, e.1 ≠ k := by
    intro e he hk'
    have := lt_of_lt_of_le hk.2 (h2 e he)
    rw [hk'] at this; exact absurd this (lt_irrefl _)
  have hc : content (fpLaws F hM) s.heap (pre ++ id :: post) =
      content (fpLaws F hM) s.heap pre ++ (l.abs ++ content (fpLaws F hM) s.heap post) := by
    rw [content_append, content_cons]
    simp only [ent, hl]
    rfl
  have hrem : content (fpLaws F hM) s.heap pre ++ (l'.abs ++ content (fpLaws F hM) s.heap post) =
      remove k (content (fpLaws F hM) s.heap (pre ++ id :: post)) := by
    rw [hc, remove_append, remove_append, remove_eq_self hnpre, remove_eq_self hnpost, habs]
  refine ⟨id, l, l', p, _, ef, hl, ok, ep, ee, ok', habs, hkeys, hmem, ?_, hne, ?_, ?_⟩
  · rcases hp with ⟨q1, q2, q3⟩ | ⟨q1, q2⟩
    · obtain ⟨b', e2, _⟩ := reset_ok ok q1 q2
      have hl' : l' = { l with bits := b' } := by
        unfold FLeaf.erase at ee
        rw [ep, Res.ok_bind, if_pos q1, e2, Res.ok_bind] at ee
        exact (congrArg Prod.snd (Res.ok.inj ee)).symm
      rw [if_pos q1, applyE, hl']
      simp only [EWrite.apply, HWrite.apply, Heap.get_of hl, Res.ok_bind, e2]
      rfl
    · have hl' : l' = l := by
        unfold FLeaf.erase at ee
        rw [ep, Res.ok_bind, if_neg (by omega)] at ee
        exact (congrArg Prod.snd (Res.ok.inj ee)).symm
      rw [if_neg (by omega), applyE, hl', Heap.set_self hl]
  · intro hpM
    rcases hp with ⟨q1, _⟩ | ⟨_, q2⟩
    · exact absurd q1 hpM
    · rw [← hst k, cont, hi, hc, find_append_right hnpre, find_append_left hnpost]
      exact find_eq_none.2 q2
  · rw [hi] at hp0 ⊢
    refine hp0.one (la' := l') hl (by simp [Heap.set, upd]) (fun i h => by simp [Heap.set, upd, h]) rfl rfl ok'
      (fun h => hne (hdep (by rw [hi]; exact h))) ?_ (fun x => ?_)
    · rw [hrem]; exact sorted_filter hp0.sorted _
    · rw [hrem, find_remove, hp0.find]

/-- The leaves after `eraseFromBranchNode` are those after its last level. -/
theorem eraseB_heap : ∀ (d : Nat) (b : Bool) (h : Heap (FLeaf M K V)) (n : BNode K (Tree K d)) (k : K)
    (r : EOut (FLeaf M K V) (BNode K (Tree K d)) (Tree K d)), eraseB (fpOps c M) d b h n k = .ok r →
    ∃ pn r0, leafParent c M d n k = .ok pn ∧ eraseB0 (fpOps c M) h pn k = .ok r0 ∧ r0.heap = r.heap
  | 0, b, h, n, k, r, e => ⟨n, r, rfl, e, rfl⟩
  | d + 1, b, h, n, k, r, e => by
    rw [eraseB] at e
    obtain ⟨pos, e1, e⟩ := Res.bind_eq_ok.1 e
    obtain ⟨ch, e2, e⟩ := Res.bind_eq_ok.1 e
    obtain ⟨r1, e3, e⟩ := Res.bind_eq_ok.1 e
    obtain ⟨_, _, e⟩ := Res.bind_eq_ok.1 e
    obtain ⟨kids, _, e⟩ := Res.bind_eq_ok.1 e
    obtain ⟨pos2, _, e⟩ := Res.bind_eq_ok.1 e
    obtain ⟨pn, r0, q1, q2, q3⟩ := eraseB_heap d false h ch k r1 e3
    have hr : r.heap = r1.heap := by
      split at e
      · obtain ⟨u, _, e⟩ := Res.bind_eq_ok.1 e
        split at e <;> · cases Res.ok.inj e; rfl
      · cases Res.ok.inj e; rfl
    refine ⟨pn, r0, ?_, q2, q3.trans hr.symm⟩
    rw [leafParent, e1, Res.ok_bind, show Slots.rd (c.N + 1) n.kids pos = .ok ch from e2, Res.ok_bind, q1]

/-- The child of the last branch node on the path is the leaf. -/
theorem leafParent_kid : ∀ (d : Nat) (n : BNode K (Tree K d)) (k : K) {pn : BNode K Nat} {id pos : Nat},
    leafParent c M d n k = .ok pn → findLeaf (fpOps c M) (d + 1) n k = .ok id → lookupPos (fpOps c M) pn k = .ok pos →
    Slots.rd (c.N + 1) pn.kids pos = .ok id
  | 0, n, k, pn, id, pos, e1, e2, e3 => by
    cases Res.ok.inj e1
    rw [findLeaf, e3, Res.ok_bind] at e2
    obtain ⟨ch, q1, q2⟩ := Res.bind_eq_ok.1 e2
    cases Res.ok.inj q2
    exact q1
  | d + 1, n, k, pn, id, pos, e1, e2, e3 => by
    rw [leafParent] at e1
    obtain ⟨p, q1, e1⟩ := Res.bind_eq_ok.1 e1
    obtain ⟨ch, q2, e1⟩ := Res.bind_eq_ok.1 e1
    rw [findLeaf, q1, Res.ok_bind, show Slots.rd ((fpOps c M).N + 1) n.kids p = .ok ch from q2, Res.ok_bind] at e2
    exact leafParent_kid d ch k e1 e2 e3

theorem crashErase_spec {F : FLaws c adm} {hM : 2 ≤ M} (hN : 2 ≤ c.N) (hmax : ∀ k, adm k → k < c.lim.max) (h4 : 4 ≤ M)
    {bm : Nat} (hbm : 1 ≤ bm) {s : State K (FLeaf M K V)} {m : K → Option V} (g : Good (fpLaws F hM) (M / 2) bm 1 s)
    (hst : Stores (fpLaws F hM) s m) {first : Nat} (hf : (ids s.depth s.root).head? = some first) (k : K) (hs : SafeErase c s k) :
    ∃ ws, eraseWrites c s k = .ok ws ∧ (∀ t, ¬ Torn (Low s) ws t → ∃ h', applyE s.heap (ws.take t) = .ok h' ∧
      After F hM h' first (fun x => if x = k ∧ t ≠ 0 then none else m x)) ∧
      ∀ b s', erase (fpOps c M) s k = .ok (b, s') → applyE s.heap ws = .ok s'.heap := by
  obtain ⟨hp0, id, l, l', p, b, ef, hl, ok, ep, ee, ok', habs, hkeys, hmem, ea, hne, hpm, hp1⟩ := erase_leaf_crash h4 g hst k
  generalize hw0 : (if p < M then [.w (.reset id p)] else [] : List (EWrite K V)) = ws0 at ea
  -- first part
  have key : ∀ us, (∀ t, ¬ Torn (Low s) us t → ∃ h', applyE (s.heap.set id l') (us.take t) = .ok h' ∧
      After F hM h' first (fun x => if x = k then none else m x)) →
      ∀ t, ¬ Torn (Low s) (ws0 ++ us) t → ∃ h', applyE s.heap ((ws0 ++ us).take t) = .ok h' ∧
      After F hM h' first (fun x => if x = k ∧ t ≠ 0 then none else m x) := by
    intro us hus t ht
    by_cases hpM : p < M
    · rw [if_pos hpM] at hw0
      by_cases h0 : t = 0
      · subst h0
        refine ⟨s.heap, rfl, ?_⟩
        simpa using hp0.after hN hmax hf
      · have hl1 : ws0.length ≤ t := by rw [← hw0]; simp; omega
        rw [torn_append hl1 (by rw [← hw0]; exact fun x => x)] at ht
        obtain ⟨h', e, ha⟩ := hus _ ht
        rw [List.take_append, List.take_of_length_le hl1, applyE_append, ea, Res.ok_bind]
        refine ⟨h', e, ?_⟩
        simpa [h0] using ha
    · rw [if_neg hpM] at hw0
      subst hw0
      obtain ⟨h', e, ha⟩ := hus t ht
      rw [show s.heap.set id l' = s.heap from (Res.ok.inj ea).symm] at e
      refine ⟨h', e, ?_⟩
      have : (fun x => if x = k ∧ t ≠ 0 then none else m x) = (fun x => if x = k then none else m x) := by
        funext x
        by_cases hx : x = k
        · subst hx; simp [hpm hpM]
        · simp [hx]
      rw [this]; exact ha
  have nil : (∀ b s', erase (fpOps c M) s k = .ok (b, s') → s'.heap = s.heap.set id l') → ∃ ws, Res.ok ws0 = .ok ws ∧
      (∀ t, ¬ Torn (Low s) ws t → ∃ h', applyE s.heap (ws.take t) = .ok h' ∧
      After F hM h' first (fun x => if x = k ∧ t ≠ 0 then none else m x)) ∧
      ∀ b s', erase (fpOps c M) s k = .ok (b, s') → applyE s.heap ws = .ok s'.heap := by
    intro hh
    refine ⟨ws0, rfl, fun t ht => ?_, fun b s' e => by rw [ea, hh b s' e]⟩
    have := key [] (fun t _ => ⟨_, by rw [List.take_nil]; rfl, hp1.after hN hmax hf⟩) t (by rwa [List.append_nil])
    rwa [List.append_nil] at this
  obtain ⟨d, root, h⟩ := s
  dsimp only at *
  rw [eraseWrites, ef, Res.ok_bind, Heap.get_of hl, Res.ok_bind, ep, Res.ok_bind, ee, Res.ok_bind]
  dsimp only
  rw [hw0]
  have hel : eraseLeaf (fpOps c M) h id k = .ok (b, h.set id l') := by
    unfold eraseLeaf
    rw [Heap.get_of hl, Res.ok_bind, show (fpOps c M).erase l k = .ok (b, l') from ee, Res.ok_bind]
    rfl
  cases d with
  | zero =>
    refine nil (fun b' s' e => ?_)
    rw [findLeaf] at ef
    cases Res.ok.inj ef
    unfold erase at e
    dsimp only at e
    rw [eraseT, hel, Res.ok_bind] at e
    cases Res.ok.inj e
    rfl
  | succ d =>
    dsimp only
    -- the heap after the whole call
    have last : ∀ b' s', erase (fpOps c M) ⟨d + 1, root, h⟩ k = .ok (b', s') → ∃ pn pos, leafParent c M d root k = .ok pn ∧
        lookupPos (fpOps c M) pn k = .ok pos ∧ if l'.bits.count < (M + 1) / 2 then
          ∃ u, underflowLeaf (fpOps c M) (h.set id l') pn pos id = .ok u ∧ u.heap = s'.heap else s'.heap = h.set id l' := by
      intro b' s' e
      unfold erase at e
      dsimp only at e
      rw [eraseT] at e
      obtain ⟨r, e1, e⟩ := Res.bind_eq_ok.1 e
      have hr : s'.heap = r.heap := by
        split at e <;> · cases Res.ok.inj e; rfl
      obtain ⟨pn, r0, q1, q2, q3⟩ := eraseB_heap d true h root k r e1
      rw [eraseB0] at q2
      obtain ⟨pos, q4, q2⟩ := Res.bind_eq_ok.1 q2
      rw [show Slots.rd ((fpOps c M).N + 1) pn.kids pos = .ok id from leafParent_kid d root k q1 ef q4, Res.ok_bind, hel, Res.ok_bind] at q2
      dsimp only at q2
      rw [Heap.get_of (show (h.set id l').data id = some l' by simp [Heap.set, upd]), Res.ok_bind,
        show (fpOps c M).num l' = l'.bits.count from rfl, show (fpOps c M).M = M from rfl] at q2
      refine ⟨pn, pos, q1, q4, ?_⟩
      by_cases hun : l'.bits.count < (M + 1) / 2
      · rw [if_pos hun] at q2 ⊢
        obtain ⟨u, q5, q2⟩ := Res.bind_eq_ok.1 q2
        cases Res.ok.inj q2
        exact ⟨u, q5, q3.trans hr.symm⟩
      · rw [if_neg hun] at q2 ⊢
        cases Res.ok.inj q2
        exact hr.trans q3.symm
    by_cases hun : l'.bits.count < (M + 1) / 2
    · rw [if_pos hun]
      have hun0 := hun
      rw [ok'.count] at hun
      rcases hs with hs | hs
      · have hbt := Bt.strengthen (fun l : FLeaf M K V => l.keys 0) _ _ _ _ _ g.bt g.wf.nodup (fun i hi l hl => ⟨inR_univ _, hs i hi l hl⟩)
        obtain ⟨pn, c1, id', c2, pre, post, a, a', l1, e1, e2, e3, e4, e5, e6, e7, _, _, e8, e9, eL, eR⟩ :=
          leafParent_spec hbm k d _ _ _ _ le_rfl hbt (inR_univ k)
        rw [e5] at ef
        cases Res.ok.inj ef
        dsimp only at e7 e8 e9
        rw [hl] at e7
        cases Option.some.inj e7
        rw [e1, Res.ok_bind, e2, Res.ok_bind]
        have hnd := g.wf.nodup
        dsimp only at hnd
        have wf := g.wf.set id l'
        dsimp only at wf
        rw [e6] at hp1 hf wf hnd
        obtain ⟨us, eu, hus, hfin⟩ := underflow_crash hN hmax wf hp1 hf e3 e4 (l := l')
          (by simp [Heap.set, upd]) ok' hun (hne (by omega)) (Low ⟨d + 1, root, h⟩) (fun h1 => by
            obtain ⟨c1', p', lp, m0, ec, hdp, okp, _, hbd, hq⟩ := eL h1
            have hpid : p' ≠ id := by
              have hn2 : ((pre ++ c1') ++ (p' :: id :: (c2 ++ post))).Nodup := by rw [ec] at hnd; simpa using hnd
              have hn3 := (List.nodup_append.1 hn2).2.1
              rintro rfl
              simp at hn3
            refine ⟨c1', p', lp, ec, ?_, okp, ?_, fun e he => ⟨l, hl, fun q hq' hb' => ?_⟩⟩
            · simp only [Heap.set, upd, hpid, if_false]; exact hdp
            · rw [hkeys]
              exact bk_lt.1 (lt_of_lt_of_le hq.2 e9.1)
            · have := e8 (l.keys q, l.vals q) (mem_abs.2 ⟨q, hq', hb', rfl⟩)
              exact bk_lt.1 (lt_of_lt_of_le (hbd e he).2 this.1))
          (fun h1 => by
            obtain ⟨q, c2', lq, m2, ec, hdp, okp, _, hbd, hq⟩ := eR h1
            have hpid : q ≠ id := by
              have hn2 : ((pre ++ c1) ++ (id :: q :: (c2' ++ post))).Nodup := by rw [ec] at hnd; simpa using hnd
              have hn3 := (List.nodup_append.1 hn2).2.1
              rintro rfl
              simp at hn3
            refine ⟨q, c2', lq, ec, ?_, okp, ?_⟩
            · simp only [Heap.set, upd, hpid, if_false]; exact hdp
            · rw [hkeys]
              exact not_lt.2 (bk_lt.1 (lt_of_lt_of_le e9.2 hq.1)).le)
        rw [eu, Res.ok_bind]
        refine ⟨_, rfl, key us hus, fun b' s' e => ?_⟩
        obtain ⟨pn', pos', q1, q2, q3⟩ := last b' s' e
        rw [e1] at q1
        cases Res.ok.inj q1
        rw [e2] at q2
        cases Res.ok.inj q2
        rw [if_pos hun0] at q3
        obtain ⟨u, q4, q5⟩ := q3
        rw [applyE_append, ea, Res.ok_bind, hfin u q4, q5]
      · exfalso
        have hc := hs id l ef hl
        rw [ok.count] at hc
        rw [habs] at hun
        by_cases hfn : find k l.abs = none
        · rw [remove_eq_self (find_eq_none.1 hfn)] at hun; omega
        · have := remove_length ok.sorted hfn; omega
    · rw [if_neg hun]
      refine nil (fun b' s' e => ?_)
      obtain ⟨pn', pos', q1, q2, q3⟩ := last b' s' e
      rw [if_neg hun] at q3
      exact q3

end Verif.FPTree
