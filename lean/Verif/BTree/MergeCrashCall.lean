import Verif.BTree.MergeCrashErase

/-!
# Crashes inside an erase of HPBPTree and PBPTree: the underflow and the whole call
-/

set_option linter.unusedSectionVars false

namespace Verif.BTree

open Verif Search Assoc MapSpec

variable {K V : Type} [LinearOrder K] {c : SCfg K V}

/-- The two leaves of an underflow: the assignments `us` merge `b` into its left neighbour `a`, or move entries from `a` to `b` or
from `b` to `a`. -/
inductive UCase (c : SCfg K V) (zero : Bool) (h : Heap (SLeaf K V)) (a b : Nat) (ea eb : List (K × V)) (pn : BNode K Nat) (pos id : Nat) : Prop
  | merge : ea.length + eb.length ≤ c.M → underflowW c zero h pn pos id = mergeW c zero h a b →
      (∀ u, underflowLeaf (sortedOps c) h pn pos id = .ok u → mergeLeaf (sortedOps c) h a b = .ok u.heap) → UCase c zero h a b ea eb pn pos id
  | right : b = id → eb.length < ea.length → underflowW c zero h pn pos id = balanceW c h a b →
      (∀ u, underflowLeaf (sortedOps c) h pn pos id = .ok u → balanceLeaf (sortedOps c) h a b = .ok u.heap) → UCase c zero h a b ea eb pn pos id
  | left : a = id → ea.length < eb.length → underflowW c zero h pn pos id = balanceW c h b a →
      (∀ u, underflowLeaf (sortedOps c) h pn pos id = .ok u → balanceLeaf (sortedOps c) h b a = .ok u.heap) → UCase c zero h a b ea eb pn pos id

/-- `underflowAtLeafLevel`: which leaves it works on. -/
theorem underflow_cases (C : CfgLaws c) (zero : Bool) {bm : Nat} (hbm : 1 ≤ bm) {d : Nat} {root : Tree K (d + 1)} {h : Heap (SLeaf K V)}
    (g : Good (sortedLaws C) (c.M / 2) bm 1 (⟨d + 1, root, h⟩ : State K (SLeaf K V))) {k : K} {id : Nat}
    (ef : findLeaf (sortedOps c) (d + 1) root k = .ok id) {l1 : SLeaf K V} {e1 : List (K × V)} (r1 : LRep c.M l1 e1)
    (hu : e1.length < (c.M + 1) / 2) :
    ∃ (pn : BNode K Nat) (pos a b : Nat) (pre post : List Nat) (la lb : SLeaf K V) (ea eb : List (K × V)),
      leafParentG (sortedOps c) d root k = .ok pn ∧ lookupPos (sortedOps c) pn k = .ok pos ∧
      ids (d + 1) root = pre ++ a :: b :: post ∧ (h.set id l1).data a = some la ∧ (h.set id l1).data b = some lb ∧
      LRep c.M la ea ∧ LRep c.M lb eb ∧ (a = id ∨ b = id) ∧ UCase c zero (h.set id l1) a b ea eb pn pos id := by
  have hnd := g.wf.nodup
  have wf := g.wf.set id l1
  dsimp only at wf hnd
  obtain ⟨pn, c1, id', c2, pre, post, q1, q2, l0, f1, f2, f3, f4, f5, f6, f7, _, _, _, _, fL, fR⟩ :=
    leafParentG_spec hbm k d _ _ _ _ le_rfl g.bt (inR_univ k)
  dsimp only at f1 f5 f6 f7
  rw [ef] at f5
  cases Res.ok.inj f5
  have num : ∀ {l : SLeaf K V} {es : List (K × V)}, LRep c.M l es → (sortedOps c).num l = es.length := fun h => h.num
  have hM : (sortedOps c).M = c.M := rfl
  have hg1 : (h.set id l1).data id = some l1 := Heap.set_data _ _ _
  -- the left sibling
  have hl : 0 < c1.length → ∃ c1' p lp ep, c1 = c1' ++ [p] ∧ (h.set id l1).data p = some lp ∧ LRep c.M lp ep ∧
      leftSib (sortedOps c) (h.set id l1) c1.length id = .ok (p, ep.length) := by
    intro hpos
    obtain ⟨c1', p, lp, m0, ec, hdp, ⟨ep, rp⟩, _⟩ := fL hpos
    have hpid : p ≠ id := by
      have hn2 : ((pre ++ c1') ++ (p :: id :: (c2 ++ post))).Nodup := by rw [f6, ec] at hnd; simpa using hnd
      have hn3 := (List.nodup_append.1 hn2).2.1
      rintro rfl
      simp at hn3
    have hdp' : (h.set id l1).data p = some lp := by rw [Heap.set_data_ne _ hpid]; exact hdp
    refine ⟨c1', p, lp, ep, ec, hdp', rp, ?_⟩
    have hch : (h.set id l1).prev id = some p := by
      refine (chain_pair (pre := pre ++ c1') (a := p) (b := id) (post := c2 ++ post) ?_).2
      have := wf.chain
      rw [f6, ec] at this
      simpa using this
    unfold leftSib
    rw [if_pos hpos, hch, Res.ofOption_some, Res.ok_bind, Heap.get_of hdp', Res.ok_bind, num rp]
    rfl
  have hr : 0 < c2.length → ∃ p c2' lp ep, c2 = p :: c2' ∧ (h.set id l1).data p = some lp ∧ LRep c.M lp ep ∧
      rightSib (sortedOps c) (h.set id l1) pn.num c1.length id = .ok (p, ep.length) := by
    intro hpos
    obtain ⟨p, c2', lp, m0, ec, hdp, ⟨ep, rp⟩, _⟩ := fR hpos
    have hpid : p ≠ id := by
      have hn2 : ((pre ++ c1) ++ (id :: p :: (c2' ++ post))).Nodup := by rw [f6, ec] at hnd; simpa using hnd
      have hn3 := (List.nodup_append.1 hn2).2.1
      rintro rfl
      simp at hn3
    have hdp' : (h.set id l1).data p = some lp := by rw [Heap.set_data_ne _ hpid]; exact hdp
    refine ⟨p, c2', lp, ep, ec, hdp', rp, ?_⟩
    have hch : (h.set id l1).next id = some p := by
      refine (chain_pair (pre := pre ++ c1) (a := id) (b := p) (post := c2' ++ post) ?_).1
      have := wf.chain
      rw [f6, ec] at this
      simpa using this
    unfold rightSib
    rw [if_pos (by omega), hch, Res.ofOption_some, Res.ok_bind, Heap.get_of hdp', Res.ok_bind, num rp]
    rfl
  have hl0 : ¬ 0 < c1.length → leftSib (sortedOps c) (h.set id l1) c1.length id = .ok (0, 0) := fun hn => if_neg hn
  have hr0 : ¬ 0 < c2.length → rightSib (sortedOps c) (h.set id l1) pn.num c1.length id = .ok (0, 0) := fun hn => if_neg (by omega)
  have hass : Res.assert (c1.length ≤ pn.num) = .ok () := Res.assert_pos (by omega)
  have idsL : ∀ c1' p, c1 = c1' ++ [p] → ids (d + 1) root = (pre ++ c1') ++ p :: id :: (c2 ++ post) := by
    intro c1' p ec; rw [f6, ec]; simp
  have idsR : ∀ p c2', c2 = p :: c2' → ids (d + 1) root = (pre ++ c1) ++ id :: p :: (c2' ++ post) := by
    intro p c2' ec; rw [f6, ec]; simp
  by_cases hpos : 0 < c1.length
  · obtain ⟨c1', p, lp, ep, ec, hdp, rp, els⟩ := hl hpos
    by_cases hbig : (c.M + 1) / 2 < ep.length
    · refine ⟨pn, c1.length, p, id, _, _, lp, l1, ep, e1, f1, f2, idsL c1' p ec, hdp, hg1, rp, r1, .inr rfl, .right rfl (by omega) ?_ ?_⟩
      · unfold underflowW
        rw [hass, Res.ok_bind, els, Res.ok_bind, if_pos ⟨hpos, hbig⟩]
      · intro u hu'
        obtain ⟨ls, q, hh⟩ := underflowLeaf_heapG hu'
        rw [els] at q
        cases Res.ok.inj q
        rwa [if_pos ⟨hpos, hbig⟩] at hh
    · -- the right sibling
      have hrs : ∃ rs, rightSib (sortedOps c) (h.set id l1) pn.num c1.length id = .ok rs ∧
          ((0 < c2.length ∧ (c.M + 1) / 2 < rs.2) ∨ ¬ (c1.length < pn.num ∧ (c.M + 1) / 2 < rs.2)) := by
        by_cases h2 : 0 < c2.length
        · obtain ⟨p, c2', lp, ep, ec, hdp, rp, ers⟩ := hr h2
          refine ⟨_, ers, ?_⟩
          dsimp only
          by_cases h3 : (c.M + 1) / 2 < ep.length
          · exact .inl ⟨h2, h3⟩
          · exact .inr (fun hc => h3 hc.2)
        · exact ⟨_, hr0 h2, .inr (fun hc => by omega)⟩
      obtain ⟨rs, ers, hcase⟩ := hrs
      rcases hcase with ⟨h2, h3⟩ | h3
      · obtain ⟨p', c2', lp', ep', ec', hdp', rp', ers'⟩ := hr h2
        rw [ers] at ers'
        cases Res.ok.inj ers'
        dsimp only at h3
        refine ⟨pn, c1.length, id, p', _, _, l1, lp', e1, ep', f1, f2, idsR p' c2' ec', hg1, hdp', r1, rp', .inl rfl, .left rfl (by omega) ?_ ?_⟩
        · unfold underflowW
          rw [hass, Res.ok_bind, els, Res.ok_bind, if_neg (fun hc => hbig hc.2), ers, Res.ok_bind, if_pos ⟨by omega, h3⟩]
        · intro u hu'
          obtain ⟨ls, q, hh⟩ := underflowLeaf_heapG hu'
          rw [els] at q
          cases Res.ok.inj q
          rw [if_neg (fun hc => hbig hc.2)] at hh
          obtain ⟨rs', q', hh⟩ := hh
          rw [ers] at q'
          cases Res.ok.inj q'
          rwa [if_pos ⟨by omega, h3⟩] at hh
      · refine ⟨pn, c1.length, p, id, _, _, lp, l1, ep, e1, f1, f2, idsL c1' p ec, hdp, hg1, rp, r1, .inr rfl, .merge (by omega) ?_ ?_⟩
        · unfold underflowW
          rw [hass, Res.ok_bind, els, Res.ok_bind, if_neg (fun hc => hbig hc.2), ers, Res.ok_bind, if_neg h3, if_pos ⟨hpos, by dsimp only; omega⟩]
        · intro u hu'
          obtain ⟨ls, q, hh⟩ := underflowLeaf_heapG hu'
          rw [els] at q
          cases Res.ok.inj q
          rw [if_neg (fun hc => hbig hc.2)] at hh
          obtain ⟨rs', q', hh⟩ := hh
          rw [ers] at q'
          cases Res.ok.inj q'
          rwa [hM, if_neg h3, if_pos ⟨hpos, by dsimp only; omega⟩] at hh
  · obtain ⟨p, c2', lp, ep, ec, hdp, rp, ers⟩ := hr (by omega)
    have els := hl0 hpos
    by_cases h3 : (c.M + 1) / 2 < ep.length
    · refine ⟨pn, c1.length, id, p, _, _, l1, lp, e1, ep, f1, f2, idsR p c2' ec, hg1, hdp, r1, rp, .inl rfl, .left rfl (by omega) ?_ ?_⟩
      · unfold underflowW
        rw [hass, Res.ok_bind, els, Res.ok_bind, if_neg (fun hc => hpos hc.1), ers, Res.ok_bind, if_pos ⟨by omega, h3⟩]
      · intro u hu'
        obtain ⟨ls, q, hh⟩ := underflowLeaf_heapG hu'
        rw [els] at q
        cases Res.ok.inj q
        rw [if_neg (fun hc => hpos hc.1)] at hh
        obtain ⟨rs', q', hh⟩ := hh
        rw [ers] at q'
        cases Res.ok.inj q'
        rwa [if_pos ⟨by omega, h3⟩] at hh
    · refine ⟨pn, c1.length, id, p, _, _, l1, lp, e1, ep, f1, f2, idsR p c2' ec, hg1, hdp, r1, rp, .inl rfl, .merge (by omega) ?_ ?_⟩
      · unfold underflowW
        rw [hass, Res.ok_bind, els, Res.ok_bind, if_neg (fun hc => hpos hc.1), ers, Res.ok_bind, if_neg (fun hc => h3 hc.2),
          if_neg (fun hc => hpos hc.1), if_pos ⟨by omega, by dsimp only; omega⟩]
      · intro u hu'
        obtain ⟨ls, q, hh⟩ := underflowLeaf_heapG hu'
        rw [els] at q
        cases Res.ok.inj q
        rw [if_neg (fun hc => hpos hc.1)] at hh
        obtain ⟨rs', q', hh⟩ := hh
        rw [ers] at q'
        cases Res.ok.inj q'
        rwa [if_neg (fun hc => h3 hc.2), if_neg (fun hc => hpos hc.1)] at hh

/-- The leaves after an erase. -/
theorem erase_heap_inv {d : Nat} {root : Tree K (d + 1)} {h : Heap (SLeaf K V)} {k : K} {id : Nat} {l l1 : SLeaf K V} {b b' : Bool}
    {s' : State K (SLeaf K V)} (ef : findLeaf (sortedOps c) (d + 1) root k = .ok id) (hl : h.data id = some l)
    (ee : l.erase c k = .ok (b, l1)) (e : erase (sortedOps c) ⟨d + 1, root, h⟩ k = .ok (b', s')) :
    ∃ pn pos, leafParentG (sortedOps c) d root k = .ok pn ∧ lookupPos (sortedOps c) pn k = .ok pos ∧
      if l1.num < (c.M + 1) / 2 then ∃ u, underflowLeaf (sortedOps c) (h.set id l1) pn pos id = .ok u ∧ u.heap = s'.heap
      else s'.heap = h.set id l1 := by
  have hel : eraseLeaf (sortedOps c) h id k = .ok (b, h.set id l1) := by
    unfold eraseLeaf
    rw [Heap.get_of hl, Res.ok_bind, show (sortedOps c).erase l k = .ok (b, l1) from ee, Res.ok_bind]
    rfl
  unfold erase at e
  dsimp only at e
  rw [eraseT] at e
  obtain ⟨r, e1, e⟩ := Res.bind_eq_ok.1 e
  have hr : s'.heap = r.heap := by
    split at e <;> · cases Res.ok.inj e; rfl
  obtain ⟨pn, r0, q1, q2, q3⟩ := eraseB_heapG d true h root k r e1
  rw [eraseB0] at q2
  obtain ⟨pos, q4, q2⟩ := Res.bind_eq_ok.1 q2
  rw [show Slots.rd ((sortedOps c).N + 1) pn.kids pos = .ok id from leafParentG_kid d root k q1 ef q4, Res.ok_bind, hel, Res.ok_bind] at q2
  dsimp only at q2
  rw [Heap.get_of (show (h.set id l1).data id = some l1 from Heap.set_data _ _ _), Res.ok_bind,
    show (sortedOps c).num l1 = l1.num from rfl, show (sortedOps c).M = c.M from rfl] at q2
  refine ⟨pn, pos, q1, q4, ?_⟩
  by_cases hun : l1.num < (c.M + 1) / 2
  · rw [if_pos hun] at q2 ⊢
    obtain ⟨u, q5, q2⟩ := Res.bind_eq_ok.1 q2
    cases Res.ok.inj q2
    exact ⟨u, q5, q3.trans hr.symm⟩
  · rw [if_neg hun] at q2 ⊢
    cases Res.ok.inj q2
    exact hr.trans q3.symm

theorem scanFrom_mid {l : SLeaf K V} : ∀ (b a r : List (K × V)), LRep c.M l (a ++ (b ++ r)) →
    l.scanFrom c a.length b.length = .ok b
  | [], _, _, _ => rfl
  | e :: b, a, r, h => by
    have := scanFrom_mid b (a ++ [e]) r (by simpa using h)
    simp only [List.length_append, List.length_singleton] at this
    rw [List.length_cons, SLeaf.scanFrom, LRep.rdKey (b := b ++ r) h, Res.ok_bind, LRep.rdVal (b := b ++ r) h, Res.ok_bind, this]; rfl

/-- The assignments of `balanceLeafNodes` can be computed. -/
theorem balanceW_ok {h : Heap (SLeaf K V)} {a b : Nat} {la lb : SLeaf K V} {ea eb : List (K × V)} (ha : h.data a = some la)
    (hb : h.data b = some lb) (ra : LRep c.M la ea) (rb : LRep c.M lb eb) (hlt : eb.length < ea.length) (hne : eb ≠ []) :
    ∃ us, balanceW c h a b = .ok us := by
  have na := ra.num
  have nb := rb.num
  have hp := List.length_pos_iff.2 hne
  obtain ⟨ka, hka, _⟩ := ra.slot0 (by omega)
  obtain ⟨kb, hkb, _⟩ := rb.slot0 (by omega)
  have hca := ra.cap
  unfold balanceW
  rw [Heap.get_of ha, Res.ok_bind, Heap.get_of hb, Res.ok_bind, Res.assert_pos (by omega), Res.ok_bind]
  dsimp only
  by_cases h0 : la.num - (la.num + lb.num) / 2 = 0
  · rw [if_pos h0]; exact ⟨_, rfl⟩
  · rw [if_neg h0, Slots.rd_ok (by omega) hka, Res.ok_bind, Slots.rd_ok (by omega) hkb, Res.ok_bind]
    by_cases h1 : ka < kb
    · rw [if_pos h1]
      have es := scanFrom_ok (c := c) (ea.drop ((la.num + lb.num) / 2)) (ea.take ((la.num + lb.num) / 2)) (by
        rw [List.take_append_drop]; exact ra)
      rw [List.length_take, List.length_drop, Nat.min_eq_left (by omega), show ea.length = la.num from na.symm] at es
      rw [es, Res.ok_bind]
      exact ⟨_, rfl⟩
    · rw [if_neg h1]
      have es := scanFrom_mid (c := c) (ea.take (la.num - (la.num + lb.num) / 2)) [] (ea.drop (la.num - (la.num + lb.num) / 2)) (by
        rw [List.nil_append, List.take_append_drop]; exact ra)
      rw [List.length_take, List.length_nil, Nat.min_eq_left (by omega)] at es
      rw [es, Res.ok_bind]
      exact ⟨_, rfl⟩

end Verif.BTree
