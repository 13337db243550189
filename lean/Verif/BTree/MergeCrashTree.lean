import Verif.BTree.MergeCrashLeaf
import Verif.BTree.Hist

/-!
# Crashes inside an erase of HPBPTree and PBPTree: lists of leaves, recovery and the whole call
-/

set_option linter.unusedSectionVars false

namespace Verif.BTree

open Verif Search Assoc MapSpec

section

variable {K V L : Type} [LinearOrder K] {o : Ops K V L} {W : Laws o}

/-- `recover` of the HPBPTree from two leaf lists with the same `nextLeaf` pointers and the same smallest keys. -/
theorem recoverH_congr {h h0 : Heap L} (hn : h.next = h0.next) (hf : h.fresh = h0.fresh)
    (hd : ∀ i, (h.data i).map o.minKey = (h0.data i).map o.minKey) (first : Nat) :
    recoverH o h first = recoverH o h0 first >>= fun s => .ok (s.withHeap h) := by
  unfold recoverH
  rw [Res.bind_assoc', hn, hf, get_bind_const hd]
  congr 1
  funext _
  cases h0.next first with
  | none => rfl
  | some x =>
    simp only [Res.bind_assoc']
    congr 1
    funext r
    exact recLoop_congr false hn hd h0.fresh ⟨1, r, h0⟩ (some first)

/-- The leaf `a` gets entries in addition to its own: no lookup sees them, if the tree has them already. -/
theorem lookup_shadow {s : State K L} {m : K → Option V} (hl : ∀ x, lookup o s x = .ok (m x)) {h' : Heap L} {a : Nat} {la la' : L}
    {es : List (K × V)} (ha : s.heap.data a = some la) (oka : W.ok la) (ha' : h'.data a = some la') (oka' : W.ok la')
    (ho : ∀ i, i ≠ a → h'.data i = s.heap.data i) (habs : W.abs la' = W.abs la ++ es)
    (hm : ∀ x, find x es ≠ none → m x ≠ none) : ∀ x, lookup o (s.withHeap h') x = .ok (m x) := by
  intro x
  have hx := hl x
  unfold lookup at hx ⊢
  obtain ⟨i, e1, hx⟩ := Res.bind_eq_ok.1 hx
  show (findLeaf o s.depth s.root x >>= _) = _
  rw [e1, Res.ok_bind]
  show (h'.get i >>= _) = _
  by_cases hi : i = a
  · subst hi
    rw [Heap.get_of ha, Res.ok_bind, W.lookup la x oka] at hx
    rw [Heap.get_of ha', Res.ok_bind, W.lookup la' x oka', habs]
    have hx := Res.ok.inj hx
    by_cases hf : find x es = none
    · rw [find_append_left (find_eq_none.1 hf), hx]
    · have h1 := hm x hf
      rw [← hx] at h1
      obtain ⟨v, hv⟩ := Option.ne_none_iff_exists'.1 h1
      rw [← hx]
      congr 1
      have hs := W.sorted la' oka'
      rw [habs] at hs
      have hmem := find_some_mem hv
      rw [hv]
      exact (mem_iff_find hs).1 (List.mem_append_left _ hmem)
  · have : h'.get i = s.heap.get i := by unfold Heap.get; rw [ho i hi]
    rw [this]; exact hx

/-- Persistent memory with the leaf list `is` and the map `m`.  The leaves may have any number of entries, but none of several is
empty; the `prevLeaf` pointers may be wrong. -/
structure PersL (W : Laws o) (h : Heap L) (is : List Nat) (m : K → Option V) : Prop where
  wf : ∃ p, Wf { h with prev := p } is
  sorted : Sorted (content W h is)
  leaf : ∀ i ∈ is, ∃ l, h.data i = some l ∧ W.ok l ∧ (1 < is.length → W.abs l ≠ [])
  find : ∀ x, find x (content W h is) = m x

/-- The smallest key of a leaf that is not empty. -/
def MinOk (W : Laws o) : Prop := ∀ l e es, W.ok l → W.abs l = e :: es → o.minKey l = .ok e.1

theorem PersL.nodup {h : Heap L} {is : List Nat} {m : K → Option V} (hp : PersL W h is m) : is.Nodup := by
  obtain ⟨p, w⟩ := hp.wf
  exact w.nodup

/-- Recovery. -/
theorem PersL.look (hN : 2 ≤ o.N) (hmin : MinOk W) {h : Heap L} {first : Nat} {rest : List Nat} {m : K → Option V}
    (hp : PersL W h (first :: rest) m) :
    ∃ s, recoverH o h first = .ok s ∧ s.heap = h ∧ ∀ x, lookup o s x = .ok (m x) := by
  obtain ⟨⟨p, w⟩, hs, hl, hm⟩ := hp
  obtain ⟨l, hd, hok, _⟩ := hl first (by simp)
  obtain ⟨s, e, hh, hlk⟩ := recoverH_lookup (W := W) (lm := 1) (h := { h with prev := p }) hN w hs ⟨l, hd, hok⟩ (fun hr x hx => by
    obtain ⟨l, hd, hok, hlen⟩ := hl x hx
    have hlen := hlen (by cases rest with | nil => exact absurd rfl hr | cons => simp)
    cases hab : W.abs l with
    | nil => exact absurd hab hlen
    | cons e es => exact ⟨l, e, es, hd, hok, List.length_pos_iff.2 hlen, hab, hmin l e es hok hab⟩)
  have e' : recoverH o h first = .ok (s.withPrev h.prev) := by
    have := recoverH_prev (o := o) { h with prev := p } h.prev first
    rw [e, Res.ok_bind] at this
    exact this
  refine ⟨_, e', ?_, fun x => ?_⟩
  · obtain ⟨d, r, hp⟩ := s
    simp only at hh
    subst hh
    rfl
  · rw [← hm x]
    exact (hlk x)

theorem wf_dataL {h h' : Heap L} {is : List Nat} (w : Wf h is) (hn : h'.next = h.next) (hp : h'.prev = h.prev) (hf : h'.fresh = h.fresh)
    (ha : ∀ i ∈ is, (h'.data i).isSome) : Wf h' is := by
  refine ⟨w.nodup, fun i hi => by rw [hf]; exact w.fresh i hi, ha, ?_⟩
  have := w.chain
  unfold Chain at this ⊢
  rw [hn, hp]
  exact this

/-- One leaf gets new contents. -/
theorem PersL.one {h h' : Heap L} {pre post : List Nat} {a : Nat} {m m' : K → Option V}
    (hp : PersL W h (pre ++ a :: post) m) {la la' : L} (ha : h.data a = some la) (ha' : h'.data a = some la')
    (ho : ∀ i, i ≠ a → h'.data i = h.data i) (hn : h'.next = h.next) (hf : h'.fresh = h.fresh)
    (oka : W.ok la') (na : 1 < (pre ++ a :: post).length → (W.abs la') ≠ [])
    (hs : Sorted (content W h pre ++ ((W.abs la') ++ content W h post)))
    (hm : ∀ x, Assoc.find x (content W h pre ++ ((W.abs la') ++ content W h post)) = m' x) :
    PersL W h' (pre ++ a :: post) m' := by
  have hnd := hp.nodup
  obtain ⟨p, w⟩ := hp.wf
  have hc := content_put (W := W) (h := h) (h' := h') hnd ha' (fun i _ hi => ho i hi)
  have hleaf : ∀ i ∈ pre ++ a :: post, ∃ l, h'.data i = some l ∧ W.ok l ∧ (1 < (pre ++ a :: post).length → (W.abs l) ≠ []) := by
    intro i hi
    by_cases h1 : i = a
    · subst h1; exact ⟨la', ha', oka, na⟩
    · rw [ho i h1]; exact hp.leaf i hi
  refine ⟨⟨p, wf_dataL w hn rfl hf (fun i hi => ?_)⟩, by rw [hc]; exact hs, hleaf, fun x => by rw [hc]; exact hm x⟩
  obtain ⟨l, hl, _⟩ := hleaf i hi
  show (h'.data i).isSome
  rw [hl]; rfl


/-- The second of two neighbours is taken out of the list after its entries have been copied to the first. -/
theorem PersL.unlink {h h' : Heap L} {pre post : List Nat} {a b : Nat} {m : K → Option V}
    (hp : PersL W h (pre ++ a :: b :: post) m) {la lb la' : L} (ha : h.data a = some la) (hb : h.data b = some lb)
    (ha' : h'.data a = some la') (ho : ∀ i, i ≠ a → i ≠ b → h'.data i = h.data i)
    (hn : h'.next = upd h.next a (h.next b)) (hf : h'.fresh = h.fresh)
    (oka : W.ok la') (na : (W.abs la') ≠ []) (he : (W.abs la') = (W.abs la) ++ (W.abs lb)) : PersL W h' (pre ++ a :: post) m := by
  have hnd := hp.nodup
  obtain ⟨p, w⟩ := hp.wf
  have hnd' : (pre ++ a :: post).Nodup :=
    hnd.sublist (List.Sublist.append_left ((List.sublist_cons_self b post).cons_cons a) pre)
  rw [List.nodup_append, List.nodup_cons, List.nodup_cons] at hnd
  have hpre : ∀ i ∈ pre, h'.data i = h.data i := fun i hi => ho i (hnd.2.2 i hi a (by simp)) (hnd.2.2 i hi b (by simp))
  have hpost : ∀ i ∈ post, h'.data i = h.data i := fun i hi =>
    ho i (by rintro rfl; exact hnd.2.1.1 (by simp [hi])) (by rintro rfl; exact hnd.2.1.2.1 hi)
  have hc : content W h' (pre ++ a :: post) = content W h (pre ++ a :: b :: post) := by
    rw [content_append, content_append, content_cons, content_cons, content_cons, content_congr _ hpre, content_congr _ hpost,
      ← List.append_assoc (ent _ h a)]
    have e3 : ent W h' a = ent W h a ++ ent W h b := by
      simp only [ent, ha, hb, ha']
      exact he
    rw [e3]
  have hleaf : ∀ i ∈ pre ++ a :: post, ∃ l, h'.data i = some l ∧ W.ok l ∧ (1 < (pre ++ a :: post).length → (W.abs l) ≠ []) := by
    intro i hi
    have hin : i ∈ pre ++ a :: b :: post := by
      simp only [List.mem_append, List.mem_cons] at hi ⊢; tauto
    have hlen : 1 < (pre ++ a :: b :: post).length := by simp; omega
    rcases List.mem_append.1 hi with h1 | h1
    · rw [hpre i h1]
      obtain ⟨l, x1, x2, x3⟩ := hp.leaf i hin
      exact ⟨l, x1, x2, fun _ => x3 hlen⟩
    · rcases List.mem_cons.1 h1 with h1 | h1
      · subst h1; exact ⟨la', ha', oka, fun _ => na⟩
      · rw [hpost i h1]
        obtain ⟨l, x1, x2, x3⟩ := hp.leaf i hin
        exact ⟨l, x1, x2, fun _ => x3 hlen⟩
  -- the links as `mergeLeafNodes` makes them
  obtain ⟨h2, eh, wh, hdh, hfh⟩ := mergeLeaf_spec (o := { o with merge := fun _ _ => Res.ok la' }) (h := { h with prev := p }) (c := la') w ha hb rfl
  have hnx : h2.next = upd h.next a (h.next b) := by
    unfold mergeLeaf at eh
    rw [Heap.get_of (h := { h with prev := p }) ha, Res.ok_bind, Heap.get_of (h := { h with prev := p }) hb, Res.ok_bind] at eh
    simp only [Res.ok_bind] at eh
    split at eh
    · cases Res.ok.inj eh; rfl
    · obtain ⟨_, _, eh⟩ := Res.bind_eq_ok.1 eh
      cases Res.ok.inj eh; rfl
  refine ⟨⟨h2.prev, wf_dataL wh (by show h'.next = h2.next; rw [hn, hnx]) rfl (by show h'.fresh = h2.fresh; rw [hf, hfh]) (fun i hi => ?_)⟩,
    by rw [hc]; exact hp.sorted, hleaf, fun x => by rw [hc]; exact hp.find x⟩
  obtain ⟨l, hl, _⟩ := hleaf i hi
  show (h'.data i).isSome
  rw [hl]; rfl


/-- The branch node above the leaf of `k`, and the neighbours of this leaf below it. -/
theorem leafParentG_spec {Q : L → Bd K → Bd K → Prop} {lm bm : Nat} (hbm : 1 ≤ bm)
    {h : Heap L} (k : K) : ∀ (d top : Nat) (n : Tree K (d + 1)) (lo hi : Bd K), 1 ≤ top →
    Bt W Q lm bm h (d + 1) top n lo hi → InR lo hi k →
    ∃ (pn : BNode K Nat) (c1 : List Nat) (id : Nat) (c2 pre post : List Nat) (m m' : Bd K) (l : L),
      leafParentG o d n k = .ok pn ∧ lookupPos o pn k = .ok c1.length ∧ pn.num = c1.length + c2.length ∧
      1 ≤ pn.num ∧ findLeaf o (d + 1) n k = .ok id ∧ ids (d + 1) n = pre ++ (c1 ++ id :: c2) ++ post ∧
      h.data id = some l ∧ W.ok l ∧ lm ≤ (W.abs l).length ∧ (∀ e ∈ (W.abs l), InR m m' e.1) ∧ Q l m m' ∧
      (0 < c1.length → ∃ c1' p lp m0, c1 = c1' ++ [p] ∧ h.data p = some lp ∧ W.ok lp ∧ lm ≤ (W.abs lp).length ∧
        (∀ e ∈ (W.abs lp), InR m0 m e.1) ∧ Q lp m0 m) ∧
      (0 < c2.length → ∃ q c2' lq m2, c2 = q :: c2' ∧ h.data q = some lq ∧ W.ok lq ∧ lm ≤ (W.abs lq).length ∧
        (∀ e ∈ (W.abs lq), InR m' m2 e.1) ∧ Q lq m' m2) := by
  intro d
  induction d with
  | zero =>
    intro top n lo hi h1 hb hk
    obtain ⟨cs, ks, hr, htop, ht⟩ := hb
    obtain ⟨hks, _, _⟩ := keys_sorted (fun c a b hc => Bt.lt hc) ht
    obtain ⟨c1, id, c2, k1, k2, b1, m, m', b2, f⟩ := exists_focus W (fun c a b hc => Bt.lt hc) ht hk
    obtain ⟨_, l, hl, hok, hlen, hbd, hq⟩ := f.pc
    have hnum := hr.num
    rw [f.hks, List.length_append] at hnum
    have e1 := f.l1
    have e2 := f.l2
    have ht' : 1 ≤ k1.length + k2.length := by
      rw [f.hks, List.length_append] at htop; omega
    refine ⟨n, c1, id, c2, [], [], m, m', l, rfl, by rw [e1]; exact f.lookupPos hr hks, by omega, by omega, ?_, ?_, hl, hok, hlen, hbd,
      hq, fun hpos => ?_, fun hpos => ?_⟩
    · rw [findLeaf, f.lookupPos hr hks, Res.ok_bind, f.rdKid hr, Res.ok_bind, findLeaf]
    · rw [ids_rep (K := K) (d := 0) hr, ids_leaf_flatMap, f.hcs]; simp
    · obtain ⟨c1', p, k1', s, b1', m0, hc1, _, _, _, _, _, _, _, lp, hlp, hokp, hlenp, hbdp, hqp⟩ :=
        left_of f.l1 f.hb1 f.lb f.t1 (by omega)
      exact ⟨c1', p, lp, m0, hc1, hlp, hokp, hlenp, hbdp, hqp⟩
    · obtain ⟨q, c2', s, k2', m2, b2', hc2, _, _, _, _, ⟨_, lp, hlp, hokp, hlenp, hbdp, hqp⟩, _⟩ :=
        right_of f.l2 f.hb2 f.t2 (by omega)
      exact ⟨q, c2', lp, m2, hc2, hlp, hokp, hlenp, hbdp, hqp⟩
  | succ d ih =>
    intro top n lo hi h1 hb hk
    obtain ⟨cs, ks, hr, htop, ht⟩ := hb
    obtain ⟨hks, _, _⟩ := keys_sorted (fun c a b hc => Bt.lt hc) ht
    obtain ⟨d1, ch, d2, k1, k2, b1, a, a', b2, f⟩ := exists_focus W (fun c a b hc => Bt.lt hc) ht hk
    obtain ⟨pn, c1, id, c2, pre, post, m, m', l, e1, e2, e3, e4, e5, e6, e7⟩ := ih (occ lm bm (d + 1)) ch a a' hbm f.pc f.inR
    have hrd : Slots.rd (o.N + 1) n.kids k1.length = .ok ch := f.rdKid hr
    refine ⟨pn, c1, id, c2, d1.flatMap (ids (d + 1)) ++ pre, post ++ d2.flatMap (ids (d + 1)), m, m', l, ?_, e2, e3, e4, ?_, ?_, e7⟩
    · rw [leafParentG, f.lookupPos hr hks, Res.ok_bind, hrd, Res.ok_bind, e1]
    · rw [findLeaf, f.lookupPos hr hks, Res.ok_bind, f.rdKid hr, Res.ok_bind, e5]
    · rw [ids_rep hr, f.hcs, List.flatMap_append, List.flatMap_cons, e6]; simp


/-- The leaves after `underflowAtLeafLevel`. -/
theorem underflowLeaf_heapG {h : Heap L} {n : BNode K Nat} {pos id : Nat} {u : EOut L (BNode K Nat) Nat}
    (hu : underflowLeaf o h n pos id = .ok u) :
    ∃ ls, leftSib o h pos id = .ok ls ∧ if pos > 0 ∧ (o.M + 1) / 2 < ls.2 then balanceLeaf o h ls.1 id = .ok u.heap
      else ∃ rs, rightSib o h n.num pos id = .ok rs ∧
        if pos < n.num ∧ (o.M + 1) / 2 < rs.2 then balanceLeaf o h rs.1 id = .ok u.heap
        else if pos > 0 ∧ ls.2 ≤ (o.M + 1) / 2 then mergeLeaf o h ls.1 id = .ok u.heap
        else mergeLeaf o h id rs.1 = .ok u.heap := by
  have drop : ∀ {h2 : Heap L} {sv : Nat}, dropChild o h2 n pos sv = .ok u → u.heap = h2 := by
    intro h2 sv hd
    unfold dropChild at hd
    split at hd
    · obtain ⟨_, _, hd⟩ := Res.bind_eq_ok.1 hd
      obtain ⟨_, _, hd⟩ := Res.bind_eq_ok.1 hd
      obtain ⟨_, _, hd⟩ := Res.bind_eq_ok.1 hd
      cases Res.ok.inj hd
      rfl
    · cases Res.ok.inj hd
      rfl
  unfold underflowLeaf at hu
  obtain ⟨_, _, hu⟩ := Res.bind_eq_ok.1 hu
  obtain ⟨ls, e1, hu⟩ := Res.bind_eq_ok.1 hu
  refine ⟨ls, e1, ?_⟩

  by_cases c1 : pos > 0 ∧ (o.M + 1) / 2 < ls.2
  · rw [if_pos c1] at hu ⊢
    obtain ⟨h2, e2, hu⟩ := Res.bind_eq_ok.1 hu
    obtain ⟨_, _, hu⟩ := Res.bind_eq_ok.1 hu
    obtain ⟨_, _, hu⟩ := Res.bind_eq_ok.1 hu
    obtain ⟨_, _, hu⟩ := Res.bind_eq_ok.1 hu
    cases Res.ok.inj hu
    exact e2
  · rw [if_neg c1] at hu ⊢
    obtain ⟨rs, e2, hu⟩ := Res.bind_eq_ok.1 hu
    refine ⟨rs, e2, ?_⟩
    by_cases c2 : pos < n.num ∧ (o.M + 1) / 2 < rs.2
    · rw [if_pos c2] at hu ⊢
      obtain ⟨h2, e2, hu⟩ := Res.bind_eq_ok.1 hu
      obtain ⟨_, _, hu⟩ := Res.bind_eq_ok.1 hu
      obtain ⟨_, _, hu⟩ := Res.bind_eq_ok.1 hu
      obtain ⟨_, _, hu⟩ := Res.bind_eq_ok.1 hu
      cases Res.ok.inj hu
      exact e2
    · rw [if_neg c2] at hu ⊢
      by_cases c3 : pos > 0 ∧ ls.2 ≤ (o.M + 1) / 2
      · rw [if_pos c3] at hu ⊢
        obtain ⟨h2, e2, hu⟩ := Res.bind_eq_ok.1 hu
        rw [drop hu]
        exact e2
      · rw [if_neg c3] at hu ⊢
        split at hu
        · obtain ⟨h2, e2, hu⟩ := Res.bind_eq_ok.1 hu
          rw [drop hu]
          exact e2
        · cases hu


/-- The leaves after `eraseFromBranchNode` are those after its last level. -/
theorem eraseB_heapG : ∀ (d : Nat) (b : Bool) (h : Heap L) (n : BNode K (Tree K d)) (k : K)
    (r : EOut L (BNode K (Tree K d)) (Tree K d)), eraseB o d b h n k = .ok r →
    ∃ pn r0, leafParentG o d n k = .ok pn ∧ eraseB0 o h pn k = .ok r0 ∧ r0.heap = r.heap
  | 0, b, h, n, k, r, e => ⟨n, r, rfl, e, rfl⟩
  | d + 1, b, h, n, k, r, e => by
    rw [eraseB] at e
    obtain ⟨pos, e1, e⟩ := Res.bind_eq_ok.1 e
    obtain ⟨ch, e2, e⟩ := Res.bind_eq_ok.1 e
    obtain ⟨r1, e3, e⟩ := Res.bind_eq_ok.1 e
    obtain ⟨_, _, e⟩ := Res.bind_eq_ok.1 e
    obtain ⟨kids, _, e⟩ := Res.bind_eq_ok.1 e
    obtain ⟨pos2, _, e⟩ := Res.bind_eq_ok.1 e
    obtain ⟨pn, r0, q1, q2, q3⟩ := eraseB_heapG d false h ch k r1 e3
    have hr : r.heap = r1.heap := by
      split at e
      · obtain ⟨u, _, e⟩ := Res.bind_eq_ok.1 e
        split at e <;> · cases Res.ok.inj e; rfl
      · cases Res.ok.inj e; rfl
    refine ⟨pn, r0, ?_, q2, q3.trans hr.symm⟩
    rw [leafParentG, e1, Res.ok_bind, show Slots.rd (o.N + 1) n.kids pos = .ok ch from e2, Res.ok_bind, q1]


/-- The child of the last branch node on the path is the leaf. -/
theorem leafParentG_kid : ∀ (d : Nat) (n : BNode K (Tree K d)) (k : K) {pn : BNode K Nat} {id pos : Nat},
    leafParentG o d n k = .ok pn → findLeaf o (d + 1) n k = .ok id → lookupPos o pn k = .ok pos →
    Slots.rd (o.N + 1) pn.kids pos = .ok id
  | 0, n, k, pn, id, pos, e1, e2, e3 => by
    cases Res.ok.inj e1
    rw [findLeaf, e3, Res.ok_bind] at e2
    obtain ⟨ch, q1, q2⟩ := Res.bind_eq_ok.1 e2
    cases Res.ok.inj q2
    exact q1
  | d + 1, n, k, pn, id, pos, e1, e2, e3 => by
    rw [leafParentG] at e1
    obtain ⟨p, q1, e1⟩ := Res.bind_eq_ok.1 e1
    obtain ⟨ch, q2, e1⟩ := Res.bind_eq_ok.1 e1
    rw [findLeaf, q1, Res.ok_bind, show Slots.rd (o.N + 1) n.kids p = .ok ch from q2, Res.ok_bind] at e2
    exact leafParentG_kid d ch k e1 e2 e3

end

end Verif.BTree
