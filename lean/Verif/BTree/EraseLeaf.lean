import Verif.BTree.Tree

/-!
# Erase: the leaf level
-/

set_option linter.unusedSectionVars false
set_option linter.unusedSimpArgs false

namespace Verif.BTree

open Verif Assoc
open Verif.Slots hiding none

variable {K V L T : Type} [LinearOrder K] {o : Ops K V L} {W : Laws o}
  {Q : L → Bd K → Bd K → Prop} {lm bm rm : Nat}

/-- What the tree needs to know about a leaf layout in order to erase.  `Q` is a condition on the leaves
before the operation, `hint` describes a leaf an entry has just been erased from. -/
structure EraseLaws (W : Laws o) where
  Q : L → Bd K → Bd K → Prop
  hint : L → Bd K → Bd K → Prop
  pre : L → K → Prop
  erase : ∀ l k lo hi, W.ok l → (∀ e ∈ W.abs l, InR lo hi e.1) → Q l lo hi → pre l k →
    ∃ l', o.erase l k = .ok ((find k (W.abs l)).isSome, l') ∧ W.ok l' ∧ W.abs l' = remove k (W.abs l) ∧
      hint l' lo hi
  merge : ∀ a b, W.ok a → W.ok b → (∀ x ∈ W.abs a, ∀ y ∈ W.abs b, x.1 < y.1) →
    (W.abs a).length + (W.abs b).length ≤ o.M →
    ∃ c, o.merge a b = .ok c ∧ W.ok c ∧ W.abs c = W.abs a ++ W.abs b
  balanceL : ∀ d r lo m hi, W.ok d → W.ok r → (∀ e ∈ W.abs d, InR lo m e.1) →
    (∀ e ∈ W.abs r, InR m hi e.1) → Q d lo m → hint r m hi →
    (W.abs r).length < (o.M + 1) / 2 → (o.M + 1) / 2 < (W.abs d).length →
    ∃ d' r', o.balance d r = .ok (d', r') ∧ W.ok d' ∧ W.ok r' ∧
      W.abs d' ++ W.abs r' = W.abs d ++ W.abs r ∧
      (W.abs d').length = ((W.abs d).length + (W.abs r).length) / 2
  balanceR : ∀ d r lo m hi, W.ok d → W.ok r → (∀ e ∈ W.abs d, InR m hi e.1) →
    (∀ e ∈ W.abs r, InR lo m e.1) → Q d m hi → hint r lo m →
    (W.abs r).length < (o.M + 1) / 2 → (o.M + 1) / 2 < (W.abs d).length →
    ∃ d' r', o.balance d r = .ok (d', r') ∧ W.ok d' ∧ W.ok r' ∧
      W.abs r' ++ W.abs d' = W.abs r ++ W.abs d ∧
      (W.abs d').length = ((W.abs d).length + (W.abs r).length) / 2
  minKey : ∀ l e es, W.ok l → W.abs l = e :: es → o.minKey l = .ok e.1

/-! ## Siblings of the focus -/

theorem map_append_singleton_inj {lo : Bd K} {k1 : List K} {s : K} {b1 : List (Bd K)} {m : Bd K}
    (h : lo :: (k1 ++ [s]).map bk = b1 ++ [m]) : lo :: k1.map bk = b1 ∧ bk s = m := by
  have : (lo :: k1.map bk) ++ [bk s] = b1 ++ [m] := by simpa using h
  have := List.append_inj' this rfl
  exact ⟨this.1, by simpa using this.2⟩

/-- The left sibling of the focus. -/
theorem left_of {P : T → Bd K → Bd K → Prop} {lo : Bd K} {c1 : List T} {k1 : List K} {b1 : List (Bd K)}
    {m : Bd K} (hl : c1.length = k1.length) (hb1 : lo :: k1.map bk = b1 ++ [m])
    (hlb : b1.length = c1.length) (ht : Tile P c1 (b1 ++ [m])) (hpos : 0 < k1.length) :
    ∃ c1' p k1' s b1' m0, c1 = c1' ++ [p] ∧ k1 = k1' ++ [s] ∧ c1'.length = k1'.length ∧
      lo :: k1'.map bk = b1' ++ [m0] ∧ b1'.length = c1'.length ∧ m = bk s ∧
      Tile P c1' (b1' ++ [m0]) ∧ P p m0 m := by
  obtain ⟨c1', p, rfl⟩ : ∃ c1' p, c1 = c1' ++ [p] := by
    rcases List.eq_nil_or_concat c1 with h | ⟨a, x, h⟩
    · rw [h] at hl; simp at hl; omega
    · exact ⟨a, x, by simpa using h⟩
  obtain ⟨k1', s, rfl⟩ : ∃ k1' s, k1 = k1' ++ [s] := by
    rcases List.eq_nil_or_concat k1 with h | ⟨a, x, h⟩
    · rw [h] at hpos; simp at hpos
    · exact ⟨a, x, by simpa using h⟩
  simp only [List.length_append, List.length_singleton] at hl hlb
  obtain ⟨e1, e2⟩ := map_append_singleton_inj hb1
  obtain ⟨b1', m0, e3⟩ := exists_last lo k1'
  rw [e3] at e1
  subst e1
  have hl' : b1'.length = c1'.length := by simp at hlb; omega
  have : b1' ++ [m0] ++ [m] = b1' ++ m0 :: [m] := by simp
  rw [this, tile_append hl'.symm] at ht
  exact ⟨c1', p, k1', s, b1', m0, rfl, rfl, by omega, e3, hl', e2.symm, ht.1, ht.2.1⟩

/-- The right sibling of the focus. -/
theorem right_of {P : T → Bd K → Bd K → Prop} {hi : Bd K} {c2 : List T} {k2 : List K} {b2 : List (Bd K)}
    {m' : Bd K} (hl : c2.length = k2.length) (hb : k2.map bk ++ [hi] = m' :: b2)
    (ht : Tile P c2 (m' :: b2)) (hpos : 0 < k2.length) :
    ∃ q c2' s k2' m2 b2', c2 = q :: c2' ∧ k2 = s :: k2' ∧ c2'.length = k2'.length ∧
      k2'.map bk ++ [hi] = m2 :: b2' ∧ m' = bk s ∧ P q m' m2 ∧ Tile P c2' (m2 :: b2') := by
  obtain ⟨q, c2', rfl⟩ : ∃ q c2', c2 = q :: c2' := by
    cases c2 with
    | nil => simp at hl; omega
    | cons a b => exact ⟨a, b, rfl⟩
  obtain ⟨s, k2', rfl⟩ : ∃ s k2', k2 = s :: k2' := by
    cases k2 with
    | nil => simp at hpos
    | cons a b => exact ⟨a, b, rfl⟩
  simp only [List.length_cons] at hl
  obtain ⟨m2, b2', e⟩ := exists_head k2' hi
  simp only [List.map_cons, List.cons_append, List.cons.injEq] at hb
  rw [← hb.2, e] at ht
  exact ⟨q, c2', s, k2', m2, b2', rfl, rfl, by omega, e, hb.1.symm, ht.1, ht.2⟩

/-! ## Heap -/

theorem chain_pair {h : Heap L} {pre : List Nat} {a b : Nat} {post : List Nat}
    (c : Chain h (pre ++ a :: b :: post)) : h.next a = some b ∧ h.prev b = some a := by
  obtain ⟨h1, _⟩ := c
  rw [List.isChain_split, List.isChain_cons_cons] at h1
  exact h1.2.1

theorem mergeLeaf_spec {h : Heap L} {pre post : List Nat} {a b : Nat} {la lb c : L}
    (w : Wf h (pre ++ a :: b :: post)) (ha : h.data a = some la) (hb : h.data b = some lb)
    (hm : o.merge la lb = .ok c) :
    ∃ h', mergeLeaf o h a b = .ok h' ∧ Wf h' (pre ++ a :: post) ∧
      h'.data = upd (upd h.data a (some c)) b none ∧ h'.fresh = h.fresh := by
  have hnd := w.nodup
  have hnd' : (pre ++ a :: post).Nodup := by
    refine hnd.sublist ?_
    exact List.Sublist.append_left ((List.sublist_cons_self b post).cons_cons a) pre
  rw [List.nodup_append, List.nodup_cons, List.nodup_cons] at hnd
  obtain ⟨hnpre, ⟨ha1, hb1, hnpost⟩, hdis⟩ := hnd
  have hab : a ≠ b := fun e => ha1 (by simp [e])
  have hapost : a ∉ post := fun e => ha1 (by simp [e])
  have hpre_a : ∀ i ∈ pre, i ≠ a := fun i hi => hdis i hi a (by simp)
  have hpre_b : ∀ i ∈ pre, i ≠ b := fun i hi => hdis i hi b (by simp)
  have hpost_a : ∀ i ∈ post, i ≠ a := fun i hi e => hapost (e ▸ hi)
  have hpost_b : ∀ i ∈ post, i ≠ b := fun i hi e => hb1 (e ▸ hi)
  obtain ⟨hch, hlast⟩ := w.chain
  rw [List.isChain_split, List.isChain_cons_cons] at hch
  obtain ⟨hc1, hcab, hc2⟩ := hch
  rw [getLast?_cons_append, List.getLast?_cons_cons] at hlast
  have hfresh : ∀ i ∈ pre ++ a :: post, i < h.fresh := fun i hi =>
    w.fresh i (by simp only [List.mem_append, List.mem_cons] at hi ⊢; tauto)
  have halive : ∀ i ∈ pre ++ a :: post, ((upd (upd h.data a (some c)) b none) i).isSome := by
    intro i hi
    have hib : i ≠ b := by
      rcases List.mem_append.1 hi with hi | hi
      · exact hpre_b i hi
      · rcases List.mem_cons.1 hi with hi | hi
        · rw [hi]; exact hab
        · exact hpost_b i hi
    simp only [upd, hib, if_false]
    split
    · rfl
    · exact w.alive i (by simp only [List.mem_append, List.mem_cons] at hi ⊢; tauto)
  unfold mergeLeaf
  have ga : h.get a = .ok la := by rw [Heap.get, ha]; rfl
  have gb : h.get b = .ok lb := by rw [Heap.get, hb]; rfl
  rw [ga, Res.ok_bind, gb, Res.ok_bind, hm, Res.ok_bind]
  dsimp only
  cases hpost : post with
  | nil =>
    subst hpost
    have hnone : h.next b = none := hlast b (by simp)
    rw [hnone]
    refine ⟨_, rfl, ⟨hnd', hfresh, halive, ?_, ?_⟩, rfl, rfl⟩
    · refine chain_congr_next (h := h) (fun i hi => ?_) (fun i hi => rfl) hc1
      simp [Heap.free, Heap.set, upd, hpre_a i hi]
    · intro x hx
      rw [getLast?_cons_append] at hx
      simp at hx
      subst hx
      simp [Heap.free, Heap.set, upd, hnone]
  | cons x post' =>
    subst hpost
    rw [List.isChain_cons_cons] at hc2
    rw [hc2.1.1]
    dsimp only
    have hxa := hpost_a x (by simp)
    have hxb := hpost_b x (by simp)
    obtain ⟨lx, hlx⟩ := Option.isSome_iff_exists.1 (w.alive x (by simp))
    have gx : (({ (h.set a c) with next := upd (h.set a c).next a ((h.set a c).next b) } : Heap L)).get x
        = .ok lx := by
      simp [Heap.get, Heap.set, upd, hxa, hlx]
    rw [gx, Res.ok_bind]
    rw [List.nodup_cons] at hnpost
    refine ⟨_, rfl, ⟨hnd', hfresh, halive, ?_, ?_⟩, rfl, rfl⟩
    · rw [List.isChain_split]
      refine ⟨?_, ?_⟩
      · refine chain_congr_next (h := h) (fun i hi => ?_) (fun i hi => ?_) hc1
        · simp [Heap.free, Heap.set, upd, hpre_a i hi]
        · have : i ≠ x := by
            rcases List.mem_append.1 hi with hi | hi
            · exact hdis i hi x (by simp)
            · rw [List.mem_singleton.1 hi]; exact Ne.symm hxa
          simp [Heap.free, Heap.set, upd, this]
      · rw [List.isChain_cons_cons]
        refine ⟨by simp [Heap.free, Heap.set, upd, hc2.1.1], ?_⟩
        refine chain_congr_prev (h := h) (fun i hi => ?_) (fun i hi => ?_) hc2.2
        · simp [Heap.free, Heap.set, upd, hpost_a i hi]
        · have : i ≠ x := fun e => hnpost.1 (e ▸ hi)
          simp [Heap.free, Heap.set, upd, this]
    · intro y hy
      rw [getLast?_cons_append, List.getLast?_cons_cons] at hy
      have hyl := hlast y (by rw [List.getLast?_cons_cons]; exact hy)
      simp [Heap.free, Heap.set, upd, hpost_a y (List.mem_of_getLast? hy), hyl]

theorem balanceLeaf_spec {h : Heap L} {d r : Nat} {ld lr ld' lr' : L}
    (hd : h.data d = some ld) (hr : h.data r = some lr) (hb : o.balance ld lr = .ok (ld', lr')) :
    balanceLeaf o h d r = .ok ((h.set d ld').set r lr') := by
  unfold balanceLeaf
  have gd : h.get d = .ok ld := by rw [Heap.get, hd]; rfl
  have gr : h.get r = .ok lr := by rw [Heap.get, hr]; rfl
  rw [gd, Res.ok_bind, gr, Res.ok_bind, hb, Res.ok_bind]; rfl

theorem dropChild_spec (h : Heap L) {n : BNode K Nat} {c1 c2 : List Nat} {a b : Nat} {k1 k2 : List K}
    {s : K} (hr : NodeRep o.N n (c1 ++ a :: b :: c2) (k1 ++ s :: k2)) (hl : c1.length = k1.length)
    {pos : Nat} (hpos : pos = k1.length + 1 ∨ (pos = 0 ∧ k1.length = 0)) :
    ∃ r, dropChild o h n pos a = .ok r ∧ r.heap = h ∧ r.deleted = true ∧
      ((n.num > 1 ∧ r.newRoot = none ∧ NodeRep o.N r.node (c1 ++ a :: c2) (k1 ++ k2)) ∨
       (n.num ≤ 1 ∧ r.newRoot = some a ∧ c1 = [] ∧ c2 = [])) := by
  unfold dropChild
  by_cases h1 : n.num > 1
  · rw [if_pos h1]
    have hp : (if pos > 0 then pos - 1 else pos) = k1.length := by
      rcases hpos with h | h
      · rw [if_pos (by omega)]; omega
      · rw [if_neg (by omega)]; omega
    obtain ⟨keys, kids, ek, ec, hrep⟩ := dropEntry_rep hr hl
    obtain ⟨kids', ew, hrep'⟩ := hrep.setKid a
    dsimp only
    rw [hp, ek, Res.ok_bind, ec, Res.ok_bind]
    dsimp only at ew
    rw [← hl, ew, Res.ok_bind]
    exact ⟨_, rfl, rfl, rfl, Or.inl ⟨h1, rfl, hrep'⟩⟩
  · rw [if_neg h1]
    have hn := hr.num
    have hlen := hr.len
    simp only [List.length_append, List.length_cons] at hn hlen
    exact ⟨_, rfl, rfl, rfl, Or.inr ⟨by omega, rfl, List.length_eq_zero_iff.1 (by omega),
      List.length_eq_zero_iff.1 (by omega)⟩⟩

/-- What an erase from a branch node with range `[lo, hi)` leaves behind. -/
def ErPost (W : Laws o) (lm bm : Nat) (pre post : List Nat) (hd : Option Nat) (d top : Nat) (isRoot : Bool)
    (lo hi : Bd K) (cont : List (K × V)) (r : EOut L (BNode K (Tree K d)) (Tree K d)) : Prop :=
  match r.newRoot with
  | none => Bt W tt lm bm r.heap (d + 1) (top - 1) r.node lo hi ∧ (isRoot = true → 1 ≤ r.node.num) ∧
      Wf r.heap (pre ++ ids (d + 1) r.node ++ post) ∧ content W r.heap (ids (d + 1) r.node) = cont ∧
      (ids (d + 1) r.node).head? = hd
  | some t => isRoot = true ∧ Bt W tt lm bm r.heap d (rootMin 1 d) t lo hi ∧
      Wf r.heap (pre ++ ids d t ++ post) ∧ content W r.heap (ids d t) = cont ∧ (ids d t).head? = hd

theorem ids_leaf_flatMap (cs : List Nat) : cs.flatMap (ids (K := K) 0) = cs := by
  induction cs with
  | nil => rfl
  | cons a cs ih =>
    show ids (K := K) 0 a ++ cs.flatMap (ids (K := K) 0) = a :: cs
    rw [ih]; rfl

/-- Reassemble a node whose adjacent leaves `a` and `b` have been redistributed. -/
theorem pair_balance {h h' : Heap L} {c1 c2 : List Nat} {a b : Nat} {k1 k2 : List K} {lo hi m m' : Bd K}
    {b1 b2 : List (Bd K)} (hb1 : lo :: k1.map bk = b1 ++ [m]) (hb2 : k2.map bk ++ [hi] = m' :: b2)
    (lb : b1.length = c1.length) (t1 : Tile (Bt W Q lm bm h 0 lm) c1 (b1 ++ [m]))
    (t2 : Tile (Bt W Q lm bm h 0 lm) c2 (m' :: b2)) {la lb' : L} (ha : h'.data a = some la)
    (hb : h'.data b = some lb') (oka : W.ok la) (okb : W.ok lb') (hla : lm ≤ (W.abs la).length)
    (hla1 : 1 ≤ (W.abs la).length) (hlb : lm ≤ (W.abs lb').length)
    (hs : Sorted (W.abs la ++ W.abs lb')) (hbd : ∀ e ∈ W.abs la ++ W.abs lb', InR m m' e.1)
    {e : K × V} {es : List (K × V)} (he : W.abs lb' = e :: es)
    (hfr : ∀ i ∈ c1 ++ c2, h'.data i = h.data i) :
    Tile (Bt W tt lm bm h' 0 lm) (c1 ++ a :: b :: c2) (bnds lo (k1 ++ e.1 :: k2) hi) ∧
      content W h' (c1 ++ a :: b :: c2) =
        content W h c1 ++ (W.abs la ++ W.abs lb') ++ content W h c2 := by
  have f1 : ∀ i ∈ c1, h'.data i = h.data i := fun i hi => hfr i (by simp [hi])
  have f2 : ∀ i ∈ c2, h'.data i = h.data i := fun i hi => hfr i (by simp [hi])
  have t1' : Tile (Bt W tt lm bm h' 0 lm) c1 (b1 ++ [m]) :=
    Tile.frame (fun _ _ _ _ => trivial) (by rw [ids_leaf_flatMap]; exact f1) t1
  have t2' : Tile (Bt W tt lm bm h' 0 lm) c2 (m' :: b2) :=
    Tile.frame (fun _ _ _ _ => trivial) (by rw [ids_leaf_flatMap]; exact f2) t2
  obtain ⟨x, hx⟩ := List.exists_mem_of_length_pos hla1
  have hin := sorted_append.1 hs
  have hxe : x.1 < e.1 := hin.2.2 x hx e (by rw [he]; simp)
  have hae : ∀ y ∈ W.abs la, y.1 < e.1 := fun y hy => hin.2.2 y hy e (by rw [he]; simp)
  have hbe : ∀ y ∈ W.abs lb', e.1 ≤ y.1 := by
    intro y hy
    have h2 := hin.2.1
    rw [he] at h2 hy
    rw [Sorted, List.pairwise_cons] at h2
    rcases List.mem_cons.1 hy with hy | hy
    · rw [hy]
    · exact (h2.1 y hy).le
  have ba : Bt W tt lm bm h' 0 lm a m (bk e.1) :=
    ⟨lt_of_le_of_lt (hbd x (by simp [hx])).1 (bk_lt.2 hxe), la, ha, oka, hla,
      fun y hy => ⟨(hbd y (by simp [hy])).1, bk_lt.2 (hae y hy)⟩, trivial⟩
  have bb : Bt W tt lm bm h' 0 lm b (bk e.1) m' :=
    ⟨(hbd e (by rw [he]; simp)).2, lb', hb, okb, hlb,
      fun y hy => ⟨bk_le.2 (hbe y hy), (hbd y (by simp [hy])).2⟩, trivial⟩
  refine ⟨?_, ?_⟩
  · have := tile_unfocus (xs := [a, b]) (ys := [e.1]) hb1 hb2 lb rfl t1' ⟨ba, bb, trivial⟩ t2'
    simpa using this
  · rw [content_append, content_cons, content_cons, content_congr W f1, content_congr W f2]
    simp [ent, ha, hb]

/-- Reassemble a node in which a leaf has been replaced or two leaves merged into `a`. -/
theorem pair_merge {h h' : Heap L} {c1 c2 : List Nat} {a : Nat} {k1 k2 : List K} {lo hi m m' : Bd K}
    {b1 b2 : List (Bd K)} (hb1 : lo :: k1.map bk = b1 ++ [m]) (hb2 : k2.map bk ++ [hi] = m' :: b2)
    (lb : b1.length = c1.length) (t1 : Tile (Bt W Q lm bm h 0 lm) c1 (b1 ++ [m]))
    (t2 : Tile (Bt W Q lm bm h 0 lm) c2 (m' :: b2)) {la : L} (ha : h'.data a = some la)
    (oka : W.ok la) (hla : lm ≤ (W.abs la).length) (hlt : m < m')
    (hbd : ∀ e ∈ W.abs la, InR m m' e.1) (hfr : ∀ i ∈ c1 ++ c2, h'.data i = h.data i) :
    Tile (Bt W tt lm bm h' 0 lm) (c1 ++ a :: c2) (bnds lo (k1 ++ k2) hi) ∧
      content W h' (c1 ++ a :: c2) = content W h c1 ++ W.abs la ++ content W h c2 := by
  have f1 : ∀ i ∈ c1, h'.data i = h.data i := fun i hi => hfr i (by simp [hi])
  have f2 : ∀ i ∈ c2, h'.data i = h.data i := fun i hi => hfr i (by simp [hi])
  have t1' : Tile (Bt W tt lm bm h' 0 lm) c1 (b1 ++ [m]) :=
    Tile.frame (fun _ _ _ _ => trivial) (by rw [ids_leaf_flatMap]; exact f1) t1
  have t2' : Tile (Bt W tt lm bm h' 0 lm) c2 (m' :: b2) :=
    Tile.frame (fun _ _ _ _ => trivial) (by rw [ids_leaf_flatMap]; exact f2) t2
  have ba : Bt W tt lm bm h' 0 lm a m m' := ⟨hlt, la, ha, oka, hla, hbd, trivial⟩
  refine ⟨?_, ?_⟩
  · have := tile_unfocus (xs := [a]) (ys := []) hb1 hb2 lb rfl t1' ⟨ba, trivial⟩ t2'
    simpa using this
  · rw [content_append, content_cons, content_congr W f1, content_congr W f2]
    simp [ent, ha]

theorem nodup_pair {pre c1 c2 post : List Nat} {a b : Nat}
    (hn : (pre ++ (c1 ++ a :: b :: c2) ++ post).Nodup) :
    a ≠ b ∧ (∀ i ∈ c1 ++ c2, i ≠ a) ∧ (∀ i ∈ c1 ++ c2, i ≠ b) := by
  have h1 : (c1 ++ a :: b :: c2).Nodup := by
    refine hn.sublist ?_
    rw [List.append_assoc]
    exact (List.sublist_append_left _ _).trans (List.sublist_append_right _ _)
  simp only [List.nodup_append, List.nodup_cons, List.mem_cons, List.mem_append] at h1 ⊢
  obtain ⟨_, ⟨h2, h3, _⟩, h4⟩ := h1
  refine ⟨fun e => h2 (Or.inl e), fun i hi e => ?_, fun i hi e => ?_⟩
  · rcases hi with hi | hi
    · exact h4 i hi a (Or.inl rfl) e
    · exact h2 (Or.inr (e ▸ hi))
  · rcases hi with hi | hi
    · exact h4 i hi b (Or.inr (Or.inl rfl)) e
    · exact h3 (e ▸ hi)

theorem eraseB0_spec (E : EraseLaws W) (hM : 2 ≤ o.M) (hlm1 : 1 ≤ lm) (hlm : lm ≤ o.M / 2) {top : Nat} {h : Heap L}
    {n : BNode K Nat} {lo hi : Bd K} {pre post : List Nat} {k : K} {isRoot : Bool}
    (hb : Bt W E.Q lm bm h 1 top n lo hi) (hk : InR lo hi k)
    (hf : ∀ id l, findLeaf o 1 n k = .ok id → h.data id = some l → E.pre l k) (w : Wf h (pre ++ ids (K := K) 1 n ++ post))
    (htop1 : 1 ≤ top) (htop2 : isRoot = false → 2 ≤ top) :
    ∃ r, eraseB0 o h n k = .ok r ∧ r.deleted = (find k (content W h (ids (K := K) 1 n))).isSome ∧ Frame h r.heap (ids (K := K) 1 n) ∧
      h.fresh ≤ r.heap.fresh ∧
      ErPost W lm bm pre post (ids (K := K) 1 n).head? 0 top isRoot lo hi (remove k (content W h (ids (K := K) 1 n))) r := by
  obtain ⟨cs, ks, hr, htop, ht⟩ := hb
  have hocc : occ lm bm 0 = lm := rfl
  rw [hocc] at ht
  obtain ⟨hks, _, _⟩ := keys_sorted (fun c a b hc => Bt.lt hc) ht
  obtain ⟨c1, c, c2, k1, k2, b1, m, m', b2, f⟩ := exists_focus W (fun c a b hc => Bt.lt hc) ht hk
  have hids : ids (K := K) 1 n = c1 ++ c :: c2 := by
    rw [ids_rep hr, f.hcs, ids_leaf_flatMap]
  have hleft := f.left_lt
  have hright := f.right_ge
  rw [ids_leaf_flatMap] at hleft hright
  obtain ⟨hmm, l, hl, hok, hlen, hbd, hq⟩ := f.pc
  have hent : ent W h c = W.abs l := by simp [ent, hl]
  have hne1 : ∀ e ∈ content W h c1, e.1 ≠ k := fun e he heq => by
    have := lt_of_lt_of_le (hleft e he) f.inR.1
    rw [heq] at this; exact absurd this (lt_irrefl _)
  have hne2 : ∀ e ∈ content W h c2, e.1 ≠ k := fun e he heq => by
    have := lt_of_lt_of_le f.inR.2 (hright e he)
    rw [heq] at this; exact absurd this (lt_irrefl _)
  rw [hids] at w ⊢
  have hfind : find k (content W h (c1 ++ c :: c2)) = find k (W.abs l) := by
    rw [content_append, content_cons, hent, find_append_right hne1, find_append_left hne2]
  replace hf : E.pre l k := hf c l (by rw [findLeaf, f.lookupPos hr hks, Res.ok_bind, f.rdKid hr, Res.ok_bind]; rfl) hl
  have hrem : remove k (content W h (c1 ++ c :: c2)) =
      content W h c1 ++ remove k (W.abs l) ++ content W h c2 := by
    rw [content_append, content_cons, hent, remove_append, remove_append, remove_eq_self hne1,
      remove_eq_self hne2, List.append_assoc]
  rw [hrem, hfind]
  obtain ⟨l', el, hok', habs, hhint⟩ := E.erase l k m m' hok hbd hq hf
  have hlen' : (W.abs l').length ≤ (W.abs l).length ∧ (W.abs l).length ≤ (W.abs l').length + 1 := by
    rw [habs]
    by_cases hfn : find k (W.abs l) = none
    · rw [remove_eq_self (find_eq_none.1 hfn)]; omega
    · have := remove_length (W.sorted l hok) hfn; omega
  have hbd' : ∀ e ∈ W.abs l', InR m m' e.1 := by
    rw [habs]; intro e he; exact hbd e (mem_remove he).1
  have hgc : h.get c = .ok l := by rw [Heap.get, hl]; rfl
  -- the heap after the erase in the leaf
  have hd1c : (h.set c l').data c = some l' := by simp [Heap.set, upd]
  have hg1c : (h.set c l').get c = .ok l' := by rw [Heap.get, hd1c]; rfl
  have w1 : Wf (h.set c l') (pre ++ (c1 ++ c :: c2) ++ post) := w.set c l'
  unfold eraseB0
  have hf1 := f.l1
  have hf2 := f.l2
  have hrd := f.rdKid hr
  have hnum := hr.num
  rw [f.hks] at hnum
  simp only [List.length_append] at hnum
  have hr' := hr
  rw [f.hcs, f.hks] at hr'
  have htop' : top ≤ k1.length + k2.length := by rw [f.hks] at htop; simpa using htop
  rw [f.lookupPos hr hks, Res.ok_bind, hrd, Res.ok_bind]
  have hee : eraseLeaf o h c k = .ok ((find k (W.abs l)).isSome, h.set c l') := by
    unfold eraseLeaf
    rw [hgc, Res.ok_bind, el, Res.ok_bind]; rfl
  rw [hee, Res.ok_bind]
  dsimp only
  rw [hg1c, Res.ok_bind, W.num_eq l' hok']
  by_cases hun : (W.abs l').length < (o.M + 1) / 2
  · rw [if_pos hun]
    -- right sibling
    have hRB : 0 < k2.length → ∃ q lq, rightSib o (h.set c l') n.num k1.length c = .ok (q, (W.abs lq).length) ∧
        ((o.M + 1) / 2 < (W.abs lq).length → ∃ u, (do
          let h2 ← balanceLeaf o (h.set c l') q c
          let l ← h2.get q
          let k ← o.minKey l
          let keys ← wr o.N n.keys k1.length k
          pure (⟨true, h2, { n with keys := keys }, none⟩ : EOut L (BNode K Nat) Nat)) = .ok u ∧
          u.deleted = true ∧ Frame h u.heap (c1 ++ c :: c2) ∧ h.fresh ≤ u.heap.fresh ∧
          ErPost W lm bm pre post (c1 ++ c :: c2).head? 0 top isRoot lo hi
            (content W h c1 ++ remove k (W.abs l) ++ content W h c2) u) ∧
        ((W.abs lq).length ≤ (o.M + 1) / 2 → k1.length = 0 → ∃ u, (do
          let h2 ← mergeLeaf o (h.set c l') c q
          dropChild o h2 n k1.length c) = .ok u ∧
          u.deleted = true ∧ Frame h u.heap (c1 ++ c :: c2) ∧ h.fresh ≤ u.heap.fresh ∧
          ErPost W lm bm pre post (c1 ++ c :: c2).head? 0 top isRoot lo hi
            (content W h c1 ++ remove k (W.abs l) ++ content W h c2) u) := by
      intro hpos2
      obtain ⟨q, c2', s, k2', m2, b2', rfl, rfl, hl2', hb2', hms, pq, t2'⟩ := right_of f.l2 f.hb2 f.t2 hpos2
      have hw1 : pre ++ (c1 ++ c :: q :: c2') ++ post = (pre ++ c1) ++ c :: q :: (c2' ++ post) := by simp
      have hcq := chain_pair (by rw [← hw1]; exact w.chain)
      obtain ⟨hncq, hnc, hnq⟩ := nodup_pair w.nodup
      obtain ⟨hm2, lq, hlq, hokq, hlenq, hbdq, hqq⟩ := pq
      have hd1q : (h.set c l').data q = some lq := by simp [Heap.set, upd, Ne.symm hncq, hlq]
      have hcc : content W h (q :: c2') = W.abs lq ++ content W h c2' := by
        rw [content_cons]; simp [ent, hlq]
      have hX : Sorted (W.abs l' ++ W.abs lq) := by
        rw [sorted_append]
        exact ⟨W.sorted l' hok', W.sorted lq hokq, fun x hx y hy =>
          bk_lt.1 (lt_of_lt_of_le (hbd' x hx).2 (hbdq y hy).1)⟩
      have hXb : ∀ e ∈ W.abs l' ++ W.abs lq, InR m m2 e.1 := by
        intro e he
        rcases List.mem_append.1 he with he | he
        · exact ⟨(hbd' e he).1, lt_trans (hbd' e he).2 hm2⟩
        · exact ⟨le_trans hmm.le (hbdq e he).1, (hbdq e he).2⟩
      simp only [List.length_cons] at hnum htop'
      refine ⟨q, lq, ?_, fun hbal => ?_, fun hmer hk10 => ?_⟩
      · unfold rightSib
        rw [if_pos (by omega)]
        have : (h.set c l').next c = some q := hcq.1
        rw [this, Res.ofOption_some, Res.ok_bind, Heap.get, hd1q, Res.ofOption_some, Res.ok_bind,
          W.num_eq lq hokq]
        rfl
      · obtain ⟨lq', lc', eb, okq', okc', habs2, hlen2⟩ := E.balanceR lq l' m m' m2 hokq hok' hbdq hbd'
          hqq hhint (by omega) (by omega)
        have hall := congrArg List.length habs2
        simp only [List.length_append] at hall
        rw [balanceLeaf_spec hd1q hd1c eb, Res.ok_bind]
        have hd2c : (((h.set c l').set q lq').set c lc').data c = some lc' := by simp [Heap.set, upd]
        have hd2q : (((h.set c l').set q lq').set c lc').data q = some lq' := by
          simp [Heap.set, upd, Ne.symm hncq]
        obtain ⟨e, es, hees⟩ : ∃ e es, W.abs lq' = e :: es := by
          cases hc : W.abs lq' with
          | nil => rw [hc] at hall hlen2; simp at hall hlen2; omega
          | cons a b => exact ⟨a, b, rfl⟩
        have hg2q : (((h.set c l').set q lq').set c lc').get q = .ok lq' := by rw [Heap.get, hd2q]; rfl
        rw [hg2q, Res.ok_bind, E.minKey lq' e es okq' hees, Res.ok_bind]
        obtain ⟨keys, ew, hrep⟩ := hr'.setKey e.1
        rw [ew, Res.ok_bind]
        refine ⟨_, rfl, rfl, ?_, le_rfl, ?_⟩
        · intro i hi _
          have h1 : i ≠ c := fun e => hi (by simp [e])
          have h2 : i ≠ q := fun e => hi (by simp [e])
          simp [Heap.set, upd, h1, h2]
        · obtain ⟨tl, ct⟩ := pair_balance (W := W) (Q := E.Q) (lm := lm) (bm := bm) f.hb1 hb2' f.lb f.t1 t2'
            hd2c hd2q okc' okq' (by omega) (by omega) (by omega) (by rw [habs2]; exact hX)
            (by rw [habs2]; exact hXb) hees (fun i hi => by
              simp [Heap.set, upd, hnq i hi, hnc i hi])
          have hidn : ids (K := K) 1 ({ n with keys := keys } : BNode K Nat) = c1 ++ c :: q :: c2' := by
            rw [ids_rep (K := K) (d := 0) hrep, ids_leaf_flatMap]
          refine ⟨⟨_, _, hrep, ?_, tl⟩, fun _ => ?_, ?_, ?_, ?_⟩
          · simp; omega
          · simp only; omega
          · simp only
            rw [hidn]
            exact (w1.set q lq').set c lc'
          · simp only
            rw [hidn, ct, hcc, habs2, habs]; simp
          · simp only [hidn]
      · obtain ⟨lc', em, okc', habs2⟩ := E.merge l' lq hok' hokq (sorted_append.1 hX).2.2 (by omega)
        obtain ⟨h', eh, wh', hdh', hfh'⟩ := mergeLeaf_spec (pre := pre ++ c1) (post := c2' ++ post)
          (by rw [← hw1]; exact w1) hd1c hd1q em
        rw [eh, Res.ok_bind]
        obtain ⟨u, eu, hu1, hu2, hu3⟩ := dropChild_spec h' hr' hf1 (pos := k1.length)
          (Or.inr ⟨hk10, hk10⟩)
        have hd2c : h'.data c = some lc' := by rw [hdh']; simp [upd, hncq]
        have hall := congrArg List.length habs2
        simp only [List.length_append] at hall
        obtain ⟨tl, ct⟩ := pair_merge (W := W) (Q := E.Q) (lm := lm) (bm := bm) (h' := h') f.hb1 hb2' f.lb f.t1 t2'
          hd2c okc' (by omega) (lt_trans hmm hm2) (by rw [habs2]; exact hXb) (fun i hi => by
            rw [hdh']; simp [Heap.set, upd, hnq i hi, hnc i hi])
        rw [eu]
        refine ⟨u, rfl, hu2, ?_, ?_, ?_⟩
        · intro i hi _
          have h1 : i ≠ c := fun e => hi (by simp [e])
          have h2 : i ≠ q := fun e => hi (by simp [e])
          rw [hu1, hdh']
          simp [Heap.set, upd, h1, h2]
        · rw [hu1, hfh']; exact le_rfl
        · unfold ErPost
          rw [hu1]
          rcases hu3 with ⟨h1, h2, h3⟩ | ⟨h1, h2, h3, h4⟩
          · rw [h2]
            have hidn : ids (K := K) 1 u.node = c1 ++ c :: c2' := by
              rw [ids_rep (K := K) (d := 0) h3, ids_leaf_flatMap]
            refine ⟨⟨_, _, h3, ?_, tl⟩, fun _ => ?_, ?_, ?_, ?_⟩
            · simp; omega
            · rw [h3.num]; simp; omega
            · rw [hidn]; simpa using wh'
            · rw [hidn, ct, hcc, habs2, habs]; simp
            · simp only [hidn]; simp
          · rw [h2]
            subst h3; subst h4
            have hroot : isRoot = true := by
              cases isRoot with
              | true => rfl
              | false => have := htop2 rfl; omega
            have hk1 : k1 = [] := List.length_eq_zero_iff.1 hk10
            have hk2 : k2' = [] := List.length_eq_zero_iff.1 (by simpa using hl2'.symm)
            subst hk1; subst hk2
            refine ⟨hroot, (show Bt W tt lm bm h' 0 lm c lo hi from tl.1).top_le (by simp [rootMin]), ?_, ?_, ?_⟩
            · simpa [ids] using wh'
            · have ct' : content W h' [c] = _ := ct
              rw [ids, ct', hcc, habs2, habs]; simp
            · simp [ids]
    have hRN : k2.length = 0 → rightSib o (h.set c l') n.num k1.length c = .ok (0, 0) := by
      intro hk; unfold rightSib; rw [if_neg (by omega)]
    unfold underflowLeaf
    rw [Res.assert_pos (by omega), Res.ok_bind]
    have hlift : ∀ (x : Res (EOut L (BNode K Nat) Nat)), (∃ u, x = .ok u ∧ u.deleted = true ∧
        Frame h u.heap (c1 ++ c :: c2) ∧ h.fresh ≤ u.heap.fresh ∧
          ErPost W lm bm pre post (c1 ++ c :: c2).head? 0 top isRoot lo hi
            (content W h c1 ++ remove k (W.abs l) ++ content W h c2) u) →
        ∃ r, (x >>= fun u => pure { u with deleted := (find k (W.abs l)).isSome }) = .ok r ∧ r.deleted = (find k (W.abs l)).isSome ∧
        Frame h r.heap (c1 ++ c :: c2) ∧ h.fresh ≤ r.heap.fresh ∧
          ErPost W lm bm pre post (c1 ++ c :: c2).head? 0 top isRoot lo hi
            (content W h c1 ++ remove k (W.abs l) ++ content W h c2) r := by
      rintro x ⟨u, rfl, hu⟩
      rw [Res.ok_bind]
      exact ⟨_, rfl, rfl, hu.2⟩
    apply hlift
    -- left sibling
    by_cases hpos : 0 < k1.length
    · obtain ⟨c1', p, k1', s, b1', m0, rfl, rfl, hl1', hb1', hlb', hms, t1', pp⟩ := left_of f.l1 f.hb1 f.lb f.t1 hpos
      have hw1 : pre ++ (c1' ++ [p] ++ c :: c2) ++ post = (pre ++ c1') ++ p :: c :: (c2 ++ post) := by simp
      have hw2 : pre ++ (c1' ++ [p] ++ c :: c2) ++ post = pre ++ (c1' ++ p :: c :: c2) ++ post := by simp
      have hpc := chain_pair (by rw [← hw1]; exact w.chain)
      obtain ⟨hnpc, hnp, hnc⟩ := nodup_pair (by rw [← hw2]; exact w.nodup)
      obtain ⟨hm0, lp, hlp, hokp, hlenp, hbdp, hqp⟩ := pp
      have hd1p : (h.set c l').data p = some lp := by simp [Heap.set, upd, hnpc, hlp]
      have hls : leftSib o (h.set c l') (k1' ++ [s]).length c = .ok (p, (W.abs lp).length) := by
        unfold leftSib
        rw [if_pos hpos]
        have : (h.set c l').prev c = some p := hpc.2
        rw [this, Res.ofOption_some, Res.ok_bind, Heap.get, hd1p, Res.ofOption_some, Res.ok_bind,
          W.num_eq lp hokp]
        rfl
      rw [hls, Res.ok_bind]
      dsimp only
      have hcp : content W h (c1' ++ [p]) = content W h c1' ++ W.abs lp := by
        rw [content_append, content_cons]; simp [ent, hlp]
      have hX : Sorted (W.abs lp ++ W.abs l') := by
        rw [sorted_append]
        exact ⟨W.sorted lp hokp, W.sorted l' hok', fun x hx y hy =>
          bk_lt.1 (lt_of_lt_of_le (hbdp x hx).2 (hbd' y hy).1)⟩
      have hXb : ∀ e ∈ W.abs lp ++ W.abs l', InR m0 m' e.1 := by
        intro e he
        rcases List.mem_append.1 he with he | he
        · exact ⟨(hbdp e he).1, lt_trans (hbdp e he).2 hmm⟩
        · exact ⟨le_trans hm0.le (hbd' e he).1, (hbd' e he).2⟩
      have hr2 : NodeRep o.N n (c1' ++ p :: c :: c2) (k1' ++ s :: k2) := by simpa using hr'
      by_cases hbal : (o.M + 1) / 2 < (W.abs lp).length
      · -- rebalance with the left sibling
        rw [if_pos ⟨hpos, hbal⟩]
        obtain ⟨lp', lc', eb, okp', okc', habs2, hlen2⟩ := E.balanceL lp l' m0 m m' hokp hok' hbdp hbd'
          hqp hhint (by omega) (by omega)
        have hall := congrArg List.length habs2
        simp only [List.length_append] at hall
        rw [balanceLeaf_spec hd1p hd1c eb, Res.ok_bind]
        have hd2c : (((h.set c l').set p lp').set c lc').data c = some lc' := by simp [Heap.set, upd]
        have hd2p : (((h.set c l').set p lp').set c lc').data p = some lp' := by
          simp [Heap.set, upd, hnpc]
        obtain ⟨e, es, hees⟩ : ∃ e es, W.abs lc' = e :: es := by
          cases hc : W.abs lc' with
          | nil => rw [hc] at hall; simp at hall; omega
          | cons a b => exact ⟨a, b, rfl⟩
        have hg2c : (((h.set c l').set p lp').set c lc').get c = .ok lc' := by rw [Heap.get, hd2c]; rfl
        rw [hg2c, Res.ok_bind, E.minKey lc' e es okc' hees, Res.ok_bind]
        obtain ⟨keys, ew, hrep⟩ := hr2.setKey e.1
        have epos : (k1' ++ [s]).length - 1 = k1'.length := by simp
        rw [epos, ew, Res.ok_bind]
        refine ⟨_, rfl, rfl, ?_, le_rfl, ?_⟩
        · intro i hi _
          have h1 : i ≠ c := fun e => hi (by simp [e])
          have h2 : i ≠ p := fun e => hi (by simp [e])
          simp [Heap.set, upd, h1, h2]
        · obtain ⟨tl, ct⟩ := pair_balance (W := W) (Q := E.Q) (lm := lm) (bm := bm) hb1' f.hb2 hlb' t1' f.t2
            hd2p hd2c okp' okc' (by omega) (by omega) (by omega) (by rw [habs2]; exact hX)
            (by rw [habs2]; exact hXb) hees (fun i hi => by
              simp [Heap.set, upd, hnp i hi, hnc i hi])
          have hidn : ids (K := K) 1 ({ n with keys := keys } : BNode K Nat) = c1' ++ p :: c :: c2 := by
            rw [ids_rep (K := K) (d := 0) hrep, ids_leaf_flatMap]
          refine ⟨⟨_, _, hrep, ?_, tl⟩, fun _ => ?_, ?_, ?_, ?_⟩
          · simp at htop' ⊢; omega
          · simp at htop'; simp only; omega
          · simp only
            rw [hidn, ← hw2]
            exact (w1.set p lp').set c lc'
          · simp only
            rw [hidn, ct, hcp, habs2, habs]; simp
          · simp only [hidn]; simp
      · rw [if_neg (fun hc => hbal hc.2)]
        -- merge with the left sibling
        have hML : ∃ u, (do
            let h2 ← mergeLeaf o (h.set c l') p c
            dropChild o h2 n (k1' ++ [s]).length p) = .ok u ∧
            u.deleted = true ∧ Frame h u.heap (c1' ++ [p] ++ c :: c2) ∧ h.fresh ≤ u.heap.fresh ∧
            ErPost W lm bm pre post (c1' ++ [p] ++ c :: c2).head? 0 top isRoot lo hi
              (content W h (c1' ++ [p]) ++ remove k (W.abs l) ++ content W h c2) u := by
          obtain ⟨lc', em, okc', habs2⟩ := E.merge lp l' hokp hok' (sorted_append.1 hX).2.2 (by omega)
          obtain ⟨h', eh, wh', hdh', hfh'⟩ := mergeLeaf_spec (pre := pre ++ c1') (post := c2 ++ post)
            (by rw [← hw1]; exact w1) hd1p hd1c em
          rw [eh, Res.ok_bind]
          obtain ⟨u, eu, hu1, hu2, hu3⟩ := dropChild_spec h' hr2 hl1' (pos := (k1' ++ [s]).length)
            (Or.inl (by simp))
          have hd2c : h'.data p = some lc' := by rw [hdh']; simp [upd, hnpc]
          have hall := congrArg List.length habs2
          simp only [List.length_append] at hall
          obtain ⟨tl, ct⟩ := pair_merge (W := W) (Q := E.Q) (lm := lm) (bm := bm) (h' := h') hb1' f.hb2 hlb' t1' f.t2
            hd2c okc' (by omega) (lt_trans hm0 hmm) (by rw [habs2]; exact hXb) (fun i hi => by
              rw [hdh']; simp [Heap.set, upd, hnp i hi, hnc i hi])
          rw [eu]
          refine ⟨u, rfl, hu2, ?_, ?_, ?_⟩
          · intro i hi _
            have h1 : i ≠ c := fun e => hi (by simp [e])
            have h2 : i ≠ p := fun e => hi (by simp [e])
            rw [hu1, hdh']
            simp [Heap.set, upd, h1, h2]
          · rw [hu1, hfh']; exact le_rfl
          · unfold ErPost
            rw [hu1]
            simp only [List.length_append, List.length_singleton] at hnum htop'
            rcases hu3 with ⟨h1, h2, h3⟩ | ⟨h1, h2, h3, h4⟩
            · rw [h2]
              have hidn : ids (K := K) 1 u.node = c1' ++ p :: c2 := by
                rw [ids_rep (K := K) (d := 0) h3, ids_leaf_flatMap]
              refine ⟨⟨_, _, h3, ?_, tl⟩, fun _ => ?_, ?_, ?_, ?_⟩
              · simp; omega
              · rw [h3.num]; simp; omega
              · rw [hidn]; simpa using wh'
              · rw [hidn, ct, hcp, habs2, habs]; simp
              · simp only [hidn]; simp
            · rw [h2]
              subst h3; subst h4
              have hroot : isRoot = true := by
                cases isRoot with
                | true => rfl
                | false => have := htop2 rfl; omega
              have hk1 : k1' = [] := List.length_eq_zero_iff.1 (by simpa using hl1'.symm)
              have hk2 : k2 = [] := List.length_eq_zero_iff.1 (by simpa using hf2.symm)
              subst hk1; subst hk2
              refine ⟨hroot, (show Bt W tt lm bm h' 0 lm p lo hi from tl.1).top_le (by simp [rootMin]), ?_, ?_, ?_⟩
              · simpa [ids] using wh'
              · have ct' : content W h' [p] = _ := ct
                rw [ids, ct', hcp, habs2, habs]; simp
              · simp [ids]
        by_cases hpos2 : 0 < k2.length
        · obtain ⟨q, lq, eq, hq1, hq2⟩ := hRB hpos2
          rw [eq, Res.ok_bind]
          dsimp only
          by_cases hbq : (o.M + 1) / 2 < (W.abs lq).length
          · rw [if_pos ⟨by omega, hbq⟩]
            exact hq1 hbq
          · rw [if_neg (fun hc => hbq hc.2), if_pos ⟨hpos, by omega⟩]
            exact hML
        · rw [hRN (by omega), Res.ok_bind, if_neg (fun hc => by have := hc.1; omega),
            if_pos ⟨hpos, by omega⟩]
          exact hML
    · have hls : leftSib o (h.set c l') k1.length c = .ok (0, 0) := by
        unfold leftSib; rw [if_neg hpos]
      obtain ⟨q, lq, eq, hq1, hq2⟩ := hRB (by omega)
      rw [hls, Res.ok_bind, if_neg (fun hc => hpos hc.1), eq, Res.ok_bind]
      dsimp only
      by_cases hbq : (o.M + 1) / 2 < (W.abs lq).length
      · rw [if_pos ⟨by omega, hbq⟩]
        exact hq1 hbq
      · rw [if_neg (fun hc => hbq hc.2), if_neg (fun hc => hpos hc.1), if_pos ⟨by omega, by omega⟩]
        exact hq2 (by omega) (by omega)
  · rw [if_neg hun]
    have hcnd : ∀ i ∈ c1 ++ c2, i ≠ c := by
      have := mem_disjoint (pre := pre) (A := c1) (B := [c]) (C := c2) (post := post)
        (by simpa using w.nodup)
      intro i hi
      rcases List.mem_append.1 hi with hi | hi
      · simpa using this.1 i hi
      · simpa using this.2.1 i hi
    obtain ⟨tl, ct⟩ := pair_merge (W := W) (Q := E.Q) (lm := lm) (bm := bm) (h' := h.set c l') f.hb1 f.hb2
      f.lb f.t1 f.t2 hd1c hok' (by omega) hmm hbd' (fun i hi => by
        simp [Heap.set, upd, hcnd i hi])
    refine ⟨_, rfl, rfl, ?_, le_rfl, ?_⟩
    · intro i hi _
      have h1 : i ≠ c := fun e => hi (by simp [e])
      simp [Heap.set, upd, h1]
    · refine ⟨⟨_, _, hr', by simp; omega, tl⟩, fun _ => ?_, ?_, ?_, ?_⟩
      · simp only; omega
      · simp only
        rw [hids]; exact w1
      · simp only
        rw [hids, ct, habs]
      · simp only [hids]

end Verif.BTree
