import Verif.WBTree.Range
import Verif.WBTree.GeneralProps

/-!
# C96: range scans of wHBPTree
-/

namespace Verif.WBTree

variable {K V : Type} [LinearOrder K] {N M : Nat}

/-- The entry lies in the range. -/
def InRange (lo hi : K) (e : K × V) : Prop := lo ≤ e.1 ∧ e.1 ≤ hi

instance (lo hi : K) (e : K × V) : Decidable (InRange lo hi e) := inferInstanceAs (Decidable (_ ∧ _))

/-- C96: after any sequence of inserts a range scan of `wHBPTree` calls the function once for every stored entry
in the range and for nothing else. -/
def C96_statement (K V : Type) [LinearOrder K] (N M : Nat) : Prop :=
  ∀ (junk : Option Nat) (xs : List (K × V)) (lo hi : K),
    ∃ t ys, insertAll junk xs (empty N M junk : Tree K V N M) = .ok t ∧ rangeScan t lo hi = .ok ys ∧ ys.Nodup ∧
      ∀ k v, (k, v) ∈ ys ↔ last xs k = some v ∧ InRange lo hi (k, v)

theorem LeafOK.rangeEntries {l : Leaf K V M} {es : List (Nat × K × V)} (h : LeafOK l es) (lo hi : K) : ∀ (n i : Nat),
    i + n ≤ M → l.rangeEntries lo hi i n = .ok ((l.posList i n).filter (fun e => InRange lo hi e),
      (l.posList i n).any (fun e => decide (¬ e.1 < lo ∧ hi < e.1))) := by
  intro n
  induction n with
  | zero => intro i _; rfl
  | succ n ih =>
    intro i hi'
    rw [Leaf.rangeEntries, Bitmap.test_eq _ (by omega : i < M), Res.ok_bind, Leaf.posList_succ, ih _ (by omega)]
    by_cases hb : Bitmap.bit l.bits i = true
    · obtain ⟨e, he, rfl⟩ := h.used (by omega) hb
      have hb' := hb
      unfold Bitmap.bit at hb'
      rw [if_pos hb', h.key he, Res.ok_bind, h.val he, Res.ok_bind, Res.ok_bind, if_pos hb, h.at he, Res.ok_bind]
      simp only [Option.toList_some, List.singleton_append, List.filter_cons, List.any_cons, InRange]
      by_cases h1 : e.2.1 < lo
      · rw [if_pos h1]
        simp [h1, not_le.2 h1]
      · rw [if_neg h1]
        by_cases h2 : hi < e.2.1
        · rw [if_pos h2]
          simp [h1, h2, not_le.2 h2]
        · rw [if_neg h2]
          simp [h2, not_lt.1 h1, not_lt.1 h2]
    · have hb' := hb
      unfold Bitmap.bit at hb'
      rw [if_neg hb', if_neg hb]
      rfl

/-- The walk from a leaf lists the entries in the range of this leaf and those behind it. -/
theorem Linked.rangeWalk {t : Tree K V N M} {L : List Nat} (h : Linked t.next L)
    (hl : ∀ a ∈ L, ∃ l es, t.leaves[a]? = some l ∧ LeafOK l es) (lo hi : K) :
    ∀ (post pre : List Nat) (n : Nat), L = pre ++ post → post.length ≤ n →
      (post.flatMap (onLeaf t Leaf.slotList)).Pairwise (fun a b => a.1 < b.1) →
      ∃ ys, rangeWalk t lo hi n post.head? = .ok ys ∧
        ys.Perm ((post.flatMap (onLeaf t Leaf.slotList)).filter (fun e => InRange lo hi e)) := by
  intro post
  induction post with
  | nil => intro pre n _ _ _; exact ⟨[], by cases n <;> rfl, by simp⟩
  | cons a post ih =>
    intro pre n hL hn hs
    obtain ⟨n, rfl⟩ : ∃ n', n = n' + 1 := ⟨n - 1, by simp at hn; omega⟩
    obtain ⟨l, es, h1, h2⟩ := hl a (by rw [hL]; simp)
    rw [List.flatMap_cons, List.pairwise_append] at hs
    have ha : onLeaf t Leaf.slotList a = es.map (·.2) := by rw [onLeaf, h1]; exact h2.slotList
    rw [List.head?_cons, WBTree.rangeWalk, Tree.leaf, h1, Res.ofOption_some, Res.ok_bind,
      h2.rangeEntries lo hi M 0 (by omega), Res.ok_bind, List.flatMap_cons, List.filter_append]
    have hp := h2.posList_perm
    have hf := hp.filter (fun e => decide (InRange lo hi e))
    rw [← ha] at hf
    dsimp only
    by_cases hany : (l.posList 0 M).any (fun e => decide (¬ e.1 < lo ∧ hi < e.1)) = true
    · rw [if_pos hany]
      refine ⟨_, rfl, ?_⟩
      obtain ⟨e, he, hh⟩ := List.any_eq_true.1 hany
      simp only [decide_eq_true_eq] at hh
      have he' : e ∈ onLeaf t Leaf.slotList a := by rw [ha]; exact hp.mem_iff.1 he
      have : (post.flatMap (onLeaf t Leaf.slotList)).filter (fun e => decide (InRange lo hi e)) = [] := by
        rw [List.filter_eq_nil_iff]
        intro y hy
        simp only [decide_eq_true_eq]
        rintro ⟨_, h3⟩
        exact absurd (lt_trans hh.2 (hs.2.2 e he' y hy)) (not_lt.2 h3)
      rw [this, List.append_nil]
      exact hf
    · rw [if_neg hany, h pre a post hL]
      obtain ⟨ys, e1, e2⟩ := ih (pre ++ [a]) n (by rw [hL]; simp) (by simpa using hn) hs.2.1
      rw [e1, Res.ok_bind]
      exact ⟨_, rfl, hf.append e2⟩

/-- Left of the leaf that the descent of an insert finds, all keys are smaller. -/
theorem insLeaf_left {t : Tree K V N M} (key : K) : ∀ (d : Nat) (T : VT K V d), Rep t d T → (Ord d T ∨ d = 0) →
    ∃ a pre post, insLeaf t key d (adrOf d T) = .ok a ∧ leafs d T = pre ++ a :: post ∧
      ∀ e ∈ pre.flatMap (onLeaf t Leaf.slotList), e.1 < key := by
  intro d
  induction d with
  | zero =>
    rintro ⟨a, es⟩ ⟨l, h1, h2⟩ _
    exact ⟨a, [], [], rfl, rfl, by simp⟩
  | succ d ih =>
    rintro ⟨a, xs, z⟩ ⟨⟨b, hba, hb⟩, hrx, hrz⟩ hOrd
    have hs : Srt d (Ord d) xs z := hOrd.resolve_right (by omega)
    simp only [] at hba hb hrx hrz
    obtain ⟨P, Q, hPQ, epos, hP, hQ⟩ := hb.pos (hs.sortedKeys _) key
    obtain ⟨p, ys, rfl, rfl, rfl⟩ := adr_split hPQ
    replace hP := adr_keys (P := (· ≤ key)).1 hP
    rw [adr_length] at epos
    have echild : b.child (p.length + 1) = .ok (adrOf d (first ys z)) := by
      have h1 := hb
      rw [adr_append] at h1
      have := h1.child
      rwa [adr_length, first_adr] at this
    obtain ⟨a', pre, post, e1, h1, h2⟩ := ih (first ys z) (first_rep hrx hrz) (Or.inl hs.first.1)
    refine ⟨a', p.flatMap (fun x => leafs d x.2.2) ++ pre, post ++ tl (leafs d) ys z, ?_, ?_, fun e he => ?_⟩
    · show insLeaf t key (d + 1) a = _
      rw [insLeaf, Tree.branch_ok hba, Res.ok_bind, epos, Res.ok_bind, echild, Res.ok_bind, e1]
    · show fl (leafs d) (p ++ ys) z = _
      rw [fl_append, fl_first, h1]
      simp
    · rw [List.flatMap_append] at he
      rcases List.mem_append.1 he with he | he
      · obtain ⟨j, hj, hje⟩ := List.mem_flatMap.1 he
        obtain ⟨x, hx, hxj⟩ := List.mem_flatMap.1 hj
        have hmem : e ∈ ents d x.2.2 := by
          rw [← (hrx x (by simp [hx])).ents_eq d]
          exact List.mem_flatMap.2 ⟨j, hxj, hje⟩
        exact lt_of_lt_of_le ((hs.lt x (by simp [hx])).ents d _ e hmem) (hP x hx)
      · exact h2 e he

/-- What a range scan lists. -/
theorem GInv.rangeScan {t : Tree K V N M} {m : K → Option V} (h : GInv t m) (hlev : TLev t) :
    ∃ E : List (K × V), (E.map Prod.fst).Pairwise (· < ·) ∧ (∀ k v, (k, v) ∈ E ↔ m k = some v) ∧ ∀ lo hi,
      (∀ a, findLeaf t lo t.depth t.root = .ok a → ∃ pre zs ys, E = pre ++ zs ∧ rangeScan t lo hi = .ok ys ∧
        ys.Perm (zs.filter (fun e => InRange lo hi e))) ∧
      (Inner t lo t.depth t.root → ∃ ys, rangeScan t lo hi = .ok ys ∧ ys.Perm (E.filter (fun e => InRange lo hi e))) := by
  obtain ⟨T, h1, h2, h3, h4, h5, h6, h7, h8⟩ := h
  obtain ⟨lev, hl1, hl2⟩ := hlev
  have hE := h2.ents_eq t.depth T
  have hok : ∀ a ∈ leafs t.depth T, ∃ l es, t.leaves[a]? = some l ∧ LeafOK l es := by
    intro a ha
    obtain ⟨l, es, g1, g2, _⟩ := h2.leaf_mem t.depth T a ha
    exact ⟨l, es, g1, g2⟩
  have hsort : (ents t.depth T).Pairwise (fun a b => a.1 < b.1) := by
    rcases h3 with h3 | ⟨_, h3⟩
    · exact h3.sorted
    · rw [h3]; exact List.Pairwise.nil
  have key : ∀ lo hi a pre post, findLeaf t lo t.depth t.root = .ok a → leafs t.depth T = pre ++ a :: post →
      ∃ ys, WBTree.rangeScan t lo hi = .ok ys ∧
        ys.Perm (((a :: post).flatMap (onLeaf t Leaf.slotList)).filter (fun e => InRange lo hi e)) := by
    intro lo hi a pre post ea hL
    have hlen : (a :: post).length ≤ t.leaves.length := by
      have := nodup_length_le h4 (h2.leaf_lt t.depth T)
      rw [hL, List.length_append] at this
      omega
    have hE' := hE
    rw [hL, List.flatMap_append] at hE'
    rw [← hE'] at hsort
    obtain ⟨ys, e1, e2⟩ := h7.rangeWalk hok lo hi (a :: post) pre _ hL hlen (List.pairwise_append.1 hsort).2.1
    exact ⟨ys, by unfold WBTree.rangeScan; rw [ea, Res.ok_bind]; exact e1, e2⟩
  refine ⟨ents t.depth T, by rw [List.pairwise_map]; exact hsort, h8, fun lo hi => ⟨fun a ea => ?_, fun hin => ?_⟩⟩
  · obtain ⟨pre, post, hL⟩ := List.append_of_mem (h6 a (findLeaf_lt hl1 lo _ _ _ hl2 ea))
    obtain ⟨ys, e1, e2⟩ := key lo hi a pre post ea hL
    refine ⟨pre.flatMap (onLeaf t Leaf.slotList), _, ys, ?_, e1, e2⟩
    rw [← hE, hL, List.flatMap_append]
  · obtain ⟨a, pre, post, e0, hL, hlt⟩ := insLeaf_left lo t.depth T h2 (h3.imp id And.left)
    rw [h1, ← findLeaf_inner _ _ hin] at e0
    obtain ⟨ys, e1, e2⟩ := key lo hi a pre post e0 hL
    refine ⟨ys, e1, ?_⟩
    have : (pre.flatMap (onLeaf t Leaf.slotList)).filter (fun e => decide (InRange lo hi e)) = [] := by
      rw [List.filter_eq_nil_iff]
      intro y hy
      simp only [decide_eq_true_eq]
      rintro ⟨h3, _⟩
      exact absurd (hlt y hy) (not_lt.2 h3)
    rw [← hE, hL, List.flatMap_append, List.filter_append, this, List.nil_append]
    exact e2

/-- C96, the part that holds for trees of any depth, inserts in any order and with repeated keys, as long as no
insert splits a leaf exactly in the middle: let `E` be the stored entries in key order.  A range scan whose search of the
first leaf has no undefined behaviour lists the entries in the range of an end `zs` of `E`, each once; no other entry is
ever listed.  If the search meets a separator larger than `minKey` at every branch node, then it lists all entries in the
range.  Missing: searches behind the last separator of a branch node, where entries are really missed
(`C96_missed`), and splits exactly in the middle. -/
theorem C96_partial (hN : 1 < N) (hM : 1 < M) (junk : Option Nat) (xs : List (K × V))
    (h : NoMiddle junk xs (empty N M junk : Tree K V N M)) :
    ∃ t, ∃ E : List (K × V), insertAll junk xs (empty N M junk : Tree K V N M) = .ok t ∧ (E.map Prod.fst).Pairwise (· < ·) ∧
      (∀ k v, (k, v) ∈ E ↔ last xs k = some v) ∧ ∀ lo hi,
      (∀ a, findLeaf t lo t.depth t.root = .ok a → ∃ pre zs ys, E = pre ++ zs ∧ rangeScan t lo hi = .ok ys ∧
        ys.Perm (zs.filter (fun e => InRange lo hi e))) ∧
      (Inner t lo t.depth t.root → ∃ ys, rangeScan t lo hi = .ok ys ∧ ys.Perm (E.filter (fun e => InRange lo hi e))) := by
  obtain ⟨t, e, h1, h2⟩ := gInv_insertAll junk hM hN xs h
  obtain ⟨E, g⟩ := h2.rangeScan h1
  exact ⟨t, E, e, g⟩

/-- C96 in full as long as there is one leaf only. -/
theorem C96_leaf {t : Tree K V N M} {m : K → Option V} (h : GInv t m) (hlev : TLev t) (hd : t.depth = 0) (lo hi : K) :
    ∃ ys, rangeScan t lo hi = .ok ys ∧ (ys.map Prod.fst).Nodup ∧ ∀ k v, (k, v) ∈ ys ↔ m k = some v ∧ InRange lo hi (k, v) := by
  obtain ⟨E, h1, h2, h3⟩ := h.rangeScan hlev
  obtain ⟨ys, e1, e2⟩ := (h3 lo hi).2 (by rw [hd]; trivial)
  refine ⟨ys, e1, ?_, fun k v => ?_⟩
  · rw [(e2.map Prod.fst).nodup_iff]
    have : (E.map Prod.fst).Nodup := h1.imp ne_of_lt
    exact this.sublist ((List.filter_sublist).map _)
  · rw [e2.mem_iff, List.mem_filter, h2]
    simp

set_option maxRecDepth 100000 in
/-- With twenty keys from both ends of the key range, `scan(97, 107)` misses four of the six entries in the range:
the search for 97 reads a slot left from before a split.  The slot array is zero-filled here, so nothing is undefined.  The
scan of `[88, 98]`, whose search meets larger separators, is right. -/
theorem C96_missed :
    (insertAll (some 0) endsExample (empty 4 4 (some 0) : Tree Nat Nat 4 4) >>= fun t => rangeScan t 97 107 >>= fun ys =>
      pure (ys.map Prod.fst)) = .ok [104, 106] ∧
    (insertAll (some 0) endsExample (empty 4 4 (some 0) : Tree Nat Nat 4 4) >>= fun t => rangeScan t 88 98 >>= fun ys =>
      pure (ys.map Prod.fst)) = .ok [89, 91, 93, 95, 97] := by
  decide +kernel

set_option maxRecDepth 100000 in
theorem C96_refuted : ¬ C96_statement Nat Nat 4 4 := by
  intro h
  obtain ⟨t, ys, e1, e2, _, h3⟩ := h (some 0) endsExample 97 107
  have h4 := C96_missed.1
  rw [e1, Res.ok_bind, e2, Res.ok_bind, Res.pure_eq] at h4
  have h5 := Res.ok.inj h4
  have h6 : ((99 : Nat), 1) ∈ ys := (h3 99 1).2 ⟨by decide +kernel, by decide⟩
  have h7 := List.mem_map_of_mem (f := Prod.fst) h6
  rw [h5] at h7
  simp at h7

/-- For every order, after any `M + 1` distinct keys some range scan over a stored key has undefined behaviour, if the memory
of new nodes is not initialised. -/
theorem C96_split_loses (hN : 2 < N) (hM : 1 < M) (xs : List (K × V)) (hnd : (xs.map Prod.fst).Nodup)
    (hlen : xs.length = M + 1) : ∃ t, insertAll none xs (empty N M none : Tree K V N M) = .ok t ∧
      ∃ x ∈ xs, ∀ hi, rangeScan t x.1 hi = .ub := by
  obtain ⟨⟨t, e, x, hx, _, hf⟩, _⟩ := C45_split_loses (N := N) hN hM xs hnd hlen
  exact ⟨t, e, x, hx, fun hi => by unfold rangeScan; rw [hf]; rfl⟩

/-- Non-triviality of `C96_partial`: the keys of `C96_missed` satisfy its hypothesis. -/
example : NoMiddle (some 0) endsExample (empty 4 4 (some 0) : Tree Nat Nat 4 4) :=
  endsExample_atEnds.noMiddle _ (by decide) (by decide)

end Verif.WBTree
