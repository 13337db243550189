import Verif.BitTree.ScanProps
import Verif.FPTree.Iter

/-!
# The iterators of BitHPBPTree (233-291) and BitPBPTree (184-246)

The text is that of the iterator of the FPTree.  The model is written for the leaves of these trees; the lemmas carry over
the facts about the FPTree.
-/

set_option linter.unusedSectionVars false

namespace Verif.BitTree

open Verif Search FPTree BTree

variable {K V : Type} {M : Nat} [LinearOrder K] [Inhabited K] {c : Cfg K V} {adm : K → Prop}

namespace Iter

/-- 245-247, 252-257/198-201, 205-212: the first position in a leaf; the end iterator for `nullptr`.  The loop
`while (!nodeBits.test(currentPosition)) ++currentPosition;` is `FPTree.seek`. -/
def start (h : Heap M K V) : Option Nat → Res BTree.Iter
  | none => .ok BTree.Iter.end
  | some id => do
    let x ← Res.ofOption h[id]?
    let p ← seek x.leaf.bits 0 (M + 1)
    pure ⟨some id, p⟩

/-- 240-248/191-201: the constructor used by `begin()`. -/
def begin (t : Store c M) : Res BTree.Iter := do
  let id ← Store.firstLeaf c t.depth t.root
  start t.heap (some id)

/-- 250-261/203-216 `operator++` in leaf `id` at position `p`.  The recursion `++(*this)` ends at position `M - 1` at the
latest, so `n ≥ M` calls are enough.  `M - 1` is unsigned; the model is for `M ≥ 1`. -/
def nextFrom (h : Heap M K V) (id : Nat) (x : Cell M K V) (p : Nat) : Nat → Res BTree.Iter
  | 0 => .ub
  | n + 1 =>
    if M - 1 ≤ p then start h x.next
    else do
      let t ← x.leaf.bits.test (p + 1)
      if t then pure ⟨some id, p + 1⟩ else nextFrom h id x (p + 1) n

/-- 250-261/203-216 `operator++`. -/
def next (h : Heap M K V) (it : BTree.Iter) : Res BTree.Iter := do
  let id ← Res.ofOption it.node
  let x ← Res.ofOption h[id]?
  nextFrom h id x it.pos M

/-- 275-279/230-234 `operator*`. -/
def deref (h : Heap M K V) (it : BTree.Iter) : Res (K × V) := do
  let id ← Res.ofOption it.node
  let x ← Res.ofOption h[id]?
  let k ← rdA M x.leaf.keys it.pos
  let v ← rdA M x.leaf.vals it.pos
  pure (k, v)

end Iter

/-- `for (auto it = begin(); it != end(); ++it) use(*it);` with at most `n` rounds. -/
def Store.iterate (t : Store c M) (n : Nat) : Res (List (K × V)) := do
  let it ← Iter.begin t
  runIt (Iter.deref t.heap) (Iter.next t.heap) n it

/-! ## Lemmas -/

/-- A leaf as a leaf of the FPTree. -/
def toF (l : Leaf M K V) : FLeaf M K V := { bits := l.bits, fp := fun _ => 0, keys := l.keys, vals := l.vals }

/-- The leaves as a heap of leaves of the FPTree. -/
def toHeap (h : Heap M K V) : BTree.Heap (FLeaf M K V) where
  data := fun i => (h[i]?).map fun x => toF x.leaf
  next := fun i => (h[i]?).bind Cell.next
  prev := fun i => (h[i]?).bind Cell.prev
  fresh := h.length

theorem start_eq (h : Heap M K V) (o : Option Nat) : Iter.start h o = FPTree.Iter.start (toHeap h) o := by
  cases o with
  | none => rfl
  | some i =>
    unfold Iter.start FPTree.Iter.start BTree.Heap.get toHeap
    cases hx : h[i]? with
    | none => simp only [hx]; rfl
    | some x => simp only [hx]; rfl

theorem nextFrom_eq (h : Heap M K V) (id : Nat) (x : Cell M K V) (hx : h[id]? = some x) : ∀ (n p : Nat),
    Iter.nextFrom h id x p n = FPTree.Iter.nextFrom (toHeap h) id (toF x.leaf) p n
  | 0, _ => rfl
  | n + 1, p => by
    rw [Iter.nextFrom, FPTree.Iter.nextFrom, nextFrom_eq h id x hx n (p + 1), start_eq]
    unfold toHeap
    simp only [hx, Option.bind]
    rfl

theorem next_eq (h : Heap M K V) (it : BTree.Iter) : Iter.next h it = FPTree.Iter.next (toHeap h) it := by
  unfold Iter.next FPTree.Iter.next
  cases hn : it.node with
  | none => rfl
  | some i =>
    rw [Res.ofOption_some, Res.ok_bind, Res.ok_bind]
    cases hx : h[i]? with
    | none => unfold BTree.Heap.get toHeap; simp only [hx]; rfl
    | some x =>
      unfold BTree.Heap.get
      rw [show (toHeap h).data i = some (toF x.leaf) by unfold toHeap; simp only [hx]; rfl]
      rw [Res.ofOption_some, Res.ok_bind, nextFrom_eq h i x hx]
      rfl

/-- The loop from a list of leaves that all have entries on yields what the scan reports. -/
theorem iter_from {h : Heap M K V} : ∀ (ids : List Nat) (o : Option Nat), Linked h o ids →
    (∀ i ∈ ids, ∃ x, h[i]? = some x ∧ ∃ k v, Has x.leaf k v) →
    ∃ es it, (∀ n, ids.length ≤ n → Store.scanFrom h n o = .ok es) ∧ Iter.start h o = .ok it ∧
      ∀ n, es.length ≤ n → runIt (Iter.deref h) (Iter.next h) n it = .ok es
  | [], o, hl, _ => by
    have : o = none := hl
    subst this
    refine ⟨[], BTree.Iter.end, fun n _ => by cases n <;> rfl, rfl, fun n _ => by cases n <;> simp [runIt]⟩
  | i :: is, o, ⟨h1, nx, h2, h3⟩, hok => by
    subst h1
    obtain ⟨x, hx, k, v, p0, hp0, hb0, _⟩ := hok i (by simp)
    obtain ⟨es, it, e1, e2, e3⟩ := iter_from is nx h3 (fun j hj => hok j (by simp [hj]))
    have hnx : x.next = nx := by
      unfold nextOf at h2
      rw [hx] at h2
      exact Option.some.inj h2
    have hl : (toHeap h).data i = some (toF x.leaf) := by unfold toHeap; simp only [hx]; rfl
    have hscan : ∀ (n p : Nat), p + n = M → x.leaf.scanLoop p n =
        .ok ((FPTree.used (toF x.leaf) p n).map fun q => (x.leaf.keys q, x.leaf.vals q)) := by
      intro n
      induction n with
      | zero => intro p _; rfl
      | succ n ih =>
        intro p hp
        rw [Leaf.scanLoop, show x.leaf.bits.test p = .ok (Bitmap.bit x.leaf.bits p) from Bitmap.test_eq _ (by omega), Res.ok_bind,
          FPTree.used_succ, ih (p + 1) (by omega)]
        show (if Bitmap.bit x.leaf.bits p = true then _ else _) = Res.ok (List.map _ (if Bitmap.bit x.leaf.bits p = true then _ else _))
        by_cases hb : Bitmap.bit x.leaf.bits p = true
        · rw [if_pos hb, if_pos hb, rdA_ok (by omega), Res.ok_bind, rdA_ok (by omega)]; rfl
        · rw [if_neg hb, if_neg hb]
    have hne : FPTree.used (toF x.leaf) 0 M ≠ [] := by
      intro he
      have : p0 ∈ FPTree.used (toF x.leaf) 0 M := by
        unfold FPTree.used
        exact List.mem_filter.2 ⟨List.mem_range'_1.2 (by omega), hb0⟩
      rw [he] at this; cases this
    have hv := visits (h := toHeap h) hl M 0 (by omega) hne
    obtain ⟨p, ps, hu⟩ := List.exists_cons_of_ne_nil hne
    refine ⟨(FPTree.used (toF x.leaf) 0 M).map (fun q => (x.leaf.keys q, x.leaf.vals q)) ++ es, ⟨some i, p⟩, ?_, ?_, ?_⟩
    · intro n hn
      obtain ⟨m, rfl⟩ : ∃ m, n = m + 1 := ⟨n - 1, by simp at hn; omega⟩
      rw [Store.scanFrom, hx, Res.ofOption_some, Res.ok_bind, hscan M 0 (by omega), Res.ok_bind, hnx,
        e1 m (by simp at hn; omega)]
      rfl
    · unfold Iter.start
      simp only [hx, Res.ofOption_some, Res.ok_bind]
      rw [show x.leaf.bits = (toF x.leaf).bits from rfl, seek_ok (toF x.leaf) M 0 (M + 1) p ps (by omega) (by omega) hu]
      rfl
    · intro n hn
      rw [hu] at hn hv ⊢
      have hstart : Iter.start h ((toHeap h).next i) = .ok it := by
        rw [show (toHeap h).next i = nx by unfold toHeap; simp only [hx, Option.bind]; exact hnx]
        exact e2
      have hv' : Visits (toHeap h) (Iter.next h) (Iter.start h) i (p :: ps) := by
        rw [show Iter.next h = FPTree.Iter.next (toHeap h) from funext (next_eq h),
          show Iter.start h = FPTree.Iter.start (toHeap h) from funext (start_eq h)]
        exact hv
      refine run_leaf (h := toHeap h) (start := Iter.start h) hstart e3 ps p n hv' ?_ (by simp at hn ⊢; omega)
      intro q hq
      have := FPTree.mem_used (l := toF x.leaf) (i := 0) (n := M) (by rw [hu]; exact hq)
      unfold Iter.deref
      simp only [Res.ofOption_some, Res.ok_bind, hx]
      rw [rdA_ok (by omega), Res.ok_bind, rdA_ok (by omega)]; rfl

/-- `begin()` throws if the first leaf it gets to is empty. -/
theorem iterate_throws {t : Store c M} {i : Nat} {x : Cell M K V} (e : Store.firstLeaf c t.depth t.root = .ok i)
    (hx : t.heap[i]? = some x) (hne : ∀ k v, ¬ Has x.leaf k v) (n : Nat) : t.iterate n = .throws := by
  have hu : FPTree.used (toF x.leaf) 0 M = [] := by
    rw [List.eq_nil_iff_forall_not_mem]
    intro p hp
    have h1 := FPTree.mem_used hp
    have h2 : Bitmap.bit x.leaf.bits p = true := (List.mem_filter.1 hp).2
    exact hne _ _ ⟨p, by omega, h2, rfl, rfl⟩
  unfold Store.iterate Iter.begin Iter.start
  rw [e, Res.ok_bind]
  simp only [hx, Res.ofOption_some, Res.ok_bind]
  rw [show x.leaf.bits = (toF x.leaf).bits from rfl, seek_empty (toF x.leaf) M 0 (M + 1) (by omega) (by omega) hu]
  rfl

theorem fold_isSome (k : K) : ∀ (xs : List (K × V)) (o : Option V),
    (xs.foldl (fun o x => if x.1 = k then some x.2 else o) o).isSome ↔ o.isSome ∨ k ∈ xs.map Prod.fst
  | [], o => by simp
  | x :: xs, o => by
    rw [List.foldl_cons, fold_isSome k xs, List.map_cons, List.mem_cons]
    by_cases h : x.1 = k
    · rw [if_pos h]; simp [h]
    · rw [if_neg h]
      have : k ≠ x.1 := fun e => h e.symm
      tauto

theorem last_isSome (xs : List (K × V)) (k : K) : (last xs k).isSome ↔ k ∈ xs.map Prod.fst := by
  unfold last
  rw [fold_isSome]
  simp

/-! ## C102 -/

/-- C102: after any history of at least one insert the loop from `begin()` to `end()` does what `scan(func)` does: it yields the
same entries in the same order (and where the descent through `children[0]` has no meaning, neither has one).  As many rounds
as there were inserts are enough. -/
theorem C102_iterate (F : Laws c adm) (hM : 2 ≤ M) (hm : c.move = false → M % 64 ≠ 0) (hN : 2 ≤ c.N) (hN64 : c.N % 64 ≠ 0)
    (xs : List (K × V)) (hx : ∀ x ∈ xs, adm x.1) (hne : xs ≠ []) :
    ∃ t, insertAll xs (Store.empty c M) = .ok t ∧ ∀ n, xs.length ≤ n → t.iterate n = t.scan := by
  obtain ⟨t, e, h1, h2⟩ := insertAll_law F hM hm hN hN64 xs (Store.empty c M) (tok_empty c M) hx
  obtain ⟨_, E, ids, hc⟩ := insertAll_chain F hM hm hN hN64 xs _ t (tok_empty c M) ⟨_, _, chain_empty c M⟩ hx e
  refine ⟨t, e, fun n hn => ?_⟩
  have hhas : ∀ k v, t.Has k v ↔ last xs k = some v := by
    intro k v
    rw [h2]
    exact fold_last k v xs _ none (fun w => ⟨fun h => absurd h (has_empty k w), fun h => by cases h⟩)
  unfold Store.iterate Iter.begin Store.scan
  cases hf : Store.firstLeaf c t.depth t.root with
  | ok i =>
    rw [Res.ok_bind, Res.ok_bind]
    by_cases hlt : i < t.heap.length
    · have hall : i ∈ ids := by
        have hsub : ids.toFinset ⊆ Finset.range t.heap.length := by
          intro j hj
          rw [Finset.mem_range]
          exact fp_lt _ _ _ h1.ok j ((hc.mem j).1 (List.mem_toFinset.1 hj))
        have : ids.toFinset = Finset.range t.heap.length := by
          refine Finset.eq_of_subset_of_card_le hsub ?_
          rw [Finset.card_range, List.toFinset_card_of_nodup hc.nodup, hc.len]
        rw [← List.mem_toFinset, this, Finset.mem_range]
        exact hlt
      obtain ⟨l, r, hr⟩ := List.append_of_mem hall
      have hfill : ∀ j ∈ ids, ∃ x, t.heap[j]? = some x ∧ ∃ k v, Has x.leaf k v := by
        intro j hj
        by_cases h1' : 1 < ids.length
        · obtain ⟨lf, hcore, k, v, hkv⟩ := hc.ne h1' j hj
          obtain ⟨x, hx, rfl⟩ := core_some.1 hcore
          exact ⟨x, hx, k, v, hkv⟩
        · obtain ⟨y, ys, rfl⟩ := List.exists_cons_of_ne_nil hne
          obtain ⟨v, hv⟩ : ∃ v, last (y :: ys) y.1 = some v :=
            Option.isSome_iff_exists.1 ((last_isSome _ _).2 (by simp))
          obtain ⟨j', hj', x, hx, hh⟩ := (has_leaves h1 hc _ _).1 ((hhas _ _).2 hv)
          have : j' = j := by
            match ids, h1', hj, hj' with
            | [a], _, hj, hj' => rw [List.mem_singleton.1 hj, List.mem_singleton.1 hj']
            | a :: b :: r, h, _, _ => simp at h
          subst this
          exact ⟨x, hx, _, _, hh⟩
      obtain ⟨es, it, g1, g2, g3⟩ := iter_from (i :: r) (some i) (linked_suffix l r _ i (by rw [← hr]; exact hc.link))
        (fun j hj => hfill j (by rw [hr]; exact List.mem_append_right _ hj))
      have hlen : (i :: r).length ≤ t.heap.length := by rw [← hc.len, hr]; simp
      obtain ⟨out, e3, hnd, hmem⟩ := scanFrom_chain F h1 hc hr
      have := g1 _ hlen
      rw [e3] at this
      obtain rfl := Res.ok.inj this
      rw [e3, g2, Res.ok_bind]
      refine g3 n (le_trans ?_ hn)
      have hsub : (out.map Prod.fst).toFinset ⊆ (xs.map Prod.fst).toFinset := by
        intro k hk
        obtain ⟨⟨k1, v1⟩, hm1, rfl⟩ := List.mem_map.1 (List.mem_toFinset.1 hk)
        rw [List.mem_toFinset]
        obtain ⟨j, hj, x, hx, hh⟩ := (hmem _ _).1 hm1
        have := (hhas _ _).1 ((has_leaves h1 hc _ _).2 ⟨j, by rw [hr]; exact List.mem_append_right _ hj, x, hx, hh⟩)
        exact (last_isSome _ _).1 (by rw [this]; rfl)
      have h3 := Finset.card_le_card hsub
      rw [List.toFinset_card_of_nodup hnd, List.length_map] at h3
      exact h3.trans ((List.toFinset_card_le _).trans (by rw [List.length_map]))
    · have hn : t.heap[i]? = none := List.getElem?_eq_none (by omega)
      unfold Iter.start
      dsimp only
      rw [hn]
      cases hL : t.heap.length with
      | zero => rfl
      | succ n => rw [Store.scanFrom, hn]; rfl
  | ub => rfl
  | throws => rfl
  | assertFail => rfl

/-- C102 for `int` keys, both trees (`mv`: BitPBPTree). -/
theorem C102_int (N M : Nat) (hM : 2 ≤ M) (mv : Bool) (hm : mv = false → M % 64 ≠ 0) (hN : 2 ≤ N) (hN64 : N % 64 ≠ 0)
    (jk : Nat → Int) (jv : Nat → V) (xs : List (Int × V)) (hx : ∀ x ∈ xs, 0 ≤ x.1 ∧ x.1 < 2 ^ 31 - 1) (hne : xs ≠ []) :
    ∃ t, insertAll xs (Store.empty (cfgInt N mv jk jv) M) = .ok t ∧ ∀ n, xs.length ≤ n → t.iterate n = t.scan :=
  C102_iterate (laws_int N mv jk jv) hM hm hN hN64 xs hx hne

/-- C102 for ascending keys: the loop yields every stored entry exactly once. -/
theorem C102_ascending (F : Laws c adm) (hM : 2 ≤ M) (hm : c.move = false → M % 64 ≠ 0) (hN : 2 ≤ c.N) (hN64 : c.N % 64 ≠ 0)
    (xs : List (K × V)) (hx : ∀ x ∈ xs, adm x.1) (hne : xs ≠ []) (hp : xs.Pairwise (fun x y => x.1 ≤ y.1)) :
    ∃ t r, insertAll xs (Store.empty c M) = .ok t ∧ (∀ n, xs.length ≤ n → t.iterate n = .ok r) ∧ (r.map Prod.fst).Nodup ∧
      ∀ k v, (k, v) ∈ r ↔ last xs k = some v := by
  obtain ⟨t, e, h⟩ := C102_iterate F hM hm hN hN64 xs hx hne
  obtain ⟨t', r, e', h1, h2, h3⟩ := C62_ascending_partial F hM hm hN hN64 xs hx hp
  rw [e] at e'
  obtain rfl := Res.ok.inj e'
  exact ⟨t, r, e, fun n hn => (h n hn).trans h1, h2, h3⟩

/-- The condition on the number of inserts is needed: `begin()` of a new tree throws, and `scan(func)` reports nothing. -/
theorem C102_empty (c : Cfg K V) (M n : Nat) : (Store.empty c M).iterate n = .throws := by
  refine iterate_throws (i := 0) rfl rfl ?_ n
  rintro k v ⟨p, _, hb, _⟩
  have : Bitmap.bit (Bitmap.fresh M) p = true := hb
  rw [bit_fresh] at this
  cases this

set_option maxRecDepth 100000 in
/-- Descending inserts: the loop and the scan both miss the two leaves on the left. -/
example : (insertAll [((4 : Int), (1 : Int)), (3, 2), (2, 3), (1, 4)] (Store.empty (cfgInt 3 true (fun _ => 0) (fun _ => 0)) 2)
    >>= fun t => t.iterate 4) = .ok [(3, 2), (4, 1)] := by decide +kernel

set_option maxRecDepth 100000 in
/-- Ascending inserts with gaps in the leaves. -/
example : (insertAll [((1 : Int), (1 : Int)), (2, 2), (3, 3), (4, 4), (5, 5), (6, 6), (7, 7), (8, 8)]
    (Store.empty (cfgInt 2 false (fun _ => 0) (fun _ => 0)) 3) >>= fun t => t.iterate 8) =
    .ok [(1, 1), (2, 2), (4, 4), (3, 3), (6, 6), (5, 5), (8, 8), (7, 7)] := by decide +kernel

end Verif.BitTree
