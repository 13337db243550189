import Verif.WBTree.Leaf
import Mathlib.Data.Finset.Dedup
import Mathlib.Order.Interval.Finset.Nat

/-!
# C45, C60: wBPTree and wHBPTree

`junk` is what uninitialised slots hold: `none` (indeterminate) or `some 0` (zero-filled memory).
-/

namespace Verif.WBTree

variable {K V : Type} [LinearOrder K] {N M : Nat}

/-! ## Specification -/

/-- The value of the last insert of `k` in a sequence of inserts. -/
def last (xs : List (K × V)) (k : K) : Option V :=
  xs.foldl (fun o x => if x.1 = k then some x.2 else o) none

/-- C45. Every key of a sequence of inserts of distinct keys is found with its value. -/
def C45_statement (K V : Type) [LinearOrder K] (N M : Nat) (junk : Option Nat) : Prop :=
  ∀ xs : List (K × V), (xs.map Prod.fst).Nodup →
    ∃ t, insertAll junk xs (empty N M junk) = .ok t ∧ ∀ x ∈ xs, lookup t x.1 = .ok (some x.2)

/-! ## Histories that stay within one leaf -/

/-- The value a list of entries gives to a key. -/
def valOf (es : List (Nat × K × V)) (k : K) : Option V := (es.find? (fun e => e.2.1 = k)).map (·.2.2)

/-- The keys of a list of entries. -/
def keysOf (es : List (Nat × K × V)) : Finset K := (es.map (·.2.1)).toFinset

theorem valOf_insert {a b : List (Nat × K × V)} {u : Nat} {k : K} {v : V} (ha : ∀ e ∈ a, e.2.1 < k)
    (k' : K) : valOf (a ++ (u, k, v) :: b) k' = if k = k' then some v else valOf (a ++ b) k' := by
  unfold valOf
  rw [List.find?_append, List.find?_append]
  by_cases h : k = k'
  · subst h
    have : a.find? (fun e => e.2.1 = k) = none := by
      rw [List.find?_eq_none]
      intro e he
      simpa using ne_of_lt (ha e he)
    rw [this, if_pos rfl]
    simp
  · rw [if_neg h, List.find?_cons_of_neg (by simpa using h)]

theorem LeafOK.card {l : Leaf K V M} {es : List (Nat × K × V)} (h : LeafOK l es) :
    (keysOf es).card = es.length := by
  unfold keysOf
  rw [List.toFinset_card_of_nodup, List.length_map]
  have : (es.map (·.2.1)).Pairwise (· < ·) := List.pairwise_map.2 h.sorted
  exact this.imp ne_of_lt

theorem mem_keysOf {es : List (Nat × K × V)} {k : K} : k ∈ keysOf es ↔ ∃ e ∈ es, e.2.1 = k := by
  unfold keysOf
  rw [List.mem_toFinset, List.mem_map]

theorem LeafOK.step {l : Leaf K V M} {es : List (Nat × K × V)} (junk : Option Nat) (h : LeafOK l es)
    (k : K) (v : V) (hc : (Insert.insert k (keysOf es)).card ≤ M) :
    ∃ l' es', l.insert junk k v = .ok (l', none) ∧ LeafOK l' es' ∧
      (∀ k', valOf es' k' = if k = k' then some v else valOf es k') ∧
      keysOf es' = Insert.insert k (keysOf es) := by
  by_cases hk : k ∈ keysOf es
  · obtain ⟨e, he, hek⟩ := mem_keysOf.1 hk
    obtain ⟨s, k0, w⟩ := e
    simp only at hek
    subst hek
    obtain ⟨a, b, rfl⟩ := List.append_of_mem he
    obtain ⟨l', e1, h1⟩ := h.insert_dup junk v
    have hs := h.sorted
    rw [List.pairwise_append] at hs
    have ha : ∀ e ∈ a, e.2.1 < k0 := fun e he => hs.2.2 e he (s, k0, w) (by simp)
    refine ⟨l', _, e1, h1, fun k' => ?_, ?_⟩
    · rw [valOf_insert ha, valOf_insert ha]
      split <;> rfl
    · rw [Finset.insert_eq_of_mem hk]
      unfold keysOf
      simp
  · rw [Finset.card_insert_of_notMem hk, h.card] at hc
    obtain ⟨l', a, b, u, hes, ha, hb, e1, h1⟩ := h.insert_room junk (by omega) (k := k)
      (fun e he hh => hk (mem_keysOf.2 ⟨e, he, hh⟩)) v
    refine ⟨l', _, e1, h1, fun k' => ?_, ?_⟩
    · rw [valOf_insert ha, hes]
    · rw [hes]
      unfold keysOf
      ext x
      simp only [List.map_append, List.map_cons, List.toFinset_append, List.toFinset_cons, Finset.mem_union,
        Finset.mem_insert]
      tauto

theorem insertAll_leaf (junk : Option Nat) : ∀ (xs : List (K × V)) (l : Leaf K V M)
    (es : List (Nat × K × V)), LeafOK l es →
    (keysOf es ∪ (xs.map Prod.fst).toFinset).card ≤ M →
    ∃ l' es', insertAll junk xs (⟨[l], [], 0, 0, fun _ => none⟩ : Tree K V N M) = .ok ⟨[l'], [], 0, 0, fun _ => none⟩ ∧ LeafOK l' es' ∧
      (∀ k, valOf es' k = xs.foldl (fun o x => if x.1 = k then some x.2 else o) (valOf es k)) ∧
      keysOf es' = keysOf es ∪ (xs.map Prod.fst).toFinset := by
  intro xs
  induction xs with
  | nil => intro l es h _; exact ⟨l, es, rfl, h, fun k => rfl, by simp⟩
  | cons x xs ih =>
    obtain ⟨k, v⟩ := x
    intro l es h hc
    have hU : keysOf es ∪ (((k, v) :: xs).map Prod.fst).toFinset =
        Insert.insert k (keysOf es) ∪ (xs.map Prod.fst).toFinset := by
      ext y; simp
    rw [hU] at hc
    obtain ⟨l1, es1, e1, h1, hv1, hk1⟩ := h.step junk k v
      (le_trans (Finset.card_le_card Finset.subset_union_left) hc)
    obtain ⟨l2, es2, e2, h2, hv2, hk2⟩ := ih l1 es1 h1 (by rw [hk1]; exact hc)
    refine ⟨l2, es2, ?_, h2, ?_, by rw [hk2, hk1, hU]⟩
    · rw [insertAll]
      have : insert junk (⟨[l], [], 0, 0, fun _ => none⟩ : Tree K V N M) k v = .ok ⟨[l1], [], 0, 0, fun _ => none⟩ := by
        unfold insert insertAux insertLeaf Tree.leaf
        dsimp only
        rw [List.getElem?_cons_zero, Res.ofOption_some, Res.ok_bind, e1, Res.ok_bind]
        rfl
      rw [this, Res.ok_bind]
      exact e2
    · intro k'
      rw [hv2 k', hv1 k']
      rfl

/-- C45, the part that holds: as long as at most `M` distinct keys are inserted (no leaf is split) the
tree is a map: every lookup returns the value of the last insert of the key, in any order, with repeated
keys and whatever uninitialised memory holds.  Missing: trees that have been split, where the claim is
false (`C45_split_loses`, `C45_lost_key`). -/
theorem C45_leaf_partial (junk : Option Nat) (xs : List (K × V))
    (h : (xs.map Prod.fst).toFinset.card ≤ M) :
    ∃ t, insertAll junk xs (empty N M junk : Tree K V N M) = .ok t ∧
      ∀ k, lookup t k = .ok (last xs k) := by
  obtain ⟨l, es, e, hl, hv, _⟩ := insertAll_leaf (N := N) junk xs (Leaf.fresh M junk) [] (leafOK_fresh junk)
    (by simpa [keysOf] using h)
  refine ⟨_, e, fun k => ?_⟩
  unfold lookup findLeaf Tree.leaf
  rw [Res.ok_bind, List.getElem?_cons_zero, Res.ofOption_some, Res.ok_bind, hl.lookup]
  exact congrArg _ (hv k)

theorem insertAll_append (junk : Option Nat) (xs ys : List (K × V)) (t : Tree K V N M) :
    insertAll junk (xs ++ ys) t = insertAll junk xs t >>= insertAll junk ys := by
  induction xs generalizing t with
  | nil => rfl
  | cons x xs ih =>
    obtain ⟨k, v⟩ := x
    rw [List.cons_append, insertAll, insertAll]
    cases h : insert junk t k v <;> simp [Res.ok_bind, ih]

/-- C45 is false at the first split: after *any* `M + 1` distinct keys some inserted key is not found.
Its lookup reads a slot that was never written (undefined behaviour); with zero-filled memory it is
sent to the wrong leaf and reports that the key does not exist. -/
theorem C45_split_loses (hN : 2 < N) (hM : 1 < M) (xs : List (K × V)) (hnd : (xs.map Prod.fst).Nodup)
    (hlen : xs.length = M + 1) :
    (∃ t, insertAll none xs (empty N M none : Tree K V N M) = .ok t ∧
      ∃ x ∈ xs, lookup t x.1 = .ub ∧ findLeaf t x.1 t.depth t.root = .ub) ∧
    (∃ t, insertAll (some 0) xs (empty N M (some 0) : Tree K V N M) = .ok t ∧
      ∃ x ∈ xs, lookup t x.1 = .ok none) := by
  have main : ∀ junk : Option Nat, ∃ (l r : Leaf K V M) (ls rs : List (Nat × K × V)) (e0 : Nat × K × V)
      (bits : Bitmap N) (kids : Slots Nat), LeafOK l ls ∧ LeafOK r (e0 :: rs) ∧
      (∀ e ∈ ls, e.2.1 ≠ e0.2.1) ∧ e0.2 ∈ xs ∧ kids 0 = some 0 ∧
      insertAll junk xs (empty N M junk : Tree K V N M) = .ok ⟨[l, r],
        [⟨fun j => if j = 0 then some 1 else if j = 1 then some 0 else junk, bits,
          fun j => if j = 0 then some e0.2.1 else none, kids⟩], 0, 1, linkAfter (fun _ => none) 0 1⟩ := by
    intro junk
    obtain ⟨ys, ⟨k, v⟩, rfl⟩ : ∃ ys y, xs = ys ++ [y] := by
      rcases List.eq_nil_or_concat xs with h | ⟨ys, y, h⟩
      · subst h; simp at hlen
      · exact ⟨ys, y, by rw [h, List.concat_eq_append]⟩
    have hy : ys.length = M := by simpa using hlen
    rw [List.map_append, List.nodup_append] at hnd
    obtain ⟨l, es, e, hl, hv, hks⟩ := insertAll_leaf (N := N) junk ys (Leaf.fresh M junk) []
      (leafOK_fresh junk) (by
        have := List.toFinset_card_le (ys.map Prod.fst)
        simp only [keysOf, List.map_nil, List.toFinset_nil, Finset.empty_union]
        rw [List.length_map] at this
        omega)
    have hes : es.length = M := by
      rw [← hl.card, hks]
      simp only [keysOf, List.map_nil, List.toFinset_nil, Finset.empty_union]
      rw [List.toFinset_card_of_nodup hnd.1, List.length_map, hy]
    have hk : ∀ e ∈ es, e.2.1 ≠ k := by
      intro e he hh
      have : e.2.1 ∈ keysOf es := mem_keysOf.2 ⟨e, he, rfl⟩
      rw [hks] at this
      simp only [keysOf, List.map_nil, List.toFinset_nil, Finset.empty_union, List.mem_toFinset] at this
      exact hnd.2.2 _ this k (by simp) hh
    obtain ⟨l', r, ls, rs, e0, ei, h1, h2, hp⟩ := hl.insert_full junk hes hM hk v
    -- every stored entry stems from the inserts
    have hfrom : ∀ e ∈ es, e.2 ∈ ys := by
      intro e he
      have h3 : valOf es e.2.1 = some e.2.2 := by
        obtain ⟨a, b, rfl⟩ := List.append_of_mem he
        have hs := hl.sorted
        rw [List.pairwise_append] at hs
        have := valOf_insert (b := b) (u := e.1) (v := e.2.2) (k := e.2.1)
          (fun x hx => hs.2.2 x hx e (by simp)) e.2.1
        rw [if_pos rfl] at this
        exact this
      rw [hv] at h3
      have gen : ∀ (zs : List (K × V)) (o : Option V),
          zs.foldl (fun o x => if x.1 = e.2.1 then some x.2 else o) o = some e.2.2 →
          o = some e.2.2 ∨ e.2 ∈ zs := by
        intro zs
        induction zs with
        | nil => intro o h; exact Or.inl h
        | cons z zs ih =>
          intro o h
          rw [List.foldl_cons] at h
          rcases ih _ h with h4 | h4
          · by_cases hz : z.1 = e.2.1
            · rw [if_pos hz] at h4
              right
              rw [show e.2 = z from Prod.ext hz.symm (Option.some.inj h4).symm]
              simp
            · rw [if_neg hz] at h4; exact Or.inl h4
          · exact Or.inr (by simp [h4])
      rcases gen ys _ h3 with h4 | h4
      · simp [valOf] at h4
      · exact h4
    have hmem : ∀ e ∈ ls ++ e0 :: rs, e.2 ∈ ys ++ [(k, v)] := by
      intro e he
      have := hp.subset (List.mem_map_of_mem (f := fun x : Nat × K × V => x.2) he)
      rcases List.mem_cons.1 this with h4 | h4
      · rw [h4]; simp
      · obtain ⟨e', he', h5⟩ := List.mem_map.1 h4
        rw [← h5]
        exact List.mem_append_left _ (hfrom e' he')
    have hdist : ((ls ++ e0 :: rs).map (·.2.1)).Nodup := by
      have h5 := (hp.map Prod.fst).nodup_iff
      rw [List.map_map] at h5
      have h6 : (List.map Prod.fst ((k, v) :: es.map (·.2))).Nodup := by
        rw [List.map_cons, List.map_map, List.nodup_cons]
        constructor
        · intro hm
          obtain ⟨e, he, h7⟩ := List.mem_map.1 hm
          exact hk e he h7
        · have : (es.map (·.2.1)).Pairwise (· < ·) := List.pairwise_map.2 hl.sorted
          exact this.imp ne_of_lt
      exact h5.2 h6
    obtain ⟨bits, eb, _⟩ := bit_set (Bitmap.fresh N) 0 true (by omega)
    refine ⟨l', r, ls, rs, e0, bits, fun j => if j = N then some 1 else if j = 0 then some 0 else none, h1,
      h2, ?_, hmem e0 (by simp), ?_, ?_⟩
    · intro e he hh
      rw [List.map_append, List.nodup_append] at hdist
      exact hdist.2.2 _ (List.mem_map_of_mem he) _ (List.mem_map_of_mem (List.mem_cons_self)) hh
    · simp only
      rw [if_neg (by omega), if_pos trivial]
    · rw [insertAll_append, empty, e, Res.ok_bind, insertAll]
      have : insert junk (⟨[l], [], 0, 0, fun _ => none⟩ : Tree K V N M) k v = .ok ⟨[l', r],
        [⟨fun j => if j = 0 then some 1 else if j = 1 then some 0 else junk, bits,
          fun j => if j = 0 then some e0.2.1 else none,
          fun j => if j = N then some 1 else if j = 0 then some 0 else none⟩], 0, 1, linkAfter (fun _ => none) 0 1⟩ := by
        unfold insert insertAux insertLeaf Tree.leaf
        dsimp only
        rw [List.getElem?_cons_zero, Res.ofOption_some, Res.ok_bind, ei, Res.ok_bind]
        dsimp only
        rw [Res.pure_eq, Res.ok_bind]
        dsimp only
        unfold Branch.fresh
        dsimp only
        rw [Slots.wr_ok _ _ (by omega), Res.ok_bind, Slots.wr_ok _ _ (by omega), Res.ok_bind,
          Slots.wr_ok _ _ (by omega), Res.ok_bind, Slots.wr_ok _ _ (by omega), Res.ok_bind, eb, Res.ok_bind,
          Slots.wr_ok _ _ (by omega), Res.ok_bind, Res.pure_eq]
        simp only [Slots.none]
        congr 1
        simp only [List.set_cons_zero, List.cons_append, List.nil_append, List.length_nil, Tree.mk.injEq,
          Branch.mk.injEq, List.cons.injEq, and_true, true_and]
        refine ⟨⟨?_, ?_⟩, rfl⟩
        · funext j
          by_cases h0 : j = 0
          · simp [h0]
          · simp [h0]
        · funext j
          simp
      rw [this, Res.ok_bind]
      rfl
  have find : ∀ (junk : Option Nat) (t : Tree K V N M) (l r : Leaf K V M) (bits : Bitmap N)
      (kids : Slots Nat) (sep : K), t = ⟨[l, r],
        [⟨fun j => if j = 0 then some 1 else if j = 1 then some 0 else junk, bits,
          fun j => if j = 0 then some sep else none, kids⟩], 0, 1, linkAfter (fun _ => none) 0 1⟩ →
      findLeaf t sep t.depth t.root = Res.ofOption junk >>= fun s => kids.rd (N + 1) s := by
    intro junk t l r bits kids sep ht
    subst ht
    simp only [findLeaf, Tree.branch, List.getElem?_cons_zero, Res.ofOption_some, Res.ok_bind]
    have hp : Branch.pos (⟨fun j => if j = 0 then some 1 else if j = 1 then some 0 else junk, bits,
          fun j => if j = 0 then some sep else none, kids⟩ : Branch K N) sep = .ok 2 := by
      have r0 : Slots.rd (N + 1) (fun j => if j = 0 then some 1 else if j = 1 then some 0 else junk) 0 =
          .ok 1 := Slots.rd_ok (by omega) rfl
      have r1 : Slots.rd (N + 1) (fun j => if j = 0 then some 1 else if j = 1 then some 0 else junk) 1 =
          .ok 0 := Slots.rd_ok (by omega) rfl
      have r2 : Slots.rd N (fun j => if j = 0 then some sep else none) 0 = .ok sep :=
        Slots.rd_ok (by omega) rfl
      unfold Branch.pos Search.binarySearchSlots
      dsimp only
      rw [r0, Res.ok_bind]
      have e1 : ((1 : Nat) : Int) - 1 + 1 = 1 := by norm_num
      rw [e1]
      show Search.bsLoop _ _ _ 1 _ _ _ = _
      rw [Search.bsLoop, if_pos (by norm_num)]
      have e2 : (((1 : Int) + ((1 : Nat) : Int)) / 2).toNat = 1 := by norm_num
      rw [e2, r1, Res.ok_bind, r2, Res.ok_bind, if_pos rfl]
      rfl
    rw [hp, Res.ok_bind]
    have : Slots.rd (N + 1) (fun j => if j = 0 then some 1 else if j = 1 then some 0 else junk) 2 =
        Res.ofOption junk := by
      unfold Slots.rd
      rw [if_pos (by omega)]
      rfl
    rw [this]
    cases junk with
    | none => rfl
    | some s =>
      rw [Res.ofOption_some, Res.ok_bind, Res.ok_bind]
      cases Slots.rd (N + 1) kids s <;> rfl
  constructor
  · obtain ⟨l, r, ls, rs, e0, bits, kids, h1, h2, hd, hm, hk0, e⟩ := main none
    have hf := find none _ l r bits kids e0.2.1 rfl
    refine ⟨_, e, e0.2, hm, ?_, hf⟩
    unfold lookup
    rw [hf]
    rfl
  · obtain ⟨l, r, ls, rs, e0, bits, kids, h1, h2, hd, hm, hk0, e⟩ := main (some 0)
    refine ⟨_, e, e0.2, hm, ?_⟩
    unfold lookup
    rw [find (some 0) _ l r bits kids e0.2.1 rfl, Res.ofOption_some, Res.ok_bind,
      Slots.rd_ok (by omega) hk0, Res.ok_bind]
    unfold Tree.leaf
    rw [List.getElem?_cons_zero, Res.ofOption_some, Res.ok_bind, h1.lookup]
    have : ls.find? (fun e => e.2.1 = e0.2.1) = none := by
      rw [List.find?_eq_none]
      intro x hx
      simpa using hd x hx
    rw [this]
    rfl

/-- With leaves for a single entry already the second key makes `insert` read an uninitialised key. -/
theorem C45_single (junk : Option Nat) (x y : K × V) (h : x.1 ≠ y.1) :
    insertAll junk [x, y] (empty N 1 junk : Tree K V N 1) = .ub := by
  obtain ⟨l, es, e, hl, hv, hks⟩ := insertAll_leaf (N := N) junk [x] (Leaf.fresh 1 junk) []
    (leafOK_fresh junk) (by simp [keysOf])
  have hes : es.length = 1 := by
    rw [← hl.card, hks]; simp [keysOf]
  obtain ⟨e0, rfl⟩ := List.length_eq_one_iff.1 hes
  have hk : e0.2.1 = x.1 := by
    have : e0.2.1 ∈ keysOf [e0] := mem_keysOf.2 ⟨e0, by simp, rfl⟩
    rw [hks] at this
    simpa [keysOf] using this
  have hsplit : insertAll junk [x, y] (empty N 1 junk : Tree K V N 1) =
      insertAll junk [x] (empty N 1 junk) >>= insertAll junk [y] := insertAll_append junk [x] [y] _
  rw [hsplit, empty, e, Res.ok_bind]
  obtain ⟨k, v⟩ := y
  rw [insertAll]
  unfold insert insertAux insertLeaf Tree.leaf
  dsimp only
  rw [List.getElem?_cons_zero, Res.ofOption_some, Res.ok_bind,
    hl.insert_single (by rw [hk]; exact h)]
  rfl

/-- C45 is false for every order of the tree, with indeterminate and with zero-filled memory. -/
theorem C45_refuted (hN : 2 < N) (hM : 0 < M) :
    ¬ C45_statement Nat Nat N M none ∧ ¬ C45_statement Nat Nat N M (some 0) := by
  by_cases h1 : M = 1
  · subst h1
    have key : ∀ junk, ¬ C45_statement Nat Nat N 1 junk := by
      intro junk h
      obtain ⟨t, e, _⟩ := h [(0, 0), (1, 1)] (by decide)
      rw [C45_single junk (0, 0) (1, 1) (by decide)] at e
      exact absurd e (by simp)
    exact ⟨key _, key _⟩
  have hM : 1 < M := by omega
  have hnd : (((List.range (M + 1)).map fun k => (k, k)).map Prod.fst).Nodup := by
    rw [List.map_map]
    exact (List.nodup_range).map (fun a b h => h)
  obtain ⟨⟨t, e, x, hx, hl, _⟩, ⟨t', e', x', hx', hl'⟩⟩ :=
    C45_split_loses hN hM ((List.range (M + 1)).map fun k => (k, k)) hnd (by simp)
  constructor
  · intro h
    obtain ⟨t2, e2, h2⟩ := h _ hnd
    rw [e] at e2
    cases e2
    have := h2 x hx
    rw [hl] at this
    exact absurd this (by simp)
  · intro h
    obtain ⟨t2, e2, h2⟩ := h _ hnd
    rw [e'] at e2
    cases e2
    have := h2 x' hx'
    rw [hl'] at this
    exact absurd this (by simp)

/-- A second way to lose a key, with every read defined: a new key whose position is exactly the middle
of a full leaf goes to the right half although larger keys stay in the left half.  Here `110` is
inserted and no longer found after `105`. -/
theorem C45_lost_key :
    (insertAll none ([100, 200, 300, 400, 500, 110, 120].map fun k => (k, k))
      (empty 4 4 none : Tree Nat Nat 4 4) >>= fun t => lookup t 110) = .ok (some 110) ∧
    (insertAll none ([100, 200, 300, 400, 500, 110, 120, 105].map fun k => (k, k))
      (empty 4 4 none : Tree Nat Nat 4 4) >>= fun t => lookup t 110) = .ok none := by
  decide +kernel

/-- Non-triviality: four keys in a leaf of four, one of them inserted twice; and five keys, the
hypotheses of `C45_split_loses` for `M = 4`. -/
example :
    (insertAll none [(7, 1), (3, 2), (9, 3), (3, 4), (1, 5)] (empty 4 4 none : Tree Nat Nat 4 4) >>=
      fun t => lookup t 3) = .ok (some 4) ∧
    last [(7, 1), (3, 2), (9, 3), (3, 4), (1, 5)] 3 = some 4 ∧
    (([(7, 1), (3, 2), (9, 3), (3, 4), (1, 5)] : List (Nat × Nat)).map Prod.fst).toFinset.card ≤ 4 := by
  decide +kernel

example :
    (insertAll none [(7, 1), (3, 2), (9, 3), (4, 4), (1, 5)] (empty 4 4 none : Tree Nat Nat 4 4) >>=
      fun t => lookup t 7) = .ub ∧
    (insertAll (some 0) [(7, 1), (3, 2), (9, 3), (4, 4), (1, 5)] (empty 4 4 (some 0) : Tree Nat Nat 4 4) >>=
      fun t => lookup t 7) = .ok none := by
  decide +kernel

/-! ## C60: erase while the root is a leaf -/

/-- Operations on the tree as long as the root is a leaf. -/
inductive Op (K V : Type) where
  | ins (k : K) (v : V)
  | del (k : K)

/-- One operation on the leaf; the answer of an erase is reported. -/
def leafStep (junk : Option Nat) (l : Leaf K V M) : Op K V → Res (Leaf K V M × Option Bool)
  | .ins k v => do
    let (l, sp) ← l.insert junk k v
    match sp with
    | none => pure (l, none)
    | some _ => .assertFail
  | .del k => do
    let (l, r) ← l.erase k
    pure (l, some r)

/-- A sequence of operations and the answers of its erases. -/
def leafRun (junk : Option Nat) : List (Op K V) → Leaf K V M → Res (Leaf K V M × List (Option Bool))
  | [], l => .ok (l, [])
  | o :: os, l => do
    let (l, r) ← leafStep junk l o
    let (l, rs) ← leafRun junk os l
    pure (l, r :: rs)

/-- Specification: the stored keys and their values. -/
def specStep (m : K → Option V) : Op K V → (K → Option V) × Option Bool
  | .ins k v => (fun k' => if k = k' then some v else m k', none)
  | .del k => (fun k' => if k = k' then none else m k', some (m k).isSome)

/-- Specification of a sequence. -/
def specRun : List (Op K V) → (K → Option V) → (K → Option V) × List (Option Bool)
  | [], m => (m, [])
  | o :: os, m => ((specRun os (specStep m o).1).1, (specStep m o).2 :: (specRun os (specStep m o).1).2)

/-- The keys stored after an operation. -/
def keyStep (s : Finset K) : Op K V → Finset K
  | .ins k _ => Insert.insert k s
  | .del k => s.erase k

/-- The sequence never stores more than `M` keys. -/
def Fits (M : Nat) : List (Op K V) → Finset K → Prop
  | [], _ => True
  | o :: os, s => (keyStep s o).card ≤ M ∧ Fits M os (keyStep s o)

/-- C60. While the entries fit into one leaf, `erase(k)` answers whether `k` was stored and removes it,
and lookups see the resulting map. -/
def C60_statement (K V : Type) [LinearOrder K] (M : Nat) (junk : Option Nat) : Prop :=
  ∀ os : List (Op K V), Fits M os ∅ →
    ∃ l, leafRun junk os (Leaf.fresh M junk : Leaf K V M) = .ok (l, (specRun os fun _ => none).2) ∧
      ∀ k, l.lookup k = .ok ((specRun os fun _ => none).1 k)

/-- The additional condition on the erases: a stored key is erased from a leaf that is not full, a key
that is not stored is smaller than some stored key. -/
def Tame (M : Nat) : List (Op K V) → Finset K → Prop
  | [], _ => True
  | .ins k v :: os, s => (keyStep s (.ins k v : Op K V)).card ≤ M ∧ Tame M os (keyStep s (.ins k v : Op K V))
  | .del k :: os, s => (if k ∈ s then s.card < M else ∃ k' ∈ s, k < k') ∧
      Tame M os (keyStep s (.del k : Op K V))

theorem valOf_isSome {es : List (Nat × K × V)} {k : K} : (valOf es k).isSome = true ↔ k ∈ keysOf es := by
  rw [mem_keysOf]
  unfold valOf
  rw [Option.isSome_map, List.find?_isSome]
  simp

theorem leafRun_ok (junk : Option Nat) : ∀ (os : List (Op K V)) (l : Leaf K V M)
    (es : List (Nat × K × V)), LeafOK l es → Tame M os (keysOf es) →
    ∃ l', leafRun junk os l = .ok (l', (specRun os (valOf es)).2) ∧
      ∀ k, l'.lookup k = .ok ((specRun os (valOf es)).1 k) := by
  intro os
  induction os with
  | nil => intro l es h _; exact ⟨l, rfl, fun k => h.lookup k⟩
  | cons o os ih =>
    intro l es h ht
    cases o with
    | ins k v =>
      obtain ⟨hc, ht⟩ := ht
      obtain ⟨l1, es1, e1, h1, hv1, hk1⟩ := h.step junk k v hc
      have hvv : valOf es1 = (specStep (valOf es) (.ins k v)).1 := by
        funext k'; exact hv1 k'
      have hkk : keysOf es1 = keyStep (keysOf es) (.ins k v : Op K V) := hk1
      obtain ⟨l2, e2, h2⟩ := ih l1 es1 h1 (hkk ▸ ht)
      rw [hvv] at e2 h2
      refine ⟨l2, ?_, h2⟩
      rw [leafRun, leafStep, e1, Res.ok_bind]
      dsimp only
      rw [Res.pure_eq, Res.ok_bind]
      dsimp only
      rw [e2, Res.ok_bind]
      rfl
    | del k =>
      obtain ⟨hc, ht⟩ := ht
      by_cases hk : k ∈ keysOf es
      · rw [if_pos hk, h.card] at hc
        obtain ⟨e, he, hek⟩ := mem_keysOf.1 hk
        obtain ⟨s, k0, w⟩ := e
        simp only at hek
        subst hek
        obtain ⟨a, b, rfl⟩ := List.append_of_mem he
        obtain ⟨l1, e1, h1⟩ := h.erase_room hc
        have hs := h.sorted
        rw [List.pairwise_append] at hs
        have ha : ∀ e ∈ a, e.2.1 < k0 := fun e he => hs.2.2 e he (s, k0, w) (by simp)
        have hb : ∀ e ∈ b, k0 < e.2.1 := fun e he => (List.pairwise_cons.1 hs.2.1).1 e he
        have hnot : k0 ∉ keysOf (a ++ b) := by
          intro hm
          obtain ⟨x, hx, hxk⟩ := mem_keysOf.1 hm
          rcases List.mem_append.1 hx with hx | hx
          · exact absurd hxk (ne_of_lt (ha x hx))
          · exact absurd hxk (ne_of_gt (hb x hx))
        have hvv : valOf (a ++ b) = (specStep (valOf (a ++ (s, k0, w) :: b)) (.del k0)).1 := by
          funext k'
          show _ = if k0 = k' then none else _
          rw [valOf_insert ha]
          by_cases hh : k0 = k'
          · subst hh
            rw [if_pos rfl]
            have := mt valOf_isSome.1 hnot
            simpa using this
          · rw [if_neg hh, if_neg hh]
        have hkk : keysOf (a ++ b) = keyStep (keysOf (a ++ (s, k0, w) :: b)) (.del k0 : Op K V) := by
          show _ = (keysOf (a ++ (s, k0, w) :: b)).erase k0
          have : keysOf (a ++ (s, k0, w) :: b) = Insert.insert k0 (keysOf (a ++ b)) := by
            unfold keysOf
            ext x
            simp only [List.map_append, List.map_cons, List.toFinset_append, List.toFinset_cons,
              Finset.mem_union, Finset.mem_insert]
            tauto
          rw [this, Finset.erase_insert hnot]
        obtain ⟨l2, e2, h2⟩ := ih l1 _ h1 (hkk ▸ ht)
        have hans : (valOf (a ++ (s, k0, w) :: b) k0).isSome = true := valOf_isSome.2 hk
        rw [hvv] at e2 h2
        refine ⟨l2, ?_, h2⟩
        rw [leafRun, leafStep, e1, Res.ok_bind]
        dsimp only
        rw [Res.pure_eq, Res.ok_bind]
        dsimp only
        rw [e2, Res.ok_bind, specRun]
        show _ = Res.ok (l2, some (valOf (a ++ (s, k0, w) :: b) k0).isSome :: _)
        rw [hans]
        rfl
      · rw [if_neg hk] at hc
        obtain ⟨k', hk', hlt⟩ := hc
        obtain ⟨e', he', rfl⟩ := mem_keysOf.1 hk'
        have e1 := h.erase_miss (k := k) (fun e he hh => hk (mem_keysOf.2 ⟨e, he, hh⟩)) ⟨e', he', hlt⟩
        have hnone : valOf es k = none := by
          have := mt valOf_isSome.1 hk
          simpa using this
        have hvv : valOf es = (specStep (valOf es) (.del k)).1 := by
          funext k'
          show _ = if k = k' then none else _
          by_cases hh : k = k'
          · subst hh; rw [if_pos rfl, hnone]
          · rw [if_neg hh]
        have hkk : keysOf es = keyStep (keysOf es) (.del k : Op K V) := (Finset.erase_eq_of_notMem hk).symm
        obtain ⟨l2, e2, h2⟩ := ih l es h (hkk ▸ ht)
        have hans : (valOf es k).isSome = false := by rw [hnone]; rfl
        rw [hvv] at e2 h2
        refine ⟨l2, ?_, h2⟩
        rw [leafRun, leafStep, e1, Res.ok_bind]
        dsimp only
        rw [Res.pure_eq, Res.ok_bind]
        dsimp only
        rw [e2, Res.ok_bind, specRun]
        show _ = Res.ok (l2, some (valOf es k).isSome :: _)
        rw [hans]
        rfl

/-- C60, the part that holds: the statement for all sequences whose erases are tame.  Missing: erasing
from a full leaf and erasing a key larger than all stored ones, where the claim is false
(`C60_full`, `C60_absent`). -/
theorem C60_partial (junk : Option Nat) (os : List (Op K V)) (h : Tame M os ∅) :
    ∃ l, leafRun junk os (Leaf.fresh M junk : Leaf K V M) = .ok (l, (specRun os fun _ => none).2) ∧
      ∀ k, l.lookup k = .ok ((specRun os fun _ => none).1 k) :=
  leafRun_ok junk os _ [] (leafOK_fresh junk) (by simpa [keysOf] using h)

/-- Erasing any stored key from a full leaf reads `slot[M + 1]`, one element behind the array, whatever
uninitialised memory holds. -/
theorem C60_full (junk : Option Nat) (xs : List (K × V)) (hnd : (xs.map Prod.fst).Nodup)
    (hlen : xs.length = M) (x : K × V) (hx : x ∈ xs) :
    ∃ l, leafRun junk (xs.map fun y => .ins y.1 y.2) (Leaf.fresh M junk : Leaf K V M) =
        .ok (l, xs.map fun _ => none) ∧ l.erase x.1 = .ub := by
  have gen : ∀ (ys : List (K × V)) (l : Leaf K V M) (es : List (Nat × K × V)), LeafOK l es →
      (keysOf es ∪ (ys.map Prod.fst).toFinset).card ≤ M →
      ∃ l' es', leafRun junk (ys.map fun y => .ins y.1 y.2) l = .ok (l', ys.map fun _ => none) ∧
        LeafOK l' es' ∧ keysOf es' = keysOf es ∪ (ys.map Prod.fst).toFinset := by
    intro ys
    induction ys with
    | nil => intro l es h _; exact ⟨l, es, rfl, h, by simp⟩
    | cons y ys ih =>
      intro l es h hc
      have hU : keysOf es ∪ ((y :: ys).map Prod.fst).toFinset =
          Insert.insert y.1 (keysOf es) ∪ (ys.map Prod.fst).toFinset := by
        ext z; simp
      rw [hU] at hc
      obtain ⟨l1, es1, e1, h1, _, hk1⟩ := h.step junk y.1 y.2
        (le_trans (Finset.card_le_card Finset.subset_union_left) hc)
      obtain ⟨l2, es2, e2, h2, hk2⟩ := ih l1 es1 h1 (by rw [hk1]; exact hc)
      refine ⟨l2, es2, ?_, h2, by rw [hk2, hk1, hU]⟩
      rw [List.map_cons, leafRun, leafStep, e1, Res.ok_bind]
      dsimp only
      rw [Res.pure_eq, Res.ok_bind]
      dsimp only
      rw [e2, Res.ok_bind]
      rfl
  obtain ⟨l, es, e, h, hk⟩ := gen xs _ [] (leafOK_fresh junk) (by
    have := List.toFinset_card_le (xs.map Prod.fst)
    rw [List.length_map] at this
    simp only [keysOf, List.map_nil, List.toFinset_nil, Finset.empty_union]
    omega)
  have hk' : keysOf es = (xs.map Prod.fst).toFinset := by
    rw [hk]; simp [keysOf]
  refine ⟨l, e, ?_⟩
  have hl : es.length = M := by
    rw [← h.card, hk', List.toFinset_card_of_nodup hnd, List.length_map, hlen]
  have hm : x.1 ∈ keysOf es := by
    rw [hk', List.mem_toFinset]
    exact List.mem_map_of_mem hx
  obtain ⟨y, hy, hyx⟩ := mem_keysOf.1 hm
  obtain ⟨s, k0, w⟩ := y
  simp only at hyx
  subst hyx
  obtain ⟨a, b, rfl⟩ := List.append_of_mem hy
  exact h.erase_full hl

/-- Erasing a key from an empty tree uses a slot that was never written. -/
theorem C60_absent (k : K) : (Leaf.fresh M none : Leaf K V M).erase k = .ub := by
  unfold Leaf.erase Leaf.pos
  rw [(leafOK_fresh none).count, Res.ok_bind]
  show (Slots.rd (M + 1) _ 1 >>= _) = _
  unfold Slots.rd
  by_cases h : 1 < M + 1
  · rw [if_pos h]; rfl
  · rw [if_neg h]; rfl

/-- C60 is false for every order, with indeterminate and with zero-filled slots. -/
theorem C60_refuted (hM : 0 < M) (junk : Option Nat) : ¬ C60_statement Nat Nat M junk := by
  intro h
  let xs : List (Nat × Nat) := (List.range M).map fun k => (k, k)
  have hnd : (xs.map Prod.fst).Nodup := by
    rw [List.map_map]
    exact (List.nodup_range).map (fun a b h => h)
  have hx : ((0, 0) : Nat × Nat) ∈ xs := List.mem_map.2 ⟨0, by simpa using hM, rfl⟩
  obtain ⟨l, e, hub⟩ := C60_full (M := M) junk xs hnd (by simp [xs]) (0, 0) hx
  have hfit : ∀ (ys : List (Nat × Nat)) (s : Finset Nat), (s ∪ (ys.map Prod.fst).toFinset).card ≤ M →
      Fits M (ys.map (fun y => Op.ins y.1 y.2) ++ [Op.del 0]) s := by
    intro ys
    induction ys with
    | nil =>
      intro s hs
      refine ⟨le_trans (Finset.card_erase_le) (by simpa using hs), trivial⟩
    | cons y ys ih =>
      intro s hs
      have hU : s ∪ ((y :: ys).map Prod.fst).toFinset = Insert.insert y.1 s ∪ (ys.map Prod.fst).toFinset := by
        ext z; simp
      rw [hU] at hs
      exact ⟨le_trans (Finset.card_le_card Finset.subset_union_left) hs, ih _ hs⟩
  obtain ⟨l', e', _⟩ := h (xs.map (fun y => Op.ins y.1 y.2) ++ [Op.del 0]) (hfit xs ∅ (by
    rw [Finset.empty_union, List.toFinset_card_of_nodup hnd]; simp [xs]))
  have happ : ∀ (os : List (Op Nat Nat)) (l0 l1 : Leaf Nat Nat M) (rs : List (Option Bool)),
      leafRun junk os l0 = .ok (l1, rs) → l1.erase 0 = .ub →
      leafRun junk (os ++ [Op.del 0]) l0 = .ub := by
    intro os
    induction os with
    | nil =>
      intro l0 l1 rs h1 h2
      cases h1
      rw [List.nil_append, leafRun, leafStep, h2]
      rfl
    | cons o os ih =>
      intro l0 l1 rs h1 h2
      rw [leafRun] at h1
      obtain ⟨⟨l2, r⟩, e1, h3⟩ := Res.bind_eq_ok.1 h1
      obtain ⟨⟨l3, r3⟩, e3, h4⟩ := Res.bind_eq_ok.1 h3
      cases h4
      rw [List.cons_append, leafRun, e1, Res.ok_bind]
      dsimp only
      rw [ih l2 l1 r3 e3 h2]
      rfl
  rw [happ _ _ l _ e hub] at e'
  exact absurd e' (by simp)

/-- Non-triviality of `C60_partial` for `M = 3`. -/
example : Tame 3 [.ins 5 1, .ins 2 2, .del 3, .del 2, .ins 7 3, .del 7] (∅ : Finset Nat) ∧
    (specRun ([.ins 5 1, .ins 2 2, .del 3, .del 2, .ins 7 3, .del 7] : List (Op Nat Nat)) fun _ => none).2 =
      [none, none, some false, some true, none, some true] := by
  refine ⟨?_, by decide +kernel⟩
  simp [Tame, keyStep]

end Verif.WBTree
