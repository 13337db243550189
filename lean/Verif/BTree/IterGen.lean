import Verif.BTree.Iter

/-!
# Iterators over a chain of leaves, in general

`runIt` is the loop `for (auto it = begin(); it != end(); ++it) use(*it);` for any `operator*` and any
`operator++`.  `run_chain` gives its result if `operator++` visits, leaf by leaf, a non-empty list of slots.
-/

set_option linter.unusedSectionVars false

namespace Verif.BTree

open Verif Assoc

variable {K V L : Type} [LinearOrder K] {lm bm rm : Nat}

/-- The loop from `it` to `end()`, with a bound on the number of rounds. -/
def runIt (deref : Iter → Res (K × V)) (next : Iter → Res Iter) : Nat → Iter → Res (List (K × V))
  | 0, it => if it = Iter.end then .ok [] else .ub
  | n + 1, it =>
    if it = Iter.end then .ok []
    else do
      let e ← deref it
      let it ← next it
      let rest ← runIt deref next n it
      pure (e :: rest)

/-- The slots of leaf `id` are visited in this order, and then `operator++` does what `start` does with
the next leaf. -/
def Visits (h : Heap L) (next : Iter → Res Iter) (start : Option Nat → Res Iter) (id : Nat) : List Nat → Prop
  | [] => False
  | [p] => next ⟨some id, p⟩ = start (h.next id)
  | p :: q :: ps => next ⟨some id, p⟩ = .ok ⟨some id, q⟩ ∧ Visits h next start id (q :: ps)

theorem run_leaf {h : Heap L} {deref : Iter → Res (K × V)} {next : Iter → Res Iter}
    {start : Option Nat → Res Iter} {id : Nat} {e : Nat → K × V} {rest : List (K × V)} {it' : Iter}
    (hs : start (h.next id) = .ok it') (hrest : ∀ n, rest.length ≤ n → runIt deref next n it' = .ok rest) :
    ∀ (ps : List Nat) (p n : Nat), Visits h next start id (p :: ps) →
    (∀ q ∈ p :: ps, deref ⟨some id, q⟩ = .ok (e q)) → (p :: ps).length + rest.length ≤ n →
    runIt deref next n ⟨some id, p⟩ = .ok ((p :: ps).map e ++ rest)
  | [], p, n, hv, hd, hn => by
    obtain ⟨n, rfl⟩ : ∃ m, n = m + 1 := ⟨n - 1, by simp at hn; omega⟩
    rw [runIt, if_neg (by simp [Iter.end]), hd p (by simp), Res.ok_bind,
      show next ⟨some id, p⟩ = start (h.next id) from hv, hs, Res.ok_bind,
      hrest n (by simp at hn; omega), Res.ok_bind]
    rfl
  | q :: ps, p, n, hv, hd, hn => by
    obtain ⟨n, rfl⟩ : ∃ m, n = m + 1 := ⟨n - 1, by simp at hn; omega⟩
    rw [runIt, if_neg (by simp [Iter.end]), hd p (by simp), Res.ok_bind, hv.1, Res.ok_bind,
      run_leaf hs hrest ps q n hv.2 (fun r hr => hd r (List.mem_cons_of_mem _ hr)) (by simp at hn ⊢; omega),
      Res.ok_bind]
    rfl

/-- The loop over a chain of leaves. -/
theorem run_chain {h : Heap L} {deref : Iter → Res (K × V)} {next : Iter → Res Iter}
    {start : Option Nat → Res Iter} {is : List Nat} (w : Wf h is) (sl : L → List Nat) (ev : L → Nat → K × V)
    (hnone : start none = .ok Iter.end)
    (hok : ∀ i ∈ is, ∃ l p ps, h.data i = some l ∧ sl l = p :: ps ∧ start (some i) = .ok ⟨some i, p⟩ ∧
      Visits h next start i (sl l) ∧ ∀ q ∈ sl l, deref ⟨some i, q⟩ = .ok (ev l q)) :
    ∀ (post pre : List Nat), is = pre ++ post → ∃ it, start post.head? = .ok it ∧
      ∀ n, (post.flatMap (fun i => (h.data i).elim [] (fun l => (sl l).map (ev l)))).length ≤ n →
        runIt deref next n it = .ok (post.flatMap (fun i => (h.data i).elim [] (fun l => (sl l).map (ev l)))) := by
  intro post
  induction post with
  | nil =>
    intro pre _
    refine ⟨Iter.end, hnone, fun n _ => ?_⟩
    cases n <;> simp [runIt]
  | cons a post ih =>
    intro pre he
    obtain ⟨l, p, ps, hl, hsl, hst, hv, hd⟩ := hok a (by rw [he]; simp)
    obtain ⟨it', hs', hr'⟩ := ih (pre ++ [a]) (by rw [he]; simp)
    have hc : h.next a = post.head? := chain_tail (by rw [← he]; exact w.chain)
    refine ⟨_, hst, fun n hn => ?_⟩
    simp only [List.flatMap_cons, hl, Option.elim, hsl, List.length_append, List.length_map] at hn ⊢
    rw [hsl] at hv hd
    exact run_leaf (by rw [hc]; exact hs') hr' ps p n hv hd hn

/-- The leaves of a good non-empty tree are not empty. -/
theorem Good.leaves_nonempty {o : Ops K V L} {W : Laws o} (hlm : 1 ≤ lm) {s : State K L}
    (g : Good W lm bm rm s) (hne : cont W s ≠ []) :
    ∀ i ∈ ids s.depth s.root, ∃ l, s.heap.data i = some l ∧ W.ok l ∧ 1 ≤ (W.abs l).length := by
  by_cases hd : s.depth = 0
  · obtain ⟨d, t, h⟩ := s
    simp only at hd
    subst hd
    intro i hi'
    obtain ⟨_, l, hl, hok, _⟩ := g.bt
    simp only [ids, List.mem_singleton] at hi'
    subst hi'
    refine ⟨l, hl, hok, ?_⟩
    dsimp only at hl
    simp only [cont, ids, content, ent, List.flatMap_cons, List.flatMap_nil, List.append_nil, hl,
      Option.elim] at hne
    exact List.length_pos_iff.2 hne
  · intro i hi'
    obtain ⟨l, h1, h2, h3⟩ := Bt.leaf_length _ _ _ _ _ g.bt (fun h => absurd h hd) i hi'
    exact ⟨l, h1, h2, by omega⟩

/-- An empty good tree is a single empty leaf. -/
theorem Good.empty_leaf {o : Ops K V L} {W : Laws o} (hlm : 1 ≤ lm) {s : State K L}
    (g : Good W lm bm rm s) (he : cont W s = []) :
    ∃ id l, leftmost o s.depth s.root = .ok id ∧ s.heap.data id = some l ∧ W.ok l ∧ W.abs l = [] := by
  obtain ⟨id, rest, e, hi⟩ := leftmost_spec _ _ _ _ _ g.bt
  obtain ⟨l, hl, hok⟩ := Bt.leaf_ok _ _ _ _ _ g.bt id (by rw [hi]; simp)
  refine ⟨id, l, e, hl, hok, ?_⟩
  unfold cont at he
  rw [hi, content_cons] at he
  have := (List.append_eq_nil_iff.1 he).1
  simpa [ent, hl] using this

end Verif.BTree
