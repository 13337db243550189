import Verif.FPTree.Iter
import Verif.Unsorted.Iter
import Verif.Unsorted.Props
import Verif.BTree.Props

/-!
# Property theorems for the iterators (C70, C71)

The specification is `Verif.MapSpec`.  `iterate c s n` is the loop from `begin()` to `end()` over the tree
`s`, with at most `n` rounds; the theorems hold for every `n` that is large enough, so the loop ends.
-/

set_option linter.unusedSectionVars false

namespace Verif.IterProps

open Search BTree Assoc MapSpec FPTreeProps

variable {K V : Type} {N M : Nat} [LinearOrder K]

theorem cont_ne_nil {L : Type} {o : Ops K V L} {W : Laws o} {s : State K L} {m : K → Option V}
    (h : Stores W s m) (hne : ∃ k, m k ≠ none) : cont W s ≠ [] := by
  obtain ⟨k, hk⟩ := hne
  intro hc
  have := h k
  rw [hc] at this
  exact hk this.symm

theorem cont_nil {L : Type} {o : Ops K V L} {W : Laws o} {lm bm rm : Nat} {s : State K L} {m : K → Option V}
    (g : Good W lm bm rm s) (h : Stores W s m) (he : ∀ k, m k = none) : cont W s = [] := by
  obtain ⟨_, h2⟩ := h.lists g
  apply List.eq_nil_iff_forall_not_mem.2
  rintro ⟨k, v⟩ hm
  have := (h2 k v).1 hm
  rw [he k] at this
  cases this

/-! ## C70 -/

/-- C70 for FPTree: after any non-empty sequence of inserts of non-negative keys, the loop from `begin()` to
`end()` ends and yields every stored entry exactly once, in the same order as `scan`. -/
theorem C70_fptree (hN : 3 ≤ N) (hM : 2 ≤ M) (jf : Nat → Nat) (jk : Nat → Int) (jv : Nat → V)
    (ops : List (Op Int V)) (ho : InsertsOnly ops) (ha : NonNeg ops) (hne : ∃ k, run empty ops k ≠ none) :
    ∃ bs s es, execAll (FPTree.fpOps (FPTree.cfgInt N jf jk jv) M)
        (init (FPTree.fpOps (FPTree.cfgInt N jf jk jv) M)) ops = .ok (bs, s) ∧
      ListsOnce (run empty ops) es ∧ scan (FPTree.fpOps (FPTree.cfgInt N jf jk jv) M) s = .ok es ∧
      ∀ n, es.length ≤ n → FPTree.iterate (FPTree.cfgInt N jf jk jv) s n = .ok es := by
  obtain ⟨bs, s, e, g, h, _⟩ := FPTree.after_inserts (FPTree.flaws_int N jf jk jv) hN hM ops ho ha
  obtain ⟨es, e1, e2⟩ := FPTree.iterate_good (FPTree.flaws_int N jf jk jv) hM (show 1 ≤ M / 2 by omega) g
    (cont_ne_nil h hne)
  obtain ⟨es', e3, h3⟩ := FPTree.scan_lists (FPTree.flaws_int N jf jk jv) hM g h
  rw [e1] at e3
  cases e3
  exact ⟨bs, s, es, e, h3, e1, e2⟩

/-- C70 for FPTree also after erases that are safe in the sense of C41. -/
theorem C70_fptree_erases (q : Nat) (hN : N = 2 * q) (hq : 3 ≤ q) (hM : 2 ≤ M) (jf : Nat → Nat)
    (jk : Nat → Int) (jv : Nat → V) (ops : List (Op Int V)) (ha : NonNegBelow ops)
    (hs : FPTree.SafeHist (FPTree.cfgInt N jf jk jv) (init (FPTree.fpOps (FPTree.cfgInt N jf jk jv) M)) ops)
    (hne : ∃ k, run empty ops k ≠ none) :
    ∃ s es, execAll (FPTree.fpOps (FPTree.cfgInt N jf jk jv) M)
        (init (FPTree.fpOps (FPTree.cfgInt N jf jk jv) M)) ops = .ok (outs empty ops, s) ∧
      ListsOnce (run empty ops) es ∧
      ∀ n, es.length ≤ n → FPTree.iterate (FPTree.cfgInt N jf jk jv) s n = .ok es := by
  obtain ⟨s, e, g, h, _⟩ := FPTree.safe_history (FPTree.flaws_below N jf jk jv) (fun k hk => hk.2) hM hN hq ops _
    empty (init_good _ _ _ _).1 (init_stores _) ha hs
  obtain ⟨es, e1, e2⟩ := FPTree.iterate_good (FPTree.flaws_below N jf jk jv) hM (show 1 ≤ M / 2 by omega) g
    (cont_ne_nil h hne)
  obtain ⟨es', e3, h3⟩ := FPTree.scan_lists (FPTree.flaws_below N jf jk jv) hM g h
  rw [e1] at e3
  cases e3
  exact ⟨s, es, e, h3, e2⟩

/-- C70 for UnsortedPBPTree. -/
theorem C70_unsorted (hN : 3 ≤ N) (hM : 2 ≤ M) (jk : Nat → Int) (jv : Nat → V)
    (ops : List (Op Int V)) (ho : InsertsOnly ops) (ha : NonNeg ops) (hne : ∃ k, run empty ops k ≠ none) :
    ∃ bs s es, UnsortedProps.runs N M jk jv ops = .ok (bs, s) ∧ ListsOnce (run empty ops) es ∧
      scan (Unsorted.uOps (Unsorted.cfgInt N M jk jv)) s = .ok es ∧
      ∀ n, es.length ≤ n → Unsorted.iterate (Unsorted.cfgInt N M jk jv) s n = .ok es := by
  obtain ⟨bs, s, e, g, h⟩ := UnsortedProps.after_inserts hN hM jk jv ops ho ha
  obtain ⟨es, e1, e2⟩ := Unsorted.iterate_good (Unsorted.ulaws_int N M jk jv) hM (show 1 ≤ M / 2 by omega) g
    (cont_ne_nil h hne)
  obtain ⟨es', e3, h3⟩ := Unsorted.scan_lists (Unsorted.ulaws_int N M jk jv) hM g h
  rw [e1] at e3
  cases e3
  exact ⟨bs, s, es, e, h3, e1, e2⟩

/-- C70 for UnsortedPBPTree also after erases that free no leaf in use. -/
theorem C70_unsorted_erases (q : Nat) (hN : N = 2 * q) (hq : 3 ≤ q) (hM : 2 ≤ M) (jk : Nat → Int)
    (jv : Nat → V) (ops : List (Op Int V)) (ha : NonNeg ops) (ho : ErasesPresent empty ops)
    (hs : UnsortedProps.NoEarlyFree (Unsorted.cfgInt N M jk jv)
      (init (Unsorted.uOps (Unsorted.cfgInt N M jk jv))) ops) (hne : ∃ k, run empty ops k ≠ none) :
    ∃ s es, UnsortedProps.runs N M jk jv ops = .ok (outs empty ops, s) ∧ ListsOnce (run empty ops) es ∧
      ∀ n, es.length ≤ n → Unsorted.iterate (Unsorted.cfgInt N M jk jv) s n = .ok es := by
  obtain ⟨s, e, g, h⟩ := Unsorted.safe_history (Unsorted.ulaws_int N M jk jv) hM hN hq ops _ empty
    (init_good _ _ _ _).1 (init_stores _) ha (UnsortedProps.NoEarlyFree.safe ops _ _ hs ho)
  obtain ⟨es, e1, e2⟩ := Unsorted.iterate_good (Unsorted.ulaws_int N M jk jv) hM (show 1 ≤ M / 2 by omega) g
    (cont_ne_nil h hne)
  obtain ⟨es', e3, h3⟩ := Unsorted.scan_lists (Unsorted.ulaws_int N M jk jv) hM g h
  rw [e1] at e3
  cases e3
  exact ⟨s, es, e, h3, e2⟩

/-- Six inserts in no order: two leaves of four slots. -/
def some6 : List (Op Int Nat) :=
  [.insert 7 7, .insert 2 2, .insert 9 9, .insert 4 4, .insert 3 3, .insert 2 20]

set_option maxRecDepth 100000 in
/-- The hypotheses of C70 hold for `some6`, and its result is not trivial. -/
example : InsertsOnly some6 ∧ NonNeg some6 ∧ run empty some6 2 = some 20 ∧
    (execAll (FPTree.fpOps (FPTree.cfgInt 6 (fun _ => 0) (fun _ => 0) (fun _ => 0)) 4)
      (init (FPTree.fpOps (FPTree.cfgInt 6 (fun _ => 0) (fun _ => 0) (fun _ => 0)) 4)) some6 >>= fun r =>
        FPTree.iterate (FPTree.cfgInt 6 (fun _ => 0) (fun _ => 0) (fun _ => 0)) r.2 5) =
      .ok [(3, 3), (2, 20), (4, 4), (7, 7), (9, 9)] ∧
    (UnsortedProps.runs 6 4 (fun _ => 0) (fun _ => 0) some6 >>= fun r =>
        Unsorted.iterate UnsortedProps.c4 r.2 5) = .ok [(2, 20), (4, 4), (3, 3), (7, 7), (9, 9)] := by
  refine ⟨?_, UnsortedProps.nonNeg_of_list (by decide), by decide, by decide +kernel, by decide +kernel⟩
  intro op h
  simp only [some6, List.mem_cons, List.not_mem_nil, or_false] at h
  rcases h with rfl | rfl | rfl | rfl | rfl | rfl <;> exact ⟨_, _, rfl⟩

/-! ## C71 -/

/-- C71 in full, for a tree whose loop with at most `n` rounds is `loop s n`: if the abstract map is empty,
the loop ends without a round. -/
def C71_statement {L : Type} (exec : List (Op Int Nat) → Res (List Bool × State Int L))
    (loop : State Int L → Nat → Res (List (Int × Nat))) : Prop :=
  ∀ ops : List (Op Int Nat), (∀ k, run empty ops k = none) → NonNegBelow ops → ErasesPresent empty ops →
    ∃ bs s n, exec ops = .ok (bs, s) ∧ loop s n = .ok []

/-- The loop of the trees with sorted leaves. -/
def sortedLoop (c : SCfg K V) (s : State K (SLeaf K V)) (n : Nat) : Res (List (K × V)) := do
  let it ← Iter.begin c s
  Iter.run c s.heap n it

/-- C71 is false for all five trees: `begin()` of a new tree is not `end()`, and for an FPTree it throws. -/
theorem C71_refuted (N : Nat) (hM : 2 ≤ M) (jf : Nat → Nat) (jk : Nat → Int) (jv : Nat → Nat) :
    ¬ C71_statement (execAll (BP N M) (init (BP N M))) (sortedLoop (bpCfg N M)) ∧
    ¬ C71_statement (execAll (PB N M) (init (PB N M))) (sortedLoop (pbCfg N M)) ∧
    ¬ C71_statement (execAll (HP N M) (init (HP N M))) (sortedLoop (hpCfg N M)) ∧
    ¬ C71_statement (UnsortedProps.runs N M jk jv) (Unsorted.iterate (Unsorted.cfgInt N M jk jv)) ∧
    ¬ C71_statement (execAll (FPTree.fpOps (FPTree.cfgInt N jf jk jv) M)
      (init (FPTree.fpOps (FPTree.cfgInt N jf jk jv) M))) (FPTree.iterate (FPTree.cfgInt N jf jk jv)) := by
  have h0 : ∀ k, run (empty : Int → Option Nat) [] k = none := fun _ => rfl
  have ha : NonNegBelow ([] : List (Op Int Nat)) := fun k v h => by cases h
  have key : ∀ {c : SCfg Int Nat} (C : CfgLaws c) (hM : 2 ≤ c.M),
      ¬ C71_statement (execAll (sortedOps c) (init (sortedOps c))) (sortedLoop c) := by
    intro c C hM h
    obtain ⟨bs, s, n, e, hl⟩ := h [] h0 ha trivial
    cases e
    obtain ⟨it, e1, e2⟩ := iterate_empty C (show 1 ≤ 1 from le_rfl)
      (init_good (sortedLaws C) 1 1 1).1 (cont_nil (init_good (sortedLaws C) 1 1 1).1 (init_stores _) h0)
    unfold sortedLoop at hl
    rw [e1, Res.ok_bind, e2] at hl
    cases hl
  refine ⟨key (bpLaws hM) hM, key (pbLaws hM) hM, key (hpLaws hM) hM, ?_, ?_⟩
  · intro h
    obtain ⟨bs, s, n, e, hl⟩ := h [] h0 ha trivial
    cases e
    rw [Unsorted.iterate_empty (Unsorted.ulaws_int N M jk jv) hM (show 1 ≤ 1 from le_rfl)
      (init_good _ 1 1 1).1 (cont_nil (init_good _ 1 1 1).1 (init_stores _) h0)] at hl
    cases hl
  · intro h
    obtain ⟨bs, s, n, e, hl⟩ := h [] h0 ha trivial
    cases e
    rw [FPTree.iterate_empty (FPTree.flaws_int N jf jk jv) hM (show 1 ≤ 1 from le_rfl)
      (init_good _ 1 1 1).1 (cont_nil (init_good _ 1 1 1).1 (init_stores _) h0)] at hl
    cases hl

/-- What happens instead, for BPTree, PBPTree and HPBPTree, also if the tree has become empty by erases:
`begin()` succeeds, and the loop always reads memory that is not initialised or not part of the leaf. -/
theorem C71_sorted_ub {c : SCfg K V} (C : CfgLaws c) (q : Nat) (hN : c.N = 2 * q) (hq : 3 ≤ q) (hM : 2 ≤ c.M)
    (ops : List (Op K V)) (ho : ErasesPresent empty ops) (he : ∀ k, run empty ops k = none) :
    ∃ s, execAll (sortedOps c) (init (sortedOps c)) ops = .ok (outs empty ops, s) ∧
      ∀ n, sortedLoop c s n = .ub := by
  obtain ⟨s, e, g, h⟩ := BTreeProps.after_history C hN hq ops ho
  obtain ⟨it, e1, e2⟩ := iterate_empty C (show 1 ≤ c.M / 2 by omega) g (cont_nil g h he)
  refine ⟨s, e, fun n => ?_⟩
  unfold sortedLoop
  rw [e1, Res.ok_bind, e2]

/-- The same for UnsortedPBPTree. -/
theorem C71_unsorted_ub (q : Nat) (hN : N = 2 * q) (hq : 3 ≤ q) (hM : 2 ≤ M) (jk : Nat → Int)
    (jv : Nat → V) (ops : List (Op Int V)) (ha : NonNeg ops) (ho : ErasesPresent empty ops)
    (hs : UnsortedProps.NoEarlyFree (Unsorted.cfgInt N M jk jv)
      (init (Unsorted.uOps (Unsorted.cfgInt N M jk jv))) ops) (he : ∀ k, run empty ops k = none) :
    ∃ s, UnsortedProps.runs N M jk jv ops = .ok (outs empty ops, s) ∧
      ∀ n, Unsorted.iterate (Unsorted.cfgInt N M jk jv) s n = .ub := by
  obtain ⟨s, e, g, h⟩ := Unsorted.safe_history (Unsorted.ulaws_int N M jk jv) hM hN hq ops _ empty
    (init_good _ _ _ _).1 (init_stores _) ha (UnsortedProps.NoEarlyFree.safe ops _ _ hs ho)
  exact ⟨s, e, Unsorted.iterate_empty _ hM (show 1 ≤ M / 2 by omega) g (cont_nil g h he)⟩

/-- An FPTree that is empty throws in `begin()`. -/
theorem C71_fptree_throws (q : Nat) (hN : N = 2 * q) (hq : 3 ≤ q) (hM : 2 ≤ M) (jf : Nat → Nat)
    (jk : Nat → Int) (jv : Nat → V) (ops : List (Op Int V)) (ha : NonNegBelow ops)
    (hs : FPTree.SafeHist (FPTree.cfgInt N jf jk jv) (init (FPTree.fpOps (FPTree.cfgInt N jf jk jv) M)) ops)
    (he : ∀ k, run empty ops k = none) :
    ∃ s, execAll (FPTree.fpOps (FPTree.cfgInt N jf jk jv) M)
        (init (FPTree.fpOps (FPTree.cfgInt N jf jk jv) M)) ops = .ok (outs empty ops, s) ∧
      ∀ n, FPTree.iterate (FPTree.cfgInt N jf jk jv) s n = .throws := by
  obtain ⟨s, e, g, h, _⟩ := FPTree.safe_history (FPTree.flaws_below N jf jk jv) (fun k hk => hk.2) hM hN hq ops _
    empty (init_good _ _ _ _).1 (init_stores _) ha hs
  exact ⟨s, e, FPTree.iterate_empty _ hM (show 1 ≤ M / 2 by omega) g (cont_nil g h he)⟩

/-- C71 in the form that holds: over the trees with sorted leaves, the loop ends normally exactly if the
tree is not empty, and then it yields every stored entry exactly once in order.  Missing: the empty tree. -/
theorem C71_partial {c : SCfg K V} (C : CfgLaws c) (q : Nat) (hN : c.N = 2 * q) (hq : 3 ≤ q) (hM : 2 ≤ c.M)
    (ops : List (Op K V)) (ho : ErasesPresent empty ops) :
    ∃ s, execAll (sortedOps c) (init (sortedOps c)) ops = .ok (outs empty ops, s) ∧
      ((∃ n es, sortedLoop c s n = .ok es) ↔ ∃ k, run empty ops k ≠ none) ∧
      ((∃ k, run empty ops k ≠ none) →
        ∃ es, Lists (run empty ops) es ∧ ∀ n, es.length ≤ n → sortedLoop c s n = .ok es) := by
  obtain ⟨s, e, g, h⟩ := BTreeProps.after_history C hN hq ops ho
  have h2 : (∃ k, run empty ops k ≠ none) →
      ∃ es, Lists (run empty ops) es ∧ ∀ n, es.length ≤ n → sortedLoop c s n = .ok es := by
    intro hne
    obtain ⟨it, es, e1, e2, e3⟩ := BTreeProps.iter_lists C (show 1 ≤ c.M / 2 by omega) g h hne
    refine ⟨es, e3, fun n hn => ?_⟩
    unfold sortedLoop
    rw [e1, Res.ok_bind, e2 n hn]
  refine ⟨s, e, ⟨?_, fun hne => ?_⟩, h2⟩
  · rintro ⟨n, es, hl⟩
    by_contra hne
    obtain ⟨it, e1, e2⟩ := iterate_empty C (show 1 ≤ c.M / 2 by omega) g (cont_nil g h (fun k => by
      by_contra hk; exact hne ⟨k, hk⟩))
    unfold sortedLoop at hl
    rw [e1, Res.ok_bind, e2] at hl
    cases hl
  · obtain ⟨es, _, hn⟩ := h2 hne
    exact ⟨_, es, hn es.length le_rfl⟩

/-- A history that ends with an empty tree. -/
def emptied : List (Op Int Nat) := [.insert 3 3, .insert 1 1, .erase 3, .erase 1]

set_option maxRecDepth 100000 in
example : ErasesPresent empty emptied ∧ NonNegBelow emptied ∧ (∀ k, run empty emptied k = none) ∧
    (execAll (BP 6 4) (init (BP 6 4)) emptied >>= fun r => sortedLoop (bpCfg 6 4) r.2 3) = .ub := by
  refine ⟨?_, ?_, ?_, by decide +kernel⟩
  · simp only [emptied, ErasesPresent, step, empty]; decide
  · intro k v h
    simp only [emptied, List.mem_cons, List.not_mem_nil, or_false, Op.insert.injEq, reduceCtorEq] at h
    omega
  · intro k
    simp only [emptied, run, step, empty]
    repeat' split
    all_goals rfl

end Verif.IterProps
