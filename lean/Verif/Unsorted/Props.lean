import Verif.Unsorted.Step
import Verif.FPTree.Props

/-!
# Property theorems for UnsortedPBPTree (C44, C56, C57)

The specification is `Verif.MapSpec`.  `UnsortedPBPTree<int, V, N, M>` is `uOps (cfgInt N M jk jv)`; `jk` and
`jv` are the contents of uninitialised leaf arrays.
-/

set_option linter.unusedSectionVars false

namespace Verif.UnsortedProps

open Search BTree Unsorted Assoc MapSpec FPTreeProps

variable {V : Type} {N M : Nat}

/-- The tree after a history. -/
abbrev runs (N M : Nat) (jk : Nat → Int) (jv : Nat → V) (ops : List (Op Int V)) :
    Res (List Bool × State Int (ULeaf Int V)) :=
  Unsorted.execAll (uOps (cfgInt N M jk jv)) (init (uOps (cfgInt N M jk jv))) ops

/-! ## C44 -/

/-- C44 in full: after any history of inserts and erases of present non-negative keys, all results of
`erase` and all lookups are those of the abstract map. -/
def C44_statement (N M : Nat) (jk : Nat → Int) (jv : Nat → Nat) : Prop :=
  ∀ ops : List (Op Int Nat), NonNeg ops → ErasesPresent empty ops →
    ∃ s, runs N M jk jv ops = .ok (outs empty ops, s) ∧
      ∀ k, lookup (uOps (cfgInt N M jk jv)) s k = .ok (run empty ops k)

/-- Three leaves {1, 2}, {3, 4}, {5, 6, 7}; erasing 1 merges the first two and frees the third. -/
def badMerge : List (Op Int Nat) :=
  [.insert 1 1, .insert 2 2, .insert 3 3, .insert 4 4, .insert 5 5, .insert 6 6, .insert 7 7, .erase 1]

/-- The tree of the examples. -/
abbrev c4 : UCfg Int Nat := cfgInt 6 4 (fun _ => 0) (fun _ => 0)

theorem nonNeg_of_list {ops : List (Op Int V)}
    (h : ops.all (fun | .insert k _ => decide (0 ≤ k ∧ k < 2 ^ 31) | .erase _ => true) = true) : NonNeg ops := by
  intro k v hm
  have := List.all_eq_true.1 h _ hm
  simpa using this

set_option maxRecDepth 100000 in
/-- C44 is false: inserting 1 to 7 and erasing 1 makes the lookup of 5 read a freed leaf. -/
theorem C44_refuted : ¬ C44_statement 6 4 (fun _ => 0) (fun _ => 0) := by
  intro h
  obtain ⟨s, e, hl⟩ := h badMerge (nonNeg_of_list (by decide)) (by
    simp only [badMerge, ErasesPresent, step, empty]; decide)
  have hd : (runs 6 4 (fun _ => 0) (fun _ => 0) badMerge >>= fun r => lookup (uOps c4) r.2 5) = .ub := by
    decide +kernel
  rw [e, Res.ok_bind] at hd
  have := hl 5
  rw [hd] at this
  cases this

/-- No erase of the history merges the first child of a branch node with its right sibling although there
is a leaf behind that one. -/
def NoEarlyFree (c : UCfg Int V) : State Int (ULeaf Int V) → List (Op Int V) → Prop
  | _, [] => True
  | s, .insert k v :: ops => ∀ s', BTree.insert (uOps c) s k v = .ok s' → NoEarlyFree c s' ops
  | s, .erase k :: ops => SafeMerge (uOps c) s k ∧
    ∀ b s', Unsorted.erase (uOps c) s k = .ok (b, s') → NoEarlyFree c s' ops

theorem NoEarlyFree.safe {c : UCfg Int V} : ∀ (ops : List (Op Int V)) (s : State Int (ULeaf Int V))
    (m : Int → Option V), NoEarlyFree c s ops → ErasesPresent m ops → SafeHist c s m ops
  | [], _, _, _, _ => trivial
  | .insert _ _ :: ops, _, _, h, ho => fun s' e => NoEarlyFree.safe ops s' _ (h s' e) ho
  | .erase _ :: ops, _, _, h, ho => ⟨h.1, fun hn => absurd hn ho.1, fun b s' e => NoEarlyFree.safe ops s' _ (h.2 b s' e) ho.2⟩

/-- The converse direction, to check the hypothesis on examples. -/
theorem NoEarlyFree.of_safe {c : UCfg Int V} : ∀ (ops : List (Op Int V)) (s : State Int (ULeaf Int V))
    (m : Int → Option V), SafeHist c s m ops → NoEarlyFree c s ops
  | [], _, _, _ => trivial
  | .insert _ _ :: ops, _, _, h => fun s' e => NoEarlyFree.of_safe ops s' _ (h s' e)
  | .erase _ :: ops, _, _, h => ⟨h.1, fun b s' e => NoEarlyFree.of_safe ops s' _ (h.2.2 b s' e)⟩

/-- C44 for histories in which no erase merges a first child with its right sibling while there is a leaf
behind that one.  Missing: the other histories, for which the claim is false (`C44_refuted`). -/
theorem C44_partial (q : Nat) (hN : N = 2 * q) (hq : 3 ≤ q) (hM : 2 ≤ M) (jk : Nat → Int) (jv : Nat → V)
    (ops : List (Op Int V)) (ha : NonNeg ops) (ho : ErasesPresent empty ops)
    (hs : NoEarlyFree (cfgInt N M jk jv) (init (uOps (cfgInt N M jk jv))) ops) :
    ∃ s, runs N M jk jv ops = .ok (outs empty ops, s) ∧
      ∀ k, lookup (uOps (cfgInt N M jk jv)) s k = .ok (run empty ops k) := by
  obtain ⟨s, e, g, h⟩ := Unsorted.safe_history (ulaws_int N M jk jv) hM hN hq ops _ empty
    (init_good _ _ _ _).1 (init_stores _) ha (NoEarlyFree.safe ops _ _ hs ho)
  exact ⟨s, e, fun k => h.lookup g k⟩

/-- The lemma behind C44 and C56 for inserts. -/
theorem after_inserts (hN : 3 ≤ N) (hM : 2 ≤ M) (jk : Nat → Int) (jv : Nat → V)
    (ops : List (Op Int V)) (ho : InsertsOnly ops) (ha : NonNeg ops) :
    ∃ bs s, runs N M jk jv ops = .ok (bs, s) ∧
      Good (uLaws (ulaws_int N M jk jv) hM) (M / 2) ((N - 1) / 2) 1 s ∧
      Stores (uLaws (ulaws_int N M jk jv) hM) s (run empty ops) := by
  rw [runs, execAll_inserts ops _ ho]
  exact inserts_good (W := uLaws (ulaws_int N M jk jv) hM) (show M / 2 ≤ M / 2 from le_rfl)
    (show (N - 1) / 2 ≤ (N - 1) / 2 from le_rfl) (show 2 ≤ N by omega) le_rfl ops _ _
    (init_good _ _ _ _).1 (init_stores _) ho ha

/-- C44 for inserts and lookups: no operation fails and every lookup gives the last inserted value. -/
theorem C44_inserts_partial (hN : 3 ≤ N) (hM : 2 ≤ M) (jk : Nat → Int) (jv : Nat → V)
    (ops : List (Op Int V)) (ho : InsertsOnly ops) (ha : NonNeg ops) :
    ∃ bs s, runs N M jk jv ops = .ok (bs, s) ∧
      ∀ k, lookup (uOps (cfgInt N M jk jv)) s k = .ok (run empty ops k) := by
  obtain ⟨bs, s, e, g, h⟩ := after_inserts hN hM jk jv ops ho ha
  exact ⟨bs, s, e, fun k => h.lookup g k⟩

/-- A history that splits a leaf, balances leaves in both directions, merges to the right (the last leaf)
and to the left, and erases the root. -/
def goodHist : List (Op Int Nat) :=
  [.insert 1 1, .insert 2 2, .insert 3 3, .insert 4 4, .insert 5 5, .erase 1, .erase 2, .insert 8 8,
   .insert 9 9, .insert 10 10, .erase 5, .erase 10, .insert 3 30, .erase 9]

set_option maxRecDepth 100000 in
example : NonNeg goodHist ∧ ErasesPresent empty goodHist ∧ NoEarlyFree c4 (init (uOps c4)) goodHist ∧
    run empty goodHist 3 = some 30 ∧ run empty goodHist 5 = none ∧ run empty goodHist 8 = some 8 := by
  refine ⟨nonNeg_of_list (by decide), ?_, ?_, by decide, by decide, by decide⟩
  · simp only [goodHist, ErasesPresent, step, empty]; decide
  · exact NoEarlyFree.of_safe _ _ empty (Unsorted.safe_of_check _ _ _ (by decide +kernel))

/-! ## C56 -/

/-- C56. After any sequence of inserts of non-negative keys, `scan` reports every stored entry exactly once
and nothing else. -/
theorem C56_scan (hN : 3 ≤ N) (hM : 2 ≤ M) (jk : Nat → Int) (jv : Nat → V)
    (ops : List (Op Int V)) (ho : InsertsOnly ops) (ha : NonNeg ops) :
    ∃ bs s es, runs N M jk jv ops = .ok (bs, s) ∧ scan (uOps (cfgInt N M jk jv)) s = .ok es ∧
      ListsOnce (run empty ops) es := by
  obtain ⟨bs, s, e, g, h⟩ := after_inserts hN hM jk jv ops ho ha
  obtain ⟨es, e', hl⟩ := Unsorted.scan_lists (ulaws_int N M jk jv) hM g h
  exact ⟨bs, s, es, e, e', hl⟩

/-- C56 also after erases that free no leaf in use. -/
theorem C56_scan_after_erases (q : Nat) (hN : N = 2 * q) (hq : 3 ≤ q) (hM : 2 ≤ M) (jk : Nat → Int)
    (jv : Nat → V) (ops : List (Op Int V)) (ha : NonNeg ops) (ho : ErasesPresent empty ops)
    (hs : NoEarlyFree (cfgInt N M jk jv) (init (uOps (cfgInt N M jk jv))) ops) :
    ∃ bs s es, runs N M jk jv ops = .ok (bs, s) ∧ scan (uOps (cfgInt N M jk jv)) s = .ok es ∧
      ListsOnce (run empty ops) es := by
  obtain ⟨s, e, g, h⟩ := Unsorted.safe_history (ulaws_int N M jk jv) hM hN hq ops _ empty
    (init_good _ _ _ _).1 (init_stores _) ha (NoEarlyFree.safe ops _ _ hs ho)
  obtain ⟨es, e', hl⟩ := Unsorted.scan_lists (ulaws_int N M jk jv) hM g h
  exact ⟨_, s, es, e, e', hl⟩

/-- Inserts in no order, two leaves; the entries come leaf by leaf in slot order. -/
def someInserts : List (Op Int Nat) := [.insert 7 7, .insert 2 2, .insert 9 9, .insert 4 4, .insert 3 3, .insert 2 20]

set_option maxRecDepth 100000 in
example : InsertsOnly someInserts ∧ NonNeg someInserts ∧
    (runs 6 4 (fun _ => 0) (fun _ => 0) someInserts >>= fun r => scan (uOps c4) r.2) =
      .ok [(2, 20), (4, 4), (3, 3), (7, 7), (9, 9)] := by
  refine ⟨?_, nonNeg_of_list (by decide), by decide +kernel⟩
  intro op h
  simp only [someInserts, List.mem_cons, List.not_mem_nil, or_false] at h
  rcases h with rfl | rfl | rfl | rfl | rfl | rfl <;> exact ⟨_, _, rfl⟩

/-! ## C57 -/

/-- C57 in full: after any history of inserts of non-negative keys, erasing an absent key returns `false`
and changes no lookup. -/
def C57_statement (N M : Nat) (jk : Nat → Int) (jv : Nat → Nat) : Prop :=
  ∀ (ops : List (Op Int Nat)) (k : Int), NonNeg ops → ErasesPresent empty ops → run empty ops k = none →
    ∀ bs s, runs N M jk jv ops = .ok (bs, s) →
      ∃ s', Unsorted.erase (uOps (cfgInt N M jk jv)) s k = .ok (false, s') ∧
        ∀ x, lookup (uOps (cfgInt N M jk jv)) s' x = lookup (uOps (cfgInt N M jk jv)) s x

/-- Erasing 2 leaves it in the slot behind the last entry. -/
def staleSlot : List (Op Int Nat) := [.insert 1 1, .insert 2 2, .erase 2]

set_option maxRecDepth 100000 in
/-- C57 is false: erasing 2 a second time returns `true` and removes key 1. -/
theorem C57_refuted : ¬ C57_statement 6 4 (fun _ => 0) (fun _ => 0) := by
  intro h
  have hd : (runs 6 4 (fun _ => 0) (fun _ => 0) staleSlot >>= fun r =>
      Unsorted.erase (uOps c4) r.2 2 >>= fun r => lookup (uOps c4) r.2 1 >>= fun x => pure (r.1, x)) =
      .ok (true, none) := by decide +kernel
  obtain ⟨r, e, hd⟩ := Res.bind_eq_ok.1 hd
  obtain ⟨s', e', _⟩ := h staleSlot 2 (nonNeg_of_list (by decide))
    (by simp only [staleSlot, ErasesPresent, step, empty]; decide) (by decide) r.1 r.2 e
  obtain ⟨r', e'', hd⟩ := Res.bind_eq_ok.1 hd
  rw [e'] at e''
  have e'' := Res.ok.inj e''
  subst e''
  obtain ⟨x, _, hd⟩ := Res.bind_eq_ok.1 hd
  cases Res.ok.inj hd

set_option maxRecDepth 100000 in
/-- C57 fails in a second way: in a full leaf the slot that is compared does not exist. -/
theorem C57_refuted_full_leaf : (runs 6 4 (fun _ => 0) (fun _ => 0)
      [.insert 1 1, .insert 2 2, .insert 3 3, .insert 4 4] >>= fun r =>
      Unsorted.erase (uOps c4) r.2 9 >>= fun r => pure r.1) = .ub := by
  decide +kernel

/-- C57 for absent keys whose leaf has a free slot and holds another key in the first free slot, and
histories of such erases.  Missing: full leaves and stale slots that hold the key, for which the claim is
false (`C57_refuted`, `C57_refuted_full_leaf`). -/
theorem C57_partial (q : Nat) (hN : N = 2 * q) (hq : 3 ≤ q) (hM : 2 ≤ M) (jk : Nat → Int) (jv : Nat → V)
    (ops : List (Op Int V)) (k : Int) (ha : NonNeg ops)
    (hs : SafeHist (cfgInt N M jk jv) (init (uOps (cfgInt N M jk jv))) empty ops)
    (hk : run empty ops k = none) :
    ∃ bs s, runs N M jk jv ops = .ok (bs, s) ∧
      (SafeMerge (uOps (cfgInt N M jk jv)) s k → SafeSlot (cfgInt N M jk jv) s k →
        ∃ s', Unsorted.erase (uOps (cfgInt N M jk jv)) s k = .ok (false, s') ∧
          ∀ x, lookup (uOps (cfgInt N M jk jv)) s' x = lookup (uOps (cfgInt N M jk jv)) s x) := by
  obtain ⟨s, e, g, h⟩ := Unsorted.safe_history (ulaws_int N M jk jv) hM hN hq ops _ empty
    (init_good _ _ _ _).1 (init_stores _) ha hs
  refine ⟨_, s, e, fun h1 h2 => ?_⟩
  have hf := h k
  rw [hk] at hf
  obtain ⟨s', e', g', c'⟩ := Unsorted.erase_safe (ulaws_int N M jk jv) hM hN hq g k h1 (fun _ => h2)
  rw [hf] at e'
  rw [remove_eq_self (find_eq_none.1 hf)] at c'
  refine ⟨s', e', fun x => ?_⟩
  rw [lookup_good g', lookup_good g, c']

/-- A history with an erase of an absent key (2, after which slot 1 of the leaf holds 1) and one more absent
key to which the theorem applies. -/
def absentHist : List (Op Int Nat) := [.insert 2 2, .insert 1 1, .erase 2, .erase 7, .insert 4 4]

set_option maxRecDepth 100000 in
example : NonNeg absentHist ∧ SafeHist c4 (init (uOps c4)) empty absentHist ∧ run empty absentHist 7 = none ∧
    run empty absentHist 4 = some 4 ∧
    (runs 6 4 (fun _ => 0) (fun _ => 0) absentHist >>= fun r =>
      pure (freesNext (uOps c4) r.2.depth r.2.heap r.2.root 7, checkSlot c4 r.2 7)) = .ok (false, true) := by
  refine ⟨nonNeg_of_list (by decide), Unsorted.safe_of_check _ _ _ (by decide +kernel), by decide, by decide,
    by decide +kernel⟩

end Verif.UnsortedProps
