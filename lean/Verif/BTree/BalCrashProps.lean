import Verif.BTree.BalCrashSpec
import Verif.BTree.JoinCrashProps

/-!
# Property theorems for crashes while two branch nodes are merged or balanced in an erase of PBPTree (C131, C132)

The specification is `Verif.MapSpec` and `Verif.CrashSpec`.
-/

set_option linter.unusedSectionVars false

namespace Verif.BTreeProps

open Verif BTree MapSpec Assoc CrashSpec

variable {K V : Type} [LinearOrder K]

theorem pb_any (N M : Nat) : AnySearch (PB N M : Ops K V _) := anySearch_binary rfl

theorem pb_move (N M q : Nat) (hN : N = 2 * q) (hq : 3 ≤ q) (hM : 4 ≤ M) (ops : List (Op K V))
    (ho : ErasesPresent empty ops) (k : K) (hk : run empty ops k ≠ none) :
    ∃ s : State K (SLeaf K V), execAll (PB N M) (init (PB N M)) ops = .ok (outs empty ops, s) ∧
      ∀ j t, j + 1 < s.depth → ∃ s', moveErase (PB N M) s k j t = .ok s' ∧
        (∀ x, lookup (PB N M) s' x = .ok none ∨ lookup (PB N M) s' x = .ok (step (run empty ops) (.erase k) x)) ∧
        ((4 * N ≤ t ∨ ∃ num p keys y r, Joins (PB N M) s k j num p keys y r) →
          Reads (lookup (PB N M) s') (step (run empty ops) (.erase k))) := by
  have hM2 : 2 ≤ M := by omega
  obtain ⟨s, e, g, h⟩ := pb_history (K := K) (V := V) N M q hN hq hM2 ops ho
  have hfl : ∀ id l, findLeaf (PB N M : Ops K V _) s.depth s.root k = .ok id → s.heap.data id = some l →
      (sortedErase (pbLaws (K := K) (V := V) (N := N) hM2)).pre l k := by
    intro id l h1 h2
    have hf : find k (cont (sortedLaws (pbLaws (K := K) (V := V) (N := N) hM2)) s) ≠ none := by rw [h k]; exact hk
    obtain ⟨v, hv⟩ := Option.ne_none_iff_exists'.1 (leaf_of_present g hf h1 h2)
    exact ⟨(k, v), Assoc.find_some_mem hv, le_rfl⟩
  have hN' : (PB N M : Ops K V _).N = 2 * q := hN
  have hm : ∀ x, step (run empty ops) (.erase k) x = if x = k then none else find x (cont (sortedLaws (pbLaws (K := K) (V := V) (N := N) hM2)) s) := by
    intro x
    rw [h x]; rfl
  refine ⟨s, e, fun j t hj => ?_⟩
  obtain ⟨s', e', h1, h2⟩ := moveErase_spec (sortedErase (pbLaws (K := K) (V := V) (N := N) hM2)) (pb_any N M) (pb_dup N M) hN'
    (show 2 ≤ q - 1 by omega) le_rfl hM2 (show 1 ≤ M / 2 by omega) le_rfl g.bt g.wf hfl hj t
  refine ⟨s', e', fun x => ?_, fun hc x => ?_⟩
  · rw [hm x]; exact h1 x
  · rw [hm x]; exact h2 hc x

/-! ## C131 -/

/-- C131 in full: an erase is interrupted after any number of assignments of `balanceBranchNodes` or `mergeBranchNodes`.  Every lookup
gives the value before or the value after the erase. -/
def C131_statement (K V : Type) [LinearOrder K] (N M : Nat) : Prop :=
  ∀ (ops : List (Op K V)) (k : K), ErasesPresent empty ops → run empty ops k ≠ none →
    ∀ bs s, execAll (PB N M) (init (PB N M)) ops = .ok (bs, s) → ∀ j t, j + 1 < s.depth →
      ∃ s', moveErase (PB N M) s k j t = .ok s' ∧
        ∀ x, lookup (PB N M) s' x = .ok (run empty ops x) ∨ lookup (PB N M) s' x = .ok (step (run empty ops) (.erase k) x)

/-- C131: at every crash point every lookup gives the value after the erase or nothing; it reads no empty slot, follows no dangling
pointer and gives no wrong value.  When all assignments are done, all lookups are right.
Missing: the keys that are not found in between (`C131_refuted`, `C131_refuted_left`). -/
theorem C131_balance_crash_partial (N M q : Nat) (hN : N = 2 * q) (hq : 3 ≤ q) (hM : 4 ≤ M) (ops : List (Op K V))
    (ho : ErasesPresent empty ops) (k : K) (hk : run empty ops k ≠ none) :
    ∃ s : State K (SLeaf K V), execAll (PB N M) (init (PB N M)) ops = .ok (outs empty ops, s) ∧
      ∀ j t, j + 1 < s.depth → ∃ s', moveErase (PB N M) s k j t = .ok s' ∧
        (∀ x, lookup (PB N M) s' x = .ok none ∨ lookup (PB N M) s' x = .ok (step (run empty ops) (.erase k) x)) ∧
        (4 * N ≤ t → Reads (lookup (PB N M) s') (step (run empty ops) (.erase k))) := by
  obtain ⟨s, e, h⟩ := pb_move N M q hN hq hM ops ho k hk
  refine ⟨s, e, fun j t hj => ?_⟩
  obtain ⟨s', e', h1, h2⟩ := h j t hj
  exact ⟨s', e', h1, fun ht => h2 (.inl ht)⟩

/-- Lookups after `ops` and a crash after `t` assignments of the underflow below the root in the erase of `k`. -/
def moveEx (ops : List (Op Nat Nat)) (k t : Nat) (xs : List Nat) : Res (List (Res (Option Nat))) := do
  let r ← execAll (PB 6 4 : Ops Nat Nat _) (init (PB 6 4)) ops
  let s ← moveErase (PB 6 4) r.2 k 0 t
  pure (xs.map (lookup (PB 6 4) s))

/-- A case that meets the hypotheses: in the tree of five branch nodes the erase of 30 moves two children from the last branch node to
the one before.  The lookups of 29, 30, 33, 35, 37, 41 and 43 after `t` assignments. -/
example : ([6, 7, 8, 10, 11, 12, 13, 14].map fun t => moveEx fiveBranches 30 t [29, 30, 33, 35, 37, 41, 43]) =
    [.ok [.ok (some 29), .ok none, .ok (some 33), .ok (some 35), .ok (some 37), .ok (some 41), .ok (some 43)],
     .ok [.ok (some 29), .ok none, .ok (some 33), .ok none, .ok none, .ok (some 41), .ok (some 43)],
     .ok [.ok (some 29), .ok none, .ok none, .ok none, .ok (some 37), .ok (some 41), .ok (some 43)],
     .ok [.ok (some 29), .ok none, .ok none, .ok none, .ok (some 37), .ok (some 41), .ok (some 43)],
     .ok [.ok (some 29), .ok none, .ok none, .ok none, .ok (some 37), .ok none, .ok none],
     .ok [.ok (some 29), .ok none, .ok none, .ok none, .ok (some 37), .ok (some 41), .ok none],
     .ok [.ok (some 29), .ok none, .ok none, .ok none, .ok (some 37), .ok (some 41), .ok (some 43)],
     .ok [.ok (some 29), .ok none, .ok (some 33), .ok (some 35), .ok (some 37), .ok (some 41), .ok (some 43)]] := by
  decide +kernel

/-- After eight assignments key 33, stored before and after the erase of 30, is not found. -/
theorem C131_refuted : ¬ C131_statement Nat Nat 6 4 := by
  intro h
  have hd : (execAll (PB 6 4 : Ops Nat Nat _) (init (PB 6 4)) fiveBranches >>= fun r => moveErase (PB 6 4) r.2 30 0 8 >>= fun s =>
      (if 1 < r.2.depth then lookup (PB 6 4) s 33 else .assertFail)) = .ok none := by decide +kernel
  obtain ⟨r, e, hd⟩ := Res.bind_eq_ok.1 hd
  obtain ⟨s, e2, hd⟩ := Res.bind_eq_ok.1 hd
  by_cases hdep : 1 < r.2.depth
  · rw [if_pos hdep] at hd
    obtain ⟨s', q1, q2⟩ := h fiveBranches 30 fiveBranches_erases (by decide +kernel) r.1 r.2 e 0 8 hdep
    obtain rfl : s' = s := Res.ok.inj (q1.symm.trans e2)
    have := q2 33
    rw [hd] at this
    revert this
    decide +kernel
  · rw [if_neg hdep] at hd
    cases hd

/-- 30 inserts in descending order. -/
def descending : List (Op Nat Nat) := (List.range 30).map (fun k => .insert (30 - k) (30 - k))

/-- The same with a donor on the left: the erase of 18 moves children from the branch node before, and after seven assignments the keys 15, 19
and 21 are not found. -/
theorem C131_refuted_left : moveEx descending 18 7 [14, 15, 19, 21, 23] =
    .ok [.ok (some 14), .ok none, .ok none, .ok none, .ok (some 23)] := by decide +kernel

/-! ## C132 -/

/-- C132: an erase that merges two branch nodes, interrupted after any number of assignments of `mergeBranchNodes` (before the deletion
of the empty node): all lookups are right. -/
theorem C132_merge_crash (N M q : Nat) (hN : N = 2 * q) (hq : 3 ≤ q) (hM : 4 ≤ M) (ops : List (Op K V))
    (ho : ErasesPresent empty ops) (k : K) (hk : run empty ops k ≠ none) :
    ∃ s : State K (SLeaf K V), execAll (PB N M) (init (PB N M)) ops = .ok (outs empty ops, s) ∧
      ∀ j num p keys y r, j + 1 < s.depth → Joins (PB N M) s k j num p keys y r → ∀ t,
        ∃ s', moveErase (PB N M) s k j t = .ok s' ∧ Reads (lookup (PB N M) s') (step (run empty ops) (.erase k)) := by
  obtain ⟨s, e, h⟩ := pb_move N M q hN hq hM ops ho k hk
  refine ⟨s, e, fun j num p keys y r hj hs t => ?_⟩
  obtain ⟨s', e', _, h2⟩ := h j t hj
  exact ⟨s', e', h2 (.inr ⟨num, p, keys, y, r, hs⟩)⟩

/-- The hypotheses are met: the erase of 1 merges the branch nodes of 1..8 and 9..16; the lookups of 1, 2, 10 and 18 after `t`
assignments. -/
example : (∃ bs s keys, execAll (PB 6 4 : Ops Nat Nat _) (init (PB 6 4)) fiveBranches = .ok (bs, s) ∧ 1 < s.depth ∧
    Joins (PB 6 4) s 1 0 4 0 keys 10 1) ∧
    ∀ t ∈ [0, 1, 2, 5, 6, 7, 8, 9, 10], moveEx fiveBranches 1 t [1, 2, 10, 18] = .ok [.ok none, .ok (some 2), .ok (some 10), .ok (some 18)] := by
  refine ⟨?_, by decide +kernel⟩
  have hd : (execAll (PB 6 4 : Ops Nat Nat _) (init (PB 6 4)) fiveBranches >>= fun r => joinProbe r.2 1 10) = .ok (4, some 0, 1) := by
    decide +kernel
  obtain ⟨r, e, hd⟩ := Res.bind_eq_ok.1 hd
  obtain ⟨h1, keys, h2⟩ := joinProbe_joins hd
  exact ⟨r.1, r.2, keys, e, h1, h2⟩

end Verif.BTreeProps
