import Verif.BTree.BalCrashScan

/-!
# Property theorems for scans after an interrupted erase of PBPTree (C134)

The specification is `Verif.MapSpec`.
-/

set_option linter.unusedSectionVars false

namespace Verif.BTreeProps

open Verif BTree MapSpec Assoc

variable {K V : Type} [LinearOrder K]

/-! ## C134 -/

/-- C134: an erase is interrupted in the branch nodes, at any level, after any number of assignments: while two branch nodes are balanced or
merged (`moveErase`), or while the node above is updated after a merge (`joinErase`).  Then a scan lists exactly the entries after the erase,
in order, although lookups may lose keys or follow dangling pointers (C130, C131). -/
theorem C134_scan_crash (N M q : Nat) (hN : N = 2 * q) (hq : 3 ≤ q) (hM : 4 ≤ M) (ops : List (Op K V))
    (ho : ErasesPresent empty ops) (k : K) (hk : run empty ops k ≠ none) :
    ∃ s : State K (SLeaf K V), execAll (PB N M) (init (PB N M)) ops = .ok (outs empty ops, s) ∧
      ∃ es, Lists (step (run empty ops) (.erase k)) es ∧ ∀ j t, j + 1 < s.depth →
        (∃ s', moveErase (PB N M) s k j t = .ok s' ∧ scan (PB N M) s' = .ok es) ∧
        ∃ s', joinErase (PB N M) s k j t = .ok s' ∧ scan (PB N M) s' = .ok es := by
  have hM2 : 2 ≤ M := by omega
  obtain ⟨s, e, g, h⟩ := pb_history (K := K) (V := V) N M q hN hq hM2 ops ho
  have hfl : ∀ id l, findLeaf (PB N M : Ops K V _) s.depth s.root k = .ok id → s.heap.data id = some l →
      (sortedErase (pbLaws (K := K) (V := V) (N := N) hM2)).pre l k := by
    intro id l h1 h2
    have hf : find k (cont (sortedLaws (pbLaws (K := K) (V := V) (N := N) hM2)) s) ≠ none := by rw [h k]; exact hk
    obtain ⟨v, hv⟩ := Option.ne_none_iff_exists'.1 (leaf_of_present g hf h1 h2)
    exact ⟨(k, v), Assoc.find_some_mem hv, le_rfl⟩
  obtain ⟨s1, _, g1, c1, _⟩ := erase_good_head (sortedErase (pbLaws (K := K) (V := V) (N := N) hM2)) (q := q) hN hq hM2 g
    (g.bt.frame (fun _ _ _ _ => trivial) (fun _ _ => rfl)) k hfl
  have hl : Lists (step (run empty ops) (.erase k)) (remove k (cont (sortedLaws (pbLaws (K := K) (V := V) (N := N) hM2)) s)) := by
    rw [← c1]
    exact Stores.lists g1 (h.erase c1)
  refine ⟨s, e, _, hl, fun j t hj => ⟨?_, ?_⟩⟩
  · exact moveErase_scan (sortedErase (pbLaws (K := K) (V := V) (N := N) hM2)) (sortedScan _) rfl (pb_any N M) (pb_dup N M) (q := q) hN
      (show 2 ≤ q - 1 by omega) le_rfl hM2 (show 1 ≤ M / 2 by omega) le_rfl g.bt g.wf hfl hj t
  · exact joinErase_scan (sortedErase (pbLaws (K := K) (V := V) (N := N) hM2)) (sortedScan _) rfl (pb_dup N M) (q := q) hN
      (show 2 ≤ q - 1 by omega) le_rfl hM2 (show 1 ≤ M / 2 by omega) le_rfl g.bt g.wf hfl hj t

/-- The scan and a lookup of `x` after `ops` and a crash after `t` assignments below the root in the erase of `k`. -/
def scanEx (f : State Nat (SLeaf Nat Nat) → Nat → Nat → Nat → Res (State Nat (SLeaf Nat Nat))) (ops : List (Op Nat Nat)) (k t x : Nat) :
    Res (List Nat × Res (Option Nat)) := do
  let r ← execAll (PB 6 4 : Ops Nat Nat _) (init (PB 6 4)) ops
  let s ← f r.2 k 0 t
  let es ← scan (PB 6 4) s
  pure (es.map Prod.fst, lookup (PB 6 4) s x)

/-- Cases that meet the hypotheses.  In the erase of 30 a lookup does not find 33 after eight assignments of the balance.  In the erase of 1
a lookup of 10 follows the pointer to the deleted node.  The scan lists all the other keys of 1 to 45 in both. -/
example : scanEx (moveErase (PB 6 4)) fiveBranches 30 8 33 = .ok (((List.range 46).drop 1).filter (· ≠ 30), .ok none) ∧
    scanEx (joinErase (PB 6 4)) fiveBranches 1 0 10 = .ok ((List.range 46).drop 2, .ub) :=
  ⟨by decide +kernel, by decide +kernel⟩

end Verif.BTreeProps
