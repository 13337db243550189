import Verif.BTree.BalCrashFar

/-!
# Property theorem for lookups away from the two branch nodes that are balanced (C131)

The specification is `Verif.MapSpec` and `Verif.CrashSpec`.
-/

set_option linter.unusedSectionVars false

namespace Verif.BTreeProps

open Verif BTree MapSpec Assoc CrashSpec

variable {K V : Type} [LinearOrder K]

/-- C131: only keys whose search comes, at the interrupted level, to the child on the way to `k` or to a direct neighbour of that child
can be lost.  All other lookups are right at every crash point. -/
theorem C131_elsewhere (N M q : Nat) (hN : N = 2 * q) (hq : 3 ≤ q) (hM : 4 ≤ M) (ops : List (Op K V))
    (ho : ErasesPresent empty ops) (k : K) (hk : run empty ops k ≠ none) :
    ∃ s : State K (SLeaf K V), execAll (PB N M) (init (PB N M)) ops = .ok (outs empty ops, s) ∧
      ∀ j t, j + 1 < s.depth → ∃ s', moveErase (PB N M) s k j t = .ok s' ∧
        ∀ x, Away (PB N M) s k j x → lookup (PB N M) s' x = .ok (step (run empty ops) (.erase k) x) := by
  have hM2 : 2 ≤ M := by omega
  obtain ⟨s, e, g, h⟩ := pb_history (K := K) (V := V) N M q hN hq hM2 ops ho
  have hfl : ∀ id l, findLeaf (PB N M : Ops K V _) s.depth s.root k = .ok id → s.heap.data id = some l →
      (sortedErase (pbLaws (K := K) (V := V) (N := N) hM2)).pre l k := by
    intro id l h1 h2
    have hf : find k (cont (sortedLaws (pbLaws (K := K) (V := V) (N := N) hM2)) s) ≠ none := by rw [h k]; exact hk
    obtain ⟨v, hv⟩ := Option.ne_none_iff_exists'.1 (leaf_of_present g hf h1 h2)
    exact ⟨(k, v), Assoc.find_some_mem hv, le_rfl⟩
  have hm : ∀ x, step (run empty ops) (.erase k) x = if x = k then none else find x (cont (sortedLaws (pbLaws (K := K) (V := V) (N := N) hM2)) s) := by
    intro x
    rw [h x]; rfl
  refine ⟨s, e, fun j t hj => ?_⟩
  obtain ⟨s', e', h1⟩ := moveErase_far (sortedErase (pbLaws (K := K) (V := V) (N := N) hM2)) (pb_any N M) (pb_dup N M) (q := q) hN
    (show 2 ≤ q - 1 by omega) le_rfl hM2 (show 1 ≤ M / 2 by omega) le_rfl g.bt g.wf hfl hj t
  exact ⟨s', e', fun x hx => by rw [hm x]; exact h1 x hx⟩

/-- The positions of `k` and `x` in the root, if it is a branch node. -/
def rootPositions (s : State Nat (SLeaf Nat Nat)) (k x : Nat) : Res (Nat × Nat) :=
  match s with
  | ⟨0, _, _⟩ => .assertFail
  | ⟨_ + 1, n, _⟩ => do
    let p ← lookupPos (PB 6 4 : Ops Nat Nat _) n k
    let r ← lookupPos (PB 6 4 : Ops Nat Nat _) n x
    pure (p, r)

theorem rootPositions_away {s : State Nat (SLeaf Nat Nat)} {k x p r : Nat} (h : rootPositions s k x = .ok (p, r)) (hpr : r + 1 < p ∨ p + 1 < r) :
    Away (PB 6 4) s k 0 x := by
  obtain ⟨d, n, hp⟩ := s
  rcases d with _ | d
  · cases h
  · obtain ⟨p', h1, h⟩ := Res.bind_eq_ok.1 h
    obtain ⟨r', h2, h⟩ := Res.bind_eq_ok.1 h
    cases h
    cases d <;> exact ⟨p, r, h1, h2, hpr⟩

/-- A case that meets the hypotheses: the erase of 30 moves entries between the last two branch nodes of five; key 10 is in the second
one.  Its search is away from them, and at every crash point it is found. -/
example : (∃ bs s, execAll (PB 6 4 : Ops Nat Nat _) (init (PB 6 4)) fiveBranches = .ok (bs, s) ∧ Away (PB 6 4) s 30 0 10) ∧
    ∀ t ∈ List.range 16, moveEx fiveBranches 30 t [10] = .ok [.ok (some 10)] := by
  refine ⟨?_, by decide +kernel⟩
  have hd : (execAll (PB 6 4 : Ops Nat Nat _) (init (PB 6 4)) fiveBranches >>= fun r => rootPositions r.2 30 10) = .ok (3, 1) := by
    decide +kernel
  obtain ⟨r, e, hd⟩ := Res.bind_eq_ok.1 hd
  exact ⟨r.1, r.2, e, rootPositions_away hd (by omega)⟩

end Verif.BTreeProps
