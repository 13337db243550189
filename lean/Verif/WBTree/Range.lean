import Verif.WBTree.Scan

/-!
# wHBPTree.hpp: range scan

`wBPTree::scan(minKey, maxKey, func)` does not compile (see `Scan.lean`).  The walk is bounded as in `Scan.lean`.
-/

namespace Verif.WBTree

variable {K V : Type} [LinearOrder K] {N M : Nat}

/-- wHBPTree.hpp:478-485: the positions `i, i + 1, …` of a leaf, `n` rounds remain; the calls of the function and
the new value of `higherThanMax`, if it is set. -/
def Leaf.rangeEntries (l : Leaf K V M) (lo hi : K) : Nat → Nat → Res (List (K × V) × Bool)
  | _, 0 => .ok ([], false)
  | i, n + 1 => do
    let b ← l.bits.test i
    if b then do
      let k ← l.keys.rd M i
      if k < lo then rangeEntries l lo hi (i + 1) n
      else if hi < k then do
        let r ← rangeEntries l lo hi (i + 1) n
        pure (r.1, true)
      else do
        let v ← l.vals.rd M i
        let r ← rangeEntries l lo hi (i + 1) n
        pure ((k, v) :: r.1, r.2)
    else rangeEntries l lo hi (i + 1) n

/-- wHBPTree.hpp:471-488: the walk along the list of leaves. -/
def rangeWalk (t : Tree K V N M) (lo hi : K) : Nat → Option Nat → Res (List (K × V))
  | _, none => .ok []
  | 0, some _ => .ub
  | n + 1, some a => do
    let l ← t.leaf a
    let r ← l.rangeEntries lo hi 0 M
    if r.2 then pure r.1
    else do
      let zs ← rangeWalk t lo hi n (t.next a)
      pure (r.1 ++ zs)

/-- wHBPTree.hpp:468-489 `wHBPTree::scan(minKey, maxKey, func)`. -/
def rangeScan (t : Tree K V N M) (lo hi : K) : Res (List (K × V)) := do
  let a ← findLeaf t lo t.depth t.root
  rangeWalk t lo hi t.leaves.length (some a)

end Verif.WBTree
