import Verif.WBTree.Model

/-!
# wBPTree.hpp and wHBPTree.hpp: scan over all entries and the iterator

The tree's list of leaves is walked from the leaf that `children[0]` of each branch node leads to.  A scan
returns the list of the calls of the given function.  The walks are bounded by the number of leaves; a
walk that is longer runs in a circle (`ub`).  `wBPTree::scan` uses the slot array of a leaf,
`wHBPTree::scan` its bitmap; the iterators of the two files are the same text.  Not modelled:
`wBPTree::scan(minKey, maxKey, func)`, which names a member `search` that leaves do not have
(wBPTree.hpp:455-478), and the corresponding function of wHBPTree.
-/

namespace Verif.WBTree

variable {K V : Type} [LinearOrder K] {N M : Nat}

/-- wBPTree.hpp:434-439: the slots `i, i + 1, …` of a leaf, `n` rounds remain. -/
def Leaf.slotEntries (l : Leaf K V M) : Nat → Nat → Res (List (K × V))
  | _, 0 => .ok []
  | i, n + 1 => do
    let s ← l.slot.rd (M + 1) i
    let k ← l.keys.rd M s
    let v ← l.vals.rd M s
    let ys ← slotEntries l (i + 1) n
    pure ((k, v) :: ys)

/-- wBPTree.hpp:433-439: the entries of one leaf in the order of `wBPTree::scan`. -/
def Leaf.scanSlots (l : Leaf K V M) : Res (List (K × V)) := do
  let n ← l.slot.rd (M + 1) 0
  l.slotEntries 1 n

/-- wHBPTree.hpp:450-455: the positions `i, i + 1, …` of a leaf, `n` rounds remain. -/
def Leaf.bitEntries (l : Leaf K V M) : Nat → Nat → Res (List (K × V))
  | _, 0 => .ok []
  | i, n + 1 => do
    let b ← l.bits.test i
    if b then do
      let k ← l.keys.rd M i
      let v ← l.vals.rd M i
      let ys ← bitEntries l (i + 1) n
      pure ((k, v) :: ys)
    else bitEntries l (i + 1) n

/-- wHBPTree.hpp:446-455: the entries of one leaf in the order of `wHBPTree::scan`. -/
def Leaf.scanBits (l : Leaf K V M) : Res (List (K × V)) := l.bitEntries 0 M

/-- wBPTree.hpp:414-417 / wHBPTree.hpp:439-442 (and 253-257 / 243-247 in the iterator): the descent from
the node at address `a` with `d` levels of branch nodes. -/
def leftmost (t : Tree K V N M) : Nat → Nat → Res Nat
  | 0, a => .ok a
  | d + 1, a => do
    let b ← t.branch a
    let c ← b.kids.rd (N + 1) 0
    leftmost t d c

/-- wBPTree.hpp:418-442 / wHBPTree.hpp:443-458: the walk along the list of leaves. -/
def walk (f : Leaf K V M → Res (List (K × V))) (t : Tree K V N M) : Nat → Option Nat → Res (List (K × V))
  | _, none => .ok []
  | 0, some _ => .ub
  | n + 1, some a => do
    let l ← t.leaf a
    let ys ← f l
    let zs ← walk f t n (t.next a)
    pure (ys ++ zs)

/-- wBPTree.hpp:412-443 `wBPTree::scan(func)`. -/
def scan (t : Tree K V N M) : Res (List (K × V)) := do
  let a ← leftmost t t.depth t.root
  walk Leaf.scanSlots t t.leaves.length (some a)

/-- wHBPTree.hpp:437-459 `wHBPTree::scan(func)`. -/
def scanH (t : Tree K V N M) : Res (List (K × V)) := do
  let a ← leftmost t t.depth t.root
  walk Leaf.scanBits t t.leaves.length (some a)

/-- wBPTree.hpp:262, 271 / wHBPTree.hpp:252, 261: `while (!bits.test(pos)) ++pos;`.  Behind the last
position `test` throws. -/
def Leaf.seek (l : Leaf K V M) (p : Nat) : Nat → Res Nat
  | 0 => .throws
  | n + 1 => do
    let b ← l.bits.test p
    if b then pure p else l.seek (p + 1) n

/-- The state of an iterator, wBPTree.hpp:246-247 / wHBPTree.hpp:236-237. -/
abbrev Iter := Option Nat × Nat

/-- wBPTree.hpp:251-263 / wHBPTree.hpp:241-253 `begin()`. -/
def begin (t : Tree K V N M) : Res Iter := do
  let a ← leftmost t t.depth t.root
  let l ← t.leaf a
  let p ← l.seek 0 (M + 1)
  pure (some a, p)

/-- wBPTree.hpp:265-276 / wHBPTree.hpp:255-265 `operator++`; the argument counts the recursive calls, of
which there are less than `M`. -/
def incr (t : Tree K V N M) : Nat → Nat → Nat → Res Iter
  | 0, _, _ => .ub
  | n + 1, a, p =>
    if p ≥ M - 1 then
      match t.next a with
      | none => pure (none, 0)
      | some a' => do
        let l ← t.leaf a'
        let q ← l.seek 0 (M + 1)
        pure (some a', q)
    else do
      let l ← t.leaf a
      let b ← l.bits.test (p + 1)
      if b then pure (some a, p + 1) else incr t n a (p + 1)

/-- `for (; it != end(); ++it)` with `*it` collected (wBPTree.hpp:289-293 / wHBPTree.hpp:275-279); the loop
is bounded by the number of positions of all leaves. -/
def iterLoop (t : Tree K V N M) : Nat → Iter → Res (List (K × V))
  | _, (none, _) => .ok []
  | 0, (some _, _) => .ub
  | n + 1, (some a, p) => do
    let l ← t.leaf a
    let k ← l.keys.rd M p
    let v ← l.vals.rd M p
    let it ← incr t M a p
    let ys ← iterLoop t n it
    pure ((k, v) :: ys)

/-- The loop over all entries from `begin()` to `end()`. -/
def iterate (t : Tree K V N M) : Res (List (K × V)) := do
  let it ← begin t
  iterLoop t (t.leaves.length * M) it

end Verif.WBTree
