import Verif.WBTree.Model

/-!
# wBPTree.hpp and wHBPTree.hpp: crashes inside the insert into a leaf and the erase from a leaf

The leaves are in persistent memory and neither tree uses a transaction for an insert.  The assignments of
`insertInLeafNodeAtPosition` and `eraseFromLeafNodeAtPosition` become persistent one after the other in program order; a crash leaves a prefix of
them.  Afterwards the tree is used as it is (`wBPTree` has no recovery of leaves; `wHBPTree::recover` does not
change leaves).  Modelled: trees that consist of one leaf, inserts that do not split it, erases.  A write-back of a
cache line that takes later assignments along is not modelled.
-/

namespace Verif.WBTree

variable {K V : Type} [LinearOrder K] {N M : Nat}

/-- One assignment to a leaf. -/
inductive Write (K V : Type)
  | key (u : Nat) (k : K)
  | val (u : Nat) (v : V)
  /-- `slots[j + 1] = slots[j]`; an indeterminate value may be copied. -/
  | up (j : Nat)
  /-- `slots[j] = slots[j + 1]`; an indeterminate value may be copied. -/
  | down (j : Nat)
  | slot (i x : Nat)
  | bit (u : Nat) (x : Bool)

/-- The effect of one assignment. -/
def Leaf.write (l : Leaf K V M) : Write K V → Res (Leaf K V M)
  | .key u k => do
    let keys ← l.keys.wr M u k
    pure { l with keys := keys }
  | .val u v => do
    let vals ← l.vals.wr M u v
    pure { l with vals := vals }
  | .up j =>
    if j + 1 < M + 1 then .ok { l with slot := fun i => if i = j + 1 then l.slot j else l.slot i } else .ub
  | .down j =>
    if j + 1 < M + 1 then .ok { l with slot := fun i => if i = j then l.slot (j + 1) else l.slot i } else .ub
  | .slot i x => do
    let slot ← l.slot.wr (M + 1) i x
    pure { l with slot := slot }
  | .bit u x => do
    let bits ← l.bits.set u x
    pure { l with bits := bits }

/-- Assignments in sequence. -/
def Leaf.exec : List (Write K V) → Leaf K V M → Res (Leaf K V M)
  | [], l => .ok l
  | w :: ws, l => do
    let l ← l.write w
    exec ws l

/-- wBPTree.hpp:629 / wHBPTree.hpp:638: `for (j = slots[0]; j >= pos; --j) slots[j+1] = slots[j];`, the
first `s` rounds. -/
def shifts (n s : Nat) : List (Write K V) := (List.range s).map fun i => .up (n - i)

/-- wBPTree.hpp:624-633 / wHBPTree.hpp:633-641 `insertInLeafNodeAtPosition`: the assignments in program order for a
leaf with `n` entries.  `wBPTree` (`h = false`) sets the bit before it counts the entry, `wHBPTree` afterwards. -/
def insertWrites (h : Bool) (n p u : Nat) (key : K) (val : V) : List (Write K V) :=
  [.key u key, .val u val] ++ shifts n (n + 1 - p) ++ [.slot p u] ++
    (if h then [.slot 0 (n + 1), .bit u true] else [.bit u true, .slot 0 (n + 1)])

/-- wBPTree.hpp:493-527 / wHBPTree.hpp:506-539 `insertInLeafNode` up to a crash after `c` assignments.  The
split of a full leaf is not covered (`ub`). -/
def Leaf.crashInsert (h : Bool) (c : Nat) (l : Leaf K V M) (key : K) (val : V) : Res (Leaf K V M) := do
  let p ← l.pos key
  let n ← l.slot.rd (M + 1) 0
  let dup ← (if p ≤ n then do
      let s ← l.slot.rd (M + 1) p
      let k ← l.keys.rd M s
      pure (if k = key then some s else none)
    else pure none)
  match dup with
  | some s => Leaf.exec ([.val s val].take c) l
  | none =>
    if n = M then .ub
    else Leaf.exec ((insertWrites h n p l.bits.getFreeZero key val).take c) l

/-- The same for a tree whose root is a leaf. -/
def crashInsert (h : Bool) (c : Nat) (t : Tree K V N M) (key : K) (val : V) : Res (Tree K V N M) := do
  let l ← t.leaf t.root
  let l ← l.crashInsert h c key val
  pure { t with leaves := t.leaves.set t.root l }

/-- wBPTree.hpp:838-840 / wHBPTree.hpp:825-827: `for (i = pos; i < slots[0]+1; ++i) slots[i] = slots[i+1];`, the
first `s` rounds. -/
def downs (p s : Nat) : List (Write K V) := (List.range s).map fun i => .down (p + i)

/-- wBPTree.hpp:837-841 / wHBPTree.hpp:824-828 `eraseFromLeafNodeAtPosition`: the assignments in program order for a
leaf with `n` entries, the entry at slot `p` being at array position `s`. -/
def eraseWrites (n p s : Nat) : List (Write K V) := [.bit s false] ++ downs p (n + 1 - p) ++ [.slot 0 (n - 1)]

/-- wBPTree.hpp:811-846 / wHBPTree.hpp:805-833 `eraseFromLeafNode` up to a crash after `c` assignments. -/
def Leaf.crashErase (c : Nat) (l : Leaf K V M) (key : K) : Res (Leaf K V M) := do
  let p ← l.pos key
  let s ← l.slot.rd (M + 1) p
  let k ← l.keys.rd M s
  if k = key then do
    let n ← l.slot.rd (M + 1) 0
    Leaf.exec ((eraseWrites n p s).take c) l
  else pure l

/-- The same for a tree whose root is a leaf. -/
def crashErase (c : Nat) (t : Tree K V N M) (key : K) : Res (Tree K V N M) := do
  let l ← t.leaf t.root
  let l ← l.crashErase c key
  pure { t with leaves := t.leaves.set t.root l }

end Verif.WBTree
