import Verif.Res
import Verif.BTree.Arr
import Verif.Bitmap.Model
import Verif.Search.Model

/-!
# wBPTree.hpp and wHBPTree.hpp: insert, lookup and the leaf part of erase

Both trees keep the entries of a node unsorted and sort a slot array: `slot[0]` is the number of
entries and `slot[1..n]` the array positions of the entries in key order.  The leaf code of the two
files and the insert/lookup code of their branch nodes are the same text up to `get_ro()/get_rw()`, so
one model covers both; line numbers are those of wBPTree.hpp, with those of wHBPTree.hpp after a slash.

Simplifications: `uint8_t` slots are natural numbers (wBPTree.hpp:65-66 demands `N, M < 256`, so no
value wraps), the backward pointers between leaves and the persistence of the nodes are left out.  Nodes
live in two heaps indexed by numbers; a child pointer is such a number, its kind is given by the depth.
The constructors initialise `slot[0]` and the bitmap only; the other slots hold `junk`: `none` is an
indeterminate value, `some 0` describes zero-filled memory.
-/

namespace Verif.WBTree

variable {K V : Type} [LinearOrder K]

/-- wBPTree.hpp:119-137 / wHBPTree.hpp:127-145 `LeafNode`. -/
structure Leaf (K V : Type) (M : Nat) where
  slot : Slots Nat
  bits : Bitmap M
  keys : Slots K
  vals : Slots V

/-- wBPTree.hpp:142-158 / wHBPTree.hpp:150-162 `BranchNode`; the rightmost child is `kids[N]`. -/
structure Branch (K : Type) (N : Nat) where
  slot : Slots Nat
  bits : Bitmap N
  keys : Slots K
  kids : Slots Nat

/-- wBPTree.hpp:123 / wHBPTree.hpp:131 constructor of a leaf. -/
def Leaf.fresh (M : Nat) (junk : Option Nat) : Leaf K V M :=
  ⟨fun i => if i = 0 then some 0 else junk, Bitmap.fresh M, Slots.none, Slots.none⟩

/-- wBPTree.hpp:146 / wHBPTree.hpp:154 constructor of a branch node. -/
def Branch.fresh (N : Nat) (junk : Option Nat) : Branch K N :=
  ⟨fun i => if i = 0 then some 0 else junk, Bitmap.fresh N, Slots.none, Slots.none⟩

namespace Leaf

variable {M : Nat}

/-- wBPTree.hpp:779-784 / wHBPTree.hpp:772-777 `lookupPositionInLeafNode`. -/
def pos (l : Leaf K V M) (key : K) : Res Nat := do
  let n ← l.slot.rd (M + 1) 0
  Search.binarySearchSlots false (l.keys.rd M) (l.slot.rd (M + 1)) 1 n key

/-- wBPTree.hpp:364-373 / 354-363: the leaf part of `lookup`. -/
def lookup (l : Leaf K V M) (key : K) : Res (Option V) := do
  let p ← l.pos key
  let n ← l.slot.rd (M + 1) 0
  if p ≤ n then do
    let s ← l.slot.rd (M + 1) p
    let k ← l.keys.rd M s
    if k = key then do
      let v ← l.vals.rd M s
      pure (some v)
    else pure none
  else pure none

/-- wBPTree.hpp:614-635 / wHBPTree.hpp:624-643 `insertInLeafNodeAtPosition`. -/
def insertAt (l : Leaf K V M) (p : Nat) (key : K) (val : V) : Res (Leaf K V M) :=
  if p ≤ M then do
    let u := l.bits.getFreeZero
    let keys ← l.keys.wr M u key
    let vals ← l.vals.wr M u val
    let n ← l.slot.rd (M + 1) 0
    let slot ← Slots.moveUp (M + 1) p 1 (n + 1) l.slot
    let slot ← slot.wr (M + 1) p u
    let n ← slot.rd (M + 1) 0
    let slot ← slot.wr (M + 1) 0 (n + 1)
    let bits ← l.bits.set u true
    pure ⟨slot, bits, keys, vals⟩
  else .assertFail

/-- wBPTree.hpp:555-560 / wHBPTree.hpp:567-572: the loop `for (i = 1; i < sibSlots[0]+1; ++i)` of
`splitLeafNode`; `n` rounds remain. -/
def moveOut (src : Leaf K V M) (middle : Nat) (i : Nat) : Nat → Leaf K V M → Res (Leaf K V M)
  | 0, sib => .ok sib
  | n + 1, sib => do
    let slot ← sib.slot.wr (M + 1) i (i - 1)
    let bits ← sib.bits.set (i - 1) true
    let s ← src.slot.rd (M + 1) (i + middle)
    let k ← src.keys.rd M s
    let keys ← sib.keys.wr M (i - 1) k
    let v ← src.vals.rd M s
    let vals ← sib.vals.wr M (i - 1) v
    moveOut src middle (i + 1) n ⟨slot, bits, keys, vals⟩

/-- wBPTree.hpp:561 / wHBPTree.hpp:573: `for (i = middle; i < M; ++i) nodeBits.reset(nodeSlots[i+1]);`;
`n` rounds remain. -/
def clear (slot : Slots Nat) (i : Nat) : Nat → Bitmap M → Res (Bitmap M)
  | 0, b => .ok b
  | n + 1, b => do
    let s ← slot.rd (M + 1) (i + 1)
    let b ← b.reset s
    clear slot (i + 1) n b

/-- wBPTree.hpp:536-601 / wHBPTree.hpp:548-611 `splitLeafNode`: the shrunk node and the sibling.
The separator `keys[slot[1]]` of the sibling is read here and overwritten by the caller. -/
def split (junk : Option Nat) (l : Leaf K V M) : Res (Leaf K V M × Leaf K V M) := do
  let n ← l.slot.rd (M + 1) 0
  let sib : Leaf K V M := fresh M junk
  let sibSlot ← sib.slot.wr (M + 1) 0 (n - (M + 1) / 2)
  let slot ← l.slot.wr (M + 1) 0 ((M + 1) / 2)
  let sib ← moveOut { l with slot := slot } ((M + 1) / 2) 1 (n - (M + 1) / 2) { sib with slot := sibSlot }
  let bits ← clear slot ((M + 1) / 2) (M - (M + 1) / 2) l.bits
  let s ← sib.slot.rd (M + 1) 1
  let _ ← sib.keys.rd M s
  pure ({ l with slot := slot, bits := bits }, sib)

/-- wBPTree.hpp:493-527 / wHBPTree.hpp:506-539 `insertInLeafNode`: the updated node and, after a split,
the separator with the new sibling. -/
def insert (junk : Option Nat) (l : Leaf K V M) (key : K) (val : V) :
    Res (Leaf K V M × Option (K × Leaf K V M)) := do
  let p ← l.pos key
  let n ← l.slot.rd (M + 1) 0
  let dup ← (if p ≤ n then do
      let s ← l.slot.rd (M + 1) p
      let k ← l.keys.rd M s
      pure (if k = key then some s else none)
    else pure none)
  match dup with
  | some s => do
    let vals ← l.vals.wr M s val
    pure ({ l with vals := vals }, none)
  | none =>
    if n = M then do
      let (left, right) ← split junk l
      let (left, right) ← (if p < (M + 1) / 2 then do
          let left ← left.insertAt p key val
          pure (left, right)
        else do
          let q ← right.pos key
          let right ← right.insertAt q key val
          pure (left, right))
      let s ← right.slot.rd (M + 1) 1
      let sep ← right.keys.rd M s
      pure (left, some (sep, right))
    else do
      let l ← l.insertAt p key val
      pure (l, none)

/-- wBPTree.hpp:838-840 / wHBPTree.hpp:825-827: `for (i = pos; i < slots[0]+1; ++i) slots[i] =
slots[i+1];`.  Copying an indeterminate `uint8_t` is allowed, reading beyond the array is not. -/
def closeGap (cap : Nat) (i : Nat) : Nat → Slots Nat → Res (Slots Nat)
  | 0, a => .ok a
  | n + 1, a =>
    if i + 1 < cap then closeGap cap (i + 1) n (fun j => if j = i then a (i + 1) else a j) else .ub

/-- wBPTree.hpp:811-846 / wHBPTree.hpp:805-833 `eraseFromLeafNode` and `eraseFromLeafNodeAtPosition`. -/
def erase (l : Leaf K V M) (key : K) : Res (Leaf K V M × Bool) := do
  let p ← l.pos key
  let s ← l.slot.rd (M + 1) p
  let k ← l.keys.rd M s
  if k = key then do
    let bits ← l.bits.reset s
    let n ← l.slot.rd (M + 1) 0
    let slot ← closeGap (M + 1) p (n + 1 - p) l.slot
    let slot ← slot.wr (M + 1) 0 (n - 1)
    pure ({ l with slot := slot, bits := bits }, true)
  else pure (l, false)

end Leaf

/-- The members of `wBPTree` (wBPTree.hpp:232-234 / wHBPTree.hpp:223-225) together with the allocated nodes. -/
structure Tree (K V : Type) (N M : Nat) where
  leaves : List (Leaf K V M)
  branches : List (Branch K N)
  root : Nat
  depth : Nat
  /-- `nextLeaf` of each leaf (wBPTree.hpp:132 / wHBPTree.hpp:140); `none` is the null pointer. -/
  next : Nat → Option Nat

variable {N M : Nat}

/-- wBPTree.hpp:307-312 / wHBPTree.hpp:292-296: a tree with one empty leaf. -/
def empty (N M : Nat) (junk : Option Nat) : Tree K V N M := ⟨[Leaf.fresh M junk], [], 0, 0, fun _ => none⟩

/-- Dereferencing a pointer to a leaf. -/
def Tree.leaf (t : Tree K V N M) (a : Nat) : Res (Leaf K V M) := Res.ofOption t.leaves[a]?

/-- Dereferencing a pointer to a branch node. -/
def Tree.branch (t : Tree K V N M) (a : Nat) : Res (Branch K N) := Res.ofOption t.branches[a]?

/-- wBPTree.hpp:797-802 / wHBPTree.hpp:791-796 `lookupPositionInBranchNode`. -/
def Branch.pos (b : Branch K N) (key : K) : Res Nat := do
  let n ← b.slot.rd (N + 1) 0
  Search.binarySearchSlots true (b.keys.rd N) (b.slot.rd (N + 1)) 1 n key

/-- wBPTree.hpp:762-771 / wHBPTree.hpp:755-762 `findLeafNode`: the slot is read at `pos` even when `pos`
is one behind the last used slot. -/
def findLeaf (t : Tree K V N M) (key : K) : Nat → Nat → Res Nat
  | 0, a => .ok a
  | d + 1, a => do
    let b ← t.branch a
    let p ← b.pos key
    let s ← b.slot.rd (N + 1) p
    let c ← b.kids.rd (N + 1) s
    findLeaf t key d c

/-- wBPTree.hpp:362-374 / wHBPTree.hpp:351-364 `lookup`. -/
def lookup (t : Tree K V N M) (key : K) : Res (Option V) := do
  let a ← findLeaf t key t.depth t.root
  let l ← t.leaf a
  l.lookup key

/-- wBPTree.hpp:588-594 / wHBPTree.hpp:599-605: the new sibling `r` enters the list of leaves behind `a`. -/
def linkAfter (next : Nat → Option Nat) (a r : Nat) : Nat → Option Nat :=
  fun j => if j = a then some r else if j = r then next a else next j

/-- `insertInLeafNode` on the leaf at address `a` of the heap; the sibling is allocated at the end. -/
def insertLeaf (junk : Option Nat) (t : Tree K V N M) (a : Nat) (key : K) (val : V) :
    Res (Tree K V N M × Option (K × Nat)) := do
  let l ← t.leaf a
  let (l, sp) ← l.insert junk key val
  match sp with
  | none => pure ({ t with leaves := t.leaves.set a l }, none)
  | some (sep, r) =>
    pure ({ t with leaves := t.leaves.set a l ++ [r], next := linkAfter t.next a t.leaves.length },
      some (sep, t.leaves.length))

/-- wBPTree.hpp:733-739 / wHBPTree.hpp:726-732: the copying loop of `splitBranchNode`, `n` rounds
remain. -/
def Branch.moveOut (src : Branch K N) (middle : Nat) (i : Nat) : Nat → Branch K N → Res (Branch K N)
  | 0, sib => .ok sib
  | n + 1, sib => do
    let slot ← sib.slot.wr (N + 1) (i + 1) i
    let bits ← sib.bits.set i true
    let s ← src.slot.rd (N + 1) (middle + i + 1)
    let k ← src.keys.rd N s
    let keys ← sib.keys.wr N i k
    let c ← src.kids.rd (N + 1) s
    let kids ← sib.kids.wr (N + 1) i c
    Branch.moveOut src middle (i + 1) n ⟨slot, bits, keys, kids⟩

/-- wBPTree.hpp:740 / wHBPTree.hpp:733: `for (i = middle; i <= N; ++i) nodeBits.reset(nodeSlots[i]);`. -/
def Branch.clear (slot : Slots Nat) (i : Nat) : Nat → Bitmap N → Res (Bitmap N)
  | 0, b => .ok b
  | n + 1, b => do
    let s ← slot.rd (N + 1) i
    let b ← b.reset s
    Branch.clear slot (i + 1) n b

/-- wBPTree.hpp:713-753 / wHBPTree.hpp:716-745 `splitBranchNode`: node, separator, sibling. -/
def Branch.split (junk : Option Nat) (b : Branch K N) (splitKey : K) :
    Res (Branch K N × K × Branch K N) := do
  let s ← b.slot.rd (N + 1) ((N + 1) / 2)
  let k ← b.keys.rd N s
  let middle := if k < splitKey then (N + 1) / 2 + 1 else (N + 1) / 2
  let n ← b.slot.rd (N + 1) 0
  let sib : Branch K N := Branch.fresh N junk
  let sibSlot ← sib.slot.wr (N + 1) 0 (n - middle)
  let sib ← Branch.moveOut b middle 0 (n - middle) { sib with slot := sibSlot }
  let bits ← Branch.clear b.slot middle (N + 1 - middle) b.bits
  let slot ← b.slot.wr (N + 1) 0 (middle - 1)
  let c ← b.kids.rd (N + 1) N
  let sibKids ← sib.kids.wr (N + 1) N c
  let s ← slot.rd (N + 1) middle
  let c ← b.kids.rd (N + 1) s
  let kids ← b.kids.wr (N + 1) N c
  let sep ← b.keys.rd N s
  pure (⟨slot, bits, b.keys, kids⟩, sep, { sib with kids := sibKids })

/-- wBPTree.hpp:680-701 / wHBPTree.hpp:686-705: the new separator `sep` with the children `l`, `r`
enters the branch node at position `p`. -/
def Branch.add (b : Branch K N) (p : Nat) (sep : K) (l r : Nat) : Res (Branch K N) := do
  let u := b.bits.getFreeZero
  let keys ← b.keys.wr N u sep
  let kids ← b.kids.wr (N + 1) u l
  let n ← b.slot.rd (N + 1) 0
  let (slot, kids) ← (if p ≤ n then do
      let slot ← Slots.moveUp (N + 1) p 1 (n + 1) b.slot
      let s ← slot.rd (N + 1) (p + 1)
      let kids ← kids.wr (N + 1) s r
      pure (slot, kids)
    else do
      let kids ← kids.wr (N + 1) N r
      pure (b.slot, kids))
  let slot ← slot.wr (N + 1) p u
  let bits ← b.bits.set u true
  let n ← slot.rd (N + 1) 0
  let slot ← slot.wr (N + 1) 0 (n + 1)
  pure ⟨slot, bits, keys, kids⟩

/-- The child the insert descends to, wBPTree.hpp:660, 664-665 / wHBPTree.hpp:665-666, 670-671. -/
def Branch.child (b : Branch K N) (p : Nat) : Res Nat := do
  let n ← b.slot.rd (N + 1) 0
  if p = n + 1 then b.kids.rd (N + 1) N else do
    let s ← b.slot.rd (N + 1) p
    b.kids.rd (N + 1) s

/-- wBPTree.hpp:648-704 / wHBPTree.hpp:656-708 `insertInBranchNode` at depth `d + 1` (depth `0` stands
for `insertInLeafNode`); the new sibling's address is returned with the separator. -/
def insertAux (junk : Option Nat) (key : K) (val : V) :
    Nat → Tree K V N M → Nat → Res (Tree K V N M × Option (K × Nat))
  | 0, t, a => insertLeaf junk t a key val
  | d + 1, t, a => do
    let b ← t.branch a
    let p ← b.pos key
    let c ← b.child p
    let (t, sp) ← insertAux junk key val d t c
    match sp with
    | none => pure (t, none)
    | some (sep, r) => do
      let b ← t.branch a
      let n ← b.slot.rd (N + 1) 0
      if n = N then do
        let (b, up, sib) ← b.split junk sep
        if key < up then do
          let p ← b.pos key
          let b ← b.add p sep c r
          pure ({ t with branches := t.branches.set a b ++ [sib] }, some (up, t.branches.length))
        else do
          let p ← sib.pos key
          let sib ← sib.add p sep c r
          pure ({ t with branches := t.branches.set a b ++ [sib] }, some (up, t.branches.length))
      else do
        let b ← b.add p sep c r
        pure ({ t with branches := t.branches.set a b }, none)

/-- wBPTree.hpp:326-353 / wHBPTree.hpp:314-340 `insert`. -/
def insert (junk : Option Nat) (t : Tree K V N M) (key : K) (val : V) : Res (Tree K V N M) := do
  let (t', sp) ← insertAux junk key val t.depth t t.root
  match sp with
  | none => pure t'
  | some (sep, r) => do
    let b : Branch K N := Branch.fresh N junk
    let keys ← b.keys.wr N 0 sep
    let kids ← b.kids.wr (N + 1) 0 t.root
    let kids ← kids.wr (N + 1) N r
    let slot ← b.slot.wr (N + 1) 1 0
    let bits ← b.bits.set 0 true
    let slot ← slot.wr (N + 1) 0 1
    pure { t' with
      branches := t'.branches ++ [⟨slot, bits, keys, kids⟩]
      root := t'.branches.length
      depth := t.depth + 1 }

/-- A sequence of inserts. -/
def insertAll (junk : Option Nat) : List (K × V) → Tree K V N M → Res (Tree K V N M)
  | [], t => .ok t
  | (k, v) :: xs, t => insert junk t k v >>= insertAll junk xs

end Verif.WBTree
