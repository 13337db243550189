import Verif.FPTree.Leaf

/-!
# BitHPBPTree.hpp and BitPBPTree.hpp

B+-trees whose nodes keep their entries unsorted and mark the used positions in a bitmap.  In a branch
node `children[u]` holds the keys below `keys[u]` (and not below the next smaller separator);
`children[N]` is the rightmost child.  The two files have the same text up to `get_ro()/get_rw()`,
except for the split of a leaf: BitHPBPTree copies the leaf and flips the bitmap, BitPBPTree moves the
entries.  The flag `move` selects the variant.  Line numbers are those of BitHPBPTree.hpp, with those of
BitPBPTree.hpp after a slash.

Simplifications: leaves live in a list and a pointer to a leaf is an index into it; branch nodes are
values, and a branch node that the code changes in place is replaced by the changed value in its
parent.  `newBranchNode(node)` copies the pointers to the children; the copies at positions whose bit
is not set are not followed by insert, lookup, erase and the range scan.  `scan()` follows `children[0]`
whatever its bit says; at depth 1 that pointer is a leaf index and the model is exact, below that a
stale position would hold an old copy of a branch node, and the model of `scan()` answers `ub` there.
Deleted leaves stay in the list.  Persistence (`PersistEmulation`, transactions) is left out.
-/

namespace Verif.BitTree

open Verif Search FPTree BTree

variable {K V : Type} {M : Nat}

/-- 126-144/124-142 `LeafNode` without the links. -/
structure Leaf (M : Nat) (K V : Type) where
  bits : Bitmap M
  keys : Nat → K
  vals : Nat → V

/-- A leaf with its links `nextLeaf` and `prevLeaf`. -/
structure Cell (M : Nat) (K V : Type) where
  leaf : Leaf M K V
  next : Option Nat
  prev : Option Nat

/-- Template and type parameters, the variant of `splitLeafNode`, and the contents of uninitialised
leaf memory. -/
structure Cfg (K V : Type) where
  N : Nat
  lim : Limits K
  cv : Conv K
  move : Bool
  junkKeys : Nat → K
  junkVals : Nat → V

variable [LinearOrder K] [Inhabited K] (c : Cfg K V)

/-- `LeafNode()`: all bits zero. -/
def Leaf.new (M : Nat) : Leaf M K V := ⟨Bitmap.fresh M, c.junkKeys, c.junkVals⟩

namespace Leaf

/-- 1160-1161/1137-1138: the loop of `lookupPositionInLeafNode` from position `i` on. -/
def posLoop (l : Leaf M K V) (k : K) (i : Nat) : Nat → Res Nat
  | 0 => .ok i
  | n + 1 => do
    let b ← l.bits.test i
    if b then do
      let x ← rdA M l.keys i
      if x = k then pure i else posLoop l k (i + 1) n
    else posLoop l k (i + 1) n

/-- 1154-1163/1131-1140 `lookupPositionInLeafNode`: `M` if the key is not there. -/
def pos (l : Leaf M K V) (k : K) : Res Nat := l.posLoop k 0 M

/-- 358-364/313-319: `lookup` once the leaf has been found. -/
def lookup (l : Leaf M K V) (k : K) : Res (Option V) := do
  let p ← l.pos k
  if p < M then do
    let v ← rdA M l.vals p
    pure (some v)
  else pure none

/-- Writing key and value of position `p` and setting its bit. -/
def fill (l : Leaf M K V) (p : Nat) (k : K) (v : V) : Res (Leaf M K V) := do
  let b ← l.bits.set p
  pure ⟨b, upd l.keys p k, upd l.vals p v⟩

/-- 1015-1025/983-992 `insertInLeafNodeAtPosition`. -/
def insertAt (l : Leaf M K V) (p : Nat) (k : K) (v : V) : Res (Leaf M K V) := do
  Res.assert (p < M)
  l.fill p k v

/-- `findMaxKeyPos(keys, bits)` of SearchFunctions.hpp on a leaf. -/
def maxPos (l : Leaf M K V) : Res Nat := findMaxKeyPosBits c.lim (fun i : Fin M => l.keys i) l.bits

/-- `findMinKeyPos(keys, bits)` of SearchFunctions.hpp on a leaf. -/
def minPos (l : Leaf M K V) : Res Nat := findMinKeyPosBits c.lim (fun i : Fin M => l.keys i) l.bits

/-- BitPBPTree.hpp:945-953: the loop of `splitLeafNode` that moves the keys from the split key on. -/
def moveLoop (sk : K) (node sib : Leaf M K V) (i j : Nat) : Nat → Res (Leaf M K V × Leaf M K V)
  | 0 => .ok (node, sib)
  | n + 1 => do
    let x ← rdA M node.keys i
    if sk ≤ x then do
      let v ← rdA M node.vals i
      let sib ← sib.fill j x v
      let b ← node.bits.reset i
      moveLoop sk { node with bits := b } sib (i + 1) (j + 1) n
    else moveLoop sk node sib (i + 1) j n

/-- BitHPBPTree.hpp:954-966 and 1004 (copy, flipped bitmap), BitPBPTree.hpp:919-954 and 972 (move)
`splitLeafNode` without the links. -/
def split (l : Leaf M K V) : Res (Leaf M K V × Leaf M K V × K) := do
  let r ← findSplitKey c.cv M ⟨M, l.keys⟩
  let sk ← rdA M l.keys r.2
  if c.move then do
    let q ← moveLoop sk l (Leaf.new c M) 0 0 M
    pure (q.1, q.2, sk)
  else pure ({ l with bits := r.1 }, { l with bits := r.1.flip }, sk)

/-- 908-945/873-910 `insertInLeafNode` without the links: the leaf and, after a split, the split key
and the new sibling. -/
def insert (l : Leaf M K V) (k : K) (v : V) : Res (Leaf M K V × Option (K × Leaf M K V)) := do
  let p ← l.pos k
  if p < M then pure ({ l with vals := upd l.vals p v }, none)
  else do
    let u := l.bits.getFreeZero
    if u = M then do
      let (l1, sib, sk) ← l.split c
      if sk < k then do
        let sib ← sib.insertAt sib.bits.getFreeZero k v
        pure (l1, some (sk, sib))
      else do
        let m ← l1.maxPos c
        let km ← rdA M l1.keys m
        if km < k then do
          let sib ← sib.insertAt sib.bits.getFreeZero k v
          pure (l1, some (k, sib))
        else do
          let l2 ← l1.insertAt l1.bits.getFreeZero k v
          pure (l2, some (sk, sib))
    else do
      let l1 ← l.insertAt u k v
      pure (l1, none)

/-- 504-526/438-460 `eraseFromLeafNode`, `eraseFromLeafNodeAtPosition`. -/
def erase (l : Leaf M K V) (k : K) : Res (Leaf M K V × Bool) := do
  let p ← l.pos k
  if p < M then do
    let b ← l.bits.reset p
    pure ({ l with bits := b }, true)
  else pure (l, false)

/-- 443-448/377-382: the entries a full scan reports from one leaf, from position `i` on. -/
def scanLoop (l : Leaf M K V) (i : Nat) : Nat → Res (List (K × V))
  | 0 => .ok []
  | n + 1 => do
    let b ← l.bits.test i
    if b then do
      let x ← rdA M l.keys i
      let v ← rdA M l.vals i
      let r ← scanLoop l (i + 1) n
      pure ((x, v) :: r)
    else scanLoop l (i + 1) n

/-- 472-484/406-418: the loop of the range scan over one leaf.  Line 473/407 skips the positions whose
bit **is** set. -/
def rangeLoop (l : Leaf M K V) (lo hi : K) (i : Nat) (higher : Bool) :
    Nat → Res (List (K × V) × Bool)
  | 0 => .ok ([], higher)
  | n + 1 => do
    let b ← l.bits.test i
    if b then rangeLoop l lo hi (i + 1) higher n
    else do
      let x ← rdA M l.keys i
      if x < lo then rangeLoop l lo hi (i + 1) higher n
      else if hi < x then rangeLoop l lo hi (i + 1) true n
      else do
        let v ← rdA M l.vals i
        let r ← rangeLoop l lo hi (i + 1) higher n
        pure ((x, v) :: r.1, r.2)

end Leaf

/-- The leaves. -/
abbrev Heap (M : Nat) (K V : Type) := List (Cell M K V)

/-- 150-162/148-160 `BranchNode`; `C` is the type of the children, `none` an uninitialised pointer. -/
structure Branch (N : Nat) (K C : Type) where
  bits : Bitmap N
  keys : Nat → K
  kids : Nat → Option C

/-- A subtree of depth `d`: a leaf index or a branch node. -/
def Tree (N : Nat) (K : Type) : Nat → Type
  | 0 => Nat
  | d + 1 => Branch N K (Tree N K d)

namespace Branch

variable {N : Nat} {C : Type}

/-- `newBranchNode()`. -/
def new (N : Nat) (K C : Type) [Inhabited K] : Branch N K C := ⟨Bitmap.fresh N, fun _ => default, fun _ => none⟩

/-- 1142-1144/1118-1120 `lookupPositionInBranchNode`. -/
def pos (lim : Limits K) (b : Branch N K C) (k : K) : Res Nat :=
  findMinKeyPosGreaterThan lim (fun i : Fin N => b.keys i) b.bits k

/-- `children[p]`. -/
def kid (b : Branch N K C) (p : Nat) : Res C := rdA (N + 1) b.kids p >>= Res.ofOption

/-- 1035-1055/1003-1027 `splitBranchNode`: node, sibling, split key. -/
def split (cv : Conv K) (b : Branch N K C) : Res (Branch N K C × Branch N K C × K) := do
  let r ← findSplitKey cv N ⟨N, b.keys⟩
  let sk ← rdA N b.keys r.2
  let b1 ← r.1.reset r.2
  let b2 ← b1.flip.reset r.2
  pure (⟨b1, b.keys, upd b.kids N (b.kids r.2)⟩, ⟨b2, b.keys, b.kids⟩, sk)

/-- 1096-1103/1068-1079: the new separator `s` with `left` before and `right` behind it. -/
def add (lim : Limits K) (b : Branch N K C) (s : K) (left right : C) : Res (Branch N K C) := do
  let u := b.bits.getFreeZero
  let np ← b.pos lim s
  if N ≤ u then .ub
  else do
    let bits ← b.bits.set u
    pure ⟨bits, upd b.keys u s, upd (upd b.kids u (some left)) np (some right)⟩

/-- 1085-1105/1057-1081: insertion of the result of a child split, `key` being the inserted key. -/
def addSplit (lim : Limits K) (cv : Conv K) (b : Branch N K C) (key s : K) (left right : C) :
    Res (Branch N K C × Option (K × Branch N K C)) :=
  if b.bits.count = N then do
    let (b1, b2, sk) ← b.split cv
    if key < sk then do
      let b1 ← b1.add lim s left right
      pure (b1, some (sk, b2))
    else do
      let b2 ← b2.add lim s left right
      pure (b1, some (sk, b2))
  else do
    let b ← b.add lim s left right
    pure (b, none)

end Branch

/-- 993/961: `nextLeaf->prevLeaf = sibling`. -/
def setPrev (h : Heap M K V) (i : Option Nat) (p : Nat) : Res (Heap M K V) :=
  match i with
  | none => .ok h
  | some i => do
    let x ← Res.ofOption h[i]?
    pure (h.set i { x with prev := some p })

/-- 908-945/873-910 with the links of 990-998/959-966: insertion into the leaf `id`. -/
def insLeaf (h : Heap M K V) (id : Nat) (k : K) (v : V) : Res (Heap M K V × Option (K × Nat)) := do
  let x ← Res.ofOption h[id]?
  let (l, sp) ← x.leaf.insert c k v
  match sp with
  | none => pure (h.set id { x with leaf := l }, none)
  | some (s, r) => do
    let h ← setPrev (h.set id { x with leaf := l, next := some h.length }) x.next h.length
    pure (h ++ [⟨r, x.next, some id⟩], some (s, h.length))

/-- 1068-1106/1040-1082 `insertInBranchNode`; depth 0 is `insertInLeafNode`. -/
def ins : (d : Nat) → Heap M K V → Tree c.N K d → K → V →
    Res (Heap M K V × Tree c.N K d × Option (K × Tree c.N K d))
  | 0, h, id, k, v => do
    let r ← insLeaf c h id k v
    pure (r.1, id, r.2)
  | d + 1, h, b, k, v => do
    let p ← Branch.pos c.lim b k
    let ch ← Branch.kid b p
    let r ← ins d h ch k v
    let b1 : Branch c.N K (Tree c.N K d) := { b with kids := upd b.kids p (some r.2.1) }
    match r.2.2 with
    | none => pure (r.1, b1, none)
    | some (s, right) => do
      let q ← b1.addSplit c.lim c.cv k s r.2.1 right
      pure (r.1, q.1, q.2)

/-- 1120-1129/1096-1105 `findLeafNode`. -/
def findLeaf : (d : Nat) → Tree c.N K d → K → Res Nat
  | 0, id, _ => .ok id
  | d + 1, b, k => do
    let p ← Branch.pos c.lim b k
    let ch ← Branch.kid b p
    findLeaf d ch k

/-- The tree object: depth, root, leaves, and `leafList`. -/
structure Store (c : Cfg K V) (M : Nat) where
  depth : Nat
  root : Tree c.N K depth
  heap : Heap M K V
  first : Nat

namespace Store

variable {c}

/-- 301-307/256-262: the constructor. -/
def empty (c : Cfg K V) (M : Nat) : Store c M := ⟨0, (0 : Nat), [⟨Leaf.new c M, none, none⟩], 0⟩

/-- 321-345/275-300 `insert`. -/
def insert (t : Store c M) (k : K) (v : V) : Res (Store c M) := do
  let r ← ins c t.depth t.heap t.root k v
  match r.2.2 with
  | none => pure ⟨t.depth, r.2.1, r.1, t.first⟩
  | some (s, right) => do
    let bits ← (Bitmap.fresh c.N).set 0
    pure ⟨t.depth + 1, (⟨bits, upd (fun _ => default) 0 s,
      upd (upd (fun _ => none) 0 (some r.2.1)) c.N (some right)⟩ : Branch c.N K _), r.1, t.first⟩

/-- 354-365/309-320 `lookup`. -/
def lookup (t : Store c M) (k : K) : Res (Option V) := do
  let id ← findLeaf c t.depth t.root k
  let x ← Res.ofOption t.heap[id]?
  x.leaf.lookup k

/-- 432-436/366-371: the descent of `scan()` through `children[0]`. -/
def firstLeaf (c : Cfg K V) : (d : Nat) → Tree c.N K d → Res Nat
  | 0, id => .ok id
  | 1, b => Branch.kid (C := Nat) b 0
  | d + 2, b => do
    let s ← (Branch.bits b).test 0
    if s then do
      let ch ← Branch.kid b 0
      firstLeaf c (d + 1) ch
    else .ub

/-- 437-451/372-385: the loop over the leaves; a cyclic list (`fuel` runs out) does not return. -/
def scanFrom (h : Heap M K V) : Nat → Option Nat → Res (List (K × V))
  | _, none => .ok []
  | 0, some _ => .ub
  | n + 1, some i => do
    let x ← Res.ofOption h[i]?
    let a ← x.leaf.scanLoop 0 M
    let r ← scanFrom h n x.next
    pure (a ++ r)

/-- 430-452/364-386 `scan(func)`: the pairs `func` is called with, in order. -/
def scan (t : Store c M) : Res (List (K × V)) := do
  let i ← firstLeaf c t.depth t.root
  scanFrom t.heap t.heap.length (some i)

/-- 466-487/400-421: the loop of the range scan over the leaves. -/
def rangeFrom (h : Heap M K V) (lo hi : K) : Nat → Bool → Option Nat → Res (List (K × V))
  | _, true, _ => .ok []
  | _, _, none => .ok []
  | 0, _, some _ => .ub
  | n + 1, false, some i => do
    let x ← Res.ofOption h[i]?
    let a ← x.leaf.rangeLoop lo hi 0 false M
    let r ← rangeFrom h lo hi n a.2 x.next
    pure (a.1 ++ r)

/-- 462-488/396-422 `scan(minKey, maxKey, func)`. -/
def range (t : Store c M) (lo hi : K) : Res (List (K × V)) := do
  let i ← findLeaf c t.depth t.root lo
  rangeFrom t.heap lo hi t.heap.length false (some i)

end Store

end Verif.BitTree
