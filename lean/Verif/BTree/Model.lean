import Verif.BTree.Arr
import Mathlib.Order.Defs.LinearOrder

/-!
# Model of the B+ trees

BPTree.hpp, PBPTree.hpp, HPBPTree.hpp and FPTree.hpp (src/pbptrees) share the same code for branch
nodes, up to the search function inside a branch node; they differ in the layout of leaf nodes.  This
file models the shared part once, over an abstract leaf layout (`Ops`); the four layouts are in
`Verif.BTree.Sorted` and `Verif.FPTree`.  Line numbers below are of BPTree.hpp unless another file is
named; the corresponding lines of the other files are given at the instances.

Simplifications:
* A branch node is reachable through exactly one pointer, so a tree of branch nodes is an (immutable)
  tree value; an update in place through a pointer is a write of the new child into the `children`
  array of its parent.  Leaf nodes live in a heap, because they also point to each other.
* The tree is typed by its height (`Tree K d`), as the C++ code interprets untyped pointers by the
  `depth` counter.
* Loops that move keys and children (or keys and values) in lock step are two loops, one per array.
* Allocation never fails and persistent-memory flushes have no effect on the values.
* `size_t`/`unsigned` counters are natural numbers; where the code subtracts, the models say so.
-/

namespace Verif.BTree

open Verif

variable {K V L α : Type}

/-- BPTree.hpp:1083-1095 `BranchNode` (PBPTree.hpp:1262ff, HPBPTree.hpp and FPTree.hpp `BranchNode`):
`numKeys`, `keys[N]`, `children[N+1]`. -/
structure BNode (K α : Type) where
  num : Nat
  keys : Slots K
  kids : Slots α

/-- A tree with `d` levels of branch nodes above the leaf level; a leaf is given by its address. -/
@[reducible] def Tree (K : Type) : Nat → Type
  | 0 => Nat
  | d + 1 => BNode K (Tree K d)

/-- All leaf nodes: their entries (`none`: not allocated or freed), the links to the neighbours
(`nextLeaf`, `prevLeaf`; `none` is `nullptr`) and the next address the allocator hands out. -/
structure Heap (L : Type) where
  data : Nat → Option L
  next : Nat → Option Nat
  prev : Nat → Option Nat
  fresh : Nat

/-- Point update of a function. -/
def upd {β : Type} (f : Nat → β) (i : Nat) (v : β) : Nat → β := fun j => if j = i then v else f j

/-- Result of inserting into a leaf: done, or the leaf had to be split into two with a separator. -/
inductive LeafIns (K L : Type) where
  | done (l : L)
  | split (l r : L) (key : K)

/-- The leaf layout and the parameters of a tree class. -/
structure Ops (K V L : Type) where
  /-- capacity of a branch node (template parameter `N`) -/
  N : Nat
  /-- capacity of a leaf node (template parameter `M`) -/
  M : Nat
  /-- `lookupPositionInBranchNode`, given how to read `keys[i]` and `numKeys` -/
  search : (Nat → Res K) → Nat → K → Res Nat
  /-- a leaf node as constructed -/
  empty : L
  /-- number of entries of a leaf -/
  num : L → Nat
  /-- lookup inside a leaf -/
  lookup : L → K → Res (Option V)
  /-- `insertInLeafNode` without the pointer updates -/
  insert : L → K → V → Res (LeafIns K L)
  /-- `eraseFromLeafNode` -/
  erase : L → K → Res (Bool × L)
  /-- `mergeLeafNodes` without the pointer updates -/
  merge : L → L → Res L
  /-- `balanceLeafNodes(donor, receiver)`: the new donor and receiver -/
  balance : L → L → Res (L × L)
  /-- the key written into the parent after rebalancing -/
  minKey : L → Res K
  /-- the entries in the order in which `scan` visits them -/
  scan : L → Res (List (K × V))
  /-- the entries visited by a range scan in this leaf and whether the scan ends here -/
  rangeScan : L → K → K → Res (List (K × V) × Bool)

section
variable [LinearOrder K] (o : Ops K V L)

/-! ## Leaf nodes in the heap -/

/-- Dereference of a leaf pointer. -/
def Heap.get (h : Heap L) (id : Nat) : Res L := Res.ofOption (h.data id)

/-- In-place update of the entries of a leaf. -/
def Heap.set (h : Heap L) (id : Nat) (l : L) : Heap L := { h with data := upd h.data id (some l) }

/-- `deleteLeafNode` (1035-1041). -/
def Heap.free (h : Heap L) (id : Nat) : Heap L := { h with data := upd h.data id none }

/-- `newLeafNode` (1027-1033) with the given entries: links are `nullptr` (1068). -/
def Heap.alloc (h : Heap L) (l : L) : Heap L × Nat :=
  ({ data := upd h.data h.fresh (some l), next := upd h.next h.fresh none,
     prev := upd h.prev h.fresh none, fresh := h.fresh + 1 }, h.fresh)

/-- 817-823: linking the new leaf `new` behind `id`. -/
def linkAfter (h : Heap L) (id new : Nat) : Res (Heap L) :=
  match h.next id with
  | none => .ok { h with next := upd h.next id (some new), prev := upd h.prev new (some id) }
  | some x => do
    let _ ← h.get x
    let next1 := upd h.next new (some x)
    let prev1 := upd h.prev x (some new)
    pure { h with next := upd next1 id (some new), prev := upd prev1 new (some id) }

/-- 787-833 `insertInLeafNode`: the second component is `some (key, right)` after a split. -/
def insertLeaf (h : Heap L) (id : Nat) (k : K) (v : V) : Res (Heap L × Option (K × Nat)) := do
  let l ← h.get id
  let r ← o.insert l k v
  match r with
  | .done l' => pure (h.set id l', none)
  | .split a b s => do
    let h := h.set id a
    let n := h.alloc b
    let h ← linkAfter n.1 id n.2
    pure (h, some (s, n.2))

/-! ## Insert -/

/-- 988-997 `lookupPositionInBranchNode`. -/
def lookupPos (n : BNode K α) (k : K) : Res Nat := o.search (fun i => Slots.rd o.N n.keys i) n.num k

/-- The two halves of a split branch node and the separator between them. -/
structure Split (K α : Type) where
  left : α
  key : K
  right : α

/-- 871-891 `splitBranchNode`. -/
def splitBranch (n : BNode K α) (splitKey : K) : Res (Split K (BNode K α)) := do
  let km ← Slots.rd o.N n.keys ((o.N + 1) / 2)
  let m := if km < splitKey then (o.N + 1) / 2 + 1 else (o.N + 1) / 2
  let keys ← Slots.copy o.N n.keys m 0 (n.num - m) Slots.none
  let kids ← Slots.copy (o.N + 1) n.kids m 0 (n.num - m) Slots.none
  let last ← Slots.rd (o.N + 1) n.kids n.num
  let kids ← Slots.wr (o.N + 1) kids (n.num - m) last
  let key ← Slots.rd o.N n.keys (m - 1)
  pure { left := { n with num := m - 1 }, key := key, right := ⟨n.num - m, keys, kids⟩ }

/-- 929-936: make room for a new entry in a branch node. -/
def makeRoom (n : BNode K α) (pos : Nat) : Res (BNode K α) :=
  if pos < n.num then do
    let last ← Slots.rd (o.N + 1) n.kids n.num
    let kids ← Slots.wr (o.N + 1) n.kids (n.num + 1) last
    let kids ← Slots.moveUp (o.N + 1) pos 1 n.num kids
    let keys ← Slots.moveUp o.N pos 1 n.num n.keys
    pure { n with keys := keys, kids := kids }
  else .ok n

/-- 929-942: add the entry for a split child to a branch node with free space. -/
def addEntry (n : BNode K α) (pos : Nat) (key : K) (l r : α) : Res (BNode K α) := do
  let n ← makeRoom o n pos
  let keys ← Slots.wr o.N n.keys pos key
  let kids ← Slots.wr (o.N + 1) n.kids pos l
  let kids ← Slots.wr (o.N + 1) kids (pos + 1) r
  pure { num := n.num + 1, keys := keys, kids := kids }

/-- Result of an insert into a subtree: the subtree and, after a split, separator and right half. -/
structure InsOut (K L T : Type) where
  heap : Heap L
  tree : T
  split : Option (K × T)

/-- 914-948: what happens to a branch node after its child at `pos` has been split into `l` and `r`. -/
def insertEntry (h : Heap L) (n : BNode K α) (pos : Nat) (k s : K) (l r : α) :
    Res (InsOut K L (BNode K α)) :=
  if n.num = o.N then do
    let sp ← splitBranch o n s
    if k < sp.key then do
      let pos ← lookupPos o sp.left k
      let host ← addEntry o sp.left pos s l r
      pure ⟨h, host, some (sp.key, sp.right)⟩
    else do
      let pos ← lookupPos o sp.right k
      let host ← addEntry o sp.right pos s l r
      pure ⟨h, sp.left, some (sp.key, host)⟩
  else do
    let host ← addEntry o n pos s l r
    pure ⟨h, host, none⟩

/-- 904-950 `insertInBranchNode` and, for `d = 0`, 787-833 `insertInLeafNode`. -/
def insertT : (d : Nat) → Heap L → Tree K d → K → V → Res (InsOut K L (Tree K d))
  | 0, h, id, k, v => do
    let r ← insertLeaf o h id k v
    pure ⟨r.1, id, r.2⟩
  | d + 1, h, n, k, v => do
    let pos ← lookupPos o n k
    let c ← Slots.rd (o.N + 1) n.kids pos
    let r ← insertT d h c k v
    let kids ← Slots.wr (o.N + 1) n.kids pos r.tree
    let n := { n with kids := kids }
    match r.split with
    | none => pure ⟨r.heap, n, none⟩
    | some sr => insertEntry o r.heap n pos k sr.1 r.tree sr.2

/-- The whole tree: `depth`, `rootNode` (102-104) and the leaves. -/
structure State (K L : Type) where
  depth : Nat
  root : Tree K depth
  heap : Heap L

/-- 166-170: the constructor. -/
def init : State K L :=
  let n := (Heap.mk (fun _ => none) (fun _ => none) (fun _ => none) 0).alloc o.empty
  ⟨0, n.2, n.1⟩

/-- 202-211: a new root above a split root. -/
def newRoot (l : α) (key : K) (r : α) : Res (BNode K α) := do
  let keys ← Slots.wr o.N Slots.none 0 key
  let kids ← Slots.wr (o.N + 1) Slots.none 0 l
  let kids ← Slots.wr (o.N + 1) kids 1 r
  pure ⟨1, keys, kids⟩

/-- 189-212 `insert`. -/
def insert (s : State K L) (k : K) (v : V) : Res (State K L) := do
  let r ← insertT o s.depth s.heap s.root k v
  match r.split with
  | none => pure ⟨s.depth, r.tree, r.heap⟩
  | some sr => do
    let root ← newRoot o r.tree sr.1 sr.2
    pure ⟨s.depth + 1, root, r.heap⟩

/-! ## Lookup and scans -/

/-- 964-974 `findLeafNode`. -/
def findLeaf : (d : Nat) → Tree K d → K → Res Nat
  | 0, id, _ => .ok id
  | d + 1, n, k => do
    let pos ← lookupPos o n k
    let c ← Slots.rd (o.N + 1) n.kids pos
    findLeaf d c k

/-- 223-234 `lookup`. -/
def lookup (s : State K L) (k : K) : Res (Option V) := do
  let id ← findLeaf o s.depth s.root k
  let l ← s.heap.get id
  o.lookup l k

/-- 275-282: the leftmost leaf. -/
def leftmost : (d : Nat) → Tree K d → Res Nat
  | 0, id => .ok id
  | d + 1, n => do
    let c ← Slots.rd (o.N + 1) n.kids 0
    leftmost d c

/-- 284-293: visit all leaves from `cur` on; `fuel` bounds the number of leaves (an endless chain
is `ub`). -/
def scanLoop (h : Heap L) : Nat → Option Nat → Res (List (K × V))
  | _, none => .ok []
  | 0, some _ => .ub
  | fuel + 1, some id => do
    let l ← h.get id
    let es ← o.scan l
    let rest ← scanLoop h fuel (h.next id)
    pure (es ++ rest)

/-- 274-294 `scan(func)`: the entries for which `func` is called, in order. -/
def scan (s : State K L) : Res (List (K × V)) := do
  let id ← leftmost o s.depth s.root
  scanLoop o s.heap s.heap.fresh (some id)

/-- 307-319: the loop of the range scan. -/
def rangeLoop (h : Heap L) (lo hi : K) : Nat → Option Nat → Res (List (K × V))
  | _, none => .ok []
  | 0, some _ => .ub
  | fuel + 1, some id => do
    let l ← h.get id
    let r ← o.rangeScan l lo hi
    if r.2 then pure r.1
    else do
      let rest ← rangeLoop h lo hi fuel (h.next id)
      pure (r.1 ++ rest)

/-- 304-320 `scan(minKey, maxKey, func)`. -/
def rangeScan (s : State K L) (lo hi : K) : Res (List (K × V)) := do
  let id ← findLeaf o s.depth s.root lo
  rangeLoop o s.heap lo hi s.heap.fresh (some id)

/-! ## Erase -/

/-- 336-347 `eraseFromLeafNode`. -/
def eraseLeaf (h : Heap L) (id : Nat) (k : K) : Res (Bool × Heap L) := do
  let l ← h.get id
  let r ← o.erase l k
  pure (r.1, h.set id r.2)

/-- 418-433 `mergeLeafNodes(node1, node2)` followed by `deleteLeafNode(node2)` (382, 388). -/
def mergeLeaf (h : Heap L) (id1 id2 : Nat) : Res (Heap L) := do
  let l1 ← h.get id1
  let l2 ← h.get id2
  let c ← o.merge l1 l2
  let h1 := h.set id1 c
  let h2 := { h1 with next := upd h1.next id1 (h1.next id2) }
  match h.next id2 with
  | none => pure (h2.free id2)
  | some x => do
    let _ ← h2.get x
    pure (({ h2 with prev := upd h2.prev x (some id1) } : Heap L).free id2)

/-- 444-481 `balanceLeafNodes(donor, receiver)`. -/
def balanceLeaf (h : Heap L) (donor receiver : Nat) : Res (Heap L) := do
  let d ← h.get donor
  let r ← h.get receiver
  let b ← o.balance d r
  pure ((h.set donor b.1).set receiver b.2)

/-- Result of an operation on a branch node that may also replace the root (`rootNode = ..; depth--`). -/
structure EOut (L β T : Type) where
  deleted : Bool
  heap : Heap L
  node : β
  newRoot : Option T

/-- `leaf->prevLeaf` and the number of its entries, if `pos > 0` (366). -/
def leftSib (h : Heap L) (pos id : Nat) : Res (Nat × Nat) :=
  if pos > 0 then do
    let p ← Res.ofOption (h.prev id)
    let l ← h.get p
    pure (p, o.num l)
  else .ok (0, 0)

/-- `leaf->nextLeaf` and the number of its entries, if `pos < numKeys` (370). -/
def rightSib (h : Heap L) (num pos id : Nat) : Res (Nat × Nat) :=
  if pos < num then do
    let p ← Res.ofOption (h.next id)
    let l ← h.get p
    pure (p, o.num l)
  else .ok (0, 0)

/-- 390-407: after a merge, remove the child behind `pos` (or replace the root). -/
def dropChild (h : Heap L) (n : BNode K Nat) (pos survivor : Nat) : Res (EOut L (BNode K Nat) Nat) :=
  if n.num > 1 then do
    let p := if pos > 0 then pos - 1 else pos
    let keys ← Slots.moveDown o.N 1 p (n.num - 1 - p) n.keys
    let kids ← Slots.moveDown (o.N + 1) 1 (p + 1) (n.num - 1 - p) n.kids
    let kids ← Slots.wr (o.N + 1) kids p survivor
    pure ⟨true, h, ⟨n.num - 1, keys, kids⟩, none⟩
  else .ok ⟨true, h, n, some survivor⟩

/-- 360-408 `underflowAtLeafLevel(node, pos, leaf)`. -/
def underflowLeaf (h : Heap L) (n : BNode K Nat) (pos id : Nat) : Res (EOut L (BNode K Nat) Nat) := do
  Res.assert (pos ≤ n.num)
  let ls ← leftSib o h pos id
  if pos > 0 ∧ (o.M + 1) / 2 < ls.2 then do
    let h ← balanceLeaf o h ls.1 id
    let l ← h.get id
    let k ← o.minKey l
    let keys ← Slots.wr o.N n.keys (pos - 1) k
    pure ⟨true, h, { n with keys := keys }, none⟩
  else do
    let rs ← rightSib o h n.num pos id
    if pos < n.num ∧ (o.M + 1) / 2 < rs.2 then do
      let h ← balanceLeaf o h rs.1 id
      let l ← h.get rs.1
      let k ← o.minKey l
      let keys ← Slots.wr o.N n.keys pos k
      pure ⟨true, h, { n with keys := keys }, none⟩
    else if pos > 0 ∧ ls.2 ≤ (o.M + 1) / 2 then do
      let h ← mergeLeaf o h ls.1 id
      dropChild o h n pos ls.1
    else if pos < n.num ∧ rs.2 ≤ (o.M + 1) / 2 then do
      let h ← mergeLeaf o h id rs.1
      dropChild o h n pos id
    else .assertFail

/-- 495-518: one leaf-level step of `eraseFromBranchNode` (`d == 1`). -/
def eraseB0 (h : Heap L) (n : BNode K Nat) (k : K) : Res (EOut L (BNode K Nat) Nat) := do
  let pos ← lookupPos o n k
  let id ← Slots.rd (o.N + 1) n.kids pos
  let r ← eraseLeaf o h id k
  let l ← r.2.get id
  if o.num l < (o.M + 1) / 2 then do
    let u ← underflowLeaf o r.2 n pos id
    pure { u with deleted := r.1 }
  else pure ⟨r.1, r.2, n, none⟩

/-- 539-553 `mergeBranchNodes(sibling, key, node)`: the new `sibling`. -/
def mergeBranch (sib : BNode K α) (key : K) (n : BNode K α) : Res (BNode K α) := do
  let k0 ← Slots.rd o.N n.keys 0
  Res.assert (key ≤ k0)
  Res.guardUB (1 ≤ sib.num)
  let kl ← Slots.rd o.N sib.keys (sib.num - 1)
  Res.assert (kl < key)
  let keys ← Slots.wr o.N sib.keys sib.num key
  let c0 ← Slots.rd (o.N + 1) n.kids 0
  let kids ← Slots.wr (o.N + 1) sib.kids (sib.num + 1) c0
  let keys ← Slots.copy o.N n.keys 0 (sib.num + 1) n.num keys
  let kids ← Slots.copy (o.N + 1) n.kids 1 (sib.num + 2) n.num kids
  pure ⟨sib.num + n.num + 1, keys, kids⟩

/-- Result of `balanceBranchNodes`: both nodes and the new separator in the parent. -/
structure Bal (K α : Type) where
  donor : α
  receiver : α
  key : K

/-- 651-710 `balanceBranchNodes(donor, receiver, parent, pos)`; `pk` is `parent->keys[pos]`.
The assertion `parent->numKeys > pos` is in `underflowBranch`. -/
def balanceBranch (d r : BNode K α) (pk : K) : Res (Bal K (BNode K α)) := do
  Res.assert (r.num < d.num)
  let balanced := (d.num + r.num) / 2
  let toMove := d.num - balanced
  if toMove = 0 then pure ⟨d, r, pk⟩
  else do
    let dk0 ← Slots.rd o.N d.keys 0
    let rk0 ← Slots.rd o.N r.keys 0
    if dk0 < rk0 then do
      -- to a node with larger keys
      let last ← Slots.rd (o.N + 1) r.kids r.num
      let kids ← Slots.wr (o.N + 1) r.kids (r.num + toMove) last
      let keys ← Slots.moveUp o.N 0 toMove r.num r.keys
      let kids ← Slots.moveUp (o.N + 1) 0 toMove r.num kids
      let kids ← Slots.copy (o.N + 1) d.kids (d.num - toMove + 1) 0 toMove kids
      let keys ← Slots.copy o.N d.keys (d.num - toMove + 1) 0 (toMove - 1) keys
      let keys ← Slots.wr o.N keys (toMove - 1) pk
      let key ← Slots.rd o.N d.keys (d.num - toMove)
      pure ⟨{ d with num := d.num - toMove }, ⟨r.num + toMove, keys, kids⟩, key⟩
    else do
      -- to a node with smaller keys
      let kids ← Slots.copy (o.N + 1) d.kids 0 (r.num + 1) toMove r.kids
      let keys ← Slots.copy o.N d.keys 0 (r.num + 1) toMove r.keys
      let keys ← Slots.wr o.N keys r.num pk
      let key ← Slots.rd o.N d.keys (toMove - 1)
      let dkeys ← Slots.moveDown o.N toMove 0 (d.num - toMove) d.keys
      let dkids ← Slots.moveDown (o.N + 1) toMove 0 (d.num - toMove) d.kids
      let last ← Slots.rd (o.N + 1) dkids d.num
      let dkids ← Slots.wr (o.N + 1) dkids (d.num - toMove) last
      pure ⟨⟨d.num - toMove, dkeys, dkids⟩, ⟨r.num + toMove, keys, kids⟩, key⟩

/-- `numKeys` of the branch child at `pos`, if the condition holds (574-576, 583-586, 597-604). -/
def childNum (c : Prop) [Decidable c] (n : BNode K (BNode K α)) (pos : Nat) : Res Nat :=
  if c then do
    let b ← Slots.rd (o.N + 1) n.kids pos
    pure b.num
  else .ok 0

/-- 568-637 `underflowAtBranchLevel(node, pos, child)`; `child` is `children[pos]`.  The result is the
new node and the returned child.  Merging with the right sibling although there is a left one
(possible only if the left one has no keys) leaves a freed node in the array; this is reported as `ub`. -/
def underflowBranch (n : BNode K (BNode K α)) (pos : Nat) (child : BNode K α) :
    Res (BNode K (BNode K α) × BNode K α) := do
  let pn ← childNum o (pos > 0) n (pos - 1)
  if pos > 0 ∧ (o.N + 1) / 2 < pn then do
    let sib ← Slots.rd (o.N + 1) n.kids (pos - 1)
    let pk ← Slots.rd o.N n.keys (pos - 1)
    Res.assert (pos - 1 < n.num)
    let b ← balanceBranch o sib child pk
    let keys ← Slots.wr o.N n.keys (pos - 1) b.key
    let kids ← Slots.wr (o.N + 1) n.kids (pos - 1) b.donor
    let kids ← Slots.wr (o.N + 1) kids pos b.receiver
    pure (⟨n.num, keys, kids⟩, b.receiver)
  else do
    let nn ← childNum o (pos < n.num) n (pos + 1)
    if pos < n.num ∧ (o.N + 1) / 2 < nn then do
      let sib ← Slots.rd (o.N + 1) n.kids (pos + 1)
      let pk ← Slots.rd o.N n.keys pos
      Res.assert (pos < n.num)
      let b ← balanceBranch o sib child pk
      let keys ← Slots.wr o.N n.keys pos b.key
      let kids ← Slots.wr (o.N + 1) n.kids (pos + 1) b.donor
      let kids ← Slots.wr (o.N + 1) kids pos b.receiver
      pure (⟨n.num, keys, kids⟩, b.receiver)
    else if 0 < pn then do
      let sib ← Slots.rd (o.N + 1) n.kids (pos - 1)
      let pk ← Slots.rd o.N n.keys (pos - 1)
      let m ← mergeBranch o sib pk child
      let kids ← Slots.wr (o.N + 1) n.kids (pos - 1) m
      let keys ← Slots.moveDown o.N 1 (pos - 1) (n.num - 1 - (pos - 1)) n.keys
      let kids ← Slots.moveDown (o.N + 1) 1 pos (n.num - pos) kids
      pure (⟨n.num - 1, keys, kids⟩, m)
    else if 0 < nn then do
      let sib ← Slots.rd (o.N + 1) n.kids (pos + 1)
      let pk ← Slots.rd o.N n.keys pos
      let m ← mergeBranch o child pk sib
      Res.guardUB (pos = 0)
      let kids ← Slots.wr (o.N + 1) n.kids pos m
      let keys ← Slots.moveDown o.N 1 pos (n.num - 1 - pos) n.keys
      let kids ← Slots.moveDown (o.N + 1) 1 1 (n.num - 1) kids
      pure (⟨n.num - 1, keys, kids⟩, m)
    else .assertFail

/-- 495-528 `eraseFromBranchNode`; `isRoot` is `d == depth`.  Line 404-405 (`rootNode = survivor;
depth--`) executed for a node that is not the root leaves a tree whose root pointer and `depth` do not
fit together; this is reported as `ub` at once. -/
def eraseB : (d : Nat) → Bool → Heap L → BNode K (Tree K d) → K →
    Res (EOut L (BNode K (Tree K d)) (Tree K d))
  | 0, _, h, n, k => eraseB0 o h n k
  | d + 1, isRoot, h, n, k => do
    let pos ← lookupPos o n k
    let c ← Slots.rd (o.N + 1) n.kids pos
    let r ← eraseB d false h c k
    Res.guardUB (r.newRoot.isNone)
    let kids ← Slots.wr (o.N + 1) n.kids pos r.node
    let n := { n with kids := kids }
    let pos ← lookupPos o n k
    if r.node.num < (o.N + 1) / 2 then do
      let u ← underflowBranch o n pos r.node
      if isRoot = true ∧ u.1.num = 0 then pure ⟨r.deleted, r.heap, u.1, some u.2⟩
      else pure ⟨r.deleted, r.heap, u.1, none⟩
    else pure ⟨r.deleted, r.heap, n, none⟩

/-- 242-253 `erase` on a tree of depth `d`. -/
def eraseT : (d : Nat) → Heap L → Tree K d → K → Res (Bool × State K L)
  | 0, h, id, k => do
    let r ← eraseLeaf o h id k
    pure (r.1, ⟨0, id, r.2⟩)
  | d + 1, h, n, k => do
    let r ← eraseB o d true h n k
    match r.newRoot with
    | none => pure (r.deleted, ⟨d + 1, r.node, r.heap⟩)
    | some t => pure (r.deleted, ⟨d, t, r.heap⟩)

/-- 242-253 `erase`. -/
def erase (s : State K L) (k : K) : Res (Bool × State K L) := eraseT o s.depth s.heap s.root k

end
end Verif.BTree
