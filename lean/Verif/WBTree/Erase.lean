import Verif.WBTree.General

/-!
# wBPTree.hpp and wHBPTree.hpp: erase in trees of any depth

`eraseFromBranchNode` with the handling of underflows.  The code of the two files is the same text up to
`get_ro()/get_rw()`, apart from three places where wHBPTree.hpp uses other subscripts; `hy = true` stands for
wHBPTree.hpp.  Line numbers are those of wBPTree.hpp, with those of wHBPTree.hpp after a slash.

Erasing needs the backward pointers between leaves and frees nodes.  Both are kept beside the `Tree` of
`Model.lean`; using a freed node is undefined behaviour.
-/

namespace Verif.WBTree

variable {K V : Type} [LinearOrder K] {N M : Nat}

/-- The tree with the `prevLeaf` pointers of its leaves (wBPTree.hpp:133 / wHBPTree.hpp:141) and the addresses
of the freed nodes. -/
structure ETree (K V : Type) (N M : Nat) where
  tree : Tree K V N M
  prev : Nat → Option Nat
  deadL : List Nat
  deadB : List Nat

/-- Dereferencing a pointer to a leaf that may be freed. -/
def ETree.leaf (s : ETree K V N M) (a : Nat) : Res (Leaf K V M) :=
  if a ∈ s.deadL then .ub else s.tree.leaf a

/-- Dereferencing a pointer to a branch node that may be freed. -/
def ETree.branch (s : ETree K V N M) (a : Nat) : Res (Branch K N) :=
  if a ∈ s.deadB then .ub else s.tree.branch a

/-- Writing a leaf. -/
def ETree.setLeaf (s : ETree K V N M) (a : Nat) (l : Leaf K V M) : ETree K V N M :=
  { s with tree := { s.tree with leaves := s.tree.leaves.set a l } }

/-- Writing a branch node. -/
def ETree.setBranch (s : ETree K V N M) (a : Nat) (b : Branch K N) : ETree K V N M :=
  { s with tree := { s.tree with branches := s.tree.branches.set a b } }

/-- wBPTree.hpp:307-312 / wHBPTree.hpp:292-296: a tree with one empty leaf. -/
def eempty (N M : Nat) (junk : Option Nat) : ETree K V N M := ⟨empty N M junk, fun _ => none, [], []⟩

/-- wBPTree.hpp:762-771 / wHBPTree.hpp:755-762 `findLeafNode`, as in `Model.lean`. -/
def efindLeaf (s : ETree K V N M) (key : K) : Nat → Nat → Res Nat
  | 0, a => .ok a
  | d + 1, a => do
    let b ← s.branch a
    let p ← b.pos key
    let i ← b.slot.rd (N + 1) p
    let c ← b.kids.rd (N + 1) i
    efindLeaf s key d c

/-- wBPTree.hpp:362-374 / wHBPTree.hpp:351-364 `lookup`. -/
def elookup (s : ETree K V N M) (key : K) : Res (Option V) := do
  let a ← efindLeaf s key s.tree.depth s.tree.root
  let l ← s.leaf a
  l.lookup key

/-- The leaf an insert or an erase descends to (wBPTree.hpp:657-672, 862-876 / wHBPTree.hpp:662-677, 849-863). -/
def einsLeaf (s : ETree K V N M) (key : K) : Nat → Nat → Res Nat
  | 0, a => .ok a
  | d + 1, a => do
    let b ← s.branch a
    let p ← b.pos key
    let c ← b.child p
    einsLeaf s key d c

/-- wBPTree.hpp:588-594 / wHBPTree.hpp:599-605: the `prevLeaf` pointers when the new leaf `r` enters the list
behind `a`, whose old successor is `nx`. -/
def linkBack (prev : Nat → Option Nat) (a r : Nat) (nx : Option Nat) : Nat → Option Nat :=
  fun j => if j = r then some a else if some j = nx then some r else prev j

/-- wBPTree.hpp:326-353 / wHBPTree.hpp:314-340 `insert`: the insert of `Model.lean` along nodes that are not
freed, with the `prevLeaf` pointers. -/
def einsert (junk : Option Nat) (s : ETree K V N M) (key : K) (val : V) : Res (ETree K V N M) := do
  let a ← einsLeaf s key s.tree.depth s.tree.root
  let _ ← s.leaf a
  let t ← insert junk s.tree key val
  if t.leaves.length = s.tree.leaves.length then pure { s with tree := t }
  else do
    (match s.tree.next a with
      | none => pure ()
      | some b => do
        let _ ← s.leaf b
        pure ())
    pure { s with tree := t, prev := linkBack s.prev a s.tree.leaves.length (s.tree.next a) }

namespace Leaf

/-- The loops that copy entries to another leaf, wBPTree.hpp:1066-1073, 1082-1089, 1213-1219 /
wHBPTree.hpp:1046-1053, 1056-1063, 1177-1183: the entries of `src` behind slot `i` go to free places of `dst`,
which enter its slots from `j` on; `bits` is the bitmap of `src`, where the places become free (the merge does
without this, as `src` is freed); `n` rounds remain. -/
def take (src : Leaf K V M) (i j : Nat) : Nat → Leaf K V M → Bitmap M → Res (Leaf K V M × Bitmap M)
  | 0, dst, bits => .ok (dst, bits)
  | n + 1, dst, bits => do
    let u := dst.bits.getFreeZero
    let s ← src.slot.rd (M + 1) i
    let k ← src.keys.rd M s
    let keys ← dst.keys.wr M u k
    let v ← src.vals.rd M s
    let vals ← dst.vals.wr M u v
    let slot ← dst.slot.wr (M + 1) j u
    let dbits ← dst.bits.set u true
    let bits ← bits.reset s
    take src (i + 1) (j + 1) n ⟨slot, dbits, keys, vals⟩ bits

/-- wBPTree.hpp:1040-1100 / wHBPTree.hpp:1022-1071 `balanceLeafNodes(donor, receiver)`: donor and receiver. -/
def balance (donor recv : Leaf K V M) : Res (Leaf K V M × Leaf K V M) := do
  let n1 ← donor.slot.rd (M + 1) 0
  let n2 ← recv.slot.rd (M + 1) 0
  if n2 < n1 then do
    let balanced := (n1 + n2) / 2
    let toMove := n1 - balanced
    if toMove = 0 then pure (donor, recv) else do
      let s1 ← donor.slot.rd (M + 1) 1
      let k1 ← donor.keys.rd M s1
      let s2 ← recv.slot.rd (M + 1) 1
      let k2 ← recv.keys.rd M s2
      let (dslot, recv, bits) ← (if k1 < k2 then do
          let slot ← Slots.moveUp (M + 1) 1 toMove (n2 + 1) recv.slot
          let (recv, bits) ← take donor (balanced + 1) 1 toMove { recv with slot := slot } donor.bits
          pure (donor.slot, recv, bits)
        else do
          let (recv, bits) ← take donor 1 (n2 + 1) toMove recv donor.bits
          let slot ← Slots.moveDown (M + 1) toMove 1 (n1 - toMove) donor.slot
          pure (slot, recv, bits))
      let dslot ← dslot.wr (M + 1) 0 (n1 - toMove)
      let rslot ← recv.slot.wr (M + 1) 0 (n2 + toMove)
      pure ({ donor with slot := dslot, bits := bits }, { recv with slot := rslot })
  else .assertFail

/-- wBPTree.hpp:1199-1233 / wHBPTree.hpp:1161-1187 `mergeLeafNodes(node1, node2)`, without the pointers. -/
def merge (l1 l2 : Leaf K V M) : Res (Leaf K V M) := do
  let n1 ← l1.slot.rd (M + 1) 0
  let n2 ← l2.slot.rd (M + 1) 0
  if n1 + n2 ≤ M then do
    let (l1, _) ← take l2 1 (n1 + 1) n2 l1 l2.bits
    let slot ← l1.slot.wr (M + 1) 0 (n1 + n2)
    pure { l1 with slot := slot }
  else .assertFail

/-- The number of entries. -/
def count (l : Leaf K V M) : Res Nat := l.slot.rd (M + 1) 0

end Leaf

namespace Branch

/-- The number of separators. -/
def count (b : Branch K N) : Res Nat := b.slot.rd (N + 1) 0

/-- wBPTree.hpp:1143-1147, 1168-1172, 1266-1270 / wHBPTree.hpp:1105-1109, 1130-1134, 1210-1214: a separator
with its child goes to a free place, which enters slot `j`. -/
def put (b : Branch K N) (j : Nat) (k : K) (c : Nat) : Res (Branch K N) := do
  let u := b.bits.getFreeZero
  let keys ← b.keys.wr N u k
  let kids ← b.kids.wr (N + 1) u c
  let slot ← b.slot.wr (N + 1) j u
  let bits ← b.bits.set u true
  pure ⟨slot, bits, keys, kids⟩

/-- The loops that copy separators with their children to another branch node, wBPTree.hpp:1149-1157, 1175-1183,
1273-1279 / wHBPTree.hpp:1111-1119, 1137-1145, 1217-1223; `n` rounds remain. -/
def take (src : Branch K N) (i j : Nat) : Nat → Branch K N → Bitmap N → Res (Branch K N × Bitmap N)
  | 0, dst, bits => .ok (dst, bits)
  | n + 1, dst, bits => do
    let s ← src.slot.rd (N + 1) i
    let k ← src.keys.rd N s
    let c ← src.kids.rd (N + 1) s
    let dst ← dst.put j k c
    let bits ← bits.reset s
    take src (i + 1) (j + 1) n dst bits

/-- wBPTree.hpp:1112-1190 / wHBPTree.hpp:1084-1150 `balanceBranchNodes(donor, receiver, parent, pos)`: donor,
receiver and parent. -/
def balance (donor recv par : Branch K N) (pos : Nat) : Res (Branch K N × Branch K N × Branch K N) := do
  let n1 ← donor.count
  let n2 ← recv.count
  if n2 < n1 then do
    let balanced := (n1 + n2) / 2
    let toMove := n1 - balanced
    if toMove = 0 then pure (donor, recv, par) else do
      let s1 ← donor.slot.rd (N + 1) 1
      let k1 ← donor.keys.rd N s1
      let s2 ← recv.slot.rd (N + 1) 1
      let k2 ← recv.keys.rd N s2
      let ps ← par.slot.rd (N + 1) pos
      let pk ← par.keys.rd N ps
      let (donor, recv, up) ← (if k1 < k2 then do
          let slot ← Slots.moveUp (N + 1) 1 toMove (n2 + 1) recv.slot
          let c ← donor.kids.rd (N + 1) N
          let recv ← put { recv with slot := slot } toMove pk c
          let (recv, bits) ← take donor (balanced + 2) 1 (toMove - 1) recv donor.bits
          let s ← donor.slot.rd (N + 1) (balanced + 1)
          let c ← donor.kids.rd (N + 1) s
          let kids ← donor.kids.wr (N + 1) N c
          let up ← donor.keys.rd N s
          pure ({ donor with bits := bits, kids := kids }, recv, up)
        else do
          let c ← recv.kids.rd (N + 1) N
          let recv ← put recv (n2 + 1) pk c
          let (recv, bits) ← take donor 1 (n2 + 2) (toMove - 1) recv donor.bits
          let s ← donor.slot.rd (N + 1) toMove
          let c ← donor.kids.rd (N + 1) s
          let kids ← recv.kids.wr (N + 1) N c
          let up ← donor.keys.rd N s
          let slot ← Slots.moveDown (N + 1) toMove 1 (n1 - toMove) donor.slot
          pure ({ donor with bits := bits, slot := slot }, { recv with kids := kids }, up))
      let pkeys ← par.keys.wr N ps up
      let rslot ← recv.slot.wr (N + 1) 0 (n2 + toMove)
      let dslot ← donor.slot.wr (N + 1) 0 (n1 - toMove)
      pure ({ donor with slot := dslot }, { recv with slot := rslot }, { par with keys := pkeys })
  else .assertFail

/-- wBPTree.hpp:1243-1278 / wHBPTree.hpp:1198-1226 `mergeBranchNodes(sibling, key, node)`: the sibling.  The
first assertion reads `keys[slot[1]]` in wBPTree.hpp and `keys[0]` in wHBPTree.hpp. -/
def merge (hy : Bool) (sib : Branch K N) (key : K) (node : Branch K N) : Res (Branch K N) := do
  let s ← (if hy then pure 0 else node.slot.rd (N + 1) 1)
  let k ← node.keys.rd N s
  if key ≤ k then do
    let n1 ← sib.count
    let s ← sib.slot.rd (N + 1) n1
    let k ← sib.keys.rd N s
    if k < key then do
      let c ← sib.kids.rd (N + 1) N
      let sib ← sib.put (n1 + 1) key c
      let n2 ← node.count
      let (sib, _) ← take node 1 (n1 + 2) n2 sib node.bits
      let c ← node.kids.rd (N + 1) N
      let kids ← sib.kids.wr (N + 1) N c
      let slot ← sib.slot.wr (N + 1) 0 (n1 + n2 + 1)
      pure { sib with kids := kids, slot := slot }
    else .assertFail
  else .assertFail

/-- wBPTree.hpp:941-952 / wHBPTree.hpp:927-935: the slot `p` leaves the node after a merge of leaves, the child
behind it becomes `c`. -/
def dropSlot (b : Branch K N) (p : Nat) (c : Nat) : Res (Branch K N) := do
  let n ← b.count
  let s ← b.slot.rd (N + 1) p
  let bits ← b.bits.reset s
  let slot ← Slots.moveDown (N + 1) 1 p (n - p) b.slot
  let sur ← (if p = n then pure N else slot.rd (N + 1) p)
  let kids ← b.kids.wr (N + 1) sur c
  let slot ← slot.wr (N + 1) 0 (n - 1)
  pure { b with slot := slot, bits := bits, kids := kids }

/-- Writing the key in slot `p`. -/
def setKey (b : Branch K N) (p : Nat) (k : K) : Res (Branch K N) := do
  let s ← b.slot.rd (N + 1) p
  let keys ← b.keys.wr N s k
  pure { b with keys := keys }

end Branch

/-- Following a pointer that may be null. -/
def deref (o : Option Nat) : Res Nat := Res.ofOption o

/-- wBPTree.hpp:926-957 / wHBPTree.hpp:912-943: two neighbouring leaves `a1`, `a2` are merged, `a2` is freed and
slot `p` leaves the branch node `a`.  A branch node with a single separator is replaced as the root, whatever its
level; a leaf as the root of a tree that still has branch levels gets an address outside the heap of branch
nodes, as reading it as a branch node is undefined behaviour. -/
def mergeLeaves (s : ETree K V N M) (a p a1 a2 : Nat) : Res (ETree K V N M) := do
  let l1 ← s.leaf a1
  let l2 ← s.leaf a2
  let l ← l1.merge l2
  let nx := s.tree.next a2
  (match nx with
    | none => pure ()
    | some c => do
      let _ ← s.leaf c
      pure ())
  let s1 : ETree K V N M := { s with
    tree := { s.tree with
      leaves := s.tree.leaves.set a1 l
      next := fun j => if j = a1 then nx else s.tree.next j }
    prev := fun j => if some j = nx then some a1 else s.prev j
    deadL := a2 :: s.deadL }
  let b ← s1.branch a
  let n ← b.count
  if 1 < n then do
    let b ← b.dropSlot p a1
    pure (s1.setBranch a b)
  else
    pure { s1 with tree := { s1.tree with
      root := if s1.tree.depth = 1 then a1 else s1.tree.branches.length
      depth := s1.tree.depth - 1 } }

/-- wBPTree.hpp:903-959 / wHBPTree.hpp:890-945 `underflowAtLeafLevel(node, pos, leaf)`.  After a balance the new
separator is `keys[slot[1]]` of the leaf in wBPTree.hpp; wHBPTree.hpp takes the slot of the branch node. -/
def underflowLeaf (hy : Bool) (s : ETree K V N M) (a p c : Nat) : Res (ETree K V N M) := do
  let b ← s.branch a
  let n ← b.count
  if p ≤ n + 1 then
    if 1 < p then do
      let q ← deref (s.prev c)
      let l ← s.leaf q
      let m ← l.count
      if (M + 1) / 2 < m then balancePrev hy s a b n p c q
      else if p ≤ n then do
        let (r, mr) ← nextCount s c
        if (M + 1) / 2 < mr then balanceNext hy s a b p c r else mergeLeaves s a (p - 1) q c
      else mergeLeaves s a (p - 1) q c
    else if p ≤ n then do
      let (r, mr) ← nextCount s c
      if (M + 1) / 2 < mr then balanceNext hy s a b p c r else mergeLeaves s a p c r
    else .assertFail
  else .assertFail
where
  /-- wBPTree.hpp:913-918 / wHBPTree.hpp:897-903: the balance with the left neighbour. -/
  balancePrev (hy : Bool) (s : ETree K V N M) (a : Nat) (b : Branch K N) (n p c q : Nat) :
      Res (ETree K V N M) := do
    let donor ← s.leaf q
    let recv ← s.leaf c
    let (donor, recv) ← donor.balance recv
    let i ← (if hy then b.slot.rd (N + 1) 1 else recv.slot.rd (M + 1) 1)
    let k ← recv.keys.rd M i
    let b ← b.setKey (if p = n + 1 then n else p) k
    pure (((s.setLeaf q donor).setLeaf c recv).setBranch a b)
  /-- wBPTree.hpp:919 / wHBPTree.hpp:904-905: the right neighbour and the number of its entries. -/
  nextCount (s : ETree K V N M) (c : Nat) : Res (Nat × Nat) := do
    let r ← deref (s.tree.next c)
    let l ← s.leaf r
    let m ← l.count
    pure (r, m)
  /-- wBPTree.hpp:919-924 / wHBPTree.hpp:904-909: the balance with the right neighbour. -/
  balanceNext (hy : Bool) (s : ETree K V N M) (a : Nat) (b : Branch K N) (p c r : Nat) :
      Res (ETree K V N M) := do
    let donor ← s.leaf r
    let recv ← s.leaf c
    let (donor, recv) ← donor.balance recv
    let i ← (if hy then b.slot.rd (N + 1) 1 else donor.slot.rd (M + 1) 1)
    let k ← donor.keys.rd M i
    let b ← b.setKey (p + 1) k
    pure (((s.setLeaf r donor).setLeaf c recv).setBranch a b)

/-- wBPTree.hpp:1024-1028 / wHBPTree.hpp:1005-1008: `for (i = ppos; i < slot[0] - 1; ++i) slot[i] = slot[i + 1];
--slot[0];`. -/
def Branch.shrink (b : Branch K N) (ppos : Nat) : Res (Branch K N) := do
  let n ← b.count
  let slot ← Slots.moveDown (N + 1) 1 ppos (n - 1 - ppos) b.slot
  let slot ← slot.wr (N + 1) 0 (n - 1)
  pure { b with slot := slot }

/-- wBPTree.hpp:972-1030 / wHBPTree.hpp:959-1011 `underflowAtBranchLevel(node, pos, child)`: the state and the
returned child.  Freeing through the reference `rSibling` clears the entry of `children[]` it refers to; with
`pos == slot[0]` that entry has been overwritten by `child` before, so `child` is freed.  A null pointer in
`children[]` is an element that cannot be read. -/
def underflowBranch (hy : Bool) (s : ETree K V N M) (a p c : Nat) : Res (ETree K V N M × Nat) := do
  let b ← s.branch a
  let n ← b.count
  let middle := (N + 1) / 2
  let left ← (if 1 < p then do
      let i ← b.slot.rd (N + 1) (p - 1)
      let q ← b.kids.rd (N + 1) i
      let x ← s.branch q
      let m ← x.count
      pure (some (q, m))
    else pure none)
  match left with
  | some (q, m) =>
    if middle < m then balanceWith s a b q c (p - 1)
    else do
      let right ← rightOf s b n p
      match right with
      | some (r, mr) =>
        if middle < mr then balanceWith s a b r c p
        else if 0 < m then mergeLeft s a b p q c
        else if 0 < mr then mergeRight s a b n p c r
        else .assertFail
      | none => if 0 < m then mergeLeft s a b p q c else .assertFail
  | none => do
    let right ← rightOf s b n p
    match right with
    | some (r, mr) =>
      if middle < mr then balanceWith s a b r c p
      else if 0 < mr then mergeRight s a b n p c r
      else .assertFail
    | none => .assertFail
where
  /-- wBPTree.hpp:991-1004 / wHBPTree.hpp:974-985: the right neighbour and the number of its separators. -/
  rightOf (s : ETree K V N M) (b : Branch K N) (n p : Nat) : Res (Option (Nat × Nat)) :=
    if p ≤ n then do
      let i ← (if p = n then pure N else b.slot.rd (N + 1) (p + 1))
      let r ← b.kids.rd (N + 1) i
      let x ← s.branch r
      let m ← x.count
      pure (some (r, m))
    else pure none
  /-- wBPTree.hpp:986-1004 / wHBPTree.hpp:970-985: the balance with the neighbour `q` via slot `pos`. -/
  balanceWith (s : ETree K V N M) (a : Nat) (b : Branch K N) (q c pos : Nat) : Res (ETree K V N M × Nat) := do
    let donor ← s.branch q
    let recv ← s.branch c
    let (donor, recv, b) ← donor.balance recv b pos
    pure (((s.setBranch q donor).setBranch c recv).setBranch a b, c)
  /-- wBPTree.hpp:1009-1014 / wHBPTree.hpp:990-995: the child is merged into its left neighbour `q`. -/
  mergeLeft (s : ETree K V N M) (a : Nat) (b : Branch K N) (p q c : Nat) : Res (ETree K V N M × Nat) := do
    let sib ← s.branch q
    let node ← s.branch c
    let i ← b.slot.rd (N + 1) (p - 1)
    let key ← b.keys.rd N i
    let sib ← sib.merge hy key node
    let b ← b.shrink (p - 1)
    let s1 := (s.setBranch q sib).setBranch a b
    pure ({ s1 with deadB := c :: s1.deadB }, q)
  /-- wBPTree.hpp:1015-1021 / wHBPTree.hpp:996-1002: the right neighbour `r` is merged into the child. -/
  mergeRight (s : ETree K V N M) (a : Nat) (b : Branch K N) (n p c r : Nat) : Res (ETree K V N M × Nat) := do
    let sib ← s.branch c
    let node ← s.branch r
    let rPos ← (if p = n then pure N else b.slot.rd (N + 1) (p + 1))
    let i ← b.slot.rd (N + 1) p
    let key ← b.keys.rd N i
    let sib ← sib.merge hy key node
    let b ← Branch.shrink { b with kids := fun j => if j = rPos then none else b.kids j } p
    let s1 := (s.setBranch c sib).setBranch a b
    pure ({ s1 with deadB := (if p = n then c else r) :: s1.deadB }, c)

/-- `eraseFromLeafNode` on the leaf at address `a`. -/
def eraseLeaf (s : ETree K V N M) (a : Nat) (key : K) : Res (ETree K V N M × Bool) := do
  let l ← s.leaf a
  let (l, del) ← l.erase key
  pure (s.setLeaf a l, del)

/-- wBPTree.hpp:857-892 / wHBPTree.hpp:844-876 `eraseFromBranchNode` at depth `d + 1` (depth `0` stands for
`eraseFromLeafNode`). -/
def eraseAux (hy : Bool) (key : K) : Nat → ETree K V N M → Nat → Res (ETree K V N M × Bool)
  | 0, s, a => eraseLeaf s a key
  | d + 1, s, a => do
    let b ← s.branch a
    let p ← b.pos key
    let c ← b.child p
    let (s, del) ← eraseAux hy key d s c
    if d = 0 then do
      let l ← s.leaf c
      let n ← l.count
      if n < (M + 1) / 2 then do
        let s ← underflowLeaf hy s a p c
        pure (s, del)
      else pure (s, del)
    else do
      let b ← s.branch a
      let p ← b.pos key
      let x ← s.branch c
      let n ← x.count
      if n < (N + 1) / 2 then do
        let (s, c) ← underflowBranch hy s a p c
        let b ← s.branch a
        let n ← b.count
        if d + 1 = s.tree.depth ∧ n = 0 then
          pure ({ s with tree := { s.tree with root := c, depth := s.tree.depth - 1 } }, del)
        else pure (s, del)
      else pure (s, del)

/-- wBPTree.hpp:381-395 / wHBPTree.hpp:371-387 `erase`. -/
def eerase (hy : Bool) (s : ETree K V N M) (key : K) : Res (ETree K V N M × Bool) :=
  eraseAux hy key s.tree.depth s s.tree.root

end Verif.WBTree
