import Verif.BTree.Hist
import Verif.FPTree.Leaf

/-!
# Model of UnsortedPBPTree (src/pbptrees/UnsortedPBPTree.hpp)

The leaves hold `numKeys` unsorted entries at the front of the arrays `keys` and `values`.  The branch
levels are the same code as those of BPTree.hpp (`Verif.BTree.Model`) with the linear search in branch
nodes, except for the merge of the first child of a branch node with its right sibling (452-454), which
frees another leaf than the other trees do (`mergeRight` below).

Simplifications:
* The arrays of a new leaf are not initialised by the code; in the model they have arbitrary contents,
  given by the parameters `junkKeys`, `junkVals` (all theorems hold for every junk).
* `PersistEmulation::writeBytes` (a statistics hook) and the transactions of the allocator are dropped.
* The range scan (339-362) assigns to a `const` variable and does not compile; it is not modelled.
* The local `nextNumKeys` (442) is assigned the result of the comparison (0 or 1) instead of the number of
  keys; when it is used (451) the comparison has been false, so it is 0 and the test is true, as in
  the other trees.
-/

namespace Verif.Unsorted

open Search BTree FPTree

variable {K V : Type}

/-- 1199-1213 `LeafNode` without the links. -/
structure ULeaf (K V : Type) where
  num : Nat
  keys : Nat → K
  vals : Nat → V

/-- The template and type parameters: `N`, `M`, the conversions between `KeyType` and `size_t`, and the
contents of uninitialised memory. -/
structure UCfg (K V : Type) where
  N : Nat
  M : Nat
  cv : Conv K
  junkKeys : Nat → K
  junkVals : Nat → V

variable [LinearOrder K] [Inhabited K] (c : UCfg K V)

/-- Array write `a[i] = v` on an array of capacity `M`. -/
def wrA {β : Type} (M : Nat) (a : Nat → β) (i : Nat) (v : β) : Res (Nat → β) :=
  if i < M then .ok (upd a i v) else .ub

namespace ULeaf

/-- 1203 `LeafNode()`. -/
def new : ULeaf K V := ⟨0, c.junkKeys, c.junkVals⟩

/-- 1155: the loop of `lookupPositionInLeafNode` from slot `i` on. -/
def posLoop (l : ULeaf K V) (k : K) (i : Nat) : Nat → Res Nat
  | 0 => .ok i
  | n + 1 => do
    let x ← rdA c.M l.keys i
    if x = k then pure i else posLoop l k (i + 1) n

/-- 1150-1157 `lookupPositionInLeafNode`: `numKeys` if the key is not there. -/
def pos (l : ULeaf K V) (k : K) : Res Nat := posLoop c l k 0 l.num

/-- 254-268: the part of `lookup` after the leaf has been found. -/
def lookup (l : ULeaf K V) (k : K) : Res (Option V) := do
  let p ← pos c l k
  if p < l.num then do
    let x ← rdA c.M l.keys p
    if x = k then do
      let v ← rdA c.M l.vals p
      pure (some v)
    else pure none
  else pure none

/-- Writing key and value of slot `p`. -/
def put (l : ULeaf K V) (p : Nat) (k : K) (v : V) : Res (ULeaf K V) := do
  let ks ← wrA c.M l.keys p k
  let vs ← wrA c.M l.vals p v
  pure { l with keys := ks, vals := vs }

/-- 995-1006 `insertInLeafNodeAtLastPosition`. -/
def insertLast (l : ULeaf K V) (k : K) (v : V) : Res (ULeaf K V) := do
  Res.assert (l.num < c.M)
  let l' ← put c l l.num k v
  pure { l' with num := l.num + 1 }

/-- 954-964: the loop of `splitLeafNode` from slot `i` on; `n` entries stay in the node, `s` have been
moved to the sibling. -/
def splitLoop (sk : K) (i n s : Nat) (l sib : ULeaf K V) : Nat → Res (ULeaf K V × ULeaf K V)
  | 0 => .ok ({ l with num := n }, { sib with num := s })
  | f + 1 => do
    let x ← rdA c.M l.keys i
    let v ← rdA c.M l.vals i
    if sk ≤ x then do
      let sib ← put c sib s x v
      splitLoop sk (i + 1) n (s + 1) l sib f
    else do
      let l ← put c l n x v
      splitLoop sk (i + 1) (n + 1) s l sib f

/-- 937-984 `splitLeafNode` without the links: node, sibling and split key. -/
def split (l : ULeaf K V) : Res (ULeaf K V × ULeaf K V × K) := do
  let r ← findSplitKey c.cv c.M ⟨c.M, l.keys⟩
  let sk ← rdA c.M l.keys r.2
  let ls ← splitLoop c sk 0 0 0 l (ULeaf.new c) c.M
  pure (ls.1, ls.2, sk)

/-- `findMaxKeyPos(node)`. -/
def maxPos (l : ULeaf K V) : Res Nat := findMaxKeyPos (fun i => rdA c.M l.keys i) l.num

/-- `findMinKeyPos(node)`. -/
def minPos (l : ULeaf K V) : Res Nat := findMinKeyPos (fun i => rdA c.M l.keys i) l.num

/-- `keys[findMinKeyPos(node)]`. -/
def minKey (l : ULeaf K V) : Res K := do
  let p ← minPos c l
  rdA c.M l.keys p

/-- 892-928 `insertInLeafNode`. -/
def insert (l : ULeaf K V) (k : K) (v : V) : Res (LeafIns K (ULeaf K V)) := do
  let p ← pos c l k
  let hit ← (if p < l.num then do
      let x ← rdA c.M l.keys p
      pure (decide (x = k))
    else pure false : Res Bool)
  if hit then do
    let vs ← wrA c.M l.vals p v
    pure (.done { l with vals := vs })
  else if l.num = c.M then do
    let r ← split c l
    if r.2.2 < k then do
      let s ← insertLast c r.2.1 k v
      let sk ← minKey c s
      pure (.split r.1 s sk)
    else do
      let mp ← maxPos c r.1
      let mx ← rdA c.M r.1.keys mp
      if mx < k then do
        let s ← insertLast c r.2.1 k v
        let sk ← minKey c s
        pure (.split r.1 s sk)
      else do
        let n ← insertLast c r.1 k v
        let sk ← minKey c r.2.1
        pure (.split n r.2.1 sk)
  else do
    let l ← insertLast c l k v
    pure (.done l)

/-- 397-404: `--numKeys` (undefined if it was 0: the wrapped index is out of bounds) and filling the hole
at `p` with the last entry. -/
def dropAt (l : ULeaf K V) (p : Nat) : Res (ULeaf K V) := do
  Res.guardUB (1 ≤ l.num)
  if p ≠ l.num - 1 then do
    let x ← rdA c.M l.keys (l.num - 1)
    let v ← rdA c.M l.vals (l.num - 1)
    let l' ← put c l p x v
    pure { l' with num := l.num - 1 }
  else pure { l with num := l.num - 1 }

/-- 376-412 `eraseFromLeafNode`, `eraseFromLeafNodeAtPosition`.  `keys[pos]` is compared even if `pos` is
`numKeys`, i.e. the slot is not in use or does not exist. -/
def erase (l : ULeaf K V) (k : K) : Res (Bool × ULeaf K V) := do
  let p ← pos c l k
  let x ← rdA c.M l.keys p
  if x = k then do
    let l ← dropAt c l p
    pure (true, l)
  else pure (false, l)

/-- 492-495: the loop of `mergeLeafNodes` from slot `i` of the second node on. -/
def mergeLoop (b : ULeaf K V) (i : Nat) (a : ULeaf K V) : Nat → Res (ULeaf K V)
  | 0 => .ok a
  | n + 1 => do
    let x ← rdA c.M b.keys i
    let v ← rdA c.M b.vals i
    let a ← put c a (a.num + i) x v
    mergeLoop b (i + 1) a n

/-- 478-507 `mergeLeafNodes` without the links. -/
def merge (a b : ULeaf K V) : Res (ULeaf K V) := do
  Res.assert (a.num + b.num ≤ c.M)
  let a ← mergeLoop c b 0 a b.num
  pure { a with num := a.num + b.num }

/-- One round of the loops 538-547 and 552-561: move slot `p` of the donor to the receiver. -/
def moveOne (d r : ULeaf K V) (p : Nat) : Res (ULeaf K V × ULeaf K V) := do
  let x ← rdA c.M d.keys p
  let v ← rdA c.M d.vals p
  let r' ← put c r r.num x v
  Res.guardUB (1 ≤ d.num)
  let x' ← rdA c.M d.keys (d.num - 1)
  let v' ← rdA c.M d.vals (d.num - 1)
  let d' ← put c d p x' v'
  pure ({ d' with num := d.num - 1 }, { r' with num := r.num + 1 })

/-- The loops 536-548 (`up`: the largest entries) and 551-562 (the smallest entries). -/
def moveLoop (up : Bool) : Nat → ULeaf K V → ULeaf K V → Res (ULeaf K V × ULeaf K V)
  | 0, d, r => .ok (d, r)
  | n + 1, d, r => do
    let p ← (if up then maxPos c d else minPos c d)
    let dr ← moveOne c d r p
    moveLoop up n dr.1 dr.2

/-- 517-565 `balanceLeafNodes(donor, receiver)`; the direction is chosen by `keys[0]` of both nodes. -/
def balance (d r : ULeaf K V) : Res (ULeaf K V × ULeaf K V) := do
  Res.assert (r.num < d.num)
  let balanced := (d.num + r.num) / 2
  let toMove := d.num - balanced
  if toMove = 0 then pure (d, r)
  else do
    let dk ← rdA c.M d.keys 0
    let rk ← rdA c.M r.keys 0
    if dk < rk then moveLoop c true toMove d r else moveLoop c false toMove d r

/-- 316-321: the entries visited by `scan` in this leaf, from slot `i` on. -/
def scanFrom (l : ULeaf K V) (i : Nat) : Nat → Res (List (K × V))
  | 0 => .ok []
  | n + 1 => do
    let x ← rdA c.M l.keys i
    let v ← rdA c.M l.vals i
    let rest ← scanFrom l (i + 1) n
    pure ((x, v) :: rest)

end ULeaf

/-- UnsortedPBPTree<K, V, N, M>: the branch search (1133-1140) is the linear search.  There is no range
scan that compiles; the field is not used. -/
def uOps : Ops K V (ULeaf K V) where
  N := c.N
  M := c.M
  search := fun rd n k => linearSearch false rd k 0 n
  empty := ULeaf.new c
  num := ULeaf.num
  lookup := ULeaf.lookup c
  insert := ULeaf.insert c
  erase := ULeaf.erase c
  merge := ULeaf.merge c
  balance := ULeaf.balance c
  minKey := ULeaf.minKey c
  scan := fun l => ULeaf.scanFrom c l 0 l.num
  rangeScan := fun _ _ _ => .ub

/-! ## Erase at branch level -/

section
variable {L : Type} (o : Ops K V L)

/-- 453-454: `mergeLeafNodes(leaf, leafRef.nextLeaf); deleteLeafNode(leafRef.nextLeaf);`.  The first call
has already set `leafRef.nextLeaf` to the successor of the merged leaf, so it is that leaf which is freed
(or nothing, if there is none), and the merged leaf is never freed. -/
def mergeRight (h : Heap L) (id1 id2 : Nat) : Res (Heap L) := do
  let l1 ← h.get id1
  let l2 ← h.get id2
  let c ← o.merge l1 l2
  let h1 := h.set id1 c
  let h2 := { h1 with next := upd h1.next id1 (h1.next id2) }
  match h.next id2 with
  | none => pure h2
  | some x => do
    let _ ← h2.get x
    pure (({ h2 with prev := upd h2.prev x (some id1) } : Heap L).free x)

/-- 424-469 `underflowAtLeafLevel(node, pos, leaf)`. -/
def underflowLeaf (h : Heap L) (n : BNode K Nat) (pos id : Nat) : Res (EOut L (BNode K Nat) Nat) := do
  Res.assert (pos ≤ n.num)
  let ls ← leftSib o h pos id
  if pos > 0 ∧ (o.M + 1) / 2 < ls.2 then do
    let h ← balanceLeaf o h ls.1 id
    let l ← h.get id
    let k ← o.minKey l
    let keys ← Slots.wr o.N n.keys (pos - 1) k
    pure ⟨true, h, { n with keys := keys }, none⟩
  else do
    let rs ← rightSib o h n.num pos id
    if pos < n.num ∧ (o.M + 1) / 2 < rs.2 then do
      let h ← balanceLeaf o h rs.1 id
      let l ← h.get rs.1
      let k ← o.minKey l
      let keys ← Slots.wr o.N n.keys pos k
      pure ⟨true, h, { n with keys := keys }, none⟩
    else if pos > 0 ∧ ls.2 ≤ (o.M + 1) / 2 then do
      let h ← mergeLeaf o h ls.1 id
      dropChild o h n pos ls.1
    else if pos < n.num ∧ rs.2 ≤ (o.M + 1) / 2 then do
      let h ← mergeRight o h id rs.1
      dropChild o h n pos id
    else .assertFail

/-- 580-613: one leaf-level step of `eraseFromBranchNode` (`d == 1`). -/
def eraseB0 (h : Heap L) (n : BNode K Nat) (k : K) : Res (EOut L (BNode K Nat) Nat) := do
  let pos ← lookupPos o n k
  let id ← Slots.rd (o.N + 1) n.kids pos
  let r ← eraseLeaf o h id k
  let l ← r.2.get id
  if o.num l < (o.M + 1) / 2 then do
    let u ← underflowLeaf o r.2 n pos id
    pure { u with deleted := r.1 }
  else pure ⟨r.1, r.2, n, none⟩

/-- 580-613 `eraseFromBranchNode`. -/
def eraseB : (d : Nat) → Bool → Heap L → BNode K (Tree K d) → K →
    Res (EOut L (BNode K (Tree K d)) (Tree K d))
  | 0, _, h, n, k => eraseB0 o h n k
  | d + 1, isRoot, h, n, k => do
    let pos ← lookupPos o n k
    let c ← Slots.rd (o.N + 1) n.kids pos
    let r ← eraseB d false h c k
    Res.guardUB (r.newRoot.isNone)
    let kids ← Slots.wr (o.N + 1) n.kids pos r.node
    let n := { n with kids := kids }
    let pos ← lookupPos o n k
    if r.node.num < (o.N + 1) / 2 then do
      let u ← underflowBranch o n pos r.node
      if isRoot = true ∧ u.1.num = 0 then pure ⟨r.deleted, r.heap, u.1, some u.2⟩
      else pure ⟨r.deleted, r.heap, u.1, none⟩
    else pure ⟨r.deleted, r.heap, n, none⟩

/-- 276-290 `erase` on a tree of depth `d`. -/
def eraseT : (d : Nat) → Heap L → Tree K d → K → Res (Bool × State K L)
  | 0, h, id, k => do
    let r ← eraseLeaf o h id k
    pure (r.1, ⟨0, id, r.2⟩)
  | d + 1, h, n, k => do
    let r ← eraseB o d true h n k
    match r.newRoot with
    | none => pure (r.deleted, ⟨d + 1, r.node, r.heap⟩)
    | some t => pure (r.deleted, ⟨d, t, r.heap⟩)

/-- 276-290 `erase`. -/
def erase (s : State K L) (k : K) : Res (Bool × State K L) := eraseT o s.depth s.heap s.root k

/-- Run one operation; `insert` returns nothing, shown as `true`. -/
def exec (s : State K L) : MapSpec.Op K V → Res (Bool × State K L)
  | .insert k v => do
    let s ← BTree.insert o s k v
    pure (true, s)
  | .erase k => erase o s k

/-- Run a history; the results of all operations and the last state. -/
def execAll : State K L → List (MapSpec.Op K V) → Res (List Bool × State K L)
  | s, [] => .ok ([], s)
  | s, op :: ops => do
    let r ← exec o s op
    let rs ← execAll r.2 ops
    pure (r.1 :: rs.1, rs.2)

/-! ## When a right merge frees a leaf that is still in use -/

/-- Erasing `k` from this branch node just above the leaves merges its first child with the second, and
there is a leaf behind the second, which is then freed. -/
def freesNext0 (h : Heap L) (n : BNode K Nat) (k : K) : Bool :=
  match lookupPos o n k with
  | .ok pos => match Slots.rd (o.N + 1) n.kids pos with
    | .ok id => match eraseLeaf o h id k with
      | .ok r => match r.2.get id with
        | .ok l => decide (o.num l < (o.M + 1) / 2) && decide (pos = 0) &&
          match rightSib o r.2 n.num pos id with
          | .ok rs => decide (rs.2 ≤ (o.M + 1) / 2) && (r.2.next rs.1).isSome
          | _ => false
        | _ => false
      | _ => false
    | _ => false
  | _ => false

/-- Erasing `k` merges the first child of a branch node with its right sibling although there is a leaf
behind that one. -/
def freesNext : (d : Nat) → Heap L → Tree K d → K → Bool
  | 0, _, _, _ => false
  | 1, h, n, k => freesNext0 o h n k
  | d + 2, h, n, k =>
    match lookupPos o n k with
    | .ok pos => match Slots.rd (o.N + 1) n.kids pos with
      | .ok c => freesNext (d + 1) h c k
      | _ => false
    | _ => false

end

/-- UnsortedPBPTree<int, V, N, M>. -/
def cfgInt (N M : Nat) (jk : Nat → Int) (jv : Nat → V) : UCfg Int V := ⟨N, M, convInt, jk, jv⟩

end Verif.Unsorted
