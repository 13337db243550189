import Verif.BTree.Model
import Verif.Search.Model

/-!
# Sorted leaf nodes: BPTree, PBPTree and HPBPTree

Model of the leaf layout shared by the three classes: `numKeys`, `keys[M]`, `values[M]`, sorted by key.
Line numbers are given as B: BPTree.hpp, P: PBPTree.hpp, H: HPBPTree.hpp.
The two arrays are separate; stale elements behind `numKeys` are kept, as in the code.
-/

namespace Verif.BTree

open Verif Search

variable {K V : Type}

/-- B1064-1078, P1216ff, H143ff `LeafNode` without the links. -/
structure SLeaf (K V : Type) where
  num : Nat
  keys : Slots K
  vals : Slots V

variable [LinearOrder K]

/-- The parameters that distinguish the three classes. -/
structure SCfg (K V : Type) where
  N : Nat
  M : Nat
  /-- `lookupPositionInBranchNode` -/
  bsearch : (Nat → Res K) → Nat → K → Res Nat
  /-- `lookupPositionInLeafNode` -/
  lsearch : (Nat → Res K) → Nat → K → Res Nat
  /-- the inner loop of the range scan: read a key, read a value, number of entries, bounds -/
  range : (Nat → Res K) → (Nat → Res V) → Nat → K → K → Res (List (K × V) × Bool)

variable (c : SCfg K V)

namespace SLeaf

/-- `lookupPositionInLeafNode`: B1008-1017, P1158-1163, H670-675. -/
def pos (l : SLeaf K V) (k : K) : Res Nat := c.lsearch (fun i => Slots.rd c.M l.keys i) l.num k

/-- B227-233, P247-255, H306-312: the part of `lookup` after the leaf has been found. -/
def lookup (l : SLeaf K V) (k : K) : Res (Option V) := do
  let p ← pos c l k
  if p < l.num then do
    let x ← Slots.rd c.M l.keys p
    if x = k then do
      let v ← Slots.rd c.M l.vals p
      pure (some v)
    else pure none
  else pure none

/-- B847-861, P988-1010, H524-545 `insertInLeafNodeAtPosition`. -/
def insertAt (l : SLeaf K V) (p : Nat) (k : K) (v : V) : Res (SLeaf K V) := do
  Res.assert (p < c.M)
  Res.assert (p ≤ l.num)
  Res.assert (l.num < c.M)
  let keys ← Slots.moveUp c.M p 1 l.num l.keys
  let vals ← Slots.moveUp c.M p 1 l.num l.vals
  let keys ← Slots.wr c.M keys p k
  let vals ← Slots.wr c.M vals p v
  pure ⟨l.num + 1, keys, vals⟩

/-- B799-807, P946-961, H480-496 `splitLeafNode`: both halves. -/
def split (l : SLeaf K V) : Res (SLeaf K V × SLeaf K V) := do
  let middle := (c.M + 1) / 2
  let keys ← Slots.copy c.M l.keys middle 0 (l.num - middle) Slots.none
  let vals ← Slots.copy c.M l.vals middle 0 (l.num - middle) Slots.none
  pure ({ l with num := middle }, ⟨l.num - middle, keys, vals⟩)

/-- B787-833, P899-930, H443-474 `insertInLeafNode`. -/
def insert (l : SLeaf K V) (k : K) (v : V) : Res (LeafIns K (SLeaf K V)) := do
  let p ← pos c l k
  let dup ← (if p < l.num then do
      let x ← Slots.rd c.M l.keys p
      pure (decide (x = k))
    else pure false)
  if dup then do
    let vals ← Slots.wr c.M l.vals p v
    pure (.done { l with vals := vals })
  else if l.num = c.M then do
    let s ← split c l
    if p < (c.M + 1) / 2 then do
      let a ← insertAt c s.1 p k v
      let key ← Slots.rd c.M s.2.keys 0
      pure (.split a s.2 key)
    else do
      let b ← insertAt c s.2 (p - (c.M + 1) / 2) k v
      let key ← Slots.rd c.M b.keys 0
      pure (.split s.1 b key)
  else do
    let l ← insertAt c l p k v
    pure (.done l)

/-- B336-347, P385-419, H697-727 `eraseFromLeafNode`: `keys[pos]` is read without a check of
`pos < numKeys`; `numKeys - 1` wraps around for an empty leaf (the loop then runs out of bounds). -/
def erase (l : SLeaf K V) (k : K) : Res (Bool × SLeaf K V) := do
  let p ← pos c l k
  let x ← Slots.rd c.M l.keys p
  if x = k then do
    Res.guardUB (1 ≤ l.num)
    let keys ← Slots.moveDown c.M 1 p (l.num - 1 - p) l.keys
    let vals ← Slots.moveDown c.M 1 p (l.num - 1 - p) l.vals
    pure (true, ⟨l.num - 1, keys, vals⟩)
  else pure (false, l)

/-- B418-433, P491-522, H1041-1058 `mergeLeafNodes`. -/
def merge (a b : SLeaf K V) : Res (SLeaf K V) := do
  Res.assert (a.num + b.num ≤ c.M)
  let keys ← Slots.copy c.M b.keys 0 a.num b.num a.keys
  let vals ← Slots.copy c.M b.vals 0 a.num b.num a.vals
  pure ⟨a.num + b.num, keys, vals⟩

/-- B444-481, P532-584, H919-958 `balanceLeafNodes(donor, receiver)`. -/
def balance (d r : SLeaf K V) : Res (SLeaf K V × SLeaf K V) := do
  Res.assert (r.num < d.num)
  let balanced := (d.num + r.num) / 2
  let toMove := d.num - balanced
  if toMove = 0 then pure (d, r)
  else do
    let dk ← Slots.rd c.M d.keys 0
    let rk ← Slots.rd c.M r.keys 0
    if dk < rk then do
      let keys ← Slots.moveUp c.M 0 toMove r.num r.keys
      let vals ← Slots.moveUp c.M 0 toMove r.num r.vals
      let keys ← Slots.copy c.M d.keys balanced 0 toMove keys
      let vals ← Slots.copy c.M d.vals balanced 0 toMove vals
      pure ({ d with num := d.num - toMove }, ⟨r.num + toMove, keys, vals⟩)
    else do
      let keys ← Slots.copy c.M d.keys 0 r.num toMove r.keys
      let vals ← Slots.copy c.M d.vals 0 r.num toMove r.vals
      let dkeys ← Slots.moveDown c.M toMove 0 (d.num - toMove) d.keys
      let dvals ← Slots.moveDown c.M toMove 0 (d.num - toMove) d.vals
      pure (⟨d.num - toMove, dkeys, dvals⟩, ⟨r.num + toMove, keys, vals⟩)

/-- The inner loop of `scan(func)`: B285-290, P331-336, H388-391; entries from `i` on. -/
def scanFrom (l : SLeaf K V) (i : Nat) : Nat → Res (List (K × V))
  | 0 => .ok []
  | n + 1 => do
    let k ← Slots.rd c.M l.keys i
    let v ← Slots.rd c.M l.vals i
    let rest ← scanFrom l (i + 1) n
    pure ((k, v) :: rest)

/-- The inner loop of the range scan. -/
def rangeScan (l : SLeaf K V) (lo hi : K) : Res (List (K × V) × Bool) :=
  c.range (fun i => Slots.rd c.M l.keys i) (fun i => Slots.rd c.M l.vals i) l.num lo hi

end SLeaf

/-- The leaf layout of BPTree, PBPTree and HPBPTree.  The key written to the parent after rebalancing
is `keys[0]` (B368, B373, P444, P448, H795, H799). -/
def sortedOps : Ops K V (SLeaf K V) where
  N := c.N
  M := c.M
  search := c.bsearch
  empty := ⟨0, Slots.none, Slots.none⟩
  num := SLeaf.num
  lookup := SLeaf.lookup c
  insert := SLeaf.insert c
  erase := SLeaf.erase c
  merge := SLeaf.merge c
  balance := SLeaf.balance c
  minKey := fun l => Slots.rd c.M l.keys 0
  scan := fun l => SLeaf.scanFrom c l 0 l.num
  rangeScan := SLeaf.rangeScan c

/-- Prepend an entry to the entries seen so far. -/
def emit (e : K × V) (r : List (K × V) × Bool) : List (K × V) × Bool := (e :: r.1, r.2)

/-- BPTree.hpp:308-317: `key > maxKey` ends the scan, then `key < minKey` is skipped. -/
def rangeB (rk : Nat → Res K) (rv : Nat → Res V) (lo hi : K) (i : Nat) : Nat → Res (List (K × V) × Bool)
  | 0 => .ok ([], false)
  | n + 1 => do
    let k ← rk i
    if hi < k then pure ([], true)
    else if k < lo then rangeB rk rv lo hi (i + 1) n
    else do
      let v ← rv i
      let r ← rangeB rk rv lo hi (i + 1) n
      pure (emit (k, v) r)

/-- PBPTree.hpp:359-365: `key < minKey` is skipped, then `key > maxKey` ends the scan. -/
def rangeP (rk : Nat → Res K) (rv : Nat → Res V) (lo hi : K) (i : Nat) : Nat → Res (List (K × V) × Bool)
  | 0 => .ok ([], false)
  | n + 1 => do
    let k ← rk i
    if k < lo then rangeP rk rv lo hi (i + 1) n
    else if hi < k then pure ([], true)
    else do
      let v ← rv i
      let r ← rangeP rk rv lo hi (i + 1) n
      pure (emit (k, v) r)

/-- HPBPTree.hpp:413-423: `key > maxKey` sets a flag and goes on; the scan ends after this leaf. -/
def rangeH (rk : Nat → Res K) (rv : Nat → Res V) (lo hi : K) (i : Nat) : Nat → Res (List (K × V) × Bool)
  | 0 => .ok ([], false)
  | n + 1 => do
    let k ← rk i
    if k < lo then rangeH rk rv lo hi (i + 1) n
    else if hi < k then do
      let r ← rangeH rk rv lo hi (i + 1) n
      pure (r.1, true)
    else do
      let v ← rv i
      let r ← rangeH rk rv lo hi (i + 1) n
      pure (emit (k, v) r)

/-- BPTree<K, V, N, M>: linear search (B988-997, B1008-1017). -/
def bpCfg (N M : Nat) : SCfg K V where
  N := N
  M := M
  bsearch := fun rd n k => linearSearch false rd k 0 n
  lsearch := fun rd n k => linearSearch true rd k 0 n
  range := fun rk rv n lo hi => rangeB rk rv lo hi 0 n

/-- PBPTree<K, V, N, M>: binary search (P1145-1163). -/
def pbCfg (N M : Nat) : SCfg K V where
  N := N
  M := M
  bsearch := fun rd n k => binarySearch true rd 0 ((n : Int) - 1) k
  lsearch := fun rd n k => binarySearch false rd 0 ((n : Int) - 1) k
  range := fun rk rv n lo hi => rangeP rk rv lo hi 0 n

/-- HPBPTree<K, V, N, M>: binary search (H665-688). -/
def hpCfg (N M : Nat) : SCfg K V where
  N := N
  M := M
  bsearch := fun rd n k => binarySearch true rd 0 ((n : Int) - 1) k
  lsearch := fun rd n k => binarySearch false rd 0 ((n : Int) - 1) k
  range := fun rk rv n lo hi => rangeH rk rv lo hi 0 n

/-- The B+ tree classes. -/
def BP (N M : Nat) : Ops K V (SLeaf K V) := sortedOps (bpCfg N M)
def PB (N M : Nat) : Ops K V (SLeaf K V) := sortedOps (pbCfg N M)
def HP (N M : Nat) : Ops K V (SLeaf K V) := sortedOps (hpCfg N M)

/-! ## Iterator -/

/-- An iterator: `currentNode` (`none`: `nullptr`) and `currentPosition`. -/
structure Iter where
  node : Option Nat
  pos : Nat
deriving DecidableEq

/-- B114-127, P134-141, H199-206: the constructor used by `begin()`. -/
def Iter.begin (s : State K (SLeaf K V)) : Res Iter := do
  let id ← leftmost (sortedOps c) s.depth s.root
  pure ⟨some id, 0⟩

/-- `end()`. -/
def Iter.«end» : Iter := ⟨none, 0⟩

/-- B141-145 `operator*`. -/
def Iter.deref (h : Heap (SLeaf K V)) (it : Iter) : Res (K × V) := do
  let id ← Res.ofOption it.node
  let l ← h.get id
  let k ← Slots.rd c.M l.keys it.pos
  let v ← Slots.rd c.M l.vals it.pos
  pure (k, v)

/-- B128-137 `operator++`: `numKeys - 1` is unsigned and wraps around for an empty leaf. -/
def Iter.next (h : Heap (SLeaf K V)) (it : Iter) : Res Iter := do
  let id ← Res.ofOption it.node
  let l ← h.get id
  if l.num ≠ 0 ∧ l.num - 1 ≤ it.pos then pure ⟨h.next id, 0⟩
  else pure ⟨some id, it.pos + 1⟩

/-- `for (auto it = begin(); it != end(); ++it) use(*it);`, with a bound on the number of rounds. -/
def Iter.run (h : Heap (SLeaf K V)) : Nat → Iter → Res (List (K × V))
  | 0, it => if it = Iter.end then .ok [] else .ub
  | n + 1, it =>
    if it = Iter.end then .ok []
    else do
      let e ← it.deref c h
      let it ← it.next h
      let rest ← Iter.run h n it
      pure (e :: rest)

end Verif.BTree
