import Verif.BTree.Model
import Verif.Search.Model

/-!
# Leaf nodes of the FPTree (src/pbptrees/FPTree.hpp)

A leaf has a bitmap of valid slots, one fingerprint byte per slot, and unsorted arrays of keys and
values.  The branch levels of FPTree.hpp are the same code as those of BPTree.hpp (modelled in
`Verif.BTree.Model`), with the binary search in branch nodes.

Simplifications:
* The arrays `fp`, `keys`, `values` of a new leaf are not initialised by the code; lookups do read the
  fingerprints of unused slots.  In the model a new leaf has arbitrary contents, given by the parameter
  `junk` (all theorems hold for every `junk`).
* `PersistEmulation::writeBytes` (a statistics hook) is dropped.
-/

namespace Verif.FPTree

open Verif Search BTree

variable {K V : Type} {M : Nat}

/-- FPTree.hpp:116-139 `LeafNode` without the links. -/
structure FLeaf (M : Nat) (K V : Type) where
  bits : Bitmap M
  fp : Nat → Nat
  keys : Nat → K
  vals : Nat → V

/-- The template and type parameters: `N`, the fingerprint `fpHash`, `std::numeric_limits<KeyType>`,
the conversions between `KeyType` and `size_t`, and the contents of uninitialised memory. -/
structure FCfg (K V : Type) where
  N : Nat
  hash : K → Nat
  lim : Limits K
  cv : Conv K
  junkFp : Nat → Nat
  junkKeys : Nat → K
  junkVals : Nat → V

variable [LinearOrder K] [Inhabited K] (c : FCfg K V)

/-- 120 `LeafNode()`: all bits zero. -/
def FLeaf.new (M : Nat) : FLeaf M K V := ⟨Bitmap.fresh M, c.junkFp, c.junkKeys, c.junkVals⟩

/-- Array access `a[i]` on an array of capacity `M`. -/
def rdA {β : Type} (M : Nat) (a : Nat → β) (i : Nat) : Res β := if i < M then .ok (a i) else .ub

namespace FLeaf

/-- 749-750: the loop of `lookupPositionInLeafNode` from slot `i` on. -/
def posLoop (l : FLeaf M K V) (h : Nat) (k : K) (i : Nat) : Nat → Res Nat
  | 0 => .ok i
  | n + 1 => do
    let f ← rdA M l.fp i
    if f = h then do
      let b ← l.bits.test i
      if b then do
        let x ← rdA M l.keys i
        if x = k then pure i else posLoop l h k (i + 1) n
      else posLoop l h k (i + 1) n
    else posLoop l h k (i + 1) n

/-- 741-752 `lookupPositionInLeafNode`: `M` if the key is not there. -/
def pos (l : FLeaf M K V) (k : K) : Res Nat := posLoop l (c.hash k) k 0 M

/-- 340-350: the part of `lookup` after the leaf has been found. -/
def lookup (l : FLeaf M K V) (k : K) : Res (Option V) := do
  let p ← pos c l k
  if p < M then do
    let v ← rdA M l.vals p
    pure (some v)
  else pure none

/-- Writing key, value and fingerprint of slot `p` and setting its bit; `set` throws for `p ≥ M`. -/
def fill (l : FLeaf M K V) (p : Nat) (f : Nat) (k : K) (v : V) : Res (FLeaf M K V) := do
  let b ← l.bits.set p
  pure ⟨b, upd l.fp p f, upd l.keys p k, upd l.vals p v⟩

/-- 611-624 `insertInLeafNodeAtPosition`. -/
def insertAt (l : FLeaf M K V) (p : Nat) (k : K) (v : V) : Res (FLeaf M K V) := do
  Res.assert (p < M)
  fill l p (c.hash k) k v

/-- 566-575: the loop of `splitLeafNode` from slot `i` on; `j` slots of the sibling are used. -/
def splitLoop (sk : K) (i j : Nat) (l s : FLeaf M K V) : Nat → Res (FLeaf M K V × FLeaf M K V)
  | 0 => .ok (l, s)
  | n + 1 => do
    let x ← rdA M l.keys i
    if sk ≤ x then do
      let v ← rdA M l.vals i
      let f ← rdA M l.fp i
      let s ← fill s j f x v
      let b ← l.bits.reset i
      splitLoop sk (i + 1) (j + 1) { l with bits := b } s n
    else splitLoop sk (i + 1) j l s n

/-- 539-597 `splitLeafNode` without the links: node, sibling and split key. -/
def split (l : FLeaf M K V) : Res (FLeaf M K V × FLeaf M K V × K) := do
  let r ← findSplitKey c.cv M ⟨M, l.keys⟩
  let sk ← rdA M l.keys r.2
  let ls ← splitLoop sk 0 0 l (FLeaf.new c M) M
  pure (ls.1, ls.2, sk)

/-- `findMaxKeyPos(keys, bits)`. -/
def maxPos (l : FLeaf M K V) : Res Nat := findMaxKeyPosBits c.lim (fun i : Fin M => l.keys i) l.bits

/-- `findMinKeyPos(keys, bits)`. -/
def minPos (l : FLeaf M K V) : Res Nat := findMinKeyPosBits c.lim (fun i : Fin M => l.keys i) l.bits

/-- 492-530 `insertInLeafNode`. -/
def insert (l : FLeaf M K V) (k : K) (v : V) : Res (LeafIns K (FLeaf M K V)) := do
  let p ← pos c l k
  if p < M then pure (.done { l with vals := upd l.vals p v })
  else if l.bits.getFreeZero = M then do
    let r ← split c l
    if r.2.2 < k then do
      let s ← insertAt c r.2.1 r.2.1.bits.getFreeZero k v
      pure (.split r.1 s r.2.2)
    else do
      let mp ← maxPos c r.1
      let mx ← rdA M r.1.keys mp
      if mx < k then do
        let s ← insertAt c r.2.1 r.2.1.bits.getFreeZero k v
        pure (.split r.1 s k)
      else do
        let n ← insertAt c r.1 r.1.bits.getFreeZero k v
        pure (.split n r.2.1 r.2.2)
  else do
    let l ← insertAt c l l.bits.getFreeZero k v
    pure (.done l)

/-- 781-805 `eraseFromLeafNode`, `eraseFromLeafNodeAtPosition`. -/
def erase (l : FLeaf M K V) (k : K) : Res (Bool × FLeaf M K V) := do
  let p ← pos c l k
  if p < M then do
    let b ← l.bits.reset p
    pure (true, { l with bits := b })
  else pure (false, l)

/-- 1133-1141: the loop of `mergeLeafNodes` from slot `i` of the second node on. -/
def mergeLoop (b : FLeaf M K V) (i : Nat) (a : FLeaf M K V) : Nat → Res (FLeaf M K V)
  | 0 => .ok a
  | n + 1 => do
    let t ← b.bits.test i
    if t then do
      let f ← rdA M b.fp i
      let x ← rdA M b.keys i
      let v ← rdA M b.vals i
      let a ← fill a a.bits.getFreeZero f x v
      mergeLoop b (i + 1) a n
    else mergeLoop b (i + 1) a n

/-- 1114-1151 `mergeLeafNodes` without the links. -/
def merge (a b : FLeaf M K V) : Res (FLeaf M K V) := do
  Res.assert (a.bits.count + b.bits.count ≤ M)
  mergeLoop b 0 a M

/-- One round of the loops 1011-1019 and 1022-1030: move slot `p` of the donor to the receiver. -/
def moveOne (d r : FLeaf M K V) (p : Nat) : Res (FLeaf M K V × FLeaf M K V) := do
  let x ← rdA M d.keys p
  let v ← rdA M d.vals p
  let r ← fill r r.bits.getFreeZero (c.hash x) x v
  let b ← d.bits.reset p
  pure ({ d with bits := b }, r)

/-- The loops 1011-1019 (`up`: the largest entries) and 1022-1030 (the smallest entries). -/
def moveLoop (up : Bool) : Nat → FLeaf M K V → FLeaf M K V → Res (FLeaf M K V × FLeaf M K V)
  | 0, d, r => .ok (d, r)
  | n + 1, d, r => do
    let p ← (if up then maxPos c d else minPos c d)
    let dr ← moveOne c d r p
    moveLoop up n dr.1 dr.2

/-- 991-1037 `balanceLeafNodes(donor, receiver)`; the direction is chosen by `keys[0]` of both nodes,
whether or not these slots are valid. -/
def balance (d r : FLeaf M K V) : Res (FLeaf M K V × FLeaf M K V) := do
  Res.assert (r.bits.count < d.bits.count)
  let balanced := (d.bits.count + r.bits.count) / 2
  let toMove := d.bits.count - balanced
  if toMove = 0 then pure (d, r)
  else do
    let dk ← rdA M d.keys 0
    let rk ← rdA M r.keys 0
    if dk < rk then moveLoop c true toMove d r else moveLoop c false toMove d r

/-- 873, 879: the key written into the parent, `keys[findMinKeyPos(keys, bits)]`. -/
def minKey (l : FLeaf M K V) : Res K := do
  let p ← minPos c l
  rdA M l.keys p

/-- 435-440: the entries visited by `scan` in this leaf, from slot `i` on. -/
def scanFrom (l : FLeaf M K V) (i : Nat) : Nat → Res (List (K × V))
  | 0 => .ok []
  | n + 1 => do
    let b ← l.bits.test i
    let rest ← scanFrom l (i + 1) n
    if b then pure ((l.keys i, l.vals i) :: rest) else pure rest

/-- 464-472: the loop of the range scan from slot `i` on. -/
def rangeFrom (l : FLeaf M K V) (lo hi : K) (i : Nat) : Nat → Res (List (K × V) × Bool)
  | 0 => .ok ([], false)
  | n + 1 => do
    let b ← l.bits.test i
    if b then
      if l.keys i < lo then rangeFrom l lo hi (i + 1) n
      else if hi < l.keys i then do
        let r ← rangeFrom l lo hi (i + 1) n
        pure (r.1, true)
      else do
        let r ← rangeFrom l lo hi (i + 1) n
        pure ((l.keys i, l.vals i) :: r.1, r.2)
    else rangeFrom l lo hi (i + 1) n

end FLeaf

/-- FPTree<K, V, N, M>; the branch search (765-772) is the binary search. -/
def fpOps (M : Nat) : Ops K V (FLeaf M K V) where
  N := c.N
  M := M
  search := fun rd n k => binarySearch true rd 0 ((n : Int) - 1) k
  empty := FLeaf.new c M
  num := fun l => l.bits.count
  lookup := FLeaf.lookup c
  insert := FLeaf.insert c
  erase := FLeaf.erase c
  merge := FLeaf.merge
  balance := FLeaf.balance c
  minKey := FLeaf.minKey c
  scan := fun l => FLeaf.scanFrom l 0 M
  rangeScan := fun l lo hi => FLeaf.rangeFrom l lo hi 0 M

/-- 1314-1316 `fpHash` for `int` keys: `k & 0xFF`. -/
def hashInt (k : Int) : Nat := (k % 256).toNat

/-- The limits of `int`. -/
def limInt : Limits Int := ⟨-2 ^ 31, 2 ^ 31 - 1⟩

/-- FPTree<int, V, N, M>. -/
def cfgInt (N : Nat) (jf : Nat → Nat) (jk : Nat → Int) (jv : Nat → V) : FCfg Int V where
  N := N
  hash := hashInt
  lim := limInt
  cv := convInt
  junkFp := jf
  junkKeys := jk
  junkVals := jv

end Verif.FPTree
