import Verif.BitTree.Erase

/-!
# Erase of BitHPBPTree and BitPBPTree in trees of any depth

Line numbers: BitHPBPTree.hpp / BitPBPTree.hpp.  Completes `Verif/BitTree/Erase.lean` by the handling of underflows of
branch nodes.  Branch nodes are values: a changed child is written back to its slot.  A slot whose bit is reset keeps
its old child; no function reads a child through such a slot.  A deleted branch node is `none`.
-/

namespace Verif.BitTree

open Verif Search FPTree BTree

variable {K V : Type} {M N : Nat} {C : Type} [LinearOrder K] [Inhabited K]

namespace Branch

/-- Slot `u` gets key and child, and its bit is set (e.g. 808-811, 813-818/766-769, 772-777). -/
def fill (b : Branch N K C) (u : Nat) (k : K) (x : Option C) : Res (Branch N K C) := do
  Res.guardUB (u < N)
  let bits ← b.bits.set u
  pure ⟨bits, upd b.keys u k, upd b.kids u x⟩

/-- 812-819/771-778: the loop of `mergeBranchNodes`.  It runs over `M` positions of a node with `N`. -/
def mergeLoop (s n : Branch N K C) (i : Nat) : Nat → Res (Branch N K C)
  | 0 => .ok s
  | m + 1 => do
    let b ← n.bits.test i
    if b then do
      let k ← rdA N n.keys i
      let x ← rdA (N + 1) n.kids i
      let s ← s.fill s.bits.getFreeZero k x
      mergeLoop s n (i + 1) m
    else mergeLoop s n (i + 1) m

/-- 798-821/750-780 `mergeBranchNodes`. -/
def merge (lim : Limits K) (M : Nat) (s : Branch N K C) (k : K) (n : Branch N K C) : Res (Branch N K C) := do
  let p ← findMinKeyPosBits lim (fun i : Fin N => n.keys i) n.bits
  let kn ← rdA N n.keys p
  Res.assert (k ≤ kn)
  let q ← findMaxKeyPosBits lim (fun i : Fin N => s.keys i) s.bits
  let ks ← rdA N s.keys q
  Res.assert (ks < k)
  let s ← s.fill s.bits.getFreeZero k (s.kids N)
  let s ← s.mergeLoop n 0 M
  pure { s with kids := upd s.kids N (n.kids N) }

/-- 855-862, 876-883/820-827, 841-848: the loops of `balanceBranchNodes`; `up` takes the maximum of the donor,
otherwise its minimum. -/
def moveLoop (lim : Limits K) (up : Bool) (d r : Branch N K C) : Nat → Res (Branch N K C × Branch N K C)
  | 0 => .ok (d, r)
  | n + 1 => do
    let m ← (if up then findMaxKeyPosBits lim (fun i : Fin N => d.keys i) d.bits
      else findMinKeyPosBits lim (fun i : Fin N => d.keys i) d.bits)
    let k ← rdA N d.keys m
    let x ← rdA (N + 1) d.kids m
    let r ← r.fill r.bits.getFreeZero k x
    let bits ← d.bits.reset m
    moveLoop lim up { d with bits := bits } r n

/-- 833-890/792-855 `balanceBranchNodes`: donor, receiver and the key at `pos` in the parent afterwards. -/
def balance (lim : Limits K) (d r : Branch N K C) (k : K) : Res (Branch N K C × Branch N K C × K) := do
  let dn := d.bits.count
  let rn := r.bits.count
  Res.assert (rn < dn)
  let toMove := dn - (dn + rn) / 2
  if toMove = 0 then pure (d, r, k)
  else do
    let a ← rdA N d.keys d.bits.getFirstSet
    let b ← rdA N r.keys r.bits.getFirstSet
    if a < b then do
      let r ← r.fill r.bits.getFreeZero k (d.kids N)
      let (d, r) ← moveLoop lim true d r (toMove - 1)
      let m ← findMaxKeyPosBits lim (fun i : Fin N => d.keys i) d.bits
      let x ← rdA (N + 1) d.kids m
      let k ← rdA N d.keys m
      let bits ← d.bits.reset m
      pure (⟨bits, d.keys, upd d.kids N x⟩, r, k)
    else do
      let r ← r.fill r.bits.getFreeZero k (r.kids N)
      let (d, r) ← moveLoop lim false d r (toMove - 1)
      let m ← findMinKeyPosBits lim (fun i : Fin N => d.keys i) d.bits
      let x ← rdA (N + 1) d.kids m
      let k ← rdA N d.keys m
      let bits ← d.bits.reset m
      pure ({ d with bits := bits }, { r with kids := upd r.kids N x }, k)

/-- 740-788/690-740 `underflowAtBranchLevel`: the node `b` and the returned child.  `child` is the child in slot `pos`.
The rightmost child has no key of its own: `keys[pos]` is then outside the array.  In the merge with the left neighbour
`child` is deleted, in the one with the right neighbour that neighbour is; its slot keeps the pointer. -/
def under (lim : Limits K) (M : Nat) (b : Branch N K (Branch N K C)) (pos : Nat) (child : Branch N K C) :
    Res (Branch N K (Branch N K C) × Branch N K C) := do
  let first ← findMinKeyPosBits lim (fun i : Fin N => b.keys i) b.bits
  let k ← rdA N b.keys pos
  let prevPos ← findMaxKeyPosSmallerThan lim (fun i : Fin N => b.keys i) b.bits k
  let prev ← b.kid prevPos
  let nextPos ← findMinKeyPosGreaterThan lim (fun i : Fin N => b.keys i) b.bits k
  let next ← b.kid nextPos
  if first ≠ pos ∧ (N + 1) / 2 < prev.bits.count then do
    Res.assert (prevPos ≠ N)
    let (d, r, k) ← balance lim prev child k
    pure (⟨b.bits, upd b.keys pos k, upd (upd b.kids prevPos (some d)) pos (some r)⟩, r)
  else if pos < N ∧ (N + 1) / 2 < next.bits.count then do
    let (d, r, k) ← balance lim next child k
    pure (⟨b.bits, upd b.keys pos k, upd (upd b.kids nextPos (some d)) pos (some r)⟩, r)
  else if first ≠ pos then do
    let s ← merge lim M prev k child
    let bits ← b.bits.reset pos
    let kids := upd (upd b.kids prevPos (some s)) pos none
    pure (⟨bits, b.keys, if pos = N then upd kids N none else kids⟩, s)
  else if pos < N then do
    let s ← merge lim M child k next
    let bits ← b.bits.reset pos
    let mx ← findMaxKeyPosBits lim (fun i : Fin N => b.keys i) bits
    let kids := upd (upd b.kids nextPos none) pos (some s)
    pure (⟨bits, b.keys, if pos = mx then upd kids N (some s) else kids⟩, s)
  else .assertFail

end Branch

variable (c : Cfg K V)

/-- 695-727/644-677 `eraseFromBranchNode` of a node above subtrees of depth `d`: heap, deleted leaves, the node or, if the
root is given up, the new root, and whether the key was there.  `root` says whether the node is the root.  Only the root
may be given up: if another node loses its last key to a merge of leaves, 588-593/526-531 make a leaf the root of a
tree of greater depth, which is counted as `ub` here. -/
def eraseNode : (d : Nat) → Bool → Heap M K V → List Nat → Branch c.N K (Tree c.N K d) → K →
    Res (Heap M K V × List Nat × (Branch c.N K (Tree c.N K d) ⊕ Tree c.N K d) × Bool)
  | 0, root, h, dead, b, k => do
    let p ← b.pos c.lim k
    let ch ← b.kid p
    let (id, x) ← deref h dead (some ch)
    let (l, r) ← x.leaf.erase k
    let h := h.set id { x with leaf := l }
    if l.bits.count < middle M then do
      let u ← underLeaf c h dead b p id
      match u.root with
      | none => pure (u.heap, u.dead, .inl u.node, r)
      | some i => if root then pure (u.heap, u.dead, .inr i, r) else .ub
    else pure (h, dead, .inl b, r)
  | d + 1, root, h, dead, b, k => do
    let p ← b.pos c.lim k
    let ch ← b.kid p
    let (h, dead, o, r) ← eraseNode d false h dead ch k
    match o with
    | .inr _ => .ub
    | .inl ch => do
      let b : Branch c.N K (Branch c.N K (Tree c.N K d)) := { b with kids := upd b.kids p (some ch) }
      if ch.bits.count < (c.N + 1) / 2 then do
        let (b, ch) ← b.under c.lim M p ch
        if root = true ∧ b.bits.count = 0 then pure (h, dead, .inr ch, r)
        else pure (h, dead, .inl b, r)
      else pure (h, dead, .inl b, r)

namespace EStore

variable {c}

/-- 373-386/328-341 `erase` for trees of any depth. -/
def eraseFull : EStore c M → K → Res (EStore c M × Bool)
  | ⟨⟨0, root, heap, first⟩, dead⟩, k => do
    let (id, x) ← deref heap dead (some root)
    let (l, r) ← x.leaf.erase k
    pure (⟨⟨0, root, heap.set id { x with leaf := l }, first⟩, dead⟩, r)
  | ⟨⟨d + 1, root, heap, first⟩, dead⟩, k => do
    let (h, dead, o, r) ← eraseNode c d true heap dead root k
    match o with
    | .inl b => pure (⟨⟨d + 1, b, h, first⟩, dead⟩, r)
    | .inr t => pure (⟨⟨d, t, h, first⟩, dead⟩, r)

end EStore

/-- A history; the results of the erases in order. -/
def runFull {c : Cfg K V} : List (Op K V) → EStore c M → Res (EStore c M × List Bool)
  | [], t => .ok (t, [])
  | .ins k v :: ops, t => do
    let t ← t.insert k v
    runFull ops t
  | .del k :: ops, t => do
    let (t, b) ← t.eraseFull k
    let (t, bs) ← runFull ops t
    pure (t, b :: bs)

end Verif.BitTree
