import Verif.BitTree.Model

/-!
# Erase of BitHPBPTree and BitPBPTree

Line numbers: BitHPBPTree.hpp / BitPBPTree.hpp.  The leaf level of both files is the same code.  A deleted
leaf keeps its index; its index is entered in the list `dead`, and any access to it afterwards is `ub`.
An underflow below a root of depth 2 or more is outside this model (`none`); `Deep.lean` completes it by the handling of
underflows of branch nodes (740-897/690-871).
-/

namespace Verif.BitTree

open Verif Search FPTree BTree

variable {K V : Type} {M : Nat} [LinearOrder K] [Inhabited K] (c : Cfg K V)

/-- Dereferencing a leaf pointer: null, dangling and deleted pointers are `ub`. -/
def deref (h : Heap M K V) (dead : List Nat) (i : Option Nat) : Res (Nat × Cell M K V) := do
  let i ← Res.ofOption i
  if i ∈ dead then .ub
  else do
    let x ← Res.ofOption h[i]?
    pure (i, x)

namespace Leaf

/-- 660-680/624-645: the loop of `balanceLeafNodes`; `up` takes the maximum of the donor, otherwise its minimum. -/
def balanceLoop (up : Bool) (donor recv : Leaf M K V) : Nat → Res (Leaf M K V × Leaf M K V)
  | 0 => .ok (donor, recv)
  | n + 1 => do
    let m ← (if up then donor.maxPos c else donor.minPos c)
    let k ← rdA M donor.keys m
    let v ← rdA M donor.vals m
    let recv ← recv.fill recv.bits.getFreeZero k v
    let b ← donor.bits.reset m
    balanceLoop up { donor with bits := b } recv n

/-- 640-681/599-650 `balanceLeafNodes`: donor and receiver afterwards. -/
def balance (donor recv : Leaf M K V) : Res (Leaf M K V × Leaf M K V) := do
  let dn := donor.bits.count
  let rn := recv.bits.count
  Res.assert (rn < dn)
  let toMove := dn - (dn + rn) / 2
  if toMove = 0 then pure (donor, recv)
  else do
    let a ← rdA M donor.keys 0
    let b ← rdA M recv.keys 0
    balanceLoop c (decide (a < b)) donor recv toMove

/-- 619-626/571-578: the loop of `mergeLeafNodes`. -/
def mergeLoop (l1 l2 : Leaf M K V) (i : Nat) : Nat → Res (Leaf M K V)
  | 0 => .ok l1
  | n + 1 => do
    let b ← l2.bits.test i
    if b then do
      let k ← rdA M l2.keys i
      let v ← rdA M l2.vals i
      let l1 ← l1.fill l1.bits.getFreeZero k v
      mergeLoop l1 l2 (i + 1) n
    else mergeLoop l1 l2 (i + 1) n

end Leaf

/-- 605-630/555-590 `mergeLeafNodes(i1, i2)` with the links. -/
def mergeLeaves (h : Heap M K V) (dead : List Nat) (i1 i2 : Option Nat) : Res (Heap M K V) := do
  Res.assert i1.isSome
  Res.assert i2.isSome
  let (i1, x1) ← deref h dead i1
  let (_, x2) ← deref h dead i2
  Res.assert (x1.leaf.bits.count + x2.leaf.bits.count ≤ M)
  let l ← x1.leaf.mergeLoop x2.leaf 0 M
  let h := h.set i1 { x1 with leaf := l, next := x2.next }
  match x2.next with
  | none => pure h
  | some _ => do
    let (j, y) ← deref h dead x2.next
    pure (h.set j { y with prev := some i1 })

/-- `(M + 1) / 2`. -/
def middle (M : Nat) : Nat := (M + 1) / 2

/-- What a handled underflow leaves: heap, deleted leaves, branch node, and the new root if the node is empty. -/
structure Under (N M : Nat) (K V : Type) where
  heap : Heap M K V
  dead : List Nat
  node : Branch N K Nat
  root : Option Nat

/-- 588-593/526-531: an emptied branch node is replaced by the surviving leaf. -/
def settle {N : Nat} (h : Heap M K V) (dead : List Nat) (b : Branch N K Nat) (survivor : Nat) : Under N M K V :=
  ⟨h, dead, b, if b.bits.count = 0 then some survivor else none⟩

/-- 538-596/472-533 `underflowAtLeafLevel`.  In the merge with the right neighbour (577-585/514-521) the leaf
deleted is the one `leaf->nextLeaf` points to *after* `mergeLeafNodes` has redirected that pointer, and
`deleteLeafNode` then sets the pointer to null. -/
def underLeaf (h : Heap M K V) (dead : List Nat) (b : Branch c.N K Nat) (pos id : Nat) : Res (Under c.N M K V) := do
  Res.assert (pos ≤ c.N)
  let (_, x) ← deref h dead (some id)
  let prevNum ← (if 0 < pos then do
      let y ← deref h dead x.prev
      pure y.2.leaf.bits.count
    else pure 0)
  if middle M < prevNum then do
    let (i, y) ← deref h dead x.prev
    let (d, r) ← y.leaf.balance c x.leaf
    let m ← r.minPos c
    let newMin ← rdA M r.keys m
    let pp ← findMinKeyPosGreaterThan c.lim (fun i : Fin M => r.keys i) r.bits newMin
    if c.N ≤ pp then .ub
    else pure ⟨(h.set i { y with leaf := d }).set id { x with leaf := r }, dead,
      { b with keys := upd b.keys pp newMin }, none⟩
  else do
    let nextNum ← (if pos < c.N then do
        let y ← deref h dead x.next
        pure y.2.leaf.bits.count
      else pure 0)
    if pos < c.N ∧ middle M < nextNum then do
      let (i, y) ← deref h dead x.next
      let (d, r) ← y.leaf.balance c x.leaf
      let m ← d.minPos c
      let newMin ← rdA M d.keys m
      pure ⟨(h.set i { y with leaf := d }).set id { x with leaf := r }, dead,
        { b with keys := upd b.keys pos newMin }, none⟩
    else do
      let first ← findMinKeyPosBits c.lim (fun i : Fin c.N => b.keys i) b.bits
      if first ≠ pos then do
        let h1 ← mergeLeaves h dead x.prev (some id)
        let s ← Res.ofOption x.prev
        let pp ← (if pos = c.N then findMaxKeyPosBits c.lim (fun i : Fin c.N => b.keys i) b.bits
          else do
            let k ← rdA c.N b.keys pos
            findMaxKeyPosSmallerThan c.lim (fun i : Fin c.N => b.keys i) b.bits k)
        let kid ← rdA (c.N + 1) b.kids pp
        let bits ← b.bits.reset pp
        pure (settle h1 (id :: dead) { b with bits := bits, kids := upd b.kids pos kid } s)
      else if pos < c.N then do
        let h1 ← mergeLeaves h dead (some id) x.next
        let (_, x1) ← deref h1 dead (some id)
        let dead1 := match x1.next with
          | none => dead
          | some j => j :: dead
        let k ← rdA c.N b.keys pos
        let np ← findMinKeyPosGreaterThan c.lim (fun i : Fin c.N => b.keys i) b.bits k
        let kid ← rdA (c.N + 1) b.kids pos
        let bits ← b.bits.reset pos
        pure (settle (h1.set id { x1 with next := none }) dead1
          { b with bits := bits, kids := upd b.kids np kid } id)
      else .assertFail

/-- The tree with the leaves deleted so far. -/
structure EStore (c : Cfg K V) (M : Nat) where
  st : Store c M
  dead : List Nat

/-- 716-717/681-682: the test for an underflow of a branch node; leaves have their own test. -/
def thin (c : Cfg K V) : (d : Nat) → Tree c.N K d → Bool
  | 0, _ => false
  | _ + 1, b => decide ((Branch.bits b).count < (c.N + 1) / 2)

/-- Erase up to the handling of underflows: heap, whether the key was there, and whether an underflow is
handled on the way back (504-526, 695-717/438-460, 661-682). -/
def eraseAt : (d : Nat) → Heap M K V → List Nat → Tree c.N K d → K → Res (Heap M K V × Bool × Bool)
  | 0, h, dead, id, k => do
    let (id, x) ← deref h dead (some id)
    let (l, r) ← x.leaf.erase k
    pure (h.set id { x with leaf := l }, r, decide (l.bits.count < middle M))
  | d + 1, h, dead, b, k => do
    let p ← Branch.pos c.lim b k
    let ch ← Branch.kid b p
    let r ← eraseAt d h dead ch k
    pure (r.1, r.2.1, r.2.2 || thin c d ch)

namespace EStore

variable {c}

/-- 373-386/328-341 `erase`; `none`: an underflow in a tree of depth 2 or more. -/
def erase : EStore c M → K → Res (Option (EStore c M × Bool))
  | ⟨⟨0, root, heap, first⟩, dead⟩, k => do
    let r ← eraseAt c 0 heap dead root k
    pure (some (⟨⟨0, root, r.1, first⟩, dead⟩, r.2.1))
  | ⟨⟨1, root, heap, first⟩, dead⟩, k => do
    let r ← eraseAt c 1 heap dead root k
    if r.2.2 then do
      let b : Branch c.N K Nat := root
      let p ← b.pos c.lim k
      let id ← b.kid p
      let u ← underLeaf c r.1 dead b p id
      match u.root with
      | none => pure (some (⟨⟨1, u.node, u.heap, first⟩, u.dead⟩, r.2.1))
      | some i => pure (some (⟨⟨0, i, u.heap, first⟩, u.dead⟩, r.2.1))
    else pure (some (⟨⟨1, root, r.1, first⟩, dead⟩, r.2.1))
  | ⟨⟨d + 2, root, heap, first⟩, dead⟩, k => do
    let r ← eraseAt c (d + 2) heap dead root k
    if r.2.2 then pure none
    else pure (some (⟨⟨d + 2, root, r.1, first⟩, dead⟩, r.2.1))

/-- 354-365/309-320 `lookup`, `ub` if it ends in a deleted leaf. -/
def lookup (t : EStore c M) (k : K) : Res (Option V) := do
  let id ← findLeaf c t.st.depth t.st.root k
  let (_, x) ← deref t.st.heap t.dead (some id)
  x.leaf.lookup k

/-- 321-345/275-300 `insert`, `ub` if it ends in a deleted leaf.  (A split also writes to the next leaf of the list;
whether that one is deleted is not checked.) -/
def insert (t : EStore c M) (k : K) (v : V) : Res (EStore c M) := do
  let id ← findLeaf c t.st.depth t.st.root k
  let _ ← deref t.st.heap t.dead (some id)
  let s ← t.st.insert k v
  pure ⟨s, t.dead⟩

end EStore

/-- The operations of a history. -/
inductive Op (K V : Type) where
  | ins (k : K) (v : V)
  | del (k : K)

/-- A history; the results of the erases in order. -/
def run {c : Cfg K V} : List (Op K V) → EStore c M → Res (Option (EStore c M × List Bool))
  | [], t => .ok (some (t, []))
  | .ins k v :: ops, t => do
    let t ← t.insert k v
    run ops t
  | .del k :: ops, t => do
    let r ← t.erase k
    match r with
    | none => pure none
    | some (t, b) => do
      let r ← run ops t
      pure (r.map fun x => (x.1, b :: x.2))

end Verif.BitTree
