import Verif.Res

/-!
# ptries/Patricia.hpp and ptries/PTreeNode.hpp

A binary trie over byte strings with path compression.  A node holds a string of `keylen` bits, stored in
`OCTET_SPACE(keylen)` bytes; `link[0]` and `link[1]` lead to the nodes whose key continues with that bit.

Simplifications: the nodes are values, so the `parent` pointers are implicit: where the code goes from a
node to its parent the model returns to the caller.  A node that the code changes in place is replaced by
the changed value in its parent, at the link that was followed; where the code calls `parent->setChild`
the model computes the link from the child's key, as the code does.  Memory is never exhausted.  Lengths
are below `2^28` bytes (`static_cast<int>(_len * 8)` does not overflow).  The transactions are left out
here (see `Crash.lean`).
-/

namespace Verif.Patricia

open Verif

/-- PTreeNode.hpp:71-79 `PTreeNode`; `null` is the null pointer.  `link[0]` is `l`, `link[1]` is `r`. -/
inductive Node (V : Type) where
  | null
  | node (key : List UInt8) (keylen : Nat) (data : V) (alloc : Bool) (l r : Node V)
deriving DecidableEq, Repr

/-- The value type and the contents of memory. -/
structure Cfg (V : Type) where
  /-- conversion of a value to `bool`, as in `if (t->data)` -/
  truthy : V → Bool
  /-- `data` of a new node: the constructor does not initialise it -/
  junk : V
  /-- `false`: the copy loop of `setKey` as written, with `keylen` (bits) iterations; `true`: with
  `OCTET_SPACE(keylen)` (bytes) iterations, as in the line commented out above it -/
  bytes : Bool

variable {V : Type}

/-- PTreeNode.hpp:60-63 `OCTET_SPACE` (for `0 < bits`). -/
def octets (bits : Nat) : Nat := (bits - 1) / 8 + 1

/-- `K[i]` -/
def byteAt (K : List UInt8) (i : Nat) : Res UInt8 := Res.ofOption K[i]?

/-- Patricia.hpp:72-75 and PTreeNode.hpp:65-68 `CHECK_BIT`. -/
def checkBit (K : List UInt8) (L : Nat) : Res Bool := do
  let b ← byteAt K (L / 8)
  pure (b.toNat.testBit (7 - L % 8))

/-- Patricia.hpp:35-36 `bitmask`. -/
def bitmask : List UInt8 := [0x00, 0x80, 0xc0, 0xe0, 0xf0, 0xf8, 0xfc, 0xfe, 0xff]

/-- `memcmp(K1, K2, n) == 0`; both objects must have `n` bytes. -/
def sameBytes (K1 K2 : List UInt8) (n : Nat) : Res Bool :=
  if n ≤ K1.length ∧ n ≤ K2.length then .ok (decide (K1.take n = K2.take n)) else .ub

/-- Patricia.hpp:77-86 `MATCH_KEY`. -/
def matchKey (K1 K2 : List UInt8) (L : Nat) : Res Bool := do
  let first ← (if 8 ≤ L then sameBytes K1 K2 (L / 8) else pure true)
  let sec ← (if 0 < L % 8 then do
      let a ← byteAt K1 (L / 8)
      let b ← byteAt K2 (L / 8)
      let m ← byteAt bitmask (L % 8)
      pure (decide (a &&& m = b &&& m))
    else pure true)
  pure (first && sec)

/-- PTreeNode.hpp:164-167: the copy loop of `setKey` from position `i` on, `n` more iterations. -/
def copyLoop (src : List UInt8) (i : Nat) : Nat → List UInt8 → Res (List UInt8)
  | 0, dst => .ok dst
  | n + 1, dst => do
    let x ← byteAt src i
    if i < dst.length then copyLoop src (i + 1) n (dst.set i x) else .ub

/-- PTreeNode.hpp:149-174 `setKey` on a node without a key. -/
def setKey (c : Cfg V) (key : List UInt8) (keylen : Nat) : Res (List UInt8) :=
  if 0 < keylen then
    copyLoop key 0 (if c.bytes then octets keylen else keylen) (List.replicate (octets keylen) 0)
  else .ok []

/-- PTreeNode.hpp:82-93: the constructor. -/
def newNode (c : Cfg V) (key : List UInt8) (keylen : Nat) : Res (Node V) := do
  let k ← setKey c key keylen
  pure (.node k keylen c.junk false .null .null)

/-- Writing `link[b]`. -/
def Node.setLink : Node V → Bool → Node V → Node V
  | .null, _, _ => .null
  | .node k n d a l _, true, x => .node k n d a l x
  | .node k n d a _ r, false, x => .node k n d a x r

/-- PTreeNode.hpp:176-187 `setChild`. -/
def Node.setChild : Node V → Node V → Res (Node V)
  | .null, _ => .ub
  | .node .., .null => .assertFail
  | .node k n d a l r, .node k' n' d' a' l' r' => do
    let b ← checkBit k' n
    pure ((Node.node k n d a l r).setLink b (.node k' n' d' a' l' r'))

/-- PTreeNode.hpp:189-195 `unsetChild` of a child with key `key`. -/
def Node.unsetChild : Node V → List UInt8 → Res (Node V)
  | .null, _ => .ub
  | .node k n d a l r, key => do
    let b ← checkBit key n
    pure ((Node.node k n d a l r).setLink b .null)

/-- Patricia.hpp:186-189: the loop over whole bytes; `n` iterations at most. -/
def byteLoop (a b : List UInt8) (i len : Nat) : Nat → Res Nat
  | 0 => .ok len
  | n + 1 => do
    let x ← byteAt a i
    let y ← byteAt b i
    if x = y then byteLoop a b (i + 1) (len + 8) n else pure len

/-- Patricia.hpp:190-196: the loop over bits; `n` iterations at most. -/
def bitLoop (a b : List UInt8) (len : Nat) : Nat → Res Nat
  | 0 => .ok len
  | n + 1 => do
    let x ← checkBit a len
    let y ← checkBit b len
    if x ≠ y then pure len else bitLoop a b (len + 1) n

/-- Patricia.hpp:176-230 `branchNode(a, b)` up to line 224: the node that takes the place of `a`. -/
def branchNode (c : Cfg V) : Node V → Node V → Res (Node V)
  | .node ka na da aa la ra, .node kb nb db ab lb rb => do
    let a := Node.node ka na da aa la ra
    let b := Node.node kb nb db ab lb rb
    let m := if na < nb then na else nb
    let len ← byteLoop ka kb 0 0 (m / 8)
    let len ← bitLoop ka kb len (m - len)
    Res.assert (len ≠ na ∨ len ≠ nb)
    if len = na ∨ len = nb then
      if na < nb then a.setChild b else b.setChild a
    else do
      let x ← newNode c ka len
      let x ← x.setChild a
      x.setChild b
  | _, _ => .ub

/-- What `insert` does to the subtree it has descended into. -/
inductive Ins (V : Type) where
  /-- the loop ran into a null pointer -/
  | none
  /-- the node is changed in place -/
  | inPlace (n : Node V) (new : Bool)
  /-- `branchNode` returned `n` for this subtree; the parent calls `setChild` -/
  | branch (n : Node V) (new : Bool)

/-- Patricia.hpp:144-158: the insertion at the branch point. -/
def insAt (c : Cfg V) (buf : List UInt8) (len : Nat) (v : V) : Node V → Res (Ins V)
  | .null => .ub
  | .node k n d a l r => do
    let hit ← (if n = len then matchKey k buf n else pure false)
    if hit then pure (.inPlace (.node k n v a l r) (!c.truthy d))
    else do
      let t ← newNode c buf len
      let t := match t with
        | .null => .null
        | .node k' n' _ a' l' r' => .node k' n' v a' l' r'
      let x ← branchNode c (.node k n d a l r) t
      pure (.branch x true)

/-- What the parent makes of the result of the descent into `link[b]`. -/
def Ins.up (n : Node V) (b : Bool) : Ins V → Res (Ins V)
  | .none => .ub
  | .inPlace x w => .ok (.inPlace (n.setLink b x) w)
  | .branch x w => do
    let n ← n.setChild x
    pure (.inPlace n w)

/-- Patricia.hpp:126-141: the loop that looks for the branch point, and what follows it on the way back.
`buf` is the caller's memory, `len` the length of the key in bits. -/
def ins (c : Cfg V) (buf : List UInt8) (len : Nat) (v : V) : Node V → Res (Ins V)
  | .null => .ok .none
  | .node k n d a l r => do
    let m ← matchKey k buf n
    if m = false ∨ len ≤ n then insAt c buf len v (.node k n d a l r)
    else do
      let b ← checkBit buf n
      let x ← (if b then ins c buf len v r else ins c buf len v l)
      match x with
      | .none => insAt c buf len v (.node k n d a l r)
      | .inPlace y w => Ins.up (.node k n d a l r) b (.inPlace y w)
      | .branch y w => Ins.up (.node k n d a l r) b (.branch y w)

/-- Patricia.hpp:247-266: the loop of `lookup`. -/
def find (buf : List UInt8) (len : Nat) : Node V → Res (Option V)
  | .null => .ok none
  | .node k n d _ l r =>
    if n ≤ len then do
      let hit ← (if n = len then matchKey k buf n else pure false)
      if hit then pure (some d)
      else if len ≤ n then pure none
      else do
        let b ← checkBit buf n
        if b then find buf len r else find buf len l
    else .ok none

/-- What `remove` leaves of the subtree it has descended into. -/
inductive Rem (V : Type) where
  /-- the key is not there -/
  | none
  /-- the subtree, its top node still in place -/
  | kept (n : Node V)
  /-- the top node is deleted and its only child takes its place -/
  | splice (child : Node V)
  /-- the top node, with key `key`, is deleted -/
  | gone (key : List UInt8)

/-- Patricia.hpp:307-343 `deleteNode` on a node with a parent, up to the deletion. -/
def deleteNode : Node V → Rem V
  | .null => .none
  | .node k _ _ _ .null .null => .gone k
  | .node _ _ _ _ (.node k n d a l r) .null => .splice (.node k n d a l r)
  | .node _ _ _ _ .null (.node k n d a l r) => .splice (.node k n d a l r)
  | .node k n d _ (.node k0 n0 d0 a0 l0 r0) (.node k1 n1 d1 a1 l1 r1) =>
    .kept (.node k n d true (.node k0 n0 d0 a0 l0 r0) (.node k1 n1 d1 a1 l1 r1))

/-- `link[0] == nullptr || link[1] == nullptr` -/
def Node.thin : Node V → Bool
  | .node _ _ _ _ (.node ..) (.node ..) => false
  | _ => true

/-- Patricia.hpp:344-347: the deletion reaches the parent if it has lost a link; `root` says whether the
parent is the root, which is never deleted (315-318). -/
def cascade (root : Bool) (n : Node V) : Rem V := if n.thin && !root then deleteNode n else .kept n

/-- What the parent `n` makes of the result below its `link[b]`. -/
def Rem.up (root : Bool) (n : Node V) (b : Bool) : Rem V → Res (Rem V)
  | .none => .ok .none
  | .kept x => .ok (.kept (n.setLink b x))
  | .splice x => do
    let n ← n.setChild x
    pure (cascade root n)
  | .gone k => do
    let n ← n.unsetChild k
    pure (cascade root n)

/-- Patricia.hpp:278-298: the loop of `remove` and the deletions on the way back. -/
def rem (buf : List UInt8) (len : Nat) (root : Bool) : Node V → Res (Rem V)
  | .null => .ok .none
  | .node k n d a l r =>
    if n ≤ len then do
      let hit ← (if n = len then matchKey k buf n else pure false)
      if hit then pure (if root then .none else deleteNode (.node k n d a l r))
      else if len ≤ n then pure .none
      else do
        let b ← checkBit buf n
        let x ← (if b then rem buf len false r else rem buf len false l)
        Rem.up root (.node k n d a l r) b x
    else .ok .none

/-- Patricia.hpp:89-90: `dataCount` (an `unsigned int`) and `root`. -/
structure Tree (V : Type) where
  count : BitVec 32
  root : Node V

/-- Patricia.hpp:93-100: the constructor. -/
def Tree.empty (c : Cfg V) : Tree V := ⟨0, .node [] 0 c.junk false .null .null⟩

/-- Patricia.hpp:108-162 `insert(key, len, data)`: the tree and the result.  The branch that replaces the
root is always the root itself, since its key is empty. -/
def Tree.insert (c : Cfg V) (t : Tree V) (buf : List UInt8) (len : Nat) (v : V) : Res (Tree V × Bool) := do
  Res.assert (0 < len * 8)
  let x ← ins c buf (len * 8) v t.root
  match x with
  | .none => .ub
  | .inPlace n w | .branch n w => pure (⟨if w then t.count + 1 else t.count, n⟩, w)

/-- Patricia.hpp:232-267 `lookup(key, len, val)`: `none` for `false`, otherwise the value stored to `*val`. -/
def Tree.lookup (t : Tree V) (buf : List UInt8) (len : Nat) : Res (Option V) := do
  Res.assert (0 < len * 8)
  find buf (len * 8) t.root

/-- Patricia.hpp:269-305 `remove(key, len)`. -/
def Tree.remove (t : Tree V) (buf : List UInt8) (len : Nat) : Res (Tree V × Bool) := do
  Res.assert (0 < len * 8)
  let x ← rem buf (len * 8) true t.root
  match x with
  | .none => pure (t, false)
  | .kept n => pure (⟨t.count - 1, n⟩, true)
  | .splice _ | .gone _ => .ub

/-- PTreeNode.hpp:231-245 `subNodes`. -/
def Node.subNodes : Node V → Nat
  | .null => 0
  | .node _ _ _ _ l r => l.subNodes + r.subNodes + 1

/-- Patricia.hpp:352-356 `getSubnodes`. -/
def Tree.getSubnodes (t : Tree V) : Nat := t.root.subNodes

end Verif.Patricia
