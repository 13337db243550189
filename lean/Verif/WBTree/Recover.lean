import Mathlib.Data.Nat.Log
import Verif.WBTree.Model

/-!
# wHBPTree.hpp: recovery

The branch nodes of `wHBPTree` are volatile.  After a restart `recover` builds new ones from the list of leaves,
which starts at `leafList`, the leaf the constructor has made (wHBPTree.hpp:294-295); it has the address `0`.

Simplifications: the pointers to the lost branch nodes are forgotten, the heap of branch nodes starts empty.
wHBPTree.hpp:402-403 asserts that the number of leaves is a power of `N + 1` by computing a logarithm in floating
point; here the power is exact.  `dbg` says whether assertions are checked.  The walks along the list of leaves are
bounded by the number of allocated leaves; a walk that is longer runs in a circle (`ub`).
-/

namespace Verif.WBTree

variable {K V : Type} [LinearOrder K] {N M : Nat}

/-- wHBPTree.hpp:1281, 1287: `leafRef.keys.get_ro()[lSlotArray[1]]`. -/
def Leaf.firstKey (l : Leaf K V M) : Res K := do
  let s ← l.slot.rd (M + 1) 1
  l.keys.rd M s

/-- wHBPTree.hpp:1277-1279, 1301-1303: a new branch node with the only child `c`. -/
def Branch.only (junk : Option Nat) (c : Nat) : Res (Branch K N) := do
  let b : Branch K N := Branch.fresh N junk
  let slot ← b.slot.wr (N + 1) 1 0
  let kids ← b.kids.wr (N + 1) 0 c
  pure { b with slot := slot, kids := kids }

/-- wHBPTree.hpp:1286-1292, 1310-1316: the separator `key` and the child `c` behind it are appended. -/
def Branch.append (b : Branch K N) (key : K) (c : Nat) : Res (Branch K N) := do
  let n ← b.slot.rd (N + 1) 0
  let bits ← b.bits.set n true
  let keys ← b.keys.wr N n key
  let kids ← (if 0 < n then do
      let z ← b.kids.rd (N + 1) N
      b.kids.wr (N + 1) n z
    else pure b.kids)
  let kids ← kids.wr (N + 1) N c
  let slot ← b.slot.wr (N + 1) (n + 1) n
  let slot ← slot.wr (N + 1) 0 (n + 1)
  pure ⟨slot, bits, keys, kids⟩

/-- wHBPTree.hpp:1275-1294, 1300-1318: the separator `key` and the child `c` behind it enter the branch node `a`; if it
is full, `c` becomes the only child of a new node, which is returned with the separator. -/
def recAdd (junk : Option Nat) (t : Tree K V N M) (a : Nat) (key : K) (c : Nat) :
    Res (Tree K V N M × Option (K × Nat)) := do
  let b ← t.branch a
  let n ← b.slot.rd (N + 1) 0
  if n = N then do
    let sib ← Branch.only junk c
    pure ({ t with branches := t.branches ++ [sib] }, some (key, t.branches.length))
  else do
    let b ← b.append key c
    pure ({ t with branches := t.branches.set a b }, none)

/-- wHBPTree.hpp:1265-1321 `recoveryInsertInBranchNode(node, curr_depth, leaf, splitInfo)` for `curr_depth = d + 1`:
after a split the separator and the new right neighbour. -/
def recIns (junk : Option Nat) (leaf : Nat) : Nat → Tree K V N M → Nat → Res (Tree K V N M × Option (K × Nat))
  | 0, t, a => do
    let l ← t.leaf leaf
    let key ← l.firstKey
    recAdd junk t a key leaf
  | d + 1, t, a => do
    let b ← t.branch a
    let n ← b.slot.rd (N + 1) 0
    let c ← b.kids.rd (N + 1) (if n = 0 then 0 else N)
    let (t, sp) ← recIns junk leaf d t c
    match sp with
    | none => pure (t, none)
    | some (key, r) => recAdd junk t a key r

/-- wHBPTree.hpp:1232-1253 `recoveryInsert(leaf)`. -/
def recoveryInsert (junk : Option Nat) (t : Tree K V N M) (leaf : Nat) : Res (Tree K V N M) :=
  if 0 < t.depth then do
    let (t', sp) ← recIns junk leaf (t.depth - 1) t t.root
    match sp with
    | none => pure t'
    | some (key, r) => do
      let b : Branch K N := Branch.fresh N junk
      let keys ← b.keys.wr N 0 key
      let kids ← b.kids.wr (N + 1) 0 t.root
      let kids ← kids.wr (N + 1) N r
      let bits ← b.bits.set 0 true
      let slot ← b.slot.wr (N + 1) 0 1
      let slot ← slot.wr (N + 1) 1 0
      pure { t' with
        branches := t'.branches ++ [⟨slot, bits, keys, kids⟩]
        root := t'.branches.length
        depth := t.depth + 1 }
  else .assertFail

/-- wHBPTree.hpp:416-419: the loop over the leaves. -/
def recLoop (junk : Option Nat) : Nat → Tree K V N M → Option Nat → Res (Tree K V N M)
  | _, t, none => .ok t
  | 0, _, some _ => .ub
  | n + 1, t, some a => do
    let t ← recoveryInsert junk t a
    let _ ← t.leaf a
    recLoop junk n t (t.next a)

/-- wHBPTree.hpp:397-401: the number of leaves in the list. -/
def countLeaves (t : Tree K V N M) : Nat → Option Nat → Res Nat
  | _, none => .ok 0
  | 0, some _ => .ub
  | n + 1, some a => do
    let _ ← t.leaf a
    let c ← countLeaves t n (t.next a)
    pure (c + 1)

/-- wHBPTree.hpp:389-422 `recover`. -/
def recover (dbg : Bool) (junk : Option Nat) (t : Tree K V N M) : Res (Tree K V N M) := do
  let c ← countLeaves t t.leaves.length (some 0)
  if dbg ∧ (N + 1) ^ Nat.log (N + 1) c ≠ c then .assertFail
  else
    match t.next 0 with
    | none => pure { t with branches := [], root := 0, depth := 0 }
    | some a => do
      let b : Branch K N := Branch.fresh N junk
      let kids ← b.kids.wr (N + 1) 0 0
      recLoop junk t.leaves.length { t with branches := [{ b with kids := kids }], root := 0, depth := 1 } (some a)

end Verif.WBTree
