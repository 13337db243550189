import Verif.BitTree.Model

/-!
# BitHPBPTree.hpp: `recover`

The branch nodes of BitHPBPTree live in volatile memory.  After a restart `recover` rebuilds them from
the list of leaves.
-/

namespace Verif.BitTree

open Verif Search FPTree BTree

variable {K V : Type} {M : Nat} [LinearOrder K] [Inhabited K]

/-- BitHPBPTree.hpp:1219-1220 and 1226-1227: the smallest key of the leaf. -/
def recMin (c : Cfg K V) (h : Heap M K V) (id : Nat) : Res K := do
  let x ← Res.ofOption h[id]?
  let p ← x.leaf.minPos c
  rdA M x.leaf.keys p

/-- BitHPBPTree.hpp:1216-1217 and 1238-1239: a new branch node with a single child. -/
def Branch.only {N : Nat} {C : Type} (x : C) : Branch N K C :=
  { Branch.new N K C with kids := upd (fun _ => none) 0 (some x) }

/-- BitHPBPTree.hpp:1225-1229 and 1246-1249: the separator `s` with `right` behind it becomes the last of
the `n` separators. -/
def Branch.append {N : Nat} {C : Type} (b : Branch N K C) (n : Nat) (s : K) (right : C) : Res (Branch N K C) := do
  let bits ← b.bits.set n
  let kids := if 0 < n then upd b.kids n (b.kids N) else b.kids
  pure ⟨bits, upd b.keys n s, upd kids N (some right)⟩

/-- BitHPBPTree.hpp:1205-1255 `recoveryInsertInBranchNode` at depth `d + 1`: the changed node and, after
a split, the split key and the new right node. -/
def recIns (c : Cfg K V) (h : Heap M K V) (leaf : Nat) : (d : Nat) → Tree c.N K (d + 1) →
    Res (Tree c.N K (d + 1) × Option (K × Tree c.N K (d + 1)))
  | 0, b =>
    let n := (Branch.bits b).count
    if n = c.N then do
      let k ← recMin c h leaf
      pure (b, some (k, Branch.only (C := Nat) leaf))
    else do
      let k ← recMin c h leaf
      let b ← Branch.append (C := Nat) b n k leaf
      pure (b, none)
  | d + 1, b => do
    let n := (Branch.bits b).count
    let p := if n = 0 then 0 else c.N
    let ch ← Branch.kid b p
    let r ← recIns c h leaf d ch
    let b1 : Branch c.N K (Tree c.N K (d + 1)) := ⟨Branch.bits b, Branch.keys b, upd (Branch.kids b) p (some r.1)⟩
    match r.2 with
    | none => pure (b1, none)
    | some (s, right) =>
      if n = c.N then pure (b1, some (s, Branch.only right))
      else do
        let b2 ← b1.append n s right
        pure (b2, none)

/-- A tree of depth at least 1 during the recovery. -/
abbrev RTree (c : Cfg K V) := (d : Nat) × Tree c.N K (d + 1)

/-- BitHPBPTree.hpp:1174-1192 `recoveryInsert`. -/
def recoveryInsert (c : Cfg K V) (h : Heap M K V) (t : RTree c) (leaf : Nat) : Res (RTree c) := do
  let r ← recIns c h leaf t.1 t.2
  match r.2 with
  | none => pure ⟨t.1, r.1⟩
  | some (s, right) => do
    let bits ← (Bitmap.fresh c.N).set 0
    pure ⟨t.1 + 1, (⟨bits, upd (fun _ => default) 0 s, upd (upd (fun _ => none) 0 (some r.1)) c.N (some right)⟩ :
      Branch c.N K (Tree c.N K (t.1 + 1)))⟩

/-- BitHPBPTree.hpp:406-409: the loop over the leaves; a cyclic list (`fuel` runs out) does not return. -/
def recoverLoop (c : Cfg K V) (h : Heap M K V) : Nat → RTree c → Option Nat → Res (RTree c)
  | _, t, none => .ok t
  | 0, _, some _ => .ub
  | n + 1, t, some i => do
    let t ← recoveryInsert c h t i
    let x ← Res.ofOption h[i]?
    recoverLoop c h n t x.next

/-- BitHPBPTree.hpp:391-412 `recover`: the branch nodes are rebuilt from the list of leaves. -/
def Store.recover {c : Cfg K V} (t : Store c M) : Res (Store c M) := do
  let x ← Res.ofOption t.heap[t.first]?
  match x.next with
  | none => pure ⟨0, t.first, t.heap, t.first⟩
  | some i => do
    let r ← recoverLoop c t.heap t.heap.length ⟨0, (Branch.only (C := Nat) t.first : Branch c.N K Nat)⟩ (some i)
    pure ⟨r.1 + 1, r.2, t.heap, t.first⟩

end Verif.BitTree
