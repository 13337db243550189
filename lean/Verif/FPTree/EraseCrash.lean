import Verif.FPTree.InsertCrash
import Verif.FPTree.Step

/-!
# Crashes inside an erase of the FPTree, with recovery

`erase` (FPTree.hpp:288-303) changes persistent memory at the leaf level only: one bit of the leaf of the key (798), and, if the
leaf then has fewer than `(M + 1) / 2` entries, the assignments of `balanceLeafNodes` (991-1037) or of `mergeLeafNodes`
(1114-1151) followed by the deletion of a leaf.  The branch nodes are volatile, so that `recover` (374-405) sees nothing of them.
As in `Crash.lean` the assignments become persistent in program order; `deleteLeafNode` is a transaction.
-/

set_option linter.unusedSectionVars false

namespace Verif.FPTree

open Verif Search BTree Assoc MapSpec

variable {K V : Type} {M : Nat} [LinearOrder K] [Inhabited K] {c : FCfg K V} {adm : K → Prop}

/-! ## Model -/

/-- An assignment to persistent memory: those of `HWrite`, a link that may become null (1142), the deletion of a leaf. -/
inductive EWrite (K V : Type) where
  | w (w : HWrite K V)
  | next (i : Nat) (x : Option Nat)
  | del (i : Nat)

/-- The effect of an assignment. -/
def EWrite.apply (h : Heap (FLeaf M K V)) : EWrite K V → Res (Heap (FLeaf M K V))
  | .w x => x.apply h
  | .next i x => do
    let _ ← h.get i
    pure { h with next := upd h.next i x }
  | .del i => do
    let _ ← h.get i
    pure (h.free i)

/-- A sequence of assignments. -/
def applyE (h : Heap (FLeaf M K V)) : List (EWrite K V) → Res (Heap (FLeaf M K V))
  | [] => .ok h
  | w :: ws => do
    let h ← w.apply h
    applyE h ws

/-- 1136-1139: bit, fingerprint, key and value of slot `p` of the leaf `i`, in this order. -/
def slotWrites (i p f : Nat) (x : K) (v : V) : List (EWrite K V) :=
  [.w (.leaf i (.bit p)), .w (.leaf i (.fp p f)), .w (.leaf i (.key p x)), .w (.leaf i (.val p v))]

/-- 1133-1141: the assignments of the loop of `mergeLeafNodes` from slot `i` of the second node `b` on; `a` is the first node,
at `id1`. -/
def mergeWrites (id1 : Nat) (b : FLeaf M K V) (i : Nat) (a : FLeaf M K V) : Nat → Res (List (EWrite K V))
  | 0 => .ok []
  | n + 1 => do
    let t ← b.bits.test i
    if t then do
      let f ← rdA M b.fp i
      let x ← rdA M b.keys i
      let v ← rdA M b.vals i
      let p := a.bits.getFreeZero
      let a ← a.fill p f x v
      let ws ← mergeWrites id1 b (i + 1) a n
      pure (slotWrites id1 p f x v ++ ws)
    else mergeWrites id1 b (i + 1) a n

/-- 1142-1144 and `deleteLeafNode` (882, 887). -/
def unlinkWrites (id1 id2 : Nat) (nx : Option Nat) : List (EWrite K V) :=
  .next id1 nx :: match nx with
    | none => [.del id2]
    | some x => [.w (.prev x id1), .del id2]

/-- 1011-1030: the assignments of the loops of `balanceLeafNodes` (`up`: the largest entries of the donor). -/
def balWrites (c : FCfg K V) (up : Bool) (idd idr : Nat) : Nat → FLeaf M K V → FLeaf M K V → Res (List (EWrite K V))
  | 0, _, _ => .ok []
  | n + 1, d, r => do
    let p ← (if up then d.maxPos c else d.minPos c)
    let x ← rdA M d.keys p
    let v ← rdA M d.vals p
    let dr ← FLeaf.moveOne c d r p
    let ws ← balWrites c up idd idr n dr.1 dr.2
    pure (slotWrites idr r.bits.getFreeZero (c.hash x) x v ++ .w (.reset idd p) :: ws)

/-- 991-1037 `balanceLeafNodes(donor, receiver)`. -/
def balanceWrites (c : FCfg K V) (h : Heap (FLeaf M K V)) (idd idr : Nat) : Res (List (EWrite K V)) := do
  let d ← h.get idd
  let r ← h.get idr
  Res.assert (r.bits.count < d.bits.count)
  let toMove := d.bits.count - (d.bits.count + r.bits.count) / 2
  if toMove = 0 then pure []
  else do
    let dk ← rdA M d.keys 0
    let rk ← rdA M r.keys 0
    balWrites c (decide (dk < rk)) idd idr toMove d r

/-- 1114-1151 `mergeLeafNodes(node1, node2)` and the deletion of `node2`. -/
def mergeAllWrites (h : Heap (FLeaf M K V)) (id1 id2 : Nat) : Res (List (EWrite K V)) := do
  let a ← h.get id1
  let b ← h.get id2
  Res.assert (a.bits.count + b.bits.count ≤ M)
  let ws ← mergeWrites id1 b 0 a M
  pure (ws ++ unlinkWrites id1 id2 (h.next id2))

/-- 858-905: the persistent assignments of `underflowAtLeafLevel(node, pos, leaf)`. -/
def underflowWrites (c : FCfg K V) (h : Heap (FLeaf M K V)) (n : BNode K Nat) (pos id : Nat) : Res (List (EWrite K V)) := do
  Res.assert (pos ≤ n.num)
  let ls ← leftSib (fpOps c M) h pos id
  if pos > 0 ∧ (M + 1) / 2 < ls.2 then balanceWrites c h ls.1 id
  else do
    let rs ← rightSib (fpOps c M) h n.num pos id
    if pos < n.num ∧ (M + 1) / 2 < rs.2 then balanceWrites c h rs.1 id
    else if pos > 0 ∧ ls.2 ≤ (M + 1) / 2 then mergeAllWrites h ls.1 id
    else if pos < n.num ∧ rs.2 ≤ (M + 1) / 2 then mergeAllWrites h id rs.1
    else .assertFail

/-- 817-834: the branch node above the leaf of `k`. -/
def leafParent (c : FCfg K V) (M : Nat) : (d : Nat) → BNode K (Tree K d) → K → Res (BNode K Nat)
  | 0, n, _ => .ok n
  | d + 1, n, k => do
    let pos ← lookupPos (fpOps c M) n k
    let ch ← Slots.rd (c.N + 1) n.kids pos
    leafParent c M d ch k

/-- 288-303, 781-905: the persistent assignments of an erase of `k`. -/
def eraseWrites (c : FCfg K V) : State K (FLeaf M K V) → K → Res (List (EWrite K V))
  | ⟨d, root, h⟩, k => do
    let id ← findLeaf (fpOps c M) d root k
    let l ← h.get id
    let p ← l.pos c k
    let r ← l.erase c k
    let ws : List (EWrite K V) := if p < M then [.w (.reset id p)] else []
    match d, root with
    | 0, _ => pure ws
    | d + 1, n =>
      if r.2.bits.count < (M + 1) / 2 then do
        let n ← leafParent c M d n k
        let pos ← lookupPos (fpOps c M) n k
        let us ← underflowWrites c (h.set id r.2) n pos id
        pure (ws ++ us)
      else pure ws

/-- Persistent memory after a crash that follows the first `t` assignments of an erase of `k`. -/
def crashErase (c : FCfg K V) (s : State K (FLeaf M K V)) (k : K) (t : Nat) : Res (Heap (FLeaf M K V)) := do
  let ws ← eraseWrites c s k
  applyE s.heap (ws.take t)

/-- The crash and the recovery. -/
def crashEraseRecover (c : FCfg K V) (s : State K (FLeaf M K V)) (k : K) (t : Nat) : Res (State K (FLeaf M K V)) := do
  let h ← crashErase c s k t
  recoverF (fpOps c M) h 0

end Verif.FPTree
