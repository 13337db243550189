import Verif.WoSkip.Model

/-!
# Crashes inside `insert` of woPSkiplist

`insert` (woPSkiplist.hpp:362-414) runs outside of a transaction; only the allocation of a node is one (155-173).  The
assignments to persistent memory are written out as a list, in program order; after a crash a prefix of them is done, each
assignment as a whole (also those of 16-byte pointers and of bitmaps with more than 64 slots).  `recover` (419-421) only makes
a new random number generator.  Simplification: a pointer or bound that the code reads again after its own assignments is read
in the state in which these assignments are done.
-/

namespace Verif.WoSkip

open Verif Search FPTree BTree

variable {K V : Type}

/-- An assignment to a member of a node. -/
inductive NW (N : Nat) (K V : Type) where
  /-- 252, 283 `keys[p] = k`; the model of slots also has a fingerprint, which is not used. -/
  | key (p : Nat) (k : K)
  /-- 253, 284, 385 `values[p] = v`. -/
  | val (p : Nat) (v : V)
  /-- 254, 287 `bits.set(p)`. -/
  | bit (p : Nat)
  /-- 291 `nodeBits = b`. -/
  | bits (b : Bitmap N)
  /-- 255, 285, 303 `minKey = k`. -/
  | min (k : K)
  /-- 256, 286, 302 `maxKey = k`. -/
  | max (k : K)
  /-- 407 `nodeLevel = n`. -/
  | lvl (n : Nat)

/-- An assignment to persistent memory. -/
inductive Write (N : Nat) (K V : Type) where
  /-- 270 `newSkipNode(sibling)`: the committed transaction 155-162 that allocates the node. -/
  | alloc (n : WNode N K V)
  /-- An assignment to a member of node `a`. -/
  | node (a : Nat) (w : NW N K V)
  /-- 306, 307, 409, 410 `forward[i] = x`. -/
  | fwd (a i : Nat) (x : Option Nat)
  /-- 393 `++nodeCount.get_rw()`. -/
  | count
  /-- 403 `level.get_rw() = newLevel`. -/
  | level (n : Nat)

section
variable [LinearOrder K] [Inhabited K] {N : Nat}

/-- The effect of an assignment on the node. -/
def NW.apply (n : WNode N K V) : NW N K V → WNode N K V
  | .key p k => { n with slots := { n.slots with fp := upd n.slots.fp p 0, keys := upd n.slots.keys p k } }
  | .val p v => { n with slots := { n.slots with vals := upd n.slots.vals p v } }
  | .bit p => { n with slots := { n.slots with bits := match n.slots.bits.set p with | .ok b => b | _ => n.slots.bits } }
  | .bits b => { n with slots := { n.slots with bits := b } }
  | .min k => { n with min := k }
  | .max k => { n with max := k }
  | .lvl i => { n with nodeLevel := i }

/-- The effect of several assignments on the node. -/
def applyN (n : WNode N K V) (ws : List (NW N K V)) : WNode N K V := ws.foldl NW.apply n

/-- The effect of an assignment. -/
def Write.apply (s : WL N K V) : Write N K V → WL N K V
  | .alloc n => { s with dat := SkipList.put s.dat s.fresh (some n),
                         fwd := SkipList.put s.fwd s.fresh (fun _ => none), fresh := s.fresh + 1 }
  | .node a w => { s with dat := SkipList.put s.dat a ((s.dat a).map fun n => w.apply n) }
  | .fwd a i x => { s with fwd := SkipList.put s.fwd a (SkipList.put (s.fwd a) i x) }
  | .count => { s with nodeCount := s.nodeCount + 1 }
  | .level n => { s with level := n }

/-- The effect of several assignments. -/
def applyAll (s : WL N K V) (ws : List (Write N K V)) : WL N K V := ws.foldl Write.apply s

/-- 281-290: the assignments to the sibling, from slot `i` of the node on; `j` slots of the sibling are used, and its bounds
are `mn` and `mx`. -/
def copyWrites (l : FLeaf N K V) (sk : K) (i j : Nat) (mn mx : K) : Nat → Res (List (NW N K V))
  | 0 => .ok []
  | n + 1 => do
    let b ← l.bits.test i
    let k ← rdA N l.keys i
    if b ∧ sk ≤ k then do
      let v ← rdA N l.vals i
      if j < N then do
        let ws ← copyWrites l sk (i + 1) (j + 1) (if k < mn then k else mn) (if mx < k then k else mx) n
        pure ([.key j k, .val j v] ++ (if k < mn then [.min k] else []) ++ (if mx < k then [.max k] else []) ++ .bit j :: ws)
      else .ub
    else copyWrites l sk (i + 1) j mn mx n

/-- 250-256: the assignments that insert the entry into a node with a free slot. -/
def entryWrites (n : WNode N K V) (key : K) (value : V) : Res (List (NW N K V)) :=
  let p := n.slots.bits.getFreeZero
  if p < N then
    pure ([.key p key, .val p value, .bit p] ++ (if key < n.min then [.min key] else []) ++
      (if n.max < key then [.max key] else []))
  else .ub

variable (c : WCfg K V) (M : Nat)

/-- 267-309 `splitNode`: the assignments and the split key. -/
def splitWrites (s : WL N K V) (a : Nat) : Res (List (Write N K V) × K) := do
  let n ← node s a
  let r ← findSplitKey c.cv N ⟨N, n.slots.keys⟩
  let sk ← rdA N n.slots.keys r.2
  let x := s.fresh
  let cw ← copyWrites n.slots sk 0 0 c.lim.max c.lim.min N
  let b ← boundsLoop { n.slots with bits := r.1 } 0 c.lim.max c.lim.min N
  let nx ← fwdAt M s a 0
  pure (.alloc (newNode c N c.lim.max c.lim.min 0) :: (cw.map (.node x) ++
    [.node a (.bits r.1), .node a (.max b.2), .node a (.min b.1), .fwd x 0 nx, .fwd a 0 (some x)]), sk)

/-- 408-411: the assignments that link node `x` into the levels `i .. i + n - 1`. -/
def linkWrites (x : Nat) (u : Nat → Option Nat) : Nat → Nat → WL N K V → Res (List (Write N K V))
  | _, 0, _ => .ok []
  | i, n + 1, s => do
    let p ← (if i < M then Res.ofOption (u i) else .ub)
    let nx ← fwdAt M s p i
    let ws ← linkWrites x u (i + 1) n (applyAll s [.fwd x i nx, .fwd p i (some x)])
    pure (.fwd x i nx :: .fwd p i (some x) :: ws)

/-- 397-412: the assignments that give the new node behind `a` its height. -/
def raiseWrites (s : WL N K V) (a : Nat) (u : Nat → Option Nat) (r : Nat) : Res (List (Write N K V)) := do
  let newLevel := randomLevel r
  let u ← (if s.level < newLevel then SkipList.fillHead M (s.level + 1) (newLevel - (s.level + 1)) u else pure u)
  let lw := if s.level < newLevel then [.level newLevel] else []
  let next ← fwdAt M s a 0
  let x ← Res.ofOption next
  let ws ← linkWrites M x u 1 (newLevel - 1) (applyAll s (lw ++ [.node x (.lvl newLevel)]))
  pure (lw ++ .node x (.lvl newLevel) :: ws)

/-- 362-414 `insert` with 238-259 `insertInNode`: the result and the assignments. -/
def insertWrites (s : WL N K V) (key : K) (value : V) (r : Nat) : Res (Bool × List (Write N K V)) := do
  let w ← descend M s key s.level 0 (fun _ => none)
  let next ← fwdAt M s w.1 0
  let a := next.getD w.1
  let n ← node s a
  let p ← findSlot n.slots key 0 N
  match p with
  | some p => pure (false, [.node a (.val p value)])
  | none =>
    if n.slots.bits.all then do
      let sw ← splitWrites c M s a
      let t := if sw.2 ≤ key then s.fresh else a
      let m ← node (applyAll s sw.1) t
      let ew ← entryWrites m key value
      let ws := sw.1 ++ (ew.map (.node t) ++ [.count])
      let rw ← raiseWrites M (applyAll s ws) a w.2 r
      pure (true, ws ++ rw)
    else do
      let ew ← entryWrites n key value
      pure (true, ew.map (.node a))

/-- The list after a crash behind the first `q` assignments of an insert, and after `recover`. -/
def crashInsert (s : WL N K V) (key : K) (value : V) (r q : Nat) : Res (WL N K V) := do
  let w ← insertWrites c M s key value r
  pure (applyAll s (w.2.take q))

end

end Verif.WoSkip
