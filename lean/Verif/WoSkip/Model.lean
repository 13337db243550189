import Verif.FPTree.Leaf
import Verif.SkipList.Model

/-!
# Model of `woPSkiplist<KeyType, ValueType, N, M>` (src/pskiplists/woPSkiplist.hpp)

Nodes have numbers; the head is node 0.  `dat` holds the contents of the nodes without the forward arrays and
`fwd a i` is `forward[i]` of node `a`.  A null or dangling dereference, an index outside an array and a loop that
does not end are `ub`.  The results of `rnd->Uniform(M)` are arguments.

Simplifications:
* The slots of a node (bitmap, keys, values) are a leaf of the FPTree model; its fingerprints are not used.
* The contents of unused slots of a new node are arbitrary (`junkKeys`, `junkVals`).
* Transactions and the emulation of persistent memory are not modelled; `level`, `nodeCount` and `nodeLevel` are
  `size_t` in the code and natural numbers here.
* The conversions `KeyType → size_t → KeyType` of the arguments of `newSkipNode` in `initList` are the identity
  (integral key types); the arguments are permuted twice and arrive as intended.
-/

namespace Verif.WoSkip

open Verif Search FPTree BTree

variable {K V : Type}

/-- 75-137 `SkipNode` without `forward`. -/
structure WNode (N : Nat) (K V : Type) where
  slots : FLeaf N K V
  min : K
  max : K
  nodeLevel : Nat

/-- 141-144: the members of the list; `fresh` is the next free address. -/
structure WL (N : Nat) (K V : Type) where
  level : Nat
  nodeCount : Nat
  dat : Nat → Option (WNode N K V)
  fwd : Nat → Nat → Option Nat
  fresh : Nat

/-- The type parameters: limits of the key type, conversions to and from `size_t` (`findSplitKey`), contents of
uninitialised memory. -/
structure WCfg (K V : Type) where
  lim : Limits K
  cv : Conv K
  junkKeys : Nat → K
  junkVals : Nat → V

/-- The parameters as those of the leaf model. -/
def WCfg.f (c : WCfg K V) : FCfg K V := ⟨0, fun _ => 0, c.lim, c.cv, fun _ => 0, c.junkKeys, c.junkVals⟩

section
variable [LinearOrder K] [Inhabited K] {N : Nat} (c : WCfg K V) (M : Nat)

/-- Dereference. -/
def node (s : WL N K V) (a : Nat) : Res (WNode N K V) := Res.ofOption (s.dat a)

/-- `node->forward[i]`. -/
def fwdAt (s : WL N K V) (a i : Nat) : Res (Option Nat) := do
  let _ ← node s a
  if i < M then pure (s.fwd a i) else .ub

/-- `node->forward[i] = x`. -/
def setFwd (s : WL N K V) (a i : Nat) (x : Option Nat) : Res (WL N K V) := do
  let _ ← node s a
  if i < M then pure { s with fwd := SkipList.put s.fwd a (SkipList.put (s.fwd a) i x) } else .ub

/-- 94-95 and 100-101: a new node. -/
def newNode (N : Nat) (min max : K) (level : Nat) : WNode N K V := ⟨FLeaf.new c.f N, min, max, level⟩

/-- 316-319 `getRandomLevel`; `r` is the result of `rnd->Uniform(M)`. -/
def randomLevel (r : Nat) : Nat := if r = 0 then 1 else r

/-- 178-188 `initList` and 331-334: a new list; `r` is the random number of the first node. -/
def init (N : Nat) (r : Nat) : Res (WL N K V) := do
  let height := randomLevel r
  let s : WL N K V := ⟨height, 1,
    fun a => if a = 0 then some (newNode c N c.lim.min c.lim.min M)
      else if a = 1 then some (newNode c N c.lim.max c.lim.min height) else none,
    fun a i => if a = 0 ∧ i < height then some 1 else none, 2⟩
  if height ≤ M then pure s else .ub

/-- 199-207: the loop of `searchNode` on level `i`; `inl`: the node that may contain the key, `inr`: the
predecessor for the next level. -/
def walkAt (s : WL N K V) (key : K) (i : Nat) : Nat → Nat → Res (Nat ⊕ Nat)
  | 0, _ => .ub
  | fuel + 1, pred => do
    let next ← fwdAt M s pred i
    match next with
    | none => pure (.inr pred)
    | some x => do
      let n ← node s x
      if n.max < key then walkAt s key i fuel x
      else if key < n.min then pure (.inr pred)
      else pure (.inl x)

/-- 196-211 `searchNode` from level `i` down. -/
def searchNode (s : WL N K V) (key : K) : Nat → Nat → Res (Option Nat)
  | 0, pred => do
    let r ← walkAt M s key 0 s.fresh pred
    match r with
    | .inl x => pure (some x)
    | .inr _ => pure none
  | i + 1, pred => do
    let r ← walkAt M s key (i + 1) s.fresh pred
    match r with
    | .inl x => pure (some x)
    | .inr p => searchNode s key i p

/-- 222-227 and 383-388: the first slot from `i` on that is in use and holds the key. -/
def findSlot (l : FLeaf N K V) (key : K) (i : Nat) : Nat → Res (Option Nat)
  | 0 => .ok none
  | n + 1 => do
    let b ← l.bits.test i
    if b then do
      let k ← rdA N l.keys i
      if k = key then pure (some i) else findSlot l key (i + 1) n
    else findSlot l key (i + 1) n

/-- 221-229 `searchInNode`. -/
def searchInNode (n : WNode N K V) (key : K) : Res (Option V) := do
  let p ← findSlot n.slots key 0 N
  match p with
  | some p => do
    let v ← rdA N n.slots.vals p
    pure (some v)
  | none => pure none

/-- 350-353 `search`. -/
def search (s : WL N K V) (key : K) : Res (Option V) := do
  let r ← searchNode M s key s.level 0
  match r with
  | some x => do
    let n ← node s x
    searchInNode n key
  | none => pure none

/-- 281-290: the loop of `splitNode` that copies the upper half into the sibling, from slot `i` on; `j` slots of
the sibling are used. -/
def copyLoop (l : FLeaf N K V) (sk : K) (i j : Nat) (sib : WNode N K V) : Nat → Res (WNode N K V)
  | 0 => .ok sib
  | n + 1 => do
    let b ← l.bits.test i
    let k ← rdA N l.keys i
    if b ∧ sk ≤ k then do
      let v ← rdA N l.vals i
      let t ← sib.slots.fill j 0 k v
      copyLoop l sk (i + 1) (j + 1)
        ⟨t, if k < sib.min then k else sib.min, if sib.max < k then k else sib.max, sib.nodeLevel⟩ n
    else copyLoop l sk (i + 1) j sib n

/-- 296-301: the bounds of the remaining keys, from slot `i` on. -/
def boundsLoop (l : FLeaf N K V) (i : Nat) (mn mx : K) : Nat → Res (K × K)
  | 0 => .ok (mn, mx)
  | n + 1 => do
    let b ← l.bits.test i
    if b then do
      let k ← rdA N l.keys i
      boundsLoop l (i + 1) (if k < mn then k else mn) (if mx < k then k else mx) n
    else boundsLoop l (i + 1) mn mx n

/-- 267-303 `splitNode` without the links: the node, the sibling and the split key. -/
def splitData (n : WNode N K V) : Res (WNode N K V × WNode N K V × K) := do
  let r ← findSplitKey c.cv N ⟨N, n.slots.keys⟩
  let sk ← rdA N n.slots.keys r.2
  let sib ← copyLoop n.slots sk 0 0 (newNode c N c.lim.max c.lim.min 0) N
  let l : FLeaf N K V := { n.slots with bits := r.1 }
  let b ← boundsLoop l 0 c.lim.max c.lim.min N
  pure (⟨l, b.1, b.2, n.nodeLevel⟩, sib, sk)

/-- 251-257: insertion of the entry into a node with a free slot. -/
def addEntry (n : WNode N K V) (key : K) (value : V) : Res (WNode N K V) := do
  let p := n.slots.bits.getFreeZero
  if p < N then do
    let t ← n.slots.fill p 0 key value
    pure ⟨t, if key < n.min then key else n.min, if n.max < key then key else n.max, n.nodeLevel⟩
  else .ub

/-- 238-259 `insertInNode` with 267-308 `splitNode`; the forward pointers of the sibling `x` are null at first. -/
def insertInNode (s : WL N K V) (a : Nat) (key : K) (value : V) : Res (Bool × WL N K V) := do
  let n ← node s a
  if n.slots.bits.all then do
    let r ← splitData c n
    let x := s.fresh
    let s : WL N K V := { s with
      dat := SkipList.put (SkipList.put s.dat a (some r.1)) x (some r.2.1),
      fwd := SkipList.put s.fwd x (fun _ => none), fresh := x + 1 }
    let nx ← fwdAt M s a 0
    let s ← setFwd M s x 0 nx
    let s ← setFwd M s a 0 (some x)
    let t := if r.2.2 ≤ key then x else a
    let m ← node s t
    let m ← addEntry m key value
    pure (true, { s with dat := SkipList.put s.dat t (some m) })
  else do
    let m ← addEntry n key value
    pure (false, { s with dat := SkipList.put s.dat a (some m) })

/-- 369-373: the inner loop of `insert` on level `i`. -/
def advance (s : WL N K V) (key : K) (i : Nat) : Nat → Nat → Res Nat
  | 0, _ => .ub
  | fuel + 1, pred => do
    let next ← fwdAt M s pred i
    match next with
    | none => pure pred
    | some x => do
      let n ← node s x
      if n.max < key then advance s key i fuel x else pure pred

/-- 368-376: the last node and the array `update`. -/
def descend (s : WL N K V) (key : K) : Nat → Nat → (Nat → Option Nat) → Res (Nat × (Nat → Option Nat))
  | 0, pred, u => do
    let p ← advance M s key 0 s.fresh pred
    let u ← SkipList.setUpd M u 0 p
    pure (p, u)
  | i + 1, pred, u => do
    let p ← advance M s key (i + 1) s.fresh pred
    let u ← SkipList.setUpd M u (i + 1) p
    descend s key i p u

/-- 408-411: links node `x` into the levels `i .. i + n - 1`. -/
def link (x : Nat) (u : Nat → Option Nat) : Nat → Nat → WL N K V → Res (WL N K V)
  | _, 0, s => .ok s
  | i, n + 1, s => do
    let p ← (if i < M then Res.ofOption (u i) else .ub)
    let nx ← fwdAt M s p i
    let s ← setFwd M s x i nx
    let s ← setFwd M s p i (some x)
    link x u (i + 1) n s

/-- 397-412: the new node behind `a` gets a random height. -/
def raise (s : WL N K V) (a : Nat) (u : Nat → Option Nat) (r : Nat) : Res (WL N K V) := do
  let newLevel := randomLevel r
  let u ← (if s.level < newLevel then SkipList.fillHead M (s.level + 1) (newLevel - (s.level + 1)) u else pure u)
  let s := if s.level < newLevel then { s with level := newLevel } else s
  let next ← fwdAt M s a 0
  let x ← Res.ofOption next
  let n ← node s x
  let s : WL N K V := { s with dat := SkipList.put s.dat x (some { n with nodeLevel := newLevel }) }
  link M x u 1 (newLevel - 1) s

/-- 362-414 `insert`; `r` is the random number drawn after a split. -/
def insert (s : WL N K V) (key : K) (value : V) (r : Nat) : Res (Bool × WL N K V) := do
  let w ← descend M s key s.level 0 (fun _ => none)
  let next ← fwdAt M s w.1 0
  let a := next.getD w.1
  let n ← node s a
  let p ← findSlot n.slots key 0 N
  match p with
  | some p => do
    let m : WNode N K V := { n with slots := { n.slots with vals := upd n.slots.vals p value } }
    pure (false, { s with dat := SkipList.put s.dat a (some m) })
  | none => do
    let q ← insertInNode c M s a key value
    if q.1 then do
      let s ← raise M { q.2 with nodeCount := q.2.nodeCount + 1 } a w.2 r
      pure (true, s)
    else pure (true, q.2)

/-- The used slots of a node in slot order (`printNode`, 127-135). -/
def slotList (l : FLeaf N K V) (i : Nat) : Nat → Res (List (K × V))
  | 0 => .ok []
  | n + 1 => do
    let b ← l.bits.test i
    let es ← slotList l (i + 1) n
    if b then do
      let k ← rdA N l.keys i
      let v ← rdA N l.vals i
      pure ((k, v) :: es)
    else pure es

/-- 426-439 `printList`: bounds and entries of the nodes of level `i`. -/
def walkList (s : WL N K V) (i : Nat) : Nat → Option Nat → Res (List (K × K × List (K × V)))
  | _, none => .ok []
  | 0, some _ => .ub
  | fuel + 1, some x => do
    let n ← node s x
    let es ← slotList n.slots 0 N
    let next ← fwdAt M s x i
    let rest ← walkList s i fuel next
    pure ((n.min, n.max, es) :: rest)

def levelList (s : WL N K V) (i : Nat) : Res (List (K × K × List (K × V))) := do
  let first ← fwdAt M s 0 i
  walkList M s i s.fresh first

end

end Verif.WoSkip
