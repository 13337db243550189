import Verif.Res
import Mathlib.Order.Defs.LinearOrder

/-!
# Model of `simplePSkiplist<KeyType, ValueType, MAX_LEVEL>` (src/pskiplists/simplePSkiplist.hpp)

Nodes live in a heap addressed by numbers; the head is node 0.  A null or dangling dereference, an index
`≥ MAX_LEVEL` and a loop that does not end are `ub`.  The result of `rnd->Uniform(MAX_LEVEL)` is an argument of
`insert`.  Transactions and the emulation of persistent memory are not modelled; `nodeCount` and `level` are
`size_t` in the code and natural numbers here.
-/

namespace Verif.SkipList

open Verif

/-- 67-91 `SkipNode`; the pointers of a new node are null (default constructor of `persistent_ptr`). -/
structure Node (K V : Type) where
  key : K
  val : V
  nodeLevel : Nat
  fwd : Nat → Option Nat

/-- 95-98: the members of the list; `fresh` is the next free address. -/
structure SL (K V : Type) where
  level : Nat
  nodeCount : Nat
  heap : Nat → Option (Node K V)
  fresh : Nat

section
variable {K V : Type} [LinearOrder K]

/-- Dereference. -/
def get (h : Nat → Option (Node K V)) (a : Nat) : Res (Node K V) := Res.ofOption (h a)

/-- Write to one address. -/
def put {A : Type} (h : Nat → A) (a : Nat) (x : A) : Nat → A := fun b => if b = a then x else h b

/-- `node->forward[i]`. -/
def fwdAt (L : Nat) (h : Nat → Option (Node K V)) (a i : Nat) : Res (Option Nat) := do
  let n ← get h a
  if i < L then pure (n.fwd i) else .ub

/-- `node->forward[i] = x`. -/
def setFwd (L : Nat) (h : Nat → Option (Node K V)) (a i : Nat) (x : Option Nat) : Res (Nat → Option (Node K V)) := do
  let n ← get h a
  if i < L then pure (put h a (some { n with fwd := put n.fwd i x })) else .ub

/-- 178-182 and 226-230: the inner loop of `insert` and `search` on level `i`. -/
def advance (L : Nat) (h : Nat → Option (Node K V)) (key : K) (i : Nat) : Nat → Nat → Res Nat
  | 0, _ => .ub
  | fuel + 1, node => do
    let next ← fwdAt L h node i
    match next with
    | none => pure node
    | some x => do
      let n ← get h x
      if n.key < key then advance L h key i fuel x else pure node

/-- `update[i] = node`. -/
def setUpd (L : Nat) (u : Nat → Option Nat) (i node : Nat) : Res (Nat → Option Nat) :=
  if i < L then .ok (put u i (some node)) else .ub

/-- 177-185: from the top level down to level 0; returns the last node and the array `update`. -/
def descend (L : Nat) (h : Nat → Option (Node K V)) (key : K) (fuel : Nat) :
    Nat → Nat → (Nat → Option Nat) → Res (Nat × (Nat → Option Nat))
  | 0, node, u => do
    let n ← advance L h key 0 fuel node
    let u ← setUpd L u 0 n
    pure (n, u)
  | i + 1, node, u => do
    let n ← advance L h key (i + 1) fuel node
    let u ← setUpd L u (i + 1) n
    descend L h key fuel i n u

/-- 200-201: `n` times `update[i++] = head`. -/
def fillHead (L : Nat) : Nat → Nat → (Nat → Option Nat) → Res (Nat → Option Nat)
  | _, 0, u => .ok u
  | i, n + 1, u => do
    let u ← setUpd L u i 0
    fillHead L (i + 1) n u

/-- 207-210: links the new node `x` into the levels `i .. i + n - 1`. -/
def link (L : Nat) (x : Nat) (u : Nat → Option Nat) : Nat → Nat → (Nat → Option (Node K V)) →
    Res (Nat → Option (Node K V))
  | _, 0, h => .ok h
  | i, n + 1, h => do
    let p ← (if i < L then Res.ofOption (u i) else .ub)
    let nx ← fwdAt L h p i
    let h ← setFwd L h x i nx
    let h ← setFwd L h p i (some x)
    link L x u (i + 1) n h

/-- 143-146 `getRandomLevel`; `r` is the result of `rnd->Uniform(MAX_LEVEL)`. -/
def randomLevel (r : Nat) : Nat := if r = 0 then 1 else r

/-- 135-141 and 155-157: a new list. -/
def init [Inhabited V] (minKey : K) (L : Nat) : SL K V :=
  ⟨0, 0, fun a => if a = 0 then some ⟨minKey, default, L, fun _ => none⟩ else none, 1⟩

/-- 173-214 `insert`. -/
def insert (L : Nat) (s : SL K V) (key : K) (value : V) (r : Nat) : Res (Bool × SL K V) := do
  let w ← descend L s.heap key s.fresh s.level 0 (fun _ => none)
  let next ← fwdAt L s.heap w.1 0
  let node := next.getD w.1
  let n ← get s.heap node
  if n.key = key then
    pure (false, { s with heap := put s.heap node (some { n with val := value }) })
  else
    let newLevel := randomLevel r
    let u ← (if newLevel > s.level then fillHead L (s.level + 1) (newLevel - (s.level + 1)) w.2 else pure w.2)
    let level := if newLevel > s.level then newLevel else s.level
    let h := put s.heap s.fresh (some ⟨key, value, newLevel, fun _ => none⟩)
    let h ← link L s.fresh u 0 newLevel h
    pure (true, ⟨level, s.nodeCount + 1, h, s.fresh + 1⟩)

/-- 223-239 `search`: same walk as `insert`. -/
def searchFrom (L : Nat) (h : Nat → Option (Node K V)) (key : K) (fuel : Nat) : Nat → Nat → Res Nat
  | 0, node => advance L h key 0 fuel node
  | i + 1, node => do
    let n ← advance L h key (i + 1) fuel node
    searchFrom L h key fuel i n

def search (L : Nat) (s : SL K V) (key : K) : Res (Option V) := do
  let n ← searchFrom L s.heap key s.fresh s.level 0
  let next ← fwdAt L s.heap n 0
  match next with
  | none => pure none
  | some x => do
    let n ← get s.heap x
    if n.key = key then pure (some n.val) else pure none

/-- 251-262 `printList`: the nodes of one level. -/
def walk (L : Nat) (h : Nat → Option (Node K V)) (i : Nat) : Nat → Option Nat → Res (List (K × V))
  | _, none => .ok []
  | 0, some _ => .ub
  | fuel + 1, some x => do
    let n ← get h x
    let next ← fwdAt L h x i
    let es ← walk L h i fuel next
    pure ((n.key, n.val) :: es)

def levelList (L : Nat) (s : SL K V) (i : Nat) : Res (List (K × V)) := do
  let first ← fwdAt L s.heap 0 i
  walk L s.heap i s.fresh first

end

end Verif.SkipList
