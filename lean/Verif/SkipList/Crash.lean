import Verif.SkipList.Model

/-!
# Crashes inside `insert` of simplePSkiplist

`insert` (173-214) runs outside of a transaction; only the allocation of the new node is one (112-129).  The assignments to
persistent memory are written out as a list, in program order; after a crash a prefix of them is done, each assignment as a
whole (also those of 16-byte pointers).  `recover` (244-246) only makes a new random number generator.
-/

namespace Verif.SkipList

open Verif

variable {K V : Type} [LinearOrder K]

/-- An assignment to persistent memory. -/
inductive Write (K V : Type) where
  /-- 193 `node->value = value`. -/
  | val (a : Nat) (v : V)
  /-- 202 `level.get_rw() = newLevel`. -/
  | level (n : Nat)
  /-- 205 `newSkipNode`: the committed transaction that allocates the node. -/
  | node (n : Node K V)
  /-- 208, 209 `forward[i] = x`. -/
  | fwd (a i : Nat) (x : Option Nat)
  /-- 211 `++nodeCount.get_rw()`. -/
  | count

/-- The effect of an assignment. -/
def Write.apply (s : SL K V) : Write K V → SL K V
  | .val a v => { s with heap := put s.heap a ((s.heap a).map fun n => { n with val := v }) }
  | .level n => { s with level := n }
  | .node n => { s with heap := put s.heap s.fresh (some n), fresh := s.fresh + 1 }
  | .fwd a i x => { s with heap := put s.heap a ((s.heap a).map fun n => { n with fwd := put n.fwd i x }) }
  | .count => { s with nodeCount := s.nodeCount + 1 }

/-- The effect of several assignments. -/
def applyAll (s : SL K V) (ws : List (Write K V)) : SL K V := ws.foldl Write.apply s

/-- 207-210: the assignments of the loop for the levels `i .. i + n - 1`.  Level `i` of the list is not changed by the rounds
before, so that the pointers are read in the heap before the insert. -/
def linkWrites (L : Nat) (h : Nat → Option (Node K V)) (x : Nat) (u : Nat → Option Nat) : Nat → Nat → Res (List (Write K V))
  | _, 0 => .ok []
  | i, n + 1 => do
    let p ← (if i < L then Res.ofOption (u i) else .ub)
    let nx ← fwdAt L h p i
    let ws ← linkWrites L h x u (i + 1) n
    pure (.fwd x i nx :: .fwd p i (some x) :: ws)

/-- 173-214 `insert`: the result and the assignments. -/
def insertWrites (L : Nat) (s : SL K V) (key : K) (value : V) (r : Nat) : Res (Bool × List (Write K V)) := do
  let w ← descend L s.heap key s.fresh s.level 0 (fun _ => none)
  let next ← fwdAt L s.heap w.1 0
  let node := next.getD w.1
  let n ← get s.heap node
  if n.key = key then pure (false, [.val node value])
  else
    let newLevel := randomLevel r
    let u ← (if newLevel > s.level then fillHead L (s.level + 1) (newLevel - (s.level + 1)) w.2 else pure w.2)
    let ws ← linkWrites L s.heap s.fresh u 0 newLevel
    pure (true, (if newLevel > s.level then [.level newLevel] else []) ++
      .node ⟨key, value, newLevel, fun _ => none⟩ :: (ws ++ [.count]))

/-- The list after a crash behind the first `t` assignments of an insert, and after `recover`. -/
def crashInsert (L : Nat) (s : SL K V) (key : K) (value : V) (r t : Nat) : Res (SL K V) := do
  let w ← insertWrites L s key value r
  pure (applyAll s (w.2.take t))

end Verif.SkipList
