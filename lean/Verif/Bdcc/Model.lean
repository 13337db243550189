import Verif.Res
import Mathlib.Data.Finset.Basic

/-!
# Model of `BDCCInfo` (src/ptable/core/BDCCInfo.hpp) and of the BDCC value of a tuple
(src/ptable/PTable.hpp, `getBDCCFromTuple`)

A `std::bitset<32>` is the finite set of its one-bits; indexing it at 32 or above is undefined
behaviour.  The vector of dimensions of length `n` is a function of the index (only `i < n` is used).
-/

namespace Verif.Bdcc

/-- State of the loop in `deriveMasks`: remaining bits per dimension, mask per dimension, `bdccSize`. -/
structure St where
  rem : Nat → Nat
  mask : Nat → Finset Nat
  size : Nat

/-- Point update. -/
def upd {α : Type} (f : Nat → α) (i : Nat) (v : α) : Nat → α := fun j => if j = i then v else f j

/-- BDCCInfo.hpp:61-66, `numberOfBins`: the sum of the requested bits (`acc` is the accumulator). -/
def numBins (bits : Nat → Nat) : Nat → Nat
  | 0 => 0
  | n + 1 => numBins bits n + bits n

/-- BDCCInfo.hpp:85-91: one pass over the dimensions `i, i+1, ..`, `k` of them.
`--bdccSize` on 0 wraps around, so the index is out of range in that case, too. -/
def pass (i : Nat) : Nat → St → Res St
  | 0, s => .ok s
  | k + 1, s =>
    if s.rem i > 0 then
      if 1 ≤ s.size ∧ s.size - 1 < 32 then
        pass (i + 1) k
          { rem := upd s.rem i (s.rem i - 1),
            mask := upd s.mask i (insert (s.size - 1) (s.mask i)),
            size := s.size - 1 }
      else .ub
    else pass (i + 1) k s

/-- BDCCInfo.hpp:83-92: the `while` loop over `n` dimensions; `fuel` bounds the number of passes,
running out of it (an endless loop) is `ub`. -/
def loop (n : Nat) : Nat → St → Res St
  | 0, s => if s.size = 0 then .ok s else .ub
  | fuel + 1, s => if s.size = 0 then .ok s else do
    let s ← pass 0 n s
    loop n fuel s

/-- BDCCInfo.hpp:75-93 `deriveMasks`: the masks of the `n` dimensions with `bits i` requested bits. -/
def deriveMasks (bits : Nat → Nat) (n : Nat) : Res (Nat → Finset Nat) := do
  let s ← loop n (numBins bits n) { rem := bits, mask := fun _ => ∅, size := numBins bits n }
  pure s.mask

/-- Meaning of the expression `x >> j` with negative `j`: `strict` is the C++ standard (undefined
behaviour), `hardware f` a machine that delivers some value, of which `f x j` is the lowest bit. -/
inductive ShiftSem where
  | strict
  | hardware (f : BitVec 32 → Int → Bool)

/-- `(x >> j) & 1` for an `int x`. -/
def shrBit (sem : ShiftSem) (x : BitVec 32) (j : Int) : Res Bool :=
  if 0 ≤ j ∧ j < 32 then .ok ((x.sshiftRight j.toNat).getLsbD 0)
  else match sem with
    | .strict => .ub
    | .hardware f => .ok (f x j)

/-- PTable.hpp:1101-1104: the loop over the bits `i-1, .., 0`. -/
def mapLoop (sem : ShiftSem) (x : BitVec 32) (mapping : Finset Nat) : Nat → Int → Finset Nat → Res (Finset Nat)
  | 0, _, acc => .ok acc
  | i + 1, j, acc => do
    let b ← shrBit sem x j
    mapLoop sem x mapping i (if i ∈ mapping then j - 1 else j)
      (if b && decide (i ∈ mapping) then insert i acc else acc.erase i)

/-- PTable.hpp:1092-1096: the bin of a value. `v` is the column value as the `int` that `applyMask`
uses (BDCCInfo.hpp:111-125); `align` is the third component given for the dimension.
Negative shift amounts (`align < nBits`) and amounts of 32 or more are undefined behaviour. -/
def bin (v : BitVec 32) (nBits align : Nat) : Res (BitVec 32) :=
  if nBits ≤ align ∧ align - nBits < 32 ∧ align < 64 then
    .ok ((v &&& BitVec.ofNat 32 ((2 ^ nBits - 1) <<< (align - nBits))).sshiftRight (align - nBits))
  else .ub

/-- PTable.hpp:1089-1105: contribution of one dimension. -/
def dimBits (sem : ShiftSem) (v : BitVec 32) (nBits align : Nat) (mapping : Finset Nat) :
    Res (Finset Nat) := do
  let x ← bin v nBits align
  mapLoop sem x mapping 32 ((nBits : Int) - 1) mapping

/-- PTable.hpp:1088-1107: all dimensions `0, .., n-1`, result `xtr`. -/
def bdccLoop (sem : ShiftSem) (vals : Nat → BitVec 32) (bits align : Nat → Nat)
    (masks : Nat → Finset Nat) : Nat → Res (Finset Nat)
  | 0 => .ok ∅
  | n + 1 => do
    let xtr ← bdccLoop sem vals bits align masks n
    let d ← dimBits sem (vals n) (bits n) (align n) (masks n)
    pure (xtr ∪ d)

/-- PTable.hpp:1081-1110 `getBDCCFromTuple` on a table with the given dimensions; `vals i` is the value
of the column of dimension `i`. -/
def getBDCC (sem : ShiftSem) (vals : Nat → BitVec 32) (bits align : Nat → Nat) (n : Nat) :
    Res (Finset Nat) := do
  let masks ← deriveMasks bits n
  bdccLoop sem vals bits align masks n

/-- `bitset::to_ulong`. -/
def toNat (s : Finset Nat) : Nat := (List.range 32).foldl (fun a i => if i ∈ s then a + 2 ^ i else a) 0

end Verif.Bdcc
