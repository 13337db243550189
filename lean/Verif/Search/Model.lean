import Verif.Bitmap.Model
import Mathlib.Order.Defs.LinearOrder
import Mathlib.Data.List.Sort

/-!
# Model of src/utils/SearchFunctions.hpp

Key arrays are read through a function `rd : Nat → Res K`, so that a read outside the array is the
outcome `ub`.  Indices are natural numbers or integers; 32-bit wrap-around of the indices is not
modelled (capacities are template parameters far below `2^31`).
-/

namespace Verif.Search

variable {K : Type} [LinearOrder K]

/-- The loop of SearchFunctions.hpp:237-246 (`std::array` version) and 264-273 (slot version), in
state `(pos, l, r)`.  The first argument bounds the number of iterations; `binarySearch` starts it
with the length of the interval, which shrinks in every iteration. -/
def bsLoop (isBranch : Bool) (rd : Nat → Res K) (key : K) : Nat → Nat → Int → Int → Res Nat
  | 0, pos, l, r => if l ≤ r then .ub else .ok pos
  | fuel + 1, pos, l, r =>
    if l ≤ r then do
      let k ← rd ((l + r) / 2).toNat
      if k = key then
        pure (if isBranch then ((l + r) / 2).toNat + 1 else ((l + r) / 2).toNat)
      else if k < key then
        bsLoop isBranch rd key fuel (((l + r) / 2).toNat + 1) (((l + r) / 2).toNat + 1) r
      else bsLoop isBranch rd key fuel ((l + r) / 2).toNat l (((l + r) / 2).toNat - 1)
    else .ok pos

/-- SearchFunctions.hpp:233-247 `binarySearch<isBranch>(keys, l, r, key)`. -/
def binarySearch (isBranch : Bool) (rd : Nat → Res K) (l r : Int) (key : K) : Res Nat :=
  bsLoop isBranch rd key (r - l + 1).toNat 0 l r

/-- SearchFunctions.hpp:259-274 `binarySearch<isBranch>(keys, slots, l, r, key)`; the array read is
`keys[slots[pos]]`. -/
def binarySearchSlots (isBranch : Bool) (rdKey : Nat → Res K) (rdSlot : Nat → Res Nat)
    (l r : Int) (key : K) : Res Nat :=
  bsLoop isBranch (fun p => rdSlot p >>= rdKey) key (r - l + 1).toNat 1 l r

/-- Linear search, BPTree.hpp:988-997 `lookupPositionInBranchNode` (`lt = false`: advance while
`keys[pos] <= key`) and BPTree.hpp:1008-1017 `lookupPositionInLeafNode` (`lt = true`: advance while
`keys[pos] < key`); `n` keys remain from position `pos` on. -/
def linearSearch (lt : Bool) (rd : Nat → Res K) (key : K) (pos : Nat) : Nat → Res Nat
  | 0 => .ok pos
  | n + 1 => do
    let k ← rd pos
    if (if lt then k < key else k ≤ key) then linearSearch lt rd key (pos + 1) n else pure pos

/-- Loop shared by the extremal searches: over `i = from .. from+n-1`, keep the best key and its
position; `better i cur` says whether position `i` replaces the current best. -/
def bestLoop (rd : Nat → Res K) (better : Nat → K → K → Res Bool) (cur : K) (pos i : Nat) :
    Nat → Res (K × Nat)
  | 0 => .ok (cur, pos)
  | n + 1 => do
    let k ← rd i
    let b ← better i k cur
    if b then bestLoop rd better k i (i + 1) n else bestLoop rd better cur pos (i + 1) n

/-- SearchFunctions.hpp:105-116 `findMinKeyPos(node)`. -/
def findMinKeyPos (rd : Nat → Res K) (numKeys : Nat) : Res Nat := do
  let k0 ← rd 0
  let r ← bestLoop rd (fun _ k cur => .ok (decide (k < cur))) k0 0 1 (numKeys - 1)
  pure r.2

/-- SearchFunctions.hpp:143-154 `findMaxKeyPos(node)`. -/
def findMaxKeyPos (rd : Nat → Res K) (numKeys : Nat) : Res Nat := do
  let k0 ← rd 0
  let r ← bestLoop rd (fun _ k cur => .ok (decide (cur < k))) k0 0 1 (numKeys - 1)
  pure r.2

/-- `std::numeric_limits<KeyType>::min()` and `max()`. -/
structure Limits (K : Type) where
  min : K
  max : K

/-- `bitsRef.test(i) && c`. -/
def testAnd {N : Nat} (bits : Bitmap N) (i : Nat) (c : Bool) : Res Bool := do
  let b ← bits.test i
  pure (b && c)

/-- SearchFunctions.hpp:124-135 `findMinKeyPos(keys, bits)`. -/
def findMinKeyPosBits {N : Nat} (lim : Limits K) (keys : Fin N → K) (bits : Bitmap N) : Res Nat := do
  let rd := fun i => if h : i < N then Res.ok (keys ⟨i, h⟩) else .ub
  let r ← bestLoop rd (fun i k cur => testAnd bits i (decide (k < cur))) lim.max 0 0 N
  pure r.2

/-- SearchFunctions.hpp:163-174 `findMaxKeyPos(keys, bits)`. -/
def findMaxKeyPosBits {N : Nat} (lim : Limits K) (keys : Fin N → K) (bits : Bitmap N) : Res Nat := do
  let rd := fun i => if h : i < N then Res.ok (keys ⟨i, h⟩) else .ub
  let r ← bestLoop rd (fun i k cur => testAnd bits i (decide (cur < k))) lim.min 0 0 N
  pure r.2

/-- SearchFunctions.hpp:184-198 `findMinKeyPosGreaterThan`. -/
def findMinKeyPosGreaterThan {N : Nat} (lim : Limits K) (keys : Fin N → K) (bits : Bitmap N)
    (key : K) : Res Nat := do
  let rd := fun i => if h : i < N then Res.ok (keys ⟨i, h⟩) else .ub
  let r ← bestLoop rd (fun i k cur => testAnd bits i (decide (k < cur) && decide (key < k)))
    lim.max 0 0 N
  pure (if r.1 = lim.max then N else r.2)

/-- SearchFunctions.hpp:208-222 `findMaxKeyPosSmallerThan`. -/
def findMaxKeyPosSmallerThan {N : Nat} (lim : Limits K) (keys : Fin N → K) (bits : Bitmap N)
    (key : K) : Res Nat := do
  let rd := fun i => if h : i < N then Res.ok (keys ⟨i, h⟩) else .ub
  let r ← bestLoop rd (fun i k cur => testAnd bits i (decide (cur < k) && decide (k < key)))
    lim.min 0 0 N
  pure (if r.1 = lim.min then N else r.2)

/-! ## Selection -/

/-- Integer conversions between `KeyType` and `std::size_t`, and the comparison
`KeyType < std::size_t` / `KeyType == std::size_t` of C++, which converts the key to `size_t` first
(usual arithmetic conversions for integer types of at most 64 bits). -/
structure Conv (K : Type) where
  toSize : K → Nat
  ofSize : Nat → K

/-- `int` (32 bits) as key type. -/
def convInt : Conv Int where
  toSize x := (x % 2 ^ 64).toNat
  ofSize n := (n : Int).bmod (2 ^ 32)

/-- A `KeyType data[]` of capacity `cap`. -/
structure Arr (K : Type) where
  cap : Nat
  get : Nat → K

/-- `std::swap(data[i], data[j])`. -/
def Arr.swap (a : Arr K) (i j : Nat) : Res (Arr K) :=
  if i < a.cap ∧ j < a.cap then
    .ok { a with get := fun p => if p = i then a.get j else if p = j then a.get i else a.get p }
  else .ub

/-- `data[i]`. -/
def Arr.rd (a : Arr K) (i : Nat) : Res K := if i < a.cap then .ok (a.get i) else .ub

/-- The elements `data[s .. s+n)`. -/
def Arr.seg (a : Arr K) (s n : Nat) : List K := (List.range n).map (fun i => a.get (s + i))

/-- SearchFunctions.hpp:60-64 `findMedian(data + s, length)`: `std::sort` of the group in place (its
result is the sorted permutation of the group) and the middle element. -/
def findMedian (a : Arr K) (s length : Nat) : Res (Arr K × K) :=
  if s + length ≤ a.cap then
    let srt := (a.seg s length).insertionSort (· ≤ ·)
    let a' : Arr K := { a with get := fun p =>
      if s ≤ p ∧ p < s + length then (srt[p - s]?).getD (a.get p) else a.get p }
    do let m ← a'.rd (s + length / 2); pure (a', m)
  else .ub

/-- SearchFunctions.hpp:46: the medians of the full groups of five, from group `i` on. -/
def mediansFull (start : Nat) : Nat → Nat → Arr K → List K → Res (Arr K × List K)
  | _, 0, a, med => .ok (a, med)
  | i, n + 1, a, med => do
    let (a, m) ← findMedian a (start + i * 5) 5
    mediansFull start (i + 1) n a (med ++ [m])

/-- SearchFunctions.hpp:46-50: all medians; the VLA `median` is a list. -/
def medians (start length : Nat) (a : Arr K) : Res (Arr K × List K) := do
  let (a, med) ← mediansFull start 0 (length / 5) a []
  if length / 5 * 5 < length then do
    let (a, m) ← findMedian a (start + length / 5 * 5) (length % 5)
    pure (a, med ++ [m])
  else pure (a, med)

/-- SearchFunctions.hpp:69: first index in `[i, i+n)` holding `x`, else `i+n`. -/
def findX (a : Arr K) (x : K) (i : Nat) : Nat → Res Nat
  | 0 => .ok i
  | n + 1 => do
    let k ← a.rd i
    if k = x then pure i else findX a x (i + 1) n

/-- SearchFunctions.hpp:74-75: the partition loop over `j, .., j+n-1` with write index `i`. -/
def partLoop (x : K) (i j : Nat) (a : Arr K) : Nat → Res (Nat × Arr K)
  | 0 => .ok (i, a)
  | n + 1 => do
    let k ← a.rd j
    if k ≤ x then do
      let a ← a.swap i j
      partLoop x (i + 1) (j + 1) a n
    else partLoop x i (j + 1) a n

/-- SearchFunctions.hpp:66-78 `partition(data, start, end, x)`. -/
def partition (a : Arr K) (start e : Nat) (x : K) : Res (Nat × Arr K) := do
  let i ← findX a x start (e - start)
  let a ← a.swap i e
  let (i, a) ← partLoop x start start a (e - start)
  let a ← a.swap i e
  pure (i, a)

/-- The local array `median[parts]`. -/
def Arr.ofList [Inhabited K] (l : List K) : Arr K := ⟨l.length, fun i => l.getD i default⟩

/-- SearchFunctions.hpp:39-56 `elementOfRankK(k, data, start, length)`.  `fuel` bounds the recursion
depth; running out of fuel (unbounded recursion) is `ub`; the theorems show that `fuel = length`
suffices for every valid call.  A call with `length = 0` recurses for ever in the code.  The
unsigned expression `k - pos + start - 1` of line 55 is written without intermediate wrap-around;
ranks are at least 1. -/
def elementOfRankK [Inhabited K] (cv : Conv K) : Nat → Nat → Arr K → Nat → Nat → Res (Nat × Arr K)
  | 0, _, _, _, _ => .ub
  | _, _, _, _, 0 => .ub
  | fuel + 1, k, a, start, length + 1 => do
    let e := start + (length + 1) - 1
    let (a, med) ← medians start (length + 1) a
    let medOfMed ←
      (if med.length = 1 then (Arr.ofList med).rd 0
       else elementOfRankK cv fuel (med.length / 2) (Arr.ofList med) 0 med.length >>=
        fun r => pure (cv.ofSize r.1))
    let (pos, a) ← partition a start e medOfMed
    if pos - start = k - 1 then do
      let r ← a.rd pos
      pure (cv.toSize r, a)
    else if pos - start > k - 1 then elementOfRankK cv fuel k a start (pos - start)
    else elementOfRankK cv fuel (k + start - pos - 1) a (pos + 1) (e - pos)

/-- SearchFunctions.hpp:91-95: the loop that marks the keys below the split key. -/
def splitLoop {M : Nat} (cv : Conv K) (data : Arr K) (splitKey : Nat) (i : Nat) (b : Bitmap M)
    (sp : Option Nat) : Nat → Res (Bitmap M × Option Nat)
  | 0 => .ok (b, sp)
  | n + 1 => do
    let k ← data.rd i
    if cv.toSize k < splitKey then do
      let b ← b.set i
      splitLoop cv data splitKey (i + 1) b sp n
    else if cv.toSize k = splitKey then splitLoop cv data splitKey (i + 1) b (some i) n
    else splitLoop cv data splitKey (i + 1) b sp n

/-- SearchFunctions.hpp:82-97 `findSplitKey<KeyType, M>(data)`; returning the uninitialised
`splitPos` is `ub`. -/
def findSplitKey [Inhabited K] (cv : Conv K) (M : Nat) (data : Arr K) : Res (Bitmap M × Nat) := do
  let rep : Arr K := ⟨M, data.get⟩
  if data.cap < M then .ub else
  let r ← elementOfRankK cv M ((M + 1) / 2 + 1) rep 0 M
  let (b, sp) ← splitLoop cv data r.1 0 (Bitmap.fresh M) none M
  match sp with
  | some p => pure (b, p)
  | none => .ub

end Verif.Search
