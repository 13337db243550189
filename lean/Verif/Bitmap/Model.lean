import Verif.Res

/-!
# Model of `dbis::Bitmap<NUM_BITS>` (src/utils/Bitmap.hpp)

`Word` is `size_t`; the model fixes 64-bit words (`BITMAP_WORD size_t`, line 25, on the 64-bit
platforms the library supports; the 64-entry table at lines 28-31 assumes the same).
The word array is a function from word index to word; every access made by the code has an index
below `NUM_WORDS` (proved as `Bitmap.pos_word_lt`).
-/

namespace Verif

abbrev Word := BitVec 64

/-- Bitmap.hpp:27 `deBruijnSeq`. -/
def deBruijnSeq : Word := 0x07EDD5E59A4E28C2#64

/-- Bitmap.hpp:28-31 `tab64`. -/
def tab64 : List Nat :=
  [63, 0,  58, 1,  59, 47, 53, 2,  60, 39, 48, 27, 54, 33, 42, 3,  61, 51, 37, 40, 49, 18,
   28, 20, 55, 30, 34, 11, 43, 14, 22, 4,  62, 57, 46, 52, 38, 26, 32, 41, 50, 36, 17, 19,
   29, 10, 13, 21, 56, 45, 25, 31, 35, 16, 9,  12, 44, 24, 15, 8,  23, 7,  6,  5]

/-- Bitmap.hpp:39-44, the class; `words` is the word array. -/
structure Bitmap (NB : Nat) where
  words : Nat → Word

namespace Bitmap

variable {NB : Nat}

/-- Bitmap.hpp:42 `NUM_WORDS`. -/
def numWords (NB : Nat) : Nat := (NB + 64 - 1) / 64

/-- Bitmap.hpp:119 constructor: all words value-initialised to zero. -/
def fresh (NB : Nat) : Bitmap NB := ⟨fun _ => 0#64⟩

/-- Bitmap.hpp:51-53 `maskBit`. -/
def maskBit (pos : Nat) : Word := 1#64 <<< (pos % 64)

/-- Write one word of the array. -/
def setWord (b : Bitmap NB) (i : Nat) (w : Word) : Bitmap NB :=
  ⟨fun j => if j = i then w else b.words j⟩

/-- Bitmap.hpp:127-130 `test` (and the const `operator[]`, lines 139-142); `check` (55-59) throws. -/
def test (b : Bitmap NB) (pos : Nat) : Res Bool :=
  if pos ≥ NB then .throws else .ok (b.words (pos / 64) &&& maskBit pos != 0#64)

/-- Bitmap.hpp:210-217 `set(pos, value)`. -/
def set (b : Bitmap NB) (pos : Nat) (value : Bool := true) : Res (Bitmap NB) :=
  if pos ≥ NB then .throws
  else if value then .ok (b.setWord (pos / 64) (b.words (pos / 64) ||| maskBit pos))
  else .ok (b.setWord (pos / 64) (b.words (pos / 64) &&& ~~~ (maskBit pos)))

/-- Bitmap.hpp:225-229 `reset(pos)`. -/
def reset (b : Bitmap NB) (pos : Nat) : Res (Bitmap NB) :=
  if pos ≥ NB then .throws
  else .ok (b.setWord (pos / 64) (b.words (pos / 64) &&& ~~~ (maskBit pos)))

/-- Bitmap.hpp:64-66 `sanitize`. -/
def sanitize (b : Bitmap NB) : Bitmap NB :=
  b.setWord (numWords NB - 1)
    (b.words (numWords NB - 1) &&& ~~~ ((~~~ 0#64) <<< (NB % 64)))

/-- Bitmap.hpp:186-190 `flip()`. -/
def flip (b : Bitmap NB) : Bitmap NB :=
  sanitize ⟨fun i => if i < numWords NB then ~~~ (b.words i) else b.words i⟩

/-- Bitmap.hpp:197-201 `set()`. -/
def setAll (b : Bitmap NB) : Bitmap NB :=
  sanitize ⟨fun i => if i < numWords NB then ~~~ 0#64 else b.words i⟩

/-- Bitmap.hpp:161-165, population count of one word.  `(Word)~(Word)0 / 3` etc. are the constants
`0x5555...`, `0x3333...`, `0x0f0f...`, `0x0101...`. -/
def popWord (w0 : Word) : Nat :=
  let w := w0 - ((w0 >>> 1) &&& (~~~ 0#64 / 3#64))
  let w := (w &&& (~~~ 0#64 / 15#64 * 3#64)) + ((w >>> 2) &&& (~~~ 0#64 / 15#64 * 3#64))
  let w := (w + (w >>> 4)) &&& (~~~ 0#64 / 255#64 * 15#64)
  ((w * (~~~ 0#64 / 255#64)) >>> 56).toNat

/-- Bitmap.hpp:157-168 `count()`; the `size_t` accumulator is a natural number (it never exceeds
`64 * NUM_WORDS`). -/
def count (b : Bitmap NB) : Nat :=
  (List.range (numWords NB)).foldl (fun c i => c + popWord (b.words i)) 0

/-- Bitmap.hpp:175-180 `all()`. -/
def all (b : Bitmap NB) : Bool :=
  (List.range (numWords NB - 1)).all (fun i => b.words i == ~~~ 0#64) &&
  (b.words (numWords NB - 1) == (~~~ 0#64) >>> (numWords NB * 64 - NB))

/-- Bitmap.hpp:250 / 269: `tab64[((uint64_t)((w & -w) * deBruijnSeq)) >> 58]`. -/
def ctzTab (w : Word) : Nat :=
  tab64.getD (((w &&& -w) * deBruijnSeq) >>> 58).toNat 0

/-- The loops of Bitmap.hpp:244-254 and 263-273: first word (from `n - r` on) for which `f` is
non-zero, and the position of its lowest set bit; `64 * NUM_WORDS` if there is none. -/
def scanWords (f : Nat → Word) (n : Nat) : Nat → Nat
  | 0 => 64 * n
  | r + 1 =>
    let i := n - (r + 1)
    if f i ≠ 0#64 then 64 * i + ctzTab (f i) else scanWords f n r

/-- Bitmap.hpp:243-256 `getFreeZero`. -/
def getFreeZero (b : Bitmap NB) : Nat :=
  scanWords (fun i => ~~~ (b.words i)) (numWords NB) (numWords NB)

/-- Bitmap.hpp:262-275 `getFirstSet`. -/
def getFirstSet (b : Bitmap NB) : Nat :=
  scanWords b.words (numWords NB) (numWords NB)

/-- Bitmap.hpp:277-284 `copyToString`: character `i` of the result (for `i < NB`) shows bit `NB-1-i`. -/
def copyToString (b : Bitmap NB) : List Char :=
  (List.range NB).map fun i =>
    if b.words ((NB - 1 - i) / 64) &&& maskBit (NB - 1 - i) != 0#64 then '1' else '0'

end Bitmap
end Verif
