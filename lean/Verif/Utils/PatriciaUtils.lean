import Mathlib.Data.List.Nodup
import Mathlib.Tactic.NormNum
import Verif.Res

/-!
# Model of `src/utils/PatriciaUtils.hpp`

`reverse`, `toBinaryString`, `toString` and the incremental digit mode of `RNG`.  Not modelled: the random modes, the timer.
-/

namespace Verif.PatriciaUtils

open Verif

/-! ## Model -/

/-- The loop of `reverse` (PatriciaUtils.hpp:37-39): `i` rounds left.  `n >>= 1` on a signed type repeats the sign bit. -/
def revLoop {w : Nat} (signed : Bool) : Nat → BitVec w → BitVec w → BitVec w
  | 0, rv, _ => rv
  | i + 1, rv, n =>
    revLoop signed i ((rv <<< 1) ||| (n &&& 1#w)) (if signed then n.sshiftRight 1 else n >>> 1)

/-- `std::numeric_limits<T>::digits` of an integer type of `w` bits. -/
def digits (signed : Bool) (w : Nat) : Nat := if signed then w - 1 else w

/-- `reverse(n, b)` (PatriciaUtils.hpp:31-42). -/
def reverse {w : Nat} (signed : Bool) (n : BitVec w) (b : Nat) : Res (BitVec w) :=
  if b ≤ digits signed w then .ok (revLoop signed b 0#w n) else .assertFail

/-- The inner loop of `toBinaryString` (53-59) from bit `j` of byte `i`; `m` rounds left; `none`: the function returns.
`1 << 7 - j` is `1 << (7 - j)`. -/
def binInner (ptr : List (BitVec 8)) (size i j : Nat) (ss : List Char) : Nat → Res (List Char × Bool)
  | 0 => .ok (ss, false)
  | m + 1 =>
    if i * 8 + j = size then .ok (ss, true)
    else do
      let x ← Res.ofOption ptr[i]?
      binInner ptr size i (j + 1) (ss ++ [if x &&& (1#8 <<< (7 - j)) ≠ 0#8 then '1' else '0']) m

/-- The outer loop (52) from byte `i`, `m` rounds left. -/
def binOuter (ptr : List (BitVec 8)) (size i : Nat) (ss : List Char) : Nat → Res (List Char)
  | 0 => .ok ss
  | m + 1 => do
    let r ← binInner ptr size i 0 ss 8
    if r.2 then .ok r.1 else binOuter ptr size (i + 1) r.1 m

/-- `toBinaryString(in, size)` (49-62) for `size ≥ 0`; `ptr` is the memory behind `in`, a read beyond it is undefined. -/
def toBinaryString (ptr : List (BitVec 8)) (size : Nat) : Res (List Char) := binOuter ptr size 0 [] (size / 8 + 1)

/-- `RNG::Type` (119-122). -/
inductive KeyKind where
  | digits
  | characters

/-- `RNG` in the mode `INCREMENTAL`: the target of `inc_val`; `none` is a pointer that was never set. -/
structure RNG where
  kind : KeyKind
  inc : Option (BitVec 64)

/-- `RNG::reset` (191-195): writes through `inc_val`. -/
def RNG.reset (r : RNG) : Res RNG := do
  let _ ← Res.ofOption r.inc
  pure { r with inc := some 0#64 }

/-- The constructor (126-140): only the case `DIGITS` allocates `inc_val`. -/
def RNG.new : KeyKind → Res RNG
  | .digits => RNG.reset ⟨.digits, some 0#64⟩
  | .characters => RNG.reset ⟨.characters, none⟩

/-- `KEY_SIZE` (115). -/
def KEY_SIZE : Nat := 4

/-- An assignment to an element of the key buffer. -/
def poke (key : List (BitVec 8)) (p : Nat) (x : BitVec 8) : Res (List (BitVec 8)) :=
  if p < key.length then .ok (key.set p x) else .ub

/-- The loop of the incremental digit mode (150-153) from `i`, `m` rounds left: byte `i` of the counter (the machine is
little endian) goes to position `size - 1 - i`. -/
def digitLoop (size : Nat) (inc : BitVec 64) (i : Nat) (key : List (BitVec 8)) : Nat → Res (List (BitVec 8))
  | 0 => .ok key
  | m + 1 => do
    let key ← poke key (size - 1 - i) (inc.extractLsb' (8 * i) 8)
    digitLoop size inc (i + 1) key m

/-- `RNG::next(key, size)` (142-155) in the incremental digit mode.  The argument `size` is overwritten at once (146). -/
def RNG.next (r : RNG) (key : List (BitVec 8)) (size : Nat) : Res (RNG × List (BitVec 8)) := do
  Res.assert (0 < size)
  let size := KEY_SIZE
  let inc ← Res.ofOption r.inc
  let key ← digitLoop size inc 0 key size
  pure ({ r with inc := some (inc + 1#64) }, key)

/-! ## `reverse` -/

theorem revLoop_bit {w : Nat} (signed : Bool) : ∀ (b : Nat) (rv n : BitVec w) (k : Nat), k < w → b + (if signed then 1 else 0) ≤ w →
    (revLoop signed b rv n).getLsbD k = if k < b then n.getLsbD (b - 1 - k) else rv.getLsbD (k - b)
  | 0, rv, n, k, hk, hb => by simp [revLoop]
  | b + 1, rv, n, k, hk, hb => by
    rw [revLoop, revLoop_bit signed b _ _ k hk (by omega)]
    by_cases h1 : k < b
    · rw [if_pos h1, if_pos (show k < b + 1 by omega)]
      have e : b + 1 - 1 - k = 1 + (b - 1 - k) := by omega
      rw [e]
      cases signed with
      | false => simp [BitVec.getLsbD_ushiftRight]
      | true =>
        rw [if_pos rfl, BitVec.getLsbD_sshiftRight]
        simp only [if_true] at hb
        have h2 : ¬ w ≤ b - 1 - k := by omega
        have h3 : 1 + (b - 1 - k) < w := by omega
        simp [h2, h3]
    · rw [if_neg h1]
      simp only [BitVec.getLsbD_or, BitVec.getLsbD_shiftLeft, BitVec.getLsbD_and]
      by_cases h2 : k = b
      · subst h2
        have : 0 < w := by omega
        simp [this]
      · rw [if_neg (by omega)]
        have h3 : ¬ k - b < 1 := by omega
        have h4 : k - b < w := by omega
        have h5 : k - b ≠ 0 := by omega
        have e : k - b - 1 = k - (b + 1) := by omega
        simp [h3, h4, h5, e]

/-- `reverse(n, b)` mirrors the lowest `b` bits and clears the others. -/
theorem reverse_bit {w : Nat} (signed : Bool) (n : BitVec w) (b : Nat) (hb : b ≤ digits signed w) :
    ∃ r, reverse signed n b = .ok r ∧ ∀ k, r.getLsbD k = (decide (k < b) && n.getLsbD (b - 1 - k)) := by
  refine ⟨_, if_pos hb, fun k => ?_⟩
  by_cases hk : k < w
  · by_cases h0 : b = 0
    · subst h0; simp [revLoop]
    · rw [revLoop_bit signed b _ _ k hk (by
        unfold digits at hb
        cases signed <;> simp at hb ⊢ <;> omega)]
      by_cases h1 : k < b <;> simp [h1]
  · have : b ≤ w := by unfold digits at hb; split at hb <;> omega
    have h1 : ¬ k < b := by omega
    rw [BitVec.getLsbD_of_ge _ _ (by omega)]
    simp [h1]

/-! ## `toBinaryString` -/

/-- Bit `q` of the memory, most significant bit of the first byte first. -/
def memBit (ptr : List (BitVec 8)) (q : Nat) : Bool := ((ptr[q / 8]?).getD 0#8).getLsbD (7 - q % 8)

/-- The characters of the bits below `n`. -/
def bits (ptr : List (BitVec 8)) (n : Nat) : List Char := (List.range n).map (fun q => if memBit ptr q then '1' else '0')

theorem bits_succ (ptr : List (BitVec 8)) (n : Nat) :
    bits ptr (n + 1) = bits ptr n ++ [if memBit ptr n then '1' else '0'] := by
  simp [bits, List.range_succ]

theorem and_shift_ne (x : BitVec 8) (p : Nat) (hp : p < 8) : (x &&& (1#8 <<< p) ≠ 0#8) ↔ x.getLsbD p = true := by
  constructor
  · intro h
    by_contra hc
    apply h
    apply BitVec.eq_of_getLsbD_eq
    intro i hi
    simp only [BitVec.getLsbD_and, BitVec.getLsbD_shiftLeft, BitVec.getLsbD_one]
    by_cases e : i = p
    · subst e; simp [hc]
    · have : ¬ (decide (i < 8) && !decide (i < p) && (decide (0 < 8) && decide (i - p = 0))) = true := by
        simp; omega
      simp at this ⊢
      omega
  · intro h hc
    have := congrArg (fun y => BitVec.getLsbD y p) hc
    simp only [BitVec.getLsbD_and, BitVec.getLsbD_shiftLeft, h] at this
    simp [hp] at this

theorem binInner_spec (ptr : List (BitVec 8)) (size i : Nat) (hs : size ≤ 8 * ptr.length) : ∀ (m j : Nat), j + m = 8 →
    i * 8 + j ≤ size →
    binInner ptr size i j (bits ptr (i * 8 + j)) m =
      .ok (if size < i * 8 + 8 then (bits ptr size, true) else (bits ptr (i * 8 + 8), false))
  | 0, j, hj, hle => by
    have : j = 8 := by omega
    subst this
    rw [binInner, if_neg (by omega)]
  | m + 1, j, hj, hle => by
    rw [binInner]
    by_cases e : i * 8 + j = size
    · rw [if_pos e, if_pos (by omega), e]
    · rw [if_neg e]
      have hi : i < ptr.length := by omega
      rw [List.getElem?_eq_getElem hi, Res.ofOption_some, Res.ok_bind]
      have hb : memBit ptr (i * 8 + j) = ptr[i].getLsbD (7 - j) := by
        unfold memBit
        rw [show (i * 8 + j) / 8 = i by omega, show (i * 8 + j) % 8 = j by omega, List.getElem?_eq_getElem hi]
        rfl
      have hc : (if ptr[i] &&& (1#8 <<< (7 - j)) ≠ 0#8 then '1' else '0') = (if memBit ptr (i * 8 + j) then '1' else '0') := by
        rw [hb]
        by_cases h : ptr[i].getLsbD (7 - j) = true
        · rw [if_pos ((and_shift_ne _ _ (by omega)).2 h), if_pos h]
        · rw [if_neg (fun hh => h ((and_shift_ne _ _ (by omega)).1 hh)), if_neg h]
      rw [hc, ← bits_succ]
      exact binInner_spec ptr size i hs m (j + 1) (by omega) (by omega)

theorem binOuter_spec (ptr : List (BitVec 8)) (size : Nat) (hs : size ≤ 8 * ptr.length) : ∀ (m i : Nat), i + m = size / 8 + 1 →
    0 < m → binOuter ptr size i (bits ptr (i * 8)) m = .ok (bits ptr size)
  | 0, _, _, h0 => by omega
  | m + 1, i, hi, _ => by
    have hI := binInner_spec ptr size i hs 8 0 (by omega) (by omega)
    rw [Nat.add_zero] at hI
    rw [binOuter, hI, Res.ok_bind]
    by_cases h : size < i * 8 + 8
    · rw [if_pos h]; rfl
    · rw [if_neg h]
      have := binOuter_spec ptr size hs m (i + 1) (by omega) (by omega)
      rw [show (i + 1) * 8 = i * 8 + 8 by omega] at this
      exact this

theorem toBinaryString_spec (ptr : List (BitVec 8)) (size : Nat) (hs : size ≤ 8 * ptr.length) :
    toBinaryString ptr size = .ok (bits ptr size) := by
  have := binOuter_spec ptr size hs (size / 8 + 1) 0 (by omega) (by omega)
  rw [show bits ptr (0 * 8) = [] from rfl] at this
  exact this

/-! ## `RNG` -/

theorem digitLoop_ok {key : List (BitVec 8)} (hk : 4 ≤ key.length) (inc : BitVec 64) :
    digitLoop 4 inc 0 key 4 = .ok ([inc.extractLsb' 24 8, inc.extractLsb' 16 8, inc.extractLsb' 8 8, inc.extractLsb' 0 8] ++
      key.drop 4) := by
  match key, hk with
  | a :: b :: c :: d :: rest, _ =>
    simp only [digitLoop, poke, List.length_cons]
    rfl

theorem digitLoop_ub {key : List (BitVec 8)} (hk : key.length < 4) (inc : BitVec 64) :
    digitLoop 4 inc 0 key 4 = .ub := by
  rw [digitLoop, poke, if_neg (by omega)]; rfl

end Verif.PatriciaUtils
