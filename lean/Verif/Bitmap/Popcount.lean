import Verif.Bitmap.Model
import Mathlib.Tactic.Ring
import Mathlib.Tactic.IntervalCases
import Mathlib.Algebra.BigOperators.Group.Finset.Basic
import Mathlib.Algebra.BigOperators.Intervals

/-! # Helper lemmas: the SWAR population count is the number of set bits -/

namespace Verif.Popcount

/-- Number of set bits among the lowest `n`. -/
def pc : Nat → Nat → Nat
  | 0, _ => 0
  | n + 1, x => x % 2 + pc n (x / 2)

theorem pc_eq_sum (n x : Nat) : pc n x = ∑ i ∈ Finset.range n, (x.testBit i).toNat := by
  induction n generalizing x with
  | zero => simp [pc]
  | succ n ih =>
    rw [pc, ih, Finset.sum_range_succ']
    have : (x.testBit 0).toNat = x % 2 := by
      rw [Nat.testBit_zero]; rcases Nat.mod_two_eq_zero_or_one x with h | h <;> simp [h]
    rw [this, Nat.add_comm]
    congr 1
    apply Finset.sum_congr rfl
    intro i _
    rw [Nat.testBit_succ]

theorem land_split (k a m A M : Nat) (ha : a < 2 ^ k) (hm : m < 2 ^ k) :
    (a + 2 ^ k * A) &&& (m + 2 ^ k * M) = (a &&& m) + 2 ^ k * (A &&& M) := by
  apply Nat.eq_of_testBit_eq
  intro i
  have hand : a &&& m < 2 ^ k := Nat.lt_of_le_of_lt Nat.and_le_left ha
  rw [Nat.add_comm a, Nat.add_comm m, Nat.add_comm (a &&& m)]
  rw [Nat.testBit_and]
  rw [Nat.testBit_two_pow_mul_add _ ha, Nat.testBit_two_pow_mul_add _ hm,
    Nat.testBit_two_pow_mul_add _ hand]
  split <;> simp

/-- `n` repetitions of the `k`-bit pattern `m`. -/
def rep (k m : Nat) : Nat → Nat
  | 0 => 0
  | n + 1 => m + 2 ^ k * rep k m n

def pairs : Nat → Nat → Nat
  | 0, _ => 0
  | n + 1, x => (x % 4) / 2 + (x % 4) % 2 + 4 * pairs n (x / 4)

def quads : Nat → Nat → Nat
  | 0, _ => 0
  | n + 1, x => (x % 16) % 4 + (x % 16) / 4 + 16 * quads n (x / 16)

def octs : Nat → Nat → Nat
  | 0, _ => 0
  | n + 1, x => (x % 256) % 16 + (x % 256) / 16 + 256 * octs n (x / 256)

theorem land1 (n x : Nat) :
    (x / 2) &&& rep 2 1 n ≤ x ∧ (x < 4 ^ n → x - ((x / 2) &&& rep 2 1 n) = pairs n x) := by
  induction n generalizing x with
  | zero => simp [rep, pairs]
  | succ n ih =>
    obtain ⟨ih1, ih2⟩ := ih (x / 4)
    have e : (x / 2) &&& rep 2 1 (n + 1) = (x % 4) / 2 + 4 * ((x / 4 / 2) &&& rep 2 1 n) := by
      have hx : x / 2 = (x / 2 % 4) + 2 ^ 2 * (x / 4 / 2) := by omega
      rw [rep, hx, land_split 2 _ _ _ _ (by omega) (by omega)]
      have : (x / 2 % 4) &&& 1 = (x % 4) / 2 := by
        rw [Nat.and_one_is_mod]; omega
      rw [this]
      norm_num
    constructor
    · rw [e]; omega
    · intro h
      rw [e, pairs]
      have := ih2 (by rw [Nat.pow_succ] at h; omega)
      omega

theorem land2 (n x : Nat) :
    (x &&& rep 4 3 n) + ((x / 4) &&& rep 4 3 n) = quads n x := by
  induction n generalizing x with
  | zero => simp [rep, quads]
  | succ n ih =>
    have h3 : ∀ a, a &&& 3 = a % 4 := fun a => Nat.and_two_pow_sub_one_eq_mod a 2
    have hx : x = x % 16 + 2 ^ 4 * (x / 16) := by omega
    have hx4 : x / 4 = (x / 4 % 16) + 2 ^ 4 * (x / 16 / 4) := by omega
    have e1 : x &&& rep 4 3 (n + 1) = (x % 16) % 4 + 16 * ((x / 16) &&& rep 4 3 n) := by
      conv_lhs => rw [rep, hx, land_split 4 _ _ _ _ (by omega) (by omega)]
      rw [h3]
      norm_num
    have e2 : (x / 4) &&& rep 4 3 (n + 1) = (x % 16) / 4 + 16 * ((x / 16 / 4) &&& rep 4 3 n) := by
      rw [rep, hx4, land_split 4 _ _ _ _ (by omega) (by omega)]
      rw [h3]; omega
    rw [e1, e2, quads, ← ih]
    ring

/-- All nibbles are at most 4. -/
def nib4 : Nat → Nat → Prop
  | 0, x => x = 0
  | n + 1, x => x % 16 ≤ 4 ∧ nib4 n (x / 16)

theorem quads_nib4 (n x : Nat) (h : ∀ i, x / 4 ^ i % 4 ≤ 2) : nib4 n (quads n x) := by
  induction n generalizing x with
  | zero => simp [nib4, quads]
  | succ n ih =>
    have h0 : x % 4 ≤ 2 := by simpa using h 0
    have h1 : x / 4 % 4 ≤ 2 := by simpa using h 1
    have e0 : x % 16 % 4 = x % 4 := by omega
    have e1 : x % 16 / 4 = x / 4 % 4 := by omega
    refine ⟨?_, ?_⟩
    · rw [quads, e0, e1, Nat.add_mul_mod_self_left, Nat.mod_eq_of_lt (by omega)]
      omega
    · have : quads (n + 1) x / 16 = quads n (x / 16) := by rw [quads]; omega
      rw [this]
      apply ih
      intro i
      have := h (i + 2)
      rw [pow_add, Nat.mul_comm, ← Nat.div_div_eq_div_mul] at this
      exact this

theorem pairs_le2 (n x : Nat) : ∀ i, pairs n x / 4 ^ i % 4 ≤ 2 := by
  induction n generalizing x with
  | zero => simp [pairs]
  | succ n ih =>
    intro i
    rw [pairs]
    cases i with
    | zero =>
      have : x % 4 < 4 := Nat.mod_lt _ (by decide)
      have h2 : (x % 4) / 2 + (x % 4) % 2 ≤ 2 := by
        generalize x % 4 = y at *
        interval_cases y <;> simp
      rw [pow_zero, Nat.div_one]
      omega
    | succ i =>
      have := ih (x / 4) i
      rw [pow_succ, Nat.mul_comm (4 ^ i), ← Nat.div_div_eq_div_mul]
      have e : ((x % 4) / 2 + (x % 4) % 2 + 4 * pairs n (x / 4)) / 4 = pairs n (x / 4) := by omega
      rw [e]; exact this

theorem land3 (n x : Nat) (h : nib4 (2 * n) x) :
    (x + x / 16) &&& rep 8 15 n = octs n x := by
  induction n generalizing x with
  | zero => simp [rep, octs]
  | succ n ih =>
    have h15 : ∀ a, a &&& 15 = a % 16 := fun a => Nat.and_two_pow_sub_one_eq_mod a 4
    have hh : x % 16 ≤ 4 ∧ (x / 16) % 16 ≤ 4 ∧ nib4 (2 * n) (x / 16 / 16) := h
    obtain ⟨a1, a2, a3⟩ := hh
    have a4 : x / 256 % 16 ≤ 4 := by
      cases n with
      | zero => have : x / 16 / 16 = 0 := a3
                omega
      | succ n => have := a3.1
                  omega
    have e256 : x / 16 / 16 = x / 256 := by omega
    rw [e256] at a3
    have hx : x + x / 16 = (x + x / 16) % 256 + 2 ^ 8 * (x / 256 + x / 256 / 16) := by omega
    rw [hx, rep, land_split 8 _ _ _ _ (by omega) (by omega), ih _ a3, octs, h15]
    omega

theorem pairs_add (n x : Nat) :
    pairs (n + 4) x = pairs 4 (x % 256) + 256 * pairs n (x / 256) := by
  simp only [pairs]
  have e1 : x / 4 / 4 / 4 / 4 = x / 256 := by omega
  have e2 : x % 256 / 4 / 4 / 4 / 4 = 0 := by omega
  rw [e1]
  omega

theorem quads_add (n x : Nat) :
    quads (n + 2) x = quads 2 (x % 256) + 256 * quads n (x / 256) := by
  simp only [quads]
  have e1 : x / 16 / 16 = x / 256 := by omega
  rw [e1]
  omega

theorem pairs4_lt : ∀ x < 256, pairs 4 x < 256 := by decide +kernel
theorem quads2_lt : ∀ x < 256, quads 2 x < 256 := by decide +kernel
theorem byte_pc : ∀ x < 256, octs 1 (quads 2 (pairs 4 x)) = pc 8 x := by decide +kernel

/-- Sum of the lowest `n` bytes. -/
def bsum : Nat → Nat → Nat
  | 0, _ => 0
  | n + 1, x => x % 256 + bsum n (x / 256)

theorem pc_add (n x : Nat) : pc (n + 8) x = pc 8 (x % 256) + pc n (x / 256) := by
  simp only [pc]
  have e : x / 2 / 2 / 2 / 2 / 2 / 2 / 2 / 2 = x / 256 := by omega
  rw [e]
  omega

theorem octs_succ_of (n a y : Nat) (ha : a < 256) :
    octs (n + 1) (a + 256 * y) = octs 1 a + 256 * octs n y := by
  simp only [octs]
  have e1 : (a + 256 * y) % 256 = a := by omega
  have e2 : (a + 256 * y) / 256 = y := by omega
  have e3 : a % 256 = a := by omega
  rw [e1, e2, e3]; omega

theorem lanes (n x : Nat) :
    octs (n + 1) (quads (2 * n + 2) (pairs (4 * n + 4) x)) =
      pc 8 (x % 256) + 256 * octs n (quads (2 * n) (pairs (4 * n) (x / 256))) := by
  have hb : x % 256 < 256 := Nat.mod_lt _ (by decide)
  have p4 := pairs4_lt _ hb
  rw [pairs_add, quads_add]
  have e1 : (pairs 4 (x % 256) + 256 * pairs (4 * n) (x / 256)) % 256 = pairs 4 (x % 256) := by omega
  have e2 : (pairs 4 (x % 256) + 256 * pairs (4 * n) (x / 256)) / 256 = pairs (4 * n) (x / 256) := by
    omega
  rw [e1, e2, octs_succ_of _ _ _ (quads2_lt _ p4), byte_pc _ hb]

theorem pc8_le : ∀ x < 256, pc 8 x ≤ 8 := by decide +kernel

theorem mul_top (c0 c1 c2 c3 c4 c5 c6 c7 : Nat) (h0 : c0 ≤ 8) (h1 : c1 ≤ 8) (h2 : c2 ≤ 8)
    (h3 : c3 ≤ 8) (h4 : c4 ≤ 8) (h5 : c5 ≤ 8) (h6 : c6 ≤ 8) (h7 : c7 ≤ 8) :
    ((c0 + 256 * (c1 + 256 * (c2 + 256 * (c3 + 256 * (c4 + 256 * (c5 + 256 * (c6 + 256 * c7)))))))
      * 0x0101010101010101) % 2 ^ 64 / 2 ^ 56 = c0 + c1 + c2 + c3 + c4 + c5 + c6 + c7 := by
  have e : ((c0 + 256 * (c1 + 256 * (c2 + 256 * (c3 + 256 * (c4 + 256 * (c5 + 256 * (c6 + 256 * c7)))))))
      * 0x0101010101010101) =
      ((c0 + (c0+c1) * 256 + (c0+c1+c2) * 256^2 + (c0+c1+c2+c3) * 256^3 + (c0+c1+c2+c3+c4) * 256^4
        + (c0+c1+c2+c3+c4+c5) * 256^5 + (c0+c1+c2+c3+c4+c5+c6) * 256^6)
       + 2^56 * (c0 + c1 + c2 + c3 + c4 + c5 + c6 + c7))
       + 2^64 * ((c1+c2+c3+c4+c5+c6+c7) + (c2+c3+c4+c5+c6+c7) * 256 + (c3+c4+c5+c6+c7) * 256^2
        + (c4+c5+c6+c7) * 256^3 + (c5+c6+c7) * 256^4 + (c6+c7) * 256^5 + c7 * 256^6) := by ring
  rw [e, Nat.add_mul_mod_self_left, Nat.mod_eq_of_lt (by omega), Nat.add_mul_div_left _ _ (by decide),
    Nat.div_eq_of_lt (by omega), Nat.zero_add]

theorem swar (x a b c : Nat) (hx : x < 2 ^ 64)
    (ea : a = x - ((x / 2) &&& 0x5555555555555555))
    (eb : b = (a &&& 0x3333333333333333) + ((a / 4) &&& 0x3333333333333333))
    (ec : c = (b + b / 16) &&& 0x0f0f0f0f0f0f0f0f) :
    a < 2 ^ 64 ∧ b < 2 ^ 64 ∧ b + b / 16 < 2 ^ 64 ∧ c < 2 ^ 64 ∧
      ((x / 2) &&& 0x5555555555555555) ≤ x ∧
      (c * 0x0101010101010101) % 2 ^ 64 / 2 ^ 56 = pc 64 x := by
  have m1 : (0x5555555555555555 : Nat) = rep 2 1 32 := by decide +kernel
  have m2 : (0x3333333333333333 : Nat) = rep 4 3 16 := by decide +kernel
  have m3 : (0x0f0f0f0f0f0f0f0f : Nat) = rep 8 15 8 := by decide +kernel
  obtain ⟨hle, hp⟩ := land1 32 x
  have ha : a = pairs 32 x := by
    have := hp (by norm_num at hx ⊢; exact hx)
    rw [ea, m1]; exact this
  have hb : b = quads 16 (pairs 32 x) := by
    have := land2 16 a
    rw [← m2] at this
    rw [← ha, eb]; exact this
  have hnib : nib4 16 b := by rw [hb]; exact quads_nib4 _ _ (pairs_le2 _ _)
  have hc : c = octs 8 (quads 16 (pairs 32 x)) := by
    have := land3 8 b hnib
    rw [← m3] at this
    rw [← hb, ec]; exact this
  have hq : ∀ y, quads 0 y = 0 := fun _ => rfl
  have L : ∀ y, octs 0 y = 0 := fun _ => rfl
  have expand : octs 8 (quads 16 (pairs 32 x)) = pc 8 (x % 256) + 256 * (pc 8 (x / 256 % 256) + 256 *
     (pc 8 (x / 256 / 256 % 256) + 256 * (pc 8 (x / 256 / 256 / 256 % 256) + 256 *
     (pc 8 (x / 256 / 256 / 256 / 256 % 256) + 256 * (pc 8 (x / 256 / 256 / 256 / 256 / 256 % 256) + 256 *
     (pc 8 (x / 256 / 256 / 256 / 256 / 256 / 256 % 256) + 256 *
      pc 8 (x / 256 / 256 / 256 / 256 / 256 / 256 / 256 % 256))))))) := by
    have l7 := lanes 7 x
    have l6 := lanes 6 (x / 256)
    have l5 := lanes 5 (x / 256 / 256)
    have l4 := lanes 4 (x / 256 / 256 / 256)
    have l3 := lanes 3 (x / 256 / 256 / 256 / 256)
    have l2 := lanes 2 (x / 256 / 256 / 256 / 256 / 256)
    have l1 := lanes 1 (x / 256 / 256 / 256 / 256 / 256 / 256)
    have l0 := lanes 0 (x / 256 / 256 / 256 / 256 / 256 / 256 / 256)
    norm_num only [Nat.reduceMul, Nat.reduceAdd] at l7 l6 l5 l4 l3 l2 l1 l0
    rw [l7, l6, l5, l4, l3, l2, l1, l0, L]
    simp
  have pcx : pc 64 x = pc 8 (x % 256) + pc 8 (x / 256 % 256) + pc 8 (x / 256 / 256 % 256) +
      pc 8 (x / 256 / 256 / 256 % 256) + pc 8 (x / 256 / 256 / 256 / 256 % 256) +
      pc 8 (x / 256 / 256 / 256 / 256 / 256 % 256) + pc 8 (x / 256 / 256 / 256 / 256 / 256 / 256 % 256) +
      pc 8 (x / 256 / 256 / 256 / 256 / 256 / 256 / 256 % 256) := by
    have p7 := pc_add 56 x
    have p6 := pc_add 48 (x / 256)
    have p5 := pc_add 40 (x / 256 / 256)
    have p4 := pc_add 32 (x / 256 / 256 / 256)
    have p3 := pc_add 24 (x / 256 / 256 / 256 / 256)
    have p2 := pc_add 16 (x / 256 / 256 / 256 / 256 / 256)
    have p1 := pc_add 8 (x / 256 / 256 / 256 / 256 / 256 / 256)
    have p0 := pc_add 0 (x / 256 / 256 / 256 / 256 / 256 / 256 / 256)
    have z : ∀ y, pc 0 y = 0 := fun _ => rfl
    rw [z] at p0
    norm_num only [Nat.reduceAdd] at p7 p6 p5 p4 p3 p2 p1 p0
    rw [p7, p6, p5, p4, p3, p2, p1, p0]
    ring
  have le8 : ∀ y, pc 8 (y % 256) ≤ 8 := fun y => pc8_le _ (Nat.mod_lt _ (by decide))
  have hcmul := mul_top _ _ _ _ _ _ _ _ (le8 x) (le8 (x / 256)) (le8 (x / 256 / 256))
    (le8 (x / 256 / 256 / 256)) (le8 (x / 256 / 256 / 256 / 256))
    (le8 (x / 256 / 256 / 256 / 256 / 256)) (le8 (x / 256 / 256 / 256 / 256 / 256 / 256))
    (le8 (x / 256 / 256 / 256 / 256 / 256 / 256 / 256))
  have halt : a < 2 ^ 64 := by
    have : a ≤ x := by rw [ea]; exact Nat.sub_le _ _
    omega
  have b1 : a &&& 0x3333333333333333 ≤ 0x3333333333333333 := Nat.and_le_right
  have b2 : (a / 4) &&& 0x3333333333333333 ≤ 0x3333333333333333 := Nat.and_le_right
  have bb : b ≤ 0x6666666666666666 := by rw [eb]; omega
  have cb : c ≤ 0x0f0f0f0f0f0f0f0f := by rw [ec]; exact Nat.and_le_right
  refine ⟨halt, by omega, by omega, by omega, by rw [m1]; exact hle, ?_⟩
  rw [hc, expand, hcmul, pcx]

theorem popWord_eq (w : Word) : Bitmap.popWord w = pc 64 w.toNat := by
  obtain ⟨a, ha⟩ : ∃ a, a = w - (w >>> 1 &&& 0x5555555555555555#64) := ⟨_, rfl⟩
  obtain ⟨b, hb⟩ : ∃ b, b = (a &&& 0x3333333333333333#64) + (a >>> 2 &&& 0x3333333333333333#64) := ⟨_, rfl⟩
  obtain ⟨c, hc⟩ : ∃ c, c = (b + b >>> 4) &&& 0x0f0f0f0f0f0f0f0f#64 := ⟨_, rfl⟩
  have hpop : Bitmap.popWord w = ((c * 0x0101010101010101#64) >>> 56).toNat := by
    rw [hc, hb, ha]
    unfold Bitmap.popWord
    have c1 : (~~~ 0#64 / 3#64) = 0x5555555555555555#64 := by decide
    have c2 : (~~~ 0#64 / 15#64 * 3#64) = 0x3333333333333333#64 := by decide
    have c3 : (~~~ 0#64 / 255#64 * 15#64) = 0x0f0f0f0f0f0f0f0f#64 := by decide
    have c4 : (~~~ 0#64 / 255#64) = 0x0101010101010101#64 := by decide
    rw [c1, c2, c3, c4]
  obtain ⟨h1, h2, h3, h4, h5, h6⟩ := swar w.toNat _ _ _ w.isLt rfl rfl rfl
  have ha' : a.toNat = w.toNat - ((w.toNat / 2) &&& 0x5555555555555555) := by
    have e : (w >>> 1 &&& 0x5555555555555555#64).toNat = (w.toNat / 2) &&& 0x5555555555555555 := by
      rw [BitVec.toNat_and, BitVec.toNat_ushiftRight, Nat.shiftRight_eq_div_pow]
      rfl
    rw [ha, BitVec.toNat_sub_of_le, e]
    rw [BitVec.le_def, e]; exact h5
  rw [← ha'] at h1 h2 h3 h4 h6
  have hb' : b.toNat = (a.toNat &&& 0x3333333333333333) + ((a.toNat / 4) &&& 0x3333333333333333) := by
    have e1 : (a &&& 0x3333333333333333#64).toNat = a.toNat &&& 0x3333333333333333 := by
      rw [BitVec.toNat_and]; rfl
    have e2 : (a >>> 2 &&& 0x3333333333333333#64).toNat = (a.toNat / 4) &&& 0x3333333333333333 := by
      rw [BitVec.toNat_and, BitVec.toNat_ushiftRight, Nat.shiftRight_eq_div_pow]
      rfl
    rw [hb, BitVec.toNat_add, e1, e2]
    exact Nat.mod_eq_of_lt h2
  rw [← hb'] at h2 h3 h4 h6
  have hc' : c.toNat = (b.toNat + b.toNat / 16) &&& 0x0f0f0f0f0f0f0f0f := by
    have e1 : (b >>> 4).toNat = b.toNat / 16 := by
      rw [BitVec.toNat_ushiftRight, Nat.shiftRight_eq_div_pow]
    rw [hc, BitVec.toNat_and, BitVec.toNat_add, e1, Nat.mod_eq_of_lt h3]
    rfl
  rw [← hc'] at h6
  rw [hpop, ← h6, BitVec.toNat_ushiftRight, Nat.shiftRight_eq_div_pow, BitVec.toNat_mul]
  rfl

end Verif.Popcount
