import Verif.PTable.Block
import Mathlib.Data.Rat.Defs
import Mathlib.Algebra.Order.Field.Rat
import Mathlib.Order.WithBot
import Mathlib.Tactic.Ring
import Mathlib.Tactic.Positivity
import Mathlib.Tactic.Linarith

/-!
# The orders of the column types, independently of the comparison functions of the model

`double` values are compared by the numbers they stand for, strings by the lexicographic order of lists.
-/

namespace Verif.PTable

/-- IEEE 754 binary64: the number a bit pattern stands for (`none` for a NaN, `⊤` and `⊥` for the infinities).  Sign bit,
11 bits of exponent, 52 bits of fraction. -/
def ieee (d : BitVec 64) : Option (WithBot (WithTop ℚ)) :=
  let e : Nat := d.toNat / 2 ^ 52 % 2 ^ 11
  let f : Nat := d.toNat % 2 ^ 52
  let s : ℚ := if d.toNat / 2 ^ 63 = 1 then -1 else 1
  if e = 2047 then
    if f = 0 then (if d.toNat / 2 ^ 63 = 1 then some ⊥ else some ((⊤ : WithTop ℚ) : WithBot (WithTop ℚ)))
    else none
  else if e = 0 then some (((s * ((f : ℚ) / 2 ^ 1074) : ℚ) : WithTop ℚ) : WithBot (WithTop ℚ))
  else some (((s * ((2 ^ 52 + (f : ℚ)) * 2 ^ e / 2 ^ 1075) : ℚ) : WithTop ℚ) : WithBot (WithTop ℚ))

/-- The magnitude in units of the smallest positive number. -/
def mag (a : Nat) : Nat := if a / 2 ^ 52 = 0 then a else (2 ^ 52 + a % 2 ^ 52) * 2 ^ (a / 2 ^ 52 - 1)

theorem mag_lt {a b : Nat} (h : a < b) : mag a < mag b := by
  have ha := Nat.div_add_mod a (2 ^ 52)
  have hb := Nat.div_add_mod b (2 ^ 52)
  have hma := Nat.mod_lt a (show 0 < 2 ^ 52 by decide)
  have hmb := Nat.mod_lt b (show 0 < 2 ^ 52 by decide)
  have hle : a / 2 ^ 52 ≤ b / 2 ^ 52 := Nat.div_le_div_right (le_of_lt h)
  unfold mag
  by_cases h1 : b / 2 ^ 52 = 0
  · rw [if_pos h1, if_pos (by omega)]; exact h
  rw [if_neg h1]
  have hp : 0 < 2 ^ (b / 2 ^ 52 - 1) := Nat.pos_of_ne_zero (by positivity)
  by_cases h2 : a / 2 ^ 52 = 0
  · rw [if_pos h2]
    have : 2 ^ 52 + b % 2 ^ 52 ≤ (2 ^ 52 + b % 2 ^ 52) * 2 ^ (b / 2 ^ 52 - 1) := Nat.le_mul_of_pos_right _ hp
    rw [h2] at ha
    omega
  rw [if_neg h2]
  rcases Nat.lt_or_eq_of_le hle with h3 | h3
  · have h4 : (2 ^ 52 + a % 2 ^ 52) * 2 ^ (a / 2 ^ 52 - 1) < 2 ^ 53 * 2 ^ (a / 2 ^ 52 - 1) :=
      Nat.mul_lt_mul_of_pos_right (by omega) (Nat.pos_of_ne_zero (by positivity))
    have h5 : 2 ^ 53 * 2 ^ (a / 2 ^ 52 - 1) ≤ 2 ^ 52 * 2 ^ (b / 2 ^ 52 - 1) := by
      rw [← Nat.pow_add, ← Nat.pow_add]
      exact Nat.pow_le_pow_right (by decide) (by omega)
    have h6 : 2 ^ 52 * 2 ^ (b / 2 ^ 52 - 1) ≤ (2 ^ 52 + b % 2 ^ 52) * 2 ^ (b / 2 ^ 52 - 1) :=
      Nat.mul_le_mul_right _ (by omega)
    omega
  · rw [h3]
    rw [h3] at ha
    exact Nat.mul_lt_mul_of_pos_right (by omega) hp

theorem mag_lt_iff (a b : Nat) : mag a < mag b ↔ a < b := by
  constructor
  · intro h
    by_contra hc
    rcases Nat.lt_or_eq_of_le (Nat.le_of_not_lt hc) with h1 | h1
    · have := mag_lt h1; omega
    · subst h1; omega
  · exact mag_lt

theorem mag_zero : mag 0 = 0 := rfl

/-- The signed magnitude as a rational number. -/
def num (s : Bool) (a : Nat) : ℚ := (if s then -1 else 1) * ((mag a : ℚ) / 2 ^ 1074)

theorem msb_iff (d : BitVec 64) : d.msb = true ↔ d.toNat / 2 ^ 63 = 1 := by
  rw [BitVec.msb_eq_decide]
  have := d.isLt
  simp only [decide_eq_true_eq]
  omega

/-- The classification by magnitude. -/
theorem ieee_eq (d : BitVec 64) : ieee d =
    if d.toNat % 2 ^ 63 < 2047 * 2 ^ 52 then
      some (((num d.msb (d.toNat % 2 ^ 63) : ℚ) : WithTop ℚ) : WithBot (WithTop ℚ))
    else if d.toNat % 2 ^ 63 = 2047 * 2 ^ 52 then
      (if d.msb then some ⊥ else some ((⊤ : WithTop ℚ) : WithBot (WithTop ℚ)))
    else none := by
  have hd := d.isLt
  have he : d.toNat / 2 ^ 52 % 2 ^ 11 = d.toNat % 2 ^ 63 / 2 ^ 52 := by omega
  have hf : d.toNat % 2 ^ 52 = d.toNat % 2 ^ 63 % 2 ^ 52 := by omega
  have hs : (d.toNat / 2 ^ 63 = 1) ↔ d.msb = true := (msb_iff d).symm
  unfold ieee
  dsimp only
  rw [he, hf]
  have hlt : d.toNat % 2 ^ 63 < 2 ^ 63 := Nat.mod_lt _ (by decide)
  generalize d.toNat % 2 ^ 63 = a at hlt
  have ha := Nat.div_add_mod a (2 ^ 52)
  have hma := Nat.mod_lt a (show 0 < 2 ^ 52 by decide)
  by_cases h1 : a / 2 ^ 52 = 2047
  · rw [if_pos h1, if_neg (c := a < 2047 * 2 ^ 52) (by omega)]
    by_cases h2 : a % 2 ^ 52 = 0
    · rw [if_pos h2, if_pos (c := a = 2047 * 2 ^ 52) (by omega)]
      by_cases h3 : d.msb = true
      · rw [if_pos h3, if_pos (hs.2 h3)]
      · rw [if_neg h3, if_neg (fun h => h3 (hs.1 h))]
    · rw [if_neg h2, if_neg (c := a = 2047 * 2 ^ 52) (by omega)]
  · rw [if_neg h1, if_pos (c := a < 2047 * 2 ^ 52) (by omega)]
    have hsign : (if d.toNat / 2 ^ 63 = 1 then (-1 : ℚ) else 1) = if d.msb then -1 else 1 := by
      by_cases h3 : d.msb = true
      · rw [if_pos h3, if_pos (hs.2 h3)]
      · rw [if_neg h3, if_neg (fun h => h3 (hs.1 h))]
    rw [hsign]
    unfold num mag
    by_cases h2 : a / 2 ^ 52 = 0
    · rw [if_pos h2, if_pos h2, show a % 2 ^ 52 = a by omega]
    · rw [if_neg h2, if_neg h2]
      congr 3
      obtain ⟨e, he'⟩ : ∃ e, a / 2 ^ 52 = e + 1 := ⟨a / 2 ^ 52 - 1, by omega⟩
      rw [he', Nat.add_sub_cancel]
      have h4 : ((2 ^ 52 + a % 2 ^ 52) * 2 ^ e : Nat) = ((2 ^ 52 + ((a % 2 ^ 52 : Nat) : ℚ)) * 2 ^ e : ℚ) := by
        push_cast; norm_num
      have h5 : (2 : ℚ) ^ 1075 = 2 ^ 1074 * 2 := pow_succ 2 1074
      rw [h4, h5, pow_succ (2 : ℚ) e, ← mul_assoc (2 ^ 52 + ((a % 2 ^ 52 : Nat) : ℚ)), mul_div_mul_right _ _ two_ne_zero]

theorem isNaN_iff (d : BitVec 64) : isNaN d = true ↔ ieee d = none := by
  rw [ieee_eq]
  unfold isNaN
  rw [decide_eq_true_eq]
  split
  · simp; omega
  · split
    · split <;> simp <;> omega
    · simp; omega

theorem num_lt_iff (s t : Bool) (a b : Nat) : num s a < num t b ↔
    (if s then -(a : Int) else (a : Int)) < (if t then -(b : Int) else (b : Int)) := by
  have hp : (0 : ℚ) < 2 ^ 1074 := by positivity
  have h0 : ∀ x : Nat, (0 : ℚ) ≤ (mag x : ℚ) / 2 ^ 1074 := fun x => div_nonneg (Nat.cast_nonneg _) (le_of_lt hp)
  have hlt : ∀ x y : Nat, (mag x : ℚ) / 2 ^ 1074 < (mag y : ℚ) / 2 ^ 1074 ↔ x < y := by
    intro x y
    rw [div_lt_div_iff_of_pos_right hp, Nat.cast_lt, mag_lt_iff]
  have hz : ∀ x : Nat, (0 : ℚ) < (mag x : ℚ) / 2 ^ 1074 ↔ 0 < x := by
    intro x
    have := hlt 0 x
    rw [mag_zero] at this
    simpa using this
  unfold num
  cases s <;> cases t <;> simp only [Bool.false_eq_true, if_false, if_true, one_mul, neg_one_mul]
  · rw [hlt]; omega
  · constructor
    · intro h
      have h1 := h0 a
      have h2 := h0 b
      exact absurd h (not_lt.2 (by linarith))
    · intro h; omega
  · have h1 := h0 a
    have h2 := h0 b
    constructor
    · intro h
      by_contra hc
      have ha : a = 0 := by omega
      have hb : b = 0 := by omega
      subst ha hb
      simp [mag_zero] at h
    · intro h
      rcases Nat.eq_zero_or_pos a with ha | ha
      · have := (hz b).2 (by omega)
        linarith
      · have := (hz a).2 ha
        linarith
  · rw [neg_lt_neg_iff, hlt]; omega

/-- The comparison of bit patterns in the model is the comparison of the numbers. -/
theorem dblLt_iff (x y : BitVec 64) : dblLt x y = true ↔ ∃ a b, ieee x = some a ∧ ieee y = some b ∧ a < b := by
  have hx := isNaN_iff x
  have hy := isNaN_iff y
  have kx : ∀ d : BitVec 64, dblKey d = if d.msb then -((d.toNat % 2 ^ 63 : Nat) : Int) else ((d.toNat % 2 ^ 63 : Nat) : Int) :=
    fun _ => rfl
  unfold dblLt
  simp only [Bool.and_eq_true, Bool.not_eq_true', decide_eq_true_eq]
  by_cases nx : isNaN x = true
  · rw [nx, hx.1 nx]; simp
  by_cases ny : isNaN y = true
  · rw [ny, hy.1 ny]; simp
  simp only [Bool.not_eq_true] at nx ny
  rw [nx, ny, kx, kx]
  have lx : x.toNat % 2 ^ 63 ≤ 2047 * 2 ^ 52 := by unfold isNaN at nx; simp at nx; omega
  have ly : y.toNat % 2 ^ 63 ≤ 2047 * 2 ^ 52 := by unfold isNaN at ny; simp at ny; omega
  rw [ieee_eq x, ieee_eq y]
  generalize x.toNat % 2 ^ 63 = a at lx
  generalize y.toNat % 2 ^ 63 = b at ly
  simp only [true_and]
  have htop : ∀ q : ℚ, ((q : WithTop ℚ) : WithBot (WithTop ℚ)) < ⊤ := fun q => WithBot.coe_lt_coe.2 (WithTop.coe_lt_top q)
  generalize x.msb = sx
  generalize y.msb = sy
  have := num_lt_iff sx sy a b
  by_cases h1 : a < 2047 * 2 ^ 52
  · rw [if_pos h1]
    by_cases h2 : b < 2047 * 2 ^ 52
    · rw [if_pos h2, ← this]
      constructor
      · intro h
        exact ⟨_, _, rfl, rfl, by simpa using h⟩
      · rintro ⟨p, q, hp, hq, hpq⟩
        injection hp with hp
        injection hq with hq
        subst hp hq
        simpa using hpq
    · rw [if_neg h2, if_pos (show b = 2047 * 2 ^ 52 by omega)]
      cases sx <;> cases sy <;> simp only [if_true, if_false, Bool.false_eq_true] at this ⊢ <;> simp [htop] <;> omega
  · rw [if_neg h1, if_pos (show a = 2047 * 2 ^ 52 by omega)]
    by_cases h2 : b < 2047 * 2 ^ 52
    · rw [if_pos h2]
      cases sx <;> cases sy <;> simp only [if_true, if_false, Bool.false_eq_true] at this ⊢ <;> simp <;> omega
    · rw [if_neg h2, if_pos (show b = 2047 * 2 ^ 52 by omega)]
      cases sx <;> cases sy <;> simp only [if_true, if_false, Bool.false_eq_true] at this ⊢ <;> simp <;> omega

/-- The comparison of strings in the model is the lexicographic order. -/
theorem ltStr_iff (s t : List UInt8) : ltStr s t = true ↔ s < t := by
  induction s generalizing t with
  | nil => cases t <;> simp [ltStr]
  | cons a s ih =>
    cases t with
    | nil => simp [ltStr]
    | cons b t =>
      rw [ltStr, List.cons_lt_cons_iff, Bool.or_eq_true, Bool.and_eq_true, ih, decide_eq_true_eq, beq_iff_eq]
      rfl

end Verif.PTable
