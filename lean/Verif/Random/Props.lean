import Verif.Random.Model
import Mathlib.NumberTheory.LucasPrimality
import Mathlib.Tactic.NormNum
import Mathlib.Tactic.NormNum.Prime
import Mathlib.Tactic.IntervalCases
import Mathlib.Data.ZMod.Basic
import Mathlib.FieldTheory.Finite.Basic

/-! # Property theorems for `Random` (C05-C07) -/

namespace Verif.Rand

/-- The modulus `2^31 - 1`. -/
abbrev P : Nat := 2147483647

theorem init_range (s : BitVec 32) : 1 ≤ (init s).toNat ∧ (init s).toNat < P := by
  unfold init
  have h : (s &&& 0x7fffffff#32).toNat < 2^31 := by
    rw [BitVec.toNat_and]
    exact Nat.lt_of_le_of_lt Nat.and_le_right (by decide)
  simp only
  split
  · decide
  · rename_i hh
    push Not at hh
    obtain ⟨h0, h1⟩ := hh
    have h0' : (s &&& 0x7fffffff#32).toNat ≠ 0 := fun e => h0 (BitVec.eq_of_toNat_eq e)
    have h1' : (s &&& 0x7fffffff#32).toNat ≠ 2147483647 := fun e => h1 (BitVec.eq_of_toNat_eq e)
    unfold P
    omega

theorem next_toNat (s : State) (h1 : 1 ≤ s.toNat) (h2 : s.toNat < P) :
    (next s).toNat = (16807 * s.toNat) % P ∧ 1 ≤ (next s).toNat ∧ (next s).toNat < P := by
  unfold P at *
  have hprod : (s.setWidth 64 * 16807#64).toNat = s.toNat * 16807 := by
    rw [BitVec.toNat_mul, BitVec.toNat_setWidth]
    simp only [BitVec.toNat_ofNat]
    omega
  have hand : ((s.setWidth 64 * 16807#64) &&& 2147483647#64).toNat = (s.toNat * 16807) % 2^31 := by
    rw [BitVec.toNat_and, hprod]
    exact Nat.and_two_pow_sub_one_eq_mod _ 31
  have hshift : ((s.setWidth 64 * 16807#64) >>> 31).toNat = (s.toNat * 16807) / 2^31 := by
    rw [BitVec.toNat_ushiftRight, hprod, Nat.shiftRight_eq_div_pow]
  have hsum : ((((s.setWidth 64 * 16807#64) >>> 31) +
      ((s.setWidth 64 * 16807#64) &&& 2147483647#64)).setWidth 32).toNat =
      (s.toNat * 16807) / 2^31 + (s.toNat * 16807) % 2^31 := by
    rw [BitVec.toNat_setWidth, BitVec.toNat_add, hand, hshift]
    omega
  have hnd : (16807 * s.toNat) % 2147483647 ≠ 0 := by
    intro h
    have hd : 2147483647 ∣ 16807 * s.toNat := Nat.dvd_of_mod_eq_zero h
    have hc : Nat.Coprime 2147483647 16807 := by decide +kernel
    have := Nat.le_of_dvd (by omega) (hc.dvd_of_dvd_mul_left hd)
    omega
  unfold next
  simp only [BitVec.lt_def, hsum, BitVec.toNat_ofNat]
  split
  · rw [BitVec.toNat_sub_of_le, hsum]
    · simp only [BitVec.toNat_ofNat]; omega
    · rw [BitVec.le_def, hsum]; simp only [BitVec.toNat_ofNat]; omega
  · rw [hsum]; omega

theorem after_range (s : BitVec 32) (k : Nat) : 1 ≤ (after s k).toNat ∧ (after s k).toNat < P := by
  induction k with
  | zero => exact init_range s
  | succ k ih => exact (next_toNat _ ih.1 ih.2).2

/-- C05. Every state of the generator is in `[1, 2^31-2]`, and every call multiplies it by 16807
modulo `2^31-1`. -/
theorem C05_cycle (s : BitVec 32) (k : Nat) :
    (1 ≤ (after s k).toNat ∧ (after s k).toNat ≤ 2^31 - 2) ∧
    (1 ≤ (next (after s k)).toNat ∧ (next (after s k)).toNat ≤ 2^31 - 2) ∧
    (next (after s k)).toNat = 16807 * (after s k).toNat % (2^31 - 1) := by
  have h := after_range s k
  have h' := next_toNat _ h.1 h.2
  unfold P at *
  refine ⟨⟨h.1, by omega⟩, ⟨h'.2.1, by omega⟩, h'.1⟩

example : (init 0#32).toNat = 1 ∧ (init 0xffffffff#32).toNat = 1 ∧ (init 0x80000005#32).toNat = 5 ∧
    (next (init 0x80000005#32)).toNat = 84035 := by decide

theorem uniform_lt (st : State) (n : BitVec 64) (hn0 : n ≠ 0#64) (hn : n.toNat ≤ 2^31) :
    ∃ v : BitVec 32, uniform st n = .ok (next st, v) ∧ v.toNat = (next st).toNat % n.toNat := by
  refine ⟨_, if_neg hn0, ?_⟩
  have hpos : 0 < n.toNat := Nat.pos_of_ne_zero (fun e => hn0 (BitVec.eq_of_toNat_eq e))
  have hlt := Nat.mod_lt (next st).toNat hpos
  have := (next st).isLt
  rw [BitVec.toNat_setWidth, BitVec.toNat_umod, BitVec.toNat_setWidth,
    Nat.mod_eq_of_lt (a := (next st).toNat) (by omega), Nat.mod_eq_of_lt (by omega)]

/-- C06. `Uniform(n)` is in `[0, n-1]` and is the raw draw modulo `n`; `OneIn(n)` is true exactly
when the raw draw is divisible by `n`; `Skewed(m)` is in `[0, 2^m - 1]`; none of these calls is
undefined. They hold in every generator state. -/
theorem C06_uniform (st : State) (n : BitVec 64) (h1 : 1 ≤ n.toNat) (h2 : n.toNat ≤ 2^31 - 1) :
    ∃ v : BitVec 32, uniform st n = .ok (next st, v) ∧ v.toNat = (next st).toNat % n.toNat ∧
      v.toNat < n.toNat := by
  have h0 : n ≠ 0#64 := by rintro rfl; simp at h1
  obtain ⟨v, hv, e⟩ := uniform_lt st n h0 (by omega)
  exact ⟨v, hv, e, by rw [e]; exact Nat.mod_lt _ h1⟩

theorem C06_oneIn (st : State) (n : BitVec 64) (h1 : 1 ≤ n.toNat) :
    ∃ b, oneIn st n = .ok (next st, b) ∧ (b = true ↔ n.toNat ∣ (next st).toNat) := by
  have h0 : n ≠ 0#64 := by rintro rfl; simp at h1
  refine ⟨_, if_neg h0, ?_⟩
  have := (next st).isLt
  rw [beq_iff_eq, ← BitVec.toNat_inj, BitVec.toNat_umod, BitVec.toNat_setWidth,
    Nat.mod_eq_of_lt (a := (next st).toNat) (by omega)]
  exact (Nat.dvd_iff_mod_eq_zero).symm

theorem C06_skewed (st : State) (m : BitVec 64) (h : m.toNat ≤ 30) :
    ∃ v : BitVec 32, skewed st m = .ok (next (next st), v) ∧ v.toNat < 2 ^ m.toNat := by
  have hm1 : (m + 1#64).toNat = m.toNat + 1 := by
    rw [BitVec.toNat_add]; simp only [BitVec.toNat_ofNat]; omega
  obtain ⟨k, hk, ek⟩ := uniform_lt st (m + 1#64) (by intro e; rw [e] at hm1; simp at hm1)
    (by rw [hm1]; omega)
  have hklt : k.toNat ≤ m.toNat := by
    have := Nat.mod_lt (next st).toNat (y := m.toNat + 1) (by omega)
    rw [ek, hm1]; omega
  have hsh : ((1#32 <<< k.toNat).signExtend 64).toNat = 2 ^ k.toNat := by
    have : k.toNat ≤ 30 := by omega
    generalize k.toNat = j at this
    interval_cases j <;> decide
  have hpw : 2 ^ k.toNat ≤ 2 ^ m.toNat := Nat.pow_le_pow_right (by decide) hklt
  have hpw2 : 2 ^ m.toNat ≤ 2 ^ 30 := Nat.pow_le_pow_right (by decide) h
  have hpos : 0 < 2 ^ k.toNat := Nat.two_pow_pos _
  obtain ⟨v, hv, ev⟩ := uniform_lt (next st) ((1#32 <<< k.toNat).signExtend 64)
    (by intro e; rw [e, BitVec.toNat_ofNat] at hsh; omega) (by rw [hsh]; omega)
  refine ⟨v, ?_, ?_⟩
  · unfold skewed
    rw [hk, Res.ok_bind]
    simp only
    rw [if_neg (by omega), hv]
  · rw [ev, hsh]
    exact Nat.lt_of_lt_of_le (Nat.mod_lt _ hpos) hpw

example : ∃ v, uniform (init 7#32) 10#64 = .ok (next (init 7#32), v) ∧ v = 9#32 := ⟨9#32, by decide⟩
example : skewed (init 7#32) 4#64 = .ok (next (next (init 7#32)), 7#32) := by decide

/-! ## Full period -/

/-- Fast modular exponentiation (proof tool only). -/
def powMod : Nat → Nat → Nat → Nat
  | 0, _, _ => 1
  | f + 1, b, e =>
    if e = 0 then 1
    else if e % 2 = 0 then powMod f (b * b % P) (e / 2)
    else b * powMod f (b * b % P) (e / 2) % P

theorem powMod_eq (f b e : Nat) (h : e < 2 ^ f) : powMod f b e % P = b ^ e % P := by
  induction f generalizing b e with
  | zero =>
    have : e = 0 := by simpa using h
    subst this; simp [powMod]
  | succ f ih =>
    rw [powMod]
    split
    · rename_i h0; subst h0; simp
    · have hlt : e / 2 < 2 ^ f := by rw [Nat.pow_succ] at h; omega
      have hb : (b * b % P) ^ (e / 2) % P = b ^ (2 * (e / 2)) % P := by
        rw [← Nat.pow_mod, Nat.pow_mul, pow_two]
      split
      · rw [ih _ _ hlt, hb]
        congr 2; omega
      · rw [Nat.mod_mod, Nat.mul_mod, ih _ _ hlt, hb, ← Nat.mul_mod, ← pow_succ']
        congr 2; omega

theorem pow_ne_one (e : Nat) (h : 16807 ^ e % P ≠ 1) : (16807 : ZMod P) ^ e ≠ 1 := by
  intro hh
  apply h
  have : ((16807 ^ e : Nat) : ZMod P) = ((1 : Nat) : ZMod P) := by push_cast; exact hh
  rw [ZMod.natCast_eq_natCast_iff'] at this
  exact this

theorem gen_pow : (16807 : ZMod P) ^ (P - 1) = 1 := by
  have h : 16807 ^ (P - 1) % P = 1 % P := by
    rw [← powMod_eq 31 _ _ (by decide)]; decide +kernel
  have : ((16807 ^ (P - 1) : Nat) : ZMod P) = ((1 : Nat) : ZMod P) := by
    rw [ZMod.natCast_eq_natCast_iff']; exact h
  push_cast at this
  exact this

theorem prime_divisors (q : Nat) (hq : q.Prime) (hd : q ∣ P - 1) :
    q = 2 ∨ q = 3 ∨ q = 7 ∨ q = 11 ∨ q = 31 ∨ q = 151 ∨ q = 331 := by
  have e : P - 1 = 2 * (3 * (3 * (7 * (11 * (31 * (151 * 331)))))) := by decide
  rw [e] at hd
  have step : ∀ r, r.Prime → q ∣ r → q = r := fun r hr h => (Nat.prime_dvd_prime_iff_eq hq hr).1 h
  rcases (Nat.Prime.dvd_mul hq).1 hd with h | hd
  · left; exact step 2 (by norm_num) h
  rcases (Nat.Prime.dvd_mul hq).1 hd with h | hd
  · have := step 3 (by norm_num) h; omega
  rcases (Nat.Prime.dvd_mul hq).1 hd with h | hd
  · have := step 3 (by norm_num) h; omega
  rcases (Nat.Prime.dvd_mul hq).1 hd with h | hd
  · have := step 7 (by norm_num) h; omega
  rcases (Nat.Prime.dvd_mul hq).1 hd with h | hd
  · have := step 11 (by norm_num) h; omega
  rcases (Nat.Prime.dvd_mul hq).1 hd with h | hd
  · have := step 31 (by norm_num) h; omega
  rcases (Nat.Prime.dvd_mul hq).1 hd with h | hd
  · have := step 151 (by norm_num) h; omega
  · have := step 331 (by norm_num) hd; omega

theorem gen_pow_div (q : Nat) (hq : q.Prime) (hd : q ∣ P - 1) :
    (16807 : ZMod P) ^ ((P - 1) / q) ≠ 1 := by
  apply pow_ne_one
  rcases prime_divisors q hq hd with rfl | rfl | rfl | rfl | rfl | rfl | rfl <;>
    · rw [← powMod_eq 31 _ _ (by decide)]; decide +kernel

theorem P_prime : P.Prime := lucas_primality P 16807 gen_pow gen_pow_div

theorem orderOf_gen : orderOf (16807 : ZMod P) = P - 1 :=
  orderOf_eq_of_pow_and_pow_div_prime (by decide) gen_pow gen_pow_div

theorem after_cast (s : BitVec 32) (k : Nat) :
    (((after s k).toNat : Nat) : ZMod P) = 16807 ^ k * ((init s).toNat : ZMod P) := by
  induction k with
  | zero => simp [after]
  | succ k ih =>
    have h := after_range s k
    have h2 := (next_toNat _ h.1 h.2).1
    rw [after, h2, ZMod.natCast_mod, Nat.cast_mul, ih, pow_succ]
    push_cast
    ring

theorem after_inj (s : BitVec 32) (i j : Nat) :
    (after s i).toNat = (after s j).toNat ↔ i ≡ j [MOD (P - 1)] := by
  have : Fact P.Prime := ⟨P_prime⟩
  have h0 : ((init s).toNat : ZMod P) ≠ 0 := by
    have h := init_range s
    intro e
    rw [ZMod.natCast_eq_zero_iff] at e
    have := Nat.le_of_dvd h.1 e
    omega
  have hg : (16807 : ZMod P) ≠ 0 := by
    intro e
    have : ((16807 : Nat) : ZMod P) = 0 := by exact_mod_cast e
    rw [ZMod.natCast_eq_zero_iff] at this
    exact absurd (Nat.le_of_dvd (by decide) this) (by decide)
  have hpow : (16807 : ZMod P) ^ i = 16807 ^ j ↔ i ≡ j [MOD (P - 1)] := by
    have := pow_eq_pow_iff_modEq (x := Units.mk0 (16807 : ZMod P) hg) (n := i) (m := j)
    rw [← Units.val_inj] at this
    simp only [Units.val_pow_eq_pow_val, Units.val_mk0] at this
    rw [← orderOf_units, Units.val_mk0, orderOf_gen] at this
    exact this
  rw [← hpow]
  constructor
  · intro h
    have := after_cast s i
    rw [h, after_cast s j] at this
    exact (mul_right_cancel₀ h0 this).symm
  · intro h
    have h1 := after_cast s i
    rw [h, ← after_cast s j, ZMod.natCast_eq_natCast_iff'] at h1
    rwa [Nat.mod_eq_of_lt (after_range s i).2, Nat.mod_eq_of_lt (after_range s j).2] at h1

/-- C07. From any seed, every value in `[1, 2^31-2]` is returned by one of the first `2^31-2` calls
of `Next`, and two calls return the same value exactly when their numbers differ by a multiple of
`2^31-2`. -/
theorem C07_full_period (s : BitVec 32) :
    (∀ v, 1 ≤ v → v ≤ 2^31 - 2 → ∃ k, 1 ≤ k ∧ k ≤ 2^31 - 2 ∧ (after s k).toNat = v) ∧
    (∀ i j, (after s i).toNat = (after s j).toNat ↔ i ≡ j [MOD (2^31 - 2)]) := by
  refine ⟨?_, fun i j => after_inj s i j⟩
  intro v h1 h2
  have hinj : Set.InjOn (fun k => (after s (k + 1)).toNat) (Finset.range (P - 1) : Finset Nat) := by
    intro i hi j hj h
    have := (after_inj s (i+1) (j+1)).1 h
    rw [Finset.coe_range, Set.mem_Iio] at hi hj
    have := Nat.ModEq.add_right_cancel' 1 this
    exact Nat.ModEq.eq_of_lt_of_lt this hi hj
  have himg : (Finset.range (P - 1)).image (fun k => (after s (k + 1)).toNat) = Finset.Icc 1 (P - 1) := by
    apply Finset.eq_of_subset_of_card_le
    · intro x hx
      rw [Finset.mem_image] at hx
      obtain ⟨k, -, rfl⟩ := hx
      have := after_range s (k + 1)
      rw [Finset.mem_Icc]; omega
    · rw [Finset.card_image_of_injOn hinj, Finset.card_range, Nat.card_Icc]
      omega
  have hv : v ∈ Finset.Icc 1 (P - 1) := by rw [Finset.mem_Icc]; unfold P; omega
  rw [← himg, Finset.mem_image] at hv
  obtain ⟨k, hk, hv⟩ := hv
  rw [Finset.mem_range] at hk
  exact ⟨k + 1, by omega, by unfold P at hk; omega, hv⟩

example : (after 5#32 1).toNat = 84035 ∧ (after 5#32 2).toNat = 1412376245 := by decide

end Verif.Rand
