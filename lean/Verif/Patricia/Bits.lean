import Verif.Patricia.Model
import Mathlib.Data.List.Basic

/-!
# Byte strings as bit strings

The helpers of the Patricia trie work on bytes.  Here they are described on bit strings.
-/

namespace Verif.Patricia

open Verif

/-- Bit `i` of the byte string, the most significant bit of a byte first. -/
def bitAt (K : List UInt8) (i : Nat) : Bool := (K.getD (i / 8) 0).toNat.testBit (7 - i % 8)

/-- The first `n` bits. -/
def bits (K : List UInt8) (n : Nat) : List Bool := (List.range n).map (bitAt K)

@[simp] theorem bits_length (K : List UInt8) (n : Nat) : (bits K n).length = n := by simp [bits]

theorem bits_getElem? (K : List UInt8) (n i : Nat) (h : i < n) : (bits K n)[i]? = some (bitAt K i) := by
  simp [bits, h]

theorem bits_eq {K1 K2 : List UInt8} {n : Nat} : bits K1 n = bits K2 n ↔ ∀ i < n, bitAt K1 i = bitAt K2 i := by
  simp [bits]

theorem bits_take (K : List UInt8) {m n : Nat} (h : m ≤ n) : (bits K n).take m = bits K m := by
  simp only [bits, ← List.map_take, List.take_range, Nat.min_eq_left h]

theorem bits_succ (K : List UInt8) (n : Nat) : bits K (n + 1) = bits K n ++ [bitAt K n] := by
  simp [bits, List.range_succ]

theorem bits_prefix {K1 K2 : List UInt8} {m n : Nat} : bits K1 m <+: bits K2 n ↔ m ≤ n ∧ bits K1 m = bits K2 m := by
  constructor
  · intro h
    have hl := h.length_le
    rw [bits_length, bits_length] at hl
    refine ⟨hl, ?_⟩
    have := List.prefix_iff_eq_take.1 h
    rw [bits_length, bits_take K2 hl] at this
    exact this
  · rintro ⟨hl, h⟩
    rw [h, ← bits_take K2 hl]
    exact List.take_prefix _ _

theorem byteAt_ok {K : List UInt8} {i : Nat} (h : i < K.length) : byteAt K i = .ok (K.getD i 0) := by
  simp [byteAt, h]

theorem checkBit_ok {K : List UInt8} {L : Nat} (h : L < 8 * K.length) : checkBit K L = .ok (bitAt K L) := by
  have : L / 8 < K.length := by omega
  simp only [checkBit, byteAt_ok this, Res.ok_bind, Res.pure_eq, bitAt]

theorem byte_ext {a b : UInt8} (h : ∀ j < 8, a.toNat.testBit (7 - j) = b.toNat.testBit (7 - j)) : a = b := by
  apply UInt8.toNat_inj.1
  apply Nat.eq_of_testBit_eq
  intro i
  by_cases hi : i < 8
  · have := h (7 - i) (by omega)
    rwa [show 7 - (7 - i) = i by omega] at this
  · have e : ∀ x : UInt8, x.toNat.testBit i = false := fun x => by
      apply Nat.testBit_lt_two_pow
      have := x.toNat_lt
      calc x.toNat < 2 ^ 8 := this
        _ ≤ 2 ^ i := Nat.pow_le_pow_right (by omega) (by omega)
    rw [e, e]

theorem bytes_eq {K1 K2 : List UInt8} {n : Nat} (h1 : n ≤ K1.length) (h2 : n ≤ K2.length) :
    K1.take n = K2.take n ↔ ∀ i < 8 * n, bitAt K1 i = bitAt K2 i := by
  constructor
  · intro h i hi
    have e : ∀ K : List UInt8, K.getD (i / 8) 0 = (K.take n).getD (i / 8) 0 := fun K => by
      have : i / 8 < n := by omega
      simp [List.getD_eq_getElem?_getD, this]
    rw [bitAt, bitAt, e K1, e K2, h]
  · intro h
    apply List.ext_getElem?
    intro j
    by_cases hj : j < n
    · have a1 : j < K1.length := by omega
      have a2 : j < K2.length := by omega
      simp only [List.getElem?_take, hj, if_true, List.getElem?_eq_getElem a1, List.getElem?_eq_getElem a2]
      congr 1
      apply byte_ext
      intro i hi
      have := h (8 * j + i) (by omega)
      simpa [bitAt, show (8 * j + i) / 8 = j by omega, show (8 * j + i) % 8 = i by omega, a1, a2] using this
    · simp [List.getElem?_take, hj]

theorem mask_bit : ∀ r < 8, ∀ i < 8, ((bitmask.getD r 0).toNat.testBit (7 - i)) = decide (i < r) := by decide

theorem mask_eq {a b : UInt8} {r : Nat} (hr : r < 8) : a &&& bitmask.getD r 0 = b &&& bitmask.getD r 0 ↔
    ∀ i < r, a.toNat.testBit (7 - i) = b.toNat.testBit (7 - i) := by
  constructor
  · intro h i hi
    have := congrArg (fun x : UInt8 => x.toNat.testBit (7 - i)) h
    simp only [UInt8.toNat_and, Nat.testBit_and, mask_bit r hr i (by omega)] at this
    simpa [hi] using this
  · intro h
    apply byte_ext
    intro j hj
    rw [UInt8.toNat_and, UInt8.toNat_and, Nat.testBit_and, Nat.testBit_and, mask_bit r hr j hj]
    by_cases hjr : j < r
    · simp [hjr, h j hjr]
    · simp [hjr]

/-- `MATCH_KEY` compares the first `L` bits. -/
theorem matchKey_ok {K1 K2 : List UInt8} {L : Nat} (h1 : L ≤ 8 * K1.length) (h2 : L ≤ 8 * K2.length) :
    matchKey K1 K2 L = .ok (decide (bits K1 L = bits K2 L)) := by
  have first : (if 8 ≤ L then sameBytes K1 K2 (L / 8) else pure true : Res Bool) =
      .ok (decide (∀ i < 8 * (L / 8), bitAt K1 i = bitAt K2 i)) := by
    split
    · have a1 : L / 8 ≤ K1.length := by omega
      have a2 : L / 8 ≤ K2.length := by omega
      simp only [sameBytes, a1, a2, and_self, if_true, bytes_eq a1 a2]
    · have : L / 8 = 0 := by omega
      simp [this]
  have sec : (if 0 < L % 8 then do
      let a ← byteAt K1 (L / 8)
      let b ← byteAt K2 (L / 8)
      let m ← byteAt bitmask (L % 8)
      pure (decide (a &&& m = b &&& m))
    else pure true : Res Bool) = .ok (decide (∀ i < L % 8, bitAt K1 (8 * (L / 8) + i) = bitAt K2 (8 * (L / 8) + i))) := by
    split
    · have a1 : L / 8 < K1.length := by omega
      have a2 : L / 8 < K2.length := by omega
      have a3 : L % 8 < 8 := by omega
      have a4 : L % 8 < bitmask.length := by simp [bitmask]; omega
      simp only [byteAt_ok a1, byteAt_ok a2, byteAt_ok a4, Res.ok_bind, Res.pure_eq, Res.ok.injEq]
      rw [decide_eq_decide, mask_eq a3]
      have e : ∀ i < L % 8, ∀ K, bitAt K (8 * (L / 8) + i) = (K.getD (L / 8) 0).toNat.testBit (7 - i) := fun i hi K => by
        rw [bitAt, show (8 * (L / 8) + i) / 8 = L / 8 by omega, show (8 * (L / 8) + i) % 8 = i by omega]
      constructor
      · intro h i hi
        rw [e i hi, e i hi]; exact h i hi
      · intro h i hi
        have := h i hi
        rwa [e i hi, e i hi] at this
    · have : L % 8 = 0 := by omega
      simp [this]
  rw [matchKey, first, Res.ok_bind, sec, Res.ok_bind, Res.pure_eq, ← Bool.decide_and]
  congr 1
  rw [decide_eq_decide, bits_eq]
  constructor
  · rintro ⟨p, q⟩ i hi
    by_cases h : i < 8 * (L / 8)
    · exact p i h
    · have := q (i - 8 * (L / 8)) (by omega)
      rwa [show 8 * (L / 8) + (i - 8 * (L / 8)) = i by omega] at this
  · intro p
    exact ⟨fun i hi => p i (by omega), fun i hi => p _ (by omega)⟩

theorem copyLoop_ok (src : List UInt8) : ∀ (n i : Nat) (dst : List UInt8), i + n ≤ src.length → i + n ≤ dst.length →
    ∃ dst', copyLoop src i n dst = .ok dst' ∧ dst'.length = dst.length ∧
      ∀ j, dst'.getD j 0 = if i ≤ j ∧ j < i + n then src.getD j 0 else dst.getD j 0 := by
  intro n
  induction n with
  | zero => intro i dst _ _; exact ⟨dst, rfl, rfl, fun j => by simp; omega⟩
  | succ n ih =>
    intro i dst h1 h2
    have a1 : i < src.length := by omega
    have a2 : i < dst.length := by omega
    obtain ⟨dst', e, hl, hj⟩ := ih (i + 1) (dst.set i (src.getD i 0)) (by omega) (by simp; omega)
    refine ⟨dst', by simp only [copyLoop, byteAt_ok a1, Res.ok_bind, a2, if_true, e], by simpa using hl, fun j => ?_⟩
    rw [hj j]
    by_cases c1 : j = i
    · subst c1
      simp [a2]
    · have : (dst.set i (src.getD i 0)).getD j 0 = dst.getD j 0 := by
        simp [List.getD_eq_getElem?_getD, Ne.symm c1]
      rw [this]
      by_cases c2 : i + 1 ≤ j ∧ j < i + 1 + n
      · rw [if_pos c2, if_pos (by omega)]
      · rw [if_neg c2, if_neg (by omega)]

variable {V : Type} {c : Cfg V}

/-- The copy loop bounded by bytes copies the key. -/
theorem newNode_ok (hc : c.bytes = true) {src : List UInt8} {L : Nat} (hL : 0 < L) (h : L ≤ 8 * src.length) :
    ∃ k, newNode c src L = .ok (.node k L c.junk false .null .null) ∧ k.length = octets L ∧ bits k L = bits src L := by
  have ho : octets L ≤ src.length := by simp only [octets]; omega
  obtain ⟨k, e, hl, hj⟩ := copyLoop_ok src (octets L) 0 (List.replicate (octets L) 0) (by omega) (by simp)
  refine ⟨k, by simp only [newNode, setKey, hL, if_true, hc, e, Res.ok_bind, Res.pure_eq], by simpa using hl, bits_eq.2 fun i hi => ?_⟩
  have : i / 8 < octets L := by simp only [octets]; omega
  rw [bitAt, bitAt, hj, if_pos (by omega)]

/-- The copy loop as written runs over the end of the allocated bytes. -/
theorem newNode_ub (hc : c.bytes = false) {src : List UInt8} {L : Nat} (hL : 1 < L) : newNode c src L = .ub := by
  have key : ∀ (n i : Nat) (dst : List UInt8), dst.length < i + n → i ≤ dst.length → copyLoop src i n dst = .ub := by
    intro n
    induction n with
    | zero => intro i dst h1 h2; omega
    | succ n ih =>
      intro i dst h1 h2
      rw [copyLoop]
      cases e : byteAt src i with
      | ok x =>
        rw [Res.ok_bind]
        split
        · rename_i hi
          exact ih _ _ (by simp; omega) (by simp; omega)
        · rfl
      | ub => rfl
      | throws => simp [byteAt] at e; cases h : src[i]? <;> simp [h] at e
      | assertFail => simp [byteAt] at e; cases h : src[i]? <;> simp [h] at e
  have ho : octets L < L := by simp only [octets]; omega
  have : 0 < L := by omega
  simp only [newNode, setKey, this, if_true, hc, Bool.false_eq_true, if_false]
  rw [key L 0 _ (by simpa using ho) (by omega)]
  rfl

theorem byteLoop_ok {a b : List UInt8} : ∀ (n i : Nat), i + n ≤ a.length → i + n ≤ b.length →
    (∀ j < 8 * i, bitAt a j = bitAt b j) →
    ∃ len, byteLoop a b i (8 * i) n = .ok len ∧ len ≤ 8 * (i + n) ∧ ∀ j < len, bitAt a j = bitAt b j := by
  intro n
  induction n with
  | zero => intro i _ _ h; exact ⟨8 * i, rfl, by omega, h⟩
  | succ n ih =>
    intro i h1 h2 h
    have a1 : i < a.length := by omega
    have a2 : i < b.length := by omega
    rw [byteLoop, byteAt_ok a1, byteAt_ok a2]
    simp only [Res.ok_bind]
    split
    · rename_i e
      obtain ⟨len, q, r, s⟩ := ih (i + 1) (by omega) (by omega) (fun j hj => by
        by_cases hj' : j < 8 * i
        · exact h j hj'
        · rw [bitAt, bitAt, show j / 8 = i by omega, e])
      exact ⟨len, by rw [show 8 * i + 8 = 8 * (i + 1) by omega]; exact q, by omega, s⟩
    · exact ⟨8 * i, rfl, by omega, h⟩

theorem bitLoop_ok {a b : List UInt8} : ∀ (n len : Nat), len + n ≤ 8 * a.length → len + n ≤ 8 * b.length →
    (∀ j < len, bitAt a j = bitAt b j) →
    ∃ len', bitLoop a b len n = .ok len' ∧ len' ≤ len + n ∧ (∀ j < len', bitAt a j = bitAt b j) ∧
      (len' < len + n → bitAt a len' ≠ bitAt b len') := by
  intro n
  induction n with
  | zero => intro len _ _ h; exact ⟨len, rfl, by omega, h, by omega⟩
  | succ n ih =>
    intro len h1 h2 h
    rw [bitLoop, checkBit_ok (by omega), checkBit_ok (by omega)]
    simp only [Res.ok_bind]
    split
    · rename_i e
      exact ⟨len, rfl, by omega, h, fun _ => e⟩
    · rename_i e
      obtain ⟨len', q, r, s, t⟩ := ih (len + 1) (by omega) (by omega) (fun j hj => by
        by_cases hj' : j < len
        · exact h j hj'
        · rw [show j = len by omega]; exact not_not.1 e)
      exact ⟨len', q, by omega, s, fun hh => t (by omega)⟩

/-- The two loops of `branchNode` find the length of the common prefix. -/
theorem diff_ok {a b : List UInt8} {m : Nat} (h1 : m ≤ 8 * a.length) (h2 : m ≤ 8 * b.length) :
    ∃ len, (byteLoop a b 0 0 (m / 8) >>= fun l => bitLoop a b l (m - l)) = .ok len ∧ len ≤ m ∧ bits a len = bits b len ∧
      (len < m → bitAt a len ≠ bitAt b len) := by
  obtain ⟨l, e, hl, hb⟩ := byteLoop_ok (a := a) (b := b) (m / 8) 0 (by omega) (by omega) (by omega)
  obtain ⟨len, e', hl', hb', hn⟩ := bitLoop_ok (a := a) (b := b) (m - l) l (by omega) (by omega) hb
  have e0 : byteLoop a b 0 0 (m / 8) = .ok l := e
  exact ⟨len, by rw [e0, Res.ok_bind]; exact e', by omega, bits_eq.2 hb', fun h => hn (by omega)⟩

end Verif.Patricia
