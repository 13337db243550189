import Verif.Utils.PatriciaUtils

/-!
# Property theorems for `PatriciaUtils.hpp` (C79-C81)

The specifications are statements on single bits and on the big-endian value of a key.
-/

namespace Verif.PatriciaUtils

open Verif

/-! ## C79 -/

/-- C79 in full: for every integer type, `reverse` of all its digits is its own inverse. -/
def C79_statement : Prop :=
  ∀ (signed : Bool) (w : Nat) (n : BitVec w),
    ∃ r, reverse signed n (digits signed w) = .ok r ∧ reverse signed r (digits signed w) = .ok n

/-- The mirrored bits of every prefix: bit `k` of the result is bit `b - 1 - k` of the argument, all others are clear. -/
theorem C79_mirror (signed : Bool) {w : Nat} (n : BitVec w) (b : Nat) (hb : b ≤ digits signed w) :
    ∃ r, reverse signed n b = .ok r ∧ ∀ k, r.getLsbD k = (decide (k < b) && n.getLsbD (b - 1 - k)) :=
  reverse_bit signed n b hb

/-- C79 for unsigned types and for signed values without the sign bit.  Missing: negative values, where the claim is
false (`C79_refuted`). -/
theorem C79_involution_partial (signed : Bool) {w : Nat} (n : BitVec w) (hn : signed = true → n.msb = false) :
    ∃ r, reverse signed n (digits signed w) = .ok r ∧ reverse signed r (digits signed w) = .ok n := by
  obtain ⟨r, e, h⟩ := reverse_bit signed n (digits signed w) le_rfl
  obtain ⟨r', e', h'⟩ := reverse_bit signed r (digits signed w) le_rfl
  refine ⟨r, e, ?_⟩
  rw [e']
  congr 1
  apply BitVec.eq_of_getLsbD_eq
  intro k hk
  rw [h', h]
  by_cases h1 : k < digits signed w
  · rw [show digits signed w - 1 - (digits signed w - 1 - k) = k by omega]
    have : digits signed w - 1 - k < digits signed w := by omega
    simp [h1, this]
  · unfold digits at h1
    cases signed with
    | false => simp at h1; omega
    | true =>
      have hm := hn rfl
      rw [BitVec.msb_eq_getLsbD_last] at hm
      simp at h1
      have : k = w - 1 := by omega
      rw [this, hm]
      simp [digits]

/-- C79 is false for `int`: the sign is lost. -/
theorem C79_refuted : ¬ C79_statement := by
  intro h
  obtain ⟨r, e, e'⟩ := h true 32 (-1)
  obtain ⟨r', f, hf⟩ := reverse_bit true r (digits true 32) le_rfl
  rw [e'] at f
  have := hf 31
  rw [← Res.ok.inj f] at this
  rw [show decide (31 < digits true 32) = false by decide, Bool.false_and] at this
  exact absurd this (by decide)

example : reverse false 0b00010110#8 8 = .ok 0b01101000#8 := by decide
example : reverse true 0b10010110#8 7 = .ok 0b00110100#8 := by decide

/-! ## C80 -/

/-- C80. `toBinaryString(in, size)` with at least `size` bits of memory reads nothing beyond, and gives `size` characters; character
`q` is the bit `7 - q mod 8` of byte `q / 8`. -/
theorem C80_binary (ptr : List (BitVec 8)) (size : Nat) (hs : size ≤ 8 * ptr.length) :
    ∃ s, toBinaryString ptr size = .ok s ∧ s.length = size ∧
      ∀ q, q < size → ∃ x, ptr[q / 8]? = some x ∧ s[q]? = some (if x.getLsbD (7 - q % 8) then '1' else '0') := by
  refine ⟨_, toBinaryString_spec ptr size hs, by simp [bits], fun q hq => ?_⟩
  have hi : q / 8 < ptr.length := by omega
  refine ⟨ptr[q / 8], List.getElem?_eq_getElem hi, ?_⟩
  simp [bits, List.getElem?_range hq, memBit, List.getElem?_eq_getElem hi]

/-- C80: two buffers have the same text exactly if they agree on the first `size` bits. -/
theorem C80_injective (ptr ptr' : List (BitVec 8)) (size : Nat) (hs : size ≤ 8 * ptr.length) (hs' : size ≤ 8 * ptr'.length) :
    toBinaryString ptr size = toBinaryString ptr' size ↔
      ∀ q x y, q < size → ptr[q / 8]? = some x → ptr'[q / 8]? = some y → x.getLsbD (7 - q % 8) = y.getLsbD (7 - q % 8) := by
  obtain ⟨s, e, hl, h⟩ := C80_binary ptr size hs
  obtain ⟨s', e', hl', h'⟩ := C80_binary ptr' size hs'
  rw [e, e']
  constructor
  · intro hss q x y hq hx hy
    have hss := Res.ok.inj hss
    obtain ⟨x', hx', f⟩ := h q hq
    obtain ⟨y', hy', f'⟩ := h' q hq
    rw [hx] at hx'; cases hx'
    rw [hy] at hy'; cases hy'
    rw [hss, f'] at f
    have f := Option.some.inj f
    cases hxx : x.getLsbD (7 - q % 8) <;> cases hyy : y.getLsbD (7 - q % 8) <;> simp [hxx, hyy] at f ⊢
  · intro hall
    congr 1
    apply List.ext_getElem?
    intro q
    by_cases hq : q < size
    · obtain ⟨x, hx, f⟩ := h q hq
      obtain ⟨y, hy, f'⟩ := h' q hq
      rw [f, f', hall q x y hq hx hy]
    · rw [List.getElem?_eq_none (by omega), List.getElem?_eq_none (by omega)]

example : toBinaryString [0b10110001#8, 0b01000000#8] 10 = .ok ['1', '0', '1', '1', '0', '0', '0', '1', '0', '1'] := by decide

/-! ## C81 -/

/-- The value of a key with its most significant byte first. -/
def bigEndian (key : List (BitVec 8)) : Nat := key.foldl (fun a x => a * 256 + x.toNat) 0

/-- The keys of consecutive calls of `next` on the same buffer. -/
def nexts (r : RNG) (key : List (BitVec 8)) (size : Nat) : Nat → Res (List (List (BitVec 8)))
  | 0 => .ok []
  | n + 1 => do
    let x ← r.next key size
    let xs ← nexts x.1 x.2 size n
    pure (x.2 :: xs)

/-- C81 in full: a generator of either kind fills buffers of the requested size; fewer than `256 ^ size` calls give
different keys. -/
def C81_statement : Prop :=
  ∀ (kd : KeyKind) (key : List (BitVec 8)) (n : Nat), key ≠ [] → n ≤ 256 ^ key.length →
    ∃ r ks, RNG.new kd = .ok r ∧ nexts r key key.length n = .ok ks ∧ ks.length = n ∧ ks.Nodup

theorem bigEndian4 (inc : BitVec 64) :
    bigEndian [inc.extractLsb' 24 8, inc.extractLsb' 16 8, inc.extractLsb' 8 8, inc.extractLsb' 0 8] = inc.toNat % 2 ^ 32 := by
  simp only [bigEndian, List.foldl_cons, List.foldl_nil, BitVec.extractLsb'_toNat, Nat.shiftRight_eq_div_pow]
  omega

theorem next_ok (i : BitVec 64) {key : List (BitVec 8)} (hk : 4 ≤ key.length) {size : Nat} (hs : 0 < size) :
    ∃ key', RNG.next ⟨.digits, some i⟩ key size = .ok (⟨.digits, some (i + 1#64)⟩, key') ∧
      key'.length = key.length ∧ bigEndian (key'.take 4) = i.toNat % 2 ^ 32 ∧ key'.drop 4 = key.drop 4 := by
  refine ⟨[i.extractLsb' 24 8, i.extractLsb' 16 8, i.extractLsb' 8 8, i.extractLsb' 0 8] ++ key.drop 4, ?_, ?_, ?_, ?_⟩
  · unfold RNG.next
    rw [Res.assert_pos hs, Res.ok_bind]
    show (Res.ofOption (some i) >>= _) = _
    rw [Res.ofOption_some, Res.ok_bind]
    show (digitLoop 4 i 0 key 4 >>= _) = _
    rw [digitLoop_ok hk, Res.ok_bind]
    rfl
  · simp; omega
  · exact bigEndian4 i
  · simp

/-- Call number `q` (from 0) gives the number `i + q` in the first four bytes, and leaves the others alone. -/
theorem nexts_ok {size : Nat} (hs : 0 < size) : ∀ (n i : Nat) (key : List (BitVec 8)), 4 ≤ key.length →
    ∃ ks, nexts ⟨.digits, some (BitVec.ofNat 64 i)⟩ key size n = .ok ks ∧ ks.length = n ∧
      ∀ q, q < n → ∃ x, ks[q]? = some x ∧ x.length = key.length ∧ bigEndian (x.take 4) = (i + q) % 2 ^ 32 ∧
        x.drop 4 = key.drop 4
  | 0, _, _, _ => ⟨[], rfl, rfl, fun q hq => by omega⟩
  | n + 1, i, key, hk => by
    obtain ⟨key', e, hl, hv, hd⟩ := next_ok (BitVec.ofNat 64 i) hk hs
    have hi : BitVec.ofNat 64 i + 1#64 = BitVec.ofNat 64 (i + 1) := by
      rw [BitVec.ofNat_add]
    rw [hi] at e
    obtain ⟨ks, e', hl', h'⟩ := nexts_ok hs n (i + 1) key' (by omega)
    refine ⟨key' :: ks, ?_, by simp [hl'], fun q hq => ?_⟩
    · rw [nexts, e, Res.ok_bind]
      show (nexts _ key' size n >>= _) = _
      rw [e', Res.ok_bind]
      rfl
    · cases q with
      | zero =>
        refine ⟨key', rfl, hl, ?_, hd⟩
        rw [hv, BitVec.toNat_ofNat]
        omega
      | succ q =>
        obtain ⟨x, hx, h1, h2, h3⟩ := h' q (by omega)
        exact ⟨x, by simpa using hx, by omega, by rw [h2]; congr 1; omega, by rw [h3, hd]⟩

/-- C81 for the kind `DIGITS` and buffers of at least four bytes: call number `q` gives the big-endian representation of `q` in
the first four bytes and leaves the others alone, so `2 ^ 32` calls give different keys.  Missing: shorter buffers, which
overflow (`C81_overflow`), more than `2 ^ 32` keys of longer buffers (`C81_repeats`), and the kind `CHARACTERS`, whose constructor
writes through an uninitialised pointer (`C81_characters`). -/
theorem C81_digits_partial (key : List (BitVec 8)) (hk : 4 ≤ key.length) (n : Nat) (hn : n ≤ 2 ^ 32) :
    ∃ r ks, RNG.new .digits = .ok r ∧ nexts r key key.length n = .ok ks ∧ ks.length = n ∧ ks.Nodup ∧
      ∀ q, q < n → ∃ x, ks[q]? = some x ∧ x.length = key.length ∧ bigEndian (x.take 4) = q ∧ x.drop 4 = key.drop 4 := by
  obtain ⟨ks, e, hl, h⟩ := nexts_ok (show 0 < key.length by omega) n 0 key hk
  have h2 : ∀ q, q < n → ∃ x, ks[q]? = some x ∧ x.length = key.length ∧ bigEndian (x.take 4) = q ∧ x.drop 4 = key.drop 4 := by
    intro q hq
    obtain ⟨x, h1, h2, h3, h4⟩ := h q hq
    refine ⟨x, h1, h2, ?_, h4⟩
    rw [h3, Nat.zero_add, Nat.mod_eq_of_lt (by omega)]
  refine ⟨_, ks, rfl, e, hl, ?_, h2⟩
  rw [List.nodup_iff_getElem?_ne_getElem?]
  intro i j hij hj hc
  obtain ⟨x, hx, _, hvx, _⟩ := h2 i (by omega)
  obtain ⟨y, hy, _, hvy, _⟩ := h2 j (by omega)
  rw [hx, hy] at hc
  cases hc
  omega

/-- After `2 ^ 32` keys the first key comes again, also in longer buffers. -/
theorem C81_repeats (key : List (BitVec 8)) (hk : 4 ≤ key.length) :
    ∃ r ks x y, RNG.new .digits = .ok r ∧ nexts r key key.length (2 ^ 32 + 1) = .ok ks ∧ ks[0]? = some x ∧
      ks[2 ^ 32]? = some y ∧ bigEndian (x.take 4) = bigEndian (y.take 4) ∧ x.drop 4 = y.drop 4 := by
  obtain ⟨ks, e, hl, h⟩ := nexts_ok (show 0 < key.length by omega) (2 ^ 32 + 1) 0 key hk
  obtain ⟨x, hx, _, hvx, hdx⟩ := h 0 (by omega)
  obtain ⟨y, hy, _, hvy, hdy⟩ := h (2 ^ 32) (by omega)
  exact ⟨_, ks, x, y, rfl, e, hx, hy, by rw [hvx, hvy]; norm_num, by rw [hdx, hdy]⟩

/-- `next(key, size)` writes four bytes whatever `size` is: a buffer of one to three bytes overflows. -/
theorem C81_overflow (key : List (BitVec 8)) (hk : key ≠ []) (h4 : key.length < 4) :
    ∃ r, RNG.new .digits = .ok r ∧ r.next key key.length = .ub := by
  refine ⟨_, rfl, ?_⟩
  have h0 : 0 < key.length := List.length_pos_iff.2 hk
  unfold RNG.next
  rw [Res.assert_pos h0, Res.ok_bind]
  show (Res.ofOption (some 0#64) >>= _) = _
  rw [Res.ofOption_some, Res.ok_bind]
  show (digitLoop 4 0#64 0 key 4 >>= _) = _
  rw [digitLoop_ub h4]
  rfl

/-- The constructor for `CHARACTERS` calls `reset`, which writes through the pointer that only `DIGITS` sets. -/
theorem C81_characters : RNG.new .characters = .ub := rfl

theorem C81_refuted : ¬ C81_statement := by
  intro h
  obtain ⟨r, ks, e, _⟩ := h .characters [0#8] 0 (by simp) (by simp)
  rw [C81_characters] at e
  cases e

/-- C81 is false for `DIGITS` alone as well. -/
theorem C81_refuted_digits : ¬ ∀ (key : List (BitVec 8)) (n : Nat), key ≠ [] → n ≤ 256 ^ key.length →
    ∃ r ks, RNG.new .digits = .ok r ∧ nexts r key key.length n = .ok ks ∧ ks.length = n ∧ ks.Nodup := by
  intro h
  obtain ⟨r, ks, e, e', _⟩ := h [0#8] 1 (by simp) (by simp)
  obtain ⟨r', f, f'⟩ := C81_overflow [0#8] (by simp) (by simp)
  rw [e] at f
  cases Res.ok.inj f
  rw [nexts, f'] at e'
  cases e'

example : ∃ r ks, RNG.new .digits = .ok r ∧ nexts r [9#8, 9#8, 9#8, 9#8, 7#8] 5 2 = .ok ks ∧
    ks = [[0#8, 0#8, 0#8, 0#8, 7#8], [0#8, 0#8, 0#8, 1#8, 7#8]] := ⟨_, _, rfl, rfl, by decide⟩

end Verif.PatriciaUtils
