import Verif.Res
import Mathlib.Data.List.Basic
import Mathlib.Tactic.Ring

/-!
# Byte blocks

`BDCC_Block` (DataNode.hpp:71) is an array of `gBlockSize` = 32768 bytes.  Values are stored in little endian.
-/

namespace Verif.PTable

/-- DataNode.hpp:47. -/
def blockSize : Nat := 32768

/-- DataNode.hpp:71: the bytes of a block; only positions below `blockSize` exist. -/
abbrev Blk := Nat → UInt8

/-- Object representation of an unsigned value in `n` bytes. -/
def enc : Nat → Nat → List UInt8
  | 0, _ => []
  | n + 1, x => UInt8.ofNat x :: enc n (x / 256)

/-- Value of an object representation. -/
def dec : List UInt8 → Nat
  | [] => 0
  | b :: l => b.toNat + 256 * dec l

/-- The `n` bytes from position `off`. -/
def bytes (b : Blk) (off : Nat) : Nat → List UInt8
  | 0 => []
  | n + 1 => b off :: bytes b (off + 1) n

/-- utils.hpp:30-34 `copyToByteArray`, and stores through references into the block; outside of the block
undefined behaviour. -/
def put (b : Blk) (off : Nat) (l : List UInt8) : Res Blk :=
  if off + l.length ≤ blockSize then .ok (fun i => if off ≤ i then (l[i - off]?).getD (b i) else b i) else .ub

/-- `reinterpret_cast<const T &>(b[off])` for a `T` of `n` bytes: its bits as a number. -/
def rd (b : Blk) (off n : Nat) : Res Nat :=
  if off + n ≤ blockSize then .ok (dec (bytes b off n)) else .ub

/-- `std::string(reinterpret_cast<const char (&)[]>(b[off]))`: the bytes up to the next NUL (`n`: bytes left in
the block). -/
def cstrAux (b : Blk) : Nat → Nat → Res (List UInt8)
  | _, 0 => .ub
  | off, n + 1 => if b off = 0 then .ok [] else do
    let s ← cstrAux b (off + 1) n
    pure (b off :: s)

def cstr (b : Blk) (off : Nat) : Res (List UInt8) := cstrAux b off (blockSize - off)

/-! ## Lemmas -/

theorem dec_enc : ∀ (n x : Nat), dec (enc n x) = x % 256 ^ n
  | 0, x => by simp [enc, dec, Nat.mod_one]
  | n + 1, x => by
    rw [enc, dec, dec_enc n, Nat.pow_succ, Nat.mul_comm (256 ^ n), Nat.mod_mul]
    simp [UInt8.toNat_ofNat]

theorem dec_enc_lt {n x : Nat} (h : x < 256 ^ n) : dec (enc n x) = x := by rw [dec_enc, Nat.mod_eq_of_lt h]

@[simp] theorem enc_length : ∀ (n x : Nat), (enc n x).length = n
  | 0, _ => rfl
  | n + 1, x => by rw [enc, List.length_cons, enc_length n]

theorem enc_inj {n x y : Nat} (hx : x < 256 ^ n) (hy : y < 256 ^ n) (h : enc n x = enc n y) : x = y := by
  rw [← dec_enc_lt hx, ← dec_enc_lt hy, h]

theorem enc_dec : ∀ (l : List UInt8), enc l.length (dec l) = l
  | [] => rfl
  | b :: l => by
    rw [List.length_cons, enc, dec, show (b.toNat + 256 * dec l) / 256 = dec l by have := b.toNat_lt; omega, enc_dec l]
    congr 1
    apply UInt8.toNat_inj.1
    rw [UInt8.toNat_ofNat']
    have := b.toNat_lt
    omega

@[simp] theorem bytes_length (b : Blk) : ∀ (n off : Nat), (bytes b off n).length = n
  | 0, _ => rfl
  | n + 1, off => by rw [bytes, List.length_cons, bytes_length b n]

theorem bytes_congr {b b' : Blk} : ∀ (n off : Nat), (∀ i, off ≤ i → i < off + n → b' i = b i) →
    bytes b' off n = bytes b off n
  | 0, _, _ => rfl
  | n + 1, off, h => by
    rw [bytes, bytes, h off (Nat.le_refl _) (by omega), bytes_congr n (off + 1) (fun i h1 h2 => h i (by omega) (by omega))]

theorem bytes_append (b : Blk) : ∀ (m n off : Nat), bytes b off (m + n) = bytes b off m ++ bytes b (off + m) n
  | 0, n, off => by simp [bytes]
  | m + 1, n, off => by
    rw [show m + 1 + n = (m + n) + 1 by omega, bytes, bytes, bytes_append b m n (off + 1), List.cons_append,
      show off + 1 + m = off + (m + 1) by omega]

/-- `b'` differs from `b` only at positions in `[lo, hi)`. -/
def Within (lo hi : Nat) (b b' : Blk) : Prop := ∀ i, i < lo ∨ hi ≤ i → b' i = b i

theorem Within.refl (lo hi : Nat) (b : Blk) : Within lo hi b b := fun _ _ => rfl

theorem Within.trans {lo hi : Nat} {b b' b'' : Blk} (h : Within lo hi b b') (h' : Within lo hi b' b'') :
    Within lo hi b b'' := fun i hi => (h' i hi).trans (h i hi)

theorem Within.mono {lo hi lo' hi' : Nat} {b b' : Blk} (h : Within lo hi b b') (h1 : lo' ≤ lo) (h2 : hi ≤ hi') :
    Within lo' hi' b b' := fun i hi => h i (by omega)

theorem Within.bytes {lo hi : Nat} {b b' : Blk} (h : Within lo hi b b') {off n : Nat} (hd : off + n ≤ lo ∨ hi ≤ off) :
    bytes b' off n = bytes b off n := bytes_congr n off (fun i h1 h2 => h i (by omega))

theorem put_ok (b : Blk) {off : Nat} {l : List UInt8} (h : off + l.length ≤ blockSize) :
    ∃ b', put b off l = .ok b' ∧ bytes b' off l.length = l ∧ Within off (off + l.length) b b' := by
  refine ⟨_, by unfold put; rw [if_pos h], ?_, ?_⟩
  · have key : ∀ (l' : List UInt8) (k : Nat), (∀ j, l'[j]? = l[k + j]?) →
        bytes (fun i => if off ≤ i then (l[i - off]?).getD (b i) else b i) (off + k) l'.length = l' := by
      intro l'
      induction l' with
      | nil => intro k _; rfl
      | cons x l' ih =>
        intro k hk
        rw [List.length_cons, bytes, show off + k + 1 = off + (k + 1) by omega, ih (k + 1)]
        · have := hk 0
          simp only [List.getElem?_cons_zero, Nat.add_zero] at this
          rw [if_pos (by omega), show off + k - off = k by omega, ← this]
          rfl
        · intro j
          have := hk (j + 1)
          rw [List.getElem?_cons_succ] at this
          rw [this, show k + (j + 1) = k + 1 + j by omega]
    exact key l 0 (fun j => by rw [Nat.zero_add])
  · intro i hi
    dsimp only
    by_cases h1 : off ≤ i
    · rw [if_pos h1, List.getElem?_eq_none (by omega)]; rfl
    · rw [if_neg h1]

theorem put_enc (b : Blk) {off n x : Nat} (h : off + n ≤ blockSize) :
    ∃ b', put b off (enc n x) = .ok b' ∧ bytes b' off n = enc n x ∧ Within off (off + n) b b' := by
  have := put_ok b (off := off) (l := enc n x) (by rw [enc_length]; exact h)
  rwa [enc_length] at this

theorem rd_ok {b : Blk} {off n : Nat} (h : off + n ≤ blockSize) : rd b off n = .ok (dec (bytes b off n)) := by
  unfold rd; rw [if_pos h]

theorem rd_enc {b : Blk} {off n x : Nat} (h : off + n ≤ blockSize) (hb : bytes b off n = enc n x) (hx : x < 256 ^ n) :
    rd b off n = .ok x := by rw [rd_ok h, hb, dec_enc_lt hx]

theorem cstrAux_ok {b : Blk} : ∀ (s : List UInt8) (off n : Nat), s.length + 1 ≤ n → (0 : UInt8) ∉ s →
    bytes b off (s.length + 1) = s ++ [0] → cstrAux b off n = .ok s
  | [], off, n + 1, _, _, h => by
    have h0 : b off = 0 := by simpa [bytes] using h
    rw [cstrAux, if_pos h0]
  | c :: s, off, n + 1, hn, hz, h => by
    rw [List.length_cons] at hn
    rw [List.length_cons, bytes, List.cons_append, List.cons.injEq] at h
    have hc : c ≠ 0 := fun e => hz (by rw [e]; exact List.mem_cons_self)
    rw [cstrAux, if_neg (by rw [h.1]; exact hc), cstrAux_ok s (off + 1) n (by omega) (fun hs => hz (List.mem_cons_of_mem _ hs)) h.2,
      Res.ok_bind, h.1]
    rfl
  | [], _, 0, hn, _, _ => by simp at hn
  | c :: s, _, 0, hn, _, _ => by simp at hn

theorem cstr_ok {b : Blk} {s : List UInt8} {off : Nat} (h : off + s.length + 1 ≤ blockSize) (hz : (0 : UInt8) ∉ s)
    (hb : bytes b off (s.length + 1) = s ++ [0]) : cstr b off = .ok s :=
  cstrAux_ok s off _ (by omega) hz hb

end Verif.PTable
