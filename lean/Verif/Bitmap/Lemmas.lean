import Verif.Bitmap.Spec
import Verif.Bitmap.Popcount

/-! # Helper lemmas for bitmaps -/

namespace Verif.Bitmap

open BitmapSpec

variable {NB : Nat}

/-- Every in-range position addresses a word of the array. -/
theorem pos_word_lt {pos : Nat} (h : pos < NB) : pos / 64 < numWords NB := by
  unfold numWords; omega

theorem maskBit_getLsbD (pos k : Nat) (hk : k < 64) :
    (maskBit pos).getLsbD k = decide (k = pos % 64) := by
  unfold maskBit
  have : pos % 64 < 64 := Nat.mod_lt _ (by decide)
  rw [BitVec.getLsbD_shiftLeft]
  simp only [hk, decide_true, Bool.true_and]
  by_cases h : k < pos % 64
  · simp [h]; omega
  · simp only [h, decide_false, Bool.not_false, Bool.true_and]
    rw [BitVec.getLsbD_one]
    have : decide (0 < 64) = true := by decide
    simp only [this, Bool.true_and]
    congr 1
    apply propext
    omega

theorem and_mask_ne_zero (w : Word) (pos : Nat) :
    (w &&& maskBit pos != 0#64) = w.getLsbD (pos % 64) := by
  have hp : pos % 64 < 64 := Nat.mod_lt _ (by decide)
  rw [Bool.eq_iff_iff]
  rw [bne_iff_ne]
  constructor
  · intro h
    by_contra hc
    apply h
    apply BitVec.eq_of_getLsbD_eq
    intro i hi
    rw [BitVec.getLsbD_and, maskBit_getLsbD _ _ hi]
    by_cases hi' : i = pos % 64
    · subst hi'; simp at hc; simp [hc]
    · simp [hi']
  · intro h h0
    have := congrArg (fun v => BitVec.getLsbD v (pos % 64)) h0
    simp [BitVec.getLsbD_and, maskBit_getLsbD _ _ hp] at this
    rw [this] at h; simp at h

theorem test_eq (b : Bitmap NB) {pos : Nat} (h : pos < NB) :
    b.test pos = .ok ((b.words (pos / 64)).getLsbD (pos % 64)) := by
  unfold test
  rw [if_neg (by omega), and_mask_ne_zero]

theorem test_throws (b : Bitmap NB) {pos : Nat} (h : NB ≤ pos) : b.test pos = .throws := by
  unfold test; rw [if_pos h]

theorem set_bit (b : Bitmap NB) (w : Word) (k i : Nat) :
    ((b.setWord i w).words k) = if k = i then w else b.words k := rfl

/-- Value of bit `k` of word `i` after a point update. -/
theorem set_getLsbD (b b' : Bitmap NB) (pos : Nat) (v : Bool) (h : b.set pos v = .ok b')
    (i k : Nat) (hk : k < 64) :
    (b'.words i).getLsbD k =
      if i = pos / 64 ∧ k = pos % 64 then v else (b.words i).getLsbD k := by
  unfold set at h
  split at h
  · exact absurd h (by simp)
  · cases v <;> simp at h <;> subst h <;> rw [set_bit b]
    · by_cases hi : i = pos / 64
      · subst hi
        simp only [if_true, true_and, BitVec.getLsbD_and, BitVec.getLsbD_not, hk, decide_true,
          Bool.true_and, maskBit_getLsbD _ _ hk]
        by_cases hk' : k = pos % 64 <;> simp [hk']
      · simp [hi]
    · by_cases hi : i = pos / 64
      · subst hi
        simp only [if_true, true_and, BitVec.getLsbD_or, maskBit_getLsbD _ _ hk]
        by_cases hk' : k = pos % 64 <;> simp [hk']
      · simp [hi]

theorem reset_eq_set (b : Bitmap NB) (pos : Nat) : b.reset pos = b.set pos false := by
  unfold reset set; simp

theorem set_ok (b : Bitmap NB) (pos : Nat) (v : Bool) :
    (pos < NB → ∃ b', b.set pos v = .ok b') ∧ (NB ≤ pos → b.set pos v = .throws) := by
  unfold set
  constructor
  · intro h; rw [if_neg (by omega)]; cases v <;> simp
  · intro h; rw [if_pos h]

/-- Unused high-order bits of the last word are zero. -/
def Clean (b : Bitmap NB) : Prop :=
  ∀ i k, i < numWords NB → k < 64 → NB ≤ 64 * i + k → (b.words i).getLsbD k = false

theorem clean_fresh : Clean (fresh NB) := by
  intro i k _ _ _; simp [fresh]

theorem clean_set {b b' : Bitmap NB} {pos : Nat} {v : Bool} (hc : Clean b)
    (h : b.set pos v = .ok b') : Clean b' := by
  intro i k hi hk hge
  have hp : pos < NB := by
    by_contra hn
    rw [(set_ok b pos v).2 (by omega)] at h
    exact absurd h (by simp)
  rw [set_getLsbD b b' pos v h i k hk, if_neg, hc i k hi hk hge]
  rintro ⟨rfl, rfl⟩
  omega

theorem sanitize_getLsbD (b : Bitmap NB) (i k : Nat) (hk : k < 64) :
    ((sanitize b).words i).getLsbD k =
      if i = numWords NB - 1 then ((b.words i).getLsbD k && decide (k < NB % 64))
      else (b.words i).getLsbD k := by
  unfold sanitize
  rw [set_bit b]
  split
  · rename_i hi
    subst hi
    simp only [BitVec.getLsbD_and, BitVec.getLsbD_not, BitVec.getLsbD_shiftLeft, hk, decide_true,
      Bool.true_and]
    congr 1
    by_cases h : k < NB % 64
    · simp [h]
    · simp [h]; omega
  · rfl

theorem clean_sanitize (b : Bitmap NB) : Clean (sanitize b) := by
  intro i k hi hk hge
  rw [sanitize_getLsbD b i k hk]
  have : i = numWords NB - 1 := by unfold numWords at *; omega
  rw [if_pos this]
  have : ¬ k < NB % 64 := by unfold numWords at *; omega
  simp [this]

theorem clean_apply {b : Bitmap NB} (hc : Clean b) (o : Op) : Clean (apply b o).1 := by
  cases o with
  | set p v =>
    unfold apply
    simp only
    split
    · rename_i h; exact clean_set hc h
    · exact hc
  | reset p =>
    unfold apply
    simp only
    split
    · rename_i h; rw [reset_eq_set] at h; exact clean_set hc h
    · exact hc
  | flip => exact clean_sanitize _
  | setAll => exact clean_sanitize _

theorem clean_run (ops : List Op) : Clean (run NB ops) := by
  unfold run
  suffices h : ∀ b : Bitmap NB, Clean b → Clean (ops.foldl (fun b o => (apply b o).1) b) from
    h _ clean_fresh
  induction ops with
  | nil => intro b h; exact h
  | cons o os ih => intro b h; exact ih _ (clean_apply h o)

/-- Bit view of a bitmap: total over all positions. -/
def bit (b : Bitmap NB) (p : Nat) : Bool := (b.words (p / 64)).getLsbD (p % 64)

theorem mem_members {b : Bitmap NB} {p : Nat} :
    p ∈ members b ↔ p < NB ∧ bit b p = true := by
  unfold members
  rw [Finset.mem_filter, Finset.mem_range]
  constructor
  · rintro ⟨h1, h2⟩
    rw [test_eq b h1] at h2
    exact ⟨h1, by simpa [bit] using h2⟩
  · rintro ⟨h1, h2⟩
    refine ⟨h1, ?_⟩
    rw [test_eq b h1]
    simpa [bit] using h2

theorem bit_split (b : Bitmap NB) (i k : Nat) (hk : k < 64) :
    bit b (64 * i + k) = (b.words i).getLsbD k := by
  unfold bit
  have h1 : (64 * i + k) / 64 = i := by omega
  have h2 : (64 * i + k) % 64 = k := by omega
  rw [h1, h2]

theorem popWord_sum (w : Word) :
    popWord w = ∑ k ∈ Finset.range 64, (w.getLsbD k).toNat := by
  rw [Popcount.popWord_eq, Popcount.pc_eq_sum]
  rfl

theorem foldl_add (f : Nat → Nat) (n c : Nat) :
    (List.range n).foldl (fun c i => c + f i) c = c + ∑ i ∈ Finset.range n, f i := by
  induction n with
  | zero => simp
  | succ n ih =>
    rw [List.range_succ, List.foldl_append, ih, Finset.sum_range_succ]
    simp [Nat.add_assoc]

theorem sum_words (b : Bitmap NB) (n : Nat) :
    ∑ i ∈ Finset.range n, popWord (b.words i) =
      ∑ p ∈ Finset.range (64 * n), (bit b p).toNat := by
  induction n with
  | zero => simp
  | succ n ih =>
    have e : popWord (b.words n) = ∑ k ∈ Finset.range 64, (bit b (64 * n + k)).toNat := by
      rw [popWord_sum]
      apply Finset.sum_congr rfl
      intro k hk
      rw [bit_split b n k (Finset.mem_range.mp hk)]
    rw [Finset.sum_range_succ, ih, Nat.mul_succ, Finset.sum_range_add, e]

theorem count_eq_sum (b : Bitmap NB) :
    b.count = ∑ p ∈ Finset.range (64 * numWords NB), (bit b p).toNat := by
  unfold count
  rw [foldl_add, sum_words, Nat.zero_add]

theorem numWords_ge : NB ≤ 64 * numWords NB := by unfold numWords; omega

theorem clean_bit {b : Bitmap NB} (hc : Clean b) {p : Nat} (h1 : NB ≤ p) (h2 : p < 64 * numWords NB) :
    bit b p = false := by
  have := hc (p / 64) (p % 64) (by omega) (by omega) (by omega)
  exact this

theorem card_members (b : Bitmap NB) :
    (members b).card = ∑ p ∈ Finset.range NB, (bit b p).toNat := by
  have : members b = (Finset.range NB).filter (fun p => bit b p = true) := by
    ext p; rw [mem_members]; simp
  rw [this, Finset.card_filter]
  apply Finset.sum_congr rfl
  intro p _
  cases bit b p <;> simp

theorem count_eq_card {b : Bitmap NB} (hc : Clean b) : b.count = (members b).card := by
  rw [count_eq_sum, card_members]
  obtain ⟨d, hd⟩ := Nat.exists_eq_add_of_le (numWords_ge (NB := NB))
  rw [hd, Finset.sum_range_add]
  have : ∑ x ∈ Finset.range d, (bit b (NB + x)).toNat = 0 := by
    apply Finset.sum_eq_zero
    intro x hx
    rw [clean_bit hc (by omega) (by rw [hd]; have := Finset.mem_range.mp hx; omega)]
    rfl
  rw [this, Nat.add_zero]

/-! ## all -/

theorem all_iff {b : Bitmap NB} (hc : Clean b) (hNB : 0 < NB) :
    b.all = true ↔ ∀ p < NB, bit b p = true := by
  have hW : numWords NB * 64 - NB < 64 := by unfold numWords; omega
  have hW1 : 0 < numWords NB := by unfold numWords; omega
  unfold all
  rw [Bool.and_eq_true, List.all_eq_true, beq_iff_eq]
  constructor
  · rintro ⟨h1, h2⟩ p hp
    unfold bit
    have hk : p % 64 < 64 := Nat.mod_lt _ (by decide)
    by_cases hlast : p / 64 = numWords NB - 1
    · rw [hlast, h2, BitVec.getLsbD_ushiftRight, BitVec.getLsbD_not]
      have : numWords NB * 64 - NB + p % 64 < 64 := by unfold numWords at *; omega
      simp [this]
    · have hlt : p / 64 < numWords NB - 1 := by have := pos_word_lt hp; omega
      have := h1 (p / 64) (List.mem_range.mpr hlt)
      rw [beq_iff_eq] at this
      rw [this, BitVec.getLsbD_not]
      simp [hk]
  · intro h
    constructor
    · intro i hi
      have hi := List.mem_range.mp hi
      rw [beq_iff_eq]
      apply BitVec.eq_of_getLsbD_eq
      intro k hk
      rw [← bit_split b i k hk, h _ (by unfold numWords at hi; omega), BitVec.getLsbD_not]
      simp [hk]
    · apply BitVec.eq_of_getLsbD_eq
      intro k hk
      rw [← bit_split b _ k hk, BitVec.getLsbD_ushiftRight, BitVec.getLsbD_not]
      by_cases hin : 64 * (numWords NB - 1) + k < NB
      · rw [h _ hin]
        have : numWords NB * 64 - NB + k < 64 := by omega
        simp [this]
      · rw [clean_bit hc (by omega) (by omega)]
        have : ¬ numWords NB * 64 - NB + k < 64 := by omega
        simp [this]

/-! ## lowest set bit -/

/-- `k` is the lowest set bit of `w`. -/
def IsLow (w : Word) (k : Nat) : Prop := k < 64 ∧ w.getLsbD k = true ∧ ∀ j < k, w.getLsbD j = false

theorem exists_low {w : Word} (h : w ≠ 0#64) : ∃ k, IsLow w k := by
  have hex : ∃ k, w.getLsbD k = true := by
    by_contra hn
    apply h
    apply BitVec.eq_of_getLsbD_eq
    intro i _
    have := not_exists.mp hn i
    simpa using this
  refine ⟨Nat.find hex, ?_, Nat.find_spec hex, ?_⟩
  · by_contra hge
    have := Nat.find_spec hex
    rw [BitVec.getLsbD_of_ge _ _ (by omega)] at this
    exact absurd this (by simp)
  · intro j hj
    have := Nat.find_min hex hj
    simpa using this

theorem and_neg_eq {w : Word} {k : Nat} (h : IsLow w k) : w &&& -w = BitVec.twoPow 64 k := by
  obtain ⟨hk, h1, h2⟩ := h
  apply BitVec.eq_of_getLsbD_eq
  intro i hi
  rw [BitVec.getLsbD_and, BitVec.getLsbD_neg, BitVec.getLsbD_twoPow]
  simp only [hi, decide_true, Bool.true_and]
  rcases Nat.lt_trichotomy i k with hlt | heq | hgt
  · rw [h2 i hlt]; simp; omega
  · subst heq
    rw [h1]
    have : decide (∃ j < i, w.getLsbD j = true) = false := by
      simp; intro j hj; exact h2 j hj
    rw [this]; simp [hk]
  · have : decide (∃ j < i, w.getLsbD j = true) = true := by
      simp; exact ⟨k, hgt, h1⟩
    rw [this]; simp
    omega

theorem tab_ok : ∀ k < 64,
    tab64.getD ((BitVec.twoPow 64 k * deBruijnSeq) >>> 58).toNat 0 = k := by decide +kernel

theorem ctzTab_eq {w : Word} {k : Nat} (h : IsLow w k) : ctzTab w = k := by
  unfold ctzTab
  rw [and_neg_eq h, tab_ok k h.1]

theorem scanWords_spec (f : Nat → Word) (n r : Nat) (hr : r ≤ n) :
    (scanWords f n r = 64 * n ∧ ∀ i, n - r ≤ i → i < n → f i = 0#64) ∨
    (∃ i k, n - r ≤ i ∧ i < n ∧ scanWords f n r = 64 * i + k ∧ IsLow (f i) k ∧
      ∀ j, n - r ≤ j → j < i → f j = 0#64) := by
  induction r with
  | zero =>
    left; refine ⟨rfl, ?_⟩
    intro i h1 h2; omega
  | succ r ih =>
    rw [scanWords]
    by_cases h : f (n - (r + 1)) ≠ 0#64
    · right
      obtain ⟨k, hk⟩ := exists_low h
      rw [if_pos h]
      refine ⟨n - (r + 1), k, Nat.le_refl _, by omega, by rw [ctzTab_eq hk], hk, ?_⟩
      intro j h1 h2; omega
    · rw [if_neg h]
      have h0 : f (n - (r + 1)) = 0#64 := not_not.mp h
      rcases ih (by omega) with ⟨e, hz⟩ | ⟨i, k, h1, h2, h3, h4, h5⟩
      · left
        refine ⟨e, ?_⟩
        intro i h1 h2
        by_cases hi : i = n - (r + 1)
        · rw [hi, h0]
        · exact hz i (by omega) h2
      · right
        refine ⟨i, k, by omega, h2, h3, h4, ?_⟩
        intro j hj1 hj2
        by_cases hi : j = n - (r + 1)
        · rw [hi, h0]
        · exact h5 j (by omega) hj2

theorem getFirstSet_spec {b : Bitmap NB} (hc : Clean b) :
    (b.getFirstSet < NB ∧ bit b b.getFirstSet = true ∧ ∀ p < b.getFirstSet, bit b p = false) ∨
    (NB ≤ b.getFirstSet ∧ ∀ p < NB, bit b p = false) := by
  unfold getFirstSet
  rcases scanWords_spec b.words (numWords NB) (numWords NB) (Nat.le_refl _) with
    ⟨e, hz⟩ | ⟨i, k, h1, h2, h3, ⟨hk, l1, l2⟩, h5⟩
  · right
    rw [e]
    refine ⟨numWords_ge, ?_⟩
    intro p hp
    unfold bit
    rw [hz (p / 64) (by omega) (pos_word_lt hp)]
    simp
  · left
    rw [h3]
    refine ⟨?_, ?_, ?_⟩
    · by_contra hge
      rw [hc i k h2 hk (by omega)] at l1
      exact absurd l1 (by simp)
    · rw [bit_split b i k hk]; exact l1
    · intro p hp
      unfold bit
      by_cases hi : p / 64 = i
      · rw [hi]; exact l2 _ (by omega)
      · rw [h5 (p / 64) (by omega) (by omega)]; simp

theorem getFreeZero_spec (b : Bitmap NB) :
    (b.getFreeZero < NB ∧ bit b b.getFreeZero = false ∧ ∀ p < b.getFreeZero, bit b p = true) ∨
    (NB ≤ b.getFreeZero ∧ ∀ p < NB, bit b p = true) := by
  unfold getFreeZero
  rcases scanWords_spec (fun i => ~~~ (b.words i)) (numWords NB) (numWords NB) (Nat.le_refl _) with
    ⟨e, hz⟩ | ⟨i, k, h1, h2, h3, ⟨hk, l1, l2⟩, h5⟩
  · right
    rw [e]
    refine ⟨numWords_ge, ?_⟩
    intro p hp
    have := hz (p / 64) (by omega) (pos_word_lt hp)
    have hk : p % 64 < 64 := Nat.mod_lt _ (by decide)
    have := congrArg (fun v => BitVec.getLsbD v (p % 64)) this
    simp only [BitVec.getLsbD_not, hk, decide_true, Bool.true_and, BitVec.getLsbD_zero] at this
    unfold bit
    simpa using this
  · rw [h3]
    rw [BitVec.getLsbD_not] at l1
    simp only [hk, decide_true, Bool.true_and, Bool.not_eq_true'] at l1
    have below : ∀ p < 64 * i + k, bit b p = true := by
      intro p hp
      have hp64 : p % 64 < 64 := Nat.mod_lt _ (by decide)
      unfold bit
      by_cases hi : p / 64 = i
      · have := l2 (p % 64) (by omega)
        rw [BitVec.getLsbD_not] at this
        rw [hi]
        simpa [hp64] using this
      · have := h5 (p / 64) (by omega) (by omega)
        have := congrArg (fun v => BitVec.getLsbD v (p % 64)) this
        simpa [hp64] using this
    by_cases hlt : 64 * i + k < NB
    · left
      refine ⟨hlt, ?_, below⟩
      rw [bit_split b i k hk]; exact l1
    · right
      exact ⟨by omega, fun p hp => below p (by omega)⟩

/-! ## whole-bitmap operations -/

theorem bit_flip (b : Bitmap NB) (p : Nat) (hp : p < NB) :
    bit b.flip p = (if NB % 64 = 0 ∧ p / 64 = numWords NB - 1 then false else !(bit b p)) := by
  have hk : p % 64 < 64 := Nat.mod_lt _ (by decide)
  have hw := pos_word_lt hp
  unfold bit flip
  rw [sanitize_getLsbD _ _ _ hk]
  simp only [hw, if_true, BitVec.getLsbD_not, hk, decide_true, Bool.true_and]
  by_cases h : p / 64 = numWords NB - 1
  · simp only [h, if_true, and_true]
    by_cases h0 : NB % 64 = 0
    · simp [h0]
    · have : p % 64 < NB % 64 := by unfold numWords at *; omega
      simp [h0, this]
  · simp [h]

theorem bit_setAll (b : Bitmap NB) (p : Nat) (hp : p < NB) :
    bit b.setAll p = (if NB % 64 = 0 ∧ p / 64 = numWords NB - 1 then false else true) := by
  have hk : p % 64 < 64 := Nat.mod_lt _ (by decide)
  have hw := pos_word_lt hp
  unfold bit setAll
  rw [sanitize_getLsbD _ _ _ hk]
  simp only [hw, if_true, BitVec.getLsbD_not, hk, decide_true, Bool.true_and]
  by_cases h : p / 64 = numWords NB - 1
  · simp only [h, if_true, and_true]
    by_cases h0 : NB % 64 = 0
    · simp [h0]
    · have : p % 64 < NB % 64 := by unfold numWords at *; omega
      simp [h0, this]
  · simp [h]

end Verif.Bitmap
