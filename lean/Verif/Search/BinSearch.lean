import Verif.Search.Model
import Mathlib.Data.Finset.Card
import Mathlib.Data.Finset.Filter

/-! # Lemmas on the binary search loop -/

namespace Verif.Search

variable {K : Type} [LinearOrder K]

/-- Correctness of the loop over the index interval `[lo, hi)`. -/
theorem bsLoop_spec (isBranch : Bool) (rd : Nat → Res K) (key : K) (k : Nat → K) (lo hi : Nat)
    (hrd : ∀ i, lo ≤ i → i < hi → rd i = .ok (k i))
    (hsort : ∀ i j, lo ≤ i → i < j → j < hi → k i < k j)
    (fuel pos : Nat) (l r : Int) (hf : (r - l + 1).toNat ≤ fuel) (hl : (lo : Int) ≤ l) (hr : r < (hi : Int)) (hlr : l ≤ r + 1)
    (hlow : ∀ i, lo ≤ i → (i : Int) < l → k i < key)
    (hhigh : ∀ i, i < hi → r < (i : Int) → key < k i)
    (hpos : r < l → (pos : Int) = l) :
    ∃ c, bsLoop isBranch rd key fuel pos l r = .ok c ∧ lo ≤ c ∧ c ≤ hi ∧
      (∀ i, lo ≤ i → i < c → if isBranch then k i ≤ key else k i < key) ∧
      (∀ i, c ≤ i → i < hi → if isBranch then key < k i else key ≤ k i) := by
  induction fuel generalizing pos l r with
  | zero =>
    rw [bsLoop, if_neg (by omega)]
    have hp := hpos (by omega)
    refine ⟨pos, rfl, by omega, by omega, ?_, ?_⟩
    · intro i h1 h2
      have := hlow i h1 (by omega)
      split
      · exact le_of_lt this
      · exact this
    · intro i h1 h2
      have := hhigh i h2 (by omega)
      split
      · exact this
      · exact le_of_lt this
  | succ fuel ih =>
    rw [bsLoop]
    by_cases hle : l ≤ r
    · rw [if_pos hle]
      set p := ((l + r) / 2).toNat with hp
      have hpl : l ≤ (p : Int) := by omega
      have hpr : (p : Int) ≤ r := by omega
      rw [hrd p (by omega) (by omega), Res.ok_bind]
      split
      · rename_i he
        cases isBranch
        · refine ⟨p, rfl, by omega, by omega, ?_, ?_⟩
          · intro i h1 h2
            simp only [Bool.false_eq_true, if_false]
            rw [← he]; exact hsort i p h1 h2 (by omega)
          · intro i h1 h2
            simp only [Bool.false_eq_true, if_false]
            rw [← he]
            rcases Nat.lt_or_eq_of_le h1 with h | h
            · exact le_of_lt (hsort p i (by omega) h h2)
            · rw [h]
        · refine ⟨p + 1, rfl, by omega, by omega, ?_, ?_⟩
          · intro i h1 h2
            simp only [if_true]
            rw [← he]
            rcases Nat.lt_or_eq_of_le (Nat.lt_succ_iff.mp h2) with h | h
            · exact le_of_lt (hsort i p h1 h (by omega))
            · rw [h]
          · intro i h1 h2
            simp only [if_true]
            rw [← he]; exact hsort p i (by omega) (by omega) h2
      · rename_i hne
        split
        · rename_i hlt
          have hpc : ((p + 1 : Nat) : Int) = (p : Int) + 1 := by omega
          refine ih (p + 1) ((p : Int) + 1) r (by omega) (by omega) hr
            (by omega) ?_ hhigh (fun _ => hpc)
          intro i h1 h2
          rcases Nat.lt_or_eq_of_le (show i ≤ p by omega) with h | h
          · exact lt_trans (hsort i p h1 h (by omega)) hlt
          · rw [h]; exact hlt
        · rename_i hnlt
          have hgt : key < k p := lt_of_le_of_ne (not_lt.mp hnlt) (Ne.symm hne)
          refine ih p l ((p : Int) - 1) (by omega) hl (by omega)
            (by omega) hlow ?_ (by intro h; omega)
          intro i h1 h2
          rcases Nat.lt_or_eq_of_le (show p ≤ i by omega) with h | h
          · exact lt_trans hgt (hsort p i (by omega) h h1)
          · rw [← h]; exact hgt
    · rw [if_neg hle]
      have hp := hpos (by omega)
      refine ⟨pos, rfl, by omega, by omega, ?_, ?_⟩
      · intro i h1 h2
        have := hlow i h1 (by omega)
        split
        · exact le_of_lt this
        · exact this
      · intro i h1 h2
        have := hhigh i h2 (by omega)
        split
        · exact this
        · exact le_of_lt this

theorem binarySearch_leaf (rd : Nat → Res K) (n : Nat) (k : Nat → K) (key : K)
    (hrd : ∀ i < n, rd i = .ok (k i)) (hsort : ∀ i j, i < j → j < n → k i < k j) :
    ∃ c, binarySearch false rd 0 ((n : Int) - 1) key = .ok c ∧ c ≤ n ∧
      (∀ i < c, k i < key) ∧ (∀ i, c ≤ i → i < n → key ≤ k i) := by
  obtain ⟨c, h1, -, h3, h4, h5⟩ := bsLoop_spec false rd key k 0 n (fun i _ h => hrd i h)
    (fun i j _ h h' => hsort i j h h') _ 0 0 ((n : Int) - 1) le_rfl (by omega) (by omega) (by omega)
    (by intro i _ h; omega) (by intro i h1 h2; omega) (by intro; rfl)
  exact ⟨c, h1, h3, fun i hi => by simpa using h4 i (by omega) hi,
    fun i h h' => by simpa using h5 i h h'⟩

theorem binarySearch_branch (rd : Nat → Res K) (n : Nat) (k : Nat → K) (key : K)
    (hrd : ∀ i < n, rd i = .ok (k i)) (hsort : ∀ i j, i < j → j < n → k i < k j) :
    ∃ c, binarySearch true rd 0 ((n : Int) - 1) key = .ok c ∧ c ≤ n ∧
      (∀ i < c, k i ≤ key) ∧ (∀ i, c ≤ i → i < n → key < k i) := by
  obtain ⟨c, h1, -, h3, h4, h5⟩ := bsLoop_spec true rd key k 0 n (fun i _ h => hrd i h)
    (fun i j _ h h' => hsort i j h h') _ 0 0 ((n : Int) - 1) le_rfl (by omega) (by omega) (by omega)
    (by intro i _ h; omega) (by intro i h1 h2; omega) (by intro; rfl)
  exact ⟨c, h1, h3, fun i hi => by simpa using h4 i (by omega) hi,
    fun i h h' => by simpa using h5 i h h'⟩

theorem linearSearch_spec (lt : Bool) (rd : Nat → Res K) (k : Nat → K) (key : K) (n : Nat) :
    ∀ pos, (∀ i, pos ≤ i → i < pos + n → rd i = .ok (k i)) →
    (∀ i j, pos ≤ i → i < j → j < pos + n → k i < k j) →
    ∃ c, linearSearch lt rd key pos n = .ok c ∧ pos ≤ c ∧ c ≤ pos + n ∧
      (∀ i, pos ≤ i → i < c → if lt then k i < key else k i ≤ key) ∧
      (∀ i, c ≤ i → i < pos + n → if lt then key ≤ k i else key < k i) := by
  induction n with
  | zero => intro pos _ _; exact ⟨pos, rfl, by omega, by omega, by omega, by omega⟩
  | succ n ih =>
    intro pos hrd hsort
    rw [linearSearch, hrd pos (by omega) (by omega), Res.ok_bind]
    by_cases hc : (if lt then k pos < key else k pos ≤ key)
    · rw [if_pos hc]
      obtain ⟨c, e, h1, h2, h3, h4⟩ := ih (pos + 1) (fun i h h' => hrd i (by omega) (by omega))
        (fun i j h h' h'' => hsort i j (by omega) h' (by omega))
      refine ⟨c, e, by omega, by omega, ?_, fun i h h' => h4 i h (by omega)⟩
      intro i hi1 hi2
      rcases Nat.lt_or_eq_of_le hi1 with h | h
      · exact h3 i (by omega) hi2
      · rw [← h]; exact hc
    · rw [if_neg hc]
      refine ⟨pos, rfl, by omega, by omega, by omega, ?_⟩
      intro i h1 h2
      rcases Nat.lt_or_eq_of_le h1 with h | h
      · have := hsort pos i (by omega) h h2
        cases lt <;> simp at hc ⊢
        · exact lt_trans hc this
        · exact le_trans hc (le_of_lt this)
      · rw [← h]
        cases lt <;> simpa using hc

theorem card_of_cut (n c : Nat) (p : Nat → Prop) [DecidablePred p] (hc : c ≤ n)
    (h1 : ∀ i < c, p i) (h2 : ∀ i, c ≤ i → i < n → ¬ p i) :
    ((Finset.range n).filter p).card = c := by
  have : (Finset.range n).filter p = Finset.range c := by
    ext i
    rw [Finset.mem_filter, Finset.mem_range, Finset.mem_range]
    constructor
    · rintro ⟨h, hp⟩
      by_contra hh
      exact h2 i (by omega) h hp
    · intro h; exact ⟨by omega, h1 i h⟩
  rw [this, Finset.card_range]

end Verif.Search
