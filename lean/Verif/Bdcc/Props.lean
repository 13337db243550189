import Verif.Bdcc.Lemmas

/-!
# Properties C16, C17, C18 and C52: BDCC masks and BDCC values

A table has `n` dimensions; dimension `d` asks for `bits d` bits.  Masks are sets of bit positions.
-/

namespace Verif.BdccProps
open Verif Verif.Bdcc

/-- Sum of the requested bits. -/
def total (bits : Nat → Nat) (n : Nat) : Nat := ((List.range n).map bits).sum

theorem total_eq (bits : Nat → Nat) (n : Nat) : numBins bits n = total bits n := by
  unfold total
  induction n with
  | zero => rfl
  | succ n ih => rw [numBins, ih, List.range_succ, List.map_append, List.sum_append]; simp

/-- `p` is the `k`-th bit (counted from the most significant, starting at 0) of the mask `m`. -/
def IsKthBit (m : Finset Nat) (k p : Nat) : Prop :=
  p ∈ m ∧ (m.filter (fun q => p < q)).card = k

/-- **C16**: the masks are pairwise disjoint, have the requested sizes and cover exactly the
positions below the sum of the requested bits. -/
theorem C16_partition (bits : Nat → Nat) (n : Nat) (h : total bits n ≤ 32) :
    numBins bits n = total bits n ∧
    ∃ masks, deriveMasks bits n = .ok masks ∧
      (∀ d < n, ∀ e < n, d ≠ e → Disjoint (masks d) (masks e)) ∧
      (∀ d < n, (masks d).card = bits d) ∧
      (∀ p, (∃ d < n, p ∈ masks d) ↔ p < total bits n) := by
  rw [← total_eq] at h ⊢
  obtain ⟨masks, e, h1, h2, h3, h4, -⟩ := deriveMasks_spec bits n h
  exact ⟨rfl, masks, e, h3, h1, fun p => ⟨fun ⟨d, hd, hp⟩ => h2 d hd p hp, h4 p⟩⟩

/-- **C17**: the `k`-th bit of an earlier dimension is above the `k`-th bit of a later one, and the
`(k+1)`-th bit of every dimension is below the `k`-th bit of every dimension. -/
theorem C17_round_robin (bits : Nat → Nat) (n : Nat) (h : total bits n ≤ 32) :
    ∃ masks, deriveMasks bits n = .ok masks ∧
      (∀ d e k p q, d < e → e < n → IsKthBit (masks d) k p → IsKthBit (masks e) k q → q < p) ∧
      (∀ d e k p q, d < n → e < n → IsKthBit (masks d) k p → IsKthBit (masks e) (k + 1) q → q < p) := by
  rw [← total_eq] at h
  obtain ⟨masks, e, -, -, -, -, h5⟩ := deriveMasks_spec bits n h
  refine ⟨masks, e, ?_, ?_⟩
  · intro d e k p q hde he hp hq
    exact h5 d (by omega) e he p hp.1 q hq.1 (.inr ⟨by unfold rank; rw [hp.2, hq.2], hde⟩)
  · intro d e k p q hd he hp hq
    exact h5 d hd e he p hp.1 q hq.1 (.inl (by unfold rank; rw [hp.2, hq.2]; omega))

/-- Concrete case for C16/C17: three dimensions asking for 2, 0 and 3 bits. -/
example : ∃ masks, deriveMasks (fun d => if d = 0 then 2 else if d = 2 then 3 else 0) 3 = .ok masks ∧
    masks 0 = {4, 2} ∧ masks 1 = ∅ ∧ masks 2 = {3, 1, 0} := by
  refine ⟨_, rfl, ?_, ?_, ?_⟩ <;> decide

/-- The dimension list of a table is usable: the alignment (third component) of every dimension is
at least its number of bits and at most 32, and a 32-bit `int` is not shifted by 32. -/
def GoodAlign (bits align : Nat → Nat) (n : Nat) : Prop :=
  ∀ d < n, bits d ≤ align d ∧ align d ≤ 32 ∧ align d - bits d < 32

/-- **C18**, full statement for a meaning `sem` of shifts by negative amounts: the BDCC value of
every tuple is computed and below `2^numBins`. -/
def C18_statement (sem : ShiftSem) : Prop :=
  ∀ (vals : Nat → BitVec 32) (bits align : Nat → Nat) (n : Nat), total bits n ≤ 32 →
    GoodAlign bits align n →
    ∃ r, getBDCC sem vals bits align n = .ok r ∧ toNat r < 2 ^ total bits n

theorem getBDCC_spec (f : BitVec 32 → Int → Bool) (vals : Nat → BitVec 32) (bits align : Nat → Nat)
    (n : Nat) (h : total bits n ≤ 32) (ha : GoodAlign bits align n) :
    ∃ masks r, deriveMasks bits n = .ok masks ∧
      getBDCC (.hardware f) vals bits align n = .ok r ∧
      ∀ p, p ∈ r ↔ ∃ d < n, p ∈ masks d ∧ (vals d).getLsbD (align d - 1 - rank (masks d) p) = true := by
  rw [← total_eq] at h
  obtain ⟨masks, e, h1, h2, -⟩ := deriveMasks_spec bits n h
  obtain ⟨r, er, hr⟩ := bdccLoop_spec f vals bits align masks n (fun d hd => (ha d hd).1)
    (fun d hd => (ha d hd).2.1) (fun d hd => (ha d hd).2.2) h1
    (fun d hd p hp => by have := h2 d hd p hp; omega)
  refine ⟨masks, r, e, ?_, hr⟩
  unfold getBDCC
  rw [e, Res.ok_bind, er]

/-- **C18** on every machine on which a shift by a negative amount delivers some value (whatever it
is).  Missing from the full claim: by the C++ standard such a shift is undefined behaviour. -/
theorem C18_partial (f : BitVec 32 → Int → Bool) : C18_statement (.hardware f) := by
  intro vals bits align n h ha
  obtain ⟨masks, r, e, er, hr⟩ := getBDCC_spec f vals bits align n h ha
  refine ⟨r, er, (toNat_eq r 32).2 _ ?_⟩
  intro p hp
  obtain ⟨d, hd, hpd, -⟩ := (hr p).1 hp
  rw [← total_eq] at h ⊢
  obtain ⟨masks', e', -, h2, -⟩ := deriveMasks_spec bits n h
  rw [e] at e'
  cases e'
  exact h2 d hd p hpd

/-- **C18** is false by the letter of the C++ standard: with two one-bit dimensions, the loop of the
first dimension evaluates `x >> -1`. -/
theorem C18_refuted : ¬ C18_statement .strict := by
  intro h
  obtain ⟨r, e, -⟩ := h (fun _ => 1) (fun _ => 1) (fun _ => 1) 2 (by decide)
    (by intro d _; exact ⟨le_rfl, by simp, by simp⟩)
  have : getBDCC .strict (fun _ => 1) (fun _ => 1) (fun _ => 1) 2 = .ub := by rfl
  rw [this] at e
  cases e

/-- Two tuples fall into the same bin of a dimension with `b` bits and alignment `a` when the bits
`a-b, .., a-1` of their values agree. -/
def SameBin (v w : BitVec 32) (b a : Nat) : Prop := ∀ j < b, v.getLsbD (a - b + j) = w.getLsbD (a - b + j)

/-- **C52**: the BDCC value encodes exactly the bins: two tuples have the same BDCC value if and only if
they are in the same bin in every dimension. -/
theorem C52_same_bins (f : BitVec 32 → Int → Bool) (v w : Nat → BitVec 32) (bits align : Nat → Nat)
    (n : Nat) (h : total bits n ≤ 32) (ha : GoodAlign bits align n) :
    ∃ r1 r2, getBDCC (.hardware f) v bits align n = .ok r1 ∧
      getBDCC (.hardware f) w bits align n = .ok r2 ∧
      (toNat r1 = toNat r2 ↔ ∀ d < n, SameBin (v d) (w d) (bits d) (align d)) := by
  obtain ⟨masks, rv, e, ev, hv⟩ := getBDCC_spec f v bits align n h ha
  obtain ⟨masks', r2, e', ew, hw⟩ := getBDCC_spec f w bits align n h ha
  rw [e] at e'
  cases e'
  have h' := h
  rw [← total_eq] at h'
  obtain ⟨masks', e', h1, h2, h3, -⟩ := deriveMasks_spec bits n h'
  rw [e] at e'
  cases e'
  refine ⟨rv, r2, ev, ew, ?_⟩
  constructor
  · intro heq d hd j hj
    obtain ⟨p, hp, hr⟩ := exists_rank (masks d) (bits d - 1 - j) (by rw [h1 d hd]; omega)
    have hp32 : p < 32 := by have := h2 d hd p hp; omega
    have hiff : p ∈ rv ↔ p ∈ r2 := by
      have a := testBit_toNat rv p
      have b := testBit_toNat r2 p
      rw [heq, b] at a
      simpa [hp32] using (decide_eq_decide.1 a).symm
    rw [hv, hw] at hiff
    have hone : ∀ u : Nat → BitVec 32,
        (∃ c < n, p ∈ masks c ∧ (u c).getLsbD (align c - 1 - rank (masks c) p) = true) ↔
        (u d).getLsbD (align d - bits d + j) = true := by
      intro u
      have e1 : align d - 1 - rank (masks d) p = align d - bits d + j := by
        have hle := (ha d hd).1
        clear heq hiff ev ew hv hw
        omega
      constructor
      · rintro ⟨c, hc, hpc, hb⟩
        have : c = d := by
          by_contra hne
          exact Finset.disjoint_left.1 (h3 c hc d hd hne) hpc hp
        subst this
        rw [← e1]; exact hb
      · intro hb
        exact ⟨d, hd, hp, by rw [e1]; exact hb⟩
    rw [hone v, hone w] at hiff
    exact Bool.eq_iff_iff.2 hiff
  · intro hsame
    have : rv = r2 := by
      ext p
      rw [hv, hw]
      have key : ∀ d < n, p ∈ masks d → (v d).getLsbD (align d - 1 - rank (masks d) p) =
          (w d).getLsbD (align d - 1 - rank (masks d) p) := by
        intro d hd hp
        have hlt := rank_lt_card hp
        rw [h1 d hd] at hlt
        have := hsame d hd (bits d - 1 - rank (masks d) p) (by omega)
        have e1 : align d - bits d + (bits d - 1 - rank (masks d) p) = align d - 1 - rank (masks d) p := by
          have := (ha d hd).1; omega
        rw [e1] at this; exact this
      constructor
      · rintro ⟨d, hd, hp, hb⟩; exact ⟨d, hd, hp, by rw [← key d hd hp]; exact hb⟩
      · rintro ⟨d, hd, hp, hb⟩; exact ⟨d, hd, hp, by rw [key d hd hp]; exact hb⟩
    rw [this]

/-- Concrete case for C18/C52: two dimensions with 2 and 1 bits, values 0b1100 (alignment 4) and
0b01 (alignment 1); the value is 0b111 on every machine. -/
example (f : BitVec 32 → Int → Bool) : ∃ r,
    getBDCC (.hardware f) (fun d => if d = 0 then 12 else 1) (fun d => if d = 0 then 2 else 1)
      (fun d => if d = 0 then 4 else 1) 2 = .ok r ∧ r = {2, 1, 0} := by
  obtain ⟨masks, r, e, er, hr⟩ := getBDCC_spec f (fun d => if d = 0 then 12 else 1)
    (fun d => if d = 0 then 2 else 1) (fun d => if d = 0 then 4 else 1) 2 (by decide)
    (by intro d hd; have : d = 0 ∨ d = 1 := by omega
        rcases this with rfl | rfl <;> decide)
  refine ⟨r, er, ?_⟩
  have hm : masks 0 = {2, 0} ∧ masks 1 = {1} := by
    have := Res.ok.inj e.symm
    subst this
    exact ⟨by decide, by decide⟩
  ext p
  rw [hr]
  constructor
  · rintro ⟨d, hd, hp, hb⟩
    have : d = 0 ∨ d = 1 := by omega
    rcases this with rfl | rfl
    · rw [hm.1] at hp; revert hp; simp; omega
    · rw [hm.2] at hp; revert hp; simp; omega
  · intro hp
    simp only [Finset.mem_insert, Finset.mem_singleton] at hp
    rcases hp with rfl | rfl | rfl
    · exact ⟨0, by decide, by rw [hm.1]; decide, by rw [hm.1]; decide⟩
    · exact ⟨1, by decide, by rw [hm.2]; decide, by rw [hm.2]; decide⟩
    · exact ⟨0, by decide, by rw [hm.1]; decide, by rw [hm.1]; decide⟩

end Verif.BdccProps
