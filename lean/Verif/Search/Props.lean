import Verif.Search.BinSearch
import Verif.Search.Best
import Verif.Search.SplitKey

/-! # Property theorems for the search functions (C08-C13, C50)

An array with fill level `n` is a sequence `k` of which only the first `n` elements may be read; reading
any other position is undefined behaviour (`ub`). -/

namespace Verif.SearchProps

open Verif Search

variable {K : Type} [LinearOrder K]

/-- Reading function of an array of which exactly the positions `[lo, hi)` may be read. -/
def reader (k : Nat → K) (lo hi : Nat) (i : Nat) : Res K :=
  if lo ≤ i ∧ i < hi then .ok (k i) else .ub

/-- The first `n` keys are strictly increasing. -/
def Increasing (k : Nat → K) (n : Nat) : Prop := ∀ i j, i < j → j < n → k i < k j

/-- C08. On an increasing array the leaf search returns the number of smaller keys; hence the
position of the key if it is stored; and reads nothing outside `[0, n)`. -/
theorem C08_binarySearch_leaf (k : Nat → K) (n : Nat) (key : K) (h : Increasing k n) :
    binarySearch false (reader k 0 n) 0 ((n : Int) - 1) key =
      .ok ((Finset.range n).filter (fun i => k i < key)).card ∧
    ∀ i < n, k i = key → binarySearch false (reader k 0 n) 0 ((n : Int) - 1) key = .ok i := by
  obtain ⟨c, e, h1, h2, h3⟩ := binarySearch_leaf (reader k 0 n) n k key
    (fun i hi => if_pos ⟨by omega, hi⟩) h
  have hc := card_of_cut n c (fun i => k i < key) h1 h2 (fun i a b => not_lt.2 (h3 i a b))
  refine ⟨by rw [e, hc], ?_⟩
  intro i hi hk
  rw [e]
  congr 1
  rcases Nat.lt_trichotomy c i with hlt | heq | hgt
  · have := h3 c (le_refl _) (by omega)
    have h5 := h c i hlt hi
    rw [hk] at h5
    exact absurd this (not_le.2 h5)
  · exact heq
  · have := h2 i hgt
    rw [hk] at this
    exact absurd this (lt_irrefl _)

/-- C09. On an increasing array the branch search returns the number of keys `≤ key`, i.e. the index
`c` of the child with `k (c-1) ≤ key < k c`, and agrees with the linear search of `BPTree`. -/
theorem C09_binarySearch_branch (k : Nat → K) (n : Nat) (key : K) (h : Increasing k n) :
    binarySearch true (reader k 0 n) 0 ((n : Int) - 1) key =
      .ok ((Finset.range n).filter (fun i => k i ≤ key)).card ∧
    binarySearch true (reader k 0 n) 0 ((n : Int) - 1) key = linearSearch false (reader k 0 n) key 0 n ∧
    ∀ c, binarySearch true (reader k 0 n) 0 ((n : Int) - 1) key = .ok c →
      (∀ i < c, k i ≤ key) ∧ ∀ i, c ≤ i → i < n → key < k i := by
  obtain ⟨c, e, h1, h2, h3⟩ := binarySearch_branch (reader k 0 n) n k key
    (fun i hi => if_pos ⟨by omega, hi⟩) h
  have hc := card_of_cut n c (fun i => k i ≤ key) h1 h2 (fun i a b => not_le.2 (h3 i a b))
  refine ⟨by rw [e, hc], ?_, ?_⟩
  · obtain ⟨d, e', g1, g2, g3, g4⟩ := linearSearch_spec false (reader k 0 n) k key n 0
      (fun i _ hi => if_pos ⟨by omega, by omega⟩) (fun i j _ h1 h2 => h i j h1 (by omega))
    have hd := card_of_cut n d (fun i => k i ≤ key) (by omega)
      (fun i a => by simpa using g3 i (by omega) a)
      (fun i a b => not_le.2 (by simpa using g4 i a (by omega)))
    rw [e, e', ← hc, hd]
  · intro c' hc'
    rw [e] at hc'
    cases hc'
    exact ⟨h2, h3⟩

/-- C50. The search through a slot array (slot `0` holds the number of entries, slots `1..n` the
positions in key order) returns the 1-based position: one plus the number of smaller keys (leaf), one
plus the number of keys `≤ key` (branch). -/
theorem C50_binarySearch_slots (keys : Nat → K) (slot : Nat → Nat) (n cap : Nat) (key : K)
    (hslot : ∀ i, 1 ≤ i → i ≤ n → slot i < cap)
    (h : ∀ i j, 1 ≤ i → i < j → j ≤ n → keys (slot i) < keys (slot j)) :
    binarySearchSlots false (reader keys 0 cap) (fun i => if i ≤ n then .ok (slot i) else .ub) 1 n key =
      .ok (1 + ((Finset.Icc 1 n).filter (fun i => keys (slot i) < key)).card) ∧
    binarySearchSlots true (reader keys 0 cap) (fun i => if i ≤ n then .ok (slot i) else .ub) 1 n key =
      .ok (1 + ((Finset.Icc 1 n).filter (fun i => keys (slot i) ≤ key)).card) := by
  have hrd : ∀ i, 1 ≤ i → i < n + 1 →
      (fun p => (if p ≤ n then Res.ok (slot p) else .ub) >>= reader keys 0 cap) i
        = .ok (keys (slot i)) := by
    intro i h1 h2
    simp only
    rw [if_pos (by omega), Res.ok_bind]
    exact if_pos ⟨by omega, hslot i h1 (by omega)⟩
  have cut : ∀ (c : Nat) (p : Nat → Prop) [DecidablePred p], 1 ≤ c → c ≤ n + 1 →
      (∀ i, 1 ≤ i → i < c → p i) → (∀ i, c ≤ i → i < n + 1 → ¬ p i) →
      1 + ((Finset.Icc 1 n).filter p).card = c := by
    intro c p _ hc1 hc2 h1 h2
    have : (Finset.Icc 1 n).filter p = Finset.Ico 1 c := by
      ext i
      rw [Finset.mem_filter, Finset.mem_Icc, Finset.mem_Ico]
      constructor
      · rintro ⟨hi, hp⟩
        refine ⟨hi.1, ?_⟩
        by_contra hh
        exact h2 i (by omega) (by omega) hp
      · rintro ⟨ha, hb⟩; exact ⟨by omega, h1 i ha hb⟩
    rw [this, Nat.card_Ico]; omega
  constructor
  · obtain ⟨c, e, h1, h2, h3, h4⟩ := bsLoop_spec false _ key (fun i => keys (slot i)) 1 (n + 1) hrd
      (fun i j a b c => h i j a b (by omega)) _ 1 1 n le_rfl (by omega) (by omega) (by omega) (by omega)
      (by omega) (by omega)
    unfold binarySearchSlots
    rw [e, cut c (fun i => keys (slot i) < key) h1 h2 (fun i a b => by simpa using h3 i a b)
      (fun i a b => not_lt.2 (by simpa using h4 i a b))]
  · obtain ⟨c, e, h1, h2, h3, h4⟩ := bsLoop_spec true _ key (fun i => keys (slot i)) 1 (n + 1) hrd
      (fun i j a b c => h i j a b (by omega)) _ 1 1 n le_rfl (by omega) (by omega) (by omega) (by omega)
      (by omega) (by omega)
    unfold binarySearchSlots
    rw [e, cut c (fun i => keys (slot i) ≤ key) h1 h2 (fun i a b => by simpa using h3 i a b)
      (fun i a b => not_le.2 (by simpa using h4 i a b))]

/-- Concrete increasing array used for the non-triviality examples. -/
def exKeys (i : Nat) : Int := 10 * i + 5

theorem exKeys_inc (n : Nat) : Increasing exKeys n := by
  intro i j h _; unfold exKeys; omega

example : ((Finset.range 7).filter (fun i => exKeys i < 25)).card = 2 ∧
    ((Finset.range 7).filter (fun i => exKeys i ≤ 25)).card = 3 := by decide
example := C08_binarySearch_leaf exKeys 7 25 (exKeys_inc 7)
example := C09_binarySearch_branch exKeys 7 25 (exKeys_inc 7)
example := C50_binarySearch_slots (fun i => -(i : Int)) (fun i => 10 - i) 5 10 (-7)
  (by intro i _ _; omega) (by intro i j _ _ _; omega)

/-- C10, nodes without bitmap. -/
theorem C10_node (k : Nat → K) (n : Nat) (hn : 1 ≤ n) :
    (∃ p, findMinKeyPos (reader k 0 n) n = .ok p ∧ p < n ∧ ∀ i < n, k p ≤ k i) ∧
    (∃ p, findMaxKeyPos (reader k 0 n) n = .ok p ∧ p < n ∧ ∀ i < n, k i ≤ k p) :=
  ⟨findMin_node _ k n hn (fun _ hi => if_pos ⟨by omega, hi⟩),
   findMax_node _ k n hn (fun _ hi => if_pos ⟨by omega, hi⟩)⟩

/-- `lim` are the limits of an integer type. -/
def IsLimits (lim : Limits K) : Prop := ∀ x : K, lim.min ≤ x ∧ x ≤ lim.max

/-- C10 for key arrays with bitmap, full statement for one key type. -/
def C10_bits_statement (lim : Limits K) : Prop :=
  ∀ (N : Nat) (keys : Fin N → K) (bits : Bitmap N), (∃ j : Fin N, bits.test j = .ok true) →
    (∃ p : Fin N, findMinKeyPosBits lim keys bits = .ok p ∧ bits.test p = .ok true ∧
      ∀ j : Fin N, bits.test j = .ok true → keys p ≤ keys j) ∧
    (∃ p : Fin N, findMaxKeyPosBits lim keys bits = .ok p ∧ bits.test p = .ok true ∧
      ∀ j : Fin N, bits.test j = .ok true → keys j ≤ keys p)

/-- C10 for key arrays with bitmap: proved when some valid key differs from the extreme value of the
key type. Missing: nodes all of whose valid keys are the extreme value (`C10_refuted`). -/
theorem C10_bits_partial (lim : Limits K) (hlim : IsLimits lim) (N : Nat) (keys : Fin N → K)
    (bits : Bitmap N) :
    ((∃ j : Fin N, bits.test j = .ok true ∧ keys j ≠ lim.max) →
      ∃ p : Fin N, findMinKeyPosBits lim keys bits = .ok p ∧ bits.test p = .ok true ∧
      ∀ j : Fin N, bits.test j = .ok true → keys p ≤ keys j) ∧
    ((∃ j : Fin N, bits.test j = .ok true ∧ keys j ≠ lim.min) →
      ∃ p : Fin N, findMaxKeyPosBits lim keys bits = .ok p ∧ bits.test p = .ok true ∧
      ∀ j : Fin N, bits.test j = .ok true → keys j ≤ keys p) := by
  constructor
  · rintro ⟨j, hj1, hj2⟩
    obtain ⟨c, p, e, h⟩ := bits_search keys bits lim.max (fun _ => true) (· < ·) lt_htr
      (fun a => lt_irrefl a) (fun _ _ _ => lt_trans) (fun i k cur => testAnd bits i (decide (k < cur)))
      (fun i k c => by simp)
    have hlt : keys j < lim.max := lt_of_le_of_ne (hlim _).2 hj2
    rcases h with ⟨-, -, h⟩ | ⟨hp, h1, -, rfl, -, h5⟩
    · exact absurd hlt (h j hj1 rfl)
    · refine ⟨⟨p, hp⟩, ?_, h1, fun i hi => not_lt.1 (h5 i hi rfl)⟩
      unfold findMinKeyPosBits
      simp only [e, Res.ok_bind, Res.pure_eq]
  · rintro ⟨j, hj1, hj2⟩
    obtain ⟨c, p, e, h⟩ := bits_search keys bits lim.min (fun _ => true) (fun a b => b < a) gt_htr
      (fun a => lt_irrefl a) (fun _ _ _ h1 h2 => lt_trans h2 h1)
      (fun i k cur => testAnd bits i (decide (cur < k))) (fun i k c => by simp)
    have hlt : lim.min < keys j := lt_of_le_of_ne (hlim _).1 (Ne.symm hj2)
    rcases h with ⟨-, -, h⟩ | ⟨hp, h1, -, rfl, -, h5⟩
    · exact absurd hlt (h j hj1 rfl)
    · refine ⟨⟨p, hp⟩, ?_, h1, fun i hi => not_lt.1 (h5 i hi rfl)⟩
      unfold findMaxKeyPosBits
      simp only [e, Res.ok_bind, Res.pure_eq]

/-- C10 is false for bitmap nodes of every key type with limits: a single valid key equal to the
maximum, stored at position 1, is not found. -/
theorem C10_refuted (lim : Limits K) : ¬ C10_bits_statement lim := by
  intro h
  let bits : Bitmap 2 := BitmapSpec.run 2 [.set 1 true]
  have h0 : bits.test 0 = .ok false := by decide +kernel
  have h1 : bits.test 1 = .ok true := by decide +kernel
  obtain ⟨⟨p, e, hp, -⟩, -⟩ := h 2 (fun _ => lim.max) bits ⟨1, h1⟩
  obtain ⟨c, q, e', hh⟩ := bits_search (fun _ : Fin 2 => lim.max) bits lim.max (fun _ => true) (· < ·)
    lt_htr (fun a => lt_irrefl a) (fun _ _ _ => lt_trans)
    (fun i k cur => testAnd bits i (decide (k < cur))) (fun i k c => by simp)
  have hq : q = 0 := by
    rcases hh with ⟨-, h, -⟩ | ⟨_, _, _, rfl, h, -⟩
    · exact h
    · exact absurd h (lt_irrefl _)
  unfold findMinKeyPosBits at e
  simp only [e', Res.ok_bind, Res.pure_eq, hq] at e
  have hp0 := Res.ok.inj e
  rw [← hp0, h0] at hp
  exact absurd (Res.ok.inj hp) (by decide)

/-- C11, full statement for one key type. -/
def C11_statement (lim : Limits K) : Prop :=
  ∀ (N : Nat) (keys : Fin N → K) (bits : Bitmap N) (key : K),
    ((∃ p : Fin N, findMinKeyPosGreaterThan lim keys bits key = .ok p ∧ bits.test p = .ok true ∧
        key < keys p ∧ ∀ j : Fin N, bits.test j = .ok true → key < keys j → keys p ≤ keys j) ∨
      (findMinKeyPosGreaterThan lim keys bits key = .ok N ∧
        ∀ j : Fin N, bits.test j = .ok true → keys j ≤ key)) ∧
    ((∃ p : Fin N, findMaxKeyPosSmallerThan lim keys bits key = .ok p ∧ bits.test p = .ok true ∧
        keys p < key ∧ ∀ j : Fin N, bits.test j = .ok true → keys j < key → keys j ≤ keys p) ∨
      (findMaxKeyPosSmallerThan lim keys bits key = .ok N ∧
        ∀ j : Fin N, bits.test j = .ok true → key ≤ keys j))

/-- C11, proved for nodes that do not contain the extreme values of the key type. Missing: nodes
containing them (`C11_refuted`). -/
theorem C11_partial (lim : Limits K) (hlim : IsLimits lim) (N : Nat) (keys : Fin N → K)
    (bits : Bitmap N) (key : K)
    (hmax : ∀ j : Fin N, bits.test j = .ok true → keys j ≠ lim.max)
    (hmin : ∀ j : Fin N, bits.test j = .ok true → keys j ≠ lim.min) :
    ((∃ p : Fin N, findMinKeyPosGreaterThan lim keys bits key = .ok p ∧ bits.test p = .ok true ∧
        key < keys p ∧ ∀ j : Fin N, bits.test j = .ok true → key < keys j → keys p ≤ keys j) ∨
      (findMinKeyPosGreaterThan lim keys bits key = .ok N ∧
        ∀ j : Fin N, bits.test j = .ok true → keys j ≤ key)) ∧
    ((∃ p : Fin N, findMaxKeyPosSmallerThan lim keys bits key = .ok p ∧ bits.test p = .ok true ∧
        keys p < key ∧ ∀ j : Fin N, bits.test j = .ok true → keys j < key → keys j ≤ keys p) ∨
      (findMaxKeyPosSmallerThan lim keys bits key = .ok N ∧
        ∀ j : Fin N, bits.test j = .ok true → key ≤ keys j)) := by
  constructor
  · obtain ⟨c, p, e, h⟩ := bits_search keys bits lim.max (fun k => decide (key < k)) (· < ·) lt_htr
      (fun a => lt_irrefl a) (fun _ _ _ => lt_trans)
      (fun i k cur => testAnd bits i (decide (k < cur) && decide (key < k))) (fun i k c => rfl)
    have hf : findMinKeyPosGreaterThan lim keys bits key = .ok (if c = lim.max then N else p) := by
      unfold findMinKeyPosGreaterThan
      simp only [e, Res.ok_bind, Res.pure_eq]
    rcases h with ⟨rfl, -, h⟩ | ⟨hp, h1, h2, rfl, h4, h5⟩
    · right
      rw [if_pos rfl] at hf
      refine ⟨hf, fun j hj => not_lt.1 (fun hk => ?_)⟩
      exact h j hj (by simpa using hk) (lt_of_le_of_ne (hlim _).2 (hmax j hj))
    · left
      rw [if_neg (ne_of_lt h4)] at hf
      exact ⟨⟨p, hp⟩, hf, h1, by simpa using h2,
        fun j hj hk => not_lt.1 (h5 j hj (by simpa using hk))⟩
  · obtain ⟨c, p, e, h⟩ := bits_search keys bits lim.min (fun k => decide (k < key)) (fun a b => b < a)
      gt_htr (fun a => lt_irrefl a) (fun _ _ _ h1 h2 => lt_trans h2 h1)
      (fun i k cur => testAnd bits i (decide (cur < k) && decide (k < key))) (fun i k c => rfl)
    have hf : findMaxKeyPosSmallerThan lim keys bits key = .ok (if c = lim.min then N else p) := by
      unfold findMaxKeyPosSmallerThan
      simp only [e, Res.ok_bind, Res.pure_eq]
    rcases h with ⟨rfl, -, h⟩ | ⟨hp, h1, h2, rfl, h4, h5⟩
    · right
      rw [if_pos rfl] at hf
      refine ⟨hf, fun j hj => not_lt.1 (fun hk => ?_)⟩
      exact h j hj (by simpa using hk) (lt_of_le_of_ne (hlim _).1 (Ne.symm (hmin j hj)))
    · left
      rw [if_neg (ne_of_gt h4)] at hf
      exact ⟨⟨p, hp⟩, hf, h1, by simpa using h2,
        fun j hj hk => not_lt.1 (h5 j hj (by simpa using hk))⟩

/-- C11 is false as soon as the key type has two values: a valid key equal to the maximum is not
found. -/
theorem C11_refuted (lim : Limits K) (hlt : lim.min < lim.max) : ¬ C11_statement lim := by
  intro h
  let bits : Bitmap 1 := BitmapSpec.run 1 [.set 0 true]
  have h0 : bits.test 0 = .ok true := by decide +kernel
  have := (h 1 (fun _ => lim.max) bits lim.min).1
  obtain ⟨c, q, e', hh⟩ := bits_search (fun _ : Fin 1 => lim.max) bits lim.max
    (fun k => decide (lim.min < k)) (· < ·) lt_htr (fun a => lt_irrefl a) (fun _ _ _ => lt_trans)
    (fun i k cur => testAnd bits i (decide (k < cur) && decide (lim.min < k))) (fun i k c => rfl)
  have hc : c = lim.max := by
    rcases hh with ⟨h, -, -⟩ | ⟨_, _, _, h, _, -⟩
    · exact h
    · exact h.symm
  have hf : findMinKeyPosGreaterThan lim (fun _ : Fin 1 => lim.max) bits lim.min = .ok 1 := by
    unfold findMinKeyPosGreaterThan
    simp only [e', Res.ok_bind, Res.pure_eq, hc, if_pos]
  rw [hf] at this
  rcases this with ⟨p, hp, -⟩ | ⟨-, h2⟩
  · have := Res.ok.inj hp
    omega
  · exact absurd (h2 0 h0) (not_le.2 hlt)

/-- The limits of an unsigned byte, as a concrete key type. -/
def limFin : Limits (Fin 256) := ⟨0, 255⟩

example : IsLimits limFin := fun x => ⟨Fin.zero_le x, Fin.le_last x⟩
example : findMinKeyPosBits limFin (fun i : Fin 3 => [9, 7, 8].getD i 0) (BitmapSpec.run 3 [.set 0 true, .set 2 true])
    = .ok 2 := by decide +kernel
example : findMinKeyPosGreaterThan limFin (fun i : Fin 3 => [9, 7, 8].getD i 0)
    (BitmapSpec.run 3 [.set 0 true, .set 1 true]) 7 = .ok 0 := by decide +kernel

/-- A value of a 32-bit `int`. -/
def IsInt32 (x : Int) : Prop := -2 ^ 31 ≤ x ∧ x < 2 ^ 31

theorem convInt_roundtrip (x : Int) (h : IsInt32 x) : convInt.ofSize (convInt.toSize x) = x := by
  unfold IsInt32 at h
  unfold convInt
  simp only
  rw [Int.bmod_def]
  omega

/-- C12. `elementOfRankK` terminates, returns the `k`-th smallest element of `data[s..s+L)` (converted
to `size_t`), only rearranges that range and reads nothing outside the array. Keys are `int`s of any
sign, repetitions allowed. -/
theorem C12_elementOfRankK (k : Nat) (data : Arr Int) (s L : Nat) (hk1 : 1 ≤ k) (hk2 : k ≤ L)
    (hcap : s + L ≤ data.cap) (hint : ∀ p, s ≤ p → p < s + L → IsInt32 (data.get p)) :
    ∃ v data', elementOfRankK convInt L k data s L = .ok (convInt.toSize v, data') ∧
      IsKth (data.seg s L) k v ∧ (data'.seg s L).Perm (data.seg s L) ∧
      ∀ p, ¬ (s ≤ p ∧ p < s + L) → data'.get p = data.get p := by
  obtain ⟨v, a', h1, h2, h3⟩ := elementOfRankK_spec convInt L k data s L le_rfl hk1 hk2 hcap (by
    intro x hx
    rw [Arr.mem_seg] at hx
    obtain ⟨p, a, b, rfl⟩ := hx
    exact convInt_roundtrip _ (hint p a b))
  exact ⟨v, a', h1, h3, h2.2.2, h2.2.1⟩

example : (elementOfRankK convInt 7 3 ⟨7, fun i => [50, -3, 20, 7, 7, 90, 1].getD i 0⟩ 0 7).bind
    (fun r => .ok r.1) = .ok 7 := by decide +kernel

/-- C13, full statement for `int` keys. -/
def C13_statement (P : Int → Prop) : Prop :=
  ∀ (M : Nat), 2 ≤ M → ∀ data : Arr Int, M ≤ data.cap →
    (∀ i j, i < M → j < M → data.get i = data.get j → i = j) → (∀ i < M, P (data.get i)) →
    ∃ b p, findSplitKey convInt M data = .ok (b, p) ∧ p < M ∧
      IsKth (data.seg 0 M) ((M + 1) / 2 + 1) (data.get p) ∧
      (∀ i < M, b.test i = .ok (decide (data.get i < data.get p))) ∧
      (BitmapSpec.members b).card = (M + 1) / 2

theorem count_seg (data : Arr Int) (M : Nat) (v : Int) :
    (data.seg 0 M).countP (fun x => decide (x < v)) =
      ((Finset.range M).filter (fun i => data.get i < v)).card := by
  unfold Arr.seg
  simp only [Nat.zero_add]
  rw [List.countP_map, List.countP_eq_length_filter]
  rfl

/-- C13 for non-negative `int` keys. Missing: negative keys, for which it is false (`C13_refuted`). -/
theorem C13_partial : C13_statement (fun x => IsInt32 x ∧ 0 ≤ x) := by
  intro M hM data hcap hd hP
  obtain ⟨b, p, e, h1, h2, h3⟩ := findSplitKey_spec convInt M hM data hcap
    (fun i hi => convInt_roundtrip _ (hP i hi).1) (by
      intro i j hi hj
      have hi := hP i hi
      have hj := hP j hj
      unfold IsInt32 at hi hj
      unfold convInt
      simp only
      omega)
  refine ⟨b, p, e, h1, h2, h3, ?_⟩
  have hn : (data.seg 0 M).Nodup := by
    unfold Arr.seg
    apply List.Nodup.map_on _ List.nodup_range
    intro i hi j hj hij
    rw [List.mem_range] at hi hj
    rw [Nat.zero_add, Nat.zero_add] at hij
    exact hd i j hi hj hij
  have hc := h2.count_lt hn
  rw [count_seg] at hc
  have : BitmapSpec.members b = (Finset.range M).filter (fun i => data.get i < data.get p) := by
    ext i
    unfold BitmapSpec.members
    rw [Finset.mem_filter, Finset.mem_filter, Finset.mem_range]
    constructor
    · rintro ⟨hi, ht⟩
      rw [h3 i hi] at ht
      exact ⟨hi, by simpa using Res.ok.inj ht⟩
    · rintro ⟨hi, ht⟩
      exact ⟨hi, by rw [h3 i hi, decide_eq_true ht]⟩
  rw [this]
  omega

/-- C13 is false for `int` keys in general: with keys `-1, 5` the key `-1` is not marked as smaller
than the split key `5`. -/
theorem C13_refuted : ¬ C13_statement IsInt32 := by
  intro h
  have hd : ∀ i < 2, IsInt32 ((⟨2, fun i => [-1, 5].getD i 0⟩ : Arr Int).get i) := by
    intro i hi
    unfold IsInt32
    interval_cases i <;> decide
  obtain ⟨b, p, e, -, -, -, hc⟩ := h 2 (le_refl _) ⟨2, fun i => [-1, 5].getD i 0⟩ (le_refl _)
    (by intro i j hi hj hij; interval_cases i <;> interval_cases j <;> simp_all) hd
  have e2 : ((findSplitKey convInt 2 ⟨2, fun i => [-1, 5].getD i 0⟩).bind
      (fun r => .ok ((r.1.test 0), (r.1.test 1)))) = .ok (.ok false, .ok false) := by decide +kernel
  rw [e] at e2
  have e3 := Res.ok.inj e2
  have hm : BitmapSpec.members b = ∅ := by
    ext i
    unfold BitmapSpec.members
    simp only [Finset.mem_filter, Finset.mem_range, Finset.notMem_empty, iff_false]
    rintro ⟨hi, ht⟩
    have a0 := congrArg Prod.fst e3
    have a1 := congrArg Prod.snd e3
    simp only at a0 a1
    interval_cases i
    · rw [a0] at ht; exact absurd (Res.ok.inj ht) (by decide)
    · rw [a1] at ht; exact absurd (Res.ok.inj ht) (by decide)
  rw [hm] at hc
  exact absurd hc (by decide)

example : (findSplitKey convInt 5 ⟨5, fun i => [40, 10, 30, 20, 50].getD i 0⟩).bind
    (fun r => .ok (r.2, r.1.count)) = .ok (0, 3) := by decide +kernel

end Verif.SearchProps
