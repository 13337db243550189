import Verif.FPTree.Slots
import Verif.BTree.SortedLaws
import Verif.BTree.Erase

/-!
# The leaf operations of the FPTree on the sorted list of entries
-/

set_option linter.unusedSectionVars false

namespace Verif.FPTree

open Verif Search BTree Assoc

variable {K V : Type} {M : Nat} [LinearOrder K] [Inhabited K] {c : FCfg K V} {adm : K → Prop}

/-- What the key type has to satisfy on the admissible keys: conversion to `size_t` and back is the
identity and monotone, and the limits are bounds. -/
structure FLaws (c : FCfg K V) (adm : K → Prop) : Prop where
  conv : ∀ k, adm k → c.cv.ofSize (c.cv.toSize k) = k
  mono : ∀ a b, adm a → adm b → (c.cv.toSize a < c.cv.toSize b ↔ a < b)
  lim : ∀ k, adm k → c.lim.min ≤ k ∧ k ≤ c.lim.max

theorem rdA_ok {β : Type} {a : Nat → β} {i : Nat} (h : i < M) : rdA M a i = .ok (a i) := if_pos h

theorem mem_upsert_iff {k : K} {v : V} {l : List (K × V)} (hs : Sorted l) (e : K × V) :
    e ∈ upsert k v l ↔ e = (k, v) ∨ (e ∈ l ∧ e.1 ≠ k) := by
  obtain ⟨x, y⟩ := e
  rw [mem_iff_find (upsert_sorted hs), find_upsert]
  by_cases hx : x = k
  · subst hx
    simp [eq_comm]
  · rw [if_neg hx, ← mem_iff_find hs]
    simp [hx]

theorem mem_remove_iff {k : K} {l : List (K × V)} (e : K × V) :
    e ∈ remove k l ↔ e ∈ l ∧ e.1 ≠ k := by
  unfold remove
  rw [List.mem_filter]
  simp

/-! ## Search in a leaf -/

theorem posLoop_spec {l : FLeaf M K V} (h : FOk c.hash adm l) (k : K) : ∀ (n i : Nat), i + n = M →
    (∀ q, q < i → Bitmap.bit l.bits q = true → l.keys q ≠ k) →
    ∃ p, l.posLoop (c.hash k) k i n = .ok p ∧
      ((p < M ∧ Bitmap.bit l.bits p = true ∧ l.keys p = k) ∨
       (p = M ∧ ∀ q, q < M → Bitmap.bit l.bits q = true → l.keys q ≠ k))
  | 0, i, hi, hq => ⟨i, rfl, Or.inr ⟨by omega, fun q hq' => hq q (by omega)⟩⟩
  | n + 1, i, hi, hq => by
    have hiM : i < M := by omega
    have next : (Bitmap.bit l.bits i = true → l.keys i ≠ k) →
        ∃ p, l.posLoop (c.hash k) k (i + 1) n = .ok p ∧
        ((p < M ∧ Bitmap.bit l.bits p = true ∧ l.keys p = k) ∨
         (p = M ∧ ∀ q, q < M → Bitmap.bit l.bits q = true → l.keys q ≠ k)) := fun hn =>
      posLoop_spec h k n (i + 1) (by omega) (fun q hq' hb => by
        by_cases hqi : q = i
        · subst hqi; exact hn hb
        · exact hq q (by omega) hb)
    rw [FLeaf.posLoop, rdA_ok hiM, Res.ok_bind]
    by_cases hf : l.fp i = c.hash k
    · rw [if_pos hf, show l.bits.test i = .ok (Bitmap.bit l.bits i) from Bitmap.test_eq _ hiM, Res.ok_bind]
      by_cases hb : Bitmap.bit l.bits i = true
      · rw [if_pos hb, rdA_ok hiM, Res.ok_bind]
        by_cases hk : l.keys i = k
        · rw [if_pos hk]; exact ⟨i, rfl, Or.inl ⟨hiM, hb, hk⟩⟩
        · rw [if_neg hk]; exact next (fun _ => hk)
      · rw [if_neg hb]; exact next (fun hb' => absurd hb' hb)
    · rw [if_neg hf]
      exact next (fun hb hk => hf (by rw [h.fp i hiM hb, hk]))

theorem pos_spec {l : FLeaf M K V} (h : FOk c.hash adm l) (k : K) :
    ∃ p, l.pos c k = .ok p ∧
      ((p < M ∧ Bitmap.bit l.bits p = true ∧ l.keys p = k) ∨ (p = M ∧ ∀ e ∈ l.abs, e.1 ≠ k)) := by
  obtain ⟨p, e, h'⟩ := posLoop_spec h k M 0 (by omega) (by intro q hq; omega)
  refine ⟨p, e, ?_⟩
  rcases h' with h' | ⟨h1, h2⟩
  · exact Or.inl h'
  · refine Or.inr ⟨h1, fun e he => ?_⟩
    obtain ⟨q, hq, hb, rfl⟩ := mem_abs.1 he
    exact h2 q hq hb

theorem lookup_law {l : FLeaf M K V} (h : FOk c.hash adm l) (k : K) :
    l.lookup c k = .ok (find k l.abs) := by
  obtain ⟨p, e, h'⟩ := pos_spec h k
  unfold FLeaf.lookup
  rw [e, Res.ok_bind]
  rcases h' with ⟨h1, h2, h3⟩ | ⟨h1, h2⟩
  · rw [if_pos h1, rdA_ok h1, Res.ok_bind, find_of_mem h.sorted (v := l.vals p)]
    · rfl
    · rw [mem_abs]; exact ⟨p, h1, h2, by rw [h3]⟩
  · rw [if_neg (by omega), find_eq_none.2 h2]; rfl

/-! ## Extremal keys -/

theorem valid_iff {l : FLeaf M K V} (j : Fin M) :
    l.bits.test j = .ok true ↔ Bitmap.bit l.bits j = true := test_iff _ _ j.isLt

theorem maxPos_spec {l : FLeaf M K V} :
    ∃ p, l.maxPos c = .ok p ∧
      ((p < M ∧ Bitmap.bit l.bits p = true ∧ ∀ j, j < M → Bitmap.bit l.bits j = true → l.keys j ≤ l.keys p) ∨
       (p = 0 ∧ ∀ j, j < M → Bitmap.bit l.bits j = true → l.keys j ≤ c.lim.min)) := by
  obtain ⟨x, p, e, h⟩ := bits_search (fun i : Fin M => l.keys i) l.bits c.lim.min (fun _ => true)
    (fun a b => b < a) gt_htr (fun a => lt_irrefl a) (fun _ _ _ h1 h2 => lt_trans h2 h1)
    (fun i k cur => testAnd l.bits i (decide (cur < k))) (fun i k c => by simp)
  refine ⟨p, ?_, ?_⟩
  · unfold FLeaf.maxPos findMaxKeyPosBits
    simp only [e, Res.ok_bind, Res.pure_eq]
  · rcases h with ⟨h1, h2, h3⟩ | ⟨hp, h1, -, h3, -, h5⟩
    · exact Or.inr ⟨h2, fun j hj hb => not_lt.1 (h3 ⟨j, hj⟩ ((valid_iff ⟨j, hj⟩).2 hb) rfl)⟩
    · refine Or.inl ⟨hp, (valid_iff ⟨p, hp⟩).1 h1, fun j hj hb => ?_⟩
      have := h5 ⟨j, hj⟩ ((valid_iff ⟨j, hj⟩).2 hb) rfl
      rw [← h3] at this
      exact not_lt.1 this

theorem minPos_spec {l : FLeaf M K V} :
    ∃ p, l.minPos c = .ok p ∧
      ((p < M ∧ Bitmap.bit l.bits p = true ∧ ∀ j, j < M → Bitmap.bit l.bits j = true → l.keys p ≤ l.keys j) ∨
       (p = 0 ∧ ∀ j, j < M → Bitmap.bit l.bits j = true → c.lim.max ≤ l.keys j)) := by
  obtain ⟨x, p, e, h⟩ := bits_search (fun i : Fin M => l.keys i) l.bits c.lim.max (fun _ => true)
    (fun a b => a < b) lt_htr (fun a => lt_irrefl a) (fun _ _ _ h1 h2 => lt_trans h1 h2)
    (fun i k cur => testAnd l.bits i (decide (k < cur))) (fun i k c => by simp)
  refine ⟨p, ?_, ?_⟩
  · unfold FLeaf.minPos findMinKeyPosBits
    simp only [e, Res.ok_bind, Res.pure_eq]
  · rcases h with ⟨h1, h2, h3⟩ | ⟨hp, h1, -, h3, -, h5⟩
    · exact Or.inr ⟨h2, fun j hj hb => not_lt.1 (h3 ⟨j, hj⟩ ((valid_iff ⟨j, hj⟩).2 hb) rfl)⟩
    · refine Or.inl ⟨hp, (valid_iff ⟨p, hp⟩).1 h1, fun j hj hb => ?_⟩
      have := h5 ⟨j, hj⟩ ((valid_iff ⟨j, hj⟩).2 hb) rfl
      rw [← h3] at this
      exact not_lt.1 this

/-- With two or more entries the largest one is found. -/
theorem maxPos_two (F : FLaws c adm) {l : FLeaf M K V} (h : FOk c.hash adm l) {es : List (K × V)} {x : K × V}
    (he : l.abs = es ++ [x]) (h2 : 1 ≤ es.length) :
    ∃ p, l.maxPos c = .ok p ∧ p < M ∧ Bitmap.bit l.bits p = true ∧ (l.keys p, l.vals p) = x := by
  have hs := h.sorted
  obtain ⟨p, e, h'⟩ := maxPos_spec (c := c) (l := l)
  obtain ⟨q, hq, hqb, hqx⟩ := mem_abs.1 (show x ∈ l.abs by rw [he]; simp)
  obtain ⟨y, hy⟩ := List.exists_mem_of_length_pos h2
  obtain ⟨r, hr, hrb, hry⟩ := mem_abs.1 (show y ∈ l.abs by rw [he]; simp [hy])
  rw [he, sorted_append] at hs
  have hlt := hs.2.2 y hy x (by simp)
  rcases h' with ⟨h1, h2, h3⟩ | ⟨h1, h2⟩
  · refine ⟨p, e, h1, h2, ?_⟩
    have hm : (l.keys p, l.vals p) ∈ l.abs := mem_abs.2 ⟨p, h1, h2, rfl⟩
    rw [he, List.mem_append, List.mem_singleton] at hm
    rcases hm with hm | hm
    · have a := hs.2.2 _ hm x (by simp)
      have b := h3 q hq hqb
      rw [hqx] at a
      exact absurd a (not_lt.2 b)
    · exact hm
  · exfalso
    have a := h2 q hq hqb
    have b := (F.lim _ (h.adm r hr hrb)).1
    rw [hqx, hry] at hlt
    exact absurd (lt_of_le_of_lt b hlt) (not_lt.2 a)

/-- The smallest entry is found if there are two or more, or if it is not the largest possible key. -/
theorem minPos_two (F : FLaws c adm) {l : FLeaf M K V} (h : FOk c.hash adm l) {es : List (K × V)} {x : K × V}
    (he : l.abs = x :: es) (h2 : 1 ≤ es.length ∨ x.1 < c.lim.max) :
    ∃ p, l.minPos c = .ok p ∧ p < M ∧ Bitmap.bit l.bits p = true ∧ (l.keys p, l.vals p) = x := by
  have hs := h.sorted
  obtain ⟨p, e, h'⟩ := minPos_spec (c := c) (l := l)
  obtain ⟨q, hq, hqb, hqx⟩ := mem_abs.1 (show x ∈ l.abs by rw [he]; simp)
  rw [he, Sorted, List.pairwise_cons] at hs
  rcases h' with ⟨h1, h2, h3⟩ | ⟨h1, h2'⟩
  · refine ⟨p, e, h1, h2, ?_⟩
    have hm : (l.keys p, l.vals p) ∈ l.abs := mem_abs.2 ⟨p, h1, h2, rfl⟩
    rw [he, List.mem_cons] at hm
    rcases hm with hm | hm
    · exact hm
    · have a := hs.1 _ hm
      have b := h3 q hq hqb
      rw [hqx] at a
      exact absurd a (not_lt.2 b)
  · exfalso
    have a := h2' q hq hqb
    rcases h2 with h2 | h2
    · obtain ⟨y, hy⟩ := List.exists_mem_of_length_pos h2
      obtain ⟨r, hr, hrb, hry⟩ := mem_abs.1 (show y ∈ l.abs by rw [he]; simp [hy])
      have hlt := hs.1 y hy
      have b := (F.lim _ (h.adm r hr hrb)).2
      rw [hqx, hry] at hlt
      exact absurd (lt_of_lt_of_le hlt b) (not_lt.2 a)
    · rw [hqx] at h2
      exact absurd h2 (not_lt.2 a)

/-! ## Split -/

theorem new_ok (hash : K → Nat) : FOk hash adm (FLeaf.new c M) ∧ (FLeaf.new c M).abs = [] := by
  have hb : ∀ p, Bitmap.bit (FLeaf.new c M).bits p = false := by
    intro p; simp [FLeaf.new, Bitmap.fresh, Bitmap.bit]
  refine ⟨⟨Bitmap.clean_fresh, ?_, ?_, ?_⟩, ?_⟩
  · intro i j _ _ h; rw [hb] at h; exact absurd h (by decide)
  · intro i _ h; rw [hb] at h; exact absurd h (by decide)
  · intro i _ h; rw [hb] at h; exact absurd h (by decide)
  · rw [List.eq_nil_iff_forall_not_mem]
    intro e he
    obtain ⟨p, _, h, _⟩ := mem_abs.1 he
    rw [hb] at h; exact absurd h (by decide)

/-- The node after slots below `i` have been processed. -/
def Part (sk : K) (l : FLeaf M K V) (i : Nat) (l' : FLeaf M K V) : Prop :=
  l'.keys = l.keys ∧ l'.vals = l.vals ∧ l'.fp = l.fp ∧
  ∀ q, q < M → (Bitmap.bit l'.bits q = true ↔ (Bitmap.bit l.bits q = true ∧ ¬ (q < i ∧ sk ≤ l.keys q)))

theorem splitLoop_spec (sk : K) {l : FLeaf M K V} (h : FOk c.hash adm l)
    (hfull : ∀ p, p < M → Bitmap.bit l.bits p = true) : ∀ (n i j : Nat) (l1 s1 : FLeaf M K V),
    i + n = M → j ≤ i → FOk c.hash adm l1 → FOk c.hash adm s1 → Part sk l i l1 →
    (∀ q, q < M → (Bitmap.bit s1.bits q = true ↔ q < j)) →
    (∀ e, e ∈ s1.abs ↔ ∃ q, q < i ∧ sk ≤ l.keys q ∧ e = (l.keys q, l.vals q)) →
    ∃ a b, FLeaf.splitLoop sk i j l1 s1 n = .ok (a, b) ∧ FOk c.hash adm a ∧ FOk c.hash adm b ∧ Part sk l M a ∧
      (∀ e, e ∈ b.abs ↔ ∃ q, q < M ∧ sk ≤ l.keys q ∧ e = (l.keys q, l.vals q))
  | 0, i, j, l1, s1, hi, hj, h1, h2, hp, hs, hm => by
    have : i = M := by omega
    subst this
    exact ⟨l1, s1, rfl, h1, h2, hp, hm⟩
  | n + 1, i, j, l1, s1, hi, hj, h1, h2, ⟨hk, hv, hf, hb⟩, hs, hm => by
    have hiM : i < M := by omega
    rw [FLeaf.splitLoop, rdA_ok hiM, Res.ok_bind, hk]
    by_cases hsk : sk ≤ l.keys i
    · rw [if_pos hsk, hv, rdA_ok hiM, Res.ok_bind, hf, rdA_ok hiM, Res.ok_bind, h.fp i hiM (hfull i hiM)]
      have hjb : Bitmap.bit s1.bits j = false := by
        by_contra hc
        have := (hs j (by omega)).1 (by simpa using hc)
        omega
      obtain ⟨s2, e2, ok2, perm2, _, bits2⟩ := fill_ok h2 (p := j) (by omega) hjb (k := l.keys i) (by
        intro e he hke
        obtain ⟨q, hq, _, rfl⟩ := (hm e).1 he
        have := h.inj q i (by omega) hiM (hfull q (by omega)) (hfull i hiM) hke
        omega) (h.adm i hiM (hfull i hiM)) (l.vals i)
      rw [e2, Res.ok_bind]
      have hbi : Bitmap.bit l1.bits i = true := (hb i hiM).2 ⟨hfull i hiM, by omega⟩
      obtain ⟨b3, e3, ok3, _, bits3⟩ := reset_ok h1 hiM hbi
      rw [e3, Res.ok_bind]
      refine splitLoop_spec sk h hfull n (i + 1) (j + 1) _ s2 (by omega) (by omega) (by
        rw [hk, hv, hf] at ok3; exact ok3) ok2 ⟨rfl, rfl, rfl, ?_⟩ ?_ ?_
      · intro q hq
        rw [bits3 q hq]
        by_cases hqi : q = i
        · subst hqi
          rw [if_pos rfl]
          constructor
          · intro h; exact absurd h (by decide)
          · rintro ⟨_, h⟩; exact absurd ⟨by omega, hsk⟩ h
        · rw [if_neg hqi, hb q hq]
          have : q < i + 1 ↔ q < i := by omega
          rw [this]
      · intro q hq
        rw [bits2 q hq]
        by_cases hqj : q = j
        · rw [if_pos hqj]; simp; omega
        · rw [if_neg hqj, hs q hq]; omega
      · intro e
        rw [perm2.mem_iff, List.mem_cons, hm e]
        constructor
        · rintro (rfl | ⟨q, hq, h⟩)
          · exact ⟨i, by omega, hsk, rfl⟩
          · exact ⟨q, by omega, h⟩
        · rintro ⟨q, hq, h4, h5⟩
          by_cases hqi : q = i
          · subst hqi; exact Or.inl h5
          · exact Or.inr ⟨q, by omega, h4, h5⟩
    · rw [if_neg hsk]
      refine splitLoop_spec sk h hfull n (i + 1) j l1 s1 (by omega) (by omega) h1 h2 ⟨hk, hv, hf, ?_⟩ hs ?_
      · intro q hq
        rw [hb q hq]
        constructor
        · rintro ⟨a, b⟩
          refine ⟨a, fun ⟨x, y⟩ => ?_⟩
          by_cases hqi : q = i
          · subst hqi; exact hsk y
          · exact b ⟨by omega, y⟩
        · rintro ⟨a, b⟩; exact ⟨a, fun ⟨x, y⟩ => b ⟨by omega, y⟩⟩
      · intro e
        rw [hm e]
        constructor
        · rintro ⟨q, hq, h⟩; exact ⟨q, by omega, h⟩
        · rintro ⟨q, hq, h4, h5⟩
          by_cases hqi : q = i
          · subst hqi; exact absurd h4 hsk
          · exact ⟨q, by omega, h4, h5⟩

theorem entsFrom_full {l : FLeaf M K V} : ∀ (n i : Nat), i + n ≤ M →
    (∀ p, p < M → Bitmap.bit l.bits p = true) →
    (entsFrom l i n).map Prod.fst = (List.range n).map (fun q => l.keys (i + q))
  | 0, _, _, _ => rfl
  | n + 1, i, hi, hf => by
    rw [entsFrom, if_pos (hf i (by omega)), List.map_cons, entsFrom_full n (i + 1) (by omega) hf,
      List.range_succ_eq_map, List.map_cons, List.map_map]
    simp only [Nat.add_zero, List.cons.injEq, true_and]
    apply List.map_congr_left
    intro q _
    simp only [Function.comp]
    rw [show i + 1 + q = i + (q + 1) by omega]

theorem filter_length_eq {l : FLeaf M K V} (hfull : ∀ p, p < M → Bitmap.bit l.bits p = true) (sk : K) :
    (l.abs.filter (fun e => e.1 < sk)).length =
      (((⟨M, l.keys⟩ : Arr K).seg 0 M).countP (fun x => decide (x < sk))) := by
  rw [((abs_perm l).filter _).length_eq, ← List.countP_eq_length_filter]
  have := entsFrom_full (l := l) M 0 (by omega) hfull
  unfold ents Arr.seg
  rw [← this, List.countP_map]
  rfl

theorem sorted_filter {l : List (K × V)} (h : Sorted l) (p : K × V → Bool) : Sorted (l.filter p) :=
  List.Pairwise.filter _ h

theorem split_law (F : FLaws c adm) (hM : 2 ≤ M) {l : FLeaf M K V} (h : FOk c.hash adm l)
    (hfull : ∀ p, p < M → Bitmap.bit l.bits p = true) :
    ∃ a b sk, l.split c = .ok (a, b, sk) ∧ FOk c.hash adm a ∧ FOk c.hash adm b ∧
      a.abs = l.abs.filter (fun e => e.1 < sk) ∧ b.abs = l.abs.filter (fun e => sk ≤ e.1) ∧
      a.abs.length = (M + 1) / 2 ∧ b.abs.length = M / 2 ∧ a.keys = l.keys ∧
      (∀ q, q < M → (Bitmap.bit a.bits q = true ↔ l.keys q < sk)) := by
  have hadm : ∀ i, i < M → adm (l.keys i) := fun i hi => h.adm i hi (hfull i hi)
  obtain ⟨bm, p, e, hp, hkth, _⟩ := findSplitKey_spec c.cv M hM ⟨M, l.keys⟩ le_rfl
    (fun i hi => F.conv _ (hadm i hi)) (fun i j hi hj => F.mono _ _ (hadm i hi) (hadm j hj))
  unfold FLeaf.split
  rw [e, Res.ok_bind, rdA_ok hp, Res.ok_bind]
  obtain ⟨hnew, hnil⟩ := new_ok (c := c) (M := M) (adm := adm) c.hash
  obtain ⟨a, b, e2, oka, okb, ⟨hk, hv, hf, hbits⟩, hmb⟩ := splitLoop_spec (l.keys p) h hfull M 0 0 l
    (FLeaf.new c M) (by omega) le_rfl h hnew ⟨rfl, rfl, rfl, fun q hq => by simp⟩
    (fun q _ => by simp [FLeaf.new, Bitmap.fresh, Bitmap.bit]) (fun e => by rw [hnil]; simp)
  rw [e2, Res.ok_bind]
  have hba : ∀ q, q < M → (Bitmap.bit a.bits q = true ↔ l.keys q < l.keys p) := by
    intro q hq
    rw [hbits q hq]
    constructor
    · rintro ⟨_, hn⟩; exact not_le.1 (fun hle => hn ⟨hq, hle⟩)
    · intro hlt; exact ⟨hfull q hq, fun ⟨_, hle⟩ => absurd hlt (not_lt.2 hle)⟩
  have ea : a.abs = l.abs.filter (fun e => e.1 < l.keys p) := by
    apply sorted_ext oka.sorted (sorted_filter h.sorted _)
    intro e
    rw [mem_abs, List.mem_filter, mem_abs, hk, hv]
    constructor
    · rintro ⟨q, hq, hb, rfl⟩
      exact ⟨⟨q, hq, hfull q hq, rfl⟩, by simpa using (hba q hq).1 hb⟩
    · rintro ⟨⟨q, hq, _, rfl⟩, hlt⟩
      exact ⟨q, hq, (hba q hq).2 (by simpa using hlt), rfl⟩
  have eb : b.abs = l.abs.filter (fun e => l.keys p ≤ e.1) := by
    apply sorted_ext okb.sorted (sorted_filter h.sorted _)
    intro e
    rw [hmb, List.mem_filter, mem_abs]
    constructor
    · rintro ⟨q, hq, hle, rfl⟩
      exact ⟨⟨q, hq, hfull q hq, rfl⟩, by simpa using hle⟩
    · rintro ⟨⟨q, hq, _, rfl⟩, hle⟩
      exact ⟨q, hq, by simpa using hle, rfl⟩
  have hn : ((⟨M, l.keys⟩ : Arr K).seg 0 M).Nodup := by
    unfold Arr.seg
    apply List.Nodup.map_on _ List.nodup_range
    intro i hi j hj hij
    rw [List.mem_range] at hi hj
    rw [Nat.zero_add, Nat.zero_add] at hij
    exact h.inj i j hi hj (hfull i hi) (hfull j hj) hij
  have hcnt : ((⟨M, l.keys⟩ : Arr K).seg 0 M).countP (fun x => decide (x < l.keys p)) + 1 = (M + 1) / 2 + 1 :=
    hkth.count_lt hn
  have hla : a.abs.length = (M + 1) / 2 := by
    rw [ea, filter_length_eq hfull]
    omega
  have hll : l.abs.length = M := by
    rw [abs_length]
    have : BitmapSpec.members l.bits = Finset.range M := by
      ext p; rw [Bitmap.mem_members, Finset.mem_range]
      exact ⟨fun h => h.1, fun hp => ⟨hp, hfull p hp⟩⟩
    rw [this, Finset.card_range]
  have hlb : b.abs.length = M / 2 := by
    have h1 := List.length_eq_length_filter_add (l := l.abs) (fun e => decide (e.1 < l.keys p))
    have h2 : l.abs.filter (fun e => l.keys p ≤ e.1) = l.abs.filter (fun e => !decide (e.1 < l.keys p)) := by
      apply List.filter_congr
      intro e _
      rw [← decide_not]
      simp
    rw [eb, h2]
    rw [ea] at hla
    omega
  exact ⟨a, b, _, rfl, oka, okb, ea, eb, hla, hlb, hk, hba⟩

/-! ## Insert -/

theorem upsert_absent_perm {k : K} {v : V} {l : List (K × V)} (hs : Sorted l) (h : ∀ e ∈ l, e.1 ≠ k) :
    ∀ e, e ∈ upsert k v l ↔ e ∈ (k, v) :: l := by
  intro e
  rw [mem_upsert_iff hs, List.mem_cons]
  constructor
  · rintro (h | h)
    · exact Or.inl h
    · exact Or.inr h.1
  · rintro (h' | h')
    · exact Or.inl h'
    · exact Or.inr ⟨h', h e h'⟩

/-- Insertion into a leaf with a free slot. -/
theorem insertAt_law {l : FLeaf M K V} (h : FOk c.hash adm l) (hl : l.abs.length < M) {k : K}
    (hk : ∀ e ∈ l.abs, e.1 ≠ k) (ha : adm k) (v : V) :
    ∃ l', l.insertAt c l.bits.getFreeZero k v = .ok l' ∧ FOk c.hash adm l' ∧ l'.abs = upsert k v l.abs := by
  obtain ⟨hp, hb⟩ := free_slot hl
  obtain ⟨l', e, ok, perm, _⟩ := fill_ok h hp hb hk ha v
  refine ⟨l', ?_, ok, ?_⟩
  · unfold FLeaf.insertAt
    rw [Res.assert_pos hp, Res.ok_bind, e]
  · apply sorted_ext ok.sorted (upsert_sorted h.sorted)
    intro x
    rw [perm.mem_iff, upsert_absent_perm h.sorted hk]

theorem insert_law (F : FLaws c adm) (hM : 2 ≤ M) {l : FLeaf M K V} (h : FOk c.hash adm l) {k : K}
    (ha : adm k) (v : V) :
    (∃ l', l.insert c k v = .ok (.done l') ∧ FOk c.hash adm l' ∧ l'.abs = upsert k v l.abs) ∨
    (∃ a b s, l.insert c k v = .ok (.split a b s) ∧ FOk c.hash adm a ∧ FOk c.hash adm b ∧
      a.abs ++ b.abs = upsert k v l.abs ∧ (∀ e ∈ a.abs, e.1 < s) ∧ (∀ e ∈ b.abs, s ≤ e.1) ∧
      M / 2 ≤ a.abs.length ∧ M / 2 ≤ b.abs.length) := by
  obtain ⟨p, e, h'⟩ := pos_spec h k
  unfold FLeaf.insert
  rw [e, Res.ok_bind]
  rcases h' with ⟨h1, h2, h3⟩ | ⟨h1, hne⟩
  · -- overwrite
    left
    rw [if_pos h1]
    have hok : FOk c.hash adm ({ l with vals := upd l.vals p v } : FLeaf M K V) :=
      ⟨h.clean, h.inj, h.fp, h.adm⟩
    refine ⟨_, rfl, hok, ?_⟩
    apply sorted_ext hok.sorted (upsert_sorted h.sorted)
    intro x
    rw [mem_upsert_iff h.sorted, mem_abs, mem_abs]
    simp only [upd]
    constructor
    · rintro ⟨q, hq, hb, rfl⟩
      by_cases hqp : q = p
      · subst hqp; left; rw [if_pos rfl, h3]
      · right
        rw [if_neg hqp]
        exact ⟨⟨q, hq, hb, rfl⟩, fun hk => hqp (h.inj q p hq h1 hb h2 (by rw [h3]; exact hk))⟩
    · rintro (rfl | ⟨⟨q, hq, hb, rfl⟩, hk⟩)
      · exact ⟨p, h1, h2, by rw [if_pos rfl, h3]⟩
      · have hqp : q ≠ p := by rintro rfl; exact hk h3
        exact ⟨q, hq, hb, by rw [if_neg hqp]⟩
  · rw [if_neg (by omega)]
    by_cases hfz : l.bits.getFreeZero = M
    · right
      rw [if_pos hfz]
      have hfull : ∀ q, q < M → Bitmap.bit l.bits q = true := by
        rcases Bitmap.getFreeZero_spec l.bits with ⟨h4, _⟩ | ⟨_, h4⟩
        · omega
        · exact h4
      obtain ⟨a, b, sk, e2, oka, okb, ea, eb, la, lb, hka, hba⟩ := split_law F hM h hfull
      rw [e2, Res.ok_bind]
      have hna : ∀ e ∈ a.abs, e.1 ≠ k := fun e he => hne e (by rw [ea] at he; exact (List.mem_filter.1 he).1)
      have hnb : ∀ e ∈ b.abs, e.1 ≠ k := fun e he => hne e (by rw [eb] at he; exact (List.mem_filter.1 he).1)
      have hla : ∀ e ∈ a.abs, e.1 < sk := fun e he => by
        rw [ea] at he; simpa using (List.mem_filter.1 he).2
      have hlb : ∀ e ∈ b.abs, sk ≤ e.1 := fun e he => by
        rw [eb] at he; simpa using (List.mem_filter.1 he).2
      have hmem : ∀ e, e ∈ l.abs ↔ e ∈ a.abs ∨ e ∈ b.abs := by
        intro e
        rw [ea, eb, List.mem_filter, List.mem_filter]
        simp only [decide_eq_true_eq]
        constructor
        · intro he
          rcases lt_or_ge e.1 sk with h | h
          · exact Or.inl ⟨he, h⟩
          · exact Or.inr ⟨he, h⟩
        · rintro (h | h) <;> exact h.1
      have hM1 : (M + 1) / 2 < M := by omega
      by_cases hlt : sk < k
      · rw [if_pos hlt]
        obtain ⟨s, e3, oks, es⟩ := insertAt_law okb (by omega) hnb ha v
        rw [e3, Res.ok_bind]
        refine ⟨a, s, sk, rfl, oka, oks, ?_, hla, ?_, by omega, ?_⟩
        · apply sorted_ext _ (upsert_sorted h.sorted)
          · intro e
            rw [List.mem_append, es, mem_upsert_iff okb.sorted, mem_upsert_iff h.sorted, hmem]
            constructor
            · rintro (h | h | h)
              · exact Or.inr ⟨Or.inl h, hna e h⟩
              · exact Or.inl h
              · exact Or.inr ⟨Or.inr h.1, h.2⟩
            · rintro (h | ⟨h | h, h'⟩)
              · exact Or.inr (Or.inl h)
              · exact Or.inl h
              · exact Or.inr (Or.inr ⟨h, h'⟩)
          · rw [sorted_append]
            refine ⟨oka.sorted, oks.sorted, fun x hx y hy => ?_⟩
            rw [es, mem_upsert_iff okb.sorted] at hy
            rcases hy with rfl | hy
            · exact lt_trans (hla x hx) hlt
            · exact lt_of_lt_of_le (hla x hx) (hlb y hy.1)
        · intro x hx
          rw [es, mem_upsert_iff okb.sorted] at hx
          rcases hx with rfl | hx
          · exact hlt.le
          · exact hlb x hx.1
        · rw [es]
          rcases upsert_length (k := k) (v := v) (l := b.abs) with h | h <;> omega
      · rw [if_neg hlt]
        have hksk : k < sk := by
          refine lt_of_le_of_ne (not_lt.1 hlt) (fun hke => ?_)
          -- sk is a stored key
          obtain ⟨x, hx⟩ := List.exists_mem_of_length_pos (show 0 < b.abs.length by omega)
          have : ∃ q, q < M ∧ l.keys q = sk := by
            unfold FLeaf.split at e2
            obtain ⟨r, e4, e5⟩ := Res.bind_eq_ok.1 e2
            obtain ⟨sk', e6, e7⟩ := Res.bind_eq_ok.1 e5
            obtain ⟨ls, e8, e9⟩ := Res.bind_eq_ok.1 e7
            have e10 := Res.ok.inj e9
            have e11 : sk' = sk := congrArg (fun t => t.2.2) e10
            unfold rdA at e6
            split at e6
            · rename_i hr
              exact ⟨r.2, hr, by rw [← e11]; exact Res.ok.inj e6⟩
            · exact absurd e6 (by simp)
          obtain ⟨q, hq, hqs⟩ := this
          exact hne (l.keys q, l.vals q) (mem_abs.2 ⟨q, hq, hfull q hq, rfl⟩) (by rw [hke]; exact hqs)
        obtain ⟨mp, e3, hmp⟩ := maxPos_spec (c := c) (l := a)
        rw [e3, Res.ok_bind]
        have hmpM : mp < M := by
          rcases hmp with h | h <;> omega
        rw [rdA_ok hmpM, Res.ok_bind]
        by_cases hmx : a.keys mp < k
        · rw [if_pos hmx]
          obtain ⟨s, e3, oks, es⟩ := insertAt_law okb (by omega) hnb ha v
          rw [e3, Res.ok_bind]
          have hak : ∀ e ∈ a.abs, e.1 < k := by
            intro x hx
            obtain ⟨q, hq, hb, rfl⟩ := mem_abs.1 hx
            rcases hmp with ⟨_, _, h3⟩ | ⟨h0, h3⟩
            · exact lt_of_le_of_lt (h3 q hq hb) hmx
            · refine lt_of_le_of_ne (le_trans (h3 q hq hb) (F.lim k ha).1) (hna _ hx)
          refine ⟨a, s, k, rfl, oka, oks, ?_, hak, ?_, by omega, ?_⟩
          · apply sorted_ext _ (upsert_sorted h.sorted)
            · intro e
              rw [List.mem_append, es, mem_upsert_iff okb.sorted, mem_upsert_iff h.sorted, hmem]
              constructor
              · rintro (h | h | h)
                · exact Or.inr ⟨Or.inl h, hna e h⟩
                · exact Or.inl h
                · exact Or.inr ⟨Or.inr h.1, h.2⟩
              · rintro (h | ⟨h | h, h'⟩)
                · exact Or.inr (Or.inl h)
                · exact Or.inl h
                · exact Or.inr (Or.inr ⟨h, h'⟩)
            · rw [sorted_append]
              refine ⟨oka.sorted, oks.sorted, fun x hx y hy => ?_⟩
              rw [es, mem_upsert_iff okb.sorted] at hy
              rcases hy with rfl | hy
              · exact hak x hx
              · exact lt_of_lt_of_le (hla x hx) (hlb y hy.1)
          · intro x hx
            rw [es, mem_upsert_iff okb.sorted] at hx
            rcases hx with rfl | hx
            · exact le_rfl
            · exact le_trans hksk.le (hlb x hx.1)
          · rw [es]
            rcases upsert_length (k := k) (v := v) (l := b.abs) with h | h <;> omega
        · rw [if_neg hmx]
          obtain ⟨s, e3, oks, es⟩ := insertAt_law oka (by omega) hna ha v
          rw [e3, Res.ok_bind]
          refine ⟨s, b, sk, rfl, oks, okb, ?_, ?_, hlb, ?_, by omega⟩
          · apply sorted_ext _ (upsert_sorted h.sorted)
            · intro e
              rw [List.mem_append, es, mem_upsert_iff oka.sorted, mem_upsert_iff h.sorted, hmem]
              constructor
              · rintro ((h | h) | h)
                · exact Or.inl h
                · exact Or.inr ⟨Or.inl h.1, h.2⟩
                · exact Or.inr ⟨Or.inr h, hnb e h⟩
              · rintro (h | ⟨h | h, h'⟩)
                · exact Or.inl (Or.inl h)
                · exact Or.inl (Or.inr ⟨h, h'⟩)
                · exact Or.inr h
            · rw [sorted_append]
              refine ⟨oks.sorted, okb.sorted, fun x hx y hy => ?_⟩
              rw [es, mem_upsert_iff oka.sorted] at hx
              rcases hx with rfl | hx
              · exact lt_of_lt_of_le hksk (hlb y hy)
              · exact lt_of_lt_of_le (hla x hx.1) (hlb y hy)
          · intro x hx
            rw [es, mem_upsert_iff oka.sorted] at hx
            rcases hx with rfl | hx
            · exact hksk
            · exact hla x hx.1
          · rw [es]
            rcases upsert_length (k := k) (v := v) (l := a.abs) with h | h <;> omega
    · left
      rw [if_neg hfz]
      have hlen : l.abs.length < M := by
        by_contra hge
        exact hfz (free_full h.clean (full_of_length (by omega)))
      obtain ⟨l', e3, ok, es⟩ := insertAt_law h hlen hne ha v
      rw [e3, Res.ok_bind]
      exact ⟨l', rfl, ok, es⟩

/-- The leaf laws of the FPTree. -/
def fpLaws (F : FLaws c adm) (hM : 2 ≤ M) : Laws (fpOps c M) where
  abs := FLeaf.abs
  ok := FOk c.hash adm
  lmin := M / 2
  adm := adm
  lmin_pos := by omega
  sorted := fun _ h => h.sorted
  cap := fun l _ => abs_cap l
  num_eq := fun _ h => h.count
  empty_ok := (new_ok c.hash).1
  empty_abs := (new_ok (adm := adm) c.hash).2
  lookup := fun _ k h => lookup_law h k
  insert := fun _ _ v h ha => insert_law F hM h ha v
  search := fun _ _ _ _ hr hc hs h1 h2 => binary_search_branch_law hr hc hs h1 h2

end Verif.FPTree
