import Verif.BitTree.Model
import Verif.FPTree.Slots
import Verif.Search.SplitKey
import Verif.Search.Best

/-!
# Leaves of the bitmap trees: search, insertion, split
-/

set_option linter.unusedSectionVars false

namespace Verif.BitTree

open Verif Search FPTree BTree

variable {K V : Type} {M : Nat} [LinearOrder K] [Inhabited K] {c : Cfg K V} {adm : K → Prop}

/-- What the key type has to satisfy on the admissible keys: conversion to `size_t` and back is the
identity and monotone, and the keys lie strictly between the limits. -/
structure Laws (c : Cfg K V) (adm : K → Prop) : Prop where
  conv : ∀ k, adm k → c.cv.ofSize (c.cv.toSize k) = k
  mono : ∀ a b, adm a → adm b → (c.cv.toSize a < c.cv.toSize b ↔ a < b)
  lim : ∀ k, adm k → c.lim.min < k ∧ k < c.lim.max

theorem rdA_ok {β : Type} {n : Nat} {a : Nat → β} {i : Nat} (h : i < n) : rdA n a i = .ok (a i) := if_pos h

/-- Entries of a leaf. -/
def Has (l : Leaf M K V) (k : K) (v : V) : Prop :=
  ∃ p, p < M ∧ Bitmap.bit l.bits p = true ∧ l.keys p = k ∧ l.vals p = v

/-- Well-formed leaves. -/
structure LOk (l : Leaf M K V) : Prop where
  clean : Bitmap.Clean l.bits
  inj : ∀ i j, i < M → j < M → Bitmap.bit l.bits i = true → Bitmap.bit l.bits j = true →
    l.keys i = l.keys j → i = j

theorem Has.uniq {l : Leaf M K V} (h : LOk l) {k : K} {v w : V} (h1 : Has l k v) (h2 : Has l k w) : v = w := by
  obtain ⟨p, hp, hb, hk, hv⟩ := h1
  obtain ⟨q, hq, hb', hk', hv'⟩ := h2
  have := h.inj p q hp hq hb hb' (hk.trans hk'.symm)
  subst this; exact hv.symm.trans hv'

theorem bit_fresh (p : Nat) : Bitmap.bit (Bitmap.fresh M) p = false := by
  unfold Bitmap.bit Bitmap.fresh; simp

theorem lok_new (c : Cfg K V) : LOk (Leaf.new c M) :=
  ⟨Bitmap.clean_fresh, fun i j _ _ h => by rw [Leaf.new, bit_fresh] at h; cases h⟩

theorem has_new (c : Cfg K V) (k : K) (v : V) : ¬ Has (Leaf.new c M) k v := by
  rintro ⟨p, _, h, _⟩; rw [Leaf.new, bit_fresh] at h; cases h

/-! ## Search -/

theorem posLoop_spec (l : Leaf M K V) (k : K) : ∀ (n i : Nat), i + n = M →
    (∀ q, q < i → Bitmap.bit l.bits q = true → l.keys q ≠ k) →
    ∃ p, l.posLoop k i n = .ok p ∧
      ((p < M ∧ Bitmap.bit l.bits p = true ∧ l.keys p = k) ∨
       (p = M ∧ ∀ q, q < M → Bitmap.bit l.bits q = true → l.keys q ≠ k))
  | 0, i, hi, hq => ⟨i, rfl, Or.inr ⟨by omega, fun q hq' => hq q (by omega)⟩⟩
  | n + 1, i, hi, hq => by
    have hiM : i < M := by omega
    have next : (Bitmap.bit l.bits i = true → l.keys i ≠ k) →
        ∃ p, l.posLoop k (i + 1) n = .ok p ∧
        ((p < M ∧ Bitmap.bit l.bits p = true ∧ l.keys p = k) ∨
         (p = M ∧ ∀ q, q < M → Bitmap.bit l.bits q = true → l.keys q ≠ k)) := fun hn =>
      posLoop_spec l k n (i + 1) (by omega) (fun q hq' hb => by
        by_cases hqi : q = i
        · subst hqi; exact hn hb
        · exact hq q (by omega) hb)
    rw [Leaf.posLoop, show l.bits.test i = .ok (Bitmap.bit l.bits i) from Bitmap.test_eq _ hiM, Res.ok_bind]
    by_cases hb : Bitmap.bit l.bits i = true
    · rw [if_pos hb, rdA_ok hiM, Res.ok_bind]
      by_cases hk : l.keys i = k
      · rw [if_pos hk]; exact ⟨i, rfl, Or.inl ⟨hiM, hb, hk⟩⟩
      · rw [if_neg hk]; exact next (fun _ => hk)
    · rw [if_neg hb]; exact next (fun hb' => absurd hb' hb)

theorem pos_spec (l : Leaf M K V) (k : K) : ∃ p, l.pos k = .ok p ∧
    ((p < M ∧ Bitmap.bit l.bits p = true ∧ l.keys p = k) ∨ (p = M ∧ ∀ v, ¬ Has l k v)) := by
  obtain ⟨p, e, h⟩ := posLoop_spec l k M 0 (by omega) (by omega)
  refine ⟨p, e, ?_⟩
  rcases h with h | ⟨h1, h2⟩
  · exact Or.inl h
  · exact Or.inr ⟨h1, fun v ⟨q, hq, hb, hk, _⟩ => h2 q hq hb hk⟩

theorem lookup_law {l : Leaf M K V} (h : LOk l) (k : K) :
    ∃ r, l.lookup k = .ok r ∧ ∀ v, r = some v ↔ Has l k v := by
  obtain ⟨p, e, h'⟩ := pos_spec l k
  unfold Leaf.lookup
  rw [e, Res.ok_bind]
  rcases h' with ⟨h1, h2, h3⟩ | ⟨h1, h2⟩
  · rw [if_pos h1, rdA_ok h1]
    refine ⟨some (l.vals p), rfl, fun v => ?_⟩
    have hh : Has l k (l.vals p) := ⟨p, h1, h2, h3, rfl⟩
    constructor
    · intro e; rw [← Option.some.inj e]; exact hh
    · intro hv; rw [hh.uniq h hv]
  · rw [if_neg (by omega)]
    exact ⟨none, rfl, fun v => ⟨fun e => (by cases e), fun hv => absurd hv (h2 v)⟩⟩

theorem test_iff' (b : Bitmap M) (j : Fin M) : b.test j = .ok true ↔ Bitmap.bit b j = true :=
  Search.test_iff _ _ j.isLt

theorem maxPos_spec (F : Laws c adm) {l : Leaf M K V} {q : Nat} (hq : q < M)
    (hb : Bitmap.bit l.bits q = true) (ha : adm (l.keys q)) :
    ∃ p, l.maxPos c = .ok p ∧ p < M ∧ Bitmap.bit l.bits p = true ∧
      ∀ j, j < M → Bitmap.bit l.bits j = true → l.keys j ≤ l.keys p := by
  obtain ⟨x, p, e, h⟩ := bits_search (fun i : Fin M => l.keys i) l.bits c.lim.min (fun _ => true)
    (fun a b => b < a) (fun a b c h1 h2 => by simp only [not_lt] at *; exact le_trans h1 h2.le)
    (fun a => lt_irrefl a) (fun _ _ _ h1 h2 => lt_trans h2 h1)
    (fun i k cur => testAnd l.bits i (decide (cur < k))) (fun i k c => by simp)
  refine ⟨p, ?_, ?_⟩
  · unfold Leaf.maxPos findMaxKeyPosBits
    simp only [e, Res.ok_bind, Res.pure_eq]
  · rcases h with ⟨h1, h2, h3⟩ | ⟨hp, h1, -, h3, -, h5⟩
    · exact absurd (F.lim _ ha).1 (h3 ⟨q, hq⟩ ((test_iff' _ ⟨q, hq⟩).2 hb) rfl)
    · refine ⟨hp, (test_iff' _ ⟨p, hp⟩).1 h1, fun j hj hbj => ?_⟩
      have := h5 ⟨j, hj⟩ ((test_iff' _ ⟨j, hj⟩).2 hbj) rfl
      rw [← h3] at this
      exact not_lt.1 this

/-! ## Filling a position -/

theorem fill_law {l : Leaf M K V} (h : LOk l) {u : Nat} (hu : u < M) (hb : Bitmap.bit l.bits u = false)
    {k : K} (v : V) (hk : ∀ w, ¬ Has l k w) :
    ∃ l', l.fill u k v = .ok l' ∧ LOk l' ∧ (∀ x y, Has l' x y ↔ (x = k ∧ y = v) ∨ Has l x y) ∧
      (∀ p, p < M → Bitmap.bit l'.bits p = if p = u then true else Bitmap.bit l.bits p) := by
  obtain ⟨b', e, hbits, hcl⟩ := set_bit' (b := l.bits) hu true
  refine ⟨⟨b', upd l.keys u k, upd l.vals u v⟩, by unfold Leaf.fill; rw [e]; rfl, ⟨hcl h.clean, ?_⟩, ?_, hbits⟩
  · intro i j hi hj hbi hbj hij
    simp only at hbi hbj hij
    rw [hbits i hi] at hbi
    rw [hbits j hj] at hbj
    by_cases e1 : i = u <;> by_cases e2 : j = u
    · rw [e1, e2]
    · rw [if_neg e2] at hbj
      rw [e1] at hij
      simp only [upd, if_true, if_neg e2] at hij
      exact absurd ⟨j, hj, hbj, hij.symm, rfl⟩ (hk (l.vals j))
    · rw [if_neg e1] at hbi
      rw [e2] at hij
      simp only [upd, if_true, if_neg e1] at hij
      exact absurd ⟨i, hi, hbi, hij, rfl⟩ (hk (l.vals i))
    · rw [if_neg e1] at hbi
      rw [if_neg e2] at hbj
      simp only [upd, if_neg e1, if_neg e2] at hij
      exact h.inj i j hi hj hbi hbj hij
  · intro x y
    constructor
    · rintro ⟨p, hp, hbp, hx, hy⟩
      simp only at hbp hx hy
      rw [hbits p hp] at hbp
      by_cases e1 : p = u
      · rw [e1] at hx hy
        simp only [upd, if_true] at hx hy
        exact Or.inl ⟨hx.symm, hy.symm⟩
      · rw [if_neg e1] at hbp
        simp only [upd, if_neg e1] at hx hy
        exact Or.inr ⟨p, hp, hbp, hx, hy⟩
    · rintro (⟨rfl, rfl⟩ | ⟨p, hp, hbp, hx, hy⟩)
      · exact ⟨u, hu, by simp only; rw [hbits u hu, if_pos rfl], by simp [upd], by simp [upd]⟩
      · have e1 : p ≠ u := by intro e1; rw [e1, hb] at hbp; cases hbp
        exact ⟨p, hp, by simp only; rw [hbits p hp, if_neg e1, hbp], by simp [upd, e1, hx], by simp [upd, e1, hy]⟩

/-- A bitmap with a zero has a free position. -/
theorem free_of_zero {b : Bitmap M} (h : ∃ p, p < M ∧ Bitmap.bit b p = false) :
    b.getFreeZero < M ∧ Bitmap.bit b b.getFreeZero = false := by
  rcases Bitmap.getFreeZero_spec b with ⟨h1, h2, _⟩ | ⟨_, h2⟩
  · exact ⟨h1, h2⟩
  · obtain ⟨p, hp, hb⟩ := h
    rw [h2 p hp] at hb; cases hb

theorem insertAt_law {l : Leaf M K V} (h : LOk l) (hz : ∃ p, p < M ∧ Bitmap.bit l.bits p = false)
    {k : K} (v : V) (hk : ∀ w, ¬ Has l k w) :
    ∃ l', l.insertAt l.bits.getFreeZero k v = .ok l' ∧ LOk l' ∧
      (∀ x y, Has l' x y ↔ (x = k ∧ y = v) ∨ Has l x y) := by
  obtain ⟨h1, h2⟩ := free_of_zero hz
  obtain ⟨l', e, h3, h4, _⟩ := fill_law h h1 h2 v hk
  refine ⟨l', ?_, h3, h4⟩
  unfold Leaf.insertAt Res.assert
  rw [if_pos h1]
  exact e

/-- Overwriting the value of an existing key. -/
theorem write_law {l : Leaf M K V} (h : LOk l) {p : Nat} (hp : p < M) (hb : Bitmap.bit l.bits p = true) (v : V) :
    LOk ({ l with vals := upd l.vals p v } : Leaf M K V) ∧
    ∀ x y, Has ({ l with vals := upd l.vals p v } : Leaf M K V) x y ↔
      (x = l.keys p ∧ y = v) ∨ (x ≠ l.keys p ∧ Has l x y) := by
  refine ⟨⟨h.clean, h.inj⟩, fun x y => ?_⟩
  constructor
  · rintro ⟨q, hq, hbq, hx, hy⟩
    simp only at hbq hx hy
    by_cases e : q = p
    · subst e; left; exact ⟨hx.symm, by simpa [upd] using hy.symm⟩
    · right
      refine ⟨fun e' => e (h.inj q p hq hp hbq hb (hx.trans e')), q, hq, hbq, hx, by simpa [upd, e] using hy⟩
  · rintro (⟨rfl, rfl⟩ | ⟨hne, q, hq, hbq, hx, hy⟩)
    · exact ⟨p, hp, hb, rfl, by simp [upd]⟩
    · have e : q ≠ p := by intro e; subst e; exact hne hx.symm
      exact ⟨q, hq, hbq, hx, by simpa [upd, e] using hy⟩

/-! ## Split -/

theorem splitLoop_clean {cv : Conv K} {data : Arr K} {sk : Nat} : ∀ (n i : Nat) (b : Bitmap M) (sp : Option Nat)
    (r : Bitmap M × Option Nat), Bitmap.Clean b → splitLoop cv data sk i b sp n = .ok r → Bitmap.Clean r.1
  | 0, _, b, sp, r, hc, e => by cases e; exact hc
  | n + 1, i, b, sp, r, hc, e => by
    rw [splitLoop] at e
    obtain ⟨k, _, e⟩ := (Res.bind_eq_ok).1 e
    split at e
    · obtain ⟨b', e1, e⟩ := (Res.bind_eq_ok).1 e
      exact splitLoop_clean n _ b' sp r (Bitmap.clean_set hc e1) e
    · split at e
      · exact splitLoop_clean n _ b _ r hc e
      · exact splitLoop_clean n _ b _ r hc e

theorem findSplitKey_clean {cv : Conv K} {data : Arr K} {r : Bitmap M × Nat}
    (e : findSplitKey cv M data = .ok r) : Bitmap.Clean r.1 := by
  unfold findSplitKey at e
  simp only at e
  split at e
  · cases e
  obtain ⟨q, _, e⟩ := (Res.bind_eq_ok).1 e
  obtain ⟨⟨b, sp⟩, e1, e⟩ := (Res.bind_eq_ok).1 e
  have := splitLoop_clean _ _ _ _ _ Bitmap.clean_fresh e1
  cases sp with
  | none => cases e
  | some p => cases e; exact this

/-- What `findSplitKey` returns for a full node with distinct admissible keys. -/
theorem splitKey_law (cv : Conv K) (hM : 2 ≤ M) (keys : Nat → K)
    (hconv : ∀ i, i < M → cv.ofSize (cv.toSize (keys i)) = keys i)
    (hmono : ∀ i j, i < M → j < M → (cv.toSize (keys i) < cv.toSize (keys j) ↔ keys i < keys j))
    (hinj : ∀ i j, i < M → j < M → keys i = keys j → i = j) :
    ∃ b p, findSplitKey cv M ⟨M, keys⟩ = .ok (b, p) ∧ p < M ∧ Bitmap.Clean b ∧
      (∀ i, i < M → (Bitmap.bit b i = true ↔ keys i < keys p)) ∧ (∃ i, i < M ∧ keys i < keys p) := by
  obtain ⟨b, p, e, hp, hk, hb⟩ := findSplitKey_spec cv M hM ⟨M, keys⟩ le_rfl hconv hmono
  refine ⟨b, p, e, hp, findSplitKey_clean e, fun i hi => ?_, ?_⟩
  · have := hb i hi
    rw [Bitmap.test_eq _ hi] at this
    rw [show Bitmap.bit b i = _ from Res.ok.inj this, decide_eq_true_iff]
  · by_contra hno
    push Not at hno
    have h2 := hk.2.2
    have hle : ((Arr.mk M keys).seg 0 M).countP (fun x => decide (x ≤ keys p)) ≤ 1 := by
      have hn : ((Arr.mk M keys).seg 0 M).Nodup := by
        rw [show (Arr.mk M keys).seg 0 M = (List.range M).map keys by
          unfold Arr.seg; simp]
        refine List.Nodup.map_on ?_ List.nodup_range
        intro i hi j hj
        exact hinj i j (List.mem_range.1 hi) (List.mem_range.1 hj)
      rw [List.countP_eq_length_filter]
      have hs : ∀ x ∈ ((Arr.mk M keys).seg 0 M).filter (fun x => decide (x ≤ keys p)), x = keys p := by
        intro x hx
        rw [List.mem_filter, decide_eq_true_iff, Arr.mem_seg] at hx
        obtain ⟨⟨i, h1, h3, rfl⟩, h4⟩ := hx
        exact le_antisymm h4 (hno i (by omega))
      have hn' := hn.filter (fun x => decide (x ≤ keys p))
      generalize ((Arr.mk M keys).seg 0 M).filter (fun x => decide (x ≤ keys p)) = l at hs hn'
      match l, hs, hn' with
      | [], _, _ => simp
      | [_], _, _ => simp
      | a :: b :: t, hs, hn' =>
        have h1 := hs a (by simp)
        have h2 := hs b (by simp)
        rw [List.nodup_cons] at hn'
        exact absurd (by rw [h1, h2]; simp) hn'.1
    simp only at h2
    omega

theorem moveLoop_law {l : Leaf M K V} (hl : LOk l) (hfull : ∀ p, p < M → Bitmap.bit l.bits p = true) (sk : K) :
    ∀ (n i j : Nat) (nb : Bitmap M) (sib : Leaf M K V), i + n = M → j ≤ i →
    ((∃ q, q < i ∧ l.keys q < sk) → j < i) →
    Bitmap.Clean nb → (∀ q, q < M → (Bitmap.bit nb q = true ↔ (q < i → l.keys q < sk))) →
    LOk sib → (∀ q, q < M → (Bitmap.bit sib.bits q = true ↔ q < j)) →
    (∀ x y, Has sib x y ↔ ∃ q, q < i ∧ sk ≤ l.keys q ∧ l.keys q = x ∧ l.vals q = y) →
    ∃ l1 s1, Leaf.moveLoop sk ({ l with bits := nb } : Leaf M K V) sib i j n = .ok (l1, s1) ∧ LOk l1 ∧ LOk s1 ∧
      (∀ x y, Has l1 x y ↔ Has l x y ∧ x < sk) ∧ (∀ x y, Has s1 x y ↔ Has l x y ∧ sk ≤ x) ∧
      ((∃ q, q < M ∧ l.keys q < sk) → ∃ p, p < M ∧ Bitmap.bit s1.bits p = false) ∧
      (∀ q, q < M → (Bitmap.bit l1.bits q = true ↔ l.keys q < sk))
  | 0, i, j, nb, sib, hi, hj, hlt, hc, hnb, hs, hsb, hh => by
    have hiM : i = M := by omega
    subst hiM
    refine ⟨_, _, rfl, ⟨hc, fun a b ha hb _ _ hab => hl.inj a b ha hb (hfull a ha) (hfull b hb) hab⟩, hs, ?_, ?_, ?_, ?_⟩
    · intro x y
      constructor
      · rintro ⟨p, hp, hb, rfl, rfl⟩
        exact ⟨⟨p, hp, hfull p hp, rfl, rfl⟩, (hnb p hp).1 hb hp⟩
      · rintro ⟨⟨p, hp, hb, rfl, rfl⟩, h⟩
        exact ⟨p, hp, (hnb p hp).2 (fun _ => h), rfl, rfl⟩
    · intro x y
      rw [hh]
      constructor
      · rintro ⟨p, hp, hb, rfl, rfl⟩
        exact ⟨⟨p, hp, hfull p hp, rfl, rfl⟩, hb⟩
      · rintro ⟨⟨p, hp, hb, rfl, rfl⟩, h⟩
        exact ⟨p, hp, h, rfl, rfl⟩
    · intro hq
      have := hlt hq
      refine ⟨j, this, ?_⟩
      rw [Bool.eq_false_iff]
      intro h
      exact absurd ((hsb j this).1 h) (lt_irrefl _)
    · intro q hq
      rw [hnb q hq]
      exact ⟨fun h => h hq, fun h _ => h⟩
  | n + 1, i, j, nb, sib, hi, hj, hlt, hc, hnb, hs, hsb, hh => by
    have hiM : i < M := by omega
    rw [Leaf.moveLoop, rdA_ok hiM, Res.ok_bind]
    by_cases hx : sk ≤ l.keys i
    · rw [if_pos hx, rdA_ok hiM, Res.ok_bind]
      have hjf : Bitmap.bit sib.bits j = false := by
        rw [Bool.eq_false_iff]
        intro h
        exact absurd ((hsb j (by omega)).1 h) (lt_irrefl _)
      have hnew : ∀ w, ¬ Has sib (l.keys i) w := by
        intro w hw
        obtain ⟨q, hq, _, h3, _⟩ := (hh _ _).1 hw
        have := hl.inj q i (by omega) hiM (hfull q (by omega)) (hfull i hiM) h3
        omega
      obtain ⟨s1, e1, hs1, hh1, hb1⟩ := fill_law hs (show j < M by omega) hjf (l.vals i) hnew
      rw [e1, Res.ok_bind, Bitmap.reset_eq_set]
      obtain ⟨nb', e2, hbits, hcl⟩ := set_bit' (b := nb) hiM false
      rw [e2, Res.ok_bind]
      refine moveLoop_law hl hfull sk n (i + 1) (j + 1) nb' s1 (by omega) (by omega) ?_ (hcl hc) ?_ hs1 ?_ ?_
      · rintro ⟨q, hq, hlq⟩
        have : q ≠ i := by rintro rfl; exact absurd hx (not_le.2 hlq)
        have := hlt ⟨q, by omega, hlq⟩
        omega
      · intro q hq
        rw [hbits q hq]
        by_cases e : q = i
        · rw [if_pos e]
          constructor
          · intro h; cases h
          · intro h
            have := h (by omega)
            rw [e] at this
            exact absurd hx (not_le.2 this)
        · rw [if_neg e, hnb q hq]
          exact ⟨fun h h' => h (by omega), fun h h' => h (by omega)⟩
      · intro q hq
        rw [hb1 q hq]
        by_cases e : q = j
        · rw [if_pos e]; simp; omega
        · rw [if_neg e, hsb q hq]; omega
      · intro x y
        rw [hh1, hh]
        constructor
        · rintro (⟨rfl, rfl⟩ | ⟨q, h1, h2⟩)
          · exact ⟨i, by omega, hx, rfl, rfl⟩
          · exact ⟨q, by omega, h2⟩
        · rintro ⟨q, h1, h2, h3, h4⟩
          by_cases e : q = i
          · subst e; exact Or.inl ⟨h3.symm, h4.symm⟩
          · exact Or.inr ⟨q, by omega, h2, h3, h4⟩
    · rw [if_neg hx]
      refine moveLoop_law hl hfull sk n (i + 1) j nb sib (by omega) (by omega) (fun _ => by omega) hc ?_ hs hsb ?_
      · intro q hq
        rw [hnb q hq]
        constructor
        · intro h h'
          by_cases e : q = i
          · subst e; exact not_le.1 hx
          · exact h (by omega)
        · intro h h'; exact h (by omega)
      · intro x y
        rw [hh]
        constructor
        · rintro ⟨q, h1, h2⟩; exact ⟨q, by omega, h2⟩
        · rintro ⟨q, h1, h2, h3⟩
          have : q ≠ i := by rintro rfl; exact hx h2
          exact ⟨q, by omega, h2, h3⟩

theorem clean_flip (b : Bitmap M) : Bitmap.Clean b.flip := Bitmap.clean_sanitize _

theorem split_law (F : Laws c adm) (hM : 2 ≤ M) (hm : c.move = false → M % 64 ≠ 0) {l : Leaf M K V} (hl : LOk l)
    (hfull : ∀ p, p < M → Bitmap.bit l.bits p = true) (ha : ∀ p, p < M → adm (l.keys p)) :
    ∃ l1 s1 sk, l.split c = .ok (l1, s1, sk) ∧ LOk l1 ∧ LOk s1 ∧
      (∀ x y, Has l1 x y ↔ Has l x y ∧ x < sk) ∧ (∀ x y, Has s1 x y ↔ Has l x y ∧ sk ≤ x) ∧
      (∃ p, p < M ∧ Bitmap.bit l1.bits p = true) ∧ (∃ y, Has l sk y) ∧
      (∃ p, p < M ∧ Bitmap.bit l1.bits p = false) ∧ (∃ p, p < M ∧ Bitmap.bit s1.bits p = false) ∧
      (∀ p, l1.keys p = l.keys p) := by
  have hinj : ∀ i j, i < M → j < M → l.keys i = l.keys j → i = j := fun i j hi hj =>
    hl.inj i j hi hj (hfull i hi) (hfull j hj)
  obtain ⟨b, p, e, hp, hcl, hb, i0, hi0, hlt0⟩ := splitKey_law c.cv hM l.keys (fun i hi => F.conv _ (ha i hi))
    (fun i j hi hj => F.mono _ _ (ha i hi) (ha j hj)) hinj
  unfold Leaf.split
  rw [e, Res.ok_bind, rdA_ok hp, Res.ok_bind]
  cases hmv : c.move with
  | true =>
    rw [if_pos rfl]
    obtain ⟨l1, s1, e1, h1, h2, h3, h4, h5, h6⟩ := moveLoop_law hl hfull (l.keys p) M 0 0 l.bits (Leaf.new c M)
      (by omega) le_rfl (by rintro ⟨q, hq, _⟩; omega) hl.clean
      (fun q hq => ⟨fun _ h => by omega, fun _ => hfull q hq⟩) (lok_new c)
      (fun q hq => by rw [Leaf.new, bit_fresh]; simp)
      (fun x y => ⟨fun h => absurd h (has_new c x y), fun ⟨q, h, _⟩ => by omega⟩)
    have e1' : Leaf.moveLoop (l.keys p) l (Leaf.new c M) 0 0 M = .ok (l1, s1) := e1
    rw [e1', Res.ok_bind]
    have hkeys : ∀ (n i j : Nat) (a s a' s' : Leaf M K V), Leaf.moveLoop (l.keys p) a s i j n = .ok (a', s') →
        a'.keys = a.keys := by
      intro n
      induction n with
      | zero => intro i j a s a' s' h; cases h; rfl
      | succ n ih =>
        intro i j a s a' s' h
        rw [Leaf.moveLoop] at h
        obtain ⟨x, _, h⟩ := (Res.bind_eq_ok).1 h
        split at h
        · obtain ⟨v, _, h⟩ := (Res.bind_eq_ok).1 h
          obtain ⟨s2, _, h⟩ := (Res.bind_eq_ok).1 h
          obtain ⟨b2, _, h⟩ := (Res.bind_eq_ok).1 h
          have := ih _ _ _ _ _ _ h
          exact this
        · exact ih _ _ _ _ _ _ h
    refine ⟨l1, s1, l.keys p, rfl, h1, h2, h3, h4, ⟨i0, hi0, (h6 i0 hi0).2 hlt0⟩, ⟨l.vals p, p, hp, hfull p hp, rfl, rfl⟩,
      ⟨p, hp, ?_⟩, h5 ⟨i0, hi0, hlt0⟩, fun q => by rw [hkeys _ _ _ _ _ _ _ e1']⟩
    rw [Bool.eq_false_iff]
    intro h
    exact absurd ((h6 p hp).1 h) (lt_irrefl _)
  | false =>
    rw [if_neg (by decide)]
    have hfl : ∀ q, q < M → (Bitmap.bit b.flip q = true ↔ l.keys p ≤ l.keys q) := by
      intro q hq
      rw [Bitmap.bit_flip b q hq, if_neg (by have := hm hmv; tauto), Bool.not_eq_true', ← not_lt, ← hb q hq,
        Bool.not_eq_true]
    refine ⟨_, _, _, rfl, ⟨hcl, fun i j hi hj _ _ => hinj i j hi hj⟩, ⟨clean_flip b, fun i j hi hj _ _ => hinj i j hi hj⟩,
      ?_, ?_, ⟨i0, hi0, (hb i0 hi0).2 hlt0⟩, ⟨l.vals p, p, hp, hfull p hp, rfl, rfl⟩, ⟨p, hp, ?_⟩, ⟨i0, hi0, ?_⟩,
      fun _ => rfl⟩
    · intro x y
      constructor
      · rintro ⟨q, hq, hbq, rfl, rfl⟩
        exact ⟨⟨q, hq, hfull q hq, rfl, rfl⟩, (hb q hq).1 hbq⟩
      · rintro ⟨⟨q, hq, _, rfl, rfl⟩, h⟩
        exact ⟨q, hq, (hb q hq).2 h, rfl, rfl⟩
    · intro x y
      constructor
      · rintro ⟨q, hq, hbq, rfl, rfl⟩
        exact ⟨⟨q, hq, hfull q hq, rfl, rfl⟩, (hfl q hq).1 hbq⟩
      · rintro ⟨⟨q, hq, _, rfl, rfl⟩, h⟩
        exact ⟨q, hq, (hfl q hq).2 h, rfl, rfl⟩
    · rw [Bool.eq_false_iff]
      intro h
      exact absurd ((hb p hp).1 h) (lt_irrefl _)
    · rw [Bool.eq_false_iff]
      intro h
      exact absurd ((hfl i0 hi0).1 h) (not_le.2 hlt0)

/-! ## Insertion -/

/-- Contents after inserting `(k, v)`. -/
def Ups (P : K → V → Prop) (k : K) (v : V) (x : K) (y : V) : Prop := (x = k ∧ y = v) ∨ (x ≠ k ∧ P x y)

theorem insert_law (F : Laws c adm) (hM : 2 ≤ M) (hm : c.move = false → M % 64 ≠ 0) {l : Leaf M K V} (hl : LOk l)
    (ha : ∀ x y, Has l x y → adm x) (k : K) (v : V) :
    ∃ l' sp, l.insert c k v = .ok (l', sp) ∧ LOk l' ∧
      match sp with
      | none => ∀ x y, Has l' x y ↔ Ups (Has l) k v x y
      | some (s, r) => LOk r ∧ (∀ x y, Has l' x y ↔ Ups (Has l) k v x y ∧ x < s) ∧
          (∀ x y, Has r x y ↔ Ups (Has l) k v x y ∧ s ≤ x) ∧ (∃ x y, Has l' x y) ∧
          ∃ y, Has r s y := by
  obtain ⟨p, e, hp⟩ := pos_spec l k
  unfold Leaf.insert
  rw [e, Res.ok_bind]
  rcases hp with ⟨h1, h2, h3⟩ | ⟨h1, hno⟩
  · rw [if_pos h1]
    obtain ⟨hw1, hw2⟩ := write_law hl h1 h2 v
    refine ⟨_, _, rfl, hw1, fun x y => ?_⟩
    rw [hw2, h3]; rfl
  have hups : ∀ x y, Ups (Has l) k v x y ↔ (x = k ∧ y = v) ∨ Has l x y := by
    intro x y
    unfold Ups
    constructor
    · rintro (h | ⟨_, h⟩); exacts [Or.inl h, Or.inr h]
    · rintro (h | h)
      · exact Or.inl h
      · exact Or.inr ⟨by rintro rfl; exact hno y h, h⟩
  rw [if_neg (by omega)]
  by_cases hz : ∃ q, q < M ∧ Bitmap.bit l.bits q = false
  · have hf := free_of_zero hz
    simp only
    rw [if_neg (by omega)]
    obtain ⟨l', e1, h4, h5⟩ := insertAt_law hl hz v hno
    rw [e1, Res.ok_bind]
    exact ⟨_, _, rfl, h4, fun x y => by rw [h5, hups]⟩
  have hfull : ∀ q, q < M → Bitmap.bit l.bits q = true := by
    intro q hq
    by_contra h
    exact hz ⟨q, hq, by simpa using h⟩
  simp only
  rw [if_pos (free_full hl.clean hfull)]
  obtain ⟨l1, s1, sk, e1, g1, g2, g3, g4, ⟨q0, g5, g5'⟩, ⟨y0, g6⟩, g7, g8, g9⟩ := split_law F hM hm hl hfull
    (fun q hq => ha _ _ ⟨q, hq, hfull q hq, rfl, rfl⟩)
  rw [e1, Res.ok_bind]
  have hks : k ≠ sk := by rintro rfl; exact hno _ g6
  have hn1 : ∀ w, ¬ Has l1 k w := fun w hw => hno w ((g3 k w).1 hw).1
  have hn2 : ∀ w, ¬ Has s1 k w := fun w hw => hno w ((g4 k w).1 hw).1
  simp only
  by_cases hc : sk < k
  · rw [if_pos hc]
    obtain ⟨s2, e2, k1, k2⟩ := insertAt_law g2 g8 v hn2
    rw [e2, Res.ok_bind]
    refine ⟨_, _, rfl, g1, k1, ?_, ?_, ⟨_, _, q0, g5, g5', rfl, rfl⟩, ⟨y0, (k2 _ _).2 (Or.inr ((g4 _ _).2 ⟨g6, le_rfl⟩))⟩⟩
    · intro x y
      rw [g3, hups]
      constructor
      · rintro ⟨a, b⟩; exact ⟨Or.inr a, b⟩
      · rintro ⟨⟨rfl, _⟩ | a, b⟩
        · exact absurd hc (not_lt.2 b.le)
        · exact ⟨a, b⟩
    · intro x y
      rw [k2, g4, hups]
      constructor
      · rintro (⟨rfl, rfl⟩ | ⟨a, b⟩)
        · exact ⟨Or.inl ⟨rfl, rfl⟩, hc.le⟩
        · exact ⟨Or.inr a, b⟩
      · rintro ⟨a | a, b⟩
        · exact Or.inl a
        · exact Or.inr ⟨a, b⟩
  rw [if_neg hc]
  have hks' : k < sk := lt_of_le_of_ne (not_lt.1 hc) hks
  have hadm0 : adm (l1.keys q0) := ha _ _ ((g3 _ _).1 ⟨q0, g5, g5', rfl, rfl⟩).1
  obtain ⟨m, em, m1, m2, m3⟩ := maxPos_spec F g5 g5' hadm0
  rw [em, Res.ok_bind, rdA_ok m1, Res.ok_bind]
  by_cases hd : l1.keys m < k
  · rw [if_pos hd]
    obtain ⟨s2, e2, k1, k2⟩ := insertAt_law g2 g8 v hn2
    rw [e2, Res.ok_bind]
    refine ⟨_, _, rfl, g1, k1, ?_, ?_, ⟨_, _, q0, g5, g5', rfl, rfl⟩, ⟨v, (k2 _ _).2 (Or.inl ⟨rfl, rfl⟩)⟩⟩
    · intro x y
      rw [hups]
      constructor
      · intro hxy
        refine ⟨Or.inr ((g3 _ _).1 hxy).1, ?_⟩
        obtain ⟨q, hq, hbq, rfl, _⟩ := hxy
        exact lt_of_le_of_lt (m3 q hq hbq) hd
      · rintro ⟨⟨rfl, _⟩ | a, b⟩
        · exact absurd b (lt_irrefl _)
        · exact (g3 _ _).2 ⟨a, lt_trans b hks'⟩
    · intro x y
      rw [k2, hups]
      constructor
      · rintro (⟨rfl, rfl⟩ | a)
        · exact ⟨Or.inl ⟨rfl, rfl⟩, le_rfl⟩
        · have := (g4 _ _).1 a
          exact ⟨Or.inr this.1, hks'.le.trans this.2⟩
      · rintro ⟨a | a, b⟩
        · exact Or.inl a
        · right
          by_cases hx : x < sk
          · obtain ⟨q, hq, hbq, rfl, _⟩ := (g3 _ _).2 ⟨a, hx⟩
            exact absurd (lt_of_le_of_lt (m3 q hq hbq) hd) (not_lt.2 b)
          · exact (g4 _ _).2 ⟨a, not_lt.1 hx⟩
  · rw [if_neg hd]
    obtain ⟨l2, e2, k1, k2⟩ := insertAt_law g1 g7 v hn1
    rw [e2, Res.ok_bind]
    refine ⟨_, _, rfl, k1, g2, ?_, ?_, ⟨k, v, (k2 _ _).2 (Or.inl ⟨rfl, rfl⟩)⟩, ⟨y0, (g4 _ _).2 ⟨g6, le_rfl⟩⟩⟩
    · intro x y
      rw [k2, g3, hups]
      constructor
      · rintro (⟨rfl, rfl⟩ | ⟨a, b⟩)
        · exact ⟨Or.inl ⟨rfl, rfl⟩, hks'⟩
        · exact ⟨Or.inr a, b⟩
      · rintro ⟨a | a, b⟩
        · exact Or.inl a
        · exact Or.inr ⟨a, b⟩
    · intro x y
      rw [g4, hups]
      constructor
      · rintro ⟨a, b⟩; exact ⟨Or.inr a, b⟩
      · rintro ⟨⟨rfl, _⟩ | a, b⟩
        · exact absurd hks' (not_lt.2 b)
        · exact ⟨a, b⟩

end Verif.BitTree
