import Verif.BitTree.EraseProps

/-!
# Leaf merges and redistributions of BitHPBPTree and BitPBPTree

What `mergeLeafNodes` and `balanceLeafNodes` do to the contents of two leaves, and the cases of `underflowAtLeafLevel`
that work.
-/

set_option linter.unusedSectionVars false

namespace Verif.BitTree

open Verif Search FPTree BTree

variable {K V : Type} {M : Nat} [LinearOrder K] [Inhabited K] {c : Cfg K V} {adm : K → Prop}

/-! ## Searches -/

theorem minOf {N : Nat} {lim : Limits K} {keys : Nat → K} {bits : Bitmap N} {q : Nat} (hq : q < N)
    (hb : Bitmap.bit bits q = true) (ha : keys q < lim.max) :
    ∃ p, findMinKeyPosBits lim (fun i : Fin N => keys i) bits = .ok p ∧ p < N ∧ Bitmap.bit bits p = true ∧
      ∀ j, j < N → Bitmap.bit bits j = true → keys p ≤ keys j := by
  obtain ⟨x, p, e, h⟩ := bits_search (fun i : Fin N => keys i) bits lim.max (fun _ => true)
    (fun a b => a < b) (fun a b c h1 h2 => by simp only [not_lt] at *; exact le_trans h2.le h1)
    (fun a => lt_irrefl a) (fun _ _ _ h1 h2 => lt_trans h1 h2)
    (fun i k cur => testAnd bits i (decide (k < cur))) (fun i k c => by simp)
  refine ⟨p, ?_, ?_⟩
  · unfold findMinKeyPosBits
    simp only [e, Res.ok_bind, Res.pure_eq]
  · rcases h with ⟨h1, h2, h3⟩ | ⟨hp, h1, -, h3, -, h5⟩
    · exact absurd ha (h3 ⟨q, hq⟩ ((test_iff' _ ⟨q, hq⟩).2 hb) rfl)
    · refine ⟨hp, (test_iff' _ ⟨p, hp⟩).1 h1, fun j hj hbj => ?_⟩
      have := h5 ⟨j, hj⟩ ((test_iff' _ ⟨j, hj⟩).2 hbj) rfl
      rw [← h3] at this
      exact not_lt.1 this

theorem maxOf {N : Nat} {lim : Limits K} {keys : Nat → K} {bits : Bitmap N} {q : Nat} (hq : q < N)
    (hb : Bitmap.bit bits q = true) (ha : lim.min < keys q) :
    ∃ p, findMaxKeyPosBits lim (fun i : Fin N => keys i) bits = .ok p ∧ p < N ∧ Bitmap.bit bits p = true ∧
      ∀ j, j < N → Bitmap.bit bits j = true → keys j ≤ keys p := by
  obtain ⟨x, p, e, h⟩ := bits_search (fun i : Fin N => keys i) bits lim.min (fun _ => true)
    (fun a b => b < a) (fun a b c h1 h2 => by simp only [not_lt] at *; exact le_trans h1 h2.le)
    (fun a => lt_irrefl a) (fun _ _ _ h1 h2 => lt_trans h2 h1)
    (fun i k cur => testAnd bits i (decide (cur < k))) (fun i k c => by simp)
  refine ⟨p, ?_, ?_⟩
  · unfold findMaxKeyPosBits
    simp only [e, Res.ok_bind, Res.pure_eq]
  · rcases h with ⟨h1, h2, h3⟩ | ⟨hp, h1, -, h3, -, h5⟩
    · exact absurd ha (h3 ⟨q, hq⟩ ((test_iff' _ ⟨q, hq⟩).2 hb) rfl)
    · refine ⟨hp, (test_iff' _ ⟨p, hp⟩).1 h1, fun j hj hbj => ?_⟩
      have := h5 ⟨j, hj⟩ ((test_iff' _ ⟨j, hj⟩).2 hbj) rfl
      rw [← h3] at this
      exact not_lt.1 this

theorem maxBelow {N : Nat} {lim : Limits K} {keys : Nat → K} {bits : Bitmap N} {key : K} {q : Nat} (hq : q < N)
    (hb : Bitmap.bit bits q = true) (ha : lim.min < keys q) (hlt : keys q < key) :
    ∃ p, findMaxKeyPosSmallerThan lim (fun i : Fin N => keys i) bits key = .ok p ∧ p < N ∧ Bitmap.bit bits p = true ∧
      keys p < key ∧ ∀ j, j < N → Bitmap.bit bits j = true → keys j < key → keys j ≤ keys p := by
  obtain ⟨x, p, e, h⟩ := bits_search (fun i : Fin N => keys i) bits lim.min (fun y => decide (y < key))
    (fun a b => b < a) (fun a b c h1 h2 => by simp only [not_lt] at *; exact le_trans h1 h2.le)
    (fun a => lt_irrefl a) (fun _ _ _ h1 h2 => lt_trans h2 h1)
    (fun i k cur => testAnd bits i (decide (cur < k) && decide (k < key))) (fun i k c => rfl)
  rcases h with ⟨h1, h2, h3⟩ | ⟨hp, h1, h2, h3, h4, h5⟩
  · exact absurd ha (h3 ⟨q, hq⟩ ((test_iff' _ ⟨q, hq⟩).2 hb) (decide_eq_true hlt))
  · refine ⟨p, ?_, hp, (test_iff' _ ⟨p, hp⟩).1 h1, of_decide_eq_true h2, fun j hj hbj hjk => ?_⟩
    · unfold findMaxKeyPosSmallerThan
      simp only [e, Res.ok_bind, Res.pure_eq]
      rw [if_neg (ne_of_gt h4)]
    · have := h5 ⟨j, hj⟩ ((test_iff' _ ⟨j, hj⟩).2 hbj) (decide_eq_true hjk)
      rw [← h3] at this
      exact not_lt.1 this

/-! ## Counting -/

theorem count_used {l : Leaf M K V} (hl : LOk l) : l.bits.count = used l := Bitmap.count_eq_card hl.clean

theorem room_of_used {l : Leaf M K V} (h : used l < M) : ∃ p, p < M ∧ Bitmap.bit l.bits p = false := by
  by_contra hc
  push Not at hc
  have : Finset.range M ⊆ BitmapSpec.members l.bits := fun p hp =>
    Bitmap.mem_members.2 ⟨Finset.mem_range.1 hp, by simpa using hc p (Finset.mem_range.1 hp)⟩
  have := Finset.card_le_card this
  rw [Finset.card_range] at this
  unfold used at h
  omega

theorem used_fill {l l' : Leaf M K V} {u : Nat} (hu : u < M) (hb : Bitmap.bit l.bits u = false)
    (h : ∀ p, p < M → Bitmap.bit l'.bits p = if p = u then true else Bitmap.bit l.bits p) : used l' = used l + 1 := by
  unfold used
  have : BitmapSpec.members l'.bits = insert u (BitmapSpec.members l.bits) := by
    ext p
    rw [Finset.mem_insert, Bitmap.mem_members, Bitmap.mem_members]
    constructor
    · rintro ⟨h1, h2⟩
      rw [h p h1] at h2
      split at h2
      · left; assumption
      · right; exact ⟨h1, h2⟩
    · rintro (rfl | ⟨h1, h2⟩)
      · exact ⟨hu, by rw [h _ hu, if_pos rfl]⟩
      · refine ⟨h1, ?_⟩
        rw [h p h1]
        split
        · rfl
        · exact h2
  rw [this, Finset.card_insert_of_notMem]
  intro hm
  rw [(Bitmap.mem_members.1 hm).2] at hb
  cases hb

theorem used_reset {l : Leaf M K V} {b : Bitmap M} {u : Nat} (hu : u < M) (hb : Bitmap.bit l.bits u = true)
    (h : ∀ p, p < M → Bitmap.bit b p = if p = u then false else Bitmap.bit l.bits p) :
    used ({ l with bits := b } : Leaf M K V) + 1 = used l := by
  have := used_fill (l := ({ l with bits := b } : Leaf M K V)) (l' := l) hu (by
    show Bitmap.bit b u = false
    rw [h u hu, if_pos rfl]) (fun p hp => by
    show _ = if p = u then true else Bitmap.bit b p
    by_cases hpu : p = u
    · rw [if_pos hpu, hpu, hb]
    · rw [if_neg hpu, h p hp, if_neg hpu])
  exact this.symm

/-! ## Merge -/

theorem mergeLoop_law {l2 : Leaf M K V} (h2 : LOk l2) : ∀ (n i : Nat) (l1 : Leaf M K V), i + n = M → LOk l1 →
    (∀ x y p, Has l1 x y → i ≤ p → p < M → Bitmap.bit l2.bits p = true → l2.keys p ≠ x) →
    used l1 + ((BitmapSpec.members l2.bits).filter (fun p => i ≤ p)).card ≤ M →
    ∃ l, l1.mergeLoop l2 i n = .ok l ∧ LOk l ∧
      (∀ x y, Has l x y ↔ Has l1 x y ∨ ∃ p, i ≤ p ∧ p < M ∧ Bitmap.bit l2.bits p = true ∧ l2.keys p = x ∧ l2.vals p = y) ∧
      used l = used l1 + ((BitmapSpec.members l2.bits).filter (fun p => i ≤ p)).card
  | 0, i, l1, hi, h1, hd, hc => by
    refine ⟨l1, rfl, h1, fun x y => ⟨Or.inl, ?_⟩, ?_⟩
    · rintro (h | ⟨p, g1, g2, _⟩)
      · exact h
      · omega
    · rw [Finset.card_eq_zero.2, Nat.add_zero]
      rw [Finset.filter_eq_empty_iff]
      intro p hp
      have := (Bitmap.mem_members.1 hp).1
      omega
  | n + 1, i, l1, hi, h1, hd, hc => by
    have hiM : i < M := by omega
    rw [Leaf.mergeLoop, show l2.bits.test i = .ok (Bitmap.bit l2.bits i) from Bitmap.test_eq _ hiM, Res.ok_bind]
    by_cases hb : Bitmap.bit l2.bits i = true
    · have hcard : ((BitmapSpec.members l2.bits).filter (fun p => i ≤ p)).card =
          ((BitmapSpec.members l2.bits).filter (fun p => i + 1 ≤ p)).card + 1 := by
        rw [← Finset.card_insert_of_notMem (a := i) (by simp)]
        congr 1
        ext p
        rw [Finset.mem_insert, Finset.mem_filter, Finset.mem_filter]
        constructor
        · rintro ⟨g1, g2⟩
          by_cases hp : p = i
          · exact Or.inl hp
          · exact Or.inr ⟨g1, by omega⟩
        · rintro (rfl | ⟨g1, g2⟩)
          · exact ⟨Bitmap.mem_members.2 ⟨hiM, hb⟩, le_rfl⟩
          · exact ⟨g1, by omega⟩
      rw [hb, if_pos rfl, rdA_ok hiM, Res.ok_bind, rdA_ok hiM, Res.ok_bind]
      obtain ⟨f1, f2⟩ := free_of_zero (room_of_used (l := l1) (by omega))
      obtain ⟨l', e, g1, g2, g3⟩ := fill_law h1 f1 f2 (l2.vals i) (fun w hw => hd _ w i hw le_rfl hiM hb rfl)
      rw [e, Res.ok_bind]
      have hu := used_fill f1 f2 g3
      obtain ⟨l, er, k1, k2, k3⟩ := mergeLoop_law h2 n (i + 1) l' (by omega) g1 (fun x y p hx hp hpM hbp => by
        rcases (g2 x y).1 hx with ⟨rfl, _⟩ | hx
        · intro hc
          have := h2.inj p i hpM hiM hbp hb hc
          omega
        · exact hd x y p hx (by omega) hpM hbp) (by omega)
      refine ⟨l, er, k1, fun x y => ?_, by omega⟩
      rw [k2, g2]
      constructor
      · rintro ((⟨rfl, rfl⟩ | h) | ⟨p, q1, q2, q3⟩)
        · exact Or.inr ⟨i, le_rfl, hiM, hb, rfl, rfl⟩
        · exact Or.inl h
        · exact Or.inr ⟨p, by omega, q2, q3⟩
      · rintro (h | ⟨p, q1, q2, q3, q4, q5⟩)
        · exact Or.inl (Or.inr h)
        · by_cases hp : p = i
          · subst hp; exact Or.inl (Or.inl ⟨q4.symm, q5.symm⟩)
          · exact Or.inr ⟨p, by omega, q2, q3, q4, q5⟩
    · have hb' : Bitmap.bit l2.bits i = false := by simpa using hb
      have hfil : (BitmapSpec.members l2.bits).filter (fun p => i ≤ p) =
          (BitmapSpec.members l2.bits).filter (fun p => i + 1 ≤ p) := by
        refine Finset.filter_congr (fun p hp => ?_)
        have := (Bitmap.mem_members.1 hp).2
        constructor
        · intro hle
          have : p ≠ i := by rintro rfl; rw [this] at hb'; cases hb'
          omega
        · intro hle; omega
      rw [hb']
      obtain ⟨l, er, k1, k2, k3⟩ := mergeLoop_law h2 n (i + 1) l1 (by omega) h1 (fun x y p hx hp => hd x y p hx (by omega))
        (by rw [← hfil]; exact hc)
      refine ⟨l, er, k1, fun x y => ?_, by rw [hfil]; exact k3⟩
      rw [k2]
      refine or_congr Iff.rfl ⟨?_, ?_⟩
      · rintro ⟨p, q1, q2⟩; exact ⟨p, by omega, q2⟩
      · rintro ⟨p, q1, q2, q3, q4⟩
        refine ⟨p, ?_, q2, q3, q4⟩
        have : p ≠ i := by rintro rfl; rw [q3] at hb'; cases hb'
        omega

/-- The loop of `mergeLeafNodes` puts the entries of both leaves into the first. -/
theorem merge_law {l1 l2 : Leaf M K V} (h1 : LOk l1) (h2 : LOk l2) (hd : ∀ x y z, Has l1 x y → ¬ Has l2 x z)
    (hc : used l1 + used l2 ≤ M) : ∃ l, l1.mergeLoop l2 0 M = .ok l ∧ LOk l ∧
      (∀ x y, Has l x y ↔ Has l1 x y ∨ Has l2 x y) ∧ used l = used l1 + used l2 := by
  have hf : (BitmapSpec.members l2.bits).filter (fun p => 0 ≤ p) = BitmapSpec.members l2.bits := by simp
  obtain ⟨l, e, g1, g2, g3⟩ := mergeLoop_law h2 M 0 l1 (by omega) h1 (fun x y p hx _ hp hb hk =>
    hd x y (l2.vals p) hx ⟨p, hp, hb, hk, rfl⟩) (by rw [hf]; exact hc)
  refine ⟨l, e, g1, fun x y => ?_, by rw [g3, hf]; rfl⟩
  rw [g2]
  refine or_congr Iff.rfl ⟨?_, ?_⟩
  · rintro ⟨p, _, h⟩; exact ⟨p, h⟩
  · rintro ⟨p, h⟩; exact ⟨p, Nat.zero_le _, h⟩

/-! ## Redistribution -/

theorem reset_law {l : Leaf M K V} (hl : LOk l) {p : Nat} (hp : p < M) (hb : Bitmap.bit l.bits p = true) :
    ∃ b, l.bits.reset p = .ok b ∧ LOk ({ l with bits := b } : Leaf M K V) ∧
      (∀ x y, Has ({ l with bits := b } : Leaf M K V) x y ↔ x ≠ l.keys p ∧ Has l x y) ∧
      used ({ l with bits := b } : Leaf M K V) + 1 = used l := by
  obtain ⟨b, eb, hbits, hcl⟩ := set_bit' (b := l.bits) hp false
  have aux : ∀ i, i < M → Bitmap.bit b i = true → i ≠ p ∧ Bitmap.bit l.bits i = true := by
    intro i hi h
    rw [hbits i hi] at h
    split at h
    · cases h
    · exact ⟨by assumption, h⟩
  refine ⟨b, by rw [Bitmap.reset_eq_set, eb], ⟨hcl hl.clean, fun i j hi hj hbi hbj he => ?_⟩, fun x y => ⟨?_, ?_⟩,
    used_reset hp hb hbits⟩
  · exact hl.inj i j hi hj (aux i hi hbi).2 (aux j hj hbj).2 he
  · rintro ⟨q, hq, hbq, hk, hv⟩
    obtain ⟨g1, g2⟩ := aux q hq hbq
    refine ⟨?_, q, hq, g2, hk, hv⟩
    rintro rfl
    exact g1 (hl.inj q p hq hp g2 hb hk)
  · rintro ⟨hne, q, hq, hbq, hk, hv⟩
    refine ⟨q, hq, ?_, hk, hv⟩
    show Bitmap.bit b q = true
    rw [hbits q hq, if_neg, hbq]
    rintro rfl
    exact hne hk.symm

/-- `x` is on the side of the receiver: above (`up`) or below all keys. -/
def beyond (up : Bool) (x y : K) : Prop := if up then x < y else y < x

theorem balanceLoop_law (F : Laws c adm) (up : Bool) : ∀ (n : Nat) (d r : Leaf M K V), LOk d → LOk r →
    (∀ x y, Has d x y → adm x) → (∀ x y z w, Has d x y → Has r z w → beyond up x z) → n ≤ used d → used r + n ≤ M →
    ∃ d' r', Leaf.balanceLoop c up d r n = .ok (d', r') ∧ LOk d' ∧ LOk r' ∧
      (∀ x y, Has d x y ∨ Has r x y ↔ Has d' x y ∨ Has r' x y) ∧ (∀ x y, Has r x y → Has r' x y) ∧
      (∀ x y z w, Has d' x y → Has r' z w → beyond up x z) ∧ used d' + n = used d ∧ used r' = used r + n
  | 0, d, r, hd, hr, _, ho, _, _ => ⟨d, r, rfl, hd, hr, fun _ _ => Iff.rfl, fun _ _ h => h, ho, rfl, rfl⟩
  | n + 1, d, r, hd, hr, ha, ho, hn, hm => by
    obtain ⟨q, hq, hbq⟩ : ∃ q, q < M ∧ Bitmap.bit d.bits q = true := by
      have : 0 < used d := by omega
      obtain ⟨q, hq⟩ := Finset.card_pos.1 this
      exact ⟨q, Bitmap.mem_members.1 hq⟩
    have haq : adm (d.keys q) := ha _ (d.vals q) ⟨q, hq, hbq, rfl, rfl⟩
    obtain ⟨p, ep, hp, hbp, hext⟩ : ∃ p, (if up then d.maxPos c else d.minPos c) = .ok p ∧ p < M ∧ Bitmap.bit d.bits p = true ∧
        ∀ j, j < M → Bitmap.bit d.bits j = true → j ≠ p → beyond up (d.keys j) (d.keys p) := by
      cases up with
      | true =>
        obtain ⟨p, e, h1, h2, h3⟩ := maxOf (lim := c.lim) (keys := d.keys) hq hbq (F.lim _ haq).1
        refine ⟨p, e, h1, h2, fun j hj hbj hne => lt_of_le_of_ne (h3 j hj hbj) fun he => hne (hd.inj j p hj h1 hbj h2 he)⟩
      | false =>
        obtain ⟨p, e, h1, h2, h3⟩ := minOf (lim := c.lim) (keys := d.keys) hq hbq (F.lim _ haq).2
        refine ⟨p, e, h1, h2, fun j hj hbj hne => lt_of_le_of_ne (h3 j hj hbj) fun he => hne (hd.inj j p hj h1 hbj h2 he.symm)⟩
    have hmem : Has d (d.keys p) (d.vals p) := ⟨p, hp, hbp, rfl, rfl⟩
    have hirr : ∀ x : K, ¬ beyond up x x := by intro x; unfold beyond; split <;> exact lt_irrefl x
    obtain ⟨f1, f2⟩ := free_of_zero (room_of_used (l := r) (by omega))
    obtain ⟨r1, e1, g1, g2, g3⟩ := fill_law hr f1 f2 (k := d.keys p) (d.vals p) (fun w hw => hirr _ (ho _ _ _ _ hmem hw))
    obtain ⟨b, e2, k1, k2, k3⟩ := reset_law hd hp hbp
    have hu := used_fill f1 f2 g3
    obtain ⟨d', r', e, m1, m2, m3, m4, m5, m6, m7⟩ := balanceLoop_law F up n ({ d with bits := b } : Leaf M K V) r1 k1 g1
      (fun x y h => ha x y ((k2 x y).1 h).2) (fun x y z w h h' => by
        obtain ⟨hne, hx⟩ := (k2 x y).1 h
        rcases (g2 z w).1 h' with ⟨rfl, _⟩ | hz
        · obtain ⟨j, hj, hbj, hk, _⟩ := hx
          rw [← hk]
          exact hext j hj hbj (by rintro rfl; exact hne hk.symm)
        · exact ho x y z w hx hz) (by omega) (by omega)
    refine ⟨d', r', ?_, m1, m2, fun x y => ?_, fun x y h => m4 x y ((g2 x y).2 (Or.inr h)), m5, by omega, by omega⟩
    · rw [Leaf.balanceLoop, ep, Res.ok_bind, rdA_ok hp, Res.ok_bind, rdA_ok hp, Res.ok_bind, e1, Res.ok_bind, e2, Res.ok_bind, e]
    · rw [← m3, k2, g2]
      constructor
      · rintro (h | h)
        · by_cases hx : x = d.keys p
          · exact Or.inr (Or.inl ⟨hx, Has.uniq hd (hx ▸ h) hmem⟩)
          · exact Or.inl ⟨hx, h⟩
        · exact Or.inr (Or.inr h)
      · rintro (⟨_, h⟩ | ⟨rfl, rfl⟩ | h)
        · exact Or.inl h
        · exact Or.inl hmem
        · exact Or.inr h

/-- `balanceLeafNodes` keeps all entries and the order of the two leaves, provided that the comparison of the two first
slots, in use or not, tells which leaf has the smaller keys. -/
theorem balance_law (F : Laws c adm) {d r : Leaf M K V} (hd : LOk d) (hr : LOk r) (ha : ∀ x y, Has d x y → adm x) (hM : 0 < M)
    (ho : ∀ x y z w, Has d x y → Has r z w → beyond (decide (d.keys 0 < r.keys 0)) x z) (hlt : used r < used d) :
    ∃ d' r', d.balance c r = .ok (d', r') ∧ LOk d' ∧ LOk r' ∧ (∀ x y, Has d x y ∨ Has r x y ↔ Has d' x y ∨ Has r' x y) ∧
      (∀ x y, Has r x y → Has r' x y) ∧ (∀ x y z w, Has d' x y → Has r' z w → beyond (decide (d.keys 0 < r.keys 0)) x z) ∧
      used d' = (used d + used r) / 2 ∧ used d' + used r' = used d + used r := by
  have hcap : used d ≤ M := by
    have : BitmapSpec.members d.bits ⊆ Finset.range M := fun p hp => Finset.mem_range.2 (Bitmap.mem_members.1 hp).1
    unfold used
    simpa using Finset.card_le_card this
  unfold Leaf.balance
  simp only
  rw [count_used hd, count_used hr, Res.assert_pos hlt, Res.ok_bind, if_neg (by omega), rdA_ok hM, Res.ok_bind, rdA_ok hM, Res.ok_bind]
  obtain ⟨d', r', e, m1, m2, m3, m4, m5, m6, m7⟩ := balanceLoop_law F (decide (d.keys 0 < r.keys 0))
    (used d - (used d + used r) / 2) d r hd hr ha ho (by omega) (by omega)
  exact ⟨d', r', e, m1, m2, m3, m4, m5, by omega, by omega⟩


/-! ## Merges with the left neighbour -/

theorem upd_same {β : Type} (f : Nat → β) (i : Nat) (v : β) : upd f i v i = v := by simp [upd]

theorem upd_ne {β : Type} {f : Nat → β} {i j : Nat} {v : β} (h : j ≠ i) : upd f i v j = f j := by simp [upd, h]

/-- `pp` is the position to the left of `pos`. -/
structure LeftOf {N : Nat} {C : Type} (b : Branch N K C) (pos pp : Nat) : Prop where
  lt : pp < N
  bit : Bitmap.bit b.bits pp = true
  key : pos < N → b.keys pp < b.keys pos
  max : ∀ q, q < N → Bitmap.bit b.bits q = true → (pos < N → b.keys q < b.keys pos) → b.keys q ≤ b.keys pp

theorem deref_live {h : Heap M K V} {dead : List Nat} {i : Nat} {x : Cell M K V} (hx : h[i]? = some x) (hd : i ∉ dead) :
    deref h dead (some i) = .ok (i, x) := by
  unfold deref
  simp only [Res.ofOption_some, Res.ok_bind, hd, if_false, hx, Res.pure_eq]

theorem mergeLeaves_law {h : Heap M K V} {dead : List Nat} (hlink : LinkOk h) {i1 i2 : Nat} {x1 x2 : Cell M K V} (e1 : h[i1]? = some x1)
    (e2 : h[i2]? = some x2) (d1 : i1 ∉ dead) (d2 : i2 ∉ dead) (d3 : ∀ j, x2.next = some j → j ∉ dead)
    (h1 : LOk x1.leaf) (h2 : LOk x2.leaf) (hd : ∀ x y z, Has x1.leaf x y → ¬ Has x2.leaf x z)
    (hc : used x1.leaf + used x2.leaf ≤ M) : ∃ h' l, mergeLeaves h dead (some i1) (some i2) = .ok h' ∧ core h' i1 = some l ∧ LOk l ∧
      (∀ x y, Has l x y ↔ Has x1.leaf x y ∨ Has x2.leaf x y) ∧ (∀ i, i ≠ i1 → core h' i = core h i) ∧
      LinkOk h' ∧ h'.length = h.length := by
  obtain ⟨l, e, g1, g2, _⟩ := merge_law h1 h2 hd hc
  have hi1 : i1 < h.length := (List.getElem?_eq_some_iff.1 e1).1
  have hlk : LinkOk (h.set i1 { x1 with leaf := l, next := x2.next }) := by
    intro i z hz n hn
    rw [List.length_set]
    by_cases hi : i = i1
    · subst hi
      rw [List.getElem?_set_self hi1] at hz
      cases hz
      exact hlink i2 x2 e2 n hn
    · rw [List.getElem?_set_ne (Ne.symm hi)] at hz
      exact hlink i z hz n hn
  unfold mergeLeaves
  simp only [Option.isSome_some]
  rw [Res.assert_pos trivial, Res.ok_bind, Res.ok_bind, deref_live e1 d1, Res.ok_bind, deref_live e2 d2, Res.ok_bind]
  dsimp only
  rw [count_used h1, count_used h2, Res.assert_pos hc, Res.ok_bind, e, Res.ok_bind]
  cases hn : x2.next with
  | none =>
    refine ⟨_, l, rfl, ?_, g1, g2, fun i hi => ?_, by rw [← hn]; exact hlk, List.length_set⟩
    · exact core_some.2 ⟨_, List.getElem?_set_self hi1, rfl⟩
    · unfold core; rw [List.getElem?_set_ne (Ne.symm hi)]
  | some j =>
    have hj : j < h.length := hlink i2 x2 e2 j hn
    have hjl : j < (h.set i1 { x1 with leaf := l, next := some j }).length := by simpa using hj
    have ej := List.getElem?_eq_getElem hjl
    dsimp only
    rw [deref_live ej (d3 j hn), Res.ok_bind]
    set y := (h.set i1 { x1 with leaf := l, next := some j })[j] with hy
    have key : ∀ i, core ((h.set i1 { x1 with leaf := l, next := some j }).set j { y with prev := some i1 }) i =
        core (h.set i1 { x1 with leaf := l, next := some j }) i := by
      intro i
      unfold core
      by_cases hij : i = j
      · subst hij
        rw [List.getElem?_set_self hjl, ej]; rfl
      · rw [List.getElem?_set_ne (Ne.symm hij)]
    rw [hn] at hlk
    refine ⟨_, l, rfl, ?_, g1, g2, fun i hi => ?_, ?_, by rw [List.length_set, List.length_set]⟩
    · rw [key]
      exact core_some.2 ⟨_, List.getElem?_set_self hi1, rfl⟩
    · rw [key]
      unfold core; rw [List.getElem?_set_ne (Ne.symm hi)]
    · intro i z hz n hzn
      rw [List.length_set]
      by_cases hi : i = j
      · subst hi
        rw [List.getElem?_set_self hjl] at hz
        cases hz
        exact hlk i y ej n hzn
      · rw [List.getElem?_set_ne (Ne.symm hi)] at hz
        exact hlk i z hz n hzn

/-- The branch node after a merge with the left neighbour. -/
theorem dropLeft_law {h h' : Heap M K V} {b : Branch c.N K Nat} {R : K → Prop}
    (ho : Ok (N := c.N) h 1 b R) {pos pp id s : Nat} (hpos : live b pos) (hl : LeftOf b pos pp)
    (hid : b.kids pos = some id) (hs : b.kids pp = some s) {lx ly l : Leaf M K V} (ex : core h id = some lx)
    (ey : core h s = some ly) (el : core h' s = some l) (okl : LOk l) (hl' : ∀ x y, Has l x y ↔ Has ly x y ∨ Has lx x y)
    (hfr : ∀ i, i ≠ s → core h' i = core h i) :
    ∃ bits, b.bits.reset pp = .ok bits ∧ Ok (N := c.N) h' 1 ({ b with bits := bits, kids := upd b.kids pos (some s) } : Branch c.N K Nat) R ∧
      (∀ i ∈ fp (N := c.N) 1 ({ b with bits := bits, kids := upd b.kids pos (some s) } : Branch c.N K Nat),
        i ∈ fp (N := c.N) 1 b ∧ i ≠ id) ∧
      (∀ x y, hasT (N := c.N) h' 1 ({ b with bits := bits, kids := upd b.kids pos (some s) } : Branch c.N K Nat) x y ↔
        hasT (N := c.N) h 1 b x y) ∧
      (bits.count = 0 → ∀ z, Kid ({ b with bits := bits, kids := upd b.kids pos (some s) } : Branch c.N K Nat) z ↔ z = s) := by
  have ho' : BOk (Ok (N := c.N) h 0) (fp (N := c.N) (K := K) 0) b R := ho
  obtain ⟨bits, eb, hbits, hcl⟩ := set_bit' (b := b.bits) hl.lt false
  have hlp : live b pp := Or.inl ⟨hl.lt, hl.bit⟩
  have hne : pos ≠ pp := by
    rintro rfl
    exact lt_irrefl _ (hl.key hl.lt)
  have hsid : s ≠ id := by
    rintro rfl
    exact Set.disjoint_left.1 (ho'.disj pos pp s s hpos hlp hne hid hs) rfl rfl
  have aux : ∀ q, q < c.N → Bitmap.bit bits q = true → q ≠ pp ∧ Bitmap.bit b.bits q = true := by
    intro q hq h
    rw [hbits q hq] at h
    split at h
    · cases h
    · exact ⟨by assumption, h⟩
  set b' : Branch c.N K Nat := { b with bits := bits, kids := upd b.kids pos (some s) } with hb'
  have hlive : ∀ q, live b' q ↔ live b q ∧ q ≠ pp := by
    intro q
    constructor
    · rintro (⟨h1, h2⟩ | rfl)
      · exact ⟨Or.inl ⟨h1, (aux q h1 h2).2⟩, (aux q h1 h2).1⟩
      · exact ⟨Or.inr rfl, fun h => by have := hl.lt; omega⟩
    · rintro ⟨⟨h1, h2⟩ | rfl, h3⟩
      · refine Or.inl ⟨h1, ?_⟩
        show Bitmap.bit bits q = true
        rw [hbits q h1, if_neg h3, h2]
      · exact Or.inr rfl
  have hkids : ∀ q z, live b' q → b'.kids q = some z → (q = pos ∧ z = s) ∨ (q ≠ pos ∧ b.kids q = some z) := by
    intro q z hq hz
    change upd b.kids pos (some s) q = some z at hz
    by_cases hqp : q = pos
    · left
      subst hqp
      rw [upd_same] at hz
      exact ⟨rfl, (Option.some.inj hz).symm⟩
    · right
      rw [upd_ne hqp] at hz
      exact ⟨hqp, hz⟩
  have hother : ∀ q z, live b q → q ≠ pp → b.kids q = some z → z ≠ s := by
    rintro q z hq hqp hz rfl
    exact Set.disjoint_left.1 (ho'.disj q pp z z hq hlp hqp hz hs) rfl rfl
  have hrx : ∀ x y, Has lx x y → rng b R pos x := by
    intro x y hxy
    obtain ⟨z, e, hz⟩ := ho'.kid pos hpos
    rw [hid] at e
    cases Option.some.inj e
    obtain ⟨l0, e0, _, h0⟩ := ok_zero.1 hz
    rw [ex] at e0
    cases Option.some.inj e0
    exact h0 x y hxy
  have hry : ∀ x y, Has ly x y → rng b R pp x := by
    intro x y hxy
    obtain ⟨z, e, hz⟩ := ho'.kid pp hlp
    rw [hs] at e
    cases Option.some.inj e
    obtain ⟨l0, e0, _, h0⟩ := ok_zero.1 hz
    rw [ey] at e0
    cases Option.some.inj e0
    exact h0 x y hxy
  refine ⟨bits, by rw [Bitmap.reset_eq_set, eb], ?_, ?_, fun x y => ⟨?_, ?_⟩, fun h0 z => ?_⟩
  · refine ⟨hcl ho'.clean, fun i j hi hj h1 h2 he => ?_, fun p hp hbp => ?_, fun p hp => ?_, fun p q x y hp hq hpq hx hy => ?_⟩
    · exact ho'.inj i j hi hj (aux i hi h1).2 (aux j hj h2).2 he
    · exact ho'.sep p hp (aux p hp hbp).2
    · obtain ⟨g1, g2⟩ := (hlive p).1 hp
      by_cases hpp : p = pos
      · subst hpp
        refine ⟨s, upd_same .., ok_zero.2 ⟨l, el, okl, fun x y hxy => ?_⟩⟩
        rcases (hl' x y).1 hxy with hxy | hxy
        · obtain ⟨r1, r2, r3⟩ := hry x y hxy
          refine ⟨r1, fun hp => lt_trans (r2 hl.lt) (hl.key hp), fun q hq hbq hlt => ?_⟩
          obtain ⟨a1, a2⟩ := aux q hq hbq
          have := hl.max q hq a2 hlt
          exact r3 q hq a2 (fun _ => lt_of_le_of_ne this fun he => a1 (ho'.inj q pp hq hl.lt a2 hl.bit he))
        · obtain ⟨r1, r2, r3⟩ := hrx x y hxy
          exact ⟨r1, r2, fun q hq hbq hlt => r3 q hq (aux q hq hbq).2 hlt⟩
      · obtain ⟨z, e, hz⟩ := ho'.kid p g1
        refine ⟨z, (upd_ne hpp).trans e, ?_⟩
        obtain ⟨l0, e0, k1, k2⟩ := ok_zero.1 hz
        refine ok_zero.2 ⟨l0, by rw [hfr z (hother p z g1 g2 e), e0], k1, fun x y hxy => ?_⟩
        obtain ⟨r1, r2, r3⟩ := k2 x y hxy
        exact ⟨r1, r2, fun q hq hbq hlt => r3 q hq (aux q hq hbq).2 hlt⟩
    · have d1 := (hlive p).1 hp
      have d2 := (hlive q).1 hq
      rcases hkids p x hp hx with ⟨rfl, rfl⟩ | ⟨e1, e2⟩ <;> rcases hkids q y hq hy with ⟨rfl, rfl⟩ | ⟨e3, e4⟩
      · exact absurd rfl hpq
      · exact ho'.disj pp q _ y hlp d2.1 (Ne.symm d2.2) hs e4
      · exact ho'.disj p pp x _ d1.1 hlp d1.2 e2 hs
      · exact ho'.disj p q x y d1.1 d2.1 hpq e2 e4
  · rintro i ⟨z, ⟨q, hq, hz⟩, he⟩
    have he : i = z := he
    subst he
    obtain ⟨g1, g2⟩ := (hlive q).1 hq
    rcases hkids q _ hq hz with ⟨_, h2⟩ | ⟨h1, h2⟩
    · exact ⟨⟨s, ⟨pp, hlp, hs⟩, h2⟩, h2 ▸ hsid⟩
    · refine ⟨⟨i, ⟨q, g1, h2⟩, rfl⟩, ?_⟩
      rintro rfl
      exact Set.disjoint_left.1 (ho'.disj q pos i i g1 hpos h1 h2 hid) rfl rfl
  · rintro ⟨z, ⟨q, hq, hz⟩, hv⟩
    obtain ⟨g1, g2⟩ := (hlive q).1 hq
    obtain ⟨l0, e0, hv⟩ := hasT_zero.1 hv
    rcases hkids q _ hq hz with ⟨rfl, rfl⟩ | ⟨h1, h2⟩
    · rw [el] at e0
      cases Option.some.inj e0
      rcases (hl' x y).1 hv with hv | hv
      · exact ⟨z, ⟨pp, hlp, hs⟩, hasT_zero.2 ⟨ly, ey, hv⟩⟩
      · exact ⟨id, ⟨q, hpos, hid⟩, hasT_zero.2 ⟨lx, ex, hv⟩⟩
    · rw [hfr z (hother q z g1 g2 h2)] at e0
      exact ⟨z, ⟨q, g1, h2⟩, hasT_zero.2 ⟨l0, e0, hv⟩⟩
  · rintro ⟨z, ⟨q, hq, hz⟩, hv⟩
    obtain ⟨l0, e0, hv⟩ := hasT_zero.1 hv
    have hposl : live b' pos := (hlive pos).2 ⟨hpos, hne⟩
    by_cases hq1 : q = pos
    · subst hq1
      rw [hid] at hz
      cases Option.some.inj hz
      rw [ex] at e0
      cases Option.some.inj e0
      exact ⟨s, ⟨q, hposl, upd_same ..⟩, hasT_zero.2 ⟨l, el, (hl' x y).2 (Or.inr hv)⟩⟩
    · by_cases hq2 : q = pp
      · subst hq2
        rw [hs] at hz
        cases Option.some.inj hz
        rw [ey] at e0
        cases Option.some.inj e0
        exact ⟨s, ⟨pos, hposl, upd_same ..⟩, hasT_zero.2 ⟨l, el, (hl' x y).2 (Or.inl hv)⟩⟩
      · exact ⟨z, ⟨q, (hlive q).2 ⟨hq, hq2⟩, (upd_ne hq1).trans hz⟩, hasT_zero.2 ⟨l0, by rw [hfr z (hother q z hq hq2 hz), e0], hv⟩⟩
  · have hempty : ∀ q, q < c.N → Bitmap.bit bits q ≠ true := by
      intro q hq hb
      rw [Bitmap.count_eq_card (hcl ho'.clean), Finset.card_eq_zero] at h0
      have : q ∈ BitmapSpec.members bits := Bitmap.mem_members.2 ⟨hq, hb⟩
      rw [h0] at this
      simp at this
    have hposN : pos = c.N := by
      rcases (hlive pos).2 ⟨hpos, hne⟩ with ⟨h1, h2⟩ | h
      · exact absurd h2 (hempty pos h1)
      · exact h
    constructor
    · rintro ⟨q, hq, hz⟩
      rcases hkids q z hq hz with ⟨_, h2⟩ | ⟨h1, h2⟩
      · exact h2
      · rcases hq with ⟨h3, h4⟩ | h3
        · exact absurd h4 (hempty q h3)
        · exact absurd (h3.trans hposN.symm) h1
    · rintro rfl
      exact ⟨pos, (hlive pos).2 ⟨hpos, hne⟩, upd_same ..⟩

end Verif.BitTree
