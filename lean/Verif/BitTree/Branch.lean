import Verif.BitTree.Leaf

/-!
# Branch nodes of the bitmap trees

`P child R` stands for "the child is a correct subtree for the key range `R`", `F child` for the leaves
it occupies; the laws of this file hold for any `P` that is monotone in the range.
-/

set_option linter.unusedSectionVars false

namespace Verif.BitTree

open Verif Search FPTree BTree

variable {K : Type} {N : Nat} {C : Type} [LinearOrder K] [Inhabited K]

/-- Positions of `children` in use. -/
def live (b : Branch N K C) (p : Nat) : Prop := (p < N ∧ Bitmap.bit b.bits p = true) ∨ p = N

/-- The keys of `R` that belong to position `p`. -/
def rng (b : Branch N K C) (R : K → Prop) (p : Nat) (k : K) : Prop :=
  R k ∧ (p < N → k < b.keys p) ∧
    ∀ q, q < N → Bitmap.bit b.bits q = true → (p < N → b.keys q < b.keys p) → b.keys q ≤ k

/-- `x` is a child of `b`. -/
def Kid (b : Branch N K C) (x : C) : Prop := ∃ p, live b p ∧ b.kids p = some x

/-- Well-formed branch nodes for the key range `R`. -/
structure BOk (P : C → (K → Prop) → Prop) (F : C → Set Nat) (b : Branch N K C) (R : K → Prop) : Prop where
  clean : Bitmap.Clean b.bits
  inj : ∀ i j, i < N → j < N → Bitmap.bit b.bits i = true → Bitmap.bit b.bits j = true →
    b.keys i = b.keys j → i = j
  sep : ∀ p, p < N → Bitmap.bit b.bits p = true → R (b.keys p) ∧ ∃ k, R k ∧ k < b.keys p
  kid : ∀ p, live b p → ∃ x, b.kids p = some x ∧ P x (rng b R p)
  disj : ∀ p q x y, live b p → live b q → p ≠ q → b.kids p = some x → b.kids q = some y → Disjoint (F x) (F y)

variable {P : C → (K → Prop) → Prop} {F : C → Set Nat} {b : Branch N K C} {R : K → Prop}

theorem live_lt {p : Nat} (h : live b p) : p < N + 1 := by
  rcases h with ⟨h, _⟩ | h <;> omega

theorem live_bit {p : Nat} (h : live b p) (hp : p < N) : Bitmap.bit b.bits p = true := by
  rcases h with ⟨_, h⟩ | h
  · exact h
  · omega

theorem rng_unique (h : BOk P F b R) {p q : Nat} (hp : live b p) (hq : live b q) {k : K}
    (h1 : rng b R p k) (h2 : rng b R q k) : p = q := by
  by_cases ep : p < N <;> by_cases eq : q < N
  · by_contra hne
    rcases lt_trichotomy (b.keys p) (b.keys q) with hlt | he | hlt
    · exact absurd (h1.2.1 ep) (not_lt.2 (h2.2.2 p ep (live_bit hp ep) (fun _ => hlt)))
    · exact hne (h.inj p q ep eq (live_bit hp ep) (live_bit hq eq) he)
    · exact absurd (h2.2.1 eq) (not_lt.2 (h1.2.2 q eq (live_bit hq eq) (fun _ => hlt)))
  · exact absurd (h1.2.1 ep) (not_lt.2 (h2.2.2 p ep (live_bit hp ep) (fun h => absurd h eq)))
  · exact absurd (h2.2.1 eq) (not_lt.2 (h1.2.2 q eq (live_bit hq eq) (fun h => absurd h ep)))
  · rcases hp with ⟨h, _⟩ | h
    · exact absurd h ep
    · rcases hq with ⟨h', _⟩ | h'
      · exact absurd h' eq
      · rw [h, h']

/-- `lookupPositionInBranchNode` finds the position the key belongs to. -/
theorem pos_law {lim : Limits K} (hlim : ∀ p, p < N → Bitmap.bit b.bits p = true → b.keys p < lim.max)
    {k : K} (hk : R k) : ∃ p, b.pos lim k = .ok p ∧ live b p ∧ rng b R p k := by
  obtain ⟨x, p, e, h⟩ := bits_search (fun i : Fin N => b.keys i) b.bits lim.max (fun y => decide (k < y))
    (fun a b => a < b) (fun a b c h1 h2 => by simp only [not_lt] at *; exact le_trans h2.le h1)
    (fun a => lt_irrefl a) (fun _ _ _ h1 h2 => lt_trans h1 h2)
    (fun i y cur => testAnd b.bits i (decide (y < cur) && decide (k < y))) (fun i y c => rfl)
  have er : b.pos lim k = .ok (if x = lim.max then N else p) := by
    unfold Branch.pos findMinKeyPosGreaterThan
    simp only [e, Res.ok_bind, Res.pure_eq]
  rw [er]
  rcases h with ⟨h1, h2, h3⟩ | ⟨hp, h1, h2, h3, h4, h5⟩
  · rw [if_pos h1]
    refine ⟨N, rfl, Or.inr rfl, hk, fun h => absurd h (lt_irrefl _), fun q hq hb _ => ?_⟩
    by_contra hlt
    exact h3 ⟨q, hq⟩ ((test_iff' _ ⟨q, hq⟩).2 hb) (decide_eq_true (not_le.1 hlt)) (hlim q hq hb)
  · have hb := (test_iff' _ ⟨p, hp⟩).1 h1
    simp only at h3
    rw [if_neg (by rw [← h3]; exact (hlim p hp hb).ne)]
    refine ⟨p, rfl, Or.inl ⟨hp, hb⟩, hk, fun _ => of_decide_eq_true h2, fun q hq hbq hlt => ?_⟩
    by_contra hgt
    have := h5 ⟨q, hq⟩ ((test_iff' _ ⟨q, hq⟩).2 hbq) (decide_eq_true (not_le.1 hgt))
    rw [← h3] at this
    exact this (hlt hp)

theorem kid_ok {p : Nat} {x : C} (hp : p < N + 1) (hx : b.kids p = some x) : b.kid p = .ok x := by
  unfold Branch.kid
  rw [rdA_ok hp, Res.ok_bind, hx]; rfl

/-- Replacing the child at `p`, its leaves staying apart from those of the others. -/
theorem replace_law {P' : C → (K → Prop) → Prop} (h : BOk P F b R) {p : Nat} (hp : live b p) {x : C}
    (hx : P' x (rng b R p)) (ho : ∀ q y, live b q → q ≠ p → b.kids q = some y → P y (rng b R q) → P' y (rng b R q))
    (hd : ∀ q y, live b q → q ≠ p → b.kids q = some y → Disjoint (F x) (F y)) :
    BOk P' F ({ b with kids := upd b.kids p (some x) } : Branch N K C) R := by
  refine ⟨h.clean, h.inj, h.sep, fun q hq => ?_, fun q r y z hq hr hne hy hz => ?_⟩
  · by_cases e : q = p
    · subst e; exact ⟨x, by simp [upd], hx⟩
    · obtain ⟨y, hy, hP⟩ := h.kid q hq
      exact ⟨y, by simpa [upd, e] using hy, ho q y hq e hy hP⟩
  · simp only [upd] at hy hz
    by_cases e1 : q = p
    · rw [if_pos e1] at hy
      rw [if_neg (by rintro rfl; exact hne e1)] at hz
      cases hy
      exact hd r z hr (by rintro rfl; exact hne e1) hz
    · rw [if_neg e1] at hy
      by_cases e2 : r = p
      · rw [if_pos e2] at hz
        cases hz
        exact (hd q y hq e1 hy).symm
      · rw [if_neg e2] at hz
        exact h.disj q r y z hq hr hne hy hz

theorem not_full {b : Branch N K C} (hc : Bitmap.Clean b.bits) (h : b.bits.count ≠ N) :
    ∃ p, p < N ∧ Bitmap.bit b.bits p = false := by
  by_contra hno
  push Not at hno
  apply h
  rw [Bitmap.count_eq_card hc]
  have : BitmapSpec.members b.bits = Finset.range N := by
    ext p; rw [Bitmap.mem_members, Finset.mem_range]
    exact ⟨fun h => h.1, fun hp => ⟨hp, by simpa using hno p hp⟩⟩
  rw [show BitmapSpec.members b.bits = Finset.range N from this, Finset.card_range]

theorem full_of_count {b : Branch N K C} (hc : Bitmap.Clean b.bits) (h : b.bits.count = N) :
    ∀ p, p < N → Bitmap.bit b.bits p = true := by
  rw [Bitmap.count_eq_card hc] at h
  have hs : BitmapSpec.members b.bits ⊆ Finset.range N := fun p hp =>
    Finset.mem_range.2 (Bitmap.mem_members.1 hp).1
  have := Finset.eq_of_subset_of_card_le hs (by rw [Finset.card_range, h])
  intro p hp
  have hm : p ∈ BitmapSpec.members b.bits := by rw [this]; simpa using hp
  exact (Bitmap.mem_members.1 hm).2

/-- A new separator with its right child. -/
theorem add_law (hP : ∀ x R R', (∀ k, R k → R' k) → P x R → P x R') {lim : Limits K}
    (hlim : ∀ k, R k → k < lim.max) (h : BOk P F b R)
    (hz : ∃ p, p < N ∧ Bitmap.bit b.bits p = false) {p : Nat} (hp : live b p) {s : K} {left right : C}
    (hleft : b.kids p = some left) (hs : rng b R p s) (hk0 : ∃ k0, rng b R p k0 ∧ k0 < s)
    (h1 : P left (fun k => rng b R p k ∧ k < s)) (h2 : P right (fun k => rng b R p k ∧ s ≤ k))
    (hd : ∀ x, Kid b x → Disjoint (F right) (F x)) :
    ∃ b', b.add lim s left right = .ok b' ∧ BOk P F b' R ∧
      ∀ G : C → Prop, (∃ x, Kid b' x ∧ G x) ↔ (∃ x, Kid b x ∧ G x) ∨ G right := by
  obtain ⟨hu, hub⟩ := free_of_zero hz
  obtain ⟨np, enp, hnp, hnp'⟩ := pos_law (b := b) (R := R) (lim := lim) (k := s)
    (fun q hq hb => hlim _ (h.sep q hq hb).1) hs.1
  have : np = p := rng_unique h hnp hp hnp' hs
  subst this
  obtain ⟨b', e, hbits, hcl⟩ := set_bit' (b := b.bits) hu true
  unfold Branch.add
  simp only
  rw [enp, Res.ok_bind]
  generalize b.bits.getFreeZero = u at *
  have hup : u ≠ np := by
    rintro rfl
    have := live_bit hp hu
    rw [hub] at this; cases this
  rw [if_neg (by omega), e, Res.ok_bind]
  set b2 : Branch N K C := ⟨b', upd b.keys u s, upd (upd b.kids u (some left)) np (some right)⟩ with hb2
  have hlive : ∀ q, live b2 q ↔ q = u ∨ live b q := by
    intro q
    unfold live
    constructor
    · rintro (⟨h1, h2⟩ | h1)
      · rw [hb2] at h2; simp only at h2
        rw [hbits q h1] at h2
        by_cases e : q = u
        · exact Or.inl e
        · rw [if_neg e] at h2; exact Or.inr (Or.inl ⟨h1, h2⟩)
      · exact Or.inr (Or.inr h1)
    · rintro (rfl | ⟨h1, h2⟩ | h1)
      · exact Or.inl ⟨hu, by rw [hb2]; simp only; rw [hbits q hu, if_pos rfl]⟩
      · refine Or.inl ⟨h1, ?_⟩
        rw [hb2]; simp only
        rw [hbits q h1]
        split
        · rfl
        · exact h2
      · exact Or.inr h1
  have hbit : ∀ q, q < N → Bitmap.bit b2.bits q = true → q = u ∨ Bitmap.bit b.bits q = true := by
    intro q hq hb
    rw [hb2] at hb; simp only at hb
    rw [hbits q hq] at hb
    by_cases e : q = u
    · exact Or.inl e
    · rw [if_neg e] at hb; exact Or.inr hb
  have ku : b2.keys u = s := by rw [hb2]; simp [upd]
  have kq : ∀ q, q ≠ u → b2.keys q = b.keys q := by intro q hq; rw [hb2]; simp [upd, hq]
  have cu : b2.kids u = some left := by rw [hb2]; simp [upd, hup]
  have cp : b2.kids np = some right := by rw [hb2]; simp [upd]
  have cq : ∀ q, q ≠ u → q ≠ np → b2.kids q = b.kids q := by
    intro q h1 h2; rw [hb2]; simp [upd, h1, h2]
  have hne : ∀ q, q < N → Bitmap.bit b.bits q = true → b.keys q ≠ s := by
    intro q hq hb he
    obtain ⟨k0, hk0, hlt⟩ := hk0
    have := hk0.2.2 q hq hb (fun hp' => by rw [he]; exact hs.2.1 hp')
    rw [he] at this
    exact absurd hlt (not_lt.2 this)
  have unu : ∀ q, Bitmap.bit b.bits q = true → q ≠ u := by
    rintro q hq rfl; rw [hub] at hq; cases hq
  have lnu : ∀ q, live b q → q ≠ u := by
    rintro q hq rfl
    exact unu q (live_bit hq hu) rfl
  have r1 : ∀ x, rng b R np x ∧ x < s → rng b2 R u x := by
    rintro x ⟨hx, hxs⟩
    refine ⟨hx.1, fun _ => by rw [ku]; exact hxs, fun r hr hbr hlt => ?_⟩
    have hlt := hlt hu
    rcases hbit r hr hbr with rfl | hbr
    · exact absurd hlt (lt_irrefl _)
    · rw [ku, kq r (unu r hbr)] at hlt
      rw [kq r (unu r hbr)]
      exact hx.2.2 r hr hbr (fun hp' => lt_trans hlt (hs.2.1 hp'))
  have r2 : ∀ x, rng b R np x ∧ s ≤ x → rng b2 R np x := by
    rintro x ⟨hx, hxs⟩
    refine ⟨hx.1, fun hp' => by rw [kq np (Ne.symm hup)]; exact hx.2.1 hp', fun r hr hbr hlt => ?_⟩
    rcases hbit r hr hbr with rfl | hbr
    · rw [ku]; exact hxs
    · rw [kq r (unu r hbr)] at hlt ⊢
      exact hx.2.2 r hr hbr (fun hp' => by have := hlt hp'; rwa [kq np (Ne.symm hup)] at this)
  have r3 : ∀ q, live b q → q ≠ np → ∀ x, rng b R q x → rng b2 R q x := by
    intro q hq hqp x hx
    have hqu := lnu q hq
    refine ⟨hx.1, fun hp' => by rw [kq q hqu]; exact hx.2.1 hp', fun r hr hbr hlt => ?_⟩
    rcases hbit r hr hbr with rfl | hbr
    · rw [ku] at hlt ⊢
      by_cases hqN : q < N
      · have hlt := hlt hqN
        rw [kq q hqu] at hlt
        have hqb := live_bit hq hqN
        by_cases hpN : np < N
        · have hpb := live_bit hp hpN
          have : b.keys np < b.keys q := by
            rcases lt_trichotomy (b.keys np) (b.keys q) with h' | h' | h'
            · exact h'
            · exact absurd (h.inj np q hpN hqN hpb hqb h') (Ne.symm hqp)
            · exact absurd hlt (not_lt.2 (hs.2.2 q hqN hqb (fun _ => h')))
          exact (hs.2.1 hpN).le.trans (hx.2.2 np hpN hpb (fun _ => this))
        · exact absurd hlt (not_lt.2 (hs.2.2 q hqN hqb (fun h' => absurd h' hpN)))
      · have hpN : np < N := by
          have := live_lt hp; have := live_lt hq; omega
        exact (hs.2.1 hpN).le.trans (hx.2.2 np hpN (live_bit hp hpN) (fun h' => absurd h' hqN))
    · rw [kq r (unu r hbr)] at hlt ⊢
      exact hx.2.2 r hr hbr (fun hp' => by have := hlt hp'; rwa [kq q hqu] at this)
  refine ⟨b2, rfl, ⟨hcl h.clean, ?_, ?_, ?_, ?_⟩, ?_⟩
  · intro i j hi hj hbi hbj hij
    rcases hbit i hi hbi with rfl | hbi'
    · rcases hbit j hj hbj with rfl | hbj'
      · rfl
      · rw [ku, kq j (unu j hbj')] at hij
        exact absurd hij.symm (hne j hj hbj')
    · rcases hbit j hj hbj with rfl | hbj'
      · rw [ku, kq i (unu i hbi')] at hij
        exact absurd hij (hne i hi hbi')
      · rw [kq i (unu i hbi'), kq j (unu j hbj')] at hij
        exact h.inj i j hi hj hbi' hbj' hij
  · intro q hq hb
    rcases hbit q hq hb with rfl | hb'
    · rw [ku]
      obtain ⟨k0, hk0, hlt⟩ := hk0
      exact ⟨hs.1, k0, hk0.1, hlt⟩
    · rw [kq q (unu q hb')]
      exact h.sep q hq hb'
  · intro q hq
    by_cases e1 : q = u
    · subst e1; exact ⟨left, cu, hP _ _ _ r1 h1⟩
    · have hq' : live b q := by
        rcases (hlive q).1 hq with h' | h'
        · exact absurd h' e1
        · exact h'
      by_cases e2 : q = np
      · subst e2; exact ⟨right, cp, hP _ _ _ r2 h2⟩
      · obtain ⟨x, hx, hPx⟩ := h.kid q hq'
        exact ⟨x, by rw [cq q e1 e2]; exact hx, hP _ _ _ (r3 q hq' e2) hPx⟩
  · have old : ∀ q, q ≠ u → live b2 q → live b q := by
      intro q e1 hq
      rcases (hlive q).1 hq with h' | h'
      · exact absurd h' e1
      · exact h'
    -- kids of `b2` come from `b`, except `right` at `np`
    have src : ∀ q x, live b2 q → q ≠ np → b2.kids q = some x →
        ∃ q', live b q' ∧ b.kids q' = some x ∧ (q' = if q = u then np else q) := by
      intro q x hq e2 hx
      by_cases e1 : q = u
      · subst e1
        rw [cu] at hx; cases hx
        exact ⟨np, hp, hleft, by simp⟩
      · exact ⟨q, old q e1 hq, by rw [← cq q e1 e2]; exact hx, by simp [e1]⟩
    intro q r x y hq hr hqr hx hy
    by_cases e1 : q = np
    · subst e1
      rw [cp] at hx; cases hx
      obtain ⟨r', h1, h2, _⟩ := src r y hr (Ne.symm hqr) hy
      exact hd y ⟨r', h1, h2⟩
    · by_cases e2 : r = np
      · subst e2
        rw [cp] at hy; cases hy
        obtain ⟨q', h1, h2, _⟩ := src q x hq e1 hx
        exact (hd x ⟨q', h1, h2⟩).symm
      · obtain ⟨q', a1, a2, a3⟩ := src q x hq e1 hx
        obtain ⟨r', b1, b2, b3⟩ := src r y hr e2 hy
        refine h.disj q' r' x y a1 b1 ?_ a2 b2
        rw [a3, b3]
        by_cases f1 : q = u <;> by_cases f2 : r = u
        · exact absurd (f1.trans f2.symm) hqr
        · rw [if_pos f1, if_neg f2]; exact Ne.symm e2
        · rw [if_neg f1, if_pos f2]; exact e1
        · rw [if_neg f1, if_neg f2]; exact hqr
  · intro G
    constructor
    · rintro ⟨x, ⟨q, hq, hx⟩, hG⟩
      by_cases e2 : q = np
      · subst e2; rw [cp] at hx; cases hx; exact Or.inr hG
      · by_cases e1 : q = u
        · subst e1; rw [cu] at hx; cases hx
          exact Or.inl ⟨left, ⟨np, hp, hleft⟩, hG⟩
        · refine Or.inl ⟨x, ⟨q, ?_, by rw [← cq q e1 e2]; exact hx⟩, hG⟩
          rcases (hlive q).1 hq with h' | h'
          · exact absurd h' e1
          · exact h'
    · rintro (⟨x, ⟨q, hq, hx⟩, hG⟩ | hG)
      · by_cases e2 : q = np
        · subst e2; rw [hleft] at hx; cases hx
          exact ⟨left, ⟨u, (hlive u).2 (Or.inl rfl), cu⟩, hG⟩
        · exact ⟨x, ⟨q, (hlive q).2 (Or.inr hq), by rw [cq q (lnu q hq) e2]; exact hx⟩, hG⟩
      · exact ⟨right, ⟨np, (hlive np).2 (Or.inr hp), cp⟩, hG⟩

/-- Splitting a full branch node. -/
theorem bsplit_law (hP : ∀ x R R', (∀ k, R k → R' k) → P x R → P x R') {cv : Conv K} (hN : 2 ≤ N)
    (hN64 : N % 64 ≠ 0) (hconv : ∀ k, R k → cv.ofSize (cv.toSize k) = k)
    (hmono : ∀ k k', R k → R k' → (cv.toSize k < cv.toSize k' ↔ k < k'))
    (h : BOk P F b R) (hfull : ∀ p, p < N → Bitmap.bit b.bits p = true) :
    ∃ b1 b2 sk, b.split cv = .ok (b1, b2, sk) ∧ R sk ∧ (∃ k, R k ∧ k < sk) ∧
      BOk P F b1 (fun k => R k ∧ k < sk) ∧ BOk P F b2 (fun k => R k ∧ sk ≤ k) ∧
      (∃ p, p < N ∧ Bitmap.bit b1.bits p = false) ∧ (∃ p, p < N ∧ Bitmap.bit b2.bits p = false) ∧
      (∀ x, Kid b x ↔ Kid b1 x ∨ Kid b2 x) ∧
      (∀ x y, Kid b1 x → Kid b2 y → Disjoint (F x) (F y)) ∧
      (∀ p x k, live b p → b.kids p = some x → rng b R p k →
        (k < sk → ∃ p1, live b1 p1 ∧ b1.kids p1 = some x ∧
          ∀ k', rng b R p k' → rng b1 (fun k => R k ∧ k < sk) p1 k') ∧
        (sk ≤ k → ∃ p2, live b2 p2 ∧ b2.kids p2 = some x ∧
          ∀ k', rng b R p k' → rng b2 (fun k => R k ∧ sk ≤ k) p2 k')) := by
  have hR : ∀ i, i < N → R (b.keys i) := fun i hi => (h.sep i hi (hfull i hi)).1
  have hinj : ∀ i j, i < N → j < N → b.keys i = b.keys j → i = j := fun i j hi hj =>
    h.inj i j hi hj (hfull i hi) (hfull j hj)
  obtain ⟨w, sp, e, hp, hcl, hb, _⟩ := splitKey_law cv hN b.keys (fun i hi => hconv _ (hR i hi))
    (fun i j hi hj => hmono _ _ (hR i hi) (hR j hj)) hinj
  obtain ⟨w1, e1, hw1, hc1⟩ := set_bit' (b := w) hp false
  obtain ⟨w2, e2, hw2, hc2⟩ := set_bit' (b := w1.flip) hp false
  have hbit1 : ∀ q, q < N → (Bitmap.bit w1 q = true ↔ b.keys q < b.keys sp) := by
    intro q hq
    rw [hw1 q hq]
    by_cases eq : q = sp
    · subst eq; simp
    · rw [if_neg eq, hb q hq]
  have hbit2 : ∀ q, q < N → (Bitmap.bit w2 q = true ↔ b.keys sp < b.keys q) := by
    intro q hq
    rw [hw2 q hq]
    by_cases eq : q = sp
    · subst eq; simp
    · rw [if_neg eq, Bitmap.bit_flip _ _ hq, if_neg (by tauto), Bool.not_eq_true', ← Bool.not_eq_true, hbit1 q hq,
        not_lt]
      exact ⟨fun h' => lt_of_le_of_ne h' (fun h'' => eq (hinj _ _ hp hq h'').symm), fun h' => h'.le⟩
  unfold Branch.split
  rw [e, Res.ok_bind, rdA_ok hp, Res.ok_bind, Bitmap.reset_eq_set, e1, Res.ok_bind, Bitmap.reset_eq_set, e2, Res.ok_bind]
  set sk := b.keys sp with hsk
  set b1 : Branch N K C := ⟨w1, b.keys, upd b.kids N (b.kids sp)⟩ with hb1
  set b2 : Branch N K C := ⟨w2, b.keys, b.kids⟩ with hb2
  have lsp : live b sp := Or.inl ⟨hp, hfull sp hp⟩
  have l1 : ∀ q, live b1 q ↔ (q < N ∧ b.keys q < sk) ∨ q = N := by
    intro q
    unfold live
    constructor
    · rintro (⟨h1, h2⟩ | h1)
      · exact Or.inl ⟨h1, (hbit1 q h1).1 h2⟩
      · exact Or.inr h1
    · rintro (⟨h1, h2⟩ | h1)
      · exact Or.inl ⟨h1, (hbit1 q h1).2 h2⟩
      · exact Or.inr h1
  have l2 : ∀ q, live b2 q ↔ (q < N ∧ sk < b.keys q) ∨ q = N := by
    intro q
    unfold live
    constructor
    · rintro (⟨h1, h2⟩ | h1)
      · exact Or.inl ⟨h1, (hbit2 q h1).1 h2⟩
      · exact Or.inr h1
    · rintro (⟨h1, h2⟩ | h1)
      · exact Or.inl ⟨h1, (hbit2 q h1).2 h2⟩
      · exact Or.inr h1
  have lb : ∀ q, q < N → live b q := fun q hq => Or.inl ⟨hq, hfull q hq⟩
  have k1N : b1.kids N = b.kids sp := by rw [hb1]; simp [upd]
  have k1q : ∀ q, q < N → b1.kids q = b.kids q := by
    intro q hq; rw [hb1]; simp [upd, show q ≠ N by omega]
  -- ranges
  have rA : ∀ q, q < N → b.keys q < sk → ∀ x, rng b R q x → rng b1 (fun k => R k ∧ k < sk) q x := by
    intro q hq hlt x hx
    refine ⟨⟨hx.1, lt_trans (hx.2.1 hq) hlt⟩, hx.2.1, fun r hr _ hlt' => ?_⟩
    exact hx.2.2 r hr (hfull r hr) hlt'
  have rB : ∀ x, rng b R sp x → rng b1 (fun k => R k ∧ k < sk) N x := by
    intro x hx
    refine ⟨⟨hx.1, hx.2.1 hp⟩, fun h' => absurd h' (lt_irrefl _), fun r hr hbr _ => ?_⟩
    exact hx.2.2 r hr (hfull r hr) (fun _ => (hbit1 r hr).1 hbr)
  have rC : ∀ q, live b q → (q < N → sk < b.keys q) → ∀ x, rng b R q x → rng b2 (fun k => R k ∧ sk ≤ k) q x := by
    intro q hq hlt x hx
    refine ⟨⟨hx.1, hx.2.2 sp hp (hfull sp hp) hlt⟩, hx.2.1, fun r hr _ hlt' => ?_⟩
    exact hx.2.2 r hr (hfull r hr) hlt'
  have src1 : ∀ q, live b1 q → ∃ q', live b q' ∧ b1.kids q = b.kids q' ∧ q' < N ∧ b.keys q' ≤ sk ∧
      (q' = if q = N then sp else q) := by
    intro q hq
    rcases (l1 q).1 hq with ⟨h1, h2⟩ | rfl
    · exact ⟨q, lb q h1, k1q q h1, h1, h2.le, by rw [if_neg (by omega)]⟩
    · exact ⟨sp, lsp, k1N, hp, le_rfl, by simp⟩
  refine ⟨b1, b2, sk, rfl, hR sp hp, (h.sep sp hp (hfull sp hp)).2, ⟨hc1 hcl, ?_, ?_, ?_, ?_⟩,
    ⟨hc2 (clean_flip w1), ?_, ?_, ?_, ?_⟩, ⟨sp, hp, ?_⟩, ⟨sp, hp, ?_⟩, ?_, ?_, ?_⟩
  · intro i j hi hj _ _ hij; exact hinj i j hi hj hij
  · intro q hq hbq
    have hlt := (hbit1 q hq).1 hbq
    obtain ⟨g1, k, g2, g3⟩ := h.sep q hq (hfull q hq)
    exact ⟨⟨g1, hlt⟩, k, ⟨g2, lt_trans g3 hlt⟩, g3⟩
  · intro q hq
    rcases (l1 q).1 hq with ⟨g1, g2⟩ | rfl
    · obtain ⟨x, hx, hPx⟩ := h.kid q (lb q g1)
      exact ⟨x, by rw [k1q q g1]; exact hx, hP _ _ _ (rA q g1 g2) hPx⟩
    · obtain ⟨x, hx, hPx⟩ := h.kid sp lsp
      exact ⟨x, by rw [k1N]; exact hx, hP _ _ _ rB hPx⟩
  · intro q r x y hq hr hqr hx hy
    obtain ⟨q', a1, a2, _, a3, a4⟩ := src1 q hq
    obtain ⟨r', c1, c2, _, c3, c4⟩ := src1 r hr
    refine h.disj q' r' x y a1 c1 ?_ (by rw [← a2]; exact hx) (by rw [← c2]; exact hy)
    rw [a4, c4]
    rcases (l1 q).1 hq with ⟨g1, g2⟩ | f1 <;> rcases (l1 r).1 hr with ⟨g3, g4⟩ | f2
    · rw [if_neg (by omega), if_neg (by omega)]; exact hqr
    · rw [if_neg (by omega), if_pos f2]; rintro rfl; exact absurd g2 (lt_irrefl _)
    · rw [if_pos f1, if_neg (by omega)]; rintro rfl; exact absurd g4 (lt_irrefl _)
    · exact absurd (f1.trans f2.symm) hqr
  · intro i j hi hj _ _ hij; exact hinj i j hi hj hij
  · intro q hq hbq
    have hlt := (hbit2 q hq).1 hbq
    exact ⟨⟨hR q hq, hlt.le⟩, sk, ⟨hR sp hp, le_rfl⟩, hlt⟩
  · intro q hq
    have hq' : live b q := by
      rcases (l2 q).1 hq with ⟨g1, g2⟩ | g1
      · exact lb q g1
      · exact Or.inr g1
    obtain ⟨x, hx, hPx⟩ := h.kid q hq'
    refine ⟨x, hx, hP _ _ _ (rC q hq' ?_) hPx⟩
    intro hqN
    rcases (l2 q).1 hq with ⟨g1, g2⟩ | g1
    · exact g2
    · omega
  · intro q r x y hq hr hqr hx hy
    refine h.disj q r x y ?_ ?_ hqr hx hy
    · rcases (l2 q).1 hq with ⟨g1, g2⟩ | g1
      exacts [lb q g1, Or.inr g1]
    · rcases (l2 r).1 hr with ⟨g1, g2⟩ | g1
      exacts [lb r g1, Or.inr g1]
  · rw [Bool.eq_false_iff]; intro h'; exact absurd ((hbit1 sp hp).1 h') (lt_irrefl _)
  · rw [Bool.eq_false_iff]; intro h'; exact absurd ((hbit2 sp hp).1 h') (lt_irrefl _)
  · intro x
    constructor
    · rintro ⟨q, hq, hx⟩
      rcases hq with ⟨hqN, _⟩ | rfl
      · rcases lt_trichotomy (b.keys q) sk with g | g | g
        · exact Or.inl ⟨q, (l1 q).2 (Or.inl ⟨hqN, g⟩), by rw [k1q q hqN]; exact hx⟩
        · have := hinj q sp hqN hp g
          subst this
          exact Or.inl ⟨N, (l1 N).2 (Or.inr rfl), by rw [k1N]; exact hx⟩
        · exact Or.inr ⟨q, (l2 q).2 (Or.inl ⟨hqN, g⟩), hx⟩
      · exact Or.inr ⟨q, (l2 q).2 (Or.inr rfl), hx⟩
    · rintro (⟨q, hq, hx⟩ | ⟨q, hq, hx⟩)
      · obtain ⟨q', a1, a2, _⟩ := src1 q hq
        exact ⟨q', a1, by rw [← a2]; exact hx⟩
      · refine ⟨q, ?_, hx⟩
        rcases (l2 q).1 hq with ⟨g1, g2⟩ | g1
        exacts [lb q g1, Or.inr g1]
  · rintro x y ⟨q, hq, hx⟩ ⟨r, hr, hy⟩
    obtain ⟨q', a1, a2, a3, a4, _⟩ := src1 q hq
    refine h.disj q' r x y a1 ?_ ?_ (by rw [← a2]; exact hx) hy
    · rcases (l2 r).1 hr with ⟨g1, g2⟩ | g1
      exacts [lb r g1, Or.inr g1]
    · rintro rfl
      rcases (l2 q').1 hr with ⟨g1, g2⟩ | g1
      · exact absurd g2 (not_lt.2 a4)
      · omega
  · intro p x k hpl hx hk
    constructor
    · intro hlt
      rcases hpl with ⟨hpN, hpb⟩ | rfl
      · rcases lt_trichotomy (b.keys p) sk with g | g | g
        · exact ⟨p, (l1 p).2 (Or.inl ⟨hpN, g⟩), by rw [k1q p hpN]; exact hx, rA p hpN g⟩
        · have := hinj p sp hpN hp g
          subst this
          exact ⟨N, (l1 N).2 (Or.inr rfl), by rw [k1N]; exact hx, rB⟩
        · exact absurd hlt (not_lt.2 (hk.2.2 sp hp (hfull sp hp) (fun _ => g)))
      · exact absurd hlt (not_lt.2 (hk.2.2 sp hp (hfull sp hp) (fun h' => absurd h' (lt_irrefl _))))
    · intro hge
      have hg : p < N → sk < b.keys p := fun hpN => lt_of_le_of_lt hge (hk.2.1 hpN)
      refine ⟨p, (l2 p).2 ?_, hx, rC p hpl hg⟩
      rcases hpl with ⟨hpN, _⟩ | g
      · exact Or.inl ⟨hpN, hg hpN⟩
      · exact Or.inr g

/-- `insertInBranchNode` after a child has been split. -/
theorem addSplit_law (hP : ∀ x R R', (∀ k, R k → R' k) → P x R → P x R') {lim : Limits K} {cv : Conv K} (hN : 2 ≤ N)
    (hN64 : N % 64 ≠ 0) (hconv : ∀ k, R k → cv.ofSize (cv.toSize k) = k)
    (hmono : ∀ k k', R k → R k' → (cv.toSize k < cv.toSize k' ↔ k < k'))
    (hlim : ∀ k, R k → k < lim.max) (h : BOk P F b R) {p : Nat} (hp : live b p) {key s : K} {left right : C}
    (hkey : rng b R p key)
    (hleft : b.kids p = some left) (hs : rng b R p s) (hk0 : ∃ k0, rng b R p k0 ∧ k0 < s)
    (h1 : P left (fun k => rng b R p k ∧ k < s)) (h2 : P right (fun k => rng b R p k ∧ s ≤ k))
    (hd : ∀ x, Kid b x → Disjoint (F right) (F x)) :
    ∃ b' sp, b.addSplit lim cv key s left right = .ok (b', sp) ∧
      match sp with
      | none => BOk P F b' R ∧ ∀ G : C → Prop, (∃ x, Kid b' x ∧ G x) ↔ (∃ x, Kid b x ∧ G x) ∨ G right
      | some (sk, b2) => R sk ∧ (∃ k, R k ∧ k < sk) ∧ BOk P F b' (fun k => R k ∧ k < sk) ∧
          BOk P F b2 (fun k => R k ∧ sk ≤ k) ∧
          (∀ G : C → Prop, ((∃ x, Kid b' x ∧ G x) ∨ (∃ x, Kid b2 x ∧ G x)) ↔ (∃ x, Kid b x ∧ G x) ∨ G right) ∧
          (∀ x y, Kid b' x → Kid b2 y → Disjoint (F x) (F y)) := by
  unfold Branch.addSplit
  by_cases hc : b.bits.count = N
  · rw [if_pos hc]
    obtain ⟨b1, b2, sk, e, g1, g2, g3, g4, g5, g6, g7, g8, g9⟩ := bsplit_law hP hN hN64 hconv hmono h
      (full_of_count h.clean hc)
    rw [e, Res.ok_bind]
    simp only
    have hkids : ∀ G : C → Prop, ((∃ x, Kid b1 x ∧ G x) ∨ (∃ x, Kid b2 x ∧ G x)) ↔ (∃ x, Kid b x ∧ G x) := by
      intro G
      constructor
      · rintro (⟨x, hx, hG⟩ | ⟨x, hx, hG⟩)
        · exact ⟨x, (g7 x).2 (Or.inl hx), hG⟩
        · exact ⟨x, (g7 x).2 (Or.inr hx), hG⟩
      · rintro ⟨x, hx, hG⟩
        rcases (g7 x).1 hx with hx | hx
        · exact Or.inl ⟨x, hx, hG⟩
        · exact Or.inr ⟨x, hx, hG⟩
    obtain ⟨hlo, hhi⟩ := g9 p left key hp hleft hkey
    obtain ⟨k0, hk0, hk0s⟩ := hk0
    by_cases hlt : key < sk
    · rw [if_pos hlt]
      obtain ⟨p1, q1, q2, q3⟩ := hlo hlt
      obtain ⟨b', e', r1, r2⟩ := add_law hP (lim := lim) (fun k hk => hlim k hk.1) g3 g5 q1 q2 (q3 s hs) ⟨k0, q3 k0 hk0, hk0s⟩
        (hP _ _ _ (fun k hk => ⟨q3 k hk.1, hk.2⟩) h1) (hP _ _ _ (fun k hk => ⟨q3 k hk.1, hk.2⟩) h2)
        (fun x hx => hd x ((g7 x).2 (Or.inl hx)))
      rw [e', Res.ok_bind]
      refine ⟨_, _, rfl, g1, g2, r1, g4, fun G => ?_, fun x y hx hy => ?_⟩
      · rw [r2, ← hkids G]; exact or_right_comm
      · rcases (r2 (fun z => z = x)).1 ⟨x, hx, rfl⟩ with ⟨z, hz, rfl⟩ | rfl
        · exact g8 z y hz hy
        · exact hd y ((g7 y).2 (Or.inr hy))
    · rw [if_neg hlt]
      obtain ⟨p1, q1, q2, q3⟩ := hhi (not_lt.1 hlt)
      obtain ⟨b', e', r1, r2⟩ := add_law hP (lim := lim) (fun k hk => hlim k hk.1) g4 g6 q1 q2 (q3 s hs) ⟨k0, q3 k0 hk0, hk0s⟩
        (hP _ _ _ (fun k hk => ⟨q3 k hk.1, hk.2⟩) h1) (hP _ _ _ (fun k hk => ⟨q3 k hk.1, hk.2⟩) h2)
        (fun x hx => hd x ((g7 x).2 (Or.inr hx)))
      rw [e', Res.ok_bind]
      refine ⟨_, _, rfl, g1, g2, g3, r1, fun G => ?_, fun x y hx hy => ?_⟩
      · rw [r2, ← hkids G]; exact or_assoc.symm
      · rcases (r2 (fun z => z = y)).1 ⟨y, hy, rfl⟩ with ⟨z, hz, rfl⟩ | rfl
        · exact g8 x z hx hz
        · exact (hd x ((g7 x).2 (Or.inl hx))).symm
  · rw [if_neg hc]
    obtain ⟨b', e, g1, g2⟩ := add_law hP hlim h (not_full h.clean hc) hp hleft hs hk0 h1 h2 hd
    rw [e, Res.ok_bind]
    exact ⟨_, _, rfl, g1, g2⟩

end Verif.BitTree
