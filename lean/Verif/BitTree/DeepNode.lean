import Verif.BitTree.DeepLaw

/-!
# The parent of two neighbouring branch nodes
-/

set_option linter.unusedSectionVars false

namespace Verif.BitTree

open Verif Search FPTree BTree

variable {K V : Type} {M N : Nat} {C : Type} [LinearOrder K] [Inhabited K] {c : Cfg K V} {adm : K → Prop}
variable {P : C → (K → Prop) → Prop} {G : C → Set Nat} {R : K → Prop} {b : Branch N K C}

/-- The keys of the positions `pos` and `np`. -/
def pair (b : Branch N K C) (R : K → Prop) (pos np : Nat) (a : K) : Prop :=
  R a ∧ (np < N → a < b.keys np) ∧ ∀ q, q < N → Bitmap.bit b.bits q = true → b.keys q < b.keys pos → b.keys q ≤ a

theorem rng_left {pos np : Nat} (hp : pos < N) (hr : RightOf b pos np) (a : K) :
    rng b R pos a ↔ pair b R pos np a ∧ a < b.keys pos := by
  constructor
  · rintro ⟨h1, h2, h3⟩
    exact ⟨⟨h1, fun h => lt_trans (h2 hp) (hr.key h), fun q hq hb hlt => h3 q hq hb fun _ => hlt⟩, h2 hp⟩
  · rintro ⟨⟨h1, _, h3⟩, h4⟩
    exact ⟨h1, fun _ => h4, fun q hq hb hlt => h3 q hq hb (hlt hp)⟩

theorem rng_right {pos np : Nat} (hp : pos < N) (hb : Bitmap.bit b.bits pos = true)
    (inj : ∀ i j, i < N → j < N → Bitmap.bit b.bits i = true → Bitmap.bit b.bits j = true → b.keys i = b.keys j → i = j)
    (hr : RightOf b pos np) (a : K) : rng b R np a ↔ pair b R pos np a ∧ b.keys pos ≤ a := by
  constructor
  · rintro ⟨h1, h2, h3⟩
    have := h3 pos hp hb hr.key
    exact ⟨⟨h1, h2, fun q hq hbq hlt => le_trans hlt.le this⟩, this⟩
  · rintro ⟨⟨h1, h2, h3⟩, h4⟩
    refine ⟨h1, h2, fun q hq hbq hlt => ?_⟩
    rcases lt_trichotomy (b.keys q) (b.keys pos) with h | h | h
    · exact h3 q hq hbq h
    · rw [h]; exact h4
    · obtain ⟨g1, g2⟩ := hr.min q hq hbq h
      exact absurd (hlt g1) (not_lt.2 g2)

/-- The parent after two neighbouring children have exchanged keys: the key between them is another one. -/
theorem rekey_law (ho : BOk P G b R) {pos np : Nat} (hp : pos < N) (hpos : live b pos) (hr : RightOf b pos np) {r d r' d' : C}
    (hkr : b.kids pos = some r) (hkd : b.kids np = some d) {m : K} (hm : pair b R pos np m) (hlt : b.keys pos < m)
    (hPr : P r' (fun a => pair b R pos np a ∧ a < m)) (hPd : P d' (fun a => pair b R pos np a ∧ m ≤ a))
    (hP : ∀ x R R', (∀ k, R k → R' k) → P x R → P x R') (hG : ∀ i, i ∈ G r' ∨ i ∈ G d' → i ∈ G r ∨ i ∈ G d)
    (hdis : Disjoint (G r') (G d')) :
    BOk P G (⟨b.bits, upd b.keys pos m, upd (upd b.kids np (some d')) pos (some r')⟩ : Branch N K C) R ∧
      (∀ x, Kid (⟨b.bits, upd b.keys pos m, upd (upd b.kids np (some d')) pos (some r')⟩ : Branch N K C) x ↔
        x = r' ∨ x = d' ∨ ∃ q, live b q ∧ q ≠ pos ∧ q ≠ np ∧ b.kids q = some x) ∧
      ∀ x, Kid b x ↔ x = r ∨ x = d ∨ ∃ q, live b q ∧ q ≠ pos ∧ q ≠ np ∧ b.kids q = some x := by
  have hne : pos ≠ np := hr.ne hp
  have hb : Bitmap.bit b.bits pos = true := live_bit hpos hp
  set b' : Branch N K C := ⟨b.bits, upd b.keys pos m, upd (upd b.kids np (some d')) pos (some r')⟩ with hb'
  have kp : b'.keys pos = m := upd_same ..
  have kq : ∀ q, q ≠ pos → b'.keys q = b.keys q := fun q hq => upd_ne hq
  have cp : b'.kids pos = some r' := upd_same ..
  have cn : b'.kids np = some d' := by
    show upd _ _ _ np = _
    rw [upd_ne (Ne.symm hne), upd_same]
  have cq : ∀ q, q ≠ pos → q ≠ np → b'.kids q = b.kids q := fun q h1 h2 => by
    show upd _ _ _ q = _
    rw [upd_ne h1, upd_ne h2]
  have hcmp : ∀ q, q < N → Bitmap.bit b.bits q = true → q ≠ pos →
      (b.keys q < b.keys pos ∧ b.keys q < m) ∨ (b.keys pos < b.keys q ∧ m < b.keys q) := by
    intro q hq hbq hqp
    rcases lt_trichotomy (b.keys q) (b.keys pos) with h | h | h
    · exact Or.inl ⟨h, lt_trans h hlt⟩
    · exact absurd (ho.inj q pos hq hp hbq hb h) hqp
    · obtain ⟨h1, h2⟩ := hr.min q hq hbq h
      exact Or.inr ⟨h, lt_of_lt_of_le (hm.2.1 h1) h2⟩
  have hother : ∀ q z, live b q → q ≠ pos → q ≠ np → b.kids q = some z → Disjoint (G z) (G r') ∧ Disjoint (G z) (G d') := by
    intro q z hq h1 h2 hz
    have d1 := ho.disj q pos z r hq hpos h1 hz hkr
    have d2 := ho.disj q np z d hq hr.live h2 hz hkd
    refine ⟨Set.disjoint_left.2 fun i hi hi' => ?_, Set.disjoint_left.2 fun i hi hi' => ?_⟩
    · rcases hG i (Or.inl hi') with h | h
      · exact Set.disjoint_left.1 d1 hi h
      · exact Set.disjoint_left.1 d2 hi h
    · rcases hG i (Or.inr hi') with h | h
      · exact Set.disjoint_left.1 d1 hi h
      · exact Set.disjoint_left.1 d2 hi h
  refine ⟨⟨ho.clean, fun i k hi hk h1 h2 he => ?_, fun p hpN hbp => ?_, fun p hpl => ?_, fun p q x y hpl hql hpq hx hy => ?_⟩, fun x => ?_, fun x => ?_⟩
  · by_cases hip : i = pos <;> by_cases hkp : k = pos
    · exact hip.trans hkp.symm
    · rw [hip, kp, kq k hkp] at he
      rcases hcmp k hk h2 hkp with h | h
      · exact absurd he (ne_of_gt h.2)
      · exact absurd he (ne_of_lt h.2)
    · rw [hkp, kp, kq i hip] at he
      rcases hcmp i hi h1 hip with h | h
      · exact absurd he (ne_of_lt h.2)
      · exact absurd he (ne_of_gt h.2)
    · rw [kq i hip, kq k hkp] at he
      exact ho.inj i k hi hk h1 h2 he
  · by_cases hpp : p = pos
    · rw [hpp, kp]
      obtain ⟨k, h1, h2⟩ := (ho.sep pos hp hb).2
      exact ⟨hm.1, k, h1, lt_trans h2 hlt⟩
    · rw [kq p hpp]
      exact ho.sep p hpN hbp
  · have hpl : live b p := hpl
    by_cases hpp : p = pos
    · subst hpp
      refine ⟨r', cp, hP _ _ _ (fun a ha => ⟨ha.1.1, fun _ => by rw [kp]; exact ha.2, fun q hq hbq hl => ?_⟩) hPr⟩
      by_cases hqp : q = p
      · rw [hqp] at hl
        exact absurd (hl hp) (lt_irrefl _)
      · have hl := hl hp
        rw [kp, kq q hqp] at hl
        rw [kq q hqp]
        rcases hcmp q hq hbq hqp with h | h
        · exact ha.1.2.2 q hq hbq h.1
        · exact absurd hl (not_lt.2 h.2.le)
    · by_cases hpn : p = np
      · subst hpn
        refine ⟨d', cn, hP _ _ _ (fun a ha => ⟨ha.1.1, fun h => by rw [kq p hpp]; exact ha.1.2.1 h, fun q hq hbq hl => ?_⟩) hPd⟩
        by_cases hqp : q = pos
        · rw [hqp, kp]; exact ha.2
        · rw [kq q hqp, kq p hpp] at hl
          rw [kq q hqp]
          rcases hcmp q hq hbq hqp with h | h
          · exact ha.1.2.2 q hq hbq h.1
          · obtain ⟨g1, g2⟩ := hr.min q hq hbq h.1
            exact absurd (hl g1) (not_lt.2 g2)
      · obtain ⟨z, e, hz⟩ := ho.kid p hpl
        refine ⟨z, by rw [cq p hpp hpn, e], hP _ _ _ (fun a ha => ⟨ha.1, fun h => by rw [kq p hpp]; exact ha.2.1 h, fun q hq hbq hl => ?_⟩) hz⟩
        obtain ⟨r1, r2, r3⟩ := ha
        by_cases hqp : q = pos
        · rw [hqp, kp]
          rw [hqp, kp, kq p hpp] at hl
          by_cases hpl' : p < N
          · rcases hcmp p hpl' (live_bit hpl hpl') hpp with h | h
            · exact absurd (hl hpl') (not_lt.2 h.2.le)
            · obtain ⟨a1, a2⟩ := hr.min p hpl' (live_bit hpl hpl') h.1
              have a3 : b.keys np < b.keys p := lt_of_le_of_ne a2 fun he =>
                hpn (ho.inj np p a1 hpl' (live_bit hr.live a1) (live_bit hpl hpl') he).symm
              exact le_trans (hm.2.1 a1).le (r3 np a1 (live_bit hr.live a1) fun _ => a3)
          · have hnl : np < N := by
              rcases hr.live with h | h
              · exact h.1
              · rcases hpl with h' | h'
                · exact absurd h'.1 hpl'
                · exact absurd (h'.trans h.symm) hpn
            exact le_trans (hm.2.1 hnl).le (r3 np hnl (live_bit hr.live hnl) fun h => absurd h hpl')
        · rw [kq q hqp, kq p hpp] at hl
          rw [kq q hqp]
          exact r3 q hq hbq hl
  · have hpl : live b p := hpl
    have hql : live b q := hql
    by_cases p1 : p = pos
    · subst p1
      obtain rfl := Option.some.inj (cp.symm.trans hx)
      by_cases q2 : q = np
      · subst q2
        obtain rfl := Option.some.inj (cn.symm.trans hy)
        exact hdis
      · rw [cq q (Ne.symm hpq) q2] at hy
        exact (hother q y hql (Ne.symm hpq) q2 hy).1.symm
    · by_cases p2 : p = np
      · subst p2
        obtain rfl := Option.some.inj (cn.symm.trans hx)
        by_cases q1 : q = pos
        · subst q1
          obtain rfl := Option.some.inj (cp.symm.trans hy)
          exact hdis.symm
        · rw [cq q q1 (Ne.symm hpq)] at hy
          exact (hother q y hql q1 (Ne.symm hpq) hy).2.symm
      · rw [cq p p1 p2] at hx
        by_cases q1 : q = pos
        · subst q1
          obtain rfl := Option.some.inj (cp.symm.trans hy)
          exact (hother p x hpl p1 p2 hx).1
        · by_cases q2 : q = np
          · subst q2
            obtain rfl := Option.some.inj (cn.symm.trans hy)
            exact (hother p x hpl p1 p2 hx).2
          · rw [cq q q1 q2] at hy
            exact ho.disj p q x y hpl hql hpq hx hy
  · constructor
    · rintro ⟨q, hq, hx⟩
      by_cases q1 : q = pos
      · subst q1; exact Or.inl (Option.some.inj (hx.symm.trans cp))
      · by_cases q2 : q = np
        · subst q2; exact Or.inr (Or.inl (Option.some.inj (hx.symm.trans cn)))
        · exact Or.inr (Or.inr ⟨q, hq, q1, q2, (cq q q1 q2) ▸ hx⟩)
    · rintro (rfl | rfl | ⟨q, hq, q1, q2, hx⟩)
      · exact ⟨pos, hpos, cp⟩
      · exact ⟨np, hr.live, cn⟩
      · exact ⟨q, hq, (cq q q1 q2).trans hx⟩
  · constructor
    · rintro ⟨q, hq, hx⟩
      by_cases q1 : q = pos
      · subst q1; exact Or.inl (Option.some.inj (hx.symm.trans hkr))
      · by_cases q2 : q = np
        · subst q2; exact Or.inr (Or.inl (Option.some.inj (hx.symm.trans hkd)))
        · exact Or.inr (Or.inr ⟨q, hq, q1, q2, hx⟩)
    · rintro (rfl | rfl | ⟨q, hq, q1, q2, hx⟩)
      · exact ⟨pos, hpos, hkr⟩
      · exact ⟨np, hr.live, hkd⟩
      · exact ⟨q, hq, hx⟩

/-! ## The neighbours -/

theorem rightOf_pos {lim : Limits K} (hlim : ∀ p, p < N → Bitmap.bit b.bits p = true → b.keys p < lim.max) (pos : Nat) :
    ∃ np, findMinKeyPosGreaterThan lim (fun i : Fin N => b.keys i) b.bits (b.keys pos) = .ok np ∧ RightOf b pos np := by
  obtain ⟨np, e, h1, h2⟩ := pos_law (R := fun _ => True) hlim (k := b.keys pos) trivial
  refine ⟨np, e, h1, h2.2.1, fun q hq hbq hlt => ?_⟩
  have hn : np < N := by
    by_contra hc
    exact absurd (h2.2.2 q hq hbq fun h => absurd h hc) (not_le.2 hlt)
  refine ⟨hn, not_lt.1 fun hq' => ?_⟩
  exact absurd (h2.2.2 q hq hbq fun _ => hq') (not_le.2 hlt)

theorem RightOf.unique {pos np nq : Nat} (h : RightOf b pos np) (g : RightOf b pos nq)
    (inj : ∀ i j, i < N → j < N → Bitmap.bit b.bits i = true → Bitmap.bit b.bits j = true → b.keys i = b.keys j → i = j) :
    np = nq := by
  rcases h.live with ⟨h1, h2⟩ | h1
  · obtain ⟨g1, g2⟩ := g.min np h1 h2 (h.key h1)
    obtain ⟨_, g3⟩ := h.min nq g1 (live_bit g.live g1) (g.key g1)
    exact inj np nq h1 g1 h2 (live_bit g.live g1) (le_antisymm g3 g2)
  · rcases g.live with ⟨g1, g2⟩ | g1
    · have := (h.min nq g1 g2 (g.key g1)).1
      omega
    · omega

/-- The position to the left, or `N` if there is none. -/
theorem leftOf_pos {lim : Limits K} (hlim : ∀ p, p < N → Bitmap.bit b.bits p = true → lim.min < b.keys p) {pos : Nat} (hp : pos < N) :
    ∃ pp, findMaxKeyPosSmallerThan lim (fun i : Fin N => b.keys i) b.bits (b.keys pos) = .ok pp ∧
      (LeftOf b pos pp ∨ pp = N ∧ ∀ q, q < N → Bitmap.bit b.bits q = true → b.keys pos ≤ b.keys q) := by
  by_cases h : ∃ q, q < N ∧ Bitmap.bit b.bits q = true ∧ b.keys q < b.keys pos
  · obtain ⟨q, hq, hbq, hlt⟩ := h
    obtain ⟨p, e, h1, h2, h3, h4⟩ := maxBelow (lim := lim) (keys := b.keys) (bits := b.bits) hq hbq (hlim q hq hbq) hlt
    exact ⟨p, e, Or.inl ⟨h1, h2, fun _ => h3, fun j hj hb hl => h4 j hj hb (hl hp)⟩⟩
  · push Not at h
    refine ⟨N, ?_, Or.inr ⟨rfl, h⟩⟩
    obtain ⟨x, p, e, g⟩ := bits_search (fun i : Fin N => b.keys i) b.bits lim.min (fun y => decide (y < b.keys pos))
      (fun a b => b < a) (fun a b c h1 h2 => by simp only [not_lt] at *; exact le_trans h1 h2.le)
      (fun a => lt_irrefl a) (fun _ _ _ h1 h2 => lt_trans h2 h1)
      (fun i k cur => testAnd b.bits i (decide (cur < k) && decide (k < b.keys pos))) (fun i k c => rfl)
    unfold findMaxKeyPosSmallerThan
    simp only [e, Res.ok_bind, Res.pure_eq]
    rcases g with ⟨g1, _⟩ | ⟨hpN, g1, g2, _⟩
    · rw [if_pos g1]
    · exact absurd (of_decide_eq_true g2) (not_lt.2 (h p hpN ((test_iff' _ ⟨p, hpN⟩).1 g1)))

theorem maxPos_total (lim : Limits K) (keys : Nat → K) (bits : Bitmap N) :
    ∃ p, findMaxKeyPosBits lim (fun i : Fin N => keys i) bits = .ok p := by
  obtain ⟨x, p, e, _⟩ := bits_search (fun i : Fin N => keys i) bits lim.min (fun _ => true)
    (fun a b => b < a) (fun a b c h1 h2 => by simp only [not_lt] at *; exact le_trans h1 h2.le)
    (fun a => lt_irrefl a) (fun _ _ _ h1 h2 => lt_trans h2 h1)
    (fun i k cur => testAnd bits i (decide (cur < k))) (fun i k c => by simp)
  exact ⟨p, by unfold findMaxKeyPosBits; simp only [e, Res.ok_bind, Res.pure_eq]⟩

/-! ## Merges -/

/-- `mergeBranchNodes` of two neighbours if the loop runs over all positions. -/
theorem merge_node (F : Laws c adm) {Q : K → Prop} (hQ : ∀ a, Q a → adm a) (hP : ∀ x R R', (∀ k, R k → R' k) → P x R → P x R')
    {s n : Branch N K C} {k : K} (hk : Q k) (hk' : ∃ a, Q a ∧ a < k) (hs : BOk P G s (fun a => Q a ∧ a < k))
    (hn : BOk P G n (fun a => Q a ∧ k ≤ a)) (hdis : ∀ x y, Kid s x → Kid n y → Disjoint (G x) (G y))
    (h1 : 0 < s.bits.count) (h2 : 0 < n.bits.count) (hroom : s.bits.count + n.bits.count < N) :
    ∃ s', s.merge c.lim N k n = .ok s' ∧ BOk P G s' Q ∧ (∀ x, Kid s' x ↔ Kid s x ∨ Kid n x) ∧
      s'.bits.count = s.bits.count + n.bits.count + 1 := by
  obtain ⟨hsl, hsf, ls, hls, hss⟩ := (bok_iff hP).1 hs
  obtain ⟨hnl, hnf, ln, hln, hns⟩ := (bok_iff hP).1 hn
  have cs := count_asLeaf hsl
  have cn := count_asLeaf hnl
  have lts : ∀ a x, Has s.asLeaf a x → a < k ∧ Q a := by
    intro a o h
    obtain ⟨x, rfl⟩ := hsf a o h
    exact ⟨(hss.sep a x h).1.2, (hss.sep a x h).1.1⟩
  have ltn : ∀ a x, Has n.asLeaf a x → k < a ∧ Q a := by
    intro a o h
    obtain ⟨x, rfl⟩ := hnf a o h
    obtain ⟨h1, k0, h2, h3⟩ := hns.sep a x h
    exact ⟨lt_of_le_of_lt h2.2 h3, h1.1⟩
  have some_of : ∀ b : Branch N K C, LOk b.asLeaf → 0 < b.bits.count → ∃ q, q < N ∧ Bitmap.bit b.bits q = true := by
    intro b hb h
    rw [count_asLeaf hb] at h
    obtain ⟨q, hq⟩ := Finset.card_pos.1 h
    exact ⟨q, Bitmap.mem_members.1 hq⟩
  obtain ⟨q1, hq1, hb1⟩ := some_of n hnl h2
  obtain ⟨p1, e1, hp1, hbp1, _⟩ := minOf (lim := c.lim) (keys := n.keys) hq1 hb1
    (F.lim _ (hQ _ (ltn _ (n.kids q1) ⟨q1, hq1, hb1, rfl, rfl⟩).2)).2
  obtain ⟨q2, hq2, hb2⟩ := some_of s hsl h1
  obtain ⟨p2, e2, hp2, hbp2, _⟩ := maxOf (lim := c.lim) (keys := s.keys) hq2 hb2
    (F.lim _ (hQ _ (lts _ (s.kids q2) ⟨q2, hq2, hb2, rfl, rfl⟩).2)).1
  obtain ⟨f1, f2⟩ := free_of_zero (room_of_used (l := s.asLeaf) (by omega))
  obtain ⟨s1, e3, g1, g2, g3⟩ := fill_law hsl f1 f2 (k := k) (some ls) (fun w hw => lt_irrefl _ (lts _ _ hw).1)
  have us1 : used s1 = used s.asLeaf + 1 := used_fill f1 f2 g3
  obtain ⟨s2, e4, j1, j2, j3⟩ := merge_law g1 hnl (fun x y z hx hy => by
    rcases (g2 x y).1 hx with ⟨rfl, _⟩ | hx
    · exact lt_irrefl _ (ltn _ _ hy).1
    · exact lt_irrefl _ (lt_trans (lts _ _ hx).1 (ltn _ _ hy).1)) (by omega)
  obtain ⟨e3', _⟩ := fill_node (b := s) e3
  have e4' := mergeLoop_node (n := n) N 0 s1.node s2 e4
  set s' : Branch N K C := ⟨s2.bits, s2.keys, upd s2.vals N (some ln)⟩ with hs'
  have hasr : ∀ a y, Has s'.asLeaf a y ↔ Has s2 a y := by
    intro a y
    constructor
    · rintro ⟨i, hi, hbi, h1, h2⟩
      exact ⟨i, hi, hbi, h1, by rw [← h2]; exact (upd_ne (by omega)).symm⟩
    · rintro ⟨i, hi, hbi, h1, h2⟩
      exact ⟨i, hi, hbi, h1, by rw [← h2]; exact (upd_ne (by omega))⟩
  have sepr : ∀ a y, Sep s' a y ↔ Sep s a y ∨ (a = k ∧ y = ls) ∨ Sep n a y := by
    intro a y
    refine (hasr a (some y)).trans ?_
    rw [j2, g2]
    constructor
    · rintro ((⟨h1, h2⟩ | h) | h)
      · exact Or.inr (Or.inl ⟨h1, Option.some.inj h2⟩)
      · exact Or.inl h
      · exact Or.inr (Or.inr h)
    · rintro (h | ⟨h1, h2⟩ | h)
      · exact Or.inl (Or.inr h)
      · exact Or.inl (Or.inl ⟨h1, by rw [h2]⟩)
      · exact Or.inr h
  have hN : s'.kids N = some ln := upd_same ..
  have okl : LOk s'.asLeaf := ⟨j1.clean, j1.inj⟩
  have hS := merge_spec hP hk hk' hss hns (by
    rintro x y hx hy
    refine hdis x y (kid_iff.2 ?_) (kid_iff.2 ?_)
    · rcases hx with h | rfl
      · exact Or.inl h
      · exact Or.inr hls
    · rcases hy with h | rfl
      · exact Or.inl h
      · exact Or.inr hln)
  refine ⟨s', ?_, (bok_iff hP).2 ⟨okl, fun a o h => ?_, ln, hN, hS.congr hP sepr (fun _ => Iff.rfl)⟩, fun x => ?_, ?_⟩
  · unfold Branch.merge
    have a1 : k ≤ n.keys p1 := (ltn _ _ ⟨p1, hp1, hbp1, rfl, rfl⟩).1.le
    have a2 : s.keys p2 < k := (lts _ _ ⟨p2, hp2, hbp2, rfl, rfl⟩).1
    rw [e1, Res.ok_bind, rdA_ok hp1, Res.ok_bind, Res.assert_pos a1, Res.ok_bind, e2, Res.ok_bind,
      rdA_ok hp2, Res.ok_bind, Res.assert_pos a2, Res.ok_bind, hls]
    have e3'' : s.fill s.bits.getFreeZero k (some ls) = .ok s1.node := e3'
    rw [e3'', Res.ok_bind, e4', Res.ok_bind, hln]
    rfl
  · rcases (j2 a o).1 ((hasr a o).1 h) with h | h
    · rcases (g2 a o).1 h with ⟨_, h⟩ | h
      · exact ⟨ls, h⟩
      · exact hsf a o h
    · exact hnf a o h
  · rw [kid_iff, kid_iff, kid_iff, hN, hls, hln]
    constructor
    · rintro (⟨a, h⟩ | h)
      · rcases (sepr a x).1 h with h | ⟨_, h⟩ | h
        · exact Or.inl (Or.inl ⟨a, h⟩)
        · exact Or.inl (Or.inr (by rw [h]))
        · exact Or.inr (Or.inl ⟨a, h⟩)
      · exact Or.inr (Or.inr h)
    · rintro ((⟨a, h⟩ | h) | ⟨a, h⟩ | h)
      · exact Or.inl ⟨a, (sepr a x).2 (Or.inl h)⟩
      · exact Or.inl ⟨k, (sepr k x).2 (Or.inr (Or.inl ⟨rfl, (Option.some.inj h).symm⟩))⟩
      · exact Or.inl ⟨a, (sepr a x).2 (Or.inr (Or.inr h))⟩
      · exact Or.inr h
  · rw [count_asLeaf okl, cs, cn]
    show used s2 = _
    omega

/-! ## Underflows of branch nodes -/

/-- Entries of the right neighbour: it has more than half of its positions filled, the left neighbour, if there is one, has
not, and the node has a key left. -/
structure DonorRight (b : Branch N K (Branch N K C)) (pos : Nat) (child : Branch N K C) : Prop where
  lt : pos < N
  key : 0 < child.bits.count
  few : child.bits.count < (N + 1) / 2
  left : ∀ pp, pp < N → LeftOf b pos pp → ∀ x ∈ b.kids pp, x.bits.count ≤ (N + 1) / 2
  right : ∃ np, np < N + 1 ∧ RightOf b pos np ∧ ∃ y ∈ b.kids np, (N + 1) / 2 < y.bits.count

/-- The only merge that works: that of the two children of a root with one key. -/
structure LastTwo (b : Branch N K (Branch N K C)) (pos : Nat) (child : Branch N K C) : Prop where
  lt : pos < N
  one : b.bits.count = 1
  key : 0 < child.bits.count
  right : ∃ y ∈ b.kids N, 0 < y.bits.count ∧ y.bits.count ≤ (N + 1) / 2 ∧ child.bits.count + y.bits.count < N

theorem fp_succ {d : Nat} {b : Branch N K (Tree N K d)} {i : Nat} : i ∈ fp (N := N) (d + 1) b ↔ ∃ x, Kid b x ∧ i ∈ fp d x := Iff.rfl

theorem hasT_succ {h : Heap M K V} {d : Nat} {b : Branch N K (Tree N K d)} {x : K} {y : V} :
    hasT (N := N) h (d + 1) b x y ↔ ∃ z, Kid b z ∧ hasT h d z x y := Iff.rfl

theorem under_right (F : Laws c adm) (hR : ∀ a, R a → adm a) {h : Heap M K V} {d : Nat} {b : Branch c.N K (Branch c.N K (Tree c.N K d))}
    (ho : Ok (N := c.N) h (d + 2) b R) {pos : Nat} (hpos : live b pos) {child : Branch c.N K (Tree c.N K d)}
    (hkid : b.kids pos = some child) (hc : DonorRight b pos child) :
    ∃ b' ch, b.under c.lim M pos child = .ok (b', ch) ∧ Ok (N := c.N) h (d + 2) b' R ∧
      (∀ i, i ∈ fp (N := c.N) (d + 2) b' ↔ i ∈ fp (N := c.N) (d + 2) b) ∧
      (∀ x y, hasT (N := c.N) h (d + 2) b' x y ↔ hasT (N := c.N) h (d + 2) b x y) ∧ b'.bits = b.bits := by
  have ho' : BOk (Ok (N := c.N) h (d + 1)) (fp (N := c.N) (d + 1)) b R := ho
  have hb : Bitmap.bit b.bits pos = true := live_bit hpos hc.lt
  obtain ⟨first, e0, hf1, hf2, hf3⟩ := minOf (lim := c.lim) (keys := b.keys) (bits := b.bits) hc.lt hb (sep_max F hR ho' pos hc.lt hb)
  obtain ⟨pp, e1, hpp⟩ := leftOf_pos (lim := c.lim) (b := b) (fun p hp hbp => (F.lim _ (hR _ (ho'.sep p hp hbp).1)).1) hc.lt
  obtain ⟨np, e2, hnp⟩ := rightOf_pos (lim := c.lim) (b := b) (sep_max F hR ho') pos
  obtain ⟨nq, _, hnq, y, hy, hyc⟩ := hc.right
  obtain rfl : np = nq := hnp.unique hnq ho'.inj
  have hlp : live b pp := by
    rcases hpp with h | h
    · exact Or.inl ⟨h.lt, h.bit⟩
    · exact Or.inr h.1
  obtain ⟨x, hx⟩ : ∃ x : Branch c.N K (Tree c.N K d), b.kids pp = some x := (ho'.kid pp hlp).imp fun _ h => h.1
  have hcond : ¬ (first ≠ pos ∧ (c.N + 1) / 2 < x.bits.count) := by
    rintro ⟨h1, h2⟩
    rcases hpp with h | ⟨_, h⟩
    · exact absurd (hc.left pp h.lt h x hx) (not_le.2 h2)
    · exact h1 (ho'.inj first pos hf1 hc.lt hf2 hb (le_antisymm (hf3 pos hc.lt hb) (h first hf1 hf2)))
  have okr : BOk (Ok (N := c.N) h d) (fp d) child (rng b R pos) := by
    obtain ⟨z, e, hz⟩ := ho'.kid pos hpos
    obtain rfl : child = z := Option.some.inj (hkid.symm.trans e)
    exact hz
  have okd : BOk (Ok (N := c.N) h d) (fp d) y (rng b R np) := by
    obtain ⟨z, e, hz⟩ := ho'.kid np hnp.live
    obtain rfl : y = z := Option.some.inj (Eq.trans (Eq.symm hy) e)
    exact hz
  have er : rng b R pos = fun a => pair b R pos np a ∧ a < b.keys pos := by
    funext a; exact propext (rng_left hc.lt hnp a)
  have ed : rng b R np = fun a => pair b R pos np a ∧ b.keys pos ≤ a := by
    funext a; exact propext (rng_right hc.lt hb ho'.inj hnp a)
  rw [er] at okr
  rw [ed] at okd
  have hkp : pair b R pos np (b.keys pos) := ⟨(ho'.sep pos hc.lt hb).1, hnp.key, fun q _ _ h => h.le⟩
  obtain ⟨k0, hk0⟩ : ∃ k, pair b R pos np k ∧ k < b.keys pos := by
    obtain ⟨k, hk, hlt⟩ := (ho'.sep pos hc.lt hb).2
    rcases hpp with h | ⟨_, h⟩
    · refine ⟨b.keys pp, ⟨(ho'.sep pp h.lt h.bit).1, fun hn => lt_trans (h.key hc.lt) (hnp.key hn), fun q hq hbq hl => ?_⟩, h.key hc.lt⟩
      exact h.max q hq hbq fun _ => hl
    · exact ⟨k, ⟨hk, fun hn => lt_trans hlt (hnp.key hn), fun q hq hbq hl => absurd hl (not_lt.2 (h q hq hbq))⟩, hlt⟩
  have hdis0 := ho'.disj pos np child y hpos hnp.live (hnp.ne hc.lt) hkid hy
  have hlt' : child.bits.count < y.bits.count := lt_trans hc.few hyc
  obtain ⟨d', r', m, e3, hm1, hm2, hokr, hokd, hkids, hdis⟩ := balance_right F (fun a ha => hR a ha.1) (fun x R R' h => ok_mono d x R R' h)
    hkp ⟨k0, hk0⟩ okr okd (fun u v hu hv => Set.disjoint_left.2 fun i h1 h2 => Set.disjoint_left.1 hdis0 ⟨u, hu, h1⟩ ⟨v, hv, h2⟩)
    hlt' hc.key
  have hGf : ∀ i, i ∈ fp (N := c.N) (d + 1) r' ∨ i ∈ fp (N := c.N) (d + 1) d' ↔ i ∈ fp (N := c.N) (d + 1) child ∨ i ∈ fp (N := c.N) (d + 1) y := by
    intro i
    rw [fp_succ, fp_succ, fp_succ, fp_succ]
    constructor
    · rintro (⟨z, hz, hi⟩ | ⟨z, hz, hi⟩)
      · rcases (hkids z).1 (Or.inr hz) with h | h
        · exact Or.inr ⟨z, h, hi⟩
        · exact Or.inl ⟨z, h, hi⟩
      · rcases (hkids z).1 (Or.inl hz) with h | h
        · exact Or.inr ⟨z, h, hi⟩
        · exact Or.inl ⟨z, h, hi⟩
    · rintro (⟨z, hz, hi⟩ | ⟨z, hz, hi⟩)
      · rcases (hkids z).2 (Or.inr hz) with h | h
        · exact Or.inr ⟨z, h, hi⟩
        · exact Or.inl ⟨z, h, hi⟩
      · rcases (hkids z).2 (Or.inl hz) with h | h
        · exact Or.inr ⟨z, h, hi⟩
        · exact Or.inl ⟨z, h, hi⟩
  have hdis' : Disjoint (fp (N := c.N) (d + 1) r') (fp (N := c.N) (d + 1) d') := Set.disjoint_left.2 (by
    rintro i ⟨u, hu, h1⟩ ⟨v, hv, h2⟩
    exact Set.disjoint_left.1 (hdis u v hu hv) h1 h2)
  obtain ⟨g1, g2, g3⟩ := rekey_law (P := Ok (N := c.N) h (d + 1)) (G := fp (N := c.N) (d + 1)) ho' hc.lt hpos hnp hkid hy hm1 hm2 hokr hokd
    (fun x R R' h => ok_mono (d + 1) x R R' h) (fun i => (hGf i).1) hdis'
  refine ⟨_, r', ?_, g1, fun i => ?_, fun u v => ?_, rfl⟩
  · have k1 : b.kid pp = .ok x := kid_ok (live_lt hlp) hx
    have k2 : b.kid np = .ok y := kid_ok (live_lt hnp.live) hy
    unfold Branch.under
    rw [e0, Res.ok_bind, rdA_ok hc.lt, Res.ok_bind, e1, Res.ok_bind, k1, Res.ok_bind, e2, Res.ok_bind,
      k2, Res.ok_bind, if_neg hcond, if_pos ⟨hc.lt, hyc⟩, e3, Res.ok_bind]
    rfl
  · constructor
    · rintro ⟨z, hz, hi⟩
      rcases (g2 z).1 hz with rfl | rfl | h
      · rcases (hGf i).1 (Or.inl hi) with h | h
        · exact ⟨child, (g3 _).2 (Or.inl rfl), h⟩
        · exact ⟨y, (g3 _).2 (Or.inr (Or.inl rfl)), h⟩
      · rcases (hGf i).1 (Or.inr hi) with h | h
        · exact ⟨child, (g3 _).2 (Or.inl rfl), h⟩
        · exact ⟨y, (g3 _).2 (Or.inr (Or.inl rfl)), h⟩
      · exact ⟨z, (g3 _).2 (Or.inr (Or.inr h)), hi⟩
    · rintro ⟨z, hz, hi⟩
      rcases (g3 z).1 hz with rfl | rfl | h
      · rcases (hGf i).2 (Or.inl hi) with h | h
        · exact ⟨r', (g2 _).2 (Or.inl rfl), h⟩
        · exact ⟨d', (g2 _).2 (Or.inr (Or.inl rfl)), h⟩
      · rcases (hGf i).2 (Or.inr hi) with h | h
        · exact ⟨r', (g2 _).2 (Or.inl rfl), h⟩
        · exact ⟨d', (g2 _).2 (Or.inr (Or.inl rfl)), h⟩
      · exact ⟨z, (g2 _).2 (Or.inr (Or.inr h)), hi⟩
  · have hH : hasT (N := c.N) h (d + 1) r' u v ∨ hasT (N := c.N) h (d + 1) d' u v ↔
        hasT (N := c.N) h (d + 1) child u v ∨ hasT (N := c.N) h (d + 1) y u v := by
      rw [hasT_succ, hasT_succ, hasT_succ, hasT_succ]
      constructor
      · rintro (⟨z, hz, hi⟩ | ⟨z, hz, hi⟩)
        · exact ((hkids z).1 (Or.inr hz)).symm.imp (fun h => ⟨z, h, hi⟩) fun h => ⟨z, h, hi⟩
        · exact ((hkids z).1 (Or.inl hz)).symm.imp (fun h => ⟨z, h, hi⟩) fun h => ⟨z, h, hi⟩
      · rintro (⟨z, hz, hi⟩ | ⟨z, hz, hi⟩)
        · exact ((hkids z).2 (Or.inr hz)).symm.imp (fun h => ⟨z, h, hi⟩) fun h => ⟨z, h, hi⟩
        · exact ((hkids z).2 (Or.inl hz)).symm.imp (fun h => ⟨z, h, hi⟩) fun h => ⟨z, h, hi⟩
    constructor
    · rintro ⟨z, hz, hi⟩
      rcases (g2 z).1 hz with rfl | rfl | h
      · rcases hH.1 (Or.inl hi) with h | h
        · exact ⟨child, (g3 _).2 (Or.inl rfl), h⟩
        · exact ⟨y, (g3 _).2 (Or.inr (Or.inl rfl)), h⟩
      · rcases hH.1 (Or.inr hi) with h | h
        · exact ⟨child, (g3 _).2 (Or.inl rfl), h⟩
        · exact ⟨y, (g3 _).2 (Or.inr (Or.inl rfl)), h⟩
      · exact ⟨z, (g3 _).2 (Or.inr (Or.inr h)), hi⟩
    · rintro ⟨z, hz, hi⟩
      rcases (g3 z).1 hz with rfl | rfl | h
      · rcases hH.2 (Or.inl hi) with h | h
        · exact ⟨r', (g2 _).2 (Or.inl rfl), h⟩
        · exact ⟨d', (g2 _).2 (Or.inr (Or.inl rfl)), h⟩
      · rcases hH.2 (Or.inr hi) with h | h
        · exact ⟨r', (g2 _).2 (Or.inl rfl), h⟩
        · exact ⟨d', (g2 _).2 (Or.inr (Or.inl rfl)), h⟩
      · exact ⟨z, (g2 _).2 (Or.inr (Or.inr h)), hi⟩

theorem under_last (F : Laws c adm) (hR : ∀ a, R a → adm a) {h : Heap M K V} {d : Nat} {b : Branch c.N K (Branch c.N K (Tree c.N K d))}
    (ho : Ok (N := c.N) h (d + 2) b R) {pos : Nat} (hpos : live b pos) {child : Branch c.N K (Tree c.N K d)}
    (hkid : b.kids pos = some child) (hc : LastTwo b pos child) (hM : M = c.N) :
    ∃ b' ch, b.under c.lim M pos child = .ok (b', ch) ∧ b'.bits.count = 0 ∧ Ok (N := c.N) h (d + 1) ch R ∧
      (∀ i, i ∈ fp (N := c.N) (d + 1) ch ↔ i ∈ fp (N := c.N) (d + 2) b) ∧
      (∀ x y, hasT (N := c.N) h (d + 1) ch x y ↔ hasT (N := c.N) h (d + 2) b x y) := by
  have ho' : BOk (Ok (N := c.N) h (d + 1)) (fp (N := c.N) (d + 1)) b R := ho
  have hb : Bitmap.bit b.bits pos = true := live_bit hpos hc.lt
  have hlok : LOk b.asLeaf := ⟨ho'.clean, ho'.inj⟩
  have hone : ∀ q, q < c.N → Bitmap.bit b.bits q = true → q = pos := by
    intro q hq hbq
    have h1 : used b.asLeaf = 1 := by rw [← count_asLeaf hlok]; exact hc.one
    obtain ⟨w, hw⟩ := Finset.card_eq_one.1 h1
    have h2 : q ∈ ({w} : Finset Nat) := hw ▸ Bitmap.mem_members.2 ⟨hq, hbq⟩
    have h3 : pos ∈ ({w} : Finset Nat) := hw ▸ Bitmap.mem_members.2 ⟨hc.lt, hb⟩
    rw [Finset.mem_singleton] at h2 h3
    rw [h2, h3]
  obtain ⟨first, e0, hf1, hf2, hf3⟩ := minOf (lim := c.lim) (keys := b.keys) (bits := b.bits) hc.lt hb (sep_max F hR ho' pos hc.lt hb)
  obtain rfl := hone first hf1 hf2
  obtain ⟨pp, e1, hpp⟩ := leftOf_pos (lim := c.lim) (b := b) (fun p hp hbp => (F.lim _ (hR _ (ho'.sep p hp hbp).1)).1) hc.lt
  obtain ⟨np, e2, hnp⟩ := rightOf_pos (lim := c.lim) (b := b) (sep_max F hR ho') first
  have hnpN : np = c.N := by
    rcases hnp.live with ⟨h1, h2⟩ | h1
    · exact absurd (hone np h1 h2).symm (hnp.ne hc.lt)
    · exact h1
  have hlp : live b pp := by
    rcases hpp with h | h
    · exact Or.inl ⟨h.lt, h.bit⟩
    · exact Or.inr h.1
  obtain ⟨x, hx⟩ : ∃ x : Branch c.N K (Tree c.N K d), b.kids pp = some x := (ho'.kid pp hlp).imp fun _ h => h.1
  obtain ⟨y, hy, hy1, hy2, hy3⟩ := hc.right
  have hy : b.kids np = some y := by rw [hnpN]; exact hy
  have okr : BOk (Ok (N := c.N) h d) (fp d) child (rng b R first) := by
    obtain ⟨z, e, hz⟩ := ho'.kid first hpos
    obtain rfl : child = z := Option.some.inj (hkid.symm.trans e)
    exact hz
  have okd : BOk (Ok (N := c.N) h d) (fp d) y (rng b R np) := by
    obtain ⟨z, e, hz⟩ := ho'.kid np hnp.live
    obtain rfl : y = z := Option.some.inj (Eq.trans (Eq.symm hy) e)
    exact hz
  have hpair : ∀ a, pair b R first np a ↔ R a := by
    intro a
    refine ⟨fun h => h.1, fun h => ⟨h, fun hn => absurd hn (by omega), fun q hq hbq hl => ?_⟩⟩
    rw [hone q hq hbq] at hl
    exact absurd hl (lt_irrefl _)
  have er : rng b R first = fun a => R a ∧ a < b.keys first := by
    funext a; exact propext ((rng_left hc.lt hnp a).trans (and_congr_left fun _ => hpair a))
  have ed : rng b R np = fun a => R a ∧ b.keys first ≤ a := by
    funext a; exact propext ((rng_right hc.lt hb ho'.inj hnp a).trans (and_congr_left fun _ => hpair a))
  rw [er] at okr
  rw [ed] at okd
  have hdis0 := ho'.disj first np child y hpos hnp.live (hnp.ne hc.lt) hkid hy
  obtain ⟨s, e3, g1, g2, _⟩ := merge_node F hR (fun x R R' h => ok_mono d x R R' h) (ho'.sep first hc.lt hb).1 (ho'.sep first hc.lt hb).2
    okr okd (fun u v hu hv => Set.disjoint_left.2 fun i h1 h2 => Set.disjoint_left.1 hdis0 ⟨u, hu, h1⟩ ⟨v, hv, h2⟩) hc.key hy1 hy3
  obtain ⟨bits, e4, g4, _, g5⟩ := reset_law hlok (p := first) hc.lt hb
  have e4 : b.bits.reset first = .ok bits := e4
  obtain ⟨mx, e5⟩ := maxPos_total c.lim b.keys bits
  have hcnt : bits.count = 0 := by
    have h1 : used b.asLeaf = 1 := by rw [← count_asLeaf hlok]; exact hc.one
    have h2 := count_used g4
    exact h2.trans (Nat.succ.inj (g5.trans h1))
  have hkb : ∀ z, Kid b z ↔ z = child ∨ z = y := by
    intro z
    constructor
    · rintro ⟨q, ⟨hq, hbq⟩ | hq, hz⟩
      · rw [hone q hq hbq, hkid] at hz
        exact Or.inl (Option.some.inj hz).symm
      · rw [← hnpN.trans hq.symm, show b.kids np = some y from hy] at hz
        exact Or.inr (Option.some.inj hz).symm
    · rintro (rfl | rfl)
      · exact ⟨first, hpos, hkid⟩
      · exact ⟨np, hnp.live, hy⟩
  refine ⟨⟨bits, b.keys, if first = mx then upd (upd (upd b.kids np none) first (some s)) c.N (some s) else upd (upd b.kids np none) first (some s)⟩,
    s, ?_, hcnt, g1, fun i => ?_, fun u v => ?_⟩
  rotate_left 1
  · constructor
    · rintro ⟨z, hz, hi⟩
      rcases (g2 z).1 hz with h | h
      · exact ⟨child, (hkb _).2 (Or.inl rfl), z, h, hi⟩
      · exact ⟨y, (hkb _).2 (Or.inr rfl), z, h, hi⟩
    · rintro ⟨w, hw, z, hz, hi⟩
      rcases (hkb w).1 hw with rfl | rfl
      · exact ⟨z, (g2 z).2 (Or.inl hz), hi⟩
      · exact ⟨z, (g2 z).2 (Or.inr hz), hi⟩
  · constructor
    · rintro ⟨z, hz, hi⟩
      rcases (g2 z).1 hz with h | h
      · exact ⟨child, (hkb _).2 (Or.inl rfl), z, h, hi⟩
      · exact ⟨y, (hkb _).2 (Or.inr rfl), z, h, hi⟩
    · rintro ⟨w, hw, z, hz, hi⟩
      rcases (hkb w).1 hw with rfl | rfl
      · exact ⟨z, (g2 z).2 (Or.inl hz), hi⟩
      · exact ⟨z, (g2 z).2 (Or.inr hz), hi⟩
  · have k1 : b.kid pp = .ok x := kid_ok (live_lt hlp) hx
    have k2 : b.kid np = .ok y := kid_ok (live_lt hnp.live) hy
    unfold Branch.under
    rw [e0, Res.ok_bind, rdA_ok hc.lt, Res.ok_bind, e1, Res.ok_bind, k1, Res.ok_bind, e2, Res.ok_bind,
      k2, Res.ok_bind, if_neg (fun h => h.1 rfl), if_neg (fun h => absurd h.2 (not_lt.2 hy2)),
      if_neg (fun h => h rfl), if_pos hc.lt, hM, e3, Res.ok_bind, e4, Res.ok_bind, e5, Res.ok_bind]
    rfl

end Verif.BitTree
