import Verif.Bdcc.Model
import Mathlib.Data.Finset.Card
import Mathlib.Data.Finset.Max
import Mathlib.Tactic.Ring

/-! # Lemmas on BDCC masks and values -/

namespace Verif.Bdcc

/-- Number of positions of the mask above `p`: 0 for the most significant bit of the mask. -/
def rank (m : Finset Nat) (p : Nat) : Nat := (m.filter (fun q => p < q)).card

/-- Sum of the remaining bits. -/
def total (rem : Nat → Nat) : Nat → Nat := numBins rem

/-- Invariant of the passes: `t` full passes are done and in the current pass the dimensions below
`i` have been visited. -/
structure Inv (bits : Nat → Nat) (n t i : Nat) (s : St) : Prop where
  rem_done : ∀ d < n, d < i → s.rem d = bits d - (t + 1)
  rem_todo : ∀ d < n, i ≤ d → s.rem d = bits d - t
  card_done : ∀ d < n, d < i → (s.mask d).card = min (bits d) (t + 1)
  card_todo : ∀ d < n, i ≤ d → (s.mask d).card = min (bits d) t
  size_eq : s.size = numBins s.rem n
  lower : ∀ d < n, ∀ p ∈ s.mask d, s.size ≤ p ∧ p < numBins bits n
  disj : ∀ d < n, ∀ e < n, d ≠ e → Disjoint (s.mask d) (s.mask e)
  cover : ∀ p, s.size ≤ p → p < numBins bits n → ∃ d < n, p ∈ s.mask d
  ord : ∀ d < n, ∀ e < n, ∀ p ∈ s.mask d, ∀ q ∈ s.mask e,
    (rank (s.mask d) p < rank (s.mask e) q ∨ (rank (s.mask d) p = rank (s.mask e) q ∧ d < e)) → q < p

theorem numBins_upd (f : Nat → Nat) (i v n : Nat) (hi : i < n) :
    numBins (upd f i v) n + f i = numBins f n + v := by
  induction n with
  | zero => omega
  | succ n ih =>
    rw [numBins, numBins]
    by_cases h : i = n
    · subst h
      have : ∀ m, m ≤ i → numBins (upd f i v) m = numBins f m := by
        intro m hm
        induction m with
        | zero => rfl
        | succ m ihm =>
          rw [numBins, numBins, ihm (by omega)]
          unfold upd; rw [if_neg (by omega)]
      rw [this i le_rfl]
      unfold upd; rw [if_pos rfl]; omega
    · have := ih (by omega)
      have h2 : upd f i v n = f n := by unfold upd; rw [if_neg (by omega)]
      rw [h2]; omega

theorem numBins_ge (f : Nat → Nat) (i n : Nat) (hi : i < n) : f i ≤ numBins f n := by
  induction n with
  | zero => omega
  | succ n ih =>
    rw [numBins]
    by_cases h : i = n
    · subst h; omega
    · have := ih (by omega); omega

theorem numBins_zero (f : Nat → Nat) (n : Nat) : numBins f n = 0 ↔ ∀ i < n, f i = 0 := by
  constructor
  · intro h i hi; have := numBins_ge f i n hi; omega
  · intro h
    induction n with
    | zero => rfl
    | succ n ih => rw [numBins, ih (fun i hi => h i (by omega)), h n (by omega)]

theorem rank_insert_old {m : Finset Nat} {p x : Nat} (hx : p < x) : rank (insert p m) x = rank m x := by
  unfold rank
  rw [Finset.filter_insert, if_neg (by omega)]

theorem rank_insert_new {m : Finset Nat} {p : Nat} (h : ∀ x ∈ m, p < x) :
    rank (insert p m) p = m.card := by
  unfold rank
  rw [Finset.filter_insert, if_neg (by omega), Finset.filter_true_of_mem h]

theorem rank_lt_card {m : Finset Nat} {p : Nat} (hp : p ∈ m) : rank m p < m.card := by
  unfold rank
  apply Finset.card_lt_card
  rw [Finset.filter_ssubset]
  exact ⟨p, hp, by omega⟩

theorem pass_spec (bits : Nat → Nat) (n t : Nat) (hB : numBins bits n ≤ 32) (k : Nat) :
    ∀ (i : Nat) (s : St), i + k = n → Inv bits n t i s →
    ∃ s', pass i k s = .ok s' ∧ Inv bits n t n s' ∧ s'.size ≤ s.size ∧
      ((∃ d, i ≤ d ∧ d < n ∧ s.rem d > 0) → s'.size < s.size) := by
  induction k with
  | zero =>
    intro i s hik h
    have : i = n := by omega
    subst this
    exact ⟨s, rfl, h, le_rfl, by rintro ⟨d, h1, h2, -⟩; omega⟩
  | succ k ih =>
    intro i s hik h
    have hin : i < n := by omega
    rw [pass]
    by_cases hr : s.rem i > 0
    · rw [if_pos hr]
      have hge := numBins_ge s.rem i n hin
      have hsz := h.size_eq
      have hub : s.size ≤ numBins bits n := by
        rw [hsz]
        have hle : ∀ d < n, s.rem d ≤ bits d := by
          intro d hd
          rcases Nat.lt_or_ge d i with h1 | h1
          · rw [h.rem_done d hd h1]; omega
          · rw [h.rem_todo d hd h1]; omega
        have : ∀ m ≤ n, numBins s.rem m ≤ numBins bits m := by
          intro m hm
          induction m with
          | zero => exact le_rfl
          | succ m ihm => rw [numBins, numBins]; have := hle m (by omega); have := ihm (by omega); omega
        exact this n le_rfl
      rw [if_pos ⟨by omega, by omega⟩]
      have hbt : bits i > t := by have := h.rem_todo i hin le_rfl; omega
      have hci : (s.mask i).card = t := by rw [h.card_todo i hin le_rfl]; omega
      have hpnew : ∀ d < n, ∀ x ∈ s.mask d, s.size - 1 < x := by
        intro d hd x hx; have := (h.lower d hd x hx).1; omega
      have hnotin : ∀ d < n, s.size - 1 ∉ s.mask d := fun d hd hx => by
        have := hpnew d hd _ hx; omega
      have hm : ∀ d, upd s.mask i (insert (s.size - 1) (s.mask i)) d =
          if d = i then insert (s.size - 1) (s.mask i) else s.mask d := fun d => rfl
      have hInv : Inv bits n t (i + 1) (St.mk (upd s.rem i (s.rem i - 1))
            (upd s.mask i (insert (s.size - 1) (s.mask i))) (s.size - 1)) := by
        constructor
        · intro d hd hdi
          simp only [upd]
          by_cases e : d = i
          · rw [if_pos e, h.rem_todo i hin le_rfl, e]; omega
          · rw [if_neg e]; exact h.rem_done d hd (by omega)
        · intro d hd hdi
          simp only [upd]
          rw [if_neg (by omega)]; exact h.rem_todo d hd (by omega)
        · intro d hd hdi
          simp only [hm]
          by_cases e : d = i
          · rw [if_pos e, Finset.card_insert_of_notMem (hnotin i hin), hci, e]; omega
          · rw [if_neg e]; exact h.card_done d hd (by omega)
        · intro d hd hdi
          simp only [hm]
          rw [if_neg (by omega)]; exact h.card_todo d hd (by omega)
        · simp only
          have := numBins_upd s.rem i (s.rem i - 1) n hin
          omega
        · intro d hd p hp
          simp only [hm] at hp
          simp only
          by_cases e : d = i
          · rw [if_pos e, Finset.mem_insert] at hp
            rcases hp with rfl | hp
            · omega
            · have := h.lower i hin p hp; omega
          · rw [if_neg e] at hp
            have := h.lower d hd p hp; omega
        · intro d hd e he hde
          simp only [hm]
          by_cases e1 : d = i
          · rw [if_pos e1, if_neg (by omega), Finset.disjoint_insert_left]
            exact ⟨hnotin e he, h.disj i hin e he (by omega)⟩
          · by_cases e2 : e = i
            · rw [if_neg e1, if_pos e2, Finset.disjoint_insert_right]
              exact ⟨hnotin d hd, h.disj d hd i hin (by omega)⟩
            · rw [if_neg e1, if_neg e2]; exact h.disj d hd e he hde
        · intro p hp1 hp2
          simp only at hp1
          rcases Nat.eq_or_lt_of_le hp1 with hpe | hlt
          · exact ⟨i, hin, by rw [show (St.mk _ _ _).mask i = _ from hm i, if_pos rfl, hpe]; exact Finset.mem_insert_self _ _⟩
          · obtain ⟨d, hd, hpd⟩ := h.cover p (by omega) hp2
            refine ⟨d, hd, ?_⟩
            simp only [hm]
            by_cases e : d = i
            · rw [if_pos e]; subst e; exact Finset.mem_insert_of_mem hpd
            · rw [if_neg e]; exact hpd
        · -- ranks of old elements are unchanged, the new element has rank `t`
          have hold : ∀ d < n, ∀ x, x ∈ s.mask d →
              rank (upd s.mask i (insert (s.size - 1) (s.mask i)) d) x = rank (s.mask d) x := by
            intro d hd x hx
            rw [hm]
            by_cases e : d = i
            · rw [if_pos e, rank_insert_old (hpnew d hd x hx), e]
            · rw [if_neg e]
          have hnew : rank (upd s.mask i (insert (s.size - 1) (s.mask i)) i) (s.size - 1) = t := by
            rw [hm, if_pos rfl, rank_insert_new (hpnew i hin), hci]
          have hcases : ∀ d < n, ∀ x, x ∈ upd s.mask i (insert (s.size - 1) (s.mask i)) d →
              x ∈ s.mask d ∨ (d = i ∧ x = s.size - 1) := by
            intro d hd x hx
            rw [hm] at hx
            by_cases e : d = i
            · rw [if_pos e, Finset.mem_insert] at hx
              rcases hx with hx | hx
              · exact .inr ⟨e, hx⟩
              · rw [e]; exact .inl hx
            · rw [if_neg e] at hx; exact .inl hx
          intro d hd e he p hp q hq hlex
          simp only at hp hq hlex
          rcases hcases d hd p hp with hp' | ⟨rfl, rfl⟩
          · rcases hcases e he q hq with hq' | ⟨rfl, rfl⟩
            · rw [hold d hd p hp', hold e he q hq'] at hlex
              exact h.ord d hd e he p hp' q hq' hlex
            · exact hpnew d hd p hp'
          · exfalso
            rw [hnew] at hlex
            rcases hcases e he q hq with hq' | ⟨rfl, rfl⟩
            · rw [hold e he q hq'] at hlex
              have h1 := rank_lt_card hq'
              rcases hlex with h2 | ⟨h2, h3⟩
              · rcases Nat.lt_or_ge e d with h4 | h4
                · rw [h.card_done e he h4] at h1; omega
                · rw [h.card_todo e he h4] at h1; omega
              · rw [h.card_todo e he (by omega)] at h1; omega
            · rw [hnew] at hlex; omega
      obtain ⟨s', e1, h1, h2, -⟩ := ih (i + 1) _ (by omega) hInv
      simp only at h2
      exact ⟨s', e1, h1, by omega, fun _ => by omega⟩
    · rw [if_neg hr]
      have h0 : s.rem i = 0 := by omega
      have hbt : bits i ≤ t := by have := h.rem_todo i hin le_rfl; omega
      have hInv : Inv bits n t (i + 1) s := by
        refine { h with rem_done := ?_, rem_todo := ?_, card_done := ?_, card_todo := ?_ }
        · intro d hd hdi
          by_cases e : d = i
          · subst e; omega
          · exact h.rem_done d hd (by omega)
        · intro d hd hdi; exact h.rem_todo d hd (by omega)
        · intro d hd hdi
          by_cases e : d = i
          · subst e; rw [h.card_todo d hd le_rfl]; omega
          · exact h.card_done d hd (by omega)
        · intro d hd hdi; exact h.card_todo d hd (by omega)
      obtain ⟨s', e1, h1, h2, h3⟩ := ih (i + 1) s (by omega) hInv
      refine ⟨s', e1, h1, h2, ?_⟩
      rintro ⟨d, hd1, hd2, hd3⟩
      apply h3
      refine ⟨d, ?_, hd2, hd3⟩
      rcases Nat.eq_or_lt_of_le hd1 with e | e
      · subst e; omega
      · omega

theorem Inv.next {bits : Nat → Nat} {n t : Nat} {s : St} (h : Inv bits n t n s) :
    Inv bits n (t + 1) 0 s :=
  { h with
    rem_done := fun d _ h0 => by omega
    rem_todo := fun d hd _ => h.rem_done d hd hd
    card_done := fun d _ h0 => by omega
    card_todo := fun d hd _ => h.card_done d hd hd }

theorem loop_spec (bits : Nat → Nat) (n : Nat) (hB : numBins bits n ≤ 32) (fuel : Nat) :
    ∀ (t : Nat) (s : St), s.size ≤ fuel → Inv bits n t 0 s →
    ∃ s' t', loop n fuel s = .ok s' ∧ s'.size = 0 ∧ Inv bits n t' 0 s' := by
  induction fuel with
  | zero =>
    intro t s hf h
    have h0 : s.size = 0 := by omega
    exact ⟨s, t, by rw [loop, if_pos h0], h0, h⟩
  | succ fuel ih =>
    intro t s hf h
    rw [loop]
    by_cases h0 : s.size = 0
    · rw [if_pos h0]; exact ⟨s, t, rfl, h0, h⟩
    · rw [if_neg h0]
      obtain ⟨s1, e1, h1, h2, h3⟩ := pass_spec bits n t hB n 0 s (by omega) h
      rw [e1, Res.ok_bind]
      have hlt : s1.size < s.size := by
        apply h3
        by_contra hno
        apply h0
        rw [h.size_eq, numBins_zero]
        intro i hi
        by_contra hne
        exact hno ⟨i, by omega, hi, by omega⟩
      exact ih (t + 1) s1 (by omega) h1.next

theorem deriveMasks_spec (bits : Nat → Nat) (n : Nat) (hB : numBins bits n ≤ 32) :
    ∃ masks, deriveMasks bits n = .ok masks ∧
      (∀ d < n, (masks d).card = bits d) ∧
      (∀ d < n, ∀ p ∈ masks d, p < numBins bits n) ∧
      (∀ d < n, ∀ e < n, d ≠ e → Disjoint (masks d) (masks e)) ∧
      (∀ p < numBins bits n, ∃ d < n, p ∈ masks d) ∧
      (∀ d < n, ∀ e < n, ∀ p ∈ masks d, ∀ q ∈ masks e,
        (rank (masks d) p < rank (masks e) q ∨ (rank (masks d) p = rank (masks e) q ∧ d < e)) → q < p) := by
  unfold deriveMasks
  obtain ⟨s, t, e, h0, h⟩ := loop_spec bits n hB (numBins bits n) 0
    { rem := bits, mask := fun _ => ∅, size := numBins bits n } le_rfl
    { rem_done := by intro d _ h; omega
      rem_todo := by intro d _ _; simp
      card_done := by intro d _ h; omega
      card_todo := by intro d _ _; simp
      size_eq := rfl
      lower := by intro d _ p hp; simp at hp
      disj := by intro d _ e _ _; simp
      cover := by intro p h1 h2; simp at h1; omega
      ord := by intro d _ e _ p hp; simp at hp }
  rw [e, Res.ok_bind]
  refine ⟨s.mask, rfl, ?_, fun d hd p hp => (h.lower d hd p hp).2, h.disj,
    fun p hp => h.cover p (by omega) hp, h.ord⟩
  intro d hd
  have hz := (numBins_zero s.rem n).1 (by rw [← h.size_eq]; exact h0) d hd
  have h1 := h.rem_todo d hd (by omega)
  rw [h.card_todo d hd (by omega)]
  omega

/-! ## Values -/

/-- Meaning of `shrBit` on a machine. -/
theorem shrBit_ok (f : BitVec 32 → Int → Bool) (x : BitVec 32) (j : Int) :
    ∃ b, shrBit (.hardware f) x j = .ok b ∧ (0 ≤ j → j < 32 → b = x.getLsbD j.toNat) := by
  unfold shrBit
  by_cases h : 0 ≤ j ∧ j < 32
  · rw [if_pos h]
    refine ⟨_, rfl, fun _ _ => ?_⟩
    rw [BitVec.getLsbD_sshiftRight]
    simp
    omega
  · rw [if_neg h]
    exact ⟨_, rfl, fun h1 h2 => absurd ⟨h1, h2⟩ h⟩

theorem mapLoop_spec (f : BitVec 32 → Int → Bool) (x : BitVec 32) (m : Finset Nat) (i : Nat) :
    ∀ (j : Int) (acc : Finset Nat), j < 32 →
    (∀ p, p < i → p ∈ m → ((m.filter (fun q => q < i ∧ p < q)).card : Int) ≤ j) →
    ∃ r, mapLoop (.hardware f) x m i j acc = .ok r ∧
      (∀ p, i ≤ p → (p ∈ r ↔ p ∈ acc)) ∧
      (∀ p, p < i → (p ∈ r ↔ p ∈ m ∧
        x.getLsbD (j - ((m.filter (fun q => q < i ∧ p < q)).card : Int)).toNat = true)) := by
  induction i with
  | zero => intro j acc _ _; exact ⟨acc, rfl, by simp, by omega⟩
  | succ i ih =>
    intro j acc hj hm
    rw [mapLoop]
    obtain ⟨b, eb, hb⟩ := shrBit_ok f x j
    rw [eb, Res.ok_bind]
    have hcard : ∀ p, p < i → ((m.filter (fun q => q < i + 1 ∧ p < q)).card : Int) =
        (m.filter (fun q => q < i ∧ p < q)).card + (if i ∈ m then 1 else 0) := by
      intro p hp
      by_cases him : i ∈ m
      · have : m.filter (fun q => q < i + 1 ∧ p < q) = insert i (m.filter (fun q => q < i ∧ p < q)) := by
          ext q
          simp only [Finset.mem_filter, Finset.mem_insert]
          constructor
          · rintro ⟨h1, h2, h3⟩
            by_cases e : q = i
            · exact .inl e
            · exact .inr ⟨h1, by omega, h3⟩
          · rintro (rfl | ⟨h1, h2, h3⟩)
            · exact ⟨him, by omega, hp⟩
            · exact ⟨h1, by omega, h3⟩
        rw [this, Finset.card_insert_of_notMem (by simp), if_pos him]; push_cast; ring
      · have : m.filter (fun q => q < i + 1 ∧ p < q) = m.filter (fun q => q < i ∧ p < q) := by
          ext q
          simp only [Finset.mem_filter]
          constructor
          · rintro ⟨h1, h2, h3⟩
            have : q ≠ i := fun e => him (e ▸ h1)
            exact ⟨h1, by omega, h3⟩
          · rintro ⟨h1, h2, h3⟩; exact ⟨h1, by omega, h3⟩
        rw [this, if_neg him]; simp
    obtain ⟨r, er, h1, h2⟩ := ih (if i ∈ m then j - 1 else j)
      (if b && decide (i ∈ m) then insert i acc else acc.erase i) (by split <;> omega)
      (by
        intro p hp hpm
        have a := hm p (by omega) hpm
        rw [hcard p hp] at a
        split <;> rename_i him
        · rw [if_pos him] at a; omega
        · rw [if_neg him] at a; omega)
    refine ⟨r, er, ?_, ?_⟩
    · intro p hp
      rw [h1 p (by omega)]
      by_cases hbi : (b && decide (i ∈ m)) = true
      · rw [if_pos hbi, Finset.mem_insert]
        exact ⟨fun h => h.resolve_left (by omega), .inr⟩
      · rw [if_neg hbi, Finset.mem_erase]
        exact ⟨fun h => h.2, fun h => ⟨by omega, h⟩⟩
    · intro p hp
      rcases Nat.lt_or_eq_of_le (Nat.lt_succ_iff.1 hp) with hlt | heq
      · rw [h2 p hlt, hcard p hlt]
        have : (if i ∈ m then j - 1 else j) - ((m.filter (fun q => q < i ∧ p < q)).card : Int) =
            j - ((m.filter (fun q => q < i ∧ p < q)).card + (if i ∈ m then 1 else 0)) := by
          split <;> omega
        rw [this]
      · subst heq
        have hempty : m.filter (fun q => q < p + 1 ∧ p < q) = ∅ := by
          ext q; simp; intro _ _; omega
        rw [h1 p le_rfl, hempty, Finset.card_empty]
        by_cases hpm : p ∈ m
        · have hj0 : 0 ≤ j := by
            have := hm p (by omega) hpm
            rw [hempty, Finset.card_empty] at this
            simpa using this
          have hbj := hb hj0 hj
          simp only [hpm, decide_true, Bool.and_true, true_and]
          have e : (j - ((0 : Nat) : Int)).toNat = j.toNat := by congr 1; simp
          rw [e, ← hbj]
          cases b <;> simp
        · simp [hpm]

/-- Bits of the bin: bit `j` of the bin is bit `align - nBits + j` of the value. -/
theorem bin_spec (v : BitVec 32) (nBits align : Nat) (h1 : nBits ≤ align) (h2 : align ≤ 32)
    (h3 : align - nBits < 32) :
    ∃ x, bin v nBits align = .ok x ∧ ∀ j < nBits, x.getLsbD j = v.getLsbD (align - nBits + j) := by
  unfold bin
  rw [if_pos ⟨h1, h3, by omega⟩]
  refine ⟨_, rfl, ?_⟩
  intro j hj
  rw [BitVec.getLsbD_sshiftRight]
  have hj32 : j < 32 := by omega
  have hs : align - nBits + j < 32 := by omega
  simp only [hs, if_true, BitVec.getLsbD_and, BitVec.getLsbD_ofNat, Nat.testBit_shiftLeft,
    Nat.testBit_two_pow_sub_one]
  have e1 : decide (32 ≤ j) = false := by simp; omega
  have e2 : decide (align - nBits + j ≥ align - nBits) = true := by simp
  have e3 : decide (align - nBits + j - (align - nBits) < nBits) = true := by simp; omega
  rw [e1, e2, e3]
  simp

theorem dimBits_spec (f : BitVec 32 → Int → Bool) (v : BitVec 32) (nBits align : Nat) (m : Finset Nat)
    (h1 : nBits ≤ align) (h2 : align ≤ 32) (h3 : align - nBits < 32) (hcard : m.card = nBits)
    (hm : ∀ p ∈ m, p < 32) :
    ∃ r, dimBits (.hardware f) v nBits align m = .ok r ∧
      ∀ p, p ∈ r ↔ p ∈ m ∧ v.getLsbD (align - 1 - rank m p) = true := by
  unfold dimBits
  obtain ⟨x, ex, hx⟩ := bin_spec v nBits align h1 h2 h3
  rw [ex, Res.ok_bind]
  have hfil : ∀ p, m.filter (fun q => q < 32 ∧ p < q) = m.filter (fun q => p < q) := by
    intro p
    apply Finset.filter_congr
    intro q hq
    exact ⟨fun h => h.2, fun h => ⟨hm q hq, h⟩⟩
  obtain ⟨r, er, ha, hb⟩ := mapLoop_spec f x m 32 ((nBits : Int) - 1) m (by omega) (by
    intro p hp hpm
    rw [hfil]
    have := rank_lt_card hpm
    unfold rank at this
    omega)
  refine ⟨r, er, ?_⟩
  intro p
  by_cases hp : p < 32
  · rw [hb p hp, hfil]
    constructor
    · rintro ⟨hpm, hbit⟩
      refine ⟨hpm, ?_⟩
      have hr := rank_lt_card hpm
      unfold rank at hr ⊢
      have e : ((nBits : Int) - 1 - ((m.filter (fun q => p < q)).card : Int)).toNat =
          nBits - 1 - (m.filter (fun q => p < q)).card := by omega
      rw [e, hx _ (by omega)] at hbit
      rw [← hbit]; congr 1; omega
    · rintro ⟨hpm, hbit⟩
      refine ⟨hpm, ?_⟩
      have hr := rank_lt_card hpm
      unfold rank at hr hbit
      have e : ((nBits : Int) - 1 - ((m.filter (fun q => p < q)).card : Int)).toNat =
          nBits - 1 - (m.filter (fun q => p < q)).card := by omega
      rw [e, hx _ (by omega), ← hbit]; congr 1; omega
  · rw [ha p (by omega)]
    constructor
    · intro h; exact absurd (hm p h) hp
    · intro h; exact absurd (hm p h.1) hp

theorem bdccLoop_spec (f : BitVec 32 → Int → Bool) (vals : Nat → BitVec 32) (bits align : Nat → Nat)
    (masks : Nat → Finset Nat) (n : Nat)
    (h1 : ∀ d < n, bits d ≤ align d) (h2 : ∀ d < n, align d ≤ 32) (h3 : ∀ d < n, align d - bits d < 32)
    (hcard : ∀ d < n, (masks d).card = bits d) (hm : ∀ d < n, ∀ p ∈ masks d, p < 32) :
    ∃ r, bdccLoop (.hardware f) vals bits align masks n = .ok r ∧
      ∀ p, p ∈ r ↔ ∃ d < n, p ∈ masks d ∧ (vals d).getLsbD (align d - 1 - rank (masks d) p) = true := by
  induction n with
  | zero => exact ⟨∅, rfl, by simp⟩
  | succ n ih =>
    obtain ⟨r, er, hr⟩ := ih (fun d hd => h1 d (by omega)) (fun d hd => h2 d (by omega))
      (fun d hd => h3 d (by omega)) (fun d hd => hcard d (by omega)) (fun d hd => hm d (by omega))
    obtain ⟨x, ex, hx⟩ := dimBits_spec f (vals n) (bits n) (align n) (masks n) (h1 n (by omega))
      (h2 n (by omega)) (h3 n (by omega)) (hcard n (by omega)) (hm n (by omega))
    rw [bdccLoop, er, Res.ok_bind, ex, Res.ok_bind]
    refine ⟨_, rfl, ?_⟩
    intro p
    rw [Finset.mem_union, hr, hx]
    constructor
    · rintro (⟨d, hd, h⟩ | h)
      · exact ⟨d, by omega, h⟩
      · exact ⟨n, by omega, h⟩
    · rintro ⟨d, hd, h⟩
      rcases Nat.lt_or_eq_of_le (Nat.lt_succ_iff.1 hd) with e | e
      · exact .inl ⟨d, e, h⟩
      · subst e; exact .inr h

theorem toNat_eq (s : Finset Nat) (n : Nat) :
    (List.range n).foldl (fun a i => if i ∈ s then a + 2 ^ i else a) 0 < 2 ^ n ∧
    (∀ k, (∀ p ∈ s, p < k) →
      (List.range n).foldl (fun a i => if i ∈ s then a + 2 ^ i else a) 0 < 2 ^ k) := by
  induction n with
  | zero => exact ⟨by simp, fun k _ => by simp⟩
  | succ n ih =>
    rw [List.range_succ, List.foldl_append, List.foldl_cons, List.foldl_nil]
    have := ih.1
    constructor
    · rw [Nat.pow_succ]; split <;> omega
    · intro k hk
      split
      · rename_i hn
        have hlt := hk n hn
        have : 2 ^ (n + 1) ≤ 2 ^ k := Nat.pow_le_pow_right (by decide) hlt
        rw [Nat.pow_succ] at this
        omega
      · exact ih.2 k hk

theorem testBit_fold (s : Finset Nat) (n p : Nat) :
    Nat.testBit ((List.range n).foldl (fun a i => if i ∈ s then a + 2 ^ i else a) 0) p =
      decide (p < n ∧ p ∈ s) := by
  induction n with
  | zero => simp
  | succ n ih =>
    have hlt := (toNat_eq s n).1
    rw [List.range_succ, List.foldl_append, List.foldl_cons, List.foldl_nil]
    generalize (List.range n).foldl (fun a i => if i ∈ s then a + 2 ^ i else a) 0 = x at *
    split
    · rename_i hn
      rw [Nat.add_comm]
      rcases Nat.lt_trichotomy p n with h | h | h
      · rw [Nat.testBit_two_pow_add_gt h, ih]; congr 1; simp [h]; omega
      · subst h
        rw [Nat.testBit_two_pow_add_eq, Nat.testBit_lt_two_pow hlt]; simp [hn]
      · rw [Nat.testBit_lt_two_pow]
        · simp; omega
        · have : 2 ^ (n + 1) ≤ 2 ^ p := Nat.pow_le_pow_right (by decide) h
          rw [Nat.pow_succ] at this; omega
    · rename_i hn
      rw [ih]
      congr 1
      apply propext
      constructor
      · rintro ⟨h1, h2⟩; exact ⟨by omega, h2⟩
      · rintro ⟨h1, h2⟩
        refine ⟨?_, h2⟩
        rcases Nat.lt_or_eq_of_le (Nat.lt_succ_iff.1 h1) with h | h
        · exact h
        · subst h; exact absurd h2 hn

theorem testBit_toNat (s : Finset Nat) (p : Nat) : (toNat s).testBit p = decide (p < 32 ∧ p ∈ s) :=
  testBit_fold s 32 p

/-- In a finite set of size `c`, every rank below `c` is taken. -/
theorem exists_rank (m : Finset Nat) : ∀ k < m.card, ∃ p ∈ m, rank m p = k := by
  induction m using Finset.induction_on_min with
  | empty => simp
  | insert a m ha ih =>
    intro k hk
    have hna : a ∉ m := fun h => by have := ha a h; omega
    rw [Finset.card_insert_of_notMem hna] at hk
    rcases Nat.lt_or_eq_of_le (Nat.lt_succ_iff.1 hk) with h | h
    · obtain ⟨p, hp, hr⟩ := ih k h
      exact ⟨p, Finset.mem_insert_of_mem hp, by rw [rank_insert_old (ha p hp), hr]⟩
    · exact ⟨a, Finset.mem_insert_self _ _, by rw [rank_insert_new ha, h]⟩

end Verif.Bdcc
