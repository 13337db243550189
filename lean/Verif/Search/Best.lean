import Verif.Search.Model
import Verif.Bitmap.Lemmas

/-! # Lemmas on the extremal-key loops -/

namespace Verif.Search

set_option linter.unusedSectionVars false

variable {K : Type} [LinearOrder K]

theorem bestLoop_spec (rd : Nat → Res K) (better : Nat → K → K → Res Bool) (k : Nat → K)
    (cond : Nat → Prop) (R : K → K → Prop)
    (htr : ∀ a b c, ¬ R a b → R c b → ¬ R a c) (hirr : ∀ a, ¬ R a a)
    (htrans : ∀ a b c, R a b → R b c → R a c)
    (n : Nat) (cur : K) (pos i : Nat)
    (hrd : ∀ j, i ≤ j → j < i + n → rd j = .ok (k j))
    (hb : ∀ j, i ≤ j → j < i + n → ∀ c, ∃ b, better j (k j) c = .ok b ∧ (b = true ↔ cond j ∧ R (k j) c)) :
    ∃ c p, bestLoop rd better cur pos i n = .ok (c, p) ∧
      ((c = cur ∧ p = pos ∧ ∀ j, i ≤ j → j < i + n → cond j → ¬ R (k j) cur) ∨
       (i ≤ p ∧ p < i + n ∧ cond p ∧ k p = c ∧ R c cur ∧
        ∀ j, i ≤ j → j < i + n → cond j → ¬ R (k j) c)) := by
  induction n generalizing cur pos i with
  | zero => exact ⟨cur, pos, rfl, .inl ⟨rfl, rfl, fun j h1 h2 => by omega⟩⟩
  | succ n ih =>
    rw [bestLoop, hrd i (by omega) (by omega), Res.ok_bind]
    obtain ⟨b, hb1, hb2⟩ := hb i (by omega) (by omega) cur
    rw [hb1, Res.ok_bind]
    cases b with
    | true =>
      obtain ⟨hc, hR⟩ := hb2.1 rfl
      rw [if_pos rfl]
      obtain ⟨c, p, he, h⟩ := ih (k i) i (i + 1) (fun j h1 h2 => hrd j (by omega) (by omega))
        (fun j h1 h2 => hb j (by omega) (by omega))
      refine ⟨c, p, he, .inr ?_⟩
      rcases h with ⟨rfl, rfl, h3⟩ | ⟨h1, h2, h3, h4, h5, h6⟩
      · refine ⟨by omega, by omega, hc, rfl, hR, ?_⟩
        intro j h1 h2 hj
        rcases Nat.lt_or_eq_of_le h1 with h | h
        · exact h3 j (by omega) (by omega) hj
        · rw [← h]; exact hirr _
      · refine ⟨by omega, by omega, h3, h4, htrans _ _ _ h5 hR, ?_⟩
        intro j h1 h2 hj
        rcases Nat.lt_or_eq_of_le h1 with h | h
        · exact h6 j (by omega) (by omega) hj
        · rw [← h]; exact htr _ _ _ (hirr _) h5
    | false =>
      have hn : ¬ (cond i ∧ R (k i) cur) := fun h => by simpa using hb2.2 h
      rw [if_neg (by simp)]
      obtain ⟨c, p, he, h⟩ := ih cur pos (i + 1) (fun j h1 h2 => hrd j (by omega) (by omega))
        (fun j h1 h2 => hb j (by omega) (by omega))
      refine ⟨c, p, he, ?_⟩
      rcases h with ⟨rfl, rfl, h3⟩ | ⟨h1, h2, h3, h4, h5, h6⟩
      · refine .inl ⟨rfl, rfl, ?_⟩
        intro j h1 h2 hj
        rcases Nat.lt_or_eq_of_le h1 with h | h
        · exact h3 j (by omega) (by omega) hj
        · subst h; exact fun hR => hn ⟨hj, hR⟩
      · refine .inr ⟨by omega, by omega, h3, h4, h5, ?_⟩
        intro j h1 h2 hj
        rcases Nat.lt_or_eq_of_le h1 with h | h
        · exact h6 j (by omega) (by omega) hj
        · subst h; exact htr _ _ _ (fun hR => hn ⟨hj, hR⟩) h5

theorem lt_htr : ∀ a b c : K, ¬ a < b → c < b → ¬ a < c :=
  fun _ _ _ h1 h2 h3 => h1 (lt_trans h3 h2)
theorem gt_htr : ∀ a b c : K, ¬ b < a → b < c → ¬ c < a :=
  fun _ _ _ h1 h2 h3 => h1 (lt_trans h2 h3)

theorem findMin_node (rd : Nat → Res K) (k : Nat → K) (n : Nat) (hn : 1 ≤ n)
    (hrd : ∀ i < n, rd i = .ok (k i)) :
    ∃ p, findMinKeyPos rd n = .ok p ∧ p < n ∧ ∀ i < n, k p ≤ k i := by
  unfold findMinKeyPos
  rw [hrd 0 (by omega), Res.ok_bind]
  obtain ⟨c, p, he, h⟩ := bestLoop_spec rd (fun _ k cur => .ok (decide (k < cur))) k (fun _ => True)
    (· < ·) lt_htr (fun a => lt_irrefl a) (fun _ _ _ => lt_trans) (n - 1) (k 0) 0 1
    (fun j _ h => hrd j (by omega)) (fun j _ _ c => ⟨_, rfl, by simp⟩)
  rw [he, Res.ok_bind]
  refine ⟨p, rfl, ?_⟩
  rcases h with ⟨rfl, rfl, h3⟩ | ⟨h1, h2, -, rfl, h5, h6⟩
  · refine ⟨by omega, fun i hi => ?_⟩
    rcases Nat.eq_zero_or_pos i with rfl | h
    · exact le_refl _
    · exact not_lt.mp (h3 i (by omega) (by omega) trivial)
  · refine ⟨by omega, fun i hi => ?_⟩
    rcases Nat.eq_zero_or_pos i with rfl | h
    · exact le_of_lt h5
    · exact not_lt.mp (h6 i (by omega) (by omega) trivial)

theorem findMax_node (rd : Nat → Res K) (k : Nat → K) (n : Nat) (hn : 1 ≤ n)
    (hrd : ∀ i < n, rd i = .ok (k i)) :
    ∃ p, findMaxKeyPos rd n = .ok p ∧ p < n ∧ ∀ i < n, k i ≤ k p := by
  unfold findMaxKeyPos
  rw [hrd 0 (by omega), Res.ok_bind]
  obtain ⟨c, p, he, h⟩ := bestLoop_spec rd (fun _ k cur => .ok (decide (cur < k))) k (fun _ => True)
    (fun a b => b < a) gt_htr (fun a => lt_irrefl a) (fun _ _ _ h1 h2 => lt_trans h2 h1) (n - 1) (k 0) 0 1
    (fun j _ h => hrd j (by omega)) (fun j _ _ c => ⟨_, rfl, by simp⟩)
  rw [he, Res.ok_bind]
  refine ⟨p, rfl, ?_⟩
  rcases h with ⟨rfl, rfl, h3⟩ | ⟨h1, h2, -, rfl, h5, h6⟩
  · refine ⟨by omega, fun i hi => ?_⟩
    rcases Nat.eq_zero_or_pos i with rfl | h
    · exact le_refl _
    · exact not_lt.mp (h3 i (by omega) (by omega) trivial)
  · refine ⟨by omega, fun i hi => ?_⟩
    rcases Nat.eq_zero_or_pos i with rfl | h
    · exact le_of_lt h5
    · exact not_lt.mp (h6 i (by omega) (by omega) trivial)

variable {N : Nat}

/-- Total extension of a key array (proof tool). -/
def ext (keys : Fin N → K) (d : K) (i : Nat) : K := if h : i < N then keys ⟨i, h⟩ else d

theorem testAnd_spec (bits : Bitmap N) (i : Nat) (hi : i < N) (c : Bool) :
    testAnd bits i c = .ok (Bitmap.bit bits i && c) := by
  unfold testAnd
  rw [Bitmap.test_eq _ hi, Res.ok_bind]
  rfl

theorem test_iff (bits : Bitmap N) (i : Nat) (hi : i < N) :
    bits.test i = .ok true ↔ Bitmap.bit bits i = true := by
  rw [Bitmap.test_eq _ hi]
  exact ⟨fun h => Res.ok.inj h, fun h => congrArg _ h⟩

/-- Common form of the four bitmap searches. -/
theorem bits_search (keys : Fin N → K) (bits : Bitmap N) (cur : K) (cond : K → Bool)
    (R : K → K → Prop) [DecidableRel R]
    (htr : ∀ a b c, ¬ R a b → R c b → ¬ R a c) (hirr : ∀ a, ¬ R a a)
    (htrans : ∀ a b c, R a b → R b c → R a c)
    (better : Nat → K → K → Res Bool)
    (hbetter : ∀ i k c, better i k c = testAnd bits i (decide (R k c) && cond k)) :
    ∃ c p, bestLoop (fun i => if h : i < N then Res.ok (keys ⟨i, h⟩) else .ub) better cur 0 0 N
        = .ok (c, p) ∧
      ((c = cur ∧ p = 0 ∧ ∀ j : Fin N, bits.test j = .ok true → cond (keys j) = true →
          ¬ R (keys j) cur) ∨
       (∃ h : p < N, bits.test p = .ok true ∧ cond (keys ⟨p, h⟩) = true ∧ keys ⟨p, h⟩ = c ∧
        R c cur ∧ ∀ j : Fin N, bits.test j = .ok true → cond (keys j) = true → ¬ R (keys j) c)) := by
  obtain ⟨c, p, he, h⟩ := bestLoop_spec
    (fun i => if h : i < N then Res.ok (keys ⟨i, h⟩) else .ub) better (ext keys cur)
    (fun i => Bitmap.bit bits i = true ∧ cond (ext keys cur i) = true) R htr hirr htrans N cur 0 0
    (by intro j _ hj; unfold ext; rw [dif_pos (by omega), dif_pos (by omega)])
    (by
      intro j _ hj c
      refine ⟨_, by rw [hbetter, testAnd_spec _ _ (by omega)], ?_⟩
      simp only [Bool.and_eq_true, decide_eq_true_eq]
      tauto)
  refine ⟨c, p, he, ?_⟩
  have hext : ∀ j : Fin N, ext keys cur j = keys j := by
    intro j; unfold ext; rw [dif_pos j.isLt]
  rcases h with ⟨rfl, rfl, h3⟩ | ⟨h1, h2, h3, h4, h5, h6⟩
  · refine .inl ⟨rfl, rfl, fun j hj hc => ?_⟩
    have := h3 j (by omega) (by omega) ⟨(test_iff _ _ j.isLt).1 hj, by rw [hext]; exact hc⟩
    rwa [hext] at this
  · have hp : p < N := by omega
    have e := hext ⟨p, hp⟩
    simp only at e
    rw [e] at h3 h4
    refine .inr ⟨hp, (test_iff _ _ hp).2 h3.1, h3.2, h4, h5, fun j hj hc => ?_⟩
    have := h6 j (by omega) (by omega) ⟨(test_iff _ _ j.isLt).1 hj, by rw [hext]; exact hc⟩
    rwa [hext] at this

end Verif.Search
