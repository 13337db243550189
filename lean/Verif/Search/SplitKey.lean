import Verif.Search.Select
import Verif.Bitmap.Lemmas

/-! # Lemmas on `findSplitKey` -/

namespace Verif.Search

set_option linter.unusedSectionVars false

variable {K : Type} [LinearOrder K]

theorem _root_.Verif.Bitmap.test_set {NB : Nat} (b b' : Bitmap NB) (pos : Nat) (v : Bool)
    (h : b.set pos v = .ok b') (p : Nat) (hp : p < NB) :
    b'.test p = .ok (if p = pos then v else Bitmap.bit b p) := by
  rw [Bitmap.test_eq _ hp, Bitmap.set_getLsbD b b' pos v h _ _ (Nat.mod_lt _ (by decide))]
  by_cases hpp : p = pos
  · subst hpp; simp
  · have : ¬ (p / 64 = pos / 64 ∧ p % 64 = pos % 64) := by omega
    rw [if_neg this, if_neg hpp]; rfl

theorem splitLoop_spec {M : Nat} (cv : Conv K) (data : Arr K) (sk : Nat) (hcap : M ≤ data.cap)
    (n : Nat) : ∀ (i : Nat) (b : Bitmap M) (sp : Option Nat), i + n ≤ M →
    ∃ b' sp', splitLoop cv data sk i b sp n = .ok (b', sp') ∧
      (∀ p < M, Bitmap.bit b' p = if i ≤ p ∧ p < i + n then
          (if cv.toSize (data.get p) < sk then true else Bitmap.bit b p) else Bitmap.bit b p) ∧
      ((∃ p, sp' = some p ∧ i ≤ p ∧ p < i + n ∧ cv.toSize (data.get p) = sk) ∨
       (sp' = sp ∧ ∀ p, i ≤ p → p < i + n → cv.toSize (data.get p) ≠ sk)) := by
  induction n with
  | zero =>
    intro i b sp h
    exact ⟨b, sp, rfl, fun p hp => by rw [if_neg (by omega)], .inr ⟨rfl, by omega⟩⟩
  | succ n ih =>
    intro i b sp h
    rw [splitLoop, Arr.rd, if_pos (by omega), Res.ok_bind]
    by_cases h1 : cv.toSize (data.get i) < sk
    · rw [if_pos h1]
      obtain ⟨b1, e1⟩ := (Bitmap.set_ok b i true).1 (by omega)
      rw [e1, Res.ok_bind]
      obtain ⟨b', sp', e, hb, hsp⟩ := ih (i + 1) b1 sp (by omega)
      have hb1 : ∀ p < M, Bitmap.bit b1 p = if p = i then true else Bitmap.bit b p := by
        intro p hp
        have := Bitmap.test_set b b1 i true e1 p hp
        rw [Bitmap.test_eq _ hp] at this
        exact Res.ok.inj this
      refine ⟨b', sp', e, ?_, ?_⟩
      · intro p hp
        rw [hb p hp, hb1 p hp]
        by_cases hpi : p = i
        · subst hpi
          rw [if_neg (by omega), if_pos rfl, if_pos (by omega), if_pos h1]
        · rw [if_neg hpi]
          by_cases hr : i + 1 ≤ p ∧ p < i + 1 + n
          · rw [if_pos hr, if_pos (show i ≤ p ∧ p < i + (n + 1) by omega)]
          · rw [if_neg hr, if_neg (show ¬ (i ≤ p ∧ p < i + (n + 1)) by omega)]
      · rcases hsp with ⟨p, h3, h4, h5, h6⟩ | ⟨h3, h4⟩
        · exact .inl ⟨p, h3, by omega, by omega, h6⟩
        · refine .inr ⟨h3, fun p hp1 hp2 => ?_⟩
          rcases Nat.lt_or_eq_of_le hp1 with hh | hh
          · exact h4 p (by omega) (by omega)
          · rw [← hh]; omega
    · rw [if_neg h1]
      by_cases h2 : cv.toSize (data.get i) = sk
      · rw [if_pos h2]
        obtain ⟨b', sp', e, hb, hsp⟩ := ih (i + 1) b (some i) (by omega)
        refine ⟨b', sp', e, ?_, ?_⟩
        · intro p hp
          rw [hb p hp]
          by_cases hr : i + 1 ≤ p ∧ p < i + 1 + n
          · rw [if_pos hr, if_pos (show i ≤ p ∧ p < i + (n + 1) by omega)]
          · rw [if_neg hr]
            by_cases hpi : p = i
            · subst hpi
              rw [if_pos (by omega), if_neg h1]
            · rw [if_neg (by omega)]
        · rcases hsp with ⟨p, h3, h4, h5, h6⟩ | ⟨h3, h4⟩
          · exact .inl ⟨p, h3, by omega, by omega, h6⟩
          · exact .inl ⟨i, h3, by omega, by omega, h2⟩
      · rw [if_neg h2]
        obtain ⟨b', sp', e, hb, hsp⟩ := ih (i + 1) b sp (by omega)
        refine ⟨b', sp', e, ?_, ?_⟩
        · intro p hp
          rw [hb p hp]
          by_cases hr : i + 1 ≤ p ∧ p < i + 1 + n
          · rw [if_pos hr, if_pos (show i ≤ p ∧ p < i + (n + 1) by omega)]
          · rw [if_neg hr]
            by_cases hpi : p = i
            · subst hpi
              rw [if_pos (by omega), if_neg h1]
            · rw [if_neg (by omega)]
        · rcases hsp with ⟨p, h3, h4, h5, h6⟩ | ⟨h3, h4⟩
          · exact .inl ⟨p, h3, by omega, by omega, h6⟩
          · refine .inr ⟨h3, fun p hp1 hp2 => ?_⟩
            rcases Nat.lt_or_eq_of_le hp1 with hh | hh
            · exact h4 p (by omega) (by omega)
            · rw [← hh]; exact h2

/-- In a list without duplicates, a `k`-th smallest element has exactly `k - 1` smaller elements. -/
theorem IsKth.count_lt {l : List K} {k : Nat} {v : K} (hn : l.Nodup) (h : IsKth l k v) :
    l.countP (fun x => decide (x < v)) + 1 = k := by
  obtain ⟨h1, h2, h3⟩ := h
  have e : l.countP (fun x => decide (x ≤ v)) ≤
      l.countP (fun x => decide (x < v)) + l.countP (fun x => decide (x = v)) := by
    clear h1 h2 h3 hn
    induction l with
    | nil => simp
    | cons y ys ih =>
      simp only [List.countP_cons, decide_eq_true_eq]
      by_cases hlt : y < v
      · rw [if_pos (le_of_lt hlt), if_pos hlt, if_neg (ne_of_lt hlt)]; omega
      · by_cases heq : y = v
        · rw [if_pos (le_of_eq heq), if_neg hlt, if_pos heq]; omega
        · rw [if_neg (fun hle => heq (le_antisymm hle (not_lt.1 hlt))), if_neg hlt, if_neg heq]; omega
  have e2 : l.countP (fun x => decide (x = v)) = l.count v := by
    rw [List.count]
    congr 1
  have e3 := List.nodup_iff_count_le_one.1 hn v
  omega

theorem findSplitKey_spec [Inhabited K] (cv : Conv K) (M : Nat) (hM : 2 ≤ M) (data : Arr K)
    (hcap : M ≤ data.cap)
    (hcv : ∀ i < M, cv.ofSize (cv.toSize (data.get i)) = data.get i)
    (hmono : ∀ i j, i < M → j < M → (cv.toSize (data.get i) < cv.toSize (data.get j) ↔
      data.get i < data.get j)) :
    ∃ b p, findSplitKey cv M data = .ok (b, p) ∧ p < M ∧
      IsKth (data.seg 0 M) ((M + 1) / 2 + 1) (data.get p) ∧
      (∀ i < M, b.test i = .ok (decide (data.get i < data.get p))) := by
  unfold findSplitKey
  simp only
  rw [if_neg (by omega)]
  have hseg : (Arr.mk M data.get).seg 0 M = data.seg 0 M := rfl
  obtain ⟨v, a', e1, -, hk⟩ := elementOfRankK_spec cv M ((M + 1) / 2 + 1) ⟨M, data.get⟩ 0 M le_rfl
    (by omega) (by omega) (by simp) (by
      rw [hseg]
      intro x hx
      rw [Arr.mem_seg] at hx
      obtain ⟨p, -, h2, rfl⟩ := hx
      exact hcv p (by omega))
  rw [hseg] at hk
  rw [e1, Res.ok_bind]
  obtain ⟨b, sp, e2, hb, hsp⟩ := splitLoop_spec cv data (cv.toSize v) hcap M 0 (Bitmap.fresh M) none (by omega)
  simp only
  rw [e2, Res.ok_bind]
  have hv := hk.1
  rw [Arr.mem_seg] at hv
  obtain ⟨q, -, hq, hqv⟩ := hv
  rcases hsp with ⟨p, rfl, -, hp, hpe⟩ | ⟨-, hno⟩
  · have hpv : data.get p = v := by
      rw [← hcv p (by omega), hpe, ← hqv, hcv q (by omega)]
    refine ⟨b, p, rfl, by omega, by rw [hpv]; exact hk, ?_⟩
    intro i hi
    rw [Bitmap.test_eq _ hi]
    have h1 := hb i hi
    rw [if_pos (by omega), ← hqv] at h1
    unfold Bitmap.bit at h1
    rw [h1, hpv, ← hqv]
    by_cases hlt : cv.toSize (data.get i) < cv.toSize (data.get q)
    · rw [if_pos hlt, decide_eq_true ((hmono i q hi (by omega)).1 hlt)]
    · rw [if_neg hlt, decide_eq_false (fun h => hlt ((hmono i q hi (by omega)).2 h))]
      simp [Bitmap.fresh]
  · exact absurd (by rw [hqv]) (hno q (by omega) hq)

end Verif.Search
