import Verif.Search.Model
import Mathlib.Data.List.Perm.Basic
import Mathlib.Data.List.Nodup
import Mathlib.Logic.Equiv.Basic
import Mathlib.Algebra.Order.Group.Nat

/-! # Lemmas on selection -/

namespace Verif.Search

set_option linter.unusedSectionVars false

variable {K : Type} [LinearOrder K]

namespace Arr

theorem seg_length (a : Arr K) (s n : Nat) : (a.seg s n).length = n := by simp [seg]

theorem seg_add (a : Arr K) (s m n : Nat) : a.seg s (m + n) = a.seg s m ++ a.seg (s + m) n := by
  unfold seg
  rw [List.range_add, List.map_append, List.map_map]
  congr 1
  apply List.map_congr_left
  intro i _
  simp [Nat.add_assoc]

theorem mem_seg (a : Arr K) (s n : Nat) (x : K) :
    x ∈ a.seg s n ↔ ∃ p, s ≤ p ∧ p < s + n ∧ a.get p = x := by
  unfold seg
  rw [List.mem_map]
  constructor
  · rintro ⟨i, hi, rfl⟩
    rw [List.mem_range] at hi
    exact ⟨s + i, by omega, by omega, rfl⟩
  · rintro ⟨p, h1, h2, rfl⟩
    exact ⟨p - s, by rw [List.mem_range]; omega, by congr 1; omega⟩

theorem seg_congr (a b : Arr K) (s n : Nat) (h : ∀ p, s ≤ p → p < s + n → a.get p = b.get p) :
    a.seg s n = b.seg s n := by
  unfold seg
  apply List.map_congr_left
  intro i hi
  rw [List.mem_range] at hi
  exact h _ (by omega) (by omega)

end Arr

/-- `a'` is `a` with the elements of `[s, s+n)` rearranged. -/
def Rearr (a a' : Arr K) (s n : Nat) : Prop :=
  a'.cap = a.cap ∧ (∀ p, ¬ (s ≤ p ∧ p < s + n) → a'.get p = a.get p) ∧
  (a'.seg s n).Perm (a.seg s n)

theorem Rearr.refl (a : Arr K) (s n : Nat) : Rearr a a s n := ⟨rfl, fun _ _ => rfl, .refl _⟩

theorem Rearr.trans {a b c : Arr K} {s n : Nat} (h1 : Rearr a b s n) (h2 : Rearr b c s n) :
    Rearr a c s n :=
  ⟨h2.1.trans h1.1, fun p hp => (h2.2.1 p hp).trans (h1.2.1 p hp), h2.2.2.trans h1.2.2⟩

theorem Rearr.mono {a b : Arr K} {s n S N : Nat} (h : Rearr a b s n) (h1 : S ≤ s)
    (h2 : s + n ≤ S + N) : Rearr a b S N := by
  refine ⟨h.1, fun p hp => h.2.1 p (by omega), ?_⟩
  have e : N = (s - S) + (n + (S + N - (s + n))) := by omega
  rw [e, Arr.seg_add, Arr.seg_add, Arr.seg_add a, Arr.seg_add a]
  have e1 : S + (s - S) = s := by omega
  rw [e1]
  apply List.Perm.append
  · rw [Arr.seg_congr b a]
    intro p hp1 hp2; exact h.2.1 p (by omega)
  · apply List.Perm.append h.2.2
    rw [Arr.seg_congr b a]
    intro p hp1 hp2; exact h.2.1 p (by omega)

theorem swap_spec (a : Arr K) (i j s n : Nat) (hi : s ≤ i) (hi2 : i < s + n) (hj : s ≤ j)
    (hj2 : j < s + n) (hcap : s + n ≤ a.cap) :
    ∃ a', a.swap i j = .ok a' ∧ Rearr a a' s n ∧ a'.get i = a.get j ∧ a'.get j = a.get i ∧
      ∀ p, p ≠ i → p ≠ j → a'.get p = a.get p := by
  unfold Arr.swap
  rw [if_pos ⟨by omega, by omega⟩]
  refine ⟨_, rfl, ⟨rfl, ?_, ?_⟩, ?_, ?_, ?_⟩
  · intro p hp
    simp only
    rw [if_neg (by omega), if_neg (by omega)]
  · have key : (fun p => if p = i then a.get j else if p = j then a.get i else a.get p) =
        a.get ∘ (Equiv.swap i j) := by
      funext p
      simp only [Function.comp, Equiv.swap_apply_def]
      split
      · rfl
      · split <;> rfl
    have h : ((List.range n).map (fun q => Equiv.swap i j (s + q))).Perm
        ((List.range n).map (fun q => s + q)) := by
      rw [List.perm_ext_iff_of_nodup]
      · intro x
        simp only [List.mem_map, List.mem_range]
        constructor
        · rintro ⟨q, hq, rfl⟩
          refine ⟨Equiv.swap i j (s + q) - s, ?_⟩
          rw [Equiv.swap_apply_def]
          split
          · omega
          · split <;> omega
        · rintro ⟨q, hq, rfl⟩
          refine ⟨Equiv.swap i j (s + q) - s, ?_, ?_⟩
          · rw [Equiv.swap_apply_def]
            split
            · omega
            · split <;> omega
          · have : s + (Equiv.swap i j (s + q) - s) = Equiv.swap i j (s + q) := by
              rw [Equiv.swap_apply_def]
              split
              · omega
              · split <;> omega
            rw [this, Equiv.swap_apply_self]
      · apply List.Nodup.map _ List.nodup_range
        intro x y hxy
        have := (Equiv.swap i j).injective hxy
        omega
      · apply List.Nodup.map _ List.nodup_range
        intro x y hxy
        simp only at hxy
        omega
    have h2 := h.map a.get
    unfold Arr.seg
    rw [key]
    simp only [List.map_map] at h2
    exact h2
  · simp
  · simp only
    by_cases h : j = i
    · subst h; simp
    · simp [h]
  · intro p h1 h2
    simp only
    rw [if_neg h1, if_neg h2]

theorem findMedian_spec (a : Arr K) (s len : Nat) (hlen : 1 ≤ len) (hcap : s + len ≤ a.cap) :
    ∃ a' m, findMedian a s len = .ok (a', m) ∧ Rearr a a' s len ∧ m ∈ a.seg s len := by
  unfold findMedian
  rw [if_pos hcap]
  simp only
  have hseglen := Arr.seg_length a s len
  set srt := (a.seg s len).insertionSort (· ≤ ·) with hsrt
  have hlen2 : srt.length = len := by rw [hsrt, List.length_insertionSort, hseglen]
  have hperm : srt.Perm (a.seg s len) := List.perm_insertionSort _ _
  unfold Arr.rd
  simp only
  rw [if_pos (by omega), Res.ok_bind]
  have hsegeq : (Arr.mk a.cap (fun p =>
      if s ≤ p ∧ p < s + len then (srt[p - s]?).getD (a.get p) else a.get p)).seg s len = srt := by
    unfold Arr.seg
    apply List.ext_getElem
    · simp [hlen2]
    · intro q h1 h2
      simp only [List.getElem_map, List.getElem_range]
      rw [if_pos (by omega), Nat.add_sub_cancel_left, List.getElem?_eq_getElem h2]
      rfl
  refine ⟨_, _, rfl, ⟨rfl, ?_, ?_⟩, ?_⟩
  · intro p hp
    simp only
    rw [if_neg hp]
  · rw [hsegeq]; exact hperm
  · have hlt : len / 2 < len := by omega
    rw [if_pos (by omega), Nat.add_sub_cancel_left, List.getElem?_eq_getElem (by omega)]
    exact hperm.mem_iff.1 (List.getElem_mem _)

theorem mediansFull_spec (start n : Nat) : ∀ (i : Nat) (a : Arr K) (med : List K) (L : Nat),
    (i + n) * 5 ≤ L → start + L ≤ a.cap →
    ∃ a' med', mediansFull start i n a med = .ok (a', med ++ med') ∧ Rearr a a' start L ∧
      (∀ m ∈ med', m ∈ a.seg start L) ∧ med'.length = n := by
  induction n with
  | zero =>
    intro i a med L _ _
    exact ⟨a, [], by simp [mediansFull], Rearr.refl .., by simp, rfl⟩
  | succ n ih =>
    intro i a med L h1 h2
    obtain ⟨a1, m, e1, r1, hm⟩ := findMedian_spec a (start + i * 5) 5 (by omega) (by omega)
    have r1' : Rearr a a1 start L := r1.mono (by omega) (by omega)
    obtain ⟨a2, med2, e2, r2, hm2, hl2⟩ := ih (i + 1) a1 (med ++ [m]) L (by omega)
      (by rw [r1'.1]; omega)
    refine ⟨a2, m :: med2, ?_, r1'.trans r2, ?_, by simp [hl2]⟩
    · rw [mediansFull, e1, Res.ok_bind]
      simp only
      rw [e2]; simp
    · intro x hx
      rcases List.mem_cons.1 hx with rfl | hx
      · rw [Arr.mem_seg] at hm ⊢
        obtain ⟨p, hp1, hp2, hp3⟩ := hm
        exact ⟨p, by omega, by omega, hp3⟩
      · exact r1'.2.2.mem_iff.1 (hm2 x hx)

theorem medians_spec (start L : Nat) (a : Arr K) (h2 : start + L ≤ a.cap) :
    ∃ a' med, medians start L a = .ok (a', med) ∧ Rearr a a' start L ∧
      (∀ m ∈ med, m ∈ a.seg start L) ∧ med.length = (L + 4) / 5 := by
  obtain ⟨a1, med1, e1, r1, hm1, hl1⟩ := mediansFull_spec start (L / 5) 0 a [] L (by omega) h2
  unfold medians
  rw [e1, Res.ok_bind]
  simp only [List.nil_append]
  by_cases h : L / 5 * 5 < L
  · rw [if_pos h]
    obtain ⟨a2, m, e2, r2, hm⟩ := findMedian_spec a1 (start + L / 5 * 5) (L % 5) (by omega)
      (by rw [r1.1]; omega)
    rw [e2, Res.ok_bind]
    have r2' : Rearr a1 a2 start L := r2.mono (by omega) (by omega)
    refine ⟨a2, med1 ++ [m], rfl, r1.trans r2', ?_, ?_⟩
    · intro x hx
      rcases List.mem_append.1 hx with hx | hx
      · exact hm1 x hx
      · rw [List.mem_singleton] at hx
        subst hx
        apply r1.2.2.mem_iff.1
        rw [Arr.mem_seg] at hm ⊢
        obtain ⟨p, hp1, hp2, hp3⟩ := hm
        exact ⟨p, by omega, by omega, hp3⟩
    · rw [List.length_append, hl1, List.length_singleton]; omega
  · rw [if_neg h]
    exact ⟨a1, med1, rfl, r1, hm1, by rw [hl1]; omega⟩

theorem findX_spec (a : Arr K) (x : K) (n : Nat) : ∀ s, s + n ≤ a.cap →
    ∃ i, findX a x s n = .ok i ∧ s ≤ i ∧ i ≤ s + n ∧
      (i < s + n → a.get i = x) ∧ (∀ p, s ≤ p → p < i → a.get p ≠ x) := by
  induction n with
  | zero => intro s _; exact ⟨s, rfl, by omega, by omega, by omega, by intro p h1 h2; omega⟩
  | succ n ih =>
    intro s h
    rw [findX, Arr.rd, if_pos (by omega), Res.ok_bind]
    by_cases hx : a.get s = x
    · rw [if_pos hx]
      exact ⟨s, rfl, by omega, by omega, fun _ => hx, by intro p h1 h2; omega⟩
    · rw [if_neg hx]
      obtain ⟨i, e, h1, h2, h3, h4⟩ := ih (s + 1) (by omega)
      refine ⟨i, e, by omega, by omega, fun h => h3 (by omega), ?_⟩
      intro p hp1 hp2
      rcases Nat.lt_or_eq_of_le hp1 with h | h
      · exact h4 p (by omega) hp2
      · rw [← h]; exact hx

theorem partLoop_spec (x : K) (s e n : Nat) : ∀ (i j : Nat) (a : Arr K),
    s ≤ i → i ≤ j → j + n = e → e < a.cap →
    (∀ p, s ≤ p → p < i → a.get p ≤ x) → (∀ p, i ≤ p → p < j → x < a.get p) →
    ∃ i' a', partLoop x i j a n = .ok (i', a') ∧ i ≤ i' ∧ i' ≤ e ∧ Rearr a a' s (e - s) ∧
      (∀ p, s ≤ p → p < i' → a'.get p ≤ x) ∧ (∀ p, i' ≤ p → p < e → x < a'.get p) := by
  induction n with
  | zero =>
    intro i j a h1 h2 h3 h4 h5 h6
    exact ⟨i, a, rfl, by omega, by omega, Rearr.refl .., h5, fun p hp1 hp2 => h6 p hp1 (by omega)⟩
  | succ n ih =>
    intro i j a h1 h2 h3 h4 h5 h6
    rw [partLoop, Arr.rd, if_pos (by omega), Res.ok_bind]
    by_cases hx : a.get j ≤ x
    · rw [if_pos hx]
      obtain ⟨a1, e1, r1, g1, g2, g3⟩ := swap_spec a i j s (e - s) h1 (by omega) (by omega) (by omega)
        (by omega)
      rw [e1, Res.ok_bind]
      obtain ⟨i', a', e2, k1, k2, k3, k4, k5⟩ := ih (i + 1) (j + 1) a1 (by omega) (by omega) (by omega)
        (by rw [r1.1]; exact h4)
        (by
          intro p hp1 hp2
          rcases Nat.lt_or_eq_of_le (Nat.lt_succ_iff.1 hp2) with h | h
          · rw [g3 p (by omega) (by omega)]; exact h5 p hp1 h
          · subst h; rw [g1]; exact hx)
        (by
          intro p hp1 hp2
          rcases Nat.lt_or_eq_of_le (Nat.lt_succ_iff.1 hp2) with h | h
          · rw [g3 p (by omega) (by omega)]; exact h6 p (by omega) h
          · subst h; rw [g2]; exact h6 i (by omega) (by omega))
      exact ⟨i', a', e2, by omega, k2, r1.trans k3, k4, k5⟩
    · rw [if_neg hx]
      obtain ⟨i', a', e2, k1, k2, k3, k4, k5⟩ := ih i (j + 1) a (by omega) (by omega) (by omega) h4 h5
        (by
          intro p hp1 hp2
          rcases Nat.lt_or_eq_of_le (Nat.lt_succ_iff.1 hp2) with h | h
          · exact h6 p hp1 h
          · subst h; exact not_le.1 hx)
      exact ⟨i', a', e2, k1, k2, k3, k4, k5⟩

theorem partition_spec (a : Arr K) (s e : Nat) (x : K) (hse : s ≤ e) (hcap : e < a.cap)
    (hx : x ∈ a.seg s (e + 1 - s)) :
    ∃ pos a', partition a s e x = .ok (pos, a') ∧ s ≤ pos ∧ pos ≤ e ∧ Rearr a a' s (e + 1 - s) ∧
      a'.get pos = x ∧ (∀ p, s ≤ p → p < pos → a'.get p ≤ x) ∧
      (∀ p, pos < p → p ≤ e → x < a'.get p) := by
  unfold partition
  obtain ⟨i, e1, h1, h2, h3, h4⟩ := findX_spec a x (e - s) s (by omega)
  rw [e1, Res.ok_bind]
  obtain ⟨a1, e2, r1, g1, g2, g3⟩ := swap_spec a i e s (e + 1 - s) h1 (by omega) hse (by omega) (by omega)
  rw [e2, Res.ok_bind]
  have hix : a.get i = x := by
    by_cases h : i < s + (e - s)
    · exact h3 h
    · have hie : i = e := by omega
      rw [Arr.mem_seg] at hx
      obtain ⟨p, hp1, hp2, hp3⟩ := hx
      by_cases hpe : p = e
      · rw [hie, ← hpe]; exact hp3
      · exact absurd hp3 (h4 p hp1 (by omega))
  obtain ⟨i', a2, e3, k1, k2, k3, k4, k5⟩ := partLoop_spec x s e (e - s) s s a1 (by omega) (by omega)
    (by omega) (by rw [r1.1]; omega) (by intro p h1 h2; omega) (by intro p h1 h2; omega)
  rw [e3, Res.ok_bind]
  simp only
  have r2 : Rearr a1 a2 s (e + 1 - s) := k3.mono (by omega) (by omega)
  have hcap2 : a2.cap = a.cap := k3.1.trans r1.1
  obtain ⟨a3, e4, r3, m1, m2, m3⟩ := swap_spec a2 i' e s (e + 1 - s) k1 (by omega) hse (by omega)
    (by rw [hcap2]; omega)
  rw [e4, Res.ok_bind]
  refine ⟨i', a3, rfl, k1, k2, r1.trans (r2.trans r3), ?_, ?_, ?_⟩
  · rw [m1, k3.2.1 e (by omega), g2, hix]
  · intro p hp1 hp2
    rw [m3 p (by omega) (by omega)]
    exact k4 p hp1 hp2
  · intro p hp1 hp2
    by_cases hpe : p = e
    · subst hpe
      rw [m2]; exact k5 i' (by omega) (by omega)
    · rw [m3 p (by omega) hpe]
      exact k5 p (by omega) (by omega)

/-- `v` is a `k`-th smallest element of the list `l` (ranks start at 1). -/
def IsKth (l : List K) (k : Nat) (v : K) : Prop :=
  v ∈ l ∧ l.countP (fun x => decide (x < v)) < k ∧ k ≤ l.countP (fun x => decide (x ≤ v))

theorem IsKth.perm {l l' : List K} {k : Nat} {v : K} (h : l.Perm l') (hk : IsKth l k v) :
    IsKth l' k v := by
  refine ⟨h.mem_iff.1 hk.1, ?_, ?_⟩
  · rw [← h.countP_eq]; exact hk.2.1
  · rw [← h.countP_eq]; exact hk.2.2

theorem elementOfRankK_spec [Inhabited K] (cv : Conv K) : ∀ (fuel k : Nat) (a : Arr K) (s L : Nat),
    L ≤ fuel → 1 ≤ k → k ≤ L → s + L ≤ a.cap →
    (∀ x ∈ a.seg s L, cv.ofSize (cv.toSize x) = x) →
    ∃ v a', elementOfRankK cv fuel k a s L = .ok (cv.toSize v, a') ∧ Rearr a a' s L ∧
      IsKth (a.seg s L) k v := by
  intro fuel
  induction fuel with
  | zero => intro k a s L h1 h2 h3; omega
  | succ fuel ih =>
    intro k a s L hL hk1 hk2 hcap hcv
    obtain ⟨L, rfl⟩ : ∃ L', L = L' + 1 := ⟨L - 1, by omega⟩
    rw [elementOfRankK]
    obtain ⟨a1, med, e1, r1, hm1, hl1⟩ := medians_spec s (L + 1) a hcap
    rw [e1, Res.ok_bind]
    simp only
    have hmed : ∃ m, (if med.length = 1 then (Arr.ofList med).rd 0
       else elementOfRankK cv fuel (med.length / 2) (Arr.ofList med) 0 med.length >>=
        fun r => pure (cv.ofSize r.1)) = Res.ok m ∧ m ∈ a.seg s (L + 1) := by
      have hseg : (Arr.ofList med).seg 0 med.length = med := by
        apply List.ext_getElem
        · rw [Arr.seg_length]
        · intro q h1 h2
          simp only [Arr.seg, Arr.ofList, List.getElem_map, List.getElem_range, Nat.zero_add]
          simp [List.getD, h2]
      by_cases h : med.length = 1
      · rw [if_pos h]
        refine ⟨(Arr.ofList med).get 0, ?_, ?_⟩
        · unfold Arr.rd; rw [if_pos (by simp [Arr.ofList, h])]
        · apply hm1
          have : (Arr.ofList med).get 0 ∈ (Arr.ofList med).seg 0 med.length := by
            rw [Arr.mem_seg]; exact ⟨0, by omega, by omega, rfl⟩
          rwa [hseg] at this
      · rw [if_neg h]
        obtain ⟨v, a', ev, -, hv⟩ := ih (med.length / 2) (Arr.ofList med) 0 med.length (by omega)
          (by omega) (by omega) (by simp [Arr.ofList])
          (by rw [hseg]; intro x hx; exact hcv x (hm1 x hx))
        rw [hseg] at hv
        rw [ev, Res.ok_bind]
        refine ⟨v, ?_, hm1 v hv.1⟩
        simp only [Res.pure_eq]
        rw [hcv v (hm1 v hv.1)]
    obtain ⟨m, em, hm⟩ := hmed
    rw [em, Res.ok_bind]
    have hL1 : s + (L + 1) - 1 + 1 - s = L + 1 := by omega
    obtain ⟨pos, a2, e2, p1, p2, r2, p4, p5, p6⟩ := partition_spec a1 s (s + (L + 1) - 1) m (by omega)
      (by rw [r1.1]; omega) (by rw [hL1]; exact r1.2.2.mem_iff.2 hm)
    rw [hL1] at r2
    rw [e2, Res.ok_bind]
    simp only
    have r12 := r1.trans r2
    have hcap2 : a2.cap = a.cap := r12.1
    -- decomposition of the range
    have hdec : a2.seg s (L + 1) = a2.seg s (pos - s) ++ (m :: a2.seg (pos + 1) (s + L - pos)) := by
      have e : L + 1 = (pos - s) + (1 + (s + L - pos)) := by omega
      rw [e, Arr.seg_add, Arr.seg_add]
      congr 1
      have e3 : s + (pos - s) = pos := by omega
      rw [e3]
      have : a2.seg pos 1 = [m] := by simp [Arr.seg, p4]
      rw [this]; rfl
    have hA : ∀ x ∈ a2.seg s (pos - s), x ≤ m := by
      intro x hx
      rw [Arr.mem_seg] at hx
      obtain ⟨p, h1, h2, rfl⟩ := hx
      exact p5 p h1 (by omega)
    have hB : ∀ x ∈ a2.seg (pos + 1) (s + L - pos), m < x := by
      intro x hx
      rw [Arr.mem_seg] at hx
      obtain ⟨p, h1, h2, rfl⟩ := hx
      exact p6 p (by omega) (by omega)
    have hlenA := Arr.seg_length a2 s (pos - s)
    by_cases hc1 : pos - s = k - 1
    · rw [if_pos hc1, Arr.rd, if_pos (by omega), Res.ok_bind]
      refine ⟨m, a2, by rw [p4]; rfl, r12, ?_⟩
      apply IsKth.perm r12.2.2
      rw [hdec]
      refine ⟨by simp, ?_, ?_⟩
      · have hz : (a2.seg (pos + 1) (s + L - pos)).countP (fun x => decide (x < m)) = 0 := by
          apply List.countP_eq_zero.2
          intro x hx
          simpa using le_of_lt (hB x hx)
        have := List.countP_le_length (p := fun x => decide (x < m)) (l := a2.seg s (pos - s))
        rw [List.countP_append, List.countP_cons, hz, if_neg (by simp)]
        omega
      · rw [List.countP_append, List.countP_cons, List.countP_eq_length.2]
        · simp; omega
        · intro x hx; simpa using hA x hx
    · rw [if_neg hc1]
      by_cases hc2 : pos - s > k - 1
      · rw [if_pos hc2]
        have rsub : ∀ x ∈ a2.seg s (pos - s), cv.ofSize (cv.toSize x) = x := by
          intro x hx
          apply hcv
          apply r12.2.2.mem_iff.1
          rw [hdec]; exact List.mem_append_left _ hx
        obtain ⟨v, a3, e3, r3, hv⟩ := ih k a2 s (pos - s) (by omega) hk1 (by omega) (by omega) rsub
        refine ⟨v, a3, e3, r12.trans (r3.mono (by omega) (by omega)), ?_⟩
        apply IsKth.perm r12.2.2
        rw [hdec]
        obtain ⟨v1, v2, v3⟩ := hv
        have hvm := hA v v1
        refine ⟨List.mem_append_left _ v1, ?_, ?_⟩
        · have hz : (a2.seg (pos + 1) (s + L - pos)).countP (fun x => decide (x < v)) = 0 := by
            apply List.countP_eq_zero.2
            intro x hx
            simpa using le_trans hvm (le_of_lt (hB x hx))
          rw [List.countP_append, List.countP_cons, hz, if_neg (by simpa using hvm)]
          omega
        · rw [List.countP_append]; omega
      · rw [if_neg hc2]
        have e4 : s + (L + 1) - 1 - pos = s + L - pos := by omega
        rw [e4]
        have rsub : ∀ x ∈ a2.seg (pos + 1) (s + L - pos), cv.ofSize (cv.toSize x) = x := by
          intro x hx
          apply hcv
          apply r12.2.2.mem_iff.1
          rw [hdec]; exact List.mem_append_right _ (List.mem_cons_of_mem _ hx)
        obtain ⟨v, a3, e3, r3, hv⟩ := ih (k + s - pos - 1) a2 (pos + 1) (s + L - pos) (by omega)
          (by omega) (by omega) (by omega) rsub
        refine ⟨v, a3, e3, r12.trans (r3.mono (by omega) (by omega)), ?_⟩
        apply IsKth.perm r12.2.2
        rw [hdec]
        obtain ⟨v1, v2, v3⟩ := hv
        have hvm := hB v v1
        refine ⟨List.mem_append_right _ (List.mem_cons_of_mem _ v1), ?_, ?_⟩
        · rw [List.countP_append, List.countP_cons]
          have := List.countP_le_length (p := fun x => decide (x < v)) (l := a2.seg s (pos - s))
          split <;> omega
        · have hz : (a2.seg s (pos - s)).countP (fun x => decide (x ≤ v)) = (a2.seg s (pos - s)).length := by
            apply List.countP_eq_length.2
            intro x hx; simpa using le_trans (hA x hx) (le_of_lt hvm)
          rw [List.countP_append, List.countP_cons, if_pos (by simpa using le_of_lt hvm), hz]
          omega

end Verif.Search
