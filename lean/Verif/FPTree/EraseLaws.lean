import Verif.FPTree.Laws
import Verif.BTree.Hist

/-!
# Erase, merge, rebalancing and scans of FPTree leaves
-/

set_option linter.unusedSectionVars false

namespace Verif.FPTree

open Verif Search BTree Assoc

variable {K V : Type} {M : Nat} [LinearOrder K] [Inhabited K] {c : FCfg K V} {adm : K → Prop}

/-! ## Erase -/

theorem erase_law {l : FLeaf M K V} (h : FOk c.hash adm l) (k : K) :
    ∃ l', l.erase c k = .ok ((find k l.abs).isSome, l') ∧ FOk c.hash adm l' ∧ l'.abs = remove k l.abs ∧
      l'.keys = l.keys := by
  obtain ⟨p, e, h'⟩ := pos_spec h k
  unfold FLeaf.erase
  rw [e, Res.ok_bind]
  rcases h' with ⟨h1, h2, h3⟩ | ⟨h1, h2⟩
  · rw [if_pos h1]
    obtain ⟨b, e2, ok, perm, bits⟩ := reset_ok h h1 h2
    have hf : find k l.abs = some (l.vals p) :=
      find_of_mem h.sorted (mem_abs.2 ⟨p, h1, h2, by rw [h3]⟩)
    rw [e2, Res.ok_bind, hf]
    refine ⟨_, rfl, ok, ?_, rfl⟩
    apply sorted_ext ok.sorted (sorted_filter h.sorted _)
    intro x
    rw [show x ∈ l.abs.filter _ ↔ x ∈ remove k l.abs from Iff.rfl, mem_remove_iff, mem_abs, mem_abs]
    constructor
    · rintro ⟨q, hq, hb, rfl⟩
      rw [bits q hq] at hb
      by_cases hqp : q = p
      · rw [if_pos hqp] at hb; exact absurd hb (by decide)
      · rw [if_neg hqp] at hb
        exact ⟨⟨q, hq, hb, rfl⟩, fun hk => hqp (h.inj q p hq h1 hb h2 (by rw [h3]; exact hk))⟩
    · rintro ⟨⟨q, hq, hb, rfl⟩, hk⟩
      have hqp : q ≠ p := by rintro rfl; exact hk h3
      exact ⟨q, hq, by rw [bits q hq, if_neg hqp]; exact hb, rfl⟩
  · rw [if_neg (by omega), find_eq_none.2 h2]
    exact ⟨l, rfl, h, (remove_eq_self h2).symm, rfl⟩

/-! ## Merge -/

theorem mergeLoop_spec {b : FLeaf M K V} (hb : FOk c.hash adm b) : ∀ (n i : Nat) (a : FLeaf M K V), i + n = M →
    FOk c.hash adm a → a.abs.length + (entsFrom b i n).length ≤ M →
    (∀ x ∈ a.abs, ∀ y ∈ entsFrom b i n, x.1 ≠ y.1) →
    ∃ r, FLeaf.mergeLoop b i a n = .ok r ∧ FOk c.hash adm r ∧ r.abs.Perm (a.abs ++ entsFrom b i n)
  | 0, i, a, _, ha, _, _ => ⟨a, rfl, ha, by simp [entsFrom]⟩
  | n + 1, i, a, hi, ha, hlen, hne => by
    have hiM : i < M := by omega
    rw [FLeaf.mergeLoop, show b.bits.test i = .ok (Bitmap.bit b.bits i) from Bitmap.test_eq _ hiM, Res.ok_bind]
    by_cases ht : Bitmap.bit b.bits i = true
    · have hent : entsFrom b i (n + 1) = (b.keys i, b.vals i) :: entsFrom b (i + 1) n := by
        rw [entsFrom, if_pos ht]
      rw [hent] at hlen hne ⊢
      rw [if_pos ht, rdA_ok hiM, Res.ok_bind, rdA_ok hiM, Res.ok_bind, rdA_ok hiM, Res.ok_bind, hb.fp i hiM ht]
      simp only [List.length_cons] at hlen
      obtain ⟨hp, hfree⟩ := free_slot (l := a) (by omega)
      obtain ⟨a', e, ok, perm, _⟩ := fill_ok ha hp hfree (k := b.keys i)
        (fun x hx => hne x hx (b.keys i, b.vals i) (by simp)) (hb.adm i hiM ht) (b.vals i)
      rw [e, Res.ok_bind]
      obtain ⟨r, er, okr, permr⟩ := mergeLoop_spec hb n (i + 1) a' (by omega) ok
        (by rw [perm.length_eq, List.length_cons]; omega)
        (by
          intro x hx y hy
          rw [perm.mem_iff, List.mem_cons] at hx
          rcases hx with rfl | hx
          · have hpw := entsFrom_ne hb (n + 1) i (by omega)
            rw [hent, List.pairwise_cons] at hpw
            exact hpw.1 y hy
          · exact hne x hx y (by simp [hy]))
      refine ⟨r, er, okr, permr.trans ?_⟩
      refine (perm.append_right _).trans ?_
      rw [List.cons_append]
      exact List.perm_middle.symm
    · rw [if_neg ht]
      have hent : entsFrom b i (n + 1) = entsFrom b (i + 1) n := by rw [entsFrom, if_neg ht]
      rw [hent] at hlen hne ⊢
      exact mergeLoop_spec hb n (i + 1) a (by omega) ha hlen hne

theorem merge_law {a b : FLeaf M K V} (ha : FOk c.hash adm a) (hb : FOk c.hash adm b)
    (hlt : ∀ x ∈ a.abs, ∀ y ∈ b.abs, x.1 < y.1) (hlen : a.abs.length + b.abs.length ≤ M) :
    ∃ r, FLeaf.merge a b = .ok r ∧ FOk c.hash adm r ∧ r.abs = a.abs ++ b.abs := by
  have hp := abs_perm b
  obtain ⟨r, e, ok, perm⟩ := mergeLoop_spec hb M 0 a (by omega) ha
    (by rw [show entsFrom b 0 M = ents b from rfl, ← hp.length_eq]; exact hlen)
    (fun x hx y hy => ne_of_lt (hlt x hx y (hp.mem_iff.2 hy)))
  refine ⟨r, ?_, ok, ?_⟩
  · unfold FLeaf.merge
    rw [Res.assert_pos (by rw [ha.count, hb.count]; exact hlen), Res.ok_bind, e]
  · apply sorted_eq_of_perm ok.sorted (sorted_append.2 ⟨ha.sorted, hb.sorted, hlt⟩)
    exact perm.trans (List.Perm.append_left _ hp.symm)

/-! ## Rebalancing -/

theorem moveOne_law {d r : FLeaf M K V} (hd : FOk c.hash adm d) (hr : FOk c.hash adm r) {p : Nat} (hp : p < M)
    (hb : Bitmap.bit d.bits p = true) (hlen : r.abs.length < M) (hne : ∀ e ∈ r.abs, e.1 ≠ d.keys p) :
    ∃ d' r', FLeaf.moveOne c d r p = .ok (d', r') ∧ FOk c.hash adm d' ∧ FOk c.hash adm r' ∧
      d.abs.Perm ((d.keys p, d.vals p) :: d'.abs) ∧ r'.abs.Perm ((d.keys p, d.vals p) :: r.abs) := by
  unfold FLeaf.moveOne
  rw [rdA_ok hp, Res.ok_bind, rdA_ok hp, Res.ok_bind]
  obtain ⟨hf, hfree⟩ := free_slot hlen
  obtain ⟨r', e, ok, perm, _⟩ := fill_ok hr hf hfree hne (hd.adm p hp hb) (d.vals p)
  rw [e, Res.ok_bind]
  obtain ⟨b, e2, ok2, perm2, _⟩ := reset_ok hd hp hb
  rw [e2, Res.ok_bind]
  exact ⟨_, r', rfl, ok2, ok, perm2, perm⟩

theorem moveLoop_up (F : FLaws c adm) : ∀ (n : Nat) (d r : FLeaf M K V) (ds xs : List (K × V)),
    FOk c.hash adm d → FOk c.hash adm r → d.abs = ds ++ xs → xs.length = n → 1 ≤ ds.length →
    Sorted (d.abs ++ r.abs) → r.abs.length + n ≤ M →
    ∃ d' r', FLeaf.moveLoop c true n d r = .ok (d', r') ∧ FOk c.hash adm d' ∧ FOk c.hash adm r' ∧
      d'.abs = ds ∧ r'.abs = xs ++ r.abs
  | 0, d, r, ds, xs, hd, hr, he, hn, _, _, _ => by
    obtain rfl : xs = [] := List.length_eq_zero_iff.1 hn
    exact ⟨d, r, rfl, hd, hr, by simpa using he, rfl⟩
  | n + 1, d, r, ds, xs, hd, hr, he, hn, h1, hs, hlen => by
    obtain ⟨ys, x, rfl⟩ : ∃ ys x, xs = ys ++ [x] := by
      rcases List.eq_nil_or_concat xs with h | ⟨a, x, h⟩
      · rw [h] at hn; simp at hn
      · exact ⟨a, x, by simpa using h⟩
    have he' : d.abs = (ds ++ ys) ++ [x] := by rw [he]; simp
    obtain ⟨p, ep, hp, hb, hx⟩ := maxPos_two F hd he' (by simp; omega)
    obtain ⟨hsd, hsr, hdr⟩ := sorted_append.1 hs
    have hxr : ∀ e ∈ r.abs, x.1 < e.1 := fun e h => hdr x (by rw [he']; simp) e h
    have hkx : d.keys p = x.1 := by rw [← hx]
    obtain ⟨d1, r1, e1, okd, okr, pd, pr⟩ := moveOne_law hd hr hp hb (by omega)
      (fun e h => by rw [hkx]; exact (ne_of_lt (hxr e h)).symm)
    rw [hx] at pd pr
    have hd1 : d1.abs = ds ++ ys := by
      apply sorted_eq_of_perm okd.sorted
      · rw [he'] at hsd; exact (sorted_append.1 hsd).1
      · rw [he'] at pd
        have : (ds ++ ys ++ [x]).Perm (x :: (ds ++ ys)) := List.perm_append_singleton _ _
        exact ((this.symm.trans pd).cons_inv).symm
    have hsr1 : Sorted (x :: r.abs) := by
      rw [Sorted, List.pairwise_cons]; exact ⟨hxr, hsr⟩
    have hr1 : r1.abs = x :: r.abs := sorted_eq_of_perm okr.sorted hsr1 pr
    have hl : (ys ++ [x]).length = ys.length + 1 := by simp
    obtain ⟨d', r', e2, okd', okr', hd', hr'⟩ := moveLoop_up F n d1 r1 ds ys okd okr hd1 (by omega) h1
      (by
        rw [hd1, hr1, sorted_append]
        refine ⟨?_, hsr1, ?_⟩
        · rw [he'] at hsd; exact (sorted_append.1 hsd).1
        · intro a ha b hb
          rcases List.mem_cons.1 hb with rfl | hb
          · rw [he'] at hsd; exact (sorted_append.1 hsd).2.2 a ha _ (by simp)
          · exact hdr a (by rw [he']; exact List.mem_append_left _ ha) b hb)
      (by rw [hr1, List.length_cons]; omega)
    refine ⟨d', r', ?_, okd', okr', hd', ?_⟩
    · rw [FLeaf.moveLoop, if_pos rfl, ep, Res.ok_bind, e1, Res.ok_bind, e2]
    · rw [hr', hr1]; simp

theorem moveLoop_down (F : FLaws c adm) : ∀ (n : Nat) (d r : FLeaf M K V) (xs ds : List (K × V)),
    FOk c.hash adm d → FOk c.hash adm r → d.abs = xs ++ ds → xs.length = n → 1 ≤ ds.length →
    Sorted (r.abs ++ d.abs) → r.abs.length + n ≤ M →
    ∃ d' r', FLeaf.moveLoop c false n d r = .ok (d', r') ∧ FOk c.hash adm d' ∧ FOk c.hash adm r' ∧
      d'.abs = ds ∧ r'.abs = r.abs ++ xs
  | 0, d, r, xs, ds, hd, hr, he, hn, _, _, _ => by
    obtain rfl : xs = [] := List.length_eq_zero_iff.1 hn
    exact ⟨d, r, rfl, hd, hr, by simpa using he, by simp⟩
  | n + 1, d, r, xs, ds, hd, hr, he, hn, h1, hs, hlen => by
    obtain ⟨x, ys, rfl⟩ : ∃ x ys, xs = x :: ys := by
      cases xs with
      | nil => simp at hn
      | cons a b => exact ⟨a, b, rfl⟩
    have he' : d.abs = x :: (ys ++ ds) := by rw [he]; simp
    obtain ⟨p, ep, hp, hb, hx⟩ := minPos_two F hd he' (Or.inl (by simp; omega))
    obtain ⟨hsr, hsd, hrd⟩ := sorted_append.1 hs
    have hxr : ∀ e ∈ r.abs, e.1 < x.1 := fun e h => hrd e h x (by rw [he']; simp)
    have hkx : d.keys p = x.1 := by rw [← hx]
    obtain ⟨d1, r1, e1, okd, okr, pd, pr⟩ := moveOne_law hd hr hp hb (by omega)
      (fun e h => by rw [hkx]; exact ne_of_lt (hxr e h))
    rw [hx] at pd pr
    have hsd' : Sorted (ys ++ ds) := by
      rw [he', Sorted, List.pairwise_cons] at hsd; exact hsd.2
    have hd1 : d1.abs = ys ++ ds := by
      apply sorted_eq_of_perm okd.sorted hsd'
      rw [he'] at pd
      exact (pd.cons_inv).symm
    have hsr1 : Sorted (r.abs ++ [x]) := sorted_append.2 ⟨hsr, by simp [Sorted], fun a ha b hb => by
      rw [List.mem_singleton.1 hb]; exact hxr a ha⟩
    have hr1 : r1.abs = r.abs ++ [x] :=
      sorted_eq_of_perm okr.sorted hsr1 (pr.trans (List.perm_append_singleton _ _).symm)
    have hl : (x :: ys).length = ys.length + 1 := rfl
    obtain ⟨d', r', e2, okd', okr', hd', hr'⟩ := moveLoop_down F n d1 r1 ys ds okd okr hd1 (by omega) h1
      (by
        rw [hd1, hr1, sorted_append]
        refine ⟨hsr1, hsd', ?_⟩
        intro a ha b hb
        rcases List.mem_append.1 ha with ha | ha
        · exact hrd a ha b (by rw [he']; exact List.mem_cons_of_mem _ hb)
        · rw [List.mem_singleton.1 ha]
          rw [he', Sorted, List.pairwise_cons] at hsd; exact hsd.1 b hb)
      (by rw [hr1, List.length_append, List.length_singleton]; omega)
    refine ⟨d', r', ?_, okd', okr', hd', ?_⟩
    · rw [FLeaf.moveLoop, if_neg (by decide), ep, Res.ok_bind, e1, Res.ok_bind, e2]
    · rw [hr', hr1]; simp

theorem balance_law (F : FLaws c adm) {d r : FLeaf M K V} (hd : FOk c.hash adm d) (hr : FOk c.hash adm r)
    (hlt : r.abs.length < d.abs.length) (hM : (d.abs.length + r.abs.length) / 2 ≠ 0) :
    (d.keys 0 < r.keys 0 → Sorted (d.abs ++ r.abs) →
      ∃ d' r', FLeaf.balance c d r = .ok (d', r') ∧ FOk c.hash adm d' ∧ FOk c.hash adm r' ∧
        d'.abs ++ r'.abs = d.abs ++ r.abs ∧ d'.abs.length = (d.abs.length + r.abs.length) / 2) ∧
    (¬ d.keys 0 < r.keys 0 → Sorted (r.abs ++ d.abs) →
      ∃ d' r', FLeaf.balance c d r = .ok (d', r') ∧ FOk c.hash adm d' ∧ FOk c.hash adm r' ∧
        r'.abs ++ d'.abs = r.abs ++ d.abs ∧ d'.abs.length = (d.abs.length + r.abs.length) / 2) := by
  have hcd := abs_cap d
  have h0 : 0 < M := by omega
  generalize hB : (d.abs.length + r.abs.length) / 2 = B
  have hmv : d.abs.length - B ≠ 0 := by omega
  constructor
  · intro hk hs
    obtain ⟨d', r', e, okd, okr, ed, er⟩ := moveLoop_up F (d.abs.length - B) d r (d.abs.take B) (d.abs.drop B)
      hd hr (List.take_append_drop _ _).symm (by simp) (by simp; omega) hs (by omega)
    refine ⟨d', r', ?_, okd, okr, ?_, ?_⟩
    · unfold FLeaf.balance
      rw [hd.count, hr.count, Res.assert_pos hlt, Res.ok_bind, hB]
      dsimp only
      rw [if_neg hmv, rdA_ok h0, Res.ok_bind, rdA_ok h0, Res.ok_bind, if_pos hk, e]
    · rw [ed, er, ← List.append_assoc, List.take_append_drop]
    · rw [ed, List.length_take]; omega
  · intro hk hs
    obtain ⟨d', r', e, okd, okr, ed, er⟩ := moveLoop_down F (d.abs.length - B) d r
      (d.abs.take (d.abs.length - B)) (d.abs.drop (d.abs.length - B))
      hd hr (List.take_append_drop _ _).symm (by simp) (by simp; omega) hs (by omega)
    refine ⟨d', r', ?_, okd, okr, ?_, ?_⟩
    · unfold FLeaf.balance
      rw [hd.count, hr.count, Res.assert_pos hlt, Res.ok_bind, hB]
      dsimp only
      rw [if_neg hmv, rdA_ok h0, Res.ok_bind, rdA_ok h0, Res.ok_bind, if_neg hk, e]
    · rw [ed, er, List.append_assoc, List.take_append_drop]
    · rw [ed, List.length_drop]; omega

theorem minKey_law (F : FLaws c adm) {l : FLeaf M K V} (h : FOk c.hash adm l) {e : K × V} {es : List (K × V)}
    (he : l.abs = e :: es) (hmax : 1 ≤ es.length ∨ e.1 < c.lim.max) : l.minKey c = .ok e.1 := by
  obtain ⟨p, e1, hp, hb, hx⟩ := minPos_two F h he hmax
  unfold FLeaf.minKey
  rw [e1, Res.ok_bind, rdA_ok hp, ← hx]

/-! ## The laws for erase -/

/-- Slot 0 of the leaf, valid or not, holds a key of the range of the leaf. -/
def Slot0 (l : FLeaf M K V) (lo hi : Bd K) : Prop := InR lo hi (l.keys 0)

/-- Erase is correct if slot 0 of every leaf holds a key of the leaf's range. -/
def fpErase (F : FLaws c adm) (hM : 2 ≤ M) (hmax : ∀ k, adm k → k < c.lim.max) :
    EraseLaws (fpLaws F hM) where
  Q := Slot0
  hint := Slot0
  pre := fun _ _ => True
  erase := fun l k lo hi hok _ hq _ => by
    obtain ⟨l', e, ok, ha, hk⟩ := erase_law hok k
    exact ⟨l', e, ok, ha, by unfold Slot0 at hq ⊢; rw [hk]; exact hq⟩
  merge := fun a b ha hb hlt hlen => merge_law ha hb hlt hlen
  balanceL := fun d r lo m hi hd hr hbd hbr hq hh h1 h2 => by
    change r.abs.length < (M + 1) / 2 at h1
    change (M + 1) / 2 < d.abs.length at h2
    have hs : Sorted (d.abs ++ r.abs) := sorted_append.2 ⟨hd.sorted, hr.sorted, fun x hx y hy =>
      bk_lt.1 (lt_of_lt_of_le (hbd x hx).2 (hbr y hy).1)⟩
    exact (balance_law F hd hr (by omega) (by omega)).1 (bk_lt.1 (lt_of_lt_of_le hq.2 hh.1)) hs
  balanceR := fun d r lo m hi hd hr hbd hbr hq hh h1 h2 => by
    change r.abs.length < (M + 1) / 2 at h1
    change (M + 1) / 2 < d.abs.length at h2
    have hs : Sorted (r.abs ++ d.abs) := sorted_append.2 ⟨hr.sorted, hd.sorted, fun x hx y hy =>
      bk_lt.1 (lt_of_lt_of_le (hbr x hx).2 (hbd y hy).1)⟩
    exact (balance_law F hd hr (by omega) (by omega)).2
      (not_lt.2 (bk_lt.1 (lt_of_lt_of_le hh.2 hq.1)).le) hs
  minKey := fun l e es h he => minKey_law F h he (Or.inr (by
    obtain ⟨p, hp, hb, hx⟩ := mem_abs.1 (show e ∈ l.abs by
      change l.abs = e :: es at he
      rw [he]; simp)
    rw [hx]; exact hmax _ (h.adm p hp hb)))

/-- Erase is correct if the leaf keeps at least `(M + 1) / 2` entries: then nothing is moved. -/
def fpEraseFull (F : FLaws c adm) (hM : 2 ≤ M) (hmax : ∀ k, adm k → k < c.lim.max) :
    EraseLaws (fpLaws F hM) where
  Q := fun _ _ _ => True
  hint := fun l _ _ => (M + 1) / 2 ≤ l.abs.length
  pre := fun l k => (M + 1) / 2 ≤ (remove k l.abs).length
  erase := fun l k lo hi hok _ _ hp => by
    obtain ⟨l', e, ok, ha, hk⟩ := erase_law hok k
    exact ⟨l', e, ok, ha, by rw [ha]; exact hp⟩
  merge := fun a b ha hb hlt hlen => merge_law ha hb hlt hlen
  balanceL := fun d r lo m hi _ _ _ _ _ hh h1 _ => by
    change r.abs.length < (M + 1) / 2 at h1
    exact absurd hh (by omega)
  balanceR := fun d r lo m hi _ _ _ _ _ hh h1 _ => by
    change r.abs.length < (M + 1) / 2 at h1
    exact absurd hh (by omega)
  minKey := (fpErase F hM hmax).minKey

/-! ## Scans -/

theorem scanFrom_eq (l : FLeaf M K V) : ∀ (n i : Nat), i + n = M → l.scanFrom i n = .ok (entsFrom l i n)
  | 0, _, _ => rfl
  | n + 1, i, hi => by
    rw [FLeaf.scanFrom, show l.bits.test i = .ok (Bitmap.bit l.bits i) from Bitmap.test_eq _ (by omega),
      Res.ok_bind, scanFrom_eq l n (i + 1) (by omega), Res.ok_bind, entsFrom]
    split <;> rfl

/-- A full scan visits the entries of a leaf in slot order. -/
def fpScan (F : FLaws c adm) (hM : 2 ≤ M) : ScanLaws (fpLaws F hM) where
  sc := ents
  scan := fun l _ => scanFrom_eq l M 0 (by omega)
  perm := fun l _ => (abs_perm l).symm

theorem rangeFrom_eq (l : FLeaf M K V) (lo hi : K) : ∀ (n i : Nat), i + n = M →
    ∃ stop, l.rangeFrom lo hi i n = .ok ((entsFrom l i n).filter (fun e => lo ≤ e.1 ∧ e.1 ≤ hi), stop) ∧
      (stop = true → ∃ e ∈ entsFrom l i n, hi < e.1)
  | 0, _, _ => ⟨false, rfl, by simp⟩
  | n + 1, i, hi' => by
    obtain ⟨stop, e, hs⟩ := rangeFrom_eq l lo hi n (i + 1) (by omega)
    rw [FLeaf.rangeFrom, show l.bits.test i = .ok (Bitmap.bit l.bits i) from Bitmap.test_eq _ (by omega),
      Res.ok_bind, entsFrom]
    by_cases hb : Bitmap.bit l.bits i = true
    · rw [if_pos hb, if_pos hb]
      by_cases h1 : l.keys i < lo
      · rw [if_pos h1, e]
        refine ⟨stop, ?_, fun h => ?_⟩
        · rw [List.filter_cons_of_neg (by simpa using fun h => absurd h1 (not_lt.2 h))]
        · obtain ⟨x, hx, hx'⟩ := hs h; exact ⟨x, by simp [hx], hx'⟩
      · rw [if_neg h1]
        by_cases h2 : hi < l.keys i
        · rw [if_pos h2, e]
          refine ⟨true, ?_, fun _ => ⟨_, List.mem_cons_self, h2⟩⟩
          rw [List.filter_cons_of_neg (by simpa using fun _ => h2)]; rfl
        · rw [if_neg h2, e]
          refine ⟨stop, ?_, fun h => ?_⟩
          · rw [List.filter_cons_of_pos (by simpa using ⟨not_lt.1 h1, not_lt.1 h2⟩)]; rfl
          · obtain ⟨x, hx, hx'⟩ := hs h; exact ⟨x, by simp [hx], hx'⟩
    · rw [if_neg hb, if_neg hb]
      exact ⟨stop, e, hs⟩

theorem fpRange (F : FLaws c adm) (hM : 2 ≤ M) : RangeLaw (fpLaws F hM) List.Perm := by
  intro l lo hi _
  obtain ⟨stop, e, hs⟩ := rangeFrom_eq l lo hi M 0 (by omega)
  refine ⟨_, stop, e, (abs_perm l).symm.filter _, fun h => ?_⟩
  obtain ⟨x, hx, hx'⟩ := hs h
  exact ⟨x, (abs_perm l).mem_iff.2 hx, hx'⟩

end Verif.FPTree
