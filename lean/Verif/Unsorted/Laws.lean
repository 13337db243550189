import Verif.Unsorted.Model
import Verif.FPTree.Step

/-!
# The leaf operations of UnsortedPBPTree on the list of entries
-/

set_option linter.unusedSectionVars false

namespace Verif.Unsorted

open Search BTree FPTree Assoc

variable {K V : Type} [LinearOrder K] [Inhabited K] {c : UCfg K V} {adm : K → Prop}

/-- The entries in slot order. -/
def ents (l : ULeaf K V) : List (K × V) := (List.range l.num).map (fun i => (l.keys i, l.vals i))

/-- The entries sorted by key. -/
def ULeaf.abs (l : ULeaf K V) : List (K × V) := (ents l).insertionSort leE

/-- Well-formed leaves; `adm` restricts the keys. -/
structure UOk (M : Nat) (adm : K → Prop) (l : ULeaf K V) : Prop where
  cap : l.num ≤ M
  nodup : ((ents l).map Prod.fst).Nodup
  adm : ∀ e ∈ ents l, adm e.1

/-- What the key type has to satisfy on the admissible keys: conversion to `size_t` and back is the
identity and monotone. -/
structure ULaws (c : UCfg K V) (adm : K → Prop) : Prop where
  conv : ∀ k, adm k → c.cv.ofSize (c.cv.toSize k) = k
  mono : ∀ a b, adm a → adm b → (c.cv.toSize a < c.cv.toSize b ↔ a < b)

theorem ents_length (l : ULeaf K V) : (ents l).length = l.num := by simp [ents]

theorem mem_ents {l : ULeaf K V} {e : K × V} :
    e ∈ ents l ↔ ∃ i, i < l.num ∧ e = (l.keys i, l.vals i) := by
  unfold ents
  simp only [List.mem_map, List.mem_range]
  constructor
  · rintro ⟨i, hi, rfl⟩; exact ⟨i, hi, rfl⟩
  · rintro ⟨i, hi, rfl⟩; exact ⟨i, hi, rfl⟩

theorem uabs_perm (l : ULeaf K V) : l.abs.Perm (ents l) := List.perm_insertionSort _ _

theorem mem_uabs {l : ULeaf K V} {e : K × V} : e ∈ l.abs ↔ e ∈ ents l := (uabs_perm l).mem_iff

theorem uabs_length (l : ULeaf K V) : l.abs.length = l.num := by
  rw [(uabs_perm l).length_eq, ents_length]

theorem UOk.sorted {M : Nat} {l : ULeaf K V} (h : UOk M adm l) : Sorted l.abs := by
  have h1 : l.abs.Pairwise leE :=
    List.pairwise_insertionSort (r := (leE : K × V → K × V → Prop)) (ents l)
  have h2 : (l.abs.map Prod.fst).Nodup := (((uabs_perm l).map _).nodup_iff).2 h.nodup
  rw [List.Nodup, List.pairwise_map] at h2
  exact (h1.and h2).imp (fun h => lt_of_le_of_ne h.1 h.2)

theorem UOk.of_perm {M : Nat} {l : ULeaf K V} {t : List (K × V)} (hc : l.num ≤ M) (hp : (ents l).Perm t)
    (hn : (t.map Prod.fst).Nodup) (ha : ∀ e ∈ t, adm e.1) : UOk M adm l :=
  ⟨hc, ((hp.map _).nodup_iff).2 hn, fun e he => ha e (hp.mem_iff.1 he)⟩

theorem abs_eq {M : Nat} {l : ULeaf K V} (h : UOk M adm l) {t : List (K × V)} (hs : Sorted t)
    (hp : (ents l).Perm t) : l.abs = t :=
  sorted_eq_of_perm h.sorted hs ((uabs_perm l).trans hp)

theorem UOk.inj {M : Nat} {l : ULeaf K V} (h : UOk M adm l) {i j : Nat} (hi : i < l.num) (hj : j < l.num)
    (hk : l.keys i = l.keys j) : i = j := by
  have hn := h.nodup
  unfold ents at hn
  rw [List.map_map] at hn
  exact List.inj_on_of_nodup_map hn (List.mem_range.2 hi) (List.mem_range.2 hj) hk

theorem wrA_ok {β : Type} {M : Nat} {a : Nat → β} {i : Nat} {v : β} (h : i < M) :
    wrA M a i v = .ok (upd a i v) := if_pos h

theorem put_ok (l : ULeaf K V) {p : Nat} (hp : p < c.M) (k : K) (v : V) :
    ULeaf.put c l p k v = .ok ⟨l.num, upd l.keys p k, upd l.vals p v⟩ := by
  unfold ULeaf.put
  rw [wrA_ok hp, Res.ok_bind, wrA_ok hp, Res.ok_bind]; rfl

/-! ## Search -/

theorem posLoop_spec {l : ULeaf K V} (hc : l.num ≤ c.M) (k : K) : ∀ (n i : Nat), i + n = l.num →
    (∀ q, q < i → l.keys q ≠ k) →
    ∃ p, ULeaf.posLoop c l k i n = .ok p ∧
      ((p < l.num ∧ l.keys p = k) ∨ (p = l.num ∧ ∀ q, q < l.num → l.keys q ≠ k))
  | 0, i, hi, hq => ⟨i, rfl, Or.inr ⟨by omega, fun q hq' => hq q (by omega)⟩⟩
  | n + 1, i, hi, hq => by
    rw [ULeaf.posLoop, rdA_ok (by omega), Res.ok_bind]
    by_cases hk : l.keys i = k
    · rw [if_pos hk]; exact ⟨i, rfl, Or.inl ⟨by omega, hk⟩⟩
    · rw [if_neg hk]
      refine posLoop_spec hc k n (i + 1) (by omega) (fun q hq' => ?_)
      by_cases hqi : q = i
      · rw [hqi]; exact hk
      · exact hq q (by omega)

theorem pos_spec {l : ULeaf K V} (h : UOk c.M adm l) (k : K) :
    ∃ p, ULeaf.pos c l k = .ok p ∧
      ((p < l.num ∧ l.keys p = k) ∨ (p = l.num ∧ ∀ e ∈ ents l, e.1 ≠ k)) := by
  obtain ⟨p, e, h'⟩ := posLoop_spec h.cap k l.num 0 (by omega) (by intro q hq; omega)
  refine ⟨p, e, ?_⟩
  rcases h' with h' | ⟨h1, h2⟩
  · exact Or.inl h'
  · refine Or.inr ⟨h1, fun e he => ?_⟩
    obtain ⟨q, hq, rfl⟩ := mem_ents.1 he
    exact h2 q hq

theorem lookup_law {l : ULeaf K V} (h : UOk c.M adm l) (k : K) :
    ULeaf.lookup c l k = .ok (find k l.abs) := by
  obtain ⟨p, e, h'⟩ := pos_spec h k
  have hc := h.cap
  unfold ULeaf.lookup
  rw [e, Res.ok_bind]
  rcases h' with ⟨h1, h2⟩ | ⟨h1, h2⟩
  · rw [if_pos h1, rdA_ok (by omega), Res.ok_bind, if_pos h2, rdA_ok (by omega), Res.ok_bind,
      find_of_mem h.sorted (v := l.vals p)]
    · rfl
    · rw [mem_uabs, mem_ents]; exact ⟨p, h1, by rw [h2]⟩
  · rw [if_neg (by omega), find_eq_none.2 (fun e he => h2 e (mem_uabs.1 he))]; rfl

/-! ## Adding and dropping one entry -/

theorem insertLast_ents {l : ULeaf K V} (hl : l.num < c.M) (k : K) (v : V) :
    ∃ l', ULeaf.insertLast c l k v = .ok l' ∧ l'.num = l.num + 1 ∧ ents l' = ents l ++ [(k, v)] ∧
      (0 < l.num → l'.keys 0 = l.keys 0) := by
  unfold ULeaf.insertLast
  rw [Res.assert_pos hl, Res.ok_bind, put_ok l hl, Res.ok_bind]
  refine ⟨_, rfl, rfl, ?_, ?_⟩
  · unfold ents
    simp only [upd]
    rw [List.range_succ, List.map_append, List.map_singleton, if_pos rfl, if_pos rfl]
    congr 1
    apply List.map_congr_left
    intro i hi
    have : i ≠ l.num := ne_of_lt (List.mem_range.1 hi)
    rw [if_neg this, if_neg this]
  · intro h0; simp only [upd]; rw [if_neg (by omega)]

theorem drop_perm {α : Type} (f : Nat → α) (m p : Nat) (hp : p ≤ m) :
    ((List.range (m + 1)).map f).Perm
      (f p :: (List.range m).map (fun i => if i = p then f m else f i)) := by
  rw [List.range_succ, List.map_append, List.map_singleton]
  by_cases h : p = m
  · subst h
    have : (List.range p).map (fun i => if i = p then f p else f i) = (List.range p).map f := by
      apply List.map_congr_left
      intro i hi
      rw [if_neg (ne_of_lt (List.mem_range.1 hi))]
    rw [this]
    exact List.perm_append_singleton _ _
  · have hlt : p < ((List.range m).map f).length := by simp; omega
    have : (List.range m).map (fun i => if i = p then f m else f i) = ((List.range m).map f).set p (f m) := by
      apply List.ext_getElem (by simp)
      intro i h1 h2
      rw [List.getElem_map, List.getElem_range, List.getElem_set, List.getElem_map, List.getElem_range]
      by_cases hi : i = p
      · rw [if_pos hi, if_pos hi.symm]
      · rw [if_neg hi, if_neg (Ne.symm hi)]
    rw [this]
    have h1 : (((List.range m).map f).set p (f m)).Perm (f m :: ((List.range m).map f).eraseIdx p) :=
      List.set_perm_cons_eraseIdx hlt _
    have h2 : (f p :: ((List.range m).map f).eraseIdx p).Perm ((List.range m).map f) := by
      have := List.getElem_cons_eraseIdx_perm hlt
      rwa [List.getElem_map, List.getElem_range] at this
    refine (List.perm_append_singleton _ _).trans ?_
    refine ((h2.symm).cons _).trans ?_
    refine (List.Perm.swap _ _ _).trans ?_
    exact (h1.symm).cons _

theorem dropAt_spec {l : ULeaf K V} (hc : l.num ≤ c.M) {p : Nat} (hp : p < l.num) :
    ∃ l', ULeaf.dropAt c l p = .ok l' ∧ l'.num = l.num - 1 ∧
      (ents l).Perm ((l.keys p, l.vals p) :: ents l') ∧ ∃ q, q < l.num ∧ l'.keys 0 = l.keys q := by
  unfold ULeaf.dropAt
  rw [Res.guardUB_pos (by omega), Res.ok_bind]
  have hperm := drop_perm (fun i => (l.keys i, l.vals i)) (l.num - 1) p (by omega)
  rw [show l.num - 1 + 1 = l.num by omega] at hperm
  by_cases h : p ≠ l.num - 1
  · rw [if_pos h, rdA_ok (by omega), Res.ok_bind, rdA_ok (by omega), Res.ok_bind, put_ok l (by omega), Res.ok_bind]
    refine ⟨_, rfl, rfl, ?_, ?_⟩
    · refine hperm.trans (List.Perm.of_eq ?_)
      unfold ents
      dsimp only
      congr 1
      apply List.map_congr_left
      intro i _
      simp only [upd]
      by_cases hi : i = p
      · simp [hi]
      · simp [hi]
    · simp only [upd]
      by_cases h0 : 0 = p
      · exact ⟨l.num - 1, by omega, by rw [if_pos h0]⟩
      · exact ⟨0, by omega, by rw [if_neg h0]⟩
  · rw [if_neg h]
    refine ⟨_, rfl, rfl, ?_, 0, by omega, rfl⟩
    refine hperm.trans (List.Perm.of_eq ?_)
    unfold ents
    dsimp only
    congr 1
    apply List.map_congr_left
    intro i hi
    rw [if_neg (by have := List.mem_range.1 hi; omega)]

theorem nodup_of_perm_cons {l : ULeaf K V} {M : Nat} (h : UOk M adm l) {e : K × V} {t : List (K × V)}
    (hp : (ents l).Perm (e :: t)) : (t.map Prod.fst).Nodup ∧ e.1 ∉ t.map Prod.fst ∧ (∀ x ∈ t, adm x.1) := by
  have h1 := (((hp.map Prod.fst).nodup_iff).1 h.nodup)
  rw [List.map_cons, List.nodup_cons] at h1
  exact ⟨h1.2, h1.1, fun x hx => h.adm x (hp.mem_iff.2 (List.mem_cons_of_mem _ hx))⟩

theorem erase_law {l : ULeaf K V} (h : UOk c.M adm l) {k : K} (hk : find k l.abs ≠ none) :
    ∃ l', ULeaf.erase c l k = .ok ((find k l.abs).isSome, l') ∧ UOk c.M adm l' ∧ l'.abs = remove k l.abs ∧
      ∃ q, q < l.num ∧ l'.keys 0 = l.keys q := by
  obtain ⟨p, e, h'⟩ := pos_spec h k
  have hc := h.cap
  unfold ULeaf.erase
  rw [e, Res.ok_bind]
  rcases h' with ⟨h1, h2⟩ | ⟨h1, h2⟩
  · rw [rdA_ok (by omega), Res.ok_bind, if_pos h2]
    obtain ⟨l', e2, hn, perm, q⟩ := dropAt_spec hc h1
    have hf : find k l.abs = some (l.vals p) :=
      find_of_mem h.sorted (mem_uabs.2 (mem_ents.2 ⟨p, h1, by rw [h2]⟩))
    rw [e2, Res.ok_bind, hf]
    obtain ⟨n1, n2, n3⟩ := nodup_of_perm_cons h perm
    have hok : UOk c.M adm l' := ⟨by omega, n1, n3⟩
    refine ⟨l', rfl, hok, ?_, q⟩
    apply sorted_ext hok.sorted (sorted_filter h.sorted _)
    intro x
    rw [show x ∈ l.abs.filter _ ↔ x ∈ remove k l.abs from Iff.rfl, mem_remove_iff, mem_uabs, mem_uabs,
      perm.mem_iff, List.mem_cons]
    constructor
    · intro hx
      exact ⟨Or.inr hx, fun hxk => n2 (List.mem_map.2 ⟨x, hx, by rw [hxk]; exact h2.symm⟩)⟩
    · rintro ⟨rfl | hx, hxk⟩
      · exact absurd h2 hxk
      · exact hx
  · exact absurd (find_eq_none.2 (fun e he => h2 e (mem_uabs.1 he))) hk

/-- Erasing an absent key: the first slot that is not in use exists and does not hold the key. -/
theorem erase_absent {l : ULeaf K V} (h : UOk c.M adm l) {k : K} (hk : find k l.abs = none)
    (hc : l.num < c.M) (hs : l.keys l.num ≠ k) : ULeaf.erase c l k = .ok (false, l) := by
  obtain ⟨p, e, h'⟩ := pos_spec h k
  unfold ULeaf.erase
  rw [e, Res.ok_bind]
  rcases h' with ⟨h1, h2⟩ | ⟨h1, h2⟩
  · exact absurd h2 (find_eq_none.1 hk (l.keys p, l.vals p) (mem_uabs.2 (mem_ents.2 ⟨p, h1, rfl⟩)))
  · rw [h1, rdA_ok hc, Res.ok_bind, if_neg hs]; rfl

/-! ## Extremal keys -/

theorem maxPos_spec {l : ULeaf K V} (hc : l.num ≤ c.M) (h0 : 1 ≤ l.num) :
    ∃ p, ULeaf.maxPos c l = .ok p ∧ p < l.num ∧ ∀ i, i < l.num → l.keys i ≤ l.keys p :=
  findMax_node _ l.keys l.num h0 (fun i hi => rdA_ok (by omega))

theorem minPos_spec {l : ULeaf K V} (hc : l.num ≤ c.M) (h0 : 1 ≤ l.num) :
    ∃ p, ULeaf.minPos c l = .ok p ∧ p < l.num ∧ ∀ i, i < l.num → l.keys p ≤ l.keys i :=
  findMin_node _ l.keys l.num h0 (fun i hi => rdA_ok (by omega))

theorem minKey_law {l : ULeaf K V} (h : UOk c.M adm l) {e : K × V} {es : List (K × V)}
    (he : l.abs = e :: es) : ULeaf.minKey c l = .ok e.1 := by
  have hc := h.cap
  have hl := uabs_length l
  rw [he, List.length_cons] at hl
  obtain ⟨p, e1, hp, hmin⟩ := minPos_spec (c := c) hc (by omega)
  unfold ULeaf.minKey
  rw [e1, Res.ok_bind, rdA_ok (by omega)]
  congr 1
  have hs := h.sorted
  rw [he, Sorted, List.pairwise_cons] at hs
  have hm : (l.keys p, l.vals p) ∈ l.abs := mem_uabs.2 (mem_ents.2 ⟨p, hp, rfl⟩)
  obtain ⟨q, hq, heq⟩ := mem_ents.1 (mem_uabs.1 (show e ∈ l.abs by rw [he]; simp))
  rw [he, List.mem_cons] at hm
  rcases hm with hm | hm
  · rw [← hm]
  · have := hs.1 _ hm
    rw [heq] at this
    exact absurd this (not_lt.2 (hmin q hq))

/-! ## Split -/

theorem new_ok : UOk c.M adm (ULeaf.new c) ∧ (ULeaf.new c : ULeaf K V).abs = [] := by
  refine ⟨⟨Nat.zero_le _, by simp [ents, ULeaf.new], by simp [ents, ULeaf.new]⟩, ?_⟩
  apply List.eq_nil_of_length_eq_zero
  rw [uabs_length]; rfl

theorem splitLoop_spec (sk : K) (l : ULeaf K V) : ∀ (f i n s : Nat) (l1 s1 : ULeaf K V), i + f = c.M →
    n + s = i → (∀ q, i ≤ q → l1.keys q = l.keys q ∧ l1.vals q = l.vals q) →
    (List.range n).map (fun q => (l1.keys q, l1.vals q)) =
      ((List.range i).map (fun q => (l.keys q, l.vals q))).filter (fun e => e.1 < sk) →
    (List.range s).map (fun q => (s1.keys q, s1.vals q)) =
      ((List.range i).map (fun q => (l.keys q, l.vals q))).filter (fun e => sk ≤ e.1) →
    ∃ a b, ULeaf.splitLoop c sk i n s l1 s1 f = .ok (a, b) ∧
      ents a = ((List.range c.M).map (fun q => (l.keys q, l.vals q))).filter (fun e => e.1 < sk) ∧
      ents b = ((List.range c.M).map (fun q => (l.keys q, l.vals q))).filter (fun e => sk ≤ e.1)
  | 0, i, n, s, l1, s1, hi, hns, hl, h1, h2 => by
    have : i = c.M := by omega
    subst this
    exact ⟨_, _, rfl, h1, h2⟩
  | f + 1, i, n, s, l1, s1, hi, hns, hl, h1, h2 => by
    obtain ⟨hk, hv⟩ := hl i le_rfl
    rw [ULeaf.splitLoop, rdA_ok (by omega), Res.ok_bind, rdA_ok (by omega), Res.ok_bind, hk, hv]
    have app : ∀ (m : Nat) (a : ULeaf K V) (e : K × V), (List.range (m + 1)).map
        (fun q => (upd a.keys m e.1 q, upd a.vals m e.2 q)) =
        (List.range m).map (fun q => (a.keys q, a.vals q)) ++ [e] := by
      intro m a e
      rw [List.range_succ, List.map_append, List.map_singleton]
      simp only [upd, if_true]
      congr 1
      apply List.map_congr_left
      intro q hq
      have : q ≠ m := ne_of_lt (List.mem_range.1 hq)
      rw [if_neg this, if_neg this]
    by_cases hsk : sk ≤ l.keys i
    · rw [if_pos hsk, put_ok s1 (by omega), Res.ok_bind]
      refine splitLoop_spec sk l f (i + 1) n (s + 1) l1 _ (by omega) (by omega)
        (fun q hq => hl q (by omega)) ?_ ?_
      · rw [h1, List.range_succ, List.map_append, List.map_singleton, List.filter_append]
        rw [List.filter_cons_of_neg (by simpa using hsk)]; simp
      · have := app s s1 (l.keys i, l.vals i)
        dsimp only at this ⊢
        rw [this, h2, List.range_succ, List.map_append, List.map_singleton, List.filter_append,
          List.filter_cons_of_pos (by simpa using hsk)]; simp
    · rw [if_neg hsk, put_ok l1 (by omega), Res.ok_bind]
      refine splitLoop_spec sk l f (i + 1) (n + 1) s _ s1 (by omega) (by omega)
        (fun q hq => ?_) ?_ ?_
      · simp only [upd]
        rw [if_neg (by omega), if_neg (by omega)]
        exact hl q (by omega)
      · have := app n l1 (l.keys i, l.vals i)
        dsimp only at this ⊢
        rw [this, h1, List.range_succ, List.map_append, List.map_singleton, List.filter_append,
          List.filter_cons_of_pos (by simpa using hsk)]; simp
      · rw [h2, List.range_succ, List.map_append, List.map_singleton, List.filter_append]
        rw [List.filter_cons_of_neg (by simpa using hsk)]; simp

theorem UOk.filter {M : Nat} {l a : ULeaf K V} (h : UOk M adm l) {p : K × V → Bool}
    (he : ents a = (ents l).filter p) : UOk M adm a := by
  refine ⟨?_, ?_, ?_⟩
  · rw [← ents_length, he]
    exact le_trans (List.length_filter_le _ _) (by rw [ents_length]; exact h.cap)
  · rw [he]
    exact (List.filter_sublist.map _).nodup h.nodup
  · intro e hm
    rw [he] at hm
    exact h.adm e (List.mem_filter.1 hm).1

theorem split_law (U : ULaws c adm) (hM : 2 ≤ c.M) {l : ULeaf K V} (h : UOk c.M adm l) (hfull : l.num = c.M) :
    ∃ a b sk, ULeaf.split c l = .ok (a, b, sk) ∧ UOk c.M adm a ∧ UOk c.M adm b ∧
      a.abs = l.abs.filter (fun e => e.1 < sk) ∧ b.abs = l.abs.filter (fun e => sk ≤ e.1) ∧
      a.num = (c.M + 1) / 2 ∧ b.num = c.M / 2 ∧ ∃ e ∈ l.abs, e.1 = sk := by
  have hadm : ∀ i, i < c.M → adm (l.keys i) := fun i hi => h.adm _ (mem_ents.2 ⟨i, by omega, rfl⟩)
  obtain ⟨bm, p, e, hp, hkth, _⟩ := findSplitKey_spec c.cv c.M hM ⟨c.M, l.keys⟩ le_rfl
    (fun i hi => U.conv _ (hadm i hi)) (fun i j hi hj => U.mono _ _ (hadm i hi) (hadm j hj))
  unfold ULeaf.split
  rw [e, Res.ok_bind, rdA_ok hp, Res.ok_bind]
  obtain ⟨a, b, e2, ea, eb⟩ := splitLoop_spec (c := c) (l.keys p) l c.M 0 0 0 l (ULeaf.new c) (by omega) rfl
    (fun q _ => ⟨rfl, rfl⟩) rfl rfl
  rw [e2, Res.ok_bind]
  have hents : (List.range c.M).map (fun q => (l.keys q, l.vals q)) = ents l := by rw [ents, hfull]
  rw [hents] at ea eb
  have oka := h.filter ea
  have okb := h.filter eb
  have ha : a.abs = l.abs.filter (fun e => e.1 < l.keys p) :=
    abs_eq oka (sorted_filter h.sorted _) (by rw [ea]; exact ((uabs_perm l).filter _).symm)
  have hb : b.abs = l.abs.filter (fun e => l.keys p ≤ e.1) :=
    abs_eq okb (sorted_filter h.sorted _) (by rw [eb]; exact ((uabs_perm l).filter _).symm)
  have hseg : (⟨c.M, l.keys⟩ : Arr K).seg 0 c.M = (ents l).map Prod.fst := by
    unfold Arr.seg ents
    rw [hfull, List.map_map]
    apply List.map_congr_left
    intro i _
    simp
  have hcnt : ((⟨c.M, l.keys⟩ : Arr K).seg 0 c.M).countP (fun x => decide (x < l.keys p)) + 1 =
      (c.M + 1) / 2 + 1 := hkth.count_lt (by rw [hseg]; exact h.nodup)
  have hla : a.num = (c.M + 1) / 2 := by
    rw [← ents_length, ea, ← List.countP_eq_length_filter]
    rw [hseg, List.countP_map] at hcnt
    have : List.countP (fun e : K × V => decide (e.1 < l.keys p)) (ents l) =
        List.countP ((fun x => decide (x < l.keys p)) ∘ Prod.fst) (ents l) := rfl
    omega
  have hlb : b.num = c.M / 2 := by
    have h1 := List.length_eq_length_filter_add (l := ents l) (fun e => decide (e.1 < l.keys p))
    have h2 : (ents l).filter (fun e => l.keys p ≤ e.1) = (ents l).filter (fun e => !decide (e.1 < l.keys p)) := by
      apply List.filter_congr
      intro e _
      rw [← decide_not]
      simp
    rw [← ents_length, eb, h2]
    rw [← ents_length, ea] at hla
    rw [ents_length] at h1
    omega
  exact ⟨a, b, _, rfl, oka, okb, ha, hb, hla, hlb, (l.keys p, l.vals p),
    mem_uabs.2 (mem_ents.2 ⟨p, by omega, rfl⟩), rfl⟩

/-! ## Insert -/

/-- Insertion into a leaf with a free slot. -/
theorem insertLast_law {l : ULeaf K V} (h : UOk c.M adm l) (hl : l.num < c.M) {k : K}
    (hk : ∀ e ∈ l.abs, e.1 ≠ k) (ha : adm k) (v : V) :
    ∃ l', ULeaf.insertLast c l k v = .ok l' ∧ UOk c.M adm l' ∧ l'.abs = upsert k v l.abs ∧
      l'.num = l.num + 1 := by
  obtain ⟨l', e, hn, he, _⟩ := insertLast_ents hl k v
  have hok : UOk c.M adm l' := by
    refine ⟨by omega, ?_, ?_⟩
    · rw [he, List.map_append, List.map_singleton, List.nodup_append]
      refine ⟨h.nodup, by simp, ?_⟩
      intro x hx y hy
      rw [List.mem_singleton.1 hy]
      obtain ⟨z, hz, rfl⟩ := List.mem_map.1 hx
      exact hk z (mem_uabs.2 hz)
    · intro x hx
      rw [he, List.mem_append, List.mem_singleton] at hx
      rcases hx with hx | rfl
      · exact h.adm x hx
      · exact ha
  refine ⟨l', e, hok, ?_, hn⟩
  apply sorted_ext hok.sorted (upsert_sorted h.sorted)
  intro x
  rw [mem_uabs, he, List.mem_append, List.mem_singleton, upsert_absent_perm h.sorted hk, List.mem_cons, mem_uabs]
  tauto

theorem insert_law (U : ULaws c adm) (hM : 2 ≤ c.M) {l : ULeaf K V} (h : UOk c.M adm l) {k : K}
    (ha : adm k) (v : V) :
    (∃ l', ULeaf.insert c l k v = .ok (.done l') ∧ UOk c.M adm l' ∧ l'.abs = upsert k v l.abs) ∨
    (∃ a b s, ULeaf.insert c l k v = .ok (.split a b s) ∧ UOk c.M adm a ∧ UOk c.M adm b ∧
      a.abs ++ b.abs = upsert k v l.abs ∧ (∀ e ∈ a.abs, e.1 < s) ∧ (∀ e ∈ b.abs, s ≤ e.1) ∧
      c.M / 2 ≤ a.abs.length ∧ c.M / 2 ≤ b.abs.length) := by
  obtain ⟨p, e, h'⟩ := pos_spec h k
  have hc := h.cap
  unfold ULeaf.insert
  rw [e, Res.ok_bind]
  rcases h' with ⟨h1, h2⟩ | ⟨h1, hne'⟩
  · -- overwrite
    left
    rw [if_pos h1, rdA_ok (by omega), Res.ok_bind, Res.pure_eq, Res.ok_bind, if_pos (by simpa using h2),
      wrA_ok (by omega), Res.ok_bind]
    have hkeys : (ents ({ l with vals := upd l.vals p v } : ULeaf K V)).map Prod.fst = (ents l).map Prod.fst := by
      unfold ents; rw [List.map_map, List.map_map]; rfl
    have hok : UOk c.M adm ({ l with vals := upd l.vals p v } : ULeaf K V) := by
      refine ⟨hc, by rw [hkeys]; exact h.nodup, ?_⟩
      intro x hx
      obtain ⟨q, hq, rfl⟩ := mem_ents.1 hx
      exact h.adm (l.keys q, l.vals q) (mem_ents.2 ⟨q, hq, rfl⟩)
    refine ⟨_, rfl, hok, ?_⟩
    apply sorted_ext hok.sorted (upsert_sorted h.sorted)
    intro x
    rw [mem_upsert_iff h.sorted, mem_uabs, mem_uabs, mem_ents, mem_ents]
    simp only [upd]
    constructor
    · rintro ⟨q, hq, rfl⟩
      by_cases hqp : q = p
      · subst hqp; left; rw [if_pos rfl, h2]
      · right
        rw [if_neg hqp]
        exact ⟨⟨q, hq, rfl⟩, fun hk => hqp (h.inj hq h1 (by rw [h2]; exact hk))⟩
    · rintro (rfl | ⟨⟨q, hq, rfl⟩, hk⟩)
      · exact ⟨p, h1, by rw [if_pos rfl, h2]⟩
      · have hqp : q ≠ p := by rintro rfl; exact hk h2
        exact ⟨q, hq, by rw [if_neg hqp]⟩
  · have hne : ∀ e ∈ l.abs, e.1 ≠ k := fun e he => hne' e (mem_uabs.1 he)
    rw [if_neg (by omega), Res.pure_eq, Res.ok_bind, if_neg (by decide)]
    by_cases hfz : l.num = c.M
    · right
      rw [if_pos hfz]
      obtain ⟨a, b, sk, e2, oka, okb, ea, eb, la, lb, esk⟩ := split_law U hM h hfz
      rw [e2, Res.ok_bind]
      have hna : ∀ e ∈ a.abs, e.1 ≠ k := fun e he => hne e (by rw [ea] at he; exact (List.mem_filter.1 he).1)
      have hnb : ∀ e ∈ b.abs, e.1 ≠ k := fun e he => hne e (by rw [eb] at he; exact (List.mem_filter.1 he).1)
      have hla : ∀ e ∈ a.abs, e.1 < sk := fun e he => by
        rw [ea] at he; simpa using (List.mem_filter.1 he).2
      have hlb : ∀ e ∈ b.abs, sk ≤ e.1 := fun e he => by
        rw [eb] at he; simpa using (List.mem_filter.1 he).2
      have hmem : ∀ e, e ∈ l.abs ↔ e ∈ a.abs ∨ e ∈ b.abs := by
        intro e
        rw [ea, eb, List.mem_filter, List.mem_filter]
        simp only [decide_eq_true_eq]
        constructor
        · intro he
          rcases lt_or_ge e.1 sk with h | h
          · exact Or.inl ⟨he, h⟩
          · exact Or.inr ⟨he, h⟩
        · rintro (h | h) <;> exact h.1
      have hM1 : (c.M + 1) / 2 < c.M := by omega
      have alen := uabs_length a
      have blen := uabs_length b
      -- insertion on the right
      have right : (∀ e ∈ a.abs, e.1 < k) → ∃ s, ULeaf.insertLast c b k v = .ok s ∧ ∃ m, ULeaf.minKey c s = .ok m ∧
          UOk c.M adm s ∧ a.abs ++ s.abs = upsert k v l.abs ∧ (∀ e ∈ a.abs, e.1 < m) ∧ (∀ e ∈ s.abs, m ≤ e.1) ∧
          c.M / 2 ≤ s.abs.length := by
        intro hak
        obtain ⟨s, e3, oks, es, ns⟩ := insertLast_law okb (by omega) hnb ha v
        have hss : Sorted (a.abs ++ s.abs) := by
          rw [sorted_append]
          refine ⟨oka.sorted, oks.sorted, fun x hx y hy => ?_⟩
          rw [es, mem_upsert_iff okb.sorted] at hy
          rcases hy with rfl | hy
          · exact hak x hx
          · exact lt_of_lt_of_le (hla x hx) (hlb y hy.1)
        have slen := uabs_length s
        obtain ⟨m, ms, hms⟩ : ∃ m ms, s.abs = m :: ms := by
          cases hs : s.abs with
          | nil => rw [hs] at slen; simp at slen; omega
          | cons m ms => exact ⟨m, ms, rfl⟩
        refine ⟨s, e3, m.1, minKey_law oks hms, oks, ?_, ?_, ?_, by omega⟩
        · apply sorted_ext hss (upsert_sorted h.sorted)
          intro e
          rw [List.mem_append, es, mem_upsert_iff okb.sorted, mem_upsert_iff h.sorted, hmem]
          constructor
          · rintro (h | h | h)
            · exact Or.inr ⟨Or.inl h, hna e h⟩
            · exact Or.inl h
            · exact Or.inr ⟨Or.inr h.1, h.2⟩
          · rintro (h | ⟨h | h, h'⟩)
            · exact Or.inr (Or.inl h)
            · exact Or.inl h
            · exact Or.inr (Or.inr ⟨h, h'⟩)
        · intro x hx
          exact (sorted_append.1 hss).2.2 x hx m (by rw [hms]; simp)
        · intro x hx
          have hs := oks.sorted
          rw [hms, Sorted, List.pairwise_cons] at hs
          rw [hms, List.mem_cons] at hx
          rcases hx with rfl | hx
          · exact le_rfl
          · exact (hs.1 x hx).le
      by_cases hlt : sk < k
      · rw [if_pos hlt]
        obtain ⟨s, e3, m, e4, oks, h4, h5, h6, h7⟩ := right (fun x hx => lt_trans (hla x hx) hlt)
        rw [e3, Res.ok_bind, e4, Res.ok_bind]
        exact ⟨a, s, m, rfl, oka, oks, h4, h5, h6, by omega, h7⟩
      · rw [if_neg hlt]
        have hksk : k < sk := by
          refine lt_of_le_of_ne (not_lt.1 hlt) (fun hke => ?_)
          obtain ⟨x, hx, hxs⟩ := esk
          exact hne x hx (by rw [hke]; exact hxs)
        obtain ⟨mp, e3, hmp, hmax⟩ := maxPos_spec (c := c) (l := a) oka.cap (by omega)
        have hca := oka.cap
        rw [e3, Res.ok_bind, rdA_ok (by omega), Res.ok_bind]
        by_cases hmx : a.keys mp < k
        · rw [if_pos hmx]
          obtain ⟨s, e3, m, e4, oks, h4, h5, h6, h7⟩ := right (fun x hx => by
            obtain ⟨q, hq, rfl⟩ := mem_ents.1 (mem_uabs.1 hx)
            exact lt_of_le_of_lt (hmax q hq) hmx)
          rw [e3, Res.ok_bind, e4, Res.ok_bind]
          exact ⟨a, s, m, rfl, oka, oks, h4, h5, h6, by omega, h7⟩
        · rw [if_neg hmx]
          obtain ⟨s, e3, oks, es, ns⟩ := insertLast_law oka (by omega) hna ha v
          obtain ⟨m, ms, hms⟩ : ∃ m ms, b.abs = m :: ms := by
            cases hs : b.abs with
            | nil => rw [hs] at blen; simp at blen; omega
            | cons m ms => exact ⟨m, ms, rfl⟩
          rw [e3, Res.ok_bind, minKey_law okb hms, Res.ok_bind]
          have slen := uabs_length s
          have hss : Sorted (s.abs ++ b.abs) := by
            rw [sorted_append]
            refine ⟨oks.sorted, okb.sorted, fun x hx y hy => ?_⟩
            rw [es, mem_upsert_iff oka.sorted] at hx
            rcases hx with rfl | hx
            · exact lt_of_lt_of_le hksk (hlb y hy)
            · exact lt_of_lt_of_le (hla x hx.1) (hlb y hy)
          refine ⟨s, b, m.1, rfl, oks, okb, ?_, ?_, ?_, by omega, by omega⟩
          · apply sorted_ext hss (upsert_sorted h.sorted)
            intro e
            rw [List.mem_append, es, mem_upsert_iff oka.sorted, mem_upsert_iff h.sorted, hmem]
            constructor
            · rintro ((h | h) | h)
              · exact Or.inl h
              · exact Or.inr ⟨Or.inl h.1, h.2⟩
              · exact Or.inr ⟨Or.inr h, hnb e h⟩
            · rintro (h | ⟨h | h, h'⟩)
              · exact Or.inl (Or.inl h)
              · exact Or.inl (Or.inr ⟨h, h'⟩)
              · exact Or.inr h
          · intro x hx
            exact (sorted_append.1 hss).2.2 x hx m (by rw [hms]; simp)
          · intro x hx
            have hs := okb.sorted
            rw [hms, Sorted, List.pairwise_cons] at hs
            rw [hms, List.mem_cons] at hx
            rcases hx with rfl | hx
            · exact le_rfl
            · exact (hs.1 x hx).le
    · left
      rw [if_neg hfz]
      obtain ⟨l', e3, ok, es, _⟩ := insertLast_law h (by omega) hne ha v
      rw [e3, Res.ok_bind]
      exact ⟨l', rfl, ok, es⟩

/-- The leaf laws of UnsortedPBPTree. -/
def uLaws (U : ULaws c adm) (hM : 2 ≤ c.M) : Laws (uOps c) where
  abs := ULeaf.abs
  ok := UOk c.M adm
  lmin := c.M / 2
  adm := adm
  lmin_pos := by omega
  sorted := fun _ h => h.sorted
  cap := fun l h => by rw [uabs_length]; exact h.cap
  num_eq := fun l _ => (uabs_length l).symm
  empty_ok := new_ok.1
  empty_abs := (new_ok (adm := adm)).2
  lookup := fun _ k h => lookup_law h k
  insert := fun _ _ v h ha => insert_law U hM h ha v
  search := fun _ _ _ _ hr hc hs h1 h2 => linear_search_law false hr hc hs (by simpa using h1) (by simpa using h2)

/-! ## Merge -/

theorem mergeLoop_spec {b : ULeaf K V} (hb : b.num ≤ c.M) (n0 : Nat) : ∀ (n i : Nat) (a : ULeaf K V),
    i + n = b.num → a.num = n0 → n0 + b.num ≤ c.M →
    ∃ r, ULeaf.mergeLoop c b i a n = .ok r ∧ r.num = n0 ∧
      (List.range (n0 + b.num)).map (fun q => (r.keys q, r.vals q)) =
      (List.range (n0 + i)).map (fun q => (a.keys q, a.vals q)) ++
        (List.range n).map (fun q => (b.keys (i + q), b.vals (i + q)))
  | 0, i, a, hi, ha, hl => by
    have : i = b.num := by omega
    subst this
    exact ⟨a, rfl, ha, by simp⟩
  | n + 1, i, a, hi, ha, hl => by
    rw [ULeaf.mergeLoop, rdA_ok (by omega), Res.ok_bind, rdA_ok (by omega), Res.ok_bind, put_ok a (by omega),
      Res.ok_bind]
    obtain ⟨r, e, hr, h⟩ := mergeLoop_spec hb n0 n (i + 1)
      ⟨a.num, upd a.keys (a.num + i) (b.keys i), upd a.vals (a.num + i) (b.vals i)⟩ (by omega) ha hl
    refine ⟨r, e, hr, ?_⟩
    rw [h, ← Nat.add_assoc, List.range_succ, List.map_append, List.map_singleton, List.append_assoc,
      List.range_succ_eq_map (n := n), List.map_cons, List.map_map]
    simp only [upd, ha, if_true, List.singleton_append, Nat.add_zero]
    congr 1
    · apply List.map_congr_left
      intro q hq
      have : q ≠ n0 + i := ne_of_lt (List.mem_range.1 hq)
      rw [if_neg this, if_neg this]
    · congr 1
      apply List.map_congr_left
      intro q _
      simp only [Function.comp]
      rw [show i + 1 + q = i + (q + 1) by omega]

theorem merge_law {a b : ULeaf K V} (ha : UOk c.M adm a) (hb : UOk c.M adm b)
    (hlt : ∀ x ∈ a.abs, ∀ y ∈ b.abs, x.1 < y.1) (hlen : a.abs.length + b.abs.length ≤ c.M) :
    ∃ r, ULeaf.merge c a b = .ok r ∧ UOk c.M adm r ∧ r.abs = a.abs ++ b.abs := by
  rw [uabs_length, uabs_length] at hlen
  obtain ⟨r, e, hn, h⟩ := mergeLoop_spec (c := c) hb.cap a.num b.num 0 a (by omega) rfl hlen
  have hs : Sorted (a.abs ++ b.abs) := sorted_append.2 ⟨ha.sorted, hb.sorted, hlt⟩
  have hents : ents ({ r with num := r.num + b.num } : ULeaf K V) = ents a ++ ents b := by
    unfold ents
    dsimp only
    rw [hn, h]
    simp
  have hperm : (ents ({ r with num := r.num + b.num } : ULeaf K V)).Perm (a.abs ++ b.abs) := by
    rw [hents]
    exact (uabs_perm a).symm.append (uabs_perm b).symm
  have hok : UOk c.M adm ({ r with num := r.num + b.num } : ULeaf K V) := by
    refine UOk.of_perm (by dsimp only; omega) hperm (nodup_keys hs) ?_
    intro x hx
    rcases List.mem_append.1 hx with hx | hx
    · exact ha.adm x (mem_uabs.1 hx)
    · exact hb.adm x (mem_uabs.1 hx)
  refine ⟨_, ?_, hok, abs_eq hok hs hperm⟩
  unfold ULeaf.merge
  rw [Res.assert_pos hlen, Res.ok_bind, e, Res.ok_bind]; rfl

/-! ## Rebalancing -/

theorem moveOne_law {d r : ULeaf K V} (hd : UOk c.M adm d) (hr : UOk c.M adm r) {p : Nat} (hp : p < d.num)
    (hlen : r.num < c.M) (hne : ∀ e ∈ r.abs, e.1 ≠ d.keys p) :
    ∃ d' r', ULeaf.moveOne c d r p = .ok (d', r') ∧ UOk c.M adm d' ∧ UOk c.M adm r' ∧
      d.abs.Perm ((d.keys p, d.vals p) :: d'.abs) ∧ r'.abs.Perm ((d.keys p, d.vals p) :: r.abs) := by
  have hc := hd.cap
  unfold ULeaf.moveOne
  rw [rdA_ok (by omega), Res.ok_bind, rdA_ok (by omega), Res.ok_bind, put_ok r hlen, Res.ok_bind,
    Res.guardUB_pos (by omega), Res.ok_bind, rdA_ok (by omega), Res.ok_bind, rdA_ok (by omega), Res.ok_bind,
    put_ok d (by omega), Res.ok_bind]
  have hperm := drop_perm (fun i => (d.keys i, d.vals i)) (d.num - 1) p (by omega)
  rw [show d.num - 1 + 1 = d.num by omega] at hperm
  have hde : (ents d).Perm ((d.keys p, d.vals p) :: ents (⟨d.num - 1, upd d.keys p (d.keys (d.num - 1)),
      upd d.vals p (d.vals (d.num - 1))⟩ : ULeaf K V)) := by
    refine hperm.trans (List.Perm.of_eq ?_)
    unfold ents
    dsimp only
    congr 1
    apply List.map_congr_left
    intro i _
    simp only [upd]
    by_cases hi : i = p
    · simp [hi]
    · simp [hi]
  have hre : ents (⟨r.num + 1, upd r.keys r.num (d.keys p), upd r.vals r.num (d.vals p)⟩ : ULeaf K V) =
      ents r ++ [(d.keys p, d.vals p)] := by
    unfold ents
    simp only [upd]
    rw [List.range_succ, List.map_append, List.map_singleton, if_pos rfl, if_pos rfl]
    congr 1
    apply List.map_congr_left
    intro i hi
    have : i ≠ r.num := ne_of_lt (List.mem_range.1 hi)
    rw [if_neg this, if_neg this]
  obtain ⟨n1, n2, n3⟩ := nodup_of_perm_cons hd hde
  have okd : UOk c.M adm (⟨d.num - 1, upd d.keys p (d.keys (d.num - 1)),
      upd d.vals p (d.vals (d.num - 1))⟩ : ULeaf K V) := ⟨by dsimp only; omega, n1, n3⟩
  have okr : UOk c.M adm (⟨r.num + 1, upd r.keys r.num (d.keys p), upd r.vals r.num (d.vals p)⟩ : ULeaf K V) := by
    refine ⟨by dsimp only; omega, ?_, ?_⟩
    · rw [hre, List.map_append, List.map_singleton, List.nodup_append]
      refine ⟨hr.nodup, by simp, ?_⟩
      intro x hx y hy
      rw [List.mem_singleton.1 hy]
      obtain ⟨z, hz, rfl⟩ := List.mem_map.1 hx
      exact hne z (mem_uabs.2 hz)
    · intro x hx
      rw [hre, List.mem_append, List.mem_singleton] at hx
      rcases hx with hx | rfl
      · exact hr.adm x hx
      · exact hd.adm _ (mem_ents.2 ⟨p, hp, rfl⟩)
  refine ⟨_, _, rfl, okd, okr, ?_, ?_⟩
  · exact (uabs_perm d).trans (hde.trans ((uabs_perm _).symm.cons _))
  · refine (uabs_perm _).trans ?_
    rw [hre]
    exact (List.perm_append_singleton _ _).trans ((uabs_perm r).symm.cons _)

theorem maxPos_last {l : ULeaf K V} (h : UOk c.M adm l) {es : List (K × V)} {x : K × V}
    (he : l.abs = es ++ [x]) :
    ∃ p, ULeaf.maxPos c l = .ok p ∧ p < l.num ∧ (l.keys p, l.vals p) = x := by
  have hl := uabs_length l
  rw [he, List.length_append, List.length_singleton] at hl
  obtain ⟨p, e, hp, hmax⟩ := maxPos_spec (c := c) h.cap (by omega)
  refine ⟨p, e, hp, ?_⟩
  have hs := h.sorted
  rw [he, sorted_append] at hs
  have hm : (l.keys p, l.vals p) ∈ l.abs := mem_uabs.2 (mem_ents.2 ⟨p, hp, rfl⟩)
  obtain ⟨q, hq, hqx⟩ := mem_ents.1 (mem_uabs.1 (show x ∈ l.abs by rw [he]; simp))
  rw [he, List.mem_append, List.mem_singleton] at hm
  rcases hm with hm | hm
  · have a := hs.2.2 _ hm x (by simp)
    rw [hqx] at a
    exact absurd a (not_lt.2 (hmax q hq))
  · exact hm

theorem minPos_first {l : ULeaf K V} (h : UOk c.M adm l) {es : List (K × V)} {x : K × V}
    (he : l.abs = x :: es) :
    ∃ p, ULeaf.minPos c l = .ok p ∧ p < l.num ∧ (l.keys p, l.vals p) = x := by
  have hl := uabs_length l
  rw [he, List.length_cons] at hl
  obtain ⟨p, e, hp, hmin⟩ := minPos_spec (c := c) h.cap (by omega)
  refine ⟨p, e, hp, ?_⟩
  have hs := h.sorted
  rw [he, Sorted, List.pairwise_cons] at hs
  have hm : (l.keys p, l.vals p) ∈ l.abs := mem_uabs.2 (mem_ents.2 ⟨p, hp, rfl⟩)
  obtain ⟨q, hq, hqx⟩ := mem_ents.1 (mem_uabs.1 (show x ∈ l.abs by rw [he]; simp))
  rw [he, List.mem_cons] at hm
  rcases hm with hm | hm
  · exact hm
  · have a := hs.1 _ hm
    rw [hqx] at a
    exact absurd a (not_lt.2 (hmin q hq))

theorem moveLoop_up : ∀ (n : Nat) (d r : ULeaf K V) (ds xs : List (K × V)),
    UOk c.M adm d → UOk c.M adm r → d.abs = ds ++ xs → xs.length = n →
    Sorted (d.abs ++ r.abs) → r.num + n ≤ c.M →
    ∃ d' r', ULeaf.moveLoop c true n d r = .ok (d', r') ∧ UOk c.M adm d' ∧ UOk c.M adm r' ∧
      d'.abs = ds ∧ r'.abs = xs ++ r.abs
  | 0, d, r, ds, xs, hd, hr, he, hn, _, _ => by
    obtain rfl : xs = [] := List.length_eq_zero_iff.1 hn
    exact ⟨d, r, rfl, hd, hr, by simpa using he, rfl⟩
  | n + 1, d, r, ds, xs, hd, hr, he, hn, hs, hlen => by
    obtain ⟨ys, x, rfl⟩ : ∃ ys x, xs = ys ++ [x] := by
      rcases List.eq_nil_or_concat xs with h | ⟨a, x, h⟩
      · rw [h] at hn; simp at hn
      · exact ⟨a, x, by simpa using h⟩
    have he' : d.abs = (ds ++ ys) ++ [x] := by rw [he]; simp
    obtain ⟨p, ep, hp, hx⟩ := maxPos_last hd he'
    obtain ⟨hsd, hsr, hdr⟩ := sorted_append.1 hs
    have hxr : ∀ e ∈ r.abs, x.1 < e.1 := fun e h => hdr x (by rw [he']; simp) e h
    have hkx : d.keys p = x.1 := by rw [← hx]
    obtain ⟨d1, r1, e1, okd, okr, pd, pr⟩ := moveOne_law hd hr hp (by omega)
      (fun e h => by rw [hkx]; exact (ne_of_lt (hxr e h)).symm)
    rw [hx] at pd pr
    have hd1 : d1.abs = ds ++ ys := by
      apply sorted_eq_of_perm okd.sorted
      · rw [he'] at hsd; exact (sorted_append.1 hsd).1
      · rw [he'] at pd
        have : (ds ++ ys ++ [x]).Perm (x :: (ds ++ ys)) := List.perm_append_singleton _ _
        exact ((this.symm.trans pd).cons_inv).symm
    have hsr1 : Sorted (x :: r.abs) := by
      rw [Sorted, List.pairwise_cons]; exact ⟨hxr, hsr⟩
    have hr1 : r1.abs = x :: r.abs := sorted_eq_of_perm okr.sorted hsr1 pr
    have hl : (ys ++ [x]).length = ys.length + 1 := by simp
    have hrn : r1.num = r.num + 1 := by rw [← uabs_length, hr1, List.length_cons, uabs_length]
    obtain ⟨d', r', e2, okd', okr', hd', hr'⟩ := moveLoop_up n d1 r1 ds ys okd okr hd1 (by omega)
      (by
        rw [hd1, hr1, sorted_append]
        refine ⟨?_, hsr1, ?_⟩
        · rw [he'] at hsd; exact (sorted_append.1 hsd).1
        · intro a ha b hb
          rcases List.mem_cons.1 hb with rfl | hb
          · rw [he'] at hsd; exact (sorted_append.1 hsd).2.2 a ha _ (by simp)
          · exact hdr a (by rw [he']; exact List.mem_append_left _ ha) b hb)
      (by omega)
    refine ⟨d', r', ?_, okd', okr', hd', ?_⟩
    · rw [ULeaf.moveLoop, if_pos rfl, ep, Res.ok_bind, e1, Res.ok_bind, e2]
    · rw [hr', hr1]; simp

theorem moveLoop_down : ∀ (n : Nat) (d r : ULeaf K V) (xs ds : List (K × V)),
    UOk c.M adm d → UOk c.M adm r → d.abs = xs ++ ds → xs.length = n →
    Sorted (r.abs ++ d.abs) → r.num + n ≤ c.M →
    ∃ d' r', ULeaf.moveLoop c false n d r = .ok (d', r') ∧ UOk c.M adm d' ∧ UOk c.M adm r' ∧
      d'.abs = ds ∧ r'.abs = r.abs ++ xs
  | 0, d, r, xs, ds, hd, hr, he, hn, _, _ => by
    obtain rfl : xs = [] := List.length_eq_zero_iff.1 hn
    exact ⟨d, r, rfl, hd, hr, by simpa using he, by simp⟩
  | n + 1, d, r, xs, ds, hd, hr, he, hn, hs, hlen => by
    obtain ⟨x, ys, rfl⟩ : ∃ x ys, xs = x :: ys := by
      cases xs with
      | nil => simp at hn
      | cons a b => exact ⟨a, b, rfl⟩
    have he' : d.abs = x :: (ys ++ ds) := by rw [he]; simp
    obtain ⟨p, ep, hp, hx⟩ := minPos_first hd he'
    obtain ⟨hsr, hsd, hrd⟩ := sorted_append.1 hs
    have hxr : ∀ e ∈ r.abs, e.1 < x.1 := fun e h => hrd e h x (by rw [he']; simp)
    have hkx : d.keys p = x.1 := by rw [← hx]
    obtain ⟨d1, r1, e1, okd, okr, pd, pr⟩ := moveOne_law hd hr hp (by omega)
      (fun e h => by rw [hkx]; exact ne_of_lt (hxr e h))
    rw [hx] at pd pr
    have hsd' : Sorted (ys ++ ds) := by
      rw [he', Sorted, List.pairwise_cons] at hsd; exact hsd.2
    have hd1 : d1.abs = ys ++ ds := by
      apply sorted_eq_of_perm okd.sorted hsd'
      rw [he'] at pd
      exact (pd.cons_inv).symm
    have hsr1 : Sorted (r.abs ++ [x]) := sorted_append.2 ⟨hsr, by simp [Sorted], fun a ha b hb => by
      rw [List.mem_singleton.1 hb]; exact hxr a ha⟩
    have hr1 : r1.abs = r.abs ++ [x] :=
      sorted_eq_of_perm okr.sorted hsr1 (pr.trans (List.perm_append_singleton _ _).symm)
    have hl : (x :: ys).length = ys.length + 1 := rfl
    have hrn : r1.num = r.num + 1 := by rw [← uabs_length, hr1, List.length_append, uabs_length]; rfl
    obtain ⟨d', r', e2, okd', okr', hd', hr'⟩ := moveLoop_down n d1 r1 ys ds okd okr hd1 (by omega)
      (by
        rw [hd1, hr1, sorted_append]
        refine ⟨hsr1, hsd', ?_⟩
        intro a ha b hb
        rcases List.mem_append.1 ha with ha | ha
        · exact hrd a ha b (by rw [he']; exact List.mem_cons_of_mem _ hb)
        · rw [List.mem_singleton.1 ha]
          rw [he', Sorted, List.pairwise_cons] at hsd; exact hsd.1 b hb)
      (by omega)
    refine ⟨d', r', ?_, okd', okr', hd', ?_⟩
    · rw [ULeaf.moveLoop, if_neg (by decide), ep, Res.ok_bind, e1, Res.ok_bind, e2]
    · rw [hr', hr1]; simp

theorem balance_law {d r : ULeaf K V} (hd : UOk c.M adm d) (hr : UOk c.M adm r)
    (hlt : r.abs.length < d.abs.length) :
    (d.keys 0 < r.keys 0 → Sorted (d.abs ++ r.abs) →
      ∃ d' r', ULeaf.balance c d r = .ok (d', r') ∧ UOk c.M adm d' ∧ UOk c.M adm r' ∧
        d'.abs ++ r'.abs = d.abs ++ r.abs ∧ d'.abs.length = (d.abs.length + r.abs.length) / 2) ∧
    (¬ d.keys 0 < r.keys 0 → Sorted (r.abs ++ d.abs) →
      ∃ d' r', ULeaf.balance c d r = .ok (d', r') ∧ UOk c.M adm d' ∧ UOk c.M adm r' ∧
        r'.abs ++ d'.abs = r.abs ++ d.abs ∧ d'.abs.length = (d.abs.length + r.abs.length) / 2) := by
  have hcd := hd.cap
  rw [uabs_length, uabs_length] at *
  have h0 : 0 < c.M := by omega
  generalize hB : (d.num + r.num) / 2 = B
  have hmv : d.num - B ≠ 0 := by omega
  have hdl := uabs_length d
  constructor
  · intro hk hs
    obtain ⟨d', r', e, okd, okr, ed, er⟩ := moveLoop_up (c := c) (d.num - B) d r (d.abs.take B) (d.abs.drop B)
      hd hr (List.take_append_drop _ _).symm (by simp [hdl]) hs (by omega)
    refine ⟨d', r', ?_, okd, okr, ?_, ?_⟩
    · unfold ULeaf.balance
      rw [Res.assert_pos hlt, Res.ok_bind, hB]
      dsimp only
      rw [if_neg hmv, rdA_ok h0, Res.ok_bind, rdA_ok h0, Res.ok_bind, if_pos hk, e]
    · rw [ed, er, ← List.append_assoc, List.take_append_drop]
    · rw [ed, List.length_take]; omega
  · intro hk hs
    obtain ⟨d', r', e, okd, okr, ed, er⟩ := moveLoop_down (c := c) (d.num - B) d r
      (d.abs.take (d.num - B)) (d.abs.drop (d.num - B))
      hd hr (List.take_append_drop _ _).symm (by simp; omega) hs (by omega)
    refine ⟨d', r', ?_, okd, okr, ?_, ?_⟩
    · unfold ULeaf.balance
      rw [Res.assert_pos hlt, Res.ok_bind, hB]
      dsimp only
      rw [if_neg hmv, rdA_ok h0, Res.ok_bind, rdA_ok h0, Res.ok_bind, if_neg hk, e]
    · rw [ed, er, List.append_assoc, List.take_append_drop]
    · rw [ed, List.length_drop]; omega

/-! ## The laws for erase -/

/-- Slot 0 holds a key of the range of the leaf. -/
def USlot0 (l : ULeaf K V) (lo hi : Bd K) : Prop := InR lo hi (l.keys 0)

/-- Erasing present keys is correct. -/
def uErase (U : ULaws c adm) (hM : 2 ≤ c.M) : EraseLaws (uLaws U hM) where
  Q := fun _ _ _ => True
  hint := USlot0
  pre := fun l k => find k l.abs ≠ none ∨ (find k l.abs = none ∧ 1 ≤ l.num ∧ l.num < c.M ∧ l.keys l.num ≠ k)
  erase := fun l k lo hi hok hr _ hp => by
    rcases hp with hp | ⟨hn, h1, h2, h3⟩
    case inr =>
      refine ⟨l, ?_, hok, (remove_eq_self (find_eq_none.1 hn)).symm, ?_⟩
      · change _ = Res.ok ((find k l.abs).isSome, l)
        rw [hn]
        exact erase_absent hok hn h2 h3
      · exact hr (l.keys 0, l.vals 0) (mem_uabs.2 (mem_ents.2 ⟨0, h1, rfl⟩))
    obtain ⟨l', e, ok, ha, q, hq, h0⟩ := erase_law hok hp
    refine ⟨l', e, ok, ha, ?_⟩
    unfold USlot0
    rw [h0]
    exact hr (l.keys q, l.vals q) (mem_uabs.2 (mem_ents.2 ⟨q, hq, rfl⟩))
  merge := fun a b ha hb hlt hlen => merge_law ha hb hlt hlen
  balanceL := fun d r lo m hi hd hr hbd hbr _ hh h1 h2 => by
    change r.abs.length < (c.M + 1) / 2 at h1
    change (c.M + 1) / 2 < d.abs.length at h2
    have hdl := uabs_length d
    have hs : Sorted (d.abs ++ r.abs) := sorted_append.2 ⟨hd.sorted, hr.sorted, fun x hx y hy =>
      bk_lt.1 (lt_of_lt_of_le (hbd x hx).2 (hbr y hy).1)⟩
    have hq : InR lo m (d.keys 0) := hbd (d.keys 0, d.vals 0) (mem_uabs.2 (mem_ents.2 ⟨0, by omega, rfl⟩))
    exact (balance_law hd hr (by omega)).1 (bk_lt.1 (lt_of_lt_of_le hq.2 hh.1)) hs
  balanceR := fun d r lo m hi hd hr hbd hbr _ hh h1 h2 => by
    change r.abs.length < (c.M + 1) / 2 at h1
    change (c.M + 1) / 2 < d.abs.length at h2
    have hdl := uabs_length d
    have hs : Sorted (r.abs ++ d.abs) := sorted_append.2 ⟨hr.sorted, hd.sorted, fun x hx y hy =>
      bk_lt.1 (lt_of_lt_of_le (hbr x hx).2 (hbd y hy).1)⟩
    have hq : InR m hi (d.keys 0) := hbd (d.keys 0, d.vals 0) (mem_uabs.2 (mem_ents.2 ⟨0, by omega, rfl⟩))
    exact (balance_law hd hr (by omega)).2 (not_lt.2 (bk_lt.1 (lt_of_lt_of_le hh.2 hq.1)).le) hs
  minKey := fun l e es h he => minKey_law h he

/-! ## Scan -/

theorem scanFrom_eq {l : ULeaf K V} (hc : l.num ≤ c.M) : ∀ (n i : Nat), i + n = l.num →
    ULeaf.scanFrom c l i n = .ok ((List.range n).map (fun q => (l.keys (i + q), l.vals (i + q))))
  | 0, _, _ => rfl
  | n + 1, i, hi => by
    rw [ULeaf.scanFrom, rdA_ok (by omega), Res.ok_bind, rdA_ok (by omega), Res.ok_bind,
      scanFrom_eq hc n (i + 1) (by omega), Res.ok_bind, List.range_succ_eq_map, List.map_cons, List.map_map]
    congr 2
    apply List.map_congr_left
    intro q _
    simp only [Function.comp]
    rw [show i + 1 + q = i + (q + 1) by omega]

/-- A full scan visits the entries of a leaf in slot order. -/
def uScan (U : ULaws c adm) (hM : 2 ≤ c.M) : ScanLaws (uLaws U hM) where
  sc := ents
  scan := fun l h => by
    have := scanFrom_eq (c := c) h.cap l.num 0 (by omega)
    simpa [ents, uOps] using this
  perm := fun l _ => (uabs_perm l).symm

theorem ulaws_int (N M : Nat) (jk : Nat → Int) (jv : Nat → V) :
    ULaws (cfgInt N M jk jv) (fun k => 0 ≤ k ∧ k < 2 ^ 31) where
  conv := (flaws_int N (fun _ => 0) jk jv).conv
  mono := (flaws_int N (fun _ => 0) jk jv).mono

end Verif.Unsorted
