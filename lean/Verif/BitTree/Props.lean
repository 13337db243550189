import Verif.BitTree.Hist
import Verif.Search.Props

/-!
# C46, C61, C62: insert, lookup and the scans of BitHPBPTree and BitPBPTree

`c.move = false` is BitHPBPTree (a leaf split copies the leaf and flips the bitmap), `c.move = true` is
BitPBPTree (a leaf split moves the entries).
-/

set_option linter.unusedSectionVars false

namespace Verif.BitTree

open Verif Search FPTree BTree

variable {K V : Type} {M : Nat} [LinearOrder K] [Inhabited K] {c : Cfg K V} {adm : K → Prop}

/-! ## Specification -/

/-- The value of the last insert of `k` in a sequence of inserts. -/
def last (xs : List (K × V)) (k : K) : Option V :=
  xs.foldl (fun o x => if x.1 = k then some x.2 else o) none

/-- The tree type for `int` keys. -/
def cfgInt (N : Nat) (mv : Bool) (jk : Nat → Int) (jv : Nat → V) : Cfg Int V :=
  ⟨N, limInt, convInt, mv, jk, jv⟩

/-- The values of `int`. -/
def IsInt (k : Int) : Prop := -2 ^ 31 ≤ k ∧ k < 2 ^ 31

/-- C61. After any sequence of inserts `lookup` answers like the map with the last value inserted for
each key; no insert fails. -/
def C61_statement (N M : Nat) (mv : Bool) : Prop :=
  ∀ (jk jv : Nat → Int) (xs : List (Int × Int)), (∀ x ∈ xs, IsInt x.1) →
    ∃ t, insertAll xs (Store.empty (cfgInt N mv jk jv) M) = .ok t ∧ ∀ k, IsInt k → t.lookup k = .ok (last xs k)

/-- C46. `scan(lo, hi, func)` reports exactly the stored entries with `lo ≤ key ≤ hi`. -/
def C46_statement (N M : Nat) (mv : Bool) : Prop :=
  ∀ (jk jv : Nat → Int) (xs : List (Int × Int)) (t : Store (cfgInt N mv jk jv) M),
    (∀ x ∈ xs, 0 ≤ x.1 ∧ x.1 < 2 ^ 31 - 1) → insertAll xs (Store.empty (cfgInt N mv jk jv) M) = .ok t →
    ∀ lo hi, ∃ r, t.range lo hi = .ok r ∧ ∀ k v, (k, v) ∈ r ↔ lo ≤ k ∧ k ≤ hi ∧ last xs k = some v

/-- C62. `scan(func)` reports exactly the stored entries, each once. -/
def C62_statement (N M : Nat) (mv : Bool) : Prop :=
  ∀ (jk jv : Nat → Int) (xs : List (Int × Int)) (t : Store (cfgInt N mv jk jv) M),
    (∀ x ∈ xs, 0 ≤ x.1 ∧ x.1 < 2 ^ 31 - 1) → insertAll xs (Store.empty (cfgInt N mv jk jv) M) = .ok t →
    ∃ r, t.scan = .ok r ∧ (r.map Prod.fst).Nodup ∧ ∀ k v, (k, v) ∈ r ↔ last xs k = some v

/-! ## C61 -/

theorem laws_int (N : Nat) (mv : Bool) (jk : Nat → Int) (jv : Nat → V) :
    Laws (cfgInt N mv jk jv) (fun k => 0 ≤ k ∧ k < 2 ^ 31 - 1) where
  conv := fun k ⟨h1, h2⟩ => SearchProps.convInt_roundtrip k ⟨by omega, by omega⟩
  mono := fun a b ⟨ha1, ha2⟩ ⟨hb1, hb2⟩ => by
    simp only [cfgInt, convInt]
    omega
  lim := fun k ⟨h1, h2⟩ => by
    simp only [cfgInt, limInt]
    omega

theorem fold_last (k : K) (v : V) : ∀ (xs : List (K × V)) (P : V → Prop) (o : Option V), (∀ w, P w ↔ o = some w) →
    (xs.foldl (fun (P : V → Prop) x => if x.1 = k then (fun w => w = x.2) else P) P v ↔
      xs.foldl (fun o x => if x.1 = k then some x.2 else o) o = some v)
  | [], P, o, h => h v
  | x :: xs, P, o, h => by
    rw [List.foldl_cons, List.foldl_cons]
    apply fold_last
    intro w
    by_cases e : x.1 = k
    · rw [if_pos e, if_pos e]; simp [eq_comm]
    · rw [if_neg e, if_neg e]; exact h w

/-- C61 for both files, every order `N` and `M` (`N` not a multiple of 64, and `M` not either where the
split flips a bitmap) and every key type whose keys convert to `size_t` and back without loss or change of
order and lie strictly between the limits of the type. -/
theorem C61_partial (F : Laws c adm) (hM : 2 ≤ M) (hm : c.move = false → M % 64 ≠ 0) (hN : 2 ≤ c.N) (hN64 : c.N % 64 ≠ 0)
    (xs : List (K × V)) (hx : ∀ x ∈ xs, adm x.1) :
    ∃ t, insertAll xs (Store.empty c M) = .ok t ∧ ∀ k, adm k → t.lookup k = .ok (last xs k) := by
  obtain ⟨t, e, ht, hh⟩ := insertAll_law F hM hm hN hN64 xs _ (tok_empty c M) hx
  refine ⟨t, e, fun k hk => ?_⟩
  obtain ⟨r, er, hr⟩ := store_lookup_law F ht hk
  rw [er]
  congr 1
  have key : ∀ v, r = some v ↔ last xs k = some v := by
    intro v
    rw [hr, hh]
    exact fold_last k v xs _ none (fun w => ⟨fun h => absurd h (has_empty k w), fun h => by cases h⟩)
  cases hl : last xs k with
  | none =>
    cases r with
    | none => rfl
    | some v => have := (key v).1 rfl; rw [hl] at this; cases this
  | some v => exact (key v).2 hl

/-- C61 for the `int` keys from 0 to 2^31 - 2. -/
theorem C61_int (N M : Nat) (mv : Bool) (hM : 2 ≤ M) (hm : mv = false → M % 64 ≠ 0) (hN : 2 ≤ N) (hN64 : N % 64 ≠ 0)
    (jk : Nat → Int) (jv : Nat → V) (xs : List (Int × V)) (hx : ∀ x ∈ xs, 0 ≤ x.1 ∧ x.1 < 2 ^ 31 - 1) :
    ∃ t, insertAll xs (Store.empty (cfgInt N mv jk jv) M) = .ok t ∧
      ∀ k, 0 ≤ k ∧ k < 2 ^ 31 - 1 → t.lookup k = .ok (last xs k) :=
  C61_partial (laws_int N mv jk jv) hM hm hN hN64 xs hx

/-- A run with three splits of leaves and one of the root. -/
example : ∃ t, insertAll ((List.range 10).map fun i => ((37 * i % 11 : Int), (i : Int)))
    (Store.empty (cfgInt 2 false (fun _ => 0) (fun _ => 0)) 2) = .ok t ∧
    (∀ k : Int, 0 ≤ k ∧ k < 2 ^ 31 - 1 → t.lookup k = .ok (last ((List.range 10).map fun i => ((37 * i % 11 : Int), (i : Int))) k)) ∧
    last ((List.range 10).map fun i => ((37 * i % 11 : Int), (i : Int))) 4 = some 1 := by
  obtain ⟨t, e, h⟩ := C61_int 2 2 false (by decide) (by decide) (by decide) (by decide) (fun _ => 0) (fun _ => (0 : Int))
    ((List.range 10).map fun i => ((37 * i % 11 : Int), (i : Int))) (by
      intro x hx
      rw [List.mem_map] at hx
      obtain ⟨i, _, rfl⟩ := hx
      dsimp only
      omega)
  exact ⟨t, e, h, by decide⟩

/-- With `INT_MAX` as a separator the lookup loses keys (both files); with negative keys the split of
BitHPBPTree does. -/
theorem C61_refuted : ¬ C61_statement 3 3 true ∧ ¬ C61_statement 3 3 false ∧ ¬ C61_statement 3 2 false := by
  have w1 : ∀ x ∈ [((2147483647 : Int), (1 : Int)), (1, 2), (2147483646, 3), (2, 4)], IsInt x.1 := by
    unfold IsInt; decide
  have w2 : ∀ x ∈ [((-1 : Int), (1 : Int)), (1, 2), (-3, 3), (-4, 4)], IsInt x.1 := by
    unfold IsInt; decide
  refine ⟨fun h => ?_, fun h => ?_, fun h => ?_⟩
  · obtain ⟨t, e, hl⟩ := h (fun _ => 0) (fun _ => 0) _ w1
    have h1 := hl 1 (by unfold IsInt; decide)
    have : (insertAll [((2147483647 : Int), (1 : Int)), (1, 2), (2147483646, 3), (2, 4)]
      (Store.empty (cfgInt 3 true (fun _ => 0) (fun _ => 0)) 3) >>= fun t => t.lookup 1) = .ok none := by decide +kernel
    rw [e, Res.ok_bind, h1] at this
    exact absurd this (by decide)
  · obtain ⟨t, e, hl⟩ := h (fun _ => 0) (fun _ => 0) _ w1
    have h1 := hl 1 (by unfold IsInt; decide)
    have : (insertAll [((2147483647 : Int), (1 : Int)), (1, 2), (2147483646, 3), (2, 4)]
      (Store.empty (cfgInt 3 false (fun _ => 0) (fun _ => 0)) 3) >>= fun t => t.lookup 1) = .ok none := by decide +kernel
    rw [e, Res.ok_bind, h1] at this
    exact absurd this (by decide)
  · obtain ⟨t, e, hl⟩ := h (fun _ => 0) (fun _ => 0) _ w2
    have h1 := hl (-1) (by unfold IsInt; decide)
    have : (insertAll [((-1 : Int), (1 : Int)), (1, 2), (-3, 3), (-4, 4)]
      (Store.empty (cfgInt 3 false (fun _ => 0) (fun _ => 0)) 2) >>= fun t => t.lookup (-1)) = .ok none := by decide +kernel
    rw [e, Res.ok_bind, h1] at this
    exact absurd this (by decide)

/-! ## Histories within one leaf -/

/-- The tree consisting of one leaf. -/
def oneLeaf (c : Cfg K V) (l : Leaf M K V) : Store c M := ⟨0, (0 : Nat), [⟨l, none, none⟩], 0⟩

/-- Number of used positions. -/
def used (l : Leaf M K V) : Nat := (BitmapSpec.members l.bits).card

theorem zero_of_used {l : Leaf M K V} (h : used l < M) : ∃ p, p < M ∧ Bitmap.bit l.bits p = false := by
  by_contra hno
  push Not at hno
  have : BitmapSpec.members l.bits = Finset.range M := by
    ext p; rw [Bitmap.mem_members, Finset.mem_range]
    exact ⟨fun h => h.1, fun hp => ⟨hp, by simpa using hno p hp⟩⟩
  unfold used at h
  rw [this, Finset.card_range] at h
  exact absurd h (lt_irrefl _)

theorem full_of_used {l : Leaf M K V} (h : used l = M) : ∀ p, p < M → Bitmap.bit l.bits p = true := by
  have hs : BitmapSpec.members l.bits ⊆ Finset.range M := fun p hp =>
    Finset.mem_range.2 (Bitmap.mem_members.1 hp).1
  have := Finset.eq_of_subset_of_card_le hs (by rw [Finset.card_range]; exact h.ge)
  intro p hp
  have hm : p ∈ BitmapSpec.members l.bits := by rw [this]; simpa using hp
  exact (Bitmap.mem_members.1 hm).2

theorem insert_room {l : Leaf M K V} (hl : LOk l) (hu : used l < M) {k : K} (v : V) (hk : ∀ w, ¬ Has l k w) :
    ∃ l', l.insert c k v = .ok (l', none) ∧ LOk l' ∧ used l' = used l + 1 ∧
      ∀ x y, Has l' x y ↔ (x = k ∧ y = v) ∨ Has l x y := by
  obtain ⟨p, e, hp⟩ := pos_spec l k
  rcases hp with ⟨h1, h2, h3⟩ | ⟨h1, _⟩
  · exact absurd ⟨p, h1, h2, h3, rfl⟩ (hk (l.vals p))
  have hz := zero_of_used hu
  obtain ⟨f1, f2⟩ := free_of_zero hz
  obtain ⟨l', e1, g1, g2, g3⟩ := fill_law hl f1 f2 v hk
  refine ⟨l', ?_, g1, ?_, g2⟩
  · unfold Leaf.insert
    rw [e, Res.ok_bind, if_neg (by omega)]
    simp only
    rw [if_neg (by omega)]
    unfold Leaf.insertAt Res.assert
    rw [if_pos f1]
    show (l.fill _ k v >>= fun l1 => pure (l1, none)) = _
    rw [e1]; rfl
  · have : BitmapSpec.members l'.bits = insert l.bits.getFreeZero (BitmapSpec.members l.bits) := by
      ext q
      rw [Finset.mem_insert, Bitmap.mem_members, Bitmap.mem_members]
      constructor
      · rintro ⟨hq, hb⟩
        rw [g3 q hq] at hb
        by_cases eq : q = l.bits.getFreeZero
        · exact Or.inl eq
        · rw [if_neg eq] at hb; exact Or.inr ⟨hq, hb⟩
      · rintro (rfl | ⟨hq, hb⟩)
        · exact ⟨f1, by rw [g3 _ f1, if_pos rfl]⟩
        · refine ⟨hq, ?_⟩
          rw [g3 q hq]
          split
          · rfl
          · exact hb
    unfold used
    rw [this, Finset.card_insert_of_notMem]
    rw [Bitmap.mem_members, f2]
    simp

theorem insertAll_room : ∀ (xs : List (K × V)) (l : Leaf M K V), LOk l → (xs.map Prod.fst).Nodup →
    (∀ x ∈ xs, ∀ w, ¬ Has l x.1 w) → used l + xs.length ≤ M →
    ∃ l', insertAll xs (oneLeaf c l) = .ok (oneLeaf c l') ∧ LOk l' ∧ used l' = used l + xs.length ∧
      ∀ k v, Has l' k v ↔ (k, v) ∈ xs ∨ Has l k v
  | [], l, hl, _, _, _ => ⟨l, rfl, hl, rfl, fun k v => by simp⟩
  | x :: xs, l, hl, hnd, hno, hlen => by
    rw [List.map_cons, List.nodup_cons] at hnd
    rw [List.length_cons] at hlen
    obtain ⟨l1, e1, g1, g2, g3⟩ := insert_room (c := c) hl (by omega) x.2 (hno x (by simp))
    obtain ⟨l2, e2, k1, k2, k3⟩ := insertAll_room xs l1 g1 hnd.2 (by
      intro y hy w hw
      rcases (g3 _ _).1 hw with ⟨h, _⟩ | h
      · exact hnd.1 (by rw [← h]; exact List.mem_map_of_mem hy)
      · exact hno y (by simp [hy]) w h) (by omega)
    refine ⟨l2, ?_, k1, by rw [k2, g2, List.length_cons]; omega, fun k v => ?_⟩
    · rw [insertAll, ← e2]
      congr 1
      unfold Store.insert oneLeaf
      simp only [ins, insLeaf, List.getElem?_cons_zero, Res.ofOption_some, Res.ok_bind, e1, Res.pure_eq]
      rfl
    · rw [k3, g3, List.mem_cons]
      obtain ⟨a, b⟩ := x
      simp only [Prod.mk.injEq]
      tauto

theorem used_new (c : Cfg K V) : used (Leaf.new c M) = 0 := by
  unfold used
  rw [Finset.card_eq_zero, Finset.eq_empty_iff_forall_notMem]
  intro p hp
  have := (Bitmap.mem_members.1 hp).2
  rw [Leaf.new, bit_fresh] at this
  cases this

/-- Up to `M` distinct keys stay in one leaf. -/
theorem oneLeaf_hist (xs : List (K × V)) (hnd : (xs.map Prod.fst).Nodup) (hlen : xs.length ≤ M) :
    ∃ l, insertAll xs (Store.empty c M) = .ok (oneLeaf c l) ∧ LOk l ∧ used l = xs.length ∧
      ∀ k v, Has l k v ↔ (k, v) ∈ xs := by
  obtain ⟨l, e, g1, g2, g3⟩ := insertAll_room (c := c) xs (Leaf.new c M) (lok_new c) hnd
    (fun x _ w => has_new c x.1 w) (by rw [used_new]; omega)
  refine ⟨l, e, g1, by rw [g2, used_new]; omega, fun k v => ?_⟩
  rw [g3]
  exact ⟨fun h => h.resolve_right (has_new c k v), Or.inl⟩

/-! ## C46 -/

theorem rangeLoop_full {l : Leaf M K V} (h : ∀ p, p < M → Bitmap.bit l.bits p = true) (lo hi : K) :
    ∀ (n i : Nat) (hm : Bool), i + n = M → l.rangeLoop lo hi i hm n = .ok ([], hm)
  | 0, _, _, _ => rfl
  | n + 1, i, hm, hi' => by
    rw [Leaf.rangeLoop, show l.bits.test i = .ok (Bitmap.bit l.bits i) from Bitmap.test_eq _ (by omega), Res.ok_bind,
      if_pos (h i (by omega))]
    exact rangeLoop_full h lo hi n (i + 1) hm (by omega)

/-- A leaf filled by `M` distinct keys: every range scan reports nothing, in both files and for all orders. -/
theorem C46_full_leaf (xs : List (K × V)) (hnd : (xs.map Prod.fst).Nodup) (hlen : xs.length = M) :
    ∃ t, insertAll xs (Store.empty c M) = .ok t ∧ ∀ lo hi, t.range lo hi = .ok [] := by
  obtain ⟨l, e, g1, g2, g3⟩ := oneLeaf_hist (c := c) xs hnd hlen.le
  refine ⟨_, e, fun lo hi => ?_⟩
  unfold Store.range oneLeaf
  simp only [findLeaf, Res.ok_bind, List.length_singleton]
  rw [Store.rangeFrom]
  simp only [List.getElem?_cons_zero, Res.ofOption_some, Res.ok_bind]
  rw [rangeLoop_full (full_of_used (by rw [g2, hlen])) lo hi M 0 false (by omega), Res.ok_bind]
  rfl

/-- A sequence of inserts of distinct keys maps each key to its value. -/
theorem last_nodup (xs : List (K × V)) (hnd : (xs.map Prod.fst).Nodup) (k : K) (v : V) :
    last xs k = some v ↔ (k, v) ∈ xs := by
  have aux : ∀ (xs : List (K × V)) (o : Option V), (xs.map Prod.fst).Nodup → (k ∈ xs.map Prod.fst → o = none) →
      (xs.foldl (fun o x => if x.1 = k then some x.2 else o) o = some v ↔ (k, v) ∈ xs ∨ o = some v) := by
    intro xs
    induction xs with
    | nil => intro o _ _; simp
    | cons x xs ih =>
      intro o hnd ho
      obtain ⟨a, b⟩ := x
      rw [List.map_cons, List.nodup_cons] at hnd
      rw [List.foldl_cons, ih _ hnd.2]
      · by_cases e : a = k
        · subst e
          have h1 : (a, v) ∉ xs := fun h => hnd.1 (List.mem_map.2 ⟨_, h, rfl⟩)
          rw [ho (by simp)]
          simp [h1, eq_comm]
        · rw [if_neg e, List.mem_cons]
          simp [Ne.symm e]
      · intro hk
        have : a ≠ k := fun h => hnd.1 (by rw [h]; exact hk)
        rw [if_neg this]
        exact ho (by rw [List.map_cons]; exact List.mem_cons_of_mem _ hk)
  unfold last
  rw [aux xs none hnd (fun _ => rfl)]
  simp

/-- `M` inserts of distinct keys. -/
def ramp (M : Nat) : List (Int × Int) := (List.range M).map fun (i : Nat) => ((i : Int), (i : Int))

theorem ramp_nodup (M : Nat) : ((ramp M).map Prod.fst).Nodup := by
  rw [ramp, List.map_map]
  exact List.nodup_range.map (fun a b h => by simpa using h)

/-- C46 is false for all orders of the tree, in both files. -/
theorem C46_refuted (N M : Nat) (mv : Bool) (hM : 0 < M) (hM' : M < 2 ^ 31) : ¬ C46_statement N M mv := by
  intro h
  obtain ⟨t, e, ht⟩ := C46_full_leaf (c := cfgInt N mv (fun _ => 0) (fun _ => (0 : Int))) (M := M) (ramp M)
    (ramp_nodup M) (by simp [ramp])
  have hx : ∀ x ∈ ramp M, 0 ≤ x.1 ∧ x.1 < 2 ^ 31 - 1 := by
    intro x hx
    obtain ⟨i, hi, rfl⟩ := List.mem_map.1 hx
    rw [List.mem_range] at hi
    dsimp only
    omega
  obtain ⟨r, e1, hr⟩ := h _ _ (ramp M) t hx e 0 0
  rw [ht] at e1
  obtain rfl := Res.ok.inj e1
  have := (hr 0 0).2 ⟨le_refl _, le_refl _, (last_nodup _ (ramp_nodup M) _ _).2 (List.mem_map.2 ⟨0, by simpa using hM, by simp⟩)⟩
  cases this

theorem rangeLoop_spec (l : Leaf M K V) (lo hi : K) : ∀ (n i : Nat) (hm : Bool), i + n = M →
    ∃ r hm', l.rangeLoop lo hi i hm n = .ok (r, hm') ∧
      ∀ k v, (k, v) ∈ r ↔ lo ≤ k ∧ k ≤ hi ∧
        ∃ p, i ≤ p ∧ p < M ∧ Bitmap.bit l.bits p = false ∧ l.keys p = k ∧ l.vals p = v
  | 0, i, hm, h => ⟨[], hm, rfl, fun k v => by
      constructor
      · intro h; cases h
      · rintro ⟨_, _, p, h1, h2, _⟩; omega⟩
  | n + 1, i, hm, h => by
    rw [Leaf.rangeLoop, show l.bits.test i = .ok (Bitmap.bit l.bits i) from Bitmap.test_eq _ (by omega), Res.ok_bind]
    have step : ∀ k v, (∃ p, i ≤ p ∧ p < M ∧ Bitmap.bit l.bits p = false ∧ l.keys p = k ∧ l.vals p = v) ↔
        (Bitmap.bit l.bits i = false ∧ l.keys i = k ∧ l.vals i = v) ∨
        ∃ p, i + 1 ≤ p ∧ p < M ∧ Bitmap.bit l.bits p = false ∧ l.keys p = k ∧ l.vals p = v := by
      intro k v
      constructor
      · rintro ⟨p, h1, h2⟩
        rcases Nat.eq_or_lt_of_le h1 with rfl | h1
        · exact Or.inl h2.2
        · exact Or.inr ⟨p, h1, h2⟩
      · rintro (h1 | ⟨p, h1, h2⟩)
        · exact ⟨i, le_refl _, by omega, h1⟩
        · exact ⟨p, by omega, h2⟩
    by_cases hb : Bitmap.bit l.bits i = true
    · rw [if_pos hb]
      obtain ⟨r, hm', e, hr⟩ := rangeLoop_spec l lo hi n (i + 1) hm (by omega)
      refine ⟨r, hm', e, fun k v => ?_⟩
      rw [hr, step, hb]
      simp
    · rw [if_neg hb, rdA_ok (by omega), Res.ok_bind]
      have hb' : Bitmap.bit l.bits i = false := by simpa using hb
      by_cases h1 : l.keys i < lo
      · rw [if_pos h1]
        obtain ⟨r, hm', e, hr⟩ := rangeLoop_spec l lo hi n (i + 1) hm (by omega)
        refine ⟨r, hm', e, fun k v => ?_⟩
        rw [hr, step]
        constructor
        · rintro ⟨a, b, c⟩; exact ⟨a, b, Or.inr c⟩
        · rintro ⟨a, b, ⟨_, rfl, _⟩ | c⟩
          · exact absurd h1 (not_lt.2 a)
          · exact ⟨a, b, c⟩
      · rw [if_neg h1]
        by_cases h2 : hi < l.keys i
        · rw [if_pos h2]
          obtain ⟨r, hm', e, hr⟩ := rangeLoop_spec l lo hi n (i + 1) true (by omega)
          refine ⟨r, hm', e, fun k v => ?_⟩
          rw [hr, step]
          constructor
          · rintro ⟨a, b, c⟩; exact ⟨a, b, Or.inr c⟩
          · rintro ⟨a, b, ⟨_, rfl, _⟩ | c⟩
            · exact absurd h2 (not_lt.2 b)
            · exact ⟨a, b, c⟩
        · rw [if_neg h2, rdA_ok (by omega), Res.ok_bind]
          obtain ⟨r, hm', e, hr⟩ := rangeLoop_spec l lo hi n (i + 1) hm (by omega)
          refine ⟨(l.keys i, l.vals i) :: r, hm', by rw [e]; rfl, fun k v => ?_⟩
          rw [List.mem_cons, hr, step, Prod.mk.injEq]
          constructor
          · rintro (⟨rfl, rfl⟩ | ⟨a, b, c⟩)
            · exact ⟨not_lt.1 h1, not_lt.1 h2, Or.inl ⟨hb', rfl, rfl⟩⟩
            · exact ⟨a, b, Or.inr c⟩
          · rintro ⟨a, b, ⟨_, rfl, rfl⟩ | c⟩
            · exact Or.inl ⟨rfl, rfl⟩
            · exact Or.inr ⟨a, b, c⟩

/-- What the range scan does report: pairs with a key in the range, and each of them is the content of an
*unused* position of a leaf. -/
theorem C46_partial (t : Store c M) (lo hi : K) {r : List (K × V)} (h : t.range lo hi = .ok r) {k : K} {v : V}
    (hm : (k, v) ∈ r) : lo ≤ k ∧ k ≤ hi ∧
      ∃ x ∈ t.heap, ∃ p, p < M ∧ Bitmap.bit x.leaf.bits p = false ∧ x.leaf.keys p = k ∧ x.leaf.vals p = v := by
  unfold Store.range at h
  obtain ⟨i, _, h'⟩ := (Res.bind_eq_ok).1 h
  clear h
  suffices key : ∀ (n : Nat) (b : Bool) (o : Option Nat) (r : List (K × V)),
      Store.rangeFrom t.heap lo hi n b o = .ok r → (k, v) ∈ r → lo ≤ k ∧ k ≤ hi ∧
        ∃ x ∈ t.heap, ∃ p, p < M ∧ Bitmap.bit x.leaf.bits p = false ∧ x.leaf.keys p = k ∧ x.leaf.vals p = v from
    key _ _ _ _ h' hm
  clear h' hm r
  intro n b o r h hm
  induction n generalizing b o r with
  | zero =>
    rcases b with _ | _ <;> rcases o with _ | o <;> simp only [Store.rangeFrom] at h <;>
      first | (obtain rfl := Res.ok.inj h; cases hm) | cases h
  | succ n ih =>
    rcases b with _ | _ <;> rcases o with _ | o
    · simp only [Store.rangeFrom] at h; obtain rfl := Res.ok.inj h; cases hm
    · rw [Store.rangeFrom] at h
      obtain ⟨x, hx, h⟩ := (Res.bind_eq_ok).1 h
      obtain ⟨a, ha, h⟩ := (Res.bind_eq_ok).1 h
      obtain ⟨r2, hr2, h⟩ := (Res.bind_eq_ok).1 h
      obtain rfl := Res.ok.inj h
      rcases List.mem_append.1 hm with hm | hm
      · obtain ⟨r, hm', e, hr⟩ := rangeLoop_spec x.leaf lo hi M 0 false (by omega)
        rw [e] at ha
        obtain rfl := Res.ok.inj ha
        obtain ⟨h1, h2, p, _, hp⟩ := (hr k v).1 hm
        have hx' : t.heap[o]? = some x := by
          cases hh : t.heap[o]? with
          | none => rw [hh] at hx; cases hx
          | some y => rw [hh] at hx; exact congrArg some (Res.ok.inj hx)
        exact ⟨h1, h2, x, List.mem_of_getElem? hx', p, hp⟩
      · exact ih _ _ _ hr2 hm
    all_goals (simp only [Store.rangeFrom] at h; obtain rfl := Res.ok.inj h; cases hm)

/-- Six keys in a tree of order 4: the range scan of BitHPBPTree reports left-over copies. -/
example : (insertAll [(8, 1), (7, 2), (6, 3), (5, 4), (4, 5), (3, 6)]
    (Store.empty (cfgInt 4 false (fun _ => 0) (fun _ => (0 : Int))) 4) >>= fun t => t.range 5 100) =
    .ok [(6, 3), (5, 4)] := by decide +kernel

/-! ## C62 -/

theorem scanLoop_spec (l : Leaf M K V) (hl : LOk l) : ∀ (n i : Nat), i + n = M →
    ∃ r, l.scanLoop i n = .ok r ∧ (r.map Prod.fst).Nodup ∧
      ∀ k v, (k, v) ∈ r ↔ ∃ p, i ≤ p ∧ p < M ∧ Bitmap.bit l.bits p = true ∧ l.keys p = k ∧ l.vals p = v
  | 0, i, h => ⟨[], rfl, List.nodup_nil, fun k v => by
      constructor
      · intro h; cases h
      · rintro ⟨p, h1, h2, _⟩; omega⟩
  | n + 1, i, h => by
    obtain ⟨r, e, hnd, hr⟩ := scanLoop_spec l hl n (i + 1) (by omega)
    have step : ∀ k v, (∃ p, i ≤ p ∧ p < M ∧ Bitmap.bit l.bits p = true ∧ l.keys p = k ∧ l.vals p = v) ↔
        (Bitmap.bit l.bits i = true ∧ l.keys i = k ∧ l.vals i = v) ∨
        ∃ p, i + 1 ≤ p ∧ p < M ∧ Bitmap.bit l.bits p = true ∧ l.keys p = k ∧ l.vals p = v := by
      intro k v
      constructor
      · rintro ⟨p, h1, h2⟩
        rcases Nat.eq_or_lt_of_le h1 with rfl | h1
        · exact Or.inl h2.2
        · exact Or.inr ⟨p, h1, h2⟩
      · rintro (h1 | ⟨p, h1, h2⟩)
        · exact ⟨i, le_refl _, by omega, h1⟩
        · exact ⟨p, by omega, h2⟩
    rw [Leaf.scanLoop, show l.bits.test i = .ok (Bitmap.bit l.bits i) from Bitmap.test_eq _ (by omega), Res.ok_bind]
    by_cases hb : Bitmap.bit l.bits i = true
    · rw [if_pos hb, rdA_ok (by omega), Res.ok_bind, rdA_ok (by omega), Res.ok_bind, e]
      refine ⟨(l.keys i, l.vals i) :: r, rfl, ?_, fun k v => ?_⟩
      · rw [List.map_cons, List.nodup_cons]
        refine ⟨fun hmem => ?_, hnd⟩
        obtain ⟨⟨a, b⟩, hmem, ea⟩ := List.mem_map.1 hmem
        obtain ⟨p, h1, h2, h3, h4, _⟩ := (hr a b).1 hmem
        have := hl.inj p i h2 (by omega) h3 hb (by rw [h4]; exact ea)
        omega
      · rw [List.mem_cons, hr, step, Prod.mk.injEq]
        exact or_congr ⟨fun ⟨a, b⟩ => ⟨hb, a.symm, b.symm⟩, fun ⟨_, a, b⟩ => ⟨a.symm, b.symm⟩⟩ Iff.rfl
    · rw [if_neg hb]
      refine ⟨r, e, hnd, fun k v => ?_⟩
      rw [hr, step]
      exact ⟨Or.inr, fun h => h.resolve_left fun h => hb h.1⟩

/-- C62 as long as the keys fit in one leaf, for both files, all orders and all key types. -/
theorem C62_leaf_partial (xs : List (K × V)) (hnd : (xs.map Prod.fst).Nodup) (hlen : xs.length ≤ M) :
    ∃ t r, insertAll xs (Store.empty c M) = .ok t ∧ t.scan = .ok r ∧ (r.map Prod.fst).Nodup ∧
      ∀ k v, (k, v) ∈ r ↔ (k, v) ∈ xs := by
  obtain ⟨l, e, g1, g2, g3⟩ := oneLeaf_hist (c := c) xs hnd hlen
  obtain ⟨r, e1, h1, h2⟩ := scanLoop_spec l g1 M 0 (by omega)
  refine ⟨_, r, e, ?_, h1, fun k v => ?_⟩
  · unfold Store.scan oneLeaf
    simp only [Store.firstLeaf, Res.ok_bind, List.length_singleton]
    rw [Store.scanFrom]
    simp only [List.getElem?_cons_zero, Res.ofOption_some, Res.ok_bind]
    rw [e1, Res.ok_bind]
    simp [Store.scanFrom, Res.pure_eq]
  · rw [h2, ← g3]
    exact ⟨fun ⟨p, _, h⟩ => ⟨p, h⟩, fun ⟨p, h⟩ => ⟨p, by omega, h⟩⟩

/-- After splits of the leftmost leaf `scan` starts at a later leaf and misses entries. -/
theorem C62_refuted : ¬ C62_statement 3 2 true ∧ ¬ C62_statement 3 2 false := by
  have w : ∀ x ∈ [((4 : Int), (1 : Int)), (3, 2), (2, 3), (1, 4)], 0 ≤ x.1 ∧ x.1 < 2 ^ 31 - 1 := by decide
  constructor
  · intro h
    have : (insertAll [((4 : Int), (1 : Int)), (3, 2), (2, 3), (1, 4)]
      (Store.empty (cfgInt 3 true (fun _ => 0) (fun _ => 0)) 2) >>= fun t => t.scan) = .ok [(3, 2), (4, 1)] := by
      decide +kernel
    obtain ⟨t, e, hs⟩ := (Res.bind_eq_ok).1 this
    obtain ⟨r, e1, _, hr⟩ := h _ _ _ t w e
    rw [hs] at e1
    obtain rfl := Res.ok.inj e1
    exact absurd ((hr 1 4).2 (by decide)) (by decide)
  · intro h
    have : (insertAll [((4 : Int), (1 : Int)), (3, 2), (2, 3), (1, 4)]
      (Store.empty (cfgInt 3 false (fun _ => 0) (fun _ => 0)) 2) >>= fun t => t.scan) = .ok [(3, 2), (4, 1)] := by
      decide +kernel
    obtain ⟨t, e, hs⟩ := (Res.bind_eq_ok).1 this
    obtain ⟨r, e1, _, hr⟩ := h _ _ _ t w e
    rw [hs] at e1
    obtain rfl := Res.ok.inj e1
    exact absurd ((hr 1 4).2 (by decide)) (by decide)

/-! ## C61 for leaves of order 64 -/

/-- BitHPBPTree with `M = 64`: the flipped bitmap is empty, so the split of a full leaf drops the split key
(and everything above it). -/
theorem insert_drops (F : Laws c adm) (hmv : c.move = false) {l : Leaf 64 K V} (hl : LOk l)
    (hfull : ∀ p, p < 64 → Bitmap.bit l.bits p = true) (ha : ∀ x y, Has l x y → adm x) (k : K) (v : V)
    (hno : ∀ w, ¬ Has l k w) :
    ∃ l' s r sk y, l.insert c k v = .ok (l', some (s, r)) ∧ LOk l' ∧ LOk r ∧ Has l sk y ∧
      (∀ w, ¬ Has l' sk w) ∧ ∀ w, ¬ Has r sk w := by
  have hinj : ∀ i j, i < 64 → j < 64 → l.keys i = l.keys j → i = j := fun i j hi hj =>
    hl.inj i j hi hj (hfull i hi) (hfull j hj)
  have had : ∀ i, i < 64 → adm (l.keys i) := fun i hi => ha _ _ ⟨i, hi, hfull i hi, rfl, rfl⟩
  obtain ⟨b, p, e, hp, hcl, hb, i0, hi0, hlt0⟩ := splitKey_law c.cv (by decide) l.keys (fun i hi => F.conv _ (had i hi))
    (fun i j hi hj => F.mono _ _ (had i hi) (had j hj)) hinj
  have hsp : l.split c = .ok ({ l with bits := b }, { l with bits := b.flip }, l.keys p) := by
    unfold Leaf.split
    rw [e, Res.ok_bind, rdA_ok hp, Res.ok_bind, hmv, if_neg (by decide)]
    rfl
  have hfl : ∀ q, q < 64 → Bitmap.bit b.flip q = false := by
    intro q hq
    rw [Bitmap.bit_flip b q hq, if_pos ⟨by decide, by
      have : Bitmap.numWords 64 = 1 := by decide
      omega⟩]
  have hl1 : LOk ({ l with bits := b } : Leaf 64 K V) := ⟨hcl, fun i j hi hj _ _ => hinj i j hi hj⟩
  have hs1 : LOk ({ l with bits := b.flip } : Leaf 64 K V) := ⟨clean_flip b, fun i j hi hj _ _ => hinj i j hi hj⟩
  have hks : k ≠ l.keys p := fun h => hno (l.vals p) ⟨p, hp, hfull p hp, h.symm, rfl⟩
  have n1 : ∀ w, ¬ Has ({ l with bits := b } : Leaf 64 K V) (l.keys p) w := by
    rintro w ⟨q, hq, hbq, hk, _⟩
    exact absurd ((hb q hq).1 hbq) (by rw [show l.keys q = l.keys p from hk]; exact lt_irrefl _)
  have n2 : ∀ x w, ¬ Has ({ l with bits := b.flip } : Leaf 64 K V) x w := by
    rintro x w ⟨q, hq, hbq, _⟩
    rw [hfl q hq] at hbq
    cases hbq
  have n3 : ∀ w, ¬ Has ({ l with bits := b } : Leaf 64 K V) k w := by
    rintro w ⟨q, hq, _, hk, hv⟩
    exact hno w ⟨q, hq, hfull q hq, hk, hv⟩
  obtain ⟨s2, es, os, hs2⟩ := insertAt_law hs1 ⟨0, by decide, hfl 0 (by decide)⟩ v (n2 k)
  obtain ⟨l2, el, ol, hl2⟩ := insertAt_law hl1 ⟨p, hp, by
    rw [Bool.eq_false_iff]; intro h; exact absurd ((hb p hp).1 h) (lt_irrefl _)⟩ v n3
  have m1 : ∀ w, ¬ Has l2 (l.keys p) w := fun w h => by
    rcases (hl2 _ _).1 h with ⟨h, _⟩ | h
    exacts [hks h.symm, n1 w h]
  have m2 : ∀ w, ¬ Has s2 (l.keys p) w := fun w h => by
    rcases (hs2 _ _).1 h with ⟨h, _⟩ | h
    exacts [hks h.symm, n2 _ w h]
  obtain ⟨q, eq, hq⟩ := pos_spec l k
  have hhas : Has l (l.keys p) (l.vals p) := ⟨p, hp, hfull p hp, rfl, rfl⟩
  rcases hq with ⟨h1, h2, h3⟩ | ⟨h1, _⟩
  · exact absurd ⟨q, h1, h2, h3, rfl⟩ (hno (l.vals q))
  obtain ⟨m, em, hm, hbm, _⟩ := maxPos_spec F (l := { l with bits := b }) hi0 ((hb i0 hi0).2 hlt0) (had i0 hi0)
  unfold Leaf.insert
  rw [eq, Res.ok_bind, if_neg (by omega)]
  simp only
  rw [if_pos (free_full hl.clean hfull), hsp, Res.ok_bind]
  simp only
  by_cases c1 : l.keys p < k
  · rw [if_pos c1, es, Res.ok_bind]
    exact ⟨_, _, _, _, _, rfl, hl1, os, hhas, n1, m2⟩
  · rw [if_neg c1, em, Res.ok_bind, rdA_ok hm, Res.ok_bind]
    by_cases c2 : l.keys m < k
    · rw [if_pos c2, es, Res.ok_bind]
      exact ⟨_, _, _, _, _, rfl, hl1, os, hhas, n1, m2⟩
    · rw [if_neg c2, el, Res.ok_bind]
      exact ⟨_, _, _, _, _, rfl, ol, hs1, hhas, m1, n2 _⟩

theorem insertAll_append : ∀ (xs ys : List (K × V)) (t : Store c M),
    insertAll (xs ++ ys) t = insertAll xs t >>= insertAll ys
  | [], _, _ => rfl
  | x :: xs, ys, t => by
    rw [List.cons_append, insertAll, insertAll]
    cases t.insert x.1 x.2 with
    | ok t' => exact insertAll_append xs ys t'
    | ub => rfl
    | throws => rfl
    | assertFail => rfl

/-- BitHPBPTree with leaf order 64 loses a key on *every* history of 65 distinct keys, for every branch order. -/
theorem C61_order64 (F : Laws c adm) (hmv : c.move = false) (hN : 1 ≤ c.N) (xs : List (K × V))
    (hlen : xs.length = 65) (hnd : (xs.map Prod.fst).Nodup) (hx : ∀ x ∈ xs, adm x.1) :
    ∃ t, insertAll xs (Store.empty c 64) = .ok t ∧ ∃ x ∈ xs, t.lookup x.1 = .ok none := by
  obtain ⟨ys, z, rfl⟩ : ∃ ys z, xs = ys ++ [z] :=
    ⟨xs.dropLast, xs.getLast (by intro h; rw [h] at hlen; cases hlen), (List.dropLast_concat_getLast _).symm⟩
  rw [List.length_append, List.length_singleton] at hlen
  rw [List.map_append, List.nodup_append] at hnd
  obtain ⟨l, e, g1, g2, g3⟩ := oneLeaf_hist (c := c) (M := 64) ys hnd.1 (by omega)
  obtain ⟨l', s, r, sk, y, e1, o1, o2, h1, h2, h3⟩ := insert_drops F hmv g1 (full_of_used (by omega))
    (fun x w h => hx (x, w) (List.mem_append_left _ ((g3 x w).1 h))) z.1 z.2 (fun w h => by
      have := (g3 _ _).1 h
      exact hnd.2.2 z.1 (List.mem_map.2 ⟨_, this, rfl⟩) z.1 (by simp) rfl)
  obtain ⟨bits, eb, hbit, _⟩ := set_bit' (b := Bitmap.fresh c.N) (show 0 < c.N by omega) true
  let b1 : Branch c.N K Nat := ⟨bits, upd (fun _ => default) 0 s, upd (upd (fun _ => none) 0 (some 0)) c.N (some 1)⟩
  let h : Heap 64 K V := [⟨l', some 1, none⟩, ⟨r, none, some 0⟩]
  have et : insertAll (ys ++ [z]) (Store.empty c 64) = .ok (⟨1, b1, h, 0⟩ : Store c 64) := by
    rw [insertAll_append, e, Res.ok_bind]
    simp only [insertAll]
    unfold Store.insert oneLeaf
    simp only [ins, insLeaf, List.getElem?_cons_zero, Res.ofOption_some, Res.ok_bind, e1, setPrev, Res.pure_eq, eb]
    rfl
  refine ⟨_, et, (sk, y), List.mem_append_left _ ((g3 _ _).1 h1), ?_⟩
  have hpos : ∃ p, (p = 0 ∨ p = c.N) ∧ b1.pos c.lim sk = .ok p := by
    obtain ⟨x, p, e, hc⟩ := bits_search (fun i : Fin c.N => b1.keys i) b1.bits c.lim.max (fun y => decide (sk < y))
      (fun a b => a < b) (fun a b c h1 h2 => by simp only [not_lt] at *; exact le_trans h2.le h1)
      (fun a => lt_irrefl a) (fun _ _ _ h1 h2 => lt_trans h1 h2)
      (fun i y cur => testAnd b1.bits i (decide (y < cur) && decide (sk < y))) (fun i y c => rfl)
    refine ⟨if x = c.lim.max then c.N else p, ?_, ?_⟩
    · split
      · exact Or.inr rfl
      · rcases hc with ⟨_, h, _⟩ | ⟨hp, h, _⟩
        · exact Or.inl h
        · left
          have hb : Bitmap.bit bits p = true := (test_iff' _ ⟨p, hp⟩).1 h
          rw [hbit p hp] at hb
          by_contra hne
          rw [if_neg hne, bit_fresh] at hb
          cases hb
    · unfold Branch.pos findMinKeyPosGreaterThan
      simp only [e, Res.ok_bind, Res.pure_eq]
  obtain ⟨p, hp, ep⟩ := hpos
  have none1 : ∀ a : Leaf 64 K V, LOk a → (∀ w, ¬ Has a sk w) → a.lookup sk = .ok none := by
    intro a ha hn
    obtain ⟨o, eo, ho⟩ := lookup_law ha sk
    rw [eo]
    cases o with
    | none => rfl
    | some w => exact absurd ((ho w).1 rfl) (hn w)
  have hNz : (0 : Nat) ≠ c.N := by omega
  have hf : ∀ i : Nat, b1.kid p = .ok i → findLeaf c 1 b1 sk = .ok i := by
    intro i hi
    show (b1.pos c.lim sk >>= fun p => b1.kid p >>= fun ch => Res.ok ch) = _
    rw [ep, Res.ok_bind, hi]; rfl
  unfold Store.lookup
  rcases hp with rfl | rfl
  · rw [show findLeaf c 1 b1 sk = .ok 0 from hf 0 (kid_ok (by omega) (by simp [b1, upd, hNz])), Res.ok_bind]
    exact none1 l' o1 h2
  · rw [show findLeaf c 1 b1 sk = .ok 1 from hf 1 (kid_ok (by omega) (by simp [b1, upd])), Res.ok_bind]
    exact none1 r o2 h3

/-- The hypotheses hold for the `int` keys 0, …, 64. -/
example : ∃ t, insertAll (ramp 65) (Store.empty (cfgInt 3 false (fun _ => 0) (fun _ => (0 : Int))) 64) = .ok t ∧
    ∃ x ∈ ramp 65, t.lookup x.1 = .ok none :=
  C61_order64 (laws_int 3 false _ _) rfl (by decide) (ramp 65) (by decide) (ramp_nodup 65) (by decide)

end Verif.BitTree
