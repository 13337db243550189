import Verif.FPTree.Leaf
import Verif.BTree.Assoc
import Verif.Search.SplitKey
import Verif.Search.Best
import Mathlib.Data.List.Sort
import Mathlib.Data.List.Perm.Basic

/-!
# Entries of a leaf with a bitmap
-/

set_option linter.unusedSectionVars false

namespace Verif.FPTree

open Verif Search BTree Assoc

variable {K V : Type} {M : Nat} [LinearOrder K]

/-- The valid entries in slots `i, …, i+n-1`, in slot order. -/
def entsFrom (l : FLeaf M K V) (i : Nat) : Nat → List (K × V)
  | 0 => []
  | n + 1 => if Bitmap.bit l.bits i then (l.keys i, l.vals i) :: entsFrom l (i + 1) n
    else entsFrom l (i + 1) n

/-- The valid entries in slot order. -/
def ents (l : FLeaf M K V) : List (K × V) := entsFrom l 0 M

/-- Order of entries by key. -/
abbrev leE (a b : K × V) : Prop := a.1 ≤ b.1

/-- The valid entries sorted by key. -/
def FLeaf.abs (l : FLeaf M K V) : List (K × V) := (ents l).insertionSort leE

/-- Well-formed leaves; `adm` restricts the keys. -/
structure FOk (hash : K → Nat) (adm : K → Prop) (l : FLeaf M K V) : Prop where
  clean : Bitmap.Clean l.bits
  inj : ∀ i j, i < M → j < M → Bitmap.bit l.bits i = true → Bitmap.bit l.bits j = true →
    l.keys i = l.keys j → i = j
  fp : ∀ i, i < M → Bitmap.bit l.bits i = true → l.fp i = hash (l.keys i)
  adm : ∀ i, i < M → Bitmap.bit l.bits i = true → adm (l.keys i)

variable {hash : K → Nat} {adm : K → Prop}

theorem mem_entsFrom {l : FLeaf M K V} {e : K × V} : ∀ {n i : Nat}, e ∈ entsFrom l i n ↔
    ∃ p, i ≤ p ∧ p < i + n ∧ Bitmap.bit l.bits p = true ∧ e = (l.keys p, l.vals p)
  | 0, i => by
    simp only [entsFrom, List.not_mem_nil, false_iff]
    rintro ⟨p, h1, h2, _⟩; omega
  | n + 1, i => by
    rw [entsFrom]
    have ih := mem_entsFrom (l := l) (e := e) (n := n) (i := i + 1)
    by_cases hb : Bitmap.bit l.bits i = true
    · rw [if_pos hb, List.mem_cons, ih]
      constructor
      · rintro (h | ⟨p, h1, h2, h3, h4⟩)
        · exact ⟨i, le_rfl, by omega, hb, h⟩
        · exact ⟨p, by omega, by omega, h3, h4⟩
      · rintro ⟨p, h1, h2, h3, h4⟩
        by_cases hp : p = i
        · subst hp; exact Or.inl h4
        · exact Or.inr ⟨p, by omega, by omega, h3, h4⟩
    · rw [if_neg hb, ih]
      constructor
      · rintro ⟨p, h1, h2, h3, h4⟩; exact ⟨p, by omega, by omega, h3, h4⟩
      · rintro ⟨p, h1, h2, h3, h4⟩
        have hp : p ≠ i := by rintro rfl; exact hb h3
        exact ⟨p, by omega, by omega, h3, h4⟩

theorem mem_ents {l : FLeaf M K V} {e : K × V} : e ∈ ents l ↔
    ∃ p, p < M ∧ Bitmap.bit l.bits p = true ∧ e = (l.keys p, l.vals p) := by
  unfold ents
  rw [mem_entsFrom]
  constructor
  · rintro ⟨p, _, h2, h3⟩; exact ⟨p, by omega, h3⟩
  · rintro ⟨p, h2, h3⟩; exact ⟨p, by omega, by omega, h3⟩

theorem abs_perm (l : FLeaf M K V) : l.abs.Perm (ents l) := List.perm_insertionSort _ _

theorem mem_abs {l : FLeaf M K V} {e : K × V} : e ∈ l.abs ↔
    ∃ p, p < M ∧ Bitmap.bit l.bits p = true ∧ e = (l.keys p, l.vals p) := by
  rw [(abs_perm l).mem_iff, mem_ents]

theorem entsFrom_ne {l : FLeaf M K V} (h : FOk hash adm l) : ∀ (n i : Nat), i + n ≤ M →
    (entsFrom l i n).Pairwise (fun a b => a.1 ≠ b.1)
  | 0, _, _ => List.Pairwise.nil
  | n + 1, i, hi => by
    rw [entsFrom]
    have ih := entsFrom_ne h n (i + 1) (by omega)
    by_cases hb : Bitmap.bit l.bits i = true
    · rw [if_pos hb, List.pairwise_cons]
      refine ⟨fun e he hk => ?_, ih⟩
      obtain ⟨p, h1, h2, h3, h4⟩ := mem_entsFrom.1 he
      rw [h4] at hk
      have := h.inj i p (by omega) (by omega) hb h3 hk
      omega
    · rw [if_neg hb]; exact ih

theorem FOk.sorted {l : FLeaf M K V} (h : FOk hash adm l) : Sorted l.abs := by
  have h1 : l.abs.Pairwise leE :=
    List.pairwise_insertionSort (r := (leE : K × V → K × V → Prop)) (ents l)
  have h2 : l.abs.Pairwise (fun a b => a.1 ≠ b.1) :=
    ((abs_perm l).pairwise_iff (fun h => Ne.symm h)).2 (entsFrom_ne h M 0 (by omega))
  unfold Sorted
  exact (h1.and h2).imp (fun h => lt_of_le_of_ne h.1 h.2)

/-- Two sorted lists with the same entries are equal. -/
theorem sorted_ext {a b : List (K × V)} (ha : Sorted a) (hb : Sorted b) (h : ∀ e, e ∈ a ↔ e ∈ b) : a = b := by
  have na : a.Nodup := ha.imp (fun h e => by rw [e] at h; exact absurd h (lt_irrefl _))
  have nb : b.Nodup := hb.imp (fun h e => by rw [e] at h; exact absurd h (lt_irrefl _))
  exact List.Perm.eq_of_pairwise (le := fun a b : K × V => a.1 < b.1)
    (fun x y _ _ h1 h2 => absurd (lt_trans h1 h2) (lt_irrefl _)) ha hb
    ((List.perm_ext_iff_of_nodup na nb).2 h)

theorem sorted_eq_of_perm {a b : List (K × V)} (ha : Sorted a) (hb : Sorted b) (h : a.Perm b) : a = b :=
  sorted_ext ha hb (fun _ => h.mem_iff)

/-- Number of set bits among `i, …, i+n-1`. -/
theorem length_entsFrom (l : FLeaf M K V) : ∀ (n i : Nat),
    (entsFrom l i n).length = ((Finset.range n).filter (fun p => Bitmap.bit l.bits (i + p) = true)).card
  | 0, i => by simp [entsFrom]
  | n + 1, i => by
    rw [entsFrom]
    have ih := length_entsFrom l n (i + 1)
    have : ((Finset.range (n + 1)).filter (fun p => Bitmap.bit l.bits (i + p) = true)).card =
        (if Bitmap.bit l.bits i = true then 1 else 0) +
        ((Finset.range n).filter (fun p => Bitmap.bit l.bits (i + 1 + p) = true)).card := by
      rw [Finset.card_filter, Finset.card_filter, Finset.sum_range_succ']
      simp only [Nat.add_zero]
      rw [Nat.add_comm]
      congr 1
      apply Finset.sum_congr rfl
      intro p _
      rw [show i + (p + 1) = i + 1 + p by omega]
    rw [this, ← ih]
    by_cases hb : Bitmap.bit l.bits i = true
    · rw [if_pos hb, if_pos hb, List.length_cons]; omega
    · rw [if_neg hb, if_neg hb]; omega

theorem abs_length (l : FLeaf M K V) : l.abs.length = (BitmapSpec.members l.bits).card := by
  rw [(abs_perm l).length_eq, ents, length_entsFrom]
  congr 1
  ext p
  rw [Finset.mem_filter, Bitmap.mem_members, Finset.mem_range, Nat.zero_add]

theorem FOk.count {l : FLeaf M K V} (h : FOk hash adm l) : l.bits.count = l.abs.length := by
  rw [abs_length, Bitmap.count_eq_card h.clean]

theorem abs_cap (l : FLeaf M K V) : l.abs.length ≤ M := by
  rw [abs_length]
  have : BitmapSpec.members l.bits ⊆ Finset.range M := fun p hp =>
    Finset.mem_range.2 (Bitmap.mem_members.1 hp).1
  simpa using Finset.card_le_card this

/-! ## Point updates of the bitmap -/

theorem set_bit' {b : Bitmap M} {p : Nat} (hp : p < M) (v : Bool) :
    ∃ b', b.set p v = .ok b' ∧ (∀ q, q < M → Bitmap.bit b' q = if q = p then v else Bitmap.bit b q) ∧
      (Bitmap.Clean b → Bitmap.Clean b') := by
  obtain ⟨b', e⟩ := (Bitmap.set_ok b p v).1 hp
  refine ⟨b', e, fun q hq => ?_, fun hc => Bitmap.clean_set hc e⟩
  have := Bitmap.test_set b b' p v e q hq
  rw [Bitmap.test_eq _ hq] at this
  exact Res.ok.inj this

theorem fill_ok {l : FLeaf M K V} (h : FOk hash adm l) {p : Nat} (hp : p < M)
    (hb : Bitmap.bit l.bits p = false) {k : K} (hk : ∀ e ∈ l.abs, e.1 ≠ k) (ha : adm k) (v : V) :
    ∃ l', l.fill p (hash k) k v = .ok l' ∧ FOk hash adm l' ∧ l'.abs.Perm ((k, v) :: l.abs) ∧
      l'.keys = upd l.keys p k ∧
      (∀ q, q < M → Bitmap.bit l'.bits q = if q = p then true else Bitmap.bit l.bits q) := by
  obtain ⟨b', e, hbits, hcl⟩ := set_bit' (b := l.bits) hp true
  unfold FLeaf.fill
  rw [e, Res.ok_bind]
  have hval : ∀ i, i < M → i ≠ p → (Bitmap.bit b' i = true ↔ Bitmap.bit l.bits i = true) := by
    intro i hi hne; rw [hbits i hi, if_neg hne]
  have hok : FOk hash adm (⟨b', upd l.fp p (hash k), upd l.keys p k, upd l.vals p v⟩ : FLeaf M K V) := by
    refine ⟨hcl h.clean, ?_, ?_, ?_⟩
    · intro i j hi hj h1 h2 h3
      simp only [upd] at h1 h2 h3
      by_cases hip : i = p
      · by_cases hjp : j = p
        · omega
        · rw [if_pos hip, if_neg hjp] at h3
          exact absurd h3.symm (hk (l.keys j, l.vals j) (mem_abs.2 ⟨j, hj, (hval j hj hjp).1 h2, rfl⟩))
      · by_cases hjp : j = p
        · rw [if_neg hip, if_pos hjp] at h3
          exact absurd h3 (hk (l.keys i, l.vals i) (mem_abs.2 ⟨i, hi, (hval i hi hip).1 h1, rfl⟩))
        · rw [if_neg hip, if_neg hjp] at h3
          exact h.inj i j hi hj ((hval i hi hip).1 h1) ((hval j hj hjp).1 h2) h3
    · intro i hi h1
      simp only [upd] at h1 ⊢
      by_cases hip : i = p
      · rw [if_pos hip, if_pos hip]
      · rw [if_neg hip, if_neg hip]; exact h.fp i hi ((hval i hi hip).1 h1)
    · intro i hi h1
      simp only [upd] at h1 ⊢
      by_cases hip : i = p
      · rw [if_pos hip]; exact ha
      · rw [if_neg hip]; exact h.adm i hi ((hval i hi hip).1 h1)
  refine ⟨_, rfl, hok, ?_, rfl, hbits⟩
  have hn1 : (FLeaf.abs (⟨b', upd l.fp p (hash k), upd l.keys p k, upd l.vals p v⟩ : FLeaf M K V)).Nodup :=
    hok.sorted.imp (fun h e => by rw [e] at h; exact absurd h (lt_irrefl _))
  have hn2 : ((k, v) :: l.abs).Nodup := by
    rw [List.nodup_cons]
    exact ⟨fun hm => hk _ hm rfl, h.sorted.imp (fun h e => by rw [e] at h; exact absurd h (lt_irrefl _))⟩
  rw [List.perm_ext_iff_of_nodup hn1 hn2]
  intro e
  rw [mem_abs, List.mem_cons, mem_abs]
  simp only [upd]
  constructor
  · rintro ⟨q, hq, h1, h2⟩
    by_cases hqp : q = p
    · rw [if_pos hqp, if_pos hqp] at h2; exact Or.inl h2
    · rw [if_neg hqp, if_neg hqp] at h2; exact Or.inr ⟨q, hq, (hval q hq hqp).1 h1, h2⟩
  · rintro (h1 | ⟨q, hq, h1, h2⟩)
    · exact ⟨p, hp, by rw [hbits p hp, if_pos rfl], by rw [if_pos rfl, if_pos rfl]; exact h1⟩
    · have hqp : q ≠ p := by rintro rfl; rw [hb] at h1; exact absurd h1 (by decide)
      exact ⟨q, hq, (hval q hq hqp).2 h1, by rw [if_neg hqp, if_neg hqp]; exact h2⟩

theorem reset_ok {l : FLeaf M K V} (h : FOk hash adm l) {p : Nat} (hp : p < M)
    (hb : Bitmap.bit l.bits p = true) :
    ∃ b', l.bits.reset p = .ok b' ∧ FOk hash adm ({ l with bits := b' } : FLeaf M K V) ∧
      l.abs.Perm ((l.keys p, l.vals p) :: FLeaf.abs ({ l with bits := b' } : FLeaf M K V)) ∧
      (∀ q, q < M → Bitmap.bit b' q = if q = p then false else Bitmap.bit l.bits q) := by
  obtain ⟨b', e, hbits, hcl⟩ := set_bit' (b := l.bits) hp false
  rw [Bitmap.reset_eq_set]
  have hval : ∀ i, i < M → Bitmap.bit b' i = true → Bitmap.bit l.bits i = true ∧ i ≠ p := by
    intro i hi hb'
    rw [hbits i hi] at hb'
    by_cases hip : i = p
    · rw [if_pos hip] at hb'; exact absurd hb' (by decide)
    · rw [if_neg hip] at hb'; exact ⟨hb', hip⟩
  have hok : FOk hash adm ({ l with bits := b' } : FLeaf M K V) :=
    ⟨hcl h.clean, fun i j hi hj h1 h2 => h.inj i j hi hj (hval i hi h1).1 (hval j hj h2).1,
      fun i hi h1 => h.fp i hi (hval i hi h1).1, fun i hi h1 => h.adm i hi (hval i hi h1).1⟩
  refine ⟨b', e, hok, ?_, hbits⟩
  have hn1 : l.abs.Nodup := h.sorted.imp (fun h e => by rw [e] at h; exact absurd h (lt_irrefl _))
  have hn2 : ((l.keys p, l.vals p) :: FLeaf.abs ({ l with bits := b' } : FLeaf M K V)).Nodup := by
    rw [List.nodup_cons]
    refine ⟨fun hm => ?_, hok.sorted.imp (fun h e => by rw [e] at h; exact absurd h (lt_irrefl _))⟩
    obtain ⟨q, hq, h1, h2⟩ := mem_abs.1 hm
    have := hval q hq h1
    exact this.2 (h.inj p q hp hq hb this.1 (congrArg Prod.fst h2)).symm
  rw [List.perm_ext_iff_of_nodup hn1 hn2]
  intro e
  rw [List.mem_cons, mem_abs, mem_abs]
  constructor
  · rintro ⟨q, hq, h1, h2⟩
    by_cases hqp : q = p
    · subst hqp; exact Or.inl h2
    · exact Or.inr ⟨q, hq, by rw [show Bitmap.bit b' q = _ from hbits q hq, if_neg hqp]; exact h1, h2⟩
  · rintro (h1 | ⟨q, hq, h1, h2⟩)
    · exact ⟨p, hp, hb, h1⟩
    · exact ⟨q, hq, (hval q hq h1).1, h2⟩

/-- The free slot of a leaf that is not full. -/
theorem free_slot {l : FLeaf M K V} (h : l.abs.length < M) :
    l.bits.getFreeZero < M ∧ Bitmap.bit l.bits l.bits.getFreeZero = false := by
  rcases Bitmap.getFreeZero_spec l.bits with ⟨h1, h2, _⟩ | ⟨_, h2⟩
  · exact ⟨h1, h2⟩
  · exfalso
    rw [abs_length] at h
    have : BitmapSpec.members l.bits = Finset.range M := by
      ext p; rw [Bitmap.mem_members, Finset.mem_range]
      exact ⟨fun h => h.1, fun hp => ⟨hp, h2 p hp⟩⟩
    rw [this, Finset.card_range] at h
    exact absurd h (lt_irrefl _)

theorem full_of_length {l : FLeaf M K V} (h : M ≤ l.abs.length) :
    ∀ p, p < M → Bitmap.bit l.bits p = true := by
  rw [abs_length] at h
  have hs : BitmapSpec.members l.bits ⊆ Finset.range M := fun p hp =>
    Finset.mem_range.2 (Bitmap.mem_members.1 hp).1
  have := Finset.eq_of_subset_of_card_le hs (by simpa using h)
  intro p hp
  have hm : p ∈ BitmapSpec.members l.bits := by rw [this]; simpa using hp
  exact (Bitmap.mem_members.1 hm).2

/-- A full leaf has no free slot. -/
theorem free_full {b : Bitmap M} (hc : Bitmap.Clean b) (h : ∀ p, p < M → Bitmap.bit b p = true) :
    b.getFreeZero = M := by
  rcases Bitmap.scanWords_spec (fun i => ~~~ (b.words i)) (Bitmap.numWords M) (Bitmap.numWords M)
    (Nat.le_refl _) with ⟨e, hz⟩ | ⟨i, k, h1, h2, h3, ⟨hk, l1, l2⟩, h5⟩
  · -- every word is full
    unfold Bitmap.getFreeZero
    rw [e]
    by_contra hne
    have hle := Bitmap.numWords_ge (NB := M)
    have hlt : M < 64 * Bitmap.numWords M := by omega
    have hwd : M / 64 < Bitmap.numWords M := by omega
    have h1 := hz (M / 64) (by omega) hwd
    have h2 := hc (M / 64) (M % 64) hwd (Nat.mod_lt _ (by decide)) (by omega)
    have h3 : (~~~ (b.words (M / 64))).getLsbD (M % 64) = true := by
      rw [BitVec.getLsbD_not, h2]; simp; omega
    rw [h1] at h3
    simp at h3
  · unfold Bitmap.getFreeZero
    rw [h3]
    have hbit : Bitmap.bit b (64 * i + k) = false := by
      rw [Bitmap.bit_split b i k hk]
      rw [BitVec.getLsbD_not] at l1
      simpa [hk] using l1
    have hge : M ≤ 64 * i + k := by
      by_contra hlt
      rw [h _ (by omega)] at hbit
      exact absurd hbit (by decide)
    by_contra hne
    have hM : M / 64 ≤ i := by omega
    have hcM : M / 64 < Bitmap.numWords M := by omega
    have hz := hc (M / 64) (M % 64) hcM (Nat.mod_lt _ (by decide)) (by omega)
    by_cases hi : M / 64 = i
    · -- same word, lower bit
      have : M % 64 < k := by omega
      have := l2 (M % 64) this
      rw [BitVec.getLsbD_not, ← hi, hz] at this
      simp at this; omega
    · have := h5 (M / 64) (by omega) (by omega)
      have h4 : (~~~ (b.words (M / 64))).getLsbD (M % 64) = true := by
        rw [BitVec.getLsbD_not, hz]; simp; omega
      rw [this] at h4
      simp at h4

end Verif.FPTree
