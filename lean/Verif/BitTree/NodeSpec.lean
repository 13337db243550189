import Verif.BitTree.Deep
import Verif.BitTree.UnderflowProps

/-!
# Branch nodes as sets of separators with children

The slots of a branch node are unordered.  `Spec` describes a node by the set of its pairs (key, child left of the key)
and its rightmost child; merging two neighbours and splitting at a key are then statements about sets.
-/

set_option linter.unusedSectionVars false

namespace Verif.BitTree

open Verif Search FPTree BTree

variable {K V : Type} {M N : Nat} {C : Type} [LinearOrder K] [Inhabited K]

/-- The slots of a branch node below `N` as a leaf: the children are the values. -/
def Branch.asLeaf (b : Branch N K C) : Leaf N K (Option C) := ⟨b.bits, b.keys, b.kids⟩

/-- The pairs of a branch node. -/
def Sep (b : Branch N K C) (k : K) (x : C) : Prop := Has b.asLeaf k (some x)

/-- A node with the pairs `S` and the rightmost child `l` is right for the keys in `R`. -/
structure Spec (P : C → (K → Prop) → Prop) (F : C → Set Nat) (S : K → C → Prop) (l : C) (R : K → Prop) : Prop where
  fn : ∀ k x y, S k x → S k y → x = y
  sep : ∀ k x, S k x → R k ∧ ∃ k0, R k0 ∧ k0 < k
  kid : ∀ k x, S k x → P x (fun a => R a ∧ a < k ∧ ∀ q y, S q y → q < k → q ≤ a)
  last : P l (fun a => R a ∧ ∀ q y, S q y → q ≤ a)
  disj : ∀ k x q y, S k x → S q y → k ≠ q → Disjoint (F x) (F y)
  disjL : ∀ k x, S k x → Disjoint (F x) (F l)

variable {P : C → (K → Prop) → Prop} {F : C → Set Nat} {S T : K → C → Prop} {l : C} {R Q : K → Prop}

theorem Spec.congr (hP : ∀ x R R', (∀ k, R k → R' k) → P x R → P x R') (h : Spec P F S l R) (hS : ∀ k x, T k x ↔ S k x)
    (hR : ∀ k, Q k ↔ R k) : Spec P F T l Q := by
  obtain rfl : T = S := by funext k x; exact propext (hS k x)
  obtain rfl : Q = R := by funext k; exact propext (hR k)
  exact h

/-- Two neighbours and the key between them make one node. -/
theorem merge_spec (hP : ∀ x R R', (∀ k, R k → R' k) → P x R → P x R') {S1 S2 : K → C → Prop} {l1 l2 : C} {s : K} (hs : Q s)
    (hk : ∃ k, Q k ∧ k < s) (h1 : Spec P F S1 l1 (fun a => Q a ∧ a < s)) (h2 : Spec P F S2 l2 (fun a => Q a ∧ s ≤ a))
    (hd : ∀ x y, ((∃ k, S1 k x) ∨ x = l1) → ((∃ k, S2 k y) ∨ y = l2) → Disjoint (F x) (F y)) :
    Spec P F (fun k x => S1 k x ∨ (k = s ∧ x = l1) ∨ S2 k x) l2 Q := by
  have lt1 : ∀ k x, S1 k x → k < s := fun k x h => (h1.sep k x h).1.2
  have lt2 : ∀ k x, S2 k x → s < k := fun k x h => by
    obtain ⟨_, k0, hk0, hlt⟩ := h2.sep k x h
    exact lt_of_le_of_lt hk0.2 hlt
  refine ⟨?_, ?_, ?_, ?_, ?_, ?_⟩
  · rintro k x y (h | ⟨h, hx⟩ | h) (g | ⟨g, hy⟩ | g)
    · exact h1.fn k x y h g
    · exact absurd (lt1 k x h) (by rw [g]; exact lt_irrefl _)
    · exact absurd (lt_trans (lt1 k x h) (lt2 k y g)) (lt_irrefl _)
    · exact absurd (lt1 k y g) (by rw [h]; exact lt_irrefl _)
    · rw [hx, hy]
    · exact absurd (lt2 k y g) (by rw [h]; exact lt_irrefl _)
    · exact absurd (lt_trans (lt1 k y g) (lt2 k x h)) (lt_irrefl _)
    · exact absurd (lt2 k x h) (by rw [g]; exact lt_irrefl _)
    · exact h2.fn k x y h g
  · rintro k x (h | ⟨rfl, _⟩ | h)
    · obtain ⟨a, k0, b, e⟩ := h1.sep k x h
      exact ⟨a.1, k0, b.1, e⟩
    · exact ⟨hs, hk⟩
    · obtain ⟨a, k0, b, e⟩ := h2.sep k x h
      exact ⟨a.1, k0, b.1, e⟩
  · rintro k x (h | ⟨rfl, rfl⟩ | h)
    · refine hP _ _ _ (fun a ha => ⟨ha.1.1, ha.2.1, ?_⟩) (h1.kid k x h)
      rintro q y (g | ⟨g, _⟩ | g) hlt
      · exact ha.2.2 q y g hlt
      · exact absurd (lt1 k x h) (not_lt.2 (g ▸ hlt.le))
      · exact absurd (lt_trans (lt1 k x h) (lt_trans (lt2 q y g) hlt)) (lt_irrefl _)
    · refine hP _ _ _ (fun a ha => ⟨ha.1.1, ha.1.2, ?_⟩) h1.last
      rintro q y (g | ⟨g, _⟩ | g) hlt
      · exact ha.2 q y g
      · exact absurd hlt (by rw [g]; exact lt_irrefl _)
      · exact absurd (lt_trans (lt2 q y g) hlt) (lt_irrefl _)
    · refine hP _ _ _ (fun a ha => ⟨ha.1.1, ha.2.1, ?_⟩) (h2.kid k x h)
      rintro q y (g | ⟨g, _⟩ | g) hlt
      · exact le_trans (lt1 q y g).le ha.1.2
      · rw [g]; exact ha.1.2
      · exact ha.2.2 q y g hlt
  · refine hP _ _ _ (fun a ha => ⟨ha.1.1, ?_⟩) h2.last
    rintro q y (g | ⟨g, _⟩ | g)
    · exact le_trans (lt1 q y g).le ha.1.2
    · rw [g]; exact ha.1.2
    · exact ha.2 q y g
  · rintro k x q y (h | ⟨h, rfl⟩ | h) (g | ⟨g, rfl⟩ | g) hne
    · exact h1.disj k x q y h g hne
    · exact h1.disjL k x h
    · exact hd x y (Or.inl ⟨k, h⟩) (Or.inl ⟨q, g⟩)
    · exact (h1.disjL q y g).symm
    · exact absurd (h.trans g.symm) hne
    · exact hd _ y (Or.inr rfl) (Or.inl ⟨q, g⟩)
    · exact (hd y x (Or.inl ⟨q, g⟩) (Or.inl ⟨k, h⟩)).symm
    · exact (hd _ x (Or.inr rfl) (Or.inl ⟨k, h⟩)).symm
    · exact h2.disj k x q y h g hne
  · rintro k x (h | ⟨h, rfl⟩ | h)
    · exact hd x l2 (Or.inl ⟨k, h⟩) (Or.inr rfl)
    · exact hd _ l2 (Or.inr rfl) (Or.inr rfl)
    · exact h2.disjL k x h

/-- A node cut at one of its keys. -/
theorem split_spec (hP : ∀ x R R', (∀ k, R k → R' k) → P x R → P x R') (h : Spec P F S l Q) {m : K} {x : C} (hm : S m x) :
    Spec P F (fun k y => S k y ∧ k < m) x (fun a => Q a ∧ a < m) ∧ Spec P F (fun k y => S k y ∧ m < k) l (fun a => Q a ∧ m ≤ a) := by
  refine ⟨⟨?_, ?_, ?_, ?_, ?_, ?_⟩, ⟨?_, ?_, ?_, ?_, ?_, ?_⟩⟩
  · exact fun k x y h1 h2 => h.fn k x y h1.1 h2.1
  · rintro k y ⟨h1, h2⟩
    obtain ⟨a, k0, b, e⟩ := h.sep k y h1
    exact ⟨⟨a, h2⟩, k0, ⟨b, lt_trans e h2⟩, e⟩
  · rintro k y ⟨h1, h2⟩
    refine hP _ _ _ (fun a ha => ⟨⟨ha.1, lt_trans ha.2.1 h2⟩, ha.2.1, fun q z g hlt => ha.2.2 q z g.1 hlt⟩) (h.kid k y h1)
  · exact hP _ _ _ (fun a ha => ⟨⟨ha.1, ha.2.1⟩, fun q z g => ha.2.2 q z g.1 g.2⟩) (h.kid m x hm)
  · exact fun k y q z h1 h2 hne => h.disj k y q z h1.1 h2.1 hne
  · exact fun k y h1 => h.disj k y m x h1.1 hm (ne_of_lt h1.2)
  · exact fun k x y h1 h2 => h.fn k x y h1.1 h2.1
  · rintro k y ⟨h1, h2⟩
    exact ⟨⟨(h.sep k y h1).1, h2.le⟩, m, ⟨(h.sep m x hm).1, le_rfl⟩, h2⟩
  · rintro k y ⟨h1, h2⟩
    exact hP _ _ _ (fun a ha => ⟨⟨ha.1, ha.2.2 m x hm h2⟩, ha.2.1, fun q z g hlt => ha.2.2 q z g.1 hlt⟩) (h.kid k y h1)
  · exact hP _ _ _ (fun a ha => ⟨⟨ha.1, ha.2 m x hm⟩, fun q z g => ha.2 q z g.1⟩) h.last
  · exact fun k y q z h1 h2 hne => h.disj k y q z h1.1 h2.1 hne
  · exact fun k y h1 => h.disjL k y h1.1

/-- The slots below `N` that are in use have children. -/
def SlotFilled (b : Branch N K C) : Prop := ∀ k o, Has b.asLeaf k o → ∃ x, o = some x

theorem kid_iff {b : Branch N K C} {x : C} : Kid b x ↔ (∃ k, Sep b k x) ∨ b.kids N = some x := by
  constructor
  · rintro ⟨p, ⟨hp, hb⟩ | hp, hx⟩
    · exact Or.inl ⟨b.keys p, p, hp, hb, rfl, hx⟩
    · subst hp; exact Or.inr hx
  · rintro (⟨k, p, hp, hb, _, hx⟩ | hx)
    · exact ⟨p, Or.inl ⟨hp, hb⟩, hx⟩
    · exact ⟨N, Or.inr rfl, hx⟩

theorem bok_iff (hP : ∀ x R R', (∀ k, R k → R' k) → P x R → P x R') {b : Branch N K C} :
    BOk P F b R ↔ LOk b.asLeaf ∧ SlotFilled b ∧ ∃ l, b.kids N = some l ∧ Spec P F (Sep b) l R := by
  constructor
  · intro h
    have fill : SlotFilled b := by
      rintro k o ⟨p, hp, hb, _, rfl⟩
      obtain ⟨x, hx, _⟩ := h.kid p (Or.inl ⟨hp, hb⟩)
      exact ⟨x, hx⟩
    obtain ⟨l, hl, hPl⟩ := h.kid N (Or.inr rfl)
    refine ⟨⟨h.clean, h.inj⟩, fill, l, hl, ?_, ?_, ?_, ?_, ?_, ?_⟩
    · intro k x y h1 h2
      exact Option.some.inj (Has.uniq ⟨h.clean, h.inj⟩ h1 h2)
    · rintro k x ⟨p, hp, hb, rfl, _⟩
      exact h.sep p hp hb
    · rintro k x ⟨p, hp, hb, rfl, hx⟩
      obtain ⟨x', hx', hPx⟩ := h.kid p (Or.inl ⟨hp, hb⟩)
      obtain rfl : x' = x := Option.some.inj (hx'.symm.trans hx)
      refine hP _ _ _ (fun a ha => ⟨ha.1, ha.2.1 hp, ?_⟩) hPx
      rintro q y ⟨p', hp', hb', rfl, _⟩ hlt
      exact ha.2.2 p' hp' hb' fun _ => hlt
    · refine hP _ _ _ (fun a ha => ⟨ha.1, ?_⟩) hPl
      rintro q y ⟨p', hp', hb', rfl, _⟩
      exact ha.2.2 p' hp' hb' fun h => absurd h (lt_irrefl _)
    · rintro k x q y ⟨p, hp, hb, rfl, hx⟩ ⟨p', hp', hb', rfl, hy⟩ hne
      exact h.disj p p' x y (Or.inl ⟨hp, hb⟩) (Or.inl ⟨hp', hb'⟩) (by rintro rfl; exact hne rfl) hx hy
    · rintro k x ⟨p, hp, hb, rfl, hx⟩
      exact h.disj p N x l (Or.inl ⟨hp, hb⟩) (Or.inr rfl) (by omega) hx hl
  · rintro ⟨hlok, fill, l, hl, h⟩
    have sepOf : ∀ p, p < N → Bitmap.bit b.bits p = true → ∃ x, b.kids p = some x ∧ Sep b (b.keys p) x := by
      intro p hp hb
      obtain ⟨x, hx⟩ := fill (b.keys p) (b.kids p) ⟨p, hp, hb, rfl, rfl⟩
      exact ⟨x, hx, p, hp, hb, rfl, hx⟩
    refine ⟨hlok.clean, hlok.inj, ?_, ?_, ?_⟩
    · intro p hp hb
      obtain ⟨x, _, hx⟩ := sepOf p hp hb
      exact h.sep _ x hx
    · rintro p (⟨hp, hb⟩ | rfl)
      · obtain ⟨x, hx, hs⟩ := sepOf p hp hb
        refine ⟨x, hx, hP _ _ _ (fun a ha => ⟨ha.1, fun _ => ha.2.1, fun q hq hbq hlt => ?_⟩) (h.kid _ x hs)⟩
        obtain ⟨y, _, hy⟩ := sepOf q hq hbq
        exact ha.2.2 _ y hy (hlt hp)
      · refine ⟨l, hl, hP _ _ _ (fun a ha => ⟨ha.1, fun h => absurd h (lt_irrefl _), fun q hq hbq _ => ?_⟩) h.last⟩
        obtain ⟨y, _, hy⟩ := sepOf q hq hbq
        exact ha.2 _ y hy
    · rintro p q x y (⟨hp, hb⟩ | rfl) (⟨hq, hb'⟩ | rfl) hne hx hy
      · exact h.disj (b.keys p) x (b.keys q) y ⟨p, hp, hb, rfl, hx⟩ ⟨q, hq, hb', rfl, hy⟩ fun he =>
          hne (hlok.inj p q hp hq hb hb' he)
      · obtain rfl : l = y := Option.some.inj (hl.symm.trans hy)
        exact h.disjL (b.keys p) x ⟨p, hp, hb, rfl, hx⟩
      · obtain rfl : l = x := Option.some.inj (hl.symm.trans hx)
        exact (h.disjL (b.keys q) y ⟨q, hq, hb', rfl, hy⟩).symm
      · exact absurd rfl hne

end Verif.BitTree
