import Verif.BitTree.Tree

/-!
# The tree object and its histories
-/

set_option linter.unusedSectionVars false

namespace Verif.BitTree

open Verif Search FPTree BTree

variable {K V : Type} {M : Nat} [LinearOrder K] [Inhabited K] {c : Cfg K V} {adm : K → Prop}

/-- A correct tree. -/
structure TOk (adm : K → Prop) (t : Store c M) : Prop where
  ok : Ok t.heap t.depth t.root adm
  link : LinkOk t.heap

/-- The entries of a tree. -/
def Store.Has (t : Store c M) (k : K) (v : V) : Prop := hasT t.heap t.depth t.root k v

theorem tok_empty (c : Cfg K V) (M : Nat) : TOk adm (Store.empty c M) := by
  refine ⟨⟨⟨Leaf.new c M, none, none⟩, rfl, lok_new c, fun k v h => absurd h (has_new c k v)⟩, ?_⟩
  intro i x hx n hn
  match i, hx with
  | 0, hx => cases hx; cases hn

theorem has_empty (k : K) (v : V) : ¬ (Store.empty c M).Has k v := by
  rintro ⟨x, h1, h2⟩
  have : x = ⟨Leaf.new c M, none, none⟩ := (Option.some.inj h1).symm
  subst this
  exact has_new c k v h2

/-- An insertion, and the leaves of the tree after it: those it had and new ones. -/
theorem store_insert_full (F : Laws c adm) (hM : 2 ≤ M) (hm : c.move = false → M % 64 ≠ 0) (hN : 2 ≤ c.N) (hN64 : c.N % 64 ≠ 0)
    {t : Store c M} (ht : TOk adm t) {k : K} (hk : adm k) (v : V) :
    ∃ t', t.insert k v = .ok t' ∧ (TOk adm t' ∧ ∀ x y, t'.Has x y ↔ Ups t.Has k v x y) ∧ t.heap.length ≤ t'.heap.length ∧
      ∀ i ∈ fp t'.depth t'.root, i ∈ fp t.depth t.root ∨ t.heap.length ≤ i := by
  obtain ⟨h', r', sp, e, g1, g2, g3, g4, g5⟩ := ins_law F hM hm hN hN64 t.depth t.heap t.root adm k v ht.link
    (fun _ h => h) ht.ok hk
  unfold Store.insert
  rw [e, Res.ok_bind]
  match sp, g5 with
  | none, ⟨g5, g6⟩ => exact ⟨_, rfl, ⟨⟨g5, g1⟩, g6⟩, g2, g4⟩
  | some (s, right), ⟨g5, ⟨k0, g6, g6'⟩, g7, g8, g9, g10, g11⟩ =>
    simp only
    have h0 : 0 < c.N := by omega
    obtain ⟨b', eb, hbits, hcl⟩ := set_bit' (b := Bitmap.fresh c.N) h0 true
    rw [eb, Res.ok_bind]
    set b1 : Branch c.N K (Tree c.N K t.depth) := ⟨b', upd (fun _ => default) 0 s,
      upd (upd (fun _ => none) 0 (some r')) c.N (some right)⟩ with hb1
    have hbit : ∀ q, q < c.N → (Bitmap.bit b1.bits q = true ↔ q = 0) := by
      intro q hq
      rw [hb1]; simp only
      rw [hbits q hq, bit_fresh]
      by_cases e : q = 0 <;> simp [e]
    have hlive : ∀ q, live b1 q ↔ q = 0 ∨ q = c.N := by
      intro q
      unfold live
      constructor
      · rintro (⟨h1, h2⟩ | h1)
        · exact Or.inl ((hbit q h1).1 h2)
        · exact Or.inr h1
      · rintro (rfl | h1)
        · exact Or.inl ⟨h0, (hbit 0 h0).2 rfl⟩
        · exact Or.inr h1
    have k0' : b1.keys 0 = s := by rw [hb1]; simp [upd]
    have c0 : b1.kids 0 = some r' := by rw [hb1]; simp [upd, show (0 : Nat) ≠ c.N by omega]
    have cN : b1.kids c.N = some right := by rw [hb1]; simp [upd]
    have rg0 : ∀ x, adm x ∧ x < s → rng b1 adm 0 x := by
      rintro x ⟨h1, h2⟩
      refine ⟨h1, fun _ => by rw [k0']; exact h2, fun q hq hb hlt => ?_⟩
      rw [(hbit q hq).1 hb] at hlt
      exact absurd (hlt h0) (lt_irrefl _)
    have rgN : ∀ x, adm x ∧ s ≤ x → rng b1 adm c.N x := by
      rintro x ⟨h1, h2⟩
      refine ⟨h1, fun h' => absurd h' (lt_irrefl _), fun q hq hb hlt => ?_⟩
      rw [(hbit q hq).1 hb, k0']; exact h2
    refine ⟨_, rfl, ⟨⟨?_, g1⟩, ?_⟩, g2, ?_⟩
    · refine (⟨hcl Bitmap.clean_fresh, ?_, ?_, ?_, ?_⟩ : BOk (Ok h' t.depth) (fp t.depth) b1 adm)
      · intro i j hi hj hbi hbj _
        rw [(hbit i hi).1 hbi, (hbit j hj).1 hbj]
      · intro p hp hb
        rw [(hbit p hp).1 hb, k0']
        exact ⟨g5, k0, g6, g6'⟩
      · intro p hp
        rcases (hlive p).1 hp with rfl | rfl
        · exact ⟨r', c0, ok_mono _ _ _ _ rg0 g7⟩
        · exact ⟨right, cN, ok_mono _ _ _ _ rgN g8⟩
      · intro p q x y hp hq hne hx hy
        rcases (hlive p).1 hp with rfl | rfl <;> rcases (hlive q).1 hq with rfl | rfl
        · exact absurd rfl hne
        · rw [c0] at hx; rw [cN] at hy; cases hx; cases hy; exact g10
        · rw [cN] at hx; rw [c0] at hy; cases hx; cases hy; exact g10.symm
        · exact absurd rfl hne
    · intro x y
      rw [show Ups t.Has k v x y ↔ _ from (g11 x y).symm]
      show (∃ z, Kid b1 z ∧ hasT h' t.depth z x y) ↔ _
      constructor
      · rintro ⟨z, ⟨q, hq, hz⟩, hw⟩
        rcases (hlive q).1 hq with rfl | rfl
        · rw [c0] at hz; cases hz; exact Or.inl hw
        · rw [cN] at hz; cases hz; exact Or.inr hw
      · rintro (hw | hw)
        · exact ⟨r', ⟨0, (hlive 0).2 (Or.inl rfl), c0⟩, hw⟩
        · exact ⟨right, ⟨c.N, (hlive c.N).2 (Or.inr rfl), cN⟩, hw⟩
    · rintro i ⟨z, ⟨q, hq, hz⟩, hi⟩
      rcases (hlive q).1 hq with rfl | rfl
      · have hz : b1.kids 0 = some z := hz
        rw [c0] at hz; cases hz; exact g4 i hi
      · have hz : b1.kids c.N = some z := hz
        rw [cN] at hz; cases hz; exact g9 i hi

theorem store_insert_law (F : Laws c adm) (hM : 2 ≤ M) (hm : c.move = false → M % 64 ≠ 0) (hN : 2 ≤ c.N) (hN64 : c.N % 64 ≠ 0)
    {t : Store c M} (ht : TOk adm t) {k : K} (hk : adm k) (v : V) :
    ∃ t', t.insert k v = .ok t' ∧ TOk adm t' ∧ ∀ x y, t'.Has x y ↔ Ups t.Has k v x y := by
  obtain ⟨t', e, g, _⟩ := store_insert_full F hM hm hN hN64 ht hk v
  exact ⟨t', e, g⟩

theorem store_lookup_law (F : Laws c adm) {t : Store c M} (ht : TOk adm t) {k : K} (hk : adm k) :
    ∃ r, t.lookup k = .ok r ∧ ∀ v, r = some v ↔ t.Has k v := by
  obtain ⟨id, x, e1, e2, e3, e4⟩ := findLeaf_law F t.depth t.root adm k (fun _ h => h) ht.ok hk
  obtain ⟨r, e5, e6⟩ := lookup_law e3 k
  refine ⟨r, ?_, fun v => (e6 v).trans (e4 v)⟩
  unfold Store.lookup
  rw [e1, Res.ok_bind, e2, Res.ofOption_some, Res.ok_bind, e5]

/-- A sequence of inserts. -/
def insertAll : List (K × V) → Store c M → Res (Store c M)
  | [], t => .ok t
  | x :: xs, t => t.insert x.1 x.2 >>= insertAll xs

theorem insertAll_law (F : Laws c adm) (hM : 2 ≤ M) (hm : c.move = false → M % 64 ≠ 0) (hN : 2 ≤ c.N) (hN64 : c.N % 64 ≠ 0) :
    ∀ (xs : List (K × V)) (t : Store c M), TOk adm t → (∀ x ∈ xs, adm x.1) →
    ∃ t', insertAll xs t = .ok t' ∧ TOk adm t' ∧
      ∀ k v, t'.Has k v ↔ xs.foldl (fun (P : V → Prop) x => if x.1 = k then (fun w => w = x.2) else P) (fun w => t.Has k w) v
  | [], t, ht, _ => ⟨t, rfl, ht, fun _ _ => Iff.rfl⟩
  | x :: xs, t, ht, hx => by
    obtain ⟨t1, e1, h1, h2⟩ := store_insert_law F hM hm hN hN64 ht (hx x (by simp)) x.2
    obtain ⟨t2, e2, h3, h4⟩ := insertAll_law F hM hm hN hN64 xs t1 h1 (fun y hy => hx y (by simp [hy]))
    refine ⟨t2, by rw [insertAll, e1, Res.ok_bind, e2], h3, fun k v => ?_⟩
    rw [h4, List.foldl_cons]
    have : (fun w => t1.Has k w) = if x.1 = k then (fun w => w = x.2) else fun w => t.Has k w := by
      funext w
      apply propext
      rw [h2]
      unfold Ups
      by_cases e : x.1 = k
      · rw [if_pos e]; simp [e]
      · rw [if_neg e]; simp [Ne.symm e]
    rw [this]

end Verif.BitTree
