import Verif.WoSkip.Node
import Verif.SkipList.Inv

/-!
# The invariant of the write-optimised skip list

Level 0 is sorted and the bounds of its nodes are disjoint.  The upper levels need not be sorted: they are lists
of nodes of level 0 without duplicates.
-/

set_option linter.unusedSectionVars false

namespace Verif.WoSkip

open Search FPTree BTree Assoc
open Verif.SkipList (Path getLastD_append_cons getLastD_cons getLastD_mem put put_self put_ne pre post pre_post)

variable {K V : Type} [LinearOrder K] [Inhabited K] {N M : Nat} {c : WCfg K V} {adm : K → Prop}

/-- The forward pointers of one level. -/
def fw (s : WL N K V) (i : Nat) : Nat → Option (Option Nat) := fun a => some (s.fwd a i)

theorem fwdAt_eq {s : WL N K V} {a i : Nat} {n : WNode N K V} (ha : s.dat a = some n) (hi : i < M) :
    fwdAt M s a i = .ok (s.fwd a i) := by
  unfold fwdAt node
  rw [ha, Res.ofOption_some, Res.ok_bind, if_pos hi]
  rfl

/-- The structure of the list; `P` holds for the contents of its nodes, and `ec` nodes have not been counted. -/
structure InvP (P : WNode N K V → Prop) (ec M : Nat) (s : WL N K V) (lst : Nat → List Nat) (D : Nat → WNode N K V) : Prop where
  lvl : s.level < M
  head : ∃ n, s.dat 0 = some n
  nodes : ∀ a ∈ lst 0, s.dat a = some (D a) ∧ P (D a)
  fresh : ∀ a, s.fresh ≤ a → s.dat a = none
  path : ∀ i, i < M → Path (fw s i) 0 (lst i)
  sub : ∀ i, lst (i + 1) ⊆ lst i
  nodup : ∀ i, (lst i).Nodup
  zero : 0 ∉ lst 0
  top : ∀ i, s.level ≤ i → lst i = []
  ne : lst 0 ≠ []
  sorted : (lst 0).Pairwise (fun a b => (D a).max < (D b).min)
  wf : ∀ a ∈ lst 0, ∀ b ∈ lst 0, a ≠ b → (D a).min ≤ (D a).max
  count : s.nodeCount + ec = (lst 0).length

/-- The invariant: the bounds of every node contain its keys. -/
abbrev Inv (adm : K → Prop) (ec M : Nat) (s : WL N K V) (lst : Nat → List Nat) (D : Nat → WNode N K V) : Prop :=
  InvP (NOk adm) ec M s lst D

section
variable {s : WL N K V} {lst : Nat → List Nat} {D : Nat → WNode N K V} {P : WNode N K V → Prop} {ec : Nat}

theorem InvP.sub0 (I : InvP P ec M s lst D) : ∀ i, lst i ⊆ lst 0
  | 0 => fun _ h => h
  | i + 1 => fun _ h => I.sub0 i (I.sub i h)

theorem InvP.lt_fresh (I : InvP P ec M s lst D) {a : Nat} (h : a ∈ lst 0) : a < s.fresh := by
  by_contra hc
  have := (I.nodes a h).1
  rw [I.fresh a (by omega)] at this
  exact absurd this (by simp)

theorem InvP.fresh_pos (I : InvP P ec M s lst D) : 0 < s.fresh := by
  by_contra hc
  obtain ⟨n, hn⟩ := I.head
  rw [I.fresh 0 (by omega)] at hn
  exact absurd hn (by simp)

theorem InvP.len (I : InvP P ec M s lst D) (i : Nat) : (lst i).length < s.fresh := by
  have h1 : (0 :: lst i).Nodup := List.nodup_cons.2 ⟨fun h => I.zero (I.sub0 i h), I.nodup i⟩
  have h2 : (0 :: lst i).Subperm (List.range s.fresh) := by
    apply List.subperm_of_subset h1
    intro x hx
    rw [List.mem_range]
    rcases List.mem_cons.1 hx with rfl | hx
    · exact I.fresh_pos
    · exact I.lt_fresh (I.sub0 i hx)
  have := h2.length_le
  rw [List.length_range, List.length_cons] at this
  omega

/-- Nodes before a node whose keys are smaller than `k` have smaller keys. -/
theorem InvP.before (I : InvP P ec M s lst D) {A B : List Nat} {a : Nat} (e : lst 0 = A ++ a :: B) {k : K}
    (hk : (D a).max < k) : ∀ y ∈ A ++ [a], (D y).max < k := by
  intro y hy
  rcases List.mem_append.1 hy with hy | hy
  · have hs := I.sorted
    rw [e, List.pairwise_append] at hs
    have h1 := hs.2.2 y hy a (by simp)
    have hn := I.nodup 0
    rw [e, List.nodup_append] at hn
    have h2 := I.wf a (by rw [e]; simp) y (by rw [e]; simp [hy]) (fun hc => hn.2.2 y hy a (by simp) hc.symm)
    exact (h1.trans_le h2).trans hk
  · rw [List.mem_singleton] at hy; rw [hy]; exact hk

/-- The position from which the walk on a level starts. -/
def Start (lst : Nat → List Nat) (D : Nat → WNode N K V) (k : K) (i a : Nat) : Prop :=
  a = 0 ∨ a ∈ lst i ∧ (D a).max < k

/-! ## Search -/

theorem walkAt_path {k : K} {i : Nat} (hi : i < M) : ∀ (l : List Nat) (a fuel : Nat),
    Path (fw s i) a l → (∃ n, s.dat a = some n) → (∀ x ∈ l, s.dat x = some (D x)) → l.length < fuel →
    (∃ x A B, l = A ++ x :: B ∧ walkAt M s k i fuel a = .ok (.inl x) ∧ (D x).min ≤ k ∧ k ≤ (D x).max) ∨
    (∃ A B, l = A ++ B ∧ walkAt M s k i fuel a = .ok (.inr (A.getLastD a)) ∧ (∀ y ∈ A, (D y).max < k) ∧
      ∀ y, B.head? = some y → k < (D y).min)
  | [], a, fuel + 1, hp, ⟨n, ha⟩, _, _ => by
    right
    refine ⟨[], [], rfl, ?_, by simp, by simp⟩
    rw [walkAt, fwdAt_eq ha hi, Res.ok_bind, show s.fwd a i = none from Option.some.inj hp]
    rfl
  | x :: l, a, fuel + 1, hp, ⟨n, ha⟩, hn, hf => by
    rw [walkAt, fwdAt_eq ha hi, Res.ok_bind, show s.fwd a i = some x from Option.some.inj hp.1]
    dsimp only
    have hx := hn x (by simp)
    rw [node, hx, Res.ofOption_some, Res.ok_bind]
    by_cases h1 : (D x).max < k
    · rw [if_pos h1]
      rcases walkAt_path hi l x fuel hp.2 ⟨_, hx⟩ (fun y hy => hn y (List.mem_cons_of_mem _ hy))
        (by simpa using hf) with ⟨y, A, B, e, h2, h3⟩ | ⟨A, B, e, h2, h3, h4⟩
      · exact Or.inl ⟨y, x :: A, B, by rw [e]; rfl, h2, h3⟩
      · refine Or.inr ⟨x :: A, B, by rw [e]; rfl, by rw [getLastD_cons]; exact h2, ?_, h4⟩
        intro y hy
        rcases List.mem_cons.1 hy with rfl | hy
        · exact h1
        · exact h3 y hy
    · rw [if_neg h1]
      by_cases h2 : k < (D x).min
      · rw [if_pos h2]
        refine Or.inr ⟨[], x :: l, rfl, rfl, by simp, ?_⟩
        intro y hy
        rw [← Option.some.inj hy]; exact h2
      · rw [if_neg h2]
        exact Or.inl ⟨x, [], l, rfl, rfl, not_lt.1 h2, not_lt.1 h1⟩

theorem InvP.walkAt (I : InvP P ec M s lst D) {k : K} {i : Nat} (hi : i < M) {a : Nat} (ha : Start lst D k i a) :
    (∃ x ∈ lst i, walkAt M s k i s.fresh a = .ok (.inl x) ∧ (D x).min ≤ k ∧ k ≤ (D x).max) ∨
    (∃ A B, lst i = A ++ B ∧ walkAt M s k i s.fresh a = .ok (.inr (A.getLastD 0)) ∧
      (∀ y, A.getLast? = some y → (D y).max < k) ∧ ∀ y, B.head? = some y → k < (D y).min) := by
  have hn : ∀ x ∈ lst i, s.dat x = some (D x) := fun x hx => (I.nodes x (I.sub0 i hx)).1
  rcases ha with rfl | ⟨ha, hk⟩
  · rcases walkAt_path hi (lst i) 0 s.fresh (I.path i hi) I.head hn (I.len i) with
      ⟨x, A, B, e, h2, h3⟩ | ⟨A, B, e, h2, h3, h4⟩
    · exact Or.inl ⟨x, by rw [e]; simp, h2, h3⟩
    · exact Or.inr ⟨A, B, e, h2, fun y hy => h3 y (List.mem_of_getLast? hy), h4⟩
  · obtain ⟨A0, B0, e0⟩ := List.append_of_mem ha
    have hp := I.path i hi
    have hlen := I.len i
    have hn' := hn
    rw [e0] at hp hlen hn'
    rcases walkAt_path (k := k) hi B0 a s.fresh hp.suffix ⟨_, hn a ha⟩ (fun x hx => hn' x (by simp [hx]))
      (by simp at hlen; omega) with ⟨x, A, B, e, h2, h3⟩ | ⟨A, B, e, h2, h3, h4⟩
    · exact Or.inl ⟨x, by rw [e0, e]; simp, h2, h3⟩
    · refine Or.inr ⟨A0 ++ a :: A, B, by rw [e0, e]; simp, by rw [getLastD_append_cons]; exact h2, ?_, h4⟩
      intro y hy
      rw [List.getLast?_append_of_ne_nil _ (by simp)] at hy
      rcases List.mem_cons.1 (List.mem_of_getLast? hy) with rfl | hy
      · exact hk
      · exact h3 y hy

theorem getLastD_cases (A : List Nat) : A.getLastD 0 = 0 ∨ A.getLast? = some (A.getLastD 0) := by
  cases h : A.getLast? with
  | none => left; rw [List.getLastD_eq_getLast?, h]; rfl
  | some y => right; rw [List.getLastD_eq_getLast?, h]; rfl

theorem InvP.searchNode (I : InvP P ec M s lst D) {k : K} : ∀ (i : Nat), i < M → ∀ a, Start lst D k i a →
    (∃ x ∈ lst 0, searchNode M s k i a = .ok (some x) ∧ (D x).min ≤ k ∧ k ≤ (D x).max) ∨
    (searchNode M s k i a = .ok none ∧ ∀ x ∈ lst 0, ¬ ((D x).min ≤ k ∧ k ≤ (D x).max))
  | 0, hi, a, ha => by
    rw [WoSkip.searchNode]
    rcases I.walkAt hi ha with ⟨x, hx, e, h⟩ | ⟨A, B, e, h1, h2, h3⟩
    · left
      refine ⟨x, hx, ?_, h⟩
      rw [e, Res.ok_bind]; rfl
    · right
      refine ⟨by rw [h1, Res.ok_bind]; rfl, ?_⟩
      rintro x hx ⟨hx1, hx2⟩
      rw [e] at hx
      rcases List.mem_append.1 hx with hx | hx
      · -- the last node of `A` has smaller keys
        cases hA : A.getLast? with
        | none => rw [List.getLast?_eq_none_iff.1 hA] at hx; simp at hx
        | some y =>
          obtain ⟨A', rfl⟩ := List.getLast?_eq_some_iff.1 hA
          have := I.before (A := A') (B := B) (a := y) (by rw [e]; simp) (h2 y hA) x hx
          exact absurd hx2 (not_le.2 this)
      · cases B with
        | nil => simp at hx
        | cons y B =>
          have hy := h3 y rfl
          rcases List.mem_cons.1 hx with rfl | hx
          · exact absurd hx1 (not_le.2 hy)
          · have hs := I.sorted
            rw [e, List.pairwise_append, List.pairwise_cons] at hs
            have h4 := hs.2.1.1 x hx
            have hn := I.nodup 0
            rw [e, List.nodup_append, List.nodup_cons] at hn
            have h5 := I.wf y (by rw [e]; simp) x (by rw [e]; simp [hx]) (by rintro rfl; exact hn.2.1.1 hx)
            exact absurd hx1 (not_le.2 ((hy.trans_le h5).trans h4))
  | i + 1, hi, a, ha => by
    rw [WoSkip.searchNode]
    rcases I.walkAt hi ha with ⟨x, hx, e, h⟩ | ⟨A, B, e, h1, h2, h3⟩
    · left
      refine ⟨x, I.sub0 _ hx, ?_, h⟩
      rw [e, Res.ok_bind]; rfl
    · rw [h1, Res.ok_bind]
      refine I.searchNode i (by omega) _ ?_
      rcases getLastD_cases A with h | h
      · exact Or.inl h
      · refine Or.inr ⟨I.sub i ?_, h2 _ h⟩
        rw [e]; exact List.mem_append_left _ (List.mem_of_getLast? h)

/-- The list stores the map. -/
def Stores (lst : Nat → List Nat) (D : Nat → WNode N K V) (m : K → Option V) : Prop :=
  ∀ k v, m k = some v ↔ ∃ a ∈ lst 0, (k, v) ∈ (D a).slots.abs

/-- Only one node can contain a key. -/
theorem InvP.unique (I : InvP P ec M s lst D) {k : K} {a b : Nat} (ha : a ∈ lst 0) (hb : b ∈ lst 0)
    (h1 : (D a).min ≤ k ∧ k ≤ (D a).max) (h2 : (D b).min ≤ k ∧ k ≤ (D b).max) : a = b := by
  by_contra hne
  have : (D a).max < (D b).min ∨ (D b).max < (D a).min := by
    have := I.sorted
    clear I h1 h2
    generalize lst 0 = l0 at ha hb this
    induction l0 with
    | nil => simp at ha
    | cons x l ih =>
      rw [List.pairwise_cons] at this
      rcases List.mem_cons.1 ha with rfl | ha1
      · rcases List.mem_cons.1 hb with rfl | hb1
        · exact absurd rfl hne
        · exact Or.inl (this.1 b hb1)
      · rcases List.mem_cons.1 hb with rfl | hb1
        · exact Or.inr (this.1 a ha1)
        · exact ih ha1 hb1 this.2
  rcases this with h | h
  · exact absurd (h.trans_le (h2.1.trans h1.2)) (lt_irrefl _)
  · exact absurd (h.trans_le (h1.1.trans h2.2)) (lt_irrefl _)

theorem InvP.search (I : Inv adm ec M s lst D) {m : K → Option V} (hst : Stores lst D m) (k : K) :
    search M s k = .ok (m k) := by
  unfold WoSkip.search
  cases hm : m k with
  | some v =>
    obtain ⟨a, ha, hv⟩ := (hst k v).1 hm
    have hb := (I.nodes a ha).2.bnd _ hv
    rcases I.searchNode (k := k) s.level I.lvl 0 (Or.inl rfl) with ⟨x, hx, e, h⟩ | ⟨_, h⟩
    · have := I.unique hx ha h hb
      subst this
      rw [e, Res.ok_bind]
      dsimp only
      rw [node, (I.nodes x hx).1, Res.ofOption_some, Res.ok_bind, searchInNode_found (I.nodes x hx).2.ok hv]
    · exact absurd hb (h a ha)
  | none =>
    rcases I.searchNode (k := k) s.level I.lvl 0 (Or.inl rfl) with ⟨x, hx, e, h⟩ | ⟨e, h⟩
    · rw [e, Res.ok_bind]
      dsimp only
      rw [node, (I.nodes x hx).1, Res.ofOption_some, Res.ok_bind, searchInNode_absent]
      intro v hv
      rw [(hst k v).2 ⟨x, hx, hv⟩] at hm
      exact absurd hm (by simp)
    · rw [e, Res.ok_bind]; rfl

/-! ## The descent of `insert` -/

theorem advance_path {k : K} {i : Nat} (hi : i < M) : ∀ (l : List Nat) (a fuel : Nat),
    Path (fw s i) a l → (∃ n, s.dat a = some n) → (∀ x ∈ l, s.dat x = some (D x)) → l.length < fuel →
    ∃ A B, l = A ++ B ∧ advance M s k i fuel a = .ok (A.getLastD a) ∧ (∀ y ∈ A, (D y).max < k) ∧
      ∀ y, B.head? = some y → k ≤ (D y).max
  | [], a, fuel + 1, hp, ⟨n, ha⟩, _, _ => by
    refine ⟨[], [], rfl, ?_, by simp, by simp⟩
    rw [advance, fwdAt_eq ha hi, Res.ok_bind, show s.fwd a i = none from Option.some.inj hp]
    rfl
  | x :: l, a, fuel + 1, hp, ⟨n, ha⟩, hn, hf => by
    rw [advance, fwdAt_eq ha hi, Res.ok_bind, show s.fwd a i = some x from Option.some.inj hp.1]
    dsimp only
    have hx := hn x (by simp)
    rw [node, hx, Res.ofOption_some, Res.ok_bind]
    by_cases h1 : (D x).max < k
    · rw [if_pos h1]
      obtain ⟨A, B, e, h2, h3, h4⟩ := advance_path hi l x fuel hp.2 ⟨_, hx⟩
        (fun y hy => hn y (List.mem_cons_of_mem _ hy)) (by simpa using hf)
      refine ⟨x :: A, B, by rw [e]; rfl, by rw [getLastD_cons]; exact h2, ?_, h4⟩
      intro y hy
      rcases List.mem_cons.1 hy with rfl | hy
      · exact h1
      · exact h3 y hy
    · rw [if_neg h1]
      refine ⟨[], x :: l, rfl, rfl, by simp, ?_⟩
      intro y hy
      rw [← Option.some.inj hy]; exact not_lt.1 h1

theorem InvP.advance (I : InvP P ec M s lst D) {k : K} {i : Nat} (hi : i < M) {a : Nat} (ha : Start lst D k i a) :
    ∃ A B, lst i = A ++ B ∧ advance M s k i s.fresh a = .ok (A.getLastD 0) ∧
      (∀ y, A.getLast? = some y → (D y).max < k) ∧ ∀ y, B.head? = some y → k ≤ (D y).max := by
  have hn : ∀ x ∈ lst i, s.dat x = some (D x) := fun x hx => (I.nodes x (I.sub0 i hx)).1
  rcases ha with rfl | ⟨ha, hk⟩
  · obtain ⟨A, B, e, h2, h3, h4⟩ := advance_path (k := k) hi (lst i) 0 s.fresh (I.path i hi) I.head hn (I.len i)
    exact ⟨A, B, e, h2, fun y hy => h3 y (List.mem_of_getLast? hy), h4⟩
  · obtain ⟨A0, B0, e0⟩ := List.append_of_mem ha
    have hp := I.path i hi
    have hlen := I.len i
    have hn' := hn
    rw [e0] at hp hlen hn'
    obtain ⟨A, B, e, h2, h3, h4⟩ := advance_path (k := k) hi B0 a s.fresh hp.suffix ⟨_, hn a ha⟩
      (fun x hx => hn' x (by simp [hx])) (by simp at hlen; omega)
    refine ⟨A0 ++ a :: A, B, by rw [e0, e]; simp, by rw [getLastD_append_cons]; exact h2, ?_, h4⟩
    intro y hy
    rw [List.getLast?_append_of_ne_nil _ (by simp)] at hy
    rcases List.mem_cons.1 (List.mem_of_getLast? hy) with rfl | hy
    · exact hk
    · exact h3 y hy

/-- `p` is a node of level `j` or the head. -/
def OnLevel (lst : Nat → List Nat) (j p : Nat) : Prop := ∃ A B, lst j = A ++ B ∧ p = A.getLastD 0

theorem InvP.descend (I : InvP P ec M s lst D) {k : K} : ∀ (i : Nat), i < M → ∀ a (u : Nat → Option Nat), Start lst D k i a →
    ∃ A B u', lst 0 = A ++ B ∧ descend M s k i a u = .ok (A.getLastD 0, u') ∧ (∀ y ∈ A, (D y).max < k) ∧
      (∀ y, B.head? = some y → k ≤ (D y).max) ∧ (∀ j, j ≤ i → ∃ p, u' j = some p ∧ OnLevel lst j p) ∧
      ∀ j, i < j → u' j = u j
  | 0, hi, a, u, ha => by
    obtain ⟨A, B, e, h1, h2, h3⟩ := I.advance hi ha
    refine ⟨A, B, put u 0 (some (A.getLastD 0)), e, ?_, ?_, h3, ?_, ?_⟩
    · rw [WoSkip.descend, h1, Res.ok_bind, SkipList.setUpd, if_pos hi, Res.ok_bind]
      rfl
    · intro y hy
      cases hA : A.getLast? with
      | none => rw [List.getLast?_eq_none_iff.1 hA] at hy; simp at hy
      | some z =>
        obtain ⟨A', rfl⟩ := List.getLast?_eq_some_iff.1 hA
        exact I.before (A := A') (B := B) (a := z) (by rw [e]; simp) (h2 z hA) y hy
    · intro j hj
      have : j = 0 := by omega
      subst this
      exact ⟨_, put_self _ _ _, A, B, e, rfl⟩
    · intro j hj; exact put_ne _ _ (by omega)
  | i + 1, hi, a, u, ha => by
    obtain ⟨A1, B1, e1, h1, h2, h3⟩ := I.advance hi ha
    have hst : Start lst D k i (A1.getLastD 0) := by
      rcases getLastD_cases A1 with h | h
      · exact Or.inl h
      · refine Or.inr ⟨I.sub i ?_, h2 _ h⟩
        rw [e1]; exact List.mem_append_left _ (List.mem_of_getLast? h)
    obtain ⟨A, B, u', e, h4, h5, h6, h7, h8⟩ := I.descend i (by omega) _ (put u (i + 1) (some (A1.getLastD 0))) hst
    refine ⟨A, B, u', e, ?_, h5, h6, ?_, ?_⟩
    · rw [WoSkip.descend, h1, Res.ok_bind, SkipList.setUpd, if_pos hi, Res.ok_bind, h4]
    · intro j hj
      by_cases hji : j = i + 1
      · subst hji
        exact ⟨_, by rw [h8 _ (by omega), put_self], A1, B1, e1, rfl⟩
      · exact h7 j (by omega)
    · intro j hj
      rw [h8 j (by omega), put_ne _ _ (by omega)]

/-- The forward pointer of a position in a path. -/
theorem path_next {f : Nat → Option (Option Nat)} : ∀ {A : List Nat} {B : List Nat} {a : Nat}, Path f a (A ++ B) →
    f (A.getLastD a) = some B.head?
  | [], B, a, h => h.head
  | x :: A, B, a, h => by
    rw [getLastD_cons]
    exact path_next h.2

theorem InvP.onLevel (I : InvP P ec M s lst D) {j p : Nat} (h : OnLevel lst j p) : (p = 0 ∨ p ∈ lst j) ∧
    ∃ n, s.dat p = some n := by
  obtain ⟨A, B, e, rfl⟩ := h
  rcases getLastD_cases A with h | h
  · rw [h]; exact ⟨Or.inl rfl, I.head⟩
  · have : A.getLastD 0 ∈ lst j := by rw [e]; exact List.mem_append_left _ (List.mem_of_getLast? h)
    exact ⟨Or.inr this, _, (I.nodes _ (I.sub0 j this)).1⟩

/-- The target node of an insert: first node whose maximum is not below the key, else the last node. -/
theorem InvP.target (I : InvP P ec M s lst D) (k : K) : ∃ (p : Nat) (u' : Nat → Option Nat) (t : Nat) (A B : List Nat),
    WoSkip.descend M s k s.level 0 (fun _ => none) = .ok (p, u') ∧
    fwdAt M s p 0 = .ok (s.fwd p 0) ∧ (s.fwd p 0).getD p = t ∧ lst 0 = A ++ t :: B ∧ (∀ y ∈ A, (D y).max < k) ∧
    (k ≤ (D t).max ∨ (D t).max < k ∧ B = []) ∧ ∀ j, j ≤ s.level → ∃ p, u' j = some p ∧ OnLevel lst j p := by
  have hM : 0 < M := by have := I.lvl; omega
  obtain ⟨A, B, u', e, h4, h5, h6, h7, _⟩ := I.descend (k := k) s.level I.lvl 0 (fun _ => none) (Or.inl rfl)
  obtain ⟨_, n, hn⟩ := I.onLevel (j := 0) ⟨A, B, e, rfl⟩
  have hp := I.path 0 hM
  rw [e] at hp
  have hnext : s.fwd (A.getLastD 0) 0 = B.head? := Option.some.inj (path_next hp)
  cases B with
  | cons t B =>
    refine ⟨_, u', t, A, B, h4, fwdAt_eq hn hM, by rw [hnext]; rfl, e, h5, Or.inl (h6 t rfl), h7⟩
  | nil =>
    rw [List.append_nil] at e
    have hA : A ≠ [] := by rw [← e]; exact I.ne
    obtain ⟨A', t, rfl⟩ := List.eq_nil_or_concat'  A |>.resolve_left hA
    refine ⟨_, u', t, A', [], h4, fwdAt_eq hn hM, ?_, e, fun y hy => h5 y (by simp [hy]),
      Or.inr ⟨h5 t (by simp), rfl⟩, h7⟩
    rw [hnext]
    simp

end

end Verif.WoSkip
