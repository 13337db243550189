import Verif.WoSkip.Insert
import Verif.SkipList.Props
import Verif.Search.Props

/-!
# Property theorems for woPSkiplist (C29, C55)

`N` is the node capacity, `M` the number of levels.  `woInt jk jv` stands for `woPSkiplist<int, V, N, M>`; `jk` and
`jv` are the contents of uninitialised slots.  A history is a list of inserts with the outcomes of the random number
generator; the first random number `r0` is drawn by the constructor.
-/

set_option linter.unusedSectionVars false

namespace Verif.WoSkipProps

open Search FPTree WoSkip MapSpec
open Verif.SkipListProps (Ins ops news InRange)

variable {K V : Type} [LinearOrder K] [Inhabited K] {N M : Nat}

/-- A history of inserts. -/
def execAll (c : WCfg K V) (M : Nat) : WL N K V → List (Ins K V) → Res (List Bool × WL N K V)
  | s, [] => .ok ([], s)
  | s, i :: is => do
    let r ← WoSkip.insert c M s i.key i.val i.rnd
    let r' ← execAll c M r.2 is
    pure (r.1 :: r'.1, r'.2)

/-- The constructor followed by inserts. -/
def build (c : WCfg K V) (N M r0 : Nat) (is : List (Ins K V)) : Res (List Bool × WL N K V) := do
  let s ← init c M N r0
  execAll c M s is

/-- `woPSkiplist<int, V, N, M>`. -/
def woInt (jk : Nat → Int) (jv : Nat → V) : WCfg Int V := ⟨limInt, convInt, jk, jv⟩

theorem flaws (jk : Nat → Int) (jv : Nat → V) : FLaws (woInt jk jv).f (fun k => 0 ≤ k ∧ k < 2 ^ 31) where
  conv := fun k ⟨h1, h2⟩ => SearchProps.convInt_roundtrip k ⟨by omega, h2⟩
  mono := fun a b ⟨ha1, ha2⟩ ⟨hb1, hb2⟩ => by
    simp only [woInt, WCfg.f, convInt]
    omega
  lim := fun k ⟨h1, h2⟩ => by
    simp only [woInt, WCfg.f, limInt]
    omega

theorem execAll_ok {c : WCfg K V} {adm : K → Prop} {ec : Nat} (F : FLaws c.f adm) (hN : 2 ≤ N) (hM : 2 ≤ M) :
    ∀ (is : List (Ins K V)) (s : WL N K V) (m : K → Option V) (lst : Nat → List Nat) (D : Nat → WNode N K V),
    Inv adm ec M s lst D → Stores lst D m → InRange M is → (∀ i ∈ is, adm i.key) →
    ∃ s' lst' D', execAll c M s is = .ok (news m is, s') ∧ Inv adm ec M s' lst' D' ∧ Stores lst' D' (run m (ops is))
  | [], s, m, lst, D, I, h, _, _ => ⟨s, lst, D, rfl, I, h⟩
  | i :: is, s, m, lst, D, I, h, hr, ha => by
    obtain ⟨s1, lst1, D1, e1, I1, h1⟩ := I.insert F hN hM h (ha i (by simp)) i.val (hr i (by simp))
    obtain ⟨s', lst', D', e', I', h'⟩ := execAll_ok F hN hM is s1 _ lst1 D1 I1 h1
      (fun j hj => hr j (List.mem_cons_of_mem _ hj)) (fun j hj => ha j (List.mem_cons_of_mem _ hj))
    refine ⟨s', lst', D', ?_, I', h'⟩
    rw [execAll, e1, Res.ok_bind]
    dsimp only
    rw [show execAll c M s1 is = _ from e', Res.ok_bind]
    rfl

theorem build_ok {c : WCfg K V} {adm : K → Prop} (F : FLaws c.f adm) (hN : 2 ≤ N) (hM : 2 ≤ M) {r0 : Nat} (h0 : r0 < M)
    (is : List (Ins K V)) (hr : InRange M is) (ha : ∀ i ∈ is, adm i.key) :
    ∃ s lst D, build c N M r0 is = .ok (news empty is, s) ∧ Inv adm 0 M s lst D ∧ Stores lst D (run empty (ops is)) := by
  obtain ⟨s, lst, D, e, I, h⟩ := init_inv (N := N) (c := c) (adm := adm) hM h0
  unfold build
  rw [e, Res.ok_bind]
  exact execAll_ok F hN hM is s _ lst D I h hr ha

/-! ## C29 -/

/-- C29 in full: for all outcomes of the random numbers, `search` finds exactly the inserted keys. -/
def C29_statement (N M : Nat) : Prop :=
  ∀ (r0 : Nat) (is : List (Ins Int Nat)), r0 < M → InRange M is →
    (∀ i ∈ is, -2 ^ 31 ≤ i.key ∧ i.key < 2 ^ 31) → (is.map Ins.key).Nodup →
    ∃ bs s, build (woInt (fun _ => 0) (fun _ => 0)) N M r0 is = .ok (bs, s) ∧
      ∀ k, search M s k = .ok (run empty (ops is) k)

/-- Five inserts; the last one splits the node, and -10 counts as the largest key of the node. -/
def negative : List (Ins Int Nat) := [⟨-10, 1, 0⟩, ⟨20, 2, 0⟩, ⟨30, 3, 0⟩, ⟨40, 4, 0⟩, ⟨25, 5, 0⟩]

set_option maxRecDepth 100000 in
theorem negative_lost : (do
    let r ← build (woInt (fun _ => 0) (fun _ => 0)) 4 4 0 negative
    search 4 r.2 (-10)) = .ok none := by decide +kernel

/-- C29 is false for negative keys: `findSplitKey` compares them as `size_t`. -/
theorem C29_refuted : ¬ C29_statement 4 4 := by
  intro h
  obtain ⟨bs, s, e, hs⟩ := h 0 negative (by omega) (by simp [InRange, negative]) (by simp [negative])
    (by simp [negative])
  have h1 := negative_lost
  rw [e, Res.ok_bind, hs (-10)] at h1
  exact absurd h1 (by decide)

/-- C29 for every key type whose conversion to `size_t` and back preserves the admitted keys and their order:
`insert` tells whether the key is new, and `search` finds exactly the inserted keys with the value of their last
insert. -/
theorem C29_insert_search_gen {c : WCfg K V} {adm : K → Prop} (F : FLaws c.f adm) (N M : Nat) (hN : 2 ≤ N) (hM : 2 ≤ M)
    (r0 : Nat) (h0 : r0 < M) (is : List (Ins K V)) (hr : InRange M is) (ha : ∀ i ∈ is, adm i.key) :
    ∃ s, build c N M r0 is = .ok (news empty is, s) ∧ ∀ k, search M s k = .ok (run empty (ops is) k) := by
  obtain ⟨s, lst, D, e, I, h⟩ := build_ok F hN hM h0 is hr ha
  exact ⟨s, e, fun k => I.search h k⟩

/-- C29 for non-negative keys, including repeated keys.  Missing: negative keys (false, `C29_refuted`). -/
theorem C29_insert_search_partial (N M : Nat) (hN : 2 ≤ N) (hM : 2 ≤ M) (jk : Nat → Int) (jv : Nat → V)
    (r0 : Nat) (h0 : r0 < M) (is : List (Ins Int V)) (hr : InRange M is)
    (ha : ∀ i ∈ is, 0 ≤ i.key ∧ i.key < 2 ^ 31) :
    ∃ s, build (woInt jk jv) N M r0 is = .ok (news empty is, s) ∧ ∀ k, search M s k = .ok (run empty (ops is) k) :=
  C29_insert_search_gen (flaws jk jv) N M hN hM r0 h0 is hr ha

/-- Inserts with different random levels; one key is inserted twice. -/
def sample : List (Ins Int Nat) :=
  [⟨10, 1, 2⟩, ⟨20, 2, 3⟩, ⟨30, 3, 2⟩, ⟨40, 4, 2⟩, ⟨15, 5, 2⟩, ⟨30, 33, 1⟩]

example : InRange 4 sample ∧ (∀ i ∈ sample, 0 ≤ i.key ∧ i.key < 2 ^ 31) ∧
    news empty sample = [true, true, true, true, true, false] ∧ run empty (ops sample) 30 = some 33 := by
  refine ⟨?_, ?_, by decide, by decide⟩
  · simp [InRange, sample]
  · simp [sample]

/-! ## C55 -/

/-- The bounds `lo ≤ hi` and entries of a node as listed by `printList`. -/
abbrev Listed (K V : Type) := K × K × List (K × V)

/-- Level 0: the nodes are ordered and disjoint, their bounds contain their keys, they have at most `N` entries, and
together they hold every entry of the map once; `nodeCount` is their number. -/
def Level0 (N : Nat) (m : K → Option V) (count : Nat) (l : List (Listed K V)) : Prop :=
  l.Pairwise (fun a b => a.2.1 < b.1) ∧
  (∀ n ∈ l, n.2.2.length ≤ N ∧ ∀ e ∈ n.2.2, n.1 ≤ e.1 ∧ e.1 ≤ n.2.1) ∧
  ListsOnce m (l.flatMap fun n => n.2.2) ∧ count = l.length

/-- C55 in full: level 0 is as above and the nodes of every other level are a sublist of those of the level below. -/
def C55_statement (N M : Nat) : Prop :=
  ∀ (r0 : Nat) (is : List (Ins Int Nat)), r0 < M → InRange M is → (∀ i ∈ is, 0 ≤ i.key ∧ i.key < 2 ^ 31) →
    ∃ bs s, ∃ lv : Nat → List (Listed Int Nat), build (woInt (fun _ => 0) (fun _ => 0)) N M r0 is = .ok (bs, s) ∧
      (∀ i, i < M → levelList M s i = .ok (lv i)) ∧ Level0 N (run empty (ops is)) s.nodeCount (lv 0) ∧
      ∀ i, (lv (i + 1)).Sublist (lv i)

set_option maxRecDepth 100000 in
set_option synthInstance.maxHeartbeats 400000 in
set_option synthInstance.maxSize 2000 in
theorem sample_levels : (do
    let r ← build (woInt (fun _ => 0) (fun _ => 0)) 4 4 2 sample
    let l0 ← levelList 4 r.2 0
    let l1 ← levelList 4 r.2 1
    pure (l0, l1)) =
    .ok ([(10, 20, [(10, 1), (20, 2), (15, 5)]), (30, 40, [(30, 33), (40, 4)])],
      [(30, 40, [(30, 33), (40, 4)]), (10, 20, [(10, 1), (20, 2), (15, 5)])]) := by decide +kernel

/-- C55 is false: the node split off is linked before the split node on level 1. -/
theorem C55_refuted : ¬ C55_statement 4 4 := by
  intro h
  obtain ⟨bs, s, lv, e, hl, _, hsub⟩ := h 2 sample (by omega) (by simp [InRange, sample]) (by simp [sample])
  have h1 := sample_levels
  rw [e, Res.ok_bind] at h1
  dsimp only at h1
  rw [hl 0 (by omega), hl 1 (by omega), Res.ok_bind, Res.ok_bind] at h1
  have h2 := Res.ok.inj h1
  have h3 : lv 0 = _ := congrArg Prod.fst h2
  have h4 : lv 1 = _ := congrArg Prod.snd h2
  have := hsub 0
  rw [h3, h4] at this
  exact absurd this (by decide)

/-- C55 without the order of the upper levels: level 0 is as specified, and the nodes of every other level are, without
repetition and in some order, nodes of the level below.  Missing: their order (false, `C55_refuted`). -/
theorem C55_levels_gen {c : WCfg K V} {adm : K → Prop} (F : FLaws c.f adm) (N M : Nat) (hN : 2 ≤ N) (hM : 2 ≤ M)
    (r0 : Nat) (h0 : r0 < M) (is : List (Ins K V)) (hr : InRange M is) (ha : ∀ i ∈ is, adm i.key) :
    ∃ s, ∃ lv : Nat → List (Listed K V), build c N M r0 is = .ok (news empty is, s) ∧
      (∀ i, i < M → levelList M s i = .ok (lv i)) ∧ Level0 N (run empty (ops is)) s.nodeCount (lv 0) ∧
      ∀ i, (lv (i + 1)).Subperm (lv i) := by
  obtain ⟨s, lst, D, e, I, h⟩ := build_ok F hN hM h0 is hr ha
  refine ⟨s, fun i => (lst i).map fun a => ((D a).min, (D a).max, ents (D a).slots), e,
    fun i hi => I.levelList hi, ⟨?_, ?_, ⟨?_, ?_⟩, ?_⟩, fun i => ?_⟩
  · rw [List.pairwise_map]; exact I.sorted
  · intro n hn
    rw [List.mem_map] at hn
    obtain ⟨a, ha, rfl⟩ := hn
    refine ⟨?_, fun e he => ?_⟩
    · have := abs_cap (D a).slots
      rw [(abs_perm _).length_eq] at this
      exact this
    · exact (I.nodes a ha).2.bnd e ((abs_perm _).mem_iff.2 he)
  · rw [List.Nodup, List.pairwise_map, List.flatMap_map, List.pairwise_flatMap]
    refine ⟨fun a ha => entsFrom_ne (I.nodes a ha).2.ok N 0 (by omega), I.sorted.imp_of_mem ?_⟩
    intro a b ha hb hab x hx y hy hxy
    have h1 := (I.nodes a ha).2.bnd x ((abs_perm _).mem_iff.2 hx)
    have h2 := (I.nodes b hb).2.bnd y ((abs_perm _).mem_iff.2 hy)
    rw [← hxy] at h2
    exact absurd (h1.2.trans_lt hab) (not_lt.2 h2.1)
  · intro k v
    rw [List.flatMap_map, List.mem_flatMap, h k v]
    constructor
    · rintro ⟨a, ha, he⟩; exact ⟨a, ha, (abs_perm _).mem_iff.2 he⟩
    · rintro ⟨a, ha, he⟩; exact ⟨a, ha, (abs_perm _).mem_iff.1 he⟩
  · rw [List.length_map]; exact I.count
  · obtain ⟨l, hp, hs⟩ := List.subperm_of_subset (I.nodup _) (I.sub i)
    exact ⟨_, hp.map _, hs.map _⟩

/-- C55 for non-negative keys, without the order of the upper levels. -/
theorem C55_levels_partial (N M : Nat) (hN : 2 ≤ N) (hM : 2 ≤ M) (jk : Nat → Int) (jv : Nat → V)
    (r0 : Nat) (h0 : r0 < M) (is : List (Ins Int V)) (hr : InRange M is)
    (ha : ∀ i ∈ is, 0 ≤ i.key ∧ i.key < 2 ^ 31) :
    ∃ s, ∃ lv : Nat → List (Listed Int V), build (woInt jk jv) N M r0 is = .ok (news empty is, s) ∧
      (∀ i, i < M → levelList M s i = .ok (lv i)) ∧ Level0 N (run empty (ops is)) s.nodeCount (lv 0) ∧
      ∀ i, (lv (i + 1)).Subperm (lv i) :=
  C55_levels_gen (flaws jk jv) N M hN hM r0 h0 is hr ha

end Verif.WoSkipProps
