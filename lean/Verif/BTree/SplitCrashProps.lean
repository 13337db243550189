import Verif.BTree.SortedSplitCrash
import Verif.BTree.RecoverProps
import Verif.CrashSpec

/-!
# Property theorems on crashes inside leaf splits of HPBPTree and PBPTree (C82, C83)

The specification is `Verif.MapSpec` with `Verif.CrashSpec`.  A split moves entries and changes no mapping, so the lookups
after a crash should be those before the operation.
-/

set_option linter.unusedSectionVars false

namespace Verif.BTreeProps

open Verif BTree MapSpec Assoc CrashSpec

variable {K V : Type} [LinearOrder K]

/-- The leaf responsible for `k` is `l`, stored at `id`, and has no free slot: an insert of a new key `k` splits it. -/
def FullLeaf (c : SCfg K V) (s : State K (SLeaf K V)) (k : K) (id : Nat) (l : SLeaf K V) : Prop :=
  findLeaf (sortedOps c) s.depth s.root k = .ok id ∧ s.heap.data id = some l ∧ l.num = c.M

/-- The keys in the upper half of a leaf with `M` slots. -/
def Upper (M : Nat) (l : SLeaf K V) (x : K) : Prop := ∃ p, (M + 1) / 2 ≤ p ∧ p < M ∧ l.keys p = some x

theorem upper_iff {M : Nat} {l : SLeaf K V} {es : List (K × V)} (h : LRep M l es) (hn : l.num = M) (x : K) :
    find x (l.abs.drop ((M + 1) / 2)) ≠ none ↔ Upper M l x := by
  have hlen : es.length = M := by rw [← h.num, hn]
  rw [h.abs]
  constructor
  · intro hf
    obtain ⟨v, hv⟩ := Option.ne_none_iff_exists'.1 hf
    obtain ⟨i, hi, he⟩ := List.getElem_of_mem (find_some_mem hv)
    rw [List.length_drop] at hi
    rw [List.getElem_drop] at he
    refine ⟨(M + 1) / 2 + i, by omega, by omega, ?_⟩
    rw [h.keys _ (by rw [List.length_map]; omega), List.getElem?_map, List.getElem?_eq_getElem (by omega), he]
    rfl
  · rintro ⟨p, h1, h2, h3⟩ hc
    rw [h.keys _ (by rw [List.length_map]; omega), List.getElem?_map, List.getElem?_eq_getElem (by omega)] at h3
    refine find_eq_none.1 hc es[p] ?_ (Option.some.inj h3)
    refine List.mem_of_getElem (i := p - (M + 1) / 2) (h := by rw [List.length_drop]; omega) ?_
    rw [List.getElem_drop]
    congr 1
    omega

/-- After any history, every full leaf is at a split point. -/
theorem full_atSplit {c : SCfg K V} (C : CfgLaws c) (q : Nat) (hN : c.N = 2 * q) (hq : 3 ≤ q) (hM : 2 ≤ c.M) (ops : List (Op K V))
    (ho : ErasesPresent empty ops) :
    ∃ s, execAll (sortedOps c) (init (sortedOps c)) ops = .ok (outs empty ops, s) ∧
      ∀ k id l, FullLeaf c s k id l → AtSplit (sortedLaws C) (c.M / 2) (q - 1) 1 s 0 (run empty ops) k id l := by
  obtain ⟨s, e, g, h, hd⟩ := histories_good_head (W := sortedLaws C) (sortedErase C) (fun _ _ _ => trivial) (by
    intro l k _ hf
    obtain ⟨v, hv⟩ := Option.ne_none_iff_exists'.1 hf
    exact ⟨(k, v), Assoc.find_some_mem hv, le_rfl⟩) hN hq hM le_rfl ops _ _
    (init_good (sortedLaws C) _ _ _).1 (init_stores _) ho (fun _ _ _ => trivial)
  refine ⟨s, e, fun k id l ⟨h1, h2, h3⟩ => ?_⟩
  obtain ⟨id', l', a⟩ := leafOf g k
  have e1 := a.find
  rw [h1] at e1
  cases Res.ok.inj e1
  have e2 := a.data
  rw [h2] at e2
  cases Option.some.inj e2
  exact ⟨by change 1 ≤ c.M / 2; omega, fun l e es hl hab _ => (sortedErase C).minKey l e es hl hab, g, hd, h, a⟩

/-! ## C82 -/

/-- C82 in full: a crash at any point of a leaf split of HPBPTree, followed by a recovery, changes no lookup. -/
def C82_statement (K V : Type) [LinearOrder K] (N M : Nat) : Prop :=
  ∀ ops : List (Op K V), ErasesPresent empty ops → ∀ bs s, execAll (HP N M) (init (HP N M)) ops = .ok (bs, s) →
    ∀ k id l, FullLeaf (hpCfg N M) s k id l → ∀ t, ∃ h s', crashSplitS (hpCfg N M) s k t = .ok h ∧
      recoverH (HP N M) h 0 = .ok s' ∧ Reads (lookup (HP N M) s') (run empty ops)

/-- C82, exactly: the copies into the sibling lose nothing; from the assignment of the counter of the old leaf to that of
the link to the sibling, the keys of the upper half are lost; afterwards all are back.  After the last assignment persistent
memory is that of the split.  Missing: the keys lost in between (`C82_refuted`). -/
theorem C82_split_crash_partial (N M q : Nat) (hN : N = 2 * q) (hq : 3 ≤ q) (hM : 2 ≤ M) (ops : List (Op K V))
    (ho : ErasesPresent empty ops) :
    ∃ s, execAll (HP N M) (init (HP N M)) ops = .ok (outs empty ops, s) ∧
      ∀ k id l, FullLeaf (hpCfg N M) s k id l →
        (∀ t, ∃ h s', crashSplitS (hpCfg N M) s k t = .ok h ∧ recoverH (HP N M) h 0 = .ok s' ∧
          ∀ x, (2 * (M / 2) + 2 ≤ t → t < 2 * (M / 2) + 2 + (if s.heap.next id = none then 1 else 3) → Upper M l x →
              lookup (HP N M) s' x = .ok none) ∧
            (t < 2 * (M / 2) + 2 ∨ 2 * (M / 2) + 2 + (if s.heap.next id = none then 1 else 3) ≤ t ∨ ¬ Upper M l x →
              lookup (HP N M) s' x = .ok (run empty ops x))) ∧
        ∃ a b h, l.split (hpCfg N M) = .ok (a, b) ∧
          linkAfter ((s.heap.set id a).alloc b).1 id ((s.heap.set id a).alloc b).2 = .ok h ∧
          ∀ t, 2 * (M / 2) + 6 ≤ t → crashSplitS (hpCfg N M) s k t = .ok h := by
  have C := hpLaws (K := K) (V := V) (N := N) hM
  obtain ⟨s, e, hat⟩ := full_atSplit C q hN hq hM ops ho
  refine ⟨s, e, fun k id l hl => ?_⟩
  obtain ⟨A, B, hF, hs, hA, hB, eF, hall⟩ := crashSplitS_recover C
    (recoverH_recovers (sortedLaws C) _ (show 2 ≤ (hpCfg N M : SCfg K V).N by change 2 ≤ N; omega)) (hat k id l hl) hl.2.2
  refine ⟨fun t => ?_, A, B, hF, hs, eF, fun t ht => ?_⟩
  · obtain ⟨h, s', e1, e2, e3, _⟩ := hall t
    refine ⟨h, s', e1, e2, fun x => ?_⟩
    obtain ⟨es, hes⟩ := (hat k id l hl).leaf.ok
    have hu := upper_iff hes hl.2.2 x
    change find x (l.abs.drop ((M + 1) / 2)) ≠ none ↔ Upper M l x at hu
    have e3 := e3 x
    change lookup (HP N M) s' x = .ok (if 2 * (M / 2) + 2 ≤ t ∧ t < 2 * (M / 2) + 2 + (if s.heap.next id = none then 1 else 3) ∧
      find x B.abs ≠ none then none else run empty ops x) at e3
    rw [show B.abs = l.abs.drop ((M + 1) / 2) from hB] at e3
    constructor
    · intro h1 h2 h3
      rw [e3, if_pos ⟨h1, h2, hu.2 h3⟩]
    · intro h1
      rw [e3, if_neg]
      rintro ⟨h2, h3, h4⟩
      rcases h1 with h1 | h1 | h1
      · omega
      · omega
      · exact h1 (hu.1 h4)
  · obtain ⟨h, s', e1, _, _, e4⟩ := hall t
    rw [e1, e4 ht]

/-- Four inserts into `HPBPTree<K, V, 6, 4>` fill its only leaf. -/
def fourKeys : List (Op Nat Nat) := [.insert 40 4, .insert 10 1, .insert 30 3, .insert 20 2]

theorem fourKeys_erases : ErasesPresent empty fourKeys := trivial

/-- A lookup after `fourKeys`, a crash after `t` assignments of the split by key 50, and a recovery. -/
def hpSplitEx (t x : Nat) : Res (Option Nat) := do
  let r ← execAll (HP 6 4) (init (HP 6 4)) fourKeys
  let h ← crashSplitS (hpCfg 6 4) r.2 50 t
  let s ← recoverH (HP 6 4) h 0
  lookup (HP 6 4) s x

/-- Keys 30 and 40 are lost between the sixth and the seventh assignment. -/
example : [hpSplitEx 5 40, hpSplitEx 6 40, hpSplitEx 6 30, hpSplitEx 6 20, hpSplitEx 7 40, hpSplitEx 7 30] =
    [.ok (some 4), .ok none, .ok none, .ok (some 2), .ok (some 4), .ok (some 3)] := by
  decide +kernel

theorem fourKeys_full {c : SCfg Nat Nat} (hN : c.M = 4) {s : State Nat (SLeaf Nat Nat)} {bs : List Bool}
    (e : execAll (sortedOps c) (init (sortedOps c)) fourKeys = .ok (bs, s))
    (hd : (do
      let r ← execAll (sortedOps c) (init (sortedOps c)) fourKeys
      let id ← findLeaf (sortedOps c) r.2.depth r.2.root 50
      let l ← r.2.heap.get id
      pure (l.num, l.keys 3)) = .ok (4, some 40)) : ∃ id l, FullLeaf c s 50 id l ∧ Upper 4 l 40 := by
  rw [e, Res.ok_bind] at hd
  obtain ⟨id, e1, hd⟩ := Res.bind_eq_ok.1 hd
  obtain ⟨l, e2, hd⟩ := Res.bind_eq_ok.1 hd
  have hd := Res.ok.inj hd
  rw [Prod.mk.injEq] at hd
  refine ⟨id, l, ⟨e1, ?_, by rw [hd.1, hN]⟩, 3, by omega, by omega, hd.2⟩
  unfold Heap.get at e2
  cases hq : s.heap.data id with
  | none => rw [hq] at e2; cases e2
  | some l' => rw [hq] at e2; cases Res.ok.inj e2; rfl

/-- C82 is false for `HPBPTree<K, V, 6, 4>`. -/
theorem C82_refuted : ¬ C82_statement Nat Nat 6 4 := by
  intro h
  obtain ⟨s, e, hall⟩ := C82_split_crash_partial 6 4 3 rfl (by omega) (by omega) fourKeys fourKeys_erases
  obtain ⟨id, l, hl, hu⟩ := fourKeys_full (c := hpCfg 6 4) rfl e (by decide +kernel)
  obtain ⟨hc, _⟩ := hall 50 id l hl
  obtain ⟨h1, s1, e1, e2, e3⟩ := hc 6
  obtain ⟨h2, s2, e4, e5, e6⟩ := h fourKeys fourKeys_erases _ s e 50 id l hl 6
  rw [e1] at e4
  cases Res.ok.inj e4
  rw [e2] at e5
  cases Res.ok.inj e5
  have l1 := (e3 40).1 (by omega) (by split <;> omega) hu
  have l2 := e6 40
  rw [l1] at l2
  exact absurd (Res.ok.inj l2) (by decide)

/-! ## C83 -/

/-- C83 in full: a crash at any point of a leaf split of PBPTree, whose branch nodes are persistent and whose
`recover` (PBPTree.hpp:302) does nothing, changes no lookup. -/
def C83_statement (K V : Type) [LinearOrder K] (N M : Nat) : Prop :=
  ∀ ops : List (Op K V), ErasesPresent empty ops → ∀ bs s, execAll (PB N M) (init (PB N M)) ops = .ok (bs, s) →
    ∀ k id l, FullLeaf (pbCfg N M) s k id l → ∀ t, ∃ h, crashSplitS (pbCfg N M) s k t = .ok h ∧
      Reads (lookup (PB N M) ⟨s.depth, s.root, h⟩) (run empty ops)

/-- C83, exactly: the copies into the sibling lose nothing; from the assignment of the counter of the old leaf on, the
keys of the upper half are lost, also at the end of the split: the links between the leaves do not bring them back.
Missing: the lost keys (`C83_refuted`). -/
theorem C83_split_crash_partial (N M q : Nat) (hN : N = 2 * q) (hq : 3 ≤ q) (hM : 2 ≤ M) (ops : List (Op K V))
    (ho : ErasesPresent empty ops) :
    ∃ s, execAll (PB N M) (init (PB N M)) ops = .ok (outs empty ops, s) ∧
      ∀ k id l, FullLeaf (pbCfg N M) s k id l → ∀ t, ∃ h, crashSplitS (pbCfg N M) s k t = .ok h ∧
        ∀ x, (2 * (M / 2) + 2 ≤ t → Upper M l x → lookup (PB N M) ⟨s.depth, s.root, h⟩ x = .ok none) ∧
          (t < 2 * (M / 2) + 2 ∨ ¬ Upper M l x → lookup (PB N M) ⟨s.depth, s.root, h⟩ x = .ok (run empty ops x)) := by
  have C := pbLaws (K := K) (V := V) (N := N) hM
  obtain ⟨s, e, hat⟩ := full_atSplit C q hN hq hM ops ho
  refine ⟨s, e, fun k id l hl t => ?_⟩
  obtain ⟨h, e1, e2⟩ := crashSplitS_norec C (show 2 ≤ N by omega) (hat k id l hl) hl.2.2 t
  refine ⟨h, e1, fun x => ?_⟩
  obtain ⟨es, hes⟩ := (hat k id l hl).leaf.ok
  have hu := upper_iff hes hl.2.2 x
  change find x (l.abs.drop ((M + 1) / 2)) ≠ none ↔ Upper M l x at hu
  have e2 := e2 x
  change lookup (PB N M) ⟨s.depth, s.root, h⟩ x = .ok (if 2 * (M / 2) + 2 ≤ t ∧ find x (l.abs.drop ((M + 1) / 2)) ≠ none then none
    else run empty ops x) at e2
  constructor
  · intro h1 h3
    rw [e2, if_pos ⟨h1, hu.2 h3⟩]
  · intro h1
    rw [e2, if_neg]
    rintro ⟨h2, h4⟩
    rcases h1 with h1 | h1
    · omega
    · exact h1 (hu.1 h4)

/-- A lookup after `fourKeys` and a crash after `t` assignments of the split by key 50. -/
def pbSplitEx (t x : Nat) : Res (Option Nat) := do
  let r ← execAll (PB 6 4) (init (PB 6 4)) fourKeys
  let h ← crashSplitS (pbCfg 6 4) r.2 50 t
  lookup (PB 6 4) ⟨r.2.depth, r.2.root, h⟩ x

/-- Keys 30 and 40 are lost from the sixth assignment on. -/
example : [pbSplitEx 5 40, pbSplitEx 6 40, pbSplitEx 6 30, pbSplitEx 6 20, pbSplitEx 8 40, pbSplitEx 100 30] =
    [.ok (some 4), .ok none, .ok none, .ok (some 2), .ok none, .ok none] := by
  decide +kernel

/-- C83 is false for `PBPTree<K, V, 6, 4>`. -/
theorem C83_refuted : ¬ C83_statement Nat Nat 6 4 := by
  intro h
  obtain ⟨s, e, hall⟩ := C83_split_crash_partial 6 4 3 rfl (by omega) (by omega) fourKeys fourKeys_erases
  obtain ⟨id, l, hl, hu⟩ := fourKeys_full (c := pbCfg 6 4) rfl e (by decide +kernel)
  obtain ⟨h1, e1, e3⟩ := hall 50 id l hl 6
  obtain ⟨h2, e4, e6⟩ := h fourKeys fourKeys_erases _ s e 50 id l hl 6
  rw [e1] at e4
  cases Res.ok.inj e4
  have l1 := (e3 40).1 (by omega) hu
  have l2 := e6 40
  rw [l1] at l2
  exact absurd (Res.ok.inj l2) (by decide)

end Verif.BTreeProps
