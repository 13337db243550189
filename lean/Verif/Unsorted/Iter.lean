import Verif.Unsorted.Step
import Verif.BTree.IterGen

/-!
# The iterator of UnsortedPBPTree (UnsortedPBPTree.hpp:133-188)
-/

set_option linter.unusedSectionVars false

namespace Verif.Unsorted

open Verif Search BTree Assoc MapSpec

variable {K V : Type} [LinearOrder K] [Inhabited K] {c : UCfg K V} {adm : K → Prop}

/-- 140-146: the constructor used by `begin()`. -/
def Iter.begin (c : UCfg K V) (s : State K (ULeaf K V)) : Res BTree.Iter := do
  let id ← leftmost (uOps c) s.depth s.root
  pure ⟨some id, 0⟩

/-- 148-157 `operator++`: `numKeys - 1` is unsigned and wraps around for an empty leaf. -/
def Iter.next (h : Heap (ULeaf K V)) (it : BTree.Iter) : Res BTree.Iter := do
  let id ← Res.ofOption it.node
  let l ← h.get id
  if l.num ≠ 0 ∧ l.num - 1 ≤ it.pos then pure ⟨h.next id, 0⟩
  else pure ⟨some id, it.pos + 1⟩

/-- 172-176 `operator*`. -/
def Iter.deref (c : UCfg K V) (h : Heap (ULeaf K V)) (it : BTree.Iter) : Res (K × V) := do
  let id ← Res.ofOption it.node
  let l ← h.get id
  let k ← FPTree.rdA c.M l.keys it.pos
  let v ← FPTree.rdA c.M l.vals it.pos
  pure (k, v)

/-- `for (auto it = begin(); it != end(); ++it) use(*it);` with at most `n` rounds. -/
def iterate (c : UCfg K V) (s : State K (ULeaf K V)) (n : Nat) : Res (List (K × V)) := do
  let it ← Iter.begin c s
  runIt (Iter.deref c s.heap) (Iter.next s.heap) n it

/-! ## Lemmas -/

/-- What `operator++` does at the end of a leaf. -/
def start (o : Option Nat) : Res BTree.Iter := .ok ⟨o, 0⟩

theorem visits {h : Heap (ULeaf K V)} {id : Nat} {l : ULeaf K V} (hl : h.data id = some l) :
    ∀ (n i : Nat), i + n = l.num → n ≠ 0 → Visits h (Iter.next h) start id (List.range' i n)
  | 0, _, _, hne => absurd rfl hne
  | 1, i, hi, _ => by
    show Iter.next h ⟨some id, i⟩ = _
    unfold Iter.next
    simp only [Res.ofOption_some, Res.ok_bind, Heap.get, hl]
    rw [if_pos (by omega)]; rfl
  | n + 2, i, hi, _ => by
    refine ⟨?_, ?_⟩
    · unfold Iter.next
      simp only [Res.ofOption_some, Res.ok_bind, Heap.get, hl]
      rw [if_neg (by omega)]; rfl
    · exact visits hl (n + 1) (i + 1) (by omega) (by omega)

/-- Iterating over a non-empty good tree visits the same entries in the same order as `scan`. -/
theorem iterate_good (U : ULaws c adm) (hM : 2 ≤ c.M) {lm bm rm : Nat} (hlm : 1 ≤ lm)
    {s : State K (ULeaf K V)} (g : Good (uLaws U hM) lm bm rm s) (hne : cont (uLaws U hM) s ≠ []) :
    ∃ es, scan (uOps c) s = .ok es ∧ ∀ n, es.length ≤ n → iterate c s n = .ok es := by
  obtain ⟨es, e, hes, _⟩ := scan_good (uScan U hM) g
  refine ⟨es, e, ?_⟩
  obtain ⟨id, rest, el, hi⟩ := leftmost_spec _ _ _ _ _ g.bt
  have hok := g.leaves_nonempty hlm hne
  obtain ⟨it, hs, hr⟩ := run_chain (h := s.heap) (deref := Iter.deref c s.heap) (next := Iter.next s.heap)
    (start := start) g.wf (fun l => List.range l.num) (fun l p => (l.keys p, l.vals p)) rfl
    (fun i hi' => by
      obtain ⟨l, hl, hlok, hlen⟩ := hok i hi'
      have hlen' : 1 ≤ l.abs.length := hlen
      rw [uabs_length] at hlen'
      have hcap := UOk.cap hlok
      obtain ⟨m, hm⟩ : ∃ m, l.num = m + 1 := ⟨l.num - 1, by omega⟩
      refine ⟨l, 0, List.range' 1 m, hl, ?_, rfl, ?_, ?_⟩
      · rw [List.range_eq_range', hm, List.range'_succ]
      · rw [List.range_eq_range']
        exact visits hl l.num 0 (by omega) (by omega)
      · intro q hq
        have := List.mem_range.1 hq
        unfold Iter.deref
        simp only [Res.ofOption_some, Res.ok_bind, Heap.get, hl]
        rw [FPTree.rdA_ok (by omega), Res.ok_bind, FPTree.rdA_ok (by omega)]; rfl)
    (id :: rest) [] (by rw [hi]; rfl)
  have hit := Res.ok.inj hs
  subst hit
  intro n hn
  unfold iterate Iter.begin
  rw [show leftmost (uOps c) s.depth s.root = .ok id from el, Res.ok_bind, Res.pure_eq, Res.ok_bind]
  have hes' : es = (id :: rest).flatMap (fun i => (s.heap.data i).elim [] (fun l =>
      (List.range l.num).map (fun p => (l.keys p, l.vals p)))) := by
    rw [hes, hi]; rfl
  rw [hes'] at hn ⊢
  exact hr n hn

theorem run_empty {h : Heap (ULeaf K V)} {id : Nat} {l : ULeaf K V} (hl : h.data id = some l)
    (h0 : l.num = 0) : ∀ (n p : Nat), runIt (Iter.deref c h) (Iter.next h) n ⟨some id, p⟩ = .ub
  | 0, p => by rw [runIt, if_neg (by simp [BTree.Iter.end])]
  | n + 1, p => by
    rw [runIt, if_neg (by simp [BTree.Iter.end])]
    have hd : Iter.deref c h ⟨some id, p⟩ = if p < c.M then .ok (l.keys p, l.vals p) else .ub := by
      unfold Iter.deref
      simp only [Res.ofOption_some, Res.ok_bind, Heap.get, hl, FPTree.rdA]
      split <;> rfl
    have hn : Iter.next h ⟨some id, p⟩ = .ok ⟨some id, p + 1⟩ := by
      unfold Iter.next
      simp only [Res.ofOption_some, Res.ok_bind, Heap.get, hl]
      rw [if_neg (by omega)]; rfl
    rw [hd]
    by_cases hp : p < c.M
    · rw [if_pos hp, Res.ok_bind, hn, Res.ok_bind, run_empty hl h0 n (p + 1)]; rfl
    · rw [if_neg hp]; rfl

/-- Iterating over an empty tree runs out of the leaf. -/
theorem iterate_empty (U : ULaws c adm) (hM : 2 ≤ c.M) {lm bm rm : Nat} (hlm : 1 ≤ lm)
    {s : State K (ULeaf K V)} (g : Good (uLaws U hM) lm bm rm s) (he : cont (uLaws U hM) s = []) (n : Nat) :
    iterate c s n = .ub := by
  obtain ⟨id, l, el, hl, _, ha⟩ := g.empty_leaf hlm he
  have h0 : l.num = 0 := by rw [← uabs_length l, show l.abs = [] from ha]; rfl
  unfold iterate Iter.begin
  rw [show leftmost (uOps c) s.depth s.root = .ok id from el, Res.ok_bind, Res.pure_eq, Res.ok_bind]
  exact run_empty hl h0 n 0

end Verif.Unsorted

namespace Verif.BTree

open Verif Assoc

variable {K V : Type} [LinearOrder K] {c : SCfg K V}

theorem run_empty {h : Heap (SLeaf K V)} {id : Nat} {l : SLeaf K V} (hl : h.data id = some l)
    (h0 : l.num = 0) : ∀ (n p : Nat), Iter.run c h n ⟨some id, p⟩ = .ub
  | 0, p => by rw [Iter.run, if_neg (by simp [Iter.end])]
  | n + 1, p => by
    rw [Iter.run, if_neg (by simp [Iter.end])]
    have hn : Iter.next h ⟨some id, p⟩ = .ok ⟨some id, p + 1⟩ := by
      unfold Iter.next
      simp only [Res.ofOption_some, Res.ok_bind, Heap.get, hl]
      rw [if_neg (by omega)]; rfl
    have hd : (∃ e, Iter.deref c h ⟨some id, p⟩ = .ok e) ∨ Iter.deref c h ⟨some id, p⟩ = .ub := by
      unfold Iter.deref
      simp only [Res.ofOption_some, Res.ok_bind, Heap.get, hl, Slots.rd]
      split
      · rename_i hp
        cases hk : l.keys p with
        | none => right; rfl
        | some k =>
          cases hv : l.vals p with
          | none => right; rfl
          | some v => left; exact ⟨(k, v), rfl⟩
      · right; rfl
    rcases hd with ⟨e, hd⟩ | hd
    · rw [hd, Res.ok_bind, hn, Res.ok_bind, run_empty hl h0 n (p + 1)]; rfl
    · rw [hd]; rfl

/-- Iterating over an empty tree runs out of the leaf or reads uninitialised memory. -/
theorem iterate_empty (C : CfgLaws c) {lm bm rm : Nat} (hlm : 1 ≤ lm) {s : State K (SLeaf K V)}
    (g : Good (sortedLaws C) lm bm rm s) (he : cont (sortedLaws C) s = []) :
    ∃ it, Iter.begin c s = .ok it ∧ ∀ n, Iter.run c s.heap n it = .ub := by
  obtain ⟨id, l, el, hl, ⟨es, hes⟩, ha⟩ := g.empty_leaf hlm he
  have h0 : l.num = 0 := by
    have h1 : l.abs = es := hes.abs
    rw [hes.num, ← h1, show l.abs = [] from ha]; rfl
  refine ⟨⟨some id, 0⟩, ?_, fun n => run_empty hl h0 n 0⟩
  unfold Iter.begin
  rw [show leftmost (sortedOps c) s.depth s.root = .ok id from el, Res.ok_bind]; rfl

end Verif.BTree
