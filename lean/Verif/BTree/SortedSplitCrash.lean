import Verif.BTree.SplitCrash
import Verif.BTree.SortedCrash

/-!
# Crashes inside leaf splits of PBPTree and HPBPTree

`splitLeafNode` (PBPTree.hpp:939-979, HPBPTree.hpp:476-508) allocates the sibling in a transaction and then copies entries and
sets counters and links by plain assignments, which become persistent in program order.
-/

set_option linter.unusedSectionVars false

namespace Verif.BTree

open Verif Search Assoc MapSpec

variable {K V : Type} [LinearOrder K] {c : SCfg K V}

/-! ## Model -/

/-- P956-959, H488-491: the assignments of the copy loop from `i` on, `m` rounds left. -/
def moveInstrs (M : Nat) (l : SLeaf K V) (middle i : Nat) : Nat → Res (List (SInstr K V))
  | 0 => .ok []
  | m + 1 => do
    let k ← Slots.rd M l.keys (middle + i)
    let v ← Slots.rd M l.vals (middle + i)
    let ws ← moveInstrs M l middle (i + 1) m
    pure (.key i k :: .val i v :: ws)

/-- P939-970, H476-503: persistent memory after a crash that follows the first `t` assignments of `splitLeafNode` for the
leaf of `k` (`t = 0`: the new leaf has been allocated). -/
def crashSplitS (c : SCfg K V) (s : State K (SLeaf K V)) (k : K) (t : Nat) : Res (Heap (SLeaf K V)) := do
  let id ← findLeaf (sortedOps c) s.depth s.root k
  let l ← s.heap.get id
  let middle := (c.M + 1) / 2
  let ws ← moveInstrs c.M l middle 0 (l.num - middle)
  let a := s.heap.alloc (sortedOps c).empty
  applyG (fun l w => SInstr.apply c.M l w) a.1
    (((SInstr.num (l.num - middle) :: ws).map (GW.leaf a.2) ++ ([GW.leaf id (SInstr.num middle)] ++ linkGW id a.2 (s.heap.next id))).take t)

/-! ## The copies -/

theorem moveInstrs_ok {M : Nat} {l : SLeaf K V} {mid r : Nat} : ∀ (m i : Nat) (ks ks' : Slots K) (vs vs' : Slots V),
    Slots.copy M l.keys (mid + i) i m ks = .ok ks' → Slots.copy M l.vals (mid + i) i m vs = .ok vs' →
    ∃ ws, moveInstrs M l mid i m = .ok ws ∧ ws.length = 2 * m ∧ SInstr.applyAll M ⟨r, ks, vs⟩ ws = .ok ⟨r, ks', vs'⟩
  | 0, i, ks, ks', vs, vs', h1, h2 => by
    cases Res.ok.inj h1
    cases Res.ok.inj h2
    exact ⟨[], rfl, rfl, rfl⟩
  | m + 1, i, ks, ks', vs, vs', h1, h2 => by
    rw [Slots.copy] at h1 h2
    obtain ⟨k, e1, h1⟩ := Res.bind_eq_ok.1 h1
    obtain ⟨ks1, e2, h1⟩ := Res.bind_eq_ok.1 h1
    obtain ⟨v, e3, h2⟩ := Res.bind_eq_ok.1 h2
    obtain ⟨vs1, e4, h2⟩ := Res.bind_eq_ok.1 h2
    obtain ⟨ws, f1, f2, f3⟩ := moveInstrs_ok m (i + 1) ks1 ks' vs1 vs' h1 h2
    refine ⟨.key i k :: .val i v :: ws, ?_, by simp [f2]; omega, ?_⟩
    · rw [moveInstrs, e1, Res.ok_bind, e3, Res.ok_bind, f1]; rfl
    · rw [SInstr.applyAll, SInstr.apply]
      simp only [e2, Res.ok_bind, Res.pure_eq]
      rw [SInstr.applyAll, SInstr.apply]
      simp only [e4, Res.ok_bind, Res.pure_eq]
      exact f3

theorem applyAll_split {M : Nat} : ∀ (ws ws' : List (SInstr K V)) (l l' : SLeaf K V), SInstr.applyAll M l (ws ++ ws') = .ok l' →
    ∃ l1, SInstr.applyAll M l ws = .ok l1
  | [], _, l, _, _ => ⟨l, rfl⟩
  | w :: ws, ws', l, l', h => by
    rw [List.cons_append, SInstr.applyAll] at h
    obtain ⟨l1, e, h⟩ := Res.bind_eq_ok.1 h
    obtain ⟨l2, e2⟩ := applyAll_split ws ws' l1 l' h
    exact ⟨l2, by rw [SInstr.applyAll, e, Res.ok_bind, e2]⟩

theorem Heap.alloc_set {L : Type} (h : Heap L) (a b : L) : (h.alloc a).1.set h.fresh b = (h.alloc b).1 := by
  refine Heap.ext' ?_ rfl rfl rfl
  funext q
  simp only [Heap.alloc, Heap.set, upd]
  split <;> rfl

theorem offchain {M : Nat} (h : Heap (SLeaf K V)) : ∀ (ws : List (SInstr K V)) (l l' : SLeaf K V),
    SInstr.applyAll M l ws = .ok l' →
    applyG (fun l w => SInstr.apply M l w) (h.alloc l).1 (ws.map (GW.leaf h.fresh)) = .ok (h.alloc l').1
  | [], l, l', e => by cases Res.ok.inj e; rfl
  | w :: ws, l, l', e => by
    rw [SInstr.applyAll] at e
    obtain ⟨l1, e1, e⟩ := Res.bind_eq_ok.1 e
    rw [List.map_cons, applyG, GW.leaf_ok (l := l) (l' := l1) (by simp [Heap.alloc, upd]) e1, Res.ok_bind, Heap.alloc_set]
    exact offchain h ws l1 l' e

/-- The leaf and persistent memory at the crash points of a split. -/
theorem crashSplitS_prog {s : State K (SLeaf K V)} {k : K} {id : Nat} {l A B : SLeaf K V}
    (hf : findLeaf (sortedOps c) s.depth s.root k = .ok id) (hd : s.heap.data id = some l) (hid : id ≠ s.heap.fresh)
    (hs : l.split c = .ok (A, B)) : let r := l.num - (c.M + 1) / 2
    (∀ t, t ≤ 2 * r + 1 → ∃ s1, crashSplitS c s k t = .ok (s.heap.alloc s1).1) ∧
      ∀ d, crashSplitS c s k (2 * r + 2 + d) = applyG (fun l w => SInstr.apply c.M l w) ((s.heap.set id A).alloc B).1
        ((linkGW id s.heap.fresh (s.heap.next id)).take d) := by
  intro r
  unfold SLeaf.split at hs
  dsimp only at hs
  obtain ⟨ks, e1, hs⟩ := Res.bind_eq_ok.1 hs
  obtain ⟨vs, e2, hs⟩ := Res.bind_eq_ok.1 hs
  have hs := Res.ok.inj hs
  rw [Prod.mk.injEq] at hs
  obtain ⟨ws, f1, f2, f3⟩ := moveInstrs_ok (r := r) (mid := (c.M + 1) / 2) (l := l) r 0 Slots.none ks Slots.none vs e1 e2
  have hall : SInstr.applyAll c.M (sortedOps c).empty (SInstr.num r :: ws) = .ok B := by
    rw [SInstr.applyAll, SInstr.apply, Res.ok_bind, ← hs.2]
    exact f3
  have hprog : ∀ t, crashSplitS c s k t = applyG (fun l w => SInstr.apply c.M l w) (s.heap.alloc (sortedOps c).empty).1
      (((SInstr.num r :: ws).map (GW.leaf s.heap.fresh) ++ ([GW.leaf id (SInstr.num ((c.M + 1) / 2))] ++
        linkGW id s.heap.fresh (s.heap.next id))).take t) := by
    intro t
    unfold crashSplitS
    rw [hf, Res.ok_bind, Heap.get_of hd, Res.ok_bind]
    dsimp only
    rw [show l.num - (c.M + 1) / 2 = r from rfl, f1, Res.ok_bind]
    rfl
  have hlen : ((SInstr.num r :: ws).map (GW.leaf (I := SInstr K V) s.heap.fresh)).length = 2 * r + 1 := by simp [f2]
  constructor
  · intro t ht
    rw [hprog, List.take_append_of_le_length (by rw [hlen]; exact ht), ← List.map_take]
    obtain ⟨s1, e⟩ := applyAll_split ((SInstr.num r :: ws).take t) ((SInstr.num r :: ws).drop t) (sortedOps c).empty B (by
      rw [List.take_append_drop]; exact hall)
    exact ⟨s1, offchain s.heap _ _ _ e⟩
  · intro d
    rw [hprog, List.take_append, List.take_of_length_le (by rw [hlen]; omega), hlen, applyG_append, offchain s.heap _ _ _ hall,
      Res.ok_bind, show 2 * r + 2 + d - (2 * r + 1) = d + 1 by omega, List.singleton_append, List.take_succ_cons, applyG,
      GW.leaf_ok (l := l) (l' := A) (by simp [Heap.alloc, upd, hid]; exact hd) (by rw [← hs.1]; rfl), Res.ok_bind]
    have : (s.heap.alloc B).1.set id A = ((s.heap.set id A).alloc B).1 := by
      refine Heap.ext' ?_ rfl rfl rfl
      funext q
      simp only [Heap.alloc, Heap.set, upd]
      by_cases h1 : q = id
      · have : q ≠ s.heap.fresh := by rw [h1]; exact hid
        simp [h1, hid]
      · simp [h1]
    rw [this]

/-- A crash in a leaf split followed by a recovery, at all crash points. -/
theorem crashSplitS_recover (C : CfgLaws c) {R : Heap (SLeaf K V) → Nat → Res (State K (SLeaf K V))}
    (hR : Recovers (sortedLaws C) (c.M / 2) R) {bm rm : Nat} {s : State K (SLeaf K V)} {first : Nat} {m : K → Option V}
    {k : K} {id : Nat} {l : SLeaf K V} (a : AtSplit (sortedLaws C) (c.M / 2) bm rm s first m k id l) (hfull : l.num = c.M) :
    ∃ A B hF, l.split c = .ok (A, B) ∧ A.abs = l.abs.take ((c.M + 1) / 2) ∧ B.abs = l.abs.drop ((c.M + 1) / 2) ∧
      linkAfter ((s.heap.set id A).alloc B).1 id s.heap.fresh = .ok hF ∧
      ∀ t, ∃ h s', crashSplitS c s k t = .ok h ∧ R h first = .ok s' ∧
        (∀ x, lookup (sortedOps c) s' x = .ok
          (if 2 * (c.M / 2) + 2 ≤ t ∧ t < 2 * (c.M / 2) + 2 + (if s.heap.next id = none then 1 else 3) ∧ find x B.abs ≠ none
            then none else m x)) ∧
        (2 * (c.M / 2) + 6 ≤ t → h = hF) := by
  obtain ⟨es, hes⟩ := a.leaf.ok
  have hM := C.hM
  have habs := hes.abs
  have hnum := hes.num
  have hl : (es.take ((c.M + 1) / 2)).length = (c.M + 1) / 2 := by rw [List.length_take]; omega
  obtain ⟨⟨A, B⟩, hs, hA, hB⟩ := split_ok (c := c) (l := l) (a := es.take ((c.M + 1) / 2)) (b := es.drop ((c.M + 1) / 2))
    (by rw [List.take_append_drop]; exact hes) hl
  have hr : l.num - (c.M + 1) / 2 = c.M / 2 := by omega
  obtain ⟨rest, pre, post, hrest, hids⟩ := a.list
  have hid : id ≠ s.heap.fresh := by
    have := a.good.wf.fresh id (by rw [hids]; simp)
    omega
  obtain ⟨p1, p2⟩ := crashSplitS_prog a.leaf.find a.leaf.data hid hs
  rw [hr] at p1 p2
  have hAabs : A.abs = l.abs.take ((c.M + 1) / 2) := by rw [habs]; exact hA.abs
  have hBabs : B.abs = l.abs.drop ((c.M + 1) / 2) := by rw [habs]; exact hB.abs
  have lenA : c.M / 2 ≤ A.abs.length := by rw [hA.abs, hl]; omega
  have lenB : c.M / 2 ≤ B.abs.length := by rw [hB.abs, List.length_drop]; omega
  obtain ⟨hF, eF, hlinks⟩ := a.links hR (fun l w => SInstr.apply c.M l w) (A := A) (B := B) ⟨_, hA⟩ ⟨_, hB⟩
    (by change A.abs ++ B.abs = l.abs; rw [hAabs, hBabs, List.take_append_drop]) lenA lenB
  refine ⟨A, B, hF, hs, hAabs, hBabs, eF, fun t => ?_⟩
  by_cases ht : t ≤ 2 * (c.M / 2) + 1
  · obtain ⟨s1, e⟩ := p1 t ht
    have hset : s.heap.set id l = s.heap := Heap.set_self a.leaf.data
    obtain ⟨s', er, hl'⟩ := a.before hR a.leaf.ok [] (by simp) (by simp)
      (by change c.M / 2 ≤ l.abs.length; rw [habs, ← hnum]; omega) s1 (s.heap.alloc s1).1.next (s.heap.alloc s1).1.prev (fun i hi => by
        have : i ≠ s.heap.fresh := by have := a.good.wf.fresh i hi; omega
        simp [Heap.alloc, upd, this])
    rw [hset] at er
    refine ⟨_, s', e, er, fun x => ?_, fun h => by omega⟩
    rw [hl' x, if_neg (by simp), if_neg (by omega)]
  · obtain ⟨d, rfl⟩ := Nat.exists_eq_add_of_le (show 2 * (c.M / 2) + 2 ≤ t by omega)
    obtain ⟨h, s', e1, e2, e3, e4⟩ := hlinks d
    refine ⟨h, s', by rw [p2 d, e1], e2, fun x => ?_, fun hd => e4 (by omega)⟩
    rw [e3 x]
    congr 1
    refine if_congr ?_ rfl rfl
    constructor
    · rintro ⟨h1, h2⟩; exact ⟨by omega, by omega, h2⟩
    · rintro ⟨_, h1, h2⟩; exact ⟨by omega, h2⟩

/-- A crash in a leaf split of a tree that keeps its branch nodes in persistent memory. -/
theorem crashSplitS_norec (C : CfgLaws c) (hN : 2 ≤ c.N) {bm rm : Nat} {s : State K (SLeaf K V)} {first : Nat} {m : K → Option V}
    {k : K} {id : Nat} {l : SLeaf K V} (a : AtSplit (sortedLaws C) (c.M / 2) bm rm s first m k id l) (hfull : l.num = c.M) :
    ∀ t, ∃ h, crashSplitS c s k t = .ok h ∧ ∀ x, lookup (sortedOps c) ⟨s.depth, s.root, h⟩ x = .ok
      (if 2 * (c.M / 2) + 2 ≤ t ∧ find x (l.abs.drop ((c.M + 1) / 2)) ≠ none then none else m x) := by
  intro t
  obtain ⟨A, B, hF, hs, hA, hB, eF, hall⟩ := crashSplitS_recover C (recoverH_recovers (sortedLaws C) (c.M / 2) hN) a hfull
  obtain ⟨h, s', e, _⟩ := hall t
  refine ⟨h, e, fun x => ?_⟩
  have hr : l.num - (c.M + 1) / 2 = c.M / 2 := by omega
  obtain ⟨rest, pre, post, hrest, hids⟩ := a.list
  have hid : id ≠ s.heap.fresh := by
    have := a.good.wf.fresh id (by rw [hids]; simp)
    omega
  obtain ⟨p1, p2⟩ := crashSplitS_prog a.leaf.find a.leaf.data hid hs
  rw [hr] at p1 p2
  have hsplit : A.abs ++ B.abs = l.abs := by rw [hA, hB, List.take_append_drop]
  by_cases ht : t ≤ 2 * (c.M / 2) + 1
  · obtain ⟨s1, e'⟩ := p1 t ht
    rw [e] at e'
    cases Res.ok.inj e'
    rw [if_neg (by omega)]
    have := a.norec (A := l) (B := (sortedOps c).empty) a.leaf.ok (by
        rw [show (sortedLaws C).abs (sortedOps c).empty = [] from (sortedLaws C).empty_abs, List.append_nil])
      (h := (s.heap.alloc s1).1) (fun i hi => by rw [Heap.set_self a.leaf.data]; simp [Heap.alloc, upd, hi]) x
    rw [this, show (sortedLaws C).abs (sortedOps c).empty = [] from (sortedLaws C).empty_abs]
    simp
  · obtain ⟨d, rfl⟩ := Nat.exists_eq_add_of_le (show 2 * (c.M / 2) + 2 ≤ t by omega)
    rw [p2 d] at e
    have hd := applyG_data (fun i w hm => by
      have := List.mem_of_mem_take hm
      unfold linkGW at this
      split at this <;> simp at this) e
    have okA : (sortedLaws C).ok A := by
      obtain ⟨es, hes⟩ := a.leaf.ok
      have hnum := hes.num
      obtain ⟨⟨A', B'⟩, hs', hA', hB'⟩ := split_ok (c := c) (l := l) (a := es.take ((c.M + 1) / 2)) (b := es.drop ((c.M + 1) / 2))
        (by rw [List.take_append_drop]; exact hes) (by rw [List.length_take]; omega)
      rw [hs] at hs'
      cases Res.ok.inj hs'
      exact ⟨_, hA'⟩
    have := a.norec (A := A) (B := B) okA hsplit (h := h) (fun i hi => by rw [hd]; simp [Heap.alloc, Heap.set, upd, hi]) x
    rw [this]
    change Res.ok (if find x B.abs ≠ none then none else m x) = _
    rw [hB]
    congr 1
    exact if_congr (by simp) rfl rfl

end Verif.BTree
