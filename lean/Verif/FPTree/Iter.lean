import Verif.FPTree.Step
import Verif.BTree.IterGen

/-!
# The iterator of the FPTree (FPTree.hpp:218-272)
-/

set_option linter.unusedSectionVars false

namespace Verif.FPTree

open Verif Search BTree Assoc MapSpec

variable {K V : Type} {M : Nat} [LinearOrder K] [Inhabited K] {c : FCfg K V} {adm : K → Prop}

/-- 231, 240: `while (!nodeBits.test(currentPosition)) ++currentPosition;` from position `p` on.  `test`
throws at position `M` at the latest, so `n ≥ M + 1 - p` rounds are enough. -/
def seek (b : Bitmap M) (p : Nat) : Nat → Res Nat
  | 0 => .ub
  | n + 1 => do
    let t ← b.test p
    if t then pure p else seek b (p + 1) n

/-- 228-231, 236-240: the first position in a leaf; the end iterator for `nullptr`. -/
def Iter.start (h : Heap (FLeaf M K V)) : Option Nat → Res BTree.Iter
  | none => .ok BTree.Iter.end
  | some id => do
    let l ← h.get id
    let p ← seek l.bits 0 (M + 1)
    pure ⟨some id, p⟩

/-- 223-232: the constructor used by `begin()`. -/
def Iter.begin (c : FCfg K V) (s : State K (FLeaf M K V)) : Res BTree.Iter := do
  let id ← leftmost (fpOps c M) s.depth s.root
  Iter.start s.heap (some id)

/-- 234-243 `operator++` in leaf `id` at position `p`.  The recursion `++(*this)` ends at position `M - 1`
at the latest, so `n ≥ M` calls are enough.  `M - 1` is unsigned; the model is for `M ≥ 1`. -/
def Iter.nextFrom (h : Heap (FLeaf M K V)) (id : Nat) (l : FLeaf M K V) (p : Nat) : Nat → Res BTree.Iter
  | 0 => .ub
  | n + 1 =>
    if M - 1 ≤ p then Iter.start h (h.next id)
    else do
      let t ← l.bits.test (p + 1)
      if t then pure ⟨some id, p + 1⟩ else Iter.nextFrom h id l (p + 1) n

/-- 234-243 `operator++`. -/
def Iter.next (h : Heap (FLeaf M K V)) (it : BTree.Iter) : Res BTree.Iter := do
  let id ← Res.ofOption it.node
  let l ← h.get id
  Iter.nextFrom h id l it.pos M

/-- 257-261 `operator*`. -/
def Iter.deref (h : Heap (FLeaf M K V)) (it : BTree.Iter) : Res (K × V) := do
  let id ← Res.ofOption it.node
  let l ← h.get id
  let k ← rdA M l.keys it.pos
  let v ← rdA M l.vals it.pos
  pure (k, v)

/-- `for (auto it = begin(); it != end(); ++it) use(*it);` with at most `n` rounds. -/
def iterate (c : FCfg K V) (s : State K (FLeaf M K V)) (n : Nat) : Res (List (K × V)) := do
  let it ← Iter.begin c s
  runIt (Iter.deref s.heap) (Iter.next s.heap) n it

/-! ## Lemmas -/

/-- The slots in use among `i, …, i + n - 1`. -/
def used (l : FLeaf M K V) (i n : Nat) : List Nat := (List.range' i n).filter (Bitmap.bit l.bits)

theorem used_succ (l : FLeaf M K V) (i n : Nat) :
    used l i (n + 1) = if Bitmap.bit l.bits i then i :: used l (i + 1) n else used l (i + 1) n := by
  unfold used
  rw [List.range'_succ, List.filter_cons]

theorem entsFrom_used (l : FLeaf M K V) : ∀ (n i : Nat),
    entsFrom l i n = (used l i n).map (fun p => (l.keys p, l.vals p))
  | 0, _ => rfl
  | n + 1, i => by
    rw [entsFrom, used_succ, entsFrom_used l n (i + 1)]
    split <;> rfl

theorem mem_used {l : FLeaf M K V} {i n p : Nat} (h : p ∈ used l i n) : i ≤ p ∧ p < i + n := by
  unfold used at h
  have := List.mem_range'_1.1 (List.mem_filter.1 h).1
  exact this

theorem seek_ok (l : FLeaf M K V) : ∀ (n i f : Nat) (p : Nat) (ps : List Nat), i + n = M → n < f →
    used l i n = p :: ps → seek l.bits i f = .ok p
  | 0, _, _, _, _, _, _, h => by simp [used] at h
  | n + 1, i, f + 1, p, ps, hi, hf, h => by
    rw [seek, show l.bits.test i = .ok (Bitmap.bit l.bits i) from Bitmap.test_eq _ (by omega), Res.ok_bind]
    rw [used_succ] at h
    by_cases hb : Bitmap.bit l.bits i = true
    · rw [if_pos hb] at h ⊢
      injection h with h1 h2
      rw [h1]; rfl
    · rw [if_neg hb] at h ⊢
      exact seek_ok l n (i + 1) f p ps (by omega) (by omega) h

theorem seek_empty (l : FLeaf M K V) : ∀ (n i f : Nat), i + n = M → n < f →
    used l i n = [] → seek l.bits i f = .throws
  | 0, i, f + 1, hi, _, _ => by
    rw [seek, Bitmap.test, if_pos (by omega)]; rfl
  | n + 1, i, f + 1, hi, hf, h => by
    rw [seek, show l.bits.test i = .ok (Bitmap.bit l.bits i) from Bitmap.test_eq _ (by omega), Res.ok_bind]
    rw [used_succ] at h
    by_cases hb : Bitmap.bit l.bits i = true
    · rw [if_pos hb] at h; cases h
    · rw [if_neg hb] at h ⊢
      exact seek_empty l n (i + 1) f (by omega) (by omega) h

theorem nextFrom_some {h : Heap (FLeaf M K V)} {id : Nat} (l : FLeaf M K V) : ∀ (n p f q : Nat) (qs : List Nat),
    p + 1 + n = M → n < f → used l (p + 1) n = q :: qs → Iter.nextFrom h id l p f = .ok ⟨some id, q⟩
  | 0, _, _, _, _, _, _, h => by simp [used] at h
  | n + 1, p, f + 1, q, qs, hp, hf, hu => by
    rw [Iter.nextFrom, if_neg (by omega),
      show l.bits.test (p + 1) = .ok (Bitmap.bit l.bits (p + 1)) from Bitmap.test_eq _ (by omega), Res.ok_bind]
    rw [used_succ] at hu
    by_cases hb : Bitmap.bit l.bits (p + 1) = true
    · rw [if_pos hb] at hu ⊢
      injection hu with h1 h2
      rw [h1]; rfl
    · rw [if_neg hb] at hu ⊢
      exact nextFrom_some l n (p + 1) f q qs (by omega) (by omega) hu

theorem nextFrom_none {h : Heap (FLeaf M K V)} {id : Nat} (l : FLeaf M K V) : ∀ (n p f : Nat),
    p + 1 + n = M → n < f → used l (p + 1) n = [] → Iter.nextFrom h id l p f = Iter.start h (h.next id)
  | 0, p, f + 1, hp, _, _ => by rw [Iter.nextFrom, if_pos (by omega)]
  | n + 1, p, f + 1, hp, hf, hu => by
    rw [Iter.nextFrom, if_neg (by omega),
      show l.bits.test (p + 1) = .ok (Bitmap.bit l.bits (p + 1)) from Bitmap.test_eq _ (by omega), Res.ok_bind]
    rw [used_succ] at hu
    by_cases hb : Bitmap.bit l.bits (p + 1) = true
    · rw [if_pos hb] at hu; cases hu
    · rw [if_neg hb] at hu ⊢
      exact nextFrom_none l n (p + 1) f (by omega) (by omega) hu

theorem next_eq {h : Heap (FLeaf M K V)} {id p : Nat} {l : FLeaf M K V} (hl : h.data id = some l) :
    Iter.next h ⟨some id, p⟩ = Iter.nextFrom h id l p M := by
  unfold Iter.next
  simp only [Res.ofOption_some, Res.ok_bind, Heap.get, hl]

theorem visits {h : Heap (FLeaf M K V)} {id : Nat} {l : FLeaf M K V} (hl : h.data id = some l) :
    ∀ (n i : Nat), i + n = M → used l i n ≠ [] → Visits h (Iter.next h) (Iter.start h) id (used l i n)
  | 0, _, _, hne => by simp [used] at hne
  | n + 1, i, hi, hne => by
    rw [used_succ] at hne ⊢
    by_cases hb : Bitmap.bit l.bits i = true
    · rw [if_pos hb]
      cases hu : used l (i + 1) n with
      | nil =>
        show Iter.next h ⟨some id, i⟩ = _
        rw [next_eq hl, nextFrom_none l n i M (by omega) (by omega) hu]
      | cons q qs =>
        refine ⟨?_, ?_⟩
        · rw [next_eq hl, nextFrom_some l n i M q qs (by omega) (by omega) hu]
        · rw [← hu]
          exact visits hl n (i + 1) (by omega) (by rw [hu]; simp)
    · rw [if_neg hb] at hne ⊢
      exact visits hl n (i + 1) (by omega) hne

/-- Iterating over a non-empty good tree visits the same entries in the same order as `scan`. -/
theorem iterate_good (F : FLaws c adm) (hM : 2 ≤ M) {lm bm rm : Nat} (hlm : 1 ≤ lm)
    {s : State K (FLeaf M K V)} (g : Good (fpLaws F hM) lm bm rm s) (hne : cont (fpLaws F hM) s ≠ []) :
    ∃ es, scan (fpOps c M) s = .ok es ∧ ∀ n, es.length ≤ n → iterate c s n = .ok es := by
  obtain ⟨es, e, hes, _⟩ := scan_good (fpScan F hM) g
  refine ⟨es, e, ?_⟩
  obtain ⟨id, rest, el, hi⟩ := leftmost_spec _ _ _ _ _ g.bt
  have hok := g.leaves_nonempty hlm hne
  obtain ⟨it, hs, hr⟩ := run_chain (h := s.heap) (deref := Iter.deref s.heap) (next := Iter.next s.heap)
    (start := Iter.start s.heap) g.wf (fun l => used l 0 M) (fun l p => (l.keys p, l.vals p)) rfl
    (fun i hi' => by
      obtain ⟨l, hl, _, hlen⟩ := hok i hi'
      have hlen' : 1 ≤ l.abs.length := hlen
      rw [(abs_perm l).length_eq, ents, entsFrom_used, List.length_map] at hlen'
      cases hu : used l 0 M with
      | nil => rw [hu] at hlen'; simp at hlen'
      | cons p ps =>
        refine ⟨l, p, ps, hl, hu, ?_, ?_, ?_⟩
        · unfold Iter.start
          simp only [Heap.get, hl, Res.ofOption_some, Res.ok_bind]
          rw [seek_ok l M 0 (M + 1) p ps (by omega) (by omega) hu]; rfl
        · exact visits hl M 0 (by omega) (by rw [hu]; simp)
        · intro q hq
          have := mem_used hq
          unfold Iter.deref
          simp only [Res.ofOption_some, Res.ok_bind, Heap.get, hl]
          rw [rdA_ok (by omega), Res.ok_bind, rdA_ok (by omega)]; rfl)
    (id :: rest) [] (by rw [hi]; rfl)
  intro n hn
  have hes' : es = (id :: rest).flatMap (fun i => (s.heap.data i).elim [] (fun l =>
      (used l 0 M).map (fun p => (l.keys p, l.vals p)))) := by
    rw [hes, hi]
    congr 1
    funext i
    cases s.heap.data i with
    | none => rfl
    | some l => exact entsFrom_used l M 0
  unfold iterate Iter.begin
  rw [show leftmost (fpOps c M) s.depth s.root = .ok id from el, Res.ok_bind]
  have hs' : Iter.start s.heap (some id) = .ok it := hs
  rw [hs', Res.ok_bind]
  rw [hes'] at hn ⊢
  exact hr n hn

/-- `begin()` on an empty tree throws. -/
theorem iterate_empty (F : FLaws c adm) (hM : 2 ≤ M) {lm bm rm : Nat} (hlm : 1 ≤ lm)
    {s : State K (FLeaf M K V)} (g : Good (fpLaws F hM) lm bm rm s) (he : cont (fpLaws F hM) s = []) (n : Nat) :
    iterate c s n = .throws := by
  obtain ⟨id, l, el, hl, _, ha⟩ := g.empty_leaf hlm he
  have ha' : l.abs.length = 0 := by rw [show l.abs = [] from ha]; rfl
  rw [(abs_perm l).length_eq, ents, entsFrom_used, List.length_map] at ha'
  unfold iterate Iter.begin
  rw [show leftmost (fpOps c M) s.depth s.root = .ok id from el, Res.ok_bind]
  unfold Iter.start
  simp only [Heap.get, hl, Res.ofOption_some, Res.ok_bind]
  rw [seek_empty l M 0 (M + 1) (by omega) (by omega) (List.length_eq_zero_iff.1 ha')]
  rfl

end Verif.FPTree
