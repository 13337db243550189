import Verif.SkipList.Inv
import Verif.MapSpec

/-!
# Property theorems for simplePSkiplist (C27, C28)

`L` is `MAX_LEVEL`; a history is a list of inserts with the outcomes of the random number generator.
-/

namespace Verif.SkipListProps

open Verif SkipList MapSpec

variable {K V : Type} [LinearOrder K] [Inhabited V]

/-- An insert together with the result of `rnd->Uniform(MAX_LEVEL)`. -/
structure Ins (K V : Type) where
  key : K
  val : V
  rnd : Nat

/-- A history of inserts. -/
def execAll (L : Nat) : SL K V → List (Ins K V) → Res (List Bool × SL K V)
  | s, [] => .ok ([], s)
  | s, i :: is => do
    let r ← insert L s i.key i.val i.rnd
    let r' ← execAll L r.2 is
    pure (r.1 :: r'.1, r'.2)

/-- The inserts without the random numbers. -/
def ops (is : List (Ins K V)) : List (Op K V) := is.map fun i => .insert i.key i.val

/-- What the inserts should return: whether the key is new. -/
def news : (K → Option V) → List (Ins K V) → List Bool
  | _, [] => []
  | m, i :: is => (m i.key).isNone :: news (step m (.insert i.key i.val)) is

/-- The random numbers are in the range of `Uniform(MAX_LEVEL)`. -/
def InRange (L : Nat) (is : List (Ins K V)) : Prop := ∀ i ∈ is, i.rnd < L

/-- The first insert is not one of the smallest key value. -/
def FirstAbove (minKey : K) (is : List (Ins K V)) : Prop := ∀ i ∈ is.head?, i.key ≠ minKey

omit [Inhabited V] in
theorem execAll_ok {L : Nat} (hL : 2 ≤ L) {minKey : K} {c : Nat} : ∀ (is : List (Ins K V)) (s : SL K V) (m : K → Option V)
    (lst : Nat → List Nat) (key : Nat → K) (val : Nat → V),
    Inv L minKey c s lst key val → Stores lst key val m → InRange L is →
    ((∃ x, m x ≠ none) ∨ FirstAbove minKey is) →
    ∃ s' lst' key' val', execAll L s is = .ok (news m is, s') ∧ Inv L minKey c s' lst' key' val' ∧
      Stores lst' key' val' (run m (ops is))
  | [], s, m, lst, key, val, I, h, _, _ => ⟨s, lst, key, val, rfl, I, h⟩
  | i :: is, s, m, lst, key, val, I, h, hr, hf => by
    have hnd : ¬ Dropped minKey i.key m := by
      rintro ⟨h1, h2⟩
      rcases hf with ⟨x, hx⟩ | hf
      · exact hx (h2 x)
      · exact hf i rfl h1
    obtain ⟨s1, lst1, key1, val1, e1, I1, h1⟩ := (I.insert h i.key i.val (hr i (by simp)) hL).2 hnd
    obtain ⟨s', lst', key', val', e', I', h'⟩ := execAll_ok hL is s1 _ lst1 key1 val1 I1 h1
      (fun j hj => hr j (List.mem_cons_of_mem _ hj)) (Or.inl ⟨i.key, by simp⟩)
    refine ⟨s', lst', key', val', ?_, I', h'⟩
    rw [execAll, e1, Res.ok_bind, e', Res.ok_bind]
    rfl

omit [LinearOrder K] in
theorem init_stores (minKey : K) :
    Stores (fun _ => ([] : List Nat)) (fun _ => minKey) (fun _ => (default : V)) (empty : K → Option V) := by
  intro k v
  simp [empty]

/-! ## C27 -/

/-- C27. For all outcomes of the random numbers, `insert` tells whether the key is new, and `search` finds
exactly the inserted keys with the value of their last insert, provided that the first insert is not one of
`std::numeric_limits<KeyType>::min()`. -/
theorem C27_insert_search (L : Nat) (hL : 2 ≤ L) (minKey : K) (is : List (Ins K V)) (hr : InRange L is)
    (hf : FirstAbove minKey is) :
    ∃ s, execAll L (init minKey L) is = .ok (news empty is, s) ∧
      ∀ k, search L s k = .ok (run empty (ops is) k) := by
  obtain ⟨s, lst, key, val, e, I, h⟩ := execAll_ok hL is (init minKey L) empty _ _ _ (init_inv minKey (by omega))
    (init_stores minKey) hr (Or.inr hf)
  exact ⟨s, e, fun k => I.search h k⟩

/-- Why the first insert is restricted: the smallest key value is not stored in an empty list. -/
theorem C27_min_key_dropped (L : Nat) (hL : 2 ≤ L) (minKey : K) (v : V) (r : Nat) (hr : r < L) :
    ∃ s, insert L (init minKey L) minKey v r = .ok (false, s) ∧ search L s minKey = .ok (none : Option V) := by
  obtain ⟨s, e, I⟩ := ((init_inv (V := V) minKey (show 1 ≤ L by omega)).insert (init_stores minKey) minKey v hr hL).1
    ⟨rfl, fun _ => rfl⟩
  exact ⟨s, e, I.search (init_stores minKey) minKey⟩

/-- Why `MAX_LEVEL` must be at least two: with one level, the second insert reads behind the array. -/
theorem C27_one_level (minKey k k' : K) (v v' : V) (h : k ≠ minKey) :
    execAll 1 (init minKey 1) [⟨k, v, 0⟩, ⟨k', v', 0⟩] = .ub := by
  have h' : ¬ minKey = k := fun e => h e.symm
  simp [execAll, SkipList.insert, init, descend, SkipList.advance, fwdAt, SkipList.get, setUpd, put, randomLevel, fillHead, link, setFwd, h']

/-- Five inserts with different random levels; one key is inserted twice. -/
def sample : List (Ins Nat Nat) := [⟨5, 50, 3⟩, ⟨2, 20, 0⟩, ⟨9, 90, 1⟩, ⟨2, 21, 2⟩, ⟨0, 1, 2⟩]

example : InRange 4 sample ∧ FirstAbove 0 sample ∧ news empty sample = [true, true, true, false, true] ∧
    run empty (ops sample) 2 = some 21 := by
  refine ⟨?_, ?_, by decide, by decide⟩
  · simp [InRange, sample]
  · intro i hi
    simp [sample] at hi
    subst hi
    decide

/-! ## C28 -/

/-- C28. At all times every level is a list with strictly increasing keys, the entries of level `i + 1` are a
sublist of those of level `i`, level 0 has exactly the entries of the map, and `nodeCount` is its length. -/
theorem C28_levels (L : Nat) (hL : 2 ≤ L) (minKey : K) (is : List (Ins K V)) (hr : InRange L is)
    (hf : FirstAbove minKey is) :
    ∃ s, ∃ lv : Nat → List (K × V), execAll L (init minKey L) is = .ok (news empty is, s) ∧
      (∀ i, i < L → levelList L s i = .ok (lv i)) ∧
      (∀ i, (lv i).Pairwise (fun a b => a.1 < b.1)) ∧
      (∀ i, (lv (i + 1)).Sublist (lv i)) ∧
      (∀ k v, (k, v) ∈ lv 0 ↔ run empty (ops is) k = some v) ∧
      s.nodeCount = (lv 0).length := by
  obtain ⟨s, lst, key, val, e, I, h⟩ := execAll_ok hL is (init minKey L) empty _ _ _ (init_inv minKey (by omega))
    (init_stores minKey) hr (Or.inr hf)
  refine ⟨s, fun i => (lst i).map fun a => (key a, val a), e, fun i hi => I.levelList hi, fun i => ?_, fun i => ?_,
    fun k v => ?_, ?_⟩
  · rw [List.pairwise_map]; exact I.sortedAt i
  · exact (I.sub i).map _
  · rw [h k v, List.mem_map]
    constructor
    · rintro ⟨a, ha, e⟩
      exact ⟨a, ha, congrArg Prod.fst e, congrArg Prod.snd e⟩
    · rintro ⟨a, ha, rfl, rfl⟩
      exact ⟨a, ha, rfl⟩
  · rw [List.length_map]; exact I.count

example : (do
    let r ← execAll 4 (init 0 4) sample
    let l0 ← levelList 4 r.2 0
    let l1 ← levelList 4 r.2 1
    let l2 ← levelList 4 r.2 2
    pure (l0, l1, l2)) =
    Res.ok ([(0, 1), (2, 21), (5, 50), (9, 90)], [(0, 1), (5, 50)], [(5, 50)]) := by decide

end Verif.SkipListProps
