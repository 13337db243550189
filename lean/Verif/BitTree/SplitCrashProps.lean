import Verif.BitTree.SplitCrashTree
import Verif.BitTree.CrashProps

/-!
# C103, C104: crashes in inserts that split a leaf of BitHPBPTree and BitPBPTree

`c.move = false` is BitHPBPTree, `c.move = true` is BitPBPTree.  The specification is `last` (the last value inserted for a
key) with `Verif.CrashSpec`.
-/

set_option linter.unusedSectionVars false

namespace Verif.BitTree

open Verif Search FPTree BTree CrashSpec

variable {K V : Type} {M : Nat} [LinearOrder K] [Inhabited K] {c : Cfg K V} {adm : K → Prop}

/-- `y` is one of the keys of the full leaf `x` from `sk` on. -/
def UpperKey (x : Cell M K V) (sk y : K) : Prop := sk ≤ y ∧ ∃ p, p < M ∧ x.leaf.keys p = y

theorem last_append (xs : List (K × V)) (k : K) (v : V) (y : K) : last (xs ++ [(k, v)]) y = if y = k then some v else last xs y := by
  unfold last
  rw [List.foldl_append]
  simp only [List.foldl_cons, List.foldl_nil]
  by_cases h : k = y
  · subst h; simp
  · rw [if_neg h, if_neg fun e => h e.symm]

/-- C103 in full: an insert that splits a leaf of BitHPBPTree is atomic — after a crash at any point and a restart the
lookups are those before or those after the insert.  The numbers of leaves for which `recover` fails without any crash
(C64) are excluded. -/
def C103_statement (N M : Nat) : Prop :=
  ∀ (jk jv : Nat → Int) (xs : List (Int × Int)) (t : Store (cfgInt N false jk jv) M),
    (∀ x ∈ xs, 0 ≤ x.1 ∧ x.1 < 2 ^ 31 - 1) → insertAll xs (Store.empty (cfgInt N false jk jv) M) = .ok t →
    ∀ k v id x, 0 ≤ k ∧ k < 2 ^ 31 - 1 → last xs k = none → Full t k id x →
    ZeroFree N t.heap.length → ZeroFree N (t.heap.length + 1) →
    ∀ q, ∃ t' t'', crashSplit t k v q = .ok t' ∧ t'.recover = .ok t'' ∧
      BeforeOrAfterOn (fun k => 0 ≤ k ∧ k < 2 ^ 31 - 1) t''.lookup (last xs) (last (xs ++ [(k, v)]))

/-- C103, exactly.  `L` is the number of the change that links the sibling.  From the second change on (the bits of the
split leaf) until then the keys from the split key on are lost; before and afterwards all keys are there, and from the
last change on so is the new one.  With all changes done the leaves are those that the insert leaves.  Missing: the keys
lost in between (`C103_refuted`). -/
theorem C103_split_crash_partial (F : Laws c adm) (hmv : c.move = false) (hM : 2 ≤ M) (hm : M % 64 ≠ 0) (hN : 2 ≤ c.N)
    (hN64 : c.N % 64 ≠ 0) (xs : List (K × V)) (hx : ∀ x ∈ xs, adm x.1) {t : Store c M}
    (e : insertAll xs (Store.empty c M) = .ok t) (k : K) (hk : adm k) (hnew : last xs k = none) (v : V) (id : Nat) (x : Cell M K V)
    (hf : Full t k id x) :
    ∃ sk L, (∃ p, p < M ∧ x.leaf.keys p = sk) ∧ (∃ p, p < M ∧ x.leaf.keys p < sk) ∧ L = (if x.next = none then 4 else 6) ∧
      (∀ q, ∃ t' t'', crashSplit t k v q = .ok t' ∧ t'.recover = .ok t'' ∧
        (ZeroFree c.N (if q < L then t.heap.length else t.heap.length + 1) → ∀ y, adm y →
          (2 ≤ q ∧ q < L ∧ UpperKey x sk y → t''.lookup y = .ok none) ∧
          (¬ (2 ≤ q ∧ q < L ∧ UpperKey x sk y) →
            t''.lookup y = .ok (if L + 4 ≤ q then last (xs ++ [(k, v)]) y else last xs y)))) ∧
      ∃ t2, t.insert k v = .ok t2 ∧ ∀ q, L + 4 ≤ q → ∃ t', crashSplit t k v q = .ok t' ∧ t2.heap = t'.heap := by
  have hm' : c.move = false → M % 64 ≠ 0 := fun _ => hm
  obtain ⟨ht, E, ids, hc⟩ := insertAll_chain F hM hm' hN hN64 xs _ t (tok_empty c M) ⟨_, _, chain_empty c M⟩ hx e
  obtain ⟨_, hh⟩ := insertAll_has F hM hm' hN hN64 hx e
  obtain ⟨sk, h1, h2, h3, t2, h4, h5⟩ := split_crash_law F hM hm' hN hN64 ht hc hh hk hnew hf v
  have hL : linkedAt c x sk = if x.next = none then 4 else 6 := by
    unfold linkedAt movesLen linkAt
    rw [hmv]
    cases x.next <;> rfl
  have hS := linked_lt_split c x sk
  refine ⟨sk, linkedAt c x sk, h1, h2, hL, fun q => ?_, t2, h4, fun q hq => h5 q (by omega)⟩
  obtain ⟨t', e1, _, t'', e2, h6, _⟩ := h3 q
  refine ⟨t', t'', e1, e2, fun hz y hy => ?_⟩
  obtain ⟨g1, g2⟩ := h6 hz
  have hlook := reads_of_has F g1 g2 y hy
  have hlost : y ∈ lostKeys c x.leaf sk q ↔ 2 ≤ q ∧ UpperKey x sk y := by
    unfold lostKeys UpperKey
    rw [hmv, if_neg (by decide)]
    split
    · simp; omega
    · rw [mem_upper]
      constructor
      · rintro ⟨p, g1, g2, g3⟩; exact ⟨by omega, g3, p, g1, g2⟩
      · rintro ⟨_, g3, p, g1, g2⟩; exact ⟨p, g1, g2, g3⟩
  rw [hlook]
  unfold inList
  constructor
  · rintro ⟨a1, a2, a3⟩
    rw [if_neg (by omega), if_pos ⟨a2, hlost.2 ⟨a1, a3⟩⟩]
  · intro hn
    rw [if_neg (c := q < linkedAt c x sk ∧ _) (fun h => hn ⟨(hlost.1 h.2).1, h.1, (hlost.1 h.2).2⟩)]
    by_cases hq : linkedAt c x sk + 4 ≤ q
    · rw [if_pos hq, last_append]
      have : splitLen c x sk ≤ q := by omega
      simp [this]
    · rw [if_neg hq, if_neg (by omega)]

/-- Whatever the inserts: whenever a leaf of BitHPBPTree is full, every crash between the bits of the split leaf and the
link to the sibling loses stored keys. -/
theorem C103_always_loses (F : Laws c adm) (hmv : c.move = false) (hM : 2 ≤ M) (hm : M % 64 ≠ 0) (hN : 2 ≤ c.N)
    (hN64 : c.N % 64 ≠ 0) (xs : List (K × V)) (hx : ∀ x ∈ xs, adm x.1) {t : Store c M}
    (e : insertAll xs (Store.empty c M) = .ok t) (k : K) (hk : adm k) (hnew : last xs k = none) (v : V) (id : Nat) (x : Cell M K V)
    (hf : Full t k id x) (hz : ZeroFree c.N t.heap.length) (q : Nat) (h2 : 2 ≤ q) (h3 : q ≤ 3) :
    ∃ y t' t'', adm y ∧ last xs y ≠ none ∧ crashSplit t k v q = .ok t' ∧ t'.recover = .ok t'' ∧ t''.lookup y = .ok none := by
  obtain ⟨sk, L, ⟨p, hp, rfl⟩, _, hL, hq, _⟩ := C103_split_crash_partial F hmv hM hm hN hN64 xs hx e k hk hnew v id x hf
  obtain ⟨t', t'', e1, e2, hr⟩ := hq q
  have hm' : c.move = false → M % 64 ≠ 0 := fun _ => hm
  obtain ⟨ht, hh⟩ := insertAll_has F hM hm' hN hN64 hx e
  have hidfp := findLeaf_fp F _ _ _ _ _ (fun _ h => h) ht.ok hk hf.find
  obtain ⟨x', hx', _, hhas⟩ := core_fp _ _ _ ht.ok id hidfp
  rw [hf.cell] at hx'
  cases hx'
  obtain ⟨ha, hha⟩ := hhas _ _ ⟨p, hp, hf.bits p hp, rfl, rfl⟩
  have hlt : q < L := by rw [hL]; split <;> omega
  rw [if_pos hlt] at hr
  refine ⟨_, t', t'', ha, ?_, e1, e2, (hr hz _ ha).1 ⟨h2, hlt, le_refl _, p, hp, rfl⟩⟩
  rw [(hh _ _).1 hha]; simp

/-- The inserts of the example fill the only leaf. -/
def splitXs : List (Int × Int) := [(40, 4), (10, 1), (30, 3), (20, 2)]

/-- The lookup of `y` after a crash in the insert of 35 and a recovery. -/
def splitEx (q : Nat) (y : Int) : Res (Option Int) := do
  let t ← insertAll splitXs (Store.empty (cEx false) 4)
  let t' ← crashSplit t 35 7 q
  let t'' ← t'.recover
  t''.lookup y

/-- The leaf holds 40, 10, 30, 20; 30 and 40 are lost after two and three changes and back after four; 35 is there
after eight. -/
example : [splitEx 1 40, splitEx 2 40, splitEx 3 30, splitEx 3 20, splitEx 4 40, splitEx 4 30, splitEx 7 35, splitEx 8 35] =
    [.ok (some 4), .ok none, .ok none, .ok (some 2), .ok (some 4), .ok (some 3), .ok none, .ok (some 7)] := by
  decide +kernel

theorem splitXs_full (mv : Bool) : ∃ t x, insertAll splitXs (Store.empty (cEx mv) 4) = .ok t ∧ Full t 35 0 x ∧ t.heap.length = 1 := by
  cases mv
  all_goals
    refine ⟨_, _, rfl, ⟨rfl, rfl, ?_⟩, rfl⟩
    decide +kernel

/-- C103 is false for `BitHPBPTree<int, int, 3, 4>`. -/
theorem C103_refuted : ¬ C103_statement 3 4 := by
  intro h
  obtain ⟨t, x, e, hf, hl⟩ := splitXs_full false
  obtain ⟨t', t'', e1, e2, hb⟩ := h (fun _ => 0) (fun _ => 0) splitXs t (by decide) e 35 7 0 x (by decide) (by decide) hf
    (by rw [hl]; exact zeroFree_small (by omega) (by omega)) (by rw [hl]; exact zeroFree_small (by omega) (by omega)) 2
  have he : splitEx 2 40 = .ok none := by decide +kernel
  unfold splitEx at he
  have e : insertAll splitXs (Store.empty (cEx false) 4) = .ok t := e
  have e1 : crashSplit (c := cEx false) t 35 7 2 = .ok t' := e1
  have e2 : Store.recover (c := cEx false) t' = .ok t'' := e2
  rw [e, Res.ok_bind, e1, Res.ok_bind, e2, Res.ok_bind] at he
  rcases hb with hb | hb
  all_goals
    have := hb 40 (by decide)
    have he : Store.lookup t'' 40 = .ok none := he
    rw [he] at this
    revert this; decide

/-! ## C104 -/

/-- C104 in full: as long as an insert into BitPBPTree has changed leaves only, the lookups after a crash are those before or
those after the insert. -/
def C104_statement (N M : Nat) : Prop :=
  ∀ (jk jv : Nat → Int) (xs : List (Int × Int)) (t : Store (cfgInt N true jk jv) M),
    (∀ x ∈ xs, 0 ≤ x.1 ∧ x.1 < 2 ^ 31 - 1) → insertAll xs (Store.empty (cfgInt N true jk jv) M) = .ok t →
    ∀ k v id x, 0 ≤ k ∧ k < 2 ^ 31 - 1 → last xs k = none → Full t k id x →
    ∀ q, ∃ t', crashSplit t k v q = .ok t' ∧
      BeforeOrAfterOn (fun k => 0 ≤ k ∧ k < 2 ^ 31 - 1) t'.lookup (last xs) (last (xs ++ [(k, v)]))

/-- `moved` are the keys of the full leaf from the split key on. -/
structure Moved (x : Cell M K V) (sk : K) (moved : List K) : Prop where
  nodup : moved.Nodup
  mem : ∀ y, y ∈ moved ↔ UpperKey x sk y

/-- C104, exactly.  Four changes move a key to the sibling; after `q` changes the first `(q - 1) / 4` of the moved keys
are lost, and they stay lost after the sibling is linked, because the branch nodes do not lead to it.  The new key is
found after the last change if it goes to the left leaf, and not at all otherwise.  With all changes done the leaves
are those that the insert leaves.  Missing: the keys lost (`C104_refuted`). -/
theorem C104_split_crash_partial (F : Laws c adm) (hmv : c.move = true) (hM : 2 ≤ M) (hN : 2 ≤ c.N)
    (hN64 : c.N % 64 ≠ 0) (xs : List (K × V)) (hx : ∀ x ∈ xs, adm x.1) {t : Store c M}
    (e : insertAll xs (Store.empty c M) = .ok t) (k : K) (hk : adm k) (hnew : last xs k = none) (v : V) (id : Nat) (x : Cell M K V)
    (hf : Full t k id x) :
    ∃ sk moved S, Moved x sk moved ∧ sk ∈ moved ∧ (∃ p, p < M ∧ x.leaf.keys p < sk) ∧
      S = 4 * moved.length + (if x.next = none then 6 else 8) ∧
      (∀ q, ∃ t', crashSplit t k v q = .ok t' ∧ ∀ y, adm y →
        (y ∈ moved.take ((q - 1) / 4) → t'.lookup y = .ok none) ∧
        (y ∉ moved.take ((q - 1) / 4) →
          (y = k → S ≤ q → (∃ p, p < M ∧ k < x.leaf.keys p ∧ x.leaf.keys p < sk) → t'.lookup y = .ok (some v)) ∧
          (¬ (y = k ∧ S ≤ q ∧ ∃ p, p < M ∧ k < x.leaf.keys p ∧ x.leaf.keys p < sk) → t'.lookup y = .ok (last xs y)))) ∧
      ∃ t2, t.insert k v = .ok t2 ∧ ∀ q, S ≤ q → ∃ t', crashSplit t k v q = .ok t' ∧ t2.heap = t'.heap := by
  have hm' : c.move = false → M % 64 ≠ 0 := fun h => by rw [hmv] at h; cases h
  obtain ⟨ht, E, ids, hc⟩ := insertAll_chain F hM hm' hN hN64 xs _ t (tok_empty c M) ⟨_, _, chain_empty c M⟩ hx e
  obtain ⟨_, hh⟩ := insertAll_has F hM hm' hN hN64 hx e
  obtain ⟨sk, h1, h2, h3, t2, h4, h5⟩ := split_crash_law F hM hm' hN hN64 ht hc hh hk hnew hf v
  have hidfp := findLeaf_fp F _ _ _ _ _ (fun _ h => h) ht.ok hk hf.find
  obtain ⟨x', hx', hlok, hhas⟩ := core_fp _ _ _ ht.ok id hidfp
  rw [hf.cell] at hx'
  cases hx'
  have hS : splitLen c x sk = 4 * (upper x.leaf sk).length + (if x.next = none then 6 else 8) := by
    unfold splitLen movesLen linkAt
    rw [hmv, if_pos rfl]
    cases x.next <;> simp <;> omega
  refine ⟨sk, upper x.leaf sk, splitLen c x sk, ⟨?_, fun y => ?_⟩, ?_, h2, hS, fun q => ?_, t2, h4, h5⟩
  · exact movedKeys_nodup (fun p q hp hq => hlok.inj p q hp hq (hf.bits p hp) (hf.bits q hq)) M 0 (by omega)
  · rw [mem_upper]
    unfold UpperKey
    constructor
    · rintro ⟨p, g1, g2, g3⟩; exact ⟨g3, p, g1, g2⟩
    · rintro ⟨g3, p, g1, g2⟩; exact ⟨p, g1, g2, g3⟩
  · obtain ⟨p, hp, rfl⟩ := h1
    exact mem_upper.2 ⟨p, hp, rfl, le_refl _⟩
  · obtain ⟨t', e1, h6, _⟩ := h3 q
    refine ⟨t', e1, fun y hy => ?_⟩
    have hl := h6 y hy
    have hlk : lostKeys c x.leaf sk q = (upper x.leaf sk).take ((q - 1) / 4) := by
      unfold lostKeys
      rw [hmv, if_pos rfl]
    unfold onOld at hl
    rw [hlk] at hl
    refine ⟨fun h => by rw [hl, if_pos h], fun h => ⟨fun a1 a2 a3 => ?_, fun h' => ?_⟩⟩
    · rw [hl, if_neg h, if_pos ⟨a1, a2, a3⟩]
    · rw [hl, if_neg h, if_neg (c := y = k ∧ splitLen c x sk ≤ q ∧ goesLeft x.leaf sk k) h']

/-- Whatever the inserts: whenever a leaf of BitPBPTree is full, a crash after the leaves have been changed and before the
branch nodes are loses every key from the split key on, although all of them are in a leaf. -/
theorem C104_always_loses (F : Laws c adm) (hmv : c.move = true) (hM : 2 ≤ M) (hN : 2 ≤ c.N)
    (hN64 : c.N % 64 ≠ 0) (xs : List (K × V)) (hx : ∀ x ∈ xs, adm x.1) {t : Store c M}
    (e : insertAll xs (Store.empty c M) = .ok t) (k : K) (hk : adm k) (hnew : last xs k = none) (v : V) (id : Nat) (x : Cell M K V)
    (hf : Full t k id x) :
    ∃ sk t' t2, (∃ p, p < M ∧ x.leaf.keys p = sk) ∧ t.insert k v = .ok t2 ∧ crashSplit t k v (4 * M + 8) = .ok t' ∧ t2.heap = t'.heap ∧
      ∀ y, UpperKey x sk y → adm y ∧ last xs y ≠ none ∧ t'.lookup y = .ok none := by
  have hm' : c.move = false → M % 64 ≠ 0 := fun h => by rw [hmv] at h; cases h
  obtain ⟨ht, hh⟩ := insertAll_has F hM hm' hN hN64 hx e
  have hidfp := findLeaf_fp F _ _ _ _ _ (fun _ h => h) ht.ok hk hf.find
  obtain ⟨x', hx', hlok, hhas⟩ := core_fp _ _ _ ht.ok id hidfp
  rw [hf.cell] at hx'
  cases hx'
  obtain ⟨sk, moved, S, hmo, hne, _, hS, hq, t2, h4, h5⟩ := C104_split_crash_partial F hmv hM hN hN64 xs hx e k hk hnew v id x hf
  have hlen : moved.length ≤ M := by
    have hsub : moved ⊆ (List.range M).map x.leaf.keys := by
      intro y hy
      obtain ⟨_, p, hp, rfl⟩ := (hmo.mem y).1 hy
      exact List.mem_map.2 ⟨p, List.mem_range.2 hp, rfl⟩
    have := (hmo.nodup.subperm hsub).length_le
    simpa using this
  have hSq : S ≤ 4 * M + 8 := by rw [hS]; split <;> omega
  obtain ⟨t', e1, h6⟩ := hq (4 * M + 8)
  obtain ⟨t1, e2, h7⟩ := h5 (4 * M + 8) hSq
  rw [e1] at e2
  cases Res.ok.inj e2
  refine ⟨sk, t', t2, ((hmo.mem sk).1 hne).2, h4, e1, h7, fun y hy => ?_⟩
  · obtain ⟨p, hp, rfl⟩ := hy.2
    obtain ⟨ha, hha⟩ := hhas _ _ ⟨p, hp, hf.bits p hp, rfl, rfl⟩
    refine ⟨ha, by rw [(hh _ _).1 hha]; simp, (h6 _ ha).1 ?_⟩
    rw [List.take_of_length_le (by omega)]
    exact (hmo.mem _).2 hy

/-- The lookup of `y` after a crash in the insert of `k`. -/
def splitExP (k : Int) (q : Nat) (y : Int) : Res (Option Int) := do
  let t ← insertAll splitXs (Store.empty (cEx true) 4)
  let t' ← crashSplit t k 7 q
  t'.lookup y

/-- 40 is lost after five changes, 30 after nine, and both stay lost; 35 goes to the sibling and is not found, 15 goes to
the left leaf and is. -/
example : [splitExP 35 4 40, splitExP 35 5 40, splitExP 35 5 30, splitExP 35 9 30, splitExP 35 14 40, splitExP 35 14 20, splitExP 35 14 35,
      splitExP 15 13 15, splitExP 15 14 15] =
    [.ok (some 4), .ok none, .ok (some 3), .ok none, .ok none, .ok (some 2), .ok none, .ok none, .ok (some 7)] := by
  decide +kernel

/-- C104 is false for `BitPBPTree<int, int, 3, 4>`. -/
theorem C104_refuted : ¬ C104_statement 3 4 := by
  intro h
  obtain ⟨t, x, e, hf, hl⟩ := splitXs_full true
  obtain ⟨t', e1, hb⟩ := h (fun _ => 0) (fun _ => 0) splitXs t (by decide) e 35 7 0 x (by decide) (by decide) hf 5
  have he : splitExP 35 5 40 = .ok none := by decide +kernel
  unfold splitExP at he
  have e : insertAll splitXs (Store.empty (cEx true) 4) = .ok t := e
  have e1 : crashSplit (c := cEx true) t 35 7 5 = .ok t' := e1
  rw [e, Res.ok_bind, e1, Res.ok_bind] at he
  rcases hb with hb | hb
  all_goals
    have := hb 40 (by decide)
    have he : Store.lookup t' 40 = .ok none := he
    rw [he] at this
    revert this; decide

end Verif.BitTree
