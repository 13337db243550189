import Verif.BTree.SortedLaws
import Verif.BTree.Crash

/-!
# Crashes inside the leaf operations of PBPTree and HPBPTree

`insertInLeafNodeAtPosition` (P988-1010, H524-545) shifts the larger entries up by one slot, entry by entry,
then writes the new entry and at last `numKeys`; `eraseFromLeafNodeAtPosition` (P396-419, H710-727) shifts
the larger entries down and then writes `numKeys`.  Both run without a transaction.  Model of a crash:
the assignments become persistent one by one in program order, so that after a crash some prefix of
them has been done.
-/

set_option linter.unusedSectionVars false

namespace Verif.BTree

open Verif Search Assoc MapSpec

variable {K V : Type} [LinearOrder K] {c : SCfg K V}

/-- One assignment to an element of a leaf. -/
inductive SInstr (K V : Type) where
  /-- `keys[dst] = keys[src]` -/
  | copyKey (dst src : Nat)
  /-- `values[dst] = values[src]` -/
  | copyVal (dst src : Nat)
  /-- `keys[p] = key` -/
  | key (p : Nat) (k : K)
  /-- `values[p] = val` -/
  | val (p : Nat) (v : V)
  /-- `numKeys = n` -/
  | num (n : Nat)

/-- The effect of an assignment; accesses beyond `M` are out of bounds. -/
def SInstr.apply (M : Nat) (l : SLeaf K V) : SInstr K V → Res (SLeaf K V)
  | .copyKey d s => do
    let x ← Slots.rd M l.keys s
    let ks ← Slots.wr M l.keys d x
    pure { l with keys := ks }
  | .copyVal d s => do
    let x ← Slots.rd M l.vals s
    let vs ← Slots.wr M l.vals d x
    pure { l with vals := vs }
  | .key p k => do
    let ks ← Slots.wr M l.keys p k
    pure { l with keys := ks }
  | .val p v => do
    let vs ← Slots.wr M l.vals p v
    pure { l with vals := vs }
  | .num n => .ok { l with num := n }

/-- A sequence of assignments. -/
def SInstr.applyAll (M : Nat) : SLeaf K V → List (SInstr K V) → Res (SLeaf K V)
  | l, [] => .ok l
  | l, w :: ws => do
    let l ← w.apply M l
    applyAll M l ws

/-- P999-1007, H534-542: the assignments of `insertInLeafNodeAtPosition` in a leaf with `n` entries. -/
def insertInstrs (n p : Nat) (k : K) (v : V) : List (SInstr K V) :=
  (List.range (n - p)).flatMap (fun j => [.copyKey (n - j) (n - j - 1), .copyVal (n - j) (n - j - 1)]) ++
    [.key p k, .val p v, .num (n + 1)]

/-- P404-408, H716-720: the assignments of `eraseFromLeafNodeAtPosition` in a leaf with `n` entries. -/
def eraseInstrs (n p : Nat) : List (SInstr K V) :=
  (List.range (n - 1 - p)).flatMap (fun j => [.copyKey (p + j) (p + j + 1), .copyVal (p + j) (p + j + 1)]) ++
    [.num (n - 1)]

/-- The assignments of an insert of `k` without a split (P899-930, H443-474): overwriting the value
(P907, H451) or `insertInLeafNodeAtPosition`. -/
def insertProg (c : SCfg K V) (l : SLeaf K V) (k : K) (v : V) : Res (List (SInstr K V)) := do
  let p ← SLeaf.pos c l k
  let dup ← (if p < l.num then do
      let x ← Slots.rd c.M l.keys p
      pure (decide (x = k))
    else pure false)
  if dup then pure [.val p v] else pure (insertInstrs l.num p k v)

/-- The tree after a crash that follows the first `n` assignments of an insert without a split. -/
def crashInsert (c : SCfg K V) (s : State K (SLeaf K V)) (k : K) (v : V) (n : Nat) :
    Res (State K (SLeaf K V)) := do
  let id ← findLeaf (sortedOps c) s.depth s.root k
  let l ← s.heap.get id
  let ws ← insertProg c l k v
  let l' ← SInstr.applyAll c.M l (ws.take n)
  pure (withLeaf s id l')

/-- The tree after a crash that follows the first `n` assignments to the leaf of an erase of `k`. -/
def crashErase (c : SCfg K V) (s : State K (SLeaf K V)) (k : K) (n : Nat) : Res (State K (SLeaf K V)) := do
  let id ← findLeaf (sortedOps c) s.depth s.root k
  let l ← s.heap.get id
  let p ← SLeaf.pos c l k
  let x ← Slots.rd c.M l.keys p
  if x = k then do
    Res.guardUB (1 ≤ l.num)
    let l' ← SInstr.applyAll c.M l ((eraseInstrs l.num p).take n)
    pure (withLeaf s id l')
  else pure s

/-! ## Searching in arrays with duplicates -/

/-- The leaf search also works with duplicates: it finds some occurrence of the key. -/
def WSearch (c : SCfg K V) : Prop :=
  ∀ (rd : Nat → Res K) (n : Nat) (key : K) (a : Nat → K), (∀ i, i < n → rd i = .ok (a i)) →
    (∀ i j, i ≤ j → j < n → a i ≤ a j) →
    ∃ p, c.lsearch rd n key = .ok p ∧ ((p < n ∧ a p = key) ∨ ∀ i, i < n → a i ≠ key)

theorem bsLoop_weak (rd : Nat → Res K) (key : K) (k : Nat → K) (hi : Nat)
    (hrd : ∀ i, i < hi → rd i = .ok (k i)) (hsort : ∀ i j, i ≤ j → j < hi → k i ≤ k j)
    (fuel pos : Nat) (l r : Int) (hf : (r - l + 1).toNat ≤ fuel) (hl : (0 : Int) ≤ l) (hr : r < (hi : Int))
    (hlow : ∀ i : Nat, (i : Int) < l → i < hi → k i < key)
    (hhigh : ∀ i : Nat, i < hi → r < (i : Int) → key < k i) :
    ∃ c, bsLoop false rd key fuel pos l r = .ok c ∧ ((c < hi ∧ k c = key) ∨ ∀ i, i < hi → k i ≠ key) := by
  induction fuel generalizing pos l r with
  | zero =>
    rw [bsLoop, if_neg (by omega)]
    refine ⟨pos, rfl, Or.inr (fun i h => ?_)⟩
    by_cases h' : (i : Int) < l
    · exact (hlow i h' h).ne
    · exact (hhigh i h (by omega)).ne'
  | succ fuel ih =>
    rw [bsLoop]
    by_cases hle : l ≤ r
    · rw [if_pos hle]
      set p := ((l + r) / 2).toNat with hp
      have hpl : l ≤ (p : Int) := by omega
      have hpr : (p : Int) ≤ r := by omega
      rw [hrd p (by omega), Res.ok_bind]
      split
      · rename_i he
        exact ⟨p, rfl, Or.inl ⟨by omega, he⟩⟩
      · rename_i hne
        split
        · rename_i hlt
          refine ih (p + 1) ((p : Int) + 1) r (by omega) (by omega) hr ?_ hhigh
          intro i h1 h2
          exact lt_of_le_of_lt (hsort i p (by omega) (by omega)) hlt
        · rename_i hnlt
          have hgt : key < k p := lt_of_le_of_ne (not_lt.mp hnlt) (Ne.symm hne)
          refine ih p l ((p : Int) - 1) (by omega) hl (by omega) hlow ?_
          intro i h1 h2
          exact lt_of_lt_of_le hgt (hsort p i (by omega) h1)
    · rw [if_neg hle]
      refine ⟨pos, rfl, Or.inr (fun i h => ?_)⟩
      by_cases h' : (i : Int) < l
      · exact (hlow i h' h).ne
      · exact (hhigh i h (by omega)).ne'

theorem pb_wsearch (N M : Nat) : WSearch (pbCfg N M : SCfg K V) := fun rd n key a h1 h2 =>
  bsLoop_weak rd key a n h1 h2 _ 0 0 _ le_rfl le_rfl (by omega) (fun i h _ => by omega) (fun i h h' => by omega)

theorem hp_wsearch (N M : Nat) : WSearch (hpCfg N M : SCfg K V) := fun rd n key a h1 h2 =>
  bsLoop_weak rd key a n h1 h2 _ 0 0 _ le_rfl le_rfl (by omega) (fun i h _ => by omega) (fun i h h' => by omega)

/-- What the used slots of a leaf hold. -/
structure View (M : Nat) (l : SLeaf K V) (n : Nat) (a : Nat → K) (b : Nat → V) : Prop where
  num : l.num = n
  cap : n ≤ M
  keys : ∀ i, i < n → l.keys i = some (a i)
  vals : ∀ i, i < n → l.vals i = some (b i)
  sorted : ∀ i j, i ≤ j → j < n → a i ≤ a j

theorem View.lookup (hw : WSearch c) {l : SLeaf K V} {n : Nat} {a : Nat → K} {b : Nat → V}
    (h : View c.M l n a b) (x : K) :
    (∃ i, i < n ∧ a i = x ∧ l.lookup c x = .ok (some (b i))) ∨
      ((∀ i, i < n → a i ≠ x) ∧ l.lookup c x = .ok none) := by
  obtain ⟨hn, hc, hk, hv, hs⟩ := h
  obtain ⟨p, e, hp⟩ := hw (fun i => Slots.rd c.M l.keys i) l.num x a
    (fun i hi => Slots.rd_ok (by omega) (hk i (by omega))) (fun i j hij hj => hs i j hij (by omega))
  rw [hn] at hp
  unfold SLeaf.lookup SLeaf.pos
  rw [e, Res.ok_bind, hn]
  rcases hp with ⟨h1, h2⟩ | h2
  · left
    refine ⟨p, h1, h2, ?_⟩
    rw [if_pos h1, Slots.rd_ok (by omega) (hk p h1), Res.ok_bind, if_pos h2, Slots.rd_ok (by omega) (hv p h1)]
    rfl
  · right
    refine ⟨h2, ?_⟩
    by_cases h1 : p < n
    · rw [if_pos h1, Slots.rd_ok (by omega) (hk p h1), Res.ok_bind, if_neg (h2 p h1)]; rfl
    · rw [if_neg h1]; rfl

/-- Without duplicates. -/
theorem View.lookup_at (hw : WSearch c) {l : SLeaf K V} {n : Nat} {a : Nat → K} {b : Nat → V}
    (h : View c.M l n a b) {i : Nat} (hi : i < n) (hu : ∀ j, j < n → a j = a i → b j = b i) :
    l.lookup c (a i) = .ok (some (b i)) := by
  rcases h.lookup hw (a i) with ⟨j, hj, he, e⟩ | ⟨h', _⟩
  · rw [e, hu j hj he]
  · exact absurd rfl (h' i hi)

theorem View.lookup_none (hw : WSearch c) {l : SLeaf K V} {n : Nat} {a : Nat → K} {b : Nat → V}
    (h : View c.M l n a b) {x : K} (hx : ∀ i, i < n → a i ≠ x) : l.lookup c x = .ok none := by
  rcases h.lookup hw x with ⟨j, hj, he, _⟩ | ⟨_, e⟩
  · exact absurd he (hx j hj)
  · exact e

/-- The used slots of a well-formed leaf. -/
theorem LRep.view {M : Nat} {l : SLeaf K V} {es : List (K × V)} (h : LRep M l es) (k0 : K) (v0 : V) :
    ∃ a b, View M l es.length a b ∧ (∀ i j, i < j → j < es.length → a i < a j) ∧
      (∀ i, i < es.length → find (a i) es = some (b i)) ∧
      (∀ x, (∀ i, i < es.length → a i ≠ x) → find x es = none) := by
  have ha : ∀ i (hi : i < es.length), (l.keys i).getD k0 = es[i].1 := by
    intro i hi
    rw [h.keys i (by simpa using hi)]; simp [hi]
  have hb : ∀ i (hi : i < es.length), (l.vals i).getD v0 = es[i].2 := by
    intro i hi
    rw [h.vals i (by simpa using hi)]; simp [hi]
  have hlt : ∀ i j, i < j → j < es.length → (l.keys i).getD k0 < (l.keys j).getD k0 := by
    intro i j hij hj
    rw [ha i (by omega), ha j hj]
    exact List.pairwise_iff_getElem.1 h.sorted i j (by omega) hj hij
  refine ⟨fun i => (l.keys i).getD k0, fun i => (l.vals i).getD v0, ⟨h.num, h.cap, ?_, ?_, ?_⟩, hlt, ?_, ?_⟩
  · intro i hi
    rw [ha i hi, h.keys i (by simpa using hi)]; simp [hi]
  · intro i hi
    rw [hb i hi, h.vals i (by simpa using hi)]; simp [hi]
  · intro i j hij hj
    rcases Nat.lt_or_eq_of_le hij with h1 | h1
    · exact (hlt i j h1 hj).le
    · rw [h1]
  · intro i hi
    dsimp only
    rw [ha i hi, hb i hi]
    exact (mem_iff_find h.sorted).1 (List.getElem_mem hi)
  · intro x hx
    rw [find_eq_none]
    intro e he
    obtain ⟨i, hi, rfl⟩ := List.getElem_of_mem he
    rw [← ha i hi]; exact hx i hi

/-! ## Prefixes of the programs -/

theorem applyAll_append (M : Nat) : ∀ (ws : List (SInstr K V)) (l : SLeaf K V) (w : SInstr K V),
    SInstr.applyAll M l (ws ++ [w]) = (SInstr.applyAll M l ws >>= fun l => w.apply M l)
  | [], l, w => by
    rw [List.nil_append, SInstr.applyAll, SInstr.applyAll, Res.ok_bind]
    cases w.apply M l <;> rfl
  | u :: ws, l, w => by
    rw [List.cons_append, SInstr.applyAll, SInstr.applyAll, Res.bind_assoc']
    congr 1
    funext l
    exact applyAll_append M ws l w

theorem pairs_get {α : Type} (x y : Nat → α) (rest : List α) : ∀ (n t : Nat),
    ((List.range n).flatMap (fun j => [x j, y j]) ++ rest)[t]? =
      if t < 2 * n then some (if t % 2 = 0 then x (t / 2) else y (t / 2)) else rest[t - 2 * n]?
  | 0, t => by simp
  | n + 1, t => by
    rw [List.range_succ, List.flatMap_append, List.append_assoc, pairs_get x y _ n t]
    by_cases h : t < 2 * n
    · rw [if_pos h, if_pos (show t < 2 * (n + 1) by omega)]
    · rw [if_neg h]
      by_cases h0 : t = 2 * n
      · subst h0
        rw [if_pos (by omega), if_pos (by omega)]
        simp
      · by_cases h1 : t = 2 * n + 1
        · subst h1
          rw [if_pos (by omega), if_neg (by omega)]
          simp [show (2 * n + 1) / 2 = n by omega]
        · rw [if_neg (by omega)]
          obtain ⟨d, rfl⟩ : ∃ d, t = 2 * n + 2 + d := ⟨t - (2 * n + 2), by omega⟩
          simp [show 2 * n + 2 + d - 2 * n = d + 2 by omega, show 2 * n + 2 + d - 2 * (n + 1) = d by omega]

/-- An array after the first `j` of the assignments of an insert at `p` into `n` entries: `n - p` shifts and
then the new element `x`. -/
def insArr {α : Type} (a : Slots α) (n p : Nat) (x : α) (j : Nat) : Slots α := fun i =>
  if n - p < j ∧ i = p then some x else if n - min j (n - p) < i ∧ i ≤ n then a (i - 1) else a i

theorem insArr_step {α : Type} (a : Slots α) {n p : Nat} (hp : p ≤ n) (x : α) {j : Nat} (hj : j < n - p) {y : α}
    (hy : a (n - j - 1) = some y) :
    insArr a n p x j (n - j - 1) = some y ∧
      (fun i => if i = n - j then some y else insArr a n p x j i) = insArr a n p x (j + 1) := by
  constructor
  · rw [insArr, if_neg (by omega), if_neg (by omega), hy]
  · funext i
    simp only [insArr, Nat.min_eq_left (show j ≤ n - p by omega), Nat.min_eq_left (show j + 1 ≤ n - p by omega)]
    rw [if_neg (show ¬ (n - p < j ∧ i = p) by omega), if_neg (show ¬ (n - p < j + 1 ∧ i = p) by omega)]
    by_cases hi : i = n - j
    · rw [if_pos hi, if_pos (by omega), hi, hy]
    · rw [if_neg hi]
      by_cases h : n - j < i ∧ i ≤ n
      · rw [if_pos h, if_pos (by omega)]
      · rw [if_neg h, if_neg (by omega)]

theorem insArr_last {α : Type} (a : Slots α) {n p : Nat} (hp : p ≤ n) (x : α) :
    (fun i => if i = p then some x else insArr a n p x (n - p) i) = insArr a n p x (n - p + 1) := by
  funext i
  simp only [insArr, Nat.min_self, Nat.min_eq_right (show n - p ≤ n - p + 1 by omega)]
  by_cases hi : i = p
  · rw [if_pos hi, if_pos ⟨by omega, hi⟩]
  · rw [if_neg hi, if_neg (show ¬ (n - p < n - p ∧ i = p) by omega),
      if_neg (show ¬ (n - p < n - p + 1 ∧ i = p) by omega)]

/-- The leaf after the first `t` assignments of an insert. -/
theorem insert_prefix {l : SLeaf K V} {M n p : Nat} (hnum : l.num = n) (hn : n < M) (hp : p ≤ n)
    {a : Nat → K} {b : Nat → V} (hk : ∀ i, i < n → l.keys i = some (a i)) (hv : ∀ i, i < n → l.vals i = some (b i))
    (k : K) (v : V) : ∀ t, t ≤ 2 * (n - p) + 3 →
    SInstr.applyAll M l ((insertInstrs n p k v).take t) =
      .ok ⟨if t = 2 * (n - p) + 3 then n + 1 else n, insArr l.keys n p k (min ((t + 1) / 2) (n - p + 1)),
        insArr l.vals n p v (min (t / 2) (n - p + 1))⟩
  | 0, _ => by
    have h0 : ∀ {α : Type} (a : Slots α) (x : α), insArr a n p x 0 = a := by
      intro α a x; funext i
      rw [insArr, if_neg (by omega), if_neg (by omega)]
    rw [List.take_zero, SInstr.applyAll, if_neg (by omega)]
    simp only [Nat.zero_add, show (1 : Nat) / 2 = 0 from rfl, Nat.zero_div, Nat.zero_min, h0]
    rw [← hnum]
  | t + 1, ht => by
    have ih := insert_prefix hnum hn hp hk hv k v t (by omega)
    rw [if_neg (by omega)] at ih
    rw [List.take_add_one, insertInstrs, pairs_get]
    by_cases h1 : t < 2 * (n - p)
    · rw [if_pos h1, if_neg (show ¬ t + 1 = 2 * (n - p) + 3 by omega)]
      by_cases hev : t % 2 = 0
      · rw [if_pos hev, Option.toList_some, applyAll_append]
        rw [insertInstrs] at ih
        rw [ih, Res.ok_bind, SInstr.apply]
        have hj : min ((t + 1) / 2) (n - p + 1) = t / 2 := by omega
        have hj' : min ((t + 1 + 1) / 2) (n - p + 1) = t / 2 + 1 := by omega
        have hj2 : min (t / 2) (n - p + 1) = t / 2 := by omega
        have hj3 : (t + 1) / 2 = t / 2 := by omega
        rw [hj, hj', hj2]
        obtain ⟨e1, e2⟩ := insArr_step l.keys hp k (j := t / 2) (by omega) (hk (n - t / 2 - 1) (by omega))
        dsimp only
        rw [Slots.rd_ok (by omega) e1, Res.ok_bind, Slots.wr_ok _ _ (by omega), Res.ok_bind, e2]; rfl
      · rw [if_neg hev, Option.toList_some, applyAll_append]
        rw [insertInstrs] at ih
        rw [ih, Res.ok_bind, SInstr.apply]
        have hj : min ((t + 1) / 2) (n - p + 1) = t / 2 + 1 := by omega
        have hj' : min ((t + 1 + 1) / 2) (n - p + 1) = t / 2 + 1 := by omega
        have hj2 : min (t / 2) (n - p + 1) = t / 2 := by omega
        rw [hj, hj', hj2]
        obtain ⟨e1, e2⟩ := insArr_step l.vals hp v (j := t / 2) (by omega) (hv (n - t / 2 - 1) (by omega))
        dsimp only
        rw [Slots.rd_ok (by omega) e1, Res.ok_bind, Slots.wr_ok _ _ (by omega), Res.ok_bind, e2]; rfl
    · rw [if_neg h1]
      rw [insertInstrs] at ih
      rcases (show t = 2 * (n - p) ∨ t = 2 * (n - p) + 1 ∨ t = 2 * (n - p) + 2 by omega) with h | h | h
      · rw [show t - 2 * (n - p) = 0 by omega]
        rw [List.getElem?_cons_zero, Option.toList_some, applyAll_append, ih, Res.ok_bind, SInstr.apply, if_neg (by omega)]
        have hj : min ((t + 1) / 2) (n - p + 1) = n - p := by omega
        have hj' : min ((t + 1 + 1) / 2) (n - p + 1) = n - p + 1 := by omega
        have hj2 : min (t / 2) (n - p + 1) = n - p := by omega
        rw [hj, hj', hj2]
        dsimp only
        rw [Slots.wr_ok _ _ (by omega), Res.ok_bind, insArr_last l.keys hp k]; rfl
      · rw [show t - 2 * (n - p) = 1 by omega]
        rw [List.getElem?_cons_succ, List.getElem?_cons_zero, Option.toList_some, applyAll_append, ih, Res.ok_bind, SInstr.apply, if_neg (by omega)]
        have hj : min ((t + 1) / 2) (n - p + 1) = n - p + 1 := by omega
        have hj' : min ((t + 1 + 1) / 2) (n - p + 1) = n - p + 1 := by omega
        have hj2 : min (t / 2) (n - p + 1) = n - p := by omega
        rw [hj, hj', hj2]
        dsimp only
        rw [Slots.wr_ok _ _ (by omega), Res.ok_bind, insArr_last l.vals hp v]; rfl
      · rw [show t - 2 * (n - p) = 2 by omega]
        rw [List.getElem?_cons_succ, List.getElem?_cons_succ, List.getElem?_cons_zero, Option.toList_some, applyAll_append, ih, Res.ok_bind, SInstr.apply, if_pos (by omega)]
        have hj : min ((t + 1) / 2) (n - p + 1) = n - p + 1 := by omega
        have hj' : min ((t + 1 + 1) / 2) (n - p + 1) = n - p + 1 := by omega
        have hj2 : min (t / 2) (n - p + 1) = n - p + 1 := by omega
        rw [hj, hj', hj2]

/-- An array after the first `j` shifts of an erase at `p`. -/
def delArr {α : Type} (a : Slots α) (p j : Nat) : Slots α := fun i =>
  if p ≤ i ∧ i < p + j then a (i + 1) else a i

theorem delArr_step {α : Type} (a : Slots α) {p j : Nat} {y : α} (hy : a (p + j + 1) = some y) :
    delArr a p j (p + j + 1) = some y ∧
      (fun i => if i = p + j then some y else delArr a p j i) = delArr a p (j + 1) := by
  constructor
  · rw [delArr, if_neg (by omega), hy]
  · funext i
    simp only [delArr]
    by_cases hi : i = p + j
    · rw [if_pos hi, if_pos (by omega), hi, hy]
    · rw [if_neg hi]
      by_cases h : p ≤ i ∧ i < p + j
      · rw [if_pos h, if_pos (by omega)]
      · rw [if_neg h, if_neg (by omega)]

/-- The leaf after the first `t` assignments of an erase. -/
theorem erase_prefix {l : SLeaf K V} {M n p : Nat} (hnum : l.num = n) (hn : n ≤ M) (hp : p < n)
    {a : Nat → K} {b : Nat → V} (hk : ∀ i, i < n → l.keys i = some (a i)) (hv : ∀ i, i < n → l.vals i = some (b i)) :
    ∀ t, t ≤ 2 * (n - 1 - p) + 1 →
    SInstr.applyAll M l ((eraseInstrs n p).take t) =
      .ok ⟨if t = 2 * (n - 1 - p) + 1 then n - 1 else n, delArr l.keys p (min ((t + 1) / 2) (n - 1 - p)),
        delArr l.vals p (min (t / 2) (n - 1 - p))⟩
  | 0, _ => by
    have h0 : ∀ {α : Type} (a : Slots α), delArr a p 0 = a := by
      intro α a; funext i
      rw [delArr, if_neg (by omega)]
    rw [List.take_zero, SInstr.applyAll, if_neg (by omega)]
    simp only [Nat.zero_add, show (1 : Nat) / 2 = 0 from rfl, Nat.zero_div, Nat.zero_min, h0]
    rw [← hnum]
  | t + 1, ht => by
    have ih := erase_prefix hnum hn hp hk hv t (by omega)
    rw [if_neg (by omega)] at ih
    rw [List.take_add_one, eraseInstrs, pairs_get]
    by_cases h1 : t < 2 * (n - 1 - p)
    · rw [if_pos h1, if_neg (show ¬ t + 1 = 2 * (n - 1 - p) + 1 by omega)]
      by_cases hev : t % 2 = 0
      · rw [if_pos hev, Option.toList_some, applyAll_append]
        rw [eraseInstrs] at ih
        rw [ih, Res.ok_bind, SInstr.apply]
        have hj : min ((t + 1) / 2) (n - 1 - p) = t / 2 := by omega
        have hj' : min ((t + 1 + 1) / 2) (n - 1 - p) = t / 2 + 1 := by omega
        have hj2 : min (t / 2) (n - 1 - p) = t / 2 := by omega
        rw [hj, hj', hj2]
        obtain ⟨e1, e2⟩ := delArr_step l.keys (p := p) (j := t / 2) (hk (p + t / 2 + 1) (by omega))
        dsimp only
        rw [Slots.rd_ok (by omega) e1, Res.ok_bind, Slots.wr_ok _ _ (by omega), Res.ok_bind, e2]; rfl
      · rw [if_neg hev, Option.toList_some, applyAll_append]
        rw [eraseInstrs] at ih
        rw [ih, Res.ok_bind, SInstr.apply]
        have hj : min ((t + 1) / 2) (n - 1 - p) = t / 2 + 1 := by omega
        have hj' : min ((t + 1 + 1) / 2) (n - 1 - p) = t / 2 + 1 := by omega
        have hj2 : min (t / 2) (n - 1 - p) = t / 2 := by omega
        rw [hj, hj', hj2]
        obtain ⟨e1, e2⟩ := delArr_step l.vals (p := p) (j := t / 2) (hv (p + t / 2 + 1) (by omega))
        dsimp only
        rw [Slots.rd_ok (by omega) e1, Res.ok_bind, Slots.wr_ok _ _ (by omega), Res.ok_bind, e2]; rfl
    · rw [if_neg h1]
      rw [eraseInstrs] at ih
      have h : t = 2 * (n - 1 - p) := by omega
      rw [show t - 2 * (n - 1 - p) = 0 by omega]
      rw [List.getElem?_cons_zero, Option.toList_some, applyAll_append, ih, Res.ok_bind, SInstr.apply, if_pos (by omega)]
      have hj : min ((t + 1) / 2) (n - 1 - p) = n - 1 - p := by omega
      have hj' : min ((t + 1 + 1) / 2) (n - 1 - p) = n - 1 - p := by omega
      have hj2 : min (t / 2) (n - 1 - p) = n - 1 - p := by omega
      rw [hj, hj', hj2]

/-! ## Crash points of an insert -/

/-- The keys (or values) in the used slots after `j` assignments to the array. -/
def insView {α : Type} (a : Nat → α) (n p : Nat) (x : α) (j : Nat) : Nat → α := fun i =>
  if n - p < j ∧ i = p then x else if n - min j (n - p) < i then a (i - 1) else a i

theorem insArr_view {α : Type} {s : Slots α} {a : Nat → α} {n p : Nat} (hp : p ≤ n)
    (h : ∀ i, i < n → s i = some (a i)) (x : α) (j : Nat) (i : Nat) (hi : i < n ∨ n - p < j ∧ i = n) :
    insArr s n p x j i = some (insView a n p x j i) := by
  unfold insArr insView
  by_cases h1 : n - p < j ∧ i = p
  · rw [if_pos h1, if_pos h1]
  · rw [if_neg h1, if_neg h1]
    by_cases h2 : n - min j (n - p) < i
    · rw [if_pos ⟨h2, by omega⟩, if_pos h2, h _ (by omega)]
    · rw [if_neg (by omega), if_neg h2, h _ (by omega)]

theorem insView_sorted {a : Nat → K} {n p : Nat} (hp : p ≤ n) {k : K} (hs : ∀ i j, i < j → j < n → a i < a j)
    (h1 : ∀ i, i < p → a i < k) (h2 : ∀ i, p ≤ i → i < n → k < a i) (J : Nat) (N : Nat)
    (hN : N ≤ n ∨ n - p < J ∧ N = n + 1) : ∀ i j, i ≤ j → j < N → insView a n p k J i ≤ insView a n p k J j := by
  have hs' : ∀ i j, i ≤ j → j < n → a i ≤ a j := by
    intro i j hij hj
    rcases Nat.lt_or_eq_of_le hij with h | h
    · exact (hs i j h hj).le
    · rw [h]
  intro i j hij hj
  unfold insView
  by_cases hi1 : n - p < J ∧ i = p
  · rw [if_pos hi1]
    by_cases hj1 : n - p < J ∧ j = p
    · rw [if_pos hj1]
    · rw [if_neg hj1, if_pos (by omega)]
      exact (h2 (j - 1) (by omega) (by omega)).le
  · rw [if_neg hi1]
    by_cases hj1 : n - p < J ∧ j = p
    · rw [if_pos hj1, if_neg (by omega)]
      exact (h1 i (by omega)).le
    · rw [if_neg hj1]
      by_cases e1 : n - min J (n - p) < i
      · rw [if_pos e1, if_pos (by omega)]
        exact hs' _ _ (by omega) (by omega)
      · rw [if_neg e1]
        by_cases e2 : n - min J (n - p) < j
        · rw [if_pos e2]
          exact hs' _ _ (by omega) (by omega)
        · rw [if_neg e2]
          exact hs' _ _ (by omega) (by omega)

/-- All crash points of an insert of a new key at position `p` of a leaf with `n` entries `a i ↦ b i`. -/
theorem insert_crash_points (hw : WSearch c) {l : SLeaf K V} {n p : Nat} {a : Nat → K} {b : Nat → V}
    (h : View c.M l n a b) (hn : n < c.M) (hp : p ≤ n) (hs : ∀ i j, i < j → j < n → a i < a j) {k : K}
    (h1 : ∀ i, i < p → a i < k) (h2 : ∀ i, p ≤ i → i < n → k < a i) (v : V) (t : Nat) :
    ∃ l', SInstr.applyAll c.M l ((insertInstrs n p k v).take t) = .ok l' ∧
      (t ≤ 2 → ∀ x, l'.lookup c x = l.lookup c x) ∧
      (2 * (n - p) + 3 ≤ t → ∀ x, l'.lookup c x = if x = k then .ok (some v) else l.lookup c x) ∧
      (3 ≤ t → t < 2 * (n - p) + 3 →
        l'.lookup c (a (n - 1)) = .ok none ∧
        l'.lookup c k = .ok (if t ≤ 2 * (n - p) then none else if t = 2 * (n - p) + 1 then some (b p) else some v) ∧
        ∀ x, x ≠ k → x ≠ a (n - 1) → l'.lookup c x = l.lookup c x ∨
          (t % 2 = 1 ∧ t < 2 * (n - p) ∧ x = a (n - t / 2 - 1) ∧ l'.lookup c x = .ok (some (b (n - t / 2))))) := by
  have hinj : ∀ i j, i < n → j < n → a i = a j → i = j := by
    intro i j hi hj he
    rcases Nat.lt_trichotomy i j with h | h | h
    · exact absurd he (hs i j h hj).ne
    · exact h
    · exact absurd he (hs j i h hi).ne'
  have hk : ∀ i, i < n → a i ≠ k := by
    intro i hi
    by_cases h : i < p
    · exact (h1 i h).ne
    · exact (h2 i (by omega) hi).ne'
  have hlk : ∀ i, i < n → l.lookup c (a i) = .ok (some (b i)) := fun i hi =>
    h.lookup_at hw hi (fun j hj he => by rw [hinj j i hj hi he])
  have hln : ∀ x, (∀ i, i < n → a i ≠ x) → l.lookup c x = .ok none := fun x hx => h.lookup_none hw hx
  have cases' : ∀ x, (∃ i, i < n ∧ a i = x) ∨ ∀ i, i < n → a i ≠ x := by
    intro x
    by_cases hx : ∃ i, i < n ∧ a i = x
    · exact Or.inl hx
    · right; intro i hi he; exact hx ⟨i, hi, he⟩
  have vw : ∀ t', t' ≤ 2 * (n - p) + 2 → ∃ l', SInstr.applyAll c.M l ((insertInstrs n p k v).take t') = .ok l' ∧
      View c.M l' n (insView a n p k ((t' + 1) / 2)) (insView b n p v (t' / 2)) := by
    intro t' ht
    refine ⟨_, insert_prefix h.num hn hp h.keys h.vals k v t' (by omega), ?_⟩
    rw [if_neg (by omega), show min ((t' + 1) / 2) (n - p + 1) = (t' + 1) / 2 by omega,
      show min (t' / 2) (n - p + 1) = t' / 2 by omega]
    exact ⟨rfl, by omega, fun i hi => insArr_view hp h.keys _ _ _ (Or.inl hi),
      fun i hi => insArr_view hp h.vals _ _ _ (Or.inl hi),
      insView_sorted hp hs h1 h2 _ n (Or.inl le_rfl)⟩
  by_cases hlast : 2 * (n - p) + 3 ≤ t
  · -- all assignments have been done
    have htake : (insertInstrs n p k v : List (SInstr K V)).take t = (insertInstrs n p k v).take (2 * (n - p) + 3) := by
      have hlen : (insertInstrs n p k v : List (SInstr K V)).length = 2 * (n - p) + 3 := by
        simp [insertInstrs, List.length_flatMap]; omega
      rw [List.take_of_length_le (by omega), List.take_of_length_le (by omega)]
    refine ⟨_, by rw [htake]; exact insert_prefix h.num hn hp h.keys h.vals k v _ le_rfl, fun ht => by omega, ?_,
      fun _ ht => by omega⟩
    intro _ x
    rw [if_pos rfl, show min ((2 * (n - p) + 3 + 1) / 2) (n - p + 1) = n - p + 1 by omega,
      show min ((2 * (n - p) + 3) / 2) (n - p + 1) = n - p + 1 by omega]
    have v' : View c.M (⟨n + 1, insArr l.keys n p k (n - p + 1), insArr l.vals n p v (n - p + 1)⟩ : SLeaf K V)
        (n + 1) (insView a n p k (n - p + 1)) (insView b n p v (n - p + 1)) :=
      ⟨rfl, by omega, fun i hi => insArr_view hp h.keys _ _ _ (by omega),
        fun i hi => insArr_view hp h.vals _ _ _ (by omega),
        insView_sorted hp hs h1 h2 _ (n + 1) (Or.inr ⟨by omega, rfl⟩)⟩
    have hA : ∀ {α : Type} (f : Nat → α) (x : α) (i : Nat), insView f n p x (n - p + 1) i =
        if i = p then x else if p < i then f (i - 1) else f i := by
      intro α f x i
      unfold insView
      by_cases hi : i = p
      · rw [if_pos ⟨by omega, hi⟩, if_pos hi]
      · rw [if_neg (by omega), if_neg hi]
        by_cases hi' : p < i
        · rw [if_pos (by omega), if_pos hi']
        · rw [if_neg (by omega), if_neg hi']
    rcases v'.lookup hw x with ⟨i, hi, he, e⟩ | ⟨hno, e⟩
    · rw [e, hA]
      rw [hA] at he
      by_cases hip : i = p
      · rw [if_pos hip] at he
        rw [if_pos hip, if_pos he.symm]
      · rw [if_neg hip] at he
        rw [if_neg hip]
        by_cases hip' : p < i
        · rw [if_pos hip'] at he
          rw [if_pos hip', ← he, if_neg (hk _ (by omega)), hlk _ (by omega)]
        · rw [if_neg hip'] at he
          rw [if_neg hip', ← he, if_neg (hk _ (by omega)), hlk _ (by omega)]
    · rw [e]
      have hxk : x ≠ k := by
        rintro rfl
        exact hno p (by omega) (by rw [hA, if_pos rfl])
      rw [if_neg hxk, hln]
      intro i hi
      by_cases hip : p ≤ i
      · have := hno (i + 1) (by omega)
        rw [hA, if_neg (by omega), if_pos (by omega)] at this
        simpa using this
      · have := hno i (by omega)
        rwa [hA, if_neg (by omega), if_neg (by omega)] at this
  · obtain ⟨l', e, v'⟩ := vw t (by omega)
    refine ⟨l', e, ?_, fun ht => absurd ht hlast, ?_⟩
    · intro ht x
      have hA : ∀ {α : Type} (f : Nat → α) (x : α) (j i : Nat), j ≤ 1 → i < n → insView f n p x j i = f i := by
        intro α f x j i hj hi
        unfold insView
        rw [if_neg (by omega), if_neg (by omega)]
      rcases v'.lookup hw x with ⟨i, hi, he, e⟩ | ⟨hno, e⟩
      · rw [hA _ _ _ _ (by omega) hi] at he
        rw [e, hA _ _ _ _ (by omega) hi, ← he, hlk i hi]
      · rw [e, hln]
        intro i hi
        have := hno i hi
        rwa [hA _ _ _ _ (by omega) hi] at this
    · intro ht3 ht
      have hpn : p < n := by omega
      -- which key is in slot `i`
      have hkey : ∀ i, i < n → insView a n p k ((t + 1) / 2) i =
          if 2 * (n - p) < t ∧ i = p then k else if n < i + min ((t + 1) / 2) (n - p) then a (i - 1) else a i := by
        intro i hi
        unfold insView
        by_cases hc1 : 2 * (n - p) < t ∧ i = p
        · rw [if_pos (by omega), if_pos hc1]
        · rw [if_neg (by omega), if_neg hc1]
          by_cases hc2 : n < i + min ((t + 1) / 2) (n - p)
          · rw [if_pos (by omega), if_pos hc2]
          · rw [if_neg (by omega), if_neg hc2]
      have hval : ∀ i, i < n → insView b n p v (t / 2) i =
          if 2 * (n - p) + 1 < t ∧ i = p then v else if n < i + min (t / 2) (n - p) then b (i - 1) else b i := by
        intro i hi
        unfold insView
        by_cases hc1 : 2 * (n - p) + 1 < t ∧ i = p
        · rw [if_pos (by omega), if_pos hc1]
        · rw [if_neg (by omega), if_neg hc1]
          by_cases hc2 : n < i + min (t / 2) (n - p)
          · rw [if_pos (by omega), if_pos hc2]
          · rw [if_neg (by omega), if_neg hc2]
      refine ⟨?_, ?_, ?_⟩
      · -- the largest key
        apply v'.lookup_none hw
        intro i hi
        rw [hkey i hi]
        by_cases hc1 : 2 * (n - p) < t ∧ i = p
        · rw [if_pos hc1]
          exact (hk (n - 1) (by omega)).symm
        · rw [if_neg hc1]
          by_cases hc2 : n < i + min ((t + 1) / 2) (n - p)
          · rw [if_pos hc2]
            exact (hs (i - 1) (n - 1) (by omega) (by omega)).ne
          · rw [if_neg hc2]
            exact (hs i (n - 1) (by omega) (by omega)).ne
      · by_cases ht' : t ≤ 2 * (n - p)
        · rw [if_pos ht']
          apply v'.lookup_none hw
          intro i hi
          rw [hkey i hi, if_neg (by omega)]
          split
          · exact hk _ (by omega)
          · exact hk _ hi
        · rw [if_neg ht']
          have hp0 := hkey p hpn
          rw [if_pos ⟨by omega, rfl⟩] at hp0
          rcases v'.lookup hw k with ⟨i, hi, he, e⟩ | ⟨hno, e⟩
          · have hip : i = p := by
              by_contra hne
              rw [hkey i hi, if_neg (by omega)] at he
              revert he
              split
              · exact hk _ (by omega)
              · exact hk _ hi
            rw [e, hip, hval p hpn]
            by_cases ht1 : t = 2 * (n - p) + 1
            · rw [if_neg (by omega), if_neg (by omega), if_pos ht1]
            · rw [if_pos ⟨by omega, rfl⟩, if_neg ht1]
          · exact absurd hp0 (hno p hpn)
      · intro x hxk hxl
        rcases v'.lookup hw x with ⟨i, hi, he, e⟩ | ⟨hno, e⟩
        · rw [hkey i hi] at he
          rw [hval i hi] at e
          have hc1 : ¬ (2 * (n - p) < t ∧ i = p) := by
            intro hc; rw [if_pos hc] at he; exact hxk he.symm
          rw [if_neg hc1] at he
          by_cases hc2 : n < i + min ((t + 1) / 2) (n - p)
          · rw [if_pos hc2] at he
            by_cases hc3 : n < i + min (t / 2) (n - p)
            · left
              rw [if_neg (by omega), if_pos hc3] at e
              rw [e, ← he, hlk _ (by omega)]
            · right
              have hi' : i = n - t / 2 := by omega
              rw [if_neg (by omega), if_neg hc3] at e
              refine ⟨by omega, by omega, ?_, ?_⟩
              · rw [← he, hi']
              · rw [e, hi']
          · left
            rw [if_neg hc2] at he
            rw [if_neg (by omega), if_neg (by omega)] at e
            rw [e, ← he, hlk _ hi]
        · left
          rw [e, hln]
          intro i hi he
          have hil : i < n - 1 := by
            by_contra hcon
            have : i = n - 1 := by omega
            subst this
            exact hxl he.symm
          by_cases hc : n < i + 1 + min ((t + 1) / 2) (n - p)
          · have := hno (i + 1) (by omega)
            rw [hkey _ (by omega), if_neg (by omega), if_pos hc] at this
            exact this he
          · have := hno i (by omega)
            rw [hkey _ (by omega), if_neg (by omega), if_neg (by omega)] at this
            exact this he

/-! ## Crash points of an erase -/

/-- The keys (or values) in the used slots after `j` shifts. -/
def delView {α : Type} (a : Nat → α) (p j : Nat) : Nat → α := fun i => if p ≤ i ∧ i < p + j then a (i + 1) else a i

theorem delArr_view {α : Type} {s : Slots α} {a : Nat → α} {n p j : Nat} (h : ∀ i, i < n → s i = some (a i))
    (hj : p + j < n) (i : Nat) (hi : i < n) : delArr s p j i = some (delView a p j i) := by
  unfold delArr delView
  by_cases h1 : p ≤ i ∧ i < p + j
  · rw [if_pos h1, if_pos h1, h _ (by omega)]
  · rw [if_neg h1, if_neg h1, h _ hi]

theorem delView_sorted {a : Nat → K} {n p J : Nat} (hs : ∀ i j, i < j → j < n → a i < a j) (hJ : p + J < n) :
    ∀ i j, i ≤ j → j < n → delView a p J i ≤ delView a p J j := by
  have hs' : ∀ i j, i ≤ j → j < n → a i ≤ a j := by
    intro i j hij hj
    rcases Nat.lt_or_eq_of_le hij with h | h
    · exact (hs i j h hj).le
    · rw [h]
  intro i j hij hj
  unfold delView
  by_cases h1 : p ≤ i ∧ i < p + J
  · rw [if_pos h1]
    by_cases h2 : p ≤ j ∧ j < p + J
    · rw [if_pos h2]; exact hs' _ _ (by omega) (by omega)
    · rw [if_neg h2]; exact hs' _ _ (by omega) hj
  · rw [if_neg h1]
    by_cases h2 : p ≤ j ∧ j < p + J
    · rw [if_pos h2]; exact hs' _ _ (by omega) (by omega)
    · rw [if_neg h2]; exact hs' _ _ hij hj

/-- All crash points of an erase at position `p` of a leaf with `n` entries `a i ↦ b i`. -/
theorem erase_crash_points (hw : WSearch c) {l : SLeaf K V} {n p : Nat} {a : Nat → K} {b : Nat → V}
    (h : View c.M l n a b) (hp : p < n) (hs : ∀ i j, i < j → j < n → a i < a j) (t : Nat) :
    ∃ l', SInstr.applyAll c.M l ((eraseInstrs n p).take t) = .ok l' ∧
      (t = 0 → l' = l) ∧
      (1 ≤ t → l'.lookup c (a p) = .ok none) ∧
      ∀ x, x ≠ a p → l'.lookup c x = l.lookup c x ∨
        (t % 2 = 1 ∧ t < 2 * (n - 1 - p) ∧ x = a (p + t / 2 + 1) ∧ l'.lookup c x = .ok (some (b (p + t / 2)))) := by
  have hn := h.cap
  have hinj : ∀ i j, i < n → j < n → a i = a j → i = j := by
    intro i j hi hj he
    rcases Nat.lt_trichotomy i j with h | h | h
    · exact absurd he (hs i j h hj).ne
    · exact h
    · exact absurd he (hs j i h hi).ne'
  have hlk : ∀ i, i < n → l.lookup c (a i) = .ok (some (b i)) := fun i hi =>
    h.lookup_at hw hi (fun j hj he => by rw [hinj j i hj hi he])
  have hln : ∀ x, (∀ i, i < n → a i ≠ x) → l.lookup c x = .ok none := fun x hx => h.lookup_none hw hx
  by_cases hlast : 2 * (n - 1 - p) + 1 ≤ t
  · have htake : (eraseInstrs n p : List (SInstr K V)).take t = (eraseInstrs n p).take (2 * (n - 1 - p) + 1) := by
      have hlen : (eraseInstrs n p : List (SInstr K V)).length = 2 * (n - 1 - p) + 1 := by
        simp [eraseInstrs, List.length_flatMap]; omega
      rw [List.take_of_length_le (by omega), List.take_of_length_le (by omega)]
    refine ⟨_, by rw [htake]; exact erase_prefix h.num hn hp h.keys h.vals _ le_rfl, fun ht => by omega, ?_, ?_⟩
    all_goals
      rw [if_pos rfl, show min ((2 * (n - 1 - p) + 1 + 1) / 2) (n - 1 - p) = n - 1 - p by omega,
        show min ((2 * (n - 1 - p) + 1) / 2) (n - 1 - p) = n - 1 - p by omega]
      have v' : View c.M (⟨n - 1, delArr l.keys p (n - 1 - p), delArr l.vals p (n - 1 - p)⟩ : SLeaf K V)
          (n - 1) (delView a p (n - 1 - p)) (delView b p (n - 1 - p)) :=
        ⟨rfl, by omega, fun i hi => delArr_view h.keys (by omega) i (by omega),
          fun i hi => delArr_view h.vals (by omega) i (by omega),
          fun i j hij hj => delView_sorted hs (by omega) i j hij (by omega)⟩
      have hA : ∀ {α : Type} (f : Nat → α) (i : Nat), i < n - 1 → delView f p (n - 1 - p) i =
          if p ≤ i then f (i + 1) else f i := by
        intro α f i hi
        unfold delView
        by_cases h1 : p ≤ i
        · rw [if_pos ⟨h1, by omega⟩, if_pos h1]
        · rw [if_neg (by omega), if_neg h1]
    · intro _
      apply v'.lookup_none hw
      intro i hi
      rw [hA a i hi]
      split
      · exact (hs p (i + 1) (by omega) (by omega)).ne'
      · exact (hs i p (by omega) hp).ne
    · intro x hx
      left
      rcases v'.lookup hw x with ⟨i, hi, he, e⟩ | ⟨hno, e⟩
      · rw [hA a i hi] at he
        rw [hA b i hi] at e
        rw [e, ← he]
        split
        · rw [hlk _ (by omega)]
        · rw [hlk _ (by omega)]
      · rw [e, hln]
        intro i hi he
        by_cases hip : i < p
        · have := hno i (by omega)
          rw [hA a i (by omega), if_neg (by omega)] at this
          exact this he
        · by_cases hip' : i = p
          · subst hip'; exact hx he.symm
          · have := hno (i - 1) (by omega)
            rw [hA a (i - 1) (by omega), if_pos (by omega), show i - 1 + 1 = i by omega] at this
            exact this he
  · refine ⟨_, erase_prefix h.num hn hp h.keys h.vals t (by omega), ?_, ?_⟩
    · rintro rfl
      have h0 : ∀ {α : Type} (a : Slots α), delArr a p 0 = a := by
        intro α a; funext i
        rw [delArr, if_neg (by omega)]
      rw [if_neg (by omega)]
      simp only [Nat.zero_add, show (1 : Nat) / 2 = 0 from rfl, Nat.zero_div, Nat.zero_min, h0]
      rw [← h.num]
    · rw [if_neg (by omega), show min ((t + 1) / 2) (n - 1 - p) = (t + 1) / 2 by omega,
        show min (t / 2) (n - 1 - p) = t / 2 by omega]
      have v' : View c.M (⟨n, delArr l.keys p ((t + 1) / 2), delArr l.vals p (t / 2)⟩ : SLeaf K V)
          n (delView a p ((t + 1) / 2)) (delView b p (t / 2)) :=
        ⟨rfl, by omega, fun i hi => delArr_view h.keys (by omega) i hi,
          fun i hi => delArr_view h.vals (by omega) i hi,
          fun i j hij hj => delView_sorted hs (by omega) i j hij hj⟩
      constructor
      · intro ht
        apply v'.lookup_none hw
        intro i hi
        unfold delView
        split
        · exact (hs p (i + 1) (by omega) (by omega)).ne'
        · rename_i hc
          rcases Nat.lt_or_ge i p with h1 | h1
          · exact (hs i p h1 hp).ne
          · exact (hs p i (by omega) hi).ne'
      · intro x hx
        rcases v'.lookup hw x with ⟨i, hi, he, e⟩ | ⟨hno, e⟩
        · unfold delView at he e
          by_cases h1 : p ≤ i ∧ i < p + (t + 1) / 2
          · rw [if_pos h1] at he
            by_cases h2 : p ≤ i ∧ i < p + t / 2
            · left
              rw [if_pos h2] at e
              rw [e, ← he, hlk _ (by omega)]
            · right
              rw [if_neg h2] at e
              have hi' : i = p + t / 2 := by omega
              refine ⟨by omega, by omega, ?_, ?_⟩
              · rw [← he, hi']
              · rw [e, hi']
          · left
            rw [if_neg h1] at he
            rw [if_neg (by omega)] at e
            rw [e, ← he, hlk _ hi]
        · left
          rw [e, hln]
          intro i hi he
          by_cases hc : p < i ∧ i ≤ p + (t + 1) / 2
          · have := hno (i - 1) (by omega)
            unfold delView at this
            rw [if_pos (by omega), show i - 1 + 1 = i by omega] at this
            exact this he
          · by_cases hip : i = p
            · subst hip; exact hx he.symm
            · have := hno i hi
              unfold delView at this
              rw [if_neg (by omega)] at this
              exact this he

/-! ## The programs are those of the model -/

theorem insertAt_instrs {l : SLeaf K V} {n p : Nat} {a : Nat → K} {b : Nat → V} (h : View c.M l n a b)
    (hn : n < c.M) (hp : p ≤ n) (k : K) (v : V) :
    SInstr.applyAll c.M l (insertInstrs n p k v) = l.insertAt c p k v := by
  have hlen : (insertInstrs n p k v : List (SInstr K V)).length = 2 * (n - p) + 3 := by
    simp [insertInstrs, List.length_flatMap]; omega
  have hall := insert_prefix h.num hn hp h.keys h.vals k v _ le_rfl
  rw [List.take_of_length_le (by omega), if_pos rfl, show min ((2 * (n - p) + 3 + 1) / 2) (n - p + 1) = n - p + 1 by omega,
    show min ((2 * (n - p) + 3) / 2) (n - p + 1) = n - p + 1 by omega] at hall
  rw [hall]
  unfold SLeaf.insertAt
  have hnum := h.num
  rw [hnum, Res.assert_pos (by omega), Res.ok_bind, Res.assert_pos hp, Res.ok_bind, Res.assert_pos hn, Res.ok_bind]
  obtain ⟨ks, e1, h1⟩ := Slots.moveUp_ok c.M p 1 le_rfl n l.keys (by omega) hp
    (fun i _ hi => by rw [h.keys i hi]; rfl)
  obtain ⟨vs, e2, h2⟩ := Slots.moveUp_ok c.M p 1 le_rfl n l.vals (by omega) hp
    (fun i _ hi => by rw [h.vals i hi]; rfl)
  rw [e1, Res.ok_bind, e2, Res.ok_bind, Slots.wr_ok _ _ (by omega), Res.ok_bind, Slots.wr_ok _ _ (by omega), Res.ok_bind]
  have key : ∀ {α : Type} (f g : Slots α) (x : α),
      (∀ j, g j = if p + 1 ≤ j ∧ j < n + 1 then f (j - 1) else f j) →
      insArr f n p x (n - p + 1) = fun j => if j = p then some x else g j := by
    intro α f g x hg
    funext j
    unfold insArr
    by_cases hj : j = p
    · rw [if_pos ⟨by omega, hj⟩, if_pos hj]
    · rw [if_neg (by omega), if_neg hj, hg j]
      by_cases hj' : p + 1 ≤ j ∧ j < n + 1
      · rw [if_pos (by omega), if_pos hj']
      · rw [if_neg (by omega), if_neg hj']
  rw [key l.keys ks k h1, key l.vals vs v h2]; rfl

theorem insert_prog (C : CfgLaws c) {l : SLeaf K V} {es : List (K × V)} (h : LRep c.M l es) {k : K} (v : V)
    (hf : find k es ≠ none ∨ es.length < c.M) :
    ∃ ws l', insertProg c l k v = .ok ws ∧ SInstr.applyAll c.M l ws = .ok l' ∧ l.insert c k v = .ok (.done l') := by
  obtain ⟨a, b, vw, hs, hin, hno⟩ := h.view k v
  obtain ⟨x, y, rfl, h1, h2⟩ := sorted_cut k h.sorted
  have hnum := h.num
  have hcap := h.cap
  unfold insertProg SLeaf.insert
  rw [pos_ok C h h1 h2, Res.ok_bind, Res.ok_bind]
  cases y with
  | nil =>
    rw [List.append_nil] at hnum h hf vw hcap
    have hlt : x.length < c.M := by
      rcases hf with hf | hf
      · exact absurd (find_eq_none.2 (fun e he => (h1 e he).ne)) hf
      · exact hf
    rw [if_neg (by omega), Res.pure_eq, Res.ok_bind, Res.ok_bind, if_neg (by simp), if_neg (by simp), if_neg (by omega), hnum]
    have := insertAt_instrs vw hlt le_rfl k v
    obtain ⟨l', e, _⟩ := insertAt_ok rfl (a := x) (b := []) (by simpa using h) v h1 (by simp) (by simpa using hlt)
    refine ⟨_, l', rfl, this.trans e, ?_⟩
    rw [e]; rfl
  | cons e y =>
    rw [List.length_append, List.length_cons] at hnum hcap
    rw [if_pos (by omega), LRep.rdKey h, Res.ok_bind, Res.pure_eq, Res.ok_bind, Res.ok_bind]
    by_cases he : e.1 = k
    · rw [if_pos (by simpa using he), if_pos (by simpa using he), Slots.wr_ok _ _ (by omega), Res.ok_bind]
      refine ⟨_, _, rfl, ?_, rfl⟩
      simp only [SInstr.applyAll, SInstr.apply, Slots.wr_ok l.vals v (show x.length < c.M by omega), Res.ok_bind, Res.pure_eq]
    · rw [if_neg (by simpa using he), if_neg (by simpa using he)]
      have hs' := h.sorted
      have hk2 : ∀ e' ∈ e :: y, k < e'.1 := by
        intro e' he'
        rcases List.mem_cons.1 he' with rfl | hm
        · exact lt_of_le_of_ne (h2 e' (by simp)) (Ne.symm he)
        · have : e.1 < e'.1 := by
            have := (List.pairwise_append.1 hs').2.1
            exact (List.pairwise_cons.1 this).1 e' hm
          exact lt_of_le_of_lt (h2 e (by simp)) this
      have hlt : (x ++ e :: y).length < c.M := by
        rcases hf with hf | hf
        · exfalso; apply hf
          rw [find_eq_none]
          intro e' he'
          rcases List.mem_append.1 he' with hm | hm
          · exact (h1 e' hm).ne
          · exact (hk2 e' hm).ne'
        · exact hf
      have hlt' := hlt
      rw [List.length_append, List.length_cons] at hlt'
      rw [if_neg (by omega), hnum]
      have hi := insertAt_instrs vw hlt (p := x.length) (by rw [List.length_append]; omega) k v
      obtain ⟨l', e', _⟩ := insertAt_ok rfl h v h1 hk2 (by rw [List.length_cons]; omega)
      refine ⟨_, l', rfl, ?_, ?_⟩
      · rw [List.length_append, List.length_cons] at hi
        exact hi.trans e'
      · rw [e']; rfl

theorem erase_prog {l : SLeaf K V} {n p : Nat} {a : Nat → K} {b : Nat → V} (h : View c.M l n a b) (hp : p < n)
    {k : K} (hpos : l.pos c k = .ok p) (hk : a p = k) :
    ∃ l', SInstr.applyAll c.M l (eraseInstrs n p) = .ok l' ∧ l.erase c k = .ok (true, l') := by
  have hcap := h.cap
  have hnum := h.num
  have hlen : (eraseInstrs n p : List (SInstr K V)).length = 2 * (n - 1 - p) + 1 := by
    simp [eraseInstrs, List.length_flatMap]; omega
  have hall := erase_prefix hnum hcap hp h.keys h.vals _ le_rfl
  rw [List.take_of_length_le (by omega), if_pos rfl, show min ((2 * (n - 1 - p) + 1 + 1) / 2) (n - 1 - p) = n - 1 - p by omega,
    show min ((2 * (n - 1 - p) + 1) / 2) (n - 1 - p) = n - 1 - p by omega] at hall
  refine ⟨_, hall, ?_⟩
  unfold SLeaf.erase
  rw [hpos, Res.ok_bind, Slots.rd_ok (by omega) (h.keys p hp), Res.ok_bind, if_pos hk, hnum,
    Res.guardUB_pos (by omega), Res.ok_bind]
  obtain ⟨ks, e1, h1⟩ := Slots.moveDown_ok c.M 1 le_rfl (n - 1 - p) p l.keys (by omega)
    (fun i _ hi => by rw [h.keys i (by omega)]; rfl)
  obtain ⟨vs, e2, h2⟩ := Slots.moveDown_ok c.M 1 le_rfl (n - 1 - p) p l.vals (by omega)
    (fun i _ hi => by rw [h.vals i (by omega)]; rfl)
  rw [e1, Res.ok_bind, e2, Res.ok_bind]
  have ek : ks = delArr l.keys p (n - 1 - p) := funext h1
  have ev : vs = delArr l.vals p (n - 1 - p) := funext h2
  rw [ek, ev]; rfl

/-! ## The tree after a crash -/

/-- The leaf of `k` has a free slot. -/
def Room (c : SCfg K V) (s : State K (SLeaf K V)) (k : K) : Prop :=
  ∀ id l, findLeaf (sortedOps c) s.depth s.root k = .ok id → s.heap.data id = some l → l.num < c.M

/-- After the last assignment the insert is complete. -/
theorem crashInsert_end (C : CfgLaws c) {lm bm rm : Nat} {s : State K (SLeaf K V)}
    (g : Good (sortedLaws C) lm bm rm s) {k : K} (v : V)
    (hr : find k (cont (sortedLaws C) s) ≠ none ∨ Room c s k) :
    ∃ N s', insert (sortedOps c) s k v = .ok s' ∧ ∀ n, N ≤ n → crashInsert c s k v n = .ok s' := by
  obtain ⟨id, l, a⟩ := leafOf g k
  obtain ⟨es, h⟩ : ∃ es, LRep c.M l es := a.ok
  have hf : find k es ≠ none ∨ es.length < c.M := by
    rcases hr with hr | hr
    · left
      rw [a.look k a.find] at hr
      have : find k l.abs ≠ none := hr
      rwa [h.abs] at this
    · right
      rw [← h.num]; exact hr id l a.find a.data
  have hget : s.heap.get id = .ok l := by rw [Heap.get, a.data]; rfl
  obtain ⟨ws, l', e1, e2, e3⟩ := insert_prog C h v hf
  refine ⟨ws.length, withLeaf s id l', insert_inplace a e3, fun n hn => ?_⟩
  unfold crashInsert
  rw [a.find, Res.ok_bind, hget, Res.ok_bind, e1, Res.ok_bind, List.take_of_length_le hn, e2, Res.ok_bind]; rfl

/-- A crash in an update of a stored key. -/
theorem crashInsert_present (C : CfgLaws c) {lm bm rm : Nat} {s : State K (SLeaf K V)}
    (g : Good (sortedLaws C) lm bm rm s) {m : K → Option V} (hm : Stores (sortedLaws C) s m) {k : K} (v : V)
    (hk : m k ≠ none) (n : Nat) :
    ∃ s', crashInsert c s k v n = .ok s' ∧
      ∀ x, lookup (sortedOps c) s' x = .ok (if x = k ∧ 0 < n then some v else m x) := by
  obtain ⟨id, l, a⟩ := leafOf g k
  obtain ⟨es, h⟩ : ∃ es, LRep c.M l es := a.ok
  have habs : (sortedLaws C).abs l = es := h.abs
  have hf : find k es ≠ none := by
    have := a.look k a.find
    rw [hm k, habs] at this
    rwa [← this]
  have hget : s.heap.get id = .ok l := by rw [Heap.get, a.data]; rfl
  obtain ⟨ws, l', e1, e2, e3⟩ := insert_prog C h v (Or.inl hf)
  have hl' : LRep c.M l' (upsert k v es) := by
    rcases insert_ok C h k v with ⟨l2, e4, h'⟩ | ⟨_, _, _, _, _, e4, _⟩
    · rw [e4] at e3
      injection e3 with e3
      injection e3 with e3
      rw [← e3]; exact h'
    · rw [e4] at e3
      injection e3 with e3
      cases e3
  have hone : ws.length = 1 := by
    obtain ⟨x, y, rfl, h1, h2⟩ := sorted_cut k h.sorted
    unfold insertProg at e1
    rw [pos_ok C h h1 h2, Res.ok_bind] at e1
    have hnum := h.num
    cases y with
    | nil =>
      rw [List.append_nil] at hf
      exact absurd (find_eq_none.2 (fun e he => (h1 e he).ne)) hf
    | cons e y =>
      rw [List.length_append, List.length_cons] at hnum
      rw [if_pos (by omega), LRep.rdKey h, Res.ok_bind, Res.pure_eq, Res.ok_bind] at e1
      have he : e.1 = k := by
        by_contra he
        apply hf
        rw [find_eq_none]
        intro e' he'
        rcases List.mem_append.1 he' with hm' | hm'
        · exact (h1 e' hm').ne
        · rcases List.mem_cons.1 hm' with rfl | hm'
          · exact he
          · have : e.1 < e'.1 := by
              have := (List.pairwise_append.1 h.sorted).2.1
              exact (List.pairwise_cons.1 this).1 e' hm'
            exact (lt_of_le_of_lt (h2 e (by simp)) this).ne'
      rw [if_pos (by simpa using he)] at e1
      cases Res.ok.inj e1
      rfl
  unfold crashInsert
  rw [a.find, Res.ok_bind, hget, Res.ok_bind, e1, Res.ok_bind]
  cases n with
  | zero =>
    refine ⟨withLeaf s id l, by rw [List.take_zero, SInstr.applyAll, Res.ok_bind]; rfl, fun x => ?_⟩
    rw [a.lookup_same g (fun x => (sortedLaws C).lookup l x a.ok) x, hm x, if_neg (by omega)]
  | succ n =>
    refine ⟨withLeaf s id l', by rw [List.take_of_length_le (by omega), e2, Res.ok_bind]; rfl, fun x => ?_⟩
    rw [a.lookup_upsert g (fun x => by
      show l'.lookup c x = _
      rw [lookup_ok C hl', habs]) x, hm x]
    by_cases hx : x = k
    · rw [if_pos hx, if_pos ⟨hx, by omega⟩]
    · rw [if_neg hx, if_neg (fun h => hx h.1)]

/-- A crash in the insert of a new key `k`: `z` is the largest key of the leaf of `k` and `r` the number of keys
of the leaf that are larger than `k`. -/
theorem crashInsert_new (C : CfgLaws c) (hw : WSearch c) {lm bm rm : Nat} {s : State K (SLeaf K V)}
    (g : Good (sortedLaws C) lm bm rm s) {m : K → Option V} (hm : Stores (sortedLaws C) s m) {k : K} (v : V)
    (hk : m k = none) (hr : Room c s k) :
    ∃ (r : Nat) (z : K), (0 < r → k < z ∧ m z ≠ none) ∧ ∀ t, ∃ s', crashInsert c s k v t = .ok s' ∧
      (t ≤ 2 → ∀ x, lookup (sortedOps c) s' x = .ok (m x)) ∧
      (2 * r + 3 ≤ t → ∀ x, lookup (sortedOps c) s' x = .ok (if x = k then some v else m x)) ∧
      (3 ≤ t → t < 2 * r + 3 →
        lookup (sortedOps c) s' z = .ok none ∧
        (t ≤ 2 * r → lookup (sortedOps c) s' k = .ok none) ∧
        (t = 2 * r + 1 → ∃ y, k < y ∧ m y ≠ none ∧ lookup (sortedOps c) s' k = .ok (m y)) ∧
        (t = 2 * r + 2 → lookup (sortedOps c) s' k = .ok (some v)) ∧
        ∃ x0, ∀ x, x ≠ k → x ≠ z → lookup (sortedOps c) s' x = .ok (m x) ∨
          (t % 2 = 1 ∧ t < 2 * r ∧ x = x0 ∧
            ∃ y, x0 < y ∧ m y ≠ none ∧ lookup (sortedOps c) s' x = .ok (m y))) := by
  obtain ⟨id, l, A⟩ := leafOf g k
  obtain ⟨es, h⟩ : ∃ es, LRep c.M l es := A.ok
  have habs : (sortedLaws C).abs l = es := h.abs
  have hf : find k es = none := by
    have := A.look k A.find
    rw [hm k, habs] at this
    rw [← this, hk]
  have hget : s.heap.get id = .ok l := by rw [Heap.get, A.data]; rfl
  have hlt : es.length < c.M := by rw [← h.num]; exact hr id l A.find A.data
  obtain ⟨a, b, vw, hs, hin, hno⟩ := h.view k v
  have hmem : ∀ i, i < es.length → m (a i) = some (b i) := by
    intro i hi
    have h1 := hin i hi
    have h2 := A.home (a i) (by rw [habs, h1]; simp)
    have h3 := A.look (a i) h2
    rw [hm, habs, h1] at h3
    exact h3
  obtain ⟨x, y, hxy, h1, h2⟩ := sorted_cut k h.sorted
  have hak : ∀ i, i < es.length → a i ≠ k := by
    rintro i hi rfl
    rw [hin i hi] at hf; cases hf
  -- position of `k`
  have hpos : l.pos c k = .ok x.length := pos_ok C (by rw [← hxy]; exact h) h1 h2
  have hpn : x.length ≤ es.length := by rw [hxy, List.length_append]; omega
  have hai : ∀ i (hi : i < es.length), a i = es[i].1 := by
    intro i hi
    have h3 := h.keys i (by simpa using hi)
    have h4 := vw.keys i hi
    rw [h4] at h3
    simpa [hi] using h3
  have low : ∀ i, i < x.length → a i < k := by
    intro i hi
    rw [hai i (by omega)]
    apply h1
    have : es[i]'(by omega) = x[i] := by
      simp only [hxy, List.getElem_append_left hi]
    rw [this]; exact List.getElem_mem hi
  have high : ∀ i, x.length ≤ i → i < es.length → k < a i := by
    intro i hi hi'
    refine lt_of_le_of_ne ?_ (hak i hi').symm
    rw [hai i hi']
    apply h2
    have : es[i]'hi' = y[i - x.length]'(by rw [hxy, List.length_append] at hi'; omega) := by
      simp only [hxy, List.getElem_append_right hi]
    rw [this]; exact List.getElem_mem _
  have hprog : insertProg c l k v = .ok (insertInstrs es.length x.length k v) := by
    unfold insertProg
    rw [hpos, Res.ok_bind, h.num]
    by_cases hlt' : x.length < es.length
    · rw [if_pos hlt', Slots.rd_ok (by omega) (vw.keys _ hlt'), Res.ok_bind, Res.pure_eq, Res.ok_bind,
        if_neg (by simpa using hak _ hlt')]; rfl
    · rw [if_neg hlt', Res.pure_eq, Res.ok_bind, if_neg (by simp)]; rfl
  refine ⟨es.length - x.length, a (es.length - 1), fun hr0 => ⟨high _ (by omega) (by omega), by
    rw [hmem _ (by omega)]; simp⟩, fun t => ?_⟩
  obtain ⟨l', e, c1, c2, c3⟩ := insert_crash_points hw vw hlt hpn hs low high v t
  have hlook : ∀ q, l.lookup c q = .ok (find q es) := fun q => lookup_ok C h q
  refine ⟨withLeaf s id l', ?_, ?_, ?_, ?_⟩
  · unfold crashInsert
    rw [A.find, Res.ok_bind, hget, Res.ok_bind, hprog, Res.ok_bind, e, Res.ok_bind]; rfl
  · intro ht q
    rw [A.lookup_same g (fun q => by
      show l'.lookup c q = _
      rw [c1 ht, hlook, habs]) q, hm q]
  · intro ht q
    rw [A.lookup_at g (r := some v) (fun q => by
      show l'.lookup c q = _
      rw [c2 ht, hlook, habs]
      split <;> rfl) q, hm q]
  · intro ht3 ht
    obtain ⟨d1, d2, d3⟩ := c3 ht3 ht
    have hrt : ∀ i, i < es.length → findLeaf (sortedOps c) s.depth s.root (a i) = .ok id := by
      intro i hi
      exact A.home (a i) (by rw [habs, hin i hi]; simp)
    refine ⟨?_, ?_, ?_, ?_, ?_⟩
    · rw [lookup_in (hrt _ (by omega))]; exact d1
    · intro ht'
      rw [lookup_in A.find]
      exact d2.trans (by rw [if_pos ht'])
    · intro ht'
      refine ⟨a x.length, high _ le_rfl (by omega), by rw [hmem _ (by omega)]; simp, ?_⟩
      rw [lookup_in A.find, hmem _ (by omega)]
      exact d2.trans (by rw [if_neg (by omega), if_pos ht'])
    · intro ht'
      rw [lookup_in A.find]
      exact d2.trans (by rw [if_neg (by omega), if_neg (by omega)])
    · by_cases hodd : t % 2 = 1 ∧ t < 2 * (es.length - x.length)
      · refine ⟨a (es.length - t / 2 - 1), ?_⟩
        intro q hq1 hq2
        by_cases hq : findLeaf (sortedOps c) s.depth s.root q = .ok id
        · rw [lookup_in hq]
          rcases d3 q hq1 hq2 with hd | ⟨_, _, hd1, hd2⟩
          · left
            show l'.lookup c q = _
            rw [hd, hlook, ← hm q, A.look q hq, habs]
          · right
            refine ⟨hodd.1, hodd.2, hd1, a (es.length - t / 2), hs _ _ (by omega) (by omega), ?_, ?_⟩
            · rw [hmem _ (by omega)]; simp
            · rw [hmem _ (by omega)]; exact hd2
        · left
          rw [lookup_out hq, hm.lookup g]
      · -- no duplicate key with another value
        refine ⟨k, ?_⟩
        intro q hq1 hq2
        left
        by_cases hq : findLeaf (sortedOps c) s.depth s.root q = .ok id
        · rw [lookup_in hq]
          rcases d3 q hq1 hq2 with hd | ⟨hd1, hd2, _⟩
          · show l'.lookup c q = _
            rw [hd, hlook, ← hm q, A.look q hq, habs]
          · exact absurd ⟨hd1, hd2⟩ hodd
        · rw [lookup_out hq, hm.lookup g]

/-- A crash in the erase of a stored key `k`; `r` is the number of keys of the leaf that are larger than `k`. -/
theorem crashErase_spec (C : CfgLaws c) (hw : WSearch c) {lm bm rm : Nat} {s : State K (SLeaf K V)}
    (g : Good (sortedLaws C) lm bm rm s) {m : K → Option V} (hm : Stores (sortedLaws C) s m) {k : K}
    (hk : m k ≠ none) :
    ∃ (r id : Nat) (h' : Heap (SLeaf K V)), findLeaf (sortedOps c) s.depth s.root k = .ok id ∧
      eraseLeaf (sortedOps c) s.heap id k = .ok (true, h') ∧ ∀ t, ∃ s', crashErase c s k t = .ok s' ∧
      (2 * r + 1 ≤ t → s' = ⟨s.depth, s.root, h'⟩) ∧
      (t = 0 → ∀ x, lookup (sortedOps c) s' x = .ok (m x)) ∧
      (1 ≤ t → lookup (sortedOps c) s' k = .ok none) ∧
      ∃ x0, ∀ x, x ≠ k → lookup (sortedOps c) s' x = .ok (m x) ∨
        (t % 2 = 1 ∧ t < 2 * r ∧ x = x0 ∧ ∃ y, y < x0 ∧ m y ≠ none ∧ lookup (sortedOps c) s' x = .ok (m y)) := by
  obtain ⟨id, l, A⟩ := leafOf g k
  obtain ⟨es, h⟩ : ∃ es, LRep c.M l es := A.ok
  have habs : (sortedLaws C).abs l = es := h.abs
  have hf : find k es ≠ none := by
    have := A.look k A.find
    rw [hm k, habs] at this
    rw [← this]; exact hk
  have hget : s.heap.get id = .ok l := by rw [Heap.get, A.data]; rfl
  obtain ⟨v0, hv0⟩ := Option.ne_none_iff_exists'.1 hf
  obtain ⟨a, b, vw, hs, hin, hno⟩ := h.view k v0
  have hmem : ∀ i, i < es.length → m (a i) = some (b i) := by
    intro i hi
    have h1 := hin i hi
    have h2 := A.home (a i) (by rw [habs, h1]; simp)
    have h3 := A.look (a i) h2
    rw [hm, habs, h1] at h3
    exact h3
  obtain ⟨x, y, hxy, h1, h2⟩ := sorted_cut k h.sorted
  have hpos : l.pos c k = .ok x.length := pos_ok C (by rw [← hxy]; exact h) h1 h2
  have hai : ∀ i (hi : i < es.length), a i = es[i].1 := by
    intro i hi
    have h3 := h.keys i (by simpa using hi)
    have h4 := vw.keys i hi
    rw [h4] at h3
    simpa [hi] using h3
  have hpk : x.length < es.length ∧ a x.length = k := by
    have hmk : (k, v0) ∈ es := (mem_iff_find h.sorted).2 hv0
    rw [hxy] at hmk
    rcases List.mem_append.1 hmk with hmk | hmk
    · exact absurd (h1 _ hmk) (lt_irrefl _)
    · cases y with
      | nil => cases hmk
      | cons e y =>
        have hlen : x.length < es.length := by rw [hxy, List.length_append, List.length_cons]; omega
        refine ⟨hlen, ?_⟩
        rw [hai _ hlen]
        have he : es[x.length]'hlen = e := by
          simp only [hxy, List.getElem_append_right le_rfl, Nat.sub_self, List.getElem_cons_zero]
        rw [he]
        rcases List.mem_cons.1 hmk with hmk | hmk
        · rw [← hmk]
        · have h3 := h.sorted
          rw [hxy] at h3
          have h4 : e.1 < k := (List.pairwise_cons.1 (List.pairwise_append.1 h3).2.1).1 _ hmk
          exact absurd (h2 e (by simp)) (not_le.2 h4)
  obtain ⟨hp, hak⟩ := hpk
  have hcap := h.cap
  obtain ⟨l1, e1, e2⟩ := erase_prog vw hp hpos hak
  refine ⟨es.length - 1 - x.length, id, s.heap.set id l1, A.find, ?_, fun t => ?_⟩
  · unfold eraseLeaf
    have e2' : (sortedOps c).erase l k = .ok (true, l1) := e2
    rw [hget, Res.ok_bind, e2', Res.ok_bind]; rfl
  obtain ⟨l', e, c0, c1, c2⟩ := erase_crash_points hw vw hp hs t
  have hlook : ∀ q, l.lookup c q = .ok (find q es) := fun q => lookup_ok C h q
  refine ⟨withLeaf s id l', ?_, ?_, ?_, ?_, ?_⟩
  · unfold crashErase
    rw [A.find, Res.ok_bind, hget, Res.ok_bind, hpos, Res.ok_bind, Slots.rd_ok (by omega) (vw.keys _ hp), Res.ok_bind,
      if_pos hak, h.num, Res.guardUB_pos (by omega), Res.ok_bind, e, Res.ok_bind]; rfl
  · intro ht
    have hlen : (eraseInstrs es.length x.length : List (SInstr K V)).length = 2 * (es.length - 1 - x.length) + 1 := by
      simp [eraseInstrs, List.length_flatMap]; omega
    rw [List.take_of_length_le (by omega), e1] at e
    rw [← Res.ok.inj e]; rfl
  · intro ht q
    rw [c0 ht, A.lookup_same g (fun q => (sortedLaws C).lookup l q A.ok) q, hm q]
  · intro ht
    rw [lookup_in A.find, ← hak]; exact c1 ht
  · refine ⟨a (x.length + t / 2 + 1), fun q hq => ?_⟩
    by_cases hq' : findLeaf (sortedOps c) s.depth s.root q = .ok id
    · rw [lookup_in hq']
      rcases c2 q (by rw [hak]; exact hq) with hd | ⟨hd1, hd2, hd3, hd4⟩
      · left
        show l'.lookup c q = _
        rw [hd, hlook, ← hm q, A.look q hq', habs]
      · right
        refine ⟨hd1, hd2, hd3, a (x.length + t / 2), hs _ _ (by omega) (by omega), ?_, ?_⟩
        · rw [hmem _ (by omega)]; simp
        · rw [hmem _ (by omega)]; exact hd4
    · left
      rw [lookup_out hq', hm.lookup g]

end Verif.BTree
