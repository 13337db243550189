import Verif.BTree.InsertCrashTree
import Verif.BTree.MergeCrashTree

/-!
# Crashes in the update of the branch node after an erase of PBPTree

Line numbers refer to /repo/src/pbptrees/PBPTree.hpp.  PBPTree keeps its branch nodes in persistent memory.  `erase` first changes
the leaves (`MergeCrash.lean`), then the branch node above them: one separator if entries were moved, or the loop that removes the
child that was deleted.  Here the leaves are done, and a crash comes after `q` assignments to that branch node (or to `rootNode` and
`depth`).  Assignments become persistent in program order.  The changes of the branch nodes further up (`underflowAtBranchLevel`)
come after that and are not modelled here.
-/

set_option linter.unusedSectionVars false

namespace Verif.BTree

open Verif Assoc
open Verif.Slots hiding none

variable {K V L α : Type}

/-! ## Model -/

section
variable [LinearOrder K] (o : Ops K V L)

/-- 469-472: `for (i = p; ..; ++i) { keys[i] = keys[i + 1]; children[i + 1] = children[i + 2]; }`, `c` times. -/
def dropLoop (p : Nat) : Nat → List (BW K α)
  | 0 => []
  | c + 1 => .cpKey p (p + 1) :: .cpKid (p + 1) (p + 2) :: dropLoop (p + 1) c

/-- 469-474: the assignments that remove child `p + 1` and separator `p` from a node with `num` keys. -/
def dropWrites (num p : Nat) (survivor : α) : List (BW K α) :=
  dropLoop p (num - 1 - p) ++ [.kid p survivor, .num (num - 1)]

/-- 464-482: the assignments to the branch node after a merge (none if the root is replaced). -/
def dropW (n : BNode K α) (pos : Nat) (survivor : α) : List (BW K α) :=
  if n.num > 1 then dropWrites n.num (if pos > 0 then pos - 1 else pos) survivor else []

/-- 431-483 `underflowAtLeafLevel(node, pos, leaf)`: the leaves after it, and its assignments to the branch node. -/
def underflowP (h : Heap L) (n : BNode K Nat) (pos id : Nat) : Res (Heap L × List (BW K Nat)) := do
  Res.assert (pos ≤ n.num)
  let ls ← leftSib o h pos id
  if pos > 0 ∧ (o.M + 1) / 2 < ls.2 then do
    let h ← balanceLeaf o h ls.1 id
    let l ← h.get id
    let k ← o.minKey l
    pure (h, [.key (pos - 1) k])
  else do
    let rs ← rightSib o h n.num pos id
    if pos < n.num ∧ (o.M + 1) / 2 < rs.2 then do
      let h ← balanceLeaf o h rs.1 id
      let l ← h.get rs.1
      let k ← o.minKey l
      pure (h, [.key pos k])
    else if pos > 0 ∧ ls.2 ≤ (o.M + 1) / 2 then do
      let h ← mergeLeaf o h ls.1 id
      pure (h, dropW n pos ls.1)
    else if pos < n.num ∧ rs.2 ≤ (o.M + 1) / 2 then do
      let h ← mergeLeaf o h id rs.1
      pure (h, dropW n pos id)
    else .assertFail

/-- 598-614: one leaf-level step of `eraseFromBranchNode`: the leaves after it, and its assignments to the branch node. -/
def eraseP (h : Heap L) (n : BNode K Nat) (k : K) : Res (Heap L × List (BW K Nat)) := do
  let pos ← lookupPos o n k
  let id ← rd (o.N + 1) n.kids pos
  let r ← eraseLeaf o h id k
  let l ← r.2.get id
  if o.num l < (o.M + 1) / 2 then underflowP o r.2 n pos id
  else pure (r.2, [])

/-- 598-631 `eraseFromBranchNode`: leaves and subtree after the leaf level and `q` assignments to the branch node above the leaf. -/
def dropAt : (d : Nat) → Heap L → BNode K (Tree K d) → K → Nat → Res (Heap L × BNode K (Tree K d))
  | 0, h, n, k, q => do
    let r ← eraseP o h n k
    let n' ← applyBW o n (r.2.take q)
    pure (r.1, n')
  | d + 1, h, n, k, q => do
    let pos ← lookupPos o n k
    let c ← rd (o.N + 1) n.kids pos
    let r ← dropAt d h c k q
    let kids ← wr (o.N + 1) n.kids pos r.2
    pure (r.1, { n with kids := kids })

/-- `erase` on a tree of depth `d`, after the leaf level and `q` assignments behind it.  If the root over two leaves is replaced by
the remaining leaf, the two assignments are `rootNode` and `depth` (476-480); between them (`mixed`) every operation takes a leaf for
a branch node. -/
def eraseAtT : (d : Nat) → Heap L → Tree K d → K → Nat → Res (Left K L)
  | 0, h, id, k, _ => do
    let r ← eraseLeaf o h id k
    pure (.tree ⟨0, id, r.2⟩)
  | 1, h, n, k, q => do
    let u ← eraseB0 o h n k
    match u.newRoot with
    | none => do
      let r ← dropAt o 0 h n k q
      pure (.tree ⟨1, r.2, r.1⟩)
    | some t =>
      if q = 0 then pure (.tree ⟨1, n, u.heap⟩)
      else if q = 1 then pure .mixed
      else pure (.tree ⟨0, t, u.heap⟩)
  | d + 2, h, n, k, q => do
    let r ← dropAt o (d + 1) h n k q
    pure (.tree ⟨d + 2, r.2, r.1⟩)

/-- 284-297 `erase`: what a crash leaves of the tree object. -/
def eraseAt (s : State K L) (k : K) (q : Nat) : Res (Left K L) := eraseAtT o s.depth s.heap s.root k q

end

section
variable [LinearOrder K] {o : Ops K V L}

/-! ## The node after `q` assignments -/

theorem dropLoop_length (c : Nat) : ∀ p, (dropLoop (K := K) (α := α) p c).length = 2 * c := by
  induction c with
  | zero => intro p; rfl
  | succ c ih => intro p; simp only [dropLoop, List.length_cons, ih]; omega

/-- The loop after `q` assignments. -/
theorem dropLoop_form : ∀ (c p q : Nat) (n : BNode K α), p + c < o.N → (∀ j, p < j → j ≤ p + c → (n.keys j).isSome) →
    (∀ j, p + 1 < j → j ≤ p + c + 1 → (n.kids j).isSome) →
    ∃ n', applyBW o n ((dropLoop p c).take q) = .ok n' ∧ n'.num = n.num ∧
      (∀ j, n'.keys j = if p ≤ j ∧ j < p + c ∧ j < p + (q + 1) / 2 then n.keys (j + 1) else n.keys j) ∧
      ∀ j, n'.kids j = if p + 1 ≤ j ∧ j < p + 1 + c ∧ j < p + 1 + q / 2 then n.kids (j + 1) else n.kids j := by
  intro c
  induction c with
  | zero =>
    intro p q n _ _ _
    refine ⟨n, by simp [dropLoop, applyBW], rfl, fun j => ?_, fun j => ?_⟩ <;> rw [if_neg (by omega)]
  | succ c ih =>
    intro p q n hN hk hc
    rw [dropLoop]
    obtain ⟨y, hy⟩ := Option.isSome_iff_exists.1 (hk (p + 1) (by omega) (by omega))
    obtain ⟨x, hx⟩ := Option.isSome_iff_exists.1 (hc (p + 2) (by omega) (by omega))
    rcases q with _ | _ | q
    · refine ⟨n, by simp [applyBW], rfl, fun j => ?_, fun j => ?_⟩ <;> rw [if_neg (by omega)]
    · refine ⟨{ n with keys := fun j => if j = p then some y else n.keys j }, ?_, rfl, fun j => ?_, fun j => ?_⟩
      · simp only [List.take_succ_cons, List.take_zero, applyBW, BW.apply]
        rw [rd_ok (by omega) hy, Res.ok_bind, wr_ok _ _ (by omega), Res.ok_bind, Res.pure_eq, Res.ok_bind]
      · simp only
        by_cases hj : j = p
        · subst hj
          rw [if_pos rfl, if_pos (by omega), hy]
        · rw [if_neg hj, if_neg (by omega)]
      · rw [if_neg (by omega)]
    · obtain ⟨n', e, g1, g2, g3⟩ := ih (p + 1) q
        ⟨n.num, fun j => if j = p then some y else n.keys j, fun j => if j = p + 1 then some x else n.kids j⟩
        (by omega) (fun j h1 h2 => by simp only; rw [if_neg (by omega)]; exact hk j (by omega) (by omega))
        (fun j h1 h2 => by simp only; rw [if_neg (by omega)]; exact hc j (by omega) (by omega))
      refine ⟨n', ?_, g1, fun j => ?_, fun j => ?_⟩
      · simp only [List.take_succ_cons, applyBW, BW.apply]
        rw [rd_ok (by omega) hy, Res.ok_bind, wr_ok _ _ (by omega), Res.ok_bind, Res.pure_eq, Res.ok_bind]
        rw [rd_ok (by omega) hx, Res.ok_bind, wr_ok _ _ (by omega), Res.ok_bind, Res.pure_eq, Res.ok_bind]
        exact e
      · rw [g2]
        simp only
        by_cases hj : j = p
        · subst hj
          rw [if_neg (by omega), if_pos rfl, if_pos (by omega), hy]
        · by_cases h1 : p + 1 ≤ j ∧ j < p + 1 + c ∧ j < p + 1 + (q + 1) / 2
          · rw [if_pos h1, if_neg (by omega), if_pos (by omega)]
          · rw [if_neg h1, if_neg hj, if_neg (by omega)]
      · rw [g3]
        simp only
        by_cases hj : j = p + 1
        · subst hj
          rw [if_neg (by omega), if_pos rfl, if_pos (by omega), hx]
        · by_cases h1 : p + 1 + 1 ≤ j ∧ j < p + 1 + 1 + c ∧ j < p + 1 + 1 + q / 2
          · rw [if_pos h1, if_neg (by omega), if_pos (by omega)]
          · rw [if_neg h1, if_neg hj, if_neg (by omega)]

/-- The node after `q` of the assignments that remove child `p + 1`. -/
theorem dropWrites_form {n : BNode K α} {p : Nat} {a : α} (q : Nat) (hN : n.num ≤ o.N) (hp : p < n.num)
    (hk : ∀ j, j < n.num → (n.keys j).isSome) (hc : ∀ j, j ≤ n.num → (n.kids j).isSome) (ha : n.kids p = some a) :
    ∃ n', applyBW o n ((dropWrites n.num p a).take q) = .ok n' ∧
      n'.num = (if 2 * (n.num - 1 - p) + 2 ≤ q then n.num - 1 else n.num) ∧
      (∀ j, n'.keys j = if p ≤ j ∧ j < n.num - 1 ∧ j < p + (q + 1) / 2 then n.keys (j + 1) else n.keys j) ∧
      ∀ j, n'.kids j = if p + 1 ≤ j ∧ j < n.num ∧ j < p + 1 + q / 2 then n.kids (j + 1) else n.kids j := by
  obtain ⟨n1, e1, a1, a2, a3⟩ := dropLoop_form (o := o) (n.num - 1 - p) p q n (by omega) (fun j _ hj => hk j (by omega))
    (fun j _ hj => hc j (by omega))
  have a2' : ∀ j, n1.keys j = if p ≤ j ∧ j < n.num - 1 ∧ j < p + (q + 1) / 2 then n.keys (j + 1) else n.keys j := by
    intro j
    rw [a2 j]
    by_cases h : p ≤ j ∧ j < n.num - 1 ∧ j < p + (q + 1) / 2
    · rw [if_pos h, if_pos (by omega)]
    · rw [if_neg h, if_neg (by omega)]
  have a3' : ∀ j, n1.kids j = if p + 1 ≤ j ∧ j < n.num ∧ j < p + 1 + q / 2 then n.kids (j + 1) else n.kids j := by
    intro j
    rw [a3 j]
    by_cases h : p + 1 ≤ j ∧ j < n.num ∧ j < p + 1 + q / 2
    · rw [if_pos h, if_pos (by omega)]
    · rw [if_neg h, if_neg (by omega)]
  unfold dropWrites
  rw [List.take_append, applyBW_append, e1, Res.ok_bind, dropLoop_length]
  have hkid : n1.kids p = some a := by rw [a3' p, if_neg (by omega), ha]
  have hsame : ({ n1 with kids := fun j => if j = p then some a else n1.kids j } : BNode K α) = n1 := by
    have : (fun j => if j = p then some a else n1.kids j) = n1.kids := by
      funext j
      by_cases h : j = p
      · subst h; rw [if_pos rfl, hkid]
      · rw [if_neg h]
    rw [this]
  have w1 : BW.apply o n1 (.kid p a) = .ok n1 := by
    rw [BW.apply, wr_ok _ _ (by omega), Res.ok_bind, Res.pure_eq, hsame]
  obtain ⟨t, ht⟩ : ∃ t, t = q - 2 * (n.num - 1 - p) := ⟨_, rfl⟩
  rw [← ht]
  rcases t with _ | _ | t
  · exact ⟨n1, rfl, by rw [if_neg (by omega), a1], a2', a3'⟩
  · refine ⟨n1, ?_, by rw [if_neg (by omega), a1], a2', a3'⟩
    simp only [List.take_succ_cons, List.take_zero, applyBW]
    rw [w1, Res.ok_bind]
  · refine ⟨{ n1 with num := n.num - 1 }, ?_, by rw [if_pos (by omega)], a2', a3'⟩
    simp only [List.take_succ_cons, List.take_nil, applyBW]
    rw [w1, Res.ok_bind]
    rfl

/-- Where the branch node leads a search for `x` after `q` assignments; `r` is the position of `x` before the erase, `g` the child
(numbered as before the erase).  `p + 1` is the deleted leaf, whose entries are in child `p`. -/
theorem dropWrites_sees (hD : DupSearch o) {n : BNode K α} {p : Nat} (q : Nat) (hN : n.num ≤ o.N) (hp : p < n.num) {κ : Nat → K} {χ : Nat → α}
    (hκ : ∀ i j, i < j → j < n.num → κ i < κ j) (hk : ∀ j, j < n.num → n.keys j = some (κ j))
    (hc : ∀ j, j ≤ n.num → n.kids j = some (χ j)) {x : K} {r : Nat} (hx : IsPos κ n.num x r) :
    ∃ n' p' g, applyBW o n ((dropWrites n.num p (χ p)).take q) = .ok n' ∧ lookupPos o n' x = .ok p' ∧
      rd (o.N + 1) n'.kids p' = .ok (χ g) ∧ g ≤ n.num ∧
      ((r = p + 1 ∧ (q = 0 ∨ (p + 1 = n.num ∧ q ≤ 1)) → g = p + 1) ∧
       (¬ (r = p + 1 ∧ (q = 0 ∨ (p + 1 = n.num ∧ q ≤ 1))) → g = (if r = p + 1 then p else r) ∨
        (q % 2 = 1 ∧ q < 2 * (n.num - 1 - p) ∧ κ (p + (q + 1) / 2) = x ∧ g = p + (q + 1) / 2 ∧ r = g + 1))) := by
  obtain ⟨n', e, f1, f2, f3⟩ := dropWrites_form (o := o) q hN hp (fun j hj => by rw [hk j hj]; rfl) (fun j hj => by rw [hc j hj]; rfl)
    (hc p hp.le)
  obtain ⟨ι, hι⟩ : ∃ ι : Nat → Nat, ∀ j, ((p ≤ j ∧ j < n.num - 1 ∧ j < p + (q + 1) / 2) ∧ ι j = j + 1) ∨
      (¬ (p ≤ j ∧ j < n.num - 1 ∧ j < p + (q + 1) / 2) ∧ ι j = j) := by
    refine ⟨fun j => if p ≤ j ∧ j < n.num - 1 ∧ j < p + (q + 1) / 2 then j + 1 else j, fun j => ?_⟩
    by_cases h : p ≤ j ∧ j < n.num - 1 ∧ j < p + (q + 1) / 2
    · exact Or.inl ⟨h, by simp only [if_pos h]⟩
    · exact Or.inr ⟨h, by simp only [if_neg h]⟩
  have hnum : 2 * (n.num - 1 - p) + 2 ≤ q ∧ n'.num = n.num - 1 ∨ q < 2 * (n.num - 1 - p) + 2 ∧ n'.num = n.num := by
    by_cases h : 2 * (n.num - 1 - p) + 2 ≤ q
    · exact Or.inl ⟨h, by rw [f1, if_pos h]⟩
    · exact Or.inr ⟨by omega, by rw [f1, if_neg h]⟩
  have hkey : ∀ j, j < n'.num → n'.keys j = some (κ (ι j)) := by
    intro j hj
    rw [f2 j]
    rcases hι j with ⟨h, hi⟩ | ⟨h, hi⟩
    · rw [if_pos h, hk _ (by omega), hi]
    · rw [if_neg h, hk _ (by omega), hi]
  have hι' : ∀ j, j < n'.num → ι j < n.num := fun j hj => by have := hι j; omega
  have hκle : ∀ i j, i ≤ j → j < n.num → κ i ≤ κ j := fun i j hij hj => by
    rcases Nat.lt_or_eq_of_le hij with h | h
    · exact (hκ i j h hj).le
    · rw [h]
  have hinj : ∀ i j, i < n.num → j < n.num → κ i = κ j → i = j := fun i j hi hj he => by
    rcases Nat.lt_trichotomy i j with h | h | h
    · exact absurd (hκ i j h hj) (by rw [he]; exact lt_irrefl _)
    · exact h
    · exact absurd (hκ j i h hi) (by rw [he]; exact lt_irrefl _)
  obtain ⟨p', e2, g1, g2, g3⟩ := hD n'.keys n'.num (fun j => κ (ι j)) x (by omega) hkey
    (fun i j hij hj => hκle _ _ (by have h1 := hι i; have h2 := hι j; omega) (hι' j hj))
  obtain ⟨g, hg, hgc⟩ : ∃ g, n'.kids p' = some (χ g) ∧ ((p + 1 ≤ p' ∧ p' < n.num ∧ p' < p + 1 + q / 2) ∧ g = p' + 1 ∨
      ¬ (p + 1 ≤ p' ∧ p' < n.num ∧ p' < p + 1 + q / 2) ∧ g = p') := by
    rw [f3 p']
    by_cases h : p + 1 ≤ p' ∧ p' < n.num ∧ p' < p + 1 + q / 2
    · exact ⟨p' + 1, by rw [if_pos h, hc _ (by omega)], .inl ⟨h, rfl⟩⟩
    · exact ⟨p', by rw [if_neg h, hc _ (by omega)], .inr ⟨h, rfl⟩⟩
  refine ⟨n', p', g, e, e2, rd_ok (by omega) hg, by omega, ?_⟩
  -- before and behind the position
  have hr := hx.1
  have h4 : p' = 0 ∨ ι (p' - 1) < r := by
    by_cases h0 : p' = 0
    · exact .inl h0
    · exact .inr ((hx.le_iff (hι' _ (by omega))).1 (g2 (p' - 1) (by omega)))
  have h3 : p' = n'.num ∨ r ≤ ι p' ∨ (0 < p' ∧ ι (p' - 1) = ι p' ∧ κ (ι p') = x ∧ ι p' + 1 = r) := by
    by_cases h0 : p' = n'.num
    · exact .inl h0
    · have hlt : p' < n'.num := by omega
      rcases g3 p' le_rfl hlt with h | ⟨h1, h2, h5⟩
      · right; left
        by_contra hc'
        exact absurd ((hx.le_iff (hι' _ hlt)).2 (by omega)) (not_le.2 h)
      · right; right
        have h6 := hinj _ _ (hι' _ (by omega)) (hι' _ hlt) (h2.trans h5.symm)
        refine ⟨h1, h6, h5, ?_⟩
        have h7 := (hx.le_iff (hι' _ hlt)).1 h5.le
        by_contra hc'
        have h8 := hx.2.1 (ι p' + 1) (by omega)
        have h9 := hκ (ι p') (ι p' + 1) (by omega) (by omega)
        rw [h5] at h9
        exact absurd h8 (not_le.2 h9)
  have i1 := hι (p' - 1)
  have i2 := hι p'
  generalize hA : ι (p' - 1) = A at *
  generalize hB : ι p' = B at *
  have key : (r = p + 1 ∧ (q = 0 ∨ (p + 1 = n.num ∧ q ≤ 1)) ∧ g = p + 1) ∨ (¬ (r = p + 1 ∧ (q = 0 ∨ (p + 1 = n.num ∧ q ≤ 1))) ∧
      ((r = p + 1 ∧ g = p) ∨ (r ≠ p + 1 ∧ g = r) ∨ (q % 2 = 1 ∧ q < 2 * (n.num - 1 - p) ∧ B = p + (q + 1) / 2 ∧ κ B = x ∧ g = B ∧ r = g + 1))) := by
    rcases h3 with h3 | h3 | ⟨h3, h3a, h3b, h3c⟩
    · clear hD hx hκ hk hc hkey hι' hκle hinj g2 g3 f2 f3 e e2 hg hι
      by_cases hb : r = p + 1 ∧ (q = 0 ∨ (p + 1 = n.num ∧ q ≤ 1))
      · left; omega
      · right; refine ⟨hb, ?_⟩
        by_cases hr1 : r = p + 1
        · left; omega
        · right; left; omega
    · clear hD hx hκ hk hc hkey hι' hκle hinj g2 g3 f2 f3 e e2 hg hι
      by_cases hb : r = p + 1 ∧ (q = 0 ∨ (p + 1 = n.num ∧ q ≤ 1))
      · left; omega
      · right; refine ⟨hb, ?_⟩
        by_cases hr1 : r = p + 1
        · left; omega
        · right; left; omega
    · right
      refine ⟨by omega, ?_⟩
      by_cases hgr : g = r
      · right; left; omega
      · right; right
        exact ⟨by omega, by omega, by omega, h3b, by omega, by omega⟩
  refine ⟨fun hb => ?_, fun hb => ?_⟩
  · rcases key with key | key
    · exact key.2.2
    · exact absurd hb key.1
  · rcases key with key | ⟨_, key | key | key⟩
    · exact absurd ⟨key.1, key.2.1⟩ hb
    · left; rw [if_pos key.1]; exact key.2
    · left; rw [if_neg key.1]; exact key.2
    · right
      obtain ⟨k1, k2, k3, k4, k5, k6⟩ := key
      exact ⟨k1, k2, by rw [← k3]; exact k4, by omega, k6⟩

end

/-! ## The children of a branch node -/

section
variable [LinearOrder K] {o : Ops K V L} {W : Laws o} {lm bm : Nat}

/-- Keys and children of a branch node, and what lookups in the children give. -/
theorem Bt.node {h : Heap L} {d top : Nat} {n : BNode K (Tree K d)} {lo hi : Bd K} (hb : Bt W tt lm bm h (d + 1) top n lo hi) (s : K) :
    ∃ (κ : Nat → K) (χ : Nat → Tree K d), top ≤ n.num ∧ n.num ≤ o.N ∧ (∀ j, j < n.num → n.keys j = some (κ j)) ∧
      (∀ j, j ≤ n.num → n.kids j = some (χ j)) ∧ (∀ i j, i < j → j < n.num → κ i < κ j) ∧
      (∀ x, ∃ r, IsPos κ n.num x r) ∧ ids (d + 1) n = (List.range (n.num + 1)).flatMap (fun i => ids d (χ i)) ∧
      ∀ x g r, g ≤ n.num → IsPos κ n.num x r →
        lookT o d h (χ g) x = .ok (if g = r then find x (content W h (ids (d + 1) n)) else none) := by
  obtain ⟨cs, ks, hr, htop, ht⟩ := hb
  obtain ⟨hks, _, _⟩ := keys_sorted (fun c a b hc => Bt.lt hc) ht
  have hnum := hr.num
  have hcap := hr.cap
  have hlen := hr.len
  obtain ⟨c0, hc0⟩ : ∃ c, c ∈ cs := by
    cases cs with
    | nil => simp at hlen
    | cons a b => exact ⟨a, by simp⟩
  have hids := ids_rep hr
  have hids' : ids (d + 1) n = (List.range (n.num + 1)).flatMap (fun i => ids d (cs[i]?.getD c0)) := by
    rw [hids]
    have : cs = (List.range (n.num + 1)).map (fun i => cs[i]?.getD c0) := by
      apply List.ext_getElem
      · simp; omega
      · intro i h1 h2
        simp [h1]
    conv_lhs => rw [this]
    rw [List.flatMap_map]
  set S : Nat → K := fun i => ks[i]?.getD s with hS
  set χ : Nat → Tree K d := fun i => cs[i]?.getD c0 with hχ
  have hpos : ∀ x, IsPos S n.num x (ks.countP (fun y => decide (y ≤ x))) := by
    intro x
    have := isPos_countP (ks := ks) hks x s
    rwa [← hnum] at this
  have huniq : ∀ x r, IsPos S n.num x r → r = ks.countP (fun y => decide (y ≤ x)) := by
    intro x r hx
    have hy := hpos x
    have a1 := hx.1
    have a2 := hy.1
    rcases Nat.lt_trichotomy r (ks.countP (fun y => decide (y ≤ x))) with h1 | h1 | h1
    · exact absurd (hy.2.1 r h1) (not_le.2 (hx.2.2 r le_rfl (by omega)))
    · exact h1
    · exact absurd (hx.2.1 _ h1) (not_le.2 (hy.2.2 _ le_rfl (by omega)))
  refine ⟨S, χ, by rw [hnum]; exact htop, by omega, fun j hj => ?_, fun j hj => ?_, fun i j hij hj => ?_, fun x => ⟨_, hpos x⟩, hids', fun x g r hg hx => ?_⟩
  · rw [hr.keys j (by omega)]
    simp only [hS]
    rw [List.getElem?_eq_getElem (by omega)]; rfl
  · rw [hr.kids j (by omega)]
    simp only [hχ]
    rw [List.getElem?_eq_getElem (by omega)]; rfl
  · simp only [hS]
    rw [List.getElem?_eq_getElem (by omega), List.getElem?_eq_getElem (by omega)]
    exact List.pairwise_iff_getElem.1 hks i j _ (by omega) hij
  · have hrr := huniq x r hx
    have hgl : g < cs.length := by omega
    obtain ⟨a1, y, a2, ea, hal⟩ := list_cut hgl
    obtain ⟨q1, q2, eq, hql⟩ := list_cut' (l := ks) (n := g) (by omega)
    have hχg : χ g = y := by simp only [hχ]; rw [ea, ← hal]; simp
    have ht' := ht
    rw [ea, eq] at ht'
    obtain ⟨b1, m, m', b2, hb1, hb2, hbl, t1, pc, t2⟩ := tile_focus (by omega) ht'
    rw [hχg, lookT_any pc x]
    by_cases hgp : g = r
    · rw [if_pos hgp, hids, ea]
      rw [← hgp] at hx
      congr 1
      refine (find_tile ht' (by omega) (fun z hz => ?_) (fun z hz => ?_)).symm
      · obtain ⟨i, hi, rfl⟩ := List.getElem_of_mem hz
        have := hx.2.1 i (by omega)
        simp only [hS] at this
        rw [eq, List.getElem?_append_left hi, List.getElem?_eq_getElem hi] at this
        exact this
      · obtain ⟨i, hi, rfl⟩ := List.getElem_of_mem hz
        have hl3 := congrArg List.length eq
        rw [List.length_append] at hl3
        have := hx.2.2 (q1.length + i) (by omega) (by omega)
        simp only [hS] at this
        rw [eq, List.getElem?_append_right (by omega), Nat.add_sub_cancel_left, List.getElem?_eq_getElem hi] at this
        exact this
    · rw [if_neg hgp]
      congr 1
      rw [find_eq_none]
      rintro e he rfl
      have hb := pc.bounds e he
      apply hgp
      rw [hrr]
      symm
      rw [← hql]
      refine countP_pos eq (fun z hz => ?_) (fun z hz => ?_)
      · have hm : bk z ∈ b1 ++ [m] := by rw [← hb1]; exact List.mem_cons_of_mem _ (List.mem_map.2 ⟨z, hz, rfl⟩)
        have hsb := Tile.sorted (fun c a b hc => Bt.lt hc) t1
        rw [List.pairwise_append] at hsb
        rcases List.mem_append.1 hm with hm | hm
        · exact bk_le.1 (le_trans (hsb.2.2 _ hm m (by simp)).le hb.1)
        · exact bk_le.1 (by rw [List.mem_singleton.1 hm]; exact hb.1)
      · have hm : bk z ∈ m' :: b2 := by rw [← hb2]; exact List.mem_append_left _ (List.mem_map.2 ⟨z, hz, rfl⟩)
        have hsb := Tile.sorted (fun c a b hc => Bt.lt hc) t2
        rw [List.pairwise_cons] at hsb
        rcases List.mem_cons.1 hm with hm | hm
        · exact bk_lt.1 (by rw [hm]; exact hb.2)
        · exact bk_lt.1 (lt_trans hb.2 (hsb.1 _ hm))

end

end Verif.BTree
