import Verif.BTree.DropCrashSpec

/-!
# Crashes after a merge of two branch nodes in an erase of PBPTree

Line numbers refer to /repo/src/pbptrees/PBPTree.hpp.  `underflowAtBranchLevel` merges two branch nodes, deletes the second and then
removes it from the node above: first a loop over the keys, then a loop over the children, then the counter (712-724).  Here the
merge and the deletion are done, and a crash comes after `t` of these assignments.  They become persistent in program order.  The
merge writes only behind the counter of its target until it raises that counter, and no search leads there before the deletion; its
own assignments are not modelled one by one.  If entries are moved instead (`balanceBranchNodes`) the whole call is one step.  The
replacement of an empty root (618-622) comes after that and is not modelled.
-/

set_option linter.unusedSectionVars false

namespace Verif.BTree

open Verif Assoc
open Verif.Slots hiding none

variable {K V L α : Type}

/-! ## Model -/

section
variable [LinearOrder K] (o : Ops K V L)

/-- 714-716: `for (i = p; ..; ++i) keys[i] = keys[i + 1];`, `c` times. -/
def shiftKeys (p : Nat) : Nat → List (BW K α)
  | 0 => []
  | c + 1 => .cpKey p (p + 1) :: shiftKeys (p + 1) c

/-- 719-721: `for (i = p; ..; ++i) children[i] = children[i + 1];`, `c` times. -/
def shiftKids (p : Nat) : Nat → List (BW K α)
  | 0 => []
  | c + 1 => .cpKid p (p + 1) :: shiftKids (p + 1) c

/-- 712-722: the assignments that remove separator `p` and child `p + 1` from a node with `num` keys. -/
def joinWrites (num p : Nat) : List (BW K α) :=
  shiftKeys p (num - 1 - p) ++ (shiftKids (p + 1) (num - 1 - p) ++ [.num (num - 1)])

/-- 677-711 `underflowAtBranchLevel(node, pos, child)` up to the deletion of a node: the node, and `some p` if the children `p` and
`p + 1` were merged.  The pointer to the deleted node is dangling (an empty slot). -/
def joinP (n : BNode K (BNode K α)) (pos : Nat) (child : BNode K α) : Res (BNode K (BNode K α) × Option Nat) := do
  let pn ← childNum o (pos > 0) n (pos - 1)
  if pos > 0 ∧ (o.N + 1) / 2 < pn then do
    let u ← underflowBranch o n pos child
    pure (u.1, none)
  else do
    let nn ← childNum o (pos < n.num) n (pos + 1)
    if pos < n.num ∧ (o.N + 1) / 2 < nn then do
      let u ← underflowBranch o n pos child
      pure (u.1, none)
    else if 0 < pn then do
      let sib ← rd (o.N + 1) n.kids (pos - 1)
      let pk ← rd o.N n.keys (pos - 1)
      let m ← mergeBranch o sib pk child
      let kids ← wr (o.N + 1) n.kids (pos - 1) m
      pure ({ n with kids := fun j => if j = pos then none else kids j }, some (pos - 1))
    else if 0 < nn then do
      let sib ← rd (o.N + 1) n.kids (pos + 1)
      let pk ← rd o.N n.keys pos
      let m ← mergeBranch o child pk sib
      Res.guardUB (pos = 0)
      let kids ← wr (o.N + 1) n.kids pos m
      pure ({ n with kids := fun j => if j = pos + 1 then none else kids j }, some pos)
    else .assertFail

/-- 617-618, 712-722: the node after `t` assignments behind the deletion. -/
def joinN (n : BNode K (BNode K α)) (pos : Nat) (child : BNode K α) (t : Nat) : Res (BNode K (BNode K α)) := do
  let u ← joinP o n pos child
  match u.2 with
  | none => pure u.1
  | some p => applyBW o u.1 ((joinWrites n.num p).take t)

/-- 598-631 `eraseFromBranchNode`, interrupted in the underflow of a branch node: `j` levels below `n` the child of the node has been
dealt with, and its own underflow was interrupted after `t` assignments.  (A node over leaves has no such underflow.) -/
def joinAt : (d : Nat) → Heap L → BNode K (Tree K d) → K → Nat → Nat → Res (Heap L × BNode K (Tree K d))
  | 0, _, _, _, _, _ => .assertFail
  | d + 1, h, n, k, 0, t => do
    let pos ← lookupPos o n k
    let c ← rd (o.N + 1) n.kids pos
    let r ← eraseB o d false h c k
    Res.guardUB (r.newRoot.isNone)
    let kids ← wr (o.N + 1) n.kids pos r.node
    let n : BNode K (Tree K (d + 1)) := { n with kids := kids }
    let pos ← lookupPos o n k
    if r.node.num < (o.N + 1) / 2 then do
      let n' ← joinN o n pos r.node t
      pure (r.heap, n')
    else pure (r.heap, n)
  | d + 1, h, n, k, j + 1, t => do
    let pos ← lookupPos o n k
    let c ← rd (o.N + 1) n.kids pos
    let r ← joinAt d h c k j t
    let kids ← wr (o.N + 1) n.kids pos r.2
    pure (r.1, { n with kids := kids })

/-- 284-297 `erase`, interrupted in the same way; `j = 0` is the root. -/
def joinErase (s : State K L) (k : K) (j t : Nat) : Res (State K L) :=
  match s with
  | ⟨0, _, _⟩ => .assertFail
  | ⟨d + 1, n, h⟩ => do
    let r ← joinAt o d h n k j t
    pure ⟨d + 1, r.2, r.1⟩

end

/-! ## Which child a search comes to -/

/-- Of `num + 1` children, `p` and `p + 1` were merged and `p + 1` was deleted.  After `t` assignments a search for a key of child `r`
comes to the deleted node. -/
def Dead (num p t r : Nat) : Prop := (r = p + 1 ∧ t = 0) ∨ (r = p + 2 ∧ 2 ≤ t ∧ t ≤ num - 1 - p)

/-- After `t` assignments a search for a key of child `r` comes to the child before it. -/
def Missed (num p t r : Nat) : Prop :=
  p + 3 ≤ r ∧ ((t ≤ num - 1 - p ∧ r ≤ p + t) ∨ (num - 1 - p ≤ t ∧ r < num ∧ p + 2 + (t - (num - 1 - p)) ≤ r))

/-- The number of the separator that stands there twice after `t` assignments. -/
def dupIx (num p t : Nat) : Nat := p + min t (num - 1 - p)

section
variable {num num' p t r C T U p' g A B : Nat}

set_option maxHeartbeats 1000000 in
theorem join_arith (hp : p < num) (hC : C = num - 1 - p) (hT : T = min t C) (hU : U = min (t - C) C) (hr : r ≤ num)
    (hnum : 2 * C + 1 ≤ t ∧ num' = num - 1 ∨ t < 2 * C + 1 ∧ num' = num) (g1 : p' ≤ num')
    (hgc : (p + 1 ≤ p' ∧ p' < p + 1 + U) ∧ g = p' + 1 ∨ ¬ (p + 1 ≤ p' ∧ p' < p + 1 + U) ∧ g = p') (h4 : p' = 0 ∨ A < r)
    (i1 : ((p ≤ p' - 1 ∧ p' - 1 < p + T) ∧ A = p' - 1 + 1) ∨ (¬ (p ≤ p' - 1 ∧ p' - 1 < p + T) ∧ A = p' - 1))
    (i2 : ((p ≤ p' ∧ p' < p + T) ∧ B = p' + 1) ∨ (¬ (p ≤ p' ∧ p' < p + T) ∧ B = p'))
    (h3 : p' = num' ∨ r ≤ B ∨ ((t = 0 ∨ 2 * C ≤ t) ∧ 0 < p' ∧ A = B ∧ B + 1 = r)) :
    (((r = p + 1 ∧ t = 0) ∨ (r = p + 2 ∧ 2 ≤ t ∧ t ≤ C)) → g = p + 1) ∧
    ((p + 3 ≤ r ∧ ((t ≤ C ∧ r ≤ p + t) ∨ (C ≤ t ∧ r < num ∧ p + 2 + (t - C) ≤ r))) → g ≠ p + 1 ∧ g ≠ p ∧ g ≠ r) ∧
    (¬ ((r = p + 1 ∧ t = 0) ∨ (r = p + 2 ∧ 2 ≤ t ∧ t ≤ C)) → r = p + 1 → g = p) ∧
    (¬ ((r = p + 1 ∧ t = 0) ∨ (r = p + 2 ∧ 2 ≤ t ∧ t ≤ C)) →
      ¬ (p + 3 ≤ r ∧ ((t ≤ C ∧ r ≤ p + t) ∨ (C ≤ t ∧ r < num ∧ p + 2 + (t - C) ≤ r))) → r ≠ p + 1 → g = r) := by
  by_cases c1 : t ≤ C
  · obtain rfl : T = t := by omega
    obtain rfl : U = 0 := by omega
    obtain rfl : num' = num := by omega
    obtain rfl : g = p' := by omega
    clear hgc hnum hT hU
    rcases h3 with h3 | h3 | h3 <;> rcases i1 with i1 | i1 <;> rcases i2 with i2 | i2 <;> rcases h4 with h4 | h4 <;>
      exact ⟨fun h => by omega, fun h => by omega, fun h1 h2 => by omega, fun h1 h2 h3' => by omega⟩
  · obtain rfl : T = C := by omega
    by_cases c2 : t ≤ 2 * T
    · obtain rfl : t = T + U := by omega
      obtain rfl : num' = num := by omega
      clear hnum hT hU
      rcases h3 with h3 | h3 | h3 <;> rcases i1 with i1 | i1 <;> rcases i2 with i2 | i2 <;> rcases h4 with h4 | h4 <;>
        rcases hgc with hgc | hgc <;>
        exact ⟨fun h => by omega, fun h => by omega, fun h1 h2 => by omega, fun h1 h2 h3' => by omega⟩
    · obtain rfl : U = T := by omega
      obtain rfl : num' = num - 1 := by omega
      clear hnum hT hU
      rcases h3 with h3 | h3 | h3 <;> rcases i1 with i1 | i1 <;> rcases i2 with i2 | i2 <;> rcases h4 with h4 | h4 <;>
        rcases hgc with hgc | hgc <;>
        exact ⟨fun h => by omega, fun h => by omega, fun h1 h2 => by omega, fun h1 h2 h3' => by omega⟩

theorem join_dup (hp : p < num) (hC : C = num - 1 - p) (hT : T = min t C) (hU : U = min (t - C) C) (hr : r ≤ num)
    (hnum : 2 * C + 1 ≤ t ∧ num' = num - 1 ∨ t < 2 * C + 1 ∧ num' = num) (g1 : p' ≤ num')
    (hgc : (p + 1 ≤ p' ∧ p' < p + 1 + U) ∧ g = p' + 1 ∨ ¬ (p + 1 ≤ p' ∧ p' < p + 1 + U) ∧ g = p')
    (i1 : ((p ≤ p' - 1 ∧ p' - 1 < p + T) ∧ A = p' - 1 + 1) ∨ (¬ (p ≤ p' - 1 ∧ p' - 1 < p + T) ∧ A = p' - 1))
    (i2 : ((p ≤ p' ∧ p' < p + T) ∧ B = p' + 1) ∨ (¬ (p ≤ p' ∧ p' < p + T) ∧ B = p'))
    (hd : 1 ≤ t ∧ t < 2 * C) (q1 : 0 < p') (q2 : p' < num') (q3 : A = B) (q5 : B + 1 = r) :
    B = p + T ∧ g + 1 = r ∧ (g = p + 1 → t = 1) ∧ g ≠ p := by
  obtain rfl : num' = num := by omega
  clear hnum
  have : p' = p + T := by omega
  subst this
  clear i1
  have hB : B = p + T := by omega
  have hg : g = p + T := by omega
  refine ⟨hB, by omega, ?_, ?_⟩ <;> omega

end

section
variable [LinearOrder K] {o : Ops K V L}

theorem shiftKeys_length (c : Nat) : ∀ p, (shiftKeys (K := K) (α := α) p c).length = c := by
  induction c with
  | zero => intro p; rfl
  | succ c ih => intro p; simp only [shiftKeys, List.length_cons, ih]

theorem shiftKids_length (c : Nat) : ∀ p, (shiftKids (K := K) (α := α) p c).length = c := by
  induction c with
  | zero => intro p; rfl
  | succ c ih => intro p; simp only [shiftKids, List.length_cons, ih]

theorem shiftKeys_form : ∀ (c p t : Nat) (n : BNode K α), p + c < o.N → (∀ j, p < j → j ≤ p + c → (n.keys j).isSome) →
    applyBW o n ((shiftKeys p c).take t) = .ok { n with keys := fun j => if p ≤ j ∧ j < p + min t c then n.keys (j + 1) else n.keys j } := by
  intro c
  induction c with
  | zero =>
    intro p t n _ _
    simp only [shiftKeys, List.take_nil, applyBW]
    refine congrArg Res.ok ?_
    cases n
    congr 1
    funext j
    exact (if_neg (by omega)).symm
  | succ c ih =>
    intro p t n hN hk
    rcases t with _ | t
    · simp only [List.take_zero, applyBW]
      refine congrArg Res.ok ?_
      cases n
      congr 1
      funext j
      exact (if_neg (by omega)).symm
    · obtain ⟨y, hy⟩ := Option.isSome_iff_exists.1 (hk (p + 1) (by omega) (by omega))
      rw [shiftKeys, List.take_succ_cons, applyBW, BW.apply, rd_ok (by omega) hy, Res.ok_bind, wr_ok _ _ (by omega), Res.ok_bind, Res.pure_eq, Res.ok_bind,
        ih (p + 1) t _ (by omega) (fun j h1 h2 => by dsimp only; rw [if_neg (by omega)]; exact hk j (by omega) (by omega))]
      congr 2
      funext j
      dsimp only
      by_cases h1 : j = p
      · subst h1
        rw [if_neg (by omega), if_pos rfl, if_pos (by omega), hy]
      · by_cases h2 : p ≤ j ∧ j < p + min (t + 1) (c + 1)
        · rw [if_pos (by omega), if_pos h2, if_neg (by omega)]
        · rw [if_neg (by omega), if_neg h2, if_neg h1]

theorem shiftKids_form : ∀ (c p t : Nat) (n : BNode K α), p + c < o.N + 1 → (∀ j, p < j → j ≤ p + c → (n.kids j).isSome) →
    applyBW o n ((shiftKids p c).take t) = .ok { n with kids := fun j => if p ≤ j ∧ j < p + min t c then n.kids (j + 1) else n.kids j } := by
  intro c
  induction c with
  | zero =>
    intro p t n _ _
    simp only [shiftKids, List.take_nil, applyBW]
    refine congrArg Res.ok ?_
    cases n
    congr 1
    funext j
    exact (if_neg (by omega)).symm
  | succ c ih =>
    intro p t n hN hk
    rcases t with _ | t
    · simp only [List.take_zero, applyBW]
      refine congrArg Res.ok ?_
      cases n
      congr 1
      funext j
      exact (if_neg (by omega)).symm
    · obtain ⟨y, hy⟩ := Option.isSome_iff_exists.1 (hk (p + 1) (by omega) (by omega))
      rw [shiftKids, List.take_succ_cons, applyBW, BW.apply, rd_ok (by omega) hy, Res.ok_bind, wr_ok _ _ (by omega), Res.ok_bind, Res.pure_eq, Res.ok_bind,
        ih (p + 1) t _ (by omega) (fun j h1 h2 => by dsimp only; rw [if_neg (by omega)]; exact hk j (by omega) (by omega))]
      congr 2
      funext j
      dsimp only
      by_cases h1 : j = p
      · subst h1
        rw [if_neg (by omega), if_pos rfl, if_pos (by omega), hy]
      · by_cases h2 : p ≤ j ∧ j < p + min (t + 1) (c + 1)
        · rw [if_pos (by omega), if_pos h2, if_neg (by omega)]
        · rw [if_neg (by omega), if_neg h2, if_neg h1]

/-- The node after `t` assignments. -/
theorem joinWrites_form {n : BNode K α} {p : Nat} (t : Nat) (hN : n.num ≤ o.N) (hp : p < n.num)
    (hk : ∀ j, j < n.num → (n.keys j).isSome) (hc : ∀ j, p + 2 ≤ j → j ≤ n.num → (n.kids j).isSome) :
    ∃ n', applyBW o n ((joinWrites n.num p).take t) = .ok n' ∧
      n'.num = (if 2 * (n.num - 1 - p) + 1 ≤ t then n.num - 1 else n.num) ∧
      (∀ j, n'.keys j = if p ≤ j ∧ j < p + min t (n.num - 1 - p) then n.keys (j + 1) else n.keys j) ∧
      ∀ j, n'.kids j = if p + 1 ≤ j ∧ j < p + 1 + min (t - (n.num - 1 - p)) (n.num - 1 - p) then n.kids (j + 1) else n.kids j := by
  unfold joinWrites
  rw [List.take_append, applyBW_append, shiftKeys_form _ _ _ _ (by omega) (fun j h1 h2 => hk j (by omega)), Res.ok_bind, shiftKeys_length,
    List.take_append, applyBW_append, shiftKids_form _ _ _ _ (by omega) (by intro j h1 h2; exact hc j (by omega) (by omega)), Res.ok_bind, shiftKids_length]
  by_cases h : 2 * (n.num - 1 - p) + 1 ≤ t
  · rw [List.take_of_length_le (by simp; omega)]
    exact ⟨_, rfl, by rw [if_pos h], fun j => rfl, fun j => rfl⟩
  · rw [show t - (n.num - 1 - p) - (n.num - 1 - p) = 0 by omega, List.take_zero]
    exact ⟨_, rfl, by rw [if_neg h], fun j => rfl, fun j => rfl⟩

/-- Where the branch node leads a search for `x` after `t` assignments; `r` is the position of `x` before the merge, `g` the slot
before the assignments that is seen. -/
theorem joinWrites_sees (hD : DupSearch o) {n : BNode K α} {p : Nat} (t : Nat) (hN : n.num ≤ o.N) (hp : p < n.num) {κ : Nat → K}
    (hκ : ∀ i j, i < j → j < n.num → κ i < κ j) (hk : ∀ j, j < n.num → n.keys j = some (κ j))
    (hc : ∀ j, p + 2 ≤ j → j ≤ n.num → (n.kids j).isSome) {x : K} {r : Nat} (hx : IsPos κ n.num x r) :
    ∃ n' p' g, applyBW o n ((joinWrites n.num p).take t) = .ok n' ∧ lookupPos o n' x = .ok p' ∧ p' ≤ n.num ∧
      n'.kids p' = n.kids g ∧ g ≤ n.num ∧
      ((1 ≤ t ∧ t < 2 * (n.num - 1 - p) ∧ κ (dupIx n.num p t) = x ∧ g + 1 = r ∧ (g = p + 1 → t = 1) ∧ g ≠ p) ∨
       (Dead n.num p t r ∧ g = p + 1) ∨ (Missed n.num p t r ∧ g ≠ p + 1 ∧ g ≠ p ∧ g ≠ r) ∨
       (¬ Dead n.num p t r ∧ ¬ Missed n.num p t r ∧ g = if r = p + 1 then p else r)) := by
  obtain ⟨n', e, f1, f2, f3⟩ := joinWrites_form (o := o) t hN hp (fun j hj => by rw [hk j hj]; rfl) hc
  obtain ⟨C, hC⟩ : ∃ C, C = n.num - 1 - p := ⟨_, rfl⟩
  rw [← hC] at f1 f2 f3
  obtain ⟨T, hT⟩ : ∃ T, T = min t C := ⟨_, rfl⟩
  obtain ⟨U, hU⟩ : ∃ U, U = min (t - C) C := ⟨_, rfl⟩
  rw [← hT] at f2
  rw [← hU] at f3
  obtain ⟨ι, hι⟩ : ∃ ι : Nat → Nat, ∀ j, ((p ≤ j ∧ j < p + T) ∧ ι j = j + 1) ∨ (¬ (p ≤ j ∧ j < p + T) ∧ ι j = j) := by
    refine ⟨fun j => if p ≤ j ∧ j < p + T then j + 1 else j, fun j => ?_⟩
    by_cases h : p ≤ j ∧ j < p + T
    · exact Or.inl ⟨h, by simp only [if_pos h]⟩
    · exact Or.inr ⟨h, by simp only [if_neg h]⟩
  have hnum : 2 * C + 1 ≤ t ∧ n'.num = n.num - 1 ∨ t < 2 * C + 1 ∧ n'.num = n.num := by
    by_cases h : 2 * C + 1 ≤ t
    · exact Or.inl ⟨h, by rw [f1, if_pos h]⟩
    · exact Or.inr ⟨by omega, by rw [f1, if_neg h]⟩
  have hkey : ∀ j, j < n'.num → n'.keys j = some (κ (ι j)) := by
    intro j hj
    rw [f2 j]
    rcases hι j with ⟨h, hi⟩ | ⟨h, hi⟩
    · rw [if_pos h, hk _ (by omega), hi]
    · rw [if_neg h, hk _ (by omega), hi]
  have hι' : ∀ j, j < n'.num → ι j < n.num := fun j hj => by have := hι j; omega
  have hκle : ∀ i j, i ≤ j → j < n.num → κ i ≤ κ j := fun i j hij hj => by
    rcases Nat.lt_or_eq_of_le hij with h | h
    · exact (hκ i j h hj).le
    · rw [h]
  have hinj : ∀ i j, i < n.num → j < n.num → κ i = κ j → i = j := fun i j hi hj he => by
    rcases Nat.lt_trichotomy i j with h | h | h
    · exact absurd (hκ i j h hj) (by rw [he]; exact lt_irrefl _)
    · exact h
    · exact absurd (hκ j i h hi) (by rw [he]; exact lt_irrefl _)
  obtain ⟨p', e2, g1, g2, g3⟩ := hD n'.keys n'.num (fun j => κ (ι j)) x (by omega) hkey
    (fun i j hij hj => hκle _ _ (by have h1 := hι i; have h2 := hι j; omega) (hι' j hj))
  obtain ⟨g, hg, hgc⟩ : ∃ g, n'.kids p' = n.kids g ∧ ((p + 1 ≤ p' ∧ p' < p + 1 + U) ∧ g = p' + 1 ∨
      ¬ (p + 1 ≤ p' ∧ p' < p + 1 + U) ∧ g = p') := by
    rw [f3 p']
    by_cases h : p + 1 ≤ p' ∧ p' < p + 1 + U
    · exact ⟨p' + 1, by rw [if_pos h], .inl ⟨h, rfl⟩⟩
    · exact ⟨p', by rw [if_neg h], .inr ⟨h, rfl⟩⟩
  refine ⟨n', p', g, e, e2, by omega, hg, by omega, ?_⟩
  -- before and behind the position
  have hr := hx.1
  have h4 : p' = 0 ∨ ι (p' - 1) < r := by
    by_cases h0 : p' = 0
    · exact .inl h0
    · exact .inr ((hx.le_iff (hι' _ (by omega))).1 (g2 (p' - 1) (by omega)))
  have h3 : p' = n'.num ∨ r ≤ ι p' ∨ (0 < p' ∧ ι (p' - 1) = ι p' ∧ κ (ι p') = x ∧ ι p' + 1 = r) := by
    by_cases h0 : p' = n'.num
    · exact .inl h0
    · have hlt : p' < n'.num := by omega
      rcases g3 p' le_rfl hlt with h | ⟨h1, h2, h5⟩
      · right; left
        by_contra hc'
        exact absurd ((hx.le_iff (hι' _ hlt)).2 (by omega)) (not_le.2 h)
      · right; right
        have h6 := hinj _ _ (hι' _ (by omega)) (hι' _ hlt) (h2.trans h5.symm)
        refine ⟨h1, h6, h5, ?_⟩
        have h7 := (hx.le_iff (hι' _ hlt)).1 h5.le
        by_contra hc'
        have h8 := hx.2.1 (ι p' + 1) (by omega)
        have h9 := hκ (ι p') (ι p' + 1) (by omega) (by omega)
        rw [h5] at h9
        exact absurd h8 (not_le.2 h9)
  have i1 := hι (p' - 1)
  have i2 := hι p'
  unfold dupIx Dead Missed
  rw [← hC, ← hT]
  generalize hA : ι (p' - 1) = A at *
  generalize hB : ι p' = B at *
  have key := join_arith (r := r) (g := g) hp hC hT hU hr hnum g1 hgc h4 i1 i2
  by_cases hdup : (1 ≤ t ∧ t < 2 * C) ∧ 0 < p' ∧ p' < n'.num ∧ A = B ∧ κ B = x ∧ B + 1 = r
  · obtain ⟨hd, q1, q2, q3, q4, q5⟩ := hdup
    obtain ⟨d1, d2, d3, d4⟩ := join_dup hp hC hT hU hr hnum g1 hgc i1 i2 hd q1 q2 q3 q5
    exact .inl ⟨hd.1, hd.2, by rw [← d1]; exact q4, d2, d3, d4⟩
  · right
    have h5 : p' = n'.num ∨ r ≤ B ∨ ((t = 0 ∨ 2 * C ≤ t) ∧ 0 < p' ∧ A = B ∧ B + 1 = r) := by
      rcases h3 with h3 | h3 | ⟨h3, h3a, h3b, h3c⟩
      · exact .inl h3
      · exact .inr (.inl h3)
      · by_cases hpe : p' = n'.num
        · exact .inl hpe
        · right; right
          refine ⟨?_, h3, h3a, h3c⟩
          by_contra hcc
          exact hdup ⟨by omega, h3, by omega, h3a, h3b, h3c⟩
    obtain ⟨a1, a2, a3, a4⟩ := key h5
    by_cases b1 : (r = p + 1 ∧ t = 0) ∨ (r = p + 2 ∧ 2 ≤ t ∧ t ≤ C)
    · exact .inl ⟨b1, a1 b1⟩
    · by_cases b2 : p + 3 ≤ r ∧ ((t ≤ C ∧ r ≤ p + t) ∨ (C ≤ t ∧ r < n.num ∧ p + 2 + (t - C) ≤ r))
      · exact .inr (.inl ⟨b2, a2 b2⟩)
      · refine .inr (.inr ⟨b1, b2, ?_⟩)
        by_cases b3 : r = p + 1
        · rw [if_pos b3]; exact a3 b1 b3
        · rw [if_neg b3]; exact a4 b1 b2 b3

end

end Verif.BTree
