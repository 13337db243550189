import Verif.BTree.RootCrash

/-!
# Property theorems for crashes between the assignments to `rootNode` and `depth` of PBPTree (C133)

The specification is `Verif.MapSpec` and `Verif.CrashSpec`.
-/

set_option linter.unusedSectionVars false

namespace Verif.BTreeProps

open Verif BTree MapSpec Assoc CrashSpec

variable {K V : Type} [LinearOrder K]

/-! ## C133 -/

/-- C133 in full: an operation that replaces the root is interrupted between the assignments to `rootNode` and `depth`.  Every lookup gives
the value before or the value after the operation. -/
def C133_statement (K V : Type) [LinearOrder K] (N M : Nat) : Prop :=
  ∀ (ops : List (Op K V)) (op : Op K V), ErasesPresent empty (ops ++ [op]) → ∀ bs s, execAll (PB N M) (init (PB N M)) ops = .ok (bs, s) →
    ∀ c, cutRoot (PB N M) s op = .ok (some c) →
      ∀ x, lookTorn (PB N M) c x = .ok (run empty ops x) ∨ lookTorn (PB N M) c x = .ok (run empty (ops ++ [op]) x)

theorem erases_snoc (op : Op K V) : ∀ (ops : List (Op K V)) (m : K → Option V), ErasesPresent m (ops ++ [op]) → ErasesPresent m ops
  | [], _, _ => trivial
  | .insert _ _ :: ops, _, h => erases_snoc op ops _ h
  | .erase _ :: ops, _, h => ⟨h.1, erases_snoc op ops _ h.2⟩

theorem pb_step (N M q : Nat) (hN : N = 2 * q) (hq : 3 ≤ q) (hM : 2 ≤ M) (ops : List (Op K V)) (op : Op K V)
    (ho : ErasesPresent empty (ops ++ [op])) :
    ∃ (s s1 : State K (SLeaf K V)) (b : Bool), execAll (PB N M) (init (PB N M)) ops = .ok (outs empty ops, s) ∧ exec (PB N M) s op = .ok (b, s1) ∧
      Good (sortedLaws (pbLaws (K := K) (V := V) (N := N) hM)) (M / 2) (q - 1) 1 s ∧
      Good (sortedLaws (pbLaws (K := K) (V := V) (N := N) hM)) (M / 2) (q - 1) 1 s1 ∧
      ∀ x, lookup (PB N M) s1 x = .ok (run empty (ops ++ [op]) x) := by
  obtain ⟨s, e, g, _⟩ := pb_history (K := K) (V := V) N M q hN hq hM ops (erases_snoc op ops _ ho)
  obtain ⟨s1, e1, g1, h1⟩ := pb_history (K := K) (V := V) N M q hN hq hM (ops ++ [op]) ho
  rw [execAll_snoc, e, Res.ok_bind] at e1
  obtain ⟨r, e2, e1⟩ := Res.bind_eq_ok.1 e1
  obtain rfl : r.2 = s1 := congrArg Prod.snd (Res.ok.inj e1)
  exact ⟨s, r.2, r.1, e, e2, g, g1, fun x => (lookT_any g1.bt x).trans (congrArg _ (h1 x))⟩

/-- C133: after every history, for every operation that replaces the root: if it is interrupted between the two assignments, every lookup
is undefined.  If `depth` is changed too, every lookup gives the value after the operation.
Missing: a defined outcome between the two assignments (`C133_refuted`). -/
theorem C133_root_crash_partial (N M q : Nat) (hN : N = 2 * q) (hq : 3 ≤ q) (hM : 4 ≤ M) (ops : List (Op K V)) (op : Op K V)
    (ho : ErasesPresent empty (ops ++ [op])) :
    ∃ (s : State K (SLeaf K V)) (r : Option (Torn K (SLeaf K V))), execAll (PB N M) (init (PB N M)) ops = .ok (outs empty ops, s) ∧
      cutRoot (PB N M) s op = .ok r ∧ ∀ c, r = some c → c.depth = s.depth ∧ c.tree.depth ≠ s.depth ∧ ∀ x,
        lookTorn (PB N M) c x = .ub ∧ lookTorn (PB N M) { c with depth := c.tree.depth } x = .ok (run empty (ops ++ [op]) x) := by
  obtain ⟨s, s1, b, e, e1, _, g1, h1⟩ := pb_step (K := K) (V := V) N M q hN hq (by omega) ops op ho
  refine ⟨s, if s1.depth = s.depth then none else some ⟨s.depth, s1⟩, e, by unfold cutRoot; rw [e1]; rfl, fun c hc => ?_⟩
  by_cases hd : s1.depth = s.depth
  · rw [if_pos hd] at hc; cases hc
  · rw [if_neg hd] at hc
    obtain rfl := Option.some.inj hc
    exact ⟨rfl, hd, fun x => ⟨lookTorn_ne g1 (Ne.symm hd) x, (lookTorn_self s1 x).trans (h1 x)⟩⟩

/-- C133: the other order of the two assignments does not help: `depth` first, every lookup is undefined as well. -/
theorem C133_other_order (N M q : Nat) (hN : N = 2 * q) (hq : 3 ≤ q) (hM : 4 ≤ M) (ops : List (Op K V)) (op : Op K V)
    (ho : ErasesPresent empty (ops ++ [op])) :
    ∃ (s : State K (SLeaf K V)) (r : Option (Torn K (SLeaf K V))), execAll (PB N M) (init (PB N M)) ops = .ok (outs empty ops, s) ∧
      cutDepth (PB N M) s op = .ok r ∧ ∀ c, r = some c → ∀ x, lookTorn (PB N M) c x = .ub := by
  obtain ⟨s, s1, b, e, e1, g, _, _⟩ := pb_step (K := K) (V := V) N M q hN hq (by omega) ops op ho
  refine ⟨s, if s1.depth = s.depth then none else some ⟨s1.depth, s⟩, e, by unfold cutDepth; rw [e1]; rfl, fun c hc x => ?_⟩
  by_cases hd : s1.depth = s.depth
  · rw [if_pos hd] at hc; cases hc
  · rw [if_neg hd] at hc
    obtain rfl := Option.some.inj hc
    exact lookTorn_ne g hd x

/-- After `ops`, a crash between the two assignments in `op`: the stored depth, the number of levels, and the lookups of `xs`. -/
def cutEx (ops : List (Op Nat Nat)) (op : Op Nat Nat) (xs : List Nat) : Res (Option (Nat × Nat × List (Res (Option Nat)))) := do
  let r ← execAll (PB 6 4 : Ops Nat Nat _) (init (PB 6 4)) ops
  let c ← cutRoot (PB 6 4) r.2 op
  pure (c.map fun c => (c.depth, c.tree.depth, xs.map (lookTorn (PB 6 4) c)))

/-- Cases that meet the hypotheses: an insert that splits a leaf, one that splits a branch node, an erase that leaves one leaf, one that leaves
one branch node; and an insert that does not replace the root. -/
example : cutEx fourKeys (.insert 50 5) [10, 50] = .ok (some (0, 1, [.ub, .ub])) ∧
    cutEx ((List.range 16).map fun k => .insert (k + 1) (k + 1)) (.insert 17 17) [1, 17] = .ok (some (1, 2, [.ub, .ub])) ∧
    cutEx twoPairs (.erase 10) [20, 30] = .ok (some (1, 0, [.ub, .ub])) ∧
    cutEx ((List.range 17).map fun k => .insert (k + 1) (k + 1)) (.erase 1) [2, 17] = .ok (some (2, 1, [.ub, .ub])) ∧
    cutEx fourKeys (.insert 40 5) [10] = .ok none :=
  ⟨by decide +kernel, by decide +kernel, by decide +kernel, by decide +kernel, by decide +kernel⟩

/-- C133 is false: the fifth insert replaces the leaf at the root by a branch node, and between the two assignments the lookup of 10 takes it
for a leaf. -/
theorem C133_refuted : ¬ C133_statement Nat Nat 6 4 := by
  intro h
  have hd : (execAll (PB 6 4 : Ops Nat Nat _) (init (PB 6 4)) fourKeys >>= fun r => cutRoot (PB 6 4) r.2 (.insert 50 5) >>= fun c =>
      match c with
      | none => .throws
      | some c => pure (lookTorn (PB 6 4) c 10)) = .ok .ub := by decide +kernel
  obtain ⟨r, e, hd⟩ := Res.bind_eq_ok.1 hd
  obtain ⟨c, e2, hd⟩ := Res.bind_eq_ok.1 hd
  cases c with
  | none => cases hd
  | some c =>
    have hc : lookTorn (PB 6 4 : Ops Nat Nat _) c 10 = .ub := Res.ok.inj hd
    rcases h fourKeys (.insert 50 5) trivial r.1 r.2 e c e2 10 with h | h
    · rw [hc] at h; cases h
    · rw [hc] at h; cases h

end Verif.BTreeProps
