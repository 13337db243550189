import Verif.BTree.Props
import Verif.BTree.Recover

/-!
# Property theorems for the recovery of HPBPTree (C43)

`HPBPTree::recover` (HPBPTree.hpp:339-361) stores the first leaf as child 0 and then inserts it once more.
The lookups of the recovered tree are right; later updates are not.
-/

set_option linter.unusedSectionVars false
set_option linter.unusedSimpArgs false

namespace Verif.BTreeProps

open Verif BTree MapSpec Assoc

variable {K V : Type} [LinearOrder K]

/-- C43 in full: after any history of inserts and erases of present keys and a recovery, every later such
history behaves as the abstract map. -/
def C43_statement (N M : Nat) : Prop :=
  ∀ (ops ops' : List (Op Nat Nat)), ErasesPresent empty (ops ++ ops') →
    ∃ s s' s'', execAll (HP N M) (init (HP N M)) ops = .ok (outs empty ops, s) ∧
      recoverH (HP N M) s.heap 0 = .ok s' ∧
      execAll (HP N M) s' ops' = .ok (outs (run empty ops) ops', s'') ∧
      ∀ k, lookup (HP N M) s'' k = .ok (run empty (ops ++ ops') k)

theorem inserts_erasesPresent : ∀ (ops : List (Op K V)) (m : K → Option V), InsertsOnly ops → ErasesPresent m ops
  | [], _, _ => trivial
  | .insert k v :: ops, m, h => inserts_erasesPresent ops _ (fun op hop => h op (List.mem_cons_of_mem _ hop))
  | .erase k :: ops, m, h => by
    obtain ⟨_, _, h⟩ := h (.erase k) (by simp)
    exact absurd h (by simp)

/-- Two leaves `10, 20` and `30, 40, 50`. -/
def twoLeaves : List (Op Nat Nat) := [.insert 10 1, .insert 20 2, .insert 30 3, .insert 40 4, .insert 50 5]

/-- Three inserts of small keys split the first leaf through its first occurrence. -/
def afterwards : List (Op Nat Nat) := [.insert 1 6, .insert 2 7, .insert 3 8]

set_option maxRecDepth 100000 in
/-- C43 is false for later histories: key 20 is lost after three inserts. -/
theorem C43_refuted : ¬ C43_statement 6 4 := by
  intro h
  obtain ⟨s, s', s'', e1, e2, e3, h4⟩ := h twoLeaves afterwards (by
    simp [twoLeaves, afterwards, ErasesPresent])
  have hd : (do
      let r ← execAll (HP 6 4) (init (HP 6 4)) twoLeaves
      let s' ← recoverH (HP 6 4) r.2.heap 0
      let r' ← execAll (HP 6 4) s' afterwards
      lookup (HP 6 4) r'.2 20) = .ok (none : Option Nat) := by decide
  rw [e1, Res.ok_bind, e2, Res.ok_bind, e3, Res.ok_bind, h4] at hd
  exact absurd (Res.ok.inj hd) (by decide)

/-- C43 for the lookups: after any history of inserts and erases of present keys, losing the branch nodes
and calling `recover` changes no lookup.  Missing: later updates (`C43_refuted`). -/
theorem C43_lookup_partial (N M q : Nat) (hN : N = 2 * q) (hq : 3 ≤ q) (hM : 2 ≤ M) (ops : List (Op K V))
    (ho : ErasesPresent empty ops) :
    ∃ s s', execAll (HP N M) (init (HP N M)) ops = .ok (outs empty ops, s) ∧
      recoverH (HP N M) s.heap 0 = .ok s' ∧ ∀ k, lookup (HP N M) s' k = .ok (run empty ops k) := by
  have C := hpLaws (K := K) (V := V) (N := N) hM
  obtain ⟨s, e, g, h, hd⟩ := histories_good_head (W := sortedLaws C) (sortedErase C) (fun _ _ _ => trivial) (by
    intro l k _ hf
    obtain ⟨v, hv⟩ := Option.ne_none_iff_exists'.1 hf
    exact ⟨(k, v), Assoc.find_some_mem hv, le_rfl⟩) hN hq hM le_rfl ops _ _
    (init_good (sortedLaws C) _ _ _).1 (init_stores _) ho (fun _ _ _ => trivial)
  have hd0 : (ids s.depth s.root).head? = some 0 := hd
  obtain ⟨rest, hids⟩ : ∃ rest, ids s.depth s.root = 0 :: rest := by
    cases hi : ids s.depth s.root with
    | nil => rw [hi] at hd0; simp at hd0
    | cons a b => rw [hi] at hd0; simp at hd0; exact ⟨b, by rw [hd0]⟩
  obtain ⟨hfirst, hready⟩ := g.leaves (show 1 ≤ M / 2 by omega)
    (fun l e es hl hab _ => (sortedErase C).minKey l e es hl hab) hids
  have hs := g.sorted
  have hw := g.wf
  unfold cont at hs
  rw [hids] at hs hw
  obtain ⟨s', e', _, hlook⟩ := recoverH_lookup (show 2 ≤ N by omega) hw hs hfirst hready
  refine ⟨s, s', e, e', fun k => ?_⟩
  refine (hlook k).trans ?_
  rw [← hids]
  exact congrArg Res.ok (h k)

example : ErasesPresent empty mixed ∧ run empty mixed 4 = some 7 := by
  refine ⟨?_, by decide⟩
  simp [mixed, up, ErasesPresent, step, List.range_succ]

end Verif.BTreeProps
