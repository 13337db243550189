import Verif.BTree.JoinCrashSpec
import Verif.BTree.DropCrashProps

/-!
# Property theorems for crashes behind a merge of two branch nodes in an erase of PBPTree (C130)

The specification is `Verif.MapSpec` and `Verif.CrashSpec`.
-/

set_option linter.unusedSectionVars false

namespace Verif.BTreeProps

open Verif BTree MapSpec Assoc CrashSpec

variable {K V : Type} [LinearOrder K]

/-! ## C130 -/

/-- C130 in full: an erase is interrupted in the update of a branch node whose children were merged.  After the first assignment
every lookup gives the value before or the value after the erase. -/
def C130_statement (K V : Type) [LinearOrder K] (N M : Nat) : Prop :=
  ∀ (ops : List (Op K V)) (k : K), ErasesPresent empty ops → run empty ops k ≠ none →
    ∀ bs s, execAll (PB N M) (init (PB N M)) ops = .ok (bs, s) → ∀ j t, j + 1 < s.depth → 1 ≤ t →
      ∃ s', joinErase (PB N M) s k j t = .ok s' ∧
        ∀ x, lookup (PB N M) s' x = .ok (run empty ops x) ∨ lookup (PB N M) s' x = .ok (step (run empty ops) (.erase k) x)

/-- C130, exactly up to one key.  Searches that do not come to the branch node, and all searches if nothing was merged, give the
value after the erase.  For the others `JoinSees` says what they give: with `num` separators in the branch node and the merged children
`p` and `p + 1`, the keys of child `p + 1` (before the first assignment) and of child `p + 2` (from the second assignment to the end of
the first loop) lead to the deleted node, those of the children in `Missed` are not found, all others give the value after the erase.
The one exception is the separator that was copied last (`Twice`). -/
theorem C130_exact (N M q : Nat) (hN : N = 2 * q) (hq : 3 ≤ q) (hM : 4 ≤ M) (ops : List (Op K V))
    (ho : ErasesPresent empty ops) (k : K) (hk : run empty ops k ≠ none) :
    ∃ s : State K (SLeaf K V), execAll (PB N M) (init (PB N M)) ops = .ok (outs empty ops, s) ∧
      ∀ j t, j + 1 < s.depth → ∃ s', joinErase (PB N M) s k j t = .ok s' ∧ ∀ x,
        (∀ num p keys r, Joins (PB N M) s k j num p keys x r → num ≤ N ∧ (r < num → keys (num - 1) ≠ some x) ∧
          JoinSees num p t keys x r (step (run empty ops) (.erase k) x) (lookup (PB N M) s' x)) ∧
        ((∀ num p keys r, ¬ Joins (PB N M) s k j num p keys x r) →
          lookup (PB N M) s' x = .ok (step (run empty ops) (.erase k) x)) := by
  have hM2 : 2 ≤ M := by omega
  obtain ⟨s, e, g, h⟩ := pb_history (K := K) (V := V) N M q hN hq hM2 ops ho
  have hfl : ∀ id l, findLeaf (PB N M : Ops K V _) s.depth s.root k = .ok id → s.heap.data id = some l →
      (sortedErase (pbLaws (K := K) (V := V) (N := N) hM2)).pre l k := by
    intro id l h1 h2
    have hf : find k (cont (sortedLaws (pbLaws (K := K) (V := V) (N := N) hM2)) s) ≠ none := by rw [h k]; exact hk
    obtain ⟨v, hv⟩ := Option.ne_none_iff_exists'.1 (leaf_of_present g hf h1 h2)
    exact ⟨(k, v), Assoc.find_some_mem hv, le_rfl⟩
  have hN' : (PB N M : Ops K V _).N = 2 * q := hN
  have hm : ∀ x, step (run empty ops) (.erase k) x = if x = k then none else find x (cont (sortedLaws (pbLaws (K := K) (V := V) (N := N) hM2)) s) := by
    intro x
    rw [h x]; rfl
  refine ⟨s, e, fun j t hj => ?_⟩
  obtain ⟨s', e', hx⟩ := joinErase_spec (sortedErase (pbLaws (K := K) (V := V) (N := N) hM2)) (pb_dup N M) hN' (show 2 ≤ q - 1 by omega) le_rfl hM2
    (show 1 ≤ M / 2 by omega) le_rfl g.bt g.wf hfl hj t
  refine ⟨s', e', fun x => ⟨fun num p keys r hs => ⟨(hs.facts (pb_dup N M) g.bt).1, (hs.facts (pb_dup N M) g.bt).2, ?_⟩, fun hno => ?_⟩⟩
  · rw [hm x]; exact (hx x).1 num p keys r hs
  · rw [hm x]; exact (hx x).2 hno

/-- C130: every lookup after a crash gives the value after the erase or nothing, or (only up to the end of the first loop) follows a
dangling pointer; when all assignments are done, all lookups are right.
Missing: the lost keys and the dangling pointer (`C130_refuted`, `C130_refuted_dangling`). -/
theorem C130_join_crash_partial (N M q : Nat) (hN : N = 2 * q) (hq : 3 ≤ q) (hM : 4 ≤ M) (ops : List (Op K V))
    (ho : ErasesPresent empty ops) (k : K) (hk : run empty ops k ≠ none) :
    ∃ s : State K (SLeaf K V), execAll (PB N M) (init (PB N M)) ops = .ok (outs empty ops, s) ∧
      ∀ j t, j + 1 < s.depth → ∃ s', joinErase (PB N M) s k j t = .ok s' ∧
        (∀ x, lookup (PB N M) s' x = .ok (step (run empty ops) (.erase k) x) ∨ lookup (PB N M) s' x = .ok none ∨
          (t < N ∧ lookup (PB N M) s' x = .ub)) ∧
        (2 * N ≤ t → Reads (lookup (PB N M) s') (step (run empty ops) (.erase k))) := by
  obtain ⟨s, e, hall⟩ := C130_exact N M q hN hq hM ops ho k hk
  refine ⟨s, e, fun j t hj => ?_⟩
  obtain ⟨s', e', hx⟩ := hall j t hj
  refine ⟨s', e', fun x => ?_, fun ht x => ?_⟩
  · by_cases hno : ∀ num p keys r, ¬ Joins (PB N M) s k j num p keys x r
    · exact .inl ((hx x).2 hno)
    · push Not at hno
      obtain ⟨num, p, keys, r, hs⟩ := hno
      obtain ⟨h1, _, h2, _⟩ := (hx x).1 num p keys r hs
      rcases h2 with h2 | h2 | ⟨h2, h3⟩
      · exact .inl h2
      · exact .inr (.inl h2)
      · exact .inr (.inr ⟨by omega, h3⟩)
  · by_cases hno : ∀ num p keys r, ¬ Joins (PB N M) s k j num p keys x r
    · exact (hx x).2 hno
    · push Not at hno
      obtain ⟨num, p, keys, r, hs⟩ := hno
      obtain ⟨h1, _, _, h2⟩ := (hx x).1 num p keys r hs
      obtain ⟨_, _, h3⟩ := h2 (by unfold Twice; omega)
      exact h3 (by unfold Dead; omega) (by unfold Missed; omega)

/-- C130: one branch node that was merged away costs whole subtrees.  When the keys have been moved and the children have not, no
lookup finds a key of the children from `p + 3` to the last but one, and every lookup of a key of child `p + 2` follows the pointer to
the deleted node. -/
theorem C130_subtrees_lost (N M q : Nat) (hN : N = 2 * q) (hq : 3 ≤ q) (hM : 4 ≤ M) (ops : List (Op K V))
    (ho : ErasesPresent empty ops) (k : K) (hk : run empty ops k ≠ none) :
    ∃ s : State K (SLeaf K V), execAll (PB N M) (init (PB N M)) ops = .ok (outs empty ops, s) ∧
      ∀ j x num p keys r, j + 1 < s.depth → Joins (PB N M) s k j num p keys x r → p + 2 ≤ r → r < num →
        ∃ s', joinErase (PB N M) s k j (num - 1 - p) = .ok s' ∧
          lookup (PB N M) s' x = if r = p + 2 then .ub else .ok none := by
  obtain ⟨s, e, hall⟩ := C130_exact N M q hN hq hM ops ho k hk
  refine ⟨s, e, fun j x num p keys r hj hs h1 h2 => ?_⟩
  obtain ⟨s', e', hx⟩ := hall j (num - 1 - p) hj
  refine ⟨s', e', ?_⟩
  obtain ⟨_, hne, _, h3⟩ := (hx x).1 num p keys r hs
  obtain ⟨h4, h5, _⟩ := h3 (by
    rintro ⟨_, _, hc⟩
    unfold dupIx at hc
    rw [show p + min (num - 1 - p) (num - 1 - p) = num - 1 by omega] at hc
    exact hne h2 hc)
  by_cases hr : r = p + 2
  · rw [if_pos hr]; exact h4 (by unfold Dead; omega)
  · rw [if_neg hr]; exact h5 (by unfold Missed; omega)

/-- 45 inserts in ascending order: a root over five branch nodes. -/
def fiveBranches : List (Op Nat Nat) := (List.range 45).map (fun k => .insert (k + 1) (k + 1))

theorem inserts_erases (l : List Nat) : ∀ m : Nat → Option Nat, ErasesPresent m (l.map (fun k => Op.insert (k + 1) (k + 1))) := by
  induction l with
  | nil => intro m; trivial
  | cons a l ih => intro m; exact ih _

theorem fiveBranches_erases : ErasesPresent empty fiveBranches := inserts_erases _ _

/-- Lookups after `ops` and a crash after `t` assignments to the root in the erase of `k`. -/
def joinEx (ops : List (Op Nat Nat)) (k t : Nat) (xs : List Nat) : Res (List (Res (Option Nat))) := do
  let r ← execAll (PB 6 4 : Ops Nat Nat _) (init (PB 6 4)) ops
  let s ← joinErase (PB 6 4) r.2 k 0 t
  pure (xs.map (lookup (PB 6 4) s))

/-- A case that meets the hypotheses: the erase of 1 merges the branch nodes of 1..8 and 9..16.  The lookups of 1, 2, 10, 18, 25, 26, 33
and 34 after `t` assignments to the root. -/
example : ([0, 1, 2, 3, 4, 5, 6, 7].map fun t => joinEx fiveBranches 1 t [1, 2, 10, 18, 25, 26, 33, 34]) =
    [.ok [.ok none, .ok (some 2), .ub, .ok (some 18), .ok (some 25), .ok (some 26), .ok (some 33), .ok (some 34)],
     .ok [.ok none, .ok (some 2), .ok (some 10), .ok (some 18), .ok (some 25), .ok (some 26), .ok (some 33), .ok (some 34)],
     .ok [.ok none, .ok (some 2), .ok (some 10), .ub, .ok none, .ok (some 26), .ok (some 33), .ok (some 34)],
     .ok [.ok none, .ok (some 2), .ok (some 10), .ub, .ok none, .ok none, .ok none, .ok (some 34)],
     .ok [.ok none, .ok (some 2), .ok (some 10), .ok (some 18), .ok none, .ok none, .ok none, .ok (some 34)],
     .ok [.ok none, .ok (some 2), .ok (some 10), .ok (some 18), .ok (some 25), .ok (some 26), .ok none, .ok (some 34)],
     .ok [.ok none, .ok (some 2), .ok (some 10), .ok (some 18), .ok (some 25), .ok (some 26), .ok (some 33), .ok (some 34)],
     .ok [.ok none, .ok (some 2), .ok (some 10), .ok (some 18), .ok (some 25), .ok (some 26), .ok (some 33), .ok (some 34)]] := by
  decide +kernel

/-- The erase of 20 merges the branch nodes of 9..16 and 17..24 (the second into the first): the lookups of 10, 18, 26, 33 and 34. -/
example : ([0, 1, 2, 3, 4, 5].map fun t => joinEx fiveBranches 20 t [10, 18, 26, 33, 34]) =
    [.ok [.ok (some 10), .ub, .ok (some 26), .ok (some 33), .ok (some 34)],
     .ok [.ok (some 10), .ok (some 18), .ok (some 26), .ok (some 33), .ok (some 34)],
     .ok [.ok (some 10), .ok (some 18), .ub, .ok none, .ok (some 34)],
     .ok [.ok (some 10), .ok (some 18), .ok (some 26), .ok none, .ok (some 34)],
     .ok [.ok (some 10), .ok (some 18), .ok (some 26), .ok (some 33), .ok (some 34)],
     .ok [.ok (some 10), .ok (some 18), .ok (some 26), .ok (some 33), .ok (some 34)]] := by
  decide +kernel

/-- The merge at the root in the erase of `k`: the separators of the root, the first merged child, and the child of `x`. -/
def joinProbe (s : State Nat (SLeaf Nat Nat)) (k x : Nat) : Res (Nat × Option Nat × Nat) :=
  match s with
  | ⟨d + 2, n, h⟩ => do
    let r ← lookupPos (PB 6 4 : Ops Nat Nat _) n x
    let pos ← lookupPos (PB 6 4 : Ops Nat Nat _) n k
    let c ← Slots.rd (6 + 1) n.kids pos
    let e ← eraseB (PB 6 4) d false h c k
    if e.node.num < (6 + 1) / 2 then do
      let u ← joinP (PB 6 4 : Ops Nat Nat _)
        ({ n with kids := fun j => if j = pos then some e.node else n.kids j } : BNode Nat (Tree Nat (d + 1))) pos e.node
      pure (n.num, u.2, r)
    else .assertFail
  | _ => .assertFail

theorem joinProbe_joins {s : State Nat (SLeaf Nat Nat)} {k x num p r : Nat} (h : joinProbe s k x = .ok (num, some p, r)) :
    1 < s.depth ∧ ∃ keys, Joins (PB 6 4) s k 0 num p keys x r := by
  obtain ⟨d, n, hp⟩ := s
  rcases d with _ | _ | d
  · exact absurd h (by simp [joinProbe])
  · exact absurd h (by simp [joinProbe])
  · refine ⟨by change 1 < d + 2; omega, ?_⟩
    obtain ⟨r', e1, h⟩ := Res.bind_eq_ok.1 h
    obtain ⟨pos, e2, h⟩ := Res.bind_eq_ok.1 h
    obtain ⟨c, e3, h⟩ := Res.bind_eq_ok.1 h
    obtain ⟨e, e4, h⟩ := Res.bind_eq_ok.1 h
    split at h
    · rename_i hlt
      obtain ⟨u, e5, h⟩ := Res.bind_eq_ok.1 h
      have h6 := Res.ok.inj h
      simp only [Prod.mk.injEq] at h6
      obtain ⟨h7, h8, h9⟩ := h6
      subst h7 h9
      exact ⟨n.keys, rfl, rfl, e1, pos, c, e, u.1, e2, e3, e4, hlt, by rw [← h8]; exact e5⟩
    · cases h

/-- The hypotheses of `C130_subtrees_lost` are met: the root has four separators, the erase of 1 merges its children 0 and 1, and a
search for 26 comes to its child 3. -/
example : ∃ bs s keys, execAll (PB 6 4 : Ops Nat Nat _) (init (PB 6 4)) fiveBranches = .ok (bs, s) ∧ 1 < s.depth ∧
    Joins (PB 6 4) s 1 0 4 0 keys 26 3 := by
  have hd : (execAll (PB 6 4 : Ops Nat Nat _) (init (PB 6 4)) fiveBranches >>= fun r => joinProbe r.2 1 26) = .ok (4, some 0, 3) := by
    decide +kernel
  obtain ⟨r, e, hd⟩ := Res.bind_eq_ok.1 hd
  obtain ⟨h1, keys, h2⟩ := joinProbe_joins hd
  exact ⟨r.1, r.2, keys, e, h1, h2⟩

/-- After four assignments key 26, stored before and after the erase of 1, is not found. -/
theorem C130_refuted : ¬ C130_statement Nat Nat 6 4 := by
  intro h
  have hd : (execAll (PB 6 4 : Ops Nat Nat _) (init (PB 6 4)) fiveBranches >>= fun r => joinErase (PB 6 4) r.2 1 0 4 >>= fun s =>
      (if 1 < r.2.depth then lookup (PB 6 4) s 26 else .assertFail)) = .ok none := by decide +kernel
  obtain ⟨r, e, hd⟩ := Res.bind_eq_ok.1 hd
  obtain ⟨s, e2, hd⟩ := Res.bind_eq_ok.1 hd
  by_cases hdep : 1 < r.2.depth
  · rw [if_pos hdep] at hd
    obtain ⟨s', q1, q2⟩ := h fiveBranches 1 fiveBranches_erases (by decide +kernel) r.1 r.2 e 0 4 hdep (by omega)
    obtain rfl : s' = s := Res.ok.inj (q1.symm.trans e2)
    have := q2 26
    rw [hd] at this
    revert this
    decide +kernel
  · rw [if_neg hdep] at hd
    cases hd

/-- After three assignments the lookup of 18 follows a pointer to the deleted branch node. -/
theorem C130_refuted_dangling : joinEx fiveBranches 1 3 [18, 26] = .ok [.ub, .ok none] := by decide +kernel

end Verif.BTreeProps
