import Verif.BTree.DropCrashSpec
import Verif.BTree.MergeCrashProps
import Verif.BTree.InsertCrashProps

/-!
# Property theorems for crashes in the update of the branch node after an erase of PBPTree (C129)

The specification is `Verif.MapSpec` and `Verif.CrashSpec`.
-/

set_option linter.unusedSectionVars false

namespace Verif.BTreeProps

open Verif BTree MapSpec Assoc CrashSpec

variable {K V : Type} [LinearOrder K]

/-! ## C129 -/

/-- C129 in full: once the leaves are done, a crash after any number of assignments to the branch node above them leaves a tree in
which every lookup gives the value before or the value after the erase. -/
def C129_statement (K V : Type) [LinearOrder K] (N M : Nat) : Prop :=
  ∀ (ops : List (Op K V)) (k : K), ErasesPresent empty ops → run empty ops k ≠ none →
    ∀ bs s, execAll (PB N M) (init (PB N M)) ops = .ok (bs, s) → ∀ t, 1 ≤ t → ∃ s', eraseAt (PB N M) s k t = .ok (.tree s') ∧
      ∀ x, lookup (PB N M) s' x = .ok (run empty ops x) ∨ lookup (PB N M) s' x = .ok (step (run empty ops) (.erase k) x)

/-- C129, exactly up to one key: a crash leaves a mixed tree only between the assignments to `rootNode` and `depth`.  Otherwise the
leaves are those after the erase.  If none was deleted, all lookups are right after the one assignment to the branch node.  If leaf
`f` was deleted, then all lookups are right, except that before the pointer to `f` is gone every search that ends in `f` follows a
dangling pointer, and except for the separator that the loop has just copied and that stands there twice (`DupSep`). -/
theorem C129_exact (N M q : Nat) (hN : N = 2 * q) (hq : 3 ≤ q) (hM : 4 ≤ M) (ops : List (Op K V))
    (ho : ErasesPresent empty ops) (k : K) (hk : run empty ops k ≠ none) :
    ∃ (s s1 : State K (SLeaf K V)),
      execAll (PB N M) (init (PB N M)) ops = .ok (outs empty ops, s) ∧ erase (PB N M) s k = .ok (true, s1) ∧
      (s.depth ≤ 1 → ∀ t, 2 * N ≤ t → eraseAt (PB N M) s k t = .ok (.tree s1)) ∧
      ∀ t, (s.depth = 1 ∧ s1.depth = 0 ∧ t = 1 ∧ eraseAt (PB N M) s k t = .ok .mixed) ∨
        (¬ (s.depth = 1 ∧ s1.depth = 0 ∧ t = 1) ∧ ∃ s', eraseAt (PB N M) s k t = .ok (.tree s') ∧ s'.heap = s1.heap ∧
          ((∀ f, (s.heap.data f).isSome → s1.heap.data f ≠ none) → 1 ≤ t →
            Reads (lookup (PB N M) s') (step (run empty ops) (.erase k))) ∧
          ∀ f, (s.heap.data f).isSome → s1.heap.data f = none → ∃ pn, LeafParent (PB N M) s k pn ∧ ∀ x,
            (lookup (PB N M) s' x = .ok (step (run empty ops) (.erase k) x) ∨ lookup (PB N M) s' x = .ok none ∨
              (t ≤ 1 ∧ lookup (PB N M) s' x = .ub)) ∧
            (¬ DupSep pn f t x → lookup (PB N M) s' x =
              if findLeaf (PB N M : Ops K V _) s.depth s.root x = .ok f ∧ (t = 0 ∨ (pn.kids pn.num = some f ∧ t ≤ 1)) then .ub
              else .ok (step (run empty ops) (.erase k) x))) := by
  have hM2 : 2 ≤ M := by omega
  obtain ⟨s, e, g, h⟩ := pb_history (K := K) (V := V) N M q hN hq hM2 ops ho
  have hfl : ∀ id l, findLeaf (PB N M : Ops K V _) s.depth s.root k = .ok id → s.heap.data id = some l →
      (sortedErase (pbLaws (K := K) (V := V) (N := N) hM2)).pre l k := by
    intro id l h1 h2
    have hf : find k (cont (sortedLaws (pbLaws (K := K) (V := V) (N := N) hM2)) s) ≠ none := by rw [h k]; exact hk
    obtain ⟨v, hv⟩ := Option.ne_none_iff_exists'.1 (leaf_of_present g hf h1 h2)
    exact ⟨(k, v), Assoc.find_some_mem hv, le_rfl⟩
  have hN' : (PB N M : Ops K V _).N = 2 * q := hN
  obtain ⟨s1, e1, g1, c1⟩ := erase_good (sortedErase (pbLaws (K := K) (V := V) (N := N) hM2)) hN' hq hM2 g g.bt k hfl
  have hm : ∀ x, step (run empty ops) (.erase k) x = if x = k then none else find x (cont (sortedLaws (pbLaws (K := K) (V := V) (N := N) hM2)) s) := by
    intro x
    rw [h x]; rfl
  have hl1 : ∀ x, lookup (PB N M) s1 x = .ok (step (run empty ops) (.erase k) x) := by
    intro x
    rw [hm x]
    refine (lookup_good g1 x).trans ?_
    rw [c1, find_remove]
  have hb : (find k (cont (sortedLaws (pbLaws (K := K) (V := V) (N := N) hM2)) s)).isSome = true := by
    rw [h k]; exact Option.isSome_iff_ne_none.2 hk
  rw [hb] at e1
  refine ⟨s, s1, e, e1, fun hd t ht => eraseAt_last g.bt g.wf e1 hd (show 2 * (PB N M : Ops K V _).N ≤ t from ht)
    (show 1 ≤ N by omega), fun t => ?_⟩
  refine eraseAt_spec (sortedErase (pbLaws (K := K) (V := V) (N := N) hM2)) (pb_dup N M) hM2 (show 1 ≤ M / 2 by omega) le_rfl
    (show 1 ≤ q - 1 by omega) g.bt g.wf hfl e1 t hl1 hm (fun f h1 h2 x => ?_)
  obtain ⟨s', s1', r, q1, q2, _, q3⟩ := C126_merge_crash_partial N M q hN hq hM ops ho k hk
  cases Res.ok.inj (q1.symm.trans e)
  cases Res.ok.inj (q2.symm.trans e1)
  obtain ⟨n, _, _, _, q6⟩ := q3 f h1 h2
  obtain ⟨_, q8⟩ := q6 n le_rfl
  by_cases hc : findLeaf (PB N M : Ops K V _) s.depth s.root x = .ok f
  · exact ((q8 x).1 hc).trans (if_pos hc).symm
  · exact ((q8 x).2 hc).trans (if_neg hc).symm

/-- C129: apart from the point between the assignments to `rootNode` and `depth`, every lookup after a crash gives the value after
the erase or nothing, or (only before the second assignment) follows a dangling pointer.  From the second assignment on, at most one
key is lost, and none after an even number of assignments or at the end.
Missing: the lost key, the dangling pointer, the mixed tree (`C129_refuted`, `C129_refuted_dangling`, `C129_refuted_mixed`). -/
theorem C129_erase_branch_crash_partial (N M q : Nat) (hN : N = 2 * q) (hq : 3 ≤ q) (hM : 4 ≤ M) (ops : List (Op K V))
    (ho : ErasesPresent empty ops) (k : K) (hk : run empty ops k ≠ none) :
    ∃ (s s1 : State K (SLeaf K V)),
      execAll (PB N M) (init (PB N M)) ops = .ok (outs empty ops, s) ∧ erase (PB N M) s k = .ok (true, s1) ∧
      ∀ t, 1 ≤ t → ¬ (s.depth = 1 ∧ s1.depth = 0 ∧ t = 1) → ∃ s', eraseAt (PB N M) s k t = .ok (.tree s') ∧
        (∀ x, lookup (PB N M) s' x = .ok (step (run empty ops) (.erase k) x) ∨ lookup (PB N M) s' x = .ok none ∨
          (t = 1 ∧ lookup (PB N M) s' x = .ub)) ∧
        (2 ≤ t → ∃ y, ∀ x, x ≠ y → lookup (PB N M) s' x = .ok (step (run empty ops) (.erase k) x)) ∧
        (2 ≤ t → t % 2 = 0 ∨ 2 * N ≤ t → Reads (lookup (PB N M) s') (step (run empty ops) (.erase k))) := by
  obtain ⟨s, s1, e, e1, _, hall⟩ := C129_exact N M q hN hq hM ops ho k hk
  have hM2 : 2 ≤ M := by omega
  obtain ⟨s2, e2, g, _⟩ := pb_history (K := K) (V := V) N M q hN hq hM2 ops ho
  cases Res.ok.inj (e2.symm.trans e)
  refine ⟨s, s1, e, e1, fun t ht hmix => ?_⟩
  rcases hall t with ⟨h1, h2, h3, _⟩ | ⟨_, s', f1, _, f3, f4⟩
  · exact absurd ⟨h1, h2, h3⟩ hmix
  refine ⟨s', f1, ?_⟩
  by_cases hnf : ∀ f, (s.heap.data f).isSome → s1.heap.data f ≠ none
  · have := f3 hnf ht
    exact ⟨fun x => .inl (this x), fun _ => ⟨k, fun x _ => this x⟩, fun _ _ => this⟩
  push Not at hnf
  obtain ⟨f, h1, h2⟩ := hnf
  obtain ⟨pn, g1, g2⟩ := f4 f h1 h2
  have hpn : pn.num ≤ N := by
    obtain ⟨d, tr, h⟩ := s
    rcases d with _ | d
    · exact g1.elim
    obtain ⟨pn', top', lo', hi', pre, post, e1, e2, e3⟩ := leafParentG_bt (k := k) d _ tr ⊥ ⊤ g.bt (inR_univ k)
    obtain rfl : pn' = pn := Res.ok.inj (e1.symm.trans g1)
    obtain ⟨_, _, _, hNn, _⟩ := e2.node k
    exact hNn
  refine ⟨fun x => ?_, fun h2t => ?_, fun h2t hev x => ?_⟩
  · rcases (g2 x).1 with h | h | h
    · exact .inl h
    · exact .inr (.inl h)
    · exact .inr (.inr ⟨by omega, h.2⟩)
  · by_cases hd : ∃ y, DupSep pn f t y
    · obtain ⟨y, hy⟩ := hd
      refine ⟨y, fun x hx => ((g2 x).2 (fun hc => hx (g1.dup_unique g.bt g.wf hc hy))).trans (if_neg (fun hc => by omega))⟩
    · exact ⟨k, fun x _ => ((g2 x).2 (fun hc => hd ⟨x, hc⟩)).trans (if_neg (fun hc => by omega))⟩
  · refine ((g2 x).2 ?_).trans (if_neg (fun hc => by omega))
    rintro ⟨j, _, a1, a2, _⟩
    omega

/-- Thirteen inserts in ascending order: a root over six leaves. -/
def sixLeaves : List (Op Nat Nat) :=
  [10, 20, 30, 40, 50, 60, 70, 80, 90, 100, 110, 120, 130].map (fun k => .insert k k)

theorem sixLeaves_erases : ErasesPresent empty sixLeaves := trivial

/-- A lookup after `ops` and a crash after `t` assignments to the branch node in the erase of `k`. -/
def dropEx (ops : List (Op Nat Nat)) (k t x : Nat) : Res (Option Nat) := do
  let r ← execAll (PB 6 4 : Ops Nat Nat _) (init (PB 6 4)) ops
  match ← eraseAt (PB 6 4) r.2 k t with
  | .tree s => lookup (PB 6 4) s x
  | .mixed => .assertFail

/-- A case that meets the hypotheses: the erase of 20 merges the leaves of 10 and 30; the lookups of 20, 30, 50, 70, 90 and 110 after
`t` assignments to the root.  Copied separators are not found (90, 110); 50 leads to the deleted leaf after the first assignment. -/
example : ([0, 1, 2, 3, 5, 6, 7, 8].map fun t => [20, 30, 50, 70, 90, 110].map (dropEx sixLeaves 20 t)) =
    [[.ok none, .ub, .ok (some 50), .ok (some 70), .ok (some 90), .ok (some 110)],
     [.ok none, .ok (some 30), .ub, .ok (some 70), .ok (some 90), .ok (some 110)],
     [.ok none, .ok (some 30), .ok (some 50), .ok (some 70), .ok (some 90), .ok (some 110)],
     [.ok none, .ok (some 30), .ok (some 50), .ok (some 70), .ok (some 90), .ok (some 110)],
     [.ok none, .ok (some 30), .ok (some 50), .ok (some 70), .ok none, .ok (some 110)],
     [.ok none, .ok (some 30), .ok (some 50), .ok (some 70), .ok (some 90), .ok (some 110)],
     [.ok none, .ok (some 30), .ok (some 50), .ok (some 70), .ok (some 90), .ok none],
     [.ok none, .ok (some 30), .ok (some 50), .ok (some 70), .ok (some 90), .ok (some 110)]] := by
  decide +kernel

/-- After five assignments key 90, stored before and after the erase of 20, is not found. -/
theorem C129_refuted : ¬ C129_statement Nat Nat 6 4 := by
  intro h
  have hd : (execAll (PB 6 4 : Ops Nat Nat _) (init (PB 6 4)) sixLeaves >>= fun r => eraseAt (PB 6 4) r.2 20 5 >>= fun c =>
      match c with
      | .tree s => lookup (PB 6 4) s 90
      | .mixed => .assertFail) = .ok none := by decide +kernel
  obtain ⟨r, e, hd⟩ := Res.bind_eq_ok.1 hd
  obtain ⟨c, e2, hd⟩ := Res.bind_eq_ok.1 hd
  obtain ⟨s', q1, q2⟩ := h sixLeaves 20 sixLeaves_erases (by decide) r.1 r.2 e 5 (by omega)
  rw [q1] at e2
  cases Res.ok.inj e2
  have hd : lookup (PB 6 4) s' 90 = .ok none := hd
  have := q2 90
  rw [hd] at this
  revert this
  decide

/-- After one assignment the lookup of 50 follows a pointer to the deleted leaf. -/
theorem C129_refuted_dangling : dropEx sixLeaves 20 1 50 = .ub := by decide +kernel

/-- With two leaves below the root, a crash between the assignments to `rootNode` and `depth` leaves a tree that takes a leaf for a
branch node. -/
theorem C129_refuted_mixed : (execAll (PB 6 4) (init (PB 6 4)) twoPairs >>= fun r => eraseAt (PB 6 4) r.2 10 1) = .ok .mixed := by
  have hd : (execAll (PB 6 4 : Ops Nat Nat _) (init (PB 6 4)) twoPairs >>= fun r => eraseAt (PB 6 4) r.2 10 1 >>= fun c =>
      match c with
      | .tree _ => .assertFail
      | .mixed => .ok true) = .ok true := by decide +kernel
  obtain ⟨r, e, hd⟩ := Res.bind_eq_ok.1 hd
  obtain ⟨c, e2, hd⟩ := Res.bind_eq_ok.1 hd
  rw [e, Res.ok_bind, e2]
  cases c with
  | tree _ => cases hd
  | mixed => rfl

end Verif.BTreeProps
