import Verif.BTree.MergeCrashSpec
import Verif.BTree.Props
import Verif.CrashSpec

/-!
# Property theorems for crashes inside an erase of HPBPTree and PBPTree (C125–C128)

The specification is `Verif.MapSpec` and `Verif.CrashSpec`.
-/

set_option linter.unusedSectionVars false

namespace Verif.BTreeProps

open Verif BTree MapSpec CrashSpec

variable {K V : Type} [LinearOrder K]

/-- After any history, an erase of a stored key comes to an end, and `erase_crash` applies. -/
theorem history_erase_crash {c : SCfg K V} (C : CfgLaws c) (hw : WSearch c) (hu : USearch c) (zero : Bool) (q : Nat) (hN : c.N = 2 * q) (hq : 3 ≤ q)
    (hM : 4 ≤ c.M) (ops : List (Op K V)) (ho : ErasesPresent empty ops) (k : K) (hk : run empty ops k ≠ none) :
    ∃ (s : State K (SLeaf K V)) (s1 : State K (SLeaf K V)) (r id : Nat) (l l1 : SLeaf K V),
      execAll (sortedOps c) (init (sortedOps c)) ops = .ok (outs empty ops, s) ∧ erase (sortedOps c) s k = .ok (true, s1) ∧
      findLeaf (sortedOps c) s.depth s.root k = .ok id ∧ s.heap.data id = some l ∧ l.erase c k = .ok (true, l1) ∧
      (∀ t, t ≤ 2 * r + 1 → ∃ h, crashEraseW c zero s k t = .ok h ∧
        ShiftPoint (lookup (sortedOps c) ⟨s.depth, s.root, h⟩) (run empty ops) k r t ∧
        ∃ s', recoverH (sortedOps c) h 0 = .ok s' ∧ ShiftPoint (lookup (sortedOps c) s') (run empty ops) k r t) ∧
      crashEraseW c zero s k (2 * r + 1) = .ok (s.heap.set id l1) ∧
      (∀ f, (s.heap.data f).isSome → s1.heap.data f = none → ∃ n, 2 * r + 1 < n ∧
        (∃ x, step (run empty ops) (.erase k) x ≠ none ∧ findLeaf (sortedOps c) s.depth s.root x = .ok f) ∧
        ∀ t, 2 * r + 1 ≤ t → ∃ h, crashEraseW c zero s k t = .ok h ∧
          (∃ s', recoverH (sortedOps c) h 0 = .ok s' ∧ Reads (lookup (sortedOps c) s') (step (run empty ops) (.erase k))) ∧
          (zero = false → ∀ x, lookup (sortedOps c) ⟨s.depth, s.root, h⟩ x =
            if n ≤ t ∧ findLeaf (sortedOps c) s.depth s.root x = .ok f then .ub else .ok (step (run empty ops) (.erase k) x)) ∧
          (n ≤ t → h = s1.heap)) ∧
      ∃ ws, (∀ t, crashEraseW c zero s k t = applyW c.M s.heap (ws.take t)) ∧
        ((∀ f, (s.heap.data f).isSome → s1.heap.data f ≠ none) → MoveCases c s s1 (run empty ops) k id r 0 l1 ws) := by
  have hpre : ∀ l k, (sortedLaws C).ok l → Assoc.find k ((sortedLaws C).abs l) ≠ none → (sortedErase C).pre l k := by
    intro l k _ hf
    obtain ⟨v, hv⟩ := Option.ne_none_iff_exists'.1 hf
    exact ⟨(k, v), Assoc.find_some_mem hv, le_rfl⟩
  obtain ⟨s, e, g, h, hd⟩ := histories_good_head (W := sortedLaws C) (sortedErase C) (fun _ _ _ => trivial) hpre hN hq
    (show 2 ≤ c.M by omega) le_rfl ops _ _ (init_good (sortedLaws C) _ _ _).1 (init_stores _) ho (fun _ _ _ => trivial)
  obtain ⟨s1, e1, _⟩ := histories_good_head (W := sortedLaws C) (sortedErase C) (fun _ _ _ => trivial) hpre hN hq
    (show 2 ≤ c.M by omega) le_rfl [.erase k] s (run empty ops) g h ⟨hk, trivial⟩ (fun _ _ hm => by simp at hm)
  have e1' : erase (sortedOps c) s k = .ok (true, s1) := by
    unfold execAll at e1
    obtain ⟨r, q1, q2⟩ := Res.bind_eq_ok.1 e1
    unfold execAll at q2
    rw [Res.ok_bind] at q2
    have q3 := Res.ok.inj q2
    have ht : (run empty ops k).isSome = true := Option.isSome_iff_ne_none.2 hk
    simp only [outs, out, ht, Prod.mk.injEq, List.cons.injEq, and_true] at q3
    rw [← q3.2, ← q3.1]
    exact q1
  have hd0 : (ids s.depth s.root).head? = some 0 := hd
  obtain ⟨ws, id, r, l, l1, f1, f2, f3, f4, f5, f6, f7, f8, f9⟩ :=
    erase_crash C hw hu (by omega) hM zero (by omega) g h hd0 hk
  have hcr : ∀ t, crashEraseW c zero s k t = applyW c.M s.heap (ws.take t) := by
    intro t; unfold crashEraseW; rw [f4, Res.ok_bind]
  refine ⟨s, s1, r, id, l, l1, e, e1', f1, f2, f3, fun t ht => ?_, by rw [hcr, f7], fun f h1 h2 => ?_, ws, hcr, f9 true s1 e1'⟩
  · obtain ⟨l', q1, q2, s', q3, q4⟩ := f6 t ht
    exact ⟨_, by rw [hcr, q1], q2, s', q3, q4⟩
  · obtain ⟨g1, ⟨x, g2, g3, g4⟩, g5⟩ := f8 true s1 e1' f h1 h2
    refine ⟨ws.length, g1, ⟨x, by simp only [step, if_neg g2]; exact g3, g4⟩, fun t ht => ?_⟩
    obtain ⟨h', q1, ⟨s2, q2, q3⟩, q4, q5⟩ := g5 t ht
    exact ⟨h', by rw [hcr, q1], ⟨s2, q2, q3⟩, q4, q5⟩

/-! ## C125 -/

/-- C125 in full: a crash at any point of an erase of a stored key of HPBPTree, followed by a recovery, leaves the map before or the
map after the erase. -/
def C125_statement (N M : Nat) : Prop :=
  ∀ (ops : List (Op Nat Nat)) (k t : Nat), ErasesPresent empty ops → run empty ops k ≠ none →
    ∀ bs s, execAll (HP N M) (init (HP N M)) ops = .ok (bs, s) →
    ∃ h s', crashEraseW (hpCfg N M) true s k t = .ok h ∧ recoverH (HP N M) h 0 = .ok s' ∧
      BeforeOrAfter (lookup (HP N M) s') (run empty ops) (step (run empty ops) (.erase k))

/-- Five inserts and an erase: two leaves with two keys each. -/
def twoPairs : List (Op Nat Nat) := [.insert 10 1, .insert 20 2, .insert 30 3, .insert 40 4, .insert 50 5, .erase 50]

theorem twoPairs_erases : ErasesPresent empty twoPairs := ⟨by decide, trivial⟩

/-- C125 is false: a crash after the first assignment of the erase of 10 gives 20 the value of 10. -/
theorem C125_refuted : ¬ C125_statement 6 4 := by
  intro h
  have hd : (execAll (HP 6 4 : Ops Nat Nat _) (init (HP 6 4)) twoPairs >>= fun r =>
      crashEraseW (hpCfg 6 4) true r.2 10 1 >>= fun h => recoverH (HP 6 4) h 0 >>= fun s' => lookup (HP 6 4) s' 20) = .ok (some 1) := by
    decide +kernel
  obtain ⟨r, e, hd⟩ := Res.bind_eq_ok.1 hd
  obtain ⟨h', e', hd⟩ := Res.bind_eq_ok.1 hd
  obtain ⟨s', e'', hd⟩ := Res.bind_eq_ok.1 hd
  obtain ⟨h2, s2, e2, e3, hb⟩ := h twoPairs 10 1 twoPairs_erases (by decide) r.1 r.2 e
  rw [e'] at e2
  cases Res.ok.inj e2
  rw [e''] at e3
  cases Res.ok.inj e3
  rcases hb with hb | hb
  · have := hb 20
    rw [hd] at this
    revert this; decide
  · have := hb 20
    rw [hd] at this
    revert this; decide

/-- Seven inserts and an erase: the leaves 10, 20, 30, 40 and 50, 55. -/
def leftDonor : List (Op Nat Nat) :=
  [.insert 30 1, .insert 40 2, .insert 50 3, .insert 60 4, .insert 55 5, .insert 20 6, .insert 10 7, .erase 60]

/-- Some lookups in HPBPTree after `ops`, a crash after `t` assignments of the erase of `k`, and a recovery. -/
def hpEraseEx (ops : List (Op Nat Nat)) (k t : Nat) (xs : List Nat) : Res (List (Option Nat)) := do
  let r ← execAll (HP 6 4 : Ops Nat Nat _) (init (HP 6 4)) ops
  let h ← crashEraseW (hpCfg 6 4) true r.2 k t
  let s ← recoverH (HP 6 4) h 0
  xs.mapM (lookup (HP 6 4) s)

/-- Keys that are not erased can be lost: the erase of 50 moves 30 and 40 to the leaf of 55; after a crash behind the first
assignment to slot 0 of this leaf, 40 and 55 are lost and 30 has the value of 55. -/
theorem C125_refuted_lost : hpEraseEx leftDonor 50 6 [10, 20, 30, 40, 50, 55] =
    .ok [some 7, some 6, some 5, none, none, none] := by decide +kernel

/-- C125, the removal from the leaf at all crash points, and all erases that free a leaf at all crash points.  With `r` the number of
larger keys in the leaf of `k`, the removal takes `2 * r + 1` assignments; up to there the erased key is gone after the first, and
every other key keeps its value, except that after an odd number of assignments less than `2 * r` one larger key can have the value
of a smaller key (`ShiftPoint`).  If the erase merges two leaves, all later crash points leave the map after the erase, and after
the last one the leaves are those of the uninterrupted call.  Missing: the right value of that key, and the crash points of
moves of entries between leaves, for which the claim is false (`C125_refuted`, `C125_refuted_lost`). -/
theorem C125_erase_crash_partial (N M q : Nat) (hN : N = 2 * q) (hq : 3 ≤ q) (hM : 4 ≤ M) (ops : List (Op K V))
    (ho : ErasesPresent empty ops) (k : K) (hk : run empty ops k ≠ none) :
    ∃ (s s1 : State K (SLeaf K V)) (r id : Nat) (l l1 : SLeaf K V),
      execAll (HP N M) (init (HP N M)) ops = .ok (outs empty ops, s) ∧ erase (HP N M) s k = .ok (true, s1) ∧
      findLeaf (HP N M : Ops K V _) s.depth s.root k = .ok id ∧ s.heap.data id = some l ∧ l.erase (hpCfg N M) k = .ok (true, l1) ∧
      (∀ t, t ≤ 2 * r + 1 → ∃ h s', crashEraseW (hpCfg N M) true s k t = .ok h ∧ recoverH (HP N M) h 0 = .ok s' ∧
        ShiftPoint (lookup (HP N M) s') (run empty ops) k r t) ∧
      crashEraseW (hpCfg N M) true s k (2 * r + 1) = .ok (s.heap.set id l1) ∧
      ∀ f, (s.heap.data f).isSome → s1.heap.data f = none →
        (∀ t, 2 * r + 1 ≤ t → ∃ h s', crashEraseW (hpCfg N M) true s k t = .ok h ∧ recoverH (HP N M) h 0 = .ok s' ∧
          Reads (lookup (HP N M) s') (step (run empty ops) (.erase k))) ∧
        ∃ n, ∀ t, n ≤ t → crashEraseW (hpCfg N M) true s k t = .ok s1.heap := by
  have C := hpLaws (K := K) (V := V) (N := N) (M := M) (by omega)
  obtain ⟨s, s1, r, id, l, l1, e, e1, f1, f2, f3, f4, f5, f6, _⟩ :=
    history_erase_crash C (hp_wsearch N M) (hp_usearch N M) true q hN hq hM ops ho k hk
  refine ⟨s, s1, r, id, l, l1, e, e1, f1, f2, f3, fun t ht => ?_, f5, fun f h1 h2 => ?_⟩
  · obtain ⟨h, q1, _, s', q2, q3⟩ := f4 t ht
    exact ⟨h, s', q1, q2, q3⟩
  · obtain ⟨n, g1, _, g3⟩ := f6 f h1 h2
    refine ⟨fun t ht => ?_, n, fun t ht => ?_⟩
    · obtain ⟨h, q1, ⟨s', q2, q3⟩, _⟩ := g3 t ht
      exact ⟨h, s', q1, q2, q3⟩
    · obtain ⟨h, q1, _, _, q2⟩ := g3 t (by omega)
      rw [q1, q2 ht]

/-- A case that meets the hypotheses: the erase of 10 after `twoPairs` frees leaf 1. -/
example : ErasesPresent empty twoPairs ∧ run empty twoPairs 10 ≠ none ∧
    (execAll (HP 6 4 : Ops Nat Nat _) (init (HP 6 4)) twoPairs >>= fun r => erase (HP 6 4) r.2 10 >>= fun r2 =>
      pure ((r.2.heap.data 1).isSome, (r2.2.heap.data 1).isSome)) = .ok (true, false) :=
  ⟨twoPairs_erases, by decide, by decide +kernel⟩

/-- And what the lookups give there. -/
example : [1, 2, 3, 6, 9, 20].map (fun t => hpEraseEx twoPairs 10 t [10, 20, 30, 40]) =
    [.ok [none, some 1, some 3, some 4], .ok [none, some 2, some 3, some 4], .ok [none, some 2, some 3, some 4],
      .ok [none, some 2, some 3, some 4], .ok [none, some 2, some 3, some 4], .ok [none, some 2, some 3, some 4]] := by
  decide +kernel

/-! ## C126 -/

/-- C126 in full: a crash at any point of an erase of PBPTree that merges two leaves (up to the deletion of the second) leaves the map
before or the map after the erase, with the branch nodes as they were. -/
def C126_statement (K V : Type) [LinearOrder K] (N M : Nat) : Prop :=
  ∀ (ops : List (Op K V)) (k : K), ErasesPresent empty ops → run empty ops k ≠ none →
    ∀ bs s, execAll (PB N M) (init (PB N M)) ops = .ok (bs, s) → ∀ b s1, erase (PB N M) s k = .ok (b, s1) →
    ∀ f, (s.heap.data f).isSome → s1.heap.data f = none →
    ∀ t, ∃ h, crashEraseW (pbCfg N M) false s k t = .ok h ∧
      BeforeOrAfter (lookup (PB N M) ⟨s.depth, s.root, h⟩) (run empty ops) (step (run empty ops) (.erase k))

/-- C126, exactly: the removal takes `2 * r + 1` assignments and is as for one leaf (C76); from there to the deletion of the second
leaf all lookups are those after the erase.  After the deletion every lookup that the branch nodes send to this leaf follows a
dangling pointer, and this concerns a stored key.  Missing: lookups after the deletion (`C126_refuted`). -/
theorem C126_merge_crash_partial (N M q : Nat) (hN : N = 2 * q) (hq : 3 ≤ q) (hM : 4 ≤ M) (ops : List (Op K V))
    (ho : ErasesPresent empty ops) (k : K) (hk : run empty ops k ≠ none) :
    ∃ (s s1 : State K (SLeaf K V)) (r : Nat),
      execAll (PB N M) (init (PB N M)) ops = .ok (outs empty ops, s) ∧ erase (PB N M) s k = .ok (true, s1) ∧
      (∀ t, t ≤ 2 * r + 1 → ∃ h, crashEraseW (pbCfg N M) false s k t = .ok h ∧
        ShiftPoint (lookup (PB N M) ⟨s.depth, s.root, h⟩) (run empty ops) k r t) ∧
      ∀ f, (s.heap.data f).isSome → s1.heap.data f = none → ∃ n, 2 * r + 1 < n ∧
        (∀ t, 2 * r + 1 ≤ t → t < n → ∃ h, crashEraseW (pbCfg N M) false s k t = .ok h ∧
          Reads (lookup (PB N M) ⟨s.depth, s.root, h⟩) (step (run empty ops) (.erase k))) ∧
        (∃ x, step (run empty ops) (.erase k) x ≠ none ∧ findLeaf (PB N M : Ops K V _) s.depth s.root x = .ok f) ∧
        ∀ t, n ≤ t → crashEraseW (pbCfg N M) false s k t = .ok s1.heap ∧
          ∀ x, (findLeaf (PB N M : Ops K V _) s.depth s.root x = .ok f → lookup (PB N M) ⟨s.depth, s.root, s1.heap⟩ x = .ub) ∧
            (findLeaf (PB N M : Ops K V _) s.depth s.root x ≠ .ok f →
              lookup (PB N M) ⟨s.depth, s.root, s1.heap⟩ x = .ok (step (run empty ops) (.erase k) x)) := by
  have C := pbLaws (K := K) (V := V) (N := N) (M := M) (by omega)
  obtain ⟨s, s1, r, id, l, l1, e, e1, f1, f2, f3, f4, f5, f6, _⟩ :=
    history_erase_crash C (pb_wsearch N M) (pb_usearch N M) false q hN hq hM ops ho k hk
  refine ⟨s, s1, r, e, e1, fun t ht => ?_, fun f h1 h2 => ?_⟩
  · obtain ⟨h, q1, q2, _⟩ := f4 t ht
    exact ⟨h, q1, q2⟩
  · obtain ⟨n, g1, g2, g3⟩ := f6 f h1 h2
    refine ⟨n, g1, fun t ht hn => ?_, g2, fun t ht => ?_⟩
    · obtain ⟨h, q1, _, q2, _⟩ := g3 t ht
      refine ⟨h, q1, fun x => ?_⟩
      exact (q2 rfl x).trans (if_neg (fun hc => by omega))
    · obtain ⟨h, q1, _, q2, q3⟩ := g3 t (by omega)
      rw [← q3 ht]
      exact ⟨q1, fun x => ⟨fun hx => (q2 rfl x).trans (if_pos ⟨ht, hx⟩), fun hx => (q2 rfl x).trans (if_neg (fun hc => hx hc.2))⟩⟩

/-- C126 is false for every erase that merges two leaves: a crash right after the deletion leaves a stored key whose lookup follows a
dangling pointer. -/
theorem C126_refuted_every (N M q : Nat) (hN : N = 2 * q) (hq : 3 ≤ q) (hM : 4 ≤ M) (ops : List (Op K V))
    (ho : ErasesPresent empty ops) (k : K) (hk : run empty ops k ≠ none) {bs : List Bool} {s s1 : State K (SLeaf K V)} {b : Bool}
    (e : execAll (PB N M) (init (PB N M)) ops = .ok (bs, s)) (e1 : erase (PB N M) s k = .ok (b, s1)) {f : Nat}
    (h1 : (s.heap.data f).isSome) (h2 : s1.heap.data f = none) :
    ∃ t h x, crashEraseW (pbCfg N M) false s k t = .ok h ∧ step (run empty ops) (.erase k) x ≠ none ∧
      lookup (PB N M) ⟨s.depth, s.root, h⟩ x = .ub := by
  obtain ⟨s', s1', r, q1, q2, _, q3⟩ := C126_merge_crash_partial N M q hN hq hM ops ho k hk
  rw [e] at q1
  cases Res.ok.inj q1
  rw [e1] at q2
  cases Res.ok.inj q2
  obtain ⟨n, _, _, ⟨x, q4, q5⟩, q6⟩ := q3 f h1 h2
  obtain ⟨q7, q8⟩ := q6 n le_rfl
  exact ⟨n, s1.heap, x, q7, q4, (q8 x).1 q5⟩

theorem C126_refuted : ¬ C126_statement Nat Nat 6 4 := by
  intro h
  have hd : (execAll (PB 6 4 : Ops Nat Nat _) (init (PB 6 4)) twoPairs >>= fun r => erase (PB 6 4) r.2 10 >>= fun r2 =>
      pure ((r.2.heap.data 1).isSome, (r2.2.heap.data 1).isSome)) = .ok (true, false) := by decide +kernel
  obtain ⟨r, e, hd⟩ := Res.bind_eq_ok.1 hd
  obtain ⟨r2, e2, hd⟩ := Res.bind_eq_ok.1 hd
  have hd := Res.ok.inj hd
  simp only [Prod.mk.injEq, Option.isSome_eq_false_iff, Option.isNone_iff_eq_none] at hd
  obtain ⟨t, h', x, q1, _, q3⟩ := C126_refuted_every 6 4 3 rfl le_rfl le_rfl twoPairs twoPairs_erases 10 (by decide) e e2 hd.1 hd.2
  obtain ⟨h2, q4, q5⟩ := h twoPairs 10 twoPairs_erases (by decide) r.1 r.2 e r2.1 r2.2 e2 1 hd.1 hd.2 t
  rw [q1] at q4
  cases Res.ok.inj q4
  rcases q5 with q5 | q5
  · have := q5 x
    rw [q3] at this
    cases this
  · have := q5 x
    rw [q3] at this
    cases this

/-- A lookup in PBPTree after `ops` and a crash after `t` assignments of the erase of `k`. -/
def pbEraseEx (ops : List (Op Nat Nat)) (k t x : Nat) : Res (Option Nat) := do
  let r ← execAll (PB 6 4 : Ops Nat Nat _) (init (PB 6 4)) ops
  let h ← crashEraseW (pbCfg 6 4) false r.2 k t
  lookup (PB 6 4) ⟨r.2.depth, r.2.root, h⟩ x

/-- A case that meets the hypotheses is that of `C126_refuted`; what lookups give there. -/
example : [pbEraseEx twoPairs 10 1 20, pbEraseEx twoPairs 10 3 20, pbEraseEx twoPairs 10 9 30, pbEraseEx twoPairs 10 9 40,
    pbEraseEx twoPairs 10 10 20, pbEraseEx twoPairs 10 10 30, pbEraseEx twoPairs 10 10 40] =
    [.ok (some 1), .ok (some 2), .ok (some 3), .ok (some 4), .ok (some 2), .ub, .ub] := by decide +kernel

/-! ## C127 -/

/-- The erase took `s` to `s1` and changed the leaf of a stored key smaller than `k`, other than the leaf of `k`. -/
def ChangesLeft (o : Ops K V (SLeaf K V)) (s s1 : State K (SLeaf K V)) (m : K → Option V) (k : K) : Prop :=
  ∃ y p, y < k ∧ m y ≠ none ∧ findLeaf o s.depth s.root y = .ok p ∧ findLeaf o s.depth s.root k ≠ .ok p ∧ s1.heap.data p ≠ s.heap.data p

/-- C127: a crash inside an erase of a stored key of HPBPTree can lose another key if and only if the erase frees no leaf and changes
the leaf of a smaller key beside the leaf of `k` (it takes entries from the left neighbour). -/
theorem C127_lost_iff (N M q : Nat) (hN : N = 2 * q) (hq : 3 ≤ q) (hM : 4 ≤ M) (ops : List (Op K V))
    (ho : ErasesPresent empty ops) (k : K) (hk : run empty ops k ≠ none) :
    ∃ (s s1 : State K (SLeaf K V)), execAll (HP N M) (init (HP N M)) ops = .ok (outs empty ops, s) ∧ erase (HP N M) s k = .ok (true, s1) ∧
      ((∃ t h s' x, crashEraseW (hpCfg N M) true s k t = .ok h ∧ recoverH (HP N M) h 0 = .ok s' ∧
          step (run empty ops) (.erase k) x ≠ none ∧ lookup (HP N M) s' x = .ok none) ↔
        (∀ f, (s.heap.data f).isSome → s1.heap.data f ≠ none) ∧ ChangesLeft (HP N M) s s1 (run empty ops) k) := by
  have C := hpLaws (K := K) (V := V) (N := N) (M := M) (by omega)
  obtain ⟨s, s1, r, id, l, l1, e, e1, f1, f2, f3, f4, f5, f6, ws, hcr, f7⟩ :=
    history_erase_crash C (hp_wsearch N M) (hp_usearch N M) true q hN hq hM ops ho k hk
  refine ⟨s, s1, e, e1, ⟨?_, ?_⟩⟩
  · rintro ⟨t, h, s', x, q1, q2, q3, q4⟩
    have hxk : x ≠ k := by rintro rfl; exact q3 (if_pos rfl)
    have hmx : run empty ops x ≠ none := by
      simp only [step, if_neg hxk] at q3
      exact q3
    -- the crash is not in the removal
    have ht : ¬ t ≤ 2 * r + 1 := by
      intro ht
      obtain ⟨h2, p1, _, s2, p2, _, _, x0, p3⟩ := f4 t ht
      rw [q1] at p1
      cases Res.ok.inj p1
      cases Res.ok.inj (q2.symm.trans p2)
      rcases p3 x hxk with p3 | ⟨_, _, _, y, _, p4, p3⟩
      · exact hmx (Res.ok.inj (q4.symm.trans p3)).symm
      · exact p4 (Res.ok.inj (q4.symm.trans p3)).symm
    have hfr : ∀ f, (s.heap.data f).isSome → s1.heap.data f ≠ none := by
      intro f h1 h2
      obtain ⟨n, _, _, g3⟩ := f6 f h1 h2
      obtain ⟨h2, p1, ⟨s2, p2, p3⟩, _⟩ := g3 t (by omega)
      rw [q1] at p1
      cases Res.ok.inj p1
      cases Res.ok.inj (q2.symm.trans p2)
      exact q3 (Res.ok.inj (q4.symm.trans (p3 x))).symm
    refine ⟨hfr, ?_⟩
    rcases f7 hfr with ⟨g1, g2⟩ | ⟨_, _, T, _, _, g1, _⟩ | ⟨⟨y, p, g1, g2, g3, g4, g5⟩, _⟩
    · exfalso
      obtain ⟨h2, p1, _, s2, p2, _, _, x0, p3⟩ := f4 (2 * r + 1) le_rfl
      have hh : crashEraseW (hpCfg N M) true s k t = crashEraseW (hpCfg N M) true s k (2 * r + 1) := by
        rw [hcr, hcr, List.take_of_length_le (by omega), List.take_of_length_le (by omega)]
      rw [← hh, q1] at p1
      cases Res.ok.inj p1
      cases Res.ok.inj (q2.symm.trans p2)
      rcases p3 x hxk with p3 | ⟨_, _, _, y, _, p4, p3⟩
      · exact hmx (Res.ok.inj (q4.symm.trans p3)).symm
      · exact p4 (Res.ok.inj (q4.symm.trans p3)).symm
    · exfalso
      obtain ⟨h2, s2, p1, p2, ⟨x0, p3⟩, _⟩ := g1 t (by omega)
      rw [← hcr, q1] at p1
      cases Res.ok.inj p1
      cases Res.ok.inj (q2.symm.trans p2)
      rcases p3 x with p3 | ⟨_, _, _, y, _, p4, p3⟩
      · exact q3 (Res.ok.inj (q4.symm.trans p3)).symm
      · exact p4 (Res.ok.inj (q4.symm.trans p3)).symm
    · refine ⟨y, p, g1, g2, g3, fun hc => ?_, g5⟩
      exact g4 (Res.ok.inj (hc.symm.trans f1))
  · rintro ⟨hfr, y, p, hy, hm, hf, hp, hd⟩
    rcases f7 hfr with ⟨_, g2⟩ | ⟨_, g1, _⟩ | ⟨_, t, x, h, s2, _, _, g1, g2, g3, g4, g5, _⟩
    · exfalso
      refine hd ?_
      rw [g2, Heap.set_data_ne]
      rintro rfl
      exact hp f1
    · exact absurd (g1 y p hy hm hf (by rintro rfl; exact hp f1)) hd
    · refine ⟨t, h, s2, x, by rw [hcr, g3], g4, ?_, g5⟩
      simp only [step, if_neg g1]
      exact g2

/-- C127, and otherwise: if the erase frees no leaf and changes no leaf of a smaller key beside the leaf of `k`, the tree can be
recovered after every crash, the erased key is gone after the first assignment, and every other key keeps its value, but for at most
one that has the value of a smaller stored key. -/
theorem C127_torn_otherwise (N M q : Nat) (hN : N = 2 * q) (hq : 3 ≤ q) (hM : 4 ≤ M) (ops : List (Op K V))
    (ho : ErasesPresent empty ops) (k : K) (hk : run empty ops k ≠ none) {bs : List Bool} {s s1 : State K (SLeaf K V)} {b : Bool}
    (e : execAll (HP N M) (init (HP N M)) ops = .ok (bs, s)) (e1 : erase (HP N M) s k = .ok (b, s1))
    (hc : ¬ ChangesLeft (HP N M) s s1 (run empty ops) k) (t : Nat) (ht : 1 ≤ t) :
    ∃ h s' x0, crashEraseW (hpCfg N M) true s k t = .ok h ∧ recoverH (HP N M) h 0 = .ok s' ∧ lookup (HP N M) s' k = .ok none ∧
      ∀ x, lookup (HP N M) s' x = .ok (step (run empty ops) (.erase k) x) ∨
        (x = x0 ∧ ∃ y, y < x0 ∧ run empty ops y ≠ none ∧ lookup (HP N M) s' x = .ok (run empty ops y)) := by
  have C := hpLaws (K := K) (V := V) (N := N) (M := M) (by omega)
  obtain ⟨s2, s3, r, id, l, l1, e2, e3, f1, f2, f3, f4, f5, f6, ws, hcr, f7⟩ :=
    history_erase_crash C (hp_wsearch N M) (hp_usearch N M) true q hN hq hM ops ho k hk
  cases Res.ok.inj (e.symm.trans e2)
  cases Res.ok.inj (e1.symm.trans e3)
  have hshift : ∀ t, 1 ≤ t → t ≤ 2 * r + 1 → ∃ h s' x0, crashEraseW (hpCfg N M) true s k t = .ok h ∧ recoverH (HP N M) h 0 = .ok s' ∧
      lookup (HP N M) s' k = .ok none ∧ ∀ x, lookup (HP N M) s' x = .ok (step (run empty ops) (.erase k) x) ∨
        (x = x0 ∧ ∃ y, y < x0 ∧ run empty ops y ≠ none ∧ lookup (HP N M) s' x = .ok (run empty ops y)) := by
    intro t ht1 ht
    obtain ⟨h2, p1, _, s2, p2, _, p0, x0, p3⟩ := f4 t ht
    refine ⟨h2, s2, x0, p1, p2, p0 ht1, fun x => ?_⟩
    by_cases hx : x = k
    · subst hx
      left
      exact (p0 ht1).trans (congrArg Res.ok (if_pos rfl).symm)
    · rcases p3 x hx with p3 | ⟨_, _, p4⟩
      · left
        exact p3.trans (congrArg Res.ok (if_neg hx).symm)
      · exact .inr p4
  by_cases ht2 : t ≤ 2 * r + 1
  · exact hshift t ht ht2
  by_cases hfr : ∀ f, (s.heap.data f).isSome → s1.heap.data f ≠ none
  · rcases f7 hfr with ⟨g1, g2⟩ | ⟨_, _, T, _, _, g1, _⟩ | ⟨⟨y, p, g1, g2, g3, g4, g5⟩, _⟩
    · have hh : crashEraseW (hpCfg N M) true s k t = crashEraseW (hpCfg N M) true s k (2 * r + 1) := by
        rw [hcr, hcr, List.take_of_length_le (by omega), List.take_of_length_le (by omega)]
      rw [hh]
      exact hshift _ (by omega) le_rfl
    · obtain ⟨h2, s2, p1, p2, ⟨x0, p3⟩, _⟩ := g1 t (by omega)
      refine ⟨h2, s2, x0, by rw [hcr, p1], p2, ?_, fun x => ?_⟩
      · rcases p3 k with p3 | ⟨_, _, p4, _⟩
        · exact p3.trans (congrArg Res.ok (if_pos rfl))
        · exact absurd (if_pos rfl) p4
      · rcases p3 x with p3 | ⟨_, p4, _, y, p5, p6, p7⟩
        · exact .inl p3
        · have hyk : y ≠ k := by rintro rfl; exact p6 (if_pos rfl)
          simp only [if_neg hyk] at p6 p7
          exact .inr ⟨p4, y, p5, p6, p7⟩
    · exact absurd ⟨y, p, g1, g2, g3, fun hc => g4 (Res.ok.inj (hc.symm.trans f1)), g5⟩ hc
  · simp only [not_forall, not_not] at hfr
    obtain ⟨f, h1, h2⟩ := hfr
    obtain ⟨n, _, _, g3⟩ := f6 f h1 h2
    obtain ⟨h2, p1, ⟨s2, p2, p3⟩, _⟩ := g3 t (by omega)
    exact ⟨h2, s2, k, p1, p2, (p3 k).trans (congrArg Res.ok (if_pos rfl)), fun x => .inl (p3 x)⟩

theorem leftDonor_erases : ErasesPresent empty leftDonor := ⟨by decide, trivial⟩

/-- Six inserts: the leaves 10, 20 and 30, 40, 50, 60. -/
def rightDonor : List (Op Nat Nat) := [.insert 10 1, .insert 20 2, .insert 30 3, .insert 40 4, .insert 50 5, .insert 60 6]

/-- Cases that meet the hypotheses: the erase of 50 after `leftDonor` changes the leaf of 10 and frees none; a crash loses 55. -/
example : ErasesPresent empty leftDonor ∧ run empty leftDonor 50 ≠ none ∧
    (execAll (HP 6 4 : Ops Nat Nat _) (init (HP 6 4)) leftDonor >>= fun r => erase (HP 6 4) r.2 50 >>= fun r2 =>
      pure ([0, 1].map fun i => ((r.2.heap.data i).map SLeaf.num, (r2.2.heap.data i).map SLeaf.num))) =
        .ok [(some 4, some 2), (some 2, some 3)] ∧ hpEraseEx leftDonor 50 6 [55] = .ok [none] :=
  ⟨leftDonor_erases, by decide, by decide +kernel, by decide +kernel⟩

/-- The erase of 10 after `rightDonor` changes the leaf of 30: no key is lost, and after 12 assignments 60 has the value of 40. -/
example : ErasesPresent empty rightDonor ∧ run empty rightDonor 10 ≠ none ∧
    [3, 9, 10, 11, 12, 14].map (fun t => hpEraseEx rightDonor 10 t [20, 30, 40, 50, 60]) =
      [.ok [some 2, some 3, some 4, some 5, some 6], .ok [some 2, some 3, some 4, some 5, some 6], .ok [some 2, some 3, some 4, some 5, some 6],
        .ok [some 2, some 3, some 4, some 5, some 6], .ok [some 2, some 3, some 4, some 5, some 4], .ok [some 2, some 3, some 4, some 5, some 6]] :=
  ⟨trivial, by decide, by decide +kernel⟩

/-! ## C128 -/

/-- C128: a crash inside an erase of a stored key of PBPTree, up to the end of the changes of the leaves, can leave another stored key
that is not found or whose lookup follows a dangling pointer, if and only if the erase frees a leaf or changes a leaf other than that
of the key. -/
theorem C128_pb_lost_iff (N M q : Nat) (hN : N = 2 * q) (hq : 3 ≤ q) (hM : 4 ≤ M) (ops : List (Op K V))
    (ho : ErasesPresent empty ops) (k : K) (hk : run empty ops k ≠ none) :
    ∃ (s s1 : State K (SLeaf K V)), execAll (PB N M) (init (PB N M)) ops = .ok (outs empty ops, s) ∧ erase (PB N M) s k = .ok (true, s1) ∧
      ((∃ t h x, crashEraseW (pbCfg N M) false s k t = .ok h ∧ step (run empty ops) (.erase k) x ≠ none ∧
          (lookup (PB N M) ⟨s.depth, s.root, h⟩ x = .ok none ∨ lookup (PB N M) ⟨s.depth, s.root, h⟩ x = .ub)) ↔
        (∃ f, (s.heap.data f).isSome ∧ s1.heap.data f = none) ∨
          ∃ p, findLeaf (PB N M : Ops K V _) s.depth s.root k ≠ .ok p ∧ s1.heap.data p ≠ s.heap.data p) := by
  have C := pbLaws (K := K) (V := V) (N := N) (M := M) (by omega)
  obtain ⟨s, s1, r, id, l, l1, e, e1, f1, f2, f3, f4, f5, f6, ws, hcr, f7⟩ :=
    history_erase_crash C (pb_wsearch N M) (pb_usearch N M) false q hN hq hM ops ho k hk
  refine ⟨s, s1, e, e1, ⟨?_, ?_⟩⟩
  · rintro ⟨t, h, x, q1, q3, q4⟩
    by_contra hcon
    rw [not_or] at hcon
    obtain ⟨hfr, hch⟩ := hcon
    have hxk : x ≠ k := by rintro rfl; exact q3 (if_pos rfl)
    have hmx : run empty ops x ≠ none := by
      simp only [step, if_neg hxk] at q3
      exact q3
    have hpt : ∀ t, t ≤ 2 * r + 1 → crashEraseW (pbCfg N M) false s k t = .ok h → False := by
      intro t ht q1
      obtain ⟨h2, p1, ⟨_, _, x0, p3⟩, _⟩ := f4 t ht
      rw [q1] at p1
      cases Res.ok.inj p1
      rcases p3 x hxk with p3 | ⟨_, _, _, y, _, p4, p3⟩
      · rcases q4 with q4 | q4
        · exact hmx (Res.ok.inj (q4.symm.trans p3)).symm
        · exact absurd (q4.symm.trans p3) (by simp)
      · rcases q4 with q4 | q4
        · exact p4 (Res.ok.inj (q4.symm.trans p3)).symm
        · exact absurd (q4.symm.trans p3) (by simp)
    rcases f7 (fun f h1 h2 => hfr ⟨f, h1, h2⟩) with ⟨g1, g2⟩ | ⟨⟨y, p, g1, g2, g3, g4, g5⟩, _⟩ | ⟨⟨y, p, g1, g2, g3, g4, g5⟩, _⟩
    · refine hpt (min t (2 * r + 1)) (by omega) ?_
      rw [← q1, hcr, hcr]
      by_cases ht : t ≤ 2 * r + 1
      · rw [Nat.min_eq_left ht]
      · rw [Nat.min_eq_right (by omega), List.take_of_length_le (by omega), List.take_of_length_le (by omega)]
    · exact hch ⟨p, fun hc => g4 (Res.ok.inj (hc.symm.trans f1)), g5⟩
    · exact hch ⟨p, fun hc => g4 (Res.ok.inj (hc.symm.trans f1)), g5⟩
  · intro hor
    by_cases hfr : ∃ f, (s.heap.data f).isSome ∧ s1.heap.data f = none
    · obtain ⟨f, h1, h2⟩ := hfr
      obtain ⟨n, g1, ⟨x, g2, g3⟩, g4⟩ := f6 f h1 h2
      obtain ⟨h, q1, _, q2, _⟩ := g4 n (by omega)
      exact ⟨n, h, x, q1, g2, .inr ((q2 rfl x).trans (if_pos ⟨le_rfl, g3⟩))⟩
    · obtain ⟨p, hp, hd⟩ := hor.resolve_left hfr
      rcases f7 (fun f h1 h2 => hfr ⟨f, h1, h2⟩) with ⟨_, g2⟩ | ⟨_, _, T, _, _, _, x, h, g1, g2, g3, g4⟩ |
        ⟨_, t, x, h, s2, _, _, g1, g2, g3, _, _, g4⟩
      · exfalso
        refine hd ?_
        rw [g2, Heap.set_data_ne]
        rintro rfl
        exact hp f1
      · refine ⟨_, h, x, (hcr _).trans g3, ?_, .inl g4⟩
        simp only [step, if_neg g1]
        exact g2
      · refine ⟨t, h, x, (hcr _).trans g3, ?_, .inl g4⟩
        simp only [step, if_neg g1]
        exact g2

/-- Cases that meet the hypotheses: after 10 assignments of the erase of 10 after `rightDonor`, 30 is not found (it has moved to the
left leaf, which the branch nodes do not say); the erase of 60 changes only its leaf. -/
example : run empty rightDonor 10 ≠ none ∧ ([9, 10, 14].map fun t => pbEraseEx rightDonor 10 t 30) = [.ok (some 3), .ok none, .ok none] ∧
    (execAll (PB 6 4 : Ops Nat Nat _) (init (PB 6 4)) rightDonor >>= fun r => erase (PB 6 4) r.2 60 >>= fun r2 =>
      pure ([0, 1].map fun i => ((r.2.heap.data i).map SLeaf.num, (r2.2.heap.data i).map SLeaf.num))) =
        .ok [(some 2, some 2), (some 4, some 3)] :=
  ⟨by decide, by decide +kernel, by decide +kernel⟩

end Verif.BTreeProps
