import Verif.BitTree.Crash
import Verif.CrashSpec

/-!
# C72, C77: crashes in the leaf operations of BitHPBPTree and BitPBPTree

`c.move = false` is BitHPBPTree, `c.move = true` is BitPBPTree.
-/

set_option linter.unusedSectionVars false

namespace Verif.BitTree

open Verif Search FPTree BTree CrashSpec

variable {K V : Type} {M : Nat} [LinearOrder K] [Inhabited K] {c : Cfg K V} {adm : K → Prop}

/-- The leaf in which `k` belongs has a free position. -/
def Room (t : Store c M) (k : K) : Prop :=
  ∀ id x, findLeaf c t.depth t.root k = .ok id → t.heap[id]? = some x → ∃ p, p < M ∧ Bitmap.bit x.leaf.bits p = false

theorem reads_of_has (F : Laws c adm) {t : Store c M} (ht : TOk adm t) {m : K → Option V}
    (hh : ∀ k v, t.Has k v ↔ m k = some v) : ReadsOn adm t.lookup m := by
  intro k hk
  obtain ⟨r, e, hr⟩ := store_lookup_law F ht hk
  rw [e]
  congr 1
  apply Option.ext
  intro v
  rw [hr, hh]

/-- C72. After any history of inserts and erases (the erases without underflow, see C63): a crash after any number
of the assignments of an insert that updates a stored key or finds a free position in the leaf
leaves the map before or the map after the insert, and a crash after any number of the assignments of an erase to
the leaf leaves the map before or the map after the erase.  With all assignments done the tree is the one the
operation leaves. -/
theorem C72_crash (F : Laws c adm) (hM : 2 ≤ M) (hm : c.move = false → M % 64 ≠ 0) (hN : 2 ≤ c.N) (hN64 : c.N % 64 ≠ 0)
    (ops : List (Op K V)) (ha : ∀ o ∈ ops, adm o.key) (hc : calm ops (EStore.empty c M) = true) (k : K) (hk : adm k) (v : V) :
    ∃ t, run ops (EStore.empty c M) = .ok (some (⟨t, []⟩, (spec ops fun _ => none).2)) ∧
      ((spec ops fun _ => none).1 k ≠ none ∨ Room t k →
        (∀ n, ∃ t', crashInsert t k v n = .ok t' ∧
          BeforeOrAfterOn adm t'.lookup (spec ops fun _ => none).1
            (spec [.ins k v] (spec ops fun _ => none).1).1) ∧
        ∃ t', crashInsert t k v 3 = .ok t' ∧ t.insert k v = .ok t') ∧
      (∀ n, ∃ t', crashErase t k n = .ok t' ∧
        BeforeOrAfterOn adm t'.lookup (spec ops fun _ => none).1
          (spec [.del k] (spec ops fun _ => none).1).1) ∧
      ∃ t' r u, crashErase t k 1 = .ok t' ∧
        eraseAt c t.depth t.heap [] t.root k = .ok (t'.heap, r, u) ∧ t' = ⟨t.depth, t.root, t'.heap, t.first⟩ := by
  obtain ⟨t, e, ht, hh⟩ := run_calm_tree F hM hm hN hN64 ops (Store.empty c M) (fun _ => none) (tok_empty c M)
    (fun k v => ⟨fun h => absurd h (has_empty k v), fun h => by cases h⟩) ha hc
  refine ⟨t, e, fun hr => ?_, ?_, ?_⟩
  · obtain ⟨id, x, e1, e2, e3, e4, hput⟩ := putLeaf_law F ht hk
    have hroom : LRoom x.leaf k := by
      rcases hr with hr | hr
      · obtain ⟨w, hw⟩ := Option.ne_none_iff_exists'.1 hr
        exact Or.inl ⟨w, (e4 w).2 ((hh k w).2 hw)⟩
      · exact Or.inr (hr id x e1 e2)
    obtain ⟨ws, N, f1, f2, _, f3, l', f4, f5⟩ := leaf_insert_crash (c := c) e3 v hroom
    have hci : ∀ n l, applyWrites x.leaf (ws.take n) = .ok l → crashInsert t k v n = .ok (putLeaf t id x l) := by
      intro n l hl
      unfold crashInsert
      rw [e1, Res.ok_bind, e2, Res.ofOption_some, Res.ok_bind, f1, Res.ok_bind, hl]; rfl
    constructor
    · intro n
      obtain ⟨l, g1, g2, g3, g4⟩ := f3 n
      refine ⟨_, hci n l g1, ?_⟩
      by_cases hn : n < N
      · left
        obtain ⟨p1, p2⟩ := hput l g2 (fun y w _ => g3 hn y w)
        refine reads_of_has F p1 (fun y w => ?_)
        rw [p2, ← hh]
        by_cases hy : y = k
        · subst hy; simp [g3 hn, e4]
        · simp [hy]
      · right
        have g4 := g4 (by omega)
        obtain ⟨p1, p2⟩ := hput l g2 (fun y w hy => by rw [g4]; unfold Ups; simp [hy])
        refine reads_of_has F p1 (fun y w => ?_)
        rw [p2, g4]
        unfold Ups
        show _ ↔ (if y = k then some v else _) = some w
        by_cases hy : y = k
        · subst hy; simp [eq_comm]
        · simp [hy, hh]
    · obtain ⟨l3, g1, _, _, g4⟩ := f3 3
      have hlen : ws.length ≤ 3 := by
        obtain ⟨p, _, f1⟩ := Res.bind_eq_ok.1 f1
        split at f1
        · rw [← Res.ok.inj f1]; simp
        · obtain ⟨_, _, f1⟩ := Res.bind_eq_ok.1 f1
          rw [← Res.ok.inj f1]; simp
      refine ⟨_, hci 3 l' (by rw [List.take_of_length_le hlen]; exact f4), ?_⟩
      unfold Store.insert
      rw [ins_nosplit e2 f5 t.depth t.root e1, Res.ok_bind]; rfl
  · intro n
    obtain ⟨id, x, e1, e2, e3, e4, hput⟩ := putLeaf_law F ht hk
    obtain ⟨ws, f1, f3⟩ := leaf_erase_crash e3 k
    obtain ⟨l, g1, g2, g3, _, g4⟩ := f3 n
    refine ⟨putLeaf t id x l, ?_, ?_⟩
    · unfold crashErase
      rw [e1, Res.ok_bind, e2, Res.ofOption_some, Res.ok_bind, f1, Res.ok_bind, g1]; rfl
    · by_cases hn : n = 0
      · left
        obtain rfl := g3 hn
        obtain ⟨p1, p2⟩ := hput x.leaf g2 (fun y w _ => Iff.rfl)
        refine reads_of_has F p1 (fun y w => ?_)
        rw [p2, ← hh]
        by_cases hy : y = k
        · subst hy; simp [e4]
        · simp [hy]
      · right
        have g4 := g4 (by omega)
        obtain ⟨p1, p2⟩ := hput l g2 (fun y w hy => by rw [g4]; unfold Del; simp [hy])
        refine reads_of_has F p1 (fun y w => ?_)
        rw [p2, g4]
        unfold Del
        show _ ↔ (if y = k then none else _) = some w
        by_cases hy : y = k
        · subst hy; simp
        · simp [hy, hh]
  · obtain ⟨id, x, e1, e2, e3, e4, hput⟩ := putLeaf_law F ht hk
    obtain ⟨ws, f1, f3⟩ := leaf_erase_crash e3 k
    obtain ⟨l, g1, g2, _, g3, _⟩ := f3 1
    obtain ⟨r, g3⟩ := g3 (by omega)
    obtain ⟨u, g5⟩ := eraseAt_put (c := c) e2 g3 t.depth t.root e1
    refine ⟨putLeaf t id x l, r, u, ?_, g5, rfl⟩
    unfold crashErase
    rw [e1, Res.ok_bind, e2, Res.ofOption_some, Res.ok_bind, f1, Res.ok_bind, g1]; rfl

/-- The tree of the examples. -/
abbrev cEx (mv : Bool) : Cfg Int Int := cfgInt 3 mv (fun _ => 0) (fun _ => 0)

/-- A history with a split and an erase that leaves free positions. -/
def crashHist : List (Op Int Int) :=
  [.ins 1 10, .ins 2 20, .ins 3 30, .ins 4 40, .ins 5 50, .del 4]

/-- The hypotheses can be met, and the lookups of 6 at the crash points of its insert. -/
example : calm crashHist (EStore.empty (cEx true) 4) = true ∧
    (run crashHist (EStore.empty (cEx true) 4) >>= fun r => Res.ofOption r >>= fun r =>
      (crashInsert r.1.st 6 60 2 >>= fun t => t.lookup 6) >>= fun a =>
      (crashInsert r.1.st 6 60 3 >>= fun t => t.lookup 6) >>= fun b => pure (a, b)) = .ok (none, some 60) := by
  decide +kernel

/-! ## C77 -/

/-- C77 in full: an insert into a leaf with a free position is atomic even if the assignments that have become
persistent before a crash are an arbitrary subset. -/
def C77_statement (N M : Nat) (mv : Bool) : Prop :=
  ∀ (jk jv : Nat → Int) (ops : List (Op Int Int)) (k v : Int) (mask : List Bool),
    (∀ o ∈ ops, 0 ≤ o.key ∧ o.key < 2 ^ 31 - 1) → 0 ≤ k ∧ k < 2 ^ 31 - 1 →
    calm ops (EStore.empty (cfgInt N mv jk jv) M) = true → mask.length = 3 →
    ∀ t bs, run ops (EStore.empty (cfgInt N mv jk jv) M) = .ok (some (⟨t, []⟩, bs)) → Room t k →
    ∃ t', crashInsertAny t k v mask = .ok t' ∧
      BeforeOrAfterOn (fun k => 0 ≤ k ∧ k < 2 ^ 31 - 1) t'.lookup (spec ops fun _ => none).1
        (spec [.ins k v] (spec ops fun _ => none).1).1

/-- Erasing 1 leaves its key and value at the position the next insert takes. -/
def staleHist : List (Op Int Int) := [.ins 1 10, .ins 2 20, .del 1]

theorem staleHist_run (mv : Bool) : ∃ t bs, run staleHist (EStore.empty (cEx mv) 4) = .ok (some (⟨t, []⟩, bs)) ∧
    Room t 3 ∧ ∃ t', crashInsertAny t 3 30 [false, false, true] = .ok t' ∧ t'.lookup 1 = .ok (some 10) := by
  cases mv
  all_goals
    refine ⟨_, _, rfl, ?_, _, rfl, by decide +kernel⟩
    intro id x h1 h2
    cases Res.ok.inj h1
    cases Option.some.inj h2
    exact ⟨3, by decide, by decide +kernel⟩

/-- C77 is false in both files: if only the bit of the insert of 3 has become persistent, the erased key 1 is
back. -/
theorem C77_refuted (mv : Bool) : ¬ C77_statement 3 4 mv := by
  intro h
  obtain ⟨t, bs, e, hr, t', e', hl⟩ := staleHist_run mv
  obtain ⟨t2, e2, hb⟩ := h (fun _ => 0) (fun _ => 0) staleHist 3 30 [false, false, true] (by decide) (by decide)
    (by cases mv <;> decide +kernel) rfl t bs e hr
  rw [e'] at e2
  cases Res.ok.inj e2
  rcases hb with hb | hb
  · have := hb 1 (by decide)
    rw [hl] at this
    revert this; decide
  · have := hb 1 (by decide)
    rw [hl] at this
    revert this; decide

/-- C77 for the subsets without the bit, in any order, and for the complete set: it is the order
"key and value before the bit" that makes the insert atomic.  Missing: the subsets with the bit but without the key or
without the value, for which the claim is false (`C77_refuted`). -/
theorem C77_partial (F : Laws c adm) (hM : 2 ≤ M) (hm : c.move = false → M % 64 ≠ 0) (hN : 2 ≤ c.N) (hN64 : c.N % 64 ≠ 0)
    (ops : List (Op K V)) (ha : ∀ o ∈ ops, adm o.key) (hc : calm ops (EStore.empty c M) = true) (k : K) (hk : adm k) (v : V)
    (hnew : (spec ops fun _ => none).1 k = none) (mk mv mb : Bool) (hmask : mb = true → mk = true ∧ mv = true) :
    ∃ t, run ops (EStore.empty c M) = .ok (some (⟨t, []⟩, (spec ops fun _ => none).2)) ∧
      (Room t k → ∃ t', crashInsertAny t k v [mk, mv, mb] = .ok t' ∧
        ReadsOn adm t'.lookup (if mb then (spec [.ins k v] (spec ops fun _ => none).1).1
          else (spec ops fun _ => none).1)) := by
  obtain ⟨t, e, ht, hh⟩ := run_calm_tree F hM hm hN hN64 ops (Store.empty c M) (fun _ => none) (tok_empty c M)
    (fun k v => ⟨fun h => absurd h (has_empty k v), fun h => by cases h⟩) ha hc
  refine ⟨t, e, fun hr => ?_⟩
  obtain ⟨id, x, e1, e2, e3, e4, hput⟩ := putLeaf_law F ht hk
  have hno : ∀ w, ¬ Has x.leaf k w := by
    intro w hw
    have := (hh k w).1 ((e4 w).1 hw)
    rw [hnew] at this; cases this
  obtain ⟨p, ep, hp⟩ := pos_spec x.leaf k
  obtain ⟨h1, _⟩ : p = M ∧ ∀ v, ¬ Has x.leaf k v := hp.resolve_left (fun hp => hno _ ⟨p, hp.1, hp.2.1, hp.2.2, rfl⟩)
  obtain ⟨hu, hb⟩ := free_of_zero (hr id x e1 e2)
  have ews : insertWrites x.leaf k v = .ok [.key x.leaf.bits.getFreeZero k, .val x.leaf.bits.getFreeZero v,
      .set x.leaf.bits.getFreeZero] := by
    unfold insertWrites
    rw [ep, Res.ok_bind, if_neg (by omega)]
    simp only
    rw [Res.assert_pos hu]; rfl
  have hci : ∀ l, applyWrites x.leaf ((([BWrite.key x.leaf.bits.getFreeZero k, .val x.leaf.bits.getFreeZero v,
      .set x.leaf.bits.getFreeZero].zip [mk, mv, mb]).filter (·.2)).map (·.1)) = .ok l →
      crashInsertAny t k v [mk, mv, mb] = .ok (putLeaf t id x l) := by
    intro l hl
    unfold crashInsertAny
    rw [e1, Res.ok_bind, e2, Res.ofOption_some, Res.ok_bind, ews, Res.ok_bind, hl]; rfl
  cases mb with
  | true =>
    obtain ⟨rfl, rfl⟩ := hmask rfl
    obtain ⟨ws, N, f1, f2, _, f3, _⟩ := leaf_insert_crash (c := c) e3 v (Or.inr (hr id x e1 e2))
    obtain ⟨l, g1, g2, _, g4⟩ := f3 3
    rw [ews] at f1
    cases Res.ok.inj f1
    have g4 := g4 f2
    refine ⟨_, hci l g1, ?_⟩
    obtain ⟨p1, p2⟩ := hput l g2 (fun y w hy => by rw [g4]; unfold Ups; simp [hy])
    refine reads_of_has F p1 (fun y w => ?_)
    rw [p2, g4]
    unfold Ups
    rw [if_pos rfl]
    show _ ↔ (if y = k then some v else _) = some w
    by_cases hy : y = k
    · subst hy; simp [eq_comm]
    · simp [hy, hh]
  | false =>
    rw [if_neg (by decide)]
    suffices hs : ∃ l, applyWrites x.leaf ((([BWrite.key x.leaf.bits.getFreeZero k, .val x.leaf.bits.getFreeZero v,
        .set x.leaf.bits.getFreeZero].zip [mk, mv, false]).filter (·.2)).map (·.1)) = .ok l ∧ LOk l ∧
        ∀ y w, Has l y w ↔ Has x.leaf y w by
      obtain ⟨l, g1, g2, g3⟩ := hs
      refine ⟨_, hci l g1, ?_⟩
      obtain ⟨p1, p2⟩ := hput l g2 (fun y w _ => g3 y w)
      refine reads_of_has F p1 (fun y w => ?_)
      rw [p2, ← hh]
      by_cases hy : y = k
      · subst hy; simp [g3, e4]
      · simp [hy]
    cases mk <;> cases mv
    · exact ⟨x.leaf, rfl, e3, fun _ _ => Iff.rfl⟩
    · have f := has_free (l := x.leaf) (l' := { x.leaf with vals := upd x.leaf.vals x.leaf.bits.getFreeZero v }) rfl hb
        (fun p _ => rfl) (fun p hp => by simp [upd, hp]) e3
      exact ⟨_, by simp only [List.zip, List.zipWith, List.filter, List.map, applyWrites]; rw [val_ok hu]; rfl, f⟩
    · have f := has_free (l := x.leaf) (l' := { x.leaf with keys := upd x.leaf.keys x.leaf.bits.getFreeZero k }) rfl hb
        (fun p hp => by simp [upd, hp]) (fun p _ => rfl) e3
      exact ⟨_, by simp only [List.zip, List.zipWith, List.filter, List.map, applyWrites]; rw [key_ok hu]; rfl, f⟩
    · have f := has_free (l := x.leaf) (l' := { x.leaf with keys := upd x.leaf.keys x.leaf.bits.getFreeZero k, vals := upd x.leaf.vals x.leaf.bits.getFreeZero v }) rfl hb
        (fun p hp => by simp [upd, hp]) (fun p hp => by simp [upd, hp]) e3
      exact ⟨_, by simp only [List.zip, List.zipWith, List.filter, List.map, applyWrites]; rw [key_ok hu, Res.ok_bind, val_ok hu]; rfl, f⟩

/-- The hypotheses can be met. -/
example : calm staleHist (EStore.empty (cEx true) 4) = true ∧ ((spec staleHist fun _ => none).1 3 = none) ∧
    ∃ t bs, run staleHist (EStore.empty (cEx true) 4) = .ok (some (⟨t, []⟩, bs)) ∧ Room t 3 :=
  ⟨by decide +kernel, by decide, by
    obtain ⟨t, bs, e, hr, _⟩ := staleHist_run true
    exact ⟨t, bs, e, hr⟩⟩

end Verif.BitTree
