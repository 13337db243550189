import Verif.BTree.InsertCrashProps
import Verif.Unsorted.Props

/-!
# C118: crashes on the branch levels of an insert into an UnsortedPBPTree

`insertInBranchNode` and `splitBranchNode` (UnsortedPBPTree.hpp:1027-1117) and the part of `insert` for a new root (218-244) make
the assignments of `PBPTree` in the same order, so `BTree.insertAt` is the model here too.  The search in a branch node is linear
(`lookupPositionInBranchNode`, 1152-1159), so that it is settled for every key, also for separators a node holds twice, whether it
is found.
-/

namespace Verif.UnsortedProps

open Verif BTree MapSpec Assoc CrashSpec Unsorted FPTreeProps

variable {V : Type} {N M : Nat}

/-- `UnsortedPBPTree<int, V, N, M>` with the garbage `jk`, `jv` in new leaves. -/
abbrev UT (N M : Nat) (jk : Nat → Int) (jv : Nat → V) : Ops Int V (ULeaf Int V) := uOps (cfgInt N M jk jv)

theorem ut_exact (N M : Nat) (jk : Nat → Int) (jv : Nat → V) : ExactSearch (UT N M jk jv) := exactSearch_linear rfl

/-- C118 in full: after a crash at any point of the branch levels of an insert the tree can be used, and every lookup gives the
value before or the value after the insert. -/
def C118_statement (V : Type) (N M : Nat) (jk : Nat → Int) (jv : Nat → V) : Prop :=
  ∀ ops : List (Op Int V), InsertsOnly ops → NonNeg ops → ∀ bs s, runs N M jk jv ops = .ok (bs, s) → ∀ k v j t, 0 ≤ k ∧ k < 2 ^ 31 →
    ∃ s', insertAt (UT N M jk jv) s k v j t = .ok (.tree s') ∧
      ∀ x, lookup (UT N M jk jv) s' x = .ok (run empty ops x) ∨ lookup (UT N M jk jv) s' x = .ok (step (run empty ops) (.insert k v) x)

/-- What is known of a tree `s` that stores `m` for a crash after `t` changes at level `j` of the insert of `k`. -/
def BranchCrash (N M : Nat) (jk : Nat → Int) (jv : Nat → V) (s : State Int (ULeaf Int V)) (m : Int → Option V) (k : Int) (v : V) (j t : Nat) : Prop :=
  (MixedIns (UT N M jk jv) s k v j t → insertAt (UT N M jk jv) s k v j t = .ok .mixed) ∧
  (¬ MixedIns (UT N M jk jv) s k v j t → ∃ s', insertAt (UT N M jk jv) s k v j t = .ok (.tree s') ∧ ∀ x,
    (LostIns (UT N M jk jv) s k v j t x → lookup (UT N M jk jv) s' x = .ok none) ∧
    (¬ LostIns (UT N M jk jv) s k v j t x → lookup (UT N M jk jv) s' x = .ok (step m (.insert k v) x))) ∧
  (4 * N + 9 ≤ t → (j < s.depth → insertAt (UT N M jk jv) s k v j t = insertAt (UT N M jk jv) s k v (j + 1) 0) ∧
    (s.depth ≤ j → ∃ s', insert (UT N M jk jv) s k v = .ok s' ∧ insertAt (UT N M jk jv) s k v j t = .ok (.tree s')))

theorem branchCrash {bm : Nat} (hM : 2 ≤ M) (hN : 2 ≤ N) (hb : bm ≤ (N - 1) / 2) (jk : Nat → Int) (jv : Nat → V) {s : State Int (ULeaf Int V)}
    {m : Int → Option V} (g : Good (uLaws (ulaws_int N M jk jv) hM) (M / 2) bm 1 s) (h : Stores (uLaws (ulaws_int N M jk jv) hM) s m)
    (k : Int) (v : V) (hk : 0 ≤ k ∧ k < 2 ^ 31) (j t : Nat) : BranchCrash N M jk jv s m k v j t := by
  have hlm : M / 2 ≤ (uLaws (ulaws_int N M jk jv) hM).lmin := le_rfl
  have hbm : bm ≤ ((UT N M jk jv).N - 1) / 2 := hb
  have h2 : 2 ≤ (UT N M jk jv).N := hN
  have hf : ∀ x, find x (upsert k v (cont (uLaws (ulaws_int N M jk jv) hM) s)) = step m (.insert k v) x := by
    intro x
    rw [find_upsert, h x]
    rfl
  obtain ⟨m1, m2⟩ := insertAt_lookup hlm hbm h2 le_rfl (ut_exact N M jk jv).dup g k v hk j t
  refine ⟨m1, fun hm => ?_, fun ht => ?_⟩
  · obtain ⟨s', e1, hall⟩ := m2 hm
    refine ⟨s', e1, fun x => ?_⟩
    have := (hall x).2 (Or.inl (ut_exact N M jk jv))
    rw [hf x] at this
    exact this
  · obtain ⟨n1, n2⟩ := insertAt_next hlm hbm h2 g k v hk (j := j) (q := t) ht
    refine ⟨n1, fun hj => ?_⟩
    obtain ⟨s', e1, _, _⟩ := insert_good hlm hbm h2 le_rfl g k v hk
    refine ⟨s', e1, (n2 hj).trans ?_⟩
    rw [e1]; rfl

/-- C118 after inserts: unless the crash is between the assignments to `rootNode` and `depth`, the lookups of the keys in
`LostIns` give nothing and all others the value after the insert.  The last crash point of a level is the first of the next one,
the last one of all is the completed insert.
Missing: the lost keys, and the tree that takes a branch node for a leaf (`C118_refuted`, `C118_refuted_mixed`). -/
theorem C118_branch_crash_partial (hN : 3 ≤ N) (hM : 2 ≤ M) (jk : Nat → Int) (jv : Nat → V)
    (ops : List (Op Int V)) (ho : InsertsOnly ops) (ha : NonNeg ops) :
    ∃ bs s, runs N M jk jv ops = .ok (bs, s) ∧ ∀ k v j t, 0 ≤ k ∧ k < 2 ^ 31 → BranchCrash N M jk jv s (run empty ops) k v j t := by
  obtain ⟨bs, s, e, g, h⟩ := after_inserts hN hM jk jv ops ho ha
  exact ⟨bs, s, e, fun k v j t hk => branchCrash hM (by omega) le_rfl jk jv g h k v hk j t⟩

/-- C118 also after erases that free no leaf in use. -/
theorem C118_after_erases_partial (q : Nat) (hN : N = 2 * q) (hq : 3 ≤ q) (hM : 2 ≤ M) (jk : Nat → Int)
    (jv : Nat → V) (ops : List (Op Int V)) (ha : NonNeg ops) (ho : ErasesPresent empty ops)
    (hs : NoEarlyFree (cfgInt N M jk jv) (init (uOps (cfgInt N M jk jv))) ops) :
    ∃ s, runs N M jk jv ops = .ok (outs empty ops, s) ∧ ∀ k v j t, 0 ≤ k ∧ k < 2 ^ 31 → BranchCrash N M jk jv s (run empty ops) k v j t := by
  obtain ⟨s, e, g, h⟩ := Unsorted.safe_history (ulaws_int N M jk jv) hM hN hq ops _ empty
    (init_good _ _ _ _).1 (init_stores _) ha (NoEarlyFree.safe ops _ _ hs ho)
  exact ⟨s, e, fun k v j t hk => branchCrash hM (by omega) (by omega) jk jv g h k v hk j t⟩

/-- Whenever a branch node with free space gets a separator before its last one, the second change loses all keys of its last
child, however many there are. -/
theorem C118_last_child (hN : 3 ≤ N) (hM : 2 ≤ M) (jk : Nat → Int) (jv : Nat → V)
    (ops : List (Op Int V)) (ho : InsertsOnly ops) (ha : NonNeg ops) :
    ∃ bs s, runs N M jk jv ops = .ok (bs, s) ∧ ∀ k v j x, 0 ≤ k ∧ k < 2 ^ 31 → LastChild (UT N M jk jv) s k v j x →
      ∃ s', insertAt (UT N M jk jv) s k v j 2 = .ok (.tree s') ∧ lookup (UT N M jk jv) s' x = .ok none := by
  obtain ⟨bs, s, e, hall⟩ := C118_branch_crash_partial hN hM jk jv ops ho ha
  refine ⟨bs, s, e, fun k v j x hk hL => ?_⟩
  obtain ⟨s', e1, hx⟩ := (hall k v j 2 hk).2.1 (fun hm => absurd hm.2.1 (by omega))
  exact ⟨s', e1, (hx x).1 hL.lost⟩

/-- Nine inserts: a root with two separators over the leaves 10 15 16 20, 30 40 and 50 60 70. -/
def threeLeavesU : List (Op Int Nat) :=
  [.insert 10 1, .insert 20 2, .insert 30 3, .insert 40 4, .insert 50 5, .insert 60 6, .insert 70 7, .insert 15 8, .insert 16 9]

/-- A lookup after `threeLeavesU` and a crash after `t` changes at level `j` of the insert of key 17. -/
def branchExU (j t : Nat) (x : Int) : Res (Option Nat) := do
  let r ← runs 6 4 (fun _ => 0) (fun _ => 0) threeLeavesU
  let l ← insertAt (UT 6 4 (fun _ => 0) (fun _ => 0)) r.2 17 99 j t
  match l with
  | .tree s => lookup (UT 6 4 (fun _ => 0) (fun _ => 0)) s x
  | .mixed => .ub

/-- The lookups of all keys after `t` changes in the root. -/
def branchKeysU (t : Nat) : List (Res (Option Nat)) := [10, 16, 17, 20, 30, 40, 50, 70].map (branchExU 0 t)

/-- As for `PBPTree`, but key 30 is found after the fifth change though the root holds it twice. -/
example : (List.range 10).map branchKeysU =
    [[.ok (some 1), .ok none, .ok none, .ok none, .ok (some 3), .ok (some 4), .ok (some 5), .ok (some 7)],
     [.ok (some 1), .ok none, .ok none, .ok none, .ok (some 3), .ok (some 4), .ok (some 5), .ok (some 7)],
     [.ok (some 1), .ok none, .ok none, .ok none, .ok (some 3), .ok (some 4), .ok none, .ok none],
     [.ok (some 1), .ok none, .ok none, .ok none, .ok (some 3), .ok (some 4), .ok none, .ok none],
     [.ok (some 1), .ok none, .ok none, .ok none, .ok none, .ok none, .ok none, .ok none],
     [.ok (some 1), .ok none, .ok none, .ok none, .ok (some 3), .ok (some 4), .ok none, .ok none],
     [.ok (some 1), .ok none, .ok none, .ok none, .ok (some 3), .ok (some 4), .ok none, .ok none],
     [.ok (some 1), .ok none, .ok none, .ok none, .ok (some 3), .ok (some 4), .ok none, .ok none],
     [.ok (some 1), .ok (some 9), .ok (some 99), .ok (some 2), .ok (some 3), .ok (some 4), .ok none, .ok none],
     [.ok (some 1), .ok (some 9), .ok (some 99), .ok (some 2), .ok (some 3), .ok (some 4), .ok (some 5), .ok (some 7)]] := by
  decide +kernel

/-- The hypotheses can be met. -/
theorem threeLeavesU_inserts : InsertsOnly threeLeavesU ∧ NonNeg threeLeavesU := by
  constructor
  · intro op h
    simp only [threeLeavesU, List.mem_cons, List.not_mem_nil, or_false] at h
    rcases h with rfl | rfl | rfl | rfl | rfl | rfl | rfl | rfl | rfl <;> exact ⟨_, _, rfl⟩
  · intro k v h
    simp only [threeLeavesU, List.mem_cons, Op.insert.injEq, List.not_mem_nil, or_false] at h
    omega

/-- The hypotheses of `C118_last_child` can be met: key 50 is in the last child of the root, key 17 goes to the first one. -/
example : ∃ bs s, runs 6 4 (fun _ => 0) (fun _ => 0) threeLeavesU = .ok (bs, s) ∧ LastChild (UT 6 4 (fun _ => 0) (fun _ => 0)) s 17 99 0 50 := by
  obtain ⟨bs, s, e, _⟩ := C118_branch_crash_partial (N := 6) (M := 4) (by omega) (by omega) (fun _ => 0) (fun _ => 0) threeLeavesU
    threeLeavesU_inserts.1 threeLeavesU_inserts.2
  refine ⟨bs, s, e, ?_⟩
  have hd : (runs 6 4 (fun _ => 0) (fun _ => 0) threeLeavesU >>= fun r => pure (decide (0 < r.2.depth) &&
      atHostB (UT 6 4 (fun _ => 0) (fun _ => 0)) (fun _ n pos sep => decide (n.num < 6 ∧ pos < n.num ∧ sep ≤ 50) &&
        (List.range n.num).all (fun i => match n.keys i with | some y => decide (y ≤ 50) | none => false))
        17 99 0 50 r.2.depth r.2.heap r.2.root)) = .ok true := by decide +kernel
  rw [e, Res.ok_bind] at hd
  have hd := Res.ok.inj hd
  rw [Bool.and_eq_true, atHostB_iff] at hd
  obtain ⟨h1, h2⟩ := hd
  refine ⟨of_decide_eq_true h1, AtHost.mono (fun e n pos sep hp => ?_) h2⟩
  simp only [Bool.and_eq_true, decide_eq_true_eq, List.all_eq_true, List.mem_range] at hp
  obtain ⟨⟨a1, a2, a3⟩, a4⟩ := hp
  refine ⟨a1, a2, a3, fun i hi => ?_⟩
  have := a4 i hi
  cases hk : n.keys i with
  | none => rw [hk] at this; cases this
  | some y => rw [hk] at this; exact ⟨y, rfl, of_decide_eq_true this⟩

/-- C118 is false for `UnsortedPBPTree<int, V, 6, 4>`: key 50 is lost. -/
theorem C118_refuted : ¬ C118_statement Nat 6 4 (fun _ => 0) (fun _ => 0) := by
  intro h
  have hd : branchExU 0 2 50 = .ok none := by decide +kernel
  unfold branchExU at hd
  obtain ⟨r, e, hd⟩ := Res.bind_eq_ok.1 hd
  obtain ⟨s', e', hall⟩ := h threeLeavesU threeLeavesU_inserts.1 threeLeavesU_inserts.2 r.1 r.2 e 17 99 0 2 (by omega)
  rw [e', Res.ok_bind] at hd
  have := hall 50
  change lookup (UT 6 4 (fun _ => 0) (fun _ => 0)) s' 50 = .ok none at hd
  rw [hd] at this
  revert this
  decide +kernel

/-- After the sixth of the seven changes for a new root the tree takes this root for a leaf. -/
theorem C118_refuted_mixed : (runs 6 4 (fun _ => 0) (fun _ => 0) (threeLeavesU.take 4) >>= fun r =>
    insertAt (UT 6 4 (fun _ => 0) (fun _ => 0)) r.2 50 5 0 6) = .ok .mixed := by
  have hd : (runs 6 4 (fun _ => 0) (fun _ => 0) (threeLeavesU.take 4) >>= fun r =>
    insertAt (UT 6 4 (fun _ => 0) (fun _ => 0)) r.2 50 5 0 6 >>= fun l =>
    match l with | .tree _ => pure true | .mixed => pure false) = .ok false := by decide +kernel
  obtain ⟨r, e, hd⟩ := Res.bind_eq_ok.1 hd
  obtain ⟨l, e', hd⟩ := Res.bind_eq_ok.1 hd
  rw [e, Res.ok_bind, e']
  cases l with
  | tree s => cases Res.ok.inj hd
  | mixed => rfl

end Verif.UnsortedProps
