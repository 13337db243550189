import Verif.Unsorted.Crash
import Verif.Unsorted.Props
import Verif.CrashSpec

/-!
# Property theorems for crashes in the leaf operations of UnsortedPBPTree (C73, C74)

The specification is `Verif.MapSpec` and `Verif.CrashSpec`.
-/

namespace Verif.UnsortedProps

open Verif BTree Unsorted MapSpec CrashSpec Assoc FPTreeProps

variable {V : Type} {N M : Nat}

/-! ## C73 -/

/-- The common part: crashes of an insert in a tree that stores the map `m`. -/
theorem insert_atomic (hM : 2 ≤ M) (jk : Nat → Int) (jv : Nat → V) {lm bm rm : Nat}
    {s : State Int (ULeaf Int V)} (g : Good (uLaws (ulaws_int N M jk jv) hM) lm bm rm s) {m : Int → Option V}
    (h : Stores (uLaws (ulaws_int N M jk jv) hM) s m) {k : Int} (hk : 0 ≤ k ∧ k < 2 ^ 31) (v : V)
    (hr : m k ≠ none ∨ Unsorted.Room (cfgInt N M jk jv) s k) :
    (∀ n, ∃ s', Unsorted.crashInsert (cfgInt N M jk jv) s k v n = .ok s' ∧
      BeforeOrAfter (lookup (uOps (cfgInt N M jk jv)) s') m (step m (.insert k v))) ∧
    ∃ s', Unsorted.crashInsert (cfgInt N M jk jv) s k v 3 = .ok s' ∧
      BTree.insert (uOps (cfgInt N M jk jv)) s k v = .ok s' := by
  obtain ⟨h1, h2⟩ := crashInsert_spec (ulaws_int N M jk jv) hM g (k := k) hk v
    (hr.imp (fun hh => by rw [h k]; exact hh) id)
  refine ⟨fun n => ?_, h2⟩
  obtain ⟨s', e, hh⟩ := h1 n
  refine ⟨s', e, hh.imp (fun hh x => ?_) (fun hh x => ?_)⟩
  · rw [hh x, h x]
  · rw [hh x, h x]; rfl

/-- C73. After any sequence of inserts of non-negative keys: a crash after any number of the assignments of a
further insert that updates a stored key or finds a free slot in the leaf leaves the map before or the map after the
insert, and after the third assignment the insert is complete. -/
theorem C73_insert_crash (hN : 3 ≤ N) (hM : 2 ≤ M) (jk : Nat → Int) (jv : Nat → V)
    (ops : List (Op Int V)) (ho : InsertsOnly ops) (ha : NonNeg ops) (k : Int) (hk : 0 ≤ k ∧ k < 2 ^ 31) (v : V) :
    ∃ bs s, runs N M jk jv ops = .ok (bs, s) ∧
      (run empty ops k ≠ none ∨ Unsorted.Room (cfgInt N M jk jv) s k →
        (∀ n, ∃ s', Unsorted.crashInsert (cfgInt N M jk jv) s k v n = .ok s' ∧
          BeforeOrAfter (lookup (uOps (cfgInt N M jk jv)) s') (run empty ops)
            (step (run empty ops) (.insert k v))) ∧
        ∃ s', Unsorted.crashInsert (cfgInt N M jk jv) s k v 3 = .ok s' ∧
          BTree.insert (uOps (cfgInt N M jk jv)) s k v = .ok s') := by
  obtain ⟨bs, s, e, g, h⟩ := after_inserts hN hM jk jv ops ho ha
  exact ⟨bs, s, e, fun hr => insert_atomic hM jk jv g h hk v hr⟩

/-- C73 also after erases that free no leaf in use. -/
theorem C73_insert_crash_after_erases (q : Nat) (hN : N = 2 * q) (hq : 3 ≤ q) (hM : 2 ≤ M) (jk : Nat → Int)
    (jv : Nat → V) (ops : List (Op Int V)) (ha : NonNeg ops) (ho : ErasesPresent empty ops)
    (hs : NoEarlyFree (cfgInt N M jk jv) (init (uOps (cfgInt N M jk jv))) ops)
    (k : Int) (hk : 0 ≤ k ∧ k < 2 ^ 31) (v : V) :
    ∃ s, runs N M jk jv ops = .ok (outs empty ops, s) ∧
      (run empty ops k ≠ none ∨ Unsorted.Room (cfgInt N M jk jv) s k →
        (∀ n, ∃ s', Unsorted.crashInsert (cfgInt N M jk jv) s k v n = .ok s' ∧
          BeforeOrAfter (lookup (uOps (cfgInt N M jk jv)) s') (run empty ops)
            (step (run empty ops) (.insert k v))) ∧
        ∃ s', Unsorted.crashInsert (cfgInt N M jk jv) s k v 3 = .ok s' ∧
          BTree.insert (uOps (cfgInt N M jk jv)) s k v = .ok s') := by
  obtain ⟨s, e, g, h⟩ := Unsorted.safe_history (ulaws_int N M jk jv) hM hN hq ops _ empty
    (init_good _ _ _ _).1 (init_stores _) ha (NoEarlyFree.safe ops _ _ hs ho)
  exact ⟨s, e, fun hr => insert_atomic hM jk jv g h hk v hr⟩

/-- The inserts of the examples, one leaf with a free slot. -/
def threeInserts : List (Op Int Nat) := [.insert 7 7, .insert 2 2, .insert 9 9]

theorem threeInserts_only : InsertsOnly threeInserts := by
  intro op h
  simp only [threeInserts, List.mem_cons, List.not_mem_nil, or_false] at h
  rcases h with rfl | rfl | rfl <;> exact ⟨_, _, rfl⟩

set_option maxRecDepth 100000 in
/-- The hypotheses can be met: a key to be updated, and a new key for which the leaf has a slot; the lookups of
the new key at all crash points. -/
example : InsertsOnly threeInserts ∧ NonNeg threeInserts ∧ run empty threeInserts 2 ≠ none ∧
    (∀ bs s, runs 6 4 (fun _ => 0) (fun _ => 0) threeInserts = .ok (bs, s) → Unsorted.Room c4 s 5) ∧
    (runs 6 4 (fun _ => 0) (fun _ => 0) threeInserts >>= fun r =>
      (Unsorted.crashInsert c4 r.2 5 50 2 >>= fun s => lookup (uOps c4) s 5) >>= fun x =>
      (Unsorted.crashInsert c4 r.2 5 50 3 >>= fun s => lookup (uOps c4) s 5) >>= fun y =>
      pure (x, y)) = .ok (none, some 50) := by
  refine ⟨threeInserts_only, nonNeg_of_list (by decide), by decide, ?_, by decide +kernel⟩
  intro bs s e id l h1 h2
  obtain ⟨bs', s', e', id', l', f1, f2, f3⟩ : ∃ bs s, runs 6 4 (fun _ => 0) (fun _ => 0) threeInserts = .ok (bs, s) ∧
      ∃ id l, findLeaf (uOps c4) s.depth s.root 5 = .ok id ∧ s.heap.data id = some l ∧ l.num = 3 :=
    ⟨_, _, rfl, _, _, rfl, rfl, rfl⟩
  rw [e] at e'
  cases Res.ok.inj e'
  rw [h1] at f1
  cases Res.ok.inj f1
  rw [h2] at f2
  injection f2 with f2
  subst f2
  show l.num < 4
  omega

/-! ## C74 -/

/-- C74 in full: a crash anywhere in the removal of a stored key from its leaf leaves the map before or the map
after the erase. -/
def C74_statement (N M : Nat) (jk : Nat → Int) (jv : Nat → Nat) : Prop :=
  ∀ (ops : List (Op Int Nat)) (k : Int) (n : Nat), InsertsOnly ops → NonNeg ops → run empty ops k ≠ none →
    ∀ bs s, runs N M jk jv ops = .ok (bs, s) →
    ∃ s', Unsorted.crashErase (cfgInt N M jk jv) s k n = .ok s' ∧
      BeforeOrAfter (lookup (uOps (cfgInt N M jk jv)) s') (run empty ops) (step (run empty ops) (.erase k))

set_option maxRecDepth 100000 in
/-- C74 is false: a crash after the first assignment of the erase of 7 loses the key 9, and one after the
second assignment leaves 9 with the value of 7. -/
theorem C74_refuted : ¬ C74_statement 6 4 (fun _ => 0) (fun _ => 0) := by
  intro h
  have hd : (runs 6 4 (fun _ => 0) (fun _ => 0) threeInserts >>= fun r =>
      Unsorted.crashErase c4 r.2 7 1 >>= fun s' => lookup (uOps c4) s' 9) = .ok none := by decide +kernel
  obtain ⟨r, e, hd⟩ := Res.bind_eq_ok.1 hd
  obtain ⟨s', e', hd⟩ := Res.bind_eq_ok.1 hd
  obtain ⟨s2, e2, hb⟩ := h threeInserts 7 1 threeInserts_only (nonNeg_of_list (by decide)) (by decide) r.1 r.2 e
  rw [e'] at e2
  cases Res.ok.inj e2
  rcases hb with hb | hb
  · have := hb 9
    rw [hd] at this
    revert this; decide
  · have := hb 9
    rw [hd] at this
    revert this; decide

set_option maxRecDepth 100000 in
theorem C74_refuted_wrong_value : (runs 6 4 (fun _ => 0) (fun _ => 0) threeInserts >>= fun r =>
      Unsorted.crashErase c4 r.2 7 2 >>= fun s' => lookup (uOps c4) s' 9) = .ok (some 7) := by decide +kernel

/-- C74, all crash points exactly.  There is a stored key `z` (the last entry of the leaf) such that the erase
is atomic if `z = k`; otherwise `z` is lost after the first assignment, has the value of the erased key after the
second, and the erase is complete after the third.
Missing: atomicity if the erased key is not the last entry of its leaf, for which the claim is false
(`C74_refuted`). -/
theorem C74_partial (hN : 3 ≤ N) (hM : 2 ≤ M) (jk : Nat → Int) (jv : Nat → V)
    (ops : List (Op Int V)) (ho : InsertsOnly ops) (ha : NonNeg ops) (k : Int) (hk : run empty ops k ≠ none) :
    ∃ bs s, runs N M jk jv ops = .ok (bs, s) ∧ ∃ z, run empty ops z ≠ none ∧
      ∀ n, ∃ s', Unsorted.crashErase (cfgInt N M jk jv) s k n = .ok s' ∧
        (n = 0 → Reads (lookup (uOps (cfgInt N M jk jv)) s') (run empty ops)) ∧
        (1 ≤ n → z = k ∨ 3 ≤ n → Reads (lookup (uOps (cfgInt N M jk jv)) s') (step (run empty ops) (.erase k))) ∧
        (n = 1 → z ≠ k →
          Reads (lookup (uOps (cfgInt N M jk jv)) s') (step (run empty ops) (.erase z))) ∧
        (n = 2 → z ≠ k → ∃ v, run empty ops k = some v ∧
          Reads (lookup (uOps (cfgInt N M jk jv)) s') (step (step (run empty ops) (.erase k)) (.insert z v))) := by
  obtain ⟨bs, s, e, g, h⟩ := after_inserts hN hM jk jv ops ho ha
  obtain ⟨z, hz, hall⟩ := Unsorted.crashErase_spec (ulaws_int N M jk jv) hM g h hk
  refine ⟨bs, s, e, z, hz, fun n => ?_⟩
  obtain ⟨s', e', hl⟩ := hall n
  refine ⟨s', e', ?_, ?_, ?_, ?_⟩
  · intro hn x
    rw [hl x, if_pos hn]
  · intro hn hz x
    rw [hl x, if_neg (by omega), if_pos hz]; rfl
  · intro hn hz x
    rw [hl x, if_neg (by omega), if_neg (by omega), if_pos hn]; rfl
  · intro hn hz
    obtain ⟨v, hv⟩ := Option.ne_none_iff_exists'.1 hk
    refine ⟨v, hv, fun x => ?_⟩
    rw [hl x, if_neg (by omega), if_neg (by omega), if_neg (by omega), hv]; rfl

/-- The hypotheses can be met. -/
example : InsertsOnly threeInserts ∧ NonNeg threeInserts ∧ run empty threeInserts 7 ≠ none :=
  ⟨threeInserts_only, nonNeg_of_list (by decide), by decide⟩

end Verif.UnsortedProps
