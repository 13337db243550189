import Verif.BTree.SortedCrash
import Verif.BTree.Props
import Verif.CrashSpec

/-!
# Property theorems for crashes in the leaf operations of PBPTree (C75, C76)

The specification is `Verif.MapSpec` and `Verif.CrashSpec`.
-/

set_option linter.unusedSectionVars false

namespace Verif.BTreeProps

open Verif BTree MapSpec CrashSpec

variable {K V : Type} [LinearOrder K]

/-! ## C75 -/

/-- C75 in full: a crash anywhere in the insert of a key into a leaf with free space leaves the map before
or the map after the insert. -/
def C75_statement (N M : Nat) : Prop :=
  ∀ (ops : List (Op Nat Nat)) (k v n : Nat), ErasesPresent empty ops →
    ∀ bs s, execAll (PB N M) (init (PB N M)) ops = .ok (bs, s) → Room (pbCfg N M) s k →
    ∃ s', crashInsert (pbCfg N M) s k v n = .ok s' ∧
      BeforeOrAfter (lookup (PB N M) s') (run empty ops) (step (run empty ops) (.insert k v))

/-- Three keys in a leaf with four slots. -/
def threeKeys : List (Op Nat Nat) := [.insert 10 1, .insert 20 2, .insert 30 3]

theorem threeKeys_erases : ErasesPresent empty threeKeys := trivial

/-- The state after inserting `threeKeys`. -/
theorem threeKeys_run : ∃ bs s, execAll (PB 6 4 : Ops Nat Nat _) (init (PB 6 4)) threeKeys = .ok (bs, s) ∧
    ∃ id l, s.depth = 0 ∧ findLeaf (PB 6 4 : Ops Nat Nat _) s.depth s.root 5 = .ok id ∧ s.heap.data id = some l ∧ l.num = 3 := by
  refine ⟨_, _, rfl, _, _, rfl, rfl, rfl, rfl⟩

theorem threeKeys_room {s : State Nat (SLeaf Nat Nat)} {bs : List Bool}
    (e : execAll (PB 6 4 : Ops Nat Nat _) (init (PB 6 4)) threeKeys = .ok (bs, s)) (k : Nat) : Room (pbCfg 6 4) s k := by
  obtain ⟨bs', s', e', id, l, hd, _, hl, hn⟩ := threeKeys_run
  rw [e] at e'
  cases Res.ok.inj e'
  obtain ⟨d, t, h⟩ := s
  dsimp only at hd
  subst hd
  intro id' l' h1 h2
  rename_i h3
  have e1 : t = id := Res.ok.inj h3
  have e2 : t = id' := Res.ok.inj h1
  have : id = id' := e1.symm.trans e2
  subst this
  have h2 : h.data id = some l' := h2
  have hl : h.data id = some l := hl
  rw [hl] at h2
  injection h2 with h2
  subst h2
  show l.num < 4
  omega

/-- C75 is false: a crash after the third assignment of the insert of 5 loses the key 30. -/
theorem C75_refuted : ¬ C75_statement 6 4 := by
  intro h
  have hd : (execAll (PB 6 4 : Ops Nat Nat _) (init (PB 6 4)) threeKeys >>= fun r =>
      crashInsert (pbCfg 6 4) r.2 5 9 3 >>= fun s' => lookup (PB 6 4) s' 30) = .ok none := by decide +kernel
  obtain ⟨r, e, hd⟩ := Res.bind_eq_ok.1 hd
  obtain ⟨s', e', hd⟩ := Res.bind_eq_ok.1 hd
  obtain ⟨s2, e2, hb⟩ := h threeKeys 5 9 3 threeKeys_erases r.1 r.2 e (threeKeys_room e 5)
  rw [e'] at e2
  cases Res.ok.inj e2
  rcases hb with hb | hb
  · have := hb 30
    rw [hd] at this
    revert this; decide
  · have := hb 30
    rw [hd] at this
    revert this; decide

/-- A crash after the seventh assignment gives 20 the value of 30 in a leaf with five keys. -/
theorem C75_refuted_wrong_value :
    (execAll (PB 6 8 : Ops Nat Nat _) (init (PB 6 8)) [.insert 10 1, .insert 20 2, .insert 30 3, .insert 40 4, .insert 50 5]
      >>= fun r => crashInsert (pbCfg 6 8) r.2 5 9 7 >>= fun s' => lookup (PB 6 8) s' 20) = .ok (some 3) := by
  decide +kernel

/-- And the new key can have the value of another key. -/
theorem C75_refuted_new_key :
    (execAll (PB 6 4 : Ops Nat Nat _) (init (PB 6 4)) threeKeys >>= fun r =>
      crashInsert (pbCfg 6 4) r.2 5 9 7 >>= fun s' => lookup (PB 6 4) s' 5) = .ok (some 1) := by
  decide +kernel

/-- C75, all crash points.  An update of a stored key is atomic.  For a new key there are a number `r` (of the
larger keys in the leaf) and a stored key `z > k` (the largest key of the leaf) such that the state is
the one before the insert up to the second assignment and the one after the insert from assignment
`2 * r + 3` on; in particular the insert is atomic if `r = 0`.  In between `z` is lost; up to one other key can have
the value of a larger key, and the new key is absent, has the value of another key, or has its value.
Missing: atomicity if the leaf has keys larger than the new one, for which the claim is false
(`C75_refuted`). -/
theorem C75_partial (N M q : Nat) (hN : N = 2 * q) (hq : 3 ≤ q) (hM : 2 ≤ M) (ops : List (Op K V))
    (ho : ErasesPresent empty ops) (k : K) (v : V) :
    ∃ s, execAll (PB N M) (init (PB N M)) ops = .ok (outs empty ops, s) ∧
      (run empty ops k ≠ none → ∀ n, ∃ s', crashInsert (pbCfg N M) s k v n = .ok s' ∧
        Reads (lookup (PB N M) s') (if n = 0 then run empty ops else step (run empty ops) (.insert k v))) ∧
      (run empty ops k = none → Room (pbCfg N M) s k →
        ∃ (r : Nat) (z : K), (0 < r → k < z ∧ run empty ops z ≠ none) ∧
        ∀ t, ∃ s', crashInsert (pbCfg N M) s k v t = .ok s' ∧
          (t ≤ 2 → Reads (lookup (PB N M) s') (run empty ops)) ∧
          (2 * r + 3 ≤ t → Reads (lookup (PB N M) s') (step (run empty ops) (.insert k v))) ∧
          (3 ≤ t → t < 2 * r + 3 →
            lookup (PB N M) s' z = .ok none ∧
            (t ≤ 2 * r → lookup (PB N M) s' k = .ok none) ∧
            (t = 2 * r + 1 → ∃ y, k < y ∧ run empty ops y ≠ none ∧ lookup (PB N M) s' k = .ok (run empty ops y)) ∧
            (t = 2 * r + 2 → lookup (PB N M) s' k = .ok (some v)) ∧
            ∃ x0, ∀ x, x ≠ k → x ≠ z → lookup (PB N M) s' x = .ok (run empty ops x) ∨
              (t % 2 = 1 ∧ t < 2 * r ∧ x = x0 ∧
                ∃ y, x0 < y ∧ run empty ops y ≠ none ∧ lookup (PB N M) s' x = .ok (run empty ops y)))) ∧
      (run empty ops k ≠ none ∨ Room (pbCfg N M) s k →
        ∃ n0 s', insert (PB N M) s k v = .ok s' ∧ ∀ n, n0 ≤ n → crashInsert (pbCfg N M) s k v n = .ok s') := by
  have C := pbLaws (K := K) (V := V) (N := N) hM
  obtain ⟨s, e, g, h⟩ := after_history C hN hq ops ho
  refine ⟨s, e, ?_, ?_, ?_⟩
  · intro hk n
    obtain ⟨s', e', hl⟩ := crashInsert_present C g h v hk n
    refine ⟨s', e', fun x => ?_⟩
    refine (hl x).trans ?_
    by_cases hn : n = 0
    · rw [if_pos hn, if_neg (by omega)]
    · rw [if_neg hn]
      simp only [step]
      by_cases hx : x = k
      · rw [if_pos ⟨hx, by omega⟩, if_pos hx]
      · rw [if_neg (fun hc => hx hc.1), if_neg hx]
  · intro hk hr
    exact crashInsert_new C (pb_wsearch N M) g h v hk hr
  · intro hr
    refine crashInsert_end C g v (hr.imp ?_ id)
    intro hk
    rw [h k]; exact hk

/-- The hypotheses can be met: a leaf with room and two larger keys. -/
example : ErasesPresent empty threeKeys ∧ run empty threeKeys 15 = none ∧
    (∀ bs s, execAll (PB 6 4 : Ops Nat Nat _) (init (PB 6 4)) threeKeys = .ok (bs, s) → Room (pbCfg 6 4) s 15) :=
  ⟨threeKeys_erases, by decide, fun _ _ e => threeKeys_room e 15⟩

/-! ## C76 -/

/-- C76 in full: a crash anywhere in the removal of a stored key from its leaf leaves the map before or the
map after the erase. -/
def C76_statement (N M : Nat) : Prop :=
  ∀ (ops : List (Op Nat Nat)) (k n : Nat), ErasesPresent empty ops → run empty ops k ≠ none →
    ∀ bs s, execAll (PB N M) (init (PB N M)) ops = .ok (bs, s) →
    ∃ s', crashErase (pbCfg N M) s k n = .ok s' ∧
      BeforeOrAfter (lookup (PB N M) s') (run empty ops) (step (run empty ops) (.erase k))

/-- C76 is false: a crash after the first assignment of the erase of 10 gives 20 the value of 10. -/
theorem C76_refuted : ¬ C76_statement 6 4 := by
  intro h
  have hd : (execAll (PB 6 4 : Ops Nat Nat _) (init (PB 6 4)) [.insert 10 1, .insert 20 2] >>= fun r =>
      crashErase (pbCfg 6 4) r.2 10 1 >>= fun s' => lookup (PB 6 4) s' 20) = .ok (some 1) := by decide +kernel
  obtain ⟨r, e, hd⟩ := Res.bind_eq_ok.1 hd
  obtain ⟨s', e', hd⟩ := Res.bind_eq_ok.1 hd
  obtain ⟨s2, e2, hb⟩ := h [.insert 10 1, .insert 20 2] 10 1 trivial (by decide) r.1 r.2 e
  rw [e'] at e2
  cases Res.ok.inj e2
  rcases hb with hb | hb
  · have := hb 20
    rw [hd] at this
    revert this; decide
  · have := hb 20
    rw [hd] at this
    revert this; decide

/-- Even where all lookups are right, the leaf can hold a key twice: after the crash an erase of 20 succeeds
and 20 is still there. -/
theorem C76_refuted_duplicate :
    (execAll (PB 6 4 : Ops Nat Nat _) (init (PB 6 4)) threeKeys >>= fun r =>
      crashErase (pbCfg 6 4) r.2 10 2 >>= fun s1 => erase (PB 6 4) s1 20 >>= fun r2 =>
      lookup (PB 6 4) r2.2 20 >>= fun x => pure (r2.1, x)) = .ok (true, some 2) := by
  decide +kernel

/-- C76, all crash points: the erased key is gone after the first assignment, and every other key keeps its value,
except that after an odd number of assignments (less than twice the number `r` of larger keys in the leaf)
one larger key can have the value of a smaller key.  From assignment `2 * r + 1` on the removal is complete.
Missing: the right value of that key, for which the claim is false (`C76_refuted`). -/
theorem C76_partial (N M q : Nat) (hN : N = 2 * q) (hq : 3 ≤ q) (hM : 2 ≤ M) (ops : List (Op K V))
    (ho : ErasesPresent empty ops) (k : K) (hk : run empty ops k ≠ none) :
    ∃ s, execAll (PB N M) (init (PB N M)) ops = .ok (outs empty ops, s) ∧
      ∃ (r id : Nat) (h' : Heap (SLeaf K V)), findLeaf (PB N M : Ops K V _) s.depth s.root k = .ok id ∧
        eraseLeaf (PB N M) s.heap id k = .ok (true, h') ∧
        ∀ t, ∃ s', crashErase (pbCfg N M) s k t = .ok s' ∧
          (2 * r + 1 ≤ t → s' = ⟨s.depth, s.root, h'⟩) ∧
          (t = 0 → Reads (lookup (PB N M) s') (run empty ops)) ∧
          (1 ≤ t → lookup (PB N M) s' k = .ok none) ∧
          ∃ x0, ∀ x, x ≠ k → lookup (PB N M) s' x = .ok (run empty ops x) ∨
            (t % 2 = 1 ∧ t < 2 * r ∧ x = x0 ∧
              ∃ y, y < x0 ∧ run empty ops y ≠ none ∧ lookup (PB N M) s' x = .ok (run empty ops y)) := by
  have C := pbLaws (K := K) (V := V) (N := N) hM
  obtain ⟨s, e, g, h⟩ := after_history C hN hq ops ho
  exact ⟨s, e, crashErase_spec C (pb_wsearch N M) g h hk⟩

/-- C76 at even crash points: all lookups are those after the erase. -/
theorem C76_even_partial (N M q : Nat) (hN : N = 2 * q) (hq : 3 ≤ q) (hM : 2 ≤ M) (ops : List (Op K V))
    (ho : ErasesPresent empty ops) (k : K) (hk : run empty ops k ≠ none) (t : Nat) (ht : t % 2 = 0) :
    ∃ s s', execAll (PB N M) (init (PB N M)) ops = .ok (outs empty ops, s) ∧
      crashErase (pbCfg N M) s k t = .ok s' ∧
      BeforeOrAfter (lookup (PB N M) s') (run empty ops) (step (run empty ops) (.erase k)) := by
  obtain ⟨s, e, r, id, h', _, _, hall⟩ := C76_partial N M q hN hq hM ops ho k hk
  obtain ⟨s', e', _, h0, h1, x0, h2⟩ := hall t
  refine ⟨s, s', e, e', ?_⟩
  by_cases h : t = 0
  · exact Or.inl (h0 h)
  · right
    intro x
    simp only [step]
    by_cases hx : x = k
    · subst hx
      rw [if_pos rfl]; exact h1 (by omega)
    · rw [if_neg hx]
      rcases h2 x hx with hh | ⟨hh, _⟩
      · exact hh
      · omega

/-- The hypotheses can be met. -/
example : ErasesPresent empty threeKeys ∧ run empty threeKeys 20 ≠ none := ⟨threeKeys_erases, by decide⟩

end Verif.BTreeProps
