import Verif.Unsorted.SplitCrash
import Verif.Unsorted.CrashProps

/-!
# Property theorems on crashes inside leaf splits of UnsortedPBPTree (C84)

The specification is `Verif.MapSpec` with `Verif.CrashSpec`.  A split moves entries and changes no mapping, so the lookups
after a crash should be those before the operation.
-/

namespace Verif.UnsortedProps

open Verif BTree Unsorted MapSpec CrashSpec Assoc FPTreeProps

variable {V : Type} {N M : Nat}

/-- The leaf responsible for `k` is `l`, stored at `id`, and has no free slot: an insert of a new key `k` splits it. -/
def FullLeaf (c : UCfg Int V) (s : State Int (ULeaf Int V)) (k : Int) (id : Nat) (l : ULeaf Int V) : Prop :=
  findLeaf (uOps c) s.depth s.root k = .ok id ∧ s.heap.data id = some l ∧ l.num = c.M

/-- C84 in full: a crash at any point of a leaf split changes no lookup. -/
def C84_statement (N M : Nat) (jk : Nat → Int) (jv : Nat → Nat) : Prop :=
  ∀ (ops : List (Op Int Nat)), InsertsOnly ops → NonNeg ops → ∀ bs s, runs N M jk jv ops = .ok (bs, s) →
    ∀ k id l, FullLeaf (cfgInt N M jk jv) s k id l → ∀ t, ∃ h, crashSplitU (cfgInt N M jk jv) s k t = .ok h ∧
      Reads (lookup (uOps (cfgInt N M jk jv)) ⟨s.depth, s.root, h⟩) (run empty ops)

/-- The lookups after a crash that follows `t` assignments of the split of the leaf `l`, where `m` is the map before the
insert: entries below the split key `sk` have been moved to the front of the leaf, where they have overwritten others. -/
structure AfterSplitCrash (M : Nat) (l : ULeaf Int V) (sk : Int) (t : Nat) (m : Int → Option V)
    (look : Int → Res (Option V)) : Prop where
  /-- keys of other leaves -/
  other : ∀ x, (∀ p, p < M → l.keys p ≠ x) → look x = .ok (m x)
  /-- a lower key is never lost, but has the value of another slot if its key has been moved and its value has not -/
  lower : ∀ p, p < M → l.keys p < sk →
    look (l.keys p) = .ok (if t < 2 * M ∧ t = 2 * p + 1 then some (l.vals (Nat.count (fun q => l.keys q < sk) p)) else m (l.keys p))
  /-- an upper key is lost as soon as a lower one has been moved to its slot or the counter has been set -/
  upper : ∀ p, p < M → sk ≤ l.keys p →
    look (l.keys p) = .ok (if p < Nat.count (fun q => l.keys q < sk) ((t + 1) / 2) ∨ 2 * M < t then none else m (l.keys p))

theorem split_crash (hM : 2 ≤ M) (jk : Nat → Int) (jv : Nat → V) {lm bm rm : Nat}
    {s : State Int (ULeaf Int V)} (g : Good (uLaws (ulaws_int N M jk jv) hM) lm bm rm s) {m : Int → Option V}
    (hst : Stores (uLaws (ulaws_int N M jk jv) hM) s m) {k : Int} {id : Nat} {l : ULeaf Int V}
    (hl : FullLeaf (cfgInt N M jk jv) s k id l) :
    ∃ sk, (∃ p, p < M ∧ l.keys p = sk) ∧ Nat.count (fun q => l.keys q < sk) M = (M + 1) / 2 ∧
      (∀ t, ∃ h, crashSplitU (cfgInt N M jk jv) s k t = .ok h ∧
        AfterSplitCrash M l sk t m (lookup (uOps (cfgInt N M jk jv)) ⟨s.depth, s.root, h⟩)) ∧
      ∃ a b h, ULeaf.split (cfgInt N M jk jv) l = .ok (a, b, sk) ∧
        linkAfter ((s.heap.set id a).alloc b).1 id ((s.heap.set id a).alloc b).2 = .ok h ∧
        ∀ t, 2 * M + 6 ≤ t → crashSplitU (cfgInt N M jk jv) s k t = .ok h := by
  obtain ⟨id', l', a⟩ := leafOf g k
  have e1 := a.find
  rw [hl.1] at e1
  cases Res.ok.inj e1
  have e2 := a.data
  rw [hl.2.1] at e2
  cases Option.some.inj e2
  obtain ⟨A, B, sk, hF, es, hsk, hcount, eF, hall⟩ := crashSplitU_heap (ulaws_int N M jk jv) hM g a hl.2.2
  refine ⟨sk, hsk, hcount, fun t => ?_, A, B, hF, es, eF, fun t ht => ?_⟩
  · obtain ⟨h, l1, e, hd, h1, h2, _⟩ := hall t
    refine ⟨h, e, ?_⟩
    have hlook := lookup_other g hd
    have hin : ∀ x, find x l.abs ≠ none → lookup (uOps (cfgInt N M jk jv)) ⟨s.depth, s.root, h⟩ x =
        ULeaf.lookup (cfgInt N M jk jv) l1 x := fun x hx => by rw [hlook x, lookup_in (a.home x hx)]; rfl
    have hslot : ∀ p, p < M → find (l.keys p) l.abs = some (l.vals p) := fun p hp =>
      find_slot a.ok (show p < l.num by rw [hl.2.2]; exact hp)
    have hm : ∀ p, p < M → m (l.keys p) = some (l.vals p) := fun p hp => by
      rw [← hst, a.look _ (a.home _ (by change find _ l.abs ≠ none; rw [hslot p hp]; simp))]
      exact hslot p hp
    have key : ∃ n n', Part l sk n n' l1 ∧ n ≤ M ∧ n' ≤ n ∧ (l1.num = M ∨ n = M ∧ n' = M ∧ l1.num = below l sk M) ∧
        (t ≤ 2 * M ∧ n = (t + 1) / 2 ∧ n' = t / 2 ∧ l1.num = M ∨ 2 * M < t ∧ n = M ∧ n' = M ∧ l1.num = below l sk M) := by
      by_cases ht : t ≤ 2 * M
      · obtain ⟨p1, p2⟩ := h1 ht
        exact ⟨_, _, p1, by omega, by omega, Or.inl p2, Or.inl ⟨ht, rfl, rfl, p2⟩⟩
      · obtain ⟨p1, p2⟩ := h2 (by change 2 * M < t; omega)
        exact ⟨M, M, p1, le_rfl, le_rfl, Or.inr ⟨rfl, rfl, p2⟩, Or.inr ⟨by omega, rfl, rfl, p2⟩⟩
    obtain ⟨n, n', hp, hn1, hn2, hn3, hn4⟩ := key
    obtain ⟨r1, r2, r3⟩ := hp.lookup (c := cfgInt N M jk jv) a.ok hl.2.2 hn1 hn2 hn3
    have hlt : below l sk M < M := by
      have : below l sk M = (M + 1) / 2 := hcount
      omega
    refine ⟨fun x hx => ?_, fun p hpM hps => ?_, fun p hpM hps => ?_⟩
    · by_cases hf : findLeaf (uOps (cfgInt N M jk jv)) s.depth s.root x = .ok id
      · rw [hlook x, lookup_in hf]
        change ULeaf.lookup (cfgInt N M jk jv) l1 x = _
        rw [r3 x hx, ← hst, a.look x hf]
        congr 1
        symm
        exact find_noslot (fun i hi => hx i (by have := hl.2.2; change l.num = M at this; omega))
      · rw [hlook x, lookup_out hf, lookup_good g, hst]
    · rw [hin _ (by rw [hslot p hpM]; simp), r1 p hpM hps, hm p hpM]
      by_cases hc : t < 2 * M ∧ t = 2 * p + 1
      · rw [if_pos hc, if_neg (by omega)]; rfl
      · rw [if_neg hc, if_pos (by omega)]
    · rw [hin _ (by rw [hslot p hpM]; simp), r2 p hpM hps, hm p hpM]
      congr 1
      refine if_congr ?_ rfl rfl
      change (p < below l sk n ∨ l1.num ≠ M) ↔ (p < below l sk ((t + 1) / 2) ∨ 2 * M < t)
      rcases hn4 with ⟨h1, rfl, rfl, h4⟩ | ⟨h1, rfl, rfl, h4⟩
      · constructor
        · rintro (h | h)
          · exact Or.inl h
          · exact absurd h4 h
        · rintro (h | h)
          · exact Or.inl h
          · omega
      · constructor
        · exact fun _ => Or.inr h1
        · exact fun _ => Or.inr (by omega)
  · obtain ⟨h, l1, e, _, _, _, h3⟩ := hall t
    rw [e, h3 ht]

/-- C84, exactly.  The split key is a key of the leaf that has `(M + 1) / 2` smaller keys in it.  A crash after `t`
assignments loses upper keys whose slot has been reused, all upper keys once the counter has been set, and gives one lower key
the value of another slot if `t` is odd; all other lookups are right.  After the last assignment persistent memory is that of
the split.  Missing: the upper keys and the value (`C84_refuted`, `C84_refuted_wrong_value`). -/
theorem C84_split_crash_partial (hN : 3 ≤ N) (hM : 2 ≤ M) (jk : Nat → Int) (jv : Nat → V)
    (ops : List (Op Int V)) (ho : InsertsOnly ops) (ha : NonNeg ops) :
    ∃ bs s, runs N M jk jv ops = .ok (bs, s) ∧ ∀ k id l, FullLeaf (cfgInt N M jk jv) s k id l →
      ∃ sk, (∃ p, p < M ∧ l.keys p = sk) ∧ Nat.count (fun q => l.keys q < sk) M = (M + 1) / 2 ∧
        (∀ t, ∃ h, crashSplitU (cfgInt N M jk jv) s k t = .ok h ∧
          AfterSplitCrash M l sk t (run empty ops) (lookup (uOps (cfgInt N M jk jv)) ⟨s.depth, s.root, h⟩)) ∧
        ∃ a b h, ULeaf.split (cfgInt N M jk jv) l = .ok (a, b, sk) ∧
          linkAfter ((s.heap.set id a).alloc b).1 id ((s.heap.set id a).alloc b).2 = .ok h ∧
          ∀ t, 2 * M + 6 ≤ t → crashSplitU (cfgInt N M jk jv) s k t = .ok h := by
  obtain ⟨bs, s, e, g, h⟩ := after_inserts hN hM jk jv ops ho ha
  exact ⟨bs, s, e, fun k id l hl => split_crash hM jk jv g h hl⟩

/-- C84 also after erases that free no leaf in use. -/
theorem C84_split_crash_after_erases_partial (q : Nat) (hN : N = 2 * q) (hq : 3 ≤ q) (hM : 2 ≤ M) (jk : Nat → Int)
    (jv : Nat → V) (ops : List (Op Int V)) (ha : NonNeg ops) (ho : ErasesPresent empty ops)
    (hs : NoEarlyFree (cfgInt N M jk jv) (init (uOps (cfgInt N M jk jv))) ops) :
    ∃ s, runs N M jk jv ops = .ok (outs empty ops, s) ∧ ∀ k id l, FullLeaf (cfgInt N M jk jv) s k id l →
      ∃ sk, (∃ p, p < M ∧ l.keys p = sk) ∧ Nat.count (fun q => l.keys q < sk) M = (M + 1) / 2 ∧
        (∀ t, ∃ h, crashSplitU (cfgInt N M jk jv) s k t = .ok h ∧
          AfterSplitCrash M l sk t (run empty ops) (lookup (uOps (cfgInt N M jk jv)) ⟨s.depth, s.root, h⟩)) ∧
        ∃ a b h, ULeaf.split (cfgInt N M jk jv) l = .ok (a, b, sk) ∧
          linkAfter ((s.heap.set id a).alloc b).1 id ((s.heap.set id a).alloc b).2 = .ok h ∧
          ∀ t, 2 * M + 6 ≤ t → crashSplitU (cfgInt N M jk jv) s k t = .ok h := by
  obtain ⟨s, e, g, h⟩ := Unsorted.safe_history (ulaws_int N M jk jv) hM hN hq ops _ empty
    (init_good _ _ _ _).1 (init_stores _) ha (NoEarlyFree.safe ops _ _ hs ho)
  exact ⟨s, e, fun k id l hl => split_crash hM jk jv g h hl⟩

/-- Four inserts that fill the only leaf, the slots are 40, 10, 30, 20. -/
def fourInserts : List (Op Int Nat) := [.insert 40 4, .insert 10 1, .insert 30 3, .insert 20 2]

theorem fourInserts_only : InsertsOnly fourInserts := by
  intro op h
  simp only [fourInserts, List.mem_cons, List.not_mem_nil, or_false] at h
  rcases h with rfl | rfl | rfl | rfl <;> exact ⟨_, _, rfl⟩

/-- A lookup after `fourInserts` and a crash after `t` assignments of the split by key 50. -/
def splitEx (t : Nat) (x : Int) : Res (Option Nat) := do
  let r ← runs 6 4 (fun _ => 0) (fun _ => 0) fourInserts
  let h ← crashSplitU c4 r.2 50 t
  lookup (uOps c4) ⟨r.2.depth, r.2.root, h⟩ x

set_option maxRecDepth 100000 in
/-- Key 10 has the value of 40 and 40 is lost after the third assignment; 10 is right again after the fourth; 30 is lost only
by the counter. -/
example : [splitEx 2 40, splitEx 3 40, splitEx 3 10, splitEx 4 10, splitEx 7 20, splitEx 8 20, splitEx 8 30, splitEx 9 30, splitEx 9 20] =
    [.ok (some 4), .ok none, .ok (some 4), .ok (some 1), .ok (some 1), .ok (some 2), .ok (some 3), .ok none, .ok (some 2)] := by
  decide +kernel

theorem fourInserts_full {bs : List Bool} {s : State Int (ULeaf Int Nat)}
    (e : runs 6 4 (fun _ => 0) (fun _ => 0) fourInserts = .ok (bs, s)) : ∃ id l, FullLeaf c4 s 50 id l := by
  obtain ⟨bs', s', e', id', l', f1, f2, f3⟩ : ∃ bs s, runs 6 4 (fun _ => 0) (fun _ => 0) fourInserts = .ok (bs, s) ∧
      ∃ id l, findLeaf (uOps c4) s.depth s.root 50 = .ok id ∧ s.heap.data id = some l ∧ l.num = 4 :=
    ⟨_, _, rfl, _, _, rfl, rfl, rfl⟩
  rw [e] at e'
  cases Res.ok.inj e'
  exact ⟨id', l', f1, f2, f3⟩

/-- The hypotheses can be met: a full leaf. -/
example : InsertsOnly fourInserts ∧ NonNeg fourInserts ∧ ∀ bs s, runs 6 4 (fun _ => 0) (fun _ => 0) fourInserts = .ok (bs, s) →
    ∃ id l, FullLeaf c4 s 50 id l :=
  ⟨fourInserts_only, nonNeg_of_list (by decide), fun _ _ e => fourInserts_full e⟩

set_option maxRecDepth 100000 in
/-- C84 is false: a crash after the third assignment loses key 40. -/
theorem C84_refuted : ¬ C84_statement 6 4 (fun _ => 0) (fun _ => 0) := by
  intro h
  have hd : splitEx 3 40 = .ok none := by decide +kernel
  unfold splitEx at hd
  obtain ⟨r, e, hd⟩ := Res.bind_eq_ok.1 hd
  obtain ⟨hp, e', hd⟩ := Res.bind_eq_ok.1 hd
  obtain ⟨id, l, hl⟩ := fourInserts_full e
  obtain ⟨h2, e2, hb⟩ := h fourInserts fourInserts_only (nonNeg_of_list (by decide)) r.1 r.2 e 50 id l hl 3
  change crashSplitU c4 r.2 50 3 = .ok h2 at e2
  rw [e'] at e2
  cases Res.ok.inj e2
  have := hb 40
  change lookup (uOps c4) _ 40 = _ at this
  rw [hd] at this
  revert this; decide

set_option maxRecDepth 100000 in
/-- A lookup can even give a value that was never stored under the key. -/
theorem C84_refuted_wrong_value : splitEx 3 10 = .ok (some 4) ∧ run empty fourInserts 10 = some 1 := by
  constructor <;> decide +kernel

end Verif.UnsortedProps
