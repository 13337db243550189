import Verif.BTree.Hist
import Verif.BTree.Iter
import Verif.BTree.Shape

/-!
# Property theorems for BPTree, PBPTree and HPBPTree (C30-C39)

The specification is `Verif.MapSpec`.  `K` is any linearly ordered key type, `V` any value type.
-/

set_option linter.unusedSectionVars false

namespace Verif.BTreeProps

open Verif BTree MapSpec

variable {K V : Type} [LinearOrder K]

/-! ## The common part -/

section
variable {c : SCfg K V}

/-- Everything we know about the state after a history of inserts. -/
theorem after_inserts (C : CfgLaws c) (hN : 3 ≤ c.N) (ops : List (Op K V)) (ho : InsertsOnly ops) :
    ∃ bs s, execAll (sortedOps c) (init (sortedOps c)) ops = .ok (bs, s) ∧
      Good (sortedLaws C) (c.M / 2) ((c.N - 1) / 2) 1 s ∧ Stores (sortedLaws C) s (run empty ops) :=
  inserts_good (W := sortedLaws C) (show c.M / 2 ≤ c.M / 2 from le_rfl)
    (show (c.N - 1) / 2 ≤ (c.N - 1) / 2 from le_rfl) (show 2 ≤ c.N by omega) le_rfl ops _ _
    (init_good (sortedLaws C) _ _ _).1 (init_stores _) ho (fun _ _ _ => trivial)

/-- Everything we know about the state after a history of inserts and erases of present keys. -/
theorem after_history (C : CfgLaws c) {q : Nat} (hN : c.N = 2 * q) (hq : 3 ≤ q) (ops : List (Op K V))
    (ho : ErasesPresent empty ops) :
    ∃ s, execAll (sortedOps c) (init (sortedOps c)) ops = .ok (outs empty ops, s) ∧
      Good (sortedLaws C) (c.M / 2) (q - 1) 1 s ∧ Stores (sortedLaws C) s (run empty ops) := by
  refine histories_good (W := sortedLaws C) (sortedErase C) (fun _ _ _ => trivial) ?_ hN hq C.hM le_rfl ops _ _
    (init_good (sortedLaws C) _ _ _).1 (init_stores _) ho (fun _ _ _ => trivial)
  intro l k _ hf
  obtain ⟨v, hv⟩ := Option.ne_none_iff_exists'.1 hf
  exact ⟨(k, v), Assoc.find_some_mem hv, le_rfl⟩

theorem scan_lists (C : CfgLaws c) {lm bm rm : Nat} {s : State K (SLeaf K V)} {m : K → Option V}
    (g : Good (sortedLaws C) lm bm rm s) (h : Stores (sortedLaws C) s m) :
    ∃ es, scan (sortedOps c) s = .ok es ∧ Lists m es := by
  obtain ⟨es, e, hes, _⟩ := scan_good (sortedScan C) g
  refine ⟨es, e, ?_⟩
  have : es = cont (sortedLaws C) s := hes
  rw [this]
  exact h.lists g

theorem range_lists (C : CfgLaws c) {lm bm rm : Nat} {s : State K (SLeaf K V)} {m : K → Option V}
    (g : Good (sortedLaws C) lm bm rm s) (h : Stores (sortedLaws C) s m) (lo hi : K) :
    ∃ es, rangeScan (sortedOps c) s lo hi = .ok es ∧ ListsRange m lo hi es := by
  have R : RangeLaw (sortedLaws C) (· = ·) := fun l lo hi ⟨es, hes⟩ => by
    obtain ⟨stop, e, hstop⟩ := rangeScan_ok C hes lo hi
    refine ⟨_, stop, e, ?_, ?_⟩
    · change _ = l.abs.filter _
      rw [hes.abs]
    · change stop = true → ∃ e ∈ l.abs, _
      rw [hes.abs]; exact hstop
  obtain ⟨es, e, hes⟩ := rangeScan_good listRel_eq R g lo hi
  rw [hes] at e
  exact ⟨_, e, h.listsRange g lo hi⟩

theorem iter_lists (C : CfgLaws c) {lm bm rm : Nat} (hlm : 1 ≤ lm) {s : State K (SLeaf K V)} {m : K → Option V}
    (g : Good (sortedLaws C) lm bm rm s) (h : Stores (sortedLaws C) s m) (hne : ∃ k, m k ≠ none) :
    ∃ it es, Iter.begin c s = .ok it ∧ (∀ n, es.length ≤ n → Iter.run c s.heap n it = .ok es) ∧ Lists m es := by
  obtain ⟨k, hk⟩ := hne
  obtain ⟨it, e, hr⟩ := iterate_good C hlm g (fun hc => by
    have := h k
    rw [hc] at this
    exact hk this.symm)
  exact ⟨it, _, e, hr, h.lists g⟩

end

/-! ## BPTree -/

/-- C30. After any sequence of inserts into an empty `BPTree<K, V, N, M>`, no operation fails (no access
outside a node, no read of an uninitialised element, no failed assertion), and `lookup` gives exactly the
last inserted value of every key. -/
theorem C30_insert_lookup (N M : Nat) (hN : 3 ≤ N) (hM : 2 ≤ M) (ops : List (Op K V)) (ho : InsertsOnly ops) :
    ∃ bs s, execAll (BP N M) (init (BP N M)) ops = .ok (bs, s) ∧
      ∀ k, lookup (BP N M) s k = .ok (run empty ops k) := by
  obtain ⟨bs, s, e, g, h⟩ := after_inserts (bpLaws (K := K) (V := V) (N := N) hM) hN ops ho
  exact ⟨bs, s, e, fun k => h.lookup g k⟩

/-- C31. After any history of inserts and erases of present keys, no operation fails, every `erase`
returned `true`, and `lookup` agrees with the abstract map. -/
theorem C31_insert_erase_lookup (N M q : Nat) (hN : N = 2 * q) (hq : 3 ≤ q) (hM : 2 ≤ M) (ops : List (Op K V))
    (ho : ErasesPresent empty ops) :
    ∃ s, execAll (BP N M) (init (BP N M)) ops = .ok (outs empty ops, s) ∧
      ∀ k, lookup (BP N M) s k = .ok (run empty ops k) := by
  obtain ⟨s, e, g, h⟩ := after_history (bpLaws (K := K) (V := V) (N := N) hM) hN hq ops ho
  exact ⟨s, e, fun k => h.lookup g k⟩

/-- All results of a history that erases present keys only are `true`. -/
theorem outs_true : ∀ (ops : List (Op K V)) (m : K → Option V), ErasesPresent m ops →
    ∀ b ∈ outs m ops, b = true
  | [], _, _, b, hb => by simp [outs] at hb
  | .insert k v :: ops, m, h, b, hb => by
    rw [outs, List.mem_cons] at hb
    rcases hb with hb | hb
    · exact hb
    · exact outs_true ops _ h b hb
  | .erase k :: ops, m, h, b, hb => by
    rw [outs, List.mem_cons] at hb
    rcases hb with hb | hb
    · rw [hb]; simp only [out, Option.isSome_iff_ne_none]; exact h.1
    · exact outs_true ops _ h.2 b hb

/-- C34. `scan` reports every stored entry exactly once, in strictly increasing key order. -/
theorem C34_scan (N M q : Nat) (hN : N = 2 * q) (hq : 3 ≤ q) (hM : 2 ≤ M) (ops : List (Op K V))
    (ho : ErasesPresent empty ops) :
    ∃ s es, execAll (BP N M) (init (BP N M)) ops = .ok (outs empty ops, s) ∧
      scan (BP N M) s = .ok es ∧ Lists (run empty ops) es := by
  obtain ⟨s, e, g, h⟩ := after_history (bpLaws (K := K) (V := V) (N := N) hM) hN hq ops ho
  obtain ⟨es, e', hl⟩ := scan_lists _ g h
  exact ⟨s, es, e, e', hl⟩

/-- C34 for histories of inserts: every capacity `N ≥ 3`. -/
theorem C34_scan_inserts (N M : Nat) (hN : 3 ≤ N) (hM : 2 ≤ M) (ops : List (Op K V)) (ho : InsertsOnly ops) :
    ∃ bs s es, execAll (BP N M) (init (BP N M)) ops = .ok (bs, s) ∧
      scan (BP N M) s = .ok es ∧ Lists (run empty ops) es := by
  obtain ⟨bs, s, e, g, h⟩ := after_inserts (bpLaws (K := K) (V := V) (N := N) hM) hN ops ho
  obtain ⟨es, e', hl⟩ := scan_lists _ g h
  exact ⟨bs, s, es, e, e', hl⟩

/-- C35. The range scan reports every stored entry with `lo ≤ key ≤ hi` exactly once, in strictly
increasing key order, and no other. -/
theorem C35_range_scan (N M q : Nat) (hN : N = 2 * q) (hq : 3 ≤ q) (hM : 2 ≤ M) (ops : List (Op K V))
    (ho : ErasesPresent empty ops) :
    ∃ s, execAll (BP N M) (init (BP N M)) ops = .ok (outs empty ops, s) ∧
      ∀ lo hi, ∃ es, rangeScan (BP N M) s lo hi = .ok es ∧ ListsRange (run empty ops) lo hi es := by
  obtain ⟨s, e, g, h⟩ := after_history (bpLaws (K := K) (V := V) (N := N) hM) hN hq ops ho
  exact ⟨s, e, fun lo hi => range_lists _ g h lo hi⟩

/-- C35 for histories of inserts: every capacity `N ≥ 3`. -/
theorem C35_range_scan_inserts (N M : Nat) (hN : 3 ≤ N) (hM : 2 ≤ M) (ops : List (Op K V))
    (ho : InsertsOnly ops) :
    ∃ bs s, execAll (BP N M) (init (BP N M)) ops = .ok (bs, s) ∧
      ∀ lo hi, ∃ es, rangeScan (BP N M) s lo hi = .ok es ∧ ListsRange (run empty ops) lo hi es := by
  obtain ⟨bs, s, e, g, h⟩ := after_inserts (bpLaws (K := K) (V := V) (N := N) hM) hN ops ho
  exact ⟨bs, s, e, fun lo hi => range_lists _ g h lo hi⟩

/-- C36. The loop from `begin()` to `end()` over a non-empty tree terminates and yields every stored
entry exactly once, in strictly increasing key order. -/
theorem C36_iterator (N M q : Nat) (hN : N = 2 * q) (hq : 3 ≤ q) (hM : 2 ≤ M) (ops : List (Op K V))
    (ho : ErasesPresent empty ops) (hne : ∃ k, run empty ops k ≠ none) :
    ∃ s it es, execAll (BP N M) (init (BP N M)) ops = .ok (outs empty ops, s) ∧
      Iter.begin (bpCfg N M) s = .ok it ∧
      (∀ n, es.length ≤ n → Iter.run (bpCfg N M) s.heap n it = .ok es) ∧ Lists (run empty ops) es := by
  obtain ⟨s, e, g, h⟩ := after_history (bpLaws (K := K) (V := V) (N := N) hM) hN hq ops ho
  obtain ⟨it, es, h1, h2, h3⟩ := iter_lists _ (show 1 ≤ M / 2 by omega) g h hne
  exact ⟨s, it, es, e, h1, h2, h3⟩

/-- C37. After any history all leaves are at the same depth, every node respects its capacity, every
branch node other than the root has at least `N/2 - 1` keys, every leaf other than the root at least
`M/2`, and separators bound the keys below them. -/
theorem C37_shape (N M q : Nat) (hN : N = 2 * q) (hq : 3 ≤ q) (hM : 2 ≤ M) (ops : List (Op K V))
    (ho : ErasesPresent empty ops) :
    ∃ s, execAll (BP N M) (init (BP N M)) ops = .ok (outs empty ops, s) ∧
      Shape N M (N / 2 - 1) (M / 2) s.heap s.depth true s.root := by
  obtain ⟨s, e, g, h⟩ := after_history (bpLaws (K := K) (V := V) (N := N) hM) hN hq ops ho
  refine ⟨s, e, ?_⟩
  have hq' : N / 2 - 1 = q - 1 := by omega
  rw [hq']
  refine shape_of_bt (bpLaws (K := K) (V := V) (N := N) hM) (by omega) s.depth _ true s.root ⊥ ⊤ g.bt (by simp) ?_
  intro hd
  obtain ⟨d, hd'⟩ := Nat.exists_eq_succ_of_ne_zero hd
  rw [hd']; exact le_rfl

/-! ## PBPTree -/

/-- C38, updates and lookups of `PBPTree<K, V, N, M>`. -/
theorem C38_map (N M q : Nat) (hN : N = 2 * q) (hq : 3 ≤ q) (hM : 2 ≤ M) (ops : List (Op K V))
    (ho : ErasesPresent empty ops) :
    ∃ s, execAll (PB N M) (init (PB N M)) ops = .ok (outs empty ops, s) ∧
      (∀ k, lookup (PB N M) s k = .ok (run empty ops k)) ∧
      (∃ es, scan (PB N M) s = .ok es ∧ Lists (run empty ops) es) ∧
      (∀ lo hi, ∃ es, rangeScan (PB N M) s lo hi = .ok es ∧ ListsRange (run empty ops) lo hi es) ∧
      ((∃ k, run empty ops k ≠ none) → ∃ it es, Iter.begin (pbCfg N M) s = .ok it ∧
        (∀ n, es.length ≤ n → Iter.run (pbCfg N M) s.heap n it = .ok es) ∧ Lists (run empty ops) es) ∧
      Shape N M (N / 2 - 1) (M / 2) s.heap s.depth true s.root := by
  have C := pbLaws (K := K) (V := V) (N := N) hM
  obtain ⟨s, e, g, h⟩ := after_history C hN hq ops ho
  refine ⟨s, e, fun k => h.lookup g k, scan_lists _ g h, fun lo hi => range_lists _ g h lo hi,
    fun hne => iter_lists _ (show 1 ≤ M / 2 by omega) g h hne, ?_⟩
  have hq' : N / 2 - 1 = q - 1 := by omega
  rw [hq']
  refine shape_of_bt C (by omega) s.depth _ true s.root ⊥ ⊤ g.bt (by simp) ?_
  intro hd
  obtain ⟨d, hd'⟩ := Nat.exists_eq_succ_of_ne_zero hd
  rw [hd']; exact le_rfl

/-! ## HPBPTree -/

/-- C39, updates, lookups, scans and iteration of `HPBPTree<K, V, N, M>`. -/
theorem C39_map (N M q : Nat) (hN : N = 2 * q) (hq : 3 ≤ q) (hM : 2 ≤ M) (ops : List (Op K V))
    (ho : ErasesPresent empty ops) :
    ∃ s, execAll (HP N M) (init (HP N M)) ops = .ok (outs empty ops, s) ∧
      (∀ k, lookup (HP N M) s k = .ok (run empty ops k)) ∧
      (∃ es, scan (HP N M) s = .ok es ∧ Lists (run empty ops) es) ∧
      (∀ lo hi, ∃ es, rangeScan (HP N M) s lo hi = .ok es ∧ ListsRange (run empty ops) lo hi es) ∧
      ((∃ k, run empty ops k ≠ none) → ∃ it es, Iter.begin (hpCfg N M) s = .ok it ∧
        (∀ n, es.length ≤ n → Iter.run (hpCfg N M) s.heap n it = .ok es) ∧ Lists (run empty ops) es) ∧
      Shape N M (N / 2 - 1) (M / 2) s.heap s.depth true s.root := by
  have C := hpLaws (K := K) (V := V) (N := N) hM
  obtain ⟨s, e, g, h⟩ := after_history C hN hq ops ho
  refine ⟨s, e, fun k => h.lookup g k, scan_lists _ g h, fun lo hi => range_lists _ g h lo hi,
    fun hne => iter_lists _ (show 1 ≤ M / 2 by omega) g h hne, ?_⟩
  have hq' : N / 2 - 1 = q - 1 := by omega
  rw [hq']
  refine shape_of_bt C (by omega) s.depth _ true s.root ⊥ ⊤ g.bt (by simp) ?_
  intro hd
  obtain ⟨d, hd'⟩ := Nat.exists_eq_succ_of_ne_zero hd
  rw [hd']; exact le_rfl

/-! ## Concrete histories

The hypotheses of the theorems above hold for these histories, and the trees are not trivial. -/

/-- Inserts of `0 .. n-1` in increasing order. -/
def up (n : Nat) : List (Op Nat Nat) := (List.range n).map fun k => .insert k (10 * k)

example : InsertsOnly (up 12) := by
  intro op h
  simp only [up, List.mem_map] at h
  obtain ⟨k, _, rfl⟩ := h
  exact ⟨_, _, rfl⟩

/-- 14 inserts and 5 erases with `N = 6`, `M = 2`: two levels of branch nodes, leaf merges. -/
def mixed : List (Op Nat Nat) := up 14 ++ [.erase 3, .erase 4, .erase 0, .insert 4 7, .erase 13]

example : ErasesPresent empty mixed := by
  simp [mixed, up, ErasesPresent, step, List.range_succ]

set_option maxRecDepth 100000 in
example : (do
    let r ← execAll (BP 6 2) (init (BP 6 2)) mixed
    let es ← scan (BP 6 2) r.2
    let rs ← rangeScan (BP 6 2) r.2 2 6
    let it ← Iter.begin (bpCfg 6 2) r.2
    let is ← Iter.run (bpCfg 6 2) r.2.heap 20 it
    pure (r.2.depth, es, rs, is)) =
    Res.ok (2,
      [(1, 10), (2, 20), (4, 7), (5, 50), (6, 60), (7, 70), (8, 80), (9, 90), (10, 100), (11, 110), (12, 120)],
      [(2, 20), (4, 7), (5, 50), (6, 60)],
      [(1, 10), (2, 20), (4, 7), (5, 50), (6, 60), (7, 70), (8, 80), (9, 90), (10, 100), (11, 110), (12, 120)]) := by
  decide

/-! ## C32: erasing an absent key -/

/-- C32 in full: `erase` of an absent key returns `false` and changes no lookup. -/
def C32_statement (N M : Nat) : Prop :=
  ∀ (ops : List (Op Nat Nat)) (bs : List Bool) (s : State Nat (SLeaf Nat Nat)) (k : Nat),
    ErasesPresent empty ops → execAll (BP N M) (init (BP N M)) ops = .ok (bs, s) →
    run empty ops k = none →
    ∃ s', erase (BP N M) s k = .ok (false, s') ∧ ∀ x, lookup (BP N M) s' x = .ok (run empty ops x)

/-- C32 is false: after inserting 1 and 2 and erasing 2, the stale key 2 is still in the array behind the
last entry; erasing 2 again returns `true` and removes the entry of key 1. -/
theorem C32_refuted : ¬ C32_statement 6 4 := by
  intro h
  have hd : (do let r ← execAll (BP 6 4) (init (BP 6 4)) ([.insert 1 10, .insert 2 20, .erase 2] : List (Op Nat Nat))
                let r ← erase (BP 6 4) r.2 2
                pure r.1) = Res.ok true := by decide
  obtain ⟨r, e1, e2⟩ := Res.bind_eq_ok.1 hd
  obtain ⟨s', e, _⟩ := h _ r.1 r.2 2 (by simp [ErasesPresent, step]) e1 (by decide)
  rw [e] at e2
  simp at e2

/-- The entry of key 1 is lost by erasing the absent key 2. -/
theorem C32_refuted_loses_entry :
    run (empty : Nat → Option Nat) [.insert 1 10, .insert 2 20, .erase 2, .erase 2] 1 = some 10 ∧
    (do let r ← execAll (BP 6 4) (init (BP 6 4)) [.insert 1 10, .insert 2 20, .erase 2, .erase 2]
        lookup (BP 6 4) r.2 1) = Res.ok (none : Option Nat) := by decide

/-- If the leaf is full, the key behind the end of the array is read. -/
theorem C32_refuted_out_of_bounds :
    (do let r ← execAll (BP 6 4) (init (BP 6 4))
          ([.insert 1 1, .insert 2 2, .insert 3 3, .insert 4 4] : List (Op Nat Nat))
        let r ← erase (BP 6 4) r.2 5
        pure r.1) = Res.ub := by decide

/-- C32, the part that holds: if the leaf to which `k` belongs holds a larger key, then `erase k`
returns whether `k` is present and behaves as in the abstract map (for an absent key: no change).
Missing: the case that `k` is larger than all keys of its leaf, where the claim is false. -/
theorem C32_erase_absent_partial (N M q : Nat) (hN : N = 2 * q) (hq : 3 ≤ q) (hM : 2 ≤ M) (ops : List (Op K V))
    (ho : ErasesPresent empty ops) (bs : List Bool) (s : State K (SLeaf K V))
    (hs : execAll (BP N M) (init (BP N M)) ops = .ok (bs, s)) (k : K)
    (hleaf : ∀ id l, findLeaf (BP (V := V) N M) s.depth s.root k = .ok id → s.heap.data id = some l →
      ∃ i k', i < l.num ∧ l.keys i = some k' ∧ k < k') :
    ∃ s', erase (BP N M) s k = .ok ((run empty ops k).isSome, s') ∧
      ∀ x, lookup (BP N M) s' x = .ok (step (run empty ops) (.erase k) x) := by
  have C := bpLaws (K := K) (V := V) (N := N) hM
  obtain ⟨s0, e, g, h⟩ := after_history C hN hq ops ho
  have hs' : execAll (sortedOps (bpCfg N M)) (init (sortedOps (bpCfg N M))) ops = .ok (bs, s) := hs
  rw [hs'] at e
  injection e with e
  have e2 : s = s0 := congrArg Prod.snd e
  subst e2
  obtain ⟨s', e1, g1, c1⟩ := erase_good (sortedErase C) hN hq hM g
    (g.bt.frame (fun _ _ _ _ => trivial) (fun _ _ => rfl)) k (fun id l hid hl => by
      obtain ⟨i, k', hi, hk, hlt⟩ := hleaf id l hid hl
      obtain ⟨id', l', _, _, _, _, hid', _, hl', ⟨es, hes⟩, _⟩ :=
        findLeaf_spec k s.depth (rootMin 1 s.depth) s.root ⊥ ⊤ g.bt (inR_univ k)
      rw [hid] at hid'
      injection hid' with hid'
      subst hid'
      rw [hl] at hl'
      injection hl' with hl'
      subst hl'
      change ∃ e ∈ l.abs, k ≤ e.1
      rw [hes.abs]
      rw [hes.num] at hi
      rw [hes.keys.get (by simpa using hi)] at hk
      injection hk with hk
      simp only [List.getElem_map] at hk
      exact ⟨es[i], List.getElem_mem hi, by rw [hk]; exact hlt.le⟩)
  refine ⟨s', ?_, fun x => (h.erase c1).lookup g1 x⟩
  have := h k
  rw [this] at e1
  exact e1

/-- The hypothesis of `C32_erase_absent_partial` is met, e.g., by erasing 2 from a tree with 1 and 3. -/
example : (do let r ← execAll (BP 6 4) (init (BP 6 4)) ([.insert 1 10, .insert 3 30] : List (Op Nat Nat))
              let r ← erase (BP 6 4) r.2 2
              let es ← scan (BP 6 4) r.2
              pure (r.1, es)) = Res.ok (false, [(1, 10), (3, 30)]) := by decide

/-! ## C33: small and odd capacities -/

/-- C33 for the capacities `N`, `M`: the map behaviour under inserts and erases of present keys. -/
def C33_statement (N M : Nat) : Prop :=
  ∀ (ops : List (Op Nat Nat)), ErasesPresent empty ops →
    ∃ s, execAll (BP N M) (init (BP N M)) ops = .ok (outs empty ops, s) ∧
      ∀ k, lookup (BP N M) s k = .ok (run empty ops k)

theorem C33_of_fail {N M : Nat} (ops : List (Op Nat Nat)) (ho : ErasesPresent empty ops)
    (hf : (do let _ ← execAll (BP N M) (init (BP N M)) ops; pure ()) ≠ Res.ok ()) : ¬ C33_statement N M := by
  intro h
  obtain ⟨s, e, _⟩ := h ops ho
  apply hf
  rw [e]; rfl

/-- C33 is false for `N = 3`: a branch node with one key that is not the root is replaced by its last
leaf as if it were the root. -/
theorem C33_refuted_3 : ¬ C33_statement 3 2 :=
  C33_of_fail ((List.range 14).map (fun k => .insert k k) ++ [.erase 0])
    (by simp [ErasesPresent, step, List.range_succ]) (by decide)

/-- C33 is false for `N = 4`, for the same reason. -/
theorem C33_refuted_4 : ¬ C33_statement 4 2 :=
  C33_of_fail ([4, 7, 6, 5, 0, 1, 2, 3].map (fun k => .insert k k) ++ [.erase 0])
    (by simp [ErasesPresent, step]) (by decide)

/-- C33 is false for `N = 5`: merging two branch nodes writes behind the array of keys. -/
theorem C33_refuted_5 : ¬ C33_statement 5 2 :=
  C33_of_fail ((List.range 20).map (fun k => .insert k k) ++ [.erase 0])
    (by simp [ErasesPresent, step, List.range_succ]) (by decide)

/-- C33, the part that holds: even capacities from 6 on.  Missing: `N = 3, 4` and odd `N`, for which the
claim is false (see above). -/
theorem C33_capacities_partial (N M q : Nat) (hN : N = 2 * q) (hq : 3 ≤ q) (hM : 2 ≤ M) : C33_statement N M :=
  fun ops ho => C31_insert_erase_lookup N M q hN hq hM ops ho

end Verif.BTreeProps
