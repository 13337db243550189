import Verif.FPTree.Crash
import Verif.BTree.Recover

/-!
# Property theorems for FPTree (C40-C42, C48, C53)

The specification is `Verif.MapSpec`.  `FPTree<int, V, N, M>` is `fpOps (cfgInt N jf jk jv) M`; `jf`, `jk`,
`jv` are the contents of uninitialised leaf arrays.  The theorems named `_gen` are for every key type,
fingerprint function and junk that satisfy `FLaws`.
-/

set_option linter.unusedSectionVars false
set_option linter.unusedSimpArgs false

namespace Verif.FPTreeProps

open Verif Search BTree FPTree Assoc MapSpec

variable {K V : Type} {M : Nat} [LinearOrder K] [Inhabited K] {c : FCfg K V} {adm : K → Prop}

/-- Non-negative `int` keys. -/
def NonNeg (ops : List (Op Int V)) : Prop := ∀ k v, Op.insert k v ∈ ops → 0 ≤ k ∧ k < 2 ^ 31

/-- Non-negative `int` keys below `INT_MAX`. -/
def NonNegBelow (ops : List (Op Int V)) : Prop := ∀ k v, Op.insert k v ∈ ops → 0 ≤ k ∧ k < 2 ^ 31 - 1

/-! ## C40 -/

/-- C40 for every key type and every fingerprint function. -/
theorem C40_insert_lookup_gen (F : FLaws c adm) (hN : 3 ≤ c.N) (hM : 2 ≤ M) (ops : List (Op K V))
    (ho : InsertsOnly ops) (ha : ∀ k v, Op.insert k v ∈ ops → adm k) :
    ∃ bs s, execAll (fpOps c M) (init (fpOps c M)) ops = .ok (bs, s) ∧
      ∀ k, lookup (fpOps c M) s k = .ok (run empty ops k) := by
  obtain ⟨bs, s, e, g, h, _⟩ := after_inserts F hN hM ops ho ha
  exact ⟨bs, s, e, fun k => h.lookup g k⟩

/-- C40. After any sequence of inserts of non-negative keys, no operation fails, and `lookup` gives exactly
the last inserted value of every key, whatever the fingerprints and the uninitialised bytes are. -/
theorem C40_insert_lookup (N : Nat) (hN : 3 ≤ N) (hM : 2 ≤ M) (jf : Nat → Nat) (jk : Nat → Int) (jv : Nat → V)
    (ops : List (Op Int V)) (ho : InsertsOnly ops) (ha : NonNeg ops) :
    ∃ bs s, execAll (fpOps (cfgInt N jf jk jv) M) (init (fpOps (cfgInt N jf jk jv) M)) ops = .ok (bs, s) ∧
      ∀ k, lookup (fpOps (cfgInt N jf jk jv) M) s k = .ok (run empty ops k) :=
  C40_insert_lookup_gen (flaws_int N jf jk jv) hN hM ops ho ha

/-- A history whose keys all have the same fingerprint. -/
def collisions : List (Op Int Nat) :=
  [.insert 1 10, .insert 257 20, .insert 513 30, .insert 769 40, .insert 1025 50, .insert 257 60]

example : InsertsOnly collisions ∧ NonNeg collisions ∧
    hashInt 1 = hashInt 257 ∧ hashInt 257 = hashInt 1025 ∧ run empty collisions 257 = some 60 := by
  refine ⟨?_, ?_, by decide, by decide, by decide⟩
  · intro op h
    simp only [collisions, List.mem_cons, List.not_mem_nil, or_false] at h
    rcases h with rfl | rfl | rfl | rfl | rfl | rfl <;> exact ⟨_, _, rfl⟩
  · intro k v h
    simp only [collisions, List.mem_cons, List.not_mem_nil, or_false, Op.insert.injEq] at h
    omega

/-! ## C53 -/

/-- C53 for every key type and every fingerprint function. -/
theorem C53_scans_gen (F : FLaws c adm) (hN : 3 ≤ c.N) (hM : 2 ≤ M) (ops : List (Op K V))
    (ho : InsertsOnly ops) (ha : ∀ k v, Op.insert k v ∈ ops → adm k) :
    ∃ bs s es, execAll (fpOps c M) (init (fpOps c M)) ops = .ok (bs, s) ∧
      scan (fpOps c M) s = .ok es ∧ ListsOnce (run empty ops) es ∧
      ∀ lo hi, ∃ es, rangeScan (fpOps c M) s lo hi = .ok es ∧ ListsRangeOnce (run empty ops) lo hi es := by
  obtain ⟨bs, s, e, g, h, _⟩ := after_inserts F hN hM ops ho ha
  obtain ⟨es, e', hl⟩ := scan_lists F hM g h
  exact ⟨bs, s, es, e, e', hl, fun lo hi => range_lists F hM g h lo hi⟩

/-- C53. After any sequence of inserts of non-negative keys, `scan` reports every stored entry exactly
once, and the range scan every stored entry with `lo ≤ key ≤ hi` exactly once, and nothing else. -/
theorem C53_scans (N : Nat) (hN : 3 ≤ N) (hM : 2 ≤ M) (jf : Nat → Nat) (jk : Nat → Int) (jv : Nat → V)
    (ops : List (Op Int V)) (ho : InsertsOnly ops) (ha : NonNeg ops) :
    ∃ bs s es, execAll (fpOps (cfgInt N jf jk jv) M) (init (fpOps (cfgInt N jf jk jv) M)) ops = .ok (bs, s) ∧
      scan (fpOps (cfgInt N jf jk jv) M) s = .ok es ∧ ListsOnce (run empty ops) es ∧
      ∀ lo hi, ∃ es, rangeScan (fpOps (cfgInt N jf jk jv) M) s lo hi = .ok es ∧
        ListsRangeOnce (run empty ops) lo hi es :=
  C53_scans_gen (flaws_int N jf jk jv) hN hM ops ho ha

example : run empty collisions 513 = some 30 ∧ (513 : Int) ≤ 513 ∧ (513 : Int) ≤ 1025 := by decide

/-! ## C41 -/

/-- C41 in full: after any history of inserts and erases of non-negative keys, all results of `erase` and
all lookups are those of the abstract map. -/
def C41_statement (N M : Nat) (jf : Nat → Nat) (jk : Nat → Int) (jv : Nat → Nat) : Prop :=
  ∀ ops : List (Op Int Nat), NonNeg ops →
    ∃ s, execAll (fpOps (cfgInt N jf jk jv) M) (init (fpOps (cfgInt N jf jk jv) M)) ops = .ok (outs empty ops, s) ∧
      ∀ k, lookup (fpOps (cfgInt N jf jk jv) M) s k = .ok (run empty ops k)

/-- The balancing step chooses its direction by comparing slot 0 of the two leaves, which may hold a key
that has been moved away. -/
def badErase : List (Op Int Nat) :=
  [.insert 1 1, .insert 5 5, .insert 10 10, .insert 20 20, .insert 30 30, .insert 40 40, .erase 1, .erase 30]

/-- The tree of the counterexample. -/
abbrev o4 : Ops Int Nat (FLeaf 4 Int Nat) := fpOps (cfgInt 6 (fun _ => 0) (fun _ => 0) (fun _ => 0)) 4

set_option maxRecDepth 100000 in
/-- C41 is false: after inserting 1, 5, 10, 20, 30, 40 and erasing 1 and 30, key 10 is lost. -/
theorem C41_refuted : ¬ C41_statement 6 4 (fun _ => 0) (fun _ => 0) (fun _ => 0) := by
  intro h
  obtain ⟨s, e, hl⟩ := h badErase (by
    intro k v hm
    simp only [badErase, List.mem_cons, List.not_mem_nil, or_false, false_or, Op.insert.injEq, reduceCtorEq] at hm
    omega)
  have hd : (execAll o4 (init o4) badErase >>= fun r => lookup o4 r.2 10) = .ok none := by decide +kernel
  have hr : run empty badErase 10 = some 10 := by decide
  obtain ⟨r, e', hd⟩ := Res.bind_eq_ok.1 hd
  rw [show execAll o4 (init o4) badErase = .ok (outs empty badErase, s) from e] at e'
  have e' := Res.ok.inj e'
  subst e'
  have := hl 10
  rw [hr] at this
  rw [show lookup o4 s 10 = .ok none from hd] at this
  exact absurd (Res.ok.inj this) (by decide)

/-- C41 for trees that are never split: as long as at most `M` keys are present, every `erase` and every
lookup is right.  Missing: histories that split a leaf (see the next theorem); key `INT_MAX`. -/
theorem C41_small_partial (N q : Nat) (hN : N = 2 * q) (hq : 3 ≤ q) (hM : 2 ≤ M) (jf : Nat → Nat)
    (jk : Nat → Int) (jv : Nat → V) (ops : List (Op Int V)) (ha : NonNegBelow ops)
    (hs : ∀ pre, pre <+: ops → AtMost M (run empty pre)) :
    ∃ s, execAll (fpOps (cfgInt N jf jk jv) M) (init (fpOps (cfgInt N jf jk jv) M)) ops = .ok (outs empty ops, s) ∧
      ∀ k, lookup (fpOps (cfgInt N jf jk jv) M) s k = .ok (run empty ops k) := by
  obtain ⟨s, e, g, h, _⟩ := small_history (flaws_below N jf jk jv) (fun k hk => hk.2) hM hN hq ops _ empty
    (init_good _ _ _ _).1 (init_stores _) rfl ha hs
  exact ⟨s, e, fun k => h.lookup g k⟩

/-- C41 for histories in which every erase is safe when it is called: either slot 0 of every leaf holds a
key that leads to this leaf, or the leaf of the erased key holds more than `(M + 1) / 2` entries.  Missing:
erases that balance leaves by stale slots, where the claim is false (`C41_refuted`); key `INT_MAX`. -/
theorem C41_safe_partial (N q : Nat) (hN : N = 2 * q) (hq : 3 ≤ q) (hM : 2 ≤ M) (jf : Nat → Nat)
    (jk : Nat → Int) (jv : Nat → V) (ops : List (Op Int V)) (ha : NonNegBelow ops)
    (hs : SafeHist (cfgInt N jf jk jv) (init (fpOps (cfgInt N jf jk jv) M)) ops) :
    ∃ s, execAll (fpOps (cfgInt N jf jk jv) M) (init (fpOps (cfgInt N jf jk jv) M)) ops = .ok (outs empty ops, s) ∧
      ∀ k, lookup (fpOps (cfgInt N jf jk jv) M) s k = .ok (run empty ops k) := by
  obtain ⟨s, e, g, h, _⟩ := safe_history (flaws_below N jf jk jv) (fun k hk => hk.2) hM hN hq ops _ empty
    (init_good _ _ _ _).1 (init_stores _) ha hs
  exact ⟨s, e, fun k => h.lookup g k⟩

/-- Histories that meet the hypotheses: one that never exceeds four keys, and one that splits a leaf. -/
def smallHist : List (Op Int Nat) :=
  [.insert 1 1, .insert 257 2, .insert 5 3, .erase 257, .insert 7 4, .erase 9, .erase 1]

def safeHist : List (Op Int Nat) :=
  [.insert 1 1, .insert 5 5, .insert 10 10, .insert 20 20, .insert 30 30, .erase 20, .insert 40 40]

example : NonNegBelow smallHist ∧ (∀ pre, pre <+: smallHist → AtMost 4 (run empty pre)) ∧
    outs empty smallHist = [true, true, true, true, true, false, true] ∧ run empty smallHist 7 = some 4 := by
  refine ⟨?_, ?_, by decide, by decide⟩
  · intro k v h
    simp only [smallHist, List.mem_cons, List.not_mem_nil, or_false, false_or, Op.insert.injEq, reduceCtorEq] at h
    omega
  · intro pre hp
    refine ⟨[1, 257, 5, 7], by simp, fun k hk => ?_⟩
    by_contra hne
    simp only [List.mem_cons, List.not_mem_nil, or_false, not_or] at hne
    apply hk
    have key : ∀ (ops : List (Op Int Nat)) (m : Int → Option Nat), m k = none →
        (∀ x v, Op.insert x v ∈ ops → k ≠ x) → run m ops k = none := by
      intro ops
      induction ops with
      | nil => intro m hm _; exact hm
      | cons op ops ih =>
        intro m hm hx
        refine ih _ ?_ (fun x v hxv => hx x v (List.mem_cons_of_mem _ hxv))
        cases op with
        | insert x v => simp only [step]; rw [if_neg (hx x v (by simp))]; exact hm
        | erase x => simp only [step]; split <;> [rfl; exact hm]
    refine key pre empty rfl (fun x v hxv => ?_)
    have hm := hp.subset hxv
    simp only [smallHist, List.mem_cons, List.not_mem_nil, or_false, false_or, Op.insert.injEq, reduceCtorEq] at hm
    omega

set_option maxRecDepth 100000 in
example : NonNegBelow safeHist ∧
    SafeHist (cfgInt 6 (fun _ => 0) (fun _ => 0) (fun _ => 0)) (init o4) safeHist ∧
    run empty safeHist 20 = none ∧ run empty safeHist 30 = some 30 := by
  refine ⟨?_, safe_of_check _ _ (by decide +kernel), by decide, by decide⟩
  intro k v h
  simp only [safeHist, List.mem_cons, List.not_mem_nil, or_false, false_or, Op.insert.injEq, reduceCtorEq] at h
  omega

/-! ## C42 -/

/-- A leaf list as it is found in persistent memory: distinct linked leaves, in each leaf distinct
admissible keys with matching fingerprints in the valid slots, and increasing keys from leaf to leaf.  If
there is more than one leaf, no leaf is empty. -/
structure LeafList (c : FCfg K V) (adm : K → Prop) (h : Heap (FLeaf M K V)) (is : List Nat) : Prop where
  links : Wf h is
  leaf : ∀ i ∈ is, ∃ l, h.data i = some l ∧ FOk c.hash adm l
  order : is.Pairwise (fun i j => ∀ l l', h.data i = some l → h.data j = some l' →
    ∀ p q, p < M → q < M → Bitmap.bit l.bits p = true → Bitmap.bit l'.bits q = true → l.keys p < l'.keys q)
  filled : 2 ≤ is.length → ∀ i ∈ is, ∀ l, h.data i = some l → ∃ p, p < M ∧ Bitmap.bit l.bits p = true

/-- Every leaf holds a key other than the largest value of the key type (or at least two keys). -/
def NotOnlyMax (c : FCfg K V) (h : Heap (FLeaf M K V)) (is : List Nat) : Prop :=
  ∀ i ∈ is, ∀ l, h.data i = some l → ∃ p, p < M ∧ Bitmap.bit l.bits p = true ∧ l.keys p < c.lim.max

/-- Some valid slot of some leaf of the list holds the entry. -/
def Stored (h : Heap (FLeaf M K V)) (is : List Nat) (k : K) (v : V) : Prop :=
  ∃ i ∈ is, ∃ l p, h.data i = some l ∧ p < M ∧ Bitmap.bit l.bits p = true ∧ l.keys p = k ∧ l.vals p = v

/-- C42 in full: recovery from any leaf list gives a tree whose lookups find exactly the stored entries. -/
def C42_statement (c : FCfg K V) (adm : K → Prop) (M : Nat) : Prop :=
  ∀ (h : Heap (FLeaf M K V)) (first : Nat) (rest : List Nat), LeafList c adm h (first :: rest) →
    ∃ s, recoverF (fpOps c M) h first = .ok s ∧
      ∀ k, ∃ r, lookup (fpOps c M) s k = .ok r ∧ ∀ v, r = some v ↔ Stored h (first :: rest) k v

theorem LeafList.content_sorted (F : FLaws c adm) (hM : 2 ≤ M) {h : Heap (FLeaf M K V)} : ∀ {is : List Nat},
    (∀ i ∈ is, ∃ l, h.data i = some l ∧ FOk c.hash adm l) →
    is.Pairwise (fun i j => ∀ l l', h.data i = some l → h.data j = some l' →
      ∀ p q, p < M → q < M → Bitmap.bit l.bits p = true → Bitmap.bit l'.bits q = true → l.keys p < l'.keys q) →
    Sorted (content (fpLaws F hM) h is)
  | [], _, _ => List.Pairwise.nil
  | i :: is, hl, ho => by
    rw [content_cons, sorted_append]
    obtain ⟨l, hd, hok⟩ := hl i (by simp)
    rw [List.pairwise_cons] at ho
    have hent : ent (fpLaws F hM) h i = l.abs := by simp [ent, hd]; rfl
    rw [hent]
    refine ⟨hok.sorted, LeafList.content_sorted F hM (fun j hj => hl j (List.mem_cons_of_mem _ hj)) ho.2, ?_⟩
    intro e he e' he'
    obtain ⟨j, hj, he'⟩ := List.mem_flatMap.1 he'
    obtain ⟨l', hd', _⟩ := hl j (List.mem_cons_of_mem _ hj)
    have hent' : ent (fpLaws F hM) h j = l'.abs := by simp [ent, hd']; rfl
    rw [hent'] at he'
    obtain ⟨p, hp, hb, rfl⟩ := mem_abs.1 he
    obtain ⟨q, hq, hb', rfl⟩ := mem_abs.1 he'
    exact ho.1 j hj l l' hd hd' p q hp hq hb hb'

theorem mem_content_iff (F : FLaws c adm) (hM : 2 ≤ M) {h : Heap (FLeaf M K V)} {is : List Nat} (k : K) (v : V) :
    (k, v) ∈ content (fpLaws F hM) h is ↔ Stored h is k v := by
  unfold content Stored
  rw [List.mem_flatMap]
  constructor
  · rintro ⟨i, hi, hm⟩
    unfold ent at hm
    cases hd : h.data i with
    | none => rw [hd] at hm; simp at hm
    | some l =>
      rw [hd] at hm
      obtain ⟨p, hp, hb, he⟩ := mem_abs.1 (show (k, v) ∈ l.abs from hm)
      exact ⟨i, hi, l, p, hd, hp, hb, (congrArg Prod.fst he).symm, (congrArg Prod.snd he).symm⟩
  · rintro ⟨i, hi, l, p, hd, hp, hb, rfl, rfl⟩
    refine ⟨i, hi, ?_⟩
    unfold ent
    rw [hd]
    exact (mem_abs.2 ⟨p, hp, hb, rfl⟩ : _ ∈ l.abs)

/-- C42 for every leaf list in which no leaf holds `std::numeric_limits<Key>::max()` alone.  Missing: leaf
lists with such a leaf, where the claim is false (`C42_refuted`). -/
theorem C42_recover_partial (F : FLaws c adm) (hN : 2 ≤ c.N) (hM : 2 ≤ M) (h : Heap (FLeaf M K V)) (first : Nat)
    (rest : List Nat) (hl : LeafList c adm h (first :: rest)) (hmax : rest ≠ [] → NotOnlyMax c h (first :: rest)) :
    ∃ s, recoverF (fpOps c M) h first = .ok s ∧
      ∀ k, ∃ r, lookup (fpOps c M) s k = .ok r ∧ ∀ v, r = some v ↔ Stored h (first :: rest) k v := by
  have hs := LeafList.content_sorted F hM hl.leaf hl.order
  have hne : rest ≠ [] → 2 ≤ (first :: rest).length := fun hne => by
    have := List.length_pos_iff.2 hne
    simp; omega
  have hready : rest ≠ [] → ∀ x ∈ first :: rest, LeafReady (fpLaws F hM) 1 h x := by
    intro hr x hx
    obtain ⟨l, hd, hok⟩ := hl.leaf x hx
    obtain ⟨p, hp, hb, hlt⟩ := hmax hr x hx l hd
    have hm : (l.keys p, l.vals p) ∈ l.abs := mem_abs.2 ⟨p, hp, hb, rfl⟩
    cases hab : l.abs with
    | nil => rw [hab] at hm; simp at hm
    | cons e es =>
      have hsort := hok.sorted
      rw [hab] at hm hsort
      refine ⟨l, e, es, hd, hok, by change 1 ≤ l.abs.length; rw [hab]; simp, hab, ?_⟩
      refine minKey_law F hok hab (Or.inr ?_)
      rcases List.mem_cons.1 hm with hm | hm
      · rw [← hm]; exact hlt
      · exact lt_trans ((List.pairwise_cons.1 hsort).1 _ hm) hlt
  obtain ⟨l, hd, hok⟩ := hl.leaf first (by simp)
  obtain ⟨s, e, g, hh, hids⟩ := recoverF_good (W := fpLaws F hM) (lm := 1) hN hl.links hs
    ⟨l, hd, hok, fun hr => by
      obtain ⟨l', _, _, hd', _, hlen, _⟩ := hready hr first (by simp)
      rw [hd] at hd'; injection hd' with hd'; rw [hd']; exact hlen⟩
    (fun x hx => hready (List.ne_nil_of_mem hx) x (List.mem_cons_of_mem _ hx))
  refine ⟨s, e, fun k => ⟨_, lookup_good g k, fun v => ?_⟩⟩
  rw [← mem_iff_find g.sorted]
  unfold cont
  rw [hh, hids, mem_content_iff]

/-- Recovery of a tree built by inserts, and further inserts into the recovered tree: all lookups are those
of the abstract map. -/
theorem C42_recover_gen (F : FLaws c adm) (hN : 3 ≤ c.N) (hM : 2 ≤ M)
    (h4 : 4 ≤ M ∨ ∀ k, adm k → k < c.lim.max) (ops ops' : List (Op K V)) (ho : InsertsOnly ops)
    (ha : ∀ k v, Op.insert k v ∈ ops → adm k) (ho' : InsertsOnly ops') (ha' : ∀ k v, Op.insert k v ∈ ops' → adm k) :
    ∃ bs s s' bs' s'', execAll (fpOps c M) (init (fpOps c M)) ops = .ok (bs, s) ∧
      recoverF (fpOps c M) s.heap 0 = .ok s' ∧ (∀ k, lookup (fpOps c M) s' k = .ok (run empty ops k)) ∧
      execAll (fpOps c M) s' ops' = .ok (bs', s'') ∧
      ∀ k, lookup (fpOps c M) s'' k = .ok (run empty (ops ++ ops') k) := by
  obtain ⟨bs, s, e, g, h, hd⟩ := after_inserts F hN hM ops ho ha
  obtain ⟨s', e', g', hh, hids⟩ := recoverF_of_good (show 2 ≤ c.N by omega) g (by omega)
    (fun l e es hok hab hlen => by
      refine minKey_law F hok hab ?_
      rcases h4 with h4 | h4
      · left
        change M / 2 ≤ l.abs.length at hlen
        change l.abs = e :: es at hab
        rw [hab] at hlen; simp at hlen; omega
      · right
        obtain ⟨p, hp, hb, he⟩ := mem_abs.1 (show e ∈ l.abs by
          change l.abs = e :: es at hab
          rw [hab]; simp)
        rw [he]; exact h4 _ (hok.adm p hp hb)) hd
  have hst : Stores (fpLaws F hM) s' (run empty ops) := by
    intro k
    have : cont (fpLaws F hM) s' = cont (fpLaws F hM) s := by unfold cont; rw [hh, hids]
    rw [this]; exact h k
  obtain ⟨bs', s'', e'', g'', h''⟩ := inserts_good (W := fpLaws F hM) (show M / 2 ≤ M / 2 from le_rfl)
    (Nat.zero_le _) (show 2 ≤ c.N by omega) (Nat.zero_le 1) ops' s' _ g' hst ho' ha'
  refine ⟨bs, s, s', bs', s'', e, e', fun k => hst.lookup g' k, e'', fun k => ?_⟩
  rw [h''.lookup g'' k, run_append]

/-- C42 after inserts of non-negative `int` keys, for leaves of at least four entries: losing the branch
nodes and calling `recover` changes no lookup, and later inserts work as if nothing had happened. -/
theorem C42_recover_inserts (N : Nat) (hN : 3 ≤ N) (hM : 4 ≤ M) (jf : Nat → Nat) (jk : Nat → Int) (jv : Nat → V)
    (ops ops' : List (Op Int V)) (ho : InsertsOnly ops) (ha : NonNeg ops) (ho' : InsertsOnly ops')
    (ha' : NonNeg ops') :
    ∃ bs s s' bs' s'', execAll (fpOps (cfgInt N jf jk jv) M) (init (fpOps (cfgInt N jf jk jv) M)) ops = .ok (bs, s) ∧
      recoverF (fpOps (cfgInt N jf jk jv) M) s.heap 0 = .ok s' ∧
      (∀ k, lookup (fpOps (cfgInt N jf jk jv) M) s' k = .ok (run empty ops k)) ∧
      execAll (fpOps (cfgInt N jf jk jv) M) s' ops' = .ok (bs', s'') ∧
      ∀ k, lookup (fpOps (cfgInt N jf jk jv) M) s'' k = .ok (run empty (ops ++ ops') k) :=
  C42_recover_gen (flaws_int N jf jk jv) hN (by omega) (Or.inl hM) ops ops' ho ha ho' ha'

/-- C42 after inserts for leaves of two or three entries, without key `INT_MAX`. -/
theorem C42_recover_inserts_small (N : Nat) (hN : 3 ≤ N) (hM : 2 ≤ M) (jf : Nat → Nat) (jk : Nat → Int)
    (jv : Nat → V) (ops ops' : List (Op Int V)) (ho : InsertsOnly ops) (ha : NonNegBelow ops)
    (ho' : InsertsOnly ops') (ha' : NonNegBelow ops') :
    ∃ bs s s' bs' s'', execAll (fpOps (cfgInt N jf jk jv) M) (init (fpOps (cfgInt N jf jk jv) M)) ops = .ok (bs, s) ∧
      recoverF (fpOps (cfgInt N jf jk jv) M) s.heap 0 = .ok s' ∧
      (∀ k, lookup (fpOps (cfgInt N jf jk jv) M) s' k = .ok (run empty ops k)) ∧
      execAll (fpOps (cfgInt N jf jk jv) M) s' ops' = .ok (bs', s'') ∧
      ∀ k, lookup (fpOps (cfgInt N jf jk jv) M) s'' k = .ok (run empty (ops ++ ops') k) :=
  C42_recover_gen (flaws_below N jf jk jv) hN hM (Or.inr (fun _ h => h.2)) ops ops' ho ha ho' ha'

/-- C42 after histories with (safe) erases. -/
theorem C42_recover_safe_partial (N q : Nat) (hN : N = 2 * q) (hq : 3 ≤ q) (hM : 2 ≤ M) (jf : Nat → Nat)
    (jk : Nat → Int) (jv : Nat → V) (ops : List (Op Int V)) (ha : NonNegBelow ops)
    (hs : SafeHist (cfgInt N jf jk jv) (init (fpOps (cfgInt N jf jk jv) M)) ops) :
    ∃ s s', execAll (fpOps (cfgInt N jf jk jv) M) (init (fpOps (cfgInt N jf jk jv) M)) ops = .ok (outs empty ops, s) ∧
      recoverF (fpOps (cfgInt N jf jk jv) M) s.heap 0 = .ok s' ∧
      ∀ k, lookup (fpOps (cfgInt N jf jk jv) M) s' k = .ok (run empty ops k) := by
  have F := flaws_below (V := V) N jf jk jv
  obtain ⟨s, e, g, h, hd⟩ := safe_history F (fun k hk => hk.2) hM hN hq ops _ empty
    (init_good _ _ _ _).1 (init_stores _) ha hs
  obtain ⟨s', e', g', hh, hids⟩ := recoverF_of_good (show 2 ≤ N by omega) g (by omega)
    (fun l e es hok hab hlen => by
      refine minKey_law F hok hab (Or.inr ?_)
      obtain ⟨p, hp, hb, he⟩ := mem_abs.1 (show e ∈ l.abs by
        change l.abs = e :: es at hab
        rw [hab]; simp)
      rw [he]; exact (hok.adm p hp hb).2) hd
  refine ⟨s, s', e, e', fun k => ?_⟩
  have : cont (fpLaws F hM) s' = cont (fpLaws F hM) s := by unfold cont; rw [hh, hids]
  rw [lookup_good g', this, h k]

example : InsertsOnly collisions ∧ NonNeg collisions ∧ run empty (collisions ++ collisions) 1025 = some 50 := by
  refine ⟨?_, ?_, by decide⟩
  · intro op h
    simp only [collisions, List.mem_cons, List.not_mem_nil, or_false] at h
    rcases h with rfl | rfl | rfl | rfl | rfl | rfl <;> exact ⟨_, _, rfl⟩
  · intro k v h
    simp only [collisions, List.mem_cons, List.not_mem_nil, or_false, Op.insert.injEq] at h
    omega

/-! A leaf list with a leaf that holds only `INT_MAX`, in slot 1; slot 0 holds an old key. -/

/-- The bitmap with the bits `0 .. 1` as given. -/
def bm2 (a b : Bool) : Bitmap 2 :=
  ⟨fun i => if i = 0 then (if a then 1 else 0) + (if b then 2 else 0) else 0⟩

def leafA : FLeaf 2 Int Nat := ⟨bm2 true true, fun i => if i = 0 then 1 else 5, fun i => if i = 0 then 1 else 5, fun _ => 7⟩
def leafB : FLeaf 2 Int Nat := ⟨bm2 false true, fun _ => 255, fun i => if i = 0 then 3 else 2 ^ 31 - 1, fun _ => 8⟩

def heapAB : Heap (FLeaf 2 Int Nat) where
  data := fun i => if i = 0 then some leafA else if i = 1 then some leafB else none
  next := fun i => if i = 0 then some 1 else none
  prev := fun i => if i = 1 then some 0 else none
  fresh := 2

abbrev cfgAB : FCfg Int Nat := cfgInt 6 (fun _ => 0) (fun _ => 0) (fun _ => 0)

theorem bit_bm2 (a b : Bool) : ∀ p, p < 2 → Bitmap.bit (bm2 a b) p = if p = 0 then a else b := by
  intro p hp
  have : p = 0 ∨ p = 1 := by omega
  rcases this with rfl | rfl <;> cases a <;> cases b <;> decide

theorem clean_bm2 (a b : Bool) : Bitmap.Clean (bm2 a b) := by
  intro i k hi hk h2
  have hi0 : i = 0 := by
    have : Bitmap.numWords 2 = 1 := by decide
    omega
  subst hi0
  have : ∀ a b : Bool, ∀ k : Fin 64, 2 ≤ k.val → ((bm2 a b).words 0).getLsbD k.val = false := by decide +kernel
  exact this a b ⟨k, hk⟩ (by simpa using h2)

theorem leafA_ok : FOk cfgAB.hash (fun k => 0 ≤ k ∧ k < 2 ^ 31) leafA where
  clean := clean_bm2 _ _
  inj := by
    intro i j hi hj _ _
    have h1 : i = 0 ∨ i = 1 := by omega
    have h2 : j = 0 ∨ j = 1 := by omega
    rcases h1 with rfl | rfl <;> rcases h2 with rfl | rfl <;> simp [leafA]
  fp := by
    intro i hi _
    have h1 : i = 0 ∨ i = 1 := by omega
    rcases h1 with rfl | rfl <;> decide
  adm := by
    intro i hi _
    have h1 : i = 0 ∨ i = 1 := by omega
    rcases h1 with rfl | rfl <;> simp [leafA]

theorem leafB_ok : FOk cfgAB.hash (fun k => 0 ≤ k ∧ k < 2 ^ 31) leafB where
  clean := clean_bm2 _ _
  inj := by
    intro i j hi hj h1 h2
    have e : ∀ i, i < 2 → Bitmap.bit leafB.bits i = true → i = 1 := by
      intro i hi h
      change Bitmap.bit (bm2 false true) i = true at h
      rw [bit_bm2 _ _ _ hi] at h
      by_contra hne
      rw [if_pos (by omega)] at h
      exact absurd h (by decide)
    intro _
    rw [e i hi h1, e j hj h2]
  fp := by
    intro i hi h
    have h1 : i = 0 ∨ i = 1 := by omega
    rcases h1 with rfl | rfl
    · exact absurd h (by decide)
    · decide
  adm := by
    intro i hi h
    have h1 : i = 0 ∨ i = 1 := by omega
    rcases h1 with rfl | rfl
    · exact absurd h (by decide)
    · simp [leafB]

theorem leafList_AB : LeafList cfgAB (fun k => 0 ≤ k ∧ k < 2 ^ 31) heapAB [0, 1] where
  links := {
    nodup := by decide
    fresh := by decide
    alive := by
      intro i hi
      simp only [List.mem_cons, List.not_mem_nil, or_false] at hi
      rcases hi with rfl | rfl <;> decide
    chain := by
      refine ⟨?_, ?_⟩ <;> decide }
  leaf := by
    intro i hi
    simp only [List.mem_cons, List.not_mem_nil, or_false] at hi
    rcases hi with rfl | rfl
    · exact ⟨leafA, rfl, leafA_ok⟩
    · exact ⟨leafB, rfl, leafB_ok⟩
  order := by
    rw [List.pairwise_pair]
    intro l l' hl hl' p q hp hq hb hb'
    obtain rfl : leafA = l := Option.some.inj hl
    obtain rfl : leafB = l' := Option.some.inj hl'
    have h1 : p = 0 ∨ p = 1 := by omega
    have h2 : q = 0 ∨ q = 1 := by omega
    rcases h2 with rfl | rfl
    · exact absurd hb' (by decide)
    · rcases h1 with rfl | rfl <;> decide
  filled := by
    intro _ i hi l hl
    simp only [List.mem_cons, List.not_mem_nil, or_false] at hi
    rcases hi with rfl | rfl
    · obtain rfl : leafA = l := Option.some.inj hl
      exact ⟨0, by decide, by decide⟩
    · obtain rfl : leafB = l := Option.some.inj hl
      exact ⟨1, by decide, by decide⟩

set_option maxRecDepth 100000 in
/-- Recovery reads the smallest key of the second leaf as the stale 3 of slot 0; key 5 of the first leaf is
then looked up in the second leaf and not found. -/
theorem C42_refuted : ¬ C42_statement cfgAB (fun k => 0 ≤ k ∧ k < 2 ^ 31) 2 := by
  intro hst
  obtain ⟨s, e, h⟩ := hst heapAB 0 [1] leafList_AB
  obtain ⟨r, hr, hv⟩ := h 5
  have hd : (recoverF (fpOps cfgAB 2) heapAB 0 >>= fun s => lookup (fpOps cfgAB 2) s 5) = .ok none := by
    decide +kernel
  rw [e, Res.ok_bind, hr] at hd
  have h5 := (hv 7).2 ⟨0, by simp, leafA, 1, rfl, by decide, by decide, by decide, by decide⟩
  rw [Res.ok.inj hd] at h5
  exact absurd h5 (by decide)

/-! ## C48 -/

/-- The leaf shows the map `m` to `lookup` and to `scan`. -/
def Shows (c : FCfg K V) (l : FLeaf M K V) (m : K → Option V) : Prop :=
  (∀ k, l.lookup c k = .ok (m k)) ∧ ∃ es, l.scanFrom 0 M = .ok es ∧ ListsOnce m es

/-- The leaf after the first `n` writes of an insert into the first free slot. -/
def crashed (c : FCfg K V) (l : FLeaf M K V) (k : K) (v : V) (n : Nat) : Res (FLeaf M K V) :=
  applyAll l ((insertWrites c l.bits.getFreeZero k v).take n)

/-- C48 in full: at every crash point inside an insert, lookups and scans see the old or the new entries. -/
def C48_statement (c : FCfg K V) (adm : K → Prop) (M : Nat) : Prop :=
  ∀ (l : FLeaf M K V) (m : K → Option V), FOk c.hash adm l → Shows c l m → l.bits.count < M →
    ∀ k, m k = none → adm k → ∀ v n, ∃ l', crashed c l k v n = .ok l' ∧
      (Shows c l' m ∨ Shows c l' (step m (.insert k v)))

/-- C48 for scans alone and for lookups alone; `lookup` may still see the old entries when `scan` sees the
new ones (`C48_refuted`), which is the missing part. -/
theorem C48_crash_partial {l : FLeaf M K V} {m : K → Option V} (h : FOk c.hash adm l) (hs : Shows c l m)
    (hc : l.bits.count < M) (k : K) (hk : m k = none) (ha : adm k) (v : V) (n : Nat) :
    ∃ l', crashed c l k v n = .ok l' ∧
      (∃ es, l'.scanFrom 0 M = .ok es ∧ (ListsOnce m es ∨ ListsOnce (step m (.insert k v)) es)) ∧
      ((∀ x, l'.lookup c x = .ok (m x)) ∨ ∀ x, l'.lookup c x = .ok (step m (.insert k v) x)) := by
  have hl : l.abs.length < M := by rw [← h.count]; exact hc
  have hfind : ∀ x, find x l.abs = m x := fun x => by
    have := hs.1 x
    rw [lookup_law h] at this
    exact Res.ok.inj this
  have hne : ∀ e ∈ l.abs, e.1 ≠ k := by
    rintro ⟨k', v'⟩ he rfl
    have := (mem_iff_find h.sorted).1 he
    rw [hfind, hk] at this
    exact absurd this (by simp)
  obtain ⟨es, hes, hlist⟩ := hs.2
  have hes' : es = ents l := by
    have := scanFrom_eq l M 0 (by omega)
    rw [hes] at this
    exact Res.ok.inj this
  subst hes'
  have hnew : ∀ es', es'.Perm ((k, v) :: ents l) → ListsOnce (step m (.insert k v)) es' := by
    intro es' hp
    have hkn : k ∉ (ents l).map Prod.fst := by
      intro hm
      obtain ⟨⟨k', v'⟩, he, rfl⟩ := List.mem_map.1 hm
      exact hne _ ((abs_perm l).mem_iff.2 he) rfl
    refine ⟨(hp.map Prod.fst).nodup_iff.2 (List.nodup_cons.2 ⟨hkn, hlist.1⟩), fun x w => ?_⟩
    rw [hp.mem_iff, List.mem_cons, hlist.2 x w]
    simp only [step]
    by_cases hx : x = k
    · subst hx
      rw [if_pos rfl, hk]
      constructor
      · rintro (h | h)
        · rw [(Prod.mk.inj h).2]
        · exact absurd h (by simp)
      · intro h
        left
        rw [Option.some.inj h]
    · rw [if_neg hx]
      constructor
      · rintro (h | h)
        · exact absurd (Prod.mk.inj h).1 hx
        · exact h
      · exact Or.inr
  have hup : ∀ x, find x (upsert k v l.abs) = step m (.insert k v) x := by
    intro x
    rw [find_upsert]
    simp only [step]
    by_cases hx : x = k
    · rw [if_pos hx, if_pos hx]
    · rw [if_neg hx, if_neg hx, hfind]
  obtain ⟨l', e, h'⟩ := crash_points h hl hne ha v n
  refine ⟨l', e, ?_, ?_⟩
  · refine ⟨ents l', scanFrom_eq l' M 0 (by omega), ?_⟩
    rcases h' with ⟨_, _, he⟩ | ⟨_, hp, _⟩ | ⟨_, _, hp, _⟩
    · left; rw [he]; exact hlist
    · right; exact hnew _ hp
    · right; exact hnew _ hp
  · rcases h' with ⟨_, hok, he⟩ | ⟨_, _, h3⟩ | ⟨_, hok, _, hab⟩
    · left
      intro x
      rw [lookup_law hok, FLeaf.abs, he]
      exact congrArg Res.ok (hfind x)
    · rcases h3 with h3 | ⟨hok, hab⟩
      · left; intro x; rw [h3 x]; exact hs.1 x
      · right; intro x; rw [lookup_law hok, hab, hup]
    · right; intro x; rw [lookup_law hok, hab, hup]

/-- An empty leaf. -/
def leaf0 : FLeaf 2 Int Nat := ⟨bm2 false false, fun _ => 0, fun _ => 0, fun _ => 0⟩

theorem leaf0_bit (p : Nat) (hp : p < 2) : Bitmap.bit leaf0.bits p = false := by
  change Bitmap.bit (bm2 false false) p = false
  rw [bit_bm2 _ _ _ hp]; simp

theorem leaf0_ok : FOk cfgAB.hash (fun k => 0 ≤ k ∧ k < 2 ^ 31) leaf0 where
  clean := clean_bm2 _ _
  inj := by intro i j hi hj h; rw [leaf0_bit i hi] at h; exact absurd h (by decide)
  fp := by intro i hi h; rw [leaf0_bit i hi] at h; exact absurd h (by decide)
  adm := by intro i hi h; rw [leaf0_bit i hi] at h; exact absurd h (by decide)

theorem leaf0_shows : Shows cfgAB leaf0 (empty : Int → Option Nat) := by
  have hab : leaf0.abs = [] := by
    rw [List.eq_nil_iff_forall_not_mem]
    intro e he
    obtain ⟨p, hp, hb, _⟩ := mem_abs.1 he
    rw [leaf0_bit p hp] at hb
    exact absurd hb (by decide)
  refine ⟨fun k => ?_, [], by decide +kernel, by simp, fun k v => by simp [empty]⟩
  rw [lookup_law leaf0_ok, hab]; rfl

/-- After the bit is set and before the fingerprint is written, `scan` reports the new entry and `lookup`
does not find it. -/
theorem C48_refuted : ¬ C48_statement cfgAB (fun k => 0 ≤ k ∧ k < 2 ^ 31) 2 := by
  intro hst
  obtain ⟨l', e, h⟩ := hst leaf0 empty leaf0_ok leaf0_shows (by decide +kernel) 1 rfl (by decide) 10 3
  have h1 : (crashed cfgAB leaf0 1 10 3 >>= fun l => l.lookup cfgAB 1) = .ok none := by decide +kernel
  have h2 : (crashed cfgAB leaf0 1 10 3 >>= fun l => l.scanFrom 0 2) = .ok [(1, 10)] := by decide +kernel
  rw [e, Res.ok_bind] at h1 h2
  rcases h with h | h
  · obtain ⟨es, he, hl⟩ := h.2
    rw [h2] at he
    have := (hl.2 1 10).1 (by rw [← Res.ok.inj he]; simp)
    exact absurd this (by simp [empty])
  · have := h.1 1
    rw [h1] at this
    exact absurd (Res.ok.inj this) (by simp [step])

/-- The consequence: inserting the key again after such a crash stores it twice in the leaf. -/
theorem C48_refuted_duplicate :
    (do
      let l ← crashed cfgAB leaf0 1 10 3
      let p ← l.pos cfgAB 1
      let l ← (if p < 2 then pure l else l.insertAt cfgAB l.bits.getFreeZero 1 11)
      l.scanFrom 0 2) = .ok [(1, 10), (1, 11)] := by decide +kernel

/-- A leaf that meets the hypotheses of `C48_crash_partial` and is not empty. -/
example : FOk cfgAB.hash (fun k => 0 ≤ k ∧ k < 2 ^ 31) leafB ∧ leafB.bits.count < 2 ∧
    leafB.lookup cfgAB (2 ^ 31 - 1) = .ok (some 8) :=
  ⟨leafB_ok, by decide +kernel, by decide +kernel⟩

end Verif.FPTreeProps
