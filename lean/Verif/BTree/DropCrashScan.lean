import Verif.BTree.BalCrashScan
import Verif.BTree.DropCrashProps

/-!
# Scans after an interrupted erase of PBPTree: the branch node above the leaves

Of the assignments to the branch node above the leaves after a merge (PBPTree.hpp:469-474) only the last but one can reach child 0, and it
then writes the pointer that stands there already.
-/

set_option linter.unusedSectionVars false

namespace Verif.BTree

open Verif Assoc
open Verif.Slots hiding none

variable {K V L : Type} [LinearOrder K] {o : Ops K V L} {W : Laws o} {lm bm : Nat}

/-- Assignments that leave child 0 as it is. -/
def Keeps0 {α : Type} (n : BNode K α) (w : BW K α) : Prop := w.low = false ∨ ∃ a, w = .kid 0 a ∧ n.kids 0 = some a

theorem applyBW_keeps0 {α : Type} : ∀ (ws : List (BW K α)) (n n' : BNode K α), (∀ w ∈ ws, Keeps0 n w) → applyBW o n ws = .ok n' →
    n'.kids 0 = n.kids 0 := by
  intro ws
  induction ws with
  | nil => intro n n' _ e; obtain rfl : n = n' := Res.ok.inj e; rfl
  | cons w ws ih =>
    intro n n' hw e
    obtain ⟨n1, e1, e⟩ := Res.bind_eq_ok.1 e
    have h1 : n1.kids 0 = n.kids 0 := by
      rcases hw w (by simp) with h | ⟨a, rfl, ha⟩
      · exact BW.apply_low h e1
      · obtain ⟨_, e2, e1⟩ := Res.bind_eq_ok.1 e1
        obtain rfl : _ = n1 := Res.ok.inj e1
        rw [wr_inv e2]
        exact ha.symm
    refine (ih n1 n' (fun w' h => ?_) e).trans h1
    rcases hw w' (List.mem_cons_of_mem _ h) with h | ⟨a, h2, ha⟩
    · exact .inl h
    · exact .inr ⟨a, h2, h1.trans ha⟩

theorem dropWrites_keeps0 {α : Type} {n : BNode K α} {p : Nat} {a : α} (num : Nat) (ha : n.kids p = some a) :
    ∀ w ∈ dropWrites (K := K) num p a, Keeps0 n w := by
  have hl : ∀ c p, ∀ w ∈ dropLoop (K := K) (α := α) p c, w.low = false := by
    intro c
    induction c with
    | zero => intro p; simp [dropLoop]
    | succ c ih => intro p; simp only [dropLoop, List.forall_mem_cons]; exact ⟨rfl, rfl, ih (p + 1)⟩
  intro w hw
  simp only [dropWrites, List.mem_append, List.mem_cons, List.not_mem_nil, or_false] at hw
  rcases hw with hw | rfl | rfl
  · exact .inl (hl _ _ w hw)
  · rcases p with _ | p
    · exact .inr ⟨a, rfl, ha⟩
    · exact .inl rfl
  · exact .inl rfl

theorem dropW_keeps0 {α : Type} {n : BNode K α} {pos p : Nat} {a : α} (hp : (if pos > 0 then pos - 1 else pos) = p) (ha : n.kids p = some a) :
    ∀ w ∈ dropW n pos a, Keeps0 n w := by
  intro w hw
  unfold dropW at hw
  rw [hp] at hw
  split at hw
  · exact dropWrites_keeps0 _ ha w hw
  · cases hw

theorem eraseP_keeps0 {Q : L → Bd K → Bd K → Prop} {h : Heap L} {top : Nat} {n : BNode K Nat} {lo hi : Bd K} {pre post : List Nat} {k : K}
    (hb : Bt W Q lm bm h 1 top n lo hi) (w : Wf h (pre ++ ids (K := K) 1 n ++ post)) {r : Heap L × List (BW K Nat)}
    (e : eraseP o h n k = .ok r) : ∀ w ∈ r.2, Keeps0 n w := by
  obtain ⟨κ, χ, _, hN, hk, hc, _⟩ := (hb.frame (Q' := tt) (fun _ _ _ _ => trivial) (fun _ _ => rfl)).node k
  unfold eraseP at e
  obtain ⟨pos, e1, e⟩ := Res.bind_eq_ok.1 e
  obtain ⟨id, e2, e⟩ := Res.bind_eq_ok.1 e
  obtain ⟨r1, e3, e⟩ := Res.bind_eq_ok.1 e
  obtain ⟨l, e4, e⟩ := Res.bind_eq_ok.1 e
  obtain ⟨v1, v2, v3⟩ := eraseLeaf_frees e3
  by_cases hun : o.num l < (o.M + 1) / 2
  swap
  · rw [if_neg hun] at e
    cases Res.ok.inj e
    intro w hw; cases hw
  rw [if_pos hun] at e
  have hid : n.kids pos = some id := by
    unfold rd at e2
    split at e2
    · cases hh : n.kids pos with
      | none => rw [hh] at e2; cases e2
      | some y => rw [hh] at e2; cases Res.ok.inj e2; rfl
    · cases e2
  unfold underflowP at e
  obtain ⟨_, e6, e⟩ := Res.bind_eq_ok.1 e
  have hpn : pos ≤ n.num := by
    by_contra hcon
    unfold Res.assert at e6
    rw [if_neg hcon] at e6
    cases e6
  obtain ⟨ls, e7, e⟩ := Res.bind_eq_ok.1 e
  by_cases c1 : pos > 0 ∧ (o.M + 1) / 2 < ls.2
  · rw [if_pos c1] at e
    obtain ⟨_, _, e⟩ := Res.bind_eq_ok.1 e
    obtain ⟨_, _, e⟩ := Res.bind_eq_ok.1 e
    obtain ⟨_, _, e⟩ := Res.bind_eq_ok.1 e
    cases Res.ok.inj e
    intro w hw
    obtain rfl := List.mem_singleton.1 hw
    exact .inl rfl
  rw [if_neg c1] at e
  obtain ⟨rs, e8, e⟩ := Res.bind_eq_ok.1 e
  by_cases c2 : pos < n.num ∧ (o.M + 1) / 2 < rs.2
  · rw [if_pos c2] at e
    obtain ⟨_, _, e⟩ := Res.bind_eq_ok.1 e
    obtain ⟨_, _, e⟩ := Res.bind_eq_ok.1 e
    obtain ⟨_, _, e⟩ := Res.bind_eq_ok.1 e
    cases Res.ok.inj e
    intro w hw
    obtain rfl := List.mem_singleton.1 hw
    exact .inl rfl
  rw [if_neg c2] at e
  by_cases c3 : pos > 0 ∧ ls.2 ≤ (o.M + 1) / 2
  · rw [if_pos c3] at e
    obtain ⟨h2, e9, e⟩ := Res.bind_eq_ok.1 e
    cases Res.ok.inj e
    have hls : n.kids (pos - 1) = some ls.1 := by
      have h1 := hc (pos - 1) (by omega)
      have h3 := (node_chain hb w.chain (j := pos - 1) (by omega) h1 (by rw [show pos - 1 + 1 = pos by omega]; exact hid)).2
      unfold leftSib at e7
      rw [if_pos c3.1, v3, h3, Res.ofOption_some, Res.ok_bind] at e7
      obtain ⟨_, _, e7⟩ := Res.bind_eq_ok.1 e7
      cases Res.ok.inj e7
      exact h1
    exact dropW_keeps0 (if_pos c3.1) hls
  rw [if_neg c3] at e
  by_cases c4 : pos < n.num ∧ rs.2 ≤ (o.M + 1) / 2
  · rw [if_pos c4] at e
    obtain ⟨h2, e9, e⟩ := Res.bind_eq_ok.1 e
    cases Res.ok.inj e
    exact dropW_keeps0 (if_neg (by omega)) hid
  · rw [if_neg c4] at e
    cases e

/-- The first leaf is the same at every crash point. -/
theorem dropAt_first {Q : L → Bd K → Bd K → Prop} (k : K) (q : Nat) : ∀ (d top : Nat) (h : Heap L) (n : BNode K (Tree K d)) (lo hi : Bd K)
    (pre post : List Nat), Bt W Q lm bm h (d + 1) top n lo hi → InR lo hi k → Wf h (pre ++ ids (d + 1) n ++ post) →
    ∀ r, dropAt o d h n k q = .ok r → leftmost o (d + 1) r.2 = leftmost o (d + 1) n := by
  intro d
  induction d with
  | zero =>
    intro top h n lo hi pre post hb hk w r e
    obtain ⟨r1, e1, e⟩ := Res.bind_eq_ok.1 e
    obtain ⟨n', e2, e⟩ := Res.bind_eq_ok.1 e
    obtain rfl : _ = r := Res.ok.inj e
    exact leftmost_kid0 (applyBW_keeps0 _ _ _ (fun w' hw => eraseP_keeps0 hb w e1 w' (List.mem_of_mem_take hw)) e2)
  | succ d ih =>
    intro top h n lo hi pre post hb hk w r e
    obtain ⟨cs, ks, hr, _, ht⟩ := hb
    obtain ⟨hks, _, _⟩ := keys_sorted (fun c a b hc => Bt.lt hc) ht
    obtain ⟨c1, c, c2, k1, k2, b1, m, m', b2, f⟩ := exists_focus W (fun c a b hc => Bt.lt hc) ht hk
    have hids : ids (d + 2) n = c1.flatMap (ids (d + 1)) ++ ids (d + 1) c ++ c2.flatMap (ids (d + 1)) := by
      rw [ids_rep hr, f.hcs]; simp
    have hlp := f.lookupPos hr hks
    have hrd := f.rdKid hr
    have w' : Wf h ((pre ++ c1.flatMap (ids (d + 1))) ++ ids (d + 1) c ++ (c2.flatMap (ids (d + 1)) ++ post)) := by
      rw [hids] at w; simpa using w
    rw [dropAt, hlp, Res.ok_bind, hrd, Res.ok_bind] at e
    obtain ⟨r1, e1, e⟩ := Res.bind_eq_ok.1 e
    obtain ⟨kids, e2, e⟩ := Res.bind_eq_ok.1 e
    obtain rfl : _ = r := Res.ok.inj e
    have hl := ih _ h c m m' _ _ f.pc f.inR w' r1 e1
    rw [wr_inv e2]
    by_cases h0 : k1.length = 0
    · rw [h0] at hrd
      change (rd (o.N + 1) _ 0 >>= fun c => leftmost o (d + 1) c) = (rd (o.N + 1) n.kids 0 >>= fun c => leftmost o (d + 1) c)
      rw [hrd, Res.ok_bind, rd_ok (x := r1.2) (by omega) (if_pos h0.symm), Res.ok_bind]
      exact hl
    · exact leftmost_kid0 (if_neg (fun hc => h0 hc.symm))

/-- What a crash leaves has the first leaf of the tree before the erase, unless it is the tree after the erase. -/
theorem eraseAt_first {Q : L → Bd K → Bd K → Prop} {s s1 s' : State K L} {b : Bool} {k : K} {q top : Nat}
    (hb : Bt W Q lm bm s.heap s.depth top s.root ⊥ ⊤) (w : Wf s.heap (ids s.depth s.root)) (e : erase o s k = .ok (b, s1))
    (e' : eraseAt o s k q = .ok (.tree s')) : leftmost o s'.depth s'.root = leftmost o s.depth s.root ∨ s' = s1 := by
  obtain ⟨d, t, h⟩ := s
  unfold erase at e
  unfold eraseAt at e'
  rcases d with _ | _ | d
  · simp only [eraseAtT] at e'
    obtain ⟨r, _, e'⟩ := Res.bind_eq_ok.1 e'
    cases Res.ok.inj e'
    exact .inl rfl
  · simp only [eraseT] at e
    obtain ⟨r, e1, e2⟩ := Res.bind_eq_ok.1 e
    rw [eraseB] at e1
    simp only [eraseAtT] at e'
    rw [e1, Res.ok_bind] at e'
    cases hr : r.newRoot with
    | none =>
      rw [hr] at e'
      obtain ⟨r1, e3, e'⟩ := Res.bind_eq_ok.1 e'
      cases Res.ok.inj e'
      exact .inl (dropAt_first k q 0 top h t ⊥ ⊤ [] [] hb (inR_univ k) (by simpa using w) r1 e3)
    | some t' =>
      rw [hr] at e' e2
      cases Res.ok.inj e2
      dsimp only at e'
      split at e'
      · cases Res.ok.inj e'; exact .inl rfl
      · split at e'
        · cases Res.ok.inj e'
        · cases Res.ok.inj e'; exact .inr rfl
  · simp only [eraseAtT] at e'
    obtain ⟨r1, e3, e'⟩ := Res.bind_eq_ok.1 e'
    cases Res.ok.inj e'
    exact .inl (dropAt_first k q (d + 1) top h t ⊥ ⊤ [] [] hb (inR_univ k) (by simpa using w) r1 e3)

end Verif.BTree

namespace Verif.BTreeProps

open Verif BTree MapSpec Assoc

variable {K V : Type} [LinearOrder K]

/-- C134 for a crash in the branch node above the leaves (the model of C129): at every point apart from the one between the assignments to
`rootNode` and `depth`, a scan lists exactly the entries after the erase, in order. -/
theorem C134_leaf_level (N M q : Nat) (hN : N = 2 * q) (hq : 3 ≤ q) (hM : 4 ≤ M) (ops : List (Op K V))
    (ho : ErasesPresent empty ops) (k : K) (hk : run empty ops k ≠ none) :
    ∃ s : State K (SLeaf K V), execAll (PB N M) (init (PB N M)) ops = .ok (outs empty ops, s) ∧
      ∃ es, Lists (step (run empty ops) (.erase k)) es ∧ ∀ t,
        eraseAt (PB N M) s k t = .ok .mixed ∧ s.depth = 1 ∧ t = 1 ∨ ∃ s', eraseAt (PB N M) s k t = .ok (.tree s') ∧ scan (PB N M) s' = .ok es := by
  have hM2 : 2 ≤ M := by omega
  obtain ⟨s, s1, e, e1, _, hall⟩ := C129_exact N M q hN hq hM ops ho k hk
  obtain ⟨s2, e2, g, h⟩ := pb_history (K := K) (V := V) N M q hN hq hM2 ops ho
  cases Res.ok.inj (e2.symm.trans e)
  have hfl : ∀ id l, findLeaf (PB N M : Ops K V _) s.depth s.root k = .ok id → s.heap.data id = some l →
      (sortedErase (pbLaws (K := K) (V := V) (N := N) hM2)).pre l k := by
    intro id l h1 h2
    have hf : find k (cont (sortedLaws (pbLaws (K := K) (V := V) (N := N) hM2)) s) ≠ none := by rw [h k]; exact hk
    obtain ⟨v, hv⟩ := Option.ne_none_iff_exists'.1 (leaf_of_present g hf h1 h2)
    exact ⟨(k, v), Assoc.find_some_mem hv, le_rfl⟩
  obtain ⟨s3, e3, g1, c1, hh⟩ := erase_good_head (sortedErase (pbLaws (K := K) (V := V) (N := N) hM2)) (q := q) hN hq hM2 g
    (g.bt.frame (fun _ _ _ _ => trivial) (fun _ _ => rfl)) k hfl
  obtain ⟨_, rfl⟩ := Prod.mk.inj (Res.ok.inj (e3.symm.trans e1))
  have hl : Lists (step (run empty ops) (.erase k)) (cont (sortedLaws (pbLaws (K := K) (V := V) (N := N) hM2)) s3) :=
    Stores.lists g1 (h.erase c1)
  obtain ⟨es, es1, es2, _⟩ := scan_good (sortedScan (pbLaws (K := K) (V := V) (N := N) hM2)) g1
  have hes : es = cont (sortedLaws (pbLaws (K := K) (V := V) (N := N) hM2)) s3 := es2
  subst hes
  have hsame : leftmost (PB N M : Ops K V _) s3.depth s3.root = leftmost (PB N M : Ops K V _) s.depth s.root := by
    obtain ⟨i1, r1, a1, b1⟩ := leftmost_spec _ _ _ _ _ g1.bt
    obtain ⟨i2, r2, a2, b2⟩ := leftmost_spec _ _ _ _ _ g.bt
    rw [b1, b2] at hh
    exact a1.trans ((congrArg Res.ok (Option.some.inj hh)).trans a2.symm)
  refine ⟨s, e, _, hl, fun t => ?_⟩
  rcases hall t with ⟨h1, _, h3, h4⟩ | ⟨_, s', f1, f2, _⟩
  · exact .inl ⟨h4, h1, h3⟩
  · refine .inr ⟨s', f1, ?_⟩
    rcases eraseAt_first g.bt g.wf e1 f1 with h1 | rfl
    · refine Eq.trans ?_ es1
      change (leftmost (PB N M : Ops K V _) s'.depth s'.root >>= fun id => scanLoop (PB N M) s'.heap s'.heap.fresh (some id)) =
        (leftmost (PB N M : Ops K V _) s3.depth s3.root >>= fun id => scanLoop (PB N M) s3.heap s3.heap.fresh (some id))
      rw [show leftmost (PB N M : Ops K V _) s'.depth s'.root = _ from h1, hsame, f2]
      rfl
    · exact es1

/-- The scan and a lookup of `x` after `ops` and a crash after `t` assignments to the branch node above the leaves in the erase of `k`. -/
def scanDropEx (ops : List (Op Nat Nat)) (k t x : Nat) : Res (List Nat × Res (Option Nat)) := do
  let r ← execAll (PB 6 4 : Ops Nat Nat _) (init (PB 6 4)) ops
  match ← eraseAt (PB 6 4) r.2 k t with
  | .tree s => do
    let es ← scan (PB 6 4) s
    pure (es.map Prod.fst, lookup (PB 6 4) s x)
  | .mixed => .assertFail

/-- A case that meets the hypotheses: the erase of 10 merges two leaves.  Before the first assignment a lookup of 30 follows the pointer to
the deleted leaf, but the scan lists all keys. -/
example : scanDropEx sixLeaves 10 0 30 = .ok ([20, 30, 40, 50, 60, 70, 80, 90, 100, 110, 120, 130], .ub) ∧
    scanDropEx sixLeaves 10 3 30 = .ok ([20, 30, 40, 50, 60, 70, 80, 90, 100, 110, 120, 130], .ok (some 30)) :=
  ⟨by decide +kernel, by decide +kernel⟩

end Verif.BTreeProps
