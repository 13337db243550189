import Verif.BTree.RecoverWrong
import Verif.BTree.Iter
import Verif.FPTree.Props

/-!
# Property theorems on erases from an FPTree after a restart (C123)

The specification is `Verif.MapSpec`.
-/

set_option linter.unusedSectionVars false

namespace Verif.FPTreeProps

open Verif Search BTree FPTree Assoc MapSpec

variable {K V : Type} {M : Nat} [LinearOrder K] [Inhabited K] {c : FCfg K V} {adm : K → Prop}

/-! ## C123 -/

/-- C123 in full: after a history of safe calls (see C41) and a restart (the branch nodes are lost, `recover` is called), every
further history of safe calls gives the right results. -/
def C123_statement (N M : Nat) (jf : Nat → Nat) (jk : Nat → Int) (jv : Nat → V) : Prop :=
  ∀ ops : List (Op Int V), NonNegBelow ops → SafeHist (cfgInt N jf jk jv) (init (fpOps (cfgInt N jf jk jv) M)) ops →
    ∀ s s' : State Int (FLeaf M Int V),
    execAll (fpOps (cfgInt N jf jk jv) M) (init (fpOps (cfgInt N jf jk jv) M)) ops = .ok (outs empty ops, s) →
    recoverF (fpOps (cfgInt N jf jk jv) M) s.heap 0 = .ok s' →
    ∀ ops' : List (Op Int V), NonNegBelow ops' → SafeHist (cfgInt N jf jk jv) s' ops' →
    ∃ s'', execAll (fpOps (cfgInt N jf jk jv) M) s' ops' = .ok (outs (run empty ops) ops', s'') ∧
      ∀ k, lookup (fpOps (cfgInt N jf jk jv) M) s'' k = .ok (run empty (ops ++ ops') k)

/-- Every leaf adds at least `lm` entries. -/
theorem leaves_le {W : Laws (fpOps c M)} {h : Heap (FLeaf M K V)} {lm : Nat} : ∀ is : List Nat,
    (∀ i ∈ is, ∃ l, h.data i = some l ∧ lm ≤ (W.abs l).length) → is.length * lm ≤ (content W h is).length
  | [], _ => by simp
  | i :: is, hl => by
    obtain ⟨l, h1, h2⟩ := hl i (by simp)
    have := leaves_le is (fun j hj => hl j (List.mem_cons_of_mem _ hj))
    rw [content_cons, List.length_append, List.length_cons, show ent W h i = W.abs l by simp [ent, h1], Nat.add_mul]
    omega

theorem atMost_length {l : List (K × V)} (hs : Sorted l) {n : Nat} {m : K → Option V} (hm : ∀ k, find k l = m k) (h : AtMost n m) :
    l.length ≤ n := by
  obtain ⟨ks, h1, h2⟩ := h
  have : (l.map Prod.fst).Subperm ks := List.subperm_of_subset (nodup_keys hs) (fun k hk => h2 k (by
    rw [← hm k]
    intro h0
    obtain ⟨e, he, rfl⟩ := List.mem_map.1 hk
    exact find_eq_none.1 h0 e he rfl))
  have := this.length_le
  rw [List.length_map] at this
  omega

/-- A restart after a history of safe calls. -/
theorem restart_good (N q : Nat) (hN : N = 2 * q) (hq : 3 ≤ q) (hM : 2 ≤ M) (jf : Nat → Nat)
    (jk : Nat → Int) (jv : Nat → V) (ops : List (Op Int V)) (ha : NonNegBelow ops)
    (hs : SafeHist (cfgInt N jf jk jv) (init (fpOps (cfgInt N jf jk jv) M)) ops) :
    ∃ s s' : State Int (FLeaf M Int V),
      execAll (fpOps (cfgInt N jf jk jv) M) (init (fpOps (cfgInt N jf jk jv) M)) ops = .ok (outs empty ops, s) ∧
      recoverF (fpOps (cfgInt N jf jk jv) M) s.heap 0 = .ok s' ∧ s'.heap = s.heap ∧ ids s'.depth s'.root = ids s.depth s.root ∧
      Good (fpLaws (flaws_below N jf jk jv) hM) (M / 2) 0 0 s' ∧ Stores (fpLaws (flaws_below N jf jk jv) hM) s' (run empty ops) := by
  obtain ⟨s, e, g, h, hd⟩ := safe_history (flaws_below N jf jk jv) (fun k hk => hk.2) hM hN hq ops _ empty
    (init_good _ _ _ _).1 (init_stores _) ha hs
  obtain ⟨s', e', g', hh, hids⟩ := recoverF_of_good (show 2 ≤ N by omega) g (by omega)
    (fun l e es hok hab hlen => by
      refine minKey_law (flaws_below N jf jk jv) hok hab (Or.inr ?_)
      obtain ⟨p, hp, hb, he⟩ := mem_abs.1 (show e ∈ l.abs by
        change l.abs = e :: es at hab
        rw [hab]; simp)
      rw [he]; exact (hok.adm p hp hb).2) hd
  refine ⟨s, s', e, e', hh, hids, g', fun k => ?_⟩
  have : cont (fpLaws (flaws_below N jf jk jv) hM) s' = cont (fpLaws (flaws_below N jf jk jv) hM) s := by unfold cont; rw [hh, hids]
  rw [this, h k]

/-- C123 for trees in which every digit, but the first, of the number of leaves minus one in base `N + 1` is at least 2.  Not
covered: other numbers of leaves, where the claim is false if a digit is zero (`C123_zero_digit`, `C123_refuted`), and may be false if
the last digit is one (`C123_one_digit`); erases that are not safe; odd `N`, `N < 6`; key `INT_MAX`. -/
theorem C123_restart_partial (N q : Nat) (hN : N = 2 * q) (hq : 3 ≤ q) (hM : 2 ≤ M) (jf : Nat → Nat)
    (jk : Nat → Int) (jv : Nat → V) (ops : List (Op Int V)) (ha : NonNegBelow ops)
    (hs : SafeHist (cfgInt N jf jk jv) (init (fpOps (cfgInt N jf jk jv) M)) ops) :
    ∃ s s' : State Int (FLeaf M Int V),
      execAll (fpOps (cfgInt N jf jk jv) M) (init (fpOps (cfgInt N jf jk jv) M)) ops = .ok (outs empty ops, s) ∧
      recoverF (fpOps (cfgInt N jf jk jv) M) s.heap 0 = .ok s' ∧
      (Digits (N + 1) 2 ((ids s.depth s.root).length - 1) →
        ∀ ops' : List (Op Int V), NonNegBelow ops' → SafeHist (cfgInt N jf jk jv) s' ops' →
        ∃ s'', execAll (fpOps (cfgInt N jf jk jv) M) s' ops' = .ok (outs (run empty ops) ops', s'') ∧
          ∀ k, lookup (fpOps (cfgInt N jf jk jv) M) s'' k = .ok (run empty (ops ++ ops') k)) := by
  obtain ⟨s, s', e, e', hh, hids, g', h'⟩ := restart_good N q hN hq hM jf jk jv ops ha hs
  refine ⟨s, s', e, e', fun hd ops' ha' hs' => ?_⟩
  rw [← hids] at hd
  have g2 := recover_fill (bm := 2) (show 1 ≤ N by omega) (show 2 ≤ N by omega) e' g' hd
  obtain ⟨s'', e'', g'', h'', _⟩ := safe_history_fill (flaws_below N jf jk jv) (fun k hk => hk.2) hM hN (show 1 ≤ M / 2 by omega)
    le_rfl le_rfl (show 2 ≤ q - 1 by omega) ops' s' _ g2 h' ha' hs'
  exact ⟨s'', e'', fun k => by rw [h''.lookup g'' k, run_append]⟩

/-- C123 for at most `(N + 1) * (M / 2)` keys. -/
theorem C123_few_keys (N q : Nat) (hN : N = 2 * q) (hq : 3 ≤ q) (hM : 2 ≤ M) (jf : Nat → Nat)
    (jk : Nat → Int) (jv : Nat → V) (ops : List (Op Int V)) (ha : NonNegBelow ops)
    (hs : SafeHist (cfgInt N jf jk jv) (init (fpOps (cfgInt N jf jk jv) M)) ops)
    (hk : AtMost ((N + 1) * (M / 2)) (run empty ops)) :
    ∃ s s' : State Int (FLeaf M Int V),
      execAll (fpOps (cfgInt N jf jk jv) M) (init (fpOps (cfgInt N jf jk jv) M)) ops = .ok (outs empty ops, s) ∧
      recoverF (fpOps (cfgInt N jf jk jv) M) s.heap 0 = .ok s' ∧
      ∀ ops' : List (Op Int V), NonNegBelow ops' → SafeHist (cfgInt N jf jk jv) s' ops' →
        ∃ s'', execAll (fpOps (cfgInt N jf jk jv) M) s' ops' = .ok (outs (run empty ops) ops', s'') ∧
          ∀ k, lookup (fpOps (cfgInt N jf jk jv) M) s'' k = .ok (run empty (ops ++ ops') k) := by
  obtain ⟨s, s', e, e', hr⟩ := C123_restart_partial N q hN hq hM jf jk jv ops ha hs
  refine ⟨s, s', e, e', hr ?_⟩
  obtain ⟨s2, s2', e2, e2', hh, hids, g', h'⟩ := restart_good N q hN hq hM jf jk jv ops ha hs
  rw [e] at e2
  cases Res.ok.inj e2
  rw [e'] at e2'
  cases Res.ok.inj e2'
  rw [← hids]
  have hlen : (ids s'.depth s'.root).length ≤ N + 1 := by
    by_cases hd : s'.depth = 0
    · obtain ⟨d, t, h0⟩ := s'
      dsimp only at hd
      subst hd
      simp [ids]
    · have h1 := leaves_le (W := fpLaws (flaws_below N jf jk jv) hM) (h := s'.heap) (lm := M / 2) (ids s'.depth s'.root) (fun i hi => by
        obtain ⟨l, hl, _, hlen⟩ := Bt.leaf_length _ _ _ _ _ g'.bt (fun h => absurd h hd) i hi
        exact ⟨l, hl, hlen⟩)
      have h2 := atMost_length g'.sorted h' hk
      unfold cont at h2
      exact Nat.le_of_mul_le_mul_right (le_trans h1 h2) (by omega)
  intro i hi
  have : (N + 1) ^ 1 ≤ (N + 1) ^ (i + 1) := Nat.pow_le_pow_right (by omega) (by omega)
  rw [pow_one] at this
  omega

/-- The search for a key that is at least as large as all stored ones ends in the last leaf. -/
theorem findLeaf_last {W : Laws (fpOps c M)} {lm bm rm : Nat} (hlm : 1 ≤ lm) {s : State K (FLeaf M K V)} (g : Good W lm bm rm s) (hd : s.depth ≠ 0)
    {k : K} (hk : ∀ e ∈ cont W s, e.1 ≤ k) :
    ∃ id l, findLeaf (fpOps c M) s.depth s.root k = .ok id ∧ s.heap.data id = some l ∧ W.ok l ∧ (ids s.depth s.root).getLast? = some id ∧
      find k (cont W s) = find k (W.abs l) := by
  obtain ⟨id, l, pre, post, m, m', e, hids, hl, hok, _, _, hr, _, _, h1, h2⟩ :=
    findLeaf_spec k s.depth (rootMin rm s.depth) s.root ⊥ ⊤ g.bt (inR_univ k)
  refine ⟨id, l, e, hl, hok, ?_, ?_⟩
  · rcases List.eq_nil_or_concat post with hp | ⟨p, z, hp⟩
    · rw [hids, hp]; simp
    · exfalso
      rw [List.concat_eq_append] at hp
      obtain ⟨lz, hlz, _, hlen⟩ := Bt.leaf_length _ _ _ _ _ g.bt (fun h => absurd h hd) z (by rw [hids, hp]; simp)
      cases hab : W.abs lz with
      | nil => rw [hab] at hlen; simp at hlen; omega
      | cons a as =>
        have hmem : a ∈ content W s.heap post := by
          rw [hp, content_append]
          apply List.mem_append_right
          simp [content, ent, hlz, hab]
        have h3 := hk a (by unfold cont; rw [hids, content_append, content_cons]; simp [hmem])
        have h4 := lt_of_lt_of_le hr.2 (h2 a hmem)
        exact absurd h4 (not_lt.2 (by simpa [bk] using h3))
  · unfold cont
    rw [hids, content_append, content_cons, find_append_right, find_append_left]
    · simp [ent, hl]
    · intro e he hk'
      have := lt_of_lt_of_le hr.2 (h2 e he)
      rw [hk'] at this; exact absurd this (lt_irrefl _)
    · intro e he hk'
      have := lt_of_lt_of_le (h1 e he) hr.1
      rw [hk'] at this; exact absurd this (lt_irrefl _)

/-- A digit zero, not the first one, in the number of leaves minus one (base `N + 1`): after the restart no erase of a key that is at
least as large as all stored ones comes to an end in the defined way, whether the key is present or not. -/
theorem C123_zero_digit (N q : Nat) (hN : N = 2 * q) (hq : 3 ≤ q) (hM : 2 ≤ M) (jf : Nat → Nat)
    (jk : Nat → Int) (jv : Nat → V) (ops : List (Op Int V)) (ha : NonNegBelow ops)
    (hs : SafeHist (cfgInt N jf jk jv) (init (fpOps (cfgInt N jf jk jv) M)) ops) :
    ∃ s s' : State Int (FLeaf M Int V),
      execAll (fpOps (cfgInt N jf jk jv) M) (init (fpOps (cfgInt N jf jk jv) M)) ops = .ok (outs empty ops, s) ∧
      recoverF (fpOps (cfgInt N jf jk jv) M) s.heap 0 = .ok s' ∧
      ∀ j, (N + 1) ^ (j + 1) ≤ (ids s.depth s.root).length - 1 → ((ids s.depth s.root).length - 1) / (N + 1) ^ j % (N + 1) = 0 →
        ∀ k, (∀ x, run empty ops x ≠ none → x ≤ k) → ∀ r, erase (fpOps (cfgInt N jf jk jv) M) s' k ≠ .ok r := by
  obtain ⟨s, s', e, e', hh, hids, g', h'⟩ := restart_good N q hN hq hM jf jk jv ops ha hs
  refine ⟨s, s', e, e', fun j hj1 hj2 k hk r er => ?_⟩
  rw [← hids] at hj1 hj2
  obtain ⟨m, hsh, hm⟩ := recoverF_sh (show 1 ≤ (fpOps (cfgInt N jf jk jv) M).N from (show 1 ≤ N by omega)) e'
  have hlen := hsh.length
  have hb : 1 ≤ m ∧ m ≤ (N + 1) ^ s'.depth := hsh.bound
  rw [hlen] at hj1 hj2
  have hjd : j + 1 < s'.depth := by
    by_contra hc
    have : (N + 1) ^ s'.depth ≤ (N + 1) ^ (j + 1) := Nat.pow_le_pow_right (by omega) (by omega)
    omega
  obtain ⟨id, l, ef, _, _, hlast, _⟩ := findLeaf_last (show 1 ≤ M / 2 by omega) g' (by omega) (k := k) (fun x hx => hk x.1 (by
    rw [← h' x.1]
    exact fun h0 => find_eq_none.1 h0 x hx rfl))
  obtain ⟨d, t, h0⟩ := s'
  cases d with
  | zero => simp at hjd
  | succ d =>
    unfold erase at er
    rw [eraseT] at er
    obtain ⟨r1, er1, _⟩ := Res.bind_eq_ok.1 er
    exact zero_digit (show 2 ≤ (fpOps (cfgInt N jf jk jv) M).N from (show 2 ≤ N by omega)) k d true t _ m ⊥ ⊤ g'.bt (inR_univ k) hsh
      g'.wf.nodup hlast ef ⟨j, by dsimp only at hjd; omega, hj2⟩ r1 er1

/-- The last digit one, with more than `N + 1` leaves: after the restart no erase of the greatest key comes to an end in the defined
way if the last leaf has at most `(M + 1) / 2` entries and so has the leaf before it. -/
theorem C123_one_digit (N q : Nat) (hN : N = 2 * q) (hq : 3 ≤ q) (hM : 2 ≤ M) (jf : Nat → Nat)
    (jk : Nat → Int) (jv : Nat → V) (ops : List (Op Int V)) (ha : NonNegBelow ops)
    (hs : SafeHist (cfgInt N jf jk jv) (init (fpOps (cfgInt N jf jk jv) M)) ops) :
    ∃ s s' : State Int (FLeaf M Int V),
      execAll (fpOps (cfgInt N jf jk jv) M) (init (fpOps (cfgInt N jf jk jv) M)) ops = .ok (outs empty ops, s) ∧
      recoverF (fpOps (cfgInt N jf jk jv) M) s.heap 0 = .ok s' ∧
      (N + 1 < (ids s.depth s.root).length → ((ids s.depth s.root).length - 1) % (N + 1) = 1 →
        ∀ pre p x lp lx, ids s.depth s.root = pre ++ [p, x] → s.heap.data p = some lp → s.heap.data x = some lx →
        lp.bits.count ≤ (M + 1) / 2 → lx.bits.count ≤ (M + 1) / 2 →
        ∀ k, run empty ops k ≠ none → (∀ y, run empty ops y ≠ none → y ≤ k) → ∀ r, erase (fpOps (cfgInt N jf jk jv) M) s' k ≠ .ok r) := by
  obtain ⟨s, s', e, e', hh, hids, g', h'⟩ := restart_good N q hN hq hM jf jk jv ops ha hs
  refine ⟨s, s', e, e', fun hj1 hj2 pre p x lp lx hpx hlp hlx hcp hcx k hk0 hk r er => ?_⟩
  rw [← hids] at hj1 hj2 hpx
  rw [← hh] at hlp hlx
  obtain ⟨m, hsh, hm⟩ := recoverF_sh (show 1 ≤ (fpOps (cfgInt N jf jk jv) M).N from (show 1 ≤ N by omega)) e'
  have hlen := hsh.length
  have hb : 1 ≤ m ∧ m ≤ (N + 1) ^ s'.depth := hsh.bound
  rw [hlen] at hj1 hj2
  have hjd : 1 < s'.depth := by
    by_contra hc
    have : (N + 1) ^ s'.depth ≤ (N + 1) ^ 1 := Nat.pow_le_pow_right (by omega) (by omega)
    rw [pow_one] at this
    omega
  obtain ⟨id, l, ef, hl, ok, hlast, hfind⟩ := findLeaf_last (show 1 ≤ M / 2 by omega) g' (by omega) (k := k) (fun x hx => hk x.1 (by
    rw [← h' x.1]
    exact fun h0 => find_eq_none.1 h0 x hx rfl))
  have hidx : id = x := by
    rw [hpx, show pre ++ [p, x] = (pre ++ [p]) ++ [x] by simp, List.getLast?_append] at hlast
    simpa using hlast.symm
  subst hidx
  rw [hl] at hlx
  have hll := Option.some.inj hlx
  subst hll
  have hne : p ≠ id := by
    have := g'.wf.nodup
    rw [hpx] at this
    intro h0
    subst h0
    have := (List.nodup_append.1 this).2.1
    simp at this
  have hprev : s'.heap.prev id = some p := by
    have := g'.wf.chain.1
    rw [hpx, List.isChain_append] at this
    have := this.2.1
    simp at this
    exact this.2
  change FOk _ _ l at ok
  obtain ⟨l', ee, ok', habs, _⟩ := erase_law ok k
  rw [h' k] at hfind
  change _ = find k l.abs at hfind
  have hrem := remove_length ok.sorted (k := k) (by rw [← hfind]; exact hk0)
  have hpos : 1 ≤ l.abs.length := by
    by_contra hc
    have hnil := List.eq_nil_of_length_eq_zero (l := l.abs) (by omega)
    rw [hnil] at hfind
    exact hk0 hfind
  have hux : l'.bits.count < (M + 1) / 2 := by
    rw [ok'.count, habs]
    rw [ok.count] at hcx
    omega
  obtain ⟨d, t, h0⟩ := s'
  cases d with
  | zero => simp at hjd
  | succ d =>
    unfold erase at er
    rw [eraseT] at er
    obtain ⟨r1, er1, _⟩ := Res.bind_eq_ok.1 er
    have := one_digit (o := fpOps (cfgInt N jf jk jv) M) k (lp := lp) hl ee hux hprev hne hlp hcp d true t _ m ⊥ ⊤ g'.bt (inR_univ k) hsh
      g'.wf.nodup hlast ef hj2 r1 er1
    dsimp only at hjd
    omega

/-! ### Concrete cases -/

/-- The keys `0, 1, .. n - 1`. -/
def ascOps (n : Nat) : List (Op Int Nat) := (List.range n).map fun (i : Nat) => Op.insert (Int.ofNat i) i

theorem ascOps_adm {n : Nat} (hn : n ≤ 1000) : NonNegBelow (ascOps n) := by
  intro k v h
  obtain ⟨i, hi, h2⟩ := List.mem_map.1 h
  have := List.mem_range.1 hi
  injection h2 with h3 h4
  rw [← h3]
  constructor
  · exact Int.natCast_nonneg i
  · change (i : Int) < _; omega

theorem ascOps_safe : ∀ n, SafeHist cfgAB (init (fpOps cfgAB 4)) (ascOps n) := by
  have key : ∀ (ops : List (Op Int Nat)) (s : State Int (FLeaf 4 Int Nat)), (∀ op ∈ ops, ∃ k v, op = .insert k v) → SafeHist cfgAB s ops := by
    intro ops
    induction ops with
    | nil => exact fun _ _ => trivial
    | cons op ops ih =>
      intro s h
      obtain ⟨k, v, rfl⟩ := h op (by simp)
      exact fun s' _ => ih s' (fun x hx => h x (List.mem_cons_of_mem _ hx))
  intro n
  refine key _ _ (fun op h => ?_)
  obtain ⟨i, _, rfl⟩ := List.mem_map.1 h
  exact ⟨_, _, rfl⟩

/-- The calls `ops`, a restart, then `f`. -/
def afterRestart {α : Type} (ops : List (Op Int Nat)) (f : State Int (FLeaf 4 Int Nat) → Option α) : Option α :=
  match execAll (fpOps cfgAB 4) (init (fpOps cfgAB 4)) ops with
  | .ok r => match recoverF (fpOps cfgAB 4) r.2.heap 0 with
    | .ok s => f s
    | _ => none
  | _ => none

/-- The result of an erase of `k`, and the number of leaves. -/
def eraseShow (k : Int) (s : State Int (FLeaf 4 Int Nat)) : Option (Nat × Option Bool) :=
  some ((ids s.depth s.root).length, match erase (fpOps cfgAB 4) s k with
    | .ok r => some r.1
    | _ => none)

/-- C123 is false: after the inserts of `0 .. 16` and a restart not even the erase of the absent key 1000 works. -/
theorem C123_refuted : ¬ C123_statement (V := Nat) 6 4 (fun _ => 0) (fun _ => 0) (fun _ => 0) := by
  intro hst
  obtain ⟨s, s', e, e', _⟩ := restart_good (M := 4) 6 3 rfl le_rfl (by omega) (fun _ => 0) (fun _ => 0) (fun _ => 0) (ascOps 17)
    (ascOps_adm (by omega)) (ascOps_safe 17)
  have hc : (afterRestart (ascOps 17) fun s => some (checkFull cfgAB s [.erase 1000])) = some true := by decide +kernel
  have he : afterRestart (ascOps 17) (eraseShow 1000) = some (8, none) := by decide +kernel
  unfold afterRestart at hc he
  rw [e] at hc he
  dsimp only at hc he
  rw [e'] at hc he
  dsimp only at hc he
  obtain ⟨s'', e'', _⟩ := hst (ascOps 17) (ascOps_adm (by omega)) (ascOps_safe 17) s s' e e' [.erase 1000]
    (by intro k v h; simp at h) (safe_of_check _ _ (Option.some.inj hc))
  rw [execAll] at e''
  obtain ⟨r, er, _⟩ := Res.bind_eq_ok.1 e''
  rw [exec] at er
  have he2 := congrArg (fun x : Option (Nat × Option Bool) => x.map Prod.snd) he
  simp only [eraseShow, Option.map_some] at he2
  rw [show erase (fpOps cfgAB 4) s' 1000 = .ok r from er] at he2
  simp at he2

/-- Eight leaves (one more than `N + 1`, last digit 0): no erase of a large key works.  Nine leaves (last digit 1), with two entries in the
last ones: the same for the greatest key.  Seven and ten leaves: the erase works. -/
example : afterRestart (ascOps 17) (eraseShow 16) = some (8, none) ∧ afterRestart (ascOps 17) (eraseShow 1000) = some (8, none) ∧
    afterRestart (ascOps 19 ++ [.erase 18]) (eraseShow 17) = some (9, none) ∧
    afterRestart (ascOps 15) (eraseShow 14) = some (7, some true) ∧ afterRestart (ascOps 21) (eraseShow 20) = some (10, some true) := by
  decide +kernel

/-- The hypotheses of the theorems are met by these trees. -/
example : (7 + 0 : Nat) ^ (0 + 1) ≤ 8 - 1 ∧ (8 - 1) / 7 ^ 0 % 7 = 0 ∧ (9 - 1) % 7 = 1 ∧ Digits 7 2 (10 - 1) ∧
    AtMost ((6 + 1) * (4 / 2)) (run empty (ascOps 14)) ∧ checkFull (M := 4) cfgAB (init (fpOps cfgAB 4)) (ascOps 19 ++ [.erase 18]) = true ∧
    (afterRestart (ascOps 21) fun s => some (checkFull cfgAB s [.erase 20, .insert 5 7, .insert 30 1, .erase 19])) = some true := by
  refine ⟨by decide, by decide, by decide, ?_, ?_, by decide +kernel, by decide +kernel⟩
  · intro i hi
    have : i = 0 := by
      by_contra hc
      have : (7 : Nat) ^ 2 ≤ 7 ^ (i + 1) := Nat.pow_le_pow_right (by omega) (by omega)
      omega
    subst this
    decide
  · refine ⟨(List.range 14).map Int.ofNat, by simp, fun k hk => ?_⟩
    by_contra hc
    have key : ∀ (ops : List (Op Int Nat)) (m : Int → Option Nat), m k = none → (∀ op ∈ ops, ∃ j v, op = .insert j v ∧ j ≠ k) →
        run m ops k = none := by
      intro ops
      induction ops with
      | nil => exact fun m h _ => h
      | cons op ops ih =>
        intro m h h2
        obtain ⟨j, v, rfl, hj⟩ := h2 op (by simp)
        refine ih _ ?_ (fun x hx => h2 x (List.mem_cons_of_mem _ hx))
        simp [step, h, Ne.symm hj]
    refine hk (key _ _ rfl (fun op hop => ?_))
    obtain ⟨i, hi, rfl⟩ := List.mem_map.1 hop
    exact ⟨_, _, rfl, fun h => hc (List.mem_map.2 ⟨i, hi, h⟩)⟩

end Verif.FPTreeProps
