import Verif.FPTree.EraseCrashTree
import Verif.FPTree.InsertCrashProps

/-!
# Property theorems on crashes inside an erase of the FPTree (C121, C122)

The specification is `Verif.MapSpec`.
-/

set_option linter.unusedSectionVars false

namespace Verif.FPTreeProps

open Verif Search BTree FPTree Assoc MapSpec

variable {K V : Type} {M : Nat} [LinearOrder K] [Inhabited K] {c : FCfg K V} {adm : K → Prop}

/-! ## C121 -/

/-- C121 in full: if all lookups are right before an erase of `k` that is interrupted after any number of assignments to
persistent memory, then after `recover` all other keys have their values, and `k` has its value or none. -/
def C121_statement (N M : Nat) (jf : Nat → Nat) (jk : Nat → Int) (jv : Nat → V) : Prop :=
  ∀ ops : List (Op Int V), NonNegBelow ops → ∀ s : State Int (FLeaf M Int V),
    execAll (fpOps (cfgInt N jf jk jv) M) (init (fpOps (cfgInt N jf jk jv) M)) ops = .ok (outs empty ops, s) →
    (∀ x, lookup (fpOps (cfgInt N jf jk jv) M) s x = .ok (run empty ops x)) →
    ∀ k t, ∃ s', crashEraseRecover (cfgInt N jf jk jv) s k t = .ok s' ∧
      (∀ x, x ≠ k → lookup (fpOps (cfgInt N jf jk jv) M) s' x = .ok (run empty ops x)) ∧
      (lookup (fpOps (cfgInt N jf jk jv) M) s' k = .ok none ∨ lookup (fpOps (cfgInt N jf jk jv) M) s' k = .ok (run empty ops k))

/-- C121 for a tree in a good state. -/
theorem crashErase_look (F : FLaws c adm) (hmax : ∀ k, adm k → k < c.lim.max) (hM : 2 ≤ M) (hN : 2 ≤ c.N) (h4 : 4 ≤ M) {bm : Nat}
    (hbm : 1 ≤ bm) {s : State K (FLeaf M K V)} {m : K → Option V} (g : Good (fpLaws F hM) (M / 2) bm 1 s)
    (hst : Stores (fpLaws F hM) s m) (hf : (ids s.depth s.root).head? = some 0) (k : K) (t : Nat) (hs : SafeErase c s k)
    (ht : ∀ ws, eraseWrites c s k = .ok ws → ¬ Torn (Low s) ws t) :
    ∃ h s', crashErase c s k t = .ok h ∧ crashEraseRecover c s k t = .ok s' ∧
      (∀ x, lookup (fpOps c M) s' x = .ok (if x = k ∧ t ≠ 0 then none else m x)) ∧
      (OneCopy h 0 → ∃ p, Good (fpLaws F hM) 1 0 0 (s'.withPrev p) ∧
        Stores (fpLaws F hM) (s'.withPrev p) (fun x => if x = k ∧ t ≠ 0 then none else m x)) := by
  obtain ⟨ws, ew, hw, _⟩ := crashErase_spec hN hmax h4 hbm g hst hf k hs
  obtain ⟨h, eh, ⟨s', er, hl⟩, ho⟩ := hw t (ht ws ew)
  have ec : crashErase c s k t = .ok h := by rw [crashErase, ew, Res.ok_bind, eh]
  refine ⟨h, s', ec, by rw [crashEraseRecover, ec, Res.ok_bind, er], hl, fun h1 => ?_⟩
  obtain ⟨is, hh, hp⟩ := ho h1
  obtain ⟨rest, rfl⟩ := head_cons hh
  obtain ⟨s2, p, er2, g2, _, hst2, _⟩ := hp.recover hN hmax
  rw [er] at er2
  cases Res.ok.inj er2
  exact ⟨p, g2, hst2⟩

/-- C121 after every history of safe calls (see C41), for an erase that is safe: an interrupted erase removes at most its own
key, and has removed it as soon as its first assignment is persistent.  Not covered: crashes after the bit or the fingerprint of
an entry that is moved to another leaf has been set, and those after its key if the entry is moved to a leaf with larger keys
(`Torn`), where the claim is false (`C121_refuted`, `C121_undone`); erases that are not safe; `M < 4`; key `INT_MAX`. -/
theorem C121_erase_crash_partial (N q : Nat) (hN : N = 2 * q) (hq : 3 ≤ q) (h4 : 4 ≤ M) (jf : Nat → Nat) (jk : Nat → Int)
    (jv : Nat → V) (ops : List (Op Int V)) (ha : NonNegBelow ops)
    (hs : SafeHist (cfgInt N jf jk jv) (init (fpOps (cfgInt N jf jk jv) M)) ops) :
    ∃ s : State Int (FLeaf M Int V),
      execAll (fpOps (cfgInt N jf jk jv) M) (init (fpOps (cfgInt N jf jk jv) M)) ops = .ok (outs empty ops, s) ∧
      ∀ k t, SafeErase (cfgInt N jf jk jv) s k → (∀ ws, eraseWrites (cfgInt N jf jk jv) s k = .ok ws → ¬ Torn (Low s) ws t) →
        ∃ s', crashEraseRecover (cfgInt N jf jk jv) s k t = .ok s' ∧
          ∀ x, lookup (fpOps (cfgInt N jf jk jv) M) s' x = .ok (if x = k ∧ t ≠ 0 then none else run empty ops x) := by
  have hM : 2 ≤ M := by omega
  obtain ⟨s, e, g, h, hd⟩ := safe_history (flaws_below N jf jk jv) (fun k hk => hk.2) hM hN hq ops _ empty
    (init_good _ _ _ _).1 (init_stores _) ha hs
  refine ⟨s, e, fun k t hsk ht => ?_⟩
  obtain ⟨_, s', _, e2, hl, _⟩ := crashErase_look (flaws_below N jf jk jv) (fun k hk => hk.2) hM (show 2 ≤ N by omega) h4
    (show 1 ≤ q - 1 by omega) g h (hd.trans rfl) k t hsk ht
  exact ⟨s', e2, hl⟩

/-- An erase that is not interrupted: all assignments together give the leaves of `erase` (C41). -/
theorem C121_complete (N q : Nat) (hN : N = 2 * q) (hq : 3 ≤ q) (h4 : 4 ≤ M) (jf : Nat → Nat) (jk : Nat → Int)
    (jv : Nat → V) (ops : List (Op Int V)) (ha : NonNegBelow ops)
    (hs : SafeHist (cfgInt N jf jk jv) (init (fpOps (cfgInt N jf jk jv) M)) ops) :
    ∃ s : State Int (FLeaf M Int V),
      execAll (fpOps (cfgInt N jf jk jv) M) (init (fpOps (cfgInt N jf jk jv) M)) ops = .ok (outs empty ops, s) ∧
      ∀ k, SafeErase (cfgInt N jf jk jv) s k → ∃ ws s', eraseWrites (cfgInt N jf jk jv) s k = .ok ws ∧
        erase (fpOps (cfgInt N jf jk jv) M) s k = .ok ((run empty ops k).isSome, s') ∧
        ∀ t, ws.length ≤ t → crashErase (cfgInt N jf jk jv) s k t = .ok s'.heap := by
  have hM : 2 ≤ M := by omega
  obtain ⟨s, e, g, h, hd⟩ := safe_history (flaws_below N jf jk jv) (fun k hk => hk.2) hM hN hq ops _ empty
    (init_good _ _ _ _).1 (init_stores _) ha hs
  refine ⟨s, e, fun k hsk => ?_⟩
  obtain ⟨ws, ew, _, hw⟩ := crashErase_spec (F := flaws_below N jf jk jv) (hM := hM) (show 2 ≤ N by omega) (fun k hk => hk.2) h4
    (show 1 ≤ q - 1 by omega) g h (hd.trans rfl) k hsk
  obtain ⟨s', e', _⟩ := erase_safe (flaws_below N jf jk jv) (fun k hk => hk.2) hM hN hq g k hsk
  rw [h k] at e'
  refine ⟨ws, s', ew, e', fun t ht => ?_⟩
  rw [crashErase, ew, Res.ok_bind, List.take_of_length_le ht]
  exact hw _ _ e'

theorem eraseWrites_full {F : FLaws c adm} {hM : 2 ≤ M} {lm bm rm : Nat} {s : State K (FLeaf M K V)}
    (g : Good (fpLaws F hM) lm bm rm s) (k : K)
    (hs : ∀ id l, findLeaf (fpOps c M) s.depth s.root k = .ok id → s.heap.data id = some l → (M + 1) / 2 < l.bits.count)
    {ws : List (EWrite K V)} (hw : eraseWrites c s k = .ok ws) (low : Nat → K → Prop) (t : Nat) : ¬ Torn low ws t := by
  obtain ⟨id, l, _, _, _, _, ef, _, hl, ok, _⟩ := findLeaf_spec k s.depth (rootMin rm s.depth) s.root ⊥ ⊤ g.bt (inR_univ k)
  change FOk c.hash adm l at ok
  obtain ⟨p, ep, _⟩ := pos_spec ok k
  obtain ⟨l', ee, ok', habs, _⟩ := erase_law ok k
  have hc := hs id l ef hl
  have hc' : ¬ l'.bits.count < (M + 1) / 2 := by
    rw [ok'.count, habs]
    rw [ok.count] at hc
    by_cases hfn : find k l.abs = none
    · rw [remove_eq_self (find_eq_none.1 hfn)]; omega
    · have := remove_length ok.sorted hfn; omega
  have hws : ws = if p < M then [.w (.reset id p)] else [] := by
    obtain ⟨d, root, h⟩ := s
    dsimp only at *
    rw [eraseWrites, ef, Res.ok_bind, Heap.get_of hl, Res.ok_bind, ep, Res.ok_bind, ee, Res.ok_bind] at hw
    dsimp only at hw
    cases d with
    | zero => exact (Res.ok.inj hw).symm
    | succ d =>
      dsimp only at hw
      rw [if_neg hc'] at hw
      exact (Res.ok.inj hw).symm
  rw [hws]
  cases t with
  | zero => exact fun h => h
  | succ t => split <;> · intro h; simp [Torn] at h

/-- C121 for an erase of a key whose leaf holds more than `(M + 1) / 2` entries: it is atomic, at every crash point. -/
theorem C121_no_underflow (N q : Nat) (hN : N = 2 * q) (hq : 3 ≤ q) (h4 : 4 ≤ M) (jf : Nat → Nat) (jk : Nat → Int)
    (jv : Nat → V) (ops : List (Op Int V)) (ha : NonNegBelow ops)
    (hs : SafeHist (cfgInt N jf jk jv) (init (fpOps (cfgInt N jf jk jv) M)) ops) :
    ∃ s : State Int (FLeaf M Int V),
      execAll (fpOps (cfgInt N jf jk jv) M) (init (fpOps (cfgInt N jf jk jv) M)) ops = .ok (outs empty ops, s) ∧
      ∀ k t, (∀ id l, findLeaf (fpOps (cfgInt N jf jk jv) M) s.depth s.root k = .ok id → s.heap.data id = some l →
          (M + 1) / 2 < l.bits.count) →
        ∃ s', crashEraseRecover (cfgInt N jf jk jv) s k t = .ok s' ∧
          ∀ x, lookup (fpOps (cfgInt N jf jk jv) M) s' x = .ok (if x = k ∧ t ≠ 0 then none else run empty ops x) := by
  have hM : 2 ≤ M := by omega
  obtain ⟨s, e, g, h, hd⟩ := safe_history (flaws_below N jf jk jv) (fun k hk => hk.2) hM hN hq ops _ empty
    (init_good _ _ _ _).1 (init_stores _) ha hs
  refine ⟨s, e, fun k t hsk => ?_⟩
  obtain ⟨_, s', _, e2, hl, _⟩ := crashErase_look (flaws_below N jf jk jv) (fun k hk => hk.2) hM (show 2 ≤ N by omega) h4
    (show 1 ≤ q - 1 by omega) g h (hd.trans rfl) k t (Or.inr hsk) (fun ws hw => eraseWrites_full g k hsk hw _ t)
  exact ⟨s', e2, hl⟩

/-! ### Concrete cases -/

/-- The configuration of the examples. -/
abbrev ec : FCfg Int Int := cfgInt 6 (fun _ => 0) (fun _ => 0) (fun _ => 0)

/-- A lookup after a history, an interrupted erase of `k`, a recovery and another history. -/
def lookErase (ops : List (Op Int Int)) (k : Int) (t : Nat) (ops2 : List (Op Int Int)) (x : Int) : Res (Option Int) := do
  let r ← execAll (fpOps ec 4) (init (fpOps ec 4)) ops
  let s ← crashEraseRecover ec r.2 k t
  let r2 ← execAll (fpOps ec 4) s ops2
  lookup (fpOps ec 4) r2.2 x

/-- A check for the first case of `SafeErase` that can be evaluated. -/
def checkSlots (c : FCfg K V) (s : State K (FLeaf M K V)) : Bool :=
  (ids s.depth s.root).all (fun id => match s.heap.data id with
    | some l => decide (findLeaf (fpOps c M) s.depth s.root (l.keys 0) = .ok id)
    | none => true)

theorem safe_of_slots {s : State K (FLeaf M K V)} (h : checkSlots c s = true) (k : K) : SafeErase c s k := by
  refine Or.inl (fun id hid l hl => ?_)
  have := List.all_eq_true.1 h id hid
  rw [hl] at this
  simpa using this

/-- A check for `Torn` that can be evaluated. -/
def midEntry (ws : List (EWrite K V)) (t : Nat) : Bool :=
  match (ws.take t).getLast? with
  | some (.w (.leaf _ (.bit _))) => true
  | some (.w (.leaf _ (.fp _ _))) => true
  | some (.w (.leaf _ (.key _ _))) => true
  | _ => false

theorem not_torn_of {ws : List (EWrite K V)} {t : Nat} (h : midEntry ws t = false) (low : Nat → K → Prop) : ¬ Torn low ws t := by
  intro ht
  unfold Torn at ht
  unfold midEntry at h
  split at ht <;> simp_all

/-- Keys 10 to 60; the erase of 20 makes the first leaf underflow, and two entries come from the second. -/
def eraseHist : List (Op Int Int) :=
  [.insert 10 1, .insert 20 2, .insert 30 3, .insert 40 4, .insert 50 5, .insert 60 6]

theorem eraseHist_safe : NonNegBelow eraseHist ∧ SafeHist ec (init (fpOps ec 4) : State Int (FLeaf 4 Int Int)) eraseHist := by
  refine ⟨?_, safe_of_check _ _ (by decide +kernel)⟩
  intro k v h
  simp only [eraseHist, List.mem_cons, List.not_mem_nil, or_false, Op.insert.injEq] at h
  omega

/-- The hypotheses of `C121_erase_crash_partial` for this history, the erase of 20 and five of the crash points. -/
example : (execAll (fpOps ec 4) (init (fpOps ec 4) : State Int (FLeaf 4 Int Int)) eraseHist >>= fun r => do
    let ws ← eraseWrites ec r.2 20
    pure (checkSlots ec r.2, ws.length, [0, 1, 5, 6, 10, 11].map (midEntry ws))) =
    .ok (true, 11, [false, false, false, false, false, false]) := by decide +kernel

example : [0, 1, 5, 6, 11].map (fun t => [10, 20, 30, 60].map (lookErase eraseHist 20 t [])) =
    [[.ok (some 1), .ok (some 2), .ok (some 3), .ok (some 6)], [.ok (some 1), .ok none, .ok (some 3), .ok (some 6)],
     [.ok (some 1), .ok none, .ok (some 3), .ok (some 6)], [.ok (some 1), .ok none, .ok (some 3), .ok (some 6)],
     [.ok (some 1), .ok none, .ok (some 3), .ok (some 6)]] := by decide +kernel

/-- The hypothesis of `C121_no_underflow` for the erase of 50. -/
example : (execAll (fpOps ec 4) (init (fpOps ec 4) : State Int (FLeaf 4 Int Int)) eraseHist >>= fun r => do
    let id ← findLeaf (fpOps ec 4) r.2.depth r.2.root 50
    let l ← r.2.heap.get id
    pure (decide ((4 + 1) / 2 < l.bits.count))) = .ok true := by decide +kernel

/-- The tree of the counterexamples: leaves 5, 10, 20 and 30, 40. -/
def tornHist : List (Op Int Int) := [.insert 10 1, .insert 20 2, .insert 30 3, .insert 40 4, .insert 5 5]

theorem refuted_aux {ops : List (Op Int Int)} {k x : Int} {t : Nat} (hn : NonNegBelow ops) (hx : x ≠ k) {r : Option Int}
    (he : lookErase ops k t [] x = .ok r) (hr : r ≠ run empty ops x)
    (hall : ∃ s : State Int (FLeaf 4 Int Int), execAll (fpOps ec 4) (init (fpOps ec 4)) ops = .ok (outs empty ops, s) ∧
      ∀ x, lookup (fpOps ec 4) s x = .ok (run empty ops x)) :
    ¬ C121_statement (V := Int) 6 4 (fun _ => 0) (fun _ => 0) (fun _ => 0) := by
  intro h
  obtain ⟨s, e, hl⟩ := hall
  obtain ⟨s', e2, h1, _⟩ := h ops hn s e hl k t
  unfold lookErase at he
  rw [show execAll (fpOps ec 4) (init (fpOps ec 4)) ops = .ok (outs empty ops, s) from e, Res.ok_bind] at he
  dsimp only at he
  rw [show crashEraseRecover ec s k t = .ok s' from e2, Res.ok_bind, execAll, Res.ok_bind] at he
  dsimp only at he
  rw [show lookup (fpOps ec 4) s' x = .ok (run empty ops x) from h1 x hx] at he
  exact hr (Res.ok.inj he).symm

theorem tornHist_ok : NonNegBelow tornHist ∧ ∃ s : State Int (FLeaf 4 Int Int),
    execAll (fpOps ec 4) (init (fpOps ec 4)) tornHist = .ok (outs empty tornHist, s) ∧
      ∀ x, lookup (fpOps ec 4) s x = .ok (run empty tornHist x) := by
  have hn : NonNegBelow tornHist := by
    intro k v h
    simp only [tornHist, List.mem_cons, List.not_mem_nil, or_false, Op.insert.injEq] at h
    omega
  exact ⟨hn, C41_safe_partial 6 3 rfl (by omega) (by omega) _ _ _ tornHist hn (safe_of_check _ _ (by decide +kernel))⟩

/-- C121 is false for `FPTree<int, int, 6, 4>`: the erase of 40 moves the entry of 20 to the leaf of 40.  After a crash when bit,
fingerprint and key of the new slot are persistent and the value is not, key 20 has the value of key 40. -/
theorem C121_refuted : ¬ C121_statement (V := Int) 6 4 (fun _ => 0) (fun _ => 0) (fun _ => 0) :=
  refuted_aux (k := 40) (x := 20) (t := 4) (r := some 4) tornHist_ok.1 (by decide) (by decide +kernel) (by decide) tornHist_ok.2

/-- A completed erase is undone: key 10 is erased, and an erase of 20 that merges the leaves is interrupted after it has set the
bit of the slot of 10.  (The history is one in which all results are right.) -/
theorem C121_undone :
    lookErase (tornHist ++ [.erase 10]) 20 2 [] 10 = .ok (some 1) ∧ run empty (tornHist ++ [.erase 10]) 10 = none ∧
      lookErase (tornHist ++ [.erase 10]) 20 1 [] 10 = .ok none := by decide +kernel

/-! ## C122 -/

/-- C122 in full: after an interrupted erase and `recover`, inserts work as on a map with the contents found after the recovery. -/
def C122_statement (N M : Nat) (jf : Nat → Nat) (jk : Nat → Int) (jv : Nat → V) : Prop :=
  ∀ ops : List (Op Int V), NonNegBelow ops → ∀ s : State Int (FLeaf M Int V),
    execAll (fpOps (cfgInt N jf jk jv) M) (init (fpOps (cfgInt N jf jk jv) M)) ops = .ok (outs empty ops, s) →
    (∀ x, lookup (fpOps (cfgInt N jf jk jv) M) s x = .ok (run empty ops x)) →
    ∀ k t s', crashEraseRecover (cfgInt N jf jk jv) s k t = .ok s' →
      ∀ m, (∀ x, lookup (fpOps (cfgInt N jf jk jv) M) s' x = .ok (m x)) → ∀ ops2, InsertsOnly ops2 → NonNegBelow ops2 →
        ∃ r, execAll (fpOps (cfgInt N jf jk jv) M) s' ops2 = .ok r ∧
          ∀ x, lookup (fpOps (cfgInt N jf jk jv) M) r.2 x = .ok (run m ops2 x)

/-- Inserts into a tree whose `prevLeaf` pointers may be wrong. -/
theorem inserts_prev (F : FLaws c adm) (hM : 2 ≤ M) (hN : 2 ≤ c.N) {lm : Nat} (hlm : lm ≤ M / 2) : ∀ (ops : List (Op K V))
    (s : State K (FLeaf M K V)) (m : K → Option V), InsertsOnly ops → (∀ k v, Op.insert k v ∈ ops → adm k) →
    (∃ p, Good (fpLaws F hM) lm 0 0 (s.withPrev p) ∧ Stores (fpLaws F hM) (s.withPrev p) m) →
    ∃ r, execAll (fpOps c M) s ops = .ok r ∧ ∀ x, lookup (fpOps c M) r.2 x = .ok (run m ops x)
  | [], s, m, _, _, ⟨p, g, hst⟩ => ⟨_, rfl, fun x => hst.lookup g x⟩
  | .erase k :: ops, s, m, ho, _, _ => by
    obtain ⟨_, _, h⟩ := ho (.erase k) (by simp)
    cases h
  | .insert k v :: ops, s, m, ho, ha, ⟨p, g, hst⟩ => by
    obtain ⟨s1, ei, g1, hc1, hh1⟩ := insert_good_head (W := fpLaws F hM) (show lm ≤ M / 2 from hlm) (Nat.zero_le _)
      (show 2 ≤ (fpOps c M).N from hN) (by omega) g k v (ha k v (by simp))
    obtain ⟨p', ep⟩ := insert_prev (o := fpOps c M) p k v s
    rw [ei] at ep
    obtain ⟨s', e', ep⟩ := Res.bind_eq_ok.1 ep.symm
    cases Res.ok.inj ep
    obtain ⟨r, er, hr⟩ := inserts_prev F hM hN hlm ops s' (step m (.insert k v)) (fun op h => ho op (List.mem_cons_of_mem _ h))
      (fun k v h => ha k v (List.mem_cons_of_mem _ h)) ⟨p', g1, hst.insert hc1⟩
    refine ⟨(true :: r.1, r.2), ?_, hr⟩
    rw [execAll, exec, e', Res.ok_bind, Res.pure_eq, Res.ok_bind, er, Res.ok_bind]
    rfl

/-- C122 at the crash points of `C121_erase_crash_partial` at which no key is stored in two leaves: all inserts after the recovery
come to an end, and lookups give the values of the inserts.  Not covered: the other crash points; where a key is stored in two
leaves the claim is false (`C122_refuted`). -/
theorem C122_inserts_partial (N q : Nat) (hN : N = 2 * q) (hq : 3 ≤ q) (h4 : 4 ≤ M) (jf : Nat → Nat) (jk : Nat → Int)
    (jv : Nat → V) (ops : List (Op Int V)) (ha : NonNegBelow ops)
    (hs : SafeHist (cfgInt N jf jk jv) (init (fpOps (cfgInt N jf jk jv) M)) ops) :
    ∃ s : State Int (FLeaf M Int V),
      execAll (fpOps (cfgInt N jf jk jv) M) (init (fpOps (cfgInt N jf jk jv) M)) ops = .ok (outs empty ops, s) ∧
      ∀ k t h, SafeErase (cfgInt N jf jk jv) s k → (∀ ws, eraseWrites (cfgInt N jf jk jv) s k = .ok ws → ¬ Torn (Low s) ws t) →
        crashErase (cfgInt N jf jk jv) s k t = .ok h → OneCopy h 0 →
        ∃ s', crashEraseRecover (cfgInt N jf jk jv) s k t = .ok s' ∧
          ∀ ops2, InsertsOnly ops2 → NonNegBelow ops2 → ∃ r, execAll (fpOps (cfgInt N jf jk jv) M) s' ops2 = .ok r ∧
            ∀ x, lookup (fpOps (cfgInt N jf jk jv) M) r.2 x =
              .ok (run (fun x => if x = k ∧ t ≠ 0 then none else run empty ops x) ops2 x) := by
  have hM : 2 ≤ M := by omega
  obtain ⟨s, e, g, h, hd⟩ := safe_history (flaws_below N jf jk jv) (fun k hk => hk.2) hM hN hq ops _ empty
    (init_good _ _ _ _).1 (init_stores _) ha hs
  refine ⟨s, e, fun k t h' hsk ht eh hone => ?_⟩
  obtain ⟨h2, s', eh2, e2, _, ho⟩ := crashErase_look (flaws_below N jf jk jv) (fun k hk => hk.2) hM (show 2 ≤ N by omega) h4
    (show 1 ≤ q - 1 by omega) g h (hd.trans rfl) k t hsk ht
  rw [eh] at eh2
  cases Res.ok.inj eh2
  exact ⟨s', e2, fun ops2 hi hb => inserts_prev (flaws_below N jf jk jv) hM (show 2 ≤ N by omega) (show 1 ≤ M / 2 by omega) ops2 s' _
    hi hb (ho hone)⟩

/-! ### Concrete cases -/

theorem chain_prefix {h : Heap (FLeaf M K V)} : ∀ {is is0 : List Nat}, is.head? = is0.head? →
    is.IsChain (fun a b => h.next a = some b) → is0.IsChain (fun a b => h.next a = some b) → (∀ x ∈ is0.getLast?, h.next x = none) →
    ∀ i ∈ is, i ∈ is0
  | [], _, _, _, _, _ => by simp
  | a :: r, [], h1, _, _, _ => by simp at h1
  | a :: r, b :: r0, h1, h2, h3, h4 => by
    simp at h1
    subst h1
    intro i hi
    rcases List.mem_cons.1 hi with hi | hi
    · simp [hi]
    · refine List.mem_cons_of_mem _ ?_
      cases r with
      | nil => simp at hi
      | cons x r =>
        rw [List.isChain_cons_cons] at h2
        cases r0 with
        | nil =>
          have := h4 a (by simp)
          rw [h2.1] at this; simp at this
        | cons y r0 =>
          rw [List.isChain_cons_cons] at h3
          have : x = y := Option.some.inj (h2.1.symm.trans h3.1)
          subst this
          exact chain_prefix (is := x :: r) (is0 := x :: r0) rfl h2.2 h3.2 (fun z hz => h4 z (by rw [List.getLast?_cons_cons]; exact hz)) i hi

/-- A check for `OneCopy` that can be evaluated; `is` is the leaf list. -/
def checkCopies (h : Heap (FLeaf M K V)) (is : List Nat) : Bool :=
  decide (is.IsChain (fun a b => h.next a = some b)) && (match is.getLast? with | some x => decide (h.next x = none) | none => true) &&
  is.all (fun i => is.all (fun j => i == j || match h.data i, h.data j with
    | some li, some lj => (List.range M).all (fun p => (List.range M).all (fun q =>
        !(Bitmap.bit li.bits p && Bitmap.bit lj.bits q && decide (li.keys p = lj.keys q))))
    | _, _ => true))

theorem oneCopy_of {h : Heap (FLeaf M K V)} {first : Nat} {is : List Nat} (hf : is.head? = some first)
    (hc : checkCopies h is = true) : OneCopy h first := by
  unfold checkCopies at hc
  rw [Bool.and_eq_true, Bool.and_eq_true, decide_eq_true_eq] at hc
  obtain ⟨⟨h1, h2⟩, h3⟩ := hc
  intro is' hf' hc' i hi j hj hne li lj hdi hdj p hp q hq hb hb' hk
  have hl : ∀ x ∈ is.getLast?, h.next x = none := by
    intro x hx
    rw [Option.mem_def] at hx
    rw [hx] at h2
    simpa using h2
  have mi := chain_prefix (hf'.trans hf.symm) hc' h1 hl i hi
  have mj := chain_prefix (hf'.trans hf.symm) hc' h1 hl j hj
  have := List.all_eq_true.1 (List.all_eq_true.1 h3 i mi) j mj
  rw [hdi, hdj] at this
  simp only [Bool.or_eq_true, beq_iff_eq, hne, false_or] at this
  have := List.all_eq_true.1 (List.all_eq_true.1 this p (List.mem_range.2 hp)) q (List.mem_range.2 hq)
  simp [hb, hb', hk] at this

/-- Crash points of the erase of 20 from `eraseHist` at which no key is stored in two leaves: the hypotheses of
`C122_inserts_partial`. -/
example : [0, 1, 6, 11].map (fun t => execAll (fpOps ec 4) (init (fpOps ec 4) : State Int (FLeaf 4 Int Int)) eraseHist >>= fun r => do
    let h ← crashErase ec r.2 20 t
    pure (checkCopies h [0, 1])) = [.ok true, .ok true, .ok true, .ok true] := by decide +kernel

/-- Inserts after such a crash and the recovery. -/
example : [10, 20, 30, 35, 45, 60].map (lookErase eraseHist 20 6 [.insert 30 33, .insert 35 35, .insert 45 45]) =
    [.ok (some 1), .ok none, .ok (some 33), .ok (some 35), .ok (some 45), .ok (some 6)] := by decide +kernel

/-- Leaves 10, 20 and 30, 40; the erase of 10 merges them. -/
def copyHist : List (Op Int Int) := [.insert 10 1, .insert 20 2, .insert 30 3, .insert 40 4, .insert 50 5, .erase 50]

/-- C122 is false for `FPTree<int, int, 6, 4>`: after a crash inside the merge the entry of 30 is in both leaves.  All lookups are
right after the recovery.  The insert of 30 changes the entry of the second leaf; when later inserts split the first leaf, the old
entry of 30 comes to a leaf in which lookups find it. -/
theorem C122_refuted : ¬ C122_statement (V := Int) 6 4 (fun _ => 0) (fun _ => 0) (fun _ => 0) := by
  intro h
  have hn : NonNegBelow copyHist := by
    intro k v h
    simp only [copyHist, List.mem_cons, List.not_mem_nil, or_false, Op.insert.injEq, reduceCtorEq] at h
    omega
  have hsafe : SafeHist ec (init (fpOps ec 4) : State Int (FLeaf 4 Int Int)) copyHist := safe_of_check _ _ (by decide +kernel)
  obtain ⟨s, e, hc⟩ := C121_erase_crash_partial (M := 4) 6 3 rfl (by omega) (by omega) (fun _ => 0) (fun _ => 0) (fun _ => (0 : Int)) copyHist hn hsafe
  have hl : ∀ x, lookup (fpOps ec 4) s x = .ok (run empty copyHist x) := by
    obtain ⟨s2, e2, h2⟩ := C41_safe_partial (M := 4) 6 3 rfl (by omega) (by omega) (fun _ => 0) (fun _ => 0) (fun _ => (0 : Int)) copyHist hn hsafe
    rw [e] at e2
    cases congrArg Prod.snd (Res.ok.inj e2)
    exact h2
  have hch : (execAll (fpOps ec 4) (init (fpOps ec 4) : State Int (FLeaf 4 Int Int)) copyHist >>= fun r => do
      let ws ← eraseWrites ec r.2 10
      pure (checkSlots ec r.2, midEntry ws 9)) = .ok (true, false) := by decide +kernel
  rw [show execAll (fpOps ec 4) (init (fpOps ec 4)) copyHist = .ok (outs empty copyHist, s) from e, Res.ok_bind] at hch
  obtain ⟨ws, ew, hch⟩ := Res.bind_eq_ok.1 hch
  have hch := Res.ok.inj hch
  simp only [Prod.mk.injEq] at hch
  obtain ⟨s', e2, h2⟩ := hc 10 9 (safe_of_slots hch.1 10) (fun ws' hw => by
    rw [show eraseWrites ec s 10 = .ok ws from ew] at hw
    cases Res.ok.inj hw
    exact not_torn_of hch.2 _)
  obtain ⟨r, e3, h3⟩ := h copyHist hn s e hl 10 9 s' e2 _ h2 [.insert 30 33, .insert 15 15, .insert 16 16] (by
      intro op hop
      simp only [List.mem_cons, List.not_mem_nil, or_false] at hop
      rcases hop with rfl | rfl | rfl <;> exact ⟨_, _, rfl⟩) (by
      intro k v h
      simp only [List.mem_cons, List.not_mem_nil, or_false, Op.insert.injEq] at h
      omega)
  have hx : lookErase copyHist 10 9 [.insert 30 33, .insert 15 15, .insert 16 16] 30 = .ok (some 3) := by decide +kernel
  unfold lookErase at hx
  rw [show execAll (fpOps ec 4) (init (fpOps ec 4)) copyHist = .ok (outs empty copyHist, s) from e, Res.ok_bind] at hx
  dsimp only at hx
  rw [show crashEraseRecover ec s 10 9 = .ok s' from e2, Res.ok_bind, e3, Res.ok_bind, h3 30] at hx
  exact absurd (Res.ok.inj hx) (by decide)

end Verif.FPTreeProps
