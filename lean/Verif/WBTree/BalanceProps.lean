import Verif.WBTree.BalanceErase

/-!
# C99: erases in wBPTree and wHBPTree that move separators between branch nodes
-/

namespace Verif.WBTree

variable {K V : Type} [LinearOrder K] {N M : Nat}

/-- C99: after inserts and erases that keep the tree intact, an erase of a stored key that makes a branch node take
separators from a neighbour answers `true`, removes the key and nothing else, and every further history of inserts and
erases that keep the tree intact works: every call succeeds and answers right, and all keys are where inserts and
erases look for them. -/
def C99_statement : Prop :=
  ∀ (K V : Type) [LinearOrder K] (N M : Nat) (hy : Bool) (junk : Option Nat) (ops ops2 : List (MapSpec.Op K V)) (key : K)
    (s : ETree K V N M) (rs : List Bool), 1 < N → 1 < M →
    CalmRun hy junk ops MapSpec.empty (eempty N M junk : ETree K V N M) →
    erun hy junk ops (eempty N M junk) = .ok (s, rs) → MapSpec.run MapSpec.empty ops key ≠ none →
    CalmBal hy key s.tree.depth s s.tree.root →
    ∃ s1, eerase hy s key = .ok (s1, true) ∧
      (CalmRun hy junk ops2 (MapSpec.run MapSpec.empty (ops ++ [.erase key])) s1 →
        ∃ s2, erun hy junk ops2 s1 = .ok (s2, MapSpec.outs (MapSpec.run MapSpec.empty (ops ++ [.erase key])) ops2) ∧
          ∀ k, insLookup s2 k = .ok (MapSpec.run MapSpec.empty (ops ++ [.erase key] ++ ops2) k))

omit [LinearOrder K] in
theorem specRun_append [DecidableEq K] (m : K → Option V) : ∀ (a b : List (MapSpec.Op K V)),
    MapSpec.run m (a ++ b) = MapSpec.run (MapSpec.run m a) b := by
  intro a
  induction a generalizing m with
  | nil => intro b; rfl
  | cons x a ih => intro b; exact ih _ b

theorem Leak.inner {s2 s : ETree K V N M} {q u : Nat} (h : Leak s2 s q u) {key : K} : ∀ (d a : Nat),
    Inner s.tree key d a → Inner s2.tree key d a := by
  obtain ⟨b0, X, h1, _, _, _, rfl⟩ := h
  intro d
  induction d with
  | zero => intro a _; trivial
  | succ d ih =>
    rintro a ⟨b, n, p, c, e1, e2, e3, e4, e5, e6⟩
    by_cases ha : a = q
    · subst ha
      have e1' : (s2.tree.branches.set a { b0 with bits := X })[a]? = some b := branch_eq_ok e1
      rw [List.getElem?_set_self (List.getElem?_eq_some_iff.1 h1).1] at e1'
      obtain rfl := Option.some.inj e1'
      exact ⟨b0, n, p, c, Tree.branch_ok h1, e2, e3, e4, e5, ih c e6⟩
    · have e1' : (s2.tree.branches.set q { b0 with bits := X })[a]? = some b := branch_eq_ok e1
      rw [List.getElem?_set_ne (Ne.symm ha)] at e1'
      exact ⟨b, n, p, c, Tree.branch_ok e1', e2, e3, e4, e5, ih c e6⟩

/-- C99, the part that holds, for trees of any depth and a balance at any level: the erase answers `true`, a lookup along
the descent of inserts and erases is right for every key, and `lookup` is right whenever its descent meets a larger
separator at every branch node.  Missing: further updates, for which the claim is false (`C99_refuted`), as a position
of one branch node stays marked as used (`C99_leak`). -/
theorem C99_partial (hN : 1 < N) (hM : 1 < M) (hy : Bool) (junk : Option Nat) (ops : List (MapSpec.Op K V)) (key : K)
    (h : CalmRun hy junk ops MapSpec.empty (eempty N M junk : ETree K V N M))
    (hk : MapSpec.run MapSpec.empty ops key ≠ none) :
    ∃ s, erun hy junk ops (eempty N M junk : ETree K V N M) = .ok (s, MapSpec.outs MapSpec.empty ops) ∧
      (CalmBal hy key s.tree.depth s s.tree.root →
        ∃ s', eerase hy s key = .ok (s', true) ∧
          (∀ k, insLookup s' k = .ok (MapSpec.run MapSpec.empty (ops ++ [.erase key]) k)) ∧
          ∀ k, Inner s'.tree k s'.tree.depth s'.tree.root →
            elookup s' k = .ok (MapSpec.run MapSpec.empty (ops ++ [.erase key]) k)) := by
  obtain ⟨s, e, hs⟩ := EInv.run hM hN hy junk ops _ _ (eInv_empty junk) h
  refine ⟨s, e, fun hc => ?_⟩
  obtain ⟨v, hv⟩ := Option.ne_none_iff_exists'.1 hk
  obtain ⟨s', s2, q, u, e2, h2, lk⟩ := hs.erase_bal hv hc
  have hm : MapSpec.run MapSpec.empty (ops ++ [.erase key]) = fun k => if k = key then none else MapSpec.run MapSpec.empty ops k := by
    rw [specRun_append]
    rfl
  refine ⟨s', e2, fun k => ?_, fun k hi => ?_⟩
  · rw [lk.insLookup, h2.lookup_ins, hm]
    rfl
  · rw [lk.elookup, hm]
    have := lk.inner _ _ hi
    rw [lk.tree.1, lk.tree.2.1] at this
    exact h2.lookup_inner this

/-- The branch nodes of a tree in the heap. -/
theorem Rep.node {t : Tree K V N M} : ∀ (d : Nat) (T : VT K V d), Rep t d T → ∀ q ∈ nodes d T,
    ∃ b xs z, t.branches[q]? = some b ∧ BrOK b xs z := by
  intro d
  induction d with
  | zero => intro T _ q hq; simp [nodes] at hq
  | succ d ih =>
    rintro ⟨a, xs, z⟩ ⟨⟨b, h1, h2⟩, h3, h4⟩ q hq
    rcases List.mem_cons.1 hq with rfl | hq
    · exact ⟨b, _, _, h1, h2⟩
    · rcases List.mem_append.1 hq with hq | hq
      · obtain ⟨x, hx, hq⟩ := List.mem_flatMap.1 hq
        exact ih _ (h3 x hx) q hq
      · exact ih _ h4 q hq

theorem EInv.erase_leak {hy : Bool} {s : ETree K V N M} {m : K → Option V} (h : EInv s m) {key : K} {v : V}
    (hk : m key = some v) (hc : CalmBal hy key s.tree.depth s s.tree.root) :
    ∃ s', eerase hy s key = .ok (s', true) ∧ ∃ q b n u, s'.branch q = .ok b ∧ b.count = .ok n ∧ u < N ∧
      Bitmap.bit b.bits u = true ∧ ∀ i, 1 ≤ i → i ≤ n → b.slot.rd (N + 1) i ≠ .ok u := by
  have key' : ∀ {d : Nat} (hd : s.tree.depth = d) (T : VT K V d), adrOf d T = s.tree.root → Rep s.tree d T →
      (Ord d T ∨ (d = 0 ∧ ents d T = [])) → (nodes d T).Nodup → LeafChain s (leafs d T) → s.deadB = [] →
      (key, v) ∈ ents d T → CalmBal hy key d s (adrOf d T) →
      ∃ s', eraseAux hy key d s (adrOf d T) = .ok (s', true) ∧ ∃ q b n u, s'.branch q = .ok b ∧ b.count = .ok n ∧ u < N ∧
      Bitmap.bit b.bits u = true ∧ ∀ i, 1 ≤ i → i ≤ n → b.slot.rd (N + 1) i ≠ .ok u := by
    intro d hd T h1 h2 h3 h4 h5 h7 h8 hc
    match d, T with
    | 0, _ => exact hc.elim
    | 1, T =>
      obtain ⟨b, p, c, nb, _, _, _, _, ⟨h, _⟩ | ⟨h, _⟩⟩ := hc
      · exact absurd rfl h
      · exact h.elim
    | d + 2, T =>
      obtain ⟨s', s1, s2, T1, T2, q, u, e, ⟨g1, g2, g3, g4, g5⟩, r, lk, hq⟩ := eraseAux_bal (d + 1) s T (by omega) h2
        (h3.resolve_right (by omega)) h4 (by rw [h7]; simp) [] [] (by simpa using h5) h8 hc
      obtain ⟨b, xs, z, hb, hok⟩ := r.rep.node _ _ q (r.nodesP.mem_iff.2 hq)
      obtain ⟨b0, X, k1, k2, k3, k4, rfl⟩ := lk
      rw [hb] at k1
      obtain rfl := Option.some.inj k1
      have hdB : s2.deadB = [] := by
        obtain ⟨bs, _, rfl⟩ := r.same
        show s1.deadB = []
        rw [g5.deadB, h7]
      refine ⟨_, e, q, { b with bits := X }, xs.length, u, ETree.branch_ok ?_ (by
        show q ∉ s2.deadB
        rw [hdB]; simp), hok.count, k2, ?_, ?_⟩
      · show (s2.tree.branches.set q _)[q]? = _
        rw [List.getElem?_set_self (List.getElem?_eq_some_iff.1 hb).1]
      · show Bitmap.bit X u = true
        rw [k4 u k2, if_pos rfl]
      · intro i hi1 hi2 hh
        obtain ⟨i', rfl⟩ : ∃ i', i = i' + 1 := ⟨i - 1, by omega⟩
        have h9 : b.slot.rd (N + 1) (i' + 1) = .ok xs[i'].1 := hok.rdSlot (by omega)
        have hh : b.slot.rd (N + 1) (i' + 1) = .ok u := hh
        rw [h9] at hh
        have hu : u ∈ xs.map (·.1) := by
          rw [← Res.ok.inj hh]
          exact List.mem_map_of_mem (List.getElem_mem _)
        rw [(hok.bits u k2).2 hu] at k3
        exact absurd k3 (by simp)
  obtain ⟨T, h1, h2, h3, h4, h5, h6, h7, h8⟩ := h
  unfold eerase
  rw [← h1] at hc ⊢
  exact key' rfl T h1 h2 h3 h4 h5 h7 ((h8 key v).2 hk) hc

/-- Every erase that makes a branch node take separators from a neighbour leaves a branch node with a position that is
marked as used but in no slot. -/
theorem C99_leak (hN : 1 < N) (hM : 1 < M) (hy : Bool) (junk : Option Nat) (ops : List (MapSpec.Op K V)) (key : K)
    (h : CalmRun hy junk ops MapSpec.empty (eempty N M junk : ETree K V N M))
    (hk : MapSpec.run MapSpec.empty ops key ≠ none) {s : ETree K V N M} {rs : List Bool}
    (e : erun hy junk ops (eempty N M junk) = .ok (s, rs)) (hc : CalmBal hy key s.tree.depth s s.tree.root) :
    ∃ s', eerase hy s key = .ok (s', true) ∧ ∃ q b n u, s'.branch q = .ok b ∧ b.count = .ok n ∧ u < N ∧
      Bitmap.bit b.bits u = true ∧ ∀ i, 1 ≤ i → i ≤ n → b.slot.rd (N + 1) i ≠ .ok u := by
  obtain ⟨s0, e0, hs⟩ := EInv.run hM hN hy junk ops _ _ (eInv_empty junk) h
  rw [e] at e0
  cases Res.ok.inj e0
  obtain ⟨v, hv⟩ := Option.ne_none_iff_exists'.1 hk
  exact hs.erase_leak hv hc

omit [LinearOrder K] in
/-- What such positions lead to: when all positions are marked as used, a separator does not enter the node, however few
separators it has. -/
theorem C99_full (b : Branch K N) (h : ∀ p < N, Bitmap.bit b.bits p = true) (p : Nat) (sep : K) (l r : Nat) :
    b.add p sep l r = .ub := by
  have hz : ¬ b.bits.getFreeZero < N := by
    rcases Bitmap.getFreeZero_spec b.bits with ⟨h1, h2, _⟩ | ⟨h1, _⟩
    · rw [h _ h1] at h2
      exact absurd h2 (by simp)
    · omega
  unfold Branch.add Slots.wr
  dsimp only
  rw [if_neg hz]
  rfl

omit [LinearOrder K] in
/-- A merge of two branch nodes takes one separator out of the branch node above, in slot `p`.  Unless it was the last one,
the separator in the last slot is lost with it: no slot names its position any more. -/
theorem C97_shrink {b : Branch K N} {xs : List (Nat × K × Nat)} {z : Nat} (h : BrOK b xs z) {p : Nat} (hp : 1 ≤ p)
    (hn : p < xs.length) : ∃ b', b.shrink p = .ok b' ∧ b'.count = .ok (xs.length - 1) ∧
      ∀ i, 1 ≤ i → i ≤ xs.length - 1 → b'.slot.rd (N + 1) i ≠ .ok (xs[xs.length - 1]'(by omega)).1 := by
  have hl := h.le
  have hsl : ∀ j (hj : j < xs.length), b.slot (j + 1) = some xs[j].1 := by
    intro j hj
    simpa [hj] using h.slots (j + 1) (by simp; omega)
  obtain ⟨sl, e, hs⟩ := Slots.moveDown_ok (N + 1) 1 (Nat.le_refl 1) (xs.length - 1 - p) p b.slot (by omega) (by
    intro i h1 h2
    obtain ⟨i', rfl⟩ : ∃ i', i = i' + 1 := ⟨i - 1, by omega⟩
    rw [hsl i' (by omega)]; rfl)
  refine ⟨{ b with slot := fun j => if j = 0 then some (xs.length - 1) else sl j }, ?_, ?_, ?_⟩
  · unfold Branch.shrink
    rw [show b.count = .ok xs.length from h.count, Res.ok_bind, e, Res.ok_bind, Slots.wr_ok _ _ (by omega), Res.ok_bind]
    rfl
  · exact Slots.rd_ok (by omega) (by simp)
  · intro i h1 h2 hh
    have hv : ∃ j, ∃ hj : j < xs.length - 1, (if i = 0 then some (xs.length - 1) else sl i) = some (xs[j]'(by omega)).1 := by
      rw [if_neg (by omega), hs]
      split
      · exact ⟨i, by omega, hsl i (by omega)⟩
      · obtain ⟨i', rfl⟩ : ∃ i', i = i' + 1 := ⟨i - 1, by omega⟩
        exact ⟨i', by omega, hsl i' (by omega)⟩
    obtain ⟨j, hj, hv⟩ := hv
    rw [Slots.rd_ok (x := (xs[j]'(by omega)).1) (by omega) hv] at hh
    have hnd := h.nodup
    have := (List.Nodup.getElem_inj_iff hnd (i := j) (j := xs.length - 1) (hi := by simp; omega) (hj := by simp; omega)).1
      (by simpa using Res.ok.inj hh)
    omega

/-! ## Concrete runs -/

/-- The number of separators of a branch node. -/
def sepsB (s : ETree K V N M) (a : Nat) : Res Nat := s.branch a >>= Branch.count

omit [LinearOrder K] in
theorem seps_iff {s : ETree K V N M} {a n : Nat} : Seps s a n ↔ sepsB s a = .ok n := by
  unfold Seps sepsB
  rw [Res.bind_eq_ok]

/-- `BalHere`, computed. -/
def balHereB (s : ETree K V N M) (b : Branch K N) (nb p c : Nat) : Bool :=
  let cnt (r : Res Nat) : Res Nat := r >>= sepsB s
  let large (r : Res Nat) : Bool := match cnt r with
    | .ok m => decide ((N + 1) / 2 < m)
    | _ => false
  (match sepsB s c with
    | .ok n => decide (0 < n) && decide (n < (N + 1) / 2)
    | _ => false) &&
  ((decide (1 < p) && large (b.child (p - 1))) ||
   (!(decide (1 < p) && large (b.child (p - 1))) && decide (p ≤ nb) && large (b.child (p + 1))))

omit [LinearOrder K] in
theorem balHereB_iff {s : ETree K V N M} {b : Branch K N} {nb p c : Nat} (h : balHereB s b nb p c = true) :
    BalHere s b nb p c := by
  unfold balHereB at h
  simp only [Bool.and_eq_true, Bool.or_eq_true, decide_eq_true_eq, Bool.not_eq_true'] at h
  obtain ⟨h1, h2⟩ := h
  have large : ∀ {x : Nat}, (match b.child x >>= sepsB s with
      | .ok m => decide ((N + 1) / 2 < m)
      | _ => false) = true → ∃ q m, b.child x = .ok q ∧ Seps s q m ∧ (N + 1) / 2 < m := by
    intro x hx
    split at hx
    · rename_i m hm
      obtain ⟨q, e1, e2⟩ := Res.bind_eq_ok.1 hm
      exact ⟨q, m, e1, seps_iff.2 e2, by simpa using hx⟩
    · simp at hx
  refine ⟨?_, ?_⟩
  · split at h1
    · rename_i n hn
      simp only [Bool.and_eq_true, decide_eq_true_eq] at h1
      exact ⟨n, seps_iff.2 hn, h1⟩
    · simp at h1
  · rcases h2 with ⟨hp, hl⟩ | ⟨⟨hl, hp⟩, hr⟩
    · exact Or.inl ⟨hp, large hl⟩
    · refine Or.inr ⟨?_, hp, large hr⟩
      intro hp1 q m e1 e2
      rw [e1, Res.ok_bind, seps_iff.1 e2] at hl
      simp only [hp1, decide_true, Bool.true_and, decide_eq_false_iff_not] at hl
      omega

/-- `CalmBal`, computed. -/
def calmBalB (hy : Bool) (key : K) : Nat → ETree K V N M → Nat → Bool
  | 0, _, _ => false
  | d + 1, s, a =>
    let r : Res (Branch K N × Nat × Nat × Nat) := do
      let b ← s.branch a
      let p ← b.pos key
      let c ← b.child p
      let nb ← b.count
      pure (b, p, c, nb)
    match r with
    | .ok (b, p, c, nb) =>
      (decide (d ≠ 0) && calmB hy key d s c && match eraseAux hy key d s c with
        | .ok (s1, _) => balHereB s1 b nb p c
        | _ => true) ||
      (calmBalB hy key d s c && match eraseAux hy key d s c with
        | .ok (s1, _) => (match sepsB s1 c with
          | .ok n => decide ((N + 1) / 2 ≤ n)
          | _ => false)
        | _ => true)
    | _ => false

theorem calmBalB_iff {hy : Bool} {key : K} : ∀ (d : Nat) (s : ETree K V N M) (a : Nat), calmBalB hy key d s a = true →
    CalmBal hy key d s a := by
  intro d
  induction d with
  | zero => intro s a h; simp [calmBalB] at h
  | succ d ih =>
    intro s a h
    unfold calmBalB at h
    simp only [] at h
    split at h
    · rename_i b p c nb hr
      obtain ⟨b', hb, hr⟩ := Res.bind_eq_ok.1 hr
      obtain ⟨p', hp, hr⟩ := Res.bind_eq_ok.1 hr
      obtain ⟨c', hc, hr⟩ := Res.bind_eq_ok.1 hr
      obtain ⟨nb', hnb, hr⟩ := Res.bind_eq_ok.1 hr
      cases Res.ok.inj hr
      refine ⟨b, _, _, _, hb, hp, hc, hnb, ?_⟩
      rw [Bool.or_eq_true, Bool.and_eq_true, Bool.and_eq_true, Bool.and_eq_true, decide_eq_true_eq] at h
      rcases h with ⟨⟨h1, h2⟩, h3⟩ | ⟨h1, h2⟩
      · refine Or.inl ⟨h1, calmB_iff _ _ _ h2, ?_⟩
        intro s1 del e
        rw [e] at h3
        exact balHereB_iff h3
      · refine Or.inr ⟨ih _ _ h1, ?_⟩
        intro s1 del e
        rw [e] at h2
        simp only [] at h2
        split at h2
        · rename_i n hn
          exact ⟨n, seps_iff.2 hn, by simpa using h2⟩
        · simp at h2
    · simp at h

/-- 18 keys in ascending order: two levels of branch nodes, the second child of the root has four separators. -/
def balOps : List (MapSpec.Op Nat Nat) := insAll (List.range 18)

/-- What the examples below need of a history and an erase, computed. -/
theorem calmBal_run {hy : Bool} {ops : List (MapSpec.Op Nat Nat)} {key d : Nat}
    (h : (erun hy none ops (eempty 4 4 none : ETree Nat Nat 4 4) >>= fun x =>
      (pure (x.1.tree.depth, calmBalB hy key x.1.tree.depth x.1 x.1.tree.root) : Res _)) = .ok (d, true)) :
    ∃ s rs, erun hy none ops (eempty 4 4 none : ETree Nat Nat 4 4) = .ok (s, rs) ∧ s.tree.depth = d ∧
      CalmBal hy key s.tree.depth s s.tree.root := by
  obtain ⟨⟨s, rs⟩, e, h⟩ := Res.bind_eq_ok.1 h
  have h := Res.ok.inj h
  simp only [Prod.mk.injEq] at h
  exact ⟨s, rs, e, h.1, calmBalB_iff _ _ _ h.2⟩

set_option maxRecDepth 100000 in
/-- The hypotheses of `C99_partial` and `C99_leak` hold: the erase of 2 merges two leaves, and their branch node takes a
separator from its right neighbour. -/
theorem balOps_calm : ∀ hy, CalmRun hy none balOps MapSpec.empty (eempty 4 4 none) ∧
    MapSpec.run MapSpec.empty balOps 2 ≠ none ∧
    ∃ s rs, erun hy none balOps (eempty 4 4 none : ETree Nat Nat 4 4) = .ok (s, rs) ∧ s.tree.depth = 2 ∧
      CalmBal hy 2 s.tree.depth s s.tree.root := by
  intro hy
  exact ⟨calmRunB_iff _ _ _ (by revert hy; decide +kernel), by decide +kernel,
    calmBal_run (by revert hy; decide +kernel)⟩

/-- 24 keys in descending order: the first child of the root has four separators. -/
def balOps2 : List (MapSpec.Op Nat Nat) := insAll ((List.range 24).map fun i => 100 - i)

set_option maxRecDepth 100000 in
/-- They hold for the erase of 93 as well, with a separator from the left neighbour. -/
theorem balOps2_calm : ∀ hy, CalmRun hy none balOps2 MapSpec.empty (eempty 4 4 none) ∧
    MapSpec.run MapSpec.empty balOps2 93 ≠ none ∧
    ∃ s rs, erun hy none balOps2 (eempty 4 4 none : ETree Nat Nat 4 4) = .ok (s, rs) ∧ s.tree.depth = 2 ∧
      CalmBal hy 93 s.tree.depth s s.tree.root := by
  intro hy
  exact ⟨calmRunB_iff _ _ _ (by revert hy; decide +kernel), by decide +kernel,
    calmBal_run (by revert hy; decide +kernel)⟩

set_option maxRecDepth 100000 in
/-- They hold with three levels of branch nodes, where the separator moves below the second level. -/
theorem balOps3_calm : CalmRun false none (insAll (List.range 54)) MapSpec.empty (eempty 4 4 none) ∧
    MapSpec.run MapSpec.empty (insAll (List.range 54)) 40 ≠ none ∧
    ∃ s rs, erun false none (insAll (List.range 54)) (eempty 4 4 none : ETree Nat Nat 4 4) = .ok (s, rs) ∧
      s.tree.depth = 3 ∧ CalmBal false 40 s.tree.depth s s.tree.root :=
  ⟨calmRunB_iff _ _ _ (by decide +kernel), by decide +kernel, calmBal_run (by decide +kernel)⟩

/-- The numbers of separators and the positions marked as used of the branch nodes after a history. -/
def marks (hy : Bool) (ops : List (MapSpec.Op Nat Nat)) : Res (List (Res Nat × List Nat)) :=
  erun hy none ops (eempty 4 4 none : ETree Nat Nat 4 4) >>= fun x =>
    (pure (x.1.tree.branches.map fun b => (b.count, (List.range 4).filter fun p => Bitmap.bit b.bits p)) : Res _)

set_option maxRecDepth 100000 in
/-- The donor had four separators and has two, but three of its positions are still marked as used. -/
theorem balOps_marks : ∀ hy,
    marks hy balOps = .ok [(.ok 2, [0, 1]), (.ok 4, [0, 1, 2, 3]), (.ok 1, [0])] ∧
    marks hy (balOps ++ [.erase 2]) = .ok [(.ok 3, [0, 1, 2]), (.ok 2, [1, 2, 3]), (.ok 1, [0])] := by
  decide +kernel

set_option maxRecDepth 100000 in
/-- Three more inserts, which split two leaves: the donor has room for four separators and gets its fourth, but no position
is free. -/
theorem balOps_ub : ∀ hy,
    (erun hy none (balOps ++ [.erase 2] ++ insAll [18, 19]) (eempty 4 4 none : ETree Nat Nat 4 4) >>= fun x =>
      (pure x.2 : Res _)) = .ok (MapSpec.outs MapSpec.empty (balOps ++ [.erase 2] ++ insAll [18, 19])) ∧
    (erun hy none (balOps ++ [.erase 2] ++ insAll [18, 19, 20]) (eempty 4 4 none : ETree Nat Nat 4 4) >>= fun x =>
      (pure x.2 : Res _)) = .ub := by
  decide +kernel

set_option maxRecDepth 100000 in
/-- C99 is false: after 18 inserts and the erase of 2, three more inserts end with a write behind the arrays of a branch
node. -/
theorem C99_refuted : ¬ C99_statement := by
  intro h
  obtain ⟨c1, c2, s, rs, e, _, c3⟩ := balOps_calm false
  obtain ⟨s1, e1, h1⟩ := h Nat Nat 4 4 false none balOps (insAll [18, 19, 20]) 2 s rs (by decide) (by decide) c1 e c2 c3
  have hk : (erun false none balOps (eempty 4 4 none : ETree Nat Nat 4 4) >>= fun x => eerase false x.1 2 >>= fun y =>
      (pure (calmRunB false none (insAll [18, 19, 20]) (MapSpec.run MapSpec.empty (balOps ++ [.erase 2])) y.1) : Res _)) =
      .ok true := by decide +kernel
  have hu : (erun false none balOps (eempty 4 4 none : ETree Nat Nat 4 4) >>= fun x => eerase false x.1 2 >>= fun y =>
      erun false none (insAll [18, 19, 20]) y.1 >>= fun z => (pure z.2 : Res _)) = .ub := by decide +kernel
  rw [e, Res.ok_bind, e1, Res.ok_bind] at hk hu
  obtain ⟨s2, e2, _⟩ := h1 (calmRunB_iff _ _ _ (Res.ok.inj hk))
  rw [e2] at hu
  exact absurd hu (by simp [Res.ok_bind])

set_option maxRecDepth 100000 in
/-- `C99_full` applies: after the inserts of 18 and 19 the donor has three separators, and all positions are marked. -/
theorem full_example : marks false (balOps ++ [.erase 2] ++ insAll [18, 19]) =
    .ok [(.ok 3, [0, 1, 2]), (.ok 3, [0, 1, 2, 3]), (.ok 1, [0])] := by
  decide +kernel

set_option maxRecDepth 100000 in
/-- `C97_shrink` in a run: the root has two separators, the erase of 9 merges its second child into the first one, and the
root keeps the separator in slot 1, whose child is not the merged node but has been freed. -/
theorem C97_merge_left : ∀ hy, found 4 4 hy none (insAll (List.range 25)) [0, 5, 10, 12] =
      .ok [.ok (some 100), .ok (some 105), .ok (some 110), .ok (some 112)] ∧
    found 4 4 hy none (insAll (List.range 25) ++ [.erase 9]) [0, 5, 10, 12] = .ok [.ub, .ub, .ub, .ub] := by
  decide +kernel

end Verif.WBTree
