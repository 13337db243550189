import Verif.WBTree.EraseInsert
import Verif.MapSpec

/-!
# C97: erase in wBPTree and wHBPTree with several leaves
-/

namespace Verif.WBTree

variable {K V : Type} [LinearOrder K] {N M : Nat}

/-! ## Runs of the model -/

/-- The state after a list of calls, and what the calls return (an insert returns nothing, which counts as `true`). -/
def erun (hy : Bool) (junk : Option Nat) : List (MapSpec.Op K V) → ETree K V N M → Res (ETree K V N M × List Bool)
  | [], s => .ok (s, [])
  | .insert k v :: ops, s => do
    let s ← einsert junk s k v
    let (s, rs) ← erun hy junk ops s
    pure (s, true :: rs)
  | .erase k :: ops, s => do
    let (s, r) ← eerase hy s k
    let (s, rs) ← erun hy junk ops s
    pure (s, r :: rs)

/-- No insert splits a leaf exactly in the middle, and every erase is of a stored key and is handled well in the sense
of `Calm`; `m` is the map before the calls. -/
def CalmRun (hy : Bool) (junk : Option Nat) : List (MapSpec.Op K V) → (K → Option V) → ETree K V N M → Prop
  | [], _, _ => True
  | .insert k v :: ops, m, s => (∀ a, einsLeaf s k s.tree.depth s.tree.root = .ok a → ¬ SplitsMiddle s.tree k a) ∧
      ∀ s', einsert junk s k v = .ok s' → CalmRun hy junk ops (MapSpec.step m (.insert k v)) s'
  | .erase k :: ops, m, s => m k ≠ none ∧ Calm hy k s.tree.depth s s.tree.root ∧
      ∀ s' r, eerase hy s k = .ok (s', r) → CalmRun hy junk ops (MapSpec.step m (.erase k)) s'

/-- C97: in every tree that inserts and erases lead to, an erase of a key that `lookup` finds answers `true`; then
the key is not found any more, and every other key that was found is still found with its value. -/
def C97_statement : Prop :=
  ∀ (K V : Type) [LinearOrder K] (N M : Nat) (hy : Bool) (junk : Option Nat) (ops : List (MapSpec.Op K V))
    (s : ETree K V N M) (rs : List Bool) (key : K) (v : V), 1 < N → 1 < M →
    erun hy junk ops (eempty N M junk) = .ok (s, rs) → elookup s key = .ok (some v) →
    ∃ s', eerase hy s key = .ok (s', true) ∧ elookup s' key = .ok none ∧
      ∀ k w, k ≠ key → elookup s k = .ok (some w) → elookup s' k = .ok (some w)

/-! ## The part that holds -/

theorem EInv.run (hM : 1 < M) (hN : 1 < N) (hy : Bool) (junk : Option Nat) : ∀ (ops : List (MapSpec.Op K V)) (m : K → Option V)
    (s : ETree K V N M), EInv s m → CalmRun hy junk ops m s →
    ∃ s', erun hy junk ops s = .ok (s', MapSpec.outs m ops) ∧ EInv s' (MapSpec.run m ops) := by
  intro ops
  induction ops with
  | nil => intro m s h _; exact ⟨s, rfl, h⟩
  | cons op ops ih =>
    intro m s h hc
    cases op with
    | insert k v =>
      obtain ⟨s1, e, h1⟩ := h.insert junk hM hN k v hc.1
      obtain ⟨s', e2, h3⟩ := ih _ s1 h1 (hc.2 s1 e)
      refine ⟨s', ?_, h3⟩
      rw [erun, e, Res.ok_bind]
      rw [e2, Res.ok_bind]
      rfl
    | erase k =>
      obtain ⟨hk, hc1, hc2⟩ := hc
      obtain ⟨v, hv⟩ := Option.ne_none_iff_exists'.1 hk
      obtain ⟨s1, e, h1⟩ := h.erase hv hc1
      obtain ⟨s', e2, h3⟩ := ih _ s1 h1 (hc2 s1 true e)
      refine ⟨s', ?_, h3⟩
      rw [erun, e, Res.ok_bind]
      simp only []
      rw [e2, Res.ok_bind, MapSpec.outs, MapSpec.out, hv]
      rfl

theorem efindLeaf_inner {s : ETree K V N M} (hB : s.deadB = []) {key : K} : ∀ (d a : Nat), Inner s.tree key d a →
    efindLeaf s key d a = einsLeaf s key d a := by
  intro d
  induction d with
  | zero => intro a _; rfl
  | succ d ih =>
    rintro a ⟨b, n, p, c, h1, h2, h3, h4, h5, h6⟩
    have hb : s.branch a = .ok b := by
      unfold ETree.branch
      rw [hB, if_neg (by simp), h1]
    rw [efindLeaf, einsLeaf, hb, Res.ok_bind, Res.ok_bind, h3, Res.ok_bind, Res.ok_bind, h5, Res.ok_bind]
    unfold Branch.child at h5
    rw [h2, Res.ok_bind, if_neg (by omega)] at h5
    obtain ⟨i, hi, h5⟩ := Res.bind_eq_ok.1 h5
    rw [hi, Res.ok_bind, h5, Res.ok_bind, ih c h6]

/-- A lookup along the descent of inserts and erases. -/
def insLookup (s : ETree K V N M) (k : K) : Res (Option V) := do
  let a ← einsLeaf s k s.tree.depth s.tree.root
  let l ← s.leaf a
  l.lookup k

theorem EInv.lookup_ins {s : ETree K V N M} {m : K → Option V} (h : EInv s m) (k : K) : insLookup s k = .ok (m k) := by
  obtain ⟨T, h1, h2, h3, _, h5, _, h7, h8⟩ := h
  obtain ⟨a, l, es, e1, e2, hok, hes, _⟩ := insLeaf_gen k s.tree.depth T h2 (h3.imp id And.left)
  obtain ⟨a', pre, post, e1', hL, _⟩ := insLeaf_left k s.tree.depth T h2 (h3.imp id And.left)
  rw [e1] at e1'
  obtain rfl := Res.ok.inj e1'
  rw [h1] at e1
  obtain ⟨r, e3, hr⟩ := hok.lookup_iff k
  have e4 : s.leaf a = .ok l := by
    unfold ETree.leaf
    rw [if_neg (h5.alive a (by rw [hL]; simp)).1, e2]
  unfold insLookup
  rw [einsLeaf_eq h7, e1, Res.ok_bind, e4, Res.ok_bind, e3]
  congr 1
  have hv : ∀ v, r = some v ↔ m k = some v := fun v => by rw [← hr v, ← hes v, h8]
  cases r with
  | none =>
    cases hm : m k with
    | none => rfl
    | some v => exact absurd ((hv v).2 hm) (by simp)
  | some v => exact ((hv v).1 rfl).symm

theorem EInv.lookup_inner {s : ETree K V N M} {m : K → Option V} (h : EInv s m) {k : K}
    (hi : Inner s.tree k s.tree.depth s.tree.root) : elookup s k = .ok (m k) := by
  have hB : s.deadB = [] := by
    obtain ⟨T, h1, h2, h3, _, h5, _, h7, h8⟩ := h
    exact h7
  unfold elookup
  rw [efindLeaf_inner hB _ _ hi]
  exact h.lookup_ins k

/-- C97, the part that holds, for trees of any depth: as long as no insert splits a leaf exactly in the middle and
every erase takes a stored key from a leaf that is not full and then leaves the leaf filled, merges it with a
neighbour while the branch node above keeps half of its separators (or is the root), or, in wBPTree, takes entries from
the left neighbour of the last leaf of a branch node, every call succeeds, every erase answers `true`, a lookup along
the descent of inserts and erases is right for every key, and `lookup` is right whenever its descent meets a larger
separator at every branch node.  Missing: the balances with a right neighbour and with a left neighbour in the middle
(`C97_balance_next`, `C97_balance_prev`), merges of leaves below a branch node with a single separator that is not the
root, underflows of branch nodes (`C97_merge_right`), and the lookups of keys behind the last separator, where the claim is false (`C97_refuted`, `C45_split_loses`). -/
theorem C97_partial (hN : 1 < N) (hM : 1 < M) (hy : Bool) (junk : Option Nat) (ops : List (MapSpec.Op K V))
    (h : CalmRun hy junk ops MapSpec.empty (eempty N M junk : ETree K V N M)) :
    ∃ s, erun hy junk ops (eempty N M junk : ETree K V N M) = .ok (s, MapSpec.outs MapSpec.empty ops) ∧
      (∀ k, insLookup s k = .ok (MapSpec.run MapSpec.empty ops k)) ∧
      ∀ k, Inner s.tree k s.tree.depth s.tree.root → elookup s k = .ok (MapSpec.run MapSpec.empty ops k) := by
  obtain ⟨s, e, h2⟩ := EInv.run hM hN hy junk ops _ _ (eInv_empty junk) h
  exact ⟨s, e, h2.lookup_ins, fun k hi => h2.lookup_inner hi⟩

/-! ## Where the claim is false -/

/-- Run the calls on an empty tree and look up the keys. -/
def found (N M : Nat) (hy : Bool) (junk : Option Nat) (ops : List (MapSpec.Op Nat Nat)) (ks : List Nat) :
    Res (List (Res (Option Nat))) := do
  let (s, _) ← erun hy junk ops (eempty N M junk)
  pure (ks.map (elookup s))

/-- The keys, inserted in this order. -/
def insAll (ks : List Nat) : List (MapSpec.Op Nat Nat) := ks.map fun k => .insert k (k + 100)

set_option maxRecDepth 100000 in
/-- The keys 10, 20, 30 and 45 are found; the erase of 10 makes the leaf take 30 from its right neighbour and puts the
new separator into the wrong slot: 30 and 45 are not found any more. -/
theorem C97_balance_next : ∀ hy, ∀ junk ∈ [none, some 0],
    found 4 4 hy junk (insAll [10, 20, 30, 40, 50, 60, 70, 80, 45]) [10, 20, 30, 45] =
      .ok [.ok (some 110), .ok (some 120), .ok (some 130), .ok (some 145)] ∧
    ∃ r ∈ [.ub, .ok none],
      found 4 4 hy junk (insAll [10, 20, 30, 40, 50, 60, 70, 80, 45] ++ [.erase 10]) [10, 20, 30, 45] =
        .ok [.ok none, .ok (some 120), .ok none, r] := by
  decide +kernel

set_option maxRecDepth 100000 in
/-- The erase of 30 makes the leaf take 25 from its left neighbour and puts the new separator into the slot behind:
25 and 40 are not found any more. -/
theorem C97_balance_prev : ∀ hy, ∀ junk ∈ [none, some 0],
    found 4 4 hy junk (insAll [10, 20, 30, 40, 50, 60, 70, 80, 25]) [10, 20, 25, 30, 40] =
      .ok [.ok (some 110), .ok (some 120), .ok (some 125), .ok (some 130), .ok (some 140)] ∧
    ∃ r ∈ [.ub, .ok none],
      found 4 4 hy junk (insAll [10, 20, 30, 40, 50, 60, 70, 80, 25] ++ [.erase 30]) [10, 20, 25, 30, 40] =
        .ok [.ok (some 110), .ok (some 120), .ok none, .ok none, r] := by
  decide +kernel

set_option maxRecDepth 100000 in
/-- In a tree with two levels of branch nodes, the erase of 10 merges two leaves and then their branch node with its
right neighbour, which is the last child of the root.  The code frees the merged node instead of the neighbour and makes
it the root: every lookup reads freed memory. -/
theorem C97_merge_right : ∀ hy, ∀ junk ∈ [none, some 0],
    found 4 4 hy junk (insAll [10, 20, 30, 40, 50, 60, 70, 80, 90, 100, 110, 120, 130]) [10, 20, 30, 40, 50, 60] =
      .ok [.ok (some 110), .ok (some 120), .ok (some 130), .ok (some 140), .ok (some 150), .ok (some 160)] ∧
    found 4 4 hy junk (insAll [10, 20, 30, 40, 50, 60, 70, 80, 90, 100, 110, 120, 130] ++ [.erase 10])
      [10, 20, 30, 40, 50, 60] = .ok [.ub, .ub, .ub, .ub, .ub, .ub] := by
  decide +kernel

theorem erun_snoc {hy : Bool} {junk : Option Nat} {k : K} : ∀ (ops : List (MapSpec.Op K V)) {s0 s s' : ETree K V N M}
    {rs : List Bool} {r : Bool}, erun hy junk ops s0 = .ok (s, rs) → eerase hy s k = .ok (s', r) →
    erun hy junk (ops ++ [.erase k]) s0 = .ok (s', rs ++ [r]) := by
  intro ops
  induction ops with
  | nil =>
    intro s0 s s' rs r e1 e2
    cases Res.ok.inj e1
    rw [List.nil_append, erun, e2]
    rfl
  | cons op ops ih =>
    intro s0 s s' rs r e1 e2
    cases op with
    | insert j v =>
      rw [erun] at e1
      obtain ⟨s1, h1, e1⟩ := Res.bind_eq_ok.1 e1
      obtain ⟨⟨s2, rs2⟩, h2, e1⟩ := Res.bind_eq_ok.1 e1
      cases Res.ok.inj e1
      rw [List.cons_append, erun, h1, Res.ok_bind, ih h2 e2]
      rfl
    | erase j =>
      rw [erun] at e1
      obtain ⟨⟨s1, r1⟩, h1, e1⟩ := Res.bind_eq_ok.1 e1
      obtain ⟨⟨s2, rs2⟩, h2, e1⟩ := Res.bind_eq_ok.1 e1
      cases Res.ok.inj e1
      rw [List.cons_append, erun, h1, Res.ok_bind]
      simp only []
      rw [ih h2 e2]
      rfl

/-- C97 is false for each of the two trees. -/
theorem C97_refuted_each (hy : Bool) : ∃ (ops : List (MapSpec.Op Nat Nat)) (s : ETree Nat Nat 4 4) (rs : List Bool),
    erun hy none ops (eempty 4 4 none) = .ok (s, rs) ∧ elookup s 10 = .ok (some 110) ∧
    elookup s 30 = .ok (some 130) ∧ ∀ s', eerase hy s 10 = .ok (s', true) → elookup s' 30 ≠ .ok (some 130) := by
  obtain ⟨h1, r, hr, h2⟩ := C97_balance_next hy none (by simp)
  unfold found at h1 h2
  obtain ⟨⟨s, rs⟩, e, h1⟩ := Res.bind_eq_ok.1 h1
  have h1 := Res.ok.inj h1
  simp only [List.map_cons, List.map_nil, List.cons.injEq] at h1
  refine ⟨_, s, rs, e, h1.1, h1.2.2.1, ?_⟩
  intro s' e' hf
  rw [erun_snoc _ e e', Res.ok_bind] at h2
  have h2 := Res.ok.inj h2
  simp only [List.map_cons, List.map_nil, List.cons.injEq] at h2
  rw [h2.2.2.1] at hf
  cases Res.ok.inj hf

/-- C97 is false as it stands. -/
theorem C97_refuted : ¬ C97_statement := by
  intro h
  obtain ⟨ops, s, rs, e, h1, h2, h3⟩ := C97_refuted_each false
  obtain ⟨s', e1, _, h4⟩ := h Nat Nat 4 4 false none ops s rs 10 110 (by omega) (by omega) e h1
  exact h3 s' e1 (h4 30 130 (by omega) h2)

/-! ## Concrete runs -/

/-- `SplitsMiddle`, computed. -/
def splitsMiddleB [DecidableEq V] (t : Tree K V N M) (key : K) (a : Nat) : Bool :=
  match t.leaf a with
  | .ok l => decide (l.slot.rd (M + 1) 0 = .ok M) && decide (l.pos key = .ok ((M + 1) / 2)) &&
      decide (l.lookup key = .ok none)
  | _ => false

theorem splitsMiddleB_iff [DecidableEq V] {t : Tree K V N M} {key : K} {a : Nat} (h : splitsMiddleB t key a = false) :
    ¬ SplitsMiddle t key a := by
  rintro ⟨l, h1, h2, h3, h4⟩
  unfold splitsMiddleB at h
  rw [h1] at h
  simp [h2, h3, h4] at h

/-- The number of entries of a leaf. -/
def entriesB (s : ETree K V N M) (a : Nat) : Res Nat := s.leaf a >>= Leaf.count

theorem entries_iff {s : ETree K V N M} {a n : Nat} : Entries s a n ↔ entriesB s a = .ok n := by
  unfold Entries entriesB
  rw [Res.bind_eq_ok]

/-- `CalmLeaf`, computed. -/
def calmLeafB (hy : Bool) (s : ETree K V N M) (nb p c : Nat) : Bool :=
  match entriesB s c with
  | .ok n =>
    let small (o : Option Nat) : Bool := match o with
      | some q => match entriesB s q with
        | .ok m => decide (m ≤ (M + 1) / 2)
        | _ => true
      | none => true
    let large (o : Option Nat) : Bool := match o with
      | some q => match entriesB s q with
        | .ok m => decide ((M + 1) / 2 < m)
        | _ => false
      | none => false
    decide ((M + 1) / 2 ≤ n) ||
    ((decide (1 < nb) || (decide (nb = 1) && decide (s.tree.depth = 1))) &&
      (decide (¬ 1 < p) || small (s.prev c)) && (decide (¬ p ≤ nb) || small (s.tree.next c))) ||
    (!hy && decide (0 < n) && decide (1 < p) && decide (p = nb + 1) && large (s.prev c))
  | _ => false

theorem calmLeafB_iff {hy : Bool} {s : ETree K V N M} {nb p c : Nat} (h : calmLeafB hy s nb p c = true) :
    CalmLeaf hy s nb p c := by
  unfold calmLeafB at h
  split at h
  · rename_i n hn
    refine ⟨n, entries_iff.2 hn, ?_⟩
    simp only [Bool.or_eq_true, Bool.and_eq_true, decide_eq_true_eq, Bool.not_eq_true'] at h
    rcases h with (h | ⟨⟨h1, h2⟩, h3⟩) | ⟨⟨⟨⟨h1, h2⟩, h3⟩, h4⟩, h5⟩
    · exact Or.inl h
    · refine Or.inr (Or.inl ⟨h1, ?_, ?_⟩)
      · intro hp q m e1 e2
        rcases h2 with h2 | h2
        · exact absurd hp h2
        · rw [e1] at h2
          simp only [entries_iff.1 e2, decide_eq_true_eq] at h2
          exact h2
      · intro hp q m e1 e2
        rcases h3 with h2 | h2
        · exact absurd hp h2
        · rw [e1] at h2
          simp only [entries_iff.1 e2, decide_eq_true_eq] at h2
          exact h2
    · refine Or.inr (Or.inr ⟨h1, h2, h3, h4, ?_⟩)
      split at h5
      · rename_i q hq
        split at h5
        · rename_i m hm
          exact ⟨q, m, hq, entries_iff.2 hm, by simpa using h5⟩
        · simp at h5
      · simp at h5
  · simp at h

/-- `Calm`, computed. -/
def calmB (hy : Bool) (key : K) : Nat → ETree K V N M → Nat → Bool
  | 0, s, a => match entriesB s a with
    | .ok n => decide (n < M)
    | _ => false
  | d + 1, s, a =>
    let r : Res (Nat × Nat × Nat) := do
      let b ← s.branch a
      let p ← b.pos key
      let c ← b.child p
      let nb ← b.count
      pure (p, c, nb)
    match r with
    | .ok (p, c, nb) => calmB hy key d s c && match eraseAux hy key d s c with
      | .ok (s1, _) =>
        if d = 0 then calmLeafB hy s1 nb p c
        else match s1.branch c >>= Branch.count with
          | .ok n => decide ((N + 1) / 2 ≤ n)
          | _ => false
      | _ => true
    | _ => false

theorem calmB_iff {hy : Bool} {key : K} : ∀ (d : Nat) (s : ETree K V N M) (a : Nat), calmB hy key d s a = true →
    Calm hy key d s a := by
  intro d
  induction d with
  | zero =>
    intro s a h
    unfold calmB at h
    split at h
    · rename_i n hn
      exact ⟨n, entries_iff.2 hn, by simpa using h⟩
    · simp at h
  | succ d ih =>
    intro s a h
    unfold calmB at h
    simp only [] at h
    split at h
    · rename_i p c nb hr
      obtain ⟨b, hb, hr⟩ := Res.bind_eq_ok.1 hr
      obtain ⟨p', hp, hr⟩ := Res.bind_eq_ok.1 hr
      obtain ⟨c', hc, hr⟩ := Res.bind_eq_ok.1 hr
      obtain ⟨nb', hnb, hr⟩ := Res.bind_eq_ok.1 hr
      cases Res.ok.inj hr
      rw [Bool.and_eq_true] at h
      refine ⟨b, _, _, _, hb, hp, hc, hnb, ih s _ h.1, ?_⟩
      intro s1 del e
      have h2 := h.2
      rw [e] at h2
      simp only [] at h2
      by_cases hd : d = 0
      · rw [if_pos hd] at h2 ⊢
        exact calmLeafB_iff h2
      · rw [if_neg hd] at h2 ⊢
        split at h2
        · rename_i n hn
          obtain ⟨x, hx, hn⟩ := Res.bind_eq_ok.1 hn
          exact ⟨x, n, hx, hn, by simpa using h2⟩
        · simp at h2
    · simp at h

/-- `CalmRun`, computed. -/
def calmRunB [DecidableEq V] (hy : Bool) (junk : Option Nat) :
    List (MapSpec.Op K V) → (K → Option V) → ETree K V N M → Bool
  | [], _, _ => true
  | .insert k v :: ops, m, s => (match einsLeaf s k s.tree.depth s.tree.root with
      | .ok a => !splitsMiddleB s.tree k a
      | _ => true) && match einsert junk s k v with
      | .ok s' => calmRunB hy junk ops (MapSpec.step m (.insert k v)) s'
      | _ => true
  | .erase k :: ops, m, s => (m k).isSome && calmB hy k s.tree.depth s s.tree.root && match eerase hy s k with
      | .ok (s', _) => calmRunB hy junk ops (MapSpec.step m (.erase k)) s'
      | _ => true

theorem calmRunB_iff [DecidableEq V] {hy : Bool} {junk : Option Nat} : ∀ (ops : List (MapSpec.Op K V)) (m : K → Option V)
    (s : ETree K V N M), calmRunB hy junk ops m s = true → CalmRun hy junk ops m s := by
  intro ops
  induction ops with
  | nil => intro m s _; trivial
  | cons op ops ih =>
    intro m s h
    cases op with
    | insert k v =>
      rw [calmRunB, Bool.and_eq_true] at h
      refine ⟨?_, ?_⟩
      · intro a e
        have h1 := h.1
        rw [e] at h1
        exact splitsMiddleB_iff (by simpa using h1)
      · intro s' e
        have h1 := h.2
        rw [e] at h1
        exact ih _ _ h1
    | erase k =>
      rw [calmRunB, Bool.and_eq_true, Bool.and_eq_true] at h
      refine ⟨?_, calmB_iff _ _ _ h.1.2, ?_⟩
      · intro hm
        have := h.1.1
        rw [hm] at this
        simp at this
      · intro s' r e
        have h1 := h.2
        rw [e] at h1
        exact ih _ _ h1

/-- Inserts and erases: a leaf takes an entry from its left neighbour when 60 goes, 73 splits a leaf, and two leaves are
merged when 35 goes. -/
def exOps : List (MapSpec.Op Nat Nat) :=
  insAll [10, 20, 30, 40, 50, 60, 70, 35] ++ [.erase 50, .erase 60] ++ insAll [71, 72, 73] ++ [.erase 35, .erase 20]

set_option maxRecDepth 100000 in
/-- `C97_partial` applies. -/
theorem exOps_calm : CalmRun false none exOps MapSpec.empty (eempty 4 4 none) :=
  calmRunB_iff _ _ _ (by decide +kernel)

/-- Inserts into a tree with two levels of branch nodes; the erase of 100 merges two leaves, that of 30 does not. -/
def exOps2 : List (MapSpec.Op Nat Nat) :=
  insAll [10, 20, 30, 40, 50, 60, 70, 80, 90, 100, 110, 120, 130, 140, 150, 160, 35] ++ [.erase 100, .erase 30]

set_option maxRecDepth 100000 in
/-- `C97_partial` applies to it for both trees. -/
theorem exOps2_calm : ∀ hy, CalmRun hy none exOps2 MapSpec.empty (eempty 4 4 none) := by
  intro hy
  exact calmRunB_iff _ _ _ (by revert hy; decide +kernel)

set_option maxRecDepth 100000 in
/-- What is found then. -/
theorem exOps2_found : ∀ hy, found 4 4 hy none exOps2 [10, 20, 30, 35, 40, 50, 60] =
    .ok [.ok (some 110), .ok (some 120), .ok none, .ok (some 135), .ok (some 140), .ok (some 150), .ok (some 160)] := by
  decide +kernel

set_option maxRecDepth 100000 in
/-- The tree has two levels of branch nodes, and one leaf has been freed. -/
theorem exOps2_shape : ∀ hy, (erun hy none exOps2 (eempty 4 4 none) >>= fun x =>
    (pure (x.1.tree.depth, x.1.deadL, x.1.deadB) : Res _)) = .ok (2, [4], []) := by
  decide +kernel

end Verif.WBTree
