import Verif.BTree.InsertCrashLevel
import Verif.BTree.SplitCrashProps

/-!
# Property theorems on crashes on the branch levels of an insert into PBPTree (C116, C117)

The specification is `Verif.MapSpec` with `Verif.CrashSpec`.
-/

set_option linter.unusedSectionVars false

namespace Verif.BTree

open Verif Assoc

variable {K V L : Type} [LinearOrder K] {o : Ops K V L} {W : Laws o} {lm bm rm : Nat}

theorem AtHost.mono {P P' : (e : Nat) → BNode K (Tree K e) → Nat → K → Prop} (hP : ∀ e n pos s, P e n pos s → P' e n pos s) {k : K} {v : V} {j : Nat} {x : K} {h : Heap L} :
    ∀ {d : Nat} {t : Tree K d}, AtHost o P k v j x d h t → AtHost o P' k v j x d h t
  | 0, _, hh => hh
  | d + 1, n, ⟨pos, c, h1, h2, h3⟩ => by
    refine ⟨pos, c, h1, h2, ?_⟩
    by_cases hj : j < d
    · rw [if_pos hj] at h3 ⊢
      exact ⟨h3.1, AtHost.mono hP h3.2⟩
    · rw [if_neg hj] at h3 ⊢
      obtain ⟨r, sr, e1, e2, e3⟩ := h3
      exact ⟨r, sr, e1, e2, hP _ _ _ _ e3⟩

/-- `AtHost` for a condition that can be computed. -/
def atHostB (o : Ops K V L) (p : (e : Nat) → BNode K (Tree K e) → Nat → K → Bool) (k : K) (v : V) (j : Nat) (x : K) :
    (d : Nat) → Heap L → Tree K d → Bool
  | 0, _, _ => false
  | d + 1, h, n =>
    match lookupPos o n k with
    | .ok pos =>
      match n.kids pos with
      | some c =>
        if j < d then
          match lookupPos o n x with
          | .ok pos' => decide (pos' = pos) && atHostB o p k v j x d h c
          | _ => false
        else
          match insertT o d h c k v with
          | .ok r =>
            match r.split with
            | some sr => p d { n with kids := fun i => if i = pos then some r.tree else n.kids i } pos sr.1
            | none => false
          | _ => false
      | none => false
    | _ => false

theorem atHostB_iff {p : (e : Nat) → BNode K (Tree K e) → Nat → K → Bool} {k : K} {v : V} {j : Nat} {x : K} {h : Heap L} :
    ∀ {d : Nat} {t : Tree K d}, atHostB o p k v j x d h t = true ↔ AtHost o (fun e n pos s => p e n pos s = true) k v j x d h t
  | 0, _ => by simp [atHostB, AtHost]
  | d + 1, n => by
    have ih := fun c => atHostB_iff (p := p) (k := k) (v := v) (j := j) (x := x) (h := h) (d := d) (t := c)
    unfold atHostB AtHost
    cases e1 : lookupPos o n k with
    | ok pos =>
      cases e2 : n.kids pos with
      | none => simp [e2]
      | some c =>
        by_cases hj : j < d
        · cases e3 : lookupPos o n x <;> simp [e2, hj, ih]
        · cases e3 : insertT o d h c k v with
          | ok r =>
            cases e4 : r.split with
            | none => simp [e2, hj, e3, e4]
            | some sr =>
              obtain ⟨a, b⟩ := sr
              simp [e2, hj, e3, e4]
          | _ => simp [e2, hj, e3]
    | _ => simp

/-- The branch node at work is determined. -/
theorem atHost_and {P P' : (e : Nat) → BNode K (Tree K e) → Nat → K → Prop} {k : K} {v : V} {j : Nat} {x : K} {h : Heap L} :
    ∀ {d : Nat} {t : Tree K d}, AtHost o P k v j x d h t → AtHost o P' k v j x d h t → ¬ ∀ e n pos s, P e n pos s → P' e n pos s → False
  | 0, _, hh, _ => hh.elim
  | d + 1, n, ⟨pos, c, h1, h2, h3⟩, ⟨pos', c', h1', h2', h3'⟩ => by
    rw [h1] at h1'
    cases Res.ok.inj h1'
    rw [h2] at h2'
    cases Option.some.inj h2'
    by_cases hj : j < d
    · rw [if_pos hj] at h3 h3'
      exact atHost_and h3.2 h3'.2
    · rw [if_neg hj] at h3 h3'
      obtain ⟨r, sr, e1, e2, e3⟩ := h3
      obtain ⟨r', sr', e1', e2', e3'⟩ := h3'
      rw [e1] at e1'
      cases Res.ok.inj e1'
      rw [e2] at e2'
      cases Option.some.inj e2'
      exact fun hc => hc _ _ _ _ e3 e3'

/-- The insert of `k` splits a child of the branch node of height `j + 1` (or, with `j = depth`, the root), and the search for
`x` comes to this node. -/
def Below (o : Ops K V L) (s : State K L) (k : K) (v : V) (j : Nat) (x : K) : Prop :=
  if j < s.depth then AtHost o (fun _ _ _ _ => True) k v j x s.depth s.heap s.root
  else ∃ r sr, insertT o s.depth s.heap s.root k v = .ok r ∧ r.split = some sr

theorem LostIns.below {s : State K L} {k : K} {v : V} {j q : Nat} {x : K} (h : LostIns o s k v j q x) : Below o s k v j x := by
  unfold LostIns at h
  unfold Below
  split
  · rename_i hj
    rw [if_pos hj] at h
    exact AtHost.mono (fun _ _ _ _ _ => trivial) h
  · rename_i hj
    rw [if_neg hj] at h
    obtain ⟨_, r, sr, e1, e2, _⟩ := h
    exact ⟨r, sr, e1, e2⟩

theorem DupIns.below {s : State K L} {k : K} {v : V} {j q : Nat} {x : K} (h : DupIns o s k v j q x) : Below o s k v j x := by
  unfold Below
  rw [if_pos h.1]
  exact AtHost.mono (fun _ _ _ _ _ => trivial) h.2

/-- A branch node with free space at level `j` whose child before the last one is split by the insert of `k`; `x` is not smaller
than any of its separators. -/
def LastChild (o : Ops K V L) (s : State K L) (k : K) (v : V) (j : Nat) (x : K) : Prop :=
  j < s.depth ∧ AtHost o (fun _ n pos sep => n.num < o.N ∧ pos < n.num ∧ sep ≤ x ∧ ∀ i, i < n.num → ∃ y, n.keys i = some y ∧ y ≤ x) k v j x s.depth s.heap s.root

theorem sepRank_all {α : Type} {n : BNode K α} {s x : K} (hk : ∀ i, i < n.num → ∃ y, n.keys i = some y ∧ y ≤ x) (hs : s ≤ x) : sepRank n s x = n.num + 1 := by
  unfold sepRank
  rw [if_pos hs, List.countP_eq_length.2, List.length_range]
  intro i hi
  obtain ⟨y, e, hy⟩ := hk i (List.mem_range.1 hi)
  rw [e]
  simpa using hy

theorem LastChild.lost {s : State K L} {k : K} {v : V} {j : Nat} {x : K} (h : LastChild o s k v j x) : LostIns o s k v j 2 x := by
  unfold LostIns
  rw [if_pos h.1]
  refine AtHost.mono (fun e n pos sep hd => ?_) h.2
  obtain ⟨h1, h2, h3, h4⟩ := hd
  unfold LostNode
  rw [if_neg (by omega), sepRank_all h4 h3]
  exact Or.inr (Or.inl ⟨h2, rfl, le_rfl, by unfold room; split <;> omega⟩)

end Verif.BTree

namespace Verif.BTreeProps

open Verif BTree MapSpec Assoc CrashSpec

variable {K V : Type} [LinearOrder K]

/-- The tree after any history that erases present keys only. -/
theorem pb_history (N M q : Nat) (hN : N = 2 * q) (hq : 3 ≤ q) (hM : 2 ≤ M) (ops : List (Op K V)) (ho : ErasesPresent empty ops) :
    ∃ s, execAll (PB N M) (init (PB N M)) ops = .ok (outs empty ops, s) ∧
      Good (sortedLaws (pbLaws (K := K) (V := V) (N := N) hM)) (M / 2) (q - 1) 1 s ∧
      Stores (sortedLaws (pbLaws (K := K) (V := V) (N := N) hM)) s (run empty ops) := by
  have C := pbLaws (K := K) (V := V) (N := N) hM
  obtain ⟨s, e, g, h, _⟩ := histories_good_head (W := sortedLaws C) (sortedErase C) (fun _ _ _ => trivial) (by
    intro l k _ hf
    obtain ⟨v, hv⟩ := Option.ne_none_iff_exists'.1 hf
    exact ⟨(k, v), Assoc.find_some_mem hv, le_rfl⟩) hN hq hM le_rfl ops _ _
    (init_good (sortedLaws C) _ _ _).1 (init_stores _) ho (fun _ _ _ => trivial)
  exact ⟨s, e, g, h⟩

theorem pb_dup (N M : Nat) : DupSearch (PB N M : Ops K V _) := dupSearch_binary rfl

/-! ## C116 -/

/-- C116 in full: after a crash at any point of the branch levels of an insert the tree can be used, and every lookup gives the
value before or the value after the insert. -/
def C116_statement (K V : Type) [LinearOrder K] (N M : Nat) : Prop :=
  ∀ ops : List (Op K V), ErasesPresent empty ops → ∀ bs s, execAll (PB N M) (init (PB N M)) ops = .ok (bs, s) → ∀ k v j q,
    ∃ s', insertAt (PB N M) s k v j q = .ok (.tree s') ∧
      ∀ x, lookup (PB N M) s' x = .ok (run empty ops x) ∨ lookup (PB N M) s' x = .ok (step (run empty ops) (.insert k v) x)

/-- C116: unless the crash is between the assignments to `rootNode` and `depth`, every lookup comes to an end and gives nothing
or the value after the insert; it is the value after the insert for every key whose search does not come to the branch node at
work.  The last crash point of a level is the first of the next one, the last one of all is the completed insert.
Missing: the lost keys, and the tree that takes a branch node for a leaf (`C116_refuted`, `C116_refuted_mixed`). -/
theorem C116_branch_crash_partial (N M q : Nat) (hN : N = 2 * q) (hq : 3 ≤ q) (hM : 2 ≤ M) (ops : List (Op K V)) (ho : ErasesPresent empty ops) :
    ∃ s, execAll (PB N M) (init (PB N M)) ops = .ok (outs empty ops, s) ∧ ∀ k v j t,
      (MixedIns (PB N M) s k v j t → insertAt (PB N M) s k v j t = .ok .mixed) ∧
      (¬ MixedIns (PB N M) s k v j t → ∃ s', insertAt (PB N M) s k v j t = .ok (.tree s') ∧ ∀ x,
        (lookup (PB N M) s' x = .ok none ∨ lookup (PB N M) s' x = .ok (step (run empty ops) (.insert k v) x)) ∧
        (¬ Below (PB N M) s k v j x → lookup (PB N M) s' x = .ok (step (run empty ops) (.insert k v) x))) ∧
      (4 * N + 9 ≤ t → (j < s.depth → insertAt (PB N M) s k v j t = insertAt (PB N M) s k v (j + 1) 0) ∧
        (s.depth ≤ j → ∃ s', insert (PB N M) s k v = .ok s' ∧ insertAt (PB N M) s k v j t = .ok (.tree s'))) := by
  obtain ⟨s, e, g, h⟩ := pb_history N M q hN hq hM ops ho
  refine ⟨s, e, fun k v j t => ?_⟩
  have hlm : M / 2 ≤ (sortedLaws (pbLaws (K := K) (V := V) (N := N) hM)).lmin := le_rfl
  have hbm : q - 1 ≤ ((PB N M : Ops K V _).N - 1) / 2 := by change q - 1 ≤ (N - 1) / 2; omega
  have h2 : 2 ≤ (PB N M : Ops K V _).N := by change 2 ≤ N; omega
  have hf : ∀ x, find x (upsert k v (cont (sortedLaws (pbLaws (K := K) (V := V) (N := N) hM)) s)) = step (run empty ops) (.insert k v) x := by
    intro x
    rw [find_upsert, h x]
    rfl
  obtain ⟨m1, m2⟩ := insertAt_lookup hlm hbm h2 le_rfl (pb_dup N M) g k v trivial j t
  refine ⟨m1, fun hm => ?_, fun ht => ?_⟩
  · obtain ⟨s', e1, hall⟩ := m2 hm
    refine ⟨s', e1, fun x => ?_⟩
    obtain ⟨a1, a2⟩ := hall x
    rw [hf x] at a1 a2
    exact ⟨a1, fun hb => (a2 (Or.inr (fun hd => hb hd.below))).2 (fun hl => hb hl.below)⟩
  · obtain ⟨n1, n2⟩ := insertAt_next hlm hbm h2 g k v trivial (j := j) (q := t) ht
    refine ⟨n1, fun hj => ?_⟩
    obtain ⟨s', e1, _, _⟩ := insert_good hlm hbm h2 le_rfl g k v trivial
    refine ⟨s', e1, (n2 hj).trans ?_⟩
    rw [e1]; rfl

/-- Nine inserts: a root with two separators over the leaves 10 15 16 20, 30 40 and 50 60 70. -/
def threeLeaves : List (Op Nat Nat) :=
  [.insert 10 1, .insert 20 2, .insert 30 3, .insert 40 4, .insert 50 5, .insert 60 6, .insert 70 7, .insert 15 8, .insert 16 9]

theorem threeLeaves_erases : ErasesPresent empty threeLeaves := trivial

/-- A lookup after `threeLeaves` and a crash after `t` changes at level `j` of the insert of key 17. -/
def branchEx (j t x : Nat) : Res (Option Nat) := do
  let r ← execAll (PB 6 4) (init (PB 6 4)) threeLeaves
  let l ← insertAt (PB 6 4) r.2 17 99 j t
  match l with
  | .tree s => lookup (PB 6 4) s x
  | .mixed => .ub

/-- The lookups of all keys after `t` changes in the root. -/
def branchKeys (t : Nat) : List (Res (Option Nat)) := [10, 16, 17, 20, 30, 40, 50, 70].map (branchEx 0 t)

/-- Key 10 is never lost.  The keys 16, 17 and 20 of the new leaf are found from the eighth change on.  The keys 50 and 70 of
the last leaf are lost from the second to the eighth change, the keys 30 and 40 of the leaf between after the fourth; key 30,
which the root holds twice, also after the fifth. -/
example : (List.range 10).map branchKeys =
    [[.ok (some 1), .ok none, .ok none, .ok none, .ok (some 3), .ok (some 4), .ok (some 5), .ok (some 7)],
     [.ok (some 1), .ok none, .ok none, .ok none, .ok (some 3), .ok (some 4), .ok (some 5), .ok (some 7)],
     [.ok (some 1), .ok none, .ok none, .ok none, .ok (some 3), .ok (some 4), .ok none, .ok none],
     [.ok (some 1), .ok none, .ok none, .ok none, .ok (some 3), .ok (some 4), .ok none, .ok none],
     [.ok (some 1), .ok none, .ok none, .ok none, .ok none, .ok none, .ok none, .ok none],
     [.ok (some 1), .ok none, .ok none, .ok none, .ok none, .ok (some 4), .ok none, .ok none],
     [.ok (some 1), .ok none, .ok none, .ok none, .ok (some 3), .ok (some 4), .ok none, .ok none],
     [.ok (some 1), .ok none, .ok none, .ok none, .ok (some 3), .ok (some 4), .ok none, .ok none],
     [.ok (some 1), .ok (some 9), .ok (some 99), .ok (some 2), .ok (some 3), .ok (some 4), .ok none, .ok none],
     [.ok (some 1), .ok (some 9), .ok (some 99), .ok (some 2), .ok (some 3), .ok (some 4), .ok (some 5), .ok (some 7)]] := by
  decide +kernel

/-- C116 is false for `PBPTree<K, V, 6, 4>`: key 50 is lost. -/
theorem C116_refuted : ¬ C116_statement Nat Nat 6 4 := by
  intro h
  have hd : branchEx 0 2 50 = .ok none := by decide +kernel
  unfold branchEx at hd
  obtain ⟨r, e, hd⟩ := Res.bind_eq_ok.1 hd
  obtain ⟨s', e', hall⟩ := h threeLeaves threeLeaves_erases r.1 r.2 e 17 99 0 2
  rw [e', Res.ok_bind] at hd
  have := hall 50
  change lookup (PB 6 4) s' 50 = .ok none at hd
  rw [hd] at this
  revert this
  decide +kernel

/-- After the sixth of the seven changes for a new root the tree takes this root for a leaf. -/
theorem C116_refuted_mixed : (execAll (PB 6 4) (init (PB 6 4)) fourKeys >>= fun r => insertAt (PB 6 4) r.2 50 5 0 6) = .ok .mixed := by
  have hd : (execAll (PB 6 4) (init (PB 6 4)) fourKeys >>= fun r => insertAt (PB 6 4) r.2 50 5 0 6 >>= fun l =>
    match l with | .tree _ => pure true | .mixed => pure false) = .ok false := by decide +kernel
  obtain ⟨r, e, hd⟩ := Res.bind_eq_ok.1 hd
  obtain ⟨l, e', hd⟩ := Res.bind_eq_ok.1 hd
  rw [e, Res.ok_bind, e']
  cases l with
  | tree s => cases Res.ok.inj hd
  | mixed => rfl

/-- The hypotheses can be met: a crash that is no `MixedIns`, and keys whose search does not come to the branch node at work are
those of trees with more levels; here every search comes to the root. -/
example : ErasesPresent empty threeLeaves ∧ ∃ s, execAll (PB 6 4) (init (PB 6 4)) threeLeaves = .ok (outs empty threeLeaves, s) ∧
    ¬ MixedIns (PB 6 4) s 17 99 0 2 := by
  refine ⟨threeLeaves_erases, ?_⟩
  obtain ⟨s, e, _⟩ := C116_branch_crash_partial 6 4 3 rfl (by omega) (by omega) threeLeaves threeLeaves_erases
  exact ⟨s, e, fun h => absurd h.2.1 (by omega)⟩

/-! ## C117 -/

/-- The search for `x` comes to the child that the insert of `k` splits below the branch node of height `j + 1`. -/
def InSplitChild {L : Type} (o : Ops K V L) (s : State K L) (k : K) (v : V) (j : Nat) (x : K) : Prop :=
  AtHost o (fun _ n pos _ => lookupPos o n x = .ok pos) k v j x s.depth s.heap s.root

/-- C117 in full: a crash while a branch node gets a separator loses only keys of the child that has been split. -/
def C117_statement (K V : Type) [LinearOrder K] (N M : Nat) : Prop :=
  ∀ ops : List (Op K V), ErasesPresent empty ops → ∀ bs s, execAll (PB N M) (init (PB N M)) ops = .ok (bs, s) → ∀ k v j q, j < s.depth →
    ∀ s', insertAt (PB N M) s k v j q = .ok (.tree s') → ∀ x, ¬ InSplitChild (PB N M) s k v j x →
      lookup (PB N M) s' x = .ok (step (run empty ops) (.insert k v) x)

/-- C117, exactly: after `t` changes at level `j` the lookups of the keys in `LostIns` give nothing and all others the value after
the insert.  With a node of `num` keys that gets a separator at position `pos < num`, these are by `LostAdd`: the keys behind the
new separator until its child is stored, those behind the last separator from the second change to the last but one, and those
behind one further separator after every second change.
Missing: keys of other children are lost too (`C117_refuted`).  Not covered: the separators a node holds twice, for which it
depends on the steps of the binary search whether they are found. -/
theorem C117_lost_keys_partial (N M q : Nat) (hN : N = 2 * q) (hq : 3 ≤ q) (hM : 2 ≤ M) (ops : List (Op K V)) (ho : ErasesPresent empty ops) :
    ∃ s, execAll (PB N M) (init (PB N M)) ops = .ok (outs empty ops, s) ∧ ∀ k v j t, ¬ MixedIns (PB N M) s k v j t →
      ∃ s', insertAt (PB N M) s k v j t = .ok (.tree s') ∧ ∀ x, ¬ DupIns (PB N M) s k v j t x →
        (LostIns (PB N M) s k v j t x → lookup (PB N M) s' x = .ok none) ∧
        (¬ LostIns (PB N M) s k v j t x → lookup (PB N M) s' x = .ok (step (run empty ops) (.insert k v) x)) := by
  obtain ⟨s, e, g, h⟩ := pb_history N M q hN hq hM ops ho
  have hf : ∀ k v x, find x (upsert k v (cont (sortedLaws (pbLaws (K := K) (V := V) (N := N) hM)) s)) = step (run empty ops) (.insert k v) x := by
    intro k v x
    rw [find_upsert, h x]
    rfl
  have hlm : M / 2 ≤ (sortedLaws (pbLaws (K := K) (V := V) (N := N) hM)).lmin := le_rfl
  have hbm : q - 1 ≤ ((PB N M : Ops K V _).N - 1) / 2 := by change q - 1 ≤ (N - 1) / 2; omega
  have h2 : 2 ≤ (PB N M : Ops K V _).N := by change 2 ≤ N; omega
  refine ⟨s, e, fun k v j t hm => ?_⟩
  obtain ⟨s', e1, hall⟩ := (insertAt_lookup hlm hbm h2 le_rfl (pb_dup N M) g k v trivial j t).2 hm
  refine ⟨s', e1, fun x hd => ?_⟩
  have := (hall x).2 (Or.inr hd)
  rw [hf k v x] at this
  exact this

/-- Whenever a branch node with free space gets a separator before its last one, the second change loses all keys of its last
child, however many there are. -/
theorem C117_last_child (N M q : Nat) (hN : N = 2 * q) (hq : 3 ≤ q) (hM : 2 ≤ M) (ops : List (Op K V)) (ho : ErasesPresent empty ops) :
    ∃ s, execAll (PB N M) (init (PB N M)) ops = .ok (outs empty ops, s) ∧ ∀ k v j x, LastChild (PB N M) s k v j x →
      ∃ s', insertAt (PB N M) s k v j 2 = .ok (.tree s') ∧ lookup (PB N M) s' x = .ok none := by
  obtain ⟨s, e, hall⟩ := C117_lost_keys_partial N M q hN hq hM ops ho
  refine ⟨s, e, fun k v j x hL => ?_⟩
  obtain ⟨s', e1, hx⟩ := hall k v j 2 (fun hm => absurd hm.2.1 (by omega))
  refine ⟨s', e1, (hx x ?_).1 ?_⟩
  · rintro ⟨_, hd⟩
    have : AtHost (PB N M) (fun _ n _ _ => n.num = N) k v j x s.depth s.heap s.root := by
      refine AtHost.mono (fun e n pos sep hd => ?_) hd
      obtain ⟨i, _, hd⟩ := hd
      split at hd
      · assumption
      · unfold DupAdd at hd; omega
    refine absurd this ?_
    have h2 := hL.2
    intro hc
    exact atHost_and hc h2 (fun e n pos sep a b => by
      have := b.1
      change n.num < N at this
      omega)
  · exact hL.lost

/-- The hypotheses can be met: key 50 is in the last child of the root, key 17 goes to the first one. -/
theorem threeLeaves_last {bs : List Bool} {s : State Nat (SLeaf Nat Nat)} (e : execAll (PB 6 4) (init (PB 6 4)) threeLeaves = .ok (bs, s)) :
    LastChild (PB 6 4) s 17 99 0 50 ∧ ¬ InSplitChild (PB 6 4) s 17 99 0 50 := by
  have hd : (execAll (PB 6 4) (init (PB 6 4)) threeLeaves >>= fun r => pure (decide (0 < r.2.depth) &&
      atHostB (PB 6 4) (fun _ n pos sep => decide (n.num < 6 ∧ pos < n.num ∧ sep ≤ 50) &&
        (List.range n.num).all (fun i => match n.keys i with | some y => decide (y ≤ 50) | none => false) &&
        !decide (lookupPos (PB 6 4 : Ops Nat Nat _) n 50 = .ok pos)) 17 99 0 50 r.2.depth r.2.heap r.2.root)) = .ok true := by decide +kernel
  rw [e, Res.ok_bind] at hd
  have hd := Res.ok.inj hd
  rw [Bool.and_eq_true, atHostB_iff] at hd
  obtain ⟨h1, h2⟩ := hd
  refine ⟨⟨of_decide_eq_true h1, AtHost.mono (fun e n pos sep hp => ?_) h2⟩, fun hc => atHost_and hc h2 (fun e n pos sep a b => ?_)⟩
  · simp only [Bool.and_eq_true, decide_eq_true_eq, List.all_eq_true, List.mem_range] at hp
    obtain ⟨⟨⟨a1, a2, a3⟩, a4⟩, _⟩ := hp
    refine ⟨a1, a2, a3, fun i hi => ?_⟩
    have := a4 i hi
    cases hk : n.keys i with
    | none => rw [hk] at this; cases this
    | some y => rw [hk] at this; exact ⟨y, rfl, of_decide_eq_true this⟩
  · simp only [Bool.and_eq_true, Bool.not_eq_true', decide_eq_false_iff_not] at b
    exact b.2 a

/-- C117 is false for `PBPTree<K, V, 6, 4>`. -/
theorem C117_refuted : ¬ C117_statement Nat Nat 6 4 := by
  intro h
  obtain ⟨s, e, hall⟩ := C117_last_child 6 4 3 rfl (by omega) (by omega) threeLeaves threeLeaves_erases
  obtain ⟨h1, h2⟩ := threeLeaves_last e
  obtain ⟨s', e1, e2⟩ := hall 17 99 0 50 h1
  have := h threeLeaves threeLeaves_erases _ s e 17 99 0 2 h1.1 s' e1 50 h2
  rw [e2] at this
  exact absurd (Res.ok.inj this) (by decide +kernel)

end Verif.BTreeProps
