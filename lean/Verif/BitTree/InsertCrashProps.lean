import Verif.BitTree.InsertCrashTree
import Verif.BitTree.SplitCrashProps

/-!
# C105, C106, C107: crashes anywhere inside an insert into BitPBPTree

`c.move = true` is BitPBPTree.  The specification of a history with crashes is `allowed` and `certain`, which only look at the
history.
-/

set_option linter.unusedSectionVars false

namespace Verif.BitTree

open Verif Search FPTree BTree CrashSpec

variable {K V : Type} {M : Nat} [LinearOrder K] [Inhabited K] {c : Cfg K V} {adm : K → Prop}

/-! ## Histories with crashes -/

/-- An insert that is completed, or one that is cut off by a crash after `q` changes at level `j`. -/
inductive Ev (K V : Type) where
  | insert (k : K) (v : V)
  | crash (k : K) (v : V) (j q : Nat)

/-- The key of an event. -/
def Ev.key : Ev K V → K
  | .insert k _ => k
  | .crash k _ _ _ => k

/-- The tree object after a history.  After a crash the next program goes on with what is there; BitPBPTree has no recovery.
On a mixed tree object everything is undefined. -/
def runEv : List (Ev K V) → Left c M → Res (Left c M)
  | [], l => .ok l
  | _ :: _, .mixed => .ub
  | .insert k v :: es, .tree t => do
    let t' ← t.insert k v
    runEv es (.tree t')
  | .crash k v j q :: es, .tree t => do
    let l ← t.insertAt k v j q
    runEv es l

/-- `lookup` on what a crash has left. -/
def Left.lookup : Left c M → K → Res (Option V)
  | .tree t, k => t.lookup k
  | .mixed, _ => .ub

/-- Specification: the values a lookup of `y` may return after the events `es`, `a` being those before: a completed insert of
`y` leaves its value only, one that is cut off adds its value. -/
def allowed (y : K) : List (Ev K V) → List V → List V
  | [], a => a
  | .insert k v :: es, a => allowed y es (if k = y then [v] else a)
  | .crash k v _ _ :: es, a => allowed y es (if k = y then v :: a else a)

/-- Specification: the value a lookup of `y` has to return because there was no crash since it was inserted. -/
def certain (y : K) : List (Ev K V) → Option V → Option V
  | [], a => a
  | .insert k v :: es, a => certain y es (if k = y then some v else a)
  | .crash _ _ _ _ :: es, _ => certain y es none

/-- The trees we meet. -/
structure Sane (adm : K → Prop) (t : Store c M) : Prop where
  ok : TOk adm t
  noLoop : NoLoop t.heap

theorem sane_empty (c : Cfg K V) (M : Nat) : Sane adm (Store.empty c M) := by
  refine ⟨tok_empty c M, ?_⟩
  intro i x hx
  match i, hx with
  | 0, hx => cases hx; simp

theorem sane_insert (F : Laws c adm) (hM : 2 ≤ M) (hm : c.move = false → M % 64 ≠ 0) (hN : 2 ≤ c.N) (hN64 : c.N % 64 ≠ 0)
    {t : Store c M} (ht : Sane adm t) {k : K} (hk : adm k) (v : V) :
    ∃ t', t.insert k v = .ok t' ∧ Sane adm t' ∧ ∀ x y, t'.Has x y ↔ Ups t.Has k v x y := by
  obtain ⟨t', e, h1, h2⟩ := store_insert_law F hM hm hN hN64 ht.ok hk v
  refine ⟨t', e, ⟨h1, ?_⟩, h2⟩
  have e' := e
  unfold Store.insert at e'
  obtain ⟨r, er, e'⟩ := (Res.bind_eq_ok).1 e'
  have hn := ins_noLoop F hM hm hN hN64 _ _ _ _ _ _ ht.ok.link ht.noLoop (fun _ h => h) ht.ok.ok hk r er
  have : t'.heap = r.1 := by
    split at e'
    · rw [← Res.ok.inj e']
    · obtain ⟨b, _, e'⟩ := (Res.bind_eq_ok).1 e'
      rw [← Res.ok.inj e']
  rw [this]
  exact hn

/-- The insert makes the tree deeper. -/
def Deepens (t : Store c M) (k : K) (v : V) : Prop := ∃ t', t.insert k v = .ok t' ∧ t'.depth = t.depth + 1

/-- All crash points of an insert. -/
theorem store_insertAt_law (F : Laws c adm) (hM : 2 ≤ M) (hm : c.move = false → M % 64 ≠ 0) (hN : 2 ≤ c.N) (hN64 : c.N % 64 ≠ 0)
    {t : Store c M} (ht : Sane adm t) {k : K} (hk : adm k) (v : V) (j q : Nat) :
    (t.depth < j → q = 6 → Deepens t k v → t.insertAt k v j q = .ok .mixed) ∧
    (¬ (t.depth < j ∧ q = 6 ∧ Deepens t k v) → ∃ t', t.insertAt k v j q = .ok (.tree t') ∧ Sane adm t' ∧
      (∀ y w, t'.Has y w → t.Has y w ∨ (y = k ∧ w = v)) ∧
      (Roomy c t.depth t.root k → ∀ y w, t.Has y w → findLeaf c t.depth t.root y ≠ findLeaf c t.depth t.root k → t'.Has y w) ∧
      (t.depth < j → 7 ≤ q → t.insert k v = .ok t')) := by
  obtain ⟨h', r', sp, e, g1, g2, g3, g4, g5⟩ := ins_law F hM hm hN hN64 t.depth t.heap t.root adm k v ht.ok.link
    (fun _ h => h) ht.ok.ok hk
  have hnl := ins_noLoop F hM hm hN hN64 _ _ _ _ _ _ ht.ok.link ht.noLoop (fun _ h => h) ht.ok.ok hk _ e
  obtain ⟨t2, e2, s2, h2⟩ := sane_insert F hM hm hN hN64 ht hk v
  unfold Store.insertAt
  by_cases hj : j ≤ t.depth
  · refine ⟨fun h => by omega, fun _ => ?_⟩
    rw [if_pos hj]
    obtain ⟨h1, r1, e1, post⟩ := insAt_law F hM hm hN hN64 t.depth t.heap t.root adm k v j q ht.ok.link ht.noLoop
      (fun _ h => h) ht.ok.ok hk
    rw [e1, Res.ok_bind]
    exact ⟨_, rfl, ⟨⟨post.ok, post.link⟩, post.noLoop⟩, post.has, post.keep, fun h => by omega⟩
  · rw [if_neg hj, e, Res.ok_bind]
    have hdeep : Deepens t k v ↔ sp ≠ none := by
      unfold Deepens Store.insert
      rw [e, Res.ok_bind]
      cases sp with
      | none =>
        simp only
        constructor
        · rintro ⟨t', e', hd⟩
          have := Res.ok.inj e'
          rw [← this] at hd
          simp at hd
        · intro h; exact absurd rfl h
      | some p =>
        refine ⟨fun _ => by simp, fun _ => ⟨t2, ?_⟩⟩
        have e2' := e2
        unfold Store.insert at e2'
        rw [e, Res.ok_bind] at e2'
        refine ⟨e2', ?_⟩
        simp only at e2'
        obtain ⟨b, _, e2'⟩ := (Res.bind_eq_ok).1 e2'
        rw [← Res.ok.inj e2']
    match sp, g5, hdeep with
    | none, ⟨g5, g6⟩, hdeep =>
      refine ⟨fun _ _ h => absurd rfl (hdeep.1 h), fun _ => ?_⟩
      refine ⟨_, rfl, ⟨⟨g5, g1⟩, hnl⟩, fun y w hy => ?_, fun _ y w hy hne => ?_, fun _ _ => ?_⟩
      · rcases (g6 y w).1 hy with h | h
        · exact Or.inr h
        · exact Or.inl h.2
      · exact (g6 y w).2 (Or.inr ⟨fun e => hne (by rw [e]), hy⟩)
      · unfold Store.insert
        rw [e]; rfl
    | some (s, right), ⟨g5, _, g7, g8, g9, g10, g11⟩, hdeep =>
      have hd := hdeep.2 (by simp)
      simp only
      by_cases h6 : q < 6
      · refine ⟨fun _ h => by omega, fun _ => ?_⟩
        rw [if_pos h6]
        refine ⟨_, rfl, ⟨⟨ok_mono _ _ _ _ (fun _ h => h.1) g7, g1⟩, hnl⟩, fun y w hy => ?_, fun hroom y w hy hne => ?_, fun _ h => by omega⟩
        · rcases (g11 y w).1 (Or.inl hy) with h | h
          · exact Or.inr h
          · exact Or.inl h.2
        · exfalso
          obtain ⟨d, root, heap, first⟩ := t
          cases d with
          | zero => exact hne rfl
          | succ d =>
            have := ins_roomy d _ _ _ _ _ hroom e
            cases this
      · rw [if_neg h6]
        by_cases h7 : q = 6
        · rw [if_pos h7]
          exact ⟨fun _ _ _ => rfl, fun h => absurd ⟨by omega, h7, hd⟩ h⟩
        · rw [if_neg h7, e2, Res.ok_bind]
          refine ⟨fun _ h => absurd h h7, fun _ => ⟨t2, rfl, s2, fun y w hy => ?_, fun _ y w hy hne => ?_, fun _ _ => rfl⟩⟩
          · rcases (h2 y w).1 hy with h | h
            · exact Or.inr h
            · exact Or.inl h.2
          · exact (h2 y w).2 (Or.inr ⟨fun e => hne (by rw [e]), hy⟩)

/-! ## C105 -/

/-- What the lookups have to be after the events `es`. -/
def Answers (adm : K → Prop) (lookup : K → Res (Option V)) (es : List (Ev K V)) : Prop :=
  ∀ y, adm y → ∃ r, lookup y = .ok r ∧ (∀ w, r = some w → w ∈ allowed y es []) ∧ ∀ w, certain y es none = some w → r = some w

/-- C105 in full: after any history of inserts, any of them cut off by a crash at any point, the tree can be used: no
lookup is undefined, none returns a value that was not inserted for the key or was overwritten by a completed insert, and
what was inserted after the last crash is found. -/
def C105_statement (N M : Nat) : Prop :=
  ∀ (jk jv : Nat → Int) (es : List (Ev Int Int)), (∀ e ∈ es, 0 ≤ e.key ∧ e.key < 2 ^ 31 - 1) →
    ∃ l, runEv es (.tree (Store.empty (cfgInt N true jk jv) M)) = .ok l ∧ Answers (fun k => 0 ≤ k ∧ k < 2 ^ 31 - 1) l.lookup es

theorem runEv_law (F : Laws c adm) (hM : 2 ≤ M) (hm : c.move = false → M % 64 ≠ 0) (hN : 2 ≤ c.N) (hN64 : c.N % 64 ≠ 0) :
    ∀ (es : List (Ev K V)) (t : Store c M) (a : K → List V) (o : K → Option V), Sane adm t → (∀ e ∈ es, adm e.key) →
    (∀ y w, t.Has y w → w ∈ a y) → (∀ y w, o y = some w → t.Has y w) →
    (∃ t', runEv es (.tree t) = .ok (.tree t') ∧ Sane adm t' ∧ (∀ y w, t'.Has y w → w ∈ allowed y es (a y)) ∧
      ∀ y w, certain y es (o y) = some w → t'.Has y w) ∨
    ∃ es1 k v j es2 t1, es = es1 ++ .crash k v j 6 :: es2 ∧ runEv es1 (.tree t) = .ok (.tree t1) ∧ t1.depth < j ∧ Deepens t1 k v ∧
      t1.insertAt k v j 6 = .ok .mixed
  | [], t, a, o, ht, _, h1, h2 => Or.inl ⟨t, rfl, ht, h1, h2⟩
  | .insert k v :: es, t, a, o, ht, hk, h1, h2 => by
    have hak : adm k := hk (Ev.insert k v) (by simp)
    obtain ⟨t', e, ht', hh⟩ := sane_insert F hM hm hN hN64 ht hak v
    have ih := runEv_law F hM hm hN hN64 es t' (fun y => if k = y then [v] else a y) (fun y => if k = y then some v else o y) ht'
      (fun e he => hk e (by simp [he])) (fun y w hy => ?_) (fun y w hy => ?_)
    · rcases ih with ⟨t'', e2, h3, h4, h5⟩ | ⟨es1, k', v', j, es2, t1, rfl, e2, h3⟩
      · exact Or.inl ⟨t'', by rw [runEv, e, Res.ok_bind, e2], h3, h4, h5⟩
      · exact Or.inr ⟨.insert k v :: es1, k', v', j, es2, t1, rfl, by rw [runEv, e, Res.ok_bind, e2], h3⟩
    · rcases (hh y w).1 hy with ⟨rfl, rfl⟩ | ⟨hne, hy⟩
      · simp
      · rw [if_neg (Ne.symm hne)]; exact h1 y w hy
    · by_cases hky : k = y
      · subst hky
        rw [if_pos rfl] at hy
        cases hy
        exact (hh k v).2 (Or.inl ⟨rfl, rfl⟩)
      · rw [if_neg hky] at hy
        exact (hh y w).2 (Or.inr ⟨Ne.symm hky, h2 y w hy⟩)
  | .crash k v j q :: es, t, a, o, ht, hk, h1, h2 => by
    have hak : adm k := hk (Ev.crash k v j q) (by simp)
    obtain ⟨g1, g2⟩ := store_insertAt_law F hM hm hN hN64 ht hak v j q
    by_cases hmix : t.depth < j ∧ q = 6 ∧ Deepens t k v
    · obtain ⟨m1, rfl, m2⟩ := hmix
      exact Or.inr ⟨[], k, v, j, es, t, rfl, rfl, m1, m2, g1 m1 rfl m2⟩
    · obtain ⟨t', e, ht', hh, _⟩ := g2 hmix
      have ih := runEv_law F hM hm hN hN64 es t' (fun y => if k = y then v :: a y else a y) (fun _ => none) ht'
        (fun e he => hk e (by simp [he])) (fun y w hy => ?_) (fun y w hy => by cases hy)
      · rcases ih with ⟨t'', e2, h3, h4, h5⟩ | ⟨es1, k', v', j', es2, t1, rfl, e2, h3⟩
        · exact Or.inl ⟨t'', by rw [runEv, e, Res.ok_bind, e2], h3, h4, h5⟩
        · exact Or.inr ⟨.crash k v j q :: es1, k', v', j', es2, t1, rfl, by rw [runEv, e, Res.ok_bind, e2], h3⟩
      · rcases hh y w hy with hy | ⟨rfl, rfl⟩
        · split
          · exact List.mem_cons_of_mem _ (h1 y w hy)
          · exact h1 y w hy
        · rw [if_pos rfl]; exact List.mem_cons_self

/-- C105 but for one crash point: unless one of the inserts that make the tree deeper is cut off between the change of
`rootNode` and that of `depth`, the tree can be used after any history of inserts and crashes.  Missing: that crash point
(`C105_root`, `C105_refuted`). -/
theorem C105_usable_partial (F : Laws c adm) (hmv : c.move = true) (hM : 2 ≤ M) (hN : 2 ≤ c.N) (hN64 : c.N % 64 ≠ 0)
    (es : List (Ev K V)) (hk : ∀ e ∈ es, adm e.key) :
    (∃ t, runEv es (.tree (Store.empty c M)) = .ok (.tree t) ∧ Answers adm t.lookup es) ∨
    ∃ es1 k v j es2 t1, es = es1 ++ .crash k v j 6 :: es2 ∧ runEv es1 (.tree (Store.empty c M)) = .ok (.tree t1) ∧ t1.depth < j ∧ Deepens t1 k v := by
  have hm' : c.move = false → M % 64 ≠ 0 := fun h => by rw [hmv] at h; cases h
  rcases runEv_law F hM hm' hN hN64 es (Store.empty c M) (fun _ => []) (fun _ => none) (sane_empty c M) hk
    (fun y w hy => absurd hy (has_empty y w)) (fun y w hy => by cases hy) with ⟨t, e, h1, h2, h3⟩ | ⟨es1, k, v, j, es2, t1, h1, h2, h3, h4, _⟩
  · refine Or.inl ⟨t, e, fun y hy => ?_⟩
    obtain ⟨r, er, hr⟩ := store_lookup_law F h1.ok hy
    exact ⟨r, er, fun w hw => h2 y w ((hr w).1 hw), fun w hw => (hr w).2 (h3 y w hw)⟩
  · exact Or.inr ⟨es1, k, v, j, es2, t1, h1, h2, h3, h4⟩

/-- The missing crash point of C105, whatever happened before: then every lookup is undefined. -/
theorem C105_root (F : Laws c adm) (hmv : c.move = true) (hM : 2 ≤ M) (hN : 2 ≤ c.N) (hN64 : c.N % 64 ≠ 0)
    (es : List (Ev K V)) (hk : ∀ e ∈ es, adm e.key) {t : Store c M} (e : runEv es (.tree (Store.empty c M)) = .ok (.tree t))
    (k : K) (ha : adm k) (v : V) (hd : Deepens t k v) :
    ∃ l, runEv (es ++ [.crash k v (t.depth + 1) 6]) (.tree (Store.empty c M)) = .ok l ∧ ∀ y, l.lookup y = .ub := by
  have hm' : c.move = false → M % 64 ≠ 0 := fun h => by rw [hmv] at h; cases h
  have happ : ∀ (es : List (Ev K V)) (l l' : Left c M) (es2 : List (Ev K V)), runEv es l = .ok l' → runEv (es ++ es2) l = runEv es2 l' := by
    intro es
    induction es with
    | nil => intro l l' es2 h; rw [runEv] at h; cases h; rfl
    | cons x es ih =>
      intro l l' es2 h
      cases l with
      | mixed => rw [runEv] at h; cases h
      | tree t0 =>
        cases x with
        | insert k' v' =>
          rw [runEv] at h
          obtain ⟨t', e1, h⟩ := (Res.bind_eq_ok).1 h
          rw [List.cons_append, runEv, e1, Res.ok_bind]
          exact ih _ _ _ h
        | crash k' v' j' q' =>
          rw [runEv] at h
          obtain ⟨t', e1, h⟩ := (Res.bind_eq_ok).1 h
          rw [List.cons_append, runEv, e1, Res.ok_bind]
          exact ih _ _ _ h
  have hs : Sane adm t := by
    rcases runEv_law F hM hm' hN hN64 es (Store.empty c M) (fun _ => []) (fun _ => none) (sane_empty c M) hk
      (fun y w hy => absurd hy (has_empty y w)) (fun y w hy => by cases hy) with ⟨t', e', h1, _⟩ | ⟨es1, k1, v1, j1, es2, t1, rfl, e1, h3, h4, h5⟩
    · rw [e] at e'
      cases Res.ok.inj e'
      exact h1
    · rw [happ _ _ _ _ e1, runEv, h5, Res.ok_bind] at e
      cases es2 with
      | nil => rw [runEv] at e; cases e
      | cons x es2 => rw [runEv] at e; cases e
  refine ⟨.mixed, ?_, fun _ => rfl⟩
  rw [happ _ _ _ _ e, runEv, (store_insertAt_law F hM hm' hN hN64 hs ha v (t.depth + 1) 6).1 (by omega) rfl hd]; rfl

/-- The example: ten keys fill the root, the insert of 11 is cut off. -/
def evXs : List (Ev Int Int) := (List.range 10).map fun i => .insert (i + 1) i

/-- The keys up to 11 that are found after the history, and whether something is undefined. -/
def evEx (es : List (Ev Int Int)) : List Int × Bool :=
  match runEv es (.tree (Store.empty (cEx true) 4)) with
  | .ok l => ((List.range 12).map (fun i : Nat => (i : Int)) |>.filter (fun y => match l.lookup y with | .ok (some _) => true | _ => false), l.lookup 1 = .ub)
  | _ => ([], true)

/-- Three crashes after the leaf split, in the split of the branch node and before the new root; then the keys from 7 on are
inserted again.  With `rootNode` changed but not `depth` everything is undefined. -/
example :
    evEx (evXs ++ [.crash 11 0 0 100]) = ([1, 2, 3, 4, 5, 6, 7, 8], false) ∧
    evEx (evXs ++ [.crash 11 0 1 2]) = ([1, 2, 3, 4, 7, 8], false) ∧
    evEx (evXs ++ [.crash 11 0 2 5]) = ([1, 2, 3, 4, 5, 6], false) ∧
    evEx (evXs ++ [.crash 11 0 2 5, .insert 7 0, .insert 8 0, .insert 9 0, .insert 10 0, .insert 11 0]) = ([1, 2, 3, 4, 5, 6, 7, 8, 9, 10, 11], false) ∧
    evEx (evXs ++ [.crash 11 0 2 6]) = ([], true) ∧
    evEx (evXs ++ [.crash 11 0 2 7]) = ([1, 2, 3, 4, 5, 6, 7, 8, 9, 10, 11], false) := by
  decide +kernel

/-- C105 is false for `BitPBPTree<int, int, 3, 4>`. -/
theorem C105_refuted : ¬ C105_statement 3 4 := by
  intro h
  obtain ⟨l, e, hl⟩ := h (fun _ => 0) (fun _ => 0) (evXs ++ [.crash 11 0 2 6]) (by decide)
  have he : evEx (evXs ++ [.crash 11 0 2 6]) = ([], true) := by decide +kernel
  unfold evEx at he
  have e : runEv (evXs ++ [.crash 11 0 2 6]) (.tree (Store.empty (cEx true) 4)) = .ok l := e
  rw [e] at he
  simp only [Prod.mk.injEq] at he
  obtain ⟨r, er, _⟩ := hl 1 (by decide)
  have hu : l.lookup 1 = .ub := of_decide_eq_true he.2
  have er : l.lookup 1 = .ok r := er
  rw [hu] at er
  cases er

/-! ## C106 -/

/-- The leaf in which `y` belongs is another one than that of `k`. -/
def Elsewhere (t : Store c M) (k y : K) : Prop := findLeaf c t.depth t.root y ≠ findLeaf c t.depth t.root k

/-- C106 in full: a crash inside an insert affects only keys that belong to the leaf of the inserted key. -/
def C106_statement (N M : Nat) : Prop :=
  ∀ (jk jv : Nat → Int) (es : List (Ev Int Int)) (t t' : Store (cfgInt N true jk jv) M),
    (∀ e ∈ es, 0 ≤ e.key ∧ e.key < 2 ^ 31 - 1) → runEv es (.tree (Store.empty (cfgInt N true jk jv) M)) = .ok (.tree t) →
    ∀ k v j q, 0 ≤ k ∧ k < 2 ^ 31 - 1 → t.insertAt k v j q = .ok (.tree t') →
    ∀ y, 0 ≤ y ∧ y < 2 ^ 31 - 1 → Elsewhere t k y → t'.lookup y = t.lookup y

theorem sane_run (F : Laws c adm) (hM : 2 ≤ M) (hm : c.move = false → M % 64 ≠ 0) (hN : 2 ≤ c.N) (hN64 : c.N % 64 ≠ 0) :
    ∀ (es : List (Ev K V)) (t t' : Store c M), Sane adm t → (∀ e ∈ es, adm e.key) → runEv es (.tree t) = .ok (.tree t') → Sane adm t'
  | [], t, t', ht, _, e => by rw [runEv] at e; cases e; exact ht
  | .insert k v :: es, t, t', ht, hk, e => by
    have hak : adm k := hk (Ev.insert k v) (by simp)
    obtain ⟨t1, e1, h1, _⟩ := sane_insert F hM hm hN hN64 ht hak v
    rw [runEv, e1, Res.ok_bind] at e
    exact sane_run F hM hm hN hN64 es t1 t' h1 (fun e he => hk e (by simp [he])) e
  | .crash k v j q :: es, t, t', ht, hk, e => by
    have hak : adm k := hk (Ev.crash k v j q) (by simp)
    obtain ⟨g1, g2⟩ := store_insertAt_law F hM hm hN hN64 ht hak v j q
    by_cases hmix : t.depth < j ∧ q = 6 ∧ Deepens t k v
    · rw [runEv, g1 hmix.1 hmix.2.1 hmix.2.2, Res.ok_bind] at e
      cases es with
      | nil => rw [runEv] at e; cases e
      | cons x es => rw [runEv] at e; cases e
    · obtain ⟨t1, e1, h1, _⟩ := g2 hmix
      rw [runEv, e1, Res.ok_bind] at e
      exact sane_run F hM hm hN hN64 es t1 t' h1 (fun e he => hk e (by simp [he])) e

theorem lookup_congr (F : Laws c adm) {t t' : Store c M} (ht : TOk adm t) (ht' : TOk adm t') {y : K} (hy : adm y)
    (h : ∀ w, t'.Has y w ↔ t.Has y w) : t'.lookup y = t.lookup y := by
  obtain ⟨r, e, hr⟩ := store_lookup_law F ht hy
  obtain ⟨r', e', hr'⟩ := store_lookup_law F ht' hy
  rw [e, e']
  congr 1
  apply Option.ext
  intro w
  rw [hr, hr', h]

/-- C106 if the lowest branch node on the way to the key has a free position: at every crash point of every level all other
leaves keep their keys.  Missing: full branch nodes (`C106_refuted`). -/
theorem C106_local_partial (F : Laws c adm) (hmv : c.move = true) (hM : 2 ≤ M) (hN : 2 ≤ c.N) (hN64 : c.N % 64 ≠ 0)
    (es : List (Ev K V)) (hk : ∀ e ∈ es, adm e.key) {t : Store c M} (e : runEv es (.tree (Store.empty c M)) = .ok (.tree t))
    (k : K) (ha : adm k) (v : V) (hroom : Roomy c t.depth t.root k) (j q : Nat) (hq : ¬ (t.depth = 0 ∧ t.depth < j ∧ q = 6)) :
    ∃ t', t.insertAt k v j q = .ok (.tree t') ∧ ∀ y, adm y → Elsewhere t k y → t'.lookup y = t.lookup y := by
  have hm' : c.move = false → M % 64 ≠ 0 := fun h => by rw [hmv] at h; cases h
  have hs := sane_run F hM hm' hN hN64 es _ t (sane_empty c M) hk e
  have hnm : ¬ (t.depth < j ∧ q = 6 ∧ Deepens t k v) := by
    rintro ⟨h1, h2, t', h3, h4⟩
    obtain ⟨d, root, heap, first⟩ := t
    cases d with
    | zero => exact hq ⟨rfl, h1, h2⟩
    | succ d =>
      unfold Store.insert at h3
      obtain ⟨r, er, h3⟩ := (Res.bind_eq_ok).1 h3
      rw [ins_roomy d _ _ _ _ r hroom er] at h3
      have := Res.ok.inj h3
      rw [← this] at h4
      simp at h4
  obtain ⟨t', e1, h1, h2, h3, _⟩ := (store_insertAt_law F hM hm' hN hN64 hs ha v j q).2 hnm
  refine ⟨t', e1, fun y hy hel => lookup_congr F hs.ok h1.ok hy fun w => ⟨fun h => ?_, fun h => h3 hroom y w h hel⟩⟩
  rcases h2 y w h with h | ⟨rfl, _⟩
  · exact h
  · exact absurd rfl hel

/-- The lookup of `y` before and after a crash in the insert of 11 into the tree of the example. -/
def locEx (n j q : Nat) (k y : Int) : Res (Bool × Option Int × Option Int) := do
  match ← runEv (evXs.take n) (.tree (Store.empty (cEx true) 4)) with
  | .mixed => .ub
  | .tree t => do
    match ← t.insertAt k 7 j q with
    | .mixed => .ub
    | .tree t' => do
      let i ← findLeaf (cEx true) t.depth t.root y
      let i' ← findLeaf (cEx true) t.depth t.root k
      let r ← t.lookup y
      let r' ← t'.lookup y
      pure (decide (i ≠ i'), r, r')

/-- With eight keys the root has room, with ten it is full; 3 and 5 are in other leaves than the new key, 7 is not. -/
example : locEx 8 1 2 9 3 = .ok (true, some 2, some 2) ∧ locEx 10 1 2 11 5 = .ok (true, some 4, none) ∧
    locEx 10 1 5 11 7 = .ok (false, some 6, none) := by
  decide +kernel

/-- C106 is false for `BitPBPTree<int, int, 3, 4>`. -/
theorem C106_refuted : ¬ C106_statement 3 4 := by
  intro h
  have he : locEx 10 1 2 11 5 = .ok (true, some 4, none) := by decide +kernel
  unfold locEx at he
  obtain ⟨l, e1, he⟩ := (Res.bind_eq_ok).1 he
  match l, he with
  | .tree t, he =>
    simp only at he
    obtain ⟨l', e2, he⟩ := (Res.bind_eq_ok).1 he
    match l', he with
    | .tree t', he =>
      simp only at he
      obtain ⟨i, ei, he⟩ := (Res.bind_eq_ok).1 he
      obtain ⟨i', ei', he⟩ := (Res.bind_eq_ok).1 he
      obtain ⟨r, er, he⟩ := (Res.bind_eq_ok).1 he
      obtain ⟨r', er', he⟩ := (Res.bind_eq_ok).1 he
      have he := Res.ok.inj he
      simp only [Prod.mk.injEq] at he
      obtain ⟨h1, rfl, rfl⟩ := he
      have := h (fun _ => 0) (fun _ => 0) (evXs.take 10) t t' (by decide) e1 11 7 1 2 (by decide) e2 5 (by decide) (by
        intro hf
        have hf : findLeaf (cEx true) t.depth t.root 5 = findLeaf (cEx true) t.depth t.root 11 := hf
        rw [ei, ei'] at hf
        exact of_decide_eq_true h1 (Res.ok.inj hf))
      have this : t'.lookup 5 = t.lookup 5 := this
      rw [er, er'] at this
      cases this

/-! ## C107 -/

/-- The insert of `k` into `t` splits the leaf `id`; the sibling begins at `s`. -/
def Splits (t : Store c M) (k : K) (v : V) (id : Nat) (s : K) : Prop :=
  findLeaf c t.depth t.root k = .ok id ∧ ∃ h n, insLeaf c t.heap id k v = .ok (h, some (s, n))

/-- C107 in full: once an insert that splits a leaf has changed all leaves, a crash in the update of the lowest branch
node leaves the lookups of before or of after the insert. -/
def C107_statement (N M : Nat) : Prop :=
  ∀ (jk jv : Nat → Int) (es : List (Ev Int Int)) (t : Store (cfgInt N true jk jv) M),
    (∀ e ∈ es, 0 ≤ e.key ∧ e.key < 2 ^ 31 - 1) → runEv es (.tree (Store.empty (cfgInt N true jk jv) M)) = .ok (.tree t) →
    ∀ k v id s, 0 ≤ k ∧ k < 2 ^ 31 - 1 → 1 ≤ t.depth → Roomy (cfgInt N true jk jv) t.depth t.root k → Splits t k v id s →
    ∃ t2, t.insert k v = .ok t2 ∧ ∀ q, ∃ t', t.insertAt k v 1 q = .ok (.tree t') ∧
      ((∀ y, 0 ≤ y ∧ y < 2 ^ 31 - 1 → t'.lookup y = t.lookup y) ∨ ∀ y, 0 ≤ y ∧ y < 2 ^ 31 - 1 → t'.lookup y = t2.lookup y)

/-- C107, exactly, for a lowest branch node with a free position.  Before the third change (`children[nextPos]`) the keys
from `s` on of the split leaf are lost, after it those below `s`, after the fourth (the bit) the insert is done.  Missing:
the keys lost (`C107_refuted`). -/
theorem C107_branch_partial (F : Laws c adm) (hmv : c.move = true) (hM : 2 ≤ M) (hN : 2 ≤ c.N) (hN64 : c.N % 64 ≠ 0)
    (es : List (Ev K V)) (hk : ∀ e ∈ es, adm e.key) {t : Store c M} (e : runEv es (.tree (Store.empty c M)) = .ok (.tree t))
    (k : K) (ha : adm k) (v : V) (hd : 1 ≤ t.depth) (hroom : Roomy c t.depth t.root k) (id : Nat) (s : K) (hsp : Splits t k v id s) :
    ∃ t2, t.insert k v = .ok t2 ∧ ∀ q, ∃ t', t.insertAt k v 1 q = .ok (.tree t') ∧ ∀ y, adm y →
      (¬ Elsewhere t k y ∧ ((q < 3 ∧ s ≤ y) ∨ (q = 3 ∧ y < s)) → t'.lookup y = .ok none) ∧
      (¬ (¬ Elsewhere t k y ∧ ((q < 3 ∧ s ≤ y) ∨ (q = 3 ∧ y < s))) → t'.lookup y = t2.lookup y) := by
  have hm' : c.move = false → M % 64 ≠ 0 := fun h => by rw [hmv] at h; cases h
  have hs := sane_run F hM hm' hN hN64 es _ t (sane_empty c M) hk e
  obtain ⟨t2, e2, h2, hh2⟩ := sane_insert F hM hm' hN hN64 hs ha v
  refine ⟨t2, e2, fun q => ?_⟩
  obtain ⟨hf, h1, n, hi⟩ := hsp
  have hnm : ¬ (t.depth < 1 ∧ q = 6 ∧ Deepens t k v) := fun h => by omega
  obtain ⟨t', e1, g1, _⟩ := (store_insertAt_law F hM hm' hN hN64 hs ha v 1 q).2 hnm
  have hhas : ∀ y w, t'.Has y w ↔ Ups t.Has k v y w ∧ (findLeaf c t.depth t.root y = findLeaf c t.depth t.root k → Half s q y) := by
    obtain ⟨d, root, heap, first⟩ := t
    cases d with
    | zero => exact absurd (show 1 ≤ 0 from hd) (by decide)
    | succ d =>
      obtain ⟨h', r', e3, h3⟩ := insAt_one F hM hm' hN hN64 d heap root adm k v q hs.ok.link hs.noLoop (fun _ h => h) hs.ok.ok ha hroom id h1 s n hf hi
      unfold Store.insertAt at e1
      simp only at e1
      rw [if_pos (by omega), e3, Res.ok_bind] at e1
      have := Res.ok.inj e1
      simp only [Left.tree.injEq] at this
      rw [← this]
      exact h3
  refine ⟨t', e1, fun y hy => ⟨fun h => ?_, fun h => ?_⟩⟩
  · obtain ⟨r, er, hr⟩ := store_lookup_law F g1.ok hy
    rw [er]
    congr 1
    cases hr' : r with
    | none => rfl
    | some w =>
      exfalso
      have := ((hhas y w).1 ((hr w).1 hr')).2 (not_not.1 h.1)
      rcases h.2 with ⟨a1, a2⟩ | ⟨a1, a2⟩
      · exact absurd (this.1 a1) (not_lt.2 a2)
      · exact absurd a2 (not_lt.2 (this.2 a1))
  · refine lookup_congr F h2.ok g1.ok hy fun w => ?_
    rw [hhas, hh2]
    refine ⟨fun h => h.1, fun h' => ⟨h', fun he => ⟨fun hq => ?_, fun hq => ?_⟩⟩⟩
    · by_contra hc
      exact h ⟨not_not.2 he, Or.inl ⟨hq, not_lt.1 hc⟩⟩
    · by_contra hc
      exact h ⟨not_not.2 he, Or.inr ⟨hq, not_le.1 hc⟩⟩

/-- The keys up to 11 that are found after the first `n` inserts of the example and a crash in the insert of `n + 1`. -/
def halfEx (n q : Nat) : List Int := (evEx (evXs.take n ++ [.crash (n + 1) 0 1 q])).1

/-- Eight keys: the root has room and the last leaf is 5, 6, 7, 8; 9 splits it at 7. -/
example : [halfEx 8 0, halfEx 8 2, halfEx 8 3, halfEx 8 4] =
    [[1, 2, 3, 4, 5, 6], [1, 2, 3, 4, 5, 6], [1, 2, 3, 4, 7, 8, 9], [1, 2, 3, 4, 5, 6, 7, 8, 9]] := by
  decide +kernel

/-- `Roomy` as a test. -/
def roomyB (c : Cfg K V) : (d : Nat) → Tree c.N K d → K → Bool
  | 0, _, _ => true
  | 1, b, _ => decide ((Branch.bits (C := Nat) b).count ≠ c.N)
  | d + 2, b, k => match Branch.pos c.lim b k with
    | .ok p => match Branch.kid b p with
      | .ok ch => roomyB c (d + 1) ch k
      | _ => true
    | _ => true

theorem roomyB_ok : ∀ (d : Nat) (t : Tree c.N K d) (k : K), roomyB c d t k = true → Roomy c d t k
  | 0, _, _, _ => trivial
  | 1, b, _, h => of_decide_eq_true (p := (Branch.bits (C := Nat) b).count ≠ c.N) h
  | d + 2, b, k, h => by
    intro p ch hp hch
    rw [roomyB, hp] at h
    simp only at h
    rw [hch] at h
    exact roomyB_ok (d + 1) ch k h

/-- The tree of the example with eight keys: whether it meets the hypotheses of C107, and the lookups of 7 and 9 before the
insert of 9, after it, and after a crash at level 1. -/
def branchEx (q : Nat) : Res (Bool × Int × List (Option Int)) := do
  match ← runEv (evXs.take 8) (.tree (Store.empty (cEx true) 4)) with
  | .mixed => .ub
  | .tree t => do
    match ← t.insertAt 9 7 1 q with
    | .mixed => .ub
    | .tree t' => do
      let t2 ← t.insert 9 7
      let id ← findLeaf (cEx true) t.depth t.root 9
      match ← insLeaf (cEx true) t.heap id 9 7 with
      | (_, none) => .ub
      | (_, some (s, _)) => do
        let r1 ← t.lookup 7
        let r2 ← t2.lookup 7
        let r3 ← t'.lookup 7
        pure (decide (1 ≤ t.depth) && roomyB (cEx true) t.depth t.root 9, s, [r1, r2, r3])

example : branchEx 0 = .ok (true, 7, [some 6, some 6, none]) ∧ branchEx 4 = .ok (true, 7, [some 6, some 6, some 6]) := by
  decide +kernel

/-- C107 is false for `BitPBPTree<int, int, 3, 4>`. -/
theorem C107_refuted : ¬ C107_statement 3 4 := by
  intro h
  have he : branchEx 0 = .ok (true, 7, [some 6, some 6, none]) := by decide +kernel
  unfold branchEx at he
  obtain ⟨l, e1, he⟩ := (Res.bind_eq_ok).1 he
  match l, he with
  | .tree t, he =>
    simp only at he
    obtain ⟨l', e2, he⟩ := (Res.bind_eq_ok).1 he
    match l', he with
    | .tree t', he =>
      simp only at he
      obtain ⟨t2, e3, he⟩ := (Res.bind_eq_ok).1 he
      obtain ⟨id, e4, he⟩ := (Res.bind_eq_ok).1 he
      obtain ⟨⟨h1, sp⟩, e5, he⟩ := (Res.bind_eq_ok).1 he
      match sp, e5, he with
      | some (s, n), e5, he =>
        simp only at he
        obtain ⟨r1, f1, he⟩ := (Res.bind_eq_ok).1 he
        obtain ⟨r2, f2, he⟩ := (Res.bind_eq_ok).1 he
        obtain ⟨r3, f3, he⟩ := (Res.bind_eq_ok).1 he
        have he := Res.ok.inj he
        simp only [Prod.mk.injEq, List.cons.injEq, and_true, Bool.and_eq_true, decide_eq_true_eq] at he
        obtain ⟨⟨hd, hr⟩, rfl, rfl, rfl, rfl⟩ := he
        obtain ⟨t2', g1, g2⟩ := h (fun _ => 0) (fun _ => 0) (evXs.take 8) t (by decide) e1 9 7 id 7 (by decide) hd
          (roomyB_ok _ _ _ hr) ⟨e4, h1, n, e5⟩
        have g1 : t.insert 9 7 = .ok t2' := g1
        rw [e3] at g1
        cases Res.ok.inj g1
        obtain ⟨t'', g3, g4⟩ := g2 0
        have g3 : t.insertAt 9 7 1 0 = .ok (.tree t'') := g3
        rw [e2] at g3
        cases Res.ok.inj g3
        rcases g4 with g4 | g4
        · have g5 : t'.lookup 7 = t.lookup 7 := g4 7 (by decide)
          rw [f1, f3] at g5
          cases g5
        · have g5 : t'.lookup 7 = t2.lookup 7 := g4 7 (by decide)
          rw [f2, f3] at g5
          cases g5

end Verif.BitTree
