import Verif.BTree.DropCrash

/-!
# Lookups after a crash in the update of the branch node after an erase
-/

set_option linter.unusedSectionVars false

namespace Verif.BTree

open Verif Assoc
open Verif.Slots hiding none

variable {K V L : Type} [LinearOrder K] {o : Ops K V L} {W : Laws o} {lm bm : Nat}

/-- The leaves of one branch node are linked. -/
theorem node_chain {Q : L → Bd K → Bd K → Prop} {h : Heap L} {top : Nat} {n : BNode K Nat} {lo hi : Bd K} {pre post : List Nat}
    (hb : Bt W Q lm bm h 1 top n lo hi) {h' : Heap L} (w : Chain h' (pre ++ ids (K := K) 1 n ++ post)) {j x y : Nat} (hj : j < n.num)
    (hx : n.kids j = some x) (hy : n.kids (j + 1) = some y) : h'.next x = some y ∧ h'.prev y = some x := by
  obtain ⟨cs, ks, hr, _, _⟩ := hb
  have hnum := hr.num
  have hlen := hr.len
  obtain ⟨a1, x', b, e, hl⟩ := list_cut (l := cs) (n := j) (by omega)
  have hl2 := congrArg List.length e
  simp only [List.length_append, List.length_cons] at hl2
  cases b with
  | nil => simp only [List.length_nil] at hl2; omega
  | cons y' b =>
    have e1 := hr.kids j (by omega)
    have e2 := hr.kids (j + 1) (by omega)
    rw [hx, e, List.getElem?_append_right (by omega), show j - a1.length = 0 by omega] at e1
    rw [hy, e, List.getElem?_append_right (by omega), show j + 1 - a1.length = 1 by omega] at e2
    simp only [List.getElem?_cons_zero, List.getElem?_cons_succ, Option.some.injEq] at e1 e2
    subst e1; subst e2
    have hids : ids (K := K) 1 n = a1 ++ x :: y :: b := by
      rw [ids_rep (K := K) (d := 0) hr, e, ids_leaf_flatMap]
    rw [hids] at w
    exact chain_pair (pre := pre ++ a1) (post := b ++ post) (by simpa using w)

/-- `mergeLeafNodes` and the deletion free the second leaf only. -/
theorem mergeLeaf_frees {h h2 : Heap L} {a b : Nat} (e : mergeLeaf o h a b = .ok h2) :
    h2.data b = none ∧ ∀ i, (h.data i).isSome → h2.data i = none → i = b := by
  unfold mergeLeaf at e
  obtain ⟨l1, _, e⟩ := Res.bind_eq_ok.1 e
  obtain ⟨l2, _, e⟩ := Res.bind_eq_ok.1 e
  obtain ⟨c, _, e⟩ := Res.bind_eq_ok.1 e
  have key : ∀ g : Heap L, g.data = (h.set a c).data → (g.free b).data b = none ∧ ∀ i, (h.data i).isSome → (g.free b).data i = none → i = b := by
    intro g hg
    refine ⟨by simp [Heap.free, upd], fun i h1 h2 => ?_⟩
    by_contra hi
    simp only [Heap.free, upd, if_neg hi, hg, Heap.set] at h2
    by_cases hia : i = a
    · simp [hia] at h2
    · rw [if_neg hia] at h2
      rw [h2] at h1
      cases h1
  dsimp only at e
  split at e
  · cases Res.ok.inj e
    exact key _ rfl
  · obtain ⟨_, _, e⟩ := Res.bind_eq_ok.1 e
    cases Res.ok.inj e
    exact key _ rfl

/-- `balanceLeafNodes` frees no leaf. -/
theorem balanceLeaf_frees {h h2 : Heap L} {a b : Nat} (e : balanceLeaf o h a b = .ok h2) :
    ∀ i, (h.data i).isSome → h2.data i ≠ none := by
  unfold balanceLeaf at e
  obtain ⟨l1, _, e⟩ := Res.bind_eq_ok.1 e
  obtain ⟨l2, _, e⟩ := Res.bind_eq_ok.1 e
  obtain ⟨c, _, e⟩ := Res.bind_eq_ok.1 e
  cases Res.ok.inj e
  intro i h1 h2
  simp only [Heap.set, upd] at h2
  split at h2
  · cases h2
  · split at h2
    · cases h2
    · rw [h2] at h1; cases h1

theorem eraseLeaf_frees {h : Heap L} {id : Nat} {k : K} {r : Bool × Heap L} (e : eraseLeaf o h id k = .ok r) :
    (∀ i, (h.data i).isSome → (r.2.data i).isSome) ∧ r.2.next = h.next ∧ r.2.prev = h.prev := by
  unfold eraseLeaf at e
  obtain ⟨l1, _, e⟩ := Res.bind_eq_ok.1 e
  obtain ⟨l2, _, e⟩ := Res.bind_eq_ok.1 e
  cases Res.ok.inj e
  refine ⟨fun i h1 => ?_, rfl, rfl⟩
  simp only [Heap.set, upd]
  split
  · rfl
  · exact h1

/-- The last state of the branch node is that of the completed call. -/
theorem dropWrites_all {n : BNode K Nat} {p a : Nat} {h : Heap L} {pos : Nat} {u : EOut L (BNode K Nat) Nat} (hN : n.num ≤ o.N)
    (hk : ∀ j, j < n.num → (n.keys j).isSome) (hc : ∀ j, j ≤ n.num → (n.kids j).isSome) (hp : p < n.num) (ha : n.kids p = some a)
    (hpos : (if pos > 0 then pos - 1 else pos) = p) (e : dropChild o h n pos a = .ok u) (hu : u.newRoot = none) :
    dropW n pos a = dropWrites n.num p a ∧ applyBW o n (dropW n pos a) = .ok u.node ∧ u.heap = h := by
  unfold dropChild at e
  by_cases h1 : n.num > 1
  swap
  · rw [if_neg h1] at e
    cases Res.ok.inj e
    cases hu
  rw [if_pos h1] at e
  dsimp only at e
  rw [hpos] at e
  have hw : dropW n pos a = dropWrites n.num p a := by unfold dropW; rw [if_pos h1, hpos]
  refine ⟨hw, ?_⟩
  obtain ⟨n', f0, f1, f2, f3⟩ := dropWrites_form (o := o) (n := n) (p := p) (a := a) (2 * n.num + 2) hN hp hk hc ha
  rw [List.take_of_length_le (by unfold dropWrites; rw [List.length_append, dropLoop_length]; simp; omega)] at f0
  obtain ⟨keys, g1, g2⟩ := moveDown_ok o.N 1 le_rfl (n.num - 1 - p) p n.keys (by omega) (fun i _ hi => hk i (by omega))
  obtain ⟨kids, g3, g4⟩ := moveDown_ok (o.N + 1) 1 le_rfl (n.num - 1 - p) (p + 1) n.kids (by omega) (fun i _ hi => hc i (by omega))
  rw [g1, Res.ok_bind, g3, Res.ok_bind, wr_ok _ _ (by omega), Res.ok_bind] at e
  cases Res.ok.inj e
  rw [hw, f0]
  refine ⟨congrArg Res.ok ?_, rfl⟩
  dsimp only
  have q1 : n'.num = n.num - 1 := by rw [f1, if_pos (by omega)]
  have q2 : n'.keys = keys := by
    funext j
    rw [f2, g2]
    by_cases hj : p ≤ j ∧ j < n.num - 1
    · rw [if_pos (by omega), if_pos (by omega)]
    · rw [if_neg (by omega), if_neg (by omega)]
  have q3 : n'.kids = fun j => if j = p then some a else kids j := by
    funext j
    rw [f3, g4]
    by_cases hj : j = p
    · subst hj
      rw [if_neg (by omega), if_pos rfl, ha]
    · rw [if_neg hj]
      by_cases hj : p + 1 ≤ j ∧ j < n.num
      · rw [if_pos (by omega), if_pos (by omega)]
      · rw [if_neg (by omega), if_neg (by omega)]
  rw [← q1, ← q2, ← q3]

/-- The assignments of an erase to the branch node above the leaf. -/
theorem eraseP_spec {Q : L → Bd K → Bd K → Prop} {h : Heap L} {top : Nat} {n : BNode K Nat} {lo hi : Bd K} {pre post : List Nat} {k : K}
    (hb : Bt W Q lm bm h 1 top n lo hi) (w : Wf h (pre ++ ids (K := K) 1 n ++ post)) {r : EOut L (BNode K Nat) Nat}
    (e : eraseB0 o h n k = .ok r) (hr : r.newRoot = none) :
    ∃ ws, eraseP o h n k = .ok (r.heap, ws) ∧ applyBW o n ws = .ok r.node ∧
      ((ws.length ≤ 1 ∧ ∀ i, (h.data i).isSome → r.heap.data i ≠ none) ∨
       ∃ p a f, p < n.num ∧ n.kids p = some a ∧ n.kids (p + 1) = some f ∧ r.heap.data f = none ∧
         (∀ i, (h.data i).isSome → r.heap.data i = none → i = f) ∧ ws = dropWrites n.num p a) := by
  obtain ⟨κ, χ, _, hN, hk, hc, _⟩ := (hb.frame (Q' := tt) (fun _ _ _ _ => trivial) (fun _ _ => rfl)).node k
  have hk' : ∀ j, j < n.num → (n.keys j).isSome := fun j hj => by rw [hk j hj]; rfl
  have hc' : ∀ j, j ≤ n.num → (n.kids j).isSome := fun j hj => by rw [hc j hj]; rfl
  unfold eraseB0 at e
  unfold eraseP
  obtain ⟨pos, e1, e⟩ := Res.bind_eq_ok.1 e
  obtain ⟨id, e2, e⟩ := Res.bind_eq_ok.1 e
  obtain ⟨r1, e3, e⟩ := Res.bind_eq_ok.1 e
  obtain ⟨l, e4, e⟩ := Res.bind_eq_ok.1 e
  rw [e1, Res.ok_bind, e2, Res.ok_bind, e3, Res.ok_bind, e4, Res.ok_bind]
  obtain ⟨v1, v2, v3⟩ := eraseLeaf_frees e3
  by_cases hun : o.num l < (o.M + 1) / 2
  swap
  · rw [if_neg hun] at e ⊢
    cases Res.ok.inj e
    exact ⟨[], rfl, rfl, .inl ⟨by simp, fun i hi h2 => by have := v1 i hi; rw [h2] at this; cases this⟩⟩
  rw [if_pos hun] at e ⊢
  obtain ⟨u, e5, e⟩ := Res.bind_eq_ok.1 e
  cases Res.ok.inj e
  dsimp only at hr ⊢
  have hid : n.kids pos = some id := by
    unfold rd at e2
    split at e2
    · cases hh : n.kids pos with
      | none => rw [hh] at e2; cases e2
      | some y => rw [hh] at e2; cases Res.ok.inj e2; rfl
    · cases e2
  have hch : ∀ {j x y}, j < n.num → n.kids j = some x → n.kids (j + 1) = some y → r1.2.next x = some y ∧ r1.2.prev y = some x := by
    intro j x y hj hx hy
    rw [v2, v3]
    exact node_chain hb w.chain hj hx hy
  unfold underflowLeaf at e5
  unfold underflowP
  obtain ⟨_, e6, e5⟩ := Res.bind_eq_ok.1 e5
  have hpn : pos ≤ n.num := by
    by_contra hcon
    unfold Res.assert at e6
    rw [if_neg hcon] at e6
    cases e6
  obtain ⟨ls, e7, e5⟩ := Res.bind_eq_ok.1 e5
  rw [e6, Res.ok_bind, e7, Res.ok_bind]
  by_cases c1 : pos > 0 ∧ (o.M + 1) / 2 < ls.2
  · rw [if_pos c1] at e5 ⊢
    obtain ⟨h2, e8, e5⟩ := Res.bind_eq_ok.1 e5
    obtain ⟨l2, e9, e5⟩ := Res.bind_eq_ok.1 e5
    obtain ⟨k2, e10, e5⟩ := Res.bind_eq_ok.1 e5
    obtain ⟨keys, e11, e5⟩ := Res.bind_eq_ok.1 e5
    cases Res.ok.inj e5
    rw [e8, Res.ok_bind, e9, Res.ok_bind, e10, Res.ok_bind]
    refine ⟨_, rfl, ?_, .inl ⟨by simp, fun i hi => balanceLeaf_frees e8 i (v1 i hi)⟩⟩
    rw [applyBW, BW.apply, e11, Res.ok_bind]; rfl
  rw [if_neg c1] at e5 ⊢
  obtain ⟨rs, e8, e5⟩ := Res.bind_eq_ok.1 e5
  rw [e8, Res.ok_bind]
  by_cases c2 : pos < n.num ∧ (o.M + 1) / 2 < rs.2
  · rw [if_pos c2] at e5 ⊢
    obtain ⟨h2, e9, e5⟩ := Res.bind_eq_ok.1 e5
    obtain ⟨l2, e10, e5⟩ := Res.bind_eq_ok.1 e5
    obtain ⟨k2, e11, e5⟩ := Res.bind_eq_ok.1 e5
    obtain ⟨keys, e12, e5⟩ := Res.bind_eq_ok.1 e5
    cases Res.ok.inj e5
    rw [e9, Res.ok_bind, e10, Res.ok_bind, e11, Res.ok_bind]
    refine ⟨_, rfl, ?_, .inl ⟨by simp, fun i hi => balanceLeaf_frees e9 i (v1 i hi)⟩⟩
    rw [applyBW, BW.apply, e12, Res.ok_bind]; rfl
  rw [if_neg c2] at e5 ⊢
  by_cases c3 : pos > 0 ∧ ls.2 ≤ (o.M + 1) / 2
  · rw [if_pos c3] at e5 ⊢
    obtain ⟨h2, e9, e5⟩ := Res.bind_eq_ok.1 e5
    rw [e9, Res.ok_bind]
    have hls : n.kids (pos - 1) = some ls.1 := by
      have h1 := hc (pos - 1) (by omega)
      have h3 := (hch (j := pos - 1) (by omega) h1 (by rw [show pos - 1 + 1 = pos by omega]; exact hid)).2
      unfold leftSib at e7
      rw [if_pos c3.1, h3, Res.ofOption_some, Res.ok_bind] at e7
      obtain ⟨_, _, e7⟩ := Res.bind_eq_ok.1 e7
      cases Res.ok.inj e7
      exact h1
    obtain ⟨q1, q2, q3⟩ := dropWrites_all hN hk' hc' (p := pos - 1) (by omega) hls (if_pos c3.1) e5 hr
    obtain ⟨m1, m2⟩ := mergeLeaf_frees e9
    refine ⟨_, by rw [q3]; rfl, q2, .inr ⟨pos - 1, ls.1, id, by omega, hls, by rw [show pos - 1 + 1 = pos by omega]; exact hid, ?_, ?_, q1⟩⟩
    · rw [q3]; exact m1
    · intro i hi h3
      rw [q3] at h3
      exact m2 i (v1 i hi) h3
  rw [if_neg c3] at e5 ⊢
  by_cases c4 : pos < n.num ∧ rs.2 ≤ (o.M + 1) / 2
  · rw [if_pos c4] at e5 ⊢
    obtain ⟨h2, e9, e5⟩ := Res.bind_eq_ok.1 e5
    rw [e9, Res.ok_bind]
    have hp0 : pos = 0 := by omega
    have hrs : n.kids (pos + 1) = some rs.1 := by
      have h1 := hc (pos + 1) (by omega)
      have h3 := (hch (j := pos) (by omega) hid h1).1
      unfold rightSib at e8
      rw [if_pos c4.1, h3, Res.ofOption_some, Res.ok_bind] at e8
      obtain ⟨_, _, e8⟩ := Res.bind_eq_ok.1 e8
      cases Res.ok.inj e8
      exact h1
    obtain ⟨q1, q2, q3⟩ := dropWrites_all hN hk' hc' (p := pos) (by omega) hid (if_neg (by omega)) e5 hr
    obtain ⟨m1, m2⟩ := mergeLeaf_frees e9
    refine ⟨_, by rw [q3]; rfl, q2, .inr ⟨pos, id, rs.1, by omega, hid, hrs, ?_, ?_, q1⟩⟩
    · rw [q3]; exact m1
    · intro i hi h3
      rw [q3] at h3
      exact m2 i (v1 i hi) h3
  rw [if_neg c4] at e5
  cases e5

/-- After `q` assignments the branch node `pn` may hold this separator twice; `f` is the deleted leaf. -/
def DupSep (pn : BNode K Nat) (f q : Nat) (x : K) : Prop :=
  ∃ j, pn.kids (j + 1) = some f ∧ q % 2 = 1 ∧ q < 2 * (pn.num - 1 - j) ∧ pn.keys (j + (q + 1) / 2) = some x

/-- What lookups give when the leaf `f` has been deleted and `q` assignments to the branch node `pn` above it are done: `n` is the
subtree before, `n'` now, `A` the map after the erase. -/
def DropLook (o : Ops K V L) (d : Nat) (h' : Heap L) (n n' : BNode K (Tree K d)) (pn : BNode K Nat) (A : K → Option V) (f q : Nat) : Prop :=
  ∀ x, (lookT o (d + 1) h' n' x = .ok (A x) ∨ lookT o (d + 1) h' n' x = .ok none ∨ (q ≤ 1 ∧ lookT o (d + 1) h' n' x = .ub)) ∧
    (¬ DupSep pn f q x → lookT o (d + 1) h' n' x =
      if findLeaf o (d + 1) n x = .ok f ∧ (q = 0 ∨ (pn.kids pn.num = some f ∧ q ≤ 1)) then .ub else .ok (A x))

theorem lookT_dead {h : Heap L} {f : Nat} (hf : h.data f = none) (x : K) : lookT o 0 h f x = .ub := by
  unfold lookT
  rw [findLeaf, Res.ok_bind, Heap.get, hf]
  rfl

/-- The branch node above the leaves. -/
theorem dropAt0_spec (E : EraseLaws W) (hD : DupSearch o) (hM : 2 ≤ o.M) (hlm1 : 1 ≤ lm) (hlm : lm ≤ o.M / 2) {top : Nat} {h : Heap L}
    {n : BNode K Nat} {lo hi : Bd K} {pre post : List Nat} {k : K}
    (hb : Bt W E.Q lm bm h 1 top n lo hi) (hk : InR lo hi k)
    (hf : ∀ id l, findLeaf o 1 n k = .ok id → h.data id = some l → E.pre l k) (w : Wf h (pre ++ ids (K := K) 1 n ++ post))
    (htop1 : 1 ≤ top) (hnr : ∀ r, eraseB0 o h n k = .ok r → r.newRoot = none) (q : Nat) :
    ∃ r n', eraseB0 o h n k = .ok r ∧ dropAt o 0 h n k q = .ok (r.heap, n') ∧ Frame h r.heap (ids (K := K) 1 n) ∧
      ((∀ i, (h.data i).isSome → r.heap.data i ≠ none) → 1 ≤ q → ∀ x, lookT o 1 r.heap n' x =
        .ok (if x = k then none else find x (content W h (ids (K := K) 1 n)))) ∧
      ∀ f, (h.data f).isSome → r.heap.data f = none →
        DropLook o 0 r.heap n n' n (fun x => if x = k then none else find x (content W h (ids (K := K) 1 n))) f q := by
  obtain ⟨r, e, _, hfr, _, hpost⟩ := eraseB0_spec E hM hlm1 hlm (isRoot := true) hb hk hf w htop1 (fun h => by cases h)
  have hr := hnr r e
  unfold ErPost at hpost
  rw [hr] at hpost
  obtain ⟨hbt, _, _, hcont, _⟩ := hpost
  obtain ⟨ws, e1, e2, hcase⟩ := eraseP_spec hb w e hr
  have hA : ∀ x, find x (content W r.heap (ids (K := K) 1 r.node)) = if x = k then none else find x (content W h (ids (K := K) 1 n)) := by
    intro x
    rw [hcont, find_remove]
  have hdr : ∀ n', applyBW o n (ws.take q) = .ok n' → dropAt o 0 h n k q = .ok (r.heap, n') := by
    intro n' he
    rw [dropAt, e1, Res.ok_bind, he, Res.ok_bind]
    rfl
  rcases hcase with ⟨hlen, hnf⟩ | ⟨p, a, f, hp, ha, hf1, hdead, huniq, rfl⟩
  · by_cases hq : q = 0
    · subst hq
      exact ⟨r, n, e, hdr n rfl, hfr, fun _ hc => by omega, fun f h1 h2 => absurd h2 (hnf f h1)⟩
    · have ht : ws.take q = ws := List.take_of_length_le (by omega)
      refine ⟨r, r.node, e, hdr _ (by rw [ht]; exact e2), hfr, fun _ _ x => ?_, fun f h1 h2 => absurd h2 (hnf f h1)⟩
      exact (lookT_any hbt x).trans (congrArg Res.ok (hA x))
  obtain ⟨κ, χ, _, hN, hkey, hkid, hmono, hpos, _, _⟩ := (hb.frame (Q' := tt) (fun _ _ _ _ => trivial) (fun _ _ => rfl)).node k
  obtain ⟨κf, χf, _, _, hkeyf, hkidf, _, _, _, hlook⟩ := hbt.node k
  have hk' : ∀ j, j < n.num → (n.keys j).isSome := fun j hj => by rw [hkey j hj]; rfl
  have hc' : ∀ j, j ≤ n.num → (n.kids j).isSome := fun j hj => by rw [hkid j hj]; rfl
  have haχ : a = χ p := by rw [hkid p (by omega)] at ha; exact (Option.some.inj ha).symm
  have hfχ : f = χ (p + 1) := by rw [hkid (p + 1) (by omega)] at hf1; exact (Option.some.inj hf1).symm
  -- the final node
  obtain ⟨nf, f0, f1, f2, f3⟩ := dropWrites_form (o := o) (n := n) (p := p) (a := a) (2 * n.num + 2) hN hp hk' hc' ha
  rw [List.take_of_length_le (by unfold dropWrites; rw [List.length_append, dropLoop_length]; simp; omega), e2] at f0
  cases Res.ok.inj f0
  have hnumf : r.node.num = n.num - 1 := by rw [f1, if_pos (by omega)]
  have hκf : ∀ j, j < n.num - 1 → κf j = κ (if j < p then j else j + 1) := by
    intro j hj
    have h1 := hkeyf j (by omega)
    rw [f2 j] at h1
    by_cases hjp : j < p
    · rw [if_neg (by omega), hkey _ (by omega)] at h1
      rw [if_pos hjp]; exact (Option.some.inj h1).symm
    · rw [if_pos (by omega), hkey _ (by omega)] at h1
      rw [if_neg hjp]; exact (Option.some.inj h1).symm
  have hχf : ∀ j, j ≤ n.num - 1 → χf j = χ (if j ≤ p then j else j + 1) := by
    intro j hj
    have h1 := hkidf j (by omega)
    rw [f3 j] at h1
    by_cases hjp : j ≤ p
    · rw [if_neg (by omega), hkid _ (by omega)] at h1
      rw [if_pos hjp]; exact (Option.some.inj h1).symm
    · rw [if_pos (by omega), hkid _ (by omega)] at h1
      rw [if_neg hjp]; exact (Option.some.inj h1).symm
  -- lookups in the remaining leaves
  have hleaf : ∀ x rr g, IsPos κ n.num x rr → g ≤ n.num → g ≠ p + 1 → lookT o 0 r.heap (χ g) x =
      .ok (if g = (if rr = p + 1 then p else rr) then (if x = k then none else find x (content W h (ids (K := K) 1 n))) else none) := by
    intro x rr g hx hg hgp
    have hxf : IsPos κf r.node.num x (if rr ≤ p then rr else rr - 1) := by
      have h1 := hx.1
      rw [hnumf]
      refine ⟨by split <;> omega, fun i hi => ?_, fun i hi hi' => ?_⟩
      · have : i < n.num - 1 := by split at hi <;> omega
        rw [hκf i this]
        apply hx.2.1
        split at hi <;> split <;> omega
      · rw [hκf i hi']
        apply hx.2.2
        · split at hi <;> split <;> omega
        · split <;> omega
    have hχg : χ g = χf (if g ≤ p then g else g - 1) := by
      by_cases hgp' : g ≤ p
      · rw [if_pos hgp', hχf g (by omega), if_pos hgp']
      · rw [if_neg hgp', hχf _ (by omega), if_neg (by omega), show g - 1 + 1 = g by omega]
    rw [hχg, hlook x _ _ (by rw [hnumf]; split <;> omega) hxf, hA x]
    by_cases hc : g = if rr = p + 1 then p else rr
    · rw [if_pos hc, if_pos]
      split at hc <;> split <;> split <;> omega
    · rw [if_neg hc, if_neg]
      split at hc <;> split <;> split <;> omega
  have halive : ∀ g, g ≤ n.num → χ g = f → g = p + 1 := by
    intro g hg he
    by_contra hgp
    obtain ⟨rr, hx⟩ := hpos k
    have h1 := hleaf k rr g hx hg hgp
    rw [he, lookT_dead hdead] at h1
    cases h1
  obtain ⟨n', d0, _⟩ := dropWrites_form (o := o) (n := n) (p := p) (a := a) q hN hp hk' hc' ha
  refine ⟨r, n', e, hdr _ d0, hfr, fun hc => absurd hdead (hc f (w.alive f ?_)), fun f' h1 h2 => ?_⟩
  · have : f ∈ ids (K := K) 1 n := by
      obtain ⟨cs, ks, hrep, _, _⟩ := hb
      rw [ids_rep (K := K) (d := 0) hrep, ids_leaf_flatMap]
      have h3 := hrep.kids (p + 1) (by have := hrep.len; have := hrep.num; omega)
      rw [hf1] at h3
      exact List.mem_of_getElem? h3.symm
    simp [this]
  obtain rfl := huniq f' h1 h2
  intro x
  obtain ⟨rr, hx⟩ := hpos x
  -- the search before the erase
  have hold : findLeaf o 1 n x = .ok (χ rr) := by
    obtain ⟨n0, p0, g0, a0, a1, a2, _, a3, a4⟩ := dropWrites_sees hD (n := n) (p := p) 0 hN hp hmono hkey hkid hx
    cases Res.ok.inj a0
    have hg0 : g0 = rr := by
      by_cases hc : rr = p + 1
      · rw [a3 ⟨hc, .inl rfl⟩, hc]
      · rcases a4 (fun h => hc h.1) with a4 | a4
        · rw [if_neg hc] at a4; exact a4
        · omega
    rw [findLeaf, a1, Res.ok_bind, a2, Res.ok_bind, hg0]
    rfl
  have hfold : findLeaf o 1 n x = .ok f' ↔ rr = p + 1 := by
    rw [hold]
    constructor
    · intro hc; exact halive rr hx.1 (Res.ok.inj hc)
    · intro hc; rw [hc, hfχ]
  have hlast : n.kids n.num = some f' ↔ p + 1 = n.num := by
    rw [hkid _ le_rfl]
    constructor
    · intro hc; exact (halive n.num le_rfl (Option.some.inj hc)).symm
    · intro hc; rw [hfχ, hc]
  obtain ⟨n1, p1, g, b0, b1, b2, hg, b3, b4⟩ := dropWrites_sees hD (n := n) (p := p) q hN hp hmono hkey hkid hx
  rw [← haχ, d0] at b0
  cases Res.ok.inj b0
  have hlk : lookT o 1 r.heap n' x = lookT o 0 r.heap (χ g) x := by
    have hfl : findLeaf o 1 n' x = .ok (χ g) := by
      rw [findLeaf, b1, Res.ok_bind, b2, Res.ok_bind]; rfl
    unfold lookT
    rw [hfl]
    rfl
  have hcond : (findLeaf o (0 + 1) n x = .ok f' ∧ (q = 0 ∨ (n.kids n.num = some f' ∧ q ≤ 1))) ↔
      (rr = p + 1 ∧ (q = 0 ∨ (p + 1 = n.num ∧ q ≤ 1))) := by
    rw [← hlast]
    exact and_congr_left fun _ => hfold
  have hlk : lookT o (0 + 1) r.heap n' x = lookT o 0 r.heap (χ g) x := hlk
  rw [hlk]
  by_cases hc : rr = p + 1 ∧ (q = 0 ∨ (p + 1 = n.num ∧ q ≤ 1))
  · have hg1 := b3 hc
    have hub : lookT o 0 r.heap (χ g) x = .ub := by rw [hg1, ← hfχ]; exact lookT_dead hdead x
    rw [if_pos (hcond.2 hc), hub]
    exact ⟨.inr (.inr ⟨by omega, rfl⟩), fun _ => rfl⟩
  · rw [if_neg (fun h => hc (hcond.1 h))]
    rcases b4 hc with hg1 | ⟨q1, q2, q3, q4, q5⟩
    · have hgp : g ≠ p + 1 := by rw [hg1]; split <;> omega
      have hok := hleaf x rr g hx hg hgp
      rw [if_pos hg1] at hok
      rw [hok]
      exact ⟨.inl rfl, fun _ => rfl⟩
    · refine ⟨?_, fun hnd => absurd ⟨p, hf1, q1, q2, ?_⟩ hnd⟩
      · by_cases hgp : g = p + 1
        · right; right
          exact ⟨by omega, by rw [hgp, ← hfχ]; exact lookT_dead hdead x⟩
        · right; left
          have hok := hleaf x rr g hx hg hgp
          rw [if_neg (by split <;> omega)] at hok
          exact hok
      · rw [hkey _ (by omega), q3]

/-- Below the root no branch node is replaced by its only child. -/
theorem eraseB_noRoot : ∀ (d : Nat) (b : Bool) (h : Heap L) (n : BNode K (Tree K d)) (k : K) (r : EOut L (BNode K (Tree K d)) (Tree K d)),
    eraseB o d b h n k = .ok r → (d = 0 → r.newRoot = none) →
    ∀ pn r0, leafParentG o d n k = .ok pn → eraseB0 o h pn k = .ok r0 → r0.newRoot = none
  | 0, b, h, n, k, r, e, hr, pn, r0, e1, e2 => by
    cases Res.ok.inj e1
    rw [eraseB] at e
    cases Res.ok.inj (e.symm.trans e2)
    exact hr rfl
  | d + 1, b, h, n, k, r, e, _, pn, r0, e1, e2 => by
    rw [eraseB] at e
    rw [leafParentG] at e1
    obtain ⟨pos, q1, e⟩ := Res.bind_eq_ok.1 e
    obtain ⟨ch, q2, e⟩ := Res.bind_eq_ok.1 e
    obtain ⟨r1, q3, e⟩ := Res.bind_eq_ok.1 e
    obtain ⟨_, q4, e⟩ := Res.bind_eq_ok.1 e
    rw [q1, Res.ok_bind, show Slots.rd (o.N + 1) n.kids pos = .ok ch from q2, Res.ok_bind] at e1
    refine eraseB_noRoot d false h ch k r1 q3 (fun _ => ?_) pn r0 e1 e2
    unfold Res.guardUB at q4
    by_cases hc : r1.newRoot.isNone = true
    · exact Option.isNone_iff_eq_none.1 hc
    · rw [if_neg hc] at q4; cases q4

/-- Subtrees. -/
theorem dropAt_spec (E : EraseLaws W) (hD : DupSearch o) (hM : 2 ≤ o.M) (hlm1 : 1 ≤ lm) (hlm : lm ≤ o.M / 2) (hbm : 1 ≤ bm) (k : K) (q : Nat) :
    ∀ (d top : Nat) (h : Heap L) (n : BNode K (Tree K d)) (lo hi : Bd K) (pre post : List Nat),
    Bt W E.Q lm bm h (d + 1) top n lo hi → InR lo hi k →
    (∀ id l, findLeaf o (d + 1) n k = .ok id → h.data id = some l → E.pre l k) → Wf h (pre ++ ids (d + 1) n ++ post) →
    1 ≤ top → (∀ pn r, leafParentG o d n k = .ok pn → eraseB0 o h pn k = .ok r → r.newRoot = none) →
    ∃ pn r n', leafParentG o d n k = .ok pn ∧ eraseB0 o h pn k = .ok r ∧ dropAt o d h n k q = .ok (r.heap, n') ∧
      Frame h r.heap (ids (d + 1) n) ∧
      ((∀ i, (h.data i).isSome → r.heap.data i ≠ none) → 1 ≤ q → ∀ x, lookT o (d + 1) r.heap n' x =
        .ok (if x = k then none else find x (content W h (ids (d + 1) n)))) ∧
      ∀ f, (h.data f).isSome → r.heap.data f = none →
        DropLook o d r.heap n n' pn (fun x => if x = k then none else find x (content W h (ids (d + 1) n))) f q := by
  intro d
  induction d with
  | zero =>
    intro top h n lo hi pre post hb hk hf w htop hnr
    obtain ⟨r, n', h1, h2, h3⟩ := dropAt0_spec E hD hM hlm1 hlm hb hk hf w htop (fun r hr => hnr n r rfl hr) q
    exact ⟨n, r, n', rfl, h1, h2, h3⟩
  | succ d ih =>
    intro top h n lo hi pre post hb hk hf w htop hnr
    have hbtt := hb.frame (Q' := tt) (fun _ _ _ _ => trivial) (fun _ _ => rfl)
    obtain ⟨cs, ks, hr, _, ht⟩ := hb
    obtain ⟨hks, _, _⟩ := keys_sorted (fun c a b hc => Bt.lt hc) ht
    obtain ⟨c1, c, c2, k1, k2, b1, m, m', b2, f⟩ := exists_focus W (fun c a b hc => Bt.lt hc) ht hk
    have hids : ids (d + 2) n = c1.flatMap (ids (d + 1)) ++ ids (d + 1) c ++ c2.flatMap (ids (d + 1)) := by
      rw [ids_rep hr, f.hcs]; simp
    have hlp := f.lookupPos hr hks
    have hrd := f.rdKid hr
    have w' : Wf h ((pre ++ c1.flatMap (ids (d + 1))) ++ ids (d + 1) c ++ (c2.flatMap (ids (d + 1)) ++ post)) := by
      rw [hids] at w; simpa using w
    have hpc := f.pc
    rw [show occ lm bm (d + 1) = bm from rfl] at hpc
    obtain ⟨pn, r, c', g1, g2, g3, g4, g5, g6⟩ := ih bm h c m m' _ _ hpc f.inR (fun id l h1 h2 => hf id l (by
      rw [findLeaf, hlp, Res.ok_bind, hrd, Res.ok_bind]; exact h1) h2) w' hbm (fun pn r h1 h2 => hnr pn r (by
      rw [leafParentG, hlp, Res.ok_bind, show Slots.rd (o.N + 1) n.kids k1.length = .ok c from hrd, Res.ok_bind]; exact h1) h2)
    have hkl : k1.length ≤ o.N := by have := hr.cap; rw [f.hks, List.length_append] at this; omega
    set n' : BNode K (Tree K (d + 1)) := ⟨n.num, n.keys, fun j => if j = k1.length then some c' else n.kids j⟩ with hn'
    have hdrop : dropAt o (d + 1) h n k q = .ok (r.heap, n') := by
      rw [dropAt, hlp, Res.ok_bind, hrd, Res.ok_bind, g3, Res.ok_bind, wr_ok _ _ (by omega), Res.ok_bind]
      rfl
    -- the search for x
    have hsearch : ∀ x, (lookT o (d + 2) r.heap n' x = lookT o (d + 1) r.heap c' x ∧ findLeaf o (d + 2) n x = findLeaf o (d + 1) c x ∧
        find x (content W h (ids (d + 2) n)) = find x (content W h (ids (d + 1) c))) ∨
        (lookT o (d + 2) r.heap n' x = .ok (if x = k then none else find x (content W h (ids (d + 2) n))) ∧
          ∃ i, findLeaf o (d + 2) n x = .ok i ∧ i < h.fresh ∧ i ∉ ids (d + 1) c) := by
      intro x
      obtain ⟨cs', ks', hr', _, ht'⟩ := hbtt.widen (bot_le (a := lo)) (le_top (a := hi))
      obtain rfl := rep_unique hr'.kids hr.kids (by rw [hr'.len, hr.len, ← hr'.num, ← hr.num])
      obtain rfl := rep_unique hr'.keys hr.keys (by rw [← hr'.num, ← hr.num])
      obtain ⟨a1, y, a2, l1, l2, b1', m1, m1', b2', fx⟩ := exists_focus W (fun c a b hc => Bt.lt hc) ht' (inR_univ x)
      have hlx := fx.lookupPos hr hks
      have hrx := fx.rdKid hr
      have hlx' : lookupPos o n' x = .ok l1.length := hlx
      have hcont : find x (content W h (ids (d + 2) n)) = find x (content W h (ids (d + 1) y)) := by
        have ht2 := ht'
        rw [fx.hcs, fx.hks] at ht2
        rw [ids_rep hr, fx.hcs]
        exact find_tile ht2 fx.l1 fx.le fx.gt
      by_cases hl : l1.length = k1.length
      · left
        have hyc : y = c := by
          rw [hl, hrd] at hrx
          exact (Res.ok.inj hrx).symm
        subst hyc
        refine ⟨?_, ?_, hcont⟩
        · have : findLeaf o (d + 2) n' x = findLeaf o (d + 1) c' x := by
            rw [findLeaf, hlx', Res.ok_bind, hl, rd_ok (x := c') (by omega) (by simp [hn']), Res.ok_bind]
          unfold lookT
          rw [this]
        · rw [findLeaf, hlx, Res.ok_bind, hrx, Res.ok_bind]
      · right
        have hll : l1.length ≤ o.N := by have := hr.cap; rw [fx.hks, List.length_append] at this; omega
        have hxk : x ≠ k := by
          rintro rfl
          exact hl (Res.ok.inj (hlx.symm.trans hlp))
        -- the other child
        have hmem : y ∈ c1 ++ c2 := by
          have h1 : cs'[l1.length]? = some y := by rw [fx.hcs, ← fx.l1]; simp
          have hl1 := f.l1
          rw [f.hcs] at h1
          rcases Nat.lt_trichotomy l1.length k1.length with h2 | h2 | h2
          · rw [List.getElem?_append_left (by omega)] at h1
            exact List.mem_append_left _ (List.mem_of_getElem? h1)
          · exact absurd h2 hl
          · rw [List.getElem?_append_right (by omega), show l1.length - c1.length = (l1.length - c1.length - 1) + 1 by omega,
              List.getElem?_cons_succ] at h1
            exact List.mem_append_right _ (List.mem_of_getElem? h1)
        have hdis : ∀ i ∈ ids (d + 1) y, i < h.fresh ∧ i ∉ ids (d + 1) c := by
          intro i hi
          have hnd := w'.nodup
          have hi2 : i ∈ c1.flatMap (ids (d + 1)) ∨ i ∈ c2.flatMap (ids (d + 1)) := by
            rcases List.mem_append.1 hmem with h1 | h1
            · exact .inl (List.mem_flatMap.2 ⟨y, h1, hi⟩)
            · exact .inr (List.mem_flatMap.2 ⟨y, h1, hi⟩)
          refine ⟨w'.fresh i (by simp only [List.mem_append]; tauto), fun hic => ?_⟩
          rw [List.nodup_append, List.nodup_append] at hnd
          obtain ⟨⟨_, _, h1⟩, _, h2⟩ := hnd
          rcases hi2 with h3 | h3
          · exact h1 i (List.mem_append_right _ h3) i hic rfl
          · exact h2 i (List.mem_append_right _ hic) i (List.mem_append_left _ h3) rfl
        have hfy : ∀ i ∈ ids (d + 1) y, r.heap.data i = h.data i := fun i hi => g4 i (hdis i hi).2 (hdis i hi).1
        have hby : Bt W tt lm bm r.heap (d + 1) (occ lm bm (d + 1)) y m1 m1' := fx.pc.frame (fun _ _ _ h => h) hfy
        have hlo := lookT_any hby x
        rw [content_congr W hfy, ← hcont] at hlo
        refine ⟨?_, ?_⟩
        · have : findLeaf o (d + 2) n' x = findLeaf o (d + 1) y x := by
            have hky : n.kids l1.length = some y := by
              rw [hr.kids _ (by rw [fx.hcs, List.length_append, fx.l1, List.length_cons]; omega), fx.hcs, ← fx.l1]; simp
            rw [findLeaf, hlx', Res.ok_bind, rd_ok (x := y) (by omega) (by simp only [hn']; rw [if_neg hl]; exact hky), Res.ok_bind]
          rw [if_neg hxk, ← hlo]
          unfold lookT
          rw [this]
        · obtain ⟨i, _, pre', post', _, _, e1, e2, _⟩ := findLeaf_spec x (d + 1) _ y _ _ fx.pc fx.inR
          refine ⟨i, ?_, hdis i (by rw [e2]; simp)⟩
          rw [findLeaf, hlx, Res.ok_bind, hrx, Res.ok_bind]
          exact e1
    refine ⟨pn, r, n', ?_, g2, hdrop, ?_, fun hnf hq x => ?_, fun f' h1 h2 x => ?_⟩
    · rw [leafParentG, hlp, Res.ok_bind, show Slots.rd (o.N + 1) n.kids k1.length = .ok c from hrd, Res.ok_bind]; exact g1
    · intro i hi hif
      refine g4 i (fun hc => hi ?_) hif
      rw [hids]; simp only [List.mem_append]; tauto
    · rcases hsearch x with ⟨s1, _, s3⟩ | ⟨s1, _⟩
      · rw [s1, s3]; exact g5 hnf hq x
      · exact s1
    · dsimp only
      rcases hsearch x with ⟨s1, s2, s3⟩ | ⟨s1, i, s2, s3, s4⟩
      · rw [s1, s2, s3]
        exact g6 f' h1 h2 x
      · rw [s1, s2]
        refine ⟨.inl rfl, fun _ => ?_⟩
        refine (if_neg ?_).symm
        rintro ⟨hc, _⟩
        have hif := Res.ok.inj hc
        rw [← hif, g4 i s4 s3] at h2
        rw [← hif, h2] at h1
        cases h1

/-- The branch node above the leaf of `k` in a tree (none in a tree that is a single leaf). -/
def LeafParent (o : Ops K V L) (s : State K L) (k : K) (pn : BNode K Nat) : Prop :=
  match s with
  | ⟨0, _, _⟩ => False
  | ⟨d + 1, n, _⟩ => leafParentG o d n k = .ok pn

/-- Trees: what a crash leaves. -/
theorem eraseAt_spec (E : EraseLaws W) (hD : DupSearch o) (hM : 2 ≤ o.M) (hlm1 : 1 ≤ lm) (hlm : lm ≤ o.M / 2) (hbm : 1 ≤ bm)
    {s s1 : State K L} {b : Bool} {k : K} (hb : Bt W E.Q lm bm s.heap s.depth (rootMin 1 s.depth) s.root ⊥ ⊤)
    (w : Wf s.heap (ids s.depth s.root))
    (hf : ∀ id l, findLeaf o s.depth s.root k = .ok id → s.heap.data id = some l → E.pre l k) (e : erase o s k = .ok (b, s1)) (q : Nat)
    {m : K → Option V} (hl1 : ∀ x, lookup o s1 x = .ok (m x)) (hm : ∀ x, m x = if x = k then none else find x (cont W s))
    (h0 : ∀ f, (s.heap.data f).isSome → s1.heap.data f = none → ∀ x, lookup o ⟨s.depth, s.root, s1.heap⟩ x =
      if findLeaf o s.depth s.root x = .ok f then .ub else .ok (m x)) :
    (s.depth = 1 ∧ s1.depth = 0 ∧ q = 1 ∧ eraseAt o s k q = .ok .mixed) ∨
    (¬ (s.depth = 1 ∧ s1.depth = 0 ∧ q = 1) ∧ ∃ s', eraseAt o s k q = .ok (.tree s') ∧ s'.heap = s1.heap ∧
      ((∀ f, (s.heap.data f).isSome → s1.heap.data f ≠ none) → 1 ≤ q → ∀ x, lookup o s' x = .ok (m x)) ∧
      ∀ f, (s.heap.data f).isSome → s1.heap.data f = none → ∃ pn, LeafParent o s k pn ∧ ∀ x,
        (lookup o s' x = .ok (m x) ∨ lookup o s' x = .ok none ∨ (q ≤ 1 ∧ lookup o s' x = .ub)) ∧
        (¬ DupSep pn f q x → lookup o s' x =
          if findLeaf o s.depth s.root x = .ok f ∧ (q = 0 ∨ (pn.kids pn.num = some f ∧ q ≤ 1)) then .ub else .ok (m x))) := by
  obtain ⟨d, t, h⟩ := s
  unfold erase at e
  unfold eraseAt
  rcases d with _ | d
  · right
    refine ⟨fun hc => absurd hc.1 (by simp), ?_⟩
    simp only [eraseT] at e
    obtain ⟨r, e1, e2⟩ := Res.bind_eq_ok.1 e
    cases Res.ok.inj e2
    simp only [eraseAtT]
    refine ⟨_, by rw [e1, Res.ok_bind]; rfl, rfl, fun _ _ => hl1, fun f h1 h2 => ?_⟩
    have := (eraseLeaf_frees e1).1 f h1
    rw [show r.2.data f = none from h2] at this
    cases this
  · simp only [eraseT] at e
    obtain ⟨r, e1, e2⟩ := Res.bind_eq_ok.1 e
    have hheap : r.heap = s1.heap := by
      cases hr : r.newRoot <;> rw [hr] at e2 <;> · cases Res.ok.inj e2; rfl
    obtain ⟨pn, r0, f1, f2, f3⟩ := eraseB_heapG d true h t k r e1
    -- the case in which the root stays a branch node
    have main : (∀ pn r, leafParentG o d t k = .ok pn → eraseB0 o h pn k = .ok r → r.newRoot = none) →
        ∃ n', dropAt o d h t k q = .ok (s1.heap, n') ∧
        ((∀ f, (h.data f).isSome → s1.heap.data f ≠ none) → 1 ≤ q → ∀ x, lookup o ⟨d + 1, n', s1.heap⟩ x = .ok (m x)) ∧
        ∀ f, (h.data f).isSome → s1.heap.data f = none → ∃ pn, LeafParent o ⟨d + 1, t, h⟩ k pn ∧ ∀ x,
          (lookup o ⟨d + 1, n', s1.heap⟩ x = .ok (m x) ∨ lookup o ⟨d + 1, n', s1.heap⟩ x = .ok none ∨
            (q ≤ 1 ∧ lookup o ⟨d + 1, n', s1.heap⟩ x = .ub)) ∧
          (¬ DupSep pn f q x → lookup o ⟨d + 1, n', s1.heap⟩ x =
            if findLeaf o (d + 1) t x = .ok f ∧ (q = 0 ∨ (pn.kids pn.num = some f ∧ q ≤ 1)) then .ub else .ok (m x)) := by
      intro hnr
      obtain ⟨pn', r', n', g1, g2, g3, _, g4, g5⟩ := dropAt_spec E hD hM hlm1 hlm hbm k q d _ h t ⊥ ⊤ [] [] hb (inR_univ k) hf
        (by simpa using w) le_rfl hnr
      cases Res.ok.inj (f1.symm.trans g1)
      cases Res.ok.inj (f2.symm.trans g2)
      rw [f3, hheap] at g3 g4 g5
      refine ⟨n', g3, fun hn hq x => ?_, fun f h1 h2 => ⟨pn, f1, fun x => ?_⟩⟩
      · rw [hm]; exact g4 hn hq x
      · have := g5 f h1 h2 x
        rw [hm]
        exact this
    rcases d with _ | d
    · -- the root is above the leaves
      obtain rfl : t = pn := Res.ok.inj f1
      have hr0 : r0 = r := by
        rw [eraseB] at e1
        exact Res.ok.inj (f2.symm.trans e1)
      subst hr0
      simp only [eraseAtT]
      rw [f2, Res.ok_bind]
      cases hr : r0.newRoot with
      | none =>
        right
        rw [hr] at e2
        cases Res.ok.inj e2
        refine ⟨fun hc => absurd hc.2.1 (by simp), ?_⟩
        obtain ⟨n', m1, m2, m3⟩ := main (fun pn r g1 g2 => by
          cases Res.ok.inj g1
          cases Res.ok.inj (g2.symm.trans f2)
          exact hr)
        exact ⟨⟨1, n', r0.heap⟩, by rw [m1]; rfl, rfl, m2, m3⟩
      | some tt =>
        rw [hr] at e2
        cases Res.ok.inj e2
        rcases q with _ | _ | q
        · right
          refine ⟨fun hc => absurd hc.2.2 (by omega), ⟨1, t, r0.heap⟩, rfl, rfl, fun _ hq => absurd hq (by omega), fun f h1 h2 => ⟨t, rfl, fun x => ?_⟩⟩
          have := h0 f h1 h2 x
          refine ⟨?_, fun _ => ?_⟩
          · change lookup o ⟨1, t, r0.heap⟩ x = _ at this
            by_cases hc : findLeaf o 1 t x = .ok f
            · rw [if_pos hc] at this
              exact .inr (.inr ⟨by omega, this⟩)
            · rw [if_neg hc] at this
              exact .inl this
          · refine this.trans ?_
            by_cases hc : findLeaf o 1 t x = .ok f
            · rw [if_pos hc, if_pos ⟨hc, .inl rfl⟩]
            · rw [if_neg hc, if_neg (fun hh => hc hh.1)]
        · exact .inl ⟨trivial, rfl, rfl, rfl⟩
        · right
          refine ⟨fun hc => absurd hc.2.2 (by omega), ⟨0, tt, r0.heap⟩, rfl, rfl, fun _ _ => hl1, fun f h1 h2 => ⟨t, rfl, fun x => ?_⟩⟩
          refine ⟨.inl (hl1 x), fun _ => ?_⟩
          rw [if_neg (by omega)]
          exact hl1 x
    · right
      refine ⟨fun hc => absurd hc.1 (by simp), ?_⟩
      obtain ⟨n', m1, m2, m3⟩ := main (eraseB_noRoot (d + 1) true h t k r e1 (fun hc => absurd hc (by omega)))
      simp only [eraseAtT]
      exact ⟨⟨d + 2, n', s1.heap⟩, by rw [m1]; rfl, rfl, m2, m3⟩

/-- In a tree of depth at most 1 the erase is complete after all assignments. -/
theorem eraseAt_last {s s1 : State K L} {b : Bool} {k : K} (hb : Bt W tt lm bm s.heap s.depth (rootMin 1 s.depth) s.root ⊥ ⊤)
    (w : Wf s.heap (ids s.depth s.root)) (e : erase o s k = .ok (b, s1)) (hd : s.depth ≤ 1) {q : Nat} (hq : 2 * o.N ≤ q) (hN : 1 ≤ o.N) :
    eraseAt o s k q = .ok (.tree s1) := by
  obtain ⟨d, t, h⟩ := s
  unfold erase at e
  unfold eraseAt
  rcases d with _ | _ | d
  · simp only [eraseT] at e
    obtain ⟨r, e1, e2⟩ := Res.bind_eq_ok.1 e
    cases Res.ok.inj e2
    simp only [eraseAtT]
    rw [e1, Res.ok_bind]; rfl
  · simp only [eraseT] at e
    obtain ⟨r, e1, e2⟩ := Res.bind_eq_ok.1 e
    rw [eraseB] at e1
    simp only [eraseAtT]
    rw [e1, Res.ok_bind]
    cases hr : r.newRoot with
    | none =>
      rw [hr] at e2
      cases Res.ok.inj e2
      obtain ⟨ws, q1, q2, q3⟩ := eraseP_spec (pre := []) (post := []) hb (by simpa using w) e1 hr
      have hlen : ws.length ≤ q := by
        rcases q3 with ⟨q3, _⟩ | ⟨p, a, f, hp, _, _, _, _, q3⟩
        · omega
        · obtain ⟨_, _, _, hNn, _⟩ := hb.node k
          change t.num ≤ o.N at hNn
          rw [q3]
          unfold dropWrites
          rw [List.length_append, dropLoop_length]
          simp only [List.length_cons, List.length_nil]
          omega
      simp only [dropAt]
      rw [q1, Res.ok_bind, List.take_of_length_le hlen, q2, Res.ok_bind]
      rfl
    | some tt =>
      rw [hr] at e2
      cases Res.ok.inj e2
      simp only [show q ≠ 0 by omega, show q ≠ 1 by omega, if_false]
      rfl
  · exact absurd hd (by change ¬ (d + 2 ≤ 1); omega)

/-- The branch node above the leaf of `k` is a tree of its own. -/
theorem leafParentG_bt {Q : L → Bd K → Bd K → Prop} {h : Heap L} {k : K} : ∀ (d top : Nat) (n : BNode K (Tree K d)) (lo hi : Bd K),
    Bt W Q lm bm h (d + 1) top n lo hi → InR lo hi k → ∃ pn top' lo' hi' pre post, leafParentG o d n k = .ok pn ∧
      Bt W Q lm bm h 1 top' pn lo' hi' ∧ ids (d + 1) n = pre ++ ids (K := K) 1 pn ++ post
  | 0, top, n, lo, hi, hb, _ => ⟨n, top, lo, hi, [], [], rfl, hb, by simp⟩
  | d + 1, top, n, lo, hi, hb, hk => by
    obtain ⟨cs, ks, hr, _, ht⟩ := hb
    obtain ⟨hks, _, _⟩ := keys_sorted (fun c a b hc => Bt.lt hc) ht
    obtain ⟨c1, c, c2, k1, k2, b1, m, m', b2, f⟩ := exists_focus W (fun c a b hc => Bt.lt hc) ht hk
    obtain ⟨pn, top', lo', hi', pre, post, e1, e2, e3⟩ := leafParentG_bt d _ c _ _ f.pc f.inR
    refine ⟨pn, top', lo', hi', c1.flatMap (ids (d + 1)) ++ pre, post ++ c2.flatMap (ids (d + 1)), ?_, e2, ?_⟩
    · rw [leafParentG, f.lookupPos hr hks, Res.ok_bind, show Slots.rd (o.N + 1) n.kids k1.length = .ok c from f.rdKid hr, Res.ok_bind]
      exact e1
    · rw [ids_rep hr, f.hcs, List.flatMap_append, List.flatMap_cons, e3]; simp

/-- At most one separator stands there twice. -/
theorem LeafParent.dup_unique {s : State K L} {k : K} {pn : BNode K Nat} (hp : LeafParent o s k pn)
    (hb : Bt W tt lm bm s.heap s.depth (rootMin 1 s.depth) s.root ⊥ ⊤) (w : Wf s.heap (ids s.depth s.root)) {f q : Nat} {x y : K}
    (hx : DupSep pn f q x) (hy : DupSep pn f q y) : x = y := by
  obtain ⟨d, t, h⟩ := s
  rcases d with _ | d
  · exact hp.elim
  obtain ⟨pn', top', lo', hi', pre, post, e1, e2, e3⟩ := leafParentG_bt (o := o) d _ t ⊥ ⊤ hb (inR_univ k)
  obtain rfl : pn' = pn := Res.ok.inj (e1.symm.trans hp)
  obtain ⟨_, χ, _, _, _, hc, _, _, hids, _⟩ := e2.node k
  have hnd : (ids (K := K) 1 pn').Nodup := by
    have := w.nodup
    rw [show ids (d + 1) t = _ from e3] at this
    exact ((List.nodup_append.1 (List.nodup_append.1 this).1).2.1)
  rw [hids, show (fun i => ids (K := K) 0 (χ i)) = fun i => [χ i] from rfl, ← List.map_eq_flatMap] at hnd
  obtain ⟨j, a1, a2, a3, a4⟩ := hx
  obtain ⟨i, b1, b2, b3, b4⟩ := hy
  rw [hc _ (by omega)] at a1 b1
  have hij : j = i := by
    have := List.inj_on_of_nodup_map hnd (List.mem_range.2 (show j + 1 < pn'.num + 1 by omega)) (List.mem_range.2 (show i + 1 < pn'.num + 1 by omega))
      (Option.some.inj (a1.trans b1.symm))
    omega
  subst hij
  rw [a4] at b4
  exact Option.some.inj b4

end Verif.BTree
