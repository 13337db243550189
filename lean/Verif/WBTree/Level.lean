import Verif.WBTree.General
import Verif.WBTree.Scan

/-!
# wBPTree.hpp and wHBPTree.hpp: the levels of the nodes

Every entry of `children[]`, used or left over, points to a node one level below.  So a descent that takes
a wrong child still ends in a leaf of the tree.
-/

namespace Verif.WBTree

variable {K V : Type} [LinearOrder K] {N M : Nat}

/-- The address `c` is one of level `d`: of a leaf for `d = 0`. -/
def IsAt (t : Tree K V N M) (lev : Nat → Nat) : Nat → Nat → Prop
  | 0, c => c < t.leaves.length
  | d + 1, c => c < t.branches.length ∧ lev c = d + 1

/-- The children of the branch node at address `a` are one level below. -/
def KidsAt (t : Tree K V N M) (lev : Nat → Nat) (a : Nat) (kids : Slots Nat) : Prop :=
  ∃ d, lev a = d + 1 ∧ ∀ j c, kids j = some c → IsAt t lev d c

/-- Every child of every branch node is one level below; with at least four separators per node
`children[0]` of every node is initialised. -/
structure Lev (t : Tree K V N M) (lev : Nat → Nat) : Prop where
  kids : ∀ (a : Nat) (b : Branch K N), t.branches[a]? = some b → KidsAt t lev a b.kids
  zero : 4 ≤ N → ∀ (a : Nat) (b : Branch K N), t.branches[a]? = some b → ∃ c, b.kids 0 = some c

/-- The heap has grown. -/
structure Grow (t t' : Tree K V N M) (lev lev' : Nat → Nat) : Prop where
  llen : t.leaves.length ≤ t'.leaves.length
  blen : t.branches.length ≤ t'.branches.length
  lev : ∀ a < t.branches.length, lev' a = lev a
  root : t'.root = t.root
  depth : t'.depth = t.depth

omit [LinearOrder K] in
theorem IsAt.grow {t t' : Tree K V N M} {lev lev' : Nat → Nat} (h : Grow t t' lev lev') {d c : Nat}
    (hc : IsAt t lev d c) : IsAt t' lev' d c := by
  cases d with
  | zero => exact Nat.lt_of_lt_of_le hc h.llen
  | succ d => exact ⟨Nat.lt_of_lt_of_le hc.1 h.blen, by rw [h.lev c hc.1]; exact hc.2⟩

theorem wr_eq_ok {α : Type} {cap : Nat} {a a' : Slots α} {i : Nat} {x : α} (h : Slots.wr cap a i x = .ok a') :
    a' = fun j => if j = i then some x else a j := by
  unfold Slots.wr at h
  split at h
  · exact (Res.ok.inj h).symm
  · exact absurd h (by simp)

theorem rd_eq_ok {α : Type} {cap : Nat} {a : Slots α} {i : Nat} {x : α} (h : Slots.rd cap a i = .ok x) :
    a i = some x := by
  unfold Slots.rd at h
  split at h
  · cases ha : a i with
    | none => rw [ha] at h; exact absurd h (by simp [Res.ofOption])
    | some y => rw [ha, Res.ofOption_some] at h; rw [Res.ok.inj h]
  · exact absurd h (by simp)

omit [LinearOrder K] in
/-- What `add` leaves in `children[]`. -/
theorem add_kids {b b' : Branch K N} {p l r : Nat} {sep : K} (h : b.add p sep l r = .ok b') :
    (∀ j c, b'.kids j = some c → c = l ∨ c = r ∨ b.kids j = some c) ∧
      ∀ j, (∃ c, b.kids j = some c) → ∃ c, b'.kids j = some c := by
  unfold Branch.add at h
  dsimp only at h
  obtain ⟨keys, _, h⟩ := Res.bind_eq_ok.1 h
  obtain ⟨kids, hk, h⟩ := Res.bind_eq_ok.1 h
  obtain ⟨n, _, h⟩ := Res.bind_eq_ok.1 h
  obtain ⟨⟨slot, kids2⟩, hif, h⟩ := Res.bind_eq_ok.1 h
  dsimp only at h
  obtain ⟨_, _, h⟩ := Res.bind_eq_ok.1 h
  obtain ⟨_, _, h⟩ := Res.bind_eq_ok.1 h
  obtain ⟨_, _, h⟩ := Res.bind_eq_ok.1 h
  obtain ⟨_, _, h⟩ := Res.bind_eq_ok.1 h
  have hb' : b'.kids = kids2 := by
    have := Res.ok.inj h
    rw [← this]
  have hk2 : ∃ i, kids2 = fun j => if j = i then some r else kids j := by
    split at hif
    · obtain ⟨_, _, hif⟩ := Res.bind_eq_ok.1 hif
      obtain ⟨s, _, hif⟩ := Res.bind_eq_ok.1 hif
      obtain ⟨k3, hk3, hif⟩ := Res.bind_eq_ok.1 hif
      have := Res.ok.inj hif
      exact ⟨s, by rw [← wr_eq_ok hk3]; exact (congrArg Prod.snd this).symm⟩
    · obtain ⟨k3, hk3, hif⟩ := Res.bind_eq_ok.1 hif
      have := Res.ok.inj hif
      exact ⟨N, by rw [← wr_eq_ok hk3]; exact (congrArg Prod.snd this).symm⟩
  obtain ⟨i, hi⟩ := hk2
  rw [hb', hi, wr_eq_ok hk]
  constructor
  · intro j c hc
    dsimp only at hc
    split at hc
    · exact Or.inr (Or.inl (Option.some.inj hc).symm)
    · split at hc
      · exact Or.inl (Option.some.inj hc).symm
      · exact Or.inr (Or.inr hc)
  · intro j hj
    dsimp only
    split
    · exact ⟨r, rfl⟩
    · split
      · exact ⟨l, rfl⟩
      · exact hj

omit [LinearOrder K] in
theorem moveOut_kids (src : Branch K N) (mid n : Nat) : ∀ (i : Nat) (sib sib' : Branch K N),
    Branch.moveOut src mid i n sib = .ok sib' →
    (∀ j c, sib'.kids j = some c → sib.kids j = some c ∨ ∃ s, src.kids s = some c) ∧
      (∀ j, (∃ c, sib.kids j = some c) → ∃ c, sib'.kids j = some c) ∧ (0 < n → ∃ c, sib'.kids i = some c) := by
  induction n with
  | zero =>
    intro i sib sib' h
    have := Res.ok.inj h
    subst this
    exact ⟨fun j c hc => Or.inl hc, fun j hj => hj, fun h => absurd h (by omega)⟩
  | succ n ih =>
    intro i sib sib' h
    rw [Branch.moveOut] at h
    obtain ⟨slot, _, h⟩ := Res.bind_eq_ok.1 h
    obtain ⟨bits, _, h⟩ := Res.bind_eq_ok.1 h
    obtain ⟨s, _, h⟩ := Res.bind_eq_ok.1 h
    obtain ⟨k, _, h⟩ := Res.bind_eq_ok.1 h
    obtain ⟨keys, _, h⟩ := Res.bind_eq_ok.1 h
    obtain ⟨c, hc, h⟩ := Res.bind_eq_ok.1 h
    obtain ⟨kids, hk, h⟩ := Res.bind_eq_ok.1 h
    obtain ⟨h1, h2, h3⟩ := ih (i + 1) _ sib' h
    have hk' := wr_eq_ok hk
    simp only [hk'] at h1 h2
    refine ⟨?_, ?_, ?_⟩
    · intro j c' hc'
      rcases h1 j c' hc' with h4 | h4
      · split at h4
        · exact Or.inr ⟨s, by rw [rd_eq_ok hc]; exact h4⟩
        · exact Or.inl h4
      · exact Or.inr h4
    · intro j hj
      refine h2 j ?_
      split
      · exact ⟨c, rfl⟩
      · exact hj
    · intro _
      exact h2 i ⟨c, by rw [if_pos rfl]⟩

/-- What `split` leaves in `children[]` of both nodes. -/
theorem split_kids {junk : Option Nat} {b b' sib : Branch K N} {sep up : K}
    (hfull : b.slot.rd (N + 1) 0 = .ok N) (h : b.split junk sep = .ok (b', up, sib)) :
    (∀ j c, b'.kids j = some c → ∃ s, b.kids s = some c) ∧ (∀ j c, sib.kids j = some c → ∃ s, b.kids s = some c) ∧
      (∀ j, (∃ c, b.kids j = some c) → ∃ c, b'.kids j = some c) ∧ (4 ≤ N → ∃ c, sib.kids 0 = some c) := by
  unfold Branch.split at h
  obtain ⟨s, _, h⟩ := Res.bind_eq_ok.1 h
  obtain ⟨k, _, h⟩ := Res.bind_eq_ok.1 h
  dsimp only at h
  generalize hmid : (if k < sep then (N + 1) / 2 + 1 else (N + 1) / 2) = mid at h
  rw [hfull, Res.ok_bind] at h
  obtain ⟨sibSlot, _, h⟩ := Res.bind_eq_ok.1 h
  obtain ⟨sib1, hmo, h⟩ := Res.bind_eq_ok.1 h
  obtain ⟨bits, _, h⟩ := Res.bind_eq_ok.1 h
  obtain ⟨slot, _, h⟩ := Res.bind_eq_ok.1 h
  obtain ⟨c, hc, h⟩ := Res.bind_eq_ok.1 h
  obtain ⟨sibKids, hsk, h⟩ := Res.bind_eq_ok.1 h
  obtain ⟨s2, _, h⟩ := Res.bind_eq_ok.1 h
  obtain ⟨c2, hc2, h⟩ := Res.bind_eq_ok.1 h
  obtain ⟨kids, hk, h⟩ := Res.bind_eq_ok.1 h
  obtain ⟨sep2, _, h⟩ := Res.bind_eq_ok.1 h
  have he := Res.ok.inj h
  have hb' : b'.kids = kids := by
    have := congrArg Prod.fst he
    dsimp only at this
    rw [← this]
  have hs' : sib.kids = sibKids := by
    have := congrArg (fun x => x.2.2) he
    dsimp only at this
    rw [← this]
  obtain ⟨m1, m2, m3⟩ := moveOut_kids b mid (N - mid) 0 _ sib1 hmo
  rw [hb', hs', wr_eq_ok hk, wr_eq_ok hsk]
  refine ⟨?_, ?_, ?_, ?_⟩
  · intro j c' hc'
    dsimp only at hc'
    split at hc'
    · exact ⟨s2, by rw [rd_eq_ok hc2]; exact hc'⟩
    · exact ⟨j, hc'⟩
  · intro j c' hc'
    dsimp only at hc'
    split at hc'
    · exact ⟨N, by rw [rd_eq_ok hc]; exact hc'⟩
    · rcases m1 j c' hc' with h1 | h1
      · exact absurd h1 (by simp [Branch.fresh, Slots.none])
      · exact h1
  · intro j hj
    dsimp only
    split
    · exact ⟨c2, rfl⟩
    · exact hj
  · intro hN
    dsimp only
    rw [if_neg (by omega)]
    refine m3 ?_
    rw [← hmid]
    split <;> omega

omit [LinearOrder K] in
theorem KidsAt.grow {t t' : Tree K V N M} {lev lev' : Nat → Nat} (h : Grow t t' lev lev') {a : Nat}
    {kids : Slots Nat} (ha : a < t.branches.length) (hk : KidsAt t lev a kids) : KidsAt t' lev' a kids := by
  obtain ⟨d, h1, h2⟩ := hk
  exact ⟨d, by rw [h.lev a ha, h1], fun j c hc => (h2 j c hc).grow h⟩

omit [LinearOrder K] in
theorem child_kid {b : Branch K N} {p c : Nat} (h : b.child p = .ok c) : ∃ s, b.kids s = some c := by
  unfold Branch.child at h
  obtain ⟨n, _, h⟩ := Res.bind_eq_ok.1 h
  split at h
  · exact ⟨N, rd_eq_ok h⟩
  · obtain ⟨s, _, h⟩ := Res.bind_eq_ok.1 h
    exact ⟨s, rd_eq_ok h⟩

omit [LinearOrder K] in
theorem branch_eq_ok {t : Tree K V N M} {a : Nat} {b : Branch K N} (h : t.branch a = .ok b) :
    t.branches[a]? = some b := by
  unfold Tree.branch at h
  cases hb : t.branches[a]? with
  | none => rw [hb] at h; exact absurd h (by simp [Res.ofOption])
  | some y => rw [hb, Res.ofOption_some] at h; rw [Res.ok.inj h]

omit [LinearOrder K] in
/-- One branch node is rewritten. -/
theorem Lev.set {t : Tree K V N M} {lev : Nat → Nat} (h : Lev t lev) {a : Nat} (b : Branch K N)
    (hk : KidsAt t lev a b.kids) (hz : 4 ≤ N → ∃ c, b.kids 0 = some c) :
    Lev { t with branches := t.branches.set a b } lev ∧ Grow t { t with branches := t.branches.set a b } lev lev := by
  have hg : Grow t { t with branches := t.branches.set a b } lev lev :=
    ⟨le_rfl, by simp, fun _ _ => rfl, rfl, rfl⟩
  refine ⟨⟨?_, ?_⟩, hg⟩
  · intro x y hxy
    change (t.branches.set a b)[x]? = some y at hxy
    have hx : x < t.branches.length := by
      have := (List.getElem?_eq_some_iff.1 hxy).1
      simpa using this
    by_cases hax : a = x
    · subst hax
      rw [List.getElem?_set_self hx] at hxy
      rw [← Option.some.inj hxy]
      exact hk.grow hg hx
    · rw [List.getElem?_set_ne hax] at hxy
      exact (h.kids x y hxy).grow hg hx
  · intro hN x y hxy
    change (t.branches.set a b)[x]? = some y at hxy
    by_cases hax : a = x
    · subst hax
      have hx : a < t.branches.length := by
        have := (List.getElem?_eq_some_iff.1 hxy).1
        simpa using this
      rw [List.getElem?_set_self hx] at hxy
      rw [← Option.some.inj hxy]
      exact hz hN
    · rw [List.getElem?_set_ne hax] at hxy
      exact h.zero hN x y hxy

omit [LinearOrder K] in
/-- A branch node of level `d + 1` is added. -/
theorem Lev.push {t : Tree K V N M} {lev : Nat → Nat} (h : Lev t lev) (d : Nat) (b : Branch K N)
    (hk : ∀ j c, b.kids j = some c → IsAt t lev d c) (hz : 4 ≤ N → ∃ c, b.kids 0 = some c) :
    Lev { t with branches := t.branches ++ [b] } (fun x => if x = t.branches.length then d + 1 else lev x) ∧
      Grow t { t with branches := t.branches ++ [b] } lev
        (fun x => if x = t.branches.length then d + 1 else lev x) := by
  have hg : Grow t { t with branches := t.branches ++ [b] } lev
      (fun x => if x = t.branches.length then d + 1 else lev x) :=
    ⟨le_rfl, by simp, fun x hx => if_neg (by omega), rfl, rfl⟩
  have hcase : ∀ x y, (t.branches ++ [b])[x]? = some y →
      (x < t.branches.length ∧ t.branches[x]? = some y) ∨ (x = t.branches.length ∧ b = y) := by
    intro x y hxy
    by_cases hx : x < t.branches.length
    · rw [List.getElem?_append_left hx] at hxy
      exact Or.inl ⟨hx, hxy⟩
    · rw [List.getElem?_append_right (by omega)] at hxy
      have hx2 : x - t.branches.length = 0 := by
        have := (List.getElem?_eq_some_iff.1 hxy).1
        simpa using this
      rw [hx2, List.getElem?_cons_zero] at hxy
      exact Or.inr ⟨by omega, Option.some.inj hxy⟩
  refine ⟨⟨?_, ?_⟩, hg⟩
  · intro x y hxy
    rcases hcase x y hxy with ⟨hx, hxy⟩ | ⟨rfl, rfl⟩
    · exact (h.kids x y hxy).grow hg hx
    · exact ⟨d, if_pos rfl, fun j c hc => (hk j c hc).grow hg⟩
  · intro hN x y hxy
    rcases hcase x y hxy with ⟨hx, hxy⟩ | ⟨rfl, rfl⟩
    · exact h.zero hN x y hxy
    · exact hz hN

omit [LinearOrder K] in
theorem Grow.trans {t t' t'' : Tree K V N M} {lev lev' lev'' : Nat → Nat} (h : Grow t t' lev lev')
    (h' : Grow t' t'' lev' lev'') : Grow t t'' lev lev'' :=
  ⟨le_trans h.llen h'.llen, le_trans h.blen h'.blen,
    fun a ha => by rw [h'.lev a (lt_of_lt_of_le ha h.blen), h.lev a ha], h'.root.trans h.root,
    h'.depth.trans h.depth⟩

/-- An insert keeps the levels. -/
theorem insertAux_lev (junk : Option Nat) (key : K) (val : V) : ∀ (d : Nat) (t t' : Tree K V N M) (a : Nat)
    (sp : Option (K × Nat)) (lev : Nat → Nat), Lev t lev → IsAt t lev d a →
    insertAux junk key val d t a = .ok (t', sp) →
    ∃ lev', Lev t' lev' ∧ Grow t t' lev lev' ∧ ∀ sep r, sp = some (sep, r) → IsAt t' lev' d r := by
  intro d
  induction d with
  | zero =>
    intro t t' a sp lev hl ha h
    rw [insertAux] at h
    unfold insertLeaf at h
    obtain ⟨l, _, h⟩ := Res.bind_eq_ok.1 h
    obtain ⟨⟨l', sp'⟩, _, h⟩ := Res.bind_eq_ok.1 h
    cases sp' with
    | none =>
      have he := Res.ok.inj h
      obtain ⟨rfl, rfl⟩ := Prod.mk.inj he
      have hg : Grow t { t with leaves := t.leaves.set a l' } lev lev :=
        ⟨by simp, le_rfl, fun _ _ => rfl, rfl, rfl⟩
      exact ⟨lev, ⟨fun x y hxy => (hl.kids x y hxy).grow hg (List.getElem?_eq_some_iff.1 hxy).1, hl.zero⟩, hg,
        by simp⟩
    | some sr =>
      obtain ⟨sep, r⟩ := sr
      have he := Res.ok.inj h
      obtain ⟨rfl, rfl⟩ := Prod.mk.inj he
      have hg : Grow t { t with leaves := t.leaves.set a l' ++ [r], next := linkAfter t.next a t.leaves.length }
        lev lev := ⟨by simp, le_rfl, fun _ _ => rfl, rfl, rfl⟩
      refine ⟨lev, ⟨fun x y hxy => (hl.kids x y hxy).grow hg (List.getElem?_eq_some_iff.1 hxy).1, hl.zero⟩, hg, ?_⟩
      intro sep' r' hsr
      obtain ⟨_, rfl⟩ := Prod.mk.inj (Option.some.inj hsr)
      show t.leaves.length < (t.leaves.set a l' ++ [r]).length
      simp
  | succ d ih =>
    intro t t' a sp lev hl ha h
    rw [insertAux] at h
    obtain ⟨b, hb, h⟩ := Res.bind_eq_ok.1 h
    obtain ⟨p, _, h⟩ := Res.bind_eq_ok.1 h
    obtain ⟨c, hc, h⟩ := Res.bind_eq_ok.1 h
    obtain ⟨⟨t1, sp1⟩, h1, h⟩ := Res.bind_eq_ok.1 h
    obtain ⟨d', hd', hkids⟩ := hl.kids a b (branch_eq_ok hb)
    obtain rfl : d' = d := by have := ha.2; omega
    obtain ⟨s, hs⟩ := child_kid hc
    obtain ⟨lev1, g1, g2, g3⟩ := ih t t1 c sp1 lev hl (hkids s c hs) h1
    cases sp1 with
    | none =>
      have he := Res.ok.inj h
      obtain ⟨rfl, rfl⟩ := Prod.mk.inj he
      exact ⟨lev1, g1, g2, by simp⟩
    | some sr =>
      obtain ⟨sep, r⟩ := sr
      dsimp only at h
      have hr := g3 sep r rfl
      have hc1 : IsAt t1 lev1 d' c := (hkids s c hs).grow g2
      obtain ⟨b1, hb1, h⟩ := Res.bind_eq_ok.1 h
      obtain ⟨n, hn, hx⟩ := Res.bind_eq_ok.1 h
      have hb1' := branch_eq_ok hb1
      have ha1 : IsAt t1 lev1 (d' + 1) a := ha.grow g2
      obtain ⟨d2, hd2, hkids1⟩ := g1.kids a b1 hb1'
      obtain rfl : d2 = d' := by have := ha1.2; omega
      have hadd : ∀ (x y : Branch K N) (q : Nat), (∀ j c, x.kids j = some c → IsAt t1 lev1 d2 c) →
          x.add q sep c r = .ok y → ∀ j c, y.kids j = some c → IsAt t1 lev1 d2 c := by
        intro x y q hx hy j c' hc'
        rcases (add_kids hy).1 j c' hc' with rfl | rfl | h4
        · exact hc1
        · exact hr
        · exact hx j c' h4
      have h := hx
      clear hx
      split at h
      · rename_i hnN
        rw [hnN] at hn
        obtain ⟨⟨b2, up, sib⟩, hsplit, h⟩ := Res.bind_eq_ok.1 h
        dsimp only at h
        obtain ⟨k1, k2, k3, k4⟩ := split_kids hn hsplit
        have hkl : ∀ j c, b2.kids j = some c → IsAt t1 lev1 d2 c := fun j c' h4 => by
          obtain ⟨s', hs'⟩ := k1 j c' h4
          exact hkids1 s' c' hs'
        have hkr : ∀ j c, sib.kids j = some c → IsAt t1 lev1 d2 c := fun j c' h4 => by
          obtain ⟨s', hs'⟩ := k2 j c' h4
          exact hkids1 s' c' hs'
        have hfin : ∀ bl br : Branch K N, (∀ j c, bl.kids j = some c → IsAt t1 lev1 d2 c) →
            (∀ j c, br.kids j = some c → IsAt t1 lev1 d2 c) → (4 ≤ N → ∃ c, bl.kids 0 = some c) →
            (4 ≤ N → ∃ c, br.kids 0 = some c) →
            ∃ lev', Lev { t1 with branches := t1.branches.set a bl ++ [br] } lev' ∧
              Grow t { t1 with branches := t1.branches.set a bl ++ [br] } lev lev' ∧
              IsAt { t1 with branches := t1.branches.set a bl ++ [br] } lev' (d2 + 1) t1.branches.length := by
          intro bl br q1 q2 q3 q4
          obtain ⟨m1, m2⟩ := g1.set (a := a) bl ⟨d2, hd2, q1⟩ q3
          obtain ⟨m3, m4⟩ := m1.push d2 br (fun j c hc => (q2 j c hc).grow m2) q4
          refine ⟨_, m3, (g2.trans m2).trans m4, ?_⟩
          exact ⟨by simp, by simp⟩
        split at h
        · obtain ⟨q, _, h⟩ := Res.bind_eq_ok.1 h
          obtain ⟨b3, hb3, h⟩ := Res.bind_eq_ok.1 h
          have he := Res.ok.inj h
          obtain ⟨rfl, rfl⟩ := Prod.mk.inj he
          obtain ⟨lev', r1, r2, r3⟩ := hfin b3 sib (hadd b2 b3 q hkl hb3) hkr
            (fun hN => (add_kids hb3).2 0 (k3 0 (g1.zero hN a b1 hb1'))) k4
          refine ⟨lev', r1, r2, ?_⟩
          intro sep' r' hsr
          obtain ⟨_, rfl⟩ := Prod.mk.inj (Option.some.inj hsr)
          exact r3
        · obtain ⟨q, _, h⟩ := Res.bind_eq_ok.1 h
          obtain ⟨b3, hb3, h⟩ := Res.bind_eq_ok.1 h
          have he := Res.ok.inj h
          obtain ⟨rfl, rfl⟩ := Prod.mk.inj he
          obtain ⟨lev', r1, r2, r3⟩ := hfin b2 b3 hkl (hadd sib b3 q hkr hb3)
            (fun hN => k3 0 (g1.zero hN a b1 hb1')) (fun hN => (add_kids hb3).2 0 (k4 hN))
          refine ⟨lev', r1, r2, ?_⟩
          intro sep' r' hsr
          obtain ⟨_, rfl⟩ := Prod.mk.inj (Option.some.inj hsr)
          exact r3
      · obtain ⟨b3, hb3, h⟩ := Res.bind_eq_ok.1 h
        have he := Res.ok.inj h
        obtain ⟨rfl, rfl⟩ := Prod.mk.inj he
        obtain ⟨m1, m2⟩ := g1.set (a := a) b3 ⟨d2, hd2, hadd b1 b3 p hkids1 hb3⟩
          (fun hN => (add_kids hb3).2 0 (g1.zero hN a b1 hb1'))
        exact ⟨lev1, m1, g2.trans m2, by simp⟩

/-- The levels of the whole tree. -/
def TLev (t : Tree K V N M) : Prop := ∃ lev, Lev t lev ∧ IsAt t lev t.depth t.root

theorem tLev_empty (junk : Option Nat) : TLev (empty N M junk : Tree K V N M) :=
  ⟨fun _ => 0, ⟨fun a b h => by simp [empty] at h, fun _ a b h => by simp [empty] at h⟩, by
    show 0 < 1
    omega⟩

theorem TLev.insert (junk : Option Nat) {t t' : Tree K V N M} (h : TLev t) {key : K} {val : V}
    (e : insert junk t key val = .ok t') : TLev t' := by
  obtain ⟨lev, h1, h2⟩ := h
  unfold WBTree.insert at e
  obtain ⟨⟨t1, sp⟩, e1, e⟩ := Res.bind_eq_ok.1 e
  obtain ⟨lev1, g1, g2, g3⟩ := insertAux_lev junk key val t.depth t t1 t.root sp lev h1 h2 e1
  cases sp with
  | none =>
    have := Res.ok.inj e
    subst this
    refine ⟨lev1, g1, ?_⟩
    rw [g2.depth, g2.root]
    exact h2.grow g2
  | some sr =>
    obtain ⟨sep, r⟩ := sr
    dsimp only at e
    obtain ⟨keys, _, e⟩ := Res.bind_eq_ok.1 e
    obtain ⟨kids, hk, e⟩ := Res.bind_eq_ok.1 e
    obtain ⟨kids2, hk2, e⟩ := Res.bind_eq_ok.1 e
    obtain ⟨slot, _, e⟩ := Res.bind_eq_ok.1 e
    obtain ⟨bits, _, e⟩ := Res.bind_eq_ok.1 e
    obtain ⟨slot2, _, e⟩ := Res.bind_eq_ok.1 e
    have := Res.ok.inj e
    subst this
    have hk3 : ∀ j c, kids2 j = some c → IsAt t1 lev1 t.depth c := by
      intro j c hc
      rw [wr_eq_ok hk2, wr_eq_ok hk] at hc
      dsimp only at hc
      split at hc
      · rw [← Option.some.inj hc]; exact g3 sep r rfl
      · split at hc
        · rw [← Option.some.inj hc]; exact h2.grow g2
        · exact absurd hc (by simp [Branch.fresh, Slots.none])
    obtain ⟨m1, m2⟩ := g1.push t.depth ⟨slot2, bits, keys, kids2⟩ hk3 (by
      intro hN
      rw [wr_eq_ok hk2, wr_eq_ok hk]
      dsimp only
      split
      · exact ⟨r, rfl⟩
      · exact ⟨t.root, by simp⟩)
    refine ⟨fun x => if x = t1.branches.length then t.depth + 1 else lev1 x, ⟨?_, m1.zero⟩, ?_, ?_⟩
    · intro a b hab
      obtain ⟨d, q1, q2⟩ := m1.kids a b hab
      refine ⟨d, q1, fun j c hc => ?_⟩
      have := q2 j c hc
      cases d with
      | zero => exact this
      | succ d => exact this
    · show t1.branches.length < (t1.branches ++ _).length
      simp
    · simp

/-- A descent along any children ends in a leaf. -/
theorem findLeaf_lt {t : Tree K V N M} {lev : Nat → Nat} (h : Lev t lev) (key : K) : ∀ (d a x : Nat),
    IsAt t lev d a → findLeaf t key d a = .ok x → x < t.leaves.length := by
  intro d
  induction d with
  | zero => intro a x ha e; rw [findLeaf] at e; rw [← Res.ok.inj e]; exact ha
  | succ d ih =>
    intro a x ha e
    rw [findLeaf] at e
    obtain ⟨b, hb, e⟩ := Res.bind_eq_ok.1 e
    obtain ⟨p, _, e⟩ := Res.bind_eq_ok.1 e
    obtain ⟨s, _, e⟩ := Res.bind_eq_ok.1 e
    obtain ⟨c, hc, e⟩ := Res.bind_eq_ok.1 e
    obtain ⟨d', q1, q2⟩ := h.kids a b (branch_eq_ok hb)
    obtain rfl : d' = d := by have := ha.2; omega
    exact ih c x (q2 s c (rd_eq_ok hc)) e

omit [LinearOrder K] in
theorem leftmost_lt {t : Tree K V N M} {lev : Nat → Nat} (h : Lev t lev) : ∀ (d a x : Nat),
    IsAt t lev d a → leftmost t d a = .ok x → x < t.leaves.length := by
  intro d
  induction d with
  | zero => intro a x ha e; rw [leftmost] at e; rw [← Res.ok.inj e]; exact ha
  | succ d ih =>
    intro a x ha e
    rw [leftmost] at e
    obtain ⟨b, hb, e⟩ := Res.bind_eq_ok.1 e
    obtain ⟨c, hc, e⟩ := Res.bind_eq_ok.1 e
    obtain ⟨d', q1, q2⟩ := h.kids a b (branch_eq_ok hb)
    obtain rfl : d' = d := by have := ha.2; omega
    exact ih c x (q2 0 c (rd_eq_ok hc)) e

omit [LinearOrder K] in
theorem leftmost_def {t : Tree K V N M} {lev : Nat → Nat} (h : Lev t lev) (hN : 4 ≤ N) : ∀ (d a : Nat),
    IsAt t lev d a → ∃ x, leftmost t d a = .ok x := by
  intro d
  induction d with
  | zero => intro a ha; exact ⟨a, rfl⟩
  | succ d ih =>
    intro a ha
    have hb := List.getElem?_eq_getElem ha.1
    obtain ⟨c, hc⟩ := h.zero hN a _ hb
    obtain ⟨d', q1, q2⟩ := h.kids a _ hb
    obtain rfl : d' = d := by have := ha.2; omega
    obtain ⟨x, hx⟩ := ih c (q2 0 c hc)
    refine ⟨x, ?_⟩
    rw [leftmost, Tree.branch_ok hb, Res.ok_bind, Slots.rd_ok (by omega) hc, Res.ok_bind]
    exact hx

end Verif.WBTree
