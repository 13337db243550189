import Verif.WBTree.RecoverTree

/-!
# wHBPTree.hpp: the levels of the recovered tree
-/

namespace Verif.WBTree

variable {K V : Type} [LinearOrder K] {N M : Nat}

omit [LinearOrder K] in
theorem append_kids {b b' : Branch K N} {key : K} {c : Nat} (h : b.append key c = .ok b') :
    (∀ j x, b'.kids j = some x → x = c ∨ ∃ s, b.kids s = some x) ∧
      ∀ j, (∃ x, b.kids j = some x) → ∃ x, b'.kids j = some x := by
  unfold Branch.append at h
  obtain ⟨n, _, h⟩ := Res.bind_eq_ok.1 h
  obtain ⟨bits, _, h⟩ := Res.bind_eq_ok.1 h
  obtain ⟨keys, _, h⟩ := Res.bind_eq_ok.1 h
  obtain ⟨kids, hk, h⟩ := Res.bind_eq_ok.1 h
  obtain ⟨kids2, hk2, h⟩ := Res.bind_eq_ok.1 h
  obtain ⟨slot, _, h⟩ := Res.bind_eq_ok.1 h
  obtain ⟨slot2, _, h⟩ := Res.bind_eq_ok.1 h
  have := Res.ok.inj h
  subst this
  have hkids : (∀ j x, kids j = some x → ∃ s, b.kids s = some x) ∧ ∀ j, (∃ x, b.kids j = some x) → ∃ x, kids j = some x := by
    split at hk
    · obtain ⟨z, hz, hk⟩ := Res.bind_eq_ok.1 hk
      rw [wr_eq_ok hk]
      constructor
      · intro j x hx
        dsimp only at hx
        split at hx
        · rw [← Option.some.inj hx]
          exact ⟨N, rd_eq_ok hz⟩
        · exact ⟨j, hx⟩
      · intro j hx
        dsimp only
        split
        · exact ⟨z, rfl⟩
        · exact hx
    · have := Res.ok.inj hk
      subst this
      exact ⟨fun j x hx => ⟨j, hx⟩, fun j hx => hx⟩
  rw [wr_eq_ok hk2]
  constructor
  · intro j x hx
    dsimp only at hx
    split at hx
    · exact Or.inl (Option.some.inj hx).symm
    · exact Or.inr (hkids.1 j x hx)
  · intro j hx
    dsimp only
    split
    · exact ⟨c, rfl⟩
    · exact hkids.2 j hx

omit [LinearOrder K] in
theorem only_kids {junk : Option Nat} {b : Branch K N} {c : Nat} (h : Branch.only junk c = .ok b) :
    (∀ j x, b.kids j = some x → x = c) ∧ b.kids 0 = some c := by
  unfold Branch.only at h
  obtain ⟨slot, _, h⟩ := Res.bind_eq_ok.1 h
  obtain ⟨kids, hk, h⟩ := Res.bind_eq_ok.1 h
  have := Res.ok.inj h
  subst this
  rw [wr_eq_ok hk]
  constructor
  · intro j x hx
    dsimp only at hx
    split at hx
    · exact (Option.some.inj hx).symm
    · exact absurd hx (by simp [Branch.fresh, Slots.none])
  · simp

omit [LinearOrder K] in
theorem recAdd_lev {junk : Option Nat} {t t' : Tree K V N M} {a c d : Nat} {key : K} {sp : Option (K × Nat)} {lev : Nat → Nat}
    (hl : Lev t lev) (ha : IsAt t lev (d + 1) a) (hc : IsAt t lev d c) (h : recAdd junk t a key c = .ok (t', sp)) :
    ∃ lev', Lev t' lev' ∧ Grow t t' lev lev' ∧ ∀ sep r, sp = some (sep, r) → IsAt t' lev' (d + 1) r := by
  unfold recAdd at h
  obtain ⟨b, hb, h⟩ := Res.bind_eq_ok.1 h
  obtain ⟨n, _, h⟩ := Res.bind_eq_ok.1 h
  split at h
  · obtain ⟨sib, hs, h⟩ := Res.bind_eq_ok.1 h
    obtain ⟨rfl, rfl⟩ := Prod.mk.inj (Res.ok.inj h)
    obtain ⟨k1, k2⟩ := only_kids hs
    obtain ⟨m1, m2⟩ := hl.push d sib (fun j x hx => by rw [k1 j x hx]; exact hc) (fun _ => ⟨c, k2⟩)
    refine ⟨_, m1, m2, ?_⟩
    intro sep r hsr
    obtain ⟨_, rfl⟩ := Prod.mk.inj (Option.some.inj hsr)
    exact ⟨by simp, by simp⟩
  · obtain ⟨b', hb', h⟩ := Res.bind_eq_ok.1 h
    obtain ⟨rfl, rfl⟩ := Prod.mk.inj (Res.ok.inj h)
    obtain ⟨k1, k2⟩ := append_kids hb'
    obtain ⟨d', hd', hkids⟩ := hl.kids a b (branch_eq_ok hb)
    obtain rfl : d' = d := by have := ha.2; omega
    obtain ⟨m1, m2⟩ := hl.set (a := a) b' ⟨d', hd', fun j x hx => by
      rcases k1 j x hx with rfl | ⟨s, hs⟩
      · exact hc
      · exact hkids s x hs⟩ (fun hN => k2 0 (hl.zero hN a b (branch_eq_ok hb)))
    exact ⟨lev, m1, m2, by simp⟩

omit [LinearOrder K] in
theorem recIns_lev {junk : Option Nat} {leaf : Nat} : ∀ (d : Nat) {t t' : Tree K V N M} {a : Nat} {sp : Option (K × Nat)}
    {lev : Nat → Nat}, Lev t lev → IsAt t lev (d + 1) a → leaf < t.leaves.length → recIns junk leaf d t a = .ok (t', sp) →
    ∃ lev', Lev t' lev' ∧ Grow t t' lev lev' ∧ ∀ sep r, sp = some (sep, r) → IsAt t' lev' (d + 1) r := by
  intro d
  induction d with
  | zero =>
    intro t t' a sp lev hl ha hlt h
    rw [recIns] at h
    obtain ⟨l, _, h⟩ := Res.bind_eq_ok.1 h
    obtain ⟨key, _, h⟩ := Res.bind_eq_ok.1 h
    exact recAdd_lev hl ha hlt h
  | succ d ih =>
    intro t t' a sp lev hl ha hlt h
    rw [recIns] at h
    obtain ⟨b, hb, h⟩ := Res.bind_eq_ok.1 h
    obtain ⟨n, _, h⟩ := Res.bind_eq_ok.1 h
    obtain ⟨c, hc, h⟩ := Res.bind_eq_ok.1 h
    obtain ⟨⟨t1, sp1⟩, h1, h⟩ := Res.bind_eq_ok.1 h
    obtain ⟨d', hd', hkids⟩ := hl.kids a b (branch_eq_ok hb)
    obtain rfl : d' = d + 1 := by have := ha.2; omega
    obtain ⟨lev1, g1, g2, g3⟩ := ih hl (hkids _ c (rd_eq_ok hc)) hlt h1
    cases sp1 with
    | none =>
      obtain ⟨rfl, rfl⟩ := Prod.mk.inj (Res.ok.inj h)
      exact ⟨lev1, g1, g2, by simp⟩
    | some sr =>
      obtain ⟨sep, r⟩ := sr
      dsimp only at h
      obtain ⟨lev2, k1, k2, k3⟩ := recAdd_lev g1 (ha.grow g2) (g3 sep r rfl) h
      exact ⟨lev2, k1, g2.trans k2, k3⟩

omit [LinearOrder K] in
theorem recoveryInsert_lev {junk : Option Nat} {t t' : Tree K V N M} {leaf : Nat} (ht : TLev t) (hlt : leaf < t.leaves.length)
    (h : recoveryInsert junk t leaf = .ok t') : TLev t' ∧ t.leaves.length ≤ t'.leaves.length := by
  obtain ⟨lev, h1, h2⟩ := ht
  unfold recoveryInsert at h
  split at h
  · rename_i hd
    obtain ⟨d, hd'⟩ : ∃ d, t.depth = d + 1 := ⟨t.depth - 1, by omega⟩
    obtain ⟨⟨t1, sp⟩, e1, e⟩ := Res.bind_eq_ok.1 h
    rw [hd', Nat.add_sub_cancel] at e1
    rw [hd'] at h2 e
    obtain ⟨lev1, g1, g2, g3⟩ := recIns_lev d h1 h2 hlt e1
    cases sp with
    | none =>
      have := Res.ok.inj e
      subst this
      refine ⟨⟨lev1, g1, ?_⟩, g2.llen⟩
      rw [g2.depth, g2.root, hd']
      exact h2.grow g2
    | some sr =>
      obtain ⟨sep, r⟩ := sr
      dsimp only at e
      obtain ⟨keys, _, e⟩ := Res.bind_eq_ok.1 e
      obtain ⟨kids, hk, e⟩ := Res.bind_eq_ok.1 e
      obtain ⟨kids2, hk2, e⟩ := Res.bind_eq_ok.1 e
      obtain ⟨bits, _, e⟩ := Res.bind_eq_ok.1 e
      obtain ⟨slot, _, e⟩ := Res.bind_eq_ok.1 e
      obtain ⟨slot2, _, e⟩ := Res.bind_eq_ok.1 e
      have := Res.ok.inj e
      subst this
      have hk3 : ∀ j c, kids2 j = some c → IsAt t1 lev1 (d + 1) c := by
        intro j c hc
        rw [wr_eq_ok hk2, wr_eq_ok hk] at hc
        dsimp only at hc
        split at hc
        · rw [← Option.some.inj hc]; exact g3 sep r rfl
        · split at hc
          · rw [← Option.some.inj hc]; exact h2.grow g2
          · exact absurd hc (by simp [Branch.fresh, Slots.none])
      obtain ⟨m1, m2⟩ := g1.push (d + 1) ⟨slot2, bits, keys, kids2⟩ hk3 (by
        intro hN
        rw [wr_eq_ok hk2, wr_eq_ok hk]
        dsimp only
        split
        · exact ⟨r, rfl⟩
        · exact ⟨t.root, by simp⟩)
      refine ⟨⟨fun x => if x = t1.branches.length then d + 2 else lev1 x, ⟨?_, m1.zero⟩, ?_, ?_⟩, g2.llen⟩
      · intro a b hab
        obtain ⟨d, q1, q2⟩ := m1.kids a b hab
        refine ⟨d, q1, fun j c hc => ?_⟩
        have := q2 j c hc
        cases d with
        | zero => exact this
        | succ d => exact this
      · show t1.branches.length < (t1.branches ++ _).length
        simp
      · simp
  · exact absurd h (by simp)

omit [LinearOrder K] in
theorem recAdd_keep {junk : Option Nat} {t t' : Tree K V N M} {a c : Nat} {key : K} {sp : Option (K × Nat)}
    (h : recAdd junk t a key c = .ok (t', sp)) : t'.leaves = t.leaves ∧ t'.next = t.next := by
  unfold recAdd at h
  obtain ⟨b, _, h⟩ := Res.bind_eq_ok.1 h
  obtain ⟨n, _, h⟩ := Res.bind_eq_ok.1 h
  split at h
  · obtain ⟨sib, _, h⟩ := Res.bind_eq_ok.1 h
    obtain ⟨rfl, rfl⟩ := Prod.mk.inj (Res.ok.inj h)
    exact ⟨rfl, rfl⟩
  · obtain ⟨b', _, h⟩ := Res.bind_eq_ok.1 h
    obtain ⟨rfl, rfl⟩ := Prod.mk.inj (Res.ok.inj h)
    exact ⟨rfl, rfl⟩

omit [LinearOrder K] in
theorem recIns_keep {junk : Option Nat} {leaf : Nat} : ∀ (d : Nat) {t t' : Tree K V N M} {a : Nat} {sp : Option (K × Nat)},
    recIns junk leaf d t a = .ok (t', sp) → t'.leaves = t.leaves ∧ t'.next = t.next := by
  intro d
  induction d with
  | zero =>
    intro t t' a sp h
    rw [recIns] at h
    obtain ⟨l, _, h⟩ := Res.bind_eq_ok.1 h
    obtain ⟨key, _, h⟩ := Res.bind_eq_ok.1 h
    exact recAdd_keep h
  | succ d ih =>
    intro t t' a sp h
    rw [recIns] at h
    obtain ⟨b, _, h⟩ := Res.bind_eq_ok.1 h
    obtain ⟨n, _, h⟩ := Res.bind_eq_ok.1 h
    obtain ⟨c, _, h⟩ := Res.bind_eq_ok.1 h
    obtain ⟨⟨t1, sp1⟩, h1, h⟩ := Res.bind_eq_ok.1 h
    have g := ih h1
    cases sp1 with
    | none =>
      obtain ⟨rfl, rfl⟩ := Prod.mk.inj (Res.ok.inj h)
      exact g
    | some sr =>
      have g2 := recAdd_keep h
      exact ⟨g2.1.trans g.1, g2.2.trans g.2⟩

omit [LinearOrder K] in
theorem recoveryInsert_keep {junk : Option Nat} {t t' : Tree K V N M} {leaf : Nat}
    (h : recoveryInsert junk t leaf = .ok t') : t'.leaves = t.leaves ∧ t'.next = t.next := by
  unfold recoveryInsert at h
  split at h
  · obtain ⟨⟨t1, sp⟩, e1, e⟩ := Res.bind_eq_ok.1 h
    have g := recIns_keep _ e1
    cases sp with
    | none =>
      have := Res.ok.inj e
      subst this
      exact g
    | some sr =>
      obtain ⟨sep, r⟩ := sr
      dsimp only at e
      obtain ⟨keys, _, e⟩ := Res.bind_eq_ok.1 e
      obtain ⟨kids, hk, e⟩ := Res.bind_eq_ok.1 e
      obtain ⟨kids2, hk2, e⟩ := Res.bind_eq_ok.1 e
      obtain ⟨bits, _, e⟩ := Res.bind_eq_ok.1 e
      obtain ⟨slot, _, e⟩ := Res.bind_eq_ok.1 e
      obtain ⟨slot2, _, e⟩ := Res.bind_eq_ok.1 e
      have := Res.ok.inj e
      subst this
      exact g
  · exact absurd h (by simp)

omit [LinearOrder K] in
theorem leaf_lt {t : Tree K V N M} {a : Nat} {l : Leaf K V M} (h : t.leaf a = .ok l) : a < t.leaves.length := by
  unfold Tree.leaf at h
  cases hl : t.leaves[a]? with
  | none => rw [hl] at h; exact absurd h (by simp [Res.ofOption])
  | some y => exact (List.getElem?_eq_some_iff.1 hl).1

omit [LinearOrder K] in
theorem recLoop_lev {junk : Option Nat} : ∀ (n : Nat) {t t' : Tree K V N M} {o : Option Nat}, TLev t →
    recLoop junk n t o = .ok t' → TLev t' := by
  intro n
  induction n with
  | zero =>
    intro t t' o ht h
    cases o with
    | none => rw [recLoop] at h; rw [← Res.ok.inj h]; exact ht
    | some a => rw [recLoop] at h; exact absurd h (by simp)
  | succ n ih =>
    intro t t' o ht h
    cases o with
    | none => rw [recLoop] at h; rw [← Res.ok.inj h]; exact ht
    | some a =>
      rw [recLoop] at h
      obtain ⟨t1, h1, h⟩ := Res.bind_eq_ok.1 h
      obtain ⟨l, hl, h⟩ := Res.bind_eq_ok.1 h
      have hlt := leaf_lt hl
      rw [(recoveryInsert_keep h1).1] at hlt
      exact ih (recoveryInsert_lev ht hlt h1).1 h

omit [LinearOrder K] in
/-- Every child of a recovered tree is one level below. -/
theorem recover_lev {dbg : Bool} {junk : Option Nat} {t t' : Tree K V N M} (h0 : 0 < t.leaves.length)
    (h : recover dbg junk t = .ok t') : TLev t' := by
  unfold recover at h
  obtain ⟨c, _, h⟩ := Res.bind_eq_ok.1 h
  split at h
  · exact absurd h (by simp)
  · split at h
    · rw [← Res.ok.inj h]
      exact ⟨fun _ => 0, ⟨fun a b hb => by simp at hb, fun _ a b hb => by simp at hb⟩, h0⟩
    · dsimp only at h
      obtain ⟨kids, hk, h⟩ := Res.bind_eq_ok.1 h
      refine recLoop_lev _ ?_ h
      refine ⟨fun _ => 1, ⟨?_, ?_⟩, ?_⟩
      · intro a b hb
        have hba : a = 0 ∧ b.kids = kids := by
          cases a with
          | zero => exact ⟨rfl, by rw [← Option.some.inj hb]⟩
          | succ a => simp at hb
        refine ⟨0, rfl, fun j x hx => ?_⟩
        rw [hba.2, wr_eq_ok hk] at hx
        dsimp only at hx
        split at hx
        · rw [← Option.some.inj hx]; exact h0
        · exact absurd hx (by simp [Branch.fresh, Slots.none])
      · intro _ a b hb
        have hba : a = 0 ∧ b.kids = kids := by
          cases a with
          | zero => exact ⟨rfl, by rw [← Option.some.inj hb]⟩
          | succ a => simp at hb
        exact ⟨0, by rw [hba.2, wr_eq_ok hk]; simp⟩
      · exact ⟨by simp, rfl⟩

end Verif.WBTree
