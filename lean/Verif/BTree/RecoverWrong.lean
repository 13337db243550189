import Verif.BTree.RecoverFill

/-!
# Erases from a recovered FPTree that go wrong

A node on the right spine of a recovered tree may have no separator at all (its key array has never been written), or just one.
The first erase that reaches such a node reads the unwritten key (`balanceBranchNodes`), or removes the root although the node is
not the root.
-/

set_option linter.unusedSectionVars false

namespace Verif.BTree

open Verif Assoc
open Verif.Slots hiding none

variable {K V L T α : Type} [LinearOrder K] {o : Ops K V L} {W : Laws o} {Q : L → Bd K → Bd K → Prop} {lm bm : Nat}

theorem lookupPos_zero (W : Laws o) {n : BNode K T} (hn : n.num = 0) (k : K) : lookupPos o n k = .ok 0 := by
  unfold lookupPos
  rw [hn]
  exact W.search n.keys [] [] k (Rep.nil _) (by simp) (by simp) (by simp) (by simp)

/-- There is no sibling to balance or merge with. -/
theorem underflowBranch_zero {n : BNode K (BNode K T)} (hn : n.num = 0) (child : BNode K T) :
    underflowBranch o n 0 child = .assertFail := by
  unfold underflowBranch
  have h1 : childNum o (0 > 0) n (0 - 1) = .ok 0 := by unfold childNum; rw [if_neg (by omega)]
  have h2 : childNum o (0 < n.num) n (0 + 1) = .ok 0 := by unfold childNum; rw [if_neg (by omega)]
  rw [h1, Res.ok_bind, if_neg (by omega), h2, Res.ok_bind, if_neg (by omega), if_neg (by omega), if_neg (by omega)]

theorem underflowLeaf_zero {h : Heap L} {n : BNode K Nat} (hn : n.num = 0) (id : Nat) :
    underflowLeaf o h n 0 id = .assertFail := by
  unfold underflowLeaf
  have h1 : leftSib o h 0 id = .ok (0, 0) := by unfold leftSib; rw [if_neg (by omega)]
  have h2 : rightSib o h n.num 0 id = .ok (0, 0) := by unfold rightSib; rw [if_neg (by omega)]
  rw [Res.assert_pos (by omega), Res.ok_bind, h1, Res.ok_bind, if_neg (by simp), h2, Res.ok_bind, if_neg (by omega),
    if_neg (by omega), if_neg (by omega)]

/-- An erase does not give a node without separators any separator. -/
theorem zero_node (W : Laws o) (k : K) : ∀ (d : Nat) (b : Bool) (h : Heap L) (n : BNode K (Tree K d))
    (r : EOut L (BNode K (Tree K d)) (Tree K d)), n.num = 0 → eraseB o d b h n k = .ok r →
    r.node.num = 0 ∧ r.node.keys = n.keys
  | 0, b, h, n, r, hn, e => by
    rw [eraseB, eraseB0, lookupPos_zero W hn, Res.ok_bind] at e
    obtain ⟨id, _, e⟩ := Res.bind_eq_ok.1 e
    obtain ⟨q, _, e⟩ := Res.bind_eq_ok.1 e
    obtain ⟨l, _, e⟩ := Res.bind_eq_ok.1 e
    split at e
    · rw [underflowLeaf_zero hn] at e; cases e
    · cases Res.ok.inj e; exact ⟨hn, rfl⟩
  | d + 1, b, h, n, r, hn, e => by
    rw [eraseB, lookupPos_zero W hn, Res.ok_bind] at e
    obtain ⟨c, _, e⟩ := Res.bind_eq_ok.1 e
    obtain ⟨q, _, e⟩ := Res.bind_eq_ok.1 e
    obtain ⟨_, _, e⟩ := Res.bind_eq_ok.1 e
    obtain ⟨kids, _, e⟩ := Res.bind_eq_ok.1 e
    dsimp only at e
    rw [lookupPos_zero W (n := { n with kids := kids }) hn, Res.ok_bind] at e
    split at e
    · rw [underflowBranch_zero (n := { n with kids := kids }) hn] at e; cases e
    · cases Res.ok.inj e; exact ⟨hn, rfl⟩

/-- The child the search for a key of the last leaf descends to is the last one. -/
theorem last_child {d : Nat} {n : BNode K (Tree K d)} {m : Nat} (hs : Sh o.N (d + 1) n m) {cs c1 c2 : List (Tree K d)} {c : Tree K d}
    {ks : List K} (hr : NodeRep o.N n cs ks) (hc : cs = c1 ++ c :: c2) (hnd : (ids (d + 1) n).Nodup) {x : Nat}
    (hx : (ids (d + 1) n).getLast? = some x) (hxc : x ∈ ids d c) :
    c2 = [] ∧ (∀ z ∈ c1, Sh o.N d z ((o.N + 1) ^ d)) ∧ (ks = [] → n.keys 0 = none) ∧
      ∃ m', Sh o.N d c m' ∧ m = c1.length * (o.N + 1) ^ d + m' ∧ (ids d c).Nodup ∧ (ids d c).getLast? = some x := by
  obtain ⟨cs', c', ks', m', hr', hz, hcs, hc', hm⟩ := hs
  have hke : ks = ks' := rep_unique hr.keys hr'.keys (by rw [← hr.num, ← hr'.num])
  have hce : cs = cs' ++ [c'] := rep_unique hr.kids hr'.kids (by rw [hr.len, hr'.len, hke])
  rw [ids_rep hr', List.flatMap_append] at hnd hx
  simp only [List.flatMap_cons, List.flatMap_nil, List.append_nil] at hnd hx
  have hne : ids d c' ≠ [] := by
    intro h0
    have h1 := hc'.length
    have h2 := hc'.bound
    rw [h0, List.length_nil] at h1
    omega
  have hx' : (ids d c').getLast? = some x := by
    rw [List.getLast?_append] at hx
    cases hg : (ids d c').getLast? with
    | none => exact absurd (List.getLast?_eq_none_iff.1 hg) hne
    | some y => rw [hg] at hx; exact hx
  have hmem : x ∈ ids d c' := List.mem_of_getLast? hx'
  rcases List.eq_nil_or_concat c2 with h2 | ⟨c3, z, h2⟩
  · subst h2
    rw [hc] at hce
    obtain ⟨e1, e2⟩ := List.append_inj' hce rfl
    cases List.singleton_inj.1 e2
    subst e1
    exact ⟨rfl, hcs, fun h => hz (hke ▸ h), m', hc', hm, (List.nodup_append.1 hnd).2.1, hx'⟩
  · exfalso
    rw [List.concat_eq_append] at h2
    rw [hc, h2, ← List.cons_append, ← List.append_assoc] at hce
    obtain ⟨e1, e2⟩ := List.append_inj' hce rfl
    have hcm : c ∈ cs' := by rw [← e1]; simp
    exact (List.nodup_append.1 hnd).2.2 x (List.mem_flatMap.2 ⟨c, hcm, hxc⟩) x hmem rfl

theorem full_num {N d : Nat} {n : BNode K (Tree K d)} (h : Sh N (d + 1) n ((N + 1) ^ (d + 1))) : n.num = N := by
  rw [h.num]
  have h1 := digit_full (N := N) (i := d) (d := d + 1) (by omega)
  rw [Nat.mod_eq_of_lt] at h1
  · exact h1
  · have e2 : (N + 1) * (N + 1) ^ d = (N + 1) ^ (d + 1) := Nat.pow_succ'.symm
    have hp : 0 < (N + 1) ^ (d + 1) := Nat.pow_pos (by omega)
    rw [Nat.div_lt_iff_lt_mul (Nat.pow_pos (by omega)), e2]
    omega

/-- A node without separators has nothing to balance: its first key is read although it has never been written. -/
theorem underflowBranch_unwritten (hN : 2 ≤ o.N) {n : BNode K (BNode K T)} {c1 : List (BNode K T)} {c : BNode K T} {ks : List K}
    (hr : NodeRep o.N n (c1 ++ [c]) ks) (hfull : ∀ z ∈ c1, z.num = o.N) (hk : c.keys 0 = none) (r) :
    underflowBranch o n c1.length c ≠ .ok r := by
  have hl := hr.len
  have hcap := hr.cap
  simp only [List.length_append, List.length_singleton] at hl
  intro e
  rcases List.eq_nil_or_concat c1 with h1 | ⟨c3, z, h1⟩
  · subst h1
    rw [List.length_nil, underflowBranch_zero (by rw [hr.num]; simp only [List.length_nil] at hl; omega)] at e
    cases e
  · rw [List.concat_eq_append] at h1
    subst h1
    have hz : z.num = o.N := hfull z (by simp)
    simp only [List.length_append, List.length_singleton] at hl e
    have hrd : rd (o.N + 1) n.kids (c3.length + 1 - 1) = .ok z := by
      have := hr.kids
      rw [List.append_assoc, List.singleton_append] at this
      exact rd_mid this (by omega)
    unfold underflowBranch at e
    rw [childNum, if_pos (by omega), hrd, Res.ok_bind, Res.pure_eq, Res.ok_bind, if_pos ⟨by omega, by rw [hz]; omega⟩, Res.ok_bind] at e
    obtain ⟨pk, _, e⟩ := Res.bind_eq_ok.1 e
    obtain ⟨_, _, e⟩ := Res.bind_eq_ok.1 e
    obtain ⟨bal, e1, e⟩ := Res.bind_eq_ok.1 e
    unfold balanceBranch at e1
    obtain ⟨_, ha, e1⟩ := Res.bind_eq_ok.1 e1
    dsimp only at e1
    have hlt : c.num < z.num := by
      by_contra hc
      unfold Res.assert at ha
      rw [if_neg hc] at ha
      cases ha
    rw [if_neg (by omega)] at e1
    obtain ⟨dk, _, e1⟩ := Res.bind_eq_ok.1 e1
    obtain ⟨rk, e2, e1⟩ := Res.bind_eq_ok.1 e1
    unfold rd at e2
    rw [if_pos (by omega), hk] at e2
    cases e2

/-- If a node below the root on the right spine has no separators, no erase that reaches the last leaf comes to an end in the
defined way. -/
theorem zero_digit (hN : 2 ≤ o.N) (k : K) {h : Heap L} {x : Nat} : ∀ (d : Nat) (b : Bool) (n : BNode K (Tree K d)) (top m : Nat) (lo hi : Bd K),
    Bt W Q lm bm h (d + 1) top n lo hi → InR lo hi k → Sh o.N (d + 1) n m → (ids (d + 1) n).Nodup →
    (ids (d + 1) n).getLast? = some x → findLeaf o (d + 1) n k = .ok x →
    (∃ j, j < d ∧ (m - 1) / (o.N + 1) ^ j % (o.N + 1) = 0) → ∀ r, eraseB o d b h n k ≠ .ok r
  | 0, b, n, top, m, lo, hi, hb, hk, hs, hnd, hx, hf, hj, r => by obtain ⟨j, hj, _⟩ := hj; omega
  | d + 1, b, n, top, m, lo, hi, hb, hk, hs, hnd, hx, hf, hj, r => by
    intro e
    obtain ⟨cs, ks, hr, htop, ht⟩ := hb
    obtain ⟨hks, _, _⟩ := keys_sorted (fun c a b hc => Bt.lt hc) ht
    obtain ⟨c1, c, c2, k1, k2, b1, lo', hi', b2, f⟩ := exists_focus W (fun c a b hc => Bt.lt hc) ht hk
    rw [findLeaf, f.lookupPos hr hks, Res.ok_bind, f.rdKid hr, Res.ok_bind] at hf
    obtain ⟨id, l, pre, post, u, w, e1, hids, _⟩ := findLeaf_spec k (d + 1) _ c lo' hi' f.pc f.inR
    rw [hf] at e1
    have e1 := Res.ok.inj e1
    subst e1
    obtain ⟨hc2, hfull, hz, m', hsc, hm, hndc, hxc⟩ := last_child hs hr f.hcs hnd hx (by rw [hids]; simp)
    rw [eraseB, f.lookupPos hr hks, Res.ok_bind, f.rdKid hr, Res.ok_bind] at e
    obtain ⟨r1, er, e⟩ := Res.bind_eq_ok.1 e
    obtain ⟨j, hjd, hj⟩ := hj
    have hb1 := hsc.bound
    rw [hm, show c1.length * (o.N + 1) ^ (d + 1) + m' - 1 = c1.length * (o.N + 1) ^ (d + 1) + (m' - 1) by omega,
      digit_add (by omega) (by omega)] at hj
    by_cases hjd' : j < d
    · exact zero_digit hN k d false c _ m' lo' hi' f.pc f.inR hsc hndc hxc hf ⟨j, hjd', hj⟩ r1 er
    · have hjj : j = d := by omega
      subst hjj
      have hnum : c.num = 0 := by
        rw [hsc.num]
        rw [Nat.mod_eq_of_lt] at hj
        · exact hj
        · have e2 : (o.N + 1) * (o.N + 1) ^ j = (o.N + 1) ^ (j + 1) := Nat.pow_succ'.symm
          rw [Nat.div_lt_iff_lt_mul (Nat.pow_pos (by omega)), e2]
          omega
      have hkc : c.keys 0 = none := by
        obtain ⟨cs', c', ks', m2, hr', hz', _⟩ := hsc
        exact hz' (List.eq_nil_of_length_eq_zero (by rw [← hr'.num, hnum]))
      obtain ⟨hn1, hk1⟩ := zero_node W k j false h c r1 hnum er
      obtain ⟨_, _, e⟩ := Res.bind_eq_ok.1 e
      have hr2 := hr
      rw [f.hcs] at hr2
      obtain ⟨kids, ew, hr3⟩ := hr2.setKid r1.node
      rw [← f.l1, ew, Res.ok_bind] at e
      dsimp only at e
      rw [show lookupPos o ({ n with kids := kids } : BNode K (Tree K (j + 1))) k = lookupPos o n k from rfl, f.lookupPos hr hks,
        Res.ok_bind, if_pos (by omega), ← f.l1] at e
      obtain ⟨u, eu, e⟩ := Res.bind_eq_ok.1 e
      subst hc2
      exact underflowBranch_unwritten hN hr3 (fun z hz => full_num (hfull z hz)) (by rw [hk1]; exact hkc) u eu

/-- If the last node above the leaves has only one separator and is not the root, no erase that makes the last leaf underflow comes
to an end in the defined way, unless the leaf before it can give entries. -/
theorem one_digit (k : K) {h : Heap L} {x p : Nat} {lx lp l' : L} {bo : Bool} (hdx : h.data x = some lx)
    (hex : o.erase lx k = .ok (bo, l')) (hux : o.num l' < (o.M + 1) / 2) (hpx : h.prev x = some p) (hne : p ≠ x)
    (hdp : h.data p = some lp) (hup : o.num lp ≤ (o.M + 1) / 2) :
    ∀ (d : Nat) (b : Bool) (n : BNode K (Tree K d)) (top m : Nat) (lo hi : Bd K),
    Bt W Q lm bm h (d + 1) top n lo hi → InR lo hi k → Sh o.N (d + 1) n m → (ids (d + 1) n).Nodup →
    (ids (d + 1) n).getLast? = some x → findLeaf o (d + 1) n k = .ok x → (m - 1) % (o.N + 1) = 1 →
    ∀ r, eraseB o d b h n k = .ok r → d = 0 ∧ r.newRoot.isSome
  | 0, b, n, top, m, lo, hi, hb, hk, hs, hnd, hx, hf, hj, r => by
    intro e
    obtain ⟨cs, ks, hr, htop, ht⟩ := hb
    obtain ⟨hks, _, _⟩ := keys_sorted (fun c a b hc => Bt.lt hc) ht
    obtain ⟨c1, c, c2, k1, k2, b1, lo', hi', b2, f⟩ := exists_focus W (fun c a b hc => Bt.lt hc) ht hk
    rw [findLeaf, f.lookupPos hr hks, Res.ok_bind, f.rdKid hr, Res.ok_bind] at hf
    have hcx : c = x := Res.ok.inj hf
    subst hcx
    obtain ⟨hc2, _⟩ := last_child hs hr f.hcs hnd hx (by simp [ids])
    have hnum : n.num = 1 := by
      have h1 := hs.num
      have h2 := hs.bound
      rw [pow_zero, Nat.div_one] at h1
      rw [pow_one] at h2
      rw [Nat.mod_eq_of_lt (by omega)] at hj
      omega
    have hl1 : k1.length = 1 := by
      have h1 := hr.len
      rw [f.hcs, hc2, ← hr.num, hnum] at h1
      simp only [List.length_append, List.length_singleton] at h1
      rw [← f.l1]; omega
    rw [eraseB, eraseB0, f.lookupPos hr hks, Res.ok_bind, f.rdKid hr, Res.ok_bind, eraseLeaf, Heap.get, hdx, Res.ofOption_some,
      Res.ok_bind, hex, Res.ok_bind, Res.pure_eq, Res.ok_bind] at e
    dsimp only at e
    rw [Heap.get, show (h.set c l').data c = some l' by simp [Heap.set, upd], Res.ofOption_some, Res.ok_bind, if_pos hux, hl1] at e
    obtain ⟨u, eu, e⟩ := Res.bind_eq_ok.1 e
    cases Res.ok.inj e
    refine ⟨rfl, ?_⟩
    unfold underflowLeaf at eu
    obtain ⟨_, _, eu⟩ := Res.bind_eq_ok.1 eu
    have hls : leftSib o (h.set c l') 1 c = .ok (p, o.num lp) := by
      unfold leftSib
      rw [if_pos (by omega), show (h.set c l').prev c = some p from hpx, Res.ofOption_some, Res.ok_bind, Heap.get,
        show (h.set c l').data p = some lp by simp [Heap.set, upd, hne, hdp], Res.ofOption_some, Res.ok_bind]
      rfl
    have hrs : rightSib o (h.set c l') n.num 1 c = .ok (0, 0) := by
      unfold rightSib; rw [if_neg (by omega)]
    rw [hls, Res.ok_bind, if_neg (by simp; omega), hrs, Res.ok_bind, if_neg (by omega), if_pos ⟨by omega, hup⟩] at eu
    obtain ⟨h2, _, eu⟩ := Res.bind_eq_ok.1 eu
    unfold dropChild at eu
    rw [if_neg (by omega)] at eu
    cases Res.ok.inj eu
    rfl
  | d + 1, b, n, top, m, lo, hi, hb, hk, hs, hnd, hx, hf, hj, r => by
    intro e
    exfalso
    obtain ⟨cs, ks, hr, htop, ht⟩ := hb
    obtain ⟨hks, _, _⟩ := keys_sorted (fun c a b hc => Bt.lt hc) ht
    obtain ⟨c1, c, c2, k1, k2, b1, lo', hi', b2, f⟩ := exists_focus W (fun c a b hc => Bt.lt hc) ht hk
    rw [findLeaf, f.lookupPos hr hks, Res.ok_bind, f.rdKid hr, Res.ok_bind] at hf
    obtain ⟨id, l, pre, post, u, w, e1, hids, _⟩ := findLeaf_spec k (d + 1) _ c lo' hi' f.pc f.inR
    rw [hf] at e1
    have e1 := Res.ok.inj e1
    subst e1
    obtain ⟨hc2, hfull, hz, m', hsc, hm, hndc, hxc⟩ := last_child hs hr f.hcs hnd hx (by rw [hids]; simp)
    rw [eraseB, f.lookupPos hr hks, Res.ok_bind, f.rdKid hr, Res.ok_bind] at e
    obtain ⟨r1, er, e⟩ := Res.bind_eq_ok.1 e
    have hb1 := hsc.bound
    have hj' : (m' - 1) % (o.N + 1) = 1 := by
      have h0 := digit_add (b := o.N + 1) (i := 0) (d := d + 1) (a := c1.length) (m := m' - 1) (by omega) (by omega)
      rw [pow_zero, Nat.div_one, Nat.div_one] at h0
      rw [← h0, show c1.length * (o.N + 1) ^ (d + 1) + (m' - 1) = m - 1 by omega]
      exact hj
    obtain ⟨_, h2⟩ := one_digit k hdx hex hux hpx hne hdp hup d false c _ m' lo' hi' f.pc f.inR hsc hndc hxc hf hj' r1 er
    obtain ⟨_, hg, e⟩ := Res.bind_eq_ok.1 e
    unfold Res.guardUB at hg
    rw [if_neg (by cases hq : r1.newRoot <;> simp_all)] at hg
    cases hg

end Verif.BTree
