import Verif.BitTree.Erase
import Verif.BitTree.Hist

/-!
# Erase as long as no underflow is handled
-/

set_option linter.unusedSectionVars false

namespace Verif.BitTree

open Verif Search FPTree BTree

variable {K V : Type} {M : Nat} [LinearOrder K] [Inhabited K] {c : Cfg K V} {adm : K → Prop}

/-- Contents after erasing `k`. -/
def Del (P : K → V → Prop) (k : K) (x : K) (y : V) : Prop := x ≠ k ∧ P x y

theorem leaf_erase_law {l : Leaf M K V} (hl : LOk l) (k : K) :
    ∃ l' r, l.erase k = .ok (l', r) ∧ LOk l' ∧ (r = true ↔ ∃ v, Has l k v) ∧
      ∀ x y, Has l' x y ↔ Del (Has l) k x y := by
  obtain ⟨p, e, hp⟩ := pos_spec l k
  unfold Leaf.erase
  rw [e, Res.ok_bind]
  rcases hp with ⟨h1, h2, h3⟩ | ⟨h1, hno⟩
  · obtain ⟨b, eb, hb, hcl⟩ := set_bit' (b := l.bits) h1 false
    rw [if_pos h1, Bitmap.reset_eq_set, eb, Res.ok_bind]
    refine ⟨_, _, rfl, ⟨hcl hl.clean, fun i j hi hj hbi hbj he => ?_⟩, ?_, fun x y => ?_⟩
    · have aux : ∀ i, i < M → Bitmap.bit b i = true → Bitmap.bit l.bits i = true := by
        intro i hi h
        rw [hb i hi] at h
        split at h
        · cases h
        · exact h
      exact hl.inj i j hi hj (aux i hi hbi) (aux j hj hbj) he
    · exact ⟨fun _ => ⟨l.vals p, p, h1, h2, h3, rfl⟩, fun _ => rfl⟩
    · constructor
      · rintro ⟨q, hq, hbq, hk, hv⟩
        have hbq : Bitmap.bit b q = true := hbq
        rw [hb q hq] at hbq
        split at hbq
        · cases hbq
        · rename_i hne
          refine ⟨?_, q, hq, hbq, hk, hv⟩
          rintro rfl
          exact hne (hl.inj q p hq h1 hbq h2 (hk.trans h3.symm))
      · rintro ⟨hne, q, hq, hbq, hk, hv⟩
        refine ⟨q, hq, ?_, hk, hv⟩
        show Bitmap.bit b q = true
        rw [hb q hq, if_neg, hbq]
        rintro rfl
        exact hne (hk.symm.trans h3)
  · rw [if_neg (by omega)]
    refine ⟨_, _, rfl, hl, ⟨fun h => Bool.noConfusion h, fun ⟨v, h⟩ => absurd h (hno v)⟩, fun x y => ?_⟩
    exact ⟨fun h => ⟨by rintro rfl; exact hno y h, h⟩, fun h => h.2⟩

theorem deref_nil {h : Heap M K V} {i : Nat} {x : Cell M K V} (hx : h[i]? = some x) :
    deref h [] (some i) = .ok (i, x) := by
  unfold deref
  simp only [Res.ofOption_some, Res.ok_bind, List.not_mem_nil, if_false, hx, Res.pure_eq]

theorem eraseLeaf_law {h : Heap M K V} {id : Nat} {R : K → Prop} (k : K) (ho : Ok (N := c.N) h 0 id R) :
    ∃ h' r u, eraseAt c 0 h [] id k = .ok (h', r, u) ∧ Ok (N := c.N) h' 0 id R ∧
      (∀ i, i ∉ fp (N := c.N) (K := K) 0 id → core h' i = core h i) ∧
      h'.length = h.length ∧ (∀ i : Nat, (h'[i]?).map Cell.next = (h[i]?).map Cell.next) ∧
      (r = true ↔ ∃ v, hasT (N := c.N) h 0 id k v) ∧ ∀ x y, hasT (N := c.N) h' 0 id x y ↔ Del (hasT (N := c.N) h 0 id) k x y := by
    obtain ⟨x, h1, h2, h3⟩ := ho
    have h1 : h[id]? = some x := h1
    obtain ⟨hid, hx⟩ := List.getElem?_eq_some_iff.1 h1
    obtain ⟨l, r, e, g1, g2, g3⟩ := leaf_erase_law h2 k
    have hc : core (h.set id { x with leaf := l }) id = some l := by
      unfold core
      rw [List.getElem?_set_self hid]; rfl
    have hc0 : core h id = some x.leaf := core_some.2 ⟨x, h1, rfl⟩
    refine ⟨h.set id { x with leaf := l }, r, decide (l.bits.count < middle M), ?_, ?_, fun i hi => ?_, by simp,
      fun i => ?_, ?_, fun a b => ?_⟩
    · show (deref h [] (some id) >>= fun q => q.2.leaf.erase k >>= fun z =>
        Res.ok (h.set q.1 { q.2 with leaf := z.1 }, z.2, decide (z.1.bits.count < middle M))) = _
      rw [deref_nil h1, Res.ok_bind]
      show (x.leaf.erase k >>= _) = _
      rw [e]
      rfl
    · exact ok_zero.2 ⟨l, hc, g1, fun a b hab => h3 a b ((g3 a b).1 hab).2⟩
    · unfold core
      rw [List.getElem?_set_ne]
      rintro rfl
      exact hi rfl
    · rw [List.getElem?_set]
      split
      · rename_i he
        subst he
        rw [h1]; simp
      · rfl
    · rw [g2]
      exact exists_congr fun v => ⟨fun hv => hasT_zero.2 ⟨_, hc0, hv⟩, fun hv => by
        obtain ⟨l0, e0, hv⟩ := hasT_zero.1 hv
        rw [hc0] at e0; cases e0; exact hv⟩
    · refine hasT_zero.trans ⟨?_, ?_⟩
      · rintro ⟨l0, e0, hv⟩
        rw [hc] at e0; cases e0
        obtain ⟨n1, n2⟩ := (g3 a b).1 hv
        exact ⟨n1, hasT_zero.2 ⟨_, hc0, n2⟩⟩
      · rintro ⟨n1, n2⟩
        obtain ⟨l0, e0, hv⟩ := hasT_zero.1 n2
        rw [hc0] at e0; cases e0
        exact ⟨l, hc, (g3 a b).2 ⟨n1, hv⟩⟩

theorem eraseAt_law (F : Laws c adm) {h : Heap M K V} : ∀ (d : Nat) (t : Tree c.N K d) (R : K → Prop) (k : K),
    (∀ k, R k → adm k) → Ok h d t R → R k →
    ∃ h' r u, eraseAt c d h [] t k = .ok (h', r, u) ∧ Ok h' d t R ∧ (∀ i, i ∉ fp d t → core h' i = core h i) ∧
      h'.length = h.length ∧ (∀ i : Nat, (h'[i]?).map Cell.next = (h[i]?).map Cell.next) ∧
      (r = true ↔ ∃ v, hasT h d t k v) ∧ ∀ x y, hasT h' d t x y ↔ Del (hasT h d t) k x y
  | 0, id, R, k, hR, ho, hk => eraseLeaf_law k ho
  | d + 1, b, R, k, hR, ho, hk => by
    obtain ⟨p, e, hp, hr⟩ := pos_law (lim := c.lim) (sep_max F hR ho) hk
    obtain ⟨x, hx, hox⟩ := ho.kid p hp
    obtain ⟨h', r, u, e1, g1, g2, g3, g4, g5, g6⟩ := eraseAt_law F d x (rng b R p) k (fun a ha => hR a ha.1) hox hr
    have hfr : ∀ q y, live b q → q ≠ p → b.kids q = some y → ∀ i ∈ fp d y, core h' i = core h i := by
      intro q y hq hne hy i hi
      exact g2 i fun hi' => Set.disjoint_left.1 (ho.disj q p y x hq hp hne hy hx) hi hi'
    refine ⟨h', r, u || thin c d x, ?_, ?_, fun i hi => g2 i fun hi' => hi ⟨x, ⟨p, hp, hx⟩, hi'⟩, g3, g4, ?_, fun a v => ?_⟩
    · rw [eraseAt]
      show (Branch.pos c.lim b k >>= _) = _
      rw [e, Res.ok_bind, kid_ok (live_lt hp) hx, Res.ok_bind, e1]
      rfl
    · refine ⟨ho.clean, ho.inj, ho.sep, fun q hq => ?_, ho.disj⟩
      by_cases hqp : q = p
      · subst hqp; exact ⟨x, hx, g1⟩
      · obtain ⟨y, hy, hoy⟩ := ho.kid q hq
        exact ⟨y, hy, ok_frame d y _ (hfr q y hq hqp hy) hoy⟩
    · rw [g5]
      refine exists_congr fun v => ⟨fun hv => ⟨x, ⟨p, hp, hx⟩, hv⟩, ?_⟩
      rintro ⟨y, ⟨q, hq, hy⟩, hv⟩
      obtain ⟨y', hy', hoy⟩ := ho.kid q hq
      rw [hy] at hy'; cases hy'
      have := rng_unique ho hq hp (hasT_range d y _ k v hoy hv) hr
      subst this
      rw [hy] at hx; cases hx; exact hv
    · constructor
      · rintro ⟨y, ⟨q, hq, hy⟩, hv⟩
        by_cases hqp : q = p
        · subst hqp
          rw [hy] at hx; cases hx
          obtain ⟨n1, n2⟩ := (g6 a v).1 hv
          exact ⟨n1, x, ⟨q, hq, hy⟩, n2⟩
        · have hv' := (hasT_frame d y a v (hfr q y hq hqp hy)).1 hv
          obtain ⟨y', hy', hoy⟩ := ho.kid q hq
          rw [hy] at hy'; cases hy'
          refine ⟨?_, y, ⟨q, hq, hy⟩, hv'⟩
          rintro rfl
          exact hqp (rng_unique ho hq hp (hasT_range d y _ a v hoy hv') hr)
      · rintro ⟨n1, y, ⟨q, hq, hy⟩, hv⟩
        refine ⟨y, ⟨q, hq, hy⟩, ?_⟩
        by_cases hqp : q = p
        · subst hqp
          rw [hy] at hx; cases hx
          exact (g6 a v).2 ⟨n1, hv⟩
        · exact (hasT_frame d y a v (hfr q y hq hqp hy)).2 hv

/-- The contents of a tree after a sequence of operations on a map. -/
def Op.act (P : K → V → Prop) : Op K V → K → V → Prop
  | .ins k v => Ups P k v
  | .del k => Del P k

theorem estore_lookup_law (F : Laws c adm) {t : Store c M} (ht : TOk adm t) {k : K} (hk : adm k) :
    ∃ r, (⟨t, []⟩ : EStore c M).lookup k = .ok r ∧ ∀ v, r = some v ↔ t.Has k v := by
  obtain ⟨id, x, e1, e2, e3, e4⟩ := findLeaf_law F t.depth t.root adm k (fun _ h => h) ht.ok hk
  obtain ⟨r, e5, e6⟩ := lookup_law e3 k
  refine ⟨r, ?_, fun v => (e6 v).trans (e4 v)⟩
  unfold EStore.lookup
  simp only
  rw [e1, Res.ok_bind, deref_nil e2, Res.ok_bind]
  exact e5

theorem estore_insert_law (F : Laws c adm) (hM : 2 ≤ M) (hm : c.move = false → M % 64 ≠ 0) (hN : 2 ≤ c.N)
    (hN64 : c.N % 64 ≠ 0) {t : Store c M} (ht : TOk adm t) {k : K} (hk : adm k) (v : V) :
    ∃ t', (⟨t, []⟩ : EStore c M).insert k v = .ok ⟨t', []⟩ ∧ TOk adm t' ∧ ∀ x y, t'.Has x y ↔ Ups t.Has k v x y := by
  obtain ⟨id, x, e1, e2, _⟩ := findLeaf_law F t.depth t.root adm k (fun _ h => h) ht.ok hk
  obtain ⟨t', e, h1, h2⟩ := store_insert_law F hM hm hN hN64 ht hk v
  refine ⟨t', ?_, h1, h2⟩
  unfold EStore.insert
  simp only
  rw [e1, Res.ok_bind, deref_nil e2, Res.ok_bind, e]
  rfl

theorem store_erase_law (F : Laws c adm) {t : Store c M} (ht : TOk adm t) {k : K} (hk : adm k) :
    ∃ h' r u, eraseAt c t.depth t.heap [] t.root k = .ok (h', r, u) ∧ TOk adm (⟨t.depth, t.root, h', t.first⟩ : Store c M) ∧
      (r = true ↔ ∃ v, t.Has k v) ∧ ∀ x y, (⟨t.depth, t.root, h', t.first⟩ : Store c M).Has x y ↔ Del t.Has k x y := by
  obtain ⟨h', r, u, e, g1, _, g3, g4, g5, g6⟩ := eraseAt_law F t.depth t.root adm k (fun _ h => h) ht.ok hk
  refine ⟨h', r, u, e, ⟨g1, ?_⟩, g5, g6⟩
  intro i x hx n hn
  have := g4 i
  rw [show h'[i]? = some x from hx] at this
  obtain ⟨y, hy, hyn⟩ := Option.map_eq_some_iff.1 this.symm
  have := ht.link i y hy n (hyn.trans hn)
  show n < h'.length
  omega

end Verif.BitTree
