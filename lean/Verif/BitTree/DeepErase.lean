import Verif.BitTree.DeepNode

/-!
# Erases in trees of any depth: the cases that work
-/

set_option linter.unusedSectionVars false

namespace Verif.BitTree

open Verif Search FPTree BTree

variable {K V : Type} {M N : Nat} {C : Type} [LinearOrder K] [Inhabited K] {c : Cfg K V} {adm : K → Prop} {R : K → Prop}

/-! ## Deciding the cases -/

instance {b : Branch N K C} {pos pp : Nat} : Decidable (LeftOf b pos pp) :=
  decidable_of_iff (pp < N ∧ Bitmap.bit b.bits pp = true ∧ (pos < N → b.keys pp < b.keys pos) ∧
      ∀ q, q < N → Bitmap.bit b.bits q = true → (pos < N → b.keys q < b.keys pos) → b.keys q ≤ b.keys pp)
    ⟨fun h => ⟨h.1, h.2.1, h.2.2.1, h.2.2.2⟩, fun h => ⟨h.lt, h.bit, h.key, h.max⟩⟩

instance {b : Branch N K C} {pos np : Nat} : Decidable (RightOf b pos np) :=
  decidable_of_iff ((np < N ∧ Bitmap.bit b.bits np = true ∨ np = N) ∧ (np < N → b.keys pos < b.keys np) ∧
      ∀ q, q < N → Bitmap.bit b.bits q = true → b.keys pos < b.keys q → np < N ∧ b.keys np ≤ b.keys q)
    ⟨fun h => ⟨h.1, h.2.1, h.2.2⟩, fun h => ⟨h.live, h.key, h.min⟩⟩

instance {b : Branch N K (Branch N K C)} {pos : Nat} {child : Branch N K C} : Decidable (DonorRight b pos child) :=
  decidable_of_iff (pos < N ∧ 0 < child.bits.count ∧ child.bits.count < (N + 1) / 2 ∧
      (∀ pp, pp < N → LeftOf b pos pp → ∀ x ∈ b.kids pp, x.bits.count ≤ (N + 1) / 2) ∧
      ∃ np, np < N + 1 ∧ RightOf b pos np ∧ ∃ y ∈ b.kids np, (N + 1) / 2 < y.bits.count)
    ⟨fun h => ⟨h.1, h.2.1, h.2.2.1, h.2.2.2.1, h.2.2.2.2⟩, fun h => ⟨h.lt, h.key, h.few, h.left, h.right⟩⟩

instance {b : Branch N K (Branch N K C)} {pos : Nat} {child : Branch N K C} : Decidable (LastTwo b pos child) :=
  decidable_of_iff (pos < N ∧ b.bits.count = 1 ∧ 0 < child.bits.count ∧
      ∃ y ∈ b.kids N, 0 < y.bits.count ∧ y.bits.count ≤ (N + 1) / 2 ∧ child.bits.count + y.bits.count < N)
    ⟨fun h => ⟨h.1, h.2.1, h.2.2.1, h.2.2.2⟩, fun h => ⟨h.lt, h.one, h.key, h.right⟩⟩

/-- The cases of an underflow of a leaf that work (`leftAt`, `rightAt`); `spare`: a merge may take the last key of the node. -/
def handledAt (c : Cfg K V) (spare : Bool) (b : Branch c.N K Nat) (h : Heap M K V) (dead : List Nat) (pos id : Nat) : Bool :=
  (List.range (c.N + 1)).any fun p => match b.kids p with
    | some s => (decide (p < c.N) && (spare || decide (2 ≤ b.bits.count)) && leftAt c b h dead pos p id s) || rightAt c b h dead pos p id s
    | none => false

/-- A test at the child for `k`. -/
def atKid (c : Cfg K V) (b : Branch c.N K C) (k : K) (f : Nat → C → Bool) : Bool :=
  match b.pos c.lim k with
  | .ok pos => match b.kids pos with
    | some x => f pos x
    | none => false
  | _ => false

/-- Depth 1: no underflow, or one of `handledAt`. -/
def tameLeaf (c : Cfg K V) (root : Bool) (h : Heap M K V) (dead : List Nat) (b : Branch c.N K Nat) (k : K) : Bool :=
  atKid c b k fun pos id => (match eraseAt c 0 h dead id k with
    | .ok r => !r.2.2
    | _ => true) || handledAt c root b h dead pos id

/-- Depth 2 and more: after the erase in the child `ch` there is no underflow, or entries come from the right neighbour, or the
last two children of the root are merged (`M = N` only). -/
def tameUp (c : Cfg K V) {d : Nat} (root : Bool) (b : Branch c.N K (Branch c.N K (Tree c.N K d))) (pos : Nat) :
    Res (Heap M K V × List Nat × (Branch c.N K (Tree c.N K d) ⊕ Tree c.N K d) × Bool) → Bool
  | .ok (_, _, .inl ch, _) => decide ((c.N + 1) / 2 ≤ ch.bits.count) ||
      (decide (DonorRight ({ b with kids := upd b.kids pos (some ch) } : Branch c.N K (Branch c.N K (Tree c.N K d))) pos ch) ||
      (root && decide (M = c.N) &&
        decide (LastTwo ({ b with kids := upd b.kids pos (some ch) } : Branch c.N K (Branch c.N K (Tree c.N K d))) pos ch)))
  | _ => true

/-- The underflows on the way back are handled rightly. -/
def tameNode (c : Cfg K V) : (d : Nat) → Bool → Heap M K V → List Nat → Branch c.N K (Tree c.N K d) → K → Bool
  | 0, root, h, dead, b, k => tameLeaf c root h dead b k
  | d + 1, root, h, dead, b, k => atKid c b k fun pos ch =>
      tameNode c d false h dead ch k && tameUp c root b pos (eraseNode c d false h dead ch k)

/-! ## The law -/

/-- What an erase below the node `b` does. -/
def NodeErases (c : Cfg K V) (d : Nat) (root : Bool) (h : Heap M K V) (dead : List Nat) (b : Branch c.N K (Tree c.N K d)) (R : K → Prop)
    (k : K) : Prop :=
  ∃ h' dead' o r, eraseNode c d root h dead b k = .ok (h', dead', o, r) ∧
    Post h dead d b R h' dead' o (Del (hasT (N := c.N) h (d + 1) b) k) ∧
    (r = true ↔ ∃ v, hasT (N := c.N) h (d + 1) b k v) ∧ (root = false → ∃ b', o = .inl b')

theorem eraseNode_zero_eq (root : Bool) (h : Heap M K V) (dead : List Nat) (b : Branch c.N K Nat) (k : K) :
    eraseNode c 0 root h dead b k = (b.pos c.lim k >>= fun p => b.kid p >>= fun ch => deref h dead (some ch) >>= fun z =>
      z.2.leaf.erase k >>= fun w => if w.1.bits.count < middle M then
        (underLeaf c (h.set z.1 { z.2 with leaf := w.1 }) dead b p z.1 >>= fun u =>
          (match u.root with
          | none => Res.ok (u.heap, u.dead, .inl u.node, w.2)
          | some i => if root then Res.ok (u.heap, u.dead, .inr i, w.2) else .ub))
      else .ok (h.set z.1 { z.2 with leaf := w.1 }, dead, .inl b, w.2)) := rfl

theorem eraseNode_zero (F : Laws c adm) (hR : ∀ a, R a → adm a) {root : Bool} {h : Heap M K V} {dead : List Nat} {b : Branch c.N K Nat}
    (ho : Ok (N := c.N) h 1 b R) (hlink : LinkOk h) (hdead : ∀ i ∈ dead, i < h.length ∧ i ∉ fp (N := c.N) 1 b) {k : K} (hk : R k)
    (ht : tameNode c 0 root h dead b k = true) : NodeErases c 0 root h dead b R k := by
  have ho' : BOk (Ok (N := c.N) h 0) (fp (N := c.N) (K := K) 0) b R := ho
  obtain ⟨pos, ep, hlive, hrng⟩ := pos_law (lim := c.lim) (sep_max F hR ho') hk
  have ep : b.pos c.lim k = .ok pos := ep
  obtain ⟨id, hid, okid⟩ : ∃ id : Nat, b.kids pos = some id ∧ Ok (N := c.N) h 0 id (rng b R pos) := ho'.kid pos hlive
  obtain ⟨x, hx, okx, _⟩ := okid
  have hx : h[id]? = some x := hx
  have dI : id ∉ dead := fun h => (hdead id h).2 ⟨id, ⟨pos, hlive, hid⟩, rfl⟩
  obtain ⟨l', r, el, okl, hr, hl'⟩ := leaf_erase_law okx k
  -- the erase in the leaf
  have e1 : eraseAt c 0 h dead id k = .ok (h.set id { x with leaf := l' }, r, decide (l'.bits.count < middle M)) := by
    show (deref h dead (some id) >>= fun z => z.2.leaf.erase k >>= fun w =>
      Res.ok (h.set z.1 { z.2 with leaf := w.1 }, w.2, decide (w.1.bits.count < middle M))) = _
    rw [deref_live hx dI, Res.ok_bind]
    dsimp only
    rw [el, Res.ok_bind]
  have e1' : eraseAt c 1 h dead b k = .ok (h.set id { x with leaf := l' }, r, decide (l'.bits.count < middle M)) := by
    show (b.pos c.lim k >>= fun p => b.kid p >>= fun ch => eraseAt c 0 h dead ch k >>= fun r =>
      Res.ok (r.1, r.2.1, r.2.2 || thin c 0 ch)) = _
    rw [ep, Res.ok_bind, kid_ok (live_lt hlive) hid, Res.ok_bind, e1, Res.ok_bind]
    show Res.ok (_, _, _ || false) = _
    rw [Bool.or_false]
  obtain ⟨h1, r1, u1, e2, a1, a2, a3, a4, a5, a6⟩ := eraseAt_law F 1 b R k hR ho hk
  rw [← eraseAt_dead F 1 b R k hR ho hk fun i hi => (hdead i hi).2, e1'] at e2
  cases e2
  set h1 := h.set id { x with leaf := l' } with hh1
  have hl1 : LinkOk h1 := by
    intro i y hy n hn
    have := a4 i
    rw [show h1[i]? = some y from hy] at this
    obtain ⟨z, hz, hzn⟩ := Option.map_eq_some_iff.1 this.symm
    have := hlink i z hz n (hzn.trans hn)
    show n < h1.length
    omega
  have hkid' : b.kid pos = .ok id := kid_ok (live_lt hlive) hid
  have hstart : eraseNode c 0 root h dead b k = (if l'.bits.count < middle M then (underLeaf c h1 dead b pos id >>= fun u =>
      (match u.root with
      | none => Res.ok (u.heap, u.dead, .inl u.node, r)
      | some i => if root then Res.ok (u.heap, u.dead, .inr i, r) else .ub))
    else .ok (h1, dead, .inl b, r)) := by
    rw [eraseNode_zero_eq, ep, Res.ok_bind, hkid', Res.ok_bind, deref_live hx dI, Res.ok_bind]
    dsimp only
    rw [el, Res.ok_bind]
  have base : Post h dead 0 b R h1 dead (.inl b) (Del (hasT (N := c.N) h 1 b) k) :=
    ⟨hl1, a3, a2, a1, fun i hi => hi, fun i hi => Or.inl hi, a6⟩
  by_cases hc : l'.bits.count < middle M
  · rw [if_pos hc] at hstart
    have hh : handledAt c root b h dead pos id = true := by
      have ht : tameLeaf c root h dead b k = true := ht
      unfold tameLeaf atKid at ht
      rw [ep] at ht
      simp only [hid, e1, decide_eq_true hc, Bool.not_true, Bool.false_or] at ht
      exact ht
    have hidl : id < h.length := (List.getElem?_eq_some_iff.1 hx).1
    have hdd : ∀ i ∈ dead, i < h1.length ∧ i ∉ fp (N := c.N) 1 b := fun i hi => by rw [a3]; exact hdead i hi
    have concl : (∃ u, underLeaf c h1 dead b pos id = .ok u ∧ Post h1 dead 0 b R u.heap u.dead u.out (hasT (N := c.N) h1 1 b) ∧
        (root = false → u.root = none)) → NodeErases c 0 root h dead b R k := by
      rintro ⟨u, eu, pu, hroot⟩
      have post : Post h dead 0 b R u.heap u.dead u.out (Del (hasT (N := c.N) h 1 b) k) :=
        ⟨pu.link, pu.len.trans a3, fun i hi => (pu.frame i hi).trans (a2 i hi), pu.ok, pu.sub, pu.dead,
          fun x y => (pu.has x y).trans (a6 x y)⟩
      refine ⟨u.heap, u.dead, u.out, r, ?_, post, a5, fun hf => ?_⟩
      · rw [hstart, eu, Res.ok_bind]
        unfold Under.out
        cases hur : u.root with
        | none => rfl
        | some i =>
          have : root = true := by
            cases root with
            | true => rfl
            | false => rw [hroot rfl] at hur; cases hur
          simp only [this, if_true]
      · unfold Under.out
        rw [hroot hf]
        exact ⟨_, rfl⟩
    obtain ⟨p, hp, hh⟩ := List.any_eq_true.1 hh
    split at hh
    · rename_i s hs
      rw [Bool.or_eq_true, Bool.and_eq_true, Bool.and_eq_true, decide_eq_true_eq] at hh
      rcases hh with ⟨⟨h1', h2⟩, h3⟩ | h3
      · obtain ⟨x', y, hcase⟩ := leftAt_spec h1' hid hs h3
        obtain rfl : x = x' := Option.some.inj (hx.symm.trans hcase.cell)
        have hl := hcase.left
        have hsid : s ≠ id := by
          rintro rfl
          exact Set.disjoint_left.1 (ho'.disj pos p s s hlive (Or.inl ⟨hl.lt, hl.bit⟩) hl.ne hid hs) rfl rfl
        refine concl ?_
        obtain ⟨u, eu, pu, hur⟩ := underLeaf_left F hR hdd hl1 a1 hlive hl hid hs (x := { x with leaf := l' }) (y := y)
          (List.getElem?_set_self hidl) (by rw [hh1, List.getElem?_set_ne (Ne.symm hsid)]; exact hcase.pcell) hcase.prev
          hc ⟨hcase.few, hcase.room⟩ (fun hp => by
            obtain ⟨j, z, b1, b2, b3⟩ := hcase.next hp
            by_cases hj : j = id
            · subst hj
              exact ⟨j, _, b1, List.getElem?_set_self hidl, hc.le⟩
            · exact ⟨j, z, b1, by rw [hh1, List.getElem?_set_ne (Ne.symm hj)]; exact b2, b3⟩) hcase.alive
        refine ⟨u, eu, pu, fun hf => ?_⟩
        rw [hf, Bool.false_or, decide_eq_true_eq] at h2
        exact hur h2
      · obtain ⟨x', y, hcase⟩ := rightAt_spec hid hs h3
        obtain rfl : x = x' := Option.some.inj (hx.symm.trans hcase.cell)
        have hjid : s ≠ id := by
          rintro rfl
          exact Set.disjoint_left.1 (ho'.disj pos p s s hlive hcase.right.live (hcase.right.ne hcase.lt) hid hs) rfl rfl
        refine concl ?_
        obtain ⟨u, eu, pu, hur⟩ := underLeaf_right F hR hdd hl1 a1 hcase.lt hlive hcase.right hid hs (x := { x with leaf := l' }) (y := y)
          (List.getElem?_set_self hidl) (by rw [hh1, List.getElem?_set_ne (Ne.symm hjid)]; exact hcase.ncell) hcase.next
          hc hcase.many (by show l'.keys 0 ≤ _; rw [erase_keys el]; exact hcase.slot) (fun hp0 => by
            obtain ⟨s, z, b1, b2, b4, b3⟩ := hcase.prev hp0
            by_cases hs : s = id
            · subst hs
              exact ⟨s, _, b1, List.getElem?_set_self hidl, b4, hc.le⟩
            · exact ⟨s, z, b1, by rw [hh1, List.getElem?_set_ne (Ne.symm hs)]; exact b2, b4, b3⟩)
        exact ⟨u, eu, pu, fun _ => hur⟩
    · cases hh
  · rw [if_neg hc] at hstart
    exact ⟨_, _, _, _, hstart, base, a5, fun _ => ⟨b, rfl⟩⟩

theorem eraseNode_succ_eq {d : Nat} (root : Bool) (h : Heap M K V) (dead : List Nat) (b : Branch c.N K (Branch c.N K (Tree c.N K d))) (k : K) :
    eraseNode c (d + 1) root h dead b k = (b.pos c.lim k >>= fun p => b.kid p >>= fun ch => eraseNode c d false h dead ch k >>= fun z =>
      match z with
      | (h, dead, .inr _, r) => .ub
      | (h, dead, .inl ch, r) =>
        if ch.bits.count < (c.N + 1) / 2 then
          (({ b with kids := upd b.kids p (some ch) } : Branch c.N K (Branch c.N K (Tree c.N K d))).under c.lim M p ch >>= fun w =>
            if root = true ∧ w.1.bits.count = 0 then Res.ok (h, dead, .inr w.2, r) else .ok (h, dead, .inl w.1, r))
        else .ok (h, dead, .inl { b with kids := upd b.kids p (some ch) }, r)) := by
  show (_ >>= _) = (_ >>= _)
  congr 1
  funext p
  congr 1
  funext ch
  congr 1
  funext z
  obtain ⟨h, dead, o, r⟩ := z
  cases o <;> rfl

/-- A change below one child is a change below the node. -/
theorem Post.up {d : Nat} {h h' : Heap M K V} {dead dead' : List Nat} {b : Branch N K (Branch N K (Tree N K d))} {pos : Nat} {k : K}
    (ho : Ok (N := N) h (d + 2) b R) (hlive : live b pos) (hrng : rng b R pos k) {ch ch' : Branch N K (Tree N K d)}
    (hch : b.kids pos = some ch) (post : Post h dead d ch (rng b R pos) h' dead' (.inl ch') (Del (hasT (N := N) h (d + 1) ch) k)) :
    Post h dead (d + 1) b R h' dead' (.inl ({ b with kids := upd b.kids pos (some ch') } : Branch N K (Branch N K (Tree N K d))))
      (Del (hasT (N := N) h (d + 2) b) k) := by
  have ho' : BOk (Ok (N := N) h (d + 1)) (fp (N := N) (d + 1)) b R := ho
  have hout : ∀ q y, live b q → q ≠ pos → b.kids q = some y → ∀ i ∈ fp (N := N) (d + 1) y, i ∉ fp (N := N) (d + 1) ch :=
    fun q y hq hne hy i hi hi' => Set.disjoint_left.1 (ho'.disj q pos y ch hq hlive hne hy hch) hi hi'
  have hfr : ∀ q y, live b q → q ≠ pos → b.kids q = some y → ∀ i ∈ fp (N := N) (d + 1) y, core h' i = core h i :=
    fun q y hq hne hy i hi => post.frame i (hout q y hq hne hy i hi)
  have hin : ∀ i, i ∈ fp (N := N) (d + 1) ch → i ∈ fp (N := N) (d + 2) b := fun i hi => ⟨ch, ⟨pos, hlive, hch⟩, hi⟩
  have hkid : ∀ z, Kid ({ b with kids := upd b.kids pos (some ch') } : Branch N K (Branch N K (Tree N K d))) z →
      z = ch' ∨ ∃ q, live b q ∧ q ≠ pos ∧ b.kids q = some z := by
    rintro z ⟨q, hq, hz⟩
    have hz : upd b.kids pos (some ch') q = some z := hz
    by_cases hqp : q = pos
    · rw [hqp, upd_same] at hz
      exact Or.inl (Option.some.inj hz).symm
    · rw [upd_ne hqp] at hz
      exact Or.inr ⟨q, hq, hqp, hz⟩
  have hkid1 : Kid ({ b with kids := upd b.kids pos (some ch') } : Branch N K (Branch N K (Tree N K d))) ch' :=
    ⟨pos, hlive, upd_same ..⟩
  have hkid2 : ∀ q z, live b q → q ≠ pos → b.kids q = some z →
      Kid ({ b with kids := upd b.kids pos (some ch') } : Branch N K (Branch N K (Tree N K d))) z :=
    fun q z hq hne hz => ⟨q, hq, (upd_ne hne).trans hz⟩
  refine ⟨post.link, post.len, fun i hi => post.frame i fun hi' => hi (hin i hi'), ?_, ?_, fun i hi => ?_, fun x y => ?_⟩
  · refine replace_law (P' := Ok (N := N) h' (d + 1)) (F := fp (N := N) (d + 1)) ho' hlive post.ok
      (fun q y hq hne hy hok => ok_frame (d + 1) y _ (hfr q y hq hne hy) hok) (fun q y hq hne hy => ?_)
    exact Set.disjoint_left.2 fun i hi hi' => hout q y hq hne hy i hi' (post.sub i hi)
  · rintro i ⟨z, hz, hi⟩
    rcases hkid z hz with rfl | ⟨q, hq, hne, hz⟩
    · exact hin i (post.sub i hi)
    · exact ⟨z, ⟨q, hq, hz⟩, hi⟩
  · rcases post.dead i hi with h1 | ⟨h1, h2⟩
    · exact Or.inl h1
    · refine Or.inr ⟨hin i h1, ?_⟩
      rintro ⟨z, hz, hi⟩
      rcases hkid z hz with rfl | ⟨q, hq, hne, hz⟩
      · exact h2 hi
      · exact hout q z hq hne hz i hi h1
  · have hhas : hasT (N := N) h' (d + 1) ch' x y ↔ Del (hasT (N := N) h (d + 1) ch) k x y := post.has x y
    constructor
    · rintro ⟨z, hz, hv⟩
      rcases hkid z hz with rfl | ⟨q, hq, hne, hz⟩
      · obtain ⟨g1, g2⟩ := hhas.1 hv
        exact ⟨g1, ch, ⟨pos, hlive, hch⟩, g2⟩
      · have hv := (hasT_frame (d + 1) z x y (hfr q z hq hne hz)).1 hv
        refine ⟨?_, z, ⟨q, hq, hz⟩, hv⟩
        rintro rfl
        obtain ⟨z', e, hok⟩ := ho'.kid q hq
        obtain rfl : z = z' := Option.some.inj (hz.symm.trans e)
        exact hne (rng_unique ho' hq hlive (hasT_range (d + 1) z _ x y hok hv) hrng)
    · rintro ⟨hne, z, ⟨q, hq, hz⟩, hv⟩
      by_cases hqp : q = pos
      · subst hqp
        obtain rfl : z = ch := Option.some.inj (hz.symm.trans hch)
        exact ⟨ch', hkid1, hhas.2 ⟨hne, hv⟩⟩
      · exact ⟨z, hkid2 q z hq hqp hz, (hasT_frame (d + 1) z x y (hfr q z hq hqp hz)).2 hv⟩

theorem eraseNode_law (F : Laws c adm) : ∀ (d : Nat) (R : K → Prop) (root : Bool) (h : Heap M K V) (dead : List Nat)
    (b : Branch c.N K (Tree c.N K d)) (k : K), (∀ a, R a → adm a) → Ok (N := c.N) h (d + 1) b R → LinkOk h →
    (∀ i ∈ dead, i < h.length ∧ i ∉ fp (N := c.N) (d + 1) b) → R k → tameNode c d root h dead b k = true →
    NodeErases c d root h dead b R k
  | 0, R, root, h, dead, b, k, hR, ho, hlink, hdead, hk, ht => eraseNode_zero F hR ho hlink hdead hk ht
  | d + 1, R, root, h, dead, b, k, hR, ho, hlink, hdead, hk, ht => by
    have ho' : BOk (Ok (N := c.N) h (d + 1)) (fp (N := c.N) (d + 1)) b R := ho
    obtain ⟨pos, ep, hlive, hrng⟩ := pos_law (lim := c.lim) (sep_max F hR ho') hk
    obtain ⟨ch, hch, okch⟩ : ∃ ch : Branch c.N K (Tree c.N K d), Branch.kids b pos = some ch ∧ Ok (N := c.N) h (d + 1) ch (rng b R pos) :=
      ho'.kid pos hlive
    have ht : atKid c (C := Branch c.N K (Tree c.N K d)) b k (fun pos ch =>
      tameNode c d false h dead ch k && tameUp c root b pos (eraseNode c d false h dead ch k)) = true := ht
    unfold atKid at ht
    have ep : Branch.pos (C := Branch c.N K (Tree c.N K d)) c.lim b k = .ok pos := ep
    rw [ep] at ht
    simp only [hch, Bool.and_eq_true] at ht
    obtain ⟨ht1, ht2⟩ := ht
    obtain ⟨h', dead', o, r, e1, post, hr, hinl⟩ := eraseNode_law F d (rng b R pos) false h dead ch k (fun a ha => hR a ha.1) okch hlink
      (fun i hi => ⟨(hdead i hi).1, fun hf => (hdead i hi).2 ⟨ch, ⟨pos, hlive, hch⟩, hf⟩⟩) hrng ht1
    obtain ⟨ch', rfl⟩ := hinl rfl
    rw [e1] at ht2
    have up := Post.up (b := b) ho hlive hrng hch post
    set b1 : Branch c.N K (Branch c.N K (Tree c.N K d)) := { b with kids := upd (Branch.kids b) pos (some ch') } with hb1
    have hk1 : Branch.kid (C := Branch c.N K (Tree c.N K d)) b pos = .ok ch := kid_ok (live_lt hlive) hch
    have hr' : r = true ↔ ∃ v, hasT (N := c.N) h (d + 2) b k v := by
      rw [hr]
      constructor
      · rintro ⟨v, hv⟩
        exact ⟨v, ch, ⟨pos, hlive, hch⟩, hv⟩
      · rintro ⟨v, z, ⟨q, hq, hz⟩, hv⟩
        obtain ⟨z', e, hok⟩ := ho'.kid q hq
        obtain rfl : z = z' := Option.some.inj (hz.symm.trans e)
        obtain rfl : q = pos := rng_unique ho' hq hlive (hasT_range (d + 1) z _ k v hok hv) hrng
        obtain rfl : z = ch := Option.some.inj (hz.symm.trans hch)
        exact ⟨v, hv⟩
    have hstart : eraseNode c (d + 1) root h dead b k = (if ch'.bits.count < (c.N + 1) / 2 then
          (b1.under c.lim M pos ch' >>= fun w =>
            if root = true ∧ w.1.bits.count = 0 then Res.ok (h', dead', .inr w.2, r) else .ok (h', dead', .inl w.1, r))
        else .ok (h', dead', .inl b1, r)) := by
      refine (eraseNode_succ_eq root h dead b k).trans ?_
      rw [ep, Res.ok_bind, hk1, Res.ok_bind, e1, Res.ok_bind]
      rfl
    by_cases hc : ch'.bits.count < (c.N + 1) / 2
    · rw [if_pos hc] at hstart
      have ht2 : (decide ((c.N + 1) / 2 ≤ ch'.bits.count) || (decide (DonorRight b1 pos ch') ||
        (root && decide (M = c.N) && decide (LastTwo b1 pos ch')))) = true := ht2
      rw [decide_eq_false (by omega), Bool.false_or, Bool.or_eq_true, Bool.and_eq_true, Bool.and_eq_true, decide_eq_true_eq,
        decide_eq_true_eq, decide_eq_true_eq] at ht2
      have okb1 : Ok (N := c.N) h' (d + 2) b1 R := up.ok
      have hkb1 : b1.kids pos = some ch' := upd_same ..
      have hlb1 : live b1 pos := hlive
      rcases ht2 with ht2 | ⟨⟨hroot, hMN⟩, ht2⟩
      · obtain ⟨b2, c2, e2, g1, g2, g3, g4⟩ := under_right F hR okb1 hlb1 hkb1 ht2
        have hne : b2.bits.count ≠ 0 := by
          have okb2 : BOk (Ok (N := c.N) h' (d + 1)) (fp (N := c.N) (d + 1)) b1 R := okb1
          have hlok : LOk b1.asLeaf := ⟨okb2.clean, okb2.inj⟩
          rw [g4, count_asLeaf hlok]
          exact Finset.card_ne_zero_of_mem (Bitmap.mem_members.2 ⟨ht2.lt, live_bit hlb1 ht2.lt⟩)
        rw [e2, Res.ok_bind, if_neg (fun h => hne h.2)] at hstart
        refine ⟨_, _, _, _, hstart, ⟨up.link, up.len, up.frame, g1, fun i hi => up.sub i ((g2 i).1 hi), fun i hi => ?_,
          fun x y => (g3 x y).trans (up.has x y)⟩, hr', fun _ => ⟨_, rfl⟩⟩
        exact (up.dead i hi).imp_right fun hd => ⟨hd.1, fun hf => hd.2 ((g2 i).1 hf)⟩
      · obtain ⟨b2, c2, e2, g0, g1, g2, g3⟩ := under_last F hR okb1 hlb1 hkb1 ht2 hMN
        rw [e2, Res.ok_bind, if_pos ⟨hroot, g0⟩] at hstart
        refine ⟨_, _, _, _, hstart, ⟨up.link, up.len, up.frame, g1, fun i hi => up.sub i ((g2 i).1 hi), fun i hi => ?_,
          fun x y => (g3 x y).trans (up.has x y)⟩, hr', fun hf => by rw [hf] at hroot; cases hroot⟩
        exact (up.dead i hi).imp_right fun hd => ⟨hd.1, fun hf => hd.2 ((g2 i).1 hf)⟩
    · rw [if_neg hc] at hstart
      exact ⟨_, _, _, _, hstart, up, hr', fun _ => ⟨_, rfl⟩⟩

end Verif.BitTree
