import Verif.BitTree.DeepProps

/-!
# The cases of `underflowAtBranchLevel` that go wrong

`keys[i]` of a branch node lies to the right of `children[i]`.  740-788/690-740 take `keys[pos]` for the key between the left
neighbour and the node as well, and leave the pointer of a deleted right neighbour in the slot that is searched from then on.
-/

set_option linter.unusedSectionVars false

namespace Verif.BitTree

open Verif Search FPTree BTree

variable {K V : Type} {M N : Nat} {C : Type} [LinearOrder K] [Inhabited K] {c : Cfg K V} {adm : K → Prop} {R : K → Prop}

theorem minPos_total (lim : Limits K) (keys : Nat → K) (bits : Bitmap N) :
    ∃ p, findMinKeyPosBits lim (fun i : Fin N => keys i) bits = .ok p := by
  obtain ⟨x, p, e, _⟩ := bits_search (fun i : Fin N => keys i) bits lim.max (fun _ => true)
    (fun a b => a < b) (fun a b c h1 h2 => by simp only [not_lt] at *; exact le_trans h2.le h1)
    (fun a => lt_irrefl a) (fun _ _ _ h1 h2 => lt_trans h1 h2)
    (fun i k cur => testAnd bits i (decide (k < cur))) (fun i k c => by simp)
  exact ⟨p, by unfold findMinKeyPosBits; simp only [e, Res.ok_bind, Res.pure_eq]⟩

/-- Where the search for `a` goes. -/
theorem pos_eq {lim : Limits K} {b : Branch N K C} (hlim : ∀ p, p < N → Bitmap.bit b.bits p = true → b.keys p < lim.max)
    (inj : ∀ i j, i < N → j < N → Bitmap.bit b.bits i = true → Bitmap.bit b.bits j = true → b.keys i = b.keys j → i = j)
    {a : K} {np : Nat} (hl : live b np) (hlt : np < N → a < b.keys np)
    (hmin : ∀ q, q < N → Bitmap.bit b.bits q = true → a < b.keys q → np < N ∧ b.keys np ≤ b.keys q) : b.pos lim a = .ok np := by
  obtain ⟨p, e, hp, _, h2, h3⟩ := pos_law (lim := lim) (R := fun _ => True) hlim (k := a) trivial
  rw [e]
  congr 1
  rcases hp with ⟨hp, hbp⟩ | hp
  · obtain ⟨g1, g2⟩ := hmin p hp hbp (h2 hp)
    have hbn := live_bit hl g1
    rcases lt_or_eq_of_le g2 with h | h
    · exact absurd (h3 np g1 hbn fun _ => h) (not_le.2 (hlt g1))
    · exact (inj np p g1 hp hbn hbp h).symm
  · rcases hl with ⟨h, hb⟩ | h
    · exact absurd (h3 np h hb fun h' => absurd h' (by omega)) (not_le.2 (hlt h))
    · omega

/-- The node is not the leftmost one. -/
def NotFirst (b : Branch N K C) (pos : Nat) : Prop := ∃ pp, LeftOf b pos pp

/-- Up to the decision between the cases nothing goes wrong. -/
theorem under_start (F : Laws c adm) (hR : ∀ a, R a → adm a) {h : Heap M K V} {d : Nat} {b : Branch c.N K (Branch c.N K (Tree c.N K d))}
    (ho : Ok (N := c.N) h (d + 2) b R) {pos : Nat} (hlt : pos < c.N) (hpos : live b pos) (child : Branch c.N K (Tree c.N K d)) :
    ∃ first pp np x y, b.kids pp = some x ∧ b.kids np = some y ∧ RightOf b pos np ∧
      (LeftOf b pos pp ∧ first ≠ pos ∨ pp = c.N ∧ first = pos ∧ ¬ NotFirst b pos) ∧
      b.under c.lim M pos child = (if first ≠ pos ∧ (c.N + 1) / 2 < x.bits.count then (do
          Res.assert (pp ≠ c.N)
          let (d, r, k) ← Branch.balance c.lim x child (b.keys pos)
          pure (⟨b.bits, upd b.keys pos k, upd (upd b.kids pp (some d)) pos (some r)⟩, r))
        else if pos < c.N ∧ (c.N + 1) / 2 < y.bits.count then (do
          let (d, r, k) ← Branch.balance c.lim y child (b.keys pos)
          pure (⟨b.bits, upd b.keys pos k, upd (upd b.kids np (some d)) pos (some r)⟩, r))
        else if first ≠ pos then (do
          let s ← Branch.merge c.lim M x (b.keys pos) child
          let bits ← b.bits.reset pos
          let kids := upd (upd b.kids pp (some s)) pos none
          pure (⟨bits, b.keys, if pos = c.N then upd kids c.N none else kids⟩, s))
        else if pos < c.N then (do
          let s ← Branch.merge c.lim M child (b.keys pos) y
          let bits ← b.bits.reset pos
          let mx ← findMaxKeyPosBits c.lim (fun i : Fin c.N => b.keys i) bits
          let kids := upd (upd b.kids np none) pos (some s)
          pure (⟨bits, b.keys, if pos = mx then upd kids c.N (some s) else kids⟩, s))
        else .assertFail) := by
  have ho' : BOk (Ok (N := c.N) h (d + 1)) (fp (N := c.N) (d + 1)) b R := ho
  have hb : Bitmap.bit b.bits pos = true := live_bit hpos hlt
  obtain ⟨first, e0, hf1, hf2, hf3⟩ := minOf (lim := c.lim) (keys := b.keys) (bits := b.bits) hlt hb (sep_max F hR ho' pos hlt hb)
  obtain ⟨pp, e1, hpp⟩ := leftOf_pos (lim := c.lim) (b := b) (fun p hp hbp => (F.lim _ (hR _ (ho'.sep p hp hbp).1)).1) hlt
  obtain ⟨np, e2, hnp⟩ := rightOf_pos (lim := c.lim) (b := b) (sep_max F hR ho') pos
  have hlp : live b pp := by
    rcases hpp with h | h
    · exact Or.inl ⟨h.lt, h.bit⟩
    · exact Or.inr h.1
  obtain ⟨x, hx⟩ : ∃ x : Branch c.N K (Tree c.N K d), b.kids pp = some x := (ho'.kid pp hlp).imp fun _ h => h.1
  obtain ⟨y, hy⟩ : ∃ y : Branch c.N K (Tree c.N K d), b.kids np = some y := (ho'.kid np hnp.live).imp fun _ h => h.1
  refine ⟨first, pp, np, x, y, hx, hy, hnp, ?_, ?_⟩
  · rcases hpp with h | ⟨h1, h2⟩
    · refine Or.inl ⟨h, ?_⟩
      rintro rfl
      exact absurd (h.key hlt) (not_lt.2 (hf3 pp h.lt h.bit))
    · refine Or.inr ⟨h1, ho'.inj first pos hf1 hlt hf2 hb (le_antisymm (hf3 pos hlt hb) (h2 first hf1 hf2)), ?_⟩
      rintro ⟨q, hq⟩
      exact absurd (hq.key hlt) (not_lt.2 (h2 q hq.lt hq.bit))
  · have k1 : b.kid pp = .ok x := kid_ok (live_lt hlp) hx
    have k2 : b.kid np = .ok y := kid_ok (live_lt hnp.live) hy
    unfold Branch.under
    rw [e0, Res.ok_bind, rdA_ok hlt, Res.ok_bind, e1, Res.ok_bind, k1, Res.ok_bind, e2, Res.ok_bind, k2, Res.ok_bind]

/-! ## The rightmost child -/

/-- 747/699: the underflow of the rightmost child reads `keys[N]`, which is outside the array. -/
theorem C92_rightmost (lim : Limits K) (b : Branch N K (Branch N K C)) (child : Branch N K C) : b.under lim M N child = .ub := by
  obtain ⟨p, e⟩ := minPos_total lim b.keys b.bits
  unfold Branch.under
  rw [e, Res.ok_bind]
  have : rdA N b.keys N = .ub := by
    unfold rdA
    rw [if_neg (lt_irrefl _)]
  rw [this]
  rfl

/-! ## Merges with the left neighbour -/

theorem keys_lt {Q : K → Prop} {P : C → (K → Prop) → Prop} {G : C → Set Nat} {b : Branch N K C} (ho : BOk P G b Q) {q : Nat} (hq : q < N)
    (hb : Bitmap.bit b.bits q = true) : Q (b.keys q) := (ho.sep q hq hb).1

theorem key_exists {Q : K → Prop} {P : C → (K → Prop) → Prop} {G : C → Set Nat} {b : Branch N K C} (ho : BOk P G b Q) (h : 0 < b.bits.count) :
    ∃ q, q < N ∧ Bitmap.bit b.bits q = true := by
  have hl : LOk b.asLeaf := ⟨ho.clean, ho.inj⟩
  rw [count_asLeaf hl] at h
  obtain ⟨q, hq⟩ := Finset.card_pos.1 h
  exact ⟨q, Bitmap.mem_members.1 hq⟩

/-- 770, 805/722, 764: the merge with the left neighbour gets the key to the right of both nodes; the assertion that it is not
greater than the keys of the right one fails.  (Without assertions the left node gets this key in the middle.) -/
theorem C92_left_merge (F : Laws c adm) (hR : ∀ a, R a → adm a) {h : Heap M K V} {d : Nat} {b : Branch c.N K (Branch c.N K (Tree c.N K d))}
    (ho : Ok (N := c.N) h (d + 2) b R) {pos pp np : Nat} (hlt : pos < c.N) (hpos : live b pos) {child x y : Branch c.N K (Tree c.N K d)}
    (hkid : b.kids pos = some child) (hl : LeftOf b pos pp) (hx : b.kids pp = some x) (hr : RightOf b pos np) (hy : b.kids np = some y)
    (h1 : x.bits.count ≤ (c.N + 1) / 2) (h2 : y.bits.count ≤ (c.N + 1) / 2) (h3 : 0 < child.bits.count) :
    b.under c.lim M pos child = .assertFail := by
  have ho' : BOk (Ok (N := c.N) h (d + 1)) (fp (N := c.N) (d + 1)) b R := ho
  obtain ⟨first, pp', np', x', y', hx', hy', hnp, hcase, e⟩ := under_start (M := M) F hR ho hlt hpos child
  obtain rfl : np = np' := hr.unique hnp ho'.inj
  obtain rfl : y = y' := Option.some.inj (hy.symm.trans hy')
  rcases hcase with ⟨hl', hf⟩ | ⟨_, _, hf⟩
  swap
  · exact absurd ⟨pp, hl⟩ hf
  obtain rfl : pp = pp' := hl.unique hl' ho'.inj
  obtain rfl : x = x' := Option.some.inj (hx.symm.trans hx')
  rw [e, if_neg (fun h => absurd h.2 (not_lt.2 h1)), if_neg (fun h => absurd h.2 (not_lt.2 h2)), if_pos hf]
  have okc : BOk (Ok (N := c.N) h d) (fp d) child (rng b R pos) := by
    obtain ⟨z, e, hz⟩ := ho'.kid pos hpos
    obtain rfl : child = z := Option.some.inj (hkid.symm.trans e)
    exact hz
  obtain ⟨q, hq, hbq⟩ := key_exists okc h3
  obtain ⟨p, ep, hp, hbp, _⟩ := minOf (lim := c.lim) (keys := child.keys) hq hbq (F.lim _ (hR _ (keys_lt okc hq hbq).1)).2
  have : ¬ b.keys pos ≤ child.keys p := not_le.2 ((keys_lt okc hp hbp).2.1 hlt)
  unfold Branch.merge
  rw [ep, Res.ok_bind, rdA_ok hp, Res.ok_bind]
  have ha : Res.assert (b.keys pos ≤ child.keys p) = .assertFail := by
    unfold Res.assert
    rw [if_neg this]
  rw [ha]
  rfl

/-! ## Entries of the left neighbour -/

/-- `balanceBranchNodes` with a donor to the left: the key for the parent is one of the donor. -/
theorem balance_left {P : C → (K → Prop) → Prop} {G : C → Set Nat} {Qd Qr : K → Prop} (F : Laws c adm) (hQ : ∀ a, Qd a → adm a)
    {d r : Branch N K C} {k : K} (hr : BOk P G r Qr) (hd : BOk P G d Qd) (hdr : ∀ x y, Qd x → Qr y → x < y) (hrk : ∀ x, Qr x → x < k)
    (hdk : ∀ x, Qd x → x < k) (hlt : r.bits.count < d.bits.count) (h0 : 0 < r.bits.count) :
    ∃ d' r' m, d.balance c.lim r k = .ok (d', r', m) ∧ Qd m := by
  have hrl : LOk r.asLeaf := ⟨hr.clean, hr.inj⟩
  have hdl : LOk d.asLeaf := ⟨hd.clean, hd.inj⟩
  have cr : r.bits.count = used r.asLeaf := count_asLeaf hrl
  have cd : d.bits.count = used d.asLeaf := count_asLeaf hdl
  have hdN : used d.asLeaf ≤ N := by
    unfold used
    have : BitmapSpec.members d.asLeaf.bits ⊆ Finset.range N := fun p hp => Finset.mem_range.2 (Bitmap.mem_members.1 hp).1
    simpa using Finset.card_le_card this
  have inr : ∀ a x, Has r.asLeaf a x → Qr a := by
    rintro a x ⟨q, hq, hb, rfl, _⟩
    exact keys_lt hr hq hb
  have ind : ∀ a x, Has d.asLeaf a x → Qd a := by
    rintro a x ⟨q, hq, hb, rfl, _⟩
    exact keys_lt hd hq hb
  have first : ∀ b : Branch N K C, LOk b.asLeaf → 0 < used b.asLeaf → b.bits.getFirstSet < N ∧
      Has b.asLeaf (b.keys b.bits.getFirstSet) (b.kids b.bits.getFirstSet) := by
    intro b hb hu
    rcases Bitmap.getFirstSet_spec (b := b.bits) hb.clean with ⟨h1, h2, _⟩ | ⟨_, h2⟩
    · exact ⟨h1, _, h1, h2, rfl, rfl⟩
    · obtain ⟨q, hq⟩ := Finset.card_pos.1 hu
      obtain ⟨hq, hbq⟩ := Bitmap.mem_members.1 hq
      exact absurd (show Bitmap.bit b.bits q = true from hbq) (by rw [h2 q hq]; decide)
  obtain ⟨fd1, fd2⟩ := first d hdl (by omega)
  obtain ⟨fr1, fr2⟩ := first r hrl (by omega)
  obtain ⟨f1, f2⟩ := free_of_zero (room_of_used (l := r.asLeaf) (by omega))
  obtain ⟨r1, e1, g1, g2, g3⟩ := fill_law hrl f1 f2 (k := k) (d.kids N) (fun w hw => lt_irrefl _ (hrk _ (inr _ _ hw)))
  have ur1 : used r1 = used r.asLeaf + 1 := used_fill f1 f2 g3
  set n := d.bits.count - (d.bits.count + r.bits.count) / 2 with hn
  have hn0 : n ≠ 0 := by omega
  obtain ⟨d2, r2, e2, k1, k2, k3, k4, k5, k6, k7⟩ := balanceLoop_law (F.nodes (C := C)) true (n - 1) d.asLeaf r1 hdl g1
    (fun x y h => hQ x (ind x y h)) (fun x y z w h1 h2 => by
      show x < z
      rcases (g2 z w).1 h2 with ⟨rfl, _⟩ | h2
      · exact hdk _ (ind _ _ h1)
      · exact hdr _ _ (ind _ _ h1) (inr _ _ h2)) (by omega) (by omega)
  obtain ⟨e1', _⟩ := fill_node (b := r) e1
  obtain ⟨e2', ek, ev, eN⟩ := moveLoop_node (c := c) true (n - 1) d r1.node d2 r2 e2
  obtain ⟨q, hq⟩ := Finset.card_pos.1 (show 0 < (BitmapSpec.members d2.bits).card from by
    have : 0 < used d2 := by omega
    exact this)
  obtain ⟨hq, hbq⟩ := Bitmap.mem_members.1 hq
  have hd2 : ∀ k x, Has d2 k x → Has d.asLeaf k x := by
    intro k x h
    rcases (k3 k x).2 (Or.inl h) with h' | h'
    · exact h'
    · exact absurd (k5 _ _ _ _ h (k4 _ _ h')) (lt_irrefl _)
  have haq : adm (d2.keys q) := hQ _ (ind _ _ (hd2 _ _ ⟨q, hq, hbq, rfl, rfl⟩))
  obtain ⟨p, ep, hp, hbp, _⟩ := maxOf (lim := c.lim) (keys := d2.keys) hq hbq (F.lim _ haq).1
  obtain ⟨bt, eb, _⟩ := reset_law k1 hp hbp
  refine ⟨⟨bt, d2.keys, upd d2.vals N (d2.vals p)⟩, r2.node, d2.keys p, ?_, ind _ _ (hd2 _ _ ⟨p, hp, hbp, rfl, rfl⟩)⟩
  unfold Branch.balance
  dsimp only
  rw [Res.assert_pos hlt, Res.ok_bind, ← hn, if_neg hn0, rdA_ok fd1, Res.ok_bind, rdA_ok fr1, Res.ok_bind,
    if_pos (hdr _ _ (ind _ _ fd2) (inr _ _ fr2))]
  have e1'' : r.fill r.bits.getFreeZero k (d.kids N) = .ok r1.node := e1'
  rw [e1'', Res.ok_bind, e2', Res.ok_bind]
  have ep' : findMaxKeyPosBits c.lim (fun i : Fin N => d2.node.keys i) d2.node.bits = .ok p := ep
  have eb' : d2.node.bits.reset p = .ok bt := eb
  dsimp only
  rw [ep', Res.ok_bind, rdA_ok (by omega), Res.ok_bind, rdA_ok hp, Res.ok_bind, eb', Res.ok_bind]
  rfl

/-- 758, 866/710, 831: with entries of the left neighbour its key becomes the key to the *right* of the node: no key that belongs
to the node is found any more. -/
theorem C92_left_entries (F : Laws c adm) (hR : ∀ a, R a → adm a) {h : Heap M K V} {d : Nat} {b : Branch c.N K (Branch c.N K (Tree c.N K d))}
    (ho : Ok (N := c.N) h (d + 2) b R) {pos pp : Nat} (hlt : pos < c.N) (hpos : live b pos) {child x : Branch c.N K (Tree c.N K d)}
    (hkid : b.kids pos = some child) (hl : LeftOf b pos pp) (hx : b.kids pp = some x) (h1 : (c.N + 1) / 2 < x.bits.count)
    (h2 : child.bits.count < (c.N + 1) / 2) (h3 : 0 < child.bits.count) :
    ∃ b' r, b.under c.lim M pos child = .ok (b', r) ∧ ∀ a, rng b R pos a →
      ∃ id z, findLeaf c (d + 2) b' a = .ok id ∧ h[id]? = some z ∧ z.leaf.lookup a = .ok none := by
  have ho' : BOk (Ok (N := c.N) h (d + 1)) (fp (N := c.N) (d + 1)) b R := ho
  obtain ⟨first, pp', np, x', y, hx', hy, hnp, hcase, e⟩ := under_start (M := M) F hR ho hlt hpos child
  rcases hcase with ⟨hl', hf⟩ | ⟨_, _, hf⟩
  swap
  · exact absurd ⟨pp, hl⟩ hf
  obtain rfl : pp = pp' := hl.unique hl' ho'.inj
  obtain rfl : x = x' := Option.some.inj (hx.symm.trans hx')
  have hlp : live b pp := Or.inl ⟨hl.lt, hl.bit⟩
  have hkl : b.keys pp < b.keys pos := hl.key hlt
  have okc : BOk (Ok (N := c.N) h d) (fp d) child (rng b R pos) := by
    obtain ⟨z, e, hz⟩ := ho'.kid pos hpos
    obtain rfl : child = z := Option.some.inj (hkid.symm.trans e)
    exact hz
  have okx : BOk (Ok (N := c.N) h d) (fp d) x (rng b R pp) := by
    obtain ⟨z, e, hz⟩ := ho'.kid pp hlp
    obtain rfl : x = z := Option.some.inj (hx.symm.trans e)
    exact hz
  have oky : Ok (N := c.N) h (d + 1) y (rng b R np) := by
    obtain ⟨z, e, hz⟩ := ho'.kid np hnp.live
    obtain rfl : y = z := Option.some.inj (hy.symm.trans e)
    exact hz
  have hge : ∀ a, rng b R pos a → b.keys pp ≤ a := fun a ha => ha.2.2 pp hl.lt hl.bit fun _ => hkl
  have hlo : ∀ a, rng b R pp a → a < b.keys pp := fun a ha => ha.2.1 hl.lt
  obtain ⟨d', r', m, eb, hm⟩ := balance_left F (fun a ha => hR a ha.1) (k := b.keys pos) okc okx
    (fun x y hx hy => lt_of_lt_of_le (hlo x hx) (hge y hy)) (fun x hx => hx.2.1 hlt) (fun x hx => lt_trans (hlo x hx) hkl)
    (lt_trans h2 h1) h3
  rw [if_pos ⟨hf, h1⟩, Res.assert_pos (by have := hl.lt; omega), Res.ok_bind, eb, Res.ok_bind] at e
  set b' : Branch c.N K (Branch c.N K (Tree c.N K d)) := ⟨b.bits, upd b.keys pos m, upd (upd b.kids pp (some d')) pos (some r')⟩ with hb'
  refine ⟨b', r', e, fun a ha => ?_⟩
  have hkq : ∀ q, q ≠ pos → b'.keys q = b.keys q := fun q hq => upd_ne hq
  have hkp : b'.keys pos = m := upd_same ..
  have hml : m < b.keys pp := hlo m hm
  have hlim : ∀ p, p < c.N → Bitmap.bit b'.bits p = true → b'.keys p < c.lim.max := by
    intro p hp hbp
    by_cases hpp : p = pos
    · rw [hpp, hkp]
      exact lt_trans hml (sep_max F hR ho' pp hl.lt hl.bit)
    · rw [hkq p hpp]
      exact sep_max F hR ho' p hp hbp
  have hnpos : np ≠ pos := (hnp.ne hlt).symm
  have hap : a < b.keys pos := ha.2.1 hlt
  obtain ⟨q0, eq, hq0, _, g2, g3⟩ := pos_law (lim := c.lim) (R := fun _ => True) hlim (k := a) trivial
  have hnp' : q0 = np := by
    have q0pos : q0 ≠ pos := by
      rintro rfl
      have := g2 hlt
      rw [hkp] at this
      exact absurd (lt_of_le_of_lt (hge a ha) (lt_trans this hml)) (lt_irrefl _)
    rcases hq0 with ⟨hq, hbq⟩ | hq
    · have hbq : Bitmap.bit b.bits q0 = true := hbq
      have h5 := g2 hq
      rw [hkq q0 q0pos] at h5
      have h6 : b.keys pos < b.keys q0 := by
        rcases lt_trichotomy (b.keys q0) (b.keys pos) with h' | h' | h'
        · exact absurd (le_trans (hl.max q0 hq hbq fun _ => h') (hge a ha)) (not_le.2 h5)
        · exact absurd (ho'.inj q0 pos hq hlt hbq (live_bit hpos hlt) h') q0pos
        · exact h'
      obtain ⟨h7, h8⟩ := hnp.min q0 hq hbq h6
      rcases lt_or_eq_of_le h8 with h' | h'
      · have := g3 np h7 (live_bit hnp.live h7) (fun _ => by rw [hkq np hnpos, hkq q0 q0pos]; exact h')
        rw [hkq np hnpos] at this
        exact absurd (lt_trans hap (hnp.key h7)) (not_lt.2 this)
      · exact (ho'.inj np q0 h7 hq (live_bit hnp.live h7) hbq h').symm
    · rcases hnp.live with ⟨h7, h8⟩ | h7
      · have := g3 np h7 h8 (fun h' => absurd h' (by omega))
        rw [hkq np hnpos] at this
        exact absurd (lt_trans hap (hnp.key h7)) (not_lt.2 this)
      · omega
  subst hnp'
  have hppn : q0 ≠ pp := by
    rintro rfl
    exact absurd (hnp.key hl.lt) (not_lt.2 hkl.le)
  have hky : b'.kids q0 = some y := by
    show upd _ _ _ q0 = _
    rw [upd_ne hnpos, upd_ne hppn]
    exact hy
  have hkid' : b'.kid q0 = .ok y := kid_ok (live_lt hnp.live) hky
  obtain ⟨id, z, f1, f2, f3, f4⟩ := findLeaf_law F (d + 1) y adm a (fun _ h => h) (ok_mono (d + 1) y _ _ (fun k hk => hR k hk.1) oky) (hR a ha.1)
  obtain ⟨o, f5, f6⟩ := lookup_law f3 a
  refine ⟨id, z, ?_, f2, ?_⟩
  · show (Branch.pos (C := Branch c.N K (Tree c.N K d)) c.lim b' a >>= fun p => Branch.kid (C := Branch c.N K (Tree c.N K d)) b' p >>= fun ch =>
      findLeaf c (d + 1) ch a) = _
    rw [eq, Res.ok_bind, hkid', Res.ok_bind, f1]
  · rw [f5]
    cases o with
    | none => rfl
    | some v =>
      have := hasT_range (d + 1) y _ a v oky ((f4 v).1 ((f6 v).1 rfl))
      exact absurd (this.2.2 pos hlt (live_bit hpos hlt) hnp.key) (not_le.2 hap)

/-! ## A node without keys -/

theorem balance_empty {lim : Limits K} {d r : Branch N K C} {k : K} (hd : LOk d.asLeaf) (hr : LOk r.asLeaf) (h0 : r.bits.count = 0)
    (h1 : 0 < d.bits.count) : d.balance lim r k = .ub := by
  have cr : used r.asLeaf = 0 := by rw [← count_asLeaf hr]; exact h0
  have h2 : N ≤ r.bits.getFirstSet := by
    rcases Bitmap.getFirstSet_spec (b := r.bits) hr.clean with ⟨h2, h3, _⟩ | ⟨h2, _⟩
    · exact absurd (Finset.card_eq_zero.1 cr) (Finset.ne_empty_of_mem (Bitmap.mem_members.2 ⟨h2, h3⟩))
    · exact h2.ge
  have h3 : d.bits.getFirstSet < N := by
    rcases Bitmap.getFirstSet_spec (b := d.bits) hd.clean with ⟨h3, _⟩ | ⟨_, h3⟩
    · exact h3
    · rw [count_asLeaf hd] at h1
      obtain ⟨q, hq⟩ := Finset.card_pos.1 h1
      obtain ⟨hq, hbq⟩ := Bitmap.mem_members.1 hq
      exact absurd (show Bitmap.bit d.bits q = true from hbq) (by rw [h3 q hq]; decide)
  have h4 : rdA N r.keys r.bits.getFirstSet = .ub := by
    unfold rdA
    rw [if_neg (by omega)]
  unfold Branch.balance
  dsimp only
  rw [Res.assert_pos (by omega), Res.ok_bind, if_neg (by omega), rdA_ok h3, Res.ok_bind, h4]
  rfl

/-- 848/813: a node that lost its last key has no first key; if a neighbour has entries to spare, the comparison of the first keys
reads outside the array. -/
theorem C92_empty_entries (F : Laws c adm) (hR : ∀ a, R a → adm a) {h : Heap M K V} {d : Nat} {b : Branch c.N K (Branch c.N K (Tree c.N K d))}
    (ho : Ok (N := c.N) h (d + 2) b R) {pos q : Nat} (hlt : pos < c.N) (hpos : live b pos) {child x : Branch c.N K (Tree c.N K d)}
    (hkid : b.kids pos = some child) (hq : LeftOf b pos q ∨ RightOf b pos q) (hx : b.kids q = some x) (h1 : (c.N + 1) / 2 < x.bits.count)
    (h2 : child.bits.count = 0) : b.under c.lim M pos child = .ub := by
  have ho' : BOk (Ok (N := c.N) h (d + 1)) (fp (N := c.N) (d + 1)) b R := ho
  have okn : ∀ p (z : Branch c.N K (Tree c.N K d)), live b p → b.kids p = some z → LOk z.asLeaf := by
    intro p z hp hz
    obtain ⟨z', e, hz'⟩ := ho'.kid p hp
    obtain rfl : z = z' := Option.some.inj (hz.symm.trans e)
    have hz' : BOk (Ok (N := c.N) h d) (fp d) z (rng b R p) := hz'
    exact ⟨hz'.clean, hz'.inj⟩
  obtain ⟨first, pp, np, x1, y, hx1, hy, hnp, hcase, e⟩ := under_start (M := M) F hR ho hlt hpos child
  rw [e]
  by_cases hc1 : first ≠ pos ∧ (c.N + 1) / 2 < x1.bits.count
  · rcases hcase with ⟨hl', hf⟩ | ⟨_, hf, _⟩
    swap
    · exact absurd hf hc1.1
    rw [if_pos hc1, Res.assert_pos (by have := hl'.lt; omega), Res.ok_bind,
      balance_empty (okn pp x1 (Or.inl ⟨hl'.lt, hl'.bit⟩) hx1) (okn pos child hpos hkid) h2 (by omega)]
    rfl
  · have hy2 : (c.N + 1) / 2 < y.bits.count := by
      rcases hq with hq | hq
      · rcases hcase with ⟨hl', hf⟩ | ⟨_, _, hf⟩
        · obtain rfl : q = pp := hq.unique hl' ho'.inj
          obtain rfl : x = x1 := Option.some.inj (hx.symm.trans hx1)
          exact absurd ⟨hf, h1⟩ hc1
        · exact absurd ⟨q, hq⟩ hf
      · obtain rfl : q = np := hq.unique hnp ho'.inj
        obtain rfl : x = y := Option.some.inj (hx.symm.trans hy)
        exact h1
    rw [if_neg hc1, if_pos ⟨hlt, hy2⟩, balance_empty (okn np y hnp.live hy) (okn pos child hpos hkid) h2 (by omega)]
    rfl

/-! ## Merges with the right neighbour -/

/-- The merge of a node that is the leftmost one with its right neighbour. -/
structure RightMerge (b : Branch N K (Branch N K C)) (pos np : Nat) (child y : Branch N K C) : Prop where
  lt : pos < N
  live : live b pos
  kid : b.kids pos = some child
  first : ¬ NotFirst b pos
  right : RightOf b pos np
  next : b.kids np = some y
  few : y.bits.count ≤ (N + 1) / 2

theorem under_merge (F : Laws c adm) (hR : ∀ a, R a → adm a) {h : Heap M K V} {d : Nat} {b : Branch c.N K (Branch c.N K (Tree c.N K d))}
    (ho : Ok (N := c.N) h (d + 2) b R) {pos np : Nat} {child y : Branch c.N K (Tree c.N K d)} (hc : RightMerge b pos np child y) :
    b.under c.lim M pos child = (do
          let s ← Branch.merge c.lim M child (b.keys pos) y
          let bits ← b.bits.reset pos
          let mx ← findMaxKeyPosBits c.lim (fun i : Fin c.N => b.keys i) bits
          let kids := upd (upd b.kids np none) pos (some s)
          pure (⟨bits, b.keys, if pos = mx then upd kids c.N (some s) else kids⟩, s)) := by
  have ho' : BOk (Ok (N := c.N) h (d + 1)) (fp (N := c.N) (d + 1)) b R := ho
  obtain ⟨first, pp, np', x, y', hx, hy', hnp, hcase, e⟩ := under_start (M := M) F hR ho hc.lt hc.live child
  obtain rfl : np = np' := hc.right.unique hnp ho'.inj
  obtain rfl : y = y' := Option.some.inj (hc.next.symm.trans hy')
  rcases hcase with ⟨hl', _⟩ | ⟨_, hf, _⟩
  · exact absurd ⟨pp, hl'⟩ hc.first
  rw [e, if_neg (fun h => h.1 hf), if_neg (fun h => absurd h.2 (not_lt.2 hc.few)), if_neg (fun h => h hf), if_pos hc.lt]

theorem merge_ranges (F : Laws c adm) (hR : ∀ a, R a → adm a) {h : Heap M K V} {d : Nat} {b : Branch c.N K (Branch c.N K (Tree c.N K d))}
    (ho : Ok (N := c.N) h (d + 2) b R) {pos np : Nat} {child y : Branch c.N K (Tree c.N K d)} (hc : RightMerge b pos np child y) :
    BOk (Ok (N := c.N) h d) (fp d) child (fun a => pair b R pos np a ∧ a < b.keys pos) ∧
      BOk (Ok (N := c.N) h d) (fp d) y (fun a => pair b R pos np a ∧ b.keys pos ≤ a) ∧ pair b R pos np (b.keys pos) ∧
      (∃ k, pair b R pos np k ∧ k < b.keys pos) ∧ ∀ u v, Kid child u → Kid y v → Disjoint (fp (N := c.N) d u) (fp (N := c.N) d v) := by
  have ho' : BOk (Ok (N := c.N) h (d + 1)) (fp (N := c.N) (d + 1)) b R := ho
  have hb : Bitmap.bit b.bits pos = true := live_bit hc.live hc.lt
  have okr : BOk (Ok (N := c.N) h d) (fp d) child (rng b R pos) := by
    obtain ⟨z, e, hz⟩ := ho'.kid pos hc.live
    obtain rfl : child = z := Option.some.inj (hc.kid.symm.trans e)
    exact hz
  have okd : BOk (Ok (N := c.N) h d) (fp d) y (rng b R np) := by
    obtain ⟨z, e, hz⟩ := ho'.kid np hc.right.live
    obtain rfl : y = z := Option.some.inj (hc.next.symm.trans e)
    exact hz
  have er : rng b R pos = fun a => pair b R pos np a ∧ a < b.keys pos := by
    funext a; exact propext (rng_left hc.lt hc.right a)
  have ed : rng b R np = fun a => pair b R pos np a ∧ b.keys pos ≤ a := by
    funext a; exact propext (rng_right hc.lt hb ho'.inj hc.right a)
  rw [er] at okr
  rw [ed] at okd
  have hmin : ∀ q, q < c.N → Bitmap.bit b.bits q = true → b.keys pos ≤ b.keys q := by
    obtain ⟨pp, _, hpp⟩ := leftOf_pos (lim := c.lim) (b := b) (fun p hp hbp => (F.lim _ (hR _ (ho'.sep p hp hbp).1)).1) hc.lt
    rcases hpp with h | h
    · exact absurd ⟨pp, h⟩ hc.first
    · exact h.2
  have hdis0 := ho'.disj pos np child y hc.live hc.right.live (hc.right.ne hc.lt) hc.kid hc.next
  refine ⟨okr, okd, ⟨(ho'.sep pos hc.lt hb).1, hc.right.key, fun q _ _ h => h.le⟩, ?_,
    fun u v hu hv => Set.disjoint_left.2 fun i h1 h2 => Set.disjoint_left.1 hdis0 ⟨u, hu, h1⟩ ⟨v, hv, h2⟩⟩
  obtain ⟨k, hk, hlt⟩ := (ho'.sep pos hc.lt hb).2
  exact ⟨k, ⟨hk, fun hn => lt_trans hlt (hc.right.key hn), fun q hq hbq hl => absurd hl (not_lt.2 (hmin q hq hbq))⟩, hlt⟩

/-- 778-782/730-734: in the merge with the right neighbour the bit and the key of the node go, but the keys of both are then
searched in the slot of the neighbour, which still holds the deleted pointer: the search for any of them is undefined.  (The
node has at least one more key; if not, see `under_last`.) -/
theorem C92_right_merge (F : Laws c adm) (hR : ∀ a, R a → adm a) {h : Heap M K V} {d : Nat} {b : Branch c.N K (Branch c.N K (Tree c.N K d))}
    (ho : Ok (N := c.N) h (d + 2) b R) {pos np : Nat} {child y : Branch c.N K (Tree c.N K d)} (hc : RightMerge b pos np child y)
    (hM : M = c.N) (h1 : 0 < child.bits.count) (h2 : 0 < y.bits.count) (h3 : child.bits.count + y.bits.count < c.N) (h4 : 2 ≤ b.bits.count) :
    ∃ b' s, b.under c.lim M pos child = .ok (b', s) ∧ ∀ a, rng b R pos a ∨ rng b R np a → findLeaf c (d + 2) b' a = .ub := by
  have ho' : BOk (Ok (N := c.N) h (d + 1)) (fp (N := c.N) (d + 1)) b R := ho
  have hb : Bitmap.bit b.bits pos = true := live_bit hc.live hc.lt
  obtain ⟨okr, okd, hp, hk, hdis⟩ := merge_ranges F hR ho hc
  obtain ⟨s, e3, _⟩ := merge_node F (fun a ha => hR a ha.1) (fun x R R' h => ok_mono d x R R' h) hp hk okr okd hdis h1 h2 h3
  have hlok : LOk b.asLeaf := ⟨ho'.clean, ho'.inj⟩
  obtain ⟨bits, e4, g4, g5, g6⟩ := reset_law hlok (p := pos) hc.lt hb
  have e4 : b.bits.reset pos = .ok bits := e4
  have hbits : ∀ q, q < c.N → (Bitmap.bit bits q = true ↔ q ≠ pos ∧ Bitmap.bit b.bits q = true) := by
    obtain ⟨b2, eb, hb2, _⟩ := set_bit' (b := b.bits) hc.lt false
    have eb : b.bits.reset pos = .ok b2 := eb
    rw [e4] at eb
    cases eb
    intro q hq
    rw [hb2 q hq]
    by_cases hqp : q = pos
    · simp [hqp]
    · simp [hqp]
  obtain ⟨q0, hq0⟩ : ∃ q0, q0 ∈ BitmapSpec.members bits := by
    refine Finset.card_pos.1 ?_
    have h5 : used b.asLeaf = b.bits.count := (count_asLeaf hlok).symm
    have : (BitmapSpec.members bits).card + 1 = used b.asLeaf := g6
    omega
  obtain ⟨hq0, hbq0⟩ := Bitmap.mem_members.1 hq0
  obtain ⟨mx, e5, hmx, hbmx, _⟩ := maxOf (lim := c.lim) (keys := b.keys) (bits := bits) hq0 hbq0
    (F.lim _ (hR _ (ho'.sep q0 hq0 ((hbits q0 hq0).1 hbq0).2).1)).1
  have hne : pos ≠ mx := ((hbits mx hmx).1 hbmx).1.symm
  have e := under_merge F hR ho hc
  rw [hM, e3, Res.ok_bind, e4, Res.ok_bind, e5, Res.ok_bind] at e
  dsimp only at e
  rw [if_neg hne] at e
  refine ⟨_, s, (by rw [hM]; exact e), fun a ha => ?_⟩
  have hpa : pair b R pos np a := by
    rcases ha with ha | ha
    · exact ((rng_left hc.lt hc.right a).1 ha).1
    · exact ((rng_right hc.lt hb ho'.inj hc.right a).1 ha).1
  have hnpos : np ≠ pos := (hc.right.ne hc.lt).symm
  have hpos' := pos_eq (lim := c.lim) (b := (⟨bits, b.keys, upd (upd b.kids np none) pos (some s)⟩ : Branch c.N K (Branch c.N K (Tree c.N K d))))
    (fun p hp hbp => sep_max F hR ho' p hp ((hbits p hp).1 hbp).2)
    (fun i j hi hj hbi hbj he => ho'.inj i j hi hj ((hbits i hi).1 hbi).2 ((hbits j hj).1 hbj).2 he) (a := a) (np := np)
    (by
      rcases hc.right.live with ⟨h, hb'⟩ | h
      · exact Or.inl ⟨h, (hbits np h).2 ⟨hnpos, hb'⟩⟩
      · exact Or.inr h) hpa.2.1 (fun q hq hbq hlt => by
      obtain ⟨hqp, hbq⟩ := (hbits q hq).1 hbq
      rcases lt_trichotomy (b.keys q) (b.keys pos) with h' | h' | h'
      · exact absurd (hpa.2.2 q hq hbq h') (not_le.2 hlt)
      · exact absurd (ho'.inj q pos hq hc.lt hbq hb h') hqp
      · exact hc.right.min q hq hbq h')
  show (Branch.pos (C := Branch c.N K (Tree c.N K d)) c.lim _ a >>= fun p => Branch.kid (C := Branch c.N K (Tree c.N K d)) _ p >>= fun ch =>
      findLeaf c (d + 1) ch a) = _
  rw [hpos', Res.ok_bind]
  unfold Branch.kid
  rw [rdA_ok (live_lt hc.right.live)]
  show (Res.ofOption (upd (upd b.kids np none) pos (some s) np) >>= _) = _
  rw [upd_ne hnpos, upd_same]
  rfl

/-! ## Merges whose loop goes wrong -/

theorem mergeLoop_add {n : Branch N K C} : ∀ (m j i : Nat) (s : Branch N K C),
    s.mergeLoop n i (m + j) = (s.mergeLoop n i m >>= fun s' => s'.mergeLoop n (i + m) j)
  | 0, j, i, s => by
    rw [Nat.zero_add, Nat.add_zero, Branch.mergeLoop, Res.ok_bind]
  | m + 1, j, i, s => by
    rw [show m + 1 + j = (m + j) + 1 from by omega, Branch.mergeLoop, Branch.mergeLoop]
    have hi : i + (m + 1) = i + 1 + m := by omega
    cases n.bits.test i with
    | ok t =>
      rw [Res.ok_bind, Res.ok_bind]
      cases t with
      | true =>
        simp only [if_true]
        cases rdA N n.keys i with
        | ok k =>
          rw [Res.ok_bind, Res.ok_bind]
          cases rdA (N + 1) n.kids i with
          | ok x =>
            rw [Res.ok_bind, Res.ok_bind]
            cases s.fill s.bits.getFreeZero k x with
            | ok s1 =>
              rw [Res.ok_bind, Res.ok_bind, mergeLoop_add m j (i + 1) s1, hi]
            | ub => rfl
            | throws => rfl
            | assertFail => rfl
          | ub => rfl
          | throws => rfl
          | assertFail => rfl
        | ub => rfl
        | throws => rfl
        | assertFail => rfl
      | false =>
        simp only [Bool.false_eq_true, if_false]
        rw [mergeLoop_add m j (i + 1) s, hi]
    | ub => rfl
    | throws => rfl
    | assertFail => rfl

/-- The keys of a node at the positions from `i` on. -/
def left (b : Bitmap N) (i : Nat) : Nat := ((BitmapSpec.members b).filter (i ≤ ·)).card

theorem left_bit {b : Bitmap N} {i : Nat} (hi : i < N) (hb : Bitmap.bit b i = true) : left b i = left b (i + 1) + 1 := by
  unfold left
  have : (BitmapSpec.members b).filter (i ≤ ·) = insert i ((BitmapSpec.members b).filter (i + 1 ≤ ·)) := by
    ext p
    simp only [Finset.mem_insert, Finset.mem_filter, Bitmap.mem_members]
    constructor
    · rintro ⟨h1, h2⟩
      by_cases hp : p = i
      · exact Or.inl hp
      · exact Or.inr ⟨h1, by omega⟩
    · rintro (rfl | ⟨h1, h2⟩)
      · exact ⟨⟨hi, hb⟩, le_rfl⟩
      · exact ⟨h1, by omega⟩
  rw [this, Finset.card_insert_of_notMem]
  simp

theorem left_not {b : Bitmap N} {i : Nat} (hb : Bitmap.bit b i = false) : left b i = left b (i + 1) := by
  unfold left
  congr 1
  ext p
  simp only [Finset.mem_filter, Bitmap.mem_members]
  constructor
  · rintro ⟨h1, h2⟩
    refine ⟨h1, ?_⟩
    rcases Nat.lt_or_ge i p with h | h
    · exact h
    · obtain rfl : p = i := by omega
      rw [hb] at h1
      cases h1.2
  · rintro ⟨h1, h2⟩
    exact ⟨h1, by omega⟩

/-- Too many keys: the next free position is `N`, outside the arrays. -/
theorem mergeLoop_full {n : Branch N K C} : ∀ (m i : Nat) (s : Branch N K C), i + m = N → N < used s.asLeaf + left n.bits i →
    s.mergeLoop n i m = .ub
  | 0, i, s, hi, hc => by
    have h1 : left n.bits i = 0 := by
      unfold left
      rw [Finset.card_eq_zero, Finset.filter_eq_empty_iff]
      intro p hp
      have := (Bitmap.mem_members.1 hp).1
      omega
    have h2 : used s.asLeaf ≤ N := by
      unfold used
      have : BitmapSpec.members s.asLeaf.bits ⊆ Finset.range N := fun p hp => Finset.mem_range.2 (Bitmap.mem_members.1 hp).1
      simpa using Finset.card_le_card this
    omega
  | m + 1, i, s, hi, hc => by
    have hiN : i < N := by omega
    rw [Branch.mergeLoop]
    have ht : n.bits.test i = .ok (Bitmap.bit n.bits i) := by
      exact Bitmap.test_eq _ hiN
    rw [ht, Res.ok_bind]
    cases hb : Bitmap.bit n.bits i with
    | false =>
      simp only [Bool.false_eq_true, if_false]
      exact mergeLoop_full m (i + 1) s (by omega) (by rw [← left_not hb]; exact hc)
    | true =>
      simp only [if_true]
      rw [rdA_ok hiN, Res.ok_bind, rdA_ok (by omega), Res.ok_bind]
      unfold Branch.fill
      rcases Bitmap.getFreeZero_spec s.bits with ⟨h1, h2, _⟩ | ⟨h1, _⟩
      · rw [Res.guardUB_pos h1, Res.ok_bind]
        obtain ⟨b', e, hbits, _⟩ := set_bit' (b := s.bits) h1 true
        rw [e, Res.ok_bind]
        simp only [Res.pure_eq, Res.ok_bind]
        refine mergeLoop_full m (i + 1) _ (by omega) ?_
        rw [used_fill (l := s.asLeaf) (l' := Branch.asLeaf ⟨b', upd s.keys s.bits.getFreeZero (n.keys i), upd s.kids s.bits.getFreeZero (n.kids i)⟩)
          h1 h2 hbits]
        rw [left_bit hiN hb] at hc
        omega
      · have : Res.guardUB (s.bits.getFreeZero < N) = .ub := by
          unfold Res.guardUB
          rw [if_neg (by omega)]
        rw [this]
        rfl

theorem left_zero (b : Bitmap N) : left b 0 = (BitmapSpec.members b).card := by
  unfold left
  simp

/-- `mergeBranchNodes` up to its loop. -/
theorem merge_start (F : Laws c adm) (hR : ∀ a, R a → adm a) {h : Heap M K V} {d : Nat} {b : Branch c.N K (Branch c.N K (Tree c.N K d))}
    (ho : Ok (N := c.N) h (d + 2) b R) {pos np : Nat} {child y : Branch c.N K (Tree c.N K d)} (hc : RightMerge b pos np child y)
    (h1 : 0 < child.bits.count) (h2 : 0 < y.bits.count) (h3 : child.bits.count < c.N) :
    ∃ s : Branch c.N K (Tree c.N K d), used s.asLeaf = child.bits.count + 1 ∧
      ∀ m, child.merge c.lim m (b.keys pos) y = (s.mergeLoop y 0 m >>= fun s => pure { s with kids := upd s.kids c.N (y.kids c.N) }) := by
  obtain ⟨okr, okd, hp, hk, hdis⟩ := merge_ranges F hR ho hc
  have hsl : LOk child.asLeaf := ⟨okr.clean, okr.inj⟩
  obtain ⟨q1, hq1, hb1⟩ := key_exists okd h2
  obtain ⟨p1, e1, hp1, hbp1, _⟩ := minOf (lim := c.lim) (keys := y.keys) hq1 hb1 (F.lim _ (hR _ (keys_lt okd hq1 hb1).1.1)).2
  obtain ⟨q2, hq2, hb2⟩ := key_exists okr h1
  obtain ⟨p2, e2, hp2, hbp2, _⟩ := maxOf (lim := c.lim) (keys := child.keys) hq2 hb2 (F.lim _ (hR _ (keys_lt okr hq2 hb2).1.1)).1
  obtain ⟨f1, f2⟩ := free_of_zero (room_of_used (l := child.asLeaf) (by rw [← count_asLeaf hsl]; exact h3))
  obtain ⟨s1, e3, g1, g2, g3⟩ := fill_law hsl f1 f2 (k := b.keys pos) (child.kids c.N) (fun w hw => by
    obtain ⟨q, hq, hb, hkq, _⟩ := hw
    have := (keys_lt okr hq hb).2
    have hkq : child.keys q = b.keys pos := hkq
    rw [hkq] at this
    exact lt_irrefl _ this)
  obtain ⟨e3', _⟩ := fill_node (b := child) e3
  refine ⟨s1.node, ?_, fun m => ?_⟩
  · rw [node_asLeaf, used_fill f1 f2 g3, count_asLeaf hsl]
  · unfold Branch.merge
    have e3'' : child.fill child.bits.getFreeZero (b.keys pos) (child.kids c.N) = .ok s1.node := e3'
    rw [e1, Res.ok_bind, rdA_ok hp1, Res.ok_bind, Res.assert_pos (keys_lt okd hp1 hbp1).2, Res.ok_bind, e2, Res.ok_bind,
      rdA_ok hp2, Res.ok_bind, Res.assert_pos (keys_lt okr hp2 hbp2).2, Res.ok_bind, e3'', Res.ok_bind]

/-- 808-817/767-776: the two nodes with `N` keys together and the key between them have one key too many: the last one is
written outside the arrays.  For odd `N` this is so if the node had `(N + 1) / 2` keys before the erase, as few as it may,
and its neighbour has as many. -/
theorem C92_merge_full (F : Laws c adm) (hR : ∀ a, R a → adm a) {h : Heap M K V} {d : Nat} {b : Branch c.N K (Branch c.N K (Tree c.N K d))}
    (ho : Ok (N := c.N) h (d + 2) b R) {pos np : Nat} {child y : Branch c.N K (Tree c.N K d)} (hc : RightMerge b pos np child y)
    (hM : c.N ≤ M) (h1 : 0 < child.bits.count) (h2 : 0 < y.bits.count) (h3 : child.bits.count < c.N) (h4 : c.N ≤ child.bits.count + y.bits.count) :
    b.under c.lim M pos child = .ub := by
  obtain ⟨s, hs, e⟩ := merge_start F hR ho hc h1 h2 h3
  obtain ⟨_, okd, _⟩ := merge_ranges F hR ho hc
  have hyl : LOk y.asLeaf := ⟨okd.clean, okd.inj⟩
  have hy : y.bits.count = (BitmapSpec.members y.bits).card := count_asLeaf hyl
  rw [under_merge F hR ho hc, e]
  obtain ⟨j, rfl⟩ := Nat.exists_eq_add_of_le hM
  rw [mergeLoop_add, mergeLoop_full c.N 0 s (by omega) (by rw [left_zero]; omega)]
  rfl

/-- 812/771: the loop runs over the `M` positions of a leaf; if there are more of them than the `N` of a branch node,
`test` throws, after the node has been changed. -/
theorem C92_merge_throws (F : Laws c adm) (hR : ∀ a, R a → adm a) {h : Heap M K V} {d : Nat} {b : Branch c.N K (Branch c.N K (Tree c.N K d))}
    (ho : Ok (N := c.N) h (d + 2) b R) {pos np : Nat} {child y : Branch c.N K (Tree c.N K d)} (hc : RightMerge b pos np child y)
    (hM : c.N < M) (h1 : 0 < child.bits.count) (h2 : 0 < y.bits.count) (h3 : child.bits.count + y.bits.count < c.N) :
    b.under c.lim M pos child = .throws := by
  obtain ⟨okr, okd, hp, hk, hdis⟩ := merge_ranges F hR ho hc
  obtain ⟨s, hs, e⟩ := merge_start F hR ho hc h1 h2 (by omega)
  obtain ⟨s', e3, _⟩ := merge_node F (fun a ha => hR a ha.1) (fun x R R' h => ok_mono d x R R' h) hp hk okr okd hdis h1 h2 h3
  rw [e c.N] at e3
  obtain ⟨s2, e4, _⟩ := Res.bind_eq_ok.1 e3
  rw [under_merge F hR ho hc, e M]
  obtain ⟨j, rfl⟩ := Nat.exists_eq_add_of_lt hM
  rw [show c.N + j + 1 = c.N + (j + 1) from rfl, mergeLoop_add, e4, Res.ok_bind, Branch.mergeLoop]
  have ht : y.bits.test (0 + c.N) = .throws := by
    unfold Bitmap.test
    rw [if_pos (by omega)]
  rw [ht]
  rfl

/-! ## Histories -/

/-- What comes of a history. -/
def outcome {α : Type} : Res α → Nat
  | .ok _ => 0
  | .ub => 1
  | .throws => 2
  | .assertFail => 3

/-- The lookup of `k` after a history: 0 found, 1 not found, 2 anything else; 3: the history has no end. -/
def afterFull {c : Cfg K V} (ops : List (Op K V)) (t : EStore c M) (k : K) : Nat :=
  match runFull ops t with
  | .ok (t, _) => match t.lookup k with
    | .ok (some _) => 0
    | .ok none => 1
    | _ => 2
  | _ => 3

/-- C91 for both files, all orders (see `C61_partial`) and all histories in which every underflow of a leaf is handled by a merge with
the left neighbour (`LeftCase`; not if it takes the last key of a node other than the root) or with entries of the right
neighbour whose slot 0 is in order (`RightCase`), and every underflow of a branch node with entries of the right neighbour
(`DonorRight`) or, if `M = N`, by the merge of the last two children of the root (`LastTwo`).
Missing: the other cases, which are wrong (`C63_stale_slot`, `C63_left_entries`, `C63_slot_zero`, `C92_rightmost`, `C92_left_merge`,
`C92_left_entries`, `C92_empty_entries`, `C92_right_merge`, `C92_merge_full`, `C92_merge_throws`, `C92_merge_short`), and merges of
nodes without keys. -/
theorem C91_partial (F : Laws c adm) (hM : 2 ≤ M) (hm : c.move = false → M % 64 ≠ 0) (hN : 2 ≤ c.N) (hN64 : c.N % 64 ≠ 0)
    (ops : List (Op K V)) (ha : ∀ o ∈ ops, adm o.key) (hc : tameFull ops (EStore.empty c M) = true) :
    FullAgrees adm (fun _ => none) ops (runFull ops (EStore.empty c M)) :=
  runFull_tame F hM hm hN hN64 ops _ _ ⟨tok_empty c M, fun i hi => by cases hi⟩
    (fun k v => ⟨fun h => absurd h (has_empty k v), fun h => by cases h⟩) ha hc

set_option maxRecDepth 100000 in
/-- A history with entries of the right neighbour of a branch node, and a merge that gives up the root of depth 2. -/
example (mv : Bool) : tameFull (K := Int) (V := Int) [.ins 89 1, .ins 21 1, .ins 22 1, .ins 39 1, .ins 33 1, .ins 36 1, .ins 41 1, .ins 42 1, .ins 51 1, .ins 40 1, .ins 42 1, .ins 50 1, .ins 27 1, .ins 24 1, .ins 15 1, .ins 68 1, .ins 62 1, .ins 91 1, .del 36, .del 62, .del 15, .del 33, .del 27, .del 41, .del 40, .del 68, .del 24, .del 39, .del 22, .del 89, .del 51, .del 50, .del 42, .del 91, .del 21]
    (EStore.empty (cfgInt 4 mv (fun _ => 0) (fun _ => (0 : Int))) 4) = true := by
  cases mv <;> decide +kernel

/-- C91 is false: an underflow of the rightmost child (`C92_rightmost`). -/
theorem C91_refuted (mv : Bool) : ¬ C91_statement 3 3 mv := by
  intro h
  obtain ⟨t, e, _⟩ := h (fun _ => 0) (fun _ => 0) [.ins 85 1, .ins 62 1, .ins 71 1, .ins 72 1, .ins 25 1, .ins 81 1, .ins 50 1, .ins 24 1, .ins 15 1, .del 85] (by decide)
  have : outcome (runFull [.ins 85 1, .ins 62 1, .ins 71 1, .ins 72 1, .ins 25 1, .ins 81 1, .ins 50 1, .ins 24 1, .ins 15 1, .del 85] (EStore.empty (cfgInt 3 mv (fun _ => 0) (fun _ => (0 : Int))) 3)) = 1 := by
    cases mv <;> decide +kernel
  rw [e] at this
  cases this

/-- `C92_left_merge`. -/
example : outcome (runFull (K := Int) [.ins 36 1, .ins 15 1, .ins 55 1, .ins 37 1, .ins 72 1, .ins 34 1, .ins 24 1, .ins 70 1, .ins 54 1, .ins 31 1, .ins 57 1, .ins 49 1, .del 54] (EStore.empty (cfgInt 3 true (fun _ => 0) (fun _ => (0 : Int))) 3)) = 3 := by
  decide +kernel

/-- `C92_left_entries`. -/
example : afterFull (K := Int) [.ins 72 1, .ins 63 1, .ins 29 1, .ins 24 1, .ins 34 1, .ins 67 1, .ins 83 1, .ins 14 1, .ins 69 1, .ins 16 1, .ins 13 1, .ins 93 1, .ins 81 1, .ins 59 1, .ins 50 1, .ins 20 1, .del 34] (EStore.empty (cfgInt 3 true (fun _ => 0) (fun _ => (0 : Int))) 3) 63 = 1 := by
  decide +kernel

/-- `C92_right_merge`. -/
example : afterFull (K := Int) [.ins 96 1, .ins 20 1, .ins 52 1, .ins 35 1, .ins 93 1, .ins 38 1, .ins 57 1, .ins 18 1, .ins 93 1, .ins 29 1, .ins 72 1, .ins 35 1, .del 29] (EStore.empty (cfgInt 3 true (fun _ => 0) (fun _ => (0 : Int))) 3) 20 = 2 := by
  decide +kernel

/-- `C92_merge_full`. -/
example : outcome (runFull (K := Int) [.ins 85 1, .ins 42 1, .ins 27 1, .ins 45 1, .ins 23 1, .ins 20 1, .ins 63 1, .ins 33 1, .ins 82 1, .ins 22 1, .ins 72 1, .ins 60 1, .del 42] (EStore.empty (cfgInt 3 true (fun _ => 0) (fun _ => (0 : Int))) 3)) = 1 := by
  decide +kernel

/-- `C92_merge_throws`. -/
example : outcome (runFull (K := Int) [.ins 72 1, .ins 63 1, .ins 29 1, .ins 24 1, .ins 34 1, .ins 67 1, .ins 83 1, .ins 14 1, .ins 69 1, .ins 16 1, .ins 13 1, .ins 93 1, .del 34] (EStore.empty (cfgInt 3 true (fun _ => 0) (fun _ => (0 : Int))) 4)) = 2 := by
  decide +kernel

/-- 812/771: with fewer positions in a leaf than in a branch node the loop of the merge leaves out children: 72 is not found. -/
theorem C92_merge_short : afterFull (K := Int) [.ins 85 1, .ins 42 1, .ins 27 1, .ins 45 1, .ins 23 1, .ins 20 1, .ins 63 1, .ins 33 1, .ins 82 1, .ins 22 1, .ins 72 1, .ins 60 1, .del 42]
    (EStore.empty (cfgInt 4 true (fun _ => 0) (fun _ => (0 : Int))) 3) 72 = 1 := by
  decide +kernel

/-- `C92_empty_entries`. -/
example : outcome (runFull (K := Int) [.ins 35 1, .ins 16 1, .ins 10 1, .ins 46 1, .ins 90 1, .ins 17 1, .ins 81 1, .ins 87 1, .ins 72 1, .ins 86 1, .ins 38 1, .ins 33 1, .del 87]
    (EStore.empty (cfgInt 3 true (fun _ => 0) (fun _ => (0 : Int))) 3)) = 1 := by
  decide +kernel

/-! ## C92 -/

/-- C92. The handling of an underflow of a branch node, neither it nor its parent without keys, leaves a good tree with the same
entries: the parent, or, if that has no key any more, the returned child. -/
def C92_statement (c : Cfg K V) (adm : K → Prop) (M : Nat) : Prop :=
  ∀ (h : Heap M K V) (d : Nat) (b : Branch c.N K (Branch c.N K (Tree c.N K d))) (pos : Nat) (child : Branch c.N K (Tree c.N K d)),
    Ok (N := c.N) h (d + 2) b adm → live b pos → b.kids pos = some child → 0 < b.bits.count → 0 < child.bits.count →
    child.bits.count < (c.N + 1) / 2 →
    ∃ b' ch, b.under c.lim M pos child = .ok (b', ch) ∧
      (Ok (N := c.N) h (d + 2) b' adm ∧ (∀ x y, hasT (N := c.N) h (d + 2) b' x y ↔ hasT (N := c.N) h (d + 2) b x y) ∨
        b'.bits.count = 0 ∧ Ok (N := c.N) h (d + 1) ch adm ∧ ∀ x y, hasT (N := c.N) h (d + 1) ch x y ↔ hasT (N := c.N) h (d + 2) b x y)

/-- C92 for entries of the right neighbour and, if `M = N`, the last two children of a node, for nodes at any height.
Missing: all other cases, which are wrong (`C92_rightmost`, `C92_left_merge`, `C92_left_entries`, `C92_right_merge`, `C92_merge_full`,
`C92_merge_throws`, `C92_merge_short`). -/
theorem C92_partial (F : Laws c adm) (hR : ∀ a, R a → adm a) {h : Heap M K V} {d : Nat} {b : Branch c.N K (Branch c.N K (Tree c.N K d))}
    (ho : Ok (N := c.N) h (d + 2) b R) {pos : Nat} (hpos : live b pos) {child : Branch c.N K (Tree c.N K d)}
    (hkid : b.kids pos = some child) (hc : DonorRight b pos child ∨ M = c.N ∧ LastTwo b pos child) :
    ∃ b' ch, b.under c.lim M pos child = .ok (b', ch) ∧
      (Ok (N := c.N) h (d + 2) b' R ∧ (∀ x y, hasT (N := c.N) h (d + 2) b' x y ↔ hasT (N := c.N) h (d + 2) b x y) ∨
        b'.bits.count = 0 ∧ Ok (N := c.N) h (d + 1) ch R ∧ ∀ x y, hasT (N := c.N) h (d + 1) ch x y ↔ hasT (N := c.N) h (d + 2) b x y) := by
  rcases hc with hc | ⟨hM, hc⟩
  · obtain ⟨b', ch, e, g1, _, g3, _⟩ := under_right F hR ho hpos hkid hc
    exact ⟨b', ch, e, Or.inl ⟨g1, g3⟩⟩
  · obtain ⟨b', ch, e, g0, g1, _, g3⟩ := under_last F hR ho hpos hkid hc hM
    exact ⟨b', ch, e, Or.inr ⟨g0, g1, g3⟩⟩

theorem runFull_eok (F : Laws c adm) (hM : 2 ≤ M) (hm : c.move = false → M % 64 ≠ 0) (hN : 2 ≤ c.N) (hN64 : c.N % 64 ≠ 0) :
    ∀ (ops : List (Op K V)) (t : EStore c M), EOk adm t → (∀ o ∈ ops, adm o.key) → tameFull ops t = true →
      ∃ t' bs, runFull ops t = .ok (t', bs) ∧ EOk adm t'
  | [], t, ht, _, _ => ⟨t, [], rfl, ht⟩
  | .ins k v :: ops, t, ht, ha, hc => by
    have hk : adm k := ha (.ins k v) (by simp)
    obtain ⟨t', e', g1, _⟩ := eok_insert F hM hm hN hN64 ht hk v
    rw [tameFull, e'] at hc
    rw [runFull, e', Res.ok_bind]
    exact runFull_eok F hM hm hN hN64 ops t' g1 (fun o ho => ha o (List.mem_cons_of_mem _ ho)) hc
  | .del k :: ops, t, ht, ha, hc => by
    have hk : adm k := ha (.del k) (by simp)
    rw [tameFull, Bool.and_eq_true] at hc
    obtain ⟨t1, r, e1, g1, _⟩ := eraseFull_law F ht hk hc.1
    have hc2 := hc.2
    rw [e1] at hc2
    obtain ⟨t', bs, er, g⟩ := runFull_eok F hM hm hN hN64 ops t1 g1 (fun o ho => ha o (List.mem_cons_of_mem _ ho)) hc2
    refine ⟨t', r :: bs, ?_, g⟩
    rw [runFull, e1, Res.ok_bind]
    simp only
    rw [er]
    rfl

/-- A tree of depth 2 whose root has a rightmost child with few keys. -/
def fewRight : EStore c M → Bool
  | ⟨⟨2, root, _, _⟩, _⟩ =>
    decide (0 < (Branch.bits root).count) && (match Branch.kids (C := Branch c.N K Nat) root c.N with
      | some ch => decide (0 < ch.bits.count ∧ ch.bits.count < (c.N + 1) / 2)
      | none => false)
  | _ => false

/-- C92 is false, in a tree made by inserts. -/
theorem C92_refuted (mv : Bool) : ¬ C92_statement (cfgInt 3 mv (fun _ => 0) (fun _ => (0 : Int))) (fun k => 0 ≤ k ∧ k < 2 ^ 31 - 1) 3 := by
  intro hs
  obtain ⟨t, bs, e, ht⟩ := runFull_eok (M := 3) (laws_int 3 mv (fun _ => 0) (fun _ => (0 : Int))) (by decide) (fun _ => by decide) (by show 2 ≤ 3; decide) (by show 3 % 64 ≠ 0; decide)
    [.ins 10 1, .ins 20 1, .ins 30 1, .ins 40 1, .ins 50 1, .ins 60 1, .ins 70 1, .ins 80 1, .ins 90 1, .ins 100 1] (EStore.empty _ 3)
    ⟨tok_empty _ _, fun i hi => by cases hi⟩ (by decide) (by cases mv <;> decide +kernel)
  have hf : fewRight t = true := by
    have : (match runFull [.ins 10 1, .ins 20 1, .ins 30 1, .ins 40 1, .ins 50 1, .ins 60 1, .ins 70 1, .ins 80 1, .ins 90 1, .ins 100 1]
        (EStore.empty (cfgInt 3 mv (fun _ => 0) (fun _ => (0 : Int))) 3) with
        | .ok (t, _) => fewRight t
        | _ => false) = true := by cases mv <;> decide +kernel
    rw [e] at this
    exact this
  obtain ⟨⟨d, root, heap, first⟩, dead⟩ := t
  match d, root, ht, hf with
  | 0, _, _, hf => cases hf
  | 1, _, _, hf => cases hf
  | d + 3, _, _, hf => cases hf
  | 2, root, ht, hf =>
    rw [fewRight, Bool.and_eq_true, decide_eq_true_eq] at hf
    obtain ⟨h1, h2⟩ := hf
    cases hk : Branch.kids (C := Branch 3 Int Nat) root (cfgInt 3 mv (fun _ => 0) (fun _ => (0 : Int))).N with
    | none => rw [hk] at h2; cases h2
    | some ch =>
      rw [hk] at h2
      have h2 := of_decide_eq_true h2
      obtain ⟨b', c', e', _⟩ := hs heap 0 root 3 ch ht.tok.ok (Or.inr rfl) hk h1 h2.1 h2.2
      have hub : Branch.under (C := Nat) (cfgInt 3 mv (fun _ => 0) (fun _ => (0 : Int))).lim 3 root 3 ch = .ub := C92_rightmost _ _ _
      have e'' : Branch.under (C := Nat) (cfgInt 3 mv (fun _ => 0) (fun _ => (0 : Int))).lim 3 root 3 ch = .ok (b', c') := e'
      rw [hub] at e''
      cases e''

end Verif.BitTree
