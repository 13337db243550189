import Verif.BitTree.NodeSpec

/-!
# The branch-level functions of the Bit trees on neighbouring nodes
-/

set_option linter.unusedSectionVars false

namespace Verif.BitTree

open Verif Search FPTree BTree

variable {K V : Type} {M N : Nat} {C : Type} [LinearOrder K] [Inhabited K] {c : Cfg K V} {adm : K → Prop}
variable {P : C → (K → Prop) → Prop} {G : C → Set Nat} {Q R : K → Prop}

/-- The configuration for branch nodes seen as leaves. -/
def Cfg.nodes (c : Cfg K V) (C : Type) : Cfg K (Option C) := ⟨c.N, c.lim, c.cv, c.move, c.junkKeys, fun _ => none⟩

theorem Laws.nodes (F : Laws c adm) : Laws (c.nodes C) adm := ⟨F.conv, F.mono, F.lim⟩

/-- A branch node from a leaf with children. -/
def Leaf.node (l : Leaf N K (Option C)) : Branch N K C := ⟨l.bits, l.keys, l.vals⟩

theorem node_asLeaf (l : Leaf N K (Option C)) : l.node.asLeaf = l := rfl

theorem set_lt {b b' : Bitmap N} {u : Nat} {v : Bool} (e : b.set u v = .ok b') : u < N := by
  unfold Bitmap.set at e
  by_contra h
  rw [if_pos (by omega)] at e
  cases e

theorem fill_node {b : Branch N K C} {u : Nat} {k : K} {x : Option C} {l : Leaf N K (Option C)} (e : b.asLeaf.fill u k x = .ok l) :
    b.fill u k x = .ok l.node ∧ l.vals N = b.kids N := by
  unfold Leaf.fill at e
  obtain ⟨bits, e1, e2⟩ := Res.bind_eq_ok.1 e
  have hu := set_lt e1
  have e1 : b.bits.set u = .ok bits := e1
  rw [Res.pure_eq] at e2
  cases e2
  refine ⟨?_, ?_⟩
  · unfold Branch.fill
    rw [Res.guardUB_pos hu, Res.ok_bind, e1]
    rfl
  · exact upd_ne (by omega)

theorem mergeLoop_node {n : Branch N K C} : ∀ (m i : Nat) (s : Branch N K C) (l : Leaf N K (Option C)),
    s.asLeaf.mergeLoop n.asLeaf i m = .ok l → s.mergeLoop n i m = .ok l.node
  | 0, i, s, l, e => by cases e; rfl
  | m + 1, i, s, l, e => by
    rw [Leaf.mergeLoop] at e
    obtain ⟨b, e1, e⟩ := Res.bind_eq_ok.1 e
    have e1 : n.bits.test i = .ok b := e1
    rw [Branch.mergeLoop, e1, Res.ok_bind]
    split at e
    · rename_i hb
      rw [if_pos hb]
      obtain ⟨k, e2, f1⟩ := Res.bind_eq_ok.1 e
      obtain ⟨x, e3, f2⟩ := Res.bind_eq_ok.1 f1
      obtain ⟨l1, e4, f3⟩ := Res.bind_eq_ok.1 f2
      have hi : i < N := by
        unfold rdA at e2
        by_contra h
        rw [if_neg h] at e2
        cases e2
      rw [rdA_ok hi] at e2 e3
      cases e2
      cases e3
      have e4 := fill_node (b := s) e4
      rw [rdA_ok hi, Res.ok_bind, rdA_ok (by omega), Res.ok_bind]
      show (s.fill s.bits.getFreeZero (n.keys i) (n.kids i) >>= _) = _
      have e5 : s.fill s.bits.getFreeZero (n.keys i) (n.kids i) = .ok l1.node := e4.1
      rw [e5, Res.ok_bind]
      exact mergeLoop_node m (i + 1) l1.node l f3
    · rename_i hb
      rw [if_neg hb]
      exact mergeLoop_node m (i + 1) s l e

theorem moveLoop_node (up : Bool) : ∀ (n : Nat) (d r : Branch N K C) (d' r' : Leaf N K (Option C)),
    Leaf.balanceLoop (c.nodes C) up d.asLeaf r.asLeaf n = .ok (d', r') →
    Branch.moveLoop c.lim up d r n = .ok (d'.node, r'.node) ∧ d'.keys = d.keys ∧ d'.vals = d.kids ∧ r'.vals N = r.kids N
  | 0, d, r, d', r', e => by cases e; exact ⟨rfl, rfl, rfl, rfl⟩
  | n + 1, d, r, d', r', e => by
    rw [Leaf.balanceLoop] at e
    obtain ⟨m, e1, f1⟩ := Res.bind_eq_ok.1 e
    obtain ⟨k, e2, f2⟩ := Res.bind_eq_ok.1 f1
    obtain ⟨x, e3, f3⟩ := Res.bind_eq_ok.1 f2
    obtain ⟨l1, e4, f4⟩ := Res.bind_eq_ok.1 f3
    obtain ⟨bits, e5, f5⟩ := Res.bind_eq_ok.1 f4
    have hm : m < N := by
      unfold rdA at e2
      by_contra h
      rw [if_neg h] at e2
      cases e2
    rw [rdA_ok hm] at e2 e3
    cases e2
    cases e3
    obtain ⟨e4, e6⟩ := fill_node (b := r) e4
    have e1 : (if up then findMaxKeyPosBits c.lim (fun i : Fin N => d.keys i) d.bits
      else findMinKeyPosBits c.lim (fun i : Fin N => d.keys i) d.bits) = .ok m := e1
    have e5 : d.bits.reset m = .ok bits := e5
    have e4 : r.fill r.bits.getFreeZero (d.keys m) (d.kids m) = .ok l1.node := e4
    obtain ⟨g1, g2, g3, g4⟩ := moveLoop_node up n { d with bits := bits } l1.node d' r' f5
    refine ⟨?_, g2, g3, g4.trans e6⟩
    rw [Branch.moveLoop, e1, Res.ok_bind, rdA_ok hm, Res.ok_bind, rdA_ok (by omega), Res.ok_bind, e4, Res.ok_bind, e5, Res.ok_bind, g1]

theorem count_asLeaf {b : Branch N K C} (h : LOk b.asLeaf) : b.bits.count = used b.asLeaf := by
  have := count_used h
  exact this

/-- `balanceBranchNodes` with the right neighbour: the node cut at the new separator. -/
theorem balance_right (F : Laws c adm) (hQ : ∀ a, Q a → adm a) (hP : ∀ x R R', (∀ k, R k → R' k) → P x R → P x R')
    {d r : Branch N K C} {s : K} (hs : Q s) (hk : ∃ k, Q k ∧ k < s) (hr : BOk P G r (fun a => Q a ∧ a < s))
    (hd : BOk P G d (fun a => Q a ∧ s ≤ a)) (hdis : ∀ x y, Kid r x → Kid d y → Disjoint (G x) (G y))
    (hlt : r.bits.count < d.bits.count) (h0 : 0 < r.bits.count) :
    ∃ d' r' m, d.balance c.lim r s = .ok (d', r', m) ∧ Q m ∧ s < m ∧ BOk P G r' (fun a => Q a ∧ a < m) ∧
      BOk P G d' (fun a => Q a ∧ m ≤ a) ∧ (∀ x, Kid d' x ∨ Kid r' x ↔ Kid d x ∨ Kid r x) ∧
      (∀ x y, Kid r' x → Kid d' y → Disjoint (G x) (G y)) := by
  obtain ⟨hrl, hrf, lr, hlr, hrs⟩ := (bok_iff hP).1 hr
  obtain ⟨hdl, hdf, ld, hld, hds⟩ := (bok_iff hP).1 hd
  have cr : r.bits.count = used r.asLeaf := count_asLeaf hrl
  have cd : d.bits.count = used d.asLeaf := count_asLeaf hdl
  have hdN : used d.asLeaf ≤ N := by
    unfold used
    have : BitmapSpec.members d.asLeaf.bits ⊆ Finset.range N := fun p hp => Finset.mem_range.2 (Bitmap.mem_members.1 hp).1
    simpa using Finset.card_le_card this
  have ltr : ∀ k x, Has r.asLeaf k x → k < s := by
    intro k o h
    obtain ⟨x, rfl⟩ := hrf k o h
    exact (hrs.sep k x h).1.2
  have ltd : ∀ k x, Has d.asLeaf k x → s < k ∧ Q k := by
    intro k o h
    obtain ⟨x, rfl⟩ := hdf k o h
    obtain ⟨h1, k0, h2, h3⟩ := hds.sep k x h
    exact ⟨lt_of_le_of_lt h2.2 h3, h1.1⟩
  have first : ∀ b : Branch N K C, LOk b.asLeaf → 0 < used b.asLeaf → b.bits.getFirstSet < N ∧
      Has b.asLeaf (b.keys b.bits.getFirstSet) (b.kids b.bits.getFirstSet) := by
    intro b hb hu
    rcases Bitmap.getFirstSet_spec (b := b.bits) hb.clean with ⟨h1, h2, _⟩ | ⟨_, h2⟩
    · exact ⟨h1, _, h1, h2, rfl, rfl⟩
    · obtain ⟨q, hq⟩ := Finset.card_pos.1 hu
      obtain ⟨hq, hbq⟩ := Bitmap.mem_members.1 hq
      exact absurd (show Bitmap.bit b.bits q = true from hbq) (by rw [h2 q hq]; decide)
  obtain ⟨fd1, fd2⟩ := first d hdl (by omega)
  obtain ⟨fr1, fr2⟩ := first r hrl (by omega)
  obtain ⟨f1, f2⟩ := free_of_zero (room_of_used (l := r.asLeaf) (by omega))
  obtain ⟨r1, e1, g1, g2, g3⟩ := fill_law hrl f1 f2 (k := s) (some lr) (fun w hw => lt_irrefl _ (ltr _ _ hw))
  have ur1 : used r1 = used r.asLeaf + 1 := used_fill f1 f2 g3
  set n := d.bits.count - (d.bits.count + r.bits.count) / 2 with hn
  have hn0 : n ≠ 0 := by omega
  obtain ⟨d2, r2, e2, k1, k2, k3, k4, k5, k6, k7⟩ := balanceLoop_law (F.nodes (C := C)) false (n - 1) d.asLeaf r1 hdl g1
    (fun x y h => hQ x (ltd x y h).2) (fun x y z w h1 h2 => by
      show z < x
      rcases (g2 z w).1 h2 with ⟨rfl, _⟩ | h2
      · exact (ltd x y h1).1
      · exact lt_trans (ltr z w h2) (ltd x y h1).1) (by omega) (by omega)
  obtain ⟨e1', e1N⟩ := fill_node (b := r) e1
  obtain ⟨e2', ek, ev, eN⟩ := moveLoop_node (c := c) false (n - 1) d r1.node d2 r2 e2
  obtain ⟨q, hq⟩ := Finset.card_pos.1 (show 0 < (BitmapSpec.members d2.bits).card from by
    have : 0 < used d2 := by omega
    exact this)
  obtain ⟨hq, hbq⟩ := Bitmap.mem_members.1 hq
  have hd2 : ∀ k x, Has d2 k x → Has d.asLeaf k x := by
    intro k x h
    rcases (k3 k x).2 (Or.inl h) with h' | h'
    · exact h'
    · exact absurd (k5 _ _ _ _ h (k4 _ _ h')) (lt_irrefl _)
  have haq : adm (d2.keys q) := hQ _ (ltd _ _ (hd2 _ _ ⟨q, hq, hbq, rfl, rfl⟩)).2
  obtain ⟨p, ep, hp, hbp, hmin⟩ := minOf (lim := c.lim) (keys := d2.keys) hq hbq (F.lim _ haq).2
  have hmem : Has d2 (d2.keys p) (d2.vals p) := ⟨p, hp, hbp, rfl, rfl⟩
  obtain ⟨x, hx⟩ := hdf _ _ (hd2 _ _ hmem)
  obtain ⟨b, eb, j1, j2, j3⟩ := reset_law k1 hp hbp
  have hm := ltd _ _ (hd2 _ _ hmem)
  have hS := merge_spec hP hs hk hrs hds (by
    rintro x y hx hy
    refine hdis x y (kid_iff.2 ?_) (kid_iff.2 ?_)
    · rcases hx with h | rfl
      · exact Or.inl h
      · exact Or.inr hlr
    · rcases hy with h | rfl
      · exact Or.inl h
      · exact Or.inr hld)
  have hSm : Sep d (d2.keys p) x := by
    have := hd2 _ _ hmem
    rw [hx] at this
    exact this
  obtain ⟨s1, s2⟩ := split_spec hP hS (m := d2.keys p) (x := x) (Or.inr (Or.inr hSm))
  -- the union
  have hun : ∀ k y, Has d2 k (some y) ∨ Has r2 k (some y) ↔ (Sep r k y ∨ (k = s ∧ y = lr) ∨ Sep d k y) := by
    intro k y
    rw [← k3, g2]
    constructor
    · rintro (h | ⟨h1, h2⟩ | h)
      · exact Or.inr (Or.inr h)
      · exact Or.inr (Or.inl ⟨h1, Option.some.inj h2⟩)
      · exact Or.inl h
    · rintro (h | ⟨h1, h2⟩ | h)
      · exact Or.inr (Or.inr h)
      · exact Or.inr (Or.inl ⟨h1, by rw [h2]⟩)
      · exact Or.inl h
  have hge : ∀ k y, Has d2 k y → d2.keys p ≤ k := by
    rintro k y ⟨i, hi, hbi, rfl, _⟩
    exact hmin i hi hbi
  have hlt2 : ∀ k y, Has r2 k y → k < d2.keys p := fun k y h => k5 _ _ _ _ hmem h
  set d' : Branch N K C := ⟨b, d2.keys, d2.vals⟩ with hd'
  set r' : Branch N K C := ⟨r2.bits, r2.keys, upd r2.vals N (some x)⟩ with hr'
  have hasr : ∀ k y, Has r'.asLeaf k y ↔ Has r2 k y := by
    intro k y
    constructor
    · rintro ⟨i, hi, hbi, h1, h2⟩
      exact ⟨i, hi, hbi, h1, by rw [← h2]; exact (upd_ne (by omega)).symm⟩
    · rintro ⟨i, hi, hbi, h1, h2⟩
      exact ⟨i, hi, hbi, h1, by rw [← h2]; exact (upd_ne (by omega))⟩
  have sepr : ∀ k y, Sep r' k y ↔ (Sep r k y ∨ (k = s ∧ y = lr) ∨ Sep d k y) ∧ k < d2.keys p := by
    intro k y
    rw [← hun]
    constructor
    · intro h
      have h := (hasr _ _).1 h
      exact ⟨Or.inr h, hlt2 _ _ h⟩
    · rintro ⟨h | h, hlt⟩
      · exact absurd hlt (not_lt.2 (hge _ _ h))
      · exact (hasr _ _).2 h
  have sepd : ∀ k y, Sep d' k y ↔ (Sep r k y ∨ (k = s ∧ y = lr) ∨ Sep d k y) ∧ d2.keys p < k := by
    intro k y
    rw [← hun]
    constructor
    · intro h
      obtain ⟨h1, h2⟩ := (j2 k (some y)).1 h
      exact ⟨Or.inl h2, lt_of_le_of_ne (hge _ _ h2) (Ne.symm h1)⟩
    · rintro ⟨h | h, hlt⟩
      · exact (j2 k (some y)).2 ⟨ne_of_gt hlt, h⟩
      · exact absurd hlt (not_lt.2 (hlt2 _ _ h).le)
  have fillAll : ∀ k o, Has d2 k o ∨ Has r2 k o → ∃ x, o = some x := by
    intro k o h
    rcases (k3 k o).2 h with h | h
    · exact hdf k o h
    · rcases (g2 k o).1 h with ⟨_, h⟩ | h
      · exact ⟨lr, h⟩
      · exact hrf k o h
  have hrN : r'.kids N = some x := upd_same ..
  have hdN' : d'.kids N = some ld := by
    show d2.vals N = _
    rw [ev]; exact hld
  refine ⟨d', r', d2.keys p, ?_, hm.2, hm.1, (bok_iff hP).2 ⟨⟨k2.clean, k2.inj⟩, fun k o h => fillAll k o (Or.inr ((hasr k o).1 h)), x, hrN, s1.congr hP sepr (fun _ => Iff.rfl)⟩,
    (bok_iff hP).2 ⟨j1, fun k o h => fillAll k o (Or.inl ((j2 k o).1 h).2), ld, hdN', s2.congr hP sepd (fun _ => Iff.rfl)⟩, ?_, ?_⟩
  · unfold Branch.balance
    dsimp only
    rw [Res.assert_pos hlt, Res.ok_bind, ← hn, if_neg hn0, rdA_ok fd1, Res.ok_bind, rdA_ok fr1, Res.ok_bind,
      if_neg (not_lt.2 (lt_trans (ltr _ _ fr2) (ltd _ _ fd2).1).le), hlr]
    have e1'' : r.fill r.bits.getFreeZero s (some lr) = .ok r1.node := e1'
    rw [e1'', Res.ok_bind, e2', Res.ok_bind]
    have ep' : findMinKeyPosBits c.lim (fun i : Fin N => d2.node.keys i) d2.node.bits = .ok p := ep
    have eb' : d2.node.bits.reset p = .ok b := eb
    dsimp only
    rw [ep', Res.ok_bind, rdA_ok (by omega), Res.ok_bind, rdA_ok hp, Res.ok_bind, eb', Res.ok_bind]
    have : d2.node.kids p = some x := hx
    rw [this]
    rfl
  · intro y
    rw [kid_iff, kid_iff, kid_iff, kid_iff, hrN, hdN', hlr, hld]
    constructor
    · rintro ((⟨k, h⟩ | h) | ⟨k, h⟩ | h)
      · rcases ((sepd k y).1 h).1 with h | ⟨_, h⟩ | h
        · exact Or.inr (Or.inl ⟨k, h⟩)
        · exact Or.inr (Or.inr (by rw [h]))
        · exact Or.inl (Or.inl ⟨k, h⟩)
      · exact Or.inl (Or.inr h)
      · rcases ((sepr k y).1 h).1 with h | ⟨_, h⟩ | h
        · exact Or.inr (Or.inl ⟨k, h⟩)
        · exact Or.inr (Or.inr (by rw [h]))
        · exact Or.inl (Or.inl ⟨k, h⟩)
      · rw [← Option.some.inj h]
        exact Or.inl (Or.inl ⟨_, hSm⟩)
    · have key : ∀ k, (Sep r k y ∨ (k = s ∧ y = lr) ∨ Sep d k y) →
          ((∃ k, Sep d' k y) ∨ some ld = some y) ∨ (∃ k, Sep r' k y) ∨ some x = some y := by
        intro k h
        rcases lt_trichotomy k (d2.keys p) with hlt | he | hlt
        · exact Or.inr (Or.inl ⟨k, (sepr k y).2 ⟨h, hlt⟩⟩)
        · subst he
          rw [hS.fn _ _ _ h (Or.inr (Or.inr hSm))]
          exact Or.inr (Or.inr rfl)
        · exact Or.inl (Or.inl ⟨k, (sepd k y).2 ⟨h, hlt⟩⟩)
      rintro ((⟨k, h⟩ | h) | ⟨k, h⟩ | h)
      · exact key k (Or.inr (Or.inr h))
      · exact Or.inl (Or.inr h)
      · exact key k (Or.inl h)
      · exact key s (Or.inr (Or.inl ⟨rfl, (Option.some.inj h).symm⟩))
  · intro u v hu hv
    rw [kid_iff, hrN] at hu
    rw [kid_iff, hdN'] at hv
    have hu' : ∃ k, (Sep r k u ∨ (k = s ∧ u = lr) ∨ Sep d k u) ∧ k ≤ d2.keys p := by
      rcases hu with ⟨k, h⟩ | h
      · exact ⟨k, ((sepr k u).1 h).1, ((sepr k u).1 h).2.le⟩
      · rw [← Option.some.inj h]
        exact ⟨_, Or.inr (Or.inr hSm), le_rfl⟩
    obtain ⟨k, hu', hle⟩ := hu'
    rcases hv with ⟨q, h⟩ | h
    · obtain ⟨h1, h2⟩ := (sepd q v).1 h
      exact hS.disj k u q v hu' h1 (ne_of_lt (lt_of_le_of_lt hle h2))
    · rw [← Option.some.inj h]
      exact hS.disjL k u hu'

end Verif.BitTree
