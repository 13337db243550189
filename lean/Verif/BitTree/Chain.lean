import Verif.BitTree.Hist

/-!
# The list of leaves

`E i x` says that leaf `i` is responsible for key `x`.  `OkG E d t R`: the responsibilities of the leaves of the
subtree `t` agree with its separators and lie in `R`.
-/

set_option linter.unusedSectionVars false

namespace Verif.BitTree

open Verif Search FPTree BTree

variable {K V : Type} {M : Nat} [LinearOrder K] [Inhabited K] {c : Cfg K V} {adm : K → Prop}

def OkG {N : Nat} (E : Nat → K → Prop) : (d : Nat) → Tree N K d → (K → Prop) → Prop
  | 0, id, R => ∀ x, E id x → R x
  | d + 1, b, R => BOk (OkG E d) (fp d) b R

theorem okG_mono {N : Nat} {E : Nat → K → Prop} : ∀ (d : Nat) (t : Tree N K d) (R R' : K → Prop), (∀ k, R k → R' k) →
    OkG E d t R → OkG E d t R'
  | 0, _, _, _, hR, h => fun x hx => hR x (h x hx)
  | d + 1, b, R, R', hR, hb => by
    refine ⟨hb.clean, hb.inj, fun p hp hbp => ?_, fun p hp => ?_, hb.disj⟩
    · obtain ⟨g1, k, g2, g3⟩ := hb.sep p hp hbp
      exact ⟨hR _ g1, k, hR _ g2, g3⟩
    · obtain ⟨x, g1, g2⟩ := hb.kid p hp
      exact ⟨x, g1, okG_mono d x _ _ (rng_mono hR) g2⟩

theorem okG_frame {N : Nat} {E E' : Nat → K → Prop} : ∀ (d : Nat) (t : Tree N K d) (R : K → Prop),
    (∀ i ∈ fp d t, E' i = E i) → OkG E d t R → OkG E' d t R
  | 0, id, R, hf, ho => fun x hx => ho x (by rw [← hf id rfl]; exact hx)
  | d + 1, b, R, hf, ho => by
    refine ⟨ho.clean, ho.inj, ho.sep, fun p hp => ?_, ho.disj⟩
    obtain ⟨x, g1, g2⟩ := ho.kid p hp
    exact ⟨x, g1, okG_frame d x _ (fun i hi => hf i ⟨x, ⟨p, hp, g1⟩, hi⟩) g2⟩

theorem okG_range {N : Nat} {E : Nat → K → Prop} : ∀ (d : Nat) (t : Tree N K d) (R : K → Prop) (i : Nat) (x : K),
    OkG E d t R → i ∈ fp d t → E i x → R x
  | 0, id, R, i, x, h, hi, hx => by
    have : i = id := hi
    subst this
    exact h x hx
  | d + 1, b, R, i, x, ho, ⟨y, ⟨p, hp, hy⟩, hi⟩, hx => by
    obtain ⟨y', g1, g2⟩ := ho.kid p hp
    rw [hy] at g1; cases g1
    exact (okG_range d y _ i x g2 hi hx).1

/-- The descent ends in the leaf responsible for the key. -/
theorem findLeaf_ghost (F : Laws c adm) {E : Nat → K → Prop} : ∀ (d : Nat) (t : Tree c.N K d) (R : K → Prop) (i : Nat) (x : K),
    (∀ k, R k → adm k) → OkG E d t R → i ∈ fp d t → E i x → findLeaf c d t x = .ok i
  | 0, id, R, i, x, _, _, hi, _ => by
    have : i = id := hi
    subst this
    rfl
  | d + 1, b, R, i, x, hR, ho, ⟨y, ⟨q, hq, hy⟩, hi⟩, hx => by
    obtain ⟨y', g1, g2⟩ := ho.kid q hq
    rw [hy] at g1; cases g1
    have hrq := okG_range d y _ i x g2 hi hx
    obtain ⟨p, e, hp, hr⟩ := pos_law (lim := c.lim) (sep_max F hR ho) hrq.1
    have := rng_unique ho hq hp hrq hr
    subst this
    rw [findLeaf, e, Res.ok_bind, kid_ok (live_lt hq) hy, Res.ok_bind]
    exact findLeaf_ghost F d y _ i x (fun k hk => hR k hk.1) g2 hi hx

/-- Responsibilities after leaf `id` has been split at `s` into `id` and `n`. -/
def split1 (E : Nat → K → Prop) (id : Nat) : Option (K × Nat) → Nat → K → Prop
  | none => E
  | some (s, n) => fun i x => if i = id then E id x ∧ x < s else if i = n then E id x ∧ s ≤ x else E i x

/-- The leaf added by the split. -/
def added : Option (K × Nat) → Nat → Prop
  | none, _ => False
  | some (_, n), i => i = n

theorem split1_frame {E : Nat → K → Prop} {id i : Nat} {sp : Option (K × Nat)} (h1 : i ≠ id) (h2 : ¬ added sp i) :
    split1 E id sp i = E i := by
  match sp with
  | none => rfl
  | some (s, n) =>
    funext x
    unfold split1
    simp only
    rw [if_neg h1, if_neg (show ¬ i = n from h2)]

/-- What an insertion does to the leaves and their responsibilities. -/
def InsG {N : Nat} (E : Nat → K → Prop) (d : Nat) (t t' : Tree N K d) (sp : Option (K × Tree N K d)) (R : K → Prop) (id : Nat)
    (spL : Option (K × Nat)) : Prop :=
  match sp with
  | none => OkG (split1 E id spL) d t' R ∧ ∀ i, i ∈ fp d t' ↔ i ∈ fp d t ∨ added spL i
  | some (s, r) => OkG (split1 E id spL) d t' (fun k => R k ∧ k < s) ∧ OkG (split1 E id spL) d r (fun k => R k ∧ s ≤ k) ∧
      ∀ i, (i ∈ fp d t' ∨ i ∈ fp d r) ↔ i ∈ fp d t ∨ added spL i

theorem insLeaf_new {h h' : Heap M K V} {id : Nat} {k : K} {v : V} {sp : Option (K × Nat)}
    (e : insLeaf c h id k v = .ok (h', sp)) : ∀ i, added sp i → i = h.length := by
  unfold insLeaf at e
  obtain ⟨x, _, e⟩ := (Res.bind_eq_ok).1 e
  obtain ⟨⟨l, q⟩, _, e⟩ := (Res.bind_eq_ok).1 e
  cases q with
  | none =>
    simp only at e
    have := Res.ok.inj e
    rw [Prod.mk.injEq] at this
    rw [← this.2]
    exact fun i hi => hi.elim
  | some q =>
    simp only at e
    obtain ⟨h2, e2, e⟩ := (Res.bind_eq_ok).1 e
    have := Res.ok.inj e
    rw [Prod.mk.injEq] at this
    rw [← this.2]
    intro i hi
    have hi : i = h2.length := hi
    rw [hi]
    generalize hn : x.next = nx at e2
    cases nx with
    | none => have := Res.ok.inj e2; rw [← this]; simp
    | some j =>
      unfold setPrev at e2
      obtain ⟨y, _, e2⟩ := (Res.bind_eq_ok).1 e2
      have := Res.ok.inj e2
      rw [← this]; simp

theorem insLeaf_ghost {E : Nat → K → Prop} {h h' : Heap M K V} {id : Nat} {R : K → Prop} {k : K} {v : V}
    {sp : Option (K × Nat)} (hid : id < h.length) (hg : OkG (N := c.N) E 0 id R) (e : insLeaf c h id k v = .ok (h', sp)) :
    InsG (N := c.N) E 0 id id sp R id sp := by
  have hn := insLeaf_new e
  match sp, hn with
  | none, _ => exact ⟨hg, fun i => ⟨Or.inl, fun h => h.elim (fun h => h) (fun h => h.elim)⟩⟩
  | some (s, n), hn =>
    have hne : n ≠ id := by have := hn n rfl; omega
    refine ⟨fun x hx => ?_, fun x hx => ?_, fun i => Iff.rfl⟩
    · have hx : if id = id then E id x ∧ x < s else if id = n then E id x ∧ s ≤ x else E id x := hx
      rw [if_pos rfl] at hx
      exact ⟨hg x hx.1, hx.2⟩
    · have hx : if n = id then E id x ∧ x < s else if n = n then E id x ∧ s ≤ x else E n x := hx
      rw [if_neg hne, if_pos rfl] at hx
      exact ⟨hg x hx.1, hx.2⟩

theorem ins_ghost (F : Laws c adm) (hM : 2 ≤ M) (hm : c.move = false → M % 64 ≠ 0) (hN : 2 ≤ c.N) (hN64 : c.N % 64 ≠ 0)
    {E : Nat → K → Prop} :
    ∀ (d : Nat) (h : Heap M K V) (t : Tree c.N K d) (R : K → Prop) (k : K) (v : V), LinkOk h → (∀ k, R k → adm k) →
    Ok h d t R → OkG E d t R → R k → ∀ h' t' sp, ins c d h t k v = .ok (h', t', sp) →
    ∃ id spL, id ∈ fp d t ∧ findLeaf c d t k = .ok id ∧ insLeaf c h id k v = .ok (h', spL) ∧ InsG E d t t' sp R id spL
  | 0, h, id, R, k, v, hL, hR, ho, hg, hk, h', t', sp, e => by
    have hid := fp_lt 0 id R ho id rfl
    rw [ins] at e
    obtain ⟨⟨h1, sp1⟩, e1, e⟩ := (Res.bind_eq_ok).1 e
    obtain ⟨rfl, e9⟩ := Prod.mk.inj (Res.ok.inj e)
    obtain ⟨rfl, rfl⟩ := Prod.mk.inj e9
    exact ⟨id, sp1, rfl, rfl, e1, insLeaf_ghost hid hg e1⟩
  | d + 1, h, b, R, k, v, hL, hR, ho, hg, hk, h', t', sp, e => by
    obtain ⟨p, ep, hp, hr⟩ := pos_law (lim := c.lim) (sep_max F hR ho) hk
    obtain ⟨x, hx, hox⟩ := ho.kid p hp
    obtain ⟨xg, hxg, hgx⟩ := hg.kid p hp
    rw [hx] at hxg; cases hxg
    obtain ⟨h1, x', sp1, e1, g1, g2, g3, g4, g5⟩ := ins_law F hM hm hN hN64 d h x _ k v hL (fun k hk => hR k hk.1) hox hr
    obtain ⟨id, spL, i1, i2, i3, i4⟩ := ins_ghost F hM hm hN hN64 d h x _ k v hL (fun k hk => hR k hk.1) hox hgx hr _ _ _ e1
    rw [ins, ep, Res.ok_bind, kid_ok (live_lt hp) hx, Res.ok_bind, e1, Res.ok_bind] at e
    simp only at e
    have hnew := insLeaf_new i3
    have fr : ∀ q y, live b q → q ≠ p → b.kids q = some y → ∀ i ∈ fp d y, i ∉ fp d x ∧ i < h.length := by
      intro q y hq hne hy i hi
      obtain ⟨y', k1, k2⟩ := ho.kid q hq
      rw [hy] at k1; cases k1
      exact ⟨Set.disjoint_left.1 (ho.disj q p y x hq hp hne hy hx) hi, fp_lt d y _ k2 i hi⟩
    have oth : ∀ q y, live b q → q ≠ p → b.kids q = some y → OkG E d y (rng b R q) →
        OkG (split1 E id spL) d y (rng b R q) := by
      intro q y hq hne hy hoy
      refine okG_frame d y _ (fun i hi => ?_) hoy
      obtain ⟨f1, f2⟩ := fr q y hq hne hy i hi
      refine split1_frame (fun h => f1 (by rw [h]; exact i1)) (fun h => ?_)
      have := hnew i h
      omega
    have apart : ∀ (z : Tree c.N K d), (∀ i ∈ fp d z, i ∈ fp d x ∨ h.length ≤ i) → ∀ q y, live b q → q ≠ p → b.kids q = some y →
        Disjoint (fp d z) (fp d y) := by
      intro z hz q y hq hne hy
      rw [Set.disjoint_left]
      intro i hi hi'
      obtain ⟨f1, f2⟩ := fr q y hq hne hy i hi'
      rcases hz i hi with h1 | h1
      · exact f1 h1
      · omega
    have hfl : findLeaf c (d + 1) b k = .ok id := by
      rw [findLeaf, ep, Res.ok_bind, kid_ok (live_lt hp) hx, Res.ok_bind, i2]
    set b1 : Branch c.N K (Tree c.N K d) := { b with kids := upd b.kids p (some x') } with hb1
    have kid1p : b1.kids p = some x' := by rw [hb1]; simp [upd]
    have kid1q : ∀ q, q ≠ p → b1.kids q = b.kids q := by intro q hq; rw [hb1]; simp [upd, hq]
    have kids1 : ∀ z, Kid b1 z ↔ z = x' ∨ ∃ q, live b q ∧ q ≠ p ∧ b.kids q = some z := by
      intro z
      constructor
      · rintro ⟨q, hq, hz⟩
        by_cases hqp : q = p
        · subst hqp; rw [kid1p] at hz; cases hz; exact Or.inl rfl
        · exact Or.inr ⟨q, hq, hqp, by rw [← kid1q q hqp]; exact hz⟩
      · rintro (rfl | ⟨q, hq, hqp, hz⟩)
        · exact ⟨p, hp, kid1p⟩
        · exact ⟨q, hq, by rw [kid1q q hqp]; exact hz⟩
    have kids0 : ∀ i, i ∈ fp (d + 1) b ↔ i ∈ fp d x ∨ ∃ q z, live b q ∧ q ≠ p ∧ b.kids q = some z ∧ i ∈ fp d z := by
      intro i
      constructor
      · rintro ⟨z, ⟨q, hq, hz⟩, hi⟩
        by_cases hqp : q = p
        · subst hqp; rw [hx] at hz; cases hz; exact Or.inl hi
        · exact Or.inr ⟨q, z, hq, hqp, hz, hi⟩
      · rintro (hi | ⟨q, z, hq, hqp, hz, hi⟩)
        · exact ⟨x, ⟨p, hp, hx⟩, hi⟩
        · exact ⟨z, ⟨q, hq, hz⟩, hi⟩
    have fp1 : ∀ i, (∃ z, Kid b1 z ∧ i ∈ fp d z) ↔ i ∈ fp d x' ∨ ∃ q z, live b q ∧ q ≠ p ∧ b.kids q = some z ∧ i ∈ fp d z := by
      intro i
      constructor
      · rintro ⟨z, hz, hi⟩
        rcases (kids1 z).1 hz with rfl | ⟨q, hq, hqp, hz'⟩
        · exact Or.inl hi
        · exact Or.inr ⟨q, z, hq, hqp, hz', hi⟩
      · rintro (hi | ⟨q, z, hq, hqp, hz, hi⟩)
        · exact ⟨x', (kids1 _).2 (Or.inl rfl), hi⟩
        · exact ⟨z, (kids1 _).2 (Or.inr ⟨q, hq, hqp, hz⟩), hi⟩
    refine ⟨id, spL, ⟨x, ⟨p, hp, hx⟩, i1⟩, hfl, ?_⟩
    match sp1, g5, i4, e with
    | none, ⟨g5, g6⟩, ⟨j1, j2⟩, e =>
      obtain ⟨rfl, e9⟩ := Prod.mk.inj (Res.ok.inj e)
      obtain ⟨rfl, rfl⟩ := Prod.mk.inj e9
      refine ⟨i3, replace_law hg hp j1 oth (apart x' g4), fun i => ?_⟩
      refine (fp1 i).trans ?_
      rw [kids0, j2]
      exact or_right_comm
    | some (s, right), ⟨g5, ⟨k0, g6, g6'⟩, g7, g8, g9, g10, g11⟩, ⟨j1, j2, j3⟩, e =>
      have hb1ok : BOk (OkG (split1 E id spL) d) (fp d) b1 R := replace_law hg hp
        (okG_mono d x' _ _ (fun k hk => hk.1) j1) oth (apart x' g4)
      have hdr : ∀ z, Kid b1 z → Disjoint (fp d right) (fp d z) := by
        intro z hz
        rcases (kids1 z).1 hz with rfl | ⟨q, hq, hqp, hz'⟩
        · exact g10.symm
        · exact apart right g9 q z hq hqp hz'
      obtain ⟨b', sp', e2, hres⟩ := addSplit_law (okG_mono d) hN hN64 (fun k hk => F.conv k (hR k hk))
        (fun a a' ha ha' => F.mono a a' (hR a ha) (hR a' ha')) (fun k hk => (F.lim k (hR k hk)).2) hb1ok
        (p := p) hp (key := k) (s := s) (left := x') (right := right) hr kid1p g5 ⟨k0, g6, g6'⟩ j1 j2 hdr
      simp only at e
      rw [e2, Res.ok_bind] at e
      obtain ⟨rfl, e9⟩ := Prod.mk.inj (Res.ok.inj e)
      obtain ⟨rfl, rfl⟩ := Prod.mk.inj e9
      refine ⟨i3, ?_⟩
      have hall : ∀ i, ((∃ z, Kid b1 z ∧ i ∈ fp d z) ∨ i ∈ fp d right) ↔ i ∈ fp (d + 1) b ∨ added spL i := by
        intro i
        rw [fp1, kids0]
        have := j3 i
        constructor
        · rintro ((h1 | h1) | h1)
          · rcases this.1 (Or.inl h1) with h | h
            exacts [Or.inl (Or.inl h), Or.inr h]
          · exact Or.inl (Or.inr h1)
          · rcases this.1 (Or.inr h1) with h | h
            exacts [Or.inl (Or.inl h), Or.inr h]
        · rintro ((h1 | h1) | h1)
          · rcases this.2 (Or.inl h1) with h | h
            exacts [Or.inl (Or.inl h), Or.inr h]
          · exact Or.inl (Or.inr h1)
          · rcases this.2 (Or.inr h1) with h | h
            exacts [Or.inl (Or.inl h), Or.inr h]
      match sp', hres with
      | none, ⟨r1, r2⟩ =>
        refine ⟨r1, fun i => ?_⟩
        rw [← hall]
        exact r2 (fun z => i ∈ fp d z)
      | some (sk, b2), ⟨r0, r1, r2, r3, r4, r5⟩ =>
        refine ⟨r2, r3, fun i => ?_⟩
        rw [← hall]
        exact r4 (fun z => i ∈ fp d z)

/-- `nextLeaf` of the leaf `i`. -/
def nextOf (h : Heap M K V) (i : Nat) : Option (Option Nat) := (h[i]?).map Cell.next

/-- The leaf `i` holds an entry. -/
def Filled (h : Heap M K V) (i : Nat) : Prop := ∃ l, core h i = some l ∧ ∃ k v, Has l k v

/-- What the insertion into a leaf does to the links. -/
def LinkPost (h h' : Heap M K V) (id : Nat) : Option (K × Nat) → Prop
  | none => nextOf h' id = nextOf h id ∧ h'.length = h.length
  | some (_, n) => n = h.length ∧ h'.length = h.length + 1 ∧ nextOf h' id = some (some n) ∧ nextOf h' n = nextOf h id ∧ Filled h' n

theorem insLeaf_links (F : Laws c adm) (hM : 2 ≤ M) (hm : c.move = false → M % 64 ≠ 0) {h : Heap M K V}
    (hL : LinkOk h) {id : Nat} {x : Cell M K V} (hx : h[id]? = some x) (hl : LOk x.leaf) (ha : ∀ a b, Has x.leaf a b → adm a)
    {k : K} {v : V} {h' : Heap M K V} {sp : Option (K × Nat)} (e : insLeaf c h id k v = .ok (h', sp)) :
    (∀ i, i < h.length → i ≠ id → nextOf h' i = nextOf h i ∧ core h' i = core h i) ∧ Filled h' id ∧
    LinkPost h h' id sp := by
  obtain ⟨hid, hx'⟩ := List.getElem?_eq_some_iff.1 hx
  unfold insLeaf at e
  rw [hx, Res.ofOption_some, Res.ok_bind] at e
  obtain ⟨l', q, e1, hl', hq⟩ := insert_law F hM hm hl ha k v
  rw [e1, Res.ok_bind] at e
  match q, hq, e with
  | none, hq, e =>
    obtain ⟨rfl, rfl⟩ := Prod.mk.inj (Res.ok.inj e)
    refine ⟨fun i hi hne => ?_, ⟨l', ?_, k, v, (hq k v).2 (Or.inl ⟨rfl, rfl⟩)⟩, ?_⟩
    · unfold nextOf core
      rw [List.getElem?_set_ne (fun e => hne e.symm)]
      exact ⟨rfl, rfl⟩
    · unfold core
      rw [List.getElem?_set_self hid]; rfl
    · unfold LinkPost nextOf
      rw [List.getElem?_set_self hid, hx, List.length_set]; exact ⟨rfl, rfl⟩
  | some (s, r), ⟨q1, q2, q3, q4, q5⟩, e =>
    simp only at e
    obtain ⟨h2, e2, f1, f2, f3⟩ := setPrev_law (h := h.set id { x with leaf := l', next := some h.length }) x.next
      (fun i hi => by rw [List.length_set]; exact hL id x hx i hi) h.length
    rw [e2, Res.ok_bind] at e
    rw [List.length_set] at f1
    obtain ⟨rfl, e3⟩ := Prod.mk.inj (Res.ok.inj e)
    obtain rfl := e3
    have app : ∀ i, i < h.length → nextOf (h2 ++ [⟨r, x.next, some id⟩]) i = nextOf (h.set id { x with leaf := l', next := some h.length }) i ∧
        core (h2 ++ [⟨r, x.next, some id⟩]) i = core (h.set id { x with leaf := l', next := some h.length }) i := by
      intro i hi
      constructor
      · rw [← show nextOf h2 i = nextOf (h.set id { x with leaf := l', next := some h.length }) i from f3 i]
        unfold nextOf
        rw [List.getElem?_append_left (by omega)]
      · rw [← f2 i]
        unfold core
        rw [List.getElem?_append_left (by omega)]
    have new : (h2 ++ [⟨r, x.next, some id⟩])[h2.length]? = some ⟨r, x.next, some id⟩ := by
      rw [List.getElem?_append_right (le_refl _)]; simp
    refine ⟨fun i hi hne => ?_, ?_, f1, by simp [f1], ?_, ?_, ?_⟩
    · obtain ⟨a1, a2⟩ := app i hi
      rw [a1, a2]
      unfold nextOf core
      rw [List.getElem?_set_ne (fun e => hne e.symm)]
      exact ⟨rfl, rfl⟩
    · obtain ⟨a, b, hab⟩ := q4
      refine ⟨l', ?_, a, b, hab⟩
      rw [(app id hid).2]
      unfold core
      rw [List.getElem?_set_self hid]; rfl
    · rw [(app id hid).1]
      unfold nextOf
      rw [List.getElem?_set_self hid, f1]; rfl
    · unfold nextOf
      rw [new, hx]; rfl
    · obtain ⟨b, hb⟩ := q5
      refine ⟨r, ?_, s, b, hb⟩
      unfold core
      rw [new]; rfl

/-- The leaves `ids` follow one another along `nextLeaf`, beginning at `o`, and the last one has no successor. -/
def Linked (h : Heap M K V) : Option Nat → List Nat → Prop
  | o, [] => o = none
  | o, i :: is => o = some i ∧ ∃ n, nextOf h i = some n ∧ Linked h n is

theorem linked_frame {h h' : Heap M K V} : ∀ (ids : List Nat) (o : Option Nat), (∀ i ∈ ids, nextOf h' i = nextOf h i) →
    Linked h o ids → Linked h' o ids
  | [], _, _, h => h
  | i :: is, o, hf, ⟨h1, n, h2, h3⟩ =>
    ⟨h1, n, by rw [hf i (by simp)]; exact h2, linked_frame is n (fun j hj => hf j (by simp [hj])) h3⟩

theorem linked_insert {h h' : Heap M K V} {id n : Nat} (hid : nextOf h' id = some (some n)) (hn : nextOf h' n = nextOf h id) :
    ∀ (l r : List Nat) (o : Option Nat), (∀ i ∈ l ++ r, nextOf h' i = nextOf h i) → Linked h o (l ++ id :: r) →
    Linked h' o (l ++ id :: n :: r)
  | [], r, o, hf, ⟨h1, m, h2, h3⟩ => ⟨h1, some n, hid, rfl, m, hn.trans h2, linked_frame r m hf h3⟩
  | i :: l, r, o, hf, ⟨h1, m, h2, h3⟩ => ⟨h1, m, by rw [hf i (by simp)]; exact h2,
      linked_insert hid hn l r m (fun j hj => hf j (by simp only [List.cons_append, List.mem_cons]; exact Or.inr hj)) h3⟩

/-- The leaves of the tree form the list `ids` from `leafList` on; `E` gives their ranges. -/
structure ChainOk (adm : K → Prop) (t : Store c M) (E : Nat → K → Prop) (ids : List Nat) : Prop where
  gok : OkG E t.depth t.root adm
  cover : ∀ x, adm x → ∃ i ∈ ids, E i x
  link : Linked t.heap (some t.first) ids
  nodup : ids.Nodup
  mem : ∀ i, i ∈ ids ↔ i ∈ fp t.depth t.root
  ord : ids.Pairwise (fun i j => ∀ a b, E i a → E j b → a < b)
  ne : 1 < ids.length → ∀ i ∈ ids, Filled t.heap i
  len : ids.length = t.heap.length

theorem chain_empty (c : Cfg K V) (M : Nat) : ChainOk adm (Store.empty c M) (fun _ => adm) [0] := by
  refine ⟨fun x hx => hx, fun x hx => ⟨0, by simp, hx⟩, ⟨rfl, none, rfl, rfl⟩, by simp, fun i => ?_, by simp, fun h => ?_, rfl⟩
  · rw [List.mem_singleton]; exact Iff.rfl
  · simp at h

/-- A new root with two children. -/
theorem root_law {C : Type} {P : C → (K → Prop) → Prop} {Fp : C → Set Nat} {N : Nat} (hN : 0 < N) {R : K → Prop}
    (hP : ∀ x R R', (∀ k, R k → R' k) → P x R → P x R') {s : K} {x y : C} {b' : Bitmap N} (eb : (Bitmap.fresh N).set 0 = .ok b')
    (hs : R s) (hk : ∃ k, R k ∧ k < s) (hx : P x (fun k => R k ∧ k < s)) (hy : P y (fun k => R k ∧ s ≤ k))
    (hd : Disjoint (Fp x) (Fp y)) :
    let b1 : Branch N K C := ⟨b', upd (fun _ => default) 0 s, upd (upd (fun _ => none) 0 (some x)) N (some y)⟩
    BOk P Fp b1 R ∧ ∀ z, Kid b1 z ↔ z = x ∨ z = y := by
  intro b1
  obtain ⟨b2, eb2, hbits, hcl⟩ := set_bit' (b := Bitmap.fresh N) hN true
  rw [eb] at eb2
  obtain rfl := Res.ok.inj eb2
  have hbit : ∀ q, q < N → (Bitmap.bit b1.bits q = true ↔ q = 0) := by
    intro q hq
    show Bitmap.bit b' q = true ↔ q = 0
    rw [hbits q hq, bit_fresh]
    by_cases e : q = 0 <;> simp [e]
  have hlive : ∀ q, live b1 q ↔ q = 0 ∨ q = N := by
    intro q
    unfold live
    constructor
    · rintro (⟨h1, h2⟩ | h1)
      · exact Or.inl ((hbit q h1).1 h2)
      · exact Or.inr h1
    · rintro (rfl | h1)
      · exact Or.inl ⟨hN, (hbit 0 hN).2 rfl⟩
      · exact Or.inr h1
  have k0' : b1.keys 0 = s := by simp [b1, upd]
  have c0 : b1.kids 0 = some x := by simp [b1, upd, show (0 : Nat) ≠ N by omega]
  have cN : b1.kids N = some y := by simp [b1, upd]
  have rg0 : ∀ k, R k ∧ k < s → rng b1 R 0 k := by
    rintro k ⟨h1, h2⟩
    refine ⟨h1, fun _ => by rw [k0']; exact h2, fun q hq hb hlt => ?_⟩
    rw [(hbit q hq).1 hb] at hlt
    exact absurd (hlt hN) (lt_irrefl _)
  have rgN : ∀ k, R k ∧ s ≤ k → rng b1 R N k := by
    rintro k ⟨h1, h2⟩
    refine ⟨h1, fun h' => absurd h' (lt_irrefl _), fun q hq hb hlt => ?_⟩
    rw [(hbit q hq).1 hb, k0']; exact h2
  constructor
  · refine ⟨hcl Bitmap.clean_fresh, ?_, ?_, ?_, ?_⟩
    · intro i j hi hj hbi hbj _
      rw [(hbit i hi).1 hbi, (hbit j hj).1 hbj]
    · intro p hp hb
      rw [(hbit p hp).1 hb, k0']
      exact ⟨hs, hk⟩
    · intro p hp
      rcases (hlive p).1 hp with rfl | rfl
      · exact ⟨x, c0, hP _ _ _ rg0 hx⟩
      · exact ⟨y, cN, hP _ _ _ rgN hy⟩
    · intro p q x' y' hp hq hne hx' hy'
      rcases (hlive p).1 hp with rfl | rfl <;> rcases (hlive q).1 hq with rfl | rfl
      · exact absurd rfl hne
      · rw [c0] at hx'; rw [cN] at hy'; cases hx'; cases hy'; exact hd
      · rw [cN] at hx'; rw [c0] at hy'; cases hx'; cases hy'; exact hd.symm
      · exact absurd rfl hne
  · intro z
    constructor
    · rintro ⟨q, hq, hz⟩
      rcases (hlive q).1 hq with rfl | rfl
      · rw [c0] at hz; cases hz; exact Or.inl rfl
      · rw [cN] at hz; cases hz; exact Or.inr rfl
    · rintro (rfl | rfl)
      · exact ⟨0, (hlive 0).2 (Or.inl rfl), c0⟩
      · exact ⟨N, (hlive N).2 (Or.inr rfl), cN⟩

theorem core_fp {N : Nat} {h : Heap M K V} : ∀ (d : Nat) (t : Tree N K d) (R : K → Prop), Ok h d t R → ∀ i ∈ fp d t,
    ∃ x, h[i]? = some x ∧ LOk x.leaf ∧ (∀ a b, Has x.leaf a b → R a ∧ hasT h d t a b)
  | 0, id, R, ⟨x, h1, h2, h3⟩, i, hi => by
    have : i = id := hi
    subst this
    exact ⟨x, h1, h2, fun a b hab => ⟨h3 a b hab, x, h1, hab⟩⟩
  | d + 1, b, R, ho, i, ⟨x, ⟨p, hp, hx⟩, hi⟩ => by
    obtain ⟨y, g1, g2⟩ := ho.kid p hp
    rw [hx] at g1; cases g1
    obtain ⟨z, e1, e2, e3⟩ := core_fp d x _ g2 i hi
    exact ⟨z, e1, e2, fun a b hab => ⟨(e3 a b hab).1.1, x, ⟨p, hp, hx⟩, (e3 a b hab).2⟩⟩

/-- The lists of leaves before and after an insertion into leaf `id`. -/
theorem ids_step {h h' : Heap M K V} {E : Nat → K → Prop} {ids : List Nat} {id : Nat} {sp : Option (K × Nat)} {o : Option Nat}
    (hid : id ∈ ids) (hlt : ∀ i ∈ ids, i < h.length) (cover : ∀ x, adm x → ∃ i ∈ ids, E i x) (link : Linked h o ids) (nodup : ids.Nodup)
    (ord : ids.Pairwise (fun i j => ∀ a b, E i a → E j b → a < b)) (ne : 1 < ids.length → ∀ i ∈ ids, Filled h i) (len : ids.length = h.length)
    (f1 : ∀ i, i < h.length → i ≠ id → nextOf h' i = nextOf h i ∧ core h' i = core h i) (f2 : Filled h' id)
    (f3 : LinkPost h h' id sp) :
    ∃ ids', (∀ x, adm x → ∃ i ∈ ids', split1 E id sp i x) ∧ Linked h' o ids' ∧ ids'.Nodup ∧
      ids'.Pairwise (fun i j => ∀ a b, split1 E id sp i a → split1 E id sp j b → a < b) ∧
      (1 < ids'.length → ∀ i ∈ ids', Filled h' i) ∧ ids'.length = h'.length ∧ ∀ i, i ∈ ids' ↔ i ∈ ids ∨ added sp i := by
  have fill : ∀ i ∈ ids, Filled h' i := by
    intro i hi
    by_cases e : i = id
    · rw [e]; exact f2
    · have : Filled h i := by
        refine ne ?_ i hi
        match ids, hid, hi with
        | [a], h1, h2 =>
          rw [List.mem_singleton] at h1 h2
          exact absurd (h2.trans h1.symm) e
        | a :: b :: l, _, _ => simp
      obtain ⟨l, h1, h2⟩ := this
      exact ⟨l, by rw [(f1 i (hlt i hi) e).2]; exact h1, h2⟩
  match sp, f3 with
  | none, f3 =>
    refine ⟨ids, cover, linked_frame ids o (fun i hi => ?_) link, nodup, ord, fun _ => fill, len.trans f3.2.symm, fun i => ?_⟩
    · by_cases e : i = id
      · rw [e]; exact f3.1
      · exact (f1 i (hlt i hi) e).1
    · exact ⟨Or.inl, fun h => h.elim (fun h => h) (fun h => h.elim)⟩
  | some (s, n), ⟨g1, g0, g2, g3, g4⟩ =>
    obtain ⟨l, r, rfl⟩ := List.append_of_mem hid
    have hn : ∀ i ∈ l ++ id :: r, i ≠ n := by
      intro i hi
      have := hlt i hi
      omega
    have hnid : n ≠ id := fun e => hn id hid e.symm
    have spid : ∀ x, split1 E id (some (s, n)) id x ↔ E id x ∧ x < s := by
      intro x; unfold split1; simp
    have spn : ∀ x, split1 E id (some (s, n)) n x ↔ E id x ∧ s ≤ x := by
      intro x; unfold split1; simp [hnid]
    have mem' : ∀ i, i ∈ l ++ id :: n :: r ↔ i ∈ l ++ id :: r ∨ i = n := by
      intro i; simp only [List.mem_append, List.mem_cons]; tauto
    have nd := List.nodup_append.1 nodup
    have nd2 := List.nodup_cons.1 nd.2.1
    have idl : ∀ i ∈ l, i ≠ id := fun i hi => nd.2.2 i hi id (by simp)
    have idr : ∀ i ∈ r, i ≠ id := fun i hi e => nd2.1 (e ▸ hi)
    have spo : ∀ i ∈ l ++ r, split1 E id (some (s, n)) i = E i := by
      intro i hi
      have hi' : i ∈ l ++ id :: r := by
        rw [List.mem_append] at hi ⊢
        exact hi.imp (fun h => h) (fun h => List.mem_cons_of_mem _ h)
      refine split1_frame ?_ (hn i hi')
      rcases List.mem_append.1 hi with h | h
      · exact idl i h
      · exact idr i h
    refine ⟨l ++ id :: n :: r, fun x hx => ?_, ?_, ?_, ?_, fun _ i hi => ?_, by simp only [List.length_append, List.length_cons] at len ⊢; omega, mem'⟩
    · obtain ⟨i, hi, hE⟩ := cover x hx
      by_cases e : i = id
      · subst e
        rcases lt_or_ge x s with h | h
        · exact ⟨i, (mem' i).2 (Or.inl hi), (spid x).2 ⟨hE, h⟩⟩
        · exact ⟨n, (mem' n).2 (Or.inr rfl), (spn x).2 ⟨hE, h⟩⟩
      · refine ⟨i, (mem' i).2 (Or.inl hi), ?_⟩
        rw [split1_frame (sp := some (s, n)) e (hn i hi)]; exact hE
    · refine linked_insert g2 g3 l r o (fun i hi => ?_) link
      have hi' : i ∈ l ++ id :: r := by
        rw [List.mem_append] at hi ⊢
        exact hi.imp (fun h => h) (fun h => List.mem_cons_of_mem _ h)
      refine (f1 i (hlt i hi') ?_).1
      rcases List.mem_append.1 hi with h | h
      · exact idl i h
      · exact idr i h
    · refine List.nodup_append.2 ⟨nd.1, List.nodup_cons.2 ⟨?_, List.nodup_cons.2 ⟨?_, nd2.2⟩⟩, ?_⟩
      · rw [List.mem_cons]
        rintro (h | h)
        · exact hnid h.symm
        · exact nd2.1 h
      · exact fun h => hn n (by simp [h]) rfl
      · intro a ha b hb
        rcases List.mem_cons.1 hb with rfl | hb
        · exact idl a ha
        rcases List.mem_cons.1 hb with rfl | hb
        · exact hn a (by simp [ha])
        · exact nd.2.2 a ha b (by simp [hb])
    · obtain ⟨o1, o2, o3⟩ := List.pairwise_append.1 ord
      obtain ⟨o4, o5⟩ := List.pairwise_cons.1 o2
      refine List.pairwise_append.2 ⟨o1.imp_of_mem ?_, List.pairwise_cons.2 ⟨?_, List.pairwise_cons.2 ⟨?_, o5.imp_of_mem ?_⟩⟩, ?_⟩
      · intro i j hi hj h a b ha hb
        rw [spo i (by simp [hi])] at ha
        rw [spo j (by simp [hj])] at hb
        exact h a b ha hb
      · intro j hj a b ha hb
        rw [spid] at ha
        rcases List.mem_cons.1 hj with rfl | hj
        · rw [spn] at hb; exact lt_of_lt_of_le ha.2 hb.2
        · rw [spo j (by simp [hj])] at hb
          exact o4 j hj a b ha.1 hb
      · intro j hj a b ha hb
        rw [spn] at ha
        rw [spo j (by simp [hj])] at hb
        exact o4 j hj a b ha.1 hb
      · intro i j hi hj h a b ha hb
        rw [spo i (by simp [hi])] at ha
        rw [spo j (by simp [hj])] at hb
        exact h a b ha hb
      · intro i hi j hj a b ha hb
        rw [spo i (by simp [hi])] at ha
        rcases List.mem_cons.1 hj with rfl | hj
        · rw [spid] at hb; exact o3 i hi j (by simp) a b ha hb.1
        rcases List.mem_cons.1 hj with rfl | hj
        · rw [spn] at hb; exact o3 i hi id (by simp) a b ha hb.1
        · rw [spo j (by simp [hj])] at hb
          exact o3 i hi j (by simp [hj]) a b ha hb
    · rcases (mem' i).1 hi with h | rfl
      · exact fill i h
      · exact g4

/-- An insertion keeps the list of leaves in order. -/
theorem store_chain_law (F : Laws c adm) (hM : 2 ≤ M) (hm : c.move = false → M % 64 ≠ 0) (hN : 2 ≤ c.N) (hN64 : c.N % 64 ≠ 0)
    {t : Store c M} (ht : TOk adm t) {E : Nat → K → Prop} {ids : List Nat} (hc : ChainOk adm t E ids) {k : K} (hk : adm k) (v : V)
    {t' : Store c M} (e : t.insert k v = .ok t') : ∃ E' ids', ChainOk adm t' E' ids' := by
  obtain ⟨h', r', sp, e1, g1, g2, g3, g4, g5⟩ := ins_law F hM hm hN hN64 t.depth t.heap t.root adm k v ht.link
    (fun _ h => h) ht.ok hk
  obtain ⟨id, spL, i1, i2, i3, i4⟩ := ins_ghost F hM hm hN hN64 t.depth t.heap t.root adm k v ht.link (fun _ h => h) ht.ok hc.gok hk
    _ _ _ e1
  obtain ⟨x, hx, hxl, hxa⟩ := core_fp t.depth t.root adm ht.ok id i1
  obtain ⟨f1, f2, f3⟩ := insLeaf_links F hM hm ht.link hx hxl (fun a b hab => (hxa a b hab).1) i3
  obtain ⟨ids', q1, q2, q3, q4, q5, q7, q6⟩ := ids_step ((hc.mem id).2 i1) (fun i hi => fp_lt _ _ _ ht.ok i ((hc.mem i).1 hi)) hc.cover hc.link
    hc.nodup hc.ord hc.ne hc.len f1 f2 f3
  refine ⟨split1 E id spL, ids', ?_⟩
  unfold Store.insert at e
  rw [e1, Res.ok_bind] at e
  match sp, g5, i4, e with
  | none, _, ⟨j1, j2⟩, e =>
    obtain rfl := Res.ok.inj e
    exact ⟨j1, q1, q2, q3, fun i => by rw [q6, hc.mem, ← j2], q4, q5, q7⟩
  | some (s, right), ⟨g5, ⟨k0, g6, g6'⟩, g7, g8, g9, g10, g11⟩, ⟨j1, j2, j3⟩, e =>
    simp only at e
    obtain ⟨b', eb, e⟩ := (Res.bind_eq_ok).1 e
    obtain ⟨w1, w2⟩ := root_law (P := OkG (split1 E id spL) t.depth) (Fp := fp t.depth) (N := c.N) (by omega)
      (okG_mono t.depth) eb g5 ⟨k0, g6, g6'⟩ j1 j2 g10
    obtain rfl := Res.ok.inj e
    refine ⟨w1, q1, q2, q3, fun i => ?_, q4, q5, q7⟩
    rw [q6, hc.mem, ← j3]
    constructor
    · rintro (h | h)
      · exact ⟨r', (w2 r').2 (Or.inl rfl), h⟩
      · exact ⟨right, (w2 right).2 (Or.inr rfl), h⟩
    · rintro ⟨z, hz, hi⟩
      rcases (w2 z).1 hz with rfl | rfl
      · exact Or.inl hi
      · exact Or.inr hi

/-- A history keeps the list of leaves in order. -/
theorem insertAll_chain (F : Laws c adm) (hM : 2 ≤ M) (hm : c.move = false → M % 64 ≠ 0) (hN : 2 ≤ c.N) (hN64 : c.N % 64 ≠ 0) :
    ∀ (xs : List (K × V)) (t t' : Store c M), TOk adm t → (∃ E ids, ChainOk adm t E ids) → (∀ x ∈ xs, adm x.1) →
    insertAll xs t = .ok t' → TOk adm t' ∧ ∃ E ids, ChainOk adm t' E ids
  | [], t, t', ht, hc, _, e => by cases e; exact ⟨ht, hc⟩
  | x :: xs, t, t', ht, ⟨E, ids, hc⟩, hx, e => by
    rw [insertAll] at e
    obtain ⟨t1, e1, e⟩ := (Res.bind_eq_ok).1 e
    obtain ⟨t1', e1', h1, _⟩ := store_insert_law F hM hm hN hN64 ht (hx x (by simp)) x.2
    rw [e1] at e1'
    obtain rfl := Res.ok.inj e1'
    exact insertAll_chain F hM hm hN hN64 xs t1 t' h1 (store_chain_law F hM hm hN hN64 ht hc (hx x (by simp)) x.2 e1)
      (fun y hy => hx y (by simp [hy])) e

end Verif.BitTree
