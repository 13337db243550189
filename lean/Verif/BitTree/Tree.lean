import Verif.BitTree.Branch

/-!
# Insertion and lookup in the bitmap trees
-/

set_option linter.unusedSectionVars false

namespace Verif.BitTree

open Verif Search FPTree BTree

variable {K V : Type} {M : Nat} [LinearOrder K] [Inhabited K] {c : Cfg K V} {adm : K → Prop}

/-- The leaves of a subtree. -/
def fp {N : Nat} : (d : Nat) → Tree N K d → Set Nat
  | 0, id => {i | i = id}
  | d + 1, b => {i | ∃ x, Kid (C := Tree N K d) b x ∧ i ∈ fp d x}

/-- The heap cell `i`. -/
abbrev cell (h : Heap M K V) (i : Nat) : Option (Cell M K V) := h[i]?

/-- A correct subtree for the keys in `R`. -/
def Ok {N : Nat} (h : Heap M K V) : (d : Nat) → Tree N K d → (K → Prop) → Prop
  | 0, id, R => ∃ x, cell h id = some x ∧ LOk x.leaf ∧ ∀ k v, Has x.leaf k v → R k
  | d + 1, b, R => BOk (Ok h d) (fp d) b R

/-- The entries of a subtree. -/
def hasT {N : Nat} (h : Heap M K V) : (d : Nat) → Tree N K d → K → V → Prop
  | 0, id, k, v => ∃ x, cell h id = some x ∧ Has x.leaf k v
  | d + 1, b, k, v => ∃ x, Kid (C := Tree N K d) b x ∧ hasT h d x k v

theorem rng_mono {N : Nat} {C : Type} {b : Branch N K C} {R R' : K → Prop} (h : ∀ k, R k → R' k) {p : Nat} (k : K)
    (hk : rng b R p k) : rng b R' p k := ⟨h k hk.1, hk.2⟩

theorem ok_mono {N : Nat} {h : Heap M K V} : ∀ (d : Nat) (t : Tree N K d) (R R' : K → Prop), (∀ k, R k → R' k) →
    Ok h d t R → Ok h d t R'
  | 0, _, _, _, hR, ⟨x, h1, h2, h3⟩ => ⟨x, h1, h2, fun k v hk => hR k (h3 k v hk)⟩
  | d + 1, b, R, R', hR, hb => by
    refine ⟨hb.clean, hb.inj, fun p hp hbp => ?_, fun p hp => ?_, hb.disj⟩
    · obtain ⟨g1, k, g2, g3⟩ := hb.sep p hp hbp
      exact ⟨hR _ g1, k, hR _ g2, g3⟩
    · obtain ⟨x, g1, g2⟩ := hb.kid p hp
      exact ⟨x, g1, ok_mono d x _ _ (rng_mono hR) g2⟩

/-- The leaf part of a heap cell. -/
def core (h : Heap M K V) (i : Nat) : Option (Leaf M K V) := (h[i]?).map Cell.leaf

theorem core_some {h : Heap M K V} {i : Nat} {l : Leaf M K V} :
    core h i = some l ↔ ∃ x, h[i]? = some x ∧ x.leaf = l := by
  unfold core; rw [Option.map_eq_some_iff]

theorem ok_zero {N : Nat} {h : Heap M K V} {id : Nat} {R : K → Prop} :
    Ok (N := N) h 0 id R ↔ ∃ l, core h id = some l ∧ LOk l ∧ ∀ k v, Has l k v → R k := by
  constructor
  · rintro ⟨x, h1, h2⟩; exact ⟨x.leaf, core_some.2 ⟨x, h1, rfl⟩, h2⟩
  · rintro ⟨l, h1, h2⟩
    obtain ⟨x, h3, rfl⟩ := core_some.1 h1
    exact ⟨x, h3, h2⟩

theorem hasT_zero {N : Nat} {h : Heap M K V} {id : Nat} {k : K} {v : V} :
    hasT (N := N) h 0 id k v ↔ ∃ l, core h id = some l ∧ Has l k v := by
  constructor
  · rintro ⟨x, h1, h2⟩; exact ⟨x.leaf, core_some.2 ⟨x, h1, rfl⟩, h2⟩
  · rintro ⟨l, h1, h2⟩
    obtain ⟨x, h3, rfl⟩ := core_some.1 h1
    exact ⟨x, h3, h2⟩

theorem ok_frame {N : Nat} {h h' : Heap M K V} : ∀ (d : Nat) (t : Tree N K d) (R : K → Prop),
    (∀ i ∈ fp d t, core h' i = core h i) → Ok h d t R → Ok h' d t R
  | 0, id, R, hf, ho => by
    refine ok_zero.2 ?_
    obtain ⟨l, h1, h2⟩ := ok_zero.1 ho
    exact ⟨l, (hf id rfl).trans h1, h2⟩
  | d + 1, b, R, hf, ho => by
    refine ⟨ho.clean, ho.inj, ho.sep, fun p hp => ?_, ho.disj⟩
    obtain ⟨x, g1, g2⟩ := ho.kid p hp
    exact ⟨x, g1, ok_frame d x _ (fun i hi => hf i ⟨x, ⟨p, hp, g1⟩, hi⟩) g2⟩

theorem hasT_frame {N : Nat} {h h' : Heap M K V} : ∀ (d : Nat) (t : Tree N K d) (k : K) (v : V),
    (∀ i ∈ fp d t, core h' i = core h i) → (hasT h' d t k v ↔ hasT h d t k v)
  | 0, id, k, v, hf => by
    refine hasT_zero.trans (Iff.trans ?_ hasT_zero.symm)
    rw [hf id rfl]
  | d + 1, b, k, v, hf => by
    show (∃ x, Kid (C := Tree N K d) b x ∧ hasT h' d x k v) ↔ ∃ x, Kid (C := Tree N K d) b x ∧ hasT h d x k v
    refine exists_congr fun x => and_congr_right fun hx => ?_
    exact hasT_frame d x k v (fun i hi => hf i ⟨x, hx, hi⟩)

theorem hasT_range {N : Nat} {h : Heap M K V} : ∀ (d : Nat) (t : Tree N K d) (R : K → Prop) (k : K) (v : V),
    Ok h d t R → hasT h d t k v → R k
  | 0, _, R, k, v, ⟨x, h1, _, h3⟩, ⟨y, g1, g2⟩ => by
    rw [h1] at g1; cases g1; exact h3 k v g2
  | d + 1, b, R, k, v, ho, ⟨x, ⟨p, hp, hx⟩, hk⟩ => by
    obtain ⟨y, g1, g2⟩ := ho.kid p hp
    rw [hx] at g1; cases g1
    exact (hasT_range d x _ k v g2 hk).1

theorem fp_lt {N : Nat} {h : Heap M K V} : ∀ (d : Nat) (t : Tree N K d) (R : K → Prop),
    Ok h d t R → ∀ i ∈ fp d t, i < h.length
  | 0, id, R, ⟨x, h1, _⟩, i, hi => by
    have : i = id := hi
    subst this
    exact (List.getElem?_eq_some_iff.1 h1).1
  | d + 1, b, R, ho, i, ⟨x, ⟨p, hp, hx⟩, hi⟩ => by
    obtain ⟨y, g1, g2⟩ := ho.kid p hp
    rw [hx] at g1; cases g1
    exact fp_lt d x _ g2 i hi

theorem sep_max (F : Laws c adm) {N : Nat} {C : Type} {P : C → (K → Prop) → Prop} {G : C → Set Nat} {b : Branch N K C}
    {R : K → Prop} (hR : ∀ k, R k → adm k) (ho : BOk P G b R) :
    ∀ p, p < N → Bitmap.bit b.bits p = true → b.keys p < c.lim.max := fun p hp hb =>
  (F.lim _ (hR _ (ho.sep p hp hb).1)).2

/-- `findLeafNode` reaches the only leaf that can hold the key. -/
theorem findLeaf_law (F : Laws c adm) {h : Heap M K V} : ∀ (d : Nat) (t : Tree c.N K d) (R : K → Prop) (k : K),
    (∀ k, R k → adm k) → Ok h d t R → R k →
    ∃ id x, findLeaf c d t k = .ok id ∧ h[id]? = some x ∧ LOk x.leaf ∧ ∀ v, Has x.leaf k v ↔ hasT h d t k v
  | 0, id, R, k, hR, ⟨x, h1, h2, h3⟩, hk => by
    refine ⟨id, x, rfl, h1, h2, fun v => ⟨fun hv => ⟨x, h1, hv⟩, ?_⟩⟩
    rintro ⟨y, g1, g2⟩
    rw [h1] at g1; cases g1; exact g2
  | d + 1, b, R, k, hR, ho, hk => by
    obtain ⟨p, e, hp, hr⟩ := pos_law (lim := c.lim) (sep_max F hR ho) hk
    obtain ⟨x, hx, hox⟩ := ho.kid p hp
    obtain ⟨id, y, e1, e2, e3, e4⟩ := findLeaf_law F d x _ k (fun k hk => hR k hk.1) hox hr
    refine ⟨id, y, ?_, e2, e3, fun v => ?_⟩
    · rw [findLeaf, e, Res.ok_bind, kid_ok (live_lt hp) hx, Res.ok_bind, e1]
    · rw [e4]
      constructor
      · intro hv; exact ⟨x, ⟨p, hp, hx⟩, hv⟩
      · rintro ⟨z, ⟨q, hq, hz⟩, hv⟩
        obtain ⟨z', g1, g2⟩ := ho.kid q hq
        rw [hz] at g1; cases g1
        have := rng_unique ho hq hp (hasT_range d z _ k v g2 hv) hr
        subst this
        rw [hx] at hz; cases hz
        exact hv

/-! ## Insertion -/

/-- The `nextLeaf` pointers point to leaves. -/
def LinkOk (h : Heap M K V) : Prop := ∀ (i : Nat) (x : Cell M K V), h[i]? = some x → ∀ n, x.next = some n → n < h.length

theorem setPrev_law {h : Heap M K V} (n : Option Nat) (hn : ∀ i, n = some i → i < h.length) (p : Nat) :
    ∃ h', setPrev h n p = .ok h' ∧ h'.length = h.length ∧ (∀ i : Nat, core h' i = core h i) ∧
      (∀ i : Nat, (h'[i]?).map Cell.next = (h[i]?).map Cell.next) := by
  cases n with
  | none => exact ⟨h, rfl, rfl, fun _ => rfl, fun _ => rfl⟩
  | some j =>
    have hj := hn j rfl
    refine ⟨h.set j { h[j] with prev := some p }, ?_, by simp, fun i => ?_, fun i => ?_⟩
    · unfold setPrev
      simp only [List.getElem?_eq_getElem hj, Res.ofOption_some, Res.ok_bind]
      rfl
    · unfold core
      rw [List.getElem?_set]
      split
      · rename_i e
        subst e
        simp [hj]
      · rfl
    · rw [List.getElem?_set]
      split
      · rename_i e
        subst e
        simp [hj]
      · rfl

/-- What an insertion into a subtree achieves. -/
def InsPost {N : Nat} (h h' : Heap M K V) (d : Nat) (t t' : Tree N K d) (sp : Option (K × Tree N K d)) (R : K → Prop)
    (k : K) (v : V) : Prop :=
  LinkOk h' ∧ h.length ≤ h'.length ∧ (∀ i, i < h.length → i ∉ fp d t → core h' i = core h i) ∧
  (∀ i ∈ fp d t', i ∈ fp d t ∨ h.length ≤ i) ∧
  match sp with
  | none => Ok h' d t' R ∧ ∀ x y, hasT h' d t' x y ↔ Ups (hasT h d t) k v x y
  | some (s, r) => R s ∧ (∃ k0, R k0 ∧ k0 < s) ∧ Ok h' d t' (fun k => R k ∧ k < s) ∧
      Ok h' d r (fun k => R k ∧ s ≤ k) ∧ (∀ i ∈ fp d r, i ∈ fp d t ∨ h.length ≤ i) ∧
      Disjoint (fp d t') (fp d r) ∧
      ∀ x y, (hasT h' d t' x y ∨ hasT h' d r x y) ↔ Ups (hasT h d t) k v x y

theorem insLeaf_law (F : Laws c adm) (hM : 2 ≤ M) (hm : c.move = false → M % 64 ≠ 0) {h : Heap M K V}
    (hL : LinkOk h) {id : Nat} {R : K → Prop} (hR : ∀ k, R k → adm k) (ho : Ok (N := c.N) h 0 id R) {k : K} (hk : R k)
    (v : V) : ∃ h' sp, insLeaf c h id k v = .ok (h', sp) ∧ InsPost (N := c.N) h h' 0 id id sp R k v := by
  obtain ⟨x, h1, h2, h3⟩ := ho
  have h1 : h[id]? = some x := h1
  obtain ⟨hid, hx⟩ := List.getElem?_eq_some_iff.1 h1
  obtain ⟨l', sp, e, hl', hsp⟩ := insert_law F hM hm h2 (fun a b hab => hR _ (h3 a b hab)) k v
  have hupR : ∀ a b, Ups (Has x.leaf) k v a b → R a := by
    rintro a b (⟨rfl, _⟩ | ⟨_, hab⟩)
    · exact hk
    · exact h3 a b hab
  have hasid : ∀ a b, hasT (N := c.N) h 0 id a b ↔ Has x.leaf a b := by
    intro a b
    constructor
    · rintro ⟨y, g1, g2⟩
      have g1 : h[id]? = some y := g1
      rw [h1] at g1; cases g1; exact g2
    · intro hab; exact ⟨x, h1, hab⟩
  have ups_iff : ∀ a b, Ups (hasT (N := c.N) h 0 id) k v a b ↔ Ups (Has x.leaf) k v a b := by
    intro a b; unfold Ups; rw [hasid]
  unfold insLeaf
  rw [h1, Res.ofOption_some, Res.ok_bind, e, Res.ok_bind]
  match sp, hsp with
  | none, hsp =>
    refine ⟨_, _, rfl, ?_, by simp, ?_, fun i hi => Or.inl hi, ?_, ?_⟩
    · intro i y hy n hn
      rw [List.getElem?_set] at hy
      simp only [List.length_set]
      split at hy
      · rename_i e; subst e
        cases hy
        exact hL id x h1 n hn
      · exact hL i y hy n hn
    · intro i hi hne
      unfold core
      rw [List.getElem?_set_ne (fun e => hne e.symm)]
    · refine ⟨{ x with leaf := l' }, ?_, hl', fun a b hab => hupR a b ((hsp a b).1 hab)⟩
      show (h.set id _)[id]? = _
      rw [List.getElem?_set_self hid]
    · intro a b
      rw [ups_iff, ← hsp]
      constructor
      · rintro ⟨y, g1, g2⟩
        have g1 : (h.set id { x with leaf := l' })[id]? = some y := g1
        rw [List.getElem?_set_self hid] at g1; cases g1; exact g2
      · intro hab
        refine ⟨{ x with leaf := l' }, ?_, hab⟩
        show (h.set id _)[id]? = _
        rw [List.getElem?_set_self hid]
  | some (s, r), ⟨g1, g2, g3, ⟨x0, y0, g4⟩, y1, g5⟩ =>
    obtain ⟨h2', e2, f1, f2, f3⟩ := setPrev_law (h := h.set id { x with leaf := l', next := some h.length }) x.next
      (fun i hi => by simp only [List.length_set]; exact hL id x h1 i hi) h.length
    simp only
    rw [e2, Res.ok_bind]
    simp only [List.length_set] at f1
    have cid : core (h2' ++ [⟨r, x.next, some id⟩]) id = some l' := by
      unfold core
      rw [List.getElem?_append_left (by omega)]
      have := f2 id
      unfold core at this
      rw [this, List.getElem?_set_self hid]; rfl
    have cnew : core (h2' ++ [⟨r, x.next, some id⟩]) h2'.length = some r := by
      unfold core; simp
    refine ⟨_, _, rfl, ?_, by simp [f1], ?_, fun i hi => Or.inl hi, (((g3 _ _).1 g5).1 |> hupR s y1), ⟨x0, ?_, ?_⟩, ?_, ?_, ?_, ?_, ?_⟩
    · intro i y hy n hn
      simp only [List.length_append, List.length_singleton, f1]
      by_cases hi : i < h2'.length
      · rw [List.getElem?_append_left hi] at hy
        have := f3 i
        rw [hy] at this
        simp only [Option.map_some] at this
        rw [List.getElem?_set] at this
        split at this
        · simp only [Option.map_some] at this
          have := Option.some.inj this
          rw [hn] at this
          have := Option.some.inj this
          omega
        · obtain ⟨z, hz, hzn⟩ := Option.map_eq_some_iff.1 this.symm
          have := hL i z hz n (hzn.trans hn)
          omega
      · rw [List.getElem?_append_right (by omega)] at hy
        have hi' : i - h2'.length = 0 := by
          by_contra hne
          rw [List.getElem?_eq_none (by simp; omega)] at hy
          cases hy
        rw [hi'] at hy
        cases hy
        have := hL id x h1 n hn
        omega
    · intro i hi hne
      unfold core
      rw [List.getElem?_append_left (by omega)]
      have := f2 i
      unfold core at this
      rw [this, List.getElem?_set_ne (fun e => hne e.symm)]
    · exact hupR x0 y0 ((g2 _ _).1 g4).1
    · exact ((g2 _ _).1 g4).2
    · exact ok_zero.2 ⟨l', cid, hl', fun a b hab => ⟨hupR a b ((g2 _ _).1 hab).1, ((g2 _ _).1 hab).2⟩⟩
    · exact ok_zero.2 ⟨r, cnew, g1, fun a b hab => ⟨hupR a b ((g3 _ _).1 hab).1, ((g3 _ _).1 hab).2⟩⟩
    · intro i hi
      have : i = h2'.length := hi
      right; omega
    · rw [Set.disjoint_left]
      intro i hi hi'
      have e1 : i = id := hi
      have e2 : i = h2'.length := hi'
      omega
    · intro a b
      rw [ups_iff]
      have r1 : hasT (N := c.N) (h2' ++ [⟨r, x.next, some id⟩]) 0 id a b ↔ Has l' a b := by
        refine hasT_zero.trans ?_
        rw [cid]
        exact ⟨fun ⟨l, e, hl⟩ => by cases e; exact hl, fun hl => ⟨l', rfl, hl⟩⟩
      have r2 : hasT (N := c.N) (h2' ++ [⟨r, x.next, some id⟩]) 0 h2'.length a b ↔ Has r a b := by
        refine hasT_zero.trans ?_
        rw [cnew]
        exact ⟨fun ⟨l, e, hl⟩ => by cases e; exact hl, fun hl => ⟨r, rfl, hl⟩⟩
      rw [r1, r2, g2, g3]
      constructor
      · rintro (⟨a, _⟩ | ⟨a, _⟩) <;> exact a
      · intro hab
        rcases lt_or_ge a s with hlt | hge
        · exact Or.inl ⟨hab, hlt⟩
        · exact Or.inr ⟨hab, hge⟩

theorem ins_law (F : Laws c adm) (hM : 2 ≤ M) (hm : c.move = false → M % 64 ≠ 0) (hN : 2 ≤ c.N) (hN64 : c.N % 64 ≠ 0) :
    ∀ (d : Nat) (h : Heap M K V) (t : Tree c.N K d) (R : K → Prop) (k : K) (v : V), LinkOk h → (∀ k, R k → adm k) →
    Ok h d t R → R k → ∃ h' t' sp, ins c d h t k v = .ok (h', t', sp) ∧ InsPost h h' d t t' sp R k v
  | 0, h, id, R, k, v, hL, hR, ho, hk => by
    obtain ⟨h', sp, e, hpost⟩ := insLeaf_law F hM hm hL hR ho hk v
    refine ⟨h', id, sp, ?_, hpost⟩
    rw [ins, e]; rfl
  | d + 1, h, b, R, k, v, hL, hR, ho, hk => by
    obtain ⟨p, e, hp, hr⟩ := pos_law (lim := c.lim) (sep_max F hR ho) hk
    obtain ⟨x, hx, hox⟩ := ho.kid p hp
    obtain ⟨h', x', sp, e1, g1, g2, g3, g4, g5⟩ := ins_law F hM hm hN hN64 d h x _ k v hL (fun k hk => hR k hk.1) hox hr
    rw [ins, e, Res.ok_bind, kid_ok (live_lt hp) hx, Res.ok_bind, e1, Res.ok_bind]
    simp only
    -- the other children are untouched
    have fr : ∀ q y, live b q → q ≠ p → b.kids q = some y → ∀ i ∈ fp d y, i ∉ fp d x ∧ core h' i = core h i := by
      intro q y hq hne hy i hi
      have hn : i ∉ fp d x := Set.disjoint_left.1 (ho.disj q p y x hq hp hne hy hx) hi
      obtain ⟨y', k1, k2⟩ := ho.kid q hq
      rw [hy] at k1; cases k1
      exact ⟨hn, g3 i (fp_lt d y _ k2 i hi) hn⟩
    have oth : ∀ q y, live b q → q ≠ p → b.kids q = some y → Ok h d y (rng b R q) → Ok h' d y (rng b R q) :=
      fun q y hq hne hy hoy => ok_frame d y _ (fun i hi => (fr q y hq hne hy i hi).2) hoy
    have apart : ∀ (z : Tree c.N K d), (∀ i ∈ fp d z, i ∈ fp d x ∨ h.length ≤ i) → ∀ q y, live b q → q ≠ p → b.kids q = some y →
        Disjoint (fp d z) (fp d y) := by
      intro z hz q y hq hne hy
      rw [Set.disjoint_left]
      intro i hi hi'
      rcases hz i hi with h1 | h1
      · exact (fr q y hq hne hy i hi').1 h1
      · obtain ⟨y', k1, k2⟩ := ho.kid q hq
        rw [hy] at k1; cases k1
        have := fp_lt d y _ k2 i hi'
        omega
    have hframe : ∀ i, i < h.length → i ∉ fp (d + 1) b → core h' i = core h i := by
      intro i hi hn
      exact g3 i hi (fun hx' => hn ⟨x, ⟨p, hp, hx⟩, hx'⟩)
    have hsub : ∀ (z : Tree c.N K d), (∀ i ∈ fp d z, i ∈ fp d x ∨ h.length ≤ i) → ∀ i ∈ fp d z, i ∈ fp (d + 1) b ∨ h.length ≤ i := by
      intro z hz i hi
      rcases hz i hi with h1 | h1
      · exact Or.inl ⟨x, ⟨p, hp, hx⟩, h1⟩
      · exact Or.inr h1
    set b1 : Branch c.N K (Tree c.N K d) := { b with kids := upd b.kids p (some x') } with hb1
    have live1 : ∀ q, live b1 q ↔ live b q := fun q => Iff.rfl
    have kid1p : b1.kids p = some x' := by rw [hb1]; simp [upd]
    have kid1q : ∀ q, q ≠ p → b1.kids q = b.kids q := by intro q hq; rw [hb1]; simp [upd, hq]
    have kids1 : ∀ z, Kid b1 z ↔ z = x' ∨ ∃ q, live b q ∧ q ≠ p ∧ b.kids q = some z := by
      intro z
      constructor
      · rintro ⟨q, hq, hz⟩
        by_cases hqp : q = p
        · subst hqp; rw [kid1p] at hz; cases hz; exact Or.inl rfl
        · exact Or.inr ⟨q, hq, hqp, by rw [← kid1q q hqp]; exact hz⟩
      · rintro (rfl | ⟨q, hq, hqp, hz⟩)
        · exact ⟨p, hp, kid1p⟩
        · exact ⟨q, hq, by rw [kid1q q hqp]; exact hz⟩
    -- contents
    have hups : ∀ a w, Ups (hasT h (d + 1) b) k v a w ↔
        Ups (hasT h d x) k v a w ∨ ∃ q y, live b q ∧ q ≠ p ∧ b.kids q = some y ∧ hasT h d y a w := by
      intro a w
      constructor
      · rintro (hkv | ⟨hne, z, ⟨q, hq, hz⟩, hw⟩)
        · exact Or.inl (Or.inl hkv)
        · by_cases hqp : q = p
          · subst hqp; rw [hx] at hz; cases hz; exact Or.inl (Or.inr ⟨hne, hw⟩)
          · exact Or.inr ⟨q, z, hq, hqp, hz, hw⟩
      · rintro ((hkv | ⟨hne, hw⟩) | ⟨q, y, hq, hqp, hy, hw⟩)
        · exact Or.inl hkv
        · exact Or.inr ⟨hne, x, ⟨p, hp, hx⟩, hw⟩
        · refine Or.inr ⟨?_, y, ⟨q, hq, hy⟩, hw⟩
          rintro rfl
          obtain ⟨y', k1, k2⟩ := ho.kid q hq
          rw [hy] at k1; cases k1
          exact hqp (rng_unique ho hq hp (hasT_range d y _ _ w k2 hw) hr)
    have hcont : ∀ a w, (∃ z, Kid b1 z ∧ hasT h' d z a w) ↔
        hasT h' d x' a w ∨ ∃ q y, live b q ∧ q ≠ p ∧ b.kids q = some y ∧ hasT h d y a w := by
      intro a w
      constructor
      · rintro ⟨z, hz, hw⟩
        rcases (kids1 z).1 hz with rfl | ⟨q, hq, hqp, hz'⟩
        · exact Or.inl hw
        · exact Or.inr ⟨q, z, hq, hqp, hz', (hasT_frame d z a w (fun i hi => (fr q z hq hqp hz' i hi).2)).1 hw⟩
      · rintro (hw | ⟨q, y, hq, hqp, hy, hw⟩)
        · exact ⟨x', (kids1 x').2 (Or.inl rfl), hw⟩
        · exact ⟨y, (kids1 y).2 (Or.inr ⟨q, hq, hqp, hy⟩), (hasT_frame d y a w (fun i hi => (fr q y hq hqp hy i hi).2)).2 hw⟩
    have hfp1 : ∀ z, Kid b1 z → ∀ i ∈ fp d z, i ∈ fp (d + 1) b ∨ h.length ≤ i := by
      intro z hz i hi
      rcases (kids1 z).1 hz with rfl | ⟨q, hq, hqp, hz'⟩
      · exact hsub z g4 i hi
      · exact Or.inl ⟨z, ⟨q, hq, hz'⟩, hi⟩
    match sp, g5 with
    | none, ⟨g5, g6⟩ =>
      refine ⟨h', b1, none, rfl, g1, g2, hframe, ?_, ?_, ?_⟩
      · rintro i ⟨z, hz, hi⟩; exact hfp1 z hz i hi
      · exact replace_law ho hp g5 oth (apart x' g4)
      · intro a w
        rw [hups, ← g6]
        exact hcont a w
    | some (s, right), ⟨g5, ⟨k0, g6, g6'⟩, g7, g8, g9, g10, g11⟩ =>
      have hb1ok : BOk (Ok h' d) (fp d) b1 R := replace_law ho hp
        (ok_mono d x' _ _ (fun k hk => hk.1) g7) oth (apart x' g4)
      have hdr : ∀ z, Kid b1 z → Disjoint (fp d right) (fp d z) := by
        intro z hz
        rcases (kids1 z).1 hz with rfl | ⟨q, hq, hqp, hz'⟩
        · exact g10.symm
        · exact apart right g9 q z hq hqp hz'
      obtain ⟨b', sp', e2, hres⟩ := addSplit_law (ok_mono d) hN hN64 (fun k hk => F.conv k (hR k hk))
        (fun a a' ha ha' => F.mono a a' (hR a ha) (hR a' ha')) (fun k hk => (F.lim k (hR k hk)).2) hb1ok
        (p := p) hp (key := k) (s := s) (left := x') (right := right) hr kid1p g5 ⟨k0, g6, g6'⟩ g7 g8 hdr
      simp only
      rw [e2, Res.ok_bind]
      refine ⟨h', b', sp', rfl, g1, g2, hframe, ?_, ?_⟩
      · rintro i ⟨z, hz, hi⟩
        have hz' : Kid b1 z ∨ z = right := by
          match sp', hres with
          | none, ⟨_, r2⟩ =>
            rcases (r2 (fun y => y = z)).1 ⟨z, hz, rfl⟩ with ⟨y, hy, rfl⟩ | h1
            exacts [Or.inl hy, Or.inr h1.symm]
          | some (sk, b2), ⟨_, _, _, _, r2, _⟩ =>
            rcases (r2 (fun y => y = z)).1 (Or.inl ⟨z, hz, rfl⟩) with ⟨y, hy, rfl⟩ | h1
            exacts [Or.inl hy, Or.inr h1.symm]
        rcases hz' with hz' | rfl
        · exact hfp1 z hz' i hi
        · exact hsub z g9 i hi
      · have hall : ∀ a w, ((∃ z, Kid b1 z ∧ hasT h' d z a w) ∨ hasT h' d right a w) ↔ Ups (hasT h (d + 1) b) k v a w := by
          intro a w
          rw [hups, ← g11, hcont]
          constructor
          · rintro ((h1 | h1) | h1)
            exacts [Or.inl (Or.inl h1), Or.inr h1, Or.inl (Or.inr h1)]
          · rintro ((h1 | h1) | h1)
            exacts [Or.inl (Or.inl h1), Or.inr h1, Or.inl (Or.inr h1)]
        match sp', hres with
        | none, ⟨r1, r2⟩ =>
          refine ⟨r1, fun a w => ?_⟩
          rw [← hall]
          exact r2 (fun z => hasT h' d z a w)
        | some (sk, b2), ⟨r0, r1, r2, r3, r4, r5⟩ =>
          refine ⟨r0, r1, r2, r3, ?_, ?_, fun a w => ?_⟩
          · rintro i ⟨z, hz, hi⟩
            rcases (r4 (fun y => y = z)).1 (Or.inr ⟨z, hz, rfl⟩) with ⟨y, hy, rfl⟩ | rfl
            · exact hfp1 y hy i hi
            · exact hsub right g9 i hi
          · rw [Set.disjoint_left]
            rintro i ⟨z, hz, hi⟩ ⟨z', hz', hi'⟩
            exact Set.disjoint_left.1 (r5 z z' hz hz') hi hi'
          · rw [← hall]
            exact r4 (fun z => hasT h' d z a w)

end Verif.BitTree
