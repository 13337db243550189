import Verif.BitTree.SplitCrashTree

/-!
# Crashes anywhere inside an insert into BitPBPTree

BitPBPTree keeps its branch nodes in persistent memory and does not rebuild them: what a crash leaves is what the next
program works on.  `insert` changes persistent memory in this order: the leaf (`insertInLeafNode`), then the branch nodes
from the lowest one upwards (`insertInBranchNode`, `splitBranchNode`), then the root.  A crash point is a pair of a level `j`
(0: the leaf, `j + 1`: the branch node `j` levels above the lowest one) and the number `q` of changes done at this level;
the levels below are done, the levels above untouched.  As before the assignments become persistent in program order.

Simplification: the tree shows what is reachable from the root; a new branch node is reachable once a pointer to it has
been stored, so the assignments to it before that are counted but change nothing.
-/

set_option linter.unusedSectionVars false

namespace Verif.BitTree

open Verif Search FPTree BTree

variable {K V : Type} {M : Nat} [LinearOrder K] [Inhabited K] {c : Cfg K V} {adm : K → Prop}

/-! ## Model -/

/-- BitPBPTree.hpp:873-910 with 919-972, 983-992: the leaves after `q` changes of `insertInLeafNode`. -/
def leafAt (c : Cfg K V) (h : Heap M K V) (id : Nat) (k : K) (v : V) (q : Nat) : Res (Heap M K V) := do
  let x ← Res.ofOption h[id]?
  let p ← x.leaf.pos k
  if p < M ∨ x.leaf.bits.getFreeZero ≠ M then do
    let ws ← insertWrites x.leaf k v
    let l ← applyWrites x.leaf (ws.take q)
    pure (h.set id { x with leaf := l })
  else do
    let ws ← splitWrites c h id x k v
    pure (applyAll h (ws.take q))

namespace Branch

variable {N : Nat} {C : Type}

/-- BitPBPTree.hpp:1068-1079: a branch node after `q` of the four assignments that add the separator `s` with `left` before and
`right` behind it: `hostKeys[u]`, `hostChilds[u]`, `hostChilds[nextPos]`, `hostBits.set(u)`. -/
def addAt (lim : Limits K) (b : Branch N K C) (s : K) (left right : C) (q : Nat) : Res (Branch N K C) := do
  let u := b.bits.getFreeZero
  let np ← b.pos lim s
  if N ≤ u then .ub
  else do
    let bits ← if 4 ≤ q then b.bits.set u else pure b.bits
    let kids := if 2 ≤ q then upd b.kids u (some left) else b.kids
    pure ⟨bits, if 1 ≤ q then upd b.keys u s else b.keys, if 3 ≤ q then upd kids np (some right) else kids⟩

/-- BitPBPTree.hpp:1057-1080 with 1003-1027: a branch node after `q` changes of the part of `insertInBranchNode` behind the split
of a child, `key` being the inserted key.  In a full node the changes are: the new sibling, the bits of the node, the bits
of the sibling, the last child of the sibling, the last child of the node, then the four assignments to `host`. -/
def addSplitAt (lim : Limits K) (cv : Conv K) (b : Branch N K C) (key s : K) (left right : C) (q : Nat) : Res (Branch N K C) :=
  if b.bits.count = N then do
    let r ← findSplitKey cv N ⟨N, b.keys⟩
    let sk ← rdA N b.keys r.2
    let b1 ← r.1.reset r.2
    let b' : Branch N K C := ⟨if 2 ≤ q then b1 else b.bits, b.keys, if 5 ≤ q then upd b.kids N (b.kids r.2) else b.kids⟩
    if 5 < q ∧ key < sk then b'.addAt lim s left right (q - 5) else pure b'
  else b.addAt lim s left right q

end Branch

/-- BitPBPTree.hpp:1040-1082: leaves and subtree after `q` changes at level `j` of an insert into a subtree. -/
def insAt (c : Cfg K V) : (d : Nat) → Heap M K V → Tree c.N K d → K → V → Nat → Nat → Res (Heap M K V × Tree c.N K d)
  | 0, h, id, k, v, _, q => do
    let h' ← leafAt c h id k v q
    pure (h', id)
  | d + 1, h, b, k, v, j, q => do
    let p ← Branch.pos c.lim b k
    let ch ← Branch.kid b p
    if j ≤ d then do
      let r ← insAt c d h ch k v j q
      pure (r.1, ({ b with kids := upd b.kids p (some r.2) } : Branch c.N K (Tree c.N K d)))
    else do
      let r ← ins c d h ch k v
      let b1 : Branch c.N K (Tree c.N K d) := { b with kids := upd b.kids p (some r.2.1) }
      match r.2.2 with
      | none => pure (r.1, b1)
      | some (s, right) => do
        let b' ← b1.addSplitAt c.lim c.cv k s r.2.1 right q
        pure (r.1, b')

/-- What a crash leaves of the tree object. -/
inductive Left (c : Cfg K V) (M : Nat) where
  /-- A tree. -/
  | tree (t : Store c M)
  /-- `rootNode` points to the new root while `depth` is the old one: every operation takes a branch node for a leaf. -/
  | mixed

/-- BitPBPTree.hpp:275-300: the tree object after `q` changes at level `j` of `insert`.  Level `depth + 1` is the new root: the
node, its key, its two children, its bit, `rootNode`, `depth`. -/
def Store.insertAt (t : Store c M) (k : K) (v : V) (j q : Nat) : Res (Left c M) :=
  if j ≤ t.depth then do
    let r ← insAt c t.depth t.heap t.root k v j q
    pure (.tree ⟨t.depth, r.2, r.1, t.first⟩)
  else do
    let r ← ins c t.depth t.heap t.root k v
    match r.2.2 with
    | none => pure (.tree ⟨t.depth, r.2.1, r.1, t.first⟩)
    | some _ =>
      if q < 6 then pure (.tree ⟨t.depth, r.2.1, r.1, t.first⟩)
      else if q = 6 then pure .mixed
      else do
        let t' ← t.insert k v
        pure (.tree t')

/-! ## Branch nodes -/

section branch

variable {N : Nat} {C : Type} {P : C → (K → Prop) → Prop} {F : C → Set Nat} {b : Branch N K C} {R : K → Prop}

/-- A branch node that differs in unused positions only. -/
theorem unused_law {b' : Branch N K C} (h : BOk P F b R) (hb : b'.bits = b.bits)
    (hk : ∀ p, p < N → Bitmap.bit b.bits p = true → b'.keys p = b.keys p) (hc : ∀ p, live b p → b'.kids p = b.kids p) :
    BOk P F b' R ∧ (∀ p, live b' p ↔ live b p) ∧ (∀ p k, live b p → (rng b' R p k ↔ rng b R p k)) ∧ ∀ x, Kid b' x ↔ Kid b x := by
  have hl : ∀ p, live b' p ↔ live b p := by intro p; unfold live; rw [hb]
  have hr : ∀ p k, live b p → (rng b' R p k ↔ rng b R p k) := by
    intro p k hp
    unfold rng
    rw [hb]
    refine and_congr_right fun _ => and_congr ⟨fun h1 h2 => ?_, fun h1 h2 => ?_⟩ (forall_congr' fun q => ?_)
    · rw [← hk p h2 (live_bit hp h2)]; exact h1 h2
    · rw [hk p h2 (live_bit hp h2)]; exact h1 h2
    · constructor
      · intro h1 h2 h3 h4
        rw [← hk q h2 h3]
        exact h1 h2 h3 fun h5 => by rw [hk q h2 h3, hk p h5 (live_bit hp h5)]; exact h4 h5
      · intro h1 h2 h3 h4
        rw [hk q h2 h3]
        exact h1 h2 h3 fun h5 => by rw [← hk q h2 h3, ← hk p h5 (live_bit hp h5)]; exact h4 h5
  have hrr : ∀ p, live b p → rng b' R p = rng b R p := fun p hp => funext fun k => propext (hr p k hp)
  refine ⟨⟨hb ▸ h.clean, ?_, ?_, ?_, ?_⟩, hl, hr, fun x => ?_⟩
  · intro i j hi hj h1 h2 h3
    rw [hb] at h1 h2
    rw [hk i hi h1, hk j hj h2] at h3
    exact h.inj i j hi hj h1 h2 h3
  · intro p hp h1
    rw [hb] at h1
    rw [hk p hp h1]
    exact h.sep p hp h1
  · intro p hp
    have hp := (hl p).1 hp
    rw [hrr p hp, hc p hp]
    exact h.kid p hp
  · intro p q x y hp hq hne hx hy
    have hp := (hl p).1 hp
    have hq := (hl q).1 hq
    rw [hc p hp] at hx
    rw [hc q hq] at hy
    exact h.disj p q x y hp hq hne hx hy
  · constructor
    · rintro ⟨p, hp, hx⟩
      have hp := (hl p).1 hp
      exact ⟨p, hp, by rw [← hc p hp]; exact hx⟩
    · rintro ⟨p, hp, hx⟩
      exact ⟨p, (hl p).2 hp, by rw [hc p hp]; exact hx⟩

/-- All states of a branch node that gets a new separator. -/
theorem addAt_law (hP : ∀ x R R', (∀ k, R k → R' k) → P x R → P x R') {lim : Limits K}
    (hlim : ∀ k, R k → k < lim.max) (h : BOk P F b R)
    (hz : ∃ p, p < N ∧ Bitmap.bit b.bits p = false) {p : Nat} (hp : live b p) {s : K} {left right : C}
    (hleft : b.kids p = some left) (hs : rng b R p s) (hk0 : ∃ k0, rng b R p k0 ∧ k0 < s)
    (h1 : P left (fun k => rng b R p k ∧ k < s)) (h2 : P right (fun k => rng b R p k ∧ s ≤ k))
    (hd : ∀ x, Kid b x → Disjoint (F right) (F x)) (q : Nat) :
    ∃ b', b.addAt lim s left right q = .ok b' ∧ BOk P F b' R ∧ (q < 3 → ∀ x, Kid b' x ↔ Kid b x) ∧
      (q = 3 → ∀ x, Kid b' x ↔ x = right ∨ ∃ p', live b p' ∧ p' ≠ p ∧ b.kids p' = some x) ∧
      (4 ≤ q → b.add lim s left right = .ok b' ∧
        ∀ G : C → Prop, (∃ x, Kid b' x ∧ G x) ↔ (∃ x, Kid b x ∧ G x) ∨ G right) := by
  obtain ⟨hu, hub⟩ := free_of_zero hz
  obtain ⟨np, enp, hnp, hnp'⟩ := pos_law (b := b) (R := R) (lim := lim) (k := s)
    (fun q hq hb => hlim _ (h.sep q hq hb).1) hs.1
  have : np = p := rng_unique h hnp hp hnp' hs
  subst this
  have lnu : ∀ p', live b p' → p' ≠ b.bits.getFreeZero := by
    rintro p' hp' rfl
    have := live_bit hp' hu
    rw [hub] at this; cases this
  have bnu : ∀ p', Bitmap.bit b.bits p' = true → p' ≠ b.bits.getFreeZero := by
    rintro p' hp' rfl
    rw [hub] at hp'; cases hp'
  by_cases h4 : 4 ≤ q
  · obtain ⟨b', e, g1, g2⟩ := add_law hP hlim h hz hp hleft hs hk0 h1 h2 hd
    refine ⟨b', ?_, g1, fun _ => by omega, fun _ => by omega, fun _ => ⟨e, g2⟩⟩
    rw [← e]
    unfold Branch.addAt Branch.add
    simp only
    rw [enp, Res.ok_bind, Res.ok_bind, if_neg (c := N ≤ _) (by omega), if_neg (c := N ≤ _) (by omega), if_pos h4, if_pos (c := 1 ≤ q) (by omega),
      if_pos (c := 3 ≤ q) (by omega), if_pos (c := 2 ≤ q) (by omega)]
  · unfold Branch.addAt
    simp only
    rw [enp, Res.ok_bind, if_neg (by omega), if_neg h4]
    have hk : ∀ p', p' < N → Bitmap.bit b.bits p' = true → (if 1 ≤ q then upd b.keys b.bits.getFreeZero s else b.keys) p' = b.keys p' := by
      intro p' _ hb
      split
      · simp [upd, bnu p' hb]
      · rfl
    have hc : ∀ p', live b p' → (if 2 ≤ q then upd b.kids b.bits.getFreeZero (some left) else b.kids) p' = b.kids p' := by
      intro p' hl
      split
      · simp [upd, lnu p' hl]
      · rfl
    obtain ⟨g1, g2, g3, g4⟩ := unused_law (b' := ⟨b.bits, if 1 ≤ q then upd b.keys b.bits.getFreeZero s else b.keys,
      if 2 ≤ q then upd b.kids b.bits.getFreeZero (some left) else b.kids⟩) h rfl hk hc
    by_cases h3 : 3 ≤ q
    · rw [if_pos h3]
      refine ⟨_, rfl, ?_, fun _ => by omega, fun _ => ?_, fun _ => by omega⟩
      · refine replace_law (P' := P) g1 ((g2 _).2 hp) ?_ (fun _ _ _ _ _ hy => hy) ?_
        · exact hP _ _ _ (fun k hk => (g3 _ _ hp).2 hk.1) h2
        · intro p' y hl hne hy
          exact hd y ((g4 y).1 ⟨p', hl, hy⟩)
      · intro x
        constructor
        · rintro ⟨p', hl, hx⟩
          by_cases e : p' = np
          · subst e
            simp only [upd, if_pos] at hx
            exact Or.inl (Option.some.inj hx).symm
          · simp only [upd, if_neg e] at hx
            have hl := (g2 p').1 hl
            exact Or.inr ⟨p', hl, e, by rw [← hc p' hl]; exact hx⟩
        · rintro (rfl | ⟨p', hl, hne, hx⟩)
          · exact ⟨np, (g2 np).2 hp, by simp [upd]⟩
          · refine ⟨p', (g2 p').2 hl, ?_⟩
            simp only [upd, if_neg hne]
            exact (hc p' hl).trans hx
    · rw [if_neg h3]
      exact ⟨_, rfl, g1, fun _ => g4, fun _ => by omega, fun _ => by omega⟩

/-- Positions other than `p` keep their children. -/
theorem addAt_others (hP : ∀ x R R', (∀ k, R k → R' k) → P x R → P x R') {lim : Limits K}
    (hlim : ∀ k, R k → k < lim.max) (h : BOk P F b R)
    (hz : ∃ p, p < N ∧ Bitmap.bit b.bits p = false) {p : Nat} (hp : live b p) {s : K} {left right : C}
    (hleft : b.kids p = some left) (hs : rng b R p s) (hk0 : ∃ k0, rng b R p k0 ∧ k0 < s)
    (h1 : P left (fun k => rng b R p k ∧ k < s)) (h2 : P right (fun k => rng b R p k ∧ s ≤ k))
    (hd : ∀ x, Kid b x → Disjoint (F right) (F x)) (q : Nat) :
    ∃ b', b.addAt lim s left right q = .ok b' ∧ BOk P F b' R ∧ (∀ x, Kid b' x → Kid b x ∨ x = right) ∧
      ∀ p' x, live b p' → p' ≠ p → b.kids p' = some x → Kid b' x := by
  obtain ⟨b', e, g1, g2, g3, g4⟩ := addAt_law hP hlim h hz hp hleft hs hk0 h1 h2 hd q
  refine ⟨b', e, g1, ?_⟩
  rcases Nat.lt_trichotomy q 3 with hq | hq | hq
  · exact ⟨fun x hx => Or.inl ((g2 hq x).1 hx), fun p' x hl _ hx => (g2 hq x).2 ⟨p', hl, hx⟩⟩
  · refine ⟨fun x hx => ?_, fun p' x hl hne hx => (g3 hq x).2 (Or.inr ⟨p', hl, hne, hx⟩)⟩
    rcases (g3 hq x).1 hx with rfl | ⟨p', hl, _, hx'⟩
    · exact Or.inr rfl
    · exact Or.inl ⟨p', hl, hx'⟩
  · obtain ⟨_, g4⟩ := g4 hq
    constructor
    · intro x hx
      rcases (g4 (fun y => y = x)).1 ⟨x, hx, rfl⟩ with ⟨y, hy, rfl⟩ | rfl
      · exact Or.inl hy
      · exact Or.inr rfl
    · intro p' x hl _ hx
      obtain ⟨y, hy, rfl⟩ := (g4 (fun y => y = x)).2 (Or.inl ⟨x, ⟨p', hl, hx⟩, rfl⟩)
      exact hy

/-- A full branch node with the bits of its lower half. -/
theorem lower_law (hP : ∀ x R R', (∀ k, R k → R' k) → P x R → P x R') (h : BOk P F b R)
    (hfull : ∀ p, p < N → Bitmap.bit b.bits p = true) {w : Bitmap N} (hw : Bitmap.Clean w) :
    BOk P F ⟨w, b.keys, b.kids⟩ R ∧ ∀ x, Kid (⟨w, b.keys, b.kids⟩ : Branch N K C) x → Kid b x := by
  have hl : ∀ p, live (⟨w, b.keys, b.kids⟩ : Branch N K C) p → live b p := by
    rintro p (⟨h1, _⟩ | h1)
    · exact Or.inl ⟨h1, hfull p h1⟩
    · exact Or.inr h1
  refine ⟨⟨hw, fun i j hi hj _ _ => h.inj i j hi hj (hfull i hi) (hfull j hj), fun p hp _ => h.sep p hp (hfull p hp), fun p hp => ?_,
    fun p q x y hp hq => h.disj p q x y (hl p hp) (hl q hq)⟩, ?_⟩
  · obtain ⟨x, hx, hPx⟩ := h.kid p (hl p hp)
    exact ⟨x, hx, hP _ _ _ (fun k hk => ⟨hk.1, hk.2.1, fun q hq _ hlt => hk.2.2 q hq (hfull q hq) hlt⟩) hPx⟩
  · rintro x ⟨p, hp, hx⟩
    exact ⟨p, hl p hp, hx⟩

/-- All states of `insertInBranchNode` after a child has been split. -/
theorem addSplitAt_law (hP : ∀ x R R', (∀ k, R k → R' k) → P x R → P x R') {lim : Limits K} {cv : Conv K} (hN : 2 ≤ N)
    (hN64 : N % 64 ≠ 0) (hconv : ∀ k, R k → cv.ofSize (cv.toSize k) = k)
    (hmono : ∀ k k', R k → R k' → (cv.toSize k < cv.toSize k' ↔ k < k'))
    (hlim : ∀ k, R k → k < lim.max) (h : BOk P F b R) {p : Nat} (hp : live b p) {key s : K} {left right : C}
    (hkey : rng b R p key)
    (hleft : b.kids p = some left) (hs : rng b R p s) (hk0 : ∃ k0, rng b R p k0 ∧ k0 < s)
    (h1 : P left (fun k => rng b R p k ∧ k < s)) (h2 : P right (fun k => rng b R p k ∧ s ≤ k))
    (hd : ∀ x, Kid b x → Disjoint (F right) (F x)) (q : Nat) :
    ∃ b', b.addSplitAt lim cv key s left right q = .ok b' ∧ BOk P F b' R ∧ (∀ x, Kid b' x → Kid b x ∨ x = right) ∧
      (9 ≤ q → ∃ sp, b.addSplit lim cv key s left right = .ok (b', sp)) := by
  have monoR : ∀ (b' : Branch N K C) (Q : K → Prop), BOk P F b' (fun k => R k ∧ Q k) → BOk P F b' R := by
    intro b' Q hb
    refine ⟨hb.clean, hb.inj, fun p hp hbp => ?_, fun p hp => ?_, hb.disj⟩
    · obtain ⟨g1, k, g2, g3⟩ := hb.sep p hp hbp
      exact ⟨g1.1, k, g2.1, g3⟩
    · obtain ⟨x, g1, g2⟩ := hb.kid p hp
      exact ⟨x, g1, hP _ _ _ (fun k hk => ⟨hk.1.1, hk.2⟩) g2⟩
  unfold Branch.addSplitAt Branch.addSplit
  by_cases hc : b.bits.count = N
  · rw [if_pos hc, if_pos hc]
    have hfull := full_of_count h.clean hc
    obtain ⟨b1, b2, sk, e, g1, g2, g3, g4, g5, g6, g7, g8, g9⟩ := bsplit_law hP hN hN64 hconv hmono h hfull
    have e0 := e
    unfold Branch.split at e
    obtain ⟨r, er, e⟩ := (Res.bind_eq_ok).1 e
    obtain ⟨sk', esk, e⟩ := (Res.bind_eq_ok).1 e
    obtain ⟨w, ew, e⟩ := (Res.bind_eq_ok).1 e
    obtain ⟨w2, ew2, e⟩ := (Res.bind_eq_ok).1 e
    have e' := Res.ok.inj e
    simp only [Prod.mk.injEq] at e'
    obtain ⟨rfl, rfl, rfl⟩ := e'
    rw [er, Res.ok_bind, esk, Res.ok_bind, ew, Res.ok_bind, e0, Res.ok_bind]
    simp only
    obtain ⟨hlo, hhi⟩ := g9 p left key hp hleft hkey
    obtain ⟨k0, hk0, hk0s⟩ := hk0
    by_cases h5 : 5 ≤ q
    · rw [if_pos h5, if_pos (c := 2 ≤ q) (by omega)]
      by_cases hlt : 5 < q ∧ key < sk'
      · rw [if_pos hlt, if_pos hlt.2]
        obtain ⟨p1, q1, q2, q3⟩ := hlo hlt.2
        have hh := addAt_law hP (lim := lim) (fun k hk => hlim k hk.1) g3 g5 q1 q2 (q3 s hs) ⟨k0, q3 k0 hk0, hk0s⟩
          (hP _ _ _ (fun k hk => ⟨q3 k hk.1, hk.2⟩) h1) (hP _ _ _ (fun k hk => ⟨q3 k hk.1, hk.2⟩) h2)
          (fun x hx => hd x ((g7 x).2 (Or.inl hx))) (q - 5)
        have hh' := addAt_others hP (lim := lim) (fun k hk => hlim k hk.1) g3 g5 q1 q2 (q3 s hs) ⟨k0, q3 k0 hk0, hk0s⟩
          (hP _ _ _ (fun k hk => ⟨q3 k hk.1, hk.2⟩) h1) (hP _ _ _ (fun k hk => ⟨q3 k hk.1, hk.2⟩) h2)
          (fun x hx => hd x ((g7 x).2 (Or.inl hx))) (q - 5)
        obtain ⟨b', e1, r1, _, _, r4⟩ := hh
        obtain ⟨b'', e2, _, r2, _⟩ := hh'
        rw [e1] at e2
        cases Res.ok.inj e2
        refine ⟨b', e1, monoR _ _ r1, fun x hx => ?_, fun hq => ⟨some (sk', ⟨w2, b.keys, b.kids⟩), ?_⟩⟩
        · rcases r2 x hx with hx | hx
          · exact Or.inl ((g7 x).2 (Or.inl hx))
          · exact Or.inr hx
        · rw [(r4 (by omega)).1]; rfl
      · rw [if_neg hlt]
        refine ⟨_, rfl, monoR _ _ g3, fun x hx => Or.inl ((g7 x).2 (Or.inl hx)), fun hq => ?_⟩
        have hge : ¬ key < sk' := fun h => hlt ⟨by omega, h⟩
        rw [if_neg hge]
        obtain ⟨p1, q1, q2, q3⟩ := hhi (not_lt.1 hge)
        obtain ⟨b', e', _⟩ := add_law hP (lim := lim) (fun k hk => hlim k hk.1) g4 g6 q1 q2 (q3 s hs) ⟨k0, q3 k0 hk0, hk0s⟩
          (hP _ _ _ (fun k hk => ⟨q3 k hk.1, hk.2⟩) h1) (hP _ _ _ (fun k hk => ⟨q3 k hk.1, hk.2⟩) h2)
          (fun x hx => hd x ((g7 x).2 (Or.inr hx)))
        exact ⟨some (sk', b'), by rw [e']; rfl⟩
    · rw [if_neg h5, if_neg (c := 5 < q ∧ key < sk') (by omega)]
      by_cases h2' : 2 ≤ q
      · rw [if_pos h2']
        obtain ⟨r1, r2⟩ := lower_law hP h hfull (w := w) g3.clean
        exact ⟨_, rfl, r1, fun x hx => Or.inl (r2 x hx), fun _ => by omega⟩
      · rw [if_neg h2']
        exact ⟨_, rfl, h, fun x hx => Or.inl hx, fun _ => by omega⟩
  · rw [if_neg hc, if_neg hc]
    obtain ⟨b', e1, r1, _, _, r4⟩ := addAt_law hP hlim h (not_full h.clean hc) hp hleft hs hk0 h1 h2 hd q
    obtain ⟨b'', e2, _, r2, _⟩ := addAt_others hP hlim h (not_full h.clean hc) hp hleft hs hk0 h1 h2 hd q
    rw [e1] at e2
    cases Res.ok.inj e2
    exact ⟨b', e1, r1, r2, fun hq => ⟨none, by rw [(r4 (by omega)).1]; rfl⟩⟩

end branch

end Verif.BitTree
