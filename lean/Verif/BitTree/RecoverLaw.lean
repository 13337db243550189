import Verif.BitTree.Recover
import Verif.BitTree.Chain

/-!
# Laws of `recover`

The branch nodes are filled from left to right: all children of a node but the last are complete.  A node is
created with one child and no separator, and that child sits at position 0, where no search looks for it.
-/

set_option linter.unusedSectionVars false

namespace Verif.BitTree

open Verif Search FPTree BTree

variable {K V : Type} {M : Nat} [LinearOrder K] [Inhabited K] {c : Cfg K V} {adm : K → Prop}

section node

variable {N : Nat} {C : Type}

/-- Position of the `q`-th child in a node with `n` separators. -/
def place (N n q : Nat) : Nat := if q < n then q else if n = 0 then 0 else N

/-- A node during recovery: `n` separators, the children hold the lists `ls 0 … ls n`, all but the last of length `w`. -/
structure SP (P : C → List Nat → Prop) (w : Nat) (m : Nat → K) (b : Branch N K C) (n : Nat) (ls : Nat → List Nat) : Prop where
  le : n ≤ N
  clean : Bitmap.Clean b.bits
  bit : ∀ q, q < N → (Bitmap.bit b.bits q = true ↔ q < n)
  len : ∀ q, q < n → (ls q).length = w
  kid : ∀ q, q ≤ n → ∃ x, b.kids (place N n q) = some x ∧ P x (ls q)
  key : ∀ q, q < n → ∃ a, (ls (q + 1)).head? = some a ∧ b.keys q = m a
  none : n = 0 → b.kids N = none

/-- The concatenation of `ls 0 … ls n`. -/
def cat (ls : Nat → List Nat) (n : Nat) : List Nat := (List.range (n + 1)).flatMap ls

theorem cat_zero (ls : Nat → List Nat) : cat ls 0 = ls 0 := by simp [cat]

theorem cat_succ (ls : Nat → List Nat) (n : Nat) : cat ls (n + 1) = cat ls n ++ ls (n + 1) := by
  simp [cat, List.range_succ]

theorem cat_congr {ls ls' : Nat → List Nat} : ∀ (n : Nat), (∀ q, q ≤ n → ls q = ls' q) → cat ls n = cat ls' n
  | 0, h => by rw [cat_zero, cat_zero, h 0 (le_refl _)]
  | n + 1, h => by
    rw [cat_succ, cat_succ, cat_congr n (fun q hq => h q (by omega)), h (n + 1) (le_refl _)]

/-- The list without the last child. -/
def catInit (ls : Nat → List Nat) : Nat → List Nat
  | 0 => []
  | n + 1 => cat ls n

theorem cat_init (ls : Nat → List Nat) (n : Nat) : cat ls n = catInit ls n ++ ls n := by
  cases n with
  | zero => rw [cat_zero]; rfl
  | succ n => rw [cat_succ]; rfl

theorem cat_upd (ls : Nat → List Nat) (n : Nat) (l : List Nat) : cat (upd ls n l) n = catInit ls n ++ l := by
  cases n with
  | zero => rw [cat_zero]; simp [upd, catInit]
  | succ n =>
    rw [cat_succ, show upd ls (n + 1) l (n + 1) = l by simp [upd]]
    congr 1
    exact cat_congr n (fun q hq => by simp [upd, show q ≠ n + 1 by omega])

theorem cat_length {ls : Nat → List Nat} {w : Nat} : ∀ (n : Nat), (∀ q, q < n → (ls q).length = w) → (cat ls n).length = n * w + (ls n).length
  | 0, _ => by rw [cat_zero]; omega
  | n + 1, h => by
    rw [cat_succ, List.length_append, cat_length n (fun q hq => h q (by omega)), h n (by omega)]
    ring

theorem mem_cat {ls : Nat → List Nat} {n i : Nat} : i ∈ cat ls n ↔ ∃ q, q ≤ n ∧ i ∈ ls q := by
  unfold cat
  rw [List.mem_flatMap]
  constructor
  · rintro ⟨q, hq, hi⟩; exact ⟨q, by rw [List.mem_range] at hq; omega, hi⟩
  · rintro ⟨q, hq, hi⟩; exact ⟨q, by rw [List.mem_range]; omega, hi⟩

variable {P : C → List Nat → Prop} {w : Nat} {m : Nat → K} {b : Branch N K C} {n : Nat} {ls : Nat → List Nat}

theorem place_last (N n : Nat) : place N n n = if n = 0 then 0 else N := by
  unfold place; rw [if_neg (lt_irrefl _)]

theorem sp_count (h : SP P w m b n ls) : b.bits.count = n := by
  rw [Bitmap.count_eq_card h.clean]
  have : BitmapSpec.members b.bits = Finset.range n := by
    ext p; rw [Bitmap.mem_members, Finset.mem_range]
    constructor
    · rintro ⟨h1, h2⟩; exact (h.bit p h1).1 h2
    · intro hp
      have := h.le
      exact ⟨by omega, (h.bit p (by omega)).2 hp⟩
  rw [show BitmapSpec.members b.bits = Finset.range n from this, Finset.card_range]

theorem sp_only (x : C) (l : List Nat) (hx : P x l) (hN : 0 < N) (m : Nat → K) (w : Nat) :
    SP P w m (Branch.only x : Branch N K C) 0 (fun _ => l) := by
  refine ⟨Nat.zero_le _, Bitmap.clean_fresh, fun q _ => ?_, fun q hq => absurd hq (Nat.not_lt_zero _), fun q hq => ⟨x, ?_, hx⟩,
    fun q hq => absurd hq (Nat.not_lt_zero _), fun _ => ?_⟩
  · rw [show (Branch.only x : Branch N K C).bits = Bitmap.fresh N from rfl, bit_fresh]
    simp
  · show upd (fun _ => none) 0 (some x) (place N 0 q) = some x
    simp [place, upd]
  · show upd (fun _ => none) 0 (some x) N = none
    rw [upd, if_neg (by omega)]

theorem sp_replace (h : SP P w m b n ls) (hN : 0 < N) {x : C} {l : List Nat} (hx : P x l) (hl : l.head? = (ls n).head?) :
    SP P w m ({ b with kids := upd b.kids (place N n n) (some x) } : Branch N K C) n (upd ls n l) := by
  have hle := h.le
  refine ⟨h.le, h.clean, h.bit, fun q hq => ?_, fun q hq => ?_, fun q hq => ?_, fun h0 => ?_⟩
  · rw [upd, if_neg (by omega)]; exact h.len q hq
  · rcases Nat.lt_or_eq_of_le hq with hq | rfl
    · obtain ⟨y, h1, h2⟩ := h.kid q hq.le
      refine ⟨y, ?_, ?_⟩
      · show upd b.kids (place N n n) (some x) (place N n q) = some y
        rw [upd, if_neg ?_]
        · exact h1
        · unfold place
          rw [if_pos hq, if_neg (lt_irrefl _), if_neg (by omega)]
          omega
      · rw [upd, if_neg (by omega)]; exact h2
    · refine ⟨x, ?_, ?_⟩
      · show upd b.kids (place N q q) (some x) (place N q q) = some x
        rw [upd, if_pos rfl]
      · rw [upd, if_pos rfl]; exact hx
  · obtain ⟨a, h1, h2⟩ := h.key q hq
    refine ⟨a, ?_, h2⟩
    by_cases e : q + 1 = n
    · rw [upd, if_pos e, hl, ← e]; exact h1
    · rw [upd, if_neg e]; exact h1
  · subst h0
    show upd b.kids (place N 0 0) (some x) N = none
    rw [upd, if_neg (by simp [place]; omega)]
    exact h.none rfl

theorem sp_append (h : SP P w m b n ls) (hn : n < N) (hw : (ls n).length = w) {x : C} {a : Nat} {l : List Nat} (hx : P x (a :: l)) :
    ∃ b', b.append n (m a) x = .ok b' ∧ SP P w m b' (n + 1) (upd ls (n + 1) (a :: l)) := by
  obtain ⟨bits, e, hbits, hcl⟩ := set_bit' (b := b.bits) hn true
  refine ⟨_, by unfold Branch.append; rw [e, Res.ok_bind]; rfl, ?_⟩
  refine ⟨hn, hcl h.clean, fun q hq => ?_, fun q hq => ?_, fun q hq => ?_, fun q hq => ?_, fun h0 => absurd h0 (by omega)⟩
  · rw [hbits q hq]
    by_cases e : q = n
    · simp [e]
    · rw [if_neg e, h.bit q hq]; omega
  · rw [upd, if_neg (by omega)]
    rcases Nat.lt_or_eq_of_le (Nat.le_of_lt_succ hq) with hq | rfl
    · exact h.len q hq
    · exact hw
  · rcases Nat.lt_or_eq_of_le hq with hq | rfl
    · obtain ⟨y, h1, h2⟩ := h.kid q (by omega)
      refine ⟨y, ?_, by rw [upd, if_neg (by omega)]; exact h2⟩
      show upd (if 0 < n then upd b.kids n (b.kids N) else b.kids) N (some x) (place N (n + 1) q) = some y
      rw [show place N (n + 1) q = q by unfold place; rw [if_pos hq], upd, if_neg (by omega)]
      rcases Nat.lt_or_eq_of_le (Nat.le_of_lt_succ hq) with hq | rfl
      · rw [if_pos (by omega), upd, if_neg (by omega), ← h1]
        unfold place; rw [if_pos hq]
      · rw [place_last] at h1
        by_cases e0 : q = 0
        · subst e0
          rw [if_neg (lt_irrefl _), ← h1, if_pos rfl]
        · rw [if_neg e0] at h1
          rw [if_pos (by omega), upd, if_pos rfl]; exact h1
    · refine ⟨x, ?_, by rw [upd, if_pos rfl]; exact hx⟩
      show upd (if 0 < n then upd b.kids n (b.kids N) else b.kids) N (some x) (place N (n + 1) (n + 1)) = some x
      rw [place_last, if_neg (Nat.succ_ne_zero n)]
      simp [upd]
  · rcases Nat.lt_or_eq_of_le (Nat.le_of_lt_succ hq) with hq | rfl
    · obtain ⟨a', h1, h2⟩ := h.key q hq
      refine ⟨a', by rw [upd, if_neg (by omega)]; exact h1, ?_⟩
      show upd b.keys n (m a) q = m a'
      rw [upd, if_neg (by omega)]; exact h2
    · refine ⟨a, by rw [upd, if_pos rfl]; rfl, ?_⟩
      show upd b.keys q (m a) q = m a
      rw [upd, if_pos rfl]

end node

/-- The subtree `t` has been filled from left to right with the leaves `l`. -/
def Spine {N : Nat} (m : Nat → K) : (d : Nat) → Tree N K d → List Nat → Prop
  | 0, id, l => l = [id]
  | d + 1, b, l => ∃ n ls, SP (Spine m d) ((N + 1) ^ d) m b n ls ∧ l = cat ls n

theorem spine_length {N : Nat} {m : Nat → K} : ∀ (d : Nat) (t : Tree N K d) (l : List Nat), Spine m d t l →
    1 ≤ l.length ∧ l.length ≤ (N + 1) ^ d
  | 0, id, l, h => by rw [show l = [id] from h]; exact ⟨le_refl 1, le_refl 1⟩
  | d + 1, b, l, ⟨n, ls, h, hl⟩ => by
    obtain ⟨x, _, hx⟩ := h.kid n (le_refl _)
    have := spine_length d x _ hx
    rw [hl, cat_length n h.len]
    refine ⟨by omega, ?_⟩
    rw [pow_succ]
    have := Nat.mul_le_mul_right ((N + 1) ^ d) h.le
    rw [Nat.mul_succ, mul_comm ((N + 1) ^ d) N]
    omega

theorem spine_ne {N : Nat} {m : Nat → K} {d : Nat} {t : Tree N K d} {l : List Nat} (h : Spine m d t l) : l ≠ [] := by
  have := (spine_length d t l h).1
  rintro rfl
  simp at this

/-- Result of `recoveryInsertInBranchNode`. -/
def RecPost (m : Nat → K) (N : Nat) (d : Nat) (l : List Nat) (leaf : Nat) (t' : Tree N K d) (sp : Option (K × Tree N K d)) : Prop :=
  match sp with
  | none => Spine m d t' (l ++ [leaf])
  | some (s, r) => l.length = (N + 1) ^ d ∧ Spine m d t' l ∧ s = m leaf ∧ Spine m d r [leaf]

theorem recIns_law (hN : 0 < c.N) {h : Heap M K V} {m : Nat → K} {leaf : Nat} (hm : recMin c h leaf = .ok (m leaf)) :
    ∀ (d : Nat) (b : Tree c.N K (d + 1)) (l : List Nat), Spine m (d + 1) b l →
    ∃ b' sp, recIns c h leaf d b = .ok (b', sp) ∧ RecPost m c.N (d + 1) l leaf b' sp
  | 0, b, l, ⟨n, ls, hs, hl⟩ => by
    have hlen : ∀ q, q ≤ n → (ls q).length = 1 := by
      intro q hq
      obtain ⟨x, _, hx⟩ := hs.kid q hq
      rw [show ls q = [x] from hx]; rfl
    rw [recIns]
    simp only
    rw [sp_count hs]
    by_cases e : n = c.N
    · rw [if_pos e, hm, Res.ok_bind]
      refine ⟨b, _, rfl, ?_, ⟨n, ls, hs, hl⟩, rfl, 0, fun _ => [leaf], ?_, ?_⟩
      · rw [hl, cat_length n hs.len, hlen n (le_refl _), e]; simp
      · exact sp_only (P := Spine (N := c.N) m 0) leaf [leaf] rfl hN m _
      · rw [cat_zero]
    · rw [if_neg e, hm, Res.ok_bind]
      have hn : n < c.N := lt_of_le_of_ne hs.le e
      obtain ⟨b', e', hb'⟩ := sp_append hs hn (by rw [hlen n (le_refl _)]; simp) (x := leaf) (a := leaf) (l := []) rfl
      refine ⟨b', none, ?_, n + 1, _, hb', ?_⟩
      · exact (Res.bind_eq_ok).2 ⟨b', e', rfl⟩
      · rw [cat_upd, hl]; rfl
  | d + 1, b, l, ⟨n, ls, hs, hl⟩ => by
    obtain ⟨x, hx, hxs⟩ := hs.kid n (le_refl _)
    have hp : (if n = 0 then 0 else c.N) = place c.N n n := (place_last c.N n).symm
    have hpl : place c.N n n < c.N + 1 := by rw [place_last]; split <;> omega
    obtain ⟨x', sp, e1, hpost⟩ := recIns_law hN hm d x (ls n) hxs
    rw [recIns]
    simp only
    rw [sp_count hs, hp, kid_ok hpl hx, Res.ok_bind, e1, Res.ok_bind]
    simp only
    match sp, hpost with
    | none, hpost =>
      refine ⟨_, none, rfl, n, _, sp_replace hs hN (x := x') (l := ls n ++ [leaf]) hpost ?_, ?_⟩
      · rw [List.head?_append_of_ne_nil _ (spine_ne hxs)]
      · rw [cat_upd, hl, cat_init, List.append_assoc]
    | some (s, r), ⟨p1, p2, p3, p4⟩ =>
      have hr := sp_replace hs hN (x := x') (l := ls n) p2 rfl
      have hu : upd ls n (ls n) = ls := by funext q; unfold upd; split <;> simp_all
      rw [hu] at hr
      by_cases e : n = c.N
      · simp only
        rw [if_pos e]
        refine ⟨_, _, rfl, ?_, ⟨n, ls, hr, hl⟩, p3, 0, fun _ => [leaf], ?_, ?_⟩
        · rw [hl, cat_length n hs.len, p1, e, pow_succ (c.N + 1) (d + 1)]; ring
        · exact sp_only (P := Spine (N := c.N) m (d + 1)) r [leaf] p4 hN m _
        · rw [cat_zero]
      · simp only
        rw [if_neg e]
        have hn : n < c.N := lt_of_le_of_ne hs.le e
        obtain ⟨b', e', hb'⟩ := sp_append hr hn p1 (x := r) (a := leaf) (l := []) p4
        subst p3
        refine ⟨b', none, ?_, n + 1, _, hb', ?_⟩
        · show (Branch.append _ n (m leaf) r >>= _) = _
          rw [e', Res.ok_bind]; rfl
        · rw [cat_upd, hl]; rfl

/-- The tree during recovery: the root has a separator unless there is only one leaf. -/
def RInv (m : Nat → K) (t : RTree c) (l : List Nat) : Prop :=
  Spine m (t.1 + 1) t.2 l ∧ (1 < l.length → (c.N + 1) ^ t.1 < l.length) ∧ (l.length = 1 → t.1 = 0)

theorem recoveryInsert_law (hN : 0 < c.N) {h : Heap M K V} {m : Nat → K} {leaf : Nat} (hm : recMin c h leaf = .ok (m leaf))
    {t : RTree c} {l : List Nat} (ht : RInv m t l) : ∃ t', recoveryInsert c h t leaf = .ok t' ∧ RInv m t' (l ++ [leaf]) := by
  obtain ⟨d, b⟩ := t
  obtain ⟨hs, h1, h2⟩ := ht
  obtain ⟨b', sp, e, hpost⟩ := recIns_law hN hm d b l hs
  have hl := spine_length _ _ _ hs
  unfold recoveryInsert
  simp only
  rw [e, Res.ok_bind]
  match sp, hpost with
  | none, hpost =>
    refine ⟨_, rfl, hpost, fun _ => ?_, fun hh => ?_⟩
    · show (c.N + 1) ^ d < _
      rw [List.length_append, List.length_singleton]
      rcases Nat.lt_or_ge 1 l.length with h' | h'
      · have : (c.N + 1) ^ d < l.length := h1 h'
        omega
      · have h0 : d = 0 := h2 (by omega)
        subst h0
        rw [pow_zero]; omega
    · rw [List.length_append, List.length_singleton] at hh; omega
  | some (s, r), ⟨p1, p2, p3, p4⟩ =>
    simp only
    subst p3
    have hr := sp_only (P := Spine (N := c.N) m (d + 1)) b' l p2 hN m ((c.N + 1) ^ (d + 1))
    obtain ⟨b2, e2, hb2⟩ := sp_append hr hN p1 (x := r) (a := leaf) (l := []) p4
    have : ∃ bits, (Bitmap.fresh c.N).set 0 = .ok bits ∧ b2 = ⟨bits, upd (fun _ => default) 0 (m leaf),
        upd (upd (fun _ => none) 0 (some b')) c.N (some r)⟩ := by
      unfold Branch.append at e2
      obtain ⟨bits, e3, e4⟩ := (Res.bind_eq_ok).1 e2
      exact ⟨bits, e3, (Res.ok.inj e4).symm⟩
    obtain ⟨bits, e3, e4⟩ := this
    rw [e3, Res.ok_bind]
    refine ⟨_, rfl, ⟨1, _, by rw [← e4]; exact hb2, ?_⟩, fun _ => ?_, fun hh => ?_⟩
    · rw [cat_upd]; simp [catInit, cat_zero]
    · show (c.N + 1) ^ (d + 1) < _
      rw [List.length_append, List.length_singleton]; omega
    · rw [List.length_append, List.length_singleton] at hh; omega

theorem recoverLoop_law (hN : 0 < c.N) {h : Heap M K V} {m : Nat → K} : ∀ (rest : List Nat) (o : Option Nat) (n : Nat) (t : RTree c)
    (l : List Nat), Linked h o rest → rest.length ≤ n → (∀ i ∈ rest, recMin c h i = .ok (m i)) → RInv m t l →
    ∃ t', recoverLoop c h n t o = .ok t' ∧ RInv m t' (l ++ rest)
  | [], o, n, t, l, hl, _, _, ht => by
    have : o = none := hl
    subst this
    exact ⟨t, by cases n <;> rfl, by rw [List.append_nil]; exact ht⟩
  | i :: is, o, n, t, l, ⟨h1, nx, h2, h3⟩, hn, hm, ht => by
    subst h1
    obtain ⟨k, rfl⟩ : ∃ k, n = k + 1 := ⟨n - 1, by simp at hn; omega⟩
    obtain ⟨t1, e1, ht1⟩ := recoveryInsert_law hN (hm i (by simp)) ht
    unfold nextOf at h2
    obtain ⟨x, hx, hxn⟩ := Option.map_eq_some_iff.1 h2
    obtain ⟨t2, e2, ht2⟩ := recoverLoop_law hN is nx k t1 (l ++ [i]) h3 (by simp at hn; omega) (fun j hj => hm j (by simp [hj])) ht1
    refine ⟨t2, ?_, by rw [List.append_assoc] at ht2; exact ht2⟩
    rw [recoverLoop, e1, Res.ok_bind, hx, Res.ofOption_some, Res.ok_bind, hxn, e2]

/-! ## When no node is left without a separator -/

/-- No digit of `L - 1` below position `d`, written in base `N + 1`, is zero. -/
def Dense (N L d : Nat) : Prop := ∀ j, j < d → (L - 1) / (N + 1) ^ j % (N + 1) ≠ 0

theorem dense_succ {N n L d : Nat} (hn : n ≤ N) (h1 : 1 ≤ L) (h2 : L ≤ (N + 1) ^ d) :
    Dense N (n * (N + 1) ^ d + L) (d + 1) ↔ n ≠ 0 ∧ Dense N L d := by
  have hb : 0 < N + 1 := Nat.succ_pos _
  have e : n * (N + 1) ^ d + L - 1 = n * (N + 1) ^ d + (L - 1) := by omega
  have top : (n * (N + 1) ^ d + L - 1) / (N + 1) ^ d % (N + 1) = n := by
    rw [e, mul_comm, Nat.mul_add_div (Nat.pow_pos hb), Nat.div_eq_of_lt (by omega), Nat.add_zero, Nat.mod_eq_of_lt (by omega)]
  have low : ∀ j, j < d → (n * (N + 1) ^ d + L - 1) / (N + 1) ^ j % (N + 1) = (L - 1) / (N + 1) ^ j % (N + 1) := by
    intro j hj
    obtain ⟨i, rfl⟩ : ∃ i, d = j + (i + 1) := ⟨d - j - 1, by omega⟩
    rw [e, show n * (N + 1) ^ (j + (i + 1)) = (N + 1) ^ j * ((N + 1) * (n * (N + 1) ^ i)) by rw [pow_add, pow_succ]; ring,
      Nat.mul_add_div (Nat.pow_pos hb), Nat.mul_add_mod]
  constructor
  · intro h
    refine ⟨?_, fun j hj => ?_⟩
    · have := h d (Nat.lt_succ_self _)
      rwa [top] at this
    · rw [← low j hj]; exact h j (by omega)
  · rintro ⟨h0, h⟩ j hj
    rcases Nat.lt_or_eq_of_le (Nat.le_of_lt_succ hj) with hj | rfl
    · rw [low j hj]; exact h j hj
    · rw [top]; exact h0

theorem dense_full {N : Nat} (hN : 0 < N) : ∀ d, Dense N ((N + 1) ^ d) d
  | 0 => fun j hj => absurd hj (Nat.not_lt_zero _)
  | d + 1 => by
    have := (dense_succ (N := N) (n := N) (L := (N + 1) ^ d) (d := d) (le_refl _) (Nat.pow_pos (Nat.succ_pos _)) (le_refl _)).2
      ⟨by omega, dense_full hN d⟩
    rwa [show N * (N + 1) ^ d + (N + 1) ^ d = (N + 1) ^ (d + 1) by rw [pow_succ]; ring] at this

/-- The leaves `l` with their smallest keys `m`: filled, ordered, with entries in `R`. -/
structure Row (h : Heap M K V) (m : Nat → K) (l : List Nat) (R : K → Prop) : Prop where
  leaf : ∀ i ∈ l, ∃ x, h[i]? = some x ∧ LOk x.leaf ∧ ∀ k v, Has x.leaf k v → R k ∧ m i ≤ k
  min : ∀ i ∈ l, ∃ x v, h[i]? = some x ∧ Has x.leaf (m i) v
  ord : l.Pairwise (fun i j => ∀ x k v, h[i]? = some x → Has x.leaf k v → k < m j)

/-- Without a node that lacks separators the recovered tree is correct. -/
theorem spine_ok {N : Nat} (hN : 0 < N) {h : Heap M K V} {m : Nat → K} : ∀ (d : Nat) (t : Tree N K d) (l : List Nat) (R : K → Prop),
    Spine m d t l → Dense N l.length d → Row h m l R → Ok h d t R ∧ ∀ i, i ∈ fp d t ↔ i ∈ l
  | 0, id, l, R, hs, _, hr => by
    have hl : l = [id] := hs
    subst hl
    obtain ⟨x, h1, h2, h3⟩ := hr.leaf id List.mem_cons_self
    exact ⟨⟨x, h1, h2, fun k v hv => (h3 k v hv).1⟩, fun i => (List.mem_singleton (α := Nat)).symm⟩
  | d + 1, b, l, R, ⟨n, ls, hs, hl⟩, hd, hr => by
    have hle := hs.le
    obtain ⟨xn, hxn, hsn⟩ := hs.kid n (le_refl _)
    have hlen := cat_length n hs.len
    rw [← hl] at hlen
    have hsnl := spine_length _ _ _ hsn
    rw [hlen, dense_succ hle hsnl.1 hsnl.2] at hd
    obtain ⟨hn0, hdn⟩ := hd
    have mem : ∀ q i, q ≤ n → i ∈ ls q → i ∈ l := fun q i hq hi => by rw [hl]; exact mem_cat.2 ⟨q, hq, hi⟩
    -- order between the children
    have pw : ∀ q q' i j, q < q' → q' ≤ n → i ∈ ls q → j ∈ ls q' → ∀ x k v, h[i]? = some x → Has x.leaf k v → k < m j := by
      have := hr.ord
      rw [hl] at this
      unfold cat at this
      rw [List.pairwise_flatMap] at this
      intro q q' i j hq hq' hi hj
      have h2 := this.2
      rw [List.pairwise_iff_getElem] at h2
      have := h2 q q' (by rw [List.length_range]; omega) (by rw [List.length_range]; omega) hq
      rw [List.getElem_range, List.getElem_range] at this
      exact this i hi j hj
    have pin : ∀ q, q ≤ n → (ls q).Pairwise (fun i j => ∀ x k v, h[i]? = some x → Has x.leaf k v → k < m j) := by
      have := hr.ord
      rw [hl] at this
      unfold cat at this
      rw [List.pairwise_flatMap] at this
      intro q hq
      exact this.1 q (by rw [List.mem_range]; omega)
    have hd : ∀ q, q ≤ n → Dense N (ls q).length d := by
      intro q hq
      rcases Nat.lt_or_eq_of_le hq with hq | rfl
      · rw [hs.len q hq]; exact dense_full hN d
      · exact hdn
    -- separators
    have hkey : ∀ q, q < n → ∃ a, a ∈ ls (q + 1) ∧ b.keys q = m a ∧ ∀ j ∈ ls (q + 1), m a ≤ m j := by
      intro q hq
      obtain ⟨a, h1, h2⟩ := hs.key q hq
      have hp := pin (q + 1) hq
      match hls : ls (q + 1), h1 with
      | a' :: rest, h1 =>
        obtain rfl := Option.some.inj h1
        refine ⟨a', by simp, h2, fun j hj => ?_⟩
        rcases List.mem_cons.1 hj with rfl | hj
        · exact le_refl _
        · rw [hls] at hp
          obtain ⟨x, v, hx, hv⟩ := hr.min a' (mem (q + 1) a' hq (by rw [hls]; simp))
          exact ((List.pairwise_cons.1 hp).1 j hj x _ v hx hv).le
    have hmin : ∀ i ∈ l, ∀ x k v, h[i]? = some x → Has x.leaf k v → R k ∧ m i ≤ k := by
      intro i hi x k v hx hv
      obtain ⟨x', h1, _, h3⟩ := hr.leaf i hi
      rw [hx] at h1; cases h1
      exact h3 k v hv
    -- an entry of child `q` is below separator `q` and not below the separators before
    have lo : ∀ q q' i x k v, q' < q → q ≤ n → i ∈ ls q → h[i]? = some x → Has x.leaf k v → b.keys q' ≤ k := by
      intro q q' i x k v hq hqn hi hx hv
      obtain ⟨a, h1, h2, h3⟩ := hkey q' (by omega)
      rw [h2]
      have hik := (hmin i (mem q i hqn hi) x k v hx hv).2
      rcases Nat.lt_or_eq_of_le (show q' + 1 ≤ q by omega) with hq | rfl
      · obtain ⟨y, w, hy, hw⟩ := hr.min a (mem _ a (by omega) h1)
        exact le_trans (pw (q' + 1) q a i hq hqn h1 hi y _ w hy hw).le hik
      · exact le_trans (h3 i hi) hik
    have up : ∀ q i x k v, q < n → i ∈ ls q → h[i]? = some x → Has x.leaf k v → k < b.keys q := by
      intro q i x k v hq hi hx hv
      obtain ⟨a, h1, h2, h3⟩ := hkey q hq
      rw [h2]
      exact pw q (q + 1) i a (by omega) hq hi h1 x k v hx hv
    have ne : ∀ q, q ≤ n → ∃ i, i ∈ ls q := by
      intro q hq
      obtain ⟨x, _, hx⟩ := hs.kid q hq
      exact List.exists_mem_of_ne_nil _ (spine_ne hx)
    have kmono : ∀ q q', q < q' → q' < n → b.keys q < b.keys q' := by
      intro q q' hq hq'
      obtain ⟨a, h1, h2, _⟩ := hkey q (by omega)
      obtain ⟨y, w, hy, hw⟩ := hr.min a (mem _ a (by omega) h1)
      rw [h2]
      rcases Nat.lt_or_eq_of_le (show q + 1 ≤ q' by omega) with hq | hq
      · exact lt_of_lt_of_le (up (q + 1) a y _ w (by omega) h1 hy hw) (by
          rcases Nat.lt_or_eq_of_le (show q + 1 ≤ q' by omega) with hq | hq
          · obtain ⟨a', g1, g2, _⟩ := hkey (q + 1) (by omega)
            obtain ⟨y', w', hy', hw'⟩ := hr.min a' (mem _ a' (by omega) g1)
            obtain ⟨i, hi⟩ := ne q' (by omega)
            rw [g2]
            obtain ⟨z, u, hz, hu⟩ := hr.min i (mem _ i (by omega) hi)
            refine le_trans ?_ (up q' i z _ u hq' hi hz hu).le
            have := lo q' (q + 1) i z _ u hq (by omega) hi hz hu
            rwa [g2] at this
          · rw [hq])
      · subst hq
        exact up (q + 1) a y _ w hq' h1 hy hw
    -- the child numbers
    have num : ∀ p, live b p → ∃ q, q ≤ n ∧ place N n q = p := by
      intro p hp
      rcases hp with ⟨h1, h2⟩ | h1
      · have := (hs.bit p h1).1 h2
        exact ⟨p, by omega, by unfold place; rw [if_pos this]⟩
      · exact ⟨n, le_refl _, by rw [place_last, if_neg hn0]; exact h1.symm⟩
    have plive : ∀ q, q ≤ n → live b (place N n q) := by
      intro q hq
      rcases Nat.lt_or_eq_of_le hq with hq | rfl
      · unfold place; rw [if_pos hq]
        exact Or.inl ⟨by omega, (hs.bit q (by omega)).2 hq⟩
      · rw [place_last, if_neg hn0]; exact Or.inr rfl
    have hrng : ∀ q i x k v, q ≤ n → i ∈ ls q → h[i]? = some x → Has x.leaf k v → rng b R (place N n q) k := by
      intro q i x k v hq hi hx hv
      refine ⟨(hmin i (mem q i hq hi) x k v hx hv).1, fun hp => ?_, fun q' hq' hb hlt => ?_⟩
      · rcases Nat.lt_or_eq_of_le hq with hq | rfl
        · rw [show place N n q = q by unfold place; rw [if_pos hq]]
          exact up q i x k v hq hi hx hv
        · rw [place_last, if_neg hn0] at hp
          exact absurd hp (lt_irrefl _)
      · have hq'n := (hs.bit q' hq').1 hb
        refine lo q q' i x k v ?_ hq hi hx hv
        rcases Nat.lt_or_eq_of_le hq with hq | rfl
        · have e : place N n q = q := by unfold place; rw [if_pos hq]
          rw [e] at hlt
          by_contra hge
          have := hlt (by omega)
          rcases Nat.lt_or_eq_of_le (Nat.le_of_not_lt hge) with h' | rfl
          · exact absurd this (not_lt.2 (kmono q q' h' hq'n).le)
          · exact lt_irrefl _ this
        · exact hq'n
    have row : ∀ q, q ≤ n → Row h m (ls q) (rng b R (place N n q)) := by
      intro q hq
      refine ⟨fun i hi => ?_, fun i hi => hr.min i (mem q i hq hi), pin q hq⟩
      obtain ⟨x, h1, h2, h3⟩ := hr.leaf i (mem q i hq hi)
      exact ⟨x, h1, h2, fun k v hv => ⟨hrng q i x k v hq hi h1 hv, (h3 k v hv).2⟩⟩
    have ih : ∀ q x, q ≤ n → b.kids (place N n q) = some x → Ok h d x (rng b R (place N n q)) ∧ ∀ i, i ∈ fp d x ↔ i ∈ ls q := by
      intro q x hq hx
      obtain ⟨x', h1, h2⟩ := hs.kid q hq
      rw [hx] at h1; cases h1
      exact spine_ok hN d x _ _ h2 (hd q hq) (row q hq)
    have disj : ∀ q q' i, q < q' → q' ≤ n → i ∈ ls q → i ∈ ls q' → False := by
      intro q q' i hq hq' hi hi'
      obtain ⟨x, v, hx, hv⟩ := hr.min i (mem q i (by omega) hi)
      exact lt_irrefl _ (pw q q' i i hq hq' hi hi' x _ v hx hv)
    refine ⟨⟨hs.clean, ?_, ?_, ?_, ?_⟩, fun i => ?_⟩
    · intro i j hi hj hbi hbj he
      have h1 := (hs.bit i hi).1 hbi
      have h2 := (hs.bit j hj).1 hbj
      rcases lt_trichotomy i j with h' | h' | h'
      · exact absurd he (kmono i j h' h2).ne
      · exact h'
      · exact absurd he (kmono j i h' h1).ne'
    · intro p hp hb
      have hpn := (hs.bit p hp).1 hb
      obtain ⟨a, h1, h2, _⟩ := hkey p hpn
      obtain ⟨x, v, hx, hv⟩ := hr.min a (mem _ a hpn h1)
      obtain ⟨i, hi⟩ := ne p (by omega)
      obtain ⟨y, w, hy, hw⟩ := hr.min i (mem p i (by omega) hi)
      refine ⟨by rw [h2]; exact (hmin a (mem _ a hpn h1) x _ v hx hv).1, m i, (hmin i (mem p i (by omega) hi) y _ w hy hw).1, ?_⟩
      exact up p i y _ w hpn hi hy hw
    · intro p hp
      obtain ⟨q, hq, rfl⟩ := num p hp
      obtain ⟨x, h1, _⟩ := hs.kid q hq
      exact ⟨x, h1, (ih q x hq h1).1⟩
    · intro p p' x y hp hp' hne hx hy
      obtain ⟨q, hq, rfl⟩ := num p hp
      obtain ⟨q', hq', rfl⟩ := num p' hp'
      rw [Set.disjoint_left]
      intro i hi hi'
      rw [(ih q x hq hx).2] at hi
      rw [(ih q' y hq' hy).2] at hi'
      rcases lt_trichotomy q q' with h' | h' | h'
      · exact disj q q' i h' hq' hi hi'
      · exact hne (by rw [h'])
      · exact disj q' q i h' hq hi' hi
    · rw [hl, mem_cat]
      constructor
      · rintro ⟨x, ⟨p, hp, hx⟩, hi⟩
        obtain ⟨q, hq, rfl⟩ := num p hp
        exact ⟨q, hq, ((ih q x hq hx).2 i).1 hi⟩
      · rintro ⟨q, hq, hi⟩
        obtain ⟨x, h1, _⟩ := hs.kid q hq
        exact ⟨x, ⟨_, plive q hq, h1⟩, ((ih q x hq h1).2 i).2 hi⟩

/-- A node without separators makes the search for a large key follow an uninitialised pointer. -/
theorem spine_ub (F : Laws c adm) {m : Nat → K} {k : K} : ∀ (d : Nat) (t : Tree c.N K d) (l : List Nat), Spine m d t l →
    ¬ Dense c.N l.length d → (∀ i ∈ l, adm (m i) ∧ m i ≤ k) → findLeaf c d t k = .ub
  | 0, _, _, _, hd, _ => absurd (fun j hj => absurd hj (Nat.not_lt_zero _)) hd
  | d + 1, b, l, ⟨n, ls, hs, hl⟩, hd, hk => by
    obtain ⟨x, hx, hsx⟩ := hs.kid n (le_refl _)
    have hlen := cat_length n hs.len
    rw [← hl] at hlen
    have hsl := spine_length _ _ _ hsx
    rw [hlen, dense_succ hs.le hsl.1 hsl.2] at hd
    have hkeys : ∀ q, q < c.N → Bitmap.bit (Branch.bits b) q = true → adm (Branch.keys b q) ∧ Branch.keys b q ≤ k := by
      intro q hq hb
      have hqn := (hs.bit q hq).1 hb
      obtain ⟨a, h1, h2⟩ := hs.key q hqn
      rw [h2]
      exact hk a (by rw [hl]; exact mem_cat.2 ⟨q + 1, hqn, List.mem_of_mem_head? h1⟩)
    obtain ⟨p, e, hp, hr⟩ := pos_law (b := b) (R := fun _ => True) (lim := c.lim) (fun q hq hb => (F.lim _ (hkeys q hq hb).1).2) (k := k) trivial
    have hpN : p = c.N := by
      rcases hp with ⟨h1, h2⟩ | h1
      · exact absurd (hr.2.1 h1) (not_lt.2 (hkeys p h1 h2).2)
      · exact h1
    subst hpN
    rw [findLeaf, e, Res.ok_bind]
    by_cases h0 : n = 0
    · unfold Branch.kid
      rw [rdA_ok (Nat.lt_succ_self _), Res.ok_bind, hs.none h0]
      rfl
    · rw [place_last, if_neg h0] at hx
      rw [kid_ok (Nat.lt_succ_self _) hx, Res.ok_bind]
      exact spine_ub F d x (ls n) hsx (fun h => hd ⟨h0, h⟩) (fun i hi => hk i (by rw [hl]; exact mem_cat.2 ⟨n, le_refl _, hi⟩))

end Verif.BitTree
