import Verif.BTree.MergeCrashCall

/-!
# Crashes inside a move of entries to the left neighbour in HPBPTree: the two leaves

`balanceLeafNodes(donor, receiver)` with the donor on the right (P566-581, H943-955): the entries are appended to the receiver one
by one, then the donor shifts its other entries down, and at last it sets its counter.  While it shifts, its keys are not sorted.
-/

set_option linter.unusedSectionVars false

namespace Verif.BTree

open Verif Search Assoc MapSpec

variable {K V : Type} [LinearOrder K] {c : SCfg K V}

/-! ## Searching in arrays that are not sorted -/

/-- What the leaf search finds in an array that need not be sorted. -/
def USearch (c : SCfg K V) : Prop :=
  ∀ (rd : Nat → Res K) (n : Nat) (key : K) (a : Nat → K), (∀ i, i < n → rd i = .ok (a i)) →
    ∃ p, c.lsearch rd n key = .ok p ∧ p ≤ n ∧
      ((p < n ∧ a p = key) ∨ ((p = 0 ∨ a (p - 1) < key) ∧ (p = n ∨ key < a p)))

theorem bsLoop_any (rd : Nat → Res K) (key : K) (a : Nat → K) (n : Nat) (hrd : ∀ i, i < n → rd i = .ok (a i))
    (fuel pos : Nat) (l r : Int) (hf : (r - l + 1).toNat ≤ fuel) (hl : (0 : Int) ≤ l) (hr : r < (n : Int)) (hlr : l ≤ r + 1)
    (hlow : ∀ i : Nat, (i : Int) + 1 = l → a i < key) (hhigh : ∀ i : Nat, (i : Int) = r + 1 → i < n → key < a i)
    (hpos : (pos : Int) = l ∨ (pos : Int) = r + 1) :
    ∃ p, bsLoop false rd key fuel pos l r = .ok p ∧ p ≤ n ∧
      ((p < n ∧ a p = key) ∨ ((p = 0 ∨ a (p - 1) < key) ∧ (p = n ∨ key < a p))) := by
  induction fuel generalizing pos l r with
  | zero =>
    have hle : ¬ l ≤ r := by omega
    rw [bsLoop, if_neg hle]
    refine ⟨pos, rfl, by omega, .inr ⟨?_, ?_⟩⟩
    · rcases Nat.eq_zero_or_pos pos with h | h
      · exact .inl h
      · exact .inr (hlow _ (by omega))
    · rcases Nat.lt_or_ge pos n with h | h
      · exact .inr (hhigh _ (by omega) h)
      · left; omega
  | succ fuel ih =>
    rw [bsLoop]
    by_cases hle : l ≤ r
    · rw [if_pos hle]
      obtain ⟨p, hp⟩ : ∃ p, p = ((l + r) / 2).toNat := ⟨_, rfl⟩
      rw [← hp]
      have hpl : l ≤ (p : Int) := by omega
      have hpr : (p : Int) ≤ r := by omega
      rw [hrd p (by omega), Res.ok_bind]
      split
      · rename_i he
        exact ⟨p, rfl, by omega, .inl ⟨by omega, he⟩⟩
      · rename_i hne
        split
        · rename_i hlt
          refine ih (p + 1) ((p : Int) + 1) r (by omega) (by omega) hr (by omega) (fun i hi => ?_) hhigh (.inl (by omega))
          rwa [show i = p by omega]
        · rename_i hnlt
          have hgt : key < a p := lt_of_le_of_ne (not_lt.mp hnlt) (Ne.symm hne)
          refine ih p l ((p : Int) - 1) (by omega) hl (by omega) (by omega) hlow (fun i hi _ => ?_) (.inr (by omega))
          rwa [show i = p by omega]
    · rw [if_neg hle]
      refine ⟨pos, rfl, by omega, .inr ⟨?_, ?_⟩⟩
      · rcases Nat.eq_zero_or_pos pos with h | h
        · exact .inl h
        · exact .inr (hlow _ (by omega))
      · rcases Nat.lt_or_ge pos n with h | h
        · exact .inr (hhigh _ (by omega) h)
        · left; omega

theorem hp_usearch (N M : Nat) : USearch (hpCfg N M : SCfg K V) := fun rd n key a h1 =>
  bsLoop_any rd key a n h1 _ 0 0 _ le_rfl le_rfl (by omega) (by omega) (fun i h => by omega) (fun i h h' => by omega) (.inl rfl)

theorem pb_usearch (N M : Nat) : USearch (pbCfg N M : SCfg K V) := fun rd n key a h1 =>
  bsLoop_any rd key a n h1 _ 0 0 _ le_rfl le_rfl (by omega) (by omega) (fun i h => by omega) (fun i h h' => by omega) (.inl rfl)

/-- A lookup in a leaf whose slots need not be sorted. -/
theorem lookup_any (hu : USearch c) {l : SLeaf K V} {n : Nat} {a : Nat → K} {b : Nat → V} (hn : l.num = n) (hc : n ≤ c.M)
    (hk : ∀ i, i < n → l.keys i = some (a i)) (hv : ∀ i, i < n → l.vals i = some (b i)) (x : K) :
    (∃ p, p < n ∧ a p = x ∧ l.lookup c x = .ok (some (b p))) ∨
      (l.lookup c x = .ok none ∧ ∃ p, p ≤ n ∧ (p = 0 ∨ a (p - 1) < x) ∧ (p = n ∨ x < a p)) := by
  obtain ⟨p, e, hp, h⟩ := hu (fun i => Slots.rd c.M l.keys i) l.num x a (fun i hi => Slots.rd_ok (by omega) (hk i (by omega)))
  rw [hn] at hp h
  unfold SLeaf.lookup SLeaf.pos
  rw [e, Res.ok_bind, hn]
  rcases h with ⟨h1, h2⟩ | ⟨h1, h2⟩
  · left
    refine ⟨p, h1, h2, ?_⟩
    rw [if_pos h1, Slots.rd_ok (by omega) (hk p h1), Res.ok_bind, if_pos h2, Slots.rd_ok (by omega) (hv p h1)]
    rfl
  · right
    refine ⟨?_, p, hp, h1, h2⟩
    by_cases h3 : p < n
    · have hlt : x < a p := by
        rcases h2 with h2 | h2
        · omega
        · exact h2
      rw [if_pos h3, Slots.rd_ok (by omega) (hk p h3), Res.ok_bind, if_neg hlt.ne']; rfl
    · rw [if_neg h3]; rfl

/-! ## The donor -/

/-- An array whose first `j` slots have been overwritten by those from `T` on. -/
def shArr {α : Type} (a : Slots α) (T j : Nat) : Slots α := fun i => if i < j then a (T + i) else a i

theorem shArr_step {α : Type} (a : Slots α) {T j : Nat} {y : α} (hy : a (T + j) = some y) :
    shArr a T j (T + j) = some y ∧ (fun i => if i = j then some y else shArr a T j i) = shArr a T (j + 1) := by
  constructor
  · rw [shArr, if_neg (by omega), hy]
  · funext i
    simp only [shArr]
    by_cases hi : i = j
    · rw [if_pos hi, if_pos (by omega), hi, hy]
    · rw [if_neg hi]
      by_cases h : i < j
      · rw [if_pos h, if_pos (by omega)]
      · rw [if_neg h, if_neg (by omega)]

/-- P575-580, H951-955: the assignments to the donor. -/
def shiftInstrs (n T : Nat) : List (SInstr K V) :=
  (List.range (n - T)).flatMap (fun j => [.copyKey j (T + j), .copyVal j (T + j)]) ++ [.num (n - T)]

/-- The donor after the first `t` assignments. -/
theorem shift_prefix {l : SLeaf K V} {M n T : Nat} (hnum : l.num = n) (hn : n ≤ M) (hT : T ≤ n)
    {a : Nat → K} {b : Nat → V} (hk : ∀ i, i < n → l.keys i = some (a i)) (hv : ∀ i, i < n → l.vals i = some (b i)) :
    ∀ t, t ≤ 2 * (n - T) + 1 →
    SInstr.applyAll M l ((shiftInstrs n T).take t) =
      .ok ⟨if t = 2 * (n - T) + 1 then n - T else n, shArr l.keys T (min ((t + 1) / 2) (n - T)),
        shArr l.vals T (min (t / 2) (n - T))⟩
  | 0, _ => by
    have h0 : ∀ {α : Type} (a : Slots α), shArr a T 0 = a := by
      intro α a; funext i
      rw [shArr, if_neg (by omega)]
    rw [List.take_zero, SInstr.applyAll, if_neg (by omega)]
    simp only [Nat.zero_add, show (1 : Nat) / 2 = 0 from rfl, Nat.zero_min, h0]
    rw [← hnum]
  | t + 1, ht => by
    have ih := shift_prefix hnum hn hT hk hv t (by omega)
    rw [if_neg (by omega)] at ih
    rw [List.take_add_one, shiftInstrs, pairs_get]
    by_cases h1 : t < 2 * (n - T)
    · rw [if_pos h1, if_neg (show ¬ t + 1 = 2 * (n - T) + 1 by omega)]
      by_cases hev : t % 2 = 0
      · rw [if_pos hev, Option.toList_some, applyAll_append]
        rw [shiftInstrs] at ih
        rw [ih, Res.ok_bind, SInstr.apply]
        have hj : min ((t + 1) / 2) (n - T) = t / 2 := by omega
        have hj' : min ((t + 1 + 1) / 2) (n - T) = t / 2 + 1 := by omega
        have hj2 : min (t / 2) (n - T) = t / 2 := by omega
        rw [hj, hj', hj2]
        obtain ⟨e1, e2⟩ := shArr_step l.keys (T := T) (j := t / 2) (hk (T + t / 2) (by omega))
        dsimp only
        rw [Slots.rd_ok (by omega) e1, Res.ok_bind, Slots.wr_ok _ _ (by omega), Res.ok_bind, e2]; rfl
      · rw [if_neg hev, Option.toList_some, applyAll_append]
        rw [shiftInstrs] at ih
        rw [ih, Res.ok_bind, SInstr.apply]
        have hj : min ((t + 1) / 2) (n - T) = t / 2 + 1 := by omega
        have hj' : min ((t + 1 + 1) / 2) (n - T) = t / 2 + 1 := by omega
        have hj2 : min (t / 2) (n - T) = t / 2 := by omega
        rw [hj, hj', hj2]
        obtain ⟨e1, e2⟩ := shArr_step l.vals (T := T) (j := t / 2) (hv (T + t / 2) (by omega))
        dsimp only
        rw [Slots.rd_ok (by omega) e1, Res.ok_bind, Slots.wr_ok _ _ (by omega), Res.ok_bind, e2]; rfl
    · rw [if_neg h1]
      rw [shiftInstrs] at ih
      have h : t = 2 * (n - T) := by omega
      rw [show t - 2 * (n - T) = 0 by omega]
      rw [List.getElem?_cons_zero, Option.toList_some, applyAll_append, ih, Res.ok_bind, SInstr.apply, if_pos (by omega)]
      have hj : min ((t + 1) / 2) (n - T) = n - T := by omega
      have hj' : min ((t + 1 + 1) / 2) (n - T) = n - T := by omega
      have hj2 : min (t / 2) (n - T) = n - T := by omega
      have hj3 : min ((t + 1) / 2) (n - T) = n - T := by omega
      rw [hj, hj', hj2]

/-- Lookups in the donor while it shifts: a key that stays is found; its value is right or, after an odd number of assignments and for
one key, that of a smaller key. -/
theorem shift_lookup (hu : USearch c) {l : SLeaf K V} {n T kj vj : Nat} (hn : l.num = n) (hc : n ≤ c.M) (hT : 1 ≤ T)
    (hkj : kj ≤ n - T) (h1 : vj ≤ kj) (h2 : kj ≤ vj + 1) {a : Nat → K} {b : Nat → V} (hs : ∀ i j, i < j → j < n → a i < a j)
    (hk : ∀ i, i < n → l.keys i = some (if i < kj then a (T + i) else a i))
    (hv : ∀ i, i < n → l.vals i = some (if i < vj then b (T + i) else b i)) :
    (∀ i, i < n - T → l.lookup c (a (T + i)) = .ok (some (b (T + i))) ∨
      (kj = vj + 1 ∧ i = vj ∧ l.lookup c (a (T + i)) = .ok (some (b vj)))) ∧
    ∀ x, (∀ i, i < n → a i ≠ x) → l.lookup c x = .ok none := by
  have mono : ∀ i j, i < n → j < n → a i < a j → i < j := by
    intro i j hi hj h
    by_contra hij
    rcases Nat.lt_or_eq_of_le (not_lt.1 hij) with h' | h'
    · exact absurd (hs j i h' hi) (not_lt.2 h.le)
    · rw [h'] at h; exact lt_irrefl _ h
  have inj : ∀ i j, i < n → j < n → a i = a j → i = j := by
    intro i j hi hj h
    rcases Nat.lt_trichotomy i j with h' | h' | h'
    · exact absurd h (hs i j h' hj).ne
    · exact h'
    · exact absurd h (hs j i h' hi).ne'
  constructor
  · intro i hi
    rcases lookup_any hu hn hc hk hv (a (T + i)) with ⟨p, hp, e1, e2⟩ | ⟨_, p, hp, e1, e2⟩
    · rw [e2]
      by_cases hpk : p < kj
      · rw [if_pos hpk] at e1
        have := inj _ _ (by omega) (by omega) e1
        have hpi : p = i := by omega
        subst hpi
        by_cases hpv : p < vj
        · left; rw [if_pos hpv]
        · right
          refine ⟨by omega, by omega, ?_⟩
          rw [if_neg hpv, show p = vj by omega]
      · rw [if_neg hpk] at e1
        have := inj _ _ (by omega) (by omega) e1
        left
        rw [if_neg (by omega), this]
    · exfalso
      have c1 : p = 0 ∨ (p - 1 < kj ∧ p ≤ i) ∨ (kj ≤ p - 1 ∧ p ≤ T + i) := by
        rcases Nat.eq_zero_or_pos p with h | h
        · exact .inl h
        · right
          rcases e1 with e1 | e1
          · omega
          · by_cases hpk : p - 1 < kj
            · rw [if_pos hpk] at e1
              have := mono _ _ (by omega) (by omega) e1
              left; omega
            · rw [if_neg hpk] at e1
              have := mono _ _ (by omega) (by omega) e1
              right; omega
      have c2 : p = n ∨ (p < kj ∧ i < p) ∨ (p < n ∧ kj ≤ p ∧ T + i < p) := by
        rcases Nat.eq_or_lt_of_le hp with h | h
        · exact .inl h
        · right
          rcases e2 with e2 | e2
          · omega
          · by_cases hpk : p < kj
            · rw [if_pos hpk] at e2
              have := mono _ _ (by omega) (by omega) e2
              left; omega
            · rw [if_neg hpk] at e2
              have := mono _ _ (by omega) (by omega) e2
              right; omega
      omega
  · intro x hx
    rcases lookup_any hu hn hc hk hv x with ⟨p, hp, e1, _⟩ | ⟨e, _⟩
    · by_cases hpk : p < kj
      · rw [if_pos hpk] at e1
        exact absurd e1 (hx _ (by omega))
      · rw [if_neg hpk] at e1
        exact absurd e1 (hx _ (by omega))
    · exact e

/-! ## The receiver -/

theorem moveWrites_length (id : Nat) : ∀ (p n : Nat) (es : List (K × V)), (moveWrites id p n es).length = 3 * es.length
  | _, _, [] => rfl
  | p, n, e :: es => by
    rw [moveWrites, List.length_cons, List.length_cons, List.length_cons, moveWrites_length id (p + 1) (n + 1) es, List.length_cons]
    omega

theorem LRep.snoc {M : Nat} {l : SLeaf K V} {ea : List (K × V)} (h : LRep M l ea) {e : K × V} (hs : Sorted (ea ++ [e]))
    (hc : ea.length + 1 ≤ M) : LRep M ⟨ea.length + 1, fun j => if j = ea.length then some e.1 else l.keys j,
      fun j => if j = ea.length then some e.2 else l.vals j⟩ (ea ++ [e]) := by
  refine ⟨by simp, by simpa using hc, fun i hi => ?_, fun i hi => ?_, hs⟩
  · dsimp only
    simp only [List.length_map, List.length_append, List.length_singleton] at hi
    by_cases h1 : i = ea.length
    · rw [if_pos h1, h1]; simp
    · rw [if_neg h1, h.keys i (by simp; omega), List.map_append, List.getElem?_append_left (by simp; omega)]
  · dsimp only
    simp only [List.length_map, List.length_append, List.length_singleton] at hi
    by_cases h1 : i = ea.length
    · rw [if_pos h1, h1]; simp
    · rw [if_neg h1, h.vals i (by simp; omega), List.map_append, List.getElem?_append_left (by simp; omega)]

/-- Appending entries one by one. -/
theorem moveWrites_points {M : Nat} {a : Nat} : ∀ (es ea : List (K × V)) (h : Heap (SLeaf K V)) (l : SLeaf K V), h.data a = some l →
    LRep M l ea → Sorted (ea ++ es) → ea.length + es.length ≤ M →
    (∀ t, ∃ l' i, applyW M h ((moveWrites a ea.length ea.length es).take t) = .ok (h.set a l') ∧ LRep M l' (ea ++ es.take i)) ∧
    ∃ l', applyW M h (moveWrites a ea.length ea.length es) = .ok (h.set a l') ∧ LRep M l' (ea ++ es) ∧
      ∀ j, ea.length + es.length ≤ j → l'.keys j = l.keys j ∧ l'.vals j = l.vals j
  | [], ea, h, l, hl, r, hs, hc => by
    refine ⟨fun t => ⟨l, 0, ?_, by simpa using r⟩, l, ?_, by simpa using r, fun _ _ => ⟨rfl, rfl⟩⟩
    · rw [moveWrites, List.take_nil, Heap.set_self hl]; rfl
    · rw [moveWrites, Heap.set_self hl]; rfl
  | e :: es, ea, h, l, hl, r, hs, hc => by
    rw [List.length_cons] at hc
    have hs' : Sorted ((ea ++ [e]) ++ es) := by simpa using hs
    have r' := r.snoc (e := e) (sorted_append.1 hs').1 (by omega)
    have e1 : (SInstr.key ea.length e.1 : SInstr K V).apply M l =
        .ok { l with keys := fun j => if j = ea.length then some e.1 else l.keys j } := by
      rw [SInstr.apply, Slots.wr_ok _ _ (by omega), Res.ok_bind]; rfl
    have e2 : (SInstr.val ea.length e.2 : SInstr K V).apply M { l with keys := fun j => if j = ea.length then some e.1 else l.keys j } =
        .ok ⟨l.num, fun j => if j = ea.length then some e.1 else l.keys j, fun j => if j = ea.length then some e.2 else l.vals j⟩ := by
      rw [SInstr.apply, Slots.wr_ok _ _ (by omega), Res.ok_bind]; rfl
    have a1 := SWrite.leaf_ok (M := M) hl e1
    have a2 := SWrite.leaf_ok (M := M) (Heap.set_data h a _) e2
    have a3 := SWrite.leaf_ok (M := M) (w := .num (ea.length + 1)) (Heap.set_data h a ⟨l.num, fun j => if j = ea.length then some e.1 else l.keys j,
      fun j => if j = ea.length then some e.2 else l.vals j⟩) rfl
    rw [Heap.set_same] at a2 a3
    obtain ⟨P, l', q1, q2, q3⟩ := moveWrites_points es (ea ++ [e]) _ _ (Heap.set_data h a _) r' hs' (by simp; omega)
    simp only [List.length_append, List.length_singleton] at P q1 q3
    constructor
    · intro t
      match t with
      | 0 => exact ⟨l, 0, by rw [List.take_zero, Heap.set_self hl]; rfl, by simpa using r⟩
      | 1 =>
        refine ⟨_, 0, by rw [moveWrites, List.take_succ_cons, List.take_zero, applyW, a1, Res.ok_bind]; rfl, ?_⟩
        rw [List.take_zero, List.append_nil]
        exact r.congr rfl (fun j hj => ⟨if_neg (by omega), rfl⟩)
      | 2 =>
        refine ⟨_, 0, by
          rw [moveWrites, List.take_succ_cons, List.take_succ_cons, List.take_zero, applyW, a1, Res.ok_bind, applyW, a2, Res.ok_bind]; rfl, ?_⟩
        rw [List.take_zero, List.append_nil]
        exact r.congr rfl (fun j hj => ⟨if_neg (by omega), if_neg (by omega)⟩)
      | t + 3 =>
        obtain ⟨l', i, g1, g2⟩ := P t
        rw [Heap.set_same] at g1
        refine ⟨l', i + 1, ?_, by simpa using g2⟩
        rw [moveWrites, List.take_succ_cons, List.take_succ_cons, List.take_succ_cons, applyW, a1, Res.ok_bind, applyW, a2, Res.ok_bind,
          applyW, a3, Res.ok_bind, g1]
    · rw [Heap.set_same] at q1
      refine ⟨l', ?_, by simpa using q2, fun j hj => ?_⟩
      · rw [moveWrites, applyW, a1, Res.ok_bind, applyW, a2, Res.ok_bind, applyW, a3, Res.ok_bind, q1]
      · rw [List.length_cons] at hj
        obtain ⟨g1, g2⟩ := q3 j (by omega)
        rw [g1, g2]
        exact ⟨if_neg (by omega), if_neg (by omega)⟩

end Verif.BTree
