import Verif.Unsorted.Crash
import Verif.BTree.SplitCrash
import Mathlib.Order.Interval.Finset.Nat
import Mathlib.Data.Nat.Count

/-!
# Crashes inside leaf splits of UnsortedPBPTree

`splitLeafNode` (UnsortedPBPTree.hpp:944-985) allocates the sibling and then, in one pass over the slots of the old leaf,
copies entries to the sibling or moves them to the front of the old leaf; then it sets the counters and the links.  All of
these are plain assignments, which become persistent in program order.  The branch nodes are in persistent memory as well and
are changed only after the split.
-/

set_option linter.unusedSectionVars false

namespace Verif.Unsorted

open Verif BTree Assoc MapSpec

variable {K V : Type} [LinearOrder K] [Inhabited K] {c : UCfg K V} {adm : K → Prop}

/-! ## Model -/

/-- 959-971: the assignments of the loop from slot `i` on (`f` rounds left, `n` and `s` entries so far in the leaf `id` and
in the sibling `sib`), followed by those to the counters.  Simplification: the values are read from the leaf before the
split; slot `i` has not been written before round `i`, because `n ≤ i`. -/
def splitGW (c : UCfg K V) (sk : K) (l : ULeaf K V) (id sib i n s : Nat) : Nat → Res (List (GW (UWrite K V)))
  | 0 => .ok [GW.leaf id (UWrite.num n), GW.leaf sib (UWrite.num s)]
  | f + 1 => do
    let x ← FPTree.rdA c.M l.keys i
    let v ← FPTree.rdA c.M l.vals i
    if sk ≤ x then do
      let ws ← splitGW c sk l id sib (i + 1) n (s + 1) f
      pure (GW.leaf sib (UWrite.key s x) :: GW.leaf sib (UWrite.val s v) :: ws)
    else do
      let ws ← splitGW c sk l id sib (i + 1) (n + 1) s f
      pure (GW.leaf id (UWrite.key n x) :: GW.leaf id (UWrite.val n v) :: ws)

/-- 944-979: persistent memory after a crash that follows the first `t` assignments of `splitLeafNode` for the leaf of `k`
(`t = 0`: the new leaf has been allocated). -/
def crashSplitU (c : UCfg K V) (s : State K (ULeaf K V)) (k : K) (t : Nat) : Res (Heap (ULeaf K V)) := do
  let id ← findLeaf (uOps c) s.depth s.root k
  let l ← s.heap.get id
  let r ← Search.findSplitKey c.cv c.M ⟨c.M, l.keys⟩
  let sk ← FPTree.rdA c.M l.keys r.2
  let a := s.heap.alloc (ULeaf.new c)
  let ws ← splitGW c sk l id a.2 0 0 0 c.M
  applyG (fun l w => UWrite.apply c.M l w) a.1 ((ws ++ linkGW id a.2 (s.heap.next id)).take t)

/-! ## Lookups in a leaf with repeated keys -/

theorem posLoop_first {l : ULeaf K V} (hc : l.num ≤ c.M) (k : K) {p : Nat} (hk : l.keys p = k) : ∀ (n i : Nat), i ≤ p → p < i + n →
    i + n ≤ l.num → (∀ q, i ≤ q → q < p → l.keys q ≠ k) → ULeaf.posLoop c l k i n = .ok p
  | 0, i, h1, h2, _, _ => by omega
  | n + 1, i, h1, h2, h3, hq => by
    rw [ULeaf.posLoop, FPTree.rdA_ok (by omega), Res.ok_bind]
    by_cases h : i = p
    · subst h
      rw [if_pos hk]; rfl
    · rw [if_neg (hq i le_rfl (by omega))]
      exact posLoop_first hc k hk n (i + 1) (by omega) (by omega) (by omega) (fun q h1 h2 => hq q (by omega) h2)

/-- The first slot with the key decides. -/
theorem lookup_first {l : ULeaf K V} (hc : l.num ≤ c.M) {k : K} {p : Nat} (hp : p < l.num) (hk : l.keys p = k)
    (hq : ∀ q, q < p → l.keys q ≠ k) : ULeaf.lookup c l k = .ok (some (l.vals p)) := by
  unfold ULeaf.lookup ULeaf.pos
  rw [posLoop_first hc k hk l.num 0 (by omega) (by omega) (by omega) (fun q _ h => hq q h), Res.ok_bind, if_pos hp,
    FPTree.rdA_ok (by omega), Res.ok_bind, if_pos hk, FPTree.rdA_ok (by omega), Res.ok_bind]
  rfl

theorem lookup_absent {l : ULeaf K V} (hc : l.num ≤ c.M) {k : K} (hq : ∀ q, q < l.num → l.keys q ≠ k) :
    ULeaf.lookup c l k = .ok none := by
  obtain ⟨p, e, h⟩ := posLoop_spec (c := c) hc k l.num 0 (by omega) (by intro q hq; omega)
  unfold ULeaf.lookup ULeaf.pos
  rw [e, Res.ok_bind]
  rcases h with ⟨h1, h2⟩ | ⟨h1, _⟩
  · exact absurd h2 (hq p h1)
  · rw [if_neg (by omega)]; rfl

/-! ## The old leaf at the crash points -/

/-- The number of keys below `sk` in the first `i` slots. -/
def below (l : ULeaf K V) (sk : K) (i : Nat) : Nat := Nat.count (fun q => l.keys q < sk) i

theorem below_le (l : ULeaf K V) (sk : K) (i : Nat) : below l sk i ≤ i := Nat.count_le _

theorem below_zero (l : ULeaf K V) (sk : K) : below l sk 0 = 0 := rfl

theorem below_pos {l : ULeaf K V} {sk : K} {i : Nat} (h : l.keys i < sk) : below l sk (i + 1) = below l sk i + 1 := by
  unfold below
  rw [Nat.count_succ, if_pos h]

theorem below_neg {l : ULeaf K V} {sk : K} {i : Nat} (h : ¬ l.keys i < sk) : below l sk (i + 1) = below l sk i := by
  unfold below
  rw [Nat.count_succ, if_neg h, Nat.add_zero]

theorem below_mono (l : ULeaf K V) (sk : K) {i j : Nat} (h : i ≤ j) : below l sk i ≤ below l sk j := Nat.count_monotone _ h

theorem below_lt {l : ULeaf K V} {sk : K} {i j : Nat} (h : i < j) (hi : l.keys i < sk) : below l sk i < below l sk j := by
  have := below_pos hi
  have := below_mono l sk (show i + 1 ≤ j from h)
  omega

theorem below_surj {l : ULeaf K V} {sk : K} : ∀ {i q : Nat}, q < below l sk i → ∃ j, j < i ∧ l.keys j < sk ∧ below l sk j = q
  | 0, q, h => by rw [below_zero] at h; omega
  | i + 1, q, h => by
    by_cases hi : l.keys i < sk
    · rw [below_pos hi] at h
      by_cases hq : q = below l sk i
      · exact ⟨i, by omega, hi, hq.symm⟩
      · obtain ⟨j, h1, h2, h3⟩ := below_surj (l := l) (sk := sk) (i := i) (q := q) (by omega)
        exact ⟨j, by omega, h2, h3⟩
    · rw [below_neg hi] at h
      obtain ⟨j, h1, h2, h3⟩ := below_surj h
      exact ⟨j, by omega, h2, h3⟩

/-- `l1` is the leaf `l` after the first `a` assignments to keys and the first `b` assignments to values of the loop. -/
structure Part (l : ULeaf K V) (sk : K) (a b : Nat) (l1 : ULeaf K V) : Prop where
  key : ∀ j, j < a → l.keys j < sk → l1.keys (below l sk j) = l.keys j
  val : ∀ j, j < b → l.keys j < sk → l1.vals (below l sk j) = l.vals j
  keys : ∀ q, below l sk a ≤ q → l1.keys q = l.keys q
  vals : ∀ q, below l sk b ≤ q → l1.vals q = l.vals q

theorem Part.refl (l : ULeaf K V) (sk : K) : Part l sk 0 0 l :=
  ⟨fun _ h => by omega, fun _ h => by omega, fun _ _ => rfl, fun _ _ => rfl⟩

theorem Part.skipKey {l l1 : ULeaf K V} {sk : K} {a b : Nat} (h : Part l sk a b l1) (ha : ¬ l.keys a < sk) : Part l sk (a + 1) b l1 :=
  ⟨fun j hj hs => h.key j (by by_contra hc; exact ha (by rwa [show a = j by omega])) hs, h.val,
    fun q hq => h.keys q (by rwa [below_neg ha] at hq), h.vals⟩

theorem Part.skipVal {l l1 : ULeaf K V} {sk : K} {a b : Nat} (h : Part l sk a b l1) (hb : ¬ l.keys b < sk) : Part l sk a (b + 1) l1 :=
  ⟨h.key, fun j hj hs => h.val j (by by_contra hc; exact hb (by rwa [show b = j by omega])) hs, h.keys,
    fun q hq => h.vals q (by rwa [below_neg hb] at hq)⟩

theorem Part.putKey {l l1 : ULeaf K V} {sk : K} {a b : Nat} (h : Part l sk a b l1) (ha : l.keys a < sk) :
    Part l sk (a + 1) b { l1 with keys := upd l1.keys (below l sk a) (l.keys a) } := by
  refine ⟨fun j hj hs => ?_, h.val, fun q hq => ?_, h.vals⟩
  · simp only [upd]
    by_cases hja : j = a
    · subst hja; rw [if_pos rfl]
    · have := below_lt (l := l) (sk := sk) (show j < a by omega) hs
      rw [if_neg (by omega)]
      exact h.key j (by omega) hs
  · rw [below_pos ha] at hq
    simp only [upd]
    rw [if_neg (by omega)]
    exact h.keys q (by omega)

theorem Part.putVal {l l1 : ULeaf K V} {sk : K} {a b : Nat} (h : Part l sk a b l1) (hb : l.keys b < sk) :
    Part l sk a (b + 1) { l1 with vals := upd l1.vals (below l sk b) (l.vals b) } := by
  refine ⟨h.key, fun j hj hs => ?_, h.keys, fun q hq => ?_⟩
  · simp only [upd]
    by_cases hja : j = b
    · subst hja; rw [if_pos rfl]
    · have := below_lt (l := l) (sk := sk) (show j < b by omega) hs
      rw [if_neg (by omega)]
      exact h.val j (by omega) hs
  · rw [below_pos hb] at hq
    simp only [upd]
    rw [if_neg (by omega)]
    exact h.vals q (by omega)

/-- What a lookup of `x` finds in the leaf `l` with split key `sk` after `a` assignments to keys and `b` to values, when the
counter says `n`. -/
theorem Part.lookup {l l1 : ULeaf K V} {sk : K} {a b : Nat} (h : Part l sk a b l1) (ok : UOk c.M adm l) (hfull : l.num = c.M)
    (ha : a ≤ c.M) (hb : b ≤ a) (hn : l1.num = c.M ∨ a = c.M ∧ b = c.M ∧ l1.num = below l sk c.M) :
    (∀ p, p < c.M → l.keys p < sk → ULeaf.lookup c l1 (l.keys p) =
      .ok (some (if p < b ∨ a ≤ p then l.vals p else l.vals (below l sk p)))) ∧
    (∀ p, p < c.M → sk ≤ l.keys p → ULeaf.lookup c l1 (l.keys p) =
      .ok (if p < below l sk a ∨ l1.num ≠ c.M then none else some (l.vals p))) ∧
    (∀ x, (∀ p, p < c.M → l.keys p ≠ x) → ULeaf.lookup c l1 x = .ok none) := by
  have hle := below_le l sk c.M
  have hba := below_le l sk a
  have hc : l1.num ≤ c.M := by rcases hn with hn | ⟨_, _, hn⟩ <;> omega
  -- every slot holds a key of the leaf
  have hslot : ∀ q, q < c.M → (q < below l sk a ∧ ∃ j, j < a ∧ l.keys j < sk ∧ below l sk j = q ∧ l1.keys q = l.keys j) ∨
      (below l sk a ≤ q ∧ l1.keys q = l.keys q) := by
    intro q hq
    by_cases h1 : q < below l sk a
    · obtain ⟨j, h2, h3, h4⟩ := below_surj h1
      exact Or.inl ⟨h1, j, h2, h3, h4, by rw [← h4, h.key j h2 h3]⟩
    · exact Or.inr ⟨by omega, h.keys q (by omega)⟩
  have hinj : ∀ i j, i < c.M → j < c.M → l.keys i = l.keys j → i = j := fun i j hi hj => ok.inj (by omega) (by omega)
  refine ⟨fun p hp hs => ?_, fun p hp hs => ?_, fun x hx => ?_⟩
  · by_cases hpa : p < a
    · have hpn : below l sk p < l1.num := by
        rcases hn with hn | ⟨h1, h2, hn⟩
        · have := below_le l sk p; omega
        · have := below_lt (l := l) (sk := sk) (show p < c.M by omega) hs; omega
      rw [lookup_first hc hpn (h.key p hpa hs)]
      · by_cases hpb : p < b
        · rw [h.val p hpb hs, if_pos (Or.inl hpb)]
        · rw [if_neg (by omega), h.vals _ (below_mono l sk (by omega))]
      · intro q hq he
        have hq' : q < c.M := by omega
        rcases hslot q hq' with ⟨_, j, h2, h3, h4, h5⟩ | ⟨h1, h5⟩
        · rw [h5] at he
          have := hinj j p (by omega) hp he
          subst this
          omega
        · have := below_mono l sk (show p ≤ a by omega)
          omega
    · rcases hn with hn | ⟨h1, h2, hn⟩
      · have hpq : below l sk a ≤ p := by omega
        rw [lookup_first hc (p := p) (by omega) (h.keys p hpq), if_pos (Or.inr (by omega)), h.vals p (le_trans (below_mono l sk hb) hpq)]
        intro q hq he
        rcases hslot q (by omega) with ⟨_, j, h2, h3, h4, h5⟩ | ⟨h1, h5⟩
        · rw [h5] at he
          have := hinj j p (by omega) hp he
          omega
        · rw [h5] at he
          have := hinj q p (by omega) hp he
          omega
      · omega
  · by_cases hpa : p < below l sk a ∨ l1.num ≠ c.M
    · rw [if_pos hpa, lookup_absent hc]
      intro q hq he
      rcases hslot q (by omega) with ⟨_, j, h2, h3, h4, h5⟩ | ⟨h1, h5⟩
      · rw [h5] at he
        rw [he] at h3
        exact absurd hs (not_le.2 h3)
      · rw [h5] at he
        have := hinj q p (by omega) hp he
        rcases hn with hn | ⟨e1, e2, hn⟩
        · rcases hpa with hpa | hpa
          · omega
          · exact hpa hn
        · rw [e1] at h1
          omega
    · rw [if_neg hpa]
      push Not at hpa
      rw [lookup_first hc (p := p) (by omega) (h.keys p hpa.1), h.vals p (le_trans (below_mono l sk hb) hpa.1)]
      intro q hq he
      rcases hslot q (by omega) with ⟨_, j, h2, h3, h4, h5⟩ | ⟨h1, h5⟩
      · rw [h5] at he
        rw [he] at h3
        exact absurd hs (not_le.2 h3)
      · rw [h5] at he
        have := hinj q p (by omega) hp he
        omega
  · rw [lookup_absent hc]
    intro q hq he
    rcases hslot q (by omega) with ⟨_, j, h2, h3, h4, h5⟩ | ⟨h1, h5⟩
    · rw [h5] at he
      exact hx j (by omega) he
    · rw [h5] at he
      exact hx q (by omega) he

/-! ## Persistent memory at the crash points -/

/-- The heap `h` with contents `a` of the leaf `id`, and a new leaf `b`. -/
def two (h : Heap (ULeaf K V)) (id : Nat) (a b : ULeaf K V) : Heap (ULeaf K V) := ((h.set id a).alloc b).1

theorem two_data {h : Heap (ULeaf K V)} {id : Nat} (hid : id ≠ h.fresh) (a b : ULeaf K V) : (two h id a b).data id = some a := by
  simp [two, Heap.alloc, Heap.set, upd, hid]

theorem two_new (h : Heap (ULeaf K V)) (id : Nat) (a b : ULeaf K V) : (two h id a b).data h.fresh = some b := by
  simp [two, Heap.alloc, Heap.set, upd]

theorem two_set {h : Heap (ULeaf K V)} {id : Nat} (hid : id ≠ h.fresh) (a b a' : ULeaf K V) :
    (two h id a b).set id a' = two h id a' b := by
  refine Heap.ext' ?_ rfl rfl rfl
  funext q
  simp only [two, Heap.alloc, Heap.set, upd]
  by_cases h1 : q = id
  · simp [h1, hid]
  · simp [h1]

theorem two_setNew (h : Heap (ULeaf K V)) (id : Nat) (a b b' : ULeaf K V) : (two h id a b).set h.fresh b' = two h id a b' :=
  Heap.alloc_set' _ _ _
where
  Heap.alloc_set' (h : Heap (ULeaf K V)) (a b : ULeaf K V) : (h.alloc a).1.set h.fresh b = (h.alloc b).1 := by
    refine Heap.ext' ?_ rfl rfl rfl
    funext q
    simp only [Heap.alloc, Heap.set, upd]
    split <;> rfl

/-- An assignment to the old leaf. -/
theorem two_leaf {h : Heap (ULeaf K V)} {id : Nat} (hid : id ≠ h.fresh) {a a' b : ULeaf K V} {w : UWrite K V}
    (hw : w.apply c.M a = .ok a') (ws : List (GW (UWrite K V))) :
    applyG (fun l w => UWrite.apply c.M l w) (two h id a b) (GW.leaf id w :: ws) =
      applyG (fun l w => UWrite.apply c.M l w) (two h id a' b) ws := by
  rw [applyG, GW.leaf_ok (two_data hid a b) hw, Res.ok_bind, two_set hid]

/-- An assignment to the new leaf. -/
theorem two_leafNew {h : Heap (ULeaf K V)} {id : Nat} {a b b' : ULeaf K V} {w : UWrite K V}
    (hw : w.apply c.M b = .ok b') (ws : List (GW (UWrite K V))) :
    applyG (fun l w => UWrite.apply c.M l w) (two h id a b) (GW.leaf h.fresh w :: ws) =
      applyG (fun l w => UWrite.apply c.M l w) (two h id a b') ws := by
  rw [applyG, GW.leaf_ok (two_new h id a b) hw, Res.ok_bind, two_setNew]

theorem apply_key {l : ULeaf K V} {p : Nat} (hp : p < c.M) (k : K) :
    (UWrite.key p k).apply c.M l = .ok { l with keys := upd l.keys p k } := by
  simp only [UWrite.apply, wrA_ok hp, Res.ok_bind]; rfl

theorem apply_val {l : ULeaf K V} {p : Nat} (hp : p < c.M) (v : V) :
    (UWrite.val p v).apply c.M l = .ok { l with vals := upd l.vals p v } := by
  simp only [UWrite.apply, wrA_ok hp, Res.ok_bind]; rfl

/-- The loop: all prefixes of the assignments, and the result of the loop of the model of the split. -/
theorem splitGW_spec {h : Heap (ULeaf K V)} {id : Nat} (hid : id ≠ h.fresh) (l : ULeaf K V) (sk : K) :
    ∀ (f i : Nat) (l1 s1 : ULeaf K V), i + f = c.M → Part l sk i i l1 → l1.num = l.num →
    ∃ ws, splitGW c sk l id h.fresh i (below l sk i) (i - below l sk i) f = .ok ws ∧ ws.length = 2 * f + 2 ∧
      (∀ t, t ≤ 2 * f → ∃ l2 s2, applyG (fun l w => UWrite.apply c.M l w) (two h id l1 s1) (ws.take t) = .ok (two h id l2 s2) ∧
        Part l sk (i + (t + 1) / 2) (i + t / 2) l2 ∧ l2.num = l.num) ∧
      ∃ l2 s2, ULeaf.splitLoop c sk i (below l sk i) (i - below l sk i) l1 s1 f = .ok (l2, s2) ∧
        Part l sk c.M c.M l2 ∧ l2.num = below l sk c.M ∧
        applyG (fun l w => UWrite.apply c.M l w) (two h id l1 s1) ws = .ok (two h id l2 s2) ∧
        ∃ s3, applyG (fun l w => UWrite.apply c.M l w) (two h id l1 s1) (ws.take (2 * f + 1)) = .ok (two h id l2 s3)
  | 0, i, l1, s1, hi, hp, hn => by
    refine ⟨_, rfl, rfl, fun t ht => ?_, _, _, rfl, ?_, ?_, ?_, s1, ?_⟩
    · have : t = 0 := by omega
      subst this
      exact ⟨l1, s1, rfl, hp, hn⟩
    · have : i = c.M := by omega
      subst this
      exact ⟨hp.key, hp.val, hp.keys, hp.vals⟩
    · have : i = c.M := by omega
      subst this
      rfl
    · rw [two_leaf hid (a' := { l1 with num := below l sk i }) rfl, two_leafNew (b' := { s1 with num := i - below l sk i }) rfl]
      rfl
    · rw [List.take_succ_cons, two_leaf hid (a' := { l1 with num := below l sk i }) rfl]
      rfl
  | f + 1, i, l1, s1, hi, hp, hn => by
    have hle := below_le l sk i
    rw [splitGW, FPTree.rdA_ok (by omega), Res.ok_bind, FPTree.rdA_ok (by omega), Res.ok_bind]
    rw [ULeaf.splitLoop, FPTree.rdA_ok (by omega), Res.ok_bind, FPTree.rdA_ok (by omega), Res.ok_bind, hp.keys i hle, hp.vals i hle]
    by_cases hs : sk ≤ l.keys i
    · rw [if_pos hs, if_pos hs]
      have hs' : ¬ l.keys i < sk := not_lt.2 hs
      have hb := below_neg hs'
      obtain ⟨ws, e1, e2, e3, l2, s2, e4, e5, e6, e7, s3, e8⟩ := splitGW_spec hid l sk f (i + 1) l1
        ⟨s1.num, upd s1.keys (i - below l sk i) (l.keys i), upd s1.vals (i - below l sk i) (l.vals i)⟩ (by omega)
        ((hp.skipKey hs').skipVal hs') hn
      rw [hb, show i + 1 - below l sk i = i - below l sk i + 1 by omega] at e1 e4
      have hw : ∀ us, applyG (fun l w => UWrite.apply c.M l w) (two h id l1 s1)
          (GW.leaf h.fresh (UWrite.key (i - below l sk i) (l.keys i)) ::
            GW.leaf h.fresh (UWrite.val (i - below l sk i) (l.vals i)) :: us) =
          applyG (fun l w => UWrite.apply c.M l w) (two h id l1
            ⟨s1.num, upd s1.keys (i - below l sk i) (l.keys i), upd s1.vals (i - below l sk i) (l.vals i)⟩) us := by
        intro us
        rw [two_leafNew (apply_key (by omega) _), two_leafNew (apply_val (by omega) _)]
      rw [e1, Res.ok_bind]
      refine ⟨_, rfl, by simp [e2]; omega, fun t ht => ?_, l2, s2, ?_, e5, e6, ?_, s3, ?_⟩
      · match t, ht with
        | 0, _ => exact ⟨l1, s1, rfl, hp, hn⟩
        | 1, _ =>
          refine ⟨l1, { s1 with keys := upd s1.keys (i - below l sk i) (l.keys i) }, ?_, hp.skipKey hs', hn⟩
          rw [List.take_succ_cons, two_leafNew (apply_key (by omega) _)]
          rfl
        | t + 2, ht =>
          obtain ⟨l3, s4, g1, g2, g3⟩ := e3 t (by omega)
          refine ⟨l3, s4, ?_, ?_, g3⟩
          · rw [List.take_succ_cons, List.take_succ_cons, hw, g1]
          · rw [show i + (t + 2 + 1) / 2 = i + 1 + (t + 1) / 2 by omega, show i + (t + 2) / 2 = i + 1 + t / 2 by omega]
            exact g2
      · rw [put_ok _ (by omega), Res.ok_bind]
        exact e4
      · rw [hw, e7]
      · rw [show 2 * (f + 1) + 1 = 2 * f + 1 + 1 + 1 by omega, List.take_succ_cons, List.take_succ_cons, hw, e8]
    · rw [if_neg hs, if_neg hs]
      have hs' : l.keys i < sk := not_le.1 hs
      have hb := below_pos hs'
      obtain ⟨ws, e1, e2, e3, l2, s2, e4, e5, e6, e7, s3, e8⟩ := splitGW_spec hid l sk f (i + 1)
        ⟨l1.num, upd l1.keys (below l sk i) (l.keys i), upd l1.vals (below l sk i) (l.vals i)⟩ s1 (by omega)
        ((hp.putKey hs').putVal hs') hn
      rw [hb, show i + 1 - (below l sk i + 1) = i - below l sk i by omega] at e1 e4
      have hw : ∀ us, applyG (fun l w => UWrite.apply c.M l w) (two h id l1 s1)
          (GW.leaf id (UWrite.key (below l sk i) (l.keys i)) ::
            GW.leaf id (UWrite.val (below l sk i) (l.vals i)) :: us) =
          applyG (fun l w => UWrite.apply c.M l w) (two h id
            ⟨l1.num, upd l1.keys (below l sk i) (l.keys i), upd l1.vals (below l sk i) (l.vals i)⟩ s1) us := by
        intro us
        rw [two_leaf hid (apply_key (by omega) _), two_leaf hid (apply_val (by omega) _)]
      rw [e1, Res.ok_bind]
      refine ⟨_, rfl, by simp [e2]; omega, fun t ht => ?_, l2, s2, ?_, e5, e6, ?_, s3, ?_⟩
      · match t, ht with
        | 0, _ => exact ⟨l1, s1, rfl, hp, hn⟩
        | 1, _ =>
          refine ⟨{ l1 with keys := upd l1.keys (below l sk i) (l.keys i) }, s1, ?_, hp.putKey hs', hn⟩
          rw [List.take_succ_cons, two_leaf hid (apply_key (by omega) _)]
          rfl
        | t + 2, ht =>
          obtain ⟨l3, s4, g1, g2, g3⟩ := e3 t (by omega)
          refine ⟨l3, s4, ?_, ?_, g3⟩
          · rw [List.take_succ_cons, List.take_succ_cons, hw, g1]
          · rw [show i + (t + 2 + 1) / 2 = i + 1 + (t + 1) / 2 by omega, show i + (t + 2) / 2 = i + 1 + t / 2 by omega]
            exact g2
      · rw [put_ok _ (by omega), Res.ok_bind]
        exact e4
      · rw [hw, e7]
      · rw [show 2 * (f + 1) + 1 = 2 * f + 1 + 1 + 1 by omega, List.take_succ_cons, List.take_succ_cons, hw, e8]

/-- The assignments to the links leave the contents of the leaves alone; all four of them are `linkAfter`. -/
theorem links_spec {I L : Type} (f : L → I → Res L) {h : Heap L} {id n : Nat} {a b : L} (ha : h.data id = some a)
    (hb : h.data n = some b) (hx : ∀ x, h.next id = some x → (h.data x).isSome) (d : Nat) :
    ∃ h', applyG f h ((linkGW id n (h.next id)).take d) = .ok h' ∧ h'.data = h.data ∧ (4 ≤ d → linkAfter h id n = .ok h') := by
  have hok : ∃ h', applyG f h ((linkGW id n (h.next id)).take d) = .ok h' ∧ (4 ≤ d → linkAfter h id n = .ok h') := by
    unfold linkAfter
    cases hn : h.next id with
    | none =>
      have s1 : (GW.next id n : GW I).apply f h = .ok { h with next := upd h.next id (some n) } := GW.next_ok ha
      have s2 : (GW.prev n id : GW I).apply f { h with next := upd h.next id (some n) } =
          .ok { h with next := upd h.next id (some n), prev := upd h.prev n (some id) } := GW.prev_ok (l := b) hb
      match d with
      | 0 => exact ⟨h, rfl, fun h => by omega⟩
      | 1 => exact ⟨_, by simp only [linkGW, List.take_succ_cons, List.take_zero, applyG, s1, Res.ok_bind]; rfl, fun h => by omega⟩
      | d + 2 => exact ⟨_, by simp only [linkGW, List.take_succ_cons, List.take_nil, applyG, s1, s2, Res.ok_bind], fun _ => rfl⟩
    | some x =>
      obtain ⟨lx, hlx⟩ := Option.isSome_iff_exists.1 (hx x hn)
      set h1 : Heap L := { h with next := upd h.next n (some x) } with hh1
      set h2 : Heap L := { h1 with prev := upd h.prev x (some n) } with hh2
      set h3 : Heap L := { h2 with next := upd h1.next id (some n) } with hh3
      have s1 : (GW.next n x : GW I).apply f h = .ok h1 := GW.next_ok hb
      have s2 : (GW.prev x n : GW I).apply f h1 = .ok h2 := GW.prev_ok (h := h1) hlx
      have s3 : (GW.next id n : GW I).apply f h2 = .ok h3 := GW.next_ok (h := h2) ha
      have s4 : (GW.prev n id : GW I).apply f h3 = .ok { h3 with prev := upd h2.prev n (some id) } := GW.prev_ok (h := h3) hb
      match d with
      | 0 => exact ⟨h, rfl, fun h => by omega⟩
      | 1 => exact ⟨h1, by simp only [linkGW, List.take_succ_cons, List.take_zero, applyG, s1, Res.ok_bind], fun h => by omega⟩
      | 2 => exact ⟨h2, by simp only [linkGW, List.take_succ_cons, List.take_zero, applyG, s1, s2, Res.ok_bind], fun h => by omega⟩
      | 3 => exact ⟨h3, by simp only [linkGW, List.take_succ_cons, List.take_zero, applyG, s1, s2, s3, Res.ok_bind], fun h => by omega⟩
      | d + 4 =>
        refine ⟨_, by simp only [linkGW, List.take_succ_cons, List.take_nil, applyG, s1, s2, s3, s4, Res.ok_bind]; rfl, fun _ => ?_⟩
        dsimp only
        rw [Heap.get_of hlx, Res.ok_bind]
        rfl
  obtain ⟨h', e, hl⟩ := hok
  refine ⟨h', e, applyG_data (fun i w hm => ?_) e, hl⟩
  have := List.mem_of_mem_take hm
  unfold linkGW at this
  split at this <;> simp at this

/-- Lookups in a tree in which only the leaf of `k` and a leaf outside of the tree have changed. -/
theorem lookup_other {o : Ops K V (ULeaf K V)} {W : Laws o} {lm bm rm : Nat} {s : State K (ULeaf K V)} (g : Good W lm bm rm s)
    {id : Nat} {l1 : ULeaf K V} {h : Heap (ULeaf K V)} (hd : ∀ i, i ≠ s.heap.fresh → h.data i = (s.heap.set id l1).data i) (x : K) :
    lookup o ⟨s.depth, s.root, h⟩ x = lookup o (withLeaf s id l1) x := by
  obtain ⟨ix, lx, ax⟩ := leafOf g x
  obtain ⟨pre, post, hids⟩ := LeafOf.ids g ax
  have hfr : ix ≠ s.heap.fresh := by have := g.wf.fresh ix (by rw [hids]; simp); omega
  simp only [lookup, withLeaf, ax.find, Res.ok_bind, Heap.get, hd ix hfr]

theorem next_alive {L : Type} {h : Heap L} {is pre post : List Nat} {id : Nat} (w : Wf h is) (hi : is = pre ++ id :: post) :
    ∀ x, h.next id = some x → (h.data x).isSome := by
  intro x hx
  have hc := w.chain
  rw [hi] at hc
  rw [chain_tail hc] at hx
  cases post with
  | nil => cases hx
  | cons y post =>
    cases Option.some.inj hx
    exact w.alive x (by rw [hi]; simp)

/-- Persistent memory at the crash points of a split. -/
theorem crashSplitU_heap (U : ULaws c adm) (hM : 2 ≤ c.M) {lm bm rm : Nat} {s : State K (ULeaf K V)}
    (g : Good (uLaws U hM) lm bm rm s) {k : K} {id : Nat} {l : ULeaf K V} (a : LeafOf (uLaws U hM) s k id l) (hfull : l.num = c.M) :
    ∃ A B sk hF, ULeaf.split c l = .ok (A, B, sk) ∧ (∃ p, p < c.M ∧ l.keys p = sk) ∧ below l sk c.M = (c.M + 1) / 2 ∧
      linkAfter ((s.heap.set id A).alloc B).1 id s.heap.fresh = .ok hF ∧
      ∀ t, ∃ h l1, crashSplitU c s k t = .ok h ∧ (∀ i, i ≠ s.heap.fresh → h.data i = (s.heap.set id l1).data i) ∧
        (t ≤ 2 * c.M → Part l sk ((t + 1) / 2) (t / 2) l1 ∧ l1.num = c.M) ∧
        (2 * c.M < t → Part l sk c.M c.M l1 ∧ l1.num = below l sk c.M) ∧
        (2 * c.M + 6 ≤ t → h = hF) := by
  obtain ⟨pre, post, hids⟩ := LeafOf.ids g a
  have wf := g.wf
  have hid : id ≠ s.heap.fresh := by have := wf.fresh id (by rw [hids]; simp); omega
  obtain ⟨A, B, sk, es, hA, hB, hAe, hBe, nA, nB, e0, he0, hsk⟩ := split_law U hM a.ok hfull
  have es' := es
  unfold ULeaf.split at es'
  obtain ⟨r, e1, es'⟩ := Res.bind_eq_ok.1 es'
  obtain ⟨sk', e2, es'⟩ := Res.bind_eq_ok.1 es'
  obtain ⟨ls, e3, es'⟩ := Res.bind_eq_ok.1 es'
  have es' := Res.ok.inj es'
  simp only [Prod.mk.injEq] at es'
  obtain ⟨rfl, rfl, rfl⟩ := es'
  obtain ⟨ws, f1, f2, f3, l2, s2, f4, f5, f6, f7, s3, f8⟩ := splitGW_spec (c := c) hid l sk' c.M 0 l (ULeaf.new c) (by omega)
    (Part.refl l sk') rfl
  rw [below_zero] at f1 f4
  rw [f4] at e3
  cases Res.ok.inj e3
  have hset : s.heap.set id l = s.heap := Heap.set_self a.data
  have htwo : two s.heap id l (ULeaf.new c) = (s.heap.alloc (ULeaf.new c)).1 := by rw [two, hset]
  have hnext : ∀ A B, (two s.heap id A B).next id = s.heap.next id := fun A B => by
    simp [two, Heap.alloc, Heap.set, upd, hid]
  have hdata : ∀ A B i, i ≠ s.heap.fresh → (two s.heap id A B).data i = (s.heap.set id A).data i := fun A B i hi => by
    simp [two, Heap.alloc, Heap.set, upd, hi]
  have hlink : ∀ d, ∃ h', applyG (fun l w => UWrite.apply c.M l w) (two s.heap id l2 s2)
      ((linkGW id s.heap.fresh (s.heap.next id)).take d) = .ok h' ∧ h'.data = (two s.heap id l2 s2).data ∧
      (4 ≤ d → linkAfter (two s.heap id l2 s2) id s.heap.fresh = .ok h') := by
    intro d
    have := links_spec (fun l w => UWrite.apply c.M l w) (two_data hid l2 s2) (two_new s.heap id l2 s2) (fun x hx => by
      rw [hnext] at hx
      have := next_alive wf hids x hx
      by_cases hxf : x = s.heap.fresh
      · rw [hxf, two_new]; rfl
      · rw [hdata _ _ _ hxf]
        simp only [Heap.set, upd]
        split
        · rfl
        · exact this) d
    rw [hnext] at this
    exact this
  have hprog : ∀ t, crashSplitU c s k t = applyG (fun l w => UWrite.apply c.M l w) (two s.heap id l (ULeaf.new c))
      ((ws ++ linkGW id s.heap.fresh (s.heap.next id)).take t) := by
    intro t
    unfold crashSplitU
    rw [a.find, Res.ok_bind, Heap.get_of a.data, Res.ok_bind, e1, Res.ok_bind, e2, Res.ok_bind]
    dsimp only
    rw [htwo]
    change (splitGW c sk' l id s.heap.fresh 0 0 0 c.M >>= _) = _
    rw [f1, Res.ok_bind]
    rfl
  obtain ⟨hF, _, _, eF⟩ := hlink 4
  refine ⟨l2, s2, sk', hF, es, ?_, by rw [← f6, nA], eF le_rfl, fun t => ?_⟩
  · obtain ⟨p, hp, hep⟩ := mem_ents.1 (mem_uabs.1 he0)
    exact ⟨p, by omega, by rw [← hsk, hep]⟩
  by_cases h1 : t ≤ 2 * c.M
  · obtain ⟨l3, s4, g1, g2, g3⟩ := f3 t h1
    rw [Nat.zero_add, Nat.zero_add] at g2
    refine ⟨_, l3, ?_, hdata l3 s4, fun _ => ⟨g2, by rw [g3, hfull]⟩, fun h => by omega, fun h => by omega⟩
    rw [hprog, List.take_append_of_le_length (by omega), g1]
  · by_cases h2 : t = 2 * c.M + 1
    · refine ⟨_, l2, ?_, hdata l2 s3, fun h => by omega, fun _ => ⟨f5, f6⟩, fun h => by omega⟩
      rw [hprog, List.take_append_of_le_length (by omega), h2, f8]
    · obtain ⟨h', g1, g2, g3⟩ := hlink (t - (2 * c.M + 2))
      refine ⟨h', l2, ?_, fun i hi => by rw [g2, hdata _ _ _ hi], fun h => by omega, fun _ => ⟨f5, f6⟩, fun h => ?_⟩
      · rw [hprog, List.take_append, List.take_of_length_le (by omega), f2, applyG_append, f7, Res.ok_bind, g1]
      · have := g3 (by omega)
        rw [eF le_rfl] at this
        exact (Res.ok.inj this).symm

end Verif.Unsorted
