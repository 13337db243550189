import Verif.WBTree.Leaf
import Verif.WBTree.Scan

/-!
# wBPTree.hpp, wHBPTree.hpp: trees built by ascending inserts

Each key is larger than all keys of the tree, so every insert descends along the last child of the branch
nodes (the *spine*), and only the last leaf is split.
-/

namespace Verif.WBTree

variable {K V : Type} [LinearOrder K] {N M : Nat}

/-- The search runs to the end of the interval when all keys are smaller. -/
theorem bsLoop_above (br : Bool) (rd : Nat → Res K) (key : K) (hi : Nat) (lo : Nat)
    (hrd : ∀ i, lo ≤ i → i < hi → ∃ x, rd i = .ok x ∧ x < key) :
    ∀ (fuel pos : Nat) (l : Int), ((hi : Int) - 1 - l + 1).toNat ≤ fuel → (lo : Int) ≤ l → l ≤ hi →
    (l = hi → pos = hi) → Search.bsLoop br rd key fuel pos l ((hi : Int) - 1) = .ok hi := by
  intro fuel
  induction fuel with
  | zero =>
    intro pos l hf hl hlh hp
    rw [Search.bsLoop, if_neg (by omega), hp (by omega)]
  | succ n ih =>
    intro pos l hf hl hlh hp
    rw [Search.bsLoop]
    by_cases h : l ≤ (hi : Int) - 1
    · obtain ⟨x, e, hx⟩ := hrd ((l + ((hi : Int) - 1)) / 2).toNat (by omega) (by omega)
      rw [if_pos h, e, Res.ok_bind, if_neg (ne_of_lt hx), if_pos hx]
      exact ih _ _ (by omega) (by omega) (by omega) (by omega)
    · rw [if_neg h, hp (by omega)]

/-- A branch node on the spine: the slots are the identity, the keys are `ks`, the last child is `c`. -/
structure Asc (b : Branch K N) (ks : List K) (c : Nat) : Prop where
  num : b.slot 0 = some ks.length
  slots : ∀ i < ks.length, b.slot (i + 1) = some i
  keys : ∀ i (h : i < ks.length), b.keys i = some ks[i]
  kids : ∀ i < ks.length, ∃ d, b.kids i = some d
  last : b.kids N = some c
  bits : ∀ p < N, Bitmap.bit b.bits p = true ↔ p < ks.length
  le : ks.length ≤ N

namespace Asc

variable {b : Branch K N} {ks : List K} {c : Nat}

theorem count (h : Asc b ks c) : b.slot.rd (N + 1) 0 = .ok ks.length := Slots.rd_ok (by omega) h.num

theorem pos (h : Asc b ks c) {key : K} (hk : ∀ x ∈ ks, x < key) : b.pos key = .ok (ks.length + 1) := by
  unfold Branch.pos Search.binarySearchSlots
  rw [h.count, Res.ok_bind]
  have := bsLoop_above true (fun p => b.slot.rd (N + 1) p >>= b.keys.rd N) key (ks.length + 1) 1 (by
    intro i h1 h2
    obtain ⟨j, rfl⟩ : ∃ j, i = j + 1 := ⟨i - 1, by omega⟩
    refine ⟨ks[j], ?_, hk _ (List.getElem_mem _)⟩
    show (b.slot.rd (N + 1) (j + 1) >>= b.keys.rd N) = _
    rw [Slots.rd_ok (by have := h.le; omega) (h.slots j (by omega)), Res.ok_bind]
    exact Slots.rd_ok (by have := h.le; omega) (h.keys j (by omega)))
    ((ks.length : Int) - 1 + 1).toNat 1 1 (by omega) (by omega) (by omega) (by omega)
  rw [show (((ks.length + 1 : Nat) : Int) - 1) = (ks.length : Int) by omega] at this
  exact this

theorem child (h : Asc b ks c) : b.child (ks.length + 1) = .ok c := by
  unfold Branch.child
  rw [h.count, Res.ok_bind, if_pos rfl]
  exact Slots.rd_ok (by omega) h.last

theorem free (h : Asc b ks c) (hlt : ks.length < N) : b.bits.getFreeZero = ks.length := by
  rcases Bitmap.getFreeZero_spec b.bits with ⟨h1, h2, h3⟩ | ⟨_, h2⟩
  · have h4 : ¬ b.bits.getFreeZero < ks.length := by
      intro hh
      rw [(h.bits _ h1).2 hh] at h2
      exact absurd h2 (by simp)
    by_contra hne
    have := (h.bits ks.length hlt).1 (h3 _ (by omega))
    omega
  · have := (h.bits ks.length hlt).1 (h2 _ hlt)
    omega

/-- A new separator behind all others. -/
theorem add (h : Asc b ks c) (hlt : ks.length < N) (sep : K) (l r : Nat) :
    ∃ b', b.add (ks.length + 1) sep l r = .ok b' ∧ Asc b' (ks ++ [sep]) r ∧
      (ks ≠ [] → b'.kids 0 = b.kids 0) := by
  obtain ⟨b1, eb, hb1⟩ := bit_set b.bits ks.length true hlt
  refine ⟨⟨fun j => if j = 0 then some (ks.length + 1) else if j = ks.length + 1 then some ks.length else
    b.slot j, b1, fun j => if j = ks.length then some sep else b.keys j,
    fun j => if j = N then some r else if j = ks.length then some l else b.kids j⟩, ?_, ?_⟩
  · unfold Branch.add
    dsimp only
    rw [h.free hlt, Slots.wr_ok _ _ hlt, Res.ok_bind, Slots.wr_ok _ _ (by omega), Res.ok_bind, h.count,
      Res.ok_bind, if_neg (by omega), Slots.wr_ok _ _ (by omega), Res.ok_bind, Res.pure_eq, Res.ok_bind]
    dsimp only
    rw [Slots.wr_ok _ _ (by omega), Res.ok_bind, eb, Res.ok_bind,
      Slots.rd_ok (x := ks.length) (by omega) (by simp [h.num]), Res.ok_bind, Slots.wr_ok _ _ (by omega),
      Res.ok_bind]
    rfl
  · refine ⟨⟨?_, ?_, ?_, ?_, ?_, ?_, ?_⟩, ?_⟩
    · simp
    · intro i hi
      simp only [List.length_append, List.length_singleton] at hi
      dsimp only
      rw [if_neg (by omega)]
      by_cases hc : i + 1 = ks.length + 1
      · rw [if_pos hc]; congr 1; omega
      · rw [if_neg hc]; exact h.slots i (by omega)
    · intro i hi
      simp only [List.length_append, List.length_singleton] at hi
      dsimp only
      by_cases hc : i = ks.length
      · subst hc; simp
      · rw [if_neg hc, List.getElem_append_left (by omega)]
        exact h.keys i (by omega)
    · intro i hi
      simp only [List.length_append, List.length_singleton] at hi
      dsimp only
      by_cases hN : i = N
      · exact ⟨r, by rw [if_pos hN]⟩
      · rw [if_neg hN]
        by_cases hc : i = ks.length
        · exact ⟨l, by rw [if_pos hc]⟩
        · rw [if_neg hc]; exact h.kids i (by omega)
    · simp
    · intro p hp
      dsimp only
      rw [hb1 p]
      by_cases hc : p = ks.length
      · subst hc; simp
      · rw [if_neg hc, h.bits p hp]; simp; omega
    · simp; omega
    · intro hne
      have : 0 < ks.length := List.length_pos_iff.2 hne
      dsimp only
      rw [if_neg (by omega), if_neg (by omega)]

omit [LinearOrder K] in
theorem moveOut (h : Asc b ks c) (mid : Nat) (n : Nat) : ∀ (i : Nat) (sib : Branch K N),
    mid + i + n = ks.length →
    ∃ sib', Branch.moveOut b mid i n sib = .ok sib' ∧
      (∀ j, sib'.slot j = if i + 1 ≤ j ∧ j < i + 1 + n then some (j - 1) else sib.slot j) ∧
      (∀ j, sib'.keys j = if i ≤ j ∧ j < i + n then ks[mid + j]? else sib.keys j) ∧
      (∀ j, sib'.kids j = if i ≤ j ∧ j < i + n then b.kids (mid + j) else sib.kids j) ∧
      (∀ p, Bitmap.bit sib'.bits p = if i ≤ p ∧ p < i + n then true else Bitmap.bit sib.bits p) := by
  induction n with
  | zero =>
    intro i sib _
    refine ⟨sib, rfl, ?_, ?_, ?_, ?_⟩ <;> intro j <;> rw [if_neg (by omega)]
  | succ n ih =>
    intro i sib hi
    have hle := h.le
    obtain ⟨b1, eb, hb1⟩ := bit_set sib.bits i true (by omega)
    obtain ⟨d, hd⟩ := h.kids (mid + i) (by omega)
    obtain ⟨s', e', h1, h2, h3, h4⟩ := ih (i + 1)
      ⟨fun j => if j = i + 1 then some i else sib.slot j, b1,
        fun j => if j = i then some ks[mid + i] else sib.keys j,
        fun j => if j = i then some d else sib.kids j⟩ (by omega)
    refine ⟨s', ?_, ?_, ?_, ?_, ?_⟩
    · rw [Branch.moveOut, Slots.wr_ok _ _ (by omega), Res.ok_bind, eb, Res.ok_bind,
        Slots.rd_ok (by omega) (h.slots (mid + i) (by omega)), Res.ok_bind,
        Slots.rd_ok (by omega) (h.keys (mid + i) (by omega)), Res.ok_bind, Slots.wr_ok _ _ (by omega),
        Res.ok_bind, Slots.rd_ok (by omega) hd, Res.ok_bind, Slots.wr_ok _ _ (by omega), Res.ok_bind]
      exact e'
    · intro j
      rw [h1 j]
      dsimp only
      by_cases hj : j = i + 1
      · rw [if_neg (by omega), if_pos hj, if_pos (by omega)]; congr 1; omega
      · by_cases hh : i + 1 + 1 ≤ j ∧ j < i + 1 + 1 + n
        · rw [if_pos hh, if_pos (by omega)]
        · rw [if_neg hh, if_neg hj, if_neg (by omega)]
    · intro j
      rw [h2 j]
      dsimp only
      by_cases hj : j = i
      · rw [if_neg (by omega), if_pos hj, if_pos (by omega), hj, List.getElem?_eq_getElem (by omega)]
      · by_cases hh : i + 1 ≤ j ∧ j < i + 1 + n
        · rw [if_pos hh, if_pos (by omega)]
        · rw [if_neg hh, if_neg hj, if_neg (by omega)]
    · intro j
      rw [h3 j]
      dsimp only
      by_cases hj : j = i
      · rw [if_neg (by omega), if_pos hj, if_pos (by omega), hj, hd]
      · by_cases hh : i + 1 ≤ j ∧ j < i + 1 + n
        · rw [if_pos hh, if_pos (by omega)]
        · rw [if_neg hh, if_neg hj, if_neg (by omega)]
    · intro j
      rw [h4 j]
      dsimp only
      rw [hb1 j]
      by_cases hj : j = i
      · rw [if_neg (by omega), if_pos hj, if_pos (by omega)]
      · by_cases hh : i + 1 ≤ j ∧ j < i + 1 + n
        · rw [if_pos hh, if_pos (by omega)]
        · rw [if_neg hh, if_neg hj, if_neg (by omega)]

theorem clear (slot : Slots Nat) (n : Nat) : ∀ (i : Nat) (b : Bitmap N), i + n ≤ N + 1 →
    (∀ j, i ≤ j → j < i + n → ∃ s < N, slot j = some s) →
    ∃ b', Branch.clear slot i n b = .ok b' := by
  induction n with
  | zero => intro i b _ _; exact ⟨b, rfl⟩
  | succ n ih =>
    intro i b hi hs
    obtain ⟨s, hs1, hs2⟩ := hs i (by omega) (by omega)
    obtain ⟨b1, eb, _⟩ := bit_set b s false hs1
    obtain ⟨b2, e2⟩ := ih (i + 1) b1 (by omega) (fun j h1 h2 => hs j (by omega) (by omega))
    refine ⟨b2, ?_⟩
    rw [Branch.clear, Slots.rd_ok (by omega) hs2, Res.ok_bind, Bitmap.reset_eq_set, eb, Res.ok_bind]
    exact e2

/-- A full node of the spine is split: the sibling is on the new spine. -/
theorem split (junk : Option Nat) (h : Asc b ks c) (hfull : ks.length = N) (hN : 1 < N) (sep : K) :
    ∃ b' up sib ks', b.split junk sep = .ok (b', up, sib) ∧ up ∈ ks ∧ Asc sib ks' c ∧
      (∀ x ∈ ks', x ∈ ks) ∧ ks'.length < N ∧ b'.kids 0 = b.kids 0 := by
  have hm : (N + 1) / 2 - 1 < ks.length := by omega
  have key0 : ∀ mid, 1 ≤ mid → mid ≤ N →
      (if ks[(N + 1) / 2 - 1] < sep then (N + 1) / 2 + 1 else (N + 1) / 2) = mid →
      ∃ b' up sib ks', b.split junk sep = .ok (b', up, sib) ∧ up ∈ ks ∧ Asc sib ks' c ∧
      (∀ x ∈ ks', x ∈ ks) ∧ ks'.length < N ∧ b'.kids 0 = b.kids 0 := by
    intro mid hm1 hm2 hmid
    obtain ⟨sib, es, hs, hk, hc, hb⟩ := h.moveOut mid (N - mid) 0
      ⟨fun j => if j = 0 then some (N - mid) else (Branch.fresh N junk : Branch K N).slot j,
        Bitmap.fresh N, Slots.none, Slots.none⟩ (by omega)
    obtain ⟨b1, eb⟩ := clear b.slot (N + 1 - mid) mid b.bits (by omega) (by
      intro j h1 h2
      obtain ⟨i, rfl⟩ : ∃ i, j = i + 1 := ⟨j - 1, by omega⟩
      exact ⟨i, by omega, h.slots i (by omega)⟩)
    obtain ⟨d, hd⟩ := h.kids (mid - 1) (by omega)
    refine ⟨⟨fun j => if j = 0 then some (mid - 1) else b.slot j, b1, b.keys,
      fun j => if j = N then some d else b.kids j⟩, ks[mid - 1],
      { sib with kids := fun j => if j = N then some c else sib.kids j }, ks.drop mid, ?_, List.getElem_mem _, ?_, ?_, ?_, ?_⟩
    · have hslot : b.slot ((N + 1) / 2) = some ((N + 1) / 2 - 1) := by
        have := h.slots ((N + 1) / 2 - 1) hm
        rwa [show (N + 1) / 2 - 1 + 1 = (N + 1) / 2 by omega] at this
      have hslot2 : b.slot mid = some (mid - 1) := by
        have := h.slots (mid - 1) (by omega)
        rwa [show mid - 1 + 1 = mid by omega] at this
      unfold Branch.split
      rw [Slots.rd_ok (by omega) hslot, Res.ok_bind, Slots.rd_ok (by omega) (h.keys _ hm), Res.ok_bind]
      dsimp only
      have hcount : b.slot.rd (N + 1) 0 = .ok N := h.count.trans (by rw [hfull])
      rw [hmid, hcount, Res.ok_bind, Slots.wr_ok _ _ (by omega), Res.ok_bind]
      change (Branch.moveOut b mid 0 (N - mid)
        ⟨fun j => if j = 0 then some (N - mid) else (Branch.fresh N junk : Branch K N).slot j,
          Bitmap.fresh N, Slots.none, Slots.none⟩ >>= _) = _
      rw [es, Res.ok_bind, eb, Res.ok_bind, Slots.wr_ok _ _ (by omega), Res.ok_bind,
        Slots.rd_ok (by omega) h.last, Res.ok_bind, Slots.wr_ok _ _ (by omega), Res.ok_bind,
        Slots.rd_ok (x := mid - 1) (by omega) (by rw [if_neg (by omega)]; exact hslot2), Res.ok_bind,
        Slots.rd_ok (by omega) hd, Res.ok_bind, Slots.wr_ok _ _ (by omega), Res.ok_bind,
        Slots.rd_ok (by omega) (h.keys (mid - 1) (by omega)), Res.ok_bind]
      rfl
    · refine ⟨?_, ?_, ?_, ?_, ?_, ?_, ?_⟩
      · dsimp only
        rw [hs 0, if_neg (by omega), List.length_drop, hfull]
        rfl
      · intro i hi
        rw [List.length_drop] at hi
        dsimp only
        rw [hs (i + 1), if_pos (by omega)]
        rfl
      · intro i hi
        have hi' := hi
        rw [List.length_drop] at hi'
        dsimp only
        rw [hk i, if_pos (by omega), List.getElem?_eq_getElem (by omega), List.getElem_drop]
      · intro i hi
        rw [List.length_drop] at hi
        dsimp only
        rw [if_neg (by omega), hc i, if_pos (by omega)]
        exact h.kids _ (by omega)
      · simp
      · intro p hp
        dsimp only
        rw [hb p, List.length_drop, hfull]
        by_cases hh : 0 ≤ p ∧ p < 0 + (N - mid)
        · rw [if_pos hh]; simp; omega
        · rw [if_neg hh, bit_fresh]; simp; omega
      · rw [List.length_drop]; omega
    · intro x hx; exact List.mem_of_mem_drop hx
    · rw [List.length_drop]; omega
    · dsimp only
      rw [if_neg (by omega)]
  by_cases hc : ks[(N + 1) / 2 - 1] < sep
  · exact key0 ((N + 1) / 2 + 1) (by omega) (by omega) (if_pos hc)
  · exact key0 ((N + 1) / 2) (by omega) (by omega) (if_neg hc)

end Asc

/-- The path of last children: `as` are the branch nodes from the node at address `a` down to the last
leaf; their keys satisfy `S`. -/
def Spine (S : K → Prop) (t : Tree K V N M) : List Nat → Nat → Prop
  | [], a => a + 1 = t.leaves.length
  | x :: as, a => x = a ∧ x ∉ as ∧ ∃ b ks c, t.branches[a]? = some b ∧ Asc b ks c ∧ ks ≠ [] ∧
      (∀ y ∈ ks, S y) ∧ Spine S t as c

theorem Spine.mono {S S' : K → Prop} (hS : ∀ y, S y → S' y) {t t' : Tree K V N M}
    (hl : t'.leaves.length = t.leaves.length) : ∀ (as : List Nat) (a : Nat),
    (∀ x ∈ as, t'.branches[x]? = t.branches[x]?) → Spine S t as a → Spine S' t' as a := by
  intro as
  induction as with
  | nil => intro a _ h; rw [Spine, hl]; exact h
  | cons x as ih =>
    intro a hb h
    obtain ⟨rfl, h1, b, ks, c, h2, h3, h4, h5, h6⟩ := h
    exact ⟨rfl, h1, b, ks, c, by rw [hb x (by simp), h2], h3, h4, fun y hy => hS y (h5 y hy),
      ih c (fun y hy => hb y (by simp [hy])) h6⟩

/-- The path of `children[0]` from the node at address `a` ends at leaf `0`. -/
def Left (t : Tree K V N M) : Nat → Nat → Prop
  | 0, a => a = 0
  | d + 1, a => ∃ b c, t.branches[a]? = some b ∧ b.kids 0 = some c ∧ Left t d c

/-- Every branch node of `t` is in `t'`, with the same `children[0]`. -/
def Keeps (t t' : Tree K V N M) : Prop :=
  ∀ (j : Nat) (b : Branch K N), t.branches[j]? = some b →
    ∃ b', t'.branches[j]? = some b' ∧ b'.kids 0 = b.kids 0

theorem Left.keep {t t' : Tree K V N M} (hk : Keeps t t') : ∀ (d a : Nat), Left t d a → Left t' d a := by
  intro d
  induction d with
  | zero => intro a h; exact h
  | succ d ih =>
    intro a ⟨b, c, h1, h2, h3⟩
    obtain ⟨b', h4, h5⟩ := hk a b h1
    exact ⟨b', c, h4, by rw [h5, h2], ih c h3⟩

theorem leftmost_ok {t : Tree K V N M} : ∀ (d a : Nat), Left t d a → leftmost t d a = .ok 0 := by
  intro d
  induction d with
  | zero => intro a h; rw [leftmost, show a = 0 from h]
  | succ d ih =>
    intro a ⟨b, c, h1, h2, h3⟩
    rw [leftmost, Tree.branch, h1, Res.ofOption_some, Res.ok_bind, Slots.rd_ok (by omega) h2, Res.ok_bind]
    exact ih c h3

/-- The leaves hold the entries `ess`, leaf by leaf in address order, and are linked in this order. -/
structure Chain (t : Tree K V N M) (ess : List (List (Nat × K × V))) : Prop where
  len : t.leaves.length = ess.length
  leaf : ∀ i (h : i < ess.length), ∃ l, t.leaves[i]? = some l ∧ LeafOK l ess[i]
  next : ∀ i < ess.length, t.next i = if i + 1 < ess.length then some (i + 1) else none
  ne : ∀ i (h : i < ess.length), i + 1 < ess.length → ess[i] ≠ []

/-- What an insert at the end does to the leaves. -/
theorem insertLeaf_last (junk : Option Nat) {t : Tree K V N M} {ess : List (List (Nat × K × V))}
    {es : List (Nat × K × V)} (h : Chain t (ess ++ [es])) (hM : 1 < M) {k : K} (v : V)
    (hk : ∀ e ∈ es, e.2.1 < k) :
    ∃ t' sp ess', insertLeaf junk t ess.length k v = .ok (t', sp) ∧ Chain t' ess' ∧
      (ess'.flatten.map (·.2)) = (ess ++ [es]).flatten.map (·.2) ++ [(k, v)] ∧
      (∀ es' ∈ ess', es' ≠ []) ∧
      t'.branches = t.branches ∧ t'.root = t.root ∧ t'.depth = t.depth ∧
      ((sp = none ∧ t'.leaves.length = t.leaves.length) ∨
        ∃ sep, sp = some (sep, t.leaves.length) ∧ t'.leaves.length = t.leaves.length + 1 ∧
          ∃ e ∈ es, e.2.1 = sep) := by
  obtain ⟨l, hl, hok⟩ := h.leaf ess.length (by simp)
  have hlen : t.leaves.length = ess.length + 1 := by rw [h.len]; simp
  rw [List.getElem_append_right (by omega)] at hok
  simp only [Nat.sub_self, List.getElem_cons_zero] at hok
  have hne : ∀ x ∈ ess, x ≠ [] := by
    intro x hx
    obtain ⟨i, hi, rfl⟩ := List.getElem_of_mem hx
    have := h.ne i (by simp; omega) (by simp; omega)
    rwa [List.getElem_append_left hi] at this
  rcases Nat.lt_or_ge es.length M with hlt | hge
  · obtain ⟨l', a, b, u, hes, ha, hb, e1, h1⟩ := hok.insert_room junk hlt (k := k)
      (fun e he => ne_of_lt (hk e he)) v
    have hb0 : b = [] := by
      rcases b with _ | ⟨e, b⟩
      · rfl
      · exact absurd (hk e (by rw [hes]; simp)) (not_lt_of_gt (hb e (by simp)))
    subst hb0
    rw [List.append_nil] at hes
    subst hes
    refine ⟨{ t with leaves := t.leaves.set ess.length l' }, none, ess ++ [es ++ [(u, k, v)]], ?_,
      ⟨by simp [hlen], ?_, ?_, ?_⟩, by simp, ?_, rfl, rfl, rfl, Or.inl ⟨rfl, by simp⟩⟩
    · unfold insertLeaf Tree.leaf
      rw [hl, Res.ofOption_some, Res.ok_bind, e1, Res.ok_bind]
      rfl
    · intro i hi
      simp only [List.length_append, List.length_singleton] at hi
      dsimp only
      by_cases hc : i = ess.length
      · subst hc
        refine ⟨l', by rw [List.getElem?_set_self (by omega)], ?_⟩
        rw [List.getElem_append_right (by omega)]
        simpa using h1
      · rw [List.getElem?_set_ne (by omega)]
        obtain ⟨l0, h2, h3⟩ := h.leaf i (by simp; omega)
        rw [List.getElem_append_left (by omega)] at h3
        exact ⟨l0, h2, by rw [List.getElem_append_left (by omega)]; exact h3⟩
    · intro i hi
      have := h.next i (by simpa using hi)
      simpa using this
    · intro i hi hi'
      simp only [List.length_append, List.length_singleton] at hi'
      rw [List.getElem_append_left (by omega)]
      exact hne _ (List.getElem_mem _)
    · intro x hx
      rcases List.mem_append.1 hx with hx | hx
      · exact hne x hx
      · rw [List.mem_singleton.1 hx]; simp
  · have hfull : es.length = M := by have := hok.le; omega
    obtain ⟨l', r, sep, u, e1, h1, h2, h3⟩ := hok.insert_last junk hfull hM hk v
    have htk : es.take ((M + 1) / 2) ≠ [] := by
      intro hh
      have := congrArg List.length hh
      rw [List.length_take, List.length_nil] at this
      omega
    refine ⟨{ t with
        leaves := t.leaves.set ess.length l' ++ [r]
        next := linkAfter t.next ess.length t.leaves.length }, some (sep, t.leaves.length),
      ess ++ [es.take ((M + 1) / 2), renum (es.drop ((M + 1) / 2)) ++ [(u, k, v)]], ?_,
      ⟨by simp [hlen], ?_, ?_, ?_⟩, ?_, ?_, rfl, rfl, rfl, Or.inr ⟨sep, rfl, by simp, h3⟩⟩
    · unfold insertLeaf Tree.leaf
      rw [hl, Res.ofOption_some, Res.ok_bind, e1, Res.ok_bind]
      rfl
    · intro i hi
      simp only [List.length_append, List.length_cons, List.length_nil] at hi
      dsimp only
      by_cases hc : i = ess.length + 1
      · subst hc
        refine ⟨r, ?_, ?_⟩
        · rw [List.getElem?_append_right (by rw [List.length_set]; omega), List.length_set, hlen]
          simp
        · rw [List.getElem_append_right (by omega)]
          simpa using h2
      · rw [List.getElem?_append_left (by rw [List.length_set]; omega)]
        by_cases hc : i = ess.length
        · subst hc
          refine ⟨l', by rw [List.getElem?_set_self (by omega)], ?_⟩
          rw [List.getElem_append_right (by omega)]
          simpa using h1
        · rw [List.getElem?_set_ne (by omega)]
          obtain ⟨l0, h4, h5⟩ := h.leaf i (by simp; omega)
          rw [List.getElem_append_left (by omega)] at h5
          exact ⟨l0, h4, by rw [List.getElem_append_left (by omega)]; exact h5⟩
    · intro i hi
      simp only [List.length_append, List.length_cons, List.length_nil] at hi
      have hn := h.next
      simp only [List.length_append, List.length_cons, List.length_nil] at hn ⊢
      unfold linkAfter
      by_cases hc : i = ess.length
      · rw [if_pos hc, if_pos (by omega), hlen, hc]
      · rw [if_neg hc]
        by_cases hc2 : i = t.leaves.length
        · rw [if_pos hc2, hn _ (by omega), if_neg (by omega), if_neg (by omega)]
        · rw [if_neg hc2, hn _ (by omega), if_pos (by omega), if_pos (by omega)]
    · intro i hi hi'
      simp only [List.length_append, List.length_cons, List.length_nil] at hi'
      by_cases hc : i = ess.length
      · subst hc
        rw [List.getElem_append_right (by omega)]
        simpa using htk
      · rw [List.getElem_append_left (by omega)]
        exact hne _ (List.getElem_mem _)
    · have : es.map (·.2) = (es.take ((M + 1) / 2)).map (·.2) ++ (es.drop ((M + 1) / 2)).map (·.2) := by
        rw [← List.map_append, List.take_append_drop]
      simp only [List.flatten_append, List.flatten_cons, List.flatten_nil, List.map_append, List.append_nil,
        renum_snd, List.map_cons, List.map_nil, List.append_assoc]
      rw [this, List.append_assoc]
    · intro x hx
      rcases List.mem_append.1 hx with hx | hx
      · exact hne x hx
      · rcases List.mem_cons.1 hx with rfl | hx
        · exact htk
        · rw [List.mem_singleton.1 hx]; simp

omit [LinearOrder K] in
theorem Spine.lt {S : K → Prop} {t : Tree K V N M} : ∀ (as : List Nat) (a : Nat), Spine S t as a →
    ∀ x ∈ as, x < t.branches.length := by
  intro as
  induction as with
  | nil => intro a _ x hx; simp at hx
  | cons y as ih =>
    intro a h x hx
    obtain ⟨rfl, h1, b, ks, c, h2, h3, h4, h5, h6⟩ := h
    rcases List.mem_cons.1 hx with rfl | hx
    · exact (List.getElem?_eq_some_iff.1 h2).1
    · exact ih c h6 x hx

/-- An insert of a key above all others along the spine. -/
theorem insertAux_asc (junk : Option Nat) (hM : 1 < M) (hN : 1 < N) (S : K → Prop) {k : K} (v : V)
    (hk : ∀ y, S y → y < k) {t : Tree K V N M} {ess : List (List (Nat × K × V))} {es : List (Nat × K × V)}
    (hch : Chain t (ess ++ [es])) (hes : ∀ e ∈ es, S e.2.1) :
    ∀ (as : List Nat) (a : Nat), Spine S t as a →
    ∃ t' sp ess' as', insertAux junk k v as.length t a = .ok (t', sp) ∧ Chain t' ess' ∧
      (ess'.flatten.map (·.2)) = (ess ++ [es]).flatten.map (·.2) ++ [(k, v)] ∧ (∀ es' ∈ ess', es' ≠ []) ∧
      t'.root = t.root ∧ t'.depth = t.depth ∧ Keeps t t' ∧ t.branches.length ≤ t'.branches.length ∧
      (∀ j < t.branches.length, j ∉ as → t'.branches[j]? = t.branches[j]?) ∧
      as'.length = as.length ∧ (∀ x ∈ as', x ∈ as ∨ t.branches.length ≤ x) ∧
      ((sp = none ∧ Spine S t' as' a) ∨ ∃ sep r, sp = some (sep, r) ∧ S sep ∧ Spine S t' as' r) := by
  intro as
  induction as with
  | nil =>
    intro a ha
    have ha' : a + 1 = t.leaves.length := ha
    have : a = ess.length := by
      have := hch.len
      rw [List.length_append, List.length_singleton] at this
      omega
    subst this
    obtain ⟨t', sp, ess', e, h1, h2, hne, h3, h4, h5, h6⟩ := insertLeaf_last junk hch hM v
      (fun e he => hk _ (hes e he))
    refine ⟨t', sp, ess', [], e, h1, h2, hne, h4, h5, ?_, by rw [h3], fun j _ _ => by rw [h3], rfl,
      by simp, ?_⟩
    · intro j b hb
      exact ⟨b, by rw [h3]; exact hb, rfl⟩
    · rcases h6 with ⟨rfl, h7⟩ | ⟨sep, rfl, h7, e0, he0, rfl⟩
      · exact Or.inl ⟨rfl, by rw [Spine, h7]; exact ha'⟩
      · exact Or.inr ⟨_, _, rfl, hes e0 he0, by rw [Spine, h7]⟩
  | cons x as ih =>
    intro a hsp
    have hlt0 := Spine.lt _ _ hsp
    obtain ⟨rfl, hx, b, ks, c, hb, hasc, hks, hS, hsp'⟩ := hsp
    obtain ⟨t', sp, ess', as', e, h1, h2, hne, h3, h4, h5, h6, h7, h8, h9, h10⟩ := ih c hsp'
    have hxlt : x < t.branches.length := hlt0 x (by simp)
    have hbk : ∀ y ∈ ks, y < k := fun y hy => hk y (hS y hy)
    have hb' : t'.branches[x]? = some b := by rw [h7 x hxlt hx, hb]
    have hx' : x ∉ as' := fun hh => by
      rcases h9 x hh with h | h
      · exact hx h
      · omega
    have start : insertAux junk k v (x :: as).length t x = (match (generalizing := false) sp with
        | none => pure (t', none)
        | some (sep, r) => do
          let b ← t'.branch x
          let n ← b.slot.rd (N + 1) 0
          if n = N then do
            let (b, up, sib) ← b.split junk sep
            if k < up then do
              let p ← b.pos k
              let b ← b.add p sep c r
              pure ({ t' with branches := t'.branches.set x b ++ [sib] }, some (up, t'.branches.length))
            else do
              let p ← sib.pos k
              let sib ← sib.add p sep c r
              pure ({ t' with branches := t'.branches.set x b ++ [sib] }, some (up, t'.branches.length))
          else do
            let b ← b.add (ks.length + 1) sep c r
            pure ({ t' with branches := t'.branches.set x b }, none)) := by
      rw [List.length_cons, insertAux, Tree.branch, hb, Res.ofOption_some, Res.ok_bind, hasc.pos hbk,
        Res.ok_bind, hasc.child, Res.ok_bind, e, Res.ok_bind]
      rfl
    rcases h10 with ⟨rfl, hs1⟩ | ⟨sep, r, rfl, hsep, hs1⟩
    · refine ⟨t', none, ess', x :: as', start, h1, h2, hne, h3, h4, h5, h6, ?_, by simp [h8], ?_,
        Or.inl ⟨rfl, rfl, hx', b, ks, c, hb', hasc, hks, hS, hs1⟩⟩
      · intro j hj hj'
        exact h7 j hj (fun hh => hj' (by simp [hh]))
      · intro y hy
        rcases List.mem_cons.1 hy with rfl | hy
        · exact Or.inl (by simp)
        · rcases h9 y hy with h | h
          · exact Or.inl (by simp [h])
          · exact Or.inr h
    · dsimp only at start
      rw [Tree.branch, hb', Res.ofOption_some, Res.ok_bind, hasc.count, Res.ok_bind] at start
      have hlt1 := Spine.lt _ _ hs1
      by_cases hfull : ks.length = N
      · obtain ⟨b1, up, sib, ks', e2, hup, hsib, hsub, hlen, hkid⟩ := hasc.split junk hfull hN sep
        obtain ⟨sib2, e3, hsib2, _⟩ := hsib.add hlen sep c r
        rw [if_pos hfull, e2, Res.ok_bind] at start
        dsimp only at start
        rw [if_neg (not_lt_of_gt (hbk up hup)), hsib.pos (fun y hy => hbk y (hsub y hy)), Res.ok_bind, e3,
          Res.ok_bind, Res.pure_eq] at start
        have hsame : ∀ y, y ≠ x → y < t'.branches.length →
            (t'.branches.set x b1 ++ [sib2])[y]? = t'.branches[y]? := by
          intro y hy hy2
          rw [List.getElem?_append_left (by rw [List.length_set]; exact hy2), List.getElem?_set_ne (Ne.symm hy)]
        refine ⟨_, _, ess', t'.branches.length :: as', start, ⟨h1.len, h1.leaf, h1.next, h1.ne⟩, h2, hne, h3,
          h4, ?_, by simp; omega, ?_, by simp [h8], ?_, Or.inr ⟨up, _, rfl, hS up hup, ?_⟩⟩
        · intro j b0 hb0
          obtain ⟨b0', h11, h12⟩ := h5 j b0 hb0
          have hjl : j < t'.branches.length := (List.getElem?_eq_some_iff.1 h11).1
          by_cases hj : j = x
          · subst hj
            refine ⟨b1, ?_, ?_⟩
            · rw [List.getElem?_append_left (by rw [List.length_set]; exact hjl),
                List.getElem?_set_self hjl]
            · rw [hkid]
              rw [hb] at hb0
              injection hb0 with hb0
              rw [hb0]
          · exact ⟨b0', by rw [hsame j hj hjl]; exact h11, h12⟩
        · intro j hj hj'
          rw [hsame j (fun hh => hj' (by simp [hh])) (by omega)]
          exact h7 j hj (fun hh => hj' (by simp [hh]))
        · intro y hy
          rcases List.mem_cons.1 hy with rfl | hy
          · exact Or.inr h6
          · rcases h9 y hy with h | h
            · exact Or.inl (by simp [h])
            · exact Or.inr h
        · refine ⟨rfl, fun hh => absurd (hlt1 _ hh) (lt_irrefl _), sib2, ks' ++ [sep], r, ?_, hsib2, by simp,
            ?_, ?_⟩
          · rw [List.getElem?_append_right (by rw [List.length_set]), List.length_set]
            simp
          · intro y hy
            rcases List.mem_append.1 hy with h | h
            · exact hS y (hsub y h)
            · rw [List.mem_singleton.1 h]; exact hsep
          · exact Spine.mono (S := S) (fun _ h => h) (t := t') (by rfl) as' r
              (fun y hy => hsame y (fun hh => hx' (hh ▸ hy)) (hlt1 y hy)) hs1
      · obtain ⟨b1, e3, hb1, hkid⟩ := hasc.add (by have := hasc.le; omega) sep c r
        rw [if_neg hfull, e3, Res.ok_bind, Res.pure_eq] at start
        have hxl : x < t'.branches.length := by omega
        refine ⟨_, _, ess', x :: as', start, ⟨h1.len, h1.leaf, h1.next, h1.ne⟩, h2, hne, h3, h4, ?_, by simp; omega,
          ?_, by simp [h8], ?_, Or.inl ⟨rfl, rfl, hx', b1, ks ++ [sep], r, ?_, hb1, by simp, ?_, ?_⟩⟩
        · intro j b0 hb0
          obtain ⟨b0', h11, h12⟩ := h5 j b0 hb0
          by_cases hj : j = x
          · subst hj
            refine ⟨b1, by dsimp only; rw [List.getElem?_set_self hxl], ?_⟩
            rw [hkid hks]
            rw [hb] at hb0
            injection hb0 with hb0
            rw [hb0]
          · exact ⟨b0', by dsimp only; rw [List.getElem?_set_ne (Ne.symm hj)]; exact h11, h12⟩
        · intro j hj hj'
          dsimp only
          rw [List.getElem?_set_ne (fun hh => hj' (by simp [hh]))]
          exact h7 j hj (fun hh => hj' (by simp [hh]))
        · intro y hy
          rcases List.mem_cons.1 hy with rfl | hy
          · exact Or.inl (by simp)
          · rcases h9 y hy with h | h
            · exact Or.inl (by simp [h])
            · exact Or.inr h
        · dsimp only; rw [List.getElem?_set_self hxl]
        · intro y hy
          rcases List.mem_append.1 hy with h | h
          · exact hS y h
          · rw [List.mem_singleton.1 h]; exact hsep
        · exact Spine.mono (S := S) (fun _ h => h) (t := t') (by rfl) as' r
            (fun y hy => by
              have hxy : x ≠ y := fun hh => hx' (hh ▸ hy)
              dsimp only
              rw [List.getElem?_set_ne hxy]) hs1

/-- The invariant of a tree built by ascending inserts of `xs`. -/
def AscTree (t : Tree K V N M) (xs : List (K × V)) : Prop :=
  ∃ ess as, Chain t ess ∧ ess ≠ [] ∧ ess.flatten.map (·.2) = xs ∧ (xs ≠ [] → ∀ es ∈ ess, es ≠ []) ∧
    as.length = t.depth ∧ Spine (fun y => ∃ x ∈ xs, x.1 = y) t as t.root ∧ Left t t.depth t.root

theorem ascTree_empty (junk : Option Nat) : AscTree (empty N M junk : Tree K V N M) [] := by
  refine ⟨[[]], [], ⟨rfl, ?_, ?_, ?_⟩, by simp, rfl, by simp, rfl, rfl, rfl⟩
  · intro i hi
    simp at hi
    subst hi
    exact ⟨_, rfl, leafOK_fresh junk⟩
  · intro i hi
    simp at hi
    subst hi
    rfl
  · intro i hi hi'
    simp at hi'

theorem AscTree.insert (junk : Option Nat) (hM : 1 < M) (hN : 1 < N) {t : Tree K V N M}
    {xs : List (K × V)} (h : AscTree t xs) {k : K} (v : V) (hk : ∀ x ∈ xs, x.1 < k) :
    ∃ t', insert junk t k v = .ok t' ∧ AscTree t' (xs ++ [(k, v)]) := by
  obtain ⟨ess0, as, hch, hne, hx, hnn, hlen, hsp, hleft⟩ := h
  obtain ⟨ess, es, rfl⟩ : ∃ ess es, ess0 = ess ++ [es] := by
    rcases List.eq_nil_or_concat ess0 with h | ⟨ys, y, h⟩
    · exact absurd h hne
    · exact ⟨ys, y, by rw [h, List.concat_eq_append]⟩
  obtain ⟨t', sp, ess', as', e, h1, h2, hn', h3, h4, h5, h6, h7, h8, h9, h10⟩ := insertAux_asc junk hM hN
    (fun y => ∃ x ∈ xs, x.1 = y) v (k := k) (by rintro y ⟨x, hx1, rfl⟩; exact hk x hx1) hch (by
      intro e he
      refine ⟨e.2, ?_, rfl⟩
      rw [← hx]
      exact List.mem_map_of_mem (List.mem_flatten.2 ⟨es, by simp, he⟩)) as t.root hsp
  rw [hx] at h2
  rw [hlen] at e
  have hmono : ∀ y, (∃ x ∈ xs, x.1 = y) → ∃ x ∈ xs ++ [(k, v)], x.1 = y := by
    rintro y ⟨x, hx1, hx2⟩; exact ⟨x, List.mem_append_left _ hx1, hx2⟩
  have hne' : ess' ≠ [] := by
    rintro rfl
    simp at h2
  have hl' := Left.keep h5 t.depth t.root hleft
  rcases h10 with ⟨rfl, hs⟩ | ⟨sep, r, rfl, hsep, hs⟩
  · refine ⟨t', ?_, ess', as', h1, hne', h2, fun _ => hn', by omega, ?_, ?_⟩
    · unfold WBTree.insert
      rw [e, Res.ok_bind]
      rfl
    · rw [h3]
      exact Spine.mono hmono rfl as' t.root (fun _ _ => rfl) hs
    · rw [h3, h4]; exact hl'
  · obtain ⟨b1, eb, hb1⟩ := bit_set (Bitmap.fresh N) 0 true (by omega)
    have hasc : Asc (⟨fun j => if j = 0 then some 1 else if j = 1 then some 0 else
        (Branch.fresh N junk : Branch K N).slot j, b1, fun j => if j = 0 then some sep else none,
        fun j => if j = N then some r else if j = 0 then some t.root else none⟩ : Branch K N) [sep] r := by
      refine ⟨rfl, ?_, ?_, ?_, by simp, ?_, by simp; omega⟩
      · intro i hi
        simp at hi
        subst hi
        rfl
      · intro i hi
        simp at hi
        subst hi
        rfl
      · intro i hi
        simp at hi
        subst hi
        exact ⟨t.root, by dsimp only; rw [if_neg (by omega), if_pos rfl]⟩
      · intro p hp
        dsimp only
        rw [hb1 p]
        by_cases hp0 : p = 0
        · simp [hp0]
        · rw [if_neg hp0, bit_fresh]; simp; omega
    generalize hbr : (⟨fun j => if j = 0 then some 1 else if j = 1 then some 0 else
        (Branch.fresh N junk : Branch K N).slot j, b1, fun j => if j = 0 then some sep else none,
        fun j => if j = N then some r else if j = 0 then some t.root else none⟩ : Branch K N) = br at hasc
    have hkid : br.kids 0 = some t.root := by
      rw [← hbr]
      dsimp only
      rw [if_neg (by omega), if_pos rfl]
    have hnew : (t'.branches ++ [br])[t'.branches.length]? = some br := by
      rw [List.getElem?_append_right (le_refl _)]; simp
    have hold : ∀ y < t'.branches.length, (t'.branches ++ [br])[y]? = t'.branches[y]? :=
      fun y hy => List.getElem?_append_left hy
    refine ⟨{ t' with
        branches := t'.branches ++ [br]
        root := t'.branches.length
        depth := t.depth + 1 }, ?_, ess', t'.branches.length :: as', ⟨h1.len, h1.leaf, h1.next, h1.ne⟩, hne', h2,
      fun _ => hn', ?_, ?_, ?_⟩
    · unfold WBTree.insert
      rw [e, Res.ok_bind]
      dsimp only
      rw [Slots.wr_ok _ _ (by omega), Res.ok_bind, Slots.wr_ok _ _ (by omega), Res.ok_bind,
        Slots.wr_ok _ _ (by omega), Res.ok_bind, Slots.wr_ok _ _ (by omega), Res.ok_bind]
      change (Bitmap.set (Bitmap.fresh N) 0 true >>= _) = _
      rw [eb, Res.ok_bind, Slots.wr_ok _ _ (by omega), Res.ok_bind, ← hbr]
      rfl
    · simp [h8, hlen]
    · have hlt1 := Spine.lt _ _ hs
      exact ⟨rfl, fun hh => absurd (hlt1 _ hh) (lt_irrefl _), br, [sep], r, hnew, hasc, by simp,
        by intro y hy; rw [List.mem_singleton.1 hy]; exact hmono _ hsep,
        Spine.mono hmono (t := t') (by rfl) as' r (fun y hy => hold y (hlt1 y hy)) hs⟩
    · refine ⟨br, t.root, hnew, hkid, ?_⟩
      refine Left.keep (t := t') ?_ _ _ hl'
      intro j b0 hb0
      exact ⟨b0, by dsimp only; rw [hold j (List.getElem?_eq_some_iff.1 hb0).1]; exact hb0, rfl⟩

/-- Ascending inserts keep the invariant. -/
theorem AscTree.insertAll (junk : Option Nat) (hM : 1 < M) (hN : 1 < N) : ∀ (ys : List (K × V))
    (t : Tree K V N M) (xs : List (K × V)), AscTree t xs →
    ((xs ++ ys).map Prod.fst).Pairwise (· < ·) →
    ∃ t', insertAll junk ys t = .ok t' ∧ AscTree t' (xs ++ ys) := by
  intro ys
  induction ys with
  | nil => intro t xs h _; exact ⟨t, rfl, by rw [List.append_nil]; exact h⟩
  | cons y ys ih =>
    obtain ⟨k, v⟩ := y
    intro t xs h hp
    obtain ⟨t1, e1, h1⟩ := h.insert junk hM hN v (k := k) (by
      intro x hx
      rw [List.map_append, List.pairwise_append] at hp
      exact hp.2.2 x.1 (List.mem_map_of_mem hx) k (by simp))
    obtain ⟨t2, e2, h2⟩ := ih t1 (xs ++ [(k, v)]) h1 (by simpa using hp)
    refine ⟨t2, ?_, by simpa using h2⟩
    rw [WBTree.insertAll, e1, Res.ok_bind]
    exact e2

end Verif.WBTree
