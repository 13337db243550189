import Verif.WBTree.Leaf

/-!
# The branch node of wBPTree.hpp and wHBPTree.hpp: what the operations do to its entries

The entries are those of any sequence of inserts; `Asc.lean` has the special case of ascending ones.
-/

namespace Verif.WBTree

variable {K : Type} [LinearOrder K] {N : Nat}

/-- The branch node holds the separators and children `xs` in order; the first component is the array
position.  The last child is `z`. -/
structure BrOK (b : Branch K N) (xs : List (Nat × K × Nat)) (z : Nat) : Prop where
  slots : Slots.Rep b.slot (xs.length :: xs.map (·.1))
  ent : ∀ e ∈ xs, e.1 < N ∧ b.keys e.1 = some e.2.1 ∧ b.kids e.1 = some e.2.2
  nodup : (xs.map (·.1)).Nodup
  bits : ∀ p < N, Bitmap.bit b.bits p = true ↔ p ∈ xs.map (·.1)
  last : b.kids N = some z
  le : xs.length ≤ N

namespace BrOK

variable {b : Branch K N} {xs : List (Nat × K × Nat)} {z : Nat}

omit [LinearOrder K] in
theorem count (h : BrOK b xs z) : b.slot.rd (N + 1) 0 = .ok xs.length :=
  Slots.rd_ok (by omega) (by simpa using h.slots 0 (by simp))

omit [LinearOrder K] in
theorem slot (h : BrOK b xs z) {i : Nat} (hi : i < xs.length) : b.slot (i + 1) = some xs[i].1 := by
  have := h.slots (i + 1) (by simp; omega)
  rw [this]; simp [hi]

omit [LinearOrder K] in
theorem rdSlot (h : BrOK b xs z) {i : Nat} (hi : i < xs.length) :
    b.slot.rd (N + 1) (i + 1) = .ok xs[i].1 :=
  Slots.rd_ok (by have := h.le; omega) (h.slot hi)

omit [LinearOrder K] in
theorem key (h : BrOK b xs z) {e : Nat × K × Nat} (he : e ∈ xs) : b.keys.rd N e.1 = .ok e.2.1 :=
  Slots.rd_ok (h.ent e he).1 (h.ent e he).2.1

omit [LinearOrder K] in
theorem kid (h : BrOK b xs z) {e : Nat × K × Nat} (he : e ∈ xs) : b.kids.rd (N + 1) e.1 = .ok e.2.2 :=
  Slots.rd_ok (by have := (h.ent e he).1; omega) (h.ent e he).2.2

omit [LinearOrder K] in
/-- The entry at a position. -/
theorem at_ (h : BrOK b xs z) {p q : List (Nat × K × Nat)} {e : Nat × K × Nat} (hx : xs = p ++ e :: q) :
    b.slot.rd (N + 1) (p.length + 1) = .ok e.1 := by
  have hl : p.length < xs.length := by rw [hx]; simp
  rw [h.rdSlot hl]
  congr 1
  subst hx
  simp

/-- The search cuts the separators at the key; an equal separator is left of the cut. -/
theorem pos (h : BrOK b xs z) (hs : xs.Pairwise (fun a b => a.2.1 < b.2.1)) (k : K) :
    ∃ p q, xs = p ++ q ∧ b.pos k = .ok (p.length + 1) ∧
      (∀ e ∈ p, e.2.1 ≤ k) ∧ (∀ e ∈ q, k < e.2.1) := by
  by_cases he : xs = []
  · subst he
    refine ⟨[], [], rfl, ?_, by simp, by simp⟩
    unfold Branch.pos
    rw [h.count, Res.ok_bind]
    rfl
  have hne : 0 < xs.length := List.length_pos_iff.2 he
  let kk : Nat → K := fun i => (xs[i - 1]?.getD xs[0]).2.1
  have hkk : ∀ i (hi : i < xs.length), kk (i + 1) = xs[i].2.1 := by
    intro i hi
    show (xs[i + 1 - 1]?.getD xs[0]).2.1 = _
    simp [hi]
  obtain ⟨c, e, h1, h2, h3, h4⟩ := Search.bsLoop_spec true
    (fun p => b.slot.rd (N + 1) p >>= b.keys.rd N) k kk 1 (xs.length + 1)
    (by
      intro i hi1 hi2
      obtain ⟨j, rfl⟩ : ∃ j, i = j + 1 := ⟨i - 1, by omega⟩
      rw [h.rdSlot (by omega), Res.ok_bind, h.key (List.getElem_mem _), hkk])
    (by
      intro i j hi hij hj
      obtain ⟨i', rfl⟩ : ∃ i', i = i' + 1 := ⟨i - 1, by omega⟩
      obtain ⟨j', rfl⟩ : ∃ j', j = j' + 1 := ⟨j - 1, by omega⟩
      rw [hkk i' (by omega), hkk j' (by omega)]
      exact List.pairwise_iff_getElem.1 hs i' j' (by omega) (by omega) (by omega))
    ((xs.length : Int) - 1 + 1).toNat 1 1 xs.length (by omega) (by omega) (by omega) (by omega)
    (by intro i _ _; omega) (by intro i _ _; omega) (by omega)
  refine ⟨xs.take (c - 1), xs.drop (c - 1), (List.take_append_drop _ _).symm, ?_, ?_, ?_⟩
  · unfold Branch.pos Search.binarySearchSlots
    rw [h.count, Res.ok_bind, e, List.length_take]
    congr 1; omega
  · intro x hx
    obtain ⟨i, hi, rfl⟩ := List.getElem_of_mem hx
    rw [List.length_take] at hi
    rw [List.getElem_take, ← hkk i (by omega)]
    simpa using h3 (i + 1) (by omega) (by omega)
  · intro x hx
    obtain ⟨i, hi, rfl⟩ := List.getElem_of_mem hx
    rw [List.length_drop] at hi
    rw [List.getElem_drop, ← hkk (c - 1 + i) (by omega)]
    simpa using h4 (c - 1 + i + 1) (by omega) (by omega)

/-- The position found by the search is the only cut with these properties. -/
theorem pos_eq (h : BrOK b xs z) (hs : xs.Pairwise (fun a b => a.2.1 < b.2.1)) {k : K}
    {p q : List (Nat × K × Nat)} (hx : xs = p ++ q) (hp : ∀ e ∈ p, e.2.1 ≤ k) (hq : ∀ e ∈ q, k < e.2.1) :
    b.pos k = .ok (p.length + 1) := by
  obtain ⟨p', q', hx', e, hp', hq'⟩ := h.pos hs k
  rw [e]
  have hcut : p'.length = p.length := by
    rw [hx] at hx'
    rcases Nat.lt_trichotomy p'.length p.length with hl | hl | hl
    · exfalso
      have : p[p'.length]? = q'[0]? := by
        rw [← List.getElem?_append_left (l₂ := q) hl, hx', List.getElem?_append_right le_rfl, Nat.sub_self]
      rw [List.getElem?_eq_getElem hl] at this
      have h1 := hp _ (List.getElem_mem hl)
      have h2 := hq' _ (List.mem_of_getElem? this.symm)
      exact absurd h1 (not_le.2 h2)
    · exact hl
    · exfalso
      have : p'[p.length]? = q[0]? := by
        rw [← List.getElem?_append_left (l₂ := q') hl, ← hx', List.getElem?_append_right le_rfl, Nat.sub_self]
      rw [List.getElem?_eq_getElem hl] at this
      have h1 := hp' _ (List.getElem_mem hl)
      have h2 := hq _ (List.mem_of_getElem? this.symm)
      exact absurd h1 (not_le.2 h2)
  rw [hcut]

omit [LinearOrder K] in
theorem child_mid (h : BrOK b xs z) {p q : List (Nat × K × Nat)} {e : Nat × K × Nat}
    (hx : xs = p ++ e :: q) : b.child (p.length + 1) = .ok e.2.2 := by
  unfold Branch.child
  rw [h.count, Res.ok_bind, if_neg (by rw [hx]; simp), h.at_ hx, Res.ok_bind, h.kid (by rw [hx]; simp)]

omit [LinearOrder K] in
theorem child_last (h : BrOK b xs z) : b.child (xs.length + 1) = .ok z := by
  unfold Branch.child
  rw [h.count, Res.ok_bind, if_pos rfl]
  exact Slots.rd_ok (by omega) h.last

omit [LinearOrder K] in
theorem free (h : BrOK b xs z) (hlt : xs.length < N) :
    b.bits.getFreeZero < N ∧ b.bits.getFreeZero ∉ xs.map (·.1) := by
  rcases Bitmap.getFreeZero_spec b.bits with ⟨h1, h2, _⟩ | ⟨_, h2⟩
  · exact ⟨h1, fun hm => by rw [(h.bits _ h1).2 hm] at h2; exact absurd h2 (by simp)⟩
  · exfalso
    have hsub : Finset.range N ⊆ (xs.map (·.1)).toFinset := by
      intro p hp
      rw [List.mem_toFinset]
      exact (h.bits p (Finset.mem_range.1 hp)).1 (h2 p (Finset.mem_range.1 hp))
    have := Finset.card_le_card hsub
    rw [Finset.card_range] at this
    have h3 := List.toFinset_card_le (xs.map (·.1))
    rw [List.length_map] at h3
    omega

omit [LinearOrder K] in
/-- A new separator in front of the entry `e`: its left child is `l`, the child of `e` becomes `r`. -/
theorem add_mid {p q : List (Nat × K × Nat)} {e : Nat × K × Nat} (h : BrOK b (p ++ e :: q) z)
    (hlt : (p ++ e :: q).length < N) (sep : K) (l r : Nat) :
    ∃ b' u, b.add (p.length + 1) sep l r = .ok b' ∧
      BrOK b' (p ++ (u, sep, l) :: (e.1, e.2.1, r) :: q) z := by
  obtain ⟨hu, hnu⟩ := h.free hlt
  generalize hU : b.bits.getFreeZero = u at hu hnu
  have hlen : (p ++ e :: q).length = p.length + 1 + q.length := by
    rw [List.length_append, List.length_cons]; omega
  have hrep := h.slots
  rw [List.map_append, ← List.cons_append] at hrep
  obtain ⟨s1, e1, hs1⟩ := Slots.insert_rep (cap := N + 1) u hrep (by simp; simp at hlt; omega)
  obtain ⟨b1, eb, hb1⟩ := bit_set b.bits u true hu
  simp only [List.length_cons, List.length_map] at e1
  obtain ⟨s0, e0, e1'⟩ := (Res.bind_eq_ok).1 e1
  have he1 : e.1 < N := (h.ent e (by simp)).1
  have hne : e.1 ≠ u := fun hh => hnu (hh ▸ List.mem_map_of_mem (by simp))
  have hs1' : s1 = fun j => if j = p.length + 1 then some u else s0 j := by
    rw [Slots.wr_ok _ _ (by omega)] at e1'
    exact (Res.ok.inj e1').symm
  have hs01 : s0 (p.length + 1 + 1) = some e.1 := by
    have h1 := hs1 (p.length + 1 + 1) (by simp)
    rw [hs1'] at h1
    simp only [Nat.add_eq_left, one_ne_zero, if_false] at h1
    rw [h1]
    simp
  have hc1 : s1 0 = some (p ++ e :: q).length := by
    have := hs1 0 (by simp)
    simpa using this
  refine ⟨⟨fun j => if j = 0 then some ((p ++ e :: q).length + 1) else s1 j, b1,
    fun j => if j = u then some sep else b.keys j,
    fun j => if j = e.1 then some r else if j = u then some l else b.kids j⟩, u, ?_, ?_⟩
  · unfold Branch.add
    dsimp only
    rw [hU, Slots.wr_ok _ _ hu, Res.ok_bind, Slots.wr_ok _ _ (by omega), Res.ok_bind, h.count, Res.ok_bind,
      if_pos (by omega)]
    have : (p ++ e :: q).length + 1 = p.length + 1 + (q.length + 1) := by omega
    rw [this, e0, Res.ok_bind, Slots.rd_ok (by omega) hs01, Res.ok_bind, Slots.wr_ok _ _ (by omega),
      Res.ok_bind, Res.pure_eq, Res.ok_bind]
    dsimp only
    rw [e1', Res.ok_bind, eb, Res.ok_bind, Slots.rd_ok (by omega) hc1, Res.ok_bind,
      Slots.wr_ok _ _ (by omega), Res.ok_bind, this]
    rfl
  · refine ⟨?_, ?_, ?_, ?_, ?_, ?_⟩
    · intro j hj
      by_cases hj0 : j = 0
      · subst hj0; simp; omega
      · simp only [if_neg hj0]
        rw [hs1 j (by simpa using hj)]
        obtain ⟨j', rfl⟩ : ∃ j', j = j' + 1 := ⟨j - 1, by omega⟩
        simp
    · intro x hx
      have hnd := h.nodup
      simp only [List.mem_append, List.mem_cons] at hx
      by_cases hx1 : x = (u, sep, l)
      · subst hx1
        refine ⟨hu, by simp, ?_⟩
        simp only
        rw [if_neg (fun hh => hne hh.symm), if_pos trivial]
      · by_cases hx2 : x = (e.1, e.2.1, r)
        · subst hx2
          refine ⟨he1, ?_, by simp⟩
          simp only
          rw [if_neg hne]
          exact (h.ent e (by simp)).2.1
        · have hin : x ∈ p ++ q := by
            rcases hx with h1 | h1 | h1 | h1
            · exact List.mem_append_left _ h1
            · exact absurd h1 hx1
            · exact absurd h1 hx2
            · exact List.mem_append_right _ h1
          have hin' : x ∈ p ++ e :: q := by
            rcases List.mem_append.1 hin with h1 | h1
            · exact List.mem_append_left _ h1
            · exact List.mem_append_right _ (List.mem_cons_of_mem _ h1)
          have hxu : x.1 ≠ u := fun hh => hnu (hh ▸ List.mem_map_of_mem hin')
          have hxe : x.1 ≠ e.1 := by
            rw [List.map_append, List.map_cons] at hnd
            have := (List.nodup_cons.1 (List.nodup_middle.1 hnd)).1
            intro hh
            rw [← hh, ← List.map_append] at this
            exact this (List.mem_map_of_mem hin)
          simpa [hxu, hxe] using h.ent x hin'
    · have hnd := h.nodup
      rw [List.map_append, List.map_cons] at hnd hnu
      rw [List.map_append, List.map_cons, List.map_cons]
      exact List.nodup_middle.2 (List.nodup_cons.2 ⟨hnu, hnd⟩)
    · intro i hi
      simp only
      rw [hb1 i]
      have hiff := h.bits i hi
      by_cases hiu : i = u
      · subst hiu; simp
      · rw [if_neg hiu, hiff]
        simp [hiu]
    · simp only
      rw [if_neg (by omega), if_neg (by omega)]
      exact h.last
    · simp at hlt ⊢; omega

omit [LinearOrder K] in
/-- A new separator behind all others: its left child is `l`, the last child becomes `r`. -/
theorem add_last (h : BrOK b xs z) (hlt : xs.length < N) (sep : K) (l r : Nat) :
    ∃ b' u, b.add (xs.length + 1) sep l r = .ok b' ∧ BrOK b' (xs ++ [(u, sep, l)]) r := by
  obtain ⟨hu, hnu⟩ := h.free hlt
  generalize hU : b.bits.getFreeZero = u at hu hnu
  obtain ⟨b1, eb, hb1⟩ := bit_set b.bits u true hu
  have hc : b.slot 0 = some xs.length := by simpa using h.slots 0 (by simp)
  refine ⟨⟨fun j => if j = 0 then some (xs.length + 1) else if j = xs.length + 1 then some u else b.slot j,
    b1, fun j => if j = u then some sep else b.keys j,
    fun j => if j = N then some r else if j = u then some l else b.kids j⟩, u, ?_, ?_⟩
  · unfold Branch.add
    dsimp only
    rw [hU, Slots.wr_ok _ _ hu, Res.ok_bind, Slots.wr_ok _ _ (by omega), Res.ok_bind, h.count, Res.ok_bind,
      if_neg (by omega), Slots.wr_ok _ _ (by omega), Res.ok_bind, Res.pure_eq, Res.ok_bind]
    dsimp only
    rw [Slots.wr_ok _ _ (by omega), Res.ok_bind, eb, Res.ok_bind,
      Slots.rd_ok (x := xs.length) (by omega) (by simp [hc]), Res.ok_bind, Slots.wr_ok _ _ (by omega),
      Res.ok_bind]
    rfl
  · refine ⟨?_, ?_, ?_, ?_, ?_, ?_⟩
    · intro j hj
      simp only [List.length_cons, List.length_map, List.length_append, List.length_nil] at hj
      by_cases hj0 : j = 0
      · subst hj0; simp
      · obtain ⟨j', rfl⟩ : ∃ j', j = j' + 1 := ⟨j - 1, by omega⟩
        simp only [if_neg hj0]
        by_cases hj1 : j' = xs.length
        · subst hj1; simp
        · rw [if_neg (by omega), h.slot (by omega)]
          rw [List.getElem?_cons_succ, List.map_append, List.getElem?_append_left (by simp; omega)]
          simp [show j' < xs.length by omega]
    · intro x hx
      rcases List.mem_append.1 hx with h1 | h1
      · have hxu : x.1 ≠ u := fun hh => hnu (hh ▸ List.mem_map_of_mem h1)
        have hxN : x.1 ≠ N := by have := (h.ent x h1).1; omega
        simpa [hxu, hxN] using h.ent x h1
      · rw [List.mem_singleton] at h1
        subst h1
        refine ⟨hu, by simp, ?_⟩
        simp only
        rw [if_neg (by omega), if_pos trivial]
    · rw [List.map_append]
      refine List.nodup_append.2 ⟨h.nodup, by simp, ?_⟩
      intro a ha c hc' hac
      simp at hc'
      subst hc'
      exact hnu (hac ▸ ha)
    · intro i hi
      simp only
      rw [hb1 i]
      by_cases hiu : i = u
      · subst hiu; simp
      · rw [if_neg hiu, h.bits i hi]
        simp [hiu]
    · simp
    · simp; omega

end BrOK

/-! ## Splitting -/

omit [LinearOrder K] in
theorem brMoveOut_ok (src : Branch K N) (mid : Nat) (b : List (Nat × K × Nat))
    (hs : ∀ j (hj : j < b.length), src.slot.rd (N + 1) (mid + j + 1) = .ok b[j].1)
    (hk : ∀ e ∈ b, src.keys.rd N e.1 = .ok e.2.1 ∧ src.kids.rd (N + 1) e.1 = .ok e.2.2)
    (hb : b.length ≤ N) (n : Nat) :
    ∀ (i : Nat) (sib : Branch K N), i + n = b.length →
    ∃ sib', Branch.moveOut src mid i n sib = .ok sib' ∧
      (∀ j, sib'.slot j = if i + 1 ≤ j ∧ j < i + 1 + n then some (j - 1) else sib.slot j) ∧
      (∀ j, sib'.keys j = if i ≤ j ∧ j < i + n then b[j]?.map (·.2.1) else sib.keys j) ∧
      (∀ j, sib'.kids j = if i ≤ j ∧ j < i + n then b[j]?.map (·.2.2) else sib.kids j) ∧
      (∀ p, Bitmap.bit sib'.bits p = if i ≤ p ∧ p < i + n then true else Bitmap.bit sib.bits p) := by
  induction n with
  | zero =>
    intro i sib _
    refine ⟨sib, rfl, ?_, ?_, ?_, ?_⟩ <;> intro j <;> rw [if_neg (by omega)]
  | succ n ih =>
    intro i sib hin
    have hi : i < b.length := by omega
    obtain ⟨b1, eb, hb1⟩ := bit_set sib.bits i true (by omega)
    obtain ⟨k1, k2⟩ := hk b[i] (List.getElem_mem _)
    rw [Branch.moveOut, Slots.wr_ok _ _ (by omega), Res.ok_bind, eb, Res.ok_bind,
      hs i hi, Res.ok_bind, k1, Res.ok_bind, Slots.wr_ok _ _ (by omega), Res.ok_bind, k2, Res.ok_bind,
      Slots.wr_ok _ _ (by omega), Res.ok_bind]
    obtain ⟨sib', e, h1, h2, h3, h4⟩ := ih (i + 1)
      ⟨fun j => if j = i + 1 then some i else sib.slot j, b1,
        fun j => if j = i then some b[i].2.1 else sib.keys j,
        fun j => if j = i then some b[i].2.2 else sib.kids j⟩ (by omega)
    refine ⟨sib', e, ?_, ?_, ?_, ?_⟩
    · intro j
      rw [h1 j]
      by_cases hj : j = i + 1
      · subst hj; rw [if_neg (by omega), if_pos (by omega)]; simp
      · simp only [if_neg hj]
        by_cases hh : i + 1 + 1 ≤ j ∧ j < i + 1 + 1 + n
        · rw [if_pos hh, if_pos (by omega)]
        · rw [if_neg hh, if_neg (by omega)]
    · intro j
      rw [h2 j]
      by_cases hj : j = i
      · subst hj; rw [if_neg (by omega), if_pos (by omega)]; simp [hi]
      · simp only [if_neg hj]
        by_cases hh : i + 1 ≤ j ∧ j < i + 1 + n
        · rw [if_pos hh, if_pos (by omega)]
        · rw [if_neg hh, if_neg (by omega)]
    · intro j
      rw [h3 j]
      by_cases hj : j = i
      · subst hj; rw [if_neg (by omega), if_pos (by omega)]; simp [hi]
      · simp only [if_neg hj]
        by_cases hh : i + 1 ≤ j ∧ j < i + 1 + n
        · rw [if_pos hh, if_pos (by omega)]
        · rw [if_neg hh, if_neg (by omega)]
    · intro j
      rw [h4 j]
      simp only
      rw [hb1 j]
      by_cases hj : j = i
      · subst hj; rw [if_neg (by omega), if_pos rfl, if_pos (by omega)]
      · rw [if_neg hj]
        by_cases hh : i + 1 ≤ j ∧ j < i + 1 + n
        · rw [if_pos hh, if_pos (by omega)]
        · rw [if_neg hh, if_neg (by omega)]

theorem brClear_ok (slot : Slots Nat) (ss : List Nat) (hN : ∀ s ∈ ss, s < N) :
    ∀ (i : Nat) (b : Bitmap N),
    (∀ j (hj : j < ss.length), slot.rd (N + 1) (i + j) = .ok ss[j]) →
    ∃ b', Branch.clear slot i ss.length b = .ok b' ∧
      ∀ p, Bitmap.bit b' p = if p ∈ ss then false else Bitmap.bit b p := by
  induction ss with
  | nil => intro i b _; exact ⟨b, rfl, fun p => by simp⟩
  | cons s ss ih =>
    intro i b hs
    obtain ⟨b1, e1, hb1⟩ := bit_set b s false (hN s (by simp))
    obtain ⟨b2, e2, hb2⟩ := ih (fun x hx => hN x (by simp [hx])) (i + 1) b1 (fun j hj => by
      have := hs (j + 1) (by simp; omega)
      rw [show i + 1 + j = i + (j + 1) by omega, this]; simp)
    refine ⟨b2, ?_, ?_⟩
    · rw [List.length_cons, Branch.clear]
      have : slot.rd (N + 1) i = .ok s := hs 0 (by simp)
      rw [this, Res.ok_bind, Bitmap.reset_eq_set, e1, Res.ok_bind]
      exact e2
    · intro p
      rw [hb2 p, hb1 p]
      by_cases h1 : p ∈ ss
      · simp [h1]
      · by_cases h2 : p = s
        · simp [h2]
        · simp [h1, h2]

/-- A full branch node is split at the entry `e`: the entries in front of it stay, those behind it go to the
sibling, its key goes up and its child is the last one of the left node. -/
theorem BrOK.split {b : Branch K N} {p q : List (Nat × K × Nat)} {e : Nat × K × Nat} {z : Nat}
    (junk : Option Nat) (h : BrOK b (p ++ e :: q) z) (hfull : (p ++ e :: q).length = N) (sep : K)
    {e0 : Nat × K × Nat} (he0 : (p ++ e :: q)[(N + 1) / 2 - 1]? = some e0)
    (hp : p.length + 1 = if e0.2.1 < sep then (N + 1) / 2 + 1 else (N + 1) / 2) :
    ∃ b' sib, b.split junk sep = .ok (b', e.2.1, sib) ∧ BrOK b' p e.2.2 ∧ BrOK sib (renum q) z := by
  have hlen : p.length + 1 + q.length = N := by
    rw [← hfull, List.length_append, List.length_cons]; omega
  have hslot : ∀ j (hj : j < q.length), b.slot.rd (N + 1) (p.length + 1 + j + 1) = .ok q[j].1 := by
    intro j hj
    have := h.rdSlot (i := p.length + 1 + j) (by omega)
    rw [List.getElem_append_right (by omega)] at this
    simp only [show p.length + 1 + j - p.length = j + 1 by omega, List.getElem_cons_succ] at this
    exact this
  have hmem : ∀ x ∈ q, x ∈ p ++ e :: q := fun x hx => List.mem_append_right _ (List.mem_cons_of_mem _ hx)
  obtain ⟨sib, es, r1, r2, r3, r4⟩ := brMoveOut_ok b (p.length + 1) q hslot
    (fun x hx => ⟨h.key (hmem x hx), h.kid (hmem x hx)⟩) (by omega) q.length 0
    ⟨fun j => if j = 0 then some q.length else (Branch.fresh N junk : Branch K N).slot j,
        Bitmap.fresh N, Slots.none, Slots.none⟩ (by omega)
  have hat : b.slot.rd (N + 1) (p.length + 1) = .ok e.1 := h.at_ rfl
  obtain ⟨b1, eb, hb1⟩ := brClear_ok (N := N) b.slot (e.1 :: q.map (·.1))
    (by
      intro s hs
      rcases List.mem_cons.1 hs with rfl | hs
      · exact (h.ent e (by simp)).1
      · obtain ⟨x, hx, rfl⟩ := List.mem_map.1 hs
        exact (h.ent x (hmem x hx)).1)
    (p.length + 1) b.bits
    (by
      intro j hj
      cases j with
      | zero => rw [Nat.add_zero, hat]; rfl
      | succ j =>
        simp only [List.length_cons, List.length_map] at hj
        rw [show p.length + 1 + (j + 1) = p.length + 1 + j + 1 by omega, hslot j (by omega)]
        simp)
  rw [List.length_cons, List.length_map] at eb
  have he := h.ent e (by simp)
  refine ⟨⟨fun j => if j = 0 then some p.length else b.slot j, b1, b.keys,
    fun j => if j = N then some e.2.2 else b.kids j⟩,
    { sib with kids := fun j => if j = N then some z else sib.kids j }, ?_, ?_, ?_⟩
  · have hm : (N + 1) / 2 - 1 < (p ++ e :: q).length := by
      by_contra hh
      rw [List.getElem?_eq_none (by omega)] at he0
      exact absurd he0 (by simp)
    have he0' : (p ++ e :: q)[(N + 1) / 2 - 1] = e0 := by
      rw [List.getElem?_eq_getElem hm] at he0
      exact Option.some.inj he0
    have hsl : b.slot.rd (N + 1) ((N + 1) / 2) = .ok e0.1 := by
      have := h.rdSlot hm
      rw [he0', show (N + 1) / 2 - 1 + 1 = (N + 1) / 2 by omega] at this
      exact this
    have hkey := h.key (e := e0) (he0' ▸ List.getElem_mem hm)
    unfold Branch.split
    rw [hsl, Res.ok_bind, hkey, Res.ok_bind]
    dsimp only
    rw [← hp, h.count, Res.ok_bind, Slots.wr_ok _ _ (by omega), Res.ok_bind]
    rw [show (p ++ e :: q).length - (p.length + 1) = q.length by omega]
    change (Branch.moveOut b (p.length + 1) 0 q.length
      ⟨fun j => if j = 0 then some q.length else (Branch.fresh N junk : Branch K N).slot j,
        Bitmap.fresh N, Slots.none, Slots.none⟩ >>= _) = _
    rw [es, Res.ok_bind, show N + 1 - (p.length + 1) = q.length + 1 by omega, eb, Res.ok_bind,
      Slots.wr_ok _ _ (by omega), Res.ok_bind, Slots.rd_ok (by omega) h.last, Res.ok_bind,
      Slots.wr_ok _ _ (by omega), Res.ok_bind, Nat.add_sub_cancel]
    have hsl2 : Slots.rd (N + 1) (fun j => if j = 0 then some p.length else b.slot j) (p.length + 1)
        = .ok e.1 := by
      refine Slots.rd_ok (by omega) ?_
      rw [if_neg (by omega)]
      have := h.slot (i := p.length) (by simp)
      rw [this]
      simp
    rw [hsl2, Res.ok_bind, h.kid (by simp), Res.ok_bind, Slots.wr_ok _ _ (by omega), Res.ok_bind,
      h.key (by simp), Res.ok_bind]
    rfl
  · have hnd := h.nodup
    rw [List.map_append, List.map_cons, List.nodup_append] at hnd
    refine ⟨?_, ?_, hnd.1, ?_, ?_, by omega⟩
    · intro j hj
      simp only [List.length_cons, List.length_map] at hj
      by_cases hj0 : j = 0
      · subst hj0; simp
      · obtain ⟨j', rfl⟩ : ∃ j', j = j' + 1 := ⟨j - 1, by omega⟩
        simp only [if_neg hj0]
        rw [h.slot (by simp; omega), List.getElem?_cons_succ, List.getElem_append_left (by omega)]
        simp [show j' < p.length by omega]
    · intro x hx
      have hx' := h.ent x (List.mem_append_left _ hx)
      refine ⟨hx'.1, hx'.2.1, ?_⟩
      simp only
      rw [if_neg (by omega)]
      exact hx'.2.2
    · intro i hi
      simp only
      rw [hb1 i]
      have hb := h.bits i hi
      rw [List.map_append, List.map_cons, List.mem_append] at hb
      by_cases hh : i ∈ e.1 :: q.map (·.1)
      · rw [if_pos hh]
        simp only [Bool.false_eq_true, false_iff]
        intro hpi
        exact hnd.2.2 i hpi i hh rfl
      · rw [if_neg hh, hb]
        exact ⟨fun h1 => h1.resolve_right hh, Or.inl⟩
    · simp
  · refine ⟨?_, ?_, ?_, ?_, ?_, by rw [renum_length]; omega⟩
    · intro j hj
      simp only [List.length_cons, List.length_map, renum_length] at hj
      by_cases hj0 : j = 0
      · subst hj0
        dsimp only
        rw [r1 0, if_neg (by omega)]
        simp [renum_length]
      · obtain ⟨j', rfl⟩ : ∃ j', j = j' + 1 := ⟨j - 1, by omega⟩
        dsimp only
        rw [r1 (j' + 1), if_pos (by omega), List.getElem?_cons_succ, renum_fst,
          List.getElem?_range (by omega)]
        rfl
    · intro x hx
      obtain ⟨hx1, hx2⟩ := mem_renum.1 hx
      refine ⟨by omega, ?_, ?_⟩
      · dsimp only
        rw [r2 x.1, if_pos (by omega), List.getElem?_eq_getElem hx1, hx2]
        rfl
      · dsimp only
        rw [if_neg (by omega), r3 x.1, if_pos (by omega), List.getElem?_eq_getElem hx1, hx2]
        rfl
    · rw [renum_fst]; exact List.nodup_range
    · intro i hi
      dsimp only
      rw [r4 i, renum_fst, List.mem_range]
      by_cases hh : 0 ≤ i ∧ i < 0 + q.length
      · rw [if_pos hh]; simp; omega
      · rw [if_neg hh]
        simp only [bit_fresh, Bool.false_eq_true, false_iff]
        omega
    · simp

end Verif.WBTree
