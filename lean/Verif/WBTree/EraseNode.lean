import Verif.WBTree.Erase

/-!
# wBPTree.hpp and wHBPTree.hpp: merging and balancing leaves, removing a child

What the node operations of erase do to the entries of the nodes.
-/

namespace Verif.WBTree

variable {K V : Type} [LinearOrder K] {N M : Nat}

/-- The leaf holds the entries `es` at their positions; nothing is said about the slots. -/
structure LeafEnt (l : Leaf K V M) (es : List (Nat × K × V)) : Prop where
  ent : ∀ e ∈ es, e.1 < M ∧ l.keys e.1 = some e.2.1 ∧ l.vals e.1 = some e.2.2
  nodup : (es.map (·.1)).Nodup
  bits : ∀ p < M, Bitmap.bit l.bits p = true ↔ p ∈ es.map (·.1)

theorem LeafOK.leafEnt {l : Leaf K V M} {es : List (Nat × K × V)} (h : LeafOK l es) : LeafEnt l es :=
  ⟨h.ent, h.nodup, h.bits⟩

omit [LinearOrder K] in
theorem LeafEnt.free {l : Leaf K V M} {es : List (Nat × K × V)} (h : LeafEnt l es) (hlt : es.length < M) :
    l.bits.getFreeZero < M ∧ l.bits.getFreeZero ∉ es.map (·.1) := by
  rcases Bitmap.getFreeZero_spec l.bits with ⟨h1, h2, _⟩ | ⟨_, h2⟩
  · exact ⟨h1, fun hm => by rw [(h.bits _ h1).2 hm] at h2; exact absurd h2 (by simp)⟩
  · exfalso
    have hsub : Finset.range M ⊆ (es.map (·.1)).toFinset := by
      intro p hp
      rw [List.mem_toFinset]
      exact (h.bits p (Finset.mem_range.1 hp)).1 (h2 p (Finset.mem_range.1 hp))
    have h3 := Finset.card_le_card hsub
    have h4 := List.toFinset_card_le (es.map (·.1))
    rw [Finset.card_range] at h3
    rw [List.length_map] at h4
    omega

omit [LinearOrder K] in
/-- Copying entries from one leaf to another. -/
theorem take_ok (src : Leaf K V M) : ∀ (xs : List (Nat × K × V)) (i j : Nat) (dst : Leaf K V M) (bits : Bitmap M)
    (es : List (Nat × K × V)), LeafEnt dst es → es.length + xs.length ≤ M → j + xs.length ≤ M + 1 →
    (∀ n (hn : n < xs.length), src.slot.rd (M + 1) (i + n) = .ok xs[n].1) →
    (∀ e ∈ xs, src.keys.rd M e.1 = .ok e.2.1 ∧ src.vals.rd M e.1 = .ok e.2.2) →
    ∃ dst' bits' xs', Leaf.take src i j xs.length dst bits = .ok (dst', bits') ∧
      xs'.map (·.2) = xs.map (·.2) ∧ LeafEnt dst' (es ++ xs') ∧
      (∀ q, dst'.slot q = if j ≤ q ∧ q < j + xs.length then xs'[q - j]?.map (·.1) else dst.slot q) ∧
      ∀ p, Bitmap.bit bits' p = if p ∈ xs.map (·.1) then false else Bitmap.bit bits p := by
  intro xs
  induction xs with
  | nil =>
    intro i j dst bits es h _ _ _ _
    exact ⟨dst, bits, [], rfl, rfl, by simpa using h, fun q => by rw [if_neg (by simp)], fun p => by simp⟩
  | cons x xs ih =>
    intro i j dst bits es h hle hj hs hk
    simp only [List.length_cons] at hle hj
    obtain ⟨hu, hnu⟩ := h.free (by omega)
    obtain ⟨k1, k2⟩ := hk x (by simp)
    have hxM : x.1 < M := by
      by_contra hc
      unfold Slots.rd at k1
      rw [if_neg hc] at k1
      exact absurd k1 (by simp)
    obtain ⟨b1, eb, hb1⟩ := bit_set dst.bits dst.bits.getFreeZero true hu
    obtain ⟨b2, eb2, hb2⟩ := bit_set bits x.1 false hxM
    have hs0 := hs 0 (by simp)
    simp only [Nat.add_zero, List.getElem_cons_zero] at hs0
    generalize hU : dst.bits.getFreeZero = u at hu hnu eb hb1
    let dst1 : Leaf K V M := ⟨fun q => if q = j then some u else dst.slot q, b1,
      fun q => if q = u then some x.2.1 else dst.keys q, fun q => if q = u then some x.2.2 else dst.vals q⟩
    have h1 : LeafEnt dst1 (es ++ [(u, x.2)]) := by
      refine ⟨?_, ?_, ?_⟩
      · intro e he
        rw [List.mem_append, List.mem_singleton] at he
        rcases he with he | rfl
        · have hne : e.1 ≠ u := fun hh => hnu (hh ▸ List.mem_map_of_mem he)
          simpa [dst1, hne] using h.ent e he
        · simp [dst1, hu]
      · rw [List.map_append, List.nodup_append]
        refine ⟨h.nodup, by simp, ?_⟩
        intro a ha b hb
        simp only [List.map_cons, List.map_nil, List.mem_singleton] at hb
        subst hb
        rintro rfl
        exact hnu ha
      · intro p hp
        show Bitmap.bit b1 p = true ↔ _
        rw [hb1 p]
        by_cases hpu : p = u
        · subst hpu; simp
        · rw [if_neg hpu, h.bits p hp]
          simp [hpu]
    obtain ⟨dst', bits', xs', e, g1, g2, g3, g4⟩ := ih (i + 1) (j + 1) dst1 b2 (es ++ [(u, x.2)]) h1
      (by simp; omega) (by omega) (by
        intro n hn
        have := hs (n + 1) (by simpa using hn)
        simpa [Nat.add_assoc, Nat.add_comm 1] using this) (fun e he => hk e (by simp [he]))
    refine ⟨dst', bits', (u, x.2) :: xs', ?_, ?_, ?_, ?_, ?_⟩
    · rw [List.length_cons, Leaf.take]
      simp only [hU]
      rw [hs0, Res.ok_bind, k1, Res.ok_bind, Slots.wr_ok _ _ hu, Res.ok_bind, k2, Res.ok_bind,
        Slots.wr_ok _ _ hu, Res.ok_bind, Slots.wr_ok _ _ (by omega), Res.ok_bind, eb, Res.ok_bind,
        Bitmap.reset_eq_set, eb2, Res.ok_bind]
      exact e
    · simp [g1]
    · simpa using g2
    · intro q
      rw [g3 q]
      simp only [List.length_cons]
      by_cases hq : q = j
      · subst hq
        rw [if_neg (by omega), if_pos (by omega), Nat.sub_self]
        simp [dst1]
      · by_cases hh : j + 1 ≤ q ∧ q < j + 1 + xs.length
        · rw [if_pos hh, if_pos (by omega)]
          obtain ⟨q', rfl⟩ : ∃ q', q = j + 1 + q' := ⟨q - (j + 1), by omega⟩
          rw [show j + 1 + q' - j = q' + 1 by omega, List.getElem?_cons_succ,
            show j + 1 + q' - (j + 1) = q' by omega]
        · rw [if_neg hh, if_neg (by omega)]
          simp [dst1, hq]
    · intro p
      rw [g4 p, hb2 p]
      by_cases hp : p = x.1
      · subst hp; simp
      · rw [if_neg hp]
        have : p ∈ (x :: xs).map (·.1) ↔ p ∈ xs.map (·.1) := by
          rw [List.map_cons, List.mem_cons]
          exact ⟨fun h => h.resolve_left hp, Or.inr⟩
        by_cases hh : p ∈ xs.map (·.1)
        · rw [if_pos hh, if_pos (this.2 hh)]
        · rw [if_neg hh, if_neg (fun h => hh (this.1 h))]

theorem LeafOK.slot_rd {l : Leaf K V M} {A B : List (Nat × K × V)} (h : LeafOK l (A ++ B)) :
    ∀ n (hn : n < B.length), l.slot.rd (M + 1) (A.length + 1 + n) = .ok B[n].1 := by
  intro n hn
  have := h.slot (i := A.length + n) (by simp; omega)
  rw [show A.length + 1 + n = A.length + n + 1 by omega, this]
  congr 1
  rw [List.getElem_append_right (by omega)]
  simp

/-- Two neighbouring leaves are merged. -/
theorem LeafOK.merge {l1 l2 : Leaf K V M} {es1 es2 : List (Nat × K × V)} (h1 : LeafOK l1 es1) (h2 : LeafOK l2 es2)
    (hle : es1.length + es2.length ≤ M) (hlt : ∀ x ∈ es1, ∀ y ∈ es2, x.2.1 < y.2.1) :
    ∃ l es2', l1.merge l2 = .ok l ∧ es2'.map (·.2) = es2.map (·.2) ∧ LeafOK l (es1 ++ es2') := by
  obtain ⟨l, bits, xs, e, g1, g2, g3, _⟩ := take_ok l2 es2 1 (es1.length + 1) l1 l2.bits es1 h1.leafEnt hle
    (by omega) (fun n hn => by
      have := LeafOK.slot_rd (A := []) (B := es2) h2 n hn
      simpa using this) (fun x hx => ⟨h2.key hx, h2.val hx⟩)
  have hlen : xs.length = es2.length := by simpa using congrArg List.length g1
  refine ⟨{ l with slot := fun q => if q = 0 then some (es1.length + es2.length) else l.slot q }, xs, ?_, g1, ?_⟩
  · unfold Leaf.merge
    rw [h1.count, Res.ok_bind, h2.count, Res.ok_bind, if_pos hle, e, Res.ok_bind]
    dsimp only
    rw [Slots.wr_ok _ _ (by omega), Res.ok_bind, Res.pure_eq]
  · refine ⟨?_, g2.ent, g2.nodup, g2.bits, ?_, by simp; omega⟩
    · intro q hq
      simp only [List.length_cons, List.length_map, List.length_append] at hq
      by_cases hq0 : q = 0
      · subst hq0; simp [hlen]
      · obtain ⟨q', rfl⟩ : ∃ q', q = q' + 1 := ⟨q - 1, by omega⟩
        simp only [if_neg hq0, List.getElem?_cons_succ, List.map_append]
        rw [g3]
        by_cases hc : q' < es1.length
        · rw [if_neg (by omega), h1.slots _ (by simp; omega), List.getElem?_cons_succ,
            List.getElem?_append_left (by simpa using hc)]
        · rw [if_pos (by omega), List.getElem?_append_right (by simp; omega), List.getElem?_map]
          congr 2
          simp
    · have hx : ∀ P : K × V → K × V → Prop, xs.Pairwise (fun a b => P a.2 b.2) ↔ es2.Pairwise (fun a b => P a.2 b.2) := by
        intro P
        have := @List.pairwise_map _ _ (fun e : Nat × K × V => e.2) P xs
        rw [← this, g1, List.pairwise_map]
      rw [List.pairwise_append]
      refine ⟨h1.sorted, (hx (fun a b => a.1 < b.1)).2 h2.sorted, ?_⟩
      intro a ha b hb
      have : b.2 ∈ es2.map (·.2) := by rw [← g1]; exact List.mem_map_of_mem hb
      obtain ⟨b', hb', hbb⟩ := List.mem_map.1 this
      rw [← hbb]
      exact hlt a ha b' hb'

/-- Balancing from a left neighbour: the end of the donor's entries becomes the start of the receiver's. -/
theorem LeafOK.balance_larger {donor recv : Leaf K V M} {A B es : List (Nat × K × V)}
    (h1 : LeafOK donor (A ++ B)) (h2 : LeafOK recv es) (hne : es ≠ []) (hAB : es.length < (A ++ B).length)
    (hA : A.length = ((A ++ B).length + es.length) / 2)
    (hlt : ∀ x ∈ A ++ B, ∀ y ∈ es, x.2.1 < y.2.1) :
    ∃ donor' recv' B', donor.balance recv = .ok (donor', recv') ∧ B'.map (·.2) = B.map (·.2) ∧
      LeafOK donor' A ∧ LeafOK recv' (B' ++ es) := by
  have hlen : (A ++ B).length = A.length + B.length := List.length_append
  have hMle := h1.le
  obtain ⟨y, es', rfl⟩ := List.exists_cons_of_ne_nil hne
  have hA0 : A ≠ [] := by
    rintro rfl
    simp at hA
    have : 0 < (B.length + (es'.length + 1)) / 2 := by simp at hAB; omega
    omega
  obtain ⟨x, A', rfl⟩ := List.exists_cons_of_ne_nil hA0
  have hB : (x :: A' ++ B).length - ((x :: A' ++ B).length + (y :: es').length) / 2 = B.length := by
    rw [← hA, hlen]; omega
  have hB0 : B.length ≠ 0 := by omega
  obtain ⟨s1, es1, hs1⟩ := Slots.moveUp_ok (M + 1) 1 B.length (by omega) ((y :: es').length + 1) recv.slot
    (by omega) (by omega) (fun i hi1 hi2 => by
      rw [h2.slots i (by simp at hi2 ⊢; omega)]
      rw [List.getElem?_eq_getElem (by simp at hi2 ⊢; omega)]
      rfl)
  have hent : LeafEnt ({ recv with slot := s1 } : Leaf K V M) (y :: es') := ⟨h2.ent, h2.nodup, h2.bits⟩
  obtain ⟨r, bits, B', e, g1, g2, g3, g4⟩ := take_ok donor B ((x :: A').length + 1) 1 _ donor.bits (y :: es') hent
    (by omega) (by omega) h1.slot_rd (fun e he => ⟨h1.key (by simp [he]), h1.val (by simp [he])⟩)
  have hBl : B'.length = B.length := by simpa using congrArg List.length g1
  have hk1 : donor.slot.rd (M + 1) 1 = .ok x.1 := h1.slot (i := 0) (by simp)
  have hk2 : recv.slot.rd (M + 1) 1 = .ok y.1 := h2.slot (i := 0) (by simp)
  have hxy : x.2.1 < y.2.1 := hlt x (by simp) y (by simp)
  refine ⟨{ donor with slot := fun q => if q = 0 then some (x :: A').length else donor.slot q, bits := bits },
    { r with slot := fun q => if q = 0 then some ((y :: es').length + B.length) else r.slot q }, B', ?_, g1, ?_, ?_⟩
  · unfold Leaf.balance
    rw [h1.count, Res.ok_bind, h2.count, Res.ok_bind, if_pos hAB]
    dsimp only
    rw [hB, if_neg hB0, hk1, Res.ok_bind, h1.key (by simp), Res.ok_bind, hk2, Res.ok_bind, h2.key (by simp), Res.ok_bind,
      if_pos hxy, es1, Res.ok_bind, ← hA, e, Res.ok_bind]
    dsimp only
    rw [Res.pure_eq, Res.ok_bind]
    dsimp only
    rw [Slots.wr_ok _ _ (by omega), Res.ok_bind, Slots.wr_ok _ _ (by omega), Res.ok_bind, Res.pure_eq, hlen,
      Nat.add_sub_cancel]
  · have hsub : (x :: A').Sublist (x :: A' ++ B) := List.sublist_append_left _ _
    have hnd := h1.nodup
    rw [List.map_append, List.nodup_append] at hnd
    refine ⟨?_, fun e he => h1.ent e (hsub.subset he), hnd.1, ?_, h1.sorted.sublist hsub, by omega⟩
    · intro q hq
      simp only [List.length_cons, List.length_map] at hq
      by_cases hq0 : q = 0
      · subst hq0; simp
      · simp only [if_neg hq0]
        rw [h1.slots q (by simp; omega)]
        obtain ⟨q', rfl⟩ : ∃ q', q = q' + 1 := ⟨q - 1, by omega⟩
        rw [List.getElem?_cons_succ, List.getElem?_cons_succ, List.map_append,
          List.getElem?_append_left (by simp; omega)]
    · intro p hp
      show Bitmap.bit bits p = true ↔ _
      rw [g4 p]
      have := h1.bits p hp
      rw [List.map_append, List.mem_append] at this
      by_cases hpB : p ∈ B.map (·.1)
      · rw [if_pos hpB]
        simp only [Bool.false_eq_true, false_iff]
        exact fun hpA => hnd.2.2 p hpA p hpB rfl
      · rw [if_neg hpB, this]
        exact ⟨fun h => h.resolve_right hpB, Or.inl⟩
  · have hperm : ((y :: es') ++ B').Perm (B' ++ (y :: es')) := List.perm_append_comm
    refine ⟨?_, fun e he => g2.ent e (hperm.mem_iff.2 he), (hperm.map (·.1)).nodup_iff.1 g2.nodup, ?_, ?_, ?_⟩
    · intro q hq
      simp only [List.length_cons, List.length_map, List.length_append] at hq
      by_cases hq0 : q = 0
      · subst hq0; simp [hBl, Nat.add_comm]
      · obtain ⟨q', rfl⟩ : ∃ q', q = q' + 1 := ⟨q - 1, by omega⟩
        simp only [if_neg hq0, List.getElem?_cons_succ, List.map_append]
        rw [g3]
        by_cases hc : q' < B'.length
        · rw [if_pos (by omega), List.getElem?_append_left (by simpa using hc), List.getElem?_map,
            Nat.add_sub_cancel]
        · rw [if_neg (by omega)]
          show s1 (q' + 1) = _
          rw [hs1, if_pos (by simp; omega), h2.slots _ (by simp; omega),
            List.getElem?_append_right (by simp; omega)]
          rw [show q' + 1 - B.length = q' - B.length + 1 by omega, List.getElem?_cons_succ]
          congr 1
          simp [hBl]
    · intro p hp
      show Bitmap.bit r.bits p = true ↔ _
      rw [g2.bits p hp]
      exact (hperm.map (·.1)).mem_iff
    · have hx : ∀ P : K × V → K × V → Prop, B'.Pairwise (fun a b => P a.2 b.2) ↔ B.Pairwise (fun a b => P a.2 b.2) := by
        intro P
        have := @List.pairwise_map _ _ (fun e : Nat × K × V => e.2) P B'
        rw [← this, g1, List.pairwise_map]
      have hsrt := h1.sorted
      rw [List.pairwise_append] at hsrt
      rw [List.pairwise_append]
      refine ⟨(hx (fun a b => a.1 < b.1)).2 hsrt.2.1, h2.sorted, ?_⟩
      intro a ha b hb
      have : a.2 ∈ B.map (·.2) := by rw [← g1]; exact List.mem_map_of_mem ha
      obtain ⟨a', ha', haa⟩ := List.mem_map.1 this
      rw [← haa]
      exact hlt a' (by simp [ha']) b hb
    · simp only [List.length_append, List.length_cons] at hA hAB hlen hMle ⊢
      omega

/-! ## Branch nodes -/

theorem BrOK.rd_at {b : Branch K N} {A B : List (Nat × K × Nat)} {e : Nat × K × Nat} {z : Nat}
    (h : BrOK b (A ++ e :: B) z) : b.slot.rd (N + 1) (A.length + 1) = .ok e.1 := h.at_ rfl

/-- A separator is removed together with the child left of it; the child right of it becomes `c`. -/
theorem BrOK.dropSlot {b : Branch K N} {A B : List (Nat × K × Nat)} {e : Nat × K × Nat} {z : Nat}
    (h : BrOK b (A ++ e :: B) z) (c : Nat) :
    ∃ b', b.dropSlot (A.length + 1) c = .ok b' ∧ BrOK b' (A ++ (setF B z c).1) (setF B z c).2 ∧
      (∀ i x, b'.kids i = some x → x = c ∨ b.kids i = some x) ∧
      ∀ i, (∃ x, b.kids i = some x) → ∃ x, b'.kids i = some x := by
  have hlen : (A ++ e :: B).length = A.length + B.length + 1 := by simp; omega
  have hle := h.le
  have heN := (h.ent e (by simp)).1
  obtain ⟨b1, eb, hb1⟩ := bit_set b.bits e.1 false heN
  obtain ⟨s1, es1, hs1⟩ := Slots.moveDown_ok (N + 1) 1 (by omega) B.length (A.length + 1) b.slot (by omega)
    (fun i hi1 hi2 => by
      rw [h.slots i (by simp; omega), List.getElem?_eq_getElem (by simp; omega)]
      rfl)
  have hnd := h.nodup
  rw [List.map_append, List.map_cons, List.nodup_middle, List.nodup_cons, ← List.map_append] at hnd
  -- the new list of entries without the change of the child
  have hrep : ∀ j < A.length + B.length, s1 (j + 1) = ((A ++ B).map (·.1))[j]? := by
    intro j hj
    rw [hs1 (j + 1), List.map_append]
    by_cases hc : j < A.length
    · rw [if_neg (by omega), h.slots _ (by simp; omega), List.getElem?_cons_succ, List.map_append,
        List.getElem?_append_left (by simpa using hc), List.getElem?_append_left (by simpa using hc)]
    · rw [if_pos (by omega), h.slots _ (by simp; omega), List.getElem?_cons_succ, List.map_append,
        List.getElem?_append_right (by simp; omega), List.getElem?_append_right (by simp; omega), List.map_cons]
      rw [show j + 1 - (A.map (·.1)).length = j - (A.map (·.1)).length + 1 by simp; omega,
        List.getElem?_cons_succ]
  have hbits : ∀ p < N, Bitmap.bit b1 p = true ↔ p ∈ (A ++ B).map (·.1) := by
    intro p hp
    rw [hb1 p]
    have := h.bits p hp
    by_cases hps : p = e.1
    · rw [if_pos hps, hps]
      simp only [Bool.false_eq_true, false_iff]
      exact hnd.1
    · rw [if_neg hps, this]
      simp [hps]
  have hmem : ∀ x ∈ A ++ B, x ∈ A ++ e :: B := by
    intro x hx
    rcases List.mem_append.1 hx with hx | hx
    · simp [hx]
    · simp [hx]
  have hrun : ∀ sur, (if A.length + 1 = (A ++ e :: B).length then pure N else s1.rd (N + 1) (A.length + 1)) =
      Res.ok sur → sur < N + 1 → b.dropSlot (A.length + 1) c = .ok { b with
        slot := fun j => if j = 0 then some (A.length + B.length) else s1 j, bits := b1,
        kids := fun j => if j = sur then some c else b.kids j } := by
    intro sur hsur hlt
    unfold Branch.dropSlot Branch.count
    rw [h.count, Res.ok_bind, h.rd_at, Res.ok_bind, Bitmap.reset_eq_set, eb, Res.ok_bind,
      show (A ++ e :: B).length - (A.length + 1) = B.length by omega, es1, Res.ok_bind, hsur, Res.ok_bind,
      Slots.wr_ok _ _ hlt, Res.ok_bind, Slots.wr_ok _ _ (by omega), Res.ok_bind, Res.pure_eq,
      show (A ++ e :: B).length - 1 = A.length + B.length by omega]
  have hkids : ∀ sur, (∀ i x, (fun j => if j = sur then some c else b.kids j) i = some x → x = c ∨ b.kids i = some x) ∧
      ∀ i, (∃ x, b.kids i = some x) → ∃ x, (fun j => if j = sur then some c else b.kids j) i = some x := by
    intro sur
    constructor
    · intro i x hx
      dsimp only at hx
      split at hx
      · exact Or.inl (Option.some.inj hx).symm
      · exact Or.inr hx
    · intro i hi
      dsimp only
      split
      · exact ⟨c, rfl⟩
      · exact hi
  cases B with
  | nil =>
    refine ⟨_, hrun N (by rw [if_pos (by simp)]; rfl) (by omega), ?_, hkids N⟩
    simp only [setF, List.append_nil] at hrep hbits hnd ⊢
    refine ⟨?_, ?_, hnd.2, hbits, by simp, by simp at hle ⊢; omega⟩
    · intro j hj
      by_cases hj0 : j = 0
      · subst hj0; simp
      · obtain ⟨j', rfl⟩ : ∃ j', j = j' + 1 := ⟨j - 1, by omega⟩
        simp only [List.length_cons, List.length_map] at hj
        simp only [if_neg hj0, List.getElem?_cons_succ]
        exact hrep j' (by simp; omega)
    · intro x hx
      obtain ⟨k1, k2, k3⟩ := h.ent x (by simp [hx])
      refine ⟨k1, k2, ?_⟩
      show (if x.1 = N then some c else b.kids x.1) = _
      rw [if_neg (by omega), k3]
  | cons f B =>
    have hs2 : s1.rd (N + 1) (A.length + 1) = .ok f.1 := by
      refine Slots.rd_ok (by omega) ?_
      have := hrep A.length (by simp)
      rw [this]
      simp
    have hfN := (h.ent f (by simp)).1
    refine ⟨_, hrun f.1 (by rw [if_neg (by simp), hs2]) (by omega), ?_, hkids f.1⟩
    simp only [setF]
    have hfst : (A ++ (f.1, f.2.1, c) :: B).map (·.1) = (A ++ f :: B).map (·.1) := by simp
    have hnd2 := hnd.2
    rw [List.map_append, List.map_cons, List.nodup_middle, List.nodup_cons, ← List.map_append] at hnd2
    refine ⟨?_, ?_, by rw [hfst]; exact hnd.2, by rw [hfst]; exact hbits, ?_, by simp at hle ⊢; omega⟩
    · intro j hj
      rw [hfst]
      by_cases hj0 : j = 0
      · subst hj0; simp
      · obtain ⟨j', rfl⟩ : ∃ j', j = j' + 1 := ⟨j - 1, by omega⟩
        simp only [List.length_cons, List.length_map, List.length_append] at hj
        simp only [if_neg hj0, List.getElem?_cons_succ]
        exact hrep j' (by simp; omega)
    · intro x hx
      have hx' : x = (f.1, f.2.1, c) ∨ x ∈ A ++ B := by
        simp only [List.mem_append, List.mem_cons] at hx ⊢
        tauto
      rcases hx' with rfl | hx'
      · obtain ⟨k1, k2, _⟩ := h.ent f (by simp)
        exact ⟨k1, k2, by simp⟩
      · obtain ⟨k1, k2, k3⟩ := h.ent x (by
          simp only [List.mem_append, List.mem_cons] at hx' ⊢
          tauto)
        refine ⟨k1, k2, ?_⟩
        show (if x.1 = f.1 then some c else b.kids x.1) = _
        rw [if_neg (fun hh => hnd2.1 (by rw [← hh]; exact List.mem_map_of_mem hx')), k3]
    · show (if N = f.1 then some c else b.kids N) = _
      rw [if_neg (by omega), h.last]

/-- A separator is replaced. -/
theorem BrOK.setKey {b : Branch K N} {A B : List (Nat × K × Nat)} {e : Nat × K × Nat} {z : Nat}
    (h : BrOK b (A ++ e :: B) z) (k : K) :
    ∃ b', b.setKey (A.length + 1) k = .ok b' ∧ BrOK b' (A ++ (e.1, k, e.2.2) :: B) z ∧ b'.kids = b.kids := by
  obtain ⟨heN, _, he3⟩ := h.ent e (by simp)
  refine ⟨{ b with keys := fun j => if j = e.1 then some k else b.keys j }, ?_, ?_, rfl⟩
  · unfold Branch.setKey
    rw [h.rd_at, Res.ok_bind, Slots.wr_ok _ _ heN, Res.ok_bind, Res.pure_eq]
  · have hfst : (A ++ (e.1, k, e.2.2) :: B).map (·.1) = (A ++ e :: B).map (·.1) := by simp
    have hnd2 := h.nodup
    rw [List.map_append, List.map_cons, List.nodup_middle, List.nodup_cons, ← List.map_append] at hnd2
    refine ⟨?_, ?_, by rw [hfst]; exact h.nodup, by rw [hfst]; exact h.bits, h.last, by simpa using h.le⟩
    · have := h.slots
      rw [hfst]
      simpa using this
    · intro x hx
      have hx' : x = (e.1, k, e.2.2) ∨ x ∈ A ++ B := by
        simp only [List.mem_append, List.mem_cons] at hx ⊢
        tauto
      rcases hx' with rfl | hx'
      · exact ⟨heN, by simp, he3⟩
      · obtain ⟨k1, k2, k3⟩ := h.ent x (by
          simp only [List.mem_append, List.mem_cons] at hx' ⊢
          tauto)
        refine ⟨k1, ?_, k3⟩
        show (if x.1 = e.1 then some k else b.keys x.1) = _
        rw [if_neg (fun hh => hnd2.1 (by rw [← hh]; exact List.mem_map_of_mem hx')), k2]

end Verif.WBTree
