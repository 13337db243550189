import Verif.WBTree.EraseNode

/-!
# wBPTree.hpp and wHBPTree.hpp: balancing and merging branch nodes

What `balanceBranchNodes` and `mergeBranchNodes` do to the separators and children of the nodes.
-/

namespace Verif.WBTree

variable {K : Type} [LinearOrder K] {N : Nat}

/-- The node holds the separators and children `xs` at their positions; nothing is said about the slots. -/
structure BrEnt (b : Branch K N) (xs : List (Nat × K × Nat)) : Prop where
  ent : ∀ e ∈ xs, e.1 < N ∧ b.keys e.1 = some e.2.1 ∧ b.kids e.1 = some e.2.2
  nodup : (xs.map (·.1)).Nodup
  bits : ∀ p < N, Bitmap.bit b.bits p = true ↔ p ∈ xs.map (·.1)

omit [LinearOrder K] in
theorem BrOK.brEnt {b : Branch K N} {xs : List (Nat × K × Nat)} {z : Nat} (h : BrOK b xs z) : BrEnt b xs :=
  ⟨h.ent, h.nodup, h.bits⟩

omit [LinearOrder K] in
theorem BrEnt.free {b : Branch K N} {xs : List (Nat × K × Nat)} (h : BrEnt b xs) (hlt : xs.length < N) :
    b.bits.getFreeZero < N ∧ b.bits.getFreeZero ∉ xs.map (·.1) := by
  rcases Bitmap.getFreeZero_spec b.bits with ⟨h1, h2, _⟩ | ⟨_, h2⟩
  · exact ⟨h1, fun hm => by rw [(h.bits _ h1).2 hm] at h2; exact absurd h2 (by simp)⟩
  · exfalso
    have hsub : Finset.range N ⊆ (xs.map (·.1)).toFinset := by
      intro p hp
      rw [List.mem_toFinset]
      exact (h.bits p (Finset.mem_range.1 hp)).1 (h2 p (Finset.mem_range.1 hp))
    have h3 := Finset.card_le_card hsub
    have h4 := List.toFinset_card_le (xs.map (·.1))
    rw [Finset.card_range] at h3
    rw [List.length_map] at h4
    omega

omit [LinearOrder K] in
theorem BrEnt.put {b : Branch K N} {xs : List (Nat × K × Nat)} (h : BrEnt b xs) (hlt : xs.length < N) {j : Nat}
    (hj : j < N + 1) (k : K) (c : Nat) :
    ∃ b' u, b.put j k c = .ok b' ∧ BrEnt b' (xs ++ [(u, k, c)]) ∧
      (∀ q, b'.slot q = if q = j then some u else b.slot q) ∧ b'.kids N = b.kids N := by
  obtain ⟨hu, hnu⟩ := h.free hlt
  obtain ⟨b1, eb, hb1⟩ := bit_set b.bits b.bits.getFreeZero true hu
  refine ⟨⟨fun q => if q = j then some b.bits.getFreeZero else b.slot q, b1,
    fun q => if q = b.bits.getFreeZero then some k else b.keys q,
    fun q => if q = b.bits.getFreeZero then some c else b.kids q⟩, b.bits.getFreeZero, ?_, ?_, fun q => rfl, ?_⟩
  · unfold Branch.put
    dsimp only
    rw [Slots.wr_ok _ _ hu, Res.ok_bind, Slots.wr_ok _ _ (by omega), Res.ok_bind, Slots.wr_ok _ _ hj, Res.ok_bind, eb,
      Res.ok_bind, Res.pure_eq]
  · generalize b.bits.getFreeZero = u at hu hnu eb hb1
    refine ⟨?_, ?_, ?_⟩
    · intro e he
      rw [List.mem_append, List.mem_singleton] at he
      rcases he with he | rfl
      · have hne : e.1 ≠ u := fun hh => hnu (hh ▸ List.mem_map_of_mem he)
        simpa [hne] using h.ent e he
      · simp [hu]
    · rw [List.map_append, List.nodup_append]
      refine ⟨h.nodup, by simp, ?_⟩
      intro a ha b hb
      simp only [List.map_cons, List.map_nil, List.mem_singleton] at hb
      subst hb
      rintro rfl
      exact hnu ha
    · intro p hp
      show Bitmap.bit b1 p = true ↔ _
      rw [hb1 p]
      by_cases hpu : p = u
      · subst hpu; simp
      · rw [if_neg hpu, h.bits p hp]
        simp [hpu]
  · show (if N = b.bits.getFreeZero then some c else b.kids N) = b.kids N
    rw [if_neg (by omega)]

omit [LinearOrder K] in
/-- Copying separators with their children to another node. -/
theorem takeBr_ok (src : Branch K N) : ∀ (xs : List (Nat × K × Nat)) (i j : Nat) (dst : Branch K N) (bits : Bitmap N)
    (es : List (Nat × K × Nat)), BrEnt dst es → es.length + xs.length ≤ N → j + xs.length ≤ N + 1 →
    (∀ n (hn : n < xs.length), src.slot.rd (N + 1) (i + n) = .ok xs[n].1) →
    (∀ e ∈ xs, src.keys.rd N e.1 = .ok e.2.1 ∧ src.kids.rd (N + 1) e.1 = .ok e.2.2) →
    ∃ dst' bits' xs', Branch.take src i j xs.length dst bits = .ok (dst', bits') ∧
      xs'.map (·.2) = xs.map (·.2) ∧ BrEnt dst' (es ++ xs') ∧
      (∀ q, dst'.slot q = if j ≤ q ∧ q < j + xs.length then xs'[q - j]?.map (·.1) else dst.slot q) ∧
      (∀ p, Bitmap.bit bits' p = if p ∈ xs.map (·.1) then false else Bitmap.bit bits p) ∧ dst'.kids N = dst.kids N := by
  intro xs
  induction xs with
  | nil =>
    intro i j dst bits es h _ _ _ _
    exact ⟨dst, bits, [], rfl, rfl, by simpa using h, fun q => by rw [if_neg (by simp)], fun p => by simp, rfl⟩
  | cons x xs ih =>
    intro i j dst bits es h hle hj hs hk
    simp only [List.length_cons] at hle hj
    obtain ⟨k1, k2⟩ := hk x (by simp)
    have hxN : x.1 < N := by
      by_contra hc
      unfold Slots.rd at k1
      rw [if_neg hc] at k1
      exact absurd k1 (by simp)
    obtain ⟨b2, eb2, hb2⟩ := bit_set bits x.1 false hxN
    have hs0 := hs 0 (by simp)
    simp only [Nat.add_zero, List.getElem_cons_zero] at hs0
    obtain ⟨dst1, u, e1, h1, hsl, hkN⟩ := h.put (by omega) (j := j) (by omega) x.2.1 x.2.2
    obtain ⟨dst', bits', xs', e, g1, g2, g3, g4, g5⟩ := ih (i + 1) (j + 1) dst1 b2 (es ++ [(u, x.2)]) h1
      (by simp; omega) (by omega) (by
        intro n hn
        have := hs (n + 1) (by simpa using hn)
        simpa [Nat.add_assoc, Nat.add_comm 1] using this) (fun e he => hk e (by simp [he]))
    refine ⟨dst', bits', (u, x.2) :: xs', ?_, ?_, ?_, ?_, ?_, g5.trans hkN⟩
    · rw [List.length_cons, Branch.take]
      rw [hs0, Res.ok_bind, k1, Res.ok_bind, k2, Res.ok_bind, e1, Res.ok_bind, Bitmap.reset_eq_set, eb2, Res.ok_bind]
      exact e
    · simp [g1]
    · simpa using g2
    · intro q
      rw [g3 q]
      simp only [List.length_cons]
      by_cases hq : q = j
      · subst hq
        rw [if_neg (by omega), if_pos (by omega), Nat.sub_self, hsl]
        simp
      · by_cases hh : j + 1 ≤ q ∧ q < j + 1 + xs.length
        · rw [if_pos hh, if_pos (by omega)]
          obtain ⟨q', rfl⟩ : ∃ q', q = j + 1 + q' := ⟨q - (j + 1), by omega⟩
          rw [show j + 1 + q' - j = q' + 1 by omega, List.getElem?_cons_succ,
            show j + 1 + q' - (j + 1) = q' by omega]
        · rw [if_neg hh, if_neg (by omega), hsl, if_neg hq]
    · intro p
      rw [g4 p, hb2 p]
      by_cases hp : p = x.1
      · subst hp; simp
      · rw [if_neg hp]
        have : p ∈ (x :: xs).map (·.1) ↔ p ∈ xs.map (·.1) := by
          rw [List.map_cons, List.mem_cons]
          exact ⟨fun h => h.resolve_left hp, Or.inr⟩
        by_cases hh : p ∈ xs.map (·.1)
        · rw [if_pos hh, if_pos (this.2 hh)]
        · rw [if_neg hh, if_neg (fun h => hh (this.1 h))]

omit [LinearOrder K] in
theorem BrOK.slot_rd {b : Branch K N} {A B : List (Nat × K × Nat)} {z : Nat} (h : BrOK b (A ++ B) z) :
    ∀ n (hn : n < B.length), b.slot.rd (N + 1) (A.length + 1 + n) = .ok B[n].1 := by
  intro n hn
  have := h.rdSlot (i := A.length + n) (by simp; omega)
  rw [show A.length + 1 + n = A.length + n + 1 by omega, this]
  congr 1
  rw [List.getElem_append_right (by omega)]
  simp

/-- The node holds `xs` and `z`; its bitmap says that besides the positions of `xs` the position `u` is in use. -/
def BrLeak (b : Branch K N) (xs : List (Nat × K × Nat)) (z u : Nat) : Prop :=
  (∃ X : Bitmap N, BrOK ({ b with bits := X } : Branch K N) xs z) ∧ u < N ∧ u ∉ xs.map (·.1) ∧
    ∀ p < N, Bitmap.bit b.bits p = true ↔ p ∈ xs.map (·.1) ∨ p = u

omit [LinearOrder K] in
/-- Without the separator `f`, whose bit stays set. -/
theorem BrLeak.mk' {b : Branch K N} {xs : List (Nat × K × Nat)} {z u : Nat} (hs : Slots.Rep b.slot (xs.length :: xs.map (·.1)))
    (he : ∀ e ∈ xs, e.1 < N ∧ b.keys e.1 = some e.2.1 ∧ b.kids e.1 = some e.2.2) (hn : (xs.map (·.1)).Nodup)
    (hb : ∀ p < N, Bitmap.bit b.bits p = true ↔ p ∈ xs.map (·.1) ∨ p = u) (hz : b.kids N = some z) (hle : xs.length ≤ N)
    (hu : u < N) (hux : u ∉ xs.map (·.1)) : BrLeak b xs z u := by
  obtain ⟨X, _, hX⟩ := bit_set b.bits u false hu
  refine ⟨⟨X, hs, he, hn, ?_, hz, hle⟩, hu, hux, hb⟩
  intro p hp
  show Bitmap.bit X p = true ↔ _
  rw [hX p]
  by_cases hpu : p = u
  · subst hpu
    simp [hux]
  · rw [if_neg hpu, hb p hp]
    simp [hpu]

/-- Balancing from a left neighbour: the separators behind `f`, the last child with the separator of the parent go to
the receiver, `f` goes to the parent.  The position of `f` in the donor stays marked as used. -/
theorem BrOK.balance_larger {donor recv par : Branch K N} {A B R : List (Nat × K × Nat)} {f : Nat × K × Nat}
    {dz rz pos i : Nat} {pk : K}
    (h1 : BrOK donor (A ++ f :: B) dz) (h2 : BrOK recv R rz) (hne : R ≠ []) (hAB : R.length < (A ++ f :: B).length)
    (hA : A.length = ((A ++ f :: B).length + R.length) / 2)
    (hp1 : par.slot.rd (N + 1) pos = .ok i) (hp2 : par.keys.rd N i = .ok pk)
    (hlt : ∀ x ∈ A ++ f :: B, ∀ y ∈ R, x.2.1 < y.2.1) :
    ∃ donor' recv' B' u, donor.balance recv par pos = .ok (donor', recv',
        { par with keys := fun j => if j = i then some f.2.1 else par.keys j }) ∧
      B'.map (·.2) = B.map (·.2) ∧ BrLeak donor' A f.2.2 f.1 ∧ BrOK recv' (B' ++ (u, pk, dz) :: R) rz := by
  have hlen : (A ++ f :: B).length = A.length + B.length + 1 := by simp; omega
  have hNle := h1.le
  have hiN : i < N := by
    by_contra hc
    unfold Slots.rd at hp2
    rw [if_neg hc] at hp2
    exact absurd hp2 (by simp)
  obtain ⟨y, R', rfl⟩ := List.exists_cons_of_ne_nil hne
  have hRl : (y :: R').length = R'.length + 1 := rfl
  have hA0 : A ≠ [] := by
    rintro rfl
    simp only [List.length_nil] at hA
    omega
  obtain ⟨x, A', rfl⟩ := List.exists_cons_of_ne_nil hA0
  have hm : (x :: A' ++ f :: B).length - ((x :: A' ++ f :: B).length + (y :: R').length) / 2 = B.length + 1 := by
    rw [← hA, hlen]; omega
  obtain ⟨s1, es1, hs1⟩ := Slots.moveUp_ok (N + 1) 1 (B.length + 1) (by omega) ((y :: R').length + 1) recv.slot
    (by omega) (by omega) (fun i hi1 hi2 => by
      rw [h2.slots i (by simp at hi2 ⊢; omega)]
      rw [List.getElem?_eq_getElem (by simp at hi2 ⊢; omega)]
      rfl)
  have hent : BrEnt ({ recv with slot := s1 } : Branch K N) (y :: R') := ⟨h2.ent, h2.nodup, h2.bits⟩
  obtain ⟨r1, u, e1, hr1, hsl1, hk1⟩ := hent.put (by omega) (j := B.length + 1) (by omega) pk dz
  have h1' : BrOK donor ((x :: A' ++ [f]) ++ B) dz := by simpa using h1
  obtain ⟨r, bits, B', e, g1, g2, g3, g4, g5⟩ := takeBr_ok donor B ((x :: A').length + 2) 1 r1 donor.bits _ hr1
    (by simp at hlen hA hAB hNle ⊢; omega) (by omega) (fun n hn => by
      have := h1'.slot_rd n hn
      rw [List.length_append] at this
      exact this) (fun e he => ⟨h1.key (by simp [he]), h1.kid (by simp [he])⟩)
  have hBl : B'.length = B.length := by simpa using congrArg List.length g1
  have hkd1 : donor.slot.rd (N + 1) 1 = .ok x.1 := h1.rdSlot (i := 0) (by simp)
  have hkd2 : recv.slot.rd (N + 1) 1 = .ok y.1 := h2.rdSlot (i := 0) (by simp)
  have hf := h1.ent f (by simp)
  have hxy : x.2.1 < y.2.1 := hlt x (by simp) y (by simp)
  have hnd := h1.nodup
  rw [List.map_append, List.map_cons (a := f), List.nodup_append] at hnd
  refine ⟨{ donor with
      slot := (fun q => if q = 0 then some (x :: A').length else donor.slot q)
      bits := bits
      kids := fun q => if q = N then some f.2.2 else donor.kids q },
    { r with slot := fun q => if q = 0 then some ((y :: R').length + (B.length + 1)) else r.slot q }, B', u, ?_, g1, ?_, ?_⟩
  · unfold Branch.balance Branch.count
    rw [h1.count, Res.ok_bind, h2.count, Res.ok_bind, if_pos hAB]
    dsimp only
    rw [hm, if_neg (by omega), hkd1, Res.ok_bind, h1.key (by simp), Res.ok_bind, hkd2, Res.ok_bind, h2.key (by simp), Res.ok_bind,
      hp1, Res.ok_bind, hp2, Res.ok_bind, if_pos hxy, es1, Res.ok_bind, Slots.rd_ok (by omega) h1.last, Res.ok_bind, e1,
      Res.ok_bind, ← hA, Nat.add_sub_cancel, e, Res.ok_bind]
    dsimp only
    rw [h1.rd_at, Res.ok_bind, h1.kid (by simp), Res.ok_bind, Slots.wr_ok _ _ (by omega), Res.ok_bind, h1.key (by simp),
      Res.ok_bind, Res.pure_eq, Res.ok_bind]
    dsimp only
    rw [Slots.wr_ok _ _ hiN, Res.ok_bind, Slots.wr_ok _ _ (by omega), Res.ok_bind, Slots.wr_ok _ _ (by omega), Res.ok_bind,
      Res.pure_eq, show (x :: A' ++ f :: B).length - (B.length + 1) = (x :: A').length by omega]
  · have hfA : f.1 ∉ (x :: A').map (·.1) := fun hh => hnd.2.2 _ hh f.1 (by simp) rfl
    refine BrLeak.mk' ?_ ?_ hnd.1 ?_ (by simp) (by omega) hf.1 hfA
    · intro q hq
      simp only [List.length_cons, List.length_map] at hq
      by_cases hq0 : q = 0
      · subst hq0; simp
      · simp only [if_neg hq0]
        rw [h1.slots q (by simp; omega)]
        obtain ⟨q', rfl⟩ : ∃ q', q = q' + 1 := ⟨q - 1, by omega⟩
        rw [List.getElem?_cons_succ, List.getElem?_cons_succ, List.map_append,
          List.getElem?_append_left (by simp; omega)]
    · intro e he
      obtain ⟨k1, k2, k3⟩ := h1.ent e (List.mem_append_left _ he)
      refine ⟨k1, k2, ?_⟩
      show (if e.1 = N then some f.2.2 else donor.kids e.1) = _
      rw [if_neg (by omega), k3]
    · intro p hp
      show Bitmap.bit bits p = true ↔ _
      rw [g4 p]
      have := h1.bits p hp
      rw [List.map_append, List.mem_append, List.map_cons (a := f), List.mem_cons (b := f.1)] at this
      by_cases hpB : p ∈ B.map (·.1)
      · rw [if_pos hpB]
        simp only [Bool.false_eq_true, false_iff, not_or]
        refine ⟨fun hpA => hnd.2.2 p hpA p (by simp only [List.mem_cons]; exact Or.inr hpB) rfl, ?_⟩
        rintro rfl
        exact (List.nodup_cons.1 hnd.2.1).1 hpB
      · rw [if_neg hpB, this]
        simp only [hpB, or_false]
  · have hperm : (((y :: R') ++ [(u, pk, dz)]) ++ B').Perm (B' ++ (u, pk, dz) :: (y :: R')) := by
      refine List.perm_append_comm.trans ?_
      refine List.Perm.append_left _ ?_
      exact List.perm_append_comm
    refine ⟨?_, fun e he => g2.ent e (hperm.mem_iff.2 he), (hperm.map (·.1)).nodup_iff.1 g2.nodup, ?_, ?_, ?_⟩
    · intro q hq
      simp only [List.length_cons, List.length_map, List.length_append] at hq
      by_cases hq0 : q = 0
      · subst hq0; simp [hBl]; omega
      · obtain ⟨q', rfl⟩ : ∃ q', q = q' + 1 := ⟨q - 1, by omega⟩
        simp only [if_neg hq0, List.getElem?_cons_succ, List.map_append]
        rw [g3]
        by_cases hc : q' < B'.length
        · rw [if_pos (by omega), List.getElem?_append_left (by simpa using hc), List.getElem?_map,
            Nat.add_sub_cancel]
        · rw [if_neg (by omega), hsl1, List.getElem?_append_right (by simp; omega), List.length_map, hBl]
          by_cases hq1 : q' = B.length
          · subst hq1; simp
          · rw [if_neg (by omega)]
            show s1 (q' + 1) = _
            rw [hs1, if_pos (by simp; omega), h2.slots _ (by simp; omega)]
            obtain ⟨t, ht⟩ : ∃ t, q' = B.length + 1 + t := ⟨q' - B.length - 1, by omega⟩
            subst ht
            rw [show B.length + 1 + t + 1 - (B.length + 1) = t + 1 by omega, show B.length + 1 + t - B.length = t + 1 by omega]
            simp
    · intro p hp
      show Bitmap.bit r.bits p = true ↔ _
      rw [g2.bits p hp]
      exact (hperm.map (·.1)).mem_iff
    · show r.kids N = _
      rw [g5, hk1]
      exact h2.last
    · simp only [List.length_append, List.length_cons] at hA hAB hlen hNle ⊢
      omega

/-- Balancing from a right neighbour: the separator of the parent with the last child of the receiver and the
separators before `f` go to the receiver, the child of `f` becomes its last child, `f` goes to the parent.  The
position of `f` in the donor stays marked as used. -/
theorem BrOK.balance_smaller {donor recv par : Branch K N} {A B R : List (Nat × K × Nat)} {f : Nat × K × Nat}
    {dz rz pos i : Nat} {pk : K}
    (h1 : BrOK donor (A ++ f :: B) dz) (h2 : BrOK recv R rz) (hne : R ≠ []) (hAB : R.length < (A ++ f :: B).length)
    (hB : B.length = ((A ++ f :: B).length + R.length) / 2)
    (hp1 : par.slot.rd (N + 1) pos = .ok i) (hp2 : par.keys.rd N i = .ok pk)
    (hlt : ∀ x ∈ A ++ f :: B, ∀ y ∈ R, y.2.1 ≤ x.2.1) :
    ∃ donor' recv' A' u, donor.balance recv par pos = .ok (donor', recv',
        { par with keys := fun j => if j = i then some f.2.1 else par.keys j }) ∧
      A'.map (·.2) = A.map (·.2) ∧ BrLeak donor' B dz f.1 ∧ BrOK recv' (R ++ (u, pk, rz) :: A') f.2.2 := by
  have hlen : (A ++ f :: B).length = A.length + B.length + 1 := by simp; omega
  have hNle := h1.le
  have hiN : i < N := by
    by_contra hc
    unfold Slots.rd at hp2
    rw [if_neg hc] at hp2
    exact absurd hp2 (by simp)
  have hRp : 0 < R.length := List.length_pos_iff.2 hne
  have hm : (A ++ f :: B).length - ((A ++ f :: B).length + R.length) / 2 = A.length + 1 := by
    rw [← hB, hlen]; omega
  obtain ⟨r1, u, e1, hr1, hsl1, hk1⟩ := h2.brEnt.put (by omega) (j := R.length + 1) (by omega) pk rz
  obtain ⟨r, bits, A', e, g1, g2, g3, g4, g5⟩ := takeBr_ok donor A 1 (R.length + 2) r1 donor.bits _ hr1
    (by simp at hlen hB hAB hNle ⊢; omega) (by omega) (fun n hn => by
      have h1' : BrOK donor ([] ++ (A ++ f :: B)) dz := by simpa using h1
      have := h1'.slot_rd n (by simp; omega)
      simp only [List.length_nil, Nat.zero_add] at this
      rw [this, List.getElem_append_left]) (fun e he => ⟨h1.key (by simp [he]), h1.kid (by simp [he])⟩)
  have hAl : A'.length = A.length := by simpa using congrArg List.length g1
  obtain ⟨s1, es1, hs1⟩ := Slots.moveDown_ok (N + 1) (A.length + 1) (by omega) B.length 1 donor.slot (by omega)
    (fun i hi1 hi2 => by
      rw [h1.slots i (by simp; omega), List.getElem?_eq_getElem (by simp; omega)]
      rfl)
  have hf := h1.ent f (by simp)
  have hnd := h1.nodup
  rw [List.map_append, List.map_cons (a := f), List.nodup_append] at hnd
  have hx : ∃ x ∈ A ++ f :: B, donor.slot.rd (N + 1) 1 = .ok x.1 :=
    ⟨_, List.getElem_mem (by omega : 0 < (A ++ f :: B).length), h1.rdSlot (i := 0) (by omega)⟩
  have hy : ∃ y ∈ R, recv.slot.rd (N + 1) 1 = .ok y.1 :=
    ⟨_, List.getElem_mem hRp, h2.rdSlot (i := 0) (by omega)⟩
  obtain ⟨x, hx, hkd1⟩ := hx
  obtain ⟨y, hy, hkd2⟩ := hy
  have hxy : ¬ x.2.1 < y.2.1 := not_lt.2 (hlt x hx y hy)
  refine ⟨{ donor with
      slot := (fun q => if q = 0 then some B.length else s1 q)
      bits := bits },
    { r with
      slot := fun q => if q = 0 then some (R.length + (A.length + 1)) else r.slot q
      kids := fun q => if q = N then some f.2.2 else r.kids q }, A', u, ?_, g1, ?_, ?_⟩
  · unfold Branch.balance Branch.count
    rw [h1.count, Res.ok_bind, h2.count, Res.ok_bind, if_pos hAB]
    dsimp only
    rw [hm, if_neg (by omega), hkd1, Res.ok_bind, h1.key hx, Res.ok_bind, hkd2, Res.ok_bind, h2.key hy, Res.ok_bind,
      hp1, Res.ok_bind, hp2, Res.ok_bind, if_neg hxy, Slots.rd_ok (by omega) h2.last, Res.ok_bind, e1,
      Res.ok_bind, Nat.add_sub_cancel, e, Res.ok_bind]
    dsimp only
    rw [h1.rd_at, Res.ok_bind, h1.kid (by simp), Res.ok_bind, Slots.wr_ok _ _ (by omega), Res.ok_bind, h1.key (by simp),
      Res.ok_bind, show (A ++ f :: B).length - (A.length + 1) = B.length by omega, es1, Res.ok_bind, Res.pure_eq, Res.ok_bind]
    dsimp only
    rw [Slots.wr_ok _ _ hiN, Res.ok_bind, Slots.wr_ok _ _ (by omega), Res.ok_bind, Slots.wr_ok _ _ (by omega), Res.ok_bind,
      Res.pure_eq]
  · have hfB : f.1 ∉ B.map (·.1) := (List.nodup_cons.1 hnd.2.1).1
    refine BrLeak.mk' ?_ ?_ (List.nodup_cons.1 hnd.2.1).2 ?_ h1.last (by omega) hf.1 hfB
    · intro q hq
      simp only [List.length_cons, List.length_map] at hq
      by_cases hq0 : q = 0
      · subst hq0; simp
      · simp only [if_neg hq0]
        rw [hs1 q, if_pos (by omega), h1.slots _ (by simp; omega)]
        obtain ⟨q', rfl⟩ : ∃ q', q = q' + 1 := ⟨q - 1, by omega⟩
        rw [show q' + 1 + (A.length + 1) = (q' + A.length + 1) + 1 by omega, List.getElem?_cons_succ, List.getElem?_cons_succ,
          List.map_append, List.getElem?_append_right (by simp; omega), List.length_map, List.map_cons,
          show q' + A.length + 1 - A.length = q' + 1 by omega, List.getElem?_cons_succ]
    · intro e he
      exact h1.ent e (by simp [he])
    · intro p hp
      show Bitmap.bit bits p = true ↔ _
      rw [g4 p]
      have := h1.bits p hp
      rw [List.map_append, List.mem_append, List.map_cons (a := f), List.mem_cons (b := f.1)] at this
      by_cases hpA : p ∈ A.map (·.1)
      · rw [if_pos hpA]
        simp only [Bool.false_eq_true, false_iff, not_or]
        refine ⟨fun hpB => hnd.2.2 p hpA p (by simp only [List.mem_cons]; exact Or.inr hpB) rfl, ?_⟩
        rintro rfl
        exact hnd.2.2 _ hpA f.1 (by simp) rfl
      · rw [if_neg hpA, this]
        simp only [hpA, false_or]
        exact or_comm
  · have hl : (R ++ [(u, pk, rz)]) ++ A' = R ++ (u, pk, rz) :: A' := by simp
    rw [hl] at g2
    refine ⟨?_, ?_, g2.nodup, g2.bits, by simp, ?_⟩
    · intro q hq
      simp only [List.length_cons, List.length_map, List.length_append] at hq
      by_cases hq0 : q = 0
      · subst hq0; simp [hAl]
      · obtain ⟨q', rfl⟩ : ∃ q', q = q' + 1 := ⟨q - 1, by omega⟩
        simp only [if_neg hq0, List.getElem?_cons_succ, List.map_append]
        rw [g3]
        by_cases hc : q' < R.length
        · rw [if_neg (by omega), hsl1, if_neg (by omega), h2.slots _ (by simp; omega), List.getElem?_cons_succ,
            List.getElem?_append_left (by simpa using hc)]
        · rw [List.getElem?_append_right (by simp; omega), List.length_map]
          by_cases hq1 : q' = R.length
          · subst hq1
            rw [if_neg (by omega), hsl1, if_pos rfl]
            simp
          · rw [if_pos (by omega), List.map_cons, show q' - R.length = q' - R.length - 1 + 1 by omega,
              List.getElem?_cons_succ, List.getElem?_map]
            congr 2
            omega
    · intro e he
      obtain ⟨k1, k2, k3⟩ := g2.ent e he
      refine ⟨k1, k2, ?_⟩
      show (if e.1 = N then some f.2.2 else r.kids e.1) = _
      rw [if_neg (by omega), k3]
    · simp only [List.length_append, List.length_cons] at hB hAB hlen hNle ⊢
      omega

end Verif.WBTree
