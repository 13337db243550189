import Verif.BTree.MergeCrash

/-!
# Crashes inside a leaf merge of HPBPTree and PBPTree: the leaves at every crash point
-/

set_option linter.unusedSectionVars false

namespace Verif.BTree

open Verif Search Assoc MapSpec

variable {K V : Type} [LinearOrder K] {c : SCfg K V}

/-- `prevLeaf` after the merge. -/
def prevAfter (p : Nat → Option Nat) (a : Nat) : Option Nat → Nat → Option Nat
  | none => p
  | some x => upd p x (some a)

/-- The assignments after `nextLeaf` and the counter of the second leaf. -/
def tailW (id1 id2 : Nat) (nx : Option Nat) : List (SWrite K V) :=
  (match nx with | none => [] | some x => [.prev x id1]) ++ [.del id2]

theorem SWrite.del_ok {M : Nat} {h : Heap (SLeaf K V)} {i : Nat} {l : SLeaf K V} (hl : h.data i = some l) :
    (SWrite.del i : SWrite K V).apply M h = .ok (h.free i) := by
  simp only [SWrite.apply, Heap.get_of hl, Res.ok_bind]; rfl

theorem SWrite.next_ok {M : Nat} {h : Heap (SLeaf K V)} {i : Nat} {x : Option Nat} {l : SLeaf K V} (hl : h.data i = some l) :
    (SWrite.next i x : SWrite K V).apply M h = .ok { h with next := upd h.next i x } := by
  simp only [SWrite.apply, Heap.get_of hl, Res.ok_bind]; rfl

theorem SWrite.prev_ok {M : Nat} {h : Heap (SLeaf K V)} {i x : Nat} {l : SLeaf K V} (hl : h.data i = some l) :
    (SWrite.prev i x : SWrite K V).apply M h = .ok { h with prev := upd h.prev i (some x) } := by
  simp only [SWrite.apply, Heap.get_of hl, Res.ok_bind]; rfl

theorem tail_points {M : Nat} {G : Heap (SLeaf K V)} {a b : Nat} {lb : SLeaf K V} (hb : G.data b = some lb) {nx : Option Nat}
    (hx : ∀ x, nx = some x → (G.data x).isSome) (j : Nat) :
    ∃ h', applyW M G ((tailW (K := K) (V := V) a b nx).take j) = .ok h' ∧ (∀ i, i ≠ b → h'.data i = G.data i) ∧ h'.next = G.next ∧
      h'.fresh = G.fresh ∧ (j < (tailW (K := K) (V := V) a b nx).length → h'.data b = some lb) ∧
      ((tailW (K := K) (V := V) a b nx).length ≤ j → h' = Heap.free { G with prev := prevAfter G.prev a nx } b) := by
  have fr : ∀ H : Heap (SLeaf K V), ∀ i, i ≠ b → (H.free b).data i = H.data i := by
    intro H i hi
    simp [Heap.free, upd, hi]
  cases nx with
  | none =>
    show ∃ h', applyW M G ([SWrite.del b].take j) = _ ∧ _
    cases j with
    | zero => exact ⟨G, rfl, fun _ _ => rfl, rfl, rfl, fun _ => hb, fun h => by simp [tailW] at h⟩
    | succ j =>
      rw [List.take_succ_cons, applyW, SWrite.del_ok hb, Res.ok_bind, List.take_nil]
      exact ⟨_, rfl, fr _, rfl, rfl, fun h => by simp [tailW] at h, fun _ => rfl⟩
  | some x =>
    show ∃ h', applyW M G ([SWrite.prev x a, SWrite.del b].take j) = _ ∧ _
    obtain ⟨lx, hlx⟩ := Option.isSome_iff_exists.1 (hx x rfl)
    match j with
    | 0 => exact ⟨G, rfl, fun _ _ => rfl, rfl, rfl, fun _ => hb, fun h => by simp [tailW] at h⟩
    | 1 =>
      rw [List.take_succ_cons, applyW, SWrite.prev_ok hlx, Res.ok_bind, List.take_zero]
      exact ⟨_, rfl, fun _ _ => rfl, rfl, rfl, fun _ => hb, fun h => by simp [tailW] at h⟩
    | j + 2 =>
      rw [List.take_succ_cons, List.take_succ_cons, applyW, SWrite.prev_ok hlx, Res.ok_bind, applyW,
        SWrite.del_ok (h := { G with prev := upd G.prev x (some a) }) hb, Res.ok_bind, List.take_nil]
      exact ⟨_, rfl, fr _, rfl, rfl, fun h => by simp [tailW] at h, fun _ => rfl⟩

theorem unlink_points {M : Nat} (zero : Bool) {H : Heap (SLeaf K V)} {a b : Nat} {la lb : SLeaf K V} (ha : H.data a = some la)
    (hb : H.data b = some lb) {nx : Option Nat} (hx : ∀ x, nx = some x → (H.data x).isSome) {j : Nat} (hj : 1 ≤ j) :
    ∃ h', applyW M H ((unlinkW (K := K) (V := V) zero a b nx).take j) = .ok h' ∧ (∀ i, i ≠ b → h'.data i = H.data i) ∧
      h'.next = upd H.next a nx ∧ h'.fresh = H.fresh ∧
      (zero = false → j < (unlinkW (K := K) (V := V) zero a b nx).length → h'.data b = some lb) ∧
      ((unlinkW (K := K) (V := V) zero a b nx).length ≤ j →
        h' = Heap.free { H with next := upd H.next a nx, prev := prevAfter H.prev a nx } b) := by
  obtain ⟨j, rfl⟩ : ∃ j', j = j' + 1 := ⟨j - 1, by omega⟩
  cases zero with
  | false =>
    show ∃ h', applyW M H ((SWrite.next a nx :: tailW a b nx).take (j + 1)) = _ ∧ _
    obtain ⟨h', e, q1, q2, q3, q4, q5⟩ := tail_points (M := M) (G := { H with next := upd H.next a nx }) (a := a) hb hx j
    rw [List.take_succ_cons, applyW, SWrite.next_ok ha, Res.ok_bind, e]
    refine ⟨h', rfl, q1, q2, q3, fun _ h => q4 ?_, fun h => q5 ?_⟩
    · have : j + 1 < (tailW (K := K) (V := V) a b nx).length + 1 := h
      omega
    · have : (tailW (K := K) (V := V) a b nx).length + 1 ≤ j + 1 := h
      omega
  | true =>
    show ∃ h', applyW M H ((SWrite.next a nx :: SWrite.leaf b (.num 0) :: tailW a b nx).take (j + 1)) = _ ∧ _
    rw [List.take_succ_cons, applyW, SWrite.next_ok ha, Res.ok_bind]
    cases j with
    | zero =>
      refine ⟨_, rfl, fun _ _ => rfl, rfl, rfl, fun h => by simp at h, fun h => ?_⟩
      have : (tailW (K := K) (V := V) a b nx).length + 2 ≤ 0 + 1 := h
      omega
    | succ j =>
      have e0 : (SWrite.leaf b (.num 0) : SWrite K V).apply M { H with next := upd H.next a nx } =
          .ok (({ H with next := upd H.next a nx } : Heap (SLeaf K V)).set b { lb with num := 0 }) :=
        SWrite.leaf_ok (h := { H with next := upd H.next a nx }) (l := lb) hb rfl
      rw [List.take_succ_cons, applyW, e0, Res.ok_bind]
      obtain ⟨h', e, q1, q2, q3, q4, q5⟩ := tail_points (M := M)
        (G := ({ H with next := upd H.next a nx } : Heap (SLeaf K V)).set b { lb with num := 0 }) (a := a) (Heap.set_data _ _ _) (nx := nx)
        (fun x h => by
          by_cases h1 : x = b
          · rw [h1, Heap.set_data]; rfl
          · rw [Heap.set_data_ne _ h1]; exact hx x h) j
      refine ⟨h', e, fun i hi => ?_, q2, q3, fun h => by simp at h, fun h => ?_⟩
      · rw [q1 i hi, Heap.set_data_ne _ hi]
      · rw [q5 (by
          have : (tailW (K := K) (V := V) a b nx).length + 2 ≤ j + 1 + 1 := h
          omega)]
        refine Heap.ext' ?_ rfl rfl rfl
        funext i
        simp only [Heap.free, Heap.set, upd]
        split <;> rfl

theorem copyWrites_length (id : Nat) : ∀ (n : Nat) (es : List (K × V)), (copyWrites id n es).length = 2 * es.length
  | _, [] => rfl
  | n, e :: es => by
    rw [copyWrites, List.length_cons, List.length_cons, copyWrites_length id (n + 1) es, List.length_cons]
    omega

theorem LRep.congr {M : Nat} {l l' : SLeaf K V} {es : List (K × V)} (h : LRep M l es) (hn : l'.num = l.num)
    (hk : ∀ j, j < es.length → l'.keys j = l.keys j ∧ l'.vals j = l.vals j) : LRep M l' es := by
  refine ⟨by rw [hn, h.num], h.cap, fun i hi => ?_, fun i hi => ?_, h.sorted⟩
  · rw [(hk i (by simpa using hi)).1]; exact h.keys i hi
  · rw [(hk i (by simpa using hi)).2]; exact h.vals i hi

/-- All crash points of a merge of the leaves `a` and `b`. -/
theorem merge_points (zero : Bool) {h : Heap (SLeaf K V)} {a b : Nat} (hab : a ≠ b) {la lb : SLeaf K V} {ea eb : List (K × V)}
    (ha : h.data a = some la) (hb : h.data b = some lb) (ra : LRep c.M la ea) (rb : LRep c.M lb eb)
    (hlt : ∀ x ∈ ea, ∀ y ∈ eb, x.1 < y.1) (hcap : ea.length + eb.length ≤ c.M)
    (hx : ∀ x, h.next b = some x → (h.data x).isSome) :
    ∃ us lm, mergeW c zero h a b = .ok us ∧ LRep c.M lm (ea ++ eb) ∧ 2 * eb.length + 3 ≤ us.length ∧
      (∀ t, t ≤ 2 * eb.length → ∃ la', applyW c.M h (us.take t) = .ok (h.set a la') ∧ LRep c.M la' ea) ∧
      applyW c.M h (us.take (2 * eb.length + 1)) = .ok (h.set a lm) ∧
      (∀ t, 2 * eb.length + 2 ≤ t → ∃ h', applyW c.M h (us.take t) = .ok h' ∧ h'.data a = some lm ∧
        (∀ i, i ≠ a → i ≠ b → h'.data i = h.data i) ∧ h'.next = upd h.next a (h.next b) ∧ h'.fresh = h.fresh ∧
        (zero = false → t < us.length → h'.data b = some lb) ∧
        (us.length ≤ t → h'.data b = none ∧ mergeLeaf (sortedOps c) h a b = .ok h')) := by
  have na := ra.num
  have nb := rb.num
  obtain ⟨P, l1, e1, n1, f1, k1, u1⟩ := copyWrites_points (M := c.M) (i := a) eb ea.length h la ha hcap
  obtain ⟨lm, em, rm⟩ := merge_ok (c := c) ra rb hlt hcap
  have hlm : lm = { l1 with num := ea.length + eb.length } := by
    have em' := em
    unfold SLeaf.merge at em'
    rw [Res.assert_pos (by omega), Res.ok_bind] at em'
    obtain ⟨ks, ek, hk⟩ := Slots.copy_ok c.M lb.keys lb.num 0 la.num la.keys (by omega) (by omega) (fun i _ hi => by
      rw [rb.keys i (by simp; omega), List.getElem?_map, List.getElem?_eq_getElem (by omega)]; rfl)
    obtain ⟨vs, ev, hv⟩ := Slots.copy_ok c.M lb.vals lb.num 0 la.num la.vals (by omega) (by omega) (fun i _ hi => by
      rw [rb.vals i (by simp; omega), List.getElem?_map, List.getElem?_eq_getElem (by omega)]; rfl)
    rw [ek, Res.ok_bind, ev, Res.ok_bind] at em'
    rw [← Res.ok.inj em', na, nb]
    congr 1
    · funext j
      rw [hk j, na, nb]
      by_cases h1 : ea.length ≤ j ∧ j < ea.length + eb.length
      · rw [if_pos h1]
        obtain ⟨i, rfl⟩ : ∃ i, j = ea.length + i := ⟨j - ea.length, by omega⟩
        rw [(k1 i (by omega)).1, rb.keys _ (by simp; omega), List.getElem?_map, List.getElem?_eq_getElem (by omega)]
        simp
      · rw [if_neg h1]
        by_cases h2 : j < ea.length
        · exact (f1 j h2).1.symm
        · exact (u1 j (by omega)).1.symm
    · funext j
      rw [hv j, na, nb]
      by_cases h1 : ea.length ≤ j ∧ j < ea.length + eb.length
      · rw [if_pos h1]
        obtain ⟨i, rfl⟩ : ∃ i, j = ea.length + i := ⟨j - ea.length, by omega⟩
        rw [(k1 i (by omega)).2, rb.vals _ (by simp; omega), List.getElem?_map, List.getElem?_eq_getElem (by omega)]
        simp
      · rw [if_neg h1]
        by_cases h2 : j < ea.length
        · exact (f1 j h2).2.symm
        · exact (u1 j (by omega)).2.symm
  have e2 : (SWrite.leaf a (.num (ea.length + eb.length)) : SWrite K V).apply c.M (h.set a l1) = .ok (h.set a lm) := by
    rw [SWrite.leaf_ok (Heap.set_data h a l1) (l' := lm) (by rw [SInstr.apply, hlm]), Heap.set_same]
  have hlen := copyWrites_length a ea.length eb
  have hda : (h.set a lm).data a = some lm := Heap.set_data _ _ _
  have hdb : (h.set a lm).data b = some lb := by rw [Heap.set_data_ne _ (Ne.symm hab), hb]
  have hul : 2 ≤ (unlinkW (K := K) (V := V) zero a b (h.next b)).length := by
    simp [unlinkW]; omega
  refine ⟨copyWrites a ea.length eb ++ .leaf a (.num (ea.length + eb.length)) :: unlinkW zero a b (h.next b), lm, ?_, rm, ?_,
    fun t ht => ?_, ?_, fun t ht => ?_⟩
  · unfold mergeW
    have es := scanFrom_ok (c := c) eb [] rb
    rw [List.length_nil] at es
    rw [Heap.get_of ha, Res.ok_bind, Heap.get_of hb, Res.ok_bind, Res.assert_pos (by omega), Res.ok_bind, nb, es, Res.ok_bind, na]
    rfl
  · simp only [List.length_append, List.length_cons, hlen]; omega
  · obtain ⟨l', q1, q2, q3⟩ := P t
    rw [List.take_append_of_le_length (by omega)]
    exact ⟨l', q1, ra.congr q2 q3⟩
  · rw [List.take_append, List.take_of_length_le (by omega), hlen, show 2 * eb.length + 1 - 2 * eb.length = 1 by omega,
      List.take_succ_cons, List.take_zero, applyW_append, e1, Res.ok_bind, applyW, e2, Res.ok_bind]
    rfl
  · obtain ⟨j, rfl⟩ : ∃ j, t = 2 * eb.length + 1 + j := ⟨t - (2 * eb.length + 1), by omega⟩
    obtain ⟨h', q, q1, q2, q3, q4, q5⟩ := unlink_points (M := c.M) zero (nx := h.next b) (j := j) hda hdb (fun x h1 => by
      by_cases h2 : x = a
      · rw [h2, Heap.set_data]; rfl
      · rw [Heap.set_data_ne _ h2]; exact hx x h1) (by omega)
    have hL : (copyWrites a ea.length eb ++ SWrite.leaf a (.num (ea.length + eb.length)) :: unlinkW zero a b (h.next b)).length =
        2 * eb.length + 1 + (unlinkW (K := K) (V := V) zero a b (h.next b)).length := by
      rw [List.length_append, List.length_cons, hlen]; omega
    refine ⟨h', ?_, by rw [q1 a hab, hda], fun i h1 h2 => by rw [q1 i h2, Heap.set_data_ne _ h1], q2, q3, fun hz h1 => ?_, fun h1 => ?_⟩
    · rw [List.take_append, List.take_of_length_le (by omega), hlen, show 2 * eb.length + 1 + j - 2 * eb.length = j + 1 by omega,
        List.take_succ_cons, applyW_append, e1, Res.ok_bind, applyW, e2, Res.ok_bind, q]
    · exact q4 hz (by omega)
    · have hh := q5 (by omega)
      refine ⟨by rw [hh]; simp [Heap.free, upd], ?_⟩
      unfold mergeLeaf
      rw [Heap.get_of ha, Res.ok_bind, Heap.get_of hb, Res.ok_bind, show (sortedOps c).merge la lb = .ok lm from em, Res.ok_bind]
      dsimp only
      cases hn : h.next b with
      | none =>
        rw [hn] at hh
        rw [hh, show (h.set a lm).next b = none from hn]
        rfl
      | some x =>
        rw [hn] at hh
        dsimp only
        have hxs : ∃ lx, (h.set a lm).data x = some lx := by
          apply Option.isSome_iff_exists.1
          by_cases h2 : x = a
          · rw [h2, Heap.set_data]; rfl
          · rw [Heap.set_data_ne _ h2]; exact hx x hn
        obtain ⟨lx, hlx⟩ := hxs
        rw [Heap.get_of (show ({ h.set a lm with next := upd (h.set a lm).next a ((h.set a lm).next b) } : Heap (SLeaf K V)).data x = some lx from hlx),
          Res.ok_bind, hh, show (h.set a lm).next b = some x from hn]
        rfl

end Verif.BTree
