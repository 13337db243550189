import Verif.WBTree.Model
import Verif.Bitmap.Lemmas
import Verif.Search.BinSearch
import Mathlib.Data.List.Nodup
import Mathlib.Data.Finset.Card

/-!
# The leaf of wBPTree.hpp: what the operations do to the sorted list of entries
-/

namespace Verif.WBTree

variable {K V : Type} [LinearOrder K] {M : Nat}

/-- The leaf holds the entries `es` in key order; the first component is the array position. -/
structure LeafOK (l : Leaf K V M) (es : List (Nat × K × V)) : Prop where
  slots : Slots.Rep l.slot (es.length :: es.map (·.1))
  ent : ∀ e ∈ es, e.1 < M ∧ l.keys e.1 = some e.2.1 ∧ l.vals e.1 = some e.2.2
  nodup : (es.map (·.1)).Nodup
  bits : ∀ p < M, Bitmap.bit l.bits p = true ↔ p ∈ es.map (·.1)
  sorted : es.Pairwise (fun a b => a.2.1 < b.2.1)
  le : es.length ≤ M

theorem bit_set (b : Bitmap M) (u : Nat) (v : Bool) (h : u < M) :
    ∃ b', b.set u v = .ok b' ∧ ∀ p, Bitmap.bit b' p = if p = u then v else Bitmap.bit b p := by
  obtain ⟨b', e⟩ := (Bitmap.set_ok b u v).1 h
  refine ⟨b', e, fun p => ?_⟩
  unfold Bitmap.bit
  rw [Bitmap.set_getLsbD b b' u v e _ _ (Nat.mod_lt _ (by omega))]
  by_cases hp : p = u
  · subst hp; simp
  · rw [if_neg hp, if_neg (by intro ⟨h1, h2⟩; omega)]

theorem bit_fresh (p : Nat) : Bitmap.bit (Bitmap.fresh M) p = false := by
  unfold Bitmap.bit Bitmap.fresh; simp

theorem leafOK_fresh (junk : Option Nat) : LeafOK (Leaf.fresh M junk : Leaf K V M) [] := by
  refine ⟨?_, by simp, by simp, ?_, by simp, by simp⟩
  · intro i hi
    simp at hi
    subst hi
    rfl
  · intro p hp
    simp [Leaf.fresh, bit_fresh]

namespace LeafOK

variable {l : Leaf K V M} {es : List (Nat × K × V)}

theorem count (h : LeafOK l es) : l.slot.rd (M + 1) 0 = .ok es.length :=
  Slots.rd_ok (by omega) (by simpa using h.slots 0 (by simp))

theorem slot (h : LeafOK l es) {i : Nat} (hi : i < es.length) :
    l.slot.rd (M + 1) (i + 1) = .ok es[i].1 := by
  refine Slots.rd_ok (by have := h.le; omega) ?_
  have := h.slots (i + 1) (by simp; omega)
  rw [this]; simp [hi]

theorem key (h : LeafOK l es) {e : Nat × K × V} (he : e ∈ es) : l.keys.rd M e.1 = .ok e.2.1 :=
  Slots.rd_ok (h.ent e he).1 (h.ent e he).2.1

theorem val (h : LeafOK l es) {e : Nat × K × V} (he : e ∈ es) : l.vals.rd M e.1 = .ok e.2.2 :=
  Slots.rd_ok (h.ent e he).1 (h.ent e he).2.2

/-- The search cuts the entries at the key. -/
theorem pos (h : LeafOK l es) (k : K) : ∃ a b, es = a ++ b ∧ l.pos k = .ok (a.length + 1) ∧
    (∀ e ∈ a, e.2.1 < k) ∧ (∀ e ∈ b, k ≤ e.2.1) := by
  by_cases he : es = []
  · subst he
    refine ⟨[], [], rfl, ?_, by simp, by simp⟩
    unfold Leaf.pos
    rw [h.count, Res.ok_bind]
    rfl
  have hne : 0 < es.length := List.length_pos_iff.2 he
  let kk : Nat → K := fun i => (es[i - 1]?.getD es[0]).2.1
  have hkk : ∀ i (hi : i < es.length), kk (i + 1) = es[i].2.1 := by
    intro i hi
    show (es[i + 1 - 1]?.getD es[0]).2.1 = _
    simp [hi]
  obtain ⟨c, e, h1, h2, h3, h4⟩ := Search.bsLoop_spec false
    (fun p => l.slot.rd (M + 1) p >>= l.keys.rd M) k kk 1 (es.length + 1)
    (by
      intro i hi1 hi2
      obtain ⟨j, rfl⟩ : ∃ j, i = j + 1 := ⟨i - 1, by omega⟩
      rw [h.slot (by omega), Res.ok_bind, h.key (List.getElem_mem _), hkk])
    (by
      intro i j hi hij hj
      obtain ⟨i', rfl⟩ : ∃ i', i = i' + 1 := ⟨i - 1, by omega⟩
      obtain ⟨j', rfl⟩ : ∃ j', j = j' + 1 := ⟨j - 1, by omega⟩
      rw [hkk i' (by omega), hkk j' (by omega)]
      exact List.pairwise_iff_getElem.1 h.sorted i' j' (by omega) (by omega) (by omega))
    ((es.length : Int) - 1 + 1).toNat 1 1 es.length (by omega) (by omega) (by omega) (by omega)
    (by intro i _ _; omega) (by intro i _ _; omega) (by omega)
  refine ⟨es.take (c - 1), es.drop (c - 1), (List.take_append_drop _ _).symm, ?_, ?_, ?_⟩
  · unfold Leaf.pos Search.binarySearchSlots
    rw [h.count, Res.ok_bind, e, List.length_take]
    congr 1; omega
  · intro x hx
    obtain ⟨i, hi, rfl⟩ := List.getElem_of_mem hx
    rw [List.length_take] at hi
    rw [List.getElem_take, ← hkk i (by omega)]
    simpa using h3 (i + 1) (by omega) (by omega)
  · intro x hx
    obtain ⟨i, hi, rfl⟩ := List.getElem_of_mem hx
    rw [List.length_drop] at hi
    rw [List.getElem_drop, ← hkk (c - 1 + i) (by omega)]
    simpa using h4 (c - 1 + i + 1) (by omega) (by omega)

/-- What `lookup` and the test for duplicates read at the found position. -/
theorem hit (h : LeafOK l es) {a b : List (Nat × K × V)} {e : Nat × K × V} (hes : es = a ++ e :: b) :
    l.slot.rd (M + 1) (a.length + 1) = .ok e.1 ∧ l.keys.rd M e.1 = .ok e.2.1 := by
  have hl : a.length < es.length := by rw [hes]; simp
  have hm : e ∈ es := by rw [hes]; simp
  refine ⟨?_, h.key hm⟩
  rw [h.slot hl]
  congr 1
  subst hes
  simp

theorem lookup (h : LeafOK l es) (k : K) :
    l.lookup k = .ok ((es.find? (fun e => e.2.1 = k)).map (·.2.2)) := by
  obtain ⟨a, b, hes, hp, ha, hb⟩ := h.pos k
  have ha' : a.find? (fun e => e.2.1 = k) = none := by
    rw [List.find?_eq_none]
    intro e he
    simpa using ne_of_lt (ha e he)
  unfold Leaf.lookup
  rw [hp, Res.ok_bind, h.count, Res.ok_bind]
  cases b with
  | nil =>
    rw [List.append_nil] at hes
    subst hes
    rw [if_neg (by omega), ha']; rfl
  | cons e b =>
    obtain ⟨h1, h2⟩ := h.hit hes
    rw [if_pos (by rw [hes]; simp), h1, Res.ok_bind, h2, Res.ok_bind]
    rw [hes, List.find?_append, ha', Option.none_or]
    by_cases he : e.2.1 = k
    · rw [if_pos he, h.val (by rw [hes]; simp), Res.ok_bind, List.find?_cons_of_pos (by simpa using he)]
      rfl
    · rw [if_neg he, List.find?_cons_of_neg (by simpa using he)]
      have : b.find? (fun e => e.2.1 = k) = none := by
        rw [List.find?_eq_none]
        intro x hx
        have hs := h.sorted
        rw [hes, List.pairwise_append] at hs
        have hlt := (List.pairwise_cons.1 hs.2.1).1 x hx
        have := lt_of_le_of_lt (hb e (by simp)) hlt
        simpa using ne_of_gt this
      rw [this]; rfl

/-- A free array position exists as long as the leaf is not full. -/
theorem free (h : LeafOK l es) (hlt : es.length < M) :
    l.bits.getFreeZero < M ∧ l.bits.getFreeZero ∉ es.map (·.1) := by
  rcases Bitmap.getFreeZero_spec l.bits with ⟨h1, h2, _⟩ | ⟨_, h2⟩
  · exact ⟨h1, fun hm => by rw [(h.bits _ h1).2 hm] at h2; exact absurd h2 (by simp)⟩
  · exfalso
    have hsub : Finset.range M ⊆ (es.map (·.1)).toFinset := by
      intro p hp
      rw [List.mem_toFinset]
      exact (h.bits p (Finset.mem_range.1 hp)).1 (h2 p (Finset.mem_range.1 hp))
    have := Finset.card_le_card hsub
    rw [Finset.card_range] at this
    have h3 := List.toFinset_card_le (es.map (·.1))
    rw [List.length_map] at h3
    omega

theorem insertAt {a b : List (Nat × K × V)} (h : LeafOK l (a ++ b)) (hlt : (a ++ b).length < M)
    (k : K) (v : V) (ha : ∀ e ∈ a, e.2.1 < k) (hb : ∀ e ∈ b, k < e.2.1) :
    ∃ l' u, l.insertAt (a.length + 1) k v = .ok l' ∧ LeafOK l' (a ++ (u, k, v) :: b) := by
  obtain ⟨hu, hnu⟩ := h.free hlt
  generalize hU : l.bits.getFreeZero = u at hu hnu
  have hlen : (a ++ b).length = a.length + b.length := List.length_append
  have hrep := h.slots
  rw [List.map_append, ← List.cons_append] at hrep
  obtain ⟨s1, e1, hs1⟩ := Slots.insert_rep (cap := M + 1) u hrep (by simp; omega)
  obtain ⟨b1, eb, hb1⟩ := bit_set l.bits u true hu
  simp only [List.length_cons, List.length_map] at e1
  obtain ⟨s0, e0, e1'⟩ := (Res.bind_eq_ok).1 e1
  have hc1 : s1 0 = some (a ++ b).length := by
    have := hs1 0 (by simp)
    simpa using this
  refine ⟨⟨fun j => if j = 0 then some ((a ++ b).length + 1) else s1 j, b1,
    fun j => if j = u then some k else l.keys j, fun j => if j = u then some v else l.vals j⟩, u, ?_, ?_⟩
  · unfold Leaf.insertAt
    rw [if_pos (by omega)]
    simp only [hU]
    rw [Slots.wr_ok _ _ hu, Res.ok_bind, Slots.wr_ok _ _ hu, Res.ok_bind, h.count, Res.ok_bind]
    have : (a ++ b).length + 1 = a.length + 1 + b.length := by omega
    rw [this, e0, Res.ok_bind, e1', Res.ok_bind, Slots.rd_ok (by omega) hc1, Res.ok_bind,
      Slots.wr_ok _ _ (by omega), Res.ok_bind, eb, Res.ok_bind, Res.pure_eq, this]
  · refine ⟨?_, ?_, ?_, ?_, ?_, ?_⟩
    · intro j hj
      by_cases hj0 : j = 0
      · subst hj0; simp; omega
      · simp only [if_neg hj0]
        rw [hs1 j (by simpa using hj)]
        obtain ⟨j', rfl⟩ : ∃ j', j = j' + 1 := ⟨j - 1, by omega⟩
        simp
    · intro e he
      simp only [List.mem_append, List.mem_cons] at he
      by_cases heu : e = (u, k, v)
      · subst heu; simp [hu]
      · have hin : e ∈ a ++ b := by
          rcases he with h1 | h1 | h1
          · exact List.mem_append_left _ h1
          · exact absurd h1 heu
          · exact List.mem_append_right _ h1
        have hne : e.1 ≠ u := fun hh => hnu (hh ▸ List.mem_map_of_mem hin)
        simpa [hne] using h.ent e hin
    · rw [List.map_append, List.map_cons]
      have := h.nodup
      rw [List.map_append] at this hnu
      exact List.nodup_middle.2 (List.nodup_cons.2 ⟨hnu, this⟩)
    · intro p hp
      simp only
      rw [hb1 p]
      have hiff := h.bits p hp
      by_cases hpu : p = u
      · subst hpu; simp
      · rw [if_neg hpu, hiff]
        simp [hpu]
    · have hs := h.sorted
      rw [List.pairwise_append] at hs ⊢
      refine ⟨hs.1, List.pairwise_cons.2 ⟨fun x hx => hb x hx, hs.2.1⟩, ?_⟩
      intro x hx y hy
      rcases List.mem_cons.1 hy with rfl | hy
      · exact ha x hx
      · exact hs.2.2 x hx y hy
    · simp; omega

end LeafOK

/-! ## Splitting -/

theorem moveOut_ok (src : Leaf K V M) (mid : Nat) (b : List (Nat × K × V))
    (hs : ∀ j (hj : j < b.length), src.slot.rd (M + 1) (j + 1 + mid) = .ok b[j].1)
    (hk : ∀ e ∈ b, src.keys.rd M e.1 = .ok e.2.1 ∧ src.vals.rd M e.1 = .ok e.2.2)
    (hb : b.length ≤ M) (n : Nat) :
    ∀ (i : Nat) (sib : Leaf K V M), i + n = b.length →
    ∃ sib', Leaf.moveOut src mid (i + 1) n sib = .ok sib' ∧
      (∀ j, sib'.slot j = if i + 1 ≤ j ∧ j < i + 1 + n then some (j - 1) else sib.slot j) ∧
      (∀ j, sib'.keys j = if i ≤ j ∧ j < i + n then b[j]?.map (·.2.1) else sib.keys j) ∧
      (∀ j, sib'.vals j = if i ≤ j ∧ j < i + n then b[j]?.map (·.2.2) else sib.vals j) ∧
      (∀ p, Bitmap.bit sib'.bits p = if i ≤ p ∧ p < i + n then true else Bitmap.bit sib.bits p) := by
  induction n with
  | zero =>
    intro i sib _
    refine ⟨sib, rfl, ?_, ?_, ?_, ?_⟩ <;> intro j <;> rw [if_neg (by omega)]
  | succ n ih =>
    intro i sib hin
    have hi : i < b.length := by omega
    obtain ⟨b1, eb, hb1⟩ := bit_set sib.bits i true (by omega)
    obtain ⟨k1, k2⟩ := hk b[i] (List.getElem_mem _)
    rw [Leaf.moveOut, Nat.add_sub_cancel, Slots.wr_ok _ _ (by omega), Res.ok_bind, eb, Res.ok_bind,
      hs i hi, Res.ok_bind, k1, Res.ok_bind, Slots.wr_ok _ _ (by omega), Res.ok_bind, k2, Res.ok_bind,
      Slots.wr_ok _ _ (by omega), Res.ok_bind]
    obtain ⟨sib', e, h1, h2, h3, h4⟩ := ih (i + 1)
      ⟨fun j => if j = i + 1 then some i else sib.slot j, b1,
        fun j => if j = i then some b[i].2.1 else sib.keys j,
        fun j => if j = i then some b[i].2.2 else sib.vals j⟩ (by omega)
    refine ⟨sib', e, ?_, ?_, ?_, ?_⟩
    · intro j
      rw [h1 j]
      by_cases hj : j = i + 1
      · subst hj; rw [if_neg (by omega), if_pos (by omega)]; simp
      · simp only [if_neg hj]
        by_cases hh : i + 1 + 1 ≤ j ∧ j < i + 1 + 1 + n
        · rw [if_pos hh, if_pos (by omega)]
        · rw [if_neg hh, if_neg (by omega)]
    · intro j
      rw [h2 j]
      by_cases hj : j = i
      · subst hj; rw [if_neg (by omega), if_pos (by omega)]; simp [hi]
      · simp only [if_neg hj]
        by_cases hh : i + 1 ≤ j ∧ j < i + 1 + n
        · rw [if_pos hh, if_pos (by omega)]
        · rw [if_neg hh, if_neg (by omega)]
    · intro j
      rw [h3 j]
      by_cases hj : j = i
      · subst hj; rw [if_neg (by omega), if_pos (by omega)]; simp [hi]
      · simp only [if_neg hj]
        by_cases hh : i + 1 ≤ j ∧ j < i + 1 + n
        · rw [if_pos hh, if_pos (by omega)]
        · rw [if_neg hh, if_neg (by omega)]
    · intro j
      rw [h4 j]
      simp only
      rw [hb1 j]
      by_cases hj : j = i
      · subst hj; rw [if_neg (by omega), if_pos rfl, if_pos (by omega)]
      · rw [if_neg hj]
        by_cases hh : i + 1 ≤ j ∧ j < i + 1 + n
        · rw [if_pos hh, if_pos (by omega)]
        · rw [if_neg hh, if_neg (by omega)]

theorem clear_ok (slot : Slots Nat) (ss : List Nat) (hM : ∀ s ∈ ss, s < M) :
    ∀ (i : Nat) (b : Bitmap M),
    (∀ j (hj : j < ss.length), slot.rd (M + 1) (i + j + 1) = .ok ss[j]) →
    ∃ b', Leaf.clear slot i ss.length b = .ok b' ∧
      ∀ p, Bitmap.bit b' p = if p ∈ ss then false else Bitmap.bit b p := by
  induction ss with
  | nil => intro i b _; exact ⟨b, rfl, fun p => by simp⟩
  | cons s ss ih =>
    intro i b hs
    obtain ⟨b1, e1, hb1⟩ := bit_set b s false (hM s (by simp))
    obtain ⟨b2, e2, hb2⟩ := ih (fun x hx => hM x (by simp [hx])) (i + 1) b1 (fun j hj => by
      have := hs (j + 1) (by simp; omega)
      rw [show i + 1 + j + 1 = i + (j + 1) + 1 by omega, this]; simp)
    refine ⟨b2, ?_, ?_⟩
    · rw [List.length_cons, Leaf.clear]
      have := hs 0 (by simp)
      rw [show i + 1 = i + 0 + 1 by omega, this, Res.ok_bind, List.getElem_cons_zero,
        Bitmap.reset_eq_set, e1, Res.ok_bind]
      exact e2
    · intro p
      rw [hb2 p, hb1 p]
      by_cases h1 : p ∈ ss
      · simp [h1]
      · by_cases h2 : p = s
        · simp [h2]
        · simp [h1, h2]

/-- The entries of the sibling: the same keys and values at the positions `0, 1, …`. -/
def renum (b : List (Nat × K × V)) : List (Nat × K × V) := b.mapIdx fun i e => (i, e.2)

theorem renum_length (b : List (Nat × K × V)) : (renum b).length = b.length := by simp [renum]

theorem renum_snd (b : List (Nat × K × V)) : (renum b).map (·.2) = b.map (·.2) := by
  apply List.ext_getElem
  · simp [renum]
  · intro i h1 h2
    simp [renum]

theorem renum_fst (b : List (Nat × K × V)) : (renum b).map (·.1) = List.range b.length := by
  apply List.ext_getElem
  · simp [renum]
  · intro i h1 h2
    simp [renum]

theorem mem_renum {b : List (Nat × K × V)} {e : Nat × K × V} :
    e ∈ renum b ↔ ∃ h : e.1 < b.length, e.2 = b[e.1].2 := by
  unfold renum
  rw [List.mem_mapIdx]
  constructor
  · rintro ⟨i, hi, rfl⟩; exact ⟨hi, rfl⟩
  · rintro ⟨h, he⟩; exact ⟨e.1, h, by rw [← he]⟩

theorem LeafOK.split {l : Leaf K V M} {a b : List (Nat × K × V)} (junk : Option Nat)
    (h : LeafOK l (a ++ b)) (hfull : (a ++ b).length = M) (ha : a.length = (M + 1) / 2) (hM : 1 < M) :
    ∃ l' r, l.split junk = .ok (l', r) ∧ LeafOK l' a ∧ LeafOK r (renum b) := by
  have hlen : a.length + b.length = M := by rw [← hfull, List.length_append]
  let slot : Slots Nat := fun j => if j = 0 then some ((M + 1) / 2) else l.slot j
  have hslot : ∀ j (hj : j < b.length), slot.rd (M + 1) (j + 1 + (M + 1) / 2) = .ok b[j].1 := by
    intro j hj
    have := h.slot (i := a.length + j) (by simp; omega)
    rw [List.getElem_append_right (by omega)] at this
    simp only [Nat.add_sub_cancel_left] at this
    unfold Slots.rd at this ⊢
    rw [← ha, show j + 1 + a.length = a.length + j + 1 by omega]
    simp only [slot]
    rw [if_neg (c := a.length + j + 1 = 0) (by omega)]
    exact this
  obtain ⟨r, er, r1, r2, r3, r4⟩ := moveOut_ok { l with slot := slot } ((M + 1) / 2) b hslot
    (fun e he => ⟨h.key (List.mem_append_right _ he), h.val (List.mem_append_right _ he)⟩) (by omega)
    b.length 0 { (Leaf.fresh M junk : Leaf K V M) with
      slot := fun j => if j = 0 then some b.length else (Leaf.fresh M junk : Leaf K V M).slot j } (by omega)
  obtain ⟨b', eb, hb'⟩ := clear_ok (M := M) slot (b.map (·.1))
    (by
      intro s hs
      obtain ⟨e, he, rfl⟩ := List.mem_map.1 hs
      exact (h.ent e (List.mem_append_right _ he)).1)
    ((M + 1) / 2) l.bits
    (by
      intro j hj
      rw [List.length_map] at hj
      rw [show (M + 1) / 2 + j + 1 = j + 1 + (M + 1) / 2 by omega, hslot j hj]
      simp)
  rw [List.length_map] at eb
  refine ⟨{ l with slot := slot, bits := b' }, r, ?_, ?_, ?_⟩
  · unfold Leaf.split
    rw [h.count, Res.ok_bind]
    dsimp only
    rw [Slots.wr_ok _ _ (by omega), Res.ok_bind, Slots.wr_ok _ _ (by omega), Res.ok_bind]
    have e1 : (a ++ b).length - (M + 1) / 2 = b.length := by rw [List.length_append]; omega
    have e2 : M - (M + 1) / 2 = b.length := by omega
    rw [e1, e2]
    change (Leaf.moveOut { l with slot := slot } ((M + 1) / 2) 1 b.length _ >>= _) = _
    rw [er, Res.ok_bind]
    change (Leaf.clear slot _ _ _ >>= _) = _
    have hb0 : 0 < b.length := by omega
    have r1' : r.slot 1 = some 0 := by rw [r1 1, if_pos (by omega)]
    have r2' : r.keys 0 = some b[0].2.1 := by rw [r2 0, if_pos (by omega)]; simp [hb0]
    rw [eb, Res.ok_bind, Slots.rd_ok (by omega) r1', Res.ok_bind, Slots.rd_ok (by omega) r2', Res.ok_bind]
    rfl
  · have hnd := h.nodup
    rw [List.map_append, List.nodup_append] at hnd
    have hsrt := h.sorted
    rw [List.pairwise_append] at hsrt
    refine ⟨?_, fun e he => h.ent e (List.mem_append_left _ he), hnd.1, ?_, hsrt.1, by omega⟩
    · intro j hj
      simp only [List.length_cons, List.length_map] at hj
      by_cases hj0 : j = 0
      · subst hj0
        simp [slot, ha]
      · have := h.slots j (by simp; omega)
        simp only [slot, if_neg hj0, this]
        obtain ⟨j', rfl⟩ : ∃ j', j = j' + 1 := ⟨j - 1, by omega⟩
        rw [List.getElem?_cons_succ, List.getElem?_cons_succ, List.map_append,
          List.getElem?_append_left (by simp; omega)]
    · intro p hp
      simp only
      rw [hb' p]
      have := h.bits p hp
      rw [List.map_append, List.mem_append] at this
      by_cases hpb : p ∈ b.map (·.1)
      · rw [if_pos hpb]
        simp only [Bool.false_eq_true, false_iff]
        intro hpa
        exact hnd.2.2 p hpa p hpb rfl
      · rw [if_neg hpb, this]
        simp [hpb]
  · have hsrt := h.sorted
    rw [List.pairwise_append] at hsrt
    refine ⟨?_, ?_, ?_, ?_, ?_, ?_⟩
    · intro j hj
      rw [renum_length, renum_fst] at hj ⊢
      simp only [List.length_cons, List.length_range] at hj
      rw [r1 j]
      by_cases hj0 : j = 0
      · subst hj0; simp
      · rw [if_pos (by omega)]
        obtain ⟨j', rfl⟩ : ∃ j', j = j' + 1 := ⟨j - 1, by omega⟩
        rw [List.getElem?_cons_succ, List.getElem?_range (by omega)]
        rfl
    · intro e he
      obtain ⟨h1, h2⟩ := mem_renum.1 he
      rw [r2, r3, if_pos (by omega), if_pos (by omega), h2]
      simp [h1]
      omega
    · rw [renum_fst]; exact List.nodup_range
    · intro p hp
      rw [r4 p, renum_fst]
      by_cases hpb : p < b.length
      · simp [hpb]
      · rw [if_neg (by omega)]
        simp [Leaf.fresh, bit_fresh]
        omega
    · have : ((renum b).map (·.2)).Pairwise (fun x y => x.1 < y.1) := by
        rw [renum_snd]
        exact List.pairwise_map.2 hsrt.2.1
      exact (List.pairwise_map (f := fun x : Nat × K × V => x.2)).1 this
    · rw [renum_length]; omega

/-! ## `insertInLeafNode` -/

namespace LeafOK

variable {l : Leaf K V M} {es : List (Nat × K × V)}

/-- A stored key: the value is replaced. -/
theorem insert_dup (junk : Option Nat) {a b : List (Nat × K × V)} {s : Nat} {k : K} {w : V}
    (h : LeafOK l (a ++ (s, k, w) :: b)) (v : V) :
    ∃ l', l.insert junk k v = .ok (l', none) ∧ LeafOK l' (a ++ (s, k, v) :: b) := by
  have hsrt := h.sorted
  rw [List.pairwise_append] at hsrt
  have ha : ∀ e ∈ a, e.2.1 < k := fun e he => hsrt.2.2 e he (s, k, w) (by simp)
  have hb : ∀ e ∈ b, k < e.2.1 := fun e he => (List.pairwise_cons.1 hsrt.2.1).1 e he
  obtain ⟨a', b', hes, hp, ha', hb'⟩ := h.pos k
  have hla : a'.length = a.length := by
    rcases Nat.lt_trichotomy a'.length a.length with hc | hc | hc
    · exfalso
      have : a[a'.length] ∈ b' := by
        have h1 : (a ++ (s, k, w) :: b)[a'.length]? = some a[a'.length] := by
          rw [List.getElem?_append_left hc]; simp [hc]
        rw [hes, List.getElem?_append_right (by omega), Nat.sub_self] at h1
        exact List.mem_of_getElem? h1
      exact absurd (ha _ (List.getElem_mem hc)) (not_lt.2 (hb' _ this))
    · exact hc
    · exfalso
      have : (s, k, w) ∈ a' := by
        have h1 : (a ++ (s, k, w) :: b)[a.length]? = some (s, k, w) := by simp
        rw [hes, List.getElem?_append_left hc] at h1
        exact List.mem_of_getElem? h1
      exact lt_irrefl _ (ha' _ this)
  have hsM := (h.ent (s, k, w) (by simp)).1
  obtain ⟨h1, h2⟩ := h.hit rfl
  refine ⟨{ l with vals := fun j => if j = s then some v else l.vals j }, ?_, ?_⟩
  · unfold Leaf.insert
    rw [hp, Res.ok_bind, h.count, Res.ok_bind, hla, if_pos (by simp), h1, Res.ok_bind, h2, Res.ok_bind,
      if_pos rfl, Res.pure_eq, Res.ok_bind]
    dsimp only
    rw [Slots.wr_ok _ _ hsM, Res.ok_bind]
    rfl
  · refine ⟨?_, ?_, ?_, ?_, ?_, ?_⟩
    · simpa using h.slots
    · intro e he
      have hnd := h.nodup
      rw [List.map_append, List.map_cons, List.nodup_middle, List.nodup_cons] at hnd
      simp only [List.mem_append, List.mem_cons] at he
      by_cases hes : e = (s, k, v)
      · subst hes
        exact ⟨hsM, (h.ent (s, k, w) (by simp)).2.1, by simp⟩
      · have hin : e ∈ a ++ b := by
          rcases he with h1 | h1 | h1
          · exact List.mem_append_left _ h1
          · exact absurd h1 hes
          · exact List.mem_append_right _ h1
        have hne : e.1 ≠ s := fun hh => hnd.1 (by
          rw [← List.map_append]
          have hm := List.mem_map_of_mem (f := fun x : Nat × K × V => x.1) hin
          simp only [hh] at hm
          exact hm)
        have := h.ent e (by
          rcases List.mem_append.1 hin with h1 | h1
          · exact List.mem_append_left _ h1
          · exact List.mem_append_right _ (List.mem_cons_of_mem _ h1))
        simpa [hne] using this
    · simpa using h.nodup
    · simpa using h.bits
    · rw [List.pairwise_append]
      exact ⟨hsrt.1, List.pairwise_cons.2 ⟨fun x hx => hb x hx,
        (List.pairwise_cons.1 hsrt.2.1).2⟩, fun x hx y hy => by
          rcases List.mem_cons.1 hy with rfl | hy
          · exact ha x hx
          · exact hsrt.2.2 x hx y (List.mem_cons_of_mem _ hy)⟩
    · simpa using h.le

/-- Where a new key belongs, and that the test for duplicates fails. -/
theorem pos_new (h : LeafOK l es) {k : K} (hk : ∀ e ∈ es, e.2.1 ≠ k) :
    ∃ a b, es = a ++ b ∧ l.pos k = .ok (a.length + 1) ∧
      (∀ e ∈ a, e.2.1 < k) ∧ (∀ e ∈ b, k < e.2.1) ∧
      (if a.length + 1 ≤ es.length then do
          let s ← l.slot.rd (M + 1) (a.length + 1)
          let k' ← l.keys.rd M s
          pure (if k' = k then some s else none)
        else pure none : Res (Option Nat)) = .ok none := by
  obtain ⟨a, b, hes, hp, ha, hb⟩ := h.pos k
  refine ⟨a, b, hes, hp, ha, fun e he => lt_of_le_of_ne (hb e he) (fun hh => hk e (by rw [hes]; simp [he]) hh.symm), ?_⟩
  cases b with
  | nil => rw [if_neg (by rw [hes]; simp)]; rfl
  | cons e b =>
    obtain ⟨h1, h2⟩ := h.hit hes
    rw [if_pos (by rw [hes]; simp), h1, Res.ok_bind, h2, Res.ok_bind, if_neg (hk e (by rw [hes]; simp))]
    rfl

/-- A new key with room in the leaf. -/
theorem insert_room (junk : Option Nat) (h : LeafOK l es) (hlt : es.length < M) {k : K}
    (hk : ∀ e ∈ es, e.2.1 ≠ k) (v : V) :
    ∃ l' a b u, es = a ++ b ∧ (∀ e ∈ a, e.2.1 < k) ∧ (∀ e ∈ b, k < e.2.1) ∧
      l.insert junk k v = .ok (l', none) ∧ LeafOK l' (a ++ (u, k, v) :: b) := by
  obtain ⟨a, b, hes, hp, ha, hb, hdup⟩ := h.pos_new hk
  subst hes
  obtain ⟨l', u, e, hl'⟩ := h.insertAt hlt k v ha hb
  refine ⟨l', a, b, u, rfl, ha, hb, ?_, hl'⟩
  unfold Leaf.insert
  rw [hp, Res.ok_bind, h.count, Res.ok_bind, hdup, Res.ok_bind]
  dsimp only
  rw [if_neg (by omega), e, Res.ok_bind]
  rfl

/-- A new key at a full leaf: both halves together hold the old entries and the new one, and the
separator is the smallest key of the right half.  The keys of the left half are smaller than the separator
unless the key belongs exactly to the middle of the leaf (see `C45_lost_key`). -/
theorem insert_full_ord (junk : Option Nat) (h : LeafOK l es) (hfull : es.length = M) (hM : 1 < M) {k : K}
    (hk : ∀ e ∈ es, e.2.1 ≠ k) (v : V) :
    ∃ l' r ls rs e0, l.insert junk k v = .ok (l', some (e0.2.1, r)) ∧ LeafOK l' ls ∧
      LeafOK r (e0 :: rs) ∧ ((ls ++ e0 :: rs).map (·.2)).Perm ((k, v) :: es.map (·.2)) ∧
      (l.pos k ≠ .ok ((M + 1) / 2) → ∀ e ∈ ls, e.2.1 < e0.2.1) := by
  obtain ⟨a, b, hes, hp, ha, hb, hdup⟩ := h.pos_new hk
  have hx : es.take ((M + 1) / 2) ++ es.drop ((M + 1) / 2) = es := List.take_append_drop _ _
  obtain ⟨l1, r1, e1, hl1, hr1⟩ := LeafOK.split junk (l := l) (a := es.take ((M + 1) / 2))
    (b := es.drop ((M + 1) / 2)) (by rw [hx]; exact h) (by rw [hx]; exact hfull)
    (by rw [List.length_take]; omega) hM
  have hcross : ∀ x ∈ es.take ((M + 1) / 2), ∀ y ∈ renum (es.drop ((M + 1) / 2)), x.2.1 < y.2.1 := by
    intro x hx1 y hy
    have hs := h.sorted
    rw [← hx, List.pairwise_append] at hs
    obtain ⟨h1, h2⟩ := mem_renum.1 hy
    rw [h2]
    exact hs.2.2 x hx1 _ (List.getElem_mem h1)
  have key0 : l.insert junk k v = (do
      let (left, right) ← (if a.length + 1 < (M + 1) / 2 then do
          let left ← l1.insertAt (a.length + 1) k v
          pure (left, r1)
        else do
          let q ← r1.pos k
          let right ← r1.insertAt q k v
          pure (l1, right) : Res (Leaf K V M × Leaf K V M))
      let s ← right.slot.rd (M + 1) 1
      let sep ← right.keys.rd M s
      pure (left, some (sep, right))) := by
    unfold Leaf.insert
    rw [hp, Res.ok_bind, h.count, Res.ok_bind, hdup, Res.ok_bind]
    dsimp only
    rw [if_pos hfull, e1, Res.ok_bind]
  rw [key0]
  by_cases hc : a.length + 1 < (M + 1) / 2
  · have htake : es.take ((M + 1) / 2) = a ++ b.take ((M + 1) / 2 - a.length) := by
      rw [hes, List.take_append, List.take_of_length_le (by omega)]
    have htl : (es.take ((M + 1) / 2)).length = (M + 1) / 2 := by rw [List.length_take]; omega
    have hdl : (es.drop ((M + 1) / 2)).length = M - (M + 1) / 2 := by rw [List.length_drop]; omega
    obtain ⟨l2, u, e2, hl2⟩ := LeafOK.insertAt (htake ▸ hl1) (by rw [← htake]; omega) k v ha
      (fun e he => hb e (List.mem_of_mem_take he))
    cases hr : renum (es.drop ((M + 1) / 2)) with
    | nil =>
      have := renum_length (es.drop ((M + 1) / 2))
      rw [hr, hdl] at this
      simp at this
      omega
    | cons e0 rs =>
      rw [hr] at hr1
      refine ⟨l2, r1, _, rs, e0, ?_, hl2, hr1, ?_, ?_⟩
      · rw [if_pos hc, e2, Res.ok_bind, Res.pure_eq, Res.ok_bind]
        dsimp only
        have hs0 := hr1.slot (i := 0) (by simp)
        rw [Nat.zero_add, List.getElem_cons_zero] at hs0
        rw [hs0, Res.ok_bind, hr1.key (by simp), Res.ok_bind]
        rfl
      · rw [List.map_append, ← hr, renum_snd, List.map_append, List.map_cons]
        have : es.map (·.2) = a.map (·.2) ++ (b.take ((M + 1) / 2 - a.length)).map (·.2) ++
            (es.drop ((M + 1) / 2)).map (·.2) := by
          rw [← List.map_append, ← htake, ← List.map_append, hx]
        rw [this, List.append_assoc, List.append_assoc, List.cons_append]
        exact List.perm_middle
      · intro _ e he
        have he0 : e0 ∈ renum (es.drop ((M + 1) / 2)) := by rw [hr]; simp
        rcases List.mem_append.1 he with h1 | h1
        · exact hcross e (by rw [htake]; exact List.mem_append_left _ h1) e0 he0
        · rcases List.mem_cons.1 h1 with rfl | h1
          · obtain ⟨h2, h3⟩ := mem_renum.1 he0
            rw [h3]
            refine hb _ ?_
            have h4 : es.drop ((M + 1) / 2) = b.drop ((M + 1) / 2 - a.length) := by
              rw [hes, List.drop_append, List.drop_of_length_le (by omega), List.nil_append]
            have h5 := List.getElem_mem h2
            generalize (es.drop ((M + 1) / 2))[(e0.1)] = y at h5
            rw [h4] at h5
            exact List.mem_of_mem_drop h5
          · exact hcross e (by rw [htake]; exact List.mem_append_right _ h1) e0 he0
  · have hrl : (renum (es.drop ((M + 1) / 2))).length = M - (M + 1) / 2 := by
      rw [renum_length, List.length_drop]; omega
    have hkr : ∀ e ∈ renum (es.drop ((M + 1) / 2)), e.2.1 ≠ k := by
      intro e he
      have h1 : e.2 ∈ (renum (es.drop ((M + 1) / 2))).map (·.2) := List.mem_map_of_mem he
      rw [renum_snd] at h1
      obtain ⟨e', he', hee⟩ := List.mem_map.1 h1
      rw [← hee]
      exact hk e' (List.mem_of_mem_drop he')
    obtain ⟨c, d, hcd, hq, hc1, hd1, _⟩ := hr1.pos_new hkr
    obtain ⟨r2, u, e2, hr2⟩ := LeafOK.insertAt (hcd ▸ hr1) (by rw [← hcd]; omega) k v hc1 hd1
    have hperm : (((es.take ((M + 1) / 2)) ++ (c ++ (u, k, v) :: d)).map (·.2)).Perm
        ((k, v) :: es.map (·.2)) := by
      have : es.map (·.2) = (es.take ((M + 1) / 2)).map (·.2) ++ (c.map (·.2) ++ d.map (·.2)) := by
        rw [← List.map_append, ← hcd, renum_snd, ← List.map_append, hx]
      rw [this, List.map_append, List.map_append, List.map_cons, ← List.append_assoc, ← List.append_assoc]
      exact List.perm_middle
    cases hr : c ++ (u, k, v) :: d with
    | nil => simp at hr
    | cons e0 rs =>
      rw [hr] at hr2 hperm
      refine ⟨l1, r2, _, rs, e0, ?_, hl1, hr2, hperm, ?_⟩
      rotate_left
      · intro hmid e he
        have hal : (M + 1) / 2 ≤ a.length := by
          rw [hp] at hmid
          have : a.length + 1 ≠ (M + 1) / 2 := fun hh => hmid (by rw [hh])
          omega
        have he0 : e0 ∈ c ++ (u, k, v) :: d := by rw [hr]; simp
        by_cases h0 : e0 = (u, k, v)
        · rw [h0]
          refine ha e ?_
          rw [hes, List.take_append_of_le_length hal] at he
          exact List.mem_of_mem_take he
        · refine hcross e he e0 ?_
          rw [hcd]
          rcases List.mem_append.1 he0 with h1 | h1
          · exact List.mem_append_left _ h1
          · exact List.mem_append_right _ ((List.mem_cons.1 h1).resolve_left h0)
      rw [if_neg hc, hq, Res.ok_bind, e2, Res.ok_bind, Res.pure_eq, Res.ok_bind]
      dsimp only
      have hs0 := hr2.slot (i := 0) (by simp)
      rw [Nat.zero_add, List.getElem_cons_zero] at hs0
      rw [hs0, Res.ok_bind, hr2.key (by simp), Res.ok_bind]
      rfl

/-- The same without the order. -/
theorem insert_full (junk : Option Nat) (h : LeafOK l es) (hfull : es.length = M) (hM : 1 < M) {k : K}
    (hk : ∀ e ∈ es, e.2.1 ≠ k) (v : V) :
    ∃ l' r ls rs e0, l.insert junk k v = .ok (l', some (e0.2.1, r)) ∧ LeafOK l' ls ∧
      LeafOK r (e0 :: rs) ∧ ((ls ++ e0 :: rs).map (·.2)).Perm ((k, v) :: es.map (·.2)) := by
  obtain ⟨l', r, ls, rs, e0, h1, h2, h3, h4, _⟩ := h.insert_full_ord junk hfull hM hk v
  exact ⟨l', r, ls, rs, e0, h1, h2, h3, h4⟩

/-- A key above all others at a full leaf: the leaf keeps the lower half, the upper half and the new key
are in the sibling. -/
theorem insert_last (junk : Option Nat) (h : LeafOK l es) (hfull : es.length = M) (hM : 1 < M) {k : K}
    (hk : ∀ e ∈ es, e.2.1 < k) (v : V) :
    ∃ l' r sep u, l.insert junk k v = .ok (l', some (sep, r)) ∧ LeafOK l' (es.take ((M + 1) / 2)) ∧
      LeafOK r (renum (es.drop ((M + 1) / 2)) ++ [(u, k, v)]) ∧ ∃ e ∈ es, e.2.1 = sep := by
  obtain ⟨a, b, hes, hp, ha, hb, hdup⟩ := h.pos_new (k := k) (fun e he => ne_of_lt (hk e he))
  have hb0 : b = [] := by
    rcases b with _ | ⟨e, b⟩
    · rfl
    · exact absurd (hk e (by rw [hes]; simp)) (not_lt_of_gt (hb e (by simp)))
  subst hb0
  rw [List.append_nil] at hes
  subst hes
  have hx : es.take ((M + 1) / 2) ++ es.drop ((M + 1) / 2) = es := List.take_append_drop _ _
  obtain ⟨l1, r1, e1, hl1, hr1⟩ := LeafOK.split junk (l := l) (a := es.take ((M + 1) / 2))
    (b := es.drop ((M + 1) / 2)) (by rw [hx]; exact h) (by rw [hx]; exact hfull)
    (by rw [List.length_take]; omega) hM
  have hdl : (es.drop ((M + 1) / 2)).length = M - (M + 1) / 2 := by rw [List.length_drop]; omega
  have hrl : (renum (es.drop ((M + 1) / 2))).length = M - (M + 1) / 2 := by rw [renum_length, hdl]
  have hkr : ∀ e ∈ renum (es.drop ((M + 1) / 2)), e.2.1 < k := by
    intro e he
    obtain ⟨h1, h2⟩ := mem_renum.1 he
    rw [h2]
    exact hk _ (List.mem_of_mem_drop (List.getElem_mem h1))
  obtain ⟨c, d, hcd, hq, hc1, hd1, _⟩ := hr1.pos_new (k := k) (fun e he => ne_of_lt (hkr e he))
  have hd0 : d = [] := by
    rcases d with _ | ⟨e, d⟩
    · rfl
    · exact absurd (hkr e (by rw [hcd]; simp)) (not_lt_of_gt (hd1 e (by simp)))
  subst hd0
  obtain ⟨r2, u, e2, hr2⟩ := LeafOK.insertAt (hcd ▸ hr1) (by rw [← hcd]; omega) k v hc1 hd1
  rw [List.append_nil] at hcd
  subst hcd
  have h0 : 0 < (renum (es.drop ((M + 1) / 2)) ++ [(u, k, v)]).length := by simp
  have hs0 := hr2.slot (i := 0) h0
  have hk0 := hr2.key (List.getElem_mem h0)
  have hne : 0 < (renum (es.drop ((M + 1) / 2))).length := by omega
  refine ⟨l1, r2, (renum (es.drop ((M + 1) / 2)) ++ [(u, k, v)])[0].2.1, u, ?_, hl1, hr2, ?_⟩
  rotate_left
  · rw [List.getElem_append_left hne]
    have := (mem_renum.1 (List.getElem_mem hne)).choose_spec
    rw [this]
    exact ⟨_, List.mem_of_mem_drop (List.getElem_mem _), rfl⟩
  · unfold Leaf.insert
    rw [hp, Res.ok_bind, h.count, Res.ok_bind, hdup, Res.ok_bind]
    dsimp only
    rw [if_pos hfull, e1, Res.ok_bind]
    dsimp only
    rw [if_neg (by omega), hq, Res.ok_bind, e2, Res.ok_bind, Res.pure_eq, Res.ok_bind]
    dsimp only
    rw [hs0, Res.ok_bind, hk0, Res.ok_bind]
    rfl

end LeafOK

/-- A leaf for a single entry cannot be split: the sibling stays empty and its first key is read. -/
theorem LeafOK.insert_single {l : Leaf K V 1} {e : Nat × K × V} (h : LeafOK l [e]) {k : K}
    (hk : e.2.1 ≠ k) (v : V) (junk : Option Nat) : l.insert junk k v = .ub := by
  obtain ⟨a, b, hes, hp, _, _, hdup⟩ := h.pos_new (k := k) (by simpa using hk)
  have hs : l.split junk = .ub := by
    unfold Leaf.split
    rw [h.count, Res.ok_bind]
    dsimp only
    rw [Slots.wr_ok _ _ (by omega), Res.ok_bind, Slots.wr_ok _ _ (by omega), Res.ok_bind]
    show (Leaf.moveOut _ 1 1 0 _ >>= _) = _
    rw [Leaf.moveOut, Res.ok_bind]
    show (Leaf.clear _ 1 0 _ >>= _) = _
    rw [Leaf.clear, Res.ok_bind]
    cases junk with
    | none => rfl
    | some s =>
      have hr : ∀ a : Slots Nat, a 1 = some s → Slots.rd (1 + 1) a 1 = .ok s := fun a ha =>
        Slots.rd_ok (by omega) ha
      rw [hr _ rfl, Res.ok_bind]
      have : Slots.rd 1 (Slots.none : Slots K) s = .ub := by
        unfold Slots.rd
        split <;> rfl
      show (Slots.rd 1 (Slots.none : Slots K) s >>= _) = _
      rw [this]
      rfl
  unfold Leaf.insert
  rw [hp, Res.ok_bind, h.count, Res.ok_bind, hdup, Res.ok_bind]
  dsimp only
  rw [if_pos (by simp), hs]
  rfl

/-! ## `eraseFromLeafNode` -/

theorem closeGap_ok (cap : Nat) (n : Nat) : ∀ (i : Nat) (a : Slots Nat),
    Leaf.closeGap cap i n a = if i + n < cap ∨ n = 0 then
      .ok (fun j => if i ≤ j ∧ j < i + n then a (j + 1) else a j) else .ub := by
  induction n with
  | zero =>
    intro i a
    rw [if_pos (Or.inr rfl), Leaf.closeGap]
    congr 1
    funext j
    rw [if_neg (by omega)]
  | succ n ih =>
    intro i a
    rw [Leaf.closeGap]
    by_cases h : i + 1 < cap
    · rw [if_pos h, ih]
      by_cases h2 : i + 1 + n < cap ∨ n = 0
      · rw [if_pos h2, if_pos (by omega)]
        congr 1
        funext j
        by_cases hj : j = i
        · subst hj; rw [if_neg (by omega), if_pos rfl, if_pos (by omega)]
        · rw [if_neg hj]
          by_cases hh : i + 1 ≤ j ∧ j < i + 1 + n
          · rw [if_pos hh, if_neg (c := j + 1 = i) (by omega), if_pos (by omega)]
          · rw [if_neg hh, if_neg (by omega)]
      · rw [if_neg h2, if_neg (by omega)]
    · rw [if_neg h, if_neg (by omega)]

namespace LeafOK

variable {l : Leaf K V M} {es : List (Nat × K × V)}

theorem pos_hit {a b : List (Nat × K × V)} {s : Nat} {k : K} {w : V}
    (h : LeafOK l (a ++ (s, k, w) :: b)) : l.pos k = .ok (a.length + 1) := by
  have hsrt := h.sorted
  rw [List.pairwise_append] at hsrt
  have ha : ∀ e ∈ a, e.2.1 < k := fun e he => hsrt.2.2 e he (s, k, w) (by simp)
  obtain ⟨a', b', hes, hp, ha', hb'⟩ := h.pos k
  rw [hp]
  congr 2
  rcases Nat.lt_trichotomy a'.length a.length with hc | hc | hc
  · exfalso
    have : a[a'.length] ∈ b' := by
      have h1 : (a ++ (s, k, w) :: b)[a'.length]? = some a[a'.length] := by
        rw [List.getElem?_append_left hc]; simp [hc]
      rw [hes, List.getElem?_append_right (by omega), Nat.sub_self] at h1
      exact List.mem_of_getElem? h1
    exact absurd (ha _ (List.getElem_mem hc)) (not_lt.2 (hb' _ this))
  · exact hc
  · exfalso
    have : (s, k, w) ∈ a' := by
      have h1 : (a ++ (s, k, w) :: b)[a.length]? = some (s, k, w) := by simp
      rw [hes, List.getElem?_append_left hc] at h1
      exact List.mem_of_getElem? h1
    exact lt_irrefl _ (ha' _ this)

/-- A stored key leaves a leaf that is not full. -/
theorem erase_room {a b : List (Nat × K × V)} {s : Nat} {k : K} {w : V}
    (h : LeafOK l (a ++ (s, k, w) :: b)) (hlt : (a ++ (s, k, w) :: b).length < M) :
    ∃ l', l.erase k = .ok (l', true) ∧ LeafOK l' (a ++ b) := by
  have hlen : (a ++ (s, k, w) :: b).length = a.length + b.length + 1 := by simp; omega
  obtain ⟨h1, h2⟩ := h.hit rfl
  have hsM := (h.ent (s, k, w) (by simp)).1
  obtain ⟨b1, eb, hb1⟩ := bit_set l.bits s false hsM
  let slot : Slots Nat := fun j =>
    if a.length + 1 ≤ j ∧ j < a.length + 1 + (b.length + 1) then l.slot (j + 1) else l.slot j
  refine ⟨{ l with slot := fun j => if j = 0 then some (a.length + b.length) else slot j, bits := b1 },
    ?_, ?_⟩
  · unfold Leaf.erase
    rw [h.pos_hit, Res.ok_bind, h1, Res.ok_bind, h2, Res.ok_bind, if_pos rfl, Bitmap.reset_eq_set, eb,
      Res.ok_bind, h.count, Res.ok_bind, closeGap_ok, hlen, if_pos (by omega), Res.ok_bind,
      Slots.wr_ok _ _ (by omega), Res.ok_bind, Res.pure_eq, Nat.add_sub_cancel]
    have : a.length + b.length + 1 + 1 - (a.length + 1) = b.length + 1 := by omega
    rw [this]
  · have hnd := h.nodup
    rw [List.map_append, List.map_cons, List.nodup_middle, List.nodup_cons, ← List.map_append] at hnd
    have hsub : (a ++ b).Sublist (a ++ (s, k, w) :: b) :=
      List.Sublist.append_left (List.sublist_cons_self _ _) _
    refine ⟨?_, fun e he => h.ent e (hsub.subset he), hnd.2, ?_, h.sorted.sublist hsub, ?_⟩
    · intro j hj
      simp only [List.length_cons, List.length_map, List.length_append] at hj
      by_cases hj0 : j = 0
      · subst hj0; simp
      · obtain ⟨j', rfl⟩ : ∃ j', j = j' + 1 := ⟨j - 1, by omega⟩
        simp only [slot, if_neg hj0, List.getElem?_cons_succ, List.map_append]
        by_cases hc : j' < a.length
        · rw [if_neg (by omega), h.slots _ (by simp; omega), List.getElem?_cons_succ, List.map_append,
            List.getElem?_append_left (by simpa using hc), List.getElem?_append_left (by simpa using hc)]
        · rw [if_pos (by omega), h.slots _ (by simp; omega), List.getElem?_cons_succ, List.map_append,
            List.getElem?_append_right (by simp; omega), List.getElem?_append_right (by simp; omega),
            List.map_cons]
          rw [show j' + 1 - (a.map (·.1)).length = j' - (a.map (·.1)).length + 1 by simp; omega,
            List.getElem?_cons_succ]
    · intro p hp
      simp only
      rw [hb1 p]
      have := h.bits p hp
      by_cases hps : p = s
      · subst hps
        rw [if_pos rfl]
        simp only [Bool.false_eq_true, false_iff]
        exact hnd.1
      · rw [if_neg hps, this]
        simp [hps]
    · simp; omega

/-- Erasing a stored key from a full leaf reads behind the slot array. -/
theorem erase_full {a b : List (Nat × K × V)} {s : Nat} {k : K} {w : V}
    (h : LeafOK l (a ++ (s, k, w) :: b)) (hfull : (a ++ (s, k, w) :: b).length = M) :
    l.erase k = .ub := by
  have hlen : (a ++ (s, k, w) :: b).length = a.length + b.length + 1 := by simp; omega
  obtain ⟨h1, h2⟩ := h.hit rfl
  obtain ⟨b1, eb, hb1⟩ := bit_set l.bits s false (h.ent (s, k, w) (by simp)).1
  unfold Leaf.erase
  rw [h.pos_hit, Res.ok_bind, h1, Res.ok_bind, h2, Res.ok_bind, if_pos rfl, Bitmap.reset_eq_set, eb,
    Res.ok_bind, h.count, Res.ok_bind, closeGap_ok, if_neg (by omega)]
  rfl

/-- Erasing a key that is not stored but smaller than some stored key changes nothing. -/
theorem erase_miss (h : LeafOK l es) {k : K} (hk : ∀ e ∈ es, e.2.1 ≠ k) (hlt : ∃ e ∈ es, k < e.2.1) :
    l.erase k = .ok (l, false) := by
  obtain ⟨a, b, hes, hp, ha, hb, _⟩ := h.pos_new hk
  cases b with
  | nil =>
    obtain ⟨e, he, hlt⟩ := hlt
    rw [hes, List.append_nil] at he
    exact absurd hlt (not_lt.2 (le_of_lt (ha e he)))
  | cons e b =>
    obtain ⟨h1, h2⟩ := h.hit hes
    unfold Leaf.erase
    rw [hp, Res.ok_bind, h1, Res.ok_bind, h2, Res.ok_bind, if_neg (hk e (by rw [hes]; simp))]
    rfl

end LeafOK

end Verif.WBTree
