import Verif.WBTree.CrashProps

/-!
# wBPTree.hpp, wHBPTree.hpp: lookups after a crash inside the erase from a leaf (C89, C90)
-/

namespace Verif.WBTree

variable {K V : Type} [LinearOrder K] {N M : Nat}

/-- The search of a leaf whose last slot leads to an arbitrary key. -/
theorem bsLoop_tail (rd : Nat → Res K) (key : K) (k : Nat → K) (lo n : Nat)
    (hrd : ∀ i, lo ≤ i → i ≤ n → rd i = .ok (k i))
    (hsort : ∀ i j, lo ≤ i → i < j → j < n → k i < k j) : ∀
    (fuel pos : Nat) (l r : Int), (r - l + 1).toNat ≤ fuel → (lo : Int) ≤ l → r ≤ (n : Int) → l ≤ r + 1 →
    (∀ i, lo ≤ i → i < n → (i : Int) < l → k i < key) → (∀ i, i < n → r < (i : Int) → key < k i) →
    (r < l → (pos : Int) = l) →
    ∃ c, Search.bsLoop false rd key fuel pos l r = .ok c ∧ lo ≤ c ∧ c ≤ n + 1 ∧
      ((c < n ∧ k c = key) ∨
        ((∀ i, lo ≤ i → i < n → i < c → k i < key) ∧ ∀ i, c ≤ i → i < n → key < k i)) := by
  intro fuel
  induction fuel with
  | zero =>
    intro pos l r hf hl hr hlr hlow hhigh hpos
    rw [Search.bsLoop, if_neg (by omega)]
    have hp := hpos (by omega)
    exact ⟨pos, rfl, by omega, by omega, Or.inr ⟨fun i h1 h2 h3 => hlow i h1 h2 (by omega),
      fun i h1 h2 => hhigh i h2 (by omega)⟩⟩
  | succ fuel ih =>
    intro pos l r hf hl hr hlr hlow hhigh hpos
    rw [Search.bsLoop]
    by_cases hle : l ≤ r
    · rw [if_pos hle]
      generalize hp : ((l + r) / 2).toNat = p
      have hpl : l ≤ (p : Int) := by omega
      have hpr : (p : Int) ≤ r := by omega
      rw [hrd p (by omega) (by omega), Res.ok_bind]
      by_cases he : k p = key
      · rw [if_pos he]
        by_cases hpn : p < n
        · exact ⟨p, rfl, by omega, by omega, Or.inl ⟨by omega, he⟩⟩
        · exact ⟨p, rfl, by omega, by omega, Or.inr ⟨fun i h1 h2 h3 => hlow i h1 h2 (by omega),
            fun i h1 h2 => by omega⟩⟩
      · rw [if_neg he]
        by_cases hlt : k p < key
        · rw [if_pos hlt]
          refine ih (p + 1) ((p : Int) + 1) r (by omega) (by omega) hr (by omega) ?_ hhigh (fun _ => by omega)
          intro i h1 h2 h3
          by_cases hpn : p < n
          · rcases Nat.lt_or_eq_of_le (show i ≤ p by omega) with h | h
            · exact lt_trans (hsort i p h1 h hpn) hlt
            · rw [h]; exact hlt
          · exact hlow i h1 h2 (by omega)
        · rw [if_neg hlt]
          have hgt : key < k p := lt_of_le_of_ne (not_lt.mp hlt) (Ne.symm he)
          refine ih p l ((p : Int) - 1) (by omega) hl (by omega) (by omega) hlow ?_ (by intro h; omega)
          intro i h1 h2
          rcases Nat.lt_or_eq_of_le (show p ≤ i by omega) with h | h
          · exact lt_trans hgt (hsort p i (by omega) h h1)
          · rw [← h]; exact hgt
    · rw [if_neg hle]
      have hp := hpos (by omega)
      exact ⟨pos, rfl, by omega, by omega, Or.inr ⟨fun i h1 h2 h3 => hlow i h1 h2 (by omega),
        fun i h1 h2 => hhigh i h2 (by omega)⟩⟩

/-- The leaf with one slot too many: the entries `L` and one more slot that leads to `z`. -/
structure Tail (l : Leaf K V M) (L : List (Nat × K × V)) (z : Nat × K × V) : Prop where
  num : l.slot 0 = some (L.length + 1)
  slots : ∀ i, (h : i < L.length) → l.slot (i + 1) = some L[i].1
  extra : l.slot (L.length + 1) = some z.1
  ent : ∀ e, e ∈ L ∨ e = z → e.1 < M ∧ l.keys e.1 = some e.2.1 ∧ l.vals e.1 = some e.2.2
  sorted : L.Pairwise (fun a b => a.2.1 < b.2.1)
  le : L.length + 1 ≤ M

/-- The extra slot leads to a smaller key: it is never found. -/
theorem Tail.smaller {l : Leaf K V M} {L : List (Nat × K × V)} {z : Nat × K × V} (h : Tail l L z)
    (hz : ∃ e ∈ L, z.2.1 < e.2.1) : CrashSpec.Reads l.lookup (valOf L) := by
  intro k
  have hle := h.le
  have hs : ∀ i, (hi : i < L.length) → l.slot.rd (M + 1) (i + 1) = .ok L[i].1 := fun i hi =>
    Slots.rd_ok (by omega) (h.slots i hi)
  have hk : ∀ e, e ∈ L ∨ e = z → l.keys.rd M e.1 = .ok e.2.1 := fun e he =>
    Slots.rd_ok (h.ent e he).1 (h.ent e he).2.1
  have hx : l.slot.rd (M + 1) (L.length + 1) = .ok z.1 := Slots.rd_ok (by omega) h.extra
  let g : Nat → K := fun i => (L.getD (i - 1) z).2.1
  have hg : ∀ i, (hi : i < L.length) → g (i + 1) = L[i].2.1 := fun i hi => by
    show (L.getD i z).2.1 = _
    rw [List.getD_eq_getElem?_getD, List.getElem?_eq_getElem hi, Option.getD_some]
  have hgz : g (L.length + 1) = z.2.1 := by
    show (L.getD L.length z).2.1 = _
    rw [List.getD_eq_getElem?_getD, List.getElem?_eq_none (le_refl _), Option.getD_none]
  obtain ⟨c, e, h1, h2, h3⟩ := bsLoop_tail (fun p => l.slot.rd (M + 1) p >>= l.keys.rd M) k g 1 (L.length + 1)
    (by
      intro i h1 h2
      obtain ⟨j, rfl⟩ : ∃ j, i = j + 1 := ⟨i - 1, by omega⟩
      by_cases hj : j < L.length
      · rw [hs j hj, Res.ok_bind, hk _ (Or.inl (List.getElem_mem hj)), hg j hj]
      · obtain rfl : j = L.length := by omega
        rw [hx, Res.ok_bind, hk _ (Or.inr rfl), hgz])
    (by
      intro i j h1 h2 h3
      obtain ⟨i, rfl⟩ : ∃ i', i = i' + 1 := ⟨i - 1, by omega⟩
      obtain ⟨j, rfl⟩ : ∃ j', j = j' + 1 := ⟨j - 1, by omega⟩
      rw [hg i (by omega), hg j (by omega)]
      exact List.pairwise_iff_getElem.1 h.sorted i j (by omega) (by omega) (by omega))
    (((L.length + 1 : Nat) : Int) - 1 + 1).toNat 1 1 (L.length + 1 : Nat) (by omega) (by omega) (by omega) (by omega)
    (by intro i _ _; omega) (by intro i _ _; omega) (by omega)
  have hpos : l.pos k = .ok c := by
    unfold Leaf.pos Search.binarySearchSlots
    rw [Slots.rd_ok (by omega) h.num, Res.ok_bind]
    exact e
  obtain ⟨c', rfl⟩ : ∃ c', c = c' + 1 := ⟨c - 1, by omega⟩
  have hl : l.lookup k = (if c' + 1 ≤ L.length + 1 then do
      let s ← l.slot.rd (M + 1) (c' + 1)
      let k' ← l.keys.rd M s
      if k' = k then do
        let v ← l.vals.rd M s
        pure (some v)
      else pure none
    else pure none) := by
    unfold Leaf.lookup
    rw [hpos, Res.ok_bind, Slots.rd_ok (by omega) h.num, Res.ok_bind]
  rcases h3 with ⟨h4, h5⟩ | ⟨h4, h5⟩
  · have hc : c' < L.length := by omega
    have hm := List.getElem_mem hc
    rw [hg c' hc] at h5
    rw [hl, if_pos (by omega), hs c' hc, Res.ok_bind, hk _ (Or.inl hm), Res.ok_bind, if_pos h5,
      Slots.rd_ok (h.ent _ (Or.inl hm)).1 (h.ent _ (Or.inl hm)).2.2, Res.ok_bind, ← h5, valOf_mem h.sorted hm]
    rfl
  · have hne : ∀ e ∈ L, e.2.1 ≠ k := by
      intro e he
      obtain ⟨i, hi, rfl⟩ := List.getElem_of_mem he
      by_cases hc : i < c'
      · exact ne_of_lt (by simpa [hg i hi] using h4 (i + 1) (by omega) (by omega) (by omega))
      · exact ne_of_gt (by simpa [hg i hi] using h5 (i + 1) (by omega) (by omega))
    rw [hl, valOf_none hne]
    rcases Nat.lt_trichotomy c' L.length with hc | hc | hc
    · rw [if_pos (by omega), hs c' hc, Res.ok_bind, hk _ (Or.inl (List.getElem_mem hc)), Res.ok_bind,
        if_neg (hne _ (List.getElem_mem hc))]
      rfl
    · subst hc
      obtain ⟨e, he, hlt⟩ := hz
      obtain ⟨i, hi, rfl⟩ := List.getElem_of_mem he
      have h6 : L[i].2.1 < k := by simpa [hg i hi] using h4 (i + 1) (by omega) (by omega) (by omega)
      rw [if_pos (by omega), hx, Res.ok_bind, hk _ (Or.inr rfl), Res.ok_bind, if_neg (ne_of_lt (lt_trans hlt h6))]
      rfl
    · rw [if_neg (by omega)]
      rfl

/-- The extra slot leads to a greater key: it is found. -/
theorem Tail.greater {l : Leaf K V M} {L : List (Nat × K × V)} {z : Nat × K × V} (h : Tail l L z)
    (hz : ∀ e ∈ L, e.2.1 < z.2.1) : CrashSpec.Reads l.lookup (valOf (L ++ [z])) := by
  have hlen : (L ++ [z]).length = L.length + 1 := by simp
  have := reads_take (l := l) (L := L ++ [z]) (n := L.length + 1) z (by omega) h.le h.num (fun i hi => ?_)
    (fun e he => h.ent e (by simpa using he)) ?_
  · rw [← hlen, List.take_length] at this
    exact this
  · rw [List.getD_eq_getElem?_getD]
    by_cases hc : i < L.length
    · rw [h.slots i hc, List.getElem?_append_left hc, List.getElem?_eq_getElem hc]
      rfl
    · obtain rfl : i = L.length := by omega
      rw [h.extra]
      simp
  · rw [List.pairwise_append]
    exact ⟨h.sorted, by simp, fun x hx y hy => by rw [List.mem_singleton.1 hy]; exact hz x hx⟩

/-- The extra slot leads to the last entry. -/
theorem Tail.same {l : Leaf K V M} {L : List (Nat × K × V)} {z : Nat × K × V} (h : Tail l L z) (hz : z ∈ L)
    (hz' : ∀ e ∈ L, e.2.1 ≤ z.2.1) : CrashSpec.Reads l.lookup (valOf L) := by
  have hg : ∀ i, (hi : i < L.length) → L.getD i z = L[i] := fun i hi => by
    rw [List.getD_eq_getElem?_getD, List.getElem?_eq_getElem hi, Option.getD_some]
  have hgz : ∀ i, L.length ≤ i → L.getD i z = z := fun i hi => by
    rw [List.getD_eq_getElem?_getD, List.getElem?_eq_none hi, Option.getD_none]
  have hm : ∀ i, L.getD i z ∈ L := by
    intro i
    by_cases hi : i < L.length
    · rw [hg i hi]; exact List.getElem_mem hi
    · rw [hgz i (by omega)]; exact hz
  have hv : View l (L.length + 1) (fun i => L.getD i z) := by
    refine ⟨h.num, fun i hi => ?_, fun i _ => (h.ent _ (Or.inl (hm i))).1, fun i _ => (h.ent _ (Or.inl (hm i))).2.1,
      fun i _ => (h.ent _ (Or.inl (hm i))).2.2, fun i j h1 h2 => ?_, h.le⟩
    · by_cases hc : i < L.length
      · rw [hg i hc, h.slots i hc]
      · rw [hgz i (by omega), show i = L.length by omega, h.extra]
    · by_cases hc : j < L.length
      · rw [hg i (by omega), hg j hc]
        exact le_of_lt (List.pairwise_iff_getElem.1 h.sorted i j (by omega) (by omega) h1)
      · rw [hgz j (by omega)]
        exact hz' _ (hm i)
  refine hv.reads_list h.sorted (fun i _ => hm i) (fun e he => ?_)
  obtain ⟨i, hi, rfl⟩ := List.getElem_of_mem he
  exact ⟨i, by omega, hg i hi⟩

omit [LinearOrder K] in
theorem downs_succ (p s : Nat) : (downs p (s + 1) : List (Write K V)) = downs p s ++ [.down (p + s)] := by
  unfold downs
  rw [List.range_succ, List.map_append]
  rfl

omit [LinearOrder K] in
theorem downs_take (p m s : Nat) : (downs p m : List (Write K V)).take s = downs p (min s m) := by
  unfold downs
  rw [← List.map_take, List.take_range]

/-- The slots after `s` rounds of the loop that closes the gap. -/
def lowered (l : Leaf K V M) (p s : Nat) : Slots Nat := fun j => if p ≤ j ∧ j < p + s then l.slot (j + 1) else l.slot j

omit [LinearOrder K] in
theorem exec_downs (l : Leaf K V M) (p : Nat) : ∀ s, p + s ≤ M →
    Leaf.exec (downs p s) l = .ok ⟨lowered l p s, l.bits, l.keys, l.vals⟩ := by
  intro s
  induction s with
  | zero =>
    intro _
    have : lowered l p 0 = l.slot := by
      funext j; unfold lowered; rw [if_neg (by omega)]
    rw [this]
    rfl
  | succ s ih =>
    intro hs
    rw [downs_succ, exec_append, ih (by omega), Res.ok_bind, Leaf.exec, Leaf.write, if_pos (by omega), Res.ok_bind,
      Leaf.exec]
    congr 2
    funext j
    unfold lowered
    dsimp only
    by_cases hj : j = p + s
    · rw [if_pos hj, if_neg (by omega), if_pos (by omega), hj]
    · rw [if_neg hj]
      by_cases hc : p ≤ j ∧ j < p + s
      · rw [if_pos hc, if_pos (by omega)]
      · rw [if_neg hc, if_neg (by omega)]

omit [LinearOrder K] in
/-- A prefix of the assignments, by the number `c` of assignments that are done. -/
theorem take_eraseWrites (n p s c : Nat) :
    (c = 0 ∧ (eraseWrites n p s : List (Write K V)).take c = []) ∨
    (∃ r ≤ n + 1 - p, c = r + 1 ∧ (eraseWrites n p s : List (Write K V)).take c = [.bit s false] ++ downs p r) ∨
    (n + 1 - p + 2 ≤ c ∧ (eraseWrites n p s : List (Write K V)).take c = eraseWrites n p s) := by
  have h1 : ([.bit s false] ++ downs p (n + 1 - p) : List (Write K V)).length = n + 1 - p + 1 := by simp [downs]
  rcases Nat.eq_zero_or_pos c with hc | hc
  · exact Or.inl ⟨hc, by rw [hc]; rfl⟩
  right
  rcases Nat.lt_or_ge c (n + 1 - p + 2) with hc2 | hc2
  · left
    refine ⟨c - 1, by omega, by omega, ?_⟩
    unfold eraseWrites
    rw [List.take_append_of_le_length (by rw [h1]; omega), List.take_append,
      List.take_of_length_le (by simp; omega), downs_take]
    simp only [List.length_cons, List.length_nil]
    rw [Nat.min_eq_left (by omega)]
  · right
    refine ⟨hc2, List.take_of_length_le ?_⟩
    unfold eraseWrites
    rw [List.length_append, h1]
    simp
    omega

/-- All assignments together are `eraseFromLeafNode`. -/
theorem LeafOK.crashErase_all {l : Leaf K V M} {a b : List (Nat × K × V)} {s : Nat} {k : K} {w : V}
    (h : LeafOK l (a ++ (s, k, w) :: b)) (hlt : (a ++ (s, k, w) :: b).length < M) :
    ∃ l', Leaf.exec (eraseWrites (a ++ (s, k, w) :: b).length (a.length + 1) s) l = .ok l' ∧
      l.erase k = .ok (l', true) := by
  have hlen : (a ++ (s, k, w) :: b).length = a.length + b.length + 1 := by simp; omega
  obtain ⟨h1, h2⟩ := h.hit rfl
  have hsM := (h.ent (s, k, w) (by simp)).1
  obtain ⟨b1, eb, hb1⟩ := bit_set l.bits s false hsM
  have hm : (a ++ (s, k, w) :: b).length + 1 - (a.length + 1) = b.length + 1 := by omega
  refine ⟨⟨fun j => if j = 0 then some (a.length + b.length) else lowered l (a.length + 1) (b.length + 1) j, b1,
    l.keys, l.vals⟩, ?_, ?_⟩
  · unfold eraseWrites
    rw [exec_append, exec_append, hm, Leaf.exec, Leaf.write, eb]
    simp only [Res.ok_bind, Res.pure_eq, Leaf.exec, exec_downs _ _ _ (show a.length + 1 + (b.length + 1) ≤ M by omega),
      Leaf.write]
    rw [Slots.wr_ok _ _ (by omega), hlen]
    rfl
  · unfold Leaf.erase
    rw [h.pos_hit, Res.ok_bind, h1, Res.ok_bind, h2, Res.ok_bind, if_pos rfl, Bitmap.reset_eq_set, eb,
      Res.ok_bind, h.count, Res.ok_bind, closeGap_ok, hlen, if_pos (by omega), Res.ok_bind,
      Slots.wr_ok _ _ (by omega), Res.ok_bind, Res.pure_eq, Nat.add_sub_cancel]
    have : a.length + b.length + 1 + 1 - (a.length + 1) = b.length + 1 := by omega
    rw [this]
    rfl

/-- The leaf at all points of the erase of a stored key, if the first unused slot leads to one of the entries. -/
theorem LeafOK.crashErase {l : Leaf K V M} {a b : List (Nat × K × V)} {s : Nat} {k : K} {w : V}
    (h : LeafOK l (a ++ (s, k, w) :: b)) (hlt : (a ++ (s, k, w) :: b).length < M) {z : Nat × K × V}
    (hz : z ∈ a ++ (s, k, w) :: b) (hzs : l.slot ((a ++ (s, k, w) :: b).length + 1) = some z.1) (c : Nat) :
    ∃ l', l.crashErase c k = .ok l' ∧
      (c = 0 → l' = l) ∧
      (c = 1 ∨ (c = b.length + 2 ∧ b = [] ∧ z = (s, k, w)) →
        CrashSpec.Reads l'.lookup (valOf (a ++ (s, k, w) :: b))) ∧
      (2 ≤ c → c ≤ b.length + 1 → CrashSpec.Reads l'.lookup (valOf (a ++ b))) ∧
      (c = b.length + 2 → ¬ (b = [] ∧ z = (s, k, w)) → CrashSpec.Reads l'.lookup (valOf (a ++ b))) ∧
      (b.length + 3 ≤ c → LeafOK l' (a ++ b)) := by
  have hlen : (a ++ (s, k, w) :: b).length = a.length + b.length + 1 := by simp; omega
  have hlen' : (a ++ b).length = a.length + b.length := List.length_append
  have hm : (a ++ (s, k, w) :: b).length + 1 - (a.length + 1) = b.length + 1 := by omega
  obtain ⟨h1, h2⟩ := h.hit rfl
  have hsM := (h.ent (s, k, w) (by simp)).1
  obtain ⟨b1, eb, hb1⟩ := bit_set l.bits s false hsM
  have hrun : l.crashErase c k =
      Leaf.exec ((eraseWrites (a ++ (s, k, w) :: b).length (a.length + 1) s).take c) l := by
    unfold Leaf.crashErase
    rw [h.pos_hit, Res.ok_bind, h1, Res.ok_bind, h2, Res.ok_bind, if_pos rfl, h.count, Res.ok_bind]
  have hsub : (a ++ b).Sublist (a ++ (s, k, w) :: b) :=
    List.Sublist.append_left (List.sublist_cons_self _ _) _
  have h0 : l.slot 0 = some (a ++ (s, k, w) :: b).length := by simpa using h.slots 0 (by simp)
  have hsl : ∀ i, (hi : i < (a ++ (s, k, w) :: b).length) →
      l.slot (i + 1) = some (a ++ (s, k, w) :: b)[i].1 := by
    intro i hi
    have := h.slots (i + 1) (by simp; simpa using hi)
    rw [this, List.getElem?_cons_succ, List.getElem?_map, List.getElem?_eq_getElem hi]
    rfl
  have hlo : ∀ i, (hi : i < (a ++ b).length) → i < a.length → l.slot (i + 1) = some (a ++ b)[i].1 := by
    intro i hi hc
    rw [hsl i (by omega), List.getElem_append_left hc, List.getElem_append_left hc]
  have hhi : ∀ i, (hi : i < (a ++ b).length) → a.length ≤ i → l.slot (i + 2) = some (a ++ b)[i].1 := by
    intro i hi hc
    rw [hsl (i + 1) (by omega), List.getElem_append_right (by omega), List.getElem_append_right hc]
    congr 2
    simp [show i + 1 - a.length = i - a.length + 1 by omega]
  rw [hrun]
  rcases take_eraseWrites (K := K) (V := V) (a ++ (s, k, w) :: b).length (a.length + 1) s c with
    ⟨hc, e⟩ | ⟨r, hr, hc, e⟩ | ⟨hc, e⟩ <;> rw [e]
  · exact ⟨l, rfl, fun _ => rfl, by omega, by omega, by omega, by omega⟩
  · have hex : Leaf.exec ([.bit s false] ++ downs (a.length + 1) r) l =
        .ok ⟨lowered l (a.length + 1) r, b1, l.keys, l.vals⟩ := by
      rw [exec_append, Leaf.exec, Leaf.write, eb]
      simp only [Res.ok_bind, Res.pure_eq, Leaf.exec]
      rw [exec_downs _ _ _ (by omega)]
      rfl
    have hn0 : lowered l (a.length + 1) r 0 = some (a ++ (s, k, w) :: b).length := by
      unfold lowered
      rw [if_neg (by omega), h0]
    have htail : r = b.length + 1 →
        Tail (⟨lowered l (a.length + 1) r, b1, l.keys, l.vals⟩ : Leaf K V M) (a ++ b) z := by
      intro hr'
      refine ⟨by rw [hlen', ← hlen]; exact hn0, fun i hi => ?_, ?_, ?_, h.sorted.sublist hsub, by omega⟩
      · show lowered l _ _ (i + 1) = _
        unfold lowered
        by_cases hca : i < a.length
        · rw [if_neg (by omega), hlo i hi hca]
        · rw [if_pos (by omega), hhi i hi (by omega)]
      · show lowered l _ _ ((a ++ b).length + 1) = _
        unfold lowered
        rw [if_pos (by omega), ← hzs]
        congr 1
        omega
      · rintro e (he | rfl)
        · exact h.ent e (hsub.subset he)
        · exact h.ent e hz
    refine ⟨_, hex, by omega, fun hc1 => ?_, fun hc1 hc2 => ?_, fun hc1 hc2 => ?_, by omega⟩
    · rcases hc1 with hc1 | ⟨hc1, hb0, hz0⟩
      · obtain rfl : r = 0 := by omega
        have := reads_take (l := (⟨lowered l (a.length + 1) 0, b1, l.keys, l.vals⟩ : Leaf K V M))
          (L := a ++ (s, k, w) :: b) (n := (a ++ (s, k, w) :: b).length) (s, k, w) (le_refl _) h.le hn0
          (fun i hi => ?_) h.ent h.sorted
        · rw [List.take_length] at this
          exact this
        · show lowered l _ _ (i + 1) = _
          unfold lowered
          rw [if_neg (by omega), hsl i hi, List.getD_eq_getElem?_getD, List.getElem?_eq_getElem hi]
          rfl
      · subst hb0 hz0
        have hs := h.sorted
        rw [List.pairwise_append] at hs
        have := (htail (by omega)).greater (by
          rw [List.append_nil]
          exact fun e he => hs.2.2 e he (s, k, w) (by simp))
        rw [List.append_nil] at this
        exact this
    · have hg : ∀ i, (hi : i < (a ++ b).length) → (a ++ b).getD i (s, k, w) = (a ++ b)[i] := fun i hi => by
        rw [List.getD_eq_getElem?_getD, List.getElem?_eq_getElem hi, Option.getD_some]
      let f : Nat → Nat × K × V := fun i =>
        if i < a.length + r then (a ++ b).getD i (s, k, w) else (a ++ b).getD (i - 1) (s, k, w)
      have hfi : ∀ i < (a ++ (s, k, w) :: b).length, ∃ (j : Nat) (hj : j < (a ++ b).length), f i = (a ++ b)[j] ∧
          j ≤ i ∧ i ≤ j + 1 ∧ (i < a.length + r → j = i) ∧ (a.length + r ≤ i → j + 1 = i) := by
        intro i hi
        by_cases hcc : i < a.length + r
        · refine ⟨i, by omega, ?_, by omega, by omega, by omega, by omega⟩
          show (if _ then _ else _) = _
          rw [if_pos hcc, hg i (by omega)]
        · refine ⟨i - 1, by omega, ?_, by omega, by omega, by omega, by omega⟩
          show (if _ then _ else _) = _
          rw [if_neg hcc, hg (i - 1) (by omega)]
      have hfe : ∀ i < (a ++ (s, k, w) :: b).length, f i ∈ a ++ b := by
        intro i hi
        obtain ⟨j, hj, e1, _⟩ := hfi i hi
        rw [e1]; exact List.getElem_mem _
      have hent : ∀ i < (a ++ (s, k, w) :: b).length, _ := fun i hi => h.ent (f i) (hsub.subset (hfe i hi))
      have hv : View (⟨lowered l (a.length + 1) r, b1, l.keys, l.vals⟩ : Leaf K V M)
          (a ++ (s, k, w) :: b).length f := by
        refine ⟨hn0, fun i hi => ?_, fun i hi => (hent i hi).1, fun i hi => (hent i hi).2.1,
          fun i hi => (hent i hi).2.2, fun i j h1 h2 => ?_, h.le⟩
        · obtain ⟨j, hj, e1, h1, h2, h3, h4⟩ := hfi i hi
          show lowered l _ _ (i + 1) = _
          rw [e1]
          unfold lowered
          by_cases hcc : i < a.length + r
          · obtain rfl := h3 hcc
            by_cases hca : j < a.length
            · rw [if_neg (by omega), hlo j hj hca]
            · rw [if_pos (by omega), hhi j hj (by omega)]
          · have := h4 (by omega)
            subst this
            rw [if_neg (by omega), hhi j hj (by omega)]
        · obtain ⟨i', hi', e1, h11, h12, h13, h14⟩ := hfi i (by omega)
          obtain ⟨j', hj', e2, h21, h22, h23, h24⟩ := hfi j h2
          rw [e1, e2]
          rcases Nat.lt_or_eq_of_le (show i' ≤ j' by omega) with h6 | h6
          · exact le_of_lt (List.pairwise_iff_getElem.1 (h.sorted.sublist hsub) i' j' hi' hj' h6)
          · subst h6; exact le_refl _
      refine hv.reads_list (h.sorted.sublist hsub) (fun i hi => hfe i hi) (fun e he => ?_)
      obtain ⟨j, hj, rfl⟩ := List.getElem_of_mem he
      by_cases hcc : j < a.length + r
      · refine ⟨j, by omega, ?_⟩
        show (if _ then _ else _) = _
        rw [if_pos hcc, hg j hj]
      · refine ⟨j + 1, by omega, ?_⟩
        show (if _ then _ else _) = _
        rw [if_neg (by omega), Nat.add_sub_cancel, hg j hj]
    · have ht := htail (by omega)
      by_cases hsm : ∃ e ∈ a ++ b, z.2.1 < e.2.1
      · exact ht.smaller hsm
      · push Not at hsm
        refine ht.same ?_ hsm
        rcases List.mem_append.1 hz with h3 | h3
        · exact List.mem_append_left _ h3
        · rcases List.mem_cons.1 h3 with rfl | h3
          · exfalso
            cases b with
            | nil => exact hc2 ⟨rfl, rfl⟩
            | cons e' b =>
              have hs := h.sorted
              rw [List.pairwise_append, List.pairwise_cons] at hs
              exact absurd (hs.2.1.1 e' (by simp)) (not_lt.2 (hsm e' (by simp)))
          · exact List.mem_append_right _ h3
  · obtain ⟨l', e1, e2⟩ := h.crashErase_all hlt
    obtain ⟨l'', e3, h3⟩ := h.erase_room hlt
    rw [e2] at e3
    injection e3 with e3
    rw [Prod.mk.injEq] at e3
    rw [← e3.1] at h3
    exact ⟨l', e1, by omega, by omega, by omega, by omega, fun _ => h3⟩

/-! ## The slots behind the entries of a leaf that only saw inserts -/

theorem LeafOK.insertAt_frame {l l' : Leaf K V M} {es : List (Nat × K × V)} (h : LeafOK l es)
    (hlt : es.length < M) {k : K} {v : V} {p : Nat} (hp : 1 ≤ p) (hp' : p ≤ es.length + 1)
    (e : l.insertAt p k v = .ok l') :
    (∀ j, es.length + 1 < j → l'.slot j = l.slot j) ∧ l.bits.set l.bits.getFreeZero true = .ok l'.bits := by
  obtain ⟨hu, _⟩ := h.free hlt
  rw [← h.exec_insert hlt k v false hp hp'] at e
  generalize l.bits.getFreeZero = u at hu e
  obtain ⟨b1, eb, _⟩ := bit_set l.bits u true hu
  unfold insertWrites at e
  rw [exec_append, exec_placed hu hlt hp hp', Res.ok_bind] at e
  simp only [Bool.false_eq_true, if_false, Leaf.exec, Leaf.write] at e
  rw [eb, Res.ok_bind, Res.pure_eq, Res.ok_bind, Slots.wr_ok _ _ (by omega), Res.ok_bind, Res.pure_eq, Res.ok_bind] at e
  injection e with e
  subst e
  refine ⟨fun j hj => ?_, eb⟩
  show (if j = 0 then _ else if j = p then some u else shifted l es.length (es.length + 1 - p) j) = _
  rw [if_neg (by omega), if_neg (by omega)]
  unfold shifted
  rw [if_neg (by omega)]

/-- The slots behind the entries have never been written, and position 0 is used unless the leaf is empty. -/
structure Unused (junk : Option Nat) (l : Leaf K V M) (es : List (Nat × K × V)) : Prop where
  slot : ∀ j, es.length < j → j ≤ M → l.slot j = junk
  zero : es = [] ∨ 0 ∈ es.map (·.1)

theorem LeafOK.step_unused {l : Leaf K V M} {es : List (Nat × K × V)} (junk : Option Nat) (h : LeafOK l es)
    (hu : Unused junk l es) (k : K) (v : V) (hc : (Insert.insert k (keysOf es)).card ≤ M) :
    ∃ l' es', l.insert junk k v = .ok (l', none) ∧ LeafOK l' es' ∧ Unused junk l' es' ∧
      (∀ k', valOf es' k' = if k = k' then some v else valOf es k') ∧
      keysOf es' = Insert.insert k (keysOf es) := by
  by_cases hk : k ∈ keysOf es
  · obtain ⟨e, he, hek⟩ := mem_keysOf.1 hk
    obtain ⟨s, k0, w⟩ := e
    simp only at hek
    subst hek
    obtain ⟨a, b, rfl⟩ := List.append_of_mem he
    obtain ⟨l', e1, h1⟩ := h.insert_dup junk v
    have hs := h.sorted
    rw [List.pairwise_append] at hs
    have ha : ∀ e ∈ a, e.2.1 < k0 := fun e he => hs.2.2 e he (s, k0, w) (by simp)
    refine ⟨l', _, e1, h1, ⟨fun j hj hjM => ?_, ?_⟩, fun k' => ?_, ?_⟩
    · have : l'.slot = l.slot := by
        obtain ⟨l1, _, e2⟩ := h.crashInsert_dup junk hk v false (le_refl 1)
        obtain ⟨h3, h4⟩ := h.hit rfl
        unfold Leaf.insert at e1
        rw [h.pos_hit, Res.ok_bind, h.count, Res.ok_bind, if_pos (by simp), h3, Res.ok_bind, h4, Res.ok_bind,
          if_pos rfl, Res.pure_eq, Res.ok_bind] at e1
        dsimp only at e1
        rw [Slots.wr_ok _ _ (h.ent (s, k0, w) (by simp)).1, Res.ok_bind, Res.pure_eq] at e1
        injection e1 with e1
        rw [Prod.mk.injEq] at e1
        rw [← e1.1]
      rw [this]
      exact hu.slot j (by simpa using hj) hjM
    · rcases hu.zero with h0 | h0
      · simp at h0
      · right; simpa using h0
    · rw [valOf_insert ha, valOf_insert ha]
      split <;> rfl
    · rw [Finset.insert_eq_of_mem hk]
      unfold keysOf
      simp
  · rw [Finset.card_insert_of_notMem hk, h.card] at hc
    have hlt : es.length < M := by omega
    obtain ⟨a, b, hes, hp, ha, hb, hdup⟩ := h.pos_new (k := k) (fun e he hh => hk (mem_keysOf.2 ⟨e, he, hh⟩))
    subst hes
    obtain ⟨l', u, e, hl'⟩ := h.insertAt hlt k v ha hb
    obtain ⟨hf1, hf2⟩ := h.insertAt_frame hlt (by omega) (by simp) e
    refine ⟨l', _, ?_, hl', ⟨fun j hj hjM => ?_, Or.inr ?_⟩, fun k' => valOf_insert ha k', keysOf_insert _ _ _ _ _⟩
    · unfold Leaf.insert
      rw [hp, Res.ok_bind, h.count, Res.ok_bind, hdup, Res.ok_bind]
      dsimp only
      rw [if_neg (by omega), e, Res.ok_bind]
      rfl
    · have hl2 : (a ++ (u, k, v) :: b).length = (a ++ b).length + 1 := by simp; omega
      rw [hf1 j (by omega)]
      exact hu.slot j (by omega) hjM
    · rw [← hl'.bits 0 (by omega)]
      obtain ⟨b1, eb, hb1⟩ := bit_set l.bits l.bits.getFreeZero true (h.free hlt).1
      rw [hf2] at eb
      injection eb with eb
      rw [eb, hb1 0]
      split
      · rfl
      · rename_i hne
        rcases Bitmap.getFreeZero_spec l.bits with ⟨_, _, h3⟩ | ⟨h3, _⟩
        · exact h3 0 (by omega)
        · have := (h.free hlt).1; omega

theorem insertAll_unused (junk : Option Nat) : ∀ (xs : List (K × V)) (l : Leaf K V M)
    (es : List (Nat × K × V)), LeafOK l es → Unused junk l es →
    (keysOf es ∪ (xs.map Prod.fst).toFinset).card ≤ M →
    ∃ l' es', insertAll junk xs (⟨[l], [], 0, 0, fun _ => none⟩ : Tree K V N M) =
        .ok ⟨[l'], [], 0, 0, fun _ => none⟩ ∧ LeafOK l' es' ∧ Unused junk l' es' ∧
      (∀ k, valOf es' k = xs.foldl (fun o x => if x.1 = k then some x.2 else o) (valOf es k)) ∧
      keysOf es' = keysOf es ∪ (xs.map Prod.fst).toFinset := by
  intro xs
  induction xs with
  | nil => intro l es h hu _; exact ⟨l, es, rfl, h, hu, fun k => rfl, by simp⟩
  | cons x xs ih =>
    obtain ⟨k, v⟩ := x
    intro l es h hu hc
    have hU : keysOf es ∪ (((k, v) :: xs).map Prod.fst).toFinset =
        Insert.insert k (keysOf es) ∪ (xs.map Prod.fst).toFinset := by
      ext y; simp
    rw [hU] at hc
    obtain ⟨l1, es1, e1, h1, hu1, hv1, hk1⟩ := h.step_unused junk hu k v
      (le_trans (Finset.card_le_card Finset.subset_union_left) hc)
    obtain ⟨l2, es2, e2, h2, hu2, hv2, hk2⟩ := ih l1 es1 h1 hu1 (by rw [hk1]; exact hc)
    refine ⟨l2, es2, ?_, h2, hu2, ?_, by rw [hk2, hk1, hU]⟩
    · rw [insertAll]
      have : insert junk (⟨[l], [], 0, 0, fun _ => none⟩ : Tree K V N M) k v = .ok ⟨[l1], [], 0, 0, fun _ => none⟩ := by
        unfold insert insertAux insertLeaf Tree.leaf
        dsimp only
        rw [List.getElem?_cons_zero, Res.ofOption_some, Res.ok_bind, e1, Res.ok_bind]
        rfl
      rw [this, Res.ok_bind]
      exact e2
    · intro k'
      rw [hv2 k', hv1 k']
      rfl

theorem crashErase_single (c : Nat) (l l' : Leaf K V M) (k : K) (e : l.crashErase c k = .ok l') :
    crashErase c (⟨[l], [], 0, 0, fun _ => none⟩ : Tree K V N M) k = .ok ⟨[l'], [], 0, 0, fun _ => none⟩ := by
  unfold crashErase Tree.leaf
  rw [List.getElem?_cons_zero, Res.ofOption_some, Res.ok_bind, e, Res.ok_bind]
  rfl

/-! ## Specification -/

/-- C89. The erase of a stored key from a tree that is one leaf (not full) is atomic with respect to crashes. -/
def C89_statement (K V : Type) [LinearOrder K] (N M : Nat) (junk : Option Nat) : Prop :=
  ∀ (xs : List (K × V)) (k : K) (c : Nat), k ∈ xs.map Prod.fst → (xs.map Prod.fst).toFinset.card < M →
    ∃ t t', insertAll junk xs (empty N M junk : Tree K V N M) = .ok t ∧ crashErase c t k = .ok t' ∧
      CrashSpec.BeforeOrAfter (lookup t') (last xs) (without (last xs) k)

/-- The map after the inserts `ys`. -/
def updates (m : K → Option V) (ys : List (K × V)) : K → Option V :=
  fun k => ys.foldl (fun o x => if x.1 = k then some x.2 else o) (m k)

/-- C90. After such a crash the inserts `ys` succeed, and then all lookups are those of a map that either still had
the erased key before `ys` or did not have it. -/
def C90_statement (K V : Type) [LinearOrder K] (N M : Nat) (junk : Option Nat) : Prop :=
  ∀ (xs ys : List (K × V)) (k : K) (c : Nat), k ∈ xs.map Prod.fst → (xs.map Prod.fst).toFinset.card < M →
    ((xs ++ ys).map Prod.fst).toFinset.card ≤ M →
    ∃ t t' t'', insertAll junk xs (empty N M junk : Tree K V N M) = .ok t ∧ crashErase c t k = .ok t' ∧
      insertAll junk ys t' = .ok t'' ∧
      CrashSpec.BeforeOrAfter (lookup t'') (updates (last xs) ys) (updates (without (last xs) k) ys)

/-! ## Proofs -/

theorem valOf_erase {a b : List (Nat × K × V)} {s : Nat} {k : K} {w : V}
    (hs : (a ++ (s, k, w) :: b).Pairwise (fun x y => x.2.1 < y.2.1)) :
    valOf (a ++ b) = without (valOf (a ++ (s, k, w) :: b)) k := by
  rw [List.pairwise_append, List.pairwise_cons] at hs
  funext k'
  unfold without
  by_cases hk : k' = k
  · rw [if_pos hk, hk]
    refine valOf_none fun e he => ?_
    rcases List.mem_append.1 he with h | h
    · exact ne_of_lt (hs.2.2 e h (s, k, w) (by simp))
    · exact ne_of_gt (hs.2.1.1 e h)
  · rw [if_neg hk, valOf_insert (fun e he => hs.2.2 e he (s, k, w) (by simp)), if_neg (Ne.symm hk)]

/-- C89 holds if the slots of a new leaf are zero: at every point the lookups are those before or those after the
erase.  (The last round of the loop copies an unused slot into the range of used ones.  Zero leads to an entry of the
leaf, and the binary search reaches this slot only for keys above all the others.) -/
theorem C89_zero_partial : C89_statement K V N M (some 0) := by
  intro xs k c hin hM
  obtain ⟨l, es, e, hl, hu, hv, hk⟩ := insertAll_unused (N := N) (some 0) xs (Leaf.fresh M (some 0)) []
    (leafOK_fresh _) ⟨fun j hj _ => by
      show (if j = 0 then _ else _) = _
      rw [if_neg (by simpa using Nat.pos_iff_ne_zero.1 hj)], Or.inl rfl⟩ (by simpa [keysOf] using le_of_lt hM)
  have hk' : keysOf es = (xs.map Prod.fst).toFinset := by rw [hk]; simp [keysOf]
  have hv' : valOf es = last xs := by funext k; rw [hv k]; rfl
  have hlt : es.length < M := by rw [← hl.card, hk']; exact hM
  obtain ⟨e0, he, hek⟩ := mem_keysOf.1 (show k ∈ keysOf es by rw [hk', List.mem_toFinset]; exact hin)
  obtain ⟨s, k0, w⟩ := e0
  simp only at hek
  subst hek
  obtain ⟨a, b, rfl⟩ := List.append_of_mem he
  obtain ⟨z, hz, hz0⟩ : ∃ z ∈ a ++ (s, k0, w) :: b, z.1 = 0 := by
    rcases hu.zero with h0 | h0
    · simp at h0
    · exact List.mem_map.1 h0
  obtain ⟨l', e', h0, h1, h2, h3, h4⟩ := hl.crashErase hlt hz (by
    rw [hz0]; exact hu.slot _ (by omega) (by omega)) c
  have hlk : ∀ R, CrashSpec.Reads l'.lookup R →
      CrashSpec.Reads (lookup (⟨[l'], [], 0, 0, fun _ => none⟩ : Tree K V N M)) R := by
    intro R hR k'
    rw [lookup_single]
    exact hR k'
  rw [valOf_erase hl.sorted, hv'] at h2 h3
  rw [hv'] at h1
  refine ⟨_, _, e, crashErase_single c l l' k0 e', ?_⟩
  rcases (by omega : c = 0 ∨ c = 1 ∨ (2 ≤ c ∧ c ≤ b.length + 1) ∨ c = b.length + 2 ∨ b.length + 3 ≤ c) with
    hc | hc | ⟨hc, hc'⟩ | hc | hc
  · rw [h0 hc]
    refine Or.inl fun k' => ?_
    rw [lookup_single, hl.lookup k', ← hv']
    rfl
  · exact Or.inl (hlk _ (h1 (Or.inl hc)))
  · exact Or.inr (hlk _ (h2 hc hc'))
  · by_cases hb : b = [] ∧ z = (s, k0, w)
    · exact Or.inl (hlk _ (h1 (Or.inr ⟨hc, hb⟩)))
    · exact Or.inr (hlk _ (h3 hc hb))
  · refine Or.inr fun k' => ?_
    rw [lookup_single, (h4 hc).lookup k', ← hv', ← valOf_erase hl.sorted]
    rfl

theorem LeafOK.go_on_with {l : Leaf K V M} {es : List (Nat × K × V)} (hl : LeafOK l es) (junk : Option Nat)
    (ys : List (K × V)) (hM : (keysOf es ∪ (ys.map Prod.fst).toFinset).card ≤ M) :
    ∃ t, insertAll junk ys (⟨[l], [], 0, 0, fun _ => none⟩ : Tree K V N M) = .ok t ∧
      CrashSpec.Reads (WBTree.lookup t) (updates (valOf es) ys) := by
  obtain ⟨l', es', e, hl', hv', _⟩ := insertAll_leaf (N := N) junk ys l es hl hM
  refine ⟨_, e, fun k => ?_⟩
  rw [lookup_single, hl'.lookup k]
  exact congrArg _ (hv' k)

/-- C90, the crash points after which the tree is in order: none or all of the assignments (there are
`above xs k + 3`) are done.  This does not depend on the content of unused slots. -/
theorem C90_partial (junk : Option Nat) (xs ys : List (K × V)) (k : K) (c : Nat) (hin : k ∈ xs.map Prod.fst)
    (hlt : (xs.map Prod.fst).toFinset.card < M) (hM : ((xs ++ ys).map Prod.fst).toFinset.card ≤ M)
    (hc : c = 0 ∨ above xs k + 3 ≤ c) :
    ∃ t t' t'', insertAll junk xs (empty N M junk : Tree K V N M) = .ok t ∧ crashErase c t k = .ok t' ∧
      insertAll junk ys t' = .ok t'' ∧
      CrashSpec.Reads (lookup t'') (updates (if c = 0 then last xs else without (last xs) k) ys) := by
  obtain ⟨l, es, e, hl, hv, hk⟩ := history (N := N) (M := M) junk xs (le_of_lt hlt)
  have hlt' : es.length < M := by rw [← hl.card, hk]; exact hlt
  obtain ⟨e0, he, hek⟩ := mem_keysOf.1 (show k ∈ keysOf es by rw [hk, List.mem_toFinset]; exact hin)
  obtain ⟨s, k0, w⟩ := e0
  simp only at hek
  subst hek
  obtain ⟨a, b, rfl⟩ := List.append_of_mem he
  have hU : (keysOf (a ++ (s, k0, w) :: b) ∪ (ys.map Prod.fst).toFinset).card ≤ M := by
    rw [hk, ← List.toFinset_append, ← List.map_append]; exact hM
  obtain ⟨h1, h2⟩ := hl.hit rfl
  have hrun : l.crashErase c k0 =
      Leaf.exec ((eraseWrites (a ++ (s, k0, w) :: b).length (a.length + 1) s).take c) l := by
    unfold Leaf.crashErase
    rw [hl.pos_hit, Res.ok_bind, h1, Res.ok_bind, h2, Res.ok_bind, if_pos rfl, hl.count, Res.ok_bind]
  have hsrt := hl.sorted
  rw [List.pairwise_append, List.pairwise_cons] at hsrt
  have hab : above xs k0 = b.length := by
    have hs' : ((a ++ [(s, k0, w)]) ++ b).Pairwise (fun x y => x.2.1 < y.2.1) := by simpa using hl.sorted
    unfold above
    rw [← hk]
    have h3 : (keysOf (a ++ (s, k0, w) :: b)).filter (k0 < ·) = (b.map (·.2.1)).toFinset := by
      ext y
      rw [Finset.mem_filter, mem_keysOf, List.mem_toFinset, List.mem_map]
      constructor
      · rintro ⟨⟨e, he, rfl⟩, h2⟩
        rcases List.mem_append.1 he with h3 | h3
        · exact absurd h2 (not_lt.2 (le_of_lt (hsrt.2.2 e h3 (s, k0, w) (by simp))))
        · rcases List.mem_cons.1 h3 with rfl | h3
          · exact absurd h2 (lt_irrefl _)
          · exact ⟨e, h3, rfl⟩
      · rintro ⟨e, he, rfl⟩
        exact ⟨⟨e, by simp [he], rfl⟩, hsrt.2.1.1 e he⟩
    rw [h3, List.toFinset_card_of_nodup, List.length_map]
    have : (b.map (·.2.1)).Pairwise (· < ·) := List.pairwise_map.2 hsrt.2.1.2
    exact this.imp ne_of_lt
  rcases hc with rfl | hc
  · obtain ⟨t'', e2, h3⟩ := hl.go_on_with (N := N) junk ys hU
    refine ⟨_, _, t'', e, crashErase_single 0 l l k0 hrun, e2, ?_⟩
    rw [if_pos rfl, ← hv]
    exact h3
  · obtain ⟨l', e1, e2⟩ := hl.crashErase_all hlt'
    obtain ⟨l'', e3, h3⟩ := hl.erase_room hlt'
    rw [e2] at e3
    injection e3 with e3
    rw [Prod.mk.injEq] at e3
    rw [← e3.1] at h3
    have hlen : (a ++ (s, k0, w) :: b).length + 1 - (a.length + 1) = b.length + 1 := by simp
    rw [List.take_of_length_le (by
      unfold eraseWrites downs
      rw [hlen]
      simp
      omega), e1] at hrun
    obtain ⟨t'', e4, h4⟩ := h3.go_on_with (N := N) junk ys (le_trans (Finset.card_le_card
      (Finset.union_subset_union_left (by
        rw [keysOf_insert]
        exact Finset.subset_insert _ _))) hU)
    refine ⟨_, _, t'', e, crashErase_single c l l' k0 hrun, e4, ?_⟩
    rw [if_neg (by omega), ← hv, ← valOf_erase hl.sorted]
    exact h4

set_option maxRecDepth 100000 in
/-- `M = 4`.  Unwritten slots that hold nothing usable: after two assignments of the erase of the only key, a
lookup uses such a slot.  Zeroed slots: the bit of the erased key is cleared first; if the crash comes then, the next
insert overwrites the key while its slot is still in use, the slots are not sorted any more, and the key 3 is
lost. -/
theorem C89_damage :
    (insertAll none [(1, 1)] (empty 4 4 none : Tree Nat Nat 4 4) >>= fun t =>
      crashErase 2 t 1 >>= fun t => lookup t 1) = .ub ∧
    (insertAll (some 0) [(1, 1), (2, 2), (3, 3)] (empty 4 4 (some 0) : Tree Nat Nat 4 4) >>= fun t =>
      crashErase 1 t 2 >>= fun t => insertAll (some 0) [(9, 9)] t >>= fun t => lookup t 3) = .ok none := by
  decide +kernel

/-- C89 is false if the slots of a new leaf are not initialised. -/
theorem C89_refuted : ¬ C89_statement Nat Nat 4 4 none := by
  intro h
  obtain ⟨t, t', e1, e2, h3⟩ := h [(1, 1)] 1 2 (by decide) (by decide)
  have := C89_damage.1
  rw [e1, Res.ok_bind, e2, Res.ok_bind] at this
  rcases h3 with h3 | h3 <;>
  · rw [h3 1] at this
    injection this

/-- C90 is false even if they are zero. -/
theorem C90_refuted : ¬ C90_statement Nat Nat 4 4 (some 0) := by
  intro h
  obtain ⟨t, t', t'', e1, e2, e3, h4⟩ := h [(1, 1), (2, 2), (3, 3)] [(9, 9)] 2 1 (by decide) (by decide) (by decide)
  have := C89_damage.2
  rw [e1, Res.ok_bind, e2, Res.ok_bind, e3, Res.ok_bind] at this
  rcases h4 with h4 | h4 <;>
  · rw [h4 3] at this
    exact absurd this (by decide)

/-- Non-triviality: in a leaf with three keys the erase of the smallest has five assignments; the lookups after
each number of them. -/
example : (List.range 6).map (fun c => insertAll (some 0) [(5, 5), (7, 7), (3, 3)] (empty 4 4 (some 0) : Tree Nat Nat 4 4) >>=
      fun t => crashErase c t 3 >>= fun t =>
        (do let a ← lookup t 3; let b ← lookup t 5; let c ← lookup t 7; pure [a, b, c])) =
    [.ok [some 3, some 5, some 7], .ok [some 3, some 5, some 7], .ok [none, some 5, some 7],
     .ok [none, some 5, some 7], .ok [none, some 5, some 7], .ok [none, some 5, some 7]] := by
  decide +kernel

end Verif.WBTree
