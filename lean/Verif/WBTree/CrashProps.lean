import Verif.WBTree.Crash
import Verif.WBTree.Props
import Verif.CrashSpec

/-!
# wBPTree.hpp, wHBPTree.hpp: lookups after a crash inside the insert into a leaf (C87, C88)
-/

namespace Verif.WBTree

variable {K V : Type} [LinearOrder K] {N M : Nat}

/-- The search of a leaf whose keys are sorted but may repeat. -/
theorem bsLoop_weak (rd : Nat → Res K) (key : K) (k : Nat → K) (lo hi : Nat)
    (hrd : ∀ i, lo ≤ i → i < hi → rd i = .ok (k i))
    (hsort : ∀ i j, lo ≤ i → i < j → j < hi → k i ≤ k j) : ∀
    (fuel pos : Nat) (l r : Int), (r - l + 1).toNat ≤ fuel → (lo : Int) ≤ l → r < (hi : Int) → l ≤ r + 1 →
    (∀ i, lo ≤ i → (i : Int) < l → k i < key) → (∀ i, i < hi → r < (i : Int) → key < k i) →
    (r < l → (pos : Int) = l) →
    ∃ c, Search.bsLoop false rd key fuel pos l r = .ok c ∧ lo ≤ c ∧ c ≤ hi ∧
      ((c < hi ∧ k c = key) ∨ ((∀ i, lo ≤ i → i < c → k i < key) ∧ ∀ i, c ≤ i → i < hi → key < k i)) := by
  intro fuel
  induction fuel with
  | zero =>
    intro pos l r hf hl hr hlr hlow hhigh hpos
    rw [Search.bsLoop, if_neg (by omega)]
    have hp := hpos (by omega)
    exact ⟨pos, rfl, by omega, by omega, Or.inr ⟨fun i h1 h2 => hlow i h1 (by omega),
      fun i h1 h2 => hhigh i h2 (by omega)⟩⟩
  | succ fuel ih =>
    intro pos l r hf hl hr hlr hlow hhigh hpos
    rw [Search.bsLoop]
    by_cases hle : l ≤ r
    · rw [if_pos hle]
      generalize hp : ((l + r) / 2).toNat = p
      have hpl : l ≤ (p : Int) := by omega
      have hpr : (p : Int) ≤ r := by omega
      rw [hrd p (by omega) (by omega), Res.ok_bind]
      by_cases he : k p = key
      · rw [if_pos he]
        exact ⟨p, rfl, by omega, by omega, Or.inl ⟨by omega, he⟩⟩
      · rw [if_neg he]
        by_cases hlt : k p < key
        · rw [if_pos hlt]
          refine ih (p + 1) ((p : Int) + 1) r (by omega) (by omega) hr (by omega) ?_ hhigh (fun _ => by omega)
          intro i h1 h2
          rcases Nat.lt_or_eq_of_le (show i ≤ p by omega) with h | h
          · exact lt_of_le_of_lt (hsort i p h1 h (by omega)) hlt
          · rw [h]; exact hlt
        · rw [if_neg hlt]
          have hgt : key < k p := lt_of_le_of_ne (not_lt.mp hlt) (Ne.symm he)
          refine ih p l ((p : Int) - 1) (by omega) hl (by omega) (by omega) hlow ?_ (by intro h; omega)
          intro i h1 h2
          rcases Nat.lt_or_eq_of_le (show p ≤ i by omega) with h | h
          · exact lt_of_lt_of_le hgt (hsort p i (by omega) h h1)
          · rw [← h]; exact hgt
    · rw [if_neg hle]
      have hp := hpos (by omega)
      exact ⟨pos, rfl, by omega, by omega, Or.inr ⟨fun i h1 h2 => hlow i h1 (by omega),
        fun i h1 h2 => hhigh i h2 (by omega)⟩⟩

/-- What lookups see: the slots `1, …, n` lead to the entries `f 0, …, f (n - 1)`, sorted but not
necessarily distinct. -/
structure View (l : Leaf K V M) (n : Nat) (f : Nat → Nat × K × V) : Prop where
  num : l.slot 0 = some n
  slots : ∀ i < n, l.slot (i + 1) = some (f i).1
  lt : ∀ i < n, (f i).1 < M
  keys : ∀ i < n, l.keys (f i).1 = some (f i).2.1
  vals : ∀ i < n, l.vals (f i).1 = some (f i).2.2
  sorted : ∀ i j, i < j → j < n → (f i).2.1 ≤ (f j).2.1
  le : n ≤ M

theorem View.lookup {l : Leaf K V M} {n : Nat} {f : Nat → Nat × K × V} (h : View l n f) (k : K) :
    (∃ i < n, (f i).2.1 = k ∧ l.lookup k = .ok (some (f i).2.2)) ∨
    ((∀ i < n, (f i).2.1 ≠ k) ∧ l.lookup k = .ok none) := by
  have hs : ∀ i < n, l.slot.rd (M + 1) (i + 1) = .ok (f i).1 := fun i hi =>
    Slots.rd_ok (by have := h.le; omega) (h.slots i hi)
  have hk : ∀ i < n, l.keys.rd M (f i).1 = .ok (f i).2.1 := fun i hi => Slots.rd_ok (h.lt i hi) (h.keys i hi)
  obtain ⟨c, e, h1, h2, h3⟩ := bsLoop_weak (fun p => l.slot.rd (M + 1) p >>= l.keys.rd M) k
    (fun i => (f (i - 1)).2.1) 1 (n + 1)
    (by
      intro i h1 h2
      obtain ⟨j, rfl⟩ : ∃ j, i = j + 1 := ⟨i - 1, by omega⟩
      rw [hs j (by omega), Res.ok_bind, hk j (by omega)]
      rfl)
    (fun i j h1 h2 h3 => h.sorted (i - 1) (j - 1) (by omega) (by omega))
    ((n : Int) - 1 + 1).toNat 1 1 n (by omega) (by omega) (by omega) (by omega)
    (by intro i _ _; omega) (by intro i _ _; omega) (by omega)
  have hpos : l.pos k = .ok c := by
    unfold Leaf.pos Search.binarySearchSlots
    rw [Slots.rd_ok (by omega) h.num, Res.ok_bind]
    exact e
  obtain ⟨c', rfl⟩ : ∃ c', c = c' + 1 := ⟨c - 1, by omega⟩
  simp only [Nat.add_sub_cancel] at h3
  have hl : l.lookup k = (if c' + 1 ≤ n then do
      let s ← l.slot.rd (M + 1) (c' + 1)
      let k' ← l.keys.rd M s
      if k' = k then do
        let v ← l.vals.rd M s
        pure (some v)
      else pure none
    else pure none) := by
    unfold Leaf.lookup
    rw [hpos, Res.ok_bind, Slots.rd_ok (by omega) h.num, Res.ok_bind]
  rcases h3 with ⟨h4, h5⟩ | ⟨h4, h5⟩
  · left
    refine ⟨c', by omega, h5, ?_⟩
    rw [hl, if_pos (by omega), hs c' (by omega), Res.ok_bind, hk c' (by omega), Res.ok_bind, if_pos h5,
      Slots.rd_ok (h.lt c' (by omega)) (h.vals c' (by omega)), Res.ok_bind]
    rfl
  · right
    have hne : ∀ i < n, (f i).2.1 ≠ k := by
      intro i hi
      by_cases hc : i + 1 < c' + 1
      · exact ne_of_lt (by simpa using h4 (i + 1) (by omega) hc)
      · exact ne_of_gt (by simpa using h5 (i + 1) (by omega) (by omega))
    refine ⟨hne, ?_⟩
    rw [hl]
    by_cases hc : c' + 1 ≤ n
    · rw [if_pos hc, hs c' (by omega), Res.ok_bind, hk c' (by omega), Res.ok_bind, if_neg (hne c' (by omega))]
      rfl
    · rw [if_neg hc]; rfl

omit [LinearOrder K] in
theorem exec_append (ws ws' : List (Write K V)) (l : Leaf K V M) :
    Leaf.exec (ws ++ ws') l = Leaf.exec ws l >>= Leaf.exec ws' := by
  induction ws generalizing l with
  | nil => rfl
  | cons w ws ih =>
    rw [List.cons_append, Leaf.exec, Leaf.exec]
    cases h : l.write w <;> simp [Res.ok_bind, ih]

omit [LinearOrder K] in
theorem shifts_succ (n s : Nat) : (shifts n (s + 1) : List (Write K V)) = shifts n s ++ [.up (n - s)] := by
  unfold shifts
  rw [List.range_succ, List.map_append]
  rfl

omit [LinearOrder K] in
theorem shifts_take (n m s : Nat) : (shifts n m : List (Write K V)).take s = shifts n (min s m) := by
  unfold shifts
  rw [← List.map_take, List.take_range]

omit [LinearOrder K] in
/-- The slots after `s` rounds. -/
theorem exec_shifts (l : Leaf K V M) (n : Nat) (hn : n < M) : ∀ s ≤ n,
    Leaf.exec (shifts n s) l = .ok ⟨fun j => if n + 2 ≤ j + s ∧ j ≤ n + 1 then l.slot (j - 1) else l.slot j,
      l.bits, l.keys, l.vals⟩ := by
  intro s
  induction s with
  | zero =>
    intro _
    have : (fun j => if n + 2 ≤ j + 0 ∧ j ≤ n + 1 then l.slot (j - 1) else l.slot j) = l.slot := by
      funext j; rw [if_neg (by omega)]
    rw [this]
    rfl
  | succ s ih =>
    intro hs
    rw [shifts_succ, exec_append, ih (by omega), Res.ok_bind, Leaf.exec, Leaf.write, if_pos (by omega), Res.ok_bind,
      Leaf.exec]
    congr 2
    funext j
    dsimp only
    by_cases hj : j = n - s + 1
    · rw [if_pos hj, if_neg (by omega), if_pos (by omega), hj]
      rfl
    · rw [if_neg hj]
      by_cases hc : n + 2 ≤ j + s ∧ j ≤ n + 1
      · rw [if_pos hc, if_pos (by omega)]
      · rw [if_neg hc, if_neg (by omega)]

theorem View.reads {l : Leaf K V M} {n : Nat} {f : Nat → Nat × K × V} (h : View l n f) {R : K → Option V}
    (h1 : ∀ i < n, R (f i).2.1 = some (f i).2.2) (h2 : ∀ k, (∀ i < n, (f i).2.1 ≠ k) → R k = none) :
    CrashSpec.Reads l.lookup R := by
  intro k
  rcases h.lookup k with ⟨i, hi, rfl, e⟩ | ⟨hn, e⟩
  · rw [e, h1 i hi]
  · rw [e, h2 k hn]

theorem valOf_mem {es : List (Nat × K × V)} (hs : es.Pairwise (fun a b => a.2.1 < b.2.1)) {e : Nat × K × V}
    (he : e ∈ es) : valOf es e.2.1 = some e.2.2 := by
  obtain ⟨a, b, rfl⟩ := List.append_of_mem he
  rw [List.pairwise_append] at hs
  have h5 := valOf_insert (b := b) (u := e.1) (v := e.2.2) (k := e.2.1)
    (fun x hx => hs.2.2 x hx e (by simp)) e.2.1
  rw [if_pos rfl] at h5
  exact h5

theorem valOf_none {es : List (Nat × K × V)} {k : K} (h : ∀ e ∈ es, e.2.1 ≠ k) : valOf es k = none := by
  unfold valOf
  rw [List.find?_eq_none.2 (fun e he => by simpa using h e he)]
  rfl

/-- The slots after `s` rounds of the loop that makes room. -/
def shifted (l : Leaf K V M) (n s : Nat) : Slots Nat :=
  fun j => if n + 2 ≤ j + s ∧ j ≤ n + 1 then l.slot (j - 1) else l.slot j

/-- The keys and values after the entry has been written to position `u`. -/
def keysW (l : Leaf K V M) (u : Nat) (k : K) : Slots K := fun j => if j = u then some k else l.keys j

@[inherit_doc keysW]
def valsW (l : Leaf K V M) (u : Nat) (v : V) : Slots V := fun j => if j = u then some v else l.vals j

omit [LinearOrder K] in
theorem exec_first {l : Leaf K V M} {n s u : Nat} {k : K} {v : V} (hu : u < M) (hn : n < M) (hs : s ≤ n) :
    Leaf.exec ([.key u k, .val u v] ++ shifts n s) l =
      .ok ⟨shifted l n s, l.bits, keysW l u k, valsW l u v⟩ := by
  rw [exec_append, Leaf.exec, Leaf.write, Slots.wr_ok _ _ hu, Res.ok_bind, Res.pure_eq, Res.ok_bind, Leaf.exec,
    Leaf.write, Slots.wr_ok _ _ hu, Res.ok_bind, Res.pure_eq, Res.ok_bind, Leaf.exec, Res.ok_bind,
    exec_shifts _ n hn s hs]
  rfl

omit [LinearOrder K] in
theorem exec_placed {l : Leaf K V M} {n p u : Nat} {k : K} {v : V} (hu : u < M) (hn : n < M) (hp : 1 ≤ p)
    (hp' : p ≤ n + 1) :
    Leaf.exec ([.key u k, .val u v] ++ shifts n (n + 1 - p) ++ [.slot p u]) l =
      .ok ⟨fun j => if j = p then some u else shifted l n (n + 1 - p) j, l.bits, keysW l u k, valsW l u v⟩ := by
  rw [exec_append, exec_first hu hn (by omega), Res.ok_bind, Leaf.exec, Leaf.write, Slots.wr_ok _ _ (by omega),
    Res.ok_bind, Res.pure_eq, Res.ok_bind]
  rfl

/-- All assignments together are `insertInLeafNodeAtPosition`. -/
theorem LeafOK.exec_insert {l : Leaf K V M} {es : List (Nat × K × V)} (h : LeafOK l es) (hlt : es.length < M)
    (k : K) (v : V) (H : Bool) {p : Nat} (hp : 1 ≤ p) (hp' : p ≤ es.length + 1) :
    Leaf.exec (insertWrites H es.length p l.bits.getFreeZero k v) l = l.insertAt p k v := by
  obtain ⟨hu, _⟩ := h.free hlt
  unfold Leaf.insertAt
  generalize l.bits.getFreeZero = u at hu
  obtain ⟨b1, eb, _⟩ := bit_set l.bits u true hu
  obtain ⟨a', em, ha'⟩ := Slots.moveUp_ok (M + 1) p 1 (le_refl 1) (es.length + 1) l.slot (by omega) (by omega) (by
    intro i h1 h2
    obtain ⟨j, rfl⟩ : ∃ j, i = j + 1 := ⟨i - 1, by omega⟩
    have := h.slots (j + 1) (by simp; omega)
    rw [this]
    simp
    omega)
  have ha0 : a' = shifted l es.length (es.length + 1 - p) := by
    funext j
    rw [ha' j]
    unfold shifted
    by_cases hc : p + 1 ≤ j ∧ j < es.length + 1 + 1
    · rw [if_pos hc, if_pos (by omega)]
    · rw [if_neg hc, if_neg (by omega)]
  have h0 : shifted l es.length (es.length + 1 - p) 0 = some es.length := by
    unfold shifted
    rw [if_neg (by omega)]
    simpa using h.slots 0 (by simp)
  rw [if_pos (by omega)]
  dsimp only
  rw [Slots.wr_ok _ _ hu, Res.ok_bind, Slots.wr_ok _ _ hu, Res.ok_bind, h.count, Res.ok_bind, em, Res.ok_bind, ha0,
    Slots.wr_ok _ _ (by omega), Res.ok_bind, Slots.rd_ok (x := es.length) (by omega)
      (by rw [if_neg (by omega)]; exact h0), Res.ok_bind, Slots.wr_ok _ _ (by omega), Res.ok_bind, eb, Res.ok_bind]
  unfold insertWrites
  rw [exec_append, exec_placed hu hlt hp hp', Res.ok_bind]
  cases H
  · simp only [Bool.false_eq_true, if_false, Leaf.exec, Leaf.write]
    rw [eb, Res.ok_bind, Res.pure_eq, Res.ok_bind, Slots.wr_ok _ _ (by omega), Res.ok_bind, Res.pure_eq, Res.ok_bind]
    rfl
  · simp only [if_true, Leaf.exec, Leaf.write]
    rw [Slots.wr_ok _ _ (by omega), Res.ok_bind, Res.pure_eq, Res.ok_bind, eb, Res.ok_bind, Res.pure_eq, Res.ok_bind]
    rfl

omit [LinearOrder K] in
/-- A prefix of the assignments, by the number `c` of assignments that are done. -/
theorem take_writes (H : Bool) (n p u : Nat) (k : K) (v : V) (c : Nat) :
    (c = 0 ∧ (insertWrites H n p u k v).take c = []) ∨
    (c = 1 ∧ (insertWrites H n p u k v).take c = [.key u k]) ∨
    (∃ s ≤ n + 1 - p, c = s + 2 ∧ (insertWrites H n p u k v).take c = [.key u k, .val u v] ++ shifts n s) ∨
    (c = n + 1 - p + 3 ∧ (insertWrites H n p u k v).take c =
      [.key u k, .val u v] ++ shifts n (n + 1 - p) ++ [.slot p u]) ∨
    (c = n + 1 - p + 4 ∧ (insertWrites H n p u k v).take c =
      [.key u k, .val u v] ++ shifts n (n + 1 - p) ++ [.slot p u] ++ [if H then .slot 0 (n + 1) else .bit u true]) ∨
    (n + 1 - p + 5 ≤ c ∧ (insertWrites H n p u k v).take c = insertWrites H n p u k v) := by
  have hl : (shifts n (n + 1 - p) : List (Write K V)).length = n + 1 - p := by simp [shifts]
  have h1 : ([.key u k, .val u v] ++ shifts n (n + 1 - p) : List (Write K V)).length = n + 1 - p + 2 := by
    simp [hl]
  have h2 : ([.key u k, .val u v] ++ shifts n (n + 1 - p) ++ [.slot p u] : List (Write K V)).length =
      n + 1 - p + 3 := by simp [hl]
  rcases Nat.lt_or_ge c 2 with hc | hc
  · rcases (by omega : c = 0 ∨ c = 1) with rfl | rfl
    · exact Or.inl ⟨rfl, rfl⟩
    · exact Or.inr (Or.inl ⟨rfl, rfl⟩)
  right; right
  rcases Nat.lt_or_ge (n + 1 - p + 2) c with hc2 | hc2
  · right
    rcases (by omega : c = n + 1 - p + 3 ∨ c = n + 1 - p + 4 ∨ n + 1 - p + 5 ≤ c) with rfl | rfl | hc3
    · refine Or.inl ⟨rfl, ?_⟩
      unfold insertWrites
      rw [← h2, List.take_left]
    · refine Or.inr (Or.inl ⟨rfl, ?_⟩)
      unfold insertWrites
      rw [List.take_append, h2, List.take_of_length_le (by rw [h2]; omega),
        show n + 1 - p + 4 - (n + 1 - p + 3) = 1 by omega]
      cases H <;> rfl
    · refine Or.inr (Or.inr ⟨hc3, ?_⟩)
      apply List.take_of_length_le
      unfold insertWrites
      rw [List.length_append, h2]
      cases H <;> simp <;> omega
  · left
    refine ⟨c - 2, by omega, by omega, ?_⟩
    unfold insertWrites
    rw [List.append_assoc, List.take_append_of_le_length (by rw [h1]; omega), List.take_append,
      List.take_of_length_le (by simpa using hc), shifts_take]
    simp only [List.length_cons, List.length_nil]
    rw [Nat.min_eq_left (by omega)]

/-- Lookups see the entries of `L` if the slots lead to exactly these. -/
theorem View.reads_list {l : Leaf K V M} {n : Nat} {f : Nat → Nat × K × V} (h : View l n f)
    {L : List (Nat × K × V)} (hs : L.Pairwise (fun a b => a.2.1 < b.2.1)) (h1 : ∀ i < n, f i ∈ L)
    (h2 : ∀ e ∈ L, ∃ i < n, f i = e) : CrashSpec.Reads l.lookup (valOf L) := by
  refine h.reads (fun i hi => valOf_mem hs (h1 i hi)) (fun k hk => valOf_none fun e he => ?_)
  obtain ⟨i, hi, rfl⟩ := h2 e he
  exact hk i hi

theorem reads_take (d : Nat × K × V) {l : Leaf K V M} {L : List (Nat × K × V)} {n : Nat} (hn : n ≤ L.length)
    (hM : n ≤ M) (h0 : l.slot 0 = some n) (hsl : ∀ i < n, l.slot (i + 1) = some (L.getD i d).1)
    (hent : ∀ e ∈ L, e.1 < M ∧ l.keys e.1 = some e.2.1 ∧ l.vals e.1 = some e.2.2)
    (hs : L.Pairwise (fun a b => a.2.1 < b.2.1)) : CrashSpec.Reads l.lookup (valOf (L.take n)) := by
  have hg : ∀ i, (h : i < n) → L.getD i d = L[i]'(by omega) := fun i h => by
    rw [List.getD_eq_getElem?_getD, List.getElem?_eq_getElem (by omega), Option.getD_some]
  have hm : ∀ i < n, L.getD i d ∈ L := fun i h => by rw [hg i h]; exact List.getElem_mem _
  have hv : View l n (fun i => L.getD i d) := by
    refine ⟨h0, hsl, fun i hi => (hent _ (hm i hi)).1, fun i hi => (hent _ (hm i hi)).2.1,
      fun i hi => (hent _ (hm i hi)).2.2, fun i j h1 h2 => ?_, hM⟩
    rw [hg i (by omega), hg j h2]
    exact le_of_lt (List.pairwise_iff_getElem.1 hs i j (by omega) (by omega) h1)
  refine hv.reads_list (hs.sublist (List.take_sublist _ _)) (fun i hi => ?_) (fun e he => ?_)
  · rw [hg i hi, List.mem_take_iff_getElem]
    exact ⟨i, by omega, rfl⟩
  · obtain ⟨i, hi, rfl⟩ := List.mem_take_iff_getElem.1 he
    exact ⟨i, by omega, hg i (by omega)⟩

/-- The keys of the leaf in the middle of an insert. -/
theorem LeafOK.ent_written {l : Leaf K V M} {es : List (Nat × K × V)} (h : LeafOK l es) {u : Nat} (hu : u < M)
    (hnu : u ∉ es.map (·.1)) (k : K) (v : V) : ∀ e, e ∈ es ∨ e = (u, k, v) →
    e.1 < M ∧ keysW l u k e.1 = some e.2.1 ∧ valsW l u v e.1 = some e.2.2 := by
  rintro e (he | rfl)
  · have hne : e.1 ≠ u := fun hh => hnu (hh ▸ List.mem_map_of_mem he)
    unfold keysW valsW
    rw [if_neg hne, if_neg hne]
    exact h.ent e he
  · unfold keysW valsW
    simp [hu]

/-- The leaf at all points of the insert of a new key: `m = b.length` entries have larger keys. -/
theorem LeafOK.crash {l : Leaf K V M} {a b : List (Nat × K × V)} (h : LeafOK l (a ++ b))
    (hlt : (a ++ b).length < M) (k : K) (v : V) (ha : ∀ e ∈ a, e.2.1 < k) (hb : ∀ e ∈ b, k < e.2.1) (H : Bool)
    (c : Nat) :
    ∃ l' u, Leaf.exec ((insertWrites H (a ++ b).length (a.length + 1) l.bits.getFreeZero k v).take c) l = .ok l' ∧
      (c ≤ 3 → LeafOK l' (a ++ b)) ∧
      (4 ≤ c → c ≤ b.length + 2 → CrashSpec.Reads l'.lookup (valOf (a ++ b).dropLast)) ∧
      (c = b.length + 3 ∨ (c = b.length + 4 ∧ H = false) →
        CrashSpec.Reads l'.lookup (valOf (a ++ (u, k, v) :: b).dropLast)) ∧
      (c = b.length + 4 → H = true → CrashSpec.Reads l'.lookup (valOf (a ++ (u, k, v) :: b))) ∧
      (b.length + 5 ≤ c → LeafOK l' (a ++ (u, k, v) :: b)) := by
  obtain ⟨hu, hnu⟩ := h.free hlt
  obtain ⟨lf, uf, ef, hf⟩ := h.insertAt hlt k v ha hb
  rw [← h.exec_insert hlt k v H (by omega) (by simp)] at ef
  generalize l.bits.getFreeZero = u at hu hnu ef
  have hn : (a ++ b).length = a.length + b.length := List.length_append
  have hm : (a ++ b).length + 1 - (a.length + 1) = b.length := by omega
  have h0 : l.slot 0 = some (a ++ b).length := by simpa using h.slots 0 (by simp)
  have hsl : ∀ i, (hi : i < (a ++ b).length) → l.slot (i + 1) = some (a ++ b)[i].1 := by
    intro i hi
    have := h.slots (i + 1) (by simp; simpa using hi)
    rw [this, List.getElem?_cons_succ, List.getElem?_map, List.getElem?_eq_getElem hi]
    rfl
  have hent := h.ent_written hu hnu k v
  /- the first assignments leave the entries as they are -/
  have hsame : ∀ l' : Leaf K V M, (∀ j ≤ (a ++ b).length, l'.slot j = l.slot j) → l'.bits = l.bits →
      (∀ e ∈ a ++ b, l'.keys e.1 = l.keys e.1 ∧ l'.vals e.1 = l.vals e.1) → LeafOK l' (a ++ b) := by
    intro l' h1 h2 h3
    refine ⟨?_, ?_, h.nodup, ?_, h.sorted, h.le⟩
    · intro i hi
      simp only [List.length_cons, List.length_map] at hi
      rw [h1 i (by omega)]
      exact h.slots i (by simpa using hi)
    · intro e he
      rw [(h3 e he).1, (h3 e he).2]
      exact h.ent e he
    · rw [h2]; exact h.bits
  have hold : ∀ e ∈ a ++ b, keysW l u k e.1 = l.keys e.1 ∧ valsW l u v e.1 = l.vals e.1 := by
    intro e he
    have := hent e (Or.inl he)
    rw [this.2.1, this.2.2, (h.ent e he).2.1, (h.ent e he).2.2]
    exact ⟨rfl, rfl⟩
  have hsorted : (a ++ (u, k, v) :: b).Pairwise (fun x y => x.2.1 < y.2.1) := by
    have hs := h.sorted
    rw [List.pairwise_append] at hs ⊢
    refine ⟨hs.1, List.pairwise_cons.2 ⟨fun x hx => hb x hx, hs.2.1⟩, ?_⟩
    intro x hx y hy
    rcases List.mem_cons.1 hy with rfl | hy
    · exact ha x hx
    · exact hs.2.2 x hx y hy
  have hplaced : ∀ i < (a ++ b).length + 1,
      (if i + 1 = a.length + 1 then some u else shifted l (a ++ b).length b.length (i + 1)) =
        some ((a ++ (u, k, v) :: b).getD i (u, k, v)).1 := by
    intro i hi
    rw [List.getD_eq_getElem?_getD]
    rcases Nat.lt_trichotomy i a.length with hc | hc | hc
    · rw [if_neg (by omega)]
      unfold shifted
      rw [if_neg (by omega), hsl i (by omega), List.getElem?_append_left hc, List.getElem_append_left hc]
      simp [hc]
    · rw [if_pos (by omega), List.getElem?_append_right (by omega), hc]
      simp
    · rw [if_neg (by omega)]
      unfold shifted
      obtain ⟨j, rfl⟩ : ∃ j, i = a.length + (j + 1) := ⟨i - a.length - 1, by omega⟩
      rw [if_pos (by omega), show a.length + (j + 1) + 1 - 1 = a.length + j + 1 by omega, hsl _ (by omega),
        List.getElem?_append_right (by omega), List.getElem_append_right (by omega)]
      simp only [Nat.add_sub_cancel_left, List.getElem?_cons_succ]
      rw [List.getElem?_eq_getElem (by omega)]
      rfl
  have hentA : ∀ e ∈ a ++ (u, k, v) :: b, e.1 < M ∧ keysW l u k e.1 = some e.2.1 ∧ valsW l u v e.1 = some e.2.2 := by
    intro e he
    apply hent
    simp only [List.mem_append, List.mem_cons] at he ⊢
    tauto
  have hlenA : (a ++ (u, k, v) :: b).length = (a ++ b).length + 1 := by simp; omega
  have hdrop : (a ++ (u, k, v) :: b).take (a ++ b).length = (a ++ (u, k, v) :: b).dropLast := by
    rw [List.dropLast_eq_take, hlenA, Nat.add_sub_cancel]
  have e0 := exec_placed (l := l) (k := k) (v := v) hu hlt (p := a.length + 1) (by omega) (by omega)
  rcases take_writes H (a ++ b).length (a.length + 1) u k v c with ⟨hc, e⟩ | ⟨hc, e⟩ | ⟨s, hs, hc, e⟩ | ⟨hc, e⟩ |
    ⟨hc, e⟩ | ⟨hc, e⟩ <;> rw [hm] at * <;> rw [e]
  · exact ⟨l, u, rfl, fun _ => h, by omega, by omega, by omega, by omega⟩
  · refine ⟨⟨l.slot, l.bits, keysW l u k, l.vals⟩, u, ?_, fun _ => hsame _ (fun _ _ => rfl) rfl
      (fun e he => ⟨(hold e he).1, rfl⟩), by omega, by omega, by omega, by omega⟩
    rw [Leaf.exec, Leaf.write, Slots.wr_ok _ _ hu]
    rfl
  · refine ⟨_, u, exec_first hu hlt (by omega), fun h3 => ?_, fun h4 h5 => ?_, by omega, by omega, by omega⟩
    · refine hsame _ (fun j hj => ?_) rfl hold
      show shifted l _ s j = _
      unfold shifted
      rw [if_neg (by omega)]
    · have hg : ∀ i, (hi : i < (a ++ b).length) → (a ++ b).getD i (u, k, v) = (a ++ b)[i] := fun i hi => by
        rw [List.getD_eq_getElem?_getD, List.getElem?_eq_getElem hi, Option.getD_some]
      let f : Nat → Nat × K × V := fun i =>
        if (a ++ b).length + 1 ≤ i + s then (a ++ b).getD (i - 1) (u, k, v) else (a ++ b).getD i (u, k, v)
      have hfi : ∀ i < (a ++ b).length, ∃ (j : Nat) (hj : j < (a ++ b).length), f i = (a ++ b)[j] ∧ j ≤ i ∧ i ≤ j + 1 ∧
          j < (a ++ b).length - 1 ∧ ((a ++ b).length + 1 ≤ i + s ↔ j + 1 = i) := by
        intro i hi
        by_cases hcc : (a ++ b).length + 1 ≤ i + s
        · refine ⟨i - 1, by omega, ?_, by omega, by omega, by omega, by omega⟩
          show (if _ then _ else _) = _
          rw [if_pos hcc, hg (i - 1) (by omega)]
        · refine ⟨i, hi, ?_, by omega, by omega, by omega, by omega⟩
          show (if _ then _ else _) = _
          rw [if_neg hcc, hg i hi]
      have hfe : ∀ i < (a ++ b).length, f i ∈ a ++ b := by
        intro i hi
        obtain ⟨j, hj, e1, _⟩ := hfi i hi
        rw [e1]; exact List.getElem_mem _
      have hv : View (⟨shifted l (a ++ b).length s, l.bits, keysW l u k, valsW l u v⟩ : Leaf K V M)
          (a ++ b).length f := by
        refine ⟨?_, fun i hi => ?_, fun i hi => (hent _ (Or.inl (hfe i hi))).1,
          fun i hi => (hent _ (Or.inl (hfe i hi))).2.1, fun i hi => (hent _ (Or.inl (hfe i hi))).2.2,
          fun i j h1 h2 => ?_, h.le⟩
        · show shifted l _ s 0 = _
          unfold shifted
          rw [if_neg (by omega), h0]
        · obtain ⟨j, hj, e1, h1, h2, h3, h4'⟩ := hfi i hi
          show shifted l _ s (i + 1) = _
          rw [e1]
          unfold shifted
          by_cases hcc : (a ++ b).length + 1 ≤ i + s
          · rw [if_pos (by omega)]
            have := h4'.1 hcc
            subst this
            rw [Nat.add_sub_cancel, hsl j hj]
          · rw [if_neg (by omega)]
            have : j = i := by
              rcases Nat.lt_or_eq_of_le h1 with h6 | h6
              · exact absurd (h4'.2 (by omega)) hcc
              · exact h6
            subst this
            rw [hsl j hj]
        · obtain ⟨i', hi', e1, h11, h12, h13, h14⟩ := hfi i (by omega)
          obtain ⟨j', hj', e2, h21, h22, h23, h24⟩ := hfi j h2
          rw [e1, e2]
          rcases Nat.lt_or_eq_of_le (show i' ≤ j' by omega) with h6 | h6
          · exact le_of_lt (List.pairwise_iff_getElem.1 h.sorted i' j' hi' hj' h6)
          · subst h6; exact le_refl _
      refine hv.reads_list (h.sorted.sublist (List.dropLast_sublist _)) (fun i hi => ?_) (fun e he => ?_)
      · obtain ⟨j, hj, e1, _, _, h3, _⟩ := hfi i hi
        rw [e1, List.dropLast_eq_take, List.mem_take_iff_getElem]
        exact ⟨j, by omega, rfl⟩
      · rw [List.dropLast_eq_take] at he
        obtain ⟨j, hj, rfl⟩ := List.mem_take_iff_getElem.1 he
        by_cases hcc : (a ++ b).length + 1 ≤ j + s
        · refine ⟨j + 1, by omega, ?_⟩
          show (if _ then _ else _) = _
          rw [if_pos (by omega), Nat.add_sub_cancel, hg j (by omega)]
        · refine ⟨j, by omega, ?_⟩
          show (if _ then _ else _) = _
          rw [if_neg hcc, hg j (by omega)]
  · refine ⟨_, u, e0, fun h3 => ?_, by omega, fun _ => ?_, by omega, by omega⟩
    · refine hsame _ (fun j hj => ?_) rfl hold
      show (if j = a.length + 1 then some u else shifted l (a ++ b).length b.length j) = _
      rw [if_neg (by omega)]
      unfold shifted
      rw [if_neg (by omega)]
    · rw [← hdrop]
      refine reads_take (u, k, v) (by omega) h.le ?_ (fun i hi => hplaced i (by omega)) hentA hsorted
      show (if 0 = a.length + 1 then some u else shifted l (a ++ b).length b.length 0) = _
      rw [if_neg (by omega)]
      unfold shifted
      rw [if_neg (by omega), h0]
  · obtain ⟨b1, eb, _⟩ := bit_set l.bits u true hu
    rw [exec_append, e0, Res.ok_bind]
    cases H with
    | false =>
      refine ⟨⟨fun j => if j = a.length + 1 then some u else shifted l (a ++ b).length b.length j, b1,
        keysW l u k, valsW l u v⟩, u, ?_, by omega, by omega, fun _ => ?_, by simp, by omega⟩
      · simp only [Bool.false_eq_true, if_false, Leaf.exec, Leaf.write]
        rw [eb]
        rfl
      · rw [← hdrop]
        refine reads_take (u, k, v) (by omega) h.le ?_ (fun i hi => hplaced i (by omega)) hentA hsorted
        show (if 0 = a.length + 1 then some u else shifted l (a ++ b).length b.length 0) = _
        rw [if_neg (by omega)]
        unfold shifted
        rw [if_neg (by omega), h0]
    | true =>
      refine ⟨⟨fun j => if j = 0 then some ((a ++ b).length + 1) else if j = a.length + 1 then some u else
        shifted l (a ++ b).length b.length j, l.bits,
        keysW l u k, valsW l u v⟩, u, ?_, by omega, by omega, by simp; omega, fun _ _ => ?_, by omega⟩
      · simp only [if_true, Leaf.exec, Leaf.write]
        rw [Slots.wr_ok _ _ (by omega)]
        rfl
      · have : (a ++ (u, k, v) :: b) = (a ++ (u, k, v) :: b).take ((a ++ b).length + 1) := by
          rw [← hlenA, List.take_length]
        rw [this]
        refine reads_take (u, k, v) (by omega) (by omega) rfl (fun i hi => ?_) hentA hsorted
        rw [← hplaced i hi]
        show (if i + 1 = 0 then some ((a ++ b).length + 1) else if i + 1 = a.length + 1 then some u else
          shifted l (a ++ b).length b.length (i + 1)) = _
        rw [if_neg (by omega)]
  · exact ⟨lf, uf, ef, by omega, by omega, by omega, by omega, fun _ => hf⟩

/-! ## Specification -/

/-- The map `m` without the key `x`. -/
def without (m : K → Option V) (x : K) : K → Option V := fun k => if k = x then none else m k

/-- `x` is the greatest of the keys inserted by `xs`. -/
def Top (xs : List (K × V)) (x : K) : Prop := (∃ v, (x, v) ∈ xs) ∧ ∀ y ∈ xs, y.1 ≤ x

/-- How many different keys of `xs` are greater than `k`. -/
def above (xs : List (K × V)) (k : K) : Nat := ((xs.map Prod.fst).toFinset.filter (k < ·)).card

/-- C87. An insert that does not split the leaf is atomic with respect to crashes: after a crash all lookups are
those before or those after the insert. -/
def C87_statement (K V : Type) [LinearOrder K] (N M : Nat) (h : Bool) (junk : Option Nat) : Prop :=
  ∀ (xs : List (K × V)) (k : K) (v : V) (c : Nat), (((xs ++ [(k, v)]).map Prod.fst).toFinset.card ≤ M) →
    ∃ t t', insertAll junk xs (empty N M junk : Tree K V N M) = .ok t ∧ crashInsert h c t k v = .ok t' ∧
      CrashSpec.BeforeOrAfter (lookup t') (last xs) (last (xs ++ [(k, v)]))

/-- C88. After such a crash the tree can be used on: the inserts `ys` that follow succeed, and then all lookups
are those of `xs`, `ys` or those of `xs`, the interrupted insert, `ys`. -/
def C88_statement (K V : Type) [LinearOrder K] (N M : Nat) (h : Bool) (junk : Option Nat) : Prop :=
  ∀ (xs ys : List (K × V)) (k : K) (v : V) (c : Nat),
    (((xs ++ [(k, v)] ++ ys).map Prod.fst).toFinset.card ≤ M) →
    ∃ t t' t'', insertAll junk xs (empty N M junk : Tree K V N M) = .ok t ∧ crashInsert h c t k v = .ok t' ∧
      insertAll junk ys t' = .ok t'' ∧
      CrashSpec.BeforeOrAfter (lookup t'') (last (xs ++ ys)) (last (xs ++ [(k, v)] ++ ys))

/-! ## Proofs -/

theorem valOf_dropLast {L : List (Nat × K × V)} (hs : L.Pairwise (fun a b => a.2.1 < b.2.1)) {x : K}
    (hx : x ∈ keysOf L) (hle : ∀ y ∈ keysOf L, y ≤ x) : valOf L.dropLast = without (valOf L) x := by
  rcases List.eq_nil_or_concat L with rfl | ⟨L', e, rfl⟩
  · simp [keysOf] at hx
  rw [List.concat_eq_append] at *
  rw [List.pairwise_append] at hs
  have hlt : ∀ e' ∈ L', e'.2.1 < e.2.1 := fun e' he' => hs.2.2 e' he' e (by simp)
  have hex : e.2.1 = x := by
    obtain ⟨e', he', hh⟩ := mem_keysOf.1 hx
    rcases List.mem_append.1 he' with h1 | h1
    · exact absurd (hlt e' h1) (not_lt.2 (by rw [hh]; exact hle _ (mem_keysOf.2 ⟨e, by simp, rfl⟩)))
    · rw [List.mem_singleton.1 h1] at hh; exact hh
  subst hex
  funext k'
  have h5 := valOf_insert (b := []) (u := e.1) (v := e.2.2) (k := e.2.1) hlt k'
  rw [List.append_nil, show (e.1, e.2.1, e.2.2) = e from rfl] at h5
  rw [List.dropLast_concat]
  unfold without
  by_cases hk : k' = e.2.1
  · rw [if_pos hk, hk]
    exact valOf_none fun e' he' => ne_of_lt (hlt e' he')
  · rw [if_neg hk, h5, if_neg (Ne.symm hk)]

theorem last_append (xs ys : List (K × V)) (k : K) :
    last (xs ++ ys) k = ys.foldl (fun o x => if x.1 = k then some x.2 else o) (last xs k) := by
  unfold last
  rw [List.foldl_append]

theorem keysOf_insert (a b : List (Nat × K × V)) (u : Nat) (k : K) (v : V) :
    keysOf (a ++ (u, k, v) :: b) = Insert.insert k (keysOf (a ++ b)) := by
  unfold keysOf
  ext x
  simp only [List.map_append, List.map_cons, List.toFinset_append, List.toFinset_cons, Finset.mem_union,
    Finset.mem_insert]
  tauto

theorem LeafOK.crashInsert_new {l : Leaf K V M} {es : List (Nat × K × V)} (h : LeafOK l es) (hlt : es.length < M)
    {k : K} (hk : ∀ e ∈ es, e.2.1 ≠ k) (v : V) (H : Bool) (c : Nat) :
    ∃ a b, es = a ++ b ∧ (∀ e ∈ a, e.2.1 < k) ∧ (∀ e ∈ b, k < e.2.1) ∧
      l.crashInsert H c k v =
        Leaf.exec ((insertWrites H (a ++ b).length (a.length + 1) l.bits.getFreeZero k v).take c) l := by
  obtain ⟨a, b, hes, hp, ha, hb, hdup⟩ := h.pos_new hk
  refine ⟨a, b, hes, ha, hb, ?_⟩
  unfold Leaf.crashInsert
  rw [hp, Res.ok_bind, h.count, Res.ok_bind, hdup, Res.ok_bind]
  dsimp only
  rw [if_neg (by omega), hes]

theorem LeafOK.crashInsert_dup (junk : Option Nat) {l : Leaf K V M} {es : List (Nat × K × V)} (h : LeafOK l es)
    {k : K} (hk : k ∈ keysOf es) (v : V) (H : Bool) {c : Nat} (hc : 1 ≤ c) :
    ∃ l', l.crashInsert H c k v = .ok l' ∧ l.insert junk k v = .ok (l', none) := by
  obtain ⟨e, he, hek⟩ := mem_keysOf.1 hk
  obtain ⟨s, k0, w⟩ := e
  simp only at hek
  subst hek
  obtain ⟨a, b, rfl⟩ := List.append_of_mem he
  have hp := h.pos_hit
  obtain ⟨h1, h2⟩ := h.hit rfl
  have hsM := (h.ent (s, k0, w) (by simp)).1
  refine ⟨{ l with vals := fun j => if j = s then some v else l.vals j }, ?_, ?_⟩
  · unfold Leaf.crashInsert
    rw [hp, Res.ok_bind, h.count, Res.ok_bind, if_pos (by simp), h1, Res.ok_bind, h2, Res.ok_bind,
      if_pos rfl, Res.pure_eq, Res.ok_bind]
    dsimp only
    rw [List.take_of_length_le (by simpa using hc), Leaf.exec, Leaf.write, Slots.wr_ok _ _ hsM]
    rfl
  · unfold Leaf.insert
    rw [hp, Res.ok_bind, h.count, Res.ok_bind, if_pos (by simp), h1, Res.ok_bind, h2, Res.ok_bind,
      if_pos rfl, Res.pure_eq, Res.ok_bind]
    dsimp only
    rw [Slots.wr_ok _ _ hsM, Res.ok_bind]
    rfl

theorem crashInsert_single (H : Bool) (c : Nat) (l l' : Leaf K V M) (k : K) (v : V)
    (e : l.crashInsert H c k v = .ok l') :
    crashInsert H c (⟨[l], [], 0, 0, fun _ => none⟩ : Tree K V N M) k v = .ok ⟨[l'], [], 0, 0, fun _ => none⟩ := by
  unfold crashInsert Tree.leaf
  rw [List.getElem?_cons_zero, Res.ofOption_some, Res.ok_bind, e, Res.ok_bind]
  rfl

theorem lookup_single (l : Leaf K V M) (k : K) :
    lookup (⟨[l], [], 0, 0, fun _ => none⟩ : Tree K V N M) k = l.lookup k := by
  unfold lookup findLeaf Tree.leaf
  rw [Res.ok_bind, List.getElem?_cons_zero, Res.ofOption_some, Res.ok_bind]

/-- The leaf after a history, with the entries. -/
theorem history (junk : Option Nat) (xs : List (K × V)) (h : (xs.map Prod.fst).toFinset.card ≤ M) :
    ∃ (l : Leaf K V M) (es : List (Nat × K × V)),
      insertAll junk xs (empty N M junk : Tree K V N M) = .ok ⟨[l], [], 0, 0, fun _ => none⟩ ∧ LeafOK l es ∧
      valOf es = last xs ∧ keysOf es = (xs.map Prod.fst).toFinset := by
  obtain ⟨l, es, e, hl, hv, hk⟩ := insertAll_leaf (N := N) junk xs (Leaf.fresh M junk) [] (leafOK_fresh junk)
    (by simpa [keysOf] using h)
  exact ⟨l, es, e, hl, by funext k; rw [hv k]; rfl, by rw [hk]; simp [keysOf]⟩

theorem above_eq {xs : List (K × V)} {a b : List (Nat × K × V)} {k : K}
    (hs : (a ++ b).Pairwise (fun x y => x.2.1 < y.2.1)) (hk : keysOf (a ++ b) = (xs.map Prod.fst).toFinset)
    (ha : ∀ e ∈ a, e.2.1 < k) (hb : ∀ e ∈ b, k < e.2.1) : above xs k = b.length := by
  unfold above
  rw [← hk]
  have h1 : (keysOf (a ++ b)).filter (k < ·) = (b.map (·.2.1)).toFinset := by
    ext y
    rw [Finset.mem_filter, mem_keysOf, List.mem_toFinset, List.mem_map]
    constructor
    · rintro ⟨⟨e, he, rfl⟩, h2⟩
      rcases List.mem_append.1 he with h3 | h3
      · exact absurd h2 (not_lt.2 (le_of_lt (ha e h3)))
      · exact ⟨e, h3, rfl⟩
    · rintro ⟨e, he, rfl⟩
      exact ⟨⟨e, by simp [he], rfl⟩, hb e he⟩
  rw [h1, List.toFinset_card_of_nodup, List.length_map]
  rw [List.pairwise_append] at hs
  have : (b.map (·.2.1)).Pairwise (· < ·) := List.pairwise_map.2 hs.2.1
  exact this.imp ne_of_lt

theorem Top.keys {xs : List (K × V)} {x : K} {es : List (Nat × K × V)} (h : Top xs x)
    (hk : keysOf es = (xs.map Prod.fst).toFinset) : x ∈ keysOf es ∧ ∀ y ∈ keysOf es, y ≤ x := by
  rw [hk]
  constructor
  · obtain ⟨v, hv⟩ := h.1
    exact List.mem_toFinset.2 (List.mem_map.2 ⟨_, hv, rfl⟩)
  · intro y hy
    obtain ⟨z, hz, rfl⟩ := List.mem_map.1 (List.mem_toFinset.1 hy)
    exact h.2 z hz

/-- C87, all crash points of the insert of a new key into a tree that is one leaf with room.  `above xs k`
keys are greater than the new one.  Up to three assignments: the lookups before.  While more slots are shifted:
the greatest key is not found.  When the new slot is written but not counted: the new key is found and the
greatest key is not (if the new key is the greatest, that is the state before).  When it is counted: the
lookups after. -/
theorem C87_insert_partial (H : Bool) (junk : Option Nat) (xs : List (K × V)) (k : K) (v : V) (c : Nat)
    (hnew : k ∉ xs.map Prod.fst) (hM : (xs.map Prod.fst).toFinset.card < M) :
    ∃ t t', insertAll junk xs (empty N M junk : Tree K V N M) = .ok t ∧ crashInsert H c t k v = .ok t' ∧
      (c ≤ 3 → CrashSpec.Reads (lookup t') (last xs)) ∧
      (4 ≤ c → c ≤ above xs k + 2 → ∀ x, Top xs x → CrashSpec.Reads (lookup t') (without (last xs) x)) ∧
      (c = above xs k + 3 ∨ (c = above xs k + 4 ∧ H = false) → above xs k = 0 →
        CrashSpec.Reads (lookup t') (last xs)) ∧
      (c = above xs k + 3 ∨ (c = above xs k + 4 ∧ H = false) → 0 < above xs k → ∀ x, Top xs x →
        CrashSpec.Reads (lookup t') (without (last (xs ++ [(k, v)])) x)) ∧
      ((c = above xs k + 4 ∧ H = true) ∨ above xs k + 5 ≤ c →
        CrashSpec.Reads (lookup t') (last (xs ++ [(k, v)]))) := by
  obtain ⟨l, es, e, hl, hv, hk⟩ := history (N := N) junk xs (le_of_lt hM)
  have hlt : es.length < M := by rw [← hl.card, hk]; exact hM
  have hne : ∀ e ∈ es, e.2.1 ≠ k := by
    intro e0 he0 hh
    have : k ∈ keysOf es := mem_keysOf.2 ⟨e0, he0, hh⟩
    rw [hk, List.mem_toFinset] at this
    exact hnew this
  obtain ⟨a, b, rfl, ha, hb, ec⟩ := hl.crashInsert_new hlt hne v H c
  obtain ⟨l', u, e', h1, h2, h3, h4, h5⟩ := hl.crash hlt k v ha hb H c
  rw [e'] at ec
  rw [above_eq hl.sorted hk ha hb]
  have hafter : valOf (a ++ (u, k, v) :: b) = last (xs ++ [(k, v)]) := by
    funext k'
    rw [valOf_insert ha k', hv, last_append]
    rfl
  have hlk : ∀ R, CrashSpec.Reads l'.lookup R →
      CrashSpec.Reads (lookup (⟨[l'], [], 0, 0, fun _ => none⟩ : Tree K V N M)) R := by
    intro R hR k'
    rw [lookup_single]
    exact hR k'
  have hsorted : (a ++ (u, k, v) :: b).Pairwise (fun x y => x.2.1 < y.2.1) := by
    have hs := hl.sorted
    rw [List.pairwise_append] at hs ⊢
    refine ⟨hs.1, List.pairwise_cons.2 ⟨fun x hx => hb x hx, hs.2.1⟩, ?_⟩
    intro x hx y hy
    rcases List.mem_cons.1 hy with rfl | hy
    · exact ha x hx
    · exact hs.2.2 x hx y hy
  refine ⟨_, _, e, crashInsert_single H c l l' k v ec, fun hc => hlk _ ?_, fun hc hc' x hx => hlk _ ?_,
    fun hc hc0 => hlk _ ?_, fun hc hc0 x hx => hlk _ ?_, fun hc => hlk _ ?_⟩
  · intro k'
    rw [(h1 hc).lookup k', ← hv]
    rfl
  · have := h2 hc hc'
    rw [valOf_dropLast hl.sorted (hx.keys hk).1 (hx.keys hk).2, hv] at this
    exact this
  · have := h3 hc
    rw [List.length_eq_zero_iff] at hc0
    subst hc0
    rw [List.dropLast_concat, ← List.append_nil a, hv] at this
    exact this
  · have := h3 hc
    obtain ⟨hx1, hx2⟩ := hx.keys hk
    obtain ⟨e1, he1⟩ := List.exists_mem_of_length_pos hc0
    have hmem : ∀ y, y ∈ keysOf (a ++ (u, k, v) :: b) ↔ y = k ∨ y ∈ keysOf (a ++ b) := by
      intro y
      rw [keysOf_insert, Finset.mem_insert]
    rw [valOf_dropLast hsorted ((hmem x).2 (Or.inr hx1)) (fun y hy => ?_), hafter] at this
    · exact this
    · rcases (hmem y).1 hy with rfl | hy
      · exact le_trans (le_of_lt (hb e1 he1)) (hx2 _ (mem_keysOf.2 ⟨e1, by simp [he1], rfl⟩))
      · exact hx2 y hy
  · rcases hc with ⟨hc, hH⟩ | hc
    · have := h4 hc hH
      rw [hafter] at this
      exact this
    · intro k'
      rw [(h5 hc).lookup k', ← hafter]
      rfl

/-- Inserts into a leaf that is in order. -/
theorem LeafOK.go_on {l : Leaf K V M} {es : List (Nat × K × V)} (hl : LeafOK l es) (junk : Option Nat)
    (xs ys : List (K × V)) (hv : valOf es = last xs) (hk : keysOf es = (xs.map Prod.fst).toFinset)
    (hM : ((xs ++ ys).map Prod.fst).toFinset.card ≤ M) :
    ∃ t, insertAll junk ys (⟨[l], [], 0, 0, fun _ => none⟩ : Tree K V N M) = .ok t ∧
      CrashSpec.Reads (WBTree.lookup t) (last (xs ++ ys)) := by
  obtain ⟨l', es', e, hl', hv', _⟩ := insertAll_leaf (N := N) junk ys l es hl
    (by rw [hk, ← List.toFinset_append, ← List.map_append]; exact hM)
  refine ⟨_, e, fun k => ?_⟩
  rw [lookup_single, hl'.lookup k, last_append, ← hv, ← hv' k]
  rfl

/-- C87, C88 for a stored key: the insert is one assignment, so it is atomic, and everything works
afterwards. -/
theorem C87_overwrite (H : Bool) (junk : Option Nat) (xs ys : List (K × V)) (k : K) (v : V) (c : Nat)
    (hold : k ∈ xs.map Prod.fst) (hM : ((xs ++ ys).map Prod.fst).toFinset.card ≤ M) :
    ∃ t t' t'', insertAll junk xs (empty N M junk : Tree K V N M) = .ok t ∧ crashInsert H c t k v = .ok t' ∧
      CrashSpec.BeforeOrAfter (lookup t') (last xs) (last (xs ++ [(k, v)])) ∧
      insertAll junk ys t' = .ok t'' ∧
      CrashSpec.BeforeOrAfter (lookup t'') (last (xs ++ ys)) (last (xs ++ [(k, v)] ++ ys)) := by
  have hM0 : (xs.map Prod.fst).toFinset.card ≤ M := by
    refine le_trans (Finset.card_le_card ?_) hM
    rw [List.map_append, List.toFinset_append]
    exact Finset.subset_union_left
  obtain ⟨l, es, e, hl, hv, hk⟩ := history (N := N) junk xs hM0
  have hin : k ∈ keysOf es := by rw [hk, List.mem_toFinset]; exact hold
  rcases Nat.eq_zero_or_pos c with rfl | hc
  · obtain ⟨t'', e2, h2⟩ := hl.go_on (N := N) junk xs ys hv hk hM
    have e1 : l.crashInsert H 0 k v = .ok l := by
      obtain ⟨e0, he, hek⟩ := mem_keysOf.1 hin
      obtain ⟨s, k0, w⟩ := e0
      simp only at hek
      subst hek
      obtain ⟨a, b, rfl⟩ := List.append_of_mem he
      obtain ⟨h1, h2⟩ := hl.hit rfl
      unfold Leaf.crashInsert
      rw [hl.pos_hit, Res.ok_bind, hl.count, Res.ok_bind, if_pos (by simp), h1, Res.ok_bind, h2, Res.ok_bind,
        if_pos rfl, Res.pure_eq, Res.ok_bind]
      rfl
    refine ⟨_, _, t'', e, crashInsert_single H 0 l l k v e1, Or.inl fun k' => ?_, e2, Or.inl h2⟩
    rw [lookup_single, hl.lookup k', ← hv]
    rfl
  · obtain ⟨l', e1, e2⟩ := hl.crashInsert_dup junk hin v H hc
    obtain ⟨l1, es1, e3, hl1, hv1, hk1⟩ := hl.step junk k v (by
      rw [Finset.insert_eq_of_mem hin, hk]; exact hM0)
    rw [e2] at e3
    injection e3 with e3
    rw [Prod.mk.injEq] at e3
    rw [← e3.1] at hl1
    have hv2 : valOf es1 = last (xs ++ [(k, v)]) := by
      funext k'
      rw [hv1 k', hv, last_append]
      rfl
    obtain ⟨t'', e4, h4⟩ := hl1.go_on (N := N) junk (xs ++ [(k, v)]) ys hv2 (by
        rw [hk1, hk, List.map_append, List.toFinset_append]
        ext y; simp [or_comm]) (by
        have : ((xs ++ [(k, v)] ++ ys).map Prod.fst).toFinset = ((xs ++ ys).map Prod.fst).toFinset := by
          simp only [List.map_append, List.toFinset_append, List.map_cons, List.map_nil]
          congr 1
          exact Finset.union_eq_left.2 (by simpa using hold)
        rw [this]; exact hM)
    refine ⟨_, _, t'', e, crashInsert_single H c l l' k v e1, Or.inr fun k' => ?_, e4, Or.inr h4⟩
    rw [lookup_single, hl1.lookup k', ← hv2]
    rfl

/-- C88, the crash points after which the tree is in order: up to three assignments, or all of them. -/
theorem C88_partial (H : Bool) (junk : Option Nat) (xs ys : List (K × V)) (k : K) (v : V) (c : Nat)
    (hnew : k ∉ xs.map Prod.fst) (hM : ((xs ++ [(k, v)] ++ ys).map Prod.fst).toFinset.card ≤ M) :
    ∃ t t', insertAll junk xs (empty N M junk : Tree K V N M) = .ok t ∧ crashInsert H c t k v = .ok t' ∧
      (c ≤ 3 → ∃ t'', insertAll junk ys t' = .ok t'' ∧ CrashSpec.Reads (lookup t'') (last (xs ++ ys))) ∧
      (above xs k + 5 ≤ c → ∃ t'', insertAll junk ys t' = .ok t'' ∧
        CrashSpec.Reads (lookup t'') (last (xs ++ [(k, v)] ++ ys))) := by
  have hU : ((xs ++ [(k, v)] ++ ys).map Prod.fst).toFinset =
      Insert.insert k ((xs.map Prod.fst).toFinset ∪ (ys.map Prod.fst).toFinset) := by
    ext y
    simp only [List.map_append, List.toFinset_append, List.map_cons, List.map_nil, Finset.mem_union,
      Finset.mem_insert, List.mem_toFinset, List.mem_singleton]
    tauto
  have hM1 : (xs.map Prod.fst).toFinset.card + 1 ≤ M := by
    rw [← Finset.card_insert_of_notMem (fun h => hnew (List.mem_toFinset.1 h))]
    refine le_trans (Finset.card_le_card ?_) hM
    rw [hU]
    exact Finset.insert_subset_insert _ Finset.subset_union_left
  obtain ⟨l, es, e, hl, hv, hk⟩ := history (N := N) (M := M) junk xs (by omega)
  have hlt : es.length < M := by rw [← hl.card, hk]; omega
  have hne : ∀ e ∈ es, e.2.1 ≠ k := by
    intro e0 he0 hh
    have : k ∈ keysOf es := mem_keysOf.2 ⟨e0, he0, hh⟩
    rw [hk, List.mem_toFinset] at this
    exact hnew this
  obtain ⟨a, b, rfl, ha, hb, ec⟩ := hl.crashInsert_new hlt hne v H c
  obtain ⟨l', u, e', h1, _, _, _, h5⟩ := hl.crash hlt k v ha hb H c
  rw [e'] at ec
  rw [above_eq hl.sorted hk ha hb]
  refine ⟨_, _, e, crashInsert_single H c l l' k v ec, fun hc => ?_, fun hc => ?_⟩
  · refine (h1 hc).go_on junk xs ys hv hk (le_trans (Finset.card_le_card ?_) hM)
    rw [hU, List.map_append, List.toFinset_append]
    exact Finset.subset_insert _ _
  · refine (h5 hc).go_on junk (xs ++ [(k, v)]) ys ?_ ?_ hM
    · funext k'
      rw [valOf_insert ha k', hv, last_append]
      rfl
    · rw [keysOf_insert, hk]
      ext y
      simp [or_comm]

/-- C87 is false for all leaf sizes above one: the key `0` is inserted in front of the key `1`, and after four
assignments `1` is not found. -/
theorem C87_refuted (H : Bool) (junk : Option Nat) (hM : 1 < M) : ¬ C87_statement Nat Nat N M H junk := by
  intro h
  obtain ⟨t, t', e1, e2, h3⟩ := h [(1, 1)] 0 7 4 (le_trans (List.toFinset_card_le _) (by simp; omega))
  obtain ⟨t0, t0', e10, e20, _, _, _, h4, _⟩ := C87_insert_partial (N := N) (M := M) H junk [(1, 1)] 0 7 4
    (by simp) (by simpa using hM)
  rw [e1] at e10
  injection e10 with e10
  rw [← e10, e2] at e20
  injection e20 with e20
  have h5 := h4 (Or.inl rfl) (by decide) 1 ⟨⟨1, by simp⟩, by simp⟩ 1
  rw [← e20] at h5
  rcases h3 with h3 | h3 <;>
  · have := h3 1
    rw [h5] at this
    simp [without, last] at this

set_option maxRecDepth 100000 in
/-- After some crashes a later insert fails or destroys an entry, for `M = 4`.  `wBPTree`: the position of an entry
that is not counted stays used, and the repetition of the interrupted insert has no place to write.  `wHBPTree`: an
entry that is counted while its position is not marked as used is overwritten by the next insert (the key 5 is lost,
although it had been inserted before the crash). -/
theorem C88_damage :
    (insertAll none [(1, 1), (2, 2), (3, 3)] (empty 4 4 none : Tree Nat Nat 4 4) >>= fun t =>
      crashInsert false 4 t 4 4 >>= fun t => insertAll none [(4, 4)] t >>= fun t => lookup t 4) = .ub ∧
    (insertAll none [(3, 3), (5, 5)] (empty 4 4 none : Tree Nat Nat 4 4) >>= fun t =>
      crashInsert true 5 t 4 4 >>= fun t => insertAll none [(9, 9)] t >>= fun t =>
        (do let a ← lookup t 3; let b ← lookup t 4; let c ← lookup t 5; let d ← lookup t 9; pure [a, b, c, d])) =
      .ok [some 3, none, none, some 9] := by
  decide +kernel

/-- C88 is false for both trees. -/
theorem C88_refuted (H : Bool) : ¬ C88_statement Nat Nat 4 4 H none := by
  intro h
  cases H with
  | false =>
    obtain ⟨t, t', t'', e1, e2, e3, _⟩ := h [(1, 1), (2, 2), (3, 3)] [(4, 4)] 4 4 4 (by decide)
    have := C88_damage.1
    rw [e1, Res.ok_bind, e2, Res.ok_bind, e3, Res.ok_bind] at this
    rename_i h4
    rcases h4 with h4 | h4 <;>
    · rw [h4 4] at this
      injection this
  | true =>
    obtain ⟨t, t', t'', e1, e2, e3, h4⟩ := h [(3, 3), (5, 5)] [(9, 9)] 4 4 5 (by decide)
    have := C88_damage.2
    rw [e1, Res.ok_bind, e2, Res.ok_bind, e3, Res.ok_bind] at this
    rcases h4 with h4 | h4 <;>
    · rw [h4 3, h4 4, h4 5, h4 9] at this
      exact absurd this (by decide)

/-- Non-triviality: the hypotheses of `C87_insert_partial` and `C88_partial` hold for three keys, a new key below two
of them and two more inserts. -/
example : (2 : Nat) ∉ [(1, 10), (5, 50), (7, 70)].map Prod.fst ∧
    ([(1, 10), (5, 50), (7, 70)].map (Prod.fst : Nat × Nat → Nat)).toFinset.card < 6 ∧
    above [(1, 10), (5, 50), (7, 70)] 2 = 2 ∧ Top [(1, 10), (5, 50), (7, 70)] 7 ∧
    (([(1, 10), (5, 50), (7, 70)] ++ [(2, 20)] ++ [(3, 30), (5, 51)]).map (Prod.fst : Nat × Nat → Nat)).toFinset.card ≤ 6 := by
  refine ⟨by decide, by decide, by decide, ⟨⟨70, by simp⟩, by simp⟩, by decide⟩

end Verif.WBTree
