import Verif.WBTree.Recover
import Verif.WBTree.GeneralProps
import Verif.WBTree.EraseInsert
import Verif.BitTree.RecoverLaw

/-!
# wHBPTree.hpp: what the recovery builds
-/

namespace Verif.WBTree

variable {K V : Type} [LinearOrder K] {N M : Nat}

/-- A branch node that recovery has filled from the left with the separators and children `xs` and the last child `z`.
Without a separator the only child is at position `0`, where the search does not expect it. -/
structure SpOK (junk : Option Nat) (b : Branch K N) (xs : List (Nat × K × Nat)) (z : Nat) : Prop where
  seq : xs.map (·.1) = List.range xs.length
  num : b.slot 0 = some xs.length
  le : xs.length ≤ N
  rest : ∀ j, xs.length < j → b.slot j = junk ∨ b.slot j = some 0
  thin : xs = [] → b.kids 0 = some z ∧ b.kids N = none ∧ ∀ p < N, Bitmap.bit b.bits p = false
  good : xs ≠ [] → BrOK b xs z

/-- The heap holds a tree that recovery has filled from the left: all children but the last are complete. -/
def RSpine (junk : Option Nat) (t : Tree K V N M) : (d : Nat) → VT K V d → Prop
  | 0, T => ∃ l, t.leaves[T.1]? = some l ∧ LeafOK l T.2
  | d + 1, T => (∃ b, t.branches[T.1]? = some b ∧ SpOK junk b (adr (adrOf d) T.2.1) (adrOf d T.2.2)) ∧
      (∀ x ∈ T.2.1, RSpine junk t d x.2.2 ∧ (leafs d x.2.2).length = (N + 1) ^ d) ∧ RSpine junk t d T.2.2

/-- Where the last child of a node is. -/
theorem SpOK.last {junk : Option Nat} {b : Branch K N} {xs : List (Nat × K × Nat)} {z : Nat} (h : SpOK junk b xs z) :
    b.kids.rd (N + 1) (if xs.length = 0 then 0 else N) = .ok z := by
  by_cases he : xs = []
  · subst he
    rw [List.length_nil, if_pos rfl]
    exact Slots.rd_ok (by omega) (h.thin rfl).1
  · rw [if_neg (by simpa using he)]
    exact Slots.rd_ok (by omega) (h.good he).last

theorem SpOK.count {junk : Option Nat} {b : Branch K N} {xs : List (Nat × K × Nat)} {z : Nat} (h : SpOK junk b xs z) :
    b.slot.rd (N + 1) 0 = .ok xs.length := Slots.rd_ok (by omega) h.num

theorem spOK_only (junk : Option Nat) (hN : 0 < N) (c : Nat) :
    ∃ b : Branch K N, Branch.only junk c = .ok b ∧ SpOK junk b [] c := by
  refine ⟨⟨fun j => if j = 1 then some 0 else if j = 0 then some 0 else junk, Bitmap.fresh N, Slots.none,
    fun j => if j = 0 then some c else none⟩, ?_, ?_⟩
  · unfold Branch.only
    dsimp only
    rw [Slots.wr_ok _ _ (by omega), Res.ok_bind, Slots.wr_ok _ _ (by omega), Res.ok_bind]
    rfl
  · refine ⟨rfl, rfl, Nat.zero_le _, ?_, ?_, fun h => absurd rfl h⟩
    · intro j hj
      simp only [List.length_nil] at hj
      by_cases h1 : j = 1
      · right; simp [h1]
      · left
        show (if j = 1 then some 0 else if j = 0 then some 0 else junk) = junk
        rw [if_neg h1, if_neg (by omega)]
    · intro _
      refine ⟨by simp, ?_, ?_⟩
      · show (if N = 0 then some c else none) = none
        rw [if_neg (by omega)]
      · intro p _
        show Bitmap.bit (Bitmap.fresh N) p = false
        simp [bit_fresh]

theorem SpOK.append {junk : Option Nat} {b : Branch K N} {xs : List (Nat × K × Nat)} {z : Nat} (h : SpOK junk b xs z)
    (hlt : xs.length < N) (key : K) (c : Nat) :
    ∃ b', b.append key c = .ok b' ∧ SpOK junk b' (xs ++ [(xs.length, key, z)]) c := by
  obtain ⟨bits, eb, hb⟩ := bit_set (M := N) b.bits xs.length true (by omega)
  have hkids : ∃ kids : Slots Nat, (if 0 < xs.length then (do
      let z ← b.kids.rd (N + 1) N
      b.kids.wr (N + 1) xs.length z : Res (Slots Nat))
    else pure b.kids) = .ok kids ∧ kids xs.length = some z ∧ ∀ j, j < xs.length → kids j = b.kids j := by
    by_cases he : xs = []
    · subst he
      exact ⟨b.kids, by simp [Res.pure_eq], (h.thin rfl).1, fun j hj => rfl⟩
    · have hp : 0 < xs.length := List.length_pos_iff.2 he
      refine ⟨fun j => if j = xs.length then some z else b.kids j, ?_, ?_, ?_⟩
      · rw [if_pos hp, Slots.rd_ok (by omega) (h.good he).last, Res.ok_bind, Slots.wr_ok _ _ (by omega)]
      · simp
      · intro j hj
        show (if j = xs.length then some z else b.kids j) = _
        rw [if_neg (by omega)]
  obtain ⟨kids, ek, hk1, hk2⟩ := hkids
  refine ⟨⟨fun j => if j = 0 then some (xs.length + 1) else if j = xs.length + 1 then some xs.length else b.slot j, bits,
    fun j => if j = xs.length then some key else b.keys j, fun j => if j = N then some c else kids j⟩, ?_, ?_⟩
  · unfold Branch.append
    rw [h.count, Res.ok_bind, eb, Res.ok_bind, Slots.wr_ok _ _ (by omega), Res.ok_bind, ek, Res.ok_bind,
      Slots.wr_ok _ _ (by omega), Res.ok_bind, Slots.wr_ok _ _ (by omega), Res.ok_bind, Slots.wr_ok _ _ (by omega),
      Res.ok_bind]
    rfl
  · have hseq : (xs ++ [(xs.length, key, z)]).map (·.1) = List.range (xs ++ [(xs.length, key, z)]).length := by
      rw [List.map_append, h.seq, List.length_append]
      simp [List.range_succ]
    refine ⟨hseq, by simp, by simp; omega, ?_, fun hh => absurd hh (by simp), fun _ => ?_⟩
    · intro j hj
      rw [List.length_append, List.length_singleton] at hj
      show (if j = 0 then some (xs.length + 1) else if j = xs.length + 1 then some xs.length else b.slot j) = junk ∨ (if j = 0 then some (xs.length + 1) else if j = xs.length + 1 then some xs.length else b.slot j) = some 0
      rw [if_neg (by omega), if_neg (by omega)]
      exact h.rest j (by omega)
    · have hmem : ∀ e ∈ xs, e.1 < xs.length := by
        intro e he
        have : e.1 ∈ xs.map (·.1) := List.mem_map_of_mem he
        rw [h.seq, List.mem_range] at this
        exact this
      refine ⟨?_, ?_, by rw [hseq]; exact List.nodup_range, ?_, by simp, by simp; omega⟩
      · rw [hseq]
        intro i hi
        rw [List.length_cons, List.length_range, List.length_append, List.length_singleton] at hi
        show (if i = 0 then some (xs.length + 1) else if i = xs.length + 1 then some xs.length else b.slot i) = _
        cases i with
        | zero => simp
        | succ i =>
          rw [if_neg (by omega)]
          by_cases hi' : i = xs.length
          · rw [if_pos (by omega)]
            simp [hi']
          · rw [if_neg (by omega)]
            have hne : xs ≠ [] := by rintro rfl; simp at hi hi'; omega
            have hil : i < xs.length := by omega
            rw [(h.good hne).slot hil]
            have e1 : xs[i].1 = i := by
              have h1 : (xs.map (·.1))[i]? = some i := by rw [h.seq, List.getElem?_range hil]
              rw [List.getElem?_map, List.getElem?_eq_getElem hil] at h1
              exact Option.some.inj h1
            rw [e1, List.getElem?_cons_succ, List.getElem?_range (by simp; omega)]
      · intro e he
        rw [List.mem_append, List.mem_singleton] at he
        rcases he with he | rfl
        · have hne : xs ≠ [] := by rintro rfl; simp at he
          obtain ⟨g1, g2, g3⟩ := (h.good hne).ent e he
          have := hmem e he
          refine ⟨g1, ?_, ?_⟩
          · show (if e.1 = xs.length then some key else b.keys e.1) = _
            rw [if_neg (by omega), g2]
          · show (if e.1 = N then some c else kids e.1) = _
            rw [if_neg (by omega), hk2 _ this, g3]
        · refine ⟨hlt, by simp, ?_⟩
          show (if xs.length = N then some c else kids xs.length) = _
          rw [if_neg (by omega), hk1]
      · intro p hp
        show Bitmap.bit bits p = true ↔ _
        rw [hb p, hseq, List.mem_range, List.length_append, List.length_singleton]
        by_cases hpx : p = xs.length
        · simp [hpx]
        · rw [if_neg hpx]
          by_cases he : xs = []
          · subst he
            rw [(h.thin rfl).2.2 p hp]
            simp at hpx ⊢
            omega
          · rw [(h.good he).bits p hp, h.seq, List.mem_range]
            omega

theorem RSpine.node_lt {junk : Option Nat} {t : Tree K V N M} : ∀ (d : Nat) (T : VT K V d), RSpine junk t d T →
    ∀ j ∈ nodes d T, j < t.branches.length := by
  intro d
  induction d with
  | zero => intro T _ j hj; simp [nodes] at hj
  | succ d ih =>
    intro T hT j hj
    rcases List.mem_cons.1 hj with rfl | hj
    · obtain ⟨b, h, _⟩ := hT.1
      exact (List.getElem?_eq_some_iff.1 h).1
    · rcases List.mem_append.1 hj with h1 | h1
      · obtain ⟨x, hx, hxj⟩ := List.mem_flatMap.1 h1
        exact ih _ (hT.2.1 x hx).1 j hxj
      · exact ih _ hT.2.2 j h1

/-- Nodes elsewhere in the heap do not matter. -/
theorem RSpine.frame {junk : Option Nat} {t t' : Tree K V N M} : ∀ (d : Nat) (T : VT K V d), RSpine junk t d T →
    t'.leaves = t.leaves → (∀ j ∈ nodes d T, t'.branches[j]? = t.branches[j]?) → RSpine junk t' d T := by
  intro d
  induction d with
  | zero =>
    intro T ⟨l, h1, h2⟩ hl _
    exact ⟨l, by rw [hl, h1], h2⟩
  | succ d ih =>
    intro T ⟨⟨b, h1, h2⟩, h3, h4⟩ hl hn
    refine ⟨⟨b, by rw [hn _ (by simp [nodes]), h1], h2⟩, fun x hx => ⟨?_, (h3 x hx).2⟩, ?_⟩
    · refine ih _ (h3 x hx).1 hl (fun j hj => hn j ?_)
      exact List.mem_cons_of_mem _ (List.mem_append_left _ (List.mem_flatMap.2 ⟨x, hx, hj⟩))
    · exact ih _ h4 hl (fun j hj => hn j (List.mem_cons_of_mem _ (List.mem_append_right _ hj)))

theorem flatMap_length_eq {α : Type} {f : α → List Nat} {w : Nat} : ∀ (xs : List α), (∀ x ∈ xs, (f x).length = w) →
    (xs.flatMap f).length = xs.length * w := by
  intro xs
  induction xs with
  | nil => intro _; simp
  | cons x xs ih =>
    intro h
    rw [List.flatMap_cons, List.length_append, h x (by simp), ih (fun y hy => h y (by simp [hy])), List.length_cons]
    ring

theorem RSpine.num {junk : Option Nat} {t : Tree K V N M} {d a : Nat} {xs : List (Nat × K × VT K V d)} {z : VT K V d}
    (h : RSpine junk t (d + 1) (a, xs, z)) :
    (leafs (d + 1) (a, xs, z)).length = xs.length * (N + 1) ^ d + (leafs d z).length := by
  show (fl (leafs d) xs z).length = _
  unfold fl
  rw [List.length_append, flatMap_length_eq (w := (N + 1) ^ d) xs (fun x hx => (h.2.1 x hx).2)]

theorem RSpine.length {junk : Option Nat} {t : Tree K V N M} : ∀ (d : Nat) (T : VT K V d), RSpine junk t d T →
    1 ≤ (leafs d T).length ∧ (leafs d T).length ≤ (N + 1) ^ d := by
  intro d
  induction d with
  | zero => intro T _; simp [leafs]
  | succ d ih =>
    rintro ⟨a, xs, z⟩ hT
    have h1 := ih z hT.2.2
    obtain ⟨b, _, hb⟩ := hT.1
    have hle := hb.le
    rw [adr_length] at hle
    rw [hT.num]
    refine ⟨by omega, ?_⟩
    rw [pow_succ]
    have := Nat.mul_le_mul_right ((N + 1) ^ d) hle
    rw [Nat.mul_succ, mul_comm ((N + 1) ^ d) N]
    simp only at this
    omega

/-- A node is a regular one if its number of leaves leaves no node without separators. -/
theorem RSpine.rep {junk : Option Nat} (hN : 0 < N) {t : Tree K V N M} : ∀ (d : Nat) (T : VT K V d), RSpine junk t d T →
    BitTree.Dense N (leafs d T).length d → Rep t d T := by
  intro d
  induction d with
  | zero => intro T hT _; exact hT
  | succ d ih =>
    rintro ⟨a, xs, z⟩ hT hd
    obtain ⟨⟨b, hb1, hb2⟩, hx, hz⟩ := id hT
    have hle := hb2.le
    rw [adr_length] at hle
    have hl := RSpine.length d z hz
    rw [hT.num, BitTree.dense_succ hle hl.1 hl.2] at hd
    refine ⟨⟨b, hb1, hb2.good ?_⟩, fun x hxm => ih _ (hx x hxm).1 ?_, ih _ hz hd.2⟩
    · intro hh
      have := congrArg List.length hh
      rw [adr_length] at this
      exact hd.1 this
    · rw [(hx x hxm).2]
      exact BitTree.dense_full hN d

/-- What the insertion of a leaf does to the branch nodes: `B` are those of the subtree before, `B'` after. -/
structure RFrame (t t' : Tree K V N M) (B B' : List Nat) : Prop where
  root : t'.root = t.root
  depth : t'.depth = t.depth
  leaves : t'.leaves = t.leaves
  next : t'.next = t.next
  blen : t.branches.length ≤ t'.branches.length
  bsame : ∀ j < t.branches.length, j ∉ B → t'.branches[j]? = t.branches[j]?
  bnd : B'.Nodup
  bsub : ∀ j ∈ B', j ∈ B ∨ t.branches.length ≤ j
  blt : ∀ j ∈ B', j < t'.branches.length

/-- What the insertion of the leaf `leaf` with the entries `es` and the smallest key `key` returns. -/
def RResult (junk : Option Nat) (t t' : Tree K V N M) (leaf : Nat) (es : List (Nat × K × V)) (key : K) (d : Nat)
    (T : VT K V d) : Option (K × Nat) → Prop
  | none => ∃ T' : VT K V d, adrOf d T' = adrOf d T ∧ RSpine junk t' d T' ∧ Ord d T' ∧
      leafs d T' = leafs d T ++ [leaf] ∧ ents d T' = ents d T ++ es.map (·.2) ∧
      (∀ P : K → Prop, Within P d T → (∀ e ∈ es, P e.2.1) → Within P d T') ∧ RFrame t t' (nodes d T) (nodes d T')
  | some (k, r) => k = key ∧ (leafs d T).length = (N + 1) ^ d ∧ RSpine junk t' d T ∧ ∃ T2 : VT K V d, adrOf d T2 = r ∧
      RSpine junk t' d T2 ∧ Ord d T2 ∧ leafs d T2 = [leaf] ∧ ents d T2 = es.map (·.2) ∧
      (∀ P : K → Prop, (∀ e ∈ es, P e.2.1) → Within P d T2) ∧ RFrame t t' (nodes d T) (nodes d T ++ nodes d T2)

/-- A new child behind the last one. -/
theorem recAdd_law (junk : Option Nat) (hN : 0 < N) {t t1 : Tree K V N M} {leaf : Nat} {es : List (Nat × K × V)} {key : K}
    (hkey : ∀ e ∈ es, key ≤ e.2.1) (hmin : ∃ e ∈ es, e.2.1 = key) {d a : Nat} {xs : List (Nat × K × VT K V d)} {z T2 : VT K V d}
    (ha : a < t.branches.length) (hab : a ∉ fl (nodes d) xs z)
    (hT : RSpine junk t1 (d + 1) (a, xs, z)) (hord : Ord (d + 1) ((a, xs, z) : VT K V (d + 1)))
    (hlt : Within (· < key) (d + 1) ((a, xs, z) : VT K V (d + 1))) (hfull : (leafs d z).length = (N + 1) ^ d)
    (h2 : RSpine junk t1 d T2) (h2o : Ord d T2) (h2l : leafs d T2 = [leaf]) (h2e : ents d T2 = es.map (·.2))
    (h2w : ∀ P : K → Prop, (∀ e ∈ es, P e.2.1) → Within P d T2)
    (hf : RFrame t t1 (fl (nodes d) xs z) (fl (nodes d) xs z ++ nodes d T2)) :
    ∃ t' sp, recAdd junk t1 a key (adrOf d T2) = .ok (t', sp) ∧
      RResult junk t t' leaf es key (d + 1) ((a, xs, z) : VT K V (d + 1)) sp := by
  obtain ⟨⟨b, hb1, hb2⟩, hx, hz⟩ := id hT
  simp only [] at hb1 hb2 hx hz
  have ha1 : a < t1.branches.length := lt_of_lt_of_le ha hf.blen
  have ha2 : a ∉ fl (nodes d) xs z ++ nodes d T2 := by
    intro hh
    rcases hf.bsub a hh with h | h
    · exact hab h
    · omega
  have hkw : Within (key ≤ ·) d T2 := h2w _ hkey
  unfold recAdd
  rw [Tree.branch_ok hb1, Res.ok_bind, hb2.count, Res.ok_bind, adr_length]
  have hnum := hT.num
  by_cases hn : xs.length = N
  · obtain ⟨sib, es', hs⟩ := spOK_only (K := K) junk hN (adrOf d T2)
    rw [if_pos hn, es', Res.ok_bind]
    have hfr : ∀ (D : Nat) (T0 : VT K V D), RSpine junk t1 D T0 →
        RSpine junk { t1 with branches := t1.branches ++ [sib] } D T0 := by
      intro D T0 h0
      refine h0.frame D T0 rfl (fun j hj => ?_)
      exact List.getElem?_append_left (h0.node_lt D T0 j hj)
    refine ⟨_, _, rfl, rfl, ?_, hfr _ _ hT, (t1.branches.length, [], T2), rfl, ⟨⟨sib, ?_, hs⟩, by simp, hfr _ _ h2⟩, ?_, ?_, ?_,
      ?_, ?_⟩
    · rw [hnum, hfull, hn, pow_succ]; ring
    · show (t1.branches ++ [sib])[t1.branches.length]? = _
      simp
    · exact ⟨by simp, by simp, List.Pairwise.nil, by simp, h2o⟩
    · show fl (leafs d) [] T2 = _
      simp [fl, h2l]
    · show fl (ents d) [] T2 = _
      simp [fl, h2e]
    · intro P hP
      exact ⟨by simp, h2w P hP⟩
    · refine ⟨hf.root, hf.depth, hf.leaves, hf.next, ?_, ?_, ?_, ?_, ?_⟩
      · have := hf.blen
        simp; omega
      · intro j hj hjn
        have hjn' : j ∉ fl (nodes d) xs z := fun hh => hjn (by simp [nodes, hh])
        rw [← hf.bsame j hj hjn']
        exact List.getElem?_append_left (lt_of_lt_of_le hj hf.blen)
      · show ((a :: fl (nodes d) xs z) ++ (t1.branches.length :: fl (nodes d) ([] : List (Nat × K × VT K V d)) T2)).Nodup
        have hp : ((a :: fl (nodes d) xs z) ++ (t1.branches.length :: fl (nodes d) ([] : List (Nat × K × VT K V d)) T2)).Perm
            (t1.branches.length :: a :: (fl (nodes d) xs z ++ nodes d T2)) := by
          have : fl (nodes d) ([] : List (Nat × K × VT K V d)) T2 = nodes d T2 := by simp [fl]
          rw [this]
          exact List.perm_middle
        rw [hp.nodup_iff]
        refine List.nodup_cons.2 ⟨?_, List.nodup_cons.2 ⟨ha2, hf.bnd⟩⟩
        rw [List.mem_cons, not_or]
        exact ⟨by omega, fun hh => lt_irrefl _ (hf.blt _ hh)⟩
      · intro j hj
        have hj' : j = a ∨ j = t1.branches.length ∨ j ∈ fl (nodes d) xs z ++ nodes d T2 := by
          simp only [nodes, List.mem_append, List.mem_cons] at hj ⊢
          have : fl (nodes d) ([] : List (Nat × K × VT K V d)) T2 = nodes d T2 := by simp [fl]
          rw [this] at hj
          tauto
        rcases hj' with rfl | rfl | hj'
        · exact Or.inl (by simp [nodes])
        · exact Or.inr hf.blen
        · rcases hf.bsub j hj' with h | h
          · exact Or.inl (by simp [nodes, h])
          · exact Or.inr h
      · intro j hj
        have hj' : j = a ∨ j = t1.branches.length ∨ j ∈ fl (nodes d) xs z ++ nodes d T2 := by
          simp only [nodes, List.mem_append, List.mem_cons] at hj ⊢
          have : fl (nodes d) ([] : List (Nat × K × VT K V d)) T2 = nodes d T2 := by simp [fl]
          rw [this] at hj
          tauto
        show j < (t1.branches ++ [sib]).length
        rw [List.length_append, List.length_singleton]
        rcases hj' with rfl | rfl | hj'
        · omega
        · omega
        · have := hf.blt j hj'; omega
  · rw [if_neg hn]
    have hlen : (adr (adrOf d) xs).length < N := by
      have := hb2.le
      rw [adr_length] at this ⊢
      omega
    obtain ⟨b', eb, hb'⟩ := hb2.append hlen key (adrOf d T2)
    rw [eb, Res.ok_bind]
    have hfr : ∀ (T0 : VT K V d), RSpine junk t1 d T0 → a ∉ nodes d T0 →
        RSpine junk { t1 with branches := t1.branches.set a b' } d T0 := by
      intro T0 h0 h0a
      refine h0.frame d T0 rfl (fun j hj => ?_)
      exact List.getElem?_set_ne (fun hh : a = j => h0a (hh ▸ hj))
    have hax : ∀ x ∈ xs, a ∉ nodes d x.2.2 := fun x hxm hh =>
      hab (List.mem_append_left _ (List.mem_flatMap.2 ⟨x, hxm, hh⟩))
    have haz : a ∉ nodes d z := fun hh => hab (List.mem_append_right _ hh)
    have e1 : ∀ {β : Type} (f : VT K V d → List β), fl f (xs ++ [(xs.length, key, z)]) T2 = fl f xs z ++ f T2 := by
      intro β f
      simp [fl]
    have hnodes : nodes (d + 1) ((a, xs ++ [(xs.length, key, z)], T2) : VT K V (d + 1)) =
        a :: (fl (nodes d) xs z ++ nodes d T2) := by
      rw [nodes, e1]
    refine ⟨_, _, rfl, (a, xs ++ [(xs.length, key, z)], T2), rfl, ⟨⟨b', ?_, ?_⟩, ?_, hfr T2 h2 (fun hh => ha2 (by simp [hh]))⟩,
      ?_, ?_, ?_, ?_, ?_⟩
    · show (t1.branches.set a b')[a]? = _
      rw [List.getElem?_set_self ha1]
    · show SpOK junk b' (adr (adrOf d) (xs ++ [(xs.length, key, z)])) (adrOf d T2)
      rw [adr_append]
      rw [adr_length] at hb'
      exact hb'
    · intro x hxm
      rw [List.mem_append, List.mem_singleton] at hxm
      rcases hxm with hxm | rfl
      · exact ⟨hfr _ (hx x hxm).1 (hax x hxm), (hx x hxm).2⟩
      · exact ⟨hfr z hz haz, hfull⟩
    · have h0 : Srt d (Ord d) (xs ++ []) z := by rw [List.append_nil]; exact hord
      have := h0.ins xs.length (sep := key) h0.ordz h2o (fun x hxm => ⟨(hlt.1 x hxm).1, ?_, ?_⟩) (by simp) hlt.2 hkw
      · exact this
      · have := h0.last x (by simp [hxm])
        exact this
      · exact Within.mono (fun k hk => le_of_lt (lt_of_lt_of_le (hlt.1 x hxm).1 hk)) d _ hkw
    · show fl (leafs d) (xs ++ [(xs.length, key, z)]) T2 = fl (leafs d) xs z ++ [leaf]
      rw [e1, h2l]
    · show fl (ents d) (xs ++ [(xs.length, key, z)]) T2 = fl (ents d) xs z ++ es.map (·.2)
      rw [e1, h2e]
    · intro P hP hPe
      refine ⟨?_, h2w P hPe⟩
      intro x hxm
      rw [List.mem_append, List.mem_singleton] at hxm
      rcases hxm with hxm | rfl
      · exact hP.1 x hxm
      · refine ⟨?_, hP.2⟩
        obtain ⟨e, he, hek⟩ := hmin
        exact hek ▸ hPe e he
    · rw [hnodes]
      refine ⟨hf.root, hf.depth, hf.leaves, hf.next, ?_, ?_, List.nodup_cons.2 ⟨ha2, hf.bnd⟩, ?_, ?_⟩
      · have := hf.blen
        simpa using this
      · intro j hj hjn
        have hjn' : j ∉ fl (nodes d) xs z := fun hh => hjn (by simp [nodes, hh])
        rw [← hf.bsame j hj hjn']
        exact List.getElem?_set_ne (fun hh => hjn (by simp [nodes, hh]))
      · intro j hj
        rcases List.mem_cons.1 hj with rfl | hj
        · exact Or.inl (by simp [nodes])
        · rcases hf.bsub j hj with h | h
          · exact Or.inl (by simp [nodes, h])
          · exact Or.inr h
      · intro j hj
        show j < (t1.branches.set a b').length
        rw [List.length_set]
        rcases List.mem_cons.1 hj with rfl | hj
        · exact ha1
        · exact hf.blt j hj

theorem LeafOK.firstKey {l : Leaf K V M} {e : Nat × K × V} {es : List (Nat × K × V)} (h : LeafOK l (e :: es)) :
    l.firstKey = .ok e.2.1 := by
  unfold Leaf.firstKey
  obtain ⟨h1, h2⟩ := h.hit (a := []) (b := es) rfl
  rw [show l.slot.rd (M + 1) 1 = _ from h1, Res.ok_bind]
  exact h2

/-- The insertion of a leaf whose keys are larger than all in the tree. -/
theorem recIns_law (junk : Option Nat) (hN : 0 < N) {leaf : Nat} {l : Leaf K V M} {e0 : Nat × K × V}
    {es : List (Nat × K × V)} (hok : LeafOK l (e0 :: es)) : ∀ (d : Nat) (t : Tree K V N M) (T : VT K V (d + 1)),
    t.leaves[leaf]? = some l → RSpine junk t (d + 1) T → Ord (d + 1) T → (nodes (d + 1) T).Nodup →
    Within (· < e0.2.1) (d + 1) T →
    ∃ t' sp, recIns junk leaf d t (adrOf (d + 1) T) = .ok (t', sp) ∧
      RResult junk t t' leaf (e0 :: es) e0.2.1 (d + 1) T sp := by
  have hkey : ∀ e ∈ e0 :: es, e0.2.1 ≤ e.2.1 := by
    intro e he
    rcases List.mem_cons.1 he with rfl | he
    · exact le_rfl
    · exact le_of_lt ((List.pairwise_cons.1 hok.sorted).1 e he)
  have hmin : ∃ e ∈ e0 :: es, e.2.1 = e0.2.1 := ⟨e0, by simp, rfl⟩
  intro d
  induction d with
  | zero =>
    rintro t ⟨a, xs, z⟩ hl hT hord hnd hlt
    have ha : a < t.branches.length := hT.node_lt 1 _ a (by simp [nodes])
    have hnil : fl (nodes 0) xs z = [] := by simp [fl, nodes]
    obtain ⟨t', sp, e1, h1⟩ := recAdd_law (t := t) (t1 := t) (leaf := leaf) (es := e0 :: es) (key := e0.2.1) junk hN hkey hmin (d := 0) (T2 := (leaf, e0 :: es)) ha
      (by rw [hnil]; simp) hT hord hlt (by simp [leafs]) ⟨l, hl, hok⟩ ⟨hok.sorted, by simp⟩ rfl rfl (fun P hP => hP)
      ⟨rfl, rfl, rfl, rfl, le_rfl, fun _ _ _ => rfl, by rw [hnil]; simp [nodes], by rw [hnil]; simp [nodes], by rw [hnil]; simp [nodes]⟩
    refine ⟨t', sp, ?_, h1⟩
    rw [recIns, Tree.leaf, hl, Res.ofOption_some, Res.ok_bind, hok.firstKey, Res.ok_bind]
    exact e1
  | succ d ih =>
    rintro t ⟨a, xs, z⟩ hl hT hord hnd hlt
    obtain ⟨⟨b, hb1, hb2⟩, hx, hz⟩ := id hT
    simp only [] at hb1 hb2 hx hz
    have ha : a < t.branches.length := hT.node_lt (d + 2) _ a (by simp [nodes])
    obtain ⟨hab, hnd2⟩ := List.nodup_cons.1 hnd
    have hndz : (nodes (d + 1) z).Nodup := (List.nodup_append.1 hnd2).2.1
    have hdis : ∀ x ∈ xs, ∀ j ∈ nodes (d + 1) x.2.2, j ∉ nodes (d + 1) z := by
      intro x hxm j hj hh
      exact (List.nodup_append.1 hnd2).2.2 j (List.mem_flatMap.2 ⟨x, hxm, hj⟩) j hh rfl
    obtain ⟨t1, sp, e1, h1⟩ := ih t z hl hz hord.ordz hndz hlt.2
    have hlen := hb2.last
    rw [adr_length] at hlen
    rw [adrOf, recIns, Tree.branch_ok hb1, Res.ok_bind, hb2.count, Res.ok_bind, adr_length, hlen, Res.ok_bind]
    have eadr : adrOf (d + 1) z = adrOf (d + 1) z := rfl
    rw [e1, Res.ok_bind]
    dsimp only
    have hxlt : ∀ x ∈ xs, ∀ j ∈ nodes (d + 1) x.2.2, j < t.branches.length := fun x hxm j hj =>
      (hx x hxm).1.node_lt (d + 1) _ j hj
    have hazz : a ∉ nodes (d + 1) z := fun hh => hab (List.mem_append_right _ hh)
    have hkeep : ∀ (B' : List Nat), RFrame t t1 (nodes (d + 1) z) B' → ∀ x ∈ xs, RSpine junk t1 (d + 1) x.2.2 := by
      intro B' hf x hxm
      refine (hx x hxm).1.frame (d + 1) _ hf.leaves (fun j hj => ?_)
      exact hf.bsame j (hxlt x hxm j hj) (hdis x hxm j hj)
    cases sp with
    | none =>
      obtain ⟨z', g1, g2, g3, g4, g5, g6, g7⟩ := h1
      dsimp only
      have hb1' : t1.branches[a]? = some b := by rw [g7.bsame a ha hazz, hb1]
      refine ⟨t1, none, rfl, (a, xs, z'), rfl, ⟨⟨b, hb1', ?_⟩, fun x hxm => ⟨hkeep _ g7 x hxm, (hx x hxm).2⟩, g2⟩, ?_, ?_, ?_, ?_, ?_⟩
      · show SpOK junk b _ (adrOf (d + 1) z')
        rw [g1]; exact hb2
      · have h0 : Srt (d + 1) (Ord (d + 1)) (xs ++ []) z := by rw [List.append_nil]; exact hord
        have := h0.set (c := z') g3 (fun x hxm => ?_) (by simp)
        · have h2 : Srt (d + 1) (Ord (d + 1)) xs z' := by simpa [setF] using this
          exact h2
        · refine g6 _ (h0.last x (by simp [hxm])) (fun e he => ?_)
          exact le_of_lt (lt_of_lt_of_le (hlt.1 x hxm).1 (hkey e he))
      · show fl (leafs (d + 1)) xs z' = fl (leafs (d + 1)) xs z ++ [leaf]
        unfold fl
        rw [g4, List.append_assoc]
      · show fl (ents (d + 1)) xs z' = fl (ents (d + 1)) xs z ++ _
        unfold fl
        rw [g5, List.append_assoc]
      · intro P hP hPe
        exact ⟨hP.1, g6 P hP.2 hPe⟩
      · have hsub : ∀ j ∈ nodes (d + 2) ((a, xs, z') : VT K V (d + 2)), j = a ∨ (∃ x ∈ xs, j ∈ nodes (d + 1) x.2.2) ∨
            j ∈ nodes (d + 1) z' := by
          intro j hj
          rcases List.mem_cons.1 hj with h | h
          · exact Or.inl h
          · rcases List.mem_append.1 h with h | h
            · obtain ⟨x, hxm, hxj⟩ := List.mem_flatMap.1 h
              exact Or.inr (Or.inl ⟨x, hxm, hxj⟩)
            · exact Or.inr (Or.inr h)
        refine ⟨g7.root, g7.depth, g7.leaves, g7.next, g7.blen, ?_, ?_, ?_, ?_⟩
        · intro j hj hjn
          exact g7.bsame j hj (fun hh => hjn (List.mem_cons_of_mem _ (List.mem_append_right _ hh)))
        · refine List.nodup_cons.2 ⟨?_, List.nodup_append.2 ⟨(List.nodup_append.1 hnd2).1, g7.bnd, ?_⟩⟩
          · intro hh
            rcases List.mem_append.1 hh with h | h
            · exact hab (List.mem_append_left _ h)
            · rcases g7.bsub a h with h | h
              · exact hazz h
              · omega
          · intro i hi j hj hij
            subst hij
            obtain ⟨x, hxm, hxi⟩ := List.mem_flatMap.1 hi
            rcases g7.bsub i hj with h | h
            · exact hdis x hxm i hxi h
            · have := hxlt x hxm i hxi
              omega
        · intro j hj
          rcases hsub j hj with rfl | ⟨x, hxm, hxj⟩ | h
          · exact Or.inl (by simp [nodes])
          · exact Or.inl (List.mem_cons_of_mem _ (List.mem_append_left _ (List.mem_flatMap.2 ⟨x, hxm, hxj⟩)))
          · rcases g7.bsub j h with h | h
            · exact Or.inl (List.mem_cons_of_mem _ (List.mem_append_right _ h))
            · exact Or.inr h
        · intro j hj
          have := g7.blen
          rcases hsub j hj with rfl | ⟨x, hxm, hxj⟩ | h
          · omega
          · have := hxlt x hxm j hxj
            omega
          · exact g7.blt j h
    | some kr =>
      obtain ⟨k, r⟩ := kr
      obtain ⟨rfl, g1, g2, T2, rfl, g3, g4, g5, g6, g7, g8⟩ := h1
      dsimp only
      have hb1' : t1.branches[a]? = some b := by rw [g8.bsame a ha hazz, hb1]
      refine recAdd_law junk hN hkey hmin ha hab ⟨⟨b, hb1', hb2⟩, fun x hxm => ⟨hkeep _ g8 x hxm, (hx x hxm).2⟩, g2⟩ hord hlt g1
        g3 g4 g5 g6 g7 ?_
      have hnz := List.nodup_append.1 g8.bnd
      refine ⟨g8.root, g8.depth, g8.leaves, g8.next, g8.blen, ?_, ?_, ?_, ?_⟩
      · intro j hj hjn
        exact g8.bsame j hj (fun hh => hjn (List.mem_append_right _ hh))
      · refine List.nodup_append.2 ⟨hnd2, hnz.2.1, ?_⟩
        intro i hi j hj hij
        subst hij
        rcases List.mem_append.1 hi with h | h
        · obtain ⟨x, hxm, hxi⟩ := List.mem_flatMap.1 h
          rcases g8.bsub i (List.mem_append_right _ hj) with h | h
          · exact hdis x hxm i hxi h
          · have := hxlt x hxm i hxi
            omega
        · exact hnz.2.2 i h i hj rfl
      · intro j hj
        rcases List.mem_append.1 hj with h | h
        · exact Or.inl h
        · rcases g8.bsub j (List.mem_append_right _ h) with h | h
          · exact Or.inl (List.mem_append_right _ h)
          · exact Or.inr h
      · intro j hj
        have := g8.blen
        rcases List.mem_append.1 hj with h | h
        · rcases List.mem_append.1 h with h | h
          · obtain ⟨x, hxm, hxj⟩ := List.mem_flatMap.1 h
            have := hxlt x hxm j hxj
            omega
          · exact g8.blt j (List.mem_append_left _ h)
        · exact g8.blt j (List.mem_append_right _ h)

end Verif.WBTree
