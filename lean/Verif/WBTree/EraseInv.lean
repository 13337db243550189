import Verif.WBTree.EraseNode
import Verif.WBTree.GeneralProps

/-!
# wBPTree.hpp and wHBPTree.hpp: erases that keep the tree intact

An erase in a tree of any depth that handles underflows by merging leaves only.
-/

namespace Verif.WBTree

variable {K V : Type} [LinearOrder K] {N M : Nat}

/-- The `prevLeaf` pointers of the list of leaves `L`. -/
def BackLinked (prev : Nat → Option Nat) (L : List Nat) : Prop :=
  ∀ pre x y post, L = pre ++ x :: y :: post → prev y = some x

/-- What an erase in a subtree does: `L`, `B`, `E` are its leaves, branch nodes and entries before,
`L'`, `B'`, `E'` after the erase. -/
structure EPost (s s' : ETree K V N M) (key : K) (L B : List Nat) (E : List (K × V))
    (L' B' : List Nat) (E' : List (K × V)) : Prop where
  root : s'.tree.root = s.tree.root
  depth : s'.tree.depth = s.tree.depth
  llen : s'.tree.leaves.length = s.tree.leaves.length
  lsame : ∀ j, j ∉ L → s'.tree.leaves[j]? = s.tree.leaves[j]?
  bsame : ∀ j, j ∉ B → s'.tree.branches[j]? = s.tree.branches[j]?
  deadL : ∀ j, j ∈ s'.deadL ↔ j ∈ s.deadL ∨ (j ∈ L ∧ j ∉ L')
  deadB : s'.deadB = s.deadB
  lsub : L'.Sublist L
  bsub : B' = B
  ent : ∀ y, y ∈ E' ↔ y.1 ≠ key ∧ y ∈ E
  chain : ∀ X Y, (X ++ L ++ Y).Nodup → Linked s.tree.next (X ++ L ++ Y) → BackLinked s.prev (X ++ L ++ Y) →
    Linked s'.tree.next (X ++ L' ++ Y) ∧ BackLinked s'.prev (X ++ L' ++ Y)
  kids : ∀ (j : Nat) (b' : Branch K N), s'.tree.branches[j]? = some b' → ∃ b : Branch K N, s.tree.branches[j]? = some b ∧
    (∀ i c, b'.kids i = some c → ∃ i', b.kids i' = some c) ∧
    ∀ i, (∃ c, b.kids i = some c) → ∃ c, b'.kids i = some c

omit [LinearOrder K] in
theorem EPost.trans {s s1 s2 : ETree K V N M} {key : K} {L B L1 B1 L2 B2 : List Nat} {E E1 E2 : List (K × V)}
    (h : EPost s s1 key L B E L1 B1 E1) (h' : EPost s1 s2 key L1 B1 E1 L2 B2 E2) :
    EPost s s2 key L B E L2 B2 E2 := by
  refine ⟨h'.root.trans h.root, h'.depth.trans h.depth, h'.llen.trans h.llen, ?_, ?_, ?_, h'.deadB.trans h.deadB,
    h'.lsub.trans h.lsub, h'.bsub.trans h.bsub, ?_, ?_, ?_⟩
  · intro j hj
    rw [h'.lsame j (fun hh => hj (h.lsub.subset hh)), h.lsame j hj]
  · intro j hj
    rw [h'.bsame j (by rw [h.bsub]; exact hj), h.bsame j hj]
  · intro j
    rw [h'.deadL j, h.deadL j]
    have h1 : j ∈ L1 → j ∈ L := fun hh => h.lsub.subset hh
    have h2 : j ∈ L2 → j ∈ L1 := fun hh => h'.lsub.subset hh
    by_cases c0 : j ∈ L <;> by_cases c1 : j ∈ L1 <;> by_cases c2 : j ∈ L2 <;> simp_all
  · intro y
    rw [h'.ent y, h.ent y]
    tauto
  · intro X Y hnd hl hb
    obtain ⟨g1, g2⟩ := h.chain X Y hnd hl hb
    refine h'.chain X Y (hnd.sublist ?_) g1 g2
    exact List.Sublist.append_right (List.Sublist.append_left h.lsub X) Y
  · intro j b2 hb2
    obtain ⟨b1, e1, g1, g2⟩ := h'.kids j b2 hb2
    obtain ⟨b, e0, k1, k2⟩ := h.kids j b1 e1
    refine ⟨b, e0, fun i c hc => ?_, fun i hi => g2 i (k2 i hi)⟩
    obtain ⟨i', hi'⟩ := g1 i c hc
    exact k1 i' c hi'

omit [LinearOrder K] in
/-- The same seen from a larger part of the tree. -/
theorem EPost.frame {s s' : ETree K V N M} {key : K} {L B L' B' : List Nat} {E E' : List (K × V)}
    (h : EPost s s' key L B E L' B' E') {PL QL PB QB : List Nat} {PE QE : List (K × V)}
    (hl : (PL ++ L ++ QL).Nodup) (hp : ∀ y ∈ PE, y.1 ≠ key) (hq : ∀ y ∈ QE, y.1 ≠ key) :
    EPost s s' key (PL ++ L ++ QL) (PB ++ B ++ QB) (PE ++ E ++ QE) (PL ++ L' ++ QL) (PB ++ B' ++ QB)
      (PE ++ E' ++ QE) := by
  refine ⟨h.root, h.depth, h.llen, ?_, ?_, ?_, h.deadB, ?_, by rw [h.bsub], ?_, ?_, h.kids⟩
  · intro j hj
    exact h.lsame j (fun hh => hj (by simp [hh]))
  · intro j hj
    exact h.bsame j (fun hh => hj (by simp [hh]))
  · intro j
    rw [h.deadL j]
    rw [List.nodup_append, List.nodup_append] at hl
    have h1 : j ∈ PL → j ∈ L → False := fun a b => hl.1.2.2 j a j b rfl
    have h2 : j ∈ L → j ∈ QL → False := fun a b => hl.2.2 j (by simp [a]) j b rfl
    simp only [List.mem_append]
    tauto
  · exact List.Sublist.append_right (List.Sublist.append_left h.lsub PL) QL
  · intro y
    simp only [List.mem_append, h.ent y]
    have h1 := hp y
    have h2 := hq y
    tauto
  · intro X Y hnd h1 h2
    have := h.chain (X ++ PL) (QL ++ Y) (by simpa using hnd) (by simpa using h1) (by simpa using h2)
    simpa using this

omit [LinearOrder K] in
theorem EPost.node {s s' : ETree K V N M} {key : K} {L B L' B' : List Nat} {E E' : List (K × V)}
    (h : EPost s s' key L B E L' B' E') (a : Nat) :
    EPost s s' key L (a :: B) E L' (a :: B') E' :=
  ⟨h.root, h.depth, h.llen, h.lsame, fun j hj => h.bsame j (fun hh => hj (by simp [hh])), h.deadL, h.deadB, h.lsub,
    by rw [h.bsub], h.ent, h.chain, h.kids⟩

/-- The subtree `T` becomes `T'`. -/
def EResult (s s' : ETree K V N M) (key : K) (d : Nat) (T T' : VT K V d) : Prop :=
  adrOf d T' = adrOf d T ∧ Rep s'.tree d T' ∧ Ord d T' ∧ (∀ P : K → Prop, Within P d T → Within P d T') ∧
    EPost s s' key (leafs d T) (nodes d T) (ents d T) (leafs d T') (nodes d T') (ents d T')

omit [LinearOrder K] in
theorem ETree.leaf_ok {s : ETree K V N M} {a : Nat} {l : Leaf K V M} (h : s.tree.leaves[a]? = some l)
    (hd : a ∉ s.deadL) : s.leaf a = .ok l := by
  unfold ETree.leaf Tree.leaf
  rw [if_neg hd, h, Res.ofOption_some]

omit [LinearOrder K] in
theorem ETree.branch_ok {s : ETree K V N M} {a : Nat} {b : Branch K N} (h : s.tree.branches[a]? = some b)
    (hd : a ∉ s.deadB) : s.branch a = .ok b := by
  unfold ETree.branch Tree.branch
  rw [if_neg hd, h, Res.ofOption_some]

omit [LinearOrder K] in
theorem EPost.refl_leaf {s : ETree K V N M} {key : K} {c : Nat} (hc : c < s.tree.leaves.length) (l : Leaf K V M)
    {E E' : List (K × V)} (hE : ∀ y, y ∈ E' ↔ y.1 ≠ key ∧ y ∈ E) :
    EPost s (s.setLeaf c l) key [c] [] E [c] [] E' := by
  refine ⟨rfl, rfl, by simp [ETree.setLeaf], ?_, fun j _ => rfl, ?_, rfl, List.Sublist.refl _, rfl, hE, ?_, ?_⟩
  · intro j hj
    show (s.tree.leaves.set c l)[j]? = _
    rw [List.getElem?_set_ne]
    rintro rfl
    simp at hj
  · intro j
    show j ∈ s.deadL ↔ _
    tauto
  · intro X Y _ h1 h2
    exact ⟨h1, h2⟩
  · intro j b' hb'
    exact ⟨b', hb', fun i c hc => ⟨i, hc⟩, fun i hi => hi⟩

/-- Erasing a stored key from a leaf that is not full. -/
theorem eraseLeaf_ok {s : ETree K V N M} {c : Nat} {es : List (Nat × K × V)} (h : Rep s.tree 0 (c, es)) (hd : c ∉ s.deadL)
    (hlt : es.length < M) {key : K} {v : V} (hk : (key, v) ∈ es.map (·.2)) :
    ∃ l' es', eraseLeaf s c key = .ok (s.setLeaf c l', true) ∧ Rep (s.setLeaf c l').tree 0 (c, es') ∧
      es'.Sublist es ∧ es'.length + 1 = es.length ∧
      EPost s (s.setLeaf c l') key [c] [] (es.map (·.2)) [c] [] (es'.map (·.2)) := by
  obtain ⟨l, hl, hok⟩ := h
  simp only [] at hl hok
  have hc : c < s.tree.leaves.length := (List.getElem?_eq_some_iff.1 hl).1
  obtain ⟨e, he, hev⟩ := List.mem_map.1 hk
  obtain ⟨a, b, hab⟩ := List.append_of_mem he
  obtain ⟨i, k', w⟩ := e
  simp only [Prod.mk.injEq] at hev
  obtain ⟨rfl, rfl⟩ := hev
  subst hab
  obtain ⟨l', e, hok'⟩ := hok.erase_room hlt
  have hsrt := hok.sorted
  rw [List.pairwise_append, List.pairwise_cons] at hsrt
  refine ⟨l', a ++ b, ?_, ⟨l', ?_, hok'⟩, List.Sublist.append_left (List.sublist_cons_self _ _) _, by simp; omega,
    EPost.refl_leaf hc l' ?_⟩
  · unfold eraseLeaf
    rw [ETree.leaf_ok hl hd, Res.ok_bind, e, Res.ok_bind]
    rfl
  · show (s.tree.leaves.set c l')[c]? = _
    rw [List.getElem?_set_self hc]
  · intro y
    simp only [List.map_append, List.map_cons, List.mem_append, List.mem_cons]
    constructor
    · rintro (hy | hy)
      · obtain ⟨x, hx, rfl⟩ := List.mem_map.1 hy
        exact ⟨ne_of_lt (hsrt.2.2 x hx (i, k', w) (by simp)), Or.inl (List.mem_map_of_mem hx)⟩
      · obtain ⟨x, hx, rfl⟩ := List.mem_map.1 hy
        exact ⟨ne_of_gt (hsrt.2.1.1 x hx), Or.inr (Or.inr (List.mem_map_of_mem hx))⟩
    · rintro ⟨h1, hy | hy | hy⟩
      · exact Or.inl hy
      · rw [hy] at h1; exact absurd rfl h1
      · exact Or.inr hy

omit [LinearOrder K] in
theorem EPost.lists {s s' : ETree K V N M} {key : K} {L B L' B' L0 B0 L0' B0' : List Nat} {E E' E0 E0' : List (K × V)}
    (h : EPost s s' key L B E L' B' E') (e1 : L0 = L) (e2 : B0 = B) (e3 : E0 = E) (e4 : L0' = L') (e5 : B0' = B')
    (e6 : E0' = E') : EPost s s' key L0 B0 E0 L0' B0' E0' := by
  subst e1 e2 e3 e4 e5 e6
  exact h

omit [LinearOrder K] in
theorem fl_mid {α β : Type} (f : α → List β) (p ys : List (Nat × K × α)) (z : α) :
    fl f (p ++ ys) z = p.flatMap (fun x => f x.2.2) ++ f (first ys z) ++ tl f ys z := by
  rw [fl_append, fl_first, List.append_assoc]

omit [LinearOrder K] in
theorem fl_mid_set {α β : Type} (f : α → List β) (p ys : List (Nat × K × α)) (z c : α) :
    fl f (p ++ (setF ys z c).1) (setF ys z c).2 = p.flatMap (fun x => f x.2.2) ++ f c ++ tl f ys z := by
  rw [fl_append, fl_setF, List.append_assoc]

/-- A child changed, its address and its parent stay: the heap. -/
theorem EPost.up {s s' : ETree K V N M} {key : K} {d a : Nat} {p ys : List (Nat × K × VT K V d)}
    {z c' : VT K V d} (hT : Rep s.tree (d + 1) ((a, p ++ ys, z) : VT K V (d + 1)))
    (hs : Srt d (Ord d) (p ++ ys) z) (hl : (fl (leafs d) (p ++ ys) z).Nodup)
    (hn : (a :: fl (nodes d) (p ++ ys) z).Nodup)
    (hP : ∀ x ∈ p, x.2.1 ≤ key) (hQ : ∀ y ∈ ys, key < y.2.1)
    (g1 : adrOf d c' = adrOf d (first ys z)) (g2 : Rep s'.tree d c')
    (g5 : EPost s s' key (leafs d (first ys z)) (nodes d (first ys z)) (ents d (first ys z)) (leafs d c') (nodes d c')
      (ents d c')) :
    let T : VT K V (d + 1) := (a, p ++ ys, z)
    let T' : VT K V (d + 1) := (a, p ++ (setF ys z c').1, (setF ys z c').2)
    Rep s'.tree (d + 1) T' ∧ s'.tree.branches[a]? = s.tree.branches[a]? ∧
    EPost s s' key (leafs (d + 1) T) (nodes (d + 1) T) (ents (d + 1) T) (leafs (d + 1) T') (nodes (d + 1) T')
      (ents (d + 1) T') := by
  intro T T'
  obtain ⟨⟨b, hba, hb⟩, hrx, hrz⟩ := hT
  simp only [] at hba hb hrx hrz
  obtain ⟨han, hn'⟩ := List.nodup_cons.1 hn
  have hrep := others_rep (t' := s'.tree) hrx hrz hl hn' (fun j _ => g5.lsame j) (fun j _ => g5.bsame j)
  have hset := setF_adr_eq (adrOf d) g1
  obtain ⟨hne1, hne2⟩ := others_ne hs hP hQ
  have hnode : s'.tree.branches[a]? = s.tree.branches[a]? := by
    apply g5.bsame a
    intro hh
    apply han
    rw [fl_append, fl_first]
    simp [hh]
  refine ⟨⟨⟨b, by rw [← hba]; exact hnode, ?_⟩, ?_, ?_⟩, hnode, ?_⟩
  · show BrOK b (adr (adrOf d) (p ++ (setF ys z c').1)) (adrOf d (setF ys z c').2)
    rw [adr_append, hset.1, hset.2, ← adr_append]
    exact hb
  · intro x hx
    rcases List.mem_append.1 hx with hx | hx
    · exact hrep.1 x hx
    · exact (hrep.2 c' g2).1 x hx
  · exact (hrep.2 c' g2).2
  · have hl2 := hl
    rw [fl_mid] at hl2
    have := (g5.frame (PB := p.flatMap (fun x => nodes d x.2.2)) (QB := tl (nodes d) ys z) hl2 hne1 hne2).node a
    refine this.lists (fl_mid _ _ _ _) ?_ (fl_mid _ _ _ _) (fl_mid_set _ _ _ _ _) ?_ (fl_mid_set _ _ _ _ _)
    · exact congrArg (a :: ·) (fl_mid _ _ _ _)
    · exact congrArg (a :: ·) (fl_mid_set _ _ _ _ _)

/-- A child changed, its address and its parent stay. -/
theorem EResult.up {s s' : ETree K V N M} {key : K} {d a : Nat} {p ys : List (Nat × K × VT K V d)}
    {z c' : VT K V d} (hT : Rep s.tree (d + 1) ((a, p ++ ys, z) : VT K V (d + 1)))
    (hs : Srt d (Ord d) (p ++ ys) z) (hl : (fl (leafs d) (p ++ ys) z).Nodup)
    (hn : (a :: fl (nodes d) (p ++ ys) z).Nodup)
    (hP : ∀ x ∈ p, x.2.1 ≤ key) (hQ : ∀ y ∈ ys, key < y.2.1)
    (h : EResult s s' key d (first ys z) c') :
    EResult s s' key (d + 1) ((a, p ++ ys, z) : VT K V (d + 1)) (a, p ++ (setF ys z c').1, (setF ys z c').2) := by
  obtain ⟨g1, g2, g3, g4, g5⟩ := h
  obtain ⟨k1, _, k2⟩ := EPost.up hT hs hl hn hP hQ g1 g2 g5
  exact ⟨rfl, k1, (set_law hs hP hQ g3 (fun P hw _ => g4 P hw)).1,
    fun P hw => WithinL.set (c := c') hw (g4 P (WithinL.first hw)), k2⟩

/-! ## Merging two leaves -/

theorem Linked.join {next : Nat → Option Nat} {X Y : List Nat} {a1 a2 : Nat} (h : Linked next (X ++ a1 :: a2 :: Y))
    (hnd : (X ++ a1 :: a2 :: Y).Nodup) :
    Linked (fun j => if j = a1 then next a2 else next j) (X ++ a1 :: Y) := by
  have h2 : next a2 = Y.head? := h (X ++ [a1]) a2 Y (by simp)
  rw [List.nodup_append, List.nodup_cons] at hnd
  intro pre b post he
  dsimp only
  rcases List.append_eq_append_iff.1 he with ⟨as, h3, h4⟩ | ⟨bs, h3, h4⟩
  · cases as with
    | nil =>
      simp only [List.nil_append, List.cons.injEq] at h4
      rw [← h4.1, ← h4.2, if_pos rfl, h2]
    | cons x as =>
      simp only [List.cons_append, List.cons.injEq] at h4
      obtain ⟨rfl, rfl⟩ := h4
      rw [if_neg]
      · exact h (X ++ a1 :: a2 :: as) b post (by simp)
      · rintro rfl
        exact hnd.2.1.1 (by simp)
  · cases bs with
    | nil =>
      simp only [List.nil_append, List.cons.injEq] at h4
      rw [h4.1, h4.2, if_pos rfl, h2]
    | cons x bs =>
      simp only [List.cons_append, List.cons.injEq] at h4
      obtain ⟨rfl, rfl⟩ := h4
      have hb : b ≠ a1 := hnd.2.2 b (by rw [h3]; simp) a1 (by simp)
      rw [if_neg hb, h pre b (bs ++ a1 :: a2 :: Y) (by rw [h3]; simp)]
      cases bs <;> simp

theorem BackLinked.join {prev : Nat → Option Nat} {X Y : List Nat} {a1 a2 : Nat}
    (h : BackLinked prev (X ++ a1 :: a2 :: Y)) (hnd : (X ++ a1 :: a2 :: Y).Nodup) :
    BackLinked (fun j => if some j = Y.head? then some a1 else prev j) (X ++ a1 :: Y) := by
  rw [List.nodup_append, List.nodup_cons, List.nodup_cons] at hnd
  intro pre x y post he
  dsimp only
  rcases List.append_eq_append_iff.1 he with ⟨as, h3, h4⟩ | ⟨bs, h3, h4⟩
  · cases as with
    | nil =>
      simp only [List.nil_append, List.cons.injEq] at h4
      rw [← h4.1, h4.2, if_pos (by simp)]
    | cons w as =>
      simp only [List.cons_append, List.cons.injEq] at h4
      obtain ⟨rfl, rfl⟩ := h4
      rw [if_neg]
      · exact h (X ++ a1 :: a2 :: as) x y post (by simp)
      · intro hh
        have hn := hnd.2.1.2.2
        cases as with
        | nil =>
          simp at hh
          subst hh
          simp at hn
        | cons w as =>
          simp at hh
          subst hh
          simp at hn
  · cases bs with
    | nil =>
      simp only [List.nil_append, List.cons.injEq] at h4
      rw [h4.1, ← h4.2, if_pos (by simp)]
    | cons w bs =>
      simp only [List.cons_append, List.cons.injEq] at h4
      obtain ⟨rfl, h4⟩ := h4
      have hy : y ∉ Y ∨ y = a1 := by
        cases bs with
        | nil =>
          simp at h4
          exact Or.inr h4.1
        | cons w bs =>
          simp at h4
          left
          intro hh
          exact hnd.2.2 y (by rw [h3, h4.1]; simp) y (by simp [hh]) rfl
      have hy' : y ∉ Y := by
        rcases hy with hy | rfl
        · exact hy
        · intro hh; exact hnd.2.1.1 (by simp [hh])
      rw [if_neg]
      · cases bs with
        | nil =>
          simp at h4
          exact h pre x y (a2 :: Y) (by rw [h3, h4.1]; simp)
        | cons w bs =>
          simp at h4
          exact h pre x y (bs ++ a1 :: a2 :: Y) (by rw [h3, h4.1]; simp)
      · intro hh
        exact hy' (List.mem_of_mem_head? hh.symm)

/-- Two neighbouring children become one. -/
theorem Srt.join {d : Nat} {O : VT K V d → Prop} {A B : List (Nat × K × VT K V d)} {e : Nat × K × VT K V d}
    {z c : VT K V d} (h : Srt d O (A ++ e :: B) z) (ho : O c)
    (hw : ∀ P : K → Prop, Within P d e.2.2 → Within P d (WBTree.first B z) → Within P d c) :
    Srt d O (A ++ (setF B z c).1) (setF B z c).2 ∧ ∀ P : K → Prop, WithinL P d (A ++ e :: B) z →
      WithinL P d (A ++ (setF B z c).1) (setF B z c).2 := by
  have hsub : (A ++ B).Sublist (A ++ e :: B) := List.Sublist.append_left (List.sublist_cons_self _ _) _
  have h0 : Srt d O (A ++ B) z := ⟨fun x hx => h.ord x (hsub.subset hx), fun x hx => h.lt x (hsub.subset hx),
    h.pw.sublist hsub, fun x hx => h.last x (hsub.subset hx), h.ordz⟩
  have h1 := h.first (p := A) (ys := e :: B)
  have h2 := Srt.first (p := A ++ [e]) (ys := B) (z := z) (O := O) (by simpa using h)
  refine ⟨h0.set ho (fun x hx => hw _ (h1.2.1 x hx) (h2.2.1 x (by simp [hx])))
    (fun y hy => hw _ (h1.2.2 y (by simp [hy])) (h2.2.2 y hy)), ?_⟩
  intro P hP
  have hP0 : WithinL P d (A ++ B) z := ⟨fun x hx => hP.1 x (hsub.subset hx), hP.2⟩
  exact hP0.set (hw P (hP.1 e (by simp)).2 hP0.first)

omit [LinearOrder K] in
theorem setF_setF {α : Type} (ys : List (Nat × K × α)) (z c c' : α) :
    setF (setF ys z c).1 (setF ys z c).2 c' = setF ys z c' := by
  cases ys <;> rfl

omit [LinearOrder K] in
theorem first_setF {α : Type} (ys : List (Nat × K × α)) (z c : α) :
    first (setF ys z c).1 (setF ys z c).2 = c := by
  cases ys <;> rfl

omit [LinearOrder K] in
theorem tl_setF {α β : Type} (f : α → List β) (ys : List (Nat × K × α)) (z c : α) :
    tl f (setF ys z c).1 (setF ys z c).2 = tl f ys z := by
  cases ys <;> rfl

/-- The leaf `a2` has gone into `a1`. -/
def ETree.joined (s : ETree K V N M) (a1 a2 : Nat) (l : Leaf K V M) : ETree K V N M :=
  { s with
    tree := { s.tree with
      leaves := s.tree.leaves.set a1 l
      next := fun j => if j = a1 then s.tree.next a2 else s.tree.next j }
    prev := fun j => if some j = s.tree.next a2 then some a1 else s.prev j
    deadL := a2 :: s.deadL }

omit [LinearOrder K] in
theorem mergeLeaves_eq {s : ETree K V N M} {a p a1 a2 : Nat} {l1 l2 l : Leaf K V M} {b : Branch K N} {n : Nat}
    (hl1 : s.leaf a1 = .ok l1) (hl2 : s.leaf a2 = .ok l2) (em : l1.merge l2 = .ok l)
    (hnx : ∀ x, s.tree.next a2 = some x → x ∉ s.deadL ∧ x < s.tree.leaves.length)
    (hb : s.branch a = .ok b) (hnb : b.count = .ok n) :
    mergeLeaves s a p a1 a2 = if 1 < n then (do
      let b ← b.dropSlot p a1
      pure ((s.joined a1 a2 l).setBranch a b))
    else
      pure { s.joined a1 a2 l with tree := { (s.joined a1 a2 l).tree with
        root := if s.tree.depth = 1 then a1 else s.tree.branches.length
        depth := s.tree.depth - 1 } } := by
  have hb' : (s.joined a1 a2 l).branch a = .ok b := hb
  unfold mergeLeaves
  rw [hl1, Res.ok_bind, hl2, Res.ok_bind, em, Res.ok_bind]
  dsimp only
  unfold ETree.joined at hb'
  split
  · rw [Res.pure_eq, Res.ok_bind, hb', Res.ok_bind, hnb, Res.ok_bind]
    rfl
  · rename_i x hx
    obtain ⟨k1, k2⟩ := hnx x hx
    rw [ETree.leaf_ok (List.getElem?_eq_getElem k2) k1, Res.ok_bind, Res.pure_eq, Res.ok_bind, hb', Res.ok_bind, hnb,
      Res.ok_bind]
    rfl

omit [LinearOrder K] in
theorem joined_post {s : ETree K V N M} {key : K} {a1 a2 : Nat} (l : Leaf K V M) {LA LB : List Nat} {E : List (K × V)}
    (hl : (LA ++ a1 :: a2 :: LB).Nodup) (hk : ∀ y ∈ E, y.1 ≠ key) :
    EPost s (s.joined a1 a2 l) key (LA ++ a1 :: a2 :: LB) [] E (LA ++ a1 :: LB) [] E := by
  refine ⟨rfl, rfl, ?_, ?_, fun j _ => rfl, ?_, rfl, ?_, rfl, ?_, ?_, ?_⟩
  · exact List.length_set
  · intro j hj
    show (s.tree.leaves.set a1 l)[j]? = _
    rw [List.getElem?_set_ne]
    rintro rfl
    simp at hj
  · intro j
    show j ∈ a2 :: s.deadL ↔ _
    rw [List.nodup_append, List.nodup_cons, List.nodup_cons] at hl
    have k1 : a2 ∉ LA := fun hh => hl.2.2 a2 hh a2 (by simp) rfl
    have k2 : a2 ≠ a1 := by
      rintro rfl
      exact hl.2.1.1 (by simp)
    have k3 := hl.2.1.2.1
    simp only [List.mem_append, List.mem_cons]
    constructor
    · rintro (rfl | h)
      · right
        exact ⟨by simp, by tauto⟩
      · exact Or.inl h
    · rintro (h | ⟨h, h'⟩)
      · exact Or.inr h
      · tauto
  · exact List.Sublist.append_left (List.Sublist.cons_cons _ (List.sublist_cons_self _ _)) _
  · intro y
    exact ⟨fun hy => ⟨hk y hy, hy⟩, fun h => h.2⟩
  · intro X Y hnd k1 k2
    rw [show X ++ (LA ++ a1 :: a2 :: LB) ++ Y = (X ++ LA) ++ a1 :: a2 :: (LB ++ Y) by simp] at hnd k1 k2
    rw [show X ++ (LA ++ a1 :: LB) ++ Y = (X ++ LA) ++ a1 :: (LB ++ Y) by simp]
    refine ⟨k1.join hnd, ?_⟩
    have h3 : s.tree.next a2 = (LB ++ Y).head? := k1 ((X ++ LA) ++ [a1]) a2 _ (by simp)
    have := k2.join hnd
    rw [← h3] at this
    exact this
  · intro j b' hb'
    exact ⟨b', hb', fun i c hc => ⟨i, hc⟩, fun i hi => hi⟩

omit [LinearOrder K] in
theorem setBranch_post {s : ETree K V N M} {key : K} {a : Nat} {b b' : Branch K N} {L : List Nat} {E : List (K × V)}
    (hba : s.tree.branches[a]? = some b) (hk : ∀ y ∈ E, y.1 ≠ key)
    (h1 : ∀ i c, b'.kids i = some c → ∃ i', b.kids i' = some c)
    (h2 : ∀ i, (∃ c, b.kids i = some c) → ∃ c, b'.kids i = some c) :
    EPost s (s.setBranch a b') key L [a] E L [a] E := by
  have hab : a < s.tree.branches.length := (List.getElem?_eq_some_iff.1 hba).1
  refine ⟨rfl, rfl, rfl, fun j _ => rfl, ?_, ?_, rfl, List.Sublist.refl _, rfl, ?_, fun X Y _ k1 k2 => ⟨k1, k2⟩, ?_⟩
  · intro j hj
    show (s.tree.branches.set a b')[j]? = _
    rw [List.getElem?_set_ne]
    rintro rfl
    simp at hj
  · intro j
    show j ∈ s.deadL ↔ _
    tauto
  · intro y
    exact ⟨fun hy => ⟨hk y hy, hy⟩, fun h => h.2⟩
  · intro j bj hj
    by_cases hja : j = a
    · subst hja
      rw [show (s.setBranch j b').tree.branches[j]? = some b' from List.getElem?_set_self hab] at hj
      cases hj
      exact ⟨b, hba, h1, h2⟩
    · rw [show (s.setBranch a b').tree.branches[j]? = s.tree.branches[j]? from
        List.getElem?_set_ne (Ne.symm hja)] at hj
      exact ⟨bj, hj, fun i' x hx => ⟨i', hx⟩, fun i' hi => hi⟩

/-- Two neighbouring leaves of a node with at least two separators are merged. -/
theorem mergeLeaves_ok {s : ETree K V N M} {key : K} {a a1 a2 : Nat} {A B : List (Nat × K × VT K V 0)}
    {e : Nat × K × VT K V 0} {z : VT K V 0} {es1 es2 : List (Nat × K × V)}
    (hT : Rep s.tree 1 ((a, A ++ e :: B, z) : VT K V 1)) (h1 : e.2.2 = (a1, es1)) (h2 : first B z = (a2, es2))
    (hl : (fl (leafs 0) (A ++ e :: B) z).Nodup)
    (hd : ∀ j ∈ fl (leafs 0) (A ++ e :: B) z, j ∉ s.deadL) (ha : a ∉ s.deadB)
    (hnx : ∀ x, s.tree.next a2 = some x → x ∉ s.deadL ∧ x < s.tree.leaves.length)
    (hle : es1.length + es2.length ≤ M) (hlt : ∀ x ∈ es1, ∀ y ∈ es2, x.2.1 < y.2.1)
    (hk : ∀ y ∈ fl (ents 0) (A ++ e :: B) z, y.1 ≠ key) (hn : 1 < (A ++ e :: B).length) :
    ∃ s' es2', mergeLeaves s a (A.length + 1) a1 a2 = .ok s' ∧ es2'.map (·.2) = es2.map (·.2) ∧
      (es1 ++ es2').Pairwise (fun x y => x.2.1 < y.2.1) ∧
      let T : VT K V 1 := (a, A ++ e :: B, z)
      let T' : VT K V 1 := (a, A ++ (setF B z ((a1, es1 ++ es2') : VT K V 0)).1, (setF B z ((a1, es1 ++ es2') : VT K V 0)).2)
      Rep s'.tree 1 T' ∧
      EPost s s' key (leafs 1 T) (nodes 1 T) (ents 1 T) (leafs 1 T') (nodes 1 T') (ents 1 T') := by
  obtain ⟨⟨b, hba, hb⟩, hrx, hrz⟩ := hT
  simp only [] at hba hb hrx hrz
  obtain ⟨i, sep, ev⟩ := e
  simp only [] at h1
  subst h1
  have hLeq : fl (leafs 0) (A ++ (i, sep, ((a1, es1) : VT K V 0)) :: B) z =
      A.flatMap (fun x => leafs 0 x.2.2) ++ a1 :: a2 :: tl (leafs 0) B z := by
    rw [fl_append, fl_cons, fl_first, h2]
    rfl
  have hEeq : fl (ents 0) (A ++ (i, sep, ((a1, es1) : VT K V 0)) :: B) z =
      A.flatMap (fun x => ents 0 x.2.2) ++ es1.map (·.2) ++ es2.map (·.2) ++ tl (ents 0) B z := by
    rw [fl_append, fl_cons, fl_first, h2]
    simp [ents]
  have hr1 : Rep s.tree 0 ((a1, es1) : VT K V 0) := hrx (i, sep, (a1, es1)) (by simp)
  have hr2 : Rep s.tree 0 ((a2, es2) : VT K V 0) := by
    rw [← h2]
    cases B with
    | nil => exact hrz
    | cons w B => exact hrx w (by simp)
  obtain ⟨l1, hl1, ok1⟩ := hr1
  obtain ⟨l2, hl2, ok2⟩ := hr2
  simp only [] at hl1 ok1 hl2 ok2
  have hc1 : a1 < s.tree.leaves.length := (List.getElem?_eq_some_iff.1 hl1).1
  have hab : a < s.tree.branches.length := (List.getElem?_eq_some_iff.1 hba).1
  rw [hLeq] at hl hd
  have hd1 := hd a1 (by simp)
  have hd2 := hd a2 (by simp)
  obtain ⟨l, es2', em, hes, hlok⟩ := ok1.merge ok2 hle hlt
  have hb' : BrOK b (adr (adrOf 0) A ++ (i, sep, a1) :: adr (adrOf 0) B) (adrOf 0 z) := by
    rw [adr_append] at hb
    exact hb
  obtain ⟨b', eb, hbok, hkid1, hkid2⟩ := hb'.dropSlot a1
  rw [adr_length] at eb
  have hnb : b.count = .ok (A ++ (i, sep, ((a1, es1) : VT K V 0)) :: B).length := by
    rw [show b.count = _ from hb.count, adr_length]
  refine ⟨(s.joined a1 a2 l).setBranch a b', es2', ?_, hes, hlok.sorted, ?_⟩
  · rw [mergeLeaves_eq (ETree.leaf_ok hl1 hd1) (ETree.leaf_ok hl2 hd2) em hnx (ETree.branch_ok hba ha) hnb,
      if_pos hn, eb, Res.ok_bind, Res.pure_eq]
  · intro T T'
    have hset := setF_adr (adrOf 0) B z ((a1, es1 ++ es2') : VT K V 0)
    have hne : ∀ j ∈ A.flatMap (fun x => leafs 0 x.2.2) ++ tl (leafs 0) B z, j ≠ a1 := by
      intro j hj hja
      subst hja
      rw [List.nodup_middle, List.nodup_cons] at hl
      apply hl.1
      rw [List.mem_append] at hj ⊢
      rcases hj with hj | hj
      · exact Or.inl hj
      · exact Or.inr (List.mem_cons_of_mem _ hj)
    have hrep0 : ∀ (t' : Tree K V N M) (c : VT K V 0), t'.leaves = s.tree.leaves.set a1 l → Rep s.tree 0 c →
        c.1 ∈ A.flatMap (fun x => leafs 0 x.2.2) ++ tl (leafs 0) B z → Rep t' 0 c := by
      rintro t' c ht ⟨lc, hlc, hokc⟩ hc
      exact ⟨lc, by rw [ht, List.getElem?_set_ne (hne _ hc).symm]; exact hlc, hokc⟩
    have hrepC : ∀ (t' : Tree K V N M), t'.leaves = s.tree.leaves.set a1 l →
        Rep t' 0 ((a1, es1 ++ es2') : VT K V 0) := by
      intro t' ht
      exact ⟨l, by rw [ht]; exact List.getElem?_set_self hc1, hlok⟩
    refine ⟨⟨⟨b', ?_, ?_⟩, ?_, ?_⟩, ?_⟩
    · exact List.getElem?_set_self hab
    · show BrOK b' (adr (adrOf 0) (A ++ (setF B z ((a1, es1 ++ es2') : VT K V 0)).1)) (adrOf 0 (setF B z ((a1, es1 ++ es2') : VT K V 0)).2)
      rw [adr_append]
      have e1 := congrArg Prod.fst hset
      have e2 := congrArg Prod.snd hset
      simp only [] at e1 e2
      rw [← e1, ← e2]
      exact hbok
    · intro x hx
      rcases List.mem_append.1 hx with hx | hx
      · exact hrep0 _ _ rfl (hrx x (by simp [hx]))
          (List.mem_append_left _ (List.mem_flatMap.2 ⟨x, hx, by simp [leafs]⟩))
      · cases B with
        | nil => simp [setF] at hx
        | cons w B =>
          rcases List.mem_cons.1 hx with rfl | hx
          · exact hrepC _ rfl
          · exact hrep0 _ _ rfl (hrx x (by simp [hx]))
              (List.mem_append_right _ (List.mem_append_left _ (List.mem_flatMap.2 ⟨x, hx, by simp [leafs]⟩)))
    · cases B with
      | nil => exact hrepC _ rfl
      | cons w B =>
        exact hrep0 _ _ rfl hrz (List.mem_append_right _ (List.mem_append_right _ (List.mem_singleton_self z.1)))
    · have hLT : leafs 1 T = A.flatMap (fun x => leafs 0 x.2.2) ++ a1 :: a2 :: tl (leafs 0) B z := hLeq
      have hLT' : leafs 1 T' = A.flatMap (fun x => leafs 0 x.2.2) ++ a1 :: tl (leafs 0) B z := by
        show fl (leafs 0) _ _ = _
        rw [fl_mid_set]
        simp [leafs]
      have hET : ents 1 T = A.flatMap (fun x => ents 0 x.2.2) ++ es1.map (·.2) ++ es2.map (·.2) ++ tl (ents 0) B z := hEeq
      have hET' : ents 1 T' = ents 1 T := by
        rw [hET]
        show fl (ents 0) _ _ = _
        rw [fl_mid_set]
        simp [ents, hes]
      have hNT : ∀ xs : List (Nat × K × VT K V 0), fl (nodes 0) xs z = [] := by
        intro xs
        simp [fl, nodes]
      have hBT : nodes 1 T = [a] := by
        show a :: fl (nodes 0) _ _ = _
        rw [hNT]
      have hBT' : nodes 1 T' = [a] := by
        show a :: fl (nodes 0) _ _ = _
        simp [fl, nodes]
      rw [hLT, hLT', hBT, hBT', hET']
      refine ((joined_post l hl ?_).node a).trans (setBranch_post (b := b) hba ?_ ?_ hkid2)
      · intro y hy; exact hk y hy
      · intro y hy; exact hk y hy
      · intro i' x hx
        rcases hkid1 i' x hx with rfl | h
        · exact ⟨i, (hb'.ent (i, sep, x) (by simp)).2.2⟩
        · exact ⟨i', h⟩

/-- The two leaves of a tree with a single separator are merged, the result becomes the root. -/
theorem mergeLeaves_root {s : ETree K V N M} {key : K} {a i a1 a2 p : Nat} {sep : K} {es1 es2 : List (Nat × K × V)}
    (hT : Rep s.tree 1 ((a, [(i, sep, ((a1, es1) : VT K V 0))], ((a2, es2) : VT K V 0)) : VT K V 1))
    (hl : [a1, a2].Nodup) (hd : ∀ j ∈ [a1, a2], j ∉ s.deadL) (ha : a ∉ s.deadB)
    (hnx : ∀ x, s.tree.next a2 = some x → x ∉ s.deadL ∧ x < s.tree.leaves.length)
    (hle : es1.length + es2.length ≤ M) (hlt : ∀ x ∈ es1, ∀ y ∈ es2, x.2.1 < y.2.1)
    (hk : ∀ y ∈ es1.map (·.2) ++ es2.map (·.2), y.1 ≠ key) (hdep : s.tree.depth = 1) :
    ∃ s1 es2', mergeLeaves s a p a1 a2 = .ok { s1 with tree := { s1.tree with root := a1, depth := 0 } } ∧
      es2'.map (·.2) = es2.map (·.2) ∧ Rep s1.tree 0 ((a1, es1 ++ es2') : VT K V 0) ∧
      EPost s s1 key [a1, a2] [] (es1.map (·.2) ++ es2.map (·.2)) [a1] [] (es1.map (·.2) ++ es2.map (·.2)) := by
  obtain ⟨⟨b, hba, hb⟩, hrx, hrz⟩ := hT
  simp only [] at hba hb hrx hrz
  obtain ⟨l1, hl1, ok1⟩ := hrx (i, sep, (a1, es1)) (by simp)
  obtain ⟨l2, hl2, ok2⟩ := hrz
  simp only [] at hl1 ok1 hl2 ok2
  have hc1 : a1 < s.tree.leaves.length := (List.getElem?_eq_some_iff.1 hl1).1
  obtain ⟨l, es2', em, hes, hlok⟩ := ok1.merge ok2 hle hlt
  have hnb : b.count = .ok 1 := hb.count
  refine ⟨s.joined a1 a2 l, es2', ?_, hes, ⟨l, List.getElem?_set_self hc1, hlok⟩,
    joined_post (LA := []) (LB := []) l hl hk⟩
  rw [mergeLeaves_eq (ETree.leaf_ok hl1 (hd a1 (by simp))) (ETree.leaf_ok hl2 (hd a2 (by simp))) em hnx
    (ETree.branch_ok hba ha) hnb, if_neg (by omega), hdep]
  rfl

/-! ## Balancing the last two leaves of a node -/

omit [LinearOrder K] in
theorem setLeaf_post {s : ETree K V N M} {key : K} {c : Nat} (l : Leaf K V M) {L B : List Nat} {E : List (K × V)}
    (hc : c ∈ L) (hk : ∀ y ∈ E, y.1 ≠ key) : EPost s (s.setLeaf c l) key L B E L B E := by
  refine ⟨rfl, rfl, List.length_set, ?_, fun j _ => rfl, ?_, rfl, List.Sublist.refl _, rfl, ?_,
    fun X Y _ k1 k2 => ⟨k1, k2⟩, ?_⟩
  · intro j hj
    show (s.tree.leaves.set c l)[j]? = _
    rw [List.getElem?_set_ne]
    rintro rfl
    exact hj hc
  · intro j
    show j ∈ s.deadL ↔ _
    tauto
  · intro y
    exact ⟨fun hy => ⟨hk y hy, hy⟩, fun h => h.2⟩
  · intro j b' hb'
    exact ⟨b', hb', fun i c hc => ⟨i, hc⟩, fun i hi => hi⟩

/-- The last two leaves are balanced.  `es0` are the entries of the last leaf before the erase. -/
theorem balancePrev_ok {s : ETree K V N M} {key : K} {a q c i : Nat} {A : List (Nat × K × VT K V 0)} {sep : K}
    {D0 es es0 : List (Nat × K × V)} {b : Branch K N}
    (hT : Rep s.tree 1 ((a, A ++ [(i, sep, ((q, D0) : VT K V 0))], ((c, es) : VT K V 0)) : VT K V 1))
    (hba : s.tree.branches[a]? = some b)
    (hs : Srt 0 (Ord 0) (A ++ [(i, sep, ((q, D0) : VT K V 0))]) ((c, es0) : VT K V 0)) (hsub : es.Sublist es0)
    (hl : (fl (leafs 0) (A ++ [(i, sep, ((q, D0) : VT K V 0))]) ((c, es) : VT K V 0)).Nodup)
    (hdq : q ∉ s.deadL) (hdc : c ∉ s.deadL) (hne : es ≠ []) (hlen : es.length + 1 < D0.length)
    (hk : ∀ y ∈ fl (ents 0) (A ++ [(i, sep, ((q, D0) : VT K V 0))]) ((c, es) : VT K V 0), y.1 ≠ key) :
    ∃ s' k D R, underflowLeaf.balancePrev false s a b (A.length + 1) (A.length + 2) c q = .ok s' ∧
      let T : VT K V 1 := (a, A ++ [(i, sep, ((q, D0) : VT K V 0))], ((c, es) : VT K V 0))
      let T' : VT K V 1 := (a, A ++ [(i, k, ((q, D) : VT K V 0))], ((c, R) : VT K V 0))
      Rep s'.tree 1 T' ∧ Srt 0 (Ord 0) (A ++ [(i, k, ((q, D) : VT K V 0))]) ((c, R) : VT K V 0) ∧
      (∀ P : K → Prop, Within P 1 T → Within P 1 T') ∧
      EPost s s' key (leafs 1 T) (nodes 1 T) (ents 1 T) (leafs 1 T') (nodes 1 T') (ents 1 T') := by
  obtain ⟨⟨b0, hba0, hb⟩, hrx, hrz⟩ := hT
  simp only [] at hba0 hb hrx hrz
  rw [hba] at hba0
  obtain rfl := Option.some.inj hba0
  obtain ⟨l1, hl1, ok1⟩ := hrx (i, sep, (q, D0)) (by simp)
  obtain ⟨l2, hl2, ok2⟩ := hrz
  simp only [] at hl1 ok1 hl2 ok2
  have hc1 : q < s.tree.leaves.length := (List.getElem?_eq_some_iff.1 hl1).1
  have hc2 : c < s.tree.leaves.length := (List.getElem?_eq_some_iff.1 hl2).1
  have hab : a < s.tree.branches.length := (List.getElem?_eq_some_iff.1 hba).1
  have hLeq : ∀ k' (D R : List (Nat × K × V)), fl (leafs 0) (A ++ [(i, k', ((q, D) : VT K V 0))]) ((c, R) : VT K V 0) =
      A.flatMap (fun x => leafs 0 x.2.2) ++ [q, c] := by
    intro k' D R
    simp [fl, leafs]
  have hEeq : ∀ k' (D R : List (Nat × K × V)), fl (ents 0) (A ++ [(i, k', ((q, D) : VT K V 0))]) ((c, R) : VT K V 0) =
      A.flatMap (fun x => ents 0 x.2.2) ++ (D.map (·.2) ++ R.map (·.2)) := by
    intro k' D R
    simp [fl, ents]
  rw [hLeq] at hl
  have hqc : q ≠ c := by
    have := (List.nodup_append.1 hl).2.1
    simpa using this
  have hA : ∀ x ∈ A, x.2.2.1 ≠ q ∧ x.2.2.1 ≠ c := by
    intro x hx
    have h3 := (List.nodup_append.1 hl).2.2
    have hm : x.2.2.1 ∈ A.flatMap (fun x => leafs 0 x.2.2) := List.mem_flatMap.2 ⟨x, hx, by simp [leafs]⟩
    exact ⟨h3 _ hm q (by simp), h3 _ hm c (by simp)⟩
  -- the order between the two leaves
  have hlt1 : ∀ x ∈ D0, x.2.1 < sep := hs.lt (i, sep, (q, D0)) (by simp)
  have hge : ∀ y ∈ es, sep ≤ y.2.1 := fun y hy => hs.last (i, sep, (q, D0)) (by simp) y (hsub.subset hy)
  have hlo : ∀ x ∈ A, ∀ y ∈ D0, x.2.1 ≤ y.2.1 := by
    intro x hx y hy
    have := hs.pw
    rw [List.pairwise_append] at this
    exact (this.2.2 x hx (i, sep, (q, D0)) (by simp)).2 y hy
  have hlo2 : ∀ x ∈ A, ∀ y ∈ es, x.2.1 ≤ y.2.1 :=
    fun x hx y hy => hs.last x (by simp [hx]) y (hsub.subset hy)
  -- where the left leaf is cut
  obtain ⟨D, B, hDB, hDlen⟩ : ∃ D B, D0 = D ++ B ∧ D.length = (D0.length + es.length) / 2 := by
    refine ⟨D0.take ((D0.length + es.length) / 2), D0.drop ((D0.length + es.length) / 2),
      (List.take_append_drop _ _).symm, ?_⟩
    rw [List.length_take]
    omega
  subst hDB
  obtain ⟨donor, recv, B', ebal, hB', okd, okr⟩ := ok1.balance_larger ok2 hne (by omega) hDlen
    (fun x hx y hy => lt_of_lt_of_le (hlt1 x hx) (hge y hy))
  have hD0 : D ≠ [] := by
    rintro rfl
    simp at hDlen hlen
    have : es.length ≠ 0 := by simpa using hne
    omega
  obtain ⟨⟨pk, k, w⟩, R', hR⟩ := List.exists_cons_of_ne_nil (l := B' ++ es) (by simp [hne])
  have hBkeys : ∀ {P : K → Prop}, (∀ y ∈ D ++ B, P y.2.1) → (∀ y ∈ es, P y.2.1) → ∀ y ∈ B' ++ es, P y.2.1 := by
    intro P h1 h2 y hy
    rcases List.mem_append.1 hy with hy | hy
    · have : y.2 ∈ B.map (·.2) := by rw [← hB']; exact List.mem_map_of_mem hy
      obtain ⟨w, hw, hwy⟩ := List.mem_map.1 this
      rw [← hwy]
      exact h1 w (by simp [hw])
    · exact h2 y hy
  have hkmem : (pk, k, w) ∈ B' ++ es := by rw [hR]; simp
  have hDk : ∀ x ∈ D, x.2.1 < k := by
    intro x hx
    rcases List.mem_append.1 hkmem with hy | hy
    · have : (k, w) ∈ B.map (·.2) := by rw [← hB']; exact List.mem_map_of_mem hy
      obtain ⟨y, hw, hwy⟩ := List.mem_map.1 this
      have := (List.pairwise_append.1 ok1.sorted).2.2 x hx y hw
      rw [hwy] at this
      exact this
    · exact lt_of_lt_of_le (hlt1 x (by simp [hx])) (hge _ hy)
  have hkle : ∀ y ∈ B' ++ es, k ≤ y.2.1 := by
    intro y hy
    rw [hR] at hy
    have h3 := okr.sorted
    rw [hR, List.pairwise_cons] at h3
    rcases List.mem_cons.1 hy with rfl | hy
    · exact le_refl _
    · exact le_of_lt (h3.1 y hy)
  -- the branch node
  have hb2 : BrOK b (adr (adrOf 0) A ++ [(i, sep, q)]) c := by
    rw [adr_append] at hb
    exact hb
  obtain ⟨b', ekey, hb', hkids⟩ := hb2.setKey k
  rw [adr_length] at ekey
  refine ⟨((s.setLeaf q donor).setLeaf c recv).setBranch a b', k, D, B' ++ es, ?_, ?_⟩
  · unfold underflowLeaf.balancePrev
    rw [ETree.leaf_ok hl1 hdq, Res.ok_bind, ETree.leaf_ok hl2 hdc, Res.ok_bind, ebal, Res.ok_bind]
    dsimp only
    have e1 : recv.slot.rd (M + 1) 1 = .ok pk := by
      have := LeafOK.slot_rd (A := []) (B := B' ++ es) okr 0 (by rw [hR]; simp)
      simpa [hR] using this
    rw [if_neg (by simp), e1, Res.ok_bind, okr.key hkmem, Res.ok_bind, if_pos rfl, ekey, Res.ok_bind, Res.pure_eq]
  · intro T T'
    refine ⟨⟨⟨b', List.getElem?_set_self hab, ?_⟩, ?_, ?_⟩, ⟨?_, ?_, ?_, ?_, ?_⟩, ?_, ?_⟩
    · show BrOK b' (adr (adrOf 0) (A ++ [(i, k, ((q, D) : VT K V 0))])) c
      rw [adr_append]
      exact hb'
    · intro x hx
      rcases List.mem_append.1 hx with hx | hx
      · obtain ⟨lx, hlx, okx⟩ := hrx x (by simp [hx])
        refine ⟨lx, ?_, okx⟩
        show ((s.tree.leaves.set q donor).set c recv)[x.2.2.1]? = _
        rw [List.getElem?_set_ne (hA x hx).2.symm, List.getElem?_set_ne (hA x hx).1.symm]
        exact hlx
      · rw [List.mem_singleton] at hx
        subst hx
        refine ⟨donor, ?_, okd⟩
        show ((s.tree.leaves.set q donor).set c recv)[q]? = _
        rw [List.getElem?_set_ne hqc.symm, List.getElem?_set_self hc1]
    · refine ⟨recv, ?_, okr⟩
      show ((s.tree.leaves.set q donor).set c recv)[c]? = _
      rw [List.getElem?_set_self (by simpa using hc2)]
    · intro x hx
      rcases List.mem_append.1 hx with hx | hx
      · exact hs.ord x (by simp [hx])
      · rw [List.mem_singleton] at hx
        subst hx
        exact ⟨okd.sorted, hD0⟩
    · intro x hx
      rcases List.mem_append.1 hx with hx | hx
      · exact hs.lt x (by simp [hx])
      · rw [List.mem_singleton] at hx
        subst hx
        exact hDk
    · have h3 := hs.pw
      rw [List.pairwise_append] at h3 ⊢
      refine ⟨h3.1, List.pairwise_singleton _ _, ?_⟩
      intro x hx y hy
      rw [List.mem_singleton] at hy
      subst hy
      refine ⟨?_, fun y hy => hlo x hx y (by simp [hy])⟩
      obtain ⟨y, ys, rfl⟩ := List.exists_cons_of_ne_nil hD0
      exact lt_of_le_of_lt (hlo x hx y (by simp)) (hDk y (by simp))
    · intro x hx
      rcases List.mem_append.1 hx with hx | hx
      · exact hBkeys (P := (x.2.1 ≤ ·)) (hlo x hx) (hlo2 x hx)
      · rw [List.mem_singleton] at hx
        subst hx
        exact hkle
    · exact ⟨okr.sorted, by simp [hne]⟩
    · intro P hP
      have hPD : ∀ y ∈ D ++ B, P y.2.1 := (hP.1 (i, sep, (q, D ++ B)) (by simp [T])).2
      have hPe : ∀ y ∈ es, P y.2.1 := hP.2
      refine ⟨?_, hBkeys hPD hPe⟩
      intro x hx
      rcases List.mem_append.1 hx with hx | hx
      · exact hP.1 x (by simp [T, hx])
      · rw [List.mem_singleton] at hx
        subst hx
        exact ⟨hBkeys hPD hPe _ hkmem, fun y hy => hPD y (by simp [hy])⟩
    · have hB0 : ∀ (xs : List (Nat × K × VT K V 0)) z, fl (nodes 0) xs z = [] := by
        intro xs z
        simp [fl, nodes]
      have hE : ents 1 T' = ents 1 T := by
        show fl (ents 0) _ _ = fl (ents 0) _ _
        rw [hEeq, hEeq, List.map_append, List.map_append, hB']
        simp
      have hLT : leafs 1 T = A.flatMap (fun x => leafs 0 x.2.2) ++ [q, c] := hLeq _ _ _
      have hLT' : leafs 1 T' = A.flatMap (fun x => leafs 0 x.2.2) ++ [q, c] := hLeq _ _ _
      have hBT : nodes 1 T = [a] := congrArg (a :: ·) (hB0 _ _)
      have hBT' : nodes 1 T' = [a] := congrArg (a :: ·) (hB0 _ _)
      rw [hLT, hLT', hBT, hBT', hE]
      refine ((setLeaf_post donor (by simp) ?_).trans (setLeaf_post recv (by simp) ?_)).trans
        (setBranch_post (b := b) hba ?_ ?_ ?_)
      · exact hk
      · exact hk
      · exact hk
      · intro i' x hx
        rw [hkids] at hx
        exact ⟨i', hx⟩
      · intro i' hx
        rw [hkids]
        exact hx

/-! ## A branch node above the leaves -/

/-- The leaf at address `a` has `n` entries. -/
def Entries (s : ETree K V N M) (a n : Nat) : Prop := ∃ l, s.leaf a = .ok l ∧ l.count = .ok n

/-- The state `s` after the erase from leaf `c`, the child at position `p` of a node with `nb` separators, is
handled well: there is no underflow; or the leaf is merged with a neighbour, which leaves a separator in the node or
makes the merged leaf the root of the tree; or, in wBPTree.hpp, entries are taken from the left neighbour of the last
leaf of the node. -/
def CalmLeaf (hy : Bool) (s : ETree K V N M) (nb p c : Nat) : Prop :=
  ∃ n, Entries s c n ∧
    ((M + 1) / 2 ≤ n ∨
    ((1 < nb ∨ (nb = 1 ∧ s.tree.depth = 1)) ∧
      (1 < p → ∀ q m, s.prev c = some q → Entries s q m → m ≤ (M + 1) / 2) ∧
      (p ≤ nb → ∀ r m, s.tree.next c = some r → Entries s r m → m ≤ (M + 1) / 2)) ∨
    (hy = false ∧ 0 < n ∧ 1 < p ∧ p = nb + 1 ∧ ∃ q m, s.prev c = some q ∧ Entries s q m ∧ (M + 1) / 2 < m))

/-- The erase of `key` below the node `a` of depth `d` takes it from a leaf that is not full, is handled well at the
leaves, and leaves enough separators in all branch nodes. -/
def Calm (hy : Bool) (key : K) : Nat → ETree K V N M → Nat → Prop
  | 0, s, a => ∃ n, Entries s a n ∧ n < M
  | d + 1, s, a => ∃ b p c nb, s.branch a = .ok b ∧ b.pos key = .ok p ∧ b.child p = .ok c ∧ b.count = .ok nb ∧
      Calm hy key d s c ∧ ∀ s1 del, eraseAux hy key d s c = .ok (s1, del) →
        if d = 0 then CalmLeaf hy s1 nb p c
        else ∃ x n, s1.branch c = .ok x ∧ x.count = .ok n ∧ (N + 1) / 2 ≤ n

/-- The outcome of an erase below a node above the leaves: the node stays, or the merged leaf becomes the root. -/
def EOut (s s' : ETree K V N M) (key : K) (T : VT K V 1) : Prop :=
  (∃ T', EResult s s' key 1 T T') ∨
  (s.tree.depth = 1 ∧ ∃ (s1 : ETree K V N M) (c' : VT K V 0),
    s' = { s1 with tree := { s1.tree with root := c'.1, depth := 0 } } ∧ Rep s1.tree 0 c' ∧ Ord 0 c' ∧
    EPost s s1 key (leafs 1 T) (nodes 1 T) (ents 1 T) (leafs 0 c') (nodes 1 T) (ents 0 c'))

/-- The leaves of the tree, with those before and behind. -/
structure LeafChain (s : ETree K V N M) (L : List Nat) : Prop where
  nodup : L.Nodup
  next : Linked s.tree.next L
  prev : BackLinked s.prev L
  alive : ∀ j ∈ L, j ∉ s.deadL ∧ j < s.tree.leaves.length

/-- A merge after the erase: `e0`, `B0`, `z0` before the erase, `e1`, `B1`, `z1` after it. -/
theorem merge_step {s s1 : ETree K V N M} {key : K} {a a1 a2 : Nat} {A B0 B1 : List (Nat × K × VT K V 0)}
    {e0 e1 : Nat × K × VT K V 0} {z0 z1 : VT K V 0} {es1 es2 : List (Nat × K × V)}
    (hT1 : Rep s1.tree 1 ((a, A ++ e1 :: B1, z1) : VT K V 1)) (hs : Srt 0 (Ord 0) (A ++ e0 :: B0) z0)
    (hset : ∀ C : VT K V 0, setF B1 z1 C = setF B0 z0 C) (h1 : e1.2.2 = (a1, es1)) (h2 : first B1 z1 = (a2, es2))
    (sub1 : ∀ x ∈ es1, x ∈ e0.2.2.2) (sub2 : ∀ x ∈ es2, x ∈ (first B0 z0).2) (hne : es1 ++ es2 ≠ [])
    (hpost : EPost s s1 key (leafs 1 ((a, A ++ e0 :: B0, z0) : VT K V 1)) (nodes 1 ((a, A ++ e0 :: B0, z0) : VT K V 1))
      (ents 1 ((a, A ++ e0 :: B0, z0) : VT K V 1)) (leafs 1 ((a, A ++ e1 :: B1, z1) : VT K V 1))
      (nodes 1 ((a, A ++ e1 :: B1, z1) : VT K V 1)) (ents 1 ((a, A ++ e1 :: B1, z1) : VT K V 1)))
    {X Y : List Nat} (hch : LeafChain s1 (X ++ fl (leafs 0) (A ++ e1 :: B1) z1 ++ Y)) (ha : a ∉ s1.deadB)
    (hle : es1.length + es2.length ≤ M)
    (hnb : 1 < (A ++ e1 :: B1).length ∨ ((A ++ e1 :: B1).length = 1 ∧ s1.tree.depth = 1)) :
    ∃ s', mergeLeaves s1 a (A.length + 1) a1 a2 = .ok s' ∧ EOut s s' key (a, A ++ e0 :: B0, z0) := by
  have hLeq : fl (leafs 0) (A ++ e1 :: B1) z1 = A.flatMap (fun x => leafs 0 x.2.2) ++ a1 :: a2 :: tl (leafs 0) B1 z1 := by
    rw [fl_append, fl_cons, fl_first, h1, h2]
    rfl
  have hl : (fl (leafs 0) (A ++ e1 :: B1) z1).Nodup :=
    (List.nodup_append.1 (List.nodup_append.1 hch.nodup).1).2.1
  have hd : ∀ j ∈ fl (leafs 0) (A ++ e1 :: B1) z1, j ∉ s1.deadL := by
    intro j hj
    exact (hch.alive j (by simp [hj])).1
  have hnx : ∀ x, s1.tree.next a2 = some x → x ∉ s1.deadL ∧ x < s1.tree.leaves.length := by
    intro x hx
    have h3 : s1.tree.next a2 = (tl (leafs 0) B1 z1 ++ Y).head? :=
      hch.next (X ++ A.flatMap (fun x => leafs 0 x.2.2) ++ [a1]) a2 _ (by rw [hLeq]; simp)
    rw [h3] at hx
    have := List.mem_of_mem_head? hx
    refine hch.alive x ?_
    rw [hLeq]
    rcases List.mem_append.1 this with h4 | h4
    · simp [h4]
    · simp [h4]
  have hk : ∀ y ∈ fl (ents 0) (A ++ e1 :: B1) z1, y.1 ≠ key := fun y hy => ((hpost.ent y).1 hy).1
  have hf0 := hs.first (p := A) (ys := e0 :: B0)
  have hf1 := Srt.first (p := A ++ [e0]) (ys := B0) (z := z0) (O := Ord 0) (by simpa using hs)
  have hlt : ∀ x ∈ es1, ∀ y ∈ es2, x.2.1 < y.2.1 := by
    intro x hx y hy
    have k1 : x.2.1 < e0.2.1 := hs.lt e0 (by simp) x (sub1 x hx)
    have k2 : e0.2.1 ≤ y.2.1 := hf1.2.1 e0 (by simp) y (sub2 y hy)
    exact lt_of_lt_of_le k1 k2
  by_cases hn : 1 < (A ++ e1 :: B1).length
  · obtain ⟨s', es2', e, hes, hsrt, hrep, hp⟩ := mergeLeaves_ok hT1 h1 h2 hl hd ha hnx hle hlt hk hn
    have hj := hs.join (c := ((a1, es1 ++ es2') : VT K V 0)) ⟨hsrt, by
        intro hh
        apply hne
        have := congrArg (List.map (·.2)) hh
        rw [List.map_append, hes, ← List.map_append] at this
        simpa using this⟩ (by
        intro P k1 k2 y hy
        rcases List.mem_append.1 hy with hy | hy
        · exact k1 y (sub1 y hy)
        · have : y.2 ∈ es2.map (·.2) := by rw [← hes]; exact List.mem_map_of_mem hy
          obtain ⟨w, hw, hwy⟩ := List.mem_map.1 this
          rw [← hwy]
          exact k2 w (sub2 w hw))
    rw [← hset] at hj
    exact ⟨s', e, Or.inl ⟨(a, A ++ (setF B1 z1 ((a1, es1 ++ es2') : VT K V 0)).1,
      (setF B1 z1 ((a1, es1 ++ es2') : VT K V 0)).2), rfl, hrep, hj.1, fun P hP => hj.2 P hP, hpost.trans hp⟩⟩
  · obtain ⟨hn1, hdep⟩ := hnb.resolve_left hn
    have hA : A = [] := by
      cases A with
      | nil => rfl
      | cons x A => simp at hn1
    subst hA
    have hB : B1 = [] := by
      cases B1 with
      | nil => rfl
      | cons x A => simp at hn1
    subst hB
    obtain ⟨i, sep, ev⟩ := e1
    simp only [first] at h1 h2
    subst h1 h2
    obtain ⟨s2, es2', e, hes, hrep, hp⟩ := mergeLeaves_root (key := key) (p := [].length + 1) hT1 (by simpa [fl, leafs] using hl)
      (by simpa [fl, leafs] using hd) ha hnx hle hlt (by simpa [fl, ents] using hk) hdep
    refine ⟨_, e, Or.inr ⟨by rw [← hpost.depth]; exact hdep, s2, (a1, es1 ++ es2'), rfl, hrep, ?_, ?_⟩⟩
    · obtain ⟨l, _, hok⟩ := hrep
      refine ⟨hok.sorted, ?_⟩
      intro hh
      apply hne
      have := congrArg (List.map (·.2)) hh
      rw [List.map_append, hes, ← List.map_append] at this
      simpa using this
    · refine hpost.trans ?_
      have hb : nodes 1 ((a, [(i, sep, ((a1, es1) : VT K V 0))], ((a2, es2) : VT K V 0)) : VT K V 1) = [a] := rfl
      refine (hp.node a).lists ?_ ?_ ?_ rfl ?_ ?_
      · simp [leafs, fl]
      · rfl
      · simp [ents, fl]
      · rw [← hpost.bsub]
        rfl
      · simp [ents, hes]

/-- The erase below a branch node above the leaves. -/
theorem eraseNode {hy : Bool} {s : ETree K V N M} {key : K} {v : V} {a : Nat} {xs : List (Nat × K × VT K V 0)}
    {z : VT K V 0} (hT : Rep s.tree 1 ((a, xs, z) : VT K V 1)) (hs : Srt 0 (Ord 0) xs z)
    {X Y : List Nat} (hch : LeafChain s (X ++ fl (leafs 0) xs z ++ Y)) (ha : a ∉ s.deadB)
    (hk : (key, v) ∈ fl (ents 0) xs z) (hc : Calm hy key 1 s a) :
    ∃ s', eraseAux hy key 1 s a = .ok (s', true) ∧ EOut s s' key (a, xs, z) := by
  have hl : (fl (leafs 0) xs z).Nodup := (List.nodup_append.1 (List.nodup_append.1 hch.nodup).1).2.1
  have hn0 : (a :: fl (nodes 0) xs z).Nodup := by
    have : fl (nodes 0) xs z = [] := by simp [fl, nodes]
    rw [this]
    simp
  have hT0 := hT
  obtain ⟨⟨b, hba, hb⟩, hrx, hrz⟩ := hT0
  simp only [] at hba hb hrx hrz
  -- the child
  obtain ⟨P, Q, hPQ, epos, hP, hQ⟩ := hb.pos (hs.sortedKeys _) key
  obtain ⟨p, ys, rfl, rfl, rfl⟩ := adr_split hPQ
  replace hP := adr_keys (P := (· ≤ key)).1 hP
  replace hQ := adr_keys (P := (key < ·)).1 hQ
  rw [adr_length] at epos
  obtain ⟨c, es, hce⟩ : ∃ c es, first ys z = ((c, es) : VT K V 0) := ⟨(first ys z).1, (first ys z).2, rfl⟩
  have echild : b.child (p.length + 1) = .ok c := by
    have h1 := hb
    rw [adr_append] at h1
    have := h1.child
    rwa [adr_length, first_adr, hce] at this
  have ebr := ETree.branch_ok hba ha
  have ecount : b.count = .ok (p ++ ys).length := by
    rw [show b.count = _ from hb.count, adr_length]
  obtain ⟨b', p', c', nb, hb1, hp1, hc1, hn1, hcalm, hcalm2⟩ := hc
  rw [ebr] at hb1
  obtain rfl := Res.ok.inj hb1
  rw [epos] at hp1
  obtain rfl := Res.ok.inj hp1
  rw [echild] at hc1
  obtain rfl := Res.ok.inj hc1
  rw [ecount] at hn1
  obtain rfl := Res.ok.inj hn1
  -- the leaf
  have hrc := first_rep hrx hrz
  rw [hce] at hrc
  have hclive : c ∉ s.deadL := by
    refine (hch.alive c ?_).1
    rw [fl_mid, hce]
    simp [leafs]
  obtain ⟨ne1, ne2⟩ := others_ne hs hP hQ
  have hkes : (key, v) ∈ es.map (·.2) := by
    rw [fl_mid, hce, List.mem_append, List.mem_append] at hk
    rcases hk with (h | h) | h
    · exact absurd rfl (ne1 _ h)
    · exact h
    · exact absurd rfl (ne2 _ h)
  have hlt : es.length < M := by
    obtain ⟨n, ⟨l, hl1, hl2⟩, hn⟩ := hcalm
    obtain ⟨l0, hl0, hok⟩ := hrc
    rw [ETree.leaf_ok hl0 hclive] at hl1
    obtain rfl := Res.ok.inj hl1
    have h3 : l0.count = .ok es.length := hok.count
    rw [h3] at hl2
    rw [Res.ok.inj hl2]
    exact hn
  obtain ⟨l', es', eer, hrep1, hsub, hlen, hpost0⟩ := eraseLeaf_ok hrc hclive hlt hkes
  -- the node after the erase from the leaf
  obtain ⟨hT1, hnode, hpost⟩ := EPost.up (c' := ((c, es') : VT K V 0)) hT hs hl hn0 hP hQ (by rw [hce]; rfl) hrep1
    (by rw [hce]; exact hpost0)
  have hlf : leafs 1 ((a, p ++ (setF ys z ((c, es') : VT K V 0)).1, (setF ys z ((c, es') : VT K V 0)).2) : VT K V 1) =
      fl (leafs 0) (p ++ ys) z := by
    show fl (leafs 0) _ _ = _
    rw [fl_mid_set, fl_mid, hce]
    rfl
  generalize hs1 : s.setLeaf c l' = s1 at *
  have hch1 : LeafChain s1 (X ++ fl (leafs 0) (p ++ (setF ys z ((c, es') : VT K V 0)).1)
      (setF ys z ((c, es') : VT K V 0)).2 ++ Y) := by
    rw [show fl (leafs 0) _ _ = _ from hlf, ← hs1]
    exact ⟨hch.nodup, hch.next, hch.prev, fun j hj => ⟨(hch.alive j hj).1, by
      show j < (s.tree.leaves.set c l').length
      rw [List.length_set]
      exact (hch.alive j hj).2⟩⟩
  have hch1' : LeafChain s1 (X ++ (p.flatMap (fun x => leafs 0 x.2.2) ++ [c] ++ tl (leafs 0) ys z) ++ Y) := by
    have := hch1
    rw [fl_mid_set] at this
    exact this
  have ha1 : a ∉ s1.deadB := by rw [← hs1]; exact ha
  have ebr1 : s1.branch a = .ok b := ETree.branch_ok (by rw [hnode]; exact hba) ha1
  obtain ⟨l1, hl1, hok1⟩ := hrep1
  simp only [] at hl1 hok1
  have hcl1 : c ∉ s1.deadL := by rw [← hs1]; exact hclive
  have eleaf : s1.leaf c = .ok l1 := ETree.leaf_ok hl1 hcl1
  have ecnt : l1.count = .ok es'.length := hok1.count
  have hcl := hcalm2 s1 true (by rw [eraseAux]; exact eer)
  rw [if_pos rfl] at hcl
  obtain ⟨n, ⟨l2, hl2, hn2⟩, hcases⟩ := hcl
  rw [eleaf] at hl2
  obtain rfl := Res.ok.inj hl2
  rw [ecnt] at hn2
  obtain rfl := Res.ok.inj hn2
  have eaux : ∀ s', (if es'.length < (M + 1) / 2 then (do
        let s ← underflowLeaf hy s1 a (p.length + 1) c
        pure (s, true))
      else pure (s1, true) : Res (ETree K V N M × Bool)) = .ok (s', true) → eraseAux hy key 1 s a = .ok (s', true) := by
    intro s' h
    rw [eraseAux, ebr, Res.ok_bind, epos, Res.ok_bind, echild, Res.ok_bind, eraseAux, eer, Res.ok_bind]
    dsimp only
    rw [if_pos rfl, eleaf, Res.ok_bind, ecnt, Res.ok_bind]
    exact h
  by_cases hund : (M + 1) / 2 ≤ es'.length
  · -- no underflow
    refine ⟨s1, eaux s1 (by rw [if_neg (by omega)]; rfl),
      Or.inl ⟨(a, p ++ (setF ys z ((c, es') : VT K V 0)).1, (setF ys z ((c, es') : VT K V 0)).2), ?_⟩⟩
    refine EResult.up (c' := ((c, es') : VT K V 0)) hT hs hl hn0 hP hQ ⟨by rw [hce]; rfl, ⟨l1, hl1, hok1⟩,
      ⟨hok1.sorted, ?_⟩, ?_, by rw [hce]; exact hpost0⟩
    · intro hh
      simp only [] at hh
      rw [hh] at hund
      simp at hund
      omega
    · rw [hce]
      intro P hw e he
      exact hw e (hsub.subset he)
  -- underflow
  suffices h : ∃ s', underflowLeaf hy s1 a (p.length + 1) c = .ok s' ∧ EOut s s' key (a, p ++ ys, z) by
    obtain ⟨s', e, ho⟩ := h
    refine ⟨s', eaux s' ?_, ho⟩
    rw [if_pos (by omega), e, Res.ok_bind]
    rfl
  have hset1 : ∀ C : VT K V 0, setF (setF ys z ((c, es') : VT K V 0)).1 (setF ys z ((c, es') : VT K V 0)).2 C =
      setF ys z C := fun C => setF_setF ys z _ C
  have hdep1 : s1.tree.depth = s.tree.depth := by rw [← hs1]; rfl
  -- the neighbours
  have hnext : ∀ (y : Nat × K × VT K V 0) (B : List (Nat × K × VT K V 0)), ys = y :: B →
      s1.tree.next c = some (first B z).1 := by
    intro y B hy
    have := hch1'.next (X ++ p.flatMap (fun x => leafs 0 x.2.2)) c (tl (leafs 0) ys z ++ Y) (by simp)
    rw [this, hy]
    simp only [tl]
    rw [fl_first]
    rfl
  have hsurL : ∀ x ∈ p, ∃ lx, s1.leaf x.2.2.1 = .ok lx ∧ LeafOK lx x.2.2.2 := by
    intro x hx
    obtain ⟨lx, k1, k2⟩ := hT1.2.1 x (by simp [hx])
    refine ⟨lx, ETree.leaf_ok k1 (hch1'.alive _ ?_).1, k2⟩
    have : x.2.2.1 ∈ p.flatMap (fun x => leafs 0 x.2.2) := List.mem_flatMap.2 ⟨x, hx, by simp [leafs]⟩
    simp only [List.mem_append]
    exact Or.inl (Or.inr (Or.inl (Or.inl this)))
  have hsurR : ∀ (y : Nat × K × VT K V 0) (B : List (Nat × K × VT K V 0)), ys = y :: B →
      ∃ lx, s1.leaf (first B z).1 = .ok lx ∧ LeafOK lx (first B z).2 := by
    intro y B hy
    subst hy
    obtain ⟨lx, k1, k2⟩ : Rep s1.tree 0 (first B z) :=
      first_rep (p := p ++ [(y.1, y.2.1, ((c, es') : VT K V 0))]) (fun x hx => hT1.2.1 x (by simpa [setF] using hx)) hT1.2.2
    refine ⟨lx, ETree.leaf_ok k1 (hch1'.alive _ ?_).1, k2⟩
    have : (first B z).1 ∈ tl (leafs 0) (y :: B) z := by
      simp only [tl]
      rw [fl_first]
      simp [leafs]
    simp only [List.mem_append]
    exact Or.inl (Or.inr (Or.inr this))
  unfold underflowLeaf
  rw [ebr1, Res.ok_bind, ecount, Res.ok_bind, if_pos (by simp)]
  rcases List.eq_nil_or_concat p with hp | ⟨A, e0, hp⟩
  · -- the first leaf of the node
    subst hp
    rw [if_neg (by simp)]
    cases ys with
    | nil =>
      exfalso
      rcases hcases with h | ⟨h, _, _⟩ | ⟨_, _, h, _, _⟩
      · exact hund h
      · simp at h
      · simp at h
    | cons y B =>
      obtain ⟨lr, elr, okr⟩ := hsurR y B rfl
      have hsmall : (first B z).2.length ≤ (M + 1) / 2 := by
        rcases hcases with h | ⟨_, _, h⟩ | ⟨_, _, h, _, _⟩
        · exact absurd h hund
        · exact h (by simp) _ _ (hnext y B rfl) ⟨lr, elr, okr.count⟩
        · simp at h
      have hnb : 1 < ([] ++ y :: B).length ∨ (([] ++ y :: B).length = 1 ∧ s1.tree.depth = 1) := by
        rcases hcases with h | ⟨h, _, _⟩ | ⟨_, _, h, _, _⟩
        · exact absurd h hund
        · exact h
        · simp at h
      rw [if_pos (by simp)]
      unfold underflowLeaf.nextCount deref
      rw [hnext y B rfl, Res.ofOption_some, Res.ok_bind, elr, Res.ok_bind, show lr.count = _ from okr.count, Res.ok_bind,
        Res.pure_eq, Res.ok_bind]
      dsimp only
      rw [if_neg (by omega)]
      have hf1 := Srt.first (p := [] ++ [y]) (ys := B) (z := z) (O := Ord 0) (by simpa using hs)
      refine merge_step (A := []) (e1 := (y.1, y.2.1, ((c, es') : VT K V 0))) (B1 := B) (z1 := z) (es1 := es')
        (es2 := (first B z).2) (X := X) (Y := Y) hT1 hs (fun C => rfl) rfl rfl ?_ (fun x hx => hx) ?_ hpost hch1 ha1
        (by omega) (by simpa using hnb)
      · intro x hx
        have : y.2.2 = ((c, es) : VT K V 0) := hce
        rw [this]
        exact hsub.subset hx
      · have : (first B z).2 ≠ [] := hf1.1.2
        simp [this]
  · -- there is a leaf to the left
    rw [List.concat_eq_append] at hp
    subst hp
    obtain ⟨lq, elq, okq⟩ := hsurL e0 (by simp)
    have hprev : s1.prev c = some e0.2.2.1 := by
      refine hch1'.prev (X ++ A.flatMap (fun x => leafs 0 x.2.2)) e0.2.2.1 c (tl (leafs 0) ys z ++ Y) ?_
      simp [leafs]
    rw [if_pos (by simp)]
    unfold deref
    rw [hprev, Res.ofOption_some, Res.ok_bind, elq, Res.ok_bind, show lq.count = _ from okq.count, Res.ok_bind]
    have hreassoc : ∀ w : List (Nat × K × VT K V 0), A ++ [e0] ++ w = A ++ e0 :: w := by simp
    by_cases hbig : (M + 1) / 2 < e0.2.2.2.length
    · -- balance
      rw [if_pos hbig]
      obtain ⟨hhy, hn0', hpe⟩ : hy = false ∧ 0 < es'.length ∧ (A ++ [e0]).length + 1 = (A ++ [e0] ++ ys).length + 1 := by
        rcases hcases with h | ⟨_, h, _⟩ | ⟨h1, h2, _, h3, _⟩
        · exact absurd h hund
        · have := h (by simp) _ _ hprev ⟨lq, elq, okq.count⟩
          omega
        · exact ⟨h1, h2, h3⟩
      have hys : ys = [] := by
        rw [List.length_append (as := A ++ [e0])] at hpe
        exact List.length_eq_zero_iff.1 (by omega)
      subst hys hhy
      obtain ⟨i, sep, q, D0⟩ := e0
      simp only [first] at hce
      subst hce
      simp only [List.append_nil, setF] at hT1 hs hpost hch1 ⊢
      obtain ⟨s', k, D, R, e, hrep', hsrt', hw', hpost'⟩ := balancePrev_ok (b := b) hT1 (by rw [hnode]; exact hba) hs hsub
        ((List.nodup_append.1 (List.nodup_append.1 hch1.nodup).1).2.1) (hch1'.alive q (by simp [leafs])).1 hcl1
        (by intro hh; rw [hh] at hn0'; simp at hn0') (by simp only [] at hbig; omega)
        (fun y hy => ((hpost.ent y).1 hy).1)
      refine ⟨s', ?_, Or.inl ⟨(a, A ++ [(i, k, ((q, D) : VT K V 0))], ((c, R) : VT K V 0)), rfl, hrep', hsrt', ?_,
        hpost.trans hpost'⟩⟩
      · simpa using e
      · intro P hP
        refine hw' P ⟨hP.1, ?_⟩
        intro y hy
        exact hP.2 y (hsub.subset hy)
    · -- merge with the left neighbour
      rw [if_neg hbig]
      have hcond : (1 < (A ++ [e0] ++ ys).length ∨ ((A ++ [e0] ++ ys).length = 1 ∧ s1.tree.depth = 1)) ∧
          ((A ++ [e0]).length + 1 ≤ (A ++ [e0] ++ ys).length → ∀ r m, s1.tree.next c = some r → Entries s1 r m →
            m ≤ (M + 1) / 2) := by
        rcases hcases with h | ⟨h1, _, h2⟩ | ⟨_, _, _, _, q, m, h1, ⟨l3, h2, h3⟩, h4⟩
        · exact absurd h hund
        · exact ⟨h1, h2⟩
        · exfalso
          rw [hprev] at h1
          obtain rfl := Option.some.inj h1
          rw [elq] at h2
          obtain rfl := Res.ok.inj h2
          rw [show lq.count = _ from okq.count] at h3
          have := Res.ok.inj h3
          omega
      have hmerge : ∃ s', mergeLeaves s1 a ((A ++ [e0]).length + 1 - 1) e0.2.2.1 c = .ok s' ∧
          EOut s s' key (a, A ++ [e0] ++ ys, z) := by
        have hTT := hT1
        have hpp := hpost
        have hcc := hch1
        have hss := hs
        rw [hreassoc] at hTT hcc hss
        rw [hreassoc, hreassoc] at hpp
        have e1 : (A ++ [e0]).length + 1 - 1 = A.length + 1 := by simp
        rw [e1, hreassoc]
        have hf0 := hss.first (p := A) (ys := e0 :: ys)
        refine merge_step (A := A) (e0 := e0) (e1 := e0) (B0 := ys) (z0 := z) (es1 := e0.2.2.2) (es2 := es') (X := X) (Y := Y)
          hTT hss hset1 rfl ?_ (fun x hx => hx) ?_ ?_ hpp hcc ha1 (by omega) ?_
        · rw [first_setF]
        · intro x hx
          rw [hce]
          exact hsub.subset hx
        · have : e0.2.2.2 ≠ [] := hf0.1.2
          simp [this]
        · have := hcond.1
          have h5 : (A ++ e0 :: (setF ys z ((c, es') : VT K V 0)).1).length = (A ++ [e0] ++ ys).length := by
            cases ys <;> simp [setF]
          rw [h5]
          exact this
      cases ys with
      | nil =>
        rw [if_neg (by simp)]
        exact hmerge
      | cons y B =>
        rw [if_pos (by simp)]
        obtain ⟨lr, elr, okr⟩ := hsurR y B rfl
        have hsmall : (first B z).2.length ≤ (M + 1) / 2 :=
          hcond.2 (by simp) _ _ (hnext y B rfl) ⟨lr, elr, okr.count⟩
        unfold underflowLeaf.nextCount deref
        rw [hnext y B rfl, Res.ofOption_some, Res.ok_bind, elr, Res.ok_bind, show lr.count = _ from okr.count, Res.ok_bind,
          Res.pure_eq, Res.ok_bind]
        dsimp only
        rw [if_neg (by omega)]
        exact hmerge

/-! ## Trees of any depth -/

/-- The erase below a branch node of a tree with at least two levels of branch nodes. -/
theorem eraseAux_gen {hy : Bool} {key : K} {v : V} : ∀ (d : Nat) (s : ETree K V N M) (T : VT K V (d + 1)),
    2 ≤ s.tree.depth → Rep s.tree (d + 1) T → Ord (d + 1) T → (nodes (d + 1) T).Nodup →
    (∀ j ∈ nodes (d + 1) T, j ∉ s.deadB) → ∀ X Y : List Nat, LeafChain s (X ++ leafs (d + 1) T ++ Y) →
    (key, v) ∈ ents (d + 1) T → Calm hy key (d + 1) s (adrOf (d + 1) T) →
    ∃ s' T', eraseAux hy key (d + 1) s (adrOf (d + 1) T) = .ok (s', true) ∧ EResult s s' key (d + 1) T T' := by
  intro d
  induction d with
  | zero =>
    rintro s ⟨a, xs, z⟩ hdep hT hs hn hB X Y hch hk hc
    obtain ⟨s', e, hout⟩ := eraseNode hT hs hch (hB a (by simp [nodes])) hk hc
    rcases hout with ⟨T', h⟩ | ⟨h, _⟩
    · exact ⟨s', T', e, h⟩
    · omega
  | succ d ih =>
    rintro s ⟨a, xs, z⟩ hdep hT hs hn hB X Y hch hk hc
    replace hs : Srt (d + 1) (Ord (d + 1)) xs z := hs
    replace hk : (key, v) ∈ fl (ents (d + 1)) xs z := hk
    replace hch : LeafChain s (X ++ fl (leafs (d + 1)) xs z ++ Y) := hch
    replace hn : (a :: fl (nodes (d + 1)) xs z).Nodup := hn
    replace hB : ∀ j ∈ a :: fl (nodes (d + 1)) xs z, j ∉ s.deadB := hB
    have hl : (fl (leafs (d + 1)) xs z).Nodup := (List.nodup_append.1 (List.nodup_append.1 hch.nodup).1).2.1
    have hT0 := hT
    obtain ⟨⟨b, hba, hb⟩, hrx, hrz⟩ := hT0
    simp only [] at hba hb hrx hrz
    -- the child
    obtain ⟨P, Q, hPQ, epos, hP, hQ⟩ := hb.pos (hs.sortedKeys _) key
    obtain ⟨p, ys, rfl, rfl, rfl⟩ := adr_split hPQ
    replace hP := adr_keys (P := (· ≤ key)).1 hP
    replace hQ := adr_keys (P := (key < ·)).1 hQ
    rw [adr_length] at epos
    have echild : b.child (p.length + 1) = .ok (adrOf (d + 1) (first ys z)) := by
      have h1 := hb
      rw [adr_append] at h1
      have := h1.child
      rwa [adr_length, first_adr] at this
    have ha : a ∉ s.deadB := hB a (by simp)
    have ebr := ETree.branch_ok hba ha
    obtain ⟨b', p', c', nb, hb1, hp1, hc1, hn1, hcalm, hcalm2⟩ := hc
    rw [show s.branch (adrOf (d + 1 + 1) (a, p ++ ys, z)) = .ok b from ebr] at hb1
    obtain rfl := Res.ok.inj hb1
    rw [epos] at hp1
    obtain rfl := Res.ok.inj hp1
    rw [echild] at hc1
    obtain rfl := Res.ok.inj hc1
    have hrc := first_rep hrx hrz
    obtain ⟨ne1, ne2⟩ := others_ne hs hP hQ
    have hkc : (key, v) ∈ ents (d + 1) (first ys z) := by
      rw [fl_mid, List.mem_append, List.mem_append] at hk
      rcases hk with (h | h) | h
      · exact absurd rfl (ne1 _ h)
      · exact h
      · exact absurd rfl (ne2 _ h)
    have hn2 := (List.nodup_cons.1 hn).2
    have han := (List.nodup_cons.1 hn).1
    have hch2 : LeafChain s ((X ++ p.flatMap (fun x => leafs (d + 1) x.2.2)) ++ leafs (d + 1) (first ys z) ++
        (tl (leafs (d + 1)) ys z ++ Y)) := by
      rw [fl_mid] at hch
      have e : (X ++ p.flatMap (fun x => leafs (d + 1) x.2.2)) ++ leafs (d + 1) (first ys z) ++
          (tl (leafs (d + 1)) ys z ++ Y) = X ++ (p.flatMap (fun x => leafs (d + 1) x.2.2) ++ leafs (d + 1) (first ys z) ++
          tl (leafs (d + 1)) ys z) ++ Y := by simp only [List.append_assoc]
      rw [e]
      exact hch
    rw [fl_mid] at hn2 han
    obtain ⟨s1, c', e1, hres⟩ := ih s (first ys z) hdep hrc hs.first.1
      ((List.nodup_append.1 (List.nodup_append.1 hn2).1).2.1) (fun j hj => hB j (by
        rw [fl_mid]; simp only [List.mem_cons, List.mem_append]; exact Or.inr (Or.inl (Or.inr hj)))) _ _ hch2 hkc hcalm
    have hup := EResult.up hT hs hl hn hP hQ hres
    refine ⟨s1, _, ?_, hup⟩
    have hb3 : s1.tree.branches[a]? = some b := by
      rw [hres.2.2.2.2.bsame a (fun hh => han (by
        simp only [List.mem_append]; exact Or.inl (Or.inr hh))), hba]
    have ha1 : a ∉ s1.deadB := by rw [hres.2.2.2.2.deadB]; exact ha
    have hx := hcalm2 s1 true e1
    rw [if_neg (by omega)] at hx
    obtain ⟨x, n, hx1, hx2, hx3⟩ := hx
    rw [eraseAux]
    rw [show s.branch (adrOf (d + 1 + 1) (a, p ++ ys, z)) = .ok b from ebr, Res.ok_bind, epos, Res.ok_bind, echild,
      Res.ok_bind, e1, Res.ok_bind]
    dsimp only
    rw [if_neg (by omega), show s1.branch (adrOf (d + 1 + 1) (a, p ++ ys, z)) = .ok b from ETree.branch_ok hb3 ha1,
      Res.ok_bind, epos, Res.ok_bind, hx1, Res.ok_bind, hx2, Res.ok_bind, if_neg (by omega)]
    rfl

/-- The tree is ordered, holds the map `m`, and its leaves are linked in both directions. -/
def EInv (s : ETree K V N M) (m : K → Option V) : Prop :=
  ∃ T : VT K V s.tree.depth, adrOf s.tree.depth T = s.tree.root ∧ Rep s.tree s.tree.depth T ∧
    (Ord s.tree.depth T ∨ (s.tree.depth = 0 ∧ ents s.tree.depth T = [])) ∧ (nodes s.tree.depth T).Nodup ∧
    LeafChain s (leafs s.tree.depth T) ∧ (∀ j ∈ s.deadL, j < s.tree.leaves.length) ∧ s.deadB = [] ∧
    ∀ k v, (k, v) ∈ ents s.tree.depth T ↔ m k = some v

theorem EInv.mk' {s : ETree K V N M} {m : K → Option V} {d : Nat} (hd : s.tree.depth = d) (T : VT K V d)
    (h1 : adrOf d T = s.tree.root) (h2 : Rep s.tree d T) (h3 : Ord d T ∨ (d = 0 ∧ ents d T = []))
    (h4 : (nodes d T).Nodup) (h5 : LeafChain s (leafs d T)) (h6 : ∀ j ∈ s.deadL, j < s.tree.leaves.length)
    (h7 : s.deadB = []) (h8 : ∀ k v, (k, v) ∈ ents d T ↔ m k = some v) : EInv s m := by
  subst hd
  exact ⟨T, h1, h2, h3, h4, h5, h6, h7, h8⟩

theorem eInv_empty (junk : Option Nat) : EInv (eempty N M junk : ETree K V N M) (fun _ => none) := by
  refine EInv.mk' (d := 0) rfl (0, []) rfl ⟨Leaf.fresh M junk, rfl, leafOK_fresh junk⟩ (Or.inr ⟨rfl, rfl⟩)
    (by simp [nodes]) ⟨by simp [leafs], ?_, ?_, ?_⟩ (by simp [eempty]) rfl ?_
  · intro pre a post h
    cases pre with
    | nil =>
      simp only [leafs, List.nil_append, List.cons.injEq] at h
      rw [← h.2]; rfl
    | cons x pre => simp [leafs] at h
  · intro pre x y post h
    have := congrArg List.length h
    simp [leafs] at this
    omega
  · intro j hj
    simp [leafs] at hj
    subst hj
    simp [eempty, empty]
  · intro k v
    simp [ents]

omit [LinearOrder K] in
theorem EPost.leafChain {s s' : ETree K V N M} {key : K} {L B L' B' : List Nat} {E E' : List (K × V)}
    (h : EPost s s' key L B E L' B' E') (hc : LeafChain s L) : LeafChain s' L' := by
  have := h.chain [] [] (by simpa using hc.nodup) (by simpa using hc.next) (by simpa using hc.prev)
  simp only [List.nil_append, List.append_nil] at this
  refine ⟨hc.nodup.sublist h.lsub, this.1, this.2, ?_⟩
  intro j hj
  obtain ⟨h1, h2⟩ := hc.alive j (h.lsub.subset hj)
  refine ⟨?_, by rw [h.llen]; exact h2⟩
  rw [h.deadL]
  tauto

omit [LinearOrder K] in
theorem EPost.dead_lt {s s' : ETree K V N M} {key : K} {L B L' B' : List Nat} {E E' : List (K × V)}
    (h : EPost s s' key L B E L' B' E') (hc : LeafChain s L) (hd : ∀ j ∈ s.deadL, j < s.tree.leaves.length) :
    ∀ j ∈ s'.deadL, j < s'.tree.leaves.length := by
  intro j hj
  rw [h.llen]
  rcases (h.deadL j).1 hj with h1 | h1
  · exact hd j h1
  · exact (hc.alive j h1.1).2

theorem EInv.erase_aux {hy : Bool} {s : ETree K V N M} {m : K → Option V} {d : Nat} (hd : s.tree.depth = d)
    (T : VT K V d) (h1 : adrOf d T = s.tree.root) (h2 : Rep s.tree d T) (h3 : Ord d T ∨ (d = 0 ∧ ents d T = []))
    (h4 : (nodes d T).Nodup) (h5 : LeafChain s (leafs d T)) (h6 : ∀ j ∈ s.deadL, j < s.tree.leaves.length)
    (h7 : s.deadB = []) (h8 : ∀ k v, (k, v) ∈ ents d T ↔ m k = some v) {key : K} {v : V} (hk : m key = some v)
    (hc : Calm hy key d s (adrOf d T)) :
    ∃ s', eraseAux hy key d s (adrOf d T) = .ok (s', true) ∧ EInv s' (fun k => if k = key then none else m k) := by
  have hout : ∀ {E' : List (K × V)}, (∀ y, y ∈ E' ↔ y.1 ≠ key ∧ y ∈ ents d T) →
      ∀ k v, (k, v) ∈ E' ↔ (if k = key then none else m k) = some v := by
    intro E' hE k v
    rw [hE, h8]
    by_cases hk : k = key
    · simp [hk]
    · simp [hk]
  have hkT := (h8 key v).2 hk
  have hres : ∀ {s' : ETree K V N M} {T' : VT K V d}, EResult s s' key d T T' →
      EInv s' (fun k => if k = key then none else m k) := by
    rintro s' T' ⟨g1, g2, g3, g4, g5⟩
    exact EInv.mk' (d := d) (by rw [g5.depth, hd]) T' (by rw [g1, h1, g5.root]) g2 (Or.inl g3) (by rw [g5.bsub]; exact h4)
      (g5.leafChain h5) (g5.dead_lt h5 h6) (by rw [g5.deadB, h7]) (hout g5.ent)
  match d, T with
  | 0, (c, es) =>
    have hal := (h5.alive c (by simp [leafs])).1
    obtain ⟨n, ⟨l, hl1, hl2⟩, hn⟩ := hc
    have hlt : es.length < M := by
      obtain ⟨l0, hl0, hok⟩ := h2
      rw [show adrOf 0 ((c, es) : VT K V 0) = c from rfl, ETree.leaf_ok hl0 hal] at hl1
      obtain rfl := Res.ok.inj hl1
      have h3 : l0.count = .ok es.length := hok.count
      rw [h3] at hl2
      rw [Res.ok.inj hl2]
      exact hn
    obtain ⟨l', es', e, hrep, hsub, hlen, hpost⟩ := eraseLeaf_ok h2 hal hlt hkT
    refine ⟨_, e, EInv.mk' (d := 0) hd (c, es') h1 hrep ?_ (by simp [nodes]) (hpost.leafChain h5) (hpost.dead_lt h5 h6) h7
      (hout hpost.ent)⟩
    by_cases hes : es' = []
    · exact Or.inr ⟨rfl, by simp [ents, hes]⟩
    · obtain ⟨l0, _, hok⟩ := hrep
      exact Or.inl ⟨hok.sorted, hes⟩
  | 1, (a, xs, z) =>
    have hs : Srt 0 (Ord 0) xs z := h3.resolve_right (by omega)
    obtain ⟨s', e, ho⟩ := eraseNode (X := []) (Y := []) h2 hs
      (by simpa using (show LeafChain s (fl (leafs 0) xs z) from h5)) (by rw [h7]; simp) hkT hc
    refine ⟨s', e, ?_⟩
    rcases ho with ⟨T', h⟩ | ⟨_, s1, c', rfl, g1, g2, g3⟩
    · exact hres h
    · refine EInv.mk' (d := 0) rfl c' rfl ?_ (Or.inl g2) (by simp [nodes]) ?_ (g3.dead_lt h5 h6) (by
        show s1.deadB = []
        rw [g3.deadB, h7]) (hout g3.ent)
      · obtain ⟨l, k1, k2⟩ := g1
        exact ⟨l, k1, k2⟩
      · obtain ⟨k1, k2, k3, k4⟩ := g3.leafChain h5
        exact ⟨k1, k2, k3, k4⟩
  | d + 2, T =>
    obtain ⟨s', T', e, h⟩ := eraseAux_gen (d + 1) s T (by omega) h2 (h3.resolve_right (by omega)) h4 (by rw [h7]; simp) [] []
      (by simpa using h5) hkT hc
    exact ⟨s', e, hres h⟩

/-- A calm erase of a stored key removes it and nothing else. -/
theorem EInv.erase {hy : Bool} {s : ETree K V N M} {m : K → Option V} (h : EInv s m) {key : K} {v : V}
    (hk : m key = some v) (hc : Calm hy key s.tree.depth s s.tree.root) :
    ∃ s', eerase hy s key = .ok (s', true) ∧ EInv s' (fun k => if k = key then none else m k) := by
  obtain ⟨T, h1, h2, h3, h4, h5, h6, h7, h8⟩ := h
  unfold eerase
  rw [← h1] at hc ⊢
  exact EInv.erase_aux rfl T h1 h2 h3 h4 h5 h6 h7 h8 hk hc

end Verif.WBTree
