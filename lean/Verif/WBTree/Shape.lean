import Verif.WBTree.Branch

/-!
# wBPTree.hpp and wHBPTree.hpp: trees of any shape

`VT d` are the values of trees with `d` levels of branch nodes; the first component of a node is its
address.  `Rep t d T` says that the heap `t` holds the tree `T`.
-/

namespace Verif.WBTree

variable {K V : Type} [LinearOrder K] {N M : Nat}

/-! ## Entries of a branch node with a hole -/

/-- The first child. -/
def first {α : Type} : List (Nat × K × α) → α → α
  | [], z => z
  | x :: _, _ => x.2.2

/-- The first child replaced by `c`. -/
def setF {α : Type} : List (Nat × K × α) → α → α → List (Nat × K × α) × α
  | [], _, c => ([], c)
  | x :: ys, z, c => ((x.1, x.2.1, c) :: ys, z)

/-- A list computed from all children. -/
def fl {α β : Type} (f : α → List β) (xs : List (Nat × K × α)) (z : α) : List β :=
  xs.flatMap (fun x => f x.2.2) ++ f z

/-- The same without the first child. -/
def tl {α β : Type} (f : α → List β) : List (Nat × K × α) → α → List β
  | [], _ => []
  | _ :: ys, z => fl f ys z

section lists

variable {α β γ : Type} (f : α → List β)

omit [LinearOrder K] in
theorem fl_first (ys : List (Nat × K × α)) (z : α) : fl f ys z = f (first ys z) ++ tl f ys z := by
  cases ys with
  | nil => simp [fl, first, tl]
  | cons x ys => simp [fl, first, tl]

omit [LinearOrder K] in
theorem fl_append (p ys : List (Nat × K × α)) (z : α) :
    fl f (p ++ ys) z = p.flatMap (fun x => f x.2.2) ++ fl f ys z := by
  simp [fl]

omit [LinearOrder K] in
theorem fl_cons (x : Nat × K × α) (ys : List (Nat × K × α)) (z : α) :
    fl f (x :: ys) z = f x.2.2 ++ fl f ys z := by
  simp [fl]

omit [LinearOrder K] in
theorem fl_setF (ys : List (Nat × K × α)) (z c : α) :
    fl f (setF ys z c).1 (setF ys z c).2 = f c ++ tl f ys z := by
  cases ys with
  | nil => simp [fl, setF, tl]
  | cons x ys => simp [fl, setF, tl]

omit [LinearOrder K] in
theorem tl_split (a b : List (Nat × K × α)) (e : Nat × K × α) (z : α) :
    tl f (a ++ e :: b) z = tl f a e.2.2 ++ fl f b z := by
  cases a with
  | nil => simp [tl]
  | cons x a => simp [tl, fl]

omit [LinearOrder K] in
theorem first_split (a b : List (Nat × K × α)) (e : Nat × K × α) (z : α) :
    first (a ++ e :: b) z = first a e.2.2 := by
  cases a <;> rfl

omit [LinearOrder K] in
theorem fl_snd {xs ys : List (Nat × K × α)} (h : xs.map (·.2) = ys.map (·.2)) (z : α) :
    fl f xs z = fl f ys z := by
  have : ∀ l : List (Nat × K × α), l.flatMap (fun x => f x.2.2) = (l.map (·.2)).flatMap (fun x => f x.2) := by
    intro l; rw [List.flatMap_map]
  unfold fl
  rw [this, this, h]

omit [LinearOrder K] in
theorem tl_snd {xs ys : List (Nat × K × α)} (h : xs.map (·.2) = ys.map (·.2)) (z : α) :
    tl f xs z = tl f ys z := by
  cases xs with
  | nil =>
    cases ys with
    | nil => rfl
    | cons y ys => simp at h
  | cons x xs =>
    cases ys with
    | nil => simp at h
    | cons y ys =>
      simp only [List.map_cons, List.cons.injEq] at h
      exact fl_snd f h.2 z

omit [LinearOrder K] in
theorem first_snd {xs ys : List (Nat × K × α)} (h : xs.map (·.2) = ys.map (·.2)) (z : α) :
    first xs z = first ys z := by
  cases xs with
  | nil =>
    cases ys with
    | nil => rfl
    | cons y ys => simp at h
  | cons x xs =>
    cases ys with
    | nil => simp at h
    | cons y ys =>
      simp only [List.map_cons, List.cons.injEq] at h
      exact congrArg Prod.snd h.1

/-- The entries as the branch node stores them. -/
def adr (g : α → γ) (xs : List (Nat × K × α)) : List (Nat × K × γ) :=
  xs.map (fun x => (x.1, x.2.1, g x.2.2))

variable (g : α → γ)

omit [LinearOrder K] in
theorem adr_append (xs ys : List (Nat × K × α)) : adr g (xs ++ ys) = adr g xs ++ adr g ys :=
  List.map_append

omit [LinearOrder K] in
theorem adr_length (xs : List (Nat × K × α)) : (adr g xs).length = xs.length := List.length_map ..

omit [LinearOrder K] in
theorem first_adr (xs : List (Nat × K × α)) (z : α) : first (adr g xs) (g z) = g (first xs z) := by
  cases xs <;> rfl

omit [LinearOrder K] in
theorem setF_adr (xs : List (Nat × K × α)) (z c : α) :
    setF (adr g xs) (g z) (g c) = (adr g (setF xs z c).1, g (setF xs z c).2) := by
  cases xs <;> rfl

omit [LinearOrder K] in
theorem setF_first (xs : List (Nat × K × α)) (z : α) : setF xs z (first xs z) = (xs, z) := by
  cases xs <;> rfl

omit [LinearOrder K] in
theorem setF_adr_eq {xs : List (Nat × K × α)} {z c : α} (h : g c = g (first xs z)) :
    adr g (setF xs z c).1 = adr g xs ∧ g (setF xs z c).2 = g z := by
  cases xs with
  | nil => exact ⟨rfl, h⟩
  | cons x xs =>
    refine ⟨?_, rfl⟩
    simp only [setF, adr, List.map_cons, first] at h ⊢
    rw [h]

end lists

theorem BrOK.child {b : Branch K N} {p ys : List (Nat × K × Nat)} {z : Nat} (h : BrOK b (p ++ ys) z) :
    b.child (p.length + 1) = .ok (first ys z) := by
  cases ys with
  | nil => rw [List.append_nil] at h; exact h.child_last
  | cons e ys => exact h.child_mid rfl

theorem BrOK.add {b : Branch K N} {p ys : List (Nat × K × Nat)} {z : Nat} (h : BrOK b (p ++ ys) z)
    (hlt : (p ++ ys).length < N) (sep : K) (l r : Nat) :
    ∃ b' u, b.add (p.length + 1) sep l r = .ok b' ∧
      BrOK b' (p ++ (u, sep, l) :: (setF ys z r).1) (setF ys z r).2 := by
  cases ys with
  | nil =>
    rw [List.append_nil] at h hlt
    exact h.add_last hlt sep l r
  | cons e ys => exact h.add_mid hlt sep l r

/-! ## Tree values -/

/-- Trees with `d` levels of branch nodes. -/
@[reducible] def VT (K V : Type) : Nat → Type
  | 0 => Nat × List (Nat × K × V)
  | d + 1 => Nat × List (Nat × K × VT K V d) × VT K V d

/-- The address of the root of the tree. -/
def adrOf : (d : Nat) → VT K V d → Nat
  | 0, T => T.1
  | _ + 1, T => T.1

/-- The addresses of the leaves from left to right. -/
def leafs : (d : Nat) → VT K V d → List Nat
  | 0, T => [T.1]
  | d + 1, T => fl (leafs d) T.2.1 T.2.2

/-- The addresses of the branch nodes. -/
def nodes : (d : Nat) → VT K V d → List Nat
  | 0, _ => []
  | d + 1, T => T.1 :: fl (nodes d) T.2.1 T.2.2

/-- Keys and values from left to right. -/
def ents : (d : Nat) → VT K V d → List (K × V)
  | 0, T => T.2.map (·.2)
  | d + 1, T => fl (ents d) T.2.1 T.2.2

/-- All keys and separators of the tree satisfy `P`. -/
def Within (P : K → Prop) : (d : Nat) → VT K V d → Prop
  | 0, T => ∀ e ∈ T.2, P e.2.1
  | d + 1, T => (∀ x ∈ T.2.1, P x.2.1 ∧ Within P d x.2.2) ∧ Within P d T.2.2

/-- The separators of a node are ordered, and the keys below each child are between its separators. -/
structure Srt (d : Nat) (O : VT K V d → Prop) (xs : List (Nat × K × VT K V d)) (z : VT K V d) : Prop where
  ord : ∀ x ∈ xs, O x.2.2
  lt : ∀ x ∈ xs, Within (· < x.2.1) d x.2.2
  pw : xs.Pairwise (fun x y => x.2.1 < y.2.1 ∧ Within (x.2.1 ≤ ·) d y.2.2)
  last : ∀ x ∈ xs, Within (x.2.1 ≤ ·) d z
  ordz : O z

/-- An ordered tree without empty leaves. -/
def Ord : (d : Nat) → VT K V d → Prop
  | 0, T => T.2.Pairwise (fun a b => a.2.1 < b.2.1) ∧ T.2 ≠ []
  | d + 1, T => Srt d (Ord d) T.2.1 T.2.2

/-- The heap holds the tree. -/
def Rep (t : Tree K V N M) : (d : Nat) → VT K V d → Prop
  | 0, T => ∃ l, t.leaves[T.1]? = some l ∧ LeafOK l T.2
  | d + 1, T => (∃ b, t.branches[T.1]? = some b ∧ BrOK b (adr (adrOf d) T.2.1) (adrOf d T.2.2)) ∧
      (∀ x ∈ T.2.1, Rep t d x.2.2) ∧ Rep t d T.2.2

theorem Within.mono {P Q : K → Prop} (h : ∀ k, P k → Q k) : ∀ (d : Nat) (T : VT K V d),
    Within P d T → Within Q d T := by
  intro d
  induction d with
  | zero => intro T hT e he; exact h _ (hT e he)
  | succ d ih => intro T hT; exact ⟨fun x hx => ⟨h _ (hT.1 x hx).1, ih _ (hT.1 x hx).2⟩, ih _ hT.2⟩

theorem Within.ents {P : K → Prop} : ∀ (d : Nat) (T : VT K V d), Within P d T →
    ∀ y ∈ ents d T, P y.1 := by
  intro d
  induction d with
  | zero =>
    intro T hT y hy
    obtain ⟨e, he, rfl⟩ := List.mem_map.1 hy
    exact hT e he
  | succ d ih =>
    intro T hT y hy
    rcases List.mem_append.1 hy with h1 | h1
    · obtain ⟨x, hx, hxy⟩ := List.mem_flatMap.1 h1
      exact ih _ (hT.1 x hx).2 y hxy
    · exact ih _ hT.2 y h1

theorem Rep.leaf_lt {t : Tree K V N M} : ∀ (d : Nat) (T : VT K V d), Rep t d T →
    ∀ j ∈ leafs d T, j < t.leaves.length := by
  intro d
  induction d with
  | zero =>
    intro T ⟨l, h, _⟩ j hj
    rw [leafs, List.mem_singleton] at hj
    subst hj
    exact (List.getElem?_eq_some_iff.1 h).1
  | succ d ih =>
    intro T hT j hj
    rcases List.mem_append.1 hj with h1 | h1
    · obtain ⟨x, hx, hxj⟩ := List.mem_flatMap.1 h1
      exact ih _ (hT.2.1 x hx) j hxj
    · exact ih _ hT.2.2 j h1

theorem Rep.node_lt {t : Tree K V N M} : ∀ (d : Nat) (T : VT K V d), Rep t d T →
    ∀ j ∈ nodes d T, j < t.branches.length := by
  intro d
  induction d with
  | zero => intro T _ j hj; simp [nodes] at hj
  | succ d ih =>
    intro T hT j hj
    rcases List.mem_cons.1 hj with rfl | hj
    · obtain ⟨b, h, _⟩ := hT.1
      exact (List.getElem?_eq_some_iff.1 h).1
    · rcases List.mem_append.1 hj with h1 | h1
      · obtain ⟨x, hx, hxj⟩ := List.mem_flatMap.1 h1
        exact ih _ (hT.2.1 x hx) j hxj
      · exact ih _ hT.2.2 j h1

/-- Nodes elsewhere in the heap do not matter. -/
theorem Rep.frame {t t' : Tree K V N M} : ∀ (d : Nat) (T : VT K V d), Rep t d T →
    (∀ j ∈ leafs d T, t'.leaves[j]? = t.leaves[j]?) →
    (∀ j ∈ nodes d T, t'.branches[j]? = t.branches[j]?) → Rep t' d T := by
  intro d
  induction d with
  | zero =>
    intro T ⟨l, h1, h2⟩ hl _
    exact ⟨l, by rw [hl _ (by simp [leafs]), h1], h2⟩
  | succ d ih =>
    intro T ⟨⟨b, h1, h2⟩, h3, h4⟩ hl hn
    refine ⟨⟨b, by rw [hn _ (by simp [nodes]), h1], h2⟩, fun x hx => ?_, ?_⟩
    · refine ih _ (h3 x hx) (fun j hj => hl j ?_) (fun j hj => hn j ?_)
      · exact List.mem_append_left _ (List.mem_flatMap.2 ⟨x, hx, hj⟩)
      · exact List.mem_cons_of_mem _ (List.mem_append_left _ (List.mem_flatMap.2 ⟨x, hx, hj⟩))
    · exact ih _ h4 (fun j hj => hl j (List.mem_append_right _ hj))
        (fun j hj => hn j (List.mem_cons_of_mem _ (List.mem_append_right _ hj)))

/-- The entries of an ordered tree are ordered. -/
theorem Ord.sorted : ∀ (d : Nat) (T : VT K V d), Ord d T → (ents d T).Pairwise (fun a b => a.1 < b.1) := by
  intro d
  induction d with
  | zero => intro T hT; exact List.pairwise_map.2 hT.1
  | succ d ih =>
    intro T hT
    obtain ⟨h1, h2, h3, h4, h5⟩ := hT
    rw [ents, fl, List.pairwise_append]
    refine ⟨?_, ih _ h5, ?_⟩
    · rw [List.flatMap, List.pairwise_flatten]
      refine ⟨?_, ?_⟩
      · intro l hl
        obtain ⟨x, hx, rfl⟩ := List.mem_map.1 hl
        exact ih _ (h1 x hx)
      · rw [List.pairwise_map]
        refine List.Pairwise.imp_of_mem ?_ h3
        intro x y hx hy hxy a ha b hb
        exact lt_of_lt_of_le ((h2 x hx).ents d _ a ha) (hxy.2.ents d _ b hb)
    · intro a ha b hb
      obtain ⟨x, hx, hxa⟩ := List.mem_flatMap.1 ha
      exact lt_of_lt_of_le ((h2 x hx).ents d _ a hxa) ((h4 x hx).ents d _ b hb)

theorem Ord.ne_nil : ∀ (d : Nat) (T : VT K V d), Ord d T → ents d T ≠ [] := by
  intro d
  induction d with
  | zero => intro T hT h; exact hT.2 (List.map_eq_nil_iff.1 h)
  | succ d ih =>
    intro T hT h
    rw [ents, fl, List.append_eq_nil_iff] at h
    exact ih _ hT.ordz h.2

/-! ## Changes of the children of one node -/

/-- All keys below the children and all separators satisfy `P`. -/
def WithinL (P : K → Prop) (d : Nat) (xs : List (Nat × K × VT K V d)) (z : VT K V d) : Prop :=
  (∀ x ∈ xs, P x.2.1 ∧ Within P d x.2.2) ∧ Within P d z

theorem WithinL.snd {P : K → Prop} {d : Nat} {xs ys : List (Nat × K × VT K V d)} {z : VT K V d}
    (he : xs.map (·.2) = ys.map (·.2)) (h : WithinL P d xs z) : WithinL P d ys z := by
  refine ⟨fun y hy => ?_, h.2⟩
  have : y.2 ∈ xs.map (·.2) := by rw [he]; exact List.mem_map_of_mem hy
  obtain ⟨x, hx, hxy⟩ := List.mem_map.1 this
  rw [← hxy]
  exact h.1 x hx

theorem Srt.snd {d : Nat} {O : VT K V d → Prop} {xs ys : List (Nat × K × VT K V d)} {z : VT K V d}
    (he : xs.map (·.2) = ys.map (·.2)) (h : Srt d O xs z) : Srt d O ys z := by
  have hm : ∀ y ∈ ys, ∃ x ∈ xs, x.2 = y.2 := by
    intro y hy
    have : y.2 ∈ xs.map (·.2) := by rw [he]; exact List.mem_map_of_mem hy
    obtain ⟨x, hx, hxy⟩ := List.mem_map.1 this
    exact ⟨x, hx, hxy⟩
  refine ⟨?_, ?_, ?_, ?_, h.ordz⟩
  · intro y hy
    obtain ⟨x, hx, hxy⟩ := hm y hy
    rw [← hxy]; exact h.ord x hx
  · intro y hy
    obtain ⟨x, hx, hxy⟩ := hm y hy
    rw [← hxy]; exact h.lt x hx
  · have h1 : (xs.map (·.2)).Pairwise (fun x y => x.1 < y.1 ∧ Within (x.1 ≤ ·) d y.2) :=
      List.pairwise_map.2 h.pw
    rw [he] at h1
    exact List.pairwise_map.1 h1
  · intro y hy
    obtain ⟨x, hx, hxy⟩ := hm y hy
    rw [← hxy]; exact h.last x hx

/-- A node is cut at one entry. -/
theorem Srt.cut {d : Nat} {O : VT K V d → Prop} {a b : List (Nat × K × VT K V d)}
    {e : Nat × K × VT K V d} {z : VT K V d} (h : Srt d O (a ++ e :: b) z) :
    Srt d O a e.2.2 ∧ Srt d O b z ∧ WithinL (· < e.2.1) d a e.2.2 ∧ WithinL (e.2.1 ≤ ·) d b z := by
  obtain ⟨h1, h2, h3, h4, h5⟩ := h
  rw [List.pairwise_append, List.pairwise_cons] at h3
  have ha : ∀ x ∈ a, x ∈ a ++ e :: b := fun x hx => List.mem_append_left _ hx
  have hb : ∀ x ∈ b, x ∈ a ++ e :: b := fun x hx => List.mem_append_right _ (List.mem_cons_of_mem _ hx)
  have he : e ∈ a ++ e :: b := by simp
  refine ⟨⟨fun x hx => h1 x (ha x hx), fun x hx => h2 x (ha x hx), h3.1, ?_, h1 e he⟩,
    ⟨fun x hx => h1 x (hb x hx), fun x hx => h2 x (hb x hx), h3.2.1.2, fun x hx => h4 x (hb x hx), h5⟩,
    ⟨?_, h2 e he⟩, ⟨?_, h4 e he⟩⟩
  · intro x hx; exact (h3.2.2 x hx e (by simp)).2
  · intro x hx
    have hlt := (h3.2.2 x hx e (by simp)).1
    exact ⟨hlt, Within.mono (fun k hk => lt_trans hk hlt) d _ (h2 x (ha x hx))⟩
  · intro x hx
    exact ⟨le_of_lt (h3.2.1.1 x hx).1, (h3.2.1.1 x hx).2⟩

/-- The parts of `Srt` around the first child of the second part. -/
theorem Srt.first {d : Nat} {O : VT K V d → Prop} {p ys : List (Nat × K × VT K V d)} {z : VT K V d}
    (h : Srt d O (p ++ ys) z) : O (first ys z) ∧ (∀ x ∈ p, Within (x.2.1 ≤ ·) d (WBTree.first ys z)) ∧
      (∀ y ∈ ys, Within (· < y.2.1) d (WBTree.first ys z)) := by
  cases ys with
  | nil =>
    refine ⟨h.ordz, fun x hx => h.last x (by simp [hx]), by simp⟩
  | cons e ys =>
    have hpw := h.pw
    rw [List.pairwise_append, List.pairwise_cons] at hpw
    refine ⟨h.ord e (by simp), fun x hx => (hpw.2.2 x hx e (by simp)).2, ?_⟩
    intro y hy
    rcases List.mem_cons.1 hy with rfl | hy
    · exact h.lt y (by simp)
    · exact Within.mono (fun k hk => lt_trans hk (hpw.2.1.1 y hy).1) d _ (h.lt e (by simp))

theorem WithinL.first {P : K → Prop} {d : Nat} {p ys : List (Nat × K × VT K V d)} {z : VT K V d}
    (h : WithinL P d (p ++ ys) z) : Within P d (first ys z) := by
  cases ys with
  | nil => exact h.2
  | cons e ys => exact (h.1 e (by simp)).2

/-- What replaces a child has the bounds the child has. -/
theorem WithinL.set {P : K → Prop} {d : Nat} {p ys : List (Nat × K × VT K V d)} {z c : VT K V d}
    (h : WithinL P d (p ++ ys) z) (hc : Within P d c) :
    WithinL P d (p ++ (setF ys z c).1) (setF ys z c).2 := by
  cases ys with
  | nil => exact ⟨h.1, hc⟩
  | cons e ys =>
    refine ⟨?_, h.2⟩
    intro x hx
    simp only [setF, List.mem_append, List.mem_cons] at hx
    rcases hx with hx | rfl | hx
    · exact h.1 x (by simp [hx])
    · exact ⟨(h.1 e (by simp)).1, hc⟩
    · exact h.1 x (by simp [hx])

theorem WithinL.ins {P : K → Prop} {d : Nat} {p ys : List (Nat × K × VT K V d)} {z c1 c2 : VT K V d}
    (h : WithinL P d (p ++ ys) z) {u : Nat} {sep : K} (hs : P sep) (h1 : Within P d c1) (h2 : Within P d c2) :
    WithinL P d (p ++ (u, sep, c1) :: (setF ys z c2).1) (setF ys z c2).2 := by
  have := h.set h2
  refine ⟨?_, this.2⟩
  intro x hx
  rw [List.mem_append, List.mem_cons] at hx
  rcases hx with hx | rfl | hx
  · exact this.1 x (by simp [hx])
  · exact ⟨hs, h1⟩
  · exact this.1 x (by simp [hx])

theorem Srt.set {d : Nat} {O : VT K V d → Prop} {p ys : List (Nat × K × VT K V d)} {z c : VT K V d}
    (h : Srt d O (p ++ ys) z) (ho : O c) (hlo : ∀ x ∈ p, Within (x.2.1 ≤ ·) d c)
    (hhi : ∀ y ∈ ys, Within (· < y.2.1) d c) : Srt d O (p ++ (setF ys z c).1) (setF ys z c).2 := by
  obtain ⟨h1, h2, h3, h4, h5⟩ := h
  cases ys with
  | nil =>
    simp only [setF, List.append_nil] at h1 h2 h3 h4 ⊢
    exact ⟨h1, h2, h3, hlo, ho⟩
  | cons e ys =>
    simp only [setF]
    rw [List.pairwise_append, List.pairwise_cons] at h3
    have hmem : ∀ x, x ∈ p ++ (e.1, e.2.1, c) :: ys → x = (e.1, e.2.1, c) ∨ x ∈ p ++ e :: ys := by
      intro x hx
      rw [List.mem_append, List.mem_cons] at hx
      rcases hx with hx | hx | hx
      · exact Or.inr (by simp [hx])
      · exact Or.inl hx
      · exact Or.inr (by simp [hx])
    refine ⟨?_, ?_, ?_, ?_, h5⟩
    · intro x hx
      rcases hmem x hx with rfl | hx
      · exact ho
      · exact h1 x hx
    · intro x hx
      rcases hmem x hx with rfl | hx
      · exact hhi e (by simp)
      · exact h2 x hx
    · rw [List.pairwise_append, List.pairwise_cons]
      refine ⟨h3.1, ⟨h3.2.1.1, h3.2.1.2⟩, ?_⟩
      intro x hx y hy
      rcases List.mem_cons.1 hy with rfl | hy
      · exact ⟨(h3.2.2 x hx e (by simp)).1, hlo x hx⟩
      · exact h3.2.2 x hx y (by simp [hy])
    · intro x hx
      rcases hmem x hx with rfl | hx
      · exact h4 e (by simp)
      · exact h4 x hx

theorem Srt.ins {d : Nat} {O : VT K V d → Prop} {p ys : List (Nat × K × VT K V d)} {z c1 c2 : VT K V d}
    (h : Srt d O (p ++ ys) z) (u : Nat) {sep : K} (ho1 : O c1) (ho2 : O c2)
    (hlo : ∀ x ∈ p, x.2.1 < sep ∧ Within (x.2.1 ≤ ·) d c1 ∧ Within (x.2.1 ≤ ·) d c2)
    (hhi : ∀ y ∈ ys, sep < y.2.1 ∧ Within (· < y.2.1) d c2)
    (h1 : Within (· < sep) d c1) (h2 : Within (sep ≤ ·) d c2) :
    Srt d O (p ++ (u, sep, c1) :: (setF ys z c2).1) (setF ys z c2).2 := by
  obtain ⟨g1, g2, g3, g4, g5⟩ := h.set ho2 (fun x hx => (hlo x hx).2.2) (fun y hy => (hhi y hy).2)
  rw [List.pairwise_append] at g3
  have hmem : ∀ x, x ∈ p ++ (u, sep, c1) :: (setF ys z c2).1 → x = (u, sep, c1) ∨
      x ∈ p ++ (setF ys z c2).1 := by
    intro x hx
    rw [List.mem_append, List.mem_cons] at hx
    rcases hx with hx | hx | hx
    · exact Or.inr (by simp [hx])
    · exact Or.inl hx
    · exact Or.inr (by simp [hx])
  have hsep : (∀ y ∈ (setF ys z c2).1, sep < y.2.1 ∧ Within (sep ≤ ·) d y.2.2) ∧
      Within (sep ≤ ·) d (setF ys z c2).2 := by
    cases ys with
    | nil => exact ⟨by simp [setF], h2⟩
    | cons e ys =>
      have hpw := h.pw
      rw [List.pairwise_append, List.pairwise_cons] at hpw
      have he := (hhi e (by simp)).1
      refine ⟨?_, Within.mono (fun k hk => le_of_lt (lt_of_lt_of_le he hk)) d _ (h.last e (by simp))⟩
      intro y hy
      simp only [setF] at hy
      rcases List.mem_cons.1 hy with rfl | hy
      · exact ⟨he, h2⟩
      · have := hpw.2.1.1 y hy
        exact ⟨lt_trans he this.1, Within.mono (fun k hk => le_of_lt (lt_of_lt_of_le he hk)) d _ this.2⟩
  refine ⟨?_, ?_, ?_, ?_, g5⟩
  · intro x hx
    rcases hmem x hx with rfl | hx
    · exact ho1
    · exact g1 x hx
  · intro x hx
    rcases hmem x hx with rfl | hx
    · exact h1
    · exact g2 x hx
  · rw [List.pairwise_append, List.pairwise_cons]
    refine ⟨g3.1, ⟨hsep.1, g3.2.1⟩, ?_⟩
    intro x hx y hy
    rcases List.mem_cons.1 hy with rfl | hy
    · exact ⟨(hlo x hx).1, (hlo x hx).2.1⟩
    · exact g3.2.2 x hx y hy
  · intro x hx
    rcases hmem x hx with rfl | hx
    · exact hsep.2
    · exact g4 x hx

end Verif.WBTree
