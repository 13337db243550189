import Verif.WBTree.BalanceNode
import Verif.WBTree.EraseInv

/-!
# wBPTree.hpp and wHBPTree.hpp: separators move between neighbouring branch nodes

A balance of branch nodes keeps the entries, the leaves and the order of the tree.
-/

namespace Verif.WBTree

variable {K V : Type} [LinearOrder K] {N M : Nat}

/-! ## The order -/

/-- The converse of `Srt.cut`. -/
theorem Srt.glue {d : Nat} {a b : List (Nat × K × VT K V d)} {i : Nat} {k : K} {e z : VT K V d}
    (h1 : Srt d (Ord d) a e) (h2 : Srt d (Ord d) b z) (w1 : WithinL (· < k) d a e) (w2 : WithinL (k ≤ ·) d b z) :
    Srt d (Ord d) (a ++ (i, k, e) :: b) z := by
  have hlt : ∀ x ∈ b, k < x.2.1 := by
    intro x hx
    obtain ⟨y, hy⟩ := List.exists_mem_of_ne_nil _ ((h2.ord x hx).ne_nil d _)
    exact lt_of_le_of_lt ((w2.1 x hx).2.ents d _ y hy) ((h2.lt x hx).ents d _ y hy)
  refine ⟨?_, ?_, ?_, ?_, h2.ordz⟩
  · intro x hx
    rcases List.mem_append.1 hx with hx | hx
    · exact h1.ord x hx
    · rcases List.mem_cons.1 hx with rfl | hx
      · exact h1.ordz
      · exact h2.ord x hx
  · intro x hx
    rcases List.mem_append.1 hx with hx | hx
    · exact h1.lt x hx
    · rcases List.mem_cons.1 hx with rfl | hx
      · exact w1.2
      · exact h2.lt x hx
  · rw [List.pairwise_append, List.pairwise_cons]
    refine ⟨h1.pw, ⟨fun y hy => ⟨hlt y hy, (w2.1 y hy).2⟩, h2.pw⟩, ?_⟩
    intro x hx y hy
    have hxk := (w1.1 x hx).1
    rcases List.mem_cons.1 hy with rfl | hy
    · exact ⟨hxk, h1.last x hx⟩
    · exact ⟨lt_trans hxk (hlt y hy), Within.mono (fun j hj => le_of_lt (lt_of_lt_of_le hxk hj)) d _ (w2.1 y hy).2⟩
  · intro x hx
    rcases List.mem_append.1 hx with hx | hx
    · exact Within.mono (fun j hj => le_of_lt (lt_of_lt_of_le (w1.1 x hx).1 hj)) d _ w2.2
    · rcases List.mem_cons.1 hx with rfl | hx
      · exact w2.2
      · exact h2.last x hx

theorem WithinL.glue {P : K → Prop} {d : Nat} {a b : List (Nat × K × VT K V d)} {i : Nat} {k : K} {e z : VT K V d}
    (h1 : WithinL P d a e) (h2 : WithinL P d b z) (hk : P k) : WithinL P d (a ++ (i, k, e) :: b) z := by
  refine ⟨?_, h2.2⟩
  intro x hx
  rcases List.mem_append.1 hx with hx | hx
  · exact h1.1 x hx
  · rcases List.mem_cons.1 hx with rfl | hx
    · exact ⟨hk, h1.2⟩
    · exact h2.1 x hx

theorem WithinL.parts {P : K → Prop} {d : Nat} {a b : List (Nat × K × VT K V d)} {e : Nat × K × VT K V d}
    {z : VT K V d} (h : WithinL P d (a ++ e :: b) z) : WithinL P d a e.2.2 ∧ WithinL P d b z ∧ P e.2.1 :=
  ⟨⟨fun x hx => h.1 x (by simp [hx]), (h.1 e (by simp)).2⟩, ⟨fun x hx => h.1 x (by simp [hx]), h.2⟩, (h.1 e (by simp)).1⟩

/-- Two neighbouring children and the separator between them change. -/
theorem pair_law {d i : Nat} {p ys : List (Nat × K × VT K V d)} {X X' Y' z : VT K V d} {pk fk : K}
    (h : Srt d (Ord d) (p ++ (i, pk, X) :: ys) z) (hX : Ord d X') (hY : Ord d Y')
    (w1 : Within (· < fk) d X') (w2 : Within (fk ≤ ·) d Y')
    (hP : ∀ P : K → Prop, P pk → Within P d X → Within P d (first ys z) → P fk ∧ Within P d X' ∧ Within P d Y') :
    Srt d (Ord d) (p ++ (i, fk, X') :: (setF ys z Y').1) (setF ys z Y').2 ∧
    ∀ P : K → Prop, WithinL P d (p ++ (i, pk, X) :: ys) z →
      WithinL P d (p ++ (i, fk, X') :: (setF ys z Y').1) (setF ys z Y').2 := by
  have hsub : (p ++ ys).Sublist (p ++ (i, pk, X) :: ys) := List.Sublist.append_left (List.sublist_cons_self _ _) _
  have h0 : Srt d (Ord d) (p ++ ys) z := ⟨fun x hx => h.ord x (hsub.subset hx), fun x hx => h.lt x (hsub.subset hx),
    h.pw.sublist hsub, fun x hx => h.last x (hsub.subset hx), h.ordz⟩
  have h1 := h.first (p := p) (ys := (i, pk, X) :: ys)
  have h2 := Srt.first (p := p ++ [(i, pk, X)]) (ys := ys) (z := z) (O := Ord d) (by simpa using h)
  have hpw := h.pw
  rw [List.pairwise_append, List.pairwise_cons] at hpw
  refine ⟨h0.ins i hX hY ?_ ?_ w1 w2, ?_⟩
  · intro x hx
    obtain ⟨g0, g1, g2⟩ := hP (x.2.1 ≤ ·) (le_of_lt (hpw.2.2 x hx (i, pk, X) (by simp)).1) (h1.2.1 x hx) (h2.2.1 x (by simp [hx]))
    obtain ⟨y, hy⟩ := List.exists_mem_of_ne_nil _ (hX.ne_nil d _)
    exact ⟨lt_of_le_of_lt (g1.ents d _ y hy) (w1.ents d _ y hy), g1, g2⟩
  · intro y hy
    obtain ⟨g0, _, g2⟩ := hP (· < y.2.1) (hpw.2.1.1 y hy).1 (h1.2.2 y (List.mem_cons_of_mem _ hy)) (h2.2.2 y hy)
    exact ⟨g0, g2⟩
  · intro P hPL
    have hP0 : WithinL P d (p ++ ys) z := ⟨fun x hx => hPL.1 x (hsub.subset hx), hPL.2⟩
    have he := hPL.1 (i, pk, X) (by simp)
    obtain ⟨g0, g1, g2⟩ := hP P he.1 he.2 hP0.first
    exact hP0.ins g0 g1 g2

/-- The separators behind `f` go to the right neighbour. -/
theorem shift_right {d aq ac u : Nat} {A B B' R : List (Nat × K × VT K V d)} {f : Nat × K × VT K V d}
    {dz rz : VT K V d} {pk : K} (hB : B'.map (·.2) = B.map (·.2))
    (hX : Ord (d + 1) ((aq, A ++ f :: B, dz) : VT K V (d + 1))) (hY : Ord (d + 1) ((ac, R, rz) : VT K V (d + 1)))
    (wX : Within (· < pk) (d + 1) ((aq, A ++ f :: B, dz) : VT K V (d + 1)))
    (wY : Within (pk ≤ ·) (d + 1) ((ac, R, rz) : VT K V (d + 1))) :
    let X' : VT K V (d + 1) := (aq, A, f.2.2)
    let Y' : VT K V (d + 1) := (ac, B' ++ (u, pk, dz) :: R, rz)
    Ord (d + 1) X' ∧ Ord (d + 1) Y' ∧ Within (· < f.2.1) (d + 1) X' ∧ Within (f.2.1 ≤ ·) (d + 1) Y' ∧
    ∀ P : K → Prop, P pk → Within P (d + 1) ((aq, A ++ f :: B, dz) : VT K V (d + 1)) →
      Within P (d + 1) ((ac, R, rz) : VT K V (d + 1)) → P f.2.1 ∧ Within P (d + 1) X' ∧ Within P (d + 1) Y' := by
  intro X' Y'
  have hX : Srt d (Ord d) (A ++ f :: B) dz := hX
  have hY : Srt d (Ord d) R rz := hY
  have wX : WithinL (· < pk) d (A ++ f :: B) dz := wX
  have wY : WithinL (pk ≤ ·) d R rz := wY
  obtain ⟨h1, h2, h3, h4⟩ := hX.cut
  obtain ⟨k1, k2, k3⟩ := wX.parts
  have hw : WithinL (f.2.1 ≤ ·) d R rz :=
    ⟨fun x hx => ⟨le_trans (le_of_lt k3) (wY.1 x hx).1, Within.mono (fun _ h => le_trans (le_of_lt k3) h) d _ (wY.1 x hx).2⟩,
      Within.mono (fun _ h => le_trans (le_of_lt k3) h) d _ wY.2⟩
  refine ⟨h1, Srt.glue (h2.snd hB.symm) hY (k2.snd hB.symm) wY, h3, WithinL.glue (h4.snd hB.symm) hw (le_of_lt k3), ?_⟩
  intro P hk hp hq
  have hp : WithinL P d (A ++ f :: B) dz := hp
  obtain ⟨g1, g2, g3⟩ := hp.parts
  exact ⟨g3, g1, WithinL.glue (g2.snd hB.symm) hq hk⟩

/-- The separators before `f` go to the left neighbour. -/
theorem shift_left {d ad ac u : Nat} {A A' B R : List (Nat × K × VT K V d)} {f : Nat × K × VT K V d}
    {dz rz : VT K V d} {pk : K} (hA : A'.map (·.2) = A.map (·.2))
    (hX : Ord (d + 1) ((ac, R, rz) : VT K V (d + 1))) (hY : Ord (d + 1) ((ad, A ++ f :: B, dz) : VT K V (d + 1)))
    (wX : Within (· < pk) (d + 1) ((ac, R, rz) : VT K V (d + 1)))
    (wY : Within (pk ≤ ·) (d + 1) ((ad, A ++ f :: B, dz) : VT K V (d + 1))) :
    let X' : VT K V (d + 1) := (ac, R ++ (u, pk, rz) :: A', f.2.2)
    let Y' : VT K V (d + 1) := (ad, B, dz)
    Ord (d + 1) X' ∧ Ord (d + 1) Y' ∧ Within (· < f.2.1) (d + 1) X' ∧ Within (f.2.1 ≤ ·) (d + 1) Y' ∧
    ∀ P : K → Prop, P pk → Within P (d + 1) ((ac, R, rz) : VT K V (d + 1)) →
      Within P (d + 1) ((ad, A ++ f :: B, dz) : VT K V (d + 1)) →
      P f.2.1 ∧ Within P (d + 1) X' ∧ Within P (d + 1) Y' := by
  intro X' Y'
  have hX : Srt d (Ord d) R rz := hX
  have hY : Srt d (Ord d) (A ++ f :: B) dz := hY
  have wX : WithinL (· < pk) d R rz := wX
  have wY : WithinL (pk ≤ ·) d (A ++ f :: B) dz := wY
  obtain ⟨h1, h2, h3, h4⟩ := hY.cut
  obtain ⟨k1, k2, k3⟩ := wY.parts
  have hpf : pk < f.2.1 := by
    have ho := hY.ord f (by simp)
    obtain ⟨y, hy⟩ := List.exists_mem_of_ne_nil _ (ho.ne_nil d _)
    exact lt_of_le_of_lt (k1.2.ents d _ y hy) ((hY.lt f (by simp)).ents d _ y hy)
  have hw : WithinL (· < f.2.1) d R rz :=
    ⟨fun x hx => ⟨lt_trans (wX.1 x hx).1 hpf, Within.mono (fun _ h => lt_trans h hpf) d _ (wX.1 x hx).2⟩,
      Within.mono (fun _ h => lt_trans h hpf) d _ wX.2⟩
  refine ⟨Srt.glue hX (h1.snd hA.symm) wX (k1.snd hA.symm), h2, WithinL.glue hw (h3.snd hA.symm) hpf, h4, ?_⟩
  intro P hk hp hq
  have hq : WithinL P d (A ++ f :: B) dz := hq
  obtain ⟨g1, g2, g3⟩ := hq.parts
  exact ⟨g3, WithinL.glue hp (g1.snd hA.symm) hk, g2⟩

/-! ## The heap -/

/-- The branch nodes of the subtree `T` are changed so that it becomes `T'`, which has the same leaves and entries. -/
structure Rearr (s s' : ETree K V N M) (d : Nat) (T T' : VT K V d) : Prop where
  adrE : adrOf d T' = adrOf d T
  rep : Rep s'.tree d T'
  ord : Ord d T'
  within : ∀ P : K → Prop, Within P d T → Within P d T'
  leafsE : leafs d T' = leafs d T
  entsE : ents d T' = ents d T
  nodesP : (nodes d T').Perm (nodes d T)
  bsame : ∀ j, j ∉ nodes d T → s'.tree.branches[j]? = s.tree.branches[j]?
  same : ∃ bs, bs.length = s.tree.branches.length ∧ s' = { s with tree := { s.tree with branches := bs } }

theorem Rearr.up {s s' : ETree K V N M} {d a : Nat} {p ys : List (Nat × K × VT K V d)}
    {z c' : VT K V d} (hT : Rep s.tree (d + 1) ((a, p ++ ys, z) : VT K V (d + 1)))
    (hs : Srt d (Ord d) (p ++ ys) z) (hl : (fl (leafs d) (p ++ ys) z).Nodup)
    (hn : (a :: fl (nodes d) (p ++ ys) z).Nodup) (h : Rearr s s' d (first ys z) c') :
    Rearr s s' (d + 1) ((a, p ++ ys, z) : VT K V (d + 1)) (a, p ++ (setF ys z c').1, (setF ys z c').2) := by
  obtain ⟨⟨b, hba, hb⟩, hrx, hrz⟩ := hT
  simp only [] at hba hb hrx hrz
  obtain ⟨han, hn'⟩ := List.nodup_cons.1 hn
  have hleaves : s'.tree.leaves = s.tree.leaves := by
    obtain ⟨bs, _, rfl⟩ := h.same
    rfl
  have hrep := others_rep (t' := s'.tree) hrx hrz hl hn' (fun j _ _ => by rw [hleaves]) (fun j _ => h.bsame j)
  have hset := setF_adr_eq (adrOf d) h.adrE
  have hnode : s'.tree.branches[a]? = s.tree.branches[a]? := by
    apply h.bsame a
    intro hh
    apply han
    rw [fl_append, fl_first]
    simp [hh]
  obtain ⟨_, hlo, hhi⟩ := hs.first
  refine ⟨rfl, ⟨⟨b, by rw [← hba]; exact hnode, ?_⟩, ?_, (hrep.2 c' h.rep).2⟩,
    hs.set h.ord (fun x hx => h.within _ (hlo x hx)) (fun y hy => h.within _ (hhi y hy)),
    fun P hw => WithinL.set (c := c') hw (h.within P (WithinL.first hw)), ?_, ?_, ?_, ?_, h.same⟩
  · show BrOK b (adr (adrOf d) (p ++ (setF ys z c').1)) (adrOf d (setF ys z c').2)
    rw [adr_append, hset.1, hset.2, ← adr_append]
    exact hb
  · intro x hx
    rcases List.mem_append.1 hx with hx | hx
    · exact hrep.1 x hx
    · exact (hrep.2 c' h.rep).1 x hx
  · show fl (leafs d) (p ++ (setF ys z c').1) (setF ys z c').2 = fl (leafs d) (p ++ ys) z
    rw [fl_mid_set, fl_mid, h.leafsE]
  · show fl (ents d) (p ++ (setF ys z c').1) (setF ys z c').2 = fl (ents d) (p ++ ys) z
    rw [fl_mid_set, fl_mid, h.entsE]
  · show (a :: fl (nodes d) (p ++ (setF ys z c').1) (setF ys z c').2).Perm (a :: fl (nodes d) (p ++ ys) z)
    rw [fl_mid_set, fl_mid]
    exact ((h.nodesP.append_left _).append_right _).cons a
  · intro j hj
    apply h.bsame j
    intro hh
    apply hj
    show j ∈ a :: fl (nodes d) (p ++ ys) z
    rw [fl_mid]
    simp [hh]

omit [LinearOrder K] in
theorem fl_pair {α β : Type} (f : α → List β) (p ys : List (Nat × K × α)) (i : Nat) (k : K) (X z : α) :
    fl f (p ++ (i, k, X) :: ys) z = p.flatMap (fun x => f x.2.2) ++ (f X ++ f (first ys z)) ++ tl f ys z := by
  rw [fl_append, fl_cons, fl_first]
  simp only [List.append_assoc]

omit [LinearOrder K] in
theorem fl_pair_set {α β : Type} (f : α → List β) (p ys : List (Nat × K × α)) (i : Nat) (k : K) (X Y z : α) :
    fl f (p ++ (i, k, X) :: (setF ys z Y).1) (setF ys z Y).2 =
      p.flatMap (fun x => f x.2.2) ++ (f X ++ f Y) ++ tl f ys z := by
  rw [fl_pair, first_setF, tl_setF]

/-- Two neighbouring children of a branch node and the separator between them change. -/
theorem pair_rearr {s : ETree K V N M} {d a i : Nat} {p ys : List (Nat × K × VT K V (d + 1))}
    {X X' Y' z : VT K V (d + 1)} {pk fk : K} {b bx by' : Branch K N} {bs : List (Branch K N)}
    (hT : Rep s.tree (d + 2) ((a, p ++ (i, pk, X) :: ys, z) : VT K V (d + 2)))
    (hn : (nodes (d + 2) ((a, p ++ (i, pk, X) :: ys, z) : VT K V (d + 2))).Nodup)
    (hba : s.tree.branches[a]? = some b) (hX : X'.1 = X.1) (hY : Y'.1 = (first ys z).1)
    (hbx : BrOK bx (adr (adrOf d) X'.2.1) (adrOf d X'.2.2)) (hby : BrOK by' (adr (adrOf d) Y'.2.1) (adrOf d Y'.2.2))
    (hrX : RepL s.tree d X'.2.1 X'.2.2) (hrY : RepL s.tree d Y'.2.1 Y'.2.2)
    (hl : leafs (d + 1) X' ++ leafs (d + 1) Y' = leafs (d + 1) X ++ leafs (d + 1) (first ys z))
    (he : ents (d + 1) X' ++ ents (d + 1) Y' = ents (d + 1) X ++ ents (d + 1) (first ys z))
    (hp : (nodes (d + 1) X' ++ nodes (d + 1) Y').Perm (nodes (d + 1) X ++ nodes (d + 1) (first ys z)))
    (ho : Srt (d + 1) (Ord (d + 1)) (p ++ (i, fk, X') :: (setF ys z Y').1) (setF ys z Y').2)
    (hw : ∀ P : K → Prop, WithinL P (d + 1) (p ++ (i, pk, X) :: ys) z →
      WithinL P (d + 1) (p ++ (i, fk, X') :: (setF ys z Y').1) (setF ys z Y').2)
    (hbl : bs.length = s.tree.branches.length) (h1 : bs[X.1]? = some bx) (h2 : bs[(first ys z).1]? = some by')
    (h3 : bs[a]? = some { b with keys := fun j => if j = i then some fk else b.keys j })
    (h4 : ∀ j, j ≠ a → j ≠ X.1 → j ≠ (first ys z).1 → bs[j]? = s.tree.branches[j]?) :
    Rearr s { s with tree := { s.tree with branches := bs } } (d + 2) ((a, p ++ (i, pk, X) :: ys, z) : VT K V (d + 2))
      (a, p ++ (i, fk, X') :: (setF ys z Y').1, (setF ys z Y').2) := by
  obtain ⟨⟨b0, hba0, hb⟩, hrx, hrz⟩ := hT
  simp only [] at hba0 hb hrx hrz
  rw [hba] at hba0
  obtain rfl := Option.some.inj hba0
  have hn0 : (a :: (p.flatMap (fun x => nodes (d + 1) x.2.2) ++ (nodes (d + 1) X ++ nodes (d + 1) (first ys z)) ++
      tl (nodes (d + 1)) ys z)).Nodup := by
    rw [← fl_pair (i := i) (k := pk)]
    exact hn
  have hnp : (a :: (p.flatMap (fun x => nodes (d + 1) x.2.2) ++ (nodes (d + 1) X' ++ nodes (d + 1) Y') ++
      tl (nodes (d + 1)) ys z)).Perm (a :: (p.flatMap (fun x => nodes (d + 1) x.2.2) ++
        (nodes (d + 1) X ++ nodes (d + 1) (first ys z)) ++ tl (nodes (d + 1)) ys z)) :=
    ((hp.append_left _).append_right _).cons a
  have hn1 := hnp.nodup_iff.2 hn0
  have eX : nodes (d + 1) X' = X.1 :: fl (nodes d) X'.2.1 X'.2.2 := by rw [← hX]; rfl
  have eY : nodes (d + 1) Y' = (first ys z).1 :: fl (nodes d) Y'.2.1 Y'.2.2 := by rw [← hY]; rfl
  have hXm : X.1 ∈ nodes (d + 1) X' := by rw [eX]; simp
  have hYm : (first ys z).1 ∈ nodes (d + 1) Y' := by rw [eY]; simp
  obtain ⟨han, hn2⟩ := List.nodup_cons.1 hn1
  obtain ⟨hn3, hn4, hn5⟩ := List.nodup_append.1 hn2
  obtain ⟨hn6, hn7, hn8⟩ := List.nodup_append.1 hn3
  obtain ⟨hn9, hn10, hn11⟩ := List.nodup_append.1 hn7
  have hframe : ∀ {e : Nat} (c : VT K V e), Rep s.tree e c → (∀ j ∈ nodes e c, j ≠ a ∧ j ≠ X.1 ∧ j ≠ (first ys z).1) →
      Rep { s.tree with branches := bs } e c := by
    intro e c hc hj
    exact hc.frame e c (fun j _ => rfl) (fun j hjm => h4 j (hj j hjm).1 (hj j hjm).2.1 (hj j hjm).2.2)
  have hanX : a ∉ nodes (d + 1) X' := fun hh => han (List.mem_append_left _ (List.mem_append_right _ (List.mem_append_left _ hh)))
  have hanY : a ∉ nodes (d + 1) Y' := fun hh => han (List.mem_append_left _ (List.mem_append_right _ (List.mem_append_right _ hh)))
  have hXin : ∀ j ∈ fl (nodes d) X'.2.1 X'.2.2, j ≠ a ∧ j ≠ X.1 ∧ j ≠ (first ys z).1 := by
    intro j hj
    have hj' : j ∈ nodes (d + 1) X' := by rw [eX]; exact List.mem_cons_of_mem _ hj
    refine ⟨?_, ?_, fun hh => hn11 j hj' _ hYm hh⟩
    · rintro rfl; exact hanX hj'
    · rintro rfl
      rw [eX] at hn9
      exact (List.nodup_cons.1 hn9).1 hj
  have hYin : ∀ j ∈ fl (nodes d) Y'.2.1 Y'.2.2, j ≠ a ∧ j ≠ X.1 ∧ j ≠ (first ys z).1 := by
    intro j hj
    have hj' : j ∈ nodes (d + 1) Y' := by rw [eY]; exact List.mem_cons_of_mem _ hj
    refine ⟨?_, fun hh => hn11 _ hXm j hj' hh.symm, ?_⟩
    · rintro rfl; exact hanY hj'
    · rintro rfl
      rw [eY] at hn10
      exact (List.nodup_cons.1 hn10).1 hj
  have hXmid : X.1 ∈ nodes (d + 1) X' ++ nodes (d + 1) Y' := List.mem_append_left _ hXm
  have hYmid : (first ys z).1 ∈ nodes (d + 1) X' ++ nodes (d + 1) Y' := List.mem_append_right _ hYm
  have hpin : ∀ x ∈ p, ∀ j ∈ nodes (d + 1) x.2.2, j ≠ a ∧ j ≠ X.1 ∧ j ≠ (first ys z).1 := by
    intro x hx j hj
    have hj' : j ∈ p.flatMap (fun x => nodes (d + 1) x.2.2) := List.mem_flatMap.2 ⟨x, hx, hj⟩
    refine ⟨?_, fun hh => hn8 j hj' _ hXmid hh, fun hh => hn8 j hj' _ hYmid hh⟩
    rintro rfl
    exact han (List.mem_append_left _ (List.mem_append_left _ hj'))
  have htin : ∀ j ∈ tl (nodes (d + 1)) ys z, j ≠ a ∧ j ≠ X.1 ∧ j ≠ (first ys z).1 := by
    intro j hj
    refine ⟨?_, fun hh => hn5 _ (List.mem_append_right _ hXmid) j hj hh.symm,
      fun hh => hn5 _ (List.mem_append_right _ hYmid) j hj hh.symm⟩
    rintro rfl
    exact han (List.mem_append_right _ hj)
  have hkid : ∀ {T : VT K V (d + 1)} {c : Branch K N}, bs[T.1]? = some c → BrOK c (adr (adrOf d) T.2.1) (adrOf d T.2.2) →
      RepL s.tree d T.2.1 T.2.2 → (∀ j ∈ fl (nodes d) T.2.1 T.2.2, j ≠ a ∧ j ≠ X.1 ∧ j ≠ (first ys z).1) →
      Rep { s.tree with branches := bs } (d + 1) T := by
    intro T c e hc hr hj
    exact ⟨⟨c, e, hc⟩, fun x hx => hframe _ (hr.1 x hx) (fun j hjm => hj j (List.mem_append_left _ (List.mem_flatMap.2 ⟨x, hx, hjm⟩))),
      hframe _ hr.2 (fun j hjm => hj j (List.mem_append_right _ hjm))⟩
  have hRX : Rep { s.tree with branches := bs } (d + 1) X' := hkid (by rw [hX]; exact h1) hbx hrX hXin
  have hRY : Rep { s.tree with branches := bs } (d + 1) Y' := hkid (by rw [hY]; exact h2) hby hrY hYin
  have hRq : (∀ y ∈ (setF ys z Y').1, Rep { s.tree with branches := bs } (d + 1) y.2.2) ∧
      Rep { s.tree with branches := bs } (d + 1) (setF ys z Y').2 := by
    cases ys with
    | nil => exact ⟨by simp [setF], hRY⟩
    | cons e ys =>
      refine ⟨?_, hframe _ hrz (fun j hj => htin j (List.mem_append_right _ hj))⟩
      intro y hy
      simp only [setF] at hy
      rcases List.mem_cons.1 hy with rfl | hy
      · exact hRY
      · exact hframe _ (hrx y (by simp [hy])) (fun j hj => htin j (List.mem_append_left _ (List.mem_flatMap.2 ⟨y, hy, hj⟩)))
  obtain ⟨r1, r2⟩ := RepL.ins (c1 := X') (u := i) (sep := fk) (p := p)
    (fun x hx => hframe _ (hrx x (by simp [hx])) (hpin x hx)) hRq hRX
  refine ⟨rfl, ⟨⟨_, h3, ?_⟩, r1, r2⟩, ho, hw, ?_, ?_, ?_, ?_, ⟨bs, hbl, rfl⟩⟩
  · -- the node itself
    show BrOK _ (adr (adrOf (d + 1)) (p ++ (i, fk, X') :: (setF ys z Y').1)) (adrOf (d + 1) (setF ys z Y').2)
    have hset := setF_adr_eq (adrOf (d + 1)) (xs := ys) (z := z) (c := Y') hY
    have e1 : adr (adrOf (d + 1)) (p ++ (i, fk, X') :: (setF ys z Y').1) =
        adr (adrOf (d + 1)) p ++ (i, fk, X.1) :: adr (adrOf (d + 1)) ys := by
      rw [adr_append, ← hset.1, ← hX]
      rfl
    have e2 : adr (adrOf (d + 1)) (p ++ (i, pk, X) :: ys) =
        adr (adrOf (d + 1)) p ++ (i, pk, X.1) :: adr (adrOf (d + 1)) ys := by
      rw [adr_append]
      rfl
    rw [e1, hset.2]
    rw [e2] at hb
    generalize adr (adrOf (d + 1)) p = P at hb
    generalize adr (adrOf (d + 1)) ys = Q at hb
    have hnd := hb.nodup
    rw [List.map_append, List.map_cons, List.nodup_append, List.nodup_cons] at hnd
    refine ⟨?_, ?_, ?_, ?_, hb.last, ?_⟩
    · simpa using hb.slots
    · intro e he
      show _ ∧ (if e.1 = i then some fk else b.keys e.1) = _ ∧ _
      rcases List.mem_append.1 he with he | he
      · have hne : e.1 ≠ i := hnd.2.2 e.1 (List.mem_map_of_mem he) i (by simp)
        rw [if_neg hne]
        exact hb.ent e (by simp [he])
      · rcases List.mem_cons.1 he with rfl | he
        · have := hb.ent (i, pk, X.1) (by simp)
          exact ⟨this.1, by simp, this.2.2⟩
        · have hne : e.1 ≠ i := by
            intro hh
            refine hnd.2.1.1 ?_
            show i ∈ _
            rw [← hh]
            exact List.mem_map_of_mem he
          rw [if_neg hne]
          exact hb.ent e (by simp [he])
    · simpa using hb.nodup
    · simpa using hb.bits
    · simpa using hb.le
  · show fl (leafs (d + 1)) (p ++ (i, fk, X') :: (setF ys z Y').1) (setF ys z Y').2 =
      fl (leafs (d + 1)) (p ++ (i, pk, X) :: ys) z
    rw [fl_pair_set, fl_pair, hl]
  · show fl (ents (d + 1)) (p ++ (i, fk, X') :: (setF ys z Y').1) (setF ys z Y').2 =
      fl (ents (d + 1)) (p ++ (i, pk, X) :: ys) z
    rw [fl_pair_set, fl_pair, he]
  · show (a :: fl (nodes (d + 1)) (p ++ (i, fk, X') :: (setF ys z Y').1) (setF ys z Y').2).Perm
      (a :: fl (nodes (d + 1)) (p ++ (i, pk, X) :: ys) z)
    rw [fl_pair_set, fl_pair]
    exact hnp
  · intro j hj
    replace hj : j ∉ a :: fl (nodes (d + 1)) (p ++ (i, pk, X) :: ys) z := hj
    rw [fl_pair] at hj
    have hj2 := fun hh => hj (hnp.mem_iff.1 hh)
    refine h4 j (fun hh => hj2 (by simp [hh])) (fun hh => hj2 ?_) (fun hh => hj2 ?_)
    · rw [hh]
      exact List.mem_cons_of_mem _ (List.mem_append_left _ (List.mem_append_right _ hXmid))
    · rw [hh]
      exact List.mem_cons_of_mem _ (List.mem_append_left _ (List.mem_append_right _ hYmid))

/-! ## The balance -/

omit [LinearOrder K] in
theorem adr_lift {α γ : Type} {g : α → γ} : ∀ {xs : List (Nat × K × α)} {ys : List (Nat × K × γ)},
    ys.map (·.2) = (adr g xs).map (·.2) → ∃ zs, adr g zs = ys ∧ zs.map (·.2) = xs.map (·.2) := by
  intro xs
  induction xs with
  | nil =>
    intro ys h
    have h0 : ys = [] := List.map_eq_nil_iff.1 h
    subst h0
    exact ⟨[], rfl, rfl⟩
  | cons x xs ih =>
    intro ys h
    cases ys with
    | nil => simp [adr] at h
    | cons y ys =>
      simp only [adr, List.map_cons, List.cons.injEq] at h
      obtain ⟨zs, h1, h2⟩ := ih (ys := ys) h.2
      refine ⟨(y.1, x.2) :: zs, ?_, by simp [h2]⟩
      show (y.1, x.2.1, g x.2.2) :: adr g zs = y :: ys
      rw [h1]
      rw [show y = (y.1, y.2) from rfl, h.1]

/-- `s` is `s2` except that the bitmap of the branch node `q` has the free position `u` marked as used. -/
def Leak (s2 s : ETree K V N M) (q u : Nat) : Prop :=
  ∃ (b : Branch K N) (X : Bitmap N), s2.tree.branches[q]? = some b ∧ u < N ∧ Bitmap.bit b.bits u = false ∧
    (∀ p < N, Bitmap.bit X p = if p = u then true else Bitmap.bit b.bits p) ∧ s = s2.setBranch q { b with bits := X }

omit [LinearOrder K] in
theorem BrLeak.leak {c : Branch K N} {xs : List (Nat × K × Nat)} {z u : Nat} (h : BrLeak c xs z u) :
    ∃ X : Bitmap N, BrOK ({ c with bits := X } : Branch K N) xs z ∧ u < N ∧ Bitmap.bit X u = false ∧
      ∀ p < N, Bitmap.bit c.bits p = if p = u then true else Bitmap.bit X p := by
  obtain ⟨⟨X, hX⟩, hu, hux, hb⟩ := h
  have hXu : Bitmap.bit X u = false := by
    have := hX.bits u hu
    rw [← Bool.not_eq_true]
    exact fun hh => hux (this.1 hh)
  refine ⟨X, hX, hu, hXu, ?_⟩
  intro p hp
  have h1 := hX.bits p hp
  have h2 := hb p hp
  by_cases hpu : p = u
  · rw [if_pos hpu]
    exact h2.2 (Or.inr hpu)
  · rw [if_neg hpu]
    rw [Bool.eq_iff_iff, h2]
    simp only [hpu, or_false]
    exact h1.symm

omit [LinearOrder K] in
theorem nodes_ne {d a i : Nat} {p ys : List (Nat × K × VT K V (d + 1))} {X z : VT K V (d + 1)} {pk : K}
    (hn : (nodes (d + 2) ((a, p ++ (i, pk, X) :: ys, z) : VT K V (d + 2))).Nodup) :
    a ≠ X.1 ∧ a ≠ (first ys z).1 ∧ X.1 ≠ (first ys z).1 ∧
    X.1 ∈ nodes (d + 2) ((a, p ++ (i, pk, X) :: ys, z) : VT K V (d + 2)) ∧
    (first ys z).1 ∈ nodes (d + 2) ((a, p ++ (i, pk, X) :: ys, z) : VT K V (d + 2)) := by
  have hn0 : (a :: (p.flatMap (fun x => nodes (d + 1) x.2.2) ++ (nodes (d + 1) X ++ nodes (d + 1) (first ys z)) ++
      tl (nodes (d + 1)) ys z)).Nodup := by
    rw [← fl_pair (i := i) (k := pk)]
    exact hn
  have e : nodes (d + 2) ((a, p ++ (i, pk, X) :: ys, z) : VT K V (d + 2)) =
      a :: (p.flatMap (fun x => nodes (d + 1) x.2.2) ++ (nodes (d + 1) X ++ nodes (d + 1) (first ys z)) ++
      tl (nodes (d + 1)) ys z) := by
    rw [← fl_pair (i := i) (k := pk)]
    rfl
  rw [e]
  have hX : X.1 ∈ nodes (d + 1) X := by simp [nodes]
  have hY : (first ys z).1 ∈ nodes (d + 1) (first ys z) := by simp [nodes]
  obtain ⟨han, hn2⟩ := List.nodup_cons.1 hn0
  obtain ⟨hn3, hn4, hn5⟩ := List.nodup_append.1 hn2
  obtain ⟨hn6, hn7, hn8⟩ := List.nodup_append.1 hn3
  obtain ⟨hn9, hn10, hn11⟩ := List.nodup_append.1 hn7
  refine ⟨?_, ?_, hn11 _ hX _ hY, ?_, ?_⟩
  · intro hh
    exact han (hh ▸ List.mem_append_left _ (List.mem_append_right _ (List.mem_append_left _ hX)))
  · intro hh
    exact han (hh ▸ List.mem_append_left _ (List.mem_append_right _ (List.mem_append_right _ hY)))
  · exact List.mem_cons_of_mem _ (List.mem_append_left _ (List.mem_append_right _ (List.mem_append_left _ hX)))
  · exact List.mem_cons_of_mem _ (List.mem_append_left _ (List.mem_append_right _ (List.mem_append_right _ hY)))

/-- The separator before a child is in the slot before it. -/
theorem BrOK.sep {b : Branch K N} {d i : Nat} {p ys : List (Nat × K × VT K V d)} {X z : VT K V d} {pk : K}
    (hb : BrOK b (adr (adrOf d) (p ++ (i, pk, X) :: ys)) (adrOf d z)) :
    b.slot.rd (N + 1) (p.length + 1) = .ok i ∧ b.keys.rd N i = .ok pk ∧ b.kids.rd (N + 1) i = .ok (adrOf d X) := by
  rw [adr_append] at hb
  have hb' : BrOK b (adr (adrOf d) p ++ (i, pk, adrOf d X) :: adr (adrOf d) ys) (adrOf d z) := hb
  have h1 := hb'.rd_at
  rw [adr_length] at h1
  exact ⟨h1, hb'.key (e := (i, pk, adrOf d X)) (by simp), hb'.kid (e := (i, pk, adrOf d X)) (by simp)⟩

/-- The child behind a separator takes separators from the child before it. -/
theorem balance_left {s : ETree K V N M} {d a i : Nat} {p ys : List (Nat × K × VT K V (d + 1))}
    {X z : VT K V (d + 1)} {pk : K} {b : Branch K N}
    (hT : Rep s.tree (d + 2) ((a, p ++ (i, pk, X) :: ys, z) : VT K V (d + 2)))
    (hs : Srt (d + 1) (Ord (d + 1)) (p ++ (i, pk, X) :: ys) z)
    (hn : (nodes (d + 2) ((a, p ++ (i, pk, X) :: ys, z) : VT K V (d + 2))).Nodup)
    (hB : ∀ j ∈ nodes (d + 2) ((a, p ++ (i, pk, X) :: ys, z) : VT K V (d + 2)), j ∉ s.deadB)
    (hba : s.tree.branches[a]? = some b) (hne : (first ys z).2.1 ≠ [])
    (hlt : (first ys z).2.1.length < X.2.1.length) :
    ∃ s' s2 T' u fk, underflowBranch.balanceWith s a b X.1 (first ys z).1 (p.length + 1) = .ok (s', (first ys z).1) ∧
      Rearr s s2 (d + 2) ((a, p ++ (i, pk, X) :: ys, z) : VT K V (d + 2)) T' ∧ Leak s2 s' X.1 u ∧
      s'.tree.branches[a]? = some { b with keys := fun j => if j = i then some fk else b.keys j } := by
  obtain ⟨n1, n2, n3, n4, n5⟩ := nodes_ne hn
  have hT0 := hT
  obtain ⟨⟨b0, hba0, hb⟩, hrx, hrz⟩ := hT0
  simp only [] at hba0 hb hrx hrz
  rw [hba] at hba0
  obtain rfl := Option.some.inj hba0
  have hfirst := Srt.first (p := p ++ [(i, pk, X)]) (ys := ys) (z := z) (O := Ord (d + 1)) (by simpa using hs)
  have hrX : Rep s.tree (d + 1) X := hrx (i, pk, X) (by simp)
  have hrY : Rep s.tree (d + 1) (first ys z) := first_rep (p := p ++ [(i, pk, X)]) (by simpa using hrx) hrz
  have hOX : Ord (d + 1) X := hs.ord (i, pk, X) (by simp)
  have hwX : Within (· < pk) (d + 1) X := hs.lt (i, pk, X) (by simp)
  have hOY := hfirst.1
  have hwY : Within (pk ≤ ·) (d + 1) (first ys z) := hfirst.2.1 (i, pk, X) (by simp)
  have hsep := hb.sep
  have hdX := hB _ n4
  have hdY := hB _ n5
  have haN : a < s.tree.branches.length := (List.getElem?_eq_some_iff.1 hba).1
  have hpair := fun (X' Y' : VT K V (d + 1)) (fk : K) bx by' bs h1 h2 h3 h4 h5 h6 h7 h8 h9 h10 h11 h12 h13 h14 h15 h16 =>
    pair_rearr (X' := X') (Y' := Y') (fk := fk) (bx := bx) (by' := by') (bs := bs) hT hn hba h1 h2 h3 h4 h5 h6 h7 h8 h9 h10 h11
      h12 h13 h14 h15 h16
  have hlaw := fun (X' Y' : VT K V (d + 1)) (fk : K) h1 h2 h3 h4 h5 => pair_law (X' := X') (Y' := Y') (fk := fk) hs h1 h2 h3 h4 h5
  generalize hY : first ys z = Y at *
  obtain ⟨ax, xs, dz⟩ := X
  obtain ⟨ay, R, rz⟩ := Y
  simp only [] at *
  have hk : (xs.length + R.length) / 2 < xs.length := by omega
  obtain ⟨A, f, B, rfl, hA⟩ : ∃ A f B, xs = A ++ f :: B ∧ A.length = (xs.length + R.length) / 2 := by
    refine ⟨xs.take ((xs.length + R.length) / 2), xs[(xs.length + R.length) / 2], xs.drop ((xs.length + R.length) / 2 + 1), ?_,
      by rw [List.length_take]; omega⟩
    rw [← List.drop_eq_getElem_cons hk, List.take_append_drop]
  obtain ⟨⟨bx, hbx, hX⟩, hrx1, hrx2⟩ := hrX
  obtain ⟨⟨by', hby, hYok⟩, hry1, hry2⟩ := hrY
  simp only [] at hbx hX hrx1 hrx2 hby hYok hry1 hry2
  have eAB : adr (adrOf d) (A ++ f :: B) = adr (adrOf d) A ++ (f.1, f.2.1, adrOf d f.2.2) :: adr (adrOf d) B := by
    rw [adr_append]; rfl
  rw [eAB] at hX
  have hkey : ∀ x ∈ adr (adrOf d) A ++ (f.1, f.2.1, adrOf d f.2.2) :: adr (adrOf d) B, ∀ y ∈ adr (adrOf d) R, x.2.1 < y.2.1 := by
    rw [← eAB]
    intro x hx y hy
    obtain ⟨x0, hx0, rfl⟩ := List.mem_map.1 hx
    obtain ⟨y0, hy0, rfl⟩ := List.mem_map.1 hy
    exact lt_of_lt_of_le (hwX.1 x0 hx0).1 (hwY.1 y0 hy0).1
  obtain ⟨donor', recv', B1, u, e, g1, g2, g3⟩ := hX.balance_larger hYok
    (by intro hh; apply hne; simpa [adr] using hh) (by
      rw [← eAB, adr_length, adr_length]; exact hlt) (by
      rw [← eAB, adr_length, adr_length, adr_length]; exact hA) hsep.1 hsep.2.1 hkey
  obtain ⟨B', hB1, hB2⟩ := adr_lift g1
  obtain ⟨Xb, l1, l2, l3, l4⟩ := g2.leak
  simp only [] at e l1 l2 l3 l4 g3
  obtain ⟨o1, o2, o3, o4, o5⟩ := shift_right (aq := ax) (ac := ay) (u := u) hB2 hOX hOY hwX hwY
  obtain ⟨q1, q2⟩ := hlaw (ax, A, f.2.2) (ay, B' ++ (u, pk, dz) :: R, rz) f.2.1 o1 o2 o3 o4 o5
  have hax : ax < s.tree.branches.length := (List.getElem?_eq_some_iff.1 hbx).1
  have hay : ay < s.tree.branches.length := (List.getElem?_eq_some_iff.1 hby).1
  have hrear := hpair (ax, A, f.2.2) (ay, B' ++ (u, pk, dz) :: R, rz) f.2.1 ({ donor' with bits := Xb } : Branch K N) recv'
    (((s.tree.branches.set ax { donor' with bits := Xb }).set ay recv').set a
      { b with keys := fun j => if j = i then some f.2.1 else b.keys j }) rfl rfl l1 (by
      rw [adr_append, hB1]; exact g3) (RepL.cut ⟨hrx1, hrx2⟩).1 (by
      obtain ⟨k1, k2⟩ := (RepL.cut ⟨hrx1, hrx2⟩).2.snd hB2.symm
      refine ⟨?_, hry2⟩
      intro x hx
      rcases List.mem_append.1 hx with hx | hx
      · exact k1 x hx
      · rcases List.mem_cons.1 hx with rfl | hx
        · exact k2
        · exact hry1 x hx) (by
      show fl (leafs d) A f.2.2 ++ fl (leafs d) (B' ++ (u, pk, dz) :: R) rz = fl (leafs d) (A ++ f :: B) dz ++ fl (leafs d) R rz
      rw [fl_append, fl_cons, fl_append, fl_cons]
      have := fl_snd (f := leafs d) hB2 dz
      unfold fl at this ⊢
      rw [← List.append_assoc (List.flatMap _ B')]
      simp only [this, List.append_assoc]) (by
      show fl (ents d) A f.2.2 ++ fl (ents d) (B' ++ (u, pk, dz) :: R) rz = fl (ents d) (A ++ f :: B) dz ++ fl (ents d) R rz
      rw [fl_append, fl_cons, fl_append, fl_cons]
      have := fl_snd (f := ents d) hB2 dz
      unfold fl at this ⊢
      rw [← List.append_assoc (List.flatMap _ B')]
      simp only [this, List.append_assoc]) (by
      show ((ax :: fl (nodes d) A f.2.2) ++ (ay :: fl (nodes d) (B' ++ (u, pk, dz) :: R) rz)).Perm
        ((ax :: fl (nodes d) (A ++ f :: B) dz) ++ (ay :: fl (nodes d) R rz))
      rw [fl_append, fl_cons, fl_append, fl_cons]
      have hfl := fl_snd (f := nodes d) hB2 dz
      rw [List.perm_iff_count]
      intro x
      have hcnt := congrArg (List.count x) hfl
      simp only [fl, List.count_append, List.count_cons] at hcnt ⊢
      omega) q1 q2 (by simp) (by
      rw [List.getElem?_set_ne n1, List.getElem?_set_ne n3.symm, List.getElem?_set_self hax]) (by
      rw [List.getElem?_set_ne n2, List.getElem?_set_self (by simpa using hay)]) (by
      rw [List.getElem?_set_self (by simpa using haN)]) (by
      intro j h1 h2 h3
      rw [List.getElem?_set_ne (Ne.symm h1), List.getElem?_set_ne (Ne.symm h3), List.getElem?_set_ne (Ne.symm h2)])
  refine ⟨((s.setBranch ax donor').setBranch ay recv').setBranch a
      { b with keys := fun j => if j = i then some f.2.1 else b.keys j }, _, _, f.1, f.2.1, ?_, hrear,
      ⟨{ donor' with bits := Xb }, donor'.bits, ?_, l2, l3, l4, ?_⟩, ?_⟩
  · unfold underflowBranch.balanceWith
    rw [ETree.branch_ok hbx hdX, Res.ok_bind, ETree.branch_ok hby hdY, Res.ok_bind, e, Res.ok_bind]
    rfl
  · show (((s.tree.branches.set ax _).set ay recv').set a _)[ax]? = _
    rw [List.getElem?_set_ne n1, List.getElem?_set_ne n3.symm, List.getElem?_set_self hax]
  · unfold ETree.setBranch
    dsimp only
    congr 2
    rw [List.set_comm _ _ n1, List.set_comm _ _ n3.symm, List.set_set]
  · show (((s.tree.branches.set ax _).set ay recv').set a _)[a]? = _
    rw [List.getElem?_set_self (by simpa using haN)]

/-- The child before a separator takes separators from the child behind it. -/
theorem balance_right {s : ETree K V N M} {d a i : Nat} {p ys : List (Nat × K × VT K V (d + 1))}
    {X z : VT K V (d + 1)} {pk : K} {b : Branch K N}
    (hT : Rep s.tree (d + 2) ((a, p ++ (i, pk, X) :: ys, z) : VT K V (d + 2)))
    (hs : Srt (d + 1) (Ord (d + 1)) (p ++ (i, pk, X) :: ys) z)
    (hn : (nodes (d + 2) ((a, p ++ (i, pk, X) :: ys, z) : VT K V (d + 2))).Nodup)
    (hB : ∀ j ∈ nodes (d + 2) ((a, p ++ (i, pk, X) :: ys, z) : VT K V (d + 2)), j ∉ s.deadB)
    (hba : s.tree.branches[a]? = some b) (hne : X.2.1 ≠ [])
    (hlt : X.2.1.length < (first ys z).2.1.length) :
    ∃ s' s2 T' u fk, underflowBranch.balanceWith s a b (first ys z).1 X.1 (p.length + 1) = .ok (s', X.1) ∧
      Rearr s s2 (d + 2) ((a, p ++ (i, pk, X) :: ys, z) : VT K V (d + 2)) T' ∧ Leak s2 s' (first ys z).1 u ∧
      s'.tree.branches[a]? = some { b with keys := fun j => if j = i then some fk else b.keys j } := by
  obtain ⟨n1, n2, n3, n4, n5⟩ := nodes_ne hn
  have hT0 := hT
  obtain ⟨⟨b0, hba0, hb⟩, hrx, hrz⟩ := hT0
  simp only [] at hba0 hb hrx hrz
  rw [hba] at hba0
  obtain rfl := Option.some.inj hba0
  have hfirst := Srt.first (p := p ++ [(i, pk, X)]) (ys := ys) (z := z) (O := Ord (d + 1)) (by simpa using hs)
  have hrX : Rep s.tree (d + 1) X := hrx (i, pk, X) (by simp)
  have hrY : Rep s.tree (d + 1) (first ys z) := first_rep (p := p ++ [(i, pk, X)]) (by simpa using hrx) hrz
  have hOX : Ord (d + 1) X := hs.ord (i, pk, X) (by simp)
  have hwX : Within (· < pk) (d + 1) X := hs.lt (i, pk, X) (by simp)
  have hOY := hfirst.1
  have hwY : Within (pk ≤ ·) (d + 1) (first ys z) := hfirst.2.1 (i, pk, X) (by simp)
  have hsep := hb.sep
  have hdX := hB _ n4
  have hdY := hB _ n5
  have haN : a < s.tree.branches.length := (List.getElem?_eq_some_iff.1 hba).1
  have hpair := fun (X' Y' : VT K V (d + 1)) (fk : K) bx by' bs h1 h2 h3 h4 h5 h6 h7 h8 h9 h10 h11 h12 h13 h14 h15 h16 =>
    pair_rearr (X' := X') (Y' := Y') (fk := fk) (bx := bx) (by' := by') (bs := bs) hT hn hba h1 h2 h3 h4 h5 h6 h7 h8 h9 h10 h11
      h12 h13 h14 h15 h16
  have hlaw := fun (X' Y' : VT K V (d + 1)) (fk : K) h1 h2 h3 h4 h5 => pair_law (X' := X') (Y' := Y') (fk := fk) hs h1 h2 h3 h4 h5
  generalize hY : first ys z = Y at *
  obtain ⟨ax, R, rz⟩ := X
  obtain ⟨ay, xs, dz⟩ := Y
  simp only [] at *
  obtain ⟨A, f, B, rfl, hA⟩ : ∃ A f B, xs = A ++ f :: B ∧ B.length = (xs.length + R.length) / 2 := by
    have hk : xs.length - (xs.length + R.length) / 2 - 1 < xs.length := by omega
    refine ⟨xs.take (xs.length - (xs.length + R.length) / 2 - 1), xs[xs.length - (xs.length + R.length) / 2 - 1],
      xs.drop (xs.length - (xs.length + R.length) / 2 - 1 + 1), ?_, by rw [List.length_drop]; omega⟩
    rw [← List.drop_eq_getElem_cons hk, List.take_append_drop]
  obtain ⟨⟨bx, hbx, hX⟩, hrx1, hrx2⟩ := hrX
  obtain ⟨⟨by', hby, hYok⟩, hry1, hry2⟩ := hrY
  simp only [] at hbx hX hrx1 hrx2 hby hYok hry1 hry2
  have eAB : adr (adrOf d) (A ++ f :: B) = adr (adrOf d) A ++ (f.1, f.2.1, adrOf d f.2.2) :: adr (adrOf d) B := by
    rw [adr_append]; rfl
  rw [eAB] at hYok
  have hkey : ∀ x ∈ adr (adrOf d) A ++ (f.1, f.2.1, adrOf d f.2.2) :: adr (adrOf d) B, ∀ y ∈ adr (adrOf d) R, y.2.1 ≤ x.2.1 := by
    rw [← eAB]
    intro x hx y hy
    obtain ⟨x0, hx0, rfl⟩ := List.mem_map.1 hx
    obtain ⟨y0, hy0, rfl⟩ := List.mem_map.1 hy
    exact le_of_lt (lt_of_lt_of_le (hwX.1 y0 hy0).1 (hwY.1 x0 hx0).1)
  obtain ⟨donor', recv', A1, u, e, g1, g2, g3⟩ := hYok.balance_smaller hX
    (by intro hh; apply hne; simpa [adr] using hh) (by
      rw [← eAB, adr_length, adr_length]; exact hlt) (by
      rw [← eAB, adr_length, adr_length, adr_length]; exact hA) hsep.1 hsep.2.1 hkey
  obtain ⟨A', hA1, hA2⟩ := adr_lift g1
  obtain ⟨Xb, l1, l2, l3, l4⟩ := g2.leak
  simp only [] at e l1 l2 l3 l4 g3
  obtain ⟨o1, o2, o3, o4, o5⟩ := shift_left (ad := ay) (ac := ax) (u := u) hA2 hOX hOY hwX hwY
  obtain ⟨q1, q2⟩ := hlaw (ax, R ++ (u, pk, rz) :: A', f.2.2) (ay, B, dz) f.2.1 o1 o2 o3 o4 o5
  have hax : ax < s.tree.branches.length := (List.getElem?_eq_some_iff.1 hbx).1
  have hay : ay < s.tree.branches.length := (List.getElem?_eq_some_iff.1 hby).1
  have hrear := hpair (ax, R ++ (u, pk, rz) :: A', f.2.2) (ay, B, dz) f.2.1 recv' ({ donor' with bits := Xb } : Branch K N)
    (((s.tree.branches.set ay { donor' with bits := Xb }).set ax recv').set a
      { b with keys := fun j => if j = i then some f.2.1 else b.keys j }) rfl rfl (by
      rw [adr_append]
      show BrOK recv' (adr (adrOf d) R ++ (u, pk, adrOf d rz) :: adr (adrOf d) A') _
      rw [hA1]; exact g3) l1 (by
      obtain ⟨k1, k2⟩ := (RepL.cut ⟨hry1, hry2⟩).1.snd hA2.symm
      refine ⟨?_, k2⟩
      intro x hx
      rcases List.mem_append.1 hx with hx | hx
      · exact hrx1 x hx
      · rcases List.mem_cons.1 hx with rfl | hx
        · exact hrx2
        · exact k1 x hx) (RepL.cut ⟨hry1, hry2⟩).2 (by
      show fl (leafs d) (R ++ (u, pk, rz) :: A') f.2.2 ++ fl (leafs d) B dz = fl (leafs d) R rz ++ fl (leafs d) (A ++ f :: B) dz
      rw [fl_append, fl_cons, fl_append, fl_cons]
      have := fl_snd (f := leafs d) hA2 f.2.2
      unfold fl at this ⊢
      simp only [this, List.append_assoc]) (by
      show fl (ents d) (R ++ (u, pk, rz) :: A') f.2.2 ++ fl (ents d) B dz = fl (ents d) R rz ++ fl (ents d) (A ++ f :: B) dz
      rw [fl_append, fl_cons, fl_append, fl_cons]
      have := fl_snd (f := ents d) hA2 f.2.2
      unfold fl at this ⊢
      simp only [this, List.append_assoc]) (by
      show ((ax :: fl (nodes d) (R ++ (u, pk, rz) :: A') f.2.2) ++ (ay :: fl (nodes d) B dz)).Perm
        ((ax :: fl (nodes d) R rz) ++ (ay :: fl (nodes d) (A ++ f :: B) dz))
      rw [fl_append, fl_cons, fl_append, fl_cons]
      have hfl := fl_snd (f := nodes d) hA2 f.2.2
      rw [List.perm_iff_count]
      intro x
      have hcnt := congrArg (List.count x) hfl
      simp only [fl, List.count_append, List.count_cons] at hcnt ⊢
      omega) q1 q2 (by simp) (by
      rw [List.getElem?_set_ne n1, List.getElem?_set_self (by simpa using hax)]) (by
      rw [List.getElem?_set_ne n2, List.getElem?_set_ne n3, List.getElem?_set_self hay]) (by
      rw [List.getElem?_set_self (by simpa using haN)]) (by
      intro j h1 h2 h3
      rw [List.getElem?_set_ne (Ne.symm h1), List.getElem?_set_ne (Ne.symm h2), List.getElem?_set_ne (Ne.symm h3)])
  refine ⟨((s.setBranch ay donor').setBranch ax recv').setBranch a
      { b with keys := fun j => if j = i then some f.2.1 else b.keys j }, _, _, f.1, f.2.1, ?_, hrear,
      ⟨{ donor' with bits := Xb }, donor'.bits, ?_, l2, l3, l4, ?_⟩, ?_⟩
  · unfold underflowBranch.balanceWith
    rw [ETree.branch_ok hby hdY, Res.ok_bind, ETree.branch_ok hbx hdX, Res.ok_bind, e, Res.ok_bind]
    rfl
  · show (((s.tree.branches.set ay _).set ax recv').set a _)[ay]? = _
    rw [List.getElem?_set_ne n2, List.getElem?_set_ne n3, List.getElem?_set_self hay]
  · unfold ETree.setBranch
    dsimp only
    congr 2
    rw [List.set_comm _ _ n2, List.set_comm _ _ n3, List.set_set]
  · show (((s.tree.branches.set ay _).set ax recv').set a _)[a]? = _
    rw [List.getElem?_set_self (by simpa using haN)]

end Verif.WBTree
