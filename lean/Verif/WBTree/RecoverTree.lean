import Verif.WBTree.RecoverLaw

/-!
# wHBPTree.hpp: the recovered tree
-/

namespace Verif.WBTree

variable {K V : Type} [LinearOrder K] {N M : Nat}

theorem spOK_root (junk : Option Nat) (hN : 0 < N) (key : K) (c r : Nat) {bits : Bitmap N}
    (hb : (Bitmap.fresh N).set 0 true = .ok bits) :
    SpOK junk (⟨fun j => if j = 1 then some 0 else if j = 0 then some 1 else (Branch.fresh N junk : Branch K N).slot j, bits,
      fun j => if j = 0 then some key else (Branch.fresh N junk : Branch K N).keys j,
      fun j => if j = N then some r else if j = 0 then some c else (Branch.fresh N junk : Branch K N).kids j⟩ : Branch K N)
      [(0, key, c)] r := by
  obtain ⟨b0, e0, h0⟩ := spOK_only (K := K) junk hN c
  obtain ⟨b', e', h'⟩ := h0.append hN key r
  have hc := h0.count
  unfold Branch.only at e0
  dsimp only at e0
  rw [Slots.wr_ok _ _ (by omega), Res.ok_bind, Slots.wr_ok _ _ (by omega), Res.ok_bind] at e0
  have e1 := Res.ok.inj e0
  subst e1
  unfold Branch.append at e'
  rw [hc, Res.ok_bind] at e'
  simp only [List.length_nil] at e'
  rw [show (Branch.fresh N junk : Branch K N).bits = Bitmap.fresh N from rfl, hb, Res.ok_bind, Slots.wr_ok _ _ (by omega),
    Res.ok_bind, if_neg (by omega)] at e'
  rw [Res.pure_eq, Res.ok_bind, Slots.wr_ok _ _ (by omega), Res.ok_bind, Slots.wr_ok _ _ (by omega), Res.ok_bind,
    Slots.wr_ok _ _ (by omega), Res.ok_bind] at e'
  have e2 := Res.ok.inj e'
  subst e2
  refine cast ?_ h'
  congr 2
  funext j
  by_cases h1 : j = 1
  · subst h1; simp
  · by_cases h0 : j = 0
    · subst h0; simp
    · simp [h1, h0]

/-- The leaves from left to right with their entries. -/
def flat : (d : Nat) → VT K V d → List (Nat × List (Nat × K × V))
  | 0, T => [T]
  | d + 1, T => fl (flat d) T.2.1 T.2.2

/-- Keys and values of the leaves `F`. -/
def flatEnts (F : List (Nat × List (Nat × K × V))) : List (K × V) := F.flatMap (fun x => x.2.map (·.2))

omit [LinearOrder K] in
theorem flatEnts_append (F G : List (Nat × List (Nat × K × V))) : flatEnts (F ++ G) = flatEnts F ++ flatEnts G := by
  unfold flatEnts; simp

omit [LinearOrder K] in
theorem leafs_flat : ∀ (d : Nat) (T : VT K V d), leafs d T = (flat d T).map (·.1) := by
  intro d
  induction d with
  | zero => intro T; rfl
  | succ d ih =>
    rintro ⟨a, xs, z⟩
    show fl (leafs d) xs z = (fl (flat d) xs z).map _
    unfold fl
    rw [List.map_append, ih, List.map_flatMap]
    simp only [ih]

omit [LinearOrder K] in
theorem ents_flat : ∀ (d : Nat) (T : VT K V d), ents d T = flatEnts (flat d T) := by
  intro d
  induction d with
  | zero => intro T; simp [flatEnts, flat, ents]
  | succ d ih =>
    rintro ⟨a, xs, z⟩
    show fl (ents d) xs z = flatEnts (fl (flat d) xs z)
    unfold fl
    rw [flatEnts_append, ih]
    congr 1
    unfold flatEnts
    rw [List.flatMap_assoc]
    simp only [ih]
    rfl

theorem Rep.flat {t : Tree K V N M} : ∀ (d : Nat) (T : VT K V d), Rep t d T → ∀ x ∈ flat d T,
    (∃ l, t.leaves[x.1]? = some l ∧ LeafOK l x.2) ∧ (Ord d T → x.2 ≠ []) := by
  intro d
  induction d with
  | zero =>
    intro T hT x hx
    rw [WBTree.flat, List.mem_singleton] at hx
    subst hx
    exact ⟨hT, fun h => h.2⟩
  | succ d ih =>
    rintro ⟨a, xs, z⟩ ⟨_, hx, hz⟩ y hy
    rcases List.mem_append.1 hy with h | h
    · obtain ⟨x, hxm, hxy⟩ := List.mem_flatMap.1 h
      obtain ⟨g1, g2⟩ := ih _ (hx x hxm) y hxy
      exact ⟨g1, fun ho => g2 (ho.ord x hxm)⟩
    · obtain ⟨g1, g2⟩ := ih _ hz y h
      exact ⟨g1, fun ho => g2 ho.ordz⟩

/-- Separators are not larger than all keys. -/
theorem Ord.within_lt {key : K} : ∀ (d : Nat) (T : VT K V d), Ord d T → (∀ y ∈ ents d T, y.1 < key) → Within (· < key) d T := by
  intro d
  induction d with
  | zero =>
    intro T _ h e he
    exact h e.2 (List.mem_map_of_mem he)
  | succ d ih =>
    rintro ⟨a, xs, z⟩ hT h
    have hz : ∀ y ∈ ents d z, y.1 < key := fun y hy => h y (List.mem_append_right _ hy)
    refine ⟨fun x hx => ⟨?_, ih _ (hT.ord x hx) (fun y hy => h y (List.mem_append_left _ (List.mem_flatMap.2 ⟨x, hx, hy⟩)))⟩,
      ih _ hT.ordz hz⟩
    obtain ⟨y, hy⟩ := List.exists_mem_of_ne_nil _ (Ord.ne_nil d z hT.ordz)
    exact lt_of_le_of_lt ((hT.last x hx).ents d z y hy) (hz y hy)

/-- What recovery has built from the leaves `F`. -/
def RInv (junk : Option Nat) (t : Tree K V N M) (F : List (Nat × List (Nat × K × V))) : Prop :=
  ∃ (d : Nat) (T : VT K V (d + 1)), t.depth = d + 1 ∧ adrOf (d + 1) T = t.root ∧ RSpine junk t (d + 1) T ∧ Ord (d + 1) T ∧
    (nodes (d + 1) T).Nodup ∧ leafs (d + 1) T = F.map (·.1) ∧ ents (d + 1) T = flatEnts F ∧
    (1 < F.length → (N + 1) ^ d < F.length) ∧ (F.length = 1 → d = 0)

theorem recoveryInsert_law (junk : Option Nat) (hN : 0 < N) {t : Tree K V N M} {F : List (Nat × List (Nat × K × V))}
    (h : RInv junk t F) {leaf : Nat} {l : Leaf K V M} {e0 : Nat × K × V} {es : List (Nat × K × V)}
    (hl : t.leaves[leaf]? = some l) (hok : LeafOK l (e0 :: es)) (hlt : ∀ y ∈ flatEnts F, y.1 < e0.2.1) :
    ∃ t', recoveryInsert junk t leaf = .ok t' ∧ RInv junk t' (F ++ [(leaf, e0 :: es)]) ∧ t'.leaves = t.leaves ∧
      t'.next = t.next := by
  obtain ⟨d, T, h1, h2, h3, h4, h5, h6, h7, h8, h9⟩ := h
  have hw : Within (· < e0.2.1) (d + 1) T := h4.within_lt (d + 1) T (by rw [h7]; exact hlt)
  obtain ⟨t1, sp, e1, hr⟩ := recIns_law junk hN hok d t T hl h3 h4 h5 hw
  have hlen := h3.length (d + 1) T
  rw [h6, List.length_map] at hlen
  rw [h2] at e1
  unfold recoveryInsert
  rw [if_pos (by omega), h1, Nat.add_sub_cancel, e1, Res.ok_bind]
  have hents : flatEnts (F ++ [(leaf, e0 :: es)]) = flatEnts F ++ (e0 :: es).map (·.2) := by
    rw [flatEnts_append]; simp [flatEnts]
  cases sp with
  | none =>
    obtain ⟨T', g1, g2, g3, g4, g5, g6, g7⟩ := hr
    refine ⟨t1, rfl, ⟨d, T', g7.depth.trans h1, by rw [g1, h2, g7.root], g2, g3, g7.bnd, ?_, ?_, ?_, ?_⟩, g7.leaves, g7.next⟩
    · rw [g4, h6]; simp
    · rw [g5, h7, hents]
    · intro _
      rw [List.length_append, List.length_singleton]
      rcases Nat.lt_or_ge 1 F.length with h' | h'
      · have := h8 h'
        omega
      · have h0 : d = 0 := h9 (by omega)
        subst h0
        rw [pow_zero]; omega
    · intro hh
      rw [List.length_append, List.length_singleton] at hh
      omega
  | some kr =>
    obtain ⟨k, r⟩ := kr
    obtain ⟨rfl, g1, g2, T2, rfl, g3, g4, g5, g6, g7, g8⟩ := hr
    obtain ⟨bits, eb, _⟩ := bit_set (Bitmap.fresh N) 0 true hN
    dsimp only
    rw [Slots.wr_ok _ _ (by omega), Res.ok_bind, Slots.wr_ok _ _ (by omega), Res.ok_bind, Slots.wr_ok _ _ (by omega), Res.ok_bind,
      show (Branch.fresh N junk : Branch K N).bits = Bitmap.fresh N from rfl, eb, Res.ok_bind, Slots.wr_ok _ _ (by omega), Res.ok_bind,
      Slots.wr_ok _ _ (by omega), Res.ok_bind]
    refine ⟨_, rfl, ⟨d + 1, ((t1.branches.length, [(0, e0.2.1, T)], T2) : VT K V (d + 2)), rfl, rfl, ⟨⟨_, List.getElem?_concat_length, ?_⟩,
      ?_, ?_⟩, ?_, ?_, ?_, ?_, ?_, ?_⟩, g8.leaves, g8.next⟩
    · show SpOK junk _ [(0, e0.2.1, adrOf (d + 1) T)] _
      rw [h2]
      exact spOK_root junk hN e0.2.1 t.root _ eb
    · intro x hx
      rw [List.mem_singleton] at hx
      subst hx
      refine ⟨?_, g1⟩
      refine RSpine.frame (d + 1) T g2 rfl (fun j hj => ?_)
      exact List.getElem?_append_left (g2.node_lt _ _ j hj)
    · refine RSpine.frame (d + 1) T2 g3 rfl (fun j hj => ?_)
      exact List.getElem?_append_left (g3.node_lt _ _ j hj)
    · have hkw : Within (e0.2.1 ≤ ·) (d + 1) T2 := by
        refine g7 _ (fun e he => ?_)
        rcases List.mem_cons.1 he with rfl | he
        · exact le_rfl
        · exact le_of_lt ((List.pairwise_cons.1 hok.sorted).1 e he)
      have h' : Srt (d + 1) (Ord (d + 1)) [(0, e0.2.1, T)] T2 := by
        constructor
        · simpa using h4
        · simpa using hw
        · simp
        · simpa using hkw
        · exact g4
      exact h'
    · have hbn := g8.bnd
      refine List.nodup_cons.2 ⟨fun hh => ?_, ?_⟩
      · have := g8.blt t1.branches.length (by simpa [fl] using hh)
        omega
      · simpa [fl] using hbn
    · show fl (leafs (d + 1)) [(0, e0.2.1, T)] T2 = _
      simp [fl, h6, g5]
    · show fl (ents (d + 1)) [(0, e0.2.1, T)] T2 = _
      rw [hents]
      simp [fl, h7, g6]
    · intro _
      rw [h6, List.length_map] at g1
      rw [List.length_append, List.length_singleton, g1]
      omega
    · intro hh
      rw [List.length_append, List.length_singleton] at hh
      omega

theorem recLoop_law (junk : Option Nat) (hN : 0 < N) : ∀ (R F : List (Nat × List (Nat × K × V))) (n : Nat) (t : Tree K V N M),
    RInv junk t F → R.length ≤ n → Linked t.next (R.map (·.1)) →
    (∀ x ∈ R, (∃ l, t.leaves[x.1]? = some l ∧ LeafOK l x.2) ∧ x.2 ≠ []) →
    (flatEnts (F ++ R)).Pairwise (fun a b => a.1 < b.1) →
    ∃ t', recLoop junk n t (R.map (·.1)).head? = .ok t' ∧ RInv junk t' (F ++ R) ∧ t'.leaves = t.leaves ∧ t'.next = t.next := by
  intro R
  induction R with
  | nil =>
    intro F n t h _ _ _ _
    refine ⟨t, by cases n <;> rfl, by rw [List.append_nil]; exact h, rfl, rfl⟩
  | cons x R ih =>
    intro F n t h hn hlink hok hs
    obtain ⟨n, rfl⟩ : ∃ n', n = n' + 1 := ⟨n - 1, by simp at hn; omega⟩
    obtain ⟨a, es⟩ := x
    obtain ⟨⟨l, hl, hlok⟩, hne⟩ := hok (a, es) (by simp)
    simp only at hl hlok hne
    obtain ⟨e0, es, rfl⟩ := List.exists_cons_of_ne_nil hne
    have hlt : ∀ y ∈ flatEnts F, y.1 < e0.2.1 := by
      intro y hy
      rw [flatEnts_append, List.pairwise_append] at hs
      refine hs.2.2 y hy e0.2 ?_
      simp [flatEnts]
    obtain ⟨t1, e1, g1, g2, g3⟩ := recoveryInsert_law junk hN h hl hlok hlt
    have hnext : t.next a = (R.map (·.1)).head? := hlink [] a (R.map (·.1)) rfl
    have hlink' : Linked t1.next (R.map (·.1)) := by
      rw [g3]
      intro pre b post hb
      exact hlink (a :: pre) b post (by simp [hb])
    obtain ⟨t2, e2, k1, k2, k3⟩ := ih (F ++ [(a, e0 :: es)]) n t1 g1 (by simp at hn; omega) hlink'
      (fun y hy => by rw [g2]; exact hok y (by simp [hy])) (by rw [List.append_assoc]; exact hs)
    refine ⟨t2, ?_, by rw [List.append_assoc] at k1; exact k1, k2.trans g2, k3.trans g3⟩
    rw [List.map_cons, List.head?_cons, recLoop, e1, Res.ok_bind, Tree.leaf, g2, hl, Res.ofOption_some, Res.ok_bind, g3, hnext]
    exact e2

omit [LinearOrder K] in
theorem countLeaves_law {t : Tree K V N M} : ∀ (L : List Nat) (n : Nat), L.length ≤ n → Linked t.next L →
    (∀ a ∈ L, ∃ l, t.leaves[a]? = some l) → countLeaves t n L.head? = .ok L.length := by
  intro L
  induction L with
  | nil => intro n _ _ _; cases n <;> rfl
  | cons a L ih =>
    intro n hn hlink hl
    obtain ⟨n, rfl⟩ : ∃ n', n = n' + 1 := ⟨n - 1, by simp at hn; omega⟩
    obtain ⟨l, h1⟩ := hl a (by simp)
    have hlink' : Linked t.next L := fun pre b post hb => hlink (a :: pre) b post (by simp [hb])
    rw [List.head?_cons, countLeaves, Tree.leaf, h1, Res.ofOption_some, Res.ok_bind, hlink [] a L rfl,
      ih n (by simp at hn; omega) hlink' (fun b hb => hl b (by simp [hb])), Res.ok_bind]
    rfl

/-- Recovery of the leaves `F`. -/
theorem recover_law (dbg : Bool) (junk : Option Nat) (hN : 0 < N) {t : Tree K V N M} {es0 : List (Nat × K × V)}
    {F : List (Nat × List (Nat × K × V))} (hlink : Linked t.next (0 :: F.map (·.1)))
    (hlen : F.length < t.leaves.length)
    (hok : ∀ x ∈ (0, es0) :: F, (∃ l, t.leaves[x.1]? = some l ∧ LeafOK l x.2) ∧ (F ≠ [] → x.2 ≠ []))
    (hs : (flatEnts ((0, es0) :: F)).Pairwise (fun a b => a.1 < b.1)) :
    (dbg = true → (N + 1) ^ Nat.log (N + 1) (F.length + 1) ≠ F.length + 1 → recover dbg junk t = .assertFail) ∧
    (dbg = false ∨ (N + 1) ^ Nat.log (N + 1) (F.length + 1) = F.length + 1 →
      ∃ t', recover dbg junk t = .ok t' ∧ t'.leaves = t.leaves ∧ t'.next = t.next ∧
        (F = [] → t' = { t with branches := [], root := 0, depth := 0 }) ∧ (F ≠ [] → RInv junk t' ((0, es0) :: F))) := by
  have hc := countLeaves_law (t := t) (0 :: F.map (·.1)) t.leaves.length (by simpa using hlen) hlink (by
    intro a ha
    have : a ∈ ((0, es0) :: F).map (·.1) := by simpa using ha
    obtain ⟨x, hx, rfl⟩ := List.mem_map.1 this
    obtain ⟨⟨l, hl, _⟩, _⟩ := hok x hx
    exact ⟨l, hl⟩)
  rw [List.head?_cons, List.length_cons, List.length_map] at hc
  constructor
  · intro hd hp
    unfold recover
    rw [hc, Res.ok_bind, if_pos ⟨hd, hp⟩]
  · intro hd
    have hnp : ¬ (dbg = true ∧ (N + 1) ^ Nat.log (N + 1) (F.length + 1) ≠ F.length + 1) := by
      rintro ⟨h1, h2⟩
      rcases hd with h | h
      · rw [h] at h1; exact absurd h1 (by simp)
      · exact h2 h
    have hn0 : t.next 0 = (F.map (·.1)).head? := hlink [] 0 _ rfl
    cases F with
    | nil =>
      refine ⟨{ t with branches := [], root := 0, depth := 0 }, ?_, rfl, rfl, fun _ => rfl, fun h => absurd rfl h⟩
      unfold recover
      rw [hc, Res.ok_bind, if_neg hnp, hn0]
      rfl
    | cons x F =>
      obtain ⟨⟨l0, hl0, hl0ok⟩, hne0⟩ := hok (0, es0) (by simp)
      simp only at hl0 hl0ok hne0
      have hsp : SpOK junk ({ (Branch.fresh N junk : Branch K N) with kids := fun j => if j = 0 then some 0 else (Branch.fresh N junk : Branch K N).kids j } : Branch K N) [] 0 := by
        refine ⟨rfl, rfl, Nat.zero_le _, ?_, ?_, fun h => absurd rfl h⟩
        · intro j hj
          left
          show (if j = 0 then some 0 else junk) = junk
          simp only [List.length_nil] at hj
          rw [if_neg (by omega)]
        · intro _
          refine ⟨by simp, ?_, ?_⟩
          · show (if N = 0 then some 0 else none) = none
            rw [if_neg (by omega)]
          · intro p _
            show Bitmap.bit (Bitmap.fresh N) p = false
            simp [bit_fresh]
      have hord : Srt 0 (Ord 0) ([] : List (Nat × K × VT K V 0)) ((0, es0) : VT K V 0) := by
        constructor
        · simp
        · simp
        · simp
        · simp
        · exact ⟨hl0ok.sorted, hne0 (by simp)⟩
      have hinv : RInv junk ({ t with branches := [{ (Branch.fresh N junk : Branch K N) with kids := fun j => if j = 0 then some 0 else (Branch.fresh N junk : Branch K N).kids j }], root := 0, depth := 1 } : Tree K V N M) [(0, es0)] :=
        ⟨0, ((0, [], (0, es0)) : VT K V 1), rfl, rfl, ⟨⟨_, rfl, hsp⟩, by simp, ⟨l0, hl0, hl0ok⟩⟩, hord, by simp [nodes, fl],
          by simp [leafs, fl], by simp [ents, fl, flatEnts], by simp, by simp⟩
      obtain ⟨t', e, h1, h2, h3⟩ := recLoop_law junk hN (x :: F) [(0, es0)] t.leaves.length _ hinv
        (by simp at hlen ⊢; omega) (fun pre b post hb => hlink (0 :: pre) b post (by
          rw [List.cons_append, ← hb]))
        (fun y hy => ⟨(hok y (List.mem_cons_of_mem _ hy)).1, (hok y (List.mem_cons_of_mem _ hy)).2 (by simp)⟩) hs
      refine ⟨t', ?_, h2, h3, fun hh => absurd hh (by simp), fun _ => h1⟩
      unfold recover
      rw [hc, Res.ok_bind, if_neg hnp, hn0]
      rw [List.map_cons, List.head?_cons] at e ⊢
      dsimp only
      rw [Slots.wr_ok _ _ (by omega), Res.ok_bind]
      exact e

end Verif.WBTree
