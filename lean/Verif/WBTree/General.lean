import Verif.WBTree.Shape

/-!
# wBPTree.hpp and wHBPTree.hpp: inserts into trees of any shape

An insert keeps the order of the tree and the list of leaves, and adds exactly its entry, unless it splits
a leaf exactly in the middle (`C45_lost_key`).
-/

namespace Verif.WBTree

variable {K V : Type} [LinearOrder K] {N M : Nat}

/-- The leaf an insert descends to (wBPTree.hpp:657-672 / wHBPTree.hpp:662-677): as `findLeafNode`, but the
last child is taken behind the last separator. -/
def insLeaf (t : Tree K V N M) (key : K) : Nat → Nat → Res Nat
  | 0, a => .ok a
  | d + 1, a => do
    let b ← t.branch a
    let p ← b.pos key
    let c ← b.child p
    insLeaf t key d c

/-- The insert of the new key `key` would split the leaf at address `a`, and the key belongs exactly to the
middle. -/
def SplitsMiddle (t : Tree K V N M) (key : K) (a : Nat) : Prop :=
  ∃ l, t.leaf a = .ok l ∧ l.slot.rd (M + 1) 0 = .ok M ∧ l.pos key = .ok ((M + 1) / 2) ∧
    l.lookup key = .ok none

/-- The list of leaves `L` is linked and ends with a null pointer. -/
def Linked (next : Nat → Option Nat) (L : List Nat) : Prop :=
  ∀ pre a post, L = pre ++ a :: post → next a = post.head?

theorem Linked.insert {next : Nat → Option Nat} {X Y : List Nat} {a r : Nat} (h : Linked next (X ++ a :: Y))
    (hnd : (X ++ a :: Y).Nodup) (hr : r ∉ X ++ a :: Y) :
    Linked (linkAfter next a r) (X ++ a :: r :: Y) := by
  intro pre b post he
  unfold linkAfter
  rcases List.append_eq_append_iff.1 he with ⟨as, h1, h2⟩ | ⟨bs, h1, h2⟩
  · -- `pre = X ++ as`
    cases as with
    | nil =>
      simp only [List.nil_append, List.cons.injEq] at h2
      rw [← h2.1, ← h2.2, if_pos rfl]
      rfl
    | cons x as =>
      simp only [List.cons_append, List.cons.injEq] at h2
      obtain ⟨rfl, h2⟩ := h2
      cases as with
      | nil =>
        simp only [List.nil_append, List.cons.injEq] at h2
        rw [← h2.1, ← h2.2]
        rw [if_neg (fun hh => hr (by simp [hh])), if_pos rfl]
        exact h X a Y rfl
      | cons y as =>
        simp only [List.cons_append, List.cons.injEq] at h2
        obtain ⟨rfl, h2⟩ := h2
        have hb : b ∈ Y := by rw [h2]; simp
        rw [if_neg, if_neg]
        · exact h (X ++ a :: as) b post (by rw [h2]; simp)
        · intro hh; exact hr (by rw [← hh]; simp [hb])
        · intro hh
          rw [hh] at hb
          exact (List.nodup_cons.1 (List.nodup_append.1 hnd).2.1).1 hb
  · cases bs with
    | nil =>
      simp only [List.nil_append, List.cons.injEq] at h2
      rw [h2.1, h2.2, if_pos rfl]
      rfl
    | cons x bs =>
      simp only [List.cons_append, List.cons.injEq] at h2
      obtain ⟨rfl, h2⟩ := h2
      have hb : b ∈ X := by rw [h1]; simp
      rw [if_neg, if_neg]
      · rw [h pre b (bs ++ a :: Y) (by rw [h1]; simp), h2]
        cases bs <;> rfl
      · intro hh; exact hr (by rw [← hh]; simp [hb])
      · intro hh
        rw [hh] at hb
        exact (List.nodup_append.1 hnd).2.2 a hb a (by simp) rfl

/-- What an insert into a subtree does: `L`, `B`, `E` are its leaves, branch nodes and entries before,
`L'`, `B'`, `E'` after the insert. -/
structure Post (t t' : Tree K V N M) (key : K) (val : V) (L B : List Nat) (E : List (K × V))
    (L' B' : List Nat) (E' : List (K × V)) : Prop where
  root : t'.root = t.root
  depth : t'.depth = t.depth
  llen : t.leaves.length ≤ t'.leaves.length
  blen : t.branches.length ≤ t'.branches.length
  lsame : ∀ j < t.leaves.length, j ∉ L → t'.leaves[j]? = t.leaves[j]?
  bsame : ∀ j < t.branches.length, j ∉ B → t'.branches[j]? = t.branches[j]?
  lnd : L'.Nodup
  bnd : B'.Nodup
  lsub : ∀ j ∈ L', j ∈ L ∨ t.leaves.length ≤ j
  bsub : ∀ j ∈ B', j ∈ B ∨ t.branches.length ≤ j
  blt : ∀ j ∈ B', j < t'.branches.length
  lcov : (∀ j ∈ L, j ∈ L') ∧ ∀ j, t.leaves.length ≤ j → j < t'.leaves.length → j ∈ L'
  ent : ∀ y, y ∈ E' ↔ y = (key, val) ∨ (y.1 ≠ key ∧ y ∈ E)
  chain : ∀ X Y, (X ++ L ++ Y).Nodup → (∀ j ∈ X ++ L ++ Y, j < t.leaves.length) →
    Linked t.next (X ++ L ++ Y) → Linked t'.next (X ++ L' ++ Y)
  order : (t'.leaves.length = t.leaves.length ∧ t'.next = t.next ∧ L' = L) ∨
    ∃ X a Y, L = X ++ a :: Y ∧ L' = X ++ a :: t.leaves.length :: Y ∧
      t'.leaves.length = t.leaves.length + 1 ∧ t'.next = linkAfter t.next a t.leaves.length

theorem nodup_mid {P C Q C' : List Nat} {n : Nat} (h : (P ++ C ++ Q).Nodup) (hlt : ∀ j ∈ P ++ C ++ Q, j < n)
    (h' : C'.Nodup) (hsub : ∀ j ∈ C', j ∈ C ∨ n ≤ j) : (P ++ C' ++ Q).Nodup := by
  rw [List.nodup_append, List.nodup_append] at h ⊢
  obtain ⟨⟨h1, h2, h3⟩, h4, h5⟩ := h
  refine ⟨⟨h1, h', ?_⟩, h4, ?_⟩
  · intro a ha b hb hab
    rcases hsub b hb with hb | hb
    · exact h3 a ha b hb hab
    · have := hlt a (by simp [ha]); omega
  · intro a ha b hb hab
    rcases List.mem_append.1 ha with ha | ha
    · exact h5 a (by simp [ha]) b hb hab
    · rcases hsub a ha with ha | ha
      · exact h5 a (by simp [ha]) b hb hab
      · have := hlt b (by simp [hb]); omega

/-- The same change seen from a larger part of the tree. -/
theorem Post.frame {t t' : Tree K V N M} {key : K} {val : V} {L B L' B' : List Nat} {E E' : List (K × V)}
    (h : Post t t' key val L B E L' B' E') {PL QL PB QB : List Nat} {PE QE : List (K × V)}
    (hl : (PL ++ L ++ QL).Nodup) (hllt : ∀ j ∈ PL ++ L ++ QL, j < t.leaves.length)
    (hb : (PB ++ B ++ QB).Nodup) (hblt : ∀ j ∈ PB ++ B ++ QB, j < t.branches.length)
    (hp : ∀ y ∈ PE, y.1 ≠ key) (hq : ∀ y ∈ QE, y.1 ≠ key) :
    Post t t' key val (PL ++ L ++ QL) (PB ++ B ++ QB) (PE ++ E ++ QE) (PL ++ L' ++ QL) (PB ++ B' ++ QB)
      (PE ++ E' ++ QE) := by
  refine ⟨h.root, h.depth, h.llen, h.blen, ?_, ?_, nodup_mid hl hllt h.lnd h.lsub,
    nodup_mid hb hblt h.bnd h.bsub, ?_, ?_, ?_, ⟨?_, ?_⟩, ?_, ?_, ?_⟩
  · intro j hj hn; exact h.lsame j hj (fun hh => hn (by simp [hh]))
  · intro j hj hn; exact h.bsame j hj (fun hh => hn (by simp [hh]))
  · intro j hj
    simp only [List.mem_append] at hj ⊢
    rcases hj with (hj | hj) | hj
    · exact Or.inl (Or.inl (Or.inl hj))
    · rcases h.lsub j hj with h1 | h1
      · exact Or.inl (Or.inl (Or.inr h1))
      · exact Or.inr h1
    · exact Or.inl (Or.inr hj)
  · intro j hj
    simp only [List.mem_append] at hj ⊢
    rcases hj with (hj | hj) | hj
    · exact Or.inl (Or.inl (Or.inl hj))
    · rcases h.bsub j hj with h1 | h1
      · exact Or.inl (Or.inl (Or.inr h1))
      · exact Or.inr h1
    · exact Or.inl (Or.inr hj)
  · intro j hj
    simp only [List.mem_append] at hj
    have := h.blen
    rcases hj with (hj | hj) | hj
    · have := hblt j (by simp [hj]); omega
    · exact h.blt j hj
    · have := hblt j (by simp [hj]); omega
  · intro j hj
    simp only [List.mem_append] at hj ⊢
    rcases hj with (hj | hj) | hj
    · exact Or.inl (Or.inl hj)
    · exact Or.inl (Or.inr (h.lcov.1 j hj))
    · exact Or.inr hj
  · intro j h1 h2
    simp only [List.mem_append]
    exact Or.inl (Or.inr (h.lcov.2 j h1 h2))
  · intro y
    simp only [List.mem_append]
    rw [h.ent y]
    constructor
    · rintro ((h1 | h1 | h1) | h1)
      · exact Or.inr ⟨hp y h1, Or.inl (Or.inl h1)⟩
      · exact Or.inl h1
      · exact Or.inr ⟨h1.1, Or.inl (Or.inr h1.2)⟩
      · exact Or.inr ⟨hq y h1, Or.inr h1⟩
    · rintro (h1 | ⟨h1, (h2 | h2) | h2⟩)
      · exact Or.inl (Or.inr (Or.inl h1))
      · exact Or.inl (Or.inl h2)
      · exact Or.inl (Or.inr (Or.inr ⟨h1, h2⟩))
      · exact Or.inr h2
  · intro X Y h1 h2 h3
    have := h.chain (X ++ PL) (QL ++ Y) (by simpa using h1) (by simpa using h2) (by simpa using h3)
    simpa using this
  · rcases h.order with ⟨h1, h2, h3⟩ | ⟨X, a, Y, h1, h2, h3, h4⟩
    · exact Or.inl ⟨h1, h2, by rw [h3]⟩
    · exact Or.inr ⟨PL ++ X, a, Y ++ QL, by rw [h1]; simp, by rw [h2]; simp, h3, h4⟩

/-- The branch node above is rewritten. -/
theorem Post.node {t t' : Tree K V N M} {key : K} {val : V} {L B L' B' : List Nat} {E E' : List (K × V)}
    (h : Post t t' key val L B E L' B' E') {a : Nat} (ha : a < t.branches.length) (hab : a ∉ B)
    (b' : Branch K N) :
    Post t { t' with branches := t'.branches.set a b' } key val L (a :: B) E L' (a :: B') E' := by
  have haB : a ∉ B' := by
    intro hh
    rcases h.bsub a hh with h1 | h1
    · exact hab h1
    · omega
  refine ⟨h.root, h.depth, h.llen, by simpa using h.blen, h.lsame, ?_, h.lnd, List.nodup_cons.2 ⟨haB, h.bnd⟩,
    h.lsub, ?_, ?_, h.lcov, h.ent, h.chain, h.order⟩
  · intro j hj hn
    rw [List.mem_cons, not_or] at hn
    show (t'.branches.set a b')[j]? = _
    rw [List.getElem?_set_ne (fun hh => hn.1 hh.symm)]
    exact h.bsame j hj hn.2
  · intro j hj
    rcases List.mem_cons.1 hj with rfl | hj
    · exact Or.inl (by simp)
    · rcases h.bsub j hj with h1 | h1
      · exact Or.inl (by simp [h1])
      · exact Or.inr h1
  · intro j hj
    show j < (t'.branches.set a b').length
    rw [List.length_set]
    rcases List.mem_cons.1 hj with rfl | hj
    · have := h.blen; omega
    · exact h.blt j hj

/-- The branch node above is rewritten and gets a new sibling. -/
theorem Post.node_split {t t' : Tree K V N M} {key : K} {val : V} {L B L' B' : List Nat}
    {E E' : List (K × V)} (h : Post t t' key val L B E L' B' E') {a : Nat} (ha : a < t.branches.length)
    (hab : a ∉ B) (b' sib : Branch K N) {B'' : List Nat} (hB : B''.Perm (a :: t'.branches.length :: B')) :
    Post t { t' with branches := t'.branches.set a b' ++ [sib] } key val L (a :: B) E L' B'' E' := by
  have haB : a ∉ B' := by
    intro hh
    rcases h.bsub a hh with h1 | h1
    · exact hab h1
    · omega
  have hs : t'.branches.length ∉ B' := fun hh => lt_irrefl _ (h.blt _ hh)
  have hbl := h.blen
  refine ⟨h.root, h.depth, h.llen, by simp; omega, h.lsame, ?_, h.lnd, ?_, h.lsub, ?_, ?_, h.lcov, h.ent, h.chain, h.order⟩
  · intro j hj hn
    rw [List.mem_cons, not_or] at hn
    show (t'.branches.set a b' ++ [sib])[j]? = _
    rw [List.getElem?_append_left (by simp; omega), List.getElem?_set_ne (fun hh => hn.1 hh.symm)]
    exact h.bsame j hj hn.2
  · rw [hB.nodup_iff]
    refine List.nodup_cons.2 ⟨?_, List.nodup_cons.2 ⟨hs, h.bnd⟩⟩
    rw [List.mem_cons, not_or]
    exact ⟨by omega, haB⟩
  · intro j hj
    rcases List.mem_cons.1 (hB.mem_iff.1 hj) with rfl | hj
    · exact Or.inl (by simp)
    · rcases List.mem_cons.1 hj with rfl | hj
      · exact Or.inr hbl
      · rcases h.bsub j hj with h1 | h1
        · exact Or.inl (by simp [h1])
        · exact Or.inr h1
  · intro j hj
    show j < (t'.branches.set a b' ++ [sib]).length
    rw [List.length_append, List.length_set, List.length_singleton]
    rcases List.mem_cons.1 (hB.mem_iff.1 hj) with rfl | hj
    · omega
    · rcases List.mem_cons.1 hj with rfl | hj
      · omega
      · have := h.blt j hj; omega

/-- What an insert into the tree `T` returns. -/
def Result (t t' : Tree K V N M) (key : K) (val : V) (d : Nat) (T : VT K V d) : Option (K × Nat) → Prop
  | none => ∃ T' : VT K V d, adrOf d T' = adrOf d T ∧ Rep t' d T' ∧ Ord d T' ∧
      (∀ P : K → Prop, Within P d T → P key → Within P d T') ∧
      Post t t' key val (leafs d T) (nodes d T) (ents d T) (leafs d T') (nodes d T') (ents d T')
  | some (sep, r) => ∃ T1 T2 : VT K V d, adrOf d T1 = adrOf d T ∧ adrOf d T2 = r ∧ Rep t' d T1 ∧ Rep t' d T2 ∧
      Ord d T1 ∧ Ord d T2 ∧ Within (· < sep) d T1 ∧ Within (sep ≤ ·) d T2 ∧
      (∀ P : K → Prop, Within P d T → P key → P sep ∧ Within P d T1 ∧ Within P d T2) ∧
      Post t t' key val (leafs d T) (nodes d T) (ents d T) (leafs d T1 ++ leafs d T2)
        (nodes d T1 ++ nodes d T2) (ents d T1 ++ ents d T2)

/-- An insert into a leaf without a split. -/
theorem leaf_result {t : Tree K V N M} {key : K} {val : V} {a : Nat} {es es' : List (Nat × K × V)}
    {l' : Leaf K V M} (ha : a < t.leaves.length) (hok : LeafOK l' es') (hne : es' ≠ [])
    (hent : ∀ y, y ∈ es'.map (·.2) ↔ y = (key, val) ∨ (y.1 ≠ key ∧ y ∈ es.map (·.2))) :
    Result t { t with leaves := t.leaves.set a l' } key val 0 (a, es) none := by
  refine ⟨(a, es'), rfl, ⟨l', ?_, hok⟩, ⟨hok.sorted, hne⟩, ?_, ?_⟩
  · show (t.leaves.set a l')[a]? = _
    rw [List.getElem?_set_self ha]
  · intro P hP hk e he
    rcases (hent e.2).1 (List.mem_map_of_mem he) with h1 | ⟨_, h1⟩
    · rw [h1]; exact hk
    · obtain ⟨x, hx, hxe⟩ := List.mem_map.1 h1
      rw [← hxe]; exact hP x hx
  · refine ⟨rfl, rfl, by simp, le_rfl, ?_, fun j _ _ => rfl, by simp [leafs], by simp [nodes], ?_, by simp [nodes],
      by simp [nodes], ⟨fun j hj => hj, ?_⟩, hent, fun X Y _ _ h => h, Or.inl ⟨by simp, rfl, rfl⟩⟩
    · intro j hj hn
      show (t.leaves.set a l')[j]? = _
      rw [List.getElem?_set_ne]
      intro hh; exact hn (by simp [leafs, hh])
    · intro j hj; exact Or.inl hj
    · intro j h1 h2
      simp only [List.length_set] at h2
      omega

theorem insertLeaf_gen (junk : Option Nat) (hM : 1 < M) {t : Tree K V N M} {key : K} (val : V) {a : Nat}
    {es : List (Nat × K × V)} (h : Rep t 0 (a, es)) (hmid : ¬ SplitsMiddle t key a) :
    ∃ t' sp, insertLeaf junk t a key val = .ok (t', sp) ∧ Result t t' key val 0 (a, es) sp := by
  obtain ⟨l, hl, hok⟩ := h
  have ha : a < t.leaves.length := (List.getElem?_eq_some_iff.1 hl).1
  simp only at hl hok
  have hleaf : t.leaf a = .ok l := by unfold Tree.leaf; rw [hl, Res.ofOption_some]
  by_cases hk : ∃ e ∈ es, e.2.1 = key
  · obtain ⟨⟨s, k0, w⟩, he, hek⟩ := hk
    simp only at hek
    subst hek
    obtain ⟨A, B, rfl⟩ := List.append_of_mem he
    obtain ⟨l', e1, h1⟩ := hok.insert_dup junk val
    refine ⟨_, none, ?_, leaf_result (key := k0) (val := val) ha h1 (by simp) ?_⟩
    · unfold insertLeaf
      rw [hleaf, Res.ok_bind, e1, Res.ok_bind]
      rfl
    · have hs := hok.sorted
      rw [List.pairwise_append, List.pairwise_cons] at hs
      intro y
      simp only [List.map_append, List.map_cons, List.mem_append, List.mem_cons, List.mem_map]
      constructor
      · rintro (⟨x, hx, rfl⟩ | rfl | ⟨x, hx, rfl⟩)
        · exact Or.inr ⟨ne_of_lt (hs.2.2 x hx (s, k0, w) (by simp)), Or.inl ⟨x, hx, rfl⟩⟩
        · exact Or.inl rfl
        · exact Or.inr ⟨ne_of_gt (hs.2.1.1 x hx), Or.inr (Or.inr ⟨x, hx, rfl⟩)⟩
      · rintro (h2 | ⟨h2, h3 | h3 | h3⟩)
        · exact Or.inr (Or.inl h2)
        · exact Or.inl h3
        · exact absurd (by rw [h3]) h2
        · exact Or.inr (Or.inr h3)
  · push Not at hk
    by_cases hfull : es.length = M
    · obtain ⟨l', r, ls, rs, e0, e1, h1, h2, h3, h4⟩ := hok.insert_full_ord junk hfull hM hk val
      have hnone : l.lookup key = .ok none := by
        rw [hok.lookup]
        congr 1
        rw [Option.map_eq_none_iff, List.find?_eq_none]
        intro e he
        simpa using hk e he
      have hlt := h4 (fun hh => hmid ⟨l, hleaf, by rw [hok.count, hfull], hh, hnone⟩)
      have hls : ls ≠ [] := by
        rintro rfl
        have h5 := h3.length_eq
        have h6 := h2.le
        simp only [List.nil_append, List.length_map, List.length_cons] at h5 h6
        omega
      have hent : ∀ y, y ∈ (ls ++ e0 :: rs).map (·.2) ↔ y = (key, val) ∨ (y.1 ≠ key ∧ y ∈ es.map (·.2)) := by
        intro y
        rw [h3.mem_iff, List.mem_cons]
        constructor
        · rintro (h5 | h5)
          · exact Or.inl h5
          · obtain ⟨x, hx, rfl⟩ := List.mem_map.1 h5
            exact Or.inr ⟨hk x hx, h5⟩
        · rintro (h5 | h5)
          · exact Or.inl h5
          · exact Or.inr h5.2
      have hP : ∀ P : K → Prop, Within P 0 ((a, es) : VT K V 0) → P key → ∀ e ∈ ls ++ e0 :: rs, P e.2.1 := by
        intro P hP hkey e he
        rcases (hent e.2).1 (List.mem_map_of_mem he) with h5 | ⟨_, h5⟩
        · rw [h5]; exact hkey
        · obtain ⟨x, hx, hxe⟩ := List.mem_map.1 h5
          rw [← hxe]; exact hP x hx
      refine ⟨{ t with leaves := t.leaves.set a l' ++ [r], next := linkAfter t.next a t.leaves.length },
        some (e0.2.1, t.leaves.length), ?_, (a, ls), (t.leaves.length, e0 :: rs), rfl, rfl, ⟨l', ?_, h1⟩,
        ⟨r, ?_, h2⟩, ⟨h1.sorted, hls⟩, ⟨h2.sorted, by simp⟩, hlt, ?_, ?_, ?_⟩
      · unfold insertLeaf
        rw [hleaf, Res.ok_bind, e1, Res.ok_bind]
        rfl
      · show (t.leaves.set a l' ++ [r])[a]? = _
        rw [List.getElem?_append_left (by simpa using ha), List.getElem?_set_self ha]
      · show (t.leaves.set a l' ++ [r])[t.leaves.length]? = _
        rw [List.getElem?_append_right (by simp)]
        simp
      · intro e he
        rcases List.mem_cons.1 he with rfl | he
        · exact le_rfl
        · exact le_of_lt ((List.pairwise_cons.1 h2.sorted).1 e he)
      · intro P hPT hkey
        have := hP P hPT hkey
        exact ⟨this e0 (by simp), fun e he => this e (by simp [he]),
          fun e he => this e (List.mem_append_right _ he)⟩
      · refine ⟨rfl, rfl, by simp, le_rfl, ?_, fun j _ _ => rfl, ?_, by simp [nodes], ?_, by simp [nodes],
          by simp [nodes], ⟨?_, ?_⟩, ?_, ?_, Or.inr ⟨[], a, [], rfl, rfl, by simp, rfl⟩⟩
        · intro j hj hn
          show (t.leaves.set a l' ++ [r])[j]? = _
          rw [List.getElem?_append_left (by simpa using hj), List.getElem?_set_ne]
          intro hh; exact hn (by simp [leafs, hh])
        · simp [leafs]; omega
        · intro j hj
          simp only [leafs, List.singleton_append, List.mem_cons, List.not_mem_nil, or_false] at hj
          rcases hj with rfl | rfl
          · exact Or.inl (by simp [leafs])
          · exact Or.inr le_rfl
        · intro j hj
          exact List.mem_append_left _ hj
        · intro j h5 h6
          simp only [List.length_append, List.length_set, List.length_singleton] at h6
          have : j = t.leaves.length := by omega
          subst this
          simp [leafs]
        · intro y
          rw [ents, ents, ← List.map_append]
          exact hent y
        · intro X Y hnd hlt' hlk
          simp only [leafs, List.append_assoc, List.singleton_append] at hnd hlt' hlk ⊢
          refine Linked.insert hlk hnd ?_
          intro hh
          exact absurd (hlt' _ hh) (lt_irrefl _)
    · have hlen : es.length < M := lt_of_le_of_ne hok.le hfull
      obtain ⟨l', A, B, u, hes, hA, hB, e1, h1⟩ := hok.insert_room junk hlen hk val
      refine ⟨_, none, ?_, leaf_result ha h1 (by simp) ?_⟩
      · unfold insertLeaf
        rw [hleaf, Res.ok_bind, e1, Res.ok_bind]
        rfl
      · subst hes
        intro y
        simp only [List.map_append, List.map_cons, List.mem_append, List.mem_cons, List.mem_map]
        constructor
        · rintro (⟨x, hx, rfl⟩ | rfl | ⟨x, hx, rfl⟩)
          · exact Or.inr ⟨ne_of_lt (hA x hx), Or.inl ⟨x, hx, rfl⟩⟩
          · exact Or.inl rfl
          · exact Or.inr ⟨ne_of_gt (hB x hx), Or.inr ⟨x, hx, rfl⟩⟩
        · rintro (h2 | ⟨h2, h3 | h3⟩)
          · exact Or.inr (Or.inl h2)
          · exact Or.inl h3
          · exact Or.inr (Or.inr h3)

/-! ## Branch nodes -/

theorem adr_split {α γ : Type} {g : α → γ} {xs : List (Nat × K × α)} {P Q : List (Nat × K × γ)}
    (h : adr g xs = P ++ Q) : ∃ p q, xs = p ++ q ∧ adr g p = P ∧ adr g q = Q := by
  obtain ⟨p, q, h1, h2, h3⟩ := List.map_eq_append_iff.1 h
  exact ⟨p, q, h1, h2, h3⟩

theorem adr_keys {α γ : Type} {g : α → γ} {xs : List (Nat × K × α)} {P : K → Prop} :
    (∀ e ∈ adr g xs, P e.2.1) ↔ ∀ x ∈ xs, P x.2.1 := by
  constructor
  · intro h x hx
    exact h (x.1, x.2.1, g x.2.2) (List.mem_map.2 ⟨x, hx, rfl⟩)
  · intro h e he
    obtain ⟨x, hx, rfl⟩ := List.mem_map.1 he
    exact h x hx

omit [LinearOrder K] in
theorem renum_adr {α γ : Type} (g : α → γ) (xs : List (Nat × K × α)) :
    renum (adr g xs) = adr g (renum xs) := by
  apply List.ext_getElem
  · simp [renum, adr]
  · intro i h1 h2
    simp [renum, adr]

theorem Srt.sortedKeys {d : Nat} {O : VT K V d → Prop} {xs : List (Nat × K × VT K V d)} {z : VT K V d}
    (h : Srt d O xs z) (g : VT K V d → Nat) : (adr g xs).Pairwise (fun a b => a.2.1 < b.2.1) :=
  List.pairwise_map.2 (h.pw.imp fun hxy => hxy.1)

/-- A child is replaced by one or two trees that hold one more key: the order and the bounds stay. -/
theorem ins_law {d : Nat} {p ys : List (Nat × K × VT K V d)} {z c1 c2 : VT K V d} {key sep : K}
    (h : Srt d (Ord d) (p ++ ys) z) (hp : ∀ x ∈ p, x.2.1 ≤ key) (hq : ∀ y ∈ ys, key < y.2.1)
    (ho1 : Ord d c1) (ho2 : Ord d c2) (h1 : Within (· < sep) d c1) (h2 : Within (sep ≤ ·) d c2)
    (hP : ∀ P : K → Prop, Within P d (first ys z) → P key → P sep ∧ Within P d c1 ∧ Within P d c2) (u : Nat) :
    Srt d (Ord d) (p ++ (u, sep, c1) :: (setF ys z c2).1) (setF ys z c2).2 ∧
    ∀ P : K → Prop, WithinL P d (p ++ ys) z → P key →
      WithinL P d (p ++ (u, sep, c1) :: (setF ys z c2).1) (setF ys z c2).2 := by
  obtain ⟨_, hlo, hhi⟩ := h.first
  refine ⟨h.ins u ho1 ho2 ?_ ?_ h1 h2, ?_⟩
  · intro x hx
    obtain ⟨_, g1, g2⟩ := hP (x.2.1 ≤ ·) (hlo x hx) (hp x hx)
    obtain ⟨y, hy⟩ := List.exists_mem_of_ne_nil _ (ho1.ne_nil d _)
    exact ⟨lt_of_le_of_lt (g1.ents d _ y hy) (h1.ents d _ y hy), g1, g2⟩
  · intro y hy
    obtain ⟨g0, _, g2⟩ := hP (· < y.2.1) (hhi y hy) (hq y hy)
    exact ⟨g0, g2⟩
  · intro P hPL hk
    obtain ⟨g0, g1, g2⟩ := hP P hPL.first hk
    exact hPL.ins g0 g1 g2

theorem set_law {d : Nat} {p ys : List (Nat × K × VT K V d)} {z c : VT K V d} {key : K}
    (h : Srt d (Ord d) (p ++ ys) z) (hp : ∀ x ∈ p, x.2.1 ≤ key) (hq : ∀ y ∈ ys, key < y.2.1)
    (ho : Ord d c) (hP : ∀ P : K → Prop, Within P d (first ys z) → P key → Within P d c) :
    Srt d (Ord d) (p ++ (setF ys z c).1) (setF ys z c).2 ∧
    ∀ P : K → Prop, WithinL P d (p ++ ys) z → P key →
      WithinL P d (p ++ (setF ys z c).1) (setF ys z c).2 := by
  obtain ⟨_, hlo, hhi⟩ := h.first
  exact ⟨h.set ho (fun x hx => hP _ (hlo x hx) (hp x hx)) (fun y hy => hP _ (hhi y hy) (hq y hy)),
    fun P hPL hk => hPL.set (hP P hPL.first hk)⟩

/-- The key of an insert is not below the other children. -/
theorem others_ne {d : Nat} {p ys : List (Nat × K × VT K V d)} {z : VT K V d} {key : K}
    (h : Srt d (Ord d) (p ++ ys) z) (hp : ∀ x ∈ p, x.2.1 ≤ key) (hq : ∀ y ∈ ys, key < y.2.1) :
    (∀ y ∈ p.flatMap (fun x => ents d x.2.2), y.1 ≠ key) ∧ (∀ y ∈ tl (ents d) ys z, y.1 ≠ key) := by
  constructor
  · intro y hy
    obtain ⟨x, hx, hxy⟩ := List.mem_flatMap.1 hy
    exact ne_of_lt (lt_of_lt_of_le ((h.lt x (by simp [hx])).ents d _ y hxy) (hp x hx))
  · intro y hy
    cases ys with
    | nil => simp [tl] at hy
    | cons e ys =>
      have hpw := h.pw
      rw [List.pairwise_append, List.pairwise_cons] at hpw
      have he := hq e (by simp)
      rcases List.mem_append.1 hy with h1 | h1
      · obtain ⟨x, hx, hxy⟩ := List.mem_flatMap.1 h1
        exact ne_of_gt (lt_of_lt_of_le he ((hpw.2.1.1 x hx).2.ents d _ y hxy))
      · exact ne_of_gt (lt_of_lt_of_le he ((h.last e (by simp)).ents d _ y h1))

/-- The other children stay in the heap. -/
theorem others_rep {t t' : Tree K V N M} {d : Nat} {p ys : List (Nat × K × VT K V d)} {z : VT K V d}
    (hx : ∀ x ∈ p ++ ys, Rep t d x.2.2) (hz : Rep t d z)
    (hl : (fl (leafs d) (p ++ ys) z).Nodup) (hn : (fl (nodes d) (p ++ ys) z).Nodup)
    (hls : ∀ j < t.leaves.length, j ∉ leafs d (first ys z) → t'.leaves[j]? = t.leaves[j]?)
    (hbs : ∀ j < t.branches.length, j ∉ nodes d (first ys z) → t'.branches[j]? = t.branches[j]?) :
    (∀ x ∈ p, Rep t' d x.2.2) ∧ ∀ c, Rep t' d c →
      (∀ y ∈ (setF ys z c).1, Rep t' d y.2.2) ∧ Rep t' d (setF ys z c).2 := by
  rw [fl_append, fl_first] at hl hn
  have hpq : ∀ c : VT K V d, Rep t d c →
      (∀ j ∈ leafs d c, j ∈ p.flatMap (fun x => leafs d x.2.2) ∨ j ∈ tl (leafs d) ys z) →
      (∀ j ∈ nodes d c, j ∈ p.flatMap (fun x => nodes d x.2.2) ∨ j ∈ tl (nodes d) ys z) → Rep t' d c := by
    intro c hc h1 h2
    refine hc.frame d c (fun j hj => hls j (hc.leaf_lt d c j hj) ?_) (fun j hj => hbs j (hc.node_lt d c j hj) ?_)
    · intro hh
      rw [List.nodup_append, List.nodup_append] at hl
      rcases h1 j hj with h1 | h1
      · exact hl.2.2 j h1 j (by simp [hh]) rfl
      · exact hl.2.1.2.2 j hh j h1 rfl
    · intro hh
      rw [List.nodup_append, List.nodup_append] at hn
      rcases h2 j hj with h2 | h2
      · exact hn.2.2 j h2 j (by simp [hh]) rfl
      · exact hn.2.1.2.2 j hh j h2 rfl
  constructor
  · intro x hxp
    exact hpq _ (hx x (by simp [hxp])) (fun j hj => Or.inl (List.mem_flatMap.2 ⟨x, hxp, hj⟩))
      (fun j hj => Or.inl (List.mem_flatMap.2 ⟨x, hxp, hj⟩))
  · intro c hc
    cases ys with
    | nil => exact ⟨by simp [setF], hc⟩
    | cons e ys =>
      refine ⟨?_, ?_⟩
      · intro y hy
        simp only [setF] at hy
        rcases List.mem_cons.1 hy with rfl | hy
        · exact hc
        · exact hpq _ (hx y (by simp [hy]))
            (fun j hj => Or.inr (List.mem_append_left _ (List.mem_flatMap.2 ⟨y, hy, hj⟩)))
            (fun j hj => Or.inr (List.mem_append_left _ (List.mem_flatMap.2 ⟨y, hy, hj⟩)))
      · exact hpq _ hz (fun j hj => Or.inr (List.mem_append_right _ hj))
          (fun j hj => Or.inr (List.mem_append_right _ hj))

theorem first_rep {t : Tree K V N M} {d : Nat} {p ys : List (Nat × K × VT K V d)} {z : VT K V d}
    (hx : ∀ x ∈ p ++ ys, Rep t d x.2.2) (hz : Rep t d z) : Rep t d (first ys z) := by
  cases ys with
  | nil => exact hz
  | cons e ys => exact hx e (by simp)

omit [LinearOrder K] in
theorem Tree.branch_ok {t : Tree K V N M} {a : Nat} {b : Branch K N} (h : t.branches[a]? = some b) :
    t.branch a = .ok b := by
  unfold Tree.branch
  rw [h, Res.ofOption_some]

/-- The heap behind an insert that rewrites the node `a` and may add a sibling. -/
theorem Rep.rewrite {t : Tree K V N M} {d : Nat} {T : VT K V d} (h : Rep t d T) {a : Nat} (ha : a ∉ nodes d T)
    (b : Branch K N) (ss : List (Branch K N)) :
    Rep { t with branches := t.branches.set a b ++ ss } d T := by
  refine h.frame d T (fun j _ => rfl) (fun j hj => ?_)
  show (t.branches.set a b ++ ss)[j]? = _
  have := h.node_lt d T j hj
  rw [List.getElem?_append_left (by simpa using this), List.getElem?_set_ne]
  rintro rfl
  exact ha hj

/-- The children of a node are in the heap. -/
def RepL (t : Tree K V N M) (d : Nat) (xs : List (Nat × K × VT K V d)) (z : VT K V d) : Prop :=
  (∀ x ∈ xs, Rep t d x.2.2) ∧ Rep t d z

theorem RepL.rewrite {t : Tree K V N M} {d : Nat} {xs : List (Nat × K × VT K V d)} {z : VT K V d}
    (h : RepL t d xs z) {a : Nat} (ha : a ∉ fl (nodes d) xs z) (b : Branch K N) (ss : List (Branch K N)) :
    RepL { t with branches := t.branches.set a b ++ ss } d xs z :=
  ⟨fun x hx => (h.1 x hx).rewrite (fun hh => ha (List.mem_append_left _ (List.mem_flatMap.2 ⟨x, hx, hh⟩))) b ss,
    h.2.rewrite (fun hh => ha (List.mem_append_right _ hh)) b ss⟩

theorem RepL.snd {t : Tree K V N M} {d : Nat} {xs ys : List (Nat × K × VT K V d)} {z : VT K V d}
    (he : xs.map (·.2) = ys.map (·.2)) (h : RepL t d xs z) : RepL t d ys z := by
  refine ⟨fun y hy => ?_, h.2⟩
  have : y.2 ∈ xs.map (·.2) := by rw [he]; exact List.mem_map_of_mem hy
  obtain ⟨x, hx, hxy⟩ := List.mem_map.1 this
  rw [← hxy]
  exact h.1 x hx

theorem RepL.cut {t : Tree K V N M} {d : Nat} {a b : List (Nat × K × VT K V d)} {e : Nat × K × VT K V d}
    {z : VT K V d} (h : RepL t d (a ++ e :: b) z) : RepL t d a e.2.2 ∧ RepL t d b z :=
  ⟨⟨fun x hx => h.1 x (by simp [hx]), h.1 e (by simp)⟩, ⟨fun x hx => h.1 x (by simp [hx]), h.2⟩⟩

theorem RepL.ins {t : Tree K V N M} {d : Nat} {p ys : List (Nat × K × VT K V d)} {z c1 c2 : VT K V d}
    (hp : ∀ x ∈ p, Rep t d x.2.2) (hq : (∀ y ∈ (setF ys z c2).1, Rep t d y.2.2) ∧ Rep t d (setF ys z c2).2)
    (h1 : Rep t d c1) (u : Nat) (sep : K) :
    RepL t d (p ++ (u, sep, c1) :: (setF ys z c2).1) (setF ys z c2).2 := by
  refine ⟨fun x hx => ?_, hq.2⟩
  simp only [List.mem_append, List.mem_cons] at hx
  rcases hx with h | rfl | h
  · exact hp x h
  · exact h1
  · exact hq.1 x h

theorem add_adr {d : Nat} {p ys : List (Nat × K × VT K V d)} {z c1 c2 : VT K V d} {b : Branch K N}
    (hb : BrOK b (adr (adrOf d) (p ++ ys)) (adrOf d z)) (hlen : (p ++ ys).length < N) (sep : K) :
    ∃ b' u, b.add (p.length + 1) sep (adrOf d c1) (adrOf d c2) = .ok b' ∧
      BrOK b' (adr (adrOf d) (p ++ (u, sep, c1) :: (setF ys z c2).1)) (adrOf d (setF ys z c2).2) := by
  rw [adr_append] at hb
  obtain ⟨b', u, e, hb'⟩ := hb.add (by rw [← adr_append, adr_length]; exact hlen) sep (adrOf d c1) (adrOf d c2)
  rw [adr_length] at e
  refine ⟨b', u, e, ?_⟩
  rw [setF_adr] at hb'
  rw [adr_append]
  exact hb'

theorem pos_adr {d : Nat} {p ys : List (Nat × K × VT K V d)} {z : VT K V d} {b : Branch K N} {key : K}
    (hb : BrOK b (adr (adrOf d) (p ++ ys)) (adrOf d z)) (hs : Srt d (Ord d) (p ++ ys) z)
    (hp : ∀ x ∈ p, x.2.1 ≤ key) (hq : ∀ y ∈ ys, key < y.2.1) : b.pos key = .ok (p.length + 1) := by
  have := hb.pos_eq (hs.sortedKeys _) (adr_append _ _ _) (k := key) (adr_keys (P := (· ≤ key)).2 hp)
    (adr_keys (P := (key < ·)).2 hq)
  rw [this, adr_length]

/-- A full node is split. -/
theorem split_adr (junk : Option Nat) {d : Nat} {xs : List (Nat × K × VT K V d)} {z : VT K V d}
    {b : Branch K N} (hb : BrOK b (adr (adrOf d) xs) (adrOf d z)) (hfull : xs.length = N) (hN : 1 < N) (sep : K) :
    ∃ A e B b' sib, xs = A ++ e :: B ∧ b.split junk sep = .ok (b', e.2.1, sib) ∧
      BrOK b' (adr (adrOf d) A) (adrOf d e.2.2) ∧ BrOK sib (adr (adrOf d) (renum B)) (adrOf d z) := by
  have hm : (N + 1) / 2 - 1 < xs.length := by omega
  obtain ⟨m, hm1, hm2, hmm⟩ : ∃ m, 1 ≤ m ∧ m ≤ N ∧
      m = if xs[(N + 1) / 2 - 1].2.1 < sep then (N + 1) / 2 + 1 else (N + 1) / 2 := by
    refine ⟨_, ?_, ?_, rfl⟩ <;> split <;> omega
  have hcut : xs = xs.take (m - 1) ++ xs[m - 1] :: xs.drop m := by
    have h1 := List.take_append_drop (m - 1) xs
    rw [List.drop_eq_getElem_cons (by omega), show m - 1 + 1 = m by omega] at h1
    exact h1.symm
  have hcut' : adr (adrOf d) xs = adr (adrOf d) (xs.take (m - 1)) ++
      (xs[m - 1].1, xs[m - 1].2.1, adrOf d xs[m - 1].2.2) :: adr (adrOf d) (xs.drop m) := by
    conv_lhs => rw [hcut]
    rw [adr_append]
    rfl
  have hb2 := hb
  rw [hcut'] at hb2
  obtain ⟨b', sib, e1, h1, h2⟩ := hb2.split junk (by rw [← hcut', adr_length, hfull]) sep
    (e0 := (xs[(N + 1) / 2 - 1].1, xs[(N + 1) / 2 - 1].2.1, adrOf d xs[(N + 1) / 2 - 1].2.2)) (by
      rw [← hcut']
      unfold adr
      rw [List.getElem?_map, List.getElem?_eq_getElem hm]
      rfl) (by
      rw [adr_length, List.length_take]
      simp only []
      omega)
  exact ⟨_, _, _, b', sib, hcut, e1, h1, by rw [← renum_adr]; exact h2⟩

/-- An insert into an ordered tree. -/
theorem insertAux_gen (junk : Option Nat) (hM : 1 < M) (hN : 1 < N) {t : Tree K V N M} (key : K) (val : V) :
    ∀ (d : Nat) (T : VT K V d), Rep t d T → (Ord d T ∨ d = 0) → (leafs d T).Nodup → (nodes d T).Nodup →
    (∀ a, insLeaf t key d (adrOf d T) = .ok a → ¬ SplitsMiddle t key a) →
    ∃ t' sp, insertAux junk key val d t (adrOf d T) = .ok (t', sp) ∧ Result t t' key val d T sp := by
  intro d
  induction d with
  | zero =>
    rintro ⟨a, es⟩ hT _ _ _ hmid
    exact insertLeaf_gen junk hM val hT (hmid a rfl)
  | succ d ih =>
    rintro ⟨a, xs, z⟩ ⟨⟨b, hba, hb⟩, hrx, hrz⟩ hOrd hl hn hmid
    have hs : Srt d (Ord d) xs z := hOrd.resolve_right (by omega)
    clear hOrd
    simp only [] at hba hb hrx hrz
    have hT : Rep t (d + 1) ((a, xs, z) : VT K V (d + 1)) := ⟨⟨b, hba, hb⟩, hrx, hrz⟩
    have hllt := hT.leaf_lt
    have hnlt := hT.node_lt
    rw [leafs] at hl hllt
    rw [nodes] at hn hnlt
    simp only [] at hl hn hllt hnlt
    have ha : a < t.branches.length := hnlt a (by simp)
    have han := (List.nodup_cons.1 hn).1
    have hn' := (List.nodup_cons.1 hn).2
    -- the child
    obtain ⟨P, Q, hPQ, epos, hP, hQ⟩ := hb.pos (hs.sortedKeys _) key
    obtain ⟨p, ys, rfl, rfl, rfl⟩ := adr_split hPQ
    replace hP := adr_keys (P := (· ≤ key)).1 hP
    replace hQ := adr_keys (P := (key < ·)).1 hQ
    rw [adr_length] at epos
    have echild : b.child (p.length + 1) = .ok (adrOf d (first ys z)) := by
      have h1 := hb
      rw [adr_append] at h1
      have := h1.child
      rwa [adr_length, first_adr] at this
    have hrc := first_rep hrx hrz
    have hoc := hs.first.1
    have hl2 := hl
    have hn2 := hn'
    have hllt2 := hllt
    have hnlt2 : ∀ j ∈ fl (nodes d) (p ++ ys) z, j < t.branches.length := fun j hj => hnlt j (by simp [hj])
    rw [fl_append, fl_first, ← List.append_assoc] at hl2 hn2 hllt2 hnlt2
    obtain ⟨t1, sp, e1, hres⟩ := ih (first ys z) hrc (Or.inl hoc)
      (List.nodup_append.1 (List.nodup_append.1 hl2).1).2.1
      (List.nodup_append.1 (List.nodup_append.1 hn2).1).2.1 (by
        intro a' ha'
        refine hmid a' ?_
        show insLeaf t key (d + 1) a = _
        rw [insLeaf, Tree.branch_ok hba, Res.ok_bind, epos, Res.ok_bind, echild, Res.ok_bind]
        exact ha')
    obtain ⟨hne1, hne2⟩ := others_ne hs hP hQ
    have eaux : insertAux junk key val (d + 1) t a = (do
        let (t, sp) ← (Res.ok (t1, sp) : Res (Tree K V N M × Option (K × Nat)))
        match sp with
        | none => pure (t, none)
        | some (sep, r) => do
          let b ← t.branch a
          let n ← b.slot.rd (N + 1) 0
          if n = N then do
            let (b, up, sib) ← b.split junk sep
            if key < up then do
              let p ← b.pos key
              let b ← b.add p sep (adrOf d (first ys z)) r
              pure ({ t with branches := t.branches.set a b ++ [sib] }, some (up, t.branches.length))
            else do
              let p ← sib.pos key
              let sib ← sib.add p sep (adrOf d (first ys z)) r
              pure ({ t with branches := t.branches.set a b ++ [sib] }, some (up, t.branches.length))
          else do
            let b ← b.add (p.length + 1) sep (adrOf d (first ys z)) r
            pure ({ t with branches := t.branches.set a b }, none)) := by
      rw [insertAux, Tree.branch_ok hba, Res.ok_bind, epos, Res.ok_bind, echild, Res.ok_bind, e1]
      rfl
    show ∃ t' sp, insertAux junk key val (d + 1) t a = .ok (t', sp) ∧ _
    rw [eaux, Res.ok_bind]
    cases sp with
    | none =>
      obtain ⟨c', hadr, hrc', hoc', hPc, hpost⟩ := hres
      refine ⟨t1, none, rfl, ?_⟩
      have hpost2 := hpost.frame hl2 hllt2 hn2 hnlt2 hne1 hne2
      obtain ⟨hrp, hrq⟩ := others_rep hrx hrz hl hn' hpost.lsame hpost.bsame
      obtain ⟨hs', hPs⟩ := set_law hs hP hQ hoc' hPc
      have hba1 : t1.branches[a]? = some b := by
        rw [← hba]
        refine hpost2.bsame a ha ?_
        intro hh
        rw [fl_append, fl_first, ← List.append_assoc] at han
        exact han hh
      refine ⟨(a, p ++ (setF ys z c').1, (setF ys z c').2), rfl, ⟨⟨b, hba1, ?_⟩, ?_, (hrq c' hrc').2⟩, hs', ?_, ?_⟩
      · obtain ⟨h1, h2⟩ := setF_adr_eq (adrOf d) (xs := ys) (z := z) (c := c') hadr
        simp only []
        rw [adr_append, h1, h2, ← adr_append]
        exact hb
      · intro x hx
        rcases List.mem_append.1 hx with hx | hx
        · exact hrp x hx
        · exact (hrq c' hrc').1 x hx
      · intro P h1 h2; exact hPs P h1 h2
      · have hset : t1.branches.set a b = t1.branches := by
          apply List.ext_getElem?
          intro j
          by_cases hj : a = j
          · subst hj
            rw [List.getElem?_set_self (List.getElem?_eq_some_iff.1 hba1).1, hba1]
          · rw [List.getElem?_set_ne hj]
        have h1 := hpost2.node ha (by rw [fl_append, fl_first, ← List.append_assoc] at han; exact han) b
        rw [hset] at h1
        simp only [leafs, nodes, ents, fl_append, fl_setF]
        rw [fl_first (leafs d) ys z, fl_first (nodes d) ys z, fl_first (ents d) ys z, ← List.append_assoc,
          ← List.append_assoc, ← List.append_assoc, ← List.append_assoc, ← List.append_assoc, ← List.append_assoc]
        exact h1
    | some sr =>
      obtain ⟨sep, r⟩ := sr
      obtain ⟨c1, c2, hadr1, hadr2, hr1, hr2, ho1, ho2, hw1, hw2, hPc, hpost⟩ := hres
      have hpost2 := hpost.frame hl2 hllt2 hn2 hnlt2 hne1 hne2
      obtain ⟨hrp, hrq⟩ := others_rep hrx hrz hl hn' hpost.lsame hpost.bsame
      have hrq2 := hrq c2 hr2
      have han2 := han
      rw [fl_append, fl_first, ← List.append_assoc] at han2
      have hba1 : t1.branches[a]? = some b := by
        rw [← hba]
        exact hpost2.bsame a ha han2
      have ha1 : a < t1.branches.length := (List.getElem?_eq_some_iff.1 hba1).1
      have hanew : a ∉ p.flatMap (fun x => nodes d x.2.2) ++ (nodes d c1 ++ nodes d c2) ++
          tl (nodes d) ys z := by
        intro hh
        rcases hpost2.bsub a hh with h1 | h1
        · exact han2 h1
        · omega
      have hflat : ∀ {β : Type} (f : VT K V d → List β) (u : Nat),
          fl f (p ++ (u, sep, c1) :: (setF ys z c2).1) (setF ys z c2).2 =
          p.flatMap (fun x => f x.2.2) ++ (f c1 ++ f c2) ++ tl f ys z := by
        intro β f u
        rw [fl_append, fl_cons, fl_setF]
        simp
      dsimp only
      rw [Tree.branch_ok hba1, Res.ok_bind, hb.count, Res.ok_bind, adr_length, ← hadr1, ← hadr2]
      by_cases hfull : (p ++ ys).length = N
      · rw [if_pos hfull]
        obtain ⟨A, e, B, b1, sib, hcut, esplit, hbl, hbr⟩ := split_adr junk hb hfull hN sep
        rw [esplit, Res.ok_bind]
        dsimp only
        have hs2 := hs
        rw [hcut] at hs2
        obtain ⟨hsA, hsB, hwA, hwB⟩ := hs2.cut
        have hlenAB : A.length + 1 + B.length = N := by
          rw [← hfull, hcut]; simp; omega
        have hRsnd : (renum B).map (·.2) = B.map (·.2) := renum_snd B
        have hPOST := fun (b' sib' : Branch K N) (B'' : List Nat) (hB : B''.Perm (a :: t1.branches.length ::
            (p.flatMap (fun x => nodes d x.2.2) ++ (nodes d c1 ++ nodes d c2) ++ tl (nodes d) ys z))) =>
          hpost2.node_split ha han2 b' sib' hB
        have hT0 : ∀ {β : Type} (f : VT K V d → List β), fl f (p ++ ys) z =
            p.flatMap (fun x => f x.2.2) ++ f (first ys z) ++ tl f ys z := by
          intro β f; rw [fl_append, fl_first, List.append_assoc]
        by_cases hk : key < e.2.1
        · rw [if_pos hk]
          -- the new separator belongs to the left half
          obtain ⟨A2, rfl, rfl⟩ : ∃ A2, A = p ++ A2 ∧ ys = A2 ++ e :: B := by
            rcases List.append_eq_append_iff.1 hcut with ⟨as, h1, h2⟩ | ⟨bs, h1, h2⟩
            · exact ⟨as, h1, h2⟩
            · cases bs with
              | nil => exact ⟨[], by simpa using h1.symm, by simpa using h2.symm⟩
              | cons x bs =>
                exfalso
                simp only [List.cons_append, List.cons.injEq] at h2
                have := hP x (by rw [h1]; simp)
                rw [← h2.1] at this
                exact absurd hk (not_lt.2 this)
          have hQ2 : ∀ y ∈ A2, key < y.2.1 := fun y hy => hQ y (by simp [hy])
          rw [pos_adr hbl hsA hP hQ2, Res.ok_bind]
          obtain ⟨b', u, eadd, hb'⟩ := add_adr (c1 := c1) (c2 := c2) hbl (by rw [List.length_append] at hlenAB ⊢; omega) sep
          rw [eadd, Res.ok_bind]
          rw [first_split] at hPc
          obtain ⟨hs', hPs⟩ := ins_law hsA hP hQ2 ho1 ho2 hw1 hw2 hPc u
          have hfl : ∀ {β : Type} (f : VT K V d → List β),
              fl f (p ++ (u, sep, c1) :: (setF A2 e.2.2 c2).1) (setF A2 e.2.2 c2).2 ++ fl f (renum B) z =
              p.flatMap (fun x => f x.2.2) ++ (f c1 ++ f c2) ++ tl f (A2 ++ e :: B) z := by
            intro β f
            rw [fl_append, fl_cons, fl_setF, fl_snd f hRsnd, tl_split]
            simp
          have hrl0 := RepL.ins hrp hrq2 hr1 u sep
          have hrlA : RepL t1 d (p ++ (u, sep, c1) :: (setF A2 e.2.2 c2).1) (setF A2 e.2.2 c2).2 := by
            cases A2 with
            | nil => exact (RepL.cut (a := p ++ [(u, sep, c1)]) (by simpa [setF] using hrl0)).1
            | cons x A2 =>
              exact (RepL.cut (a := p ++ (u, sep, c1) :: (x.1, x.2.1, c2) :: A2) (by simpa [setF] using hrl0)).1
          have hrlB : RepL t1 d (renum B) z := by
            refine RepL.snd hRsnd.symm ?_
            cases A2 with
            | nil => exact (RepL.cut (a := p ++ [(u, sep, c1)]) (by simpa [setF] using hrl0)).2
            | cons x A2 =>
              exact (RepL.cut (a := p ++ (u, sep, c1) :: (x.1, x.2.1, c2) :: A2) (by simpa [setF] using hrl0)).2
          have han3 := hanew
          rw [← hfl, List.mem_append, not_or] at han3
          have hrlA' := hrlA.rewrite han3.1 b' [sib]
          have hrlB' := hrlB.rewrite han3.2 b' [sib]
          refine ⟨_, some (e.2.1, t1.branches.length), rfl,
            (a, p ++ (u, sep, c1) :: (setF A2 e.2.2 c2).1, (setF A2 e.2.2 c2).2),
            (t1.branches.length, renum B, z), rfl, rfl, ⟨⟨b', ?_, hb'⟩, hrlA'.1, hrlA'.2⟩,
            ⟨⟨sib, ?_, hbr⟩, hrlB'.1, hrlB'.2⟩, hs', hsB.snd hRsnd.symm, hPs _ hwA hk, hwB.snd hRsnd.symm, ?_, ?_⟩
          · show (t1.branches.set a b' ++ [sib])[a]? = _
            rw [List.getElem?_append_left (by simpa using ha1), List.getElem?_set_self ha1]
          · show (t1.branches.set a b' ++ [sib])[t1.branches.length]? = _
            rw [List.getElem?_append_right (by simp)]
            simp
          · intro P hPT hPk
            have hPT' : WithinL P d (p ++ A2 ++ e :: B) z := by
              rw [← hcut]; exact hPT
            refine ⟨(hPT'.1 e (by simp)).1, hPs P ⟨fun x hx => hPT'.1 x (by
              rw [List.mem_append] at hx ⊢; exact Or.inl (List.mem_append.2 hx)), (hPT'.1 e (by simp)).2⟩ hPk, ?_⟩
            exact WithinL.snd hRsnd.symm ⟨fun x hx => hPT'.1 x (by simp [hx]), hPT'.2⟩
          · simp only [leafs, nodes, ents]
            rw [hT0, hT0, hT0, hfl, hfl]
            refine hPOST b' sib _ ?_
            rw [← hfl, List.cons_append]
            exact List.Perm.cons a List.perm_middle
        · rw [if_neg hk]
          -- the new separator belongs to the right half
          obtain ⟨p2, rfl, rfl⟩ : ∃ p2, p = A ++ e :: p2 ∧ B = p2 ++ ys := by
            rcases List.append_eq_append_iff.1 hcut with ⟨as, h1, h2⟩ | ⟨bs, h1, h2⟩
            · exfalso
              exact hk (hQ e (by rw [h2]; simp))
            · cases bs with
              | nil =>
                exfalso
                exact hk (hQ e (by rw [List.nil_append] at h2; rw [← h2]; simp))
              | cons x bs =>
                simp only [List.cons_append, List.cons.injEq] at h2
                obtain ⟨rfl, h2⟩ := h2
                exact ⟨bs, h1, h2⟩
          obtain ⟨q2, ys', hR, hq2, hys'⟩ : ∃ q2 ys', renum (p2 ++ ys) = q2 ++ ys' ∧
              q2.map (·.2) = p2.map (·.2) ∧ ys'.map (·.2) = ys.map (·.2) := by
            have h1 := renum_snd (p2 ++ ys)
            rw [List.map_append] at h1
            obtain ⟨q2, ys', h2, h3, h4⟩ := List.map_eq_append_iff.1 h1
            exact ⟨q2, ys', h2, h3, h4⟩
          have hkeys : ∀ {P : K → Prop} {xs ws : List (Nat × K × VT K V d)}, xs.map (·.2) = ws.map (·.2) →
              (∀ x ∈ ws, P x.2.1) → ∀ x ∈ xs, P x.2.1 := by
            intro P xs ws he h x hx
            have : x.2 ∈ ws.map (·.2) := by rw [← he]; exact List.mem_map_of_mem hx
            obtain ⟨w, hw, hwx⟩ := List.mem_map.1 this
            rw [← hwx]
            exact h w hw
          have hP2 : ∀ x ∈ q2, x.2.1 ≤ key :=
            hkeys (P := (· ≤ key)) hq2 (fun x hx => hP x (by simp [hx]))
          have hQ2 : ∀ y ∈ ys', key < y.2.1 := hkeys (P := (key < ·)) hys' hQ
          have hsR : Srt d (Ord d) (q2 ++ ys') z := by rw [← hR]; exact hsB.snd hRsnd.symm
          have hwR : WithinL (e.2.1 ≤ ·) d (q2 ++ ys') z := by rw [← hR]; exact hwB.snd hRsnd.symm
          have hlenR : (q2 ++ ys').length < N := by rw [← hR, renum_length]; omega
          rw [hR] at hbr
          rw [pos_adr hbr hsR hP2 hQ2, Res.ok_bind]
          obtain ⟨b', u, eadd, hb'⟩ := add_adr (c1 := c1) (c2 := c2) hbr hlenR sep
          rw [eadd, Res.ok_bind]
          rw [← first_snd hys'] at hPc
          obtain ⟨hs', hPs⟩ := ins_law hsR hP2 hQ2 ho1 ho2 hw1 hw2 hPc u
          have hflm : ∀ {β : Type} (f : VT K V d → List β) {xs ws : List (Nat × K × VT K V d)},
              xs.map (·.2) = ws.map (·.2) → xs.flatMap (fun x => f x.2.2) = ws.flatMap (fun x => f x.2.2) := by
            intro β f xs ws he
            have : ∀ l : List (Nat × K × VT K V d), l.flatMap (fun x => f x.2.2) =
                (l.map (·.2)).flatMap (fun x => f x.2) := by
              intro l; rw [List.flatMap_map]
            rw [this, this, he]
          have hfl : ∀ {β : Type} (f : VT K V d → List β),
              fl f A e.2.2 ++ fl f (q2 ++ (u, sep, c1) :: (setF ys' z c2).1) (setF ys' z c2).2 =
              (A ++ e :: p2).flatMap (fun x => f x.2.2) ++ (f c1 ++ f c2) ++ tl f ys z := by
            intro β f
            rw [fl_append, fl_cons, fl_setF, tl_snd f hys', hflm f hq2]
            simp [fl]
          have hsetsnd : (setF ys' z c2).1.map (·.2) = (setF ys z c2).1.map (·.2) ∧
              (setF ys' z c2).2 = (setF ys z c2).2 := by
            cases ys' with
            | nil =>
              cases ys with
              | nil => exact ⟨rfl, rfl⟩
              | cons y ys => simp at hys'
            | cons x ys' =>
              cases ys with
              | nil => simp at hys'
              | cons y ys =>
                simp only [List.map_cons, List.cons.injEq] at hys'
                exact ⟨by simp [setF, hys'.1, hys'.2], rfl⟩
          have hrl0 := RepL.ins hrp hrq2 hr1 u sep
          rw [List.append_assoc, List.cons_append] at hrl0
          have hrlA := hrl0.cut.1
          have hrlB : RepL t1 d (q2 ++ (u, sep, c1) :: (setF ys' z c2).1) (setF ys' z c2).2 := by
            rw [hsetsnd.2]
            refine RepL.snd ?_ hrl0.cut.2
            simp only [List.map_append, List.map_cons, hq2, hsetsnd.1]
          have han3 := hanew
          rw [← hfl, List.mem_append, not_or] at han3
          have hrlA' := hrlA.rewrite han3.1 b1 [b']
          have hrlB' := hrlB.rewrite han3.2 b1 [b']
          have hke : e.2.1 ≤ key := not_lt.1 hk
          refine ⟨_, some (e.2.1, t1.branches.length), rfl, (a, A, e.2.2),
            (t1.branches.length, q2 ++ (u, sep, c1) :: (setF ys' z c2).1, (setF ys' z c2).2), rfl, rfl,
            ⟨⟨b1, ?_, hbl⟩, hrlA'.1, hrlA'.2⟩,
            ⟨⟨b', ?_, hb'⟩, hrlB'.1, hrlB'.2⟩, hsA, hs', hwA, hPs _ hwR hke, ?_, ?_⟩
          · show (t1.branches.set a b1 ++ [b'])[a]? = _
            rw [List.getElem?_append_left (by simpa using ha1), List.getElem?_set_self ha1]
          · show (t1.branches.set a b1 ++ [b'])[t1.branches.length]? = _
            rw [List.getElem?_append_right (by simp)]
            simp
          · intro P hPT hPk
            have hPT' : WithinL P d (A ++ e :: (p2 ++ ys)) z := by
              rw [← hcut]; exact hPT
            refine ⟨(hPT'.1 e (by simp)).1, ⟨fun x hx => hPT'.1 x (by simp [hx]), (hPT'.1 e (by simp)).2⟩,
              hPs P ?_ hPk⟩
            rw [← hR]
            exact WithinL.snd hRsnd.symm ⟨fun x hx => hPT'.1 x (by
              rw [List.mem_append, List.mem_cons]; exact Or.inr (Or.inr hx)), hPT'.2⟩
          · simp only [leafs, nodes, ents]
            rw [hT0, hT0, hT0, hfl, hfl]
            refine hPOST b1 b' _ ?_
            rw [← hfl, List.cons_append]
            exact List.Perm.cons a List.perm_middle
      · rw [if_neg hfull]
        have hlt : (p ++ ys).length < N := lt_of_le_of_ne (by have := hb.le; rwa [adr_length] at this) hfull
        obtain ⟨b', u, eadd, hb'⟩ := add_adr (c1 := c1) (c2 := c2) hb hlt sep
        obtain ⟨hs', hPs⟩ := ins_law hs hP hQ ho1 ho2 hw1 hw2 hPc u
        have hrl := (RepL.ins hrp hrq2 hr1 u sep).rewrite (by rw [hflat]; exact hanew) b' []
        rw [List.append_nil] at hrl
        rw [eadd, Res.ok_bind]
        refine ⟨_, none, rfl, (a, p ++ (u, sep, c1) :: (setF ys z c2).1, (setF ys z c2).2), rfl,
          ⟨⟨b', ?_, hb'⟩, hrl.1, hrl.2⟩, hs', fun P h1 h2 => hPs P h1 h2, ?_⟩
        · exact List.getElem?_set_self ha1
        · have h1 := hpost2.node ha han2 b'
          simp only [leafs, nodes, ents]
          rw [hflat, hflat, hflat, fl_append, fl_append, fl_append, fl_first (leafs d) ys z,
            fl_first (nodes d) ys z, fl_first (ents d) ys z, ← List.append_assoc,
            ← List.append_assoc (p.flatMap fun x => nodes d x.2.2) (nodes d (first ys z)),
            ← List.append_assoc (p.flatMap fun x => ents d x.2.2) (ents d (first ys z))]
          exact h1

/-! ## The whole tree -/

/-- The tree is ordered and holds the map `m`. -/
def GInv (t : Tree K V N M) (m : K → Option V) : Prop :=
  ∃ T : VT K V t.depth, adrOf t.depth T = t.root ∧ Rep t t.depth T ∧
    (Ord t.depth T ∨ (t.depth = 0 ∧ ents t.depth T = [])) ∧ (leafs t.depth T).Nodup ∧ (nodes t.depth T).Nodup ∧
    (∀ j < t.leaves.length, j ∈ leafs t.depth T) ∧ Linked t.next (leafs t.depth T) ∧
    ∀ k v, (k, v) ∈ ents t.depth T ↔ m k = some v

theorem GInv.mk' {t : Tree K V N M} {m : K → Option V} {d : Nat} (hd : t.depth = d) (T : VT K V d)
    (h1 : adrOf d T = t.root) (h2 : Rep t d T) (h3 : Ord d T ∨ (d = 0 ∧ ents d T = []))
    (h4 : (leafs d T).Nodup) (h5 : (nodes d T).Nodup) (h6 : ∀ j < t.leaves.length, j ∈ leafs d T)
    (h7 : Linked t.next (leafs d T)) (h8 : ∀ k v, (k, v) ∈ ents d T ↔ m k = some v) : GInv t m := by
  subst hd
  exact ⟨T, h1, h2, h3, h4, h5, h6, h7, h8⟩

theorem gInv_empty (junk : Option Nat) : GInv (empty N M junk : Tree K V N M) (fun _ => none) := by
  refine GInv.mk' (d := 0) rfl (0, []) rfl ⟨Leaf.fresh M junk, rfl, leafOK_fresh junk⟩ (Or.inr ⟨rfl, rfl⟩)
    (by simp [leafs]) (by simp [nodes]) ?_ ?_ ?_
  · intro j hj
    simp [empty] at hj
    simp [leafs, hj]
  · intro pre a post h
    cases pre with
    | nil =>
      simp only [leafs, List.nil_append, List.cons.injEq] at h
      rw [← h.2]; rfl
    | cons x pre => simp [leafs] at h
  · intro k v
    simp [ents]

/-- An insert into the whole tree. -/
theorem insert_gen (junk : Option Nat) (hM : 1 < M) (hN : 1 < N) {t : Tree K V N M} (T : VT K V t.depth)
    (h1 : adrOf t.depth T = t.root) (h2 : Rep t t.depth T) (h3 : Ord t.depth T ∨ t.depth = 0)
    (h4 : (leafs t.depth T).Nodup) (h5 : (nodes t.depth T).Nodup) (key : K) (val : V)
    (hmid : ∀ a, insLeaf t key t.depth t.root = .ok a → ¬ SplitsMiddle t key a) :
    ∃ (t' t1 : Tree K V N M) (d : Nat) (T' : VT K V d) (B' : List Nat), insert junk t key val = .ok t' ∧ t'.depth = d ∧
      adrOf d T' = t'.root ∧ Rep t' d T' ∧ Ord d T' ∧ (nodes d T').Nodup ∧ t'.leaves = t1.leaves ∧ t'.next = t1.next ∧
      Post t t1 key val (leafs t.depth T) (nodes t.depth T) (ents t.depth T) (leafs d T') B' (ents d T') := by
  obtain ⟨t1, sp, e, hres⟩ := insertAux_gen junk hM hN key val t.depth T h2 h3 h4 h5 (by rw [h1]; exact hmid)
  rw [h1] at e
  cases sp with
  | none =>
    obtain ⟨T', g1, g2, g3, _, g5⟩ := hres
    refine ⟨t1, t1, t.depth, T', _, ?_, g5.depth, by rw [g1, h1, g5.root], g2, g3, g5.bnd, rfl, rfl, g5⟩
    unfold WBTree.insert
    rw [e, Res.ok_bind]
    rfl
  | some sr =>
    obtain ⟨sep, r⟩ := sr
    obtain ⟨T1, T2, g1, g2, g3, g4, g5, g6, g7, g8, _, g10⟩ := hres
    obtain ⟨b1, eb, hb1⟩ := bit_set (M := N) (Bitmap.fresh N) 0 true (by omega)
    let b : Branch K N := ⟨fun j => if j = 0 then some 1 else if j = 1 then some 0 else
      (Branch.fresh N junk : Branch K N).slot j, b1, fun j => if j = 0 then some sep else none,
      fun j => if j = N then some r else if j = 0 then some t.root else none⟩
    have hb : BrOK b [(0, sep, t.root)] r := by
      refine ⟨?_, ?_, by simp, ?_, ?_, by simp; omega⟩
      · intro i hi
        simp at hi
        interval_cases i
        · rfl
        · rfl
      · intro x hx
        rw [List.mem_singleton] at hx
        subst hx
        refine ⟨by simp; omega, rfl, ?_⟩
        show (if 0 = N then some r else if 0 = 0 then some t.root else none) = _
        rw [if_neg (by omega), if_pos rfl]
      · intro p hp
        show Bitmap.bit b1 p = true ↔ _
        rw [hb1 p, bit_fresh]
        by_cases hp0 : p = 0 <;> simp [hp0]
      · show (if N = N then some r else _) = _
        rw [if_pos rfl]
    have hlt : ∀ j ∈ nodes t.depth T1 ++ nodes t.depth T2, j < t1.branches.length := g10.blt
    have hfr : ∀ T0 : VT K V t.depth, Rep t1 t.depth T0 →
        Rep { t1 with branches := t1.branches ++ [b], root := t1.branches.length, depth := t.depth + 1 } t.depth T0 := by
      intro T0 hT0
      refine hT0.frame t.depth T0 (fun j _ => rfl) (fun j hj => ?_)
      exact List.getElem?_append_left (hT0.node_lt t.depth T0 j hj)
    refine ⟨{ t1 with branches := t1.branches ++ [b], root := t1.branches.length, depth := t.depth + 1 }, t1,
      t.depth + 1, (t1.branches.length, [(0, sep, T1)], T2), nodes t.depth T1 ++ nodes t.depth T2, ?_, rfl, rfl, ⟨⟨b, ?_, ?_⟩, ?_, hfr T2 g4⟩,
      ⟨?_, ?_, ?_, ?_, g6⟩, ?_, rfl, rfl, ?_⟩
    · unfold WBTree.insert
      rw [e, Res.ok_bind]
      dsimp only
      rw [Slots.wr_ok _ _ (by omega), Res.ok_bind, Slots.wr_ok _ _ (by omega), Res.ok_bind,
        Slots.wr_ok _ _ (by omega), Res.ok_bind, Slots.wr_ok _ _ (by omega), Res.ok_bind]
      show (Bitmap.set (Bitmap.fresh N) 0 true >>= _) = _
      rw [eb, Res.ok_bind, Slots.wr_ok _ _ (by omega), Res.ok_bind]
      rfl
    · show (t1.branches ++ [b])[t1.branches.length]? = _
      simp
    · show BrOK b [(0, sep, adrOf t.depth T1)] (adrOf t.depth T2)
      rw [g1, h1, g2]
      exact hb
    · intro x hx
      rw [List.mem_singleton] at hx
      subst hx
      exact hfr T1 g3
    · intro x hx
      rw [List.mem_singleton] at hx
      subst hx
      exact g5
    · intro x hx
      rw [List.mem_singleton] at hx
      subst hx
      exact g7
    · exact List.pairwise_singleton _ _
    · intro x hx
      rw [List.mem_singleton] at hx
      subst hx
      exact g8
    · rw [nodes]
      simp only [fl, List.flatMap_cons, List.flatMap_nil, List.append_nil]
      exact List.nodup_cons.2 ⟨fun hh => lt_irrefl _ (hlt _ hh), g10.bnd⟩
    · have e1 : ∀ {β : Type} (f : VT K V t.depth → List β), fl f [(0, sep, T1)] T2 = f T1 ++ f T2 := by
        intro β f
        simp [fl]
      simp only [leafs, ents, e1]
      exact g10

theorem GInv.insert (junk : Option Nat) (hM : 1 < M) (hN : 1 < N) {t : Tree K V N M} {m : K → Option V}
    (h : GInv t m) (key : K) (val : V)
    (hmid : ∀ a, insLeaf t key t.depth t.root = .ok a → ¬ SplitsMiddle t key a) :
    ∃ t', insert junk t key val = .ok t' ∧ GInv t' (fun k => if k = key then some val else m k) := by
  obtain ⟨T, h1, h2, h3, h4, h5, h6, h7, h8⟩ := h
  obtain ⟨t', t1, d, T', B', e, g1, g2, g3, g4, g5, g6, g7, hp⟩ :=
    insert_gen junk hM hN T h1 h2 (h3.imp id And.left) h4 h5 key val hmid
  refine ⟨t', e, GInv.mk' g1 T' g2 g3 (Or.inl g4) hp.lnd g5 ?_ ?_ ?_⟩
  · intro j hj
    rw [g6] at hj
    by_cases hjl : j < t.leaves.length
    · exact hp.lcov.1 j (h6 j hjl)
    · exact hp.lcov.2 j (by omega) hj
  · rw [g7]
    have := hp.chain [] [] (by simpa using h4) (by simpa using h2.leaf_lt t.depth T) (by simpa using h7)
    simpa using this
  · intro k v
    rw [hp.ent, h8]
    by_cases hk : k = key
    · subst hk
      simp
      exact eq_comm
    · simp [hk]

end Verif.WBTree
