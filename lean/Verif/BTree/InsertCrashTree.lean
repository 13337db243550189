import Verif.BTree.InsertCrash

/-!
# Lookups after a crash on a branch level
-/

set_option linter.unusedSectionVars false

namespace Verif.BTree

open Verif Assoc
open Verif.Slots hiding none

variable {K V L T : Type} [LinearOrder K] {o : Ops K V L} {W : Laws o} {lm bm rm : Nat}

/-! ## Lookups outside the range of a subtree -/

theorem tile_widen_hi {P : T → Bd K → Bd K → Prop} {hi hi' : Bd K} (hP : ∀ c a, P c a hi → P c a hi') :
    ∀ {ks : List K} {cs : List T} {lo : Bd K}, Tile P cs (bnds lo ks hi) → Tile P cs (bnds lo ks hi')
  | [], [c], _, h => ⟨hP _ _ h.1, trivial⟩
  | [], [], _, h => h.elim
  | [], _ :: _ :: _, _, h => h.2.elim
  | k :: ks, c :: cs, lo, h => ⟨h.1, tile_widen_hi hP (lo := bk k) h.2⟩
  | k :: ks, [], _, h => h.elim

theorem tile_widen_lo {P : T → Bd K → Bd K → Prop} {lo lo' hi : Bd K} (hP : ∀ c b, P c lo b → P c lo' b) :
    ∀ {ks : List K} {cs : List T}, Tile P cs (bnds lo ks hi) → Tile P cs (bnds lo' ks hi)
  | [], [c], h => ⟨hP _ _ h.1, trivial⟩
  | [], [], h => h.elim
  | [], _ :: _ :: _, h => h.2.elim
  | k :: ks, c :: cs, h => ⟨hP _ _ h.1, h.2⟩
  | k :: ks, [], h => h.elim

/-- A search tree for a range is one for every larger range. -/
theorem Bt.widen {h : Heap L} : ∀ {d top : Nat} {t : Tree K d} {lo hi lo' hi' : Bd K}, lo' ≤ lo → hi ≤ hi' →
    Bt W tt lm bm h d top t lo hi → Bt W tt lm bm h d top t lo' hi' := by
  intro d
  induction d with
  | zero =>
    intro top t lo hi lo' hi' h1 h2 ⟨hlt, l, hl, hok, ht, hb, _⟩
    exact ⟨lt_of_le_of_lt h1 (lt_of_lt_of_le hlt h2), l, hl, hok, ht, fun e he => ⟨le_trans h1 (hb e he).1, lt_of_lt_of_le (hb e he).2 h2⟩, trivial⟩
  | succ d ih =>
    intro top t lo hi lo' hi' h1 h2 ⟨cs, ks, hr, htop, ht⟩
    exact ⟨cs, ks, hr, htop, tile_widen_hi (fun c a hc => ih le_rfl h2 hc) (tile_widen_lo (fun c b hc => ih h1 le_rfl hc) ht)⟩

/-- A lookup of any key in a subtree finds what the subtree contains. -/
theorem lookT_any {h : Heap L} {d top : Nat} {t : Tree K d} {lo hi : Bd K} (hb : Bt W tt lm bm h d top t lo hi) (x : K) :
    lookT o d h t x = .ok (find x (content W h (ids d t))) := by
  obtain ⟨id, l, pre, post, m, m', e, hids, hl, hok, _, _, hk, _, _, h1, h2⟩ :=
    findLeaf_spec x d top t ⊥ ⊤ (hb.widen bot_le le_top) (inR_univ x)
  unfold lookT
  rw [e, Res.ok_bind, Heap.get, hl, Res.ofOption_some, Res.ok_bind, W.lookup l x hok, hids,
    content_append, content_cons, find_append_right, find_append_left]
  · simp [ent, hl]
  · intro e he hk'
    have := lt_of_lt_of_le hk.2 (h2 e he)
    rw [hk'] at this; exact absurd this (lt_irrefl _)
  · intro e he hk'
    have := lt_of_lt_of_le (h1 e he) hk.1
    rw [hk'] at this; exact absurd this (lt_irrefl _)

/-- The child at the position of `x` contains what all children contain of `x`. -/
theorem find_tile {h : Heap L} {d top : Nat} {c1 c2 : List (Tree K d)} {c : Tree K d} {k1 k2 : List K} {lo hi : Bd K} {x : K}
    (ht : Tile (Bt W tt lm bm h d top) (c1 ++ c :: c2) (bnds lo (k1 ++ k2) hi)) (hl : c1.length = k1.length)
    (h1 : ∀ y ∈ k1, y ≤ x) (h2 : ∀ y ∈ k2, x < y) :
    find x (content W h ((c1 ++ c :: c2).flatMap (ids d))) = find x (content W h (ids d c)) := by
  have ht := tile_widen_hi (hi' := ⊤) (fun c a hc => hc.widen le_rfl le_top) (tile_widen_lo (lo' := ⊥) (fun c b hc => hc.widen bot_le le_rfl) ht)
  obtain ⟨c1', c', c2', k1', k2', b1, m, m', b2, f⟩ := exists_focus W (fun c a b hc => Bt.lt hc) ht (inR_univ x)
  have hk : k1' = k1 ∧ k2' = k2 := by
    have e := f.hks
    have hle : k1.length = k1'.length := by
      rcases Nat.lt_trichotomy k1.length k1'.length with hc | hc | hc
      · exfalso
        have e1 : (k1 ++ k2)[k1.length]? = (k1' ++ k2')[k1.length]? := by rw [e]
        rw [List.getElem?_append_right le_rfl, List.getElem?_append_left hc, List.getElem?_eq_getElem hc] at e1
        exact absurd (f.le _ (List.getElem_mem hc)) (not_le.2 (h2 _ (List.mem_of_getElem? e1)))
      · exact hc
      · exfalso
        have e1 : (k1 ++ k2)[k1'.length]? = (k1' ++ k2')[k1'.length]? := by rw [e]
        rw [List.getElem?_append_left hc, List.getElem?_append_right le_rfl, List.getElem?_eq_getElem hc] at e1
        exact absurd (h1 _ (List.getElem_mem hc)) (not_le.2 (f.gt _ (List.mem_of_getElem? e1.symm)))
    have := List.append_inj e hle
    exact ⟨this.1.symm, this.2.symm⟩
  obtain ⟨rfl, rfl⟩ := hk
  have hcs := List.append_inj f.hcs (by rw [hl, f.l1])
  obtain ⟨rfl, hcs2⟩ := hcs
  cases hcs2
  rw [List.flatMap_append, List.flatMap_cons, content_append, content_append, find_append_right, find_append_left]
  · intro e he hk'
    have := lt_of_lt_of_le f.inR.2 (f.right_ge e he)
    rw [hk'] at this; exact absurd this (lt_irrefl _)
  · intro e he hk'
    have := lt_of_lt_of_le (f.left_lt e he) f.inR.1
    rw [hk'] at this; exact absurd this (lt_irrefl _)

/-! ## The keys of a branch node -/

/-- Number of the separators of `n` and `s` that are not larger than `x`. -/
def sepRank {α : Type} (n : BNode K α) (s x : K) : Nat :=
  (List.range n.num).countP (fun i => (n.keys i).any (fun y => decide (y ≤ x))) + if s ≤ x then 1 else 0

theorem sepRank_list {N : Nat} {α : Type} {n : BNode K α} {cs : List α} {ks : List K} (hr : NodeRep N n cs ks) (x : K) :
    (List.range n.num).countP (fun i => (n.keys i).any (fun y => decide (y ≤ x))) = ks.countP (fun y => decide (y ≤ x)) := by
  have e := filterMap_range_rep hr.keys
  rw [← hr.num] at e
  rw [← e, List.countP_filterMap]
  congr 1
  funext i
  cases n.keys i <;> rfl

theorem countP_pos {ks : List K} {k1 k2 : List K} {x : K} (hk : ks = k1 ++ k2) (h1 : ∀ y ∈ k1, y ≤ x) (h2 : ∀ y ∈ k2, x < y) :
    ks.countP (fun y => decide (y ≤ x)) = k1.length := by
  rw [hk, List.countP_append, List.countP_eq_length.2 (fun y hy => by simpa using h1 y hy),
    List.countP_eq_zero.2 (fun y hy => by simpa using h2 y hy)]
  rfl

/-- The position of `x` in a sorted list of keys. -/
theorem isPos_countP {ks : List K} (hs : ks.Pairwise (· < ·)) (x : K) (s0 : K) :
    IsPos (fun i => ks[i]?.getD s0) ks.length x (ks.countP (fun y => decide (y ≤ x))) := by
  obtain ⟨k1, k2, e, h1, h2⟩ := sorted_split x hs
  rw [countP_pos e h1 h2]
  subst e
  refine ⟨by simp, fun i hi => ?_, fun i hi hi' => ?_⟩
  · simp only
    rw [List.getElem?_append_left hi, List.getElem?_eq_getElem hi]
    exact h1 _ (List.getElem_mem hi)
  · simp only
    rw [List.length_append] at hi'
    rw [List.getElem?_append_right hi, List.getElem?_eq_getElem (by omega)]
    exact h2 _ (List.getElem_mem (by omega))

/-! ## A branch node that gets a separator -/

/-- `x` is not found after `q` changes of a branch node whose child at `pos` was split at `s` by the insert of `k`. -/
def LostNode (o : Ops K V L) {α : Type} (n : BNode K α) (pos : Nat) (k s : K) (q : Nat) (x : K) : Prop :=
  if n.num = o.N then ∃ sp, splitBranch o n s = .ok sp ∧
    if q < 2 * sp.right.num + 4 then LostAdd n.num pos 0 (sepRank n s x)
    else sp.key ≤ x ∨ (k < sp.key ∧ LostAdd sp.left.num pos (q - (2 * sp.right.num + 4)) (sepRank sp.left s x))
  else LostAdd n.num pos q (sepRank n s x)

/-- `x` is a separator that the branch node holds twice after `q` changes. -/
def DupNode (o : Ops K V L) {α : Type} (n : BNode K α) (pos : Nat) (k s : K) (q : Nat) (x : K) : Prop :=
  ∃ i, n.keys i = some x ∧ if n.num = o.N then ∃ sp, splitBranch o n s = .ok sp ∧ k < sp.key ∧ 2 * sp.right.num + 4 ≤ q ∧
      DupAdd sp.left.num pos (q - (2 * sp.right.num + 4)) (i + 1)
    else DupAdd n.num pos q (i + 1)

/-- Lookups below a branch node after `q` assignments that add a separator. -/
theorem addEntryAt_lookT (hD : DupSearch o) {h : Heap L} {d top : Nat} {n : BNode K (Tree K d)} {c1 c2 : List (Tree K d)} {l r : Tree K d}
    {k1 k2 : List K} {s : K} {lo hi : Bd K} (hr : NodeRep o.N n (c1 ++ l :: c2) (k1 ++ k2)) (hl1 : c1.length = k1.length)
    (hl2 : c2.length = k2.length) (q : Nat) (hN : n.num < o.N ∨ q = 0)
    (ht : Tile (Bt W tt lm bm h d top) (c1 ++ l :: r :: c2) (bnds lo (k1 ++ s :: k2) hi)) :
    ∃ n', addEntryAt o n k1.length s l r q = .ok n' ∧ ∀ x, (lookT o (d + 1) h n' x = .ok none ∨
        lookT o (d + 1) h n' x = .ok (find x (content W h ((c1 ++ l :: r :: c2).flatMap (ids d))))) ∧
      ((ExactSearch o ∨ ∀ i, DupAdd n.num k1.length q (i + 1) → n.keys i ≠ some x) →
        (LostAdd n.num k1.length q (sepRank n s x) → lookT o (d + 1) h n' x = .ok none) ∧
        (¬ LostAdd n.num k1.length q (sepRank n s x) →
          lookT o (d + 1) h n' x = .ok (find x (content W h ((c1 ++ l :: r :: c2).flatMap (ids d)))))) := by
  have hnum := hr.num
  have hcap := hr.cap
  simp only [List.length_append] at hnum hcap
  obtain ⟨hks, _, _⟩ := keys_sorted (fun c a b hc => Bt.lt hc) ht
  set S : Nat → K := fun i => (k1 ++ s :: k2)[i]?.getD s with hS
  set χ : Nat → Tree K d := fun i => (c1 ++ l :: r :: c2)[i]?.getD l with hχ
  have hSpos : S k1.length = s := by simp [hS]
  have hχ0 : χ k1.length = l := by simp only [hχ]; rw [← hl1]; simp
  have hχ1 : χ (k1.length + 1) = r := by
    simp only [hχ]; rw [← hl1, List.getElem?_append_right (by omega)]; simp
  have hSmono : ∀ i j, i < j → j ≤ n.num → S i < S j := by
    intro i j hij hj
    have hj' : j < (k1 ++ s :: k2).length := by simp only [List.length_append, List.length_cons]; omega
    simp only [hS]
    rw [List.getElem?_eq_getElem hj', List.getElem?_eq_getElem (by omega)]
    exact List.pairwise_iff_getElem.1 hks i j _ hj' hij
  have hk : ∀ j, j < n.num → n.keys j = some (S (if j < k1.length then j else j + 1)) := by
    intro j hj
    rw [hr.keys j (by rw [List.length_append]; omega)]
    simp only [hS]
    by_cases hc : j < k1.length
    · rw [if_pos hc, List.getElem?_append_left hc, List.getElem?_append_left hc, List.getElem?_eq_getElem hc]; rfl
    · rw [if_neg hc, List.getElem?_append_right (by omega), List.getElem?_append_right (by omega),
        show j + 1 - k1.length = (j - k1.length) + 1 by omega, List.getElem?_cons_succ, List.getElem?_eq_getElem (by omega)]; rfl
  have hc : ∀ j, j ≤ n.num → n.kids j = some (χ (if j ≤ k1.length then j else j + 1)) := by
    intro j hj
    rw [hr.kids j (by simp only [List.length_append, List.length_cons]; omega)]
    simp only [hχ]
    rcases Nat.lt_trichotomy j k1.length with h1 | h1 | h1
    · rw [if_pos h1.le, List.getElem?_append_left (by omega), List.getElem?_append_left (by omega), List.getElem?_eq_getElem (by omega)]; rfl
    · rw [if_pos h1.le, h1, ← hl1]; simp
    · rw [if_neg (by omega), List.getElem?_append_right (by omega), List.getElem?_append_right (by omega),
        show j + 1 - c1.length = (j - c1.length - 1) + 1 + 1 by omega, List.getElem?_cons_succ, List.getElem?_cons_succ]
      obtain ⟨i, hi⟩ : ∃ i, j - c1.length = i + 1 := ⟨j - c1.length - 1, by omega⟩
      rw [hi, List.getElem?_cons_succ, Nat.add_sub_cancel, List.getElem?_eq_getElem (by omega)]; rfl
  have hlen : (k1 ++ s :: k2).length = n.num + 1 := by simp only [List.length_append, List.length_cons]; omega
  have hclen : (c1 ++ l :: r :: c2).length = n.num + 2 := by simp only [List.length_append, List.length_cons]; omega
  have hrank : ∀ x, (k1 ++ s :: k2).countP (fun y => decide (y ≤ x)) = sepRank n s x := by
    intro x
    unfold sepRank
    rw [sepRank_list hr, List.countP_append, List.countP_append, List.countP_cons]
    by_cases hsx : s ≤ x
    · simp only [hsx, decide_true, if_true]; omega
    · simp [hsx]
  have hpos : ∀ x, IsPos S (n.num + 1) x (sepRank n s x) := by
    intro x
    have := isPos_countP hks x s
    rwa [hlen, hrank] at this
  -- what a child contains
  have hcont : ∀ x g, g ≤ n.num + 1 → lookT o d h (χ g) x = .ok (if g = sepRank n s x then find x (content W h ((c1 ++ l :: r :: c2).flatMap (ids d))) else none) := by
    intro x g hg
    have hgl : g < (c1 ++ l :: r :: c2).length := by omega
    obtain ⟨a1, y, a2, ea, hal⟩ := list_cut hgl
    obtain ⟨q1, q2, eq, hql⟩ := list_cut' (l := k1 ++ s :: k2) (n := g) (by omega)
    have hχg : χ g = y := by simp only [hχ]; rw [ea, ← hal]; simp
    have ht' := ht
    rw [ea, eq] at ht'
    obtain ⟨b1, m, m', b2, hb1, hb2, hbl, t1, pc, t2⟩ := tile_focus (by omega) ht'
    rw [hχg, lookT_any pc x]
    by_cases hgp : g = sepRank n s x
    · rw [if_pos hgp, ea]
      have hp := hpos x
      rw [← hgp] at hp
      congr 1
      refine (find_tile ht' (by omega) (fun z hz => ?_) (fun z hz => ?_)).symm
      · obtain ⟨i, hi, rfl⟩ := List.getElem_of_mem hz
        have := hp.2.1 i (by omega)
        simp only [hS] at this
        rw [eq, List.getElem?_append_left hi, List.getElem?_eq_getElem hi] at this
        exact this
      · obtain ⟨i, hi, rfl⟩ := List.getElem_of_mem hz
        have hl3 := congrArg List.length eq
        rw [hlen, List.length_append] at hl3
        have := hp.2.2 (q1.length + i) (by omega) (by omega)
        simp only [hS] at this
        rw [eq, List.getElem?_append_right (by omega), Nat.add_sub_cancel_left, List.getElem?_eq_getElem hi] at this
        exact this
    · rw [if_neg hgp]
      congr 1
      rw [find_eq_none]
      rintro e he rfl
      have hb := pc.bounds e he
      apply hgp
      rw [← hrank]
      symm
      rw [← hql]
      have hks2 := hks
      rw [eq, List.pairwise_append] at hks2
      refine countP_pos eq (fun z hz => ?_) (fun z hz => ?_)
      · have hm : bk z ∈ b1 ++ [m] := by rw [← hb1]; exact List.mem_cons_of_mem _ (List.mem_map.2 ⟨z, hz, rfl⟩)
        have hsb := Tile.sorted (fun c a b hc => Bt.lt hc) t1
        rw [List.pairwise_append] at hsb
        rcases List.mem_append.1 hm with hm | hm
        · exact bk_le.1 (le_trans (hsb.2.2 _ hm m (by simp)).le hb.1)
        · exact bk_le.1 (by rw [List.mem_singleton.1 hm]; exact hb.1)
      · have hm : bk z ∈ m' :: b2 := by rw [← hb2]; exact List.mem_append_left _ (List.mem_map.2 ⟨z, hz, rfl⟩)
        have hsb := Tile.sorted (fun c a b hc => Bt.lt hc) t2
        rw [List.pairwise_cons] at hsb
        rcases List.mem_cons.1 hm with hm | hm
        · exact bk_lt.1 (by rw [hm]; exact hb.2)
        · exact bk_lt.1 (lt_trans hb.2 (hsb.1 _ hm))
  have hfix : (∀ x, ExactSearch o ∨ (∀ i, DupAdd n.num k1.length q (i + 1) → n.keys i ≠ some x) → ExactSearch o ∨ ∀ i, DupAdd n.num k1.length q i → x ≠ S i) := by
    intro x hx
    refine hx.imp_right fun hx i hi he => ?_
    have hroom : room n.num k1.length = 1 + 2 * (n.num - k1.length) ∨ room n.num k1.length = 0 := by
      unfold room; split <;> simp
    unfold DupAdd at hi hx
    refine hx (i - 1) ⟨hi.1, hi.2.1, by omega⟩ ?_
    rw [hk (i - 1) (by omega), if_neg (by omega), he, show i - 1 + 1 = i by omega]
  obtain ⟨n', p0, g0, e0, -⟩ := addEntryAt_sees hD (n := n) (pos := k1.length) q hN (by omega) (by omega) hSmono hk hc (hpos s)
  rw [hSpos, hχ0, hχ1] at e0
  refine ⟨n', e0, fun x => ?_⟩
  obtain ⟨n'', p', g, e1, e2, e3, hg, hgx⟩ := addEntryAt_sees hD (n := n) (pos := k1.length) q hN (by omega) (by omega) hSmono hk hc (hpos x)
  rw [hSpos, hχ0, hχ1, e0] at e1
  cases Res.ok.inj e1
  have hlook : lookT o (d + 1) h n' x = lookT o d h (χ g) x := by
    unfold lookT
    rw [findLeaf, e2, Res.ok_bind, e3, Res.ok_bind]
  rw [hlook, hcont x g hg]
  refine ⟨?_, fun hx => ?_⟩
  · by_cases hgp : g = sepRank n s x
    · rw [if_pos hgp]; exact Or.inr rfl
    · rw [if_neg hgp]; exact Or.inl rfl
  · have := hgx (hfix x hx)
    exact ⟨fun hL => by rw [if_neg (fun he => this.1 he hL)], fun hL => by rw [if_pos (this.2 hL)]⟩

/-- Where a full branch node is split. -/
theorem splitBranch_cases (W : Laws o) (hN : 2 ≤ o.N) {n : BNode K T} {c1 c2 : List T} {c : T}
    {k1 k2 : List K} {k s : K} (hr : NodeRep o.N n (c1 ++ c :: c2) (k1 ++ k2)) (hl1 : c1.length = k1.length) (hl2 : c2.length = k2.length)
    (hs : (k1 ++ s :: k2).Pairwise (· < ·)) (hk1 : ∀ x ∈ k1, x ≤ k) (hk2 : ∀ x ∈ k2, k < x) (hfull : n.num = o.N) :
    ∃ sp, splitBranch o n s = .ok sp ∧
      ((¬ k < sp.key ∧ ∃ kl kr cl cr, k1 = kl ++ sp.key :: kr ∧ c1 = cl ++ cr ∧ cl.length = kl.length + 1 ∧ NodeRep o.N sp.left cl kl) ∨
       (k < sp.key ∧ lookupPos o sp.left k = .ok k1.length ∧ sp.left.num < o.N ∧ ∃ k2a kr c2a cr, k2 = k2a ++ sp.key :: kr ∧ c2 = c2a ++ cr ∧
          c2a.length = k2a.length ∧ NodeRep o.N sp.left (c1 ++ c :: c2a) (k1 ++ k2a))) := by
  have hnum := hr.num
  simp only [List.length_append] at hnum
  have hs' : (k1 ++ k2).Pairwise (· < ·) :=
    hs.sublist (List.Sublist.append_left (List.sublist_cons_self s k2) k1)
  rw [List.pairwise_append, List.pairwise_cons] at hs
  obtain ⟨hsk1, ⟨hsk2, hsp2⟩, hsk12⟩ := hs
  by_cases hp : (o.N + 1) / 2 ≤ k1.length
  · have hex : ∃ kl key kr, k1 = kl ++ key :: kr ∧ kl.length + 1 = (if k1.length = (o.N + 1) / 2
        then (o.N + 1) / 2 else (o.N + 1) / 2 + 1) := by
      by_cases he : k1.length = (o.N + 1) / 2
      · obtain ⟨a, x, b, e, ha⟩ := list_cut (l := k1) (n := (o.N + 1) / 2 - 1) (by omega)
        exact ⟨a, x, b, e, by rw [if_pos he]; omega⟩
      · obtain ⟨a, x, b, e, ha⟩ := list_cut (l := k1) (n := (o.N + 1) / 2) (by omega)
        exact ⟨a, x, b, e, by rw [if_neg he]; omega⟩
    obtain ⟨kl, key, kr, hk1e, hkl⟩ := hex
    obtain ⟨cl, cr, hc1e, hcl⟩ := list_cut' (l := c1) (n := kl.length + 1) (by
      rw [hl1, hk1e]; simp)
    obtain ⟨km, hkm⟩ : ∃ km, (k1 ++ k2)[(o.N + 1) / 2]? = some km :=
      ⟨_, List.getElem?_eq_getElem (by simp; omega)⟩
    have hm : kl.length + 1 = if km < s then (o.N + 1) / 2 + 1 else (o.N + 1) / 2 := by
      rw [hkl]
      by_cases he : k1.length = (o.N + 1) / 2
      · rw [if_pos he, if_neg]
        rw [List.getElem?_append_right (by omega)] at hkm
        exact not_lt.2 (hsk2 km (List.mem_of_getElem? hkm)).le
      · rw [if_neg he, if_pos]
        rw [List.getElem?_append_left (by omega)] at hkm
        exact hsk12 km (List.mem_of_getElem? hkm) s (by simp)
    obtain ⟨sp, esp, hkey, hL, hR⟩ := splitBranch_rep o (n := n) s hr (by simp; omega)
      (kl := kl) (kr := kr ++ k2) (key := key) (cl := cl) (cr := cr ++ c :: c2)
      (by rw [hk1e]; simp) (by rw [hc1e]; simp) hcl hkm hm
    refine ⟨sp, esp, Or.inl ⟨?_, kl, kr, cl, cr, by rw [hkey]; exact hk1e, hc1e, hcl, hL⟩⟩
    rw [hkey]; exact not_lt.2 (hk1 key (by rw [hk1e]; simp))
  · obtain ⟨k2a, key, kr, hk2e, hk2a⟩ := list_cut (l := k2) (n := (o.N + 1) / 2 - 1 - k1.length)
      (by omega)
    have e1 := congrArg List.length hk2e
    simp only [List.length_append, List.length_cons] at e1
    obtain ⟨c2a, cr, hc2e, hc2a⟩ := list_cut' (l := c2) (n := k2a.length) (by omega)
    have e2 := congrArg List.length hc2e
    simp only [List.length_append] at e2
    obtain ⟨km, hkm⟩ : ∃ km, (k1 ++ k2)[(o.N + 1) / 2]? = some km :=
      ⟨_, List.getElem?_eq_getElem (by simp; omega)⟩
    have hm : (k1 ++ k2a).length + 1 = if km < s then (o.N + 1) / 2 + 1 else (o.N + 1) / 2 := by
      rw [if_neg]
      · simp; omega
      · rw [List.getElem?_append_right (by omega)] at hkm
        exact not_lt.2 (hsk2 km (List.mem_of_getElem? hkm)).le
    obtain ⟨sp, esp, hkey, hL, hR⟩ := splitBranch_rep o (n := n) s hr (by simp; omega)
      (kl := k1 ++ k2a) (kr := kr) (key := key) (cl := c1 ++ c :: c2a) (cr := cr)
      (by rw [hk2e]; simp) (by rw [hc2e]; simp) (by simp; omega) hkm hm
    have hsub : (k1 ++ k2a).Pairwise (· < ·) := by
      refine hs'.sublist ?_
      rw [hk2e]
      exact List.Sublist.append_left (List.sublist_append_left _ _) _
    have hpos := lookupPos_of W hL hsub hk1 (fun x hx => hk2 x (by rw [hk2e]; simp [hx]))
    refine ⟨sp, esp, Or.inr ⟨?_, hpos, ?_, k2a, kr, c2a, cr, by rw [hkey]; exact hk2e, hc2e, hc2a, hL⟩⟩
    · rw [hkey]; exact hk2 key (by rw [hk2e]; simp)
    · rw [hL.num]; simp; omega

theorem splitBranch_keys {α : Type} {n : BNode K α} {s : K} {sp : Split K (BNode K α)} (e : splitBranch o n s = .ok sp) : sp.left.keys = n.keys := by
  unfold splitBranch at e
  obtain ⟨a1, _, e⟩ := Res.bind_eq_ok.1 e
  obtain ⟨a2, _, e⟩ := Res.bind_eq_ok.1 e
  obtain ⟨a3, _, e⟩ := Res.bind_eq_ok.1 e
  obtain ⟨a4, _, e⟩ := Res.bind_eq_ok.1 e
  obtain ⟨a5, _, e⟩ := Res.bind_eq_ok.1 e
  obtain ⟨a6, _, e⟩ := Res.bind_eq_ok.1 e
  cases Res.ok.inj e
  rfl

/-- What the children before and behind a separator contain. -/
theorem find_cut {h : Heap L} {d top : Nat} {cl cr : List (Tree K d)} {kl kr : List K} {key : K} {lo hi : Bd K}
    (hl : cl.length = kl.length + 1) (ht : Tile (Bt W tt lm bm h d top) (cl ++ cr) (bnds lo (kl ++ key :: kr) hi)) (x : K) :
    (x < key → find x (content W h ((cl ++ cr).flatMap (ids d))) = find x (content W h (cl.flatMap (ids d)))) ∧
    (key ≤ x → find x (content W h (cl.flatMap (ids d))) = none) := by
  obtain ⟨h1, h2⟩ := (tile_split_key hl).1 ht
  have s1 := Tile.sorted (fun c a b hc => Bt.lt hc) h1
  have s2 := Tile.sorted (fun c a b hc => Bt.lt hc) h2
  unfold bnds at s1 s2
  constructor
  · intro hx
    rw [List.flatMap_append, content_append, find_append_left]
    rintro e he rfl
    have hb := Tile.bounds (lo := bk key) (hi := ⊤) h2 (fun b hb => ⟨?_, le_top⟩) e he
    · exact absurd hx (not_lt.2 (bk_le.1 hb.1))
    · rcases List.mem_cons.1 hb with hb | hb
      · exact hb.ge
      · exact ((List.pairwise_cons.1 s2).1 b hb).le
  · intro hx
    rw [find_eq_none]
    rintro e he rfl
    have hb := Tile.bounds (lo := ⊥) (hi := bk key) h1 (fun b hb => ⟨bot_le, ?_⟩) e he
    · exact absurd (bk_lt.1 hb.2) (not_lt.2 hx)
    · rw [← List.cons_append, List.pairwise_append] at s1
      rw [bnds, ← List.cons_append] at hb
      rcases List.mem_append.1 hb with hb | hb
      · exact (s1.2.2 b hb (bk key) (by simp)).le
      · exact (List.mem_singleton.1 hb).le

/-- Lookups below a branch node after `q` changes behind the split of a child. -/
theorem addSplitAt_lookT (hN2 : 2 ≤ o.N) (hD : DupSearch o) {h : Heap L} {d : Nat} {n : BNode K (Tree K d)} {c1 c2 : List (Tree K d)} {l r : Tree K d}
    {k1 k2 : List K} {k s : K} {lo hi : Bd K} (hr : NodeRep o.N n (c1 ++ l :: c2) (k1 ++ k2)) (hl1 : c1.length = k1.length)
    (hl2 : c2.length = k2.length) (hk1 : ∀ x ∈ k1, x ≤ k) (hk2 : ∀ x ∈ k2, k < x) (q : Nat)
    (ht : Tile (Bt W tt lm bm h d (occ lm bm d)) (c1 ++ l :: r :: c2) (bnds lo (k1 ++ s :: k2) hi)) :
    ∃ n', addSplitAt o n k1.length k s l r q = .ok n' ∧ ∀ x, (lookT o (d + 1) h n' x = .ok none ∨
        lookT o (d + 1) h n' x = .ok (find x (content W h ((c1 ++ l :: r :: c2).flatMap (ids d))))) ∧
      ((ExactSearch o ∨ ¬ DupNode o n k1.length k s q x) →
        (LostNode o n k1.length k s q x → lookT o (d + 1) h n' x = .ok none) ∧
        (¬ LostNode o n k1.length k s q x →
          lookT o (d + 1) h n' x = .ok (find x (content W h ((c1 ++ l :: r :: c2).flatMap (ids d)))))) := by
  have hcap := hr.cap
  rw [← hr.num] at hcap
  unfold addSplitAt
  by_cases hfull : n.num = o.N
  · rw [if_pos hfull]
    obtain ⟨hks, _, _⟩ := keys_sorted (fun c a b hc => Bt.lt hc) ht
    obtain ⟨sp, esp, hcase⟩ := splitBranch_cases W hN2 hr hl1 hl2 hks hk1 hk2 hfull
    rw [esp, Res.ok_bind]
    have hLN : ∀ x, LostNode o n k1.length k s q x ↔ if q < 2 * sp.right.num + 4 then LostAdd n.num k1.length 0 (sepRank n s x)
        else sp.key ≤ x ∨ (k < sp.key ∧ LostAdd sp.left.num k1.length (q - (2 * sp.right.num + 4)) (sepRank sp.left s x)) := by
      intro x
      unfold LostNode
      rw [if_pos hfull]
      constructor
      · rintro ⟨sp', e, hh⟩
        rw [esp] at e
        cases Res.ok.inj e
        exact hh
      · exact fun hh => ⟨sp, esp, hh⟩
    by_cases hq : q < 2 * sp.right.num + 4
    · rw [if_pos hq]
      obtain ⟨n', e, hall⟩ := addEntryAt_lookT hD hr hl1 hl2 0 (Or.inr rfl) ht
      cases Res.ok.inj (e : Res.ok n = Res.ok n')
      refine ⟨n, rfl, fun x => ⟨(hall x).1, fun _ => ?_⟩⟩
      have := (hall x).2 (Or.inr (fun i hi => by unfold DupAdd at hi; omega))
      rw [hLN x, if_pos hq]
      exact this
    · rw [if_neg hq]
      rcases hcase with ⟨hkk, kl, kr, cl, cr, e1, e2, e3, hL⟩ | ⟨hkk, hpos, hnum, k2a, kr, c2a, cr, e1, e2, e3, hL⟩
      · rw [if_neg hkk]
        have ht' : Tile (Bt W tt lm bm h d (occ lm bm d)) (cl ++ (cr ++ l :: r :: c2)) (bnds lo (kl ++ sp.key :: (kr ++ s :: k2)) hi) := by
          rw [e1, e2] at ht; simpa using ht
        have hb : Bt W tt lm bm h (d + 1) 0 sp.left ⊥ ⊤ := by
          exact ⟨cl, kl, hL, Nat.zero_le _, tile_widen_hi (fun c a hc => hc.widen le_rfl le_top) (tile_widen_lo (fun c b hc => hc.widen bot_le le_rfl)
            ((tile_split_key e3).1 ht').1)⟩
        have hids : ids (d + 1) sp.left = cl.flatMap (ids d) := ids_rep hL
        refine ⟨sp.left, rfl, fun x => ?_⟩
        obtain ⟨f1, f2⟩ := find_cut e3 ht' x
        have hlook := lookT_any hb x
        rw [hids] at hlook
        have hwhole : c1 ++ l :: r :: c2 = cl ++ (cr ++ l :: r :: c2) := by rw [e2]; simp
        rw [hLN x, if_neg hq, hwhole]
        rcases lt_or_ge x sp.key with hx | hx
        · rw [hlook, f1 hx]
          refine ⟨Or.inr rfl, fun _ => ⟨fun hL' => ?_, fun _ => rfl⟩⟩
          rcases hL' with hL' | hL'
          · exact absurd hx (not_lt.2 hL')
          · exact absurd hL'.1 hkk
        · rw [hlook, f2 hx]
          exact ⟨Or.inl rfl, fun _ => ⟨fun _ => rfl, fun hL' => absurd (Or.inl hx) hL'⟩⟩
      · rw [if_pos hkk, hpos, Res.ok_bind]
        have ht' : Tile (Bt W tt lm bm h d (occ lm bm d)) ((c1 ++ l :: r :: c2a) ++ cr) (bnds lo ((k1 ++ s :: k2a) ++ sp.key :: kr) hi) := by
          rw [e1, e2] at ht; simpa using ht
        have hlen : (c1 ++ l :: r :: c2a).length = (k1 ++ s :: k2a).length + 1 := by simp; omega
        obtain ⟨n', e, hall⟩ := addEntryAt_lookT hD hL hl1 e3 (q - (2 * sp.right.num + 4)) (Or.inl hnum) ((tile_split_key hlen).1 ht').1
        refine ⟨n', e, fun x => ?_⟩
        obtain ⟨f1, f2⟩ := find_cut hlen ht' x
        have hwhole : c1 ++ l :: r :: c2 = (c1 ++ l :: r :: c2a) ++ cr := by rw [e2]; simp
        rw [hLN x, if_neg hq, hwhole]
        obtain ⟨a1, a2⟩ := hall x
        rcases lt_or_ge x sp.key with hx | hx
        · rw [f1 hx]
          refine ⟨a1, fun hd => ?_⟩
          have := a2 (hd.imp_right fun hd i hi he => hd ⟨i, by rw [← splitBranch_keys esp]; exact he, by
            rw [if_pos hfull]; exact ⟨sp, esp, hkk, by omega, hi⟩⟩)
          refine ⟨fun hL' => this.1 ?_, fun hL' => this.2 (fun hc => hL' (Or.inr ⟨hkk, hc⟩))⟩
          rcases hL' with hL' | hL'
          · exact absurd hx (not_lt.2 hL')
          · exact hL'.2
        · rw [f2 hx] at a1
          rw [or_self] at a1
          exact ⟨Or.inl a1, fun _ => ⟨fun _ => a1, fun hL' => absurd (Or.inl hx) hL'⟩⟩
  · rw [if_neg hfull]
    obtain ⟨n', e, hall⟩ := addEntryAt_lookT hD hr hl1 hl2 q (Or.inl (by omega)) ht
    refine ⟨n', e, fun x => ⟨(hall x).1, fun hd => ?_⟩⟩
    have := (hall x).2 (hd.imp_right fun hd i hi he => hd ⟨i, he, by rw [if_neg hfull]; exact hi⟩)
    unfold LostNode
    rw [if_neg hfull]
    exact this

end Verif.BTree
