import Verif.WBTree.RecoverLevel
import Verif.BitTree.RecoverProps

/-!
# wHBPTree.hpp: lookups in the recovered tree
-/

namespace Verif.WBTree

variable {K V : Type} [LinearOrder K] {N M : Nat}

theorem SpOK.pos {junk : Option Nat} {b : Branch K N} {xs : List (Nat × K × Nat)} {z : Nat} (h : SpOK junk b xs z)
    (hs : xs.Pairwise (fun a b => a.2.1 < b.2.1)) (k : K) : ∃ p q, xs = p ++ q ∧ b.pos k = .ok (p.length + 1) ∧
      (∀ e ∈ p, e.2.1 ≤ k) ∧ (∀ e ∈ q, k < e.2.1) := by
  by_cases he : xs = []
  · subst he
    refine ⟨[], [], rfl, ?_, by simp, by simp⟩
    unfold Branch.pos
    rw [h.count, Res.ok_bind]
    rfl
  · exact (h.good he).pos hs k

/-- The child at position `0` is the first one. -/
theorem SpOK.kid0 {junk : Option Nat} {b : Branch K N} {d : Nat} {xs : List (Nat × K × VT K V d)} {z : VT K V d}
    (h : SpOK junk b (adr (adrOf d) xs) (adrOf d z)) : b.kids.rd (N + 1) 0 = .ok (adrOf d (first xs z)) := by
  cases xs with
  | nil => exact Slots.rd_ok (by omega) (h.thin rfl).1
  | cons x xs =>
    have hb := h.good (by simp [adr])
    have h0 : x.1 = 0 := by
      have := h.seq
      simp only [adr, List.map_cons, List.length_cons, List.length_map, List.range_succ_eq_map] at this
      exact (List.cons.inj this).1
    have := hb.kid (e := (x.1, x.2.1, adrOf d x.2.2)) (by simp [adr])
    rw [h0] at this
    exact this

/-- One step of the descent of a lookup. -/
theorem findLeaf_step {junk : Option Nat} {t : Tree K V N M} {d a : Nat} {xs : List (Nat × K × VT K V d)} {z : VT K V d}
    (hT : RSpine junk t (d + 1) (a, xs, z)) (hord : Ord (d + 1) ((a, xs, z) : VT K V (d + 1))) (k : K) :
    ∃ p ys, xs = p ++ ys ∧ (∀ x ∈ p, x.2.1 ≤ k) ∧ (∀ y ∈ ys, k < y.2.1) ∧
      (∀ y ys', ys = y :: ys' → findLeaf t k (d + 1) a = findLeaf t k d (adrOf d y.2.2)) ∧
      (ys = [] → xs.length = N → findLeaf t k (d + 1) a = .ub) ∧
      (ys = [] → junk = none ∨ junk = some 0 →
        findLeaf t k (d + 1) a = .ub ∨ findLeaf t k (d + 1) a = findLeaf t k d (adrOf d (first xs z))) := by
  obtain ⟨⟨b, hb1, hb2⟩, _, _⟩ := hT
  simp only [] at hb1 hb2
  have hs : Srt d (Ord d) xs z := hord
  obtain ⟨P, Q, hPQ, hpos, hP, hQ⟩ := hb2.pos (hs.sortedKeys _) k
  obtain ⟨p, ys, rfl, rfl, rfl⟩ := adr_split hPQ
  rw [adr_keys (P := (· ≤ k))] at hP
  rw [adr_keys (P := (k < ·))] at hQ
  rw [adr_length] at hpos
  refine ⟨p, ys, rfl, hP, hQ, ?_, ?_, ?_⟩
  · rintro y ys' rfl
    have hb := hb2.good (by simp [adr])
    have h1 := hb.at_ (p := adr (adrOf d) p) (q := adr (adrOf d) ys') (e := (y.1, y.2.1, adrOf d y.2.2)) (by simp [adr])
    rw [adr_length] at h1
    rw [findLeaf, Tree.branch_ok hb1, Res.ok_bind, hpos, Res.ok_bind, h1, Res.ok_bind, hb.kid (by simp [adr]), Res.ok_bind]
  · rintro rfl hN
    rw [List.append_nil] at hN
    rw [findLeaf, Tree.branch_ok hb1, Res.ok_bind, hpos, Res.ok_bind, hN]
    unfold Slots.rd
    rw [if_neg (by omega)]
    rfl
  · rintro rfl hj
    rw [List.append_nil] at hb2 ⊢
    rw [findLeaf, Tree.branch_ok hb1, Res.ok_bind, hpos, Res.ok_bind]
    have hr := hb2.rest (p.length + 1) (by rw [adr_length]; omega)
    by_cases hlt : p.length + 1 < N + 1
    · have h2 : b.slot (p.length + 1) = none ∨ b.slot (p.length + 1) = some 0 := by
        rcases hr with h | h
        · rw [h]; exact hj
        · exact Or.inr h
      rcases h2 with h | h
      · left
        unfold Slots.rd
        rw [if_pos hlt, h]
        rfl
      · right
        rw [Slots.rd_ok hlt h, Res.ok_bind, hb2.kid0, Res.ok_bind]
    · left
      unfold Slots.rd
      rw [if_neg hlt]
      rfl

theorem RSpine.flat {junk : Option Nat} {t : Tree K V N M} : ∀ (d : Nat) (T : VT K V d), RSpine junk t d T → ∀ x ∈ flat d T,
    ∃ l, t.leaves[x.1]? = some l ∧ LeafOK l x.2 := by
  intro d
  induction d with
  | zero =>
    intro T hT x hx
    rw [WBTree.flat, List.mem_singleton] at hx
    subst hx
    exact hT
  | succ d ih =>
    rintro ⟨a, xs, z⟩ ⟨_, hx, hz⟩ y hy
    rcases List.mem_append.1 hy with h | h
    · obtain ⟨x, hxm, hxy⟩ := List.mem_flatMap.1 h
      exact ih _ (hx x hxm).1 y hxy
    · exact ih _ hz y h

theorem Within.flat {P : K → Prop} {d : Nat} {T : VT K V d} (h : Within P d T) {x : Nat × List (Nat × K × V)}
    (hx : x ∈ WBTree.flat d T) {e : Nat × K × V} (he : e ∈ x.2) : P e.2.1 := by
  refine h.ents d T e.2 ?_
  rw [ents_flat]
  exact List.mem_flatMap.2 ⟨x, hx, List.mem_map_of_mem he⟩

theorem first_mem {d : Nat} (xs : List (Nat × K × VT K V d)) (z : VT K V d) {y : Nat × List (Nat × K × V)}
    (h : y ∈ flat d (first xs z)) : y ∈ fl (flat d) xs z := by
  cases xs with
  | nil => exact List.mem_append_right _ h
  | cons x xs => exact List.mem_append_left _ (List.mem_flatMap.2 ⟨x, by simp, h⟩)

/-- A lookup ends in a leaf of the tree. -/
theorem findLeaf_mem {junk : Option Nat} (hj : junk = none ∨ junk = some 0) {t : Tree K V N M} (k : K) : ∀ (d : Nat) (T : VT K V d),
    RSpine junk t d T → Ord d T → findLeaf t k d (adrOf d T) = .ub ∨ ∃ x ∈ flat d T, findLeaf t k d (adrOf d T) = .ok x.1 := by
  intro d
  induction d with
  | zero => exact fun T _ _ => Or.inr ⟨T, by simp [flat], rfl⟩
  | succ d ih =>
    rintro ⟨a0, xs, z⟩ hT hord
    obtain ⟨p, ys, rfl, hp, hq, h1, _, h3⟩ := findLeaf_step hT hord k
    rw [adrOf]
    cases ys with
    | cons y ys =>
      rw [h1 y ys rfl]
      refine (ih _ (hT.2.1 y (by simp)).1 (hord.ord y (by simp))).imp id ?_
      rintro ⟨x, hx, hxa⟩
      exact ⟨x, List.mem_append_left _ (List.mem_flatMap.2 ⟨y, by simp, hx⟩), hxa⟩
    | nil =>
      rcases h3 rfl hj with h | h
      · exact Or.inl h
      · rw [h]
        have hf : RSpine junk t d (first (p ++ []) z) ∧ Ord d (first (p ++ []) z) := by
          cases p with
          | nil => exact ⟨hT.2.2, hord.ordz⟩
          | cons x p => exact ⟨(hT.2.1 x (by simp)).1, hord.ord x (by simp)⟩
        refine (ih _ hf.1 hf.2).imp id ?_
        rintro ⟨x, hx, hxa⟩
        exact ⟨x, first_mem _ _ hx, hxa⟩

theorem lookup_leaf {t : Tree K V N M} {k : K} {a : Nat} (e : findLeaf t k t.depth t.root = .ok a) {l : Leaf K V M}
    (hl : t.leaves[a]? = some l) : lookup t k = l.lookup k := by
  unfold lookup
  rw [e, Res.ok_bind, Tree.leaf, hl, Res.ofOption_some, Res.ok_bind]

/-- A key behind the last separator of the root is not found. -/
theorem lookup_lost {junk : Option Nat} (hj : junk = none ∨ junk = some 0) {t : Tree K V N M} {d a : Nat}
    {xs : List (Nat × K × VT K V d)} {z : VT K V d} (hd : t.depth = d + 1) (hr : t.root = a)
    (hT : RSpine junk t (d + 1) (a, xs, z)) (hord : Ord (d + 1) ((a, xs, z) : VT K V (d + 1))) (hne : xs ≠ []) {k : K}
    (hk : ∀ x ∈ xs, x.2.1 ≤ k) : lookup t k = .ub ∨ lookup t k = .ok none := by
  obtain ⟨p, ys, rfl, hp, hq, _, _, h3⟩ := findLeaf_step hT hord k
  have hys : ys = [] := by
    cases ys with
    | nil => rfl
    | cons y ys => exact absurd (hk y (by simp)) (not_le.2 (hq y (by simp)))
  subst hys
  rw [List.append_nil] at hT hord hne hk h3
  obtain ⟨x, p, rfl⟩ := List.exists_cons_of_ne_nil hne
  have hfl : findLeaf t k (d + 1) a = findLeaf t k t.depth t.root := by rw [hd, hr]
  rcases h3 rfl hj with h | h
  · left
    unfold lookup
    rw [← hfl, h]
    rfl
  · rw [hfl] at h
    have hx := (hT.2.1 x (by simp)).1
    rcases findLeaf_mem hj k d x.2.2 hx (hord.ord x (by simp)) with hf | ⟨y, hy, hf⟩
    · left
      unfold lookup
      rw [h, show findLeaf t k d (adrOf d (first (x :: p) z)) = _ from hf]
      rfl
    · obtain ⟨l, hl, hok⟩ := RSpine.flat d _ hx y hy
      right
      rw [lookup_leaf (h.trans hf) hl, hok.lookup k]
      have : List.find? (fun e => decide (e.2.1 = k)) y.2 = none := by
        rw [List.find?_eq_none]
        intro e he
        have h1 : e.2.1 < x.2.1 := (hord.lt x (by simp)).flat hy he
        have h2 := hk x (by simp)
        simp only [decide_eq_true_eq]
        exact fun hh => absurd h1 (not_lt.2 (hh ▸ h2))
      rw [this]
      rfl

/-! ## Full trees -/

theorem flatMap_get {α β : Type} {f : α → List β} {g : List β} {w : Nat} (hw : 0 < w) : ∀ (xs : List α) (i : Nat) (y : β),
    (∀ x ∈ xs, (f x).length = w) → (xs.flatMap f ++ g)[i]? = some y →
    (∃ h : i / w < xs.length, (f xs[i / w])[i % w]? = some y) ∨ (xs.length * w ≤ i ∧ g[i - xs.length * w]? = some y) := by
  intro xs
  induction xs with
  | nil => intro i y _ h; right; simpa using h
  | cons x xs ih =>
    intro i y hx h
    have hlx := hx x (by simp)
    rw [List.flatMap_cons, List.append_assoc] at h
    by_cases hi : i < w
    · rw [List.getElem?_append_left (by omega)] at h
      left
      refine ⟨by rw [Nat.div_eq_of_lt hi]; simp, ?_⟩
      simp only [Nat.div_eq_of_lt hi, Nat.mod_eq_of_lt hi, List.getElem_cons_zero]
      exact h
    · rw [List.getElem?_append_right (by omega), hlx] at h
      have hdiv : i / w = (i - w) / w + 1 := by
        rw [← Nat.add_div_right _ hw, Nat.sub_add_cancel (by omega)]
      have hmod : i % w = (i - w) % w := by
        rw [← Nat.add_mod_right (i - w) w, Nat.sub_add_cancel (by omega)]
      rcases ih (i - w) y (fun x' hx' => hx x' (by simp [hx'])) h with ⟨h1, h2⟩ | ⟨h1, h2⟩
      · left
        refine ⟨by rw [hdiv]; simpa using h1, ?_⟩
        simp only [hdiv, hmod, List.getElem_cons_succ]
        exact h2
      · right
        rw [List.length_cons, Nat.succ_mul]
        refine ⟨by omega, ?_⟩
        rw [← h2]
        congr 1
        omega

/-- In a full tree, the key of the leaf with index `i` is found if no digit of `i` in base `N + 1` is `N`; otherwise the
descent reads behind the array of slots. -/
theorem findLeaf_full {junk : Option Nat} (hN : 0 < N) {t : Tree K V N M} : ∀ (d : Nat) (T : VT K V d),
    RSpine junk t d T → Ord d T → (leafs d T).length = (N + 1) ^ d → ∀ (i : Nat) (x : Nat × List (Nat × K × V)),
    (flat d T)[i]? = some x → ∀ e ∈ x.2,
    ((∀ j < d, i / (N + 1) ^ j % (N + 1) ≠ N) → findLeaf t e.2.1 d (adrOf d T) = .ok x.1) ∧
    (¬ (∀ j < d, i / (N + 1) ^ j % (N + 1) ≠ N) → findLeaf t e.2.1 d (adrOf d T) = .ub) := by
  intro d
  induction d with
  | zero =>
    intro T _ _ _ i x hx e he
    have : x = T := by
      cases i with
      | zero => exact (Option.some.inj hx).symm
      | succ i => simp [flat] at hx
    subst this
    exact ⟨fun _ => rfl, fun h => absurd (fun j hj => absurd hj (Nat.not_lt_zero j)) h⟩
  | succ d ih =>
    rintro ⟨a, xs, z⟩ hT hord hfull i y hy e he
    have hs : Srt d (Ord d) xs z := hord
    obtain ⟨⟨b, hb1, hb2⟩, hx, hz⟩ := id hT
    simp only [] at hb1 hb2 hx hz
    have hle := hb2.le
    rw [adr_length] at hle
    have hlz := RSpine.length d z hz
    have hw : 0 < (N + 1) ^ d := Nat.pow_pos (Nat.succ_pos _)
    rw [hT.num, pow_succ, Nat.mul_succ, mul_comm ((N + 1) ^ d) N] at hfull
    have hxN : xs.length = N := by
      rcases Nat.lt_or_ge xs.length N with h | h
      · have := Nat.mul_le_mul_right ((N + 1) ^ d) h
        rw [Nat.succ_mul] at this
        omega
      · omega
    have hzf : (leafs d z).length = (N + 1) ^ d := by
      rw [hxN] at hfull
      omega
    have hlen : ∀ x ∈ xs, (flat d x.2.2).length = (N + 1) ^ d := by
      intro x hxm
      rw [← (hx x hxm).2, leafs_flat, List.length_map]
    have hlow : ∀ (q r : Nat), ∀ j < d, (q * (N + 1) ^ d + r) / (N + 1) ^ j % (N + 1) = r / (N + 1) ^ j % (N + 1) := by
      intro q r j hj
      have hp : (N + 1) ^ d = (N + 1) ^ j * ((N + 1) * (N + 1) ^ (d - j - 1)) := by
        rw [← pow_succ', ← pow_add]
        congr 1
        omega
      rw [hp, show q * ((N + 1) ^ j * ((N + 1) * (N + 1) ^ (d - j - 1))) + r =
        (N + 1) ^ j * ((N + 1) * (q * (N + 1) ^ (d - j - 1))) + r by ring, Nat.mul_add_div (Nat.pow_pos (Nat.succ_pos _)),
        Nat.mul_add_mod]
    have hdig : ∀ q r, q ≤ N → r < (N + 1) ^ d → i = q * (N + 1) ^ d + r →
        ((∀ j < d + 1, i / (N + 1) ^ j % (N + 1) ≠ N) ↔ q ≠ N ∧ ∀ j < d, r / (N + 1) ^ j % (N + 1) ≠ N) := by
      rintro q r hq hr rfl
      have htop : (q * (N + 1) ^ d + r) / (N + 1) ^ d % (N + 1) = q := by
        rw [mul_comm, Nat.mul_add_div hw, Nat.div_eq_of_lt hr, Nat.add_zero, Nat.mod_eq_of_lt (by omega)]
      constructor
      · intro h
        refine ⟨by rw [← htop]; exact h d (by omega), fun j hj => ?_⟩
        rw [← hlow q r j hj]
        exact h j (by omega)
      · rintro ⟨h1, h2⟩ j hj
        rcases Nat.lt_or_ge j d with h | h
        · rw [hlow q r j h]; exact h2 j h
        · obtain rfl : j = d := by omega
          rw [htop]; exact h1
    rcases flatMap_get (f := fun x : Nat × K × VT K V d => flat d x.2.2) (g := flat d z) hw xs i y hlen hy with ⟨hq, hr⟩ | ⟨hq, hr⟩
    · have hi : i = i / (N + 1) ^ d * (N + 1) ^ d + i % (N + 1) ^ d := by
        rw [mul_comm]; exact (Nat.div_add_mod _ _).symm
      have hmem : xs[i / (N + 1) ^ d] ∈ xs := List.getElem_mem _
      have hym : y ∈ flat d (xs[i / (N + 1) ^ d]).2.2 := List.mem_of_getElem? hr
      have hd := hdig _ _ (by omega) (Nat.mod_lt _ hw) hi
      obtain ⟨ih1, ih2⟩ := ih _ (hx _ hmem).1 (hs.ord _ hmem) (hx _ hmem).2 (i % (N + 1) ^ d) y hr e he
      have hstep : findLeaf t e.2.1 (d + 1) a = findLeaf t e.2.1 d (adrOf d (xs[i / (N + 1) ^ d]).2.2) := by
        have hcut : xs = xs.take (i / (N + 1) ^ d) ++ xs[i / (N + 1) ^ d] :: xs.drop (i / (N + 1) ^ d + 1) := by
          rw [← List.drop_eq_getElem_cons hq, List.take_append_drop]
        have hb := hb2.good (by intro hh; have := congrArg List.length hh; rw [adr_length] at this; simp at this; subst this; simp at hq)
        generalize xs[i / (N + 1) ^ d] = x at *
        generalize xs.take (i / (N + 1) ^ d) = p at *
        generalize xs.drop (i / (N + 1) ^ d + 1) = q at *
        subst hcut
        have hpw := List.pairwise_append.1 hs.pw
        have hpos := pos_adr (key := e.2.1) hb hs (fun u hu => ?_) (fun u hu => ?_)
        · have h1 := hb.at_ (p := adr (adrOf d) p) (q := adr (adrOf d) q) (e := (x.1, x.2.1, adrOf d x.2.2)) (by simp [adr])
          rw [adr_length] at h1
          rw [findLeaf, Tree.branch_ok hb1, Res.ok_bind, hpos, Res.ok_bind, h1, Res.ok_bind, hb.kid (by simp [adr]), Res.ok_bind]
        · exact (hpw.2.2 u hu x (by simp)).2.flat hym he
        · have h1 : e.2.1 < x.2.1 := (hs.lt x (by simp)).flat hym he
          rcases List.mem_cons.1 hu with rfl | hu
          · exact h1
          · exact lt_trans h1 ((List.pairwise_cons.1 hpw.2.1).1 u hu).1
      rw [adrOf, hstep, hd]
      exact ⟨fun h => ih1 h.2, fun h => ih2 (fun hh => h ⟨by omega, hh⟩)⟩
    · have hym : y ∈ flat d z := List.mem_of_getElem? hr
      have hrl : i - xs.length * (N + 1) ^ d < (N + 1) ^ d := by
        have := (List.getElem?_eq_some_iff.1 hr).1
        have h2 := hzf
        rw [leafs_flat, List.length_map] at h2
        omega
      rw [hxN] at hrl hq
      have hd := hdig N (i - N * (N + 1) ^ d) le_rfl hrl (by omega)
      refine ⟨fun h => absurd rfl (hd.1 h).1, fun _ => ?_⟩
      obtain ⟨p, ys, hxs, hp, hq', _, h2, _⟩ := findLeaf_step hT hord e.2.1
      have hys : ys = [] := by
        cases ys with
        | nil => rfl
        | cons u ys =>
          have hu : u ∈ xs := by rw [hxs]; simp
          have h1 : u.2.1 ≤ e.2.1 := (hs.last u hu).flat hym he
          exact absurd (hq' u (by simp)) (not_lt.2 h1)
      exact h2 hys hxN

/-! ## Inserts -/

/-- If some node has no separator, an insert behind all keys follows an uninitialised pointer. -/
theorem insertAux_thin {junk junk' : Option Nat} {t : Tree K V N M} {key : K} (val : V) : ∀ (d : Nat) (T : VT K V d),
    RSpine junk t d T → Within (· < key) d T → Ord d T → ¬ BitTree.Dense N (leafs d T).length d →
    insertAux junk' key val d t (adrOf d T) = .ub := by
  intro d
  induction d with
  | zero => intro T _ _ _ h; exact absurd (fun j hj => absurd hj (Nat.not_lt_zero j)) h
  | succ d ih =>
    rintro ⟨a, xs, z⟩ hT hlt hord hd
    obtain ⟨⟨b, hb1, hb2⟩, hx, hz⟩ := id hT
    simp only [] at hb1 hb2 hx hz
    have hs : Srt d (Ord d) xs z := hord
    have hle := hb2.le
    rw [adr_length] at hle
    have hl := RSpine.length d z hz
    rw [hT.num, BitTree.dense_succ hle hl.1 hl.2] at hd
    obtain ⟨P, Q, hPQ, hpos, hP, hQ⟩ := hb2.pos (hs.sortedKeys _) key
    have hQn : Q = [] := by
      cases Q with
      | nil => rfl
      | cons q Q =>
        obtain ⟨p', q', rfl, _, h2⟩ := adr_split hPQ
        cases q' with
        | nil => simp [adr] at h2
        | cons u q' =>
          have h3 : q = (u.1, u.2.1, adrOf d u.2.2) := by
            simp only [adr, List.map_cons, List.cons.injEq] at h2
            exact h2.1.symm
          have h4 : key < u.2.1 := by have := hQ q (by simp); rw [h3] at this; exact this
          exact absurd ((hlt.1 u (by simp)).1) (not_lt.2 (le_of_lt h4))
    subst hQn
    rw [List.append_nil] at hPQ
    subst hPQ
    rw [adrOf, insertAux, Tree.branch_ok hb1, Res.ok_bind, hpos, Res.ok_bind]
    unfold Branch.child
    rw [hb2.count, Res.ok_bind, if_pos rfl]
    by_cases he : xs = []
    · subst he
      unfold Slots.rd
      rw [if_pos (by omega), (hb2.thin rfl).2.1]
      rfl
    · have hd' : ¬ BitTree.Dense N (leafs d z).length d := fun h => hd ⟨by simpa using he, h⟩
      rw [Slots.rd_ok (by omega) (hb2.good (by simpa [adr] using he)).last, Res.ok_bind, ih z hz hlt.2 hs.ordz hd']
      rfl

theorem insert_thin {junk junk' : Option Nat} (hN : 0 < N) {t : Tree K V N M} {F : List (Nat × List (Nat × K × V))}
    (h : RInv junk t F) (h1 : 1 < F.length) (hz : ¬ BitTree.ZeroFree N F.length) {key : K} (hk : ∀ y ∈ flatEnts F, y.1 < key)
    (val : V) : insert junk' t key val = .ub := by
  obtain ⟨d, T, g1, g2, g3, g4, g5, g6, g7, g8, g9⟩ := h
  have hlen := g3.length (d + 1) T
  have hl : (leafs (d + 1) T).length = F.length := by rw [g6, List.length_map]
  unfold insert
  rw [g1, ← g2, insertAux_thin val (d + 1) T g3 (g4.within_lt _ _ (by rw [g7]; exact hk)) g4 ?_]
  · rfl
  · rw [hl, BitTree.dense_zeroFree hN (g8 h1) (by rw [← hl]; exact hlen.2)]
    exact hz

/-! ## Scans -/

theorem leftmost_first {junk : Option Nat} {t : Tree K V N M} : ∀ (d : Nat) (T : VT K V d), RSpine junk t d T →
    ∃ a, leftmost t d (adrOf d T) = .ok a ∧ (leafs d T).head? = some a := by
  intro d
  induction d with
  | zero => exact fun T _ => ⟨T.1, rfl, rfl⟩
  | succ d ih =>
    rintro ⟨a, xs, z⟩ ⟨⟨b, hb1, hb2⟩, hx, hz⟩
    simp only [] at hb1 hb2 hx hz
    have hf : RSpine junk t d (first xs z) := by
      cases xs with
      | nil => exact hz
      | cons x xs => exact (hx x (by simp)).1
    obtain ⟨a', e, h⟩ := ih _ hf
    refine ⟨a', ?_, ?_⟩
    · rw [adrOf, leftmost, Tree.branch_ok hb1, Res.ok_bind, hb2.kid0, Res.ok_bind, e]
    · show (fl (leafs d) xs z).head? = _
      cases xs with
      | nil => simpa [fl, first] using h
      | cons x xs =>
        unfold fl
        rw [List.flatMap_cons, List.append_assoc, List.head?_append]
        rw [show (leafs d x.2.2).head? = some a' from h]
        rfl

end Verif.WBTree
