import Verif.WBTree.BalanceTree
import Verif.WBTree.EraseTreeProps

/-!
# wBPTree.hpp and wHBPTree.hpp: erases that move separators between branch nodes
-/

namespace Verif.WBTree

variable {K V : Type} [LinearOrder K] {N M : Nat}

/-- The branch node at address `a` has `n` separators. -/
def Seps (s : ETree K V N M) (a n : Nat) : Prop := ∃ x, s.branch a = .ok x ∧ x.count = .ok n

/-- The branch node `c`, the child at position `p` of the node `b` with `nb` separators, has too few separators (but
not none), and a neighbour has more than half: the left one, or the right one if there is no such left one. -/
def BalHere (s : ETree K V N M) (b : Branch K N) (nb p c : Nat) : Prop :=
  (∃ n, Seps s c n ∧ 0 < n ∧ n < (N + 1) / 2) ∧
  ((1 < p ∧ ∃ q m, b.child (p - 1) = .ok q ∧ Seps s q m ∧ (N + 1) / 2 < m) ∨
   ((1 < p → ∀ q m, b.child (p - 1) = .ok q → Seps s q m → m ≤ (N + 1) / 2) ∧ p ≤ nb ∧
      ∃ r m, b.child (p + 1) = .ok r ∧ Seps s r m ∧ (N + 1) / 2 < m))

/-- The erase of `key` below the node `a` of depth `d` is calm up to one branch node that takes separators from a
neighbour. -/
def CalmBal (hy : Bool) (key : K) : Nat → ETree K V N M → Nat → Prop
  | 0, _, _ => False
  | d + 1, s, a => ∃ b p c nb, s.branch a = .ok b ∧ b.pos key = .ok p ∧ b.child p = .ok c ∧ b.count = .ok nb ∧
      ((d ≠ 0 ∧ Calm hy key d s c ∧ ∀ s1 del, eraseAux hy key d s c = .ok (s1, del) → BalHere s1 b nb p c) ∨
       (CalmBal hy key d s c ∧ ∀ s1 del, eraseAux hy key d s c = .ok (s1, del) →
          ∃ n, Seps s1 c n ∧ (N + 1) / 2 ≤ n))

theorem rep_seps {s : ETree K V N M} {d : Nat} {T : VT K V (d + 1)} (h : Rep s.tree (d + 1) T) (hd : T.1 ∉ s.deadB) :
    Seps s T.1 T.2.1.length := by
  obtain ⟨⟨b, h1, h2⟩, _⟩ := h
  have := h2.count
  rw [adr_length] at this
  exact ⟨b, ETree.branch_ok h1 hd, this⟩

omit [LinearOrder K] in
theorem Seps.inj {s : ETree K V N M} {a n m : Nat} (h1 : Seps s a n) (h2 : Seps s a m) : n = m := by
  obtain ⟨x, e1, e2⟩ := h1
  obtain ⟨y, e3, e4⟩ := h2
  rw [e1] at e3
  obtain rfl := Res.ok.inj e3
  rw [e2] at e4
  exact Res.ok.inj e4

omit [LinearOrder K] in
theorem rightOf_eq {s : ETree K V N M} {b : Branch K N} {n p r m : Nat} (hn : b.count = .ok n) (hp : p ≤ n)
    (hr : b.child (p + 1) = .ok r) (hm : Seps s r m) : underflowBranch.rightOf s b n p = .ok (some (r, m)) := by
  obtain ⟨x, e1, e2⟩ := hm
  unfold underflowBranch.rightOf
  unfold Branch.child at hr
  unfold Branch.count at hn
  rw [hn, Res.ok_bind] at hr
  rw [if_pos hp]
  by_cases hpn : p = n
  · rw [if_pos (by omega)] at hr
    rw [if_pos hpn, Res.pure_eq, Res.ok_bind, hr, Res.ok_bind, e1, Res.ok_bind, e2, Res.ok_bind, Res.pure_eq]
  · rw [if_neg (by omega)] at hr
    obtain ⟨i, hi, hr⟩ := Res.bind_eq_ok.1 hr
    rw [if_neg hpn, hi, Res.ok_bind, hr, Res.ok_bind, e1, Res.ok_bind, e2, Res.ok_bind, Res.pure_eq]

/-- The balance at a node: `c'` is the child after the erase. -/
theorem underflow_bal {hy : Bool} {s : ETree K V N M} {d a : Nat} {p ys : List (Nat × K × VT K V (d + 1))}
    {z c' : VT K V (d + 1)} {b : Branch K N} {nb : Nat}
    (hT : Rep s.tree (d + 2) ((a, p ++ (setF ys z c').1, (setF ys z c').2) : VT K V (d + 2)))
    (hs : Srt (d + 1) (Ord (d + 1)) (p ++ (setF ys z c').1) (setF ys z c').2)
    (hn : (nodes (d + 2) ((a, p ++ (setF ys z c').1, (setF ys z c').2) : VT K V (d + 2))).Nodup)
    (hB : ∀ j ∈ nodes (d + 2) ((a, p ++ (setF ys z c').1, (setF ys z c').2) : VT K V (d + 2)), j ∉ s.deadB)
    (hba : s.tree.branches[a]? = some b) (hnb : b.count = .ok nb) (hbal : BalHere s b nb (p.length + 1) c'.1) :
    ∃ s' s2 T' q u n, underflowBranch hy s a (p.length + 1) c'.1 = .ok (s', c'.1) ∧
      Rearr s s2 (d + 2) ((a, p ++ (setF ys z c').1, (setF ys z c').2) : VT K V (d + 2)) T' ∧ Leak s2 s' q u ∧
      q ∈ nodes (d + 2) ((a, p ++ (setF ys z c').1, (setF ys z c').2) : VT K V (d + 2)) ∧ Seps s' a n ∧ 0 < n := by
  have hT0 := hT
  obtain ⟨⟨b0, hba0, hb⟩, hrx, hrz⟩ := hT0
  simp only [] at hba0 hb hrx hrz
  rw [hba] at hba0
  obtain rfl := Option.some.inj hba0
  have haB : a ∉ s.deadB := hB a (by simp [nodes])
  have ebr := ETree.branch_ok hba haB
  have hlen : nb = (p ++ (setF ys z c').1).length := by
    have := hb.count
    rw [adr_length] at this
    unfold Branch.count at hnb
    rw [this] at hnb
    exact (Res.ok.inj hnb).symm
  have hcin : ∀ j ∈ nodes (d + 1) c', j ∉ s.deadB := by
    intro j hj
    refine hB j ?_
    show j ∈ a :: fl (nodes (d + 1)) (p ++ (setF ys z c').1) (setF ys z c').2
    rw [fl_mid_set]
    simp [hj]
  have hrc : Rep s.tree (d + 1) c' := by
    have := first_rep hrx hrz
    rwa [first_setF] at this
  have hcseps := rep_seps hrc (hcin _ (by simp [nodes]))
  obtain ⟨⟨n, hn1, hn0, hn2⟩, hcase⟩ := hbal
  have hnc := hn1.inj hcseps
  subst hnc
  have hcne : c'.2.1 ≠ [] := List.length_pos_iff.1 hn0
  have hfin : ∀ {s' : ETree K V N M} {fk : K} {i : Nat}, s'.deadB = s.deadB →
      s'.tree.branches[a]? = some { b with keys := fun j => if j = i then some fk else b.keys j } → Seps s' a nb := by
    intro s' fk i h1 h2
    exact ⟨_, ETree.branch_ok h2 (by rw [h1]; exact haB), hnb⟩
  have hdead : ∀ {s' s2 : ETree K V N M} {q u : Nat} {T T' : VT K V (d + 2)}, Rearr s s2 (d + 2) T T' → Leak s2 s' q u →
      s'.deadB = s.deadB := by
    intro s' s2 q u T T' h1 h2
    obtain ⟨bs, _, rfl⟩ := h1.same
    obtain ⟨b, X, _, _, _, _, rfl⟩ := h2
    rfl
  rcases hcase with ⟨hp, q, m, hq, hqs, hm⟩ | ⟨hl, hp, r, m, hr, hrs, hm⟩
  · -- from the left
    obtain ⟨p0, ⟨i, pk, X⟩, rfl⟩ : ∃ p0 x, p = p0 ++ [x] := by
      have : p ≠ [] := by
        rintro rfl
        simp at hp
      exact ⟨p.dropLast, p.getLast this, (List.dropLast_append_getLast this).symm⟩
    have eT : p0 ++ [(i, pk, X)] ++ (setF ys z c').1 = p0 ++ (i, pk, X) :: (setF ys z c').1 := by simp
    rw [eT] at hT hs hn hB hrx hb hlen ⊢
    have hsep := hb.sep
    have hXd : X.1 ∉ s.deadB := hB _ (nodes_ne hn).2.2.2.1
    have hXs : Seps s X.1 X.2.1.length := rep_seps (hrx (i, pk, X) (by simp)) hXd
    have hqX : q = X.1 := by
      rw [adr_append] at hb
      have := hb.child
      rw [adr_length] at this
      rw [show (p0 ++ [(i, pk, X)]).length + 1 - 1 = p0.length + 1 by simp] at hq
      rw [this] at hq
      exact (Res.ok.inj hq).symm
    subst hqX
    obtain rfl := hqs.inj hXs
    obtain ⟨s', s2, T', u, fk, e, g1, g2, g3⟩ := balance_left hT hs hn hB hba (by rw [first_setF]; exact hcne)
      (by rw [first_setF]; omega)
    refine ⟨s', s2, T', X.1, u, nb, ?_, g1, g2, (nodes_ne hn).2.2.2.1, hfin (hdead g1 g2) g3, by
      rw [hlen]; simp⟩
    rw [first_setF] at e
    obtain ⟨x, hx1, hx2⟩ := hXs
    unfold underflowBranch
    rw [ebr, Res.ok_bind, hnb, Res.ok_bind]
    dsimp only
    rw [if_pos hp, show (p0 ++ [(i, pk, X)]).length + 1 - 1 = p0.length + 1 by simp, hsep.1, Res.ok_bind, hsep.2.2, Res.ok_bind,
      show s.branch (adrOf (d + 1) X) = .ok x from hx1, Res.ok_bind, hx2, Res.ok_bind, Res.pure_eq, Res.ok_bind]
    dsimp only
    rw [if_pos hm]
    exact e
  · -- from the right
    obtain ⟨i, pk, C, ys', rfl⟩ : ∃ i pk C ys', ys = (i, pk, C) :: ys' := by
      cases ys with
      | nil =>
        simp [setF] at hlen
        omega
      | cons y ys => exact ⟨y.1, y.2.1, y.2.2, ys, rfl⟩
    simp only [setF] at hT hs hn hB hrx hrz hb hlen ⊢
    have hYd : (first ys' z).1 ∉ s.deadB := hB _ (nodes_ne hn).2.2.2.2
    have hrY : Rep s.tree (d + 1) (first ys' z) := first_rep (p := p ++ [(i, pk, c')]) (by simpa using hrx) hrz
    have hYs := rep_seps hrY hYd
    have hrr : r = (first ys' z).1 := by
      have hb2 : BrOK b (adr (adrOf (d + 1)) (p ++ [(i, pk, c')]) ++ adr (adrOf (d + 1)) ys') (adrOf (d + 1) z) := by
        rw [← adr_append]
        simpa using hb
      have := hb2.child
      rw [adr_length, first_adr, show (p ++ [(i, pk, c')]).length + 1 = p.length + 1 + 1 by simp, hr] at this
      exact Res.ok.inj this
    subst hrr
    obtain rfl := hrs.inj hYs
    obtain ⟨s', s2, T', u, fk, e, g1, g2, g3⟩ := balance_right hT hs hn hB hba hcne (by omega)
    refine ⟨s', s2, T', (first ys' z).1, u, nb, ?_, g1, g2, (nodes_ne hn).2.2.2.2, hfin (hdead g1 g2) g3, by
      rw [hlen]; simp⟩
    unfold underflowBranch
    rw [ebr, Res.ok_bind, hnb, Res.ok_bind]
    dsimp only
    by_cases hp1 : 1 < p.length + 1
    · obtain ⟨p0, ⟨i0, pk0, X0⟩, rfl⟩ : ∃ p0 x, p = p0 ++ [x] := by
        have : p ≠ [] := by
          rintro rfl
          simp at hp1
        exact ⟨p.dropLast, p.getLast this, (List.dropLast_append_getLast this).symm⟩
      have eT : p0 ++ [(i0, pk0, X0)] ++ (i, pk, c') :: ys' = p0 ++ (i0, pk0, X0) :: (i, pk, c') :: ys' := by simp
      rw [eT] at hn hB hrx hb
      have hsep := hb.sep
      have hXd : X0.1 ∉ s.deadB := hB _ (nodes_ne hn).2.2.2.1
      have hXs : Seps s X0.1 X0.2.1.length := rep_seps (hrx (i0, pk0, X0) (by simp)) hXd
      have hle := hl hp1 X0.1 _ (by
        have hb2 := hb
        rw [adr_append] at hb2
        have := hb2.child
        rw [adr_length] at this
        rw [show (p0 ++ [(i0, pk0, X0)]).length + 1 - 1 = p0.length + 1 by simp]
        exact this) hXs
      obtain ⟨x, hx1, hx2⟩ := hXs
      rw [if_pos hp1, show (p0 ++ [(i0, pk0, X0)]).length + 1 - 1 = p0.length + 1 by simp, hsep.1, Res.ok_bind, hsep.2.2,
        Res.ok_bind, show s.branch (adrOf (d + 1) X0) = .ok x from hx1, Res.ok_bind, hx2, Res.ok_bind, Res.pure_eq, Res.ok_bind]
      dsimp only
      rw [if_neg (by omega), rightOf_eq hnb hp hr hrs, Res.ok_bind]
      dsimp only
      rw [if_pos hm]
      exact e
    · rw [if_neg hp1, Res.pure_eq, Res.ok_bind]
      dsimp only
      rw [rightOf_eq hnb hp hr hrs, Res.ok_bind]
      dsimp only
      rw [if_pos hm]
      exact e

/-- The erase below a branch node. -/
theorem eraseAux_bal {hy : Bool} {key : K} {v : V} : ∀ (d : Nat) (s : ETree K V N M) (T : VT K V (d + 1)),
    2 ≤ s.tree.depth → Rep s.tree (d + 1) T → Ord (d + 1) T → (nodes (d + 1) T).Nodup →
    (∀ j ∈ nodes (d + 1) T, j ∉ s.deadB) → ∀ X Y : List Nat, LeafChain s (X ++ leafs (d + 1) T ++ Y) →
    (key, v) ∈ ents (d + 1) T → CalmBal hy key (d + 1) s (adrOf (d + 1) T) →
    ∃ s' s1 s2 T1 T2 q u, eraseAux hy key (d + 1) s (adrOf (d + 1) T) = .ok (s', true) ∧
      EResult s s1 key (d + 1) T T1 ∧ Rearr s1 s2 (d + 1) T1 T2 ∧ Leak s2 s' q u ∧ q ∈ nodes (d + 1) T1 := by
  intro d
  induction d with
  | zero =>
    rintro s T hdep hT hs hn hB X Y hch hk ⟨b, p, c, nb, _, _, _, _, ⟨h, _⟩ | ⟨h, _⟩⟩
    · exact absurd rfl h
    · exact h.elim
  | succ d ih =>
    rintro s ⟨a, xs, z⟩ hdep hT hs hn hB X Y hch hk hc
    replace hs : Srt (d + 1) (Ord (d + 1)) xs z := hs
    replace hk : (key, v) ∈ fl (ents (d + 1)) xs z := hk
    replace hch : LeafChain s (X ++ fl (leafs (d + 1)) xs z ++ Y) := hch
    replace hn : (a :: fl (nodes (d + 1)) xs z).Nodup := hn
    replace hB : ∀ j ∈ a :: fl (nodes (d + 1)) xs z, j ∉ s.deadB := hB
    have hl : (fl (leafs (d + 1)) xs z).Nodup := (List.nodup_append.1 (List.nodup_append.1 hch.nodup).1).2.1
    have hT0 := hT
    obtain ⟨⟨b, hba, hb⟩, hrx, hrz⟩ := hT0
    simp only [] at hba hb hrx hrz
    -- the child
    obtain ⟨P, Q, hPQ, epos, hP, hQ⟩ := hb.pos (hs.sortedKeys _) key
    obtain ⟨p, ys, rfl, rfl, rfl⟩ := adr_split hPQ
    replace hP := adr_keys (P := (· ≤ key)).1 hP
    replace hQ := adr_keys (P := (key < ·)).1 hQ
    rw [adr_length] at epos
    have echild : b.child (p.length + 1) = .ok (adrOf (d + 1) (first ys z)) := by
      have h1 := hb
      rw [adr_append] at h1
      have := h1.child
      rwa [adr_length, first_adr] at this
    have ha : a ∉ s.deadB := hB a (by simp)
    have ebr := ETree.branch_ok hba ha
    obtain ⟨b', p', c', nb, hb1, hp1, hc1, hn1, hcase⟩ := hc
    rw [show s.branch (adrOf (d + 1 + 1) (a, p ++ ys, z)) = .ok b from ebr] at hb1
    obtain rfl := Res.ok.inj hb1
    rw [epos] at hp1
    obtain rfl := Res.ok.inj hp1
    rw [echild] at hc1
    obtain rfl := Res.ok.inj hc1
    have hrc := first_rep hrx hrz
    obtain ⟨ne1, ne2⟩ := others_ne hs hP hQ
    have hkc : (key, v) ∈ ents (d + 1) (first ys z) := by
      rw [fl_mid, List.mem_append, List.mem_append] at hk
      rcases hk with (h | h) | h
      · exact absurd rfl (ne1 _ h)
      · exact h
      · exact absurd rfl (ne2 _ h)
    have hn2 := (List.nodup_cons.1 hn).2
    have han := (List.nodup_cons.1 hn).1
    have hch2 : LeafChain s ((X ++ p.flatMap (fun x => leafs (d + 1) x.2.2)) ++ leafs (d + 1) (first ys z) ++
        (tl (leafs (d + 1)) ys z ++ Y)) := by
      rw [fl_mid] at hch
      have e : (X ++ p.flatMap (fun x => leafs (d + 1) x.2.2)) ++ leafs (d + 1) (first ys z) ++
          (tl (leafs (d + 1)) ys z ++ Y) = X ++ (p.flatMap (fun x => leafs (d + 1) x.2.2) ++ leafs (d + 1) (first ys z) ++
          tl (leafs (d + 1)) ys z) ++ Y := by simp only [List.append_assoc]
      rw [e]
      exact hch
    rw [fl_mid] at hn2 han
    have hnc : (nodes (d + 1) (first ys z)).Nodup := (List.nodup_append.1 (List.nodup_append.1 hn2).1).2.1
    have hBc : ∀ j ∈ nodes (d + 1) (first ys z), j ∉ s.deadB := fun j hj => hB j (by
      rw [fl_mid]; simp only [List.mem_cons, List.mem_append]; exact Or.inr (Or.inl (Or.inr hj)))
    have hac : a ∉ nodes (d + 1) (first ys z) := fun hh => han (by
      simp only [List.mem_append]; exact Or.inl (Or.inr hh))
    rcases hcase with ⟨_, hcalm, hbal⟩ | ⟨hcb, hx⟩
    · -- the balance is here
      obtain ⟨s1, c', e1, hres⟩ := eraseAux_gen d s (first ys z) hdep hrc hs.first.1 hnc hBc _ _ hch2 hkc hcalm
      have hup := EResult.up hT hs hl hn hP hQ hres
      have hb3 : s1.tree.branches[a]? = some b := by rw [hres.2.2.2.2.bsame a hac, hba]
      have ha1 : a ∉ s1.deadB := by rw [hres.2.2.2.2.deadB]; exact ha
      have hadr : c'.1 = adrOf (d + 1) (first ys z) := hres.1
      have hbl := hbal s1 true e1
      rw [← hadr] at hbl
      have hnT := hup.2.2.2.2.bsub
      have hBT : ∀ j ∈ nodes (d + 2) ((a, p ++ (setF ys z c').1, (setF ys z c').2) : VT K V (d + 2)), j ∉ s1.deadB := by
        intro j hj
        rw [hres.2.2.2.2.deadB]
        rw [hnT] at hj
        exact hB j hj
      obtain ⟨s', s2, T', q, u, n, e2, g1, g2, g3, g4, g5⟩ := underflow_bal (hy := hy) hup.2.1 hup.2.2.1 (by rw [hnT]; exact hn) hBT
        hb3 hn1 hbl
      refine ⟨s', s1, s2, _, T', q, u, ?_, hup, g1, g2, g3⟩
      obtain ⟨⟨x, hx1, hx2⟩, hx3⟩ : (∃ x, s1.branch (adrOf (d + 1) (first ys z)) = .ok x ∧ x.count = .ok c'.2.1.length) ∧
          c'.2.1.length < (N + 1) / 2 := by
        obtain ⟨⟨n, h1, h2, h3⟩, _⟩ := hbl
        have hd' : c'.1 ∉ s1.deadB := hBT _ (by
          show c'.1 ∈ a :: fl (nodes (d + 1)) (p ++ (setF ys z c').1) (setF ys z c').2
          rw [fl_mid_set]
          simp [nodes])
        have hs := rep_seps hres.2.1 hd'
        rw [h1.inj hs] at h3
        rw [hadr] at hs
        exact ⟨hs, h3⟩
      obtain ⟨y, hy1, hy2⟩ := g4
      rw [eraseAux]
      rw [show s.branch (adrOf (d + 1 + 1) (a, p ++ ys, z)) = .ok b from ebr, Res.ok_bind, epos, Res.ok_bind, echild,
        Res.ok_bind, e1, Res.ok_bind]
      dsimp only
      rw [if_neg (by omega), show s1.branch (adrOf (d + 1 + 1) (a, p ++ ys, z)) = .ok b from ETree.branch_ok hb3 ha1,
        Res.ok_bind, epos, Res.ok_bind, hx1, Res.ok_bind, hx2, Res.ok_bind, if_pos hx3, ← hadr]
      rw [show underflowBranch hy s1 (adrOf (d + 1 + 1) (a, p ++ ys, z)) (p.length + 1) c'.1 = .ok (s', c'.1) from e2, Res.ok_bind]
      dsimp only
      rw [show s'.branch (adrOf (d + 1 + 1) (a, p ++ ys, z)) = .ok y from hy1, Res.ok_bind, hy2, Res.ok_bind, if_neg (by omega)]
      rfl
    · -- the balance is below
      obtain ⟨s', s1, s2, c1, c2, q, u, e1, hres, hre, hlk, hq⟩ := ih s (first ys z) hdep hrc hs.first.1 hnc hBc _ _ hch2 hkc hcb
      have hup := EResult.up hT hs hl hn hP hQ hres
      have hnT := hup.2.2.2.2.bsub
      have hnc1 := hres.2.2.2.2.bsub
      have hup2 := Rearr.up (c' := c2) hup.2.1 hup.2.2.1 (hl.sublist hup.2.2.2.2.lsub)
        (show (nodes (d + 2) ((a, p ++ (setF ys z c1).1, (setF ys z c1).2) : VT K V (d + 2))).Nodup by rw [hnT]; exact hn)
        (by rw [first_setF]; exact hre)
      refine ⟨s', s1, s2, _, _, q, u, ?_, hup, hup2, hlk, ?_⟩
      · have hqa : q ≠ a := by
          rintro rfl
          rw [hnc1] at hq
          exact hac hq
        have hb3 : s'.tree.branches[a]? = some b := by
          obtain ⟨b0, Xb, _, _, _, _, rfl⟩ := hlk
          show (s2.tree.branches.set q _)[a]? = _
          rw [List.getElem?_set_ne hqa, hre.bsame a (by rw [hnc1]; exact hac), hres.2.2.2.2.bsame a hac, hba]
        have ha1 : a ∉ s'.deadB := by
          obtain ⟨b0, Xb, _, _, _, _, rfl⟩ := hlk
          obtain ⟨bs, _, rfl⟩ := hre.same
          show a ∉ s1.deadB
          rw [hres.2.2.2.2.deadB]; exact ha
        obtain ⟨n, ⟨x, hx1, hx2⟩, hx3⟩ := hx s' true e1
        rw [eraseAux]
        rw [show s.branch (adrOf (d + 1 + 1) (a, p ++ ys, z)) = .ok b from ebr, Res.ok_bind, epos, Res.ok_bind, echild,
          Res.ok_bind, e1, Res.ok_bind]
        dsimp only
        rw [if_neg (by omega), show s'.branch (adrOf (d + 1 + 1) (a, p ++ ys, z)) = .ok b from ETree.branch_ok hb3 ha1,
          Res.ok_bind, epos, Res.ok_bind, hx1, Res.ok_bind, hx2, Res.ok_bind, if_neg (by omega)]
        rfl
      · show q ∈ a :: fl (nodes (d + 1)) (p ++ (setF ys z c1).1) (setF ys z c1).2
        rw [fl_mid_set]
        simp [hq]

/-! ## The map -/

theorem Rearr.leafChain {s s' : ETree K V N M} {d : Nat} {T T' : VT K V d} (h : Rearr s s' d T T') {L : List Nat}
    (hc : LeafChain s L) : LeafChain s' L := by
  obtain ⟨bs, _, rfl⟩ := h.same
  exact ⟨hc.nodup, hc.next, hc.prev, hc.alive⟩

theorem EInv.erase_bal_aux {hy : Bool} {s : ETree K V N M} {m : K → Option V} {d : Nat} (hd : s.tree.depth = d)
    (T : VT K V d) (h1 : adrOf d T = s.tree.root) (h2 : Rep s.tree d T) (h3 : Ord d T ∨ (d = 0 ∧ ents d T = []))
    (h4 : (nodes d T).Nodup) (h5 : LeafChain s (leafs d T)) (h6 : ∀ j ∈ s.deadL, j < s.tree.leaves.length)
    (h7 : s.deadB = []) (h8 : ∀ k v, (k, v) ∈ ents d T ↔ m k = some v) {key : K} {v : V} (hk : m key = some v)
    (hc : CalmBal hy key d s (adrOf d T)) :
    ∃ s' s2 q u, eraseAux hy key d s (adrOf d T) = .ok (s', true) ∧ EInv s2 (fun k => if k = key then none else m k) ∧
      Leak s2 s' q u := by
  match d, T with
  | 0, _ => exact hc.elim
  | 1, T =>
    obtain ⟨b, p, c, nb, _, _, _, _, ⟨h, _⟩ | ⟨h, _⟩⟩ := hc
    · exact absurd rfl h
    · exact h.elim
  | d + 2, T =>
    obtain ⟨s', s1, s2, T1, T2, q, u, e, ⟨g1, g2, g3, g4, g5⟩, r, lk, _⟩ := eraseAux_bal (d + 1) s T (by omega) h2
      (h3.resolve_right (by omega)) h4 (by rw [h7]; simp) [] [] (by simpa using h5) ((h8 key v).2 hk) hc
    refine ⟨s', s2, q, u, e, ?_, lk⟩
    have hsame : s2.tree.root = s1.tree.root ∧ s2.tree.depth = s1.tree.depth ∧ s2.deadL = s1.deadL ∧
        s2.tree.leaves = s1.tree.leaves ∧ s2.deadB = s1.deadB := by
      obtain ⟨bs, _, rfl⟩ := r.same
      exact ⟨rfl, rfl, rfl, rfl, rfl⟩
    obtain ⟨k1, k2, k3, k4, k5⟩ := hsame
    refine EInv.mk' (d := d + 2) (by rw [k2, g5.depth, hd]) T2 (by rw [r.adrE, g1, h1, k1, g5.root]) r.rep (Or.inl r.ord)
      (by rw [r.nodesP.nodup_iff, g5.bsub]; exact h4) (by rw [r.leafsE]; exact r.leafChain (g5.leafChain h5))
      (by rw [k3, k4]; exact g5.dead_lt h5 h6) (by rw [k5, g5.deadB, h7]) ?_
    intro k w
    rw [r.entsE, g5.ent, h8]
    by_cases hk : k = key
    · simp [hk]
    · simp [hk]

/-- An erase with one balance of branch nodes removes the key and nothing else; the bitmap of one branch node has
then one position too many. -/
theorem EInv.erase_bal {hy : Bool} {s : ETree K V N M} {m : K → Option V} (h : EInv s m) {key : K} {v : V}
    (hk : m key = some v) (hc : CalmBal hy key s.tree.depth s s.tree.root) :
    ∃ s' s2 q u, eerase hy s key = .ok (s', true) ∧ EInv s2 (fun k => if k = key then none else m k) ∧
      Leak s2 s' q u := by
  obtain ⟨T, h1, h2, h3, h4, h5, h6, h7, h8⟩ := h
  unfold eerase
  rw [← h1] at hc ⊢
  exact EInv.erase_bal_aux rfl T h1 h2 h3 h4 h5 h6 h7 h8 hk hc

/-! ## Lookups do not read the bitmaps of branch nodes -/

theorem Leak.branch {s2 s : ETree K V N M} {q u : Nat} (h : Leak s2 s q u) (a : Nat) :
    (∃ b X, s2.branch a = .ok b ∧ s.branch a = .ok { b with bits := X }) ∨ s.branch a = s2.branch a := by
  obtain ⟨b, X, h1, _, _, _, rfl⟩ := h
  by_cases hd : a ∈ s2.deadB
  · right
    unfold ETree.branch ETree.setBranch
    rw [if_pos hd, if_pos hd]
  · by_cases ha : a = q
    · subst ha
      left
      refine ⟨b, X, ETree.branch_ok h1 hd, ETree.branch_ok ?_ hd⟩
      show (s2.tree.branches.set a _)[a]? = _
      rw [List.getElem?_set_self (List.getElem?_eq_some_iff.1 h1).1]
    · right
      unfold ETree.branch ETree.setBranch Tree.branch
      rw [if_neg hd, if_neg hd]
      show Res.ofOption (s2.tree.branches.set q _)[a]? = _
      rw [List.getElem?_set_ne (Ne.symm ha)]

theorem Leak.einsLeaf {s2 s : ETree K V N M} {q u : Nat} (h : Leak s2 s q u) (key : K) : ∀ (d a : Nat),
    einsLeaf s key d a = einsLeaf s2 key d a := by
  intro d
  induction d with
  | zero => intro a; rfl
  | succ d ih =>
    intro a
    rw [WBTree.einsLeaf, WBTree.einsLeaf]
    rcases h.branch a with ⟨b, X, e1, e2⟩ | e
    · rw [e1, e2, Res.ok_bind, Res.ok_bind]
      rw [show ({ b with bits := X } : Branch K N).pos key = b.pos key from rfl]
      congr 1
      funext p
      rw [show ({ b with bits := X } : Branch K N).child p = b.child p from rfl]
      congr 1
      funext c
      exact ih c
    · rw [e]
      congr 1
      funext b
      congr 1
      funext p
      congr 1
      funext c
      exact ih c

theorem Leak.efindLeaf {s2 s : ETree K V N M} {q u : Nat} (h : Leak s2 s q u) (key : K) : ∀ (d a : Nat),
    efindLeaf s key d a = efindLeaf s2 key d a := by
  intro d
  induction d with
  | zero => intro a; rfl
  | succ d ih =>
    intro a
    rw [WBTree.efindLeaf, WBTree.efindLeaf]
    rcases h.branch a with ⟨b, X, e1, e2⟩ | e
    · rw [e1, e2, Res.ok_bind, Res.ok_bind]
      rw [show ({ b with bits := X } : Branch K N).pos key = b.pos key from rfl]
      congr 1
      funext p
      congr 1
      funext i
      congr 1
      funext c
      exact ih c
    · rw [e]
      congr 1
      funext b
      congr 1
      funext p
      congr 1
      funext i
      congr 1
      funext c
      exact ih c

theorem Leak.tree {s2 s : ETree K V N M} {q u : Nat} (h : Leak s2 s q u) : s.tree.depth = s2.tree.depth ∧
    s.tree.root = s2.tree.root ∧ ∀ a, s.leaf a = s2.leaf a := by
  obtain ⟨b, X, _, _, _, _, rfl⟩ := h
  exact ⟨rfl, rfl, fun a => rfl⟩

theorem Leak.insLookup {s2 s : ETree K V N M} {q u : Nat} (h : Leak s2 s q u) (k : K) :
    insLookup s k = insLookup s2 k := by
  obtain ⟨h1, h2, h3⟩ := h.tree
  unfold WBTree.insLookup
  rw [h1, h2, h.einsLeaf]
  congr 1
  funext a
  rw [h3]

theorem Leak.elookup {s2 s : ETree K V N M} {q u : Nat} (h : Leak s2 s q u) (k : K) :
    elookup s k = elookup s2 k := by
  obtain ⟨h1, h2, h3⟩ := h.tree
  unfold WBTree.elookup
  rw [h1, h2, h.efindLeaf]
  congr 1
  funext a
  rw [h3]

end Verif.WBTree
