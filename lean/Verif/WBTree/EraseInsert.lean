import Verif.WBTree.EraseInv
import Verif.WBTree.RangeProps

/-!
# wBPTree.hpp and wHBPTree.hpp: inserts into trees from which entries have been erased
-/

namespace Verif.WBTree

variable {K V : Type} [LinearOrder K] {N M : Nat}

/-- The insert links at most one new leaf, behind the one it descends to. -/
theorem insertAux_next {junk : Option Nat} {key : K} {val : V} : ∀ (d : Nat) {t t' : Tree K V N M} {a a1 : Nat}
    {sp : Option (K × Nat)}, insertAux junk key val d t a = .ok (t', sp) → insLeaf t key d a = .ok a1 →
    t'.next = t.next ∨ t'.next = linkAfter t.next a1 t.leaves.length := by
  intro d
  induction d with
  | zero =>
    intro t t' a a1 sp e h
    cases Res.ok.inj h
    rw [insertAux, insertLeaf] at e
    obtain ⟨l, _, e⟩ := Res.bind_eq_ok.1 e
    obtain ⟨⟨l', sp'⟩, _, e⟩ := Res.bind_eq_ok.1 e
    cases sp' with
    | none =>
      cases Res.ok.inj e
      exact Or.inl rfl
    | some x =>
      cases Res.ok.inj e
      exact Or.inr rfl
  | succ d ih =>
    intro t t' a a1 sp e h
    rw [insertAux] at e
    rw [insLeaf] at h
    obtain ⟨b, hb, e⟩ := Res.bind_eq_ok.1 e
    rw [hb, Res.ok_bind] at h
    obtain ⟨p, hp, e⟩ := Res.bind_eq_ok.1 e
    rw [hp, Res.ok_bind] at h
    obtain ⟨c, hc, e⟩ := Res.bind_eq_ok.1 e
    rw [hc, Res.ok_bind] at h
    obtain ⟨⟨t1, sp1⟩, h1, e⟩ := Res.bind_eq_ok.1 e
    have h2 := ih h1 h
    suffices t'.next = t1.next by rw [this]; exact h2
    cases sp1 with
    | none =>
      cases Res.ok.inj e
      rfl
    | some x =>
      obtain ⟨sep, r⟩ := x
      simp only [] at e
      obtain ⟨b1, _, e⟩ := Res.bind_eq_ok.1 e
      obtain ⟨n, _, e⟩ := Res.bind_eq_ok.1 e
      split at e
      · obtain ⟨⟨b2, up, sib⟩, _, e⟩ := Res.bind_eq_ok.1 e
        simp only [] at e
        split at e
        · obtain ⟨p1, _, e⟩ := Res.bind_eq_ok.1 e
          obtain ⟨b3, _, e⟩ := Res.bind_eq_ok.1 e
          cases Res.ok.inj e
          rfl
        · obtain ⟨p1, _, e⟩ := Res.bind_eq_ok.1 e
          obtain ⟨b3, _, e⟩ := Res.bind_eq_ok.1 e
          cases Res.ok.inj e
          rfl
      · obtain ⟨b3, _, e⟩ := Res.bind_eq_ok.1 e
        cases Res.ok.inj e
        rfl

theorem insert_next {junk : Option Nat} {key : K} {val : V} {t t' : Tree K V N M} {a1 : Nat}
    (e : insert junk t key val = .ok t') (h : insLeaf t key t.depth t.root = .ok a1) :
    t'.next = t.next ∨ t'.next = linkAfter t.next a1 t.leaves.length := by
  unfold WBTree.insert at e
  obtain ⟨⟨t1, sp1⟩, h1, e⟩ := Res.bind_eq_ok.1 e
  have h2 := insertAux_next _ h1 h
  suffices t'.next = t1.next by rw [this]; exact h2
  cases sp1 with
  | none =>
    cases Res.ok.inj e
    rfl
  | some x =>
    obtain ⟨sep, r⟩ := x
    simp only [] at e
    obtain ⟨_, _, e⟩ := Res.bind_eq_ok.1 e
    obtain ⟨_, _, e⟩ := Res.bind_eq_ok.1 e
    obtain ⟨_, _, e⟩ := Res.bind_eq_ok.1 e
    obtain ⟨_, _, e⟩ := Res.bind_eq_ok.1 e
    obtain ⟨_, _, e⟩ := Res.bind_eq_ok.1 e
    obtain ⟨_, _, e⟩ := Res.bind_eq_ok.1 e
    cases Res.ok.inj e
    rfl

theorem einsLeaf_eq {s : ETree K V N M} (h : s.deadB = []) (key : K) : ∀ (d a : Nat),
    einsLeaf s key d a = insLeaf s.tree key d a := by
  intro d
  induction d with
  | zero => intro a; rfl
  | succ d ih =>
    intro a
    have : s.branch a = s.tree.branch a := by
      unfold ETree.branch
      rw [h, if_neg (by simp)]
    rw [einsLeaf, insLeaf, this]
    congr 1
    funext b
    congr 1
    funext p
    congr 1
    funext c
    exact ih c

theorem Linked.ne {next : Nat → Option Nat} {L : List Nat} (h : Linked next L) {a r : Nat} (ha : a ∈ L) (hr : r ∉ L) :
    next a ≠ some r := by
  obtain ⟨pre, post, rfl⟩ := List.append_of_mem ha
  rw [h pre a post rfl]
  intro hh
  apply hr
  cases post with
  | nil => simp at hh
  | cons y post =>
    simp only [List.head?_cons, Option.some.injEq] at hh
    simp [hh]

/-- The backward pointers when a leaf enters the list. -/
theorem BackLinked.insert {prev : Nat → Option Nat} {X Y : List Nat} {a r : Nat} (h : BackLinked prev (X ++ a :: Y))
    (hnd : (X ++ a :: Y).Nodup) (hr : r ∉ X ++ a :: Y) :
    BackLinked (linkBack prev a r Y.head?) (X ++ a :: r :: Y) := by
  intro pre x y post he
  unfold linkBack
  have hY : ∀ w ∈ X ++ [a], some w ≠ Y.head? := by
    intro w hw hh
    cases Y with
    | nil => simp at hh
    | cons u Y =>
      simp only [List.head?_cons, Option.some.injEq] at hh
      subst hh
      have : (X ++ [a] ++ w :: Y).Nodup := by simpa using hnd
      exact (List.nodup_append.1 this).2.2 w hw w (by simp) rfl
  rcases List.append_eq_append_iff.1 he with ⟨as, h1, h2⟩ | ⟨bs, h1, h2⟩
  · cases as with
    | nil =>
      simp only [List.nil_append, List.cons.injEq] at h2
      obtain ⟨rfl, rfl, rfl⟩ := h2
      rw [if_pos rfl]
    | cons z as =>
      simp only [List.cons_append, List.cons.injEq] at h2
      obtain ⟨rfl, h2⟩ := h2
      cases as with
      | nil =>
        simp only [List.nil_append, List.cons.injEq] at h2
        obtain ⟨rfl, rfl⟩ := h2
        rw [if_neg (fun hh => hr (by simp [hh])), List.head?_cons, if_pos rfl]
      | cons w as =>
        simp only [List.cons_append, List.cons.injEq] at h2
        obtain ⟨rfl, rfl⟩ := h2
        rw [if_neg (fun hh => hr (by simp [← hh])), if_neg]
        · exact h (X ++ a :: as) x y post (by simp)
        · intro hh
          have hn2 : ((X ++ a :: (as ++ [x])) ++ y :: post).Nodup := by simpa using hnd
          cases as with
          | nil =>
            simp only [List.nil_append, List.head?_cons, Option.some.injEq] at hh
            exact (List.nodup_append.1 hn2).2.2 y (by simp [hh]) y (by simp) rfl
          | cons u as =>
            simp only [List.cons_append, List.head?_cons, Option.some.injEq] at hh
            exact (List.nodup_append.1 hn2).2.2 y (by simp [hh]) y (by simp) rfl
  · cases bs with
    | nil =>
      simp only [List.nil_append, List.cons.injEq] at h2
      obtain ⟨rfl, rfl, rfl⟩ := h2
      rw [if_pos rfl]
    | cons z bs =>
      simp only [List.cons_append, List.cons.injEq] at h2
      obtain ⟨rfl, h2⟩ := h2
      have hy : y ∈ X ++ [a] := by
        cases bs with
        | nil => simp only [List.nil_append, List.cons.injEq] at h2; simp [h2.1]
        | cons u bs => simp only [List.cons_append, List.cons.injEq] at h2; rw [h1, h2.1]; simp
      rw [if_neg, if_neg (hY y hy)]
      · cases bs with
        | nil =>
          simp only [List.nil_append, List.cons.injEq] at h2
          exact h pre x y Y (by rw [h1, h2.1]; simp)
        | cons u bs =>
          simp only [List.cons_append, List.cons.injEq] at h2
          exact h pre x y (bs ++ a :: Y) (by rw [h1, h2.1]; simp)
      · intro hh
        subst hh
        rcases List.mem_append.1 hy with hy | hy
        · exact hr (by simp [hy])
        · exact hr (by simp at hy; simp [hy])

/-- An insert that splits no leaf exactly in the middle. -/
theorem EInv.insert (junk : Option Nat) (hM : 1 < M) (hN : 1 < N) {s : ETree K V N M} {m : K → Option V}
    (h : EInv s m) (key : K) (val : V)
    (hmid : ∀ a, einsLeaf s key s.tree.depth s.tree.root = .ok a → ¬ SplitsMiddle s.tree key a) :
    ∃ s', einsert junk s key val = .ok s' ∧ EInv s' (fun k => if k = key then some val else m k) := by
  obtain ⟨T, h1, h2, h3, h4, h5, h6, h7, h8⟩ := h
  simp only [einsLeaf_eq h7] at hmid
  obtain ⟨t', t1, d, T', B', e, g1, g2, g3, g4, g5, g6, g7, hp⟩ :=
    insert_gen junk hM hN T h1 h2 (h3.imp id And.left) h5.nodup h4 key val hmid
  obtain ⟨a, pre, post, e1, hL, _⟩ := insLeaf_left key s.tree.depth T h2 (h3.imp id And.left)
  rw [h1] at e1
  have haL : a ∈ leafs s.tree.depth T := by rw [hL]; simp
  have hrL : s.tree.leaves.length ∉ leafs s.tree.depth T := fun hh => lt_irrefl _ (h5.alive _ hh).2
  have halive : ∀ j ∈ leafs s.tree.depth T, ∃ l, s.leaf j = .ok l := by
    intro j hj
    obtain ⟨l, es, k1, _⟩ := h2.leaf_mem _ T j hj
    exact ⟨l, ETree.leaf_ok k1 (h5.alive j hj).1⟩
  obtain ⟨la, hla⟩ := halive a haL
  have hent : ∀ k v, (k, v) ∈ ents d T' ↔ (if k = key then some val else m k) = some v := by
    intro k v
    rw [hp.ent, h8]
    by_cases hk : k = key
    · subst hk
      simp
      exact eq_comm
    · simp [hk]
  have hnext : Linked t'.next (leafs d T') := by
    rw [g7]
    have := hp.chain [] [] (by simpa using h5.nodup) (by simpa using h2.leaf_lt s.tree.depth T) (by simpa using h5.next)
    simpa using this
  unfold einsert
  rw [einsLeaf_eq h7, e1, Res.ok_bind, hla, Res.ok_bind, e, Res.ok_bind]
  rcases hp.order with ⟨k1, k2, k3⟩ | ⟨X, a0, Y, k1, k2, k3, k4⟩
  · rw [if_pos (by rw [g6, k1])]
    refine ⟨_, rfl, EInv.mk' g1 T' g2 g3 (Or.inl g4) g5 ⟨hp.lnd, hnext, ?_, ?_⟩ ?_ h7 hent⟩
    · rw [k3]; exact h5.prev
    · rw [k3]
      intro j hj
      refine ⟨(h5.alive j hj).1, ?_⟩
      show j < t'.leaves.length
      rw [g6, k1]
      exact (h5.alive j hj).2
    · intro j hj
      show j < t'.leaves.length
      rw [g6, k1]
      exact h6 j hj
  · have ha0 : a0 = a := by
      have ha0L : a0 ∈ leafs s.tree.depth T := by rw [k1]; simp
      have hn := insert_next e e1
      rw [g7, k4] at hn
      by_contra hne
      rcases hn with hn | hn
      · have := congrFun hn a0
        unfold linkAfter at this
        rw [if_pos rfl] at this
        exact h5.next.ne ha0L hrL this.symm
      · have := congrFun hn a
        unfold linkAfter at this
        rw [if_pos rfl, if_neg (fun hh => hne hh.symm), if_neg (fun hh : a = s.tree.leaves.length => hrL (by rw [← hh]; exact haL))] at this
        exact h5.next.ne haL hrL this
    subst ha0
    have hnx : s.tree.next a0 = Y.head? := h5.next X a0 Y k1
    rw [if_neg (by rw [g6, k3]; omega)]
    have hdo : (match s.tree.next a0 with
      | none => (pure () : Res Unit)
      | some b => do
        let _ ← s.leaf b
        pure ()) = .ok () := by
      rw [hnx]
      cases Y with
      | nil => rfl
      | cons y Y =>
        obtain ⟨l, hl⟩ := halive y (by rw [k1]; simp)
        simp only [List.head?_cons]
        rw [hl]
        rfl
    have hfin : EInv { s with tree := t', prev := linkBack s.prev a0 s.tree.leaves.length (s.tree.next a0) }
        (fun k => if k = key then some val else m k) := by
      refine EInv.mk' g1 T' g2 g3 (Or.inl g4) g5 ⟨hp.lnd, hnext, ?_, ?_⟩ ?_ h7 hent
      · rw [k2, hnx]
        exact BackLinked.insert (k1 ▸ h5.prev) (k1 ▸ h5.nodup) (k1 ▸ hrL)
      · rw [k2]
        intro j hj
        show j ∉ s.deadL ∧ j < t'.leaves.length
        rw [g6, k3]
        have : j ∈ leafs s.tree.depth T ∨ j = s.tree.leaves.length := by
          rw [k1]
          simp only [List.mem_append, List.mem_cons] at hj ⊢
          tauto
        rcases this with hj | rfl
        · exact ⟨(h5.alive j hj).1, Nat.lt_succ_of_lt (h5.alive j hj).2⟩
        · exact ⟨fun hh => lt_irrefl _ (h6 _ hh), Nat.lt_succ_self _⟩
      · intro j hj
        show j < t'.leaves.length
        rw [g6, k3]
        exact Nat.lt_succ_of_lt (h6 j hj)
    refine ⟨_, ?_, hfin⟩
    split
    · rfl
    · rename_i b hb
      rw [hb] at hdo
      simp only [] at hdo
      rw [hdo]
      rfl

end Verif.WBTree
