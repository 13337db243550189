import Verif.BTree.RestartMin

/-!
# The restarted HPBPTree

`HPBPTree::recover` (HPBPTree.hpp:339-361) leaves a tree whose first leaf occurs twice (`GState`).  Lookups
in such a tree are right, inserts of keys from the first separator on are right and keep the shape, and an
erase that makes the first leaf underflow dereferences a null pointer.
-/

set_option linter.unusedSectionVars false
set_option linter.unusedSimpArgs false

namespace Verif.BTree

open Assoc
open Verif.Slots hiding none

variable {K V L : Type} [LinearOrder K] {o : Ops K V L} {W : Laws o} {lm : Nat} {h : Heap L} {g : Nat} {k0 : K}

/-! ## Lookups -/

theorem gp_right_ge {d : Nat} {cs : List (Tree K d)} {top : Nat} {m' : Bd K} {b2 : List (Bd K)}
    (ht : Tile (Bt W tt lm 0 h d top) cs (m' :: b2)) :
    ∀ e ∈ content W h (cs.flatMap (ids d)), m' ≤ bk e.1 := by
  intro e he
  have hs := Tile.sorted (fun c a b hc => Bt.lt hc) ht
  rw [List.pairwise_cons] at hs
  exact (Tile.bounds (lo := m') (hi := ⊤) ht (fun b hb => ⟨by
    rcases List.mem_cons.1 hb with hb | hb
    · exact hb.ge
    · exact (hs.1 b hb).le, le_top⟩) e he).1

/-- The position of a key from `k0` on in the lowest node. -/
theorem GB.pos_zero {n : BNode K (Tree K 0)} {cs : List Nat} {ks : List K} {hi : Bd K} {k : K}
    (hr : NodeRep (α := Tree K 0) o.N n (g :: cs) (k0 :: ks))
    (ht : Tile (Bt W tt lm 0 h 0 lm) cs (bnds (bk k0) ks hi)) (hk0 : k0 ≤ k) (hk : bk k < hi) :
    ∃ c1 c c2 k1 k2 b1 m m' b2, Focus W (Bt W tt lm 0 h 0 lm) cs ks (bk k0) hi k c1 c c2 k1 k2 b1 m m' b2 ∧
      lookupPos o n k = .ok (k1.length + 1) ∧ rd (o.N + 1) n.kids (k1.length + 1) = .ok c := by
  obtain ⟨hks, hlo, _⟩ := keys_sorted (fun c a b hc => Bt.lt hc) ht
  obtain ⟨c1, c, c2, k1, k2, b1, m, m', b2, f⟩ := exists_focus W (fun c a b hc => Bt.lt hc) ht
    (⟨bk_le.2 hk0, hk⟩ : InR (bk k0) hi k)
  have hr' := hr
  rw [f.hcs, f.hks] at hr'
  refine ⟨c1, c, c2, k1, k2, b1, m, m', b2, f, ?_, ?_⟩
  · unfold lookupPos
    rw [hr.num, f.hks]
    exact W.search n.keys (k0 :: k1) k2 k hr'.keys hr'.cap (by
      rw [List.cons_append, List.pairwise_cons, ← f.hks]
      exact ⟨fun x hx => bk_lt.1 (hlo x hx), hks⟩) (fun x hx => by
      rcases List.mem_cons.1 hx with hx | hx
      · rw [hx]; exact hk0
      · exact f.le x hx) f.gt
  · have h1 : Rep n.kids ((g :: c1) ++ c :: c2) := hr'.kids
    have := rd_mid (cap := o.N + 1) h1 (by
      have h2 := hr'.cap
      have h3 := f.l1
      simp at *; omega)
    rw [← f.l1]; exact this

theorem GB.findLeaf_ge {k : K} (hk0 : k0 ≤ k) : ∀ {d : Nat} {n : BNode K (Tree K d)} {hi : Bd K} {is : List Nat},
    GB W lm h g k0 d n hi → ids (d + 1) n = g :: is → bk k < hi →
    ∃ id l pre post, findLeaf o (d + 1) n k = .ok id ∧ is = pre ++ id :: post ∧ h.data id = some l ∧ W.ok l ∧
      (∀ e ∈ content W h pre, e.1 < k) ∧ (∀ e ∈ content W h post, k < e.1) := by
  intro d
  induction d with
  | zero =>
    intro n hi is ⟨cs, ks, hr, ht⟩ hids hk
    obtain ⟨c1, c, c2, k1, k2, b1, m, m', b2, f, hpos, hkid⟩ := GB.pos_zero hr ht hk0 hk
    rw [findLeaf, hpos, Res.ok_bind, hkid, Res.ok_bind]
    obtain ⟨_, l, hl, hok, _⟩ := f.pc
    refine ⟨c, l, c1.flatMap (ids (K := K) 0), c2.flatMap (ids (K := K) 0), rfl, ?_, hl, hok, ?_, ?_⟩
    · rw [ids_rep hr, List.flatMap_cons] at hids
      have : cs.flatMap (ids (K := K) 0) = is := (List.cons.inj hids).2
      rw [← this, f.hcs]; simp [ids]
    · intro e he; exact bk_lt.1 (lt_of_lt_of_le (f.left_lt e he) f.inR.1)
    · intro e he; exact bk_lt.1 (lt_of_lt_of_le f.inR.2 (f.right_ge e he))
  | succ d ih =>
    intro n hi is hb hids hk
    obtain ⟨cs, ks, hr, ht⟩ := hb
    obtain ⟨hks, _, _⟩ := keys_sorted (fun c a b hc => GP.lt hc) ht
    obtain ⟨c1, c, c2, k1, k2, b1, m, m', b2, f⟩ := exists_focus W (fun c a b hc => GP.lt hc) ht
      (⟨bk_le.2 hk0, hk⟩ : InR (bk k0) hi k)
    rw [findLeaf, f.lookupPos hr hks, Res.ok_bind, f.rdKid hr, Res.ok_bind]
    have hidn0 : c1.flatMap (ids (d + 1)) ++ ids (d + 1) c ++ c2.flatMap (ids (d + 1)) = g :: is := by
      rw [← hids, ids_rep hr, f.hcs]; simp
    have hs2 := Tile.sorted (fun c a b hc => GP.lt hc) f.t2
    rw [List.pairwise_cons] at hs2
    have hb2' : ∀ b ∈ m' :: b2, bk k0 < b := by
      have h0 : bk k0 < m' := lt_of_le_of_lt (bk_le.2 hk0) f.inR.2
      intro b hb
      rcases List.mem_cons.1 hb with hb | hb
      · rw [hb]; exact h0
      · exact lt_trans h0 (hs2.1 b hb)
    have hge := gp_right_ge (gp_tile_bt hb2' f.t2)
    have hs1 := Tile.sorted (fun c a b hc => GP.lt hc) f.t1
    rcases f.pc with ⟨hm, hc⟩ | ⟨hm, hc⟩
    · have hb1 : b1 = [] := by
        cases b1 with
        | nil => rfl
        | cons x b1 =>
          exfalso
          rw [List.cons_append, List.pairwise_cons] at hs1
          have h1 := hs1.1 m (by simp)
          have h2 := (List.cons.inj f.hb1).1
          rw [← h2, hm] at h1
          exact absurd h1 (lt_irrefl _)
      have hc1 : c1 = [] := by
        have := f.lb; rw [hb1] at this; simpa using this.symm
      subst hc1
      obtain ⟨x, js, ej⟩ := hc.ids_eq
      rw [List.flatMap_nil, List.nil_append, ej, List.cons_append] at hidn0
      have his : x :: js ++ c2.flatMap (ids (d + 1)) = is := (List.cons.inj hidn0).2
      obtain ⟨id, l, pre, post, e1, e2, hl, hok, h1, h2⟩ := ih hc ej f.inR.2
      refine ⟨id, l, pre, post ++ c2.flatMap (ids (d + 1)), e1, ?_, hl, hok, h1, ?_⟩
      · rw [← his, e2]; simp
      · intro e he
        rw [content_append, List.mem_append] at he
        rcases he with he | he
        · exact h2 e he
        · exact bk_lt.1 (lt_of_lt_of_le f.inR.2 (hge e he))
    · obtain ⟨id, l, pre, post, x, y, e1, e2, hl, hok, hx, hy, hr1, hr2, _, hp1, hp2⟩ :=
        findLeaf_spec k (d + 1) 0 c m m' hc f.inR
      obtain ⟨b0, b1', hb1⟩ : ∃ b0 b1', b1 = b0 :: b1' := by
        cases b1 with
        | nil =>
          exfalso
          have h1 := f.hb1
          have := (List.cons.inj h1).1
          rw [this] at hm
          exact absurd hm (lt_irrefl _)
        | cons a b => exact ⟨a, b, rfl⟩
      have hb0 : bk k0 = b0 := by
        have h1 := f.hb1
        rw [hb1] at h1
        exact (List.cons.inj h1).1
      have ht1' := f.t1
      rw [hb1, List.cons_append, ← hb0] at ht1'
      obtain ⟨js, ej⟩ : ∃ js, c1.flatMap (ids (d + 1)) = g :: js := by
        cases c1 with
        | nil => have := f.lb; rw [hb1] at this; simp at this
        | cons c0 c1' =>
          rw [List.flatMap_cons]
          cases hbb : b1' ++ [m] with
          | nil => simp at hbb
          | cons z zs =>
            rw [hbb] at ht1'
            rcases ht1'.1 with ⟨_, h1⟩ | ⟨h1, _⟩
            · obtain ⟨x, js, ej⟩ := h1.ids_eq
              exact ⟨x :: js ++ c1'.flatMap (ids (d + 1)), by rw [ej]; rfl⟩
            · exact absurd h1 (lt_irrefl _)
      rw [ej] at hidn0
      have his : js ++ ids (d + 1) c ++ c2.flatMap (ids (d + 1)) = is := (List.cons.inj hidn0).2
      refine ⟨id, l, js ++ pre, post ++ c2.flatMap (ids (d + 1)), e1, ?_, hl, hok, ?_, ?_⟩
      · rw [← his, e2]; simp
      · intro e he
        rw [content_append, List.mem_append] at he
        rcases he with he | he
        · rw [hb1, List.cons_append, List.pairwise_cons] at hs1
          have := (gp_tile_bounds (hi := m) ej ht1' (fun b hb => by
            have h1 := hs1.2
            rw [List.pairwise_append] at h1
            rcases List.mem_append.1 hb with hb | hb
            · exact (h1.2.2 b hb m (by simp)).le
            · exact (List.mem_singleton.1 hb).le) e he).2
          exact bk_lt.1 (lt_of_lt_of_le this f.inR.1)
        · exact bk_lt.1 (lt_of_lt_of_le (hp1 e he) hr1.1)
      · intro e he
        rw [content_append, List.mem_append] at he
        rcases he with he | he
        · exact bk_lt.1 (lt_of_lt_of_le hr1.2 (hp2 e he))
        · exact bk_lt.1 (lt_of_lt_of_le f.inR.2 (hge e he))

theorem GB.findLeaf_lt {k : K} (hk0 : k < k0) : ∀ {d : Nat} {n : BNode K (Tree K d)} {hi : Bd K},
    GB W lm h g k0 d n hi → findLeaf o (d + 1) n k = .ok g := by
  intro d
  induction d with
  | zero =>
    intro n hi ⟨cs, ks, hr, ht⟩
    obtain ⟨hks, hlo, _⟩ := keys_sorted (fun c a b hc => Bt.lt hc) ht
    have hpos : lookupPos o n k = .ok 0 := by
      unfold lookupPos
      rw [hr.num]
      exact W.search n.keys [] (k0 :: ks) k hr.keys hr.cap (by
        rw [List.nil_append, List.pairwise_cons]
        exact ⟨fun x hx => bk_lt.1 (hlo x hx), hks⟩) (by simp) (fun x hx => by
        rcases List.mem_cons.1 hx with hx | hx
        · rw [hx]; exact hk0
        · exact lt_trans hk0 (bk_lt.1 (hlo x hx)))
    have hkid : rd (o.N + 1) n.kids 0 = .ok g := rd_mid (l := []) hr.kids (by simp)
    rw [findLeaf, hpos, Res.ok_bind, hkid, Res.ok_bind]; rfl
  | succ d ih =>
    intro n hi hb
    obtain ⟨c, cs, ks, b, bs, hr, hbs, hc, ht⟩ := GB.succ_iff.1 hb
    obtain ⟨cs', ks', hr', ht'⟩ := hb
    have hs := Tile.sorted (fun c a b hc => Bt.lt hc) ht
    have hlo : ∀ x ∈ ks, k0 < x := by
      intro x hx
      have : bk x ∈ b :: bs := by
        rw [← hbs]; exact List.mem_append_left _ (List.mem_map.2 ⟨x, hx, rfl⟩)
      rw [List.pairwise_cons] at hs
      rcases List.mem_cons.1 this with h1 | h1
      · have := hc.lt; rw [← h1] at this; exact bk_lt.1 this
      · exact bk_lt.1 (lt_trans hc.lt (hs.1 _ h1))
    have hks : ks.Pairwise (· < ·) := by
      rw [← hbs, List.pairwise_append, List.pairwise_map] at hs
      exact hs.1.imp (fun h => bk_lt.1 h)
    have hpos : lookupPos o n k = .ok 0 := by
      unfold lookupPos
      rw [hr.num]
      exact W.search n.keys [] ks k hr.keys hr.cap hks (by simp) (fun x hx => lt_trans hk0 (hlo x hx))
    have hkid : rd (o.N + 1) n.kids 0 = .ok c := rd_mid (l := []) hr.kids (by simp)
    rw [findLeaf, hpos, Res.ok_bind, hkid, Res.ok_bind]
    exact ih hc

/-- All leaves behind the ghost are well-formed and filled. -/
theorem GB.leaf : ∀ {d : Nat} {n : BNode K (Tree K d)} {hi : Bd K} {is : List Nat},
    GB W lm h g k0 d n hi → ids (d + 1) n = g :: is →
    ∀ i ∈ is, ∃ l, h.data i = some l ∧ W.ok l ∧ lm ≤ (W.abs l).length := by
  intro d
  induction d with
  | zero =>
    intro n hi is ⟨cs, ks, hr, ht⟩ hids i hi'
    rw [ids_rep hr, List.flatMap_cons] at hids
    have : cs.flatMap (ids (K := K) 0) = is := (List.cons.inj hids).2
    rw [← this] at hi'
    obtain ⟨c, hc, hic⟩ := List.mem_flatMap.1 hi'
    obtain ⟨a, b, hb⟩ := tile_mem ht c hc
    exact Bt.leaf_len 0 lm c a b hb (fun _ => le_rfl) i hic
  | succ d ih =>
    intro n hi is hb hids i hi'
    obtain ⟨c, cs, ks, b, bs, hr, hbs, hc, ht⟩ := GB.succ_iff.1 hb
    obtain ⟨x, js, ej⟩ := hc.ids_eq
    rw [ids_rep hr, List.flatMap_cons, ej, List.cons_append] at hids
    have hin : x :: js ++ cs.flatMap (ids (d + 1)) = is := (List.cons.inj hids).2
    rw [← hin, List.mem_append] at hi'
    rcases hi' with hi' | hi'
    · exact ih hc ej i hi'
    · obtain ⟨y, hy, hiy⟩ := List.mem_flatMap.1 hi'
      obtain ⟨a, b, hb⟩ := tile_mem ht y hy
      exact Bt.leaf_len (d + 1) 0 y a b hb (by simp) i hiy

/-- A tree whose first leaf occurs twice; `k0` is the first separator, `is` are the leaves. -/
structure GState (W : Laws o) (lm : Nat) (k0 : K) (is : List Nat) (s : State K L) : Prop where
  ex : ∃ (d : Nat) (n : BNode K (Tree K d)) (h : Heap L) (g : Nat), s = ⟨d + 1, n, h⟩ ∧
    GB W lm h g k0 d n ⊤ ∧ ids (d + 1) n = g :: is ∧ is.head? = some g ∧ Wf h is

/-- Lookups are right for all keys. -/
theorem GState.lookup_eq {is : List Nat} {s : State K L} (hs : GState W lm k0 is s) (k : K) :
    lookup o s k = .ok (find k (content W s.heap is)) := by
  obtain ⟨d, n, h, g, rfl, hb, hids, hhd, w⟩ := hs.ex
  by_cases hk : k0 ≤ k
  · obtain ⟨id, l, pre, post, e1, e2, hl, hok, h1, h2⟩ := hb.findLeaf_ge hk hids (bk_lt_top k)
    unfold lookup
    dsimp only
    rw [e1, Res.ok_bind, Heap.get, hl, Res.ofOption_some, Res.ok_bind, W.lookup l k hok, e2, content_append,
      content_cons, find_append_right (fun e he => (h1 e he).ne), find_append_left (fun e he => (h2 e he).ne')]
    simp [ent, hl]
  · have hk := not_le.1 hk
    unfold lookup
    dsimp only
    rw [hb.findLeaf_lt hk, Res.ok_bind]
    have hm : g ∈ is := List.mem_of_mem_head? hhd
    obtain ⟨l, hl, hok, _⟩ := hb.leaf hids g hm
    rw [Heap.get, hl, Res.ofOption_some, Res.ok_bind, W.lookup l k hok]
    have hbd := hb.bounds hids
    have hnone : find k (content W h is) = none := find_eq_none.2 (fun e he hk' => by
      have := bk_le.1 (hbd e he).1
      rw [hk'] at this
      exact absurd hk (not_lt.2 this))
    rw [hnone]
    congr 1
    refine find_eq_none.2 (fun e he hk' => ?_)
    have : e ∈ content W h is := List.mem_flatMap.2 ⟨g, hm, by rw [ent, hl]; exact he⟩
    exact find_eq_none.1 hnone e this hk'

/-- Inserts of keys from the first separator on. -/
theorem GState.insert (hlm : lm ≤ W.lmin) (hN : 3 ≤ o.N) {is : List Nat} {s : State K L} (hs : GState W lm k0 is s)
    (k : K) (v : V) (ha : W.adm k) (hk0 : k0 ≤ k) :
    ∃ s' is', BTree.insert o s k v = .ok s' ∧ GState W lm k0 is' s' ∧ is'.head? = is.head? ∧
      content W s'.heap is' = upsert k v (content W s.heap is) := by
  obtain ⟨d, n, h, g, rfl, hb, hids, hhd, w⟩ := hs.ex
  obtain ⟨r, er, _, _, hpost⟩ := insertG_spec hlm hN k v ha hk0 d h n ⊤ is [] hb (bk_lt_top k) hids (by simpa using w)
  unfold BTree.insert
  dsimp only
  rw [er, Res.ok_bind]
  unfold GPost at hpost
  cases hsp : r.split with
  | none =>
    rw [hsp] at hpost
    obtain ⟨h1, is', h2, h3, h4, h5⟩ := hpost
    exact ⟨_, is', rfl, ⟨d, r.tree, r.heap, g, rfl, h1, h2, h5.trans hhd, by simpa using h3⟩, h5, h4⟩
  | some sr =>
    rw [hsp] at hpost
    obtain ⟨h1, h2, is', h3, h4, h5, h6⟩ := hpost
    obtain ⟨m, em, hm⟩ := newRoot_rep (α := Tree K (d + 1)) o (by omega) r.tree sr.1 sr.2
    dsimp only
    rw [em, Res.ok_bind]
    have hne : is' ≠ [] := by
      rintro rfl; rw [hhd] at h6; simp at h6
    have hh : (is' ++ ids (d + 1) sr.2).head? = is.head? := by
      cases is' with
      | nil => exact absurd rfl hne
      | cons a b => rw [← h6]; rfl
    refine ⟨_, is' ++ ids (d + 1) sr.2, rfl, ⟨d + 1, m, r.heap, g, rfl, ⟨_, _, hm, ?_⟩, ?_, hh.trans hhd,
      by simpa using h4⟩, hh, h5⟩
    · exact ⟨Or.inl ⟨rfl, h1⟩, Or.inr ⟨h1.lt, h2⟩, trivial⟩
    · rw [ids_rep hm, List.flatMap_cons, h3]; simp

/-! ## The recovery -/

/-- The first separator of the leftmost lowest node is `k0`. -/
def LK (k0 : K) : (d : Nat) → BNode K (Tree K d) → Prop
  | 0, n => 1 ≤ n.num ∧ n.keys 0 = some k0
  | d + 1, n => ∃ c : BNode K (Tree K d), n.kids 0 = some c ∧ LK k0 d c

theorem recIns_LK (hN : 3 ≤ o.N) {x : Nat} : ∀ (d : Nat) (n : BNode K (Tree K d))
    (r : BNode K (Tree K d) × Option (K × BNode K (Tree K d))), LK k0 d n → recIns o false h x d n = .ok r →
    LK k0 d r.1 := by
  intro d
  induction d with
  | zero =>
    intro n r ⟨h1, h2⟩ e
    rw [recIns] at e
    obtain ⟨l, _, e⟩ := Res.bind_eq_ok.1 e
    obtain ⟨k, _, e⟩ := Res.bind_eq_ok.1 e
    by_cases hf : n.num = o.N
    · rw [if_pos hf] at e
      obtain ⟨y, _, e⟩ := Res.bind_eq_ok.1 e
      rw [← Res.ok.inj e]; exact ⟨h1, h2⟩
    · rw [if_neg hf] at e
      obtain ⟨m, em, e⟩ := Res.bind_eq_ok.1 e
      rw [← Res.ok.inj e]
      unfold pushEntry at em
      obtain ⟨keys, e1, em⟩ := Res.bind_eq_ok.1 em
      obtain ⟨kids, e2, em⟩ := Res.bind_eq_ok.1 em
      rw [← Res.ok.inj em]
      unfold wr at e1
      by_cases hc : n.num < o.N
      · rw [if_pos hc] at e1
        rw [← Res.ok.inj e1]
        exact ⟨by simp, by simp only; rw [if_neg (by omega)]; exact h2⟩
      · rw [if_neg hc] at e1; exact absurd e1 (by simp)
  | succ d ih =>
    intro n r ⟨c0, h1, h2⟩ e
    rw [recIns] at e
    obtain ⟨c, ec, e⟩ := Res.bind_eq_ok.1 e
    obtain ⟨q, eq, e⟩ := Res.bind_eq_ok.1 e
    obtain ⟨kids, ek, e⟩ := Res.bind_eq_ok.1 e
    have hkid : ∃ c1 : BNode K (Tree K d), kids 0 = some c1 ∧ LK k0 d c1 := by
      unfold wr at ek
      by_cases hc : n.num < o.N + 1
      · rw [if_pos hc] at ek
        rw [← Res.ok.inj ek]
        by_cases h0 : n.num = 0
        · refine ⟨q.1, by simp only; rw [if_pos h0.symm], ih c q ?_ eq⟩
          unfold rd at ec
          rw [if_pos hc, h0, h1] at ec
          rw [← Res.ok.inj ec]; exact h2
        · exact ⟨c0, by simp only; rw [if_neg (fun hh => h0 hh.symm)]; exact h1, h2⟩
      · rw [if_neg hc] at ek; exact absurd ek (by simp)
    obtain ⟨c1, hk1, hk2⟩ := hkid
    cases hq : q.2 with
    | none =>
      rw [hq] at e
      rw [← Res.ok.inj e]; exact ⟨c1, hk1, hk2⟩
    | some sr =>
      rw [hq] at e
      dsimp only at e
      by_cases hf : n.num = o.N
      · rw [if_pos hf, if_neg (by simp)] at e
        obtain ⟨sp, es, e⟩ := Res.bind_eq_ok.1 e
        rw [← Res.ok.inj e]
        unfold splitPush at es
        obtain ⟨sp0, es0, es⟩ := Res.bind_eq_ok.1 es
        obtain ⟨a1, _, es⟩ := Res.bind_eq_ok.1 es
        obtain ⟨a2, _, es⟩ := Res.bind_eq_ok.1 es
        obtain ⟨a3, _, es⟩ := Res.bind_eq_ok.1 es
        rw [← Res.ok.inj es]
        unfold splitBranch at es0
        obtain ⟨b1, _, es0⟩ := Res.bind_eq_ok.1 es0
        obtain ⟨b2, _, es0⟩ := Res.bind_eq_ok.1 es0
        obtain ⟨b3, _, es0⟩ := Res.bind_eq_ok.1 es0
        obtain ⟨b4, _, es0⟩ := Res.bind_eq_ok.1 es0
        obtain ⟨b5, _, es0⟩ := Res.bind_eq_ok.1 es0
        obtain ⟨b6, _, es0⟩ := Res.bind_eq_ok.1 es0
        rw [← Res.ok.inj es0]
        exact ⟨c1, hk1, hk2⟩
      · rw [if_neg hf] at e
        obtain ⟨m, em, e⟩ := Res.bind_eq_ok.1 e
        rw [← Res.ok.inj e]
        unfold pushEntry at em
        obtain ⟨keys, e1, em⟩ := Res.bind_eq_ok.1 em
        obtain ⟨kids', e2, em⟩ := Res.bind_eq_ok.1 em
        rw [← Res.ok.inj em]
        unfold wr at e2
        by_cases hc : n.num + 1 < o.N + 1
        · rw [if_pos hc] at e2
          rw [← Res.ok.inj e2]
          exact ⟨c1, by simp only; rw [if_neg (by omega)]; exact hk1, hk2⟩
        · rw [if_neg hc] at e2; exact absurd e2 (by simp)

/-- The same for a whole tree. -/
def LKS (k0 : K) (s : State K L) : Prop :=
  ∃ (d : Nat) (n : BNode K (Tree K d)) (h : Heap L), s = ⟨d + 1, n, h⟩ ∧ LK k0 d n

theorem recLoop_LK (hN : 3 ≤ o.N) : ∀ (fuel : Nat) (s r : State K L) (x : Option Nat), LKS k0 s →
    recLoop o false fuel s x = .ok r → LKS k0 r
  | 0, s, r, none, hs, e => by rw [recLoop] at e; rw [← Res.ok.inj e]; exact hs
  | 0, s, r, some _, hs, e => by rw [recLoop] at e; exact absurd e (by simp)
  | _ + 1, s, r, none, hs, e => by rw [recLoop] at e; rw [← Res.ok.inj e]; exact hs
  | fuel + 1, s, r, some id, hs, e => by
    rw [recLoop] at e
    obtain ⟨l, _, e⟩ := Res.bind_eq_ok.1 e
    obtain ⟨s', es, e⟩ := Res.bind_eq_ok.1 e
    refine recLoop_LK hN fuel s' r _ ?_ e
    obtain ⟨d, n, h, rfl, hn⟩ := hs
    rw [recoveryInsert] at es
    obtain ⟨q, eq, es⟩ := Res.bind_eq_ok.1 es
    have hq := recIns_LK hN d n q hn eq
    cases hq2 : q.2 with
    | none =>
      rw [hq2] at es
      rw [← Res.ok.inj es]; exact ⟨d, q.1, h, rfl, hq⟩
    | some sr =>
      rw [hq2] at es
      obtain ⟨m, em, es⟩ := Res.bind_eq_ok.1 es
      rw [← Res.ok.inj es]
      refine ⟨d + 1, m, h, rfl, q.1, ?_, hq⟩
      obtain ⟨m', em', hm⟩ := newRoot_rep (α := Tree K (d + 1)) o (by omega) q.1 sr.1 sr.2
      rw [em] at em'
      rw [Res.ok.inj em']
      have := rep_mid (l := []) hm.kids
      exact this

theorem ids_mapT (f : Nat → Nat) : ∀ (d : Nat) (t : Tree K d), ids d (mapT f d t) = (ids d t).map f := by
  intro d
  induction d with
  | zero => intro t; rfl
  | succ d ih =>
    intro n
    show ((List.range (n.num + 1)).filterMap (fun i => (n.kids i).map (mapT f d))).flatMap (ids d) = _
    rw [ids, List.map_flatMap]
    have : (List.range (n.num + 1)).filterMap (fun i => (n.kids i).map (mapT f d)) =
        ((List.range (n.num + 1)).filterMap n.kids).map (mapT f d) := by
      rw [List.map_filterMap]
    rw [this, List.flatMap_map]
    congr 1
    funext c
    exact ih c

theorem mapB_rep {α β : Type} (f : α → β) {N : Nat} {n : BNode K α} {cs : List α} {ks : List K}
    (hr : NodeRep N n cs ks) : NodeRep N (mapB f n) (cs.map f) ks := by
  refine ⟨hr.num, by rw [List.length_map]; exact hr.len, hr.cap, hr.keys, ?_⟩
  intro i hi
  rw [List.length_map] at hi
  show (n.kids i).map f = _
  rw [hr.kids i hi, List.getElem?_map]

/-- Renaming the leaves of a search tree. -/
theorem Bt.mapT {h' : Heap L} {f : Nat → Nat} : ∀ {d top : Nat} {t : Tree K d} {lo hi : Bd K},
    Bt W tt 0 0 h' d top t lo hi →
    (∀ i ∈ ids d t, ∃ l, h.data (f i) = some l ∧ h'.data i = some l ∧ lm ≤ (W.abs l).length) →
    Bt W tt lm 0 h d (occ lm 0 d) (mapT f d t) lo hi := by
  intro d
  induction d with
  | zero =>
    intro top t lo hi ⟨hlt, l, hl, hok, _, hb, _⟩ hd
    obtain ⟨l', h1, h2, h3⟩ := hd t (by simp [ids])
    rw [hl] at h2
    have h2 := Option.some.inj h2
    subst h2
    exact ⟨hlt, l, h1, hok, h3, hb, trivial⟩
  | succ d ih =>
    intro top n lo hi ⟨cs, ks, hr, _, ht⟩ hd
    refine ⟨cs.map (BTree.mapT f d), ks, mapB_rep _ hr, Nat.zero_le _, ?_⟩
    have : ∀ (cs : List (Tree K d)) (bs : List (Bd K)), Tile (Bt W tt 0 0 h' d (occ 0 0 d)) cs bs →
        (∀ c ∈ cs, ∀ i ∈ ids d c, ∃ l, h.data (f i) = some l ∧ h'.data i = some l ∧ lm ≤ (W.abs l).length) →
        Tile (Bt W tt lm 0 h d (occ lm 0 d)) (cs.map (BTree.mapT f d)) bs := by
      intro cs
      induction cs with
      | nil => intro bs ht _; cases bs with
        | nil => exact ht.elim
        | cons b bs => cases bs with
          | nil => trivial
          | cons b' bs => exact ht.elim
      | cons c cs ihc => intro bs ht hd; cases bs with
        | nil => exact ht.elim
        | cons b bs => cases bs with
          | nil => exact ht.elim
          | cons b' bs =>
            exact ⟨ih ht.1 (hd c (by simp)), ihc _ ht.2 (fun x hx => hd x (List.mem_cons_of_mem _ hx))⟩
    exact this cs _ ht (fun c hc i hi => hd i (mem_ids_child hr hc hi))

theorem tile_mapT {h' : Heap L} {f : Nat → Nat} {d top : Nat} : ∀ {cs : List (Tree K d)} {bs : List (Bd K)},
    Tile (Bt W tt 0 0 h' d top) cs bs →
    (∀ i ∈ cs.flatMap (ids d), ∃ l, h.data (f i) = some l ∧ h'.data i = some l ∧ lm ≤ (W.abs l).length) →
    Tile (Bt W tt lm 0 h d (occ lm 0 d)) (cs.map (BTree.mapT f d)) bs
  | [], [_], _, _ => trivial
  | c :: cs, b :: b' :: bs, ht, hd =>
    ⟨ht.1.mapT (fun i hi => hd i (by rw [List.flatMap_cons]; exact List.mem_append_left _ hi)),
      tile_mapT ht.2 (fun i hi => hd i (by rw [List.flatMap_cons]; exact List.mem_append_right _ hi))⟩
  | [], [], ht, _ => ht.elim
  | [], _ :: _ :: _, ht, _ => ht.elim
  | _ :: _, [], ht, _ => ht.elim
  | _ :: _, [_], ht, _ => ht.elim

/-- A search tree whose first leaf becomes the ghost. -/
theorem ghost_of_bt {h' : Heap L} {f : Nat → Nat} {gh : Nat} (hf : f gh = g) : ∀ {d top : Nat}
    {n : BNode K (Tree K d)} {lo hi : Bd K} {is : List Nat}, Bt W tt 0 0 h' (d + 1) top n lo hi →
    ids (d + 1) n = gh :: is → LK k0 d n →
    (∀ i ∈ is, ∃ l, h.data (f i) = some l ∧ h'.data i = some l ∧ lm ≤ (W.abs l).length) →
    GB W lm h g k0 d (BTree.mapT f (d + 1) n) hi := by
  intro d
  induction d with
  | zero =>
    intro top n lo hi is ⟨cs, ks, hr, _, ht⟩ hids ⟨h1, h2⟩ hd
    cases cs with
    | nil => have := hr.len; simp at this
    | cons c cs =>
      cases ks with
      | nil => have := hr.num; simp at this; omega
      | cons k ks =>
        have hk : n.keys 0 = some k := rep_mid (l := []) hr.keys
        rw [h2] at hk
        have hk := Option.some.inj hk
        subst hk
        rw [ids_rep hr, List.flatMap_cons] at hids
        have hcg : c = gh := (List.cons.inj hids).1
        have hin : cs.flatMap (ids (K := K) 0) = is := (List.cons.inj hids).2
        have hrm := mapB_rep (BTree.mapT (K := K) f 0) hr
        refine ⟨cs.map (BTree.mapT (K := K) f 0), ks, ?_, ?_⟩
        · have : BTree.mapT (K := K) f 0 c = g := by rw [hcg]; exact hf
          rw [List.map_cons, this] at hrm
          exact hrm
        · exact tile_mapT (bs := bnds (bk k0) ks hi) ht.2 (by rw [hin]; exact hd)
  | succ d ih =>
    intro top n lo hi is ⟨cs, ks, hr, _, ht⟩ hids ⟨c0, h1, h2⟩ hd
    obtain ⟨b, bs, hbs⟩ : ∃ b bs, ks.map bk ++ [hi] = b :: bs := by
      cases ks with
      | nil => exact ⟨hi, [], rfl⟩
      | cons a l => exact ⟨bk a, l.map bk ++ [hi], rfl⟩
    cases cs with
    | nil => have := hr.len; simp at this
    | cons c cs =>
      have hc0 : n.kids 0 = some c := rep_mid (l := []) hr.kids
      rw [h1] at hc0
      have hc0 := Option.some.inj hc0
      subst hc0
      unfold bnds at ht
      rw [hbs] at ht
      obtain ⟨y, rest, hy⟩ := ids_cons ht.1
      rw [ids_rep hr, List.flatMap_cons, hy, List.cons_append] at hids
      have hyg : y = gh := (List.cons.inj hids).1
      have hin : rest ++ cs.flatMap (ids (d + 1)) = is := (List.cons.inj hids).2
      subst hyg
      have hg := ih ht.1 hy h2 (fun i hi => hd i (by rw [← hin]; exact List.mem_append_left _ hi))
      have hrm := mapB_rep (BTree.mapT (K := K) f (d + 1)) hr
      refine GB.succ_iff.2 ⟨BTree.mapT f (d + 1) c0, cs.map (BTree.mapT f (d + 1)), ks, b, bs, hrm, hbs, hg, ?_⟩
      exact tile_mapT ht.2 (fun i hi => hd i (by rw [← hin]; exact List.mem_append_right _ hi))

/-- Recovery of the HPBPTree from a list of at least two leaves. -/
theorem recoverH_ghost (hN : 3 ≤ o.N) {h : Heap L} {first : Nat} {rest : List Nat} (w : Wf h (first :: rest))
    (hsort : Sorted (content W h (first :: rest))) (hne0 : rest ≠ [])
    (hready : ∀ x ∈ first :: rest, LeafReady W lm h x) :
    ∃ s e es, recoverH o h first = .ok s ∧ s.heap = h ∧ content W h (first :: rest) = e :: es ∧
      GState W lm e.1 (first :: rest) s ∧ LNS o.N s := by
  cases rest with
  | nil => exact absurd rfl hne0
  | cons x rest =>
    obtain ⟨l, e0, es0, hl, hok, hlen, hab, hmin⟩ := hready first (by simp)
    have hcont0 : ∃ es, content W h (first :: x :: rest) = e0 :: es := by
      refine ⟨es0 ++ content W h (x :: rest), ?_⟩
      rw [content_cons, ent, hl]
      show W.abs l ++ _ = _
      rw [hab]; rfl
    obtain ⟨es, hes⟩ := hcont0
    have hch := chain_next w.chain
    have hnext := (List.isChain_cons_cons.1 hch).1
    unfold recoverH
    rw [Heap.get, hl, Res.ofOption_some, Res.ok_bind, hnext]
    dsimp only
    -- the ghost
    let h' : Heap L := { h with data := upd h.data h.fresh (some o.empty) }
    have hne : ∀ i ∈ first :: x :: rest, i ≠ h.fresh := fun i hi => by
      have := w.fresh i hi; omega
    have hdata : ∀ i ∈ first :: x :: rest, h'.data i = h.data i := fun i hi => by
      simp [h', upd, hne i hi]
    have hcont : content W h' (first :: x :: rest) = content W h (first :: x :: rest) := content_congr W hdata
    have hgd : h'.data h.fresh = some o.empty := by simp [h', upd]
    have hge : ent W h' h.fresh = [] := by simp [ent, hgd, W.empty_abs]
    obtain ⟨r, er, hr⟩ := singleNode_rep o h.fresh
    let f : Nat → Nat := fun i => if i = h.fresh then first else i
    have er' : singleNode o first = .ok (mapB (mapT (K := K) f 0) r) := by
      have := singleNode_map (mapT (K := K) f 0) er
      have hfg : mapT (K := K) f 0 h.fresh = first := by simp [mapT, f]
      rw [hfg] at this; exact this
    have hs0 : RecS W 0 h' (⟨1, r, h'⟩ : State K L) [h.fresh] := by
      refine ⟨rfl, le_rfl, ⟨[], h.fresh, [], [], ⊥, hr, rfl, trivial, ?_, Or.inl rfl⟩, ?_⟩
      · exact ⟨o.empty, hgd, W.empty_ok, by omega, fun _ _ => bot_le⟩
      · dsimp only; rw [ids_rep hr]; rfl
    obtain ⟨s, e, hs⟩ := recLoop_spec false (by omega) (first :: x :: rest) [h.fresh] h.fresh _ hs0
      w.length_le (by
        rw [content_append, hcont, content_cons, hge]; simpa [content] using hsort)
      (fun i hi => by
        obtain ⟨l, e, es, h1, h2, h3, h4, h5⟩ := hready i hi
        exact ⟨l, e, es, by rw [hdata i hi]; exact h1, h2, by omega, h4, h5⟩)
      hch (fun y hy => w.chain.2 y hy)
    have e' := recLoop_map (f := f) (h := h) false (first :: x :: rest) h.fresh _ s rfl (fun i hi => by
        refine ⟨?_, ?_, rfl⟩
        · rw [Heap.get, Heap.get, hdata i hi]
        · simp only [f]; rw [if_neg (hne i hi)]) hch (fun y hy => w.chain.2 y hy) e
    -- the first separator
    have hlk : LKS e0.1 s := by
      have hfr : ∃ fu, h.fresh = fu + 1 := ⟨h.fresh - 1, by have := w.fresh first (by simp); omega⟩
      obtain ⟨fu, hfu⟩ := hfr
      have e2 := e
      rw [List.head?_cons] at e2
      generalize hF : h.fresh = F at e2
      rw [hfu] at hF
      subst hF
      rw [recLoop] at e2
      obtain ⟨l2, _, e2⟩ := Res.bind_eq_ok.1 e2
      obtain ⟨s1, es1, e2⟩ := Res.bind_eq_ok.1 e2
      refine recLoop_LK hN fu s1 s _ ?_ e2
      rw [recoveryInsert] at es1
      obtain ⟨q, eq, es1⟩ := Res.bind_eq_ok.1 es1
      have hrn : r.num = 0 := hr.num
      rw [recIns, Heap.get, hdata first (by simp), hl, Res.ofOption_some, Res.ok_bind, hmin, Res.ok_bind,
        if_neg (by omega)] at eq
      obtain ⟨m, em, eq⟩ := Res.bind_eq_ok.1 eq
      obtain ⟨m', em', hm⟩ := pushEntry_rep hr (by simp; omega) e0.1 first
      rw [em] at em'
      have hmm := Res.ok.inj em'
      rw [← Res.ok.inj eq] at es1
      rw [← Res.ok.inj es1]
      refine ⟨0, m, h', rfl, ?_, ?_⟩
      · rw [hmm, hm.num]; simp
      · rw [hmm]; exact rep_mid (l := []) hm.keys
    have hln : LNS o.N s := by
      refine recLoop_LN hN (first :: x :: rest) [h.fresh] h.fresh _ s hs0 ⟨0, r, h', rfl, Or.inl rfl⟩ (by
        rw [content_append, hcont, content_cons, hge]; simpa [content] using hsort)
        (fun i hi => by
          obtain ⟨l, e, es, h1, h2, h3, h4, h5⟩ := hready i hi
          exact ⟨l, e, es, by rw [hdata i hi]; exact h1, h2, by omega, h4, h5⟩)
        hch (fun y hy => w.chain.2 y hy) e
    rw [er', Res.ok_bind]
    refine ⟨mapSt f h s, e0, es, e', rfl, hes, ?_, by
      obtain ⟨d, n, h0, rfl, hn⟩ := hln
      exact ⟨d, mapT f (d + 1) n, h, rfl, hn.map f⟩⟩
    obtain ⟨d, n, h0, rfl, hn⟩ := hlk
    obtain ⟨hh, hd, hrec, hids⟩ := hs
    dsimp only at hh hd hrec hids
    have hb := hrec.close (hi := ⊤) bot_lt_top (fun e _ => bk_lt_top e.1)
    have hfix : ∀ i ∈ first :: x :: rest, f i = i := fun i hi => by
      simp only [f]; rw [if_neg (hne i hi)]
    refine ⟨d, mapT f (d + 1) n, h, first, rfl, ?_, ?_, rfl, w⟩
    · refine ghost_of_bt (gh := h.fresh) (by simp [f]) hb (by rw [hids]; rfl) hn (fun i hi => ?_)
      obtain ⟨l, e, es, h1, h2, h3, h4, h5⟩ := hready i hi
      exact ⟨l, by rw [hfix i hi]; exact h1, by rw [hdata i hi]; exact h1, h3⟩
    · rw [ids_mapT, hids, List.map_append]
      have h1 : (first :: x :: rest).map f = first :: x :: rest := by
        conv_rhs => rw [← List.map_id (first :: x :: rest)]
        exact List.map_congr_left hfix
      rw [h1]
      simp [f]

end Verif.BTree
