import Verif.BTree.Insert
import Mathlib.Data.List.Perm.Subperm

/-!
# Whole-tree operations: insert, lookup, scan, range scan
-/

set_option linter.unusedSectionVars false

namespace Verif.BTree

open Verif Assoc
open Verif.Slots hiding none

variable {K V L T : Type} [LinearOrder K] {o : Ops K V L} {W : Laws o}
  {Q : L → Bd K → Bd K → Prop} {lm bm rm : Nat}

/-- Minimal occupancy of the root: a root branch node has at least `rm` keys. -/
def rootMin (rm : Nat) : Nat → Nat
  | 0 => 0
  | _ + 1 => rm

/-- The invariant of a tree. -/
structure Good (W : Laws o) (lm bm rm : Nat) (s : State K L) : Prop where
  bt : Bt W tt lm bm s.heap s.depth (rootMin rm s.depth) s.root ⊥ ⊤
  wf : Wf s.heap (ids s.depth s.root)

/-- The entries of a tree, sorted by key. -/
def cont (W : Laws o) (s : State K L) : List (K × V) := content W s.heap (ids s.depth s.root)

theorem inR_univ (k : K) : InR (⊥ : Bd K) ⊤ k := ⟨bot_le, bk_lt_top k⟩

theorem Good.sorted {s : State K L} (g : Good W lm bm rm s) : Sorted (cont W s) := g.bt.content_sorted

theorem init_good (W : Laws o) (lm bm rm : Nat) :
    Good W lm bm rm (init o : State K L) ∧ cont W (init o : State K L) = [] := by
  refine ⟨⟨?_, ?_⟩, ?_⟩
  · refine ⟨bot_lt_top, o.empty, ?_, W.empty_ok, by simp [init, rootMin], by simp [W.empty_abs], trivial⟩
    simp [init, Heap.alloc, upd]
  · refine ⟨by simp [init, ids], ?_, ?_, ?_, ?_⟩ <;> simp [init, ids, Heap.alloc, upd]
  · simp [cont, init, ids, content, ent, Heap.alloc, upd, W.empty_abs]

theorem insert_good_head (hlm : lm ≤ W.lmin) (hbm : bm ≤ (o.N - 1) / 2) (hN : 2 ≤ o.N) (hrm : rm ≤ 1)
    {s : State K L} (g : Good W lm bm rm s) (k : K) (v : V) (ha : W.adm k) :
    ∃ s', insert o s k v = .ok s' ∧ Good W lm bm rm s' ∧ cont W s' = upsert k v (cont W s) ∧
      (ids s'.depth s'.root).head? = (ids s.depth s.root).head? := by
  obtain ⟨r, er, hF, hfr, hhead, hpost⟩ := insertT_spec hlm hbm hN k v ha s.depth (rootMin rm s.depth) s.heap
    s.root ⊥ ⊤ [] [] g.bt (inR_univ k) (by simpa using g.wf)
  unfold insert
  rw [er, Res.ok_bind]
  unfold InsPost at hpost
  cases hsp : r.split with
  | none =>
    rw [hsp] at hpost
    obtain ⟨h1, h2, h3⟩ := hpost
    exact ⟨_, rfl, ⟨h1, by simpa using h2⟩, h3, hhead⟩
  | some sr =>
    rw [hsp] at hpost
    obtain ⟨h1, h2, h3, h4⟩ := hpost
    obtain ⟨n, en, hn⟩ := newRoot_rep o (by omega) r.tree sr.1 sr.2
    dsimp only
    rw [en, Res.ok_bind]
    have hidn : ids (s.depth + 1) n = ids s.depth r.tree ++ ids s.depth sr.2 := by
      rw [ids_rep hn]; simp
    refine ⟨_, rfl, ⟨⟨_, _, hn, by simpa [rootMin] using hrm, h1, h2, trivial⟩, ?_⟩, ?_, ?_⟩
    · simp only
      rw [hidn]; simpa using h3
    · simp only [cont]
      rw [hidn]; exact h4
    · simp only
      obtain ⟨x, rest, hx⟩ := ids_cons h1
      rw [hidn, ← hhead, hx]; rfl

theorem insert_good (hlm : lm ≤ W.lmin) (hbm : bm ≤ (o.N - 1) / 2) (hN : 2 ≤ o.N) (hrm : rm ≤ 1)
    {s : State K L} (g : Good W lm bm rm s) (k : K) (v : V) (ha : W.adm k) :
    ∃ s', insert o s k v = .ok s' ∧ Good W lm bm rm s' ∧ cont W s' = upsert k v (cont W s) := by
  obtain ⟨s', h1, h2, h3, _⟩ := insert_good_head hlm hbm hN hrm g k v ha
  exact ⟨s', h1, h2, h3⟩

/-! ## Lookup -/

theorem findLeaf_spec {h : Heap L} (k : K) : ∀ (d top : Nat) (t : Tree K d) (lo hi : Bd K),
    Bt W Q lm bm h d top t lo hi → InR lo hi k →
    ∃ id l pre post m m', findLeaf o d t k = .ok id ∧ ids d t = pre ++ id :: post ∧ h.data id = some l ∧
      W.ok l ∧ lo ≤ m ∧ m' ≤ hi ∧ InR m m' k ∧ (∀ e ∈ W.abs l, InR m m' e.1) ∧ Q l m m' ∧
      (∀ e ∈ content W h pre, bk e.1 < m) ∧ (∀ e ∈ content W h post, m' ≤ bk e.1) := by
  intro d
  induction d with
  | zero =>
    intro top t lo hi ⟨hlt, l, hl, hok, _, hb, hq⟩ hk
    exact ⟨t, l, [], [], lo, hi, rfl, rfl, hl, hok, le_rfl, le_rfl, hk, hb, hq, by simp, by simp⟩
  | succ d ih =>
    intro top n lo hi hb hk
    obtain ⟨cs, ks, hr, htop, ht⟩ := hb
    obtain ⟨hks, _, _⟩ := keys_sorted (fun c a b hc => Bt.lt hc) ht
    obtain ⟨c1, c, c2, k1, k2, b1, m, m', b2, f⟩ := exists_focus W (fun c a b hc => Bt.lt hc) ht hk
    obtain ⟨id, l, pre, post, x, y, e, hi', hl, hok, hmx, hmy, hr1, hr2, hq, hp1, hp2⟩ :=
      ih (occ lm bm d) c m m' f.pc f.inR
    rw [findLeaf, f.lookupPos hr hks, Res.ok_bind, f.rdKid hr, Res.ok_bind]
    have hids : ids (d + 1) n = c1.flatMap (ids d) ++ ids d c ++ c2.flatMap (ids d) := by
      rw [ids_rep hr, f.hcs]; simp
    have hs := Tile.sorted (fun c a b hc => Bt.lt hc) ht
    have hbn : bnds lo ks hi = b1 ++ [m] ++ m' :: b2 := by
      unfold bnds
      rw [f.hks, List.map_append, List.append_assoc, f.hb2, ← List.cons_append, f.hb1]
    have hlom : lo ≤ m := by
      have : m ∈ lo :: k1.map bk := by rw [f.hb1]; simp
      rcases List.mem_cons.1 this with hm | hm
      · exact hm.ge
      · obtain ⟨x, hx, rfl⟩ := List.mem_map.1 hm
        rw [bnds, List.pairwise_cons] at hs
        exact (hs.1 _ (by rw [f.hks]; simp only [List.mem_append, List.mem_map, List.map_append]; exact Or.inl (Or.inl ⟨x, hx, rfl⟩))).le
    have hmhi : m' ≤ hi := by
      have : m' ∈ k2.map bk ++ [hi] := by rw [f.hb2]; simp
      rcases List.mem_append.1 this with hm | hm
      · obtain ⟨x, hx, rfl⟩ := List.mem_map.1 hm
        rw [bnds, List.pairwise_cons, List.pairwise_append] at hs
        exact (hs.2.2.2 _ (by rw [f.hks]; simp only [List.mem_append, List.mem_map, List.map_append]; exact Or.inr ⟨x, hx, rfl⟩) hi (by simp)).le
      · exact (List.mem_singleton.1 hm).le
    refine ⟨id, l, c1.flatMap (ids d) ++ pre, post ++ c2.flatMap (ids d), x, y, e, ?_, hl, hok,
      le_trans hlom hmx, le_trans hmy hmhi, hr1, hr2, hq, ?_, ?_⟩
    · rw [hids, hi']; simp
    · intro e he
      rw [content_append] at he
      rcases List.mem_append.1 he with he | he
      · exact lt_of_lt_of_le (f.left_lt e he) hmx
      · exact hp1 e he
    · intro e he
      rw [content_append] at he
      rcases List.mem_append.1 he with he | he
      · exact hp2 e he
      · exact le_trans hmy (f.right_ge e he)

theorem lookup_good {s : State K L} (g : Good W lm bm rm s) (k : K) :
    lookup o s k = .ok (find k (cont W s)) := by
  obtain ⟨id, l, pre, post, m, m', e, hids, hl, hok, _, _, hk, _, _, h1, h2⟩ :=
    findLeaf_spec k s.depth (rootMin rm s.depth) s.root ⊥ ⊤ g.bt (inR_univ k)
  unfold lookup cont
  rw [e, Res.ok_bind, Heap.get, hl, Res.ofOption_some, Res.ok_bind, W.lookup l k hok, hids,
    content_append, content_cons, find_append_right, find_append_left]
  · simp [ent, hl]
  · intro e he hk'
    have := lt_of_lt_of_le hk.2 (h2 e he)
    rw [hk'] at this; exact absurd this (lt_irrefl _)
  · intro e he hk'
    have := lt_of_lt_of_le (h1 e he) hk.1
    rw [hk'] at this; exact absurd this (lt_irrefl _)

/-! ## Scans -/

theorem leftmost_spec {h : Heap L} : ∀ (d top : Nat) (t : Tree K d) (lo hi : Bd K),
    Bt W Q lm bm h d top t lo hi → ∃ id rest, leftmost o d t = .ok id ∧ ids d t = id :: rest := by
  intro d
  induction d with
  | zero => intro top t lo hi _; exact ⟨t, [], rfl, rfl⟩
  | succ d ih =>
    intro top n lo hi ⟨cs, ks, hr, htop, ht⟩
    cases cs with
    | nil => have := hr.len; simp at this
    | cons c cs =>
      cases ks with
      | nil =>
        have hc : Bt W Q lm bm h d (occ lm bm d) c lo hi := ht.1
        obtain ⟨id, rest, e, hi'⟩ := ih _ c lo hi hc
        rw [leftmost, rd_ok (i := 0) (cap := o.N + 1) (by omega) (rep_mid (l := []) hr.kids), Res.ok_bind]
        exact ⟨id, _, e, by rw [ids_rep hr, List.flatMap_cons, hi']; rfl⟩
      | cons k ks =>
        have hc : Bt W Q lm bm h d (occ lm bm d) c lo (bk k) := ht.1
        obtain ⟨id, rest, e, hi'⟩ := ih _ c lo _ hc
        rw [leftmost, rd_ok (i := 0) (cap := o.N + 1) (by omega) (rep_mid (l := []) hr.kids), Res.ok_bind]
        exact ⟨id, _, e, by rw [ids_rep hr, List.flatMap_cons, hi']; rfl⟩

/-- Every leaf of a good tree is well-formed. -/
theorem Bt.leaf_ok {h : Heap L} : ∀ (d top : Nat) (t : Tree K d) (lo hi : Bd K),
    Bt W Q lm bm h d top t lo hi → ∀ i ∈ ids d t, ∃ l, h.data i = some l ∧ W.ok l := by
  intro d
  induction d with
  | zero =>
    intro top t lo hi ⟨_, l, hl, hok, _⟩ i hi'
    simp only [ids, List.mem_singleton] at hi'
    exact ⟨l, by rw [hi']; exact hl, hok⟩
  | succ d ih =>
    intro top n lo hi ⟨cs, ks, hr, htop, ht⟩ i hi'
    rw [ids_rep hr] at hi'
    obtain ⟨c, hc, hic⟩ := List.mem_flatMap.1 hi'
    have : ∀ (cs : List (Tree K d)) (bs : List (Bd K)), Tile (Bt W Q lm bm h d (occ lm bm d)) cs bs →
        ∀ c ∈ cs, ∃ a b, Bt W Q lm bm h d (occ lm bm d) c a b := by
      intro cs
      induction cs with
      | nil => intro _ _ c hc; simp at hc
      | cons x cs ihc =>
        intro bs ht c hc
        match bs, ht with
        | b0 :: b1 :: bs, ht =>
          rcases List.mem_cons.1 hc with hc | hc
          · subst hc; exact ⟨_, _, ht.1⟩
          · exact ihc _ ht.2 c hc
    obtain ⟨a, b, hb⟩ := this cs _ ht c hc
    exact ih _ c a b hb i hic

theorem Wf.length_le {h : Heap L} {is : List Nat} (w : Wf h is) : is.length ≤ h.fresh := by
  have : is ⊆ List.range h.fresh := fun i hi => List.mem_range.2 (w.fresh i hi)
  simpa using (List.Nodup.subperm w.nodup this).length_le

theorem chain_tail {h : Heap L} {pre : List Nat} {a : Nat} {post : List Nat}
    (c : Chain h (pre ++ a :: post)) : h.next a = post.head? := by
  obtain ⟨h1, h2⟩ := c
  rw [List.isChain_split] at h1
  cases post with
  | nil => exact h2 a (by simp)
  | cons b post => rw [List.isChain_cons_cons] at h1; exact h1.2.1.1

/-- Law of `scan` on a leaf: `sc` lists the entries in the order of the scan. -/
structure ScanLaws (W : Laws o) where
  sc : L → List (K × V)
  scan : ∀ l, W.ok l → o.scan l = .ok (sc l)
  perm : ∀ l, W.ok l → (sc l).Perm (W.abs l)

theorem scanLoop_spec (S : ScanLaws W) {h : Heap L} {is : List Nat} (w : Wf h is)
    (hok : ∀ i ∈ is, ∃ l, h.data i = some l ∧ W.ok l) :
    ∀ (post pre : List Nat) (fuel : Nat), is = pre ++ post → post.length ≤ fuel →
    ∃ es, scanLoop o h fuel post.head? = .ok es ∧
      es = post.flatMap (fun i => (h.data i).elim [] S.sc) := by
  intro post
  induction post with
  | nil => intro pre fuel _ _; refine ⟨[], ?_, rfl⟩; cases fuel <;> rfl
  | cons a post ih =>
    intro pre fuel he hf
    obtain ⟨fuel, rfl⟩ : ∃ f, fuel = f + 1 := ⟨fuel - 1, by simp at hf; omega⟩
    obtain ⟨l, hl, hlok⟩ := hok a (by rw [he]; simp)
    obtain ⟨es, e, hes⟩ := ih (pre ++ [a]) fuel (by rw [he]; simp) (by simpa using hf)
    have hc : h.next a = post.head? := chain_tail (by rw [← he]; exact w.chain)
    rw [List.head?_cons, scanLoop, Heap.get, hl, Res.ofOption_some, Res.ok_bind, S.scan l hlok,
      Res.ok_bind, hc, e, Res.ok_bind]
    exact ⟨_, rfl, by rw [hes]; simp [hl]⟩

theorem scan_good (S : ScanLaws W) {s : State K L} (g : Good W lm bm rm s) :
    ∃ es, scan o s = .ok es ∧
      es = (ids s.depth s.root).flatMap (fun i => (s.heap.data i).elim [] S.sc) ∧
      es.Perm (cont W s) := by
  obtain ⟨id, rest, e, hi⟩ := leftmost_spec _ _ _ _ _ g.bt
  obtain ⟨es, es1, es2⟩ := scanLoop_spec S g.wf (Bt.leaf_ok _ _ _ _ _ g.bt) (id :: rest) []
    s.heap.fresh (by rw [hi]; rfl) (by rw [← hi]; exact g.wf.length_le)
  unfold scan
  rw [e, Res.ok_bind]
  refine ⟨es, es1, by rw [es2, hi], ?_⟩
  rw [es2, cont, hi]
  have hok := Bt.leaf_ok _ _ _ _ _ g.bt
  rw [hi] at hok
  unfold content
  apply List.Perm.flatMap_left
  intro i hi
  obtain ⟨l, hl, hlok⟩ := hok i hi
  simp only [ent, hl, Option.elim]
  exact S.perm l hlok

/-- A relation between lists that is compatible with concatenation (equality, permutation). -/
structure ListRel (Rl : List (K × V) → List (K × V) → Prop) : Prop where
  nil : Rl [] []
  append : ∀ {a b c d}, Rl a b → Rl c d → Rl (a ++ c) (b ++ d)

theorem listRel_eq : ListRel (K := K) (V := V) (· = ·) := ⟨rfl, fun h h' => by rw [h, h']⟩

theorem listRel_perm : ListRel (K := K) (V := V) List.Perm := ⟨List.Perm.refl _, fun h h' => h.append h'⟩

/-- Law of the range scan on a leaf: the entries seen are related by `Rl` to those in the range. -/
def RangeLaw (W : Laws o) (Rl : List (K × V) → List (K × V) → Prop) : Prop := ∀ l lo hi, W.ok l →
  ∃ es stop, o.rangeScan l lo hi = .ok (es, stop) ∧
  Rl es ((W.abs l).filter (fun e => lo ≤ e.1 ∧ e.1 ≤ hi)) ∧ (stop = true → ∃ e ∈ W.abs l, hi < e.1)

theorem rangeLoop_spec {Rl : List (K × V) → List (K × V) → Prop} (hRl : ListRel Rl) (R : RangeLaw W Rl) {h : Heap L} {is : List Nat} (w : Wf h is) (lo hi : K)
    (hok : ∀ i ∈ is, ∃ l, h.data i = some l ∧ W.ok l) :
    ∀ (post pre : List Nat) (fuel : Nat), is = pre ++ post → post.length ≤ fuel →
    Sorted (content W h post) →
    ∃ es, rangeLoop o h lo hi fuel post.head? = .ok es ∧
      Rl es ((content W h post).filter (fun e => lo ≤ e.1 ∧ e.1 ≤ hi)) := by
  intro post
  induction post with
  | nil => intro pre fuel _ _ _; refine ⟨[], ?_, hRl.nil⟩; cases fuel <;> rfl
  | cons a post ih =>
    intro pre fuel he hf hs
    obtain ⟨fuel, rfl⟩ : ∃ f, fuel = f + 1 := ⟨fuel - 1, by simp at hf; omega⟩
    obtain ⟨l, hl, hlok⟩ := hok a (by rw [he]; simp)
    have hent : ent W h a = W.abs l := by simp [ent, hl]
    rw [content_cons, sorted_append, hent] at hs
    obtain ⟨es, e, hes⟩ := ih (pre ++ [a]) fuel (by rw [he]; simp) (by simpa using hf) hs.2.1
    have hc : h.next a = post.head? := chain_tail (by rw [← he]; exact w.chain)
    obtain ⟨el, stop, er, hperm, hstop⟩ := R l lo hi hlok
    rw [List.head?_cons, rangeLoop, Heap.get, hl, Res.ofOption_some, Res.ok_bind, er, Res.ok_bind, hc]
    rw [content_cons, List.filter_append, hent]
    cases stop with
    | true =>
      refine ⟨el, rfl, ?_⟩
      obtain ⟨x, hx, hxhi⟩ := hstop rfl
      have : (content W h post).filter (fun e => lo ≤ e.1 ∧ e.1 ≤ hi) = [] := by
        rw [List.filter_eq_nil_iff]
        intro y hy
        have := lt_trans hxhi (hs.2.2 x hx y hy)
        simp [this]
      rw [this, List.append_nil]
      exact hperm
    | false =>
      simp only [Bool.false_eq_true, if_false]
      rw [e, Res.ok_bind]
      exact ⟨_, rfl, hRl.append hperm hes⟩

theorem rangeScan_good {Rl : List (K × V) → List (K × V) → Prop} (hRl : ListRel Rl) (R : RangeLaw W Rl) {s : State K L} (g : Good W lm bm rm s) (lo hi : K) :
    ∃ es, rangeScan o s lo hi = .ok es ∧
      Rl es ((cont W s).filter (fun e => lo ≤ e.1 ∧ e.1 ≤ hi)) := by
  obtain ⟨id, l, pre, post, m, m', e, hids, hl, hok, _, _, hk, _, _, h1, h2⟩ :=
    findLeaf_spec lo s.depth (rootMin rm s.depth) s.root ⊥ ⊤ g.bt (inR_univ lo)
  have hs := g.sorted
  unfold cont at hs ⊢
  rw [hids, content_append] at hs ⊢
  have hlen := g.wf.length_le
  rw [hids] at hlen
  obtain ⟨es, e1, e2⟩ := rangeLoop_spec hRl R g.wf lo hi (Bt.leaf_ok _ _ _ _ _ g.bt) (id :: post) pre
    s.heap.fresh hids (by simp at hlen ⊢; omega) (sorted_append.1 hs).2.1
  unfold rangeScan
  rw [e, Res.ok_bind]
  refine ⟨es, e1, ?_⟩
  rw [List.filter_append]
  have : (content W s.heap pre).filter (fun e => lo ≤ e.1 ∧ e.1 ≤ hi) = [] := by
    rw [List.filter_eq_nil_iff]
    intro y hy
    have := bk_lt.1 (lt_of_lt_of_le (h1 y hy) hk.1)
    simp [this]
  rw [this, List.nil_append]
  exact e2

end Verif.BTree
