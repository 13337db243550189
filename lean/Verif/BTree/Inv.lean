import Verif.BTree.Node
import Verif.BTree.Assoc
import Mathlib.Order.WithBot
import Mathlib.Data.List.Chain
import Mathlib.Data.List.Pairwise
import Mathlib.Data.List.Infix
import Mathlib.Data.List.Nodup

/-!
# Invariant of the B+ trees
-/

set_option linter.unusedSectionVars false

namespace Verif.BTree

open Verif Slots Assoc

variable {K V L T : Type}

/-- Bounds of key ranges: a key, `-∞` or `+∞`. -/
abbrev Bd (K : Type) := WithBot (WithTop K)

/-- A key as a bound. -/
def bk (k : K) : Bd K := ((k : WithTop K) : WithBot (WithTop K))

section
variable [LinearOrder K]

@[simp] theorem bk_lt {a b : K} : bk a < bk b ↔ a < b := by simp [bk]
@[simp] theorem bk_le {a b : K} : bk a ≤ bk b ↔ a ≤ b := by simp [bk]
@[simp] theorem bot_lt_bk (a : K) : (⊥ : Bd K) < bk a := WithBot.bot_lt_coe _
theorem bk_lt_top (a : K) : bk a < (⊤ : Bd K) := WithBot.coe_lt_coe.2 (WithTop.coe_lt_top a)

/-- `k` lies in the range `[lo, hi)`. -/
def InR (lo hi : Bd K) (k : K) : Prop := lo ≤ bk k ∧ bk k < hi

/-- `cs` tiles the consecutive ranges between the bounds `bs`. -/
def Tile (P : T → Bd K → Bd K → Prop) : List T → List (Bd K) → Prop
  | [], [_] => True
  | c :: cs, b :: b' :: bs => P c b b' ∧ Tile P cs (b' :: bs)
  | _, _ => False

theorem Tile.length {P : T → Bd K → Bd K → Prop} : ∀ {cs : List T} {bs : List (Bd K)},
    Tile P cs bs → bs.length = cs.length + 1
  | [], [_], _ => rfl
  | c :: cs, b :: b' :: bs, h => by
    have := Tile.length h.2
    simp only [List.length_cons] at this ⊢
    omega
  | [], [], h => h.elim
  | [], _ :: _ :: _, h => h.elim
  | _ :: _, [], h => h.elim
  | _ :: _, [_], h => h.elim

theorem tile_append {P : T → Bd K → Bd K → Prop} {c2 : List T} {b2 : List (Bd K)} {m : Bd K} :
    ∀ {c1 : List T} {b1 : List (Bd K)}, c1.length = b1.length →
    (Tile P (c1 ++ c2) (b1 ++ m :: b2) ↔ Tile P c1 (b1 ++ [m]) ∧ Tile P c2 (m :: b2))
  | [], [], _ => by simp [Tile]
  | c :: c1, [b], h => by
    have : c1 = [] := by simpa using h
    subst this
    simp [Tile]
  | c :: c1, b :: b' :: b1, h => by
    have ih := tile_append (P := P) (c2 := c2) (b2 := b2) (m := m) (c1 := c1) (b1 := b' :: b1)
      (by simpa using h)
    simp only [List.cons_append] at ih ⊢
    simp only [Tile]
    rw [ih]; tauto
  | [], _ :: _, h => by simp at h
  | _ :: _, [], h => by simp at h

theorem Tile.mono {P Q : T → Bd K → Bd K → Prop} : ∀ {cs : List T} {bs : List (Bd K)},
    (∀ c ∈ cs, ∀ a b, P c a b → Q c a b) → Tile P cs bs → Tile Q cs bs
  | [], [_], _, _ => trivial
  | c :: cs, b :: b' :: bs, hpq, h =>
    ⟨hpq c (by simp) _ _ h.1, Tile.mono (fun x hx => hpq x (List.mem_cons_of_mem _ hx)) h.2⟩
  | [], [], _, h => h.elim
  | [], _ :: _ :: _, _, h => h.elim
  | _ :: _, [], _, h => h.elim
  | _ :: _, [_], _, h => h.elim

theorem Tile.sorted {P : T → Bd K → Bd K → Prop} (hP : ∀ c a b, P c a b → a < b) :
    ∀ {cs : List T} {bs : List (Bd K)}, Tile P cs bs → bs.Pairwise (· < ·)
  | [], [_], _ => by simp
  | c :: cs, b :: b' :: bs, h => by
    have ih := Tile.sorted hP h.2
    rw [List.pairwise_cons]
    refine ⟨fun x hx => ?_, ih⟩
    rcases List.mem_cons.1 hx with hx | hx
    · subst hx; exact hP _ _ _ h.1
    · exact lt_trans (hP _ _ _ h.1) ((List.pairwise_cons.1 ih).1 x hx)
  | [], [], h => h.elim
  | [], _ :: _ :: _, h => h.elim
  | _ :: _, [], h => h.elim
  | _ :: _, [_], h => h.elim

/-- The bounds of the children of a node. -/
def bnds (lo : Bd K) (ks : List K) (hi : Bd K) : List (Bd K) := lo :: (ks.map bk ++ [hi])

/-- Splitting the children of a node at a key. -/
theorem tile_split_key {P : T → Bd K → Bd K → Prop} {c1 c2 : List T} {k1 k2 : List K} {lo hi : Bd K}
    {key : K} (h : c1.length = k1.length + 1) :
    Tile P (c1 ++ c2) (bnds lo (k1 ++ key :: k2) hi) ↔
      Tile P c1 (bnds lo k1 (bk key)) ∧ Tile P c2 (bnds (bk key) k2 hi) := by
  have := tile_append (P := P) (c2 := c2) (b2 := k2.map bk ++ [hi]) (m := bk key) (c1 := c1)
    (b1 := lo :: k1.map bk) (by simpa using h)
  simpa [bnds] using this

theorem exists_last (lo : Bd K) (k1 : List K) : ∃ b1 m, lo :: k1.map bk = b1 ++ [m] := by
  rcases List.eq_nil_or_concat (lo :: k1.map bk) with h | ⟨b, m, h⟩
  · simp at h
  · exact ⟨b, m, by simpa using h⟩

theorem exists_head (k2 : List K) (hi : Bd K) : ∃ m b2, k2.map bk ++ [hi] = m :: b2 := by
  cases k2 with
  | nil => exact ⟨hi, [], rfl⟩
  | cons a k2 => exact ⟨_, _, rfl⟩

/-- Focus on one child of a node. -/
theorem tile_focus {P : T → Bd K → Bd K → Prop} {c1 c2 : List T} {c : T} {k1 k2 : List K}
    {lo hi : Bd K} (h : c1.length = k1.length) (ht : Tile P (c1 ++ c :: c2) (bnds lo (k1 ++ k2) hi)) :
    ∃ b1 m m' b2, lo :: k1.map bk = b1 ++ [m] ∧ k2.map bk ++ [hi] = m' :: b2 ∧ b1.length = c1.length ∧
      Tile P c1 (b1 ++ [m]) ∧ P c m m' ∧ Tile P c2 (m' :: b2) := by
  obtain ⟨b1, m, hb1⟩ := exists_last lo k1
  obtain ⟨m', b2, hb2⟩ := exists_head k2 hi
  have e : bnds lo (k1 ++ k2) hi = b1 ++ m :: m' :: b2 := by
    unfold bnds
    rw [List.map_append, List.append_assoc, hb2, ← List.cons_append, hb1]; simp
  have hl : b1.length = c1.length := by
    have := congrArg List.length hb1; simp at this; omega
  rw [e, tile_append hl.symm] at ht
  exact ⟨b1, m, m', b2, hb1, hb2, hl, ht.1, ht.2.1, ht.2.2⟩

/-- Rebuild a node from a focus, with new children and separators in the middle. -/
theorem tile_unfocus {P : T → Bd K → Bd K → Prop} {c1 c2 xs : List T} {k1 k2 ys : List K}
    {lo hi m m' : Bd K} {b1 b2 : List (Bd K)}
    (hb1 : lo :: k1.map bk = b1 ++ [m]) (hb2 : k2.map bk ++ [hi] = m' :: b2)
    (hl : b1.length = c1.length) (hxs : xs.length = ys.length + 1)
    (h1 : Tile P c1 (b1 ++ [m])) (hx : Tile P xs (bnds m ys m')) (h2 : Tile P c2 (m' :: b2)) :
    Tile P (c1 ++ (xs ++ c2)) (bnds lo (k1 ++ (ys ++ k2)) hi) := by
  have e : bnds lo (k1 ++ (ys ++ k2)) hi = b1 ++ m :: (ys.map bk ++ m' :: b2) := by
    unfold bnds
    rw [List.map_append, List.map_append, List.append_assoc, List.append_assoc, hb2,
      ← List.cons_append, hb1]; simp
  rw [e, tile_append hl.symm]
  refine ⟨h1, ?_⟩
  rw [← List.cons_append, tile_append (by simpa using hxs)]
  refine ⟨?_, h2⟩
  simpa [bnds] using hx

/-! ## Leaf laws -/

/-- What the tree needs to know about a leaf layout in order to insert and look up. -/
structure Laws (o : Ops K V L) where
  /-- the entries of a leaf, sorted by key -/
  abs : L → List (K × V)
  /-- well-formed leaves -/
  ok : L → Prop
  /-- minimal number of entries of the halves of a split leaf -/
  lmin : Nat
  /-- the keys that may be inserted -/
  adm : K → Prop
  lmin_pos : 1 ≤ lmin
  sorted : ∀ l, ok l → Sorted (abs l)
  cap : ∀ l, ok l → (abs l).length ≤ o.M
  num_eq : ∀ l, ok l → o.num l = (abs l).length
  empty_ok : ok o.empty
  empty_abs : abs o.empty = []
  lookup : ∀ l k, ok l → o.lookup l k = .ok (find k (abs l))
  insert : ∀ l k v, ok l → adm k →
    (∃ l', o.insert l k v = .ok (.done l') ∧ ok l' ∧ abs l' = upsert k v (abs l)) ∨
    (∃ a b s, o.insert l k v = .ok (.split a b s) ∧ ok a ∧ ok b ∧
      abs a ++ abs b = upsert k v (abs l) ∧ (∀ e ∈ abs a, e.1 < s) ∧ (∀ e ∈ abs b, s ≤ e.1) ∧
      lmin ≤ (abs a).length ∧ lmin ≤ (abs b).length)
  search : ∀ (a : Slots K) (k1 k2 : List K) (k : K), Rep a (k1 ++ k2) →
    (k1 ++ k2).length ≤ o.N → (k1 ++ k2).Pairwise (· < ·) → (∀ x ∈ k1, x ≤ k) → (∀ x ∈ k2, k < x) →
    o.search (fun i => rd o.N a i) (k1 ++ k2).length k = .ok k1.length

variable {o : Ops K V L} (W : Laws o)

/-! ## Leaves of a tree -/

/-- The addresses of the leaves below a subtree, from left to right. -/
def ids : (d : Nat) → Tree K d → List Nat
  | 0, id => [id]
  | d + 1, n => ((List.range (n.num + 1)).filterMap n.kids).flatMap (ids d)

theorem filterMap_range_rep {α : Type} {a : Slots α} : ∀ {l : List α}, Rep a l →
    (List.range l.length).filterMap a = l := by
  intro l
  induction l using List.reverseRecOn with
  | nil => intro _; rfl
  | append_singleton l x ih =>
    intro h
    rw [List.length_append, List.length_singleton, List.range_succ, List.filterMap_append, ih h.prefix]
    have := rep_mid (l := l) (r := []) h
    simp [this]

theorem ids_rep {N d : Nat} {n : BNode K (Tree K d)} {cs : List (Tree K d)} {ks : List K}
    (h : NodeRep N n cs ks) : ids (d + 1) n = cs.flatMap (ids d) := by
  rw [ids]
  have : n.num + 1 = cs.length := by rw [h.num, h.len]
  rw [this, filterMap_range_rep h.kids]

/-- The entries of a leaf in the heap. -/
def ent (h : Heap L) (id : Nat) : List (K × V) := (h.data id).elim [] W.abs

/-- The entries of a list of leaves. -/
def content (h : Heap L) (is : List Nat) : List (K × V) := is.flatMap (ent W h)

@[simp] theorem content_nil (h : Heap L) : content W h [] = [] := rfl
theorem content_append (h : Heap L) (a b : List Nat) :
    content W h (a ++ b) = content W h a ++ content W h b := by simp [content]
theorem content_cons (h : Heap L) (a : Nat) (b : List Nat) :
    content W h (a :: b) = ent W h a ++ content W h b := by simp [content]

theorem content_congr {h h' : Heap L} {is : List Nat} (e : ∀ i ∈ is, h'.data i = h.data i) :
    content W h' is = content W h is := by
  induction is with
  | nil => rfl
  | cons a is ih =>
    rw [content_cons, content_cons, ih (fun i hi => e i (List.mem_cons_of_mem _ hi))]
    unfold ent; rw [e a (by simp)]

/-- Minimal number of entries (keys) of a node at height `d` that is not the root. -/
def occ (lm bm : Nat) : Nat → Nat
  | 0 => lm
  | _ + 1 => bm

/-- The tree `t` of height `d` is a search tree for the key range `[lo, hi)`; `top` is the minimal
occupancy of its topmost node, `lm` and `bm` are those of all other leaves and branch nodes; every leaf
satisfies `Q`. -/
def Bt (Q : L → Bd K → Bd K → Prop) (lm bm : Nat) (h : Heap L) :
    (d : Nat) → Nat → Tree K d → Bd K → Bd K → Prop
  | 0, top, id, lo, hi => lo < hi ∧ ∃ l, h.data id = some l ∧ W.ok l ∧ top ≤ (W.abs l).length ∧
      (∀ e ∈ W.abs l, InR lo hi e.1) ∧ Q l lo hi
  | d + 1, top, n, lo, hi => ∃ cs ks, NodeRep o.N n cs ks ∧ top ≤ ks.length ∧
      Tile (Bt Q lm bm h d (occ lm bm d)) cs (bnds lo ks hi)

/-- No extra condition on leaves. -/
def tt : L → Bd K → Bd K → Prop := fun _ _ _ => True

variable {W} {Q : L → Bd K → Bd K → Prop} {lm bm : Nat}

theorem Bt.lt {h : Heap L} : ∀ {d top : Nat} {t : Tree K d} {lo hi : Bd K},
    Bt W Q lm bm h d top t lo hi → lo < hi := by
  intro d
  induction d with
  | zero => intro top t lo hi hb; exact hb.1
  | succ d ih =>
    intro top t lo hi ⟨cs, ks, hr, _, ht⟩
    have := Tile.sorted (fun c a b hc => ih hc) ht
    unfold bnds at this
    rw [List.pairwise_cons] at this
    exact this.1 hi (by simp)

theorem Bt.top_le {h : Heap L} {d top top' : Nat} {t : Tree K d} {lo hi : Bd K} (hle : top' ≤ top)
    (hb : Bt W Q lm bm h d top t lo hi) : Bt W Q lm bm h d top' t lo hi := by
  cases d with
  | zero =>
    obtain ⟨h1, l, h2, h3, h4, h5⟩ := hb
    exact ⟨h1, l, h2, h3, le_trans hle h4, h5⟩
  | succ d =>
    obtain ⟨cs, ks, h1, h2, h3⟩ := hb
    exact ⟨cs, ks, h1, le_trans hle h2, h3⟩

theorem mem_ids_child {N d : Nat} {n : BNode K (Tree K d)} {cs : List (Tree K d)} {ks : List K}
    (h : NodeRep N n cs ks) {c : Tree K d} (hc : c ∈ cs) {i : Nat} (hi : i ∈ ids d c) :
    i ∈ ids (d + 1) n := by
  rw [ids_rep h]; exact List.mem_flatMap.2 ⟨c, hc, hi⟩

theorem Bt.frame {Q' : L → Bd K → Bd K → Prop} {h h' : Heap L} : ∀ {d top : Nat} {t : Tree K d}
    {lo hi : Bd K}, (∀ l a b, Q l a b → Q' l a b) → (∀ i ∈ ids d t, h'.data i = h.data i) →
    Bt W Q lm bm h d top t lo hi → Bt W Q' lm bm h' d top t lo hi := by
  intro d
  induction d with
  | zero =>
    intro top t lo hi hQ e ⟨h1, l, h2, h3, h4, h5, h6⟩
    exact ⟨h1, l, by rw [e _ (by simp [ids])]; exact h2, h3, h4, h5, hQ _ _ _ h6⟩
  | succ d ih =>
    intro top t lo hi hQ e ⟨cs, ks, h1, h2, h3⟩
    exact ⟨cs, ks, h1, h2, h3.mono (fun c hc a b hb => ih hQ (fun i hi => e i (mem_ids_child h1 hc hi)) hb)⟩

/-- Framing of a list of siblings. -/
theorem Tile.frame {Q' : L → Bd K → Bd K → Prop} {h h' : Heap L} {d top : Nat} {cs : List (Tree K d)}
    {bs : List (Bd K)} (hQ : ∀ l a b, Q l a b → Q' l a b)
    (e : ∀ i ∈ cs.flatMap (ids d), h'.data i = h.data i)
    (ht : Tile (Bt W Q lm bm h d top) cs bs) : Tile (Bt W Q' lm bm h' d top) cs bs :=
  ht.mono (fun c hc _ _ hb => hb.frame hQ (fun i hi => e i (List.mem_flatMap.2 ⟨c, hc, hi⟩)))

/-- All keys below lie in the range. -/
theorem Bt.bounds {h : Heap L} : ∀ {d top : Nat} {t : Tree K d} {lo hi : Bd K},
    Bt W Q lm bm h d top t lo hi → ∀ e ∈ content W h (ids d t), InR lo hi e.1 := by
  intro d
  induction d with
  | zero =>
    intro top t lo hi ⟨h1, l, h2, h3, h4, h5, h6⟩ e he
    simp only [ids, content_cons, content_nil, List.append_nil, ent, h2, Option.elim] at he
    exact h5 e he
  | succ d ih =>
    intro top t lo hi ⟨cs, ks, h1, h2, h3⟩ e he
    rw [ids_rep h1] at he
    have key : ∀ (cs : List (Tree K d)) (bs : List (Bd K)) (lo : Bd K),
        Tile (Bt W Q lm bm h d (occ lm bm d)) cs (lo :: (bs ++ [hi])) →
        ∀ e ∈ content W h (cs.flatMap (ids d)), InR lo hi e.1 := by
      intro cs
      induction cs with
      | nil => intro bs lo _ e he; simp at he
      | cons c cs ihc =>
        intro bs lo ht e he
        rw [List.flatMap_cons, content_append, List.mem_append] at he
        cases bs with
        | nil =>
          have hb : Bt W Q lm bm h d (occ lm bm d) c lo hi := ht.1
          have hcs : cs = [] := by
            have := Tile.length ht; simp at this; exact this
          subst hcs
          rcases he with he | he
          · exact ih hb e he
          · simp at he
        | cons b bs =>
          have hb : Bt W Q lm bm h d (occ lm bm d) c lo b := ht.1
          have hrest : Tile (Bt W Q lm bm h d (occ lm bm d)) cs (b :: (bs ++ [hi])) := ht.2
          have hs := Tile.sorted (fun c a b hc => Bt.lt hc) hrest
          rw [List.pairwise_cons] at hs
          rcases he with he | he
          · have := ih hb e he
            exact ⟨this.1, lt_trans this.2 (hs.1 hi (by simp))⟩
          · have := ihc bs b hrest e he
            exact ⟨le_trans hb.lt.le this.1, this.2⟩
    exact key cs (ks.map bk) lo h3 e he

/-- Keys below a list of siblings. -/
theorem Tile.bounds {h : Heap L} {d top : Nat} : ∀ {cs : List (Tree K d)} {bs : List (Bd K)} {lo hi : Bd K},
    Tile (Bt W Q lm bm h d top) cs bs → (∀ b ∈ bs, lo ≤ b ∧ b ≤ hi) →
    ∀ e ∈ content W h (cs.flatMap (ids d)), InR lo hi e.1
  | [], _, _, _, _, _ => by intro e he; simp at he
  | c :: cs, b :: b' :: bs, lo, hi, ht, hb => by
    intro e he
    rw [List.flatMap_cons, content_append, List.mem_append] at he
    rcases he with he | he
    · have := ht.1.bounds e he
      exact ⟨le_trans (hb b (by simp)).1 this.1, lt_of_lt_of_le this.2 (hb b' (by simp)).2⟩
    · exact Tile.bounds ht.2 (fun x hx => hb x (List.mem_cons_of_mem _ hx)) e he
  | _ :: _, [], _, _, h, _ => h.elim
  | _ :: _, [_], _, _, h, _ => h.elim

/-- The contents are sorted. -/
theorem Tile.content_sorted {h : Heap L} {d top : Nat}
    (ih : ∀ (t : Tree K d) (lo hi : Bd K), Bt W Q lm bm h d top t lo hi → Sorted (content W h (ids d t))) :
    ∀ {cs : List (Tree K d)} {bs : List (Bd K)},
    Tile (Bt W Q lm bm h d top) cs bs → Sorted (content W h (cs.flatMap (ids d)))
  | [], _, _ => by simp [Sorted]
  | c :: cs, b :: b' :: bs, ht => by
    rw [List.flatMap_cons, content_append, sorted_append]
    refine ⟨ih c b b' ht.1, Tile.content_sorted ih ht.2, fun x hx y hy => ?_⟩
    have h1 := ht.1.bounds x hx
    have hs := Tile.sorted (fun c a b hc => Bt.lt hc) ht.2
    rw [List.pairwise_cons] at hs
    -- all later bounds are at least b'
    have h2 : ∀ {cs : List (Tree K d)} {bs : List (Bd K)}, Tile (Bt W Q lm bm h d top) cs bs →
        (∀ z ∈ bs, b' ≤ z) → ∀ y ∈ content W h (cs.flatMap (ids d)), b' ≤ bk y.1 := by
      intro cs
      induction cs with
      | nil => intro bs _ _ y hy; simp at hy
      | cons c cs ihc =>
        intro bs ht hb y hy
        match bs, ht with
        | b0 :: b1 :: bs, ht =>
          rw [List.flatMap_cons, content_append, List.mem_append] at hy
          rcases hy with hy | hy
          · exact le_trans (hb b0 (by simp)) (ht.1.bounds y hy).1
          · exact ihc ht.2 (fun z hz => hb z (List.mem_cons_of_mem _ hz)) y hy
    have h3 := h2 ht.2 (fun z hz => by
      rcases List.mem_cons.1 hz with hz | hz
      · exact hz.ge
      · exact (hs.1 z hz).le) y hy
    exact bk_lt.1 (lt_of_lt_of_le h1.2 h3)
  | _ :: _, [], h => h.elim
  | _ :: _, [_], h => h.elim

theorem Bt.content_sorted {h : Heap L} : ∀ {d top : Nat} {t : Tree K d} {lo hi : Bd K},
    Bt W Q lm bm h d top t lo hi → Sorted (content W h (ids d t)) := by
  intro d
  induction d with
  | zero =>
    intro top t lo hi ⟨h1, l, h2, h3, h4, h5, h6⟩
    simp only [ids, content_cons, content_nil, List.append_nil, ent, h2, Option.elim]
    exact W.sorted l h3
  | succ d ih =>
    intro top t lo hi ⟨cs, ks, h1, h2, h3⟩
    rw [ids_rep h1]
    exact Tile.content_sorted (fun t lo hi hb => ih hb) h3

/-! ## The search path -/

/-- Everything about the child a search for `k` descends to. -/
structure Focus (W : Laws o) (P : T → Bd K → Bd K → Prop) (cs : List T) (ks : List K) (lo hi : Bd K)
    (k : K) (c1 : List T) (c : T) (c2 : List T) (k1 k2 : List K) (b1 : List (Bd K)) (m m' : Bd K)
    (b2 : List (Bd K)) : Prop where
  hcs : cs = c1 ++ c :: c2
  hks : ks = k1 ++ k2
  l1 : c1.length = k1.length
  l2 : c2.length = k2.length
  le : ∀ x ∈ k1, x ≤ k
  gt : ∀ x ∈ k2, k < x
  hb1 : lo :: k1.map bk = b1 ++ [m]
  hb2 : k2.map bk ++ [hi] = m' :: b2
  lb : b1.length = c1.length
  t1 : Tile P c1 (b1 ++ [m])
  pc : P c m m'
  t2 : Tile P c2 (m' :: b2)
  inR : InR m m' k

theorem keys_sorted {P : T → Bd K → Bd K → Prop} (hP : ∀ c a b, P c a b → a < b) {cs : List T}
    {ks : List K} {lo hi : Bd K} (ht : Tile P cs (bnds lo ks hi)) :
    ks.Pairwise (· < ·) ∧ (∀ k ∈ ks, lo < bk k) ∧ (∀ k ∈ ks, bk k < hi) := by
  have hs := Tile.sorted hP ht
  unfold bnds at hs
  rw [List.pairwise_cons, List.pairwise_append] at hs
  obtain ⟨h1, h2, _, h3⟩ := hs
  refine ⟨?_, fun k hk => h1 _ (by simp; exact Or.inl ⟨k, hk, rfl⟩), fun k hk =>
    h3 _ (List.mem_map.2 ⟨k, hk, rfl⟩) hi (by simp)⟩
  rw [List.pairwise_map] at h2
  exact h2.imp (fun h => bk_lt.1 h)

theorem sorted_split (k : K) : ∀ {ks : List K}, ks.Pairwise (· < ·) →
    ∃ k1 k2, ks = k1 ++ k2 ∧ (∀ x ∈ k1, x ≤ k) ∧ (∀ x ∈ k2, k < x)
  | [], _ => ⟨[], [], rfl, by simp, by simp⟩
  | a :: ks, h => by
    rw [List.pairwise_cons] at h
    by_cases ha : a ≤ k
    · obtain ⟨k1, k2, e, h1, h2⟩ := sorted_split k h.2
      refine ⟨a :: k1, k2, by rw [e]; rfl, fun x hx => ?_, h2⟩
      rcases List.mem_cons.1 hx with hx | hx
      · rw [hx]; exact ha
      · exact h1 x hx
    · refine ⟨[], a :: ks, rfl, by simp, fun x hx => ?_⟩
      rcases List.mem_cons.1 hx with hx | hx
      · rw [hx]; exact not_le.1 ha
      · exact lt_trans (not_le.1 ha) (h.1 x hx)

theorem exists_focus (W : Laws o) {P : T → Bd K → Bd K → Prop} (hP : ∀ c a b, P c a b → a < b) {cs : List T}
    {ks : List K} {lo hi : Bd K} (ht : Tile P cs (bnds lo ks hi)) {k : K} (hk : InR lo hi k) :
    ∃ c1 c c2 k1 k2 b1 m m' b2, Focus W P cs ks lo hi k c1 c c2 k1 k2 b1 m m' b2 := by
  obtain ⟨hs, _, _⟩ := keys_sorted hP ht
  obtain ⟨k1, k2, rfl, h1, h2⟩ := sorted_split k hs
  have hl : cs.length = (k1 ++ k2).length + 1 := by
    have := Tile.length ht; simp [bnds] at this; simp; omega
  have hlt : k1.length < cs.length := by simp at hl; omega
  have hcs : cs = cs.take k1.length ++ cs[k1.length] :: cs.drop (k1.length + 1) := by simp
  have hl1 : (cs.take k1.length).length = k1.length := by simp; omega
  have ht' := ht
  rw [hcs] at ht'
  obtain ⟨b1, m, m', b2, hb1, hb2, lb, t1, pc, t2⟩ := tile_focus hl1 ht'
  refine ⟨_, _, _, k1, k2, b1, m, m', b2, hcs, rfl, hl1, ?_, h1, h2, hb1, hb2, lb, t1, pc, t2, ?_, ?_⟩
  · simp at hl ⊢; omega
  · have : m ∈ lo :: k1.map bk := by rw [hb1]; simp
    rcases List.mem_cons.1 this with hm | hm
    · rw [hm]; exact hk.1
    · obtain ⟨x, hx, rfl⟩ := List.mem_map.1 hm
      exact bk_le.2 (h1 x hx)
  · have : m' ∈ k2.map bk ++ [hi] := by rw [hb2]; simp
    rcases List.mem_append.1 this with hm | hm
    · obtain ⟨x, hx, rfl⟩ := List.mem_map.1 hm
      exact bk_lt.2 (h2 x hx)
    · rw [List.mem_singleton.1 hm]; exact hk.2

/-- The search finds the focus. -/
theorem Focus.lookupPos {P : T → Bd K → Bd K → Prop} {cs : List T} {ks : List K} {lo hi : Bd K} {k : K}
    {c1 c2 : List T} {c : T} {k1 k2 : List K} {b1 b2 : List (Bd K)} {m m' : Bd K}
    (f : Focus W P cs ks lo hi k c1 c c2 k1 k2 b1 m m' b2) {n : BNode K T} (hr : NodeRep o.N n cs ks)
    (hs : ks.Pairwise (· < ·)) : lookupPos o n k = .ok k1.length := by
  unfold BTree.lookupPos
  rw [hr.num]
  have := f.hks
  subst this
  exact W.search n.keys k1 k2 k hr.keys hr.cap hs f.le f.gt

theorem Focus.rdKid {P : T → Bd K → Bd K → Prop} {cs : List T} {ks : List K} {lo hi : Bd K} {k : K}
    {c1 c2 : List T} {c : T} {k1 k2 : List K} {b1 b2 : List (Bd K)} {m m' : Bd K}
    (f : Focus W P cs ks lo hi k c1 c c2 k1 k2 b1 m m' b2) {n : BNode K T} (hr : NodeRep o.N n cs ks) :
    rd (o.N + 1) n.kids k1.length = .ok c := by
  have h1 := hr.kids
  rw [f.hcs] at h1
  rw [← f.l1]
  apply rd_mid h1
  have := hr.cap
  rw [f.hks] at this
  have := f.l1
  simp at *; omega

/-- Entries left and right of the focus are smaller and larger than `k`. -/
theorem Focus.left_lt {h : Heap L} {d top : Nat} {cs : List (Tree K d)} {ks : List K} {lo hi : Bd K}
    {k : K} {c1 c2 : List (Tree K d)} {c : Tree K d} {k1 k2 : List K} {b1 b2 : List (Bd K)} {m m' : Bd K}
    (f : Focus W (Bt W Q lm bm h d top) cs ks lo hi k c1 c c2 k1 k2 b1 m m' b2) :
    ∀ e ∈ content W h (c1.flatMap (ids d)), bk e.1 < m := by
  intro e he
  have hs := Tile.sorted (fun c a b hc => Bt.lt hc) f.t1
  rw [List.pairwise_append] at hs
  exact (Tile.bounds (lo := ⊥) (hi := m) f.t1 (fun b hb => ⟨bot_le, by
    rcases List.mem_append.1 hb with hb | hb
    · exact (hs.2.2 b hb m (by simp)).le
    · exact (List.mem_singleton.1 hb).le⟩) e he).2

theorem Focus.right_ge {h : Heap L} {d top : Nat} {cs : List (Tree K d)} {ks : List K} {lo hi : Bd K}
    {k : K} {c1 c2 : List (Tree K d)} {c : Tree K d} {k1 k2 : List K} {b1 b2 : List (Bd K)} {m m' : Bd K}
    (f : Focus W (Bt W Q lm bm h d top) cs ks lo hi k c1 c c2 k1 k2 b1 m m' b2) :
    ∀ e ∈ content W h (c2.flatMap (ids d)), m' ≤ bk e.1 := by
  intro e he
  have hs := Tile.sorted (fun c a b hc => Bt.lt hc) f.t2
  rw [List.pairwise_cons] at hs
  exact (Tile.bounds (lo := m') (hi := ⊤) f.t2 (fun b hb => ⟨by
    rcases List.mem_cons.1 hb with hb | hb
    · exact hb.ge
    · exact (hs.1 b hb).le, le_top⟩) e he).1

/-! ## The linked list of leaves -/

/-- Consecutive leaves point to each other; the last one points nowhere. -/
def Chain (h : Heap L) (is : List Nat) : Prop :=
  is.IsChain (fun a b => h.next a = some b ∧ h.prev b = some a) ∧ ∀ x ∈ is.getLast?, h.next x = Option.none

/-- All leaves are allocated, distinct and linked. -/
structure Wf (h : Heap L) (is : List Nat) : Prop where
  nodup : is.Nodup
  fresh : ∀ i ∈ is, i < h.fresh
  alive : ∀ i ∈ is, (h.data i).isSome
  chain : Chain h is

end
end Verif.BTree
