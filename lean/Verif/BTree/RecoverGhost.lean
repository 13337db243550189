import Verif.BTree.Recover

/-!
# Trees whose first leaf occurs twice

`HPBPTree::recover` (HPBPTree.hpp:339-361) makes the first leaf child 0 of the leftmost lowest node and then
inserts it once more as child 1.  `GB` describes such trees: child 0 of the leftmost lowest node is a ghost
that no search for a key from `k0` on reaches, the rest is a search tree for the keys from `k0` on.  Inserts
of such keys keep this shape.
-/

set_option linter.unusedSectionVars false
set_option linter.unusedSimpArgs false

namespace Verif.BTree

open Assoc Slots

variable {K V L : Type} [LinearOrder K] {o : Ops K V L}

section
variable (W : Laws o) (lm : Nat) (h : Heap L) (g : Nat) (k0 : K)

/-- A tree of height `d + 1` for the keys in `[k0, hi)` with an additional first leaf `g`. -/
def GB : (d : Nat) → BNode K (Tree K d) → Bd K → Prop
  | 0, n, hi => ∃ (cs : List Nat) (ks : List K), NodeRep (α := Tree K 0) o.N n (g :: cs) (k0 :: ks) ∧
      Tile (Bt W tt lm 0 h 0 lm) cs (bnds (bk k0) ks hi)
  | d + 1, n, hi => ∃ (cs : List (BNode K (Tree K d))) (ks : List K), NodeRep (α := Tree K (d + 1)) o.N n cs ks ∧
      Tile (fun c a b => (a = bk k0 ∧ GB d c b) ∨ (bk k0 < a ∧ Bt W tt lm 0 h (d + 1) 0 c a b)) cs
        (bnds (bk k0) ks hi)

/-- The children of a node of such a tree above the lowest level. -/
abbrev GP (d : Nat) (c : BNode K (Tree K d)) (a b : Bd K) : Prop :=
  (a = bk k0 ∧ GB W lm h g k0 d c b) ∨ (bk k0 < a ∧ Bt W tt lm 0 h (d + 1) 0 c a b)
end

variable {W : Laws o} {lm : Nat} {h : Heap L} {g : Nat} {k0 : K}

theorem tile_lt {T : Type} {P : T → Bd K → Bd K → Prop} (hP : ∀ c a b, P c a b → a < b) {cs : List T}
    {ks : List K} {lo hi : Bd K} (ht : Tile P cs (bnds lo ks hi)) : lo < hi := by
  have := Tile.sorted hP ht
  unfold bnds at this
  rw [List.pairwise_cons] at this
  exact this.1 hi (by simp)

theorem bnds_mem_range {lo hi b : Bd K} {ks : List K} (hs : (bnds lo ks hi).Pairwise (· < ·))
    (hb : b ∈ bnds lo ks hi) : lo ≤ b ∧ b ≤ hi := by
  unfold bnds at hs hb
  have hs2 := hs
  rw [List.pairwise_cons] at hs
  rw [← List.cons_append, List.pairwise_append] at hs2
  rw [← List.cons_append] at hb
  constructor
  · rcases List.mem_cons.1 hb with hb | hb
    · rw [hb]
    · exact (hs.1 b hb).le
  · rcases List.mem_append.1 hb with hb | hb
    · exact (hs2.2.2 b hb hi (by simp)).le
    · exact (List.mem_singleton.1 hb).le

theorem GB.lt : ∀ {d : Nat} {n : BNode K (Tree K d)} {hi : Bd K}, GB W lm h g k0 d n hi → bk k0 < hi := by
  intro d
  induction d with
  | zero =>
    intro n hi ⟨cs, ks, hr, ht⟩
    exact tile_lt (fun c a b hc => Bt.lt hc) ht
  | succ d ih =>
    intro n hi ⟨cs, ks, hr, ht⟩
    refine tile_lt (fun c a b hc => ?_) ht
    rcases hc with ⟨rfl, hc⟩ | ⟨_, hc⟩
    · exact ih hc
    · exact Bt.lt hc

theorem GP.lt {d : Nat} {c : BNode K (Tree K d)} {a b : Bd K} (hc : GP W lm h g k0 d c a b) : a < b := by
  rcases hc with ⟨rfl, hc⟩ | ⟨_, hc⟩
  · exact GB.lt hc
  · exact Bt.lt hc

theorem tile_bounds_mono {T : Type} {P P' : T → Bd K → Bd K → Prop} : ∀ {cs : List T} {bs : List (Bd K)},
    (∀ c ∈ cs, ∀ a ∈ bs, ∀ b, P c a b → P' c a b) → Tile P cs bs → Tile P' cs bs
  | [], [_], _, _ => trivial
  | c :: cs, b :: b' :: bs, hpq, ht =>
    ⟨hpq c (by simp) b (by simp) _ ht.1,
      tile_bounds_mono (fun x hx a ha => hpq x (List.mem_cons_of_mem _ hx) a (List.mem_cons_of_mem _ ha)) ht.2⟩
  | [], [], _, ht => ht.elim
  | [], _ :: _ :: _, _, ht => ht.elim
  | _ :: _, [], _, ht => ht.elim
  | _ :: _, [_], _, ht => ht.elim

/-- Right of a bound above `k0` there is no ghost. -/
theorem gp_tile_bt {d : Nat} {cs : List (BNode K (Tree K d))} {bs : List (Bd K)} (hb : ∀ b ∈ bs, bk k0 < b)
    (ht : Tile (GP W lm h g k0 d) cs bs) :
    Tile (fun c a b => Bt W tt lm 0 h (d + 1) 0 c a b) cs bs :=
  tile_bounds_mono (fun c _ a ha b hc => by
    rcases hc with ⟨rfl, _⟩ | ⟨_, hc⟩
    · exact absurd (hb _ ha) (lt_irrefl _)
    · exact hc) ht

theorem bt_tile_gp {d : Nat} {cs : List (BNode K (Tree K d))} {bs : List (Bd K)} (hb : ∀ b ∈ bs, bk k0 < b)
    (ht : Tile (fun c a b => Bt W tt lm 0 h (d + 1) 0 c a b) cs bs) :
    Tile (GP W lm h g k0 d) cs bs :=
  tile_bounds_mono (fun c _ a ha b hc => Or.inr ⟨hb a ha, hc⟩) ht

/-- The node of a ghost tree above the lowest level: the first child has the ghost, the others are search
trees. -/
theorem GB.succ_iff {d : Nat} {n : BNode K (Tree K (d + 1))} {hi : Bd K} :
    GB W lm h g k0 (d + 1) n hi ↔ ∃ (c : BNode K (Tree K d)) (cs : List (BNode K (Tree K d))) (ks : List K)
      (b : Bd K) (bs : List (Bd K)), NodeRep (α := Tree K (d + 1)) o.N n (c :: cs) ks ∧ ks.map bk ++ [hi] = b :: bs ∧
        GB W lm h g k0 d c b ∧ Tile (fun c a b => Bt W tt lm 0 h (d + 1) 0 c a b) cs (b :: bs) := by
  constructor
  · rintro ⟨cs, ks, hr, ht⟩
    obtain ⟨b, bs, hbs⟩ : ∃ b bs, ks.map bk ++ [hi] = b :: bs := by
      cases ks with
      | nil => exact ⟨hi, [], rfl⟩
      | cons a l => exact ⟨bk a, l.map bk ++ [hi], rfl⟩
    cases cs with
    | nil => have := hr.len; simp at this
    | cons c cs =>
      have hs := Tile.sorted (fun c a b hc => GP.lt hc) ht
      unfold bnds at ht hs
      rw [hbs] at ht hs
      refine ⟨c, cs, ks, b, bs, hr, hbs, ?_, ?_⟩
      · rcases ht.1 with ⟨_, hc⟩ | ⟨hlt, _⟩
        · exact hc
        · exact absurd hlt (lt_irrefl _)
      · rw [List.pairwise_cons] at hs
        exact gp_tile_bt hs.1 ht.2
  · rintro ⟨c, cs, ks, b, bs, hr, hbs, hc, ht⟩
    refine ⟨c :: cs, ks, hr, ?_⟩
    unfold bnds
    rw [hbs]
    refine ⟨Or.inl ⟨rfl, hc⟩, bt_tile_gp (fun x hx => ?_) ht⟩
    have hs := Tile.sorted (fun c a b hc => Bt.lt hc) ht
    rw [List.pairwise_cons] at hs
    rcases List.mem_cons.1 hx with hx | hx
    · rw [hx]; exact hc.lt
    · exact lt_trans hc.lt (hs.1 x hx)

/-- The leaves of a ghost tree: the ghost and at least one more. -/
theorem GB.ids_eq : ∀ {d : Nat} {n : BNode K (Tree K d)} {hi : Bd K}, GB W lm h g k0 d n hi →
    ∃ x is, ids (d + 1) n = g :: x :: is := by
  intro d
  induction d with
  | zero =>
    intro n hi ⟨cs, ks, hr, ht⟩
    have := hr.len
    cases cs with
    | nil => simp at this
    | cons c cs => exact ⟨c, _, by rw [ids_rep hr]; rfl⟩
  | succ d ih =>
    intro n hi hb
    obtain ⟨c, cs, ks, b, bs, hr, _, hc, _⟩ := GB.succ_iff.1 hb
    obtain ⟨x, is, e⟩ := ih hc
    exact ⟨x, is ++ cs.flatMap (ids (d + 1)), by rw [ids_rep hr, List.flatMap_cons, e]; rfl⟩

/-- Changes to other leaves do not matter. -/
theorem GB.frame {h' : Heap L} : ∀ {d : Nat} {n : BNode K (Tree K d)} {hi : Bd K} {is : List Nat},
    ids (d + 1) n = g :: is → (∀ i ∈ is, h'.data i = h.data i) → GB W lm h g k0 d n hi →
    GB W lm h' g k0 d n hi := by
  intro d
  induction d with
  | zero =>
    intro n hi is hids e ⟨cs, ks, hr, ht⟩
    rw [ids_rep hr, List.flatMap_cons] at hids
    have : cs.flatMap (ids (K := K) 0) = is := (List.cons.inj hids).2
    refine ⟨cs, ks, hr, Tile.frame (fun _ _ _ x => x) ?_ ht⟩
    intro i hi; exact e i (this ▸ hi)
  | succ d ih =>
    intro n hi is hids e hb
    obtain ⟨c, cs, ks, b, bs, hr, hbs, hc, ht⟩ := GB.succ_iff.1 hb
    obtain ⟨x, js, ej⟩ := hc.ids_eq
    rw [ids_rep hr, List.flatMap_cons, ej, List.cons_append] at hids
    have hin : x :: js ++ cs.flatMap (ids (d + 1)) = is := (List.cons.inj hids).2
    refine GB.succ_iff.2 ⟨c, cs, ks, b, bs, hr, hbs, ih ej (fun i hi => e i ?_) hc, ?_⟩
    · rw [← hin]; exact List.mem_append_left _ hi
    · refine ht.mono (fun y hy a b hb => hb.frame (fun _ _ _ x => x) (fun i hi => e i ?_))
      rw [← hin]; exact List.mem_append_right _ (List.mem_flatMap.2 ⟨y, hy, hi⟩)

/-- All keys behind the ghost lie in the range. -/
theorem GB.bounds : ∀ {d : Nat} {n : BNode K (Tree K d)} {hi : Bd K} {is : List Nat},
    GB W lm h g k0 d n hi → ids (d + 1) n = g :: is → ∀ e ∈ content W h is, InR (bk k0) hi e.1 := by
  intro d
  induction d with
  | zero =>
    intro n hi is ⟨cs, ks, hr, ht⟩ hids e he
    rw [ids_rep hr, List.flatMap_cons] at hids
    have : cs.flatMap (ids (K := K) 0) = is := (List.cons.inj hids).2
    rw [← this] at he
    refine Tile.bounds ht (fun b hb => ?_) e he
    have hs := Tile.sorted (fun c a b hc => Bt.lt hc) ht
    exact bnds_mem_range hs hb
  | succ d ih =>
    intro n hi is hb hids e he
    obtain ⟨c, cs, ks, b, bs, hr, hbs, hc, ht⟩ := GB.succ_iff.1 hb
    obtain ⟨x, js, ej⟩ := hc.ids_eq
    rw [ids_rep hr, List.flatMap_cons, ej, List.cons_append] at hids
    have hin : x :: js ++ cs.flatMap (ids (d + 1)) = is := (List.cons.inj hids).2
    have hs := Tile.sorted (fun c a b hc => Bt.lt hc) ht
    have hlast : ∀ y ∈ b :: bs, y ≤ hi := by
      intro y hy
      have hs2 := hs
      rw [← hbs, List.pairwise_append] at hs2
      rw [← hbs] at hy
      rcases List.mem_append.1 hy with hy | hy
      · exact (hs2.2.2 y hy hi (by simp)).le
      · exact (List.mem_singleton.1 hy).le
    have hlow : ∀ y ∈ b :: bs, bk k0 < y := by
      intro y hy
      rw [List.pairwise_cons] at hs
      rcases List.mem_cons.1 hy with hy | hy
      · rw [hy]; exact hc.lt
      · exact lt_trans hc.lt (hs.1 y hy)
    rw [← hin, content_append, List.mem_append] at he
    rcases he with he | he
    · have := ih hc ej e he
      exact ⟨this.1, lt_of_lt_of_le this.2 (hlast b (by simp))⟩
    · exact Tile.bounds (lo := bk k0) (hi := hi) ht (fun y hy => ⟨(hlow y hy).le, hlast y hy⟩) e he

/-! ## Inserts -/

/-- What an insert into a ghost tree leaves behind: `cont` are the new contents, `hd` is the first leaf. -/
def GPost (W : Laws o) (lm g : Nat) (k0 : K) (post : List Nat) (d : Nat) (hi : Bd K) (cont : List (K × V))
    (hd : Option Nat) (r : InsOut K L (BNode K (Tree K d))) : Prop :=
  match r.split with
  | Option.none => GB W lm r.heap g k0 d r.tree hi ∧ ∃ is, ids (d + 1) r.tree = g :: is ∧ Wf r.heap (is ++ post) ∧
      content W r.heap is = cont ∧ is.head? = hd
  | some sr => GB W lm r.heap g k0 d r.tree (bk sr.1) ∧ Bt W tt lm 0 r.heap (d + 1) 0 sr.2 (bk sr.1) hi ∧
      ∃ is, ids (d + 1) r.tree = g :: is ∧ Wf r.heap (is ++ ids (d + 1) sr.2 ++ post) ∧
        content W r.heap (is ++ ids (d + 1) sr.2) = cont ∧ is.head? = hd

/-- A new child in the lowest node. -/
theorem ghost_entry_zero (hN : 3 ≤ o.N) {n : BNode K (Tree K 0)} {c1 c2 : List Nat} {t t2 : Nat}
    {k1 k2 : List K} {k s : K} {hi : Bd K} {post is : List Nat} {cont : List (K × V)} {hd : Option Nat}
    (hr : NodeRep (α := Tree K 0) o.N n (g :: (c1 ++ t :: c2)) (k0 :: (k1 ++ k2))) (hl1 : c1.length = k1.length)
    (hl2 : c2.length = k2.length) (hk0 : k0 ≤ k) (hk1 : ∀ x ∈ k1, x ≤ k) (hk2 : ∀ x ∈ k2, k < x)
    (ht : Tile (Bt W tt lm 0 h 0 lm) (c1 ++ t :: t2 :: c2) (bnds (bk k0) (k1 ++ s :: k2) hi))
    (hids : (c1 ++ t :: t2 :: c2).flatMap (ids (K := K) 0) = is)
    (hw : Wf h (is ++ post)) (hc : content W h is = cont) (hhd : is.head? = hd) :
    ∃ out, insertEntry o h n (k1.length + 1) k s t t2 = .ok out ∧ out.heap = h ∧
      GPost W lm g k0 post 0 hi cont hd out := by
  obtain ⟨hks, hlo, _⟩ := keys_sorted (fun c a b hc => Bt.lt hc) ht
  have hr' : NodeRep (α := Tree K 0) o.N n ((g :: c1) ++ t :: c2) ((k0 :: k1) ++ k2) := hr
  have hs' : ((k0 :: k1) ++ s :: k2).Pairwise (· < ·) := by
    rw [List.cons_append, List.pairwise_cons]
    exact ⟨fun x hx => bk_lt.1 (hlo x hx), hks⟩
  obtain ⟨out, eo, hoh, hout⟩ := insertEntry_spec W (by omega) h k s t t2 hr' (by simp [hl1]) hl2 hs'
    (fun x hx => by
      rcases List.mem_cons.1 hx with hx | hx
      · rw [hx]; exact hk0
      · exact hk1 x hx) hk2
  refine ⟨out, eo, hoh, ?_⟩
  unfold GPost
  rcases hout with ⟨hnone, hrep⟩ | ⟨key, right, cl, cr, kl, kr, hsome, hrl, hrr, hcc, hkk, hlen, hm1, hm2⟩
  · rw [hnone, hoh]
    refine ⟨⟨_, _, hrep, ht⟩, is, ?_, hw, hc, hhd⟩
    rw [ids_rep hrep, List.cons_append, List.flatMap_cons, hids]; rfl
  · rw [hsome, hoh]
    cases kl with
    | nil => simp at hm1; omega
    | cons kx kl =>
      cases cl with
      | nil => simp at hlen
      | cons cx cl =>
        simp only [List.cons_append, List.cons.injEq] at hcc hkk
        obtain ⟨rfl, hcc⟩ := hcc
        obtain ⟨rfl, hkk⟩ := hkk
        rw [← hcc, ← hkk, tile_split_key (by simpa using hlen)] at ht
        rw [← hcc, List.flatMap_append] at hids
        have hl : cl ≠ [] := by rintro rfl; simp at hlen
        refine ⟨⟨_, _, hrl, ht.1⟩, ⟨_, _, hrr, Nat.zero_le _, ht.2⟩, cl.flatMap (ids (K := K) 0), ?_, ?_, ?_, ?_⟩
        · rw [ids_rep hrl]; rfl
        · rw [ids_rep hrr, hids]; exact hw
        · rw [ids_rep hrr, hids]; exact hc
        · rw [← hhd, ← hids]
          cases cl with
          | nil => exact absurd rfl hl
          | cons y cl => rfl

/-- A new child in a higher node. -/
theorem ghost_entry_succ (hN : 2 ≤ o.N) {d : Nat} {n : BNode K (Tree K (d + 1))} {c1 c2 : List (BNode K (Tree K d))}
    {c t t2 : BNode K (Tree K d)} {k1 k2 : List K} {k s : K} {hi : Bd K} {post is : List Nat}
    {cont : List (K × V)} {hd : Option Nat}
    (hr : NodeRep (α := Tree K (d + 1)) o.N n (c1 ++ c :: c2) (k1 ++ k2)) (hl1 : c1.length = k1.length)
    (hl2 : c2.length = k2.length) (hk1 : ∀ x ∈ k1, x ≤ k) (hk2 : ∀ x ∈ k2, k < x)
    (ht : Tile (GP W lm h g k0 d) (c1 ++ t :: t2 :: c2) (bnds (bk k0) (k1 ++ s :: k2) hi))
    (hids : (c1 ++ t :: t2 :: c2).flatMap (ids (d + 1)) = g :: is)
    (hw : Wf h (is ++ post)) (hc : content W h is = cont) (hhd : is.head? = hd) :
    ∃ out, insertEntry (α := Tree K (d + 1)) o h n k1.length k s t t2 = .ok out ∧ out.heap = h ∧
      GPost W lm g k0 post (d + 1) hi cont hd out := by
  obtain ⟨hks, hlo, _⟩ := keys_sorted (fun c a b hc => GP.lt hc) ht
  obtain ⟨out, eo, hoh, hout⟩ := insertEntry_spec W hN h k s (T := Tree K (d + 1)) t t2 hr hl1 hl2 hks hk1 hk2
  refine ⟨out, eo, hoh, ?_⟩
  unfold GPost
  rcases hout with ⟨hnone, hrep⟩ | ⟨key, right, cl, cr, kl, kr, hsome, hrl, hrr, hcc, hkk, hlen, hm1, hm2⟩
  · rw [hnone, hoh]
    refine ⟨⟨_, _, hrep, ht⟩, is, ?_, hw, hc, hhd⟩
    rw [ids_rep hrep]; exact hids
  · rw [hsome, hoh]
    rw [← hcc, ← hkk, tile_split_key hlen] at ht
    have hgb : GB W lm h g k0 (d + 1) out.tree (bk key) := ⟨_, _, hrl, ht.1⟩
    obtain ⟨x, js, ej⟩ := hgb.ids_eq
    rw [← hcc, List.flatMap_append, ← ids_rep hrl, ej] at hids
    have hin : x :: js ++ cr.flatMap (ids (d + 1)) = is := (List.cons.inj hids).2
    refine ⟨hgb, ⟨_, _, hrr, Nat.zero_le _, gp_tile_bt (fun b hb => ?_) ht.2⟩, x :: js, ej, ?_, ?_, ?_⟩
    · exact lt_of_lt_of_le hgb.lt
        (bnds_mem_range (Tile.sorted (fun c a b hc => GP.lt hc) ht.2) hb).1
    · rw [ids_rep hrr, hin]; exact hw
    · rw [ids_rep hrr, hin]; exact hc
    · rw [← hhd, ← hin]; rfl

/-- Changes to other leaves, for the children from the first one on. -/
theorem gp_tile_frame {h' : Heap L} {d : Nat} {cs : List (BNode K (Tree K d))} {bs : List (Bd K)} {is : List Nat}
    (hids : cs.flatMap (ids (d + 1)) = g :: is) (e : ∀ i ∈ is, h'.data i = h.data i)
    (ht : Tile (GP W lm h g k0 d) cs (bk k0 :: bs)) : Tile (GP W lm h' g k0 d) cs (bk k0 :: bs) := by
  cases cs with
  | nil => simp at hids
  | cons c cs =>
    cases bs with
    | nil => exact ht.elim
    | cons b bs =>
      have hs := Tile.sorted (fun c a b hc => GP.lt hc) ht
      rw [List.pairwise_cons] at hs
      have hc : GB W lm h g k0 d c b := by
        rcases ht.1 with ⟨_, hc⟩ | ⟨hlt, _⟩
        · exact hc
        · exact absurd hlt (lt_irrefl _)
      obtain ⟨x, js, ej⟩ := hc.ids_eq
      rw [List.flatMap_cons, ej, List.cons_append] at hids
      have hin : x :: js ++ cs.flatMap (ids (d + 1)) = is := (List.cons.inj hids).2
      refine ⟨Or.inl ⟨rfl, hc.frame ej (fun i hi => e i (by rw [← hin]; exact List.mem_append_left _ hi))⟩, ?_⟩
      refine bt_tile_gp hs.1 ((gp_tile_bt hs.1 ht.2).mono (fun y hy a b hb => hb.frame (fun _ _ _ x => x)
        (fun i hi => e i ?_)))
      rw [← hin]; exact List.mem_append_right _ (List.mem_flatMap.2 ⟨y, hy, hi⟩)

/-- All keys behind the ghost lie in the range, for the children from the first one on. -/
theorem gp_tile_bounds {d : Nat} {cs : List (BNode K (Tree K d))} {bs : List (Bd K)} {is : List Nat} {hi : Bd K}
    (hids : cs.flatMap (ids (d + 1)) = g :: is) (ht : Tile (GP W lm h g k0 d) cs (bk k0 :: bs))
    (hb : ∀ b ∈ bs, b ≤ hi) : ∀ e ∈ content W h is, InR (bk k0) hi e.1 := by
  cases cs with
  | nil => simp at hids
  | cons c cs =>
    cases bs with
    | nil => exact ht.elim
    | cons b bs =>
      have hs := Tile.sorted (fun c a b hc => GP.lt hc) ht
      rw [List.pairwise_cons] at hs
      have hc : GB W lm h g k0 d c b := by
        rcases ht.1 with ⟨_, hc⟩ | ⟨hlt, _⟩
        · exact hc
        · exact absurd hlt (lt_irrefl _)
      obtain ⟨x, js, ej⟩ := hc.ids_eq
      rw [List.flatMap_cons, ej, List.cons_append] at hids
      have hin : x :: js ++ cs.flatMap (ids (d + 1)) = is := (List.cons.inj hids).2
      intro e he
      rw [← hin, content_append, List.mem_append] at he
      rcases he with he | he
      · have := hc.bounds ej e he
        exact ⟨this.1, lt_of_lt_of_le this.2 (hb b (by simp))⟩
      · exact Tile.bounds (lo := bk k0) (hi := hi) (gp_tile_bt hs.1 ht.2)
          (fun y hy => ⟨(hs.1 y hy).le, hb y hy⟩) e he

/-- An insert of a key from `k0` on into a ghost tree. -/
theorem insertG_spec (hlm : lm ≤ W.lmin) (hN : 3 ≤ o.N) (k : K) (v : V) (ha : W.adm k) (hk0 : k0 ≤ k) :
    ∀ (d : Nat) (h : Heap L) (n : BNode K (Tree K d)) (hi : Bd K) (is post : List Nat),
    GB W lm h g k0 d n hi → bk k < hi → ids (d + 1) n = g :: is → Wf h (is ++ post) →
    ∃ r, insertT o (d + 1) h n k v = .ok r ∧ Frame h r.heap is ∧ h.fresh ≤ r.heap.fresh ∧
      GPost W lm g k0 post d hi (upsert k v (content W h is)) is.head? r := by
  intro d
  induction d with
  | zero =>
    intro h n hi is post hb hk hids w
    obtain ⟨cs, ks, hr, ht⟩ := hb
    obtain ⟨hks, hlo, _⟩ := keys_sorted (fun c a b hc => Bt.lt hc) ht
    obtain ⟨c1, c, c2, k1, k2, b1, m, m', b2, f⟩ := exists_focus W (fun c a b hc => Bt.lt hc) ht
      (⟨bk_le.2 hk0, hk⟩ : InR (bk k0) hi k)
    have hr' := hr
    rw [f.hcs, f.hks] at hr'
    have hpos : lookupPos o n k = .ok (k1.length + 1) := by
      unfold lookupPos
      rw [hr.num, f.hks]
      exact W.search n.keys (k0 :: k1) k2 k hr'.keys hr'.cap (by
        rw [List.cons_append, List.pairwise_cons, ← f.hks]
        exact ⟨fun x hx => bk_lt.1 (hlo x hx), hks⟩) (fun x hx => by
        rcases List.mem_cons.1 hx with hx | hx
        · rw [hx]; exact hk0
        · exact f.le x hx) f.gt
    have hkid : rd (o.N + 1) n.kids (k1.length + 1) = .ok c := by
      have h1 : Rep n.kids ((g :: c1) ++ c :: c2) := hr'.kids
      have := rd_mid (cap := o.N + 1) h1 (by
        have h2 := hr'.cap
        have h3 := f.l1
        simp at *; omega)
      rw [← f.l1]; exact this
    rw [insertT, hpos, Res.ok_bind, hkid, Res.ok_bind]
    have his : is = c1.flatMap (ids (K := K) 0) ++ ids (K := K) 0 c ++ c2.flatMap (ids (K := K) 0) := by
      rw [ids_rep hr, List.flatMap_cons] at hids
      have : cs.flatMap (ids (K := K) 0) = is := (List.cons.inj hids).2
      rw [← this, f.hcs]; simp
    subst his
    have hnd := mem_disjoint (pre := []) (by simpa using w.nodup)
    obtain ⟨r, er, hframe, hfresh, hhead, hpost⟩ := insertT_spec (bm := 0) hlm (Nat.zero_le _) (by omega) k v ha 0
      lm h c m m' (c1.flatMap (ids (K := K) 0)) (c2.flatMap (ids (K := K) 0) ++ post) f.pc f.inR (by simpa using w)
    rw [er, Res.ok_bind]
    have hfr1 : ∀ i ∈ c1.flatMap (ids (K := K) 0), r.heap.data i = h.data i := fun i hi =>
      hframe i (hnd.1 i hi) (w.fresh i (by simp only [List.mem_append]; tauto))
    have hfr2 : ∀ i ∈ c2.flatMap (ids (K := K) 0), r.heap.data i = h.data i := fun i hi =>
      hframe i (hnd.2.1 i hi) (w.fresh i (by simp only [List.mem_append]; tauto))
    have ht1 := Tile.frame (Q' := tt) (h' := r.heap) (fun _ _ _ x => x) hfr1 f.t1
    have ht2 := Tile.frame (Q' := tt) (h' := r.heap) (fun _ _ _ x => x) hfr2 f.t2
    have hcont : upsert k v (content W h (c1.flatMap (ids (K := K) 0) ++ ids (K := K) 0 c ++
        c2.flatMap (ids (K := K) 0))) = content W h (c1.flatMap (ids (K := K) 0)) ++
          upsert k v (content W h (ids (K := K) 0 c)) ++ content W h (c2.flatMap (ids (K := K) 0)) := by
      rw [content_append, content_append, upsert_append_left, upsert_append_right]
      · intro e he
        exact bk_lt.1 (lt_of_lt_of_le (f.left_lt e he) f.inR.1)
      · intro e he
        exact bk_lt.1 (lt_of_lt_of_le f.inR.2 (f.right_ge e he))
    have hFr : Frame h r.heap (c1.flatMap (ids (K := K) 0) ++ ids (K := K) 0 c ++ c2.flatMap (ids (K := K) 0)) :=
      fun i hi hif => hframe i (fun hc => hi (by simp only [List.mem_append]; tauto)) hif
    have hr2 : NodeRep (α := Tree K 0) o.N n ((g :: c1) ++ c :: c2) ((k0 :: k1) ++ k2) := hr'
    obtain ⟨kids, ek, hrk⟩ := hr2.setKid r.tree
    have ek' : wr (o.N + 1) n.kids (k1.length + 1) r.tree = .ok kids := by rw [← f.l1]; exact ek
    rw [ek', Res.ok_bind]
    dsimp only
    unfold InsPost at hpost
    cases hsp : r.split with
    | none =>
      rw [hsp] at hpost
      obtain ⟨hbt, hwf, hct⟩ := hpost
      have hidn : ids 1 ({ n with kids := kids } : BNode K (Tree K 0)) =
          g :: (c1.flatMap (ids (K := K) 0) ++ ids (K := K) 0 r.tree ++ c2.flatMap (ids (K := K) 0)) := by
        rw [ids_rep hrk]; simp [ids]
      refine ⟨_, rfl, hFr, hfresh, ?_⟩
      unfold GPost
      refine ⟨⟨_, _, hrk, ?_⟩, _, hidn, ?_, ?_, ?_⟩
      · have := tile_unfocus (xs := [r.tree]) (ys := []) f.hb1 f.hb2 f.lb rfl ht1 ⟨hbt, trivial⟩ ht2
        simpa using this
      · simpa using hwf
      · dsimp only
        rw [content_append, content_append, hct, content_congr W hfr1, content_congr W hfr2, hcont]
      · rw [List.head?_append, List.head?_append, hhead, List.head?_append, List.head?_append]
    | some sr =>
      rw [hsp] at hpost
      obtain ⟨hbl, hbr, hwf, hct⟩ := hpost
      dsimp only
      have htile : Tile (Bt W tt lm 0 r.heap 0 lm) (c1 ++ r.tree :: sr.2 :: c2)
          (bnds (bk k0) (k1 ++ sr.1 :: k2) hi) := by
        have := tile_unfocus (xs := [r.tree, sr.2]) (ys := [sr.1]) f.hb1 f.hb2 f.lb rfl ht1
          ⟨hbl, hbr, trivial⟩ ht2
        simpa using this
      obtain ⟨out, eo, hoh, hout⟩ := ghost_entry_zero (h := r.heap) (g := g) (t2 := sr.2) (s := sr.1)
        (post := post) (hd := (c1.flatMap (ids (K := K) 0) ++ ids (K := K) 0 c ++ c2.flatMap (ids (K := K) 0)).head?)
        (cont := upsert k v (content W h (c1.flatMap (ids (K := K) 0) ++ ids (K := K) 0 c ++
          c2.flatMap (ids (K := K) 0)))) hN hrk f.l1 f.l2 hk0 f.le f.gt htile rfl (by simpa using hwf) (by
          have : (c1 ++ r.tree :: sr.2 :: c2).flatMap (ids (K := K) 0) = c1.flatMap (ids (K := K) 0) ++
              (ids (K := K) 0 r.tree ++ ids (K := K) 0 sr.2) ++ c2.flatMap (ids (K := K) 0) := by simp
          rw [this, content_append, content_append, hct, content_congr W hfr1, content_congr W hfr2, hcont]) (by
          have : (c1 ++ r.tree :: sr.2 :: c2).flatMap (ids (K := K) 0) = c1.flatMap (ids (K := K) 0) ++
              (ids (K := K) 0 r.tree ++ ids (K := K) 0 sr.2) ++ c2.flatMap (ids (K := K) 0) := by simp
          rw [this]
          simp only [List.head?_append, hhead]
          cases (c1.flatMap (ids (K := K) 0)).head? <;> simp [ids])
      rw [eo]
      exact ⟨out, rfl, by rw [hoh]; exact hFr, by rw [hoh]; exact hfresh, hout⟩
  | succ d ih =>
    intro h n hi is post hb hk hids w
    obtain ⟨cs, ks, hr, ht⟩ := hb
    obtain ⟨hks, hlo, _⟩ := keys_sorted (fun c a b hc => GP.lt hc) ht
    obtain ⟨c1, c, c2, k1, k2, b1, m, m', b2, f⟩ := exists_focus W (fun c a b hc => GP.lt hc) ht
      (⟨bk_le.2 hk0, hk⟩ : InR (bk k0) hi k)
    have hr' := hr
    rw [f.hcs, f.hks] at hr'
    rw [insertT, f.lookupPos hr hks, Res.ok_bind, f.rdKid hr, Res.ok_bind]
    have hidn0 : c1.flatMap (ids (d + 1)) ++ ids (d + 1) c ++ c2.flatMap (ids (d + 1)) = g :: is := by
      rw [← hids, ids_rep hr, f.hcs]; simp
    have hb2' : ∀ b ∈ m' :: b2, bk k0 < b := by
      have hs := Tile.sorted (fun c a b hc => GP.lt hc) f.t2
      rw [List.pairwise_cons] at hs
      have h0 : bk k0 < m' := lt_of_le_of_lt (bk_le.2 hk0) f.inR.2
      intro b hb
      rcases List.mem_cons.1 hb with hb | hb
      · rw [hb]; exact h0
      · exact lt_trans h0 (hs.1 b hb)
    have ht2b := gp_tile_bt hb2' f.t2
    have hge : ∀ e ∈ content W h (c2.flatMap (ids (d + 1))), m' ≤ bk e.1 := by
      intro e he
      have hs := Tile.sorted (fun c a b hc => Bt.lt hc) ht2b
      rw [List.pairwise_cons] at hs
      exact (Tile.bounds (lo := m') (hi := ⊤) ht2b (fun b hb => ⟨by
        rcases List.mem_cons.1 hb with hb | hb
        · exact hb.ge
        · exact (hs.1 b hb).le, le_top⟩) e he).1
    rcases f.pc with ⟨hm, hc⟩ | ⟨hm, hc⟩
    · -- the first child
      have hb1 : b1 = [] := by
        cases b1 with
        | nil => rfl
        | cons x b1 =>
          exfalso
          have hs := Tile.sorted (fun c a b hc => GP.lt hc) f.t1
          rw [List.cons_append, List.pairwise_cons] at hs
          have h1 := hs.1 m (by simp)
          have h2 := (List.cons.inj f.hb1).1
          rw [← h2, hm] at h1
          exact absurd h1 (lt_irrefl _)
      have hc1 : c1 = [] := by
        have := f.lb; rw [hb1] at this; simpa using this.symm
      subst hc1
      obtain ⟨x, js, ej⟩ := hc.ids_eq
      rw [List.flatMap_nil, List.nil_append, ej, List.cons_append] at hidn0
      have his : x :: js ++ c2.flatMap (ids (d + 1)) = is := (List.cons.inj hidn0).2
      subst his
      have hdis : ∀ i ∈ c2.flatMap (ids (d + 1)), i ∉ x :: js := by
        have := w.nodup
        rw [List.nodup_append, List.nodup_append] at this
        intro i h1 h2
        exact this.1.2.2 i h2 i h1 rfl
      obtain ⟨r, er, hframe, hfresh, hpost⟩ := ih h c m' (x :: js) (c2.flatMap (ids (d + 1)) ++ post) hc f.inR.2 ej
        (by simpa using w)
      rw [er, Res.ok_bind]
      have hfr2 : ∀ i ∈ c2.flatMap (ids (d + 1)), r.heap.data i = h.data i := fun i hi =>
        hframe i (hdis i hi) (w.fresh i (by simp only [List.mem_append]; tauto))
      have ht2 : Tile (GP W lm r.heap g k0 d) c2 (m' :: b2) := bt_tile_gp hb2' (ht2b.mono (fun y hy a b hb =>
        hb.frame (fun _ _ _ x => x) (fun i hi => hfr2 i (List.mem_flatMap.2 ⟨y, hy, hi⟩))))
      have ht1 : Tile (GP W lm r.heap g k0 d) [] (b1 ++ [m]) := by rw [hb1]; trivial
      have hcont : upsert k v (content W h (x :: js ++ c2.flatMap (ids (d + 1)))) =
          upsert k v (content W h (x :: js)) ++ content W h (c2.flatMap (ids (d + 1))) := by
        rw [content_append, upsert_append_left]
        intro e he
        exact bk_lt.1 (lt_of_lt_of_le f.inR.2 (hge e he))
      have hFr : Frame h r.heap (x :: js ++ c2.flatMap (ids (d + 1))) :=
        fun i hi hif => hframe i (fun hc => hi (List.mem_append_left _ hc)) hif
      obtain ⟨kids, ek, hrk⟩ := hr'.setKid r.tree
      rw [← f.l1, ek, Res.ok_bind, f.l1]
      dsimp only
      unfold GPost at hpost
      cases hsp : r.split with
      | none =>
        rw [hsp] at hpost
        obtain ⟨hbt, is', hids', hwf, hct, hhd⟩ := hpost
        refine ⟨_, rfl, hFr, hfresh, ?_⟩
        unfold GPost
        refine ⟨⟨_, _, hrk, ?_⟩, is' ++ c2.flatMap (ids (d + 1)), ?_, ?_, ?_, ?_⟩
        · have := tile_unfocus (xs := [r.tree]) (ys := []) f.hb1 f.hb2 f.lb rfl ht1 ⟨Or.inl ⟨hm, hbt⟩, trivial⟩ ht2
          simpa using this
        · rw [ids_rep hrk, List.nil_append, List.flatMap_cons, hids']; rfl
        · simpa using hwf
        · dsimp only
          rw [content_append, hct, content_congr W hfr2, hcont]
        · rw [List.head?_append, hhd]; rfl
      | some sr =>
        rw [hsp] at hpost
        obtain ⟨hbl, hbr, is', hids', hwf, hct, hhd⟩ := hpost
        dsimp only
        have htile : Tile (GP W lm r.heap g k0 d) ([] ++ r.tree :: sr.2 :: c2)
            (bnds (bk k0) (k1 ++ sr.1 :: k2) hi) := by
          have := tile_unfocus (xs := [r.tree, sr.2]) (ys := [sr.1]) f.hb1 f.hb2 f.lb rfl ht1
            ⟨Or.inl ⟨hm, hbl⟩, Or.inr ⟨hbl.lt, hbr⟩, trivial⟩ ht2
          simpa using this
        obtain ⟨out, eo, hoh, hout⟩ := ghost_entry_succ (h := r.heap) (g := g) (t2 := sr.2) (s := sr.1) (k := k)
          (post := post) (is := is' ++ ids (d + 1) sr.2 ++ c2.flatMap (ids (d + 1)))
          (hd := (x :: js ++ c2.flatMap (ids (d + 1))).head?)
          (cont := upsert k v (content W h (x :: js ++ c2.flatMap (ids (d + 1))))) (by omega) hrk f.l1 f.l2 f.le f.gt
          htile (by rw [List.nil_append, List.flatMap_cons, hids', List.flatMap_cons]; simp) (by simpa using hwf) (by
            rw [content_append, hct, content_congr W hfr2, hcont]) (by
            rw [List.head?_append, List.head?_append, hhd]; rfl)
        rw [eo]
        exact ⟨out, rfl, by rw [hoh]; exact hFr, by rw [hoh]; exact hfresh, hout⟩
    · -- a later child
      obtain ⟨c0, c1', hc1⟩ : ∃ c0 c1', c1 = c0 :: c1' := by
        cases c1 with
        | nil =>
          exfalso
          have hb1 : b1 = [] := by simpa using f.lb
          have h1 := f.hb1
          rw [hb1] at h1
          have := (List.cons.inj h1).1
          rw [this] at hm
          exact absurd hm (lt_irrefl _)
        | cons a b => exact ⟨a, b, rfl⟩
      obtain ⟨b0, b1', hb1⟩ : ∃ b0 b1', b1 = b0 :: b1' := by
        cases b1 with
        | nil => have := f.lb; rw [hc1] at this; simp at this
        | cons a b => exact ⟨a, b, rfl⟩
      have hb0 : bk k0 = b0 := by
        have h1 := f.hb1
        rw [hb1] at h1
        exact (List.cons.inj h1).1
      have ht1' := f.t1
      rw [hc1, hb1, List.cons_append, ← hb0] at ht1'
      obtain ⟨x, js, ej⟩ : ∃ x js, c1.flatMap (ids (d + 1)) = g :: x :: js := by
        rw [hc1, List.flatMap_cons]
        have hg : ∃ b, GB W lm h g k0 d c0 b := by
          cases hbb : b1' ++ [m] with
          | nil => simp at hbb
          | cons y ys =>
            rw [hbb] at ht1'
            rcases ht1'.1 with ⟨_, h1⟩ | ⟨h1, _⟩
            · exact ⟨_, h1⟩
            · exact absurd h1 (lt_irrefl _)
        obtain ⟨b, hg⟩ := hg
        obtain ⟨x, js, ej⟩ := hg.ids_eq
        exact ⟨x, js ++ c1'.flatMap (ids (d + 1)), by rw [ej]; rfl⟩
      rw [ej] at hidn0
      have his : x :: js ++ ids (d + 1) c ++ c2.flatMap (ids (d + 1)) = is := (List.cons.inj hidn0).2
      subst his
      have hnd := mem_disjoint (pre := []) (A := x :: js) (B := ids (d + 1) c) (C := c2.flatMap (ids (d + 1)))
        (post := post) (by rw [List.nil_append]; exact w.nodup)
      have hsm := Tile.sorted (fun c a b hc => GP.lt hc) f.t1
      have hlt : ∀ e ∈ content W h (x :: js), bk e.1 < m := by
        intro e he
        rw [hb1, List.cons_append] at hsm
        rw [List.pairwise_cons] at hsm
        refine (gp_tile_bounds (hi := m) ej (by rw [hc1]; exact ht1') (fun b hb => ?_) e he).2
        have h1 := hsm.2
        rw [List.pairwise_append] at h1
        rcases List.mem_append.1 hb with hb | hb
        · exact (h1.2.2 b hb m (by simp)).le
        · exact (List.mem_singleton.1 hb).le
      obtain ⟨r, er, hframe, hfresh, hhead, hpost⟩ := insertT_spec (bm := 0) hlm (Nat.zero_le _) (by omega) k v ha
        (d + 1) 0 h c m m' (x :: js) (c2.flatMap (ids (d + 1)) ++ post) hc f.inR (by simpa using w)
      rw [er, Res.ok_bind]
      have hfr1 : ∀ i ∈ x :: js, r.heap.data i = h.data i := fun i hi =>
        hframe i (hnd.1 i hi) (w.fresh i (by simp only [List.mem_append]; tauto))
      have hfr2 : ∀ i ∈ c2.flatMap (ids (d + 1)), r.heap.data i = h.data i := fun i hi =>
        hframe i (hnd.2.1 i hi) (w.fresh i (by simp only [List.mem_append]; tauto))
      have ht2 : Tile (GP W lm r.heap g k0 d) c2 (m' :: b2) := bt_tile_gp hb2' (ht2b.mono (fun y hy a b hb =>
        hb.frame (fun _ _ _ x => x) (fun i hi => hfr2 i (List.mem_flatMap.2 ⟨y, hy, hi⟩))))
      have ht1 : Tile (GP W lm r.heap g k0 d) c1 (b1 ++ [m]) := by
        rw [hb1, List.cons_append, ← hb0]
        exact gp_tile_frame ej hfr1 (by rw [hc1]; exact ht1')
      have hcont : upsert k v (content W h (x :: js ++ ids (d + 1) c ++ c2.flatMap (ids (d + 1)))) =
          content W h (x :: js) ++ upsert k v (content W h (ids (d + 1) c)) ++
            content W h (c2.flatMap (ids (d + 1))) := by
        rw [content_append, content_append, upsert_append_left, upsert_append_right]
        · intro e he
          exact bk_lt.1 (lt_of_lt_of_le (hlt e he) f.inR.1)
        · intro e he
          exact bk_lt.1 (lt_of_lt_of_le f.inR.2 (hge e he))
      have hFr : Frame h r.heap (x :: js ++ ids (d + 1) c ++ c2.flatMap (ids (d + 1))) :=
        fun i hi hif => hframe i (fun hc => hi (by simp only [List.mem_append]; tauto)) hif
      obtain ⟨kids, ek, hrk⟩ := hr'.setKid r.tree
      rw [← f.l1, ek, Res.ok_bind, f.l1]
      dsimp only
      unfold InsPost at hpost
      cases hsp : r.split with
      | none =>
        rw [hsp] at hpost
        obtain ⟨hbt, hwf, hct⟩ := hpost
        refine ⟨_, rfl, hFr, hfresh, ?_⟩
        unfold GPost
        refine ⟨⟨_, _, hrk, ?_⟩, x :: js ++ ids (d + 1) r.tree ++ c2.flatMap (ids (d + 1)), ?_, ?_, ?_, ?_⟩
        · have := tile_unfocus (xs := [r.tree]) (ys := []) f.hb1 f.hb2 f.lb rfl ht1 ⟨Or.inr ⟨hm, hbt⟩, trivial⟩ ht2
          simpa using this
        · rw [ids_rep hrk, List.flatMap_append, List.flatMap_cons, ej]; simp
        · simpa using hwf
        · dsimp only
          rw [content_append, content_append, hct, content_congr W hfr1, content_congr W hfr2, hcont]
        · rfl
      | some sr =>
        rw [hsp] at hpost
        obtain ⟨hbl, hbr, hwf, hct⟩ := hpost
        dsimp only
        have htile : Tile (GP W lm r.heap g k0 d) (c1 ++ r.tree :: sr.2 :: c2)
            (bnds (bk k0) (k1 ++ sr.1 :: k2) hi) := by
          have := tile_unfocus (xs := [r.tree, sr.2]) (ys := [sr.1]) f.hb1 f.hb2 f.lb rfl ht1
            ⟨Or.inr ⟨hm, hbl⟩, Or.inr ⟨lt_trans hm hbl.lt, hbr⟩, trivial⟩ ht2
          simpa using this
        obtain ⟨out, eo, hoh, hout⟩ := ghost_entry_succ (h := r.heap) (g := g) (t2 := sr.2) (s := sr.1) (k := k)
          (post := post) (is := x :: js ++ (ids (d + 1) r.tree ++ ids (d + 1) sr.2) ++ c2.flatMap (ids (d + 1)))
          (hd := (x :: js ++ ids (d + 1) c ++ c2.flatMap (ids (d + 1))).head?)
          (cont := upsert k v (content W h (x :: js ++ ids (d + 1) c ++ c2.flatMap (ids (d + 1)))))
          (by omega) hrk f.l1 f.l2 f.le f.gt
          htile (by rw [List.flatMap_append, ej, List.flatMap_cons, List.flatMap_cons]; simp) (by simpa using hwf) (by
            rw [content_append, content_append, hct, content_congr W hfr1, content_congr W hfr2, hcont]) rfl
        rw [eo]
        exact ⟨out, rfl, by rw [hoh]; exact hFr, by rw [hoh]; exact hfresh, hout⟩

end Verif.BTree
