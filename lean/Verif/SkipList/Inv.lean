import Verif.SkipList.Model
import Mathlib.Data.List.Basic
import Mathlib.Order.Basic
import Mathlib.Data.Nat.Basic
import Mathlib.Data.Nat.Init
import Mathlib.Order.Nat

/-!
# The invariant of the skip list
-/

set_option linter.unusedSectionVars false

namespace Verif.SkipList

open Verif

section lists
variable {α : Type}

/-- `f` is the forward pointer of a level: starting at `a` it runs through `l` and ends with null. -/
def Path (f : Nat → Option (Option Nat)) : Nat → List Nat → Prop
  | a, [] => f a = some none
  | a, x :: l => f a = some (some x) ∧ Path f x l

theorem Path.suffix {f : Nat → Option (Option Nat)} {s : Nat} {B : List Nat} : ∀ {A : List Nat} {a : Nat},
    Path f a (A ++ s :: B) → Path f s B
  | [], _, h => h.2
  | _ :: _, _, h => Path.suffix h.2

theorem Path.congr {f g : Nat → Option (Option Nat)} : ∀ {l : List Nat} {a : Nat}, Path f a l →
    (∀ x ∈ a :: l, g x = f x) → Path g a l
  | [], a, h, e => by rw [Path, e a (by simp)]; exact h
  | x :: l, a, h, e => by
    rw [Path, e a (by simp)]
    exact ⟨h.1, h.2.congr (fun y hy => e y (List.mem_cons_of_mem _ hy))⟩

theorem Path.head {f : Nat → Option (Option Nat)} {a : Nat} {l : List Nat} (h : Path f a l) : f a = some l.head? := by
  cases l with
  | nil => exact h
  | cons x l => exact h.1

theorem getLastD_append_cons (A : List Nat) (s : Nat) (T : List Nat) (d : Nat) :
    (A ++ s :: T).getLastD d = T.getLastD s := by
  cases T with
  | nil => simp [List.getLastD_eq_getLast?]
  | cons t T =>
    have h : A ++ s :: t :: T ≠ [] := by simp
    rw [List.getLastD_eq_getLast?, List.getLastD_eq_getLast?, List.getLast?_append_of_ne_nil _ (by simp),
      List.getLast?_cons_cons]
    cases hT : (t :: T).getLast? with
    | none => simp at hT
    | some y => rfl

theorem getLastD_cons (x : Nat) (T : List Nat) (d : Nat) : (x :: T).getLastD d = T.getLastD x :=
  getLastD_append_cons [] x T d

theorem getLastD_mem (T : List Nat) (d : Nat) : T.getLastD d ∈ d :: T := by
  induction T generalizing d with
  | nil => simp
  | cons x T ih =>
    rw [getLastD_cons]
    exact List.mem_cons_of_mem _ (ih x)

/-- Inserting `x` after the last node of `pre`. -/
theorem Path.insert {f g : Nat → Option (Option Nat)} {x : Nat} {post : List Nat} : ∀ {pre : List Nat} {a : Nat},
    Path f a (pre ++ post) → (a :: (pre ++ post)).Nodup → x ∉ a :: (pre ++ post) →
    g x = f (pre.getLastD a) → g (pre.getLastD a) = some (some x) →
    (∀ b, b ≠ x → b ≠ pre.getLastD a → g b = f b) → Path g a (pre ++ x :: post)
  | [], a, h, hn, hx, h1, h2, h3 => by
    refine ⟨h2, ?_⟩
    have hne : ∀ b ∈ post, b ≠ x := by rintro b hb rfl; exact hx (List.mem_cons_of_mem _ hb)
    have hna : ∀ b ∈ post, b ≠ a := by rintro b hb rfl; exact (List.nodup_cons.1 hn).1 hb
    cases post with
    | nil => rw [Path, h1]; exact h
    | cons y post =>
      refine ⟨by rw [h1]; exact h.1, h.2.congr (fun b hb => h3 b (hne b hb) (hna b hb))⟩
  | y :: pre, a, h, hn, hx, h1, h2, h3 => by
    rw [getLastD_cons] at h1 h2 h3
    have hn' := List.nodup_cons.1 hn
    have hmem : pre.getLastD y ∈ y :: (pre ++ post) := by
      have := getLastD_mem pre y
      rw [List.mem_cons] at this ⊢
      rcases this with h | h
      · exact Or.inl h
      · exact Or.inr (List.mem_append_left _ h)
    refine ⟨?_, Path.insert h.2 hn'.2 (fun hc => hx (List.mem_cons_of_mem _ hc)) h1 h2 h3⟩
    rw [h3 a (by rintro rfl; exact hx (by simp)) (fun e => hn'.1 (by rw [e]; exact hmem))]
    exact h.1

end lists

variable {K V : Type} [LinearOrder K]

theorem put_self {A : Type} (h : Nat → A) (a : Nat) (x : A) : put h a x a = x := if_pos rfl

theorem put_ne {A : Type} (h : Nat → A) {a b : Nat} (x : A) (hb : b ≠ a) : put h a x b = h b := if_neg hb

theorem key_inj {key : Nat → K} {l : List Nat} (hs : l.Pairwise (fun a b => key a < key b)) {a b : Nat} (ha : a ∈ l)
    (hb : b ∈ l) (h : key a = key b) : a = b := by
  induction l with
  | nil => simp at ha
  | cons x l ih =>
    rw [List.pairwise_cons] at hs
    rcases List.mem_cons.1 ha with ha1 | ha1
    · rcases List.mem_cons.1 hb with hb1 | hb1
      · rw [ha1, hb1]
      · have := hs.1 b hb1
        rw [← ha1, h] at this
        exact absurd this (lt_irrefl _)
    · rcases List.mem_cons.1 hb with hb1 | hb1
      · have := hs.1 a ha1
        rw [← hb1, h] at this
        exact absurd this (lt_irrefl _)
      · exact ih hs.2 ha1 hb1

/-- The forward pointers of one level. -/
def fw (h : Nat → Option (Node K V)) (i : Nat) : Nat → Option (Option Nat) := fun a => (h a).map (fun n => n.fwd i)

theorem fwdAt_eq {L : Nat} {h : Nat → Option (Node K V)} {a i : Nat} (hi : i < L) {x : Option Nat}
    (e : fw h i a = some x) : fwdAt L h a i = .ok x := by
  unfold fw at e
  unfold fwdAt get
  cases ha : h a with
  | none => rw [ha] at e; simp at e
  | some n =>
    rw [ha] at e
    rw [Res.ofOption_some, Res.ok_bind, if_pos hi]
    simp at e
    rw [e]; rfl

/-- `lst i` are the nodes of level `i`; `key` and `val` the contents of the nodes; `c` nodes are missing in `nodeCount`. -/
structure Inv (L : Nat) (minKey : K) (c : Nat) (s : SL K V) (lst : Nat → List Nat) (key : Nat → K) (val : Nat → V) : Prop where
  lvl : s.level < L
  head : ∃ n, s.heap 0 = some n ∧ n.key = minKey
  nodes : ∀ a ∈ lst 0, ∃ n, s.heap a = some n ∧ n.key = key a ∧ n.val = val a
  fresh : ∀ a, s.fresh ≤ a → s.heap a = none
  path : ∀ i, i < L → Path (fw s.heap i) 0 (lst i)
  sub : ∀ i, (lst (i + 1)).Sublist (lst i)
  top : ∀ i, s.level ≤ i → lst i = []
  sorted : (lst 0).Pairwise (fun a b => key a < key b)
  zero : 0 ∉ lst 0
  count : s.nodeCount + c = (lst 0).length
  len : (lst 0).length < s.fresh

section
variable {L : Nat} {minKey : K} {c : Nat} {s : SL K V} {lst : Nat → List Nat} {key : Nat → K} {val : Nat → V}

theorem Inv.sub0 (I : Inv L minKey c s lst key val) : ∀ i, (lst i).Sublist (lst 0)
  | 0 => List.Sublist.refl _
  | i + 1 => (I.sub i).trans (I.sub0 i)

theorem Inv.sortedAt (I : Inv L minKey c s lst key val) (i : Nat) : (lst i).Pairwise (fun a b => key a < key b) :=
  I.sorted.sublist (I.sub0 i)

theorem Inv.nodup (I : Inv L minKey c s lst key val) (i : Nat) : (0 :: lst i).Nodup := by
  rw [List.nodup_cons]
  refine ⟨fun h => I.zero ((I.sub0 i).subset h), (I.sortedAt i).imp ?_⟩
  rintro a b h rfl
  exact absurd h (lt_irrefl _)

theorem Inv.lt_fresh (I : Inv L minKey c s lst key val) {a : Nat} (h : a ∈ lst 0) : a < s.fresh := by
  by_contra hc
  obtain ⟨n, hn, _⟩ := I.nodes a h
  rw [I.fresh a (by omega)] at hn
  exact absurd hn (by simp)

theorem Inv.fresh_pos (I : Inv L minKey c s lst key val) : 0 < s.fresh := by
  by_contra hc
  obtain ⟨n, hn, _⟩ := I.head
  rw [I.fresh 0 (by omega)] at hn
  exact absurd hn (by simp)

/-- The nodes of level `i` with smaller keys, and the others. -/
def pre (key : Nat → K) (k : K) (l : List Nat) : List Nat := l.takeWhile (fun a => decide (key a < k))

def post (key : Nat → K) (k : K) (l : List Nat) : List Nat := l.dropWhile (fun a => decide (key a < k))

theorem pre_post (k : K) (l : List Nat) : pre key k l ++ post key k l = l := List.takeWhile_append_dropWhile

/-- The predecessor of `k` on a level. -/
def pred (key : Nat → K) (k : K) (l : List Nat) : Nat := (pre key k l).getLastD 0

theorem mem_pre {k : K} {l : List Nat} {a : Nat} (h : a ∈ pre key k l) : a ∈ l ∧ key a < k := by
  refine ⟨(List.takeWhile_sublist _).subset h, ?_⟩
  unfold pre at h
  induction l with
  | nil => simp at h
  | cons b l ih =>
    rw [List.takeWhile_cons] at h
    by_cases hb : key b < k
    · rw [decide_eq_true hb, if_pos rfl] at h
      rcases List.mem_cons.1 h with rfl | h
      · exact hb
      · exact ih h
    · rw [decide_eq_false hb, if_neg (by simp)] at h
      simp at h

theorem pre_eq_filter {k : K} : ∀ {l : List Nat}, l.Pairwise (fun a b => key a < key b) →
    pre key k l = l.filter (fun a => decide (key a < k)) ∧ post key k l = l.filter (fun a => !decide (key a < k))
  | [], _ => ⟨rfl, rfl⟩
  | a :: l, h => by
    rw [List.pairwise_cons] at h
    unfold pre post
    by_cases ha : key a < k
    · obtain ⟨h1, h2⟩ := pre_eq_filter (k := k) h.2
      simp only [List.takeWhile_cons, List.dropWhile_cons, decide_eq_true ha, if_true, List.filter_cons, Bool.not_true,
        Bool.false_eq_true, if_false]
      exact ⟨congrArg _ h1, h2⟩
    · simp only [List.takeWhile_cons, List.dropWhile_cons, decide_eq_false ha, if_false, Bool.false_eq_true,
        List.filter_cons, Bool.not_false, if_true]
      constructor
      · symm
        rw [List.filter_eq_nil_iff]
        intro b hb
        simp only [decide_eq_true_eq, not_lt]
        exact (not_lt.1 ha).trans (h.1 b hb).le
      · congr 1
        symm
        rw [List.filter_eq_self]
        intro b hb
        simp only [Bool.not_eq_eq_eq_not, Bool.not_true, decide_eq_false_iff_not, not_lt]
        exact (not_lt.1 ha).trans (h.1 b hb).le

theorem mem_post {k : K} {l : List Nat} (hs : l.Pairwise (fun a b => key a < key b)) {a : Nat} :
    a ∈ post key k l ↔ a ∈ l ∧ k ≤ key a := by
  rw [(pre_eq_filter hs).2, List.mem_filter]
  simp

theorem advance_path {h : Nat → Option (Node K V)} {k : K} {i : Nat} (hi : i < L) : ∀ (l : List Nat) (a fuel : Nat),
    Path (fw h i) a l → (∀ x ∈ l, ∃ n, h x = some n ∧ n.key = key x) → l.length < fuel →
    advance L h k i fuel a = .ok ((pre key k l).getLastD a)
  | [], a, fuel + 1, hp, _, _ => by
    rw [advance, fwdAt_eq hi hp, Res.ok_bind]; rfl
  | x :: l, a, fuel + 1, hp, hn, hf => by
    rw [advance, fwdAt_eq hi hp.1, Res.ok_bind]
    obtain ⟨n, e, hk⟩ := hn x (by simp)
    dsimp only
    rw [get, e, Res.ofOption_some, Res.ok_bind, hk]
    by_cases hx : key x < k
    · rw [if_pos hx, advance_path hi l x fuel hp.2 (fun y hy => hn y (List.mem_cons_of_mem _ hy))
        (by simpa using hf)]
      unfold pre
      rw [List.takeWhile_cons, decide_eq_true hx, if_pos rfl, getLastD_cons]
    · rw [if_neg hx]
      unfold pre
      rw [List.takeWhile_cons, decide_eq_false hx, if_neg (by simp)]
      rfl

theorem Inv.advance (I : Inv L minKey c s lst key val) (k : K) {i : Nat} (hi : i < L) {a : Nat}
    (ha : a = 0 ∨ a ∈ lst i ∧ key a < k) : advance L s.heap k i s.fresh a = .ok (pred key k (lst i)) := by
  have hn : ∀ x ∈ lst i, ∃ n, s.heap x = some n ∧ n.key = key x := fun x hx => by
    obtain ⟨n, h1, h2, _⟩ := I.nodes x ((I.sub0 i).subset hx)
    exact ⟨n, h1, h2⟩
  have hlen : (lst i).length < s.fresh := lt_of_le_of_lt (I.sub0 i).length_le I.len
  rcases ha with rfl | ⟨ha, hk⟩
  · exact advance_path hi (lst i) 0 s.fresh (I.path i hi) hn hlen
  · obtain ⟨A, B, hAB⟩ := List.append_of_mem ha
    have hs := I.sortedAt i
    rw [hAB, List.pairwise_append] at hs
    have hp := I.path i hi
    rw [hAB] at hp hn hlen
    rw [advance_path hi B a s.fresh hp.suffix (fun x hx => hn x (by simp [hx])) (by simp at hlen; omega)]
    unfold pred pre
    rw [hAB, List.takeWhile_append_of_pos (fun x hx => by
      simp only [decide_eq_true_eq]
      exact (hs.2.2 x hx a (by simp)).trans hk), List.takeWhile_cons, decide_eq_true hk, if_pos rfl,
      getLastD_append_cons]

theorem pred_cases (k : K) (l : List Nat) : pred key k l = 0 ∧ pre key k l = [] ∨
    pred key k l ∈ l ∧ key (pred key k l) < k := by
  unfold pred
  cases h : pre key k l with
  | nil => left; exact ⟨rfl, rfl⟩
  | cons x T =>
    right
    have : (x :: T).getLastD 0 ∈ pre key k l := by
      rw [h, getLastD_cons]; exact getLastD_mem T x
    exact mem_pre this

theorem Inv.pred_start (I : Inv L minKey c s lst key val) (k : K) (i : Nat) :
    pred key k (lst (i + 1)) = 0 ∨ pred key k (lst (i + 1)) ∈ lst i ∧ key (pred key k (lst (i + 1))) < k := by
  rcases pred_cases (key := key) k (lst (i + 1)) with h | h
  · exact Or.inl h.1
  · exact Or.inr ⟨(I.sub i).subset h.1, h.2⟩

theorem Inv.descend (I : Inv L minKey c s lst key val) (k : K) : ∀ (i : Nat), i < L → ∀ (a : Nat) (u : Nat → Option Nat),
    (a = 0 ∨ a ∈ lst i ∧ key a < k) →
    descend L s.heap k s.fresh i a u =
      .ok (pred key k (lst 0), fun j => if j ≤ i then some (pred key k (lst j)) else u j)
  | 0, hi, a, u, ha => by
    rw [SkipList.descend, I.advance k hi ha, Res.ok_bind, setUpd, if_pos hi, Res.ok_bind]
    congr 2
    funext j
    unfold put
    by_cases hj : j = 0
    · rw [if_pos hj, if_pos (by omega), hj]
    · rw [if_neg hj, if_neg (by omega)]
  | i + 1, hi, a, u, ha => by
    rw [SkipList.descend, I.advance k hi ha, Res.ok_bind, setUpd, if_pos hi, Res.ok_bind,
      I.descend k i (by omega) _ _ (I.pred_start k i)]
    congr 2
    funext j
    unfold put
    by_cases hj : j ≤ i
    · rw [if_pos hj, if_pos (by omega)]
    · rw [if_neg hj]
      by_cases hj' : j = i + 1
      · rw [if_pos hj', if_pos (by omega), hj']
      · rw [if_neg hj', if_neg (by omega)]

theorem Inv.searchFrom (I : Inv L minKey c s lst key val) (k : K) : ∀ (i : Nat), i < L → ∀ (a : Nat),
    (a = 0 ∨ a ∈ lst i ∧ key a < k) →
    searchFrom L s.heap k s.fresh i a = .ok (pred key k (lst 0))
  | 0, hi, a, ha => I.advance k hi ha
  | i + 1, hi, a, ha => by
    rw [SkipList.searchFrom, I.advance k hi ha, Res.ok_bind]
    exact I.searchFrom k i (by omega) _ (I.pred_start k i)

theorem Inv.pred_next (I : Inv L minKey c s lst key val) (k : K) {i : Nat} (hi : i < L) :
    fw s.heap i (pred key k (lst i)) = some (post key k (lst i)).head? := by
  have hp := I.path i hi
  rw [← pre_post (key := key) k (lst i)] at hp
  unfold pred
  cases h : pre key k (lst i) with
  | nil => rw [h] at hp; exact hp.head
  | cons x T =>
    rw [h] at hp
    have : ∀ (T : List Nat) (x a : Nat) (B : List Nat), Path (fw s.heap i) a (x :: T ++ B) →
        Path (fw s.heap i) ((x :: T).getLastD a) B := by
      intro T
      induction T with
      | nil => intro x a B h; exact h.2
      | cons y T ih =>
        intro x a B h
        rw [getLastD_cons]
        exact ih y x B h.2
    exact (this T x 0 _ hp).head

/-- The entries in key order. -/
def entries (lst : Nat → List Nat) (key : Nat → K) (val : Nat → V) : List (K × V) := (lst 0).map fun a => (key a, val a)

/-- The list stores the map. -/
def Stores (lst : Nat → List Nat) (key : Nat → K) (val : Nat → V) (m : K → Option V) : Prop :=
  ∀ k v, m k = some v ↔ ∃ a ∈ lst 0, key a = k ∧ val a = v

theorem Stores.none {m : K → Option V} (h : Stores lst key val m) {k : K} : m k = none ↔ ∀ a ∈ lst 0, key a ≠ k := by
  constructor
  · intro hk a ha e
    have := (h k (val a)).2 ⟨a, ha, e, rfl⟩
    rw [hk] at this
    exact absurd this (by simp)
  · intro hk
    cases hm : m k with
    | none => rfl
    | some v =>
      obtain ⟨a, ha, e, _⟩ := (h k v).1 hm
      exact absurd e (hk a ha)

/-- The node behind the predecessor. -/
theorem Inv.next_key (I : Inv L minKey c s lst key val) (k : K) :
    (∃ y ∈ lst 0, (post key k (lst 0)).head? = some y ∧ key y = k) ∨
    (∀ a ∈ lst 0, key a ≠ k) := by
  cases hp : post key k (lst 0) with
  | nil =>
    right
    rintro a ha rfl
    have := (mem_post (k := key a) I.sorted).2 ⟨ha, le_rfl⟩
    rw [hp] at this
    simp at this
  | cons y T =>
    have hy := (mem_post (k := k) I.sorted).1 (show y ∈ post key k (lst 0) by rw [hp]; simp)
    by_cases hk : key y = k
    · exact Or.inl ⟨y, hy.1, rfl, hk⟩
    · right
      rintro a ha e
      have ha' := (mem_post (k := k) I.sorted).2 ⟨ha, by rw [e]⟩
      have hs : (post key k (lst 0)).Pairwise (fun a b => key a < key b) :=
        I.sorted.sublist (List.dropWhile_sublist _)
      rw [hp] at ha' hs
      rcases List.mem_cons.1 ha' with rfl | ha'
      · exact hk e
      · have := (List.pairwise_cons.1 hs).1 a ha'
        rw [e] at this
        exact absurd hy.2 (not_le.2 this)

theorem Inv.search (I : Inv L minKey c s lst key val) {m : K → Option V} (h : Stores lst key val m) (k : K) :
    search L s k = .ok (m k) := by
  have hL : 0 < L := by have := I.lvl; omega
  unfold SkipList.search
  rw [I.searchFrom k s.level I.lvl 0 (Or.inl rfl), Res.ok_bind, fwdAt_eq hL (I.pred_next k hL), Res.ok_bind]
  rcases I.next_key k with ⟨y, hy, e, hk⟩ | hn
  · rw [e]
    obtain ⟨n, hn, h1, h2⟩ := I.nodes y hy
    dsimp only
    rw [get, hn, Res.ofOption_some, Res.ok_bind, h1, if_pos hk, h2, (h k (val y)).2 ⟨y, hy, hk, rfl⟩]
    rfl
  · rw [h.none.2 hn]
    cases hp : (post key k (lst 0)).head? with
    | none => rfl
    | some y =>
      have hy : y ∈ lst 0 := (List.dropWhile_sublist _).subset (List.mem_of_mem_head? (by rw [Option.mem_def]; exact hp))
      obtain ⟨n, he, h1, h2⟩ := I.nodes y hy
      dsimp only
      rw [get, he, Res.ofOption_some, Res.ok_bind, h1, if_neg (hn y hy)]
      rfl

/-! ## `insert` -/

theorem fillHead_eq : ∀ (n i : Nat) (u : Nat → Option Nat), i + n ≤ L →
    fillHead L i n u = .ok (fun j => if i ≤ j ∧ j < i + n then some 0 else u j)
  | 0, i, u, _ => by
    rw [fillHead]
    congr 1
    funext j
    rw [if_neg (by omega)]
  | n + 1, i, u, h => by
    rw [fillHead, setUpd, if_pos (by omega), Res.ok_bind, fillHead_eq n (i + 1) _ (by omega)]
    congr 1
    funext j
    unfold put
    by_cases h1 : i + 1 ≤ j ∧ j < i + 1 + n
    · rw [if_pos h1, if_pos (by omega)]
    · rw [if_neg h1]
      by_cases h2 : j = i
      · rw [if_pos h2, if_pos (by omega)]
      · rw [if_neg h2, if_neg (by omega)]

/-- Two heaps with the same nodes up to forward pointers. -/
def SameData (h h' : Nat → Option (Node K V)) : Prop :=
  ∀ a, (h' a).map (fun n => (n.key, n.val)) = (h a).map (fun n => (n.key, n.val))

theorem setFwd_spec {h : Nat → Option (Node K V)} {a i : Nat} (hi : i < L) {n : Node K V} (ha : h a = some n)
    (x : Option Nat) : ∃ h', setFwd L h a i x = .ok h' ∧ SameData h h' ∧
      (∀ b j, fw h' j b = if j = i ∧ b = a then some x else fw h j b) ∧ ∀ b, (h' b).isSome = (h b).isSome := by
  refine ⟨_, by rw [setFwd, get, ha, Res.ofOption_some, Res.ok_bind, if_pos hi]; rfl, ?_, ?_, ?_⟩
  · intro b
    unfold put
    by_cases hb : b = a
    · rw [if_pos hb, hb, ha]; rfl
    · rw [if_neg hb]
  · intro b j
    unfold fw put
    by_cases hb : b = a
    · simp only [hb, if_true, ha, Option.map_some, and_true]
      split <;> rfl
    · simp only [hb, if_false, and_false]
  · intro b
    unfold put
    by_cases hb : b = a
    · rw [if_pos hb, hb, ha]; rfl
    · rw [if_neg hb]

theorem link_spec {x : Nat} {u : Nat → Option Nat} {p : Nat → Nat} : ∀ (n i : Nat) (h : Nat → Option (Node K V)),
    i + n ≤ L → (∀ j, i ≤ j → j < i + n → u j = some (p j) ∧ p j ≠ x ∧ (h (p j)).isSome = true) →
    (h x).isSome = true →
    ∃ h', link L x u i n h = .ok h' ∧ SameData h h' ∧
      (∀ b j, fw h' j b = if i ≤ j ∧ j < i + n then
        (if b = x then fw h j (p j) else if b = p j then some (some x) else fw h j b) else fw h j b) ∧
      ∀ b, (h' b).isSome = (h b).isSome
  | 0, i, h, _, _, _ => ⟨h, rfl, fun _ => rfl, fun b j => by rw [if_neg (by omega)], fun _ => rfl⟩
  | n + 1, i, h, hL, hu, hx => by
    obtain ⟨hui, hpx, hpi⟩ := hu i le_rfl (by omega)
    obtain ⟨np, hnp⟩ := Option.isSome_iff_exists.1 hpi
    obtain ⟨nx, hnx⟩ := Option.isSome_iff_exists.1 hx
    have hfp : fw h i (p i) = some (np.fwd i) := by unfold fw; rw [hnp]; rfl
    obtain ⟨h1, e1, d1, f1, s1⟩ := setFwd_spec (L := L) (i := i) (by omega) hnx (np.fwd i)
    obtain ⟨np', hnp'⟩ := Option.isSome_iff_exists.1 ((s1 (p i)).trans hpi)
    obtain ⟨h2, e2, d2, f2, s2⟩ := setFwd_spec (L := L) (i := i) (by omega) hnp' (some x)
    obtain ⟨h', e', d', f', s'⟩ := link_spec n (i + 1) h2 (by omega) (fun j h1 h2' => by
      obtain ⟨a, b, c⟩ := hu j (by omega) (by omega)
      exact ⟨a, b, by rw [s2, s1]; exact c⟩) (by rw [s2, s1]; exact hx)
    refine ⟨h', ?_, fun b => by rw [d' b, d2 b, d1 b], fun b j => ?_, fun b => by rw [s', s2, s1]⟩
    · rw [link, if_pos (by omega), hui, Res.ofOption_some, Res.ok_bind, fwdAt_eq (by omega) hfp, Res.ok_bind, e1,
        Res.ok_bind, e2, Res.ok_bind, e']
    · rw [f']
      by_cases hj : j = i
      · subst hj
        rw [if_neg (by omega), if_pos (by omega), f2, f1]
        by_cases hb : b = x
        · rw [if_neg (by rintro ⟨_, rfl⟩; exact hpx hb), if_pos ⟨rfl, hb⟩, if_pos hb, hfp]
        · rw [if_neg hb]
          by_cases hb' : b = p j
          · rw [if_pos ⟨rfl, hb'⟩, if_pos hb']
          · rw [if_neg (fun hc => hb' hc.2), if_neg hb', if_neg (fun hc => hb hc.2)]
      · have hne : ∀ b, fw h2 j b = fw h j b := fun b => by
          rw [f2, if_neg (fun hc => hj hc.1), f1, if_neg (fun hc => hj hc.1)]
        by_cases hr : i + 1 ≤ j ∧ j < i + 1 + n
        · rw [if_pos hr, hne, hne]
          symm
          rw [if_pos (by omega)]
        · rw [if_neg hr, if_neg (by omega), hne]

theorem lst_insert {l l' : List Nat} {k : K} {x : Nat} (hs : l.Pairwise (fun a b => key a < key b))
    (h : l'.Sublist l) : (pre key k l' ++ x :: post key k l').Sublist (pre key k l ++ x :: post key k l) := by
  rw [(pre_eq_filter hs).1, (pre_eq_filter hs).2, (pre_eq_filter (hs.sublist h)).1, (pre_eq_filter (hs.sublist h)).2]
  exact List.Sublist.append (h.filter _) ((h.filter _).cons_cons _)

theorem lst_insert' {l l' : List Nat} {k : K} {x : Nat} (h : l'.Sublist l) :
    l'.Sublist (pre key k l ++ x :: post key k l) := by
  have h1 : (pre key k l ++ post key k l).Sublist (pre key k l ++ x :: post key k l) :=
    List.Sublist.append (List.Sublist.refl _) (List.sublist_cons_self _ _)
  rw [pre_post] at h1
  exact h.trans h1

/-- The dropped insert: the smallest key value into an empty list. -/
def Dropped (minKey k : K) (m : K → Option V) : Prop := k = minKey ∧ ∀ x, m x = none

/-- A new node `s.fresh` with key `k` is linked into the levels below `j`. -/
theorem Inv.linked (I : Inv L minKey c s lst key val) {k : K} {v : V} (hnk : ∀ a ∈ lst 0, key a ≠ k) (node : Node K V)
    (hkn : node.key = k) (hvn : node.val = v) {j lev cnt c' : Nat} {h' : Nat → Option (Node K V)}
    (d' : SameData (put s.heap s.fresh (some node)) h')
    (hf1 : ∀ i, i < j → ∀ b, fw h' i b = if b = s.fresh then fw s.heap i (pred key k (lst i)) else
      if b = pred key k (lst i) then some (some s.fresh) else fw s.heap i b)
    (hf2 : ∀ i, j ≤ i → ∀ b, b ≠ s.fresh → fw h' i b = fw s.heap i b)
    (hlev : s.level ≤ lev) (hj : j ≤ lev) (hlL : lev < L)
    (hcnt : cnt + c' = (lst 0).length + (if 0 < j then 1 else 0)) :
    Inv L minKey c' ⟨lev, cnt, h', s.fresh + 1⟩
      (fun i => if i < j then pre key k (lst i) ++ s.fresh :: post key k (lst i) else lst i)
      (put key s.fresh k) (put val s.fresh v) := by
  have hnew : ∀ a, a ≠ s.fresh → ∀ (X : Option (Node K V)), put s.heap s.fresh X a = s.heap a := by
    intro a ha X; simp [put, ha]
  have hpred : ∀ j, pred key k (lst j) ≠ s.fresh := by
    intro j
    rcases pred_cases (key := key) k (lst j) with ⟨h0, _⟩ | ⟨hm, _⟩
    · rw [h0]
      have := I.fresh_pos; omega
    · have := I.lt_fresh ((I.sub0 j).subset hm); omega
  have hdata : ∀ a n, put s.heap s.fresh (some node) a = some n →
      ∃ n', h' a = some n' ∧ n'.key = n.key ∧ n'.val = n.val := by
    intro a n ha
    have := d' a
    rw [ha] at this
    obtain ⟨n', hn', hp⟩ := Option.map_eq_some_iff.1 this
    exact ⟨n', hn', congrArg Prod.fst hp, congrArg Prod.snd hp⟩
  have hmem : ∀ a, a ∈ pre key k (lst 0) ++ s.fresh :: post key k (lst 0) ↔ a = s.fresh ∨ a ∈ lst 0 := by
    intro a
    rw [List.mem_append, List.mem_cons, ← or_assoc, or_comm (a := a ∈ pre key k (lst 0)), or_assoc,
      ← List.mem_append, pre_post]
  have hkey : ∀ a ∈ lst 0, put key s.fresh k a = key a := by
    intro a ha
    have := I.lt_fresh ha
    exact put_ne _ _ (by omega)
  have hlen : (pre key k (lst 0) ++ s.fresh :: post key k (lst 0)).length = (lst 0).length + 1 := by
    have := congrArg List.length (pre_post (key := key) k (lst 0))
    rw [List.length_append] at this
    rw [List.length_append, List.length_cons]
    omega
  refine ⟨?_, ?_, ?_, ?_, ?_, ?_, ?_, ?_, ?_, ?_, ?_⟩
  · exact hlL
  · obtain ⟨n0, hn0, hk0⟩ := I.head
    obtain ⟨n', hn', hk', _⟩ := hdata 0 n0 (by
      rw [hnew _ (by have := I.fresh_pos; omega)]; exact hn0)
    exact ⟨n', hn', by rw [hk', hk0]⟩
  · intro a ha
    have ha : a = s.fresh ∨ a ∈ lst 0 := by
      try dsimp only at ha
      split at ha
      · exact (hmem a).1 ha
      · exact Or.inr ha
    dsimp only
    rcases ha with rfl | ha
    · obtain ⟨n', hn', hk', hv'⟩ := hdata s.fresh _ (by rw [put, if_pos rfl])
      exact ⟨n', hn', by rw [hk', put_self, hkn], by rw [hv', put_self, hvn]⟩
    · obtain ⟨na, hna, hka, hva⟩ := I.nodes a ha
      have hlt := I.lt_fresh ha
      obtain ⟨n', hn', hk', hv'⟩ := hdata a na (by rw [hnew _ (by omega)]; exact hna)
      exact ⟨n', hn', by rw [hk', hka, hkey a ha], by
        rw [hv', hva, put_ne _ _ (by omega)]⟩
  · intro a ha
    dsimp only at ha ⊢
    have := d' a
    rw [hnew a (by omega), I.fresh a (by omega)] at this
    simpa using this
  · intro i hi
    try dsimp only
    have hnf : s.fresh ∉ 0 :: lst i := by
      rw [List.mem_cons, not_or]
      refine ⟨by have := I.fresh_pos; omega, fun hc => ?_⟩
      have := I.lt_fresh ((I.sub0 i).subset hc)
      omega
    by_cases hin : i < j
    · rw [if_pos hin]
      refine Path.insert (f := fw s.heap i) ?_ ?_ ?_ ?_ ?_ ?_
      · rw [pre_post]; exact I.path i hi
      · rw [pre_post]; exact I.nodup i
      · rw [pre_post]; exact hnf
      · rw [hf1 i hin, if_pos rfl]; rfl
      · change fw h' i (pred key k (lst i)) = _
        rw [hf1 i hin, if_neg (hpred i), if_pos rfl]
      · intro b h1 h2
        have h2 : b ≠ pred key k (lst i) := h2
        rw [hf1 i hin, if_neg h1, if_neg h2]
    · rw [if_neg hin]
      refine (I.path i hi).congr (fun b hb => ?_)
      exact hf2 i (by omega) b (by rintro rfl; exact hnf hb)
  · intro i
    try dsimp only
    by_cases h1 : i + 1 < j
    · rw [if_pos h1, if_pos (by omega)]
      exact lst_insert (I.sortedAt i) (I.sub i)
    · rw [if_neg h1]
      by_cases h2 : i < j
      · rw [if_pos h2]; exact lst_insert' (I.sub i)
      · rw [if_neg h2]; exact I.sub i
  · intro i hi
    dsimp only at hi ⊢
    rw [if_neg (by omega), I.top i (by omega)]
  · try dsimp only
    have hself : put key s.fresh k s.fresh = k := by simp [put]
    split
    · rw [List.pairwise_append]
      refine ⟨?_, ?_, ?_⟩
      · refine ((I.sorted.sublist (List.takeWhile_sublist _)).imp_of_mem ?_)
        intro a b ha hb h
        rw [hkey a (mem_pre ha).1, hkey b (mem_pre hb).1]; exact h
      · rw [List.pairwise_cons]
        refine ⟨fun b hb => ?_, (I.sorted.sublist (List.dropWhile_sublist _)).imp_of_mem ?_⟩
        · have := (mem_post I.sorted).1 hb
          rw [hself, hkey b this.1]
          exact lt_of_le_of_ne this.2 (fun e => hnk b this.1 e.symm)
        · intro a b ha hb h
          rw [hkey a ((mem_post I.sorted).1 ha).1, hkey b ((mem_post I.sorted).1 hb).1]; exact h
      · intro a ha b hb
        rw [hkey a (mem_pre ha).1]
        rcases List.mem_cons.1 hb with rfl | hb
        · rw [hself]; exact (mem_pre ha).2
        · rw [hkey b ((mem_post I.sorted).1 hb).1]
          exact lt_of_lt_of_le (mem_pre ha).2 ((mem_post I.sorted).1 hb).2
    · refine I.sorted.imp_of_mem ?_
      intro a b ha hb h
      rw [hkey a ha, hkey b hb]; exact h
  · try dsimp only
    split
    · rw [hmem]
      rintro (h | h)
      · have := I.fresh_pos; omega
      · exact I.zero h
    · exact I.zero
  · try dsimp only
    split
    · rw [hlen, hcnt, if_pos (by assumption)]
    · rw [hcnt, if_neg (by assumption)]; rfl
  · try dsimp only
    have := I.len
    split
    · rw [hlen]; omega
    · omega

theorem Inv.linked_stores (I : Inv L minKey c s lst key val) {m : K → Option V} (hst : Stores lst key val m) {k : K}
    (hnk : ∀ a ∈ lst 0, key a ≠ k) {j : Nat} (h0 : 0 < j) (v : V) :
    Stores (fun i => if i < j then pre key k (lst i) ++ s.fresh :: post key k (lst i) else lst i)
      (put key s.fresh k) (put val s.fresh v) (fun x => if x = k then some v else m x) := by
  intro k' v'
  have hmem : ∀ a, a ∈ pre key k (lst 0) ++ s.fresh :: post key k (lst 0) ↔ a = s.fresh ∨ a ∈ lst 0 := by
    intro a
    rw [List.mem_append, List.mem_cons, ← or_assoc, or_comm (a := a ∈ pre key k (lst 0)), or_assoc,
      ← List.mem_append, pre_post]
  simp only [if_pos h0, hmem]
  constructor
  · intro e
    by_cases hkk : k' = k
    · rw [if_pos hkk] at e
      exact ⟨s.fresh, Or.inl rfl, by rw [put_self, hkk], by rw [put_self]; exact Option.some.inj e⟩
    · rw [if_neg hkk] at e
      obtain ⟨a, ha, e1, e2⟩ := (hst k' v').1 e
      have := I.lt_fresh ha
      refine ⟨a, Or.inr ha, ?_, ?_⟩
      · rw [put_ne _ _ (by omega), e1]
      · rw [put_ne _ _ (by omega), e2]
  · rintro ⟨a, rfl | ha, e1, e2⟩
    · rw [put_self] at e1 e2
      rw [if_pos e1.symm, e2]
    · have := I.lt_fresh ha
      rw [put_ne _ _ (by omega)] at e1 e2
      rw [if_neg (by rw [← e1]; exact hnk a ha)]
      exact (hst _ _).2 ⟨a, ha, e1, e2⟩

/-- Writing the value of a node. -/
theorem Inv.write (I : Inv L minKey c s lst key val) {b : Nat} {n : Node K V} {v : V} {val' : Nat → V} (hb : s.heap b = some n)
    (h1 : ∀ a ∈ lst 0, a ≠ b → val' a = val a) (h2 : b ∈ lst 0 → val' b = v) :
    Inv L minKey c { s with heap := put s.heap b (some { n with val := v }) } lst key val' := by
  have hwrite : ∀ j a, fw (put s.heap b (some { n with val := v })) j a = fw s.heap j a := by
    intro j a
    unfold fw put
    by_cases ha : a = b
    · rw [if_pos ha, ha, hb]; rfl
    · rw [if_neg ha]
  refine ⟨I.lvl, ?_, ?_, ?_, fun i hi => (I.path i hi).congr (fun x _ => hwrite i x), I.sub, I.top, I.sorted,
    I.zero, I.count, I.len⟩
  · obtain ⟨n0, hn0, hk0⟩ := I.head
    dsimp only [put]
    by_cases h0 : 0 = b
    · rw [if_pos h0]
      subst h0
      rw [hb] at hn0
      exact ⟨_, rfl, by rw [Option.some.inj hn0]; exact hk0⟩
    · rw [if_neg h0]; exact ⟨n0, hn0, hk0⟩
  · intro a ha
    obtain ⟨na, hna, hka, hva⟩ := I.nodes a ha
    dsimp only [put]
    by_cases hab : a = b
    · rw [if_pos hab]
      subst hab
      rw [hb] at hna
      refine ⟨_, rfl, by rw [Option.some.inj hna]; exact hka, (h2 ha).symm⟩
    · rw [if_neg hab]
      exact ⟨na, hna, hka, by rw [hva, h1 a ha hab]⟩
  · intro a ha
    dsimp only [put]
    have : a ≠ b := by
      rintro rfl
      rw [I.fresh a ha] at hb
      exact absurd hb (by simp)
    rw [if_neg this]
    exact I.fresh a ha

/-- The test for duplicates fails for a new key. -/
theorem Inv.test (I : Inv L minKey c s lst key val) {k : K} (hnk : ∀ a ∈ lst 0, key a ≠ k)
    (hempty : ¬ (lst 0 = [] ∧ k = minKey)) :
    ∃ n, s.heap ((post key k (lst 0)).head?.getD (pred key k (lst 0))) = some n ∧ n.key ≠ k := by
  cases hp : (post key k (lst 0)).head? with
  | some y =>
    have hy : y ∈ lst 0 := (List.dropWhile_sublist _).subset (List.mem_of_mem_head? (by rw [Option.mem_def]; exact hp))
    obtain ⟨n, he, h1, _⟩ := I.nodes y hy
    exact ⟨n, he, by rw [h1]; exact hnk y hy⟩
  | none =>
    rw [Option.getD_none]
    rcases pred_cases (key := key) k (lst 0) with ⟨h0, hpre⟩ | ⟨hm, hlt⟩
    · rw [h0]
      obtain ⟨n0, hn0, hk0⟩ := I.head
      refine ⟨n0, hn0, fun e => hempty ⟨?_, by rw [← e, hk0]⟩⟩
      have := pre_post (key := key) k (lst 0)
      rw [hpre, List.head?_eq_none_iff.1 hp] at this
      exact this.symm
    · obtain ⟨n, he, h1, _⟩ := I.nodes _ hm
      exact ⟨n, he, by rw [h1]; exact ne_of_lt hlt⟩

/-- The array `update`. -/
theorem Inv.upd (I : Inv L minKey c s lst key val) (k : K) {nl : Nat} (hlev : nl < L) :
    ∃ u, (if nl > s.level then fillHead L (s.level + 1) (nl - (s.level + 1))
      (fun j => if j ≤ s.level then some (pred key k (lst j)) else none)
      else pure (fun j => if j ≤ s.level then some (pred key k (lst j)) else none)) = Res.ok u ∧
      ∀ j, j < nl → u j = some (pred key k (lst j)) := by
  by_cases hgt : nl > s.level
  · rw [if_pos hgt, fillHead_eq _ _ _ (by omega)]
    refine ⟨_, rfl, fun j hj => ?_⟩
    try dsimp only
    by_cases hjl : j ≤ s.level
    · rw [if_neg (by omega), if_pos hjl]
    · rw [if_pos (by omega), I.top j (by omega)]; rfl
  · rw [if_neg hgt]
    refine ⟨_, rfl, fun j hj => ?_⟩
    try dsimp only
    rw [if_pos (by omega)]

theorem Stores.write {m : K → Option V} (hst : Stores lst key val m) (hs : (lst 0).Pairwise (fun a b => key a < key b)) {y : Nat}
    {k : K} {v : V} (hy : y ∈ lst 0) (hk : key y = k) :
    Stores lst key (put val y v) (fun x => if x = k then some v else m x) := by
  intro k' v'
  show (if k' = k then some v else m k') = some v' ↔ _
  constructor
  · intro e
    by_cases hkk : k' = k
    · rw [if_pos hkk] at e
      exact ⟨y, hy, by rw [hk, hkk], by rw [put_self]; exact Option.some.inj e⟩
    · rw [if_neg hkk] at e
      obtain ⟨a, ha, e1, e2⟩ := (hst k' v').1 e
      refine ⟨a, ha, e1, ?_⟩
      have : a ≠ y := by rintro rfl; exact hkk (by rw [← e1, hk])
      rw [put_ne _ _ this, e2]
  · rintro ⟨a, ha, rfl, e2⟩
    show (if key a = k then some v else m (key a)) = _
    by_cases hay : a = y
    · subst hay
      rw [if_pos hk]
      rw [put_self] at e2
      rw [e2]
    · have hne : key a ≠ k := by
        intro e
        have := key_inj hs ha hy (by rw [e, hk])
        exact hay this
      rw [if_neg hne]
      rw [put_ne _ _ hay] at e2
      exact (hst _ _).2 ⟨a, ha, rfl, e2⟩

theorem Inv.insert_start (I : Inv L minKey c s lst key val) (k : K) (v : V) (r : Nat) :
    SkipList.insert L s k v r = (do
      let n ← get s.heap ((post key k (lst 0)).head?.getD (pred key k (lst 0)))
      if n.key = k then
        pure (false, { s with
          heap := put s.heap ((post key k (lst 0)).head?.getD (pred key k (lst 0))) (some { n with val := v }) })
      else
        let newLevel := randomLevel r
        let u ← (if newLevel > s.level then fillHead L (s.level + 1) (newLevel - (s.level + 1))
          (fun j => if j ≤ s.level then some (pred key k (lst j)) else none)
          else pure (fun j => if j ≤ s.level then some (pred key k (lst j)) else none))
        let level := if newLevel > s.level then newLevel else s.level
        let h := put s.heap s.fresh (some ⟨k, v, newLevel, fun _ => none⟩)
        let h ← link L s.fresh u 0 newLevel h
        pure (true, ⟨level, s.nodeCount + 1, h, s.fresh + 1⟩)) := by
  have hL0 : 0 < L := by have := I.lvl; omega
  unfold SkipList.insert
  rw [I.descend k s.level I.lvl 0 _ (Or.inl rfl), Res.ok_bind]
  dsimp only
  rw [fwdAt_eq hL0 (I.pred_next k hL0), Res.ok_bind]

theorem Inv.insert (I : Inv L minKey c s lst key val) {m : K → Option V} (hst : Stores lst key val m) (k : K) (v : V)
    {r : Nat} (hr : r < L) (hL : 2 ≤ L) :
    (Dropped minKey k m → ∃ s', insert L s k v r = .ok (false, s') ∧ Inv L minKey c s' lst key val) ∧
    (¬ Dropped minKey k m → ∃ s' lst' key' val', insert L s k v r = .ok ((m k).isNone, s') ∧
      Inv L minKey c s' lst' key' val' ∧ Stores lst' key' val' (fun x => if x = k then some v else m x)) := by
  have hL0 : 0 < L := by omega
  have hstart := I.insert_start k v r
  rcases I.next_key k with ⟨y, hy, hpy, hk⟩ | hnk
  · -- the key is there
    obtain ⟨n, hn, h1, h2⟩ := I.nodes y hy
    have hmk : m k = some (val y) := (hst k (val y)).2 ⟨y, hy, hk, rfl⟩
    refine ⟨fun hd => ?_, fun _ => ?_⟩
    · rw [hd.2 k] at hmk; exact absurd hmk (by simp)
    · refine ⟨_, lst, key, put val y v, ?_, I.write (v := v) hn (val' := put val y v) (fun a _ hab => by simp [put, hab])
        (fun _ => by simp [put]), ?_⟩
      · rw [hstart, hpy, Option.getD_some, get, hn, Res.ofOption_some, Res.ok_bind, h1, if_pos hk, hmk]
        rfl
      · exact hst.write I.sorted hy hk
  · -- the key is new
    have hmk : m k = none := hst.none.2 hnk
    by_cases hempty : lst 0 = [] ∧ k = minKey
    · obtain ⟨n0, hn0, hk0⟩ := I.head
      have hm : ∀ x, m x = none := fun x => hst.none.2 (by rw [hempty.1]; simp)
      refine ⟨fun _ => ?_, fun hd => absurd ⟨hempty.2, hm⟩ hd⟩
      refine ⟨_, ?_, I.write (v := v) hn0 (val' := val) (fun _ _ _ => rfl) (fun h => absurd h I.zero)⟩
      have hp : post key k (lst 0) = [] := by rw [hempty.1]; rfl
      have hq : pred key k (lst 0) = 0 := by rw [hempty.1]; rfl
      rw [hstart, hp, hq]
      simp only [List.head?_nil, Option.getD_none]
      rw [get, hn0, Res.ofOption_some, Res.ok_bind, if_pos (by rw [hk0, hempty.2])]
      rfl
    · have hnd : ¬ Dropped minKey k m := by
        rintro ⟨h1, h2⟩
        refine hempty ⟨?_, h1⟩
        rw [List.eq_nil_iff_forall_not_mem]
        intro a ha
        exact (hst.none.1 (h2 (key a))) a ha rfl
      refine ⟨fun hd => absurd hd hnd, fun _ => ?_⟩
      have htest := I.test hnk hempty
      obtain ⟨n, hn, hnk'⟩ := htest
      have hlev : randomLevel r < L ∧ 1 ≤ randomLevel r := by
        unfold randomLevel; split <;> omega
      generalize hnl : randomLevel r = nl at hlev
      have hupd := I.upd k hlev.1
      obtain ⟨u, hu, hup⟩ := hupd
      have hfr : s.heap s.fresh = none := I.fresh _ le_rfl
      -- the new node
      have hnew : ∀ a, a ≠ s.fresh → ∀ (X : Option (Node K V)), put s.heap s.fresh X a = s.heap a := by
        intro a ha X; simp [put, ha]
      have hfw1 : ∀ a, a ≠ s.fresh → ∀ j X, fw (put s.heap s.fresh X) j a = fw s.heap j a := by
        intro a ha j X; unfold fw; rw [hnew a ha]
      have hpred : ∀ j, pred key k (lst j) ≠ s.fresh ∧ (s.heap (pred key k (lst j))).isSome = true := by
        intro j
        rcases pred_cases (key := key) k (lst j) with ⟨h0, _⟩ | ⟨hm, _⟩
        · rw [h0]
          obtain ⟨n0, hn0, _⟩ := I.head
          exact ⟨by have := I.fresh_pos; omega, by rw [hn0]; rfl⟩
        · have hm0 := (I.sub0 j).subset hm
          obtain ⟨n, he, _⟩ := I.nodes _ hm0
          exact ⟨by have := I.lt_fresh hm0; omega, by rw [he]; rfl⟩
      obtain ⟨h', e', d', f', s'⟩ := link_spec (L := L) (x := s.fresh) (u := u) (p := fun j => pred key k (lst j)) nl 0
        (put s.heap s.fresh (some ⟨k, v, nl, fun _ => none⟩)) (by omega) (fun j _ hj => by
          refine ⟨hup j (by omega), (hpred j).1, ?_⟩
          rw [hnew _ (hpred j).1]; exact (hpred j).2) (by simp [put])
      refine ⟨⟨if nl > s.level then nl else s.level, s.nodeCount + 1, h', s.fresh + 1⟩,
        fun j => if j < nl then pre key k (lst j) ++ s.fresh :: post key k (lst j) else lst j,
        put key s.fresh k, put val s.fresh v, ?_, ?_, ?_⟩
      · rw [hstart, get, hn, Res.ofOption_some, Res.ok_bind, if_neg hnk', hmk]
        try dsimp only
        rw [hnl, hu, Res.ok_bind, e', Res.ok_bind]
        rfl
      · exact I.linked hnk ⟨k, v, nl, fun _ => none⟩ rfl rfl d' (fun i hi b => by
          rw [f', if_pos (by omega)]
          by_cases hb : b = s.fresh
          · rw [if_pos hb, if_pos hb, hfw1 _ (hpred i).1]
          · rw [if_neg hb, if_neg hb]
            by_cases hb' : b = pred key k (lst i)
            · rw [if_pos hb', if_pos hb']
            · rw [if_neg hb', if_neg hb', hfw1 _ hb]) (fun i hi b hb => by
          rw [f', if_neg (by omega), hfw1 _ hb]) (by split <;> omega) (by split <;> omega) (by have := I.lvl; split <;> omega)
          (by rw [if_pos (show 0 < nl by omega)]; have := I.count; omega)
      · exact I.linked_stores hst hnk (show 0 < nl by omega) v

theorem init_inv [Inhabited V] (minKey : K) (hL : 1 ≤ L) :
    Inv L minKey 0 (init minKey L : SL K V) (fun _ => []) (fun _ => minKey) (fun _ => default) where
  lvl := hL
  head := ⟨_, rfl, rfl⟩
  nodes := by intro a ha; simp at ha
  fresh := by
    intro a ha
    have : a ≠ 0 := by
      rintro rfl
      exact absurd ha (by simp [init])
    simp [init, this]
  path := fun i _ => rfl
  sub := fun i => List.Sublist.refl _
  top := fun i _ => rfl
  sorted := List.Pairwise.nil
  zero := by simp
  count := rfl
  len := by simp [init]

theorem walk_path {h : Nat → Option (Node K V)} {i : Nat} (hi : i < L) : ∀ (l : List Nat) (fuel : Nat) (f : Option Nat),
    f = l.head? → (∀ a l', l = a :: l' → Path (fw h i) a l') → l.length ≤ fuel →
    (∀ x ∈ l, ∃ n, h x = some n ∧ n.key = key x ∧ n.val = val x) →
    walk L h i fuel f = .ok (l.map fun a => (key a, val a))
  | [], fuel, f, hf, _, _, _ => by subst hf; cases fuel <;> rfl
  | x :: l, 0, f, _, _, hlen, _ => by simp at hlen
  | x :: l, fuel + 1, f, hf, hp, hlen, hn => by
    subst hf
    obtain ⟨n, hx, h1, h2⟩ := hn x (by simp)
    have hpx := hp x l rfl
    simp only [List.head?_cons]
    rw [walk, get, hx, Res.ofOption_some, Res.ok_bind, fwdAt_eq hi hpx.head, Res.ok_bind,
      walk_path hi l fuel l.head? rfl (fun a l' e => by subst e; exact hpx.2) (by simpa using hlen)
        (fun y hy => hn y (List.mem_cons_of_mem _ hy)), Res.ok_bind, h1, h2]
    rfl

theorem Inv.levelList (I : Inv L minKey c s lst key val) {i : Nat} (hi : i < L) :
    levelList L s i = .ok ((lst i).map fun a => (key a, val a)) := by
  unfold SkipList.levelList
  rw [fwdAt_eq hi (I.path i hi).head, Res.ok_bind]
  refine walk_path hi (lst i) s.fresh _ rfl (fun a l' e => ?_) ?_ (fun x hx => I.nodes x ((I.sub0 i).subset hx))
  · have := I.path i hi
    rw [e] at this
    exact this.2
  · exact (I.sub0 i).length_le.trans I.len.le

end

end Verif.SkipList
