import Verif.Res
import Mathlib.Tactic.Ring
import Mathlib.Data.List.Basic

/-!
# Fixed-size C++ arrays and the copy loops of the B+ tree code

An array of capacity `cap` is a function from indices to optional values; `none` is an element that
has never been written.  Reading such an element or accessing an index `≥ cap` is undefined behaviour.
-/

namespace Verif

/-- Contents of an array (`none`: never written). -/
abbrev Slots (α : Type) := Nat → Option α

namespace Slots

variable {α : Type}

/-- `a[i]` on an array of capacity `cap`. -/
def rd (cap : Nat) (a : Slots α) (i : Nat) : Res α :=
  if i < cap then Res.ofOption (a i) else .ub

/-- `a[i] = x` on an array of capacity `cap`. -/
def wr (cap : Nat) (a : Slots α) (i : Nat) (x : α) : Res (Slots α) :=
  if i < cap then .ok (fun j => if j = i then some x else a j) else .ub

/-- The array nobody has written to yet. -/
def none : Slots α := fun _ => Option.none

/-- `for (i = n; i > pos; i--) a[i + off - 1] = a[i - 1];` (with `off ≥ 1`), the loops that make room:
e.g. BPTree.hpp:853-856, 932-936, 457-461, 665-669. -/
def moveUp (cap : Nat) (pos off : Nat) : Nat → Slots α → Res (Slots α)
  | 0, a => .ok a
  | i + 1, a =>
    if pos < i + 1 then do
      let x ← rd cap a i
      let a ← wr cap a (i + off) x
      moveUp cap pos off i a
    else .ok a

/-- `for (i = 0; i < n; i++) a[dst + i] = a[dst + off + i];`, the loops that close a gap:
e.g. BPTree.hpp:339-342, 390-393, 475-478, 617-624, 695-698. -/
def moveDown (cap : Nat) (off : Nat) (dst : Nat) : Nat → Slots α → Res (Slots α)
  | 0, a => .ok a
  | n + 1, a => do
    let x ← rd cap a (dst + off)
    let a ← wr cap a dst x
    moveDown cap off (dst + 1) n a

/-- `for (i = 0; i < n; i++) b[dst + i] = a[src + i];` between two arrays:
e.g. BPTree.hpp:424-427, 462-466, 470-474, 546-549, 670-676, 685-688, 803-806, 881-884. -/
def copy (cap : Nat) (a : Slots α) (src dst : Nat) : Nat → Slots α → Res (Slots α)
  | 0, b => .ok b
  | n + 1, b => do
    let x ← rd cap a src
    let b ← wr cap b dst x
    copy cap a (src + 1) (dst + 1) n b

/-! ## Closed forms -/

theorem rd_ok {cap : Nat} {a : Slots α} {i : Nat} {x : α} (hi : i < cap) (h : a i = some x) :
    rd cap a i = .ok x := by
  unfold rd; rw [if_pos hi, h]; rfl

theorem wr_ok {cap : Nat} (a : Slots α) {i : Nat} (x : α) (hi : i < cap) :
    wr cap a i x = .ok (fun j => if j = i then some x else a j) := by
  unfold wr; rw [if_pos hi]

theorem moveUp_ok (cap pos off : Nat) (hoff : 1 ≤ off) (n : Nat) :
    ∀ (a : Slots α), n + off ≤ cap → pos ≤ n → (∀ i, pos ≤ i → i < n → (a i).isSome) →
    ∃ a', moveUp cap pos off n a = .ok a' ∧
      ∀ j, a' j = if pos + off ≤ j ∧ j < n + off then a (j - off) else a j := by
  induction n with
  | zero =>
    intro a _ hp _
    exact ⟨a, rfl, fun j => by rw [if_neg (by omega)]⟩
  | succ n ih =>
    intro a hcap hp hs
    rw [moveUp]
    by_cases h : pos < n + 1
    · rw [if_pos h]
      obtain ⟨x, hx⟩ := Option.isSome_iff_exists.1 (hs n (by omega) (by omega))
      rw [rd_ok (by omega) hx, Res.ok_bind, wr_ok _ _ (by omega), Res.ok_bind]
      obtain ⟨a', e, ha'⟩ := ih (fun j => if j = n + off then some x else a j) (by omega) (by omega)
        (fun i h1 h2 => by rw [if_neg (by omega)]; exact hs i h1 (by omega))
      refine ⟨a', e, fun j => ?_⟩
      rw [ha' j]
      by_cases hj : j = n + off
      · subst hj
        rw [if_neg (by omega), if_pos rfl, if_pos (by omega), Nat.add_sub_cancel, hx]
      · by_cases h1 : pos + off ≤ j ∧ j < n + off
        · rw [if_pos h1, if_neg (by omega), if_pos (by omega)]
        · rw [if_neg h1, if_neg hj, if_neg (by omega)]
    · rw [if_neg h]
      exact ⟨a, rfl, fun j => by rw [if_neg (by omega)]⟩

theorem moveDown_ok (cap off : Nat) (hoff : 1 ≤ off) (n : Nat) :
    ∀ (dst : Nat) (a : Slots α), dst + off + n ≤ cap →
    (∀ i, dst + off ≤ i → i < dst + off + n → (a i).isSome) →
    ∃ a', moveDown cap off dst n a = .ok a' ∧
      ∀ j, a' j = if dst ≤ j ∧ j < dst + n then a (j + off) else a j := by
  induction n with
  | zero => intro dst a _ _; exact ⟨a, rfl, fun j => by rw [if_neg (by omega)]⟩
  | succ n ih =>
    intro dst a hcap hs
    rw [moveDown]
    obtain ⟨x, hx⟩ := Option.isSome_iff_exists.1 (hs (dst + off) (by omega) (by omega))
    rw [rd_ok (by omega) hx, Res.ok_bind, wr_ok _ _ (by omega), Res.ok_bind]
    obtain ⟨a', e, ha'⟩ := ih (dst + 1) (fun j => if j = dst then some x else a j) (by omega)
      (fun i h1 h2 => by rw [if_neg (by omega)]; exact hs i (by omega) (by omega))
    refine ⟨a', e, fun j => ?_⟩
    rw [ha' j]
    by_cases hj : j = dst
    · subst hj
      rw [if_neg (by omega), if_pos rfl, if_pos (by omega), hx]
    · by_cases h1 : dst + 1 ≤ j ∧ j < dst + 1 + n
      · rw [if_pos h1, if_neg (by omega), if_pos (by omega)]
      · rw [if_neg h1, if_neg hj, if_neg (by omega)]

theorem copy_ok (cap : Nat) (a : Slots α) (n : Nat) :
    ∀ (src dst : Nat) (b : Slots α), src + n ≤ cap → dst + n ≤ cap →
    (∀ i, src ≤ i → i < src + n → (a i).isSome) →
    ∃ b', copy cap a src dst n b = .ok b' ∧
      ∀ j, b' j = if dst ≤ j ∧ j < dst + n then a (j - dst + src) else b j := by
  induction n with
  | zero => intro src dst b _ _ _; exact ⟨b, rfl, fun j => by rw [if_neg (by omega)]⟩
  | succ n ih =>
    intro src dst b hs hd h
    rw [copy]
    obtain ⟨x, hx⟩ := Option.isSome_iff_exists.1 (h src (by omega) (by omega))
    rw [rd_ok (by omega) hx, Res.ok_bind, wr_ok _ _ (by omega), Res.ok_bind]
    obtain ⟨b', e, hb'⟩ := ih (src + 1) (dst + 1) (fun j => if j = dst then some x else b j) (by omega)
      (by omega) (fun i h1 h2 => h i (by omega) (by omega))
    refine ⟨b', e, fun j => ?_⟩
    rw [hb' j]
    by_cases hj : j = dst
    · subst hj
      rw [if_neg (by omega), if_pos rfl, if_pos (by omega), ← hx]; congr 1; omega
    · by_cases h1 : dst + 1 ≤ j ∧ j < dst + 1 + n
      · rw [if_pos h1, if_pos (by omega)]; congr 1; omega
      · rw [if_neg h1, if_neg hj, if_neg (by omega)]

/-! ## Arrays representing lists -/

/-- The first elements of `a` are the list `l`. -/
def Rep (a : Slots α) (l : List α) : Prop := ∀ i, i < l.length → a i = l[i]?

theorem Rep.isSome {a : Slots α} {l : List α} (h : Rep a l) {i : Nat} (hi : i < l.length) :
    (a i).isSome := by
  rw [h i hi]; simp [hi]

theorem Rep.get {a : Slots α} {l : List α} (h : Rep a l) {i : Nat} (hi : i < l.length) :
    a i = some l[i] := by
  rw [h i hi]; simp [hi]

theorem Rep.rd {cap : Nat} {a : Slots α} {l : List α} (h : Rep a l) {i : Nat} (hi : i < l.length)
    (hc : i < cap) : Slots.rd cap a i = .ok l[i] := rd_ok hc (h.get hi)

theorem Rep.nil (a : Slots α) : Rep a [] := by intro i hi; simp at hi

/-- A prefix of a represented list is represented. -/
theorem Rep.take {a : Slots α} {l : List α} (h : Rep a l) (n : Nat) : Rep a (l.take n) := by
  intro i hi
  rw [List.length_take] at hi
  rw [h i (by omega), List.getElem?_take, if_pos (by omega)]

theorem Rep.prefix {a : Slots α} {l m : List α} (h : Rep a (l ++ m)) : Rep a l := by
  intro i hi
  rw [h i (by simp; omega), List.getElem?_append_left hi]

theorem rep_append {a : Slots α} {l m : List α} :
    Rep a (l ++ m) ↔ Rep a l ∧ ∀ i, i < m.length → a (l.length + i) = m[i]? := by
  constructor
  · intro h
    refine ⟨h.prefix, fun i hi => ?_⟩
    rw [h _ (by simp; omega), List.getElem?_append_right (by omega)]
    congr 1; omega
  · rintro ⟨h1, h2⟩ i hi
    rw [List.length_append] at hi
    by_cases h : i < l.length
    · rw [h1 i h, List.getElem?_append_left h]
    · rw [List.getElem?_append_right (by omega), ← h2 (i - l.length) (by omega)]
      congr 1; omega

/-- Making room and writing: `l ++ r` becomes `l ++ x :: r`. -/
theorem insert_rep {cap : Nat} {a : Slots α} {l r : List α} (x : α) (h : Rep a (l ++ r))
    (hc : l.length + r.length < cap) :
    ∃ a', (do let b ← moveUp cap l.length 1 (l.length + r.length) a; wr cap b l.length x) = .ok a' ∧
      Rep a' (l ++ x :: r) := by
  have hlen : (l ++ r).length = l.length + r.length := by simp
  obtain ⟨b, e, hb⟩ := moveUp_ok cap l.length 1 le_rfl (l.length + r.length) a (by omega) (by omega)
    (fun i _ h2 => h.isSome (by omega))
  rw [e, Res.ok_bind, wr_ok _ _ (by omega)]
  refine ⟨_, rfl, ?_⟩
  intro j hj
  simp only [List.length_append, List.length_cons] at hj
  simp only
  rcases Nat.lt_trichotomy j l.length with h1 | h1 | h1
  · rw [if_neg (by omega), hb, if_neg (by omega), h j (by omega), List.getElem?_append_left h1,
      List.getElem?_append_left h1]
  · rw [if_pos h1, List.getElem?_append_right (by omega)]
    simp [h1]
  · rw [if_neg (by omega), hb, if_pos (by omega), h _ (by omega),
      List.getElem?_append_right (by omega), List.getElem?_append_right (by omega)]
    obtain ⟨m, hm⟩ : ∃ m, j = l.length + 1 + m := ⟨j - l.length - 1, by omega⟩
    have e1 : j - 1 - l.length = m := by omega
    have e2 : j - l.length = m + 1 := by omega
    rw [e1, e2, List.getElem?_cons_succ]

/-- Closing a gap of `g.length`: `l ++ g ++ r` becomes `l ++ r`. -/
theorem remove_rep {cap : Nat} {a : Slots α} {l g r : List α} (h : Rep a (l ++ g ++ r))
    (hg : 1 ≤ g.length) (hc : l.length + g.length + r.length ≤ cap) :
    ∃ a', moveDown cap g.length l.length r.length a = .ok a' ∧ Rep a' (l ++ r) := by
  have hlen : (l ++ g ++ r).length = l.length + g.length + r.length := by simp; omega
  obtain ⟨b, e, hb⟩ := moveDown_ok cap g.length hg r.length l.length a (by omega)
    (fun i _ h2 => h.isSome (by omega))
  refine ⟨b, e, ?_⟩
  intro j hj
  simp only [List.length_append] at hj
  by_cases h1 : j < l.length
  · rw [hb, if_neg (by omega), h j (by omega), List.append_assoc, List.getElem?_append_left h1,
      List.getElem?_append_left h1]
  · rw [hb, if_pos (by omega), h _ (by omega), List.getElem?_append_right (by simp; omega),
      List.getElem?_append_right (by omega)]
    congr 1; simp; omega

/-- Appending a copy: with `a` representing `x ++ y ++ z` and `b` representing `l`, copying `y` behind
`l` gives `l ++ y`. -/
theorem copy_rep {cap : Nat} {a b : Slots α} {x y z l : List α} (ha : Rep a (x ++ y ++ z))
    (hb : Rep b l) (hc1 : x.length + y.length ≤ cap) (hc2 : l.length + y.length ≤ cap) :
    ∃ b', copy cap a x.length l.length y.length b = .ok b' ∧ Rep b' (l ++ y) := by
  have hlen : (x ++ y ++ z).length = x.length + y.length + z.length := by simp; omega
  obtain ⟨b', e, hb'⟩ := copy_ok cap a y.length x.length l.length b (by omega) (by omega)
    (fun i _ h2 => ha.isSome (by omega))
  refine ⟨b', e, ?_⟩
  intro j hj
  simp only [List.length_append] at hj
  rw [hb']
  by_cases h1 : j < l.length
  · rw [if_neg (by omega), hb j h1, List.getElem?_append_left h1]
  · rw [if_pos (by omega), ha _ (by omega), List.append_assoc, List.getElem?_append_right (by omega),
      List.getElem?_append_left (by omega), List.getElem?_append_right (by omega)]
    congr 1; omega

/-- Moving up by `g.length` and filling the gap with a copy: `l` becomes `y ++ l`. -/
theorem prepend_rep {cap : Nat} {a b : Slots α} {x y z l : List α} (ha : Rep a (x ++ y ++ z))
    (hb : Rep b l) (hy : 1 ≤ y.length) (hc1 : x.length + y.length ≤ cap)
    (hc2 : y.length + l.length ≤ cap) :
    ∃ b', (do let c ← moveUp cap 0 y.length l.length b; copy cap a x.length 0 y.length c) = .ok b' ∧
      Rep b' (y ++ l) := by
  have hlen : (x ++ y ++ z).length = x.length + y.length + z.length := by simp; omega
  obtain ⟨c, e, hc⟩ := moveUp_ok cap 0 y.length hy l.length b (by omega) (by omega)
    (fun i _ h2 => hb.isSome h2)
  rw [e, Res.ok_bind]
  obtain ⟨b', e', hb'⟩ := copy_ok cap a y.length x.length 0 c (by omega) (by omega)
    (fun i _ h2 => ha.isSome (by omega))
  refine ⟨b', e', ?_⟩
  intro j hj
  simp only [List.length_append] at hj
  rw [hb']
  by_cases h1 : j < y.length
  · rw [if_pos (by omega), ha _ (by omega), List.append_assoc, List.getElem?_append_right (by omega),
      List.getElem?_append_left (by omega), List.getElem?_append_left h1]
    congr 1; omega
  · rw [if_neg (by omega), hc, if_pos (by omega), hb _ (by omega), List.getElem?_append_right (by omega)]

/-- Writing inside or right behind a represented list. -/
theorem Rep.wr_set {a : Slots α} {l r : List α} {y : α} (x : α) (h : Rep a (l ++ y :: r)) :
    Rep (fun j => if j = l.length then some x else a j) (l ++ x :: r) := by
  intro j hj
  simp only [List.length_append, List.length_cons] at hj
  simp only
  by_cases h1 : j = l.length
  · subst h1; rw [if_pos rfl, List.getElem?_append_right (by omega)]; simp
  · rw [if_neg h1, h j (by simp; omega)]
    by_cases h2 : j < l.length
    · rw [List.getElem?_append_left h2, List.getElem?_append_left h2]
    · rw [List.getElem?_append_right (by omega), List.getElem?_append_right (by omega)]
      obtain ⟨m, hm⟩ : ∃ m, j - l.length = m + 1 := ⟨j - l.length - 1, by omega⟩
      rw [hm, List.getElem?_cons_succ, List.getElem?_cons_succ]

theorem Rep.wr_push {a : Slots α} {l : List α} (x : α) (h : Rep a l) :
    Rep (fun j => if j = l.length then some x else a j) (l ++ [x]) := by
  intro j hj
  simp only [List.length_append, List.length_cons, List.length_nil] at hj
  simp only
  by_cases h1 : j = l.length
  · subst h1; rw [if_pos rfl, List.getElem?_append_right (by omega)]; simp
  · rw [if_neg h1, h j (by omega), List.getElem?_append_left (by omega)]

end Slots
end Verif
