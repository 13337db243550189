import Mathlib.Order.Defs.LinearOrder
import Mathlib.Order.Basic
import Mathlib.Data.List.Basic
import Mathlib.Logic.Function.Basic

/-!
# Association lists sorted by key (used to describe the contents of leaves and trees)
-/

namespace Verif.Assoc

variable {K V : Type} [LinearOrder K]

/-- Keys strictly increasing. -/
def Sorted (l : List (K × V)) : Prop := l.Pairwise (fun a b => a.1 < b.1)

/-- The value of a key. -/
def find (k : K) (l : List (K × V)) : Option V := (l.find? (fun e => e.1 = k)).map (·.2)

/-- Insert or overwrite. -/
def upsert (k : K) (v : V) : List (K × V) → List (K × V)
  | [] => [(k, v)]
  | e :: l => if k < e.1 then (k, v) :: e :: l else if e.1 = k then (k, v) :: l else e :: upsert k v l

/-- Remove a key. -/
def remove (k : K) (l : List (K × V)) : List (K × V) := l.filter (fun e => e.1 ≠ k)

@[simp] theorem find_nil (k : K) : find k ([] : List (K × V)) = none := rfl

theorem find_cons (k : K) (e : K × V) (l : List (K × V)) :
    find k (e :: l) = if e.1 = k then some e.2 else find k l := by
  unfold find
  by_cases h : e.1 = k
  · simp [h]
  · simp [h]

theorem find_append (k : K) (l m : List (K × V)) :
    find k (l ++ m) = (find k l).or (find k m) := by
  induction l with
  | nil => simp
  | cons e l ih =>
    rw [List.cons_append, find_cons, find_cons, ih]
    split <;> simp

theorem find_eq_none {k : K} {l : List (K × V)} : find k l = none ↔ ∀ e ∈ l, e.1 ≠ k := by
  induction l with
  | nil => simp
  | cons e l ih =>
    rw [find_cons]
    by_cases h : e.1 = k
    · simp [h]
    · simp [h, ih]

theorem find_append_right {k : K} {l m : List (K × V)} (h : ∀ e ∈ l, e.1 ≠ k) :
    find k (l ++ m) = find k m := by
  rw [find_append, find_eq_none.2 h, Option.none_or]

theorem find_append_left {k : K} {l m : List (K × V)} (h : ∀ e ∈ m, e.1 ≠ k) :
    find k (l ++ m) = find k l := by
  rw [find_append, find_eq_none.2 h, Option.or_none]

theorem find_some_mem {k : K} {v : V} {l : List (K × V)} (h : find k l = some v) : (k, v) ∈ l := by
  induction l with
  | nil => simp at h
  | cons e l ih =>
    rw [find_cons] at h
    by_cases he : e.1 = k
    · rw [if_pos he] at h
      simp only [Option.some.injEq] at h
      subst he; subst h; simp
    · rw [if_neg he] at h
      exact List.mem_cons_of_mem _ (ih h)

theorem find_of_mem {k : K} {v : V} {l : List (K × V)} (hs : Sorted l) (h : (k, v) ∈ l) :
    find k l = some v := by
  induction l with
  | nil => simp at h
  | cons e l ih =>
    rw [Sorted, List.pairwise_cons] at hs
    rw [find_cons]
    rcases List.mem_cons.1 h with h | h
    · subst h; simp
    · have := hs.1 _ h
      rw [if_neg (fun e => by simp [e] at this), ih hs.2 h]

theorem mem_iff_find {k : K} {v : V} {l : List (K × V)} (hs : Sorted l) :
    (k, v) ∈ l ↔ find k l = some v := ⟨find_of_mem hs, find_some_mem⟩

theorem find_upsert (k : K) (v : V) (k' : K) (l : List (K × V)) :
    find k' (upsert k v l) = if k' = k then some v else find k' l := by
  induction l with
  | nil => simp only [upsert, find_cons, find_nil]; simp only [eq_comm]
  | cons e l ih =>
    rw [upsert]
    by_cases h : k < e.1
    · rw [if_pos h, find_cons]; simp only [eq_comm]
    · rw [if_neg h]
      by_cases h2 : e.1 = k
      · rw [if_pos h2, find_cons, find_cons, h2]
        by_cases h3 : k' = k
        · simp [h3]
        · rw [if_neg (Ne.symm h3), if_neg h3, if_neg (Ne.symm h3)]
      · rw [if_neg h2, find_cons, ih, find_cons]
        by_cases h3 : k' = k
        · subst h3; simp [h2]
        · simp [h3]

theorem find_remove (k k' : K) (l : List (K × V)) :
    find k' (remove k l) = if k' = k then none else find k' l := by
  induction l with
  | nil => simp [remove]
  | cons e l ih =>
    unfold remove at ih ⊢
    by_cases h : e.1 = k
    · rw [List.filter_cons_of_neg (by simp [h]), ih, find_cons, h]
      by_cases h2 : k' = k
      · simp [h2]
      · simp [h2, Ne.symm h2]
    · rw [List.filter_cons_of_pos (by simp [h]), find_cons, find_cons, ih]
      by_cases h2 : k' = k
      · subst h2; simp [h]
      · simp [h2]

theorem mem_upsert {k : K} {v : V} {l : List (K × V)} {e : K × V} (h : e ∈ upsert k v l) :
    e = (k, v) ∨ e ∈ l := by
  induction l with
  | nil => simpa [upsert] using h
  | cons a l ih =>
    rw [upsert] at h
    split at h
    · rcases List.mem_cons.1 h with h | h
      · exact Or.inl h
      · exact Or.inr h
    · split at h
      · rcases List.mem_cons.1 h with h | h
        · exact Or.inl h
        · exact Or.inr (List.mem_cons_of_mem _ h)
      · rcases List.mem_cons.1 h with h | h
        · subst h; exact Or.inr (by simp)
        · rcases ih h with h | h
          · exact Or.inl h
          · exact Or.inr (List.mem_cons_of_mem _ h)

theorem upsert_sorted {k : K} {v : V} {l : List (K × V)} (hs : Sorted l) : Sorted (upsert k v l) := by
  induction l with
  | nil => simp [upsert, Sorted]
  | cons a l ih =>
    rw [Sorted, List.pairwise_cons] at hs
    rw [upsert]
    split
    · rename_i h
      rw [Sorted, List.pairwise_cons, List.pairwise_cons]
      refine ⟨fun e he => ?_, hs⟩
      rcases List.mem_cons.1 he with he | he
      · subst he; exact h
      · exact lt_trans h (hs.1 e he)
    · split
      · rename_i h1 h2
        rw [Sorted, List.pairwise_cons]
        exact ⟨fun e he => by have := hs.1 e he; rw [h2] at this; exact this, hs.2⟩
      · rename_i h1 h2
        rw [Sorted, List.pairwise_cons]
        refine ⟨fun e he => ?_, ih hs.2⟩
        rcases mem_upsert he with he | he
        · subst he; exact lt_of_le_of_ne (not_lt.1 h1) h2
        · exact hs.1 e he

theorem remove_sorted {k : K} {l : List (K × V)} (hs : Sorted l) : Sorted (remove k l) :=
  List.Pairwise.filter _ hs

theorem upsert_append_right {k : K} {v : V} {l m : List (K × V)} (h : ∀ e ∈ l, e.1 < k) :
    upsert k v (l ++ m) = l ++ upsert k v m := by
  induction l with
  | nil => rfl
  | cons a l ih =>
    have ha := h a (by simp)
    rw [List.cons_append, upsert, if_neg (not_lt.2 ha.le), if_neg ha.ne,
      ih (fun e he => h e (List.mem_cons_of_mem _ he)), List.cons_append]

theorem upsert_append_left {k : K} {v : V} {l m : List (K × V)} (h : ∀ e ∈ m, k < e.1) :
    upsert k v (l ++ m) = upsert k v l ++ m := by
  induction l with
  | nil =>
    cases m with
    | nil => rfl
    | cons b m => simp [upsert, h b (by simp)]
  | cons a l ih =>
    rw [List.cons_append, upsert, upsert]
    split
    · rfl
    · split
      · rfl
      · rw [ih]; rfl

theorem upsert_length {k : K} {v : V} {l : List (K × V)} :
    (upsert k v l).length = l.length ∨ (upsert k v l).length = l.length + 1 := by
  induction l with
  | nil => simp [upsert]
  | cons a l ih =>
    rw [upsert]
    split
    · simp
    · split
      · simp
      · simp only [List.length_cons]; omega

theorem remove_append (k : K) (l m : List (K × V)) : remove k (l ++ m) = remove k l ++ remove k m := by
  simp [remove]

theorem remove_eq_self {k : K} {l : List (K × V)} (h : ∀ e ∈ l, e.1 ≠ k) : remove k l = l := by
  unfold remove
  rw [List.filter_eq_self]
  intro e he; simpa using h e he

theorem mem_remove {k : K} {l : List (K × V)} {e : K × V} (h : e ∈ remove k l) : e ∈ l ∧ e.1 ≠ k := by
  unfold remove at h
  rw [List.mem_filter] at h
  exact ⟨h.1, by simpa using h.2⟩

/-- In a sorted list a present key occurs once. -/
theorem remove_of_split {k : K} {v : V} {l r : List (K × V)} (hs : Sorted (l ++ (k, v) :: r)) :
    remove k (l ++ (k, v) :: r) = l ++ r := by
  rw [Sorted, List.pairwise_append, List.pairwise_cons] at hs
  rw [remove_append, remove_eq_self (fun e he => (hs.2.2 e he (k, v) (by simp)).ne)]
  congr 1
  have : remove k ((k, v) :: r) = remove k r := by simp [remove]
  rw [this, remove_eq_self (fun e he => (hs.2.1.1 e he).ne')]

theorem remove_length {k : K} {l : List (K × V)} (hs : Sorted l) (hk : find k l ≠ none) :
    (remove k l).length + 1 = l.length := by
  obtain ⟨v, hv⟩ := Option.ne_none_iff_exists'.1 hk
  obtain ⟨a, b, rfl⟩ := List.append_of_mem (find_some_mem hv)
  rw [remove_of_split hs]; simp; omega

theorem sorted_append {l m : List (K × V)} :
    Sorted (l ++ m) ↔ Sorted l ∧ Sorted m ∧ ∀ a ∈ l, ∀ b ∈ m, a.1 < b.1 := List.pairwise_append

/-- Overwriting in place. -/
theorem upsert_of_split {k : K} {v w : V} {l r : List (K × V)} (hs : Sorted (l ++ (k, v) :: r)) :
    upsert k w (l ++ (k, v) :: r) = l ++ (k, w) :: r := by
  rw [sorted_append] at hs
  rw [upsert_append_right (fun e he => hs.2.2 e he (k, v) (by simp))]
  simp [upsert]

/-- Inserting between smaller and larger keys. -/
theorem upsert_between {k : K} {v : V} {l r : List (K × V)} (h1 : ∀ e ∈ l, e.1 < k)
    (h2 : ∀ e ∈ r, k < e.1) : upsert k v (l ++ r) = l ++ (k, v) :: r := by
  rw [upsert_append_right h1]
  cases r with
  | nil => rfl
  | cons b m => rw [upsert, if_pos (h2 b (by simp))]

end Verif.Assoc
