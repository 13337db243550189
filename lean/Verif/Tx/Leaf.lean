import Verif.Tx.Undo
import Verif.BTree.SortedLeaf

/-!
# The stores of a PBPTree leaf insert

`insertInLeafNodeAtPosition` (PBPTree.hpp:988-1010) as a sequence of steps on persistent memory.
A leaf node has one address for `numKeys` and one for every element of `keys` and `values`.
-/

namespace Verif.Tx

open Verif.BTree

set_option linter.unusedSectionVars false

variable {K V : Type}

/-- PBPTree.hpp:1216ff `LeafNode`: the places in a leaf node. -/
inductive Fld where
  | num
  | key (i : Nat)
  | val (i : Nat)
  deriving DecidableEq

/-- Contents of an address. -/
inductive Cell (K V : Type) where
  | num (n : Nat)
  | key (k : Option K)
  | val (v : Option V)

/-- The address of a place in the leaf node `id`. -/
abbrev Addr := Nat × Fld

/-- Memory contents `f` hold the leaf `l` at `id`, for arrays of `M` elements. -/
def Holds (M id : Nat) (f : Addr → Cell K V) (l : SLeaf K V) : Prop :=
  f (id, .num) = .num l.num ∧ (∀ i < M, f (id, .key i) = .key (l.keys i)) ∧ ∀ i < M, f (id, .val i) = .val (l.vals i)

/-- All places of leaf `id`. -/
def places (M id : Nat) : List Addr :=
  (id, .num) :: ((List.range M).map (fun i => (id, Fld.key i)) ++ (List.range M).map (fun i => (id, Fld.val i)))

/-- PBPTree.hpp:999-1002: `for (i = numKeys; i > pos; --i) { keys[i] = keys[i-1]; values[i] = values[i-1]; }`.
`f`: the contents when the loop is entered with `i = n`. -/
def shift (id pos : Nat) : Nat → (Addr → Cell K V) → List (Step Addr (Cell K V))
  | 0, _ => []
  | i + 1, f =>
    if pos < i + 1 then
      let f1 := upd f (id, .key (i + 1)) (f (id, .key i))
      let f2 := upd f1 (id, .val (i + 1)) (f1 (id, .val i))
      .write (id, .key (i + 1)) (f (id, .key i)) :: .write (id, .val (i + 1)) (f1 (id, .val i)) :: shift id pos i f2
    else []

/-- PBPTree.hpp:991 (`numKeys.get_rw()`), 997-998 (`keys.get_rw()`, `values.get_rw()`), the loop, and the three
stores 1005-1007. -/
def insertSteps (M id pos n : Nat) (k : K) (v : V) (f : Addr → Cell K V) : List (Step Addr (Cell K V)) :=
  .snap [(id, .num)] :: .snap ((List.range M).map (fun i => (id, Fld.key i))) ::
    .snap ((List.range M).map (fun i => (id, Fld.val i))) ::
    (shift id pos n f ++
      [.write (id, .key pos) (.key (some k)), .write (id, .val pos) (.val (some v)), .write (id, .num) (.num (n + 1))])

theorem foldl_val (f : Addr → Cell K V) :
    ∀ (ss : List (Step Addr (Cell K V))) (t t' : Run Addr (Cell K V)), t.val = t'.val →
    (ss.foldl Step.run t).val = (ss.foldl Step.run t').val
  | [], _, _, h => h
  | s :: ss, t, t', h => by
    refine foldl_val f ss _ _ ?_
    cases s <;> (simp only [Step.run]; try rw [h])

/-- Only the contents matter for what the steps leave in memory. -/
def effect (ss : List (Step Addr (Cell K V))) (f : Addr → Cell K V) : Addr → Cell K V :=
  (ss.foldl Step.run ⟨f, [], [], []⟩).val

theorem effect_append (s1 s2 : List (Step Addr (Cell K V))) (f : Addr → Cell K V) :
    effect (s1 ++ s2) f = effect s2 (effect s1 f) := by
  unfold effect
  rw [List.foldl_append]
  exact foldl_val f s2 _ _ rfl

theorem effect_write (a : Addr) (x : Cell K V) (ss : List (Step Addr (Cell K V))) (f : Addr → Cell K V) :
    effect (.write a x :: ss) f = effect ss (upd f a x) := rfl

theorem effect_snap (as : List Addr) (ss : List (Step Addr (Cell K V))) (f : Addr → Cell K V) :
    effect (.snap as :: ss) f = effect ss f := by
  unfold effect
  exact foldl_val f ss _ _ rfl

variable {M id : Nat}

theorem Holds.wr_key {f : Addr → Cell K V} {l : SLeaf K V} (h : Holds M id f l) {i : Nat} {ks : Slots K} (k : K)
    (hw : Slots.wr M l.keys i k = .ok ks) :
    Holds M id (upd f (id, .key i) (.key (some k))) ⟨l.num, ks, l.vals⟩ := by
  unfold Slots.wr at hw
  split at hw
  · have e := Res.ok.inj hw
    refine ⟨?_, ?_, ?_⟩
    · simp only [upd]; rw [if_neg (by simp)]; exact h.1
    · intro j hj
      simp only [upd, ← e]
      by_cases hji : j = i
      · subst hji; simp
      · rw [if_neg (by simpa using hji), if_neg hji]; exact h.2.1 j hj
    · intro j hj
      simp only [upd]; rw [if_neg (by simp)]; exact h.2.2 j hj
  · cases hw

theorem Holds.wr_val {f : Addr → Cell K V} {l : SLeaf K V} (h : Holds M id f l) {i : Nat} {vs : Slots V} (v : V)
    (hw : Slots.wr M l.vals i v = .ok vs) :
    Holds M id (upd f (id, .val i) (.val (some v))) ⟨l.num, l.keys, vs⟩ := by
  unfold Slots.wr at hw
  split at hw
  · have e := Res.ok.inj hw
    refine ⟨?_, ?_, ?_⟩
    · simp only [upd]; rw [if_neg (by simp)]; exact h.1
    · intro j hj
      simp only [upd]; rw [if_neg (by simp)]; exact h.2.1 j hj
    · intro j hj
      simp only [upd, ← e]
      by_cases hji : j = i
      · subst hji; simp
      · rw [if_neg (by simpa using hji), if_neg hji]; exact h.2.2 j hj
  · cases hw

theorem rd_inv {α : Type} {cap i : Nat} {a : Slots α} {x : α} (h : Slots.rd cap a i = .ok x) :
    i < cap ∧ a i = some x := by
  unfold Slots.rd at h
  split at h
  · rename_i hi
    refine ⟨hi, ?_⟩
    cases ha : a i with
    | none => rw [ha] at h; cases h
    | some y => rw [ha] at h; rw [Res.ok.inj h]
  · cases h

/-- The loop has the effect of the two loops of the model. -/
theorem shift_effect {pos : Nat} : ∀ (n : Nat) (f : Addr → Cell K V) (l : SLeaf K V) (ks : Slots K) (vs : Slots V),
    Holds M id f l → Slots.moveUp M pos 1 n l.keys = .ok ks → Slots.moveUp M pos 1 n l.vals = .ok vs →
    Holds M id (effect (shift id pos n f) f) ⟨l.num, ks, vs⟩
  | 0, f, l, ks, vs, h, hk, hv => by
    rw [Slots.moveUp] at hk hv
    rw [← Res.ok.inj hk, ← Res.ok.inj hv]
    exact h
  | n + 1, f, l, ks, vs, h, hk, hv => by
    rw [Slots.moveUp] at hk hv
    rw [shift]
    by_cases hp : pos < n + 1
    · rw [if_pos hp] at hk hv ⊢
      obtain ⟨x, hx, hk⟩ := Res.bind_eq_ok.1 hk
      obtain ⟨a, ha, hk⟩ := Res.bind_eq_ok.1 hk
      obtain ⟨y, hy, hv⟩ := Res.bind_eq_ok.1 hv
      obtain ⟨b, hb, hv⟩ := Res.bind_eq_ok.1 hv
      dsimp only
      rw [effect_write, effect_write]
      have ex : f (id, .key n) = .key (some x) := by rw [h.2.1 n (rd_inv hx).1, (rd_inv hx).2]
      rw [ex]
      have h1 := h.wr_key x ha
      have ey : upd f (id, .key (n + 1)) (.key (some x)) (id, .val n) = .val (some y) := by
        rw [h1.2.2 n (rd_inv hy).1]; simp only; rw [(rd_inv hy).2]
      rw [ey]
      have h2 := h1.wr_val y hb
      exact shift_effect n _ ⟨l.num, a, b⟩ ks vs h2 hk hv
    · rw [if_neg hp] at hk hv ⊢
      rw [← Res.ok.inj hk, ← Res.ok.inj hv]
      exact h

/-- Running the steps turns the memory of `l` into the memory of the leaf that the model computes. -/
theorem insert_effect [LinearOrder K] {c : SCfg K V} {f : Addr → Cell K V} {l l' : SLeaf K V} {p : Nat} {k : K} {v : V}
    (h : Holds c.M id f l) (hi : l.insertAt c p k v = .ok l') :
    Holds c.M id (effect (insertSteps c.M id p l.num k v f) f) l' := by
  unfold SLeaf.insertAt at hi
  obtain ⟨_, _, hi⟩ := Res.bind_eq_ok.1 hi
  obtain ⟨_, _, hi⟩ := Res.bind_eq_ok.1 hi
  obtain ⟨_, _, hi⟩ := Res.bind_eq_ok.1 hi
  obtain ⟨ks, hks, hi⟩ := Res.bind_eq_ok.1 hi
  obtain ⟨vs, hvs, hi⟩ := Res.bind_eq_ok.1 hi
  obtain ⟨ks', hks', hi⟩ := Res.bind_eq_ok.1 hi
  obtain ⟨vs', hvs', hi⟩ := Res.bind_eq_ok.1 hi
  have e := Res.ok.inj hi
  unfold insertSteps
  rw [effect_snap, effect_snap, effect_snap, effect_append]
  have h1 := shift_effect l.num f l ks vs h hks hvs
  rw [effect_write, effect_write, effect_write]
  have h2 := h1.wr_key k hks'
  have h3 := h2.wr_val v hvs'
  rw [← e]
  refine ⟨?_, ?_, ?_⟩
  · show upd _ _ _ _ = _
    simp [upd]
  · intro i hi'
    show upd _ _ _ _ = _
    rw [upd, if_neg (by simp)]
    exact h3.2.1 i hi'
  · intro i hi'
    show upd _ _ _ _ = _
    rw [upd, if_neg (by simp)]
    exact h3.2.2 i hi'

theorem disc_append {A X : Type} [DecidableEq A] {m : Mem A X} {cov : List A} :
    ∀ {s1 : List (Step A X)} {s2 : List (Step A X)}, (∀ s ∈ s1, ∃ a x, s = .write a x ∧ a ∈ cov) →
    Disciplined m cov s2 → Disciplined m cov (s1 ++ s2)
  | [], _, _, h => h
  | s :: s1, s2, h, h2 => by
    obtain ⟨a, x, rfl, ha⟩ := h _ List.mem_cons_self
    exact ⟨ha, disc_append (fun s hs => h s (List.mem_cons_of_mem _ hs)) h2⟩

theorem shift_writes {pos : Nat} : ∀ (n : Nat) (f : Addr → Cell K V), n < M →
    ∀ s ∈ shift id pos n f, ∃ a x, s = .write a x ∧ a ∈ places M id
  | 0, _, _, s, h => by cases h
  | n + 1, f, hn, s, h => by
    rw [shift] at h
    by_cases hp : pos < n + 1
    · rw [if_pos hp] at h
      rcases List.mem_cons.1 h with rfl | h
      · exact ⟨_, _, rfl, by simp [places, hn]⟩
      rcases List.mem_cons.1 h with rfl | h
      · exact ⟨_, _, rfl, by simp [places, hn]⟩
      exact shift_writes n _ (by omega) s h
    · rw [if_neg hp] at h; cases h

theorem insert_disciplined (m : Mem Addr (Cell K V)) {pos n : Nat} (hp : pos ≤ n) (hn : n < M) (k : K) (v : V) :
    Disciplined m [] (insertSteps M id pos n k v m.val) := by
  have key : ∀ ss cov, (∀ a ∈ places M id, a ∈ cov) →
      (∀ s ∈ ss, ∃ a x, s = Step.write a x ∧ a ∈ places M id) → Disciplined (X := Cell K V) m cov ss := by
    intro ss cov hc hs
    rw [← List.append_nil ss]
    refine disc_append (fun s h => ?_) trivial
    obtain ⟨a, x, e, ha⟩ := hs s h
    exact ⟨a, x, e, hc a ha⟩
  show Disciplined m ((List.range M).map (fun i => (id, Fld.val i)) ++ ((List.range M).map (fun i => (id, Fld.key i)) ++
    ([(id, Fld.num)] ++ []))) (shift id pos n m.val ++ _)
  refine key _ _ ?_ ?_
  · intro a ha
    simp only [places, List.mem_cons, List.mem_append] at ha ⊢
    tauto
  · intro s hs
    rcases List.mem_append.1 hs with h | h
    · exact shift_writes n _ hn s h
    · simp only [List.mem_cons, List.not_mem_nil, or_false] at h
      rcases h with rfl | rfl | rfl
      · exact ⟨_, _, rfl, by simp [places]; omega⟩
      · exact ⟨_, _, rfl, by simp [places]; omega⟩
      · exact ⟨_, _, rfl, by simp [places]⟩

end Verif.Tx
