import Verif.BitTree.Crash
import Verif.BitTree.RecoverProps

/-!
# Crashes inside an insert that splits a leaf of BitHPBPTree or BitPBPTree

`newLeafNode` allocates the sibling in a transaction; the assignments behind it (`splitLeafNode`,
`insertInLeafNodeAtPosition`) are outside of any transaction.  As in `Crash.lean` they become persistent in program order,
so that a crash leaves a prefix.

BitHPBPTree keeps its branch nodes in volatile memory and rebuilds them from the list of leaves (`Store.recover`); the list
of assignments is complete for it.  BitPBPTree keeps the branch nodes in persistent memory and changes them after the
assignments listed here; lookups after a crash run on the branch nodes as they were before the insert.

Simplification: an assignment through a pointer to a leaf that does not exist and an operation on a bit that does not
exist are modelled as no change; the theorems only meet leaves and bits that exist.
-/

set_option linter.unusedSectionVars false

namespace Verif.BitTree

open Verif Search FPTree BTree

variable {K V : Type} {M : Nat} [LinearOrder K] [Inhabited K] {c : Cfg K V} {adm : K → Prop}

/-! ## Model -/

/-- An assignment to the entries or the bitmap of a leaf. -/
inductive LW (M : Nat) (K V : Type) where
  | key (p : Nat) (k : K)
  | val (p : Nat) (v : V)
  | set (p : Nat)
  | reset (p : Nat)
  | bits (b : Bitmap M)

/-- The effect of an assignment. -/
def LW.apply (l : Leaf M K V) : LW M K V → Leaf M K V
  | .key p k => { l with keys := upd l.keys p k }
  | .val p v => { l with vals := upd l.vals p v }
  | .set p => match l.bits.set p with
    | .ok b => { l with bits := b }
    | _ => l
  | .reset p => match l.bits.reset p with
    | .ok b => { l with bits := b }
    | _ => l
  | .bits b => { l with bits := b }

/-- A change of persistent memory: a new leaf, an assignment to a leaf, a link. -/
inductive SWrite (M : Nat) (K V : Type) where
  | alloc (x : Cell M K V)
  | leaf (i : Nat) (w : LW M K V)
  | next (i : Nat) (o : Option Nat)
  | prev (i : Nat) (o : Option Nat)

/-- The effect of a change. -/
def SWrite.apply (h : Heap M K V) : SWrite M K V → Heap M K V
  | .alloc x => h ++ [x]
  | .leaf i w => h.modify i fun x => { x with leaf := w.apply x.leaf }
  | .next i o => h.modify i fun x => { x with next := o }
  | .prev i o => h.modify i fun x => { x with prev := o }

/-- A sequence of changes. -/
def applyAll (h : Heap M K V) (ws : List (SWrite M K V)) : Heap M K V := ws.foldl SWrite.apply h

/-- BitPBPTree.hpp:945-953: the assignments of the loop of `splitLeafNode` from position `i` on: entry `i` of the leaf `l` at `id`
goes to position `j` of the sibling `n`. -/
def moveWrites (l : Leaf M K V) (sk : K) (id n : Nat) (i j : Nat) : Nat → List (SWrite M K V)
  | 0 => []
  | m + 1 =>
    if sk ≤ l.keys i then
      [.leaf n (.key j (l.keys i)), .leaf n (.val j (l.vals i)), .leaf n (.set j), .leaf id (.reset i)] ++
        moveWrites l sk id n (i + 1) (j + 1) m
    else moveWrites l sk id n (i + 1) j m

/-- BitHPBPTree.hpp:990-998, BitPBPTree.hpp:959-966: the links of the leaf `id` and its new sibling `n`. -/
def linkWrites (id n : Nat) (next : Option Nat) : List (SWrite M K V) :=
  (match next with
    | none => []
    | some j => [.next n next, .prev j (some n)]) ++ [.next id (some n), .prev n (some id)]

/-- BitHPBPTree.hpp:1015-1024, BitPBPTree.hpp:983-992: the assignments of `insertInLeafNodeAtPosition` to the leaf `l` at `i`. -/
def entryWrites (i : Nat) (l : Leaf M K V) (k : K) (v : V) : Res (List (SWrite M K V)) := do
  let u := l.bits.getFreeZero
  Res.assert (u < M)
  pure [.leaf i (.key u k), .leaf i (.val u v), .leaf i (.set u)]

/-- BitHPBPTree.hpp:918-933, BitPBPTree.hpp:883-903: where the new entry goes, given the two halves `l1`, `sib` and the split key:
the index and the leaf. -/
def entryHost (c : Cfg K V) (id n : Nat) (l1 sib : Leaf M K V) (sk k : K) : Res (Nat × Leaf M K V) :=
  if sk < k then .ok (n, sib)
  else do
    let m ← l1.maxPos c
    let km ← rdA M l1.keys m
    if km < k then pure (n, sib) else pure (id, l1)

/-- BitHPBPTree.hpp:908-945 with 954-1005, BitPBPTree.hpp:873-910 with 919-972: the changes of persistent memory by
`insertInLeafNode` of a new key into the full leaf `x` at `id`. -/
def splitWrites (c : Cfg K V) (h : Heap M K V) (id : Nat) (x : Cell M K V) (k : K) (v : V) : Res (List (SWrite M K V)) := do
  let n := h.length
  let r ← findSplitKey c.cv M ⟨M, x.leaf.keys⟩
  let q ← x.leaf.split c
  let ws : List (SWrite M K V) := if c.move then .alloc ⟨Leaf.new c M, none, none⟩ :: moveWrites x.leaf q.2.2 id n 0 0 M
    else [.alloc x, .leaf id (.bits r.1), .leaf n (.bits r.1.flip)]
  let e ← entryHost c id n q.1 q.2.1 q.2.2 k
  let es ← entryWrites e.1 e.2 k v
  pure (ws ++ linkWrites id n x.next ++ es)

/-- Persistent memory after a crash that follows the first `q` changes of an insert that splits the leaf of `k`. -/
def crashSplit (t : Store c M) (k : K) (v : V) (q : Nat) : Res (Store c M) := do
  let id ← findLeaf c t.depth t.root k
  let x ← Res.ofOption t.heap[id]?
  let ws ← splitWrites c t.heap id x k v
  pure { t with heap := applyAll t.heap (ws.take q) }

/-! ## The heap during a split -/

/-- The heap `g` with the cell `a` at `id` and the new cell `b`. -/
def conc (g : Heap M K V) (id : Nat) (a b : Cell M K V) : Heap M K V := g.set id a ++ [b]

theorem conc_length (g : Heap M K V) (id : Nat) (a b : Cell M K V) : (conc g id a b).length = g.length + 1 := by
  simp [conc]

theorem conc_get {g : Heap M K V} {id : Nat} {a b : Cell M K V} (hid : id < g.length) (j : Nat) :
    (conc g id a b)[j]? = if j = id then some a else if j = g.length then some b else g[j]? := by
  unfold conc
  by_cases h1 : j = id
  · subst h1
    rw [if_pos rfl, List.getElem?_append_left (by simpa using hid), List.getElem?_set_self hid]
  · rw [if_neg h1]
    by_cases h2 : j = g.length
    · subst h2
      rw [if_pos rfl, List.getElem?_append_right (by simp)]
      simp
    · rw [if_neg h2]
      by_cases h3 : j < g.length
      · rw [List.getElem?_append_left (by simpa using h3), List.getElem?_set_ne (Ne.symm h1)]
      · rw [List.getElem?_eq_none (l := g) (by omega), List.getElem?_eq_none (by simp; omega)]

theorem modify_id {g : Heap M K V} {id : Nat} {a b : Cell M K V} (hid : id < g.length) (f : Cell M K V → Cell M K V) :
    (conc g id a b).modify id f = conc g id (f a) b := by
  apply List.ext_getElem?
  intro j
  rw [List.getElem?_modify, conc_get hid, conc_get hid]
  by_cases h : id = j
  · subst h; simp
  · have h' : ¬ j = id := fun e => h e.symm
    simp [h, h']

theorem modify_new {g : Heap M K V} {id : Nat} {a b : Cell M K V} (hid : id < g.length) (f : Cell M K V → Cell M K V) :
    (conc g id a b).modify g.length f = conc g id a (f b) := by
  apply List.ext_getElem?
  intro j
  rw [List.getElem?_modify, conc_get hid, conc_get hid]
  have h0 : ¬ g.length = id := by omega
  by_cases h : g.length = j
  · subst h; simp [h0]
  · have h' : ¬ j = g.length := fun e => h e.symm
    simp [h, h']

theorem modify_other {g : Heap M K V} {id : Nat} {a b : Cell M K V} (hid : id < g.length) {i : Nat} (hi : i < g.length) (hne : i ≠ id)
    (f : Cell M K V → Cell M K V) : (conc g id a b).modify i f = conc (g.modify i f) id a b := by
  apply List.ext_getElem?
  intro j
  rw [List.getElem?_modify, conc_get hid, conc_get (by simpa using hid), List.length_modify, List.getElem?_modify]
  by_cases h : i = j
  · subst h
    have : ¬ i = g.length := by omega
    simp [hne, this]
  · simp [h]

section steps

variable {g : Heap M K V} {id : Nat} {a b : Cell M K V}

theorem step_leaf_id (hid : id < g.length) (w : LW M K V) :
    SWrite.apply (conc g id a b) (.leaf id w) = conc g id { a with leaf := w.apply a.leaf } b := modify_id hid _

theorem step_leaf_new (hid : id < g.length) (w : LW M K V) :
    SWrite.apply (conc g id a b) (.leaf g.length w) = conc g id a { b with leaf := w.apply b.leaf } := modify_new hid _

theorem step_next_id (hid : id < g.length) (o : Option Nat) :
    SWrite.apply (conc g id a b) (.next id o) = conc g id { a with next := o } b := modify_id hid _

theorem step_next_new (hid : id < g.length) (o : Option Nat) :
    SWrite.apply (conc g id a b) (.next g.length o) = conc g id a { b with next := o } := modify_new hid _

theorem step_prev_new (hid : id < g.length) (o : Option Nat) :
    SWrite.apply (conc g id a b) (.prev g.length o) = conc g id a { b with prev := o } := modify_new hid _

theorem step_prev (hid : id < g.length) {j : Nat} (hj : j < g.length) (hne : j ≠ id) (o : Option Nat) :
    SWrite.apply (conc g id a b) (.prev j o) = conc (g.modify j fun x => { x with prev := o }) id a b := modify_other hid hj hne _

end steps

theorem applyAll_cons (h : Heap M K V) (w : SWrite M K V) (ws : List (SWrite M K V)) :
    applyAll h (w :: ws) = applyAll (w.apply h) ws := rfl

theorem applyAll_append (h : Heap M K V) (a b : List (SWrite M K V)) : applyAll h (a ++ b) = applyAll (applyAll h a) b :=
  List.foldl_append

/-- A prefix of a concatenation. -/
theorem applyAll_take_append (h : Heap M K V) (a b : List (SWrite M K V)) (q : Nat) :
    applyAll h ((a ++ b).take q) = applyAll (applyAll h (a.take q)) (b.take (q - a.length)) := by
  rw [List.take_append, applyAll_append]

/-! ## The moves of BitPBPTree -/

/-- The keys the loop moves from position `i` on. -/
def movedKeys (l : Leaf M K V) (sk : K) (i : Nat) : Nat → List K
  | 0 => []
  | m + 1 => if sk ≤ l.keys i then l.keys i :: movedKeys l sk (i + 1) m else movedKeys l sk (i + 1) m

theorem mem_movedKeys {l : Leaf M K V} {sk y : K} : ∀ (m i : Nat),
    y ∈ movedKeys l sk i m ↔ ∃ p, i ≤ p ∧ p < i + m ∧ l.keys p = y ∧ sk ≤ y
  | 0, i => by
    simp only [movedKeys, List.not_mem_nil, false_iff]
    rintro ⟨p, h1, h2, _⟩
    omega
  | m + 1, i => by
    rw [movedKeys]
    have ih := mem_movedKeys (l := l) (sk := sk) (y := y) m (i + 1)
    split
    · rename_i h
      rw [List.mem_cons, ih]
      constructor
      · rintro (rfl | ⟨p, h1, h2, h3⟩)
        · exact ⟨i, le_refl i, by omega, rfl, h⟩
        · exact ⟨p, by omega, by omega, h3⟩
      · rintro ⟨p, h1, h2, h3, h4⟩
        by_cases e : p = i
        · subst e; exact Or.inl h3.symm
        · exact Or.inr ⟨p, by omega, by omega, h3, h4⟩
    · rename_i h
      rw [ih]
      constructor
      · rintro ⟨p, h1, h2, h3⟩; exact ⟨p, by omega, by omega, h3⟩
      · rintro ⟨p, h1, h2, h3, h4⟩
        by_cases e : p = i
        · subst e; rw [h3] at h; exact absurd h4 h
        · exact ⟨p, by omega, by omega, h3, h4⟩

theorem moveWrites_length (l : Leaf M K V) (sk : K) (id n : Nat) : ∀ m i j : Nat,
    (moveWrites l sk id n i j m).length = 4 * (movedKeys l sk i m).length
  | 0, _, _ => rfl
  | m + 1, i, j => by
    rw [moveWrites, movedKeys]
    split
    · rw [List.length_append, moveWrites_length l sk id n m, List.length_cons]
      simp only [List.length_cons, List.length_nil]
      omega
    · exact moveWrites_length l sk id n m _ _

theorem movedKeys_nodup {l : Leaf M K V} {sk : K} (hinj : ∀ p q, p < M → q < M → l.keys p = l.keys q → p = q) :
    ∀ m i : Nat, i + m ≤ M → (movedKeys l sk i m).Nodup
  | 0, _, _ => List.nodup_nil
  | m + 1, i, h => by
    rw [movedKeys]
    have ih := movedKeys_nodup (sk := sk) hinj m (i + 1) (by omega)
    split
    · refine List.nodup_cons.2 ⟨fun hm => ?_, ih⟩
      obtain ⟨p, h1, h2, h3, _⟩ := (mem_movedKeys _ _).1 hm
      have := hinj p i (by omega) (by omega) h3
      omega
    · exact ih

/-- After `q` assignments of the loop the first `q / 4` moved keys have lost their bit. -/
theorem move_prefix {g : Heap M K V} {id : Nat} (hid : id < g.length) {l : Leaf M K V} {sk : K}
    (hinj : ∀ p q, p < M → q < M → l.keys p = l.keys q → p = q) (o pr : Option Nat) :
    ∀ (m i j q : Nat) (nb : Bitmap M) (b : Cell M K V), i + m = M → Bitmap.Clean nb →
    ∃ nb' s', applyAll (conc g id ⟨{ l with bits := nb }, o, pr⟩ b) ((moveWrites l sk id g.length i j m).take q) =
        conc g id ⟨{ l with bits := nb' }, o, pr⟩ { b with leaf := s' } ∧ Bitmap.Clean nb' ∧
      ∀ p, p < M → (Bitmap.bit nb' p = true ↔ Bitmap.bit nb p = true ∧ l.keys p ∉ (movedKeys l sk i m).take (q / 4))
  | 0, i, j, q, nb, b, _, hc => ⟨nb, b.leaf, by simp [moveWrites, applyAll], hc, fun p _ => by simp [movedKeys]⟩
  | m + 1, i, j, q, nb, b, hi, hc => by
    rw [moveWrites, movedKeys]
    split
    · match q with
      | 0 => exact ⟨nb, b.leaf, rfl, hc, fun p _ => by simp⟩
      | 1 =>
        refine ⟨nb, (LW.key j (l.keys i)).apply b.leaf, ?_, hc, fun p _ => by simp⟩
        simp only [List.cons_append, List.nil_append, List.take_succ_cons, List.take_zero, applyAll_cons]
        rw [step_leaf_new hid]; rfl
      | 2 =>
        refine ⟨nb, (LW.val j (l.vals i)).apply ((LW.key j (l.keys i)).apply b.leaf), ?_, hc, fun p _ => by simp⟩
        simp only [List.cons_append, List.nil_append, List.take_succ_cons, List.take_zero, applyAll_cons]
        rw [step_leaf_new hid, step_leaf_new hid]; rfl
      | 3 =>
        refine ⟨nb, (LW.set j).apply ((LW.val j (l.vals i)).apply ((LW.key j (l.keys i)).apply b.leaf)), ?_, hc, fun p _ => by simp⟩
        simp only [List.cons_append, List.nil_append, List.take_succ_cons, List.take_zero, applyAll_cons]
        rw [step_leaf_new hid, step_leaf_new hid, step_leaf_new hid]; rfl
      | q + 4 =>
        obtain ⟨nb1, e1, hb1, hc1⟩ := set_bit' (b := nb) (show i < M by omega) false
        obtain ⟨nb', s', e, h1, h2⟩ := move_prefix hid (sk := sk) hinj o pr m (i + 1) (j + 1) q nb1
          { b with leaf := (LW.set j).apply ((LW.val j (l.vals i)).apply ((LW.key j (l.keys i)).apply b.leaf)) } (by omega) (hc1 hc)
        refine ⟨nb', s', ?_, h1, fun p hp => ?_⟩
        · simp only [List.cons_append, List.nil_append, List.take_succ_cons, applyAll_cons]
          rw [step_leaf_new hid, step_leaf_new hid, step_leaf_new hid, step_leaf_id hid]
          have hr : (LW.reset i : LW M K V).apply { l with bits := nb } = { l with bits := nb1 } := by
            simp only [LW.apply, Bitmap.reset_eq_set, e1]
          simp only
          rw [hr]
          exact e
        · rw [h2 p hp, hb1 p hp, show (q + 4) / 4 = q / 4 + 1 by omega, List.take_succ_cons, List.mem_cons]
          by_cases e : p = i
          · subst e; simp
          · rw [if_neg e]
            have : ¬ l.keys p = l.keys i := fun e' => e (hinj p i hp (by omega) e')
            simp [this]
    · exact move_prefix hid hinj o pr m (i + 1) j q nb b (by omega) hc

/-- The complete loop. -/
theorem move_all {g : Heap M K V} {id : Nat} (hid : id < g.length) {l : Leaf M K V} {sk : K} (o pr : Option Nat) :
    ∀ (m i j : Nat) (nb : Bitmap M) (b : Cell M K V) (l1 s1 : Leaf M K V),
    Leaf.moveLoop sk ({ l with bits := nb } : Leaf M K V) b.leaf i j m = .ok (l1, s1) →
    applyAll (conc g id ⟨{ l with bits := nb }, o, pr⟩ b) (moveWrites l sk id g.length i j m) =
      conc g id ⟨l1, o, pr⟩ { b with leaf := s1 }
  | 0, i, j, nb, b, l1, s1, e => by
    cases e; rfl
  | m + 1, i, j, nb, b, l1, s1, e => by
    rw [Leaf.moveLoop] at e
    obtain ⟨x, ex, e⟩ := (Res.bind_eq_ok).1 e
    have hx : x = l.keys i := by
      unfold rdA at ex
      split at ex
      · exact (Res.ok.inj ex).symm
      · cases ex
    subst hx
    rw [moveWrites]
    split at e
    · rename_i h
      rw [if_pos h]
      obtain ⟨v, ev, e⟩ := (Res.bind_eq_ok).1 e
      have hv : v = l.vals i := by
        unfold rdA at ev
        split at ev
        · exact (Res.ok.inj ev).symm
        · cases ev
      subst hv
      obtain ⟨s, es, e⟩ := (Res.bind_eq_ok).1 e
      obtain ⟨nb1, en, e⟩ := (Res.bind_eq_ok).1 e
      have := move_all (l := l) hid o pr m (i + 1) (j + 1) nb1 { b with leaf := s } l1 s1 e
      simp only [List.cons_append, List.nil_append, applyAll_cons]
      rw [step_leaf_new hid, step_leaf_new hid, step_leaf_new hid, step_leaf_id hid]
      have hr : (LW.reset i : LW M K V).apply { l with bits := nb } = { l with bits := nb1 } := by
        simp only [LW.apply]
        rw [show nb.reset i = Res.ok nb1 from en]
      have hs : (LW.set j).apply ((LW.val j (l.vals i)).apply ((LW.key j (l.keys i)).apply b.leaf)) = s := by
        unfold Leaf.fill at es
        obtain ⟨b', eb, es⟩ := (Res.bind_eq_ok).1 es
        rw [← Res.ok.inj es]
        simp only [LW.apply, eb]
      simp only
      rw [hr, hs]
      exact this
    · rename_i h
      rw [if_neg h]
      exact move_all hid o pr m (i + 1) j nb b l1 s1 e

end Verif.BitTree
