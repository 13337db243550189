import Verif.BitTree.SplitCrash
import Verif.BitTree.UnderflowProps

/-!
# The states an insert that splits a leaf passes through
-/

set_option linter.unusedSectionVars false

namespace Verif.BitTree

open Verif Search FPTree BTree

variable {K V : Type} {M : Nat} [LinearOrder K] [Inhabited K] {c : Cfg K V} {adm : K → Prop}

/-! ## Links -/

theorem nextOf_some {h : Heap M K V} {i : Nat} {o : Option Nat} :
    nextOf h i = some o ↔ ∃ x, h[i]? = some x ∧ x.next = o := by
  unfold nextOf; rw [Option.map_eq_some_iff]

/-- Leaves and forward links are those of `h`. -/
def SameLeaves (h g : Heap M K V) : Prop := g.length = h.length ∧ ∀ j, core g j = core h j ∧ nextOf g j = nextOf h j

theorem sameLeaves_refl (h : Heap M K V) : SameLeaves h h := ⟨rfl, fun _ => ⟨rfl, rfl⟩⟩

theorem sameLeaves_prev {h g : Heap M K V} (hs : SameLeaves h g) (i : Nat) (o : Option Nat) :
    SameLeaves h (g.modify i fun x => { x with prev := o }) := by
  refine ⟨by rw [List.length_modify, hs.1], fun j => ⟨?_, ?_⟩⟩
  · rw [← (hs.2 j).1]
    unfold core
    rw [List.getElem?_modify]
    cases hg : g[j]? with
    | none => rfl
    | some x =>
      by_cases h : i = j <;> simp [h]
  · rw [← (hs.2 j).2]
    unfold nextOf
    rw [List.getElem?_modify]
    cases hg : g[j]? with
    | none => rfl
    | some x =>
      by_cases h : i = j <;> simp [h]

/-- The number of assignments before the sibling is linked. -/
def linkAt (next : Option Nat) : Nat := match next with
  | none => 1
  | some _ => 3

/-- The heap after a prefix of the link assignments. -/
theorem link_prefix {h g : Heap M K V} {id : Nat} (hs : SameLeaves h g) (hid : id < g.length) {nx : Option Nat}
    (hnx : ∀ j, nx = some j → j < g.length ∧ j ≠ id) {a b : Cell M K V} (ha : a.next = nx) (hb : nx = none → b.next = none) (q : Nat) :
    ∃ g' a' b', applyAll (conc g id a b) ((linkWrites id g.length nx).take q) = conc g' id a' b' ∧ SameLeaves h g' ∧
      a'.leaf = a.leaf ∧ b'.leaf = b.leaf ∧ (q < linkAt nx → a'.next = nx) ∧
      (linkAt nx ≤ q → a'.next = some g.length ∧ b'.next = nx) ∧ (b'.next = b.next ∨ b'.next = nx) := by
  cases nx with
  | none =>
    unfold linkWrites linkAt
    simp only [List.nil_append]
    match q with
    | 0 => exact ⟨g, a, b, rfl, hs, rfl, rfl, fun _ => ha, fun h => by omega, Or.inl rfl⟩
    | 1 =>
      refine ⟨g, { a with next := some g.length }, b, ?_, hs, rfl, rfl, fun h => by omega, fun _ => ⟨rfl, hb rfl⟩, Or.inl rfl⟩
      simp only [List.take_succ_cons, List.take_zero, applyAll_cons]
      rw [step_next_id hid]; rfl
    | q + 2 =>
      refine ⟨g, { a with next := some g.length }, { b with prev := some id }, ?_, hs, rfl, rfl, fun h => by omega, fun _ => ⟨rfl, hb rfl⟩, Or.inl rfl⟩
      simp only [List.take_succ_cons, List.take_nil, applyAll_cons]
      rw [step_next_id hid, step_prev_new hid]; rfl
  | some j =>
    obtain ⟨hj, hji⟩ := hnx j rfl
    have hs' := sameLeaves_prev hs j (some g.length)
    have hid' : id < (g.modify j fun x => { x with prev := some g.length }).length := by simpa using hid
    have e2 := step_prev (a := a) (b := { b with next := some j }) hid hj hji (some g.length)
    have e3 := step_next_id (a := a) (b := { b with next := some j }) hid' (some g.length)
    have e4 := step_prev_new (a := { a with next := some g.length }) (b := { b with next := some j }) hid' (some id)
    rw [List.length_modify] at e4
    unfold linkWrites linkAt
    simp only [List.cons_append, List.nil_append]
    match q with
    | 0 => exact ⟨g, a, b, rfl, hs, rfl, rfl, fun _ => ha, fun h => by omega, Or.inl rfl⟩
    | 1 =>
      refine ⟨g, a, { b with next := some j }, ?_, hs, rfl, rfl, fun _ => ha, fun h => by omega, Or.inr rfl⟩
      simp only [List.take_succ_cons, List.take_zero, applyAll_cons]
      rw [step_next_new hid]; rfl
    | 2 =>
      refine ⟨_, a, { b with next := some j }, ?_, hs', rfl, rfl, fun _ => ha, fun h => by omega, Or.inr rfl⟩
      simp only [List.take_succ_cons, List.take_zero, applyAll_cons]
      rw [step_next_new hid, e2]; rfl
    | 3 =>
      refine ⟨_, { a with next := some g.length }, { b with next := some j }, ?_, hs', rfl, rfl, fun h => by omega, fun _ => ⟨rfl, rfl⟩, Or.inr rfl⟩
      simp only [List.take_succ_cons, List.take_zero, applyAll_cons]
      rw [step_next_new hid, e2, e3]; rfl
    | q + 4 =>
      refine ⟨_, { a with next := some g.length }, { b with next := some j, prev := some id }, ?_, hs', rfl, rfl, fun h => by omega, fun _ => ⟨rfl, rfl⟩, Or.inr rfl⟩
      simp only [List.take_succ_cons, List.take_nil, applyAll_cons]
      rw [step_next_new hid, e2, e3, e4]; rfl

/-- The heap with the backward link of the leaf behind. -/
def linkHeap (g : Heap M K V) : Option Nat → Heap M K V
  | none => g
  | some j => g.modify j fun x => { x with prev := some g.length }

theorem linkHeap_length (g : Heap M K V) (nx : Option Nat) : (linkHeap g nx).length = g.length := by
  cases nx <;> simp [linkHeap]

/-- The heap after all link assignments. -/
theorem link_all {g : Heap M K V} {id : Nat} (hid : id < g.length) {nx : Option Nat} {l r : Leaf M K V} {o p pr : Option Nat}
    (hnx : ∀ j, nx = some j → j < g.length ∧ j ≠ id) (ho : nx = none → o = none) :
    applyAll (conc g id ⟨l, nx, p⟩ ⟨r, o, pr⟩) (linkWrites id g.length nx) =
      conc (linkHeap g nx) id ⟨l, some g.length, p⟩ ⟨r, nx, some id⟩ := by
  cases nx with
  | none =>
    obtain rfl := ho rfl
    unfold linkWrites
    simp only [List.nil_append, applyAll_cons]
    rw [step_next_id hid, step_prev_new hid]; rfl
  | some j =>
    obtain ⟨hj, hji⟩ := hnx j rfl
    have hid' : id < (g.modify j fun x => { x with prev := some g.length }).length := by simpa using hid
    have e2 := step_prev (a := ⟨l, some j, p⟩) (b := ⟨r, some j, pr⟩) hid hj hji (some g.length)
    have e3 := step_next_id (a := ⟨l, some j, p⟩) (b := ⟨r, some j, pr⟩) hid' (some g.length)
    have e4 := step_prev_new (a := ⟨l, some g.length, p⟩) (b := ⟨r, some j, pr⟩) hid' (some id)
    rw [List.length_modify] at e4
    unfold linkWrites
    simp only [List.cons_append, List.nil_append, applyAll_cons]
    rw [step_next_new hid]
    simp only
    rw [e2, e3, e4]; rfl

/-- `setPrev` as part of `insLeaf`. -/
theorem setPrev_link {g : Heap M K V} {id : Nat} (hid : id < g.length) {nx : Option Nat} (y : Cell M K V)
    (hnx : ∀ j, nx = some j → j < g.length ∧ j ≠ id) :
    setPrev (g.set id y) nx g.length = .ok ((linkHeap g nx).set id y) := by
  cases nx with
  | none => rfl
  | some j =>
    obtain ⟨hj, hji⟩ := hnx j rfl
    unfold setPrev linkHeap
    simp only
    obtain ⟨z, hz⟩ : ∃ z, g[j]? = some z := ⟨_, List.getElem?_eq_getElem hj⟩
    rw [List.getElem?_set_ne (Ne.symm hji), hz, Res.ofOption_some, Res.ok_bind]
    show Res.ok _ = _
    congr 1
    apply List.ext_getElem?
    intro i
    by_cases h1 : i = j
    · subst h1
      rw [List.getElem?_set_self (by simpa using hj), List.getElem?_set_ne (Ne.symm hji), List.getElem?_modify, hz]
      simp
    · rw [List.getElem?_set_ne (Ne.symm h1)]
      by_cases h2 : i = id
      · subst h2
        rw [List.getElem?_set_self hid, List.getElem?_set_self (by simpa using hid)]
      · rw [List.getElem?_set_ne (Ne.symm h2), List.getElem?_set_ne (Ne.symm h2), List.getElem?_modify]
        have : ¬ j = i := fun e => h1 e.symm
        simp [this]

/-! ## The entry -/

/-- The leaf after a prefix of the three assignments of the new entry. -/
def entryLeaf (l : Leaf M K V) (u : Nat) (k : K) (v : V) : Nat → Leaf M K V
  | 0 => l
  | 1 => (LW.key u k).apply l
  | 2 => (LW.val u v).apply ((LW.key u k).apply l)
  | _ => (LW.set u).apply ((LW.val u v).apply ((LW.key u k).apply l))

theorem entry_new {g : Heap M K V} {id : Nat} (hid : id < g.length) (a b : Cell M K V) (u : Nat) (k : K) (v : V) (q : Nat) :
    applyAll (conc g id a b) ([.leaf g.length (.key u k), .leaf g.length (.val u v), .leaf g.length (.set u)].take q) =
      conc g id a { b with leaf := entryLeaf b.leaf u k v q } := by
  match q with
  | 0 => rfl
  | 1 =>
    simp only [List.take_succ_cons, List.take_zero, applyAll_cons]
    rw [step_leaf_new hid]; rfl
  | 2 =>
    simp only [List.take_succ_cons, List.take_zero, applyAll_cons]
    rw [step_leaf_new hid, step_leaf_new hid]; rfl
  | q + 3 =>
    simp only [List.take_succ_cons, List.take_nil, applyAll_cons]
    rw [step_leaf_new hid, step_leaf_new hid, step_leaf_new hid]; rfl

theorem entry_id {g : Heap M K V} {id : Nat} (hid : id < g.length) (a b : Cell M K V) (u : Nat) (k : K) (v : V) (q : Nat) :
    applyAll (conc g id a b) ([.leaf id (.key u k), .leaf id (.val u v), .leaf id (.set u)].take q) =
      conc g id { a with leaf := entryLeaf a.leaf u k v q } b := by
  match q with
  | 0 => rfl
  | 1 =>
    simp only [List.take_succ_cons, List.take_zero, applyAll_cons]
    rw [step_leaf_id hid]; rfl
  | 2 =>
    simp only [List.take_succ_cons, List.take_zero, applyAll_cons]
    rw [step_leaf_id hid, step_leaf_id hid]; rfl
  | q + 3 =>
    simp only [List.take_succ_cons, List.take_nil, applyAll_cons]
    rw [step_leaf_id hid, step_leaf_id hid, step_leaf_id hid]; rfl

/-- Before the bit is set the entries are the old ones; then the leaf is the one `insertAt` builds. -/
theorem entryLeaf_law {l : Leaf M K V} (h : LOk l) (hz : ∃ p, p < M ∧ Bitmap.bit l.bits p = false) {k : K} (v : V)
    (hk : ∀ w, ¬ Has l k w) (q : Nat) :
    LOk (entryLeaf l l.bits.getFreeZero k v q) ∧
      (∀ y w, Has (entryLeaf l l.bits.getFreeZero k v q) y w ↔ Has l y w ∨ (3 ≤ q ∧ y = k ∧ w = v)) ∧
      (3 ≤ q → l.insertAt l.bits.getFreeZero k v = .ok (entryLeaf l l.bits.getFreeZero k v q)) := by
  obtain ⟨hu, hb⟩ := free_of_zero hz
  match q with
  | 0 => exact ⟨h, fun y w => by simp [entryLeaf], fun h => by omega⟩
  | 1 =>
    have f := has_free (l := l) (l' := entryLeaf l l.bits.getFreeZero k v 1) rfl hb
        (fun p hp => by simp [entryLeaf, LW.apply, upd, hp]) (fun p _ => rfl) h
    exact ⟨f.1, fun y w => by rw [f.2]; simp, fun h => by omega⟩
  | 2 =>
    have f := has_free (l := l) (l' := entryLeaf l l.bits.getFreeZero k v 2) rfl hb
        (fun p hp => by simp [entryLeaf, LW.apply, upd, hp]) (fun p hp => by simp [entryLeaf, LW.apply, upd, hp]) h
    exact ⟨f.1, fun y w => by rw [f.2]; simp, fun h => by omega⟩
  | q + 3 =>
    obtain ⟨l', e, g1, g2⟩ := insertAt_law h hz v hk
    have he : entryLeaf l l.bits.getFreeZero k v (q + 3) = l' := by
      unfold Leaf.insertAt Leaf.fill at e
      rw [Res.assert_pos hu] at e
      obtain ⟨_, _, e⟩ := (Res.bind_eq_ok).1 e
      obtain ⟨b', eb, e⟩ := (Res.bind_eq_ok).1 e
      rw [← Res.ok.inj e]
      simp only [entryLeaf, LW.apply, eb]
    rw [he]
    refine ⟨g1, fun y w => ?_, fun _ => e⟩
    rw [g2]
    constructor
    · rintro (h | h)
      · exact Or.inr ⟨by omega, h⟩
      · exact Or.inl h
    · rintro (h | ⟨_, h⟩)
      · exact Or.inr h
      · exact Or.inl h

/-! ## All states -/

/-- The heap `h'` differs from `h` in the leaf `id`, which is `a` with the link `o`, in backward links, and in new leaves. -/
structure SplitState (h h' : Heap M K V) (id : Nat) (a : Leaf M K V) (o : Option Nat) : Prop where
  len : h.length ≤ h'.length
  link : LinkOk h'
  others : ∀ j, j < h.length → j ≠ id → core h' j = core h j ∧ nextOf h' j = nextOf h j
  leaf : core h' id = some a
  next : nextOf h' id = some o

theorem core_of {h : Heap M K V} {i : Nat} {x : Cell M K V} (hx : h[i]? = some x) : core h i = some x.leaf := core_some.2 ⟨x, hx, rfl⟩

theorem nextOf_of {h : Heap M K V} {i : Nat} {x : Cell M K V} (hx : h[i]? = some x) : nextOf h i = some x.next := nextOf_some.2 ⟨x, hx, rfl⟩

theorem conc_state {h g : Heap M K V} {id : Nat} (hs : SameLeaves h g) (hid : id < h.length) (hL : LinkOk h) {a b : Cell M K V}
    (ha : ∀ j, a.next = some j → j ≤ h.length) (hb : ∀ j, b.next = some j → j ≤ h.length) :
    SplitState h (conc g id a b) id a.leaf a.next ∧ core (conc g id a b) h.length = some b.leaf ∧
      nextOf (conc g id a b) h.length = some b.next ∧ (conc g id a b).length = h.length + 1 := by
  have hidg : id < g.length := by rw [hs.1]; exact hid
  have hlen : (conc g id a b).length = h.length + 1 := by rw [conc_length, hs.1]
  have h1 : (conc g id a b)[id]? = some a := by rw [conc_get hidg, if_pos rfl]
  have h2 : (conc g id a b)[h.length]? = some b := by
    rw [conc_get hidg, if_neg (by omega), if_pos hs.1.symm]
  have h3 : ∀ j, j < h.length → j ≠ id → (conc g id a b)[j]? = g[j]? := by
    intro j hj hne
    rw [conc_get hidg, if_neg hne, if_neg (by rw [hs.1]; omega)]
  refine ⟨⟨by omega, ?_, ?_, core_of h1, nextOf_of h1⟩, core_of h2, nextOf_of h2, hlen⟩
  · intro i y hy n hn
    rw [hlen]
    by_cases e1 : i = id
    · subst e1; rw [h1] at hy; cases hy
      have := ha n hn; omega
    · by_cases e2 : i = h.length
      · subst e2; rw [h2] at hy; cases hy
        have := hb n hn; omega
      · have hi : i < h.length := by
          have := (List.getElem?_eq_some_iff.1 hy).1
          omega
        rw [h3 i hi e1] at hy
        have := (hs.2 i).2
        rw [nextOf_of hy] at this
        obtain ⟨z, hz, hzn⟩ := nextOf_some.1 this.symm
        have := hL i z hz n (hzn.trans hn)
        omega
  · intro j hj hne
    have := hs.2 j
    unfold core nextOf at *
    rw [h3 j hj hne]
    exact this

/-- The keys a split takes away from a leaf. -/
def upper (l : Leaf M K V) (sk : K) : List K := movedKeys l sk 0 M

theorem mem_upper {l : Leaf M K V} {sk y : K} : y ∈ upper l sk ↔ ∃ p, p < M ∧ l.keys p = y ∧ sk ≤ y := by
  unfold upper
  rw [mem_movedKeys]
  constructor
  · rintro ⟨p, _, h2, h3⟩; exact ⟨p, by omega, h3⟩
  · rintro ⟨p, h2, h3⟩; exact ⟨p, by omega, by omega, h3⟩

/-- The number of changes before the links. -/
def movesLen (c : Cfg K V) (l : Leaf M K V) (sk : K) : Nat := if c.move then 1 + 4 * (upper l sk).length else 3

/-- The number of changes before the sibling is linked, this one included. -/
def linkedAt (c : Cfg K V) (x : Cell M K V) (sk : K) : Nat := movesLen c x.leaf sk + linkAt x.next

/-- The number of all changes. -/
def splitLen (c : Cfg K V) (x : Cell M K V) (sk : K) : Nat := movesLen c x.leaf sk + linkAt x.next + 4

/-- The keys without a bit in the split leaf after `q` changes. -/
def lostKeys (c : Cfg K V) (l : Leaf M K V) (sk : K) (q : Nat) : List K :=
  if c.move then (upper l sk).take ((q - 1) / 4) else if q < 2 then [] else upper l sk

/-- The new key goes to the left leaf: it is smaller than some key below the split key. -/
def goesLeft (l : Leaf M K V) (sk k : K) : Prop := ∃ p, p < M ∧ k < l.keys p ∧ l.keys p < sk

theorem linkWrites_length (id n : Nat) (nx : Option Nat) : (linkWrites (M := M) (K := K) (V := V) id n nx).length = linkAt nx + 1 := by
  cases nx <;> rfl

/-- The changes before the links. -/
theorem first_part (F : Laws c adm) (hM : 2 ≤ M) (hm : c.move = false → M % 64 ≠ 0) {h : Heap M K V} {id : Nat} {x : Cell M K V}
    (hx : h[id]? = some x) (hl : LOk x.leaf) (hfull : ∀ p, p < M → Bitmap.bit x.leaf.bits p = true) (ha : ∀ p, p < M → adm (x.leaf.keys p)) :
    ∃ r l1 s1 sk o p, findSplitKey c.cv M ⟨M, x.leaf.keys⟩ = .ok r ∧ x.leaf.split c = .ok (l1, s1, sk) ∧
      (x.next = none → o = none) ∧ (∀ j, o = some j → j = h.length ∨ x.next = some j) ∧
      ∀ ws : List (SWrite M K V), ws = (if c.move then .alloc ⟨Leaf.new c M, none, none⟩ :: moveWrites x.leaf sk id h.length 0 0 M
        else [.alloc x, .leaf id (.bits r.1), .leaf h.length (.bits r.1.flip)]) →
      ws.length = movesLen c x.leaf sk ∧
      (∀ q, movesLen c x.leaf sk ≤ q → applyAll h (ws.take q) = conc h id ⟨l1, x.next, x.prev⟩ ⟨s1, o, p⟩) ∧
      ∀ q, 1 ≤ q → ∃ nb s', applyAll h (ws.take q) = conc h id ⟨{ x.leaf with bits := nb }, x.next, x.prev⟩ ⟨s', o, p⟩ ∧
        LOk ({ x.leaf with bits := nb } : Leaf M K V) ∧
        ∀ y w, Has ({ x.leaf with bits := nb } : Leaf M K V) y w ↔ Has x.leaf y w ∧ y ∉ lostKeys c x.leaf sk q := by
  obtain ⟨hid, hxe⟩ := List.getElem?_eq_some_iff.1 hx
  have hinj : ∀ i j, i < M → j < M → x.leaf.keys i = x.leaf.keys j → i = j := fun i j hi hj =>
    hl.inj i j hi hj (hfull i hi) (hfull j hj)
  obtain ⟨l1, s1, sk, e, _, _, g3, _⟩ := split_law F hM hm hl hfull ha
  have e0 := e
  unfold Leaf.split at e
  obtain ⟨r, er, e⟩ := (Res.bind_eq_ok).1 e
  obtain ⟨sk', esk, e⟩ := (Res.bind_eq_ok).1 e
  have hset : ∀ y : Cell M K V, h ++ [y] = conc h id x y := by
    intro y
    unfold conc
    congr 1
    rw [← hxe, List.set_getElem_self]
  cases hmv : c.move with
  | true =>
    rw [hmv, if_pos rfl] at e
    obtain ⟨⟨l1', s1'⟩, em, e⟩ := (Res.bind_eq_ok).1 e
    have e' := Res.ok.inj e
    simp only [Prod.mk.injEq] at e'
    obtain ⟨rfl, rfl, rfl⟩ := e'
    refine ⟨r, l1', s1', sk', none, none, er, e0, fun _ => rfl, (fun _ h => by cases h), fun ws hws => ?_⟩
    simp only [if_true] at hws
    subst hws
    have hlen : (SWrite.alloc ⟨Leaf.new c M, none, none⟩ :: moveWrites x.leaf sk' id h.length 0 0 M).length = movesLen c x.leaf sk' := by
      rw [List.length_cons, moveWrites_length, movesLen, hmv, if_pos rfl]; unfold upper; omega
    have hall := move_all hid x.next x.prev M 0 0 x.leaf.bits ⟨Leaf.new c M, none, none⟩ l1' s1' em
    refine ⟨hlen, fun q hq => ?_, fun q hq => ?_⟩
    · rw [List.take_of_length_le (by omega), applyAll_cons]
      show applyAll (h ++ [_]) _ = _
      rw [hset]
      exact hall
    · obtain ⟨q, rfl⟩ : ∃ q', q = q' + 1 := ⟨q - 1, by omega⟩
      obtain ⟨nb, s', f1, f2, f3⟩ := move_prefix hid (sk := sk') hinj x.next x.prev M 0 0 q x.leaf.bits ⟨Leaf.new c M, none, none⟩
        (by omega) hl.clean
      refine ⟨nb, s', ?_, ⟨f2, fun i j hi hj _ _ => hinj i j hi hj⟩, fun y w => ?_⟩
      · rw [List.take_succ_cons, applyAll_cons]
        show applyAll (h ++ [_]) _ = _
        rw [hset]
        exact f1
      · unfold lostKeys
        rw [hmv, if_pos rfl, Nat.add_sub_cancel]
        constructor
        · rintro ⟨p, hp, hb, rfl, rfl⟩
          obtain ⟨h1, h2⟩ := (f3 p hp).1 hb
          exact ⟨⟨p, hp, h1, rfl, rfl⟩, h2⟩
        · rintro ⟨⟨p, hp, hb, rfl, rfl⟩, h2⟩
          exact ⟨p, hp, (f3 p hp).2 ⟨hb, h2⟩, rfl, rfl⟩
  | false =>
    rw [hmv, if_neg (by decide)] at e
    have e' := Res.ok.inj e
    simp only [Prod.mk.injEq] at e'
    obtain ⟨rfl, rfl, rfl⟩ := e'
    obtain ⟨_, _, _, e1, k1, _, k3, _⟩ := split_law F hM hm hl hfull ha
    rw [e0] at e1
    have e1 := Res.ok.inj e1
    simp only [Prod.mk.injEq] at e1
    obtain ⟨rfl, rfl, rfl⟩ := e1
    have hlow : ∀ y w, Has ({ x.leaf with bits := r.1 } : Leaf M K V) y w ↔ Has x.leaf y w ∧ y ∉ upper x.leaf sk' := by
      intro y w
      rw [k3]
      refine and_congr_right fun hy => ?_
      rw [mem_upper]
      constructor
      · rintro h ⟨_, _, _, h'⟩; exact absurd h (not_lt.2 h')
      · intro h
        obtain ⟨p, hp, _, rfl, _⟩ := hy
        exact not_le.1 fun hle => h ⟨p, hp, rfl, hle⟩
    refine ⟨r, _, _, sk', x.next, x.prev, er, e0, fun h => h, fun _ h => Or.inr h, fun ws hws => ?_⟩
    rw [if_neg (by decide)] at hws
    subst hws
    have hml : movesLen c x.leaf sk' = 3 := by unfold movesLen; rw [hmv]; rfl
    have hA : SWrite.apply h (.alloc x) = conc h id x x := hset x
    have h1 : applyAll h [.alloc x] = conc h id x x := hset x
    have h2 : applyAll h [.alloc x, .leaf id (.bits r.1)] = conc h id { x with leaf := { x.leaf with bits := r.1 } } x := by
      rw [applyAll_cons, hA, applyAll_cons, step_leaf_id hid]; rfl
    have h3 : applyAll h [.alloc x, .leaf id (.bits r.1), .leaf h.length (.bits r.1.flip)] =
        conc h id { x with leaf := { x.leaf with bits := r.1 } } { x with leaf := { x.leaf with bits := r.1.flip } } := by
      rw [applyAll_cons, hA, applyAll_cons, step_leaf_id hid, applyAll_cons, step_leaf_new hid]; rfl
    refine ⟨hml.symm, fun q hq => ?_, fun q hq => ?_⟩
    · rw [hml] at hq
      rw [List.take_of_length_le (by simpa using hq), h3]
    · unfold lostKeys
      rw [hmv, if_neg (by decide)]
      match q with
      | 1 => exact ⟨x.leaf.bits, x.leaf, h1, hl, fun y w => by simp⟩
      | 2 => exact ⟨r.1, x.leaf, h2, k1, fun y w => by rw [if_neg (by omega)]; exact hlow y w⟩
      | q + 3 => exact ⟨r.1, { x.leaf with bits := r.1.flip }, by rw [List.take_of_length_le (by simp)]; exact h3, k1, fun y w => by rw [if_neg (by omega)]; exact hlow y w⟩

/-- What is in the leaf `id` and in its sibling after `q` changes. -/
structure AtPoint (c : Cfg K V) (h : Heap M K V) (id : Nat) (x : Cell M K V) (sk k : K) (v : V) (q : Nat) (h' : Heap M K V)
    (a : Leaf M K V) (o : Option Nat) : Prop where
  st : SplitState h h' id a o
  lok : LOk a
  has : ∀ y w, Has a y w ↔ (Has x.leaf y w ∧ y ∉ lostKeys c x.leaf sk q) ∨ (splitLen c x sk ≤ q ∧ goesLeft x.leaf sk k ∧ y = k ∧ w = v)
  unlinked : q < linkedAt c x sk → o = x.next
  linked : linkedAt c x sk ≤ q → o = some h.length ∧ h'.length = h.length + 1 ∧ nextOf h' h.length = some x.next ∧
    ∃ b, core h' h.length = some b ∧ LOk b ∧
      ∀ y w, Has b y w ↔ (Has x.leaf y w ∧ sk ≤ y) ∨ (splitLen c x sk ≤ q ∧ ¬ goesLeft x.leaf sk k ∧ y = k ∧ w = v)

theorem lostKeys_all {l : Leaf M K V} {sk : K} {q : Nat} (hq : movesLen c l sk ≤ q) : lostKeys c l sk q = upper l sk := by
  unfold lostKeys movesLen at *
  cases hmv : c.move with
  | true =>
    rw [hmv, if_pos rfl] at hq
    rw [if_pos rfl, List.take_of_length_le (by omega)]
  | false =>
    rw [hmv, if_neg (by decide)] at hq
    rw [if_neg (by decide), if_neg (by omega)]

/-- All states of an insert of a new key into a full leaf, and the result. -/
theorem split_states (F : Laws c adm) (hM : 2 ≤ M) (hm : c.move = false → M % 64 ≠ 0) {h : Heap M K V} (hL : LinkOk h) {id : Nat}
    {x : Cell M K V} (hx : h[id]? = some x) (hl : LOk x.leaf) (hfull : ∀ p, p < M → Bitmap.bit x.leaf.bits p = true)
    (ha : ∀ p, p < M → adm (x.leaf.keys p)) (hnid : x.next ≠ some id) {k : K} (hno : ∀ w, ¬ Has x.leaf k w) (v : V) :
    ∃ sk ws, splitWrites c h id x k v = .ok ws ∧ ws.length = splitLen c x sk ∧ (∃ p, p < M ∧ x.leaf.keys p = sk) ∧
      (∃ p, p < M ∧ x.leaf.keys p < sk) ∧
      (∀ q, ∃ a o, AtPoint c h id x sk k v q (applyAll h (ws.take q)) a o) ∧
      ∃ s, insLeaf c h id k v = .ok (applyAll h ws, some (s, h.length)) := by
  obtain ⟨hid, hxe⟩ := List.getElem?_eq_some_iff.1 hx
  obtain ⟨r, l1, s1, sk, o, pr, er, es, ho, ho', hws⟩ := first_part F hM hm hx hl hfull ha
  obtain ⟨l1', s1', sk', es', g1, g2, g3, g4, ⟨q0, g5, g5'⟩, ⟨y0, g6⟩, g7, g8, g9⟩ := split_law F hM hm hl hfull ha
  rw [es] at es'
  have es'' := Res.ok.inj es'
  simp only [Prod.mk.injEq] at es''
  obtain ⟨rfl, rfl, rfl⟩ := es''
  obtain ⟨w1, w2, w3⟩ := hws _ rfl
  have hks : k ≠ sk := by rintro rfl; exact hno _ g6
  have hn1 : ∀ w, ¬ Has l1 k w := fun w hw => hno w ((g3 k w).1 hw).1
  have hn2 : ∀ w, ¬ Has s1 k w := fun w hw => hno w ((g4 k w).1 hw).1
  have hnx : ∀ j, x.next = some j → j < h.length ∧ j ≠ id := fun j hj => ⟨hL id x hx j hj, by rintro rfl; exact hnid hj⟩
  have hol : ∀ j, o = some j → j ≤ h.length := by
    intro j hj
    rcases ho' j hj with rfl | h'
    · exact le_refl _
    · exact (hnx j h').1.le
  -- the host
  have hhost : ∃ i l, entryHost c id h.length l1 s1 sk k = .ok (i, l) ∧
      ((goesLeft x.leaf sk k ∧ i = id ∧ l = l1) ∨ (¬ goesLeft x.leaf sk k ∧ i = h.length ∧ l = s1)) := by
    unfold entryHost
    by_cases hc : sk < k
    · rw [if_pos hc]
      refine ⟨_, _, rfl, Or.inr ⟨?_, rfl, rfl⟩⟩
      rintro ⟨p, _, h1, h2⟩
      exact absurd (h1.trans h2) (not_lt.2 hc.le)
    · rw [if_neg hc]
      have hadm0 : adm (l1.keys q0) := by rw [g9]; exact ha q0 g5
      obtain ⟨m, em, m1, m2, m3⟩ := maxPos_spec F g5 g5' hadm0
      rw [em, Res.ok_bind, rdA_ok m1, Res.ok_bind]
      by_cases hd : l1.keys m < k
      · rw [if_pos hd]
        refine ⟨_, _, rfl, Or.inr ⟨?_, rfl, rfl⟩⟩
        rintro ⟨p, hp, h1, h2⟩
        obtain ⟨p', hp', hb', hk', _⟩ := (g3 _ _).2 ⟨⟨p, hp, hfull p hp, rfl, rfl⟩, h2⟩
        have := m3 p' hp' hb'
        rw [hk'] at this
        exact absurd (lt_of_le_of_lt this hd) (not_lt.2 h1.le)
      · rw [if_neg hd]
        refine ⟨_, _, rfl, Or.inl ⟨⟨m, m1, ?_, ?_⟩, rfl, rfl⟩⟩
        · rw [← g9]
          refine lt_of_le_of_ne (not_lt.1 hd) ?_
          intro e
          exact hn1 (l1.vals m) ⟨m, m1, m2, e.symm, rfl⟩
        · have := ((g3 _ _).1 ⟨m, m1, m2, rfl, rfl⟩).2
          rw [g9] at this
          exact this
  obtain ⟨i, l, eh, hcase⟩ := hhost
  have hz : ∃ p, p < M ∧ Bitmap.bit l.bits p = false := by
    rcases hcase with ⟨_, _, rfl⟩ | ⟨_, _, rfl⟩
    exacts [g7, g8]
  obtain ⟨hu, _⟩ := free_of_zero hz
  obtain ⟨ews, hes⟩ : ∃ ews : List (SWrite M K V), ews = [.leaf i (.key l.bits.getFreeZero k), .leaf i (.val l.bits.getFreeZero v), .leaf i (.set l.bits.getFreeZero)] :=
    ⟨_, rfl⟩
  have ee : entryWrites i l k v = .ok ews := by
    rw [hes]
    unfold entryWrites
    simp only
    rw [Res.assert_pos hu]; rfl
  have hesl : ews.length = 3 := by rw [hes]; rfl
  generalize hws1 : (if c.move = true then SWrite.alloc ⟨Leaf.new c M, none, none⟩ :: moveWrites x.leaf sk id h.length 0 0 M
        else [SWrite.alloc x, SWrite.leaf id (LW.bits r.1), SWrite.leaf h.length (LW.bits r.1.flip)]) = ws1 at w1 w2 w3
  have esw : splitWrites c h id x k v = .ok (ws1 ++ linkWrites id h.length x.next ++ ews) := by
    unfold splitWrites
    simp only
    rw [er, Res.ok_bind, es, Res.ok_bind]
    simp only
    rw [eh, Res.ok_bind]
    simp only
    rw [ee, Res.ok_bind, ← hws1]; rfl
  have hlw := linkWrites_length (M := M) (K := K) (V := V) id h.length x.next
  have hl1 : ∀ y w, Has l1 y w ↔ Has x.leaf y w ∧ y ∉ upper x.leaf sk := by
    intro y w
    rw [g3]
    refine and_congr_right fun hy => ?_
    rw [mem_upper]
    constructor
    · rintro h ⟨_, _, _, h'⟩; exact absurd h (not_lt.2 h')
    · intro h
      obtain ⟨p, hp, _, rfl, _⟩ := hy
      exact not_le.1 fun hle => h ⟨p, hp, rfl, hle⟩
  have htake : ∀ q, applyAll h ((ws1 ++ linkWrites id h.length x.next ++ ews).take q) =
      applyAll (applyAll (applyAll h (ws1.take q)) ((linkWrites id h.length x.next).take (q - movesLen c x.leaf sk)))
        (ews.take (q - (movesLen c x.leaf sk + (linkAt x.next + 1)))) := by
    intro q
    rw [applyAll_take_append, applyAll_take_append, List.length_append, w1, hlw]
  refine ⟨sk, _, esw, ?_, ?_, ⟨q0, g5, ?_⟩, fun q => ?_, ?_⟩
  · rw [List.length_append, List.length_append, w1, hlw]
    unfold splitLen
    rw [hesl]
    omega
  · obtain ⟨p, hp, _, h', _⟩ := g6
    exact ⟨p, hp, h'⟩
  · have := ((g3 _ _).1 ⟨q0, g5, g5', rfl, rfl⟩).2
    rw [g9] at this
    exact this
  · rw [htake]
    by_cases hq0 : q = 0
    · subst hq0
      simp only [Nat.zero_sub, List.take_zero]
      rw [show applyAll (applyAll (applyAll h []) []) [] = h from rfl]
      refine ⟨x.leaf, x.next, ⟨⟨le_refl _, hL, fun _ _ _ => ⟨rfl, rfl⟩, core_of hx, nextOf_of hx⟩, hl, fun y w => ?_, fun _ => rfl, fun h => ?_⟩⟩
      · have : lostKeys c x.leaf sk 0 = [] := by unfold lostKeys; simp
        rw [this]
        unfold splitLen
        simp
      · exfalso
        unfold linkedAt at h
        have : 1 ≤ linkAt x.next := by unfold linkAt; split <;> omega
        omega
    · by_cases hqw : q < movesLen c x.leaf sk
      · obtain ⟨nb, s', f1, f2, f3⟩ := w3 q (by omega)
        rw [f1, show q - movesLen c x.leaf sk = 0 by omega, show q - (movesLen c x.leaf sk + (linkAt x.next + 1)) = 0 by omega]
        have hcs := conc_state (h := h) (g := h) (a := ⟨{ x.leaf with bits := nb }, x.next, x.prev⟩) (b := ⟨s', o, pr⟩)
          (sameLeaves_refl h) hid hL (fun j hj => (hnx j hj).1.le) hol
        refine ⟨_, _, ⟨hcs.1, f2, fun y w => ?_, fun _ => rfl, fun h => ?_⟩⟩
        · rw [f3]
          unfold splitLen
          constructor
          · exact Or.inl
          · rintro (h | ⟨h, _⟩)
            · exact h
            · omega
        · unfold linkedAt at h; omega
      · have hqw : movesLen c x.leaf sk ≤ q := by omega
        rw [w2 q hqw]
        obtain ⟨g', a', b', f1, f2, f3, f4, f5, f6, f7⟩ := link_prefix (a := ⟨l1, x.next, x.prev⟩) (b := ⟨s1, o, pr⟩) (sameLeaves_refl h) hid hnx rfl ho (q - movesLen c x.leaf sk)
        rw [f1]
        have hidg : id < g'.length := by rw [f2.1]; exact hid
        have hlost := lostKeys_all (c := c) hqw
        have hT : splitLen c x sk ≤ q ↔ 3 ≤ q - (movesLen c x.leaf sk + (linkAt x.next + 1)) := by unfold splitLen; omega
        have hLA : linkedAt c x sk ≤ q ↔ linkAt x.next ≤ q - movesLen c x.leaf sk := by unfold linkedAt; omega
        have hb' : ∀ j, b'.next = some j → j ≤ h.length := by
          intro j hj
          rcases f7 with f7 | f7
          · rw [f7] at hj; exact hol j hj
          · rw [f7] at hj; exact (hnx j hj).1.le
        have ha' : ∀ j, a'.next = some j → j ≤ h.length := by
          intro j hj
          by_cases hq : linkAt x.next ≤ q - movesLen c x.leaf sk
          · rw [(f6 hq).1] at hj; cases hj; exact le_refl _
          · rw [f5 (by omega)] at hj; exact (hnx j hj).1.le
        have f3 : a'.leaf = l1 := f3
        have f4 : b'.leaf = s1 := f4
        rcases hcase with ⟨hgl, rfl, rfl⟩ | ⟨hgl, rfl, rfl⟩
        · rw [hes, entry_id hidg, f3]
          obtain ⟨k1, k2, _⟩ := entryLeaf_law g1 g7 v hn1 (q - (movesLen c x.leaf sk + (linkAt x.next + 1)))
          have hcs := conc_state (h := h) (g := g') (a := { a' with leaf := entryLeaf l l.bits.getFreeZero k v (q - (movesLen c x.leaf sk + (linkAt x.next + 1))) }) (b := b') f2 hid hL ha' hb'
          refine ⟨_, _, ⟨hcs.1, k1, fun y w => ?_, fun h => f5 (by unfold linkedAt at h; omega), fun h => ?_⟩⟩
          · simp only
            rw [k2, hl1, hlost, hT]
            simp [hgl]
          · obtain ⟨f6a, f6b⟩ := f6 (hLA.1 h)
            refine ⟨f6a, hcs.2.2.2, by rw [hcs.2.2.1, f6b], _, hcs.2.1, by rw [f4]; exact g2, fun y w => ?_⟩
            rw [f4, g4]
            simp [hgl]
        · have e := entry_new hidg a' b' l.bits.getFreeZero k v (q - (movesLen c x.leaf sk + (linkAt x.next + 1)))
          rw [f2.1] at e
          rw [hes, e, f4]
          obtain ⟨k1, k2, _⟩ := entryLeaf_law g2 g8 v hn2 (q - (movesLen c x.leaf sk + (linkAt x.next + 1)))
          have hcs := conc_state (h := h) (g := g') (a := a') (b := { b' with leaf := entryLeaf l l.bits.getFreeZero k v (q - (movesLen c x.leaf sk + (linkAt x.next + 1))) }) f2 hid hL ha' hb'
          refine ⟨_, _, ⟨hcs.1, by rw [f3]; exact g1, fun y w => ?_, fun h => f5 (by unfold linkedAt at h; omega), fun h => ?_⟩⟩
          · rw [f3, hl1, hlost]
            simp [hgl]
          · obtain ⟨f6a, f6b⟩ := f6 (hLA.1 h)
            refine ⟨f6a, hcs.2.2.2, by rw [hcs.2.2.1]; exact congrArg some f6b, _, hcs.2.1, k1, fun y w => ?_⟩
            simp only
            rw [k2, g4, hT]
            simp [hgl]
  · -- the result
    have hfin := htake (movesLen c x.leaf sk + (linkAt x.next + 1) + 3)
    rw [List.take_of_length_le (by rw [List.length_append, List.length_append, w1, hlw, hesl]), w2 _ (by omega)] at hfin
    rw [List.take_of_length_le (l := linkWrites id h.length x.next) (by rw [hlw]; omega), link_all hid hnx ho] at hfin
    rw [List.take_of_length_le (l := ews) (by rw [hesl]; omega)] at hfin
    have hidg : id < (linkHeap h x.next).length := by rw [linkHeap_length]; exact hid
    have epos : ∃ p, x.leaf.pos k = .ok p ∧ ¬ p < M := by
      obtain ⟨p, ep, hp⟩ := pos_spec x.leaf k
      refine ⟨p, ep, ?_⟩
      rcases hp with hp | hp
      · exact absurd ⟨p, hp.1, hp.2.1, hp.2.2, rfl⟩ (hno (x.leaf.vals p))
      · omega
    obtain ⟨p, ep, hp⟩ := epos
    rw [hfin, hes]
    have hins : ∃ s, insLeaf c h id k v = .ok ((if i = id then
        conc (linkHeap h x.next) id ⟨entryLeaf l l.bits.getFreeZero k v 3, some h.length, x.prev⟩ ⟨s1, x.next, some id⟩ else
        conc (linkHeap h x.next) id ⟨l1, some h.length, x.prev⟩ ⟨entryLeaf l l.bits.getFreeZero k v 3, x.next, some id⟩), some (s, h.length)) := by
      have key : ∀ s a' b', x.leaf.insert c k v = .ok (a', some (s, b')) → insLeaf c h id k v =
          .ok (conc (linkHeap h x.next) id ⟨a', some h.length, x.prev⟩ ⟨b', x.next, some id⟩, some (s, h.length)) := by
        intro s a' b' e
        unfold insLeaf
        rw [hx, Res.ofOption_some, Res.ok_bind, e, Res.ok_bind]
        simp only
        rw [setPrev_link hid _ hnx, Res.ok_bind]
        show Res.ok _ = _
        rw [List.length_set, linkHeap_length]; rfl
      have hinsert : ∃ s, x.leaf.insert c k v = .ok (if i = id then (entryLeaf l l.bits.getFreeZero k v 3, some (s, s1))
          else (l1, some (s, entryLeaf l l.bits.getFreeZero k v 3))) := by
        unfold Leaf.insert
        rw [ep, Res.ok_bind, if_neg hp]
        simp only
        rw [if_pos (free_full hl.clean hfull), es, Res.ok_bind]
        simp only
        unfold entryHost at eh
        have hne : ¬ h.length = id := by omega
        split at eh
        · rename_i hc
          have eh := Res.ok.inj eh
          simp only [Prod.mk.injEq] at eh
          obtain ⟨rfl, rfl⟩ := eh
          rw [if_pos hc, (entryLeaf_law g2 g8 v hn2 3).2.2 (le_refl _), Res.ok_bind]
          exact ⟨sk, by rw [if_neg hne]; rfl⟩
        · rename_i hc
          rw [if_neg hc]
          obtain ⟨m, em, eh⟩ := (Res.bind_eq_ok).1 eh
          obtain ⟨km, ekm, eh⟩ := (Res.bind_eq_ok).1 eh
          rw [em, Res.ok_bind, ekm, Res.ok_bind]
          split at eh
          · rename_i hd
            have eh := Res.ok.inj eh
            simp only [Prod.mk.injEq] at eh
            obtain ⟨rfl, rfl⟩ := eh
            rw [if_pos hd, (entryLeaf_law g2 g8 v hn2 3).2.2 (le_refl _), Res.ok_bind]
            exact ⟨k, by rw [if_neg hne]; rfl⟩
          · rename_i hd
            have eh := Res.ok.inj eh
            simp only [Prod.mk.injEq] at eh
            obtain ⟨rfl, rfl⟩ := eh
            rw [if_neg hd, (entryLeaf_law g1 g7 v hn1 3).2.2 (le_refl _), Res.ok_bind]
            exact ⟨sk, by rw [if_pos rfl]; rfl⟩
      obtain ⟨s, hinsert⟩ := hinsert
      refine ⟨s, ?_⟩
      by_cases hi : i = id
      · rw [if_pos hi] at hinsert ⊢
        exact key _ _ _ hinsert
      · rw [if_neg hi] at hinsert ⊢
        exact key _ _ _ hinsert
    obtain ⟨s, hins⟩ := hins
    refine ⟨s, ?_⟩
    rw [hins]
    congr 2
    rcases hcase with ⟨_, rfl, rfl⟩ | ⟨_, rfl, rfl⟩
    · rw [if_pos rfl]
      have e := entry_id hidg ⟨l, some h.length, x.prev⟩ ⟨s1, x.next, some i⟩ l.bits.getFreeZero k v 3
      exact e.symm
    · rw [if_neg (by omega)]
      have e := entry_new hidg ⟨l1, some h.length, x.prev⟩ ⟨l, x.next, some id⟩ l.bits.getFreeZero k v 3
      rw [linkHeap_length] at e
      exact e.symm

end Verif.BitTree
