import Verif.FPTree.Crash
import Verif.BTree.SplitCrash

/-!
# Crashes inside a leaf split of the FPTree

`splitLeafNode` (FPTree.hpp:539-597) allocates the sibling in a transaction (`newLeafNode`) and then moves entries and
sets links by plain assignments.  As in `Crash.lean` the assignments become persistent in program order.  The
branch nodes of the FPTree are volatile: after the crash `recover` rebuilds them from the list of leaves.
-/

set_option linter.unusedSectionVars false

namespace Verif.FPTree

open Verif Search BTree Assoc MapSpec

variable {K V : Type} {M : Nat} [LinearOrder K] [Inhabited K] {c : FCfg K V} {adm : K → Prop}

/-! ## Model -/

/-- An assignment to persistent memory: an element of a leaf, a reset bit of a leaf, a link. -/
inductive HWrite (K V : Type) where
  | leaf (i : Nat) (w : LWrite K V)
  | reset (i p : Nat)
  | next (i x : Nat)
  | prev (i x : Nat)

/-- The effect of an assignment. -/
def HWrite.apply (h : Heap (FLeaf M K V)) : HWrite K V → Res (Heap (FLeaf M K V))
  | .leaf i w => do
    let l ← h.get i
    let l ← w.apply l
    pure (h.set i l)
  | .reset i p => do
    let l ← h.get i
    let b ← l.bits.reset p
    pure (h.set i { l with bits := b })
  | .next i x => do
    let _ ← h.get i
    pure { h with next := upd h.next i (some x) }
  | .prev i x => do
    let _ ← h.get i
    pure { h with prev := upd h.prev i (some x) }

/-- A sequence of assignments. -/
def applyHeap (h : Heap (FLeaf M K V)) : List (HWrite K V) → Res (Heap (FLeaf M K V))
  | [] => .ok h
  | w :: ws => do
    let h ← w.apply h
    applyHeap h ws

/-- 566-575: the assignments of the loop of `splitLeafNode` from slot `i` on: entry `i` of the leaf `l` at `id` goes to
slot `j` of the sibling `n`.  The loop does not change the arrays it reads. -/
def moveWrites (l : FLeaf M K V) (sk : K) (id n : Nat) (i j : Nat) : Nat → List (HWrite K V)
  | 0 => []
  | m + 1 =>
    if sk ≤ l.keys i then
      [.leaf n (.key j (l.keys i)), .leaf n (.val j (l.vals i)), .leaf n (.fp j (l.fp i)), .leaf n (.bit j), .reset id i] ++
        moveWrites l sk id n (i + 1) (j + 1) m
    else moveWrites l sk id n (i + 1) j m

/-- 580-587: the assignments to the links; `nx` is `nodeRef.nextLeaf`. -/
def linkWrites (id n : Nat) : Option Nat → List (HWrite K V)
  | none => [.next id n, .prev n id]
  | some x => [.next n x, .prev x n, .next id n, .prev n id]

/-- 539-588: persistent memory after a crash that follows the first `t` assignments of `splitLeafNode` for the leaf of
`k` (`t = 0`: the new leaf has been allocated). -/
def crashSplit (c : FCfg K V) (s : State K (FLeaf M K V)) (k : K) (t : Nat) : Res (Heap (FLeaf M K V)) := do
  let id ← findLeaf (fpOps c M) s.depth s.root k
  let l ← s.heap.get id
  let r ← findSplitKey c.cv M ⟨M, l.keys⟩
  let sk ← rdA M l.keys r.2
  let a := s.heap.alloc (FLeaf.new c M)
  applyHeap a.1 ((moveWrites l sk id a.2 0 0 M ++ linkWrites id a.2 (s.heap.next id)).take t)

/-! ## The moves -/

theorem applyHeap_append (ws ws' : List (HWrite K V)) : ∀ h : Heap (FLeaf M K V),
    applyHeap h (ws ++ ws') = applyHeap h ws >>= fun h => applyHeap h ws' := by
  induction ws with
  | nil => intro h; rfl
  | cons w ws ih =>
    intro h
    rw [List.cons_append, applyHeap, applyHeap, Res.bind_assoc']
    congr 1
    funext h
    exact ih h

/-- The slots that are moved, in the order of the moves. -/
def movedIdx (l : FLeaf M K V) (sk : K) (i : Nat) : Nat → List Nat
  | 0 => []
  | m + 1 => if sk ≤ l.keys i then i :: movedIdx l sk (i + 1) m else movedIdx l sk (i + 1) m

theorem mem_movedIdx {l : FLeaf M K V} {sk : K} {q : Nat} : ∀ {m i : Nat},
    q ∈ movedIdx l sk i m ↔ i ≤ q ∧ q < i + m ∧ sk ≤ l.keys q
  | 0, i => by simp [movedIdx]; omega
  | m + 1, i => by
    rw [movedIdx]
    split
    · rename_i h
      rw [List.mem_cons, mem_movedIdx]
      constructor
      · rintro (rfl | ⟨h1, h2, h3⟩)
        · exact ⟨le_rfl, by omega, h⟩
        · exact ⟨by omega, by omega, h3⟩
      · rintro ⟨h1, h2, h3⟩
        by_cases e : q = i
        · exact Or.inl e
        · exact Or.inr ⟨by omega, by omega, h3⟩
    · rename_i h
      rw [mem_movedIdx]
      constructor
      · rintro ⟨h1, h2, h3⟩; exact ⟨by omega, by omega, h3⟩
      · rintro ⟨h1, h2, h3⟩
        refine ⟨?_, by omega, h3⟩
        by_contra hc
        have : q = i := by omega
        subst this
        exact h h3

theorem nodup_movedIdx {l : FLeaf M K V} {sk : K} : ∀ {m i : Nat}, (movedIdx l sk i m).Nodup
  | 0, _ => List.nodup_nil
  | m + 1, i => by
    rw [movedIdx]
    split
    · refine List.nodup_cons.2 ⟨fun h => ?_, nodup_movedIdx⟩
      have := (mem_movedIdx.1 h).1
      omega
    · exact nodup_movedIdx

theorem moveWrites_length {l : FLeaf M K V} {sk : K} {id n : Nat} : ∀ {m i j : Nat},
    (moveWrites l sk id n i j m).length = 5 * (movedIdx l sk i m).length
  | 0, _, _ => rfl
  | m + 1, i, j => by
    rw [moveWrites, movedIdx]
    split
    · rw [List.length_append, moveWrites_length]; simp; omega
    · exact moveWrites_length

theorem leafW_ok {h : Heap (FLeaf M K V)} {i : Nat} {l l' : FLeaf M K V} (hl : h.data i = some l) {w : LWrite K V}
    (hw : w.apply l = .ok l') : (HWrite.leaf i w).apply h = .ok (h.set i l') := by
  simp only [HWrite.apply, Heap.get_of hl, Res.ok_bind, hw]; rfl

theorem moves_spec {l : FLeaf M K V} {sk : K} {id n : Nat} (hne : id ≠ n) : ∀ (m i j : Nat) (b : Bitmap M)
    (s1 : FLeaf M K V) (h : Heap (FLeaf M K V)) (t : Nat), i + m = M → j ≤ i →
    h.data id = some { l with bits := b } → h.data n = some s1 →
    ∃ b' s', applyHeap h ((moveWrites l sk id n i j m).take t) = .ok ((h.set id { l with bits := b' }).set n s') ∧
      (Bitmap.Clean b → Bitmap.Clean b') ∧
      (∀ q, q < M → (Bitmap.bit b' q = true ↔ Bitmap.bit b q = true ∧ q ∉ (movedIdx l sk i m).take (t / 5))) ∧
      (5 * (movedIdx l sk i m).length ≤ t →
        FLeaf.splitLoop sk i j { l with bits := b } s1 m = .ok ({ l with bits := b' }, s'))
  | 0, i, j, b, s1, h, t, hi, hj, h1, h2 => by
    refine ⟨b, s1, ?_, fun h => h, fun q _ => by simp [movedIdx], fun _ => rfl⟩
    rw [moveWrites, List.take_nil, applyHeap, Heap.set_self h1, Heap.set_self h2]
  | m + 1, i, j, b, s1, h, t, hi, hj, h1, h2 => by
    have hiM : i < M := by omega
    have hjM : j < M := by omega
    rw [moveWrites, movedIdx, FLeaf.splitLoop]
    simp only
    rw [rdA_ok hiM, Res.ok_bind]
    by_cases hsk : sk ≤ l.keys i
    · rw [if_pos hsk, if_pos hsk, if_pos hsk, rdA_ok hiM, Res.ok_bind, rdA_ok hiM, Res.ok_bind]
      obtain ⟨sb, esb, _, _⟩ := set_bit' (b := s1.bits) hjM true
      obtain ⟨rb, erb0, hrb, hrcl⟩ := set_bit' (b := b) hiM false
      have erb : b.reset i = .ok rb := by rw [Bitmap.reset_eq_set]; exact erb0
      set s2 : FLeaf M K V := { s1 with keys := upd s1.keys j (l.keys i) } with hs2
      set s3 : FLeaf M K V := { s2 with vals := upd s2.vals j (l.vals i) } with hs3
      set s4 : FLeaf M K V := { s3 with fp := upd s3.fp j (l.fp i) } with hs4
      set s5 : FLeaf M K V := { s4 with bits := sb } with hs5
      have w1 : (LWrite.key j (l.keys i) : LWrite K V).apply s1 = .ok s2 := if_pos hjM
      have w2 : (LWrite.val j (l.vals i) : LWrite K V).apply s2 = .ok s3 := if_pos hjM
      have w3 : (LWrite.fp j (l.fp i) : LWrite K V).apply s3 = .ok s4 := if_pos hjM
      have w4 : (LWrite.bit j : LWrite K V).apply s4 = .ok s5 := by
        show (s1.bits.set j >>= _) = _
        rw [esb]; rfl
      have g1 : (HWrite.leaf n (.key j (l.keys i))).apply h = .ok (h.set n s2) := leafW_ok h2 w1
      have g2 : (HWrite.leaf n (.val j (l.vals i))).apply (h.set n s2) = .ok (h.set n s3) := by
        rw [leafW_ok (Heap.set_data _ _ _) w2, Heap.set_same]
      have g3 : (HWrite.leaf n (.fp j (l.fp i))).apply (h.set n s3) = .ok (h.set n s4) := by
        rw [leafW_ok (Heap.set_data _ _ _) w3, Heap.set_same]
      have g4 : (HWrite.leaf n (.bit j : LWrite K V)).apply (h.set n s4) = .ok (h.set n s5) := by
        rw [leafW_ok (Heap.set_data _ _ _) w4, Heap.set_same]
      have g5 : (HWrite.reset id i : HWrite K V).apply (h.set n s5) = .ok ((h.set n s5).set id { l with bits := rb }) := by
        have : (h.set n s5).data id = some { l with bits := b } := by rw [Heap.set_data_ne _ hne]; exact h1
        simp only [HWrite.apply, Heap.get_of this, Res.ok_bind, erb]; rfl
      have hself : h.set id { l with bits := b } = h := Heap.set_self h1
      have efill : FLeaf.fill s1 j (l.fp i) (l.keys i) (l.vals i) = .ok s5 := by
        unfold FLeaf.fill; rw [esb]; rfl
      rw [efill, Res.ok_bind]
      rw [erb, Res.ok_bind]
      have small : ∀ t', t = t' → t' < 5 → ∀ q, q < M → (Bitmap.bit b q = true ↔ Bitmap.bit b q = true ∧
          q ∉ (i :: movedIdx l sk (i + 1) m).take (t / 5)) := by
        intro t' ht ht' q _
        rw [show t / 5 = 0 by omega]; simp
      match t, small with
      | 0, small =>
        exact ⟨b, s1, by rw [List.take_zero, applyHeap, hself, Heap.set_self h2], fun h => h, small 0 rfl (by omega), fun hh => by simp at hh⟩
      | 1, small =>
        exact ⟨b, s2, by simp only [List.cons_append, List.take_succ_cons, List.take_zero, applyHeap, g1, Res.ok_bind, hself],
          fun h => h, small 1 rfl (by omega), fun hh => by simp at hh; omega⟩
      | 2, small =>
        exact ⟨b, s3, by simp only [List.cons_append, List.take_succ_cons, List.take_zero, applyHeap, g1, g2, Res.ok_bind, hself],
          fun h => h, small 2 rfl (by omega), fun hh => by simp at hh; omega⟩
      | 3, small =>
        exact ⟨b, s4, by simp only [List.cons_append, List.take_succ_cons, List.take_zero, applyHeap, g1, g2, g3, Res.ok_bind, hself],
          fun h => h, small 3 rfl (by omega), fun hh => by simp at hh; omega⟩
      | 4, small =>
        exact ⟨b, s5, by simp only [List.cons_append, List.take_succ_cons, List.take_zero, applyHeap, g1, g2, g3, g4, Res.ok_bind, hself],
          fun h => h, small 4 rfl (by omega), fun hh => by simp at hh; omega⟩
      | t + 5, _ =>
        obtain ⟨b', s', e, k1, k2, k3⟩ := moves_spec hne m (i + 1) (j + 1) rb s5 ((h.set n s5).set id { l with bits := rb }) t
          (by omega) (by omega) (Heap.set_data _ _ _) (by rw [Heap.set_data_ne _ (Ne.symm hne)]; exact Heap.set_data _ _ _)
        refine ⟨b', s', ?_, fun hb => k1 (hrcl hb), fun q hq => ?_, fun hh => ?_⟩
        · simp only [List.cons_append, List.nil_append, List.take_succ_cons, applyHeap, g1, g2, g3, g4, g5, Res.ok_bind]
          rw [e, Heap.set_same, Heap.set_comm _ (Ne.symm hne), Heap.set_same]
        · rw [k2 q hq, hrb q hq, show (t + 5) / 5 = t / 5 + 1 by omega, List.take_succ_cons, List.mem_cons]
          by_cases hqi : q = i
          · simp [hqi]
          · simp [hqi]
        · exact k3 (by simp at hh; omega)
    · rw [if_neg hsk, if_neg hsk, if_neg hsk]
      exact moves_spec hne m (i + 1) j b s1 h t (by omega) (by omega) h1 h2

/-! ## Recovery after the crash -/

/-- Persistent memory from which `recover` gets a tree with the map `m`: the list of leaves from `first` on has the right
`nextLeaf` pointers, every leaf of several has the minimal fill, and the contents are sorted.  The `prevLeaf` pointers may be
wrong. -/
def Pers (F : FLaws c adm) (hM : 2 ≤ M) (h : Heap (FLeaf M K V)) (first : Nat) (m : K → Option V) : Prop :=
  ∃ p rest, Wf { h with prev := p } (first :: rest) ∧ Sorted (content (fpLaws F hM) h (first :: rest)) ∧
    (∀ i ∈ first :: rest, ∃ l, h.data i = some l ∧ FOk c.hash adm l ∧ (rest ≠ [] → M / 2 ≤ l.abs.length)) ∧
    ∀ x, find x (content (fpLaws F hM) h (first :: rest)) = m x

theorem Pers.withPrev {F : FLaws c adm} {hM : 2 ≤ M} {h : Heap (FLeaf M K V)} {first : Nat} {m : K → Option V}
    (hp : Pers F hM h first m) (q : Nat → Option Nat) : Pers F hM { h with prev := q } first m := by
  obtain ⟨p, rest, h1, h2, h3, h4⟩ := hp
  exact ⟨p, rest, h1, h2, h3, h4⟩

theorem Pers.congr {F : FLaws c adm} {hM : 2 ≤ M} {h : Heap (FLeaf M K V)} {first : Nat} {m m' : K → Option V}
    (hp : Pers F hM h first m) (he : ∀ x, m x = m' x) : Pers F hM h first m' := by
  obtain ⟨p, rest, h1, h2, h3, h4⟩ := hp
  exact ⟨p, rest, h1, h2, h3, fun x => (h4 x).trans (he x)⟩

/-- Recovery. -/
theorem Pers.recover {F : FLaws c adm} {hM : 2 ≤ M} (hN : 2 ≤ c.N)
    (hmin : ∀ (l : FLeaf M K V) e es, FOk c.hash adm l → l.abs = e :: es → M / 2 ≤ l.abs.length → l.minKey c = .ok e.1)
    {h : Heap (FLeaf M K V)} {first : Nat} {m : K → Option V} (hp : Pers F hM h first m) :
    ∃ s p, recoverF (fpOps c M) h first = .ok s ∧ Good (fpLaws F hM) (M / 2) 0 0 (s.withPrev p) ∧
      (ids s.depth s.root).head? = some first ∧ Stores (fpLaws F hM) (s.withPrev p) m := by
  obtain ⟨p, rest, w, hs, hl, hm⟩ := hp
  obtain ⟨l, hd, hok, hlen⟩ := hl first (by simp)
  obtain ⟨s, e, g, hh, hids⟩ := recoverF_good (W := fpLaws F hM) (lm := M / 2) (h := { h with prev := p }) hN w hs ⟨l, hd, hok, hlen⟩ (by
    intro x hx
    obtain ⟨l, hd, hok, hlen⟩ := hl x (List.mem_cons_of_mem _ hx)
    have hlen := hlen (List.ne_nil_of_mem hx)
    cases hab : l.abs with
    | nil => rw [hab] at hlen; simp at hlen; omega
    | cons e es => exact ⟨l, e, es, hd, hok, hlen, hab, hmin l e es hok hab hlen⟩)
  have e' : recoverF (fpOps c M) h first = .ok (s.withPrev h.prev) := by
    have := recoverF_prev (o := fpOps c M) { h with prev := p } h.prev first
    rw [e, Res.ok_bind] at this
    exact this
  have es : (s.withPrev h.prev).withPrev p = s := by
    obtain ⟨d, r, hp⟩ := s
    simp only at hh
    subst hh
    rfl
  refine ⟨_, p, e', by rw [es]; exact g, by rw [show ids (s.withPrev h.prev).depth (s.withPrev h.prev).root = first :: rest from hids]; rfl, fun x => ?_⟩
  rw [es]
  unfold cont
  rw [hh, hids]
  exact hm x

theorem Pers.look {F : FLaws c adm} {hM : 2 ≤ M} (hN : 2 ≤ c.N)
    (hmin : ∀ (l : FLeaf M K V) e es, FOk c.hash adm l → l.abs = e :: es → M / 2 ≤ l.abs.length → l.minKey c = .ok e.1)
    {h : Heap (FLeaf M K V)} {first : Nat} {m : K → Option V} (hp : Pers F hM h first m) :
    ∃ s, recoverF (fpOps c M) h first = .ok s ∧ ∀ x, lookup (fpOps c M) s x = .ok (m x) := by
  obtain ⟨s, p, e, g, _, hst⟩ := hp.recover hN hmin
  exact ⟨s, e, fun x => hst.lookup g x⟩

theorem content_set (F : FLaws c adm) (hM : 2 ≤ M) {h h' : Heap (FLeaf M K V)} {pre post : List Nat} {id : Nat}
    {l' : FLeaf M K V} (hnd : (pre ++ id :: post).Nodup) (hd : h'.data id = some l')
    (ho : ∀ i ∈ pre ++ id :: post, i ≠ id → h'.data i = h.data i) :
    content (fpLaws F hM) h' (pre ++ id :: post) = content (fpLaws F hM) h pre ++ (l'.abs ++ content (fpLaws F hM) h post) := by
  rw [List.nodup_append, List.nodup_cons] at hnd
  rw [content_append, content_cons]
  congr 1
  · refine content_congr _ (fun i hi => ho i (by simp [hi]) (hnd.2.2 i hi id (by simp)))
  · congr 1
    · simp [ent, hd]; rfl
    · refine content_congr _ (fun i hi => ho i (by simp [hi]) ?_)
      rintro rfl; exact hnd.2.1.1 hi

/-- A crash in a leaf split followed by a recovery, at all crash points. -/
theorem crashSplit_spec (F : FLaws c adm) (hM : 2 ≤ M)
    (hmin : ∀ (l : FLeaf M K V) e es, FOk c.hash adm l → l.abs = e :: es → M / 2 ≤ l.abs.length → l.minKey c = .ok e.1)
    {bm rm : Nat} {s : State K (FLeaf M K V)} (g : Good (fpLaws F hM) (M / 2) bm rm s) {first : Nat}
    (hfirst : (ids s.depth s.root).head? = some first) {m : K → Option V} (hm : Stores (fpLaws F hM) s m)
    {k : K} {id : Nat} {l : FLeaf M K V} (a : LeafOf (fpLaws F hM) s k id l) (hfull : M ≤ l.abs.length) :
    ∃ (sk : K) (moved : List K), moved.Nodup ∧ moved.length = M / 2 ∧
      (∀ x, x ∈ moved ↔ sk ≤ x ∧ find x l.abs ≠ none) ∧
      (∀ t, ∃ h, crashSplit c s k t = .ok h ∧ Pers F hM h first (fun x =>
          if t < 5 * (M / 2) + (if s.heap.next id = none then 1 else 3) ∧ x ∈ moved.take (t / 5) then none else m x)) ∧
      (movedIdx l sk 0 M).length = M / 2 ∧
      ∃ a b h, l.split c = .ok (a, b, sk) ∧
        linkAfter ((s.heap.set id a).alloc b).1 id ((s.heap.set id a).alloc b).2 = .ok h ∧
        ∀ t, 5 * (M / 2) + 4 ≤ t → crashSplit c s k t = .ok h := by
  have hok : FOk c.hash adm l := a.ok
  have hbit := full_of_length hfull
  obtain ⟨pre, post, hids⟩ := LeafOf.ids g a
  obtain ⟨rest, hrest⟩ : ∃ rest, ids s.depth s.root = first :: rest := by
    cases hi : ids s.depth s.root with
    | nil => rw [hi] at hfirst; simp at hfirst
    | cons x xs => rw [hi] at hfirst; simp at hfirst; exact ⟨xs, by rw [hfirst]⟩
  have wf := g.wf
  have hsort := g.sorted
  unfold cont at hsort
  rw [hids] at wf hsort
  have hidf : id < s.heap.fresh := wf.fresh id (by simp)
  have hne : id ≠ s.heap.fresh := by omega
  obtain ⟨A, B, sk, es, okA, okB, absA, absB, lenA, lenB, keysA, _⟩ := split_law F hM hok hbit
  have es' := es
  unfold FLeaf.split at es'
  obtain ⟨r, e1, es'⟩ := Res.bind_eq_ok.1 es'
  obtain ⟨sk', e2, es'⟩ := Res.bind_eq_ok.1 es'
  obtain ⟨⟨A', B'⟩, e3, es'⟩ := Res.bind_eq_ok.1 es'
  obtain ⟨rfl, rfl, rfl⟩ : A' = A ∧ B' = B ∧ sk' = sk := by
    have := Res.ok.inj es'
    simp only [Prod.mk.injEq] at this
    exact ⟨this.1, this.2.1, this.2.2⟩
  -- the moved keys
  have hmemI : ∀ q, q ∈ movedIdx l sk' 0 M ↔ q < M ∧ sk' ≤ l.keys q := fun q => by rw [mem_movedIdx]; simp
  have hinjI : ∀ i ∈ movedIdx l sk' 0 M, ∀ j ∈ movedIdx l sk' 0 M, l.keys i = l.keys j → i = j := by
    intro i hi j hj e
    exact hok.inj i j ((hmemI i).1 hi).1 ((hmemI j).1 hj).1 (hbit _ ((hmemI i).1 hi).1) (hbit _ ((hmemI j).1 hj).1) e
  have hndm : ((movedIdx l sk' 0 M).map l.keys).Nodup := nodup_movedIdx.map_on hinjI
  have hfind : ∀ x, find x l.abs ≠ none ↔ ∃ q, q < M ∧ l.keys q = x := by
    intro x
    constructor
    · intro hx
      obtain ⟨v, hv⟩ := Option.ne_none_iff_exists'.1 hx
      obtain ⟨q, hq, _, he⟩ := mem_abs.1 ((mem_iff_find hok.sorted).2 hv)
      exact ⟨q, hq, (congrArg Prod.fst he).symm⟩
    · rintro ⟨q, hq, rfl⟩ hc
      rw [(mem_iff_find hok.sorted).1 (mem_abs.2 ⟨q, hq, hbit q hq, rfl⟩)] at hc
      cases hc
  have hmoved : ∀ x, x ∈ (movedIdx l sk' 0 M).map l.keys ↔ sk' ≤ x ∧ find x l.abs ≠ none := by
    intro x
    rw [List.mem_map, hfind]
    constructor
    · rintro ⟨q, hq, rfl⟩
      exact ⟨((hmemI q).1 hq).2, q, ((hmemI q).1 hq).1, rfl⟩
    · rintro ⟨h1, q, hq, rfl⟩
      exact ⟨q, (hmemI q).2 ⟨hq, h1⟩, rfl⟩
  have hlenm : ((movedIdx l sk' 0 M).map l.keys).length = M / 2 := by
    have hp : ((movedIdx l sk' 0 M).map l.keys).Perm (B'.abs.map Prod.fst) := by
      refine (List.perm_ext_iff_of_nodup hndm ?_).2 (fun x => ?_)
      · have := okB.sorted
        exact (List.pairwise_map.2 (this.imp (fun h => ne_of_lt h)))
      · rw [hmoved, List.mem_map]
        constructor
        · rintro ⟨h1, h2⟩
          obtain ⟨v, hv⟩ := Option.ne_none_iff_exists'.1 h2
          refine ⟨(x, v), ?_, rfl⟩
          rw [absB, List.mem_filter]
          exact ⟨(mem_iff_find hok.sorted).2 hv, by simpa using h1⟩
        · rintro ⟨e, he, rfl⟩
          rw [absB, List.mem_filter] at he
          refine ⟨by simpa using he.2, ?_⟩
          rw [(mem_iff_find hok.sorted).1 (show (e.1, e.2) ∈ l.abs from he.1)]
          simp
    rw [hp.length_eq, List.length_map, lenB]
  have hlenI : (movedIdx l sk' 0 M).length = M / 2 := by rw [← hlenm, List.length_map]
  -- the heap with the new leaf
  have hd0 : (s.heap.alloc (FLeaf.new c M)).1.data id = some { l with bits := l.bits } := by
    simp only [Heap.alloc, upd, if_neg hne]; exact a.data
  have hdn : (s.heap.alloc (FLeaf.new c M)).1.data s.heap.fresh = some (FLeaf.new c M) := by
    simp [Heap.alloc, upd]
  have hheap : ∀ (b' : Bitmap M) (s1 : FLeaf M K V),
      (((s.heap.alloc (FLeaf.new c M)).1.set id { l with bits := b' }).set s.heap.fresh s1) =
        ((s.heap.set id { l with bits := b' }).alloc s1).1 := by
    intro b' s1
    refine Heap.ext' ?_ rfl rfl rfl
    funext q
    simp only [Heap.alloc, Heap.set, upd]
    by_cases h1 : q = s.heap.fresh <;> by_cases h2 : q = id <;> simp [h1, h2]
  have hdata : ∀ (b' : Bitmap M) (s1 : FLeaf M K V) (i : Nat), i ∈ pre ++ id :: post → i ≠ id →
      ((s.heap.set id { l with bits := b' }).alloc s1).1.data i = s.heap.data i := by
    intro b' s1 i hi h1
    have : i ≠ s.heap.fresh := by have := wf.fresh i hi; omega
    simp [Heap.alloc, Heap.set, upd, h1, this]
  have hdid : ∀ (b' : Bitmap M) (s1 : FLeaf M K V),
      ((s.heap.set id { l with bits := b' }).alloc s1).1.data id = some { l with bits := b' } := by
    intro b' s1
    simp [Heap.alloc, Heap.set, upd, hne]
  have hleaf : ∀ i ∈ pre ++ id :: post, ∃ l, s.heap.data i = some l ∧ FOk c.hash adm l ∧
      (rest ≠ [] → M / 2 ≤ l.abs.length) := by
    intro i hi
    rw [← hids, hrest] at hi
    obtain ⟨⟨l0, hl0, hok0⟩, hready⟩ := g.leaves (by omega) (fun l e es h1 h2 h3 => hmin l e es h1 h2 h3) hrest
    by_cases hr : rest = []
    · subst hr
      rw [List.mem_singleton] at hi
      subst hi
      exact ⟨l0, hl0, hok0, fun h => absurd rfl h⟩
    · obtain ⟨l1, _, _, h1, h2, h3, _⟩ := hready hr i hi
      exact ⟨l1, h1, h2, fun _ => h3⟩
  have hnd := wf.nodup
  -- recovery before the sibling is linked
  have before : ∀ (t : Nat) (b' : Bitmap M) (s1 : FLeaf M K V) (nx : Nat → Option Nat),
      Bitmap.Clean b' →
      (∀ q, q < M → (Bitmap.bit b' q = true ↔ Bitmap.bit l.bits q = true ∧ q ∉ (movedIdx l sk' 0 M).take (t / 5))) →
      (∀ i ∈ pre ++ id :: post, nx i = s.heap.next i) →
      Pers F hM { ((s.heap.set id { l with bits := b' }).alloc s1).1 with next := nx } first
        (fun x => if x ∈ ((movedIdx l sk' 0 M).map l.keys).take (t / 5) then none else m x) := by
    intro t b' s1 nx hcl hbits hnx
    set h' : Heap (FLeaf M K V) := { ((s.heap.set id { l with bits := b' }).alloc s1).1 with next := nx } with hh'
    have hsub : ∀ q, q < M → Bitmap.bit b' q = true → Bitmap.bit l.bits q = true := fun q hq hb => ((hbits q hq).1 hb).1
    have ok' : FOk c.hash adm ({ l with bits := b' } : FLeaf M K V) :=
      ⟨hcl, fun i j hi hj h1 h2 h3 => hok.inj i j hi hj (hsub i hi h1) (hsub j hj h2) h3,
        fun i hi h1 => hok.fp i hi (hsub i hi h1), fun i hi h1 => hok.adm i hi (hsub i hi h1)⟩
    have hmem : ∀ e, e ∈ FLeaf.abs ({ l with bits := b' } : FLeaf M K V) ↔
        e ∈ l.abs ∧ e.1 ∉ ((movedIdx l sk' 0 M).map l.keys).take (t / 5) := by
      intro e
      rw [mem_abs, mem_abs, ← List.map_take]
      constructor
      · rintro ⟨p, hp, hb, rfl⟩
        obtain ⟨h1, h2⟩ := (hbits p hp).1 hb
        refine ⟨⟨p, hp, h1, rfl⟩, fun hc => h2 ?_⟩
        obtain ⟨q, hq, he⟩ := List.mem_map.1 hc
        have hq' := (hmemI q).1 (List.mem_of_mem_take hq)
        rwa [← hok.inj q p hq'.1 hp (hbit q hq'.1) h1 he]
      · rintro ⟨⟨p, hp, hb, rfl⟩, h2⟩
        exact ⟨p, hp, (hbits p hp).2 ⟨hb, fun hc => h2 (List.mem_map.2 ⟨p, hc, rfl⟩)⟩, rfl⟩
    have habs : FLeaf.abs ({ l with bits := b' } : FLeaf M K V) =
        l.abs.filter (fun e => decide (e.1 ∉ ((movedIdx l sk' 0 M).map l.keys).take (t / 5))) := by
      refine sorted_ext ok'.sorted (sorted_filter hok.sorted _) (fun e => ?_)
      rw [hmem, List.mem_filter]; simp
    have hlen' : M / 2 ≤ (FLeaf.abs ({ l with bits := b' } : FLeaf M K V)).length := by
      have : (A'.abs).Sublist (FLeaf.abs ({ l with bits := b' } : FLeaf M K V)) := by
        rw [absA, habs]
        refine List.monotone_filter_right _ (fun e he => ?_)
        have he : e.1 < sk' := by simpa using he
        have : e.1 ∉ ((movedIdx l sk' 0 M).map l.keys).take (t / 5) := fun hc =>
          absurd he (not_lt.2 ((hmoved _).1 (List.mem_of_mem_take hc)).1)
        simpa using this
      have := this.length_le
      omega
    have hdata' : h'.data id = some { l with bits := b' } := hdid b' s1
    have hcont := content_set F hM (h := s.heap) (h' := h') hnd hdata' (fun i hi h1 => hdata b' s1 i hi h1)
    have hcont0 := content_set F hM (h := s.heap) (h' := s.heap) hnd a.data (fun i _ _ => rfl)
    have hsort' : Sorted (content (fpLaws F hM) h' (pre ++ id :: post)) := by
      rw [hcont]
      rw [hcont0] at hsort
      refine hsort.sublist ?_
      refine List.Sublist.append (List.Sublist.refl _) (List.Sublist.append ?_ (List.Sublist.refl _))
      rw [habs]; exact List.filter_sublist
    have wf' : Wf h' (pre ++ id :: post) := by
      refine ⟨wf.nodup, fun i hi => Nat.lt_succ_of_lt (wf.fresh i hi), fun i hi => ?_, ?_, ?_⟩
      · by_cases h1 : i = id
        · rw [h1, hdata']; rfl
        · have : h'.data i = s.heap.data i := hdata b' s1 i hi h1
          rw [this]; exact wf.alive i hi
      · refine chain_congr (h := s.heap) (fun i hi => hnx i hi) (fun i hi => ?_) wf.chain.1
        have : i ≠ s.heap.fresh := by have := wf.fresh i hi; omega
        simp [hh', Heap.alloc, Heap.set, upd, this]
      · intro x hx
        show nx x = none
        rw [hnx x (List.mem_of_mem_getLast? hx)]
        exact wf.chain.2 x hx
    rw [← hids, hrest] at wf' hsort'
    refine ⟨h'.prev, rest, wf', hsort', (by
      intro i hi
      rw [← hrest, hids] at hi
      by_cases h1 : i = id
      · exact ⟨_, by rw [h1]; exact hdata', ok', fun _ => hlen'⟩
      · have : h'.data i = s.heap.data i := hdata b' s1 i hi h1
        rw [this]; exact hleaf i hi), fun x => ?_⟩
    dsimp only
    rw [← hm x]
    unfold cont
    rw [hids]
    rw [← hrest, hids] at hsort' ⊢
    have hmem' : ∀ e, e ∈ content (fpLaws F hM) h' (pre ++ id :: post) ↔
        e ∈ content (fpLaws F hM) s.heap (pre ++ id :: post) ∧
          e.1 ∉ ((movedIdx l sk' 0 M).map l.keys).take (t / 5) := by
      intro e
      rw [hcont, hcont0]
      rw [hcont0] at hsort
      rw [sorted_append, sorted_append] at hsort
      simp only [List.mem_append, hmem]
      have hin : ∀ y, y ∈ ((movedIdx l sk' 0 M).map l.keys).take (t / 5) → ∃ v, (y, v) ∈ l.abs := by
        intro y hy
        obtain ⟨v, hv⟩ := Option.ne_none_iff_exists'.1 ((hmoved y).1 (List.mem_of_mem_take hy)).2
        exact ⟨v, (mem_iff_find hok.sorted).2 hv⟩
      constructor
      · rintro (h1 | ⟨h1, h2⟩ | h1)
        · refine ⟨Or.inl h1, fun hc => ?_⟩
          obtain ⟨v, hv⟩ := hin _ hc
          exact absurd (hsort.2.2 e h1 (e.1, v) (List.mem_append_left _ hv)) (lt_irrefl _)
        · exact ⟨Or.inr (Or.inl h1), h2⟩
        · refine ⟨Or.inr (Or.inr h1), fun hc => ?_⟩
          obtain ⟨v, hv⟩ := hin _ hc
          exact absurd (hsort.2.1.2.2 (e.1, v) hv e h1) (lt_irrefl _)
      · rintro ⟨h1 | h1 | h1, h2⟩
        · exact Or.inl h1
        · exact Or.inr (Or.inl ⟨h1, h2⟩)
        · exact Or.inr (Or.inr h1)
    apply Option.ext
    intro v
    rw [← mem_iff_find hsort', hmem']
    by_cases hx : x ∈ ((movedIdx l sk' 0 M).map l.keys).take (t / 5)
    · simp [hx]
    · simp only [hx, not_false_eq_true, and_true, if_false]
      exact mem_iff_find hsort
  -- recovery after the sibling is linked
  obtain ⟨hF, eF, wfF, dataF, freshF⟩ := link_wf wf A' B'
  have after : Pers F hM hF first m := by
    have hdF : hF.data id = some A' := by rw [dataF]; simp [upd, hne]
    have hnF : hF.data s.heap.fresh = some B' := by rw [dataF]; simp [upd]
    have hoF : ∀ i ∈ pre ++ id :: post, i ≠ id → hF.data i = s.heap.data i := by
      intro i hi h1
      have : i ≠ s.heap.fresh := by have := wf.fresh i hi; omega
      rw [dataF]; simp [upd, h1, this]
    have hpre : ∀ i ∈ pre, hF.data i = s.heap.data i := fun i hi => hoF i (by simp [hi]) (by
      rw [List.nodup_append] at hnd; exact hnd.2.2 i hi id (by simp))
    have hpost : ∀ i ∈ post, hF.data i = s.heap.data i := fun i hi => hoF i (by simp [hi]) (by
      rw [List.nodup_append, List.nodup_cons] at hnd
      rintro rfl; exact hnd.2.1.1 hi)
    have hAB : A'.abs ++ B'.abs = l.abs := by
      refine sorted_ext ?_ hok.sorted (fun e => ?_)
      · rw [sorted_append]
        refine ⟨okA.sorted, okB.sorted, fun e he e' he' => ?_⟩
        rw [absA, List.mem_filter] at he
        rw [absB, List.mem_filter] at he'
        exact lt_of_lt_of_le (by simpa using he.2) (by simpa using he'.2)
      · rw [List.mem_append, absA, absB, List.mem_filter, List.mem_filter]
        constructor
        · rintro (h | h) <;> exact h.1
        · intro h
          rcases lt_or_ge e.1 sk' with h1 | h1
          · exact Or.inl ⟨h, by simpa using h1⟩
          · exact Or.inr ⟨h, by simpa using h1⟩
    have hcF : content (fpLaws F hM) hF (pre ++ id :: s.heap.fresh :: post) = cont (fpLaws F hM) s := by
      unfold cont
      rw [hids, content_set F hM (h := s.heap) (h' := s.heap) hnd a.data (fun i _ _ => rfl),
        content_append, content_cons, content_cons, content_congr _ hpre, content_congr _ hpost]
      have e1 : ent (fpLaws F hM) hF id = A'.abs := by simp [ent, hdF]; rfl
      have e2 : ent (fpLaws F hM) hF s.heap.fresh = B'.abs := by simp [ent, hnF]; rfl
      rw [e1, e2, ← List.append_assoc A'.abs, hAB]
    obtain ⟨rest', hrest'⟩ : ∃ rest', pre ++ id :: s.heap.fresh :: post = first :: rest' := by
      cases pre with
      | nil =>
        rw [hids] at hrest
        simp at hrest
        exact ⟨s.heap.fresh :: post, by rw [hrest.1]; rfl⟩
      | cons y ys =>
        rw [hids] at hrest
        simp at hrest
        exact ⟨ys ++ id :: s.heap.fresh :: post, by rw [hrest.1]; rfl⟩
    rw [hrest'] at wfF hcF
    refine ⟨hF.prev, rest', wfF, (by rw [hcF]; exact g.sorted), (by
      intro i hi
      rw [← hrest'] at hi
      by_cases h1 : i = id
      · exact ⟨A', by rw [h1]; exact hdF, okA, fun _ => by omega⟩
      · by_cases h2 : i = s.heap.fresh
        · exact ⟨B', by rw [h2]; exact hnF, okB, fun _ => by omega⟩
        · have hi' : i ∈ pre ++ id :: post := by
            simp only [List.mem_append, List.mem_cons] at hi ⊢; tauto
          rw [hoF i hi' h1]
          obtain ⟨l1, k1, k2, k3⟩ := hleaf i hi'
          refine ⟨l1, k1, k2, fun _ => k3 ?_⟩
          rintro rfl
          rw [← hids, hrest] at hi'
          have hid' : id ∈ ids s.depth s.root := by rw [hids]; simp
          rw [hrest] at hid'
          rw [List.mem_singleton] at hi' hid'
          exact h1 (hi'.trans hid'.symm)), fun x => ?_⟩
    rw [hcF, hm x]
  -- the program
  have hprog : ∀ t, crashSplit c s k t = applyHeap (s.heap.alloc (FLeaf.new c M)).1
      ((moveWrites l sk' id s.heap.fresh 0 0 M ++ linkWrites id s.heap.fresh (s.heap.next id)).take t) := by
    intro t
    unfold crashSplit
    rw [a.find, Res.ok_bind, Heap.get_of a.data, Res.ok_bind, e1, Res.ok_bind, e2, Res.ok_bind]
    rfl
  have hmlen : (moveWrites l sk' id s.heap.fresh 0 0 M).length = 5 * (M / 2) := by rw [moveWrites_length, hlenI]
  -- the last move
  have hend : applyHeap (s.heap.alloc (FLeaf.new c M)).1 (moveWrites l sk' id s.heap.fresh 0 0 M) =
      .ok ((s.heap.set id A').alloc B').1 ∧ ∃ b', A' = { l with bits := b' } ∧ Bitmap.Clean b' ∧
        (∀ q, q < M → (Bitmap.bit b' q = true ↔ Bitmap.bit l.bits q = true ∧ q ∉ movedIdx l sk' 0 M)) := by
    obtain ⟨b', s1, k1, k2, k3, k4⟩ := moves_spec (l := l) (sk := sk') hne M 0 0 l.bits (FLeaf.new c M)
      (s.heap.alloc (FLeaf.new c M)).1 (5 * (M / 2)) (by omega) le_rfl hd0 hdn
    have k4 := k4 (by rw [hlenI])
    have e3' : FLeaf.splitLoop sk' 0 0 ({ l with bits := l.bits } : FLeaf M K V) (FLeaf.new c M) M = .ok (A', B') := e3
    rw [e3'] at k4
    have k5 := Res.ok.inj k4
    rw [Prod.mk.injEq] at k5
    rw [List.take_of_length_le (by omega), hheap] at k1
    refine ⟨by rw [k1, k5.1, k5.2], b', k5.1, k2 hok.clean, fun q hq => ?_⟩
    rw [k3 q hq, show 5 * (M / 2) / 5 = M / 2 by omega, List.take_of_length_le (by omega)]
  obtain ⟨hend, b1, hb1, hcl1, hbits1⟩ := hend
  have hbits1' : ∀ t, 5 * (M / 2) ≤ t → ∀ q, q < M →
      (Bitmap.bit b1 q = true ↔ Bitmap.bit l.bits q = true ∧ q ∉ (movedIdx l sk' 0 M).take (t / 5)) := by
    intro t ht q hq
    rw [List.take_of_length_le (by omega)]
    exact hbits1 q hq
  have htail : ∀ t, 5 * (M / 2) ≤ t → crashSplit c s k t = applyHeap ((s.heap.set id A').alloc B').1
      ((linkWrites id s.heap.fresh (s.heap.next id)).take (t - 5 * (M / 2))) := by
    intro t ht
    rw [hprog, List.take_append, List.take_of_length_le (by omega), applyHeap_append, hend, Res.ok_bind, hmlen]
  set h5 : Heap (FLeaf M K V) := ((s.heap.set id A').alloc B').1 with hh5
  have hd5 : h5.data id = some A' := by simp [hh5, Heap.alloc, Heap.set, upd, hne]
  have hn5 : h5.data s.heap.fresh = some B' := by simp [hh5, Heap.alloc, Heap.set, upd]
  have hnext5 : h5.next id = s.heap.next id := by simp [hh5, Heap.alloc, Heap.set, upd, hne]
  have nxW : ∀ (h : Heap (FLeaf M K V)) (i x : Nat) (y : FLeaf M K V), h.data i = some y →
      (HWrite.next i x : HWrite K V).apply h = .ok { h with next := upd h.next i (some x) } := by
    intro h i x y hy
    simp only [HWrite.apply, Heap.get_of hy, Res.ok_bind]; rfl
  have pvW : ∀ (h : Heap (FLeaf M K V)) (i x : Nat) (y : FLeaf M K V), h.data i = some y →
      (HWrite.prev i x : HWrite K V).apply h = .ok { h with prev := upd h.prev i (some x) } := by
    intro h i x y hy
    simp only [HWrite.apply, Heap.get_of hy, Res.ok_bind]; rfl
  have hfr : ∀ i ∈ pre ++ id :: post, i ≠ s.heap.fresh := fun i hi => by have := wf.fresh i hi; omega
  have key : ∀ t, ∃ h, crashSplit c s k t = .ok h ∧
      Pers F hM h first (fun x => if t < 5 * (M / 2) + (if s.heap.next id = none then 1 else 3) ∧
          x ∈ ((movedIdx l sk' 0 M).map l.keys).take (t / 5) then none else m x) ∧
      (5 * (M / 2) + 4 ≤ t → h = hF) := by
    intro t
    by_cases ht : t < 5 * (M / 2)
    · -- during the moves
      obtain ⟨b', s1, k1, k2, k3, _⟩ := moves_spec (l := l) (sk := sk') hne M 0 0 l.bits (FLeaf.new c M)
        (s.heap.alloc (FLeaf.new c M)).1 t (by omega) le_rfl hd0 hdn
      have hl' := before t b' s1 (upd s.heap.next s.heap.fresh none) (k2 hok.clean) k3
        (fun i hi => by simp [upd, hfr i hi])
      refine ⟨_, ?_, hl'.congr (fun x => ?_), fun h => by omega⟩
      · rw [hprog, List.take_append_of_le_length (by omega), k1, hheap]; rfl
      · have : t < 5 * (M / 2) + (if s.heap.next id = none then 1 else 3) := by split <;> omega
        simp [this]
    · have ht : 5 * (M / 2) ≤ t := by omega
      obtain ⟨d, rfl⟩ := Nat.exists_eq_add_of_le ht
      have hT := htail (5 * (M / 2) + d) ht
      rw [show 5 * (M / 2) + d - 5 * (M / 2) = d by omega] at hT
      have hlost : ∀ nx : Nat → Option Nat, (∀ i ∈ pre ++ id :: post, nx i = s.heap.next i) →
          Pers F hM { h5 with next := nx } first
            (fun x => if x ∈ ((movedIdx l sk' 0 M).map l.keys).take ((5 * (M / 2) + d) / 5) then none else m x) := by
        intro nx hnx
        have := before (5 * (M / 2) + d) b1 B' nx hcl1 (hbits1' _ ht) hnx
        rw [← hb1] at this
        exact this
      cases hnx : s.heap.next id with
      | none =>
        rw [hnx] at hT
        have eF' := eF
        unfold linkAfter at eF'
        have hnn : ((s.heap.set id A').alloc B').1.next id = none := by
          rw [← hh5, hnext5, hnx]
        rw [hnn] at eF'
        have eF' := Res.ok.inj eF'
        have s1 : (HWrite.next id s.heap.fresh : HWrite K V).apply h5 =
            .ok { hF with prev := h5.prev } := by
          rw [nxW h5 id s.heap.fresh A' hd5, ← eF']
        have s2 : (HWrite.prev s.heap.fresh id : HWrite K V).apply { hF with prev := h5.prev } = .ok hF := by
          rw [pvW _ _ _ B' (by rw [← eF']; exact hn5), ← eF']
        match d, hT with
        | 0, hT =>
          have hl' := hlost h5.next (fun i hi => by
            simp [hh5, Heap.alloc, Heap.set, upd, hfr i hi])
          refine ⟨h5, by rw [hT]; rfl, hl'.congr (fun x => ?_), fun h => by omega⟩
          simp [hnx]
        | 1, hT =>
          have hl' := after.withPrev h5.prev
          refine ⟨_, by rw [hT]; simp only [linkWrites, List.take_succ_cons, List.take_zero, applyHeap, s1, Res.ok_bind], hl'.congr (fun x => ?_), fun h => by omega⟩
          simp [hnx]
        | d + 2, hT =>
          have hl' := after
          refine ⟨hF, by rw [hT]; simp only [linkWrites, List.take_succ_cons, List.take_nil, applyHeap, s1, s2, Res.ok_bind], hl'.congr (fun x => ?_), fun _ => rfl⟩
          simp [hnx]
      | some y =>
        rw [hnx] at hT
        obtain ⟨ly, hly⟩ : ∃ ly, h5.data y = some ly := by
          have eF' := eF
          unfold linkAfter at eF'
          have hnn : ((s.heap.set id A').alloc B').1.next id = some y := by
            rw [← hh5, hnext5, hnx]
          rw [hnn] at eF'
          obtain ⟨ly, e, _⟩ := Res.bind_eq_ok.1 eF'
          rw [Heap.get] at e
          cases hq : h5.data y with
          | none => rw [hq] at e; cases e
          | some ly => exact ⟨ly, rfl⟩
        have eF' := eF
        unfold linkAfter at eF'
        have hnn : ((s.heap.set id A').alloc B').1.next id = some y := by
          rw [← hh5, hnext5, hnx]
        rw [hnn] at eF'
        dsimp only at eF'
        rw [Heap.get_of hly, Res.ok_bind] at eF'
        have eF' := Res.ok.inj eF'
        set h6 : Heap (FLeaf M K V) := { h5 with next := upd h5.next s.heap.fresh (some y) } with hh6
        have s1 : (HWrite.next s.heap.fresh y : HWrite K V).apply h5 = .ok h6 := by
          rw [nxW h5 s.heap.fresh y B' hn5]
        have s2 : (HWrite.prev y s.heap.fresh : HWrite K V).apply h6 =
            .ok { h6 with prev := upd h5.prev y (some s.heap.fresh) } := pvW h6 y _ ly hly
        have s3 : (HWrite.next id s.heap.fresh : HWrite K V).apply { h6 with prev := upd h5.prev y (some s.heap.fresh) } =
            .ok { hF with prev := upd h5.prev y (some s.heap.fresh) } := by
          rw [nxW { h6 with prev := upd h5.prev y (some s.heap.fresh) } id s.heap.fresh A' hd5, ← eF']
        have s4 : (HWrite.prev s.heap.fresh id : HWrite K V).apply { hF with prev := upd h5.prev y (some s.heap.fresh) } =
            .ok hF := by
          rw [pvW _ _ _ B' (by rw [← eF']; exact hn5), ← eF']
        have hnx6 : ∀ i ∈ pre ++ id :: post, h6.next i = s.heap.next i := fun i hi => by
          simp [hh6, hh5, Heap.alloc, Heap.set, upd, hfr i hi]
        match d, hT with
        | 0, hT =>
          have hl' := hlost h5.next (fun i hi => by
            simp [hh5, Heap.alloc, Heap.set, upd, hfr i hi])
          refine ⟨h5, by rw [hT]; rfl, hl'.congr (fun x => ?_), fun h => by omega⟩
          simp [hnx]
        | 1, hT =>
          have hl' := hlost h6.next hnx6
          refine ⟨h6, by rw [hT]; simp only [linkWrites, List.take_succ_cons, List.take_zero, applyHeap, s1, Res.ok_bind], hl'.congr (fun x => ?_), fun h => by omega⟩
          simp [hnx]
        | 2, hT =>
          have hl' := (hlost h6.next hnx6).withPrev (upd h5.prev y (some s.heap.fresh))
          refine ⟨{ h6 with prev := upd h5.prev y (some s.heap.fresh) }, by rw [hT]; simp only [linkWrites, List.take_succ_cons, List.take_zero, applyHeap, s1, s2, Res.ok_bind], hl'.congr (fun x => ?_), fun h => by omega⟩
          simp [hnx]
        | 3, hT =>
          have hl' := after.withPrev (upd h5.prev y (some s.heap.fresh))
          refine ⟨_, by rw [hT]; simp only [linkWrites, List.take_succ_cons, List.take_zero, applyHeap, s1, s2, s3, Res.ok_bind], hl'.congr (fun x => ?_), fun h => by omega⟩
          simp [hnx]
        | d + 4, hT =>
          have hl' := after
          refine ⟨hF, by rw [hT]; simp only [linkWrites, List.take_succ_cons, List.take_nil, applyHeap, s1, s2, s3, s4, Res.ok_bind], hl'.congr (fun x => ?_), fun _ => rfl⟩
          simp [hnx]
  refine ⟨sk', (movedIdx l sk' 0 M).map l.keys, hndm, hlenm, hmoved, fun t => ?_, hlenI, A', B', hF, es, eF, fun t ht => ?_⟩
  · obtain ⟨h, k1, k2, _⟩ := key t
    exact ⟨h, k1, k2⟩
  · obtain ⟨h, k1, _, k4⟩ := key t
    rw [k1, k4 ht]

end Verif.FPTree
