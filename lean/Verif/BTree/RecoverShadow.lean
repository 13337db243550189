import Verif.BTree.Recover
import Verif.BTree.SplitCrash

/-!
# What recovery reads

`recover` of the FPTree and of the HPBPTree reads the `nextLeaf` pointers and the smallest keys of the leaves and nothing else.  So
two leaf lists that agree in these give the same branch nodes.
-/

set_option linter.unusedSectionVars false

namespace Verif.BTree

open Verif Assoc

variable {K V L : Type} [LinearOrder K] {o : Ops K V L}

theorem get_bind_minKey {h h0 : Heap L} (hd : ∀ i, (h.data i).map o.minKey = (h0.data i).map o.minKey) (i : Nat) {β : Type} (f : K → Res β) :
    (h.get i >>= fun l => o.minKey l >>= f) = (h0.get i >>= fun l => o.minKey l >>= f) := by
  have := hd i
  unfold Heap.get
  cases h1 : h.data i <;> cases h2 : h0.data i <;> rw [h1, h2] at this
  · simp at this
  · simp at this
  · simp only [Option.map_some, Option.some.injEq] at this
    simp only [Res.ofOption_some, Res.ok_bind, this]

theorem get_bind_const {h h0 : Heap L} (hd : ∀ i, (h.data i).map o.minKey = (h0.data i).map o.minKey) (i : Nat) {β : Type} (f : Res β) :
    (h.get i >>= fun _ => f) = (h0.get i >>= fun _ => f) := by
  have := hd i
  unfold Heap.get
  cases h1 : h.data i <;> cases h2 : h0.data i <;> rw [h1, h2] at this
  · simp at this
  · simp at this
  · rfl

theorem recIns_congr (fp : Bool) {h h0 : Heap L} (hd : ∀ i, (h.data i).map o.minKey = (h0.data i).map o.minKey) (id : Nat) :
    ∀ (d : Nat) (n : BNode K (Tree K d)), recIns o fp h id d n = recIns o fp h0 id d n
  | 0, n => by
    unfold recIns
    exact get_bind_minKey hd id _
  | d + 1, n => by
    unfold recIns
    simp only [recIns_congr fp hd id d]

/-- The tree with another heap. -/
def State.withHeap (s : State K L) (h : Heap L) : State K L := ⟨s.depth, s.root, h⟩

theorem recoveryInsert_congr (fp : Bool) {h h0 : Heap L} (hd : ∀ i, (h.data i).map o.minKey = (h0.data i).map o.minKey) (id : Nat) :
    ∀ s : State K L, recoveryInsert o fp (s.withHeap h) id =
      recoveryInsert o fp (s.withHeap h0) id >>= fun s' => .ok (s'.withHeap h)
  | ⟨0, _, _⟩ => rfl
  | ⟨d + 1, n, h'⟩ => by
    show recoveryInsert o fp ⟨d + 1, n, h⟩ id = recoveryInsert o fp ⟨d + 1, n, h0⟩ id >>= _
    rw [recoveryInsert, recoveryInsert]
    rw [recIns_congr fp hd, Res.bind_assoc']
    congr 1
    funext r
    rcases r with ⟨a, _ | b⟩
    · rfl
    · simp only [Res.bind_assoc']
      rfl

theorem recoveryInsert_heap (fp : Bool) (h0 : Heap L) (id : Nat) : ∀ (s : State K L) (s' : State K L),
    recoveryInsert o fp (s.withHeap h0) id = .ok s' → s'.heap = h0
  | ⟨0, _, _⟩, s', e => by cases e
  | ⟨d + 1, n, h'⟩, s', e => by
    have e : recoveryInsert o fp ⟨d + 1, n, h0⟩ id = .ok s' := e
    rw [recoveryInsert] at e
    obtain ⟨r, _, e⟩ := Res.bind_eq_ok.1 e
    rcases r with ⟨a, _ | b⟩
    · cases Res.ok.inj e; rfl
    · obtain ⟨x, _, e⟩ := Res.bind_eq_ok.1 e
      cases Res.ok.inj e; rfl

theorem recLoop_congr (fp : Bool) {h h0 : Heap L} (hn : h.next = h0.next)
    (hd : ∀ i, (h.data i).map o.minKey = (h0.data i).map o.minKey) : ∀ (fuel : Nat) (s : State K L) (cur : Option Nat),
    recLoop o fp fuel (s.withHeap h) cur = recLoop o fp fuel (s.withHeap h0) cur >>= fun s' => .ok (s'.withHeap h)
  | 0, s, none => rfl
  | 0, s, some _ => rfl
  | _ + 1, s, none => rfl
  | fuel + 1, s, some id => by
    rw [recLoop, recLoop, Res.bind_assoc']
    show (h.get id >>= fun _ => recoveryInsert o fp (s.withHeap h) id >>= fun s' => recLoop o fp fuel s' (h.next id)) =
      (h0.get id >>= fun _ => (recoveryInsert o fp (s.withHeap h0) id >>= fun s' => recLoop o fp fuel s' (h0.next id)) >>= _)
    rw [get_bind_const hd]
    congr 1
    funext _
    rw [recoveryInsert_congr fp hd, Res.bind_assoc', Res.bind_assoc', hn]
    cases e : recoveryInsert o fp (s.withHeap h0) id with
    | ok s' =>
      simp only [Res.ok_bind]
      have hh := recoveryInsert_heap fp h0 id s s' e
      have : s' = s'.withHeap h0 := by obtain ⟨a, b, x⟩ := s'; simp only at hh; subst hh; rfl
      rw [recLoop_congr fp hn hd fuel s' (h0.next id), ← this]
    | _ => rfl

/-- `recover` of the FPTree from two leaf lists with the same `nextLeaf` pointers and the same smallest keys. -/
theorem recoverF_congr {h h0 : Heap L} (hn : h.next = h0.next) (hf : h.fresh = h0.fresh)
    (hd : ∀ i, (h.data i).map o.minKey = (h0.data i).map o.minKey) (first : Nat) :
    recoverF o h first = recoverF o h0 first >>= fun s => .ok (s.withHeap h) := by
  unfold recoverF
  rw [Res.bind_assoc', hn, hf, get_bind_const hd]
  congr 1
  funext _
  cases h0.next first with
  | none => rfl
  | some x =>
    simp only [Res.bind_assoc']
    congr 1
    funext r
    exact recLoop_congr true hn hd h0.fresh ⟨1, r, h0⟩ (some x)

end Verif.BTree
