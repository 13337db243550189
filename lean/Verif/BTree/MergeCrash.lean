import Verif.BTree.SortedCrash
import Verif.BTree.SplitCrash
import Verif.BTree.RecoverShadow

/-!
# Crashes inside an erase of HPBPTree and PBPTree

`erase` writes to the leaf of the key (`eraseFromLeafNodeAtPosition`, P396-419, H710-727) and, if this leaf then has fewer than
`(M + 1) / 2` entries, makes the assignments of `balanceLeafNodes` (P532-584, H919-958) or of `mergeLeafNodes` (P491-522,
H1041-1058) followed by `deleteLeafNode` (P1190-1198, H153-156).  Only the deletion is a transaction.  As in `SortedCrash.lean` the
assignments become persistent one by one in program order.  The branch nodes of the HPBPTree are volatile; those of the PBPTree
are persistent and are changed after the deletion (P464-484), which is not modelled here: the model ends with the deletion.
-/

set_option linter.unusedSectionVars false

namespace Verif.BTree

open Verif Search Assoc MapSpec

variable {K V : Type} [LinearOrder K] {c : SCfg K V}

/-! ## Model -/

/-- An assignment to a leaf, to a link (a link may become null), or the deletion of a leaf. -/
inductive SWrite (K V : Type) where
  | leaf (i : Nat) (w : SInstr K V)
  | next (i : Nat) (x : Option Nat)
  | prev (i x : Nat)
  | del (i : Nat)

/-- The effect of an assignment. -/
def SWrite.apply (M : Nat) (h : Heap (SLeaf K V)) : SWrite K V → Res (Heap (SLeaf K V))
  | .leaf i w => do
    let l ← h.get i
    let l ← w.apply M l
    pure (h.set i l)
  | .next i x => do
    let _ ← h.get i
    pure { h with next := upd h.next i x }
  | .prev i x => do
    let _ ← h.get i
    pure { h with prev := upd h.prev i (some x) }
  | .del i => do
    let _ ← h.get i
    pure (h.free i)

/-- A sequence of assignments. -/
def applyW (M : Nat) (h : Heap (SLeaf K V)) : List (SWrite K V) → Res (Heap (SLeaf K V))
  | [] => .ok h
  | w :: ws => do
    let h ← w.apply M h
    applyW M h ws

/-- P506-509, H1049-1052: key and value of each entry of the second leaf, to the slots from `n` on of the leaf `id`. -/
def copyWrites (id n : Nat) : List (K × V) → List (SWrite K V)
  | [] => []
  | e :: es => .leaf id (.key n e.1) :: .leaf id (.val n e.2) :: copyWrites id (n + 1) es

/-- P511-516, H1054-1056 and `deleteLeafNode` (P455, P460, H806, H812).  `zero`: HPBPTree sets `node2Ref.numKeys = 0` (H1055),
PBPTree does not (P512). -/
def unlinkW (zero : Bool) (id1 id2 : Nat) (nx : Option Nat) : List (SWrite K V) :=
  .next id1 nx :: ((if zero then [.leaf id2 (.num 0)] else []) ++
    ((match nx with | none => [] | some x => [.prev x id1]) ++ [.del id2]))

/-- P491-522, H1041-1058 `mergeLeafNodes(node1, node2)` and the deletion of `node2`. -/
def mergeW (c : SCfg K V) (zero : Bool) (h : Heap (SLeaf K V)) (id1 id2 : Nat) : Res (List (SWrite K V)) := do
  let a ← h.get id1
  let b ← h.get id2
  Res.assert (a.num + b.num ≤ c.M)
  let es ← SLeaf.scanFrom c b 0 b.num
  pure (copyWrites id1 a.num es ++ .leaf id1 (.num (a.num + b.num)) :: unlinkW zero id1 id2 (h.next id2))

/-- P558-562, P569-573, H936-940, H945-949: key, value and counter for each moved entry; `p` is the slot and `n` the counter of the
receiver. -/
def moveWrites (id p n : Nat) : List (K × V) → List (SWrite K V)
  | [] => []
  | e :: es => .leaf id (.key p e.1) :: .leaf id (.val p e.2) :: .leaf id (.num (n + 1)) :: moveWrites id (p + 1) (n + 1) es

/-- P532-584, H919-958 `balanceLeafNodes(donor, receiver)`. -/
def balanceW (c : SCfg K V) (h : Heap (SLeaf K V)) (idd idr : Nat) : Res (List (SWrite K V)) := do
  let d ← h.get idd
  let r ← h.get idr
  Res.assert (r.num < d.num)
  let balanced := (d.num + r.num) / 2
  let toMove := d.num - balanced
  if toMove = 0 then pure []
  else do
    let dk ← Slots.rd c.M d.keys 0
    let rk ← Slots.rd c.M r.keys 0
    if dk < rk then do
      let es ← SLeaf.scanFrom c d balanced toMove
      pure ((List.range r.num).flatMap (fun j => [.leaf idr (.copyKey (r.num - j + toMove - 1) (r.num - j - 1)),
          .leaf idr (.copyVal (r.num - j + toMove - 1) (r.num - j - 1))]) ++
        moveWrites idr 0 r.num es ++ [.leaf idd (.num (d.num - toMove))])
    else do
      let es ← SLeaf.scanFrom c d 0 toMove
      pure (moveWrites idr r.num r.num es ++
        (List.range (d.num - toMove)).flatMap (fun j => [.leaf idd (.copyKey j (toMove + j)), .leaf idd (.copyVal j (toMove + j))]) ++
        [.leaf idd (.num (d.num - toMove))])

/-- P431-463, H782-816: the assignments of `underflowAtLeafLevel(node, pos, leaf)` to the leaves. -/
def underflowW (c : SCfg K V) (zero : Bool) (h : Heap (SLeaf K V)) (n : BNode K Nat) (pos id : Nat) : Res (List (SWrite K V)) := do
  Res.assert (pos ≤ n.num)
  let ls ← leftSib (sortedOps c) h pos id
  if pos > 0 ∧ (c.M + 1) / 2 < ls.2 then balanceW c h ls.1 id
  else do
    let rs ← rightSib (sortedOps c) h n.num pos id
    if pos < n.num ∧ (c.M + 1) / 2 < rs.2 then balanceW c h rs.1 id
    else if pos > 0 ∧ ls.2 ≤ (c.M + 1) / 2 then mergeW c zero h ls.1 id
    else if pos < n.num ∧ rs.2 ≤ (c.M + 1) / 2 then mergeW c zero h id rs.1
    else .assertFail

/-- P600-617, H740-757: the branch node above the leaf of `k`. -/
def leafParentG {L : Type} (o : Ops K V L) : (d : Nat) → BNode K (Tree K d) → K → Res (BNode K Nat)
  | 0, n, _ => .ok n
  | d + 1, n, k => do
    let pos ← lookupPos o n k
    let ch ← Slots.rd (o.N + 1) n.kids pos
    leafParentG o d ch k

/-- P385-419, H697-727: the assignments of `eraseFromLeafNode`. -/
def eraseLeafW (c : SCfg K V) (l : SLeaf K V) (id : Nat) (k : K) : Res (List (SWrite K V)) := do
  let p ← SLeaf.pos c l k
  let x ← Slots.rd c.M l.keys p
  if x = k then do
    Res.guardUB (1 ≤ l.num)
    pure ((eraseInstrs l.num p).map (.leaf id))
  else pure []

/-- P284-297, P600-617, H740-770: the assignments of an erase of `k` to the leaves, up to the deletion of a leaf. -/
def eraseW (c : SCfg K V) (zero : Bool) : State K (SLeaf K V) → K → Res (List (SWrite K V))
  | ⟨d, root, h⟩, k => do
    let id ← findLeaf (sortedOps c) d root k
    let l ← h.get id
    let ws ← eraseLeafW c l id k
    let r ← SLeaf.erase c l k
    match d, root with
    | 0, _ => pure ws
    | d + 1, n =>
      if r.2.num < (c.M + 1) / 2 then do
        let n ← leafParentG (sortedOps c) d n k
        let pos ← lookupPos (sortedOps c) n k
        let us ← underflowW c zero (h.set id r.2) n pos id
        pure (ws ++ us)
      else pure ws

/-- The leaves after a crash that follows the first `t` assignments of an erase of `k`. -/
def crashEraseW (c : SCfg K V) (zero : Bool) (s : State K (SLeaf K V)) (k : K) (t : Nat) : Res (Heap (SLeaf K V)) := do
  let ws ← eraseW c zero s k
  applyW c.M s.heap (ws.take t)

/-! ## Sequences of assignments -/

theorem applyW_append (M : Nat) (ws ws' : List (SWrite K V)) : ∀ h : Heap (SLeaf K V),
    applyW M h (ws ++ ws') = applyW M h ws >>= fun h => applyW M h ws' := by
  induction ws with
  | nil => intro h; rfl
  | cons w ws ih =>
    intro h
    rw [List.cons_append, applyW, applyW, Res.bind_assoc']
    congr 1
    funext h
    exact ih h

theorem SWrite.leaf_ok {M : Nat} {h : Heap (SLeaf K V)} {i : Nat} {l l' : SLeaf K V} (hl : h.data i = some l) {w : SInstr K V}
    (hw : w.apply M l = .ok l') : (SWrite.leaf i w).apply M h = .ok (h.set i l') := by
  simp only [SWrite.apply, Heap.get_of hl, Res.ok_bind, hw]; rfl

/-- Assignments to one leaf. -/
theorem applyW_leaf {M : Nat} {i : Nat} : ∀ (ws : List (SInstr K V)) (h : Heap (SLeaf K V)) (l l' : SLeaf K V), h.data i = some l →
    SInstr.applyAll M l ws = .ok l' → applyW M h (ws.map (.leaf i)) = .ok (h.set i l')
  | [], h, l, l', hl, e => by
    cases Res.ok.inj e
    rw [Heap.set_self hl]; rfl
  | w :: ws, h, l, l', hl, e => by
    rw [SInstr.applyAll] at e
    obtain ⟨l1, e1, e⟩ := Res.bind_eq_ok.1 e
    rw [List.map_cons, applyW, SWrite.leaf_ok hl e1, Res.ok_bind, applyW_leaf ws _ l1 l' (Heap.set_data _ _ _) e, Heap.set_same]

/-- Copying entries to slots behind the used ones. -/
theorem copyWrites_points {M : Nat} {i : Nat} : ∀ (es : List (K × V)) (n : Nat) (h : Heap (SLeaf K V)) (l : SLeaf K V), h.data i = some l →
    n + es.length ≤ M →
    (∀ t, ∃ l', applyW M h ((copyWrites i n es).take t) = .ok (h.set i l') ∧ l'.num = l.num ∧
      (∀ j, j < n → l'.keys j = l.keys j ∧ l'.vals j = l.vals j)) ∧
    ∃ l', applyW M h (copyWrites i n es) = .ok (h.set i l') ∧ l'.num = l.num ∧
      (∀ j, j < n → l'.keys j = l.keys j ∧ l'.vals j = l.vals j) ∧
      (∀ j (hj : j < es.length), l'.keys (n + j) = some es[j].1 ∧ l'.vals (n + j) = some es[j].2) ∧
      (∀ j, n + es.length ≤ j → l'.keys j = l.keys j ∧ l'.vals j = l.vals j)
  | [], n, h, l, hl, hn => by
    refine ⟨fun t => ⟨l, by rw [copyWrites, List.take_nil, Heap.set_self hl]; rfl, rfl, fun j _ => ⟨rfl, rfl⟩⟩, l, ?_, rfl,
      fun j _ => ⟨rfl, rfl⟩, fun j hj => by simp at hj, fun j _ => ⟨rfl, rfl⟩⟩
    rw [copyWrites, Heap.set_self hl]; rfl
  | e :: es, n, h, l, hl, hn => by
    rw [List.length_cons] at hn
    have e1 : (SInstr.key n e.1 : SInstr K V).apply M l = .ok { l with keys := fun j => if j = n then some e.1 else l.keys j } := by
      rw [SInstr.apply, Slots.wr_ok _ _ (by omega), Res.ok_bind]; rfl
    have e2 : (SInstr.val n e.2 : SInstr K V).apply M { l with keys := fun j => if j = n then some e.1 else l.keys j } =
        .ok ⟨l.num, fun j => if j = n then some e.1 else l.keys j, fun j => if j = n then some e.2 else l.vals j⟩ := by
      rw [SInstr.apply, Slots.wr_ok _ _ (by omega), Res.ok_bind]; rfl
    have a1 := SWrite.leaf_ok (M := M) hl e1
    have a2 := SWrite.leaf_ok (M := M) (Heap.set_data h i _) e2
    rw [Heap.set_same] at a2
    obtain ⟨ih1, l', ih2, n2, f2, k2, u2⟩ := copyWrites_points (M := M) es (n + 1) (h.set i ⟨l.num, fun j => if j = n then some e.1 else l.keys j,
      fun j => if j = n then some e.2 else l.vals j⟩) _ (Heap.set_data h i _) (by omega)
    constructor
    · intro t
      match t with
      | 0 => exact ⟨l, by rw [List.take_zero, Heap.set_self hl]; rfl, rfl, fun j _ => ⟨rfl, rfl⟩⟩
      | 1 =>
        refine ⟨{ l with keys := fun j => if j = n then some e.1 else l.keys j }, ?_, rfl, fun j hj => ⟨?_, rfl⟩⟩
        · rw [copyWrites, List.take_succ_cons, List.take_zero, applyW, a1, Res.ok_bind]; rfl
        · exact if_neg (by omega)
      | t + 2 =>
        obtain ⟨l', q1, q2, q3⟩ := ih1 t
        rw [Heap.set_same] at q1
        refine ⟨l', ?_, q2, fun j hj => ?_⟩
        · rw [copyWrites, List.take_succ_cons, List.take_succ_cons, applyW, a1, Res.ok_bind, applyW, a2, Res.ok_bind, q1]
        · obtain ⟨r1, r2⟩ := q3 j (by omega)
          rw [r1, r2]
          exact ⟨if_neg (by omega), if_neg (by omega)⟩
    · rw [Heap.set_same] at ih2
      refine ⟨l', ?_, n2, fun j hj => ?_, fun j hj => ?_, fun j hj => ?_⟩
      · rw [copyWrites, applyW, a1, Res.ok_bind, applyW, a2, Res.ok_bind, ih2]
      · obtain ⟨r1, r2⟩ := f2 j (by omega)
        rw [r1, r2]
        exact ⟨if_neg (by omega), if_neg (by omega)⟩
      · match j with
        | 0 =>
          obtain ⟨r1, r2⟩ := f2 n (by omega)
          rw [Nat.add_zero, r1, r2]
          exact ⟨if_pos rfl, if_pos rfl⟩
        | j + 1 =>
          have := k2 j (by simpa using hj)
          rw [show n + 1 + j = n + (j + 1) by omega] at this
          simpa using this
      · obtain ⟨r1, r2⟩ := u2 j (by rw [List.length_cons] at hj; omega)
        rw [r1, r2]
        rw [List.length_cons] at hj
        exact ⟨if_neg (by omega), if_neg (by omega)⟩

end Verif.BTree
