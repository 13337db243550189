import Verif.BTree.JoinCrashProps

/-!
# Crashes between the assignments to `rootNode` and `depth` (PBPTree)

Insert: PBPTree.hpp:224-234.  Erase: 476-480 (the root was a branch node over two leaves) and 623-627 (over two branch nodes).
All three assign `rootNode` and then change `depth`; nothing else is written between or after the two assignments.
Searches (1122-1133) go down as many levels as `depth` says, whatever `rootNode` points to.
-/

set_option linter.unusedSectionVars false

namespace Verif.BTree

open Verif Assoc MapSpec
open Verif.Slots hiding none

section
variable {K V L : Type} [LinearOrder K] (o : Ops K V L)

/-- A tree object whose field `depth` need not be the number of levels below `rootNode`: `tree` is what `rootNode` points to. -/
structure Torn (K L : Type) where
  depth : Nat
  tree : State K L

/-- 1122-1133 `findLeafNode` with the stored depth `dep` on a tree of `d` levels of branch nodes.  To take a branch node for a leaf or a leaf
for a branch node is undefined. -/
def findDepth : (dep d : Nat) → Tree K d → K → Res Nat
  | 0, 0, id, _ => .ok id
  | 0, _ + 1, _, _ => .ub
  | _ + 1, 0, _, _ => .ub
  | dep + 1, d + 1, n, k => do
    let pos ← lookupPos o n k
    let c ← Slots.rd (o.N + 1) n.kids pos
    findDepth dep d c k

/-- 244-256 `lookup`; at the leaf that the search comes to, as in `lookup`. -/
def lookTorn (s : Torn K L) (k : K) : Res (Option V) := do
  let id ← findDepth o s.depth s.tree.depth s.tree.root k
  let l ← s.tree.heap.get id
  o.lookup l k

/-- The operation stops after the assignment to `rootNode`: the root and the nodes are those after the operation, `depth` is the one before
(232-233, 478-479, 625-626).  `none`: the operation does not assign `rootNode`.  Operations that replace the root are those that change the
number of levels; `cutRoot_insert` gives the insert in terms of the code. -/
def cutRoot (s : State K L) (op : Op K V) : Res (Option (Torn K L)) := do
  let r ← exec o s op
  pure (if r.2.depth = s.depth then none else some ⟨s.depth, r.2⟩)

/-- The two assignments in the other order (not the code): `depth` is the one after, the root the one before the operation. -/
def cutDepth (s : State K L) (op : Op K V) : Res (Option (Torn K L)) := do
  let r ← exec o s op
  pure (if r.2.depth = s.depth then none else some ⟨r.2.depth, ⟨s.depth, s.root, s.heap⟩⟩)

end

variable {K V L : Type} [LinearOrder K] {o : Ops K V L} {W : Laws o} {lm bm : Nat}

/-- 211-234: the insert splits the root, a new root is built and assigned. -/
theorem cutRoot_insert (s : State K L) (k : K) (v : V) : cutRoot o s (.insert k v) = (do
    let r ← insertT o s.depth s.heap s.root k v
    match r.split with
    | none => pure none
    | some sr => do
      let root ← newRoot o r.tree sr.1 sr.2
      pure (some ⟨s.depth, ⟨s.depth + 1, root, r.heap⟩⟩)) := by
  unfold cutRoot exec insert
  simp only [Res.bind_assoc']
  refine congrArg _ (funext fun r => ?_)
  cases r.split with
  | none => simp [Res.pure_eq, Res.ok_bind]
  | some sr =>
    simp only [Res.bind_assoc']
    refine congrArg _ (funext fun root => ?_)
    simp [Res.pure_eq, Res.ok_bind]

theorem findDepth_self : ∀ (d : Nat) (t : Tree K d) (x : K), findDepth o d d t x = findLeaf o d t x := by
  intro d
  induction d with
  | zero => intro t x; rfl
  | succ d ih =>
    intro n x
    unfold findDepth findLeaf
    exact congrArg _ (funext fun pos => congrArg _ (funext fun c => ih c x))

theorem lookTorn_self (s : State K L) (x : K) : lookTorn o ⟨s.depth, s⟩ x = lookup o s x := by
  unfold lookTorn lookup
  rw [findDepth_self]

/-- With a wrong depth a search that comes to a leaf with the right depth comes to a node of the wrong kind. -/
theorem findDepth_ne (x : K) : ∀ (d dep : Nat) (t : Tree K d) (id : Nat), findLeaf o d t x = .ok id → dep ≠ d → findDepth o dep d t x = .ub := by
  intro d
  induction d with
  | zero =>
    intro dep t id _ hne
    cases dep with
    | zero => exact absurd rfl hne
    | succ dep => rfl
  | succ d ih =>
    intro dep n id e hne
    cases dep with
    | zero => rfl
    | succ dep =>
      obtain ⟨pos, e1, e⟩ := Res.bind_eq_ok.1 e
      obtain ⟨c, e2, e⟩ := Res.bind_eq_ok.1 e
      unfold findDepth
      rw [e1, Res.ok_bind, e2, Res.ok_bind]
      exact ih dep c id e (by omega)

theorem lookTorn_ne {rm : Nat} {s : State K L} (g : Good W lm bm rm s) {dep : Nat} (hne : dep ≠ s.depth) (x : K) :
    lookTorn o ⟨dep, s⟩ x = .ub := by
  obtain ⟨id, _, _, _, _, _, e, _⟩ := findLeaf_spec x s.depth _ s.root ⊥ ⊤ g.bt (inR_univ x)
  unfold lookTorn
  rw [findDepth_ne x s.depth dep s.root id e hne]
  rfl

theorem execAll_snoc (op : Op K V) : ∀ (ops : List (Op K V)) (s : State K L), execAll o s (ops ++ [op]) =
    (execAll o s ops >>= fun r => exec o r.2 op >>= fun r' => pure (r.1 ++ [r'.1], r'.2)) := by
  intro ops
  induction ops with
  | nil =>
    intro s
    change (exec o s op >>= fun r => (pure (r.1 :: [], r.2) : Res _)) = _
    rfl
  | cons op' ops ih =>
    intro s
    change (exec o s op' >>= fun r => execAll o r.2 (ops ++ [op]) >>= fun rs => pure (r.1 :: rs.1, rs.2)) =
      ((exec o s op' >>= fun r => execAll o r.2 ops >>= fun rs => pure (r.1 :: rs.1, rs.2)) >>= _)
    rw [Res.bind_assoc']
    refine congrArg _ (funext fun r => ?_)
    rw [ih, Res.bind_assoc', Res.bind_assoc']
    refine congrArg _ (funext fun rs => ?_)
    rw [Res.bind_assoc', Res.pure_eq, Res.ok_bind]
    rfl

end Verif.BTree
