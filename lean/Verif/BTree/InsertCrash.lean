import Verif.BTree.Tree
import Verif.Search.BinSearch

/-!
# Crashes on the branch levels of an insert into PBPTree and UnsortedPBPTree

Both trees keep their branch nodes in persistent memory and do not rebuild them: what a crash leaves is what the next program
works on.  `insert` changes persistent memory in this order: the leaf (`insertInLeafNode`), then the branch nodes from the
lowest one upwards (`insertInBranchNode`, `splitBranchNode`), then the root.  Crashes inside the leaf are in
`SortedCrash.lean`, `SplitCrash.lean` and `Unsorted/SplitCrash.lean`; here the leaf level is done.  A crash point is a pair of
a level `j` (the branch node of height `j + 1` on the path; `j = depth` is the new root) and the number `q` of changes done at
this level.  The levels below are done, the levels above untouched.  Assignments become persistent in program order.

Simplification: the tree shows what is reachable from the root; a new branch node is reachable once a pointer to it has been
stored, so the assignments to it before that are counted but change nothing.
-/

set_option linter.unusedSectionVars false

namespace Verif.BTree

open Verif Assoc
open Verif.Slots hiding none

variable {K V L α : Type}

/-! ## Model -/

/-- One assignment to a branch node. -/
inductive BW (K α : Type) where
  /-- `children[dst] = children[src]` -/
  | cpKid (dst src : Nat)
  /-- `keys[dst] = keys[src]` -/
  | cpKey (dst src : Nat)
  /-- `keys[i] = k` -/
  | key (i : Nat) (k : K)
  /-- `children[i] = c` -/
  | kid (i : Nat) (c : α)
  /-- `numKeys = m` -/
  | num (m : Nat)

section
variable [LinearOrder K] (o : Ops K V L)

/-- The node after one assignment. -/
def BW.apply (n : BNode K α) : BW K α → Res (BNode K α)
  | .cpKid dst src => do
    let x ← rd (o.N + 1) n.kids src
    let a ← wr (o.N + 1) n.kids dst x
    pure { n with kids := a }
  | .cpKey dst src => do
    let x ← rd o.N n.keys src
    let a ← wr o.N n.keys dst x
    pure { n with keys := a }
  | .key i k => do
    let a ← wr o.N n.keys i k
    pure { n with keys := a }
  | .kid i c => do
    let a ← wr (o.N + 1) n.kids i c
    pure { n with kids := a }
  | .num m => pure { n with num := m }

/-- The node after a list of assignments. -/
def applyBW (n : BNode K α) : List (BW K α) → Res (BNode K α)
  | [] => .ok n
  | w :: ws => do
    let n ← w.apply o n
    applyBW n ws

/-- PBPTree.hpp:1098-1101 (UnsortedPBPTree.hpp: same loop): `for (i = hNumKeys; i > pos; --i)`. -/
def roomWrites (pos : Nat) : Nat → List (BW K α)
  | 0 => []
  | i + 1 => if pos < i + 1 then .cpKid (i + 1) i :: .cpKey (i + 1) i :: roomWrites pos i else []

/-- PBPTree.hpp:1095-1107: the assignments that add the separator `s` with `l` before and `r` behind it at position `pos` of a
node with `num` keys. -/
def entryWrites (num pos : Nat) (s : K) (l r : α) : List (BW K α) :=
  (if pos < num then .cpKid (num + 1) num :: roomWrites pos num else []) ++
    [.key pos s, .kid pos l, .kid (pos + 1) r, .num (num + 1)]

/-- The node after `q` of these assignments. -/
def addEntryAt (n : BNode K α) (pos : Nat) (s : K) (l r : α) (q : Nat) : Res (BNode K α) :=
  applyBW o n ((entryWrites n.num pos s l r).take q)

/-- PBPTree.hpp:1079-1108 with 1020-1050: a branch node after `q` changes of the part of `insertInBranchNode` behind the split of
its child at `pos`; `k` is the inserted key.  In a full node the changes are: the new sibling, its counter, its keys and
children, its last child, the counter of the node, then the assignments to `host`. -/
def addSplitAt (n : BNode K α) (pos : Nat) (k s : K) (l r : α) (q : Nat) : Res (BNode K α) :=
  if n.num = o.N then do
    let sp ← splitBranch o n s
    if q < 2 * sp.right.num + 4 then pure n
    else if k < sp.key then do
      let pos ← lookupPos o sp.left k
      addEntryAt o sp.left pos s l r (q - (2 * sp.right.num + 4))
    else pure sp.left
  else addEntryAt o n pos s l r q

/-- PBPTree.hpp:1063-1110 `insertInBranchNode`: leaves and subtree after `q` changes at level `j`. -/
def insAt : (d : Nat) → Heap L → Tree K d → K → V → Nat → Nat → Res (Heap L × Tree K d)
  | 0, h, id, k, v, _, _ => do
    let r ← insertLeaf o h id k v
    pure (r.1, id)
  | d + 1, h, n, k, v, j, q => do
    let pos ← lookupPos o n k
    let c ← rd (o.N + 1) n.kids pos
    if j < d then do
      let r ← insAt d h c k v j q
      let kids ← wr (o.N + 1) n.kids pos r.2
      pure (r.1, { n with kids := kids })
    else do
      let r ← insertT o d h c k v
      let kids ← wr (o.N + 1) n.kids pos r.tree
      let n := { n with kids := kids }
      match r.split with
      | none => pure (r.heap, n)
      | some sr => do
        let n' ← addSplitAt o n pos k sr.1 r.tree sr.2 q
        pure (r.heap, n')

/-- What a crash leaves of the tree object. -/
inductive Left (K L : Type) where
  /-- A tree. -/
  | tree (s : State K L)
  /-- `rootNode` points to the new root while `depth` is the old one: every operation takes a branch node for a leaf. -/
  | mixed

/-- PBPTree.hpp:210-235 `insert`: the tree object after `q` changes at level `j`.  Level `depth` is the new root: the node, its
key, its two children, its counter, `rootNode`, `depth`. -/
def insertAt (s : State K L) (k : K) (v : V) (j q : Nat) : Res (Left K L) :=
  if j < s.depth then do
    let r ← insAt o s.depth s.heap s.root k v j q
    pure (.tree ⟨s.depth, r.2, r.1⟩)
  else do
    let r ← insertT o s.depth s.heap s.root k v
    match r.split with
    | none => pure (.tree ⟨s.depth, r.tree, r.heap⟩)
    | some _ =>
      if q < 6 then pure (.tree ⟨s.depth, r.tree, r.heap⟩)
      else if q = 6 then pure .mixed
      else do
        let s' ← insert o s k v
        pure (.tree s')

/-- Lookup in a subtree. -/
def lookT (d : Nat) (h : Heap L) (t : Tree K d) (x : K) : Res (Option V) := do
  let id ← findLeaf o d t x
  let l ← h.get id
  o.lookup l x

/-! ## Search in a node with a repeated key -/

/-- What a search in a branch node does on keys that are sorted but may repeat. -/
def DupSearch : Prop := ∀ (a : Slots K) (n : Nat) (κ : Nat → K) (x : K), n ≤ o.N → (∀ i, i < n → a i = some (κ i)) →
  (∀ i j, i ≤ j → j < n → κ i ≤ κ j) → ∃ p, o.search (fun i => rd o.N a i) n x = .ok p ∧ p ≤ n ∧ (∀ i, i < p → κ i ≤ x) ∧
    ∀ i, p ≤ i → i < n → x < κ i ∨ (0 < p ∧ κ (p - 1) = x ∧ κ i = x)

/-- A search that passes over all keys that are not larger. -/
def ExactSearch : Prop := ∀ (a : Slots K) (n : Nat) (κ : Nat → K) (x : K), n ≤ o.N → (∀ i, i < n → a i = some (κ i)) →
  (∀ i j, i ≤ j → j < n → κ i ≤ κ j) → ∃ p, o.search (fun i => rd o.N a i) n x = .ok p ∧ p ≤ n ∧ (∀ i, i < p → κ i ≤ x) ∧
    ∀ i, p ≤ i → i < n → x < κ i

theorem ExactSearch.dup {o : Ops K V L} (h : ExactSearch o) : DupSearch o := fun a n κ x h1 h2 h3 => by
  obtain ⟨p, e, g1, g2, g3⟩ := h a n κ x h1 h2 h3
  exact ⟨p, e, g1, g2, fun i hi hn => Or.inl (g3 i hi hn)⟩

end

section search
open Search
variable [LinearOrder K]

/-- The binary search loop on keys that may repeat. -/
theorem bsLoop_dup (rd : Nat → Res K) (x : K) (κ : Nat → K) (n : Nat) (hrd : ∀ i, i < n → rd i = .ok (κ i))
    (hs : ∀ i j, i ≤ j → j < n → κ i ≤ κ j) : ∀ (fuel pos : Nat) (l r : Int), (r - l + 1).toNat ≤ fuel → 0 ≤ l → r < n → l ≤ r + 1 →
    (∀ i : Nat, (i : Int) < l → κ i < x) → (∀ i : Nat, i < n → r < i → x < κ i) → (r < l → (pos : Int) = l) →
    ∃ c, bsLoop true rd x fuel pos l r = .ok c ∧ c ≤ n ∧ (∀ i, i < c → κ i ≤ x) ∧
      ∀ i, c ≤ i → i < n → x < κ i ∨ (0 < c ∧ κ (c - 1) = x ∧ κ i = x) := by
  intro fuel
  induction fuel with
  | zero =>
    intro pos l r hf hl hr hlr hlow hhigh hpos
    rw [bsLoop, if_neg (by omega)]
    have hp := hpos (by omega)
    exact ⟨pos, rfl, by omega, fun i hi => (hlow i (by omega)).le, fun i h1 h2 => Or.inl (hhigh i h2 (by omega))⟩
  | succ fuel ih =>
    intro pos l r hf hl hr hlr hlow hhigh hpos
    rw [bsLoop]
    by_cases hle : l ≤ r
    · rw [if_pos hle]
      set p := ((l + r) / 2).toNat with hp
      have hpl : l ≤ (p : Int) := by omega
      have hpr : (p : Int) ≤ r := by omega
      rw [hrd p (by omega), Res.ok_bind]
      split
      · rename_i he
        refine ⟨p + 1, rfl, by omega, fun i hi => by rw [← he]; exact hs i p (by omega) (by omega), fun i h1 h2 => ?_⟩
        rcases lt_or_eq_of_le (hs p i (by omega) h2) with h | h
        · exact Or.inl (by rw [← he]; exact h)
        · exact Or.inr ⟨by omega, he, by rw [← h]; exact he⟩
      · rename_i hne
        split
        · rename_i hlt
          refine ih (p + 1) ((p : Int) + 1) r (by omega) (by omega) hr (by omega) ?_ hhigh (fun _ => by omega)
          intro i h2
          exact lt_of_le_of_lt (hs i p (by omega) (by omega)) hlt
        · rename_i hnlt
          have hgt : x < κ p := lt_of_le_of_ne (not_lt.mp hnlt) (Ne.symm hne)
          refine ih p l ((p : Int) - 1) (by omega) hl (by omega) (by omega) hlow ?_ (by intro h; omega)
          intro i h1 h2
          exact lt_of_lt_of_le hgt (hs p i (by omega) h1)
    · rw [if_neg hle]
      have hp := hpos (by omega)
      exact ⟨pos, rfl, by omega, fun i hi => (hlow i (by omega)).le, fun i h1 h2 => Or.inl (hhigh i h2 (by omega))⟩

/-- Linear search on keys that may repeat. -/
theorem linear_dup (rd : Nat → Res K) (x : K) (κ : Nat → K) : ∀ (n pos : Nat), (∀ i, pos ≤ i → i < pos + n → rd i = .ok (κ i)) →
    (∀ i j, i ≤ j → j < pos + n → κ i ≤ κ j) →
    ∃ c, linearSearch false rd x pos n = .ok c ∧ pos ≤ c ∧ c ≤ pos + n ∧ (∀ i, pos ≤ i → i < c → κ i ≤ x) ∧
      ∀ i, c ≤ i → i < pos + n → x < κ i := by
  intro n
  induction n with
  | zero => intro pos _ _; exact ⟨pos, rfl, by omega, by omega, by omega, by omega⟩
  | succ n ih =>
    intro pos hrd hs
    rw [linearSearch, hrd pos (by omega) (by omega), Res.ok_bind]
    by_cases hc : κ pos ≤ x
    · rw [if_pos (by simpa using hc)]
      obtain ⟨c, e, h1, h2, h3, h4⟩ := ih (pos + 1) (fun i h h' => hrd i (by omega) (by omega)) (fun i j h h' => hs i j h (by omega))
      refine ⟨c, e, by omega, by omega, fun i hi hi' => ?_, fun i hi hi' => h4 i hi (by omega)⟩
      rcases Nat.lt_or_eq_of_le hi with h | h
      · exact h3 i (by omega) hi'
      · rw [← h]; exact hc
    · rw [if_neg (by simpa using hc)]
      exact ⟨pos, rfl, by omega, by omega, by omega, fun i h1 h2 => lt_of_lt_of_le (not_le.1 hc) (hs pos i h1 h2)⟩

end search

section
variable [LinearOrder K] {o : Ops K V L}

theorem dupSearch_binary (h : o.search = fun rd (n : Nat) k => Search.binarySearch true rd 0 ((n : Int) - 1) k) : DupSearch o := by
  intro a n κ x hn ha hs
  obtain ⟨c, e, h1, h2, h3⟩ := bsLoop_dup (fun i => rd o.N a i) x κ n (fun i hi => rd_ok (by omega) (ha i hi)) hs _ 0 0 ((n : Int) - 1)
    le_rfl (by omega) (by omega) (by omega) (by intro i hi; omega) (by intro i h1 h2; omega) (by intro; rfl)
  exact ⟨c, by rw [h]; exact e, h1, h2, h3⟩

theorem exactSearch_linear (h : o.search = fun rd n k => Search.linearSearch false rd k 0 n) : ExactSearch o := by
  intro a n κ x hn ha hs
  obtain ⟨c, e, _, h1, h2, h3⟩ := linear_dup (fun i => rd o.N a i) x κ n 0 (fun i _ hi => rd_ok (by omega) (ha i (by omega)))
    (fun i j h1 h2 => hs i j h1 (by omega))
  exact ⟨c, by rw [h]; exact e, by omega, fun i hi => h2 i (by omega) hi, fun i hi hn => h3 i hi (by omega)⟩

/-! ## The node after `q` assignments -/

theorem applyBW_append (ws ws' : List (BW K α)) : ∀ n : BNode K α, applyBW o n (ws ++ ws') = applyBW o n ws >>= fun n' => applyBW o n' ws' := by
  induction ws with
  | nil => intro n; rfl
  | cons w ws ih =>
    intro n
    rw [List.cons_append, applyBW, applyBW, Res.bind_assoc']
    congr 1
    funext n'
    exact ih n'

theorem roomWrites_length (pos : Nat) : ∀ i, (roomWrites (K := K) (α := α) pos i).length = 2 * (i - pos) := by
  intro i
  induction i with
  | zero => simp [roomWrites]
  | succ i ih =>
    rw [roomWrites]
    split
    · simp only [List.length_cons, ih]; omega
    · simp only [List.length_nil]; omega

/-- The loop that makes room, after `q` assignments. -/
theorem room_form (pos : Nat) : ∀ (i q : Nat) (n : BNode K α), i < o.N → (∀ j, j < i → (n.keys j).isSome) → (∀ j, j < i → (n.kids j).isSome) →
    ∃ n', applyBW o n ((roomWrites pos i).take q) = .ok n' ∧ n'.num = n.num ∧
      (∀ j, n'.keys j = if pos < j ∧ j ≤ i ∧ i < j + q / 2 then n.keys (j - 1) else n.keys j) ∧
      ∀ j, n'.kids j = if pos < j ∧ j ≤ i ∧ i < j + (q + 1) / 2 then n.kids (j - 1) else n.kids j := by
  intro i
  induction i with
  | zero =>
    intro q n _ _ _
    refine ⟨n, by simp [roomWrites, applyBW], rfl, fun j => ?_, fun j => ?_⟩ <;> rw [if_neg (by omega)]
  | succ i ih =>
    intro q n hN hk hc
    rw [roomWrites]
    by_cases hp : pos < i + 1
    · rw [if_pos hp]
      obtain ⟨x, hx⟩ := Option.isSome_iff_exists.1 (hc i (by omega))
      obtain ⟨y, hy⟩ := Option.isSome_iff_exists.1 (hk i (by omega))
      rcases q with _ | _ | q
      · refine ⟨n, by simp [applyBW], rfl, fun j => ?_, fun j => ?_⟩ <;> rw [if_neg (by omega)]
      · refine ⟨{ n with kids := fun j => if j = i + 1 then some x else n.kids j }, ?_, rfl, fun j => ?_, fun j => ?_⟩
        · simp only [List.take_succ_cons, List.take_zero, applyBW, BW.apply]
          rw [rd_ok (by omega) hx, Res.ok_bind, wr_ok _ _ (by omega), Res.ok_bind, Res.pure_eq, Res.ok_bind]
        · rw [if_neg (by omega)]
        · simp only
          by_cases hj : j = i + 1
          · subst hj
            rw [if_pos rfl, if_pos (by omega), Nat.add_sub_cancel, hx]
          · rw [if_neg hj, if_neg (by omega)]
      · obtain ⟨n', e, g1, g2, g3⟩ := ih q ⟨n.num, fun j => if j = i + 1 then some y else n.keys j, fun j => if j = i + 1 then some x else n.kids j⟩
          (by omega) (fun j hj => by simp only; rw [if_neg (by omega)]; exact hk j (by omega))
          (fun j hj => by simp only; rw [if_neg (by omega)]; exact hc j (by omega))
        refine ⟨n', ?_, g1, fun j => ?_, fun j => ?_⟩
        · simp only [List.take_succ_cons, applyBW, BW.apply]
          rw [rd_ok (by omega) hx, Res.ok_bind, wr_ok _ _ (by omega), Res.ok_bind, Res.pure_eq, Res.ok_bind]
          rw [rd_ok (by omega) hy, Res.ok_bind, wr_ok _ _ (by omega), Res.ok_bind, Res.pure_eq, Res.ok_bind]
          exact e
        · rw [g2]
          simp only
          by_cases hj : j = i + 1
          · subst hj
            rw [if_neg (by omega), if_pos rfl, if_pos (by omega), Nat.add_sub_cancel, hy]
          · by_cases h1 : pos < j ∧ j ≤ i ∧ i < j + q / 2
            · rw [if_pos h1, if_neg (by omega), if_pos (by omega)]
            · rw [if_neg h1, if_neg hj, if_neg (by omega)]
        · rw [g3]
          simp only
          by_cases hj : j = i + 1
          · subst hj
            rw [if_neg (by omega), if_pos rfl, if_pos (by omega), Nat.add_sub_cancel, hx]
          · by_cases h1 : pos < j ∧ j ≤ i ∧ i < j + (q + 1) / 2
            · rw [if_pos h1, if_neg (by omega), if_pos (by omega)]
            · rw [if_neg h1, if_neg hj, if_neg (by omega)]
    · rw [if_neg hp]
      refine ⟨n, by simp [applyBW], rfl, fun j => ?_, fun j => ?_⟩ <;> rw [if_neg (by omega)]

/-- Number of assignments that make room. -/
def room (num pos : Nat) : Nat := if pos < num then 1 + 2 * (num - pos) else 0

/-- The node after `q` assignments that add a separator. -/
theorem addEntryAt_form {n : BNode K α} {pos : Nat} (s : K) (l r : α) (q : Nat) (hN : n.num < o.N ∨ q = 0) (hp : pos ≤ n.num)
    (hk : ∀ j, j < n.num → (n.keys j).isSome) (hc : ∀ j, j ≤ n.num → (n.kids j).isSome) (hl : n.kids pos = some l) :
    ∃ n', addEntryAt o n pos s l r q = .ok n' ∧ n'.num = (if room n.num pos + 4 ≤ q then n.num + 1 else n.num) ∧
      (∀ j, j < n'.num → n'.keys j = if j = pos ∧ room n.num pos + 1 ≤ q then some s
        else if pos < j ∧ n.num < j + (q - 1) / 2 then n.keys (j - 1) else n.keys j) ∧
      ∀ j, j ≤ n'.num → n'.kids j = if j = pos + 1 ∧ room n.num pos + 3 ≤ q then some r
        else if pos < j ∧ n.num < j + q / 2 then n.kids (j - 1) else n.kids j := by
  by_cases hq : q = 0
  · subst hq
    refine ⟨n, rfl, by rw [if_neg (by omega)], fun j hj => ?_, fun j hj => ?_⟩
    · rw [if_neg (by omega), if_neg (by omega)]
    · rw [if_neg (by omega), if_neg (by omega)]
  replace hN := hN.resolve_right hq
  unfold addEntryAt entryWrites
  -- the room
  obtain ⟨n1, e1, a1, a2, a3⟩ : ∃ n1, applyBW o n ((if pos < n.num then BW.cpKid (n.num + 1) n.num :: roomWrites pos n.num else []).take q) = .ok n1 ∧
      n1.num = n.num ∧ (∀ j, n1.keys j = if pos < j ∧ j ≤ n.num ∧ n.num < j + (q - 1) / 2 then n.keys (j - 1) else n.keys j) ∧
      (∀ j, n1.kids j = if pos < n.num ∧ j = n.num + 1 ∧ 1 ≤ q then n.kids n.num
        else if pos < j ∧ j ≤ n.num ∧ n.num < j + q / 2 then n.kids (j - 1) else n.kids j) := by
    by_cases h : pos < n.num
    · rw [if_pos h]
      cases q with
      | zero =>
        refine ⟨n, rfl, rfl, fun j => ?_, fun j => ?_⟩
        · rw [if_neg (by omega)]
        · rw [if_neg (by omega), if_neg (by omega)]
      | succ q =>
        obtain ⟨x, hx⟩ := Option.isSome_iff_exists.1 (hc n.num (by omega))
        obtain ⟨n', e, g1, g2, g3⟩ := room_form (o := o) pos n.num q ⟨n.num, n.keys, fun j => if j = n.num + 1 then some x else n.kids j⟩ hN hk
          (fun j hj => by simp only; rw [if_neg (by omega)]; exact hc j (by omega))
        refine ⟨n', ?_, g1, fun j => by rw [g2]; simp, fun j => ?_⟩
        · rw [List.take_succ_cons, applyBW, BW.apply]
          rw [rd_ok (by omega) hx, Res.ok_bind, wr_ok _ _ (by omega), Res.ok_bind, Res.pure_eq, Res.ok_bind]
          exact e
        · rw [g3]
          simp only
          by_cases hj : j = n.num + 1
          · subst hj
            rw [if_neg (by omega), if_pos rfl, if_pos (by omega), hx]
          · by_cases h1 : pos < j ∧ j ≤ n.num ∧ n.num < j + (q + 1) / 2
            · rw [if_pos h1, if_neg (by omega), if_neg (by omega), if_pos h1]
            · rw [if_neg h1, if_neg (by omega), if_neg (by omega), if_neg h1]
    · rw [if_neg h]
      refine ⟨n, by simp [applyBW], rfl, fun j => ?_, fun j => ?_⟩
      · rw [if_neg (by omega)]
      · rw [if_neg (by omega), if_neg (by omega)]
  have hlen : (if pos < n.num then BW.cpKid (n.num + 1) n.num :: roomWrites (K := K) (α := α) pos n.num else []).length = room n.num pos := by
    unfold room
    split
    · rw [List.length_cons, roomWrites_length]; omega
    · rfl
  rw [List.take_append, applyBW_append, e1, Res.ok_bind, hlen]
  have hroom : room n.num pos = if pos < n.num then 1 + 2 * (n.num - pos) else 0 := rfl
  generalize hR : room n.num pos = R at *
  have hpn : pos < n.num ∧ R = 1 + 2 * (n.num - pos) ∨ pos = n.num ∧ R = 0 := by
    by_cases h : pos < n.num
    · exact Or.inl ⟨h, by rw [hroom, if_pos h]⟩
    · exact Or.inr ⟨by omega, by rw [hroom, if_neg h]⟩
  -- the entry
  have hkey : ∀ j, j < n.num → n1.keys j = if pos < j ∧ n.num < j + (q - 1) / 2 then n.keys (j - 1) else n.keys j := by
    intro j hj
    rw [a2]
    by_cases h1 : pos < j ∧ n.num < j + (q - 1) / 2
    · rw [if_pos h1, if_pos (by omega)]
    · rw [if_neg h1, if_neg (by omega)]
  have hkid : ∀ j, j ≤ n.num → n1.kids j = if pos < j ∧ n.num < j + q / 2 then n.kids (j - 1) else n.kids j := by
    intro j hj
    rw [a3, if_neg (by omega)]
    by_cases h1 : pos < j ∧ n.num < j + q / 2
    · rw [if_pos h1, if_pos (by omega)]
    · rw [if_neg h1, if_neg (by omega)]
  by_cases q1 : R + 1 ≤ q
  swap
  · rw [show q - R = 0 by omega]
    refine ⟨n1, rfl, by rw [if_neg (by omega), a1], fun j hj => ?_, fun j hj => ?_⟩
    · rw [if_neg (by omega)]; exact hkey j (by omega)
    · rw [if_neg (by omega)]; exact hkid j (by omega)
  have w1 : BW.apply o n1 (.key pos s) = .ok { n1 with keys := fun j => if j = pos then some s else n1.keys j } := by
    rw [BW.apply, wr_ok _ _ (by omega), Res.ok_bind, Res.pure_eq]
  by_cases q2 : R + 2 ≤ q
  swap
  · rw [show q - R = 1 by omega]
    refine ⟨{ n1 with keys := fun j => if j = pos then some s else n1.keys j }, ?_, by rw [if_neg (by omega)]; exact a1, fun j hj => ?_, fun j hj => ?_⟩
    · simp only [List.take_succ_cons, List.take_zero, applyBW]
      rw [w1, Res.ok_bind]
    · simp only at hj ⊢
      by_cases h : j = pos
      · rw [if_pos h, if_pos ⟨h, q1⟩]
      · rw [if_neg h, if_neg (by tauto)]; exact hkey j (by omega)
    · simp only at hj ⊢
      rw [if_neg (by omega)]; exact hkid j (by omega)
  have w2 : ∀ n2 : BNode K α, BW.apply o n2 (.kid pos l) = .ok { n2 with kids := fun j => if j = pos then some l else n2.kids j } := by
    intro n2
    rw [BW.apply, wr_ok _ _ (by omega), Res.ok_bind, Res.pure_eq]
  have hl1 : ∀ j, j = pos → n1.kids j = some l := by
    rintro j rfl
    rw [hkid j hp, if_neg (by omega), hl]
  have hl2 : ∀ j, (if j = pos then some l else n1.kids j) = n1.kids j := by
    intro j
    split
    · rename_i h; rw [hl1 j h]
    · rfl
  by_cases q3 : R + 3 ≤ q
  swap
  · rw [show q - R = 2 by omega]
    refine ⟨⟨n1.num, fun j => if j = pos then some s else n1.keys j, fun j => if j = pos then some l else n1.kids j⟩, ?_, by rw [if_neg (by omega)]; exact a1, fun j hj => ?_, fun j hj => ?_⟩
    · simp only [List.take_succ_cons, List.take_zero, applyBW]
      rw [w1, Res.ok_bind, w2, Res.ok_bind]
    · simp only at hj ⊢
      by_cases h : j = pos
      · rw [if_pos h, if_pos ⟨h, q1⟩]
      · rw [if_neg h, if_neg (by tauto)]; exact hkey j (by omega)
    · simp only at hj ⊢
      rw [hl2, if_neg (by omega), ← hkid j (by omega)]
  have w3 : ∀ n2 : BNode K α, BW.apply o n2 (.kid (pos + 1) r) = .ok { n2 with kids := fun j => if j = pos + 1 then some r else n2.kids j } := by
    intro n2
    rw [BW.apply, wr_ok _ _ (by omega), Res.ok_bind, Res.pure_eq]
  by_cases q4 : R + 4 ≤ q
  swap
  · rw [show q - R = 3 by omega]
    refine ⟨⟨n1.num, fun j => if j = pos then some s else n1.keys j, fun j => if j = pos + 1 then some r else if j = pos then some l else n1.kids j⟩, ?_, by rw [if_neg (by omega)]; exact a1, fun j hj => ?_, fun j hj => ?_⟩
    · simp only [List.take_succ_cons, List.take_zero, applyBW]
      rw [w1, Res.ok_bind, w2, Res.ok_bind, w3, Res.ok_bind]
    · simp only at hj ⊢
      by_cases h : j = pos
      · rw [if_pos h, if_pos ⟨h, q1⟩]
      · rw [if_neg h, if_neg (by tauto)]; exact hkey j (by omega)
    · simp only at hj ⊢
      by_cases h' : j = pos + 1
      · rw [if_pos h', if_pos ⟨h', q3⟩]
      · rw [if_neg h', hl2, if_neg (by tauto), ← hkid j (by omega)]
  · rw [List.take_of_length_le (by simp only [List.length_cons, List.length_nil]; omega)]
    refine ⟨⟨n.num + 1, fun j => if j = pos then some s else n1.keys j, fun j => if j = pos + 1 then some r else if j = pos then some l else n1.kids j⟩, ?_, by rw [if_pos q4], fun j hj => ?_, fun j hj => ?_⟩
    · simp only [applyBW]
      rw [w1, Res.ok_bind, w2, Res.ok_bind, w3, Res.ok_bind, BW.apply, Res.pure_eq, Res.ok_bind]
    · simp only at hj ⊢
      by_cases h : j = pos
      · rw [if_pos h, if_pos ⟨h, q1⟩]
      · rw [if_neg h, if_neg (by tauto), a2]
        by_cases h1 : pos < j ∧ n.num < j + (q - 1) / 2
        · rw [if_pos h1, if_pos (by omega)]
        · rw [if_neg h1, if_neg (by omega)]
    · simp only at hj ⊢
      by_cases h' : j = pos + 1
      · rw [if_pos h', if_pos ⟨h', q3⟩]
      · rw [if_neg h', hl2, if_neg (by tauto), a3]
        by_cases h1 : j = n.num + 1
        · rw [if_pos (by omega), if_pos (by omega), h1, Nat.add_sub_cancel]
        · rw [if_neg (by omega)]
          by_cases h2 : pos < j ∧ n.num < j + q / 2
          · rw [if_pos h2, if_pos (by omega)]
          · rw [if_neg h2, if_neg (by omega)]

/-! ## What a search sees -/

/-- After `q` assignments that add a separator at position `pos` of a node with `num` keys, the keys behind the separator
number `p` (counted after the insert) are not found. -/
def LostAdd (num pos q p : Nat) : Prop :=
  (p = pos + 1 ∧ q < if pos < num then room num pos + 3 else 4) ∨ (pos < num ∧ p = num + 1 ∧ 2 ≤ q ∧ q < room num pos + 4) ∨
    (q % 2 = 0 ∧ 2 ≤ q ∧ q < room num pos ∧ p + q / 2 = num + 2)

/-- The separator (counted after the insert) that the node holds twice. -/
def DupAdd (num pos q i : Nat) : Prop := 5 ≤ q ∧ q ≤ room num pos ∧ i + (q - 1) / 2 = num + 1

/-- The position of `x` among the `m` separators `S`. -/
def IsPos (S : Nat → K) (m : Nat) (x : K) (p : Nat) : Prop := p ≤ m ∧ (∀ i, i < p → S i ≤ x) ∧ ∀ i, p ≤ i → i < m → x < S i

theorem IsPos.le_iff {S : Nat → K} {m : Nat} {x : K} {p : Nat} (h : IsPos S m x p) {i : Nat} (hi : i < m) : S i ≤ x ↔ i < p := by
  constructor
  · intro h1
    by_contra h2
    exact absurd h1 (not_le.2 (h.2.2 i (by omega) hi))
  · exact h.2.1 i

set_option maxHeartbeats 2000000 in
/-- The arithmetic of `addEntryAt_sees`: `a` and `b` are the numbers of the separators before and behind position `p'`. -/
theorem sees_arith {num pos q p p' num' a b g : Nat} (hp : pos ≤ num) (hpm : p ≤ num + 1) (hp' : p' ≤ num')
    (hnum : room num pos + 4 ≤ q ∧ num' = num + 1 ∨ q < room num pos + 4 ∧ num' = num)
    (hi1 : ((p' - 1 < pos ∨ (p' - 1 = pos ∧ room num pos + 1 ≤ q) ∨ (pos < p' - 1 ∧ num < p' - 1 + (q - 1) / 2)) ∧ a = p' - 1) ∨
      (¬ (p' - 1 < pos ∨ (p' - 1 = pos ∧ room num pos + 1 ≤ q) ∨ (pos < p' - 1 ∧ num < p' - 1 + (q - 1) / 2)) ∧ a = p' - 1 + 1))
    (hi2 : ((p' < pos ∨ (p' = pos ∧ room num pos + 1 ≤ q) ∨ (pos < p' ∧ num < p' + (q - 1) / 2)) ∧ b = p') ∨
      (¬ (p' < pos ∨ (p' = pos ∧ room num pos + 1 ≤ q) ∨ (pos < p' ∧ num < p' + (q - 1) / 2)) ∧ b = p' + 1))
    (hg : (p' = pos + 1 ∧ room num pos + 3 ≤ q ∧ g = pos + 1) ∨
      (¬ (p' = pos + 1 ∧ room num pos + 3 ≤ q) ∧ pos < p' ∧ num < p' + q / 2 ∧ (p' = pos + 1 ∧ g = pos ∨ p' ≠ pos + 1 ∧ g = p')) ∨
      (¬ (p' = pos + 1 ∧ room num pos + 3 ≤ q) ∧ ¬ (pos < p' ∧ num < p' + q / 2) ∧ (p' ≤ pos ∧ g = p' ∨ pos < p' ∧ g = p' + 1)))
    (h3 : p' < num' → ¬ (b < p)) (h4 : 0 < p' → a < p) : g = p ↔ ¬ LostAdd num pos q p := by
  have hR : pos < num ∧ room num pos = 1 + 2 * (num - pos) ∨ pos = num ∧ room num pos = 0 := by
    unfold room
    by_cases h : pos < num
    · rw [if_pos h]; exact Or.inl ⟨h, rfl⟩
    · rw [if_neg h]; exact Or.inr ⟨by omega, rfl⟩
  have hL : LostAdd num pos q p ↔ (pos < num ∧ p = pos + 1 ∧ q < room num pos + 3) ∨ (pos = num ∧ p = pos + 1 ∧ q < 4) ∨
      (pos < num ∧ p = num + 1 ∧ 2 ≤ q ∧ q < room num pos + 4) ∨ (q % 2 = 0 ∧ 2 ≤ q ∧ q < room num pos ∧ p + q / 2 = num + 2) := by
    unfold LostAdd
    split <;> omega
  rw [hL]
  clear hL
  generalize room num pos = R at *
  have h4' : p' = 0 ∨ a < p := by omega
  have h3' : p' = num' ∨ p ≤ b := by omega
  clear h3 h4
  rcases hi1 with ⟨hi1 | hi1 | hi1, rfl⟩ | ⟨hi1, rfl⟩ <;> rcases hi2 with ⟨hi2 | hi2 | hi2, rfl⟩ | ⟨hi2, rfl⟩ <;>
  rcases hg with hg | ⟨hg0, hg1, hg2, ⟨hg, rfl⟩ | ⟨hg, rfl⟩⟩ | ⟨hg0, hg1, ⟨hg, rfl⟩ | ⟨hg, rfl⟩⟩ <;>
  rcases hR with ⟨hR1, rfl⟩ | ⟨rfl, rfl⟩ <;> rcases hnum with ⟨hnum, rfl⟩ | ⟨hnum, rfl⟩ <;> first | (exfalso; omega) | skip
  all_goals
    rcases h4' with h4' | h4' <;> rcases h3' with h3' | h3'
  all_goals first | (exfalso; omega) | (constructor <;> intro hh <;> omega)

theorem addEntryAt_sees (hD : DupSearch o) {n : BNode K α} {pos : Nat} (q : Nat) (hN : n.num < o.N ∨ q = 0) (hNN : n.num ≤ o.N) (hp : pos ≤ n.num) {S : Nat → K} {χ : Nat → α}
    (hS : ∀ i j, i < j → j ≤ n.num → S i < S j)
    (hk : ∀ j, j < n.num → n.keys j = some (S (if j < pos then j else j + 1)))
    (hc : ∀ j, j ≤ n.num → n.kids j = some (χ (if j ≤ pos then j else j + 1))) {x : K} {p : Nat} (hx : IsPos S (n.num + 1) x p) :
    ∃ n' p' g, addEntryAt o n pos (S pos) (χ pos) (χ (pos + 1)) q = .ok n' ∧ lookupPos o n' x = .ok p' ∧
      rd (o.N + 1) n'.kids p' = .ok (χ g) ∧ g ≤ n.num + 1 ∧
      ((ExactSearch o ∨ ∀ i, DupAdd n.num pos q i → x ≠ S i) → (g = p ↔ ¬ LostAdd n.num pos q p)) := by
  have hl : n.kids pos = some (χ pos) := by rw [hc pos hp, if_pos le_rfl]
  obtain ⟨n', e, f1, f2, f3⟩ := addEntryAt_form (o := o) (S pos) (χ pos) (χ (pos + 1)) q hN hp (fun j hj => by rw [hk j hj]; rfl)
    (fun j hj => by rw [hc j hj]; rfl) hl
  have hroom : room n.num pos = if pos < n.num then 1 + 2 * (n.num - pos) else 0 := rfl
  generalize hR : room n.num pos = R at *
  have hpn : pos < n.num ∧ R = 1 + 2 * (n.num - pos) ∨ pos = n.num ∧ R = 0 := by
    by_cases h : pos < n.num
    · exact Or.inl ⟨h, by rw [hroom, if_pos h]⟩
    · exact Or.inr ⟨by omega, by rw [hroom, if_neg h]⟩
  have hnum : R + 4 ≤ q ∧ n'.num = n.num + 1 ∨ q < R + 4 ∧ n'.num = n.num := by
    by_cases h : R + 4 ≤ q
    · exact Or.inl ⟨h, by rw [f1, if_pos h]⟩
    · exact Or.inr ⟨by omega, by rw [f1, if_neg h]⟩
  -- separators and children by their number after the insert
  obtain ⟨ι, hι⟩ : ∃ ι : Nat → Nat, ∀ j, ((j < pos ∨ (j = pos ∧ R + 1 ≤ q) ∨ (pos < j ∧ n.num < j + (q - 1) / 2)) ∧ ι j = j) ∨
      (¬ (j < pos ∨ (j = pos ∧ R + 1 ≤ q) ∨ (pos < j ∧ n.num < j + (q - 1) / 2)) ∧ ι j = j + 1) := by
    classical
    refine ⟨fun j => if (j < pos ∨ (j = pos ∧ R + 1 ≤ q) ∨ (pos < j ∧ n.num < j + (q - 1) / 2)) then j else j + 1, fun j => ?_⟩
    by_cases h : (j < pos ∨ (j = pos ∧ R + 1 ≤ q) ∨ (pos < j ∧ n.num < j + (q - 1) / 2))
    · exact Or.inl ⟨h, by simp only [if_pos h]⟩
    · exact Or.inr ⟨h, by simp only [if_neg h]⟩
  have hkey : ∀ j, j < n'.num → n'.keys j = some (S (ι j)) := by
    intro j hj
    rw [f2 j hj]
    have := hι j
    by_cases h1 : j = pos ∧ R + 1 ≤ q
    · rw [if_pos h1, show ι j = pos by omega]
    · rw [if_neg h1]
      by_cases h2 : pos < j ∧ n.num < j + (q - 1) / 2
      · rw [if_pos h2, hk _ (by omega), if_neg (by omega), show ι j = j - 1 + 1 by omega]
      · rw [if_neg h2, hk _ (by omega)]
        by_cases h3 : j < pos
        · rw [if_pos h3, show ι j = j by omega]
        · rw [if_neg h3, show ι j = j + 1 by omega]
  have hkid : ∀ j, j ≤ n'.num → ∃ g, n'.kids j = some (χ g) ∧ ((j = pos + 1 ∧ R + 3 ≤ q ∧ g = pos + 1) ∨
      (¬ (j = pos + 1 ∧ R + 3 ≤ q) ∧ pos < j ∧ n.num < j + q / 2 ∧ (j = pos + 1 ∧ g = pos ∨ j ≠ pos + 1 ∧ g = j)) ∨
      (¬ (j = pos + 1 ∧ R + 3 ≤ q) ∧ ¬ (pos < j ∧ n.num < j + q / 2) ∧ (j ≤ pos ∧ g = j ∨ pos < j ∧ g = j + 1))) := by
    intro j hj
    rw [f3 j hj]
    by_cases h1 : j = pos + 1 ∧ R + 3 ≤ q
    · exact ⟨pos + 1, by rw [if_pos h1], by omega⟩
    · rw [if_neg h1]
      by_cases h2 : pos < j ∧ n.num < j + q / 2
      · rw [if_pos h2, hc _ (by omega)]
        by_cases h3 : j - 1 ≤ pos
        · exact ⟨j - 1, by rw [if_pos h3], by omega⟩
        · exact ⟨j - 1 + 1, by rw [if_neg h3], by omega⟩
      · rw [if_neg h2, hc _ (by omega)]
        by_cases h3 : j ≤ pos
        · exact ⟨j, by rw [if_pos h3], by omega⟩
        · exact ⟨j + 1, by rw [if_neg h3], by omega⟩
  have hι' : ∀ j, j < n'.num → ι j < n.num + 1 := fun j hj => by have := hι j; omega
  have hmono : ∀ i j, i ≤ j → j < n'.num → ι i ≤ ι j := fun i j hij hj => by have h1 := hι i; have h2 := hι j; omega
  have hSle : ∀ i j, i ≤ j → j < n.num + 1 → S i ≤ S j := fun i j hij hj => by
    rcases Nat.lt_or_eq_of_le hij with h | h
    · exact (hS i j h (by omega)).le
    · rw [h]
  have hsort : ∀ i j, i ≤ j → j < n'.num → S (ι i) ≤ S (ι j) := fun i j hij hj => hSle _ _ (hmono i j hij hj) (hι' j hj)
  have main : ∀ p', p' ≤ n'.num → (∀ i, i < p' → S (ι i) ≤ x) → (∀ i, p' ≤ i → i < n'.num → x < S (ι i) ∨ (0 < p' ∧ S (ι (p' - 1)) = x ∧ S (ι i) = x)) →
      ∃ g, n'.kids p' = some (χ g) ∧ g ≤ n.num + 1 ∧
        (((∀ i, p' ≤ i → i < n'.num → x < S (ι i)) ∨ ∀ i, DupAdd n.num pos q i → x ≠ S i) → (g = p ↔ ¬ LostAdd n.num pos q p)) := by
    intro p' hp' g1 g2
    obtain ⟨g, hg, hgc⟩ := hkid p' hp'
    refine ⟨g, hg, by omega, fun hex => ?_⟩
    -- strictly larger behind the position
    have g3 : p' < n'.num → ¬ (ι p' < p) := by
      intro hlt
      have : x < S (ι p') := by
        rcases hex with hex | hex
        · exact hex p' le_rfl hlt
        · rcases g2 p' le_rfl hlt with h | ⟨h1, h2, h3⟩
          · exact h
          · exfalso
            have hi1 := hι (p' - 1)
            have hi2 := hι p'
            have hle := hmono (p' - 1) p' (by omega) hlt
            have heq : ι (p' - 1) = ι p' := by
              by_contra hne
              have := hS (ι (p' - 1)) (ι p') (by omega) (by have := hι' p' hlt; omega)
              rw [h2, h3] at this
              exact lt_irrefl _ this
            refine hex (ι p') ?_ h3.symm
            unfold DupAdd
            rw [hR]
            omega
      rw [← hx.le_iff (hι' p' hlt)]
      exact not_le.2 this
    have g4 : 0 < p' → ι (p' - 1) < p := fun h0 => (hx.le_iff (hι' (p' - 1) (by omega))).1 (g1 _ (by omega))
    have hi1 := hι (p' - 1)
    have hi2 := hι p'
    have hpm := hx.1
    rw [← hR] at hgc hi1 hi2 hnum
    exact sees_arith hp hpm hp' hnum hi1 hi2 hgc g3 g4
  by_cases hE : ExactSearch o
  · obtain ⟨p', e1, h1, h2, h3⟩ := hE n'.keys n'.num (fun j => S (ι j)) x (by omega) hkey hsort
    obtain ⟨g, hg, hg1, hg2⟩ := main p' h1 h2 (fun i hi hn => Or.inl (h3 i hi hn))
    exact ⟨n', p', g, e, e1, rd_ok (by omega) hg, hg1, fun _ => hg2 (Or.inl h3)⟩
  · obtain ⟨p', e1, h1, h2, h3⟩ := hD n'.keys n'.num (fun j => S (ι j)) x (by omega) hkey hsort
    obtain ⟨g, hg, hg1, hg2⟩ := main p' h1 h2 h3
    exact ⟨n', p', g, e, e1, rd_ok (by omega) hg, hg1, fun h => hg2 (Or.inr (h.resolve_left hE))⟩

end
end Verif.BTree
