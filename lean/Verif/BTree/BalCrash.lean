import Verif.BTree.JoinCrashSpec

/-!
# Crashes while two branch nodes are merged or balanced in an erase of PBPTree

Line numbers refer to /repo/src/pbptrees/PBPTree.hpp.  `mergeBranchNodes` (639-664) and `balanceBranchNodes` (745-808) copy keys and
children between two neighbours, one assignment at a time; a crash comes after `t` of them.  They become persistent in program order.
`JoinCrash.lean` has what follows a merge.
-/

set_option linter.unusedSectionVars false

namespace Verif.BTree

open Verif Assoc
open Verif.Slots hiding none

variable {K V L α : Type}

/-! ## Model -/

/-- Two neighbours and the separator between them in the node above: `dnr` is `donor` (or the node that is merged away), `rcv` is
`receiver` (or `sibling`). -/
structure Two (K α : Type) where
  dnr : BNode K α
  rcv : BNode K α
  key : K

/-- One assignment of `mergeBranchNodes` or `balanceBranchNodes`. -/
inductive PW (K : Type) where
  /-- `receiverChilds[i] = receiverChilds[j]` -/
  | rKid (i j : Nat)
  /-- `receiverKeys[i] = receiverKeys[j]` -/
  | rKey (i j : Nat)
  /-- `receiverChilds[i] = donorChilds[j]` -/
  | tKid (i j : Nat)
  /-- `receiverKeys[i] = donorKeys[j]` -/
  | tKey (i j : Nat)
  /-- `receiverKeys[i] = parentKeys[pos]` -/
  | rPar (i : Nat)
  /-- `parentKeys[pos] = donorKeys[j]` -/
  | pKey (j : Nat)
  /-- `parentKeys[pos] = key` -/
  | pVal (k : K)
  /-- `donorChilds[i] = donorChilds[j]` -/
  | dKid (i j : Nat)
  /-- `donorKeys[i] = donorKeys[j]` -/
  | dKey (i j : Nat)
  /-- `rNumKeys = m` -/
  | rNum (m : Nat)
  /-- `dNumKeys = m` -/
  | dNum (m : Nat)

section
variable [LinearOrder K] (o : Ops K V L)

/-- The effect of one assignment. -/
def PW.apply (P : Two K α) : PW K → Res (Two K α)
  | .rKid i j => do
    let c ← rd (o.N + 1) P.rcv.kids j
    let kids ← wr (o.N + 1) P.rcv.kids i c
    pure { P with rcv := { P.rcv with kids := kids } }
  | .rKey i j => do
    let c ← rd o.N P.rcv.keys j
    let keys ← wr o.N P.rcv.keys i c
    pure { P with rcv := { P.rcv with keys := keys } }
  | .tKid i j => do
    let c ← rd (o.N + 1) P.dnr.kids j
    let kids ← wr (o.N + 1) P.rcv.kids i c
    pure { P with rcv := { P.rcv with kids := kids } }
  | .tKey i j => do
    let c ← rd o.N P.dnr.keys j
    let keys ← wr o.N P.rcv.keys i c
    pure { P with rcv := { P.rcv with keys := keys } }
  | .rPar i => do
    let keys ← wr o.N P.rcv.keys i P.key
    pure { P with rcv := { P.rcv with keys := keys } }
  | .pKey j => do
    let c ← rd o.N P.dnr.keys j
    pure { P with key := c }
  | .pVal k => pure { P with key := k }
  | .dKid i j => do
    let c ← rd (o.N + 1) P.dnr.kids j
    let kids ← wr (o.N + 1) P.dnr.kids i c
    pure { P with dnr := { P.dnr with kids := kids } }
  | .dKey i j => do
    let c ← rd o.N P.dnr.keys j
    let keys ← wr o.N P.dnr.keys i c
    pure { P with dnr := { P.dnr with keys := keys } }
  | .rNum m => pure { P with rcv := { P.rcv with num := m } }
  | .dNum m => pure { P with dnr := { P.dnr with num := m } }

def applyPW (P : Two K α) : List (PW K) → Res (Two K α)
  | [] => .ok P
  | w :: ws => do
    let P' ← w.apply o P
    applyPW P' ws

/-- 769-773: the receiver makes room for `m` entries, `c` of its entries remain to be moved. -/
def roomLoop (m : Nat) : Nat → List (PW K)
  | 0 => []
  | i + 1 => .rKey (i + m) i :: .rKid (i + m) i :: roomLoop m i

/-- 775-777: children from the donor. -/
def takeKids (src dst : Nat) : Nat → List (PW K)
  | 0 => []
  | c + 1 => .tKid dst src :: takeKids (src + 1) (dst + 1) c

/-- 778-780: keys from the donor. -/
def takeKeys (src dst : Nat) : Nat → List (PW K)
  | 0 => []
  | c + 1 => .tKey dst src :: takeKeys (src + 1) (dst + 1) c

/-- 768-784, 807: to a node with larger keys; `m` is `toMove`. -/
def balL (dN rN m : Nat) : List (PW K) :=
  (.rKid (rN + m) rN :: roomLoop m rN ++ takeKids (dN - m + 1) 0 m ++ takeKeys (dN - m + 1) 0 (m - 1) ++ [.rPar (m - 1), .pKey (dN - m)]) ++
    .rNum (rN + m) :: [.dNum (dN - m)]

/-- 789-792: children and keys from the donor. -/
def takeBoth (src dst : Nat) : Nat → List (PW K)
  | 0 => []
  | c + 1 => .tKid dst src :: .tKey dst src :: takeBoth (src + 1) (dst + 1) c

/-- 800-803: the donor moves its entries down by `m`. -/
def downLoop (m dst : Nat) : Nat → List (PW K)
  | 0 => []
  | c + 1 => .dKey dst (dst + m) :: .dKid dst (dst + m) :: downLoop m (dst + 1) c

/-- 786-807: to a node with smaller keys; `key` is `donorKeys[toMove - 1]`, read in line 797. -/
def balR (dN rN m : Nat) (key : K) : List (PW K) :=
  (takeBoth 0 (rN + 1) m ++ [.rPar rN]) ++ .rNum (rN + m) :: (downLoop m 0 (dN - m) ++ [.dKid (dN - m) dN, .pVal key] ++ [.dNum (dN - m)])

/-- 745-808 `balanceBranchNodes`, interrupted after `t` assignments. -/
def balAt (d r : BNode K α) (pk : K) (t : Nat) : Res (Two K α) := do
  Res.assert (r.num < d.num)
  let m := d.num - (d.num + r.num) / 2
  if m = 0 then pure ⟨d, r, pk⟩
  else do
    let dk0 ← rd o.N d.keys 0
    let rk0 ← rd o.N r.keys 0
    if dk0 < rk0 then applyPW o ⟨d, r, pk⟩ ((balL d.num r.num m).take t)
    else do
      let key ← rd o.N d.keys (m - 1)
      applyPW o ⟨d, r, pk⟩ ((balR d.num r.num m key).take t)

/-- 659-662: keys and children from the node that is merged away. -/
def mergeLoop (src dst : Nat) : Nat → List (PW K)
  | 0 => []
  | c + 1 => .tKey dst src :: .tKid (dst + 1) (src + 1) :: mergeLoop (src + 1) (dst + 1) c

/-- 657-663: the assignments of `mergeBranchNodes`. -/
def mergePW (sN nN : Nat) : List (PW K) := (.rPar sN :: .tKid (sN + 1) 0 :: mergeLoop 0 (sN + 1) nN) ++ [.rNum (sN + nN + 1)]

/-- 639-664 `mergeBranchNodes`, interrupted after `t` assignments. -/
def mergeAt (sib : BNode K α) (key : K) (n : BNode K α) (t : Nat) : Res (Two K α) := do
  let k0 ← rd o.N n.keys 0
  Res.assert (key ≤ k0)
  Res.guardUB (1 ≤ sib.num)
  let kl ← rd o.N sib.keys (sib.num - 1)
  Res.assert (kl < key)
  applyPW o ⟨n, sib, key⟩ ((mergePW sib.num n.num).take t)

/-- 677-711 `underflowAtBranchLevel(node, pos, child)`, interrupted after `t` assignments of `balanceBranchNodes` or
`mergeBranchNodes`. -/
def moveN (n : BNode K (BNode K α)) (pos : Nat) (child : BNode K α) (t : Nat) : Res (BNode K (BNode K α)) := do
  let pn ← childNum o (pos > 0) n (pos - 1)
  if pos > 0 ∧ (o.N + 1) / 2 < pn then do
    let sib ← rd (o.N + 1) n.kids (pos - 1)
    let pk ← rd o.N n.keys (pos - 1)
    Res.assert (pos - 1 < n.num)
    let P ← balAt o sib child pk t
    let keys ← wr o.N n.keys (pos - 1) P.key
    let kids ← wr (o.N + 1) n.kids (pos - 1) P.dnr
    let kids ← wr (o.N + 1) kids pos P.rcv
    pure ⟨n.num, keys, kids⟩
  else do
    let nn ← childNum o (pos < n.num) n (pos + 1)
    if pos < n.num ∧ (o.N + 1) / 2 < nn then do
      let sib ← rd (o.N + 1) n.kids (pos + 1)
      let pk ← rd o.N n.keys pos
      Res.assert (pos < n.num)
      let P ← balAt o sib child pk t
      let keys ← wr o.N n.keys pos P.key
      let kids ← wr (o.N + 1) n.kids (pos + 1) P.dnr
      let kids ← wr (o.N + 1) kids pos P.rcv
      pure ⟨n.num, keys, kids⟩
    else if 0 < pn then do
      let sib ← rd (o.N + 1) n.kids (pos - 1)
      let pk ← rd o.N n.keys (pos - 1)
      let P ← mergeAt o sib pk child t
      let kids ← wr (o.N + 1) n.kids (pos - 1) P.rcv
      let kids ← wr (o.N + 1) kids pos P.dnr
      pure ⟨n.num, n.keys, kids⟩
    else if 0 < nn then do
      let sib ← rd (o.N + 1) n.kids (pos + 1)
      let pk ← rd o.N n.keys pos
      let P ← mergeAt o child pk sib t
      let kids ← wr (o.N + 1) n.kids pos P.rcv
      let kids ← wr (o.N + 1) kids (pos + 1) P.dnr
      pure ⟨n.num, n.keys, kids⟩
    else .assertFail

/-- 598-631 `eraseFromBranchNode`, interrupted while two branch nodes are balanced or merged: `j` levels below `n` the child of the
node has been dealt with, and its own underflow was interrupted after `t` assignments. -/
def moveAt : (d : Nat) → Heap L → BNode K (Tree K d) → K → Nat → Nat → Res (Heap L × BNode K (Tree K d))
  | 0, _, _, _, _, _ => .assertFail
  | d + 1, h, n, k, 0, t => do
    let pos ← lookupPos o n k
    let c ← rd (o.N + 1) n.kids pos
    let r ← eraseB o d false h c k
    Res.guardUB (r.newRoot.isNone)
    let kids ← wr (o.N + 1) n.kids pos r.node
    let n : BNode K (Tree K (d + 1)) := { n with kids := kids }
    let pos ← lookupPos o n k
    if r.node.num < (o.N + 1) / 2 then do
      let n' ← moveN o n pos r.node t
      pure (r.heap, n')
    else pure (r.heap, n)
  | d + 1, h, n, k, j + 1, t => do
    let pos ← lookupPos o n k
    let c ← rd (o.N + 1) n.kids pos
    let r ← moveAt d h c k j t
    let kids ← wr (o.N + 1) n.kids pos r.2
    pure (r.1, { n with kids := kids })

/-- 284-297 `erase`, interrupted in the same way; `j = 0` is the root. -/
def moveErase (s : State K L) (k : K) (j t : Nat) : Res (State K L) :=
  match s with
  | ⟨0, _, _⟩ => .assertFail
  | ⟨d + 1, n, h⟩ => do
    let r ← moveAt o d h n k j t
    pure ⟨d + 1, r.2, r.1⟩

end

/-! ## Searches in any order of keys -/

section
variable [LinearOrder K]

/-- A search ends at a position of the node, whatever the order of its keys. -/
def AnySearch (o : Ops K V L) : Prop := ∀ (a : Slots K) (n : Nat) (x : K), n ≤ o.N → (∀ i, i < n → (a i).isSome) →
  ∃ p, o.search (fun i => rd o.N a i) n x = .ok p ∧ p ≤ n

theorem bsLoop_within (rd : Nat → Res K) (x : K) (n : Nat) (hrd : ∀ i, i < n → ∃ k, rd i = .ok k) :
    ∀ (fuel pos : Nat) (l r : Int), (r - l + 1).toNat ≤ fuel → 0 ≤ l → r < n → l ≤ r + 1 → (r < l → (pos : Int) = l) →
    ∃ c, Search.bsLoop true rd x fuel pos l r = .ok c ∧ c ≤ n := by
  intro fuel
  induction fuel with
  | zero =>
    intro pos l r hf hl hr hlr hpos
    rw [Search.bsLoop, if_neg (by omega)]
    have hp := hpos (by omega)
    exact ⟨pos, rfl, by omega⟩
  | succ fuel ih =>
    intro pos l r hf hl hr hlr hpos
    rw [Search.bsLoop]
    by_cases hle : l ≤ r
    · rw [if_pos hle]
      set p := ((l + r) / 2).toNat with hp
      have hpl : l ≤ (p : Int) := by omega
      have hpr : (p : Int) ≤ r := by omega
      obtain ⟨k, hk⟩ := hrd p (by omega)
      rw [hk, Res.ok_bind]
      split
      · exact ⟨p + 1, rfl, by omega⟩
      · split
        · exact ih (p + 1) ((p : Int) + 1) r (by omega) (by omega) hr (by omega) (fun _ => by omega)
        · exact ih p l ((p : Int) - 1) (by omega) hl (by omega) (by omega) (by intro h; omega)
    · rw [if_neg hle]
      have hp := hpos (by omega)
      exact ⟨pos, rfl, by omega⟩

theorem anySearch_binary {o : Ops K V L} (h : o.search = fun rd (n : Nat) k => Search.binarySearch true rd 0 ((n : Int) - 1) k) : AnySearch o := by
  intro a n x hn ha
  obtain ⟨c, e, h1⟩ := bsLoop_within (fun i => rd o.N a i) x n (fun i hi => by
    obtain ⟨y, hy⟩ := Option.isSome_iff_exists.1 (ha i hi)
    exact ⟨y, rd_ok (by omega) hy⟩) _ 0 0 ((n : Int) - 1) le_rfl (by omega) (by omega) (by omega) (by intro; rfl)
  exact ⟨c, by rw [h]; exact e, h1⟩

end

/-! ## Nodes with all slots filled -/

/-- All slots in use are filled, the children satisfy `S`. -/
structure Filled (N : Nat) (S : α → Prop) (n : BNode K α) : Prop where
  num : n.num ≤ N
  keys : ∀ j, j < n.num → (n.keys j).isSome
  kids : ∀ j, j ≤ n.num → ∃ c, n.kids j = some c ∧ S c

/-- An assignment between slots in use, into the arrays. -/
def PW.Fine (N dN rN : Nat) : PW K → Prop
  | .rKid i j => i ≤ N ∧ j ≤ rN
  | .rKey i j => i < N ∧ j < rN
  | .tKid i j => i ≤ N ∧ j ≤ dN
  | .tKey i j => i < N ∧ j < dN
  | .rPar i => i < N
  | .pKey j => j < dN
  | .pVal _ => True
  | .dKid i j => i ≤ N ∧ j ≤ dN
  | .dKey i j => i < N ∧ j < dN
  | .rNum _ => False
  | .dNum _ => False

/-- The child slot of the receiver that is assigned. -/
def PW.kidTo : PW K → Option Nat
  | .rKid i _ => some i
  | .tKid i _ => some i
  | _ => none

/-- The key slot of the receiver that is assigned. -/
def PW.keyTo : PW K → Option Nat
  | .rKey i _ => some i
  | .tKey i _ => some i
  | .rPar i => some i
  | _ => none

section
variable [LinearOrder K] {o : Ops K V L} {S : α → Prop}

/-- What `Fine` assignments keep. -/
structure Keeps (S : α → Prop) (P P' : Two K α) : Prop where
  dnum : P'.dnr.num = P.dnr.num
  rnum : P'.rcv.num = P.rcv.num
  dkeys : ∀ j, (P.dnr.keys j).isSome → (P'.dnr.keys j).isSome
  dkids : ∀ j, (∃ c, P.dnr.kids j = some c ∧ S c) → ∃ c, P'.dnr.kids j = some c ∧ S c
  rkeys : ∀ j, (P.rcv.keys j).isSome → (P'.rcv.keys j).isSome
  rkids : ∀ j, (∃ c, P.rcv.kids j = some c ∧ S c) → ∃ c, P'.rcv.kids j = some c ∧ S c

theorem Keeps.rfl' (P : Two K α) : Keeps S P P := ⟨rfl, rfl, fun _ h => h, fun _ h => h, fun _ h => h, fun _ h => h⟩

theorem Keeps.trans {P P' P'' : Two K α} (h : Keeps S P P') (h' : Keeps S P' P'') : Keeps S P P'' :=
  ⟨h'.dnum.trans h.dnum, h'.rnum.trans h.rnum, fun j hj => h'.dkeys j (h.dkeys j hj), fun j hj => h'.dkids j (h.dkids j hj),
    fun j hj => h'.rkeys j (h.rkeys j hj), fun j hj => h'.rkids j (h.rkids j hj)⟩

theorem Keeps.filled {P P' : Two K α} {N : Nat} (h : Keeps S P P') (hd : Filled N S P.dnr) (hr : Filled N S P.rcv) :
    Filled N S P'.dnr ∧ Filled N S P'.rcv :=
  ⟨⟨by rw [h.dnum]; exact hd.num, fun j hj => h.dkeys j (hd.keys j (by rw [← h.dnum]; exact hj)),
      fun j hj => h.dkids j (hd.kids j (by rw [← h.dnum]; exact hj))⟩,
    ⟨by rw [h.rnum]; exact hr.num, fun j hj => h.rkeys j (hr.keys j (by rw [← h.rnum]; exact hj)),
      fun j hj => h.rkids j (hr.kids j (by rw [← h.rnum]; exact hj))⟩⟩

private theorem set_some {β : Type} {f : Nat → Option β} {i : Nat} {x : β} {j : Nat} (h : (f j).isSome) :
    ((fun j => if j = i then some x else f j) j).isSome := by
  dsimp only; split
  · rfl
  · exact h

private theorem set_good {f : Nat → Option α} {i : Nat} {x : α} (hx : S x) {j : Nat} (h : ∃ c, f j = some c ∧ S c) :
    ∃ c, (fun j => if j = i then some x else f j) j = some c ∧ S c := by
  dsimp only; split
  · exact ⟨x, rfl, hx⟩
  · exact h

theorem PW.fine_apply {P : Two K α} (hd : Filled o.N S P.dnr) (hr : Filled o.N S P.rcv) (w : PW K) (hw : w.Fine o.N P.dnr.num P.rcv.num) :
    ∃ P', w.apply o P = .ok P' ∧ Keeps S P P' ∧ (∀ i, w.keyTo = some i → (P'.rcv.keys i).isSome) ∧
      ∀ i, w.kidTo = some i → ∃ c, P'.rcv.kids i = some c ∧ S c := by
  have hdn := hd.num
  have hrn := hr.num
  cases w with
  | rKid i j =>
    obtain ⟨c, hc, hs⟩ := hr.kids j hw.2
    obtain ⟨h1, h2⟩ := hw
    refine ⟨{ P with rcv := { P.rcv with kids := fun j' => if j' = i then some c else P.rcv.kids j' } }, by rw [PW.apply, rd_ok (by omega) hc, Res.ok_bind, wr_ok _ _ (by omega), Res.ok_bind]; rfl,
      ⟨rfl, rfl, fun _ h => h, fun _ h => h, fun _ h => h, fun j h => set_good hs h⟩, fun _ h => (by cases h), ?_⟩
    rintro i' ⟨⟩
    exact ⟨c, if_pos rfl, hs⟩
  | rKey i j =>
    obtain ⟨c, hc⟩ := Option.isSome_iff_exists.1 (hr.keys j hw.2)
    obtain ⟨h1, h2⟩ := hw
    refine ⟨{ P with rcv := { P.rcv with keys := fun j' => if j' = i then some c else P.rcv.keys j' } }, by rw [PW.apply, rd_ok (by omega) hc, Res.ok_bind, wr_ok _ _ (by omega), Res.ok_bind]; rfl,
      ⟨rfl, rfl, fun _ h => h, fun _ h => h, fun _ h => set_some h, fun j h => h⟩, ?_, fun _ h => (by cases h)⟩
    rintro i' ⟨⟩
    dsimp only; rw [if_pos rfl]; rfl
  | tKid i j =>
    obtain ⟨c, hc, hs⟩ := hd.kids j hw.2
    obtain ⟨h1, h2⟩ := hw
    refine ⟨{ P with rcv := { P.rcv with kids := fun j' => if j' = i then some c else P.rcv.kids j' } }, by rw [PW.apply, rd_ok (by omega) hc, Res.ok_bind, wr_ok _ _ (by omega), Res.ok_bind]; rfl,
      ⟨rfl, rfl, fun _ h => h, fun _ h => h, fun _ h => h, fun j h => set_good hs h⟩, fun _ h => (by cases h), ?_⟩
    rintro i' ⟨⟩
    exact ⟨c, if_pos rfl, hs⟩
  | tKey i j =>
    obtain ⟨c, hc⟩ := Option.isSome_iff_exists.1 (hd.keys j hw.2)
    obtain ⟨h1, h2⟩ := hw
    refine ⟨{ P with rcv := { P.rcv with keys := fun j' => if j' = i then some c else P.rcv.keys j' } }, by rw [PW.apply, rd_ok (by omega) hc, Res.ok_bind, wr_ok _ _ (by omega), Res.ok_bind]; rfl,
      ⟨rfl, rfl, fun _ h => h, fun _ h => h, fun _ h => set_some h, fun j h => h⟩, ?_, fun _ h => (by cases h)⟩
    rintro i' ⟨⟩
    dsimp only; rw [if_pos rfl]; rfl
  | rPar i =>
    refine ⟨{ P with rcv := { P.rcv with keys := fun j' => if j' = i then some P.key else P.rcv.keys j' } }, by rw [PW.apply, wr_ok _ _ (show i < o.N from hw), Res.ok_bind]; rfl,
      ⟨rfl, rfl, fun _ h => h, fun _ h => h, fun _ h => set_some h, fun j h => h⟩, ?_, fun _ h => (by cases h)⟩
    rintro i' ⟨⟩
    dsimp only; rw [if_pos rfl]; rfl
  | pKey j =>
    have hw : j < P.dnr.num := hw
    obtain ⟨c, hc⟩ := Option.isSome_iff_exists.1 (hd.keys j hw)
    exact ⟨{ P with key := c }, by rw [PW.apply, rd_ok (by omega) hc, Res.ok_bind]; rfl,
      ⟨rfl, rfl, fun _ h => h, fun _ h => h, fun _ h => h, fun j h => h⟩, fun _ h => (by cases h), fun _ h => (by cases h)⟩
  | pVal k =>
    exact ⟨{ P with key := k }, rfl, ⟨rfl, rfl, fun _ h => h, fun _ h => h, fun _ h => h, fun j h => h⟩, fun _ h => (by cases h), fun _ h => (by cases h)⟩
  | dKid i j =>
    obtain ⟨c, hc, hs⟩ := hd.kids j hw.2
    obtain ⟨h1, h2⟩ := hw
    exact ⟨{ P with dnr := { P.dnr with kids := fun j' => if j' = i then some c else P.dnr.kids j' } }, by rw [PW.apply, rd_ok (by omega) hc, Res.ok_bind, wr_ok _ _ (by omega), Res.ok_bind]; rfl,
      ⟨rfl, rfl, fun _ h => h, fun j h => set_good hs h, fun _ h => h, fun _ h => h⟩, fun _ h => (by cases h), fun _ h => (by cases h)⟩
  | dKey i j =>
    obtain ⟨c, hc⟩ := Option.isSome_iff_exists.1 (hd.keys j hw.2)
    obtain ⟨h1, h2⟩ := hw
    exact ⟨{ P with dnr := { P.dnr with keys := fun j' => if j' = i then some c else P.dnr.keys j' } }, by rw [PW.apply, rd_ok (by omega) hc, Res.ok_bind, wr_ok _ _ (by omega), Res.ok_bind]; rfl,
      ⟨rfl, rfl, fun _ h => set_some h, fun _ h => h, fun _ h => h, fun j h => h⟩, fun _ h => (by cases h), fun _ h => (by cases h)⟩
  | rNum m => exact hw.elim
  | dNum m => exact hw.elim

theorem fine_applyPW : ∀ (ws : List (PW K)) (P : Two K α), Filled o.N S P.dnr → Filled o.N S P.rcv →
    (∀ w ∈ ws, w.Fine o.N P.dnr.num P.rcv.num) →
    ∃ P', applyPW o P ws = .ok P' ∧ Keeps S P P' ∧ (∀ i, (∃ w ∈ ws, w.keyTo = some i) → (P'.rcv.keys i).isSome) ∧
      ∀ i, (∃ w ∈ ws, w.kidTo = some i) → ∃ c, P'.rcv.kids i = some c ∧ S c := by
  intro ws
  induction ws with
  | nil =>
    intro P _ _ _
    exact ⟨P, rfl, Keeps.rfl' P, fun i ⟨w, h, _⟩ => absurd h (by simp), fun i ⟨w, h, _⟩ => absurd h (by simp)⟩
  | cons w ws ih =>
    intro P hd hr hw
    obtain ⟨P1, e1, k1, a1, b1⟩ := w.fine_apply hd hr (hw w (by simp))
    obtain ⟨hd1, hr1⟩ := k1.filled hd hr
    obtain ⟨P2, e2, k2, a2, b2⟩ := ih P1 hd1 hr1 (fun w' h => by rw [k1.dnum, k1.rnum]; exact hw w' (List.mem_cons_of_mem _ h))
    refine ⟨P2, by rw [applyPW, e1, Res.ok_bind]; exact e2, k1.trans k2, ?_, ?_⟩
    · rintro i ⟨w', hm, hi⟩
      rcases List.mem_cons.1 hm with rfl | hm
      · exact k2.rkeys i (a1 i hi)
      · exact a2 i ⟨w', hm, hi⟩
    · rintro i ⟨w', hm, hi⟩
      rcases List.mem_cons.1 hm with rfl | hm
      · exact k2.rkids i (b1 i hi)
      · exact b2 i ⟨w', hm, hi⟩

theorem applyPW_append (ws ws' : List (PW K)) : ∀ P : Two K α, applyPW o P (ws ++ ws') = applyPW o P ws >>= fun P' => applyPW o P' ws' := by
  induction ws with
  | nil => intro P; rfl
  | cons w ws ih =>
    intro P
    rw [List.cons_append, applyPW, applyPW, Res.bind_assoc']
    congr 1
    funext P'
    exact ih P'

/-- Assignments, the new counter of the receiver, further assignments, the new counter of the donor: all slots in use are filled at
all times. -/
theorem filled_prefix {A B : List (PW K)} {v v' : Nat} {P : Two K α} (hd : Filled o.N S P.dnr) (hr : Filled o.N S P.rcv)
    (hA : ∀ w ∈ A, w.Fine o.N P.dnr.num P.rcv.num) (hB : ∀ w ∈ B, w.Fine o.N P.dnr.num v) (hv : v ≤ o.N) (hv' : v' ≤ P.dnr.num)
    (hkey : ∀ j, j < v → j < P.rcv.num ∨ ∃ w ∈ A, w.keyTo = some j) (hkid : ∀ j, j ≤ v → j ≤ P.rcv.num ∨ ∃ w ∈ A, w.kidTo = some j)
    (t : Nat) : ∃ P', applyPW o P ((A ++ PW.rNum v :: (B ++ [PW.dNum v'])).take t) = .ok P' ∧ Filled o.N S P'.dnr ∧ Filled o.N S P'.rcv := by
  rw [List.take_append]
  by_cases ht : t ≤ A.length
  · rw [show t - A.length = 0 by omega, List.take_zero, List.append_nil]
    obtain ⟨P', e, k, _⟩ := fine_applyPW (A.take t) P hd hr (fun w h => hA w (List.mem_of_mem_take h))
    exact ⟨P', e, k.filled hd hr⟩
  · rw [List.take_of_length_le (by omega), applyPW_append]
    obtain ⟨P1, e1, k1, a1, b1⟩ := fine_applyPW A P hd hr hA
    obtain ⟨hd1, _⟩ := k1.filled hd hr
    rw [e1, Res.ok_bind, show t - A.length = (t - A.length - 1) + 1 by omega, List.take_succ_cons, applyPW,
      show (PW.rNum v : PW K).apply o P1 = .ok { P1 with rcv := { P1.rcv with num := v } } from rfl, Res.ok_bind, List.take_append, applyPW_append]
    set P2 : Two K α := { P1 with rcv := { P1.rcv with num := v } } with hP2
    have hr2 : Filled o.N S P2.rcv := by
      refine ⟨hv, fun j hj => ?_, fun j hj => ?_⟩
      · rcases hkey j hj with h | h
        · exact k1.rkeys j (hr.keys j h)
        · exact a1 j h
      · rcases hkid j hj with h | h
        · exact k1.rkids j (hr.kids j h)
        · exact b1 j h
    obtain ⟨P3, e3, k3, _⟩ := fine_applyPW (B.take (t - A.length - 1)) P2 hd1 hr2 (fun w h => by
      change w.Fine o.N P1.dnr.num v
      rw [k1.dnum]
      exact hB w (List.mem_of_mem_take h))
    obtain ⟨hd3, hr3⟩ := k3.filled hd1 hr2
    rw [e3, Res.ok_bind]
    have hn3 : P3.dnr.num = P.dnr.num := k3.dnum.trans k1.dnum
    rcases Nat.eq_zero_or_pos (t - A.length - 1 - B.length) with h0 | h0
    · rw [h0, List.take_zero]
      exact ⟨P3, rfl, hd3, hr3⟩
    · rw [List.take_of_length_le (by simp; omega)]
      have hn := hd3.num
      exact ⟨_, rfl, ⟨by change v' ≤ o.N; omega, fun j hj => hd3.keys j (by change j < v' at hj; omega),
        fun j hj => hd3.kids j (by change j ≤ v' at hj; omega)⟩, hr3⟩

/-! ## The loops -/

theorem roomLoop_fine {N dN rN m : Nat} : ∀ i, i ≤ rN → rN + m ≤ N → ∀ w ∈ roomLoop (K := K) m i, w.Fine N dN rN := by
  intro i
  induction i with
  | zero => intro _ _ w hw; exact absurd hw (by simp [roomLoop])
  | succ i ih =>
    intro h1 h2 w hw
    simp only [roomLoop, List.mem_cons] at hw
    rcases hw with rfl | rfl | hw
    · exact ⟨by omega, by omega⟩
    · exact ⟨by omega, by omega⟩
    · exact ih (by omega) h2 w hw

theorem roomLoop_to {m : Nat} : ∀ i j, j < i → (∃ w ∈ roomLoop (K := K) m i, w.keyTo = some (j + m)) ∧
    ∃ w ∈ roomLoop (K := K) m i, w.kidTo = some (j + m) := by
  intro i
  induction i with
  | zero => intro j hj; omega
  | succ i ih =>
    intro j hj
    rcases Nat.lt_or_eq_of_le (Nat.le_of_lt_succ hj) with h | rfl
    · obtain ⟨⟨w, h1, h2⟩, ⟨w', h3, h4⟩⟩ := ih j h
      exact ⟨⟨w, by simp only [roomLoop, List.mem_cons]; exact .inr (.inr h1), h2⟩, ⟨w', by simp only [roomLoop, List.mem_cons]; exact .inr (.inr h3), h4⟩⟩
    · exact ⟨⟨_, by simp only [roomLoop, List.mem_cons]; exact .inl rfl, rfl⟩, ⟨_, by simp only [roomLoop, List.mem_cons]; exact .inr (.inl rfl), rfl⟩⟩

theorem takeKids_fine {N dN rN : Nat} : ∀ c src dst, src + c ≤ dN + 1 → dst + c ≤ N + 1 → ∀ w ∈ takeKids (K := K) src dst c, w.Fine N dN rN := by
  intro c
  induction c with
  | zero => intro _ _ _ _ w hw; exact absurd hw (by simp [takeKids])
  | succ c ih =>
    intro src dst h1 h2 w hw
    simp only [takeKids, List.mem_cons] at hw
    rcases hw with rfl | hw
    · exact ⟨by omega, by omega⟩
    · exact ih _ _ (by omega) (by omega) w hw

theorem takeKids_to : ∀ c src dst j, dst ≤ j → j < dst + c → ∃ w ∈ takeKids (K := K) src dst c, w.kidTo = some j := by
  intro c
  induction c with
  | zero => intro _ _ j _ _; omega
  | succ c ih =>
    intro src dst j h1 h2
    by_cases h : j = dst
    · exact ⟨_, by simp only [takeKids, List.mem_cons]; exact .inl rfl, by rw [h]; rfl⟩
    · obtain ⟨w, h3, h4⟩ := ih (src + 1) (dst + 1) j (by omega) (by omega)
      exact ⟨w, by simp only [takeKids, List.mem_cons]; exact .inr h3, h4⟩

theorem takeKeys_fine {N dN rN : Nat} : ∀ c src dst, src + c ≤ dN → dst + c ≤ N → ∀ w ∈ takeKeys (K := K) src dst c, w.Fine N dN rN := by
  intro c
  induction c with
  | zero => intro _ _ _ _ w hw; exact absurd hw (by simp [takeKeys])
  | succ c ih =>
    intro src dst h1 h2 w hw
    simp only [takeKeys, List.mem_cons] at hw
    rcases hw with rfl | hw
    · exact ⟨by omega, by omega⟩
    · exact ih _ _ (by omega) (by omega) w hw

theorem takeKeys_to : ∀ c src dst j, dst ≤ j → j < dst + c → ∃ w ∈ takeKeys (K := K) src dst c, w.keyTo = some j := by
  intro c
  induction c with
  | zero => intro _ _ j _ _; omega
  | succ c ih =>
    intro src dst j h1 h2
    by_cases h : j = dst
    · exact ⟨_, by simp only [takeKeys, List.mem_cons]; exact .inl rfl, by rw [h]; rfl⟩
    · obtain ⟨w, h3, h4⟩ := ih (src + 1) (dst + 1) j (by omega) (by omega)
      exact ⟨w, by simp only [takeKeys, List.mem_cons]; exact .inr h3, h4⟩

theorem takeBoth_fine {N dN rN : Nat} : ∀ c src dst, src + c ≤ dN → dst + c ≤ N → ∀ w ∈ takeBoth (K := K) src dst c, w.Fine N dN rN := by
  intro c
  induction c with
  | zero => intro _ _ _ _ w hw; exact absurd hw (by simp [takeBoth])
  | succ c ih =>
    intro src dst h1 h2 w hw
    simp only [takeBoth, List.mem_cons] at hw
    rcases hw with rfl | rfl | hw
    · exact ⟨by omega, by omega⟩
    · exact ⟨by omega, by omega⟩
    · exact ih _ _ (by omega) (by omega) w hw

theorem takeBoth_to : ∀ c src dst j, dst ≤ j → j < dst + c → (∃ w ∈ takeBoth (K := K) src dst c, w.keyTo = some j) ∧
    ∃ w ∈ takeBoth (K := K) src dst c, w.kidTo = some j := by
  intro c
  induction c with
  | zero => intro _ _ j _ _; omega
  | succ c ih =>
    intro src dst j h1 h2
    by_cases h : j = dst
    · exact ⟨⟨_, by simp only [takeBoth, List.mem_cons]; exact .inr (.inl rfl), by rw [h]; rfl⟩,
        ⟨_, by simp only [takeBoth, List.mem_cons]; exact .inl rfl, by rw [h]; rfl⟩⟩
    · obtain ⟨⟨w, h3, h4⟩, ⟨w', h5, h6⟩⟩ := ih (src + 1) (dst + 1) j (by omega) (by omega)
      exact ⟨⟨w, by simp only [takeBoth, List.mem_cons]; exact .inr (.inr h3), h4⟩,
        ⟨w', by simp only [takeBoth, List.mem_cons]; exact .inr (.inr h5), h6⟩⟩

theorem downLoop_fine {N dN rN m : Nat} (hN : dN ≤ N) : ∀ c dst, m + dst + c ≤ dN → ∀ w ∈ downLoop (K := K) m dst c, w.Fine N dN rN := by
  intro c
  induction c with
  | zero => intro _ _ w hw; exact absurd hw (by simp [downLoop])
  | succ c ih =>
    intro dst h1 w hw
    simp only [downLoop, List.mem_cons] at hw
    rcases hw with rfl | rfl | hw
    · exact ⟨by omega, by omega⟩
    · exact ⟨by omega, by omega⟩
    · exact ih _ (by omega) w hw

theorem mergeLoop_fine {N dN rN : Nat} : ∀ c src dst, src + c ≤ dN → dst + c ≤ N → ∀ w ∈ mergeLoop (K := K) src dst c, w.Fine N dN rN := by
  intro c
  induction c with
  | zero => intro _ _ _ _ w hw; exact absurd hw (by simp [mergeLoop])
  | succ c ih =>
    intro src dst h1 h2 w hw
    simp only [mergeLoop, List.mem_cons] at hw
    rcases hw with rfl | rfl | hw
    · exact ⟨by omega, by omega⟩
    · exact ⟨by omega, by omega⟩
    · exact ih _ _ (by omega) (by omega) w hw

theorem mergeLoop_to : ∀ c src dst j, dst ≤ j → j < dst + c → (∃ w ∈ mergeLoop (K := K) src dst c, w.keyTo = some j) ∧
    ∃ w ∈ mergeLoop (K := K) src dst c, w.kidTo = some (j + 1) := by
  intro c
  induction c with
  | zero => intro _ _ j _ _; omega
  | succ c ih =>
    intro src dst j h1 h2
    by_cases h : j = dst
    · exact ⟨⟨_, by simp only [mergeLoop, List.mem_cons]; exact .inl rfl, by rw [h]; rfl⟩,
        ⟨_, by simp only [mergeLoop, List.mem_cons]; exact .inr (.inl rfl), by rw [h]; rfl⟩⟩
    · obtain ⟨⟨w, h3, h4⟩, ⟨w', h5, h6⟩⟩ := ih (src + 1) (dst + 1) j (by omega) (by omega)
      exact ⟨⟨w, by simp only [mergeLoop, List.mem_cons]; exact .inr (.inr h3), h4⟩,
        ⟨w', by simp only [mergeLoop, List.mem_cons]; exact .inr (.inr h5), h6⟩⟩

/-! ## Both functions -/

theorem balAt_filled {d r : BNode K α} (pk : K) (hd : Filled o.N S d) (hr : Filled o.N S r) (h1 : 1 ≤ r.num) (hlt : r.num < d.num)
    (hcap : r.num + (d.num - (d.num + r.num) / 2) < o.N) (t : Nat) :
    ∃ P, balAt o d r pk t = .ok P ∧ Filled o.N S P.dnr ∧ Filled o.N S P.rcv := by
  unfold balAt
  rw [Res.assert_pos hlt, Res.ok_bind]
  dsimp only
  have hdn := hd.num
  obtain ⟨m, hm⟩ : ∃ m, m = d.num - (d.num + r.num) / 2 := ⟨_, rfl⟩
  rw [← hm] at hcap ⊢
  by_cases h0 : m = 0
  · rw [if_pos h0]; exact ⟨_, rfl, hd, hr⟩
  · rw [if_neg h0]
    obtain ⟨dk, hdk⟩ := Option.isSome_iff_exists.1 (hd.keys 0 (by omega))
    obtain ⟨rk, hrk⟩ := Option.isSome_iff_exists.1 (hr.keys 0 (by omega))
    rw [rd_ok (by omega) hdk, Res.ok_bind, rd_ok (by omega) hrk, Res.ok_bind]
    by_cases hc : dk < rk
    · rw [if_pos hc]
      unfold balL
      refine filled_prefix (P := ⟨d, r, pk⟩) (B := []) hd hr ?_ (fun w hw => absurd hw (by simp)) (by omega) (by dsimp only; omega) ?_ ?_ t
      · intro w hw
        simp only [List.mem_append, List.mem_cons, List.not_mem_nil, or_false] at hw
        rcases hw with (((rfl | hw) | hw) | hw) | rfl | rfl
        · exact ⟨by omega, le_rfl⟩
        · exact roomLoop_fine (rN := r.num) _ le_rfl (by omega) w hw
        · exact takeKids_fine _ _ _ (by dsimp only; omega) (by omega) w hw
        · exact takeKeys_fine _ _ _ (by dsimp only; omega) (by omega) w hw
        · change m - 1 < o.N; omega
        · change d.num - m < d.num; omega
      · intro j hj
        right
        rcases Nat.lt_trichotomy j (m - 1) with h | h | h
        · obtain ⟨w, h2, h3⟩ := takeKeys_to (K := K) (m - 1) (d.num - m + 1) 0 j (by omega) (by omega)
          exact ⟨w, by simp only [List.mem_append]; tauto, h3⟩
        · exact ⟨.rPar (m - 1), by simp, by rw [h]; rfl⟩
        · obtain ⟨⟨w, h2, h3⟩, _⟩ := roomLoop_to (K := K) (m := m) r.num (j - m) (by omega)
          exact ⟨w, by simp only [List.mem_append, List.mem_cons]; tauto, by rw [h3]; congr 1; omega⟩
      · intro j hj
        right
        by_cases h : j < m
        · obtain ⟨w, h2, h3⟩ := takeKids_to (K := K) m (d.num - m + 1) 0 j (by omega) (by omega)
          exact ⟨w, by simp only [List.mem_append]; tauto, h3⟩
        · by_cases h' : j = r.num + m
          · exact ⟨.rKid (r.num + m) r.num, by simp, by rw [h']; rfl⟩
          · obtain ⟨_, ⟨w, h2, h3⟩⟩ := roomLoop_to (K := K) (m := m) r.num (j - m) (by omega)
            exact ⟨w, by simp only [List.mem_append, List.mem_cons]; tauto, by rw [h3]; congr 1; omega⟩
    · rw [if_neg hc]
      obtain ⟨key, hkey⟩ := Option.isSome_iff_exists.1 (hd.keys (m - 1) (by omega))
      rw [rd_ok (by omega) hkey, Res.ok_bind]
      unfold balR
      refine filled_prefix (P := ⟨d, r, pk⟩) hd hr ?_ ?_ (by omega) (by dsimp only; omega) ?_ ?_ t
      · intro w hw
        simp only [List.mem_append, List.mem_cons, List.not_mem_nil, or_false] at hw
        rcases hw with hw | rfl
        · exact takeBoth_fine _ _ _ (by dsimp only; omega) (by omega) w hw
        · change r.num < o.N; omega
      · intro w hw
        simp only [List.mem_append, List.mem_cons, List.not_mem_nil, or_false] at hw
        rcases hw with hw | rfl | rfl
        · exact downLoop_fine (by dsimp only; omega) _ _ (by dsimp only; omega) w hw
        · exact ⟨by omega, le_rfl⟩
        · trivial
      · intro j hj
        rcases Nat.lt_trichotomy j r.num with h | h | h
        · exact .inl h
        · exact .inr ⟨.rPar r.num, by simp, by rw [h]; rfl⟩
        · obtain ⟨⟨w, h2, h3⟩, _⟩ := takeBoth_to (K := K) m 0 (r.num + 1) j (by omega) (by omega)
          exact .inr ⟨w, by simp only [List.mem_append]; exact .inl h2, h3⟩
      · intro j hj
        by_cases h : j ≤ r.num
        · exact .inl h
        · obtain ⟨_, ⟨w, h2, h3⟩⟩ := takeBoth_to (K := K) m 0 (r.num + 1) j (by omega) (by omega)
          exact .inr ⟨w, by simp only [List.mem_append]; exact .inl h2, h3⟩

theorem mergeAt_filled {sib n m : BNode K α} {key : K} (h : mergeBranch o sib key n = .ok m) (hd : Filled o.N S n) (hr : Filled o.N S sib)
    (hcap : sib.num + n.num + 1 ≤ o.N) (t : Nat) : ∃ P, mergeAt o sib key n t = .ok P ∧ Filled o.N S P.dnr ∧ Filled o.N S P.rcv := by
  unfold mergeBranch at h
  unfold mergeAt
  obtain ⟨k0, e1, h⟩ := Res.bind_eq_ok.1 h
  obtain ⟨_, e2, h⟩ := Res.bind_eq_ok.1 h
  obtain ⟨_, e3, h⟩ := Res.bind_eq_ok.1 h
  obtain ⟨kl, e4, h⟩ := Res.bind_eq_ok.1 h
  obtain ⟨_, e5, h⟩ := Res.bind_eq_ok.1 h
  rw [e1, Res.ok_bind, e2, Res.ok_bind, e3, Res.ok_bind, e4, Res.ok_bind, e5, Res.ok_bind]
  set A : List (PW K) := .rPar sib.num :: .tKid (sib.num + 1) 0 :: mergeLoop 0 (sib.num + 1) n.num with hA
  have e : (mergePW (K := K) sib.num n.num).take t = (A ++ PW.rNum (sib.num + n.num + 1) :: ([] ++ [PW.dNum 0])).take (min t (A.length + 1)) := by
    have e2 : (A ++ PW.rNum (sib.num + n.num + 1) :: ([] ++ [PW.dNum 0])).take (A.length + 1) = mergePW sib.num n.num := by
      rw [List.take_append, List.take_of_length_le (by omega), show A.length + 1 - A.length = 1 by omega]
      rfl
    rw [← List.take_take, e2]
  rw [e]
  refine filled_prefix (P := ⟨n, sib, key⟩) hd hr ?_ (fun w hw => absurd hw (by simp)) hcap (Nat.zero_le _) ?_ ?_ _
  · intro w hw
    simp only [hA, List.mem_cons] at hw
    rcases hw with rfl | rfl | hw
    · change sib.num < o.N; omega
    · exact ⟨by omega, Nat.zero_le _⟩
    · exact mergeLoop_fine _ _ _ (by dsimp only; omega) (by omega) w hw
  · intro j hj
    rcases Nat.lt_trichotomy j sib.num with h | h | h
    · exact .inl h
    · exact .inr ⟨.rPar sib.num, by simp [hA], by rw [h]; rfl⟩
    · obtain ⟨⟨w, h3, h4⟩, _⟩ := mergeLoop_to (K := K) n.num 0 (sib.num + 1) j (by omega) (by omega)
      exact .inr ⟨w, by simp only [hA, List.mem_cons]; exact .inr (.inr h3), h4⟩
  · intro j hj
    by_cases h : j ≤ sib.num
    · exact .inl h
    · right
      by_cases h' : j = sib.num + 1
      · exact ⟨.tKid (sib.num + 1) 0, by simp [hA], by rw [h']; rfl⟩
      · obtain ⟨_, ⟨w, h3, h4⟩⟩ := mergeLoop_to (K := K) n.num 0 (sib.num + 1) (j - 1) (by omega) (by omega)
        exact ⟨w, by simp only [hA, List.mem_cons]; exact .inr (.inr h3), by rw [h4]; congr 1; omega⟩

/-! ## All assignments -/

theorem applyPW_cons {P P' : Two K α} {w : PW K} {ws : List (PW K)} (h : w.apply o P = .ok P') : applyPW o P (w :: ws) = applyPW o P' ws := by
  rw [applyPW, h, Res.ok_bind]

theorem applyPW_app {P P' : Two K α} {ws ws' : List (PW K)} (h : applyPW o P ws = .ok P') : applyPW o P (ws ++ ws') = applyPW o P' ws' := by
  rw [applyPW_append, h, Res.ok_bind]

theorem roomLoop_all {m : Nat} : ∀ (i : Nat) (P : Two K α) (keys : Slots K) (kids : Slots α), moveUp o.N 0 m i P.rcv.keys = .ok keys →
    moveUp (o.N + 1) 0 m i P.rcv.kids = .ok kids → applyPW o P (roomLoop m i) = .ok { P with rcv := ⟨P.rcv.num, keys, kids⟩ } := by
  intro i
  induction i with
  | zero =>
    intro P keys kids h1 h2
    obtain rfl : P.rcv.keys = keys := Res.ok.inj h1
    obtain rfl : P.rcv.kids = kids := Res.ok.inj h2
    rfl
  | succ i ih =>
    intro P keys kids h1 h2
    rw [moveUp, if_pos (by omega)] at h1 h2
    obtain ⟨x, e1, h1⟩ := Res.bind_eq_ok.1 h1
    obtain ⟨a, e2, h1⟩ := Res.bind_eq_ok.1 h1
    obtain ⟨y, e3, h2⟩ := Res.bind_eq_ok.1 h2
    obtain ⟨b, e4, h2⟩ := Res.bind_eq_ok.1 h2
    rw [roomLoop, applyPW_cons (P' := { P with rcv := { P.rcv with keys := a } }) (by rw [PW.apply, e1, Res.ok_bind, e2]; rfl),
      applyPW_cons (P' := { P with rcv := ⟨P.rcv.num, a, b⟩ }) (by rw [PW.apply, e3, Res.ok_bind, e4]; rfl)]
    exact ih _ keys kids h1 h2

theorem takeKids_all : ∀ (c src dst : Nat) (P : Two K α) (kids : Slots α), copy (o.N + 1) P.dnr.kids src dst c P.rcv.kids = .ok kids →
    applyPW o P (takeKids src dst c) = .ok { P with rcv := { P.rcv with kids := kids } } := by
  intro c
  induction c with
  | zero =>
    intro src dst P kids h
    obtain rfl : P.rcv.kids = kids := Res.ok.inj h
    rfl
  | succ c ih =>
    intro src dst P kids h
    obtain ⟨x, e1, h⟩ := Res.bind_eq_ok.1 h
    obtain ⟨a, e2, h⟩ := Res.bind_eq_ok.1 h
    rw [takeKids, applyPW_cons (P' := { P with rcv := { P.rcv with kids := a } }) (by rw [PW.apply, e1, Res.ok_bind, e2]; rfl)]
    exact ih _ _ _ kids h

theorem takeKeys_all : ∀ (c src dst : Nat) (P : Two K α) (keys : Slots K), copy o.N P.dnr.keys src dst c P.rcv.keys = .ok keys →
    applyPW o P (takeKeys src dst c) = .ok { P with rcv := { P.rcv with keys := keys } } := by
  intro c
  induction c with
  | zero =>
    intro src dst P keys h
    obtain rfl : P.rcv.keys = keys := Res.ok.inj h
    rfl
  | succ c ih =>
    intro src dst P keys h
    obtain ⟨x, e1, h⟩ := Res.bind_eq_ok.1 h
    obtain ⟨a, e2, h⟩ := Res.bind_eq_ok.1 h
    rw [takeKeys, applyPW_cons (P' := { P with rcv := { P.rcv with keys := a } }) (by rw [PW.apply, e1, Res.ok_bind, e2]; rfl)]
    exact ih _ _ _ keys h

theorem takeBoth_all : ∀ (c src dst : Nat) (P : Two K α) (keys : Slots K) (kids : Slots α), copy o.N P.dnr.keys src dst c P.rcv.keys = .ok keys →
    copy (o.N + 1) P.dnr.kids src dst c P.rcv.kids = .ok kids →
    applyPW o P (takeBoth src dst c) = .ok { P with rcv := ⟨P.rcv.num, keys, kids⟩ } := by
  intro c
  induction c with
  | zero =>
    intro src dst P keys kids h1 h2
    obtain rfl : P.rcv.keys = keys := Res.ok.inj h1
    obtain rfl : P.rcv.kids = kids := Res.ok.inj h2
    rfl
  | succ c ih =>
    intro src dst P keys kids h1 h2
    obtain ⟨x, e1, h1⟩ := Res.bind_eq_ok.1 h1
    obtain ⟨a, e2, h1⟩ := Res.bind_eq_ok.1 h1
    obtain ⟨y, e3, h2⟩ := Res.bind_eq_ok.1 h2
    obtain ⟨b, e4, h2⟩ := Res.bind_eq_ok.1 h2
    rw [takeBoth, applyPW_cons (P' := { P with rcv := { P.rcv with kids := b } }) (by rw [PW.apply, e3, Res.ok_bind, e4]; rfl),
      applyPW_cons (P' := { P with rcv := ⟨P.rcv.num, a, b⟩ }) (by rw [PW.apply, e1, Res.ok_bind, e2]; rfl)]
    exact ih _ _ _ keys kids h1 h2

theorem mergeLoop_all : ∀ (c src dst : Nat) (P : Two K α) (keys : Slots K) (kids : Slots α), copy o.N P.dnr.keys src dst c P.rcv.keys = .ok keys →
    copy (o.N + 1) P.dnr.kids (src + 1) (dst + 1) c P.rcv.kids = .ok kids →
    applyPW o P (mergeLoop src dst c) = .ok { P with rcv := ⟨P.rcv.num, keys, kids⟩ } := by
  intro c
  induction c with
  | zero =>
    intro src dst P keys kids h1 h2
    obtain rfl : P.rcv.keys = keys := Res.ok.inj h1
    obtain rfl : P.rcv.kids = kids := Res.ok.inj h2
    rfl
  | succ c ih =>
    intro src dst P keys kids h1 h2
    obtain ⟨x, e1, h1⟩ := Res.bind_eq_ok.1 h1
    obtain ⟨a, e2, h1⟩ := Res.bind_eq_ok.1 h1
    obtain ⟨y, e3, h2⟩ := Res.bind_eq_ok.1 h2
    obtain ⟨b, e4, h2⟩ := Res.bind_eq_ok.1 h2
    rw [mergeLoop, applyPW_cons (P' := { P with rcv := { P.rcv with keys := a } }) (by rw [PW.apply, e1, Res.ok_bind, e2]; rfl),
      applyPW_cons (P' := { P with rcv := ⟨P.rcv.num, a, b⟩ }) (by rw [PW.apply, e3, Res.ok_bind, e4]; rfl)]
    exact ih _ _ _ keys kids h1 h2

theorem downLoop_all {m : Nat} : ∀ (c dst : Nat) (P : Two K α) (keys : Slots K) (kids : Slots α), moveDown o.N m dst c P.dnr.keys = .ok keys →
    moveDown (o.N + 1) m dst c P.dnr.kids = .ok kids →
    applyPW o P (downLoop m dst c) = .ok { P with dnr := ⟨P.dnr.num, keys, kids⟩ } := by
  intro c
  induction c with
  | zero =>
    intro dst P keys kids h1 h2
    obtain rfl : P.dnr.keys = keys := Res.ok.inj h1
    obtain rfl : P.dnr.kids = kids := Res.ok.inj h2
    rfl
  | succ c ih =>
    intro dst P keys kids h1 h2
    obtain ⟨x, e1, h1⟩ := Res.bind_eq_ok.1 h1
    obtain ⟨a, e2, h1⟩ := Res.bind_eq_ok.1 h1
    obtain ⟨y, e3, h2⟩ := Res.bind_eq_ok.1 h2
    obtain ⟨b, e4, h2⟩ := Res.bind_eq_ok.1 h2
    rw [downLoop, applyPW_cons (P' := { P with dnr := { P.dnr with keys := a } }) (by rw [PW.apply, e1, Res.ok_bind, e2]; rfl),
      applyPW_cons (P' := { P with dnr := ⟨P.dnr.num, a, b⟩ }) (by rw [PW.apply, e3, Res.ok_bind, e4]; rfl)]
    exact ih _ _ keys kids h1 h2

theorem pw_lengths (m : Nat) : ∀ c src dst : Nat, (roomLoop (K := K) m c).length = 2 * c ∧ (takeKids (K := K) src dst c).length = c ∧
    (takeKeys (K := K) src dst c).length = c ∧ (takeBoth (K := K) src dst c).length = 2 * c ∧ (mergeLoop (K := K) src dst c).length = 2 * c ∧
    (downLoop (K := K) m dst c).length = 2 * c := by
  intro c
  induction c with
  | zero => intro _ _; exact ⟨rfl, rfl, rfl, rfl, rfl, rfl⟩
  | succ c ih =>
    intro src dst
    obtain ⟨h1, h2, h3, h4, h5, h6⟩ := ih (src + 1) (dst + 1)
    exact ⟨by rw [roomLoop, List.length_cons, List.length_cons, h1]; omega, by rw [takeKids, List.length_cons, h2],
      by rw [takeKeys, List.length_cons, h3], by rw [takeBoth, List.length_cons, List.length_cons, h4]; omega,
      by rw [mergeLoop, List.length_cons, List.length_cons, h5]; omega, by rw [downLoop, List.length_cons, List.length_cons, h6]; omega⟩

/-- After all assignments the nodes are those of `balanceBranchNodes`. -/
theorem balAt_all {d r : BNode K α} {pk : K} {b : Bal K (BNode K α)} (h : balanceBranch o d r pk = .ok b) (hd : d.num ≤ o.N)
    (hcap : r.num + (d.num - (d.num + r.num) / 2) ≤ o.N) (hN : 3 ≤ o.N) {t : Nat} (ht : 4 * o.N ≤ t) :
    balAt o d r pk t = .ok ⟨b.donor, b.receiver, b.key⟩ := by
  unfold balanceBranch at h
  unfold balAt
  obtain ⟨_, e0, h⟩ := Res.bind_eq_ok.1 h
  rw [e0, Res.ok_bind]
  dsimp only at h ⊢
  obtain ⟨m, hm⟩ : ∃ m, m = d.num - (d.num + r.num) / 2 := ⟨_, rfl⟩
  rw [← hm] at h hcap ⊢
  by_cases h0 : m = 0
  · rw [if_pos h0] at h ⊢
    obtain rfl : _ = b := Res.ok.inj h
    rfl
  · rw [if_neg h0] at h ⊢
    obtain ⟨dk, e1, h⟩ := Res.bind_eq_ok.1 h
    obtain ⟨rk, e2, h⟩ := Res.bind_eq_ok.1 h
    rw [e1, Res.ok_bind, e2, Res.ok_bind]
    by_cases hc : dk < rk
    · rw [if_pos hc] at h ⊢
      obtain ⟨la, e3, h⟩ := Res.bind_eq_ok.1 h
      obtain ⟨k1, e4, h⟩ := Res.bind_eq_ok.1 h
      obtain ⟨y1, e5, h⟩ := Res.bind_eq_ok.1 h
      obtain ⟨k2, e6, h⟩ := Res.bind_eq_ok.1 h
      obtain ⟨k3, e7, h⟩ := Res.bind_eq_ok.1 h
      obtain ⟨y2, e8, h⟩ := Res.bind_eq_ok.1 h
      obtain ⟨y3, e9, h⟩ := Res.bind_eq_ok.1 h
      obtain ⟨ky, e10, h⟩ := Res.bind_eq_ok.1 h
      obtain rfl : _ = b := Res.ok.inj h
      rw [List.take_of_length_le (by
        have l1 := pw_lengths (K := K) m r.num 0 0
        have l2 := pw_lengths (K := K) m m (d.num - m + 1) 0
        have l3 := pw_lengths (K := K) m (m - 1) (d.num - m + 1) 0
        simp only [balL, List.length_append, List.length_cons, List.length_nil, l1.1, l2.2.1, l3.2.2.1]
        omega)]
      unfold balL
      rw [List.cons_append, List.cons_append, List.cons_append, List.cons_append,
        applyPW_cons (P' := ⟨d, { r with kids := k1 }, pk⟩) (by rw [PW.apply, e3, Res.ok_bind, e4]; rfl)]
      rw [List.append_assoc, List.append_assoc, List.append_assoc, applyPW_app (roomLoop_all r.num ⟨d, { r with kids := k1 }, pk⟩ y1 k2 e5 e6),
        applyPW_app (takeKids_all m (d.num - m + 1) 0 ⟨d, ⟨r.num, y1, k2⟩, pk⟩ k3 e7),
        applyPW_app (takeKeys_all (m - 1) (d.num - m + 1) 0 ⟨d, ⟨r.num, y1, k3⟩, pk⟩ y2 e8)]
      rw [List.cons_append, applyPW_cons (P' := ⟨d, ⟨r.num, y3, k3⟩, pk⟩) (by rw [PW.apply, e9]; rfl), List.cons_append,
        applyPW_cons (P' := ⟨d, ⟨r.num, y3, k3⟩, ky⟩) (by rw [PW.apply, e10]; rfl)]
      rfl
    · rw [if_neg hc] at h ⊢
      obtain ⟨k1, e3, h⟩ := Res.bind_eq_ok.1 h
      obtain ⟨y1, e4, h⟩ := Res.bind_eq_ok.1 h
      obtain ⟨y2, e5, h⟩ := Res.bind_eq_ok.1 h
      obtain ⟨ky, e6, h⟩ := Res.bind_eq_ok.1 h
      obtain ⟨dy, e7, h⟩ := Res.bind_eq_ok.1 h
      obtain ⟨dc, e8, h⟩ := Res.bind_eq_ok.1 h
      obtain ⟨la, e9, h⟩ := Res.bind_eq_ok.1 h
      obtain ⟨dc2, e10, h⟩ := Res.bind_eq_ok.1 h
      obtain rfl : _ = b := Res.ok.inj h
      rw [e6, Res.ok_bind, List.take_of_length_le (by
        have l1 := pw_lengths (K := K) m m 0 (r.num + 1)
        have l2 := pw_lengths (K := K) m (d.num - m) 0 0
        simp only [balR, List.length_append, List.length_cons, List.length_nil, l1.2.2.2.1, l2.2.2.2.2.2]
        omega)]
      unfold balR
      rw [List.append_assoc, applyPW_app (takeBoth_all m 0 (r.num + 1) ⟨d, r, pk⟩ y1 k1 e4 e3), List.cons_append,
        applyPW_cons (P' := ⟨d, ⟨r.num, y2, k1⟩, pk⟩) (by rw [PW.apply, e5]; rfl), List.nil_append,
        applyPW_cons (P' := ⟨d, ⟨r.num + m, y2, k1⟩, pk⟩) rfl, List.append_assoc,
        applyPW_app (downLoop_all (d.num - m) 0 ⟨d, ⟨r.num + m, y2, k1⟩, pk⟩ dy dc e7 e8), List.cons_append,
        applyPW_cons (P' := ⟨⟨d.num, dy, dc2⟩, ⟨r.num + m, y2, k1⟩, pk⟩) (by rw [PW.apply, e9, Res.ok_bind, e10]; rfl)]
      rfl

/-- After all assignments the left node is that of `mergeBranchNodes`. -/
theorem mergeAt_all {sib n m : BNode K α} {key : K} (h : mergeBranch o sib key n = .ok m) {t : Nat} (ht : 2 * n.num + 3 ≤ t) :
    mergeAt o sib key n t = .ok ⟨n, m, key⟩ := by
  unfold mergeBranch at h
  unfold mergeAt
  obtain ⟨k0, e1, h⟩ := Res.bind_eq_ok.1 h
  obtain ⟨_, e2, h⟩ := Res.bind_eq_ok.1 h
  obtain ⟨_, e3, h⟩ := Res.bind_eq_ok.1 h
  obtain ⟨kl, e4, h⟩ := Res.bind_eq_ok.1 h
  obtain ⟨_, e5, h⟩ := Res.bind_eq_ok.1 h
  obtain ⟨y1, e6, h⟩ := Res.bind_eq_ok.1 h
  obtain ⟨c0, e7, h⟩ := Res.bind_eq_ok.1 h
  obtain ⟨k1, e8, h⟩ := Res.bind_eq_ok.1 h
  obtain ⟨y2, e9, h⟩ := Res.bind_eq_ok.1 h
  obtain ⟨k2, e10, h⟩ := Res.bind_eq_ok.1 h
  obtain rfl : _ = m := Res.ok.inj h
  rw [e1, Res.ok_bind, e2, Res.ok_bind, e3, Res.ok_bind, e4, Res.ok_bind, e5, Res.ok_bind, List.take_of_length_le (by
    have l1 := pw_lengths (K := K) 0 n.num 0 (sib.num + 1)
    simp only [mergePW, List.length_append, List.length_cons, List.length_nil, l1.2.2.2.2.1]
    omega)]
  unfold mergePW
  rw [List.cons_append, applyPW_cons (P' := ⟨n, { sib with keys := y1 }, key⟩) (by rw [PW.apply, e6]; rfl), List.cons_append,
    applyPW_cons (P' := ⟨n, ⟨sib.num, y1, k1⟩, key⟩) (by rw [PW.apply, e7, Res.ok_bind, e8]; rfl),
    applyPW_app (mergeLoop_all n.num 0 (sib.num + 1) ⟨n, ⟨sib.num, y1, k1⟩, key⟩ y2 k2 e9 e10)]
  rfl

/-! ## Fewer assignments of a merge -/

/-- An assignment to a slot of the receiver behind those in use. -/
def PW.High (rN : Nat) : PW K → Prop
  | .tKid i _ => rN < i
  | .tKey i _ => rN ≤ i
  | .rPar i => rN ≤ i
  | _ => False

theorem applyPW_high : ∀ (ws : List (PW K)) (P P' : Two K α), applyPW o P ws = .ok P' → (∀ w ∈ ws, w.High P.rcv.num) →
    P'.dnr = P.dnr ∧ P'.key = P.key ∧ P'.rcv.num = P.rcv.num ∧ (∀ j, j < P.rcv.num → P'.rcv.keys j = P.rcv.keys j) ∧
      ∀ j, j ≤ P.rcv.num → P'.rcv.kids j = P.rcv.kids j := by
  intro ws
  induction ws with
  | nil =>
    intro P P' h _
    obtain rfl : P = P' := Res.ok.inj h
    exact ⟨rfl, rfl, rfl, fun _ _ => rfl, fun _ _ => rfl⟩
  | cons w ws ih =>
    intro P P' h hw
    obtain ⟨P1, e, h⟩ := Res.bind_eq_ok.1 h
    have step : P1.dnr = P.dnr ∧ P1.key = P.key ∧ P1.rcv.num = P.rcv.num ∧ (∀ j, j < P.rcv.num → P1.rcv.keys j = P.rcv.keys j) ∧
        ∀ j, j ≤ P.rcv.num → P1.rcv.kids j = P.rcv.kids j := by
      have h0 := hw w (by simp)
      cases w with
      | tKid i j =>
        obtain ⟨c, _, e⟩ := Res.bind_eq_ok.1 e
        obtain ⟨kids, e2, e⟩ := Res.bind_eq_ok.1 e
        obtain rfl : _ = P1 := Res.ok.inj e
        unfold wr at e2
        split at e2
        · obtain rfl : _ = kids := Res.ok.inj e2
          have h0 : P.rcv.num < i := h0
          exact ⟨rfl, rfl, rfl, fun _ _ => rfl, fun j hj => if_neg (by omega)⟩
        · cases e2
      | tKey i j =>
        obtain ⟨c, _, e⟩ := Res.bind_eq_ok.1 e
        obtain ⟨keys, e2, e⟩ := Res.bind_eq_ok.1 e
        obtain rfl : _ = P1 := Res.ok.inj e
        unfold wr at e2
        split at e2
        · obtain rfl : _ = keys := Res.ok.inj e2
          have h0 : P.rcv.num ≤ i := h0
          exact ⟨rfl, rfl, rfl, fun j hj => if_neg (by omega), fun _ _ => rfl⟩
        · cases e2
      | rPar i =>
        obtain ⟨keys, e2, e⟩ := Res.bind_eq_ok.1 e
        obtain rfl : _ = P1 := Res.ok.inj e
        unfold wr at e2
        split at e2
        · obtain rfl : _ = keys := Res.ok.inj e2
          have h0 : P.rcv.num ≤ i := h0
          exact ⟨rfl, rfl, rfl, fun j hj => if_neg (by omega), fun _ _ => rfl⟩
        · cases e2
      | rKid i j => exact h0.elim
      | rKey i j => exact h0.elim
      | pKey j => exact h0.elim
      | pVal k => exact h0.elim
      | dKid i j => exact h0.elim
      | dKey i j => exact h0.elim
      | rNum m => exact h0.elim
      | dNum m => exact h0.elim
    obtain ⟨s1, s2, s3, s4, s5⟩ := step
    obtain ⟨t1, t2, t3, t4, t5⟩ := ih P1 P' h (fun w' hm => by rw [s3]; exact hw w' (List.mem_cons_of_mem _ hm))
    exact ⟨t1.trans s1, t2.trans s2, t3.trans s3, fun j hj => (t4 j (by omega)).trans (s4 j hj), fun j hj => (t5 j (by omega)).trans (s5 j hj)⟩

theorem mergeLoop_high {rN : Nat} : ∀ c src dst, rN ≤ dst → ∀ w ∈ mergeLoop (K := K) src dst c, w.High rN := by
  intro c
  induction c with
  | zero => intro _ _ _ w hw; exact absurd hw (by simp [mergeLoop])
  | succ c ih =>
    intro src dst h1 w hw
    simp only [mergeLoop, List.mem_cons] at hw
    rcases hw with rfl | rfl | hw
    · exact h1
    · exact Nat.lt_succ_of_le h1
    · exact ih _ _ (by omega) w hw

/-- Before the last assignment of `mergeBranchNodes` nothing in use has changed, after it the left node is the merged one. -/
theorem mergeAt_cases {sib n m : BNode K α} {key : K} (h : mergeBranch o sib key n = .ok m) {t : Nat} {P : Two K α}
    (hP : mergeAt o sib key n t = .ok P) : P = ⟨n, m, key⟩ ∨ (P.dnr = n ∧ P.rcv.num = sib.num ∧
      (∀ j, j < sib.num → P.rcv.keys j = sib.keys j) ∧ ∀ j, j ≤ sib.num → P.rcv.kids j = sib.kids j) := by
  by_cases ht : 2 * n.num + 3 ≤ t
  · exact .inl (Res.ok.inj (hP.symm.trans (mergeAt_all h ht)))
  · right
    unfold mergeAt at hP
    obtain ⟨k0, e1, hP⟩ := Res.bind_eq_ok.1 hP
    obtain ⟨_, e2, hP⟩ := Res.bind_eq_ok.1 hP
    obtain ⟨_, e3, hP⟩ := Res.bind_eq_ok.1 hP
    obtain ⟨kl, e4, hP⟩ := Res.bind_eq_ok.1 hP
    obtain ⟨_, e5, hP⟩ := Res.bind_eq_ok.1 hP
    have l1 := (pw_lengths (K := K) 0 n.num 0 (sib.num + 1)).2.2.2.2.1
    unfold mergePW at hP
    rw [List.take_append_of_le_length (by simp only [List.length_cons, l1]; omega)] at hP
    obtain ⟨g1, _, g3, g4, g5⟩ := applyPW_high _ _ _ hP (fun w hw => by
      have hw := List.mem_of_mem_take hw
      simp only [List.mem_cons] at hw
      rcases hw with rfl | rfl | hw
      · exact le_rfl
      · exact Nat.lt_succ_self _
      · exact mergeLoop_high _ _ _ (Nat.le_succ _) w hw)
    exact ⟨g1, g3, g4, g5⟩

end

end Verif.BTree
