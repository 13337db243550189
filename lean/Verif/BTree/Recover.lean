import Verif.BTree.Tree

/-!
# Recovery of the volatile branch nodes from the persistent leaf list

FPTree.hpp:374-407, 1184-1261 and HPBPTree.hpp:339-359, 1091-1170.  The leaves are in persistent memory
(the heap of the model); `leafList` is the address of the first leaf.

Simplification: HPBPTree.hpp calls a function `findMinKeyAtPNode` that is defined nowhere, so its
`recover` cannot be instantiated.  The model takes the position it must mean: 0, since the leaves of an
HPBPTree are sorted.
-/

set_option linter.unusedSectionVars false

namespace Verif.BTree

open Verif Assoc
open Verif.Slots hiding none

variable {K V L T α : Type} [LinearOrder K] (o : Ops K V L)

/-! ## Model -/

/-- FPTree 1231-1234: append a key and a child to a branch node with free space (1254-1256; HPBPTree
1139-1141, 1163-1165). -/
def pushEntry (n : BNode K α) (k : K) (c : α) : Res (BNode K α) := do
  let keys ← wr o.N n.keys n.num k
  let kids ← wr (o.N + 1) n.kids (n.num + 1) c
  pure ⟨n.num + 1, keys, kids⟩

/-- FPTree 1222-1223, 1247-1248: a new branch node with one child and no key. -/
def singleNode (c : α) : Res (BNode K α) := do
  let kids ← wr (o.N + 1) (Slots.none : Slots α) 0 c
  pure ⟨0, Slots.none, kids⟩

/-- HPBPTree 1152-1159: split a full branch node and append to its right half. -/
def splitPush (n : BNode K α) (k : K) (l r : α) : Res (Split K (BNode K α)) := do
  let sp ← splitBranch o n k
  let keys ← wr o.N sp.right.keys sp.right.num k
  let kids ← wr (o.N + 1) sp.right.kids sp.right.num l
  let kids ← wr (o.N + 1) kids (sp.right.num + 1) r
  pure { sp with right := ⟨sp.right.num + 1, keys, kids⟩ }

/-- FPTree 1215-1261, HPBPTree 1122-1170 `recoveryInsertInBranchNode`; `fp` chooses between the two in
the one place where they differ.  The second component is `some (key, right)` after a split. -/
def recIns (fp : Bool) (h : Heap L) (id : Nat) :
    (d : Nat) → BNode K (Tree K d) → Res (BNode K (Tree K d) × Option (K × BNode K (Tree K d)))
  | 0, n => do
    let l ← h.get id
    let k ← o.minKey l
    if n.num = o.N then do
      let r ← singleNode o id
      pure (n, some (k, r))
    else do
      let n ← pushEntry o n k id
      pure (n, none)
  | d + 1, n => do
    let c ← rd (o.N + 1) n.kids n.num
    let r ← recIns fp h id d c
    let kids ← wr (o.N + 1) n.kids n.num r.1
    let n := { n with kids := kids }
    match r.2 with
    | none => pure (n, none)
    | some s =>
      if n.num = o.N then
        if fp then do
          let x ← singleNode o s.2
          pure (n, some (s.1, x))
        else do
          let sp ← splitPush o n s.1 r.1 s.2
          pure (sp.left, some (sp.key, sp.right))
      else do
        let n ← pushEntry o n s.1 s.2
        pure (n, none)

/-- FPTree 1184-1203, HPBPTree 1091-1110 `recoveryInsert`. -/
def recoveryInsert (fp : Bool) : State K L → Nat → Res (State K L)
  | ⟨0, _, _⟩, _ => .assertFail
  | ⟨d + 1, n, h⟩, id => do
    let r ← recIns o fp h id d n
    match r.2 with
    | none => pure ⟨d + 1, r.1, h⟩
    | some s => do
      let root ← newRoot o r.1 s.1 s.2
      pure ⟨d + 2, root, h⟩

/-- FPTree 401-404, HPBPTree 353-356: insert all leaves from `cur` on. -/
def recLoop (fp : Bool) : Nat → State K L → Option Nat → Res (State K L)
  | 0, s, none => .ok s
  | 0, _, some _ => .ub
  | _ + 1, s, none => .ok s
  | fuel + 1, s, some id => do
    let _ ← s.heap.get id
    let s' ← recoveryInsert o fp s id
    recLoop fp fuel s' (s.heap.next id)

/-- FPTree 374-407 `recover`: the first leaf is the first child of the new root, the others are
inserted. -/
def recoverF (h : Heap L) (leafList : Nat) : Res (State K L) := do
  let _ ← h.get leafList
  match h.next leafList with
  | none => pure ⟨0, leafList, h⟩
  | some x => do
    let r ← singleNode o leafList
    recLoop o true h.fresh ⟨1, r, h⟩ (some x)

/-- HPBPTree 339-359 `recover`: the first leaf is the first child of the new root, and then all leaves,
including the first one, are inserted. -/
def recoverH (h : Heap L) (leafList : Nat) : Res (State K L) := do
  let _ ← h.get leafList
  match h.next leafList with
  | none => pure ⟨0, leafList, h⟩
  | some _ => do
    let r ← singleNode o leafList
    recLoop o false h.fresh ⟨1, r, h⟩ (some leafList)

/-! ## Branch nodes -/

variable {o}

theorem pushEntry_rep {n : BNode K α} {cs : List α} {ks : List K} (h : NodeRep o.N n cs ks)
    (hc : ks.length < o.N) (k : K) (c : α) :
    ∃ n', pushEntry o n k c = .ok n' ∧ NodeRep o.N n' (cs ++ [c]) (ks ++ [k]) := by
  have hn := h.num
  have hl := h.len
  unfold pushEntry
  rw [wr_ok _ _ (by omega), Res.ok_bind, wr_ok _ _ (by omega), Res.ok_bind]
  refine ⟨_, rfl, ?_, ?_, ?_, ?_, ?_⟩
  · simp; omega
  · simp; omega
  · simp; omega
  · have := h.keys.wr_push k
    rw [← hn] at this; exact this
  · have := h.kids.wr_push c
    rw [hl, ← hn] at this; exact this

theorem singleNode_rep (o : Ops K V L) (c : α) :
    ∃ n : BNode K α, singleNode o c = .ok n ∧ NodeRep o.N n [c] [] := by
  unfold singleNode
  rw [wr_ok _ _ (by omega), Res.ok_bind]
  refine ⟨_, rfl, rfl, rfl, by simp, Rep.nil _, ?_⟩
  exact (Rep.nil (Slots.none : Slots α)).wr_push c

theorem splitPush_rep (hN : 2 ≤ o.N) {n : BNode K α} {cs : List α} {l : α} {ks : List K}
    (h : NodeRep o.N n (cs ++ [l]) ks) (hf : ks.length = o.N) {k : K} (hk : ∀ x ∈ ks, x < k) (r : α) :
    ∃ sp kl kr cl cr, splitPush o n k l r = .ok sp ∧ ks = kl ++ sp.key :: kr ∧ cs ++ [l] = cl ++ cr ∧
      cl.length = kl.length + 1 ∧ NodeRep o.N sp.left cl kl ∧ NodeRep o.N sp.right (cr ++ [r]) (kr ++ [k]) := by
  have hl := h.len
  have hlt : (o.N + 1) / 2 < ks.length := by omega
  obtain ⟨kl, key, kr, hks, hkl⟩ := list_cut hlt
  obtain ⟨cl, cr, hcs, hcl⟩ := list_cut' (l := cs ++ [l]) (n := kl.length + 1) (by omega)
  have hm : ks[(o.N + 1) / 2]? = some key := by
    rw [hks, ← hkl]; simp
  obtain ⟨sp, e, hkey, hrl, hrr⟩ := splitBranch_rep o k h hf hks hcs hcl hm
    (by rw [if_pos (hk key (by rw [hks]; simp))]; omega)
  have hcr : ∃ c', cr = c' ++ [l] := by
    rcases List.eq_nil_or_concat cr with h' | ⟨c', x, h'⟩
    · exfalso
      have h1 := congrArg List.length hcs
      have h2 := congrArg List.length hks
      rw [h'] at h1
      simp at h1 h2 hl; omega
    · refine ⟨c', ?_⟩
      have h'' : cr = c' ++ [x] := by simpa using h'
      rw [h'', ← List.append_assoc] at hcs
      have := List.append_inj' hcs rfl
      rw [h'']; simp at this; rw [this.2]
  obtain ⟨c', rfl⟩ := hcr
  have hnum := hrr.num
  have hrl' := hrr.len
  have hcap : kr.length < o.N := by
    have h2 := congrArg List.length hks
    simp at h2; omega
  simp only [List.length_append, List.length_singleton] at hrl'
  have hc' : c'.length = kr.length := by omega
  refine ⟨{ sp with right := ⟨sp.right.num + 1,
      fun j => if j = sp.right.num then some k else sp.right.keys j,
      fun j => if j = sp.right.num + 1 then some r else if j = sp.right.num then some l else sp.right.kids j⟩ }, kl, kr, cl, c' ++ [l], ?_,
    by rw [hkey]; exact hks, hcs, hcl, hrl, ?_⟩
  · unfold splitPush
    rw [e, Res.ok_bind, wr_ok _ _ (by omega), Res.ok_bind, wr_ok _ _ (by omega), Res.ok_bind,
      wr_ok _ _ (by omega), Res.ok_bind]
    rfl
  · refine ⟨?_, ?_, ?_, ?_, ?_⟩
    · simp; omega
    · simp; omega
    · simp; omega
    · have := hrr.keys.wr_push k
      rw [← hnum] at this; exact this
    · have h1 := hrr.kids.wr_set l
      have h2 := Rep.wr_push r h1
      simp only [List.length_append, List.length_singleton, hc', ← hnum] at h2
      exact h2

/-! ## The invariant of the recovery -/

variable {W : Laws o} {lm : Nat}

/-- A tree under construction: everything but the right spine is finished, the right spine is open to the
right. -/
def RecT (W : Laws o) (lm : Nat) (h : Heap L) : (d : Nat) → Tree K d → Bd K → Prop
  | 0, id, lo => ∃ l, h.data id = some l ∧ W.ok l ∧ lm ≤ (W.abs l).length ∧ ∀ e ∈ W.abs l, lo ≤ bk e.1
  | d + 1, n, lo => ∃ cs c ks b1 m, NodeRep o.N n (cs ++ [c]) ks ∧ lo :: ks.map bk = b1 ++ [m] ∧
      Tile (Bt W tt lm 0 h d (occ lm 0 d)) cs (b1 ++ [m]) ∧ RecT W lm h d c m ∧
      (m = ⊥ ∨ ∃ e ∈ content W h (ids d c), m ≤ bk e.1)

theorem bnds_eq {lo hi : Bd K} {ks : List K} {b1 : List (Bd K)} {m : Bd K} (h : lo :: ks.map bk = b1 ++ [m]) :
    bnds lo ks hi = b1 ++ m :: [hi] := by
  unfold bnds
  rw [← List.cons_append, h]; simp

theorem tile_snoc {P : T → Bd K → Bd K → Prop} {cs : List T} {c : T} {b1 : List (Bd K)} {m hi : Bd K}
    (h1 : Tile P cs (b1 ++ [m])) (h2 : P c m hi) : Tile P (cs ++ [c]) (b1 ++ m :: [hi]) := by
  have hl := h1.length
  rw [tile_append (by simp at hl; omega)]
  exact ⟨h1, h2, trivial⟩

/-- Closing the right spine. -/
theorem RecT.close {h : Heap L} : ∀ {d : Nat} {t : Tree K d} {lo hi : Bd K}, RecT W lm h d t lo → lo < hi →
    (∀ e ∈ content W h (ids d t), bk e.1 < hi) → Bt W tt lm 0 h d (occ lm 0 d) t lo hi := by
  intro d
  induction d with
  | zero =>
    intro t lo hi ⟨l, hl, hok, hlen, hb⟩ hlt hc
    refine ⟨hlt, l, hl, hok, hlen, fun e he => ⟨hb e he, hc e ?_⟩, trivial⟩
    simp [ids, content, ent, hl, he]
  | succ d ih =>
    intro t lo hi ⟨cs, c, ks, b1, m, hr, hb, ht, hrec, hm⟩ hlt hc
    have hcc : ∀ e ∈ content W h (ids d c), bk e.1 < hi := fun e he => hc e (by
      rw [ids_rep hr]; simp only [List.flatMap_append, content_append, List.mem_append]
      right; simpa using he)
    refine ⟨cs ++ [c], ks, hr, by simp [occ], ?_⟩
    rw [bnds_eq hb]
    refine tile_snoc ht (ih hrec ?_ hcc)
    rcases hm with rfl | ⟨e, he, hm⟩
    · exact lt_of_le_of_lt bot_le hlt
    · exact lt_of_le_of_lt hm (hcc e he)

/-- Result of inserting the leaf `x` behind the leaves `is`. -/
def RPost (W : Laws o) (lm : Nat) (h : Heap L) (d : Nat) (lo : Bd K) (is : List Nat)
    (r : Tree K d × Option (K × Tree K d)) : Prop :=
  match r.2 with
  | none => RecT W lm h d r.1 lo ∧ ids d r.1 = is
  | some s => Bt W tt lm 0 h d (occ lm 0 d) r.1 lo (bk s.1) ∧ RecT W lm h d s.2 (bk s.1) ∧
      (∃ e ∈ content W h (ids d s.2), bk s.1 ≤ bk e.1) ∧ ids d r.1 ++ ids d s.2 = is

theorem single_rec {h : Heap L} {d : Nat} {c : Tree K d} {m : Bd K} (hc : RecT W lm h d c m)
    (he : ∃ e ∈ content W h (ids d c), m ≤ bk e.1) :
    ∃ n : BNode K (Tree K d), singleNode o c = .ok n ∧ RecT W lm h (d + 1) n m ∧ ids (d + 1) n = ids d c := by
  obtain ⟨n, e, hr⟩ := singleNode_rep o c
  refine ⟨n, e, ⟨[], c, [], [], m, hr, rfl, trivial, hc, Or.inr he⟩, ?_⟩
  rw [ids_rep hr]; simp

theorem push_rec {h : Heap L} {d : Nat} {n : BNode K (Tree K d)} {cs : List (Tree K d)} {c x : Tree K d}
    {ks : List K} {b1 : List (Bd K)} {lo m : Bd K} {k : K} (hr : NodeRep o.N n (cs ++ [c]) ks)
    (hcap : ks.length < o.N) (hb : lo :: ks.map bk = b1 ++ [m])
    (ht : Tile (Bt W tt lm 0 h d (occ lm 0 d)) cs (b1 ++ [m])) (hc : Bt W tt lm 0 h d (occ lm 0 d) c m (bk k))
    (hx : RecT W lm h d x (bk k)) (he : ∃ e ∈ content W h (ids d x), bk k ≤ bk e.1) :
    ∃ n' : BNode K (Tree K d), pushEntry o n k x = .ok n' ∧ RecT W lm h (d + 1) n' lo ∧
      ids (d + 1) n' = cs.flatMap (ids d) ++ ids d c ++ ids d x := by
  obtain ⟨n', e, hr'⟩ := pushEntry_rep hr hcap k x
  refine ⟨n', e, ⟨cs ++ [c], x, ks ++ [k], b1 ++ [m], bk k, hr', ?_, ?_, hx, Or.inr he⟩, ?_⟩
  · rw [List.map_append, ← List.cons_append, hb]; rfl
  · have := tile_snoc ht hc
    simpa using this
  · rw [ids_rep hr']; simp

theorem recIns_spec (fp : Bool) (hN : 2 ≤ o.N) {h : Heap L} {x : Nat} {l : L} {e : K × V} {es : List (K × V)}
    (hl : h.data x = some l) (hok : W.ok l) (hlen : lm ≤ (W.abs l).length) (hab : W.abs l = e :: es)
    (hmin : o.minKey l = .ok e.1) : ∀ (d : Nat) (n : BNode K (Tree K d)) (lo : Bd K),
    RecT W lm h (d + 1) n lo → lo ≤ bk e.1 → (∀ y ∈ content W h (ids (d + 1) n), bk y.1 < bk e.1) →
    ∃ r, recIns o fp h x d n = .ok r ∧ RPost W lm h (d + 1) lo (ids (d + 1) n ++ [x]) r := by
  have hsx : Sorted (W.abs l) := W.sorted l hok
  have hxe : ∀ y ∈ W.abs l, bk e.1 ≤ bk y.1 := by
    intro y hy
    rw [hab] at hy hsx
    rcases List.mem_cons.1 hy with rfl | hy
    · exact le_rfl
    · exact bk_le.2 ((List.pairwise_cons.1 hsx).1 y hy).le
  have hrx : RecT W lm h 0 x (bk e.1) := ⟨l, hl, hok, hlen, hxe⟩
  have hex : ∃ y ∈ content W h (ids (K := K) 0 x), bk e.1 ≤ bk y.1 :=
    ⟨e, by simp [ids, content, ent, hl, hab], le_rfl⟩
  intro d
  induction d with
  | zero =>
    intro n lo hrec hlo hlt
    have hrec' := hrec
    obtain ⟨cs, c, ks, b1, m, hr, hb, ht, hrc, hm⟩ := hrec
    rw [recIns, Heap.get, hl, Res.ofOption_some, Res.ok_bind, hmin, Res.ok_bind]
    have hids : ids 1 n = cs.flatMap (ids 0) ++ ids 0 c := by rw [ids_rep hr]; simp
    have hcl : ∀ y ∈ content W h (ids 0 c), bk y.1 < bk e.1 := fun y hy => hlt y (by
      rw [hids, content_append]; simp [hy])
    by_cases hf : n.num = o.N
    · rw [if_pos hf]
      obtain ⟨r, er, hr1, hr2⟩ := single_rec hrx hex
      rw [er, Res.ok_bind]
      refine ⟨_, rfl, ?_⟩
      unfold RPost
      dsimp only
      have hlo' : lo < bk e.1 := by
        have hs := Tile.sorted (fun c a b hc => Bt.lt hc) ht
        rw [← hb] at hs
        rcases hm with hm | ⟨y, hy, hm⟩
        · rcases List.mem_cons.1 (show m ∈ lo :: ks.map bk by rw [hb]; simp) with hml | hml
          · rw [← hml, hm]; exact bot_lt_bk _
          · obtain ⟨z, _, hz⟩ := List.mem_map.1 hml
            rw [← hz] at hm; exact absurd hm (by simp [bk])
        · have h1 := lt_of_le_of_lt hm (hcl y hy)
          rcases List.mem_cons.1 (show m ∈ lo :: ks.map bk by rw [hb]; simp) with hml | hml
          · rw [← hml]; exact h1
          · exact lt_trans ((List.pairwise_cons.1 hs).1 m hml) h1
      refine ⟨hrec'.close hlo' hlt, hr1, ?_, ?_⟩
      · rw [hr2]; exact hex
      · rw [hr2]; rfl
    · rw [if_neg hf]
      have hmlt : m < bk e.1 := by
        rcases hm with rfl | ⟨y, hy, hm⟩
        · exact bot_lt_bk _
        · exact lt_of_le_of_lt hm (hcl y hy)
      obtain ⟨n', en, hn1, hn2⟩ := push_rec hr (by have := hr.num; have := hr.cap; omega) hb ht
        (hrc.close hmlt hcl) hrx hex
      rw [en, Res.ok_bind]
      refine ⟨_, rfl, ?_⟩
      unfold RPost
      dsimp only
      exact ⟨hn1, by rw [hn2, hids]; rfl⟩
  | succ d ih =>
    intro n lo hrec hlo hlt
    obtain ⟨cs, c, ks, b1, m, hr, hb, ht, hrc, hm⟩ := hrec
    have hids : ids (d + 2) n = cs.flatMap (ids (d + 1)) ++ ids (d + 1) c := by rw [ids_rep hr]; simp
    have hcl : ∀ y ∈ content W h (ids (d + 1) c), bk y.1 < bk e.1 := fun y hy => hlt y (by
      rw [hids, content_append]; simp [hy])
    have hmle : m ≤ bk e.1 := by
      rcases hm with rfl | ⟨y, hy, hm⟩
      · exact bot_le
      · exact (lt_of_le_of_lt hm (hcl y hy)).le
    obtain ⟨r, er, hpost⟩ := ih c m hrc hmle hcl
    have hlen' := hr.len
    simp only [List.length_append, List.length_singleton] at hlen'
    have hnum : n.num = cs.length := by rw [hr.num]; omega
    have hcap := hr.cap
    have hrd : rd (o.N + 1) n.kids n.num = .ok c := by
      rw [hnum]; exact rd_mid (r := []) hr.kids (by omega)
    obtain ⟨kids, ek, hrk⟩ := NodeRep.setKid (c2 := []) r.1 hr
    rw [← hnum] at ek
    rw [recIns, hrd, Res.ok_bind, er, Res.ok_bind, ek, Res.ok_bind]
    dsimp only
    unfold RPost at hpost
    cases hsp : r.2 with
    | none =>
      rw [hsp] at hpost
      obtain ⟨h1, h2⟩ := hpost
      refine ⟨_, rfl, ?_⟩
      unfold RPost
      dsimp only
      refine ⟨⟨cs, r.1, ks, b1, m, hrk, hb, ht, h1, ?_⟩, ?_⟩
      · rcases hm with hm | ⟨y, hy, hm⟩
        · exact Or.inl hm
        · refine Or.inr ⟨y, ?_, hm⟩
          rw [h2, content_append]; simp [hy]
      · rw [ids_rep hrk, hids]; simp [h2]
    | some s =>
      rw [hsp] at hpost
      obtain ⟨h1, h2, h3, h4⟩ := hpost
      dsimp only
      have htile : Tile (Bt W tt lm 0 h (d + 1) (occ lm 0 (d + 1))) (cs ++ [r.1]) (bnds lo ks (bk s.1)) := by
        rw [bnds_eq hb]; exact tile_snoc ht h1
      have hidall : cs.flatMap (ids (d + 1)) ++ ids (d + 1) r.1 ++ ids (d + 1) s.2 = ids (d + 2) n ++ [x] := by
        rw [hids, List.append_assoc, h4]; simp
      by_cases hf : n.num = o.N
      · rw [if_pos hf]
        cases fp with
        | true =>
          rw [if_pos rfl]
          obtain ⟨q, eq, hq1, hq2⟩ := single_rec h2 h3
          rw [eq, Res.ok_bind]
          refine ⟨_, rfl, ?_⟩
          unfold RPost
          dsimp only
          refine ⟨⟨cs ++ [r.1], ks, hrk, by simp [occ], htile⟩, hq1, by rw [hq2]; exact h3, ?_⟩
          rw [hq2, ids_rep hrk, ← hidall]; simp
        | false =>
          rw [if_neg (by decide)]
          obtain ⟨hks, _, hkh⟩ := keys_sorted (fun c a b hc => Bt.lt hc) htile
          obtain ⟨sp, kl, kr, cl, cr, es, hk, hc, hlc, hrl, hrr⟩ := splitPush_rep hN hrk (by rw [← hr.num]; exact hf)
            (fun y hy => bk_lt.1 (hkh y hy)) s.2
          rw [es, Res.ok_bind]
          refine ⟨_, rfl, ?_⟩
          unfold RPost
          dsimp only
          rw [hc, hk, tile_split_key hlc] at htile
          refine ⟨⟨cl, kl, hrl, by simp [occ], htile.1⟩,
            ⟨cr, s.2, kr ++ [s.1], bk sp.key :: kr.map bk, bk s.1, hrr, by simp, htile.2, h2, Or.inr h3⟩, ?_, ?_⟩
          · obtain ⟨y, hy, hle⟩ := h3
            refine ⟨y, ?_, le_trans (hkh sp.key (by rw [hk]; simp)).le hle⟩
            rw [ids_rep hrr, List.flatMap_append, content_append]
            simp [hy]
          · rw [ids_rep hrl, ids_rep hrr, ← hidall]
            have := congrArg (fun z => List.flatMap (ids (d + 1)) z) hc
            simp only [List.flatMap_append] at this
            simp only [List.flatMap_append, ← List.append_assoc, ← this]
            simp
      · rw [if_neg hf]
        obtain ⟨n', en, hn1, hn2⟩ := push_rec hrk (by have := hr.num; omega) hb ht h1 h2 h3
        rw [en, Res.ok_bind]
        refine ⟨_, rfl, ?_⟩
        unfold RPost
        dsimp only
        exact ⟨hn1, by rw [hn2, hidall]⟩

/-- The state during recovery: the leaves `pre` have been inserted. -/
def RecS (W : Laws o) (lm : Nat) (h : Heap L) (s : State K L) (pre : List Nat) : Prop :=
  s.heap = h ∧ 1 ≤ s.depth ∧ RecT W lm h s.depth s.root ⊥ ∧ ids s.depth s.root = pre

theorem recoveryInsert_spec (fp : Bool) (hN : 2 ≤ o.N) {h : Heap L} {x : Nat} {l : L} {e : K × V}
    {es : List (K × V)} (hl : h.data x = some l) (hok : W.ok l) (hlen : lm ≤ (W.abs l).length)
    (hab : W.abs l = e :: es) (hmin : o.minKey l = .ok e.1) {s : State K L} {pre : List Nat}
    (hs : RecS W lm h s pre) (hlt : ∀ y ∈ content W h pre, bk y.1 < bk e.1) :
    ∃ s', recoveryInsert o fp s x = .ok s' ∧ RecS W lm h s' (pre ++ [x]) := by
  obtain ⟨d, n, h0⟩ := s
  obtain ⟨e0, hd, hrec, hids⟩ := hs
  dsimp only at e0 hd hrec hids
  subst e0
  cases d with
  | zero => omega
  | succ d =>
    rw [← hids] at hlt
    obtain ⟨r, er, hpost⟩ := recIns_spec fp hN hl hok hlen hab hmin d n ⊥ hrec bot_le hlt
    rw [recoveryInsert, er, Res.ok_bind]
    unfold RPost at hpost
    rw [hids] at hpost
    cases hsp : r.2 with
    | none =>
      rw [hsp] at hpost
      exact ⟨_, rfl, rfl, by simp, hpost.1, hpost.2⟩
    | some q =>
      rw [hsp] at hpost
      obtain ⟨h1, h2, h3, h4⟩ := hpost
      obtain ⟨nr, en, hnr⟩ := newRoot_rep o (by omega) r.1 q.1 q.2
      dsimp only
      rw [en, Res.ok_bind]
      refine ⟨_, rfl, rfl, by simp, ?_, ?_⟩
      · exact ⟨[r.1], q.2, [q.1], [⊥], bk q.1, hnr, rfl, ⟨h1, trivial⟩, h2, Or.inr h3⟩
      · dsimp only
        rw [ids_rep hnr, ← h4]; simp

/-- What the leaves that are inserted have to satisfy. -/
def LeafReady (W : Laws o) (lm : Nat) (h : Heap L) (x : Nat) : Prop :=
  ∃ l e es, h.data x = some l ∧ W.ok l ∧ lm ≤ (W.abs l).length ∧ W.abs l = e :: es ∧ o.minKey l = .ok e.1

theorem recLoop_spec (fp : Bool) (hN : 2 ≤ o.N) {h : Heap L} : ∀ (post pre : List Nat) (fuel : Nat)
    (s : State K L), RecS W lm h s pre → post.length ≤ fuel → Sorted (content W h (pre ++ post)) →
    (∀ x ∈ post, LeafReady W lm h x) → post.IsChain (fun a b => h.next a = some b) →
    (∀ x ∈ post.getLast?, h.next x = Option.none) →
    ∃ s', recLoop o fp fuel s post.head? = .ok s' ∧ RecS W lm h s' (pre ++ post)
  | [], pre, fuel, s, hs, _, _, _, _, _ => by
    refine ⟨s, ?_, by simpa using hs⟩
    cases fuel <;> rfl
  | x :: post, pre, fuel, s, hs, hf, hsort, hready, hch, hlast => by
    obtain ⟨fuel, rfl⟩ : ∃ f, fuel = f + 1 := ⟨fuel - 1, by simp at hf; omega⟩
    obtain ⟨l, e, es, hl, hok, hlen, hab, hmin⟩ := hready x (by simp)
    have hlt : ∀ y ∈ content W h pre, bk y.1 < bk e.1 := by
      intro y hy
      rw [content_append, sorted_append] at hsort
      exact bk_lt.2 (hsort.2.2 y hy e (by rw [content_cons]; simp [ent, hl, hab]))
    obtain ⟨s1, e1, hs1⟩ := recoveryInsert_spec fp hN hl hok hlen hab hmin hs hlt
    have hnext : h.next x = post.head? := by
      cases post with
      | nil => exact hlast x (by simp)
      | cons y post => exact (List.isChain_cons_cons.1 hch).1
    obtain ⟨s', e', hs'⟩ := recLoop_spec fp hN post (pre ++ [x]) fuel s1 hs1 (by simpa using hf)
      (by simpa using hsort) (fun y hy => hready y (List.mem_cons_of_mem _ hy))
      (by cases post with
        | nil => simp
        | cons y post => exact (List.isChain_cons_cons.1 hch).2)
      (by
        intro y hy
        apply hlast
        cases post with
        | nil => simp at hy
        | cons z post => rw [List.getLast?_cons_cons]; exact hy)
    refine ⟨s', ?_, by simpa using hs'⟩
    rw [List.head?_cons, recLoop, hs.1, Heap.get, hl, Res.ofOption_some, Res.ok_bind, e1, Res.ok_bind, hnext, e']

theorem RecS.good {h : Heap L} {s : State K L} {is : List Nat} (hs : RecS W lm h s is) (w : Wf h is) :
    Good W lm 0 0 s ∧ s.heap = h ∧ ids s.depth s.root = is := by
  obtain ⟨d, n, h0⟩ := s
  obtain ⟨e0, hd, hrec, hids⟩ := hs
  dsimp only at e0 hd hrec hids
  subst e0
  refine ⟨⟨?_, ?_⟩, rfl, hids⟩
  · have := hrec.close (hi := ⊤) bot_lt_top (fun e _ => bk_lt_top e.1)
    refine this.top_le ?_
    cases d with
    | zero => simp [rootMin]
    | succ d => simp [rootMin]
  · dsimp only
    rw [hids]; exact w

theorem chain_next {h : Heap L} {is : List Nat} (w : Chain h is) : is.IsChain (fun a b => h.next a = some b) :=
  w.1.imp (fun _ _ h => h.1)

/-- Recovery of the FPTree from a well-formed leaf list. -/
theorem recoverF_good (hN : 2 ≤ o.N) {h : Heap L} {first : Nat} {rest : List Nat} (w : Wf h (first :: rest))
    (hsort : Sorted (content W h (first :: rest)))
    (hfirst : ∃ l, h.data first = some l ∧ W.ok l ∧ (rest ≠ [] → lm ≤ (W.abs l).length))
    (hready : ∀ x ∈ rest, LeafReady W lm h x) :
    ∃ s, recoverF o h first = .ok s ∧ Good W lm 0 0 s ∧ s.heap = h ∧ ids s.depth s.root = first :: rest := by
  obtain ⟨l, hl, hok, hlen⟩ := hfirst
  unfold recoverF
  rw [Heap.get, hl, Res.ofOption_some, Res.ok_bind]
  cases rest with
  | nil =>
    have : h.next first = Option.none := w.chain.2 first (by simp)
    rw [this]
    refine ⟨⟨0, first, h⟩, rfl, ⟨⟨bot_lt_top, l, hl, hok, by simp [rootMin], fun e _ => inR_univ e.1, trivial⟩, w⟩, rfl, rfl⟩
  | cons x rest =>
    have hch := chain_next w.chain
    have hnext := (List.isChain_cons_cons.1 hch).1
    rw [hnext]
    dsimp only
    obtain ⟨r, er, hr⟩ := singleNode_rep o first
    rw [er, Res.ok_bind]
    have hs0 : RecS W lm h (⟨1, r, h⟩ : State K L) [first] := by
      refine ⟨rfl, le_rfl, ⟨[], first, [], [], ⊥, hr, rfl, trivial, ?_, Or.inl rfl⟩, ?_⟩
      · exact ⟨l, hl, hok, hlen (by simp), fun _ _ => bot_le⟩
      · dsimp only; rw [ids_rep hr]; rfl
    obtain ⟨s, e, hs⟩ := recLoop_spec true hN (x :: rest) [first] h.fresh _ hs0
      (by have := w.length_le; simp at this ⊢; omega) hsort hready (List.isChain_cons_cons.1 hch).2
      (by
        intro y hy
        apply w.chain.2
        rw [List.getLast?_cons_cons]; exact hy)
    obtain ⟨g, h1, h2⟩ := hs.good w
    exact ⟨s, e, g, h1, h2⟩


/-- In a tree that is not a single leaf every leaf has the minimal fill. -/
theorem Bt.leaf_len {h : Heap L} {Q : L → Bd K → Bd K → Prop} {bm : Nat} : ∀ (d top : Nat) (t : Tree K d) (lo hi : Bd K),
    Bt W Q lm bm h d top t lo hi → (d = 0 → lm ≤ top) →
    ∀ i ∈ ids d t, ∃ l, h.data i = some l ∧ W.ok l ∧ lm ≤ (W.abs l).length := by
  intro d
  induction d with
  | zero =>
    intro top t lo hi ⟨_, l, hl, hok, hlen, _⟩ htop i hi'
    simp only [ids, List.mem_singleton] at hi'
    exact ⟨l, by rw [hi']; exact hl, hok, le_trans (htop rfl) hlen⟩
  | succ d ih =>
    intro top n lo hi ⟨cs, ks, hr, _, ht⟩ _ i hi'
    rw [ids_rep hr] at hi'
    obtain ⟨c, hc, hic⟩ := List.mem_flatMap.1 hi'
    obtain ⟨a, b, hb⟩ := tile_mem ht c hc
    exact ih _ c a b hb (fun hd => by subst hd; exact le_rfl) i hic

/-- The leaf list of a good tree is ready for recovery. -/
theorem Good.leaves {bm rm : Nat} {s : State K L} (g : Good W lm bm rm s) (h1 : 1 ≤ lm)
    (hmin : ∀ l e es, W.ok l → W.abs l = e :: es → lm ≤ (W.abs l).length → o.minKey l = .ok e.1) {first : Nat}
    {rest : List Nat} (hids : ids s.depth s.root = first :: rest) :
    (∃ l, s.heap.data first = some l ∧ W.ok l) ∧
      (rest ≠ [] → ∀ x ∈ first :: rest, LeafReady W lm s.heap x) := by
  constructor
  · obtain ⟨l, hl, hok⟩ := Bt.leaf_ok _ _ _ _ _ g.bt first (by rw [hids]; simp)
    exact ⟨l, hl, hok⟩
  · intro hne x hx
    have hd : s.depth ≠ 0 := by
      intro hd
      obtain ⟨d, t, h⟩ := s
      dsimp only at hd
      subst hd
      simp only [ids, List.cons.injEq] at hids
      exact hne hids.2.symm
    obtain ⟨l, hl, hok, hlen⟩ := Bt.leaf_len _ _ _ _ _ g.bt (fun h => absurd h hd) x (by rw [hids]; exact hx)
    cases hab : W.abs l with
    | nil => rw [hab] at hlen; simp at hlen; omega
    | cons e es => exact ⟨l, e, es, hl, hok, hlen, hab, hmin l e es hok hab hlen⟩

/-- Recovery from the leaves of a good tree. -/
theorem recoverF_of_good (hN : 2 ≤ o.N) {bm rm : Nat} {s : State K L} (g : Good W lm bm rm s) (h1 : 1 ≤ lm)
    (hmin : ∀ l e es, W.ok l → W.abs l = e :: es → lm ≤ (W.abs l).length → o.minKey l = .ok e.1) {first : Nat}
    (hfirst : (ids s.depth s.root).head? = some first) :
    ∃ s', recoverF o s.heap first = .ok s' ∧ Good W lm 0 0 s' ∧ s'.heap = s.heap ∧
      ids s'.depth s'.root = ids s.depth s.root := by
  obtain ⟨rest, hids⟩ : ∃ rest, ids s.depth s.root = first :: rest := by
    cases hi : ids s.depth s.root with
    | nil => rw [hi] at hfirst; simp at hfirst
    | cons a b => rw [hi] at hfirst; simp at hfirst; exact ⟨b, by rw [hfirst]⟩
  obtain ⟨⟨l, hl, hok⟩, hready⟩ := g.leaves h1 hmin hids
  have hs := g.sorted
  have hw := g.wf
  unfold cont at hs
  rw [hids] at hs hw
  obtain ⟨s', e, g', h2, h3⟩ := recoverF_good hN hw hs (lm := lm) ⟨l, hl, hok, fun hne => by
      obtain ⟨l', _, _, hl', _, hlen, _⟩ := hready hne first (by simp)
      rw [hl] at hl'; injection hl' with hl'; rw [hl']; exact hlen⟩
    (fun x hx => hready (List.ne_nil_of_mem hx) x (List.mem_cons_of_mem _ hx))
  exact ⟨s', e, g', h2, by rw [h3, hids]⟩

/-! ## The recovery of HPBPTree

The first leaf becomes the first two children.  In the tree that the recovery would build if the first
of these two were an empty leaf of its own (the ghost), everything is as in a normal tree; the real tree
differs only in this leaf. -/

section
variable {β : Type}

def mapB (g : α → β) (n : BNode K α) : BNode K β := ⟨n.num, n.keys, fun i => (n.kids i).map g⟩

/-- Rename the leaves. -/
def mapT (f : Nat → Nat) : (d : Nat) → Tree K d → Tree K d
  | 0, id => f id
  | d + 1, n => mapB (mapT f d) n

def mapS (g : α → β) (a : Slots α) : Slots β := fun i => (a i).map g

theorem rd_map (g : α → β) {cap : Nat} {a : Slots α} {i : Nat} {x : α} (h : rd cap a i = .ok x) :
    rd cap (mapS g a) i = .ok (g x) := by
  unfold rd at h ⊢
  unfold mapS
  by_cases hi : i < cap
  · rw [if_pos hi] at h ⊢
    cases ha : a i with
    | none => rw [ha] at h; simp at h
    | some y => rw [ha] at h; simp at h; simp [h]
  · rw [if_neg hi] at h; exact absurd h (by simp)

theorem wr_map (g : α → β) {cap : Nat} {a b : Slots α} {i : Nat} {x : α} (h : wr cap a i x = .ok b) :
    wr cap (mapS g a) i (g x) = .ok (mapS g b) := by
  unfold wr at h ⊢
  by_cases hi : i < cap
  · rw [if_pos hi] at h ⊢
    rw [← Res.ok.inj h]
    congr 1
    funext j
    unfold mapS
    by_cases hj : j = i
    · simp [hj]
    · simp [hj]
  · rw [if_neg hi] at h; exact absurd h (by simp)

theorem copy_map (g : α → β) (cap : Nat) (a : Slots α) (src dst : Nat) : ∀ (n : Nat) (b c : Slots α),
    Slots.copy cap a src dst n b = .ok c → Slots.copy cap (mapS g a) src dst n (mapS g b) = .ok (mapS g c) := by
  intro n
  induction n generalizing src dst with
  | zero => intro b c h; rw [Slots.copy] at h ⊢; rw [Res.ok.inj h]
  | succ n ih =>
    intro b c h
    rw [Slots.copy] at h ⊢
    obtain ⟨x, h1, h2⟩ := Res.bind_eq_ok.1 h
    obtain ⟨b', h3, h4⟩ := Res.bind_eq_ok.1 h2
    rw [rd_map g h1, Res.ok_bind, wr_map g h3, Res.ok_bind]
    exact ih _ _ _ _ h4

theorem mapB_kids (g : α → β) (n : BNode K α) : (mapB g n).kids = mapS g n.kids := rfl

theorem mapS_none (g : α → β) : mapS g (Slots.none : Slots α) = Slots.none := rfl

theorem splitBranch_map (g : α → β) {n : BNode K α} {k : K} {r : Split K (BNode K α)}
    (h : splitBranch o n k = .ok r) :
    splitBranch o (mapB g n) k = .ok ⟨mapB g r.left, r.key, mapB g r.right⟩ := by
  unfold splitBranch at h ⊢
  obtain ⟨km, e1, h⟩ := Res.bind_eq_ok.1 h
  obtain ⟨keys, e2, h⟩ := Res.bind_eq_ok.1 h
  obtain ⟨kids, e3, h⟩ := Res.bind_eq_ok.1 h
  obtain ⟨last, e4, h⟩ := Res.bind_eq_ok.1 h
  obtain ⟨kids', e5, h⟩ := Res.bind_eq_ok.1 h
  obtain ⟨key, e6, h⟩ := Res.bind_eq_ok.1 h
  have hr := Res.ok.inj h
  rw [← hr]
  have e3' := copy_map g _ _ _ _ _ _ _ e3
  rw [mapS_none] at e3'
  simp only [mapB_kids]
  show (rd o.N n.keys ((o.N + 1) / 2) >>= _) = _
  rw [e1, Res.ok_bind]
  show (Slots.copy o.N n.keys _ 0 (n.num - _) Slots.none >>= _) = _
  rw [e2, Res.ok_bind]
  show (Slots.copy (o.N + 1) (mapS g n.kids) _ 0 (n.num - _) Slots.none >>= _) = _
  rw [e3', Res.ok_bind]
  show (rd (o.N + 1) (mapS g n.kids) n.num >>= _) = _
  rw [rd_map g e4, Res.ok_bind]
  show (wr (o.N + 1) _ (n.num - _) _ >>= _) = _
  rw [wr_map g e5, Res.ok_bind]
  show (rd o.N n.keys _ >>= _) = _
  rw [e6, Res.ok_bind]
  rfl

theorem pushEntry_map (g : α → β) {n r : BNode K α} {k : K} {c : α} (h : pushEntry o n k c = .ok r) :
    pushEntry o (mapB g n) k (g c) = .ok (mapB g r) := by
  unfold pushEntry at h ⊢
  obtain ⟨keys, e1, h⟩ := Res.bind_eq_ok.1 h
  obtain ⟨kids, e2, h⟩ := Res.bind_eq_ok.1 h
  rw [← Res.ok.inj h]
  show (wr o.N n.keys n.num k >>= _) = _
  rw [e1, Res.ok_bind]
  show (wr (o.N + 1) (mapS g n.kids) (n.num + 1) _ >>= _) = _
  rw [wr_map g e2, Res.ok_bind]
  rfl

theorem singleNode_map (g : α → β) {r : BNode K α} {c : α} (h : singleNode o c = .ok r) :
    singleNode o (g c) = .ok (mapB g r) := by
  unfold singleNode at h ⊢
  obtain ⟨kids, e1, h⟩ := Res.bind_eq_ok.1 h
  rw [← Res.ok.inj h]
  have := wr_map g e1
  rw [mapS_none] at this
  rw [this, Res.ok_bind]
  rfl

theorem newRoot_map (g : α → β) {r : BNode K α} {a b : α} {k : K} (h : newRoot o a k b = .ok r) :
    newRoot o (g a) k (g b) = .ok (mapB g r) := by
  unfold newRoot at h ⊢
  obtain ⟨keys, e1, h⟩ := Res.bind_eq_ok.1 h
  obtain ⟨kids, e2, h⟩ := Res.bind_eq_ok.1 h
  obtain ⟨kids', e3, h⟩ := Res.bind_eq_ok.1 h
  rw [← Res.ok.inj h]
  have h2 := wr_map g e2
  rw [mapS_none] at h2
  rw [e1, Res.ok_bind, h2, Res.ok_bind, wr_map g e3, Res.ok_bind]
  rfl

theorem splitPush_map (g : α → β) {n : BNode K α} {k : K} {l r : α} {sp : Split K (BNode K α)}
    (h : splitPush o n k l r = .ok sp) :
    splitPush o (mapB g n) k (g l) (g r) = .ok ⟨mapB g sp.left, sp.key, mapB g sp.right⟩ := by
  unfold splitPush at h ⊢
  obtain ⟨s, e1, h⟩ := Res.bind_eq_ok.1 h
  obtain ⟨keys, e2, h⟩ := Res.bind_eq_ok.1 h
  obtain ⟨kids, e3, h⟩ := Res.bind_eq_ok.1 h
  obtain ⟨kids', e4, h⟩ := Res.bind_eq_ok.1 h
  rw [← Res.ok.inj h, splitBranch_map g e1, Res.ok_bind]
  show (wr o.N s.right.keys s.right.num k >>= _) = _
  rw [e2, Res.ok_bind]
  show (wr (o.N + 1) (mapS g s.right.kids) s.right.num _ >>= _) = _
  rw [wr_map g e3, Res.ok_bind]
  show (wr (o.N + 1) (mapS g kids) (s.right.num + 1) _ >>= _) = _
  rw [wr_map g e4, Res.ok_bind]
  rfl

end

theorem recIns_map {f : Nat → Nat} (fp : Bool) {h h' : Heap L} {id : Nat} (hg : h.get id = h'.get id)
    (hf : f id = id) : ∀ (d : Nat) (n : BNode K (Tree K d)) (r : BNode K (Tree K d) × Option (K × BNode K (Tree K d))),
    recIns o fp h' id d n = .ok r →
    recIns o fp h id d (mapB (mapT f d) n) = .ok (mapB (mapT f d) r.1, r.2.map (fun s => (s.1, mapB (mapT f d) s.2))) := by
  intro d
  induction d with
  | zero =>
    intro n r e
    rw [recIns] at e ⊢
    obtain ⟨l, e1, e⟩ := Res.bind_eq_ok.1 e
    obtain ⟨k, e2, e⟩ := Res.bind_eq_ok.1 e
    rw [hg, e1, Res.ok_bind, e2, Res.ok_bind]
    have hid : mapT (K := K) f 0 id = id := hf
    have hnum : (mapB (mapT f 0) n).num = n.num := rfl
    rw [hnum]
    by_cases hn : n.num = o.N
    · rw [if_pos hn] at e ⊢
      obtain ⟨q, e3, e⟩ := Res.bind_eq_ok.1 e
      have := singleNode_map (mapT (K := K) f 0) e3
      rw [hid] at this
      rw [this, Res.ok_bind, ← Res.ok.inj e]
      rfl
    · rw [if_neg hn] at e ⊢
      obtain ⟨q, e3, e⟩ := Res.bind_eq_ok.1 e
      have := pushEntry_map (mapT (K := K) f 0) e3
      rw [hid] at this
      rw [this, Res.ok_bind, ← Res.ok.inj e]
      rfl
  | succ d ih =>
    intro n r e
    rw [recIns] at e ⊢
    obtain ⟨c, e1, e⟩ := Res.bind_eq_ok.1 e
    obtain ⟨q, e2, e⟩ := Res.bind_eq_ok.1 e
    obtain ⟨kids, e3, e⟩ := Res.bind_eq_ok.1 e
    have hnum : (mapB (mapT f (d + 1)) n).num = n.num := rfl
    rw [hnum, mapB_kids, rd_map _ e1, Res.ok_bind]
    have e2' : recIns o fp h id d (mapT f (d + 1) c) = _ := ih c q e2
    rw [e2', Res.ok_bind]
    have e3' : wr (o.N + 1) (mapS (mapT f (d + 1)) n.kids) n.num (mapB (mapT f d) q.1) =
      .ok (mapS (mapT f (d + 1)) kids) := wr_map (mapT f (d + 1)) e3
    rw [e3', Res.ok_bind]
    dsimp only at e ⊢
    cases hq : q.2 with
    | none =>
      rw [hq] at e
      rw [← Res.ok.inj e]
      rfl
    | some s =>
      rw [hq] at e
      dsimp only at e
      simp only [Option.map_some]
      by_cases hn : n.num = o.N
      · rw [if_pos hn] at e ⊢
        cases fp with
        | true =>
          rw [if_pos rfl] at e ⊢
          obtain ⟨x, e4, e⟩ := Res.bind_eq_ok.1 e
          have e4' : singleNode o (mapB (mapT f d) s.2) = _ := singleNode_map (mapT (K := K) f (d + 1)) e4
          rw [e4', Res.ok_bind, ← Res.ok.inj e]
          rfl
        | false =>
          rw [if_neg (by decide)] at e ⊢
          obtain ⟨x, e4, e⟩ := Res.bind_eq_ok.1 e
          have e4' := splitPush_map (mapT (K := K) f (d + 1)) e4
          have e5 : splitPush o (⟨n.num, n.keys, mapS (mapT f (d + 1)) kids⟩ : BNode K (BNode K (Tree K d))) s.1
            (mapB (mapT f d) q.1) (mapB (mapT f d) s.2) = _ := e4'
          show (splitPush o (⟨n.num, n.keys, mapS (mapT f (d + 1)) kids⟩ : BNode K (BNode K (Tree K d))) s.1
            (mapB (mapT f d) q.1) (mapB (mapT f d) s.2) >>= _) = _
          rw [e5, Res.ok_bind, ← Res.ok.inj e]
          rfl
      · rw [if_neg hn] at e ⊢
        obtain ⟨x, e4, e⟩ := Res.bind_eq_ok.1 e
        have e4' : pushEntry o (⟨n.num, n.keys, mapS (mapT f (d + 1)) kids⟩ : BNode K (BNode K (Tree K d))) s.1
            (mapB (mapT f d) s.2) = _ := pushEntry_map (mapT (K := K) f (d + 1)) e4
        show (pushEntry o (⟨n.num, n.keys, mapS (mapT f (d + 1)) kids⟩ : BNode K (BNode K (Tree K d))) s.1
            (mapB (mapT f d) s.2) >>= _) = _
        rw [e4', Res.ok_bind, ← Res.ok.inj e]
        rfl

/-- The state with renamed leaves. -/
def mapSt (f : Nat → Nat) (h : Heap L) (s : State K L) : State K L := ⟨s.depth, mapT f s.depth s.root, h⟩

theorem recoveryInsert_map {f : Nat → Nat} (fp : Bool) {h : Heap L} {s r : State K L} {id : Nat}
    (hg : h.get id = s.heap.get id) (hf : f id = id) (e : recoveryInsert o fp s id = .ok r) :
    recoveryInsert o fp (mapSt f h s) id = .ok (mapSt f h r) ∧ r.heap = s.heap := by
  obtain ⟨d, n, h'⟩ := s
  cases d with
  | zero => rw [recoveryInsert] at e; exact absurd e (by simp)
  | succ d =>
    rw [recoveryInsert] at e
    obtain ⟨q, e1, e⟩ := Res.bind_eq_ok.1 e
    have e1' := recIns_map (f := f) fp hg hf d n q e1
    show (recIns o fp h id d (mapB (mapT f d) n) >>= _) = _ ∧ _
    rw [e1', Res.ok_bind]
    cases hq : q.2 with
    | none =>
      rw [hq] at e
      rw [← Res.ok.inj e]
      exact ⟨rfl, rfl⟩
    | some s =>
      rw [hq] at e
      obtain ⟨x, e4, e⟩ := Res.bind_eq_ok.1 e
      have e4' : newRoot o (mapB (mapT f d) q.1) s.1 (mapB (mapT f d) s.2) = _ :=
        newRoot_map (mapT (K := K) f (d + 1)) e4
      dsimp only [Option.map]
      rw [e4', Res.ok_bind, ← Res.ok.inj e]
      exact ⟨rfl, rfl⟩

theorem recLoop_map {f : Nat → Nat} (fp : Bool) {h h' : Heap L} : ∀ (post : List Nat) (fuel : Nat) (s r : State K L),
    s.heap = h' → (∀ i ∈ post, h.get i = h'.get i ∧ f i = i ∧ h.next i = h'.next i) →
    post.IsChain (fun a b => h'.next a = some b) → (∀ x ∈ post.getLast?, h'.next x = Option.none) →
    recLoop o fp fuel s post.head? = .ok r → recLoop o fp fuel (mapSt f h s) post.head? = .ok (mapSt f h r)
  | [], fuel, s, r, _, _, _, _, e => by
    cases fuel <;> (simp only [List.head?_nil, recLoop] at e ⊢; rw [Res.ok.inj e])
  | x :: post, 0, s, r, _, _, _, _, e => by
    simp only [List.head?_cons, recLoop] at e
    exact absurd e (by simp)
  | x :: post, fuel + 1, s, r, hs, hg, hch, hlast, e => by
    obtain ⟨hgx, hfx, hnx⟩ := hg x (by simp)
    simp only [List.head?_cons, recLoop] at e ⊢
    obtain ⟨l, e1, e⟩ := Res.bind_eq_ok.1 e
    obtain ⟨s1, e2, e⟩ := Res.bind_eq_ok.1 e
    rw [hs] at e1
    obtain ⟨e2', hh⟩ := recoveryInsert_map (f := f) (h := h) fp (by rw [hs]; exact hgx) hfx e2
    have hnext : h'.next x = post.head? := by
      cases post with
      | nil => exact hlast x (by simp)
      | cons y post => exact (List.isChain_cons_cons.1 hch).1
    rw [hs, hnext] at e
    show (h.get x >>= _) = _
    rw [hgx, e1, Res.ok_bind, e2', Res.ok_bind]
    show recLoop o fp fuel (mapSt f h s1) (h.next x) = _
    rw [hnx, hnext]
    refine recLoop_map fp post fuel s1 r (hh.trans hs) (fun i hi => hg i (List.mem_cons_of_mem _ hi)) ?_ ?_ e
    · cases post with
      | nil => simp
      | cons y post => exact (List.isChain_cons_cons.1 hch).2
    · intro y hy
      apply hlast
      cases post with
      | nil => simp at hy
      | cons z post => rw [List.getLast?_cons_cons]; exact hy

theorem findLeaf_map {f : Nat → Nat} (k : K) : ∀ (d : Nat) (t : Tree K d) (id : Nat), findLeaf o d t k = .ok id →
    findLeaf o d (mapT f d t) k = .ok (f id)
  | 0, t, id, e => by
    rw [findLeaf] at e ⊢
    rw [Res.ok.inj e]; rfl
  | d + 1, n, id, e => by
    rw [findLeaf] at e ⊢
    obtain ⟨p, e1, e⟩ := Res.bind_eq_ok.1 e
    obtain ⟨c, e2, e⟩ := Res.bind_eq_ok.1 e
    have e1' : lookupPos o (mapT f (d + 1) n) k = .ok p := e1
    rw [e1', Res.ok_bind]
    show (rd (o.N + 1) (mapS (mapT f d) n.kids) p >>= _) = _
    rw [rd_map _ e2, Res.ok_bind]
    exact findLeaf_map k d c id e

/-- Recovery of the HPBPTree from a well-formed leaf list: every lookup gives the right answer. -/
theorem recoverH_lookup (hN : 2 ≤ o.N) {h : Heap L} {first : Nat} {rest : List Nat} (w : Wf h (first :: rest))
    (hsort : Sorted (content W h (first :: rest)))
    (hfirst : ∃ l, h.data first = some l ∧ W.ok l)
    (hready : rest ≠ [] → ∀ x ∈ first :: rest, LeafReady W lm h x) :
    ∃ s, recoverH o h first = .ok s ∧ s.heap = h ∧
      ∀ k, lookup o s k = .ok (find k (content W h (first :: rest))) := by
  obtain ⟨l, hl, hok⟩ := hfirst
  unfold recoverH
  rw [Heap.get, hl, Res.ofOption_some, Res.ok_bind]
  cases rest with
  | nil =>
    have : h.next first = Option.none := w.chain.2 first (by simp)
    rw [this]
    refine ⟨⟨0, first, h⟩, rfl, rfl, fun k => ?_⟩
    have g : Good W 0 0 0 (⟨0, first, h⟩ : State K L) :=
      ⟨⟨bot_lt_top, l, hl, hok, by simp [rootMin], fun e _ => inR_univ e.1, trivial⟩, w⟩
    exact lookup_good g k
  | cons x rest =>
    have hch := chain_next w.chain
    have hnext := (List.isChain_cons_cons.1 hch).1
    rw [hnext]
    dsimp only
    -- the ghost
    let h' : Heap L := { h with data := upd h.data h.fresh (some o.empty) }
    have hne : ∀ i ∈ first :: x :: rest, i ≠ h.fresh := fun i hi => by
      have := w.fresh i hi; omega
    have hdata : ∀ i ∈ first :: x :: rest, h'.data i = h.data i := fun i hi => by
      simp [h', upd, hne i hi]
    have hcont : content W h' (first :: x :: rest) = content W h (first :: x :: rest) := content_congr W hdata
    have hgd : h'.data h.fresh = some o.empty := by simp [h', upd]
    have hge : ent W h' h.fresh = [] := by simp [ent, hgd, W.empty_abs]
    obtain ⟨r, er, hr⟩ := singleNode_rep o h.fresh
    let f : Nat → Nat := fun i => if i = h.fresh then first else i
    have er' : singleNode o first = .ok (mapB (mapT (K := K) f 0) r) := by
      have := singleNode_map (mapT (K := K) f 0) er
      have hfg : mapT (K := K) f 0 h.fresh = first := by simp [mapT, f]
      rw [hfg] at this; exact this
    have hs0 : RecS W 0 h' (⟨1, r, h'⟩ : State K L) [h.fresh] := by
      refine ⟨rfl, le_rfl, ⟨[], h.fresh, [], [], ⊥, hr, rfl, trivial, ?_, Or.inl rfl⟩, ?_⟩
      · exact ⟨o.empty, hgd, W.empty_ok, by omega, fun _ _ => bot_le⟩
      · dsimp only; rw [ids_rep hr]; rfl
    obtain ⟨s, e, hs⟩ := recLoop_spec false hN (first :: x :: rest) [h.fresh] h.fresh _ hs0
      w.length_le (by
        rw [content_append, hcont, content_cons, hge]; simpa [content] using hsort)
      (fun i hi => by
        obtain ⟨l, e, es, h1, h2, h3, h4, h5⟩ := hready (by simp) i hi
        exact ⟨l, e, es, by rw [hdata i hi]; exact h1, h2, by omega, h4, h5⟩)
      hch (fun y hy => w.chain.2 y hy)
    have e' := recLoop_map (f := f) (h := h) false (first :: x :: rest) h.fresh _ s rfl (fun i hi => by
        refine ⟨?_, ?_, rfl⟩
        · rw [Heap.get, Heap.get, hdata i hi]
        · simp only [f]; rw [if_neg (hne i hi)]) hch (fun y hy => w.chain.2 y hy) e
    rw [er', Res.ok_bind]
    refine ⟨mapSt f h s, e', rfl, fun k => ?_⟩
    obtain ⟨d, t, h0⟩ := s
    obtain ⟨hh, hd, hrec, hids⟩ := hs
    dsimp only at hh hd hrec hids
    have hb := hrec.close (hi := ⊤) bot_lt_top (fun e _ => bk_lt_top e.1)
    obtain ⟨id, l', pre, post, m, m', ef, hi', hl', hok', _, _, hk, hbd, _, h1, h2⟩ :=
      findLeaf_spec k _ _ _ ⊥ ⊤ hb (inR_univ k)
    rw [hids] at hi'
    have hlk : lookup o (mapSt f h (⟨d, t, h0⟩ : State K L)) k = (do
        let l ← h.get (f id)
        o.lookup l k) := by
      unfold lookup
      show (findLeaf o d (mapT f d t) k >>= _) = _
      rw [findLeaf_map k d t id ef, Res.ok_bind]
      rfl
    rw [hlk]
    have hnot : ∀ e ∈ content W h' post, e.1 ≠ k := fun e he hk' => by
      have := lt_of_lt_of_le hk.2 (h2 e he)
      rw [hk'] at this; exact absurd this (lt_irrefl _)
    have hnot1 : ∀ e ∈ content W h' pre, e.1 ≠ k := fun e he hk' => by
      have := lt_of_lt_of_le (h1 e he) hk.1
      rw [hk'] at this; exact absurd this (lt_irrefl _)
    rw [← hcont]
    cases pre with
    | nil =>
      simp only [List.nil_append, List.singleton_append, List.cons.injEq] at hi'
      obtain ⟨hi1, hi2⟩ := hi'
      have hfid : f id = first := by simp only [f]; rw [if_pos hi1.symm]
      rw [hfid, Heap.get, hl, Res.ofOption_some, Res.ok_bind, W.lookup l k hok]
      congr 1
      rw [hi2, find_eq_none.2 hnot, find_eq_none.2]
      intro e he
      refine hnot e ?_
      rw [← hi2, content_cons, List.mem_append]
      left
      rw [ent, hdata first (by simp), hl]; exact he
    | cons p pre =>
      simp only [List.cons_append, List.nil_append, List.cons.injEq] at hi'
      obtain ⟨_, hi2⟩ := hi'
      have hmem : id ∈ first :: x :: rest := by rw [hi2]; simp
      have hfid : f id = id := by simp only [f]; rw [if_neg (hne id hmem)]
      rw [hdata id hmem] at hl'
      rw [hfid, Heap.get, hl', Res.ofOption_some, Res.ok_bind, W.lookup l' k hok', hi2, content_append,
        content_cons, find_append_right (fun e he => hnot1 e (by rw [content_cons]; exact List.mem_append_right _ he)),
        find_append_left hnot]
      simp [ent, hdata id hmem, hl']

end Verif.BTree
