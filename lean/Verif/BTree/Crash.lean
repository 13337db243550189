import Verif.BTree.Hist

/-!
# A tree whose leaf is being changed in place

The insert into a leaf with free space and the erase of an entry write to one leaf and to nothing else.  If
the program stops between two of these writes, the tree is `withLeaf s id l`: the tree `s` before the
operation with other contents of one leaf.  This file relates the lookups in such a tree to the lookups
in the leaf.
-/

set_option linter.unusedSectionVars false

namespace Verif.BTree

open Verif Assoc MapSpec

variable {K V L : Type} [LinearOrder K] {o : Ops K V L} {W : Laws o} {lm bm rm : Nat}

/-- The tree `s` in which the leaf `id` has the contents `l`. -/
def withLeaf (s : State K L) (id : Nat) (l : L) : State K L := ⟨s.depth, s.root, s.heap.set id l⟩

theorem lookup_in {s : State K L} {id : Nat} {l' : L} {x : K} (h : findLeaf o s.depth s.root x = .ok id) :
    lookup o (withLeaf s id l') x = o.lookup l' x := by
  simp only [lookup, withLeaf, h, Res.ok_bind, Heap.get, Heap.set, upd, if_pos, Res.ofOption_some]

theorem lookup_out {s : State K L} {id : Nat} {l' : L} {x : K} (h : findLeaf o s.depth s.root x ≠ .ok id) :
    lookup o (withLeaf s id l') x = lookup o s x := by
  simp only [lookup, withLeaf]
  cases e : findLeaf o s.depth s.root x with
  | ok i =>
    have : i ≠ id := by rintro rfl; exact h e
    simp only [Res.ok_bind, Heap.get, Heap.set, upd, if_neg this]
  | _ => rfl

/-- `id` is the leaf of the key `k`, with the contents `l`. -/
structure LeafOf (W : Laws o) (s : State K L) (k : K) (id : Nat) (l : L) : Prop where
  find : findLeaf o s.depth s.root k = .ok id
  data : s.heap.data id = some l
  ok : W.ok l
  look : ∀ x, findLeaf o s.depth s.root x = .ok id → Assoc.find x (cont W s) = Assoc.find x (W.abs l)
  home : ∀ x, Assoc.find x (W.abs l) ≠ none → findLeaf o s.depth s.root x = .ok id

theorem leafOf (g : Good W lm bm rm s) (k : K) : ∃ id l, LeafOf W s k id l := by
  obtain ⟨id, l, pre, post, m, m', e, hids, hl, hok, _, _, hk, hr, _, h1, h2⟩ :=
    findLeaf_spec k s.depth (rootMin rm s.depth) s.root ⊥ ⊤ g.bt (inR_univ k)
  refine ⟨id, l, e, hl, hok, ?_, ?_⟩
  · intro x hx
    have h := lookup_good g x
    simp only [lookup, hx, Res.ok_bind, Heap.get, hl, Res.ofOption_some, W.lookup l x hok] at h
    exact (Res.ok.inj h).symm
  · intro x hx
    obtain ⟨id', l', pre', post', n, n', e', hids', hl', hok', _, _, hk', hr', _, h1', h2'⟩ :=
      findLeaf_spec x s.depth (rootMin rm s.depth) s.root ⊥ ⊤ g.bt (inR_univ x)
    rw [e']
    congr 1
    by_contra hne
    obtain ⟨v, hv⟩ := Option.ne_none_iff_exists'.1 hx
    have hm : (x, v) ∈ W.abs l := (mem_iff_find (W.sorted l hok)).2 hv
    have hent : (x, v) ∈ ent W s.heap id := by simp [ent, hl, hm]
    have hin : id ∈ pre' ++ id' :: post' := by rw [← hids', hids]; simp
    rcases List.mem_append.1 hin with h | h
    · have := h1' (x, v) (List.mem_flatMap.2 ⟨id, h, hent⟩)
      exact absurd (lt_of_lt_of_le this hk'.1) (lt_irrefl _)
    · rcases List.mem_cons.1 h with h | h
      · exact hne h.symm
      · have := h2' (x, v) (List.mem_flatMap.2 ⟨id, h, hent⟩)
        exact absurd (lt_of_lt_of_le hk'.2 this) (lt_irrefl _)

/-- The lookups in a tree whose leaf of `k` has other contents, if no other key than `k` has been added. -/
theorem LeafOf.lookup (g : Good W lm bm rm s) {k : K} {id : Nat} {l l' : L} (a : LeafOf W s k id l)
    {f : K → Option V} (hf : ∀ x, o.lookup l' x = .ok (f x))
    (hn : ∀ x, Assoc.find x (W.abs l) = none → x ≠ k → f x = none) (x : K) :
    (f x = Assoc.find x (W.abs l) → BTree.lookup o (withLeaf s id l') x = .ok (Assoc.find x (cont W s))) ∧
      (f x ≠ Assoc.find x (W.abs l) → BTree.lookup o (withLeaf s id l') x = .ok (f x)) := by
  by_cases hx : findLeaf o s.depth s.root x = .ok id
  · rw [lookup_in hx, hf, a.look x hx]
    exact ⟨fun h => by rw [h], fun _ => rfl⟩
  · rw [lookup_out hx, lookup_good g]
    have h : f x = Assoc.find x (W.abs l) := by
      by_cases h : Assoc.find x (W.abs l) = none
      · rw [h]
        exact hn x h (by rintro rfl; exact hx a.find)
      · exact absurd (a.home x h) hx
    exact ⟨fun _ => rfl, fun h' => absurd h h'⟩

/-- A leaf with the same lookups. -/
theorem LeafOf.lookup_same (g : Good W lm bm rm s) {k : K} {id : Nat} {l l' : L} (a : LeafOf W s k id l)
    (hf : ∀ x, o.lookup l' x = .ok (Assoc.find x (W.abs l))) (x : K) :
    BTree.lookup o (withLeaf s id l') x = .ok (Assoc.find x (cont W s)) :=
  (a.lookup g hf (fun x h _ => h) x).1 rfl

/-- A leaf in which at most the entry of `k` has changed. -/
theorem LeafOf.lookup_at (g : Good W lm bm rm s) {k : K} {id : Nat} {l l' : L} (a : LeafOf W s k id l)
    {r : Option V} (hf : ∀ x, o.lookup l' x = .ok (if x = k then r else Assoc.find x (W.abs l))) (x : K) :
    BTree.lookup o (withLeaf s id l') x = .ok (if x = k then r else Assoc.find x (cont W s)) := by
  have h := a.lookup g (f := fun x => if x = k then r else Assoc.find x (W.abs l)) hf
    (fun x h hx => by simp only [if_neg hx, h]) x
  by_cases hx : x = k
  · subst hx
    simp only [if_true] at h ⊢
    by_cases hr : r = Assoc.find x (W.abs l)
    · rw [h.1 hr, a.look x a.find, hr]
    · exact h.2 hr
  · simp only [if_neg hx] at h ⊢
    exact h.1 trivial

/-- A leaf with `k` added or changed. -/
theorem LeafOf.lookup_upsert (g : Good W lm bm rm s) {k : K} {v : V} {id : Nat} {l l' : L}
    (a : LeafOf W s k id l)
    (hf : ∀ x, o.lookup l' x = .ok (Assoc.find x (upsert k v (W.abs l)))) (x : K) :
    BTree.lookup o (withLeaf s id l') x = .ok (if x = k then some v else Assoc.find x (cont W s)) :=
  a.lookup_at g (fun x => by rw [hf, find_upsert]) x

/-- A leaf with `k` removed. -/
theorem LeafOf.lookup_remove (g : Good W lm bm rm s) {k : K} {id : Nat} {l l' : L}
    (a : LeafOf W s k id l)
    (hf : ∀ x, o.lookup l' x = .ok (Assoc.find x (remove k (W.abs l)))) (x : K) :
    BTree.lookup o (withLeaf s id l') x = .ok (if x = k then none else Assoc.find x (cont W s)) :=
  a.lookup_at g (fun x => by rw [hf, find_remove]) x

/-! ## Operations that change one leaf only -/

theorem upd_self {α : Type} {f : Nat → Option α} {i : Nat} {x : α} (h : f i = some x) :
    (fun j => if j = i then some x else f j) = f := by
  funext j
  by_cases hj : j = i
  · rw [if_pos hj, hj, h]
  · rw [if_neg hj]

theorem insertT_done {h : Heap L} {k : K} {v : V} {id : Nat} {l l' : L} (hl : h.data id = some l)
    (hi : o.insert l k v = .ok (.done l')) : ∀ (d : Nat) (t : Tree K d), findLeaf o d t k = .ok id →
    insertT o d h t k v = .ok ⟨h.set id l', t, none⟩
  | 0, t, e => by
    cases Res.ok.inj e
    simp only [insertT, insertLeaf, Heap.get, hl, Res.ofOption_some, Res.ok_bind, hi]
    rfl
  | d + 1, n, e => by
    rw [findLeaf] at e
    obtain ⟨p, e1, e⟩ := Res.bind_eq_ok.1 e
    obtain ⟨t, e2, e⟩ := Res.bind_eq_ok.1 e
    rw [insertT, e1, Res.ok_bind, e2, Res.ok_bind, insertT_done hl hi d t e, Res.ok_bind]
    have hp : p < o.N + 1 ∧ n.kids p = some t := by
      unfold Slots.rd at e2
      split at e2
      · rename_i hp
        refine ⟨hp, ?_⟩
        cases hk : n.kids p with
        | none => rw [hk] at e2; cases e2
        | some y => rw [hk] at e2; rw [Res.ok.inj e2]
      · cases e2
    have hw : Slots.wr (o.N + 1) n.kids p t = .ok n.kids := by
      unfold Slots.wr
      rw [if_pos hp.1]
      congr 1
      funext j
      by_cases hj : j = p
      · subst hj; simp [hp.2]
      · simp [hj]
    simp only [hw, Res.ok_bind]
    rfl

/-- An insert that splits no leaf changes one leaf. -/
theorem insert_inplace {s : State K L} {k : K} {v : V} {id : Nat} {l l' : L} (a : LeafOf W s k id l)
    (hi : o.insert l k v = .ok (.done l')) : insert o s k v = .ok (withLeaf s id l') := by
  rw [insert, insertT_done a.data hi s.depth s.root a.find, Res.ok_bind]
  rfl

end Verif.BTree
