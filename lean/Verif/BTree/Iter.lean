import Verif.BTree.SortedLaws

/-!
# The iterator of the sorted trees
-/

set_option linter.unusedSectionVars false

namespace Verif.BTree

open Verif Assoc
open Verif.Slots hiding none

variable {K V L : Type} [LinearOrder K] {c : SCfg K V} {lm bm rm : Nat}

theorem Tile.forall_mem {T : Type} {P : T → Bd K → Bd K → Prop} : ∀ {cs : List T} {bs : List (Bd K)},
    Tile P cs bs → ∀ x ∈ cs, ∃ a b, P x a b
  | [], _, _, x, hx => by simp at hx
  | y :: cs, b0 :: b1 :: bs, ht, x, hx => by
    rcases List.mem_cons.1 hx with hx | hx
    · subst hx; exact ⟨_, _, ht.1⟩
    · exact Tile.forall_mem ht.2 x hx
  | _ :: _, [], h, _, _ => h.elim
  | _ :: _, [_], h, _, _ => h.elim

/-- Every leaf below has at least `lm` entries, if the topmost node is full enough. -/
theorem Bt.leaf_length {o : Ops K V L} {W : Laws o} {Q : L → Bd K → Bd K → Prop} {h : Heap L} :
    ∀ (d top : Nat) (t : Tree K d) (lo hi : Bd K),
    Bt W Q lm bm h d top t lo hi → (d = 0 → lm ≤ top) →
    ∀ i ∈ ids d t, ∃ l, h.data i = some l ∧ W.ok l ∧ lm ≤ (W.abs l).length := by
  intro d
  induction d with
  | zero =>
    intro top t lo hi ⟨_, l, hl, hok, hlen, _⟩ htop i hi'
    simp only [ids, List.mem_singleton] at hi'
    exact ⟨l, by rw [hi']; exact hl, hok, le_trans (htop rfl) hlen⟩
  | succ d ih =>
    intro top n lo hi ⟨cs, ks, hr, _, ht⟩ _ i hi'
    rw [ids_rep hr] at hi'
    obtain ⟨x, hx, hix⟩ := List.mem_flatMap.1 hi'
    obtain ⟨a, b, hb⟩ := Tile.forall_mem ht x hx
    exact ih _ x a b hb (fun hd => by subst hd; exact le_rfl) i hix

/-- One step inside or at the end of a leaf. -/
theorem iter_leaf {h : Heap (SLeaf K V)} {id : Nat} {l : SLeaf K V} (hl : h.data id = some l)
    {rest : List (K × V)} : ∀ (b a : List (K × V)) (n : Nat), LRep c.M l (a ++ b) → b ≠ [] →
    (∀ n, rest.length ≤ n → Iter.run c h n ⟨h.next id, 0⟩ = .ok rest) → b.length + rest.length ≤ n →
    Iter.run c h n ⟨some id, a.length⟩ = .ok (b ++ rest)
  | [], _, _, _, hb, _, _ => absurd rfl hb
  | e :: b, a, n, hr, _, hrest, hn => by
    obtain ⟨n, rfl⟩ : ∃ m, n = m + 1 := ⟨n - 1, by simp at hn; omega⟩
    have hne : (⟨some id, a.length⟩ : Iter) ≠ Iter.end := by
      intro h; injection h with h; simp at h
    have hnum := hr.num
    simp only [List.length_append, List.length_cons] at hnum hn
    have hd : Iter.deref c h ⟨some id, a.length⟩ = .ok e := by
      unfold Iter.deref
      simp only [Res.ofOption_some, Res.ok_bind, Heap.get, hl]
      rw [hr.rdKey, Res.ok_bind, hr.rdVal, Res.ok_bind]; rfl
    rw [Iter.run, if_neg hne, hd, Res.ok_bind]
    unfold Iter.next
    simp only [Res.ofOption_some, Res.ok_bind, Heap.get, hl]
    cases b with
    | nil =>
      rw [if_pos (by simp at hnum; omega), Res.pure_eq, Res.ok_bind, hrest n (by simp at hn; omega)]; rfl
    | cons e' b =>
      rw [if_neg (by simp at hnum; omega), Res.pure_eq, Res.ok_bind]
      have := iter_leaf hl (e' :: b) (a ++ [e]) n (by simpa using hr) (by simp) hrest
        (by simp at hn ⊢; omega)
      rw [List.length_append, List.length_singleton] at this
      rw [this]; rfl

theorem iter_chain (C : CfgLaws c) {h : Heap (SLeaf K V)} {is : List Nat} (w : Wf h is)
    (hok : ∀ i ∈ is, ∃ l, h.data i = some l ∧ (sortedLaws C).ok l ∧ 1 ≤ ((sortedLaws C).abs l).length) :
    ∀ (post pre : List Nat), is = pre ++ post → ∀ n, (content (sortedLaws C) h post).length ≤ n →
    Iter.run c h n ⟨post.head?, 0⟩ = .ok (content (sortedLaws C) h post) := by
  intro post
  induction post with
  | nil =>
    intro pre _ n _
    cases n <;> simp [Iter.run, Iter.end]
  | cons a post ih =>
    intro pre he n hn
    obtain ⟨l, hl, ⟨es, hes⟩, hlen⟩ := hok a (by rw [he]; simp)
    change 1 ≤ l.abs.length at hlen
    rw [hes.abs] at hlen
    have hent : ent (sortedLaws C) h a = es := by
      have : (sortedLaws C).abs l = es := hes.abs
      simp [ent, hl, this]
    have hc : h.next a = post.head? := chain_tail (by rw [← he]; exact w.chain)
    rw [content_cons, hent] at hn ⊢
    have := ih (pre ++ [a]) (by rw [he]; simp)
    rw [← hc] at this
    exact iter_leaf hl es [] n hes (by intro h; rw [h] at hlen; simp at hlen) this (by simpa using hn)

/-- Iterating from `begin()` to `end()`. -/
theorem iterate_good (C : CfgLaws c) (hlm : 1 ≤ lm) {s : State K (SLeaf K V)}
    (g : Good (sortedLaws C) lm bm rm s) (hne : cont (sortedLaws C) s ≠ []) :
    ∃ it, Iter.begin c s = .ok it ∧ ∀ n, (cont (sortedLaws C) s).length ≤ n →
      Iter.run c s.heap n it = .ok (cont (sortedLaws C) s) := by
  obtain ⟨id, rest, e, hi⟩ := leftmost_spec _ _ _ _ _ g.bt
  refine ⟨⟨some id, 0⟩, ?_, ?_⟩
  · unfold Iter.begin
    have e' : leftmost (sortedOps c) s.depth s.root = .ok id := e
    rw [e', Res.ok_bind]; rfl
  · have hok : ∀ i ∈ ids s.depth s.root, ∃ l, s.heap.data i = some l ∧ (sortedLaws C).ok l ∧
        1 ≤ ((sortedLaws C).abs l).length := by
      by_cases hd : s.depth = 0
      · obtain ⟨d, t, h⟩ := s
        simp only at hd
        subst hd
        intro i hi'
        obtain ⟨_, l, hl, hok, _⟩ := g.bt
        simp only [ids, List.mem_singleton] at hi'
        subst hi'
        refine ⟨l, hl, hok, ?_⟩
        dsimp only at hl
        simp only [cont, ids, content, ent, List.flatMap_cons, List.flatMap_nil, List.append_nil, hl,
          Option.elim] at hne
        exact List.length_pos_iff.2 hne
      · intro i hi'
        obtain ⟨l, h1, h2, h3⟩ := Bt.leaf_length _ _ _ _ _ g.bt (fun h => absurd h hd) i hi'
        exact ⟨l, h1, h2, by omega⟩
    have := iter_chain C g.wf hok (id :: rest) [] (by rw [hi]; rfl)
    rw [← hi] at this
    intro n hn
    have h2 := this n hn
    rw [hi] at h2
    simpa [cont, hi] using h2

end Verif.BTree
