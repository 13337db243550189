import Verif.FPTree.EraseCrash
import Verif.BTree.RecoverShadow

/-!
# Crashes inside an erase of the FPTree: leaf lists and their recovery
-/

set_option linter.unusedSectionVars false

namespace Verif.FPTree

open Verif Search BTree Assoc MapSpec

variable {K V : Type} {M : Nat} [LinearOrder K] [Inhabited K] {c : FCfg K V} {adm : K → Prop}

/-- Persistent memory with the leaf list `is` from which `recover` gets a tree with the map `m`.  The leaves may have any number
of entries, but none of several is empty; the `prevLeaf` pointers may be wrong. -/
structure Pers1 (F : FLaws c adm) (hM : 2 ≤ M) (h : Heap (FLeaf M K V)) (is : List Nat) (m : K → Option V) : Prop where
  wf : ∃ p, Wf { h with prev := p } is
  sorted : Sorted (content (fpLaws F hM) h is)
  leaf : ∀ i ∈ is, ∃ l, h.data i = some l ∧ FOk c.hash adm l ∧ (1 < is.length → l.abs ≠ [])
  find : ∀ x, find x (content (fpLaws F hM) h is) = m x

theorem minKey_ok (F : FLaws c adm) (hmax : ∀ k, adm k → k < c.lim.max) {l : FLeaf M K V} (hok : FOk c.hash adm l) {e : K × V}
    {es : List (K × V)} (he : l.abs = e :: es) : l.minKey c = .ok e.1 :=
  minKey_law F hok he (Or.inr (by
    obtain ⟨p, hp, hb, hx⟩ := mem_abs.1 (show e ∈ l.abs by rw [he]; simp)
    rw [hx]; exact hmax _ (hok.adm p hp hb)))

theorem Pers1.nodup {F : FLaws c adm} {hM : 2 ≤ M} {h : Heap (FLeaf M K V)} {is : List Nat} {m : K → Option V}
    (hp : Pers1 F hM h is m) : is.Nodup := by
  obtain ⟨p, w⟩ := hp.wf
  exact w.nodup

theorem Pers1.withPrev {F : FLaws c adm} {hM : 2 ≤ M} {h : Heap (FLeaf M K V)} {is : List Nat} {m : K → Option V}
    (hp : Pers1 F hM h is m) (q : Nat → Option Nat) : Pers1 F hM { h with prev := q } is m :=
  ⟨hp.wf, hp.sorted, hp.leaf, hp.find⟩

/-- Recovery. -/
theorem Pers1.recover {F : FLaws c adm} {hM : 2 ≤ M} (hN : 2 ≤ c.N) (hmax : ∀ k, adm k → k < c.lim.max)
    {h : Heap (FLeaf M K V)} {first : Nat} {rest : List Nat} {m : K → Option V} (hp : Pers1 F hM h (first :: rest) m) :
    ∃ s p, recoverF (fpOps c M) h first = .ok s ∧ Good (fpLaws F hM) 1 0 0 (s.withPrev p) ∧
      ids s.depth s.root = first :: rest ∧ Stores (fpLaws F hM) (s.withPrev p) m ∧ s.heap = h := by
  obtain ⟨⟨p, w⟩, hs, hl, hm⟩ := hp
  obtain ⟨l, hd, hok, hlen⟩ := hl first (by simp)
  obtain ⟨s, e, g, hh, hids⟩ := recoverF_good (W := fpLaws F hM) (lm := 1) (h := { h with prev := p }) hN w hs
    ⟨l, hd, hok, fun hr => by
      have := hlen (by cases rest with | nil => exact absurd rfl hr | cons => simp)
      exact List.length_pos_iff.2 this⟩ (by
    intro x hx
    obtain ⟨l, hd, hok, hlen⟩ := hl x (List.mem_cons_of_mem _ hx)
    have hlen := hlen (by have := List.length_pos_of_mem hx; simp; omega)
    cases hab : l.abs with
    | nil => exact absurd hab hlen
    | cons e es => exact ⟨l, e, es, hd, hok, List.length_pos_iff.2 hlen, hab, minKey_ok F hmax hok hab⟩)
  have e' : recoverF (fpOps c M) h first = .ok (s.withPrev h.prev) := by
    have := recoverF_prev (o := fpOps c M) { h with prev := p } h.prev first
    rw [e, Res.ok_bind] at this
    exact this
  have es : (s.withPrev h.prev).withPrev p = s := by
    obtain ⟨d, r, hp⟩ := s
    simp only at hh
    subst hh
    rfl
  refine ⟨_, p, e', by rw [es]; exact g, hids, fun x => ?_, ?_⟩
  · rw [es]
    unfold cont
    rw [hh, hids]
    exact hm x
  · obtain ⟨d, r, hp⟩ := s
    simp only at hh
    subst hh
    rfl

theorem Pers1.look {F : FLaws c adm} {hM : 2 ≤ M} (hN : 2 ≤ c.N) (hmax : ∀ k, adm k → k < c.lim.max)
    {h : Heap (FLeaf M K V)} {first : Nat} {rest : List Nat} {m : K → Option V} (hp : Pers1 F hM h (first :: rest) m) :
    ∃ s, recoverF (fpOps c M) h first = .ok s ∧ ∀ x, lookup (fpOps c M) s x = .ok (m x) := by
  obtain ⟨s, p, e, g, _, hst, _⟩ := hp.recover hN hmax
  exact ⟨s, e, fun x => hst.lookup g x⟩

/-- Two leaves of a leaf list have no key in common. -/
theorem Pers1.disjoint {F : FLaws c adm} {hM : 2 ≤ M} {h : Heap (FLeaf M K V)} {is : List Nat} {m : K → Option V}
    (hp : Pers1 F hM h is m) {i j : Nat} {li lj : FLeaf M K V} (hi : i ∈ is) (hj : j ∈ is) (hdi : h.data i = some li)
    (hdj : h.data j = some lj) (hne : i ≠ j) {x : K} (hx : Assoc.find x li.abs ≠ none) : Assoc.find x lj.abs = none := by
  by_contra hy
  have hs := hp.sorted
  obtain ⟨_, e1, o1, _⟩ := hp.leaf i hi
  obtain ⟨_, e2, o2, _⟩ := hp.leaf j hj
  rw [hdi] at e1; cases Option.some.inj e1
  rw [hdj] at e2; cases Option.some.inj e2
  obtain ⟨v, hv⟩ := Option.ne_none_iff_exists'.1 hx
  obtain ⟨w, hw⟩ := Option.ne_none_iff_exists'.1 hy
  have m1 : (x, v) ∈ li.abs := (mem_iff_find o1.sorted).2 hv
  have m2 : (x, w) ∈ lj.abs := (mem_iff_find o2.sorted).2 hw
  have c1 : (x, v) ∈ ent (fpLaws F hM) h i := by simp only [ent, hdi]; exact m1
  have c2 : (x, w) ∈ ent (fpLaws F hM) h j := by simp only [ent, hdj]; exact m2
  obtain ⟨pre, post, rfl⟩ := List.append_of_mem hi
  have hd : content (fpLaws F hM) h (pre ++ i :: post) = content (fpLaws F hM) h pre ++ (ent (fpLaws F hM) h i ++ content (fpLaws F hM) h post) := by
    rw [content_append, content_cons]
  rw [hd, sorted_append, sorted_append] at hs
  rcases List.mem_append.1 hj with h1 | h1
  · exact absurd (hs.2.2 _ (List.mem_flatMap.2 ⟨j, h1, c2⟩) _ (List.mem_append_left _ c1)) (lt_irrefl _)
  · rcases List.mem_cons.1 h1 with h1 | h1
    · exact hne h1.symm
    · exact absurd (hs.2.1.2.2 _ c1 _ (List.mem_flatMap.2 ⟨j, h1, c2⟩)) (lt_irrefl _)

/-- Recovery from persistent memory `h` whose leaves hold, besides the entries of a leaf list `h0`, copies of entries of other
leaves: if the smallest keys are those of `h0`, no lookup sees the copies. -/
theorem Pers1.shadow {F : FLaws c adm} {hM : 2 ≤ M} (hN : 2 ≤ c.N) (hmax : ∀ k, adm k → k < c.lim.max)
    {h h0 : Heap (FLeaf M K V)} {first : Nat} {rest : List Nat} {m : K → Option V} (hp : Pers1 F hM h0 (first :: rest) m)
    (hn : h.next = h0.next) (hf : h.fresh = h0.fresh)
    (hd : ∀ i, (h.data i).map (FLeaf.minKey c) = (h0.data i).map (FLeaf.minKey c))
    (hl : ∀ i ∈ first :: rest, ∀ l0, h0.data i = some l0 → ∃ l, h.data i = some l ∧ FOk c.hash adm l ∧
      ∀ x, Assoc.find x l.abs = Assoc.find x l0.abs ∨
        ∃ j ∈ first :: rest, j ≠ i ∧ ∃ lj, h0.data j = some lj ∧ Assoc.find x lj.abs ≠ none) :
    ∃ s, recoverF (fpOps c M) h first = .ok s ∧ ∀ x, lookup (fpOps c M) s x = .ok (m x) := by
  obtain ⟨s, p, e, g, hids, hst, hh⟩ := hp.recover hN hmax
  refine ⟨s.withHeap h, by rw [recoverF_congr hn hf hd, e, Res.ok_bind], fun x => ?_⟩
  obtain ⟨id, l0, pre, post, a, b, ef, hi, hd0, hok0, _, _, hk, hr, _, h1, h2⟩ :=
    findLeaf_spec x s.depth (rootMin 0 s.depth) s.root ⊥ ⊤ g.bt (inR_univ x)
  have hd0 : h0.data id = some l0 := by rw [← hh]; exact hd0
  have hmem : id ∈ first :: rest := by rw [← hids, hi]; simp
  obtain ⟨l, hdl, hok, hx⟩ := hl id hmem l0 hd0
  have hlx : lookup (fpOps c M) s x = .ok (m x) := hst.lookup g x
  have e0 : lookup (fpOps c M) s x = .ok (Assoc.find x l0.abs) := by
    unfold lookup
    rw [ef, Res.ok_bind, hh, Heap.get_of hd0, Res.ok_bind]
    exact (fpLaws F hM).lookup l0 x hok0
  have e1 : lookup (fpOps c M) (s.withHeap h) x = .ok (Assoc.find x l.abs) := by
    unfold lookup
    show (findLeaf (fpOps c M) s.depth s.root x >>= _) = _
    rw [ef, Res.ok_bind]
    show (h.get id >>= _) = _
    rw [Heap.get_of hdl, Res.ok_bind]
    exact (fpLaws F hM).lookup l x hok
  rw [e0] at hlx
  have hlx := Res.ok.inj hlx
  rw [e1]
  rcases hx x with hx | ⟨j, hj, hji, lj, hdj, hx⟩
  · rw [hx, hlx]
  · exfalso
    -- the other leaf holds `x`, so it is the leaf of `x`
    obtain ⟨_, e2, o2, _⟩ := hp.leaf j hj
    rw [hdj] at e2; cases Option.some.inj e2
    obtain ⟨w, hw⟩ := Option.ne_none_iff_exists'.1 hx
    have m2 : (x, w) ∈ lj.abs := (mem_iff_find o2.sorted).2 hw
    have c2 : (x, w) ∈ ent (fpLaws F hM) (s.withPrev p).heap j := by
      have : (s.withPrev p).heap.data j = some lj := by show s.heap.data j = _; rw [hh]; exact hdj
      simp only [ent, this]; exact m2
    have hjm : j ∈ pre ++ id :: post := by rw [← hi, hids]; exact hj
    rcases List.mem_append.1 hjm with h' | h'
    · exact absurd (lt_of_lt_of_le (h1 _ (List.mem_flatMap.2 ⟨j, h', c2⟩)) hk.1) (lt_irrefl _)
    · rcases List.mem_cons.1 h' with h' | h'
      · exact hji h'
      · exact absurd (lt_of_lt_of_le hk.2 (h2 _ (List.mem_flatMap.2 ⟨j, h', c2⟩))) (lt_irrefl _)

/-! ## Changes of leaves -/

theorem wf_data {L : Type} {h h' : Heap L} {is : List Nat} (w : Wf h is) (hn : h'.next = h.next) (hp : h'.prev = h.prev) (hf : h'.fresh = h.fresh)
    (ha : ∀ i ∈ is, (h'.data i).isSome) : Wf h' is := by
  refine ⟨w.nodup, fun i hi => by rw [hf]; exact w.fresh i hi, ha, ?_⟩
  have := w.chain
  unfold Chain at this ⊢
  rw [hn, hp]
  exact this

/-- Two neighbours get new contents with the same entries. -/
theorem Pers1.pair {F : FLaws c adm} {hM : 2 ≤ M} {h h' : Heap (FLeaf M K V)} {pre post : List Nat} {a b : Nat} {m : K → Option V}
    (hp : Pers1 F hM h (pre ++ a :: b :: post) m) {la lb la' lb' : FLeaf M K V} (ha : h.data a = some la) (hb : h.data b = some lb)
    (ha' : h'.data a = some la') (hb' : h'.data b = some lb') (ho : ∀ i, i ≠ a → i ≠ b → h'.data i = h.data i)
    (hn : h'.next = h.next) (hf : h'.fresh = h.fresh)
    (oka : FOk c.hash adm la') (okb : FOk c.hash adm lb') (na : la'.abs ≠ []) (nb : lb'.abs ≠ [])
    (he : la'.abs ++ lb'.abs = la.abs ++ lb.abs) : Pers1 F hM h' (pre ++ a :: b :: post) m := by
  have hnd := hp.nodup
  obtain ⟨p, w⟩ := hp.wf
  have hc : content (fpLaws F hM) h' (pre ++ a :: b :: post) = content (fpLaws F hM) h (pre ++ a :: b :: post) := by
    rw [List.nodup_append, List.nodup_cons, List.nodup_cons] at hnd
    rw [content_append, content_append, content_cons, content_cons, content_cons, content_cons]
    have e1 : content (fpLaws F hM) h' pre = content (fpLaws F hM) h pre :=
      content_congr _ (fun i hi => ho i (hnd.2.2 i hi a (by simp)) (hnd.2.2 i hi b (by simp)))
    have e2 : content (fpLaws F hM) h' post = content (fpLaws F hM) h post :=
      content_congr _ (fun i hi => ho i (by rintro rfl; exact hnd.2.1.1 (by simp [hi])) (by rintro rfl; exact hnd.2.1.2.1 hi))
    rw [e1, e2, ← List.append_assoc (ent _ _ a), ← List.append_assoc (ent _ h a)]
    have e3 : ent (fpLaws F hM) h' a ++ ent (fpLaws F hM) h' b = ent (fpLaws F hM) h a ++ ent (fpLaws F hM) h b := by
      simp only [ent, ha, hb, ha', hb']
      exact he
    rw [e3]
  have hleaf : ∀ i ∈ pre ++ a :: b :: post, ∃ l, h'.data i = some l ∧ FOk c.hash adm l ∧ (1 < (pre ++ a :: b :: post).length → l.abs ≠ []) := by
    intro i hi
    by_cases h1 : i = a
    · subst h1; exact ⟨la', ha', oka, fun _ => na⟩
    · by_cases h2 : i = b
      · subst h2; exact ⟨lb', hb', okb, fun _ => nb⟩
      · rw [ho i h1 h2]; exact hp.leaf i hi
  refine ⟨⟨p, wf_data w hn rfl hf (fun i hi => ?_)⟩, by rw [hc]; exact hp.sorted, hleaf, fun x => by rw [hc]; exact hp.find x⟩
  obtain ⟨l, hl, _⟩ := hleaf i hi
  show (h'.data i).isSome
  rw [hl]; rfl

/-- One leaf gets new contents. -/
theorem Pers1.one {F : FLaws c adm} {hM : 2 ≤ M} {h h' : Heap (FLeaf M K V)} {pre post : List Nat} {a : Nat} {m m' : K → Option V}
    (hp : Pers1 F hM h (pre ++ a :: post) m) {la la' : FLeaf M K V} (ha : h.data a = some la) (ha' : h'.data a = some la')
    (ho : ∀ i, i ≠ a → h'.data i = h.data i) (hn : h'.next = h.next) (hf : h'.fresh = h.fresh)
    (oka : FOk c.hash adm la') (na : 1 < (pre ++ a :: post).length → la'.abs ≠ [])
    (hs : Sorted (content (fpLaws F hM) h pre ++ (la'.abs ++ content (fpLaws F hM) h post)))
    (hm : ∀ x, Assoc.find x (content (fpLaws F hM) h pre ++ (la'.abs ++ content (fpLaws F hM) h post)) = m' x) :
    Pers1 F hM h' (pre ++ a :: post) m' := by
  have hnd := hp.nodup
  obtain ⟨p, w⟩ := hp.wf
  have hc := content_set F hM (h := h) (h' := h') hnd ha' (fun i _ hi => ho i hi)
  have hleaf : ∀ i ∈ pre ++ a :: post, ∃ l, h'.data i = some l ∧ FOk c.hash adm l ∧ (1 < (pre ++ a :: post).length → l.abs ≠ []) := by
    intro i hi
    by_cases h1 : i = a
    · subst h1; exact ⟨la', ha', oka, na⟩
    · rw [ho i h1]; exact hp.leaf i hi
  refine ⟨⟨p, wf_data w hn rfl hf (fun i hi => ?_)⟩, by rw [hc]; exact hs, hleaf, fun x => by rw [hc]; exact hm x⟩
  obtain ⟨l, hl, _⟩ := hleaf i hi
  show (h'.data i).isSome
  rw [hl]; rfl

/-- The second of two neighbours is taken out of the list after its entries have been copied to the first. -/
theorem Pers1.unlink {F : FLaws c adm} {hM : 2 ≤ M} {h h' : Heap (FLeaf M K V)} {pre post : List Nat} {a b : Nat} {m : K → Option V}
    (hp : Pers1 F hM h (pre ++ a :: b :: post) m) {la lb la' : FLeaf M K V} (ha : h.data a = some la) (hb : h.data b = some lb)
    (ha' : h'.data a = some la') (ho : ∀ i, i ≠ a → i ≠ b → h'.data i = h.data i)
    (hn : h'.next = upd h.next a (h.next b)) (hf : h'.fresh = h.fresh)
    (oka : FOk c.hash adm la') (na : la'.abs ≠ []) (he : la'.abs = la.abs ++ lb.abs) : Pers1 F hM h' (pre ++ a :: post) m := by
  have hnd := hp.nodup
  obtain ⟨p, w⟩ := hp.wf
  have hnd' : (pre ++ a :: post).Nodup :=
    hnd.sublist (List.Sublist.append_left ((List.sublist_cons_self b post).cons_cons a) pre)
  rw [List.nodup_append, List.nodup_cons, List.nodup_cons] at hnd
  have hpre : ∀ i ∈ pre, h'.data i = h.data i := fun i hi => ho i (hnd.2.2 i hi a (by simp)) (hnd.2.2 i hi b (by simp))
  have hpost : ∀ i ∈ post, h'.data i = h.data i := fun i hi =>
    ho i (by rintro rfl; exact hnd.2.1.1 (by simp [hi])) (by rintro rfl; exact hnd.2.1.2.1 hi)
  have hc : content (fpLaws F hM) h' (pre ++ a :: post) = content (fpLaws F hM) h (pre ++ a :: b :: post) := by
    rw [content_append, content_append, content_cons, content_cons, content_cons, content_congr _ hpre, content_congr _ hpost,
      ← List.append_assoc (ent _ h a)]
    have e3 : ent (fpLaws F hM) h' a = ent (fpLaws F hM) h a ++ ent (fpLaws F hM) h b := by
      simp only [ent, ha, hb, ha']
      exact he
    rw [e3]
  have hleaf : ∀ i ∈ pre ++ a :: post, ∃ l, h'.data i = some l ∧ FOk c.hash adm l ∧ (1 < (pre ++ a :: post).length → l.abs ≠ []) := by
    intro i hi
    have hin : i ∈ pre ++ a :: b :: post := by
      simp only [List.mem_append, List.mem_cons] at hi ⊢; tauto
    have hlen : 1 < (pre ++ a :: b :: post).length := by simp; omega
    rcases List.mem_append.1 hi with h1 | h1
    · rw [hpre i h1]
      obtain ⟨l, x1, x2, x3⟩ := hp.leaf i hin
      exact ⟨l, x1, x2, fun _ => x3 hlen⟩
    · rcases List.mem_cons.1 h1 with h1 | h1
      · subst h1; exact ⟨la', ha', oka, fun _ => na⟩
      · rw [hpost i h1]
        obtain ⟨l, x1, x2, x3⟩ := hp.leaf i hin
        exact ⟨l, x1, x2, fun _ => x3 hlen⟩
  -- the links as `mergeLeafNodes` makes them
  obtain ⟨h2, eh, wh, hdh, hfh⟩ := mergeLeaf_spec (o := { fpOps c M with merge := fun _ _ => Res.ok la' }) (h := { h with prev := p }) (c := la') w ha hb rfl
  have hnx : h2.next = upd h.next a (h.next b) := by
    unfold mergeLeaf at eh
    rw [Heap.get_of (h := { h with prev := p }) ha, Res.ok_bind, Heap.get_of (h := { h with prev := p }) hb, Res.ok_bind] at eh
    simp only [Res.ok_bind] at eh
    split at eh
    · cases Res.ok.inj eh; rfl
    · obtain ⟨_, _, eh⟩ := Res.bind_eq_ok.1 eh
      cases Res.ok.inj eh; rfl
  refine ⟨⟨h2.prev, wf_data wh (by show h'.next = h2.next; rw [hn, hnx]) rfl (by show h'.fresh = h2.fresh; rw [hf, hfh]) (fun i hi => ?_)⟩,
    by rw [hc]; exact hp.sorted, hleaf, fun x => by rw [hc]; exact hp.find x⟩
  obtain ⟨l, hl, _⟩ := hleaf i hi
  show (h'.data i).isSome
  rw [hl]; rfl

end Verif.FPTree
