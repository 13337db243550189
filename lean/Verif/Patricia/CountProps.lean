import Verif.Patricia.Props
import Mathlib.Data.List.Perm.Subperm

/-!
# The number of nodes of a Patricia trie

`getSubnodes()` against the set of stored keys.
-/

namespace Verif.Patricia

open Verif MapSpec

variable {V : Type} {c : Cfg V}

/-- The bit string belongs to the compressed trie of the stored keys: it is empty (the root), it is a stored key, or
stored keys continue it with both bits. -/
def Needed (m : List UInt8 → Option V) (y : List Bool) : Prop :=
  y = [] ∨ (∃ k, m k ≠ none ∧ keyBits k = y) ∨ ∀ b, ∃ k, m k ≠ none ∧ y ++ [b] <+: keyBits k

/-- `n` is the number of bit strings with the property `P`. -/
def Count (P : List Bool → Prop) (n : Nat) : Prop := ∃ ys : List (List Bool), ys.Nodup ∧ (∀ y, y ∈ ys ↔ P y) ∧ ys.length = n

/-- C95: after any history of inserts and removes of non-empty keys, `getSubnodes()` is the number of nodes of the
compressed trie of the stored keys. -/
def C95_statement (c : Cfg V) : Prop :=
  ∀ ops : List (Op (List UInt8) V × List UInt8), (∀ o ∈ ops, opKey o.1 ≠ []) →
    ∃ t rs, run c ops (Tree.empty c) = .ok (t, rs) ∧ Count (Needed (final ops)) t.getSubnodes

/-- The bit strings of the nodes. -/
def labels : Node V → List (List Bool)
  | .null => []
  | .node k n _ _ l r => bits k n :: (labels l ++ labels r)

theorem mem_labels : ∀ {t : Node V} {y : List Bool}, y ∈ labels t ↔ ∃ v, Has t y v
  | .null, y => by simp [labels, Has]
  | .node k n d a l r, y => by
    simp only [labels, List.mem_cons, List.mem_append, mem_labels (t := l), mem_labels (t := r), Has]
    constructor
    · rintro (h | ⟨v, h⟩ | ⟨v, h⟩)
      · exact ⟨d, .inl ⟨h, rfl⟩⟩
      · exact ⟨v, .inr (.inl h)⟩
      · exact ⟨v, .inr (.inr h)⟩
    · rintro ⟨v, ⟨h, _⟩ | h | h⟩
      · exact .inl h
      · exact .inr (.inl ⟨v, h⟩)
      · exact .inr (.inr ⟨v, h⟩)

theorem labels_length : ∀ (t : Node V), (labels t).length = t.subNodes
  | .null => rfl
  | .node k n d a l r => by simp [labels, Node.subNodes, labels_length l, labels_length r]

theorem labels_nodup : ∀ {t : Node V} {p : List Bool}, WF p t → (labels t).Nodup
  | .null, _, _ => List.nodup_nil
  | .node k n d a l r, p, hw => by
    obtain ⟨_, _, h3, h4⟩ := hw
    have hl : ∀ y ∈ labels l, bits k n ++ [false] <+: y := fun y hy => by
      obtain ⟨v, h⟩ := mem_labels.1 hy
      exact has_prefix h3 h
    have hr : ∀ y ∈ labels r, bits k n ++ [true] <+: y := fun y hy => by
      obtain ⟨v, h⟩ := mem_labels.1 hy
      exact has_prefix h4 h
    refine List.nodup_cons.2 ⟨fun hm => ?_, List.nodup_append.2 ⟨labels_nodup h3, labels_nodup h4, fun y hy z hz e => ?_⟩⟩
    · rcases List.mem_append.1 hm with h | h
      · exact not_self_prefix (hl _ h)
      · exact not_self_prefix (hr _ h)
    · subst e
      have := prefix_bit (hl _ hy) (hr _ hz)
      simp at this

/-- The nodes of a trie that represents a map. -/
theorem labels_needed {W : Nat} {m : List UInt8 → Option V} {t : Tree V} (hb : Base W t) (hr : Rep c m t) (y : List Bool) :
    y ∈ labels t.root ↔ Needed m y := by
  rw [mem_labels]
  constructor
  · rintro ⟨v, h⟩
    rcases hr.only y v h with h | ⟨k, h1, rfl⟩ | ⟨_, hf, _⟩
    · exact .inl h
    · exact .inr (.inl ⟨k, by simp [h1], rfl⟩)
    · refine .inr (.inr fun b => ?_)
      obtain ⟨z, w, hz, hp⟩ := hf b
      obtain ⟨k, v, h1, h2⟩ := stored_below hb hr hz (fun e => by rw [e] at hp; simp at hp)
      exact ⟨k, by simp [h1], hp.trans h2⟩
  · have stored : ∀ {k}, m k ≠ none → ∃ v, Has t.root (keyBits k) v := fun hk => by
      obtain ⟨v, hv⟩ := Option.ne_none_iff_exists'.1 hk
      exact ⟨v, hr.full _ _ hv⟩
    rintro (rfl | ⟨k, hk, rfl⟩ | hf)
    · exact hb.root
    · exact stored hk
    · obtain ⟨k0, h0, p0⟩ := hf false
      obtain ⟨k1, h1, p1⟩ := hf true
      obtain ⟨v0, g0⟩ := stored h0
      obtain ⟨v1, g1⟩ := stored h1
      exact has_meet hb.wf g0 g1 p0 p1

theorem subnodes_rep {W : Nat} {m : List UInt8 → Option V} {t : Tree V} (hb : Base W t) (hr : Rep c m t) : Count (Needed m) t.getSubnodes :=
  ⟨labels t.root, labels_nodup hb.wf, labels_needed hb hr, labels_length t.root⟩

/-- **C95**, partial, inserts.  With the copy loop bounded by bytes and large enough buffers, after any history of inserts
`getSubnodes()` is the number of nodes of the compressed trie. -/
theorem C95_inserts_partial {W : Nat} (hc : c.bytes = true) (ops : List (Op (List UInt8) V × List UInt8)) (hi : InsertsOnly (ops.map Prod.fst))
    (hf : Fits W ops) : ∃ t rs, run c ops (Tree.empty c) = .ok (t, rs) ∧ Count (Needed (final ops)) t.getSubnodes := by
  obtain ⟨t, rs, e, hb, hr⟩ := inserts_law hc ops _ _ hi hf (base_empty W) rep_empty
  exact ⟨t, rs, e, subnodes_rep hb hr⟩

theorem prefixFree_law {W : Nat} (hc : c.bytes = true) {U : List UInt8 → Prop} (hU : PrefixFree U) :
    ∀ (ops : List (Op (List UInt8) V × List UInt8)) (m : List UInt8 → Option V) (t : Tree V), Fits W ops → (∀ o ∈ ops, U (opKey o.1)) →
    Base W t → Rep c m t → (∀ k, m k ≠ none → U k) →
    ∃ t' rs, run c ops t = .ok (t', rs) ∧ Base W t' ∧ Rep c (MapSpec.run m (ops.map Prod.fst)) t'
  | [], m, t, _, _, hb, hr, _ => ⟨t, [], rfl, hb, hr⟩
  | (.insert k v, pad) :: ops, m, t, hf, hk, hb, hr, hm => by
    obtain ⟨h1, h2, h3⟩ : k ≠ [] ∧ k.length ≤ W ∧ W ≤ (k ++ pad).length := hf (.insert k v, pad) (by simp)
    have hUk : U k := hk (.insert k v, pad) (by simp)
    obtain ⟨t1, w, e1, hb1, hp, _⟩ := insert_base hc hb h1 h2 h3 v
    obtain ⟨t2, rs, e2, hb2, hr2⟩ := prefixFree_law hc hU ops _ t1 (fun o ho => hf o (by simp [ho])) (fun o ho => hk o (by simp [ho])) hb1
      (insert_rep h1 hr hp) (fun k' h => by
        by_cases e : k' = k
        · exact e ▸ hUk
        · exact hm k' (by simpa [step, e] using h))
    exact ⟨t2, w :: rs, by simp [run, exec, e1, e2], hb2, hr2⟩
  | (.erase k, pad) :: ops, m, t, hf, hk, hb, hr, hm => by
    obtain ⟨h1, _, _⟩ : k ≠ [] ∧ k.length ≤ W ∧ W ≤ (k ++ pad).length := hf (.erase k, pad) (by simp)
    have hUk : U k := hk (.erase k, pad) (by simp)
    obtain ⟨t1, w, e1, hb1, g1, g2⟩ := remove_base hb h1 pad
    obtain ⟨_, hr1⟩ := remove_rep hU hm hb hr h1 hUk g1 g2
    obtain ⟨t2, rs, e2, hb2, hr2⟩ := prefixFree_law hc hU ops _ t1 (fun o ho => hf o (by simp [ho])) (fun o ho => hk o (by simp [ho])) hb1 hr1
      (fun k' h => by
        by_cases e : k' = k
        · exact e ▸ hUk
        · exact hm k' (by simpa [step, e] using h))
    exact ⟨t2, w :: rs, by simp [run, exec, e1, e2], hb2, hr2⟩

/-- **C95**, partial, inserts and removes.  If moreover no key is a proper prefix of another, the same holds for all histories:
`remove` frees every node that is no longer needed and no other.  (Missing: the code as written, and keys that are prefixes of
others, where it is false.) -/
theorem C95_partial {W : Nat} (hc : c.bytes = true) (U : List UInt8 → Prop) (hU : PrefixFree U) (ops : List (Op (List UInt8) V × List UInt8))
    (hf : Fits W ops) (hk : ∀ o ∈ ops, U (opKey o.1)) :
    ∃ t rs, run c ops (Tree.empty c) = .ok (t, rs) ∧ Count (Needed (final ops)) t.getSubnodes := by
  obtain ⟨t, rs, e, hb, hr⟩ := prefixFree_law hc hU ops _ _ hf hk (base_empty W) rep_empty (by simp [MapSpec.empty])
  exact ⟨t, rs, e, subnodes_rep hb hr⟩

/-- With the copy loop bounded by bytes: removing `"cpp"` also frees the node of `"c"`. -/
theorem C95_lost (hc : c.bytes = true) (v : V) :
    ∃ t rs, run c [(.insert [0x63] v, [0, 0]), (.insert [0x63, 0x70, 0x70] v, []), (.erase [0x63, 0x70, 0x70], [])] (Tree.empty c) = .ok (t, rs) ∧
      t.getSubnodes = 1 := by
  obtain ⟨tr, j, b⟩ := c
  cases hc
  exact ⟨_, _, rfl, rfl⟩

/-- C95 is false for every value type, for the code as written and with the copy loop bounded by bytes. -/
theorem C95_refuted (c : Cfg V) : ¬ C95_statement c := by
  intro h
  cases hc : c.bytes with
  | false =>
    obtain ⟨t, rs, e, _⟩ := h [(.insert [0x61] c.junk, [])] (by simp [opKey])
    have := C65_overrun hc [0x61] [] (by simp) c.junk
    simp only [List.append_nil, List.length_singleton] at this
    simp [run, exec, this] at e
  | true =>
    obtain ⟨t, rs, e, ys, _, h2, h3⟩ := h [(.insert [0x63] c.junk, [0, 0]), (.insert [0x63, 0x70, 0x70] c.junk, []), (.erase [0x63, 0x70, 0x70], [])]
      (by simp [opKey])
    obtain ⟨t', rs', e', h4⟩ := C95_lost hc c.junk
    rw [e] at e'
    cases e'
    rw [h4] at h3
    obtain ⟨y, rfl⟩ := List.length_eq_one_iff.1 h3
    have a := (h2 []).2 (.inl rfl)
    have b := (h2 (keyBits [0x63])).2 (.inr (.inl ⟨[0x63], by simp [final, MapSpec.run, step], rfl⟩))
    rw [List.mem_singleton] at a b
    rw [← a] at b
    exact keyBits_ne (by simp) b

/-! ### Bounds by the number of keys -/

open Classical in
/-- A tree whose nodes without `P` have two children has fewer nodes than twice the nodes with `P`. -/
theorem labels_bound {P : List Bool → Prop} : ∀ {t : Node V} {p : List Bool}, WF p t → (∀ y ∈ labels t, P y ∨ Fork t y) → t ≠ .null →
    (labels t).length + 1 ≤ 2 * ((labels t).filter fun y => P y).length
  | .null, _, _, _, h => (h rfl).elim
  | .node k n d a l r, p, hw, hy, _ => by
    have hw' := hw
    obtain ⟨_, _, h3, h4⟩ := hw
    have sub : ∀ b y, y ∈ labels (kid l r b) → P y ∨ Fork (kid l r b) y := fun b y hm => by
      obtain ⟨v, hv⟩ := mem_labels.1 hm
      have hpre : bits k n ++ [b] <+: y := has_prefix (by cases b; exact h3; exact h4) hv
      rcases hy y (mem_labels.2 ⟨v, has_node.2 (.inr ⟨b, hv⟩)⟩) with h | h
      · exact .inl h
      · refine .inr fun b' => ?_
        obtain ⟨z, w, hz, hp⟩ := h b'
        exact ⟨z, w, (has_kid hw' (hpre.trans ((List.prefix_append _ _).trans hp))).1 hz, hp⟩
    have il := fun h => labels_bound h3 (sub false) h
    have ir := fun h => labels_bound h4 (sub true) h
    have top := hy (bits k n) (by simp [labels])
    have nul : labels (Node.null : Node V) = [] := rfl
    have both : Fork (.node k n d a l r) (bits k n) → l ≠ .null ∧ r ≠ .null := fun hf => by
      obtain ⟨y0, w0, g0, q0⟩ := hf false
      obtain ⟨y1, w1, g1, q1⟩ := hf true
      have i0 := (has_kid hw' q0).1 g0
      have i1 := (has_kid hw' q1).1 g1
      exact ⟨fun e => by rw [e] at i0; exact i0, fun e => by rw [e] at i1; exact i1⟩
    simp only [labels, List.length_cons, List.length_append, List.filter_cons, List.filter_append]
    by_cases hP : P (bits k n)
    · simp only [hP, decide_true, if_true, List.length_cons, List.length_append]
      by_cases e0 : l = .null <;> by_cases e1 : r = .null
      · simp [e0, e1, nul]
      · have := ir e1; simp only [e0, nul, List.length_nil, List.filter_nil]; omega
      · have := il e0; simp only [e1, nul, List.length_nil, List.filter_nil]; omega
      · have := ir e1; have := il e0; omega
    · have hf := (top.resolve_left hP)
      obtain ⟨e0, e1⟩ := both hf
      have := ir e1; have := il e0
      simp only [hP, decide_false, Bool.false_eq_true, if_false, List.length_append]
      omega

open Classical in
/-- **C95**, consequence: with `d` > 0 stored keys there are more than `d` and at most `2 d` nodes; an empty trie has the root only. -/
theorem subnodes_bound {W : Nat} {m : List UInt8 → Option V} {t : Tree V} (hb : Base W t) (hr : Rep c m t) {d : Nat} (hd : Card m d) :
    d + 1 ≤ t.getSubnodes ∧ t.getSubnodes ≤ max 1 (2 * d) := by
  obtain ⟨ks, k1, k2, rfl⟩ := hd
  have nd := labels_nodup hb.wf
  have hn : ∀ k ∈ ks, k ≠ [] := fun k hk e => by
    have := (k2 k).1 hk
    rw [e] at this
    exact this hr.nil
  have hlen : (ks.map keyBits).length = ks.length := by simp
  have ndk : (ks.map keyBits).Nodup := List.Pairwise.map keyBits (fun a b hab e => hab (keyBits_inj e)) k1
  unfold Tree.getSubnodes
  rw [← labels_length]
  constructor
  · have : ([] :: ks.map keyBits).Nodup := List.nodup_cons.2 ⟨fun h => by
      obtain ⟨k, hk, e⟩ := List.mem_map.1 h
      exact keyBits_ne (hn k hk) e, ndk⟩
    have := (this.subperm (l₂ := labels t.root) fun y hy => by
      rw [labels_needed hb hr]
      rcases List.mem_cons.1 hy with rfl | hy
      · exact .inl rfl
      · obtain ⟨k, hk, e⟩ := List.mem_map.1 hy
        exact .inr (.inl ⟨k, (k2 k).1 hk, e⟩)).length_le
    simpa using this
  · -- the nodes below the root
    obtain ⟨P, PP⟩ : ∃ P : List Bool → Prop, ∀ y, P y ↔ y ∈ ks.map keyBits := ⟨_, fun _ => Iff.rfl⟩
    have hP : ∀ ys : List (List Bool), ys.Nodup → (ys.filter fun y => P y).length ≤ ks.length := fun ys hys => by
      have hq : (ys.filter fun y => P y).Nodup := hys.filter _
      have := (hq.subperm (l₂ := ks.map keyBits) fun y hy => (PP y).1 (by simpa using (List.mem_filter.1 hy).2)).length_le
      rwa [hlen] at this
    have hone := hP _ nd
    have hw := hb.wf
    have hneed := labels_needed hb hr
    have hroot := hb.root
    have honly := hr.only
    revert hone hw hneed hroot honly
    cases t.root with
    | null => intro _ _ _ hroot; exact hroot.elim fun _ h => h.elim
    | node k n dd a l r =>
      intro hone hw hneed hroot honly
      have hw' := hw
      obtain ⟨_, _, h3, h4⟩ := hw
      have e0 : bits k n = [] := by
        obtain ⟨u, hu⟩ := hroot
        rcases hu with ⟨e, _⟩ | h | h
        · exact e.symm
        · have := has_prefix h3 h; simp at this
        · have := has_prefix h4 h; simp at this
      have sub : ∀ b y, y ∈ labels (kid l r b) → P y ∨ Fork (kid l r b) y := fun b y hm => by
        obtain ⟨v, hv⟩ := mem_labels.1 hm
        have hpre : bits k n ++ [b] <+: y := has_prefix (by cases b; exact h3; exact h4) hv
        rcases honly y v (has_node.2 (.inr ⟨b, hv⟩)) with h | ⟨k', h, e⟩ | ⟨_, h, _⟩
        · subst h; simp at hpre
        · exact .inl ((PP y).2 (List.mem_map.2 ⟨k', (k2 k').2 (by simp [h]), e.symm⟩))
        · refine .inr fun b' => ?_
          obtain ⟨z, w, hz, hp⟩ := h b'
          exact ⟨z, w, (has_kid hw' (hpre.trans ((List.prefix_append _ _).trans hp))).1 hz, hp⟩
      have il := fun h => labels_bound h3 (sub false) h
      have ir := fun h => labels_bound h4 (sub true) h
      have nul : labels (Node.null : Node V) = [] := rfl
      simp only [labels, List.length_cons, List.length_append, List.filter_cons, List.filter_append] at hone ⊢
      have hge : ((labels l).filter fun y => P y).length + ((labels r).filter fun y => P y).length ≤ ks.length := by
        split at hone
        · simp only [List.length_cons, List.length_append] at hone; omega
        · simpa using hone
      by_cases q0 : l = .null <;> by_cases q1 : r = .null
      · simp only [q0, q1, nul, List.length_nil]; omega
      · have := ir q1; simp only [q0, nul, List.length_nil, List.filter_nil] at hge ⊢; omega
      · have := il q0; simp only [q1, nul, List.length_nil, List.filter_nil] at hge ⊢; omega
      · have := ir q1; have := il q0; omega

/-- **C95**, bounds: with `d` > 0 keys stored by inserts, `getSubnodes()` is between `d + 1` and `2 d`; without keys it is 1. -/
theorem C95_bounds_partial {W : Nat} (hc : c.bytes = true) (ops : List (Op (List UInt8) V × List UInt8)) (hi : InsertsOnly (ops.map Prod.fst))
    (hf : Fits W ops) : ∃ t rs, run c ops (Tree.empty c) = .ok (t, rs) ∧
      ∀ d, Card (final ops) d → d + 1 ≤ t.getSubnodes ∧ t.getSubnodes ≤ max 1 (2 * d) := by
  obtain ⟨t, rs, e, hb, hr⟩ := inserts_law hc ops _ _ hi hf (base_empty W) rep_empty
  exact ⟨t, rs, e, fun d hd => subnodes_bound hb hr hd⟩

/-- Non-triviality: four keys, one a prefix of another, with one additional branching point (three keys start with bits 0110). -/
example : let c : Cfg Int := ⟨fun v => decide (v ≠ 0), 0, true⟩
    let ops : List (Op (List UInt8) Int × List UInt8) := [(.insert [106, 97, 118, 97] 34, []), (.insert [99] 2, [0, 1, 2]), (.insert [99, 112, 112] 300, [7]),
      (.insert [99] 3, [112, 112, 112])]
    (run c ops (Tree.empty c) >>= fun r => .ok r.1.getSubnodes) = .ok 5 ∧ Fits 4 ops := by
  refine ⟨rfl, ?_⟩
  intro o ho; simp at ho; rcases ho with rfl | rfl | rfl | rfl <;> simp [opKey]

/-- Non-triviality of `C95_partial`: keys of two bytes with removes; two keys with a common first byte remain: root, branching point, two keys. -/
example : let c : Cfg Int := ⟨fun v => decide (v ≠ 0), 0, true⟩
    let ops : List (Op (List UInt8) Int × List UInt8) := [(.insert [1, 2] 5, []), (.insert [1, 130] 7, []), (.insert [3, 3] 8, []), (.erase [1, 2], []),
      (.erase [3, 3], []), (.insert [1, 2] 9, [])]
    (run c ops (Tree.empty c) >>= fun r => .ok r.1.getSubnodes) = .ok 4 ∧ Fits 2 ops ∧ (∀ o ∈ ops, (opKey o.1).length = 2) := by
  refine ⟨rfl, ?_, ?_⟩
  · intro o ho; simp at ho; rcases ho with rfl | rfl | rfl | rfl | rfl | rfl <;> simp [opKey]
  · intro o ho; simp at ho; rcases ho with rfl | rfl | rfl | rfl | rfl | rfl <;> simp [opKey]

end Verif.Patricia
