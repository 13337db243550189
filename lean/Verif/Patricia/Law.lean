import Verif.Patricia.Bits

/-!
# The set of nodes of a Patricia trie

`Has t q v`: the subtree `t` has a node with the bit string `q` and the value `v`.  Lookup, insert and
remove are described by what they do to this set.
-/

namespace Verif.Patricia

open Verif

variable {V : Type} {c : Cfg V}

/-- The subtree has a node with key `q` and value `v`. -/
def Has : Node V → List Bool → V → Prop
  | .null, _, _ => False
  | .node k n d _ l r, q, v => (q = bits k n ∧ v = d) ∨ Has l q v ∨ Has r q v

/-- Every node lies where its key leads; `p` is the bit string common to all keys of the subtree. -/
def WF : List Bool → Node V → Prop
  | _, .null => True
  | p, .node k n _ _ l r => p <+: bits k n ∧ n ≤ 8 * k.length ∧ WF (bits k n ++ [false]) l ∧ WF (bits k n ++ [true]) r

/-- `link[b]` -/
def kid (l r : Node V) (b : Bool) : Node V := if b then r else l

/-- The node with key `q` has a node below each of its links. -/
def Fork (t : Node V) (q : List Bool) : Prop := ∀ b, ∃ y w, Has t y w ∧ q ++ [b] <+: y

theorem has_node {k : List UInt8} {n : Nat} {d : V} {a : Bool} {l r : Node V} {q : List Bool} {v : V} :
    Has (.node k n d a l r) q v ↔ (q = bits k n ∧ v = d) ∨ ∃ b, Has (kid l r b) q v := by
  constructor
  · rintro (h | h | h)
    · exact .inl h
    · exact .inr ⟨false, h⟩
    · exact .inr ⟨true, h⟩
  · rintro (h | ⟨b, h⟩)
    · exact .inl h
    · cases b
      · exact .inr (.inl h)
      · exact .inr (.inr h)

theorem wf_node {p : List Bool} {k : List UInt8} {n : Nat} {d : V} {a : Bool} {l r : Node V} :
    WF p (.node k n d a l r) ↔ p <+: bits k n ∧ n ≤ 8 * k.length ∧ ∀ b, WF (bits k n ++ [b]) (kid l r b) := by
  constructor
  · rintro ⟨h1, h2, h3, h4⟩
    exact ⟨h1, h2, fun b => by cases b; exact h3; exact h4⟩
  · rintro ⟨h1, h2, h⟩
    exact ⟨h1, h2, h false, h true⟩

theorem has_prefix : ∀ {t : Node V} {p q : List Bool} {v : V}, WF p t → Has t q v → p <+: q
  | .null, _, _, _, _, h => h.elim
  | .node k n d a l r, p, q, v, hw, h => by
    obtain ⟨h1, h2, h3, h4⟩ := hw
    rcases h with ⟨rfl, _⟩ | h | h
    · exact h1
    · exact h1.trans ((List.prefix_append _ _).trans (has_prefix h3 h))
    · exact h1.trans ((List.prefix_append _ _).trans (has_prefix h4 h))

theorem prefix_bit {x y : List Bool} {b b' : Bool} (h : x ++ [b] <+: y) (h' : x ++ [b'] <+: y) : b = b' := by
  have := List.prefix_of_prefix_length_le h h' (by simp)
  rw [List.prefix_append_right_inj] at this
  simpa using this

theorem not_self_prefix {x : List Bool} {b : Bool} : ¬ x ++ [b] <+: x := fun h => by
  have := h.length_le
  simp at this
  omega

theorem wf_weaken : ∀ {t : Node V} {p p' : List Bool}, p' <+: p → WF p t → WF p' t
  | .null, _, _, _, _ => trivial
  | .node .., _, _, h, ⟨h1, h2⟩ => ⟨h.trans h1, h2⟩

theorem has_kid {p : List Bool} {k : List UInt8} {n : Nat} {d : V} {a : Bool} {l r : Node V} {q : List Bool} {v : V} {b : Bool}
    (hw : WF p (.node k n d a l r)) (hq : bits k n ++ [b] <+: q) :
    Has (.node k n d a l r) q v ↔ Has (kid l r b) q v := by
  obtain ⟨h1, h2, h3⟩ := wf_node.1 hw
  rw [has_node]
  constructor
  · rintro (⟨rfl, _⟩ | ⟨b', h⟩)
    · exact (not_self_prefix hq).elim
    · rwa [prefix_bit hq (has_prefix (h3 b') h)]
  · exact fun h => .inr ⟨b, h⟩

theorem has_top {p : List Bool} {k : List UInt8} {n : Nat} {d : V} {a : Bool} {l r : Node V} {v : V}
    (hw : WF p (.node k n d a l r)) : Has (.node k n d a l r) (bits k n) v ↔ v = d := by
  obtain ⟨h1, h2, h3⟩ := wf_node.1 hw
  rw [has_node]
  constructor
  · rintro (⟨_, h⟩ | ⟨b', h⟩)
    · exact h
    · exact (not_self_prefix (has_prefix (h3 b') h)).elim
  · exact fun h => .inl ⟨rfl, h⟩

theorem has_unique : ∀ {t : Node V} {p q : List Bool} {v v' : V}, WF p t → Has t q v → Has t q v' → v = v'
  | .null, _, _, _, _, _, h, _ => h.elim
  | .node k n d a l r, p, q, v, v', hw, h, h' => by
    obtain ⟨h1, h2, h3⟩ := wf_node.1 hw
    rcases has_node.1 h with ⟨rfl, rfl⟩ | ⟨b, hb⟩
    · exact ((has_top hw).1 h').symm
    · have hq := has_prefix (h3 b) hb
      have hb' := (has_kid hw hq).1 h'
      cases b
      · exact has_unique (h3 false) hb hb'
      · exact has_unique (h3 true) hb hb'

/-- A subtree that is not empty has a node. -/
theorem has_some {t : Node V} (h : t ≠ .null) : ∃ q v, Has t q v := by
  cases t with
  | null => exact (h rfl).elim
  | node k n d a l r => exact ⟨bits k n, d, .inl ⟨rfl, rfl⟩⟩

theorem fork_top {p : List Bool} {k : List UInt8} {n : Nat} {d : V} {a : Bool} {l r : Node V}
    (hw : WF p (.node k n d a l r)) : Fork (.node k n d a l r) (bits k n) ↔ ∀ b, kid l r b ≠ .null := by
  obtain ⟨h1, h2, h3⟩ := wf_node.1 hw
  constructor
  · intro h b e
    obtain ⟨y, w, hy, hp⟩ := h b
    have := (has_kid hw hp).1 hy
    rw [e] at this
    exact this
  · intro h b
    obtain ⟨y, w, hy⟩ := has_some (h b)
    have hp := has_prefix (h3 b) hy
    exact ⟨y, w, (has_kid hw hp).2 hy, hp⟩

theorem fork_kid {p : List Bool} {k : List UInt8} {n : Nat} {d : V} {a : Bool} {l r : Node V} {q : List Bool} {b : Bool}
    (hw : WF p (.node k n d a l r)) (hq : bits k n ++ [b] <+: q) : Fork (.node k n d a l r) q ↔ Fork (kid l r b) q := by
  constructor
  · intro h b'
    obtain ⟨y, w, hy, hp⟩ := h b'
    exact ⟨y, w, (has_kid hw (hq.trans ((List.prefix_append _ _).trans hp))).1 hy, hp⟩
  · intro h b'
    obtain ⟨y, w, hy, hp⟩ := h b'
    exact ⟨y, w, (has_kid hw (hq.trans ((List.prefix_append _ _).trans hp))).2 hy, hp⟩

/-! ### Lookup -/

section
variable {buf : List UInt8} {len : Nat}

theorem bits_bit {K : List UInt8} {n len : Nat} (h : n < len) : bits K n ++ [bitAt K n] <+: bits K len := by
  rw [← bits_succ, bits_prefix]
  exact ⟨h, rfl⟩

/-- The loop of `lookup` finds the node with the given bit string. -/
theorem find_law (hb : len ≤ 8 * buf.length) : ∀ {t : Node V} {p : List Bool}, WF p t →
    ∃ r, find buf len t = .ok r ∧ ∀ v, r = some v ↔ Has t (bits buf len) v
  | .null, _, _ => ⟨none, rfl, fun v => by simp [Has]⟩
  | .node k n d a l r, p, hw => by
    obtain ⟨h1, h2, h3⟩ := wf_node.1 hw
    rw [find]
    by_cases c1 : n ≤ len
    · simp only [c1, if_true]
      by_cases c2 : n = len
      · subst c2
        simp only [if_true, matchKey_ok h2 hb, Res.ok_bind, Nat.le_refl]
        by_cases c3 : bits k n = bits buf n
        · refine ⟨some d, by simp [c3], fun v => ?_⟩
          rw [← c3, has_top hw]
          simp [eq_comm]
        · refine ⟨none, by simp [c3], fun v => ⟨by simp, fun h => ?_⟩⟩
          have := has_prefix (p := bits k n) (t := .node k n d a l r) (wf_node.2 ⟨List.prefix_rfl, h2, h3⟩) h
          exact (c3 (bits_prefix.1 this).2).elim
      · have c4 : ¬ len ≤ n := by omega
        simp only [c2, if_false, Res.pure_eq, Res.ok_bind, c4, checkBit_ok (K := buf) (L := n) (by omega), Bool.false_eq_true]
        have key : ∀ v, Has (.node k n d a l r) (bits buf len) v ↔ Has (kid l r (bitAt buf n)) (bits buf len) v := by
          intro v
          by_cases c3 : bits k n = bits buf n
          · exact has_kid hw (by rw [c3]; exact bits_bit (by omega))
          · have hw' : WF (bits k n) (.node k n d a l r) := wf_node.2 ⟨List.prefix_rfl, h2, h3⟩
            constructor
            · exact fun h => (c3 (bits_prefix.1 (has_prefix hw' h)).2).elim
            · exact fun h => has_node.2 (.inr ⟨_, h⟩)
        simp only [key]
        cases hbit : bitAt buf n
        · simpa [kid] using find_law hb (h3 false)
        · simpa [kid] using find_law hb (h3 true)
    · simp only [c1, if_false]
      refine ⟨none, rfl, fun v => ⟨by simp, fun h => ?_⟩⟩
      have := has_prefix (p := bits k n) (t := .node k n d a l r) (wf_node.2 ⟨List.prefix_rfl, h2, h3⟩) h
      exact (c1 (bits_prefix.1 this).1).elim

end

/-! ### Insert -/

theorem kid_setLink {k : List UInt8} {n : Nat} {d : V} {a : Bool} {l r x : Node V} {b : Bool} :
    ∃ l' r', (Node.node k n d a l r).setLink b x = .node k n d a l' r' ∧ kid l' r' b = x ∧ kid l' r' (!b) = kid l r (!b) := by
  cases b
  · exact ⟨x, r, rfl, rfl, rfl⟩
  · exact ⟨l, x, rfl, rfl, rfl⟩

/-- Writing a link: the nodes below that link are exchanged. -/
theorem setLink_law {p : List Bool} {k : List UInt8} {n : Nat} {d : V} {a : Bool} {l r x : Node V} {b : Bool}
    (hw : WF p (.node k n d a l r)) (hx : WF (bits k n ++ [b]) x) :
    WF p ((Node.node k n d a l r).setLink b x) ∧ ∀ y w, Has ((Node.node k n d a l r).setLink b x) y w ↔
      Has x y w ∨ (Has (.node k n d a l r) y w ∧ ¬ bits k n ++ [b] <+: y) := by
  obtain ⟨h1, h2, h3⟩ := wf_node.1 hw
  obtain ⟨l', r', e, e1, e2⟩ := kid_setLink (k := k) (n := n) (d := d) (a := a) (l := l) (r := r) (x := x) (b := b)
  rw [e]
  have hw' : WF p (.node k n d a l' r') := wf_node.2 ⟨h1, h2, fun b' => by
    by_cases hb : b' = b
    · subst hb; rwa [e1]
    · rw [show b' = !b by cases b <;> cases b' <;> simp_all, e2]; exact h3 _⟩
  refine ⟨hw', fun y w => ?_⟩
  by_cases hy : bits k n ++ [b] <+: y
  · rw [has_kid hw' hy, e1]; simp [hy]
  · have hxy : ¬ Has x y w := fun h => hy (has_prefix hx h)
    simp only [hxy, hy, not_false_iff, and_true, false_or]
    rw [has_node, has_node]
    have : ∀ (l r : Node V), (∀ b, WF (bits k n ++ [b]) (kid l r b)) → ((∃ b', Has (kid l r b') y w) ↔ Has (kid l r (!b)) y w) := by
      intro l r h
      constructor
      · rintro ⟨b', hb'⟩
        by_cases hb : b' = b
        · subst hb; exact (hy (has_prefix (h _) hb')).elim
        · rwa [show b' = !b by cases b <;> cases b' <;> simp_all] at hb'
      · exact fun h => ⟨_, h⟩
    rw [this l' r' (wf_node.1 hw').2.2, this l r h3, e2]

/-- `setChild` puts the child below the link its key leads to. -/
theorem setChild_ok {k k' : List UInt8} {n n' : Nat} {d d' : V} {a a' : Bool} {l r l' r' : Node V} (h : n < n')
    (h' : n' ≤ 8 * k'.length) : (Node.node k n d a l r).setChild (.node k' n' d' a' l' r') =
      .ok ((Node.node k n d a l r).setLink (bitAt k' n) (.node k' n' d' a' l' r')) := by
  simp only [Node.setChild, checkBit_ok (K := k') (L := n) (by omega), Res.ok_bind, Res.pure_eq]

/-- A node that `insert` of the bit string `q` adds besides the one for `q`: it separates `q` from a key of `t`. -/
def NewFork (c : Cfg V) (t : Node V) (q y : List Bool) (w : V) : Prop :=
  w = c.junk ∧ y ≠ q ∧ (∀ d, ¬ Has t y d) ∧ ∃ b z u, Has t z u ∧ y ++ [!b] <+: z ∧ y ++ [b] <+: q

theorem not_of_ne {a b : Bool} (h : a ≠ b) : (!b) = a := by cases a <;> cases b <;> simp_all

/-- `branchNode(a, b)` for a new node `b`. -/
theorem branchNode_law (hc : c.bytes = true) {p : List Bool} {ka kb : List UInt8} {na nb : Nat} {da v : V} {aa ab : Bool} {la ra : Node V}
    (hw : WF p (.node ka na da aa la ra)) (hb : nb ≤ 8 * kb.length) (hp : p <+: bits kb nb)
    (hpos : p = [] → bits ka na <+: bits kb nb)
    (hne : bits ka na ≠ bits kb nb) (hnull : bits ka na <+: bits kb nb → kid la ra (bitAt kb na) = .null) :
    ∃ x, branchNode c (.node ka na da aa la ra) (.node kb nb v ab .null .null) = .ok x ∧ x ≠ .null ∧ WF p x ∧
      Has x (bits kb nb) v ∧ (∀ y w, Has (.node ka na da aa la ra) y w → Has x y w) ∧
      ∀ y w, Has x y w → Has (.node ka na da aa la ra) y w ∨ (y = bits kb nb ∧ w = v) ∨
        NewFork c (.node ka na da aa la ra) (bits kb nb) y w := by
  obtain ⟨h1, h2, h3⟩ := wf_node.1 hw
  have hwb : ∀ p', p' <+: bits kb nb → WF p' (.node kb nb v ab .null .null) := fun p' h => ⟨h, hb, trivial, trivial⟩
  have hhb : ∀ y w, Has (.node kb nb v ab .null .null) y w ↔ y = bits kb nb ∧ w = v := fun y w => by simp [Has]
  obtain ⟨len, e, hl, hs, hd⟩ := diff_ok (a := ka) (b := kb) (m := if na < nb then na else nb) (by split <;> omega) (by split <;> omega)
  have hla : len ≤ na := by split at hl <;> omega
  have hlb : len ≤ nb := by split at hl <;> omega
  have hla' : len = na → bits ka na <+: bits kb nb := fun e => by subst e; exact bits_prefix.2 ⟨hlb, hs⟩
  have hlb' : len = nb → bits kb nb <+: bits ka na := fun e => by subst e; exact bits_prefix.2 ⟨hla, hs.symm⟩
  have hnn : ¬ (len = na ∧ len = nb) := fun ⟨e1, e2⟩ => hne (by rw [← e1, ← e2]; exact hs)
  simp only [branchNode]
  rw [← Res.bind_assoc', e]
  simp only [Res.ok_bind, Res.assert_pos (show len ≠ na ∨ len ≠ nb by omega)]
  by_cases c1 : len = na ∨ len = nb
  · simp only [c1, if_true]
    by_cases c2 : na < nb
    · simp only [c2, if_true]
      have e1 : len = na := by rcases c1 with h | h <;> omega
      have hpre := hla' e1
      rw [setChild_ok c2 hb]
      obtain ⟨q1, q2⟩ := setLink_law (b := bitAt kb na) hw (hwb _ (by
        rw [(bits_prefix.1 hpre).2]; exact bits_bit c2))
      refine ⟨_, rfl, by cases bitAt kb na <;> simp [Node.setLink], q1, (q2 _ _).2 (.inl ((hhb _ _).2 ⟨rfl, rfl⟩)), fun y w h => ?_, fun y w h => ?_⟩
      · refine (q2 _ _).2 (.inr ⟨h, fun hy => ?_⟩)
        have := (has_kid hw hy).1 h
        rw [hnull hpre] at this
        exact this
      · rcases (q2 _ _).1 h with h | h
        · exact .inr (.inl ((hhb _ _).1 h))
        · exact .inl h.1
    · simp only [c2, if_false]
      have e1 : len = nb := by rcases c1 with h | h <;> omega
      have c3 : nb < na := by omega
      have hpre := hlb' e1
      rw [setChild_ok c3 h2]
      obtain ⟨q1, q2⟩ := setLink_law (b := bitAt ka nb) (x := .node ka na da aa la ra) (hwb p hp) (wf_node.2 ⟨by
        rw [(bits_prefix.1 hpre).2]; exact bits_bit c3, h2, h3⟩)
      refine ⟨_, rfl, by cases bitAt ka nb <;> simp [Node.setLink], q1, (q2 _ _).2 (.inr ⟨(hhb _ _).2 ⟨rfl, rfl⟩, not_self_prefix⟩),
        fun y w h => (q2 _ _).2 (.inl h), fun y w h => ?_⟩
      rcases (q2 _ _).1 h with h | h
      · exact .inl h
      · exact .inr (.inl ((hhb _ _).1 h.1))
  · simp only [c1, if_false]
    have ca : len < na := by omega
    have cb : len < nb := by omega
    have cd := hd (by split <;> omega)
    have pa : p = bits ka p.length := by
      have hl := h1.length_le
      rw [bits_length] at hl
      rw [← bits_take ka hl]; exact List.prefix_iff_eq_take.1 h1
    have pb : p = bits kb p.length := by
      have hl := hp.length_le
      rw [bits_length] at hl
      rw [← bits_take kb hl]; exact List.prefix_iff_eq_take.1 hp
    have hpl : p.length ≤ len := by
      by_contra hcon
      exact cd (bits_eq.1 (pa.symm.trans pb) len (by omega))
    have hlen : 0 < len := by
      rcases Nat.eq_zero_or_pos p.length with h | h
      · have := (bits_prefix.1 (hpos (List.length_eq_zero_iff.1 h))).2
        exact absurd (bits_eq.1 this len ca) cd
      · omega
    obtain ⟨kx, ex, lx, bx⟩ := newNode_ok hc (src := ka) hlen (by omega)
    have hwx : WF p (.node kx len c.junk false .null .null) := by
      refine ⟨?_, by rw [lx, octets]; omega, trivial, trivial⟩
      rw [bx, pa, bits_prefix]
      exact ⟨hpl, rfl⟩
    rw [ex, Res.ok_bind, setChild_ok ca h2, Res.ok_bind]
    obtain ⟨q1, q2⟩ := setLink_law (b := bitAt ka len) (x := .node ka na da aa la ra) hwx (wf_node.2 ⟨by
      rw [bx]; exact bits_bit ca, h2, h3⟩)
    obtain ⟨l', r', e', _, _⟩ := kid_setLink (k := kx) (n := len) (d := c.junk) (a := false) (l := .null) (r := .null)
      (x := Node.node ka na da aa la ra) (b := bitAt ka len)
    rw [e'] at q1 q2 ⊢
    rw [setChild_ok cb hb]
    obtain ⟨q3, q4⟩ := setLink_law (b := bitAt kb len) (x := .node kb nb v ab .null .null) q1 (hwb _ (by
      rw [bx, hs]; exact bits_bit cb))
    have fa : bits kx len ++ [bitAt ka len] <+: bits ka na := by rw [bx]; exact bits_bit ca
    have fb : bits kx len ++ [bitAt kb len] <+: bits kb nb := by rw [bx, hs]; exact bits_bit cb
    have hwa : WF (bits ka na) (.node ka na da aa la ra) := wf_node.2 ⟨List.prefix_rfl, h2, h3⟩
    refine ⟨_, rfl, by cases bitAt kb len <;> simp [Node.setLink], q3, (q4 _ _).2 (.inl ((hhb _ _).2 ⟨rfl, rfl⟩)), fun y w h => ?_, fun y w h => ?_⟩
    · exact (q4 _ _).2 (.inr ⟨(q2 _ _).2 (.inl h), fun hy => cd (prefix_bit (fa.trans (has_prefix hwa h)) hy)⟩)
    · rcases (q4 _ _).1 h with h | ⟨h, _⟩
      · exact .inr (.inl ((hhb _ _).1 h))
      · rcases (q2 _ _).1 h with h | ⟨h, _⟩
        · exact .inl h
        · have : y = bits kx len ∧ w = c.junk := by simpa [Has] using h
          obtain ⟨rfl, rfl⟩ := this
          refine .inr (.inr ⟨rfl, fun hh => ?_, fun d hd' => ?_, bitAt kb len, bits ka na, da, .inl ⟨rfl, rfl⟩, ?_, fb⟩)
          · rw [← hh] at fb; exact not_self_prefix fb
          · exact not_self_prefix (fa.trans (has_prefix hwa hd'))
          · rwa [not_of_ne cd]

/-- What `insert` of the bit string `q` with value `v` does to a subtree; `w` is the result of `insert`. -/
structure InsPost (c : Cfg V) (q : List Bool) (v : V) (p : List Bool) (t t' : Node V) (w : Bool) : Prop where
  ne : t' ≠ .null
  wf : WF p t'
  res : w = true ↔ ¬ ∃ d, Has t q d ∧ c.truthy d = true
  new : Has t' q v
  old : ∀ y u, Has t y u → y ≠ q → Has t' y u
  only : ∀ y u, Has t' y u → (y = q ∧ u = v) ∨ (y ≠ q ∧ Has t y u) ∨ NewFork c t q y u

section
variable {buf : List UInt8} {len : Nat} {v : V}

/-- The insertion at the branch point. -/
theorem insAt_law (hc : c.bytes = true) (hb : len ≤ 8 * buf.length) (hpos : 0 < len) {p : List Bool} {k : List UInt8} {n : Nat} {d : V} {a : Bool}
    {l r : Node V} (hw : WF p (.node k n d a l r)) (hp : p <+: bits buf len) (hroot : p = [] → bits k n <+: bits buf len)
    (hnull : n < len → bits k n <+: bits buf len → kid l r (bitAt buf n) = .null) :
    ∃ t' w, (insAt c buf len v (.node k n d a l r) = .ok (.inPlace t' w) ∨ insAt c buf len v (.node k n d a l r) = .ok (.branch t' w)) ∧
      InsPost c (bits buf len) v p (.node k n d a l r) t' w := by
  obtain ⟨h1, h2, h3⟩ := wf_node.1 hw
  have hit : (if n = len then matchKey k buf n else pure false : Res Bool) = .ok (decide (bits k n = bits buf len)) := by
    split
    · rename_i e
      subst e
      exact matchKey_ok h2 hb
    · rename_i e
      have : bits k n ≠ bits buf len := fun h => e (by simpa using congrArg List.length h)
      simp [this]
  simp only [insAt, hit, Res.ok_bind, decide_eq_true_eq]
  by_cases c1 : bits k n = bits buf len
  · simp only [c1, if_true, Res.pure_eq]
    have hw' : WF p (.node k n v a l r) := hw
    refine ⟨_, _, .inl rfl, by simp, hw', ?_, ?_, fun y u h hy => ?_, fun y u h => ?_⟩
    · rw [← c1]
      simp only [has_top hw]
      cases ht : c.truthy d <;> simp [ht]
    · rw [← c1, has_top hw']
    · rcases has_node.1 h with ⟨rfl, _⟩ | h
      · exact (hy c1).elim
      · exact has_node.2 (.inr h)
    · by_cases hy : y = bits buf len
      · subst hy
        rw [← c1, has_top hw'] at h
        exact .inl ⟨rfl, h⟩
      · rcases has_node.1 h with ⟨rfl, _⟩ | h
        · exact (hy c1).elim
        · exact .inr (.inl ⟨hy, has_node.2 (.inr h)⟩)
  · simp only [c1, if_false]
    obtain ⟨kt, et, lt, bt⟩ := newNode_ok hc (src := buf) hpos hb
    have hkt : len ≤ 8 * kt.length := by rw [lt, octets]; omega
    rw [et]
    simp only [Res.ok_bind]
    have hlt : bits k n <+: bits buf len → n < len := fun h => by
      rcases Nat.lt_or_ge n len with hh | hh
      · exact hh
      · exact absurd (h.eq_of_length (by have := h.length_le; simp at this ⊢; omega)) c1
    obtain ⟨x, ex, hx, q1, q2, q3, q4⟩ := branchNode_law (kb := kt) (nb := len) (v := v) (ab := false) hc hw hkt (by rwa [bt])
      (by rwa [bt]) (by rwa [bt]) (by
        rw [bt]
        intro h
        rw [bits_eq.1 bt n (hlt h)]
        exact hnull (hlt h) h)
    rw [bt] at q2 q4
    have hno : ∀ u, ¬ Has (.node k n d a l r) (bits buf len) u := fun u h => by
      by_cases hh : bits k n <+: bits buf len
      · have hk : bits k n ++ [bitAt buf n] <+: bits buf len := by
          rw [(bits_prefix.1 hh).2]; exact bits_bit (hlt hh)
        have := (has_kid hw hk).1 h
        rw [hnull (hlt hh) hh] at this
        exact this
      · exact hh (has_prefix (wf_node.2 ⟨List.prefix_rfl, h2, h3⟩) h)
    refine ⟨x, true, .inr ?_, hx, q1, ?_, q2, fun y u h _ => q3 y u h, fun y u h => ?_⟩
    · rw [ex]; rfl
    · simp only [true_iff]
      rintro ⟨u, hu, _⟩
      exact hno u hu
    · rcases q4 y u h with h | h | h
      · exact .inr (.inl ⟨fun e => hno u (e ▸ h), h⟩)
      · exact .inl h
      · exact .inr (.inr h)

/-- What `insert` does below `link[b]` is what it does to the node. -/
theorem insPost_up {p q : List Bool} {k : List UInt8} {n : Nat} {d : V} {a : Bool} {l r x : Node V} {b w : Bool}
    (hw : WF p (.node k n d a l r)) (hq : bits k n ++ [b] <+: q) (h : InsPost c q v (bits k n ++ [b]) (kid l r b) x w) :
    InsPost c q v p (.node k n d a l r) ((Node.node k n d a l r).setLink b x) w := by
  obtain ⟨q1, q2⟩ := setLink_law (x := x) hw h.wf
  refine ⟨by cases b <;> simp [Node.setLink], q1, ?_, (q2 _ _).2 (.inl h.new), fun y u hy hne => ?_, fun y u hy => ?_⟩
  · rw [h.res]
    simp only [has_kid hw hq]
  · by_cases hp : bits k n ++ [b] <+: y
    · exact (q2 _ _).2 (.inl (h.old y u ((has_kid hw hp).1 hy) hne))
    · exact (q2 _ _).2 (.inr ⟨hy, hp⟩)
  · rcases (q2 _ _).1 hy with hy | ⟨hy, hp⟩
    · have hp := has_prefix h.wf hy
      rcases h.only y u hy with h' | ⟨h1, h2⟩ | ⟨h1, h2, h3, b', z, u', hz, hz1, hz2⟩
      · exact .inl h'
      · exact .inr (.inl ⟨h1, (has_kid hw hp).2 h2⟩)
      · refine .inr (.inr ⟨h1, h2, fun d' hd => h3 d' ((has_kid hw hp).1 hd), b', z, u', ?_, hz1, hz2⟩)
        exact has_node.2 (.inr ⟨b, hz⟩)
    · refine .inr (.inl ⟨fun e => hp (e ▸ hq), hy⟩)

/-- The descent of `insert`. -/
theorem ins_law (hc : c.bytes = true) (hb : len ≤ 8 * buf.length) (hpos : 0 < len) : ∀ {t : Node V} {p : List Bool}, WF p t →
    p <+: bits buf len → (∀ y u, Has t y u → y.length ≤ 8 * buf.length) → (p = [] → ∃ u, Has t [] u) →
    (t = .null → ins c buf len v t = .ok .none) ∧ (t ≠ .null → ∃ t' w,
      (ins c buf len v t = .ok (.inPlace t' w) ∨ ins c buf len v t = .ok (.branch t' w)) ∧ InsPost c (bits buf len) v p t t' w)
  | .null, p, _, _, _, _ => ⟨fun _ => rfl, fun h => (h rfl).elim⟩
  | .node k n d a l r, p, hw, hp, hs, hr => by
    refine ⟨fun h => by simp at h, fun _ => ?_⟩
    obtain ⟨h1, h2, h3⟩ := wf_node.1 hw
    have hn : n ≤ 8 * buf.length := by simpa using hs (bits k n) d (.inl ⟨rfl, rfl⟩)
    have hroot : p = [] → bits k n <+: bits buf len := fun e => by
      obtain ⟨u, hu⟩ := hr e
      have := has_prefix (p := bits k n) (t := .node k n d a l r) (wf_node.2 ⟨List.prefix_rfl, h2, h3⟩) hu
      rw [List.prefix_nil] at this
      rw [this]; exact List.nil_prefix
    rw [ins, matchKey_ok h2 hn]
    simp only [Res.ok_bind, decide_eq_false_iff_not]
    by_cases c1 : ¬ bits k n = bits buf n ∨ len ≤ n
    · simp only [c1, if_true]
      exact insAt_law hc hb hpos hw hp hroot (fun h1 h2 => (c1.elim (fun h => h (bits_prefix.1 h2).2) (fun h => by omega)).elim)
    · simp only [c1, if_false]
      have c2 : bits k n = bits buf n := by
        by_contra h; exact c1 (.inl h)
      have c3 : n < len := by omega
      rw [checkBit_ok (K := buf) (by omega)]
      simp only [Res.ok_bind]
      have hq : bits k n ++ [bitAt buf n] <+: bits buf len := by rw [c2]; exact bits_bit c3
      have step : ∀ b, bits k n ++ [b] <+: bits buf len →
          (kid l r b = .null → ins c buf len v (kid l r b) = .ok .none) ∧ (kid l r b ≠ .null → ∃ t' w,
            (ins c buf len v (kid l r b) = .ok (.inPlace t' w) ∨ ins c buf len v (kid l r b) = .ok (.branch t' w)) ∧
            InsPost c (bits buf len) v (bits k n ++ [b]) (kid l r b) t' w) := by
        intro b hq
        cases b
        · exact ins_law hc hb hpos (h3 false) hq (fun y u h => hs y u (has_node.2 (.inr ⟨_, h⟩))) (by simp)
        · exact ins_law hc hb hpos (h3 true) hq (fun y u h => hs y u (has_node.2 (.inr ⟨_, h⟩))) (by simp)
      obtain ⟨s1, s2⟩ := step _ hq
      have e : (if bitAt buf n then ins c buf len v r else ins c buf len v l) = ins c buf len v (kid l r (bitAt buf n)) := by
        cases bitAt buf n <;> rfl
      rw [e]
      by_cases c4 : kid l r (bitAt buf n) = .null
      · rw [s1 c4]
        simp only [Res.ok_bind]
        exact insAt_law hc hb hpos hw hp hroot (fun _ _ => c4)
      · obtain ⟨t', w, ht, hpost⟩ := s2 c4
        rcases ht with ht | ht
        · rw [ht]
          exact ⟨_, w, .inl rfl, insPost_up hw hq hpost⟩
        · rw [ht]
          simp only [Res.ok_bind, Ins.up]
          have hup := insPost_up hw hq hpost
          cases t' with
          | null => exact (hpost.ne rfl).elim
          | node k' n' d' a' l' r' =>
            obtain ⟨g1, g2, _⟩ := wf_node.1 hpost.wf
            have g3 : n < n' := by have := g1.length_le; simp at this; omega
            have g4 : bitAt buf n = bitAt k' n := by
              have : bits k n = bits k' n := by
                have := (List.prefix_append (bits k n) [bitAt buf n]).trans g1
                exact (bits_prefix.1 this).2
              rw [this] at g1
              exact prefix_bit g1 (bits_bit g3)
            rw [setChild_ok g3 g2, ← g4]
            exact ⟨_, w, .inl rfl, hup⟩

end

end Verif.Patricia
