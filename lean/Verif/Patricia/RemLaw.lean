import Verif.Patricia.Law

/-!
# What `remove` does to the set of nodes
-/

namespace Verif.Patricia

open Verif

variable {V : Type} {q : List Bool}

/-- What `remove` of a bit string `q` that is there does to a subtree: it keeps every node whose key is not
a prefix of `q`; the node for `q` itself goes unless it has two children, and then nothing changes; the
nodes that remain and had two children still have two. -/
structure Eff (q p : List Bool) (t t' : Node V) : Prop where
  wf : WF p t'
  was : ∃ v, Has t q v
  sub : ∀ y w, Has t' y w → Has t y w
  keep : ∀ y w, Has t y w → ¬ y <+: q → Has t' y w
  both : Fork t q → ∀ y w, Has t y w → Has t' y w
  gone : ¬ Fork t q → ∀ v, ¬ Has t' q v
  fork : ∀ y v, Has t' y v → y ≠ [] → Fork t y → Fork t' y

/-- The possible outcomes below a node. -/
def RemPost (q p : List Bool) (t : Node V) : Rem V → Prop
  | .none => ∀ v, ¬ Has t q v
  | .kept t' => t' ≠ .null ∧ Eff q p t t'
  | .splice x => x ≠ .null ∧ ¬ Fork t q ∧ Eff q p t x
  | .gone k => ¬ Fork t q ∧ Eff q p t .null ∧ ∃ n, p <+: bits k n ∧ n ≤ 8 * k.length

/-- The deletion of the top node, which lacks a child. -/
theorem del_thin {p : List Bool} {t : Node V} {k : List UInt8} {n : Nat} {d : V} {a : Bool} {l r : Node V}
    (hw : WF p (.node k n d a l r)) (hthin : (Node.node k n d a l r).thin = true) (hnf : ¬ Fork t q) (was : ∃ v, Has t q v)
    (sub : ∀ y w, Has (.node k n d a l r) y w → Has t y w) (keep : ∀ y w, Has t y w → ¬ y <+: q → Has (.node k n d a l r) y w)
    (gone : bits k n = q ∨ ∀ v, ¬ Has (.node k n d a l r) q v)
    (fork : ∀ y v, Has (.node k n d a l r) y v → y ≠ [] → y ≠ bits k n → Fork t y → Fork (.node k n d a l r) y)
    (top : bits k n <+: q) : RemPost q p t (deleteNode (.node k n d a l r)) := by
  obtain ⟨h1, h2, h3⟩ := wf_node.1 hw
  have spl : ∀ b, kid l r (!b) = .null → kid l r b ≠ .null → Eff q p t (kid l r b) := by
    intro b hn hk
    have hin : ∀ y w, Has (kid l r b) y w → Has (.node k n d a l r) y w := fun y w h => has_node.2 (.inr ⟨b, h⟩)
    have hpre : ∀ y w, Has (kid l r b) y w → bits k n ++ [b] <+: y := fun y w h => has_prefix (h3 b) h
    refine ⟨wf_weaken (h1.trans (List.prefix_append _ _)) (h3 b), was, fun y w h => sub y w (hin y w h), fun y w h hy => ?_, fun h => (hnf h).elim, fun _ v h => ?_, fun y v h hne hf => ?_⟩
    · rcases has_node.1 (keep y w h hy) with ⟨rfl, _⟩ | ⟨b', hb⟩
      · exact (hy top).elim
      · by_cases e : b' = b
        · rwa [e] at hb
        · rw [show b' = !b by cases b <;> cases b' <;> simp_all, hn] at hb
          exact hb.elim
    · rcases gone with g | g
      · exact not_self_prefix (g ▸ hpre _ _ h)
      · exact g v (hin _ _ h)
    · exact (fork_kid hw (hpre _ _ h)).1 (fork y v (hin _ _ h) hne (fun e => not_self_prefix (e ▸ hpre _ _ h)) hf)
  cases l with
  | null =>
    cases r with
    | null =>
      refine ⟨hnf, ⟨trivial, was, fun y w h => h.elim, fun y w h hy => ?_, fun h => (hnf h).elim, fun _ v h => h.elim, fun y v h => h.elim⟩, n, h1, h2⟩
      rcases has_node.1 (keep y w h hy) with ⟨rfl, _⟩ | ⟨b', hb⟩
      · exact hy top
      · cases b' <;> exact hb
    | node k1 n1 d1 a1 l1 r1 => exact ⟨by simp, hnf, spl true rfl (by simp [kid])⟩
  | node k0 n0 d0 a0 l0 r0 =>
    cases r with
    | null => exact ⟨by simp, hnf, spl false rfl (by simp [kid])⟩
    | node k1 n1 d1 a1 l1 r1 => simp [Node.thin] at hthin

/-- `deleteNode` on the node for `q`. -/
theorem delete_law {p : List Bool} {k : List UInt8} {n : Nat} {d : V} {a : Bool} {l r : Node V}
    (hw : WF p (.node k n d a l r)) : RemPost (bits k n) p (.node k n d a l r) (deleteNode (.node k n d a l r)) := by
  by_cases ht : (Node.node k n d a l r).thin = true
  · refine del_thin hw ht (fun h => ?_) ⟨d, (has_top hw).2 rfl⟩ (fun _ _ h => h) (fun _ _ h _ => h) (.inl rfl) (fun _ _ _ _ _ h => h) List.prefix_rfl
    have := (fork_top hw).1 h
    have h0 := this false
    have h1 := this true
    cases l with
    | null => exact h0 rfl
    | node => cases r with
      | null => exact h1 rfl
      | node => simp [Node.thin] at ht
  · cases l with
    | null => simp [Node.thin] at ht
    | node k0 n0 d0 a0 l0 r0 => cases r with
      | null => simp [Node.thin] at ht
      | node k1 n1 d1 a1 l1 r1 =>
        have hf : Fork (.node k n d a (.node k0 n0 d0 a0 l0 r0) (.node k1 n1 d1 a1 l1 r1)) (bits k n) :=
          (fork_top hw).2 fun b => by cases b <;> simp [kid]
        exact ⟨by simp, hw, ⟨d, (has_top hw).2 rfl⟩, fun _ _ h => h, fun _ _ h _ => h, fun _ _ _ h => h, fun h => (h hf).elim, fun _ _ _ _ h => h⟩

/-- The effect below `link[b]` as an effect on the node. -/
theorem eff_up {p : List Bool} {k : List UInt8} {n : Nat} {d : V} {a : Bool} {l r x : Node V} {b : Bool}
    (hw : WF p (.node k n d a l r)) (hq : bits k n ++ [b] <+: q) (h : Eff q (bits k n ++ [b]) (kid l r b) x) :
    WF p ((Node.node k n d a l r).setLink b x) ∧ (∃ v, Has (.node k n d a l r) q v) ∧
    (∀ y w, Has ((Node.node k n d a l r).setLink b x) y w → Has (.node k n d a l r) y w) ∧
    (∀ y w, Has (.node k n d a l r) y w → ¬ y <+: q → Has ((Node.node k n d a l r).setLink b x) y w) ∧
    (Fork (.node k n d a l r) q → ∀ y w, Has (.node k n d a l r) y w → Has ((Node.node k n d a l r).setLink b x) y w) ∧
    (¬ Fork (.node k n d a l r) q → ∀ v, ¬ Has ((Node.node k n d a l r).setLink b x) q v) ∧
    (∀ y v, Has ((Node.node k n d a l r).setLink b x) y v → y ≠ [] → (y = bits k n → x ≠ .null) →
      Fork (.node k n d a l r) y → Fork ((Node.node k n d a l r).setLink b x) y) := by
  obtain ⟨q1, q2⟩ := setLink_law (x := x) hw h.wf
  obtain ⟨h1, h2, h3⟩ := wf_node.1 hw
  refine ⟨q1, ?_, fun y w hy => ?_, fun y w hy hn => ?_, fun hf y w hy => ?_, fun hf v hv => ?_, fun y v hy hne hx hf => ?_⟩
  · obtain ⟨v, hv⟩ := h.was
    exact ⟨v, has_node.2 (.inr ⟨b, hv⟩)⟩
  · rcases (q2 _ _).1 hy with hy | hy
    · exact has_node.2 (.inr ⟨b, h.sub _ _ hy⟩)
    · exact hy.1
  · by_cases hp : bits k n ++ [b] <+: y
    · exact (q2 _ _).2 (.inl (h.keep _ _ ((has_kid hw hp).1 hy) hn))
    · exact (q2 _ _).2 (.inr ⟨hy, hp⟩)
  · by_cases hp : bits k n ++ [b] <+: y
    · exact (q2 _ _).2 (.inl (h.both ((fork_kid hw hq).1 hf) _ _ ((has_kid hw hp).1 hy)))
    · exact (q2 _ _).2 (.inr ⟨hy, hp⟩)
  · rcases (q2 _ _).1 hv with hv | hv
    · exact h.gone (fun hh => hf ((fork_kid hw hq).2 hh)) v hv
    · exact hv.2 hq
  · rcases (q2 _ _).1 hy with hy | ⟨hy, hp⟩
    · have hf' := h.fork y v hy hne ((fork_kid hw (has_prefix h.wf hy)).1 hf)
      intro b'
      obtain ⟨z, w, hz, hz'⟩ := hf' b'
      exact ⟨z, w, (q2 _ _).2 (.inl hz), hz'⟩
    · by_cases ht : y = bits k n
      · subst ht
        intro b'
        by_cases e : b' = b
        · subst e
          obtain ⟨z, w, hz⟩ := has_some (hx rfl)
          exact ⟨z, w, (q2 _ _).2 (.inl hz), has_prefix h.wf hz⟩
        · obtain ⟨z, w, hz, hz'⟩ := hf b'
          exact ⟨z, w, (q2 _ _).2 (.inr ⟨hz, fun hh => e (prefix_bit hz' hh)⟩), hz'⟩
      · rcases has_node.1 hy with ⟨e, _⟩ | ⟨b0, hb0⟩
        · exact (ht e).elim
        · have hb1 := has_prefix (h3 b0) hb0
          intro b'
          obtain ⟨z, w, hz, hz'⟩ := hf b'
          refine ⟨z, w, (q2 _ _).2 (.inr ⟨hz, fun hh => ?_⟩), hz'⟩
          have := prefix_bit (hb1.trans ((List.prefix_append _ _).trans hz')) hh
          exact hp (this ▸ hb1)

theorem top_kept {p : List Bool} {k : List UInt8} {n : Nat} {d : V} {a : Bool} {l r x : Node V} {b : Bool}
    (hw : WF p (.node k n d a l r)) (hx : WF (bits k n ++ [b]) x) (w : V) (h : Has (.node k n d a l r) [] w) :
    Has ((Node.node k n d a l r).setLink b x) [] w :=
  ((setLink_law hw hx).2 _ _).2 (.inr ⟨h, fun hh => by simp at hh⟩)

/-- The step of `remove` from `link[b]` to the node. -/
theorem rem_up {p : List Bool} {k : List UInt8} {n : Nat} {d : V} {a : Bool} {l r : Node V} {b root : Bool} {x : Rem V}
    (hw : WF p (.node k n d a l r)) (hq : bits k n ++ [b] <+: q) (hr : root = true → bits k n = [])
    (h : RemPost q (bits k n ++ [b]) (kid l r b) x) :
    ∃ y, Rem.up root (.node k n d a l r) b x = .ok y ∧ RemPost q p (.node k n d a l r) y ∧
      (root = true → y = .none ∨ ∃ t', y = .kept t' ∧ ∀ w, Has (.node k n d a l r) [] w → Has t' [] w) := by
  have hlt : bits k n <+: q := (List.prefix_append _ _).trans hq
  have hne : bits k n ≠ q := fun e => not_self_prefix (e ▸ hq)
  -- the parent after its link has been written
  have casc : ∀ x, Eff q (bits k n ++ [b]) (kid l r b) x → ¬ Fork (kid l r b) q → (root = false → ((Node.node k n d a l r).setLink b x).thin = false → x ≠ .null) →
      RemPost q p (.node k n d a l r) (cascade root ((Node.node k n d a l r).setLink b x)) ∧
      (root = true → cascade root ((Node.node k n d a l r).setLink b x) = .none ∨
        ∃ t', cascade root ((Node.node k n d a l r).setLink b x) = .kept t' ∧ ∀ w, Has (.node k n d a l r) [] w → Has t' [] w) := by
    intro x he hnf hx
    have hnf' : ¬ Fork (.node k n d a l r) q := fun hh => hnf ((fork_kid hw hq).1 hh)
    obtain ⟨u1, u2, u3, u4, u5, u6, u7⟩ := eff_up hw hq he
    have ur := top_kept hw he.wf
    obtain ⟨l', r', e, _, _⟩ := kid_setLink (k := k) (n := n) (d := d) (a := a) (l := l) (r := r) (x := x) (b := b)
    rw [e] at u1 u3 u4 u5 u6 u7 hx ur ⊢
    rw [cascade]
    by_cases hc : (Node.node k n d a l' r').thin = true ∧ root = false
    · obtain ⟨c1, c2⟩ := hc
      simp only [c1, c2, Bool.not_false, Bool.and_self, if_true, Bool.false_eq_true, false_implies, and_true]
      exact del_thin u1 c1 hnf' u2 u3 u4 (.inr (u6 hnf')) (fun y v hy h1 h2 h3 => u7 y v hy h1 (fun e => (h2 e).elim) h3) hlt
    · have : ((Node.node k n d a l' r').thin && !root) = false := by
        cases h1 : (Node.node k n d a l' r').thin <;> cases h2 : root <;> simp_all
      rw [this]
      refine ⟨⟨by simp, u1, u2, u3, u4, u5, u6, fun y v hy h1 h2 => u7 y v hy h1 (fun e => ?_) h2⟩, fun _ => .inr ⟨_, rfl, ur⟩⟩
      cases hr' : root with
      | true => exact absurd (e.trans (hr hr')) h1
      | false => exact hx hr' (by simpa [hr'] using this)
  cases x with
  | none => exact ⟨.none, rfl, fun v hv => h v ((has_kid hw hq).1 hv), fun _ => .inl rfl⟩
  | kept x =>
    obtain ⟨hx, he⟩ := h
    obtain ⟨u1, u2, u3, u4, u5, u6, u7⟩ := eff_up hw hq he
    exact ⟨_, rfl, ⟨by cases b <;> simp [Node.setLink], u1, u2, u3, u4, u5, u6, fun y v hy h1 h2 => u7 y v hy h1 (fun _ => hx) h2⟩,
      fun _ => .inr ⟨_, rfl, top_kept hw he.wf⟩⟩
  | splice x =>
    obtain ⟨hx, hnf, he⟩ := h
    cases x with
    | null => exact (hx rfl).elim
    | node k' n' d' a' l' r' =>
      obtain ⟨g1, g2, _⟩ := wf_node.1 he.wf
      have g3 : n < n' := by have := g1.length_le; simp at this; omega
      have g4 : b = bitAt k' n := by
        have : bits k n = bits k' n := by
          have := (List.prefix_append (bits k n) [b]).trans g1
          exact (bits_prefix.1 this).2
        rw [this] at g1
        exact prefix_bit g1 (bits_bit g3)
      simp only [Rem.up]
      rw [setChild_ok g3 g2, ← g4]
      exact ⟨_, rfl, casc _ he hnf (fun _ _ => hx)⟩
  | gone k' =>
    obtain ⟨hnf, he, n', g1, g2⟩ := h
    have g3 : n < n' := by have := g1.length_le; simp at this; omega
    have g4 : b = bitAt k' n := by
      have : bits k n = bits k' n := by
        have := (List.prefix_append (bits k n) [b]).trans g1
        exact (bits_prefix.1 this).2
      rw [this] at g1
      exact prefix_bit g1 (bits_bit g3)
    simp only [Rem.up, Node.unsetChild]
    rw [checkBit_ok (K := k') (L := n) (by omega), ← g4]
    refine ⟨_, rfl, casc _ he hnf (fun _ ht => ?_)⟩
    cases b <;> simp [Node.setLink, Node.thin] at ht

/-- The descent of `remove`. -/
theorem rem_law {buf : List UInt8} {len : Nat} (hb : len ≤ 8 * buf.length) (hpos : 0 < len) : ∀ {t : Node V} {p : List Bool} {root : Bool},
    WF p t → (root = true → ∃ v, Has t [] v) →
    ∃ y, rem buf len root t = .ok y ∧ RemPost (bits buf len) p t y ∧ (root = true → y = .none ∨ ∃ t', y = .kept t' ∧ ∀ w, Has t [] w → Has t' [] w)
  | .null, _, _, _, hr => ⟨.none, rfl, fun _ h => h, fun _ => .inl rfl⟩
  | .node k n d a l r, p, root, hw, hr => by
    obtain ⟨h1, h2, h3⟩ := wf_node.1 hw
    have hwt : WF (bits k n) (.node k n d a l r) := wf_node.2 ⟨List.prefix_rfl, h2, h3⟩
    have hr' : root = true → bits k n = [] := fun e => by
      obtain ⟨v, hv⟩ := hr e
      exact List.prefix_nil.1 (has_prefix hwt hv)
    rw [rem]
    by_cases c1 : n ≤ len
    · simp only [c1, if_true]
      by_cases c2 : n = len
      · subst c2
        simp only [if_true, matchKey_ok h2 hb, Res.ok_bind, Nat.le_refl]
        by_cases c3 : bits k n = bits buf n
        · have : root = false := by
            cases hroot : root with
            | false => rfl
            | true => have := hr' hroot; rw [← List.length_eq_zero_iff, bits_length] at this; omega
          subst this
          refine ⟨deleteNode (.node k n d a l r), by simp [c3], ?_, by simp⟩
          rw [← c3]
          exact delete_law hw
        · refine ⟨.none, by simp [c3], fun v h => ?_, fun _ => .inl rfl⟩
          exact c3 (bits_prefix.1 (has_prefix hwt h)).2
      · have c4 : ¬ len ≤ n := by omega
        simp only [c2, if_false, Res.pure_eq, Res.ok_bind, c4, checkBit_ok (K := buf) (L := n) (by omega), Bool.false_eq_true]
        by_cases c3 : bits k n = bits buf n
        · have hq : bits k n ++ [bitAt buf n] <+: bits buf len := by rw [c3]; exact bits_bit (by omega)
          have : ∃ y, (if bitAt buf n then rem buf len false r else rem buf len false l) = .ok y ∧
              RemPost (bits buf len) (bits k n ++ [bitAt buf n]) (kid l r (bitAt buf n)) y := by
            cases bitAt buf n
            · obtain ⟨y, e, hy, _⟩ := rem_law hb hpos (root := false) (h3 false) (by simp)
              exact ⟨y, e, hy⟩
            · obtain ⟨y, e, hy, _⟩ := rem_law hb hpos (root := false) (h3 true) (by simp)
              exact ⟨y, e, hy⟩
          obtain ⟨y, e, hy⟩ := this
          rw [e]
          exact rem_up hw hq hr' hy
        · have hno : ∀ v, ¬ Has (.node k n d a l r) (bits buf len) v := fun v h =>
            c3 (bits_prefix.1 (has_prefix hwt h)).2
          have : ∃ y, (if bitAt buf n then rem buf len false r else rem buf len false l) = .ok y ∧
              RemPost (bits buf len) (bits k n ++ [bitAt buf n]) (kid l r (bitAt buf n)) y := by
            cases bitAt buf n
            · obtain ⟨y, e, hy, _⟩ := rem_law hb hpos (root := false) (h3 false) (by simp)
              exact ⟨y, e, hy⟩
            · obtain ⟨y, e, hy, _⟩ := rem_law hb hpos (root := false) (h3 true) (by simp)
              exact ⟨y, e, hy⟩
          obtain ⟨y, e, hy⟩ := this
          have : ∀ v, ¬ Has (kid l r (bitAt buf n)) (bits buf len) v := fun v h => hno v (has_node.2 (.inr ⟨_, h⟩))
          rw [e]
          cases y with
          | none => exact ⟨.none, rfl, hno, fun _ => .inl rfl⟩
          | kept x => obtain ⟨v, hv⟩ := hy.2.was; exact (this v hv).elim
          | splice x => obtain ⟨v, hv⟩ := hy.2.2.was; exact (this v hv).elim
          | gone x => obtain ⟨v, hv⟩ := hy.2.1.was; exact (this v hv).elim
    · simp only [c1, if_false]
      refine ⟨.none, rfl, fun v h => ?_, fun _ => .inl rfl⟩
      exact c1 (bits_prefix.1 (has_prefix hwt h)).1

end Verif.Patricia
