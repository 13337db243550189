import Verif.Patricia.RemLaw
import Verif.MapSpec

/-!
# Histories of a Patricia trie and their invariant
-/

namespace Verif.Patricia

open Verif MapSpec

variable {V : Type} {c : Cfg V}

/-- The bit string of a key. -/
def keyBits (k : List UInt8) : List Bool := bits k (k.length * 8)

@[simp] theorem keyBits_length (k : List UInt8) : (keyBits k).length = k.length * 8 := by simp [keyBits]

theorem bitAt_append {k s : List UInt8} {i : Nat} (h : i < k.length * 8) : bitAt (k ++ s) i = bitAt k i := by
  have : i / 8 < k.length := by omega
  simp [bitAt, List.getD_eq_getElem?_getD, List.getElem?_append_left this]

theorem bits_append (k s : List UInt8) : bits (k ++ s) (k.length * 8) = keyBits k :=
  bits_eq.2 fun _ hi => bitAt_append hi

theorem keyBits_prefix {k k' : List UInt8} : keyBits k <+: keyBits k' ↔ k <+: k' := by
  constructor
  · intro h
    obtain ⟨h1, h2⟩ := bits_prefix.1 h
    have hl : k.length ≤ k'.length := by omega
    have := (bytes_eq (Nat.le_refl k.length) hl).2 (fun i hi => bits_eq.1 h2 i (by omega))
    rw [List.take_length] at this
    rw [this]
    exact List.take_prefix _ _
  · rintro ⟨s, rfl⟩
    rw [← bits_append k s]
    exact bits_prefix.2 ⟨by simp [Nat.add_mul], rfl⟩

theorem keyBits_inj {k k' : List UInt8} (h : keyBits k = keyBits k') : k = k' := by
  have h1 : k <+: k' := keyBits_prefix.1 (h ▸ List.prefix_rfl)
  refine h1.eq_of_length ?_
  have := congrArg List.length h
  simp only [keyBits_length] at this
  omega

theorem keyBits_ne {k : List UInt8} (h : k ≠ []) : keyBits k ≠ [] := fun e => h (by
  have := congrArg List.length e
  simp only [keyBits_length, List.length_nil] at this
  exact List.length_eq_zero_iff.1 (by omega))

theorem msb (x : UInt8) : x.toNat.testBit 7 = decide (128 ≤ x.toNat) := by
  have h := x.toNat_lt
  rw [Nat.testBit_eq_decide_div_mod_eq]
  rw [decide_eq_decide]
  omega

theorem keyBits_bit {k k' : List UInt8} {b : Bool} :
    keyBits k ++ [b] <+: keyBits k' ↔ ∃ x s, k' = k ++ x :: s ∧ decide (128 ≤ x.toNat) = b := by
  constructor
  · intro h
    obtain ⟨s, rfl⟩ := keyBits_prefix.1 ((List.prefix_append _ _).trans h)
    cases s with
    | nil =>
      have := h.length_le
      simp at this
      omega
    | cons x s =>
      refine ⟨x, s, rfl, ?_⟩
      have h2 : keyBits k ++ [bitAt (k ++ x :: s) (k.length * 8)] <+: keyBits (k ++ x :: s) := by
        rw [← bits_append k (x :: s)]
        exact bits_bit (by simp)
      have := prefix_bit h h2
      rw [this, bitAt, ← msb]
      simp
  · rintro ⟨x, s, rfl, rfl⟩
    have h2 : keyBits k ++ [bitAt (k ++ x :: s) (k.length * 8)] <+: keyBits (k ++ x :: s) := by
      rw [← bits_append k (x :: s)]
      exact bits_bit (by simp)
    rw [bitAt] at h2
    simpa [msb] using h2

/-- `insert(k.data(), k.size(), v)`, `remove(k.data(), k.size())`; `pad` is what the memory holds behind the
key.  The result is the tree and what the operation returns. -/
def exec (c : Cfg V) (pad : List UInt8) : Op (List UInt8) V → Tree V → Res (Tree V × Bool)
  | .insert k v, t => t.insert c (k ++ pad) k.length v
  | .erase k, t => t.remove (k ++ pad) k.length

/-- A history: operations with the memory behind their key. -/
def run (c : Cfg V) : List (Op (List UInt8) V × List UInt8) → Tree V → Res (Tree V × List Bool)
  | [], t => .ok (t, [])
  | (op, pad) :: ops, t => do
    let r ← exec c pad op t
    let s ← run c ops r.1
    pure (s.1, r.2 :: s.2)

/-- The key of an operation. -/
def opKey : Op (List UInt8) V → List UInt8
  | .insert k _ => k
  | .erase k => k

/-- Nodes lie where their keys lead; there is a root; no key is longer than `W` bytes. -/
structure Base (W : Nat) (t : Tree V) : Prop where
  wf : WF [] t.root
  root : ∃ u, Has t.root [] u
  short : ∀ y u, Has t.root y u → y.length ≤ W * 8

/-- The tree represents the map: every entry has its node, and the other nodes, except for the root, are forks. -/
structure Rep (c : Cfg V) (m : List UInt8 → Option V) (t : Tree V) : Prop where
  nil : m [] = none
  full : ∀ k v, m k = some v → Has t.root (keyBits k) v
  only : ∀ y u, Has t.root y u → y = [] ∨ (∃ k, m k = some u ∧ y = keyBits k) ∨
    (u = c.junk ∧ Fork t.root y ∧ ∀ k, m k ≠ none → keyBits k ≠ y)

theorem base_empty (W : Nat) : Base W (Tree.empty c) := by
  refine ⟨⟨List.prefix_rfl, by simp, trivial, trivial⟩, ⟨c.junk, .inl ⟨rfl, rfl⟩⟩, ?_⟩
  rintro y u (⟨rfl, _⟩ | h | h)
  · simp
  · exact h.elim
  · exact h.elim

theorem rep_empty : Rep c MapSpec.empty (Tree.empty c) := by
  refine ⟨rfl, fun k v h => by simp [MapSpec.empty] at h, ?_⟩
  rintro y u (⟨rfl, _⟩ | h | h)
  · exact .inl (by simp [bits])
  · exact h.elim
  · exact h.elim

/-- What an insert does. -/
theorem insert_base {W : Nat} (hc : c.bytes = true) {t : Tree V} (hb : Base W t) {k pad : List UInt8} (hk : k ≠ []) (hW : k.length ≤ W)
    (hpad : W ≤ (k ++ pad).length) (v : V) :
    ∃ t' w, t.insert c (k ++ pad) k.length v = .ok (t', w) ∧ Base W t' ∧ InsPost c (keyBits k) v [] t.root t'.root w ∧
      t'.count = if w then t.count + 1 else t.count := by
  have hl : 0 < k.length := List.length_pos_iff.2 hk
  have hne : t.root ≠ .null := fun e => by obtain ⟨u, hu⟩ := hb.root; rw [e] at hu; exact hu
  obtain ⟨_, h2⟩ := ins_law (v := v) (buf := k ++ pad) (len := k.length * 8) hc (by simp at *; omega) (by omega) hb.wf (by simp)
    (fun y u h => by have := hb.short y u h; omega) (fun _ => hb.root)
  obtain ⟨t', w, e, hp⟩ := h2 hne
  rw [bits_append] at hp
  have hbase : ∀ n, Base W ⟨n, t'⟩ := fun n => by
    refine ⟨hp.wf, ?_, fun y u h => ?_⟩
    · obtain ⟨u, hu⟩ := hb.root
      exact ⟨u, hp.old _ _ hu (Ne.symm (keyBits_ne hk))⟩
    · rcases hp.only y u h with ⟨rfl, _⟩ | ⟨_, h⟩ | ⟨_, _, _, b, z, u', hz, hz1, _⟩
      · simp; omega
      · exact hb.short _ _ h
      · have h1 := hb.short _ _ hz
        have h2 := hz1.length_le
        simp at h2
        omega
  refine ⟨⟨if w then t.count + 1 else t.count, t'⟩, w, ?_, hbase _, hp, rfl⟩
  rw [Tree.insert, Res.assert_pos (by omega : 0 < k.length * 8)]
  rcases e with e | e <;> simp [e]

theorem fork_mono {t t' : Node V} {q y : List Bool} {v : V} (hnew : Has t' q v) (hold : ∀ y u, Has t y u → y ≠ q → Has t' y u)
    (h : Fork t y) : Fork t' y := fun b => by
  obtain ⟨z, w, hz, hp⟩ := h b
  by_cases e : z = q
  · exact ⟨q, v, hnew, e ▸ hp⟩
  · exact ⟨z, w, hold _ _ hz e, hp⟩

theorem insert_rep {m : List UInt8 → Option V} {t t' : Tree V} {k : List UInt8} {v : V} {w : Bool} (hk : k ≠ []) (hr : Rep c m t)
    (hp : InsPost c (keyBits k) v [] t.root t'.root w) : Rep c (step m (.insert k v)) t' := by
  refine ⟨by simp [step, Ne.symm hk, hr.nil], fun k' v' h => ?_, fun y u h => ?_⟩
  · by_cases e : k' = k
    · subst e
      simp [step] at h
      exact h ▸ hp.new
    · simp [step, e] at h
      exact hp.old _ _ (hr.full _ _ h) (fun hh => e (keyBits_inj hh))
  · rcases hp.only y u h with ⟨rfl, rfl⟩ | ⟨hy, h⟩ | ⟨h1, hy, h3, b, z, u', hz, hz1, hz2⟩
    · exact .inr (.inl ⟨k, by simp [step], rfl⟩)
    · rcases hr.only y u h with h | ⟨k', h1, rfl⟩ | ⟨h1, h2, h3⟩
      · exact .inl h
      · exact .inr (.inl ⟨k', by simp [step, h1, show k' ≠ k from fun e => hy (by rw [e])], rfl⟩)
      · refine .inr (.inr ⟨h1, fork_mono hp.new hp.old h2, fun k' hk' => ?_⟩)
        by_cases e : k' = k
        · rw [e]; exact Ne.symm hy
        · exact h3 k' (by simpa [step, e] using hk')
    · refine .inr (.inr ⟨h1, fun b' => ?_, fun k' hk' => ?_⟩)
      · by_cases e : b' = b
        · exact ⟨_, v, hp.new, e ▸ hz2⟩
        · refine ⟨z, u', hp.old _ _ hz (fun e' => ?_), ?_⟩
          · rw [e'] at hz1
            have := prefix_bit hz1 hz2
            cases b <;> simp at this
          · rwa [show b' = !b by cases b <;> cases b' <;> simp_all]
      · by_cases e : k' = k
        · rw [e]; exact Ne.symm hy
        · intro e'
          have : m k' ≠ none := by simpa [step, e] using hk'
          obtain ⟨v', hv'⟩ := Option.ne_none_iff_exists'.1 this
          exact h3 v' (e' ▸ hr.full _ _ hv')

/-- Two nodes that differ in the bit behind `q` meet in a node for `q`. -/
theorem has_meet : ∀ {t : Node V} {p q y0 y1 : List Bool} {v0 v1 : V}, WF p t → Has t y0 v0 → Has t y1 v1 → q ++ [false] <+: y0 →
    q ++ [true] <+: y1 → ∃ u, Has t q u
  | .null, _, _, _, _, _, _, _, h, _, _, _ => h.elim
  | .node k n d a l r, p, q, y0, y1, v0, v1, hw, h0, h1, p0, p1 => by
    obtain ⟨g1, g2, g3⟩ := wf_node.1 hw
    have hwt : WF (bits k n) (.node k n d a l r) := wf_node.2 ⟨List.prefix_rfl, g2, g3⟩
    have x0 := has_prefix hwt h0
    have x1 := has_prefix hwt h1
    have q0 := (List.prefix_append _ _).trans p0
    have clash : ∀ {y}, q ++ [false] <+: y → q ++ [true] <+: y → False := fun a b => by simpa using prefix_bit a b
    -- the top node is not below `q`
    have hlen : (bits k n).length ≤ q.length := by
      by_contra hh
      have a0 := List.prefix_of_prefix_length_le p0 x0 (by simp at *; omega)
      have a1 := List.prefix_of_prefix_length_le p1 x1 (by simp at *; omega)
      exact clash a0 a1
    have hxq : bits k n <+: q := List.prefix_of_prefix_length_le x0 q0 hlen
    by_cases e : bits k n = q
    · exact ⟨d, has_node.2 (.inl ⟨e.symm, rfl⟩)⟩
    · obtain ⟨s, hs⟩ := hxq
      cases s with
      | nil => exact (e (by simpa using hs)).elim
      | cons b s =>
        have hb : bits k n ++ [b] <+: q := ⟨s, by rw [← hs]; simp⟩
        have i0 := (has_kid hw (hb.trans q0)).1 h0
        have i1 := (has_kid hw (hb.trans ((List.prefix_append _ _).trans p1))).1 h1
        have : ∃ u, Has (kid l r b) q u := by
          cases b
          · exact has_meet (g3 false) i0 i1 p0 p1
          · exact has_meet (g3 true) i0 i1 p0 p1
        obtain ⟨u, hu⟩ := this
        exact ⟨u, has_node.2 (.inr ⟨b, hu⟩)⟩

/-- Every node, except for the root, is a prefix of a stored key. -/
theorem stored_below {W : Nat} {m : List UInt8 → Option V} {t : Tree V} (hb : Base W t) (hr : Rep c m t) {y : List Bool} {u : V}
    (h : Has t.root y u) (hy : y ≠ []) : ∃ k v, m k = some v ∧ y <+: keyBits k := by
  have key : ∀ (n : Nat) (y : List Bool) (u : V), W * 8 < y.length + n → Has t.root y u → y ≠ [] → ∃ k v, m k = some v ∧ y <+: keyBits k := by
    intro n
    induction n with
    | zero => intro y u hn h _; have := hb.short y u h; omega
    | succ n ih =>
      intro y u hn h hy
      rcases hr.only y u h with h | ⟨k, hm, rfl⟩ | ⟨_, hf, _⟩
      · exact (hy h).elim
      · exact ⟨k, u, hm, List.prefix_rfl⟩
      · obtain ⟨z, w, hz, hp⟩ := hf false
        have hl := hp.length_le
        simp at hl
        obtain ⟨k, v, h1, h2⟩ := ih z w (by omega) hz (fun e => by rw [e] at hl; simp at hl)
        exact ⟨k, v, h1, (List.prefix_append _ _).trans (hp.trans h2)⟩
  exact key (W * 8 + 1) y u (by omega) h hy

/-- What `lookup` returns. -/
theorem lookup_base {W : Nat} {t : Tree V} (hb : Base W t) {k : List UInt8} (hk : k ≠ []) (pad : List UInt8) :
    ∃ r, t.lookup (k ++ pad) k.length = .ok r ∧ ∀ v, r = some v ↔ Has t.root (keyBits k) v := by
  have hl : 0 < k.length := List.length_pos_iff.2 hk
  obtain ⟨r, e, h⟩ := find_law (buf := k ++ pad) (len := k.length * 8) (by simp; omega) hb.wf
  refine ⟨r, by rw [Tree.lookup, Res.assert_pos (by omega : 0 < k.length * 8)]; exact e, fun v => ?_⟩
  rw [h, bits_append]

/-- What `remove` does. -/
theorem remove_base {W : Nat} {t : Tree V} (hb : Base W t) {k : List UInt8} (hk : k ≠ []) (pad : List UInt8) :
    ∃ t' w, t.remove (k ++ pad) k.length = .ok (t', w) ∧ Base W t' ∧
      (w = false → t' = t ∧ ∀ v, ¬ Has t.root (keyBits k) v) ∧ (w = true → Eff (keyBits k) [] t.root t'.root ∧ t'.count = t.count - 1) := by
  have hl : 0 < k.length := List.length_pos_iff.2 hk
  obtain ⟨y, e, hy, hroot⟩ := rem_law (buf := k ++ pad) (len := k.length * 8) (by simp; omega) (by omega) (root := true) hb.wf (fun _ => hb.root)
  rw [bits_append] at hy
  rcases hroot rfl with rfl | ⟨t', rfl, hr⟩
  · refine ⟨t, false, ?_, hb, fun _ => ⟨rfl, hy⟩, by simp⟩
    rw [Tree.remove, Res.assert_pos (by omega : 0 < k.length * 8)]
    simp [e]
  · refine ⟨⟨t.count - 1, t'⟩, true, ?_, ⟨hy.2.wf, ?_, fun y u h => hb.short y u (hy.2.sub y u h)⟩, by simp, fun _ => ⟨hy.2, rfl⟩⟩
    · rw [Tree.remove, Res.assert_pos (by omega : 0 < k.length * 8)]
      simp [e]
    · obtain ⟨u, hu⟩ := hb.root
      exact ⟨u, hr u hu⟩

end Verif.Patricia
