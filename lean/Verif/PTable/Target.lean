import Verif.PTable.Use

/-!
# The block chosen by `insert`, on lists of ranges
-/

namespace Verif.PTable

/-- Ranges that cover the values from `lo` to `hi` in this order without gaps: a range starts right behind the previous one, or
it repeats the last value of the previous one. -/
def Gapless : Nat → List (Nat × Nat) → Nat → Prop
  | lo, [], hi => lo = hi + 1
  | lo, r :: rs, hi => (r.1 = lo ∨ (r.1 + 1 = lo ∧ r.2 = r.1)) ∧ r.1 ≤ r.2 ∧ Gapless (r.2 + 1) rs hi

theorem Gapless.covers : ∀ {rs : List (Nat × Nat)} {lo hi : Nat}, Gapless lo rs hi → ∀ {x}, lo ≤ x → x ≤ hi → ∃ r ∈ rs, r.1 ≤ x ∧ x ≤ r.2
  | [], lo, hi, h, x, h1, h2 => by
    have h : lo = hi + 1 := h
    omega
  | r :: rs, lo, hi, ⟨h1, h2, h3⟩, x, g1, g2 => by
    by_cases hx : x ≤ r.2
    · exact ⟨r, List.mem_cons_self .., by omega, hx⟩
    · obtain ⟨q, hq, h⟩ := h3.covers (x := x) (by omega) g2
      exact ⟨q, List.mem_cons_of_mem _ hq, h⟩

theorem Gapless.lo_le : ∀ {rs : List (Nat × Nat)} {lo hi : Nat}, Gapless lo rs hi → ∀ r ∈ rs, lo ≤ r.1 + 1 ∧ r.1 ≤ r.2
  | r :: rs, lo, hi, ⟨h1, h2, h3⟩, q, hq => by
    rcases List.mem_cons.1 hq with rfl | hq
    · exact ⟨by omega, h2⟩
    · have := h3.lo_le q hq
      exact ⟨by omega, this.2⟩

theorem Gapless.hi_le : ∀ {rs : List (Nat × Nat)} {lo hi : Nat}, Gapless lo rs hi → lo ≤ hi + 1 ∧ ∀ r ∈ rs, r.2 ≤ hi
  | [], lo, hi, h => by
    have h : lo = hi + 1 := h
    exact ⟨by omega, by simp⟩
  | r :: rs, lo, hi, ⟨h1, h2, h3⟩ => by
    have ⟨g1, g2⟩ := h3.hi_le
    refine ⟨by omega, fun q hq => ?_⟩
    rcases List.mem_cons.1 hq with rfl | hq
    · omega
    · exact g2 q hq

theorem Gapless.replace : ∀ {pre : List (Nat × Nat)} {r : Nat × Nat} {new post : List (Nat × Nat)} {lo hi : Nat},
    Gapless lo (pre ++ r :: post) hi → (∀ s, Gapless s (r :: post) hi → Gapless s (new ++ post) hi) → Gapless lo (pre ++ (new ++ post)) hi
  | [], _, _, _, lo, _, h, hn => hn lo h
  | _ :: _, _, _, _, _, _, ⟨h1, h2, h3⟩, hn => ⟨h1, h2, h3.replace hn⟩

/-- What `insert` looks at in a node. -/
structure Ent where
  id : Nat
  lo : Nat
  hi : Nat
  full : Bool

def Ent.rng (e : Ent) : Nat × Nat := (e.lo, e.hi)

/-- The loop over nodes that share a value. -/
def walkE : Ent → List Ent → Ent
  | e, [] => e
  | e, e' :: r => if e.lo = e.hi ∧ e.full = true then walkE e' r else e

/-- The node chosen, and whether it must be split. -/
def pick (x : Nat) : List Ent → Option (Ent × Bool)
  | [] => none
  | e :: l =>
    if e.lo ≤ x ∧ x ≤ e.hi then
      if x < (walkE e l).lo then some (e, true) else some (walkE e l, (walkE e l).full)
    else pick x l

theorem walkE_mem : ∀ (l : List Ent) (e : Ent), walkE e l = e ∨ (walkE e l ∈ l ∧ e.lo = e.hi)
  | [], _ => Or.inl rfl
  | e' :: r, e => by
    rw [walkE]
    split
    · rename_i h
      rcases walkE_mem r e' with h' | h'
      · rw [h']; exact Or.inr ⟨List.mem_cons_self .., h.1⟩
      · exact Or.inr ⟨List.mem_cons_of_mem _ h'.1, h.1⟩
    · exact Or.inl rfl

theorem pick_ok {x : Nat} : ∀ {l : List Ent} {lo hi : Nat}, Gapless lo (l.map Ent.rng) hi → lo ≤ x → x ≤ hi →
    ∃ e ns, pick x l = some (e, ns) ∧ e ∈ l ∧ e.lo ≤ x ∧ x ≤ e.hi ∧ (ns = false → e.full = false)
  | [], lo, hi, h, h1, h2 => by
    have h : lo = hi + 1 := h
    omega
  | e :: l, lo, hi, ⟨h1, h2, h3⟩, g1, g2 => by
    rw [pick]
    by_cases hc : e.lo ≤ x ∧ x ≤ e.hi
    · rw [if_pos hc]
      by_cases hw : x < (walkE e l).lo
      · rw [if_pos hw]
        exact ⟨e, true, rfl, List.mem_cons_self .., hc.1, hc.2, by simp⟩
      · rw [if_neg hw]
        rcases walkE_mem l e with h | ⟨h, hlh⟩
        · rw [h]
          exact ⟨e, _, rfl, List.mem_cons_self .., hc.1, hc.2, id⟩
        · refine ⟨walkE e l, _, rfl, List.mem_cons_of_mem _ h, by omega, ?_, id⟩
          have := h3.lo_le _ (List.mem_map_of_mem (f := Ent.rng) h)
          simp only [Ent.rng] at this
          omega
    · rw [if_neg hc]
      have hlo : lo ≤ e.hi + 1 := by simp only [Ent.rng] at h1 h2; omega
      obtain ⟨e', ns, p1, p2, p3⟩ := pick_ok h3 (x := x) (by simp only [Ent.rng] at h1 h2 ⊢; omega) g2
      exact ⟨e', ns, p1, List.mem_cons_of_mem _ p2, p3⟩

theorem walkE_land {s s' : Ent} (hs' : s'.full = false) {post' : List Ent} : ∀ (l : List Ent) (e : Ent) (post : List Ent),
    walkE e (l ++ s :: post) = s → s ∉ e :: l → walkE e (l ++ s' :: post') = s'
  | [], e, post, h, hn => by
    rw [List.nil_append, walkE] at h ⊢
    split at h
    · rename_i hc
      rw [if_pos hc]
      cases post' with
      | nil => rfl
      | cons p q => rw [walkE, if_neg (by simp [hs'])]
    · exact absurd (List.mem_cons.2 (Or.inl h.symm)) hn
  | e' :: l, e, post, h, hn => by
    rw [List.cons_append, walkE] at h ⊢
    split at h
    · rename_i hc
      rw [if_pos hc]
      exact walkE_land hs' l e' post h (fun hm => hn (List.mem_cons_of_mem _ hm))
    · exact absurd (List.mem_cons.2 (Or.inl h.symm)) hn

/-- A node with space in place of the node to be split is chosen next. -/
theorem pick_land {x : Nat} {s s' : Ent} (hs' : s'.full = false) (hr : s'.lo = s.lo ∧ s'.hi = s.hi) (hx : s.lo ≤ x ∧ x ≤ s.hi) {post post' : List Ent} :
    ∀ (pre : List Ent), pick x (pre ++ s :: post) = some (s, true) → s ∉ pre → pick x (pre ++ s' :: post') = some (s', false)
  | [], h, _ => by
    rw [List.nil_append, pick, if_pos (by omega)]
    have hw : walkE s' post' = s' := by
      cases post' with
      | nil => rfl
      | cons p q => rw [walkE, if_neg (by simp [hs'])]
    rw [hw, if_neg (by omega), hs']
  | e :: pre, h, hn => by
    rw [List.cons_append, pick] at h ⊢
    by_cases hc : e.lo ≤ x ∧ x ≤ e.hi
    · rw [if_pos hc] at h ⊢
      have hw : walkE e (pre ++ s :: post) = s := by
        split at h
        · have : e = s := by
            have := Option.some.inj h
            exact congrArg Prod.fst this
          exact absurd (List.mem_cons.2 (Or.inl this.symm)) hn
        · exact congrArg Prod.fst (Option.some.inj h)
      rw [walkE_land hs' pre e post hw hn, if_neg (by omega), hs']
    · rw [if_neg hc] at h ⊢
      exact pick_land hs' hr hx pre h (fun hm => hn (List.mem_cons_of_mem _ hm))

end Verif.PTable
