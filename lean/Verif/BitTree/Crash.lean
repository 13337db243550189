import Verif.BitTree.EraseLaw
import Verif.BitTree.EraseProps

/-!
# Crashes in the leaf operations of BitHPBPTree and BitPBPTree

/repo/src/pbptrees/BitHPBPTree.hpp and BitPBPTree.hpp write to a leaf outside of any transaction
(`get_rw()` logs nothing there).  The model takes the assignments of an operation as the unit that becomes
persistent.  `crashInsert` and `crashErase` let them become persistent in program order, so that a crash leaves a prefix;
`crashInsertAny` lets any subset of them become persistent, as the code has no flush or fence between
them.  BitPBPTree keeps its branch nodes in persistent memory; BitHPBPTree rebuilds them (C64, C65), so for that file the
statements are about the leaves with the branch nodes they were reached by.  Splits are not part of this
file.
-/

set_option linter.unusedSectionVars false

namespace Verif.BitTree

open Verif Search FPTree BTree

variable {K V : Type} {M : Nat} [LinearOrder K] [Inhabited K] {c : Cfg K V} {adm : K → Prop}

/-- An assignment to a leaf. -/
inductive BWrite (K V : Type) where
  | key (p : Nat) (k : K)
  | val (p : Nat) (v : V)
  | set (p : Nat)
  | reset (p : Nat)

/-- The effect of an assignment. -/
def BWrite.apply (l : Leaf M K V) : BWrite K V → Res (Leaf M K V)
  | .key p k => do
    Res.guardUB (p < M)
    pure { l with keys := upd l.keys p k }
  | .val p v => do
    Res.guardUB (p < M)
    pure { l with vals := upd l.vals p v }
  | .set p => do
    let b ← l.bits.set p
    pure { l with bits := b }
  | .reset p => do
    let b ← l.bits.reset p
    pure { l with bits := b }

/-- A sequence of assignments. -/
def applyWrites (l : Leaf M K V) : List (BWrite K V) → Res (Leaf M K V)
  | [] => .ok l
  | w :: ws => do
    let l ← w.apply l
    applyWrites l ws

/-- BitHPBPTree.hpp:908-917, 937 with 1015-1024, BitPBPTree.hpp:873-882, 902 with 983-992: the assignments of
`insertInLeafNode` on a leaf that holds the key or has a free position. -/
def insertWrites (l : Leaf M K V) (k : K) (v : V) : Res (List (BWrite K V)) := do
  let p ← l.pos k
  if p < M then pure [.val p v]
  else do
    let u := l.bits.getFreeZero
    Res.assert (u < M)
    pure [.key u k, .val u v, .set u]

/-- BitHPBPTree.hpp:504-526, BitPBPTree.hpp:438-460: the assignments of `eraseFromLeafNode`. -/
def eraseWrites (l : Leaf M K V) (k : K) : Res (List (BWrite K V)) := do
  let p ← l.pos k
  if p < M then pure [.reset p] else pure []

/-- The tree with another leaf at `id`. -/
def putLeaf (t : Store c M) (id : Nat) (x : Cell M K V) (l : Leaf M K V) : Store c M :=
  { t with heap := t.heap.set id { x with leaf := l } }

/-- The tree after a crash that follows the first `n` assignments of an insert. -/
def crashInsert (t : Store c M) (k : K) (v : V) (n : Nat) : Res (Store c M) := do
  let id ← findLeaf c t.depth t.root k
  let x ← Res.ofOption t.heap[id]?
  let ws ← insertWrites x.leaf k v
  let l ← applyWrites x.leaf (ws.take n)
  pure (putLeaf t id x l)

/-- The tree after a crash that follows the first `n` assignments of an erase to the leaf. -/
def crashErase (t : Store c M) (k : K) (n : Nat) : Res (Store c M) := do
  let id ← findLeaf c t.depth t.root k
  let x ← Res.ofOption t.heap[id]?
  let ws ← eraseWrites x.leaf k
  let l ← applyWrites x.leaf (ws.take n)
  pure (putLeaf t id x l)

/-- The tree after a crash in an insert from which exactly the assignments marked in `mask` have become
persistent. -/
def crashInsertAny (t : Store c M) (k : K) (v : V) (mask : List Bool) : Res (Store c M) := do
  let id ← findLeaf c t.depth t.root k
  let x ← Res.ofOption t.heap[id]?
  let ws ← insertWrites x.leaf k v
  let l ← applyWrites x.leaf (((ws.zip mask).filter (·.2)).map (·.1))
  pure (putLeaf t id x l)

/-! ## The tree around the leaf -/

/-- Replacing the leaf of `k` by one that differs in the entries of `k` only. -/
theorem swap_law (F : Laws c adm) {h : Heap M K V} {l : Leaf M K V} (hl : LOk l) (k : K) {id : Nat} {x : Cell M K V}
    (hx : h[id]? = some x) (he : ∀ y w, y ≠ k → (Has l y w ↔ Has x.leaf y w)) :
    ∀ (d : Nat) (t : Tree c.N K d) (R : K → Prop), (∀ k, R k → adm k) → Ok h d t R → R k →
    findLeaf c d t k = .ok id →
    Ok (h.set id { x with leaf := l }) d t R ∧
      (∀ i, i ∉ fp d t → core (h.set id { x with leaf := l }) i = core h i) ∧
      ∀ y w, hasT (h.set id { x with leaf := l }) d t y w ↔ (y = k ∧ Has l k w) ∨ (y ≠ k ∧ hasT h d t y w)
  | 0, id', R, hR, ho, hk, hf => by
    have e0 : id = id' := (Res.ok.inj hf).symm
    subst e0
    obtain ⟨hid, -⟩ := List.getElem?_eq_some_iff.1 hx
    obtain ⟨x', h1, h2, h3⟩ := ho
    have h1 : h[id]? = some x' := h1
    rw [hx] at h1; cases h1
    have hc : core (h.set id { x with leaf := l }) id = some l := by
      unfold core
      rw [List.getElem?_set_self hid]; rfl
    have hc0 : core h id = some x.leaf := core_some.2 ⟨x, hx, rfl⟩
    refine ⟨ok_zero.2 ⟨l, hc, hl, fun a b hab => ?_⟩, fun i hi => ?_, fun a b => hasT_zero.trans ⟨?_, ?_⟩⟩
    · by_cases e : a = k
      · rw [e]; exact hk
      · exact h3 a b ((he a b e).1 hab)
    · unfold core
      rw [List.getElem?_set_ne]
      rintro rfl
      exact hi rfl
    · rintro ⟨l0, e0, hv⟩
      rw [hc] at e0; cases e0
      by_cases e : a = k
      · subst e; exact Or.inl ⟨rfl, hv⟩
      · exact Or.inr ⟨e, hasT_zero.2 ⟨_, hc0, (he a b e).1 hv⟩⟩
    · rintro (⟨rfl, hv⟩ | ⟨e, hv⟩)
      · exact ⟨l, hc, hv⟩
      · obtain ⟨l0, e0, hv⟩ := hasT_zero.1 hv
        rw [hc0] at e0; cases e0
        exact ⟨l, hc, (he a b e).2 hv⟩
  | d + 1, b, R, hR, ho, hk, hf => by
    obtain ⟨p, e, hp, hr⟩ := pos_law (lim := c.lim) (sep_max F hR ho) hk
    obtain ⟨z, hz, hoz⟩ := ho.kid p hp
    rw [findLeaf, e, Res.ok_bind, kid_ok (live_lt hp) hz, Res.ok_bind] at hf
    obtain ⟨g1, g2, g6⟩ := swap_law F hl k hx he d z (rng b R p) (fun a ha => hR a ha.1) hoz hr hf
    have hfr : ∀ q y, live b q → q ≠ p → b.kids q = some y → ∀ i ∈ fp d y,
        core (h.set id { x with leaf := l }) i = core h i := by
      intro q y hq hne hy i hi
      exact g2 i fun hi' => Set.disjoint_left.1 (ho.disj q p y z hq hp hne hy hz) hi hi'
    refine ⟨⟨ho.clean, ho.inj, ho.sep, fun q hq => ?_, ho.disj⟩, fun i hi => g2 i fun hi' => hi ⟨z, ⟨p, hp, hz⟩, hi'⟩,
      fun a v => ⟨?_, ?_⟩⟩
    · by_cases hqp : q = p
      · subst hqp; exact ⟨z, hz, g1⟩
      · obtain ⟨y, hy, hoy⟩ := ho.kid q hq
        exact ⟨y, hy, ok_frame d y _ (hfr q y hq hqp hy) hoy⟩
    · rintro ⟨y, ⟨q, hq, hy⟩, hv⟩
      by_cases hqp : q = p
      · subst hqp
        rw [hy] at hz; cases hz
        rcases (g6 a v).1 hv with hh | ⟨n1, n2⟩
        · exact Or.inl hh
        · exact Or.inr ⟨n1, z, ⟨q, hq, hy⟩, n2⟩
      · have hv' := (hasT_frame d y a v (hfr q y hq hqp hy)).1 hv
        obtain ⟨y', hy', hoy⟩ := ho.kid q hq
        rw [hy] at hy'; cases hy'
        refine Or.inr ⟨?_, y, ⟨q, hq, hy⟩, hv'⟩
        rintro rfl
        exact hqp (rng_unique ho hq hp (hasT_range d y _ a v hoy hv') hr)
    · rintro (⟨rfl, hv⟩ | ⟨n1, y, ⟨q, hq, hy⟩, hv⟩)
      · exact ⟨z, ⟨p, hp, hz⟩, (g6 a v).2 (Or.inl ⟨rfl, hv⟩)⟩
      · refine ⟨y, ⟨q, hq, hy⟩, ?_⟩
        by_cases hqp : q = p
        · subst hqp
          rw [hy] at hz; cases hz
          exact (g6 a v).2 (Or.inr ⟨n1, hv⟩)
        · exact (hasT_frame d y a v (hfr q y hq hqp hy)).2 hv

/-- The tree with the leaf of `k` replaced is correct again. -/
theorem putLeaf_law (F : Laws c adm) {t : Store c M} (ht : TOk adm t) {k : K} (hk : adm k) :
    ∃ id x, findLeaf c t.depth t.root k = .ok id ∧ t.heap[id]? = some x ∧ LOk x.leaf ∧
      (∀ v, Has x.leaf k v ↔ t.Has k v) ∧
      ∀ l, LOk l → (∀ y w, y ≠ k → (Has l y w ↔ Has x.leaf y w)) →
        TOk adm (putLeaf t id x l) ∧ ∀ y w, (putLeaf t id x l).Has y w ↔ (y = k ∧ Has l k w) ∨ (y ≠ k ∧ t.Has y w) := by
  obtain ⟨id, x, e1, e2, e3, e4⟩ := findLeaf_law F t.depth t.root adm k (fun _ h => h) ht.ok hk
  refine ⟨id, x, e1, e2, e3, e4, fun l hl he => ?_⟩
  obtain ⟨g1, _, g3⟩ := swap_law F hl k e2 he t.depth t.root adm (fun _ h => h) ht.ok hk e1
  refine ⟨⟨g1, ?_⟩, g3⟩
  intro i y hy0 n hn
  have hy : (t.heap.set id { x with leaf := l })[i]? = some y := hy0
  show n < (t.heap.set id { x with leaf := l }).length
  rw [List.length_set]
  rw [List.getElem?_set] at hy
  split at hy
  · rename_i hi
    subst hi
    split at hy
    · cases hy
      exact ht.link id x e2 n hn
    · cases hy
  · exact ht.link i y hy n hn

/-! ## The leaf -/

/-- Contents of a leaf do not depend on positions without a bit. -/
theorem has_free {l : Leaf M K V} {l' : Leaf M K V} (hb : l'.bits = l.bits) {u : Nat} (hu : Bitmap.bit l.bits u = false)
    (hk : ∀ p, p ≠ u → l'.keys p = l.keys p) (hv : ∀ p, p ≠ u → l'.vals p = l.vals p) (h : LOk l) :
    LOk l' ∧ ∀ y w, Has l' y w ↔ Has l y w := by
  have hne : ∀ p, Bitmap.bit l.bits p = true → p ≠ u := by
    rintro p hp rfl; rw [hu] at hp; cases hp
  constructor
  · refine ⟨by rw [hb]; exact h.clean, fun i j hi hj h1 h2 h3 => ?_⟩
    rw [hb] at h1 h2
    rw [hk i (hne i h1), hk j (hne j h2)] at h3
    exact h.inj i j hi hj h1 h2 h3
  · intro y w
    refine exists_congr fun p => ?_
    rw [hb]
    constructor
    · rintro ⟨h1, h2, h3, h4⟩
      exact ⟨h1, h2, (hk p (hne p h2)).symm.trans h3, (hv p (hne p h2)).symm.trans h4⟩
    · rintro ⟨h1, h2, h3, h4⟩
      exact ⟨h1, h2, (hk p (hne p h2)).trans h3, (hv p (hne p h2)).trans h4⟩

theorem applyWrites_append (l : Leaf M K V) : ∀ ws ws' : List (BWrite K V),
    applyWrites l (ws ++ ws') = applyWrites l ws >>= fun l => applyWrites l ws'
  | [], ws' => rfl
  | w :: ws, ws' => by
    rw [List.cons_append, applyWrites, applyWrites, Res.bind_assoc']
    congr 1
    funext l
    exact applyWrites_append l ws ws'

theorem key_ok {l : Leaf M K V} {p : Nat} (hp : p < M) (k : K) :
    (BWrite.key p k : BWrite K V).apply l = .ok { l with keys := upd l.keys p k } := by
  simp only [BWrite.apply]; rw [Res.guardUB_pos hp]; rfl

theorem val_ok {l : Leaf M K V} {p : Nat} (hp : p < M) (v : V) :
    (BWrite.val p v : BWrite K V).apply l = .ok { l with vals := upd l.vals p v } := by
  simp only [BWrite.apply]; rw [Res.guardUB_pos hp]; rfl

/-- A leaf that holds `k` or has a free position. -/
def LRoom (l : Leaf M K V) (k : K) : Prop := (∃ v, Has l k v) ∨ ∃ p, p < M ∧ Bitmap.bit l.bits p = false

/-- All crash points of an insert into a leaf. -/
theorem leaf_insert_crash {l : Leaf M K V} (h : LOk l) {k : K} (v : V) (hr : LRoom l k) :
    ∃ ws N, insertWrites l k v = .ok ws ∧ N ≤ 3 ∧ 0 < N ∧
      (∀ n, ∃ l', applyWrites l (ws.take n) = .ok l' ∧ LOk l' ∧
        (n < N → ∀ y w, Has l' y w ↔ Has l y w) ∧ (N ≤ n → ∀ y w, Has l' y w ↔ Ups (Has l) k v y w)) ∧
      ∃ l', applyWrites l ws = .ok l' ∧ l.insert c k v = .ok (l', none) := by
  obtain ⟨p, e, hp⟩ := pos_spec l k
  unfold insertWrites
  rw [e, Res.ok_bind]
  rcases hp with ⟨h1, h2, h3⟩ | ⟨h1, hno⟩
  · rw [if_pos h1]
    obtain ⟨w1, w2⟩ := write_law h h1 h2 v
    refine ⟨_, 1, rfl, by omega, by omega, fun n => ?_, ?_⟩
    · by_cases hn : n = 0
      · subst hn
        exact ⟨l, rfl, h, fun _ _ _ => Iff.rfl, fun hh => by omega⟩
      · rw [List.take_of_length_le (by simp; omega)]
        refine ⟨{ l with vals := upd l.vals p v }, ?_, w1, fun hh => by omega, fun _ y w => ?_⟩
        · rw [applyWrites, val_ok h1]; rfl
        · rw [w2, h3]; rfl
    · refine ⟨{ l with vals := upd l.vals p v }, by rw [applyWrites, val_ok h1]; rfl, ?_⟩
      unfold Leaf.insert
      rw [e, Res.ok_bind, if_pos h1]; rfl
  · have hz : ∃ p, p < M ∧ Bitmap.bit l.bits p = false := hr.resolve_left (fun ⟨w, hw⟩ => hno w hw)
    obtain ⟨hu, hb⟩ := free_of_zero hz
    obtain ⟨l3, e3, ok3, has3, _⟩ := fill_law h hu hb v hno
    rw [if_neg (by omega)]
    simp only
    rw [Res.assert_pos hu, Res.ok_bind]
    have e1 : ∀ ws : List (BWrite K V), applyWrites l (.key l.bits.getFreeZero k :: ws) =
        applyWrites { l with keys := upd l.keys l.bits.getFreeZero k } ws := by
      intro ws
      rw [applyWrites, key_ok hu]; rfl
    have e2 : ∀ ws : List (BWrite K V), applyWrites l (.key l.bits.getFreeZero k :: .val l.bits.getFreeZero v :: ws) =
        applyWrites { l with keys := upd l.keys l.bits.getFreeZero k, vals := upd l.vals l.bits.getFreeZero v } ws := by
      intro ws
      rw [e1, applyWrites, val_ok hu]; rfl
    have e4 : applyWrites l [.key l.bits.getFreeZero k, .val l.bits.getFreeZero v, .set l.bits.getFreeZero] = .ok l3 := by
      rw [e2, ← e3]
      unfold Leaf.fill
      rw [applyWrites]
      simp only [BWrite.apply, Res.bind_assoc']
      congr 1
    refine ⟨_, 3, rfl, by omega, by omega, fun n => ?_, l3, e4, ?_⟩
    · have f1 := has_free (l := l) (l' := { l with keys := upd l.keys l.bits.getFreeZero k }) rfl hb
        (fun p hp => by simp [upd, hp]) (fun p _ => rfl) h
      have f2 := has_free (l := l) (l' := { l with keys := upd l.keys l.bits.getFreeZero k, vals := upd l.vals l.bits.getFreeZero v }) rfl hb
        (fun p hp => by simp [upd, hp]) (fun p hp => by simp [upd, hp]) h
      match n with
      | 0 => exact ⟨l, rfl, h, fun _ _ _ => Iff.rfl, fun hh => by omega⟩
      | 1 => exact ⟨_, e1 [], f1.1, fun _ => f1.2, fun hh => by omega⟩
      | 2 => exact ⟨_, e2 [], f2.1, fun _ => f2.2, fun hh => by omega⟩
      | n + 3 =>
        refine ⟨l3, by rw [List.take_of_length_le (by simp)]; exact e4, ok3, fun hh => by omega, fun _ y w => ?_⟩
        rw [has3]
        unfold Ups
        by_cases hy : y = k
        · subst hy; simp [hno]
        · simp [hy]
    · unfold Leaf.insert
      rw [e, Res.ok_bind, if_neg (by omega)]
      simp only
      rw [if_neg (by omega)]
      unfold Leaf.insertAt
      rw [Res.assert_pos hu, Res.ok_bind, e3]; rfl

/-- All crash points of an erase from a leaf. -/
theorem leaf_erase_crash {l : Leaf M K V} (h : LOk l) (k : K) :
    ∃ ws, eraseWrites l k = .ok ws ∧
      (∀ n, ∃ l', applyWrites l (ws.take n) = .ok l' ∧ LOk l' ∧
        (n = 0 → l' = l) ∧ (1 ≤ n → ∃ r, l.erase k = .ok (l', r)) ∧
        (1 ≤ n → ∀ y w, Has l' y w ↔ Del (Has l) k y w)) := by
  obtain ⟨p, e, hp⟩ := pos_spec l k
  obtain ⟨l1, r, e1, ok1, _, has1⟩ := leaf_erase_law h k
  have e1' := e1
  unfold Leaf.erase at e1'
  unfold eraseWrites
  rw [e, Res.ok_bind] at e1' ⊢
  rcases hp with ⟨h1, h2, h3⟩ | ⟨h1, hno⟩
  · rw [if_pos h1] at e1' ⊢
    refine ⟨_, rfl, fun n => ?_⟩
    by_cases hn : n = 0
    · subst hn
      exact ⟨l, rfl, h, fun _ => rfl, fun hh => by omega, fun hh => by omega⟩
    · rw [List.take_of_length_le (by simp; omega)]
      refine ⟨l1, ?_, ok1, fun hh => absurd hh hn, fun _ => ⟨r, e1⟩, fun _ => has1⟩
      obtain ⟨b, eb, e1'⟩ := Res.bind_eq_ok.1 e1'
      rw [applyWrites]
      simp only [BWrite.apply]
      rw [eb]
      have := Res.ok.inj e1'
      rw [Prod.mk.injEq] at this
      rw [← this.1]; rfl
  · rw [if_neg (by omega)] at e1' ⊢
    have := Res.ok.inj e1'
    rw [Prod.mk.injEq] at this
    obtain rfl := this.1
    exact ⟨_, rfl, fun n => ⟨l, by simp [applyWrites], h, fun _ => rfl, fun _ => ⟨r, e1⟩, fun _ => has1⟩⟩

/-! ## The complete operations -/

theorem upd_kid {N : Nat} {C : Type} {b : Branch N K C} {p : Nat} {x : C} (h : b.kids p = some x) :
    ({ b with kids := upd b.kids p (some x) } : Branch N K C) = b := by
  have : upd b.kids p (some x) = b.kids := by
    funext q
    unfold upd
    split
    · rename_i hq; subst hq; exact h.symm
    · rfl
  rw [this]

/-- An insert that splits no leaf replaces the leaf. -/
theorem ins_nosplit {h : Heap M K V} {k : K} {v : V} {id : Nat} {x : Cell M K V} {l : Leaf M K V}
    (hx : h[id]? = some x) (hl : x.leaf.insert c k v = .ok (l, none)) :
    ∀ (d : Nat) (t : Tree c.N K d), findLeaf c d t k = .ok id →
    ins c d h t k v = .ok (h.set id { x with leaf := l }, t, none)
  | 0, id', hf => by
    have e0 : id = id' := (Res.ok.inj hf).symm
    subst e0
    show (insLeaf c h id k v >>= fun r => Res.ok (r.1, id, r.2)) = _
    rw [insLeaf, hx, Res.ofOption_some, Res.ok_bind, hl]
    rfl
  | d + 1, b, hf => by
    rw [findLeaf] at hf
    obtain ⟨p, e1, hf⟩ := Res.bind_eq_ok.1 hf
    obtain ⟨ch, e2, hf⟩ := Res.bind_eq_ok.1 hf
    have hk : Branch.kids (C := Tree c.N K d) b p = some ch := by
      obtain ⟨o, e3, e4⟩ := Res.bind_eq_ok.1 e2
      unfold rdA at e3
      split at e3
      · rw [Res.ok.inj e3]
        cases o with
        | none => cases e4
        | some o => rw [Res.ofOption_some] at e4; rw [Res.ok.inj e4]
      · cases e3
    rw [ins, e1, Res.ok_bind, e2, Res.ok_bind, ins_nosplit hx hl d ch hf, Res.ok_bind]
    simp only
    rw [upd_kid hk]; rfl

/-- An erase up to the handling of underflows replaces the leaf. -/
theorem eraseAt_put {h : Heap M K V} {k : K} {id : Nat} {x : Cell M K V} {l : Leaf M K V} {r : Bool}
    (hx : h[id]? = some x) (hl : x.leaf.erase k = .ok (l, r)) :
    ∀ (d : Nat) (t : Tree c.N K d), findLeaf c d t k = .ok id →
    ∃ u, eraseAt c d h [] t k = .ok (h.set id { x with leaf := l }, r, u)
  | 0, id', hf => by
    have e0 : id = id' := (Res.ok.inj hf).symm
    subst e0
    refine ⟨decide (l.bits.count < middle M), ?_⟩
    show (deref h [] (some id) >>= fun q => q.2.leaf.erase k >>= fun z =>
      Res.ok (h.set q.1 { q.2 with leaf := z.1 }, z.2, decide (z.1.bits.count < middle M))) = _
    rw [deref_nil hx, Res.ok_bind]
    show (x.leaf.erase k >>= _) = _
    rw [hl]; rfl
  | d + 1, b, hf => by
    rw [findLeaf] at hf
    obtain ⟨p, e1, hf⟩ := Res.bind_eq_ok.1 hf
    obtain ⟨ch, e2, hf⟩ := Res.bind_eq_ok.1 hf
    obtain ⟨u, e3⟩ := eraseAt_put hx hl d ch hf
    exact ⟨u || thin c d ch, by rw [eraseAt, e1, Res.ok_bind, e2, Res.ok_bind, e3]; rfl⟩

/-- A calm history ends in a correct tree. -/
theorem run_calm_tree (F : Laws c adm) (hM : 2 ≤ M) (hm : c.move = false → M % 64 ≠ 0) (hN : 2 ≤ c.N) (hN64 : c.N % 64 ≠ 0) :
    ∀ (ops : List (Op K V)) (t : Store c M) (m : K → Option V), TOk adm t → (∀ k v, t.Has k v ↔ m k = some v) →
      (∀ o ∈ ops, adm o.key) → calm ops (⟨t, []⟩ : EStore c M) = true →
      ∃ t', run ops (⟨t, []⟩ : EStore c M) = .ok (some (⟨t', []⟩, (spec ops m).2)) ∧ TOk adm t' ∧
        ∀ k v, t'.Has k v ↔ (spec ops m).1 k = some v
  | [], t, m, ht, hh, _, _ => ⟨t, rfl, ht, hh⟩
  | .ins k v :: ops, t, m, ht, hh, ha, hc => by
    have hk : adm k := ha (.ins k v) (by simp)
    obtain ⟨t', e', g1, g2⟩ := estore_insert_law F hM hm hN hN64 ht hk v
    rw [calm, e'] at hc
    rw [run, e', Res.ok_bind]
    refine run_calm_tree F hM hm hN hN64 ops t' (fun x => if x = k then some v else m x) g1 (fun x w => ?_)
      (fun o ho => ha o (List.mem_cons_of_mem _ ho)) hc
    rw [g2]
    unfold Ups
    by_cases hx : x = k
    · simp [hx, eq_comm]
    · simp [hx, hh]
  | .del k :: ops, t, m, ht, hh, ha, hc => by
    have hk : adm k := ha (.del k) (by simp)
    obtain ⟨h', r, u, e, g1, g2, g3⟩ := store_erase_law F ht hk
    rw [calm, Bool.and_eq_true] at hc
    have e1 := erase_quiet (t := ⟨t, []⟩) e hc.1
    have hc2 := hc.2
    rw [e1] at hc2
    obtain ⟨t', er, hl⟩ := run_calm_tree F hM hm hN hN64 ops ⟨t.depth, t.root, h', t.first⟩ (fun x => if x = k then none else m x) g1
      (fun x w => by
        rw [g3]
        unfold Del
        by_cases hx : x = k
        · simp [hx]
        · simp [hx, hh])
      (fun o ho => ha o (List.mem_cons_of_mem _ ho)) hc2
    refine ⟨t', ?_, hl⟩
    rw [run, e1, Res.ok_bind]
    simp only
    rw [er]
    show Res.ok (some (_, r :: _)) = _
    have : r = (m k).isSome := by
      rw [Bool.eq_iff_iff, g2, Option.isSome_iff_exists]
      exact exists_congr fun v => hh k v
    rw [this]
    rfl

end Verif.BitTree
