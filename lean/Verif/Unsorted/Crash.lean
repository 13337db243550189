import Verif.Unsorted.Step
import Verif.BTree.Crash

/-!
# Crashes inside a leaf operation of the UnsortedPBPTree

Neither `insert` nor `erase` runs a transaction, and `get_rw()` logs nothing outside a transaction.  Model
of a crash: the writes to array elements and to `numKeys` become persistent one by one in program
order, so that after a crash some prefix of the writes has been done.
-/

set_option linter.unusedSectionVars false

namespace Verif.Unsorted

open Verif BTree Assoc MapSpec

variable {K V : Type} [LinearOrder K] [Inhabited K] {c : UCfg K V} {adm : K → Prop}

/-- A write to one element of a leaf or to `numKeys`. -/
inductive UWrite (K V : Type) where
  | key (p : Nat) (k : K)
  | val (p : Nat) (v : V)
  | num (n : Nat)

/-- The effect of a write; array writes with `p ≥ M` are out of bounds. -/
def UWrite.apply (M : Nat) (l : ULeaf K V) : UWrite K V → Res (ULeaf K V)
  | .key p k => do
    let ks ← wrA M l.keys p k
    pure { l with keys := ks }
  | .val p v => do
    let vs ← wrA M l.vals p v
    pure { l with vals := vs }
  | .num n => .ok { l with num := n }

/-- A sequence of writes. -/
def applyAll (M : Nat) : ULeaf K V → List (UWrite K V) → Res (ULeaf K V)
  | l, [] => .ok l
  | l, w :: ws => do
    let l ← w.apply M l
    applyAll M l ws

/-- 892-928 `insertInLeafNode` without a split: the value is overwritten (898) or the entry is written
behind the last one (1001-1003). -/
def insertWrites (c : UCfg K V) (l : ULeaf K V) (k : K) (v : V) : Res (List (UWrite K V)) := do
  let p ← ULeaf.pos c l k
  let hit ← (if p < l.num then do
      let x ← FPTree.rdA c.M l.keys p
      pure (decide (x = k))
    else pure false : Res Bool)
  if hit then pure [.val p v]
  else pure [.key l.num k, .val l.num v, .num (l.num + 1)]

/-- 397-401: the writes of `eraseFromLeafNodeAtPosition` for position `p`. -/
def eraseWrites (l : ULeaf K V) (p : Nat) : List (UWrite K V) :=
  if p ≠ l.num - 1 then
    [.num (l.num - 1), .key p (l.keys (l.num - 1)), .val p (l.vals (l.num - 1))]
  else [.num (l.num - 1)]

/-- The tree after a crash that follows the first `n` writes of an insert of `k` without a split. -/
def crashInsert (c : UCfg K V) (s : State K (ULeaf K V)) (k : K) (v : V) (n : Nat) :
    Res (State K (ULeaf K V)) := do
  let id ← findLeaf (uOps c) s.depth s.root k
  let l ← s.heap.get id
  let ws ← insertWrites c l k v
  let l' ← applyAll c.M l (ws.take n)
  pure (withLeaf s id l')

/-- The tree after a crash that follows the first `n` writes to the leaf by an erase of `k`; the erase of a
key that is not found writes nothing. -/
def crashErase (c : UCfg K V) (s : State K (ULeaf K V)) (k : K) (n : Nat) : Res (State K (ULeaf K V)) := do
  let id ← findLeaf (uOps c) s.depth s.root k
  let l ← s.heap.get id
  let p ← ULeaf.pos c l k
  let x ← FPTree.rdA c.M l.keys p
  if x = k then do
    let l' ← applyAll c.M l ((eraseWrites l p).take n)
    pure (withLeaf s id l')
  else pure s

/-! ## Lookups in a leaf by slot -/

theorem find_slot {M : Nat} {l : ULeaf K V} (h : UOk M adm l) {i : Nat} (hi : i < l.num) :
    find (l.keys i) l.abs = some (l.vals i) :=
  (mem_iff_find h.sorted).1 (mem_uabs.2 (mem_ents.2 ⟨i, hi, rfl⟩))

theorem find_noslot {l : ULeaf K V} {x : K} (hx : ∀ i, i < l.num → l.keys i ≠ x) :
    find x l.abs = none := by
  rw [find_eq_none]
  intro e he
  obtain ⟨i, hi, rfl⟩ := mem_ents.1 (mem_uabs.1 he)
  exact hx i hi

theorem uok_of_slots {M : Nat} {l : ULeaf K V} (hc : l.num ≤ M)
    (hi : ∀ i j, i < l.num → j < l.num → l.keys i = l.keys j → i = j)
    (ha : ∀ i, i < l.num → adm (l.keys i)) : UOk M adm l := by
  refine ⟨hc, ?_, ?_⟩
  · unfold ents
    rw [List.map_map]
    exact List.Nodup.map_on (fun i h1 j h2 h => hi i j (List.mem_range.1 h1) (List.mem_range.1 h2) h)
      List.nodup_range
  · intro e he
    obtain ⟨i, hi, rfl⟩ := mem_ents.1 he
    exact ha i hi

/-! ## Insert -/

/-- The writes of an insert are those of the model of the insert. -/
theorem insert_writes {l : ULeaf K V} (h : UOk c.M adm l) {k : K} (v : V)
    (hf : find k l.abs ≠ none ∨ l.num < c.M) :
    ∃ ws l', insertWrites c l k v = .ok ws ∧ applyAll c.M l ws = .ok l' ∧
      ULeaf.insert c l k v = .ok (.done l') := by
  obtain ⟨p, e, h'⟩ := pos_spec h k
  have hc := h.cap
  unfold insertWrites ULeaf.insert
  rw [e, Res.ok_bind, Res.ok_bind]
  rcases h' with ⟨h1, h2⟩ | ⟨h1, h2⟩
  · rw [if_pos h1, FPTree.rdA_ok (by omega), Res.ok_bind, Res.pure_eq, Res.ok_bind, Res.ok_bind, if_pos (by simpa using h2),
      if_pos (by simpa using h2), wrA_ok (by omega), Res.ok_bind]
    refine ⟨_, _, rfl, ?_, rfl⟩
    simp only [applyAll, UWrite.apply, wrA_ok (show p < c.M by omega), Res.ok_bind, Res.pure_eq]
  · have hl : l.num < c.M := by
      rcases hf with hf | hf
      · exact absurd (find_eq_none.2 (fun e he => h2 e (mem_uabs.1 he))) hf
      · exact hf
    rw [if_neg (by omega), Res.pure_eq, Res.ok_bind, Res.ok_bind, if_neg (by simp), if_neg (by simp), if_neg (by omega)]
    unfold ULeaf.insertLast
    rw [Res.assert_pos hl, Res.ok_bind, put_ok l hl, Res.ok_bind]
    refine ⟨_, _, rfl, ?_, rfl⟩
    simp only [applyAll, UWrite.apply, wrA_ok hl, Res.ok_bind, Res.pure_eq]

/-- All crash points of an insert without a split. -/
theorem insert_crash_points (U : ULaws c adm) (hM : 2 ≤ c.M) {l : ULeaf K V} (h : UOk c.M adm l) {k : K}
    (ha : adm k) (v : V) (hf : find k l.abs ≠ none ∨ l.num < c.M) (n : Nat) :
    ∃ ws l', insertWrites c l k v = .ok ws ∧ applyAll c.M l (ws.take n) = .ok l' ∧ UOk c.M adm l' ∧
      (l'.abs = l.abs ∨ l'.abs = upsert k v l.abs) ∧ (ws.length ≤ n → l'.abs = upsert k v l.abs) := by
  obtain ⟨ws, l', e1, e2, e3⟩ := insert_writes h v hf
  have hfull : UOk c.M adm l' ∧ l'.abs = upsert k v l.abs := by
    rcases insert_law U hM h ha v with ⟨l'', e4, ok, ab⟩ | ⟨a, b, s, e4, _⟩
    · rw [e4] at e3
      injection e3 with e3
      injection e3 with e3
      subst e3
      exact ⟨ok, ab⟩
    · rw [e4] at e3
      injection e3 with e3
      cases e3
  by_cases hn : ws.length ≤ n
  · exact ⟨ws, l', e1, by rw [List.take_of_length_le hn]; exact e2, hfull.1, Or.inr hfull.2, fun _ => hfull.2⟩
  · have hc := h.cap
    have same : ∀ l2 : ULeaf K V, l2.num = l.num → (∀ i, i < l.num → l2.keys i = l.keys i ∧ l2.vals i = l.vals i) →
        ents l2 = ents l := by
      intro l2 h1 h2
      unfold ents
      rw [h1]
      exact List.map_congr_left (fun i hi => by
        rw [(h2 i (List.mem_range.1 hi)).1, (h2 i (List.mem_range.1 hi)).2])
    have fin : ∀ l2 : ULeaf K V, l2.num = l.num → (∀ i, i < l.num → l2.keys i = l.keys i ∧ l2.vals i = l.vals i) →
        UOk c.M adm l2 ∧ l2.abs = l.abs := by
      intro l2 h1 h2
      have := same l2 h1 h2
      exact ⟨⟨by omega, by rw [this]; exact h.nodup, by rw [this]; exact h.adm⟩, by rw [ULeaf.abs, this]; rfl⟩
    unfold insertWrites at e1
    obtain ⟨p, e, h'⟩ := pos_spec h k
    rw [e, Res.ok_bind] at e1
    rcases h' with ⟨h1, h2⟩ | ⟨h1, h2⟩
    · rw [if_pos h1, FPTree.rdA_ok (by omega), Res.ok_bind, Res.pure_eq, Res.ok_bind, if_pos (by simpa using h2)] at e1
      cases Res.ok.inj e1
      have : n = 0 := by simpa using hn
      subst this
      refine ⟨[.val p v], l, ?_, rfl, h, Or.inl rfl, ?_⟩
      · unfold insertWrites
        rw [e, Res.ok_bind, if_pos h1, FPTree.rdA_ok (by omega), Res.ok_bind, Res.pure_eq, Res.ok_bind, if_pos (by simpa using h2)]
        rfl
      · intro h; simp at h
    · have hl : l.num < c.M := by
        rcases hf with hf | hf
        · exact absurd (find_eq_none.2 (fun e he => h2 e (mem_uabs.1 he))) hf
        · exact hf
      rw [if_neg (by omega), Res.pure_eq, Res.ok_bind, if_neg (by simp)] at e1
      cases Res.ok.inj e1
      have ew : insertWrites c l k v = .ok [.key l.num k, .val l.num v, .num (l.num + 1)] := by
        unfold insertWrites
        rw [e, Res.ok_bind, if_neg (by omega), Res.pure_eq, Res.ok_bind, if_neg (by simp)]
        rfl
      have hne : ∀ i, i < l.num → i ≠ l.num := fun i hi => by omega
      match n, hn with
      | 0, _ => exact ⟨_, l, ew, rfl, h, Or.inl rfl, by simp⟩
      | 1, _ =>
        obtain ⟨a, b⟩ := fin ({ l with keys := upd l.keys l.num k } : ULeaf K V) rfl
          (fun i hi => ⟨by simp [upd, hne i hi], rfl⟩)
        refine ⟨_, _, ew, ?_, a, Or.inl b, by simp⟩
        simp only [List.take_succ_cons, List.take_zero, applyAll, UWrite.apply, wrA_ok hl, Res.ok_bind, Res.pure_eq]
      | 2, _ =>
        obtain ⟨a, b⟩ := fin ({ l with keys := upd l.keys l.num k, vals := upd l.vals l.num v } : ULeaf K V) rfl
          (fun i hi => ⟨by simp [upd, hne i hi], by simp [upd, hne i hi]⟩)
        refine ⟨_, _, ew, ?_, a, Or.inl b, by simp⟩
        simp only [List.take_succ_cons, List.take_zero, applyAll, UWrite.apply, wrA_ok hl, Res.ok_bind, Res.pure_eq]
      | n + 3, hn => exact absurd (by simp) hn

/-- The leaf of `k` has a free slot. -/
def Room (c : UCfg K V) (s : State K (ULeaf K V)) (k : K) : Prop :=
  ∀ id l, findLeaf (uOps c) s.depth s.root k = .ok id → s.heap.data id = some l → l.num < c.M

/-- The tree after a crash in an insert without a split: before or after the insert. -/
theorem crashInsert_spec (U : ULaws c adm) (hM : 2 ≤ c.M) {lm bm rm : Nat} {s : State K (ULeaf K V)}
    (g : Good (uLaws U hM) lm bm rm s) {k : K} (ha : adm k) (v : V)
    (hr : find k (cont (uLaws U hM) s) ≠ none ∨ Room c s k) :
    (∀ n, ∃ s', crashInsert c s k v n = .ok s' ∧
      ((∀ x, lookup (uOps c) s' x = .ok (find x (cont (uLaws U hM) s))) ∨
        ∀ x, lookup (uOps c) s' x = .ok (if x = k then some v else find x (cont (uLaws U hM) s)))) ∧
    ∃ s', crashInsert c s k v 3 = .ok s' ∧ insert (uOps c) s k v = .ok s' := by
  obtain ⟨id, l, a⟩ := leafOf g k
  have hok : UOk c.M adm l := a.ok
  have hf : find k l.abs ≠ none ∨ l.num < c.M := by
    rcases hr with h | h
    · left
      rw [a.look k a.find] at h
      exact h
    · exact Or.inr (h id l a.find a.data)
  have hget : s.heap.get id = .ok l := by rw [Heap.get, a.data]; rfl
  constructor
  · intro n
    obtain ⟨ws, l', e1, e2, ok', h1, _⟩ := insert_crash_points U hM hok ha v hf n
    refine ⟨withLeaf s id l', ?_, ?_⟩
    · unfold crashInsert
      rw [a.find, Res.ok_bind, hget, Res.ok_bind, e1, Res.ok_bind, e2, Res.ok_bind]; rfl
    · rcases h1 with h1 | h1
      · left
        exact a.lookup_same g (fun x => by
          show ULeaf.lookup c l' x = _
          rw [lookup_law ok', h1]; rfl)
      · right
        exact a.lookup_upsert g (fun x => by
          show ULeaf.lookup c l' x = _
          rw [lookup_law ok', h1]; rfl)
  · obtain ⟨ws, l', e1, e2, e3⟩ := insert_writes hok v hf
    have hlen : ws.length ≤ 3 := by
      unfold insertWrites at e1
      obtain ⟨p, _, e1⟩ := Res.bind_eq_ok.1 e1
      obtain ⟨hit, _, e1⟩ := Res.bind_eq_ok.1 e1
      split at e1 <;> cases Res.ok.inj e1 <;> simp
    refine ⟨withLeaf s id l', ?_, insert_inplace a e3⟩
    unfold crashInsert
    rw [a.find, Res.ok_bind, hget, Res.ok_bind, e1, Res.ok_bind, List.take_of_length_le hlen, e2, Res.ok_bind]; rfl

/-! ## Erase -/

/-- The writes of an erase are those of the model of the erase. -/
theorem erase_writes {l : ULeaf K V} (hc : l.num ≤ c.M) {p : Nat} (hp : p < l.num) :
    applyAll c.M l (eraseWrites l p) = ULeaf.dropAt c l p := by
  unfold eraseWrites ULeaf.dropAt
  rw [Res.guardUB_pos (by omega), Res.ok_bind]
  by_cases h : p ≠ l.num - 1
  · rw [if_pos h, if_pos h, FPTree.rdA_ok (by omega), Res.ok_bind, FPTree.rdA_ok (by omega), Res.ok_bind,
      put_ok l (by omega), Res.ok_bind]
    simp only [applyAll, UWrite.apply, wrA_ok (show p < c.M by omega), Res.ok_bind, Res.pure_eq]
  · rw [if_neg h, if_neg h]
    rfl

/-- All crash points of the erase of the entry in slot `p` of a leaf: the lookups in the leaf. -/
theorem erase_crash_points {l : ULeaf K V} (h : UOk c.M adm l) {p : Nat} (hp : p < l.num) (n : Nat) :
    ∃ l', applyAll c.M l ((eraseWrites l p).take n) = .ok l' ∧
      ∀ x, ULeaf.lookup c l' x = .ok
        (if n = 0 then find x l.abs
         else if p = l.num - 1 ∨ 3 ≤ n then (if x = l.keys p then none else find x l.abs)
         else if n = 1 then (if x = l.keys (l.num - 1) then none else find x l.abs)
         else if x = l.keys (l.num - 1) then some (l.vals p) else if x = l.keys p then none
         else find x l.abs) := by
  have hc := h.cap
  have fnd : ∀ x, (∃ i, i < l.num ∧ l.keys i = x) ∨ (∀ i, i < l.num → l.keys i ≠ x) := by
    intro x
    by_cases hx : ∃ i, i < l.num ∧ l.keys i = x
    · exact Or.inl hx
    · right; intro i hi he; exact hx ⟨i, hi, he⟩
  have sub : UOk c.M adm ({ l with num := l.num - 1 } : ULeaf K V) :=
    uok_of_slots (by show l.num - 1 ≤ c.M; omega)
      (fun i j (hi : i < l.num - 1) (hj : j < l.num - 1) he => h.inj (by omega) (by omega) he)
      (fun i (hi : i < l.num - 1) => h.adm (l.keys i, l.vals i) (mem_ents.2 ⟨i, by omega, rfl⟩))
  have hlast : ∀ x, ULeaf.lookup c ({ l with num := l.num - 1 } : ULeaf K V) x =
      .ok (if x = l.keys (l.num - 1) then none else find x l.abs) := by
    intro x
    rw [lookup_law sub]
    congr 1
    by_cases hx : x = l.keys (l.num - 1)
    · rw [if_pos hx]
      refine find_noslot (fun i (hi : i < l.num - 1) he => ?_)
      have := h.inj (i := i) (j := l.num - 1) (by omega) (by omega) (he.trans hx)
      omega
    · rw [if_neg hx]
      rcases fnd x with ⟨i, hi, rfl⟩ | hno
      · have hi' : i < l.num - 1 := by
          by_contra hcon
          exact hx (by congr 1; omega)
        rw [find_slot h hi]
        exact find_slot sub hi'
      · rw [find_noslot hno]
        exact find_noslot (fun i (hi : i < l.num - 1) => hno i (by omega))
  by_cases hpl : p = l.num - 1
  · match n with
    | 0 => exact ⟨l, by simp [applyAll], fun x => by simp [lookup_law h]⟩
    | n + 1 =>
      refine ⟨{ l with num := l.num - 1 }, ?_, ?_⟩
      · simp [eraseWrites, hpl, applyAll, UWrite.apply]
      · intro x
        rw [hlast x, if_neg (Nat.succ_ne_zero n), if_pos (Or.inl hpl), ← hpl]
  · have hw : eraseWrites l p = [.num (l.num - 1), .key p (l.keys (l.num - 1)), .val p (l.vals (l.num - 1))] :=
      if_pos hpl
    have hpM : p < c.M := by omega
    have keysOk : ∀ l2 : ULeaf K V, l2.num = l.num - 1 → l2.keys = upd l.keys p (l.keys (l.num - 1)) →
        UOk c.M adm l2 := by
      intro l2 h1 h2
      refine uok_of_slots (by omega) ?_ ?_
      · intro i j hi hj he
        rw [h1] at hi hj
        rw [h2] at he
        simp only [upd] at he
        by_cases hip : i = p <;> by_cases hjp : j = p
        · omega
        · rw [if_pos hip, if_neg hjp] at he
          have := h.inj (by omega) (by omega) he
          omega
        · rw [if_neg hip, if_pos hjp] at he
          have := h.inj (by omega) (by omega) he
          omega
        · rw [if_neg hip, if_neg hjp] at he
          exact h.inj (by omega) (by omega) he
      · intro i hi
        rw [h1] at hi
        rw [h2]
        simp only [upd]
        split
        · exact h.adm (l.keys (l.num - 1), l.vals (l.num - 1)) (mem_ents.2 ⟨_, by omega, rfl⟩)
        · exact h.adm (l.keys i, l.vals i) (mem_ents.2 ⟨i, by omega, rfl⟩)
    have keysLk : ∀ (l2 : ULeaf K V) (w : V), l2.num = l.num - 1 → l2.keys = upd l.keys p (l.keys (l.num - 1)) →
        l2.vals p = w → (∀ i, i ≠ p → l2.vals i = l.vals i) → ∀ x, ULeaf.lookup c l2 x =
        .ok (if x = l.keys (l.num - 1) then some w else if x = l.keys p then none else find x l.abs) := by
      intro l2 w h1 h2 h3 h4 x
      have ok2 := keysOk l2 h1 h2
      rw [lookup_law ok2]
      congr 1
      by_cases hx : x = l.keys (l.num - 1)
      · rw [if_pos hx]
        have := find_slot ok2 (i := p) (by omega)
        rw [h2, h3] at this
        simpa [upd, hx] using this
      · rw [if_neg hx]
        by_cases hx' : x = l.keys p
        · rw [if_pos hx']
          refine find_noslot (fun i hi => ?_)
          rw [h1] at hi
          rw [h2]
          simp only [upd]
          split
          · exact fun he => hx he.symm
          · rename_i hip
            intro he
            exact hip (h.inj (by omega) (by omega) (he.trans hx'))
        · rw [if_neg hx']
          rcases fnd x with ⟨i, hi, rfl⟩ | hno
          · have hip : i ≠ p := by rintro rfl; exact hx' rfl
            have hil : i < l.num - 1 := by
              by_contra hcon
              exact hx (by congr 1; omega)
            have := find_slot ok2 (i := i) (by omega)
            rw [h2, h4 i hip] at this
            simp only [upd, if_neg hip] at this
            rw [this, find_slot h hi]
          · rw [find_noslot hno]
            refine find_noslot (fun i hi => ?_)
            rw [h1] at hi
            rw [h2]
            simp only [upd]
            split
            · exact fun he => hx he.symm
            · exact hno i (by omega)
    match n with
    | 0 => exact ⟨l, by simp [applyAll], fun x => by simp [lookup_law h]⟩
    | 1 =>
      refine ⟨{ l with num := l.num - 1 }, ?_, ?_⟩
      · simp [hw, applyAll, UWrite.apply]
      · intro x
        rw [hlast x, if_neg (by decide : ¬ (1 = 0)), if_neg (show ¬ (p = l.num - 1 ∨ 3 ≤ 1) by omega), if_pos rfl]
    | 2 =>
      refine ⟨⟨l.num - 1, upd l.keys p (l.keys (l.num - 1)), l.vals⟩, ?_, ?_⟩
      · simp only [hw, List.take_succ_cons, List.take_zero, applyAll, UWrite.apply, wrA_ok hpM, Res.ok_bind,
          Res.pure_eq]
      · intro x
        rw [if_neg (by omega), if_neg (by omega), if_neg (by omega)]
        exact keysLk ⟨l.num - 1, upd l.keys p (l.keys (l.num - 1)), l.vals⟩ (l.vals p) rfl rfl rfl (fun _ _ => rfl) x
    | n + 3 =>
      refine ⟨⟨l.num - 1, upd l.keys p (l.keys (l.num - 1)), upd l.vals p (l.vals (l.num - 1))⟩, ?_, ?_⟩
      · simp only [hw, List.take_succ_cons, List.take_nil, applyAll, UWrite.apply, wrA_ok hpM, Res.ok_bind,
          Res.pure_eq]
      · intro x
        rw [if_neg (by omega), if_pos (Or.inr (by omega))]
        rw [keysLk _ (l.vals (l.num - 1)) rfl rfl (by simp [upd]) (fun i hi => by simp [upd, hi]) x]
        congr 1
        by_cases hx : x = l.keys (l.num - 1)
        · rw [if_pos hx, if_neg (by
            rw [hx]; intro he
            have := h.inj (by omega) hp he
            omega), hx, find_slot h (by omega)]
        · rw [if_neg hx]

/-- The tree after a crash in the erase of a stored key `k`.  There is a stored key `z` (the one in the last
slot of the leaf) such that: if `z = k`, the erase is one write.  Otherwise `z` is missing after the first
write, and after the second write `k` is gone and `z` has the value of `k`. -/
theorem crashErase_spec (U : ULaws c adm) (hM : 2 ≤ c.M) {lm bm rm : Nat} {s : State K (ULeaf K V)}
    (g : Good (uLaws U hM) lm bm rm s) {k : K} {m : K → Option V} (hm : Stores (uLaws U hM) s m)
    (hk : m k ≠ none) : ∃ z, m z ≠ none ∧ ∀ n, ∃ s', crashErase c s k n = .ok s' ∧
      ∀ x, lookup (uOps c) s' x = .ok
        (if n = 0 then m x
         else if z = k ∨ 3 ≤ n then (if x = k then none else m x)
         else if n = 1 then (if x = z then none else m x)
         else if x = z then m k else if x = k then none else m x) := by
  obtain ⟨id, l, a⟩ := leafOf g k
  have h : UOk c.M adm l := a.ok
  have hc := h.cap
  have hget : s.heap.get id = .ok l := by rw [Heap.get, a.data]; rfl
  have hk' : find k l.abs ≠ none := by
    have := a.look k a.find
    rw [hm k] at this
    rw [this] at hk
    exact hk
  obtain ⟨p, e, hp, hkey⟩ : ∃ p, ULeaf.pos c l k = .ok p ∧ p < l.num ∧ l.keys p = k := by
    obtain ⟨p, e, h'⟩ := pos_spec h k
    rcases h' with ⟨h1, h2⟩ | ⟨_, h2⟩
    · exact ⟨p, e, h1, h2⟩
    · exact absurd (find_eq_none.2 (fun e he => h2 e (mem_uabs.1 he))) hk'
  have hmk : m k = some (l.vals p) := by
    rw [← hm k, a.look k a.find, ← hkey]; exact find_slot h hp
  have hin : ∀ i, i < l.num → m (l.keys i) = some (l.vals i) := by
    intro i hi
    have hfi : find (l.keys i) l.abs = some (l.vals i) := find_slot h hi
    have hh := a.home (l.keys i) (by show find (l.keys i) l.abs ≠ none; rw [hfi]; simp)
    rw [← hm, a.look _ hh]; exact hfi
  refine ⟨l.keys (l.num - 1), by rw [hin _ (by omega)]; simp, fun n => ?_⟩
  obtain ⟨l', e', hl'⟩ := erase_crash_points h hp n
  refine ⟨withLeaf s id l', ?_, ?_⟩
  · unfold crashErase
    rw [a.find, Res.ok_bind, hget, Res.ok_bind, e, Res.ok_bind, FPTree.rdA_ok (by omega), Res.ok_bind, if_pos hkey,
      e', Res.ok_bind]; rfl
  · have hzk : (l.keys (l.num - 1) = k) ↔ p = l.num - 1 := by
      constructor
      · intro he; exact h.inj hp (by omega) (hkey.trans he.symm)
      · intro he; rw [← he]; exact hkey
    intro x
    have hloc := a.lookup g (l' := l') hl' (fun x hx hxk => by
      have hx : find x l.abs = none := hx
      have hne : ∀ i, i < l.num → x ≠ l.keys i := by
        rintro i hi rfl
        rw [find_slot h hi] at hx; cases hx
      simp only [if_neg (hne p hp), if_neg (hne (l.num - 1) (by omega)), hx, ite_self]) x
    have hout : x ≠ l.keys p → x ≠ l.keys (l.num - 1) → lookup (uOps c) (withLeaf s id l') x = .ok (m x) := by
      intro h1 h2
      rw [hloc.1 (by
        show _ = find x l.abs
        simp only [if_neg h1, if_neg h2, ite_self]), hm x]
    have hinn : ∀ i, i < l.num → x = l.keys i → lookup (uOps c) (withLeaf s id l') x = ULeaf.lookup c l' x := by
      intro i hi hx
      apply lookup_in
      apply a.home
      show find x l.abs ≠ none
      rw [hx, find_slot h hi]; simp
    by_cases h1 : x = l.keys p
    · rw [hinn p hp h1, hl' x]
      have hf : find x l.abs = m x := by rw [h1, find_slot h hp, hin p hp]
      rw [hf]
      simp only [hkey, hzk, hmk]
    · by_cases h2 : x = l.keys (l.num - 1)
      · rw [hinn _ (by omega) h2, hl' x]
        have hf : find x l.abs = m x := by rw [h2, find_slot h (by omega), hin _ (by omega)]
        rw [hf]
        simp only [hkey, hzk, hmk]
      · rw [hout h1 h2]
        have h1' : x ≠ k := by rw [← hkey]; exact h1
        simp only [if_neg h1', if_neg h2, ite_self]

end Verif.Unsorted
