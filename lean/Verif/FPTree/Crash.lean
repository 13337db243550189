import Verif.FPTree.Step

/-!
# Crashes inside a leaf insert of the FPTree

`insertInLeafNodeAtPosition` (FPTree.hpp:611-624) is not a transaction: it performs four writes.  The
model of a crash: the writes become persistent in program order, one array element or bit at a time, so
that after a crash some prefix of the writes has been done.
-/

set_option linter.unusedSectionVars false

namespace Verif.FPTree

open Verif Search BTree Assoc

variable {K V : Type} {M : Nat} [LinearOrder K] [Inhabited K] {c : FCfg K V} {adm : K → Prop}

/-- A write to one element of a leaf. -/
inductive LWrite (K V : Type) where
  | key (p : Nat) (k : K)
  | val (p : Nat) (v : V)
  | bit (p : Nat)
  | fp (p : Nat) (f : Nat)

/-- The effect of a write; `set` throws for `p ≥ M`, the other writes are out of bounds. -/
def LWrite.apply (l : FLeaf M K V) : LWrite K V → Res (FLeaf M K V)
  | .key p k => if p < M then .ok { l with keys := upd l.keys p k } else .ub
  | .val p v => if p < M then .ok { l with vals := upd l.vals p v } else .ub
  | .bit p => do
    let b ← l.bits.set p
    pure { l with bits := b }
  | .fp p f => if p < M then .ok { l with fp := upd l.fp p f } else .ub

/-- A sequence of writes. -/
def applyAll : FLeaf M K V → List (LWrite K V) → Res (FLeaf M K V)
  | l, [] => .ok l
  | l, w :: ws => do
    let l ← w.apply l
    applyAll l ws

/-- 617-622: the writes of `insertInLeafNodeAtPosition` in program order. -/
def insertWrites (c : FCfg K V) (p : Nat) (k : K) (v : V) : List (LWrite K V) :=
  [.key p k, .val p v, .bit p, .fp p (c.hash k)]

/-- The model of the whole insert and its sequence of writes agree. -/
theorem insertAt_writes (l : FLeaf M K V) {p : Nat} (hp : p < M) (k : K) (v : V) :
    applyAll l (insertWrites c p k v) = l.insertAt c p k v := by
  unfold FLeaf.insertAt FLeaf.fill
  rw [Res.assert_pos hp, Res.ok_bind]
  simp only [insertWrites, applyAll, LWrite.apply, if_pos hp, Res.ok_bind]
  cases l.bits.set p <;> rfl

theorem entsFrom_congr {l l' : FLeaf M K V} (hb : l'.bits = l.bits)
    (h : ∀ i, i < M → Bitmap.bit l.bits i = true → l'.keys i = l.keys i ∧ l'.vals i = l.vals i) :
    ∀ (n i : Nat), i + n ≤ M → entsFrom l' i n = entsFrom l i n
  | 0, _, _ => rfl
  | n + 1, i, hi => by
    rw [entsFrom, entsFrom, hb, entsFrom_congr hb h n (i + 1) (by omega)]
    by_cases hv : Bitmap.bit l.bits i = true
    · rw [if_pos hv, if_pos hv, (h i (by omega) hv).1, (h i (by omega) hv).2]
    · rw [if_neg hv, if_neg hv]

/-- A leaf that differs in unused slots only. -/
theorem unused_slot {l l' : FLeaf M K V} (h : FOk c.hash adm l) (hb : l'.bits = l.bits) (hf : l'.fp = l.fp)
    (hv : ∀ i, i < M → Bitmap.bit l.bits i = true → l'.keys i = l.keys i ∧ l'.vals i = l.vals i) :
    FOk c.hash adm l' ∧ ents l' = ents l := by
  refine ⟨⟨by rw [hb]; exact h.clean, ?_, ?_, ?_⟩, entsFrom_congr hb hv M 0 (by omega)⟩
  · intro i j hi hj h1 h2 h3
    rw [hb] at h1 h2
    rw [(hv i hi h1).1, (hv j hj h2).1] at h3
    exact h.inj i j hi hj h1 h2 h3
  · intro i hi h1
    rw [hb] at h1
    rw [hf, (hv i hi h1).1]; exact h.fp i hi h1
  · intro i hi h1
    rw [hb] at h1
    rw [(hv i hi h1).1]; exact h.adm i hi h1

/-- Setting the bit of slot `p` is not noticed by `lookup` if the fingerprint of `p` is not that of its
key. -/
theorem posLoop_unseen {l : FLeaf M K V} {b : Bitmap M} {p : Nat}
    (hb : ∀ q, q < M → Bitmap.bit b q = if q = p then true else Bitmap.bit l.bits q)
    (hp0 : Bitmap.bit l.bits p = false) (hf : l.fp p ≠ c.hash (l.keys p)) (k : K) : ∀ (n i : Nat), i + n ≤ M →
    FLeaf.posLoop ({ l with bits := b } : FLeaf M K V) (c.hash k) k i n = FLeaf.posLoop l (c.hash k) k i n
  | 0, _, _ => rfl
  | n + 1, i, hi => by
    rw [FLeaf.posLoop, FLeaf.posLoop, posLoop_unseen hb hp0 hf k n (i + 1) (by omega)]
    rw [rdA_ok (show i < M by omega), rdA_ok (show i < M by omega), Res.ok_bind, Res.ok_bind, Res.ok_bind]
    by_cases hfp : l.fp i = c.hash k
    · have ht : ({ l with bits := b } : FLeaf M K V).bits.test i = .ok (Bitmap.bit b i) :=
        Bitmap.test_eq _ (by omega)
      have ht' : l.bits.test i = .ok (Bitmap.bit l.bits i) := Bitmap.test_eq _ (by omega)
      rw [if_pos hfp, if_pos hfp, ht, ht', Res.ok_bind, Res.ok_bind, hb i (by omega)]
      by_cases hip : i = p
      · subst hip
        have hne : l.keys i ≠ k := by rintro rfl; exact hf hfp
        rw [if_pos rfl, if_pos rfl, if_neg hne, hp0]
        simp
      · rw [if_neg hip]
    · rw [if_neg hfp, if_neg hfp]

/-- What a reader sees in a leaf: the results of all lookups, and the entries reported by `scan`. -/
structure Sees (c : FCfg K V) (l : FLeaf M K V) (m : K → Option V) (es : List (K × V)) : Prop where
  lookup : ∀ k, l.lookup c k = .ok (m k)
  scan : l.scanFrom 0 M = .ok es

/-- All crash points of an insert into a free slot. -/
theorem crash_points {l : FLeaf M K V} (h : FOk c.hash adm l) (hl : l.abs.length < M) {k : K}
    (hk : ∀ e ∈ l.abs, e.1 ≠ k) (ha : adm k) (v : V) (n : Nat) :
    ∃ l', applyAll l ((insertWrites c l.bits.getFreeZero k v).take n) = .ok l' ∧
      ((n ≤ 2 ∧ FOk c.hash adm l' ∧ ents l' = ents l) ∨
       (n = 3 ∧ (ents l').Perm ((k, v) :: ents l) ∧ ((∀ x, l'.lookup c x = l.lookup c x) ∨
          FOk c.hash adm l' ∧ l'.abs = upsert k v l.abs)) ∨
       (4 ≤ n ∧ FOk c.hash adm l' ∧ (ents l').Perm ((k, v) :: ents l) ∧ l'.abs = upsert k v l.abs)) := by
  obtain ⟨hp, hb0⟩ := free_slot hl
  generalize l.bits.getFreeZero = p at hp hb0
  obtain ⟨b', e, hbits, hcl⟩ := set_bit' (b := l.bits) hp true
  obtain ⟨l4, e4, ok4, perm4, _⟩ := fill_ok h hp hb0 hk ha v
  have hl4 : l4 = ⟨b', upd l.fp p (c.hash k), upd l.keys p k, upd l.vals p v⟩ := by
    unfold FLeaf.fill at e4
    rw [e, Res.ok_bind] at e4
    exact (Res.ok.inj e4).symm
  have hup : l4.abs = upsert k v l.abs := by
    apply sorted_ext ok4.sorted (upsert_sorted h.sorted)
    intro x
    rw [perm4.mem_iff, upsert_absent_perm h.sorted hk]
  have hperm : (ents l4).Perm ((k, v) :: ents l) :=
    (abs_perm l4).symm.trans (perm4.trans (List.Perm.cons _ (abs_perm l)))
  have hne : ∀ i, Bitmap.bit l.bits i = true → i ≠ p := by
    rintro i h1 rfl; rw [hb0] at h1; exact absurd h1 (by decide)
  have h1 := unused_slot (l' := { l with keys := upd l.keys p k }) h rfl rfl
    (fun i hi hv => ⟨by simp [upd, hne i hv], rfl⟩)
  have h2 := unused_slot (l' := { l with keys := upd l.keys p k, vals := upd l.vals p v }) h rfl rfl
    (fun i hi hv => ⟨by simp [upd, hne i hv], by simp [upd, hne i hv]⟩)
  have a1 : ∀ x : FLeaf M K V, (LWrite.key p k : LWrite K V).apply x = .ok { x with keys := upd x.keys p k } :=
    fun x => if_pos hp
  have a2 : ∀ x : FLeaf M K V, (LWrite.val p v : LWrite K V).apply x = .ok { x with vals := upd x.vals p v } :=
    fun x => if_pos hp
  have a3 : ∀ x : FLeaf M K V, x.bits = l.bits → (LWrite.bit p : LWrite K V).apply x = .ok { x with bits := b' } :=
    fun x hx => by rw [LWrite.apply, hx, e, Res.ok_bind]; rfl
  have a4 : ∀ x : FLeaf M K V, (LWrite.fp p (c.hash k) : LWrite K V).apply x =
      .ok { x with fp := upd x.fp p (c.hash k) } := fun x => if_pos hp
  match n with
  | 0 => exact ⟨l, rfl, Or.inl ⟨by omega, h, rfl⟩⟩
  | 1 =>
    refine ⟨_, ?_, Or.inl ⟨by omega, h1⟩⟩
    simp only [insertWrites, List.take_succ_cons, List.take_zero, applyAll, a1, Res.ok_bind]
  | 2 =>
    refine ⟨_, ?_, Or.inl ⟨by omega, h2⟩⟩
    simp only [insertWrites, List.take_succ_cons, List.take_zero, applyAll, a1, a2, Res.ok_bind]
  | 3 =>
    refine ⟨⟨b', l.fp, upd l.keys p k, upd l.vals p v⟩, ?_, Or.inr (Or.inl ⟨rfl, ?_, ?_⟩)⟩
    · simp only [insertWrites, List.take_succ_cons, List.take_zero, applyAll, a1, a2, Res.ok_bind]
      rw [a3 ⟨l.bits, l.fp, upd l.keys p k, upd l.vals p v⟩ rfl]; rfl
    · rw [show ents (⟨b', l.fp, upd l.keys p k, upd l.vals p v⟩ : FLeaf M K V) = ents l4 from
        entsFrom_congr (by rw [hl4]) (fun i _ _ => by rw [hl4]; exact ⟨rfl, rfl⟩) M 0 (by omega)]
      exact hperm
    · by_cases hf : l.fp p = c.hash k
      · right
        have : (⟨b', l.fp, upd l.keys p k, upd l.vals p v⟩ : FLeaf M K V) = l4 := by
          rw [hl4]
          congr 1
          funext i
          simp only [upd]
          by_cases hi : i = p
          · rw [if_pos hi, hi, hf]
          · rw [if_neg hi]
        rw [this]; exact ⟨ok4, hup⟩
      · left
        intro x
        have hx : FLeaf.pos c (⟨b', l.fp, upd l.keys p k, upd l.vals p v⟩ : FLeaf M K V) x =
            FLeaf.pos c (⟨l.bits, l.fp, upd l.keys p k, upd l.vals p v⟩ : FLeaf M K V) x := by
          have := posLoop_unseen (c := c) (l := (⟨l.bits, l.fp, upd l.keys p k, upd l.vals p v⟩ : FLeaf M K V))
            hbits hb0 (by simpa [upd] using hf) x M 0 (by omega)
          exact this
        have hlook : FLeaf.lookup c (⟨b', l.fp, upd l.keys p k, upd l.vals p v⟩ : FLeaf M K V) x =
            FLeaf.lookup c (⟨l.bits, l.fp, upd l.keys p k, upd l.vals p v⟩ : FLeaf M K V) x := by
          unfold FLeaf.lookup
          rw [hx]
        rw [hlook, lookup_law h2.1, lookup_law h]
        congr 2
        unfold FLeaf.abs
        rw [h2.2]
  | n + 4 =>
    refine ⟨l4, ?_, Or.inr (Or.inr ⟨by omega, ok4, hperm, hup⟩)⟩
    simp only [insertWrites, List.take_succ_cons, List.take_nil, applyAll, a1, a2, Res.ok_bind]
    rw [a3 ⟨l.bits, l.fp, upd l.keys p k, upd l.vals p v⟩ rfl, Res.ok_bind, a4, Res.ok_bind, hl4]

end Verif.FPTree
