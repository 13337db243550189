import Verif.FPTree.SplitCrash
import Verif.FPTree.Props
import Verif.CrashSpec

/-!
# Property theorems on crashes inside leaf splits of the FPTree (C78)

The specification is `Verif.MapSpec` with `Verif.CrashSpec`.  A split moves entries and changes no mapping, so the lookups
after the crash and the recovery should be those before the operation.
-/

set_option linter.unusedSectionVars false

namespace Verif.FPTreeProps

open Verif Search BTree FPTree Assoc MapSpec CrashSpec

variable {K V : Type} {M : Nat} [LinearOrder K] [Inhabited K] {c : FCfg K V} {adm : K → Prop}

/-- The leaf responsible for `k` is `l`, stored at `id`, and has no free slot: an insert of a new key `k` splits it. -/
def FullLeaf (c : FCfg K V) (s : State K (FLeaf M K V)) (k : K) (id : Nat) (l : FLeaf M K V) : Prop :=
  findLeaf (fpOps c M) s.depth s.root k = .ok id ∧ s.heap.data id = some l ∧ ∀ p, p < M → Bitmap.bit l.bits p = true

/-- `moved` are the keys of the leaf from the split key on, in the order of the slots. -/
structure MovedKeys (l : FLeaf M K V) (sk : K) (moved : List K) : Prop where
  nodup : moved.Nodup
  half : moved.length = M / 2
  mem : ∀ x, x ∈ moved ↔ sk ≤ x ∧ ∃ p, p < M ∧ l.keys p = x

/-- The smallest key of a leaf with the minimal fill. -/
theorem minKey_half (F : FLaws c adm) (h4 : 4 ≤ M ∨ ∀ k, adm k → k < c.lim.max) (l : FLeaf M K V) (e : K × V) (es : List (K × V))
    (hok : FOk c.hash adm l) (hab : l.abs = e :: es) (hlen : M / 2 ≤ l.abs.length) : l.minKey c = .ok e.1 := by
  refine minKey_law F hok hab ?_
  rcases h4 with h4 | h4
  · left
    rw [hab] at hlen; simp at hlen; omega
  · right
    obtain ⟨p, hp, hb, he⟩ := mem_abs.1 (show e ∈ l.abs by rw [hab]; simp)
    rw [he]; exact h4 _ (hok.adm p hp hb)

/-- C78 in full: a crash at any point of a leaf split, followed by a recovery, changes no lookup. -/
def C78_statement (c : FCfg K V) (adm : K → Prop) (M : Nat) : Prop :=
  ∀ ops : List (Op K V), InsertsOnly ops → (∀ k v, Op.insert k v ∈ ops → adm k) →
    ∀ bs s, execAll (fpOps c M) (init (fpOps c M)) ops = .ok (bs, s) →
    ∀ k id l, FullLeaf c s k id l → ∀ t, ∃ h s', crashSplit c s k t = .ok h ∧ recoverF (fpOps c M) h 0 = .ok s' ∧
      Reads (lookup (fpOps c M) s') (run empty ops)

/-- C78, exactly: after `t` assignments the first `t / 5` moved keys are lost until the pointer to the sibling is
set; all other lookups are right at all times, and after the last assignment persistent memory is that of the split.
Missing: the keys lost in between (`C78_refuted`). -/
theorem C78_split_crash_partial (F : FLaws c adm) (hN : 3 ≤ c.N) (hM : 2 ≤ M)
    (h4 : 4 ≤ M ∨ ∀ k, adm k → k < c.lim.max) (ops : List (Op K V)) (ho : InsertsOnly ops)
    (ha : ∀ k v, Op.insert k v ∈ ops → adm k) :
    ∃ bs s, execAll (fpOps c M) (init (fpOps c M)) ops = .ok (bs, s) ∧
      ∀ k id l, FullLeaf c s k id l → ∃ sk moved, MovedKeys l sk moved ∧
        (∀ t, ∃ h s', crashSplit c s k t = .ok h ∧ recoverF (fpOps c M) h 0 = .ok s' ∧
          Reads (lookup (fpOps c M) s') (fun x =>
            if t < 5 * (M / 2) + (if s.heap.next id = none then 1 else 3) ∧ x ∈ moved.take (t / 5) then none
            else run empty ops x)) ∧
        ∃ a b h, l.split c = .ok (a, b, sk) ∧
          linkAfter ((s.heap.set id a).alloc b).1 id ((s.heap.set id a).alloc b).2 = .ok h ∧
          ∀ t, 5 * (M / 2) + 4 ≤ t → crashSplit c s k t = .ok h := by
  obtain ⟨bs, s, e, g, h, hd⟩ := after_inserts F hN hM ops ho ha
  refine ⟨bs, s, e, fun k id l ⟨hf, hdat, hbit⟩ => ?_⟩
  obtain ⟨id', l', a⟩ := leafOf g k
  have e1 := a.find
  rw [hf] at e1
  cases Res.ok.inj e1
  have e2 := a.data
  rw [hdat] at e2
  cases Option.some.inj e2
  have hfull : M ≤ l.abs.length := by
    rw [abs_length]
    have : Finset.range M ⊆ BitmapSpec.members l.bits := fun p hp =>
      Bitmap.mem_members.2 ⟨Finset.mem_range.1 hp, hbit p (Finset.mem_range.1 hp)⟩
    simpa using Finset.card_le_card this
  have hok : FOk c.hash adm l := a.ok
  obtain ⟨sk, moved, k1, k2, k3, k4, _, k5⟩ := crashSplit_spec F hM (minKey_half F h4) g hd h a hfull
  refine ⟨sk, moved, ⟨k1, k2, fun x => ?_⟩, fun t => ?_, k5⟩
  · rw [k3 x]
    refine and_congr_right (fun _ => ?_)
    constructor
    · intro hx
      obtain ⟨v, hv⟩ := Option.ne_none_iff_exists'.1 hx
      obtain ⟨q, hq, _, he⟩ := mem_abs.1 ((mem_iff_find hok.sorted).2 hv)
      exact ⟨q, hq, (congrArg Prod.fst he).symm⟩
    · rintro ⟨q, hq, rfl⟩ hc
      rw [(mem_iff_find hok.sorted).1 (mem_abs.2 ⟨q, hq, hbit q hq, rfl⟩)] at hc
      cases hc
  · obtain ⟨h, e1, hp⟩ := k4 t
    obtain ⟨s', e2, hl⟩ := hp.look (by omega) (minKey_half F h4)
    exact ⟨h, s', e1, e2, hl⟩

/-- Whenever a leaf is full, a crash in its split loses stored keys: one key after five assignments, half of the leaf
right before the sibling is linked. -/
theorem C78_always_loses (F : FLaws c adm) (hN : 3 ≤ c.N) (hM : 2 ≤ M)
    (h4 : 4 ≤ M ∨ ∀ k, adm k → k < c.lim.max) (ops : List (Op K V)) (ho : InsertsOnly ops)
    (ha : ∀ k v, Op.insert k v ∈ ops → adm k) (bs : List Bool) (s : State K (FLeaf M K V))
    (he : execAll (fpOps c M) (init (fpOps c M)) ops = .ok (bs, s)) (k : K) (id : Nat) (l : FLeaf M K V)
    (hl : FullLeaf c s k id l) :
    ∃ lost : List K, lost.Nodup ∧ lost.length = M / 2 ∧ (∀ x ∈ lost, run empty ops x ≠ none) ∧
      ∃ h s', crashSplit c s k (5 * (M / 2)) = .ok h ∧ recoverF (fpOps c M) h 0 = .ok s' ∧
        ∀ x ∈ lost, lookup (fpOps c M) s' x = .ok none := by
  obtain ⟨bs', s', e, hall⟩ := C78_split_crash_partial F hN hM h4 ops ho ha
  rw [he] at e
  cases Res.ok.inj e
  obtain ⟨sk, moved, hm, ht, _⟩ := hall k id l hl
  obtain ⟨h, s', e1, e2, e3⟩ := ht (5 * (M / 2))
  refine ⟨moved, hm.nodup, hm.half, fun x hx => ?_, h, s', e1, e2, fun x hx => ?_⟩
  · obtain ⟨_, p, hp, hpx⟩ := (hm.mem x).1 hx
    obtain ⟨bs', s1, e', g, hst, _⟩ := after_inserts F hN hM ops ho ha
    rw [he] at e'
    cases Res.ok.inj e'
    obtain ⟨id', l', a⟩ := leafOf g k
    have e1 := a.find
    rw [hl.1] at e1
    cases Res.ok.inj e1
    have e2 := a.data
    rw [hl.2.1] at e2
    cases Option.some.inj e2
    have hok : FOk c.hash adm l := a.ok
    have hv : find x l.abs = some (l.vals p) := (mem_iff_find hok.sorted).1 (mem_abs.2 ⟨p, hp, hl.2.2 p hp, by rw [hpx]⟩)
    rw [← hst x, a.look x (a.home x (by change find x l.abs ≠ none; rw [hv]; simp))]
    change find x l.abs ≠ none
    rw [hv]; simp
  · rw [e3 x, show 5 * (M / 2) / 5 = M / 2 by omega, List.take_of_length_le (by rw [hm.half])]
    have : 5 * (M / 2) < 5 * (M / 2) + (if s.heap.next id = none then 1 else 3) := by split <;> omega
    simp [hx, this]

/-- The four inserts of the example. -/
def splitOps : List (Op Int Int) := [.insert 40 4, .insert 10 1, .insert 30 3, .insert 20 2]

/-- A tree whose only leaf is full. -/
def splitEx (t : Nat) (x : Int) : Res (Option Int) := do
  let r ← execAll (fpOps (cfgInt 3 (fun _ => 0) (fun _ => 0) (fun _ => 0)) 4)
    (init (fpOps (cfgInt 3 (fun _ => 0) (fun _ => 0) (fun _ => 0)) 4)) splitOps
  let h ← crashSplit (cfgInt 3 (fun _ => 0) (fun _ => 0) (fun _ => 0)) r.2 50 t
  let s ← recoverF (fpOps (cfgInt 3 (fun _ => 0) (fun _ => 0) (fun _ => 0)) 4) h 0
  lookup (fpOps (cfgInt 3 (fun _ => 0) (fun _ => 0) (fun _ => 0)) 4) s x

/-- The slots hold 40, 10, 30, 20; the split key is 30: key 40 is lost after five assignments, key 30 after ten; both are back
after eleven. -/
example : [splitEx 4 40, splitEx 5 40, splitEx 5 30, splitEx 10 40, splitEx 10 30, splitEx 10 20, splitEx 11 40, splitEx 11 30] =
    [.ok (some 4), .ok none, .ok (some 3), .ok none, .ok none, .ok (some 2), .ok (some 4), .ok (some 3)] := by
  decide +kernel

/-- C78 is false for `FPTree<int, int, 3, 4>`: a crash after five assignments of the split loses a key. -/
theorem C78_refuted : ¬ C78_statement (cfgInt 3 (fun _ => 0) (fun _ => 0) (fun _ => (0 : Int))) (fun k => 0 ≤ k ∧ k < 2 ^ 31) 4 := by
  intro h
  have he : splitEx 5 40 = .ok none := by decide +kernel
  unfold splitEx at he
  obtain ⟨⟨bs, s⟩, e1, he⟩ := Res.bind_eq_ok.1 he
  obtain ⟨h', e2, he⟩ := Res.bind_eq_ok.1 he
  obtain ⟨s', e3, he⟩ := Res.bind_eq_ok.1 he
  have hin : (do
      let r ← execAll (fpOps (cfgInt 3 (fun _ => 0) (fun _ => 0) (fun _ => (0 : Int))) 4)
        (init (fpOps (cfgInt 3 (fun _ => 0) (fun _ => 0) (fun _ => (0 : Int))) 4)) splitOps
      let id ← findLeaf (fpOps (cfgInt 3 (fun _ => 0) (fun _ => 0) (fun _ => (0 : Int))) 4) r.2.depth r.2.root 50
      let l ← r.2.heap.get id
      pure ((List.range 4).all (fun p => Bitmap.bit l.bits p))) = .ok true := by decide +kernel
  rw [e1, Res.ok_bind] at hin
  obtain ⟨id, e4, hin⟩ := Res.bind_eq_ok.1 hin
  obtain ⟨l, e5, hin⟩ := Res.bind_eq_ok.1 hin
  have hin := Res.ok.inj hin
  have hd : s.heap.data id = some l := by
    unfold Heap.get at e5
    cases hq : s.heap.data id with
    | none => rw [hq] at e5; cases e5
    | some x => rw [hq] at e5; exact congrArg some (Res.ok.inj e5)
  obtain ⟨h1, s1, f1, f2, f3⟩ := h splitOps (by simp [splitOps, InsertsOnly]) (by
    intro k v hk
    simp only [splitOps, List.mem_cons, Op.insert.injEq, List.not_mem_nil, or_false] at hk
    rcases hk with ⟨rfl, _⟩ | ⟨rfl, _⟩ | ⟨rfl, _⟩ | ⟨rfl, _⟩ <;> decide) bs s e1 50 id l
    ⟨e4, hd, fun p hp => by
      rw [List.all_eq_true] at hin
      exact hin p (List.mem_range.2 hp)⟩ 5
  rw [e2] at f1
  cases Res.ok.inj f1
  rw [e3] at f2
  cases Res.ok.inj f2
  have := f3 40
  rw [he] at this
  exact absurd this (by decide +kernel)

end Verif.FPTreeProps
