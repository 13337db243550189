import Verif.Tx.Leaf

/-!
# Properties of transactions
-/

namespace Verif.Tx

open Verif.BTree

variable {A X : Type} [DecidableEq A]

/-- **C47.** A crash after any prefix of the steps of a transaction that snapshots before it writes: recovery
(even when it is interrupted by further crashes) restores the contents and the allocation state of the memory
from before the transaction. -/
theorem C47_crash_before_commit (m : Mem A X) (ss pre : List (Step A X)) (hd : Disciplined m [] ss) (hp : pre <+: ss)
    (m' : Mem A X) (h : AfterCrash m pre m') : m.Same m' := by
  obtain ⟨img, hr, rfl⟩ := h
  have hd' := hd.prefix hp
  have hi := inv_exec hd'
  refine ⟨fun _ => rfl, fun a hl => ?_⟩
  show undo (exec m pre).log img a = m.val a
  by_cases hc : a ∈ covers [] pre
  · exact hi.undo a img hl hc
  · rw [undo_of_not_mem _ _ (fun x hx => hc (hi.log a x hx))]
    exact hr.old hd' a hl hc

/-- **C47.** A crash behind the commit point: recovery gives exactly the memory of the commit. -/
theorem C47_crash_after_commit (m : Mem A X) (ss : List (Step A X)) (m' : Mem A X) (h : AfterCommit m ss m') :
    m'.val = (commit m ss).val ∧ ∀ a, m'.live a = (commit m ss).live a := by
  obtain ⟨img, ⟨hv, hl⟩, rfl⟩ := h
  refine ⟨hv, fun a => ?_⟩
  show (if a ∈ (exec m ss).frees then false else if a ∈ (exec m ss).news then true else img.live a) = _
  unfold commit
  by_cases hf : a ∈ (exec m ss).frees
  · simp [hf]
  · by_cases hn : a ∈ (exec m ss).news
    · simp [hf, hn]
    · simp [hf, hn, hl a hn hf]

/-- The rule is needed: a store without a snapshot is not undone. -/
theorem C47_needs_snapshot :
    ∃ (m m' : Mem Nat Nat) (ss : List (Step Nat Nat)), AfterCrash m ss m' ∧ ¬ m.Same m' := by
  refine ⟨⟨fun _ => 0, fun _ => true⟩, ⟨fun a => if a = 3 then 7 else 0, fun _ => true⟩, [.write 3 7], ?_, ?_⟩
  · refine ⟨fun a => if a = 3 then 7 else 0, .crash ?_, rfl⟩
    intro a ha
    have : a ≠ 3 := by
      have := ha _ List.mem_cons_self
      simpa [Step.writes] using this
    simp [this]
  · intro h
    have := h.2 3 rfl
    simp at this

/-- The hypotheses of C47 are met by a transaction that allocates, writes and frees, and a crash that leaves
garbage in the written addresses. -/
example : ∃ m', Disciplined (⟨fun a => a, fun a => decide (a < 10)⟩ : Mem Nat Nat) []
      [.snap [3, 4], .write 3 7, .alloc [12] (fun _ => 1), .write 12 5, .free [4], .write 4 0] ∧
    AfterCrash (⟨fun a => a, fun a => decide (a < 10)⟩ : Mem Nat Nat)
      [.snap [3, 4], .write 3 7, .alloc [12] (fun _ => 1), .write 12 5] m' ∧ m'.val 12 = 99 ∧ m'.val 3 = 3 := by
  refine ⟨_, ⟨by simp, by simp, by simp, by simp, trivial⟩,
    ⟨fun a => if a = 3 then 55 else if a = 12 then 99 else a, .crash ?_, rfl⟩, rfl, rfl⟩
  intro a ha
  have h3 := ha (.write 3 7) (by simp)
  have h12 := ha (.write 12 5) (by simp)
  simp only [Step.writes, List.mem_singleton] at h3 h12
  simp [h3, h12]

variable {K V : Type} [LinearOrder K]

/-- **C47 for `PBPTree::insertInLeafNodeAtPosition`.** In a transaction that inserts into a leaf, a crash after
any step leaves the leaf as before; the commit, and a crash behind it, leaves the leaf that the model of the
function computes. -/
theorem C47_leaf_insert (c : SCfg K V) (id : Nat) (m : Mem Addr (Cell K V)) (l l' : SLeaf K V) (p : Nat) (k : K) (v : V)
    (hm : Holds c.M id m.val l) (hlive : ∀ a ∈ places c.M id, m.live a = true) (hi : l.insertAt c p k v = .ok l') :
    (∀ pre m', pre <+: insertSteps c.M id p l.num k v m.val → AfterCrash m pre m' → Holds c.M id m'.val l) ∧
    (∀ m', AfterCommit m (insertSteps c.M id p l.num k v m.val) m' → Holds c.M id m'.val l') := by
  constructor
  · intro pre m' hp h
    have hb : p ≤ l.num ∧ l.num < c.M := by
      unfold SLeaf.insertAt at hi
      obtain ⟨_, _, hi⟩ := Res.bind_eq_ok.1 hi
      obtain ⟨_, h2, hi⟩ := Res.bind_eq_ok.1 hi
      obtain ⟨_, h3, hi⟩ := Res.bind_eq_ok.1 hi
      constructor
      · by_contra hn
        simp [Res.assert, hn] at h2
      · by_contra hn
        simp [Res.assert, hn] at h3
    have hs := (C47_crash_before_commit m _ pre (insert_disciplined m hb.1 hb.2 k v) hp m' h).2
    have hk : ∀ a ∈ places c.M id, m'.val a = m.val a := fun a ha => hs a (hlive a ha)
    refine ⟨?_, ?_, ?_⟩
    · rw [hk _ (by simp [places])]; exact hm.1
    · intro i hi; rw [hk _ (by simp [places, hi])]; exact hm.2.1 i hi
    · intro i hi; rw [hk _ (by simp [places, hi])]; exact hm.2.2 i hi
  · intro m' h
    rw [(C47_crash_after_commit m _ m' h).1]
    exact insert_effect hm hi

/-- A leaf with keys 10 and 30 that meets the hypotheses: 20 goes to position 1. -/
example : ∃ l' : SLeaf Nat Nat,
    Holds 4 0 (fun a => match a.2 with
      | .num => .num 2
      | .key i => .key (if i = 0 then some 10 else if i = 1 then some 30 else none)
      | .val i => .val (if i = 0 then some 1 else if i = 1 then some 3 else none))
      ⟨2, fun i => if i = 0 then some 10 else if i = 1 then some 30 else none,
        fun i => if i = 0 then some 1 else if i = 1 then some 3 else none⟩ ∧
    SLeaf.insertAt ⟨4, 4, fun _ _ _ => .ub, fun _ _ _ => .ub, fun _ _ _ _ _ => .ub⟩
      ⟨2, fun i => if i = 0 then some 10 else if i = 1 then some 30 else none,
        fun i => if i = 0 then some 1 else if i = 1 then some 3 else none⟩ 1 20 2 = .ok l' ∧
    (l'.num, l'.keys 0, l'.keys 1, l'.keys 2, l'.vals 1) = (3, some 10, some 20, some 30, some 2) :=
  ⟨_, ⟨rfl, fun _ _ => rfl, fun _ _ => rfl⟩, rfl, rfl⟩

end Verif.Tx
