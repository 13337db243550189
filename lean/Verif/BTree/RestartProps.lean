import Verif.BTree.RecoverProps
import Verif.BTree.RestartHist

/-!
# Property theorems for histories of HPBPTree with restarts (C124)
-/

set_option linter.unusedSectionVars false
set_option linter.unusedSimpArgs false

namespace Verif.BTreeProps

open Verif BTree MapSpec Assoc

variable {K V : Type} [LinearOrder K]

/-- Every erase of the history, restarts left out, is called for a key that is present. -/
def PresentR (cs : List (RCall K V)) : Prop := ErasesPresent empty (updates cs)

/-- C124 in full: a history of inserts, erases of present keys and restarts behaves as the abstract map. -/
def C124_statement (N M : Nat) : Prop :=
  ∀ (cs : List (RCall Nat Nat)), PresentR cs →
    ∃ s, runR (HP N M) (init (HP N M)) cs = .ok (outs empty (updates cs), s) ∧
      ∀ k, lookup (HP N M) s k = .ok (run empty (updates cs) k)

/-- Five inserts, a restart and an insert of a small key and two more. -/
def smallKeys : List (RCall Nat Nat) :=
  (twoLeaves.map .upd) ++ .restart :: (afterwards.map .upd)

set_option maxRecDepth 100000 in
/-- C124 is false: key 20 is lost. -/
theorem C124_refuted : ¬ C124_statement 6 4 := by
  intro h
  obtain ⟨s, e, hl⟩ := h smallKeys (by
    simp [PresentR, smallKeys, twoLeaves, afterwards, updates, ErasesPresent])
  have hd : (do
      let r ← runR (HP 6 4) (init (HP 6 4)) smallKeys
      lookup (HP 6 4) r.2 20) = .ok (none : Option Nat) := by decide
  rw [e, Res.ok_bind, hl] at hd
  exact absurd (Res.ok.inj hd) (by decide)

/-- C124 for the histories in which, after a restart that finds at least `2 * (M / 2)` keys, there are only
inserts, of keys that are not below all keys the restart found.  Any number of restarts.
Missing: smaller keys (`C124_refuted`) and erases (`C124_null`). -/
theorem C124_partial (N M q : Nat) (hN : N = 2 * q) (hq : 3 ≤ q) (hM : 2 ≤ M) (cs : List (RCall K V))
    (ha : Allowed (2 * (M / 2)) empty none cs) :
    ∃ s, runR (HP N M) (init (HP N M)) cs = .ok (outs empty (updates cs), s) ∧
      ∀ k, lookup (HP N M) s k = .ok (run empty (updates cs) k) := by
  have C := hpLaws (K := K) (V := V) (N := N) hM
  exact runR_spec (W := sortedLaws C) (sortedErase C) (fun _ _ _ => trivial) (by
    intro l k _ hf
    obtain ⟨v, hv⟩ := Option.ne_none_iff_exists'.1 hf
    exact ⟨(k, v), Assoc.find_some_mem hv, le_rfl⟩) hN hq hM le_rfl (fun _ => trivial) cs _ _ _
    (.good (init_good (sortedLaws C) _ _ _).1 (init_stores _) rfl) ha

/-- An erase, a restart of a small tree, an erase, a restart of a large tree and inserts behind it. -/
def someRestarts : List (RCall Nat Nat) :=
  [.upd (.insert 10 1), .upd (.insert 20 2), .upd (.erase 10), .restart, .upd (.insert 5 3), .upd (.erase 20),
    .upd (.insert 30 4), .upd (.insert 40 5), .upd (.insert 50 6), .upd (.insert 60 7), .restart,
    .upd (.insert 7 8), .upd (.insert 6 9), .upd (.insert 45 1), .restart, .upd (.insert 70 2)]

example : Allowed 4 empty none someRestarts ∧ run empty (updates someRestarts) 6 = some 9 := by
  refine ⟨?_, by decide⟩
  simp only [someRestarts, Allowed]
  refine ⟨by simp, by simp, by simp, by simp [step], Or.inl ⟨⟨[(20, 2)], ⟨by simp, fun k v => ?_⟩, by simp⟩,
    by simp, by simp, by simp [step], by simp, by simp, by simp, by simp, Or.inr
    ⟨?_, ?_, ?_, Or.inr ⟨?_, trivial⟩⟩⟩⟩
  · simp only [step, empty, List.mem_singleton, Prod.mk.injEq]
    split_ifs with h1 h2 <;> simp_all [eq_comm]
  · intro m0 h; rw [← Option.some.inj h]; exact ⟨5, by simp [step, empty]⟩
  · intro m0 h; rw [← Option.some.inj h]; exact ⟨5, by simp [step, empty]⟩
  · intro m0 h; rw [← Option.some.inj h]; exact ⟨5, by simp [step, empty]⟩
  · intro m0 h; rw [← Option.some.inj h]; exact ⟨5, by simp [step, empty]⟩

/-- Why erases are missing: after any history of inserts and erases of present keys that leaves more than `M`
keys, and a restart, erasing the `M / 2 + 1` smallest keys one after the other dereferences a null pointer. -/
theorem C124_null (N M q : Nat) (hN : N = 2 * q) (hq : 3 ≤ q) (hM : 2 ≤ M) (ops : List (Op K V))
    (ho : ErasesPresent empty ops) (es : List (K × V)) (hl : Lists (run empty ops) es) (hlen : M < es.length) :
    runR (HP N M) (init (HP N M)) (ops.map .upd ++ .restart ::
      (es.take (M / 2 + 1)).map (fun e => .upd (.erase e.1))) = .ub := by
  have C := hpLaws (K := K) (V := V) (N := N) hM
  obtain ⟨s, e, g, h, hd⟩ := histories_good_head (W := sortedLaws C) (sortedErase C) (fun _ _ _ => trivial) (by
    intro l k _ hf
    obtain ⟨v, hv⟩ := Option.ne_none_iff_exists'.1 hf
    exact ⟨(k, v), Assoc.find_some_mem hv, le_rfl⟩) hN hq hM le_rfl ops _ _
    (init_good (sortedLaws C) _ _ _).1 (init_stores _) ho (fun _ _ _ => trivial)
  have hp : NP s.heap 0 := NP.execAll (r := (outs empty ops, s)) init_np e
  obtain ⟨s', er, eu⟩ := restart_erases_ub (W := sortedLaws C) (sortedErase C) (fun _ _ _ => trivial) (by
    intro l k _ hf
    obtain ⟨v, hv⟩ := Option.ne_none_iff_exists'.1 hf
    exact ⟨(k, v), Assoc.find_some_mem hv, le_rfl⟩) (show 3 ≤ N by omega) hM (fun l hl => (sortedLaws C).cap l hl)
    g h hd hp hl hlen
  have h2 := runR_upd_ub eu
  rw [List.map_map] at h2
  refine runR_append_ub e ?_
  have er' : recoverH (HP N M) s.heap 0 = .ok s' := er
  rw [runR, er', Res.ok_bind]
  exact h2

example : ErasesPresent empty twoLeaves ∧ Lists (run empty twoLeaves) [(10, 1), (20, 2), (30, 3), (40, 4), (50, 5)] := by
  refine ⟨by simp [twoLeaves, ErasesPresent], by simp, fun k v => ?_⟩
  simp only [twoLeaves, run, step, empty, List.mem_cons, List.not_mem_nil, or_false, Prod.mk.injEq]
  split_ifs with h1 h2 h3 h4 h5 <;> simp_all [eq_comm]

end Verif.BTreeProps
