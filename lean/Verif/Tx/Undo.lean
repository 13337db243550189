import Verif.Tx.Model

/-!
# The undo log restores the memory
-/

namespace Verif.Tx

set_option linter.unusedSectionVars false
set_option linter.unusedVariables false

variable {A X : Type} [DecidableEq A] {m : Mem A X}

theorem undo_append (l l' : List (A × X)) (f : A → X) : undo (l ++ l') f = undo l' (undo l f) := by
  simp [undo, List.foldl_append]

theorem undo_cons (e : A × X) (l : List (A × X)) (f : A → X) : undo (e :: l) f = undo l (upd f e.1 e.2) := rfl

/-- An address without entry in the log keeps its contents. -/
theorem undo_of_not_mem {a : A} : ∀ (l : List (A × X)) (f : A → X), (∀ x, (a, x) ∉ l) → undo l f a = f a
  | [], _, _ => rfl
  | e :: l, f, h => by
    rw [undo_cons, undo_of_not_mem l _ (fun x hx => h x (List.mem_cons_of_mem _ hx))]
    unfold upd
    rw [if_neg]
    intro ha
    exact h e.2 (by rw [ha]; simp)

/-- Undoing one snapshot of several addresses. -/
theorem undo_snap {a : A} (g : A → X) : ∀ (as : List A) (f : A → X), a ∈ as →
    undo (as.map (fun a => (a, g a))) f a = g a
  | [], _, h => by cases h
  | b :: as, f, h => by
    rw [List.map_cons, undo_cons]
    by_cases ha : a ∈ as
    · exact undo_snap g as _ ha
    · rcases List.mem_cons.1 h with rfl | h'
      · rw [undo_of_not_mem]
        · simp [upd]
        · intro x hx
          obtain ⟨c, hc, e⟩ := List.mem_map.1 hx
          injection e with e1 _
          rw [e1] at hc
          exact ha hc
      · exact absurd h' ha

/-- What holds while a disciplined transaction runs; `cov` are the addresses covered so far. -/
structure Inv (m : Mem A X) (cov : List A) (t : Run A X) : Prop where
  log : ∀ a x, (a, x) ∈ t.log → a ∈ cov
  old : ∀ a, m.live a = true → a ∉ cov → t.val a = m.val a
  undo : ∀ a f, m.live a = true → a ∈ cov → undo t.log f a = m.val a

/-- The addresses covered by the steps. -/
def covers : List A → List (Step A X) → List A
  | cov, [] => cov
  | cov, .snap as :: ss => covers (as ++ cov) ss
  | cov, .write _ _ :: ss => covers cov ss
  | cov, .alloc as _ :: ss => covers (as ++ cov) ss
  | cov, .free _ :: ss => covers cov ss

theorem covers_sub : ∀ (ss : List (Step A X)) (cov : List A), ∀ a ∈ cov, a ∈ covers cov ss
  | [], _, _, h => h
  | .snap as :: ss, cov, a, h => covers_sub ss _ a (List.mem_append_right _ h)
  | .write _ _ :: ss, cov, a, h => covers_sub ss cov a h
  | .alloc as _ :: ss, cov, a, h => covers_sub ss _ a (List.mem_append_right _ h)
  | .free _ :: ss, cov, a, h => covers_sub ss cov a h

theorem inv_run : ∀ (ss : List (Step A X)) (cov : List A) (t : Run A X), Inv m cov t → Disciplined m cov ss →
    Inv m (covers cov ss) (ss.foldl Step.run t)
  | [], _, _, h, _ => h
  | .snap as :: ss, cov, t, h, hd => by
    refine inv_run ss (as ++ cov) _ ⟨?_, ?_, ?_⟩ hd
    · intro a x hx
      rcases List.mem_append.1 hx with hx | hx
      · obtain ⟨b, hb, e⟩ := List.mem_map.1 hx
        injection e with e1 _
        rw [e1] at hb
        exact List.mem_append_left _ hb
      · exact List.mem_append_right _ (h.log a x hx)
    · intro a hl hn
      exact h.old a hl (fun hc => hn (List.mem_append_right _ hc))
    · intro a f hl hc
      dsimp only [Step.run]
      rw [undo_append]
      by_cases hc' : a ∈ cov
      · exact h.undo a _ hl hc'
      · rw [undo_of_not_mem _ _ (fun x hx => hc' (h.log a x hx))]
        rcases List.mem_append.1 hc with ha | ha
        · rw [undo_snap _ _ _ ha]; exact h.old a hl hc'
        · exact absurd ha hc'
  | .write b x :: ss, cov, t, h, hd => by
    refine inv_run ss cov _ ⟨h.log, ?_, h.undo⟩ hd.2
    intro a hl hn
    dsimp only [Step.run, upd]
    rw [if_neg (fun e => hn (by rw [e]; exact hd.1))]
    exact h.old a hl hn
  | .alloc as x :: ss, cov, t, h, hd => by
    refine inv_run ss (as ++ cov) _ ⟨?_, ?_, ?_⟩ hd.2
    · intro a y hy
      exact List.mem_append_right _ (h.log a y hy)
    · intro a hl hn
      dsimp only [Step.run]
      rw [if_neg (fun ha => hn (List.mem_append_left _ ha))]
      exact h.old a hl (fun hc => hn (List.mem_append_right _ hc))
    · intro a f hl hc
      rcases List.mem_append.1 hc with ha | ha
      · rw [hd.1 a ha] at hl; cases hl
      · exact h.undo a f hl ha
  | .free _ :: ss, cov, t, h, hd => inv_run ss cov _ ⟨h.log, h.old, h.undo⟩ hd

theorem inv_exec {ss : List (Step A X)} (hd : Disciplined m [] ss) : Inv m (covers [] ss) (exec m ss) :=
  inv_run ss [] _ ⟨fun _ _ h => (List.not_mem_nil h).elim, fun _ _ _ => rfl,
    fun _ _ _ h => (List.not_mem_nil h).elim⟩ hd

/-- Only covered addresses are written. -/
theorem writes_covered {a : A} : ∀ (ss : List (Step A X)) (cov : List A), Disciplined m cov ss →
    (∃ s ∈ ss, a ∈ s.writes) → a ∈ covers cov ss
  | [], _, _, ⟨_, h, _⟩ => by cases h
  | s :: ss, cov, hd, ⟨s', hs, ha⟩ => by
    rcases List.mem_cons.1 hs with rfl | hs'
    · cases s' with
      | snap as => cases ha
      | write b x =>
        rw [Step.writes, List.mem_singleton] at ha
        rw [ha]
        exact covers_sub ss cov b hd.1
      | alloc as x => exact covers_sub ss _ a (List.mem_append_left _ ha)
      | free as => cases ha
    · cases s with
      | snap as => exact writes_covered ss _ hd ⟨s', hs', ha⟩
      | write b x => exact writes_covered ss _ hd.2 ⟨s', hs', ha⟩
      | alloc as x => exact writes_covered ss _ hd.2 ⟨s', hs', ha⟩
      | free as => exact writes_covered ss _ hd ⟨s', hs', ha⟩

theorem Disciplined.prefix : ∀ {pre ss : List (Step A X)} {cov : List A}, Disciplined m cov ss → pre <+: ss →
    Disciplined m cov pre
  | [], _, _, _, _ => trivial
  | s :: pre, [], _, _, hp => by cases List.prefix_nil.1 hp
  | s :: pre, s' :: ss, cov, hd, hp => by
    obtain ⟨rfl, hp'⟩ := List.cons_prefix_cons.1 hp
    cases s with
    | snap as => exact Disciplined.prefix (pre := pre) (cov := as ++ cov) hd hp'
    | write b x => exact ⟨hd.1, Disciplined.prefix hd.2 hp'⟩
    | alloc as x => exact ⟨hd.1, Disciplined.prefix hd.2 hp'⟩
    | free as => exact Disciplined.prefix (pre := pre) (ss := ss) (cov := cov) hd hp'

/-- Addresses that are not in the log have their old contents in every image that recovery may meet. -/
theorem Recovered.old {ss : List (Step A X)} (hd : Disciplined m [] ss) {img : A → X} (h : Recovered m ss img) :
    ∀ a, m.live a = true → a ∉ covers [] ss → img a = m.val a := by
  induction h with
  | crash hc =>
    intro a _ hn
    exact hc a (fun s hs ha => hn (writes_covered ss [] hd ⟨s, hs, ha⟩))
  | again _ hi ih =>
    intro a hl hn
    rw [hi a (fun x hx => hn ((inv_exec hd).log a x hx))]
    exact ih a hl hn

end Verif.Tx
