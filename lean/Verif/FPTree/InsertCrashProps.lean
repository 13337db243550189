import Verif.FPTree.InsertCrash
import Verif.FPTree.SplitCrashProps
import Verif.CrashHistSpec

/-!
# Property theorems on histories of inserts into the FPTree with crashes (C119, C120)

The specification is `Verif.CrashHistSpec`: crashes at any point of any insert, each followed by `recover`, and inserts
completed in between.
-/

set_option linter.unusedSectionVars false

namespace Verif.FPTreeProps

open Verif Search BTree FPTree Assoc MapSpec CrashHistSpec

variable {K V : Type} {M : Nat} [LinearOrder K] [Inhabited K] {c : FCfg K V} {adm : K → Prop}

/-- A history on the model. -/
def execEv (c : FCfg K V) : State K (FLeaf M K V) → List (Ev K V) → Res (State K (FLeaf M K V))
  | s, [] => .ok s
  | s, .insert k v :: es => do
    let s' ← insert (fpOps c M) s k v
    execEv c s' es
  | s, .crash k v t :: es => do
    let s' ← crashRecover c s k v t
    execEv c s' es

/-- No crash of the history falls between the assignment of a bit and that of the fingerprint of the same entry. -/
def NoTorn (c : FCfg K V) : State K (FLeaf M K V) → List (Ev K V) → Prop
  | _, [] => True
  | s, .insert k v :: es => ∀ s', insert (fpOps c M) s k v = .ok s' → NoTorn c s' es
  | s, .crash k v t :: es => ¬ TornPoint c s k t ∧ ∀ s', crashRecover c s k v t = .ok s' → NoTorn c s' es

open Classical in
/-- The number of crashes inside a split, after the first entry has been moved and before the new leaf is linked. -/
noncomputable def lossCrashes (c : FCfg K V) : State K (FLeaf M K V) → List (Ev K V) → Nat
  | _, [] => 0
  | s, .insert k v :: es =>
    match insert (fpOps c M) s k v with
    | .ok s' => lossCrashes c s' es
    | _ => 0
  | s, .crash k v t :: es =>
    (if LossPoint c s k t then 1 else 0) + match crashRecover c s k v t with
      | .ok s' => lossCrashes c s' es
      | _ => 0

/-- The tree stores `m`; the `prevLeaf` pointers may be wrong. -/
def Inv (F : FLaws c adm) (hM : 2 ≤ M) (s : State K (FLeaf M K V)) (m : K → Option V) : Prop :=
  ∃ p, Good (fpLaws F hM) (M / 2) 0 0 (s.withPrev p) ∧ (ids s.depth s.root).head? = some 0 ∧ Stores (fpLaws F hM) (s.withPrev p) m

theorem Inv.lookup {F : FLaws c adm} {hM : 2 ≤ M} {s : State K (FLeaf M K V)} {m : K → Option V} (h : Inv F hM s m) (x : K) :
    lookup (fpOps c M) s x = .ok (m x) := by
  obtain ⟨p, g, _, hst⟩ := h
  exact hst.lookup g x

theorem Inv.insert {F : FLaws c adm} {hM : 2 ≤ M} (hN : 2 ≤ c.N) {s : State K (FLeaf M K V)} {m : K → Option V} (h : Inv F hM s m)
    {k : K} (ha : adm k) (v : V) :
    ∃ s', BTree.insert (fpOps c M) s k v = .ok s' ∧ Inv F hM s' (fun x => if x = k then some v else m x) := by
  obtain ⟨p, g, hd, hst⟩ := h
  obtain ⟨s1, ei, g1, hc1, hh1⟩ := insert_good_head (W := fpLaws F hM) (show M / 2 ≤ M / 2 from le_rfl) (Nat.zero_le _)
    (show 2 ≤ (fpOps c M).N from hN) (by omega) g k v ha
  obtain ⟨p', ep⟩ := insert_prev (o := fpOps c M) p k v s
  rw [ei] at ep
  obtain ⟨s', e', ep⟩ := Res.bind_eq_ok.1 ep.symm
  cases Res.ok.inj ep
  refine ⟨s', e', p', g1, hh1.trans hd, fun x => ?_⟩
  rw [hc1, find_upsert, hst x]

theorem Inv.crash {F : FLaws c adm} {hM : 2 ≤ M} (hN : 2 ≤ c.N) (h4 : 4 ≤ M ∨ ∀ k, adm k → k < c.lim.max)
    {s : State K (FLeaf M K V)} {m : K → Option V} (h : Inv F hM s m) {k : K} (ha : adm k) (v : V) (t : Nat)
    (ht : ¬ TornPoint c s k t) :
    ∃ s' m', crashRecover c s k v t = .ok s' ∧ Inv F hM s' m' ∧
      ((∀ x, m' x = m x) ∨ (∀ x, m' x = if x = k then some v else m x) ∨
       LossPoint c s k t ∧ ∃ lost : List K, lost.Nodup ∧ lost.length ≤ M / 2 ∧ (∀ x ∈ lost, m x ≠ none) ∧
         ∀ x, m' x = if x ∈ lost then none else m x) := by
  obtain ⟨p, g, hd, hst⟩ := h
  obtain ⟨h', m', e, hp, hcase⟩ := crashInsert_spec F hM hN (minKey_half F h4) g hd hst ha v t ht
  obtain ⟨p', ep⟩ := crashInsert_prev (c := c) s p k v t
  rw [e] at ep
  obtain ⟨h1, e1, ep⟩ := Res.bind_eq_ok.1 ep.symm
  cases Res.ok.inj ep
  have hp1 : Pers F hM h1 0 m' := hp.withPrev h1.prev
  obtain ⟨s', q, e2, g2, hd2, hst2⟩ := hp1.recover hN (minKey_half F h4)
  exact ⟨s', m', by rw [crashRecover, e1, Res.ok_bind, e2], ⟨q, g2, hd2, hst2⟩, hcase⟩

theorem inv_init (F : FLaws c adm) (hM : 2 ≤ M) : Inv F hM (init (fpOps c M)) (fun _ => none) := by
  obtain ⟨g, hc⟩ := init_good (fpLaws F hM) (M / 2) 0 0
  refine ⟨(init (fpOps c M)).heap.prev, g, rfl, fun x => ?_⟩
  show find x (cont (fpLaws F hM) (init (fpOps c M))) = none
  rw [hc]; rfl

theorem May.mono {x : K} : ∀ {es : List (Ev K V)} {P Q : Option V → Prop} {r : Option V}, (∀ r, P r → Q r) → May x P es r → May x Q es r
  | [], P, Q, r, h, hr => h r hr
  | .insert k v :: es, P, Q, r, h, hr => by
    refine May.mono (es := es) (fun r hr => ?_) hr
    split
    · rename_i hx; rw [if_pos hx] at hr; exact hr
    · rename_i hx; rw [if_neg hx] at hr; exact h r hr
  | .crash k v t :: es, P, Q, r, h, hr => May.mono (es := es) (fun r hr => hr.imp (h r) id) hr

open Classical in
theorem hist (F : FLaws c adm) (hN : 2 ≤ c.N) (hM : 2 ≤ M) (h4 : 4 ≤ M ∨ ∀ k, adm k → k < c.lim.max) :
    ∀ (es : List (Ev K V)) (s : State K (FLeaf M K V)) (m : K → Option V) (P Q : K → Option V → Prop) (lost : List K),
    Inv F hM s m → (∀ x, x ∉ lost → P x (m x)) → (∀ x, Q x (m x)) → (∀ e ∈ es, adm e.key) → NoTorn c s es →
    ∃ (s' : State K (FLeaf M K V)) (m' : K → Option V) (lost' : List K), execEv c s es = .ok s' ∧ Inv F hM s' m' ∧ lost'.length ≤ lost.length + lossCrashes c s es * (M / 2) ∧
      (∀ x, x ∉ lost' → May x (P x) es (m' x)) ∧ ∀ x, MayLose x (Q x) es (m' x)
  | [], s, m, P, Q, lost, hi, hP, hQ, _, _ => ⟨s, m, lost, rfl, hi, by omega, hP, hQ⟩
  | .insert k v :: es, s, m, P, Q, lost, hi, hP, hQ, ha, hn => by
    obtain ⟨s1, e1, hi1⟩ := hi.insert hN (show adm k from ha (.insert k v) (by simp)) v
    obtain ⟨s', m', lost', e2, hi2, hl, h1, h2⟩ := hist F hN hM h4 es s1 _ (fun x r => if x = k then r = some v else P x r)
      (fun x r => if x = k then r = some v else Q x r) lost hi1 (fun x hx => by
        by_cases hk : x = k
        · simp only [if_pos hk]
        · simp only [if_neg hk]; exact hP x hx) (fun x => by
        by_cases hk : x = k
        · simp only [if_pos hk]
        · simp only [if_neg hk]; exact hQ x) (fun e he => ha e (List.mem_cons_of_mem _ he)) (hn s1 e1)
    refine ⟨s', m', lost', by rw [execEv, e1, Res.ok_bind, e2], hi2, ?_, h1, h2⟩
    rw [lossCrashes, e1]
    exact hl
  | .crash k v t :: es, s, m, P, Q, lost, hi, hP, hQ, ha, hn => by
    obtain ⟨s1, m1, e1, hi1, hcase⟩ := hi.crash hN h4 (show adm k from ha (.crash k v t) (by simp)) v t hn.1
    obtain ⟨lost1, hlen1, hP1, hQ1⟩ : ∃ lost1 : List K, lost1.length ≤ lost.length + (if LossPoint c s k t then 1 else 0) * (M / 2) ∧
        (∀ x, x ∉ lost1 → P x (m1 x) ∨ x = k ∧ m1 x = some v) ∧ ∀ x, Q x (m1 x) ∨ x = k ∧ m1 x = some v ∨ m1 x = none := by
      rcases hcase with h | h | ⟨hL, lo, _, h1, h2, h3⟩
      · exact ⟨lost, by omega, fun x hx => Or.inl (by rw [h x]; exact hP x hx), fun x => Or.inl (by rw [h x]; exact hQ x)⟩
      · refine ⟨lost, by omega, fun x hx => ?_, fun x => ?_⟩
        · by_cases hk : x = k
          · exact Or.inr ⟨hk, by rw [h x, if_pos hk]⟩
          · exact Or.inl (by rw [h x, if_neg hk]; exact hP x hx)
        · by_cases hk : x = k
          · exact Or.inr (Or.inl ⟨hk, by rw [h x, if_pos hk]⟩)
          · exact Or.inl (by rw [h x, if_neg hk]; exact hQ x)
      · refine ⟨lo ++ lost, by rw [if_pos hL, List.length_append]; omega, fun x hx => ?_, fun x => ?_⟩
        · rw [List.mem_append, not_or] at hx
          exact Or.inl (by rw [h3 x, if_neg hx.1]; exact hP x hx.2)
        · by_cases hx : x ∈ lo
          · exact Or.inr (Or.inr (by rw [h3 x, if_pos hx]))
          · exact Or.inl (by rw [h3 x, if_neg hx]; exact hQ x)
    obtain ⟨s', m', lost', e2, hi2, hl, h1, h2⟩ := hist F hN hM h4 es s1 m1 (fun x r => P x r ∨ x = k ∧ r = some v)
      (fun x r => Q x r ∨ x = k ∧ r = some v ∨ r = none) lost1 hi1 hP1 hQ1 (fun e he => ha e (List.mem_cons_of_mem _ he)) (hn.2 s1 e1)
    refine ⟨s', m', lost', by rw [execEv, e1, Res.ok_bind, e2], hi2, ?_, h1, h2⟩
    have hlc : lossCrashes c s (.crash k v t :: es) = (if LossPoint c s k t then 1 else 0) + lossCrashes c s1 es := by
      rw [lossCrashes, e1]
    rw [hlc, Nat.add_mul]
    omega

/-- Crash points that are not between bit and fingerprint in any tree. -/
theorem noTorn_of : ∀ (es : List (Ev K V)) (s : State K (FLeaf M K V)),
    (∀ k v t, Ev.crash k v t ∈ es → t ≠ 3 ∧ t ≠ 5 * (M / 2) + 5 ∧ t ≠ 5 * (M / 2) + 7) → NoTorn c s es
  | [], _, _ => trivial
  | .insert k v :: es, s, h => fun s' _ => noTorn_of es s' (fun k v t ht => h k v t (List.mem_cons_of_mem _ ht))
  | .crash k v t :: es, s, h => by
    refine ⟨?_, fun s' _ => noTorn_of es s' (fun k v t ht => h k v t (List.mem_cons_of_mem _ ht))⟩
    obtain ⟨h1, h2, h3⟩ := h k v t (by simp)
    rintro ⟨id, l, _, _, _, ⟨_, h4⟩ | ⟨_, h4⟩⟩
    · exact h1 h4
    · split at h4 <;> omega

/-- Crash points that are not inside the moves of a split in any tree. -/
theorem lossCrashes_of : ∀ (es : List (Ev K V)) (s : State K (FLeaf M K V)),
    (∀ k v t, Ev.crash k v t ∈ es → t < 5 ∨ 5 * (M / 2) + 3 ≤ t) → lossCrashes c s es = 0
  | [], _, _ => rfl
  | .insert k v :: es, s, h => by
    rw [lossCrashes]
    split
    · exact lossCrashes_of es _ (fun k v t ht => h k v t (List.mem_cons_of_mem _ ht))
    · rfl
  | .crash k v t :: es, s, h => by
    have h1 := h k v t (by simp)
    have hn : ¬ LossPoint c s k t := by
      rintro ⟨id, l, _, _, _, _, h2, h3⟩
      split at h3 <;> omega
    rw [lossCrashes, if_neg hn, Nat.zero_add]
    split
    · exact lossCrashes_of es _ (fun k v t ht => h k v t (List.mem_cons_of_mem _ ht))
    · rfl

/-! ## C119 -/

/-- C119 in full: after any history of completed and interrupted inserts, with a recovery after every crash, `lookup` gives for
every key the value of the last completed insert or that of an interrupted insert after it. -/
def C119_statement (c : FCfg K V) (adm : K → Prop) (M : Nat) : Prop :=
  ∀ es : List (Ev K V), (∀ e ∈ es, adm e.key) → ∀ s : State K (FLeaf M K V), execEv c (init (fpOps c M)) es = .ok s →
    ∀ x, ∃ r, lookup (fpOps c M) s x = .ok r ∧ May x (fun r => r = none) es r

/-- C119 for histories without a crash between bit and fingerprint: the statement holds for all keys but at most `M / 2` for
every crash inside a split, and no lookup gives a value that it may not give.  Missing: those keys, and the excluded crashes
(`C119_refuted`). -/
theorem C119_values_partial (F : FLaws c adm) (hN : 2 ≤ c.N) (hM : 2 ≤ M) (h4 : 4 ≤ M ∨ ∀ k, adm k → k < c.lim.max)
    (es : List (Ev K V)) (ha : ∀ e ∈ es, adm e.key) (hn : NoTorn (M := M) c (init (fpOps c M)) es) :
    ∃ (s : State K (FLeaf M K V)) (lost : List K), execEv c (init (fpOps c M)) es = .ok s ∧
      lost.length ≤ lossCrashes c (init (fpOps c M) : State K (FLeaf M K V)) es * (M / 2) ∧
      ∀ x, ∃ r, lookup (fpOps c M) s x = .ok r ∧ MayLose x (fun r => r = none) es r ∧
        (x ∉ lost → May x (fun r => r = none) es r) := by
  obtain ⟨s, m, lost, e, hi, hl, h1, h2⟩ := hist F hN hM h4 es (init (fpOps c M)) (fun _ => none) (fun _ r => r = none) (fun _ r => r = none) []
    (inv_init F hM) (fun _ _ => rfl) (fun _ => rfl) ha hn
  exact ⟨s, lost, e, by simpa using hl, fun x => ⟨m x, hi.lookup x, h2 x, h1 x⟩⟩

/-- C119 for histories without crashes between bit and fingerprint and without crashes inside a split. -/
theorem C119_calm (F : FLaws c adm) (hN : 2 ≤ c.N) (hM : 2 ≤ M) (h4 : 4 ≤ M ∨ ∀ k, adm k → k < c.lim.max)
    (es : List (Ev K V)) (ha : ∀ e ∈ es, adm e.key) (hn : NoTorn (M := M) c (init (fpOps c M)) es)
    (hl : lossCrashes c (init (fpOps c M) : State K (FLeaf M K V)) es = 0) :
    ∃ s : State K (FLeaf M K V), execEv c (init (fpOps c M)) es = .ok s ∧
      ∀ x, ∃ r, lookup (fpOps c M) s x = .ok r ∧ May x (fun r => r = none) es r := by
  obtain ⟨s, lost, e, h1, h2⟩ := C119_values_partial F hN hM h4 es ha hn
  rw [hl, Nat.zero_mul, Nat.le_zero] at h1
  have : lost = [] := List.length_eq_zero_iff.1 h1
  subst this
  refine ⟨s, e, fun x => ?_⟩
  obtain ⟨r, k1, _, k2⟩ := h2 x
  exact ⟨r, k1, k2 (by simp)⟩

/-- The configuration of the examples. -/
abbrev ic : FCfg Int Int := cfgInt 3 (fun _ => 0) (fun _ => 0) (fun _ => 0)

/-- A lookup after a history. -/
def lookEv (es : List (Ev Int Int)) (x : Int) : Res (Option Int) := do
  let s ← execEv ic (init (fpOps ic 4)) es
  lookup (fpOps ic 4) s x

/-- Four crashes between bit and fingerprint during the insert of the same key. -/
def tornFour : List (Ev Int Int) := [.crash 7 1 3, .crash 7 1 3, .crash 7 1 3, .crash 7 1 3]

/-- After four such crashes a completed insert of the key is not found. -/
example : lookEv (tornFour ++ [.insert 7 2]) 7 = .ok none := by decide +kernel

/-- A crash inside a split, and the insert of the same key again: key 40 is lost, the others are not. -/
example : [40, 10, 30, 20, 50].map (lookEv [.insert 40 4, .insert 10 1, .insert 30 3, .insert 20 2, .crash 50 5 5, .insert 50 6]) =
    [.ok none, .ok (some 1), .ok (some 3), .ok (some 2), .ok (some 6)] := by decide +kernel

/-- A history that meets the hypotheses of `C119_values_partial`: a crash inside a split (after the moves, before the link:
keys 30 and 40 are lost), the same insert again, a crash before the bit of the next entry, a crash before the first move of the
next split. -/
def exEv : List (Ev Int Int) :=
  [.insert 40 4, .insert 10 1, .insert 30 3, .insert 20 2, .crash 50 5 10, .insert 50 6, .crash 60 7 2, .insert 30 8, .crash 70 9 4]

example : NoTorn (M := 4) ic (init (fpOps ic 4)) exEv := noTorn_of _ _ (by
  intro k v t h
  simp only [exEv, List.mem_cons, List.not_mem_nil, or_false, Ev.crash.injEq, reduceCtorEq, false_or] at h
  rcases h with ⟨_, _, rfl⟩ | ⟨_, _, rfl⟩ | ⟨_, _, rfl⟩ <;> decide)

example : [40, 10, 30, 20, 50, 60, 70].map (lookEv exEv) =
    [.ok none, .ok (some 1), .ok (some 8), .ok (some 2), .ok (some 6), .ok none, .ok none] := by decide +kernel

/-- A history that meets the hypotheses of `C119_calm`: a crash of a split after the last link, but before the new entry. -/
def calmEv : List (Ev Int Int) :=
  [.insert 40 4, .insert 10 1, .insert 30 3, .insert 20 2, .crash 50 5 13, .crash 60 7 2, .insert 30 8, .crash 70 9 4]

example : NoTorn (M := 4) ic (init (fpOps ic 4)) calmEv ∧ lossCrashes ic (init (fpOps ic 4) : State Int (FLeaf 4 Int Int)) calmEv = 0 := by
  refine ⟨noTorn_of _ _ ?_, lossCrashes_of _ _ ?_⟩ <;>
  · intro k v t h
    simp only [calmEv, List.mem_cons, List.not_mem_nil, or_false, Ev.crash.injEq, reduceCtorEq, false_or] at h
    rcases h with ⟨_, _, rfl⟩ | ⟨_, _, rfl⟩ | ⟨_, _, rfl⟩ <;> decide

example : [40, 10, 30, 20, 50, 60, 70].map (lookEv calmEv) =
    [.ok (some 4), .ok (some 1), .ok (some 8), .ok (some 2), .ok none, .ok none, .ok (some 9)] := by decide +kernel

/-- C119 is false for `FPTree<int, int, 3, 4>`: after four crashes at the same point the completed insert of key 7 is lost. -/
theorem C119_refuted : ¬ C119_statement ic (fun k => 0 ≤ k ∧ k < 2 ^ 31) 4 := by
  intro h
  have he : lookEv (tornFour ++ [.insert 7 2]) 7 = .ok none := by decide +kernel
  unfold lookEv at he
  obtain ⟨s, e1, he⟩ := Res.bind_eq_ok.1 he
  obtain ⟨r, h1, h2⟩ := h (tornFour ++ [.insert 7 2]) (by
    intro e he
    simp only [tornFour, List.cons_append, List.nil_append, List.mem_cons, List.not_mem_nil, or_false] at he
    rcases he with rfl | rfl | rfl | rfl | rfl <;> decide) s e1 7
  rw [he] at h1
  cases Res.ok.inj h1
  simp [tornFour, May] at h2

/-- Without crashes between bit and fingerprint C119 is still false: a crash inside a split loses key 40. -/
theorem C119_loss : lookEv [.insert 40 4, .insert 10 1, .insert 30 3, .insert 20 2, .crash 50 5 5] 40 = .ok none ∧
    ¬ May 40 (fun r => r = none) [.insert 40 4, .insert 10 1, .insert 30 3, .insert 20 2, .crash 50 (5 : Int) 5] none :=
  ⟨by decide +kernel, by simp [May]⟩

/-! ## C120 -/

/-- C120 in full: all inserts, recoveries and lookups of such a history come to an end without undefined behaviour, exception
or failed assertion. -/
def C120_statement (c : FCfg K V) (adm : K → Prop) (M : Nat) : Prop :=
  ∀ es : List (Ev K V), (∀ e ∈ es, adm e.key) → ∃ s : State K (FLeaf M K V), execEv c (init (fpOps c M)) es = .ok s ∧
    ∀ x, ∃ r, lookup (fpOps c M) s x = .ok r

/-- C120 for histories without a crash between bit and fingerprint.  Missing: the others (`C120_refuted`). -/
theorem C120_usable_partial (F : FLaws c adm) (hN : 2 ≤ c.N) (hM : 2 ≤ M) (h4 : 4 ≤ M ∨ ∀ k, adm k → k < c.lim.max)
    (es : List (Ev K V)) (ha : ∀ e ∈ es, adm e.key) (hn : NoTorn (M := M) c (init (fpOps c M)) es) :
    ∃ s : State K (FLeaf M K V), execEv c (init (fpOps c M)) es = .ok s ∧ ∀ x, ∃ r, lookup (fpOps c M) s x = .ok r := by
  obtain ⟨s, _, e, _, h⟩ := C119_values_partial F hN hM h4 es ha hn
  refine ⟨s, e, fun x => ?_⟩
  obtain ⟨r, h1, _⟩ := h x
  exact ⟨r, h1⟩

/-- After four such crashes the insert of a larger key fails with an assertion. -/
example : lookEv (tornFour ++ [.insert 9 2]) 9 = .assertFail := by decide +kernel

/-- C120 is false for `FPTree<int, int, 3, 4>`. -/
theorem C120_refuted : ¬ C120_statement ic (fun k => 0 ≤ k ∧ k < 2 ^ 31) 4 := by
  intro h
  have he : lookEv (tornFour ++ [.insert 9 2]) 9 = .assertFail := by decide +kernel
  obtain ⟨s, e1, h1⟩ := h (tornFour ++ [.insert 9 2]) (by
    intro e he
    simp only [tornFour, List.cons_append, List.nil_append, List.mem_cons, List.not_mem_nil, or_false] at he
    rcases he with rfl | rfl | rfl | rfl | rfl <;> decide)
  obtain ⟨r, h1⟩ := h1 9
  unfold lookEv at he
  rw [e1, Res.ok_bind, h1] at he
  cases he

/-- `recover` does not restore `prevLeaf`: after a crash between the two link assignments of a split (588, 589) all lookups are
right, but an erase that makes the new leaf underflow follows a null pointer. -/
def nullPrev (x : Int) : Res (Bool × Option Int) := do
  let s ← execEv ic (init (fpOps ic 4)) [.insert 40 4, .insert 10 1, .insert 30 3, .insert 20 2, .crash 50 5 11]
  let r ← lookup (fpOps ic 4) s x
  let d ← erase (fpOps ic 4) s x
  pure (d.1, r)

theorem C120_erase_null_prev :
    [10, 20, 30, 40].map (lookEv [.insert 40 4, .insert 10 1, .insert 30 3, .insert 20 2, .crash 50 5 11]) =
      [.ok (some 1), .ok (some 2), .ok (some 3), .ok (some 4)] ∧ nullPrev 40 = .ub ∧ nullPrev 30 = .ub := by decide +kernel

end Verif.FPTreeProps
