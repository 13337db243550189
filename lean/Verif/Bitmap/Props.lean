import Verif.Bitmap.Lemmas

/-! # Property theorems for `Bitmap` (C01-C04, C49) -/

namespace Verif.BitmapProps

open Verif BitmapSpec

/-- C01. After any history of point updates, `test j` returns the abstract value of position `j`
and throws for positions outside the bitmap. -/
theorem C01_point_updates (NB : Nat) (ops : List Op) (hops : ∀ o ∈ ops, o.isPoint) (j : Nat) :
    (run NB ops).test j =
      if j < NB then .ok (ops.foldl (pointStep NB) (fun _ => false) j) else .throws := by
  by_cases hj : j < NB
  swap
  · rw [if_neg hj, Bitmap.test_throws _ (by omega)]
  rw [if_pos hj]
  unfold run
  suffices H : ∀ (b : Bitmap NB) (s : Nat → Bool), (∀ p < NB, b.test p = .ok (s p)) →
      (ops.foldl (fun b o => (apply b o).1) b).test j = .ok (ops.foldl (pointStep NB) s j) by
    apply H
    intro p hp
    rw [Bitmap.test_eq _ hp]
    simp [Bitmap.fresh]
  induction ops with
  | nil => intro b s h; exact h j hj
  | cons o os ih =>
    intro b s h
    rw [List.foldl_cons, List.foldl_cons]
    apply ih (fun o' ho' => hops o' (List.mem_cons_of_mem _ ho'))
    have key : ∀ (pos : Nat) (v : Bool) (b' : Bitmap NB), b.set pos v = .ok b' → ∀ p < NB,
        b'.test p = .ok (if p = pos then v else s p) := by
      intro pos v b' hb p hp
      have h2 := h p hp
      rw [Bitmap.test_eq _ hp] at h2 ⊢
      rw [Bitmap.set_getLsbD b b' pos v hb _ _ (Nat.mod_lt _ (by decide))]
      by_cases hpp : p = pos
      · subst hpp; simp
      · have : ¬ (p / 64 = pos / 64 ∧ p % 64 = pos % 64) := by omega
        rw [if_neg this, if_neg hpp]; exact h2
    have gen : ∀ (pos : Nat) (v : Bool), ∀ p < NB,
        (match b.set pos v with | .ok b' => (b', false) | _ => (b, true)).1.test p =
          .ok (if p = pos ∧ pos < NB then v else s p) := by
      intro pos v p hp
      by_cases hpos : pos < NB
      · obtain ⟨b', hb'⟩ := (Bitmap.set_ok b pos v).1 hpos
        rw [hb']
        simp only [hpos, and_true]
        exact key pos v b' hb' p hp
      · rw [(Bitmap.set_ok b pos v).2 (by omega)]
        simp only [hpos, and_false, if_false]
        exact h p hp
    cases o with
    | set pos v => exact gen pos v
    | reset pos =>
      intro p hp
      have := gen pos false p hp
      unfold apply pointStep
      simp only [Bitmap.reset_eq_set]
      exact this
    | flip => exact absurd (hops _ (List.mem_cons_self ..)) (by simp [Op.isPoint])
    | setAll => exact absurd (hops _ (List.mem_cons_self ..)) (by simp [Op.isPoint])

/-- C01, second half: a point update throws exactly for positions outside the bitmap, and then the
object is unchanged. -/
theorem C01_out_of_range (NB : Nat) (b : Bitmap NB) (pos : Nat) (v : Bool) :
    ((apply b (.set pos v)).2 = true ↔ NB ≤ pos) ∧ ((apply b (.reset pos)).2 = true ↔ NB ≤ pos) ∧
    (NB ≤ pos → b.set pos v = .throws ∧ b.reset pos = .throws ∧
      (apply b (.set pos v)).1 = b ∧ (apply b (.reset pos)).1 = b) := by
  have hs := Bitmap.set_ok b pos v
  have hr := Bitmap.set_ok b pos false
  unfold apply
  simp only [Bitmap.reset_eq_set]
  by_cases h : pos < NB
  · obtain ⟨b1, h1⟩ := hs.1 h
    obtain ⟨b2, h2⟩ := hr.1 h
    rw [h1, h2]
    simp; omega
  · have h1 := hs.2 (by omega)
    have h2 := hr.2 (by omega)
    rw [h1, h2]
    simp; omega

/-- Non-triviality of C01: a history crossing a word boundary with an out-of-range call. -/
example : (run 100 [.set 63 true, .set 64 true, .reset 63, .set 100 true, .set 3 true]).test 64 = .ok true ∧
    (run 100 [.set 63 true, .set 64 true, .reset 63, .set 100 true, .set 3 true]).test 63 = .ok false ∧
    (run 100 [.set 63 true, .set 64 true, .reset 63, .set 100 true, .set 3 true]).test 100 = .throws := by
  decide +kernel

/-- C02. `count()` is the number of positions that test true, after any history of calls. -/
theorem C02_count (NB : Nat) (ops : List Op) :
    (run NB ops).count = (members (run NB ops)).card :=
  Bitmap.count_eq_card (Bitmap.clean_run ops)

/-- C02. `all()` is true exactly when every position tests true. -/
theorem C02_all (NB : Nat) (hNB : 0 < NB) (ops : List Op) :
    (run NB ops).all = true ↔ ∀ p < NB, (run NB ops).test p = .ok true := by
  rw [Bitmap.all_iff (Bitmap.clean_run ops) hNB]
  constructor
  · intro h p hp
    rw [Bitmap.test_eq _ hp]
    exact congrArg _ (h p hp)
  · intro h p hp
    have := h p hp
    rw [Bitmap.test_eq _ hp] at this
    exact Res.ok.inj this

example : (run 70 [.set 0 true, .set 69 true, .flip]).count = 68 := by decide +kernel
example : (run 3 [.set 0 true, .set 1 true, .set 2 true]).all = true := by decide +kernel

/-- C03. `getFirstSet()` is the smallest position that tests true; a value `≥ NB` means that no
position is set. -/
theorem C03_getFirstSet (NB : Nat) (ops : List Op) :
    ((run NB ops).getFirstSet < NB →
      (run NB ops).test (run NB ops).getFirstSet = .ok true ∧
      ∀ p < (run NB ops).getFirstSet, (run NB ops).test p = .ok false) ∧
    (NB ≤ (run NB ops).getFirstSet ↔ ∀ p < NB, (run NB ops).test p = .ok false) := by
  have hb : ∀ p < NB, ∀ v, (run NB ops).test p = .ok v ↔ Bitmap.bit (run NB ops) p = v := by
    intro p hp v; rw [Bitmap.test_eq _ hp]
    exact ⟨fun h => Res.ok.inj h, fun h => congrArg _ h⟩
  rcases Bitmap.getFirstSet_spec (Bitmap.clean_run (NB := NB) ops) with ⟨h1, h2, h3⟩ | ⟨h1, h2⟩
  · refine ⟨fun _ => ⟨(hb _ h1 _).2 h2, fun p hp => (hb p (by omega) _).2 (h3 p hp)⟩, ?_⟩
    constructor
    · intro h; omega
    · intro h
      have := (hb _ h1 _).1 (h _ h1)
      rw [h2] at this; exact absurd this (by simp)
  · refine ⟨fun h => absurd h (by omega), ⟨fun _ p hp => (hb p hp _).2 (h2 p hp), fun _ => h1⟩⟩

/-- C03. `getFreeZero()` is the smallest position that tests false; a value `≥ NB` means that the
bitmap is full. -/
theorem C03_getFreeZero (NB : Nat) (ops : List Op) :
    ((run NB ops).getFreeZero < NB →
      (run NB ops).test (run NB ops).getFreeZero = .ok false ∧
      ∀ p < (run NB ops).getFreeZero, (run NB ops).test p = .ok true) ∧
    (NB ≤ (run NB ops).getFreeZero ↔ ∀ p < NB, (run NB ops).test p = .ok true) := by
  have hb : ∀ p < NB, ∀ v, (run NB ops).test p = .ok v ↔ Bitmap.bit (run NB ops) p = v := by
    intro p hp v; rw [Bitmap.test_eq _ hp]
    exact ⟨fun h => Res.ok.inj h, fun h => congrArg _ h⟩
  rcases Bitmap.getFreeZero_spec (run NB ops) with ⟨h1, h2, h3⟩ | ⟨h1, h2⟩
  · refine ⟨fun _ => ⟨(hb _ h1 _).2 h2, fun p hp => (hb p (by omega) _).2 (h3 p hp)⟩, ?_⟩
    constructor
    · intro h; omega
    · intro h
      have := (hb _ h1 _).1 (h _ h1)
      rw [h2] at this; exact absurd this (by simp)
  · refine ⟨fun h => absurd h (by omega), ⟨fun _ p hp => (hb p hp _).2 (h2 p hp), fun _ => h1⟩⟩

example : (run 70 [.set 0 true, .set 1 true, .set 66 true]).getFreeZero = 2 ∧
    (run 70 [.set 66 true]).getFirstSet = 66 ∧ (run 70 []).getFirstSet = 128 ∧
    (run 2 [.set 0 true, .set 1 true]).getFreeZero = 2 := by decide +kernel

/-- C04, full statement: `set()` sets every position and `flip()` complements every position. -/
def C04_statement (NB : Nat) : Prop :=
  ∀ ops : List Op,
    (∀ p < NB, (run NB ops).setAll.test p = .ok true) ∧
    (∀ p < NB, ∀ v, (run NB ops).test p = .ok v → (run NB ops).flip.test p = .ok (!v)) ∧
    (run NB ops).setAll.count = NB ∧ (run NB ops).flip.count = NB - (run NB ops).count

/-- The counts in C04, for sizes that are not a multiple of the word size. -/
private theorem C04_count (NB : Nat) (h : NB % 64 ≠ 0) (ops : List Op) :
    (run NB ops).setAll.count = NB ∧ (run NB ops).flip.count = NB - (run NB ops).count := by
  have hs : (run NB ops).setAll.count = (members (run NB ops).setAll).card :=
    Bitmap.count_eq_card (Bitmap.clean_sanitize _)
  have hf : (run NB ops).flip.count = (members (run NB ops).flip).card :=
    Bitmap.count_eq_card (Bitmap.clean_sanitize _)
  have hc := C02_count NB ops
  constructor
  · rw [hs]
    have : members (run NB ops).setAll = Finset.range NB := by
      ext p; rw [Bitmap.mem_members, Finset.mem_range]
      constructor
      · exact fun h => h.1
      · intro hp
        refine ⟨hp, ?_⟩
        rw [Bitmap.bit_setAll _ _ hp, if_neg (fun hh => h hh.1)]
    rw [this, Finset.card_range]
  · rw [hf, hc]
    have : members (run NB ops).flip = Finset.range NB \ members (run NB ops) := by
      ext p
      rw [Bitmap.mem_members, Finset.mem_sdiff, Bitmap.mem_members, Finset.mem_range]
      constructor
      · rintro ⟨hp, hb⟩
        rw [Bitmap.bit_flip _ _ hp, if_neg (fun hh => h hh.1)] at hb
        exact ⟨hp, fun hh => by rw [hh.2] at hb; exact absurd hb (by simp)⟩
      · rintro ⟨hp, hb⟩
        refine ⟨hp, ?_⟩
        rw [Bitmap.bit_flip _ _ hp, if_neg (fun hh => h hh.1)]
        cases hbit : Bitmap.bit (run NB ops) p
        · rfl
        · exact absurd ⟨hp, hbit⟩ hb
    rw [this, Finset.card_sdiff_of_subset, Finset.card_range]
    intro p hp
    exact Finset.mem_range.mpr (Bitmap.mem_members.mp hp).1

/-- C04 holds for sizes that are not a multiple of the word size. Missing: the multiples, for which
it is false (`C04_refuted`). -/
theorem C04_partial (NB : Nat) (h : NB % 64 ≠ 0) : C04_statement NB := by
  intro ops
  refine ⟨?_, ?_, C04_count NB h ops⟩
  · intro p hp
    rw [Bitmap.test_eq _ hp]
    have := Bitmap.bit_setAll (run NB ops) p hp
    rw [if_neg (fun hh => h hh.1)] at this
    exact congrArg _ this
  · intro p hp v hv
    rw [Bitmap.test_eq _ hp] at hv ⊢
    have := Bitmap.bit_flip (run NB ops) p hp
    rw [if_neg (fun hh => h hh.1)] at this
    have hv := Res.ok.inj hv
    rw [← hv]
    exact congrArg _ this

/-- C04 is false for every positive multiple of the word size: `set()` leaves the last position
clear. -/
theorem C04_refuted (NB : Nat) (hpos : 0 < NB) (h : NB % 64 = 0) : ¬ C04_statement NB := by
  intro hst
  have h1 := (hst []).1 (NB - 1) (by omega)
  rw [Bitmap.test_eq _ (by omega)] at h1
  have h2 := Bitmap.bit_setAll (run NB []) (NB - 1) (by omega)
  rw [if_pos ⟨h, by unfold Bitmap.numWords; omega⟩] at h2
  have h1 := Res.ok.inj h1
  unfold Bitmap.bit at h2
  rw [h1] at h2
  exact absurd h2 (by simp)

example : ¬ C04_statement 64 := C04_refuted 64 (by decide) (by decide)
example : C04_statement 100 := C04_partial 100 (by decide)

/-- C49. The textual form shows position `NB-1` first and position `0` last, `'1'` for set. -/
theorem C49_copyToString (NB : Nat) (ops : List Op) :
    (run NB ops).copyToString.length = NB ∧
    ∀ p < NB, ∀ v, (run NB ops).test p = .ok v →
      (run NB ops).copyToString[NB - 1 - p]? = some (if v then '1' else '0') := by
  unfold Bitmap.copyToString
  refine ⟨by simp, ?_⟩
  intro p hp v hv
  have e : NB - 1 - (NB - 1 - p) = p := by omega
  rw [Bitmap.test_eq _ hp] at hv
  have hv := Res.ok.inj hv
  rw [List.getElem?_map, List.getElem?_range (by omega)]
  simp only [Option.map_some, e, Bitmap.and_mask_ne_zero, hv]

example : (run 5 [.set 0 true, .set 3 true]).copyToString = ['0', '1', '0', '0', '1'] := by decide +kernel

end Verif.BitmapProps
