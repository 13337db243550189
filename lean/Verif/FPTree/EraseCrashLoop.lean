import Verif.FPTree.EraseCrashRec

/-!
# Crashes inside an erase of the FPTree: the loops of `mergeLeafNodes` and `balanceLeafNodes`
-/

set_option linter.unusedSectionVars false

namespace Verif.FPTree

open Verif Search BTree Assoc MapSpec

variable {K V : Type} {M : Nat} [LinearOrder K] [Inhabited K] {c : FCfg K V} {adm : K → Prop}

/-! ## Crash points inside an entry -/

/-- The last of the first `t` assignments sets the bit of an entry or its fingerprint, so that key and value of the entry are
those of an earlier use of the slot; or it sets a key `x` of leaf `i` with `low i x`. -/
def Torn (low : Nat → K → Prop) (ws : List (EWrite K V)) (t : Nat) : Prop :=
  match (ws.take t).getLast? with
  | some (.w (.leaf _ (.bit _))) => True
  | some (.w (.leaf _ (.fp _ _))) => True
  | some (.w (.leaf i (.key _ x))) => low i x
  | _ => False

theorem torn_append {low : Nat → K → Prop} {g ws : List (EWrite K V)} {t : Nat} (ht : g.length ≤ t) (hn : ¬ Torn low g g.length) :
    Torn low (g ++ ws) t ↔ Torn low ws (t - g.length) := by
  unfold Torn at hn ⊢
  rw [List.take_append, List.take_of_length_le ht, List.getLast?_append]
  rw [List.take_length] at hn
  cases h : (List.take (t - g.length) ws).getLast? with
  | none => simp only [Option.none_or, iff_false]; exact hn
  | some y => rfl

theorem torn_left {low : Nat → K → Prop} {g ws : List (EWrite K V)} {t : Nat} (ht : t ≤ g.length) :
    Torn low (g ++ ws) t ↔ Torn low g t := by
  unfold Torn
  rw [List.take_append_of_le_length ht]

theorem applyE_append (ws ws' : List (EWrite K V)) : ∀ h : Heap (FLeaf M K V),
    applyE h (ws ++ ws') = applyE h ws >>= fun h => applyE h ws' := by
  induction ws with
  | nil => intro h; rfl
  | cons w ws ih =>
    intro h
    rw [List.cons_append, applyE, applyE, Res.bind_assoc']
    congr 1
    funext h
    exact ih h

/-! ## One entry -/

theorem slot_three {h : Heap (FLeaf M K V)} {i p f : Nat} {x : K} {v : V} {l l' : FLeaf M K V} (hl : h.data i = some l) (hp : p < M)
    (hf : l.fill p f x (l.vals p) = .ok l') : applyE h ((slotWrites i p f x v).take 3) = .ok (h.set i l') := by
  unfold FLeaf.fill at hf
  obtain ⟨b, eb, hf⟩ := Res.bind_eq_ok.1 hf
  have hv : upd l.vals p (l.vals p) = l.vals := by funext q; simp only [upd]; split <;> simp [*]
  rw [hv] at hf
  cases Res.ok.inj hf
  show applyE h [.w (.leaf i (.bit p)), .w (.leaf i (.fp p f)), .w (.leaf i (.key p x))] = _
  simp only [applyE, EWrite.apply]
  rw [leafW_ok hl (l' := { l with bits := b }) (by simp only [LWrite.apply, eb, Res.ok_bind]; rfl), Res.ok_bind,
    leafW_ok (Heap.set_data _ _ _) (l' := { l with bits := b, fp := upd l.fp p f }) (by simp only [LWrite.apply, if_pos hp]), Res.ok_bind,
    leafW_ok (Heap.set_data _ _ _) (l' := { l with bits := b, fp := upd l.fp p f, keys := upd l.keys p x }) (by simp only [LWrite.apply, if_pos hp]), Res.ok_bind,
    Heap.set_same, Heap.set_same]

theorem slot_four {h : Heap (FLeaf M K V)} {i p f : Nat} {x : K} {v : V} {l l' : FLeaf M K V} (hl : h.data i = some l) (hp : p < M)
    (hf : l.fill p f x v = .ok l') : applyE h (slotWrites i p f x v) = .ok (h.set i l') := by
  unfold FLeaf.fill at hf
  obtain ⟨b, eb, hf⟩ := Res.bind_eq_ok.1 hf
  cases Res.ok.inj hf
  simp only [slotWrites, applyE, EWrite.apply]
  rw [leafW_ok hl (l' := { l with bits := b }) (by simp only [LWrite.apply, eb, Res.ok_bind]; rfl), Res.ok_bind,
    leafW_ok (Heap.set_data _ _ _) (l' := { l with bits := b, fp := upd l.fp p f }) (by simp only [LWrite.apply, if_pos hp]), Res.ok_bind,
    leafW_ok (Heap.set_data _ _ _) (l' := { l with bits := b, fp := upd l.fp p f, keys := upd l.keys p x }) (by simp only [LWrite.apply, if_pos hp]), Res.ok_bind,
    leafW_ok (Heap.set_data _ _ _) (l' := ⟨b, upd l.fp p f, upd l.keys p x, upd l.vals p v⟩) (by simp only [LWrite.apply, if_pos hp]), Res.ok_bind,
    Heap.set_same, Heap.set_same, Heap.set_same]

theorem slot_torn (low : Nat → K → Prop) (i p f : Nat) (x : K) (v : V) :
    Torn low (slotWrites i p f x v) 1 ∧ Torn low (slotWrites i p f x v) 2 ∧ (Torn low (slotWrites i p f x v) 3 ↔ low i x) ∧
      ¬ Torn low (slotWrites i p f x v) 4 := by
  refine ⟨trivial, trivial, Iff.rfl, fun h => h⟩

/-- The assignments of one entry up to a crash point that is not inside the entry, or is after the key. -/
theorem slot_cases {low : Nat → K → Prop} {i p f : Nat} {x : K} {v : V} {ws : List (EWrite K V)} {t : Nat}
    (ht : ¬ Torn low (slotWrites i p f x v ++ ws) t) : t = 0 ∨ (t = 3 ∧ ¬ low i x) ∨ 4 ≤ t := by
  obtain ⟨h1, h2, h3, _⟩ := slot_torn low i p f x v
  have hl : (slotWrites i p f x v).length = 4 := rfl
  by_cases h4 : 4 ≤ t
  · exact Or.inr (Or.inr h4)
  · rw [torn_left (by omega)] at ht
    have : t = 0 ∨ t = 1 ∨ t = 2 ∨ t = 3 := by omega
    rcases this with rfl | rfl | rfl | rfl
    · exact Or.inl rfl
    · exact absurd h1 ht
    · exact absurd h2 ht
    · exact Or.inr (Or.inl ⟨rfl, fun h => ht (h3.2 h)⟩)

/-! ## Merging -/

theorem mergeWrites_spec {b : FLeaf M K V} (hb : FOk c.hash adm b) (id1 : Nat) (low : Nat → K → Prop) :
    ∀ (n i : Nat) (a : FLeaf M K V) (h : Heap (FLeaf M K V)), i + n = M → h.data id1 = some a →
    FOk c.hash adm a → a.abs.length + (entsFrom b i n).length ≤ M →
    (∀ x ∈ a.abs, ∀ y ∈ entsFrom b i n, x.1 ≠ y.1) →
    ∃ ws, mergeWrites id1 b i a n = .ok ws ∧
      (∀ t, ¬ Torn low ws t → ∃ a' extra, applyE h (ws.take t) = .ok (h.set id1 a') ∧ FOk c.hash adm a' ∧
        a'.abs.Perm (a.abs ++ extra) ∧ ∀ e ∈ extra, ∃ e' ∈ entsFrom b i n, e'.1 = e.1) ∧
      ∃ r, FLeaf.mergeLoop b i a n = .ok r ∧ applyE h ws = .ok (h.set id1 r)
  | 0, i, a, h, _, hd, ha, _, _ => by
    refine ⟨[], rfl, fun t _ => ⟨a, [], by rw [List.take_nil, applyE, Heap.set_self hd], ha, by simp, by simp⟩, a, rfl, ?_⟩
    rw [applyE, Heap.set_self hd]
  | n + 1, i, a, h, hi, hd, ha, hlen, hne => by
    have hiM : i < M := by omega
    rw [mergeWrites, FLeaf.mergeLoop, show b.bits.test i = .ok (Bitmap.bit b.bits i) from Bitmap.test_eq _ hiM, Res.ok_bind, Res.ok_bind]
    by_cases ht : Bitmap.bit b.bits i = true
    · have hent : entsFrom b i (n + 1) = (b.keys i, b.vals i) :: entsFrom b (i + 1) n := by
        rw [entsFrom, if_pos ht]
      rw [hent] at hlen hne ⊢
      simp only [if_pos ht, rdA_ok hiM, Res.ok_bind, hb.fp i hiM ht]
      simp only [List.length_cons] at hlen
      obtain ⟨hp, hfree⟩ := free_slot (l := a) (by omega)
      obtain ⟨a', e, ok, perm, _⟩ := fill_ok ha hp hfree (k := b.keys i)
        (fun x hx => hne x hx (b.keys i, b.vals i) (by simp)) (hb.adm i hiM ht) (b.vals i)
      obtain ⟨a3, e3, ok3, perm3, _⟩ := fill_ok ha hp hfree (k := b.keys i)
        (fun x hx => hne x hx (b.keys i, b.vals i) (by simp)) (hb.adm i hiM ht) (a.vals a.bits.getFreeZero)
      rw [e, Res.ok_bind, Res.ok_bind]
      obtain ⟨ws, ew, hall, r, er, hfin⟩ := mergeWrites_spec hb id1 low n (i + 1) a' (h.set id1 a') (by omega) (Heap.set_data _ _ _) ok
        (by rw [perm.length_eq, List.length_cons]; omega)
        (by
          intro x hx y hy
          rw [perm.mem_iff, List.mem_cons] at hx
          rcases hx with rfl | hx
          · have hpw := entsFrom_ne hb (n + 1) i (by omega)
            rw [hent, List.pairwise_cons] at hpw
            exact hpw.1 y hy
          · exact hne x hx y (by simp [hy]))
      rw [ew, Res.ok_bind, er]
      have hslot := slot_four (v := b.vals i) hd hp e
      refine ⟨_, rfl, fun t htn => ?_, r, rfl, ?_⟩
      · rcases slot_cases htn with rfl | ⟨rfl, _⟩ | h4
        · exact ⟨a, [], by rw [List.take_zero, applyE, Heap.set_self hd], ha, by simp, by simp⟩
        · refine ⟨a3, [(b.keys i, a.vals a.bits.getFreeZero)], ?_, ok3, ?_, ?_⟩
          · rw [List.take_append_of_le_length (by simp [slotWrites])]
            exact slot_three hd hp e3
          · exact perm3.trans (List.perm_append_singleton _ _).symm
          · intro e he
            rw [List.mem_singleton] at he
            exact ⟨(b.keys i, b.vals i), by simp, by rw [he]⟩
        · have htn' : ¬ Torn low ws (t - 4) := fun hc => htn ((torn_append (g := slotWrites id1 _ _ _ _) h4 (slot_torn low _ _ _ _ _).2.2.2).2 hc)
          obtain ⟨a2, ex, e2, ok2, perm2, hex⟩ := hall (t - 4) htn'
          refine ⟨a2, (b.keys i, b.vals i) :: ex, ?_, ok2, ?_, ?_⟩
          · rw [List.take_append, List.take_of_length_le (by exact h4), applyE_append, hslot, Res.ok_bind,
              show t - (slotWrites id1 a.bits.getFreeZero (c.hash (b.keys i)) (b.keys i) (b.vals i)).length = t - 4 from rfl, e2, Heap.set_same]
          · refine perm2.trans ((perm.append_right ex).trans ?_)
            rw [List.cons_append]
            exact List.perm_middle.symm
          · intro e he
            rcases List.mem_cons.1 he with rfl | he
            · exact ⟨_, List.mem_cons_self, rfl⟩
            · obtain ⟨e', h1, h2⟩ := hex e he
              exact ⟨e', List.mem_cons_of_mem _ h1, h2⟩
      · rw [applyE_append, hslot, Res.ok_bind, hfin, Heap.set_same]
    · have hent : entsFrom b i (n + 1) = entsFrom b (i + 1) n := by rw [entsFrom, if_neg ht]
      rw [hent] at hlen hne ⊢
      simp only [if_neg ht]
      exact mergeWrites_spec hb id1 low n (i + 1) a h (by omega) hd ha hlen hne

/-! ## Rebalancing -/

/-- One round of `balanceLeafNodes`. -/
theorem moveOne_writes {idd idr p : Nat} (hne : idd ≠ idr) {d r d1 r1 : FLeaf M K V} {h : Heap (FLeaf M K V)} (hd : h.data idd = some d)
    (hr : h.data idr = some r) (hp : p < M) (hlen : r.abs.length < M) (e : FLeaf.moveOne c d r p = .ok (d1, r1)) :
    applyE h (slotWrites idr r.bits.getFreeZero (c.hash (d.keys p)) (d.keys p) (d.vals p)) = .ok (h.set idr r1) ∧
    applyE h (slotWrites idr r.bits.getFreeZero (c.hash (d.keys p)) (d.keys p) (d.vals p) ++ [.w (.reset idd p)]) =
      .ok ((h.set idd d1).set idr r1) := by
  unfold FLeaf.moveOne at e
  rw [rdA_ok hp, Res.ok_bind, rdA_ok hp, Res.ok_bind] at e
  obtain ⟨r', e1, e⟩ := Res.bind_eq_ok.1 e
  obtain ⟨b, e2, e⟩ := Res.bind_eq_ok.1 e
  cases Res.ok.inj e
  obtain ⟨hf, _⟩ := free_slot hlen
  have h4 := slot_four (v := d.vals p) hr hf e1
  refine ⟨h4, ?_⟩
  rw [applyE_append, h4, Res.ok_bind]
  simp only [applyE, EWrite.apply, HWrite.apply]
  rw [Heap.get_of (by rw [Heap.set_data_ne _ hne]; exact hd), Res.ok_bind, e2, Res.ok_bind]
  show (Res.ok ((h.set idr r1).set idd { d with bits := b }) : Res (Heap (FLeaf M K V))) = _
  rw [Heap.set_comm _ hne]

theorem moveTorn (low : Nat → K → Prop) (i p f idd q : Nat) (x : K) (v : V) :
    ¬ Torn low (slotWrites i p f x v ++ [.w (.reset idd q)]) 5 := fun h => h

/-- A crash inside a rebalancing with the left sibling (`d`). -/
theorem balUp_spec (F : FLaws c adm) {idd idr : Nat} (hne : idd ≠ idr) (low : Nat → K → Prop) :
    ∀ (n : Nat) (d r : FLeaf M K V) (ds xs : List (K × V)) (h : Heap (FLeaf M K V)), h.data idd = some d → h.data idr = some r →
    FOk c.hash adm d → FOk c.hash adm r → d.abs = ds ++ xs → xs.length = n → 1 ≤ ds.length →
    Sorted (d.abs ++ r.abs) → r.abs.length + n ≤ M → (∀ e ∈ d.abs, low idr e.1) →
    ∃ ws, balWrites c true idd idr n d r = .ok ws ∧
      (∀ t, ¬ Torn low ws t → ∃ d' r' d0 : FLeaf M K V, applyE h (ws.take t) = .ok ((h.set idd d').set idr r') ∧
        FOk c.hash adm d' ∧ FOk c.hash adm r' ∧ FOk c.hash adm d0 ∧ d0.abs ++ r'.abs = d.abs ++ r.abs ∧ d0.abs ≠ [] ∧
        r.abs.length ≤ r'.abs.length ∧ (d'.abs = d0.abs ∨ ∃ e, d'.abs = d0.abs ++ [e] ∧ find e.1 r'.abs ≠ none)) ∧
      ∃ d1 r1, FLeaf.moveLoop c true n d r = .ok (d1, r1) ∧ applyE h ws = .ok ((h.set idd d1).set idr r1)
  | 0, d, r, ds, xs, h, hdd, hdr, hd, hr, he, hn, h1, _, _, _ => by
    have hdne : d.abs ≠ [] := by
      intro e; rw [he] at e; simp at e; rw [e.1] at h1; simp at h1
    have hself : (h.set idd d).set idr r = h := by
      rw [Heap.set_self hdd, Heap.set_self hdr]
    refine ⟨[], rfl, fun t _ => ⟨d, r, d, by rw [List.take_nil, applyE, hself], hd, hr, hd, rfl, hdne, le_rfl, Or.inl rfl⟩, d, r, rfl, ?_⟩
    rw [applyE, hself]
  | n + 1, d, r, ds, xs, h, hdd, hdr, hd, hr, he, hn, h1, hs, hlen, hlow => by
    have hdne : d.abs ≠ [] := by
      intro e; rw [he] at e; simp at e; rw [e.1] at h1; simp at h1
    have hself : (h.set idd d).set idr r = h := by
      rw [Heap.set_self hdd, Heap.set_self hdr]
    obtain ⟨ys, x, rfl⟩ : ∃ ys x, xs = ys ++ [x] := by
      rcases List.eq_nil_or_concat xs with h | ⟨a, x, h⟩
      · rw [h] at hn; simp at hn
      · exact ⟨a, x, by simpa using h⟩
    have he' : d.abs = (ds ++ ys) ++ [x] := by rw [he]; simp
    have hys : ys.length = n := by simpa using hn
    obtain ⟨da, ra, em, okd, okr, hd1, hr1⟩ := moveLoop_up F 1 d r (ds ++ ys) [x] hd hr he' rfl (by simp; omega) hs (by omega)
    rw [FLeaf.moveLoop, if_pos rfl] at em
    obtain ⟨p, ep, em⟩ := Res.bind_eq_ok.1 em
    obtain ⟨⟨d1, r1⟩, e1, em⟩ := Res.bind_eq_ok.1 em
    cases Res.ok.inj em
    obtain ⟨p', ep', hp, hb, hx⟩ := maxPos_two F hd he' (by simp; omega)
    rw [ep] at ep'
    cases Res.ok.inj ep'
    obtain ⟨w4, w5⟩ := moveOne_writes hne hdd hdr hp (by omega) e1
    have hsd : Sorted (d1.abs ++ r1.abs) := by
      rw [hd1, hr1]
      have : ds ++ ys ++ ([x] ++ r.abs) = d.abs ++ r.abs := by rw [he']; simp
      rw [this]; exact hs
    have hdd1 : ((h.set idd d1).set idr r1).data idd = some d1 := by rw [Heap.set_data_ne _ hne, Heap.set_data]
    have hrl : r1.abs.length = r.abs.length + 1 := by rw [hr1]; simp
    obtain ⟨ws, ew, hall, d2, r2, e2, hfin⟩ := balUp_spec F hne low n d1 r1 ds ys _ hdd1 (Heap.set_data _ _ _) okd okr hd1 hys h1 hsd (by omega)
      (fun e hm => hlow e (by rw [he']; rw [hd1] at hm; exact List.mem_append_left _ hm))
    have hset : ∀ a b, ((((h.set idd d1).set idr r1).set idd a).set idr b) = (h.set idd a).set idr b := by
      intro a b
      rw [Heap.set_comm (h.set idd d1) (Ne.symm hne), Heap.set_same, Heap.set_same]
    have hwe : balWrites c true idd idr (n + 1) d r = .ok ((slotWrites idr r.bits.getFreeZero (c.hash (d.keys p)) (d.keys p) (d.vals p) ++
        [.w (.reset idd p)]) ++ ws) := by
      rw [balWrites, if_pos rfl, ep, Res.ok_bind, rdA_ok hp, Res.ok_bind, rdA_ok hp, Res.ok_bind, e1, Res.ok_bind, ew, Res.ok_bind]
      simp only [List.append_assoc, List.singleton_append]
      rfl
    refine ⟨_, hwe, fun t htn => ?_, d2, r2, ?_, ?_⟩
    · by_cases h5 : 5 ≤ t
      · have htn' : ¬ Torn low ws (t - 5) := fun hc => htn ((torn_append (g := slotWrites idr _ _ _ _ ++ [.w (.reset idd p)]) h5 (moveTorn low _ _ _ _ _ _ _)).2 hc)
        obtain ⟨d', r', d0, ea, k1, k2, k3, k4, k5, k6, k7⟩ := hall (t - 5) htn'
        refine ⟨d', r', d0, ?_, k1, k2, k3, ?_, k5, by omega, k7⟩
        · rw [List.take_append, List.take_of_length_le (by exact h5), applyE_append, w5, Res.ok_bind]
          exact ea.trans (by rw [hset])
        · rw [k4, hd1, hr1, he']; simp
      · rw [List.append_assoc] at htn
        rcases slot_cases htn with rfl | ⟨rfl, hl⟩ | h4
        · exact ⟨d, r, d, by rw [List.take_zero, applyE, hself], hd, hr, hd, rfl, hdne, le_rfl, Or.inl rfl⟩
        · refine absurd (hlow (d.keys p, d.vals p) ?_) hl
          rw [hx, he']; simp
        · have : t = 4 := by omega
          subst this
          refine ⟨d, r1, d1, ?_, hd, okr, okd, ?_, ?_, by omega, Or.inr ⟨x, by rw [hd1, he'], ?_⟩⟩
          · rw [List.append_assoc, List.take_append_of_le_length (by simp [slotWrites]), List.take_of_length_le (by simp [slotWrites]), w4, Heap.set_self hdd]
          · rw [hd1, hr1, he']; simp
          · rw [hd1]; intro e; simp at e; rw [e.1] at h1; simp at h1
          · rw [hr1]; simp [find]
    · rw [FLeaf.moveLoop, if_pos rfl, ep, Res.ok_bind, e1, Res.ok_bind, e2]
    · rw [applyE_append, w5, Res.ok_bind]
      exact hfin.trans (by rw [hset])

/-- A crash inside a rebalancing with the right sibling (`d`). -/
theorem balDown_spec (F : FLaws c adm) {idd idr : Nat} (hne : idd ≠ idr) (low : Nat → K → Prop) :
    ∀ (n : Nat) (d r : FLeaf M K V) (xs ds : List (K × V)) (h : Heap (FLeaf M K V)), h.data idd = some d → h.data idr = some r →
    FOk c.hash adm d → FOk c.hash adm r → d.abs = xs ++ ds → xs.length = n → 1 ≤ ds.length →
    Sorted (r.abs ++ d.abs) → r.abs.length + n ≤ M →
    ∃ ws, balWrites c false idd idr n d r = .ok ws ∧
      (∀ t, ¬ Torn low ws t → ∃ d' r' r0 : FLeaf M K V, applyE h (ws.take t) = .ok ((h.set idd d').set idr r') ∧
        FOk c.hash adm d' ∧ FOk c.hash adm r' ∧ FOk c.hash adm r0 ∧ r0.abs ++ d'.abs = r.abs ++ d.abs ∧ d'.abs ≠ [] ∧
        r.abs.length ≤ r0.abs.length ∧ (r'.abs = r0.abs ∨ ∃ e, r'.abs = r0.abs ++ [e] ∧ find e.1 d'.abs ≠ none)) ∧
      ∃ d1 r1, FLeaf.moveLoop c false n d r = .ok (d1, r1) ∧ applyE h ws = .ok ((h.set idd d1).set idr r1)
  | 0, d, r, xs, ds, h, hdd, hdr, hd, hr, he, hn, h1, _, _ => by
    have hdne : d.abs ≠ [] := by
      intro e; rw [he] at e; simp at e; rw [e.2] at h1; simp at h1
    have hself : (h.set idd d).set idr r = h := by
      rw [Heap.set_self hdd, Heap.set_self hdr]
    refine ⟨[], rfl, fun t _ => ⟨d, r, r, by rw [List.take_nil, applyE, hself], hd, hr, hr, rfl, hdne, le_rfl, Or.inl rfl⟩, d, r, rfl, ?_⟩
    rw [applyE, hself]
  | n + 1, d, r, xs, ds, h, hdd, hdr, hd, hr, he, hn, h1, hs, hlen => by
    have hdne : d.abs ≠ [] := by
      intro e; rw [he] at e; simp at e; rw [e.2] at h1; simp at h1
    have hself : (h.set idd d).set idr r = h := by
      rw [Heap.set_self hdd, Heap.set_self hdr]
    obtain ⟨x, ys, rfl⟩ : ∃ x ys, xs = x :: ys := by
      cases xs with
      | nil => simp at hn
      | cons a b => exact ⟨a, b, rfl⟩
    have he' : d.abs = x :: (ys ++ ds) := by rw [he]; simp
    have he1 : d.abs = [x] ++ (ys ++ ds) := he'
    have hys : ys.length = n := by simpa using hn
    obtain ⟨da, ra, em, okd, okr, hd1, hr1⟩ := moveLoop_down F 1 d r [x] (ys ++ ds) hd hr he1 rfl (by simp; omega) hs (by omega)
    rw [FLeaf.moveLoop, if_neg (by simp)] at em
    obtain ⟨p, ep, em⟩ := Res.bind_eq_ok.1 em
    obtain ⟨⟨d1, r1⟩, e1, em⟩ := Res.bind_eq_ok.1 em
    cases Res.ok.inj em
    obtain ⟨p', ep', hp, hb, hx⟩ := minPos_two F hd he' (Or.inl (by simp; omega))
    rw [ep] at ep'
    cases Res.ok.inj ep'
    obtain ⟨w4, w5⟩ := moveOne_writes hne hdd hdr hp (by omega) e1
    obtain ⟨hsr, hsd0, hrd⟩ := sorted_append.1 hs
    have hxr : ∀ e ∈ r.abs, e.1 < x.1 := fun e h => hrd e h x (by rw [he']; simp)
    have hkx : d.keys p = x.1 := by rw [← hx]
    obtain ⟨hf, hfree⟩ := free_slot (l := r) (by omega)
    obtain ⟨r3, e3, ok3, perm3, _⟩ := fill_ok hr hf hfree (k := d.keys p) (fun e h => by rw [hkx]; exact ne_of_lt (hxr e h))
      (hd.adm p hp hb) (r.vals r.bits.getFreeZero)
    have hr3 : r3.abs = r.abs ++ [(x.1, r.vals r.bits.getFreeZero)] := by
      refine sorted_eq_of_perm ok3.sorted (sorted_append.2 ⟨hsr, by simp [Sorted], fun a ha b hb => ?_⟩) ?_
      · rw [List.mem_singleton.1 hb]; exact hxr a ha
      · rw [← hkx]; exact perm3.trans (List.perm_append_singleton _ _).symm
    have hfx : find x.1 d.abs ≠ none := by rw [he']; simp [find]
    have hsd : Sorted (r1.abs ++ d1.abs) := by
      rw [hd1, hr1]
      have : r.abs ++ [x] ++ (ys ++ ds) = r.abs ++ d.abs := by rw [he']; simp
      rw [this]; exact hs
    have hdd1 : ((h.set idd d1).set idr r1).data idd = some d1 := by rw [Heap.set_data_ne _ hne, Heap.set_data]
    have hrl : r1.abs.length = r.abs.length + 1 := by rw [hr1]; simp
    obtain ⟨ws, ew, hall, d2, r2, e2, hfin⟩ := balDown_spec F hne low n d1 r1 ys ds _ hdd1 (Heap.set_data _ _ _) okd okr hd1 hys h1 hsd (by omega)
    have hset : ∀ a b, ((((h.set idd d1).set idr r1).set idd a).set idr b) = (h.set idd a).set idr b := by
      intro a b
      rw [Heap.set_comm (h.set idd d1) (Ne.symm hne), Heap.set_same, Heap.set_same]
    have hwe : balWrites c false idd idr (n + 1) d r = .ok ((slotWrites idr r.bits.getFreeZero (c.hash (d.keys p)) (d.keys p) (d.vals p) ++
        [.w (.reset idd p)]) ++ ws) := by
      rw [balWrites, if_neg (by simp), ep, Res.ok_bind, rdA_ok hp, Res.ok_bind, rdA_ok hp, Res.ok_bind, e1, Res.ok_bind, ew, Res.ok_bind]
      simp only [List.append_assoc, List.singleton_append]
      rfl
    refine ⟨_, hwe, fun t htn => ?_, d2, r2, ?_, ?_⟩
    · by_cases h5 : 5 ≤ t
      · have htn' : ¬ Torn low ws (t - 5) := fun hc => htn ((torn_append (g := slotWrites idr _ _ _ _ ++ [.w (.reset idd p)]) h5 (moveTorn low _ _ _ _ _ _ _)).2 hc)
        obtain ⟨d', r', r0, ea, k1, k2, k3, k4, k5, k6, k7⟩ := hall (t - 5) htn'
        refine ⟨d', r', r0, ?_, k1, k2, k3, ?_, k5, by omega, k7⟩
        · rw [List.take_append, List.take_of_length_le (by exact h5), applyE_append, w5, Res.ok_bind]
          exact ea.trans (by rw [hset])
        · rw [k4, hd1, hr1, he']; simp
      · rw [List.append_assoc] at htn
        rcases slot_cases htn with rfl | ⟨rfl, hl⟩ | h4
        · exact ⟨d, r, r, by rw [List.take_zero, applyE, hself], hd, hr, hr, rfl, hdne, le_rfl, Or.inl rfl⟩
        · refine ⟨d, r3, r, ?_, hd, ok3, hr, rfl, hdne, le_rfl, Or.inr ⟨_, hr3, hfx⟩⟩
          rw [List.append_assoc, List.take_append_of_le_length (by simp [slotWrites]), slot_three hdr hf e3, Heap.set_self hdd]
        · have : t = 4 := by omega
          subst this
          refine ⟨d, r1, r, ?_, hd, okr, hr, rfl, hdne, le_rfl, Or.inr ⟨x, hr1, hfx⟩⟩
          rw [List.append_assoc, List.take_append_of_le_length (by simp [slotWrites]), List.take_of_length_le (by simp [slotWrites]), w4, Heap.set_self hdd]
    · rw [FLeaf.moveLoop, if_neg (by simp), ep, Res.ok_bind, e1, Res.ok_bind, e2]
    · rw [applyE_append, w5, Res.ok_bind]
      exact hfin.trans (by rw [hset])

end Verif.FPTree
