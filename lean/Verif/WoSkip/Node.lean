import Verif.WoSkip.Model
import Verif.FPTree.Laws

/-!
# Lemmas on single nodes of the write-optimised skip list
-/

set_option linter.unusedSectionVars false

namespace Verif.Search

variable {K : Type} [LinearOrder K]

theorem splitLoop_clean {M : Nat} (cv : Conv K) (data : Arr K) (sk : Nat) : ∀ (n i : Nat) (b : Bitmap M)
    (sp : Option Nat) (r : Bitmap M × Option Nat), Bitmap.Clean b → splitLoop cv data sk i b sp n = .ok r →
    Bitmap.Clean r.1
  | 0, _, b, _, r, h, e => by rw [← Res.ok.inj e]; exact h
  | n + 1, i, b, sp, r, h, e => by
    rw [splitLoop] at e
    obtain ⟨k, _, e⟩ := Res.bind_eq_ok.1 e
    by_cases h1 : cv.toSize k < sk
    · rw [if_pos h1] at e
      obtain ⟨b', hb, e⟩ := Res.bind_eq_ok.1 e
      exact splitLoop_clean cv data sk n _ b' sp r (Bitmap.clean_set h hb) e
    · rw [if_neg h1] at e
      by_cases h2 : cv.toSize k = sk
      · rw [if_pos h2] at e
        exact splitLoop_clean cv data sk n _ b _ r h e
      · rw [if_neg h2] at e
        exact splitLoop_clean cv data sk n _ b _ r h e

theorem findSplitKey_clean [Inhabited K] {M : Nat} (cv : Conv K) (data : Arr K) {r : Bitmap M × Nat}
    (e : findSplitKey cv M data = .ok r) : Bitmap.Clean r.1 := by
  unfold findSplitKey at e
  dsimp only at e
  by_cases h : data.cap < M
  · rw [if_pos h] at e; exact absurd e (by simp)
  · rw [if_neg h] at e
    obtain ⟨q, _, e⟩ := Res.bind_eq_ok.1 e
    obtain ⟨q', h', e⟩ := Res.bind_eq_ok.1 e
    have := splitLoop_clean cv data q.1 M 0 _ none q' Bitmap.clean_fresh h'
    obtain ⟨b, sp⟩ := q'
    cases sp with
    | none => exact absurd e (by simp)
    | some p => rw [← Res.ok.inj e]; exact this

end Verif.Search

namespace Verif.WoSkip

open Verif Search FPTree BTree Assoc

variable {K V : Type} [LinearOrder K] [Inhabited K] {N : Nat} {c : WCfg K V} {adm : K → Prop}

/-- Well-formed slots. -/
abbrev SOk (adm : K → Prop) (l : FLeaf N K V) : Prop := FOk (fun _ => 0) adm l

/-- A well-formed node: the bounds contain all its keys. -/
structure NOk (adm : K → Prop) (n : WNode N K V) : Prop where
  ok : SOk adm n.slots
  bnd : ∀ e ∈ n.slots.abs, n.min ≤ e.1 ∧ e.1 ≤ n.max

/-! ## Searching a slot -/

theorem findSlot_spec (l : FLeaf N K V) (k : K) : ∀ (n i : Nat), i + n = N →
    (∃ p, findSlot l k i n = .ok (some p) ∧ i ≤ p ∧ p < N ∧ Bitmap.bit l.bits p = true ∧ l.keys p = k) ∨
    (findSlot l k i n = .ok none ∧ ∀ p, i ≤ p → p < N → Bitmap.bit l.bits p = true → l.keys p ≠ k)
  | 0, i, h => Or.inr ⟨rfl, fun p h1 h2 => by omega⟩
  | n + 1, i, h => by
    have hi : i < N := by omega
    rw [findSlot, Bitmap.test_eq _ hi, Res.ok_bind]
    have ih := findSlot_spec l k n (i + 1) (by omega)
    have step : (¬ (Bitmap.bit l.bits i = true ∧ l.keys i = k)) →
        (∃ p, findSlot l k (i + 1) n = .ok (some p) ∧ i ≤ p ∧ p < N ∧ Bitmap.bit l.bits p = true ∧ l.keys p = k) ∨
        (findSlot l k (i + 1) n = .ok none ∧ ∀ p, i ≤ p → p < N → Bitmap.bit l.bits p = true → l.keys p ≠ k) := by
      intro hn
      rcases ih with ⟨p, e, h1, h2, h3⟩ | ⟨e, h1⟩
      · exact Or.inl ⟨p, e, by omega, h2, h3⟩
      · refine Or.inr ⟨e, fun p hp1 hp2 hb hk => ?_⟩
        by_cases hpi : p = i
        · subst hpi; exact hn ⟨hb, hk⟩
        · exact h1 p (by omega) hp2 hb hk
    by_cases hb : Bitmap.bit l.bits i = true
    · have hb' : (l.bits.words (i / 64)).getLsbD (i % 64) = true := hb
      rw [if_pos hb', rdA_ok hi, Res.ok_bind]
      by_cases hk : l.keys i = k
      · rw [if_pos hk]; exact Or.inl ⟨i, rfl, le_rfl, hi, hb, hk⟩
      · rw [if_neg hk]; exact step (fun h => hk h.2)
    · have hb' : ¬ (l.bits.words (i / 64)).getLsbD (i % 64) = true := hb
      rw [if_neg hb']
      exact step (fun h => hb h.1)

/-- The lookup in a node. -/
theorem searchInNode_found {n : WNode N K V} (h : SOk adm n.slots) {k : K} {v : V} (hm : (k, v) ∈ n.slots.abs) :
    searchInNode n k = .ok (some v) := by
  obtain ⟨p, hp, hb, e⟩ := mem_abs.1 hm
  unfold searchInNode
  rcases findSlot_spec n.slots k N 0 (by omega) with ⟨q, e', _, h2, h3, h4⟩ | ⟨_, h1⟩
  · rw [e', Res.ok_bind]
    have : q = p := h.inj q p h2 hp h3 hb (by rw [h4]; exact congrArg Prod.fst e)
    subst this
    dsimp only
    rw [rdA_ok h2, Res.ok_bind, show v = n.slots.vals q from congrArg Prod.snd e]
    rfl
  · exact absurd (congrArg Prod.fst e).symm (h1 p (Nat.zero_le _) hp hb)

theorem searchInNode_absent {n : WNode N K V} {k : K} (hm : ∀ v, (k, v) ∉ n.slots.abs) :
    searchInNode n k = .ok none := by
  unfold searchInNode
  rcases findSlot_spec n.slots k N 0 (by omega) with ⟨q, e', _, h2, h3, h4⟩ | ⟨e', h1⟩
  · exact absurd (mem_abs.2 ⟨q, h2, h3, by rw [h4]⟩) (hm _)
  · rw [e', Res.ok_bind]; rfl

/-! ## Adding an entry -/

theorem addEntry_spec {n : WNode N K V} (h : NOk adm n) (hl : n.slots.abs.length < N) {k : K}
    (hk : ∀ e ∈ n.slots.abs, e.1 ≠ k) (ha : adm k) (v : V) :
    ∃ n', addEntry n k v = .ok n' ∧ NOk adm n' ∧ (∀ e, e ∈ n'.slots.abs ↔ e = (k, v) ∨ e ∈ n.slots.abs) ∧
      n'.min = (if k < n.min then k else n.min) ∧ n'.max = (if n.max < k then k else n.max) := by
  obtain ⟨hp, hb⟩ := free_slot hl
  obtain ⟨l', e, ok, perm, _⟩ := fill_ok h.ok hp hb hk ha v
  unfold addEntry
  dsimp only
  rw [if_pos hp, e, Res.ok_bind]
  refine ⟨_, rfl, ⟨ok, ?_⟩, fun x => by rw [perm.mem_iff, List.mem_cons], rfl, rfl⟩
  intro x hx
  rw [perm.mem_iff, List.mem_cons] at hx
  dsimp only
  rcases hx with rfl | hx
  · constructor
    · split
      · exact le_rfl
      · exact not_lt.1 ‹_›
    · split
      · exact le_rfl
      · exact not_lt.1 ‹_›
  · obtain ⟨h1, h2⟩ := h.bnd x hx
    constructor
    · split
      · exact (le_of_lt ‹_›).trans h1
      · exact h1
    · split
      · exact h2.trans (le_of_lt ‹_›)
      · exact h2

/-! ## Splitting -/

/-- `mn` and `mx` are the bounds of the set, starting with the limits. -/
structure Bounds (lim : Limits K) (P : K → Prop) (mn mx : K) : Prop where
  lo : ∀ k, P k → mn ≤ k
  hi : ∀ k, P k → k ≤ mx
  lo' : P mn ∨ (mn = lim.max ∧ ∀ k, ¬ P k ∨ k = lim.max)
  hi' : P mx ∨ (mx = lim.min ∧ ∀ k, ¬ P k ∨ k = lim.min)

theorem Bounds.step {lim : Limits K} {P : K → Prop} {mn mx k : K} (h : Bounds lim P mn mx)
    (hk : lim.min ≤ k ∧ k ≤ lim.max) :
    Bounds lim (fun x => x = k ∨ P x) (if k < mn then k else mn) (if mx < k then k else mx) where
  lo := by
    rintro x (rfl | hx)
    · split
      · exact le_rfl
      · exact not_lt.1 ‹_›
    · split
      · exact (le_of_lt ‹_›).trans (h.lo x hx)
      · exact h.lo x hx
  hi := by
    rintro x (rfl | hx)
    · split
      · exact le_rfl
      · exact not_lt.1 ‹_›
    · split
      · exact (h.hi x hx).trans (le_of_lt ‹_›)
      · exact h.hi x hx
  lo' := by
    by_cases h1 : k < mn
    · rw [if_pos h1]; exact Or.inl (Or.inl rfl)
    · rw [if_neg h1]
      rcases h.lo' with h2 | ⟨h2, _⟩
      · exact Or.inl (Or.inr h2)
      · left; left
        rw [h2] at h1 ⊢
        exact le_antisymm (not_lt.1 h1) hk.2
  hi' := by
    by_cases h1 : mx < k
    · rw [if_pos h1]; exact Or.inl (Or.inl rfl)
    · rw [if_neg h1]
      rcases h.hi' with h2 | ⟨h2, _⟩
      · exact Or.inl (Or.inr h2)
      · left; left
        rw [h2] at h1 ⊢
        exact le_antisymm hk.1 (not_lt.1 h1)

theorem Bounds.congr {lim : Limits K} {P Q : K → Prop} {mn mx : K} (h : Bounds lim P mn mx) (e : ∀ k, P k ↔ Q k) :
    Bounds lim Q mn mx := by
  have : P = Q := funext fun k => propext (e k)
  rw [← this]; exact h

theorem Bounds.empty (lim : Limits K) : Bounds lim (fun _ => False) lim.max lim.min where
  lo := by simp
  hi := by simp
  lo' := Or.inr ⟨rfl, fun _ => Or.inl id⟩
  hi' := Or.inr ⟨rfl, fun _ => Or.inl id⟩

/-- The bounds of a non-empty set of admissible keys belong to the set. -/
theorem Bounds.mem {lim : Limits K} {P : K → Prop} {mn mx : K} (h : Bounds lim P mn mx) {k : K} (hk : P k) :
    P mn ∧ P mx := by
  constructor
  · rcases h.lo' with h1 | ⟨h1, h2⟩
    · exact h1
    · rcases h2 k with h3 | h3
      · exact absurd hk h3
      · rw [h1, ← h3]; exact hk
  · rcases h.hi' with h1 | ⟨h1, h2⟩
    · exact h1
    · rcases h2 k with h3 | h3
      · exact absurd hk h3
      · rw [h1, ← h3]; exact hk

theorem boundsLoop_spec (lim : Limits K) (l : FLeaf N K V)
    (hl : ∀ p, p < N → Bitmap.bit l.bits p = true → lim.min ≤ l.keys p ∧ l.keys p ≤ lim.max) : ∀ (n i : Nat) (mn mx : K),
    i + n = N → Bounds lim (fun k => ∃ p, p < i ∧ Bitmap.bit l.bits p = true ∧ l.keys p = k) mn mx →
    ∃ r, boundsLoop l i mn mx n = .ok r ∧
      Bounds lim (fun k => ∃ p, p < N ∧ Bitmap.bit l.bits p = true ∧ l.keys p = k) r.1 r.2
  | 0, i, mn, mx, h, hB => by
    have : i = N := by omega
    subst this
    exact ⟨_, rfl, hB⟩
  | n + 1, i, mn, mx, h, hB => by
    have hi : i < N := by omega
    rw [boundsLoop, Bitmap.test_eq _ hi, Res.ok_bind]
    by_cases hb : Bitmap.bit l.bits i = true
    · have hb' : (l.bits.words (i / 64)).getLsbD (i % 64) = true := hb
      rw [if_pos hb', rdA_ok hi, Res.ok_bind]
      refine boundsLoop_spec lim l hl n (i + 1) _ _ (by omega) ((hB.step (hl i hi hb)).congr fun k => ?_)
      constructor
      · rintro (rfl | ⟨p, h1, h2⟩)
        · exact ⟨i, by omega, hb, rfl⟩
        · exact ⟨p, by omega, h2⟩
      · rintro ⟨p, h1, h2, h3⟩
        by_cases hpi : p = i
        · subst hpi; exact Or.inl h3.symm
        · exact Or.inr ⟨p, by omega, h2, h3⟩
    · have hb' : ¬ (l.bits.words (i / 64)).getLsbD (i % 64) = true := hb
      rw [if_neg hb']
      refine boundsLoop_spec lim l hl n (i + 1) _ _ (by omega) (hB.congr fun k => ?_)
      constructor
      · rintro ⟨p, h1, h2⟩; exact ⟨p, by omega, h2⟩
      · rintro ⟨p, h1, h2, h3⟩
        have : p ≠ i := by rintro rfl; exact hb h2
        exact ⟨p, by omega, h2, h3⟩

theorem copyLoop_spec (lim : Limits K) (sk : K) {l : FLeaf N K V} (h : SOk adm l)
    (hlim : ∀ k, adm k → lim.min ≤ k ∧ k ≤ lim.max)
    (hfull : ∀ p, p < N → Bitmap.bit l.bits p = true) : ∀ (n i j : Nat) (s : WNode N K V),
    i + n = N → j ≤ i → SOk adm s.slots →
    (∀ q, q < N → (Bitmap.bit s.slots.bits q = true ↔ q < j)) →
    (∀ e, e ∈ s.slots.abs ↔ ∃ q, q < i ∧ sk ≤ l.keys q ∧ e = (l.keys q, l.vals q)) →
    Bounds lim (fun k => ∃ q, q < i ∧ sk ≤ l.keys q ∧ k = l.keys q) s.min s.max →
    ∃ s', copyLoop l sk i j s n = .ok s' ∧ SOk adm s'.slots ∧
      (∀ e, e ∈ s'.slots.abs ↔ ∃ q, q < N ∧ sk ≤ l.keys q ∧ e = (l.keys q, l.vals q)) ∧
      Bounds lim (fun k => ∃ q, q < N ∧ sk ≤ l.keys q ∧ k = l.keys q) s'.min s'.max
  | 0, i, j, s, hi, hj, h1, hs, hm, hB => by
    have : i = N := by omega
    subst this
    exact ⟨s, rfl, h1, hm, hB⟩
  | n + 1, i, j, s, hi, hj, h1, hs, hm, hB => by
    have hiN : i < N := by omega
    have hb : Bitmap.bit l.bits i = true := hfull i hiN
    have hb' : (l.bits.words (i / 64)).getLsbD (i % 64) = true := hb
    rw [copyLoop, Bitmap.test_eq _ hiN, Res.ok_bind, rdA_ok hiN, Res.ok_bind, hb']
    by_cases hsk : sk ≤ l.keys i
    · rw [if_pos ⟨rfl, hsk⟩, rdA_ok hiN, Res.ok_bind]
      have hjb : Bitmap.bit s.slots.bits j = false := by
        by_contra hc
        have := (hs j (by omega)).1 (by simpa using hc)
        omega
      obtain ⟨t, e2, ok2, perm2, _, bits2⟩ := fill_ok h1 (p := j) (by omega) hjb (k := l.keys i) (by
        intro e he hke
        obtain ⟨q, hq, _, rfl⟩ := (hm e).1 he
        have := h.inj q i (by omega) hiN (hfull q (by omega)) (hfull i hiN) hke
        omega) (h.adm i hiN (hfull i hiN)) (l.vals i)
      rw [e2, Res.ok_bind]
      refine copyLoop_spec lim sk h hlim hfull n (i + 1) (j + 1) _ (by omega) (by omega) ok2 ?_ ?_ ?_
      · intro q hq
        dsimp only
        rw [bits2 q hq]
        by_cases hqj : q = j
        · rw [if_pos hqj]; simp; omega
        · rw [if_neg hqj, hs q hq]; omega
      · intro e
        dsimp only
        rw [perm2.mem_iff, List.mem_cons, hm e]
        constructor
        · rintro (rfl | ⟨q, hq, h⟩)
          · exact ⟨i, by omega, hsk, rfl⟩
          · exact ⟨q, by omega, h⟩
        · rintro ⟨q, hq, h4, h5⟩
          by_cases hqi : q = i
          · subst hqi; exact Or.inl h5
          · exact Or.inr ⟨q, by omega, h4, h5⟩
      · refine (hB.step (hlim _ (h.adm i hiN hb))).congr fun k => ?_
        constructor
        · rintro (rfl | ⟨q, hq, h4, h5⟩)
          · exact ⟨i, by omega, hsk, rfl⟩
          · exact ⟨q, by omega, h4, h5⟩
        · rintro ⟨q, hq, h4, h5⟩
          by_cases hqi : q = i
          · subst hqi; exact Or.inl h5
          · exact Or.inr ⟨q, by omega, h4, h5⟩
    · rw [if_neg (fun hc => hsk hc.2)]
      refine copyLoop_spec lim sk h hlim hfull n (i + 1) j s (by omega) (by omega) h1 hs ?_ (hB.congr fun k => ?_)
      · intro e
        rw [hm e]
        constructor
        · rintro ⟨q, hq, h⟩; exact ⟨q, by omega, h⟩
        · rintro ⟨q, hq, h4, h5⟩
          by_cases hqi : q = i
          · subst hqi; exact absurd h4 hsk
          · exact ⟨q, by omega, h4, h5⟩
      · constructor
        · rintro ⟨q, hq, h⟩; exact ⟨q, by omega, h⟩
        · rintro ⟨q, hq, h4, h5⟩
          by_cases hqi : q = i
          · subst hqi; exact absurd h4 hsk
          · exact ⟨q, by omega, h4, h5⟩

theorem new_nok (lo hi : K) (lvl : Nat) : NOk adm (newNode c N lo hi lvl : WNode N K V) ∧
    (newNode c N lo hi lvl : WNode N K V).slots.abs = [] := by
  obtain ⟨h1, h2⟩ := new_ok (c := c.f) (M := N) (adm := adm) (fun _ => 0)
  refine ⟨⟨h1, fun e he => ?_⟩, h2⟩
  have he : e ∈ (FLeaf.new c.f N : FLeaf N K V).abs := he
  rw [h2] at he
  simp at he

theorem splitData_spec (F : FLaws c.f adm) (hN : 2 ≤ N) {n : WNode N K V} (h : NOk adm n)
    (hfull : ∀ p, p < N → Bitmap.bit n.slots.bits p = true) :
    ∃ a b sk, splitData c n = .ok (a, b, sk) ∧ NOk adm a ∧ NOk adm b ∧
      (∀ e, e ∈ a.slots.abs ↔ e ∈ n.slots.abs ∧ e.1 < sk) ∧ (∀ e, e ∈ b.slots.abs ↔ e ∈ n.slots.abs ∧ sk ≤ e.1) ∧
      a.slots.abs.length < N ∧ b.slots.abs.length < N ∧
      n.min ≤ a.min ∧ a.min ≤ a.max ∧ a.max < sk ∧ sk ≤ b.min ∧ b.min ≤ b.max ∧ b.max ≤ n.max := by
  have hadm : ∀ i, i < N → adm (n.slots.keys i) := fun i hi => h.ok.adm i hi (hfull i hi)
  obtain ⟨bm, p, e, hp, hkth, htest⟩ := findSplitKey_spec c.cv N hN ⟨N, n.slots.keys⟩ le_rfl
    (fun i hi => F.conv _ (hadm i hi)) (fun i j hi hj => F.mono _ _ (hadm i hi) (hadm j hj))
  have hclean : Bitmap.Clean bm := findSplitKey_clean c.cv _ e
  have hbit : ∀ q, q < N → (Bitmap.bit bm q = true ↔ n.slots.keys q < n.slots.keys p) := by
    intro q hq
    have := htest q hq
    rw [Bitmap.test_eq _ hq] at this
    have h1 : Bitmap.bit bm q = decide (n.slots.keys q < n.slots.keys p) := Res.ok.inj this
    rw [h1, decide_eq_true_eq]
  have hlim : ∀ k, adm k → c.lim.min ≤ k ∧ k ≤ c.lim.max := F.lim
  obtain ⟨hnew, hnil⟩ := new_nok (c := c) (N := N) (V := V) (adm := adm) c.lim.max c.lim.min 0
  obtain ⟨b, e2, okb, hmb, hBb⟩ := copyLoop_spec c.lim (n.slots.keys p) h.ok hlim hfull N 0 0
    (newNode c N c.lim.max c.lim.min 0) (by omega) le_rfl hnew.ok
    (fun q _ => by simp [newNode, FLeaf.new, Bitmap.fresh, Bitmap.bit]) (fun e => by rw [hnil]; simp)
    ((Bounds.empty c.lim).congr fun k => by simp)
  have hoka : SOk adm ({ n.slots with bits := bm } : FLeaf N K V) :=
    ⟨hclean, fun i j hi hj _ _ => h.ok.inj i j hi hj (hfull i hi) (hfull j hj), fun i hi _ => h.ok.fp i hi (hfull i hi),
      fun i hi _ => hadm i hi⟩
  obtain ⟨r, e3, hBa⟩ := boundsLoop_spec c.lim ({ n.slots with bits := bm } : FLeaf N K V)
    (fun q hq _ => hlim _ (hadm q hq)) N 0 c.lim.max c.lim.min (by omega) ((Bounds.empty c.lim).congr fun k => by simp)
  have hn : ((⟨N, n.slots.keys⟩ : Arr K).seg 0 N).Nodup := by
    unfold Arr.seg
    apply List.Nodup.map_on _ List.nodup_range
    intro i hi j hj hij
    rw [List.mem_range] at hi hj
    rw [Nat.zero_add, Nat.zero_add] at hij
    exact h.ok.inj i j hi hj (hfull i hi) (hfull j hj) hij
  have hcnt : ((⟨N, n.slots.keys⟩ : Arr K).seg 0 N).countP (fun x => decide (x < n.slots.keys p)) + 1 = (N + 1) / 2 + 1 :=
    hkth.count_lt hn
  -- some slot stays in the node
  obtain ⟨q, hq, hqp⟩ : ∃ q, q < N ∧ n.slots.keys q < n.slots.keys p := by
    have h0 : 0 < ((⟨N, n.slots.keys⟩ : Arr K).seg 0 N).countP (fun x => decide (x < n.slots.keys p)) := by omega
    rw [List.countP_pos_iff] at h0
    obtain ⟨x, hx, hlt⟩ := h0
    rw [Arr.mem_seg] at hx
    obtain ⟨q, _, h2, h3⟩ := hx
    rw [decide_eq_true_eq, ← h3] at hlt
    exact ⟨q, by omega, hlt⟩
  have hma : ∀ e, e ∈ (FLeaf.abs ({ n.slots with bits := bm } : FLeaf N K V)) ↔
      e ∈ n.slots.abs ∧ e.1 < n.slots.keys p := by
    intro e
    rw [mem_abs, mem_abs]
    constructor
    · rintro ⟨q, hq, hb, rfl⟩
      exact ⟨⟨q, hq, hfull q hq, rfl⟩, (hbit q hq).1 hb⟩
    · rintro ⟨⟨q, hq, _, rfl⟩, hlt⟩
      exact ⟨q, hq, (hbit q hq).2 hlt, rfl⟩
  have hmb' : ∀ e, e ∈ b.slots.abs ↔ e ∈ n.slots.abs ∧ n.slots.keys p ≤ e.1 := by
    intro e
    rw [hmb, mem_abs]
    constructor
    · rintro ⟨q, hq, hle, rfl⟩; exact ⟨⟨q, hq, hfull q hq, rfl⟩, hle⟩
    · rintro ⟨⟨q, hq, _, rfl⟩, hle⟩; exact ⟨q, hq, hle, rfl⟩
  -- the bounds belong to the nodes
  obtain ⟨⟨q1, hq1, hb1, hk1⟩, ⟨q2, hq2, hb2, hk2⟩⟩ := hBa.mem (k := n.slots.keys q) ⟨q, hq, (hbit q hq).2 hqp, rfl⟩
  obtain ⟨⟨q3, hq3, hle3, hk3⟩, ⟨q4, hq4, hle4, hk4⟩⟩ := hBb.mem (k := n.slots.keys p) ⟨p, hp, le_rfl, rfl⟩
  have hnode : ∀ i, i < N → n.min ≤ n.slots.keys i ∧ n.slots.keys i ≤ n.max := fun i hi =>
    h.bnd (n.slots.keys i, n.slots.vals i) (mem_abs.2 ⟨i, hi, hfull i hi, rfl⟩)
  have hlen : ∀ (l : FLeaf N K V), SOk adm l → (∃ i, i < N ∧ Bitmap.bit l.bits i ≠ true) → l.abs.length < N := by
    intro l _ ⟨i, hi, hb⟩
    by_contra hc
    exact hb (full_of_length (by omega) i hi)
  refine ⟨⟨{ n.slots with bits := bm }, r.1, r.2, n.nodeLevel⟩, b, n.slots.keys p, ?_, ⟨hoka, ?_⟩, ⟨okb, ?_⟩, hma, hmb', ?_,
    ?_, ?_, ?_, ?_, ?_, ?_, ?_⟩
  · unfold splitData
    rw [e, Res.ok_bind, rdA_ok hp, Res.ok_bind, e2, Res.ok_bind]
    dsimp only
    rw [e3, Res.ok_bind]
    rfl
  · intro x hx
    obtain ⟨i, hi, hb, rfl⟩ := mem_abs.1 hx
    exact ⟨hBa.lo _ ⟨i, hi, hb, rfl⟩, hBa.hi _ ⟨i, hi, hb, rfl⟩⟩
  · intro x hx
    obtain ⟨i, hi, hle, rfl⟩ := (hmb x).1 hx
    exact ⟨hBb.lo _ ⟨i, hi, hle, rfl⟩, hBb.hi _ ⟨i, hi, hle, rfl⟩⟩
  · refine hlen _ hoka ⟨p, hp, fun hb => ?_⟩
    exact absurd ((hbit p hp).1 hb) (lt_irrefl _)
  · by_contra hc
    have hnb : b.slots.abs.length = N := le_antisymm (abs_cap _) (not_lt.1 hc)
    have hsub : (b.slots.abs ++ [(n.slots.keys q, n.slots.vals q)]).Subperm n.slots.abs := by
      apply List.subperm_of_subset
      · rw [List.nodup_append]
        refine ⟨okb.sorted.imp (fun h e => by rw [e] at h; exact absurd h (lt_irrefl _)), List.nodup_singleton _, ?_⟩
        rintro x hx y hy rfl
        rw [List.mem_singleton] at hy
        subst hy
        exact absurd hqp (not_lt.2 ((hmb' _).1 hx).2)
      · intro x hx
        rcases List.mem_append.1 hx with hx | hx
        · exact ((hmb' x).1 hx).1
        · rw [List.mem_singleton] at hx
          rw [hx]
          exact mem_abs.2 ⟨q, hq, hfull q hq, rfl⟩
    have := hsub.length_le
    rw [List.length_append, hnb, List.length_singleton] at this
    have := abs_cap n.slots
    omega
  · show n.min ≤ r.1
    rw [← hk1]; exact (hnode q1 hq1).1
  · exact hBa.lo _ ⟨q2, hq2, hb2, hk2⟩
  · show r.2 < _
    rw [← hk2]; exact (hbit q2 hq2).1 hb2
  · rw [hk3]; exact hle3
  · exact hBb.lo _ ⟨q4, hq4, hle4, hk4⟩
  · rw [hk4]; exact (hnode q4 hq4).2

theorem slotList_spec (l : FLeaf N K V) : ∀ (n i : Nat), i + n = N → slotList l i n = .ok (entsFrom l i n)
  | 0, _, _ => rfl
  | n + 1, i, h => by
    have hi : i < N := by omega
    rw [slotList, Bitmap.test_eq _ hi, Res.ok_bind, slotList_spec l n (i + 1) (by omega), Res.ok_bind, entsFrom]
    by_cases hb : Bitmap.bit l.bits i = true
    · have hb' : (l.bits.words (i / 64)).getLsbD (i % 64) = true := hb
      rw [if_pos hb', if_pos hb, rdA_ok hi, Res.ok_bind, rdA_ok hi, Res.ok_bind]
      rfl
    · have hb' : ¬ (l.bits.words (i / 64)).getLsbD (i % 64) = true := hb
      rw [if_neg hb', if_neg hb]
      rfl

end Verif.WoSkip
