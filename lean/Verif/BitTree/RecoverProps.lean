import Mathlib.Data.Nat.Digits.Lemmas
import Verif.BitTree.RecoverLaw
import Verif.BitTree.ScanProps

/-!
# C64: `recover` of BitHPBPTree

`recover` rebuilds a correct tree if and only if the number of leaves minus one, written in base `N + 1`, has no digit
zero.  Otherwise some branch node is left with a single child at position 0 and no separator, and the search for the
largest keys follows the uninitialised pointer at position `N`.
-/

set_option linter.unusedSectionVars false

namespace Verif.BitTree

open Verif Search FPTree BTree

variable {K V : Type} {M : Nat} [LinearOrder K] [Inhabited K] {c : Cfg K V} {adm : K → Prop}

/-! ## Specification -/

/-- C64. After any history of inserts and a restart, `recover` rebuilds the tree: every lookup answers as before. -/
def C64_statement (N M : Nat) : Prop :=
  ∀ (jk jv : Nat → Int) (xs : List (Int × Int)) (t : Store (cfgInt N false jk jv) M),
    (∀ x ∈ xs, 0 ≤ x.1 ∧ x.1 < 2 ^ 31 - 1) → insertAll xs (Store.empty (cfgInt N false jk jv) M) = .ok t →
    ∃ t', t.recover = .ok t' ∧ ∀ k, 0 ≤ k ∧ k < 2 ^ 31 - 1 → t'.lookup k = .ok (last xs k)

/-- No digit of `L - 1` in base `N + 1` is zero. -/
def ZeroFree (N L : Nat) : Prop := 0 ∉ Nat.digits (N + 1) (L - 1)

/-! ## Proofs -/

theorem dense_zeroFree {N L d : Nat} (hN : 0 < N) (h1 : (N + 1) ^ d < L) (h2 : L ≤ (N + 1) ^ (d + 1)) :
    Dense N L (d + 1) ↔ ZeroFree N L := by
  have hlen : (Nat.digits (N + 1) (L - 1)).length = d + 1 := by
    apply le_antisymm
    · rw [Nat.digits_length_le_iff (by omega)]; omega
    · rw [Nat.succ_le_iff, Nat.lt_digits_length_iff (by omega)]; omega
  have hget : ∀ j (hj : j < (Nat.digits (N + 1) (L - 1)).length), (Nat.digits (N + 1) (L - 1))[j] = (L - 1) / (N + 1) ^ j % (N + 1) := by
    intro j hj
    rw [← Nat.getD_digits _ _ (by omega : 2 ≤ N + 1)]
    simp [List.getD, hj]
  unfold Dense ZeroFree
  rw [List.mem_iff_getElem]
  constructor
  · rintro h ⟨j, hj, e⟩
    rw [hget] at e
    exact h j (by omega) e
  · intro h j hj e
    exact h ⟨j, by omega, by rw [hget]; exact e⟩

theorem recMin_law (F : Laws c adm) {h : Heap M K V} {i : Nat} {x : Cell M K V} (hx : h[i]? = some x)
    (ha : ∀ k v, Has x.leaf k v → adm k) (hne : ∃ k v, Has x.leaf k v) :
    ∃ k, recMin c h i = .ok k ∧ (∃ v, Has x.leaf k v) ∧ ∀ k' v', Has x.leaf k' v' → k ≤ k' := by
  obtain ⟨k0, v0, q, hq, hqb, hqk, hqv⟩ := hne
  obtain ⟨y, p, e, h'⟩ := bits_search (fun i : Fin M => x.leaf.keys i) x.leaf.bits c.lim.max (fun _ => true)
    (fun a b => a < b) (fun a b c h1 h2 => by simp only [not_lt] at *; exact le_trans h2.le h1)
    (fun a => lt_irrefl a) (fun _ _ _ h1 h2 => lt_trans h1 h2)
    (fun i k cur => testAnd x.leaf.bits i (decide (k < cur))) (fun i k c => by simp)
  have er : x.leaf.minPos c = .ok p := by
    unfold Leaf.minPos findMinKeyPosBits
    simp only [e, Res.ok_bind, Res.pure_eq]
  unfold recMin
  rw [hx, Res.ofOption_some, Res.ok_bind, er, Res.ok_bind]
  rcases h' with ⟨h1, h2, h3⟩ | ⟨hp, h1, -, h3, -, h5⟩
  · exact absurd (F.lim _ (ha _ _ ⟨q, hq, hqb, rfl, rfl⟩)).2 (h3 ⟨q, hq⟩ ((test_iff' _ ⟨q, hq⟩).2 hqb) rfl)
  · rw [rdA_ok hp]
    refine ⟨_, rfl, ⟨_, p, hp, (test_iff' _ ⟨p, hp⟩).1 h1, rfl, rfl⟩, ?_⟩
    rintro k' v' ⟨j, hj, hbj, rfl, _⟩
    have := h5 ⟨j, hj⟩ ((test_iff' _ ⟨j, hj⟩).2 hbj) rfl
    rw [← h3] at this
    exact not_lt.1 this

/-- What `recover` does to a list of leaves that are in order. -/
theorem recover_row (F : Laws c adm) (hN : 0 < c.N) {t : Store c M} (hlk : LinkOk t.heap) {ids : List Nat}
    (hlink : Linked t.heap (some t.first) ids) (hlen : ids.length ≤ t.heap.length)
    (hleaf : ∀ i ∈ ids, ∃ x, t.heap[i]? = some x ∧ LOk x.leaf ∧ ∀ k v, Has x.leaf k v → adm k)
    (hne : 1 < ids.length → ∀ i ∈ ids, Filled t.heap i)
    (hord : ids.Pairwise (fun i j => ∀ x y a b v w, t.heap[i]? = some x → t.heap[j]? = some y → Has x.leaf a v →
      Has y.leaf b w → a < b)) :
    ∃ t', t.recover = .ok t' ∧ t'.heap = t.heap ∧
      (ZeroFree c.N ids.length → TOk adm t' ∧ ∀ k v, t'.Has k v ↔ ∃ i ∈ ids, ∃ x, t.heap[i]? = some x ∧ Has x.leaf k v) ∧
      (¬ ZeroFree c.N ids.length → ∃ k v, adm k ∧ (∃ i ∈ ids, ∃ x, t.heap[i]? = some x ∧ Has x.leaf k v) ∧
        t'.lookup k = .ub) := by
  obtain ⟨rest, hids⟩ : ∃ r, ids = t.first :: r := by
    match ids, hlink with
    | i :: r, ⟨h1, _⟩ =>
      obtain rfl := Option.some.inj h1
      exact ⟨r, rfl⟩
  rw [hids] at hlink
  obtain ⟨_, nx, hnx, hl⟩ := hlink
  have hfirst : t.first ∈ ids := by rw [hids]; simp
  obtain ⟨x0, hx0, hx0l, hx0a⟩ := hleaf t.first hfirst
  have hx0n : x0.next = nx := by
    unfold nextOf at hnx
    rw [hx0] at hnx
    exact Option.some.inj hnx
  unfold Store.recover
  rw [hx0, Res.ofOption_some, Res.ok_bind, hx0n]
  match rest, nx, hl, hids with
  | [], nx, hl, hids =>
    have : nx = none := hl
    subst this
    refine ⟨_, rfl, rfl, fun _ => ⟨⟨⟨x0, hx0, hx0l, hx0a⟩, hlk⟩, fun k v => ?_⟩, fun hz => ?_⟩
    · rw [hids]
      constructor
      · rintro ⟨x, h1, h2⟩; exact ⟨t.first, by simp, x, h1, h2⟩
      · rintro ⟨i, hi, x, h1, h2⟩
        rw [List.mem_singleton] at hi
        subst hi
        exact ⟨x, h1, h2⟩
    · exfalso
      apply hz
      unfold ZeroFree
      rw [hids]
      simp
  | j :: rest, nx, hl, hids =>
    have hlen1 : 1 < ids.length := by rw [hids]; simp
    -- the smallest keys
    have hmin : ∀ i ∈ ids, ∃ k, recMin c t.heap i = .ok k ∧ ∃ x, t.heap[i]? = some x ∧ LOk x.leaf ∧ (∃ v, Has x.leaf k v) ∧
        (∀ a b, Has x.leaf a b → k ≤ a ∧ adm a) := by
      intro i hi
      obtain ⟨x, h1, h2, h3⟩ := hleaf i hi
      obtain ⟨lf, hcore, k, v, hkv⟩ := hne hlen1 i hi
      obtain ⟨x', hx', rfl⟩ := core_some.1 hcore
      rw [h1] at hx'; cases hx'
      obtain ⟨k', e1, e2, e3⟩ := recMin_law F h1 h3 ⟨k, v, hkv⟩
      exact ⟨k', e1, x, h1, h2, e2, fun a b hab => ⟨e3 a b hab, h3 a b hab⟩⟩
    let m : Nat → K := fun i => match recMin c t.heap i with
      | .ok k => k
      | _ => default
    have hm : ∀ i ∈ ids, recMin c t.heap i = .ok (m i) := by
      intro i hi
      obtain ⟨k, e, _⟩ := hmin i hi
      show _ = Res.ok (match recMin c t.heap i with | .ok k => k | _ => default)
      rw [e]
    have hmx : ∀ i ∈ ids, ∃ x, t.heap[i]? = some x ∧ LOk x.leaf ∧ (∃ v, Has x.leaf (m i) v) ∧
        (∀ a b, Has x.leaf a b → m i ≤ a ∧ adm a) := by
      intro i hi
      obtain ⟨k, e, h⟩ := hmin i hi
      have := hm i hi
      rw [e] at this
      rw [← Res.ok.inj this]
      exact h
    have hrow : Row t.heap m ids adm := by
      refine ⟨fun i hi => ?_, fun i hi => ?_, hord.imp_of_mem fun {i i'} hi hi' h x k v hx hv => ?_⟩
      · obtain ⟨x, h1, h2, _, h4⟩ := hmx i hi
        exact ⟨x, h1, h2, fun k v hv => ⟨(h4 k v hv).2, (h4 k v hv).1⟩⟩
      · obtain ⟨x, h1, _, ⟨v, h3⟩, _⟩ := hmx i hi
        exact ⟨x, v, h1, h3⟩
      · obtain ⟨y, g1, _, ⟨w, g3⟩, _⟩ := hmx i' hi'
        exact h x y k _ v w hx g1 hv g3
    have hnxj : nx = some j := hl.1
    subst hnxj
    have hinit : RInv (c := c) m ⟨0, (Branch.only (C := Nat) t.first : Branch c.N K Nat)⟩ [t.first] :=
      ⟨⟨0, fun _ => [t.first], sp_only (P := Spine (N := c.N) m 0) t.first [t.first] rfl hN m _, by rw [cat_zero]⟩,
        fun h => by simp at h, fun _ => rfl⟩
    obtain ⟨r, e, hr1, hr2, hr3⟩ := recoverLoop_law hN (j :: rest) (some j) t.heap.length _ _ hl (by rw [hids] at hlen; simpa using Nat.le_of_succ_le hlen)
      (fun i hi => hm i (by rw [hids]; exact List.mem_cons_of_mem _ hi)) hinit
    rw [List.singleton_append, ← hids] at hr1 hr2 hr3
    simp only
    rw [e, Res.ok_bind]
    have hup := (spine_length _ _ _ hr1).2
    have hz := dense_zeroFree hN (hr2 hlen1) hup
    refine ⟨_, rfl, rfl, fun h => ?_, fun h => ?_⟩
    · obtain ⟨o1, o2⟩ := spine_ok hN _ _ _ adm hr1 (hz.2 h) hrow
      refine ⟨⟨o1, hlk⟩, fun k v => ?_⟩
      constructor
      · intro hh
        have key : ∀ (d : Nat) (r : Tree c.N K d), hasT t.heap d r k v → ∃ i ∈ fp d r, ∃ x, t.heap[i]? = some x ∧ Has x.leaf k v := by
          intro d
          induction d with
          | zero => rintro r ⟨x, h1, h2⟩; exact ⟨r, rfl, x, h1, h2⟩
          | succ d ih =>
            rintro b ⟨y, hy, hw⟩
            obtain ⟨i, hi, hx⟩ := ih y hw
            exact ⟨i, ⟨y, hy, hi⟩, hx⟩
        obtain ⟨i, hi, hx⟩ := key _ _ hh
        exact ⟨i, (o2 i).1 hi, hx⟩
      · rintro ⟨i, hi, x, hx, hv⟩
        obtain ⟨x', e1, _, e3⟩ := core_fp _ _ _ o1 i ((o2 i).2 hi)
        rw [hx] at e1; cases e1
        exact (e3 k v hv).2
    · obtain ⟨last, hlast⟩ : ∃ a, ids.getLast? = some a := by
        rw [List.getLast?_eq_some_getLast (by rw [hids]; simp)]
        exact ⟨_, rfl⟩
      obtain ⟨l', hl'⟩ := List.getLast?_eq_some_iff.1 hlast
      have hlm : last ∈ ids := by rw [hl']; simp
      obtain ⟨x, h1, _, ⟨v, h3⟩, h4⟩ := hmx last hlm
      have hle : ∀ i ∈ ids, m i ≤ m last := by
        intro i hi
        have ho := hrow.ord
        rw [hl'] at hi ho
        rcases List.mem_append.1 hi with hi | hi
        · obtain ⟨y, w, g1, g2⟩ := hrow.min i (by rw [hl']; exact List.mem_append_left _ hi)
          exact ((List.pairwise_append.1 ho).2.2 i hi last (by simp) y _ w g1 g2).le
        · rw [List.mem_singleton] at hi; rw [hi]
      refine ⟨m last, v, (h4 _ _ h3).2, ⟨last, hlm, x, h1, h3⟩, ?_⟩
      unfold Store.lookup
      simp only
      rw [spine_ub F _ _ _ hr1 (fun hd => h (hz.1 hd)) (fun i hi => ?_)]
      · rfl
      · obtain ⟨y, g1, _, ⟨w, g3⟩, g4⟩ := hmx i hi
        exact ⟨(g4 _ _ g3).2, hle i hi⟩

/-- What `recover` does to a tree whose leaves are in order. -/
theorem recover_law (F : Laws c adm) (hN : 0 < c.N) {t : Store c M} (ht : TOk adm t) {E : Nat → K → Prop} {ids : List Nat}
    (hc : ChainOk adm t E ids) :
    ∃ t', t.recover = .ok t' ∧ t'.heap = t.heap ∧
      (ZeroFree c.N t.heap.length → TOk adm t' ∧ ∀ k v, t'.Has k v ↔ t.Has k v) ∧
      (¬ ZeroFree c.N t.heap.length → ∃ k v, adm k ∧ t.Has k v ∧ t'.lookup k = .ub) := by
  have hleaf : ∀ i ∈ ids, ∃ x, t.heap[i]? = some x ∧ LOk x.leaf ∧ ∀ k v, Has x.leaf k v → adm k := by
    intro i hi
    obtain ⟨x, h1, h2, h3⟩ := core_fp _ _ _ ht.ok i ((hc.mem i).1 hi)
    exact ⟨x, h1, h2, fun k v hv => (h3 k v hv).1⟩
  obtain ⟨t', e1, e2, e3, e4⟩ := recover_row F hN ht.link hc.link hc.len.le hleaf hc.ne
    (hc.ord.imp_of_mem fun {i i'} hi hi' h x y a b v w hx hy hv hw => h a b (chain_has F ht hc hi hx hv) (chain_has F ht hc hi' hy hw))
  rw [hc.len] at e3 e4
  refine ⟨t', e1, e2, fun h => ⟨(e3 h).1, fun k v => ?_⟩, fun h => ?_⟩
  · rw [(e3 h).2, has_leaves ht hc]
  · obtain ⟨k, v, g1, g2, g3⟩ := e4 h
    exact ⟨k, v, g1, (has_leaves ht hc k v).2 g2, g3⟩

theorem insertAll_has (F : Laws c adm) (hM : 2 ≤ M) (hm : c.move = false → M % 64 ≠ 0) (hN : 2 ≤ c.N) (hN64 : c.N % 64 ≠ 0)
    {xs : List (K × V)} (hx : ∀ x ∈ xs, adm x.1) {t : Store c M} (e : insertAll xs (Store.empty c M) = .ok t) :
    TOk adm t ∧ ∀ k v, t.Has k v ↔ last xs k = some v := by
  obtain ⟨t1, e1, h1, h2⟩ := insertAll_law F hM hm hN hN64 xs _ (tok_empty c M) hx
  rw [e] at e1
  obtain rfl := Res.ok.inj e1
  refine ⟨h1, fun k v => ?_⟩
  rw [h2]
  exact fold_last k v xs _ none (fun w => ⟨fun h => absurd h (has_empty k w), fun h => by cases h⟩)

/-- C64, all orders and key types of C61: the recovered tree answers every lookup as before if and only if the number of
leaves minus one has no digit zero in base `N + 1`. -/
theorem C64_partial (F : Laws c adm) (hM : 2 ≤ M) (hm : c.move = false → M % 64 ≠ 0) (hN : 2 ≤ c.N) (hN64 : c.N % 64 ≠ 0)
    (xs : List (K × V)) (hx : ∀ x ∈ xs, adm x.1) :
    ∃ t t', insertAll xs (Store.empty c M) = .ok t ∧ t.recover = .ok t' ∧
      ((∀ k, adm k → t'.lookup k = .ok (last xs k)) ↔ ZeroFree c.N t.heap.length) := by
  obtain ⟨t, e, _⟩ := insertAll_law F hM hm hN hN64 xs (Store.empty c M) (tok_empty c M) hx
  obtain ⟨h1, E, ids, hc⟩ := insertAll_chain F hM hm hN hN64 xs _ t (tok_empty c M) ⟨_, _, chain_empty c M⟩ hx e
  obtain ⟨_, h2⟩ := insertAll_has F hM hm hN hN64 hx e
  obtain ⟨t', e', _, hgood, hbad⟩ := recover_law F (by omega) h1 hc
  refine ⟨t, t', e, e', fun h => ?_, fun h k hk => ?_⟩
  · by_contra hz
    obtain ⟨k, v, hk, _, hub⟩ := hbad hz
    have := h k hk
    rw [hub] at this
    cases this
  · obtain ⟨g1, g2⟩ := hgood h
    obtain ⟨r, er, hr⟩ := store_lookup_law F g1 hk
    rw [er]
    congr 1
    have key : ∀ v, r = some v ↔ last xs k = some v := fun v => by rw [hr, g2, h2]
    cases hl : last xs k with
    | none =>
      cases r with
      | none => rfl
      | some v => have := (key v).1 rfl; rw [hl] at this; cases this
    | some v => exact (key v).2 hl

/-- A tree with at most `N + 1` leaves is recovered. -/
theorem zeroFree_small {N L : Nat} (h1 : 1 ≤ L) (h : L ≤ N + 1) : ZeroFree N L := by
  unfold ZeroFree
  rcases Nat.eq_or_lt_of_le h1 with rfl | h1
  · simp
  · rw [Nat.digits_of_lt (N + 1) (L - 1) (by omega) (by omega)]
    simp; omega

/-- A tree with `N + 2` leaves is not. -/
theorem not_zeroFree_first {N : Nat} (hN : 1 ≤ N) : ¬ ZeroFree N (N + 2) := by
  unfold ZeroFree
  rw [show N + 2 - 1 = N + 1 from rfl, Nat.digits_def' (by omega) (by omega)]
  simp

/-- The recovered tree keeps working: inserts after a recovery of a tree with a suitable number of leaves behave as if
there had been no restart. -/
theorem C64_continue_partial (F : Laws c adm) (hM : 2 ≤ M) (hm : c.move = false → M % 64 ≠ 0) (hN : 2 ≤ c.N) (hN64 : c.N % 64 ≠ 0)
    (xs ys : List (K × V)) (hx : ∀ x ∈ xs, adm x.1) (hy : ∀ x ∈ ys, adm x.1) {t : Store c M}
    (e : insertAll xs (Store.empty c M) = .ok t) (hz : ZeroFree c.N t.heap.length) :
    ∃ t' t'', t.recover = .ok t' ∧ insertAll ys t' = .ok t'' ∧ ∀ k, adm k → t''.lookup k = .ok (last (xs ++ ys) k) := by
  obtain ⟨h1, E, ids, hc⟩ := insertAll_chain F hM hm hN hN64 xs _ t (tok_empty c M) ⟨_, _, chain_empty c M⟩ hx e
  obtain ⟨_, h2⟩ := insertAll_has F hM hm hN hN64 hx e
  obtain ⟨t', e', _, hgood, _⟩ := recover_law F (by omega) h1 hc
  obtain ⟨g1, g2⟩ := hgood hz
  obtain ⟨t'', e'', k1, k2⟩ := insertAll_law F hM hm hN hN64 ys t' g1 hy
  refine ⟨t', t'', e', e'', fun k hk => ?_⟩
  obtain ⟨r, er, hr⟩ := store_lookup_law F k1 hk
  rw [er]
  congr 1
  have key : ∀ v, r = some v ↔ last (xs ++ ys) k = some v := by
    intro v
    rw [hr, k2]
    unfold last
    rw [List.foldl_append]
    exact fold_last k v ys _ _ (fun w => by rw [g2, h2]; rfl)
  cases hl : last (xs ++ ys) k with
  | none =>
    cases r with
    | none => rfl
    | some v => have := (key v).1 rfl; rw [hl] at this; cases this
  | some v => exact (key v).2 hl

/-! ### Every order fails -/

theorem setPrev_length {h h' : Heap M K V} {n : Option Nat} {p : Nat} (e : setPrev h n p = .ok h') : h'.length = h.length := by
  cases n with
  | none => have := Res.ok.inj e; rw [← this]
  | some j =>
    unfold setPrev at e
    obtain ⟨y, _, e⟩ := (Res.bind_eq_ok).1 e
    have := Res.ok.inj e
    rw [← this, List.length_set]

theorem insLeaf_length {h h' : Heap M K V} {id : Nat} {k : K} {v : V} {sp : Option (K × Nat)}
    (e : insLeaf c h id k v = .ok (h', sp)) : h'.length ≤ h.length + 1 := by
  unfold insLeaf at e
  obtain ⟨x, _, e⟩ := (Res.bind_eq_ok).1 e
  obtain ⟨⟨l, q⟩, _, e⟩ := (Res.bind_eq_ok).1 e
  cases q with
  | none =>
    obtain ⟨rfl, _⟩ := Prod.mk.inj (Res.ok.inj e)
    rw [List.length_set]; omega
  | some q =>
    simp only at e
    obtain ⟨h2, e2, e⟩ := (Res.bind_eq_ok).1 e
    obtain ⟨rfl, _⟩ := Prod.mk.inj (Res.ok.inj e)
    rw [List.length_append, setPrev_length e2, List.length_set]
    simp

theorem ins_length : ∀ (d : Nat) (h : Heap M K V) (t : Tree c.N K d) (k : K) (v : V) (h' : Heap M K V) (t' : Tree c.N K d)
    (sp : Option (K × Tree c.N K d)), ins c d h t k v = .ok (h', t', sp) → h'.length ≤ h.length + 1
  | 0, h, id, k, v, h', t', sp, e => by
    rw [ins] at e
    obtain ⟨⟨h1, sp1⟩, e1, e⟩ := (Res.bind_eq_ok).1 e
    obtain ⟨rfl, _⟩ := Prod.mk.inj (Res.ok.inj e)
    exact insLeaf_length e1
  | d + 1, h, b, k, v, h', t', sp, e => by
    rw [ins] at e
    obtain ⟨p, _, e⟩ := (Res.bind_eq_ok).1 e
    obtain ⟨ch, _, e⟩ := (Res.bind_eq_ok).1 e
    obtain ⟨⟨h1, x, sp1⟩, e1, e⟩ := (Res.bind_eq_ok).1 e
    have := ins_length d h ch k v h1 x sp1 e1
    cases sp1 with
    | none =>
      obtain ⟨rfl, _⟩ := Prod.mk.inj (Res.ok.inj e)
      exact this
    | some q =>
      simp only at e
      obtain ⟨q', _, e⟩ := (Res.bind_eq_ok).1 e
      obtain ⟨rfl, _⟩ := Prod.mk.inj (Res.ok.inj e)
      exact this

theorem insert_length {t t' : Store c M} {k : K} {v : V} (e : t.insert k v = .ok t') : t'.heap.length ≤ t.heap.length + 1 := by
  unfold Store.insert at e
  obtain ⟨⟨h1, x, sp1⟩, e1, e⟩ := (Res.bind_eq_ok).1 e
  have := ins_length _ _ _ k v h1 x sp1 e1
  cases sp1 with
  | none => have h2 := Res.ok.inj e; rw [← h2]; exact this
  | some q =>
    simp only at e
    obtain ⟨q', _, e⟩ := (Res.bind_eq_ok).1 e
    have h2 := Res.ok.inj e; rw [← h2]; exact this

theorem ramp_succ (n : Nat) : ramp (n + 1) = ramp n ++ [((n : Int), (n : Int))] := by
  unfold ramp
  rw [List.range_succ, List.map_append]
  rfl

/-- `L` leaves hold at most `L * M` keys. -/
theorem ramp_leaves {c : Cfg Int Int} {t : Store c M} {n : Nat} (h : ∀ k v, t.Has k v ↔ last (ramp n) k = some v)
    {adm : Int → Prop} (ht : TOk adm t) {E : Nat → Int → Prop} {ids : List Nat} (hc : ChainOk adm t E ids) : n ≤ t.heap.length * M := by
  let g : Nat × Nat → Nat := fun q => match t.heap[q.1]? with
    | some x => (x.leaf.keys q.2).toNat
    | none => 0
  have hsub : Finset.range n ⊆ (Finset.range t.heap.length ×ˢ Finset.range M).image g := by
    intro k hk
    rw [Finset.mem_range] at hk
    have hh : t.Has (k : Int) (k : Int) := by
      rw [h, last_nodup _ (ramp_nodup n)]
      unfold ramp
      rw [List.mem_map]
      exact ⟨k, List.mem_range.2 hk, rfl⟩
    obtain ⟨i, hi, x, hx, p, hp, _, hpk, _⟩ := (has_leaves ht hc _ _).1 hh
    rw [Finset.mem_image]
    refine ⟨(i, p), ?_, ?_⟩
    · rw [Finset.mem_product, Finset.mem_range, Finset.mem_range]
      exact ⟨(List.getElem?_eq_some_iff.1 hx).1, hp⟩
    · show (match t.heap[i]? with | some x => (x.leaf.keys p).toNat | none => 0) = k
      rw [hx]
      simp only
      rw [hpk]; rfl
  have := Finset.card_le_card hsub
  rw [Finset.card_range] at this
  refine le_trans this (le_trans Finset.card_image_le ?_)
  rw [Finset.card_product, Finset.card_range, Finset.card_range]

/-- C64 fails for every order: some number of ascending inserts gives `N + 2` leaves. -/
theorem C64_refuted (N M : Nat) (hM : 2 ≤ M) (hm : M % 64 ≠ 0) (hN : 2 ≤ N) (hN64 : N % 64 ≠ 0) (hlim : (N + 1) * M + 1 < 2 ^ 31) :
    ¬ C64_statement N M := by
  intro hC
  set c : Cfg Int Int := cfgInt N false (fun _ => 0) (fun _ => 0) with hcdef
  set adm : Int → Prop := fun k => 0 ≤ k ∧ k < 2 ^ 31 - 1 with hadm
  have F : Laws c adm := laws_int N false (fun _ => 0) (fun _ => 0)
  have hx : ∀ n, n ≤ (N + 1) * M + 1 → ∀ x ∈ ramp n, adm x.1 := by
    intro n hn x hx
    unfold ramp at hx
    rw [List.mem_map] at hx
    obtain ⟨i, hi, rfl⟩ := hx
    rw [List.mem_range] at hi
    constructor
    · exact Int.natCast_nonneg i
    · show (i : Int) < 2 ^ 31 - 1
      omega
  have run : ∀ n, n ≤ (N + 1) * M + 1 → ∃ t : Store c M, insertAll (ramp n) (Store.empty c M) = .ok t ∧ n ≤ t.heap.length * M := by
    intro n hn
    obtain ⟨t, e, _⟩ := insertAll_law F hM (fun _ => hm) hN hN64 (ramp n) (Store.empty c M) (tok_empty c M) (hx n hn)
    obtain ⟨h1, E, ids, hc⟩ := insertAll_chain F hM (fun _ => hm) hN hN64 (ramp n) _ t (tok_empty c M) ⟨_, _, chain_empty c M⟩ (hx n hn) e
    obtain ⟨_, h2⟩ := insertAll_has F hM (fun _ => hm) hN hN64 (hx n hn) e
    exact ⟨t, e, ramp_leaves h2 h1 hc⟩
  -- a first number of inserts with `N + 2` leaves
  have hex : ∃ n, n ≤ (N + 1) * M + 1 ∧ ∃ t : Store c M, insertAll (ramp n) (Store.empty c M) = .ok t ∧ N + 2 ≤ t.heap.length := by
    obtain ⟨t, e, h⟩ := run ((N + 1) * M + 1) (le_refl _)
    refine ⟨_, le_refl _, t, e, ?_⟩
    by_contra hlt
    have : t.heap.length * M ≤ (N + 1) * M := Nat.mul_le_mul_right _ (by omega)
    omega
  classical
  obtain ⟨hn, t, e, hlen⟩ := Nat.find_spec hex
  have hminn := fun k => Nat.find_min hex (m := k)
  generalize Nat.find hex = n at *
  have hlen' : t.heap.length = N + 2 := by
    cases n with
    | zero =>
      have := Res.ok.inj e
      rw [← this] at hlen
      simp [Store.empty] at hlen
    | succ n =>
      rw [ramp_succ, insertAll_append] at e
      obtain ⟨t1, e1, e2⟩ := (Res.bind_eq_ok).1 e
      rw [insertAll] at e2
      obtain ⟨t2, e3, e4⟩ := (Res.bind_eq_ok).1 e2
      obtain rfl := Res.ok.inj e4
      have := insert_length e3
      by_contra hne
      exact hminn n (Nat.lt_succ_self _) ⟨by omega, t1, e1, by omega⟩
  obtain ⟨t', e', hl⟩ := hC _ _ (ramp n) t (hx n hn) e
  obtain ⟨t1, t1', e1, e1', hiff⟩ := C64_partial (M := M) F hM (fun _ => hm) hN hN64 (ramp n) (hx n hn)
  rw [e] at e1
  obtain rfl := Res.ok.inj e1
  rw [e'] at e1'
  obtain rfl := Res.ok.inj e1'
  have := hiff.1 hl
  rw [hlen'] at this
  exact not_zeroFree_first (N := N) (by omega) this

/-- Concretely: with `N = 2`, `M = 2` and four leaves, the key 4 is found before the recovery and its lookup is undefined
after it. -/
theorem C64_example : (insertAll (ramp 5) (Store.empty (cfgInt 2 false (fun _ => 0) (fun _ => 0)) 2) >>= fun t =>
      t.lookup 4) = .ok (some 4) ∧
    (insertAll (ramp 5) (Store.empty (cfgInt 2 false (fun _ => 0) (fun _ => 0)) 2) >>= fun t =>
      t.recover >>= fun t => t.lookup 4) = .ub := by
  decide +kernel

/-- With five leaves the recovery works. -/
example : (insertAll (ramp 6) (Store.empty (cfgInt 2 false (fun _ => 0) (fun _ => 0)) 2) >>= fun t =>
      t.recover >>= fun t' => t'.lookup 5 >>= fun r => .ok (t.heap.length, r)) = .ok (5, some 5) ∧ ZeroFree 2 5 := by
  constructor
  · decide +kernel
  · unfold ZeroFree; norm_num

end Verif.BitTree
