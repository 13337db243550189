import Verif.BitTree.Chain
import Verif.BitTree.Props

/-!
# C62: what a full scan reports

Walking the leaves from `leafList` on reports every entry once, after every history.  `scan` starts at
`children[0]…children[0]` instead; it is exact if and only if that leaf is `leafList`.
-/

set_option linter.unusedSectionVars false

namespace Verif.BitTree

open Verif Search FPTree BTree

variable {K V : Type} {M : Nat} [LinearOrder K] [Inhabited K] {c : Cfg K V} {adm : K → Prop}

/-- The leaf that holds a key is the leaf the descent finds. -/
theorem findLeaf_of_has (F : Laws c adm) {h : Heap M K V} : ∀ (d : Nat) (t : Tree c.N K d) (R : K → Prop) (i : Nat) (x : Cell M K V)
    (k : K) (v : V), (∀ k, R k → adm k) → Ok h d t R → i ∈ fp d t → h[i]? = some x → Has x.leaf k v → findLeaf c d t k = .ok i
  | 0, id, R, i, x, k, v, _, _, hi, _, _ => by
    have : i = id := hi
    subst this
    rfl
  | d + 1, b, R, i, x, k, v, hR, ho, ⟨y, ⟨q, hq, hy⟩, hi⟩, hx, hv => by
    obtain ⟨y', g1, g2⟩ := ho.kid q hq
    rw [hy] at g1; cases g1
    obtain ⟨x', e1, _, e3⟩ := core_fp d y _ g2 i hi
    rw [hx] at e1; cases e1
    have hrq := (e3 k v hv).1
    obtain ⟨p, e, hp, hr⟩ := pos_law (lim := c.lim) (sep_max F hR ho) hrq.1
    have := rng_unique ho hq hp hrq hr
    subst this
    rw [findLeaf, e, Res.ok_bind, kid_ok (live_lt hq) hy, Res.ok_bind]
    exact findLeaf_of_has F d y _ i x k v (fun k hk => hR k hk.1) g2 hi hx hv

/-- The entries of a leaf lie in its range. -/
theorem chain_has (F : Laws c adm) {t : Store c M} (ht : TOk adm t) {E : Nat → K → Prop} {ids : List Nat} (hc : ChainOk adm t E ids)
    {i : Nat} (hi : i ∈ ids) {x : Cell M K V} (hx : t.heap[i]? = some x) {k : K} {v : V} (hv : Has x.leaf k v) : E i k := by
  have hf := (hc.mem i).1 hi
  obtain ⟨x', e1, _, e3⟩ := core_fp _ _ _ ht.ok i hf
  rw [hx] at e1; cases e1
  obtain ⟨j, hj, hE⟩ := hc.cover k (e3 k v hv).1
  have h1 := findLeaf_of_has F _ _ _ i x k v (fun _ h => h) ht.ok hf hx hv
  have h2 := findLeaf_ghost F _ _ _ j k (fun _ h => h) hc.gok ((hc.mem j).1 hj) hE
  rw [h1] at h2
  obtain rfl := Res.ok.inj h2
  exact hE

/-- The entries of a tree are those of its leaves. -/
theorem has_leaves {t : Store c M} (ht : TOk adm t) {E : Nat → K → Prop} {ids : List Nat} (hc : ChainOk adm t E ids) (k : K) (v : V) :
    t.Has k v ↔ ∃ i ∈ ids, ∃ x, t.heap[i]? = some x ∧ Has x.leaf k v := by
  constructor
  · have key : ∀ (d : Nat) (r : Tree c.N K d), hasT t.heap d r k v → ∃ i ∈ fp d r, ∃ x, t.heap[i]? = some x ∧ Has x.leaf k v := by
      intro d
      induction d with
      | zero => rintro r ⟨x, h1, h2⟩; exact ⟨r, rfl, x, h1, h2⟩
      | succ d ih =>
        rintro b ⟨y, hy, hw⟩
        obtain ⟨i, hi, hx⟩ := ih y hw
        exact ⟨i, ⟨y, hy, hi⟩, hx⟩
    intro h
    obtain ⟨i, hi, hx⟩ := key _ _ h
    exact ⟨i, (hc.mem i).2 hi, hx⟩
  · rintro ⟨i, hi, x, hx, hv⟩
    obtain ⟨x', e1, _, e3⟩ := core_fp _ _ _ ht.ok i ((hc.mem i).1 hi)
    rw [hx] at e1; cases e1
    exact (e3 k v hv).2

theorem scanFrom_law {h : Heap M K V} : ∀ (ids : List Nat) (o : Option Nat) (n : Nat), Linked h o ids → ids.length ≤ n →
    (∀ i ∈ ids, ∃ x, h[i]? = some x ∧ LOk x.leaf) →
    ids.Pairwise (fun i j => ∀ x y a b b', h[i]? = some x → h[j]? = some y → Has x.leaf a b → ¬ Has y.leaf a b') →
    ∃ r, Store.scanFrom h n o = .ok r ∧ (r.map Prod.fst).Nodup ∧
      ∀ k v, (k, v) ∈ r ↔ ∃ i ∈ ids, ∃ x, h[i]? = some x ∧ Has x.leaf k v
  | [], o, n, hl, _, _, _ => by
    have : o = none := hl
    subst this
    refine ⟨[], by cases n <;> rfl, List.nodup_nil, fun k v => ?_⟩
    constructor
    · intro h; cases h
    · rintro ⟨i, hi, _⟩; cases hi
  | i :: is, o, n, ⟨h1, nx, h2, h3⟩, hn, hok, hp => by
    subst h1
    obtain ⟨m, rfl⟩ : ∃ m, n = m + 1 := ⟨n - 1, by simp at hn; omega⟩
    obtain ⟨x, hx, hxl⟩ := hok i (by simp)
    obtain ⟨hp1, hp2⟩ := List.pairwise_cons.1 hp
    obtain ⟨r, e, hnd, hr⟩ := scanFrom_law is nx m h3 (by simp at hn; omega) (fun j hj => hok j (by simp [hj])) hp2
    obtain ⟨a, e1, hnd1, ha⟩ := scanLoop_spec x.leaf hxl M 0 (by omega)
    have ha' : ∀ k v, (k, v) ∈ a ↔ Has x.leaf k v := by
      intro k v
      rw [ha]
      exact ⟨fun ⟨p, _, h⟩ => ⟨p, h⟩, fun ⟨p, h⟩ => ⟨p, by omega, h⟩⟩
    have hnx : x.next = nx := by
      unfold nextOf at h2
      rw [hx] at h2
      exact Option.some.inj h2
    refine ⟨a ++ r, ?_, ?_, fun k v => ?_⟩
    · rw [Store.scanFrom, hx, Res.ofOption_some, Res.ok_bind, e1, Res.ok_bind, hnx, e]; rfl
    · rw [List.map_append, List.nodup_append]
      refine ⟨hnd1, hnd, fun k hk k' hk' e => ?_⟩
      subst e
      obtain ⟨⟨k1, v1⟩, hm1, rfl⟩ := List.mem_map.1 hk
      obtain ⟨⟨k2, v2⟩, hm2, ek⟩ := List.mem_map.1 hk'
      simp only at ek
      subst ek
      obtain ⟨j, hj, y, hy, hw⟩ := (hr _ _).1 hm2
      exact hp1 j hj x y k2 v1 v2 hx hy ((ha' _ _).1 hm1) hw
    · rw [List.mem_append, ha', hr]
      constructor
      · rintro (h | ⟨j, hj, h⟩)
        · exact ⟨i, by simp, x, hx, h⟩
        · exact ⟨j, by simp [hj], h⟩
      · rintro ⟨j, hj, y, hy, h⟩
        rcases List.mem_cons.1 hj with rfl | hj
        · rw [hx] at hy; cases hy; exact Or.inl h
        · exact Or.inr ⟨j, hj, y, hy, h⟩

theorem linked_suffix {h : Heap M K V} : ∀ (l r : List Nat) (o : Option Nat) (i : Nat), Linked h o (l ++ i :: r) → Linked h (some i) (i :: r)
  | [], _, _, _, ⟨_, h⟩ => ⟨rfl, h⟩
  | _ :: l, r, _, i, ⟨_, n, _, h⟩ => linked_suffix l r n i h

theorem linked_unique {h : Heap M K V} : ∀ (l l' : List Nat) (o : Option Nat), Linked h o l → Linked h o l' → l = l'
  | [], [], _, _, _ => rfl
  | [], _ :: _, o, h1, ⟨h2, _⟩ => by rw [show o = none from h1] at h2; cases h2
  | _ :: _, [], o, ⟨h1, _⟩, h2 => by rw [show o = none from h2] at h1; cases h1
  | i :: l, j :: l', o, ⟨h1, n, h2, h3⟩, ⟨g1, m, g2, g3⟩ => by
    rw [h1] at g1
    obtain rfl := Option.some.inj g1
    rw [h2] at g2
    obtain rfl := Option.some.inj g2
    rw [linked_unique l l' n h3 g3]

/-- Scanning from the `i`-th leaf on reports exactly the entries of the leaves from there on. -/
theorem scanFrom_chain (F : Laws c adm) {t : Store c M} (ht : TOk adm t) {E : Nat → K → Prop} {ids : List Nat} (hc : ChainOk adm t E ids)
    {l r : List Nat} {i : Nat} (hs : ids = l ++ i :: r) :
    ∃ out, Store.scanFrom t.heap t.heap.length (some i) = .ok out ∧ (out.map Prod.fst).Nodup ∧
      ∀ k v, (k, v) ∈ out ↔ ∃ j ∈ i :: r, ∃ x, t.heap[j]? = some x ∧ Has x.leaf k v := by
  have sub : ∀ j ∈ i :: r, j ∈ ids := fun j hj => by rw [hs]; exact List.mem_append_right _ hj
  refine scanFrom_law (i :: r) (some i) _ (linked_suffix l r _ i (by rw [← hs]; exact hc.link)) ?_ ?_ ?_
  · rw [← hc.len, hs]; simp
  · intro j hj
    obtain ⟨x, e1, e2, _⟩ := core_fp _ _ _ ht.ok j ((hc.mem j).1 (sub j hj))
    exact ⟨x, e1, e2⟩
  · have : (i :: r).Pairwise (fun i j => ∀ a b, E i a → E j b → a < b) := by
      have := hc.ord
      rw [hs] at this
      exact (List.pairwise_append.1 this).2.1
    refine this.imp_of_mem fun {p q} hp hq h x y a b b' hx hy hv hw => ?_
    exact absurd (h a a (chain_has F ht hc (sub p hp) hx hv) (chain_has F ht hc (sub q hq) hy hw)) (lt_irrefl _)

theorem chain_head {t : Store c M} {E : Nat → K → Prop} {ids : List Nat} (hc : ChainOk adm t E ids) : ∃ r, ids = t.first :: r := by
  have := hc.link
  match ids, this with
  | i :: r, ⟨h1, _⟩ =>
    obtain rfl := Option.some.inj h1
    exact ⟨r, rfl⟩

/-- `scan` is exact if and only if the descent through `children[0]` ends in the first leaf of the list. -/
theorem scan_iff (F : Laws c adm) {t : Store c M} (ht : TOk adm t) {E : Nat → K → Prop} {ids : List Nat} (hc : ChainOk adm t E ids) :
    (∃ r, t.scan = .ok r ∧ (r.map Prod.fst).Nodup ∧ ∀ k v, (k, v) ∈ r ↔ t.Has k v) ↔
      Store.firstLeaf c t.depth t.root = .ok t.first := by
  obtain ⟨rest, hids⟩ := chain_head hc
  constructor
  · rintro ⟨out, e, _, hout⟩
    unfold Store.scan at e
    obtain ⟨i, e1, e2⟩ := (Res.bind_eq_ok).1 e
    rw [e1]
    by_contra hne
    have hne : i ≠ t.first := fun h => hne (by rw [h])
    have hlt : i < t.heap.length := by
      cases hn : t.heap.length with
      | zero => rw [hn] at e2; cases e2
      | succ n =>
        rw [hn, Store.scanFrom] at e2
        obtain ⟨x, e3, _⟩ := (Res.bind_eq_ok).1 e2
        rw [← hn]
        by_contra hge
        rw [List.getElem?_eq_none (by omega)] at e3
        cases e3
    have hall : i ∈ ids := by
      have hsub : ids.toFinset ⊆ Finset.range t.heap.length := by
        intro j hj
        rw [Finset.mem_range]
        exact fp_lt _ _ _ ht.ok j ((hc.mem j).1 (List.mem_toFinset.1 hj))
      have : ids.toFinset = Finset.range t.heap.length := by
        refine Finset.eq_of_subset_of_card_le hsub ?_
        rw [Finset.card_range, List.toFinset_card_of_nodup hc.nodup, hc.len]
      rw [← List.mem_toFinset, this, Finset.mem_range]
      exact hlt
    have hfr : i ∈ rest := by
      rw [hids] at hall
      exact (List.mem_cons.1 hall).resolve_left hne
    obtain ⟨l, r, hr⟩ := List.append_of_mem hfr
    obtain ⟨out', e3, _, h3⟩ := scanFrom_chain F ht hc (l := t.first :: l) (r := r) (i := i) (by rw [hids, hr]; rfl)
    rw [e2] at e3
    obtain rfl := Res.ok.inj e3
    have hmemf : t.first ∈ ids := by rw [hids]; simp
    obtain ⟨lf, hcore, k, v, hkv⟩ := hc.ne (by rw [hids, hr]; simp) t.first hmemf
    obtain ⟨x, hx, rfl⟩ := core_some.1 hcore
    have hh : t.Has k v := (has_leaves ht hc k v).2 ⟨t.first, hmemf, x, hx, hkv⟩
    obtain ⟨j, hj, y, hy, hw⟩ := (h3 k v).1 ((hout k v).2 hh)
    have hjids : j ∈ rest := by rw [hr]; exact List.mem_append_right _ hj
    have hord := hc.ord
    rw [hids] at hord
    have := (List.pairwise_cons.1 hord).1 j hjids k k (chain_has F ht hc hmemf hx hkv)
      (chain_has F ht hc (by rw [hids]; exact List.mem_cons_of_mem _ hjids) hy hw)
    exact absurd this (lt_irrefl _)
  · intro e
    obtain ⟨out, e3, h2, h3⟩ := scanFrom_chain F ht hc (l := []) (r := rest) (i := t.first) hids
    refine ⟨out, ?_, h2, fun k v => ?_⟩
    · unfold Store.scan
      rw [e, Res.ok_bind, e3]
    · rw [h3, has_leaves ht hc, hids]

/-- C62, after any history of inserts: `scan(func)` reports exactly the stored entries, each once, if and only if
the descent through `children[0]` ends in the first leaf of the leaf list. -/
theorem C62_partial (F : Laws c adm) (hM : 2 ≤ M) (hm : c.move = false → M % 64 ≠ 0) (hN : 2 ≤ c.N) (hN64 : c.N % 64 ≠ 0)
    (xs : List (K × V)) (hx : ∀ x ∈ xs, adm x.1) :
    ∃ t, insertAll xs (Store.empty c M) = .ok t ∧
      ((∃ r, t.scan = .ok r ∧ (r.map Prod.fst).Nodup ∧ ∀ k v, (k, v) ∈ r ↔ last xs k = some v) ↔
        Store.firstLeaf c t.depth t.root = .ok t.first) := by
  obtain ⟨t, e, h1, h2⟩ := insertAll_law F hM hm hN hN64 xs (Store.empty c M) (tok_empty c M) hx
  obtain ⟨_, E, ids, hc⟩ := insertAll_chain F hM hm hN hN64 xs _ t (tok_empty c M) ⟨_, _, chain_empty c M⟩ hx e
  refine ⟨t, e, ?_⟩
  rw [← scan_iff F h1 hc]
  have : ∀ k v, t.Has k v ↔ last xs k = some v := by
    intro k v
    rw [h2]
    exact fold_last k v xs _ none (fun w => ⟨fun h => absurd h (has_empty k w), fun h => by cases h⟩)
  simp only [this]

/-! ## Ascending keys -/

section

variable {N : Nat} {C : Type} {P : C → (K → Prop) → Prop} {Fp : C → Set Nat}

/-- `x` is the leftmost child and sits at position 0. -/
structure LeftMost (b : Branch N K C) (x : C) : Prop where
  pos : 0 < N
  bit : Bitmap.bit b.bits 0 = true
  min : ∀ q, q < N → Bitmap.bit b.bits q = true → q ≠ 0 → b.keys 0 < b.keys q
  kid : b.kids 0 = some x

theorem addSplit_left {lim : Limits K} {cv : Conv K} (hN : 2 ≤ N) {b : Branch N K C} {R : K → Prop}
    (hconv : ∀ k, R k → cv.ofSize (cv.toSize k) = k)
    (hmono : ∀ k k', R k → R k' → (cv.toSize k < cv.toSize k' ↔ k < k')) (hlim : ∀ k, R k → k < lim.max)
    (h : BOk P Fp b R) {key s : K} (hkey : ∀ k, R k → k ≤ key) (hs : rng b R N s) (hk0 : ∃ k0, rng b R N k0 ∧ k0 < s)
    {left right x : C} (hl : LeftMost b x) {b' : Branch N K C} {sp : Option (K × Branch N K C)}
    (e : b.addSplit lim cv key s left right = .ok (b', sp)) : LeftMost b' x := by
  unfold Branch.addSplit at e
  by_cases hc : b.bits.count = N
  · rw [if_pos hc] at e
    have hfull := full_of_count h.clean hc
    have hR : ∀ i, i < N → R (b.keys i) := fun i hi => (h.sep i hi (hfull i hi)).1
    obtain ⟨w, p, e1, hp, _, hb, i, hi, hlt⟩ := splitKey_law cv hN b.keys (fun i hi => hconv _ (hR i hi))
      (fun i j hi hj => hmono _ _ (hR i hi) (hR j hj)) (fun i j hi hj => h.inj i j hi hj (hfull i hi) (hfull j hj))
    obtain ⟨w1, e2, hw1, _⟩ := set_bit' (b := w) hp false
    have h0p : b.keys 0 < b.keys p := by
      by_cases h0 : i = 0
      · rw [← h0]; exact hlt
      · exact lt_trans (hl.min i hi (hfull i hi) h0) hlt
    have hbits : ∀ q, q < N → Bitmap.bit w1 q = true → Bitmap.bit b.bits q = true := fun q hq _ => hfull q hq
    have hleft : LeftMost (⟨w1, b.keys, upd b.kids N (b.kids p)⟩ : Branch N K C) x := by
      refine ⟨hl.pos, ?_, fun q hq hbq hne => hl.min q hq (hfull q hq) hne, ?_⟩
      · show Bitmap.bit w1 0 = true
        rw [hw1 0 hl.pos, if_neg (by rintro rfl; exact lt_irrefl _ h0p), hb 0 hl.pos]
        exact h0p
      · show upd b.kids N (b.kids p) 0 = some x
        rw [upd, if_neg (by omega)]
        exact hl.kid
    unfold Branch.split at e
    rw [e1, Res.ok_bind, rdA_ok hp, Res.ok_bind, Bitmap.reset_eq_set, e2, Res.ok_bind] at e
    obtain ⟨⟨b1, b2, sk⟩, e3, e⟩ := (Res.bind_eq_ok).1 e
    obtain ⟨w2, _, e3⟩ := (Res.bind_eq_ok).1 e3
    obtain ⟨rfl, e4⟩ := Prod.mk.inj (Res.ok.inj e3)
    obtain ⟨rfl, rfl⟩ := Prod.mk.inj e4
    simp only at e
    rw [if_neg (not_lt.2 (hkey _ (hR p hp)))] at e
    obtain ⟨b3, _, e⟩ := (Res.bind_eq_ok).1 e
    obtain ⟨rfl, _⟩ := Prod.mk.inj (Res.ok.inj e)
    exact hleft
  · rw [if_neg hc] at e
    obtain ⟨b3, e3, e⟩ := (Res.bind_eq_ok).1 e
    obtain ⟨rfl, _⟩ := Prod.mk.inj (Res.ok.inj e)
    obtain ⟨hu, hub⟩ := free_of_zero (not_full h.clean hc)
    obtain ⟨np, enp, hnp, hnp'⟩ := pos_law (b := b) (R := R) (lim := lim) (k := s)
      (fun q hq hb => hlim _ (h.sep q hq hb).1) hs.1
    have : np = N := rng_unique h hnp (Or.inr rfl) hnp' hs
    subst this
    obtain ⟨w, ew, hw, _⟩ := set_bit' (b := b.bits) hu true
    unfold Branch.add at e3
    simp only at e3
    rw [enp, Res.ok_bind, if_neg (by omega), ew, Res.ok_bind] at e3
    obtain rfl := Res.ok.inj e3
    have hu0 : b.bits.getFreeZero ≠ 0 := by
      intro h0
      rw [h0, hl.bit] at hub
      cases hub
    have h0s : b.keys 0 < s := by
      obtain ⟨k0, g1, g2⟩ := hk0
      exact lt_of_le_of_lt (g1.2.2 0 hl.pos hl.bit (fun h => absurd h (lt_irrefl _))) g2
    refine ⟨hl.pos, ?_, fun q hq hbq hne => ?_, ?_⟩
    · show Bitmap.bit w 0 = true
      rw [hw 0 hl.pos, if_neg (Ne.symm hu0)]
      exact hl.bit
    · have hbq : Bitmap.bit w q = true := hbq
      show upd b.keys b.bits.getFreeZero s 0 < upd b.keys b.bits.getFreeZero s q
      rw [upd, if_neg (Ne.symm hu0), upd]
      by_cases hq' : q = b.bits.getFreeZero
      · rw [if_pos hq']; exact h0s
      · rw [if_neg hq']
        rw [hw q hq, if_neg hq'] at hbq
        exact hl.min q hq hbq hne
    · show upd (upd b.kids b.bits.getFreeZero (some left)) np (some right) 0 = some x
      rw [upd, if_neg (by omega), upd, if_neg (Ne.symm hu0)]
      exact hl.kid

end

/-- On every level the leftmost child sits at position 0; the leftmost leaf is `f`. -/
def Lefts {N : Nat} : (d : Nat) → Tree N K d → Nat → Prop
  | 0, id, f => id = f
  | d + 1, b, f => ∃ x, LeftMost b x ∧ Lefts d x f

theorem lefts_first : ∀ (d : Nat) (t : Tree c.N K d) (f : Nat), Lefts d t f → Store.firstLeaf c d t = .ok f
  | 0, _, _, h => congrArg Res.ok h
  | 1, b, f, ⟨x, h1, h2⟩ => by
    have h2 : x = f := h2
    subst h2
    exact kid_ok (Nat.succ_pos _) h1.kid
  | d + 2, b, f, ⟨x, h1, h2⟩ => by
    rw [Store.firstLeaf, show (Branch.bits b).test 0 = .ok (Bitmap.bit (Branch.bits b) 0) from Bitmap.test_eq _ h1.pos, Res.ok_bind,
      if_pos h1.bit, kid_ok (Nat.succ_pos _) h1.kid, Res.ok_bind]
    exact lefts_first (d + 1) x f h2

/-- Inserting a key that is not below any key of the range keeps the leftmost children at position 0. -/
theorem ins_lefts (F : Laws c adm) (hM : 2 ≤ M) (hm : c.move = false → M % 64 ≠ 0) (hN : 2 ≤ c.N) (hN64 : c.N % 64 ≠ 0) {f : Nat} :
    ∀ (d : Nat) (h : Heap M K V) (t : Tree c.N K d) (R : K → Prop) (k : K) (v : V), LinkOk h → (∀ k, R k → adm k) →
    Ok h d t R → R k → (∀ x, R x → x ≤ k) → Lefts d t f → ∀ h' t' sp, ins c d h t k v = .ok (h', t', sp) → Lefts d t' f
  | 0, h, id, R, k, v, _, _, _, _, _, hl, h', t', sp, e => by
    rw [ins] at e
    obtain ⟨⟨h1, sp1⟩, e1, e⟩ := (Res.bind_eq_ok).1 e
    obtain ⟨_, e9⟩ := Prod.mk.inj (Res.ok.inj e)
    obtain ⟨rfl, _⟩ := Prod.mk.inj e9
    exact hl
  | d + 1, h, b, R, k, v, hL, hR, ho, hk, hmax, ⟨x0, hl, hl0⟩, h', t', sp, e => by
    obtain ⟨p, ep, hp, hr⟩ := pos_law (lim := c.lim) (sep_max F hR ho) hk
    have hpN : p = c.N := by
      rcases hp with ⟨h1, h2⟩ | h1
      · exact absurd (hr.2.1 h1) (not_lt.2 (hmax _ (ho.sep p h1 h2).1))
      · exact h1
    subst hpN
    obtain ⟨x, hx, hox⟩ := ho.kid _ hp
    obtain ⟨h1, x', sp1, e1, g1, g2, g3, g4, g5⟩ := ins_law F hM hm hN hN64 d h x _ k v hL (fun k hk => hR k hk.1) hox hr
    rw [ins, ep, Res.ok_bind, kid_ok (live_lt hp) hx, Res.ok_bind, e1, Res.ok_bind] at e
    simp only at e
    set b1 : Branch c.N K (Tree c.N K d) := { b with kids := upd b.kids c.N (some x') } with hb1
    have hl1 : LeftMost b1 x0 := by
      refine ⟨hl.pos, hl.bit, hl.min, ?_⟩
      show upd b.kids c.N (some x') 0 = some x0
      rw [upd, if_neg (by omega)]
      exact hl.kid
    match sp1, g5, e with
    | none, _, e =>
      obtain ⟨_, e9⟩ := Prod.mk.inj (Res.ok.inj e)
      obtain ⟨rfl, _⟩ := Prod.mk.inj e9
      exact ⟨x0, hl1, hl0⟩
    | some (s, right), ⟨g5, ⟨k0, g6, g6'⟩, g7, g8, g9, g10, g11⟩, e =>
      simp only at e
      obtain ⟨⟨b', sp'⟩, e2, e⟩ := (Res.bind_eq_ok).1 e
      obtain ⟨_, e9⟩ := Prod.mk.inj (Res.ok.inj e)
      obtain ⟨rfl, _⟩ := Prod.mk.inj e9
      have hb1ok : BOk (fun _ _ => True) (fun _ => ∅) b1 R := by
        refine ⟨ho.clean, ho.inj, ho.sep, fun q hq => ?_, fun _ _ _ _ _ _ _ _ _ => Set.disjoint_empty _⟩
        by_cases e : q = c.N
        · exact ⟨x', by rw [hb1]; simp [upd, e], trivial⟩
        · obtain ⟨y, hy, _⟩ := ho.kid q hq
          exact ⟨y, by rw [hb1]; simp [upd, e]; exact hy, trivial⟩
      exact ⟨x0, addSplit_left hN (fun k hk => F.conv k (hR k hk)) (fun a a' ha ha' => F.mono a a' (hR a ha) (hR a' ha'))
        (fun k hk => (F.lim k (hR k hk)).2) hb1ok hmax g5 ⟨k0, g6, g6'⟩ hl1 e2, hl0⟩

theorem store_lefts (F : Laws c adm) (hM : 2 ≤ M) (hm : c.move = false → M % 64 ≠ 0) (hN : 2 ≤ c.N) (hN64 : c.N % 64 ≠ 0)
    {t t' : Store c M} (ht : TOk adm t) {k : K} (hk : adm k) (hmax : ∀ x, adm x → x ≤ k) (v : V) (e : t.insert k v = .ok t')
    (hl : Lefts t.depth t.root t.first) : Lefts t'.depth t'.root t'.first := by
  obtain ⟨h', r', sp, e1, _⟩ := ins_law F hM hm hN hN64 t.depth t.heap t.root adm k v ht.link (fun _ h => h) ht.ok hk
  have hl' := ins_lefts F hM hm hN hN64 t.depth t.heap t.root adm k v ht.link (fun _ h => h) ht.ok hk hmax hl _ _ _ e1
  unfold Store.insert at e
  rw [e1, Res.ok_bind] at e
  match sp, e with
  | none, e =>
    obtain rfl := Res.ok.inj e
    exact hl'
  | some (s, right), e =>
    simp only at e
    have h0 : 0 < c.N := by omega
    obtain ⟨b', eb, hbits, _⟩ := set_bit' (b := Bitmap.fresh c.N) h0 true
    rw [eb, Res.ok_bind] at e
    obtain rfl := Res.ok.inj e
    refine ⟨r', ⟨h0, ?_, fun q hq hb hne => ?_, ?_⟩, hl'⟩
    · show Bitmap.bit b' 0 = true
      rw [hbits 0 h0, if_pos rfl]
    · have hb : Bitmap.bit b' q = true := hb
      rw [hbits q hq, if_neg hne, bit_fresh] at hb
      cases hb
    · show upd (upd (fun _ => none) 0 (some r')) c.N (some right) 0 = some r'
      rw [upd, if_neg (by omega), upd, if_pos rfl]

theorem insertAll_lefts (F : Laws c adm) (hM : 2 ≤ M) (hm : c.move = false → M % 64 ≠ 0) (hN : 2 ≤ c.N) (hN64 : c.N % 64 ≠ 0) :
    ∀ (xs : List (K × V)) (t t' : Store c M) (R : K → Prop), (∀ k, R k → adm k) → TOk R t → (∀ x ∈ xs, adm x.1) →
    (∀ x ∈ xs, ∀ k, R k → k ≤ x.1) → xs.Pairwise (fun x y => x.1 ≤ y.1) →
    Lefts t.depth t.root t.first → insertAll xs t = .ok t' → Lefts t'.depth t'.root t'.first
  | [], t, t', _, _, _, _, _, _, hl, e => by cases e; exact hl
  | x :: xs, t, t', R, hR, ht, hx, hle, hp, hl, e => by
    rw [insertAll] at e
    obtain ⟨t1, e1, e⟩ := (Res.bind_eq_ok).1 e
    obtain ⟨hp1, hp2⟩ := List.pairwise_cons.1 hp
    let R' : K → Prop := fun k => adm k ∧ k ≤ x.1
    have F' : Laws c R' := ⟨fun k hk => F.conv k hk.1, fun a b ha hb => F.mono a b ha.1 hb.1, fun k hk => F.lim k hk.1⟩
    have ht' : TOk R' t := ⟨ok_mono _ _ _ _ (fun k hk => ⟨hR k hk, hle x (by simp) k hk⟩) ht.ok, ht.link⟩
    have hk : R' x.1 := ⟨hx x (by simp), le_refl _⟩
    obtain ⟨t1', e1', h1, _⟩ := store_insert_law F' hM hm hN hN64 ht' hk x.2
    rw [e1] at e1'
    obtain rfl := Res.ok.inj e1'
    exact insertAll_lefts F hM hm hN hN64 xs t1 t' R' (fun k hk => hk.1) h1 (fun y hy => hx y (by simp [hy]))
      (fun y hy k hk => le_trans hk.2 (hp1 y hy)) hp2 (store_lefts F' hM hm hN hN64 ht' hk (fun k hk => hk.2) x.2 e1 hl) e

/-- C62 for keys inserted in ascending order. -/
theorem C62_ascending_partial (F : Laws c adm) (hM : 2 ≤ M) (hm : c.move = false → M % 64 ≠ 0) (hN : 2 ≤ c.N) (hN64 : c.N % 64 ≠ 0)
    (xs : List (K × V)) (hx : ∀ x ∈ xs, adm x.1) (hp : xs.Pairwise (fun x y => x.1 ≤ y.1)) :
    ∃ t r, insertAll xs (Store.empty c M) = .ok t ∧ t.scan = .ok r ∧ (r.map Prod.fst).Nodup ∧
      ∀ k v, (k, v) ∈ r ↔ last xs k = some v := by
  obtain ⟨t, e, h⟩ := C62_partial F hM hm hN hN64 xs hx
  have hl := insertAll_lefts F hM hm hN hN64 xs _ t (fun _ => False) (fun _ h => h.elim) (tok_empty c M) hx (fun _ _ _ h => h.elim) hp
    rfl e
  obtain ⟨r, h1, h2, h3⟩ := h.2 (lefts_first _ _ _ hl)
  exact ⟨t, r, e, h1, h2, h3⟩

/-- Eight ascending inserts with `N = 2`, `M = 3` give a tree of depth 2 with four leaves. -/
example : (insertAll [((1 : Int), (1 : Int)), (2, 2), (3, 3), (4, 4), (5, 5), (6, 6), (7, 7), (8, 8)]
    (Store.empty (cfgInt 2 false (fun _ => 0) (fun _ => 0)) 3) >>= fun t => .ok (t.depth, t.heap.length)) = .ok (2, 4) := by
  decide +kernel

end Verif.BitTree
