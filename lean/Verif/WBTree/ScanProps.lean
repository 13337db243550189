import Verif.WBTree.Asc
import Verif.WBTree.Props

/-!
# wBPTree.hpp, wHBPTree.hpp: what scans and iterators list (C86)
-/

namespace Verif.WBTree

variable {K V : Type} [LinearOrder K] {N M : Nat}

theorem LeafOK.slotEntries {l : Leaf K V M} {es : List (Nat × K × V)} (h : LeafOK l es) : ∀ (n i : Nat),
    i + n = es.length → l.slotEntries (i + 1) n = .ok ((es.drop i).map (·.2)) := by
  intro n
  induction n with
  | zero => intro i hi; rw [Leaf.slotEntries, List.drop_of_length_le (by omega)]; rfl
  | succ n ih =>
    intro i hi
    rw [Leaf.slotEntries, h.slot (by omega), Res.ok_bind, h.key (List.getElem_mem _), Res.ok_bind,
      h.val (List.getElem_mem _), Res.ok_bind, ih (i + 1) (by omega), Res.ok_bind, Res.pure_eq,
      List.drop_eq_getElem_cons (by omega : i < es.length)]
    rfl

/-- The slot array lists the entries of a leaf in key order. -/
theorem LeafOK.scanSlots {l : Leaf K V M} {es : List (Nat × K × V)} (h : LeafOK l es) :
    l.scanSlots = .ok (es.map (·.2)) := by
  unfold Leaf.scanSlots
  rw [h.count, Res.ok_bind, h.slotEntries es.length 0 (by omega)]
  rfl

/-- The entry at array position `p`. -/
def Leaf.at (l : Leaf K V M) (p : Nat) : Option (K × V) :=
  match l.keys p, l.vals p with
  | some k, some v => some (k, v)
  | _, _ => none

theorem LeafOK.at {l : Leaf K V M} {es : List (Nat × K × V)} (h : LeafOK l es) {e : Nat × K × V}
    (he : e ∈ es) : l.at e.1 = some e.2 := by
  unfold Leaf.at
  rw [(h.ent e he).2.1, (h.ent e he).2.2]

theorem LeafOK.used {l : Leaf K V M} {es : List (Nat × K × V)} (h : LeafOK l es) {p : Nat} (hp : p < M)
    (hb : Bitmap.bit l.bits p = true) : ∃ e ∈ es, e.1 = p := by
  obtain ⟨e, he, h1⟩ := List.mem_map.1 ((h.bits p hp).1 hb)
  exact ⟨e, he, h1⟩

/-- The used positions `i, …, i + n - 1`, with their entries. -/
def Leaf.posList (l : Leaf K V M) (i n : Nat) : List (K × V) :=
  ((List.range' i n).filter (Bitmap.bit l.bits)).filterMap l.at

theorem Leaf.posList_succ (l : Leaf K V M) (i n : Nat) : l.posList i (n + 1) =
    (if Bitmap.bit l.bits i then (l.at i).toList else []) ++ l.posList (i + 1) n := by
  unfold posList
  rw [List.range'_succ, List.filter_cons]
  by_cases hb : Bitmap.bit l.bits i = true
  · rw [if_pos hb, if_pos hb, List.filterMap_cons]
    cases l.at i <;> simp
  · rw [if_neg hb, if_neg hb]; rfl

theorem LeafOK.posList_perm {l : Leaf K V M} {es : List (Nat × K × V)} (h : LeafOK l es) :
    (l.posList 0 M).Perm (es.map (·.2)) := by
  have h1 : ((List.range' 0 M).filter (Bitmap.bit l.bits)).Perm (es.map (·.1)) := by
    rw [List.perm_ext_iff_of_nodup ((List.nodup_range').filter _) h.nodup]
    intro p
    rw [List.mem_filter, List.mem_range'_1]
    constructor
    · rintro ⟨⟨_, hp⟩, hb⟩
      exact (h.bits p (by omega)).1 hb
    · intro hp
      obtain ⟨e, he, h2⟩ := List.mem_map.1 hp
      have := (h.ent e he).1
      exact ⟨by omega, (h.bits p (by omega)).2 hp⟩
  have h2 : (es.map (·.1)).filterMap l.at = es.map (·.2) := by
    rw [List.filterMap_map]
    have : ∀ (xs : List (Nat × K × V)), (∀ e ∈ xs, e ∈ es) →
        xs.filterMap (l.at ∘ (·.1)) = xs.map (·.2) := by
      intro xs
      induction xs with
      | nil => intro _; rfl
      | cons x xs ih =>
        intro hx
        rw [List.filterMap_cons, Function.comp_apply, h.at (hx x (by simp))]
        simp only [List.map_cons]
        rw [ih (fun e he => hx e (by simp [he]))]
    exact this es (fun e he => he)
  unfold Leaf.posList
  rw [← h2]
  exact h1.filterMap _

theorem LeafOK.bitEntries {l : Leaf K V M} {es : List (Nat × K × V)} (h : LeafOK l es) : ∀ (n i : Nat),
    i + n ≤ M → l.bitEntries i n = .ok (l.posList i n) := by
  intro n
  induction n with
  | zero => intro i _; rfl
  | succ n ih =>
    intro i hi
    rw [Leaf.bitEntries, Bitmap.test_eq _ (by omega : i < M), Res.ok_bind, Leaf.posList_succ]
    by_cases hb : Bitmap.bit l.bits i = true
    · obtain ⟨e, he, rfl⟩ := h.used (by omega) hb
      have hb' := hb
      unfold Bitmap.bit at hb'
      rw [if_pos hb', h.key he, Res.ok_bind, h.val he, Res.ok_bind, ih _ (by omega), Res.ok_bind, if_pos hb,
        h.at he]
      rfl
    · have hb' := hb
      unfold Bitmap.bit at hb'
      rw [if_neg hb', if_neg hb, ih _ (by omega)]
      rfl

/-- The bitmap lists every entry of a leaf once. -/
theorem LeafOK.scanBits {l : Leaf K V M} {es : List (Nat × K × V)} (h : LeafOK l es) :
    l.scanBits = .ok (l.posList 0 M) := h.bitEntries M 0 (by omega)

/-- The walk visits the leaves from address `i` on. -/
theorem Chain.walk {t : Tree K V N M} {ess : List (List (Nat × K × V))} (h : Chain t ess)
    (f : Leaf K V M → Res (List (K × V))) (g : Leaf K V M → List (K × V))
    (hf : ∀ l es, LeafOK l es → f l = .ok (g l)) : ∀ (n i : Nat), i < ess.length → ess.length - i ≤ n →
    walk f t n (some i) = .ok ((t.leaves.drop i).flatMap g) := by
  intro n
  induction n with
  | zero => intro i h1 h2; omega
  | succ n ih =>
    intro i h1 h2
    obtain ⟨l, hl, hok⟩ := h.leaf i h1
    have hi : i < t.leaves.length := by rw [h.len]; exact h1
    have hli : t.leaves[i] = l := by
      rw [List.getElem?_eq_getElem hi] at hl
      exact Option.some.inj hl
    rw [WBTree.walk, Tree.leaf, hl, Res.ofOption_some, Res.ok_bind, hf l _ hok, Res.ok_bind, h.next i h1,
      List.drop_eq_getElem_cons hi, List.flatMap_cons, hli]
    by_cases hc : i + 1 < ess.length
    · rw [if_pos hc, ih (i + 1) hc (by omega), Res.ok_bind]
      rfl
    · rw [if_neg hc, WBTree.walk.eq_def]
      dsimp only
      rw [Res.ok_bind, List.drop_of_length_le (by rw [h.len]; omega)]
      rfl

/-- What the leaves from address `i` on hold, in the order of the iterator. -/
def rest (t : Tree K V N M) (i : Nat) : List (K × V) := (t.leaves.drop i).flatMap (fun l => l.posList 0 M)

/-- The iterator stands before the entries `ys`. -/
def IterAt (t : Tree K V N M) : Iter → List (K × V) → Prop
  | (none, p), ys => p = 0 ∧ ys = []
  | (some a, p), ys => ∃ l, t.leaves[a]? = some l ∧ p < M ∧ Bitmap.bit l.bits p = true ∧
      ys = l.posList p (M - p) ++ rest t (a + 1)

theorem LeafOK.seek {l : Leaf K V M} {es : List (Nat × K × V)} (h : LeafOK l es) : ∀ (n p : Nat),
    p + n = M + 1 → l.posList p (M - p) ≠ [] →
    ∃ q, l.seek p n = .ok q ∧ q < M ∧ Bitmap.bit l.bits q = true ∧
      l.posList q (M - q) = l.posList p (M - p) := by
  intro n
  induction n with
  | zero =>
    intro p hp hne
    exact absurd (by rw [show M - p = 0 by omega]; rfl) hne
  | succ n ih =>
    intro p hp hne
    have hpM : p < M := by
      by_contra hh
      exact hne (by rw [show M - p = 0 by omega]; rfl)
    rw [Leaf.seek, Bitmap.test_eq _ hpM, Res.ok_bind]
    by_cases hb : Bitmap.bit l.bits p = true
    · refine ⟨p, ?_, hpM, hb, rfl⟩
      unfold Bitmap.bit at hb
      rw [if_pos hb]; rfl
    · have hstep : l.posList p (M - p) = l.posList (p + 1) (M - (p + 1)) := by
        rw [show M - p = M - (p + 1) + 1 by omega, Leaf.posList_succ, if_neg hb]; rfl
      obtain ⟨q, e, h1, h2, h3⟩ := ih (p + 1) (by omega) (by rw [← hstep]; exact hne)
      refine ⟨q, ?_, h1, h2, by rw [h3, hstep]⟩
      unfold Bitmap.bit at hb
      rw [if_neg hb]; exact e

theorem Chain.pos_ne {t : Tree K V N M} {ess : List (List (Nat × K × V))} (h : Chain t ess)
    (hne : ∀ es ∈ ess, es ≠ []) {i : Nat} {l : Leaf K V M} (hl : t.leaves[i]? = some l) :
    ∃ es, LeafOK l es ∧ i < ess.length ∧ l.posList 0 M ≠ [] := by
  have hi : i < ess.length := by rw [← h.len]; exact (List.getElem?_eq_some_iff.1 hl).1
  obtain ⟨l', hl', hok⟩ := h.leaf i hi
  rw [hl] at hl'
  injection hl' with hl'
  subst hl'
  refine ⟨_, hok, hi, fun hh => ?_⟩
  have := hok.posList_perm
  rw [hh] at this
  exact hne _ (List.getElem_mem hi) (by simpa using this.symm.eq_nil)

theorem rest_eq {t : Tree K V N M} {i : Nat} {l : Leaf K V M} (hl : t.leaves[i]? = some l) :
    rest t i = l.posList 0 M ++ rest t (i + 1) := by
  obtain ⟨hi, hli⟩ := List.getElem?_eq_some_iff.1 hl
  unfold rest
  rw [List.drop_eq_getElem_cons hi, List.flatMap_cons, hli]

theorem Chain.incr {t : Tree K V N M} {ess : List (List (Nat × K × V))} (h : Chain t ess)
    (hne : ∀ es ∈ ess, es ≠ []) {a : Nat} {l : Leaf K V M} (hl : t.leaves[a]? = some l) : ∀ (n p : Nat),
    p < M → M ≤ p + n →
    ∃ it, incr t n a p = .ok it ∧ IterAt t it (l.posList (p + 1) (M - (p + 1)) ++ rest t (a + 1)) := by
  intro n
  induction n with
  | zero => intro p h1 h2; omega
  | succ n ih =>
    intro p hp hn
    obtain ⟨es, hok, ha, _⟩ := h.pos_ne hne hl
    rw [WBTree.incr]
    by_cases hc : p ≥ M - 1
    · rw [if_pos hc, h.next a ha, show M - (p + 1) = 0 by omega]
      by_cases hc2 : a + 1 < ess.length
      · rw [if_pos hc2]
        obtain ⟨l', hl', hok'⟩ := h.leaf (a + 1) hc2
        obtain ⟨_, _, _, hpn⟩ := h.pos_ne hne hl'
        obtain ⟨q, e, h1, h2, h3⟩ := hok'.seek (M + 1) 0 (by omega) (by simpa using hpn)
        refine ⟨(some (a + 1), q), ?_, l', hl', h1, h2, ?_⟩
        · dsimp only
          rw [Tree.leaf, hl', Res.ofOption_some, Res.ok_bind, e, Res.ok_bind]
          rfl
        · rw [h3, rest_eq hl']
          rfl
      · rw [if_neg hc2]
        refine ⟨(none, 0), rfl, rfl, ?_⟩
        unfold rest
        rw [List.drop_of_length_le (by rw [h.len]; omega)]
        rfl
    · rw [if_neg hc, Tree.leaf, hl, Res.ofOption_some, Res.ok_bind, Bitmap.test_eq _ (by omega : p + 1 < M),
        Res.ok_bind]
      by_cases hb : Bitmap.bit l.bits (p + 1) = true
      · refine ⟨(some a, p + 1), ?_, l, hl, by omega, hb, rfl⟩
        unfold Bitmap.bit at hb
        rw [if_pos hb]; rfl
      · obtain ⟨it, e, h1⟩ := ih (p + 1) (by omega) (by omega)
        refine ⟨it, ?_, ?_⟩
        · unfold Bitmap.bit at hb
          rw [if_neg hb]; exact e
        · rw [show M - (p + 1) = M - (p + 1 + 1) + 1 by omega, Leaf.posList_succ, if_neg hb]
          exact h1

theorem Chain.iterLoop {t : Tree K V N M} {ess : List (List (Nat × K × V))} (h : Chain t ess)
    (hne : ∀ es ∈ ess, es ≠ []) : ∀ (n : Nat) (it : Iter) (ys : List (K × V)), IterAt t it ys →
    ys.length ≤ n → iterLoop t n it = .ok ys := by
  have step : ∀ (a p : Nat) (ys : List (K × V)), IterAt t (some a, p) ys →
      ∃ l k v it ys', ys = (k, v) :: ys' ∧ t.leaves[a]? = some l ∧ l.keys.rd M p = .ok k ∧
        l.vals.rd M p = .ok v ∧ WBTree.incr t M a p = .ok it ∧ IterAt t it ys' := by
    rintro a p ys ⟨l, hl, hp, hb, rfl⟩
    obtain ⟨es, hok, ha, _⟩ := h.pos_ne hne hl
    obtain ⟨it, e, hit⟩ := h.incr hne hl M p hp (by omega)
    obtain ⟨e0, he0, rfl⟩ := hok.used hp hb
    refine ⟨l, e0.2.1, e0.2.2, it, _, ?_, hl, hok.key he0, hok.val he0, e, hit⟩
    rw [show M - e0.1 = M - (e0.1 + 1) + 1 by omega, Leaf.posList_succ, if_pos hb, hok.at he0]
    rfl
  intro n
  induction n with
  | zero =>
    rintro ⟨_ | a, p⟩ ys hit hn
    · rw [WBTree.iterLoop.eq_def]
      dsimp only
      rw [hit.2]
    · obtain ⟨l, k, v, it, ys', rfl, _⟩ := step a p ys hit
      simp at hn
  | succ n ih =>
    rintro ⟨_ | a, p⟩ ys hit hn
    · rw [WBTree.iterLoop.eq_def]
      dsimp only
      rw [hit.2]
    · obtain ⟨l, k, v, it, ys', rfl, hl, h1, h2, h3, h4⟩ := step a p ys hit
      rw [WBTree.iterLoop, Tree.leaf, hl, Res.ofOption_some, Res.ok_bind, h1, Res.ok_bind, h2, Res.ok_bind, h3,
        Res.ok_bind, ih it ys' h4 (by simpa using hn), Res.ok_bind]
      rfl

theorem flatMap_length_le {α β : Type} (f : α → List β) (m : Nat) : ∀ (l : List α),
    (∀ x ∈ l, (f x).length ≤ m) → (l.flatMap f).length ≤ l.length * m := by
  intro l
  induction l with
  | nil => intro _; simp
  | cons x l ih =>
    intro h
    rw [List.flatMap_cons, List.length_append, List.length_cons, Nat.succ_mul]
    have := h x (by simp)
    have := ih (fun y hy => h y (by simp [hy]))
    omega

theorem Chain.forall₂ {t : Tree K V N M} {ess : List (List (Nat × K × V))} (h : Chain t ess) :
    List.Forall₂ LeafOK t.leaves ess := by
  rw [List.forall₂_iff_get]
  refine ⟨h.len, fun i h1 h2 => ?_⟩
  obtain ⟨l, hl, hok⟩ := h.leaf i h2
  obtain ⟨_, hli⟩ := List.getElem?_eq_some_iff.1 hl
  rw [List.get_eq_getElem, hli]
  exact hok

/-- The entries of a leaf as the slot array lists them. -/
def Leaf.slotList (l : Leaf K V M) : List (K × V) := match l.scanSlots with | .ok ys => ys | _ => []

theorem LeafOK.slotList {l : Leaf K V M} {es : List (Nat × K × V)} (h : LeafOK l es) :
    l.slotList = es.map (·.2) := by
  unfold Leaf.slotList
  rw [h.scanSlots]

theorem Chain.slots_flat {t : Tree K V N M} {ess : List (List (Nat × K × V))} (h : Chain t ess) :
    t.leaves.flatMap Leaf.slotList = ess.flatten.map (·.2) := by
  have := h.forall₂
  clear h
  generalize t.leaves = ls at this
  induction this with
  | nil => rfl
  | cons h1 _ ih => rw [List.flatMap_cons, List.flatten_cons, List.map_append, h1.slotList, ih]

theorem Chain.pos_flat {t : Tree K V N M} {ess : List (List (Nat × K × V))} (h : Chain t ess) :
    (t.leaves.flatMap (fun l => l.posList 0 M)).Perm (ess.flatten.map (·.2)) := by
  have := h.forall₂
  clear h
  generalize t.leaves = ls at this
  induction this with
  | nil => exact List.Perm.refl _
  | cons h1 _ ih =>
    rw [List.flatMap_cons, List.flatten_cons, List.map_append]
    exact h1.posList_perm.append ih

/-- The scans of a tree whose leaves are linked in address order and whose `children[0]` lead to leaf `0`. -/
theorem Chain.scans {t : Tree K V N M} {ess : List (List (Nat × K × V))} (h : Chain t ess) (h0 : ess ≠ [])
    (hl : leftmost t t.depth t.root = .ok 0) :
    scan t = .ok (ess.flatten.map (·.2)) ∧ (∃ ys, scanH t = .ok ys ∧ ys.Perm (ess.flatten.map (·.2))) ∧
    ((∀ es ∈ ess, es ≠ []) → ∃ ys, iterate t = .ok ys ∧ ys.Perm (ess.flatten.map (·.2))) := by
  have hpos : 0 < ess.length := List.length_pos_iff.2 h0
  refine ⟨?_, ⟨_, ?_, h.pos_flat⟩, fun hne => ⟨_, ?_, h.pos_flat⟩⟩
  · unfold scan
    rw [hl, Res.ok_bind, h.walk Leaf.scanSlots Leaf.slotList (fun l es hk => by
      rw [hk.scanSlots, hk.slotList]) _ 0 hpos (by rw [h.len]; omega), List.drop_zero, h.slots_flat]
  · unfold scanH
    rw [hl, Res.ok_bind, h.walk Leaf.scanBits (fun l => l.posList 0 M) (fun l es hk => hk.scanBits) _ 0 hpos
      (by rw [h.len]; omega), List.drop_zero]
  · obtain ⟨l, hl0, hok⟩ := h.leaf 0 hpos
    obtain ⟨_, _, _, hpn⟩ := h.pos_ne hne hl0
    obtain ⟨q, e, h1, h2, h3⟩ := hok.seek (M + 1) 0 (by omega) (by simpa using hpn)
    have hr : l.posList q (M - q) ++ rest t 1 = t.leaves.flatMap (fun l => l.posList 0 M) := by
      rw [h3]
      have := rest_eq hl0
      unfold rest at this
      rw [List.drop_zero] at this
      exact this.symm
    unfold iterate begin
    rw [hl, Res.ok_bind, Tree.leaf, hl0, Res.ofOption_some, Res.ok_bind, e, Res.ok_bind, Res.pure_eq, Res.ok_bind,
      h.iterLoop hne _ (some 0, q) _ ⟨l, hl0, h1, h2, rfl⟩ ?_, hr]
    rw [hr]
    refine flatMap_length_le _ M _ (fun l hl => ?_)
    unfold Leaf.posList
    refine le_trans (List.length_filterMap_le _ _) (le_trans (List.length_filter_le _ _) ?_)
    rw [List.length_range']

/-- C86: after inserts of distinct keys `scan` calls the function once for every entry (in `wBPTree` in key
order), and the loop from `begin()` to `end()` visits every entry once. -/
def C86_statement (N M : Nat) (junk : Option Nat) : Prop :=
  ∀ xs : List (Nat × Nat), (xs.map Prod.fst).Nodup →
    ∃ t, insertAll junk xs (empty N M junk : Tree Nat Nat N M) = .ok t ∧
      (∃ ys, scan t = .ok ys ∧ ys.Perm xs ∧ (ys.map Prod.fst).Pairwise (· < ·)) ∧
      (∃ ys, scanH t = .ok ys ∧ ys.Perm xs) ∧ ∃ ys, iterate t = .ok ys ∧ ys.Perm xs

/-- C86, the part that holds, for trees of any size: when the keys arrive in ascending order `scan` lists
the entries in this order, the scan of `wHBPTree` and the iterator list each of them once (the iterator
if there is an entry at all).  Missing: other orders, where the claim is false (`C86_refuted`). -/
theorem C86_ascending_partial (hN : 1 < N) (hM : 1 < M) (junk : Option Nat) (xs : List (K × V))
    (h : (xs.map Prod.fst).Pairwise (· < ·)) :
    ∃ t, insertAll junk xs (empty N M junk : Tree K V N M) = .ok t ∧ scan t = .ok xs ∧
      (∃ ys, scanH t = .ok ys ∧ ys.Perm xs) ∧ (xs ≠ [] → ∃ ys, iterate t = .ok ys ∧ ys.Perm xs) := by
  obtain ⟨t, e, ess, as, hch, hne, hx, hnn, hlen, hsp, hleft⟩ := AscTree.insertAll junk hM hN xs
    (empty N M junk) [] (ascTree_empty junk) (by simpa using h)
  rw [List.nil_append] at hx hnn
  obtain ⟨h1, h2, h3⟩ := hch.scans hne (leftmost_ok _ _ hleft)
  rw [hx] at h1 h2 h3
  exact ⟨t, e, h1, h2, fun h0 => h3 (hnn h0)⟩

/-- C86, the part that holds for keys in any order, also repeated ones: as long as no leaf is split `scan`
lists the last value of every key, in key order; the other two list the same entries. -/
theorem C86_leaf_partial (junk : Option Nat) (xs : List (K × V))
    (h : (xs.map Prod.fst).toFinset.card ≤ M) :
    ∃ t ys, insertAll junk xs (empty N M junk : Tree K V N M) = .ok t ∧ scan t = .ok ys ∧
      (ys.map Prod.fst).Pairwise (· < ·) ∧ (∀ k v, (k, v) ∈ ys ↔ last xs k = some v) ∧
      (∃ zs, scanH t = .ok zs ∧ zs.Perm ys) ∧ (xs ≠ [] → ∃ zs, iterate t = .ok zs ∧ zs.Perm ys) := by
  obtain ⟨l, es, e, hl, hv, hks⟩ := insertAll_leaf (N := N) junk xs (Leaf.fresh M junk) [] (leafOK_fresh junk)
    (by simpa [keysOf] using h)
  have hch : Chain (⟨[l], [], 0, 0, fun _ => none⟩ : Tree K V N M) [es] := by
    refine ⟨rfl, ?_, ?_, ?_⟩
    · intro i hi
      simp at hi
      subst hi
      exact ⟨l, rfl, hl⟩
    · intro i hi
      simp at hi
      subst hi
      rfl
    · intro i hi hi'
      simp at hi'
  obtain ⟨h1, h2, h3⟩ := hch.scans (by simp) rfl
  simp only [List.flatten_cons, List.flatten_nil, List.append_nil] at h1 h2 h3
  refine ⟨_, _, e, h1, ?_, ?_, h2, ?_⟩
  · rw [List.map_map, List.pairwise_map]
    exact hl.sorted
  · intro k v
    have hkv : last xs k = valOf es k := (hv k).symm
    rw [hkv]
    unfold valOf
    constructor
    · intro hm
      obtain ⟨e0, he0, h4⟩ := List.mem_map.1 hm
      obtain ⟨a, b, rfl⟩ := List.append_of_mem he0
      have hs := hl.sorted
      rw [List.pairwise_append] at hs
      have h5 := valOf_insert (b := b) (u := e0.1) (v := e0.2.2) (k := e0.2.1)
        (fun x hx => hs.2.2 x hx e0 (by simp)) e0.2.1
      rw [if_pos rfl] at h5
      unfold valOf at h5
      rw [show k = e0.2.1 by rw [h4], show v = e0.2.2 by rw [h4]]
      exact h5
    · intro hm
      rw [Option.map_eq_some_iff] at hm
      obtain ⟨e0, h4, h5⟩ := hm
      have h6 := List.find?_some h4
      simp only [decide_eq_true_eq] at h6
      exact List.mem_map.2 ⟨e0, List.mem_of_find?_eq_some h4, by rw [← h6, ← h5]⟩
  · intro hx
    refine h3 ?_
    intro es' hes'
    rw [List.mem_singleton.1 hes']
    rintro rfl
    rcases xs with _ | ⟨x, xs⟩
    · exact hx rfl
    · have : x.1 ∈ keysOf ([] : List (Nat × K × V)) := by
        rw [hks]; simp
      simp [keysOf] at this

omit [LinearOrder K] in
/-- `begin()` of an empty tree throws. -/
theorem C86_empty (junk : Option Nat) : iterate (empty N M junk : Tree K V N M) = .throws := by
  have : ∀ n p, (Leaf.fresh M junk : Leaf K V M).seek p n = .throws := by
    intro n
    induction n with
    | zero => intro p; rfl
    | succ n ih =>
      intro p
      rw [Leaf.seek]
      by_cases hp : p < M
      · rw [Bitmap.test_eq _ hp, Res.ok_bind]
        have := bit_fresh (M := M) p
        unfold Bitmap.bit at this
        rw [show (Leaf.fresh M junk : Leaf K V M).bits = Bitmap.fresh M from rfl, this]
        exact ih (p + 1)
      · rw [Bitmap.test_throws _ (by omega)]
        rfl
  unfold iterate begin
  rw [show leftmost (empty N M junk : Tree K V N M) (empty N M junk : Tree K V N M).depth
    (empty N M junk : Tree K V N M).root = .ok 0 from rfl, Res.ok_bind]
  show ((Res.ok (Leaf.fresh M junk : Leaf K V M) >>= _) >>= _) = _
  rw [Res.ok_bind, this]
  rfl

set_option maxRecDepth 100000 in
/-- Descending keys: after the second split of the first leaf `children[0]` of the root is not the first
child any more, and the scans miss the three smallest keys.  A key in the middle: the split leaves keys
of the leaf above the separator, and the scan is not sorted. -/
theorem C86_missed :
    (insertAll none ([9, 8, 7, 6, 5, 4, 3].map fun k => (k, k)) (empty 4 4 none : Tree Nat Nat 4 4) >>= scan) =
      .ok [(6, 6), (7, 7), (8, 8), (9, 9)] ∧
    (insertAll none ([9, 8, 7, 6, 5, 4, 3].map fun k => (k, k)) (empty 4 4 none : Tree Nat Nat 4 4) >>=
      iterate) = .ok [(6, 6), (7, 7), (8, 8), (9, 9)] ∧
    (insertAll none ([2, 5, 6, 7, 3].map fun k => (k, k)) (empty 4 4 none : Tree Nat Nat 4 4) >>= scan) =
      .ok [(2, 2), (5, 5), (3, 3), (6, 6), (7, 7)] := by
  decide +kernel

/-- C86 is false. -/
theorem C86_refuted : ¬ C86_statement 4 4 none := by
  intro h
  obtain ⟨t, e, ⟨ys, h1, h2, _⟩, _⟩ := h ([9, 8, 7, 6, 5, 4, 3].map fun k => (k, k)) (by decide)
  have h3 := C86_missed.1
  rw [e, Res.ok_bind, h1] at h3
  injection h3 with h3
  rw [h3] at h2
  have := h2.length_eq
  simp at this

/-- Non-triviality: twelve ascending keys make a tree with several leaves below one branch node; the
scan of a leaf filled in another order is sorted, the iterator follows the array positions. -/
example :
    (insertAll none ((List.range 12).map fun k => (k, k + 1)) (empty 4 4 none : Tree Nat Nat 4 4) >>=
      fun t => pure (t.leaves.length, t.depth)) = .ok (5, 1) ∧
    (insertAll none [(7, 1), (3, 2), (9, 3), (3, 4)] (empty 4 4 none : Tree Nat Nat 4 4) >>= scan) =
      .ok [(3, 4), (7, 1), (9, 3)] ∧
    (insertAll none [(7, 1), (3, 2), (9, 3), (3, 4)] (empty 4 4 none : Tree Nat Nat 4 4) >>= iterate) =
      .ok [(7, 1), (3, 4), (9, 3)] := by
  decide +kernel

end Verif.WBTree
