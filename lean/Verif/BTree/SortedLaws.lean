import Verif.BTree.SortedLeaf
import Verif.BTree.Erase
import Verif.Search.BinSearch

/-!
# The sorted leaf layout satisfies the leaf laws
-/

set_option linter.unusedSectionVars false
set_option linter.unusedSimpArgs false

namespace Verif.BTree

open Verif Assoc Search
open Verif.Slots hiding none

variable {K V : Type} [LinearOrder K]

/-- What the proofs need to know about the parameters. -/
structure CfgLaws (c : SCfg K V) : Prop where
  hM : 2 ≤ c.M
  bsearch : ∀ (a : Slots K) (k1 k2 : List K) (k : K), Rep a (k1 ++ k2) →
    (k1 ++ k2).length ≤ c.N → (k1 ++ k2).Pairwise (· < ·) → (∀ x ∈ k1, x ≤ k) → (∀ x ∈ k2, k < x) →
    c.bsearch (fun i => rd c.N a i) (k1 ++ k2).length k = .ok k1.length
  lsearch : ∀ (a : Slots K) (k1 k2 : List K) (k : K), Rep a (k1 ++ k2) →
    (k1 ++ k2).length ≤ c.M → (k1 ++ k2).Pairwise (· < ·) → (∀ x ∈ k1, x < k) → (∀ x ∈ k2, k ≤ x) →
    c.lsearch (fun i => rd c.M a i) (k1 ++ k2).length k = .ok k1.length
  range : ∀ (rk : Nat → Res K) (rv : Nat → Res V) (es : List (K × V)) (lo hi : K), Sorted es →
    (∀ i (h : i < es.length), rk i = .ok es[i].1 ∧ rv i = .ok es[i].2) →
    ∃ stop, c.range rk rv es.length lo hi = .ok (es.filter (fun e => lo ≤ e.1 ∧ e.1 ≤ hi), stop) ∧
      (stop = true → ∃ e ∈ es, hi < e.1)

/-- The leaf `l` stores the list `es`. -/
structure LRep (M : Nat) (l : SLeaf K V) (es : List (K × V)) : Prop where
  num : l.num = es.length
  cap : es.length ≤ M
  keys : Rep l.keys (es.map (·.1))
  vals : Rep l.vals (es.map (·.2))
  sorted : Sorted es

namespace SLeaf

/-- The entries of a leaf. -/
def abs (l : SLeaf K V) : List (K × V) :=
  (List.range l.num).filterMap (fun i => (l.keys i).bind fun k => (l.vals i).map fun v => (k, v))

end SLeaf

theorem filterMap_range_eq {α : Type} {f : Nat → Option α} {es : List α}
    (h : ∀ i, i < es.length → f i = es[i]?) : (List.range es.length).filterMap f = es :=
  filterMap_range_rep h

theorem LRep.abs {M : Nat} {l : SLeaf K V} {es : List (K × V)} (h : LRep M l es) : l.abs = es := by
  unfold SLeaf.abs
  rw [h.num]
  apply filterMap_range_eq
  intro i hi
  rw [h.keys i (by simpa using hi), h.vals i (by simpa using hi)]
  simp [List.getElem?_eq_getElem hi]

variable {c : SCfg K V}

/-- Split of a sorted list at a key. -/
theorem sorted_cut (k : K) : ∀ {es : List (K × V)}, Sorted es →
    ∃ a b, es = a ++ b ∧ (∀ e ∈ a, e.1 < k) ∧ (∀ e ∈ b, k ≤ e.1)
  | [], _ => ⟨[], [], rfl, by simp, by simp⟩
  | x :: es, h => by
    rw [Sorted, List.pairwise_cons] at h
    by_cases ha : x.1 < k
    · obtain ⟨a, b, e, h1, h2⟩ := sorted_cut k h.2
      refine ⟨x :: a, b, by rw [e]; rfl, fun y hy => ?_, h2⟩
      rcases List.mem_cons.1 hy with hy | hy
      · rw [hy]; exact ha
      · exact h1 y hy
    · refine ⟨[], x :: es, rfl, by simp, fun y hy => ?_⟩
      rcases List.mem_cons.1 hy with hy | hy
      · rw [hy]; exact not_lt.1 ha
      · exact le_trans (not_lt.1 ha) (h.1 y hy).le

theorem pos_ok (C : CfgLaws c) {l : SLeaf K V} {a b : List (K × V)} (h : LRep c.M l (a ++ b)) {k : K}
    (h1 : ∀ e ∈ a, e.1 < k) (h2 : ∀ e ∈ b, k ≤ e.1) : l.pos c k = .ok a.length := by
  unfold SLeaf.pos
  have hk := h.keys
  rw [List.map_append] at hk
  have := C.lsearch l.keys (a.map (·.1)) (b.map (·.1)) k hk (by simpa using h.cap)
    (by
      have := h.sorted
      rw [← List.map_append, List.pairwise_map]; exact this)
    (by simpa using fun x y hxy => h1 (x, y) hxy) (by simpa using fun x y hxy => h2 (x, y) hxy)
  simp only [List.length_append, List.length_map] at this
  rw [h.num, List.length_append, this]

theorem LRep.rdKey {M : Nat} {l : SLeaf K V} {a b : List (K × V)} {e : K × V}
    (h : LRep M l (a ++ e :: b)) : rd M l.keys a.length = .ok e.1 := by
  have hk := h.keys
  have hc := h.cap
  simp only [List.map_append, List.map_cons, List.length_append, List.length_cons] at hk hc
  have := rd_mid (cap := M) hk (by simp; omega)
  simpa using this

theorem LRep.rdVal {M : Nat} {l : SLeaf K V} {a b : List (K × V)} {e : K × V}
    (h : LRep M l (a ++ e :: b)) : rd M l.vals a.length = .ok e.2 := by
  have hk := h.vals
  have hc := h.cap
  simp only [List.map_append, List.map_cons, List.length_append, List.length_cons] at hk hc
  have := rd_mid (cap := M) hk (by simp; omega)
  simpa using this

theorem lookup_ok (C : CfgLaws c) {l : SLeaf K V} {es : List (K × V)} (h : LRep c.M l es) (k : K) :
    l.lookup c k = .ok (find k es) := by
  obtain ⟨a, b, rfl, h1, h2⟩ := sorted_cut k h.sorted
  unfold SLeaf.lookup
  rw [pos_ok C h h1 h2, Res.ok_bind]
  have hnum := h.num
  rw [find_append_right (fun e he => (h1 e he).ne)]
  cases b with
  | nil => rw [if_neg (by simp at hnum; omega)]; rfl
  | cons e b =>
    rw [if_pos (by simp at hnum; omega), h.rdKey, Res.ok_bind, find_cons]
    by_cases hek : e.1 = k
    · rw [if_pos hek, if_pos hek, h.rdVal]; rfl
    · rw [if_neg hek, if_neg hek]
      have hs := h.sorted
      rw [sorted_append, Sorted, Sorted, List.pairwise_cons] at hs
      rw [find_eq_none.2]; rfl
      intro y hy hyk
      have h3 := hs.2.1.1 y hy
      have h4 := h2 e (by simp)
      rw [hyk] at h3
      exact absurd h3 (not_lt.2 h4)

theorem insertAt_ok {M : Nat} (hc : c.M = M) {l : SLeaf K V} {a b : List (K × V)} (h : LRep M l (a ++ b))
    {k : K} (v : V) (h1 : ∀ e ∈ a, e.1 < k) (h2 : ∀ e ∈ b, k < e.1) (hlt : a.length + b.length < M) :
    ∃ l', l.insertAt c a.length k v = .ok l' ∧ LRep M l' (a ++ (k, v) :: b) := by
  subst hc
  have hnum := h.num
  rw [List.length_append] at hnum
  unfold SLeaf.insertAt
  rw [Res.assert_pos (by omega), Res.ok_bind, Res.assert_pos (by omega), Res.ok_bind,
    Res.assert_pos (by omega), Res.ok_bind]
  have hk := h.keys
  have hv := h.vals
  rw [List.map_append] at hk hv
  obtain ⟨keys, ek, hk'⟩ := insert_rep (cap := c.M) k hk (by simpa using hlt)
  obtain ⟨vals, ev, hv'⟩ := insert_rep (cap := c.M) v hv (by simpa using hlt)
  simp only [List.length_map] at ek ev
  rw [← hnum] at ek ev
  obtain ⟨k1, e1, e2⟩ := Res.bind_eq_ok.1 ek
  obtain ⟨v1, e3, e4⟩ := Res.bind_eq_ok.1 ev
  rw [e1, Res.ok_bind, e3, Res.ok_bind, e2, Res.ok_bind, e4, Res.ok_bind]
  refine ⟨_, rfl, ⟨by simp; omega, by simp; omega, by simpa using hk', by simpa using hv', ?_⟩⟩
  have hs := h.sorted
  rw [sorted_append] at hs ⊢
  refine ⟨hs.1, ?_, ?_⟩
  · rw [Sorted, List.pairwise_cons]; exact ⟨h2, hs.2.1⟩
  · intro x hx y hy
    rcases List.mem_cons.1 hy with hy | hy
    · rw [hy]; exact h1 x hx
    · exact hs.2.2 x hx y hy

theorem split_ok {l : SLeaf K V} {a b : List (K × V)} (h : LRep c.M l (a ++ b))
    (ha : a.length = (c.M + 1) / 2) :
    ∃ s, l.split c = .ok s ∧ LRep c.M s.1 a ∧ LRep c.M s.2 b := by
  have hnum := h.num
  have hcap := h.cap
  rw [List.length_append] at hnum hcap
  unfold SLeaf.split
  have hk := h.keys
  have hv := h.vals
  rw [List.map_append] at hk hv
  obtain ⟨keys, ek, hk'⟩ := copy_rep (cap := c.M) (z := []) (by simpa using hk) (Rep.nil (Slots.none : Slots K))
    (by simp; omega) (by simp; omega)
  obtain ⟨vals, ev, hv'⟩ := copy_rep (cap := c.M) (z := []) (by simpa using hv) (Rep.nil (Slots.none : Slots V))
    (by simp; omega) (by simp; omega)
  simp only [List.length_map, List.length_nil] at ek ev
  have e1 : l.num - (c.M + 1) / 2 = b.length := by omega
  have hs := h.sorted
  rw [sorted_append] at hs
  dsimp only
  rw [e1, ← ha, ek, Res.ok_bind, ev, Res.ok_bind]
  refine ⟨_, rfl, ⟨rfl, by omega, hk.prefix, hv.prefix, hs.1⟩, ⟨rfl, by omega, by simpa using hk', by simpa using hv', hs.2.1⟩⟩

theorem cons_of_le {k : K} {b : List (K × V)} (hs : Sorted b) (h2 : ∀ e ∈ b, k ≤ e.1) :
    (∃ v b', b = (k, v) :: b') ∨ (∀ e ∈ b, k < e.1) := by
  cases b with
  | nil => right; simp
  | cons x b =>
    rw [Sorted, List.pairwise_cons] at hs
    by_cases hx : x.1 = k
    · left; exact ⟨x.2, b, by rw [← hx]⟩
    · right
      have h3 : k < x.1 := lt_of_le_of_ne (h2 x (by simp)) (Ne.symm hx)
      intro e he
      rcases List.mem_cons.1 he with he | he
      · rw [he]; exact h3
      · exact lt_trans h3 (hs.1 e he)

theorem insert_ok (C : CfgLaws c) {l : SLeaf K V} {es : List (K × V)} (h : LRep c.M l es) (k : K) (v : V) :
    (∃ l', l.insert c k v = .ok (.done l') ∧ LRep c.M l' (upsert k v es)) ∨
    (∃ x y s ex ey, l.insert c k v = .ok (.split x y s) ∧ LRep c.M x ex ∧ LRep c.M y ey ∧
      ex ++ ey = upsert k v es ∧ (∀ e ∈ ex, e.1 < s) ∧ (∀ e ∈ ey, s ≤ e.1) ∧
      c.M / 2 ≤ ex.length ∧ c.M / 2 ≤ ey.length) := by
  obtain ⟨a, b, rfl, h1, h2⟩ := sorted_cut k h.sorted
  have hnum := h.num
  have hcap := h.cap
  have hs := h.sorted
  have hM := C.hM
  rw [List.length_append] at hnum hcap
  unfold SLeaf.insert
  rw [pos_ok C h h1 h2, Res.ok_bind]
  rcases cons_of_le (sorted_append.1 hs).2.1 h2 with ⟨w, b, rfl⟩ | h2'
  · left
    rw [if_pos (by simp at hnum; omega), h.rdKey, Res.ok_bind, Res.pure_eq, Res.ok_bind]
    simp only [decide_true, if_true]
    simp only [List.length_cons] at hnum hcap
    rw [wr_ok _ _ (by omega), Res.ok_bind]
    refine ⟨_, rfl, ?_⟩
    rw [upsert_of_split hs]
    refine ⟨by simp; omega, by simp; omega, by simpa using h.keys, ?_, ?_⟩
    · have hv := h.vals
      rw [List.map_append, List.map_cons] at hv
      have := hv.wr_set v
      simpa using this
    · rw [← upsert_of_split (w := v) hs]; exact upsert_sorted hs
  · have hdup : (if a.length < l.num then do
        let x ← rd c.M l.keys a.length
        pure (decide (x = k))
      else pure false : Res Bool) = .ok false := by
      cases b with
      | nil => rw [if_neg (by simp at hnum; omega)]; rfl
      | cons e b =>
        rw [if_pos (by simp at hnum; omega), h.rdKey, Res.ok_bind]
        have : e.1 ≠ k := (h2' e (by simp)).ne'
        simp [this]
    rw [hdup, Res.ok_bind]
    simp only [Bool.false_eq_true, if_false]
    rw [upsert_between h1 h2']
    by_cases hfull : l.num = c.M
    · right
      rw [if_pos hfull]
      by_cases hp : a.length < (c.M + 1) / 2
      · -- into the left half
        obtain ⟨b1, b2, rfl, hb1⟩ := exists_split_at' (l := b) (i := (c.M + 1) / 2 - a.length) (by omega)
        obtain ⟨s, es, hx, hy⟩ := split_ok (a := a ++ b1) (b := b2) (by simpa using h) (by simp; omega)
        rw [List.length_append] at hnum hcap
        obtain ⟨x', ei, hx'⟩ := insertAt_ok rfl hx v h1 (fun e he => h2' e (by simp [he])) (by omega)
        obtain ⟨y0, b2', rfl⟩ : ∃ y0 b2', b2 = y0 :: b2' := by
          cases b2 with
          | nil => simp at hnum; omega
          | cons p q => exact ⟨p, q, rfl⟩
        have hrk := hy.rdKey (a := []) (e := y0)
        simp only [List.length_nil] at hrk
        rw [es, Res.ok_bind, if_pos hp, ei, Res.ok_bind, hrk, Res.ok_bind]
        refine ⟨x', s.2, y0.1, a ++ (k, v) :: b1, y0 :: b2', rfl, hx', hy, by simp, ?_, ?_, by simp; omega,
          by simp at hnum ⊢; omega⟩
        · intro e he
          rcases List.mem_append.1 he with he | he
          · exact (sorted_append.1 hs).2.2 e he y0 (by simp)
          · rcases List.mem_cons.1 he with he | he
            · rw [he]; exact h2' y0 (by simp)
            · have := (sorted_append.1 (sorted_append.1 hs).2.1).2.2 e he y0 (by simp)
              exact this
        · intro e he
          have := hy.sorted
          rw [Sorted, List.pairwise_cons] at this
          rcases List.mem_cons.1 he with he | he
          · rw [he]
          · exact (this.1 e he).le
      · -- into the right half
        obtain ⟨a1, a2, rfl, ha1⟩ := exists_split_at' (l := a) (i := (c.M + 1) / 2) (by omega)
        obtain ⟨s, es, hx, hy⟩ := split_ok (a := a1) (b := a2 ++ b) (by simpa using h) ha1
        rw [List.length_append] at hnum hcap
        obtain ⟨y', ei, hy'⟩ := insertAt_ok rfl hy v (fun e he => h1 e (by simp [he])) h2' (by omega)
        have e0 : (a1 ++ a2).length - (c.M + 1) / 2 = a2.length := by simp; omega
        obtain ⟨y0, ys, hys⟩ : ∃ y0 ys, a2 ++ (k, v) :: b = y0 :: ys := by
          cases a2 with
          | nil => exact ⟨_, _, rfl⟩
          | cons p q => exact ⟨_, _, rfl⟩
        rw [hys] at hy'
        have hrk := hy'.rdKey (a := []) (e := y0)
        simp only [List.length_nil] at hrk
        rw [es, Res.ok_bind, if_neg hp, e0, ei, Res.ok_bind, hrk, Res.ok_bind]
        have hall : a1 ++ (y0 :: ys) = a1 ++ a2 ++ (k, v) :: b := by rw [← hys]; simp
        have hsall : Sorted (a1 ++ (y0 :: ys)) := by
          rw [hall, ← upsert_between h1 h2']; exact upsert_sorted hs
        have hlen := congrArg List.length hys
        refine ⟨s.1, y', y0.1, a1, y0 :: ys, rfl, hx, hy', hall, ?_, ?_, by omega,
          by simp at hlen ⊢; omega⟩
        · intro e he
          exact (sorted_append.1 hsall).2.2 e he y0 (by simp)
        · intro e he
          have := (sorted_append.1 hsall).2.1
          rw [Sorted, List.pairwise_cons] at this
          rcases List.mem_cons.1 he with he | he
          · rw [he]
          · exact (this.1 e he).le
    · left
      rw [if_neg hfull]
      obtain ⟨l', el, hl'⟩ := insertAt_ok rfl h v h1 h2' (by omega)
      rw [el, Res.ok_bind]
      exact ⟨l', rfl, hl'⟩

theorem LRep.slot0 {M : Nat} {l : SLeaf K V} {es : List (K × V)} (h : LRep M l es) (hne : 1 ≤ es.length) :
    ∃ k0, l.keys 0 = some k0 ∧ ∃ e ∈ es, e.1 = k0 := by
  cases es with
  | nil => simp at hne
  | cons e es =>
    refine ⟨e.1, ?_, e, by simp, rfl⟩
    have := h.keys 0
    simpa using this

theorem erase_ok (C : CfgLaws c) {l : SLeaf K V} {es : List (K × V)} (h : LRep c.M l es) (k : K)
    (hf : ∃ e ∈ es, k ≤ e.1) :
    ∃ l', l.erase c k = .ok ((find k es).isSome, l') ∧ LRep c.M l' (remove k es) ∧
      ∃ k0, l'.keys 0 = some k0 ∧ ∃ e ∈ es, e.1 = k0 := by
  by_cases hfn : find k es = none
  · -- an absent key, with a larger one in the leaf
    obtain ⟨a, b, rfl, h1, h2⟩ := sorted_cut k h.sorted
    cases b with
    | nil =>
      obtain ⟨e, he, hke⟩ := hf
      exact absurd (h1 e (by simpa using he)) (not_lt.2 hke)
    | cons e b =>
      have hek : e.1 ≠ k := find_eq_none.1 hfn e (by simp)
      unfold SLeaf.erase
      rw [pos_ok C h h1 h2, Res.ok_bind, h.rdKey, Res.ok_bind, if_neg hek, hfn, remove_eq_self (find_eq_none.1 hfn)]
      exact ⟨l, rfl, h, h.slot0 (by simp; omega)⟩
  obtain ⟨w, hw⟩ := Option.ne_none_iff_exists'.1 hfn
  rw [hw]
  clear hf
  obtain ⟨a, b, rfl⟩ := List.append_of_mem (find_some_mem hw)
  have hs := h.sorted
  have hnum := h.num
  have hcap := h.cap
  simp only [List.length_append, List.length_cons] at hnum hcap
  have hs' := sorted_append.1 hs
  have hsb := hs'.2.1
  rw [Sorted, List.pairwise_cons] at hsb
  have h1 : ∀ e ∈ a, e.1 < k := fun e he => hs'.2.2 e he (k, w) (by simp)
  have h2 : ∀ e ∈ (k, w) :: b, k ≤ e.1 := by
    intro e he
    rcases List.mem_cons.1 he with he | he
    · rw [he]
    · exact (hsb.1 e he).le
  unfold SLeaf.erase
  rw [pos_ok C h h1 h2, Res.ok_bind, h.rdKey, Res.ok_bind, if_pos rfl, Res.guardUB_pos (by omega), Res.ok_bind]
  have hk := h.keys
  have hv := h.vals
  simp only [List.map_append, List.map_cons] at hk hv
  obtain ⟨keys, ek, hk'⟩ := remove_rep (cap := c.M) (a := l.keys) (l := a.map (·.1)) (g := [k])
    (r := b.map (·.1)) (by simpa using hk) (by simp) (by simp; omega)
  obtain ⟨vals, ev, hv'⟩ := remove_rep (cap := c.M) (a := l.vals) (l := a.map (·.2)) (g := [w])
    (r := b.map (·.2)) (by simpa using hv) (by simp) (by simp; omega)
  simp only [List.length_map, List.length_singleton] at ek ev
  have e1 : l.num - 1 - a.length = b.length := by omega
  rw [e1, ek, Res.ok_bind, ev, Res.ok_bind, remove_of_split hs]
  refine ⟨_, rfl, ⟨by simp; omega, by simp; omega, by simpa using hk', by simpa using hv', ?_⟩, ?_⟩
  · rw [← remove_of_split hs]; exact remove_sorted hs
  · -- slot 0
    simp only
    cases hab : a ++ b with
    | nil =>
      obtain ⟨ha, hb⟩ := List.append_eq_nil_iff.1 hab
      subst ha; subst hb
      have : keys = l.keys := by
        simp only [List.length_nil, moveDown] at ek
        injection ek with ek; exact ek.symm
      rw [this]
      refine ⟨k, ?_, (k, w), by simp, rfl⟩
      have := rep_mid (l := []) hk
      simpa using this
    | cons e es =>
      refine ⟨e.1, ?_, e, ?_, rfl⟩
      · have := hk' 0
        rw [← List.map_append, hab] at this
        simpa using this
      · have : e ∈ a ++ b := by rw [hab]; simp
        rcases List.mem_append.1 this with h | h
        · simp [h]
        · simp [h]

theorem merge_ok {x y : SLeaf K V} {ex ey : List (K × V)} (hx : LRep c.M x ex) (hy : LRep c.M y ey)
    (hlt : ∀ a ∈ ex, ∀ b ∈ ey, a.1 < b.1) (hcap : ex.length + ey.length ≤ c.M) :
    ∃ l, SLeaf.merge c x y = .ok l ∧ LRep c.M l (ex ++ ey) := by
  have hnx := hx.num
  have hny := hy.num
  unfold SLeaf.merge
  rw [Res.assert_pos (by omega), Res.ok_bind]
  obtain ⟨keys, ek, hk'⟩ := copy_rep (cap := c.M) (x := []) (z := []) (by simpa using hy.keys) hx.keys
    (by simp; omega) (by simp; omega)
  obtain ⟨vals, ev, hv'⟩ := copy_rep (cap := c.M) (x := []) (z := []) (by simpa using hy.vals) hx.vals
    (by simp; omega) (by simp; omega)
  simp only [List.length_map, List.length_nil] at ek ev
  rw [hnx, hny, ek, Res.ok_bind, ev, Res.ok_bind]
  exact ⟨_, rfl, ⟨by simp, by simpa using hcap, by simpa using hk', by simpa using hv',
    sorted_append.2 ⟨hx.sorted, hy.sorted, hlt⟩⟩⟩

theorem balance_left_ok {d r : SLeaf K V} {ed er : List (K × V)} (hd : LRep c.M d ed) (hr : LRep c.M r er)
    (hlt : er.length < ed.length) {dk rk : K} (hdk : d.keys 0 = some dk) (hrk : r.keys 0 = some rk)
    (hkk : dk < rk) (hs : Sorted (ed ++ er)) :
    ∃ d' r' ed' er', SLeaf.balance c d r = .ok (d', r') ∧ LRep c.M d' ed' ∧ LRep c.M r' er' ∧
      ed' ++ er' = ed ++ er ∧ ed'.length = (ed.length + er.length) / 2 := by
  have hnd := hd.num
  have hnr := hr.num
  have hcd := hd.cap
  unfold SLeaf.balance
  rw [Res.assert_pos (by omega), Res.ok_bind]
  dsimp only
  rw [if_neg (by omega), rd_ok (by omega) hdk, Res.ok_bind, rd_ok (by omega) hrk, Res.ok_bind, if_pos hkk]
  obtain ⟨x, y, rfl, hxl⟩ := exists_split_at' (l := ed) (i := (d.num + r.num) / 2) (by omega)
  rw [List.length_append] at hnd hcd hlt
  have e1 : d.num - (d.num + r.num) / 2 = y.length := by omega
  have hkd := hd.keys
  have hvd := hd.vals
  rw [List.map_append] at hkd hvd
  obtain ⟨keys, ek, hk'⟩ := prepend_rep (cap := c.M) (z := []) (by simpa using hkd) hr.keys
    (by simp; omega) (by simp; omega) (by simp; omega)
  obtain ⟨vals, ev, hv'⟩ := prepend_rep (cap := c.M) (z := []) (by simpa using hvd) hr.vals
    (by simp; omega) (by simp; omega) (by simp; omega)
  simp only [List.length_map] at ek ev
  obtain ⟨k1, ek1, ek2⟩ := Res.bind_eq_ok.1 ek
  obtain ⟨v1, ev1, ev2⟩ := Res.bind_eq_ok.1 ev
  rw [e1, hnr, ek1, Res.ok_bind, ev1, Res.ok_bind, ← hnr, ← hxl, ek2, Res.ok_bind, ev2, Res.ok_bind]
  have hs2 := sorted_append.1 hs
  have hs3 := sorted_append.1 hs2.1
  refine ⟨_, _, x, y ++ er, rfl, ⟨?_, by omega, hkd.prefix, hvd.prefix, hs3.1⟩,
    ⟨by simp; omega, by simp; omega, by simpa using hk', by simpa using hv', ?_⟩, by simp, by simp; omega⟩
  · simp only; omega
  · rw [List.append_assoc, sorted_append] at hs; exact hs.2.1

theorem balance_right_ok {d r : SLeaf K V} {ed er : List (K × V)} (hd : LRep c.M d ed) (hr : LRep c.M r er)
    (hlt : er.length < ed.length) {dk rk : K} (hdk : d.keys 0 = some dk) (hrk : r.keys 0 = some rk)
    (hkk : ¬ dk < rk) (hs : Sorted (er ++ ed)) :
    ∃ d' r' ed' er', SLeaf.balance c d r = .ok (d', r') ∧ LRep c.M d' ed' ∧ LRep c.M r' er' ∧
      er' ++ ed' = er ++ ed ∧ ed'.length = (ed.length + er.length) / 2 := by
  have hnd := hd.num
  have hnr := hr.num
  have hcd := hd.cap
  unfold SLeaf.balance
  rw [Res.assert_pos (by omega), Res.ok_bind]
  dsimp only
  rw [if_neg (by omega), rd_ok (by omega) hdk, Res.ok_bind, rd_ok (by omega) hrk, Res.ok_bind, if_neg hkk]
  obtain ⟨x, y, rfl, hxl⟩ := exists_split_at' (l := ed) (i := d.num - (d.num + r.num) / 2) (by omega)
  rw [List.length_append] at hnd hcd hlt
  have hkd := hd.keys
  have hvd := hd.vals
  rw [List.map_append] at hkd hvd
  obtain ⟨keys, ek, hk'⟩ := copy_rep (cap := c.M) (x := []) (y := x.map (·.1)) (z := y.map (·.1))
    (by simpa using hkd) hr.keys (by simp; omega) (by simp; omega)
  obtain ⟨vals, ev, hv'⟩ := copy_rep (cap := c.M) (x := []) (y := x.map (·.2)) (z := y.map (·.2))
    (by simpa using hvd) hr.vals (by simp; omega) (by simp; omega)
  obtain ⟨dkeys, edk, hdk'⟩ := remove_rep (cap := c.M) (a := d.keys) (l := []) (g := x.map (·.1))
    (r := y.map (·.1)) (by simpa using hkd) (by simp; omega) (by simp; omega)
  obtain ⟨dvals, edv, hdv'⟩ := remove_rep (cap := c.M) (a := d.vals) (l := []) (g := x.map (·.2))
    (r := y.map (·.2)) (by simpa using hvd) (by simp; omega) (by simp; omega)
  simp only [List.length_map, List.length_nil] at ek ev edk edv
  have e2 : d.num - x.length = y.length := by omega
  rw [← hxl, e2, edk, edv, hnr, ek, Res.ok_bind, ev, Res.ok_bind, Res.ok_bind, Res.ok_bind]
  have hs2 := sorted_append.1 hs
  have hs3 := sorted_append.1 hs2.2.1
  refine ⟨_, _, y, er ++ x, rfl, ⟨rfl, by omega, by simpa using hdk', by simpa using hdv', hs3.2.1⟩,
    ⟨by simp, by simp; omega, by simpa using hk', by simpa using hv', ?_⟩, by simp, by simp; omega⟩
  rw [← List.append_assoc, sorted_append] at hs; exact hs.1

/-- The leaf laws for sorted leaves. -/
def sortedLaws (C : CfgLaws c) : Laws (sortedOps c) where
  abs := SLeaf.abs
  ok := fun l => ∃ es, LRep c.M l es
  lmin := c.M / 2
  adm := fun _ => True
  lmin_pos := by have := C.hM; omega
  sorted := fun l ⟨es, h⟩ => by rw [h.abs]; exact h.sorted
  cap := fun l ⟨es, h⟩ => by rw [h.abs]; exact h.cap
  num_eq := fun l ⟨es, h⟩ => by rw [h.abs]; exact h.num
  empty_ok := ⟨[], rfl, Nat.zero_le _, Rep.nil _, Rep.nil _, List.Pairwise.nil⟩
  empty_abs := rfl
  lookup := fun l k ⟨es, h⟩ => by rw [h.abs]; exact lookup_ok C h k
  insert := fun l k v ⟨es, h⟩ _ => by
    rw [h.abs]
    rcases insert_ok C h k v with ⟨l', e, h'⟩ | ⟨x, y, s, ex, ey, e, hx, hy, h1, h2, h3, h4, h5⟩
    · exact Or.inl ⟨l', e, ⟨_, h'⟩, h'.abs⟩
    · refine Or.inr ⟨x, y, s, e, ⟨_, hx⟩, ⟨_, hy⟩, ?_⟩
      rw [hx.abs, hy.abs]
      exact ⟨h1, h2, h3, h4, h5⟩
  search := C.bsearch

/-- The erase laws for sorted leaves. -/
def sortedErase (C : CfgLaws c) : EraseLaws (sortedLaws C) where
  Q := tt
  hint := fun l lo hi => ∃ k0, l.keys 0 = some k0 ∧ InR lo hi k0
  pre := fun l k => ∃ e ∈ l.abs, k ≤ e.1
  erase := fun l k lo hi ⟨es, h⟩ hb _ hf => by
    change ∃ e ∈ l.abs, k ≤ e.1 at hf
    change ∀ e ∈ l.abs, InR lo hi e.1 at hb
    rw [h.abs] at hf hb
    obtain ⟨l', e, h', k0, hk0, x, hx, hxk⟩ := erase_ok C h k hf
    refine ⟨l', ?_, ⟨_, h'⟩, ?_, k0, hk0, ?_⟩
    · change l.erase c k = .ok ((find k l.abs).isSome, l')
      rw [h.abs, e]
    · change l'.abs = remove k l.abs
      rw [h'.abs, h.abs]
    · rw [← hxk]; exact hb x hx
  merge := fun a b ⟨ea, ha⟩ ⟨eb, hb⟩ hlt hcap => by
    change ∀ x ∈ a.abs, ∀ y ∈ b.abs, x.1 < y.1 at hlt
    change a.abs.length + b.abs.length ≤ c.M at hcap
    rw [ha.abs, hb.abs] at hlt hcap
    obtain ⟨l, e, h⟩ := merge_ok ha hb hlt hcap
    refine ⟨l, e, ⟨_, h⟩, ?_⟩
    change l.abs = a.abs ++ b.abs
    rw [h.abs, ha.abs, hb.abs]
  balanceL := fun d r lo m hi ⟨ed, hd⟩ ⟨er, hr⟩ hbd hbr _ hh hlt1 hlt2 => by
    have hlt := lt_trans hlt1 hlt2
    change ∀ e ∈ d.abs, InR lo m e.1 at hbd
    change ∀ e ∈ r.abs, InR m hi e.1 at hbr
    change r.abs.length < d.abs.length at hlt
    rw [hd.abs] at hbd hlt
    rw [hr.abs] at hbr hlt
    obtain ⟨rk, hrk, hrkR⟩ := hh
    obtain ⟨dk, hdk, e, he, rfl⟩ := hd.slot0 (by omega)
    obtain ⟨d', r', ed', er', eb, hd', hr', h1, h2⟩ := balance_left_ok (c := c) hd hr hlt hdk hrk
      (bk_lt.1 (lt_of_lt_of_le (hbd e he).2 hrkR.1))
      (sorted_append.2 ⟨hd.sorted, hr.sorted, fun x hx y hy =>
        bk_lt.1 (lt_of_lt_of_le (hbd x hx).2 (hbr y hy).1)⟩)
    refine ⟨d', r', eb, ⟨_, hd'⟩, ⟨_, hr'⟩, ?_, ?_⟩
    · change d'.abs ++ r'.abs = d.abs ++ r.abs
      rw [hd'.abs, hr'.abs, hd.abs, hr.abs, h1]
    · change d'.abs.length = (d.abs.length + r.abs.length) / 2
      rw [hd'.abs, hd.abs, hr.abs, h2]
  balanceR := fun d r lo m hi ⟨ed, hd⟩ ⟨er, hr⟩ hbd hbr _ hh hlt1 hlt2 => by
    have hlt := lt_trans hlt1 hlt2
    change ∀ e ∈ d.abs, InR m hi e.1 at hbd
    change ∀ e ∈ r.abs, InR lo m e.1 at hbr
    change r.abs.length < d.abs.length at hlt
    rw [hd.abs] at hbd hlt
    rw [hr.abs] at hbr hlt
    obtain ⟨rk, hrk, hrkR⟩ := hh
    obtain ⟨dk, hdk, e, he, rfl⟩ := hd.slot0 (by omega)
    obtain ⟨d', r', ed', er', eb, hd', hr', h1, h2⟩ := balance_right_ok (c := c) hd hr hlt hdk hrk
      (not_lt.2 (bk_lt.1 (lt_of_lt_of_le hrkR.2 (hbd e he).1)).le)
      (sorted_append.2 ⟨hr.sorted, hd.sorted, fun x hx y hy =>
        bk_lt.1 (lt_of_lt_of_le (hbr x hx).2 (hbd y hy).1)⟩)
    refine ⟨d', r', eb, ⟨_, hd'⟩, ⟨_, hr'⟩, ?_, ?_⟩
    · change r'.abs ++ d'.abs = r.abs ++ d.abs
      rw [hd'.abs, hr'.abs, hd.abs, hr.abs, h1]
    · change d'.abs.length = (d.abs.length + r.abs.length) / 2
      rw [hd'.abs, hd.abs, hr.abs, h2]
  minKey := fun l e es ⟨es', h⟩ hl => by
    change l.abs = e :: es at hl
    rw [h.abs] at hl
    subst hl
    exact h.rdKey (a := [])

theorem scanFrom_ok {l : SLeaf K V} : ∀ (b a : List (K × V)), LRep c.M l (a ++ b) →
    l.scanFrom c a.length b.length = .ok b
  | [], _, _ => rfl
  | e :: b, a, h => by
    have := scanFrom_ok b (a ++ [e]) (by simpa using h)
    simp only [List.length_append, List.length_singleton] at this
    rw [List.length_cons, SLeaf.scanFrom, h.rdKey, Res.ok_bind, h.rdVal, Res.ok_bind, this]; rfl

/-- Scans see the entries in order. -/
def sortedScan (C : CfgLaws c) : ScanLaws (sortedLaws C) where
  sc := SLeaf.abs
  scan := fun l ⟨es, h⟩ => by
    change l.scanFrom c 0 l.num = .ok l.abs
    rw [h.abs, h.num]
    exact scanFrom_ok es [] h
  perm := fun l _ => List.Perm.refl _

theorem LRep.rd {M : Nat} {l : SLeaf K V} {es : List (K × V)} (h : LRep M l es) (i : Nat) (hi : i < es.length) :
    rd M l.keys i = .ok es[i].1 ∧ Slots.rd M l.vals i = .ok es[i].2 := by
  have hc := h.cap
  constructor
  · rw [h.keys.rd (by simpa using hi) (by omega)]; simp
  · rw [h.vals.rd (by simpa using hi) (by omega)]; simp

theorem rangeScan_ok (C : CfgLaws c) {l : SLeaf K V} {es : List (K × V)} (h : LRep c.M l es) (lo hi : K) :
    ∃ stop, l.rangeScan c lo hi = .ok (es.filter (fun e => lo ≤ e.1 ∧ e.1 ≤ hi), stop) ∧
      (stop = true → ∃ e ∈ es, hi < e.1) := by
  unfold SLeaf.rangeScan
  rw [h.num]
  exact C.range _ _ es lo hi h.sorted (fun i hi => h.rd i hi)

/-! ## The three configurations -/

theorem getD_lt {l : List K} (d : K) {i : Nat} (h : i < l.length) : l.getD i d = l[i] := by
  simp [List.getD, List.getElem?_eq_getElem h]

theorem rep_get {a : Slots K} {l : List K} (h : Rep a l) (d : K) (cap : Nat) (hc : l.length ≤ cap) :
    ∀ i < l.length, rd cap a i = .ok ((fun i => l.getD i d) i) := by
  intro i hi
  rw [h.rd hi (by omega)]
  exact congrArg Res.ok (getD_lt _ hi).symm

theorem getD_sorted {l : List K} (hs : l.Pairwise (· < ·)) (d : K) :
    ∀ i j, i < j → j < l.length → l.getD i d < l.getD j d := by
  intro i j hij hj
  rw [getD_lt _ (by omega), getD_lt _ hj]
  exact List.pairwise_iff_getElem.1 hs i j (by omega) hj hij

/-- A position that cuts a list into small and large keys is unique. -/
theorem cut_unique {k1 k2 : List K} {p : K → Prop} {n : Nat} (d : K) (hn : n ≤ (k1 ++ k2).length)
    (h1 : ∀ x ∈ k1, p x) (h2 : ∀ x ∈ k2, ¬ p x) (g1 : ∀ i < n, p ((k1 ++ k2).getD i d))
    (g2 : ∀ i, n ≤ i → i < (k1 ++ k2).length → ¬ p ((k1 ++ k2).getD i d)) : n = k1.length := by
  rcases Nat.lt_trichotomy n k1.length with h | h | h
  · exfalso
    have hlt : n < (k1 ++ k2).length := by simp; omega
    have := g2 n le_rfl hlt
    rw [getD_lt _ hlt, List.getElem_append_left h] at this
    exact this (h1 _ (List.getElem_mem h))
  · exact h
  · exfalso
    have hlt : k1.length < (k1 ++ k2).length := by omega
    have := g1 k1.length h
    rw [getD_lt _ hlt, List.getElem_append_right le_rfl] at this
    exact h2 _ (List.getElem_mem _) this

theorem linear_search_law (lt : Bool) {cap : Nat} {a : Slots K} {k1 k2 : List K} {k : K}
    (hr : Rep a (k1 ++ k2)) (hc : (k1 ++ k2).length ≤ cap) (hs : (k1 ++ k2).Pairwise (· < ·))
    (h1 : ∀ x ∈ k1, if lt then x < k else x ≤ k) (h2 : ∀ x ∈ k2, if lt then k ≤ x else k < x) :
    linearSearch lt (fun i => rd cap a i) k 0 (k1 ++ k2).length = .ok k1.length := by
  have hrd := rep_get hr k cap hc
  have hso := getD_sorted hs k
  obtain ⟨n, e, _, hn, g1, g2⟩ := linearSearch_spec lt (fun i => rd cap a i) (fun i => (k1 ++ k2).getD i k) k
    (k1 ++ k2).length 0 (fun i _ hi => hrd i (by omega)) (fun i j _ h h' => hso i j h (by omega))
  rw [e]
  congr 1
  refine cut_unique (p := fun x => if lt then x < k else x ≤ k) k (by omega) h1 ?_
    (fun i hi => g1 i (by omega) hi) ?_
  · intro x hx
    have := h2 x hx
    cases lt <;> simp at this ⊢ <;> exact this
  · intro i h h'
    have := g2 i h (by omega)
    cases lt <;> simp only [Bool.false_eq_true, if_false, if_true, not_lt, not_le] at this ⊢ <;> exact this

theorem binary_search_branch_law {cap : Nat} {a : Slots K} {k1 k2 : List K} {k : K}
    (hr : Rep a (k1 ++ k2)) (hc : (k1 ++ k2).length ≤ cap) (hs : (k1 ++ k2).Pairwise (· < ·))
    (h1 : ∀ x ∈ k1, x ≤ k) (h2 : ∀ x ∈ k2, k < x) :
    binarySearch true (fun i => rd cap a i) 0 (((k1 ++ k2).length : Int) - 1) k = .ok k1.length := by
  obtain ⟨n, e, hn, g1, g2⟩ := binarySearch_branch (fun i => rd cap a i) (k1 ++ k2).length
    (fun i => (k1 ++ k2).getD i k) k (rep_get hr k cap hc) (getD_sorted hs k)
  rw [e]
  congr 1
  exact cut_unique (p := fun x => x ≤ k) k hn h1 (fun x hx => not_le.2 (h2 x hx)) g1
    (fun i h h' => not_le.2 (g2 i h h'))

theorem binary_search_leaf_law {cap : Nat} {a : Slots K} {k1 k2 : List K} {k : K}
    (hr : Rep a (k1 ++ k2)) (hc : (k1 ++ k2).length ≤ cap) (hs : (k1 ++ k2).Pairwise (· < ·))
    (h1 : ∀ x ∈ k1, x < k) (h2 : ∀ x ∈ k2, k ≤ x) :
    binarySearch false (fun i => rd cap a i) 0 (((k1 ++ k2).length : Int) - 1) k = .ok k1.length := by
  obtain ⟨n, e, hn, g1, g2⟩ := binarySearch_leaf (fun i => rd cap a i) (k1 ++ k2).length
    (fun i => (k1 ++ k2).getD i k) k (rep_get hr k cap hc) (getD_sorted hs k)
  rw [e]
  congr 1
  exact cut_unique (p := fun x => x < k) k hn h1 (fun x hx => not_lt.2 (h2 x hx)) g1
    (fun i h h' => not_lt.2 (g2 i h h'))

theorem filter_cons_skip_lo {lo hi : K} {e : K × V} {es : List (K × V)} (h : e.1 < lo) :
    (e :: es).filter (fun e => lo ≤ e.1 ∧ e.1 ≤ hi) = es.filter (fun e => lo ≤ e.1 ∧ e.1 ≤ hi) := by
  rw [List.filter_cons_of_neg]; simp [h]

theorem filter_above {lo hi : K} {e : K × V} {es : List (K × V)} (h : hi < e.1) (hs : Sorted (e :: es)) :
    (e :: es).filter (fun e => lo ≤ e.1 ∧ e.1 ≤ hi) = [] := by
  rw [List.filter_eq_nil_iff]
  rw [Sorted, List.pairwise_cons] at hs
  intro y hy
  rcases List.mem_cons.1 hy with hy | hy
  · rw [hy]; simp [h]
  · simp [lt_trans h (hs.1 y hy)]

theorem filter_cons_in {lo hi : K} {e : K × V} {es : List (K × V)} (h1 : ¬ e.1 < lo) (h2 : ¬ hi < e.1) :
    (e :: es).filter (fun e => lo ≤ e.1 ∧ e.1 ≤ hi) = e :: es.filter (fun e => lo ≤ e.1 ∧ e.1 ≤ hi) := by
  rw [List.filter_cons_of_pos]; simp [not_lt.1 h1, not_lt.1 h2]

theorem rangeB_ok {rk : Nat → Res K} {rv : Nat → Res V} (lo hi : K) : ∀ (es : List (K × V)) (i : Nat),
    Sorted es → (∀ j (h : j < es.length), rk (i + j) = .ok es[j].1 ∧ rv (i + j) = .ok es[j].2) →
    ∃ stop, rangeB rk rv lo hi i es.length = .ok (es.filter (fun e => lo ≤ e.1 ∧ e.1 ≤ hi), stop) ∧
      (stop = true → ∃ e ∈ es, hi < e.1)
  | [], _, _, _ => ⟨false, rfl, by simp⟩
  | e :: es, i, hs, hr => by
    have h0 := hr 0 (by simp)
    simp only [Nat.add_zero, List.getElem_cons_zero] at h0
    have hs' := hs
    rw [Sorted, List.pairwise_cons] at hs'
    obtain ⟨stop, er, hst⟩ := rangeB_ok lo hi es (i + 1) hs'.2 (fun j hj => by
      have := hr (j + 1) (by simpa using hj)
      rw [show i + 1 + j = i + (j + 1) by omega]; simpa using this)
    rw [List.length_cons, rangeB, h0.1, Res.ok_bind]
    by_cases h1 : hi < e.1
    · rw [if_pos h1, filter_above h1 hs]
      exact ⟨true, rfl, fun _ => ⟨e, by simp, h1⟩⟩
    · rw [if_neg h1]
      have hst' : stop = true → ∃ x ∈ e :: es, hi < x.1 := fun h => by
        obtain ⟨x, hx, h⟩ := hst h; exact ⟨x, by simp [hx], h⟩
      by_cases h2 : e.1 < lo
      · rw [if_pos h2, er, filter_cons_skip_lo h2]
        exact ⟨stop, rfl, hst'⟩
      · rw [if_neg h2, h0.2, Res.ok_bind, er, Res.ok_bind, filter_cons_in h2 h1]
        exact ⟨stop, rfl, hst'⟩

theorem rangeP_ok {rk : Nat → Res K} {rv : Nat → Res V} (lo hi : K) : ∀ (es : List (K × V)) (i : Nat),
    Sorted es → (∀ j (h : j < es.length), rk (i + j) = .ok es[j].1 ∧ rv (i + j) = .ok es[j].2) →
    ∃ stop, rangeP rk rv lo hi i es.length = .ok (es.filter (fun e => lo ≤ e.1 ∧ e.1 ≤ hi), stop) ∧
      (stop = true → ∃ e ∈ es, hi < e.1)
  | [], _, _, _ => ⟨false, rfl, by simp⟩
  | e :: es, i, hs, hr => by
    have h0 := hr 0 (by simp)
    simp only [Nat.add_zero, List.getElem_cons_zero] at h0
    have hs' := hs
    rw [Sorted, List.pairwise_cons] at hs'
    obtain ⟨stop, er, hst⟩ := rangeP_ok lo hi es (i + 1) hs'.2 (fun j hj => by
      have := hr (j + 1) (by simpa using hj)
      rw [show i + 1 + j = i + (j + 1) by omega]; simpa using this)
    rw [List.length_cons, rangeP, h0.1, Res.ok_bind]
    have hst' : stop = true → ∃ x ∈ e :: es, hi < x.1 := fun h => by
      obtain ⟨x, hx, h⟩ := hst h; exact ⟨x, by simp [hx], h⟩
    by_cases h2 : e.1 < lo
    · rw [if_pos h2, er, filter_cons_skip_lo h2]
      exact ⟨stop, rfl, hst'⟩
    · rw [if_neg h2]
      by_cases h1 : hi < e.1
      · rw [if_pos h1, filter_above h1 hs]
        exact ⟨true, rfl, fun _ => ⟨e, by simp, h1⟩⟩
      · rw [if_neg h1, h0.2, Res.ok_bind, er, Res.ok_bind, filter_cons_in h2 h1]
        exact ⟨stop, rfl, hst'⟩

theorem rangeH_ok {rk : Nat → Res K} {rv : Nat → Res V} (lo hi : K) : ∀ (es : List (K × V)) (i : Nat),
    (∀ j (h : j < es.length), rk (i + j) = .ok es[j].1 ∧ rv (i + j) = .ok es[j].2) →
    ∃ stop, rangeH rk rv lo hi i es.length = .ok (es.filter (fun e => lo ≤ e.1 ∧ e.1 ≤ hi), stop) ∧
      (stop = true → ∃ e ∈ es, hi < e.1)
  | [], _, _ => ⟨false, rfl, by simp⟩
  | e :: es, i, hr => by
    have h0 := hr 0 (by simp)
    simp only [Nat.add_zero, List.getElem_cons_zero] at h0
    obtain ⟨stop, er, hst⟩ := rangeH_ok lo hi es (i + 1) (fun j hj => by
      have := hr (j + 1) (by simpa using hj)
      rw [show i + 1 + j = i + (j + 1) by omega]; simpa using this)
    rw [List.length_cons, rangeH, h0.1, Res.ok_bind]
    have hst' : stop = true → ∃ x ∈ e :: es, hi < x.1 := fun h => by
      obtain ⟨x, hx, h⟩ := hst h; exact ⟨x, by simp [hx], h⟩
    by_cases h2 : e.1 < lo
    · rw [if_pos h2, er, filter_cons_skip_lo h2]
      exact ⟨stop, rfl, hst'⟩
    · rw [if_neg h2]
      by_cases h1 : hi < e.1
      · rw [if_pos h1, er, Res.ok_bind]
        refine ⟨true, ?_, fun _ => ⟨e, by simp, h1⟩⟩
        rw [List.filter_cons_of_neg (by simp [h1])]; rfl
      · rw [if_neg h1, h0.2, Res.ok_bind, er, Res.ok_bind, filter_cons_in h2 h1]
        exact ⟨stop, rfl, hst'⟩

theorem bpLaws {N M : Nat} (hM : 2 ≤ M) : CfgLaws (bpCfg N M : SCfg K V) where
  hM := hM
  bsearch := fun _ _ _ _ hr hc hs h1 h2 => linear_search_law false hr hc hs (by simpa using h1) (by simpa using h2)
  lsearch := fun _ _ _ _ hr hc hs h1 h2 => linear_search_law true hr hc hs (by simpa using h1) (by simpa using h2)
  range := fun rk rv es lo hi hs h => rangeB_ok lo hi es 0 hs (by simpa using h)

theorem pbLaws {N M : Nat} (hM : 2 ≤ M) : CfgLaws (pbCfg N M : SCfg K V) where
  hM := hM
  bsearch := fun _ _ _ _ hr hc hs h1 h2 => binary_search_branch_law hr hc hs h1 h2
  lsearch := fun _ _ _ _ hr hc hs h1 h2 => binary_search_leaf_law hr hc hs h1 h2
  range := fun rk rv es lo hi hs h => rangeP_ok lo hi es 0 hs (by simpa using h)

theorem hpLaws {N M : Nat} (hM : 2 ≤ M) : CfgLaws (hpCfg N M : SCfg K V) where
  hM := hM
  bsearch := fun _ _ _ _ hr hc hs h1 h2 => binary_search_branch_law hr hc hs h1 h2
  lsearch := fun _ _ _ _ hr hc hs h1 h2 => binary_search_leaf_law hr hc hs h1 h2
  range := fun rk rv es lo hi _ h => rangeH_ok lo hi es 0 (by simpa using h)

end Verif.BTree
