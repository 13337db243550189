import Verif.BitTree.EraseLaw
import Verif.BitTree.Props

/-!
# C63: histories of inserts and erases on BitHPBPTree and BitPBPTree
-/

set_option linter.unusedSectionVars false

namespace Verif.BitTree

open Verif Search FPTree BTree

variable {K V : Type} {M : Nat} [LinearOrder K] [Inhabited K] {c : Cfg K V} {adm : K → Prop}

/-! ## Specification -/

/-- A history on a map: the final map and the results of the erases. -/
def spec : List (Op K V) → (K → Option V) → (K → Option V) × List Bool
  | [], m => (m, [])
  | .ins k v :: ops, m => spec ops fun x => if x = k then some v else m x
  | .del k :: ops, m =>
    let r := spec ops fun x => if x = k then none else m x
    (r.1, (m k).isSome :: r.2)

/-- The key of an operation. -/
def Op.key : Op K V → K
  | .ins k _ => k
  | .del k => k

/-- The empty tree. -/
def EStore.empty (c : Cfg K V) (M : Nat) : EStore c M := ⟨Store.empty c M, []⟩

/-- A history answers like the map. -/
def Agrees (adm : K → Prop) (m : K → Option V) (ops : List (Op K V)) (r : Res (Option (EStore c M × List Bool))) : Prop :=
  ∃ t, r = .ok (some (t, (spec ops m).2)) ∧ ∀ k, adm k → t.lookup k = .ok ((spec ops m).1 k)

/-- C63. A history of inserts and erases that stays inside the model answers like the map. -/
def C63_statement (N M : Nat) (mv : Bool) : Prop :=
  ∀ (jk jv : Nat → Int) (ops : List (Op Int Int)), (∀ o ∈ ops, 0 ≤ o.key ∧ o.key < 2 ^ 31 - 1) →
    run ops (EStore.empty (cfgInt N mv jk jv) M) ≠ .ok none →
    Agrees (fun k => 0 ≤ k ∧ k < 2 ^ 31 - 1) (fun _ => none) ops (run ops (EStore.empty (cfgInt N mv jk jv) M))

/-! ## Histories without underflow -/

/-- Erasing `k` does not reach the handling of an underflow. -/
def quiet (t : EStore c M) (k : K) : Bool :=
  t.st.depth == 0 ||
    match eraseAt c t.st.depth t.st.heap t.dead t.st.root k with
    | .ok r => !r.2.2
    | _ => true

/-- No erase of the history reaches the handling of an underflow. -/
def calm : List (Op K V) → EStore c M → Bool
  | [], _ => true
  | .ins k v :: ops, t =>
    match t.insert k v with
    | .ok t => calm ops t
    | _ => true
  | .del k :: ops, t =>
    quiet t k &&
      match t.erase k with
      | .ok (some (t, _)) => calm ops t
      | _ => true

theorem erase_quiet {t : EStore c M} {k : K} {h : Heap M K V} {r u : Bool}
    (e : eraseAt c t.st.depth t.st.heap t.dead t.st.root k = .ok (h, r, u)) (hq : quiet t k = true) :
    t.erase k = .ok (some (⟨⟨t.st.depth, t.st.root, h, t.st.first⟩, t.dead⟩, r)) := by
  obtain ⟨⟨d, root, heap, first⟩, dead⟩ := t
  unfold quiet at hq
  simp only at e hq
  rw [e] at hq
  match d, root, e, hq with
  | 0, root, e, hq =>
    rw [EStore.erase, e]; rfl
  | 1, root, e, hq =>
    have hu : u = false := by simpa using hq
    rw [EStore.erase, e, Res.ok_bind, hu]; rfl
  | d + 2, root, e, hq =>
    have hu : u = false := by simpa using hq
    rw [EStore.erase, e, Res.ok_bind, hu]; rfl

theorem run_calm (F : Laws c adm) (hM : 2 ≤ M) (hm : c.move = false → M % 64 ≠ 0) (hN : 2 ≤ c.N) (hN64 : c.N % 64 ≠ 0) :
    ∀ (ops : List (Op K V)) (t : Store c M) (m : K → Option V), TOk adm t → (∀ k v, t.Has k v ↔ m k = some v) →
      (∀ o ∈ ops, adm o.key) → calm ops (⟨t, []⟩ : EStore c M) = true →
      Agrees adm m ops (run ops (⟨t, []⟩ : EStore c M))
  | [], t, m, ht, hh, _, _ => by
    refine ⟨_, rfl, fun k hk => ?_⟩
    obtain ⟨r, e, hr⟩ := estore_lookup_law F ht hk
    rw [e]
    congr 1
    show r = m k
    apply Option.ext
    intro v
    rw [hr, hh]
  | .ins k v :: ops, t, m, ht, hh, ha, hc => by
    have hk : adm k := ha (.ins k v) (by simp)
    obtain ⟨t', e', g1, g2⟩ := estore_insert_law F hM hm hN hN64 ht hk v
    rw [calm, e'] at hc
    rw [run, e', Res.ok_bind]
    refine run_calm F hM hm hN hN64 ops t' (fun x => if x = k then some v else m x) g1 (fun x w => ?_)
      (fun o ho => ha o (List.mem_cons_of_mem _ ho)) hc
    rw [g2]
    unfold Ups
    by_cases hx : x = k
    · simp [hx, eq_comm]
    · simp [hx, hh]
  | .del k :: ops, t, m, ht, hh, ha, hc => by
    have hk : adm k := ha (.del k) (by simp)
    obtain ⟨h', r, u, e, g1, g2, g3⟩ := store_erase_law F ht hk
    rw [calm, Bool.and_eq_true] at hc
    have e1 := erase_quiet (t := ⟨t, []⟩) e hc.1
    have hc2 := hc.2
    rw [e1] at hc2
    obtain ⟨t', er, hl⟩ := run_calm F hM hm hN hN64 ops ⟨t.depth, t.root, h', t.first⟩ (fun x => if x = k then none else m x) g1
      (fun x w => by
        rw [g3]
        unfold Del
        by_cases hx : x = k
        · simp [hx]
        · simp [hx, hh])
      (fun o ho => ha o (List.mem_cons_of_mem _ ho)) hc2
    refine ⟨t', ?_, hl⟩
    rw [run, e1, Res.ok_bind]
    simp only
    rw [er]
    show Res.ok (some (t', r :: _)) = _
    have : r = (m k).isSome := by
      rw [Bool.eq_iff_iff, g2, Option.isSome_iff_exists]
      exact exists_congr fun v => hh k v
    rw [this]
    rfl

/-- C63 for both files, all orders (see `C61_partial`) and all histories in which no erase reaches the handling of
an underflow.  Missing: the handling of underflows, which is wrong (`C63_refuted`). -/
theorem C63_partial (F : Laws c adm) (hM : 2 ≤ M) (hm : c.move = false → M % 64 ≠ 0) (hN : 2 ≤ c.N) (hN64 : c.N % 64 ≠ 0)
    (ops : List (Op K V)) (ha : ∀ o ∈ ops, adm o.key) (hc : calm ops (EStore.empty c M) = true) :
    Agrees adm (fun _ => none) ops (run ops (EStore.empty c M)) :=
  run_calm F hM hm hN hN64 ops (Store.empty c M) _ (tok_empty c M)
    (fun k v => ⟨fun h => absurd h (has_empty k v), fun h => by cases h⟩) ha hc

/-- A calm history on a tree of two leaves. -/
example : calm [.ins 1 1, .ins 2 2, .ins 3 3, .ins 4 4, .ins 5 5, .del 4, .ins 3 7, .del 9]
    (EStore.empty (cfgInt 3 true (fun _ => 0) (fun _ => (0 : Int))) 4) = true := by decide +kernel

/-! ## Histories within one leaf -/

/-- The keys of a leaf. -/
def keySet (l : Leaf M K V) : Finset K := (BitmapSpec.members l.bits).image l.keys

theorem mem_keySet {l : Leaf M K V} {k : K} : k ∈ keySet l ↔ ∃ v, Has l k v := by
  unfold keySet
  rw [Finset.mem_image]
  constructor
  · rintro ⟨p, hp, rfl⟩
    obtain ⟨h1, h2⟩ := Bitmap.mem_members.1 hp
    exact ⟨l.vals p, p, h1, h2, rfl, rfl⟩
  · rintro ⟨v, p, h1, h2, h3, _⟩
    exact ⟨p, Bitmap.mem_members.2 ⟨h1, h2⟩, h3⟩

theorem card_keySet {l : Leaf M K V} (hl : LOk l) : (keySet l).card = used l := by
  unfold keySet used
  refine Finset.card_image_of_injOn ?_
  intro i hi j hj he
  have h1 := Bitmap.mem_members.1 hi
  have h2 := Bitmap.mem_members.1 hj
  exact hl.inj i j h1.1 h2.1 h1.2 h2.2 he

theorem insert_upsert {l : Leaf M K V} (hl : LOk l) (S : Finset K) (hS : S.card ≤ M) (hsub : keySet l ⊆ S) {k : K} (hk : k ∈ S)
    (v : V) : ∃ l', l.insert c k v = .ok (l', none) ∧ LOk l' ∧ ∀ x y, Has l' x y ↔ Ups (Has l) k v x y := by
  by_cases hh : ∃ w, Has l k w
  · obtain ⟨p, e, hp⟩ := pos_spec l k
    rcases hp with ⟨h1, h2, h3⟩ | ⟨h1, hno⟩
    · obtain ⟨hw1, hw2⟩ := write_law hl h1 h2 v
      refine ⟨{ l with vals := upd l.vals p v }, ?_, hw1, fun x y => ?_⟩
      · unfold Leaf.insert
        rw [e, Res.ok_bind, if_pos h1]; rfl
      · rw [hw2, h3]; rfl
    · obtain ⟨w, hw⟩ := hh
      exact absurd hw (hno w)
  · have hno : ∀ w, ¬ Has l k w := fun w hw => hh ⟨w, hw⟩
    have hlt : used l < M := by
      rw [← card_keySet hl]
      refine lt_of_lt_of_le (Finset.card_lt_card ⟨hsub, fun h => ?_⟩) hS
      exact hh (mem_keySet.1 (h hk))
    obtain ⟨l', e, g1, _, g3⟩ := insert_room (c := c) hl hlt v hno
    refine ⟨l', e, g1, fun x y => ?_⟩
    rw [g3]
    unfold Ups
    constructor
    · rintro (h | h)
      · exact Or.inl h
      · exact Or.inr ⟨by rintro rfl; exact hno y h, h⟩
    · rintro (h | h)
      · exact Or.inl h
      · exact Or.inr h.2

theorem run_leaf (S : Finset K) (hS : S.card ≤ M) : ∀ (ops : List (Op K V)) (l : Leaf M K V) (m : K → Option V),
    LOk l → keySet l ⊆ S → (∀ k v, Has l k v ↔ m k = some v) → (∀ o ∈ ops, o.key ∈ S) →
    Agrees (fun _ => True) m ops (run ops (⟨oneLeaf c l, []⟩ : EStore c M))
  | [], l, m, hl, _, hh, _ => by
    refine ⟨_, rfl, fun k _ => ?_⟩
    obtain ⟨r, e, hr⟩ := lookup_law hl k
    have : (⟨oneLeaf c l, []⟩ : EStore c M).lookup k = l.lookup k := rfl
    rw [this, e]
    congr 1
    show r = m k
    apply Option.ext
    intro v
    rw [hr, hh]
  | .ins k v :: ops, l, m, hl, hs, hh, ha => by
    have hkS : k ∈ S := ha (.ins k v) (by simp)
    obtain ⟨l', e, g1, g2⟩ := insert_upsert (c := c) hl S hS hs hkS v
    have e' : (⟨oneLeaf c l, []⟩ : EStore c M).insert k v = .ok ⟨oneLeaf c l', []⟩ := by
      show ((oneLeaf c l).insert k v >>= fun s => Res.ok (⟨s, []⟩ : EStore c M)) = _
      have : (oneLeaf c l).insert k v = .ok (oneLeaf c l') := by
        unfold Store.insert oneLeaf
        simp only [ins, insLeaf, List.getElem?_cons_zero, Res.ofOption_some, Res.ok_bind, e, Res.pure_eq]
        rfl
      rw [this]; rfl
    rw [run, e', Res.ok_bind]
    refine run_leaf S hS ops l' (fun x => if x = k then some v else m x) g1 (fun x hx => ?_) (fun x w => ?_)
      (fun o ho => ha o (List.mem_cons_of_mem _ ho))
    · obtain ⟨w, hw⟩ := mem_keySet.1 hx
      rcases (g2 x w).1 hw with ⟨rfl, _⟩ | ⟨_, h⟩
      · exact hkS
      · exact hs (mem_keySet.2 ⟨w, h⟩)
    · rw [g2]
      unfold Ups
      by_cases hx : x = k
      · simp [hx, eq_comm]
      · simp [hx, hh]
  | .del k :: ops, l, m, hl, hs, hh, ha => by
    obtain ⟨l', r, e, g1, g2, g3⟩ := leaf_erase_law hl k
    have e1 : (⟨oneLeaf c l, []⟩ : EStore c M).erase k = .ok (some (⟨oneLeaf c l', []⟩, r)) := by
      have : eraseAt c 0 [⟨l, none, none⟩] [] (0 : Nat) k = .ok ([⟨l', none, none⟩], r, decide (l'.bits.count < middle M)) := by
        show (l.erase k >>= fun z => Res.ok ([(⟨z.1, none, none⟩ : Cell M K V)], z.2, decide (z.1.bits.count < middle M))) = _
        rw [e]; rfl
      show (eraseAt c 0 [⟨l, none, none⟩] [] (0 : Nat) k >>= fun r =>
        Res.ok (some ((⟨⟨0, (0 : Nat), r.1, 0⟩, []⟩ : EStore c M), r.2.1))) = _
      rw [this]; rfl
    obtain ⟨t', er, hlk⟩ := run_leaf S hS ops l' (fun x => if x = k then none else m x) g1 (fun x hx => by
        obtain ⟨w, hw⟩ := mem_keySet.1 hx
        exact hs (mem_keySet.2 ⟨w, ((g3 x w).1 hw).2⟩))
      (fun x w => by
        rw [g3]
        unfold Del
        by_cases hx : x = k
        · simp [hx]
        · simp [hx, hh])
      (fun o ho => ha o (List.mem_cons_of_mem _ ho))
    refine ⟨t', ?_, hlk⟩
    rw [run, e1, Res.ok_bind]
    simp only
    rw [er]
    show Res.ok (some (t', r :: _)) = _
    have : r = (m k).isSome := by
      rw [Bool.eq_iff_iff, g2, Option.isSome_iff_exists]
      exact exists_congr fun v => hh k v
    rw [this]
    rfl

/-- C63 for both files, every order, every key type, and every history over at most `M` keys (the tree stays one
leaf, and nothing needs to be handled). -/
theorem C63_leaf_partial (S : Finset K) (hS : S.card ≤ M) (ops : List (Op K V)) (ha : ∀ o ∈ ops, o.key ∈ S) :
    Agrees (fun _ => True) (fun _ => none) ops (run ops (EStore.empty c M)) :=
  run_leaf S hS ops (Leaf.new c M) _ (lok_new c) (fun x hx => by
      obtain ⟨w, hw⟩ := mem_keySet.1 hx
      exact absurd hw (has_new c x w))
    (fun k v => ⟨fun h => absurd h (has_new c k v), fun h => by cases h⟩) ha

/-! ## The handling of underflows is wrong -/

/-- Inserting 1, …, 7 in ascending order and erasing 1 in a tree with `N = 3`, `M = 4`: the first leaf is merged with
the second, and the third is deleted; looking up 5 then follows a dangling pointer. -/
theorem C63_dangling (mv : Bool) :
    (run [.ins 1 1, .ins 2 2, .ins 3 3, .ins 4 4, .ins 5 5, .ins 6 6, .ins 7 7, .del 1]
      (EStore.empty (cfgInt 3 mv (fun _ => 0) (fun _ => (0 : Int))) 4) >>= fun r =>
        match r with
        | some (t, _) => t.lookup 5
        | none => .ok none) = .ub := by
  cases mv <;> decide +kernel

/-- `ub`, as a boolean. -/
def isUb {α : Type} : Res α → Bool
  | .ub => true
  | _ => false

theorem eq_ub {α : Type} {r : Res α} (h : isUb r = true) : r = .ub := by
  cases r <;> first | rfl | cases h

/-- Descending inserts, then erases: the leftmost leaf sits at a position other than 0, and its null `prevLeaf` is
followed. -/
theorem C63_null_prev (mv : Bool) :
    run [.ins 9 1, .ins 8 1, .ins 7 1, .ins 6 1, .ins 5 1, .ins 4 1, .ins 3 1, .ins 2 1, .ins 1 1, .del 1, .del 2, .del 3]
      (EStore.empty (cfgInt 3 mv (fun _ => 0) (fun _ => (0 : Int))) 4) = .ub := by
  refine eq_ub ?_
  cases mv <;> decide +kernel

/-- C63 is false for both files. -/
theorem C63_refuted (mv : Bool) : ¬ C63_statement 3 4 mv := by
  intro h
  have hu := C63_null_prev mv
  obtain ⟨t, e, _⟩ := h (fun _ => 0) (fun _ => 0)
    [.ins 9 1, .ins 8 1, .ins 7 1, .ins 6 1, .ins 5 1, .ins 4 1, .ins 3 1, .ins 2 1, .ins 1 1, .del 1, .del 2, .del 3]
    (by decide) (by rw [hu]; exact fun h => by cases h)
  rw [hu] at e
  cases e

theorem deref_ok {h : Heap M K V} {dead : List Nat} {o : Option Nat} {a : Nat} {z : Cell M K V}
    (e : deref h dead o = .ok (a, z)) : o = some a ∧ h[a]? = some z := by
  unfold deref at e
  cases o with
  | none => cases e
  | some i =>
    simp only [Res.ofOption_some, Res.ok_bind] at e
    split at e
    · cases e
    · obtain ⟨w, e1, e2⟩ := (Res.bind_eq_ok).1 e
      cases hh : h[i]? with
      | none => rw [hh] at e1; cases e1
      | some v =>
        rw [hh] at e1
        obtain rfl := Res.ok.inj e1
        have := Res.ok.inj e2
        rw [Prod.mk.injEq] at this
        obtain ⟨rfl, rfl⟩ := this
        exact ⟨rfl, hh⟩

theorem mergeLeaves_next {h h' : Heap M K V} {dead : List Nat} {i j : Nat} {x y : Cell M K V} (hx : h[i]? = some x)
    (hy : h[j]? = some y) (e : mergeLeaves h dead (some i) (some j) = .ok h') :
    ∀ z, h'[i]? = some z → z.next = y.next := by
  unfold mergeLeaves at e
  obtain ⟨_, _, e⟩ := (Res.bind_eq_ok).1 e
  obtain ⟨_, _, e⟩ := (Res.bind_eq_ok).1 e
  obtain ⟨⟨i', x'⟩, e1, e⟩ := (Res.bind_eq_ok).1 e
  obtain ⟨hi, hx'⟩ := deref_ok e1
  cases hi
  obtain ⟨⟨j', y'⟩, e2, e⟩ := (Res.bind_eq_ok).1 e
  obtain ⟨hj, hy'⟩ := deref_ok e2
  cases hj
  rw [hx] at hx'; cases hx'
  rw [hy] at hy'; cases hy'
  obtain ⟨_, _, e⟩ := (Res.bind_eq_ok).1 e
  obtain ⟨l, _, e⟩ := (Res.bind_eq_ok).1 e
  have hi : i < h.length := (List.getElem?_eq_some_iff.1 hx).1
  intro z hz
  cases hn : y.next with
  | none =>
    simp only [hn] at e
    obtain rfl := Res.ok.inj e
    rw [List.getElem?_set_self hi] at hz
    cases hz; rfl
  | some n =>
    simp only [hn] at e
    obtain ⟨⟨m, w⟩, e3, e⟩ := (Res.bind_eq_ok).1 e
    obtain ⟨hm, hw⟩ := deref_ok e3
    cases hm
    obtain rfl := Res.ok.inj e
    by_cases hin : n = i
    · subst hin
      rw [List.getElem?_set_self hi] at hw
      cases hw
      rw [List.getElem?_set_self (by simpa using hi)] at hz
      cases hz; rfl
    · rw [List.getElem?_set_ne hin, List.getElem?_set_self hi] at hz
      cases hz; rfl

/-- In every state: a merge with the right neighbour deletes the leaf *behind* that neighbour. -/
theorem merge_right_deletes {h : Heap M K V} {dead : List Nat} {b : Branch c.N K Nat} {pos id j n : Nat}
    {x y : Cell M K V} {u : Under c.N M K V} (hx : h[id]? = some x) (hj : x.next = some j)
    (hy : h[j]? = some y) (hn : y.next = some n) (hp : pos < c.N)
    (hfirst : findMinKeyPosBits c.lim (fun i : Fin c.N => b.keys i) b.bits = .ok pos)
    (hprev : pos = 0 ∨ ∃ i z, x.prev = some i ∧ h[i]? = some z ∧ z.leaf.bits.count ≤ middle M)
    (hnext : y.leaf.bits.count ≤ middle M) (e : underLeaf c h dead b pos id = .ok u) : n ∈ u.dead := by
  unfold underLeaf at e
  obtain ⟨_, _, e⟩ := (Res.bind_eq_ok).1 e
  obtain ⟨⟨id', x'⟩, ex, e⟩ := (Res.bind_eq_ok).1 e
  obtain ⟨hi, hx'⟩ := deref_ok ex
  cases hi
  rw [hx] at hx'; cases hx'
  obtain ⟨pn, epn, e⟩ := (Res.bind_eq_ok).1 e
  have hpn : ¬ middle M < pn := by
    rw [not_lt]
    split at epn
    · obtain ⟨⟨i, z⟩, ez, epn⟩ := (Res.bind_eq_ok).1 epn
      obtain rfl := Res.ok.inj epn
      rcases hprev with h0 | ⟨i', z', h1, h2, h3⟩
      · omega
      · obtain ⟨h4, h5⟩ := deref_ok ez
        rw [h1] at h4; cases h4
        rw [h2] at h5; cases h5
        exact h3
    · obtain rfl := Res.ok.inj epn
      exact Nat.zero_le _
  rw [if_neg hpn] at e
  obtain ⟨nn, enn, e⟩ := (Res.bind_eq_ok).1 e
  have hnn : ¬ (pos < c.N ∧ middle M < nn) := by
    rintro ⟨_, hlt⟩
    rw [if_pos hp] at enn
    obtain ⟨⟨i, z⟩, ez, enn⟩ := (Res.bind_eq_ok).1 enn
    obtain rfl := Res.ok.inj enn
    obtain ⟨h4, h5⟩ := deref_ok ez
    rw [hj] at h4; cases h4
    rw [hy] at h5; cases h5
    exact absurd hlt (not_lt.2 hnext)
  rw [if_neg hnn, hfirst, Res.ok_bind, if_neg (by simp), if_pos hp, hj] at e
  obtain ⟨h1, eh, e⟩ := (Res.bind_eq_ok).1 e
  obtain ⟨⟨i2, x1⟩, ex1, e⟩ := (Res.bind_eq_ok).1 e
  obtain ⟨hi2, hx1⟩ := deref_ok ex1
  cases hi2
  have hnx := mergeLeaves_next hx hy eh x1 hx1
  simp only [hnx, hn] at e
  obtain ⟨k, _, e⟩ := (Res.bind_eq_ok).1 e
  obtain ⟨np, _, e⟩ := (Res.bind_eq_ok).1 e
  obtain ⟨kid, _, e⟩ := (Res.bind_eq_ok).1 e
  obtain ⟨bits, _, e⟩ := (Res.bind_eq_ok).1 e
  obtain rfl := Res.ok.inj e
  exact List.mem_cons_self

end Verif.BitTree
