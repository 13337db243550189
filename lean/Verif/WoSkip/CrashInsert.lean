import Verif.WoSkip.CrashInv

/-!
# The states during an interrupted `insert` of woPSkiplist
-/

set_option linter.unusedSectionVars false

namespace Verif.WoSkip

open Search FPTree BTree Assoc
open Verif.SkipList (Path getLastD_append_cons getLastD_cons getLastD_mem put put_self put_ne pre post pre_post)

variable {K V : Type} [LinearOrder K] [Inhabited K] {N M : Nat} {c : WCfg K V} {adm : K → Prop}
  {s : WL N K V} {lst : Nat → List Nat} {D : Nat → WNode N K V} {ec : Nat} {P : WNode N K V → Prop} {m : K → Option V}

/-- The map with the entry. -/
def ins (m : K → Option V) (k : K) (v : V) : K → Option V := fun x => if x = k then some v else m x

/-- The map without the keys `ks`. -/
def cut (m : K → Option V) (ks : List K) : K → Option V := fun x => if x ∈ ks then none else m x

/-- A well-formed list that stores `m`. -/
def OkS (adm : K → Prop) (M : Nat) (m : K → Option V) (s : WL N K V) : Prop :=
  ∃ ec lst D, Inv adm ec M s lst D ∧ Stores lst D m

/-- The entry is in a node whose bounds do not contain it. -/
structure WeakAt (adm : K → Prop) (ec M : Nat) (m : K → Option V) (k : K) (v : V) (s : WL N K V)
    (lst : Nat → List Nat) (D : Nat → WNode N K V) (t : Nat) (A B : List Nat) : Prop where
  inv : InvP (fun n => SOk adm n.slots) ec M s lst D
  tgt : Target lst D k t A B
  st : Stores lst D (ins m k v)
  new : m k = none
  mem : (k, v) ∈ (D t).slots.abs
  only : ∀ a ∈ lst 0, ∀ w, (k, w) ∈ (D a).slots.abs → a = t
  out : ¬ ((D t).min ≤ k ∧ k ≤ (D t).max)
  bnd : ∀ a ∈ lst 0, ∀ e ∈ (D a).slots.abs, e.1 ≠ k → (D a).min ≤ e.1 ∧ e.1 ≤ (D a).max

/-- The same; `X` implies that an insert of the key goes to the same node. -/
def Weak (adm : K → Prop) (M : Nat) (m : K → Option V) (k : K) (v : V) (X : Prop) (s : WL N K V) : Prop :=
  ∃ ec lst D t A B, WeakAt adm ec M m k v s lst D t A B ∧ (X → k ≤ (D t).max ∨ B = [])

/-- The list is as before the insert, as after it, or the new entry is not within the bounds of its node. -/
def Mid (adm : K → Prop) (M : Nat) (m : K → Option V) (k : K) (v : V) (X : Prop) (s : WL N K V) : Prop :=
  OkS adm M m s ∨ OkS adm M (ins m k v) s ∨ Weak adm M m k v X s

/-- An entry outside of the bounds is not found, the others are. -/
theorem WeakAt.search {k : K} {v : V} {t : Nat} {A B : List Nat} (W : WeakAt adm ec M m k v s lst D t A B) (k' : K) :
    search M s k' = .ok (m k') := by
  have I := W.inv
  unfold WoSkip.search
  by_cases hkk : k' = k
  · subst hkk
    rw [W.new]
    rcases I.searchNode (k := k') s.level I.lvl 0 (Or.inl rfl) with ⟨x, hx, e, h⟩ | ⟨e, _⟩
    · exfalso
      rw [W.tgt.eq] at hx
      rcases List.mem_append.1 hx with hx | hx
      · exact absurd h.2 (not_le.2 (W.tgt.before x hx))
      · rcases List.mem_cons.1 hx with hx | hx
        · rw [hx] at h; exact W.out h
        · exact absurd h.1 (not_le.2 (W.tgt.after x hx))
    · rw [e, Res.ok_bind]; rfl
  · have hm' : ∀ v', m k' = some v' ↔ ∃ a ∈ lst 0, (k', v') ∈ (D a).slots.abs := by
      intro v'
      rw [← W.st k' v', ins, if_neg hkk]
    cases hm : m k' with
    | some v' =>
      obtain ⟨a, ha, hv⟩ := (hm' v').1 hm
      have hb := W.bnd a ha _ hv hkk
      rcases I.searchNode (k := k') s.level I.lvl 0 (Or.inl rfl) with ⟨x, hx, e, h⟩ | ⟨_, h⟩
      · have := I.unique hx ha h hb
        subst this
        rw [e, Res.ok_bind]
        dsimp only
        rw [node, (I.nodes x hx).1, Res.ofOption_some, Res.ok_bind, searchInNode_found (I.nodes x hx).2 hv]
      · exact absurd hb (h a ha)
    | none =>
      rcases I.searchNode (k := k') s.level I.lvl 0 (Or.inl rfl) with ⟨x, hx, e, h⟩ | ⟨e, h⟩
      · rw [e, Res.ok_bind]
        dsimp only
        rw [node, (I.nodes x hx).1, Res.ofOption_some, Res.ok_bind, searchInNode_absent]
        intro v' hv
        rw [(hm' v').2 ⟨x, hx, hv⟩] at hm
        exact absurd hm (by simp)
      · rw [e, Res.ok_bind]; rfl

/-! ## The assignments of a new entry -/

theorem replace_ents {t : Nat} (ht : t ∈ lst 0) {n' : WNode N K V} (e : K × V)
    (h : e ∈ n'.slots.abs ↔ e ∈ (D t).slots.abs) :
    (∃ a ∈ lst 0, e ∈ (put D t n' a).slots.abs) ↔ ∃ a ∈ lst 0, e ∈ (D a).slots.abs := by
  constructor
  · rintro ⟨y, hy, he⟩
    by_cases hyt : y = t
    · rw [hyt, put_self, h] at he; exact ⟨t, ht, he⟩
    · rw [put_ne _ _ hyt] at he; exact ⟨y, hy, he⟩
  · rintro ⟨y, hy, he⟩
    refine ⟨y, hy, ?_⟩
    by_cases hyt : y = t
    · rw [hyt, put_self, h]; rw [hyt] at he; exact he
    · rw [put_ne _ _ hyt]; exact he

theorem add_ents {t : Nat} (ht : t ∈ lst 0) {n' : WNode N K V} {k : K} {v : V}
    (hm : ∀ e, e ∈ n'.slots.abs ↔ e = (k, v) ∨ e ∈ (D t).slots.abs) (e : K × V) :
    (∃ a ∈ lst 0, e ∈ (put D t n' a).slots.abs) ↔ e = (k, v) ∨ ∃ a ∈ lst 0, e ∈ (D a).slots.abs := by
  constructor
  · rintro ⟨y, hy, he⟩
    by_cases hyt : y = t
    · rw [hyt, put_self, hm] at he
      rcases he with he | he
      · exact Or.inl he
      · exact Or.inr ⟨t, ht, he⟩
    · rw [put_ne _ _ hyt] at he
      exact Or.inr ⟨y, hy, he⟩
  · rintro (he | ⟨y, hy, he⟩)
    · exact ⟨t, ht, by rw [put_self, hm]; exact Or.inl he⟩
    · by_cases hyt : y = t
      · exact ⟨t, ht, by rw [put_self, hm]; rw [hyt] at he; exact Or.inr he⟩
      · exact ⟨y, hy, by rw [put_ne _ _ hyt]; exact he⟩

/-- The list while the entry is written. -/
theorem InvP.filling (I : Inv adm ec M s lst D) (hst : Stores lst D m) {k : K} {t : Nat} {A B : List Nat}
    (T : Target lst D k t A B) (hm : m k = none) {v : V} {X : Prop} (hX : X → k ≤ (D t).max ∨ B = []) {n' : WNode N K V}
    (h : Filling adm (D t) k v n') : Mid adm M m k v X { s with dat := put s.dat t (some n') } := by
  have hs := I.sorted
  rw [T.eq, List.pairwise_append, List.pairwise_cons] at hs
  have hok := (I.nodes t T.mem).2
  cases h with
  | before ok abs mn mx =>
    left
    refine ⟨ec, lst, _, I.replace T.eq ⟨ok, fun e he => ?_⟩ ?_ ?_ ?_, fun k' v' => ?_⟩
    · rw [mn, mx]; exact hok.bnd e ((abs e).1 he)
    · intro y hy; rw [mn]; exact hs.2.2 y hy t (by simp)
    · intro y hy; rw [mx]; exact hs.2.1.1 y hy
    · intro y hy hyt; rw [mn, mx]; exact I.wf t T.mem y hy (fun hc => hyt hc.symm)
    · rw [hst k' v', replace_ents T.mem _ (abs _)]
  | after ok abs mn mx =>
    right
    have hmin : n'.min ≤ (D t).min := by rcases mn with h | ⟨h, h'⟩ <;> rw [h]; exact h'.le
    have hmax : (D t).max ≤ n'.max := by rcases mx with h | ⟨h, h'⟩ <;> rw [h]; exact h'.le
    have I' : InvP (fun n => SOk adm n.slots) ec M { s with dat := put s.dat t (some n') } lst (put D t n') := by
      refine (I.mono fun n h => h.ok).replace T.eq ok ?_ ?_ ?_
      · intro y hy
        rcases mn with h | ⟨h, _⟩
        · rw [h]; exact hs.2.2 y hy t (by simp)
        · rw [h]; exact T.before y hy
      · intro y hy
        rcases mx with h | ⟨h, _⟩
        · rw [h]; exact hs.2.1.1 y hy
        · rw [h]; exact T.after y hy
      · intro y hy hyt
        exact hmin.trans ((I.wf t T.mem y hy (fun hc => hyt hc.symm)).trans hmax)
    have hst' : Stores lst (put D t n') (ins m k v) := hst.add hm fun e => add_ents T.mem abs e
    have hbnd : ∀ a ∈ lst 0, ∀ e ∈ (put D t n' a).slots.abs, e.1 ≠ k →
        (put D t n' a).min ≤ e.1 ∧ e.1 ≤ (put D t n' a).max := by
      intro a ha e he hne
      by_cases hat : a = t
      · rw [hat, put_self] at he ⊢
        rcases (abs e).1 he with h | h
        · exact absurd (congrArg Prod.fst h) hne
        · exact ⟨hmin.trans (hok.bnd e h).1, (hok.bnd e h).2.trans hmax⟩
      · rw [put_ne _ _ hat] at he ⊢
        exact (I.nodes a ha).2.bnd e he
    by_cases hb : n'.min ≤ k ∧ k ≤ n'.max
    · left
      refine ⟨ec, lst, _, I'.strengthen fun a ha => ⟨(I'.nodes a ha).2, fun e he => ?_⟩, hst'⟩
      by_cases hek : e.1 = k
      · have hat : a = t := by
          by_contra hat
          have he' := he
          rw [put_ne _ _ hat] at he'
          exact hat (T.only I ha (v := e.2) (by rw [← hek]; exact he'))
        rw [hat, put_self, hek]; exact hb
      · exact hbnd a ha e he hek
    · right
      have hnd := I.nodup 0
      rw [T.eq, List.nodup_append, List.nodup_cons] at hnd
      refine ⟨ec, lst, _, t, A, B, ⟨I', ⟨T.eq, ?_, ?_⟩, hst', hm, ?_, ?_, ?_, hbnd⟩, ?_⟩
      · intro y hy
        rw [put_ne _ _ (fun hc => hnd.2.2 y hy t (by simp) hc)]; exact T.before y hy
      · intro y hy
        rw [put_ne _ _ (by rintro rfl; exact hnd.2.1.1 hy)]; exact T.after y hy
      · rw [put_self, abs]; exact Or.inl rfl
      · intro y hy w hw
        by_contra hyt
        rw [put_ne _ _ hyt] at hw
        exact hyt (T.only I hy hw)
      · rw [put_self]; exact hb
      · intro x
        rw [put_self]
        rcases hX x with h | h
        · exact Or.inl (h.trans hmax)
        · exact Or.inr h

/-- The assignments of a new entry. -/
theorem InvP.entry_along (I : Inv adm ec M s lst D) (hst : Stores lst D m) {k : K} {t : Nat} {A B : List Nat}
    (T : Target lst D k t A B) (hl : (D t).slots.abs.length < N) (hk : ∀ e ∈ (D t).slots.abs, e.1 ≠ k) (ha : adm k)
    (hm : m k = none) (v : V) {X : Prop} (hX : X → k ≤ (D t).max ∨ B = []) :
    ∃ ws n', entryWrites (D t) k v = .ok ws ∧ addEntry (D t) k v = .ok n' ∧ applyN (D t) ws = n' ∧
      Inv adm ec M { s with dat := put s.dat t (some n') } lst (put D t n') ∧ Stores lst (put D t n') (ins m k v) ∧
      Along (Mid adm M m k v X) s (ws.map (.node t)) := by
  obtain ⟨n', e, I', hm'⟩ := I.add T hl hk ha v
  obtain ⟨ws, e1, e2⟩ := entryWrites_spec e
  refine ⟨ws, n', e1, e, e2, I', hst.add hm fun e => add_ents T.mem hm' e, ?_⟩
  exact along_node (I.nodes t T.mem).1 fun q =>
    I.filling hst T hm hX (entry_filling (I.nodes t T.mem).2 hl hk ha v e1 q)

/-! ## The assignments of a split -/

theorem copyWrites_spec (l : FLeaf N K V) (sk : K) : ∀ (n i j : Nat) (sib r : WNode N K V), copyLoop l sk i j sib n = .ok r →
    ∃ ws, copyWrites l sk i j sib.min sib.max n = .ok ws ∧ applyN sib ws = r
  | 0, i, j, sib, r, e => ⟨[], rfl, Res.ok.inj e⟩
  | n + 1, i, j, sib, r, e => by
    rw [copyLoop] at e
    obtain ⟨b, hb, e⟩ := Res.bind_eq_ok.1 e
    obtain ⟨k, hk, e⟩ := Res.bind_eq_ok.1 e
    rw [copyWrites, hb, Res.ok_bind, hk, Res.ok_bind]
    by_cases hc : b = true ∧ sk ≤ k
    · rw [if_pos hc] at e ⊢
      obtain ⟨v, hv, e⟩ := Res.bind_eq_ok.1 e
      obtain ⟨t, ht, e⟩ := Res.bind_eq_ok.1 e
      obtain ⟨ws, e1, e2⟩ := copyWrites_spec l sk n (i + 1) (j + 1) _ r e
      unfold FLeaf.fill at ht
      obtain ⟨b', hb', ht⟩ := Res.bind_eq_ok.1 ht
      have hj : j < N := by
        by_contra hc
        rw [(Bitmap.set_ok sib.slots.bits j true).2 (by omega)] at hb'
        exact absurd hb' (by simp)
      rw [hv, Res.ok_bind, if_pos hj, e1, Res.ok_bind]
      refine ⟨_, rfl, ?_⟩
      rw [show ([NW.key j k, .val j v] ++ (if k < sib.min then [.min k] else []) ++ (if sib.max < k then [.max k] else []) ++
          .bit j :: ws) = ([NW.key j k, .val j v] ++ (if k < sib.min then [.min k] else []) ++
          (if sib.max < k then [.max k] else []) ++ [.bit j]) ++ ws by simp, applyN_append, ← e2, ← Res.ok.inj ht]
      congr 1
      by_cases h1 : k < sib.min <;> by_cases h2 : sib.max < k <;>
        simp only [h1, h2, if_true, if_false, applyN, List.foldl_cons, List.foldl_nil, List.cons_append, List.nil_append,
          List.append_nil, NW.apply, hb']
    · rw [if_neg hc] at e ⊢
      exact copyWrites_spec l sk n (i + 1) j sib r e

theorem splitWrites_spec {a : Nat} {n lo sib : WNode N K V} {sk : K} (hM : 0 < M) (ha : s.dat a = some n)
    (e : splitData c n = .ok (lo, sib, sk)) :
    ∃ cw, splitWrites c M s a = .ok (.alloc (newNode c N c.lim.max c.lim.min 0) :: (cw.map (.node s.fresh) ++
        [.node a (.bits lo.slots.bits), .node a (.max lo.max), .node a (.min lo.min), .fwd s.fresh 0 (s.fwd a 0),
          .fwd a 0 (some s.fresh)]), sk) ∧
      applyN (newNode c N c.lim.max c.lim.min 0) cw = sib ∧
      lo = ⟨{ n.slots with bits := lo.slots.bits }, lo.min, lo.max, n.nodeLevel⟩ := by
  unfold splitData at e
  obtain ⟨r, hr, e⟩ := Res.bind_eq_ok.1 e
  obtain ⟨k, hk, e⟩ := Res.bind_eq_ok.1 e
  obtain ⟨sb, hs, e⟩ := Res.bind_eq_ok.1 e
  dsimp only at e
  obtain ⟨b, hb, e⟩ := Res.bind_eq_ok.1 e
  have e := Res.ok.inj e
  simp only [Prod.mk.injEq] at e
  obtain ⟨e1, e2, e3⟩ := e
  obtain ⟨cw, e4, e5⟩ := copyWrites_spec n.slots k N 0 0 _ sb hs
  have e4 : copyWrites n.slots k 0 0 c.lim.max c.lim.min N = .ok cw := e4
  refine ⟨cw, ?_, by rw [e5, e2], by rw [← e1]⟩
  unfold splitWrites
  rw [node, ha, Res.ofOption_some, Res.ok_bind, hr, Res.ok_bind, hk, Res.ok_bind]
  dsimp only
  rw [e4, Res.ok_bind, hb, Res.ok_bind, fwdAt_eq ha hM, Res.ok_bind, ← e1, ← e3]
  rfl

/-- The keys that are lost while a node is split. -/
def keysOf (n : WNode N K V) : List K := n.slots.abs.map Prod.fst

theorem mem_keysOf {n : WNode N K V} {k : K} : k ∈ keysOf n ↔ ∃ v, (k, v) ∈ n.slots.abs := by
  unfold keysOf
  rw [List.mem_map]
  constructor
  · rintro ⟨⟨a, b⟩, h, rfl⟩; exact ⟨b, h⟩
  · rintro ⟨v, h⟩; exact ⟨_, h, rfl⟩

/-- The states during a split: as before, or the keys `ks` are lost. -/
theorem InvP.split_along (F : FLaws c.f adm) (hN : 2 ≤ N) (I : Inv adm ec M s lst D) (hst : Stores lst D m) {k : K} {t : Nat}
    {A B : List Nat} (T : Target lst D k t A B) (hk : ∀ e ∈ (D t).slots.abs, e.1 ≠ k)
    (hfull : (D t).slots.bits.all = true) :
    ∃ a b sk sw, splitData c (D t) = .ok (a, b, sk) ∧ splitWrites c M s t = .ok (sw, sk) ∧
      applyAll s sw = { splitState s t a b with nodeCount := s.nodeCount } ∧
      Inv adm ec M (splitState s t a b) (lst1 lst A B t s.fresh) (put (put D t a) s.fresh b) ∧
      Stores (lst1 lst A B t s.fresh) (put (put D t a) s.fresh b) m ∧
      a.slots.abs.length < N ∧ b.slots.abs.length < N ∧ 0 < (keysOf b).length ∧ (keysOf b).length < N ∧ (keysOf b).Nodup ∧
      (∀ x ∈ keysOf b, (m x).isSome) ∧
      (∃ A' B', Target (lst1 lst A B t s.fresh) (put (put D t a) s.fresh b) k (if sk ≤ k then s.fresh else t) A' B') ∧
      (put (put D t a) s.fresh b (if sk ≤ k then s.fresh else t)).slots.abs.length < N ∧
      (∀ e ∈ (put (put D t a) s.fresh b (if sk ≤ k then s.fresh else t)).slots.abs, e.1 ≠ k) ∧
      Along (fun s' => OkS adm M m s' ∨ OkS adm M (cut m (keysOf b)) s') s sw ∧
      ∃ q, OkS adm M (cut m (keysOf b)) (applyAll s (sw.take q)) := by
  have ht := T.mem
  have hM : 0 < M := by have := I.lvl; omega
  have hnode := I.nodes t ht
  have htf := I.lt_fresh ht
  have hfull' := (Bitmap.all_iff hnode.2.ok.clean (by omega)).1 hfull
  obtain ⟨a, b, sk, e1, oka, okb, hma, hmb, hla, hlb, h1, h2, h3, h4, h5, h6⟩ := splitData_spec F hN hnode.2 hfull'
  have I1 := I.split T.eq oka okb h1 h2 h3 h4 h5 h6
  obtain ⟨cw, e2, e3, e4⟩ := splitWrites_spec (M := M) (s := s) hM hnode.1 e1
  have hs := I.sorted
  rw [T.eq, List.pairwise_append, List.pairwise_cons] at hs
  have hmem : ∀ y, y ∈ A ++ t :: s.fresh :: B ↔ y = s.fresh ∨ y ∈ lst 0 := by
    intro y
    rw [T.eq]
    simp only [List.mem_append, List.mem_cons]
    tauto
  have hDold : ∀ y, y ≠ t → y ≠ s.fresh → put (put D t a) s.fresh b y = D y := fun y hy hy' => by
    rw [put_ne _ _ hy', put_ne _ _ hy]
  have hDt : put (put D t a) s.fresh b t = a := by rw [put_ne _ _ (by omega), put_self]
  have hDx : put (put D t a) s.fresh b s.fresh = b := put_self _ _ _
  have hent : ∀ e : K × V, (∃ y ∈ A ++ t :: s.fresh :: B, e ∈ (put (put D t a) s.fresh b y).slots.abs) ↔
      ∃ y ∈ lst 0, e ∈ (D y).slots.abs := by
    intro e
    constructor
    · rintro ⟨y, hy, he⟩
      by_cases hyx : y = s.fresh
      · rw [hyx, hDx] at he
        exact ⟨t, ht, ((hmb e).1 he).1⟩
      · by_cases hyt : y = t
        · rw [hyt, hDt] at he
          exact ⟨t, ht, ((hma e).1 he).1⟩
        · rw [hDold y hyt hyx] at he
          exact ⟨y, ((hmem y).1 hy).resolve_left hyx, he⟩
    · rintro ⟨y, hy, he⟩
      have hyx : y ≠ s.fresh := fun hc => by have := I.lt_fresh hy; omega
      by_cases hyt : y = t
      · rw [hyt] at he
        by_cases hsk : e.1 < sk
        · exact ⟨t, (hmem t).2 (Or.inr ht), by rw [hDt]; exact (hma e).2 ⟨he, hsk⟩⟩
        · exact ⟨s.fresh, (hmem _).2 (Or.inl rfl), by rw [hDx]; exact (hmb e).2 ⟨he, not_lt.1 hsk⟩⟩
      · exact ⟨y, (hmem y).2 (Or.inr hy), by rw [hDold y hyt hyx]; exact he⟩
  have hst1 : Stores (lst1 lst A B t s.fresh) (put (put D t a) s.fresh b) m := fun k' v' => by
    rw [hst k' v']; exact (hent _).symm
  -- the lost keys
  have hcut : ∀ n' : WNode N K V, (∀ e, e ∈ n'.slots.abs ↔ e ∈ a.slots.abs) → Stores lst (put D t n') (cut m (keysOf b)) := by
    intro n' hn' k' v'
    unfold cut
    constructor
    · intro h
      by_cases hkb : k' ∈ keysOf b
      · rw [if_pos hkb] at h; exact absurd h (by simp)
      · rw [if_neg hkb] at h
        obtain ⟨y, hy, he⟩ := (hst k' v').1 h
        refine ⟨y, hy, ?_⟩
        by_cases hyt : y = t
        · rw [hyt] at he
          rw [hyt, put_self, hn', hma]
          refine ⟨he, lt_of_not_ge fun hc => hkb (mem_keysOf.2 ⟨v', (hmb _).2 ⟨he, hc⟩⟩)⟩
        · rw [put_ne _ _ hyt]; exact he
    · rintro ⟨y, hy, he⟩
      by_cases hyt : y = t
      · rw [hyt, put_self, hn', hma] at he
        rw [if_neg, hst k' v']
        · exact ⟨t, ht, he.1⟩
        · rw [mem_keysOf]
          rintro ⟨v2, h⟩
          exact absurd he.2 (not_lt.2 ((hmb _).1 h).2)
      · rw [put_ne _ _ hyt] at he
        rw [if_neg, hst k' v']
        · exact ⟨y, hy, he⟩
        · rw [mem_keysOf]
          rintro ⟨v2, h⟩
          have hb1 := hnode.2.bnd _ ((hmb _).1 h).1
          exact hyt (I.unique hy ht ((I.nodes y hy).2.bnd _ he) hb1)
  -- a state in which node `t` has only the lower half
  have hlow : ∀ (n' : WNode N K V) (s' : WL N K V), n'.slots = a.slots →
      (n'.min = (D t).min ∨ n'.min = a.min) → (n'.max = (D t).max ∨ n'.max = a.max) →
      s'.level = s.level → s'.nodeCount = s.nodeCount → s'.fresh = s.fresh + 1 → s'.dat t = some n' →
      (∀ y, y ≠ t → y ≠ s.fresh → s'.dat y = s.dat y) → (∀ y i, y ≠ s.fresh → s'.fwd y i = s.fwd y i) →
      OkS adm M (cut m (keysOf b)) s' := by
    intro n' s' hsl hmn hmx hlv hct hfr hdt hdy hfw
    have hmn1 : (D t).min ≤ n'.min := by rcases hmn with h | h <;> rw [h]; exact h1
    have hmn2 : n'.min ≤ a.min := by rcases hmn with h | h <;> rw [h]; exact h1
    have hmx1 : a.max ≤ n'.max := by
      rcases hmx with h | h <;> rw [h]
      exact (h3.le.trans h4).trans (h5.trans h6)
    have hmx2 : n'.max ≤ (D t).max := by
      rcases hmx with h | h <;> rw [h]
      exact (h3.le.trans h4).trans (h5.trans h6)
    have I2 := I.replace T.eq (n' := n') ⟨by rw [hsl]; exact oka.ok, fun e he => by
        rw [hsl] at he
        exact ⟨hmn2.trans (oka.bnd e he).1, (oka.bnd e he).2.trans hmx1⟩⟩
      (fun y hy => (hs.2.2 y hy t (by simp)).trans_le hmn1) (fun y hy => hmx2.trans_lt (hs.2.1.1 y hy))
      (fun y hy hyt => hmn2.trans (h2.trans hmx1))
    refine ⟨ec, lst, put D t n', I2.congr hlv hct ?_ ?_ ?_, hcut n' fun e => by rw [hsl]⟩
    · intro y hy
      show _ = put s.dat t (some n') y
      by_cases hyt : y = t
      · rw [hyt, hdt, put_self]
      · rw [put_ne _ _ hyt]
        refine hdy y hyt ?_
        rcases hy with rfl | hy
        · have := I.fresh_pos; omega
        · have := I.lt_fresh hy; omega
    · intro y hy
      rw [hdy y (by omega) (by omega)]
      exact I.fresh y (by omega)
    · intro i _ y hy
      refine hfw y i ?_
      rcases hy with rfl | hy
      · have := I.fresh_pos; omega
      · have := I.lt_fresh (I.sub0 i hy); omega
  -- the allocation and the copies
  have halloc : ∀ n' : WNode N K V, OkS adm M m ({ s with
      dat := put s.dat s.fresh (some n'), fwd := put s.fwd s.fresh (fun _ => none), fresh := s.fresh + 1 } : WL N K V) := by
    intro n'
    refine ⟨ec, lst, D, I.congr rfl rfl ?_ ?_ ?_, hst⟩
    · intro y hy
      refine put_ne _ _ ?_
      rcases hy with rfl | hy
      · have := I.fresh_pos; omega
      · have := I.lt_fresh hy; omega
    · intro y hy
      have hy : s.fresh + 1 ≤ y := hy
      show put s.dat s.fresh (some n') y = _
      rw [put_ne _ _ (by omega)]
      exact I.fresh y (by omega)
    · intro i _ y hy
      show put s.fwd s.fresh _ y i = _
      rw [put_ne _ _]
      rcases hy with rfl | hy
      · have := I.fresh_pos; omega
      · have := I.lt_fresh (I.sub0 i hy); omega
  -- the state after the copies
  have hcopy : applyAll (Write.apply s (.alloc (newNode c N c.lim.max c.lim.min 0))) (cw.map (.node s.fresh)) =
      ({ s with dat := put s.dat s.fresh (some b), fwd := put s.fwd s.fresh (fun _ => none), fresh := s.fresh + 1 } :
        WL N K V) := by
    rw [applyAll_node cw _ (newNode c N c.lim.max c.lim.min 0) (put_self _ _ _), e3]
    simp only [Write.apply]
    congr 1
    funext y
    by_cases hy : y = s.fresh
    · rw [hy, put_self, put_self]
    · rw [put_ne _ _ hy, put_ne _ _ hy, put_ne _ _ hy]
  generalize hS : ({ s with dat := put s.dat s.fresh (some b), fwd := put s.fwd s.fresh (fun _ => none), fresh := s.fresh + 1 } :
    WL N K V) = S at hcopy
  have hSd : S.dat t = some (D t) := by
    rw [← hS]
    show put s.dat s.fresh (some b) t = _
    rw [put_ne _ _ (by omega)]; exact hnode.1
  have hSdy : ∀ y, y ≠ s.fresh → S.dat y = s.dat y := by
    intro y hy
    rw [← hS]
    exact put_ne _ _ hy
  have hSf : ∀ y i, y ≠ s.fresh → S.fwd y i = s.fwd y i := by
    intro y i hy
    rw [← hS]
    show put s.fwd s.fresh _ y i = _
    rw [put_ne _ _ hy]
  have hSl : S.level = s.level ∧ S.nodeCount = s.nodeCount ∧ S.fresh = s.fresh + 1 := by rw [← hS]; exact ⟨rfl, rfl, rfl⟩
  -- the assignments to node `t`
  have hpre : ∀ q, q ≠ 0 → OkS adm M (cut m (keysOf b)) (applyAll S
      ((([.bits a.slots.bits, .max a.max, .min a.min] : List (NW N K V)).take q).map (.node t))) := by
    intro q hq
    rw [applyAll_node _ _ _ hSd]
    have hsl : ({ (D t).slots with bits := a.slots.bits } : FLeaf N K V) = a.slots := (congrArg WNode.slots e4).symm
    rcases q with _ | _ | _ | q
    · exact absurd rfl hq
    · refine hlow { D t with slots := { (D t).slots with bits := a.slots.bits } } _ hsl (Or.inl rfl) (Or.inl rfl) hSl.1 hSl.2.1
        hSl.2.2 (put_self _ _ _) (fun y hy hy' => ?_) hSf
      show put S.dat t _ y = _
      rw [put_ne _ _ hy]; exact hSdy y hy'
    · refine hlow ⟨{ (D t).slots with bits := a.slots.bits }, (D t).min, a.max, (D t).nodeLevel⟩ _ hsl (Or.inl rfl) (Or.inr rfl)
        hSl.1 hSl.2.1 hSl.2.2 (put_self _ _ _) (fun y hy hy' => ?_) hSf
      show put S.dat t _ y = _
      rw [put_ne _ _ hy]; exact hSdy y hy'
    · refine hlow ⟨{ (D t).slots with bits := a.slots.bits }, a.min, a.max, (D t).nodeLevel⟩ _ hsl (Or.inr rfl)
        (Or.inr rfl) hSl.1 hSl.2.1 hSl.2.2 ?_ (fun y hy hy' => ?_) hSf
      · show put S.dat t _ t = _
        rw [put_self, List.take_of_length_le (by simp)]
        rfl
      · show put S.dat t _ y = _
        rw [put_ne _ _ hy]; exact hSdy y hy'
  have hthree : applyAll S ([.node t (.bits a.slots.bits), .node t (.max a.max), .node t (.min a.min)] : List (Write N K V)) =
      { S with dat := put S.dat t (some a) } := by
    rw [show ([.node t (.bits a.slots.bits), .node t (.max a.max), .node t (.min a.min)] : List (Write N K V)) =
      (([.bits a.slots.bits, .max a.max, .min a.min] : List (NW N K V))).map (.node t) from rfl, applyAll_node _ _ _ hSd]
    have : applyN (D t) [.bits a.slots.bits, .max a.max, .min a.min] = a := by rw [e4]; rfl
    rw [this]
  -- the links
  have hfin : applyAll s (.alloc (newNode c N c.lim.max c.lim.min 0) :: (cw.map (.node s.fresh) ++
        [.node t (.bits a.slots.bits), .node t (.max a.max), .node t (.min a.min), .fwd s.fresh 0 (s.fwd t 0),
          .fwd t 0 (some s.fresh)])) = ({ splitState s t a b with nodeCount := s.nodeCount } : WL N K V) := by
    rw [applyAll_cons, applyAll_append, hcopy]
    rw [show ([.node t (.bits a.slots.bits), .node t (.max a.max), .node t (.min a.min), .fwd s.fresh 0 (s.fwd t 0),
          .fwd t 0 (some s.fresh)] : List (Write N K V)) = [.node t (.bits a.slots.bits), .node t (.max a.max), .node t (.min a.min)] ++
          [.fwd s.fresh 0 (s.fwd t 0), .fwd t 0 (some s.fresh)] from rfl, applyAll_append, hthree, ← hS]
    simp only [applyAll, List.foldl_cons, List.foldl_nil, Write.apply, splitState]
    congr 1
    · funext y
      by_cases hyt : y = t
      · rw [hyt, put_self, put_ne _ _ (by omega), put_self]
      · rw [put_ne _ _ hyt]
        by_cases hyx : y = s.fresh
        · rw [hyx, put_self, put_self]
        · rw [put_ne _ _ hyx, put_ne _ _ hyx, put_ne _ _ hyt]
    · rw [put_ne _ _ (show t ≠ s.fresh by omega), put_ne _ _ (show t ≠ s.fresh by omega)]
  have hne : ∃ e, e ∈ b.slots.abs := by
    by_contra hc
    have hall : ∀ e ∈ (D t).slots.abs, e ∈ a.slots.abs := fun e he => (hma e).2
      ⟨he, lt_of_not_ge fun h => hc ⟨e, (hmb e).2 ⟨he, h⟩⟩⟩
    have hsub : (D t).slots.abs.Subperm a.slots.abs := List.subperm_of_subset
      (hnode.2.ok.sorted.imp (fun h e => by rw [e] at h; exact absurd h (lt_irrefl _))) hall
    have h7 := hsub.length_le
    have h8 : (D t).slots.abs.length = N := by
      rw [abs_length]
      have : BitmapSpec.members (D t).slots.bits = Finset.range N := by
        ext p; rw [Bitmap.mem_members, Finset.mem_range]
        exact ⟨fun h => h.1, fun hp => ⟨hp, hfull' p hp⟩⟩
      rw [this, Finset.card_range]
    omega
  have hAt : ∀ y ∈ A, put (put D t a) s.fresh b y = D y := by
    intro y hy
    have hyl : y ∈ lst 0 := by rw [T.eq]; simp [hy]
    have hnd := I.nodup 0
    rw [T.eq, List.nodup_append] at hnd
    exact hDold y (fun hc => hnd.2.2 y hy t (by simp) hc) (fun hc => by have := I.lt_fresh hyl; omega)
  have hBt : ∀ y ∈ B, put (put D t a) s.fresh b y = D y := by
    intro y hy
    have hyl : y ∈ lst 0 := by rw [T.eq]; simp [hy]
    have hnd := I.nodup 0
    rw [T.eq, List.nodup_append, List.nodup_cons] at hnd
    exact hDold y (by rintro rfl; exact hnd.2.1.1 hy) (fun hc => by have := I.lt_fresh hyl; omega)
  have hlost : ∀ q, q ≠ 0 → OkS adm M (cut m (keysOf b)) (applyAll S (([.node t (.bits a.slots.bits), .node t (.max a.max),
      .node t (.min a.min)] : List (Write N K V)).take q)) := by
    intro q hq
    have := hpre q hq
    rw [List.map_take] at this
    exact this
  refine ⟨a, b, sk, _, e1, e2, hfin, I1, hst1, hla, hlb, ?_, ?_, ?_, ?_, ?_, ?_, ?_, ?_, ?_⟩
  · obtain ⟨e, he⟩ := hne
    exact List.length_pos_of_mem (mem_keysOf.2 ⟨e.2, he⟩)
  · unfold keysOf; rw [List.length_map]; exact hlb
  · unfold keysOf
    rw [List.Nodup, List.pairwise_map]
    exact okb.ok.sorted.imp fun h e => by rw [e] at h; exact absurd h (lt_irrefl _)
  · intro x hx
    obtain ⟨v, hv⟩ := mem_keysOf.1 hx
    rw [(hst x v).2 ⟨t, ht, ((hmb _).1 hv).1⟩]; rfl
  · by_cases hsk : sk ≤ k
    · refine ⟨A ++ [t], B, ?_, ?_, ?_⟩
      · rw [if_pos hsk]
        show A ++ t :: s.fresh :: B = _; simp
      · intro y hy
        rcases List.mem_append.1 hy with hy | hy
        · rw [hAt y hy]; exact T.before y hy
        · rw [List.mem_singleton] at hy
          rw [hy, hDt]; exact h3.trans_le hsk
      · intro y hy
        rw [hBt y hy]; exact T.after y hy
    · refine ⟨A, s.fresh :: B, by rw [if_neg hsk]; rfl, ?_, ?_⟩
      · intro y hy; rw [hAt y hy]; exact T.before y hy
      · intro y hy
        rcases List.mem_cons.1 hy with rfl | hy
        · rw [hDx]; exact (not_le.1 hsk).trans_le h4
        · rw [hBt y hy]; exact T.after y hy
  · by_cases hsk : sk ≤ k
    · rw [if_pos hsk, hDx]; exact hlb
    · rw [if_neg hsk, hDt]; exact hla
  · by_cases hsk : sk ≤ k
    · rw [if_pos hsk, hDx]; exact fun e he => hk e ((hmb e).1 he).1
    · rw [if_neg hsk, hDt]; exact fun e he => hk e ((hma e).1 he).1
  · refine Along.cons (Or.inl ⟨ec, lst, D, I, hst⟩) (Along.append ?_ ?_)
    · refine along_node (put_self _ _ _) fun q => Or.inl ?_
      have := halloc (applyN (newNode c N c.lim.max c.lim.min 0) (cw.take q))
      convert this using 1
      simp only [Write.apply]
      congr 1
      funext y
      by_cases hy : y = s.fresh
      · rw [hy, put_self, put_self]
      · rw [put_ne _ _ hy, put_ne _ _ hy, put_ne _ _ hy]
    · rw [hcopy]
      refine Along.append (a := [.node t (.bits a.slots.bits), .node t (.max a.max), .node t (.min a.min)])
        (b := [.fwd s.fresh 0 (s.fwd t 0), .fwd t 0 (some s.fresh)]) ?_ ?_
      · intro q
        by_cases hq : q = 0
        · subst hq
          left
          rw [← hS]
          exact halloc b
        · exact Or.inr (hlost q hq)
      · rw [hthree]
        refine Along.cons (Or.inr ?_) (Along.cons (Or.inr ?_) (Along.nil (Or.inl ?_)))
        · have := hlost 3 (by omega)
          rw [List.take_of_length_le (by simp), hthree] at this
          exact this
        · refine hlow a _ rfl (Or.inr rfl) (Or.inr rfl) hSl.1 hSl.2.1 hSl.2.2 (put_self _ _ _) (fun y hy hy' => ?_)
            (fun y i hy => ?_)
          · show put S.dat t _ y = _
            rw [put_ne _ _ hy]; exact hSdy y hy'
          · show put S.fwd s.fresh _ y i = _
            rw [put_ne _ _ hy]; exact hSf y i hy
        · refine ⟨ec + 1, lst1 lst A B t s.fresh, put (put D t a) s.fresh b, ?_, hst1⟩
          rw [applyAll_cons, applyAll_append, hcopy, show ([.node t (.bits a.slots.bits), .node t (.max a.max), .node t (.min a.min), .fwd s.fresh 0 (s.fwd t 0),
              .fwd t 0 (some s.fresh)] : List (Write N K V)) = [.node t (.bits a.slots.bits), .node t (.max a.max), .node t (.min a.min)] ++
              [.fwd s.fresh 0 (s.fwd t 0), .fwd t 0 (some s.fresh)] from rfl, applyAll_append, hthree] at hfin
          show InvP _ _ _ (applyAll ({ S with dat := put S.dat t (some a) } : WL N K V)
            [.fwd s.fresh 0 (s.fwd t 0), .fwd t 0 (some s.fresh)]) _ _
          rw [hfin]
          exact ⟨I1.lvl, I1.head, I1.nodes, I1.fresh, I1.path, I1.sub, I1.nodup, I1.zero, I1.top, I1.ne, I1.sorted, I1.wf, by
            have := I1.count
            have h : (splitState s t a b).nodeCount = s.nodeCount + 1 := rfl
            rw [h] at this
            show s.nodeCount + (ec + 1) = _
            omega⟩
  · refine ⟨1 + (cw.length + 1), ?_⟩
    have h := hlost 1 (by omega)
    rw [← hcopy] at h
    rw [show 1 + (cw.length + 1) = (cw.length + 1) + 1 by omega, List.take_succ_cons, List.take_append,
      List.take_of_length_le (by simp), applyAll_cons, applyAll_append]
    simpa using h

/-! ## All assignments of an insert -/

/-- Overwriting the value of the key. -/
theorem InvP.setVal (I : Inv adm ec M s lst D) (hst : Stores lst D m) {k : K} {t : Nat} {A B : List Nat}
    (T : Target lst D k t A B) {q : Nat} (hq : q < N) (hb : Bitmap.bit (D t).slots.bits q = true)
    (hkq : (D t).slots.keys q = k) (v : V) : OkS adm M (ins m k v) (Write.apply s (.node t (.val q v))) := by
  have hnode := I.nodes t T.mem
  obtain ⟨hok, hm⟩ := vals_spec hnode.2 hq hb v
  rw [hkq] at hm
  have hs := I.sorted
  rw [T.eq, List.pairwise_append, List.pairwise_cons] at hs
  have e : Write.apply s (.node t (.val q v)) =
      { s with dat := put s.dat t (some { D t with slots := { (D t).slots with vals := upd (D t).slots.vals q v } }) } := by
    simp only [Write.apply, hnode.1, Option.map_some, NW.apply]
  rw [e]
  refine ⟨ec, lst, put D t { D t with slots := { (D t).slots with vals := upd (D t).slots.vals q v } },
    I.replace T.eq hok (fun y hy => hs.2.2 y hy t (by simp)) (fun y hy => hs.2.1.1 y hy)
      (fun y hy hyt => I.wf t T.mem y hy (fun hc => hyt hc.symm)), ?_⟩
  intro k' v'
  show (if k' = k then some v else m k') = some v' ↔ _
  constructor
  · intro h
    by_cases hkk : k' = k
    · rw [if_pos hkk] at h
      refine ⟨t, T.mem, ?_⟩
      rw [put_self]
      exact (hm _).2 (Or.inl (by rw [hkk, Option.some.inj h]))
    · rw [if_neg hkk] at h
      obtain ⟨a, ha, he⟩ := (hst k' v').1 h
      refine ⟨a, ha, ?_⟩
      by_cases hat : a = t
      · rw [hat, put_self]
        rw [hat] at he
        exact (hm _).2 (Or.inr ⟨he, hkk⟩)
      · rw [put_ne _ _ hat]; exact he
  · rintro ⟨a, hal, he⟩
    by_cases hat : a = t
    · rw [hat, put_self] at he
      rcases (hm _).1 he with h | ⟨h1, h2⟩
      · rw [if_pos (congrArg Prod.fst h), show v' = v from congrArg Prod.snd h]
      · rw [if_neg h2]; exact (hst k' v').2 ⟨t, T.mem, h1⟩
    · rw [put_ne _ _ hat] at he
      rw [if_neg]
      · exact (hst k' v').2 ⟨a, hal, he⟩
      · rintro rfl
        exact hat (T.only I hal he)

/-- The assignments of an insert: all of them together are the insert, and the states after all prefixes. -/
theorem InvP.insert_along (F : FLaws c.f adm) (hN : 2 ≤ N) (hM : 2 ≤ M) (I : Inv adm ec M s lst D) (hst : Stores lst D m)
    {k : K} (ha : adm k) (v : V) {r : Nat} (hr : r < M) :
    ∃ ws, insertWrites c M s k v r = .ok ((m k).isNone, ws) ∧
      WoSkip.insert c M s k v r = .ok ((m k).isNone, applyAll s ws) ∧
      (((applyAll s ws).nodeCount = s.nodeCount ∧ Along (Mid adm M m k v True) s ws) ∨
        ((applyAll s ws).nodeCount = s.nodeCount + 1 ∧ ∃ ks : List K, 0 < ks.length ∧ ks.length < N ∧ ks.Nodup ∧
          (∀ x ∈ ks, (m x).isSome) ∧
          Along (fun s' => Mid adm M m k v False s' ∨ OkS adm M (cut m ks) s') s ws ∧
          ∃ q, OkS adm M (cut m ks) (applyAll s (ws.take q)))) := by
  obtain ⟨p, u, t, A, B, e1, e2, e3, e4, hA, hB, hu⟩ := I.target k
  have hB' : k ≤ (D t).max ∨ B = [] := hB.imp id And.right
  have T : Target lst D k t A B := by
    refine ⟨e4, hA, fun y hy => ?_⟩
    have hs := I.sorted
    rw [e4, List.pairwise_append, List.pairwise_cons] at hs
    rcases hB with h | ⟨_, h⟩
    · exact h.trans_lt (hs.2.1.1 y hy)
    · rw [h] at hy; simp at hy
  have hnode := I.nodes t T.mem
  have htf := I.lt_fresh T.mem
  unfold insertWrites WoSkip.insert
  rw [e1, Res.ok_bind, Res.ok_bind]
  dsimp only
  rw [e2, Res.ok_bind, Res.ok_bind, e3, node, hnode.1, Res.ofOption_some, Res.ok_bind, Res.ok_bind]
  rcases findSlot_spec (D t).slots k N 0 (by omega) with ⟨q, ho, _, hq, hb, hkq⟩ | ⟨ho, hspec⟩
  · rw [ho, Res.ok_bind, Res.ok_bind]
    dsimp only
    have hmk : m k = some ((D t).slots.vals q) :=
      (hst k _).2 ⟨t, T.mem, mem_abs.2 ⟨q, hq, hb, by rw [hkq]⟩⟩
    refine ⟨[.node t (.val q v)], by rw [hmk]; rfl, ?_, Or.inl ⟨rfl, ?_⟩⟩
    · rw [hmk]
      simp only [applyAll, List.foldl_cons, List.foldl_nil, Write.apply, hnode.1, Option.map_some, NW.apply]
      rfl
    · exact Along.cons (Or.inl ⟨ec, lst, D, I, hst⟩) (Along.nil (Or.inr (Or.inl (I.setVal hst T hq hb hkq v))))
  · rw [ho, Res.ok_bind, Res.ok_bind]
    dsimp only
    have habs : ∀ e ∈ (D t).slots.abs, e.1 ≠ k := by
      intro e he
      obtain ⟨q, hq, hb, rfl⟩ := mem_abs.1 he
      exact hspec q (by omega) hq hb
    have hmk : m k = none := by
      rw [Option.eq_none_iff_forall_ne_some]
      intro v' hv'
      obtain ⟨a, ha, he⟩ := (hst k v').1 hv'
      rw [T.only I ha he] at he
      exact habs _ he rfl
    unfold WoSkip.insertInNode
    rw [hmk, node, hnode.1, Res.ofOption_some, Res.ok_bind]
    by_cases hfull : (D t).slots.bits.all = true
    · rw [if_pos hfull, if_pos hfull]
      obtain ⟨a, b, sk, sw, d1, d2, d3, I1, hst1, hla, hlb, hk1, hk2, hk3, hk4, ⟨A', B', T'⟩, hl', hk', hal, q, hq⟩ :=
        I.split_along F hN hst T habs hfull
      have I1' : Inv adm (ec + 1) M ({ splitState s t a b with nodeCount := s.nodeCount } : WL N K V)
          (lst1 lst A B t s.fresh) (put (put D t a) s.fresh b) :=
        ⟨I1.lvl, I1.head, I1.nodes, I1.fresh, I1.path, I1.sub, I1.nodup, I1.zero, I1.top, I1.ne, I1.sorted, I1.wf, by
          have := I1.count
          have h : (splitState s t a b).nodeCount = s.nodeCount + 1 := rfl
          rw [h] at this
          show s.nodeCount + (ec + 1) = _
          omega⟩
      obtain ⟨ew, n', w1, w2, w3, I2, hst2, hal2⟩ := I1'.entry_along hst1 T' hl' hk' ha hmk v (X := False) (fun h => h.elim)
      have I3 : Inv adm ec M ({ splitState s t a b with
          dat := put (splitState s t a b).dat (if sk ≤ k then s.fresh else t) (some n') } : WL N K V)
          (lst1 lst A B t s.fresh) (put (put (put D t a) s.fresh b) (if sk ≤ k then s.fresh else t) n') :=
        ⟨I2.lvl, I2.head, I2.nodes, I2.fresh, I2.path, I2.sub, I2.nodup, I2.zero, I2.top, I2.ne, I2.sorted, I2.wf, by
          have := I2.count
          show s.nodeCount + 1 + ec = _
          have h : (⟨(splitState s t a b).level, s.nodeCount, put (splitState s t a b).dat (if sk ≤ k then s.fresh else t) (some n'),
            (splitState s t a b).fwd, (splitState s t a b).fresh⟩ : WL N K V).nodeCount = s.nodeCount := rfl
          rw [h] at this
          omega⟩
      have hf : ∀ j, 1 ≤ j → lst1 lst A B t s.fresh j = lst j := fun j hj => if_neg (by omega)
      obtain ⟨rw1, r1, r2, hal3⟩ := I3.raise_along (t := t) (x := s.fresh)
        (show s.fresh ∈ A ++ t :: s.fresh :: B by simp)
        (fun j hj hc => by
          rw [hf j hj] at hc
          have := I.lt_fresh (I.sub0 j hc)
          omega)
        (show t ∈ A ++ t :: s.fresh :: B by simp)
        (show put (put (put s.fwd s.fresh (fun _ => none)) s.fresh _) t (put (s.fwd t) 0 (some s.fresh)) t 0 = _ by
          rw [put_self, put_self]) (u := u)
        (fun j hj1 hj2 => by
          obtain ⟨p, h1, A', B', h2⟩ := hu j hj2
          exact ⟨p, h1, A', B', by rw [hf j hj1]; exact h2⟩) hr hM
      -- the state before the links
      have hmid : applyAll s (sw ++ (ew.map (.node (if sk ≤ k then s.fresh else t)) ++ [.count])) =
          ({ splitState s t a b with
            dat := put (splitState s t a b).dat (if sk ≤ k then s.fresh else t) (some n') } : WL N K V) := by
        rw [applyAll_append, applyAll_append, d3, applyAll_node _ _ _ (I1'.nodes _ T'.mem).1, w3]
        rfl
      refine ⟨(sw ++ (ew.map (.node (if sk ≤ k then s.fresh else t)) ++ [.count])) ++ rw1, ?_, ?_, Or.inr ⟨?_, keysOf b, hk1, hk2, hk3, hk4, ?_, ?_⟩⟩
      · rw [d2, Res.ok_bind]
        dsimp only
        rw [d3, node, (I1'.nodes _ T'.mem).1, Res.ofOption_some, Res.ok_bind, w1, Res.ok_bind, hmid, r1, Res.ok_bind]
        rfl
      · have hM0 : 0 < M := by omega
        rw [d1, Res.ok_bind]
        dsimp only
        have g1 : put (put s.dat t (some a)) s.fresh (some b) t = some a := by rw [put_ne _ _ (by omega), put_self]
        have g2 : put (put s.dat t (some a)) s.fresh (some b) s.fresh = some b := put_self _ _ _
        rw [fwdAt_eq (M := M) (n := a) (s := { s with dat := _, fwd := _, fresh := _ }) g1 hM0, Res.ok_bind,
          setFwd_eq (M := M) (n := b) (s := { s with dat := _, fwd := _, fresh := _ }) g2 hM0, Res.ok_bind]
        dsimp only
        rw [setFwd_eq (M := M) (n := a) (s := { s with dat := _, fwd := _, fresh := _ }) g1 hM0, Res.ok_bind]
        have g3 : put s.fwd s.fresh (fun _ => none) t 0 = s.fwd t 0 := by rw [put_ne _ _ (by omega)]
        have g4 : ∀ f, put (put s.fwd s.fresh (fun _ => none)) s.fresh f t = s.fwd t := by
          intro f; rw [put_ne _ _ (by omega), put_ne _ _ (by omega)]
        dsimp only
        rw [g3, g4]
        have hn1 : node ({ splitState s t a b with nodeCount := s.nodeCount } : WL N K V) (if sk ≤ k then s.fresh else t) =
            .ok (put (put D t a) s.fresh b (if sk ≤ k then s.fresh else t)) := by
          rw [node, (I1'.nodes _ T'.mem).1, Res.ofOption_some]
        have hn2 : ∀ (f : WNode N K V → Res (Bool × WL N K V)), (node ({ splitState s t a b with nodeCount := s.nodeCount } : WL N K V)
            (if sk ≤ k then s.fresh else t) >>= f) = f (put (put D t a) s.fresh b (if sk ≤ k then s.fresh else t)) := by
          intro f; rw [hn1, Res.ok_bind]
        simp only [splitState] at hn2
        rw [hn2, w2, Res.ok_bind, Res.pure_eq, Res.ok_bind, if_pos rfl]
        have r2' : WoSkip.raise M ({ splitState s t a b with
          dat := put (splitState s t a b).dat (if sk ≤ k then s.fresh else t) (some n') } : WL N K V) t u r = _ := r2
        simp only [splitState] at r2'
        dsimp only
        rw [r2', Res.ok_bind, applyAll_append, hmid]
        rfl
      · obtain ⟨lst3, D3, I4, h0, _⟩ := hal3.all
        rw [applyAll_append, hmid]
        have h5 := I4.count
        have h6 := I3.count
        rw [h0, ← h6] at h5
        have h7 : (({ splitState s t a b with
            dat := put (splitState s t a b).dat (if sk ≤ k then s.fresh else t) (some n') } : WL N K V)).nodeCount = s.nodeCount + 1 := rfl
        rw [h7] at h5
        omega
      · refine Along.append (Along.append ?_ (Along.append ?_ ?_)) ?_
        · exact hal.mono fun s' h => h.elim (fun h => Or.inl (Or.inl h)) Or.inr
        · rw [d3]; exact hal2.mono fun s' h => Or.inl h
        · rw [← applyAll_append]
          refine Along.cons (Or.inl (Or.inr (Or.inl ?_))) (Along.nil (Or.inl (Or.inr (Or.inl ?_))))
          · rw [applyAll_append, d3, applyAll_node _ _ _ (I1'.nodes _ T'.mem).1, w3]
            exact ⟨_, _, _, I2, hst2⟩
          · refine ⟨ec, _, _, ?_, hst2⟩
            rw [applyAll_append, d3, applyAll_node _ _ _ (I1'.nodes _ T'.mem).1, w3]
            exact I3
        · rw [hmid]
          refine hal3.mono ?_
          rintro s' ⟨lst', D', I', h0, hD⟩
          refine Or.inl (Or.inr (Or.inl ⟨_, _, _, I', fun k' v' => ?_⟩))
          rw [hst2 k' v', h0]
          simp only [hD]
      · refine ⟨min q sw.length, ?_⟩
        rw [List.append_assoc, List.take_append, Nat.sub_eq_zero_of_le (Nat.min_le_right _ _), List.take_zero, List.append_nil]
        rw [← List.take_eq_take_min]
        exact hq
    · rw [if_neg hfull, if_neg hfull]
      have hl : (D t).slots.abs.length < N := by
        by_contra hc
        exact hfull ((Bitmap.all_iff hnode.2.ok.clean (by omega)).2 (full_of_length (by omega)))
      obtain ⟨ew, n', w1, w2, w3, I2, hst2, hal2⟩ := I.entry_along hst T hl habs ha hmk v (X := True) (fun _ => hB')
      refine ⟨ew.map (.node t), by rw [w1, Res.ok_bind]; rfl, ?_, Or.inl ⟨?_, hal2⟩⟩
      · rw [w2, Res.ok_bind, Res.pure_eq, Res.ok_bind, applyAll_node _ _ _ hnode.1, w3]
        rfl
      · rw [applyAll_node _ _ _ hnode.1]

/-! ## A retry -/

/-- As long as an entry lies outside the bounds of its node, inserting it again reports an update and changes nothing for
lookups. -/
theorem Weak.retry {k : K} {v : V} {X : Prop} (hx : X) (W : Weak adm M m k v X s) (v' : V) (r : Nat) :
    ∃ s', WoSkip.insert c M s k v' r = .ok (false, s') ∧ Weak adm M m k v' X s' := by
  obtain ⟨ec, lst, D, t, A, B, W, hB⟩ := W
  have hB := hB hx
  have I := W.inv
  have T := W.tgt
  obtain ⟨p, u, t', A', B', e1, e2, e3, e4, hA', hB', hu⟩ := I.target k
  have hnd := I.nodup 0
  have htt : t' = t := by
    have h1 : t' ∈ lst 0 := by rw [e4]; simp
    rw [T.eq] at h1
    rcases List.mem_append.1 h1 with h1 | h1
    · -- before `t`: its keys are smaller, so that it is the last node
      have h2 := T.before t' h1
      rcases hB' with h | ⟨_, h⟩
      · exact absurd h (not_le.2 h2)
      · have h3 : (lst 0).getLast? = some t' := by rw [e4, h]; simp
        have h4 : (lst 0).getLast? = (t :: B).getLast? := by rw [T.eq, List.getLast?_append_of_ne_nil _ (by simp)]
        rw [h3] at h4
        have h5 := List.mem_of_getLast? h4.symm
        rw [T.eq, List.nodup_append] at hnd
        exact absurd rfl (hnd.2.2 t' h1 t' h5)
    · rcases List.mem_cons.1 h1 with h1 | h1
      · exact h1
      · -- behind `t`
        exfalso
        have h2 : t ∈ lst 0 := T.mem
        rw [e4] at h2
        have hs := I.sorted
        rcases List.mem_append.1 h2 with h2 | h2
        · have h3 := hA' t h2
          rcases hB with h | h
          · exact absurd h (not_le.2 h3)
          · rw [h] at h1; simp at h1
        · rcases List.mem_cons.1 h2 with h2 | h2
          · rw [T.eq, List.nodup_append, List.nodup_cons] at hnd
            exact hnd.2.1.1 (h2 ▸ h1)
          · have h3 : (D t').max < (D t).min := by
              rw [e4, List.pairwise_append, List.pairwise_cons] at hs
              exact hs.2.1.1 t h2
            have h4 : (D t).max < (D t').min := by
              rw [T.eq, List.pairwise_append, List.pairwise_cons] at hs
              exact hs.2.1.1 t' h1
            have hne : t ≠ t' := by
              rintro rfl
              rw [T.eq, List.nodup_append, List.nodup_cons] at hnd
              exact hnd.2.1.1 h1
            have h5 := I.wf t T.mem t' (by rw [e4]; simp) hne
            have h6 := I.wf t' (by rw [e4]; simp) t T.mem (fun h => hne h.symm)
            exact absurd (h3.trans_le (h5.trans (h4.le.trans h6))) (lt_irrefl _)
  subst htt
  have hnode := I.nodes t' T.mem
  unfold WoSkip.insert
  rw [e1, Res.ok_bind]
  dsimp only
  rw [e2, Res.ok_bind, e3, node, hnode.1, Res.ofOption_some, Res.ok_bind]
  obtain ⟨q0, hq0, hb0, e0⟩ := mem_abs.1 W.mem
  rcases findSlot_spec (D t').slots k N 0 (by omega) with ⟨q, ho, _, hq, hb, hkq⟩ | ⟨_, hspec⟩
  swap
  · exact absurd (congrArg Prod.fst e0).symm (hspec q0 (Nat.zero_le _) hq0 hb0)
  rw [ho, Res.ok_bind]
  refine ⟨_, rfl, ?_⟩
  have hm : ∀ e, e ∈ FLeaf.abs ({ (D t').slots with vals := upd (D t').slots.vals q v' } : FLeaf N K V) ↔
      e = (k, v') ∨ (e ∈ (D t').slots.abs ∧ e.1 ≠ k) := by
    intro e
    rw [mem_abs, mem_abs]
    dsimp only [upd]
    constructor
    · rintro ⟨q', hq', hbq, rfl⟩
      by_cases hqp : q' = q
      · left; rw [if_pos hqp, hqp, hkq]
      · right
        rw [if_neg hqp]
        exact ⟨⟨q', hq', hbq, rfl⟩, fun hc => hqp (hnode.2.inj q' q hq' hq hbq hb (hc.trans hkq.symm))⟩
    · rintro (rfl | ⟨⟨q', hq', hbq, rfl⟩, hne⟩)
      · exact ⟨q, hq, hb, by rw [if_pos rfl, hkq]⟩
      · have hqp : q' ≠ q := by rintro rfl; exact hne hkq
        exact ⟨q', hq', hbq, by rw [if_neg hqp]⟩
  have hs := I.sorted
  rw [T.eq, List.pairwise_append, List.pairwise_cons] at hs
  rw [T.eq, List.nodup_append, List.nodup_cons] at hnd
  refine ⟨ec, lst, put D t' { D t' with slots := { (D t').slots with vals := upd (D t').slots.vals q v' } }, t', A, B,
    ⟨I.replace T.eq ⟨hnode.2.clean, hnode.2.inj, hnode.2.fp, hnode.2.adm⟩ (fun y hy => hs.2.2 y hy t' (by simp))
      (fun y hy => hs.2.1.1 y hy) (fun y hy hyt => I.wf t' T.mem y hy (fun hc => hyt hc.symm)), ⟨T.eq, ?_, ?_⟩, ?_, W.new,
      ?_, ?_, ?_, ?_⟩, ?_⟩
  · intro y hy
    rw [put_ne _ _ (fun hc => hnd.2.2 y hy t' (by simp) hc)]; exact T.before y hy
  · intro y hy
    rw [put_ne _ _ (by rintro rfl; exact hnd.2.1.1 hy)]; exact T.after y hy
  · intro k' w
    show (if k' = k then some v' else m k') = some w ↔ _
    have hold := W.st
    constructor
    · intro h
      by_cases hkk : k' = k
      · rw [if_pos hkk] at h
        refine ⟨t', T.mem, ?_⟩
        rw [put_self]
        exact (hm _).2 (Or.inl (by rw [hkk, Option.some.inj h]))
      · rw [if_neg hkk] at h
        obtain ⟨a, ha, he⟩ := (hold k' w).1 (by rw [ins, if_neg hkk]; exact h)
        refine ⟨a, ha, ?_⟩
        by_cases hat : a = t'
        · rw [hat, put_self]
          rw [hat] at he
          exact (hm _).2 (Or.inr ⟨he, hkk⟩)
        · rw [put_ne _ _ hat]; exact he
    · rintro ⟨a, hal, he⟩
      by_cases hat : a = t'
      · rw [hat, put_self] at he
        rcases (hm _).1 he with h | ⟨h1, h2⟩
        · rw [if_pos (congrArg Prod.fst h), show w = v' from congrArg Prod.snd h]
        · rw [if_neg h2]
          have := (hold k' w).2 ⟨t', T.mem, h1⟩
          rw [ins, if_neg h2] at this
          exact this
      · rw [put_ne _ _ hat] at he
        have hkk : k' ≠ k := by rintro rfl; exact hat (W.only a hal w he)
        rw [if_neg hkk]
        have := (hold k' w).2 ⟨a, hal, he⟩
        rw [ins, if_neg hkk] at this
        exact this
  · rw [put_self]; exact (hm _).2 (Or.inl rfl)
  · intro a ha w hw
    by_contra hat
    rw [put_ne _ _ hat] at hw
    exact hat (W.only a ha w hw)
  · rw [put_self]; exact W.out
  · intro a ha e he hne
    by_cases hat : a = t'
    · rw [hat, put_self] at he ⊢
      rcases (hm e).1 he with h | ⟨h1, _⟩
      · exact absurd (congrArg Prod.fst h) hne
      · exact W.bnd t' T.mem e h1 hne
    · rw [put_ne _ _ hat] at he ⊢
      exact W.bnd a ha e he hne
  · intro _
    rw [put_self]; exact hB

end Verif.WoSkip
