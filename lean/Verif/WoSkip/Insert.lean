import Verif.WoSkip.Inv

/-!
# `insert` of the write-optimised skip list preserves the invariant
-/

set_option linter.unusedSectionVars false

namespace Verif.WoSkip

open Search FPTree BTree Assoc
open Verif.SkipList (Path getLastD_append_cons getLastD_cons getLastD_mem put put_self put_ne)

variable {K V : Type} [LinearOrder K] [Inhabited K] {N M : Nat} {c : WCfg K V} {adm : K → Prop}
  {s : WL N K V} {lst : Nat → List Nat} {D : Nat → WNode N K V} {ec : Nat} {P : WNode N K V → Prop}

/-- Exchanging the contents of node `t`. -/
theorem InvP.replace (I : InvP P ec M s lst D) {A B : List Nat} {t : Nat} (e : lst 0 = A ++ t :: B) {n' : WNode N K V}
    (hn : P n') (hA : ∀ y ∈ A, (D y).max < n'.min) (hB : ∀ y ∈ B, n'.max < (D y).min)
    (hw : ∀ y ∈ lst 0, y ≠ t → n'.min ≤ n'.max) :
    InvP P ec M { s with dat := put s.dat t (some n') } lst (put D t n') := by
  have ht : t ∈ lst 0 := by rw [e]; simp
  have hnd := I.nodup 0
  rw [e, List.nodup_append, List.nodup_cons] at hnd
  have hAt : ∀ y ∈ A, y ≠ t := fun y hy hc => hnd.2.2 y hy t (by simp) hc
  have hBt : ∀ y ∈ B, y ≠ t := by rintro y hy rfl; exact hnd.2.1.1 hy
  refine ⟨I.lvl, ?_, ?_, ?_, I.path, I.sub, I.nodup, I.zero, I.top, I.ne, ?_, ?_, I.count⟩
  · obtain ⟨n0, h0⟩ := I.head
    refine ⟨n0, ?_⟩
    show put s.dat t (some n') 0 = _
    rw [put_ne _ _ (by rintro rfl; exact I.zero ht)]; exact h0
  · intro a ha
    show put s.dat t (some n') a = _ ∧ _
    by_cases hat : a = t
    · rw [hat, put_self, put_self]; exact ⟨rfl, hn⟩
    · rw [put_ne _ _ hat, put_ne _ _ hat]; exact I.nodes a ha
  · intro a ha
    show put s.dat t (some n') a = _
    have := I.lt_fresh ht
    rw [put_ne _ _ (by rintro rfl; exact absurd ha (not_le.2 this))]
    exact I.fresh a ha
  · have hs := I.sorted
    rw [e, List.pairwise_append, List.pairwise_cons] at hs ⊢
    refine ⟨hs.1.imp_of_mem ?_, ⟨fun y hy => ?_, hs.2.1.2.imp_of_mem ?_⟩, ?_⟩
    · intro a b ha hb h
      rw [put_ne _ _ (hAt a ha), put_ne _ _ (hAt b hb)]; exact h
    · rw [put_self, put_ne _ _ (hBt y hy)]; exact hB y hy
    · intro a b ha hb h
      rw [put_ne _ _ (hBt a ha), put_ne _ _ (hBt b hb)]; exact h
    · intro a ha b hb
      rw [put_ne _ _ (hAt a ha)]
      rcases List.mem_cons.1 hb with rfl | hb'
      · rw [put_self]; exact hA a ha
      · rw [put_ne _ _ (hBt b hb')]; exact hs.2.2 a ha b hb
  · intro a ha b hb hab
    by_cases hat : a = t
    · rw [hat, put_self]; exact hw b hb (fun hc => hab (by rw [hat, hc]))
    · rw [put_ne _ _ hat]; exact I.wf a ha b hb hab

/-- Where the key `k` may be stored: the target node of an insert. -/
structure Target (lst : Nat → List Nat) (D : Nat → WNode N K V) (k : K) (t : Nat) (A B : List Nat) : Prop where
  eq : lst 0 = A ++ t :: B
  before : ∀ y ∈ A, (D y).max < k
  after : ∀ y ∈ B, k < (D y).min

theorem Target.mem {k : K} {t : Nat} {A B : List Nat} (T : Target lst D k t A B) : t ∈ lst 0 := by rw [T.eq]; simp

/-- Nodes behind the target have larger keys. -/
theorem Target.behind {k : K} {t : Nat} {A B : List Nat} (T : Target lst D k t A B) (I : InvP P ec M s lst D) :
    ∀ y ∈ B, k < (D y).min ∧ (D t).max < (D y).min := by
  intro y hy
  have hs := I.sorted
  rw [T.eq, List.pairwise_append, List.pairwise_cons] at hs
  exact ⟨T.after y hy, hs.2.1.1 y hy⟩

/-- Only the target node can contain the key. -/
theorem Target.only {k : K} {t : Nat} {A B : List Nat} (T : Target lst D k t A B) (I : Inv adm ec M s lst D) {a : Nat}
    (ha : a ∈ lst 0) {v : V} (hv : (k, v) ∈ (D a).slots.abs) : a = t := by
  have hb := (I.nodes a ha).2.bnd _ hv
  rw [T.eq] at ha
  rcases List.mem_append.1 ha with ha | ha
  · exact absurd hb.2 (not_le.2 (T.before a ha))
  · rcases List.mem_cons.1 ha with ha | ha
    · exact ha
    · exact absurd hb.1 (not_le.2 (T.behind I a ha).1)

/-- Adding the entry to the target node. -/
theorem InvP.add (I : Inv adm ec M s lst D) {k : K} {t : Nat} {A B : List Nat} (T : Target lst D k t A B)
    (hl : (D t).slots.abs.length < N) (hk : ∀ e ∈ (D t).slots.abs, e.1 ≠ k) (ha : adm k) (v : V) :
    ∃ n', addEntry (D t) k v = .ok n' ∧
      Inv adm ec M { s with dat := put s.dat t (some n') } lst (put D t n') ∧
      ∀ e, e ∈ n'.slots.abs ↔ e = (k, v) ∨ e ∈ (D t).slots.abs := by
  obtain ⟨n', e, hn, hm, h1, h2⟩ := addEntry_spec (I.nodes t T.mem).2 hl hk ha v
  refine ⟨n', e, I.replace T.eq hn ?_ ?_ ?_, hm⟩
  · intro y hy
    rw [h1]
    split
    · exact T.before y hy
    · have hs := I.sorted
      rw [T.eq, List.pairwise_append] at hs
      exact hs.2.2 y hy t (by simp)
  · intro y hy
    rw [h2]
    split
    · exact (T.behind I y hy).1
    · exact (T.behind I y hy).2
  · intro y hy hyt
    have h := I.wf t T.mem y hy (fun hc => hyt hc.symm)
    rw [h1, h2]
    by_cases ha : k < (D t).min
    · rw [if_pos ha]
      split
      · exact le_rfl
      · exact not_lt.1 ‹_›
    · rw [if_neg ha]
      split
      · exact h.trans (le_of_lt ‹_›)
      · exact h

/-- The list after node `x` has been linked behind `t` on level 0. -/
def lst1 (lst : Nat → List Nat) (A B : List Nat) (t x : Nat) : Nat → List Nat :=
  fun i => if i = 0 then A ++ t :: x :: B else lst i

/-- The state after `splitNode`. -/
def splitState (s : WL N K V) (t : Nat) (a b : WNode N K V) : WL N K V :=
  { s with
    dat := put (put s.dat t (some a)) s.fresh (some b),
    fwd := put (put (put s.fwd s.fresh (fun _ => none)) s.fresh
      (put ((put s.fwd s.fresh (fun _ => none)) s.fresh) 0 (s.fwd t 0))) t
      (put (s.fwd t) 0 (some s.fresh)),
    fresh := s.fresh + 1, nodeCount := s.nodeCount + 1 }

theorem InvP.split (I : Inv adm ec M s lst D) {A B : List Nat} {t : Nat} (et : lst 0 = A ++ t :: B) {a b : WNode N K V}
    {sk : K} (ha : NOk adm a) (hb : NOk adm b) (h1 : (D t).min ≤ a.min) (h2 : a.min ≤ a.max) (h3 : a.max < sk)
    (h4 : sk ≤ b.min) (h5 : b.min ≤ b.max) (h6 : b.max ≤ (D t).max) :
    Inv adm ec M (splitState s t a b) (lst1 lst A B t s.fresh) (put (put D t a) s.fresh b) := by
  have hM : 0 < M := by have := I.lvl; omega
  have ht : t ∈ lst 0 := by rw [et]; simp
  have htf := I.lt_fresh ht
  have hnd := I.nodup 0
  have hlt : ∀ y ∈ lst 0, y ≠ s.fresh := fun y hy hc => by have := I.lt_fresh hy; omega
  have hs := I.sorted
  rw [et, List.nodup_append, List.nodup_cons] at hnd
  rw [et, List.pairwise_append, List.pairwise_cons] at hs
  have hAl : ∀ y ∈ A, y ∈ lst 0 := fun y hy => by rw [et]; simp [hy]
  have hBl : ∀ y ∈ B, y ∈ lst 0 := fun y hy => by rw [et]; simp [hy]
  have hAt : ∀ y ∈ A, y ≠ t := fun y hy hc => hnd.2.2 y hy t (by simp) hc
  have hBt : ∀ y ∈ B, y ≠ t := by rintro y hy rfl; exact hnd.2.1.1 hy
  have hmem : ∀ y, y ∈ A ++ t :: s.fresh :: B ↔ y = s.fresh ∨ y ∈ lst 0 := by
    intro y
    rw [et]
    simp only [List.mem_append, List.mem_cons]
    tauto
  have hDold : ∀ y, y ≠ t → y ≠ s.fresh → put (put D t a) s.fresh b y = D y := fun y hy hy' => by
    rw [put_ne _ _ hy', put_ne _ _ hy]
  have hDt : put (put D t a) s.fresh b t = a := by rw [put_ne _ _ (by omega), put_self]
  have hDx : put (put D t a) s.fresh b s.fresh = b := put_self _ _ _
  have hfwd : ∀ y i, (splitState s t a b).fwd y i =
      if i = 0 ∧ y = t then some s.fresh else if y = s.fresh then (if i = 0 then s.fwd t 0 else none) else s.fwd y i := by
    intro y i
    show put (put (put s.fwd s.fresh (fun _ => none)) s.fresh
      (put ((put s.fwd s.fresh (fun _ => none)) s.fresh) 0 (s.fwd t 0))) t
      (put (s.fwd t) 0 (some s.fresh)) y i = _
    by_cases hyt : y = t
    · subst hyt
      rw [put_self]
      by_cases hi : i = 0
      · rw [hi, put_self, if_pos ⟨rfl, rfl⟩]
      · rw [put_ne _ _ hi, if_neg (fun hc => hi hc.1), if_neg (by omega)]
    · rw [put_ne _ _ hyt, if_neg (fun hc => hyt hc.2)]
      by_cases hyx : y = s.fresh
      · rw [hyx, put_self, put_self, if_pos rfl]
        by_cases hi : i = 0
        · rw [hi, put_self, if_pos rfl]
        · rw [put_ne _ _ hi, if_neg hi]
      · rw [put_ne _ _ hyx, put_ne _ _ hyx, if_neg hyx]
  refine ⟨I.lvl, ?_, ?_, ?_, ?_, ?_, ?_, ?_, ?_, ?_, ?_, ?_, ?_⟩
  · obtain ⟨n0, h0⟩ := I.head
    refine ⟨n0, ?_⟩
    show put (put s.dat t (some a)) s.fresh (some b) 0 = _
    rw [put_ne _ _ (by have := I.fresh_pos; omega), put_ne _ _ (by rintro rfl; exact I.zero ht)]; exact h0
  · intro y hy
    have hy := (hmem y).1 hy
    show put (put s.dat t (some a)) s.fresh (some b) y = _ ∧ _
    by_cases hyx : y = s.fresh
    · rw [hyx, hDx, put_self]; exact ⟨rfl, hb⟩
    · by_cases hyt : y = t
      · rw [hyt, hDt, put_ne _ _ (by omega), put_self]; exact ⟨rfl, ha⟩
      · rw [hDold y hyt hyx, put_ne _ _ hyx, put_ne _ _ hyt]
        exact I.nodes y (hy.resolve_left hyx)
  · intro y hy
    have hy : s.fresh + 1 ≤ y := hy
    show put (put s.dat t (some a)) s.fresh (some b) y = _
    rw [put_ne _ _ (by omega), put_ne _ _ (by omega)]
    exact I.fresh y (by omega)
  · intro i hi
    by_cases h0 : i = 0
    · subst h0
      show Path _ 0 (A ++ t :: s.fresh :: B)
      have hp := I.path 0 hi
      rw [et] at hp
      have e1 : A ++ t :: s.fresh :: B = (A ++ [t]) ++ s.fresh :: B := by simp
      have e2 : (A ++ [t]).getLastD 0 = t := by rw [getLastD_append_cons]; rfl
      rw [e1]
      refine Path.insert (f := fw s 0) ?_ ?_ ?_ ?_ ?_ ?_
      · simpa using hp
      · have := I.nodup 0
        rw [et] at this
        rw [List.append_assoc, List.nodup_cons]
        refine ⟨?_, by simpa using this⟩
        have hz := I.zero
        rw [et] at hz
        simpa using hz
      · rw [List.append_assoc, List.mem_cons, not_or]
        refine ⟨by have := I.fresh_pos; omega, fun hc => ?_⟩
        have : s.fresh ∈ lst 0 := by rw [et]; simpa using hc
        exact hlt _ this rfl
      · rw [e2]
        show some ((splitState s t a b).fwd s.fresh 0) = some (s.fwd t 0)
        rw [hfwd, if_neg (by omega), if_pos rfl, if_pos rfl]
      · rw [e2]
        show some ((splitState s t a b).fwd t 0) = _
        rw [hfwd, if_pos ⟨rfl, rfl⟩]
      · rw [e2]
        intro y hy1 hy2
        show some ((splitState s t a b).fwd y 0) = some (s.fwd y 0)
        rw [hfwd, if_neg (fun hc => hy2 hc.2), if_neg hy1]
    · show Path _ 0 (if i = 0 then _ else lst i)
      rw [if_neg h0]
      refine (I.path i hi).congr fun y hy => ?_
      show some ((splitState s t a b).fwd y i) = some (s.fwd y i)
      rw [hfwd, if_neg (fun hc => h0 hc.1), if_neg]
      rcases List.mem_cons.1 hy with rfl | hy
      · have := I.fresh_pos; omega
      · exact hlt y (I.sub0 i hy)
  · intro i y hy
    have hy : y ∈ lst (i + 1) := hy
    have := I.sub i hy
    show y ∈ (if i = 0 then _ else lst i)
    by_cases h0 : i = 0
    · rw [if_pos h0, hmem]; rw [h0] at this; exact Or.inr this
    · rw [if_neg h0]; exact this
  · intro i
    show (if i = 0 then _ else lst i).Nodup
    by_cases h0 : i = 0
    · rw [if_pos h0]
      have e1 : (A ++ t :: s.fresh :: B).Perm (s.fresh :: lst 0) := by
        rw [et]
        have : A ++ t :: s.fresh :: B = (A ++ [t]) ++ s.fresh :: B := by simp
        rw [this]
        refine List.perm_middle.trans ?_
        simp
      rw [e1.nodup_iff, List.nodup_cons]
      exact ⟨fun hc => hlt _ hc rfl, I.nodup 0⟩
    · rw [if_neg h0]; exact I.nodup i
  · intro hc
    rcases (hmem 0).1 hc with h | h
    · have := I.fresh_pos; omega
    · exact I.zero h
  · intro i hi
    have hi : s.level ≤ i := hi
    show (if i = 0 then _ else lst i) = _
    by_cases h0 : i = 0
    · rw [h0] at hi
      exact absurd (I.top 0 hi) I.ne
    · rw [if_neg h0]; exact I.top i hi
  · show A ++ t :: s.fresh :: B ≠ []
    simp
  · show (A ++ t :: s.fresh :: B).Pairwise _
    rw [List.pairwise_append, List.pairwise_cons, List.pairwise_cons]
    refine ⟨hs.1.imp_of_mem ?_, ⟨?_, ?_, hs.2.1.2.imp_of_mem ?_⟩, ?_⟩
    · intro y z hy hz h
      rw [hDold y (hAt y hy) (hlt y (hAl y hy)), hDold z (hAt z hz) (hlt z (hAl z hz))]; exact h
    · intro y hy
      rw [hDt]
      rcases List.mem_cons.1 hy with rfl | hy
      · rw [hDx]; exact h3.trans_le h4
      · rw [hDold y (hBt y hy) (hlt y (hBl y hy))]
        exact ((h3.trans_le h4).trans_le (h5.trans h6)).trans (hs.2.1.1 y hy)
    · intro y hy
      rw [hDx, hDold y (hBt y hy) (hlt y (hBl y hy))]
      exact h6.trans_lt (hs.2.1.1 y hy)
    · intro y z hy hz h
      rw [hDold y (hBt y hy) (hlt y (hBl y hy)), hDold z (hBt z hz) (hlt z (hBl z hz))]; exact h
    · intro y hy z hz
      rw [hDold y (hAt y hy) (hlt y (hAl y hy))]
      have hyt := hs.2.2 y hy t (by simp)
      rcases List.mem_cons.1 hz with rfl | hz
      · rw [hDt]; exact hyt.trans_le h1
      · rcases List.mem_cons.1 hz with rfl | hz
        · rw [hDx]
          exact (hyt.trans_le (h1.trans h2)).trans (h3.trans_le h4)
        · rw [hDold z (hBt z hz) (hlt z (hBl z hz))]
          exact hs.2.2 y hy z (by simp [hz])
  · intro y hy z hz hyz
    have hy := (hmem y).1 hy
    have hz := (hmem z).1 hz
    by_cases hyx : y = s.fresh
    · rw [hyx, hDx]; exact h5
    · by_cases hyt : y = t
      · rw [hyt, hDt]; exact h2
      · rw [hDold y hyt hyx]
        exact I.wf y (hy.resolve_left hyx) t ht hyt
  · show s.nodeCount + 1 + ec = (A ++ t :: s.fresh :: B).length
    have := I.count
    rw [et] at this
    simp at this ⊢
    omega

/-! ## The upper levels -/

theorem setFwd_eq {s : WL N K V} {a i : Nat} {n : WNode N K V} (ha : s.dat a = some n) (hi : i < M) (x : Option Nat) :
    setFwd M s a i x = .ok { s with fwd := put s.fwd a (put (s.fwd a) i x) } := by
  unfold setFwd node
  rw [ha, Res.ofOption_some, Res.ok_bind, if_pos hi]
  rfl

theorem link_spec {x : Nat} {u : Nat → Option Nat} {p : Nat → Nat} : ∀ (n i : Nat) (s : WL N K V),
    i + n ≤ M → (∀ j, i ≤ j → j < i + n → u j = some (p j) ∧ p j ≠ x ∧ ∃ m, s.dat (p j) = some m) →
    (∃ m, s.dat x = some m) →
    ∃ f', link M x u i n s = .ok { s with fwd := f' } ∧
      (∀ b j, f' b j = if i ≤ j ∧ j < i + n then
        (if b = x then s.fwd (p j) j else if b = p j then some x else s.fwd b j) else s.fwd b j)
  | 0, i, s, _, _, _ => ⟨s.fwd, rfl, fun b j => by rw [if_neg (by omega)]⟩
  | n + 1, i, s, hM, hu, ⟨mx, hx⟩ => by
    obtain ⟨hui, hpx, mp, hpi⟩ := hu i le_rfl (by omega)
    have e2 := setFwd_eq (M := M) (i := i) (s := ({ s with fwd := put s.fwd x (put (s.fwd x) i (s.fwd (p i) i)) } : WL N K V))
      hpi (by omega) (some x)
    rw [link, if_pos (by omega), hui, Res.ofOption_some, Res.ok_bind, fwdAt_eq hpi (by omega), Res.ok_bind,
      setFwd_eq hx (by omega), Res.ok_bind, e2, Res.ok_bind]
    obtain ⟨f', e', h'⟩ := link_spec n (i + 1)
      { s with fwd := (put (put s.fwd x (put (s.fwd x) i (s.fwd (p i) i))) (p i) (put ((put s.fwd x (put (s.fwd x) i (s.fwd (p i) i))) (p i)) i (some x))) } (by omega)
      (fun j h1 h2 => hu j (by omega) (by omega)) ⟨mx, hx⟩
    refine ⟨f', e', fun b j => ?_⟩
    rw [h']
    have hv : ∀ b j, put (put s.fwd x (put (s.fwd x) i (s.fwd (p i) i))) (p i)
        (put ((put s.fwd x (put (s.fwd x) i (s.fwd (p i) i))) (p i)) i (some x)) b j =
        if j = i then (if b = x then s.fwd (p i) i else if b = p i then some x else s.fwd b i) else s.fwd b j := by
      intro b j
      by_cases hbp : b = p i
      · subst hbp
        rw [put_self, put_ne _ _ hpx]
        by_cases hj : j = i
        · rw [hj, put_self, if_pos rfl, if_neg hpx, if_pos rfl]
        · rw [put_ne _ _ hj, if_neg hj]
      · rw [put_ne _ _ hbp]
        by_cases hbx : b = x
        · subst hbx
          rw [put_self]
          by_cases hj : j = i
          · rw [hj, put_self, if_pos rfl, if_pos rfl]
          · rw [put_ne _ _ hj, if_neg hj]
        · rw [put_ne _ _ hbx]
          by_cases hj : j = i
          · rw [if_pos hj, if_neg hbx, if_neg hbp, hj]
          · rw [if_neg hj]
    dsimp only
    by_cases hj : j = i
    · subst hj
      have h1 : ¬ (j + 1 ≤ j ∧ j < j + 1 + n) := by omega
      have h2 : j ≤ j ∧ j < j + (n + 1) := by omega
      rw [if_neg h1, hv, if_pos rfl, if_pos h2]
    · simp only [hv, if_neg hj]
      by_cases hr : i + 1 ≤ j ∧ j < i + 1 + n
      · rw [if_pos hr]
        symm
        rw [if_pos (by omega)]
      · rw [if_neg hr]
        symm
        rw [if_neg (by omega)]

/-- A node of level 0 that is on no other level gets a random height. -/
theorem InvP.raise (I : Inv adm ec M s lst D) {t x : Nat} (hx : x ∈ lst 0) (hup : ∀ j, 1 ≤ j → x ∉ lst j)
    (ht : t ∈ lst 0) (htx : s.fwd t 0 = some x) {u : Nat → Option Nat}
    (hu : ∀ j, 1 ≤ j → j ≤ s.level → ∃ p, u j = some p ∧ OnLevel lst j p) {r : Nat} (hr : r < M) (hM : 2 ≤ M) :
    ∃ s' lst' D', raise M s t u r = .ok s' ∧ Inv adm ec M s' lst' D' ∧ lst' 0 = lst 0 ∧
      ∀ a, (D' a).slots = (D a).slots := by
  have hx0 : x ≠ 0 := by rintro rfl; exact I.zero hx
  have hl1 : 1 ≤ randomLevel r ∧ randomLevel r < M := by unfold randomLevel; split <;> omega
  unfold WoSkip.raise
  dsimp only
  generalize randomLevel r = nl at hl1 ⊢
  -- the array `update`
  have hupd : ∃ u', (if s.level < nl then SkipList.fillHead M (s.level + 1) (nl - (s.level + 1)) u else pure u) =
      Res.ok u' ∧ ∀ j, 1 ≤ j → j < nl → ∃ p, u' j = some p ∧ OnLevel lst j p := by
    by_cases hgt : s.level < nl
    · rw [if_pos hgt, SkipList.fillHead_eq _ _ _ (by omega)]
      refine ⟨_, rfl, fun j hj1 hj2 => ?_⟩
      by_cases hjl : j ≤ s.level
      · rw [if_neg (by omega)]; exact hu j hj1 hjl
      · rw [if_pos (by omega)]
        exact ⟨0, rfl, [], [], I.top j (by omega), rfl⟩
    · rw [if_neg hgt]
      exact ⟨u, rfl, fun j hj1 hj2 => hu j hj1 (by omega)⟩
  obtain ⟨u', hu1, hu2⟩ := hupd
  rw [hu1, Res.ok_bind]
  have hsd : (if s.level < nl then { s with level := nl } else s) =
      ({ s with level := if s.level < nl then nl else s.level } : WL N K V) := by
    split <;> rfl
  have e0 := fwdAt_eq (M := M) (i := 0) (s := ({ s with level := if s.level < nl then nl else s.level } : WL N K V))
    (I.nodes t ht).1 (by omega)
  rw [hsd, e0, Res.ok_bind]
  dsimp only
  rw [htx, Res.ofOption_some, Res.ok_bind, node, (I.nodes x hx).1, Res.ofOption_some, Res.ok_bind]
  have hu3 : ∀ j, ∃ p A B, (1 ≤ j → j < nl → u' j = some p ∧ lst j = A ++ B ∧ p = A.getLastD 0) := by
    intro j
    by_cases hj : 1 ≤ j ∧ j < nl
    · obtain ⟨p, h1, A, B, h2⟩ := hu2 j hj.1 hj.2
      exact ⟨p, A, B, fun _ _ => ⟨h1, h2⟩⟩
    · exact ⟨0, [], [], fun h1 h2 => absurd ⟨h1, h2⟩ hj⟩
  choose p A B hpAB using hu3
  have hlt := I.lt_fresh hx
  have hpx : ∀ j, 1 ≤ j → j < nl → p j ≠ x := by
    rintro j h1 h2 hc
    obtain ⟨_, h3, h4⟩ := hpAB j h1 h2
    rcases (I.onLevel ⟨A j, B j, h3, h4⟩).1 with h | h
    · exact hx0 (by rw [← hc, h])
    · exact hup j h1 (by rw [← hc]; exact h)
  obtain ⟨f', e', hf'⟩ := link_spec (M := M) (x := x) (u := u') (p := p) (nl - 1) 1
    ({ s with level := if s.level < nl then nl else s.level,
              dat := put s.dat x (some { D x with nodeLevel := nl }) } : WL N K V) (by omega)
    (fun j h1 h2 => by
      obtain ⟨h3, h4, h5⟩ := hpAB j h1 (by omega)
      refine ⟨h3, hpx j h1 (by omega), ?_⟩
      obtain ⟨_, m, hm⟩ := I.onLevel ⟨A j, B j, h4, h5⟩
      exact ⟨m, by
        show put s.dat x _ (p j) = _
        rw [put_ne _ _ (hpx j h1 (by omega))]; exact hm⟩)
    ⟨_, put_self _ _ _⟩
  refine ⟨_, fun j => if 1 ≤ j ∧ j < nl then A j ++ x :: B j else lst j, put D x { D x with nodeLevel := nl }, e', ?_, ?_, ?_⟩
  · have hD : ∀ a, (put D x { D x with nodeLevel := nl } a).min = (D a).min ∧
        (put D x { D x with nodeLevel := nl } a).max = (D a).max := by
      intro a
      by_cases hax : a = x
      · rw [hax, put_self]; exact ⟨rfl, rfl⟩
      · rw [put_ne _ _ hax]; exact ⟨rfl, rfl⟩
    have hmem : ∀ j, 1 ≤ j → j < nl → ∀ y, y ∈ A j ++ x :: B j ↔ y = x ∨ y ∈ lst j := by
      intro j h1 h2 y
      rw [(hpAB j h1 h2).2.1]
      simp only [List.mem_append, List.mem_cons]
      tauto
    have h00 : ¬ (1 ≤ 0 ∧ 0 < nl) := by omega
    refine ⟨?_, ?_, ?_, ?_, ?_, ?_, ?_, ?_, ?_, ?_, ?_, ?_, ?_⟩
    · show (if s.level < nl then nl else s.level) < M
      have := I.lvl
      split <;> omega
    · obtain ⟨n0, h0⟩ := I.head
      refine ⟨n0, ?_⟩
      show put s.dat x _ 0 = _
      rw [put_ne _ _ (fun h => hx0 h.symm)]; exact h0
    · intro a ha
      simp only [if_neg h00] at ha
      show put s.dat x _ a = _ ∧ _
      by_cases hax : a = x
      · rw [hax, put_self, put_self]
        have := (I.nodes x hx).2
        exact ⟨rfl, ⟨this.ok, this.bnd⟩⟩
      · rw [put_ne _ _ hax, put_ne _ _ hax]; exact I.nodes a ha
    · intro a ha
      have ha : s.fresh ≤ a := ha
      show put s.dat x _ a = _
      rw [put_ne _ _ (by omega)]; exact I.fresh a ha
    · intro j hj
      dsimp only
      by_cases hjn : 1 ≤ j ∧ j < nl
      · obtain ⟨h3, h4, h5⟩ := hpAB j hjn.1 hjn.2
        rw [if_pos hjn]
        have hzero : 0 ∉ lst j := fun h => I.zero (I.sub0 j h)
        have hp := I.path j hj
        rw [h4] at hp hzero
        have hnd := I.nodup j
        rw [h4] at hnd
        refine Path.insert (f := fw s j) hp (List.nodup_cons.2 ⟨hzero, hnd⟩) ?_ ?_ ?_ ?_
        · rw [List.mem_cons, not_or, ← h4]
          exact ⟨hx0, hup j hjn.1⟩
        · rw [← h5]
          show some (f' x j) = some (s.fwd (p j) j)
          rw [hf', if_pos (by omega), if_pos rfl]
        · rw [← h5]
          show some (f' (p j) j) = _
          rw [hf', if_pos (by omega), if_neg (hpx j hjn.1 hjn.2), if_pos rfl]
        · rw [← h5]
          intro b hb1 hb2
          show some (f' b j) = some (s.fwd b j)
          rw [hf', if_pos (by omega), if_neg hb1, if_neg hb2]
      · rw [if_neg hjn]
        refine (I.path j hj).congr fun y hy => ?_
        show some (f' y j) = some (s.fwd y j)
        rw [hf', if_neg (by omega)]
    · intro j y hy
      by_cases h1 : 1 ≤ j + 1 ∧ j + 1 < nl
      · rw [if_pos h1, hmem _ h1.1 h1.2] at hy
        by_cases h2 : 1 ≤ j ∧ j < nl
        · rw [if_pos h2, hmem _ h2.1 h2.2]
          exact hy.imp id (fun h => I.sub j h)
        · rw [if_neg h2]
          rcases hy with rfl | hy
          · have : j = 0 := by omega
            rw [this]; exact hx
          · exact I.sub j hy
      · rw [if_neg h1] at hy
        have := I.sub j hy
        by_cases h2 : 1 ≤ j ∧ j < nl
        · rw [if_pos h2, hmem _ h2.1 h2.2]; exact Or.inr this
        · rw [if_neg h2]; exact this
    · intro j
      by_cases h2 : 1 ≤ j ∧ j < nl
      · rw [if_pos h2]
        have h4 := (hpAB j h2.1 h2.2).2.1
        have e1 : (A j ++ x :: B j).Perm (x :: lst j) := by rw [h4]; exact List.perm_middle
        rw [e1.nodup_iff, List.nodup_cons]
        exact ⟨hup j h2.1, I.nodup j⟩
      · rw [if_neg h2]; exact I.nodup j
    · simp only [if_neg h00]; exact I.zero
    · intro j hj
      have hj : (if s.level < nl then nl else s.level) ≤ j := hj
      have : nl ≤ j ∧ s.level ≤ j := by
        by_cases h : s.level < nl
        · rw [if_pos h] at hj; omega
        · rw [if_neg h] at hj; omega
      rw [if_neg (by omega)]
      exact I.top j this.2
    · simp only [if_neg h00]; exact I.ne
    · simp only [if_neg h00]
      refine I.sorted.imp ?_
      intro a b h
      rw [(hD a).2, (hD b).1]; exact h
    · simp only [if_neg h00]
      intro a ha b hb hab
      rw [(hD a).1, (hD a).2]; exact I.wf a ha b hb hab
    · simp only [if_neg h00]; exact I.count
  · have h00 : ¬ (1 ≤ 0 ∧ 0 < nl) := by omega
    dsimp only
    rw [if_neg h00]
  · intro a
    by_cases hax : a = x
    · rw [hax, put_self]
    · rw [put_ne _ _ hax]

/-! ## The map -/

theorem Stores.add {lst' : Nat → List Nat} {D' : Nat → WNode N K V} {m : K → Option V} (h : Stores lst D m) {k : K} {v : V}
    (hk : m k = none)
    (hs : ∀ e : K × V, (∃ a ∈ lst' 0, e ∈ (D' a).slots.abs) ↔ e = (k, v) ∨ ∃ a ∈ lst 0, e ∈ (D a).slots.abs) :
    Stores lst' D' (fun x => if x = k then some v else m x) := by
  intro k' v'
  rw [hs (k', v')]
  show (if k' = k then some v else m k') = some v' ↔ _
  by_cases hkk : k' = k
  · subst hkk
    rw [if_pos rfl]
    constructor
    · intro e; left; rw [Option.some.inj e]
    · rintro (e | ⟨a, ha, he⟩)
      · rw [show v' = v from congrArg Prod.snd e]
      · rw [(h k' v').2 ⟨a, ha, he⟩] at hk; exact absurd hk (by simp)
  · rw [if_neg hkk, h k' v']
    constructor
    · exact Or.inr
    · rintro (e | h)
      · exact absurd (congrArg Prod.fst e) hkk
      · exact h

/-- Overwriting the value in slot `p`. -/
theorem vals_spec {n : WNode N K V} (h : NOk adm n) {p : Nat} (hp : p < N) (hb : Bitmap.bit n.slots.bits p = true) (v : V) :
    NOk adm ({ n with slots := { n.slots with vals := upd n.slots.vals p v } } : WNode N K V) ∧
    ∀ e, e ∈ FLeaf.abs ({ n.slots with vals := upd n.slots.vals p v } : FLeaf N K V) ↔
      e = (n.slots.keys p, v) ∨ (e ∈ n.slots.abs ∧ e.1 ≠ n.slots.keys p) := by
  have hm : ∀ e, e ∈ FLeaf.abs ({ n.slots with vals := upd n.slots.vals p v } : FLeaf N K V) ↔
      e = (n.slots.keys p, v) ∨ (e ∈ n.slots.abs ∧ e.1 ≠ n.slots.keys p) := by
    intro e
    rw [mem_abs, mem_abs]
    dsimp only [upd]
    constructor
    · rintro ⟨q, hq, hbq, rfl⟩
      by_cases hqp : q = p
      · left; rw [if_pos hqp, hqp]
      · right
        rw [if_neg hqp]
        exact ⟨⟨q, hq, hbq, rfl⟩, fun hc => hqp (h.ok.inj q p hq hp hbq hb hc)⟩
    · rintro (rfl | ⟨⟨q, hq, hbq, rfl⟩, hne⟩)
      · exact ⟨p, hp, hb, by rw [if_pos rfl]⟩
      · have hqp : q ≠ p := by rintro rfl; exact hne rfl
        exact ⟨q, hq, hbq, by rw [if_neg hqp]⟩
  refine ⟨⟨⟨h.ok.clean, h.ok.inj, h.ok.fp, h.ok.adm⟩, fun e he => ?_⟩, hm⟩
  rcases (hm e).1 he with rfl | ⟨h1, _⟩
  · exact h.bnd (n.slots.keys p, n.slots.vals p) (mem_abs.2 ⟨p, hp, hb, rfl⟩)
  · exact h.bnd e h1

/-- `insertInNode`. -/
theorem InvP.insertInNode (F : FLaws c.f adm) (hN : 2 ≤ N) (I : Inv adm ec M s lst D) {k : K} {t : Nat} {A B : List Nat}
    (T : Target lst D k t A B) (hk : ∀ e ∈ (D t).slots.abs, e.1 ≠ k) (ha : adm k) (v : V) :
    (∃ s' D', insertInNode c M s t k v = .ok (false, s') ∧ Inv adm ec M s' lst D' ∧
      ∀ e : K × V, (∃ a ∈ lst 0, e ∈ (D' a).slots.abs) ↔ e = (k, v) ∨ ∃ a ∈ lst 0, e ∈ (D a).slots.abs) ∨
    (∃ s' D', insertInNode c M s t k v = .ok (true, s') ∧ s'.level = s.level ∧ s'.fwd t 0 = some s.fresh ∧
      Inv adm ec M { s' with nodeCount := s'.nodeCount + 1 } (lst1 lst A B t s.fresh) D' ∧
      ∀ e : K × V, (∃ a ∈ lst1 lst A B t s.fresh 0, e ∈ (D' a).slots.abs) ↔
        e = (k, v) ∨ ∃ a ∈ lst 0, e ∈ (D a).slots.abs) := by
  have ht := T.mem
  have hM : 0 < M := by have := I.lvl; omega
  have hnode := I.nodes t ht
  have htf := I.lt_fresh ht
  unfold WoSkip.insertInNode
  rw [node, hnode.1, Res.ofOption_some, Res.ok_bind]
  by_cases hfull : (D t).slots.bits.all = true
  · right
    rw [if_pos hfull]
    have hfull' := (Bitmap.all_iff hnode.2.ok.clean (by omega)).1 hfull
    obtain ⟨a, b, sk, e1, oka, okb, hma, hmb, hla, hlb, h1, h2, h3, h4, h5, h6⟩ := splitData_spec F hN hnode.2 hfull'
    have I1 := I.split T.eq oka okb h1 h2 h3 h4 h5 h6
    rw [e1, Res.ok_bind]
    dsimp only
    -- the links of level 0
    have d1 : put (put s.dat t (some a)) s.fresh (some b) t = some a := by rw [put_ne _ _ (by omega), put_self]
    have d2 : put (put s.dat t (some a)) s.fresh (some b) s.fresh = some b := put_self _ _ _
    rw [fwdAt_eq (M := M) (n := a) (s := { s with dat := _, fwd := _, fresh := _ }) d1 hM, Res.ok_bind,
      setFwd_eq (M := M) (n := b) (s := { s with dat := _, fwd := _, fresh := _ }) d2 hM, Res.ok_bind]
    dsimp only
    rw [setFwd_eq (M := M) (n := a) (s := { s with dat := _, fwd := _, fresh := _ }) d1 hM, Res.ok_bind]
    have e2 : put s.fwd s.fresh (fun _ => none) t 0 = s.fwd t 0 := by rw [put_ne _ _ (by omega)]
    have e3 : ∀ f, put (put s.fwd s.fresh (fun _ => none)) s.fresh f t = s.fwd t := by
      intro f; rw [put_ne _ _ (by omega), put_ne _ _ (by omega)]
    dsimp only
    rw [e2, e3]
    -- the entry
    have hmem : ∀ y, y ∈ A ++ t :: s.fresh :: B ↔ y = s.fresh ∨ y ∈ lst 0 := by
      intro y
      rw [T.eq]
      simp only [List.mem_append, List.mem_cons]
      tauto
    have hDold : ∀ y, y ≠ t → y ≠ s.fresh → put (put D t a) s.fresh b y = D y := fun y hy hy' => by
      rw [put_ne _ _ hy', put_ne _ _ hy]
    have hDt : put (put D t a) s.fresh b t = a := by rw [put_ne _ _ (by omega), put_self]
    have hDx : put (put D t a) s.fresh b s.fresh = b := put_self _ _ _
    have hent : ∀ e : K × V, (∃ y ∈ A ++ t :: s.fresh :: B, e ∈ (put (put D t a) s.fresh b y).slots.abs) ↔
        ∃ y ∈ lst 0, e ∈ (D y).slots.abs := by
      intro e
      constructor
      · rintro ⟨y, hy, he⟩
        by_cases hyx : y = s.fresh
        · rw [hyx, hDx] at he
          exact ⟨t, ht, ((hmb e).1 he).1⟩
        · by_cases hyt : y = t
          · rw [hyt, hDt] at he
            exact ⟨t, ht, ((hma e).1 he).1⟩
          · rw [hDold y hyt hyx] at he
            exact ⟨y, ((hmem y).1 hy).resolve_left hyx, he⟩
      · rintro ⟨y, hy, he⟩
        have hyx : y ≠ s.fresh := fun hc => by have := I.lt_fresh hy; omega
        by_cases hyt : y = t
        · rw [hyt] at he
          by_cases hsk : e.1 < sk
          · exact ⟨t, (hmem t).2 (Or.inr ht), by rw [hDt]; exact (hma e).2 ⟨he, hsk⟩⟩
          · exact ⟨s.fresh, (hmem _).2 (Or.inl rfl), by rw [hDx]; exact (hmb e).2 ⟨he, not_lt.1 hsk⟩⟩
        · exact ⟨y, (hmem y).2 (Or.inr hy), by rw [hDold y hyt hyx]; exact he⟩
    -- the target of the entry
    have key : ∀ (t' : Nat) (n0 : WNode N K V) (A' B' : List Nat), t' = (if sk ≤ k then s.fresh else t) →
        Target (lst1 lst A B t s.fresh) (put (put D t a) s.fresh b) k t' A' B' →
        put (put D t a) s.fresh b t' = n0 → n0.slots.abs.length < N → (∀ e ∈ n0.slots.abs, e.1 ≠ k) →
        ∃ s' D', (do
          let m ← node (splitState s t a b) (if sk ≤ k then s.fresh else t)
          let m ← addEntry m k v
          pure (true, { splitState s t a b with
            nodeCount := s.nodeCount,
            dat := put (splitState s t a b).dat (if sk ≤ k then s.fresh else t) (some m) })) =
            Res.ok (true, s') ∧
          s'.level = s.level ∧ s'.fwd t 0 = some s.fresh ∧
          Inv adm ec M { s' with nodeCount := s'.nodeCount + 1 } (lst1 lst A B t s.fresh) D' ∧
          ∀ e : K × V, (∃ a ∈ lst1 lst A B t s.fresh 0, e ∈ (D' a).slots.abs) ↔
            e = (k, v) ∨ ∃ a ∈ lst 0, e ∈ (D a).slots.abs := by
      intro t' n0 A' B' ht' T' hn0 hl hk'
      obtain ⟨n', e4, I2, hm2⟩ := I1.add T' (by rw [hn0]; exact hl) (by rw [hn0]; exact hk') ha v
      refine ⟨{ splitState s t a b with
        nodeCount := s.nodeCount, dat := put (splitState s t a b).dat t' (some n') },
        put (put (put D t a) s.fresh b) t' n', ?_, ?_, ?_, I2, ?_⟩
      · rw [← ht', node, (I1.nodes t' T'.mem).1, Res.ofOption_some, Res.ok_bind, e4, Res.ok_bind]
        rfl
      · rfl
      · show put (put (put s.fwd s.fresh (fun _ => none)) s.fresh _) t (put (s.fwd t) 0 (some s.fresh)) t 0 = _
        rw [put_self, put_self]
      · intro e
        rw [← hent e]
        constructor
        · rintro ⟨y, hy, he⟩
          by_cases hyt : y = t'
          · rw [hyt, put_self, hm2] at he
            rcases he with he | he
            · exact Or.inl he
            · exact Or.inr ⟨t', T'.mem, he⟩
          · rw [put_ne _ _ hyt] at he
            exact Or.inr ⟨y, hy, he⟩
        · rintro (he | ⟨y, hy, he⟩)
          · exact ⟨t', T'.mem, by rw [put_self, hm2]; exact Or.inl he⟩
          · by_cases hyt : y = t'
            · exact ⟨t', T'.mem, by rw [put_self, hm2]; rw [hyt] at he; exact Or.inr he⟩
            · exact ⟨y, hy, by rw [put_ne _ _ hyt]; exact he⟩
    have hAt : ∀ y ∈ A, put (put D t a) s.fresh b y = D y := by
      intro y hy
      have hyl : y ∈ lst 0 := by rw [T.eq]; simp [hy]
      have hnd := I.nodup 0
      rw [T.eq, List.nodup_append] at hnd
      exact hDold y (fun hc => hnd.2.2 y hy t (by simp) hc) (fun hc => by have := I.lt_fresh hyl; omega)
    have hBt : ∀ y ∈ B, put (put D t a) s.fresh b y = D y := by
      intro y hy
      have hyl : y ∈ lst 0 := by rw [T.eq]; simp [hy]
      have hnd := I.nodup 0
      rw [T.eq, List.nodup_append, List.nodup_cons] at hnd
      exact hDold y (by rintro rfl; exact hnd.2.1.1 hy) (fun hc => by have := I.lt_fresh hyl; omega)
    by_cases hsk : sk ≤ k
    · refine key s.fresh b (A ++ [t]) B (if_pos hsk).symm ⟨?_, ?_, ?_⟩ hDx hlb
        (fun e he => hk e ((hmb e).1 he).1)
      · show A ++ t :: s.fresh :: B = _; simp
      · intro y hy
        rcases List.mem_append.1 hy with hy | hy
        · rw [hAt y hy]; exact T.before y hy
        · rw [List.mem_singleton] at hy
          rw [hy, hDt]; exact h3.trans_le hsk
      · intro y hy
        rw [hBt y hy]; exact T.after y hy
    · refine key t a A (s.fresh :: B) (if_neg hsk).symm ⟨rfl, ?_, ?_⟩ hDt hla (fun e he => hk e ((hma e).1 he).1)
      · intro y hy; rw [hAt y hy]; exact T.before y hy
      · intro y hy
        rcases List.mem_cons.1 hy with rfl | hy
        · rw [hDx]; exact (not_le.1 hsk).trans_le h4
        · rw [hBt y hy]; exact T.after y hy
  · left
    rw [if_neg hfull]
    have hl : (D t).slots.abs.length < N := by
      by_contra hc
      exact hfull ((Bitmap.all_iff hnode.2.ok.clean (by omega)).2 (full_of_length (by omega)))
    obtain ⟨n', e, I', hm⟩ := I.add T hl hk ha v
    refine ⟨_, put D t n', by rw [e, Res.ok_bind]; rfl, I', ?_⟩
    intro e
    constructor
    · rintro ⟨y, hy, he⟩
      by_cases hyt : y = t
      · rw [hyt, put_self, hm] at he
        rcases he with he | he
        · exact Or.inl he
        · exact Or.inr ⟨t, ht, he⟩
      · rw [put_ne _ _ hyt] at he
        exact Or.inr ⟨y, hy, he⟩
    · rintro (he | ⟨y, hy, he⟩)
      · exact ⟨t, ht, by rw [put_self, hm]; exact Or.inl he⟩
      · by_cases hyt : y = t
        · exact ⟨t, ht, by rw [put_self, hm]; rw [hyt] at he; exact Or.inr he⟩
        · exact ⟨y, hy, by rw [put_ne _ _ hyt]; exact he⟩

/-- `insert`. -/
theorem InvP.insert (F : FLaws c.f adm) (hN : 2 ≤ N) (hM : 2 ≤ M) (I : Inv adm ec M s lst D) {m : K → Option V}
    (hst : Stores lst D m) {k : K} (ha : adm k) (v : V) {r : Nat} (hr : r < M) :
    ∃ s' lst' D', WoSkip.insert c M s k v r = .ok ((m k).isNone, s') ∧ Inv adm ec M s' lst' D' ∧
      Stores lst' D' (fun x => if x = k then some v else m x) := by
  obtain ⟨p, u, t, A, B, e1, e2, e3, e4, hA, hB, hu⟩ := I.target k
  have T : Target lst D k t A B := by
    refine ⟨e4, hA, fun y hy => ?_⟩
    have hs := I.sorted
    rw [e4, List.pairwise_append, List.pairwise_cons] at hs
    rcases hB with h | ⟨_, h⟩
    · exact h.trans_lt (hs.2.1.1 y hy)
    · rw [h] at hy; simp at hy
  have hnode := I.nodes t T.mem
  unfold WoSkip.insert
  rw [e1, Res.ok_bind]
  dsimp only
  rw [e2, Res.ok_bind, e3, node, hnode.1, Res.ofOption_some, Res.ok_bind]
  rcases findSlot_spec (D t).slots k N 0 (by omega) with ⟨q, ho, _, hq, hb, hkq⟩ | ⟨ho, hspec⟩
  · rw [ho, Res.ok_bind]
    obtain ⟨hok, hm⟩ := vals_spec hnode.2 hq hb v
    rw [hkq] at hm
    have hmk : m k = some ((D t).slots.vals q) :=
      (hst k _).2 ⟨t, T.mem, mem_abs.2 ⟨q, hq, hb, by rw [hkq]⟩⟩
    have hs := I.sorted
    rw [e4, List.pairwise_append, List.pairwise_cons] at hs
    refine ⟨_, lst, put D t { D t with slots := { (D t).slots with vals := upd (D t).slots.vals q v } }, ?_,
      I.replace e4 hok (fun y hy => hs.2.2 y hy t (by simp)) (fun y hy => hs.2.1.1 y hy)
        (fun y hy hyt => I.wf t T.mem y hy (fun hc => hyt hc.symm)), ?_⟩
    · rw [hmk]; rfl
    · intro k' v'
      show (if k' = k then some v else m k') = some v' ↔ _
      constructor
      · intro h
        by_cases hkk : k' = k
        · rw [if_pos hkk] at h
          refine ⟨t, T.mem, ?_⟩
          rw [put_self]
          exact (hm _).2 (Or.inl (by rw [hkk, Option.some.inj h]))
        · rw [if_neg hkk] at h
          obtain ⟨a, ha, he⟩ := (hst k' v').1 h
          refine ⟨a, ha, ?_⟩
          by_cases hat : a = t
          · rw [hat, put_self]
            rw [hat] at he
            exact (hm _).2 (Or.inr ⟨he, hkk⟩)
          · rw [put_ne _ _ hat]; exact he
      · rintro ⟨a, hal, he⟩
        by_cases hat : a = t
        · rw [hat, put_self] at he
          rcases (hm _).1 he with h | ⟨h1, h2⟩
          · rw [if_pos (congrArg Prod.fst h), show v' = v from congrArg Prod.snd h]
          · rw [if_neg h2]; exact (hst k' v').2 ⟨t, T.mem, h1⟩
        · rw [put_ne _ _ hat] at he
          rw [if_neg]
          · exact (hst k' v').2 ⟨a, hal, he⟩
          · rintro rfl
            exact hat (T.only I hal he)
  · rw [ho, Res.ok_bind]
    have habs : ∀ e ∈ (D t).slots.abs, e.1 ≠ k := by
      intro e he
      obtain ⟨q, hq, hb, rfl⟩ := mem_abs.1 he
      exact hspec q (by omega) hq hb
    have hmk : m k = none := by
      rw [Option.eq_none_iff_forall_ne_some]
      intro v' hv'
      obtain ⟨a, ha, he⟩ := (hst k v').1 hv'
      rw [T.only I ha he] at he
      exact habs _ he rfl
    rw [hmk]
    rcases I.insertInNode F hN T habs ha v with ⟨s', D', e5, I', hm⟩ | ⟨s', D', e5, hlv, hfw, I', hm⟩
    · dsimp only
      rw [e5, Res.ok_bind]
      exact ⟨s', lst, D', rfl, I', hst.add hmk hm⟩
    · dsimp only
      rw [e5, Res.ok_bind, if_pos rfl]
      have hf : ∀ j, 1 ≤ j → lst1 lst A B t s.fresh j = lst j := fun j hj => if_neg (by omega)
      obtain ⟨s'', lst'', D'', e6, I'', h0, hD⟩ := I'.raise (t := t) (x := s.fresh)
        (show s.fresh ∈ A ++ t :: s.fresh :: B by simp)
        (fun j hj hc => by
          rw [hf j hj] at hc
          have := I.lt_fresh (I.sub0 j hc)
          omega)
        (show t ∈ A ++ t :: s.fresh :: B by simp) hfw (u := u)
        (fun j hj1 hj2 => by
          obtain ⟨p, h1, A', B', h2⟩ := hu j (by rw [← hlv]; exact hj2)
          exact ⟨p, h1, A', B', by rw [hf j hj1]; exact h2⟩) hr hM
      refine ⟨s'', lst'', D'', ?_, I'', ?_⟩
      · rw [e6]; rfl
      · refine hst.add hmk fun e => ?_
        rw [← hm e, h0]
        simp only [hD]

/-! ## The empty list -/

theorem init_inv (hM : 2 ≤ M) {r : Nat} (hr : r < M) : ∃ (s : WL N K V) (lst : Nat → List Nat) (D : Nat → WNode N K V),
    init c M N r = .ok s ∧ Inv adm 0 M s lst D ∧ Stores lst D (fun _ => none) := by
  have hl1 : 1 ≤ randomLevel r ∧ randomLevel r < M := by unfold randomLevel; split <;> omega
  have hno : NOk adm (newNode c N c.lim.max c.lim.min (randomLevel r)) := (new_nok _ _ _).1
  have habs : (newNode c N c.lim.max c.lim.min (randomLevel r)).slots.abs = [] := (new_nok (adm := adm) _ _ _).2
  unfold init
  dsimp only
  generalize randomLevel r = h at *
  rw [if_pos (by omega)]
  refine ⟨_, fun i => if i < h then [1] else [], fun _ => newNode c N c.lim.max c.lim.min h, rfl, ?_, ?_⟩
  · have h0 : (0 : Nat) < h := by omega
    refine ⟨hl1.2, ⟨_, rfl⟩, ?_, ?_, ?_, ?_, ?_, ?_, ?_, ?_, ?_, ?_, ?_⟩
    · intro a ha
      rw [if_pos h0, List.mem_singleton] at ha
      subst ha
      exact ⟨rfl, hno⟩
    · intro a ha
      have ha : 2 ≤ a := ha
      show (if a = 0 then _ else if a = 1 then _ else _) = _
      rw [if_neg (by omega), if_neg (by omega)]
    · intro i hi
      by_cases hih : i < h
      · rw [if_pos hih]
        refine ⟨?_, ?_⟩
        · show some (if 0 = 0 ∧ i < h then some 1 else none) = _
          rw [if_pos ⟨rfl, hih⟩]
        · show some (if 1 = 0 ∧ i < h then some 1 else none) = _
          rw [if_neg (by omega)]
      · rw [if_neg hih]
        show some (if 0 = 0 ∧ i < h then some 1 else none) = _
        rw [if_neg (fun hc => hih hc.2)]
    · intro i
      by_cases hih : i + 1 < h
      · rw [if_pos hih, if_pos (by omega)]; exact List.Subset.refl _
      · rw [if_neg hih]; exact List.nil_subset _
    · intro i
      split <;> simp
    · rw [if_pos h0]; simp
    · intro i hi
      exact if_neg (not_lt.2 hi)
    · rw [if_pos h0]; simp
    · rw [if_pos h0]; simp
    · intro a ha b hb hab
      rw [if_pos h0, List.mem_singleton] at ha hb
      exact absurd (ha.trans hb.symm) hab
    · rw [if_pos h0]; rfl
  · intro k v
    simp [habs]

/-! ## The lists of the levels -/

theorem walkList_path {i : Nat} (hi : i < M) : ∀ (l : List Nat) (fuel : Nat) (o : Option Nat),
    o = l.head? → (∀ a l', l = a :: l' → Path (fw s i) a l') → l.length ≤ fuel →
    (∀ x ∈ l, s.dat x = some (D x)) →
    walkList M s i fuel o = .ok (l.map fun a => ((D a).min, (D a).max, ents (D a).slots))
  | [], fuel, o, ho, _, _, _ => by
    subst ho
    cases fuel <;> rfl
  | x :: l, 0, o, _, _, hf, _ => by simp at hf
  | x :: l, fuel + 1, o, ho, hp, hf, hD => by
    subst ho
    have hpx := hp x l rfl
    have hx := hD x (by simp)
    show walkList M s i (fuel + 1) (some x) = _
    rw [walkList, node, hx, Res.ofOption_some, Res.ok_bind, slotList_spec _ N 0 (by omega), Res.ok_bind,
      fwdAt_eq hx hi, Res.ok_bind, walkList_path hi l fuel (s.fwd x i) (Option.some.inj hpx.head) (fun a l' e => by
        rw [e] at hpx; exact hpx.2) (by simp at hf; omega) (fun y hy => hD y (List.mem_cons_of_mem _ hy)), Res.ok_bind]
    rfl

theorem InvP.levelList (I : InvP P ec M s lst D) {i : Nat} (hi : i < M) :
    levelList M s i = .ok ((lst i).map fun a => ((D a).min, (D a).max, ents (D a).slots)) := by
  unfold WoSkip.levelList
  obtain ⟨n0, h0⟩ := I.head
  rw [fwdAt_eq h0 hi, Res.ok_bind]
  refine walkList_path hi (lst i) s.fresh _ (Option.some.inj (I.path i hi).head) (fun a l' e => ?_) ?_
    (fun x hx => (I.nodes x (I.sub0 i hx)).1)
  · have := I.path i hi
    rw [e] at this
    exact this.2
  · exact (I.len i).le

end Verif.WoSkip
