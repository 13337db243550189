import Verif.WoSkip.Crash
import Verif.WoSkip.Insert

/-!
# The states between the assignments of `insert` of woPSkiplist
-/

set_option linter.unusedSectionVars false

namespace Verif.WoSkip

open Search FPTree BTree Assoc
open Verif.SkipList (Path getLastD_append_cons getLastD_cons getLastD_mem put put_self put_ne pre post pre_post)

variable {K V : Type} [LinearOrder K] [Inhabited K] {N M : Nat} {c : WCfg K V} {adm : K → Prop}
  {s : WL N K V} {lst : Nat → List Nat} {D : Nat → WNode N K V} {ec : Nat} {P : WNode N K V → Prop}

/-! ## Lists of assignments -/

theorem applyAll_append (s : WL N K V) (a b : List (Write N K V)) : applyAll s (a ++ b) = applyAll (applyAll s a) b :=
  List.foldl_append

theorem applyAll_cons (s : WL N K V) (w : Write N K V) (ws : List (Write N K V)) :
    applyAll s (w :: ws) = applyAll (w.apply s) ws := rfl

theorem applyN_append (n : WNode N K V) (a b : List (NW N K V)) : applyN n (a ++ b) = applyN (applyN n a) b :=
  List.foldl_append

/-- `Q` holds after every prefix of the assignments. -/
def Along (Q : WL N K V → Prop) (s : WL N K V) (ws : List (Write N K V)) : Prop := ∀ q, Q (applyAll s (ws.take q))

theorem Along.nil {Q : WL N K V → Prop} (h : Q s) : Along Q s [] := fun q => by rw [List.take_nil]; exact h

theorem Along.cons {Q : WL N K V → Prop} {w : Write N K V} {ws : List (Write N K V)} (h : Q s)
    (ht : Along Q (w.apply s) ws) : Along Q s (w :: ws)
  | 0 => h
  | q + 1 => ht q

theorem Along.append {Q : WL N K V → Prop} {a b : List (Write N K V)} (h : Along Q s a) (ht : Along Q (applyAll s a) b) :
    Along Q s (a ++ b) := by
  intro q
  rw [List.take_append, applyAll_append]
  by_cases hq : q ≤ a.length
  · rw [Nat.sub_eq_zero_of_le hq, List.take_zero]
    exact h q
  · rw [List.take_of_length_le (by omega)]
    exact ht _

theorem Along.mono {Q R : WL N K V → Prop} {a : List (Write N K V)} (h : Along Q s a) (hi : ∀ s, Q s → R s) : Along R s a :=
  fun q => hi _ (h q)

theorem Along.all {Q : WL N K V → Prop} {a : List (Write N K V)} (h : Along Q s a) : Q (applyAll s a) := by
  have := h a.length
  rwa [List.take_length] at this

/-- Assignments to one node. -/
theorem applyAll_node {t : Nat} : ∀ (ws : List (NW N K V)) (s : WL N K V) (n : WNode N K V), s.dat t = some n →
    applyAll s (ws.map (.node t)) = { s with dat := put s.dat t (some (applyN n ws)) }
  | [], s, n, h => by
    have : put s.dat t (some n) = s.dat := by
      funext b
      by_cases hb : b = t
      · rw [hb, put_self, h]
      · rw [put_ne _ _ hb]
    show s = { s with dat := put s.dat t (some n) }
    rw [this]
  | w :: ws, s, n, h => by
    rw [List.map_cons, applyAll_cons, applyAll_node ws _ (w.apply n)]
    · simp only [Write.apply, h, Option.map_some]
      congr 1
      funext b
      by_cases hb : b = t
      · rw [hb, put_self, put_self]; rfl
      · rw [put_ne _ _ hb, put_ne _ _ hb, put_ne _ _ hb]
    · simp only [Write.apply, h, Option.map_some, put_self]

theorem along_node {Q : WL N K V → Prop} {t : Nat} {n : WNode N K V} (h : s.dat t = some n) {ws : List (NW N K V)}
    (hQ : ∀ q, Q { s with dat := put s.dat t (some (applyN n (ws.take q))) }) : Along Q s (ws.map (.node t)) := by
  intro q
  rw [← List.map_take, applyAll_node _ _ _ h]
  exact hQ q

/-! ## The invariant depends on the nodes of the list only -/

theorem InvP.congr (I : InvP P ec M s lst D) {s' : WL N K V} (hl : s'.level = s.level) (hc : s'.nodeCount = s.nodeCount)
    (hd : ∀ a, a = 0 ∨ a ∈ lst 0 → s'.dat a = s.dat a) (hfr : ∀ a, s'.fresh ≤ a → s'.dat a = none)
    (hf : ∀ i, i < M → ∀ a, a = 0 ∨ a ∈ lst i → s'.fwd a i = s.fwd a i) : InvP P ec M s' lst D where
  lvl := by rw [hl]; exact I.lvl
  head := by rw [hd 0 (Or.inl rfl)]; exact I.head
  nodes := fun a ha => by rw [hd a (Or.inr ha)]; exact I.nodes a ha
  fresh := hfr
  path := fun i hi => (I.path i hi).congr fun x hx => by
    show some (s'.fwd x i) = some (s.fwd x i)
    rw [hf i hi x (List.mem_cons.1 hx)]
  sub := I.sub
  nodup := I.nodup
  zero := I.zero
  top := fun i hi => I.top i (by rw [← hl]; exact hi)
  ne := I.ne
  sorted := I.sorted
  wf := I.wf
  count := by rw [hc]; exact I.count

theorem InvP.mono {Q : WNode N K V → Prop} (I : InvP P ec M s lst D) (h : ∀ n, P n → Q n) : InvP Q ec M s lst D :=
  ⟨I.lvl, I.head, fun a ha => ⟨(I.nodes a ha).1, h _ (I.nodes a ha).2⟩, I.fresh, I.path, I.sub, I.nodup, I.zero, I.top, I.ne,
    I.sorted, I.wf, I.count⟩

theorem InvP.strengthen {Q : WNode N K V → Prop} (I : InvP P ec M s lst D) (h : ∀ a ∈ lst 0, Q (D a)) :
    InvP Q ec M s lst D :=
  ⟨I.lvl, I.head, fun a ha => ⟨(I.nodes a ha).1, h _ ha⟩, I.fresh, I.path, I.sub, I.nodup, I.zero, I.top, I.ne,
    I.sorted, I.wf, I.count⟩

/-- A higher level. -/
theorem InvP.setLevel (I : InvP P ec M s lst D) {n : Nat} (h1 : s.level ≤ n) (h2 : n < M) :
    InvP P ec M { s with level := n } lst D :=
  ⟨h2, I.head, I.nodes, I.fresh, I.path, I.sub, I.nodup, I.zero, fun i hi => I.top i (h1.trans hi), I.ne, I.sorted, I.wf,
    I.count⟩

/-- A node of the list is linked into the next level. -/
theorem InvP.link1 (I : InvP P ec M s lst D) {x j : Nat} (hx : x ∈ lst j) (hx' : x ∉ lst (j + 1)) {A B : List Nat}
    (e : lst (j + 1) = A ++ B) (hl : j + 1 < s.level) :
    InvP P ec M (applyAll s [.fwd x (j + 1) (s.fwd (A.getLastD 0) (j + 1)), .fwd (A.getLastD 0) (j + 1) (some x)])
      (fun i => if i = j + 1 then A ++ x :: B else lst i) D := by
  have hx0 : x ≠ 0 := by rintro rfl; exact I.zero (I.sub0 j hx)
  have hM := I.lvl
  have hpx : A.getLastD 0 ≠ x := by
    rcases getLastD_cases A with h | h
    · rw [h]; exact fun hc => hx0 hc.symm
    · rintro rfl
      exact hx' (by rw [e]; exact List.mem_append_left _ (List.mem_of_getLast? h))
  have h0 : ¬ (0 = j + 1) := by omega
  have hmem : ∀ y, y ∈ A ++ x :: B ↔ y = x ∨ y ∈ lst (j + 1) := by
    intro y
    rw [e]
    simp only [List.mem_append, List.mem_cons]
    tauto
  have hfwd : ∀ b i, (applyAll s [.fwd x (j + 1) (s.fwd (A.getLastD 0) (j + 1)), .fwd (A.getLastD 0) (j + 1) (some x)]).fwd b i =
      if i = j + 1 then (if b = x then s.fwd (A.getLastD 0) (j + 1) else if b = A.getLastD 0 then some x else s.fwd b i)
      else s.fwd b i := by
    intro b i
    simp only [applyAll, List.foldl_cons, List.foldl_nil, Write.apply]
    by_cases hbp : b = A.getLastD 0
    · rw [hbp, put_self]
      by_cases hi : i = j + 1
      · rw [if_pos hi, hi, put_self, if_neg hpx, if_pos rfl]
      · rw [if_neg hi, put_ne _ _ hi, put_ne _ _ hpx]
    · rw [put_ne _ _ hbp]
      by_cases hbx : b = x
      · rw [hbx, put_self]
        by_cases hi : i = j + 1
        · rw [if_pos hi, hi, put_self, if_pos rfl]
        · rw [if_neg hi, put_ne _ _ hi]
      · rw [put_ne _ _ hbx, if_neg hbx, if_neg hbp, ite_self]
  refine ⟨I.lvl, I.head, ?_, I.fresh, ?_, ?_, ?_, ?_, ?_, ?_, ?_, ?_, ?_⟩
  · simp only [if_neg h0]; exact I.nodes
  · intro i hi
    by_cases hij : i = j + 1
    · subst hij
      simp only [if_true]
      have hzero : 0 ∉ lst (j + 1) := fun h => I.zero (I.sub0 _ h)
      have hp := I.path (j + 1) hi
      have hnd := I.nodup (j + 1)
      rw [e] at hp hzero hnd
      refine Path.insert (f := fw s (j + 1)) hp (List.nodup_cons.2 ⟨hzero, hnd⟩) ?_ ?_ ?_ ?_
      · rw [List.mem_cons, not_or, ← e]
        exact ⟨hx0, hx'⟩
      · show some (WL.fwd _ x (j + 1)) = some (s.fwd _ _)
        rw [hfwd, if_pos rfl, if_pos rfl]
      · show some (WL.fwd _ _ (j + 1)) = _
        rw [hfwd, if_pos rfl, if_neg hpx, if_pos rfl]
      · intro b hb1 hb2
        show some (WL.fwd _ _ (j + 1)) = some (s.fwd _ _)
        rw [hfwd, if_pos rfl, if_neg hb1, if_neg hb2]
    · simp only [if_neg hij]
      refine (I.path i hi).congr fun y hy => ?_
      show some (WL.fwd _ y i) = some (s.fwd y i)
      rw [hfwd, if_neg hij]
  · intro i y hy
    by_cases h1 : i + 1 = j + 1
    · rw [if_pos h1, hmem] at hy
      have hij : i = j := by omega
      rw [if_neg (by omega), hij]
      rcases hy with rfl | hy
      · exact hx
      · exact I.sub j hy
    · rw [if_neg h1] at hy
      have := I.sub i hy
      by_cases h2 : i = j + 1
      · rw [if_pos h2, hmem, ← h2]; exact Or.inr this
      · rw [if_neg h2]; exact this
  · intro i
    by_cases h2 : i = j + 1
    · rw [if_pos h2]
      have e1 : (A ++ x :: B).Perm (x :: lst (j + 1)) := by rw [e]; exact List.perm_middle
      rw [e1.nodup_iff, List.nodup_cons]
      exact ⟨hx', I.nodup _⟩
    · rw [if_neg h2]; exact I.nodup i
  · simp only [if_neg h0]; exact I.zero
  · intro i hi
    have hi : s.level ≤ i := hi
    rw [if_neg (by omega)]; exact I.top i hi
  · simp only [if_neg h0]; exact I.ne
  · simp only [if_neg h0]; exact I.sorted
  · simp only [if_neg h0]; exact I.wf
  · simp only [if_neg h0]; exact I.count

/-- The first half of a round: the pointer of the node that is not yet linked. -/
theorem InvP.link0 (I : InvP P ec M s lst D) {x i : Nat} (hx : x ∉ lst i) (hx0 : x ≠ 0) (y : Option Nat) :
    InvP P ec M (applyAll s [.fwd x i y]) lst D := by
  refine I.congr rfl rfl (fun _ _ => rfl) I.fresh fun i' _ a ha => ?_
  show put s.fwd x (put (s.fwd x) i y) a i' = _
  by_cases hax : a = x
  · rw [hax, put_self]
    by_cases hi : i' = i
    · subst hi
      rcases ha with h | h
      · exact absurd (hax ▸ h) hx0
      · exact absurd (hax ▸ h) hx
    · rw [put_ne _ _ hi]
  · rw [put_ne _ _ hax]

/-- The links of the upper levels. -/
theorem link_along {x : Nat} {u : Nat → Option Nat} (n : Nat) : ∀ (i : Nat) (s : WL N K V) (lst : Nat → List Nat),
    InvP P ec M s lst D → x ∈ lst i → (∀ j, i < j → x ∉ lst j) → i + n < s.level ∨ n = 0 →
    (∀ j, i < j → j ≤ i + n → ∃ p, u j = some p ∧ OnLevel lst j p) →
    ∃ ws, linkWrites M x u (i + 1) n s = .ok ws ∧ link M x u (i + 1) n s = .ok (applyAll s ws) ∧
      Along (fun s' => ∃ lst', InvP P ec M s' lst' D ∧ lst' 0 = lst 0) s ws := by
  induction n with
  | zero => exact fun i s lst I _ _ _ _ => ⟨[], rfl, rfl, Along.nil ⟨lst, I, rfl⟩⟩
  | succ n ih =>
    intro i s lst I hx hup hlv hu
    have hlv : i + (n + 1) < s.level := by omega
    have hM := I.lvl
    have hx0 : x ≠ 0 := by rintro rfl; exact I.zero (I.sub0 i hx)
    obtain ⟨p, hui, A, B, hAB, hp⟩ := hu (i + 1) (by omega) (by omega)
    subst hp
    obtain ⟨_, np, hnp⟩ := I.onLevel ⟨A, B, hAB, rfl⟩
    have I1 := I.link1 hx (hup _ (by omega)) hAB (by omega)
    have hne : ¬ (0 = i + 1) := by omega
    obtain ⟨ws, e1, e2, hal⟩ := ih (i + 1)
      (applyAll s [.fwd x (i + 1) (s.fwd (A.getLastD 0) (i + 1)), .fwd (A.getLastD 0) (i + 1) (some x)]) _ I1
      (by simp) (fun j hj => by rw [if_neg (by omega)]; exact hup j (by omega)) (Or.inl (by show _ < s.level; omega))
      (fun j hj1 hj2 => by
        obtain ⟨p, h1, A', B', h2⟩ := hu j (by omega) (by omega)
        exact ⟨p, h1, A', B', by dsimp only; rw [if_neg (by omega)]; exact h2⟩)
    refine ⟨.fwd x (i + 1) (s.fwd (A.getLastD 0) (i + 1)) :: .fwd (A.getLastD 0) (i + 1) (some x) :: ws, ?_, ?_, ?_⟩
    · rw [linkWrites, if_pos (by omega), hui, Res.ofOption_some, Res.ok_bind, fwdAt_eq hnp (by omega), Res.ok_bind, e1,
        Res.ok_bind]
      rfl
    · rw [link, if_pos (by omega), hui, Res.ofOption_some, Res.ok_bind, fwdAt_eq hnp (by omega), Res.ok_bind,
        setFwd_eq (I.nodes x (I.sub0 i hx)).1 (by omega), Res.ok_bind,
        setFwd_eq (M := M) (i := i + 1) (n := np) (s := ({ s with fwd := put s.fwd x (put (s.fwd x) (i + 1) (s.fwd (A.getLastD 0) (i + 1))) } : WL N K V)) hnp (by omega), Res.ok_bind]
      exact e2
    · refine Along.cons ⟨lst, I, rfl⟩ (Along.cons ⟨lst, I.link0 (hup _ (by omega)) hx0 _, rfl⟩ (hal.mono ?_))
      rintro s' ⟨lst', I', h'⟩
      exact ⟨lst', I', by rw [h']; exact if_neg hne⟩

/-- The height of the new node. -/
theorem InvP.raise_along (I : Inv adm ec M s lst D) {t x : Nat} (hx : x ∈ lst 0) (hup : ∀ j, 1 ≤ j → x ∉ lst j)
    (ht : t ∈ lst 0) (htx : s.fwd t 0 = some x) {u : Nat → Option Nat}
    (hu : ∀ j, 1 ≤ j → j ≤ s.level → ∃ p, u j = some p ∧ OnLevel lst j p) {r : Nat} (hr : r < M) (hM : 2 ≤ M) :
    ∃ ws, raiseWrites M s t u r = .ok ws ∧ WoSkip.raise M s t u r = .ok (applyAll s ws) ∧
      Along (fun s' => ∃ lst' D', Inv adm ec M s' lst' D' ∧ lst' 0 = lst 0 ∧ ∀ a, (D' a).slots = (D a).slots) s ws := by
  have hl1 : 1 ≤ randomLevel r ∧ randomLevel r < M := by unfold randomLevel; split <;> omega
  unfold raiseWrites WoSkip.raise
  dsimp only
  generalize randomLevel r = nl at hl1 ⊢
  have hupd : ∃ u', (if s.level < nl then SkipList.fillHead M (s.level + 1) (nl - (s.level + 1)) u else pure u) =
      Res.ok u' ∧ ∀ j, 1 ≤ j → j < nl → ∃ p, u' j = some p ∧ OnLevel lst j p := by
    by_cases hgt : s.level < nl
    · rw [if_pos hgt, SkipList.fillHead_eq _ _ _ (by omega)]
      refine ⟨_, rfl, fun j hj1 hj2 => ?_⟩
      by_cases hjl : j ≤ s.level
      · rw [if_neg (by omega)]; exact hu j hj1 hjl
      · rw [if_pos (by omega)]
        exact ⟨0, rfl, [], [], I.top j (by omega), rfl⟩
    · rw [if_neg hgt]
      exact ⟨u, rfl, fun j hj1 hj2 => hu j hj1 (by omega)⟩
  obtain ⟨u', hu1, hu2⟩ := hupd
  rw [hu1, Res.ok_bind, Res.ok_bind, fwdAt_eq (I.nodes t ht).1 (by omega), Res.ok_bind, htx, Res.ofOption_some, Res.ok_bind]
  -- the level of the list
  have hlev : applyAll s (if s.level < nl then [.level nl] else []) =
      ({ s with level := if s.level < nl then nl else s.level } : WL N K V) := by
    by_cases h : s.level < nl
    · rw [if_pos h, if_pos h]; rfl
    · rw [if_neg h, if_neg h]; rfl
  have I1 : Inv adm ec M ({ s with level := if s.level < nl then nl else s.level } : WL N K V) lst D := by
    refine I.setLevel ?_ ?_
    · split <;> omega
    · have := I.lvl
      split <;> omega
  have hsd : (if s.level < nl then { s with level := nl } else s) =
      ({ s with level := if s.level < nl then nl else s.level } : WL N K V) := by
    split <;> rfl
  have hnl : nl ≤ (if s.level < nl then nl else s.level) := by split <;> omega
  -- the level of the node
  obtain ⟨A, B, eAB⟩ := List.append_of_mem hx
  have hs := I.sorted
  rw [eAB, List.pairwise_append, List.pairwise_cons] at hs
  have hok := (I.nodes x hx).2
  have I2 := I1.replace eAB (n' := { D x with nodeLevel := nl }) ⟨hok.ok, hok.bnd⟩ (fun y hy => hs.2.2 y hy x (by simp))
    (fun y hy => hs.2.1.1 y hy) (fun y hy hyx => I.wf x hx y hy (fun hc => hyx hc.symm))
  have hst : applyAll s ((if s.level < nl then [.level nl] else []) ++ [.node x (.lvl nl)]) =
      ({ s with level := if s.level < nl then nl else s.level,
                dat := put s.dat x (some { D x with nodeLevel := nl }) } : WL N K V) := by
    rw [applyAll_append, hlev]
    rw [applyAll_cons]
    simp only [applyAll, List.foldl_nil, Write.apply, (I.nodes x hx).1, Option.map_some, NW.apply]
  obtain ⟨ws, e1, e2, hal⟩ := link_along (M := M) (x := x) (u := u') (nl - 1) 0 _ lst I2 hx (fun j hj => hup j hj)
    (Or.inl (by show 0 + (nl - 1) < (if s.level < nl then nl else s.level); omega)) (fun j h1 h2 => hu2 j h1 (by omega))
  have hD : ∀ a, (put D x { D x with nodeLevel := nl } a).slots = (D a).slots := by
    intro a
    by_cases hax : a = x
    · rw [hax, put_self]
    · rw [put_ne _ _ hax]
  rw [hst]
  refine ⟨(if s.level < nl then [.level nl] else []) ++ .node x (.lvl nl) :: ws, by rw [e1, Res.ok_bind]; rfl, ?_, ?_⟩
  · rw [hsd, fwdAt_eq (M := M) (n := D t) (s := ({ s with level := if s.level < nl then nl else s.level } : WL N K V)) (I.nodes t ht).1 (by omega), Res.ok_bind]
    dsimp only
    rw [htx, Res.ofOption_some, Res.ok_bind, node, (I.nodes x hx).1, Res.ofOption_some, Res.ok_bind]
    rw [show (if s.level < nl then [Write.level nl] else []) ++ Write.node x (NW.lvl nl) :: ws =
      ((if s.level < nl then [Write.level nl] else []) ++ [Write.node x (NW.lvl nl)]) ++ ws by simp, applyAll_append, hst]
    exact e2
  · rw [show (if s.level < nl then [Write.level nl] else []) ++ Write.node x (NW.lvl nl) :: ws =
      ((if s.level < nl then [Write.level nl] else []) ++ [Write.node x (NW.lvl nl)]) ++ ws by simp]
    refine Along.append (Along.append ?_ ?_) ?_
    · by_cases h : s.level < nl
      · rw [if_pos h]
        refine Along.cons ⟨lst, D, I, rfl, fun _ => rfl⟩ (Along.nil ⟨lst, D, ?_, rfl, fun _ => rfl⟩)
        rw [if_pos h] at I1
        exact I1
      · rw [if_neg h]
        exact Along.nil ⟨lst, D, I, rfl, fun _ => rfl⟩
    · rw [hlev]
      refine Along.cons ⟨lst, D, I1, rfl, fun _ => rfl⟩ (Along.nil ⟨lst, _, ?_, rfl, hD⟩)
      have : (Write.apply ({ s with level := if s.level < nl then nl else s.level } : WL N K V) (.node x (.lvl nl))) =
          ({ s with level := if s.level < nl then nl else s.level,
                    dat := put s.dat x (some { D x with nodeLevel := nl }) } : WL N K V) := by
        simp only [Write.apply, (I.nodes x hx).1, Option.map_some, NW.apply]
      rw [this]
      exact I2
    · rw [hst]
      refine hal.mono ?_
      rintro s' ⟨lst', I', h'⟩
      exact ⟨lst', _, I', h', hD⟩

/-! ## The assignments of a new entry -/

theorem entryWrites_spec {n n' : WNode N K V} {k : K} {v : V} (h : addEntry n k v = .ok n') :
    ∃ ws, entryWrites n k v = .ok ws ∧ applyN n ws = n' := by
  unfold addEntry at h
  unfold entryWrites
  dsimp only at h ⊢
  by_cases hp : n.slots.bits.getFreeZero < N
  · rw [if_pos hp] at h ⊢
    obtain ⟨l, hl, h⟩ := Res.bind_eq_ok.1 h
    refine ⟨_, rfl, ?_⟩
    unfold FLeaf.fill at hl
    obtain ⟨b, hb, hl⟩ := Res.bind_eq_ok.1 hl
    rw [← Res.ok.inj h, ← Res.ok.inj hl]
    by_cases h1 : k < n.min <;> by_cases h2 : n.max < k <;>
      simp only [h1, h2, if_true, if_false, applyN, List.foldl_cons, List.foldl_nil, List.cons_append, List.nil_append,
        List.append_nil, NW.apply, hb]
  · rw [if_neg hp] at h
    exact absurd h (by simp)

/-- The node while the entry is written. -/
inductive Filling (adm : K → Prop) (n : WNode N K V) (k : K) (v : V) (n' : WNode N K V) : Prop where
  /-- The bit is not set. -/
  | before (ok : SOk adm n'.slots) (abs : ∀ e, e ∈ n'.slots.abs ↔ e ∈ n.slots.abs) (min : n'.min = n.min)
      (max : n'.max = n.max)
  /-- The bit is set; the bounds may not be adapted yet. -/
  | after (ok : SOk adm n'.slots) (abs : ∀ e, e ∈ n'.slots.abs ↔ e = (k, v) ∨ e ∈ n.slots.abs)
      (min : n'.min = n.min ∨ (n'.min = k ∧ k < n.min)) (max : n'.max = n.max ∨ (n'.max = k ∧ n.max < k))

/-- Key and value of an unused slot do not matter. -/
theorem unused_spec {l : FLeaf N K V} (h : SOk adm l) {p : Nat} (hb : Bitmap.bit l.bits p = false)
    {l' : FLeaf N K V} (hbits : l'.bits = l.bits) (hf : ∀ q, q ≠ p → l'.fp q = l.fp q) (hk : ∀ q, q ≠ p → l'.keys q = l.keys q)
    (hv : ∀ q, q ≠ p → l'.vals q = l.vals q) : SOk adm l' ∧ ∀ e, e ∈ l'.abs ↔ e ∈ l.abs := by
  have hne : ∀ q, Bitmap.bit l.bits q = true → q ≠ p := by rintro q hq rfl; rw [hb] at hq; exact absurd hq (by simp)
  refine ⟨⟨by rw [hbits]; exact h.clean, ?_, ?_, ?_⟩, ?_⟩
  · intro i j hi hj h1 h2
    rw [hbits] at h1 h2
    rw [hk i (hne i h1), hk j (hne j h2)]
    exact h.inj i j hi hj h1 h2
  · intro i hi h1
    rw [hbits] at h1
    rw [hf i (hne i h1)]
    exact h.fp i hi h1
  · intro i hi h1
    rw [hbits] at h1
    rw [hk i (hne i h1)]
    exact h.adm i hi h1
  · intro e
    rw [mem_abs, mem_abs, hbits]
    constructor
    · rintro ⟨q, hq, hbq, rfl⟩
      exact ⟨q, hq, hbq, by rw [hk q (hne q hbq), hv q (hne q hbq)]⟩
    · rintro ⟨q, hq, hbq, rfl⟩
      exact ⟨q, hq, hbq, by rw [hk q (hne q hbq), hv q (hne q hbq)]⟩

theorem entry_filling {n : WNode N K V} (h : NOk adm n) (hl : n.slots.abs.length < N) {k : K}
    (hk : ∀ e ∈ n.slots.abs, e.1 ≠ k) (ha : adm k) (v : V) {ws : List (NW N K V)} (e : entryWrites n k v = .ok ws) :
    ∀ q, Filling adm n k v (applyN n (ws.take q)) := by
  obtain ⟨hp, hb⟩ := free_slot hl
  obtain ⟨l', e', ok, perm, _⟩ := fill_ok h.ok hp hb hk ha v
  unfold FLeaf.fill at e'
  obtain ⟨b, hset, e'⟩ := Res.bind_eq_ok.1 e'
  have e' := Res.ok.inj e'
  unfold entryWrites at e
  dsimp only at e
  rw [if_pos hp] at e
  have e := Res.ok.inj e
  have hu : ∀ (a : Nat → V), (∀ q, q ≠ n.slots.bits.getFreeZero → a q = n.slots.vals q) →
      Filling adm n k v { n with slots := { n.slots with fp := upd n.slots.fp n.slots.bits.getFreeZero 0, keys := upd n.slots.keys n.slots.bits.getFreeZero k, vals := a } } := by
    intro a hva
    obtain ⟨h1, h2⟩ := unused_spec (l' := { n.slots with fp := upd n.slots.fp n.slots.bits.getFreeZero 0, keys := upd n.slots.keys n.slots.bits.getFreeZero k, vals := a })
      h.ok hb rfl (fun q hq => if_neg hq) (fun q hq => if_neg hq) hva
    exact .before h1 h2 rfl rfl
  have hm : ∀ x, x ∈ l'.abs ↔ x = (k, v) ∨ x ∈ n.slots.abs := fun x => by rw [perm.mem_iff, List.mem_cons]
  intro q
  rw [← e]
  rcases q with _ | _ | _ | q
  · exact .before h.ok (fun _ => Iff.rfl) rfl rfl
  · exact hu _ (fun _ _ => rfl)
  · exact hu (upd n.slots.vals n.slots.bits.getFreeZero v) (fun q hq => if_neg hq)
  · have hw : ∀ (mn mx : K), (mn = n.min ∨ mn = k ∧ k < n.min) → (mx = n.max ∨ mx = k ∧ n.max < k) →
        Filling adm n k v ⟨l', mn, mx, n.nodeLevel⟩ := fun mn mx h1 h2 => .after ok hm h1 h2
    have h3 : applyN n [.key n.slots.bits.getFreeZero k, .val n.slots.bits.getFreeZero v, .bit n.slots.bits.getFreeZero] =
        ⟨l', n.min, n.max, n.nodeLevel⟩ := by
      rw [← e']
      simp only [applyN, List.foldl_cons, List.foldl_nil, NW.apply, hset]
    rw [List.append_assoc, List.take_append, List.take_of_length_le (by simp), applyN_append, h3]
    by_cases h1 : k < n.min <;> by_cases h2 : n.max < k
    all_goals simp only [h1, h2, if_true, if_false, List.nil_append, List.append_nil, List.cons_append, List.take_nil]
    · rcases (q + 1 + 1 + 1 - _) with _ | _ | q'
      · exact hw _ _ (Or.inl rfl) (Or.inl rfl)
      · exact hw _ _ (Or.inr ⟨rfl, h1⟩) (Or.inl rfl)
      · rw [List.take_of_length_le (by simp)]
        exact hw _ _ (Or.inr ⟨rfl, h1⟩) (Or.inr ⟨rfl, h2⟩)
    · rcases (q + 1 + 1 + 1 - _) with _ | q'
      · exact hw _ _ (Or.inl rfl) (Or.inl rfl)
      · rw [List.take_of_length_le (by simp)]
        exact hw _ _ (Or.inr ⟨rfl, h1⟩) (Or.inl rfl)
    · rcases (q + 1 + 1 + 1 - _) with _ | q'
      · exact hw _ _ (Or.inl rfl) (Or.inl rfl)
      · rw [List.take_of_length_le (by simp)]
        exact hw _ _ (Or.inl rfl) (Or.inr ⟨rfl, h2⟩)
    · exact hw _ _ (Or.inl rfl) (Or.inl rfl)

end Verif.WoSkip
