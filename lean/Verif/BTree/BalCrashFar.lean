import Verif.BTree.BalCrashProps

/-!
# Lookups that stay away from the two branch nodes
-/

set_option linter.unusedSectionVars false

namespace Verif.BTree

open Verif Assoc
open Verif.Slots hiding none

variable {K V L : Type} [LinearOrder K] {o : Ops K V L} {W : Laws o} {lm bm : Nat}

/-! ## The separator above the two nodes -/

/-- An assignment to the separator. -/
def PW.toKey : PW K → Bool
  | .pKey _ => true
  | .pVal _ => true
  | _ => false

theorem PW.apply_key {α : Type} {P P' : Two K α} : ∀ {w : PW K}, w.toKey = false → w.apply o P = .ok P' → P'.key = P.key
  | .rKid _ _, _, e | .rKey _ _, _, e | .tKid _ _, _, e | .tKey _ _, _, e | .dKid _ _, _, e | .dKey _ _, _, e => by
    obtain ⟨_, _, e⟩ := Res.bind_eq_ok.1 e
    obtain ⟨_, _, e⟩ := Res.bind_eq_ok.1 e
    obtain rfl : _ = P' := Res.ok.inj e
    rfl
  | .rPar _, _, e => by
    obtain ⟨_, _, e⟩ := Res.bind_eq_ok.1 e
    obtain rfl : _ = P' := Res.ok.inj e
    rfl
  | .rNum _, _, e | .dNum _, _, e => by
    obtain rfl : _ = P' := Res.ok.inj e
    rfl

theorem applyPW_key {α : Type} : ∀ (ws : List (PW K)) (P P' : Two K α), (∀ w ∈ ws, w.toKey = false) → applyPW o P ws = .ok P' → P'.key = P.key := by
  intro ws
  induction ws with
  | nil =>
    intro P P' _ e
    obtain rfl : P = P' := Res.ok.inj e
    rfl
  | cons w ws ih =>
    intro P P' hw e
    obtain ⟨P1, e1, e⟩ := Res.bind_eq_ok.1 e
    exact (ih P1 P' (fun w' h => hw w' (List.mem_cons_of_mem _ h)) e).trans (PW.apply_key (hw w (by simp)) e1)

theorem key_prefix {α : Type} {A B : List (PW K)} {w : PW K} (hA : ∀ w ∈ A, w.toKey = false) (hB : ∀ w ∈ B, w.toKey = false) {t t' : Nat} (htt : t ≤ t')
    {P0 P Q : Two K α} (e : applyPW o P0 ((A ++ w :: B).take t) = .ok P) (e' : applyPW o P0 ((A ++ w :: B).take t') = .ok Q) :
    P.key = P0.key ∨ P.key = Q.key := by
  by_cases ht : t ≤ A.length
  · left
    rw [List.take_append_of_le_length ht] at e
    exact applyPW_key _ _ _ (fun w h => hA w (List.mem_of_mem_take h)) e
  · right
    have hsplit : ∀ t, A.length < t → (A ++ w :: B).take t = A ++ w :: B.take (t - A.length - 1) := by
      intro t h
      rw [List.take_append, List.take_of_length_le (by omega), show t - A.length = (t - A.length - 1) + 1 by omega, List.take_succ_cons]
      rfl
    rw [hsplit t (by omega), applyPW_append] at e
    rw [hsplit t' (by omega), applyPW_append] at e'
    obtain ⟨P1, f1, e⟩ := Res.bind_eq_ok.1 e
    obtain ⟨P2, f2, e⟩ := Res.bind_eq_ok.1 e
    rw [f1, Res.ok_bind, applyPW_cons f2] at e'
    rw [applyPW_key _ _ _ (fun w h => hB w (List.mem_of_mem_take h)) e, applyPW_key _ _ _ (fun w h => hB w (List.mem_of_mem_take h)) e']

theorem loops_key (m : Nat) : ∀ c src dst : Nat, (∀ w ∈ roomLoop (K := K) m c, w.toKey = false) ∧ (∀ w ∈ takeKids (K := K) src dst c, w.toKey = false) ∧
    (∀ w ∈ takeKeys (K := K) src dst c, w.toKey = false) ∧ (∀ w ∈ takeBoth (K := K) src dst c, w.toKey = false) ∧
    (∀ w ∈ downLoop (K := K) m dst c, w.toKey = false) := by
  intro c
  induction c with
  | zero => intro _ _; simp [roomLoop, takeKids, takeKeys, takeBoth, downLoop]
  | succ c ih =>
    intro src dst
    obtain ⟨h1, h2, h3, h4, h5⟩ := ih (src + 1) (dst + 1)
    refine ⟨?_, ?_, ?_, ?_, ?_⟩
    · simp only [roomLoop, List.forall_mem_cons]; exact ⟨rfl, rfl, h1⟩
    · simp only [takeKids, List.forall_mem_cons]; exact ⟨rfl, h2⟩
    · simp only [takeKeys, List.forall_mem_cons]; exact ⟨rfl, h3⟩
    · simp only [takeBoth, List.forall_mem_cons]; exact ⟨rfl, rfl, h4⟩
    · simp only [downLoop, List.forall_mem_cons]; exact ⟨rfl, rfl, h5⟩

/-- The separator is the one before or the one after. -/
theorem balAt_key {α : Type} {d r : BNode K α} {pk : K} {t t' : Nat} (htt : t ≤ t') {P Q : Two K α} (e : balAt o d r pk t = .ok P)
    (e' : balAt o d r pk t' = .ok Q) : P.key = pk ∨ P.key = Q.key := by
  unfold balAt at e e'
  obtain ⟨_, a0, e⟩ := Res.bind_eq_ok.1 e
  rw [a0, Res.ok_bind] at e'
  dsimp only at e e'
  obtain ⟨m, hm⟩ : ∃ m, m = d.num - (d.num + r.num) / 2 := ⟨_, rfl⟩
  rw [← hm] at e e'
  by_cases h0 : m = 0
  · rw [if_pos h0] at e
    obtain rfl : _ = P := Res.ok.inj e
    exact .inl rfl
  · rw [if_neg h0] at e e'
    obtain ⟨dk, a1, e⟩ := Res.bind_eq_ok.1 e
    obtain ⟨rk, a2, e⟩ := Res.bind_eq_ok.1 e
    rw [a1, Res.ok_bind, a2, Res.ok_bind] at e'
    by_cases hc : dk < rk
    · rw [if_pos hc] at e e'
      have hL : balL d.num r.num m = (.rKid (r.num + m) r.num :: (roomLoop m r.num ++ takeKids (d.num - m + 1) 0 m ++
          takeKeys (d.num - m + 1) 0 (m - 1) ++ [.rPar (m - 1)])) ++ (PW.pKey (d.num - m) : PW K) :: [.rNum (r.num + m), .dNum (d.num - m)] := by
        simp [balL]
      rw [hL] at e e'
      refine key_prefix ?_ ?_ htt e e'
      · intro w hw
        simp only [List.mem_append, List.mem_cons, List.not_mem_nil, or_false] at hw
        rcases hw with rfl | ((hw | hw) | hw) | rfl
        · rfl
        · exact (loops_key m _ 0 0).1 w hw
        · exact (loops_key m _ _ _).2.1 w hw
        · exact (loops_key m _ _ _).2.2.1 w hw
        · rfl
      · intro w hw
        simp only [List.mem_cons, List.not_mem_nil, or_false] at hw
        rcases hw with rfl | rfl <;> rfl
    · rw [if_neg hc] at e e'
      obtain ⟨key, a3, e⟩ := Res.bind_eq_ok.1 e
      rw [a3, Res.ok_bind] at e'
      have hR : balR d.num r.num m key = (takeBoth 0 (r.num + 1) m ++ ([.rPar r.num] ++ (.rNum (r.num + m) :: (downLoop m 0 (d.num - m) ++
          [.dKid (d.num - m) d.num])))) ++ (PW.pVal key : PW K) :: [.dNum (d.num - m)] := by
        simp [balR]
      rw [hR] at e e'
      refine key_prefix ?_ ?_ htt e e'
      · intro w hw
        simp only [List.mem_append, List.mem_cons, List.not_mem_nil, or_false] at hw
        rcases hw with hw | rfl | rfl | hw | rfl
        · exact (loops_key m _ _ _).2.2.2.1 w hw
        · rfl
        · rfl
        · exact (loops_key m _ 0 0).2.2.2.2 w hw
        · rfl
      · intro w hw
        simp only [List.mem_cons, List.not_mem_nil, or_false] at hw
        rw [hw]; rfl

/-! ## One node -/

theorem isPos_inj {S : Nat → K} {m p r : Nat} {x : K} (h : IsPos S m x p) (h' : IsPos S m x r) : p = r := by
  have h1 := h.1
  have h2 := h'.1
  rcases lt_trichotomy p r with hlt | he | hgt
  · exact absurd (h.2.2 p le_rfl (by omega)) (not_lt.2 (h'.2.1 p hlt))
  · exact he
  · exact absurd (h'.2.2 r le_rfl (by omega)) (not_lt.2 (h.2.1 r hgt))

/-- Only the separator `p` and the children `p` and `p + 1` of `n` have changed. -/
theorem look_far (hD : DupSearch o) {h : Heap L} {d top top' : Nat} {n n' v : BNode K (Tree K d)} {lo hi lo' hi' : Bd K}
    (hb : Bt W tt lm bm h (d + 1) top n lo hi) {bm' : Nat} (hbv : Bt W tt lm bm' h (d + 1) top' v lo' hi') {p : Nat} {s : K} (hs : n.keys p = some s)
    (hvn : v.num = n.num) (hvk : ∀ j, j ≠ p → v.keys j = n.keys j) (hn : n'.num = n.num)
    (hk : (∀ j, j < n.num → n'.keys j = n.keys j) ∨ ∀ j, j < n.num → n'.keys j = v.keys j)
    (hc : ∀ j, j ≠ p → j ≠ p + 1 → n'.kids j = n.kids j) {x : K} {r : Nat} (hr : lookupPos o n x = .ok r) (hfar : r < p ∨ p + 1 < r) :
    lookT o (d + 1) h n' x = .ok (find x (content W h (ids (d + 1) n))) := by
  obtain ⟨κ, χ, _, hNn, hkk, hcc, hκ, _, _, hχ⟩ := hb.node s
  obtain ⟨κ', _, _, _, hkk', _, hκ', _⟩ := hbv.node s
  obtain ⟨r', er, hx⟩ := lookupPos_isPos hD hNn hkk hκ x
  obtain rfl : r' = r := Res.ok.inj (er.symm.trans hr)
  have hrn := hx.1
  have hpos : lookupPos o n' x = .ok r' := by
    rcases hk with hk | hk
    · obtain ⟨r2, e2, hx2⟩ := lookupPos_isPos hD (n := n') (by omega) (fun j hj => (hk j (by omega)).trans (hkk j (by omega)))
        (fun i j hij hj => hκ i j hij (by omega)) x
      rw [hn] at hx2
      rw [e2, isPos_inj hx2 hx]
    · obtain ⟨r2, e2, hx2⟩ := lookupPos_isPos hD (n := n') (by omega) (fun j hj => (hk j (by omega)).trans (hkk' j (by omega)))
        (fun i j hij hj => hκ' i j hij (by omega)) x
      rw [hn] at hx2
      have same : ∀ j, j < n.num → j ≠ p → κ' j = κ j := fun j hj hjp =>
        Option.some.inj (((hkk' j (by omega)).symm.trans (hvk j hjp)).trans (hkk j hj))
      have hx' : IsPos κ' n.num x r' := by
        refine ⟨hrn, fun i hi => ?_, fun i h1 h2 => ?_⟩
        · by_cases hip : i = p
          · have h3 := hκ' i (p + 1) (by omega) (by omega)
            rw [same (p + 1) (by omega) (by omega)] at h3
            exact h3.le.trans (hx.2.1 (p + 1) (by omega))
          · rw [same i (by omega) hip]; exact hx.2.1 i hi
        · by_cases hip : i = p
          · have h3 := hκ' r' i (by omega) (by omega)
            rw [same r' (by omega) (by omega)] at h3
            exact (hx.2.2 r' le_rfl (by omega)).trans h3
          · rw [same i h2 hip]; exact hx.2.2 i h1 h2
      rw [e2, isPos_inj hx2 hx']
  rw [lookT_step hpos (rd_ok (by omega) ((hc r' (by omega) (by omega)).trans (hcc r' hrn))), hχ x r' r' hrn hx, if_pos rfl]

theorem moveN_far (hS : AnySearch o) (hD : DupSearch o) {h : Heap L} {d top : Nat} {n : BNode K (BNode K (Tree K d))} {lo hi : Bd K} {q : Nat}
    (hN : o.N = 2 * q) (hN3 : 3 ≤ o.N) (hb : Bt W tt lm bm h (d + 2) top n lo hi) (hbm : 1 ≤ bm) (h1 : 1 ≤ n.num) {pos : Nat}
    {c : BNode K (Tree K d)} (hpos : pos ≤ n.num)
    (hc : n.kids pos = some c) (hun : c.num < (o.N + 1) / 2) {u : BNode K (BNode K (Tree K d)) × BNode K (Tree K d)}
    (hu : underflowBranch o n pos c = .ok u) {bm' top' : Nat} {lo' hi' : Bd K} (hbu : Bt W tt lm bm' h (d + 2) top' u.1 lo' hi')
    (hid : ids (d + 2) u.1 = ids (d + 2) n) {t : Nat} {n' : BNode K (BNode K (Tree K d))}
    (e : moveN o n pos c t = .ok n') (x : K) (r : Nat) (hr : lookupPos o n x = .ok r) (hfar : r + 1 < pos ∨ pos + 1 < r) :
    lookT o (d + 2) h n' x = .ok (find x (content W h (ids (d + 2) n))) := by
  have hNn := hb.num.2
  obtain ⟨n2, e2, _, hmer⟩ := moveN_spec hS hD hN hN3 hb hbm h1 hpos hc hun hu (fun x => by rw [lookT_any hbu x, hid]) t
  obtain rfl : n2 = n' := Res.ok.inj (e2.symm.trans e)
  have hun' : c.num < q := by omega
  have finish : ∀ (p : Nat) (D : BNode K (Tree K d)) (s : K) (b : Bal K (BNode K (Tree K d))) (P : Two K (Tree K d)), p ≤ o.N → n.keys p = some s →
      D.num ≤ o.N → balanceBranch o D c s = .ok b → balAt o D c s t = .ok P → P.key = s ∨ P.key = b.key := by
    intro p D s b P _ _ hD1 eb eP
    have := balAt_key (le_max_left t (4 * o.N)) eP (balAt_all eb hD1 (by omega) hN3 (le_max_right t (4 * o.N)))
    exact this
  by_cases hj : ∃ n1 p, joinP o n pos c = .ok (n1, some p)
  · exact hmer (.inr hj) x
  · unfold moveN at e
    have hu0 := hu
    unfold underflowBranch at hu
    obtain ⟨pn, a1, e⟩ := Res.bind_eq_ok.1 e
    rw [a1, Res.ok_bind] at hu
    by_cases hbig : pos > 0 ∧ (o.N + 1) / 2 < pn
    · rw [if_pos hbig] at e hu
      obtain ⟨A, B, s, _, _, q1, q2, q3, bA, bB⟩ := hb.pair (p := pos - 1) (by omega)
      have hAN := bA.num.2
      rw [rd_ok (by omega) q1, Res.ok_bind, rd_ok (by omega) q3, Res.ok_bind, Res.assert_pos (by omega), Res.ok_bind] at e hu
      obtain ⟨P, eP, e⟩ := Res.bind_eq_ok.1 e
      obtain ⟨b, eb, hu⟩ := Res.bind_eq_ok.1 hu
      rw [wr_ok _ _ (by omega), Res.ok_bind, wr_ok _ _ (by omega), Res.ok_bind, wr_ok _ _ (by omega), Res.ok_bind] at e hu
      obtain rfl : _ = u := Res.ok.inj hu
      obtain rfl : _ = n2 := Res.ok.inj e
      dsimp only at hbu
      refine look_far hD hb hbu (p := pos - 1) q3 rfl (fun j hj => if_neg hj) (by rfl) ?_ (fun j h1 h2 => ?_) hr (by omega)
      · rcases finish (pos - 1) A s b P (by omega) q3 hAN eb eP with h2 | h2
        · left
          intro j _
          dsimp only
          split
          · rename_i hjp; rw [h2, hjp, q3]
          · rfl
        · right
          intro j _
          dsimp only
          rw [h2]
      · dsimp only
        rw [if_neg (by omega), if_neg h1]
    · rw [if_neg hbig] at e hu
      obtain ⟨nn, a2, e⟩ := Res.bind_eq_ok.1 e
      rw [a2, Res.ok_bind] at hu
      by_cases hbig2 : pos < n.num ∧ (o.N + 1) / 2 < nn
      · rw [if_pos hbig2] at e hu
        obtain ⟨A, B, s, _, _, q1, q2, q3, bA, bB⟩ := hb.pair (p := pos) (by omega)
        have hBN := bB.num.2
        rw [rd_ok (by omega) q2, Res.ok_bind, rd_ok (by omega) q3, Res.ok_bind, Res.assert_pos (by omega), Res.ok_bind] at e hu
        obtain ⟨P, eP, e⟩ := Res.bind_eq_ok.1 e
        obtain ⟨b, eb, hu⟩ := Res.bind_eq_ok.1 hu
        rw [wr_ok _ _ (by omega), Res.ok_bind, wr_ok _ _ (by omega), Res.ok_bind, wr_ok _ _ (by omega), Res.ok_bind] at e hu
        obtain rfl : _ = u := Res.ok.inj hu
        obtain rfl : _ = n2 := Res.ok.inj e
        dsimp only at hbu
        refine look_far hD hb hbu (p := pos) q3 rfl (fun j hj => if_neg hj) (by rfl) ?_ (fun j h1 h2 => ?_) hr (by omega)
        · rcases finish pos B s b P (by omega) q3 hBN eb eP with h2 | h2
          · left
            intro j _
            dsimp only
            split
            · rename_i hjp; rw [h2, hjp, q3]
            · rfl
          · right
            intro j _
            dsimp only
            rw [h2]
        · dsimp only
          rw [if_neg h1, if_neg h2]
      · -- a merge
        refine absurd ?_ hj
        obtain ⟨n1, mp, _, g1, _, g3, _⟩ := joinN_spec hD hN hb hbm h1 hpos hc hun hu0 (fun x => by rw [lookT_any hbu x, hid]) 0
        cases mp with
        | some p => exact ⟨n1, p, g1⟩
        | none =>
          exfalso
          unfold joinP at g1
          rw [a1, Res.ok_bind, if_neg hbig, a2, Res.ok_bind, if_neg hbig2] at g1
          split at g1
          · obtain ⟨_, _, g1⟩ := Res.bind_eq_ok.1 g1
            obtain ⟨_, _, g1⟩ := Res.bind_eq_ok.1 g1
            obtain ⟨_, _, g1⟩ := Res.bind_eq_ok.1 g1
            obtain ⟨_, _, g1⟩ := Res.bind_eq_ok.1 g1
            cases congrArg Prod.snd (Res.ok.inj g1)
          · split at g1
            · obtain ⟨_, _, g1⟩ := Res.bind_eq_ok.1 g1
              obtain ⟨_, _, g1⟩ := Res.bind_eq_ok.1 g1
              obtain ⟨_, _, g1⟩ := Res.bind_eq_ok.1 g1
              obtain ⟨_, _, g1⟩ := Res.bind_eq_ok.1 g1
              obtain ⟨_, _, g1⟩ := Res.bind_eq_ok.1 g1
              cases congrArg Prod.snd (Res.ok.inj g1)
            · cases g1

/-- `j` levels below `n` a search for `x` does not come to the child on the way to `k` nor to a neighbour of it. -/
def Far (o : Ops K V L) : (d : Nat) → BNode K (Tree K d) → K → Nat → K → Prop
  | _, n, k, 0, x => ∃ pos r, lookupPos o n k = .ok pos ∧ lookupPos o n x = .ok r ∧ (r + 1 < pos ∨ pos + 1 < r)
  | 0, _, _, _ + 1, _ => False
  | d + 1, n, k, j + 1, x => ∃ pos r, lookupPos o n k = .ok pos ∧ lookupPos o n x = .ok r ∧
      (r ≠ pos ∨ ∃ c, rd (o.N + 1) n.kids pos = .ok c ∧ Far o d c k j x)

/-- Every level: searches that stay away from the erased key are right. -/
theorem moveAt_far (E : EraseLaws W) (hS : AnySearch o) (hD : DupSearch o) {q : Nat} (hN : o.N = 2 * q) (hbm2 : 2 ≤ bm) (hbm : bm ≤ q - 1)
    (hM : 2 ≤ o.M) (hlm1 : 1 ≤ lm) (hlm : lm ≤ o.M / 2) (k : K) (t : Nat) : ∀ (d top j : Nat) (h : Heap L)
    (n : BNode K (Tree K d)) (lo hi : Bd K) (pre post : List Nat), j < d →
    Bt W E.Q lm bm h (d + 1) top n lo hi → InR lo hi k →
    (∀ id l, findLeaf o (d + 1) n k = .ok id → h.data id = some l → E.pre l k) → Wf h (pre ++ ids (d + 1) n ++ post) → 1 ≤ top →
    ∃ h' n', moveAt o d h n k j t = .ok (h', n') ∧ Frame h h' (ids (d + 1) n) ∧
      ∀ x, Far o d n k j x → lookT o (d + 1) h' n' x = .ok (if x = k then none else find x (content W h (ids (d + 1) n))) := by
  intro d
  induction d with
  | zero => intro top j h n lo hi pre post hj; exact absurd hj (by omega)
  | succ d ih =>
    intro top j h n lo hi pre post hj hb hk hf w ht1
    have hbtt := hb.frame (Q' := tt) (fun _ _ _ _ => trivial) (fun _ _ => rfl)
    obtain ⟨cs, ks, hr, htop, ht⟩ := hb
    obtain ⟨hks, _, _⟩ := keys_sorted (fun c a b hc => Bt.lt hc) ht
    obtain ⟨c1, c, c2, k1, k2, b1, m, m', b2, f⟩ := exists_focus W (fun c a b hc => Bt.lt hc) ht hk
    have hids : ids (d + 2) n = c1.flatMap (ids (d + 1)) ++ ids (d + 1) c ++ c2.flatMap (ids (d + 1)) := by
      rw [ids_rep hr, f.hcs]; simp
    have hlp := f.lookupPos hr hks
    have hrd := f.rdKid hr
    have w' : Wf h ((pre ++ c1.flatMap (ids (d + 1))) ++ ids (d + 1) c ++ (c2.flatMap (ids (d + 1)) ++ post)) := by
      rw [hids] at w; simpa using w
    have hpc := f.pc
    have ht1' := f.t1
    have ht2' := f.t2
    rw [show occ lm bm (d + 1) = bm from rfl] at hpc ht1' ht2'
    have hfc : ∀ id l, findLeaf o (d + 1) c k = .ok id → h.data id = some l → E.pre l k := fun id l hfl hl =>
      hf id l (by rw [findLeaf, hlp, Res.ok_bind, hrd, Res.ok_bind]; exact hfl) hl
    have hkl : k1.length ≤ o.N := by have := hr.cap; rw [f.hks, List.length_append] at this; omega
    rcases j with _ | j
    · -- this level
      have hne1 : ∀ e ∈ content W h (c1.flatMap (ids (d + 1))), e.1 ≠ k := fun e he heq => by
        have := lt_of_lt_of_le (f.left_lt e he) f.inR.1
        rw [heq] at this; exact absurd this (lt_irrefl _)
      have hne2 : ∀ e ∈ content W h (c2.flatMap (ids (d + 1))), e.1 ≠ k := fun e he heq => by
        have := lt_of_lt_of_le f.inR.2 (f.right_ge e he)
        rw [heq] at this; exact absurd this (lt_irrefl _)
      have hrem : remove k (content W h (ids (d + 2) n)) =
          content W h (c1.flatMap (ids (d + 1))) ++ remove k (content W h (ids (d + 1) c)) ++
            content W h (c2.flatMap (ids (d + 1))) := by
        rw [hids, content_append, content_append, remove_append, remove_append, remove_eq_self hne1,
          remove_eq_self hne2]
      have hnd := mem_disjoint (pre := pre) (post := post) (by rw [← hids]; exact w.nodup)
      obtain ⟨r, er, hdel, hframe, hfresh, hpost⟩ := eraseB_spec E hN hbm2 hbm hM hlm1 hlm k d bm false h c m m' _ _ hpc f.inR hfc w'
        (by omega) (fun _ => by omega)
      have hfr1 : ∀ i ∈ c1.flatMap (ids (d + 1)), r.heap.data i = h.data i := fun i hi =>
        hframe i (hnd.1 i hi) (w'.fresh i (by simp only [List.mem_append]; tauto))
      have hfr2 : ∀ i ∈ c2.flatMap (ids (d + 1)), r.heap.data i = h.data i := fun i hi =>
        hframe i (hnd.2.1 i hi) (w'.fresh i (by simp only [List.mem_append]; tauto))
      have ht1f := Tile.frame (Q' := tt) (h' := r.heap) (fun _ _ _ _ => trivial) hfr1 ht1'
      have ht2f := Tile.frame (Q' := tt) (h' := r.heap) (fun _ _ _ _ => trivial) hfr2 ht2'
      have hFr : Frame h r.heap (ids (d + 2) n) := by
        intro i hi hif
        refine hframe i (fun hc => hi ?_) hif
        rw [hids]; simp only [List.mem_append]; tauto
      unfold ErPost at hpost
      cases hnr : r.newRoot with
      | some tr => rw [hnr] at hpost; exact absurd hpost.1 (by simp)
      | none =>
        rw [hnr] at hpost
        obtain ⟨hbt, _, hwf, hct, hhd⟩ := hpost
        have hr' := hr
        rw [f.hcs, f.hks] at hr'
        obtain ⟨kids, ek, hrk⟩ := hr'.setKid r.node
        rw [f.l1] at ek
        have hkids : kids = fun j => if j = k1.length then some r.node else n.kids j := by
          rw [wr_ok _ _ (by omega)] at ek
          exact (Res.ok.inj ek).symm
        have hks' := hks
        rw [f.hks] at hks'
        set n1 : BNode K (Tree K (d + 1)) := { n with kids := kids } with hn1
        have hlp2 : lookupPos o n1 k = .ok k1.length := lookupPos_of W hrk hks' f.le f.gt
        have hn1num : 1 ≤ n1.num := by change 1 ≤ n.num; rw [hr.num]; omega
        have hjoin : moveAt o (d + 1) h n k 0 t = (if r.node.num < (o.N + 1) / 2 then do
            let n' ← moveN o n1 k1.length r.node t
            pure (r.heap, n')
          else pure (r.heap, n1)) := by
          rw [moveAt, hlp, Res.ok_bind, hrd, Res.ok_bind, er, Res.ok_bind, Res.guardUB_pos (by simp [hnr]), Res.ok_bind, ek, Res.ok_bind]
          dsimp only
          rw [← hn1, hlp2, Res.ok_bind]
        -- the node with the new child
        have hb1 : Bt W tt lm (bm - 1) r.heap (d + 2) 1 n1 lo hi := by
          refine ⟨_, _, hrk, by rw [← hrk.num]; exact hn1num, ?_⟩
          have low : ∀ c a b, Bt W tt lm bm r.heap (d + 1) bm c a b → Bt W tt lm (bm - 1) r.heap (d + 1) (bm - 1) c a b :=
            fun c a b hc => (hc.fewer (Nat.sub_le _ _)).top_le (Nat.sub_le _ _)
          have := tile_unfocus (xs := [r.node]) (ys := []) f.hb1 f.hb2 f.lb rfl (tile_imp ht1f (fun c _ => low c))
            ⟨hbt.fewer (Nat.sub_le _ _), trivial⟩ (tile_imp ht2f (fun c _ => low c))
          simpa [occ] using this
        have hcont : content W r.heap (ids (d + 2) n1) = remove k (content W h (ids (d + 2) n)) := by
          rw [ids_rep hrk, hrem, List.flatMap_append, List.flatMap_cons, content_append, content_append, hct, content_congr W hfr1,
            content_congr W hfr2, List.append_assoc]
        have hA : ∀ x, find x (content W r.heap (ids (d + 2) n1)) = if x = k then none else find x (content W h (ids (d + 2) n)) := by
          intro x
          rw [hcont, find_remove]
        by_cases hun : r.node.num < (o.N + 1) / 2
        · rw [if_pos hun] at hjoin
          obtain ⟨u, cs', ks', eu, hru, htu, hidu, hlu, hnil⟩ := underflowBranch_spec hN hbm2 hbm hrk f.l1 f.l2
            f.hb1 f.hb2 f.lb ht1f hbt ht2f (by have := hrk.num; rw [List.length_append] at this; omega) hun
          have hbu : Bt W tt lm bm r.heap (d + 2) 0 u.1 lo hi := ⟨cs', ks', hru, Nat.zero_le _, htu⟩
          have hidu' : ids (d + 2) u.1 = ids (d + 2) n1 := by rw [ids_rep hru, ids_rep hrk, hidu]
          obtain ⟨n', g2, _⟩ := moveN_spec hS hD hN (by omega) hb1 (by omega) hn1num (pos := k1.length) (c := r.node)
            (by change k1.length ≤ n.num; rw [hr.num, f.hks, List.length_append]; omega) (by rw [hn1, hkids]; simp) hun eu
            (fun x => by rw [lookT_any hbu x, hidu']) t
          have g4 := moveN_far hS hD hN (by omega) hb1 (by omega) hn1num (pos := k1.length) (c := r.node)
            (by change k1.length ≤ n.num; rw [hr.num, f.hks, List.length_append]; omega) (by rw [hn1, hkids]; simp) hun eu hbu hidu' g2
          rw [g2, Res.ok_bind] at hjoin
          refine ⟨r.heap, n', hjoin, hFr, fun x hfar => ?_⟩
          obtain ⟨pos, rr, a1, a2, a3⟩ := hfar
          obtain rfl : k1.length = pos := Res.ok.inj (hlp.symm.trans a1)
          rw [← hA x]
          exact g4 x rr a2 a3
        · rw [if_neg hun] at hjoin
          exact ⟨r.heap, n1, hjoin, hFr, fun x _ => by rw [lookT_any hb1 x, hA x]⟩
    · -- a level below
      obtain ⟨h', c', g1, g2, g3⟩ := ih bm j h c m m' _ _ (by omega) hpc f.inR hfc w' (by omega)
      set n' : BNode K (Tree K (d + 1)) := ⟨n.num, n.keys, fun j => if j = k1.length then some c' else n.kids j⟩ with hn'
      have hjoin : moveAt o (d + 1) h n k (j + 1) t = .ok (h', n') := by
        rw [moveAt, hlp, Res.ok_bind, hrd, Res.ok_bind, g1, Res.ok_bind, wr_ok _ _ (by omega), Res.ok_bind]
        rfl
      have hsearch : ∀ x, (lookupPos o n x = .ok k1.length ∧ lookT o (d + 2) h' n' x = lookT o (d + 1) h' c' x ∧
          find x (content W h (ids (d + 2) n)) = find x (content W h (ids (d + 1) c))) ∨
          (lookupPos o n x ≠ .ok k1.length ∧
            lookT o (d + 2) h' n' x = .ok (if x = k then none else find x (content W h (ids (d + 2) n)))) := by
        intro x
        obtain ⟨cs', ks', hr', _, ht'⟩ := hbtt.widen (bot_le (a := lo)) (le_top (a := hi))
        obtain rfl := rep_unique hr'.kids hr.kids (by rw [hr'.len, hr.len, ← hr'.num, ← hr.num])
        obtain rfl := rep_unique hr'.keys hr.keys (by rw [← hr'.num, ← hr.num])
        obtain ⟨a1, y, a2, l1, l2, b1', m1, m1', b2', fx⟩ := exists_focus W (fun c a b hc => Bt.lt hc) ht' (inR_univ x)
        have hlx := fx.lookupPos hr hks
        have hrx := fx.rdKid hr
        have hlx' : lookupPos o n' x = .ok l1.length := hlx
        have hcont : find x (content W h (ids (d + 2) n)) = find x (content W h (ids (d + 1) y)) := by
          have ht2 := ht'
          rw [fx.hcs, fx.hks] at ht2
          rw [ids_rep hr, fx.hcs]
          exact find_tile ht2 fx.l1 fx.le fx.gt
        by_cases hl : l1.length = k1.length
        · left
          have hyc : y = c := by
            rw [hl, hrd] at hrx
            exact (Res.ok.inj hrx).symm
          subst hyc
          refine ⟨by rw [hlx, hl], lookT_step hlx' ?_, hcont⟩
          rw [hl]
          exact rd_ok (by omega) (by simp [hn'])
        · right
          have hll : l1.length ≤ o.N := by have := hr.cap; rw [fx.hks, List.length_append] at this; omega
          have hxk : x ≠ k := by
            rintro rfl
            exact hl (Res.ok.inj (hlx.symm.trans hlp))
          have hmem : y ∈ c1 ++ c2 := by
            have h1 : cs'[l1.length]? = some y := by rw [fx.hcs, ← fx.l1]; simp
            have hl1 := f.l1
            rw [f.hcs] at h1
            rcases Nat.lt_trichotomy l1.length k1.length with h2 | h2 | h2
            · rw [List.getElem?_append_left (by omega)] at h1
              exact List.mem_append_left _ (List.mem_of_getElem? h1)
            · exact absurd h2 hl
            · rw [List.getElem?_append_right (by omega), show l1.length - c1.length = (l1.length - c1.length - 1) + 1 by omega,
                List.getElem?_cons_succ] at h1
              exact List.mem_append_right _ (List.mem_of_getElem? h1)
          have hdis : ∀ i ∈ ids (d + 1) y, i < h.fresh ∧ i ∉ ids (d + 1) c := by
            intro i hi
            have hnd := w'.nodup
            have hi2 : i ∈ c1.flatMap (ids (d + 1)) ∨ i ∈ c2.flatMap (ids (d + 1)) := by
              rcases List.mem_append.1 hmem with h1 | h1
              · exact .inl (List.mem_flatMap.2 ⟨y, h1, hi⟩)
              · exact .inr (List.mem_flatMap.2 ⟨y, h1, hi⟩)
            refine ⟨w'.fresh i (by simp only [List.mem_append]; tauto), fun hic => ?_⟩
            rw [List.nodup_append, List.nodup_append] at hnd
            obtain ⟨⟨_, _, h1⟩, _, h2⟩ := hnd
            rcases hi2 with h3 | h3
            · exact h1 i (List.mem_append_right _ h3) i hic rfl
            · exact h2 i (List.mem_append_right _ hic) i (List.mem_append_left _ h3) rfl
          have hfy : ∀ i ∈ ids (d + 1) y, h'.data i = h.data i := fun i hi => g2 i (hdis i hi).2 (hdis i hi).1
          have hby : Bt W tt lm bm h' (d + 1) (occ lm bm (d + 1)) y m1 m1' := fx.pc.frame (fun _ _ _ h => h) hfy
          have hlo := lookT_any hby x
          rw [content_congr W hfy, ← hcont] at hlo
          have hky : n.kids l1.length = some y := by
            rw [hr.kids _ (by rw [fx.hcs, List.length_append, fx.l1, List.length_cons]; omega), fx.hcs, ← fx.l1]; simp
          refine ⟨fun hc => hl (Res.ok.inj (hlx.symm.trans hc)), ?_⟩
          rw [if_neg hxk, ← hlo]
          exact lookT_step hlx' (rd_ok (by omega) (by simp only [hn']; rw [if_neg hl]; exact hky))
      refine ⟨h', n', hjoin, ?_, fun x hfar => ?_⟩
      · intro i hi hif
        refine g2 i (fun hc => hi ?_) hif
        rw [hids]; simp only [List.mem_append]; tauto
      · rcases hsearch x with ⟨s0, s1, s2⟩ | ⟨s0, s1⟩
        · rw [s1, s2]
          obtain ⟨pos, rr, a1, a2, a3⟩ := hfar
          obtain rfl : k1.length = pos := Res.ok.inj (hlp.symm.trans a1)
          obtain rfl : k1.length = rr := Res.ok.inj (s0.symm.trans a2)
          rcases a3 with a3 | ⟨c0, a4, a5⟩
          · exact absurd rfl a3
          · obtain rfl : c = c0 := Res.ok.inj (hrd.symm.trans a4)
            exact g3 x a5
        · exact s1

/-- The same for a tree object. -/
def Away (o : Ops K V L) (s : State K L) (k : K) (j : Nat) (x : K) : Prop :=
  match s with
  | ⟨0, _, _⟩ => False
  | ⟨d + 1, n, _⟩ => Far o d n k j x

theorem moveErase_far (E : EraseLaws W) (hS : AnySearch o) (hD : DupSearch o) {q : Nat} (hN : o.N = 2 * q) (hbm2 : 2 ≤ bm) (hbm : bm ≤ q - 1)
    (hM : 2 ≤ o.M) (hlm1 : 1 ≤ lm) (hlm : lm ≤ o.M / 2) {s : State K L} {k : K}
    (hb : Bt W E.Q lm bm s.heap s.depth (rootMin 1 s.depth) s.root ⊥ ⊤) (w : Wf s.heap (ids s.depth s.root))
    (hf : ∀ id l, findLeaf o s.depth s.root k = .ok id → s.heap.data id = some l → E.pre l k) {j : Nat} (hj : j + 1 < s.depth) (t : Nat) :
    ∃ s', moveErase o s k j t = .ok s' ∧ ∀ x, Away o s k j x → lookup o s' x = .ok (if x = k then none else find x (cont W s)) := by
  obtain ⟨d, n, h⟩ := s
  rcases d with _ | d
  · exact absurd hj (by change ¬ (j + 1 < 0); omega)
  · obtain ⟨h', n', e, _, hx⟩ := moveAt_far E hS hD hN hbm2 hbm hM hlm1 hlm k t d _ j h n ⊥ ⊤ [] [] (by change j + 1 < d + 1 at hj; omega) hb (inR_univ k) hf
      (by simpa using w) le_rfl
    refine ⟨⟨d + 1, n', h'⟩, ?_, hx⟩
    change (moveAt o d h n k j t >>= fun r => pure (⟨d + 1, r.2, r.1⟩ : State K L)) = _
    rw [e]; rfl

end Verif.BTree
