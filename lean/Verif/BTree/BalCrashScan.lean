import Verif.BTree.BalCrashProps

/-!
# Scans after an interrupted erase of PBPTree

The first leaf is found over child 0 of every branch node (PBPTree.hpp:318-339), the others over `nextLeaf`.
-/

set_option linter.unusedSectionVars false

namespace Verif.BTree

open Verif Assoc
open Verif.Slots hiding none

variable {K V L : Type} [LinearOrder K] {o : Ops K V L} {W : Laws o} {lm bm : Nat}

theorem wr_inv {α : Type} {cap i : Nat} {a b : Slots α} {v : α} (e : wr cap a i v = .ok b) : b = fun j => if j = i then some v else a j := by
  by_cases h : i < cap
  · rw [wr_ok _ _ h] at e
    exact (Res.ok.inj e).symm
  · unfold wr at e
    rw [if_neg h] at e
    cases e

/-! ## Child 0 -/

/-- An assignment to child 0 of the donor. -/
def PW.lowD : PW K → Bool
  | .dKid 0 _ => true
  | _ => false

/-- An assignment to child 0 of the receiver. -/
def PW.lowR : PW K → Bool
  | .rKid 0 _ => true
  | .tKid 0 _ => true
  | _ => false

theorem PW.apply_lowD {α : Type} {P P' : Two K α} : ∀ {w : PW K}, w.lowD = false → w.apply o P = .ok P' → P'.dnr.kids 0 = P.dnr.kids 0
  | .rKid _ _, _, e | .rKey _ _, _, e | .tKid _ _, _, e | .tKey _ _, _, e | .dKey _ _, _, e => by
    obtain ⟨_, _, e⟩ := Res.bind_eq_ok.1 e
    obtain ⟨_, _, e⟩ := Res.bind_eq_ok.1 e
    obtain rfl : _ = P' := Res.ok.inj e
    rfl
  | .dKid 0 _, h, _ => by cases h
  | .dKid (i + 1) _, _, e => by
    obtain ⟨_, _, e⟩ := Res.bind_eq_ok.1 e
    obtain ⟨_, e1, e⟩ := Res.bind_eq_ok.1 e
    obtain rfl : _ = P' := Res.ok.inj e
    rw [wr_inv e1]
    rfl
  | .rPar _, _, e | .pKey _, _, e => by
    obtain ⟨_, _, e⟩ := Res.bind_eq_ok.1 e
    obtain rfl : _ = P' := Res.ok.inj e
    rfl
  | .rNum _, _, e | .dNum _, _, e | .pVal _, _, e => by
    obtain rfl : _ = P' := Res.ok.inj e
    rfl

theorem PW.apply_lowR {α : Type} {P P' : Two K α} : ∀ {w : PW K}, w.lowR = false → w.apply o P = .ok P' → P'.rcv.kids 0 = P.rcv.kids 0
  | .dKid _ _, _, e | .rKey _ _, _, e | .tKey _ _, _, e | .dKey _ _, _, e => by
    obtain ⟨_, _, e⟩ := Res.bind_eq_ok.1 e
    obtain ⟨_, _, e⟩ := Res.bind_eq_ok.1 e
    obtain rfl : _ = P' := Res.ok.inj e
    rfl
  | .rKid 0 _, h, _ | .tKid 0 _, h, _ => by cases h
  | .rKid (i + 1) _, _, e | .tKid (i + 1) _, _, e => by
    obtain ⟨_, _, e⟩ := Res.bind_eq_ok.1 e
    obtain ⟨_, e1, e⟩ := Res.bind_eq_ok.1 e
    obtain rfl : _ = P' := Res.ok.inj e
    rw [wr_inv e1]
    rfl
  | .rPar _, _, e | .pKey _, _, e => by
    obtain ⟨_, _, e⟩ := Res.bind_eq_ok.1 e
    obtain rfl : _ = P' := Res.ok.inj e
    rfl
  | .rNum _, _, e | .dNum _, _, e | .pVal _, _, e => by
    obtain rfl : _ = P' := Res.ok.inj e
    rfl

theorem applyPW_lowD {α : Type} : ∀ (ws : List (PW K)) (P P' : Two K α), (∀ w ∈ ws, w.lowD = false) → applyPW o P ws = .ok P' →
    P'.dnr.kids 0 = P.dnr.kids 0 := by
  intro ws
  induction ws with
  | nil => intro P P' _ e; obtain rfl : P = P' := Res.ok.inj e; rfl
  | cons w ws ih =>
    intro P P' hw e
    obtain ⟨P1, e1, e⟩ := Res.bind_eq_ok.1 e
    exact (ih P1 P' (fun w' h => hw w' (List.mem_cons_of_mem _ h)) e).trans (PW.apply_lowD (hw w (by simp)) e1)

theorem applyPW_lowR {α : Type} : ∀ (ws : List (PW K)) (P P' : Two K α), (∀ w ∈ ws, w.lowR = false) → applyPW o P ws = .ok P' →
    P'.rcv.kids 0 = P.rcv.kids 0 := by
  intro ws
  induction ws with
  | nil => intro P P' _ e; obtain rfl : P = P' := Res.ok.inj e; rfl
  | cons w ws ih =>
    intro P P' hw e
    obtain ⟨P1, e1, e⟩ := Res.bind_eq_ok.1 e
    exact (ih P1 P' (fun w' h => hw w' (List.mem_cons_of_mem _ h)) e).trans (PW.apply_lowR (hw w (by simp)) e1)

theorem loops_low (m : Nat) : ∀ c src dst : Nat, (∀ w ∈ roomLoop (K := K) m c, w.lowD = false) ∧ (∀ w ∈ takeKids (K := K) src dst c, w.lowD = false) ∧
    (∀ w ∈ takeKeys (K := K) src dst c, w.lowD = false) ∧ (∀ w ∈ takeBoth (K := K) src (dst + 1) c, w.lowR = false) ∧
    (∀ w ∈ downLoop (K := K) m dst c, w.lowR = false) ∧ (∀ w ∈ mergeLoop (K := K) src dst c, w.lowR = false) := by
  intro c
  induction c with
  | zero => intro _ _; simp [roomLoop, takeKids, takeKeys, takeBoth, downLoop, mergeLoop]
  | succ c ih =>
    intro src dst
    obtain ⟨h1, h2, h3, h4, h5, h6⟩ := ih (src + 1) (dst + 1)
    refine ⟨?_, ?_, ?_, ?_, ?_, ?_⟩
    · simp only [roomLoop, List.forall_mem_cons]; exact ⟨rfl, rfl, h1⟩
    · simp only [takeKids, List.forall_mem_cons]; exact ⟨rfl, h2⟩
    · simp only [takeKeys, List.forall_mem_cons]; exact ⟨rfl, h3⟩
    · simp only [takeBoth, List.forall_mem_cons]; exact ⟨rfl, rfl, h4⟩
    · simp only [downLoop, List.forall_mem_cons]; exact ⟨rfl, rfl, h5⟩
    · simp only [mergeLoop, List.forall_mem_cons]; exact ⟨rfl, rfl, h6⟩

/-- The donor is on the left: its child 0 stays. -/
theorem balAt_dnr0 {α : Type} {d r : BNode K α} {pk dk rk : K} {t : Nat} {P : Two K α} (e : balAt o d r pk t = .ok P)
    (h1 : rd o.N d.keys 0 = .ok dk) (h2 : rd o.N r.keys 0 = .ok rk) (hlt : dk < rk) : P.dnr.kids 0 = d.kids 0 := by
  unfold balAt at e
  obtain ⟨_, _, e⟩ := Res.bind_eq_ok.1 e
  dsimp only at e
  split at e
  · obtain rfl : _ = P := Res.ok.inj e
    rfl
  · rw [h1, Res.ok_bind, h2, Res.ok_bind, if_pos hlt] at e
    refine applyPW_lowD _ _ _ (fun w hw => ?_) e
    replace hw := List.mem_of_mem_take hw
    simp only [balL, List.mem_append, List.mem_cons, List.not_mem_nil, or_false] at hw
    rcases hw with ((((rfl | hw) | hw) | hw) | rfl | rfl) | rfl | rfl
    · rfl
    · exact (loops_low _ _ 0 0).1 w hw
    · exact (loops_low 0 _ _ _).2.1 w hw
    · exact (loops_low 0 _ _ _).2.2.1 w hw
    all_goals rfl

/-- The receiver is on the left: its child 0 stays. -/
theorem balAt_rcv0 {α : Type} {d r : BNode K α} {pk dk rk : K} {t : Nat} {P : Two K α} (e : balAt o d r pk t = .ok P)
    (h1 : rd o.N d.keys 0 = .ok dk) (h2 : rd o.N r.keys 0 = .ok rk) (hlt : rk < dk) : P.rcv.kids 0 = r.kids 0 := by
  unfold balAt at e
  obtain ⟨_, _, e⟩ := Res.bind_eq_ok.1 e
  dsimp only at e
  split at e
  · obtain rfl : _ = P := Res.ok.inj e
    rfl
  · rw [h1, Res.ok_bind, h2, Res.ok_bind, if_neg (not_lt.2 hlt.le)] at e
    obtain ⟨_, _, e⟩ := Res.bind_eq_ok.1 e
    refine applyPW_lowR _ _ _ (fun w hw => ?_) e
    replace hw := List.mem_of_mem_take hw
    simp only [balR, List.mem_append, List.mem_cons, List.not_mem_nil, or_false] at hw
    rcases hw with (hw | rfl) | rfl | ((hw | rfl | rfl) | rfl)
    · exact (loops_low 0 _ _ _).2.2.2.1 w hw
    · rfl
    · rfl
    · exact (loops_low _ _ 0 _).2.2.2.2.1 w hw
    all_goals rfl

theorem mergeAt_rcv0 {α : Type} {sib n : BNode K α} {key : K} {t : Nat} {P : Two K α} (e : mergeAt o sib key n t = .ok P) :
    P.rcv.kids 0 = sib.kids 0 := by
  unfold mergeAt at e
  obtain ⟨_, _, e⟩ := Res.bind_eq_ok.1 e
  obtain ⟨_, _, e⟩ := Res.bind_eq_ok.1 e
  obtain ⟨_, _, e⟩ := Res.bind_eq_ok.1 e
  obtain ⟨_, _, e⟩ := Res.bind_eq_ok.1 e
  obtain ⟨_, _, e⟩ := Res.bind_eq_ok.1 e
  refine applyPW_lowR _ _ _ (fun w hw => ?_) e
  replace hw := List.mem_of_mem_take hw
  simp only [mergePW, List.mem_append, List.mem_cons, List.not_mem_nil, or_false] at hw
  rcases hw with (rfl | rfl | hw) | rfl
  · rfl
  · rfl
  · exact (loops_low 0 _ _ _).2.2.2.2.2 w hw
  · rfl

theorem leftmost_kid0 {d : Nat} {n n' : BNode K (Tree K d)} (h : n'.kids 0 = n.kids 0) : leftmost o (d + 1) n' = leftmost o (d + 1) n := by
  unfold leftmost rd
  rw [h]

theorem leftmost_kid00 {d : Nat} {n n' : BNode K (BNode K (Tree K d))} {a a' : BNode K (Tree K d)} (h : n.kids 0 = some a) (h' : n'.kids 0 = some a')
    (e : a'.kids 0 = a.kids 0) : leftmost o (d + 2) n' = leftmost o (d + 2) n := by
  change (rd (o.N + 1) n'.kids 0 >>= fun c => leftmost o (d + 1) c) = (rd (o.N + 1) n.kids 0 >>= fun c => leftmost o (d + 1) c)
  rw [rd_ok (by omega) h, rd_ok (by omega) h', Res.ok_bind, Res.ok_bind, leftmost_kid0 e]

theorem Bt.key0 {h : Heap L} {d top : Nat} {n : BNode K (Tree K d)} {lo hi : Bd K} (hb : Bt W tt lm bm h (d + 1) top n lo hi) (h1 : 1 ≤ n.num) :
    ∃ k, rd o.N n.keys 0 = .ok k ∧ lo < bk k ∧ bk k < hi := by
  have hN := hb.num.2
  obtain ⟨cs, ks, hr, _, ht⟩ := hb
  obtain ⟨_, h2, h3⟩ := keys_sorted (fun c a b hc => Bt.lt hc) ht
  cases ks with
  | nil => have := hr.num; simp only [List.length_nil] at this; omega
  | cons k ks => exact ⟨k, rd_ok (by omega) (hr.keys 0 (by simp)), h2 k (by simp), h3 k (by simp)⟩

theorem moveN_first {h : Heap L} {d top : Nat} {n : BNode K (BNode K (Tree K d))} {lo hi : Bd K} {q : Nat}
    (hN : o.N = 2 * q) (hb : Bt W tt lm bm h (d + 2) top n lo hi) (hbm : 1 ≤ bm) (h1 : 1 ≤ n.num) {pos : Nat}
    {c : BNode K (Tree K d)} (hpos : pos ≤ n.num)
    (hc : n.kids pos = some c) (hun : c.num < (o.N + 1) / 2) {u : BNode K (BNode K (Tree K d)) × BNode K (Tree K d)}
    (_ : underflowBranch o n pos c = .ok u) {bm' top' : Nat} {lo' hi' : Bd K} (_ : Bt W tt lm bm' h (d + 2) top' u.1 lo' hi')
    (_ : ids (d + 2) u.1 = ids (d + 2) n) {t : Nat} {n' : BNode K (BNode K (Tree K d))}
    (e : moveN o n pos c t = .ok n') : leftmost o (d + 2) n' = leftmost o (d + 2) n := by
  have hNn := hb.num.2
  unfold moveN at e
  obtain ⟨pn, a1, e⟩ := Res.bind_eq_ok.1 e
  have hp0 : 0 < pn → 0 < pos := by
    intro hp
    unfold childNum at a1
    split at a1
    · assumption
    · obtain rfl : 0 = pn := Res.ok.inj a1
      omega
  by_cases hbig : pos > 0 ∧ (o.N + 1) / 2 < pn
  · rw [if_pos hbig] at e
    obtain ⟨A, B, s, _, _, q1, q2, q3, bA, bB⟩ := hb.pair (p := pos - 1) (by omega)
    obtain rfl : B = c := by rw [show pos - 1 + 1 = pos by omega] at q2; exact Option.some.inj (q2.symm.trans hc)
    rw [rd_ok (by omega) q1, Res.ok_bind, rd_ok (by omega) q3, Res.ok_bind, Res.assert_pos (by omega), Res.ok_bind] at e
    obtain ⟨P, eP, e⟩ := Res.bind_eq_ok.1 e
    rw [wr_ok _ _ (by omega), Res.ok_bind, wr_ok _ _ (by omega), Res.ok_bind, wr_ok _ _ (by omega), Res.ok_bind] at e
    obtain rfl : _ = n' := Res.ok.inj e
    by_cases h0 : pos - 1 = 0
    · obtain ⟨dk, e1, _, l1⟩ := bA.key0 (hbm.trans bA.num.1)
      obtain ⟨rk, e2, l2, _⟩ := bB.key0 (hbm.trans bB.num.1)
      rw [h0] at q1
      refine leftmost_kid00 q1 ?_ (balAt_dnr0 eP e1 e2 (bk_lt.1 (l1.trans l2)))
      dsimp only
      rw [if_neg (by omega), if_pos (by omega)]
    · refine leftmost_kid0 ?_
      dsimp only
      rw [if_neg (by omega), if_neg (by omega)]
  · rw [if_neg hbig] at e
    obtain ⟨nn, a2, e⟩ := Res.bind_eq_ok.1 e
    have hn0 : 0 < nn → pos < n.num := by
      intro hp
      unfold childNum at a2
      split at a2
      · assumption
      · obtain rfl : 0 = nn := Res.ok.inj a2
        omega
    by_cases hbig2 : pos < n.num ∧ (o.N + 1) / 2 < nn
    · rw [if_pos hbig2] at e
      obtain ⟨A, B, s, _, _, q1, q2, q3, bA, bB⟩ := hb.pair (p := pos) (by omega)
      obtain rfl : A = c := Option.some.inj (q1.symm.trans hc)
      rw [rd_ok (by omega) q2, Res.ok_bind, rd_ok (by omega) q3, Res.ok_bind, Res.assert_pos (by omega), Res.ok_bind] at e
      obtain ⟨P, eP, e⟩ := Res.bind_eq_ok.1 e
      rw [wr_ok _ _ (by omega), Res.ok_bind, wr_ok _ _ (by omega), Res.ok_bind, wr_ok _ _ (by omega), Res.ok_bind] at e
      obtain rfl : _ = n' := Res.ok.inj e
      by_cases h0 : pos = 0
      · obtain ⟨rk, e1, _, l1⟩ := bA.key0 (hbm.trans bA.num.1)
        obtain ⟨dk, e2, l2, _⟩ := bB.key0 (hbm.trans bB.num.1)
        rw [h0] at q1
        refine leftmost_kid00 q1 ?_ (balAt_rcv0 eP e2 e1 (bk_lt.1 (l1.trans l2)))
        dsimp only
        rw [if_pos h0.symm]
      · refine leftmost_kid0 ?_
        dsimp only
        rw [if_neg (by omega), if_neg (by omega)]
    · rw [if_neg hbig2] at e
      by_cases hp : 0 < pn
      · rw [if_pos hp] at e
        have hp1 := hp0 hp
        obtain ⟨A, B, s, _, _, q1, q2, q3, bA, bB⟩ := hb.pair (p := pos - 1) (by omega)
        rw [rd_ok (by omega) q1, Res.ok_bind, rd_ok (by omega) q3, Res.ok_bind] at e
        obtain ⟨P, eP, e⟩ := Res.bind_eq_ok.1 e
        rw [wr_ok _ _ (by omega), Res.ok_bind, wr_ok _ _ (by omega), Res.ok_bind] at e
        obtain rfl : _ = n' := Res.ok.inj e
        by_cases h0 : pos - 1 = 0
        · rw [h0] at q1
          refine leftmost_kid00 q1 ?_ (mergeAt_rcv0 eP)
          dsimp only
          rw [if_neg (by omega), if_pos (by omega)]
        · refine leftmost_kid0 ?_
          dsimp only
          rw [if_neg (by omega), if_neg (by omega)]
      · rw [if_neg hp] at e
        by_cases hq : 0 < nn
        · rw [if_pos hq] at e
          have hq1 := hn0 hq
          obtain ⟨A, B, s, _, _, q1, q2, q3, bA, bB⟩ := hb.pair (p := pos) (by omega)
          rw [rd_ok (by omega) q2, Res.ok_bind, rd_ok (by omega) q3, Res.ok_bind] at e
          obtain ⟨P, eP, e⟩ := Res.bind_eq_ok.1 e
          rw [wr_ok _ _ (by omega), Res.ok_bind, wr_ok _ _ (by omega), Res.ok_bind] at e
          obtain rfl : _ = n' := Res.ok.inj e
          by_cases h0 : pos = 0
          · rw [h0] at hc
            refine leftmost_kid00 hc ?_ (mergeAt_rcv0 eP)
            dsimp only
            rw [if_neg (by omega), if_pos h0.symm]
          · refine leftmost_kid0 ?_
            dsimp only
            rw [if_neg (by omega), if_neg (by omega)]
        · rw [if_neg hq] at e
          cases e

/-- An assignment to child 0. -/
def BW.low {α : Type} : BW K α → Bool
  | .cpKid 0 _ => true
  | .kid 0 _ => true
  | _ => false

theorem BW.apply_low {α : Type} {n n' : BNode K α} : ∀ {w : BW K α}, w.low = false → w.apply o n = .ok n' → n'.kids 0 = n.kids 0
  | .cpKid 0 _, h, _ | .kid 0 _, h, _ => by cases h
  | .cpKid (i + 1) _, _, e => by
    obtain ⟨_, _, e⟩ := Res.bind_eq_ok.1 e
    obtain ⟨_, e1, e⟩ := Res.bind_eq_ok.1 e
    obtain rfl : _ = n' := Res.ok.inj e
    rw [wr_inv e1]
    rfl
  | .kid (i + 1) _, _, e => by
    obtain ⟨_, e1, e⟩ := Res.bind_eq_ok.1 e
    obtain rfl : _ = n' := Res.ok.inj e
    rw [wr_inv e1]
    rfl
  | .cpKey _ _, _, e => by
    obtain ⟨_, _, e⟩ := Res.bind_eq_ok.1 e
    obtain ⟨_, e1, e⟩ := Res.bind_eq_ok.1 e
    obtain rfl : _ = n' := Res.ok.inj e
    rfl
  | .key _ _, _, e => by
    obtain ⟨_, _, e⟩ := Res.bind_eq_ok.1 e
    obtain rfl : _ = n' := Res.ok.inj e
    rfl
  | .num _, _, e => by
    obtain rfl : _ = n' := Res.ok.inj e
    rfl

theorem applyBW_low {α : Type} : ∀ (ws : List (BW K α)) (n n' : BNode K α), (∀ w ∈ ws, w.low = false) → applyBW o n ws = .ok n' →
    n'.kids 0 = n.kids 0 := by
  intro ws
  induction ws with
  | nil => intro n n' _ e; obtain rfl : n = n' := Res.ok.inj e; rfl
  | cons w ws ih =>
    intro n n' hw e
    obtain ⟨n1, e1, e⟩ := Res.bind_eq_ok.1 e
    exact (ih n1 n' (fun w' h => hw w' (List.mem_cons_of_mem _ h)) e).trans (BW.apply_low (hw w (by simp)) e1)

theorem joinWrites_low {α : Type} (num p : Nat) : ∀ w ∈ joinWrites (K := K) (α := α) num p, w.low = false := by
  have hk : ∀ c p, ∀ w ∈ shiftKeys (K := K) (α := α) p c, w.low = false := by
    intro c
    induction c with
    | zero => intro p; simp [shiftKeys]
    | succ c ih => intro p; simp only [shiftKeys, List.forall_mem_cons]; exact ⟨rfl, ih (p + 1)⟩
  have hc : ∀ c p, ∀ w ∈ shiftKids (K := K) (α := α) (p + 1) c, w.low = false := by
    intro c
    induction c with
    | zero => intro p; simp [shiftKids]
    | succ c ih => intro p; simp only [shiftKids, List.forall_mem_cons]; exact ⟨rfl, ih (p + 1)⟩
  intro w hw
  simp only [joinWrites, List.mem_append, List.mem_cons, List.not_mem_nil, or_false] at hw
  rcases hw with hw | hw | rfl
  · exact hk _ _ w hw
  · exact hc _ _ w hw
  · rfl

theorem mergeBranch_kid0 {α : Type} {sib n m : BNode K α} {key : K} (h : mergeBranch o sib key n = .ok m) : m.kids 0 = sib.kids 0 :=
  mergeAt_rcv0 (mergeAt_all h (le_refl (2 * n.num + 3)))

theorem joinN_first {h : Heap L} {d top : Nat} {n : BNode K (BNode K (Tree K d))} {lo hi : Bd K} {q : Nat}
    (hN : o.N = 2 * q) (hb : Bt W tt lm bm h (d + 2) top n lo hi) (hbm : 1 ≤ bm) (h1 : 1 ≤ n.num) {pos : Nat}
    {c : BNode K (Tree K d)} (hpos : pos ≤ n.num)
    (hc : n.kids pos = some c) (hun : c.num < (o.N + 1) / 2) {u : BNode K (BNode K (Tree K d)) × BNode K (Tree K d)}
    (hu : underflowBranch o n pos c = .ok u) {bm' top' : Nat} {lo' hi' : Bd K} (hbu : Bt W tt lm bm' h (d + 2) top' u.1 lo' hi')
    (hid : ids (d + 2) u.1 = ids (d + 2) n) {t : Nat} {n' : BNode K (BNode K (Tree K d))}
    (e : joinN o n pos c t = .ok n') : leftmost o (d + 2) n' = leftmost o (d + 2) n := by
  have hNn := hb.num.2
  have same : leftmost o (d + 2) u.1 = leftmost o (d + 2) n := by
    obtain ⟨i1, r1, e1, h1⟩ := leftmost_spec _ _ _ _ _ hbu
    obtain ⟨i2, r2, e2, h2⟩ := leftmost_spec _ _ _ _ _ hb
    rw [hid, h2] at h1
    rw [e1, e2, (List.cons.inj h1).1]
  unfold joinN at e
  obtain ⟨⟨u1, mp⟩, a, e⟩ := Res.bind_eq_ok.1 e
  unfold joinP at a
  obtain ⟨pn, a1, a⟩ := Res.bind_eq_ok.1 a
  have hp0 : 0 < pn → 0 < pos := by
    intro hp
    unfold childNum at a1
    split at a1
    · assumption
    · obtain rfl : 0 = pn := Res.ok.inj a1
      omega
  by_cases hbig : pos > 0 ∧ (o.N + 1) / 2 < pn
  · rw [if_pos hbig, hu, Res.ok_bind] at a
    cases a
    obtain rfl : _ = n' := Res.ok.inj e
    exact same
  · rw [if_neg hbig] at a
    obtain ⟨nn, a2, a⟩ := Res.bind_eq_ok.1 a
    have hn0 : 0 < nn → pos < n.num := by
      intro hp
      unfold childNum at a2
      split at a2
      · assumption
      · obtain rfl : 0 = nn := Res.ok.inj a2
        omega
    by_cases hbig2 : pos < n.num ∧ (o.N + 1) / 2 < nn
    · rw [if_pos hbig2, hu, Res.ok_bind] at a
      cases a
      obtain rfl : _ = n' := Res.ok.inj e
      exact same
    · rw [if_neg hbig2] at a
      by_cases hp : 0 < pn
      · rw [if_pos hp] at a
        have hp1 := hp0 hp
        obtain ⟨A, B, s, _, _, q1, q2, q3, bA, bB⟩ := hb.pair (p := pos - 1) (by omega)
        rw [rd_ok (by omega) q1, Res.ok_bind, rd_ok (by omega) q3, Res.ok_bind] at a
        obtain ⟨m, em, a⟩ := Res.bind_eq_ok.1 a
        rw [wr_ok _ _ (by omega), Res.ok_bind] at a
        cases a
        refine (leftmost_kid0 (applyBW_low _ _ _ (fun w hw => joinWrites_low _ _ w (List.mem_of_mem_take hw)) e)).trans ?_
        by_cases h0 : pos - 1 = 0
        · rw [h0] at q1
          refine leftmost_kid00 q1 ?_ (mergeBranch_kid0 em)
          dsimp only
          rw [if_neg (by omega), if_pos (by omega)]
        · refine leftmost_kid0 ?_
          dsimp only
          rw [if_neg (by omega), if_neg (by omega)]
      · rw [if_neg hp] at a
        by_cases hq : 0 < nn
        · rw [if_pos hq] at a
          have hq1 := hn0 hq
          obtain ⟨A, B, s, _, _, q1, q2, q3, bA, bB⟩ := hb.pair (p := pos) (by omega)
          rw [rd_ok (by omega) q2, Res.ok_bind, rd_ok (by omega) q3, Res.ok_bind] at a
          obtain ⟨m, em, a⟩ := Res.bind_eq_ok.1 a
          obtain ⟨_, _, a⟩ := Res.bind_eq_ok.1 a
          rw [wr_ok _ _ (by omega), Res.ok_bind] at a
          cases a
          refine (leftmost_kid0 (applyBW_low _ _ _ (fun w hw => joinWrites_low _ _ w (List.mem_of_mem_take hw)) e)).trans ?_
          by_cases h0 : pos = 0
          · rw [h0] at hc
            refine leftmost_kid00 hc ?_ (mergeBranch_kid0 em)
            dsimp only
            rw [if_neg (by omega), if_pos h0.symm]
          · refine leftmost_kid0 ?_
            dsimp only
            rw [if_neg (by omega), if_neg (by omega)]
        · rw [if_neg hq] at a
          cases a

/-! ## The tree -/

/-- The leaves below `n` from the first one on: they are linked, and together they have the entries `es`. -/
def Leaves (W : Laws o) (pre post : List Nat) (es : List (K × V)) (d : Nat) (h : Heap L) (n : BNode K (Tree K d)) : Prop :=
  ∃ id rest, leftmost o (d + 1) n = .ok id ∧ Wf h (pre ++ (id :: rest) ++ post) ∧ content W h (id :: rest) = es ∧
    ∀ i ∈ id :: rest, ∃ l, h.data i = some l ∧ W.ok l

theorem moveAt_scan (E : EraseLaws W) (hS : AnySearch o) (hD : DupSearch o) {q : Nat} (hN : o.N = 2 * q) (hbm2 : 2 ≤ bm) (hbm : bm ≤ q - 1)
    (hM : 2 ≤ o.M) (hlm1 : 1 ≤ lm) (hlm : lm ≤ o.M / 2) (k : K) (t : Nat) : ∀ (d top j : Nat) (h : Heap L)
    (n : BNode K (Tree K d)) (lo hi : Bd K) (pre post : List Nat), j < d →
    Bt W E.Q lm bm h (d + 1) top n lo hi → InR lo hi k →
    (∀ id l, findLeaf o (d + 1) n k = .ok id → h.data id = some l → E.pre l k) → Wf h (pre ++ ids (d + 1) n ++ post) → 1 ≤ top →
    ∃ h' n', moveAt o d h n k j t = .ok (h', n') ∧ Frame h h' (ids (d + 1) n) ∧
      Leaves W pre post (remove k (content W h (ids (d + 1) n))) d h' n' := by
  intro d
  induction d with
  | zero => intro top j h n lo hi pre post hj; exact absurd hj (by omega)
  | succ d ih =>
    intro top j h n lo hi pre post hj hb hk hf w ht1
    have hbtt := hb.frame (Q' := tt) (fun _ _ _ _ => trivial) (fun _ _ => rfl)
    obtain ⟨cs, ks, hr, htop, ht⟩ := hb
    obtain ⟨hks, _, _⟩ := keys_sorted (fun c a b hc => Bt.lt hc) ht
    obtain ⟨c1, c, c2, k1, k2, b1, m, m', b2, f⟩ := exists_focus W (fun c a b hc => Bt.lt hc) ht hk
    have hids : ids (d + 2) n = c1.flatMap (ids (d + 1)) ++ ids (d + 1) c ++ c2.flatMap (ids (d + 1)) := by
      rw [ids_rep hr, f.hcs]; simp
    have hlp := f.lookupPos hr hks
    have hrd := f.rdKid hr
    have w' : Wf h ((pre ++ c1.flatMap (ids (d + 1))) ++ ids (d + 1) c ++ (c2.flatMap (ids (d + 1)) ++ post)) := by
      rw [hids] at w; simpa using w
    have hpc := f.pc
    have ht1' := f.t1
    have ht2' := f.t2
    rw [show occ lm bm (d + 1) = bm from rfl] at hpc ht1' ht2'
    have hfc : ∀ id l, findLeaf o (d + 1) c k = .ok id → h.data id = some l → E.pre l k := fun id l hfl hl =>
      hf id l (by rw [findLeaf, hlp, Res.ok_bind, hrd, Res.ok_bind]; exact hfl) hl
    have hkl : k1.length ≤ o.N := by have := hr.cap; rw [f.hks, List.length_append] at this; omega
    rcases j with _ | j
    · -- this level
      have hne1 : ∀ e ∈ content W h (c1.flatMap (ids (d + 1))), e.1 ≠ k := fun e he heq => by
        have := lt_of_lt_of_le (f.left_lt e he) f.inR.1
        rw [heq] at this; exact absurd this (lt_irrefl _)
      have hne2 : ∀ e ∈ content W h (c2.flatMap (ids (d + 1))), e.1 ≠ k := fun e he heq => by
        have := lt_of_lt_of_le f.inR.2 (f.right_ge e he)
        rw [heq] at this; exact absurd this (lt_irrefl _)
      have hrem : remove k (content W h (ids (d + 2) n)) =
          content W h (c1.flatMap (ids (d + 1))) ++ remove k (content W h (ids (d + 1) c)) ++
            content W h (c2.flatMap (ids (d + 1))) := by
        rw [hids, content_append, content_append, remove_append, remove_append, remove_eq_self hne1,
          remove_eq_self hne2]
      have hnd := mem_disjoint (pre := pre) (post := post) (by rw [← hids]; exact w.nodup)
      obtain ⟨r, er, hdel, hframe, hfresh, hpost⟩ := eraseB_spec E hN hbm2 hbm hM hlm1 hlm k d bm false h c m m' _ _ hpc f.inR hfc w'
        (by omega) (fun _ => by omega)
      have hfr1 : ∀ i ∈ c1.flatMap (ids (d + 1)), r.heap.data i = h.data i := fun i hi =>
        hframe i (hnd.1 i hi) (w'.fresh i (by simp only [List.mem_append]; tauto))
      have hfr2 : ∀ i ∈ c2.flatMap (ids (d + 1)), r.heap.data i = h.data i := fun i hi =>
        hframe i (hnd.2.1 i hi) (w'.fresh i (by simp only [List.mem_append]; tauto))
      have ht1f := Tile.frame (Q' := tt) (h' := r.heap) (fun _ _ _ _ => trivial) hfr1 ht1'
      have ht2f := Tile.frame (Q' := tt) (h' := r.heap) (fun _ _ _ _ => trivial) hfr2 ht2'
      have hFr : Frame h r.heap (ids (d + 2) n) := by
        intro i hi hif
        refine hframe i (fun hc => hi ?_) hif
        rw [hids]; simp only [List.mem_append]; tauto
      unfold ErPost at hpost
      cases hnr : r.newRoot with
      | some tr => rw [hnr] at hpost; exact absurd hpost.1 (by simp)
      | none =>
        rw [hnr] at hpost
        obtain ⟨hbt, _, hwf, hct, hhd⟩ := hpost
        have hr' := hr
        rw [f.hcs, f.hks] at hr'
        obtain ⟨kids, ek, hrk⟩ := hr'.setKid r.node
        rw [f.l1] at ek
        have hkids : kids = fun j => if j = k1.length then some r.node else n.kids j := by
          rw [wr_ok _ _ (by omega)] at ek
          exact (Res.ok.inj ek).symm
        have hks' := hks
        rw [f.hks] at hks'
        set n1 : BNode K (Tree K (d + 1)) := { n with kids := kids } with hn1
        have hlp2 : lookupPos o n1 k = .ok k1.length := lookupPos_of W hrk hks' f.le f.gt
        have hn1num : 1 ≤ n1.num := by change 1 ≤ n.num; rw [hr.num]; omega
        have hjoin : moveAt o (d + 1) h n k 0 t = (if r.node.num < (o.N + 1) / 2 then do
            let n' ← moveN o n1 k1.length r.node t
            pure (r.heap, n')
          else pure (r.heap, n1)) := by
          rw [moveAt, hlp, Res.ok_bind, hrd, Res.ok_bind, er, Res.ok_bind, Res.guardUB_pos (by simp [hnr]), Res.ok_bind, ek, Res.ok_bind]
          dsimp only
          rw [← hn1, hlp2, Res.ok_bind]
        -- the node with the new child
        have hb1 : Bt W tt lm (bm - 1) r.heap (d + 2) 1 n1 lo hi := by
          refine ⟨_, _, hrk, by rw [← hrk.num]; exact hn1num, ?_⟩
          have low : ∀ c a b, Bt W tt lm bm r.heap (d + 1) bm c a b → Bt W tt lm (bm - 1) r.heap (d + 1) (bm - 1) c a b :=
            fun c a b hc => (hc.fewer (Nat.sub_le _ _)).top_le (Nat.sub_le _ _)
          have := tile_unfocus (xs := [r.node]) (ys := []) f.hb1 f.hb2 f.lb rfl (tile_imp ht1f (fun c _ => low c))
            ⟨hbt.fewer (Nat.sub_le _ _), trivial⟩ (tile_imp ht2f (fun c _ => low c))
          simpa [occ] using this
        have hcont : content W r.heap (ids (d + 2) n1) = remove k (content W h (ids (d + 2) n)) := by
          rw [ids_rep hrk, hrem, List.flatMap_append, List.flatMap_cons, content_append, content_append, hct, content_congr W hfr1,
            content_congr W hfr2, List.append_assoc]
        have hwf1 : Wf r.heap (pre ++ ids (d + 2) n1 ++ post) := by
          rw [ids_rep hrk]; simpa using hwf
        obtain ⟨id, rest, hlm0, hid0⟩ := leftmost_spec _ _ _ _ _ hb1
        have hL : ∀ n', leftmost o (d + 2) n' = leftmost o (d + 2) n1 → Leaves W pre post (remove k (content W h (ids (d + 2) n))) (d + 1) r.heap n' :=
          fun n' e => ⟨id, rest, e.trans hlm0, by rw [← hid0]; exact hwf1, by rw [← hid0]; exact hcont,
            by rw [← hid0]; exact Bt.leaf_ok _ _ _ _ _ hb1⟩
        by_cases hun : r.node.num < (o.N + 1) / 2
        · rw [if_pos hun] at hjoin
          obtain ⟨u, cs', ks', eu, hru, htu, hidu, hlu, hnil⟩ := underflowBranch_spec hN hbm2 hbm hrk f.l1 f.l2
            f.hb1 f.hb2 f.lb ht1f hbt ht2f (by have := hrk.num; rw [List.length_append] at this; omega) hun
          have hbu : Bt W tt lm bm r.heap (d + 2) 0 u.1 lo hi := ⟨cs', ks', hru, Nat.zero_le _, htu⟩
          have hidu' : ids (d + 2) u.1 = ids (d + 2) n1 := by rw [ids_rep hru, ids_rep hrk, hidu]
          obtain ⟨n', g2, _⟩ := moveN_spec hS hD hN (by omega) hb1 (by omega) hn1num (pos := k1.length) (c := r.node)
            (by change k1.length ≤ n.num; rw [hr.num, f.hks, List.length_append]; omega) (by rw [hn1, hkids]; simp) hun eu
            (fun x => by rw [lookT_any hbu x, hidu']) t
          have g4 := moveN_first hN hb1 (by omega) hn1num (pos := k1.length) (c := r.node)
            (by change k1.length ≤ n.num; rw [hr.num, f.hks, List.length_append]; omega) (by rw [hn1, hkids]; simp) hun eu hbu hidu' g2
          rw [g2, Res.ok_bind] at hjoin
          exact ⟨r.heap, n', hjoin, hFr, hL n' g4⟩
        · rw [if_neg hun] at hjoin
          exact ⟨r.heap, n1, hjoin, hFr, hL n1 rfl⟩
    · -- a level below
      obtain ⟨h', c', g1, g2, g3⟩ := ih bm j h c m m' _ _ (by omega) hpc f.inR hfc w' (by omega)
      set n' : BNode K (Tree K (d + 1)) := ⟨n.num, n.keys, fun j => if j = k1.length then some c' else n.kids j⟩ with hn'
      have hjoin : moveAt o (d + 1) h n k (j + 1) t = .ok (h', n') := by
        rw [moveAt, hlp, Res.ok_bind, hrd, Res.ok_bind, g1, Res.ok_bind, wr_ok _ _ (by omega), Res.ok_bind]
        rfl
      refine ⟨h', n', hjoin, ?_, ?_⟩
      · intro i hi hif
        refine g2 i (fun hc => hi ?_) hif
        rw [hids]; simp only [List.mem_append]; tauto
      · obtain ⟨id, rest, a1, a2, a3, a4⟩ := g3
        have hnd := mem_disjoint (pre := pre) (post := post) (by rw [← hids]; exact w.nodup)
        have hfr1 : ∀ i ∈ c1.flatMap (ids (d + 1)), h'.data i = h.data i := fun i hi =>
          g2 i (hnd.1 i hi) (w'.fresh i (by simp only [List.mem_append]; tauto))
        have hfr2 : ∀ i ∈ c2.flatMap (ids (d + 1)), h'.data i = h.data i := fun i hi =>
          g2 i (hnd.2.1 i hi) (w'.fresh i (by simp only [List.mem_append]; tauto))
        have hne1 : ∀ e ∈ content W h (c1.flatMap (ids (d + 1))), e.1 ≠ k := fun e he heq => by
          have := lt_of_lt_of_le (f.left_lt e he) f.inR.1
          rw [heq] at this; exact absurd this (lt_irrefl _)
        have hne2 : ∀ e ∈ content W h (c2.flatMap (ids (d + 1))), e.1 ≠ k := fun e he heq => by
          have := lt_of_lt_of_le f.inR.2 (f.right_ge e he)
          rw [heq] at this; exact absurd this (lt_irrefl _)
        have hleaf := Bt.leaf_ok _ _ _ _ _ hbtt
        have hall : ∃ id0 rest0, leftmost o (d + 2) n' = .ok id0 ∧
            c1.flatMap (ids (d + 1)) ++ (id :: rest) ++ c2.flatMap (ids (d + 1)) = id0 :: rest0 := by
          have hl1 := f.l1
          cases hc1 : c1 with
          | nil =>
            rw [hc1] at hl1
            refine ⟨id, rest ++ c2.flatMap (ids (d + 1)), ?_, by simp⟩
            rw [leftmost, rd_ok (i := 0) (cap := o.N + 1) (x := c') (by omega) (by rw [hn', ← hl1]; simp), Res.ok_bind]
            exact a1
          | cons a c1' =>
            rw [hc1] at hl1
            obtain ⟨id0, rest0, e0, i0⟩ := leftmost_spec _ _ _ _ _ hbtt
            obtain ⟨_, _, ha⟩ : ∃ a1 b1, Bt W E.Q lm bm h (d + 1) bm a a1 b1 := by
              rw [hc1] at ht1'
              exact tile_mem ht1' a (by simp)
            obtain ⟨ida, resta, ea, ia⟩ := leftmost_spec _ _ _ _ _ ha
            rw [hids, hc1, List.flatMap_cons, ia] at i0
            obtain rfl : ida = id0 := (List.cons.inj i0).1
            refine ⟨ida, _, ?_, by rw [List.flatMap_cons, ia]; rfl⟩
            rw [← e0]
            refine leftmost_kid0 ?_
            simp only [List.length_cons] at hl1
            simp only [hn']
            rw [if_neg (by omega)]
        obtain ⟨id0, rest0, e0, i0⟩ := hall
        refine ⟨id0, rest0, e0, ?_, ?_, ?_⟩
        · rw [← i0]; simpa using a2
        · rw [← i0, content_append, content_append, a3, content_congr W hfr1, content_congr W hfr2, hids, content_append, content_append,
            remove_append, remove_append, remove_eq_self hne1, remove_eq_self hne2]
        · rw [← i0]
          intro i hi
          simp only [List.mem_append] at hi
          rcases hi with (hi | hi) | hi
          · rw [hfr1 i hi]; exact hleaf i (by rw [hids]; simp only [List.mem_append]; tauto)
          · exact a4 i hi
          · rw [hfr2 i hi]; exact hleaf i (by rw [hids]; simp only [List.mem_append]; tauto)

theorem joinAt_scan (E : EraseLaws W) (hD : DupSearch o) {q : Nat} (hN : o.N = 2 * q) (hbm2 : 2 ≤ bm) (hbm : bm ≤ q - 1)
    (hM : 2 ≤ o.M) (hlm1 : 1 ≤ lm) (hlm : lm ≤ o.M / 2) (k : K) (t : Nat) : ∀ (d top j : Nat) (h : Heap L)
    (n : BNode K (Tree K d)) (lo hi : Bd K) (pre post : List Nat), j < d →
    Bt W E.Q lm bm h (d + 1) top n lo hi → InR lo hi k →
    (∀ id l, findLeaf o (d + 1) n k = .ok id → h.data id = some l → E.pre l k) → Wf h (pre ++ ids (d + 1) n ++ post) → 1 ≤ top →
    ∃ h' n', joinAt o d h n k j t = .ok (h', n') ∧ Frame h h' (ids (d + 1) n) ∧
      Leaves W pre post (remove k (content W h (ids (d + 1) n))) d h' n' := by
  intro d
  induction d with
  | zero => intro top j h n lo hi pre post hj; exact absurd hj (by omega)
  | succ d ih =>
    intro top j h n lo hi pre post hj hb hk hf w ht1
    have hbtt := hb.frame (Q' := tt) (fun _ _ _ _ => trivial) (fun _ _ => rfl)
    obtain ⟨cs, ks, hr, htop, ht⟩ := hb
    obtain ⟨hks, _, _⟩ := keys_sorted (fun c a b hc => Bt.lt hc) ht
    obtain ⟨c1, c, c2, k1, k2, b1, m, m', b2, f⟩ := exists_focus W (fun c a b hc => Bt.lt hc) ht hk
    have hids : ids (d + 2) n = c1.flatMap (ids (d + 1)) ++ ids (d + 1) c ++ c2.flatMap (ids (d + 1)) := by
      rw [ids_rep hr, f.hcs]; simp
    have hlp := f.lookupPos hr hks
    have hrd := f.rdKid hr
    have w' : Wf h ((pre ++ c1.flatMap (ids (d + 1))) ++ ids (d + 1) c ++ (c2.flatMap (ids (d + 1)) ++ post)) := by
      rw [hids] at w; simpa using w
    have hpc := f.pc
    have ht1' := f.t1
    have ht2' := f.t2
    rw [show occ lm bm (d + 1) = bm from rfl] at hpc ht1' ht2'
    have hfc : ∀ id l, findLeaf o (d + 1) c k = .ok id → h.data id = some l → E.pre l k := fun id l hfl hl =>
      hf id l (by rw [findLeaf, hlp, Res.ok_bind, hrd, Res.ok_bind]; exact hfl) hl
    have hkl : k1.length ≤ o.N := by have := hr.cap; rw [f.hks, List.length_append] at this; omega
    rcases j with _ | j
    · -- this level
      have hne1 : ∀ e ∈ content W h (c1.flatMap (ids (d + 1))), e.1 ≠ k := fun e he heq => by
        have := lt_of_lt_of_le (f.left_lt e he) f.inR.1
        rw [heq] at this; exact absurd this (lt_irrefl _)
      have hne2 : ∀ e ∈ content W h (c2.flatMap (ids (d + 1))), e.1 ≠ k := fun e he heq => by
        have := lt_of_lt_of_le f.inR.2 (f.right_ge e he)
        rw [heq] at this; exact absurd this (lt_irrefl _)
      have hrem : remove k (content W h (ids (d + 2) n)) =
          content W h (c1.flatMap (ids (d + 1))) ++ remove k (content W h (ids (d + 1) c)) ++
            content W h (c2.flatMap (ids (d + 1))) := by
        rw [hids, content_append, content_append, remove_append, remove_append, remove_eq_self hne1,
          remove_eq_self hne2]
      have hnd := mem_disjoint (pre := pre) (post := post) (by rw [← hids]; exact w.nodup)
      obtain ⟨r, er, hdel, hframe, hfresh, hpost⟩ := eraseB_spec E hN hbm2 hbm hM hlm1 hlm k d bm false h c m m' _ _ hpc f.inR hfc w'
        (by omega) (fun _ => by omega)
      have hfr1 : ∀ i ∈ c1.flatMap (ids (d + 1)), r.heap.data i = h.data i := fun i hi =>
        hframe i (hnd.1 i hi) (w'.fresh i (by simp only [List.mem_append]; tauto))
      have hfr2 : ∀ i ∈ c2.flatMap (ids (d + 1)), r.heap.data i = h.data i := fun i hi =>
        hframe i (hnd.2.1 i hi) (w'.fresh i (by simp only [List.mem_append]; tauto))
      have ht1f := Tile.frame (Q' := tt) (h' := r.heap) (fun _ _ _ _ => trivial) hfr1 ht1'
      have ht2f := Tile.frame (Q' := tt) (h' := r.heap) (fun _ _ _ _ => trivial) hfr2 ht2'
      have hFr : Frame h r.heap (ids (d + 2) n) := by
        intro i hi hif
        refine hframe i (fun hc => hi ?_) hif
        rw [hids]; simp only [List.mem_append]; tauto
      unfold ErPost at hpost
      cases hnr : r.newRoot with
      | some tr => rw [hnr] at hpost; exact absurd hpost.1 (by simp)
      | none =>
        rw [hnr] at hpost
        obtain ⟨hbt, _, hwf, hct, hhd⟩ := hpost
        have hr' := hr
        rw [f.hcs, f.hks] at hr'
        obtain ⟨kids, ek, hrk⟩ := hr'.setKid r.node
        rw [f.l1] at ek
        have hkids : kids = fun j => if j = k1.length then some r.node else n.kids j := by
          rw [wr_ok _ _ (by omega)] at ek
          exact (Res.ok.inj ek).symm
        have hks' := hks
        rw [f.hks] at hks'
        set n1 : BNode K (Tree K (d + 1)) := { n with kids := kids } with hn1
        have hlp2 : lookupPos o n1 k = .ok k1.length := lookupPos_of W hrk hks' f.le f.gt
        have hn1num : 1 ≤ n1.num := by change 1 ≤ n.num; rw [hr.num]; omega
        have hjoin : joinAt o (d + 1) h n k 0 t = (if r.node.num < (o.N + 1) / 2 then do
            let n' ← joinN o n1 k1.length r.node t
            pure (r.heap, n')
          else pure (r.heap, n1)) := by
          rw [joinAt, hlp, Res.ok_bind, hrd, Res.ok_bind, er, Res.ok_bind, Res.guardUB_pos (by simp [hnr]), Res.ok_bind, ek, Res.ok_bind]
          dsimp only
          rw [← hn1, hlp2, Res.ok_bind]
        -- the node with the new child
        have hb1 : Bt W tt lm (bm - 1) r.heap (d + 2) 1 n1 lo hi := by
          refine ⟨_, _, hrk, by rw [← hrk.num]; exact hn1num, ?_⟩
          have low : ∀ c a b, Bt W tt lm bm r.heap (d + 1) bm c a b → Bt W tt lm (bm - 1) r.heap (d + 1) (bm - 1) c a b :=
            fun c a b hc => (hc.fewer (Nat.sub_le _ _)).top_le (Nat.sub_le _ _)
          have := tile_unfocus (xs := [r.node]) (ys := []) f.hb1 f.hb2 f.lb rfl (tile_imp ht1f (fun c _ => low c))
            ⟨hbt.fewer (Nat.sub_le _ _), trivial⟩ (tile_imp ht2f (fun c _ => low c))
          simpa [occ] using this
        have hcont : content W r.heap (ids (d + 2) n1) = remove k (content W h (ids (d + 2) n)) := by
          rw [ids_rep hrk, hrem, List.flatMap_append, List.flatMap_cons, content_append, content_append, hct, content_congr W hfr1,
            content_congr W hfr2, List.append_assoc]
        have hwf1 : Wf r.heap (pre ++ ids (d + 2) n1 ++ post) := by
          rw [ids_rep hrk]; simpa using hwf
        obtain ⟨id, rest, hlm0, hid0⟩ := leftmost_spec _ _ _ _ _ hb1
        have hL : ∀ n', leftmost o (d + 2) n' = leftmost o (d + 2) n1 → Leaves W pre post (remove k (content W h (ids (d + 2) n))) (d + 1) r.heap n' :=
          fun n' e => ⟨id, rest, e.trans hlm0, by rw [← hid0]; exact hwf1, by rw [← hid0]; exact hcont,
            by rw [← hid0]; exact Bt.leaf_ok _ _ _ _ _ hb1⟩
        by_cases hun : r.node.num < (o.N + 1) / 2
        · rw [if_pos hun] at hjoin
          obtain ⟨u, cs', ks', eu, hru, htu, hidu, hlu, hnil⟩ := underflowBranch_spec hN hbm2 hbm hrk f.l1 f.l2
            f.hb1 f.hb2 f.lb ht1f hbt ht2f (by have := hrk.num; rw [List.length_append] at this; omega) hun
          have hbu : Bt W tt lm bm r.heap (d + 2) 0 u.1 lo hi := ⟨cs', ks', hru, Nat.zero_le _, htu⟩
          have hidu' : ids (d + 2) u.1 = ids (d + 2) n1 := by rw [ids_rep hru, ids_rep hrk, hidu]
          obtain ⟨_, _, n', _, g2, _⟩ := joinN_spec hD hN hb1 (by omega) hn1num (pos := k1.length) (c := r.node)
            (by change k1.length ≤ n.num; rw [hr.num, f.hks, List.length_append]; omega) (by rw [hn1, hkids]; simp) hun eu
            (fun x => by rw [lookT_any hbu x, hidu']) t
          have g4 := joinN_first hN hb1 (by omega) hn1num (pos := k1.length) (c := r.node)
            (by change k1.length ≤ n.num; rw [hr.num, f.hks, List.length_append]; omega) (by rw [hn1, hkids]; simp) hun eu hbu hidu' g2
          rw [g2, Res.ok_bind] at hjoin
          exact ⟨r.heap, n', hjoin, hFr, hL n' g4⟩
        · rw [if_neg hun] at hjoin
          exact ⟨r.heap, n1, hjoin, hFr, hL n1 rfl⟩
    · -- a level below
      obtain ⟨h', c', g1, g2, g3⟩ := ih bm j h c m m' _ _ (by omega) hpc f.inR hfc w' (by omega)
      set n' : BNode K (Tree K (d + 1)) := ⟨n.num, n.keys, fun j => if j = k1.length then some c' else n.kids j⟩ with hn'
      have hjoin : joinAt o (d + 1) h n k (j + 1) t = .ok (h', n') := by
        rw [joinAt, hlp, Res.ok_bind, hrd, Res.ok_bind, g1, Res.ok_bind, wr_ok _ _ (by omega), Res.ok_bind]
        rfl
      refine ⟨h', n', hjoin, ?_, ?_⟩
      · intro i hi hif
        refine g2 i (fun hc => hi ?_) hif
        rw [hids]; simp only [List.mem_append]; tauto
      · obtain ⟨id, rest, a1, a2, a3, a4⟩ := g3
        have hnd := mem_disjoint (pre := pre) (post := post) (by rw [← hids]; exact w.nodup)
        have hfr1 : ∀ i ∈ c1.flatMap (ids (d + 1)), h'.data i = h.data i := fun i hi =>
          g2 i (hnd.1 i hi) (w'.fresh i (by simp only [List.mem_append]; tauto))
        have hfr2 : ∀ i ∈ c2.flatMap (ids (d + 1)), h'.data i = h.data i := fun i hi =>
          g2 i (hnd.2.1 i hi) (w'.fresh i (by simp only [List.mem_append]; tauto))
        have hne1 : ∀ e ∈ content W h (c1.flatMap (ids (d + 1))), e.1 ≠ k := fun e he heq => by
          have := lt_of_lt_of_le (f.left_lt e he) f.inR.1
          rw [heq] at this; exact absurd this (lt_irrefl _)
        have hne2 : ∀ e ∈ content W h (c2.flatMap (ids (d + 1))), e.1 ≠ k := fun e he heq => by
          have := lt_of_lt_of_le f.inR.2 (f.right_ge e he)
          rw [heq] at this; exact absurd this (lt_irrefl _)
        have hleaf := Bt.leaf_ok _ _ _ _ _ hbtt
        have hall : ∃ id0 rest0, leftmost o (d + 2) n' = .ok id0 ∧
            c1.flatMap (ids (d + 1)) ++ (id :: rest) ++ c2.flatMap (ids (d + 1)) = id0 :: rest0 := by
          have hl1 := f.l1
          cases hc1 : c1 with
          | nil =>
            rw [hc1] at hl1
            refine ⟨id, rest ++ c2.flatMap (ids (d + 1)), ?_, by simp⟩
            rw [leftmost, rd_ok (i := 0) (cap := o.N + 1) (x := c') (by omega) (by rw [hn', ← hl1]; simp), Res.ok_bind]
            exact a1
          | cons a c1' =>
            rw [hc1] at hl1
            obtain ⟨id0, rest0, e0, i0⟩ := leftmost_spec _ _ _ _ _ hbtt
            obtain ⟨_, _, ha⟩ : ∃ a1 b1, Bt W E.Q lm bm h (d + 1) bm a a1 b1 := by
              rw [hc1] at ht1'
              exact tile_mem ht1' a (by simp)
            obtain ⟨ida, resta, ea, ia⟩ := leftmost_spec _ _ _ _ _ ha
            rw [hids, hc1, List.flatMap_cons, ia] at i0
            obtain rfl : ida = id0 := (List.cons.inj i0).1
            refine ⟨ida, _, ?_, by rw [List.flatMap_cons, ia]; rfl⟩
            rw [← e0]
            refine leftmost_kid0 ?_
            simp only [List.length_cons] at hl1
            simp only [hn']
            rw [if_neg (by omega)]
        obtain ⟨id0, rest0, e0, i0⟩ := hall
        refine ⟨id0, rest0, e0, ?_, ?_, ?_⟩
        · rw [← i0]; simpa using a2
        · rw [← i0, content_append, content_append, a3, content_congr W hfr1, content_congr W hfr2, hids, content_append, content_append,
            remove_append, remove_append, remove_eq_self hne1, remove_eq_self hne2]
        · rw [← i0]
          intro i hi
          simp only [List.mem_append] at hi
          rcases hi with (hi | hi) | hi
          · rw [hfr1 i hi]; exact hleaf i (by rw [hids]; simp only [List.mem_append]; tauto)
          · exact a4 i hi
          · rw [hfr2 i hi]; exact hleaf i (by rw [hids]; simp only [List.mem_append]; tauto)

/-- A scan visits the linked leaves. -/
theorem scan_leaves (S : ScanLaws W) {d : Nat} {n : BNode K (Tree K d)} {h : Heap L} {es : List (K × V)} (hL : Leaves W [] [] es d h n) (hsc : S.sc = W.abs) :
    scan o ⟨d + 1, n, h⟩ = .ok es := by
  obtain ⟨id, rest, e, w, hc, hok⟩ := hL
  simp only [List.nil_append, List.append_nil] at w
  obtain ⟨es', es1, es2⟩ := scanLoop_spec S w hok (id :: rest) [] h.fresh rfl w.length_le
  unfold scan
  rw [e, Res.ok_bind]
  refine es1.trans (congrArg _ (es2.trans ?_))
  rw [← hc, hsc]
  rfl

theorem moveErase_scan (E : EraseLaws W) (S : ScanLaws W) (hsc : S.sc = W.abs) (hS : AnySearch o) (hD : DupSearch o) {q : Nat} (hN : o.N = 2 * q) (hbm2 : 2 ≤ bm) (hbm : bm ≤ q - 1)
    (hM : 2 ≤ o.M) (hlm1 : 1 ≤ lm) (hlm : lm ≤ o.M / 2) {s : State K L} {k : K}
    (hb : Bt W E.Q lm bm s.heap s.depth (rootMin 1 s.depth) s.root ⊥ ⊤) (w : Wf s.heap (ids s.depth s.root))
    (hf : ∀ id l, findLeaf o s.depth s.root k = .ok id → s.heap.data id = some l → E.pre l k) {j : Nat} (hj : j + 1 < s.depth) (t : Nat) :
    ∃ s', moveErase o s k j t = .ok s' ∧ scan o s' = .ok (remove k (cont W s)) := by
  obtain ⟨d, n, h⟩ := s
  rcases d with _ | d
  · exact absurd hj (by change ¬ (j + 1 < 0); omega)
  · obtain ⟨h', n', e, _, hx⟩ := moveAt_scan E hS hD hN hbm2 hbm hM hlm1 hlm k t d _ j h n ⊥ ⊤ [] [] (by change j + 1 < d + 1 at hj; omega) hb (inR_univ k) hf
      (by simpa using w) le_rfl
    refine ⟨⟨d + 1, n', h'⟩, ?_, scan_leaves S hx hsc⟩
    change (moveAt o d h n k j t >>= fun r => pure (⟨d + 1, r.2, r.1⟩ : State K L)) = _
    rw [e]; rfl

theorem joinErase_scan (E : EraseLaws W) (S : ScanLaws W) (hsc : S.sc = W.abs) (hD : DupSearch o) {q : Nat} (hN : o.N = 2 * q) (hbm2 : 2 ≤ bm) (hbm : bm ≤ q - 1)
    (hM : 2 ≤ o.M) (hlm1 : 1 ≤ lm) (hlm : lm ≤ o.M / 2) {s : State K L} {k : K}
    (hb : Bt W E.Q lm bm s.heap s.depth (rootMin 1 s.depth) s.root ⊥ ⊤) (w : Wf s.heap (ids s.depth s.root))
    (hf : ∀ id l, findLeaf o s.depth s.root k = .ok id → s.heap.data id = some l → E.pre l k) {j : Nat} (hj : j + 1 < s.depth) (t : Nat) :
    ∃ s', joinErase o s k j t = .ok s' ∧ scan o s' = .ok (remove k (cont W s)) := by
  obtain ⟨d, n, h⟩ := s
  rcases d with _ | d
  · exact absurd hj (by change ¬ (j + 1 < 0); omega)
  · obtain ⟨h', n', e, _, hx⟩ := joinAt_scan E hD hN hbm2 hbm hM hlm1 hlm k t d _ j h n ⊥ ⊤ [] [] (by change j + 1 < d + 1 at hj; omega) hb (inR_univ k) hf
      (by simpa using w) le_rfl
    refine ⟨⟨d + 1, n', h'⟩, ?_, scan_leaves S hx hsc⟩
    change (joinAt o d h n k j t >>= fun r => pure (⟨d + 1, r.2, r.1⟩ : State K L)) = _
    rw [e]; rfl

end Verif.BTree
