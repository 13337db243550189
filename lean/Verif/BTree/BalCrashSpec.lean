import Verif.BTree.BalCrash

/-!
# Lookups after a crash while two branch nodes are merged or balanced
-/

set_option linter.unusedSectionVars false

namespace Verif.BTree

open Verif Assoc
open Verif.Slots hiding none

variable {K V L : Type} [LinearOrder K] {o : Ops K V L} {W : Laws o} {lm bm : Nat}

/-- The right value or nothing. -/
def Safe (a : Option V) (r : Res (Option V)) : Prop := r = .ok none ∨ r = .ok a

theorem safe_node (hS : AnySearch o) {A : K → Option V} {d : Nat} {h : Heap L} {n : BNode K (Tree K d)}
    (hf : Filled o.N (fun c => ∀ x, Safe (A x) (lookT o d h c x)) n) (x : K) : Safe (A x) (lookT o (d + 1) h n x) := by
  obtain ⟨p, e, hp⟩ := hS n.keys n.num x hf.num hf.keys
  obtain ⟨c, hc, hs⟩ := hf.kids p hp
  have hn := hf.num
  rw [lookT_step e (rd_ok (by omega) hc)]
  exact hs x

theorem Filled.set2 {α : Type} {N : Nat} {S : α → Prop} {n n' : BNode K α} (hf : Filled N S n) {a b : Nat} {C D : α} (hC : S C) (hD : S D)
    (hnum : n'.num = n.num) (hkeys : ∀ j, j < n.num → (n'.keys j).isSome)
    (hkids : ∀ j, n'.kids j = if j = a then some C else if j = b then some D else n.kids j) : Filled N S n' := by
  refine ⟨by rw [hnum]; exact hf.num, fun j hj => hkeys j (by omega), fun j hj => ?_⟩
  rw [hkids j]
  by_cases h1 : j = a
  · rw [if_pos h1]; exact ⟨C, rfl, hC⟩
  · by_cases h2 : j = b
    · rw [if_neg h1, if_pos h2]; exact ⟨D, rfl, hD⟩
    · rw [if_neg h1, if_neg h2]; exact hf.kids j (by omega)

/-- The children of a node, and their children: every lookup gives the right value or nothing. -/
theorem Bt.filled {h : Heap L} {d top : Nat} {n : BNode K (Tree K d)} {lo hi : Bd K} (hb : Bt W tt lm bm h (d + 1) top n lo hi) (s : K)
    {A : K → Option V} (hA : ∀ x, find x (content W h (ids (d + 1) n)) = none ∨ find x (content W h (ids (d + 1) n)) = A x) :
    Filled o.N (fun c => ∀ x, Safe (A x) (lookT o d h c x)) n := by
  obtain ⟨κ, χ, _, hNn, hk, hc, _, hpos, _, hχ⟩ := hb.node s
  refine ⟨hNn, fun j hj => by rw [hk j hj]; rfl, fun j hj => ⟨χ j, hc j hj, fun x => ?_⟩⟩
  obtain ⟨r, hr⟩ := hpos x
  rw [hχ x j r hj hr]
  by_cases h1 : j = r
  · rw [if_pos h1]
    rcases hA x with h2 | h2
    · exact .inl (by rw [h2])
    · exact .inr (by rw [h2])
  · rw [if_neg h1]; exact .inl rfl

/-- A child stores no other values than the node. -/
theorem Bt.child_sub {h : Heap L} {d top top' : Nat} {n : BNode K (Tree K d)} {lo hi lo' hi' : Bd K} (hb : Bt W tt lm bm h (d + 1) top n lo hi) (s : K)
    {j : Nat} {c : Tree K d} (hj : j ≤ n.num) (hc : n.kids j = some c) (hbc : Bt W tt lm bm h d top' c lo' hi') (x : K) :
    find x (content W h (ids d c)) = none ∨ find x (content W h (ids d c)) = find x (content W h (ids (d + 1) n)) := by
  obtain ⟨κ, χ, _, hNn, hk, hcc, _, hpos, _, hχ⟩ := hb.node s
  obtain rfl : χ j = c := Option.some.inj ((hcc j hj).symm.trans hc)
  obtain ⟨r, hr⟩ := hpos x
  have e := hχ x j r hj hr
  rw [lookT_any hbc x] at e
  rw [Res.ok.inj e]
  by_cases h1 : j = r
  · rw [if_pos h1]; exact .inr rfl
  · rw [if_neg h1]; exact .inl rfl

/-- Only the slots in use count. -/
theorem Bt.agree {h : Heap L} {d top : Nat} {n n' : BNode K (Tree K d)} {lo hi : Bd K} (hb : Bt W tt lm bm h (d + 1) top n lo hi)
    (h1 : n'.num = n.num) (h2 : ∀ j, j < n.num → n'.keys j = n.keys j) (h3 : ∀ j, j ≤ n.num → n'.kids j = n.kids j) :
    Bt W tt lm bm h (d + 1) top n' lo hi ∧ ids (d + 1) n' = ids (d + 1) n := by
  obtain ⟨cs, ks, hr, htop, ht⟩ := hb
  have hn := hr.num
  have hl := hr.len
  have hr' : NodeRep o.N n' cs ks := ⟨h1.trans hn, hl, hr.cap, fun i hi => by rw [h2 i (by omega)]; exact hr.keys i hi,
    fun i hi => by rw [h3 i (by omega)]; exact hr.kids i hi⟩
  exact ⟨⟨cs, ks, hr', htop, ht⟩, by rw [ids_rep hr, ids_rep hr']⟩

/-- A merge before the deletion: all lookups are right. -/
theorem moveMerge_spec (hD : DupSearch o) {h : Heap L} {d top : Nat} {n : BNode K (BNode K (Tree K d))} {lo hi : Bd K}
    (hb : Bt W tt lm bm h (d + 2) top n lo hi) (hbm : 1 ≤ bm) {p : Nat} (hp : p < n.num) {A B : BNode K (Tree K d)} {s : K}
    (hA : n.kids p = some A) (hB : n.kids (p + 1) = some B) (hs : n.keys p = some s) (hcap : A.num + B.num + 1 ≤ o.N) (t : Nat) :
    ∃ m P, mergeBranch o A s B = .ok m ∧ mergeAt o A s B t = .ok P ∧ ∀ n' : BNode K (BNode K (Tree K d)), n'.num = n.num → n'.keys = n.keys →
      (∀ j, n'.kids j = if j = p then some P.rcv else if j = p + 1 then some P.dnr else n.kids j) →
      ∀ x, lookT o (d + 2) h n' x = .ok (find x (content W h (ids (d + 2) n))) := by
  obtain ⟨A', B', s', lo', hi', q1, q2, q3, bA, bB⟩ := hb.pair hp
  obtain rfl : A' = A := Option.some.inj (q1.symm.trans hA)
  obtain rfl : B' = B := Option.some.inj (q2.symm.trans hB)
  obtain rfl : s' = s := Option.some.inj (q3.symm.trans hs)
  have hnA := bA.num.1
  have hnB := bB.num.1
  rw [show occ lm bm (d + 1) = bm from rfl] at hnA hnB
  obtain ⟨m, em, bM, idm⟩ := mergeB bA bB (by omega) (by omega) hcap (by omega)
  obtain ⟨P, eP, _, _⟩ := mergeAt_filled em (bB.filled s' (A := fun x => find x (content W h (ids (d + 2) n))) (fun x => hb.child_sub s' (by omega) q2 bB x))
    (bA.filled s' (fun x => hb.child_sub s' (by omega) q1 bA x)) hcap t
  refine ⟨m, P, em, eP, fun n' hnum hkeys hkids x => ?_⟩
  obtain ⟨κ, χ, _, hNn, hk, hc, hκ, hpos, _, hχ⟩ := hb.node s'
  obtain rfl : χ p = A' := Option.some.inj ((hc p (by omega)).symm.trans hA)
  obtain rfl : χ (p + 1) = B' := Option.some.inj ((hc (p + 1) (by omega)).symm.trans hB)
  obtain ⟨r, er, hx⟩ := lookupPos_isPos hD hNn hk hκ x
  have hrn : r ≤ n.num := hx.1
  have er' : lookupPos o n' x = .ok r := by
    unfold lookupPos at er ⊢
    rw [hnum, hkeys]; exact er
  set a := find x (content W h (ids (d + 2) n)) with ha
  have hdnr : P.dnr = χ (p + 1) := by
    rcases mergeAt_cases em eP with rfl | h1
    · rfl
    · exact h1.1
  have look : ∀ C, n'.kids r = some C → lookT o (d + 1) h C x = .ok a → lookT o (d + 2) h n' x = .ok a := fun C h1 h2 => by
    rw [lookT_step er' (rd_ok (by omega) h1)]; exact h2
  by_cases c1 : r = p
  · refine look P.rcv (by rw [hkids r, if_pos c1]) ?_
    rcases mergeAt_cases em eP with rfl | ⟨_, g1, g2, g3⟩
    · have l1 := lookT_any bA x
      have l2 := lookT_any bB x
      rw [hχ x p r (by omega) hx, if_pos c1.symm] at l1
      rw [hχ x (p + 1) r (by omega) hx, if_neg (by omega)] at l2
      rw [lookT_any bM x, idm, content_append, find_append, ← Res.ok.inj l1, ← Res.ok.inj l2, Option.or_none]
    · obtain ⟨b', id'⟩ := bA.agree g1 g2 g3
      rw [lookT_any b' x, id', ← lookT_any bA x, hχ x p r (by omega) hx, if_pos c1.symm]
  · by_cases c2 : r = p + 1
    · refine look P.dnr (by rw [hkids r, if_neg c1, if_pos c2]) ?_
      rw [hdnr, hχ x (p + 1) r (by omega) hx, if_pos c2.symm]
    · refine look (χ r) (by rw [hkids r, if_neg c1, if_neg c2, hc r hrn]) ?_
      rw [hχ x r r hrn hx, if_pos rfl]

/-- One node whose child at `pos` has too few separators. -/
theorem moveN_spec (hS : AnySearch o) (hD : DupSearch o) {h : Heap L} {d top : Nat} {n : BNode K (BNode K (Tree K d))} {lo hi : Bd K} {q : Nat}
    (hN : o.N = 2 * q) (hN3 : 3 ≤ o.N) (hb : Bt W tt lm bm h (d + 2) top n lo hi) (hbm : 1 ≤ bm) (h1 : 1 ≤ n.num) {pos : Nat}
    {c : BNode K (Tree K d)} (hpos : pos ≤ n.num)
    (hc : n.kids pos = some c) (hun : c.num < (o.N + 1) / 2) {u : BNode K (BNode K (Tree K d)) × BNode K (Tree K d)}
    (hu : underflowBranch o n pos c = .ok u)
    (hul : ∀ x, lookT o (d + 2) h u.1 x = .ok (find x (content W h (ids (d + 2) n)))) (t : Nat) :
    ∃ n', moveN o n pos c t = .ok n' ∧ (∀ x, Safe (find x (content W h (ids (d + 2) n))) (lookT o (d + 2) h n' x)) ∧
      ((4 * o.N ≤ t ∨ ∃ n1 p, joinP o n pos c = .ok (n1, some p)) → ∀ x, lookT o (d + 2) h n' x = .ok (find x (content W h (ids (d + 2) n)))) := by
  have hNn := hb.num.2
  obtain ⟨_, _, s0, _, _, _, _, _, _, _⟩ := hb.pair (p := 0) (by omega)
  have hnf : Filled o.N (fun C => ∀ x, Safe (find x (content W h (ids (d + 2) n))) (lookT o (d + 1) h C x)) n :=
    hb.filled s0 (fun x => .inr rfl)
  -- the result of a balance
  have bal : ∀ p (D R : BNode K (Tree K d)) (pk : K) (b : Bal K (BNode K (Tree K d))), p < n.num →
      (D.num ≤ o.N ∧ 1 ≤ R.num ∧ R.num < D.num ∧ R.num < q) →
      (∀ x, find x (content W h (ids (d + 1) D)) = none ∨ find x (content W h (ids (d + 1) D)) = find x (content W h (ids (d + 2) n))) →
      (∀ x, find x (content W h (ids (d + 1) R)) = none ∨ find x (content W h (ids (d + 1) R)) = find x (content W h (ids (d + 2) n))) →
      (∃ lo' hi' top', Bt W tt lm bm h (d + 1) top' D lo' hi') → (∃ lo' hi' top', Bt W tt lm bm h (d + 1) top' R lo' hi') →
      balanceBranch o D R pk = .ok b →
      ∃ P, balAt o D R pk t = .ok P ∧ (∀ x, Safe (find x (content W h (ids (d + 2) n))) (lookT o (d + 1) h P.dnr x)) ∧
        (∀ x, Safe (find x (content W h (ids (d + 2) n))) (lookT o (d + 1) h P.rcv x)) ∧ (4 * o.N ≤ t → P = ⟨b.donor, b.receiver, b.key⟩) := by
    rintro p D R pk b hp ⟨m1, m2, m3, m4⟩ sD sR ⟨_, _, _, bD⟩ ⟨_, _, _, bR⟩ eb
    obtain ⟨P, e, f1, f2⟩ := balAt_filled pk (bD.filled s0 sD) (bR.filled s0 sR) m2 m3 (by omega) t
    exact ⟨P, e, safe_node hS f1, safe_node hS f2, fun ht => Res.ok.inj (e.symm.trans (balAt_all eb m1 (by omega) hN3 ht))⟩
  by_cases hp0 : 0 < pos
  · obtain ⟨A, B, s, lo', hi', q1, q2, q3, bA, bB⟩ := hb.pair (p := pos - 1) (by omega)
    rw [show pos - 1 + 1 = pos by omega] at q2
    obtain rfl : B = c := Option.some.inj (q2.symm.trans hc)
    have hnA : bm ≤ A.num := bA.num.1
    have hnB : bm ≤ B.num := bB.num.1
    have hAN := bA.num.2
    have hcn : childNum o (pos > 0) n (pos - 1) = .ok A.num := by
      unfold childNum; rw [if_pos hp0, rd_ok (by omega) q1]; rfl
    by_cases hbig : (o.N + 1) / 2 < A.num
    · unfold underflowBranch at hu
      unfold moveN
      rw [hcn, Res.ok_bind, if_pos ⟨hp0, hbig⟩] at hu ⊢
      rw [rd_ok (by omega) q1, Res.ok_bind, rd_ok (by omega) q3, Res.ok_bind, Res.assert_pos (by omega), Res.ok_bind] at hu ⊢
      obtain ⟨b, eb, hu⟩ := Res.bind_eq_ok.1 hu
      obtain ⟨P, eP, g1, g2, g3⟩ := bal (pos - 1) A B s b (by omega) ⟨hAN, by omega, by omega, by omega⟩
        (fun x => hb.child_sub s0 (by omega) q1 bA x) (fun x => hb.child_sub s0 (by omega) q2 bB x) ⟨_, _, _, bA⟩ ⟨_, _, _, bB⟩ eb
      rw [eP, Res.ok_bind, wr_ok _ _ (by omega), Res.ok_bind, wr_ok _ _ (by omega), Res.ok_bind, wr_ok _ _ (by omega), Res.ok_bind]
      rw [wr_ok _ _ (by omega), Res.ok_bind, wr_ok _ _ (by omega), Res.ok_bind, wr_ok _ _ (by omega), Res.ok_bind] at hu
      obtain rfl : _ = u := Res.ok.inj hu
      refine ⟨_, rfl, safe_node hS (hnf.set2 (a := pos) (b := pos - 1) g2 g1 rfl (fun j hj => ?_) (fun j => rfl)), fun hcase x => ?_⟩
      · dsimp only; split
        · rfl
        · exact hnf.keys j hj
      · rcases hcase with ht | ⟨n1, p, hc⟩
        · rw [g3 ht]; exact hul x
        · unfold joinP at hc
          rw [hcn, Res.ok_bind, if_pos ⟨hp0, hbig⟩] at hc
          obtain ⟨u', _, hc⟩ := Res.bind_eq_ok.1 hc
          have := congrArg Prod.snd (Res.ok.inj hc)
          cases this
    · obtain ⟨nn, hnn⟩ : ∃ nn, childNum o (pos < n.num) n (pos + 1) = .ok nn := by
        unfold childNum
        by_cases hlt : pos < n.num
        · obtain ⟨_, C, _, _, _, _, q5, _⟩ := hb.pair hlt
          rw [if_pos hlt, rd_ok (by omega) q5]; exact ⟨_, rfl⟩
        · rw [if_neg hlt]; exact ⟨_, rfl⟩
      by_cases hbig2 : pos < n.num ∧ (o.N + 1) / 2 < nn
      · obtain ⟨B', C, s2, lo2, hi2, q4, q5, q6, bB', bC⟩ := hb.pair (p := pos) hbig2.1
        obtain rfl : B = B' := Option.some.inj (q2.symm.trans q4)
        have hCN := bC.num.2
        have hnC : nn = C.num := by
          unfold childNum at hnn
          rw [if_pos hbig2.1, rd_ok (by omega) q5] at hnn
          exact (Res.ok.inj hnn).symm
        unfold underflowBranch at hu
        unfold moveN
        rw [hcn, Res.ok_bind, if_neg (fun hc => hbig hc.2), hnn, Res.ok_bind, if_pos hbig2] at hu ⊢
        rw [rd_ok (by omega) q5, Res.ok_bind, rd_ok (by omega) q6, Res.ok_bind, Res.assert_pos (by omega), Res.ok_bind] at hu ⊢
        obtain ⟨b, eb, hu⟩ := Res.bind_eq_ok.1 hu
        obtain ⟨P, eP, g1, g2, g3⟩ := bal pos C B s2 b (by omega) ⟨hCN, by omega, by omega, by omega⟩
          (fun x => hb.child_sub s0 (by omega) q5 bC x) (fun x => hb.child_sub s0 (by omega) q2 bB x) ⟨_, _, _, bC⟩ ⟨_, _, _, bB⟩ eb
        rw [eP, Res.ok_bind, wr_ok _ _ (by omega), Res.ok_bind, wr_ok _ _ (by omega), Res.ok_bind, wr_ok _ _ (by omega), Res.ok_bind]
        rw [wr_ok _ _ (by omega), Res.ok_bind, wr_ok _ _ (by omega), Res.ok_bind, wr_ok _ _ (by omega), Res.ok_bind] at hu
        obtain rfl : _ = u := Res.ok.inj hu
        refine ⟨_, rfl, safe_node hS (hnf.set2 (a := pos) (b := pos + 1) g2 g1 rfl (fun j hj => ?_) (fun j => rfl)), fun hcase x => ?_⟩
        · dsimp only; split
          · rfl
          · exact hnf.keys j hj
        · rcases hcase with ht | ⟨n1, p, hc⟩
          · rw [g3 ht]; exact hul x
          · unfold joinP at hc
            rw [hcn, Res.ok_bind, if_neg (fun hc => hbig hc.2), hnn, Res.ok_bind, if_pos hbig2] at hc
            obtain ⟨u', _, hc⟩ := Res.bind_eq_ok.1 hc
            have := congrArg Prod.snd (Res.ok.inj hc)
            cases this
      · have hcap : A.num + B.num + 1 ≤ o.N := by omega
        obtain ⟨m, P, em, eP, hx⟩ := moveMerge_spec hD hb hbm (p := pos - 1) (by omega) q1 (by rw [show pos - 1 + 1 = pos by omega]; exact q2) q3 hcap t
        unfold moveN
        rw [hcn, Res.ok_bind, if_neg (fun hc => hbig hc.2), hnn, Res.ok_bind, if_neg hbig2, if_pos (by omega), rd_ok (by omega) q1, Res.ok_bind,
          rd_ok (by omega) q3, Res.ok_bind, eP, Res.ok_bind, wr_ok _ _ (by omega), Res.ok_bind, wr_ok _ _ (by omega), Res.ok_bind]
        have hall := hx ⟨n.num, n.keys, fun j => if j = pos then some P.dnr else (fun j => if j = pos - 1 then some P.rcv else n.kids j) j⟩ rfl rfl
          (fun j => by
            dsimp only
            rw [show pos - 1 + 1 = pos by omega]
            by_cases c1 : j = pos
            · rw [if_pos c1, if_neg (by omega), if_pos c1]
            · rw [if_neg c1, if_neg c1])
        exact ⟨_, rfl, fun x => .inr (hall x), fun _ => hall⟩
  · obtain rfl : pos = 0 := by omega
    obtain ⟨A, B, s, lo', hi', q1, q2, q3, bA, bB⟩ := hb.pair (p := 0) (by omega)
    obtain rfl : A = c := Option.some.inj (q1.symm.trans hc)
    have hnA : bm ≤ A.num := bA.num.1
    have hnB : bm ≤ B.num := bB.num.1
    have hBN := bB.num.2
    have hcn : childNum o ((0 : Nat) > 0) n (0 - 1) = .ok 0 := by
      unfold childNum; rw [if_neg (by omega)]
    have hnn : childNum o (0 < n.num) n (0 + 1) = .ok B.num := by
      unfold childNum; rw [if_pos (by omega), rd_ok (by omega) q2]; rfl
    by_cases hbig : (o.N + 1) / 2 < B.num
    · unfold underflowBranch at hu
      unfold moveN
      rw [hcn, Res.ok_bind, if_neg (by omega), hnn, Res.ok_bind, if_pos ⟨by omega, hbig⟩] at hu ⊢
      rw [rd_ok (by omega) q2, Res.ok_bind, rd_ok (by omega) q3, Res.ok_bind, Res.assert_pos (by omega), Res.ok_bind] at hu ⊢
      obtain ⟨b, eb, hu⟩ := Res.bind_eq_ok.1 hu
      obtain ⟨P, eP, g1, g2, g3⟩ := bal 0 B A s b (by omega) ⟨hBN, by omega, by omega, by omega⟩
        (fun x => hb.child_sub s0 (by omega) q2 bB x) (fun x => hb.child_sub s0 (by omega) q1 bA x) ⟨_, _, _, bB⟩ ⟨_, _, _, bA⟩ eb
      rw [eP, Res.ok_bind, wr_ok _ _ (by omega), Res.ok_bind, wr_ok _ _ (by omega), Res.ok_bind, wr_ok _ _ (by omega), Res.ok_bind]
      rw [wr_ok _ _ (by omega), Res.ok_bind, wr_ok _ _ (by omega), Res.ok_bind, wr_ok _ _ (by omega), Res.ok_bind] at hu
      obtain rfl : _ = u := Res.ok.inj hu
      refine ⟨_, rfl, safe_node hS (hnf.set2 (a := 0) (b := 0 + 1) g2 g1 rfl (fun j hj => ?_) (fun j => rfl)), fun hcase x => ?_⟩
      · dsimp only; split
        · rfl
        · exact hnf.keys j hj
      · rcases hcase with ht | ⟨n1, p, hc⟩
        · rw [g3 ht]; exact hul x
        · unfold joinP at hc
          rw [hcn, Res.ok_bind, if_neg (by omega), hnn, Res.ok_bind, if_pos ⟨by omega, hbig⟩] at hc
          obtain ⟨u', _, hc⟩ := Res.bind_eq_ok.1 hc
          have := congrArg Prod.snd (Res.ok.inj hc)
          cases this
    · have hcap : A.num + B.num + 1 ≤ o.N := by omega
      obtain ⟨m, P, em, eP, hx⟩ := moveMerge_spec hD hb hbm (p := 0) (by omega) q1 q2 q3 hcap t
      unfold moveN
      rw [hcn, Res.ok_bind, if_neg (by omega), hnn, Res.ok_bind, if_neg (fun hc => hbig hc.2), if_neg (by omega), if_pos (by omega),
        rd_ok (by omega) q2, Res.ok_bind, rd_ok (by omega) q3, Res.ok_bind, eP, Res.ok_bind, wr_ok _ _ (by omega), Res.ok_bind,
        wr_ok _ _ (by omega), Res.ok_bind]
      have hall := hx ⟨n.num, n.keys, fun j => if j = 0 + 1 then some P.dnr else (fun j => if j = 0 then some P.rcv else n.kids j) j⟩ rfl rfl
        (fun j => by
          dsimp only
          by_cases c1 : j = 0 + 1
          · rw [if_pos c1, if_neg (by omega), if_pos c1]
          · rw [if_neg c1, if_neg c1])
      exact ⟨_, rfl, fun x => .inr (hall x), fun _ => hall⟩

/-- Every level: what every lookup gives. -/
theorem moveAt_spec (E : EraseLaws W) (hS : AnySearch o) (hD : DupSearch o) {q : Nat} (hN : o.N = 2 * q) (hbm2 : 2 ≤ bm) (hbm : bm ≤ q - 1)
    (hM : 2 ≤ o.M) (hlm1 : 1 ≤ lm) (hlm : lm ≤ o.M / 2) (k : K) (t : Nat) : ∀ (d top j : Nat) (h : Heap L)
    (n : BNode K (Tree K d)) (lo hi : Bd K) (pre post : List Nat), j < d →
    Bt W E.Q lm bm h (d + 1) top n lo hi → InR lo hi k →
    (∀ id l, findLeaf o (d + 1) n k = .ok id → h.data id = some l → E.pre l k) → Wf h (pre ++ ids (d + 1) n ++ post) → 1 ≤ top →
    ∃ h' n', moveAt o d h n k j t = .ok (h', n') ∧ Frame h h' (ids (d + 1) n) ∧
      (∀ x, Safe (if x = k then none else find x (content W h (ids (d + 1) n))) (lookT o (d + 1) h' n' x)) ∧
      ((4 * o.N ≤ t ∨ ∃ num p keys y r, JoinSite o d h n k j num p keys y r) → ∀ x,
        lookT o (d + 1) h' n' x = .ok (if x = k then none else find x (content W h (ids (d + 1) n)))) := by
  intro d
  induction d with
  | zero => intro top j h n lo hi pre post hj; exact absurd hj (by omega)
  | succ d ih =>
    intro top j h n lo hi pre post hj hb hk hf w ht1
    have hbtt := hb.frame (Q' := tt) (fun _ _ _ _ => trivial) (fun _ _ => rfl)
    obtain ⟨cs, ks, hr, htop, ht⟩ := hb
    obtain ⟨hks, _, _⟩ := keys_sorted (fun c a b hc => Bt.lt hc) ht
    obtain ⟨c1, c, c2, k1, k2, b1, m, m', b2, f⟩ := exists_focus W (fun c a b hc => Bt.lt hc) ht hk
    have hids : ids (d + 2) n = c1.flatMap (ids (d + 1)) ++ ids (d + 1) c ++ c2.flatMap (ids (d + 1)) := by
      rw [ids_rep hr, f.hcs]; simp
    have hlp := f.lookupPos hr hks
    have hrd := f.rdKid hr
    have w' : Wf h ((pre ++ c1.flatMap (ids (d + 1))) ++ ids (d + 1) c ++ (c2.flatMap (ids (d + 1)) ++ post)) := by
      rw [hids] at w; simpa using w
    have hpc := f.pc
    have ht1' := f.t1
    have ht2' := f.t2
    rw [show occ lm bm (d + 1) = bm from rfl] at hpc ht1' ht2'
    have hfc : ∀ id l, findLeaf o (d + 1) c k = .ok id → h.data id = some l → E.pre l k := fun id l hfl hl =>
      hf id l (by rw [findLeaf, hlp, Res.ok_bind, hrd, Res.ok_bind]; exact hfl) hl
    have hkl : k1.length ≤ o.N := by have := hr.cap; rw [f.hks, List.length_append] at this; omega
    rcases j with _ | j
    · -- this level
      have hne1 : ∀ e ∈ content W h (c1.flatMap (ids (d + 1))), e.1 ≠ k := fun e he heq => by
        have := lt_of_lt_of_le (f.left_lt e he) f.inR.1
        rw [heq] at this; exact absurd this (lt_irrefl _)
      have hne2 : ∀ e ∈ content W h (c2.flatMap (ids (d + 1))), e.1 ≠ k := fun e he heq => by
        have := lt_of_lt_of_le f.inR.2 (f.right_ge e he)
        rw [heq] at this; exact absurd this (lt_irrefl _)
      have hrem : remove k (content W h (ids (d + 2) n)) =
          content W h (c1.flatMap (ids (d + 1))) ++ remove k (content W h (ids (d + 1) c)) ++
            content W h (c2.flatMap (ids (d + 1))) := by
        rw [hids, content_append, content_append, remove_append, remove_append, remove_eq_self hne1,
          remove_eq_self hne2]
      have hnd := mem_disjoint (pre := pre) (post := post) (by rw [← hids]; exact w.nodup)
      obtain ⟨r, er, hdel, hframe, hfresh, hpost⟩ := eraseB_spec E hN hbm2 hbm hM hlm1 hlm k d bm false h c m m' _ _ hpc f.inR hfc w'
        (by omega) (fun _ => by omega)
      have hfr1 : ∀ i ∈ c1.flatMap (ids (d + 1)), r.heap.data i = h.data i := fun i hi =>
        hframe i (hnd.1 i hi) (w'.fresh i (by simp only [List.mem_append]; tauto))
      have hfr2 : ∀ i ∈ c2.flatMap (ids (d + 1)), r.heap.data i = h.data i := fun i hi =>
        hframe i (hnd.2.1 i hi) (w'.fresh i (by simp only [List.mem_append]; tauto))
      have ht1f := Tile.frame (Q' := tt) (h' := r.heap) (fun _ _ _ _ => trivial) hfr1 ht1'
      have ht2f := Tile.frame (Q' := tt) (h' := r.heap) (fun _ _ _ _ => trivial) hfr2 ht2'
      have hFr : Frame h r.heap (ids (d + 2) n) := by
        intro i hi hif
        refine hframe i (fun hc => hi ?_) hif
        rw [hids]; simp only [List.mem_append]; tauto
      unfold ErPost at hpost
      cases hnr : r.newRoot with
      | some tr => rw [hnr] at hpost; exact absurd hpost.1 (by simp)
      | none =>
        rw [hnr] at hpost
        obtain ⟨hbt, _, hwf, hct, hhd⟩ := hpost
        have hr' := hr
        rw [f.hcs, f.hks] at hr'
        obtain ⟨kids, ek, hrk⟩ := hr'.setKid r.node
        rw [f.l1] at ek
        have hkids : kids = fun j => if j = k1.length then some r.node else n.kids j := by
          rw [wr_ok _ _ (by omega)] at ek
          exact (Res.ok.inj ek).symm
        have hks' := hks
        rw [f.hks] at hks'
        set n1 : BNode K (Tree K (d + 1)) := { n with kids := kids } with hn1
        have hlp2 : lookupPos o n1 k = .ok k1.length := lookupPos_of W hrk hks' f.le f.gt
        have hn1num : 1 ≤ n1.num := by change 1 ≤ n.num; rw [hr.num]; omega
        have hjoin : moveAt o (d + 1) h n k 0 t = (if r.node.num < (o.N + 1) / 2 then do
            let n' ← moveN o n1 k1.length r.node t
            pure (r.heap, n')
          else pure (r.heap, n1)) := by
          rw [moveAt, hlp, Res.ok_bind, hrd, Res.ok_bind, er, Res.ok_bind, Res.guardUB_pos (by simp [hnr]), Res.ok_bind, ek, Res.ok_bind]
          dsimp only
          rw [← hn1, hlp2, Res.ok_bind]
        -- the node with the new child
        have hb1 : Bt W tt lm (bm - 1) r.heap (d + 2) 1 n1 lo hi := by
          refine ⟨_, _, hrk, by rw [← hrk.num]; exact hn1num, ?_⟩
          have low : ∀ c a b, Bt W tt lm bm r.heap (d + 1) bm c a b → Bt W tt lm (bm - 1) r.heap (d + 1) (bm - 1) c a b :=
            fun c a b hc => (hc.fewer (Nat.sub_le _ _)).top_le (Nat.sub_le _ _)
          have := tile_unfocus (xs := [r.node]) (ys := []) f.hb1 f.hb2 f.lb rfl (tile_imp ht1f (fun c _ => low c))
            ⟨hbt.fewer (Nat.sub_le _ _), trivial⟩ (tile_imp ht2f (fun c _ => low c))
          simpa [occ] using this
        have hcont : content W r.heap (ids (d + 2) n1) = remove k (content W h (ids (d + 2) n)) := by
          rw [ids_rep hrk, hrem, List.flatMap_append, List.flatMap_cons, content_append, content_append, hct, content_congr W hfr1,
            content_congr W hfr2, List.append_assoc]
        have hA : ∀ x, find x (content W r.heap (ids (d + 2) n1)) = if x = k then none else find x (content W h (ids (d + 2) n)) := by
          intro x
          rw [hcont, find_remove]
        by_cases hun : r.node.num < (o.N + 1) / 2
        · rw [if_pos hun] at hjoin
          obtain ⟨u, cs', ks', eu, hru, htu, hidu, hlu, hnil⟩ := underflowBranch_spec hN hbm2 hbm hrk f.l1 f.l2
            f.hb1 f.hb2 f.lb ht1f hbt ht2f (by have := hrk.num; rw [List.length_append] at this; omega) hun
          have hbu : Bt W tt lm bm r.heap (d + 2) 0 u.1 lo hi := ⟨cs', ks', hru, Nat.zero_le _, htu⟩
          have hidu' : ids (d + 2) u.1 = ids (d + 2) n1 := by rw [ids_rep hru, ids_rep hrk, hidu]
          obtain ⟨n', g2, g3, g4⟩ := moveN_spec hS hD hN (by omega) hb1 (by omega) hn1num (pos := k1.length) (c := r.node)
            (by change k1.length ≤ n.num; rw [hr.num, f.hks, List.length_append]; omega) (by rw [hn1, hkids]; simp) hun eu
            (fun x => by rw [lookT_any hbu x, hidu']) t
          rw [g2, Res.ok_bind] at hjoin
          refine ⟨r.heap, n', hjoin, hFr, fun x => ?_, fun hcase x => ?_⟩
          · rw [← hA x]; exact g3 x
          · rw [← hA x]
            refine g4 (hcase.imp_right ?_) x
            rintro ⟨num, p, keys, y, rr, _, _, _, pos, c', e', n1', a1, a2, a3, a4, a5⟩
            obtain rfl : k1.length = pos := Res.ok.inj (hlp.symm.trans a1)
            obtain rfl : c = c' := Res.ok.inj (hrd.symm.trans a2)
            obtain rfl : r = e' := Res.ok.inj (er.symm.trans a3)
            refine ⟨n1', p, ?_⟩
            rw [hn1, hkids]
            exact a5
        · rw [if_neg hun] at hjoin
          have hall : ∀ x, lookT o (d + 2) r.heap n1 x = .ok (if x = k then none else find x (content W h (ids (d + 2) n))) := fun x => by
            rw [lookT_any hb1 x, hA x]
          exact ⟨r.heap, n1, hjoin, hFr, fun x => .inr (hall x), fun _ => hall⟩
    · -- a level below
      obtain ⟨h', c', g1, g2, g3, g4⟩ := ih bm j h c m m' _ _ (by omega) hpc f.inR hfc w' (by omega)
      set n' : BNode K (Tree K (d + 1)) := ⟨n.num, n.keys, fun j => if j = k1.length then some c' else n.kids j⟩ with hn'
      have hjoin : moveAt o (d + 1) h n k (j + 1) t = .ok (h', n') := by
        rw [moveAt, hlp, Res.ok_bind, hrd, Res.ok_bind, g1, Res.ok_bind, wr_ok _ _ (by omega), Res.ok_bind]
        rfl
      have hsearch : ∀ x, (lookupPos o n x = .ok k1.length ∧ lookT o (d + 2) h' n' x = lookT o (d + 1) h' c' x ∧
          find x (content W h (ids (d + 2) n)) = find x (content W h (ids (d + 1) c))) ∨
          (lookupPos o n x ≠ .ok k1.length ∧
            lookT o (d + 2) h' n' x = .ok (if x = k then none else find x (content W h (ids (d + 2) n)))) := by
        intro x
        obtain ⟨cs', ks', hr', _, ht'⟩ := hbtt.widen (bot_le (a := lo)) (le_top (a := hi))
        obtain rfl := rep_unique hr'.kids hr.kids (by rw [hr'.len, hr.len, ← hr'.num, ← hr.num])
        obtain rfl := rep_unique hr'.keys hr.keys (by rw [← hr'.num, ← hr.num])
        obtain ⟨a1, y, a2, l1, l2, b1', m1, m1', b2', fx⟩ := exists_focus W (fun c a b hc => Bt.lt hc) ht' (inR_univ x)
        have hlx := fx.lookupPos hr hks
        have hrx := fx.rdKid hr
        have hlx' : lookupPos o n' x = .ok l1.length := hlx
        have hcont : find x (content W h (ids (d + 2) n)) = find x (content W h (ids (d + 1) y)) := by
          have ht2 := ht'
          rw [fx.hcs, fx.hks] at ht2
          rw [ids_rep hr, fx.hcs]
          exact find_tile ht2 fx.l1 fx.le fx.gt
        by_cases hl : l1.length = k1.length
        · left
          have hyc : y = c := by
            rw [hl, hrd] at hrx
            exact (Res.ok.inj hrx).symm
          subst hyc
          refine ⟨by rw [hlx, hl], lookT_step hlx' ?_, hcont⟩
          rw [hl]
          exact rd_ok (by omega) (by simp [hn'])
        · right
          have hll : l1.length ≤ o.N := by have := hr.cap; rw [fx.hks, List.length_append] at this; omega
          have hxk : x ≠ k := by
            rintro rfl
            exact hl (Res.ok.inj (hlx.symm.trans hlp))
          have hmem : y ∈ c1 ++ c2 := by
            have h1 : cs'[l1.length]? = some y := by rw [fx.hcs, ← fx.l1]; simp
            have hl1 := f.l1
            rw [f.hcs] at h1
            rcases Nat.lt_trichotomy l1.length k1.length with h2 | h2 | h2
            · rw [List.getElem?_append_left (by omega)] at h1
              exact List.mem_append_left _ (List.mem_of_getElem? h1)
            · exact absurd h2 hl
            · rw [List.getElem?_append_right (by omega), show l1.length - c1.length = (l1.length - c1.length - 1) + 1 by omega,
                List.getElem?_cons_succ] at h1
              exact List.mem_append_right _ (List.mem_of_getElem? h1)
          have hdis : ∀ i ∈ ids (d + 1) y, i < h.fresh ∧ i ∉ ids (d + 1) c := by
            intro i hi
            have hnd := w'.nodup
            have hi2 : i ∈ c1.flatMap (ids (d + 1)) ∨ i ∈ c2.flatMap (ids (d + 1)) := by
              rcases List.mem_append.1 hmem with h1 | h1
              · exact .inl (List.mem_flatMap.2 ⟨y, h1, hi⟩)
              · exact .inr (List.mem_flatMap.2 ⟨y, h1, hi⟩)
            refine ⟨w'.fresh i (by simp only [List.mem_append]; tauto), fun hic => ?_⟩
            rw [List.nodup_append, List.nodup_append] at hnd
            obtain ⟨⟨_, _, h1⟩, _, h2⟩ := hnd
            rcases hi2 with h3 | h3
            · exact h1 i (List.mem_append_right _ h3) i hic rfl
            · exact h2 i (List.mem_append_right _ hic) i (List.mem_append_left _ h3) rfl
          have hfy : ∀ i ∈ ids (d + 1) y, h'.data i = h.data i := fun i hi => g2 i (hdis i hi).2 (hdis i hi).1
          have hby : Bt W tt lm bm h' (d + 1) (occ lm bm (d + 1)) y m1 m1' := fx.pc.frame (fun _ _ _ h => h) hfy
          have hlo := lookT_any hby x
          rw [content_congr W hfy, ← hcont] at hlo
          have hky : n.kids l1.length = some y := by
            rw [hr.kids _ (by rw [fx.hcs, List.length_append, fx.l1, List.length_cons]; omega), fx.hcs, ← fx.l1]; simp
          refine ⟨fun hc => hl (Res.ok.inj (hlx.symm.trans hc)), ?_⟩
          rw [if_neg hxk, ← hlo]
          exact lookT_step hlx' (rd_ok (by omega) (by simp only [hn']; rw [if_neg hl]; exact hky))
      refine ⟨h', n', hjoin, ?_, fun x => ?_, fun hcase x => ?_⟩
      · intro i hi hif
        refine g2 i (fun hc => hi ?_) hif
        rw [hids]; simp only [List.mem_append]; tauto
      · rcases hsearch x with ⟨s0, s1, s2⟩ | ⟨s0, s1⟩
        · rw [s1, s2]; exact g3 x
        · exact .inr s1
      · rcases hsearch x with ⟨s0, s1, s2⟩ | ⟨s0, s1⟩
        · rw [s1, s2]
          refine g4 (hcase.imp_right ?_) x
          rintro ⟨num, p, keys, y, rr, pos, c0, a1, _, a3, a4⟩
          obtain rfl : k1.length = pos := Res.ok.inj (hlp.symm.trans a1)
          obtain rfl : c = c0 := Res.ok.inj (hrd.symm.trans a3)
          exact ⟨num, p, keys, y, rr, a4⟩
        · exact s1

theorem moveErase_spec (E : EraseLaws W) (hS : AnySearch o) (hD : DupSearch o) {q : Nat} (hN : o.N = 2 * q) (hbm2 : 2 ≤ bm) (hbm : bm ≤ q - 1)
    (hM : 2 ≤ o.M) (hlm1 : 1 ≤ lm) (hlm : lm ≤ o.M / 2) {s : State K L} {k : K}
    (hb : Bt W E.Q lm bm s.heap s.depth (rootMin 1 s.depth) s.root ⊥ ⊤) (w : Wf s.heap (ids s.depth s.root))
    (hf : ∀ id l, findLeaf o s.depth s.root k = .ok id → s.heap.data id = some l → E.pre l k) {j : Nat} (hj : j + 1 < s.depth) (t : Nat) :
    ∃ s', moveErase o s k j t = .ok s' ∧
      (∀ x, Safe (if x = k then none else find x (cont W s)) (lookup o s' x)) ∧
      ((4 * o.N ≤ t ∨ ∃ num p keys y r, Joins o s k j num p keys y r) → ∀ x,
        lookup o s' x = .ok (if x = k then none else find x (cont W s))) := by
  obtain ⟨d, n, h⟩ := s
  rcases d with _ | d
  · exact absurd hj (by change ¬ (j + 1 < 0); omega)
  · obtain ⟨h', n', e, _, hx⟩ := moveAt_spec E hS hD hN hbm2 hbm hM hlm1 hlm k t d _ j h n ⊥ ⊤ [] [] (by change j + 1 < d + 1 at hj; omega) hb (inR_univ k) hf
      (by simpa using w) le_rfl
    refine ⟨⟨d + 1, n', h'⟩, ?_, hx⟩
    change (moveAt o d h n k j t >>= fun r => pure (⟨d + 1, r.2, r.1⟩ : State K L)) = _
    rw [e]; rfl

end Verif.BTree
