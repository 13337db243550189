import Verif.BTree.JoinCrash
import Verif.BTree.RecoverFill
import Verif.BTree.InsertCrashLevel

/-!
# Lookups after a crash behind a merge of two branch nodes
-/

set_option linter.unusedSectionVars false

namespace Verif.BTree

open Verif Assoc
open Verif.Slots hiding none

variable {K V L : Type} [LinearOrder K] {o : Ops K V L} {W : Laws o} {lm bm : Nat}

theorem Bt.fewer {Q : L → Bd K → Bd K → Prop} {h : Heap L} {bm' : Nat} (hle : bm' ≤ bm) : ∀ {d top : Nat} {t : Tree K d} {lo hi : Bd K},
    Bt W Q lm bm h d top t lo hi → Bt W Q lm bm' h d top t lo hi
  | 0, _, _, _, _, hb => hb
  | d + 1, _, _, _, _, ⟨cs, ks, hr, ht, hti⟩ =>
    ⟨cs, ks, hr, ht, tile_imp hti (fun _ _ _ _ hc => (Bt.fewer hle hc).top_le (by
      cases d with
      | zero => exact le_rfl
      | succ d => exact hle))⟩

/-- Two neighbours below a branch node. -/
theorem Bt.pair {h : Heap L} {d top : Nat} {n : BNode K (Tree K d)} {lo hi : Bd K} (hb : Bt W tt lm bm h (d + 1) top n lo hi) {p : Nat}
    (hp : p < n.num) : ∃ A B s lo' hi', n.kids p = some A ∧ n.kids (p + 1) = some B ∧ n.keys p = some s ∧
      Bt W tt lm bm h d (occ lm bm d) A lo' (bk s) ∧ Bt W tt lm bm h d (occ lm bm d) B (bk s) hi' := by
  obtain ⟨cs, ks, hr, _, ht⟩ := hb
  have hnum := hr.num
  have hlen := hr.len
  obtain ⟨k1, s, k2, rfl, hk1⟩ := list_cut (l := ks) (n := p) (by omega)
  simp only [List.length_append, List.length_cons] at hnum hlen
  obtain ⟨a, A, b, rfl, ha⟩ := list_cut (l := cs) (n := p) (by omega)
  simp only [List.length_append, List.length_cons] at hlen
  cases b with
  | nil => simp only [List.length_nil] at hlen; omega
  | cons B b =>
    have e1 := hr.kids p (by simp; omega)
    have e2 := hr.kids (p + 1) (by simp; omega)
    have e3 := hr.keys p (by simp; omega)
    rw [List.getElem?_append_right (by omega), show p - a.length = 0 by omega] at e1
    rw [List.getElem?_append_right (by omega), show p + 1 - a.length = 1 by omega] at e2
    rw [List.getElem?_append_right (by omega), show p - k1.length = 0 by omega] at e3
    simp only [List.getElem?_cons_zero, List.getElem?_cons_succ] at e1 e2 e3
    rw [show a ++ A :: B :: b = (a ++ [A]) ++ (B :: b) by simp, tile_split_key (by simp; omega)] at ht
    obtain ⟨t1, t2⟩ := ht
    have hB : ∃ hi', Bt W tt lm bm h d (occ lm bm d) B (bk s) hi' := by
      cases k2 with
      | nil => exact ⟨_, t2.1⟩
      | cons y k2 => exact ⟨_, t2.1⟩
    have hA : ∃ lo', Bt W tt lm bm h d (occ lm bm d) A lo' (bk s) := by
      rcases List.eq_nil_or_concat k1 with rfl | ⟨k1', s', rfl⟩
      · obtain rfl : a = [] := List.length_eq_zero_iff.1 (by simpa [ha] using hk1.symm)
        exact ⟨_, t1.1⟩
      · rw [List.concat_eq_append, tile_split_key (c1 := a) (c2 := [A]) (k1 := k1') (k2 := []) (by simp at hk1; omega)] at t1
        exact ⟨_, t1.2.1⟩
    obtain ⟨hi', hB⟩ := hB
    obtain ⟨lo', hA⟩ := hA
    exact ⟨A, B, s, lo', hi', e1, e2, e3, hA, hB⟩

/-- The separator that stands there twice after `t` assignments. -/
def Twice (num p t : Nat) (keys : Nat → Option K) (x : K) : Prop :=
  1 ≤ t ∧ t < 2 * (num - 1 - p) ∧ keys (dupIx num p t) = some x

/-- The result `res` of a lookup of `x`, found at child `r` with value `a` before, after `t` assignments. -/
def JoinSees (num p t : Nat) (keys : Nat → Option K) (x : K) (r : Nat) (a : Option V) (res : Res (Option V)) : Prop :=
  (res = .ok a ∨ res = .ok none ∨ (t ≤ num - 1 - p ∧ res = .ub)) ∧
  (¬ Twice num p t keys x → (Dead num p t r → res = .ub) ∧ (Missed num p t r → res = .ok none) ∧
    (¬ Dead num p t r → ¬ Missed num p t r → res = .ok a))

/-- The position of a search. -/
theorem lookupPos_isPos (hD : DupSearch o) {α : Type} {n : BNode K α} {κ : Nat → K} (hN : n.num ≤ o.N)
    (hk : ∀ j, j < n.num → n.keys j = some (κ j)) (hκ : ∀ i j, i < j → j < n.num → κ i < κ j) (x : K) :
    ∃ r, lookupPos o n x = .ok r ∧ IsPos κ n.num x r := by
  obtain ⟨p, e, g1, g2, g3⟩ := hD n.keys n.num κ x hN hk (fun i j hij hj => by
    rcases Nat.lt_or_eq_of_le hij with h | h
    · exact (hκ i j h hj).le
    · rw [h])
  refine ⟨p, e, g1, g2, fun i h1 h2 => ?_⟩
  rcases g3 i h1 h2 with h | ⟨h, h3, h4⟩
  · exact h
  · have := hκ (p - 1) i (by omega) h2
    rw [h3, h4] at this
    exact absurd this (lt_irrefl _)

theorem lookT_hole {d : Nat} {h : Heap L} {n : BNode K (Tree K d)} {x : K} {p : Nat} (e : lookupPos o n x = .ok p) (hn : n.kids p = none) :
    lookT o (d + 1) h n x = .ub := by
  unfold lookT
  rw [findLeaf, e, Res.ok_bind]
  unfold Slots.rd
  rw [hn]
  split <;> rfl

theorem joinMerge_spec (hD : DupSearch o) {h : Heap L} {d top : Nat} {n : BNode K (BNode K (Tree K d))} {lo hi : Bd K}
    (hb : Bt W tt lm bm h (d + 2) top n lo hi) (hbm : 1 ≤ bm) {p : Nat} (hp : p < n.num) {A B : BNode K (Tree K d)} {s : K}
    (hA : n.kids p = some A) (hB : n.kids (p + 1) = some B) (hs : n.keys p = some s) (hcap : A.num + B.num + 1 ≤ o.N) (t : Nat) :
    ∃ m n', mergeBranch o A s B = .ok m ∧
      applyBW o { n with kids := fun j => if j = p + 1 then none else if j = p then some m else n.kids j } ((joinWrites n.num p).take t) = .ok n' ∧
      ∀ x r, lookupPos o n x = .ok r → JoinSees n.num p t n.keys x r (find x (content W h (ids (d + 2) n))) (lookT o (d + 2) h n' x) := by
  obtain ⟨A', B', s', lo', hi', q1, q2, q3, bA, bB⟩ := hb.pair hp
  obtain rfl : A' = A := Option.some.inj (q1.symm.trans hA)
  obtain rfl : B' = B := Option.some.inj (q2.symm.trans hB)
  obtain rfl : s' = s := Option.some.inj (q3.symm.trans hs)
  have hnA := bA.num.1
  have hnB := bB.num.1
  rw [show occ lm bm (d + 1) = bm from rfl] at hnA hnB
  obtain ⟨m, em, bM, idm⟩ := mergeB bA bB (by omega) (by omega) hcap (by omega)
  obtain ⟨κ, χ, _, hNn, hk, hc, hκ, hpos, _, hχ⟩ := hb.node s'
  obtain rfl : χ p = A' := Option.some.inj ((hc p (by omega)).symm.trans hA)
  obtain rfl : χ (p + 1) = B' := Option.some.inj ((hc (p + 1) (by omega)).symm.trans hB)
  set n1 : BNode K (BNode K (Tree K d)) := { n with kids := fun j => if j = p + 1 then none else if j = p then some m else n.kids j } with hn1
  have hkid1 : ∀ j, p + 2 ≤ j → j ≤ n1.num → (n1.kids j).isSome := by
    intro j h1 h2
    simp only [hn1]
    rw [if_neg (by omega), if_neg (by omega), hc j h2]; rfl
  obtain ⟨n', e, _⟩ := joinWrites_form (o := o) (n := n1) (p := p) t hNn hp (fun j hj => by simp only [hn1]; rw [hk j hj]; rfl) hkid1
  refine ⟨m, n', em, e, fun x r hr => ?_⟩
  obtain ⟨r', er, hx⟩ := lookupPos_isPos hD hNn hk hκ x
  obtain rfl : r' = r := Res.ok.inj (er.symm.trans hr)
  set a := find x (content W h (ids (d + 2) n)) with ha
  -- the merged node
  have hm : lookT o (d + 1) h m x = .ok (if r' = p ∨ r' = p + 1 then a else none) := by
    have l1 := lookT_any bA x
    have l2 := lookT_any bB x
    rw [hχ x p r' (by omega) hx] at l1
    rw [hχ x (p + 1) r' (by omega) hx] at l2
    rw [lookT_any bM x, idm, content_append, find_append, ← Res.ok.inj l1, ← Res.ok.inj l2]
    by_cases c1 : r' = p
    · rw [if_pos c1.symm, if_neg (by omega), if_pos (.inl c1), Option.or_none]
    · by_cases c2 : r' = p + 1
      · rw [if_neg (by omega), if_pos c2.symm, if_pos (.inr c2), Option.none_or]
      · rw [if_neg (by omega), if_neg (by omega), if_neg (by omega)]; rfl
  obtain ⟨n2, p', g, e2, lp, hp', hkg, hg, hcase⟩ := joinWrites_sees hD (n := n1) (p := p) t hNn hp hκ hk hkid1 hx
  obtain rfl : n2 = n' := Res.ok.inj (e2.symm.trans e)
  have hnum1 : n1.num = n.num := rfl
  rw [hnum1] at hcase hp' hg
  have see : g ≠ p + 1 → lookT o (d + 2) h n2 x = .ok (if g = p then (if r' = p ∨ r' = p + 1 then a else none) else if g = r' then a else none) := by
    intro hg1
    by_cases hgp : g = p
    · rw [if_pos hgp, ← hm]
      refine lookT_step lp (rd_ok (by omega) ?_)
      rw [hkg]; simp only [hn1]; rw [if_neg hg1, if_pos hgp]
    · rw [if_neg hgp, ← hχ x g r' hg hx]
      refine lookT_step lp (rd_ok (by omega) ?_)
      rw [hkg]; simp only [hn1]; rw [if_neg hg1, if_neg hgp, hc g hg]
  have hole : g = p + 1 → lookT o (d + 2) h n2 x = .ub := by
    intro hg1
    refine lookT_hole lp ?_
    rw [hkg]; simp only [hn1]; rw [if_pos hg1]
  have hdk : 1 ≤ t → t < 2 * (n.num - 1 - p) → n.keys (dupIx n.num p t) = some (κ (dupIx n.num p t)) := fun _ _ =>
    hk _ (by unfold dupIx; omega)
  rcases hcase with ⟨c1, c2, c3, c4, c5, c6⟩ | ⟨c1, c2⟩ | ⟨c1, c2, c3, c4⟩ | ⟨c1, c2, c3⟩
  · refine ⟨?_, fun hn => absurd ⟨c1, c2, by rw [hdk c1 c2, c3]⟩ hn⟩
    by_cases hg1 : g = p + 1
    · exact .inr (.inr ⟨by have := c5 hg1; omega, hole hg1⟩)
    · refine .inr (.inl ?_)
      rw [see hg1, if_neg c6, if_neg (by omega)]
  · have := hole c2
    refine ⟨.inr (.inr ⟨?_, this⟩), fun _ => ⟨fun _ => this, fun h1 => ?_, fun h1 => absurd c1 h1⟩⟩
    · unfold Dead at c1; omega
    · unfold Dead at c1; unfold Missed at h1; omega
  · have := see c2
    rw [if_neg c3, if_neg c4] at this
    refine ⟨.inr (.inl this), fun _ => ⟨fun h1 => ?_, fun _ => this, fun _ h1 => absurd c1 h1⟩⟩
    unfold Dead at h1; unfold Missed at c1; omega
  · have : lookT o (d + 2) h n2 x = .ok a := by
      by_cases hr1 : r' = p + 1
      · rw [if_pos hr1] at c3
        rw [see (by omega), if_pos c3, if_pos (.inr hr1)]
      · rw [if_neg hr1] at c3
        rw [see (by omega)]
        by_cases hgp : g = p
        · rw [if_pos hgp, if_pos (.inl (by omega))]
        · rw [if_neg hgp, if_pos c3]
    exact ⟨.inl this, fun _ => ⟨fun h1 => absurd h1 c1, fun h1 => absurd h1 c2, fun _ _ => this⟩⟩

/-- One node whose child at `pos` has too few separators. -/
theorem joinN_spec (hD : DupSearch o) {h : Heap L} {d top : Nat} {n : BNode K (BNode K (Tree K d))} {lo hi : Bd K} {q : Nat} (hN : o.N = 2 * q)
    (hb : Bt W tt lm bm h (d + 2) top n lo hi) (hbm : 1 ≤ bm) (h1 : 1 ≤ n.num) {pos : Nat} {c : BNode K (Tree K d)} (hpos : pos ≤ n.num)
    (hc : n.kids pos = some c) (hun : c.num < (o.N + 1) / 2) {u : BNode K (BNode K (Tree K d)) × BNode K (Tree K d)}
    (hu : underflowBranch o n pos c = .ok u)
    (hul : ∀ x, lookT o (d + 2) h u.1 x = .ok (find x (content W h (ids (d + 2) n)))) (t : Nat) :
    ∃ n1 mp n', joinP o n pos c = .ok (n1, mp) ∧ joinN o n pos c t = .ok n' ∧
      (mp = none → ∀ x, lookT o (d + 2) h n' x = .ok (find x (content W h (ids (d + 2) n)))) ∧
      ∀ p, mp = some p → ∀ x r, lookupPos o n x = .ok r →
        JoinSees n.num p t n.keys x r (find x (content W h (ids (d + 2) n))) (lookT o (d + 2) h n' x) := by
  have hNn := hb.num.2
  have bal : joinP o n pos c = (do
      let u ← underflowBranch o n pos c
      pure (u.1, none)) → ∃ n1 mp n', joinP o n pos c = .ok (n1, mp) ∧ joinN o n pos c t = .ok n' ∧
      (mp = none → ∀ x, lookT o (d + 2) h n' x = .ok (find x (content W h (ids (d + 2) n)))) ∧
      ∀ p, mp = some p → ∀ x r, lookupPos o n x = .ok r →
        JoinSees n.num p t n.keys x r (find x (content W h (ids (d + 2) n))) (lookT o (d + 2) h n' x) := by
    intro e
    rw [hu, Res.ok_bind] at e
    refine ⟨u.1, none, u.1, e, ?_, fun _ => hul, fun p hp => absurd hp (by simp)⟩
    unfold joinN
    rw [e]; rfl
  have mer : ∀ p A B s m n', p < n.num → joinP o n pos c =
      .ok ({ n with kids := fun j => if j = p + 1 then none else if j = p then some m else n.kids j }, some p) →
      n.kids p = some A → n.kids (p + 1) = some B → n.keys p = some s → A.num + B.num + 1 ≤ o.N → mergeBranch o A s B = .ok m →
      applyBW o { n with kids := fun j => if j = p + 1 then none else if j = p then some m else n.kids j } ((joinWrites n.num p).take t) = .ok n' →
      ∃ n1 mp n', joinP o n pos c = .ok (n1, mp) ∧ joinN o n pos c t = .ok n' ∧
      (mp = none → ∀ x, lookT o (d + 2) h n' x = .ok (find x (content W h (ids (d + 2) n)))) ∧
      ∀ p, mp = some p → ∀ x r, lookupPos o n x = .ok r →
        JoinSees n.num p t n.keys x r (find x (content W h (ids (d + 2) n))) (lookT o (d + 2) h n' x) := by
    intro p A B s m n' hp e hA hB hs hcap em en
    refine ⟨_, some p, n', e, ?_, fun hc => absurd hc (by simp), fun p' hp' x r hr => ?_⟩
    · unfold joinN
      rw [e, Res.ok_bind]
      exact en
    · obtain rfl : p = p' := Option.some.inj hp'
      obtain ⟨m2, n2, f1, f2, f3⟩ := joinMerge_spec hD hb hbm hp hA hB hs hcap t
      obtain rfl : m2 = m := Res.ok.inj (f1.symm.trans em)
      obtain rfl : n2 = n' := Res.ok.inj (f2.symm.trans en)
      exact f3 x r hr
  -- the number of keys in the left neighbour
  by_cases hp0 : 0 < pos
  · obtain ⟨A, B, s, lo', hi', q1, q2, q3, bA, bB⟩ := hb.pair (p := pos - 1) (by omega)
    rw [show pos - 1 + 1 = pos by omega] at q2
    obtain rfl : B = c := Option.some.inj (q2.symm.trans hc)
    have hnA : bm ≤ A.num := bA.num.1
    have hcn : childNum o (pos > 0) n (pos - 1) = .ok A.num := by
      unfold childNum; rw [if_pos hp0, rd_ok (by omega) q1]; rfl
    by_cases hbig : (o.N + 1) / 2 < A.num
    · exact bal (by unfold joinP; rw [hcn, Res.ok_bind, if_pos ⟨hp0, hbig⟩])
    · obtain ⟨nn, hnn⟩ : ∃ nn, childNum o (pos < n.num) n (pos + 1) = .ok nn := by
        unfold childNum
        by_cases hlt : pos < n.num
        · obtain ⟨_, C, _, _, _, _, q5, _⟩ := hb.pair hlt
          rw [if_pos hlt, rd_ok (by omega) q5]; exact ⟨_, rfl⟩
        · rw [if_neg hlt]; exact ⟨_, rfl⟩
      by_cases hbig2 : pos < n.num ∧ (o.N + 1) / 2 < nn
      · exact bal (by unfold joinP; rw [hcn, Res.ok_bind, if_neg (fun hc => hbig hc.2), hnn, Res.ok_bind, if_pos hbig2])
      · have hcap : A.num + B.num + 1 ≤ o.N := by omega
        obtain ⟨m, n', em, en, _⟩ := joinMerge_spec hD hb hbm (p := pos - 1) (by omega) q1 (by rw [show pos - 1 + 1 = pos by omega]; exact q2) q3 hcap t
        refine mer (pos - 1) A B s m n' (by omega) ?_ q1 (by rw [show pos - 1 + 1 = pos by omega]; exact q2) q3 hcap em en
        unfold joinP
        rw [hcn, Res.ok_bind, if_neg (fun hc => hbig hc.2), hnn, Res.ok_bind, if_neg hbig2, if_pos (by omega), rd_ok (by omega) q1, Res.ok_bind,
          rd_ok (by omega) q3, Res.ok_bind, em, Res.ok_bind, wr_ok _ _ (by omega), Res.ok_bind, show pos - 1 + 1 = pos by omega]
        rfl
  · obtain rfl : pos = 0 := by omega
    obtain ⟨A, B, s, lo', hi', q1, q2, q3, bA, bB⟩ := hb.pair (p := 0) (by omega)
    obtain rfl : A = c := Option.some.inj (q1.symm.trans hc)
    have hnB : bm ≤ B.num := bB.num.1
    have hcn : childNum o ((0 : Nat) > 0) n (0 - 1) = .ok 0 := by
      unfold childNum; rw [if_neg (by omega)]
    have hnn : childNum o (0 < n.num) n (0 + 1) = .ok B.num := by
      unfold childNum; rw [if_pos (by omega), rd_ok (by omega) q2]; rfl
    by_cases hbig : (o.N + 1) / 2 < B.num
    · exact bal (by unfold joinP; rw [hcn, Res.ok_bind, if_neg (by omega), hnn, Res.ok_bind, if_pos ⟨by omega, hbig⟩])
    · have hcap : A.num + B.num + 1 ≤ o.N := by omega
      obtain ⟨m, n', em, en, _⟩ := joinMerge_spec hD hb hbm (p := 0) (by omega) q1 q2 q3 hcap t
      refine mer 0 A B s m n' (by omega) ?_ q1 q2 q3 hcap em en
      unfold joinP
      rw [hcn, Res.ok_bind, if_neg (by omega), hnn, Res.ok_bind, if_neg (fun hc => hbig hc.2), if_neg (by omega), if_pos (by omega),
        rd_ok (by omega) q2, Res.ok_bind, rd_ok (by omega) q3, Res.ok_bind, em, Res.ok_bind, Res.guardUB_pos rfl, Res.ok_bind,
        wr_ok _ _ (by omega), Res.ok_bind]
      rfl

/-- The node `j` levels below `n` on the way to `k` has `num` separators `keys`, the erase of `k` merges its children `p` and `p + 1`,
and a search for `x` comes to its child `r`. -/
def JoinSite (o : Ops K V L) : (d : Nat) → Heap L → BNode K (Tree K d) → K → Nat → Nat → Nat → (Nat → Option K) → K → Nat → Prop
  | 0, _, _, _, _, _, _, _, _, _ => False
  | d + 1, h, n, k, 0, num, p, keys, x, r => num = n.num ∧ keys = n.keys ∧ lookupPos o n x = .ok r ∧ ∃ pos c e n1,
      lookupPos o n k = .ok pos ∧ rd (o.N + 1) n.kids pos = .ok c ∧ eraseB o d false h c k = .ok e ∧ e.node.num < (o.N + 1) / 2 ∧
      joinP o ({ n with kids := fun j => if j = pos then some e.node else n.kids j } : BNode K (Tree K (d + 1))) pos e.node = .ok (n1, some p)
  | d + 1, h, n, k, j + 1, num, p, keys, x, r => ∃ pos c, lookupPos o n k = .ok pos ∧ lookupPos o n x = .ok pos ∧
      rd (o.N + 1) n.kids pos = .ok c ∧ JoinSite o d h c k j num p keys x r

/-- Every level: what every lookup gives. -/
theorem joinAt_spec (E : EraseLaws W) (hD : DupSearch o) {q : Nat} (hN : o.N = 2 * q) (hbm2 : 2 ≤ bm) (hbm : bm ≤ q - 1)
    (hM : 2 ≤ o.M) (hlm1 : 1 ≤ lm) (hlm : lm ≤ o.M / 2) (k : K) (t : Nat) : ∀ (d top j : Nat) (h : Heap L)
    (n : BNode K (Tree K d)) (lo hi : Bd K) (pre post : List Nat), j < d →
    Bt W E.Q lm bm h (d + 1) top n lo hi → InR lo hi k →
    (∀ id l, findLeaf o (d + 1) n k = .ok id → h.data id = some l → E.pre l k) → Wf h (pre ++ ids (d + 1) n ++ post) → 1 ≤ top →
    ∃ h' n', joinAt o d h n k j t = .ok (h', n') ∧ Frame h h' (ids (d + 1) n) ∧ ∀ x,
      (∀ num p keys r, JoinSite o d h n k j num p keys x r → JoinSees num p t keys x r
        (if x = k then none else find x (content W h (ids (d + 1) n))) (lookT o (d + 1) h' n' x)) ∧
      ((∀ num p keys r, ¬ JoinSite o d h n k j num p keys x r) →
        lookT o (d + 1) h' n' x = .ok (if x = k then none else find x (content W h (ids (d + 1) n)))) := by
  intro d
  induction d with
  | zero => intro top j h n lo hi pre post hj; exact absurd hj (by omega)
  | succ d ih =>
    intro top j h n lo hi pre post hj hb hk hf w ht1
    have hbtt := hb.frame (Q' := tt) (fun _ _ _ _ => trivial) (fun _ _ => rfl)
    obtain ⟨cs, ks, hr, htop, ht⟩ := hb
    obtain ⟨hks, _, _⟩ := keys_sorted (fun c a b hc => Bt.lt hc) ht
    obtain ⟨c1, c, c2, k1, k2, b1, m, m', b2, f⟩ := exists_focus W (fun c a b hc => Bt.lt hc) ht hk
    have hids : ids (d + 2) n = c1.flatMap (ids (d + 1)) ++ ids (d + 1) c ++ c2.flatMap (ids (d + 1)) := by
      rw [ids_rep hr, f.hcs]; simp
    have hlp := f.lookupPos hr hks
    have hrd := f.rdKid hr
    have w' : Wf h ((pre ++ c1.flatMap (ids (d + 1))) ++ ids (d + 1) c ++ (c2.flatMap (ids (d + 1)) ++ post)) := by
      rw [hids] at w; simpa using w
    have hpc := f.pc
    have ht1' := f.t1
    have ht2' := f.t2
    rw [show occ lm bm (d + 1) = bm from rfl] at hpc ht1' ht2'
    have hfc : ∀ id l, findLeaf o (d + 1) c k = .ok id → h.data id = some l → E.pre l k := fun id l hfl hl =>
      hf id l (by rw [findLeaf, hlp, Res.ok_bind, hrd, Res.ok_bind]; exact hfl) hl
    have hkl : k1.length ≤ o.N := by have := hr.cap; rw [f.hks, List.length_append] at this; omega
    rcases j with _ | j
    · -- this level
      have hne1 : ∀ e ∈ content W h (c1.flatMap (ids (d + 1))), e.1 ≠ k := fun e he heq => by
        have := lt_of_lt_of_le (f.left_lt e he) f.inR.1
        rw [heq] at this; exact absurd this (lt_irrefl _)
      have hne2 : ∀ e ∈ content W h (c2.flatMap (ids (d + 1))), e.1 ≠ k := fun e he heq => by
        have := lt_of_lt_of_le f.inR.2 (f.right_ge e he)
        rw [heq] at this; exact absurd this (lt_irrefl _)
      have hrem : remove k (content W h (ids (d + 2) n)) =
          content W h (c1.flatMap (ids (d + 1))) ++ remove k (content W h (ids (d + 1) c)) ++
            content W h (c2.flatMap (ids (d + 1))) := by
        rw [hids, content_append, content_append, remove_append, remove_append, remove_eq_self hne1,
          remove_eq_self hne2]
      have hnd := mem_disjoint (pre := pre) (post := post) (by rw [← hids]; exact w.nodup)
      obtain ⟨r, er, hdel, hframe, hfresh, hpost⟩ := eraseB_spec E hN hbm2 hbm hM hlm1 hlm k d bm false h c m m' _ _ hpc f.inR hfc w'
        (by omega) (fun _ => by omega)
      have hfr1 : ∀ i ∈ c1.flatMap (ids (d + 1)), r.heap.data i = h.data i := fun i hi =>
        hframe i (hnd.1 i hi) (w'.fresh i (by simp only [List.mem_append]; tauto))
      have hfr2 : ∀ i ∈ c2.flatMap (ids (d + 1)), r.heap.data i = h.data i := fun i hi =>
        hframe i (hnd.2.1 i hi) (w'.fresh i (by simp only [List.mem_append]; tauto))
      have ht1f := Tile.frame (Q' := tt) (h' := r.heap) (fun _ _ _ _ => trivial) hfr1 ht1'
      have ht2f := Tile.frame (Q' := tt) (h' := r.heap) (fun _ _ _ _ => trivial) hfr2 ht2'
      have hFr : Frame h r.heap (ids (d + 2) n) := by
        intro i hi hif
        refine hframe i (fun hc => hi ?_) hif
        rw [hids]; simp only [List.mem_append]; tauto
      unfold ErPost at hpost
      cases hnr : r.newRoot with
      | some tr => rw [hnr] at hpost; exact absurd hpost.1 (by simp)
      | none =>
        rw [hnr] at hpost
        obtain ⟨hbt, _, hwf, hct, hhd⟩ := hpost
        have hr' := hr
        rw [f.hcs, f.hks] at hr'
        obtain ⟨kids, ek, hrk⟩ := hr'.setKid r.node
        rw [f.l1] at ek
        have hkids : kids = fun j => if j = k1.length then some r.node else n.kids j := by
          rw [wr_ok _ _ (by omega)] at ek
          exact (Res.ok.inj ek).symm
        have hks' := hks
        rw [f.hks] at hks'
        set n1 : BNode K (Tree K (d + 1)) := { n with kids := kids } with hn1
        have hlp2 : lookupPos o n1 k = .ok k1.length := lookupPos_of W hrk hks' f.le f.gt
        have hn1num : 1 ≤ n1.num := by change 1 ≤ n.num; rw [hr.num]; omega
        have hjoin : joinAt o (d + 1) h n k 0 t = (if r.node.num < (o.N + 1) / 2 then do
            let n' ← joinN o n1 k1.length r.node t
            pure (r.heap, n')
          else pure (r.heap, n1)) := by
          rw [joinAt, hlp, Res.ok_bind, hrd, Res.ok_bind, er, Res.ok_bind, Res.guardUB_pos (by simp [hnr]), Res.ok_bind, ek, Res.ok_bind]
          dsimp only
          rw [← hn1, hlp2, Res.ok_bind]
        -- the node with the new child
        have hb1 : Bt W tt lm (bm - 1) r.heap (d + 2) 1 n1 lo hi := by
          refine ⟨_, _, hrk, by rw [← hrk.num]; exact hn1num, ?_⟩
          have low : ∀ c a b, Bt W tt lm bm r.heap (d + 1) bm c a b → Bt W tt lm (bm - 1) r.heap (d + 1) (bm - 1) c a b :=
            fun c a b hc => (hc.fewer (Nat.sub_le _ _)).top_le (Nat.sub_le _ _)
          have := tile_unfocus (xs := [r.node]) (ys := []) f.hb1 f.hb2 f.lb rfl (tile_imp ht1f (fun c _ => low c))
            ⟨hbt.fewer (Nat.sub_le _ _), trivial⟩ (tile_imp ht2f (fun c _ => low c))
          simpa [occ] using this
        have hcont : content W r.heap (ids (d + 2) n1) = remove k (content W h (ids (d + 2) n)) := by
          rw [ids_rep hrk, hrem, List.flatMap_append, List.flatMap_cons, content_append, content_append, hct, content_congr W hfr1,
            content_congr W hfr2, List.append_assoc]
        have hA : ∀ x, find x (content W r.heap (ids (d + 2) n1)) = if x = k then none else find x (content W h (ids (d + 2) n)) := by
          intro x
          rw [hcont, find_remove]
        by_cases hun : r.node.num < (o.N + 1) / 2
        · rw [if_pos hun] at hjoin
          obtain ⟨u, cs', ks', eu, hru, htu, hidu, hlu, hnil⟩ := underflowBranch_spec hN hbm2 hbm hrk f.l1 f.l2
            f.hb1 f.hb2 f.lb ht1f hbt ht2f (by have := hrk.num; rw [List.length_append] at this; omega) hun
          have hbu : Bt W tt lm bm r.heap (d + 2) 0 u.1 lo hi := ⟨cs', ks', hru, Nat.zero_le _, htu⟩
          have hidu' : ids (d + 2) u.1 = ids (d + 2) n1 := by rw [ids_rep hru, ids_rep hrk, hidu]
          obtain ⟨n2, mp, n', g1, g2, g3, g4⟩ := joinN_spec hD hN hb1 (by omega) hn1num (pos := k1.length) (c := r.node)
            (by change k1.length ≤ n.num; rw [hr.num, f.hks, List.length_append]; omega) (by rw [hn1, hkids]; simp) hun eu
            (fun x => by rw [lookT_any hbu x, hidu']) t
          rw [g2, Res.ok_bind] at hjoin
          refine ⟨r.heap, n', hjoin, hFr, fun x => ⟨?_, ?_⟩⟩
          · rintro num p keys rr ⟨rfl, rfl, hlx, pos, c', e', n1', a1, a2, a3, a4, a5⟩
            obtain rfl : k1.length = pos := Res.ok.inj (hlp.symm.trans a1)
            obtain rfl : c = c' := Res.ok.inj (hrd.symm.trans a2)
            obtain rfl : r = e' := Res.ok.inj (er.symm.trans a3)
            have hmp : mp = some p := by
              rw [hn1, hkids] at g1
              exact congrArg Prod.snd (Res.ok.inj (g1.symm.trans a5))
            have := g4 p hmp x rr hlx
            rw [hA x] at this
            exact this
          · intro hno
            cases mp with
            | none => rw [g3 rfl x, hA x]
            | some p =>
              exfalso
              obtain ⟨κ, χ, _, hNn, hkk, _, hκ, _⟩ := hbtt.node k
              obtain ⟨rr, hrr, _⟩ := lookupPos_isPos hD hNn hkk hκ x
              refine hno n.num p n.keys rr ⟨rfl, rfl, hrr, k1.length, c, r, n2, hlp, hrd, er, hun, ?_⟩
              rw [hn1, hkids] at g1
              exact g1
        · rw [if_neg hun] at hjoin
          refine ⟨r.heap, n1, hjoin, hFr, fun x => ⟨?_, fun _ => ?_⟩⟩
          · rintro num p keys rr ⟨_, _, _, pos, c', e', _, a1, a2, a3, a4, _⟩
            obtain rfl : k1.length = pos := Res.ok.inj (hlp.symm.trans a1)
            obtain rfl : c = c' := Res.ok.inj (hrd.symm.trans a2)
            obtain rfl : r = e' := Res.ok.inj (er.symm.trans a3)
            exact absurd a4 hun
          · rw [lookT_any hb1 x, hA x]
    · -- a level below
      obtain ⟨h', c', g1, g2, g3⟩ := ih bm j h c m m' _ _ (by omega) hpc f.inR hfc w' (by omega)
      set n' : BNode K (Tree K (d + 1)) := ⟨n.num, n.keys, fun j => if j = k1.length then some c' else n.kids j⟩ with hn'
      have hjoin : joinAt o (d + 1) h n k (j + 1) t = .ok (h', n') := by
        rw [joinAt, hlp, Res.ok_bind, hrd, Res.ok_bind, g1, Res.ok_bind, wr_ok _ _ (by omega), Res.ok_bind]
        rfl
      have hsearch : ∀ x, (lookupPos o n x = .ok k1.length ∧ lookT o (d + 2) h' n' x = lookT o (d + 1) h' c' x ∧
          find x (content W h (ids (d + 2) n)) = find x (content W h (ids (d + 1) c))) ∨
          (lookupPos o n x ≠ .ok k1.length ∧
            lookT o (d + 2) h' n' x = .ok (if x = k then none else find x (content W h (ids (d + 2) n)))) := by
        intro x
        obtain ⟨cs', ks', hr', _, ht'⟩ := hbtt.widen (bot_le (a := lo)) (le_top (a := hi))
        obtain rfl := rep_unique hr'.kids hr.kids (by rw [hr'.len, hr.len, ← hr'.num, ← hr.num])
        obtain rfl := rep_unique hr'.keys hr.keys (by rw [← hr'.num, ← hr.num])
        obtain ⟨a1, y, a2, l1, l2, b1', m1, m1', b2', fx⟩ := exists_focus W (fun c a b hc => Bt.lt hc) ht' (inR_univ x)
        have hlx := fx.lookupPos hr hks
        have hrx := fx.rdKid hr
        have hlx' : lookupPos o n' x = .ok l1.length := hlx
        have hcont : find x (content W h (ids (d + 2) n)) = find x (content W h (ids (d + 1) y)) := by
          have ht2 := ht'
          rw [fx.hcs, fx.hks] at ht2
          rw [ids_rep hr, fx.hcs]
          exact find_tile ht2 fx.l1 fx.le fx.gt
        by_cases hl : l1.length = k1.length
        · left
          have hyc : y = c := by
            rw [hl, hrd] at hrx
            exact (Res.ok.inj hrx).symm
          subst hyc
          refine ⟨by rw [hlx, hl], lookT_step hlx' ?_, hcont⟩
          rw [hl]
          exact rd_ok (by omega) (by simp [hn'])
        · right
          have hll : l1.length ≤ o.N := by have := hr.cap; rw [fx.hks, List.length_append] at this; omega
          have hxk : x ≠ k := by
            rintro rfl
            exact hl (Res.ok.inj (hlx.symm.trans hlp))
          have hmem : y ∈ c1 ++ c2 := by
            have h1 : cs'[l1.length]? = some y := by rw [fx.hcs, ← fx.l1]; simp
            have hl1 := f.l1
            rw [f.hcs] at h1
            rcases Nat.lt_trichotomy l1.length k1.length with h2 | h2 | h2
            · rw [List.getElem?_append_left (by omega)] at h1
              exact List.mem_append_left _ (List.mem_of_getElem? h1)
            · exact absurd h2 hl
            · rw [List.getElem?_append_right (by omega), show l1.length - c1.length = (l1.length - c1.length - 1) + 1 by omega,
                List.getElem?_cons_succ] at h1
              exact List.mem_append_right _ (List.mem_of_getElem? h1)
          have hdis : ∀ i ∈ ids (d + 1) y, i < h.fresh ∧ i ∉ ids (d + 1) c := by
            intro i hi
            have hnd := w'.nodup
            have hi2 : i ∈ c1.flatMap (ids (d + 1)) ∨ i ∈ c2.flatMap (ids (d + 1)) := by
              rcases List.mem_append.1 hmem with h1 | h1
              · exact .inl (List.mem_flatMap.2 ⟨y, h1, hi⟩)
              · exact .inr (List.mem_flatMap.2 ⟨y, h1, hi⟩)
            refine ⟨w'.fresh i (by simp only [List.mem_append]; tauto), fun hic => ?_⟩
            rw [List.nodup_append, List.nodup_append] at hnd
            obtain ⟨⟨_, _, h1⟩, _, h2⟩ := hnd
            rcases hi2 with h3 | h3
            · exact h1 i (List.mem_append_right _ h3) i hic rfl
            · exact h2 i (List.mem_append_right _ hic) i (List.mem_append_left _ h3) rfl
          have hfy : ∀ i ∈ ids (d + 1) y, h'.data i = h.data i := fun i hi => g2 i (hdis i hi).2 (hdis i hi).1
          have hby : Bt W tt lm bm h' (d + 1) (occ lm bm (d + 1)) y m1 m1' := fx.pc.frame (fun _ _ _ h => h) hfy
          have hlo := lookT_any hby x
          rw [content_congr W hfy, ← hcont] at hlo
          have hky : n.kids l1.length = some y := by
            rw [hr.kids _ (by rw [fx.hcs, List.length_append, fx.l1, List.length_cons]; omega), fx.hcs, ← fx.l1]; simp
          refine ⟨fun hc => hl (Res.ok.inj (hlx.symm.trans hc)), ?_⟩
          rw [if_neg hxk, ← hlo]
          exact lookT_step hlx' (rd_ok (by omega) (by simp only [hn']; rw [if_neg hl]; exact hky))
      refine ⟨h', n', hjoin, ?_, fun x => ?_⟩
      · intro i hi hif
        refine g2 i (fun hc => hi ?_) hif
        rw [hids]; simp only [List.mem_append]; tauto
      · rcases hsearch x with ⟨s0, s1, s2⟩ | ⟨s0, s1⟩
        · rw [s1, s2]
          refine ⟨?_, fun hno => ?_⟩
          · rintro num p keys rr ⟨pos, c0, a1, a2, a3, a4⟩
            obtain rfl : k1.length = pos := Res.ok.inj (hlp.symm.trans a1)
            obtain rfl : c = c0 := Res.ok.inj (hrd.symm.trans a3)
            exact (g3 x).1 num p keys rr a4
          · exact (g3 x).2 (fun num p keys rr hs => hno num p keys rr ⟨_, c, hlp, s0, hrd, hs⟩)
        · refine ⟨?_, fun _ => s1⟩
          rintro num p keys rr ⟨pos, c0, a1, a2, a3, a4⟩
          obtain rfl : k1.length = pos := Res.ok.inj (hlp.symm.trans a1)
          exact absurd a2 s0

/-- The same for a tree object: the root is level `0`. -/
def Joins (o : Ops K V L) (s : State K L) (k : K) (j num p : Nat) (keys : Nat → Option K) (x : K) (r : Nat) : Prop :=
  match s with
  | ⟨0, _, _⟩ => False
  | ⟨d + 1, n, h⟩ => JoinSite o d h n k j num p keys x r

theorem joinErase_spec (E : EraseLaws W) (hD : DupSearch o) {q : Nat} (hN : o.N = 2 * q) (hbm2 : 2 ≤ bm) (hbm : bm ≤ q - 1)
    (hM : 2 ≤ o.M) (hlm1 : 1 ≤ lm) (hlm : lm ≤ o.M / 2) {s : State K L} {k : K}
    (hb : Bt W E.Q lm bm s.heap s.depth (rootMin 1 s.depth) s.root ⊥ ⊤) (w : Wf s.heap (ids s.depth s.root))
    (hf : ∀ id l, findLeaf o s.depth s.root k = .ok id → s.heap.data id = some l → E.pre l k) {j : Nat} (hj : j + 1 < s.depth) (t : Nat) :
    ∃ s', joinErase o s k j t = .ok s' ∧ ∀ x,
      (∀ num p keys r, Joins o s k j num p keys x r → JoinSees num p t keys x r
        (if x = k then none else find x (cont W s)) (lookup o s' x)) ∧
      ((∀ num p keys r, ¬ Joins o s k j num p keys x r) → lookup o s' x = .ok (if x = k then none else find x (cont W s))) := by
  obtain ⟨d, n, h⟩ := s
  rcases d with _ | d
  · exact absurd hj (by change ¬ (j + 1 < 0); omega)
  · obtain ⟨h', n', e, _, hx⟩ := joinAt_spec E hD hN hbm2 hbm hM hlm1 hlm k t d _ j h n ⊥ ⊤ [] [] (by change j + 1 < d + 1 at hj; omega) hb (inR_univ k) hf
      (by simpa using w) le_rfl
    refine ⟨⟨d + 1, n', h'⟩, ?_, hx⟩
    change (joinAt o d h n k j t >>= fun r => pure (⟨d + 1, r.2, r.1⟩ : State K L)) = _
    rw [e]; rfl

theorem JoinSite.facts (hD : DupSearch o) {h : Heap L} {k x : K} {num p r : Nat} {keys : Nat → Option K} :
    ∀ {d top j : Nat} {n : BNode K (Tree K d)} {lo hi : Bd K},
    Bt W tt lm bm h (d + 1) top n lo hi → JoinSite o d h n k j num p keys x r → num ≤ o.N ∧ (r < num → keys (num - 1) ≠ some x)
  | 0, _, _, _, _, _, _, hs => hs.elim
  | _ + 1, _, 0, n, _, _, hb, hs => by
    obtain ⟨rfl, rfl, hl, _⟩ := hs
    obtain ⟨κ, χ, _, hNn, hk, _, hκ, _⟩ := hb.node x
    obtain ⟨r', e, hx⟩ := lookupPos_isPos hD hNn hk hκ x
    obtain rfl : r' = r := Res.ok.inj (e.symm.trans hl)
    refine ⟨hNn, fun hr hc => ?_⟩
    rw [hk _ (by omega)] at hc
    have h1 := hx.2.2 (n.num - 1) (by omega) (by omega)
    rw [Option.some.inj hc] at h1
    exact absurd h1 (lt_irrefl _)
  | d + 1, _, j + 1, n, lo, hi, hb, hs => by
    obtain ⟨pos, c, e1, _, e3, h4⟩ := hs
    obtain ⟨cs, ks, hr, _, ht⟩ := hb.widen (bot_le (a := lo)) (le_top (a := hi))
    obtain ⟨hks, _, _⟩ := keys_sorted (fun c a b hc => Bt.lt hc) ht
    obtain ⟨c1, c', c2, k1, k2, b1, m, m', b2, f⟩ := exists_focus W (fun c a b hc => Bt.lt hc) ht (inR_univ k)
    obtain rfl : k1.length = pos := Res.ok.inj ((f.lookupPos hr hks).symm.trans e1)
    obtain rfl : c' = c := Res.ok.inj ((f.rdKid hr).symm.trans e3)
    exact JoinSite.facts hD f.pc h4

theorem Joins.facts (hD : DupSearch o) {s : State K L} {k x : K} {j num p r : Nat} {keys : Nat → Option K}
    (hb : Bt W tt lm bm s.heap s.depth (rootMin 1 s.depth) s.root ⊥ ⊤) (hs : Joins o s k j num p keys x r) :
    num ≤ o.N ∧ (r < num → keys (num - 1) ≠ some x) := by
  obtain ⟨d, n, h⟩ := s
  rcases d with _ | d
  · exact hs.elim
  · exact JoinSite.facts hD hb hs

end Verif.BTree
