import Verif.BTree.EraseLeaf

/-!
# Erase: the branch level and the whole tree
-/

set_option linter.unusedSectionVars false
set_option linter.unusedSimpArgs false

namespace Verif.BTree

open Verif Assoc
open Verif.Slots hiding none

variable {K V L T : Type} [LinearOrder K] {o : Ops K V L} {W : Laws o}
  {Q : L → Bd K → Bd K → Prop} {lm bm rm : Nat}

theorem exists_split_at {α : Type} {l : List α} {i : Nat} (h : i < l.length) :
    ∃ a x b, l = a ++ x :: b ∧ a.length = i :=
  ⟨l.take i, l[i], l.drop (i + 1), by simp, by simp; omega⟩

theorem exists_split_at' {α : Type} {l : List α} {i : Nat} (h : i ≤ l.length) :
    ∃ a b, l = a ++ b ∧ a.length = i :=
  ⟨l.take i, l.drop i, by simp, by simp; omega⟩

theorem Bt.num {h : Heap L} {d top : Nat} {n : BNode K (Tree K d)} {lo hi : Bd K}
    (hb : Bt W Q lm bm h (d + 1) top n lo hi) : top ≤ n.num ∧ n.num ≤ o.N := by
  obtain ⟨cs, ks, hr, ht, _⟩ := hb
  rw [hr.num]; exact ⟨ht, hr.cap⟩

/-- `balanceBranchNodes` with the donor on the left. -/
theorem bal_left {h : Heap L} {d tp tc : Nat} {p c : BNode K (Tree K d)} {lo hi : Bd K} {s : K}
    (hp : Bt W Q lm bm h (d + 1) tp p lo (bk s)) (hc : Bt W Q lm bm h (d + 1) tc c (bk s) hi)
    (h1 : 1 ≤ c.num) (hlt : c.num < p.num) (hbm : bm ≤ (p.num + c.num) / 2) :
    ∃ b, balanceBranch o p c s = .ok b ∧ Bt W Q lm bm h (d + 1) bm b.donor lo (bk b.key) ∧
      Bt W Q lm bm h (d + 1) bm b.receiver (bk b.key) hi ∧
      ids (d + 1) b.donor ++ ids (d + 1) b.receiver = ids (d + 1) p ++ ids (d + 1) c := by
  obtain ⟨cp, kp, rp, _, tp'⟩ := hp
  obtain ⟨cc, kc, rc, _, tc'⟩ := hc
  have np := rp.num
  have nc := rc.num
  have lp := rp.len
  have capp := rp.cap
  obtain ⟨ka, key, kb, rfl, hka⟩ := exists_split_at (l := kp) (i := (kp.length + kc.length) / 2) (by omega)
  have hkl := hka
  simp only [List.length_append, List.length_cons] at hka np lp capp
  obtain ⟨ca, cb, rfl, hca⟩ := exists_split_at' (l := cp) (i := ka.length + 1) (by omega)
  obtain ⟨_, _, s1⟩ := keys_sorted (fun c a b hc => Bt.lt hc) tp'
  obtain ⟨_, s2, _⟩ := keys_sorted (fun c a b hc => Bt.lt hc) tc'
  obtain ⟨b, eb, hk, hd, hr⟩ := balanceBranch_left o rp rc (by omega) (by simp; omega) hkl hca
    (fun k hk => bk_lt.1 (s1 k hk)) (fun k hk => bk_lt.1 (s2 k hk)) (by omega)
  rw [tile_split_key hca] at tp'
  refine ⟨b, eb, ⟨_, _, hd, by omega, by rw [hk]; exact tp'.1⟩, ⟨_, _, hr, by simp; omega, ?_⟩, ?_⟩
  · rw [hk, tile_split_key (by simp only [List.length_append] at lp; omega)]
    exact ⟨tp'.2, tc'⟩
  · rw [ids_rep hd, ids_rep hr, ids_rep rp, ids_rep rc]; simp

/-- `balanceBranchNodes` with the donor on the right. -/
theorem bal_right {h : Heap L} {d tq tc : Nat} {q c : BNode K (Tree K d)} {lo hi : Bd K} {s : K}
    (hc : Bt W Q lm bm h (d + 1) tc c lo (bk s)) (hq : Bt W Q lm bm h (d + 1) tq q (bk s) hi)
    (h1 : 1 ≤ c.num) (hlt : c.num + 1 < q.num) (hbm : bm ≤ (q.num + c.num) / 2) :
    ∃ b, balanceBranch o q c s = .ok b ∧ Bt W Q lm bm h (d + 1) bm b.receiver lo (bk b.key) ∧
      Bt W Q lm bm h (d + 1) bm b.donor (bk b.key) hi ∧
      ids (d + 1) b.receiver ++ ids (d + 1) b.donor = ids (d + 1) c ++ ids (d + 1) q := by
  obtain ⟨cq, kq, rq, _, tq'⟩ := hq
  obtain ⟨cc, kc, rc, _, tc'⟩ := hc
  have nq := rq.num
  have nc := rc.num
  have lq := rq.len
  have lc := rc.len
  have capq := rq.cap
  obtain ⟨ka, key, kb, rfl, hka⟩ := exists_split_at (l := kq)
    (i := kq.length - (kq.length + kc.length) / 2 - 1) (by omega)
  have hkl := hka
  simp only [List.length_append, List.length_cons] at hka nq lq capq
  obtain ⟨ca, cb, rfl, hca⟩ := exists_split_at' (l := cq) (i := ka.length + 1) (by omega)
  obtain ⟨_, s1, _⟩ := keys_sorted (fun c a b hc => Bt.lt hc) tq'
  obtain ⟨_, _, s2⟩ := keys_sorted (fun c a b hc => Bt.lt hc) tc'
  obtain ⟨b, eb, hk, hd, hr⟩ := balanceBranch_right o rq rc (by omega) (by simp; omega)
    (by simp only [List.length_append, List.length_cons]; omega) hca
    (fun k hk => bk_lt.1 (s1 k hk)) (fun k hk => bk_lt.1 (s2 k hk)) (by omega)
  rw [tile_split_key hca] at tq'
  refine ⟨b, eb, ⟨_, _, hr, by simp; omega, ?_⟩, ⟨_, _, hd, by omega, by rw [hk]; exact tq'.2⟩, ?_⟩
  · rw [hk, tile_split_key lc]
    exact ⟨tc', tq'.1⟩
  · rw [ids_rep hd, ids_rep hr, ids_rep rq, ids_rep rc]; simp

/-- `mergeBranchNodes`. -/
theorem mergeB {h : Heap L} {d tp tc : Nat} {p c : BNode K (Tree K d)} {lo hi : Bd K} {s : K}
    (hp : Bt W Q lm bm h (d + 1) tp p lo (bk s)) (hc : Bt W Q lm bm h (d + 1) tc c (bk s) hi)
    (h1 : 1 ≤ p.num) (h2 : 1 ≤ c.num) (hcap : p.num + c.num + 1 ≤ o.N) (hbm : bm ≤ p.num + c.num + 1) :
    ∃ m, mergeBranch o p s c = .ok m ∧ Bt W Q lm bm h (d + 1) bm m lo hi ∧
      ids (d + 1) m = ids (d + 1) p ++ ids (d + 1) c := by
  obtain ⟨cp, kp, rp, _, tp'⟩ := hp
  obtain ⟨cc, kc, rc, _, tc'⟩ := hc
  have np := rp.num
  have nc := rc.num
  have lp := rp.len
  obtain ⟨_, _, s1⟩ := keys_sorted (fun c a b hc => Bt.lt hc) tp'
  obtain ⟨_, s2, _⟩ := keys_sorted (fun c a b hc => Bt.lt hc) tc'
  obtain ⟨m, em, hm⟩ := mergeBranch_rep o rp rc (by omega) (by omega)
    (fun k hk => bk_lt.1 (s1 k hk)) (fun k hk => bk_lt.1 (s2 k hk)) (by omega)
  refine ⟨m, em, ⟨_, _, hm, by simp; omega, ?_⟩, ?_⟩
  · rw [tile_split_key lp]; exact ⟨tp', tc'⟩
  · rw [ids_rep hm, ids_rep rp, ids_rep rc]; simp

/-- `underflowAtBranchLevel` repairs a node whose child at `k1.length` has one key less than required. -/
theorem underflowBranch_spec {q : Nat} (hN : o.N = 2 * q) (hbm2 : 2 ≤ bm) (hbm : bm ≤ q - 1) {h : Heap L}
    {d : Nat} {n : BNode K (BNode K (Tree K d))} {c1 c2 : List (BNode K (Tree K d))}
    {c : BNode K (Tree K d)} {k1 k2 : List K} {b1 b2 : List (Bd K)} {lo hi m m' : Bd K}
    (hr : NodeRep o.N n (c1 ++ c :: c2) (k1 ++ k2)) (l1 : c1.length = k1.length)
    (l2 : c2.length = k2.length) (hb1 : lo :: k1.map bk = b1 ++ [m]) (hb2 : k2.map bk ++ [hi] = m' :: b2)
    (lb : b1.length = c1.length) (t1 : Tile (Bt W Q lm bm h (d + 1) bm) c1 (b1 ++ [m]))
    (pc : Bt W Q lm bm h (d + 1) (bm - 1) c m m') (t2 : Tile (Bt W Q lm bm h (d + 1) bm) c2 (m' :: b2))
    (hne : 1 ≤ k1.length + k2.length) (hun : c.num < (o.N + 1) / 2) :
    ∃ u cs ks, underflowBranch o n k1.length c = .ok u ∧ NodeRep o.N u.1 cs ks ∧
      Tile (Bt W Q lm bm h (d + 1) bm) cs (bnds lo ks hi) ∧
      cs.flatMap (ids (d + 1)) = (c1 ++ c :: c2).flatMap (ids (d + 1)) ∧
      k1.length + k2.length ≤ ks.length + 1 ∧ (ks = [] → cs = [u.2]) := by
  have hnum := hr.num
  have hcap := hr.cap
  have hlen := hr.len
  have hcn := pc.num
  simp only [List.length_append, List.length_cons] at hnum hcap hlen
  have hrdc : ∀ {x : BNode K (Tree K d)} {a b : List (BNode K (Tree K d))} {i : Nat},
      c1 ++ c :: c2 = a ++ x :: b → i = a.length → rd (o.N + 1) n.kids i = .ok x := by
    intro x a b i e hi
    have h1 := hr.kids
    rw [e] at h1
    have := congrArg List.length e
    simp only [List.length_append, List.length_cons] at this
    rw [hi]; exact rd_mid h1 (by omega)
  have hrdk : ∀ {x : K} {a b : List K} {i : Nat},
      k1 ++ k2 = a ++ x :: b → i = a.length → rd o.N n.keys i = .ok x := by
    intro x a b i e hi
    have h1 := hr.keys
    rw [e] at h1
    have := congrArg List.length e
    simp only [List.length_append, List.length_cons] at this
    rw [hi]; exact rd_mid h1 (by omega)
  unfold underflowBranch
  -- the right sibling
  have hRS : 0 < k2.length → ∃ nn, childNum o (k1.length < n.num) n (k1.length + 1) = .ok nn ∧ bm ≤ nn ∧
      ((o.N + 1) / 2 < nn → ∃ u cs ks, (do
        let sib ← rd (o.N + 1) n.kids (k1.length + 1)
        let pk ← rd o.N n.keys k1.length
        Res.assert (k1.length < n.num)
        let b ← balanceBranch o sib c pk
        let keys ← wr o.N n.keys k1.length b.key
        let kids ← wr (o.N + 1) n.kids (k1.length + 1) b.donor
        let kids ← wr (o.N + 1) kids k1.length b.receiver
        pure ((⟨n.num, keys, kids⟩ : BNode K (BNode K (Tree K d))), b.receiver)) = .ok u ∧
        NodeRep o.N u.1 cs ks ∧ Tile (Bt W Q lm bm h (d + 1) bm) cs (bnds lo ks hi) ∧
        cs.flatMap (ids (d + 1)) = (c1 ++ c :: c2).flatMap (ids (d + 1)) ∧
        k1.length + k2.length ≤ ks.length + 1 ∧ (ks = [] → cs = [u.2])) ∧
      (nn ≤ (o.N + 1) / 2 → k1.length = 0 → ∃ u cs ks, (do
        let sib ← rd (o.N + 1) n.kids (k1.length + 1)
        let pk ← rd o.N n.keys k1.length
        let m ← mergeBranch o c pk sib
        Res.guardUB (k1.length = 0)
        let kids ← wr (o.N + 1) n.kids k1.length m
        let keys ← moveDown o.N 1 k1.length (n.num - 1 - k1.length) n.keys
        let kids ← moveDown (o.N + 1) 1 1 (n.num - 1) kids
        pure ((⟨n.num - 1, keys, kids⟩ : BNode K (BNode K (Tree K d))), m)) = .ok u ∧
        NodeRep o.N u.1 cs ks ∧ Tile (Bt W Q lm bm h (d + 1) bm) cs (bnds lo ks hi) ∧
        cs.flatMap (ids (d + 1)) = (c1 ++ c :: c2).flatMap (ids (d + 1)) ∧
        k1.length + k2.length ≤ ks.length + 1 ∧ (ks = [] → cs = [u.2])) := by
    intro hpos2
    obtain ⟨x, c2', s, k2', m2, b2', rfl, rfl, hl2', hb2', hms, px, t2'⟩ := right_of l2 hb2 t2 hpos2
    have hxn := px.num
    have hrx : rd (o.N + 1) n.kids (k1.length + 1) = .ok x :=
      hrdc (a := c1 ++ [c]) (b := c2') (by simp) (by simp; omega)
    have hrs : rd o.N n.keys k1.length = .ok s := hrdk (a := k1) (b := k2') rfl rfl
    subst hms
    simp only [List.length_cons] at hnum hcap hlen hne
    refine ⟨x.num, ?_, hxn.1, fun hbal => ?_, fun hmer hk10 => ?_⟩
    · unfold childNum
      rw [if_pos (by omega), hrx]; rfl
    · obtain ⟨b, eb, hb1', hb2'', hidb⟩ := bal_right pc px (by omega) (by omega) (by omega)
      obtain ⟨keys, ek, hrk⟩ := hr.setKey b.key
      have hrk' : NodeRep o.N { n with keys := keys } (c1 ++ [c] ++ x :: c2') (k1 ++ b.key :: k2') := by
        simpa using hrk
      obtain ⟨kids, ec, hrc⟩ := hrk'.setKid b.donor
      have hrc' : NodeRep o.N { n with keys := keys, kids := kids } (c1 ++ c :: b.donor :: c2')
        (k1 ++ b.key :: k2') := by simpa using hrc
      obtain ⟨kids', ec', hrc2⟩ := hrc'.setKid b.receiver
      dsimp only at ek ec ec'
      have e1 : (c1 ++ [c]).length = k1.length + 1 := by simp; omega
      rw [e1] at ec
      rw [l1] at ec'
      rw [hrx, Res.ok_bind, hrs, Res.ok_bind, Res.assert_pos (by omega), Res.ok_bind, eb, Res.ok_bind, ek,
        Res.ok_bind, ec, Res.ok_bind, ec', Res.ok_bind]
      refine ⟨_, _, _, rfl, hrc2, ?_, ?_, by simp, by simp⟩
      · have := tile_unfocus (xs := [b.receiver, b.donor]) (ys := [b.key]) hb1 hb2' lb rfl t1
          ⟨hb1', hb2'', trivial⟩ t2'
        simpa using this
      · simp only [List.flatMap_append, List.flatMap_cons]
        rw [← List.append_assoc (ids (d + 1) b.receiver), hidb]; simp
    · obtain ⟨mm, em, hbm', hidm⟩ := mergeB pc px (by omega) (by omega) (by omega) (by omega)
      obtain ⟨kids, ec, hrc⟩ := hr.setKid mm
      obtain ⟨keys, kids', ek, ec', hrd⟩ := dropEntry_rep hrc l1
      dsimp only at ek ec ec'
      rw [l1] at ec
      have e2 : k1.length + 1 = 1 := by omega
      have e3 : n.num - 1 - k1.length = n.num - 1 := by omega
      rw [e2, e3] at ec'
      rw [hrx, Res.ok_bind, hrs, Res.ok_bind, em, Res.ok_bind, Res.guardUB_pos hk10, Res.ok_bind, ec,
        Res.ok_bind, ek, Res.ok_bind, ec', Res.ok_bind]
      refine ⟨_, _, _, rfl, hrd, ?_, ?_, by simp; omega, ?_⟩
      · have := tile_unfocus (xs := [mm]) (ys := []) hb1 hb2' lb rfl t1 ⟨hbm', trivial⟩ t2'
        simpa using this
      · simp [List.flatMap_append, List.flatMap_cons, hidm]
      · intro hk
        obtain ⟨hk1, hk2⟩ := List.append_eq_nil_iff.1 hk
        subst hk1; subst hk2
        have hc1 : c1 = [] := List.length_eq_zero_iff.1 l1
        have hc2 : c2' = [] := List.length_eq_zero_iff.1 hl2'
        subst hc1; subst hc2; rfl
  have hRN : k2.length = 0 → childNum o (k1.length < n.num) n (k1.length + 1) = .ok 0 := by
    intro hk; unfold childNum; rw [if_neg (by omega)]
  by_cases hpos : 0 < k1.length
  · obtain ⟨c1', p, k1', s, b1', m0, rfl, rfl, hl1', hb1', hlb', hms, t1', pp⟩ := left_of l1 hb1 lb t1 hpos
    have hpn := pp.num
    subst hms
    have e0 : (k1' ++ [s]).length - 1 = k1'.length := by simp
    have hrp : rd (o.N + 1) n.kids ((k1' ++ [s]).length - 1) = .ok p :=
      hrdc (a := c1') (b := c :: c2) (by simp) (by clear hRS; simp; omega)
    have hrs : rd o.N n.keys ((k1' ++ [s]).length - 1) = .ok s :=
      hrdk (a := k1') (b := k2) (by simp) (by simp)
    have hcn1 : childNum o ((k1' ++ [s]).length > 0) n ((k1' ++ [s]).length - 1) = .ok p.num := by
      unfold childNum
      rw [if_pos hpos, hrp]; rfl
    rw [hcn1, Res.ok_bind]
    have hr2 : NodeRep o.N n (c1' ++ p :: c :: c2) (k1' ++ s :: k2) := by simpa using hr
    have hnum' := hnum
    simp only [List.length_append, List.length_singleton] at hnum hcap hlen hne
    by_cases hbal : (o.N + 1) / 2 < p.num
    · rw [if_pos ⟨hpos, hbal⟩]
      obtain ⟨b, eb, hbd, hbr, hidb⟩ := bal_left pp pc (by clear hRS; omega) (by clear hRS; omega) (by clear hRS; omega)
      obtain ⟨keys, ek, hrk⟩ := hr2.setKey b.key
      obtain ⟨kids, ec, hrc⟩ := hrk.setKid b.donor
      have hrc' : NodeRep o.N { n with keys := keys, kids := kids } (c1' ++ [b.donor] ++ c :: c2)
        (k1' ++ b.key :: k2) := by simpa using hrc
      obtain ⟨kids', ec', hrc2⟩ := hrc'.setKid b.receiver
      dsimp only at ek ec ec'
      have e1 : (c1' ++ [b.donor]).length = (k1' ++ [s]).length := by clear hRS; simp; omega
      rw [e1] at ec'
      rw [hl1'] at ec
      rw [hrp, Res.ok_bind, hrs, Res.ok_bind, Res.assert_pos (by clear hRS; simp; omega), Res.ok_bind, eb, Res.ok_bind]
      rw [e0, ek, Res.ok_bind, ec, Res.ok_bind, ec', Res.ok_bind]
      refine ⟨_, _, _, rfl, hrc2, ?_, ?_, by clear hRS; simp; omega, by simp⟩
      · have := tile_unfocus (xs := [b.donor, b.receiver]) (ys := [b.key]) hb1' hb2 hlb' rfl t1'
          ⟨hbd, hbr, trivial⟩ t2
        simpa using this
      · simp only [List.flatMap_append, List.flatMap_cons, List.append_assoc, List.flatMap_nil, List.nil_append]
        rw [← List.append_assoc (ids (d + 1) b.donor), hidb]; simp
    · rw [if_neg (fun hc => hbal hc.2)]
      have hML : ∃ u cs ks, (do
          let sib ← rd (o.N + 1) n.kids ((k1' ++ [s]).length - 1)
          let pk ← rd o.N n.keys ((k1' ++ [s]).length - 1)
          let m ← mergeBranch o sib pk c
          let kids ← wr (o.N + 1) n.kids ((k1' ++ [s]).length - 1) m
          let keys ← moveDown o.N 1 ((k1' ++ [s]).length - 1) (n.num - 1 - ((k1' ++ [s]).length - 1)) n.keys
          let kids ← moveDown (o.N + 1) 1 (k1' ++ [s]).length (n.num - (k1' ++ [s]).length) kids
          pure ((⟨n.num - 1, keys, kids⟩ : BNode K (BNode K (Tree K d))), m)) = .ok u ∧
          NodeRep o.N u.1 cs ks ∧ Tile (Bt W Q lm bm h (d + 1) bm) cs (bnds lo ks hi) ∧
          cs.flatMap (ids (d + 1)) = (c1' ++ [p] ++ c :: c2).flatMap (ids (d + 1)) ∧
          (k1' ++ [s]).length + k2.length ≤ ks.length + 1 ∧ (ks = [] → cs = [u.2]) := by
        obtain ⟨mm, em, hbm', hidm⟩ := mergeB pp pc (by clear hRS; omega) (by clear hRS; omega) (by clear hRS; omega) (by clear hRS; omega)
        obtain ⟨kids, ec, hrc⟩ := hr2.setKid mm
        obtain ⟨keys, kids', ek, ec', hrd⟩ := dropEntry_rep hrc hl1'
        dsimp only at ek ec ec'
        rw [hl1'] at ec
        have e2 : (k1' ++ [s]).length = k1'.length + 1 := by simp
        have e3 : n.num - (k1'.length + 1) = n.num - 1 - k1'.length := by clear hRS; omega
        rw [hrp, Res.ok_bind, hrs, Res.ok_bind, em, Res.ok_bind]
        rw [e0, e2, e3, ec, Res.ok_bind, ek, Res.ok_bind, ec', Res.ok_bind]
        refine ⟨_, _, _, rfl, hrd, ?_, ?_, by clear hRS; simp; omega, ?_⟩
        · have := tile_unfocus (xs := [mm]) (ys := []) hb1' hb2 hlb' rfl t1' ⟨hbm', trivial⟩ t2
          simpa using this
        · simp [List.flatMap_append, List.flatMap_cons, hidm]
        · intro hk
          obtain ⟨hk1, hk2⟩ := List.append_eq_nil_iff.1 hk
          subst hk1; subst hk2
          have hc1 : c1' = [] := List.length_eq_zero_iff.1 hl1'
          have hc2 : c2 = [] := List.length_eq_zero_iff.1 l2
          subst hc1; subst hc2; rfl
      by_cases hpos2 : 0 < k2.length
      · obtain ⟨nn, en, hnn, hq1, hq2⟩ := hRS hpos2
        rw [en, Res.ok_bind]
        by_cases hbq : (o.N + 1) / 2 < nn
        · rw [if_pos ⟨by clear hRS hq1 hq2 hML; simp; omega, hbq⟩]
          exact hq1 hbq
        · rw [if_neg (fun hc => hbq hc.2), if_pos (by clear hRS hq1 hq2 hML; omega)]
          exact hML
      · rw [hRN (by clear hRS; omega), Res.ok_bind, if_neg (fun hc => by have := hc.1; clear hRS hML; simp at this; omega),
          if_pos (by clear hRS; omega)]
        exact hML
  · have hcn1 : childNum o (k1.length > 0) n (k1.length - 1) = .ok 0 := by
      unfold childNum
      rw [if_neg hpos]
    obtain ⟨nn, en, hnn, hq1, hq2⟩ := hRS (by clear hRS; omega)
    rw [hcn1, Res.ok_bind, if_neg (fun hc => hpos hc.1), en, Res.ok_bind]
    by_cases hbq : (o.N + 1) / 2 < nn
    · rw [if_pos ⟨by clear hRS; omega, hbq⟩]
      exact hq1 hbq
    · rw [if_neg (fun hc => hbq hc.2), if_neg (by clear hRS; omega), if_pos (by clear hRS; omega)]
      exact hq2 (by clear hRS; omega) (by clear hRS; omega)

theorem eraseB_spec (E : EraseLaws W) {q : Nat} (hN : o.N = 2 * q) (hbm2 : 2 ≤ bm) (hbm : bm ≤ q - 1)
    (hM : 2 ≤ o.M) (hlm1 : 1 ≤ lm) (hlm : lm ≤ o.M / 2) (k : K) : ∀ (d top : Nat) (isRoot : Bool) (h : Heap L)
    (n : BNode K (Tree K d)) (lo hi : Bd K) (pre post : List Nat),
    Bt W E.Q lm bm h (d + 1) top n lo hi → InR lo hi k →
    (∀ id l, findLeaf o (d + 1) n k = .ok id → h.data id = some l → E.pre l k) → Wf h (pre ++ ids (d + 1) n ++ post) →
    1 ≤ top → (isRoot = false → 2 ≤ top) →
    ∃ r, eraseB o d isRoot h n k = .ok r ∧ r.deleted = (find k (content W h (ids (d + 1) n))).isSome ∧ Frame h r.heap (ids (d + 1) n) ∧
      h.fresh ≤ r.heap.fresh ∧
      ErPost W lm bm pre post (ids (d + 1) n).head? d top isRoot lo hi (remove k (content W h (ids (d + 1) n))) r := by
  intro d
  induction d with
  | zero =>
    intro top isRoot h n lo hi pre post hb hk hf w ht1 ht2
    rw [eraseB]
    exact eraseB0_spec E hM hlm1 hlm hb hk hf w ht1 ht2
  | succ d ih =>
    intro top isRoot h n lo hi pre post hb hk hf w ht1 ht2
    obtain ⟨cs, ks, hr, htop, ht⟩ := hb
    obtain ⟨hks, _, _⟩ := keys_sorted (fun c a b hc => Bt.lt hc) ht
    obtain ⟨c1, c, c2, k1, k2, b1, m, m', b2, f⟩ := exists_focus W (fun c a b hc => Bt.lt hc) ht hk
    have hids : ids (d + 2) n = c1.flatMap (ids (d + 1)) ++ ids (d + 1) c ++ c2.flatMap (ids (d + 1)) := by
      rw [ids_rep hr, f.hcs]; simp
    have hne1 : ∀ e ∈ content W h (c1.flatMap (ids (d + 1))), e.1 ≠ k := fun e he heq => by
      have := lt_of_lt_of_le (f.left_lt e he) f.inR.1
      rw [heq] at this; exact absurd this (lt_irrefl _)
    have hne2 : ∀ e ∈ content W h (c2.flatMap (ids (d + 1))), e.1 ≠ k := fun e he heq => by
      have := lt_of_lt_of_le f.inR.2 (f.right_ge e he)
      rw [heq] at this; exact absurd this (lt_irrefl _)
    rw [hids] at w ⊢
    have hrem : remove k (content W h (c1.flatMap (ids (d + 1)) ++ ids (d + 1) c ++ c2.flatMap (ids (d + 1)))) =
        content W h (c1.flatMap (ids (d + 1))) ++ remove k (content W h (ids (d + 1) c)) ++
          content W h (c2.flatMap (ids (d + 1))) := by
      rw [content_append, content_append, remove_append, remove_append, remove_eq_self hne1,
        remove_eq_self hne2]
    rw [hrem]
    have hfind : find k (content W h (c1.flatMap (ids (d + 1)) ++ ids (d + 1) c ++ c2.flatMap (ids (d + 1)))) =
        find k (content W h (ids (d + 1) c)) := by
      rw [content_append, content_append, find_append_left hne2, find_append_right hne1]
    rw [hfind]
    replace hf : ∀ id l, findLeaf o (d + 1) c k = .ok id → h.data id = some l → E.pre l k := fun id l hfl hl =>
      hf id l (by rw [findLeaf, f.lookupPos hr hks, Res.ok_bind, f.rdKid hr, Res.ok_bind]; exact hfl) hl
    have hnd := mem_disjoint w.nodup
    have hocc : occ lm bm (d + 1) = bm := rfl
    have hpc := f.pc
    have ht1' := f.t1
    have ht2' := f.t2
    rw [hocc] at hpc ht1' ht2'
    obtain ⟨r, er, hdel, hframe, hfresh, hpost⟩ := ih bm false h c m m' (pre ++ c1.flatMap (ids (d + 1)))
      (c2.flatMap (ids (d + 1)) ++ post) hpc f.inR hf (by simpa using w) (by omega) (fun _ => by omega)
    have hfr1 : ∀ i ∈ c1.flatMap (ids (d + 1)), r.heap.data i = h.data i := fun i hi =>
      hframe i (hnd.1 i hi) (w.fresh i (by simp only [List.mem_append]; tauto))
    have hfr2 : ∀ i ∈ c2.flatMap (ids (d + 1)), r.heap.data i = h.data i := fun i hi =>
      hframe i (hnd.2.1 i hi) (w.fresh i (by simp only [List.mem_append]; tauto))
    have ht1f := Tile.frame (Q' := tt) (h' := r.heap) (fun _ _ _ _ => trivial) hfr1 ht1'
    have ht2f := Tile.frame (Q' := tt) (h' := r.heap) (fun _ _ _ _ => trivial) hfr2 ht2'
    have hFr : Frame h r.heap (c1.flatMap (ids (d + 1)) ++ ids (d + 1) c ++ c2.flatMap (ids (d + 1))) :=
      fun i hi hif => hframe i (fun hc => hi (by simp only [List.mem_append]; tauto)) hif
    unfold ErPost at hpost
    cases hnr : r.newRoot with
    | some t => rw [hnr] at hpost; exact absurd hpost.1 (by simp)
    | none =>
      rw [hnr] at hpost
      obtain ⟨hbt, _, hwf, hct, hhd⟩ := hpost
      have hr' := hr
      rw [f.hcs, f.hks] at hr'
      obtain ⟨kids, ek, hrk⟩ := hr'.setKid r.node
      rw [f.l1] at ek
      have hks' := hks
      rw [f.hks] at hks'
      have hlp2 : lookupPos o ({ n with kids := kids } : BNode K (Tree K (d + 1))) k = .ok k1.length :=
        lookupPos_of W hrk hks' f.le f.gt
      rw [eraseB, f.lookupPos hr hks, Res.ok_bind, f.rdKid hr, Res.ok_bind, er, Res.ok_bind,
        Res.guardUB_pos (by simp [hnr]), Res.ok_bind, ek, Res.ok_bind]
      dsimp only
      rw [hlp2, Res.ok_bind]
      have htop' : top ≤ k1.length + k2.length := by rw [f.hks] at htop; simpa using htop
      have hcont : ∀ is, is = c1.flatMap (ids (d + 1)) ++ ids (d + 1) r.node ++ c2.flatMap (ids (d + 1)) →
          Wf r.heap (pre ++ is ++ post) ∧ content W r.heap is = content W h (c1.flatMap (ids (d + 1))) ++
            remove k (content W h (ids (d + 1) c)) ++ content W h (c2.flatMap (ids (d + 1))) ∧
          is.head? = (c1.flatMap (ids (d + 1)) ++ ids (d + 1) c ++ c2.flatMap (ids (d + 1))).head? := by
        rintro is rfl
        refine ⟨by simpa using hwf, ?_, by simp only [List.head?_append, hhd]⟩
        rw [content_append, content_append, hct, content_congr W hfr1, content_congr W hfr2]
      by_cases hun : r.node.num < (o.N + 1) / 2
      · rw [if_pos hun]
        obtain ⟨u, cs', ks', eu, hru, htu, hidu, hlu, hnil⟩ := underflowBranch_spec hN hbm2 hbm hrk f.l1 f.l2
          f.hb1 f.hb2 f.lb ht1f hbt ht2f (by omega) hun
        rw [eu, Res.ok_bind]
        obtain ⟨hw, hc, hh⟩ := hcont (cs'.flatMap (ids (d + 1))) (by rw [hidu]; simp)
        by_cases hz : isRoot = true ∧ u.1.num = 0
        · rw [if_pos hz]
          refine ⟨_, rfl, hdel, hFr, hfresh, hz.1, ?_⟩
          have hk0 : ks' = [] := List.length_eq_zero_iff.1 (by rw [← hru.num]; exact hz.2)
          have hcs' := hnil hk0
          subst hk0; subst hcs'
          simp only [List.flatMap_cons, List.flatMap_nil, List.append_nil] at hw hc hh
          exact ⟨(show Bt W tt lm bm r.heap (d + 1) bm u.2 lo hi from htu.1).top_le (by simp [rootMin]; omega),
            hw, hc, hh⟩
        · rw [if_neg hz]
          refine ⟨_, rfl, hdel, hFr, hfresh, ⟨cs', ks', hru, by omega, htu⟩, ?_, ?_, ?_, ?_⟩
          · intro hroot
            simp only
            by_contra hcon
            exact hz ⟨hroot, by omega⟩
          · simp only; rw [ids_rep hru]; exact hw
          · simp only; rw [ids_rep hru]; exact hc
          · simp only; rw [ids_rep hru]; exact hh
      · rw [if_neg hun]
        have hidn : ids (d + 2) ({ n with kids := kids } : BNode K (Tree K (d + 1))) =
            c1.flatMap (ids (d + 1)) ++ ids (d + 1) r.node ++ c2.flatMap (ids (d + 1)) := by
          rw [ids_rep hrk]; simp
        obtain ⟨hw, hc, hh⟩ := hcont _ hidn
        have hbt' : Bt W tt lm bm r.heap (d + 1) bm r.node m m' := by
          obtain ⟨cs0, ks0, h1, h2, h3⟩ := hbt
          exact ⟨cs0, ks0, h1, by rw [← h1.num]; omega, h3⟩
        refine ⟨_, rfl, hdel, hFr, hfresh, ⟨_, _, hrk, by simp; omega, ?_⟩, ?_, hw, hc, hh⟩
        · have := tile_unfocus (xs := [r.node]) (ys := []) f.hb1 f.hb2 f.lb rfl ht1f ⟨hbt', trivial⟩ ht2f
          simpa [occ] using this
        · intro _
          show 1 ≤ n.num
          rw [hr.num, f.hks]; simp; omega

/-- Erasing a key; the leaves have at least `lm` entries and the branch nodes below the root at least `bm` separators. -/
theorem erase_good_fill (E : EraseLaws W) {q : Nat} (hN : o.N = 2 * q) (hbm2 : 2 ≤ bm) (hbm : bm ≤ q - 1) (hM : 2 ≤ o.M)
    (hlm1 : 1 ≤ lm) (hlm : lm ≤ o.M / 2)
    {s : State K L} (g : Good W lm bm 1 s)
    (hQ : Bt W E.Q lm bm s.heap s.depth (rootMin 1 s.depth) s.root ⊥ ⊤) (k : K)
    (hf : ∀ id l, findLeaf o s.depth s.root k = .ok id → s.heap.data id = some l → E.pre l k) :
    ∃ s', erase o s k = .ok ((find k (cont W s)).isSome, s') ∧ Good W lm bm 1 s' ∧
      cont W s' = remove k (cont W s) ∧ (ids s'.depth s'.root).head? = (ids s.depth s.root).head? := by
  obtain ⟨d, t, h⟩ := s
  unfold erase
  cases d with
  | zero =>
    obtain ⟨hlt, l, hl, hok, _, hbd, hq'⟩ := hQ
    dsimp only at hl
    have hc : cont W (⟨0, t, h⟩ : State K L) = W.abs l := by
      simp [cont, ids, content, ent, hl]
    replace hf := hf t l rfl hl
    rw [hc]
    obtain ⟨l', el, hok', habs, _⟩ := E.erase l k ⊥ ⊤ hok hbd hq' hf
    have hgc : h.get t = .ok l := by rw [Heap.get, hl]; rfl
    have hd : (h.set t l').data t = some l' := by simp [Heap.set, upd]
    simp only [eraseT, eraseLeaf]
    rw [hgc, Res.ok_bind, el, Res.ok_bind]
    refine ⟨_, rfl, ⟨⟨hlt, l', hd, hok', by simp [rootMin], fun e he => ?_, trivial⟩, ?_⟩, ?_, rfl⟩
    · rw [habs] at he; exact hbd e (mem_remove he).1
    · have := (show Wf h (ids (K := K) 0 t) from g.wf).set t l'
      exact this
    · simp [cont, ids, content, ent, hd, habs]
  | succ d =>
    simp only at hQ
    have hw : Wf h ([] ++ ids (d + 1) t ++ []) := by simpa using g.wf
    obtain ⟨r, er, hdel, _, _, hpost⟩ := eraseB_spec E hN hbm2 hbm hM hlm1 hlm k d 1 true h t ⊥ ⊤ [] []
      hQ (inR_univ k) hf hw le_rfl (by simp)
    simp only [eraseT]
    rw [er, Res.ok_bind]
    unfold ErPost at hpost
    cases hnr : r.newRoot with
    | none =>
      rw [hnr] at hpost
      obtain ⟨h1, h2, h3, h4, h5⟩ := hpost
      dsimp only
      refine ⟨⟨d + 1, r.node, r.heap⟩, by rw [hdel]; rfl, ⟨?_, by simpa using h3⟩, h4, h5⟩
      obtain ⟨cs, ks, hr, _, ht⟩ := h1
      exact ⟨cs, ks, hr, by simp only [rootMin]; rw [← hr.num]; exact h2 rfl, ht⟩
    | some t' =>
      rw [hnr] at hpost
      obtain ⟨_, h2, h3, h4, h5⟩ := hpost
      dsimp only
      exact ⟨⟨d, t', r.heap⟩, by rw [hdel]; rfl, ⟨h2, by simpa using h3⟩, h4, h5⟩

/-- Erasing a key. -/
theorem erase_good_head (E : EraseLaws W) {q : Nat} (hN : o.N = 2 * q) (hq : 3 ≤ q) (hM : 2 ≤ o.M)
    {s : State K L} (g : Good W (o.M / 2) (q - 1) 1 s)
    (hQ : Bt W E.Q (o.M / 2) (q - 1) s.heap s.depth (rootMin 1 s.depth) s.root ⊥ ⊤) (k : K)
    (hf : ∀ id l, findLeaf o s.depth s.root k = .ok id → s.heap.data id = some l → E.pre l k) :
    ∃ s', erase o s k = .ok ((find k (cont W s)).isSome, s') ∧ Good W (o.M / 2) (q - 1) 1 s' ∧
      cont W s' = remove k (cont W s) ∧ (ids s'.depth s'.root).head? = (ids s.depth s.root).head? :=
  erase_good_fill E hN (by omega) le_rfl hM (by omega) le_rfl g hQ k hf

theorem erase_good (E : EraseLaws W) {q : Nat} (hN : o.N = 2 * q) (hq : 3 ≤ q) (hM : 2 ≤ o.M)
    {s : State K L} (g : Good W (o.M / 2) (q - 1) 1 s)
    (hQ : Bt W E.Q (o.M / 2) (q - 1) s.heap s.depth (rootMin 1 s.depth) s.root ⊥ ⊤) (k : K)
    (hf : ∀ id l, findLeaf o s.depth s.root k = .ok id → s.heap.data id = some l → E.pre l k) :
    ∃ s', erase o s k = .ok ((find k (cont W s)).isSome, s') ∧ Good W (o.M / 2) (q - 1) 1 s' ∧
      cont W s' = remove k (cont W s) := by
  obtain ⟨s', e, g', hc, _⟩ := erase_good_head E hN hq hM g hQ k hf
  exact ⟨s', e, g', hc⟩

end Verif.BTree
