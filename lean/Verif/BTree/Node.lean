import Verif.BTree.Model

/-!
# Branch nodes as pairs of lists

The operations on the arrays of a branch node, described as operations on the list of children and the
list of keys.
-/

set_option linter.unusedSectionVars false

namespace Verif.BTree

open Verif Slots

variable {K V L α : Type}

/-- Node `n` holds the children `cs` separated by the keys `ks`. -/
structure NodeRep (N : Nat) (n : BNode K α) (cs : List α) (ks : List K) : Prop where
  num : n.num = ks.length
  len : cs.length = ks.length + 1
  cap : ks.length ≤ N
  keys : Rep n.keys ks
  kids : Rep n.kids cs

/-- `Rep` determines the list given its length. -/
theorem rep_unique {a : Slots α} {l m : List α} (h1 : Rep a l) (h2 : Rep a m)
    (hl : l.length = m.length) : l = m := by
  apply List.ext_getElem? ; intro i
  by_cases h : i < l.length
  · rw [← h1 i h, ← h2 i (by omega)]
  · rw [List.getElem?_eq_none (by omega), List.getElem?_eq_none (by omega)]

theorem rep_mid {a : Slots α} {l r : List α} {x : α} (h : Rep a (l ++ x :: r)) : a l.length = some x := by
  rw [h _ (by simp)]; simp

theorem rd_mid {cap : Nat} {a : Slots α} {l r : List α} {x : α} (h : Rep a (l ++ x :: r))
    (hc : l.length < cap) : rd cap a l.length = .ok x := rd_ok hc (rep_mid h)

section
variable [LinearOrder K] (o : Ops K V L)

theorem NodeRep.setKid {N : Nat} {n : BNode K α} {c1 c2 : List α} {c : α} {ks : List K} (x : α)
    (h : NodeRep N n (c1 ++ c :: c2) ks) :
    ∃ kids, wr (N + 1) n.kids c1.length x = .ok kids ∧
      NodeRep N { n with kids := kids } (c1 ++ x :: c2) ks := by
  have hl := h.len
  have hc := h.cap
  simp only [List.length_append, List.length_cons] at hl
  refine ⟨_, wr_ok _ _ (by omega), h.num, ?_, h.cap, h.keys, h.kids.wr_set x⟩
  simp only [List.length_append, List.length_cons]; omega

theorem NodeRep.setKey {N : Nat} {n : BNode K α} {k1 k2 : List K} {k : K} {cs : List α} (x : K)
    (h : NodeRep N n cs (k1 ++ k :: k2)) :
    ∃ keys, wr N n.keys k1.length x = .ok keys ∧
      NodeRep N { n with keys := keys } cs (k1 ++ x :: k2) := by
  have hl := h.len
  have hc := h.cap
  have hn := h.num
  simp only [List.length_append, List.length_cons] at hl hc hn
  refine ⟨_, wr_ok _ _ (by omega), ?_, ?_, ?_, h.keys.wr_set x, h.kids⟩ <;>
    simp only [List.length_append, List.length_cons] <;> omega

theorem newRoot_rep (hN : 1 ≤ o.N) (l : α) (key : K) (r : α) :
    ∃ n, newRoot o l key r = .ok n ∧ NodeRep o.N n [l, r] [key] := by
  unfold newRoot
  rw [wr_ok _ _ (by omega), Res.ok_bind, wr_ok _ _ (by omega), Res.ok_bind, wr_ok _ _ (by omega),
    Res.ok_bind]
  refine ⟨_, rfl, rfl, rfl, by simpa using hN, ?_, ?_⟩
  · exact (Rep.nil (Slots.none : Slots K)).wr_push key
  · exact ((Rep.nil (Slots.none : Slots α)).wr_push l).wr_push r

theorem addEntry_rep {n : BNode K α} {c1 c2 : List α} {c : α} {k1 k2 : List K} (s : K) (l r : α)
    (h : NodeRep o.N n (c1 ++ c :: c2) (k1 ++ k2)) (h1 : c1.length = k1.length)
    (hc : k1.length + k2.length < o.N) :
    ∃ n', addEntry o n k1.length s l r = .ok n' ∧
      NodeRep o.N n' (c1 ++ l :: r :: c2) (k1 ++ s :: k2) := by
  have hl := h.len
  have hn := h.num
  simp only [List.length_append, List.length_cons] at hl hn
  have hkids := h.kids
  unfold addEntry makeRoom
  by_cases hp : k1.length < n.num
  · rw [if_pos hp]
    -- the kids: move up behind `c`
    have hlast : ∃ x c2', c :: c2 = c2' ++ [x] := by
      rcases List.eq_nil_or_concat (c :: c2) with h | ⟨c2', x, h⟩
      · simp at h
      · exact ⟨x, c2', by simpa using h⟩
    obtain ⟨x, c2', hx⟩ := hlast
    have hxl : c2'.length = c2.length := by
      have := congrArg List.length hx; simp at this; omega
    have hkids' : Rep n.kids ((c1 ++ c2') ++ x :: []) := by rw [List.append_assoc, ← hx]; exact hkids
    have e1 : (c1 ++ c2').length = n.num := by simp; omega
    have hrd : rd (o.N + 1) n.kids n.num = .ok x := by
      rw [← e1]; exact rd_mid hkids' (by simp; omega)
    -- use the closed form
    have hins := insert_rep (cap := o.N + 1) (a := n.kids) (l := c1) (r := c :: c2) l hkids
      (by simp only [List.length_cons]; omega)
    obtain ⟨a', ea, ha'⟩ := hins
    have e2 : c1.length + (c :: c2).length = n.num + 1 := by simp only [List.length_cons]; omega
    rw [e2, h1, moveUp, if_pos (by omega), hrd, Res.ok_bind] at ea
    obtain ⟨b, eb, eb'⟩ : ∃ b, (do let a ← wr (o.N + 1) n.kids (n.num + 1) x
                                   moveUp (o.N + 1) k1.length 1 n.num a) = Res.ok b ∧
        wr (o.N + 1) b k1.length l = .ok a' := by
      exact Res.bind_eq_ok.1 ea
    rw [wr_ok _ _ (by omega), Res.ok_bind] at eb
    have hk := insert_rep (cap := o.N) (a := n.keys) (l := k1) (r := k2) s h.keys (by omega)
    obtain ⟨ak, ek, hak⟩ := hk
    rw [← hn] at ek
    obtain ⟨bk, ebk, ebk'⟩ := Res.bind_eq_ok.1 ek
    rw [hrd, Res.ok_bind, wr_ok _ _ (by omega), Res.ok_bind, eb, Res.ok_bind, ebk, Res.ok_bind,
      Res.pure_eq, Res.ok_bind]
    simp only []
    rw [ebk', Res.ok_bind, eb', Res.ok_bind, wr_ok _ _ (by omega), Res.ok_bind]
    refine ⟨_, rfl, ?_, ?_, ?_, hak, ?_⟩
    · simp only [List.length_append, List.length_cons]; omega
    · simp only [List.length_append, List.length_cons]; omega
    · simp only [List.length_append, List.length_cons]; omega
    · have := Rep.wr_set (l := c1 ++ [l]) (r := c2) (y := c) r (by simpa using ha')
      simpa [h1] using this
  · rw [if_neg hp, Res.ok_bind]
    have hk2 : k2 = [] := List.length_eq_zero_iff.1 (by omega)
    subst hk2
    have hc2 : c2 = [] := List.length_eq_zero_iff.1 (by simp at hl; omega)
    subst hc2
    rw [wr_ok _ _ (by simp at hc; omega), Res.ok_bind, wr_ok _ _ (by simp at hc; omega), Res.ok_bind,
      wr_ok _ _ (by simp at hc; omega), Res.ok_bind]
    refine ⟨_, rfl, ?_, ?_, ?_, ?_, ?_⟩
    · simp only [List.length_append, List.length_cons]; omega
    · simp only [List.length_append, List.length_cons]; omega
    · simp only [List.length_append, List.length_cons]; omega
    · have := Rep.wr_push s h.keys
      simpa using this
    · have h3 := Rep.wr_set l hkids
      have h4 := Rep.wr_push r h3
      simpa [h1] using h4

theorem splitBranch_rep {n : BNode K α} {cs : List α} {ks : List K} (s : K)
    (h : NodeRep o.N n cs ks) (hf : ks.length = o.N) {kl kr : List K} {key : K} {cl cr : List α}
    (hks : ks = kl ++ key :: kr) (hcs : cs = cl ++ cr) (hcl : cl.length = kl.length + 1)
    {km : K} (hm : ks[(o.N + 1) / 2]? = some km)
    (hkl : kl.length + 1 = if km < s then (o.N + 1) / 2 + 1 else (o.N + 1) / 2) :
    ∃ sp, splitBranch o n s = .ok sp ∧ sp.key = key ∧ NodeRep o.N sp.left cl kl ∧
      NodeRep o.N sp.right cr kr := by
  have hl := h.len
  have hn := h.num
  have hkeys := h.keys
  have hkids := h.kids
  have hlt : (o.N + 1) / 2 < ks.length := by
    by_contra hc
    rw [List.getElem?_eq_none (by omega)] at hm; simp at hm
  subst hks; subst hcs
  simp only [List.length_append, List.length_cons] at hl hn hf hlt
  unfold splitBranch
  rw [rd_ok (by omega) (by rw [hkeys _ (by simp; omega)]; exact hm), Res.ok_bind, ← hkl]
  have e1 : n.num - (kl.length + 1) = kr.length := by omega
  dsimp only
  rw [e1]
  obtain ⟨k', ek, hk'⟩ := copy_rep (cap := o.N) (a := n.keys) (b := Slots.none) (x := kl ++ [key])
    (y := kr) (z := []) (l := []) (by simpa using hkeys) (Rep.nil _) (by simp; omega) (by simp; omega)
  simp only [List.length_append, List.length_cons, List.length_nil] at ek
  rw [ek, Res.ok_bind]
  obtain ⟨x, c', hx⟩ : ∃ x c', cr = c' ++ [x] := by
    rcases List.eq_nil_or_concat cr with h | ⟨c', x, h⟩
    · subst h; simp at hl; omega
    · exact ⟨x, c', by simpa using h⟩
  subst hx
  simp only [List.length_append, List.length_cons, List.length_nil] at hl
  have e2 : c'.length = kr.length := by omega
  obtain ⟨d', ed, hd'⟩ := copy_rep (cap := o.N + 1) (a := n.kids) (b := Slots.none) (x := cl)
    (y := c') (z := [x]) (l := []) (by simpa using hkids) (Rep.nil _) (by omega) (by simp; omega)
  simp only [List.length_nil] at ed
  rw [hcl, e2] at ed
  rw [ed, Res.ok_bind]
  have e3 : (cl ++ c').length = n.num := by simp; omega
  have hrd : rd (o.N + 1) n.kids n.num = .ok x := by
    rw [← e3]; exact rd_mid (r := []) (by simpa using hkids) (by omega)
  have hkk : rd o.N n.keys (kl.length + 1 - 1) = .ok key := by
    rw [Nat.add_sub_cancel]; exact rd_mid hkeys (by omega)
  rw [hrd, Res.ok_bind, wr_ok _ _ (by omega), Res.ok_bind, hkk, Res.ok_bind]
  refine ⟨_, rfl, rfl, ⟨by simp, hcl, by omega, hkeys.prefix, hkids.prefix⟩,
    ⟨by simp, by simp; omega, by omega, by simpa using hk', ?_⟩⟩
  have := Rep.wr_push x hd'
  simpa [e2] using this

theorem dropEntry_rep {N : Nat} {n : BNode K α} {c1 c2 : List α} {a b : α} {k1 k2 : List K} {s : K}
    (h : NodeRep N n (c1 ++ a :: b :: c2) (k1 ++ s :: k2)) (h1 : c1.length = k1.length) :
    ∃ keys kids, moveDown N 1 k1.length (n.num - 1 - k1.length) n.keys = .ok keys ∧
      moveDown (N + 1) 1 (k1.length + 1) (n.num - 1 - k1.length) n.kids = .ok kids ∧
      NodeRep N ⟨n.num - 1, keys, kids⟩ (c1 ++ a :: c2) (k1 ++ k2) := by
  have hl := h.len
  have hn := h.num
  have hc := h.cap
  simp only [List.length_append, List.length_cons] at hl hn hc
  obtain ⟨keys, ek, hk⟩ := remove_rep (cap := N) (a := n.keys) (l := k1) (g := [s]) (r := k2)
    (by simpa using h.keys) (by simp) (by simp; omega)
  obtain ⟨kids, ec, hkc⟩ := remove_rep (cap := N + 1) (a := n.kids) (l := c1 ++ [a]) (g := [b]) (r := c2)
    (by simpa using h.kids) (by simp) (by simp; omega)
  simp only [List.length_append, List.length_cons, List.length_nil, Nat.zero_add] at ek ec
  have e1 : n.num - 1 - k1.length = k2.length := by omega
  have e2 : n.num - 1 - k1.length = c2.length := by omega
  refine ⟨keys, kids, by rw [e1]; exact ek, by rw [e2, ← h1]; exact ec, ?_, ?_, ?_, hk, by simpa using hkc⟩
  · simp only [List.length_append]; omega
  · simp only [List.length_append, List.length_cons]; omega
  · simp only [List.length_append]; omega

theorem mergeBranch_rep {x y : BNode K α} {cx cy : List α} {kx ky : List K} {key : K}
    (hx : NodeRep o.N x cx kx) (hy : NodeRep o.N y cy ky) (hx1 : 1 ≤ kx.length) (hy1 : 1 ≤ ky.length)
    (hlt : ∀ k ∈ kx, k < key) (hgt : ∀ k ∈ ky, key < k) (hcap : kx.length + ky.length + 1 ≤ o.N) :
    ∃ m, mergeBranch o x key y = .ok m ∧ NodeRep o.N m (cx ++ cy) (kx ++ key :: ky) := by
  have hnx := hx.num
  have hny := hy.num
  have hlx := hx.len
  have hly := hy.len
  obtain ⟨k0, ky', rfl⟩ : ∃ k0 ky', ky = k0 :: ky' := by
    cases ky with
    | nil => simp at hy1
    | cons a b => exact ⟨a, b, rfl⟩
  obtain ⟨c0, cy', rfl⟩ : ∃ c0 cy', cy = c0 :: cy' := by
    cases cy with
    | nil => simp at hly
    | cons a b => exact ⟨a, b, rfl⟩
  obtain ⟨kl, kx', rfl⟩ : ∃ kl kx', kx = kx' ++ [kl] := by
    rcases List.eq_nil_or_concat kx with h | ⟨c', x, h⟩
    · subst h; simp at hx1
    · exact ⟨x, c', by simpa using h⟩
  simp only [List.length_append, List.length_cons, List.length_nil] at hnx hny hlx hly hcap
  unfold mergeBranch
  have r1 : rd o.N y.keys 0 = .ok k0 := rd_mid (l := []) hy.keys (by simp; omega)
  rw [r1, Res.ok_bind, Res.assert_pos (hgt k0 (by simp)).le, Res.ok_bind,
    Res.guardUB_pos (by omega), Res.ok_bind]
  have r2 : rd o.N x.keys (x.num - 1) = .ok kl := by
    have : x.num - 1 = kx'.length := by omega
    rw [this]; exact rd_mid hx.keys (by omega)
  rw [r2, Res.ok_bind, Res.assert_pos (hlt kl (by simp)), Res.ok_bind, wr_ok _ _ (by omega), Res.ok_bind]
  have r3 : rd (o.N + 1) y.kids 0 = .ok c0 := rd_mid (l := []) hy.kids (by simp)
  rw [r3, Res.ok_bind, wr_ok _ _ (by omega), Res.ok_bind]
  have w1 := Rep.wr_push key hx.keys
  have w2 := Rep.wr_push c0 hx.kids
  obtain ⟨k', ek, hk'⟩ := copy_rep (cap := o.N) (a := y.keys) (x := []) (y := k0 :: ky') (z := [])
    (by simpa using hy.keys) w1 (by simp; omega) (by simp; omega)
  obtain ⟨c', ec, hc'⟩ := copy_rep (cap := o.N + 1) (a := y.kids) (x := [c0]) (y := cy') (z := [])
    (by simpa using hy.kids) w2 (by simp; omega) (by simp; omega)
  have e1 : (kx' ++ [kl]).length = x.num := by simp; omega
  have e2 : cx.length = x.num + 1 := by omega
  have e3 : (k0 :: ky').length = y.num := by simp; omega
  have e4 : cy'.length = y.num := by omega
  simp only [List.length_append (bs := [key]), List.length_append (bs := [c0]), e1, e2, e3, e4,
    List.length_cons (as := ([] : List K)), List.length_cons (as := ([] : List α)),
    List.length_nil] at ek ec
  simp only [Nat.zero_add] at ek ec
  rw [ek, Res.ok_bind, ec, Res.ok_bind]
  refine ⟨_, rfl, ?_, ?_, ?_, by simpa using hk', by simpa using hc'⟩
  · simp only [List.length_append, List.length_cons, List.length_nil]; omega
  · simp only [List.length_append, List.length_cons, List.length_nil]; omega
  · simp only [List.length_append, List.length_cons, List.length_nil]; omega

theorem balanceBranch_left {d r : BNode K α} {ca cb cr : List α} {ka kb kr : List K} {key pk : K}
    (hd : NodeRep o.N d (ca ++ cb) (ka ++ key :: kb)) (hr : NodeRep o.N r cr kr)
    (hr1 : 1 ≤ kr.length) (hlt : kr.length < (ka ++ key :: kb).length)
    (hlen : ka.length = ((ka ++ key :: kb).length + kr.length) / 2)
    (hca : ca.length = ka.length + 1)
    (hpk1 : ∀ k ∈ ka ++ key :: kb, k < pk) (hpk2 : ∀ k ∈ kr, pk < k)
    (hcap : kb.length + 1 + kr.length ≤ o.N) :
    ∃ b, balanceBranch o d r pk = .ok b ∧ b.key = key ∧ NodeRep o.N b.donor ca ka ∧
      NodeRep o.N b.receiver (cb ++ cr) (kb ++ pk :: kr) := by
  have hnd := hd.num
  have hnr := hr.num
  have hld := hd.len
  have hlr := hr.len
  have hcd := hd.cap
  simp only [List.length_append, List.length_cons] at hnd hld hlt hlen hcd
  unfold balanceBranch
  rw [Res.assert_pos (by omega), Res.ok_bind]
  have et : d.num - (d.num + r.num) / 2 = kb.length + 1 := by omega
  dsimp only
  rw [et, if_neg (by omega)]
  obtain ⟨k0, kr', rfl⟩ : ∃ k0 kr', kr = k0 :: kr' := by
    cases kr with
    | nil => simp at hr1
    | cons a b => exact ⟨a, b, rfl⟩
  simp only [List.length_cons] at hnr hlr hlt hlen hcap
  have hdk : ∃ x xs, ka ++ key :: kb = x :: xs := by
    cases ka with
    | nil => exact ⟨_, _, rfl⟩
    | cons a b => exact ⟨_, _, rfl⟩
  obtain ⟨x, xs, hx⟩ := hdk
  have r1 : rd o.N d.keys 0 = .ok x := rd_mid (l := []) (r := xs) (by rw [List.nil_append, ← hx]; exact hd.keys)
    (by simp; omega)
  have r2 : rd o.N r.keys 0 = .ok k0 := rd_mid (l := []) hr.keys (by simp; omega)
  rw [r1, Res.ok_bind, r2, Res.ok_bind,
    if_pos (lt_trans (hpk1 x (by rw [hx]; simp)) (hpk2 k0 (by simp)))]
  -- children of the receiver
  have hkids := prepend_rep (cap := o.N + 1) (a := d.kids) (b := r.kids) (x := ca) (y := cb) (z := [])
    (by simpa using hd.kids) hr.kids (by omega) (by omega) (by omega)
  obtain ⟨b', eb, hb'⟩ := hkids
  have e1 : cb.length = kb.length + 1 := by omega
  have e2 : cr.length = r.num + 1 := by omega
  have e3 : ca.length = d.num - (kb.length + 1) + 1 := by omega
  rw [e1, e2, e3, moveUp, if_pos (by omega)] at eb
  obtain ⟨c1, ec1, ec2⟩ := Res.bind_eq_ok.1 eb
  obtain ⟨last, el1, el2⟩ := Res.bind_eq_ok.1 ec1
  obtain ⟨w, ew1, ew2⟩ := Res.bind_eq_ok.1 el2
  rw [el1, Res.ok_bind, ew1, Res.ok_bind]
  obtain ⟨km, ekm, hkm⟩ := moveUp_ok o.N 0 (kb.length + 1) (by omega) r.num r.keys (by omega) (by omega)
    (fun i _ h2 => hr.keys.isSome (by simp; omega))
  rw [ekm, Res.ok_bind, ew2, Res.ok_bind, ec2, Res.ok_bind, Nat.add_sub_cancel]
  obtain ⟨kc, ekc, hkc⟩ := copy_ok o.N d.keys kb.length (d.num - (kb.length + 1) + 1) 0 km (by omega)
    (by omega) (fun i _ h2 => hd.keys.isSome (by simp; omega))
  have r3 : rd o.N d.keys (d.num - (kb.length + 1)) = .ok key := by
    have : d.num - (kb.length + 1) = ka.length := by omega
    rw [this]; exact rd_mid hd.keys (by omega)
  rw [ekc, Res.ok_bind, wr_ok _ _ (by omega), Res.ok_bind, r3, Res.ok_bind]
  refine ⟨_, rfl, rfl, ⟨?_, hca, by omega, hd.keys.prefix, hd.kids.prefix⟩, ⟨?_, ?_, ?_, ?_, hb'⟩⟩
  · simp only; omega
  · simp only [List.length_append, List.length_cons]; omega
  · simp only [List.length_append, List.length_cons]; omega
  · simp only [List.length_append, List.length_cons]; omega
  · intro j hj
    simp only [List.length_append, List.length_cons] at hj
    simp only
    rcases Nat.lt_trichotomy j kb.length with h1 | h1 | h1
    · rw [if_neg (by omega), hkc, if_pos (by omega), hd.keys _ (by simp; omega),
        List.getElem?_append_left h1, List.getElem?_append_right (by omega)]
      have : j - 0 + (d.num - (kb.length + 1) + 1) - ka.length = j + 1 := by omega
      rw [this, List.getElem?_cons_succ]
    · rw [if_pos h1, List.getElem?_append_right (by omega)]; simp [h1]
    · rw [if_neg (by omega), hkc, if_neg (by omega), hkm, if_pos (by omega),
        hr.keys _ (by simp; omega), List.getElem?_append_right (by omega)]
      obtain ⟨m, hm⟩ : ∃ m, j - kb.length = m + 1 := ⟨j - kb.length - 1, by omega⟩
      have : j - (kb.length + 1) = m := by omega
      rw [hm, List.getElem?_cons_succ, this]

theorem balanceBranch_right {d r : BNode K α} {ca cb cr : List α} {ka kb kr : List K} {key pk : K}
    (hd : NodeRep o.N d (ca ++ cb) (ka ++ key :: kb)) (hr : NodeRep o.N r cr kr)
    (hr1 : 1 ≤ kr.length) (hlt : kr.length < (ka ++ key :: kb).length)
    (hlen : kb.length = ((ka ++ key :: kb).length + kr.length) / 2)
    (hca : ca.length = ka.length + 1)
    (hpk1 : ∀ k ∈ ka ++ key :: kb, pk < k) (hpk2 : ∀ k ∈ kr, k < pk)
    (hcap : kr.length + 1 + ka.length < o.N) :
    ∃ b, balanceBranch o d r pk = .ok b ∧ b.key = key ∧ NodeRep o.N b.donor cb kb ∧
      NodeRep o.N b.receiver (cr ++ ca) (kr ++ pk :: ka) := by
  have hnd := hd.num
  have hnr := hr.num
  have hld := hd.len
  have hlr := hr.len
  have hcd := hd.cap
  simp only [List.length_append, List.length_cons] at hnd hld hlt hlen hcd
  unfold balanceBranch
  rw [Res.assert_pos (by omega), Res.ok_bind]
  have et : d.num - (d.num + r.num) / 2 = ka.length + 1 := by omega
  dsimp only
  rw [et, if_neg (by omega)]
  obtain ⟨k0, kr', rfl⟩ : ∃ k0 kr', kr = k0 :: kr' := by
    cases kr with
    | nil => simp at hr1
    | cons a b => exact ⟨a, b, rfl⟩
  simp only [List.length_cons] at hnr hlr hlt hlen hcap
  have hdk : ∃ x xs, ka ++ key :: kb = x :: xs := by
    cases ka with
    | nil => exact ⟨_, _, rfl⟩
    | cons a b => exact ⟨_, _, rfl⟩
  obtain ⟨x, xs, hx⟩ := hdk
  have r1 : rd o.N d.keys 0 = .ok x := rd_mid (l := []) (r := xs) (by rw [List.nil_append, ← hx]; exact hd.keys)
    (by simp; omega)
  have r2 : rd o.N r.keys 0 = .ok k0 := rd_mid (l := []) hr.keys (by simp; omega)
  rw [r1, Res.ok_bind, r2, Res.ok_bind,
    if_neg (not_lt.2 (lt_trans (hpk2 k0 (by simp)) (hpk1 x (by rw [hx]; simp))).le)]
  obtain ⟨rc, erc, hrc⟩ := copy_rep (cap := o.N + 1) (a := d.kids) (b := r.kids) (x := []) (y := ca)
    (z := cb) (by simpa using hd.kids) hr.kids (by simp; omega) (by omega)
  have e1 : cr.length = r.num + 1 := by omega
  rw [List.length_nil, e1, hca] at erc
  rw [erc, Res.ok_bind]
  obtain ⟨rk, erk, hrk⟩ := copy_ok o.N d.keys (ka.length + 1) 0 (r.num + 1) r.keys (by omega)
    (by omega) (fun i _ h2 => hd.keys.isSome (by simp; omega))
  rw [erk, Res.ok_bind, wr_ok _ _ (by omega), Res.ok_bind, Nat.add_sub_cancel,
    rd_mid hd.keys (by omega), Res.ok_bind]
  have em : d.num - (ka.length + 1) = kb.length := by omega
  rw [em]
  obtain ⟨dk, edk, hdk⟩ := moveDown_ok o.N (ka.length + 1) (by omega) kb.length 0 d.keys (by omega)
    (fun i _ h2 => hd.keys.isSome (by simp; omega))
  obtain ⟨dc, edc, hdc⟩ := moveDown_ok (o.N + 1) (ka.length + 1) (by omega) kb.length 0 d.kids (by omega)
    (fun i _ h2 => hd.kids.isSome (by simp; omega))
  have hlast : (d.kids d.num).isSome := hd.kids.isSome (by simp; omega)
  obtain ⟨last, hl⟩ := Option.isSome_iff_exists.1 hlast
  rw [edk, Res.ok_bind, edc, Res.ok_bind,
    rd_ok (by omega) (by rw [hdc, if_neg (by omega)]; exact hl), Res.ok_bind, wr_ok _ _ (by omega),
    Res.ok_bind]
  refine ⟨_, rfl, rfl, ⟨rfl, by omega, by omega, ?_, ?_⟩, ⟨?_, ?_, ?_, ?_, hrc⟩⟩
  · intro j hj
    simp only
    rw [hdk, if_pos (by omega), hd.keys _ (by simp; omega), List.getElem?_append_right (by omega)]
    have : j + (ka.length + 1) - ka.length = j + 1 := by omega
    rw [this, List.getElem?_cons_succ]
  · intro j hj
    simp only
    by_cases h1 : j = kb.length
    · rw [if_pos h1, ← hl, hd.kids _ (by simp; omega), List.getElem?_append_right (by omega)]
      congr 1; omega
    · rw [if_neg h1, hdc, if_pos (by omega), hd.kids _ (by simp; omega),
        List.getElem?_append_right (by omega)]
      congr 1; omega
  · simp only [List.length_append, List.length_cons]; omega
  · simp only [List.length_append, List.length_cons]; omega
  · simp only [List.length_append, List.length_cons]; omega
  · intro j hj
    simp only [List.length_append, List.length_cons] at hj
    simp only
    rcases Nat.lt_trichotomy j r.num with h1 | h1 | h1
    · rw [if_neg (by omega), hrk, if_neg (by omega), hr.keys _ (by simp; omega),
        List.getElem?_append_left (by simp; omega)]
    · rw [if_pos h1, List.getElem?_append_right (by simp; omega)]
      have : j - (k0 :: kr').length = 0 := by simp; omega
      rw [this]; rfl
    · rw [if_neg (by omega), hrk, if_pos (by omega), hd.keys _ (by simp; omega),
        List.getElem?_append_left (by omega), List.getElem?_append_right (by simp; omega)]
      obtain ⟨m, hm⟩ : ∃ m, j - (k0 :: kr').length = m + 1 := ⟨j - r.num - 1, by simp; omega⟩
      rw [hm, List.getElem?_cons_succ]
      congr 1
      simp only [List.length_cons] at hm; omega

end
end Verif.BTree
