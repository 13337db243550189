import Verif.BTree.InsertCrashTree

/-!
# Lookups after a crash on any level of an insert
-/

set_option linter.unusedSectionVars false

namespace Verif.BTree

open Verif Assoc
open Verif.Slots hiding none

variable {K V L T : Type} [LinearOrder K] {o : Ops K V L} {W : Laws o} {lm bm rm : Nat}

/-- The insert of `k` splits the child at `pos` of the branch node `n` of height `j + 1` at the key `s`, the searches of `x` and
`k` take the same way to this node, and `P n pos s`. -/
def AtHost (o : Ops K V L) (P : (e : Nat) → BNode K (Tree K e) → Nat → K → Prop) (k : K) (v : V) (j : Nat) (x : K) :
    (d : Nat) → Heap L → Tree K d → Prop
  | 0, _, _ => False
  | d + 1, h, n => ∃ pos c, lookupPos o n k = .ok pos ∧ n.kids pos = some c ∧
    if j < d then lookupPos o n x = .ok pos ∧ AtHost o P k v j x d h c
    else ∃ r sr, insertT o d h c k v = .ok r ∧ r.split = some sr ∧
      P d { n with kids := fun i => if i = pos then some r.tree else n.kids i } pos sr.1

/-- `x` is not found after `q` changes at level `j`. -/
def LostAt (o : Ops K V L) (d : Nat) (h : Heap L) (t : Tree K d) (k : K) (v : V) (j q : Nat) (x : K) : Prop :=
  AtHost o (fun _ n pos s => LostNode o n pos k s q x) k v j x d h t

/-- `x` is a separator that the branch node at level `j` holds twice after `q` changes. -/
def DupAt (o : Ops K V L) (d : Nat) (h : Heap L) (t : Tree K d) (k : K) (v : V) (j q : Nat) (x : K) : Prop :=
  AtHost o (fun _ n pos s => DupNode o n pos k s q x) k v j x d h t

theorem lookT_step {d : Nat} {h : Heap L} {n : BNode K (Tree K d)} {x : K} {pos : Nat} {c : Tree K d} (e1 : lookupPos o n x = .ok pos)
    (e2 : rd (o.N + 1) n.kids pos = .ok c) : lookT o (d + 1) h n x = lookT o d h c x := by
  unfold lookT
  rw [findLeaf, e1, Res.ok_bind, e2, Res.ok_bind]

theorem insAt_lookT (hlm : lm ≤ W.lmin) (hbm : bm ≤ (o.N - 1) / 2) (hN : 2 ≤ o.N) (hD : DupSearch o) (k : K) (v : V) (ha : W.adm k) (j q : Nat) :
    ∀ (d top : Nat) (h : Heap L) (t : Tree K d) (lo hi : Bd K) (pre post : List Nat), j < d →
    Bt W tt lm bm h d top t lo hi → InR lo hi k → Wf h (pre ++ ids d t ++ post) →
    ∃ r ri, insAt o d h t k v j q = .ok r ∧ insertT o d h t k v = .ok ri ∧ r.1 = ri.heap ∧ ∀ x, InR lo hi x →
      (lookT o d r.1 r.2 x = .ok none ∨ lookT o d r.1 r.2 x = .ok (find x (upsert k v (content W h (ids d t))))) ∧
      (ExactSearch o ∨ ¬ DupAt o d h t k v j q x → (LostAt o d h t k v j q x → lookT o d r.1 r.2 x = .ok none) ∧
        (¬ LostAt o d h t k v j q x → lookT o d r.1 r.2 x = .ok (find x (upsert k v (content W h (ids d t)))))) := by
  intro d
  induction d with
  | zero => intro top h t lo hi pre post hj; exact absurd hj (Nat.not_lt_zero _)
  | succ d ih =>
    intro top h n lo hi pre post hj hb hk w
    obtain ⟨rI, erI, _, _, _, hpostI⟩ := insertT_spec hlm hbm hN k v ha (d + 1) top h n lo hi pre post hb hk w
    obtain ⟨cs, ks, hr, htop, ht⟩ := hb
    obtain ⟨hks, _, _⟩ := keys_sorted (fun c a b hc => Bt.lt hc) ht
    obtain ⟨c1, c, c2, k1, k2, b1, m, m', b2, f⟩ := exists_focus W (fun c a b hc => Bt.lt hc) ht hk
    have hids : ids (d + 1) n = c1.flatMap (ids d) ++ ids d c ++ c2.flatMap (ids d) := by
      rw [ids_rep hr, f.hcs]; simp
    have w' := w
    rw [hids] at w'
    have hnd := mem_disjoint w'.nodup
    obtain ⟨r, er, hframe, hfresh, hhead, hpost⟩ := insertT_spec hlm hbm hN k v ha d (occ lm bm d) h c m m' (pre ++ c1.flatMap (ids d))
      (c2.flatMap (ids d) ++ post) f.pc f.inR (by simpa using w')
    have hfr1 : ∀ i ∈ c1.flatMap (ids d), r.heap.data i = h.data i := fun i hi =>
      hframe i (hnd.1 i hi) (w'.fresh i (by simp only [List.mem_append]; tauto))
    have hfr2 : ∀ i ∈ c2.flatMap (ids d), r.heap.data i = h.data i := fun i hi =>
      hframe i (hnd.2.1 i hi) (w'.fresh i (by simp only [List.mem_append]; tauto))
    have hr' := hr
    rw [f.hcs, f.hks] at hr'
    have hcap := hr'.cap
    have hlen := hr'.len
    simp only [List.length_append, List.length_cons] at hcap hlen
    have hkid : n.kids k1.length = some c := by
      rw [hr'.kids _ (by simp only [List.length_append, List.length_cons]; omega), ← f.l1]; simp
    have hpos := f.lookupPos hr hks
    -- the whole contents
    have hcont : upsert k v (content W h (ids (d + 1) n)) =
        content W h (c1.flatMap (ids d)) ++ upsert k v (content W h (ids d c)) ++ content W h (c2.flatMap (ids d)) := by
      rw [hids, content_append, content_append, upsert_append_left, upsert_append_right]
      · intro e he
        exact bk_lt.1 (lt_of_lt_of_le (f.left_lt e he) f.inR.1)
      · intro e he
        exact bk_lt.1 (lt_of_lt_of_le f.inR.2 (f.right_ge e he))
    rw [insAt, hpos, Res.ok_bind, f.rdKid hr, Res.ok_bind]
    have erI' := erI
    rw [insertT, hpos, Res.ok_bind, f.rdKid hr, Res.ok_bind, er, Res.ok_bind] at erI'
    obtain ⟨kidsI, ekI, hrkI⟩ := hr'.setKid r.tree
    rw [← f.l1, ekI, Res.ok_bind, f.l1] at erI'
    dsimp only at erI'
    -- the heap
    have hheap : rI.heap = r.heap := by
      cases hsp : r.split with
      | none =>
        rw [hsp] at erI'
        cases Res.ok.inj erI'
        rfl
      | some sr =>
        rw [hsp] at erI'
        dsimp only at erI'
        unfold insertEntry at erI'
        split at erI'
        · obtain ⟨sp, _, erI'⟩ := Res.bind_eq_ok.1 erI'
          split at erI'
          · obtain ⟨_, _, erI'⟩ := Res.bind_eq_ok.1 erI'
            obtain ⟨_, _, erI'⟩ := Res.bind_eq_ok.1 erI'
            cases Res.ok.inj erI'; rfl
          · obtain ⟨_, _, erI'⟩ := Res.bind_eq_ok.1 erI'
            obtain ⟨_, _, erI'⟩ := Res.bind_eq_ok.1 erI'
            cases Res.ok.inj erI'; rfl
        · obtain ⟨_, _, erI'⟩ := Res.bind_eq_ok.1 erI'
          cases Res.ok.inj erI'; rfl
    by_cases hjd : j < d
    · rw [if_pos hjd]
      obtain ⟨rc, ric, e1, e2, e3, hall⟩ := ih (occ lm bm d) h c m m' (pre ++ c1.flatMap (ids d))
        (c2.flatMap (ids d) ++ post) hjd f.pc f.inR (by simpa using w')
      rw [er] at e2
      cases Res.ok.inj e2
      rw [e1, Res.ok_bind, wr_ok _ _ (by omega), Res.ok_bind]
      refine ⟨_, rI, rfl, erI, by simp only; rw [e3, hheap], fun x hx => ?_⟩
      simp only
      obtain ⟨c1x, cx, c2x, k1x, k2x, b1x, mx, mx', b2x, fx⟩ := exists_focus W (fun c a b hc => Bt.lt hc) ht hx
      have hposx := fx.lookupPos hr hks
      have hrx := hr
      rw [fx.hcs, fx.hks] at hrx
      have hlenx := hrx.len
      have hcapx := hrx.cap
      simp only [List.length_append, List.length_cons] at hlenx hcapx
      have hkidx : n.kids k1x.length = some cx := by
        rw [hrx.kids _ (by simp only [List.length_append, List.length_cons]; omega), ← fx.l1]; simp
      have hLost : ∀ P, AtHost o P k v j x (d + 1) h n ↔ k1x.length = k1.length ∧ AtHost o P k v j x d h c := by
        intro P
        rw [AtHost]
        constructor
        · rintro ⟨pos, c', a1, a2, a3⟩
          rw [hpos] at a1
          cases Res.ok.inj a1
          rw [hkid] at a2
          cases Option.some.inj a2
          rw [if_pos hjd, hposx] at a3
          exact ⟨Res.ok.inj a3.1, a3.2⟩
        · rintro ⟨a1, a2⟩
          exact ⟨k1.length, c, hpos, hkid, by rw [if_pos hjd, hposx, a1]; exact ⟨rfl, a2⟩⟩
      unfold LostAt DupAt at hall ⊢
      rw [hLost, hLost]
      by_cases hp : k1x.length = k1.length
      · -- the same child
        rw [hp, hkid] at hkidx
        cases Option.some.inj hkidx
        have hk12 := List.append_inj (fx.hks.symm.trans f.hks) hp
        obtain ⟨rfl, rfl⟩ := hk12
        have hb1 := fx.hb1
        rw [f.hb1] at hb1
        have hb2 := fx.hb2
        rw [f.hb2] at hb2
        cases (List.append_inj' hb1 rfl).2
        cases hb2
        have hstep : lookT o (d + 1) rc.1 { n with kids := fun j => if j = k1x.length then some rc.2 else n.kids j } x = lookT o d rc.1 rc.2 x := by
          refine lookT_step (pos := k1x.length) ?_ (rd_ok (by omega) (if_pos rfl))
          exact hposx
        have hfind : find x (upsert k v (content W h (ids (d + 1) n))) = find x (upsert k v (content W h (ids d c))) := by
          rw [hcont, find_append_left, find_append_right]
          · rintro e he rfl
            exact absurd fx.inR.1 (not_le.2 (f.left_lt e he))
          · rintro e he rfl
            exact absurd fx.inR.2 (not_lt.2 (f.right_ge e he))
        rw [hstep, hfind]
        simpa only [true_and, and_true] using hall x fx.inR
      · -- another child
        have hstep : lookT o (d + 1) rc.1 { n with kids := fun j => if j = k1.length then some rc.2 else n.kids j } x = lookT o d rc.1 cx x := by
          refine lookT_step (pos := k1x.length) ?_ (rd_ok (by omega) (by simp only; rw [if_neg hp]; exact hkidx))
          exact hposx
        have hmem : cx ∈ c1 ∨ cx ∈ c2 := by
          have e1 : (c1 ++ c :: c2)[k1x.length]? = some cx := by
            rw [← f.hcs, fx.hcs, ← fx.l1]; simp
          rcases Nat.lt_or_gt_of_ne hp with h1 | h1
          · rw [List.getElem?_append_left (by rw [f.l1]; exact h1)] at e1
            exact Or.inl (List.mem_of_getElem? e1)
          · rw [List.getElem?_append_right (by rw [f.l1]; omega), show k1x.length - c1.length = (k1x.length - c1.length - 1) + 1 by rw [f.l1]; omega,
              List.getElem?_cons_succ] at e1
            exact Or.inr (List.mem_of_getElem? e1)
        have hfr : ∀ i ∈ ids d cx, rc.1.data i = h.data i := by
          intro i hi
          rw [e3]
          rcases hmem with hm | hm
          · exact hfr1 i (List.mem_flatMap.2 ⟨cx, hm, hi⟩)
          · exact hfr2 i (List.mem_flatMap.2 ⟨cx, hm, hi⟩)
        have hxk : x ≠ k := by
          rintro rfl
          rw [hposx] at hpos
          exact hp (Res.ok.inj hpos)
        have hfind : find x (upsert k v (content W h (ids (d + 1) n))) = find x (content W rc.1 (ids d cx)) := by
          rw [find_upsert, if_neg hxk, ids_rep hrx, content_congr W hfr]
          have htx := ht
          rw [fx.hcs, fx.hks] at htx
          exact find_tile htx fx.l1 fx.le fx.gt
        rw [hstep, hfind, lookT_any (fx.pc.frame (Q' := tt) (fun _ _ _ x => x) hfr) x]
        exact ⟨Or.inr rfl, fun _ => ⟨fun hc => absurd hc.1 hp, fun _ => rfl⟩⟩
    · rw [if_neg hjd, er, Res.ok_bind]
      rw [wr_ok _ _ (by omega), Res.ok_bind]
      have hkeq : kidsI = fun j => if j = k1.length then some r.tree else n.kids j := by
        rw [f.l1, wr_ok _ _ (by omega)] at ekI
        exact (Res.ok.inj ekI).symm
      rw [hkeq] at hrkI erI'
      dsimp only
      have hHost : ∀ P x, AtHost o P k v j x (d + 1) h n ↔ ∃ sr, r.split = some sr ∧
          P d { n with kids := fun i => if i = k1.length then some r.tree else n.kids i } k1.length sr.1 := by
        intro P x
        rw [AtHost]
        constructor
        · rintro ⟨pos, c', a1, a2, a3⟩
          rw [hpos] at a1
          cases Res.ok.inj a1
          rw [hkid] at a2
          cases Option.some.inj a2
          rw [if_neg hjd] at a3
          obtain ⟨r', sr, a4, a5, a6⟩ := a3
          rw [er] at a4
          cases Res.ok.inj a4
          exact ⟨sr, a5, a6⟩
        · rintro ⟨sr, a1, a2⟩
          exact ⟨k1.length, c, hpos, hkid, by rw [if_neg hjd]; exact ⟨r, sr, er, a1, a2⟩⟩
      unfold LostAt DupAt
      cases hsp : r.split with
      | none =>
        rw [hsp] at erI'
        cases Res.ok.inj erI'
        refine ⟨_, _, rfl, erI, rfl, fun x hx => ?_⟩
        simp only
        obtain ⟨hbI, _, hcI⟩ := hpostI
        have hl := lookT_any hbI x
        rw [hcI] at hl
        rw [hHost, hHost, hsp]
        exact ⟨Or.inr hl, fun _ => ⟨fun hc => absurd hc.choose_spec.1 (by simp), fun _ => hl⟩⟩
      | some sr =>
        rw [InsPost, hsp] at hpost
        obtain ⟨hbl, hbr, hwf, hct⟩ := hpost
        have ht1 := Tile.frame (Q' := tt) (h' := r.heap) (fun _ _ _ x => x) hfr1 f.t1
        have ht2 := Tile.frame (Q' := tt) (h' := r.heap) (fun _ _ _ x => x) hfr2 f.t2
        have htile : Tile (Bt W tt lm bm r.heap d (occ lm bm d)) (c1 ++ r.tree :: sr.2 :: c2)
            (bnds lo (k1 ++ sr.1 :: k2) hi) := by
          have := tile_unfocus (xs := [r.tree, sr.2]) (ys := [sr.1]) f.hb1 f.hb2 f.lb rfl ht1
            ⟨hbl, hbr, trivial⟩ ht2
          simpa using this
        obtain ⟨n', en, hall⟩ := addSplitAt_lookT hN hD (k := k) hrkI f.l1 f.l2 f.le f.gt q htile
        dsimp only
        rw [en, Res.ok_bind]
        refine ⟨_, rI, rfl, erI, hheap.symm, fun x hx => ?_⟩
        simp only
        have hcall : content W r.heap ((c1 ++ r.tree :: sr.2 :: c2).flatMap (ids d)) = upsert k v (content W h (ids (d + 1) n)) := by
          rw [hcont, List.flatMap_append, List.flatMap_cons, List.flatMap_cons, ← List.append_assoc (ids d r.tree), content_append, content_append,
            hct, content_congr W hfr1, content_congr W hfr2, List.append_assoc]
        rw [hHost, hHost, ← hcall, hsp]
        have := hall x
        refine ⟨this.1, fun hd => ?_⟩
        have h2 := this.2 (hd.imp_right fun hd hc => hd ⟨sr, rfl, hc⟩)
        refine ⟨fun ⟨sr', hs, hc⟩ => ?_, fun hc => h2.2 (fun hc' => hc ⟨sr, rfl, hc'⟩)⟩
        cases Option.some.inj hs
        exact h2.1 hc

/-! ## The last change of a level -/

/-- All assignments together are `addEntry`. -/
theorem addEntryAt_full {α : Type} {n : BNode K α} {pos : Nat} (s : K) (l r : α) {q : Nat} (hq : room n.num pos + 4 ≤ q) (hN : n.num < o.N) (hp : pos ≤ n.num)
    (hk : ∀ j, j < n.num → (n.keys j).isSome) (hc : ∀ j, j ≤ n.num → (n.kids j).isSome) :
    addEntryAt o n pos s l r q = addEntry o n pos s l r := by
  have hlen : (entryWrites (α := α) n.num pos s l r).length = room n.num pos + 4 := by
    unfold entryWrites room
    split
    · simp only [List.length_append, List.length_cons, List.length_nil, roomWrites_length]; omega
    · rfl
  unfold addEntryAt
  rw [List.take_of_length_le (by omega)]
  unfold entryWrites addEntry
  rw [applyBW_append]
  have hroom : applyBW o n (if pos < n.num then BW.cpKid (n.num + 1) n.num :: roomWrites pos n.num else []) = makeRoom o n pos := by
    unfold makeRoom
    by_cases h : pos < n.num
    · rw [if_pos h, if_pos h]
      obtain ⟨x, hx⟩ := Option.isSome_iff_exists.1 (hc n.num le_rfl)
      rw [applyBW, BW.apply]
      rw [rd_ok (by omega) hx, Res.ok_bind, wr_ok _ _ (by omega), Res.ok_bind, Res.pure_eq, Res.ok_bind, Res.ok_bind, wr_ok _ _ (by omega), Res.ok_bind]
      obtain ⟨n', e, g1, g2, g3⟩ := room_form (o := o) pos n.num (2 * n.num + 2) ⟨n.num, n.keys, fun j => if j = n.num + 1 then some x else n.kids j⟩ hN hk
        (fun j hj => by simp only; rw [if_neg (by omega)]; exact hc j (by omega))
      rw [List.take_of_length_le (by rw [roomWrites_length]; omega)] at e
      obtain ⟨a1, e1, h1⟩ := moveUp_ok (o.N + 1) pos 1 le_rfl n.num (fun j => if j = n.num + 1 then some x else n.kids j) (by omega) hp
        (fun i _ hi => by rw [if_neg (by omega)]; exact hc i (by omega))
      obtain ⟨a2, e2, h2⟩ := moveUp_ok o.N pos 1 le_rfl n.num n.keys (by omega) hp (fun i _ hi => hk i hi)
      rw [e, e1, Res.ok_bind, e2, Res.ok_bind, Res.pure_eq]
      congr 1
      have hkk : n'.keys = a2 := by
        funext j
        rw [g2, h2]
        simp only
        by_cases hj : pos + 1 ≤ j ∧ j < n.num + 1
        · rw [if_pos hj, if_pos (by omega)]
        · rw [if_neg hj, if_neg (by omega)]
      have hcc : n'.kids = a1 := by
        funext j
        rw [g3, h1]
        by_cases hj : pos + 1 ≤ j ∧ j < n.num + 1
        · rw [if_pos hj, if_pos (by omega)]
        · rw [if_neg hj, if_neg (by omega)]
      cases n'
      simp only at g1 hkk hcc
      rw [g1, hkk, hcc]
    · rw [if_neg h, if_neg h]; rfl
  rw [hroom]
  have hnum : ∀ n', makeRoom o n pos = .ok n' → n'.num = n.num := by
    intro n' e
    unfold makeRoom at e
    split at e
    · obtain ⟨a1, _, e⟩ := Res.bind_eq_ok.1 e
      obtain ⟨a2, _, e⟩ := Res.bind_eq_ok.1 e
      obtain ⟨a3, _, e⟩ := Res.bind_eq_ok.1 e
      obtain ⟨a4, _, e⟩ := Res.bind_eq_ok.1 e
      cases Res.ok.inj e; rfl
    · cases Res.ok.inj e; rfl
  cases hm : makeRoom o n pos with
  | ok n' =>
    rw [Res.ok_bind, Res.ok_bind]
    simp only [applyBW, BW.apply, ← hnum n' hm]
    have w1 : ∀ (a : Slots K) x, wr o.N a pos x = .ok (fun j => if j = pos then some x else a j) := fun a x => wr_ok _ _ (by omega)
    have w2 : ∀ (a : Slots α) x, wr (o.N + 1) a pos x = .ok (fun j => if j = pos then some x else a j) := fun a x => wr_ok _ _ (by omega)
    have w3 : ∀ (a : Slots α) x, wr (o.N + 1) a (pos + 1) x = .ok (fun j => if j = pos + 1 then some x else a j) := fun a x => wr_ok _ _ (by omega)
    simp only [w1, w2, w3, Res.ok_bind, Res.pure_eq]
  | _ => rfl

/-- The number of changes at one level is at most this. -/
def lastChange (o : Ops K V L) : Nat := 4 * o.N + 9

theorem splitBranch_right {α : Type} {n : BNode K α} {s : K} {sp : Split K (BNode K α)} (e : splitBranch o n s = .ok sp) : sp.right.num ≤ n.num := by
  unfold splitBranch at e
  obtain ⟨a1, _, e⟩ := Res.bind_eq_ok.1 e
  obtain ⟨a2, _, e⟩ := Res.bind_eq_ok.1 e
  obtain ⟨a3, _, e⟩ := Res.bind_eq_ok.1 e
  obtain ⟨a4, _, e⟩ := Res.bind_eq_ok.1 e
  obtain ⟨a5, _, e⟩ := Res.bind_eq_ok.1 e
  obtain ⟨a6, _, e⟩ := Res.bind_eq_ok.1 e
  cases Res.ok.inj e
  exact Nat.sub_le _ _

theorem room_le (num pos : Nat) : room num pos ≤ 1 + 2 * num := by
  unfold room; split <;> omega

theorem NodeRep.some {α : Type} {N : Nat} {n : BNode K α} {cs : List α} {ks : List K} (h : NodeRep N n cs ks) :
    (∀ j, j < n.num → (n.keys j).isSome) ∧ ∀ j, j ≤ n.num → (n.kids j).isSome := by
  have h1 := h.num
  have h2 := h.len
  refine ⟨fun j hj => ?_, fun j hj => ?_⟩
  · rw [h.keys j (by omega), List.getElem?_eq_getElem (by omega)]; rfl
  · rw [h.kids j (by omega), List.getElem?_eq_getElem (by omega)]; rfl

/-- After the last change of its level a branch node is what `insertInBranchNode` makes of it. -/
theorem addSplitAt_full (W : Laws o) (hN2 : 2 ≤ o.N) {h : Heap L} {n : BNode K T} {c1 c2 : List T} {l r : T} {k1 k2 : List K} {k s : K}
    (hr : NodeRep o.N n (c1 ++ l :: c2) (k1 ++ k2)) (hl1 : c1.length = k1.length) (hl2 : c2.length = k2.length)
    (hs : (k1 ++ s :: k2).Pairwise (· < ·)) (hk1 : ∀ x ∈ k1, x ≤ k) (hk2 : ∀ x ∈ k2, k < x) {q : Nat} (hq : lastChange o ≤ q)
    {out : InsOut K L (BNode K T)} (e : insertEntry o h n k1.length k s l r = .ok out) :
    addSplitAt o n k1.length k s l r q = .ok out.tree := by
  unfold lastChange at hq
  have hcap := hr.cap
  rw [← hr.num] at hcap
  have hnum := hr.num
  rw [List.length_append] at hnum
  unfold addSplitAt
  unfold insertEntry at e
  by_cases hfull : n.num = o.N
  · rw [if_pos hfull] at e ⊢
    obtain ⟨sp, esp, hcase⟩ := splitBranch_cases W hN2 hr hl1 hl2 hs hk1 hk2 hfull
    have hsr := splitBranch_right esp
    rw [esp, Res.ok_bind] at e ⊢
    rw [if_neg (by omega)]
    rcases hcase with ⟨hkk, _⟩ | ⟨hkk, hpos, hlnum, k2a, kr, c2a, cr, e1, e2, e3, hL⟩
    · rw [if_neg hkk] at e ⊢
      obtain ⟨_, _, e⟩ := Res.bind_eq_ok.1 e
      obtain ⟨_, _, e⟩ := Res.bind_eq_ok.1 e
      cases Res.ok.inj e; rfl
    · rw [if_pos hkk, hpos, Res.ok_bind] at e ⊢
      obtain ⟨n', en, e⟩ := Res.bind_eq_ok.1 e
      have := room_le sp.left.num k1.length
      have hlp := hL.num
      rw [List.length_append] at hlp
      rw [addEntryAt_full _ _ _ (by omega) hlnum (by omega) hL.some.1 hL.some.2, en]
      cases Res.ok.inj e; rfl
  · rw [if_neg hfull] at e ⊢
    obtain ⟨n', en, e⟩ := Res.bind_eq_ok.1 e
    have := room_le n.num k1.length
    rw [addEntryAt_full _ _ _ (by omega) (by omega) (by omega) hr.some.1 hr.some.2, en]
    cases Res.ok.inj e; rfl

/-- After the last change of the highest level of a subtree it is what the insert makes of it. -/
theorem insAt_full (hlm : lm ≤ W.lmin) (hbm : bm ≤ (o.N - 1) / 2) (hN : 2 ≤ o.N) (k : K) (v : V) (ha : W.adm k) {q : Nat} (hq : lastChange o ≤ q)
    {d top : Nat} {h : Heap L} {n : Tree K (d + 1)} {lo hi : Bd K} {pre post : List Nat} (hb : Bt W tt lm bm h (d + 1) top n lo hi) (hk : InR lo hi k)
    (w : Wf h (pre ++ ids (d + 1) n ++ post)) :
    ∃ r, insertT o (d + 1) h n k v = .ok r ∧ insAt o (d + 1) h n k v d q = .ok (r.heap, r.tree) := by
  obtain ⟨rI, erI, _, _, _, hpostI⟩ := insertT_spec hlm hbm hN k v ha (d + 1) top h n lo hi pre post hb hk w
  refine ⟨rI, erI, ?_⟩
  obtain ⟨cs, ks, hr, htop, ht⟩ := hb
  obtain ⟨hks, _, _⟩ := keys_sorted (fun c a b hc => Bt.lt hc) ht
  obtain ⟨c1, c, c2, k1, k2, b1, m, m', b2, f⟩ := exists_focus W (fun c a b hc => Bt.lt hc) ht hk
  have hids : ids (d + 1) n = c1.flatMap (ids d) ++ ids d c ++ c2.flatMap (ids d) := by
    rw [ids_rep hr, f.hcs]; simp
  have w' := w
  rw [hids] at w'
  obtain ⟨r, er, hframe, hfresh, hhead, hpost⟩ := insertT_spec hlm hbm hN k v ha d (occ lm bm d) h c m m' (pre ++ c1.flatMap (ids d))
    (c2.flatMap (ids d) ++ post) f.pc f.inR (by simpa using w')
  have hr' := hr
  rw [f.hcs, f.hks] at hr'
  obtain ⟨kids, ek, hrk⟩ := hr'.setKid r.tree
  rw [insertT, f.lookupPos hr hks, Res.ok_bind, f.rdKid hr, Res.ok_bind, er, Res.ok_bind, ← f.l1, ek, Res.ok_bind, f.l1] at erI
  rw [insAt, f.lookupPos hr hks, Res.ok_bind, f.rdKid hr, Res.ok_bind, if_neg (lt_irrefl _), er, Res.ok_bind, ← f.l1, ek, Res.ok_bind, f.l1]
  dsimp only at erI ⊢
  cases hsp : r.split with
  | none =>
    rw [hsp] at erI
    cases Res.ok.inj erI; rfl
  | some sr =>
    rw [hsp] at erI
    dsimp only at erI ⊢
    rw [InsPost, hsp] at hpost
    have hs : (k1 ++ sr.1 :: k2).Pairwise (· < ·) := by
      have hl := hpost.1.lt
      have hh := hpost.2.1.lt
      have hks2 := hks
      rw [f.hks, List.pairwise_append] at hks2
      rw [List.pairwise_append, List.pairwise_cons]
      have hlow : ∀ y ∈ k1, y < sr.1 := by
        intro y hy
        have hm : bk y ∈ b1 ++ [m] := by rw [← f.hb1]; exact List.mem_cons_of_mem _ (List.mem_map.2 ⟨y, hy, rfl⟩)
        have hsb := Tile.sorted (fun c a b hc => Bt.lt hc) f.t1
        rw [List.pairwise_append] at hsb
        rcases List.mem_append.1 hm with hm | hm
        · exact bk_lt.1 (lt_trans (hsb.2.2 _ hm m (by simp)) hl)
        · exact bk_lt.1 (by rw [List.mem_singleton.1 hm]; exact hl)
      have hhigh : ∀ y ∈ k2, sr.1 < y := by
        intro y hy
        have hm : bk y ∈ m' :: b2 := by rw [← f.hb2]; exact List.mem_append_left _ (List.mem_map.2 ⟨y, hy, rfl⟩)
        have hsb := Tile.sorted (fun c a b hc => Bt.lt hc) f.t2
        rw [List.pairwise_cons] at hsb
        rcases List.mem_cons.1 hm with hm | hm
        · exact bk_lt.1 (by rw [hm]; exact hh)
        · exact bk_lt.1 (lt_trans hh (hsb.1 _ hm))
      refine ⟨hks2.1, ⟨hhigh, hks2.2.1⟩, fun a ha b hb => ?_⟩
      rcases List.mem_cons.1 hb with hb | hb
      · rw [hb]; exact hlow a ha
      · exact hks2.2.2 a ha b hb
    rw [addSplitAt_full W hN hrk f.l1 f.l2 hs f.le f.gt hq erI, Res.ok_bind]
    have hheap : rI.heap = r.heap := by
      unfold insertEntry at erI
      split at erI
      · obtain ⟨sp, _, erI⟩ := Res.bind_eq_ok.1 erI
        split at erI
        · obtain ⟨_, _, erI⟩ := Res.bind_eq_ok.1 erI
          obtain ⟨_, _, erI⟩ := Res.bind_eq_ok.1 erI
          cases Res.ok.inj erI; rfl
        · obtain ⟨_, _, erI⟩ := Res.bind_eq_ok.1 erI
          obtain ⟨_, _, erI⟩ := Res.bind_eq_ok.1 erI
          cases Res.ok.inj erI; rfl
      · obtain ⟨_, _, erI⟩ := Res.bind_eq_ok.1 erI
        cases Res.ok.inj erI; rfl
    rw [hheap]
    rfl

/-- The last change of a level leaves what the next level starts with. -/
theorem insAt_next (hlm : lm ≤ W.lmin) (hbm : bm ≤ (o.N - 1) / 2) (hN : 2 ≤ o.N) (k : K) (v : V) (ha : W.adm k) {q j : Nat} (hq : lastChange o ≤ q) :
    ∀ (d top : Nat) (h : Heap L) (t : Tree K d) (lo hi : Bd K) (pre post : List Nat), j + 1 < d →
    Bt W tt lm bm h d top t lo hi → InR lo hi k → Wf h (pre ++ ids d t ++ post) →
    insAt o d h t k v j q = insAt o d h t k v (j + 1) 0 := by
  intro d
  induction d with
  | zero => intro top h t lo hi pre post hj; exact absurd hj (Nat.not_lt_zero _)
  | succ d ih =>
    intro top h n lo hi pre post hj hb hk w
    obtain ⟨rI, erI, _, _, _, hpostI⟩ := insertT_spec hlm hbm hN k v ha (d + 1) top h n lo hi pre post hb hk w
    obtain ⟨cs, ks, hr, htop, ht⟩ := hb
    obtain ⟨hks, _, _⟩ := keys_sorted (fun c a b hc => Bt.lt hc) ht
    obtain ⟨c1, c, c2, k1, k2, b1, m, m', b2, f⟩ := exists_focus W (fun c a b hc => Bt.lt hc) ht hk
    have hids : ids (d + 1) n = c1.flatMap (ids d) ++ ids d c ++ c2.flatMap (ids d) := by
      rw [ids_rep hr, f.hcs]; simp
    have w' := w
    rw [hids] at w'
    have wc : Wf h (pre ++ c1.flatMap (ids d) ++ ids d c ++ (c2.flatMap (ids d) ++ post)) := by simpa using w'
    rw [insAt, insAt, f.lookupPos hr hks, Res.ok_bind, Res.ok_bind, f.rdKid hr, Res.ok_bind, Res.ok_bind, if_pos (by omega)]
    by_cases hjd : j + 1 < d
    · rw [if_pos hjd, ih (occ lm bm d) h c m m' _ _ hjd f.pc f.inR wc]
    · rw [if_neg hjd]
      obtain rfl : d = j + 1 := by omega
      obtain ⟨r, er, e⟩ := insAt_full hlm hbm hN k v ha hq f.pc f.inR wc
      rw [e, er, Res.ok_bind, Res.ok_bind]
      have hr' := hr
      rw [f.hcs, f.hks] at hr'
      obtain ⟨kids, ek, hrk⟩ := hr'.setKid r.tree
      rw [f.l1] at ek
      rw [insertT, f.lookupPos hr hks, Res.ok_bind, f.rdKid hr, Res.ok_bind, er, Res.ok_bind, ek, Res.ok_bind] at erI
      rw [ek, Res.ok_bind, Res.ok_bind]
      dsimp only at erI ⊢
      cases hsp : r.split with
      | none => rfl
      | some sr =>
        rw [hsp] at erI
        dsimp only at erI ⊢
        have h0 : addSplitAt o { n with kids := kids } k1.length k sr.1 r.tree sr.2 0 = .ok { n with kids := kids } := by
          unfold addSplitAt
          unfold insertEntry at erI
          split
          · rename_i hfull
            rw [if_pos hfull] at erI
            obtain ⟨sp, esp, _⟩ := Res.bind_eq_ok.1 erI
            rw [esp, Res.ok_bind, if_pos (by omega)]
            rfl
          · rfl
        rw [h0]
        rfl

/-! ## The whole insert -/

/-- Keys that the crash loses: before the new root is in place, those behind the key that splits the old one. -/
def LostIns (o : Ops K V L) (s : State K L) (k : K) (v : V) (j q : Nat) (x : K) : Prop :=
  if j < s.depth then LostAt o s.depth s.heap s.root k v j q x
  else q < 6 ∧ ∃ r sr, insertT o s.depth s.heap s.root k v = .ok r ∧ r.split = some sr ∧ sr.1 ≤ x

/-- Separators that a branch node holds twice. -/
def DupIns (o : Ops K V L) (s : State K L) (k : K) (v : V) (j q : Nat) (x : K) : Prop :=
  j < s.depth ∧ DupAt o s.depth s.heap s.root k v j q x

/-- The insert needs a new root, and the crash is between the assignments to `rootNode` and `depth`. -/
def MixedIns (o : Ops K V L) (s : State K L) (k : K) (v : V) (j q : Nat) : Prop :=
  s.depth ≤ j ∧ q = 6 ∧ ∃ r sr, insertT o s.depth s.heap s.root k v = .ok r ∧ r.split = some sr

theorem lookup_eq_lookT (s : State K L) (x : K) : lookup o s x = lookT o s.depth s.heap s.root x := rfl

theorem insertAt_lookup (hlm : lm ≤ W.lmin) (hbm : bm ≤ (o.N - 1) / 2) (hN : 2 ≤ o.N) (hrm : rm ≤ 1) (hD : DupSearch o) {s : State K L}
    (g : Good W lm bm rm s) (k : K) (v : V) (ha : W.adm k) (j q : Nat) :
    (MixedIns o s k v j q → insertAt o s k v j q = .ok .mixed) ∧
    (¬ MixedIns o s k v j q → ∃ s', insertAt o s k v j q = .ok (.tree s') ∧ ∀ x,
      (lookup o s' x = .ok none ∨ lookup o s' x = .ok (find x (upsert k v (cont W s)))) ∧
      (ExactSearch o ∨ ¬ DupIns o s k v j q x → (LostIns o s k v j q x → lookup o s' x = .ok none) ∧
        (¬ LostIns o s k v j q x → lookup o s' x = .ok (find x (upsert k v (cont W s)))))) := by
  have w : Wf s.heap ([] ++ ids s.depth s.root ++ []) := by simpa using g.wf
  obtain ⟨r, er, _, _, _, hpost⟩ := insertT_spec hlm hbm hN k v ha s.depth (rootMin rm s.depth) s.heap s.root ⊥ ⊤ [] [] g.bt (inR_univ k) w
  unfold insertAt LostIns DupIns MixedIns
  by_cases hj : j < s.depth
  · rw [if_pos hj]
    refine ⟨fun hm => absurd hm.1 (by omega), fun _ => ?_⟩
    obtain ⟨ra, ri, e1, _, _, hall⟩ := insAt_lookT hlm hbm hN hD k v ha j q s.depth _ s.heap s.root ⊥ ⊤ [] [] hj g.bt (inR_univ k) w
    rw [e1, Res.ok_bind]
    refine ⟨_, rfl, fun x => ?_⟩
    simp only [if_pos hj, hj, true_and]
    exact hall x (inR_univ x)
  · rw [if_neg hj, er, Res.ok_bind]
    unfold InsPost at hpost
    obtain ⟨s1, es1, g1, c1⟩ := insert_good hlm hbm hN hrm g k v ha
    cases hsp : r.split with
    | none =>
      rw [hsp] at hpost
      obtain ⟨hb, _, hc⟩ := hpost
      refine ⟨fun hm => ?_, fun _ => ⟨_, rfl, fun x => ?_⟩⟩
      · obtain ⟨_, _, r', sr, h1, h2⟩ := hm
        cases Res.ok.inj h1
        rw [hsp] at h2; cases h2
      · have hl := lookT_any hb x
        rw [hc] at hl
        refine ⟨Or.inr hl, fun _ => ⟨fun hL => ?_, fun _ => hl⟩⟩
        rw [if_neg hj] at hL
        obtain ⟨_, r', sr, h1, h2, _⟩ := hL
        cases Res.ok.inj h1
        rw [hsp] at h2; cases h2
    | some sr =>
      rw [hsp] at hpost
      obtain ⟨hbl, hbr, _, hc⟩ := hpost
      dsimp only
      by_cases q6 : q < 6
      · rw [if_pos q6]
        refine ⟨fun hm => absurd hm.2.1 (by omega), fun _ => ⟨_, rfl, fun x => ?_⟩⟩
        have hl : lookup o ⟨s.depth, r.tree, r.heap⟩ x = .ok (find x (content W r.heap (ids s.depth r.tree))) := lookT_any hbl x
        rw [if_neg hj, hl]
        have hiff : (q < 6 ∧ ∃ r' sr', Res.ok r = Res.ok r' ∧ r'.split = some sr' ∧ sr'.1 ≤ x) ↔ sr.1 ≤ x := by
          constructor
          · rintro ⟨_, r', sr', h1, h2, h3⟩
            cases Res.ok.inj h1
            rw [hsp] at h2
            cases Option.some.inj h2
            exact h3
          · exact fun h3 => ⟨q6, r, sr, rfl, hsp, h3⟩
        rw [hiff]
        have hcc : cont W s = content W s.heap (ids s.depth s.root) := rfl
        rw [hcc, ← hc, content_append]
        rcases lt_or_ge x sr.1 with hx | hx
        · rw [find_append_left (l := content W r.heap (ids s.depth r.tree))]
          · exact ⟨Or.inr rfl, fun _ => ⟨fun hc => absurd hx (not_lt.2 hc), fun _ => rfl⟩⟩
          · rintro e he rfl
            exact absurd hx (not_lt.2 (bk_le.1 (hbr.bounds e he).1))
        · have hnone : find x (content W r.heap (ids s.depth r.tree)) = none := by
            rw [find_eq_none]
            rintro e he rfl
            exact absurd (bk_lt.1 (hbl.bounds e he).2) (not_lt.2 hx)
          rw [hnone]
          exact ⟨Or.inl rfl, fun _ => ⟨fun _ => rfl, fun hc => absurd hx hc⟩⟩
      · rw [if_neg q6]
        by_cases q7 : q = 6
        · rw [if_pos q7]
          exact ⟨fun _ => rfl, fun hm => absurd ⟨by omega, q7, r, sr, rfl, hsp⟩ hm⟩
        · rw [if_neg q7, es1, Res.ok_bind]
          refine ⟨fun hm => absurd hm.2.1 q7, fun _ => ⟨s1, rfl, fun x => ?_⟩⟩
          rw [if_neg hj, lookup_good g1, c1]
          exact ⟨Or.inr rfl, fun _ => ⟨fun hc => absurd hc.1 q6, fun _ => rfl⟩⟩

/-- The crash points follow each other, and the last one is the insert. -/
theorem insertAt_next (hlm : lm ≤ W.lmin) (hbm : bm ≤ (o.N - 1) / 2) (hN : 2 ≤ o.N) {s : State K L}
    (g : Good W lm bm rm s) (k : K) (v : V) (ha : W.adm k) {j q : Nat} (hq : lastChange o ≤ q) :
    (j < s.depth → insertAt o s k v j q = insertAt o s k v (j + 1) 0) ∧
    (s.depth ≤ j → insertAt o s k v j q = insert o s k v >>= fun s' => pure (.tree s')) := by
  have w : Wf s.heap ([] ++ ids s.depth s.root ++ []) := by simpa using g.wf
  obtain ⟨r, er, _, _, _, hpost⟩ := insertT_spec hlm hbm hN k v ha s.depth (rootMin rm s.depth) s.heap s.root ⊥ ⊤ [] [] g.bt (inR_univ k) w
  refine ⟨fun hj => ?_, fun hj => ?_⟩
  · unfold insertAt
    rw [if_pos hj]
    by_cases hj1 : j + 1 < s.depth
    · rw [if_pos hj1, insAt_next hlm hbm hN k v ha hq s.depth _ s.heap s.root ⊥ ⊤ [] [] hj1 g.bt (inR_univ k) w]
    · rw [if_neg hj1, er, Res.ok_bind]
      obtain ⟨depth, root, heap⟩ := s
      simp only at hj hj1 er w ⊢
      have hbt := g.bt
      simp only at hbt
      obtain rfl : depth = j + 1 := by omega
      obtain ⟨r', er', e⟩ := insAt_full hlm hbm hN k v ha hq hbt (inR_univ k) w
      rw [er] at er'
      cases Res.ok.inj er'
      rw [e, Res.ok_bind]
      cases r.split with
      | none => rfl
      | some sr => simp only [Nat.zero_lt_succ, if_true]
  · unfold insertAt lastChange at *
    rw [if_neg (by omega)]
    unfold insert
    rw [er, Res.ok_bind, Res.ok_bind]
    cases r.split with
    | none => rfl
    | some sr => simp only; rw [if_neg (by omega), if_neg (by omega)]

end Verif.BTree
