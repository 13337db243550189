import Verif.BTree.MergeCrashMove

/-!
# Crashes inside a move of entries to the right neighbour in HPBPTree and PBPTree: a key is lost

`balanceLeafNodes(donor, receiver)` with the donor on the left (P546-564, H927-941): the receiver first shifts its entries up without
changing its counter, and then gets the new entries.
-/

set_option linter.unusedSectionVars false

namespace Verif.BTree

open Verif Search Assoc MapSpec

variable {K V : Type} [LinearOrder K] {c : SCfg K V}

/-- An array of `n` entries whose last `j` have been copied up by `T` slots. -/
def upArr {α : Type} (a : Slots α) (n T j : Nat) : Slots α := fun i => if n - j + T ≤ i ∧ i < n + T then a (i - T) else a i

theorem upArr_step {α : Type} (a : Slots α) {n T j : Nat} (hT : 1 ≤ T) (hj : j < n) {y : α} (hy : a (n - j - 1) = some y) :
    upArr a n T j (n - j - 1) = some y ∧
      (fun i => if i = n - j + T - 1 then some y else upArr a n T j i) = upArr a n T (j + 1) := by
  constructor
  · rw [upArr, if_neg (by omega), hy]
  · funext i
    simp only [upArr]
    by_cases hi : i = n - j + T - 1
    · rw [if_pos hi, if_pos (by omega), ← hy]
      congr 1; omega
    · rw [if_neg hi]
      by_cases h : n - j + T ≤ i ∧ i < n + T
      · rw [if_pos h, if_pos (by omega)]
      · rw [if_neg h, if_neg (by omega)]

/-- P550-556, H930-934: the first assignments to the receiver. -/
def upInstrs (n T j : Nat) : List (SInstr K V) :=
  (List.range j).flatMap (fun j => [.copyKey (n - j + T - 1) (n - j - 1), .copyVal (n - j + T - 1) (n - j - 1)])

theorem up_all {l : SLeaf K V} {M n T : Nat} (hn : n + T ≤ M) (hT : 1 ≤ T) {a : Nat → K} {b : Nat → V}
    (hk : ∀ i, i < n → l.keys i = some (a i)) (hv : ∀ i, i < n → l.vals i = some (b i)) : ∀ j, j ≤ n →
    SInstr.applyAll M l (upInstrs n T j) = .ok ⟨l.num, upArr l.keys n T j, upArr l.vals n T j⟩
  | 0, _ => by
    have h0 : ∀ {α : Type} (a : Slots α), upArr a n T 0 = a := by
      intro α a; funext i
      rw [upArr, if_neg (by omega)]
    rw [h0, h0]; rfl
  | j + 1, hj => by
    have ih := up_all hn hT hk hv j (by omega)
    obtain ⟨e1, e2⟩ := upArr_step l.keys (n := n) (T := T) (j := j) hT (by omega) (hk (n - j - 1) (by omega))
    obtain ⟨e3, e4⟩ := upArr_step l.vals (n := n) (T := T) (j := j) hT (by omega) (hv (n - j - 1) (by omega))
    have : (upInstrs n T (j + 1) : List (SInstr K V)) =
        upInstrs n T j ++ [.copyKey (n - j + T - 1) (n - j - 1)] ++ [.copyVal (n - j + T - 1) (n - j - 1)] := by
      simp [upInstrs, List.range_succ, List.flatMap_append]
    rw [this, applyAll_append, applyAll_append, ih, Res.ok_bind, SInstr.apply]
    dsimp only
    rw [Slots.rd_ok (by omega) e1, Res.ok_bind, Slots.wr_ok _ _ (by omega), Res.ok_bind, e2]
    rw [show (pure (⟨l.num, upArr l.keys n T (j + 1), upArr l.vals n T j⟩ : SLeaf K V) : Res (SLeaf K V)) = .ok _ from rfl, Res.ok_bind,
      SInstr.apply]
    dsimp only
    rw [Slots.rd_ok (by omega) e3, Res.ok_bind, Slots.wr_ok _ _ (by omega), Res.ok_bind, e4]
    rfl

/-- A leaf with the given entries. -/
theorem LRep.exists {M : Nat} {es : List (K × V)} (hs : Sorted es) (hc : es.length ≤ M) : ∃ l : SLeaf K V, LRep M l es :=
  ⟨⟨es.length, fun i => (es.map (·.1))[i]?, fun i => (es.map (·.2))[i]?⟩, rfl, hc, fun _ _ => rfl, fun _ _ => rfl, hs⟩

theorem LRep.first {M : Nat} {l : SLeaf K V} {e : K × V} {es : List (K × V)} (h : LRep M l (e :: es)) : l.keys 0 = some e.1 := by
  rw [h.keys 0 (by simp)]; rfl

/-- A move of entries from `a` to its right neighbour `b`: after the first assignment to slot 0 of `b` a stored key is not found. -/
theorem moveR_crash (C : CfgLaws c) (hu : USearch c) (hN : 2 ≤ c.N) {h : Heap (SLeaf K V)} {pre post : List Nat} {a b first : Nat}
    {m : K → Option V} (hp : PersL (sortedLaws C) h (pre ++ a :: b :: post) m)
    (hf : (pre ++ a :: b :: post).head? = some first) {la lb : SLeaf K V} {ea eb : List (K × V)} (ha : h.data a = some la)
    (hb : h.data b = some lb) (ra : LRep c.M la ea) (rb : LRep c.M lb eb) (hlt : eb.length < ea.length) :
    ∃ us x h' s', balanceW c h a b = .ok us ∧ 2 * eb.length + 1 < us.length ∧ find x eb ≠ none ∧ m x ≠ none ∧
      applyW c.M h (us.take (2 * eb.length + 1)) = .ok h' ∧ recoverH (sortedOps c) h' first = .ok s' ∧
      lookup (sortedOps c) s' x = .ok none ∧
      ∀ s : State K (SLeaf K V), findLeaf (sortedOps c) s.depth s.root x = .ok b →
        lookup (sortedOps c) (s.withHeap h') x = .ok none := by
  have hnd := hp.nodup
  have hab : a ≠ b := by
    rw [List.nodup_append, List.nodup_cons] at hnd
    rintro rfl
    exact hnd.2.1.1 (by simp)
  have hent : ent (sortedLaws C) h a = ea := by simp only [ent, ha]; exact ra.abs
  have hentb : ent (sortedLaws C) h b = eb := by simp only [ent, hb]; exact rb.abs
  have hsort := hp.sorted
  rw [content_append, content_cons, content_cons, hent, hentb] at hsort
  have hsab : Sorted (ea ++ eb) := by
    have h1 := (sorted_append.1 hsort).2.1
    rw [← List.append_assoc] at h1
    exact (sorted_append.1 h1).1
  have hlt' : ∀ x ∈ ea, ∀ y ∈ eb, x.1 < y.1 := (sorted_append.1 hsab).2.2
  have hne : eb ≠ [] := by
    obtain ⟨l, hl, _, h1⟩ := hp.leaf b (by simp)
    rw [hb] at hl
    cases Option.some.inj hl
    have h1 := h1 (by simp; omega)
    rwa [show (sortedLaws C).abs lb = eb from rb.abs] at h1
  have hlen := List.length_pos_iff.2 hne
  have hmem : ∀ e ∈ ea ++ eb, m e.1 = some e.2 := by
    intro e he
    rw [← hp.find e.1, content_append, content_cons, content_cons, hent, hentb]
    refine (mem_iff_find hsort).1 ?_
    rw [← List.append_assoc ea]
    simp only [List.mem_append] at he ⊢
    tauto
  have hminok : MinOk (sortedLaws C) := (sortedErase C).minKey
  have na := ra.num
  have nb := rb.num
  have capa := ra.cap
  have capb := rb.cap
  obtain ⟨B, hB⟩ : ∃ B, B = (ea.length + eb.length) / 2 := ⟨_, rfl⟩
  obtain ⟨T, hT⟩ : ∃ T, T = ea.length - B := ⟨_, rfl⟩
  have hT1 : 1 ≤ T := by omega
  have hcap : eb.length + T ≤ c.M := by omega
  obtain ⟨n, hn⟩ : ∃ n, n = eb.length := ⟨_, rfl⟩
  obtain ⟨e, es, hes⟩ : ∃ e es, ea.drop B = e :: es := by
    cases h1 : ea.drop B with
    | nil =>
      have := congrArg List.length h1
      rw [List.length_drop, List.length_nil] at this
      omega
    | cons e es => exact ⟨e, es, rfl⟩
  have hesl : es.length + 1 = T := by
    have := congrArg List.length hes
    rw [List.length_drop, List.length_cons] at this
    omega
  have hsp : ea.take B ++ (e :: es) = ea := by rw [← hes, List.take_append_drop]
  have hea : e ∈ ea := by rw [← hsp]; simp
  have htn : (ea.take B).length = B := by rw [List.length_take]; omega
  -- the program
  obtain ⟨ka, hka, ka', hka', rfl⟩ := ra.slot0 (by omega)
  obtain ⟨kb, hkb, kb', hkb', rfl⟩ := rb.slot0 (by omega)
  have hkk : ka'.1 < kb'.1 := hlt' _ hka' _ hkb'
  obtain ⟨tl, htl⟩ : ∃ tl : List (SWrite K V), tl = .leaf b (.val 0 e.2) :: .leaf b (.num (n + 1)) :: moveWrites b 1 (n + 1) es ++
      [.leaf a (.num (ea.length - T))] := ⟨_, rfl⟩
  have heq : balanceW c h a b = .ok ((upInstrs n T n).map (.leaf b) ++ ([.leaf b (.key 0 e.1)] ++ tl)) := by
    unfold balanceW
    rw [Heap.get_of ha, Res.ok_bind, Heap.get_of hb, Res.ok_bind, Res.assert_pos (by omega), Res.ok_bind]
    dsimp only
    have es' := scanFrom_mid (c := c) (e :: es) (ea.take B) [] (by rw [List.append_nil, hsp]; exact ra)
    rw [htn, List.length_cons, hesl] at es'
    rw [na, nb, ← hB, ← hT, if_neg (by omega), Slots.rd_ok (by omega) hka, Res.ok_bind, Slots.rd_ok (by omega) hkb, Res.ok_bind, if_pos hkk,
      es', Res.ok_bind, htl, ← hn]
    simp only [upInstrs, List.map_flatMap, List.map_cons, List.map_nil, List.append_assoc, moveWrites, List.cons_append, List.nil_append]
    rfl
  -- the leaf `b` at the crash
  obtain ⟨av, bv, vw, hs, hin, hno⟩ := rb.view kb'.1 kb'.2
  have UP := up_all (l := lb) (M := c.M) (n := n) (T := T) (by omega) hT1 (fun i hi => vw.keys i (by omega)) (fun i hi => vw.vals i (by omega)) n le_rfl
  obtain ⟨lb', hlb'⟩ : ∃ lb' : SLeaf K V, lb' = ⟨lb.num, fun j => if j = 0 then some e.1 else upArr lb.keys n T n j, upArr lb.vals n T n⟩ :=
    ⟨_, rfl⟩
  have hcr : applyW c.M h (((upInstrs n T n).map (SWrite.leaf b) ++ ([SWrite.leaf b (.key 0 e.1)] ++ tl)).take (2 * n + 1)) = .ok (h.set b lb') := by
    have hul : (upInstrs n T n : List (SInstr K V)).length = 2 * n := by
      simp [upInstrs, List.length_flatMap]; omega
    rw [List.take_append, List.take_of_length_le (by rw [List.length_map, hul]; omega), List.length_map, hul,
      show 2 * n + 1 - 2 * n = 1 by omega, List.singleton_append, List.take_succ_cons, List.take_zero, applyW_append,
      applyW_leaf _ _ _ _ hb UP, Res.ok_bind, applyW, SWrite.leaf_ok (Heap.set_data _ _ _) (l' := lb') ?_, Res.ok_bind, Heap.set_same]
    · rfl
    · rw [SInstr.apply]
      dsimp only
      rw [Slots.wr_ok _ _ (by omega), Res.ok_bind, hlb']
      rfl
  -- the slots
  have hav0 : ∀ i, i < n → e.1 < av i := by
    intro i hi
    exact hlt' e hea _ (find_some_mem (hin i (by omega)))
  obtain ⟨q, hq⟩ : ∃ q, q = if n ≤ T then 0 else n - 1 := ⟨_, rfl⟩
  have hqn : q < n := by rw [hq]; split <;> omega
  have inj : ∀ i j, i < n → j < n → av i = av j → i = j := by
    intro i j hi hj h
    rcases Nat.lt_trichotomy i j with h' | h' | h'
    · exact absurd h (hs i j h' (by omega)).ne
    · exact h'
    · exact absurd h (hs j i h' (by omega)).ne'
  have hslotk : ∀ i, i < n → lb'.keys i = some (if i = 0 then e.1 else if T ≤ i then av (i - T) else av i) := by
    intro i hi
    rw [hlb']
    dsimp only
    by_cases h0 : i = 0
    · rw [if_pos h0, if_pos h0]
    · rw [if_neg h0, if_neg h0, upArr]
      by_cases h1 : T ≤ i
      · rw [if_pos (by omega), if_pos h1]; exact vw.keys _ (by omega)
      · rw [if_neg (by omega), if_neg h1]; exact vw.keys _ (by omega)
  have hslotv : ∀ i, i < n → lb'.vals i = some (if T ≤ i then bv (i - T) else bv i) := by
    intro i hi
    rw [hlb']
    dsimp only
    rw [upArr]
    by_cases h1 : T ≤ i
    · rw [if_pos (by omega), if_pos h1]; exact vw.vals _ (by omega)
    · rw [if_neg (by omega), if_neg h1]; exact vw.vals _ (by omega)
  have hlost : lb'.lookup c (av q) = .ok none := by
    rcases lookup_any hu (l := lb') (n := n) (by rw [hlb']; dsimp only; omega) (by omega) hslotk hslotv (av q) with ⟨p, hp, e1, _⟩ | ⟨e1, _⟩
    · exfalso
      by_cases h0 : p = 0
      · rw [if_pos h0] at e1
        exact (hav0 q hqn).ne e1
      · rw [if_neg h0] at e1
        by_cases h1 : T ≤ p
        · rw [if_pos h1] at e1
          have := inj _ _ (by omega) hqn e1
          rw [hq] at this
          split at this <;> omega
        · rw [if_neg h1] at e1
          have := inj _ _ hp hqn e1
          rw [hq] at this
          split at this <;> omega
    · exact e1
  have hfq : find (av q) eb ≠ none := by rw [hin q (by omega)]; simp
  have hmq : m (av q) ≠ none := by
    rw [hmem (av q, bv q) (by simp [find_some_mem (hin q (by omega))])]; simp
  refine ⟨(upInstrs n T n).map (SWrite.leaf b) ++ ([SWrite.leaf b (.key 0 e.1)] ++ tl), av q, h.set b lb', ?_⟩
  -- the leaves after the move
  have hs1 : Sorted ((e :: es) ++ eb) := by
    rw [← hsp, List.append_assoc] at hsab
    exact (sorted_append.1 hsab).2.1
  obtain ⟨lA, rA⟩ := LRep.exists (M := c.M) (es := ea.take B) (by
    have := ra.sorted
    rw [← hsp] at this
    exact (sorted_append.1 this).1) (by omega)
  obtain ⟨lB, rB⟩ := LRep.exists (M := c.M) hs1 (by simp; omega)
  obtain ⟨lC, rC⟩ := LRep.exists (M := c.M) (es := remove (av q) ((e :: es) ++ eb)) (List.Pairwise.filter _ hs1)
    (le_trans (List.length_filter_le _ _) (by simp; omega))
  have hremc : remove (av q) ((e :: es) ++ eb) = e :: remove (av q) (es ++ eb) := by
    rw [List.cons_append, remove, remove, List.filter_cons_of_pos]
    simpa using (hav0 q hqn).ne
  have habsA : (sortedLaws C).abs lA = ea.take B := rA.abs
  have habsB : (sortedLaws C).abs lB = (e :: es) ++ eb := rB.abs
  have habsC : (sortedLaws C).abs lC = remove (av q) ((e :: es) ++ eb) := rC.abs
  have hneA : (sortedLaws C).abs lA ≠ [] := by
    rw [habsA]; apply List.length_pos_iff.1; omega
  have hp2 : PersL (sortedLaws C) ((h.set a lA).set b lB) (pre ++ a :: b :: post) m := by
    refine hp.two (la' := lA) (lb' := lB) ha hb (by rw [Heap.set_data_ne _ hab, Heap.set_data]) (Heap.set_data _ _ _)
      (fun i h1 h2 => by rw [Heap.set_data_ne _ h2, Heap.set_data_ne _ h1]) rfl rfl ⟨_, rA⟩ ⟨_, rB⟩ hneA ?_ ?_
    · rw [habsB]; simp
    · rw [habsA, habsB, show (sortedLaws C).abs la = _ from ra.abs, show (sortedLaws C).abs lb = _ from rb.abs, ← List.append_assoc, hsp]
  obtain ⟨rest, hrest⟩ := head_cons hf
  have hp2' := hp2
  rw [hrest] at hp2'
  obtain ⟨s2, g1, g2, g3⟩ := hp2'.look hN hminok
  -- without the key
  have hp3 : PersL (sortedLaws C) ((h.set a lA).set b lC) (pre ++ a :: b :: post) (fun x => if x = av q then none else m x) := by
    have hp2c := hp2
    obtain ⟨pa, hpa⟩ : ∃ pa, pa = pre ++ [a] := ⟨_, rfl⟩
    rw [show pre ++ a :: b :: post = pa ++ b :: post by rw [hpa]; simp] at hp2c ⊢
    have hsorted := hp2c.sorted
    have hentB : ent (sortedLaws C) ((h.set a lA).set b lB) b = (e :: es) ++ eb := by
      simp only [ent, Heap.set_data]; exact habsB
    rw [content_append, content_cons, hentB] at hsorted
    have hin1 : (av q, bv q) ∈ (e :: es) ++ eb := by simp [find_some_mem (hin q (by omega))]
    have hrem : content (sortedLaws C) ((h.set a lA).set b lB) pa ++ ((sortedLaws C).abs lC ++
        content (sortedLaws C) ((h.set a lA).set b lB) post) =
        remove (av q) (content (sortedLaws C) ((h.set a lA).set b lB) (pa ++ b :: post)) := by
      rw [content_append, content_cons, hentB, remove_append, remove_append, habsC]
      rw [remove_eq_self (k := av q) (l := content (sortedLaws C) ((h.set a lA).set b lB) pa) (fun e' he' =>
        ((sorted_append.1 hsorted).2.2 e' he' (av q, bv q) (List.mem_append_left _ hin1)).ne)]
      rw [remove_eq_self (k := av q) (l := content (sortedLaws C) ((h.set a lA).set b lB) post) (fun e' he' =>
        ((sorted_append.1 (sorted_append.1 hsorted).2.1).2.2 (av q, bv q) hin1 e' he').ne')]
    refine hp2c.one (la' := lC) (Heap.set_data _ _ _) (Heap.set_data _ _ _) (fun i hi => by
      rw [Heap.set_data_ne _ hi, Heap.set_data_ne _ hi]) rfl rfl ⟨_, rC⟩ (fun _ => ?_) ?_ (fun x => ?_)
    · rw [habsC, hremc]; simp
    · rw [hrem]; exact List.Pairwise.filter _ hp2c.sorted
    · rw [hrem, find_remove, hp2c.find]
  have hp3' := hp3
  rw [hrest] at hp3'
  obtain ⟨s3, k1, k2, k3⟩ := hp3'.look hN hminok
  have min0 : ∀ {l l' : SLeaf K V}, l.keys 0 = l'.keys 0 → (sortedOps c).minKey l = (sortedOps c).minKey l' := by
    intro l l' h0
    show Slots.rd c.M l.keys 0 = Slots.rd c.M l'.keys 0
    unfold Slots.rd
    rw [h0]
  have hminB : lB.keys 0 = some e.1 := rB.first (es := es ++ eb)
  have hminC : lC.keys 0 = some e.1 := by
    rw [hremc] at rC; exact rC.first
  have hminb' : lb'.keys 0 = some e.1 := by rw [hlb']; rfl
  have hminA : lA.keys 0 = la.keys 0 := by
    rw [rA.keys 0 (by simp; omega), ra.keys 0 (by simp; omega), List.map_take, List.getElem?_take_of_lt (by omega)]
  rw [recoverH_congr (h := (h.set a lA).set b lC) (h0 := (h.set a lA).set b lB) rfl rfl (fun i => by
    by_cases hi : i = b
    · rw [hi, Heap.set_data, Heap.set_data, Option.map_some, Option.map_some, min0 (hminC.trans hminB.symm)]
    · rw [Heap.set_data_ne _ hi, Heap.set_data_ne _ hi]), g1, Res.ok_bind] at k1
  -- the leaf of the key
  have hroute : findLeaf (sortedOps c) s2.depth s2.root (av q) = .ok b := by
    have h2 := g3 (av q)
    have h3 := k3 (av q)
    rw [← Res.ok.inj k1, if_pos rfl] at h3
    unfold lookup at h2 h3
    obtain ⟨i, ei, h2⟩ := Res.bind_eq_ok.1 h2
    change (findLeaf (sortedOps c) s2.depth s2.root (av q) >>= _) = _ at h3
    rw [ei, Res.ok_bind] at h3
    by_cases hi : i = b
    · rw [ei, hi]
    · exfalso
      rw [g2] at h2
      change (((h.set a lA).set b lC).get i >>= _) = _ at h3
      have hget : ((h.set a lA).set b lC).get i = ((h.set a lA).set b lB).get i := by
        unfold Heap.get
        rw [Heap.set_data_ne _ hi, Heap.set_data_ne _ hi]
      rw [hget, h2] at h3
      exact hmq (Res.ok.inj h3)
  have hlk : ∀ s : State K (SLeaf K V), findLeaf (sortedOps c) s.depth s.root (av q) = .ok b →
      lookup (sortedOps c) (s.withHeap (h.set b lb')) (av q) = .ok none := by
    intro s hs
    unfold lookup
    change (findLeaf (sortedOps c) s.depth s.root (av q) >>= _) = _
    rw [hs, Res.ok_bind]
    change ((h.set b lb').get b >>= _) = _
    rw [Heap.get_of (Heap.set_data _ _ _), Res.ok_bind]
    exact hlost
  refine ⟨s2.withHeap (h.set b lb'), heq, ?_, hfq, hmq, by rw [← hn]; exact hcr, ?_, hlk s2 hroute, hlk⟩
  · have hul : (upInstrs n T n : List (SInstr K V)).length = 2 * n := by
      simp [upInstrs, List.length_flatMap]; omega
    rw [List.length_append, List.length_map, hul, htl]
    simp
    omega
  · rw [recoverH_congr (h := h.set b lb') (h0 := (h.set a lA).set b lB) rfl rfl (fun i => ?_), g1, Res.ok_bind]
    by_cases hi : i = b
    · rw [hi, Heap.set_data, Heap.set_data, Option.map_some, Option.map_some, min0 (hminb'.trans hminB.symm)]
    · rw [Heap.set_data_ne _ hi, Heap.set_data_ne _ hi]
      by_cases hia : i = a
      · rw [hia, Heap.set_data, ha, Option.map_some, Option.map_some, min0 hminA]
      · rw [Heap.set_data_ne _ hia]

end Verif.BTree
