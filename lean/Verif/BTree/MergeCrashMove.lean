import Verif.BTree.MergeCrashShift

/-!
# Crashes inside a move of entries to the left neighbour in HPBPTree: recovery
-/

set_option linter.unusedSectionVars false

namespace Verif.BTree

open Verif Search Assoc MapSpec

variable {K V : Type} [LinearOrder K] {c : SCfg K V}

/-- Entries move between two neighbours. -/
theorem PersL.two {L : Type} {o : Ops K V L} {W : Laws o} {h h' : Heap L} {pre post : List Nat} {a b : Nat} {m : K → Option V}
    (hp : PersL W h (pre ++ a :: b :: post) m) {la lb la' lb' : L} (ha : h.data a = some la) (hb : h.data b = some lb)
    (ha' : h'.data a = some la') (hb' : h'.data b = some lb') (ho : ∀ i, i ≠ a → i ≠ b → h'.data i = h.data i)
    (hn : h'.next = h.next) (hf : h'.fresh = h.fresh) (oka : W.ok la') (okb : W.ok lb') (na : W.abs la' ≠ []) (nb : W.abs lb' ≠ [])
    (he : W.abs la' ++ W.abs lb' = W.abs la ++ W.abs lb) : PersL W h' (pre ++ a :: b :: post) m := by
  have hnd := hp.nodup
  obtain ⟨p, w⟩ := hp.wf
  rw [List.nodup_append, List.nodup_cons, List.nodup_cons] at hnd
  have hpre : ∀ i ∈ pre, h'.data i = h.data i := fun i hi => ho i (hnd.2.2 i hi a (by simp)) (hnd.2.2 i hi b (by simp))
  have hpost : ∀ i ∈ post, h'.data i = h.data i := fun i hi =>
    ho i (by rintro rfl; exact hnd.2.1.1 (by simp [hi])) (by rintro rfl; exact hnd.2.1.2.1 hi)
  have hc : content W h' (pre ++ a :: b :: post) = content W h (pre ++ a :: b :: post) := by
    rw [content_append, content_append, content_cons, content_cons, content_cons, content_cons, content_congr _ hpre, content_congr _ hpost,
      ← List.append_assoc (ent _ h a), ← List.append_assoc (ent _ h' a)]
    have e3 : ent W h' a ++ ent W h' b = ent W h a ++ ent W h b := by
      simp only [ent, ha, hb, ha', hb']
      exact he
    rw [e3]
  have hleaf : ∀ i ∈ pre ++ a :: b :: post, ∃ l, h'.data i = some l ∧ W.ok l ∧ (1 < (pre ++ a :: b :: post).length → (W.abs l) ≠ []) := by
    intro i hi
    by_cases h1 : i = a
    · subst h1; exact ⟨la', ha', oka, fun _ => na⟩
    · by_cases h2 : i = b
      · subst h2; exact ⟨lb', hb', okb, fun _ => nb⟩
      · rw [ho i h1 h2]; exact hp.leaf i hi
  refine ⟨⟨p, wf_dataL w hn rfl hf (fun i hi => ?_)⟩, by rw [hc]; exact hp.sorted, hleaf, fun x => by rw [hc]; exact hp.find x⟩
  obtain ⟨l, hl, _⟩ := hleaf i hi
  show (h'.data i).isSome
  rw [hl]; rfl

/-- `P` but for one key, which has the value of a smaller key. -/
def TornAt (lk : K → Res (Option V)) (m : K → Option V) (odd : Prop) : Prop :=
  ∃ x0, ∀ x, lk x = .ok (m x) ∨ (odd ∧ x = x0 ∧ m x ≠ none ∧ ∃ y, y < x0 ∧ m y ≠ none ∧ lk x = .ok (m y))

/-- All crash points of a move of entries from `b` to its left neighbour `a`. -/
theorem move_crash (C : CfgLaws c) (hu : USearch c) (hN : 2 ≤ c.N) {h : Heap (SLeaf K V)} {pre post : List Nat} {a b first : Nat}
    {m : K → Option V} (hp : PersL (sortedLaws C) h (pre ++ a :: b :: post) m)
    (hf : (pre ++ a :: b :: post).head? = some first) {la lb : SLeaf K V} {ea eb : List (K × V)} (ha : h.data a = some la)
    (hb : h.data b = some lb) (ra : LRep c.M la ea) (rb : LRep c.M lb eb) (hlt : ea.length < eb.length) :
    ∃ us T, balanceW c h b a = .ok us ∧ 1 ≤ T ∧ T < eb.length ∧ us.length = 3 * T + 2 * (eb.length - T) + 1 ∧
      (∃ x h', find x eb ≠ none ∧ applyW c.M h (us.take (3 * T + 1)) = .ok h' ∧
        ∀ s : State K (SLeaf K V), findLeaf (sortedOps c) s.depth s.root x = .ok b →
          lookup (sortedOps c) (s.withHeap h') x = .ok none) ∧
      ∀ t, ∃ h' s', applyW c.M h (us.take t) = .ok h' ∧ recoverH (sortedOps c) h' first = .ok s' ∧
        TornAt (lookup (sortedOps c) s') m (3 * T < t ∧ (t - 3 * T) % 2 = 1 ∧ t + 1 < us.length) ∧
        (t ≤ 3 * T → ∀ s : State K (SLeaf K V), s.heap = h → (∀ x, lookup (sortedOps c) s x = .ok (m x)) → ∀ x,
          lookup (sortedOps c) (s.withHeap h') x = .ok (m x)) ∧
        (us.length ≤ t → balanceLeaf (sortedOps c) h b a = .ok h') := by
  have hnd := hp.nodup
  have hab : a ≠ b := by
    rw [List.nodup_append, List.nodup_cons] at hnd
    rintro rfl
    exact hnd.2.1.1 (by simp)
  have hent : ent (sortedLaws C) h a = ea := by simp only [ent, ha]; exact ra.abs
  have hentb : ent (sortedLaws C) h b = eb := by simp only [ent, hb]; exact rb.abs
  have hsort := hp.sorted
  rw [content_append, content_cons, content_cons, hent, hentb] at hsort
  have hsab : Sorted (ea ++ eb) := by
    have h1 := (sorted_append.1 hsort).2.1
    rw [← List.append_assoc] at h1
    exact (sorted_append.1 h1).1
  have hlt' : ∀ x ∈ ea, ∀ y ∈ eb, x.1 < y.1 := (sorted_append.1 hsab).2.2
  have hne : ea ≠ [] := by
    obtain ⟨l, hl, _, h1⟩ := hp.leaf a (by simp)
    rw [ha] at hl
    cases Option.some.inj hl
    have h1 := h1 (by simp; omega)
    rwa [show (sortedLaws C).abs la = ea from ra.abs] at h1
  have hlen := List.length_pos_iff.2 hne
  have hmem : ∀ e ∈ ea ++ eb, m e.1 = some e.2 := by
    intro e he
    rw [← hp.find e.1, content_append, content_cons, content_cons, hent, hentb]
    refine (mem_iff_find hsort).1 ?_
    rw [← List.append_assoc ea]
    simp only [List.mem_append] at he ⊢
    tauto
  have hminok : MinOk (sortedLaws C) := (sortedErase C).minKey
  have na := ra.num
  have nb := rb.num
  have capa := ra.cap
  have capb := rb.cap
  obtain ⟨T, hT⟩ : ∃ T, T = eb.length - (eb.length + ea.length) / 2 := ⟨_, rfl⟩
  have hT1 : 1 ≤ T := by omega
  have hT2 : T < eb.length := by omega
  obtain ⟨n, hn⟩ : ∃ n, n = eb.length := ⟨_, rfl⟩
  have htl : (eb.take T).length = T := by rw [List.length_take]; omega
  -- the leaves at the end
  have hsA : Sorted (ea ++ eb.take T) := by
    have : Sorted ((ea ++ eb.take T) ++ eb.drop T) := by rw [List.append_assoc, List.take_append_drop]; exact hsab
    exact (sorted_append.1 this).1
  obtain ⟨PM, lA, eA, rA, fA⟩ := moveWrites_points (M := c.M) (a := a) (eb.take T) ea h la ha ra hsA (by rw [htl]; omega)
  have hmvl := moveWrites_length a ea.length ea.length (eb.take T)
  rw [htl] at hmvl
  obtain ⟨e0, eb0, he0⟩ : ∃ e0 eb0, eb = e0 :: eb0 := by
    cases eb with
    | nil => simp at hlt
    | cons e es => exact ⟨e, es, rfl⟩
  obtain ⟨av, bv, vw, hs, hin, hno⟩ := rb.view e0.1 e0.2
  have SP := shift_prefix (M := c.M) (T := T) vw.num vw.cap (by omega) vw.keys vw.vals
  rw [← hn] at SP
  have hshl : (shiftInstrs eb.length T : List (SInstr K V)).length = 2 * (eb.length - T) + 1 := by
    simp [shiftInstrs, List.length_flatMap]; omega
  obtain ⟨us, hus⟩ : ∃ us : List (SWrite K V), us = moveWrites a ea.length ea.length (eb.take T) ++
      (shiftInstrs eb.length T).map (.leaf b) := ⟨_, rfl⟩
  have hulen : us.length = 3 * T + 2 * (eb.length - T) + 1 := by
    rw [hus, List.length_append, hmvl, List.length_map, hshl]; omega
  -- the program
  obtain ⟨ka, hka, ka', hka', rfl⟩ := ra.slot0 (by omega)
  obtain ⟨kb, hkb, kb', hkb', rfl⟩ := rb.slot0 (by omega)
  have hkk : ¬ kb'.1 < ka'.1 := not_lt.2 (hlt' _ hka' _ hkb').le
  have heq : balanceW c h b a = .ok us := by
    unfold balanceW
    rw [Heap.get_of hb, Res.ok_bind, Heap.get_of ha, Res.ok_bind, Res.assert_pos (by omega), Res.ok_bind]
    dsimp only
    have es := scanFrom_mid (c := c) (eb.take T) [] (eb.drop T) (by rw [List.nil_append, List.take_append_drop]; exact rb)
    rw [htl, List.length_nil] at es
    rw [na, nb, ← hT, if_neg (by omega), Slots.rd_ok (by omega) hkb, Res.ok_bind, Slots.rd_ok (by omega) hka, Res.ok_bind, if_neg hkk,
      es, Res.ok_bind, hus]
    simp only [shiftInstrs, List.map_append, List.map_flatMap, List.map_cons, List.map_nil, List.append_assoc]
    rfl
  refine ⟨us, T, heq, hT1, hT2, hulen, ?_⟩
  have hdb : (h.set a lA).data b = some lb := by rw [Heap.set_data_ne _ (Ne.symm hab), hb]
  -- the receiver gets entries
  have phaseM : ∀ {la' : SLeaf K V} {i : Nat}, LRep c.M la' (ea ++ (eb.take T).take i) →
      (∃ s', recoverH (sortedOps c) (h.set a la') first = .ok s' ∧ ∀ x, lookup (sortedOps c) s' x = .ok (m x)) ∧
      ∀ s : State K (SLeaf K V), s.heap = h → (∀ x, lookup (sortedOps c) s x = .ok (m x)) → ∀ x,
        lookup (sortedOps c) (s.withHeap (h.set a la')) x = .ok (m x) := by
    intro la' i r
    have shadow : ∀ s : State K (SLeaf K V), s.heap = h → (∀ x, lookup (sortedOps c) s x = .ok (m x)) → ∀ x,
        lookup (sortedOps c) (s.withHeap (h.set a la')) x = .ok (m x) := by
      intro s hs hl
      refine lookup_shadow (W := sortedLaws C) hl (a := a) (la := la) (la' := la') (es := (eb.take T).take i) (by rw [hs, ha]) ⟨_, ra⟩
        (Heap.set_data _ _ _) ⟨_, r⟩ (fun i hi => by rw [hs]; exact Heap.set_data_ne _ hi _) ?_ (fun x hx => ?_)
      · rw [show (sortedLaws C).abs la' = _ from r.abs, show (sortedLaws C).abs la = _ from ra.abs]
      · obtain ⟨v, hv⟩ := Option.ne_none_iff_exists'.1 hx
        have h1 := List.mem_of_mem_take (List.mem_of_mem_take (find_some_mem hv))
        rw [hmem (x, v) (by simp [h1])]; simp
    refine ⟨?_, shadow⟩
    obtain ⟨rest, hrest⟩ := head_cons hf
    rw [hrest] at hp
    obtain ⟨s, e1, e2, e3⟩ := hp.look hN hminok
    refine ⟨s.withHeap (h.set a la'), ?_, shadow s e2 e3⟩
    rw [recoverH_congr (h := h.set a la') (h0 := h) rfl rfl (fun i => ?_), e1, Res.ok_bind]
    by_cases hi : i = a
    · subst hi
      rw [Heap.set_data, ha, Option.map_some, Option.map_some]
      cases hea : ea with
      | nil => exact absurd hea hne
      | cons e ea' =>
        rw [hea] at r ra
        rw [hminok la' e _ ⟨_, r⟩ r.abs, hminok la e ea' ⟨_, ra⟩ ra.abs]
    · rw [Heap.set_data_ne _ hi]
  -- the donor at the end
  have SE := SP (2 * (n - T) + 1) le_rfl
  rw [if_pos rfl, List.take_of_length_le (by rw [hn, hshl]), show min ((2 * (n - T) + 1 + 1) / 2) (n - T) = n - T by omega,
    show min ((2 * (n - T) + 1) / 2) (n - T) = n - T by omega] at SE
  obtain ⟨lB, hlB⟩ : ∃ lB : SLeaf K V, lB = ⟨n - T, shArr lb.keys T (n - T), shArr lb.vals T (n - T)⟩ := ⟨_, rfl⟩
  rw [← hlB] at SE
  have rB : LRep c.M lB (eb.drop T) := by
    refine ⟨by rw [hlB, List.length_drop, hn], by rw [List.length_drop]; omega, fun i hi => ?_, fun i hi => ?_, ?_⟩
    · rw [List.length_map, List.length_drop] at hi
      rw [hlB]
      dsimp only
      rw [shArr, if_pos (by omega), rb.keys _ (by simp; omega), List.map_drop, List.getElem?_drop]
    · rw [List.length_map, List.length_drop] at hi
      rw [hlB]
      dsimp only
      rw [shArr, if_pos (by omega), rb.vals _ (by simp; omega), List.map_drop, List.getElem?_drop]
    · have h1 : Sorted (eb.take T ++ eb.drop T) := by rw [List.take_append_drop]; exact rb.sorted
      exact (sorted_append.1 h1).2.1
  have hp2 : PersL (sortedLaws C) ((h.set a lA).set b lB) (pre ++ a :: b :: post) m := by
    refine hp.two (la' := lA) (lb' := lB) ha hb (by rw [Heap.set_data_ne _ hab, Heap.set_data]) (Heap.set_data _ _ _)
      (fun i h1 h2 => by rw [Heap.set_data_ne _ h2, Heap.set_data_ne _ h1]) rfl rfl ⟨_, rA⟩ ⟨_, rB⟩ ?_ ?_ ?_
    · rw [show (sortedLaws C).abs lA = _ from rA.abs]; simp [hne]
    · rw [show (sortedLaws C).abs lB = _ from rB.abs]
      apply List.length_pos_iff.1
      rw [List.length_drop]; omega
    · rw [show (sortedLaws C).abs lA = _ from rA.abs, show (sortedLaws C).abs lB = _ from rB.abs,
        show (sortedLaws C).abs la = _ from ra.abs, show (sortedLaws C).abs lb = _ from rb.abs, List.append_assoc, List.take_append_drop]
  obtain ⟨rest, hrest⟩ := head_cons hf
  have hp2' := hp2
  rw [hrest] at hp2'
  obtain ⟨s2, g1, g2, g3⟩ := hp2'.look hN hminok
  have havm : ∀ i, i < n → m (av i) = some (bv i) := by
    intro i hi
    have h1 := find_some_mem (hin i (by omega))
    exact hmem (av i, bv i) (by simp [h1])
  -- the donor shifts
  have phaseS : ∀ j, 1 ≤ j → j ≤ 2 * (n - T) + 1 → ∃ lb' s', SInstr.applyAll c.M lb ((shiftInstrs n T).take j) = .ok lb' ∧
      recoverH (sortedOps c) ((h.set a lA).set b lb') first = .ok s' ∧
      TornAt (lookup (sortedOps c) s') m (j % 2 = 1 ∧ j < 2 * (n - T)) ∧ (j = 2 * (n - T) + 1 → lb' = lB) := by
    intro j hj1 hj2
    by_cases hje : j = 2 * (n - T) + 1
    · refine ⟨lB, s2, ?_, g1, ⟨e0.1, fun x => .inl (g3 x)⟩, fun _ => rfl⟩
      rw [List.take_of_length_le (by rw [hn, hshl]; omega), SE]
    · have hj := SP j hj2
      rw [if_neg hje] at hj
      obtain ⟨lb', hlb'⟩ : ∃ lb' : SLeaf K V, lb' = ⟨n, shArr lb.keys T (min ((j + 1) / 2) (n - T)),
        shArr lb.vals T (min (j / 2) (n - T))⟩ := ⟨_, rfl⟩
      rw [← hlb'] at hj
      refine ⟨lb', s2.withHeap ((h.set a lA).set b lb'), hj, ?_, ?_, fun h => absurd h hje⟩
      · rw [recoverH_congr (h := (h.set a lA).set b lb') (h0 := (h.set a lA).set b lB) rfl rfl (fun i => ?_), g1, Res.ok_bind]
        by_cases hi : i = b
        · subst hi
          rw [Heap.set_data, Heap.set_data, Option.map_some, Option.map_some]
          congr 1
          show Slots.rd c.M lb'.keys 0 = Slots.rd c.M lB.keys 0
          have h0 : lb'.keys 0 = lB.keys 0 := by
            rw [hlb', hlB]
            dsimp only
            rw [shArr, shArr, if_pos (by omega), if_pos (by omega)]
          unfold Slots.rd
          rw [h0]
        · rw [Heap.set_data_ne _ hi, Heap.set_data_ne _ hi]
      · have hkeys : ∀ i, i < n → lb'.keys i = some (if i < min ((j + 1) / 2) (n - T) then av (T + i) else av i) := by
          intro i hi
          rw [hlb']
          dsimp only
          rw [shArr]
          split
          · exact vw.keys _ (by omega)
          · exact vw.keys _ (by omega)
        have hvals : ∀ i, i < n → lb'.vals i = some (if i < min (j / 2) (n - T) then bv (T + i) else bv i) := by
          intro i hi
          rw [hlb']
          dsimp only
          rw [shArr]
          split
          · exact vw.vals _ (by omega)
          · exact vw.vals _ (by omega)
        obtain ⟨L1, L2⟩ := shift_lookup hu (l := lb') (n := n) (T := T) (by rw [hlb']) (by omega) hT1 (by omega) (by omega) (by omega)
          (fun i j h1 h2 => hs i j h1 (by omega)) hkeys hvals
        refine ⟨av (T + min (j / 2) (n - T)), fun x => ?_⟩
        have hx := g3 x
        unfold lookup at hx ⊢
        obtain ⟨i, ei, hx⟩ := Res.bind_eq_ok.1 hx
        change (findLeaf (sortedOps c) s2.depth s2.root x >>= _) = _ ∨ (_ ∧ _ ∧ _ ∧ ∃ y, _ ∧ _ ∧ (findLeaf (sortedOps c) s2.depth s2.root x >>= _) = _)
        rw [ei, Res.ok_bind]
        rw [g2] at hx
        change (((h.set a lA).set b lb').get i >>= _) = _ ∨ (_ ∧ _ ∧ _ ∧ ∃ y, _ ∧ _ ∧ (((h.set a lA).set b lb').get i >>= _) = _)
        by_cases hi : i = b
        · subst hi
          rw [Heap.get_of (Heap.set_data _ _ _), Res.ok_bind] at hx ⊢
          rw [show (sortedOps c).lookup lB x = _ from lookup_ok C rB x] at hx
          have hx := Res.ok.inj hx
          by_cases hex : ∃ q, q < n ∧ av q = x
          · obtain ⟨q, hq, rfl⟩ := hex
            have hmq := havm q hq
            have hqT : T ≤ q := by
              by_contra hcon
              rw [hmq] at hx
              have h1 := find_some_mem hx
              have h2 := find_some_mem (hin q (by omega))
              -- the key is one of the first `T`
              have hlq : (av q, bv q) = eb[q]'(by omega) := by
                have k1 := vw.keys q (by omega)
                have k2 := vw.vals q (by omega)
                rw [rb.keys q (by simp; omega)] at k1
                rw [rb.vals q (by simp; omega)] at k2
                simp only [List.getElem?_map, List.getElem?_eq_getElem (show q < eb.length by omega), Option.map_some, Option.some.injEq] at k1 k2
                rw [← k1, ← k2]
              have hmt : (av q, bv q) ∈ eb.take T := by
                rw [hlq]
                have : (eb.take T)[q]'(by omega) = eb[q]'(by omega) := List.getElem_take ..
                rw [← this]
                exact List.getElem_mem _
              have hsp : Sorted (eb.take T ++ eb.drop T) := by rw [List.take_append_drop]; exact rb.sorted
              exact lt_irrefl _ ((sorted_append.1 hsp).2.2 _ hmt _ h1)
            obtain ⟨i', rfl⟩ : ∃ i', q = T + i' := ⟨q - T, by omega⟩
            rcases L1 i' (by omega) with hd | ⟨hd1, hd2, hd3⟩
            · left; rw [hmq]; exact hd
            · right
              refine ⟨by omega, by rw [hd2], by rw [hmq]; simp, av (min (j / 2) (n - T)), hs _ _ (by omega) (by omega), ?_, ?_⟩
              · rw [havm _ (by omega)]; simp
              · rw [havm _ (by omega)]; exact hd3
          · left
            have hnx : ∀ q, q < n → av q ≠ x := fun q hq hc => hex ⟨q, hq, hc⟩
            rw [← hx, show (sortedOps c).lookup lb' x = _ from L2 x hnx]
            have h1 := hno x (fun q hq => hnx q (by omega))
            congr 1
            symm
            rw [find_eq_none] at h1 ⊢
            intro e he
            exact h1 e (List.mem_of_mem_drop he)
        · left
          rw [← hx]
          unfold Heap.get
          rw [Heap.set_data_ne _ hi, Heap.set_data_ne _ hi]
  refine ⟨?_, ?_⟩
  · -- the smallest key of the donor is overwritten
    obtain ⟨lb', _, q1, _⟩ := phaseS 1 le_rfl (by omega)
    have hj := SP 1 (by omega)
    rw [if_neg (by omega), q1] at hj
    have hlb' := Res.ok.inj hj
    refine ⟨av 0, (h.set a lA).set b lb', by rw [hin 0 (by omega)]; simp, ?_, fun s hfl => ?_⟩
    · rw [hus, List.take_append, List.take_of_length_le (by omega), hmvl, applyW_append, eA, Res.ok_bind,
        show 3 * T + 1 - 3 * T = 1 by omega, ← List.map_take, ← hn]
      exact applyW_leaf _ _ _ _ hdb q1
    · unfold lookup
      change (findLeaf (sortedOps c) s.depth s.root (av 0) >>= _) = _
      rw [hfl, Res.ok_bind]
      change (((h.set a lA).set b lb').get b >>= _) = _
      rw [Heap.get_of (Heap.set_data _ _ _), Res.ok_bind]
      show lb'.lookup c (av 0) = _
      have hk0 : ∀ i, i < n → lb'.keys i = some (if i < 1 then av (T + i) else av i) := by
        intro i hi
        rw [hlb']
        dsimp only
        rw [show min ((1 + 1) / 2) (n - T) = 1 by omega, shArr]
        split
        · exact vw.keys _ (by omega)
        · exact vw.keys _ (by omega)
      have hv0 : ∀ i, i < n → lb'.vals i = some (bv i) := by
        intro i hi
        rw [hlb']
        dsimp only
        rw [show min (1 / 2) (n - T) = 0 by omega, shArr, if_neg (by omega)]
        exact vw.vals _ (by omega)
      rcases lookup_any hu (l := lb') (n := n) (by rw [hlb']) (by omega) hk0 hv0 (av 0) with ⟨p, hp, e1, _⟩ | ⟨e1, _⟩
      · exfalso
        by_cases h0 : p < 1
        · rw [if_pos h0] at e1
          exact (hs 0 (T + p) (by omega) (by omega)).ne' e1
        · rw [if_neg h0] at e1
          exact (hs 0 p (by omega) (by omega)).ne' e1
      · exact e1
  intro t
  by_cases ht : t ≤ 3 * T
  · obtain ⟨l', i, q1, q2⟩ := PM t
    obtain ⟨⟨s', q3, q4⟩, q5⟩ := phaseM q2
    refine ⟨_, s', ?_, q3, ⟨e0.1, fun x => .inl (q4 x)⟩, fun _ => q5, fun h => by omega⟩
    rw [hus, List.take_append_of_le_length (by omega), q1]
  · obtain ⟨j, hj⟩ : ∃ j, j = min (t - 3 * T) (2 * (n - T) + 1) := ⟨_, rfl⟩
    obtain ⟨lb', s', q1, q2, ⟨x0, q3⟩, q4⟩ := phaseS j (by omega) (by omega)
    have hap : applyW c.M h (us.take t) = .ok ((h.set a lA).set b lb') := by
      rw [hus, List.take_append, List.take_of_length_le (by omega), hmvl, applyW_append, eA, Res.ok_bind]
      have : ((shiftInstrs eb.length T).map (SWrite.leaf b) : List (SWrite K V)).take (t - 3 * T) =
          (((shiftInstrs n T).take j).map (.leaf b)) := by
        rw [List.map_take, ← hn]
        rcases Nat.le_total (t - 3 * T) (2 * (n - T) + 1) with h1 | h1
        · rw [hj, Nat.min_eq_left h1]
        · rw [List.take_of_length_le (by rw [List.length_map, hn, hshl]; omega),
            List.take_of_length_le (by rw [List.length_map, hn, hshl]; omega)]
      rw [this]
      exact applyW_leaf _ _ _ _ hdb q1
    refine ⟨_, s', hap, q2, ⟨x0, fun x => ?_⟩, fun h => absurd h ht, fun hl => ?_⟩
    · rcases q3 x with h1 | ⟨h1, h2⟩
      · exact .inl h1
      · exact .inr ⟨by omega, h2⟩
    · rw [q4 (by omega)]
      -- the same leaves as those of the uninterrupted call
      obtain ⟨ks, ek, hk⟩ := Slots.copy_ok c.M lb.keys T 0 la.num la.keys (by omega) (by omega) (fun i _ hi => by
        rw [vw.keys i (by omega)]; rfl)
      obtain ⟨vs, ev, hv⟩ := Slots.copy_ok c.M lb.vals T 0 la.num la.vals (by omega) (by omega) (fun i _ hi => by
        rw [vw.vals i (by omega)]; rfl)
      obtain ⟨dk, edk, hdk⟩ := Slots.moveDown_ok c.M T hT1 (n - T) 0 lb.keys (by omega) (fun i _ hi => by
        rw [vw.keys i (by omega)]; rfl)
      obtain ⟨dv, edv, hdv⟩ := Slots.moveDown_ok c.M T hT1 (n - T) 0 lb.vals (by omega) (fun i _ hi => by
        rw [vw.vals i (by omega)]; rfl)
      have hbal : SLeaf.balance c lb la = .ok (lB, lA) := by
        unfold SLeaf.balance
        rw [Res.assert_pos (by omega), Res.ok_bind]
        dsimp only
        rw [nb, na, ← hT, if_neg (by omega), Slots.rd_ok (by omega) hkb, Res.ok_bind, Slots.rd_ok (by omega) hka, Res.ok_bind, if_neg hkk]
        rw [na] at ek ev
        rw [hn] at edk edv
        rw [ek, Res.ok_bind, ev, Res.ok_bind, edk, Res.ok_bind, edv, Res.ok_bind]
        have hB : (⟨eb.length - T, dk, dv⟩ : SLeaf K V) = lB := by
          rw [hlB, hn]
          congr 1
          · funext q
            rw [hdk q, shArr, ← hn]
            by_cases hq : q < n - T
            · rw [if_pos (by omega), if_pos hq, Nat.add_comm]
            · rw [if_neg (by omega), if_neg hq]
          · funext q
            rw [hdv q, shArr, ← hn]
            by_cases hq : q < n - T
            · rw [if_pos (by omega), if_pos hq, Nat.add_comm]
            · rw [if_neg (by omega), if_neg hq]
        have hA : (⟨ea.length + T, ks, vs⟩ : SLeaf K V) = lA := by
          have hA1 : lA.num = ea.length + T := by rw [rA.num, List.length_append, htl]
          obtain ⟨nA, kA, vA⟩ := lA
          dsimp only at hA1
          subst hA1
          congr 1
          · funext q
            rw [hk q, na]
            by_cases hq : q < ea.length + T
            · refine Eq.trans ?_ (rA.keys q (by simp; omega)).symm
              by_cases hq2 : q < ea.length
              · rw [if_neg (by omega), ra.keys q (by simpa using hq2), List.map_append, List.getElem?_append_left (by simpa using hq2)]
              · rw [if_pos (by omega), rb.keys _ (by simp; omega), List.map_append, List.getElem?_append_right (by simp; omega)]
                simp only [List.length_map, List.getElem?_map, Nat.add_zero]
                rw [List.getElem?_take_of_lt (by omega)]
            · rw [if_neg (by omega)]
              exact ((fA q (by rw [htl]; omega)).1).symm
          · funext q
            rw [hv q, na]
            by_cases hq : q < ea.length + T
            · refine Eq.trans ?_ (rA.vals q (by simp; omega)).symm
              by_cases hq2 : q < ea.length
              · rw [if_neg (by omega), ra.vals q (by simpa using hq2), List.map_append, List.getElem?_append_left (by simpa using hq2)]
              · rw [if_pos (by omega), rb.vals _ (by simp; omega), List.map_append, List.getElem?_append_right (by simp; omega)]
                simp only [List.length_map, List.getElem?_map, Nat.add_zero]
                rw [List.getElem?_take_of_lt (by omega)]
            · rw [if_neg (by omega)]
              exact ((fA q (by rw [htl]; omega)).2).symm
        rw [hA, hB]
        rfl
      unfold balanceLeaf
      rw [Heap.get_of hb, Res.ok_bind, Heap.get_of ha, Res.ok_bind, show (sortedOps c).balance lb la = _ from hbal, Res.ok_bind]
      dsimp only
      rw [Heap.set_comm _ (Ne.symm hab)]
      rfl

end Verif.BTree
