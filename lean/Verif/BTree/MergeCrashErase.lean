import Verif.BTree.MergeCrashMain

/-!
# Crashes inside an erase of HPBPTree and PBPTree: the whole call
-/

set_option linter.unusedSectionVars false

namespace Verif.BTree

open Verif Search Assoc MapSpec

variable {K V : Type} [LinearOrder K] {c : SCfg K V}

/-! ## The removal from the leaf -/

/-- An assignment that does not change the first key. -/
def SInstr.Keeps : SInstr K V → Prop
  | .copyKey d _ => d ≠ 0
  | .key p _ => p ≠ 0
  | _ => True

theorem SInstr.keeps_one {M : Nat} {w : SInstr K V} (hw : w.Keeps) {l l' : SLeaf K V} (e : w.apply M l = .ok l') :
    l'.keys 0 = l.keys 0 := by
  cases w with
  | copyKey d s =>
    rw [SInstr.apply] at e
    obtain ⟨x, _, e⟩ := Res.bind_eq_ok.1 e
    obtain ⟨ks, e1, e⟩ := Res.bind_eq_ok.1 e
    cases Res.ok.inj e
    unfold Slots.wr at e1
    split at e1
    · cases Res.ok.inj e1
      exact if_neg (Ne.symm hw)
    · cases e1
  | copyVal d s =>
    rw [SInstr.apply] at e
    obtain ⟨x, _, e⟩ := Res.bind_eq_ok.1 e
    obtain ⟨ks, e1, e⟩ := Res.bind_eq_ok.1 e
    cases Res.ok.inj e
    rfl
  | key p k =>
    rw [SInstr.apply] at e
    obtain ⟨ks, e1, e⟩ := Res.bind_eq_ok.1 e
    cases Res.ok.inj e
    unfold Slots.wr at e1
    split at e1
    · cases Res.ok.inj e1
      exact if_neg (Ne.symm hw)
    · cases e1
  | val p v =>
    rw [SInstr.apply] at e
    obtain ⟨ks, e1, e⟩ := Res.bind_eq_ok.1 e
    cases Res.ok.inj e
    rfl
  | num n =>
    cases Res.ok.inj e
    rfl

theorem SInstr.keeps_all {M : Nat} : ∀ (ws : List (SInstr K V)) (l l' : SLeaf K V), (∀ w ∈ ws, w.Keeps) →
    SInstr.applyAll M l ws = .ok l' → l'.keys 0 = l.keys 0
  | [], l, l', _, e => by cases Res.ok.inj e; rfl
  | w :: ws, l, l', hw, e => by
    rw [SInstr.applyAll] at e
    obtain ⟨l1, e1, e⟩ := Res.bind_eq_ok.1 e
    rw [SInstr.keeps_all ws l1 l' (fun w h => hw w (by simp [h])) e, SInstr.keeps_one (hw w (by simp)) e1]

theorem SInstr.applyAll_join {M : Nat} : ∀ (ws ws' : List (SInstr K V)) (l : SLeaf K V),
    SInstr.applyAll M l (ws ++ ws') = SInstr.applyAll M l ws >>= fun l => SInstr.applyAll M l ws'
  | [], _, _ => rfl
  | w :: ws, ws', l => by
    rw [List.cons_append, SInstr.applyAll, SInstr.applyAll, Res.bind_assoc']
    congr 1
    funext l
    exact SInstr.applyAll_join ws ws' l

theorem eraseInstrs_keeps (n p : Nat) : ∀ w ∈ (eraseInstrs n p : List (SInstr K V)).drop 1, w.Keeps := by
  intro w hw
  unfold eraseInstrs at hw
  obtain ⟨r, hr⟩ : ∃ r, n - 1 - p = r := ⟨_, rfl⟩
  rw [hr] at hw
  cases r with
  | zero => simp at hw
  | succ r =>
    rw [List.range_succ_eq_map, List.flatMap_cons] at hw
    simp only [List.cons_append, List.nil_append, List.drop_succ_cons, List.drop_zero, List.mem_cons, List.mem_append,
      List.mem_flatMap, List.mem_map, List.not_mem_nil, or_false] at hw
    rcases hw with rfl | ⟨j, ⟨j', _, rfl⟩, hw⟩ | rfl
    · trivial
    · rcases hw with rfl | rfl
      · show p + (j' + 1) ≠ 0; omega
      · trivial
    · trivial

/-- The removal of `k` from its leaf. -/
theorem erase_leaf_sorted (C : CfgLaws c) (hw : WSearch c) (h4 : 4 ≤ c.M) {bm rm : Nat} {s : State K (SLeaf K V)} {m : K → Option V}
    (g : Good (sortedLaws C) (c.M / 2) bm rm s) (hst : Stores (sortedLaws C) s m) {k : K} (hk : m k ≠ none) :
    PersL (sortedLaws C) s.heap (ids s.depth s.root) m ∧
    ∃ (id : Nat) (l l1 : SLeaf K V) (es : List (K × V)) (p : Nat), LeafOf (sortedLaws C) s k id l ∧ LRep c.M l es ∧
      LRep c.M l1 (remove k es) ∧ p < es.length ∧ (remove k es).length + 1 = es.length ∧ id ∈ ids s.depth s.root ∧
      eraseLeafW c l id k = .ok ((eraseInstrs es.length p).map (.leaf id)) ∧
      SInstr.applyAll c.M l (eraseInstrs es.length p) = .ok l1 ∧ l.erase c k = .ok (true, l1) ∧
      (s.depth ≠ 0 → remove k es ≠ []) ∧
      PersL (sortedLaws C) (s.heap.set id l1) (ids s.depth s.root) (fun x => if x = k then none else m x) ∧
      (∀ x, lookup (sortedOps c) (withLeaf s id l1) x = .ok (if x = k then none else m x)) ∧
      ∀ t, ∃ l', SInstr.applyAll c.M l ((eraseInstrs es.length p).take t) = .ok l' ∧ (t = 0 → l' = l) ∧
        (1 ≤ t → l'.keys 0 = l1.keys 0 ∧ l'.lookup c k = .ok none) ∧
        ∃ x0, ∀ x, x ≠ k → l'.lookup c x = .ok (find x es) ∨
          (t % 2 = 1 ∧ t < 2 * (es.length - 1 - p) ∧ x = x0 ∧ ∃ y, y < x0 ∧ m y ≠ none ∧ l'.lookup c x = .ok (m y)) := by
  have hlen : s.depth ≠ 0 → ∀ i ∈ ids s.depth s.root, ∃ l, s.heap.data i = some l ∧ (sortedLaws C).ok l ∧
      c.M / 2 ≤ ((sortedLaws C).abs l).length :=
    fun hd => Bt.leaf_len _ _ _ _ _ g.bt (fun h => absurd h hd)
  have hdep : 1 < (ids s.depth s.root).length → s.depth ≠ 0 := by
    intro h1 hd
    obtain ⟨d, t, h⟩ := s
    dsimp only at hd
    subst hd
    simp [ids] at h1
  have hp0 : PersL (sortedLaws C) s.heap (ids s.depth s.root) m := by
    refine ⟨⟨s.heap.prev, g.wf⟩, g.sorted, fun i hi => ?_, hst⟩
    obtain ⟨l, hl, hok⟩ := Bt.leaf_ok _ _ _ _ _ g.bt i hi
    refine ⟨l, hl, hok, fun h1 => ?_⟩
    obtain ⟨l2, hl2, _, h2⟩ := hlen (hdep h1) i hi
    rw [hl] at hl2
    cases Option.some.inj hl2
    exact List.length_pos_iff.1 (by omega)
  refine ⟨hp0, ?_⟩
  obtain ⟨id, l, A⟩ := leafOf g k
  obtain ⟨es, h⟩ : ∃ es, LRep c.M l es := A.ok
  have habs : (sortedLaws C).abs l = es := h.abs
  have hf : find k es ≠ none := by
    have := A.look k A.find
    rw [hst k, habs] at this
    rw [← this]; exact hk
  obtain ⟨v0, hv0⟩ := Option.ne_none_iff_exists'.1 hf
  obtain ⟨a, b, vw, hs, hin, hno⟩ := h.view k v0
  have hmem : ∀ i, i < es.length → m (a i) = some (b i) := by
    intro i hi
    have h1 := hin i hi
    have h2 := A.home (a i) (by rw [habs, h1]; simp)
    have h3 := A.look (a i) h2
    rw [hst, habs, h1] at h3
    exact h3
  obtain ⟨x, y, hxy, h1, h2⟩ := sorted_cut k h.sorted
  have hpos : l.pos c k = .ok x.length := pos_ok C (by rw [← hxy]; exact h) h1 h2
  have hai : ∀ i (hi : i < es.length), a i = es[i].1 := by
    intro i hi
    have h3 := h.keys i (by simpa using hi)
    have h4 := vw.keys i hi
    rw [h4] at h3
    simpa [hi] using h3
  have hpk : x.length < es.length ∧ a x.length = k := by
    have hmk : (k, v0) ∈ es := (mem_iff_find h.sorted).2 hv0
    rw [hxy] at hmk
    rcases List.mem_append.1 hmk with hmk | hmk
    · exact absurd (h1 _ hmk) (lt_irrefl _)
    · cases y with
      | nil => cases hmk
      | cons e y =>
        have hlen : x.length < es.length := by rw [hxy, List.length_append, List.length_cons]; omega
        refine ⟨hlen, ?_⟩
        rw [hai _ hlen]
        have he : es[x.length]'hlen = e := by
          simp only [hxy, List.getElem_append_right le_rfl, Nat.sub_self, List.getElem_cons_zero]
        rw [he]
        rcases List.mem_cons.1 hmk with hmk | hmk
        · rw [← hmk]
        · have h3 := h.sorted
          rw [hxy] at h3
          have h4 : e.1 < k := (List.pairwise_cons.1 (List.pairwise_append.1 h3).2.1).1 _ hmk
          exact absurd (h2 e (by simp)) (not_le.2 h4)
  obtain ⟨hp, hak⟩ := hpk
  have hcap := h.cap
  obtain ⟨l1, e1, e2⟩ := erase_prog vw hp hpos hak
  obtain ⟨l1', e2', r1, _⟩ := erase_ok C h k ⟨(k, v0), find_some_mem hv0, le_rfl⟩
  rw [e2] at e2'
  have hll : l1' = l1 := (congrArg Prod.snd (Res.ok.inj e2')).symm
  rw [hll] at r1
  have hrl := remove_length h.sorted hf
  obtain ⟨pre, post, hids⟩ := LeafOf.ids g A
  have hmi : id ∈ ids s.depth s.root := by rw [hids]; simp
  have hne : s.depth ≠ 0 → remove k es ≠ [] := by
    intro hd
    obtain ⟨l2, hl2, _, h3⟩ := hlen hd id hmi
    rw [A.data] at hl2
    cases Option.some.inj hl2
    rw [habs] at h3
    exact List.length_pos_iff.1 (by omega)
  refine ⟨id, l, l1, es, x.length, A, h, r1, hp, hrl, hmi, ?_, e1, e2, hne, ?_, fun q => ?_, fun t => ?_⟩
  · unfold eraseLeafW
    rw [hpos, Res.ok_bind, Slots.rd_ok (by omega) (vw.keys _ hp), Res.ok_bind, if_pos hak, h.num, Res.guardUB_pos (by omega), Res.ok_bind]
    rfl
  · have hsort := hp0.sorted
    have hfind := hp0.find
    rw [hids, content_append, content_cons] at hsort
    rw [hids] at hp0 ⊢
    have hent : ent (sortedLaws C) s.heap id = es := by simp only [ent, A.data]; exact habs
    rw [hent] at hsort
    have hv1 := find_some_mem hv0
    have hnpre : ∀ e ∈ content (sortedLaws C) s.heap pre, e.1 ≠ k := fun e he =>
      ((sorted_append.1 hsort).2.2 e he (k, v0) (by simp [hv1])).ne
    have hnpost : ∀ e ∈ content (sortedLaws C) s.heap post, e.1 ≠ k := fun e he =>
      ((sorted_append.1 (sorted_append.1 hsort).2.1).2.2 (k, v0) hv1 e he).ne'
    have hrem : content (sortedLaws C) s.heap pre ++ ((sortedLaws C).abs l1 ++ content (sortedLaws C) s.heap post) =
        remove k (content (sortedLaws C) s.heap (pre ++ id :: post)) := by
      rw [content_append, content_cons, hent, remove_append, remove_append, remove_eq_self hnpre, remove_eq_self hnpost,
        show (sortedLaws C).abs l1 = _ from r1.abs]
    refine hp0.one (la' := l1) A.data (Heap.set_data _ _ _) (fun i h => Heap.set_data_ne _ h _) rfl rfl ⟨_, r1⟩ (fun h => ?_) ?_ (fun q => ?_)
    · rw [show (sortedLaws C).abs l1 = _ from r1.abs]
      exact hne (hdep (by rw [hids]; exact h))
    · rw [hrem]; exact List.Pairwise.filter _ hp0.sorted
    · rw [hrem, find_remove, hp0.find]
  · rw [A.lookup_remove g (fun q => by
      rw [habs]
      exact lookup_ok C r1 q) q, hst q]
  · obtain ⟨l', e, c0, c1, c2⟩ := erase_crash_points hw vw hp hs t
    have hlook : ∀ q, l.lookup c q = .ok (find q es) := fun q => lookup_ok C h q
    refine ⟨l', e, c0, fun ht => ⟨?_, by rw [← hak]; exact c1 ht⟩, a (x.length + t / 2 + 1), fun q hq => ?_⟩
    · rw [← List.take_append_drop t (eraseInstrs es.length x.length), SInstr.applyAll_join, e, Res.ok_bind] at e1
      refine (SInstr.keeps_all _ _ _ (fun w hw => ?_) e1).symm
      refine eraseInstrs_keeps es.length x.length w ?_
      have : (eraseInstrs es.length x.length : List (SInstr K V)).drop t =
          ((eraseInstrs es.length x.length).drop 1).drop (t - 1) := by
        rw [List.drop_drop]; congr 1; omega
      rw [this] at hw
      exact List.mem_of_mem_drop hw
    · rcases c2 q (by rw [hak]; exact hq) with hd | ⟨hd1, hd2, hd3, hd4⟩
      · left; rw [hd, hlook]
      · right
        refine ⟨hd1, hd2, hd3, a (x.length + t / 2), hs _ _ (by omega) (by omega), ?_, ?_⟩
        · rw [hmem _ (by omega)]; simp
        · rw [hmem _ (by omega)]; exact hd4

end Verif.BTree
