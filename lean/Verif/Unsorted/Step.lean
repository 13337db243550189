import Verif.Unsorted.Laws
import Verif.BTree.Iter

/-!
# Erase and histories of UnsortedPBPTree

`Unsorted.erase` differs from `BTree.erase` only in the leaf that a merge with the right sibling frees.
-/

set_option linter.unusedSectionVars false

namespace Verif.Unsorted

open Search BTree Assoc MapSpec

variable {K V L : Type} [LinearOrder K] {o : Ops K V L}

/-- The same heap, except that leaves freed in `h` may still be there in `h'`. -/
structure Keeps (h h' : Heap L) : Prop where
  data : ∀ i, h.data i = none ∨ h'.data i = h.data i
  next : h'.next = h.next
  prev : h'.prev = h.prev
  fresh : h'.fresh = h.fresh

theorem Keeps.refl (h : Heap L) : Keeps h h := ⟨fun _ => .inr rfl, rfl, rfl, rfl⟩

/-- `x` succeeds if `y` does, with the same result but for kept leaves. -/
def Sim {β T : Type} (x y : Res (EOut L β T)) : Prop :=
  ∀ r, y = .ok r → ∃ h', x = .ok { r with heap := h' } ∧ Keeps r.heap h'

theorem Sim.of_eq {β T : Type} {x y : Res (EOut L β T)} (e : x = y) : Sim x y := by
  intro r hr
  exact ⟨r.heap, by rw [e, hr], Keeps.refl _⟩

theorem Sim.bind {α β T : Type} {x : Res α} {f g : α → Res (EOut L β T)}
    (h : ∀ a, x = .ok a → Sim (f a) (g a)) : Sim (x >>= f) (x >>= g) := by
  intro r hr
  obtain ⟨a, e, hr⟩ := Res.bind_eq_ok.1 hr
  obtain ⟨h', e', k⟩ := h a e r hr
  exact ⟨h', by rw [e, Res.ok_bind, e'], k⟩

theorem dropChild_sim {h h' : Heap L} {n : BNode K Nat} {pos i : Nat} (k : Keeps h h') :
    Sim (dropChild o h' n pos i) (dropChild o h n pos i) := by
  unfold dropChild
  by_cases hn : n.num > 1
  · rw [if_pos hn, if_pos hn]
    intro r hr
    obtain ⟨a, e1, hr⟩ := Res.bind_eq_ok.1 hr
    obtain ⟨b, e2, hr⟩ := Res.bind_eq_ok.1 hr
    obtain ⟨c, e3, hr⟩ := Res.bind_eq_ok.1 hr
    have hr := Res.ok.inj hr
    subst hr
    refine ⟨h', ?_, k⟩
    dsimp only at e1 e2 e3 ⊢
    rw [e1, Res.ok_bind, e2, Res.ok_bind, e3, Res.ok_bind]; rfl
  · rw [if_neg hn, if_neg hn]
    intro r hr
    have hr := Res.ok.inj hr
    subst hr
    exact ⟨h', rfl, k⟩

/-- The result of the right merge if there is no leaf behind the merged one. -/
theorem mergeRight_keeps {h hm : Heap L} {a b : Nat} (hn : h.next b = none) (e : mergeLeaf o h a b = .ok hm) :
    ∃ h', mergeRight o h a b = .ok h' ∧ Keeps hm h' := by
  unfold mergeLeaf at e
  obtain ⟨l1, e1, e⟩ := Res.bind_eq_ok.1 e
  obtain ⟨l2, e2, e⟩ := Res.bind_eq_ok.1 e
  obtain ⟨m, e3, e⟩ := Res.bind_eq_ok.1 e
  unfold mergeRight
  rw [e1, Res.ok_bind, e2, Res.ok_bind, e3, Res.ok_bind]
  simp only [hn] at e ⊢
  have e := Res.ok.inj e
  subst e
  refine ⟨_, rfl, ⟨fun i => ?_, rfl, rfl, rfl⟩⟩
  simp only [Heap.free, upd]
  by_cases hi : i = b
  · left; rw [if_pos hi]
  · right; rw [if_neg hi]

theorem underflowLeaf_sim {h : Heap L} {n : BNode K Nat} {pos id : Nat}
    (hf : pos = 0 → ∀ rs, rightSib o h n.num pos id = .ok rs → rs.2 ≤ (o.M + 1) / 2 → h.next rs.1 = none) :
    Sim (underflowLeaf o h n pos id) (BTree.underflowLeaf o h n pos id) := by
  unfold underflowLeaf BTree.underflowLeaf
  refine Sim.bind fun _ _ => Sim.bind fun ls _ => ?_
  by_cases c1 : pos > 0 ∧ (o.M + 1) / 2 < ls.2
  · rw [if_pos c1, if_pos c1]; exact Sim.of_eq rfl
  rw [if_neg c1, if_neg c1]
  refine Sim.bind fun rs hrs => ?_
  by_cases c2 : pos < n.num ∧ (o.M + 1) / 2 < rs.2
  · rw [if_pos c2, if_pos c2]; exact Sim.of_eq rfl
  rw [if_neg c2, if_neg c2]
  by_cases c3 : pos > 0 ∧ ls.2 ≤ (o.M + 1) / 2
  · rw [if_pos c3, if_pos c3]; exact Sim.of_eq rfl
  rw [if_neg c3, if_neg c3]
  by_cases c4 : pos < n.num ∧ rs.2 ≤ (o.M + 1) / 2
  · rw [if_pos c4, if_pos c4]
    have h0 : pos = 0 := by
      by_contra hne
      rcases Nat.lt_or_ge ((o.M + 1) / 2) ls.2 with h | h
      · exact c1 ⟨by omega, h⟩
      · exact c3 ⟨by omega, h⟩
    have hn := hf h0 rs hrs c4.2
    intro r hr
    obtain ⟨hm, em, hr⟩ := Res.bind_eq_ok.1 hr
    obtain ⟨h', e', k'⟩ := mergeRight_keeps hn em
    rw [e', Res.ok_bind]
    exact dropChild_sim k' r hr
  · rw [if_neg c4, if_neg c4]; exact Sim.of_eq rfl

theorem eraseB0_sim {h : Heap L} {n : BNode K Nat} {k : K} (hf : freesNext0 o h n k = false) :
    Sim (eraseB0 o h n k) (BTree.eraseB0 o h n k) := by
  unfold eraseB0 BTree.eraseB0
  refine Sim.bind fun pos e1 => Sim.bind fun id e2 => Sim.bind fun r e3 => Sim.bind fun l e4 => ?_
  by_cases hu : o.num l < (o.M + 1) / 2
  · rw [if_pos hu, if_pos hu]
    intro x hx
    obtain ⟨u, eu, hx⟩ := Res.bind_eq_ok.1 hx
    have hx := Res.ok.inj hx
    subst hx
    obtain ⟨h', e', k'⟩ := underflowLeaf_sim (fun h0 rs hrs hle => by
      unfold freesNext0 at hf
      simp only [e1, e2, e3, e4, hrs] at hf
      simpa [hu, h0, hle] using hf) u eu
    refine ⟨h', ?_, k'⟩
    rw [e', Res.ok_bind]; rfl
  · rw [if_neg hu, if_neg hu]; exact Sim.of_eq rfl

theorem eraseB_sim : ∀ (d : Nat) (isRoot : Bool) (h : Heap L) (n : BNode K (Tree K d)) (k : K),
    freesNext o (d + 1) h n k = false → Sim (eraseB o d isRoot h n k) (BTree.eraseB o d isRoot h n k)
  | 0, _, h, n, k, hf => eraseB0_sim hf
  | d + 1, isRoot, h, n, k, hf => by
    unfold eraseB BTree.eraseB
    refine Sim.bind fun pos e1 => Sim.bind fun c e2 => ?_
    have hf' : freesNext o (d + 1) h c k = false := by
      rw [freesNext] at hf
      rw [e1] at hf
      simp only [e2] at hf
      exact hf
    have ih := eraseB_sim d false h c k hf'
    intro x hx
    obtain ⟨r, er, hx⟩ := Res.bind_eq_ok.1 hx
    obtain ⟨h', e', k'⟩ := ih r er
    rw [e', Res.ok_bind]
    obtain ⟨_, e3, hx⟩ := Res.bind_eq_ok.1 hx
    dsimp only at e3 hx ⊢
    rw [e3, Res.ok_bind]
    obtain ⟨kids, e4, hx⟩ := Res.bind_eq_ok.1 hx
    rw [e4, Res.ok_bind]
    obtain ⟨pos', e5, hx⟩ := Res.bind_eq_ok.1 hx
    rw [e5, Res.ok_bind]
    by_cases hu : r.node.num < (o.N + 1) / 2
    · rw [if_pos hu] at hx ⊢
      obtain ⟨u, e6, hx⟩ := Res.bind_eq_ok.1 hx
      rw [e6, Res.ok_bind]
      by_cases hr : isRoot = true ∧ u.1.num = 0
      · rw [if_pos hr] at hx ⊢
        have hx := Res.ok.inj hx
        subst hx
        exact ⟨h', rfl, k'⟩
      · rw [if_neg hr] at hx ⊢
        have hx := Res.ok.inj hx
        subst hx
        exact ⟨h', rfl, k'⟩
    · rw [if_neg hu] at hx ⊢
      have hx := Res.ok.inj hx
      subst hx
      exact ⟨h', rfl, k'⟩

theorem erase_sim {s s' : State K L} {b : Bool} {k : K} (hf : freesNext o s.depth s.heap s.root k = false)
    (e : BTree.erase o s k = .ok (b, s')) :
    ∃ h', erase o s k = .ok (b, ⟨s'.depth, s'.root, h'⟩) ∧ Keeps s'.heap h' := by
  obtain ⟨d, t, h⟩ := s
  unfold erase
  unfold BTree.erase at e
  cases d with
  | zero =>
    refine ⟨s'.heap, ?_, Keeps.refl _⟩
    exact e
  | succ d =>
    dsimp only at hf e ⊢
    rw [BTree.eraseT] at e
    rw [eraseT]
    obtain ⟨r, er, e⟩ := Res.bind_eq_ok.1 e
    obtain ⟨h', e', k'⟩ := eraseB_sim d true h t k hf r er
    rw [e', Res.ok_bind]
    dsimp only
    cases hr : r.newRoot with
    | none =>
      rw [hr] at e
      have e := Res.ok.inj e
      injection e with e1 e2
      subst e2
      exact ⟨h', by rw [← e1]; rfl, k'⟩
    | some t' =>
      rw [hr] at e
      have e := Res.ok.inj e
      injection e with e1 e2
      subst e2
      exact ⟨h', by rw [← e1]; rfl, k'⟩

variable {W : Laws o} {lm bm rm : Nat}

theorem Keeps.on_ids {h h' : Heap L} (k : Keeps h h') {is : List Nat} (w : Wf h is) :
    ∀ i ∈ is, h'.data i = h.data i := by
  intro i hi
  rcases k.data i with e | e
  · have := w.alive i hi
    rw [e] at this; cases this
  · exact e

theorem Keeps.good {s : State K L} {h' : Heap L} (k : Keeps s.heap h') (g : Good W lm bm rm s) :
    Good W lm bm rm ⟨s.depth, s.root, h'⟩ ∧ cont W (⟨s.depth, s.root, h'⟩ : State K L) = cont W s := by
  have hk := k.on_ids g.wf
  refine ⟨⟨g.bt.frame (fun _ _ _ h => h) hk, ⟨g.wf.nodup, ?_, ?_, ?_⟩⟩, content_congr (W := W) hk⟩
  · intro i hi
    dsimp only
    rw [k.fresh]; exact g.wf.fresh i hi
  · intro i hi
    dsimp only
    rw [hk i hi]; exact g.wf.alive i hi
  · have := g.wf.chain
    unfold Chain at this ⊢
    dsimp only
    rw [k.next, k.prev]
    exact this

/-! ## Histories -/

section
variable [Inhabited K] {c : UCfg K V} {adm : K → Prop}

/-- Erasing `k` does not free a leaf that is still in use. -/
def SafeMerge (o : Ops K V L) (s : State K L) (k : K) : Prop := freesNext o s.depth s.heap s.root k = false

/-- In the leaf where `k` would be, the first slot that is not in use exists and does not hold `k`. -/
def SafeSlot (c : UCfg K V) (s : State K (ULeaf K V)) (k : K) : Prop :=
  ∀ id l, findLeaf (uOps c) s.depth s.root k = .ok id → s.heap.data id = some l →
    l.num < c.M ∧ l.keys l.num ≠ k

/-- No erase of the history frees a leaf that is still in use, and erases of absent keys meet a harmless
slot. -/
def SafeHist (c : UCfg K V) : State K (ULeaf K V) → (K → Option V) → List (Op K V) → Prop
  | _, _, [] => True
  | s, m, .insert k v :: ops => ∀ s', BTree.insert (uOps c) s k v = .ok s' →
    SafeHist c s' (step m (.insert k v)) ops
  | s, m, .erase k :: ops => SafeMerge (uOps c) s k ∧ (m k = none → SafeSlot c s k) ∧
    ∀ b s', erase (uOps c) s k = .ok (b, s') → SafeHist c s' (step m (.erase k)) ops

/-- `SafeSlot` as a check that can be evaluated. -/
def checkSlot (c : UCfg K V) (s : State K (ULeaf K V)) (k : K) : Bool :=
  match findLeaf (uOps c) s.depth s.root k with
  | .ok id => match s.heap.data id with
    | some l => decide (l.num < c.M) && decide (l.keys l.num ≠ k)
    | none => true
  | _ => true

/-- `SafeHist` as a check that can be evaluated. -/
def checkSafe (c : UCfg K V) : State K (ULeaf K V) → (K → Option V) → List (Op K V) → Bool
  | _, _, [] => true
  | s, m, .insert k v :: ops => match BTree.insert (uOps c) s k v with
    | .ok s' => checkSafe c s' (step m (.insert k v)) ops
    | _ => true
  | s, m, .erase k :: ops => !freesNext (uOps c) s.depth s.heap s.root k && ((m k).isSome || checkSlot c s k) &&
    match erase (uOps c) s k with
    | .ok r => checkSafe c r.2 (step m (.erase k)) ops
    | _ => true

theorem safe_of_check : ∀ (ops : List (Op K V)) (s : State K (ULeaf K V)) (m : K → Option V),
    checkSafe c s m ops = true → SafeHist c s m ops
  | [], _, _, _ => trivial
  | .insert k v :: ops, s, m, h => by
    intro s' e
    rw [checkSafe, e] at h
    exact safe_of_check ops s' _ h
  | .erase k :: ops, s, m, h => by
    rw [checkSafe, Bool.and_eq_true, Bool.and_eq_true] at h
    refine ⟨by simpa [SafeMerge] using h.1.1, fun hm id l e hl => ?_, fun b s' e => ?_⟩
    · have := h.1.2
      rw [hm, Option.isSome_none, Bool.false_or, checkSlot, e] at this
      simpa [hl] using this
    · have := h.2
      rw [e] at this
      exact safe_of_check ops s' _ this

/-- One erase. -/
theorem erase_safe (U : ULaws c adm) (hM : 2 ≤ c.M) {q : Nat} (hN : c.N = 2 * q) (hq : 3 ≤ q)
    {s : State K (ULeaf K V)} (g : Good (uLaws U hM) (c.M / 2) (q - 1) 1 s) (k : K)
    (hs : SafeMerge (uOps c) s k) (hp : find k (cont (uLaws U hM) s) = none → SafeSlot c s k) :
    ∃ s', erase (uOps c) s k = .ok ((find k (cont (uLaws U hM) s)).isSome, s') ∧
      Good (uLaws U hM) (c.M / 2) (q - 1) 1 s' ∧ cont (uLaws U hM) s' = remove k (cont (uLaws U hM) s) := by
  have leaf : ∀ id l, findLeaf (uOps c) s.depth s.root k = .ok id → s.heap.data id = some l →
      UOk c.M adm l ∧ (1 ≤ l.num ∨ s.depth = 0) ∧
        (find k (cont (uLaws U hM) s) = none → find k l.abs = none) := by
    intro id l e hl
    obtain ⟨id', l', pre, post, _, _, e', hids, hl', hok, _⟩ :=
      findLeaf_spec k s.depth (rootMin 1 s.depth) s.root ⊥ ⊤ g.bt (inR_univ k)
    rw [e] at e'
    have e' := Res.ok.inj e'
    subst e'
    rw [hl] at hl'
    injection hl' with hl'
    subst hl'
    refine ⟨hok, ?_, fun hn => ?_⟩
    · by_cases hd : s.depth = 0
      · exact .inr hd
      · obtain ⟨l2, hl2, _, hlen⟩ := Bt.leaf_length s.depth _ s.root ⊥ ⊤ g.bt (fun h => absurd h hd) id
          (by rw [hids]; simp)
        rw [hl] at hl2
        injection hl2 with hl2
        subst hl2
        change c.M / 2 ≤ l.abs.length at hlen
        rw [uabs_length] at hlen
        left; omega
    · rw [find_eq_none] at hn ⊢
      intro x hx
      refine hn x ?_
      rw [cont, hids, content_append, content_cons]
      have : ent (uLaws U hM) s.heap id = l.abs := by simp [ent, hl]; rfl
      rw [this]
      simp [hx]
  by_cases hf : find k (cont (uLaws U hM) s) = none
  · by_cases hd : s.depth = 0
    · obtain ⟨d, t, h⟩ := s
      dsimp only at hd
      subst hd
      obtain ⟨_, l, hl, hok, _⟩ := g.bt
      dsimp only at hl
      obtain ⟨hc, hne⟩ := hp hf t l rfl hl
      have hfl := (leaf t l rfl hl).2.2 hf
      have hset : h.set t l = h := by
        unfold Heap.set
        have : upd h.data t (some l) = h.data := by
          funext i
          unfold upd
          split
          · next hi => rw [hi, hl]
          · rfl
        rw [this]
      refine ⟨⟨0, t, h⟩, ?_, g, (remove_eq_self (find_eq_none.1 hf)).symm⟩
      rw [hf]
      unfold erase
      rw [eraseT, eraseLeaf, Heap.get, hl, Res.ofOption_some, Res.ok_bind]
      rw [show (uOps c).erase l k = .ok (false, l) from erase_absent hok hfl hc hne, Res.ok_bind]
      dsimp only
      rw [Res.pure_eq, Res.ok_bind, hset]; rfl
    · obtain ⟨s1, e1, g1, c1, _⟩ := erase_good_head (uErase U hM) hN hq hM g
        (g.bt.frame (fun _ _ _ _ => trivial) (fun _ _ => rfl)) k
        (fun id l e hl => by
          obtain ⟨h1, h2, h3⟩ := leaf id l e hl
          obtain ⟨hc, hne⟩ := hp hf id l e hl
          exact .inr ⟨h3 hf, h2.resolve_right hd, hc, hne⟩)
      obtain ⟨h2, e2, k2⟩ := erase_sim hs e1
      obtain ⟨g2, c2⟩ := k2.good g1
      exact ⟨_, e2, g2, c2.trans c1⟩
  · obtain ⟨s1, e1, g1, c1, _⟩ := erase_good_head (uErase U hM) hN hq hM g
      (g.bt.frame (fun _ _ _ _ => trivial) (fun _ _ => rfl)) k
      (fun id l e hl => .inl (leaf_of_present g hf e hl))
    obtain ⟨h2, e2, k2⟩ := erase_sim hs e1
    obtain ⟨g2, c2⟩ := k2.good g1
    exact ⟨_, e2, g2, c2.trans c1⟩

theorem safe_history (U : ULaws c adm) (hM : 2 ≤ c.M) {q : Nat} (hN : c.N = 2 * q) (hq : 3 ≤ q) :
    ∀ (ops : List (Op K V)) (s : State K (ULeaf K V)) (m : K → Option V),
    Good (uLaws U hM) (c.M / 2) (q - 1) 1 s → Stores (uLaws U hM) s m →
    (∀ k v, Op.insert k v ∈ ops → adm k) → SafeHist c s m ops →
    ∃ s', execAll (uOps c) s ops = .ok (outs m ops, s') ∧ Good (uLaws U hM) (c.M / 2) (q - 1) 1 s' ∧
      Stores (uLaws U hM) s' (run m ops)
  | [], s, m, g, h, _, _ => ⟨s, rfl, g, h⟩
  | .insert k v :: ops, s, m, g, h, ha, hs => by
    obtain ⟨s1, e1, g1, c1, _⟩ := insert_good_head (W := uLaws U hM) (show c.M / 2 ≤ c.M / 2 from le_rfl)
      (show q - 1 ≤ (c.N - 1) / 2 by omega) (show 2 ≤ c.N by omega) (le_refl 1) g k v (ha k v (by simp))
    obtain ⟨s', e, g', h'⟩ := safe_history U hM hN hq ops s1 _ g1 (h.insert c1)
      (fun k v hx => ha k v (List.mem_cons_of_mem _ hx)) (hs s1 e1)
    refine ⟨s', ?_, g', h'⟩
    rw [execAll, exec, e1, Res.ok_bind, Res.pure_eq, Res.ok_bind, e, Res.ok_bind]; rfl
  | .erase k :: ops, s, m, g, h, ha, hs => by
    obtain ⟨s1, e1, g1, c1⟩ := erase_safe U hM hN hq g k hs.1 (fun hn => hs.2.1 (by rw [← h k]; exact hn))
    obtain ⟨s', e, g', h'⟩ := safe_history U hM hN hq ops _ _ g1 (h.erase c1)
      (fun k v hx => ha k v (List.mem_cons_of_mem _ hx)) (hs.2.2 _ _ e1)
    refine ⟨s', ?_, g', h'⟩
    rw [execAll, exec, e1, Res.ok_bind, e, Res.ok_bind, h k]; rfl

theorem bind_congr {α β : Type} {x : Res α} {f g : α → Res β} (h : ∀ a, x = .ok a → f a = g a) :
    (x >>= f) = (x >>= g) := by
  cases x with
  | ok a => exact h a rfl
  | ub => rfl
  | throws => rfl
  | assertFail => rfl

/-- The two kinds of history agree on inserts. -/
theorem execAll_inserts : ∀ (ops : List (Op K V)) (s : State K L), InsertsOnly ops →
    execAll o s ops = BTree.execAll o s ops := by
  intro ops
  induction ops with
  | nil => intro s _; rfl
  | cons op ops ih =>
    intro s h
    obtain ⟨k, v, rfl⟩ := h op (by simp)
    rw [execAll, BTree.execAll, exec, BTree.exec]
    refine bind_congr fun r _ => ?_
    rw [ih r.2 (fun x hx => h x (List.mem_cons_of_mem _ hx))]

theorem scan_lists (U : ULaws c adm) (hM : 2 ≤ c.M) {s : State K (ULeaf K V)} {m : K → Option V}
    (g : Good (uLaws U hM) lm bm rm s) (h : Stores (uLaws U hM) s m) :
    ∃ es, scan (uOps c) s = .ok es ∧ ListsOnce m es := by
  obtain ⟨es, e, _, hp⟩ := scan_good (uScan U hM) g
  obtain ⟨h1, h2⟩ := h.lists g
  refine ⟨es, e, ((hp.map _).nodup_iff).2 (FPTree.nodup_keys h1), fun k v => ?_⟩
  rw [hp.mem_iff, h2]

end
end Verif.Unsorted
