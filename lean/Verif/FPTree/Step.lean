import Verif.FPTree.EraseLaws
import Verif.Search.Props

/-!
# FPTree: single steps and histories
-/

set_option linter.unusedSectionVars false

namespace Verif.BTree

open Verif Assoc MapSpec

section
variable {K V L T : Type} [LinearOrder K] {o : Ops K V L} {W : Laws o} {lm bm rm : Nat}

theorem Tile.mono_pos {P Q : T → Bd K → Bd K → Prop} : ∀ {cs : List T} {bs : List (Bd K)},
    (∀ c1 c c2 b1 a b b2, cs = c1 ++ c :: c2 → bs = b1 ++ a :: b :: b2 → c1.length = b1.length →
      P c a b → Q c a b) → Tile P cs bs → Tile Q cs bs
  | [], [_], _, _ => trivial
  | c :: cs, b :: b' :: bs, hpq, h =>
    ⟨hpq [] c cs [] b b' bs rfl rfl rfl h.1, Tile.mono_pos (fun c1 x c2 b1 a d b2 h1 h2 h3 h4 =>
      hpq (c :: c1) x c2 (b :: b1) a d b2 (by rw [h1]; rfl) (by rw [h2]; rfl) (by simp [h3]) h4) h.2⟩
  | [], [], _, h => h.elim
  | [], _ :: _ :: _, _, h => h.elim
  | _ :: _, [], _, h => h.elim
  | _ :: _, [_], _, h => h.elim

theorem same_pos {f : T → List Nat} {c1 c2 d1 d2 : List T} {c d : T} (e : c1 ++ c :: c2 = d1 ++ d :: d2)
    (hn : ((c1 ++ c :: c2).flatMap f).Nodup) {i : Nat} (hc : i ∈ f c) (hd : i ∈ f d) :
    c1.length = d1.length := by
  have key : ∀ {c1 c2 d1 d2 : List T} {c d : T}, c1 ++ c :: c2 = d1 ++ d :: d2 →
      ((c1 ++ c :: c2).flatMap f).Nodup → i ∈ f c → i ∈ f d → ¬ c1.length < d1.length := by
    intro c1 c2 d1 d2 c d e hn hc hd hlt
    have h1 : (c1 ++ c :: c2)[c1.length]? = some c := by simp
    rw [e, List.getElem?_append_left hlt] at h1
    have hm : c ∈ d1 := List.mem_of_getElem? h1
    rw [e, List.flatMap_append, List.flatMap_cons, List.nodup_append] at hn
    exact hn.2.2 i (List.mem_flatMap.2 ⟨c, hm, hc⟩) i (List.mem_append_left _ hd) rfl
  have h1 := key e hn hc hd
  have h2 := key e.symm (by rw [← e]; exact hn) hd hc
  omega

/-- If the key `f l` leads to the leaf `l`, for every leaf, then it lies in the range of the leaf. -/
theorem Bt.strengthen (f : L → K) {h : Heap L} : ∀ (d top : Nat) (t : Tree K d) (lo hi : Bd K),
    Bt W tt lm bm h d top t lo hi → (ids d t).Nodup →
    (∀ i ∈ ids d t, ∀ l, h.data i = some l → InR lo hi (f l) ∧ findLeaf o d t (f l) = .ok i) →
    Bt W (fun l lo hi => InR lo hi (f l)) lm bm h d top t lo hi := by
  intro d
  induction d with
  | zero =>
    intro top t lo hi ⟨h1, l, h2, h3, h4, h5, _⟩ _ hf
    exact ⟨h1, l, h2, h3, h4, h5, (hf t (by simp [ids]) l h2).1⟩
  | succ d ih =>
    intro top n lo hi ⟨cs, ks, hr, htop, ht⟩ hnd hf
    refine ⟨cs, ks, hr, htop, ht.mono_pos ?_⟩
    intro c1 c c2 b1 a b b2 hcs hbs hlen hc
    have hids := ids_rep hr
    rw [hids] at hnd
    have hcnd : (ids d c).Nodup := by
      rw [hcs, List.flatMap_append, List.flatMap_cons, List.nodup_append] at hnd
      exact (List.nodup_append.1 hnd.2.1).1
    refine ih _ c a b hc hcnd (fun i hic0 l hl => ?_)
    have hin : i ∈ ids (d + 1) n := by
      rw [hids, hcs]; simp only [List.flatMap_append, List.flatMap_cons, List.mem_append]
      exact Or.inr (Or.inl hic0)
    obtain ⟨hR, hF⟩ := hf i hin l hl
    obtain ⟨hks, _, _⟩ := keys_sorted (fun c a b hc => Bt.lt hc) ht
    obtain ⟨d1, c', d2, k1, k2, e1, m, m', e2, fo⟩ := exists_focus W (fun c a b hc => Bt.lt hc) ht hR
    rw [findLeaf, fo.lookupPos hr hks, Res.ok_bind, fo.rdKid hr, Res.ok_bind] at hF
    obtain ⟨id, l', pre, post, _, _, e, hi', _⟩ := findLeaf_spec (f l) d _ c' m m' fo.pc fo.inR
    rw [hF] at e
    have e := Res.ok.inj e
    subst e
    have hic : i ∈ ids d c' := by rw [hi']; simp
    have heq : c1 ++ c :: c2 = d1 ++ c' :: d2 := by rw [← hcs, fo.hcs]
    have hpos := same_pos heq (by rw [← hcs]; exact hnd) hic0 hic
    obtain ⟨h1, h2⟩ := List.append_inj heq hpos
    have hcc : c = c' := by simp at h2; exact h2.1
    subst hcc
    have hbn : bnds lo ks hi = e1 ++ m :: m' :: e2 := by
      unfold bnds
      rw [fo.hks, List.map_append, List.append_assoc, fo.hb2, ← List.cons_append, fo.hb1]; simp
    rw [hbn] at hbs
    obtain ⟨_, h3⟩ := List.append_inj hbs (by rw [fo.lb, ← hpos, hlen])
    simp at h3
    obtain ⟨rfl, rfl, _⟩ := h3
    exact ⟨fo.inR, hF⟩

theorem insert_done {s : State K L} (hd : s.depth = 0) {id : Nat} {l l' : L} {k : K} {v : V}
    (hf : findLeaf o s.depth s.root k = .ok id) (hl : s.heap.data id = some l) (e : o.insert l k v = .ok (.done l')) :
    ∃ s', insert o s k v = .ok s' ∧ s'.depth = 0 := by
  obtain ⟨d, t, h⟩ := s
  dsimp only at hd
  subst hd
  have : t = id := Res.ok.inj hf
  subst this
  refine ⟨⟨0, t, h.set t l'⟩, ?_, rfl⟩
  dsimp only at hl
  unfold insert
  dsimp only
  rw [insertT, insertLeaf, Heap.get, hl, Res.ofOption_some, Res.ok_bind, e, Res.ok_bind]
  rfl

theorem erase_depth0 {s s' : State K L} {b : Bool} {k : K} (hd : s.depth = 0)
    (e : erase o s k = .ok (b, s')) : s'.depth = 0 := by
  obtain ⟨d, t, h⟩ := s
  dsimp only at hd
  subst hd
  unfold erase at e
  rw [eraseT] at e
  obtain ⟨r, _, e2⟩ := Res.bind_eq_ok.1 e
  have := congrArg (fun x : Bool × State K L => x.2.depth) (Res.ok.inj e2)
  exact this.symm

end

end Verif.BTree

namespace Verif.FPTree

open Verif Search BTree Assoc MapSpec

variable {K V : Type} {M : Nat} [LinearOrder K] [Inhabited K] {c : FCfg K V} {adm : K → Prop}

theorem flaws_int (N : Nat) (jf : Nat → Nat) (jk : Nat → Int) (jv : Nat → V) :
    FLaws (cfgInt N jf jk jv) (fun k => 0 ≤ k ∧ k < 2 ^ 31) where
  conv := fun k ⟨h1, h2⟩ => SearchProps.convInt_roundtrip k ⟨by omega, h2⟩
  mono := fun a b ⟨ha1, ha2⟩ ⟨hb1, hb2⟩ => by
    simp only [cfgInt, convInt]
    omega
  lim := fun k ⟨h1, h2⟩ => by
    simp only [cfgInt, limInt]
    omega

theorem flaws_below (N : Nat) (jf : Nat → Nat) (jk : Nat → Int) (jv : Nat → V) :
    FLaws (cfgInt N jf jk jv) (fun k => 0 ≤ k ∧ k < 2 ^ 31 - 1) where
  conv := fun k ⟨h1, h2⟩ => (flaws_int N jf jk jv).conv k ⟨h1, by omega⟩
  mono := fun a b ⟨ha1, ha2⟩ ⟨hb1, hb2⟩ => (flaws_int N jf jk jv).mono a b ⟨ha1, by omega⟩ ⟨hb1, by omega⟩
  lim := fun k ⟨h1, h2⟩ => (flaws_int N jf jk jv).lim k ⟨h1, by omega⟩

theorem nodup_keys {l : List (K × V)} (h : Sorted l) : (l.map Prod.fst).Nodup := by
  rw [List.Nodup, List.pairwise_map]
  exact h.imp (fun h => ne_of_lt h)

/-- Everything we know after a history of inserts. -/
theorem after_inserts (F : FLaws c adm) (hN : 3 ≤ c.N) (hM : 2 ≤ M) (ops : List (Op K V))
    (ho : InsertsOnly ops) (ha : ∀ k v, Op.insert k v ∈ ops → adm k) :
    ∃ bs s, execAll (fpOps c M) (init (fpOps c M)) ops = .ok (bs, s) ∧
      Good (fpLaws F hM) (M / 2) ((c.N - 1) / 2) 1 s ∧ Stores (fpLaws F hM) s (run empty ops) ∧
      (ids s.depth s.root).head? = some 0 :=
  inserts_good_head (W := fpLaws F hM) (show M / 2 ≤ M / 2 from le_rfl)
    (show (c.N - 1) / 2 ≤ (c.N - 1) / 2 from le_rfl) (show 2 ≤ c.N by omega) le_rfl ops _ _
    (init_good (fpLaws F hM) _ _ _).1 (init_stores _) ho ha

theorem scan_lists (F : FLaws c adm) (hM : 2 ≤ M) {lm bm rm : Nat} {s : State K (FLeaf M K V)}
    {m : K → Option V} (g : Good (fpLaws F hM) lm bm rm s) (h : Stores (fpLaws F hM) s m) :
    ∃ es, scan (fpOps c M) s = .ok es ∧ ListsOnce m es := by
  obtain ⟨es, e, _, hp⟩ := scan_good (fpScan F hM) g
  obtain ⟨h1, h2⟩ := h.lists g
  refine ⟨es, e, ((hp.map _).nodup_iff).2 (nodup_keys h1), fun k v => ?_⟩
  rw [hp.mem_iff, h2]

theorem range_lists (F : FLaws c adm) (hM : 2 ≤ M) {lm bm rm : Nat} {s : State K (FLeaf M K V)}
    {m : K → Option V} (g : Good (fpLaws F hM) lm bm rm s) (h : Stores (fpLaws F hM) s m) (lo hi : K) :
    ∃ es, rangeScan (fpOps c M) s lo hi = .ok es ∧ ListsRangeOnce m lo hi es := by
  obtain ⟨es, e, hp⟩ := rangeScan_good listRel_perm (fpRange F hM) g lo hi
  obtain ⟨h1, h2⟩ := h.listsRange g lo hi
  refine ⟨es, e, ((hp.map _).nodup_iff).2 (nodup_keys h1), fun k v => ?_⟩
  rw [hp.mem_iff, h2]

/-- The condition under which erasing `k` from the tree `s` is known to be correct: slot 0 of every leaf,
in use or not, holds a key that belongs to this leaf; or the leaf of `k` holds more than `(M + 1) / 2`
entries, so that erasing one does not make it underflow. -/
def SafeErase (c : FCfg K V) (s : State K (FLeaf M K V)) (k : K) : Prop :=
  (∀ id ∈ ids s.depth s.root, ∀ l, s.heap.data id = some l → findLeaf (fpOps c M) s.depth s.root (l.keys 0) = .ok id) ∨
  (∀ id l, findLeaf (fpOps c M) s.depth s.root k = .ok id → s.heap.data id = some l → (M + 1) / 2 < l.bits.count)

/-- One erase, for any fill of the nodes that is kept. -/
theorem erase_safe_fill (F : FLaws c adm) (hmax : ∀ k, adm k → k < c.lim.max) (hM : 2 ≤ M) {q : Nat}
    (hN : c.N = 2 * q) {lm bm : Nat} (hlm1 : 1 ≤ lm) (hlm : lm ≤ M / 2) (hbm2 : 2 ≤ bm) (hbm : bm ≤ q - 1)
    {s : State K (FLeaf M K V)} (g : Good (fpLaws F hM) lm bm 1 s)
    (k : K) (hs : SafeErase c s k) :
    ∃ s', erase (fpOps c M) s k = .ok ((find k (cont (fpLaws F hM) s)).isSome, s') ∧
      Good (fpLaws F hM) lm bm 1 s' ∧ cont (fpLaws F hM) s' = remove k (cont (fpLaws F hM) s) ∧
      (ids s'.depth s'.root).head? = (ids s.depth s.root).head? := by
  rcases hs with hs | hs
  · exact erase_good_fill (fpErase F hM hmax) hN hbm2 hbm hM hlm1 hlm g
      (Bt.strengthen (fun l : FLeaf M K V => l.keys 0) _ _ _ _ _ g.bt g.wf.nodup (fun i hi l hl =>
        ⟨inR_univ _, hs i hi l hl⟩)) k (fun _ _ _ _ => trivial)
  · refine erase_good_fill (fpEraseFull F hM hmax) hN hbm2 hbm hM hlm1 hlm g (g.bt.frame (fun _ _ _ _ => trivial) (fun _ _ => rfl))
      k (fun id l e hl => ?_)
    have hc := hs id l e hl
    obtain ⟨id', l', pre, post, _, _, e', hids, hl', hok, _⟩ :=
      findLeaf_spec k s.depth (rootMin 1 s.depth) s.root ⊥ ⊤ g.bt (inR_univ k)
    rw [e] at e'
    have e' := Res.ok.inj e'
    subst e'
    rw [hl] at hl'
    injection hl' with hl'
    subst hl'
    change FOk c.hash adm l at hok
    rw [hok.count] at hc
    change (M + 1) / 2 ≤ (remove k l.abs).length
    by_cases hfn : find k l.abs = none
    · rw [remove_eq_self (find_eq_none.1 hfn)]; omega
    · have := remove_length hok.sorted hfn; omega

/-- One erase. -/
theorem erase_safe (F : FLaws c adm) (hmax : ∀ k, adm k → k < c.lim.max) (hM : 2 ≤ M) {q : Nat}
    (hN : c.N = 2 * q) (hq : 3 ≤ q) {s : State K (FLeaf M K V)} (g : Good (fpLaws F hM) (M / 2) (q - 1) 1 s)
    (k : K) (hs : SafeErase c s k) :
    ∃ s', erase (fpOps c M) s k = .ok ((find k (cont (fpLaws F hM) s)).isSome, s') ∧
      Good (fpLaws F hM) (M / 2) (q - 1) 1 s' ∧ cont (fpLaws F hM) s' = remove k (cont (fpLaws F hM) s) ∧
      (ids s'.depth s'.root).head? = (ids s.depth s.root).head? :=
  erase_safe_fill F hmax hM hN (by omega) le_rfl (by omega) le_rfl g k hs

/-- All erases of the history are safe when they are called. -/
def SafeHist (c : FCfg K V) : State K (FLeaf M K V) → List (Op K V) → Prop
  | _, [] => True
  | s, .insert k v :: ops => ∀ s', insert (fpOps c M) s k v = .ok s' → SafeHist c s' ops
  | s, .erase k :: ops => SafeErase c s k ∧ ∀ b s', erase (fpOps c M) s k = .ok (b, s') → SafeHist c s' ops

/-- A check for the second case of `SafeErase` that can be evaluated. -/
def checkFull (c : FCfg K V) : State K (FLeaf M K V) → List (Op K V) → Bool
  | _, [] => true
  | s, .insert k v :: ops => match insert (fpOps c M) s k v with
    | .ok s' => checkFull c s' ops
    | _ => true
  | s, .erase k :: ops => (match findLeaf (fpOps c M) s.depth s.root k with
      | .ok id => match s.heap.data id with
        | some l => decide ((M + 1) / 2 < l.bits.count)
        | none => true
      | _ => true) &&
    match erase (fpOps c M) s k with
    | .ok r => checkFull c r.2 ops
    | _ => true

theorem safe_of_check : ∀ (ops : List (Op K V)) (s : State K (FLeaf M K V)), checkFull c s ops = true →
    SafeHist c s ops
  | [], _, _ => trivial
  | .insert k v :: ops, s, h => by
    intro s' e
    rw [checkFull, e] at h
    exact safe_of_check ops s' h
  | .erase k :: ops, s, h => by
    rw [checkFull, Bool.and_eq_true] at h
    refine ⟨Or.inr (fun id l e hl => ?_), fun b s' e => ?_⟩
    · have := h.1
      rw [e] at this
      simp only [hl, decide_eq_true_eq] at this
      exact this
    · have := h.2
      rw [e] at this
      exact safe_of_check ops s' this

/-- A history of inserts and safe erases, for any fill of the nodes that is kept. -/
theorem safe_history_fill (F : FLaws c adm) (hmax : ∀ k, adm k → k < c.lim.max) (hM : 2 ≤ M) {q : Nat}
    (hN : c.N = 2 * q) {lm bm : Nat} (hlm1 : 1 ≤ lm) (hlm : lm ≤ M / 2) (hbm2 : 2 ≤ bm) (hbm : bm ≤ q - 1) : ∀ (ops : List (Op K V)) (s : State K (FLeaf M K V)) (m : K → Option V),
    Good (fpLaws F hM) lm bm 1 s → Stores (fpLaws F hM) s m → (∀ k v, Op.insert k v ∈ ops → adm k) →
    SafeHist c s ops →
    ∃ s', execAll (fpOps c M) s ops = .ok (outs m ops, s') ∧ Good (fpLaws F hM) lm bm 1 s' ∧
      Stores (fpLaws F hM) s' (run m ops) ∧ (ids s'.depth s'.root).head? = (ids s.depth s.root).head?
  | [], s, m, g, h, _, _ => ⟨s, rfl, g, h, rfl⟩
  | .insert k v :: ops, s, m, g, h, ha, hs => by
    obtain ⟨s1, e1, g1, c1, d1⟩ := insert_good_head (W := fpLaws F hM) (show lm ≤ M / 2 from hlm)
      (show bm ≤ (c.N - 1) / 2 by omega) (show 2 ≤ c.N by omega) (le_refl 1) g k v (ha k v (by simp))
    obtain ⟨s', e, g', h', d'⟩ := safe_history_fill F hmax hM hN hlm1 hlm hbm2 hbm ops s1 _ g1 (h.insert c1)
      (fun k v hx => ha k v (List.mem_cons_of_mem _ hx)) (hs s1 e1)
    refine ⟨s', ?_, g', h', d'.trans d1⟩
    rw [execAll, exec, e1, Res.ok_bind, Res.pure_eq, Res.ok_bind, e, Res.ok_bind]; rfl
  | .erase k :: ops, s, m, g, h, ha, hs => by
    obtain ⟨s1, e1, g1, c1, d1⟩ := erase_safe_fill F hmax hM hN hlm1 hlm hbm2 hbm g k hs.1
    obtain ⟨s', e, g', h', d'⟩ := safe_history_fill F hmax hM hN hlm1 hlm hbm2 hbm ops s1 _ g1 (h.erase c1)
      (fun k v hx => ha k v (List.mem_cons_of_mem _ hx)) (hs.2 _ s1 e1)
    refine ⟨s', ?_, g', h', d'.trans d1⟩
    rw [execAll, exec, e1, Res.ok_bind, e, Res.ok_bind, h k]; rfl

theorem safe_history (F : FLaws c adm) (hmax : ∀ k, adm k → k < c.lim.max) (hM : 2 ≤ M) {q : Nat}
    (hN : c.N = 2 * q) (hq : 3 ≤ q) : ∀ (ops : List (Op K V)) (s : State K (FLeaf M K V)) (m : K → Option V),
    Good (fpLaws F hM) (M / 2) (q - 1) 1 s → Stores (fpLaws F hM) s m → (∀ k v, Op.insert k v ∈ ops → adm k) →
    SafeHist c s ops →
    ∃ s', execAll (fpOps c M) s ops = .ok (outs m ops, s') ∧ Good (fpLaws F hM) (M / 2) (q - 1) 1 s' ∧
      Stores (fpLaws F hM) s' (run m ops) ∧ (ids s'.depth s'.root).head? = (ids s.depth s.root).head? :=
  safe_history_fill F hmax hM hN (by omega) le_rfl (by omega) le_rfl

/-! ## Trees of one leaf -/

/-- At most `n` keys are present. -/
def AtMost (n : Nat) (m : K → Option V) : Prop := ∃ l : List K, l.length ≤ n ∧ ∀ k, m k ≠ none → k ∈ l

theorem cont_depth0 {W : Laws (fpOps c M)} {lm bm rm : Nat} {s : State K (FLeaf M K V)} (g : Good W lm bm rm s)
    (hd : s.depth = 0) (k : K) : ∃ id l, findLeaf (fpOps c M) s.depth s.root k = .ok id ∧
      s.heap.data id = some l ∧ W.ok l ∧ cont W s = W.abs l := by
  obtain ⟨d, t, h⟩ := s
  dsimp only at hd
  subst hd
  obtain ⟨_, l, hl, hok, _⟩ := g.bt
  exact ⟨t, l, rfl, hl, hok, by dsimp only at hl; simp [cont, ids, content, ent, hl]⟩

theorem small_history (F : FLaws c adm) (hmax : ∀ k, adm k → k < c.lim.max) (hM : 2 ≤ M) {q : Nat}
    (hN : c.N = 2 * q) (hq : 3 ≤ q) : ∀ (ops : List (Op K V)) (s : State K (FLeaf M K V)) (m : K → Option V),
    Good (fpLaws F hM) (M / 2) (q - 1) 1 s → Stores (fpLaws F hM) s m → s.depth = 0 →
    (∀ k v, Op.insert k v ∈ ops → adm k) →
    (∀ pre, pre <+: ops → AtMost M (run m pre)) →
    ∃ s', execAll (fpOps c M) s ops = .ok (outs m ops, s') ∧ Good (fpLaws F hM) (M / 2) (q - 1) 1 s' ∧
      Stores (fpLaws F hM) s' (run m ops) ∧ (ids s'.depth s'.root).head? = (ids s.depth s.root).head?
  | [], s, m, g, h, _, _, _ => ⟨s, rfl, g, h, rfl⟩
  | .insert k v :: ops, s, m, g, h, hd, ha, hs => by
    obtain ⟨s1, e1, g1, c1, d1⟩ := insert_good_head (W := fpLaws F hM) (show M / 2 ≤ M / 2 from le_rfl)
      (show q - 1 ≤ (c.N - 1) / 2 by omega) (show 2 ≤ c.N by omega) (le_refl 1) g k v (ha k v (by simp))
    have hd1 : s1.depth = 0 := by
      obtain ⟨id, l, hf, hl, hok, hc⟩ := cont_depth0 g hd k
      change FOk c.hash adm l at hok
      change cont _ s = l.abs at hc
      have hdone : ∃ l', (fpOps c M).insert l k v = .ok (.done l') := by
        rcases insert_law F hM hok (ha k v (by simp)) v with ⟨l', e, _⟩ | ⟨a, b, sk, _, oka, okb, hab, hl1, hl2, _⟩
        · exact ⟨l', e⟩
        · -- a split would leave more than `M` keys
          obtain ⟨p, e, h'⟩ := pos_spec hok k
          change ∃ l', l.insert c k v = .ok (.done l')
          unfold FLeaf.insert
          rw [e, Res.ok_bind]
          rcases h' with ⟨h1, _⟩ | ⟨h1, hne⟩
          · rw [if_pos h1]; exact ⟨_, rfl⟩
          · rw [if_neg (by omega)]
            have hlen : l.abs.length < M := by
              by_contra hge
              obtain ⟨ks, hk1, hk2⟩ := hs [.insert k v] ⟨ops, rfl⟩
              have hsub : (upsert k v l.abs).map Prod.fst ⊆ ks := by
                intro x hx
                apply hk2
                obtain ⟨e, he, rfl⟩ := List.mem_map.1 hx
                have := (h.insert c1) e.1
                rw [show run m [Op.insert k v] = step m (.insert k v) from rfl, ← this, c1, hc]
                rw [find_of_mem (upsert_sorted hok.sorted) (v := e.2) he]; simp
              have hnd := nodup_keys (upsert_sorted (k := k) (v := v) hok.sorted)
              have hle := (hnd.subperm hsub).length_le
              rw [List.length_map] at hle
              have hul : (upsert k v l.abs).length = l.abs.length + 1 := by
                have hp : (upsert k v l.abs).Perm ((k, v) :: l.abs) := by
                  rw [List.perm_ext_iff_of_nodup]
                  · exact upsert_absent_perm hok.sorted hne
                  · exact List.Nodup.of_map _ hnd
                  · rw [List.nodup_cons]
                    exact ⟨fun hm => hne _ hm rfl, List.Nodup.of_map _ (nodup_keys hok.sorted)⟩
                rw [hp.length_eq, List.length_cons]
              omega
            obtain ⟨hfz, _⟩ := free_slot hlen
            rw [if_neg (by omega)]
            obtain ⟨l', e3, _⟩ := insertAt_law hok hlen hne (ha k v (by simp)) v
            rw [e3, Res.ok_bind]
            exact ⟨l', rfl⟩
      obtain ⟨l', e⟩ := hdone
      obtain ⟨s2, e2, hd2⟩ := insert_done hd hf hl e
      rw [e1] at e2
      rw [Res.ok.inj e2]; exact hd2
    obtain ⟨s', e, g', h', d'⟩ := small_history F hmax hM hN hq ops s1 _ g1 (h.insert c1) hd1
      (fun k v hx => ha k v (List.mem_cons_of_mem _ hx)) (fun pre hp => by
        have := hs (.insert k v :: pre) (List.cons_prefix_cons.2 ⟨rfl, hp⟩)
        exact this)
    refine ⟨s', ?_, g', h', d'.trans d1⟩
    rw [execAll, exec, e1, Res.ok_bind, Res.pure_eq, Res.ok_bind, e, Res.ok_bind]; rfl
  | .erase k :: ops, s, m, g, h, hd, ha, hs => by
    have hQ : Bt (fpLaws F hM) Slot0 (M / 2) (q - 1) s.heap s.depth (rootMin 1 s.depth) s.root ⊥ ⊤ := by
      have hb := g.bt
      obtain ⟨d, t, hp⟩ := s
      dsimp only at hd
      subst hd
      obtain ⟨h1, l, h2, h3, h4, h5, _⟩ := hb
      exact ⟨h1, l, h2, h3, h4, h5, inR_univ _⟩
    obtain ⟨s1, e1, g1, c1, d1⟩ := erase_good_head (fpErase F hM hmax) hN hq hM g hQ k (fun _ _ _ _ => trivial)
    obtain ⟨s', e, g', h', d'⟩ := small_history F hmax hM hN hq ops s1 _ g1 (h.erase c1) (erase_depth0 hd e1)
      (fun k v hx => ha k v (List.mem_cons_of_mem _ hx)) (fun pre hp => by
        have := hs (.erase k :: pre) (List.cons_prefix_cons.2 ⟨rfl, hp⟩)
        exact this)
    refine ⟨s', ?_, g', h', d'.trans d1⟩
    rw [execAll, exec, e1, Res.ok_bind, e, Res.ok_bind, h k]; rfl

end Verif.FPTree
