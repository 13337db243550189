import Verif.WBTree.General
import Verif.WBTree.Level
import Verif.WBTree.ScanProps

/-!
# C45, C86: wBPTree and wHBPTree after inserts in any order

The histories are all sequences of inserts that never split a leaf exactly in the middle; the trees have any
number of levels.
-/

namespace Verif.WBTree

variable {K V : Type} [LinearOrder K] {N M : Nat}

/-- No insert of the sequence splits a leaf exactly in the middle. -/
def NoMiddle (junk : Option Nat) : List (K × V) → Tree K V N M → Prop
  | [], _ => True
  | (k, v) :: xs, t => (∀ a, insLeaf t k t.depth t.root = .ok a → ¬ SplitsMiddle t k a) ∧
      ∀ t', insert junk t k v = .ok t' → NoMiddle junk xs t'

theorem GInv.insertAll (junk : Option Nat) (hM : 1 < M) (hN : 1 < N) : ∀ (xs : List (K × V))
    (t : Tree K V N M) (m : K → Option V), GInv t m → TLev t → NoMiddle junk xs t →
    ∃ t', insertAll junk xs t = .ok t' ∧ TLev t' ∧
      GInv t' (fun k => xs.foldl (fun o x => if x.1 = k then some x.2 else o) (m k)) := by
  intro xs
  induction xs with
  | nil => intro t m h h2 _; exact ⟨t, rfl, h2, h⟩
  | cons x xs ih =>
    intro t m h h2 hn
    obtain ⟨k, v⟩ := x
    obtain ⟨t1, e1, h1⟩ := h.insert junk hM hN k v hn.1
    obtain ⟨t2, e2, g2, g3⟩ := ih t1 _ h1 (h2.insert junk e1) (hn.2 t1 e1)
    refine ⟨t2, ?_, g2, ?_⟩
    · rw [WBTree.insertAll, e1, Res.ok_bind, e2]
    · have : (fun k' => List.foldl (fun o (x : K × V) => if x.1 = k' then some x.2 else o) (m k') ((k, v) :: xs)) =
          fun k' => List.foldl (fun o (x : K × V) => if x.1 = k' then some x.2 else o)
            (if k' = k then some v else m k') xs := by
        funext k'
        rw [List.foldl_cons]
        by_cases hk : k' = k
        · subst hk; simp
        · rw [if_neg hk, if_neg (fun hh => hk hh.symm)]
      rw [this]
      exact g3

theorem gInv_insertAll (junk : Option Nat) (hM : 1 < M) (hN : 1 < N) (xs : List (K × V))
    (hn : NoMiddle junk xs (empty N M junk : Tree K V N M)) :
    ∃ t', insertAll junk xs (empty N M junk : Tree K V N M) = .ok t' ∧ TLev t' ∧ GInv t' (last xs) :=
  GInv.insertAll junk hM hN xs _ _ (gInv_empty junk) (tLev_empty junk) hn

/-! ## Lookups -/

/-- The descent of `lookup` meets a larger separator at every branch node. -/
def Inner (t : Tree K V N M) (key : K) : Nat → Nat → Prop
  | 0, _ => True
  | d + 1, a => ∃ b n p c, t.branch a = .ok b ∧ b.slot.rd (N + 1) 0 = .ok n ∧ b.pos key = .ok p ∧ p ≤ n ∧
      b.child p = .ok c ∧ Inner t key d c

theorem findLeaf_inner {t : Tree K V N M} {key : K} : ∀ (d a : Nat), Inner t key d a →
    findLeaf t key d a = insLeaf t key d a := by
  intro d
  induction d with
  | zero => intro a _; rfl
  | succ d ih =>
    rintro a ⟨b, n, p, c, h1, h2, h3, h4, h5, h6⟩
    rw [findLeaf, insLeaf, h1, Res.ok_bind, Res.ok_bind, h3, Res.ok_bind, Res.ok_bind, h5, Res.ok_bind]
    unfold Branch.child at h5
    rw [h2, Res.ok_bind, if_neg (by omega)] at h5
    obtain ⟨s, hs, h5⟩ := Res.bind_eq_ok.1 h5
    rw [hs, Res.ok_bind, h5, Res.ok_bind, ih c h6]

/-- Every leaf of the tree in the heap, with entries that belong to the tree. -/
theorem Rep.leaf_mem {t : Tree K V N M} : ∀ (d : Nat) (T : VT K V d), Rep t d T → ∀ j ∈ leafs d T,
    ∃ l es, t.leaves[j]? = some l ∧ LeafOK l es ∧ (∀ e ∈ es, e.2 ∈ ents d T) ∧ (Ord d T → es ≠ []) := by
  intro d
  induction d with
  | zero =>
    rintro ⟨a, es⟩ ⟨l, h1, h2⟩ j hj
    rw [leafs, List.mem_singleton] at hj
    subst hj
    exact ⟨l, es, h1, h2, fun e he => List.mem_map_of_mem he, fun h => h.2⟩
  | succ d ih =>
    rintro ⟨a, xs, z⟩ ⟨_, hx, hz⟩ j hj
    rcases List.mem_append.1 hj with h | h
    · obtain ⟨x, hxm, hxj⟩ := List.mem_flatMap.1 h
      obtain ⟨l, es, h1, h2, h3, h4⟩ := ih x.2.2 (hx x hxm) j hxj
      exact ⟨l, es, h1, h2, fun e he => List.mem_append_left _ (List.mem_flatMap.2 ⟨x, hxm, h3 e he⟩),
        fun ho => h4 (ho.ord x hxm)⟩
    · obtain ⟨l, es, h1, h2, h3, h4⟩ := ih z hz j h
      exact ⟨l, es, h1, h2, fun e he => List.mem_append_right _ (h3 e he), fun ho => h4 ho.ordz⟩

/-- The descent of an insert ends in the leaf that holds the key if any leaf does. -/
theorem insLeaf_gen {t : Tree K V N M} (key : K) : ∀ (d : Nat) (T : VT K V d), Rep t d T → (Ord d T ∨ d = 0) →
    ∃ a l es, insLeaf t key d (adrOf d T) = .ok a ∧ t.leaf a = .ok l ∧ LeafOK l es ∧
      (∀ v, (key, v) ∈ ents d T ↔ (key, v) ∈ es.map (·.2)) ∧ ∀ e ∈ es, e.2 ∈ ents d T := by
  intro d
  induction d with
  | zero =>
    rintro ⟨a, es⟩ ⟨l, h1, h2⟩ _
    exact ⟨a, l, es, rfl, by unfold Tree.leaf; rw [h1, Res.ofOption_some], h2, fun v => Iff.rfl,
      fun e he => List.mem_map_of_mem he⟩
  | succ d ih =>
    rintro ⟨a, xs, z⟩ ⟨⟨b, hba, hb⟩, hrx, hrz⟩ hOrd
    have hs : Srt d (Ord d) xs z := hOrd.resolve_right (by omega)
    simp only [] at hba hb hrx hrz
    obtain ⟨P, Q, hPQ, epos, hP, hQ⟩ := hb.pos (hs.sortedKeys _) key
    obtain ⟨p, ys, rfl, rfl, rfl⟩ := adr_split hPQ
    replace hP := adr_keys (P := (· ≤ key)).1 hP
    replace hQ := adr_keys (P := (key < ·)).1 hQ
    rw [adr_length] at epos
    have echild : b.child (p.length + 1) = .ok (adrOf d (first ys z)) := by
      have h1 := hb
      rw [adr_append] at h1
      have := h1.child
      rwa [adr_length, first_adr] at this
    obtain ⟨a', l, es, e1, h1, h2, h3, h4⟩ := ih (first ys z) (first_rep hrx hrz) (Or.inl hs.first.1)
    refine ⟨a', l, es, ?_, h1, h2, ?_, fun e he => ?_⟩
    · show insLeaf t key (d + 1) a = _
      rw [insLeaf, Tree.branch_ok hba, Res.ok_bind, epos, Res.ok_bind, echild, Res.ok_bind, e1]
    · intro v
      rw [← h3 v]
      obtain ⟨hne1, hne2⟩ := others_ne hs hP hQ
      show (key, v) ∈ fl (ents d) (p ++ ys) z ↔ _
      rw [fl_append, fl_first, List.mem_append, List.mem_append]
      constructor
      · rintro (h | h | h)
        · exact absurd rfl (hne1 _ h)
        · exact h
        · exact absurd rfl (hne2 _ h)
      · intro h; exact Or.inr (Or.inl h)
    · show e.2 ∈ fl (ents d) (p ++ ys) z
      rw [fl_append, fl_first, List.mem_append, List.mem_append]
      exact Or.inr (Or.inl (h4 e he))

theorem LeafOK.lookup_iff {l : Leaf K V M} {es : List (Nat × K × V)} (h : LeafOK l es) (k : K) :
    ∃ r, l.lookup k = .ok r ∧ ∀ v, (k, v) ∈ es.map (·.2) ↔ r = some v := by
  refine ⟨_, h.lookup k, fun v => ?_⟩
  constructor
  · intro hm
    obtain ⟨e, he, hev⟩ := List.mem_map.1 hm
    have hek : e.2.1 = k := by rw [hev]
    have hsome : (es.find? (fun e => e.2.1 = k)).isSome := by
      rw [List.find?_isSome]
      exact ⟨e, he, by simpa using hek⟩
    obtain ⟨e', he'⟩ := Option.isSome_iff_exists.1 hsome
    rw [he']
    have h1 := List.find?_some he'
    simp only [decide_eq_true_eq] at h1
    have h2 := List.mem_of_find?_eq_some he'
    have : e' = e := by
      by_contra hne
      have hs := h.sorted
      obtain ⟨i, hi, rfl⟩ := List.getElem_of_mem he
      obtain ⟨j, hj, rfl⟩ := List.getElem_of_mem h2
      have hp := List.pairwise_iff_getElem.1 hs
      rcases Nat.lt_trichotomy i j with hij | hij | hij
      · exact absurd (hek.trans h1.symm) (ne_of_lt (hp i j hi hj hij))
      · subst hij; exact hne rfl
      · exact absurd (h1.trans hek.symm) (ne_of_lt (hp j i hj hi hij))
    rw [this, Option.map_some, hev]
  · intro hm
    rw [Option.map_eq_some_iff] at hm
    obtain ⟨e, h1, h2⟩ := hm
    have h3 := List.find?_some h1
    simp only [decide_eq_true_eq] at h3
    exact List.mem_map.2 ⟨e, List.mem_of_find?_eq_some h1, by rw [← h3, ← h2]⟩

/-- The lookup along the descent of an insert is right for every key. -/
theorem GInv.lookup_ins {t : Tree K V N M} {m : K → Option V} (h : GInv t m) (k : K) :
    (insLeaf t k t.depth t.root >>= fun a => t.leaf a >>= fun l => l.lookup k) = .ok (m k) := by
  obtain ⟨T, h1, h2, h3, _, _, _, _, h8⟩ := h
  obtain ⟨a, l, es, e1, e2, hok, hes, _⟩ := insLeaf_gen k t.depth T h2 (h3.imp id And.left)
  rw [h1] at e1
  obtain ⟨r, e3, hr⟩ := hok.lookup_iff k
  rw [e1, Res.ok_bind, e2, Res.ok_bind, e3]
  congr 1
  have hv : ∀ v, r = some v ↔ m k = some v := fun v => by rw [← hr v, ← hes v, h8]
  cases r with
  | none =>
    cases hm : m k with
    | none => rfl
    | some v => exact absurd ((hv v).2 hm) (by simp)
  | some v => exact ((hv v).1 rfl).symm

theorem GInv.lookup_inner {t : Tree K V N M} {m : K → Option V} (h : GInv t m) {k : K}
    (hi : Inner t k t.depth t.root) : lookup t k = .ok (m k) := by
  unfold lookup
  rw [findLeaf_inner _ _ hi]
  exact h.lookup_ins k

/-- A lookup never answers a wrong value. -/
theorem GInv.lookup_sound {t : Tree K V N M} {m : K → Option V} (h : GInv t m) (hl : TLev t) {k : K}
    {r : Option V} (e : lookup t k = .ok r) : r = none ∨ r = m k := by
  obtain ⟨T, h1, h2, h3, _, _, h6, _, h8⟩ := h
  obtain ⟨lev, hlev, hroot⟩ := hl
  unfold lookup at e
  obtain ⟨a, ea, e⟩ := Res.bind_eq_ok.1 e
  obtain ⟨l', hl', e⟩ := Res.bind_eq_ok.1 e
  obtain ⟨l, es, g1, g2, g3, _⟩ := h2.leaf_mem t.depth T a (h6 a (findLeaf_lt hlev k _ _ _ hroot ea))
  have : l' = l := by
    unfold Tree.leaf at hl'
    rw [g1, Res.ofOption_some] at hl'
    exact (Res.ok.inj hl').symm
  subst this
  obtain ⟨r', er, hr⟩ := g2.lookup_iff k
  rw [er] at e
  have := Res.ok.inj e
  subst this
  cases r' with
  | none => exact Or.inl rfl
  | some v =>
    right
    obtain ⟨x, hx, hxv⟩ := List.mem_map.1 ((hr v).2 rfl)
    have := g3 x hx
    rw [hxv] at this
    exact ((h8 k v).1 this).symm

/-- C45, the part that holds for trees of any depth, inserts in any order and with repeated keys, as long as no
insert splits a leaf exactly in the middle: every insert succeeds; `lookup` never answers a wrong value, i.e. it
answers the value of the last insert of the key or that there is none, or uses an unwritten slot; the answer
is the right one whenever the descent meets a larger separator at every branch node; and a lookup that took
the child behind the last separator, as `insert` does, would be right for every key.  Missing: keys behind the
last separator of a branch node (`C45_split_loses`) and splits exactly in the middle (`C45_lost_key`), where
the claim is false. -/
theorem C45_general_partial (hN : 1 < N) (hM : 1 < M) (junk : Option Nat) (xs : List (K × V))
    (h : NoMiddle junk xs (empty N M junk : Tree K V N M)) :
    ∃ t, insertAll junk xs (empty N M junk : Tree K V N M) = .ok t ∧
      (∀ k r, lookup t k = .ok r → r = none ∨ r = last xs k) ∧
      (∀ k, Inner t k t.depth t.root → lookup t k = .ok (last xs k)) ∧
      ∀ k, (insLeaf t k t.depth t.root >>= fun a => t.leaf a >>= fun l => l.lookup k) = .ok (last xs k) := by
  obtain ⟨t, e, h1, h2⟩ := gInv_insertAll junk hM hN xs h
  exact ⟨t, e, fun k r hr => h2.lookup_sound h1 hr, fun k hi => h2.lookup_inner hi, h2.lookup_ins⟩

/-! ## Scans -/

/-- What the leaf at address `a` holds, according to `g`. -/
def onLeaf {α : Type} (t : Tree K V N M) (g : Leaf K V M → List α) (a : Nat) : List α :=
  match t.leaves[a]? with
  | some l => g l
  | none => []

theorem Rep.ents_eq {t : Tree K V N M} : ∀ (d : Nat) (T : VT K V d), Rep t d T →
    (leafs d T).flatMap (onLeaf t Leaf.slotList) = ents d T := by
  intro d
  induction d with
  | zero =>
    rintro ⟨a, es⟩ ⟨l, h1, h2⟩
    simp only [leafs, List.flatMap_cons, List.flatMap_nil, List.append_nil, onLeaf]
    rw [h1]
    exact h2.slotList
  | succ d ih =>
    rintro ⟨a, xs, z⟩ ⟨hb, hx, hz⟩
    clear hb
    simp only [] at hx hz
    simp only [leafs, ents, fl, List.flatMap_append]
    rw [ih z hz]
    congr 1
    induction xs with
    | nil => rfl
    | cons x xs ihx =>
      rw [List.flatMap_cons, List.flatMap_append, ih _ (hx x (by simp)), List.flatMap_cons,
        ihx (fun y hy => hx y (by simp [hy]))]

theorem Linked.walk {t : Tree K V N M} {L : List Nat} (h : Linked t.next L)
    (hl : ∀ a ∈ L, ∃ l es, t.leaves[a]? = some l ∧ LeafOK l es) (f : Leaf K V M → Res (List (K × V)))
    (g : Leaf K V M → List (K × V)) (hf : ∀ l es, LeafOK l es → f l = .ok (g l)) :
    ∀ (post pre : List Nat) (n : Nat), L = pre ++ post → post.length ≤ n →
      walk f t n post.head? = .ok (post.flatMap (onLeaf t g)) := by
  intro post
  induction post with
  | nil => intro pre n _ _; cases n <;> rfl
  | cons a post ih =>
    intro pre n hL hn
    obtain ⟨n, rfl⟩ : ∃ n', n = n' + 1 := ⟨n - 1, by simp at hn; omega⟩
    obtain ⟨l, es, h1, h2⟩ := hl a (by rw [hL]; simp)
    rw [List.head?_cons, WBTree.walk, Tree.leaf, h1, Res.ofOption_some, Res.ok_bind, hf l es h2, Res.ok_bind,
      h pre a post hL, ih (pre ++ [a]) n (by rw [hL]; simp) (by simpa using hn), Res.ok_bind, List.flatMap_cons,
      onLeaf, h1]
    rfl

/-- The iterator stands before the entries `ys`; `post` are the leaves behind the current one. -/
def ItAt (t : Tree K V N M) (L : List Nat) : Iter → List (K × V) → Prop
  | (none, p), ys => p = 0 ∧ ys = []
  | (some a, p), ys => ∃ pre post l, L = pre ++ a :: post ∧ t.leaves[a]? = some l ∧ p < M ∧
      Bitmap.bit l.bits p = true ∧
      ys = l.posList p (M - p) ++ post.flatMap (onLeaf t (fun l => l.posList 0 M))

/-- All leaves of the list hold entries. -/
def Filled (t : Tree K V N M) (L : List Nat) : Prop :=
  ∀ a ∈ L, ∃ l es, t.leaves[a]? = some l ∧ LeafOK l es ∧ es ≠ []

theorem LeafOK.posList_ne {l : Leaf K V M} {es : List (Nat × K × V)} (h : LeafOK l es) (hne : es ≠ []) :
    l.posList 0 M ≠ [] := by
  intro hh
  have := h.posList_perm
  rw [hh] at this
  exact hne (by simpa using this.symm.eq_nil)

theorem Linked.incr {t : Tree K V N M} {L : List Nat} (h : Linked t.next L) (hf : Filled t L) {pre post : List Nat}
    {a : Nat} (hL : L = pre ++ a :: post) {l : Leaf K V M} (hl : t.leaves[a]? = some l) : ∀ (n p : Nat),
    p < M → M ≤ p + n →
    ∃ it, incr t n a p = .ok it ∧
      ItAt t L it (l.posList (p + 1) (M - (p + 1)) ++ post.flatMap (onLeaf t (fun l => l.posList 0 M))) := by
  intro n
  induction n with
  | zero => intro p h1 h2; omega
  | succ n ih =>
    intro p hp hn
    rw [WBTree.incr]
    by_cases hc : p ≥ M - 1
    · rw [if_pos hc, h pre a post hL, show M - (p + 1) = 0 by omega]
      cases post with
      | nil => exact ⟨(none, 0), rfl, rfl, rfl⟩
      | cons a' post =>
        obtain ⟨l', es', hl', hok', hne'⟩ := hf a' (by rw [hL]; simp)
        obtain ⟨q, e, h1, h2, h3⟩ := hok'.seek (M + 1) 0 (by omega) (by simpa using hok'.posList_ne hne')
        refine ⟨(some a', q), ?_, pre ++ [a], post, l', by rw [hL]; simp, hl', h1, h2, ?_⟩
        · dsimp only [List.head?_cons]
          rw [Tree.leaf, hl', Res.ofOption_some, Res.ok_bind, e, Res.ok_bind]
          rfl
        · rw [h3, List.flatMap_cons, onLeaf, hl']
          rfl
    · rw [if_neg hc, Tree.leaf, hl, Res.ofOption_some, Res.ok_bind, Bitmap.test_eq _ (by omega : p + 1 < M),
        Res.ok_bind]
      by_cases hb : Bitmap.bit l.bits (p + 1) = true
      · refine ⟨(some a, p + 1), ?_, pre, post, l, hL, hl, by omega, hb, rfl⟩
        unfold Bitmap.bit at hb
        rw [if_pos hb]; rfl
      · obtain ⟨it, e, h1⟩ := ih (p + 1) (by omega) (by omega)
        refine ⟨it, ?_, ?_⟩
        · unfold Bitmap.bit at hb
          rw [if_neg hb]; exact e
        · rw [show M - (p + 1) = M - (p + 1 + 1) + 1 by omega, Leaf.posList_succ, if_neg hb]
          exact h1

theorem Linked.iterLoop {t : Tree K V N M} {L : List Nat} (h : Linked t.next L) (hf : Filled t L) :
    ∀ (n : Nat) (it : Iter) (ys : List (K × V)), ItAt t L it ys → ys.length ≤ n → iterLoop t n it = .ok ys := by
  have step : ∀ (a p : Nat) (ys : List (K × V)), ItAt t L (some a, p) ys →
      ∃ l k v it ys', ys = (k, v) :: ys' ∧ t.leaves[a]? = some l ∧ l.keys.rd M p = .ok k ∧
        l.vals.rd M p = .ok v ∧ WBTree.incr t M a p = .ok it ∧ ItAt t L it ys' := by
    rintro a p ys ⟨pre, post, l, hL, hl, hp, hb, rfl⟩
    obtain ⟨l', es, hl', hok, _⟩ := hf a (by rw [hL]; simp)
    rw [hl] at hl'
    obtain rfl := Option.some.inj hl'
    obtain ⟨it, e, hit⟩ := h.incr hf hL hl M p hp (by omega)
    obtain ⟨e0, he0, rfl⟩ := hok.used hp hb
    refine ⟨l, e0.2.1, e0.2.2, it, _, ?_, hl, hok.key he0, hok.val he0, e, hit⟩
    rw [show M - e0.1 = M - (e0.1 + 1) + 1 by omega, Leaf.posList_succ, if_pos hb, hok.at he0]
    rfl
  intro n
  induction n with
  | zero =>
    rintro ⟨_ | a, p⟩ ys hit hn
    · rw [WBTree.iterLoop.eq_def]
      dsimp only
      rw [hit.2]
    · obtain ⟨l, k, v, it, ys', rfl, _⟩ := step a p ys hit
      simp at hn
  | succ n ih =>
    rintro ⟨_ | a, p⟩ ys hit hn
    · rw [WBTree.iterLoop.eq_def]
      dsimp only
      rw [hit.2]
    · obtain ⟨l, k, v, it, ys', rfl, hl, h1, h2, h3, h4⟩ := step a p ys hit
      rw [WBTree.iterLoop, Tree.leaf, hl, Res.ofOption_some, Res.ok_bind, h1, Res.ok_bind, h2, Res.ok_bind, h3,
        Res.ok_bind, ih it ys' h4 (by simpa using hn), Res.ok_bind]
      rfl

theorem nodup_length_le {L : List Nat} {n : Nat} (hn : L.Nodup) (hlt : ∀ a ∈ L, a < n) : L.length ≤ n := by
  have h1 : L.toFinset ⊆ Finset.range n := by
    intro a ha
    rw [Finset.mem_range]
    exact hlt a (List.mem_toFinset.1 ha)
  have := Finset.card_le_card h1
  rw [List.toFinset_card_of_nodup hn, Finset.card_range] at this
  exact this

/-- What the scans list, given where they start. -/
theorem GInv.scans {t : Tree K V N M} {m : K → Option V} (h : GInv t m) {x : Nat}
    (hx : leftmost t t.depth t.root = .ok x) (hlt : x < t.leaves.length) :
    ∃ E pre ys, (E.map Prod.fst).Pairwise (· < ·) ∧ (∀ k v, (k, v) ∈ E ↔ m k = some v) ∧ E = pre ++ ys ∧
      scan t = .ok ys ∧ (∃ zs, scanH t = .ok zs ∧ zs.Perm ys) ∧
      (E ≠ [] → ys ≠ [] ∧ ∃ zs, iterate t = .ok zs ∧ zs.Perm ys) := by
  obtain ⟨T, h1, h2, h3, h4, h5, h6, h7, h8⟩ := h
  have hmem := h2.leaf_mem t.depth T
  obtain ⟨pre, post, hL⟩ := List.append_of_mem (h6 x hlt)
  have hlen : (x :: post).length ≤ t.leaves.length := by
    have := nodup_length_le h4 (h2.leaf_lt t.depth T)
    rw [hL, List.length_append] at this
    omega
  have hE := h2.ents_eq t.depth T
  rw [hL, List.flatMap_append] at hE
  have hok : ∀ a ∈ leafs t.depth T, ∃ l es, t.leaves[a]? = some l ∧ LeafOK l es := by
    intro a ha
    obtain ⟨l, es, g1, g2, _⟩ := hmem a ha
    exact ⟨l, es, g1, g2⟩
  have hperm : ∀ Q : List Nat, (∀ a ∈ Q, a ∈ leafs t.depth T) →
      (Q.flatMap (onLeaf t (fun l => l.posList 0 M))).Perm (Q.flatMap (onLeaf t Leaf.slotList)) := by
    intro Q
    induction Q with
    | nil => intro _; exact List.Perm.refl _
    | cons a Q ih =>
      intro hQ
      obtain ⟨l, es, g1, g2⟩ := hok a (hQ a (by simp))
      rw [List.flatMap_cons, List.flatMap_cons]
      refine List.Perm.append ?_ (ih (fun b hb => hQ b (by simp [hb])))
      unfold onLeaf
      rw [g1]
      dsimp only
      rw [g2.slotList]
      exact g2.posList_perm
  have hxp : ∀ a ∈ x :: post, a ∈ leafs t.depth T := fun a ha => by rw [hL]; simp [List.mem_cons.1 ha]
  refine ⟨ents t.depth T, pre.flatMap (onLeaf t Leaf.slotList), (x :: post).flatMap (onLeaf t Leaf.slotList), ?_, h8,
    hE.symm, ?_, ⟨(x :: post).flatMap (onLeaf t (fun l => l.posList 0 M)), ?_, hperm _ hxp⟩, ?_⟩
  · rw [List.pairwise_map]
    rcases h3 with h3 | ⟨_, h3⟩
    · exact h3.sorted
    · rw [h3]; exact List.Pairwise.nil
  · unfold scan
    rw [hx, Res.ok_bind]
    exact h7.walk hok Leaf.scanSlots Leaf.slotList (fun l es hk => by rw [hk.scanSlots, hk.slotList]) (x :: post)
      pre _ hL hlen
  · unfold scanH
    rw [hx, Res.ok_bind]
    exact h7.walk hok Leaf.scanBits (fun l => l.posList 0 M) (fun l es hk => hk.scanBits) (x :: post) pre _ hL hlen
  · intro hne
    have hord : Ord t.depth T := h3.resolve_right (fun hh => hne hh.2)
    have hf : Filled t (leafs t.depth T) := by
      intro a ha
      obtain ⟨l, es, g1, g2, _, g4⟩ := hmem a ha
      exact ⟨l, es, g1, g2, g4 hord⟩
    obtain ⟨l, es, g1, g2, g3⟩ := hf x (hxp x (by simp))
    obtain ⟨q, e, k1, k2, k3⟩ := g2.seek (M + 1) 0 (by omega) (by simpa using g2.posList_ne g3)
    have hys : l.posList q (M - q) ++ post.flatMap (onLeaf t (fun l => l.posList 0 M)) =
        (x :: post).flatMap (onLeaf t (fun l => l.posList 0 M)) := by
      rw [k3, List.flatMap_cons, onLeaf, g1]
      rfl
    constructor
    · rw [List.flatMap_cons, onLeaf, g1]
      dsimp only
      rw [g2.slotList]
      intro hh
      rw [List.append_eq_nil_iff, List.map_eq_nil_iff] at hh
      exact g3 hh.1
    · refine ⟨(x :: post).flatMap (onLeaf t (fun l => l.posList 0 M)), ?_, hperm _ hxp⟩
      unfold iterate begin
      rw [hx, Res.ok_bind, Tree.leaf, g1, Res.ofOption_some, Res.ok_bind, e, Res.ok_bind, Res.pure_eq, Res.ok_bind]
      refine h7.iterLoop hf _ (some x, q) _ ⟨pre, post, l, hL, g1, k1, k2, hys.symm⟩ ?_
      refine le_trans (flatMap_length_le _ M _ (fun a ha => ?_)) (Nat.mul_le_mul_right M hlen)
      unfold onLeaf
      split
      · unfold Leaf.posList
        refine le_trans (List.length_filterMap_le _ _) (le_trans (List.length_filter_le _ _) ?_)
        rw [List.length_range']
      · simp

/-- C86, the part that holds for trees of any depth, inserts in any order and with repeated keys, as long as no
insert splits a leaf exactly in the middle: let `E` be the stored entries in key order.  `wBPTree::scan` lists
the end `ys` of `E`: it may miss the smallest keys but lists every other entry once, in key order; there is at
least one entry in `ys` if there is one at all.  `wHBPTree::scan` and the iterators list the same
entries.  Missing: the first part of `E`, which is really missed after some inserts (`C86_missed`). -/
theorem C86_general_partial (hN : 4 ≤ N) (hM : 1 < M) (junk : Option Nat) (xs : List (K × V))
    (h : NoMiddle junk xs (empty N M junk : Tree K V N M)) :
    ∃ t E pre ys, insertAll junk xs (empty N M junk : Tree K V N M) = .ok t ∧
      (E.map Prod.fst).Pairwise (· < ·) ∧ (∀ k v, (k, v) ∈ E ↔ last xs k = some v) ∧ E = pre ++ ys ∧
      scan t = .ok ys ∧ (∃ zs, scanH t = .ok zs ∧ zs.Perm ys) ∧
      (E ≠ [] → ys ≠ [] ∧ ∃ zs, iterate t = .ok zs ∧ zs.Perm ys) := by
  obtain ⟨t, e, ⟨lev, h1, h2⟩, h3⟩ := gInv_insertAll junk hM (by omega) xs h
  obtain ⟨x, hx⟩ := leftmost_def h1 hN _ _ h2
  obtain ⟨E, pre, ys, g⟩ := h3.scans hx (leftmost_lt h1 _ _ _ h2 hx)
  exact ⟨t, E, pre, ys, e, g⟩

/-! ## Inserts at the ends of the key range -/

/-- Every insert overwrites a key, or its key is below or above all keys inserted before. -/
def AtEnds (xs : List (K × V)) : Prop :=
  ∀ pre x post, xs = pre ++ x :: post →
    (∃ y ∈ pre, y.1 = x.1) ∨ (∀ y ∈ pre, x.1 < y.1) ∨ ∀ y ∈ pre, y.1 < x.1

theorem last_snoc (xs : List (K × V)) (y : K × V) (k : K) :
    last (xs ++ [y]) k = if k = y.1 then some y.2 else last xs k := by
  unfold last
  rw [List.foldl_append, List.foldl_cons, List.foldl_nil]
  by_cases hk : k = y.1
  · rw [if_pos hk, if_pos hk.symm]
  · rw [if_neg hk, if_neg (fun hh => hk hh.symm)]

theorem last_some_iff (xs : List (K × V)) (k : K) : (∃ v, last xs k = some v) ↔ ∃ y ∈ xs, y.1 = k := by
  induction xs using List.reverseRecOn with
  | nil => simp [last]
  | append_singleton xs y ih =>
    rw [last_snoc]
    by_cases hk : k = y.1
    · rw [if_pos hk]
      exact ⟨fun _ => ⟨y, by simp, hk.symm⟩, fun _ => ⟨_, rfl⟩⟩
    · rw [if_neg hk, ih]
      constructor
      · rintro ⟨z, hz, h⟩; exact ⟨z, by simp [hz], h⟩
      · rintro ⟨z, hz, h⟩
        rcases List.mem_append.1 hz with hz | hz
        · exact ⟨z, hz, h⟩
        · rw [List.mem_singleton] at hz
          subst hz
          exact absurd h.symm hk

theorem noMiddle_ends (junk : Option Nat) (hM : 2 < M) (hN : 1 < N) : ∀ (xs pre : List (K × V))
    (t : Tree K V N M), AtEnds (pre ++ xs) → GInv t (last pre) → NoMiddle junk xs t := by
  intro xs
  induction xs with
  | nil => intro pre t _ _; trivial
  | cons x xs ih =>
    intro pre t he h
    have hmid : ∀ a, insLeaf t x.1 t.depth t.root = .ok a → ¬ SplitsMiddle t x.1 a := by
      rintro a ha ⟨l, hl, hfull, hpos, hnone⟩
      obtain ⟨T, h1, h2, h3, _, _, _, _, h8⟩ := h
      obtain ⟨a', l', es, e1, e2, hok, hes, hsub⟩ := insLeaf_gen x.1 t.depth T h2 (h3.imp id And.left)
      rw [h1, ha] at e1
      have := Res.ok.inj e1
      subst this
      rw [hl] at e2
      have := Res.ok.inj e2
      subst this
      have hmem : ∀ e ∈ es, ∃ y ∈ pre, y.1 = e.2.1 := fun e he' =>
        (last_some_iff pre e.2.1).1 ⟨e.2.2, (h8 _ _).1 (hsub e he')⟩
      have hlen : es.length = M := by
        rw [hok.count] at hfull
        exact Res.ok.inj hfull
      obtain ⟨A, B, hAB, epos, hA, hB⟩ := hok.pos x.1
      rw [hpos] at epos
      have epos := Res.ok.inj epos
      rcases he pre x xs rfl with hc | hc | hc
      · obtain ⟨v, hv⟩ := (last_some_iff pre x.1).2 hc
        obtain ⟨r, er, hr⟩ := hok.lookup_iff x.1
        rw [hnone] at er
        have := Res.ok.inj er
        subst this
        exact absurd ((hr v).1 ((hes v).1 ((h8 _ _).2 hv))) (by simp)
      · have : A = [] := by
          rw [List.eq_nil_iff_forall_not_mem]
          intro e heA
          obtain ⟨y, hy, hye⟩ := hmem e (by rw [hAB]; simp [heA])
          exact absurd (hA e heA) (not_lt.2 (by rw [← hye]; exact le_of_lt (hc y hy)))
        rw [this, List.length_nil] at epos
        omega
      · have : B = [] := by
          rw [List.eq_nil_iff_forall_not_mem]
          intro e heB
          obtain ⟨y, hy, hye⟩ := hmem e (by rw [hAB]; simp [heB])
          exact absurd (hB e heB) (not_le.2 (by rw [← hye]; exact hc y hy))
        rw [this, List.append_nil] at hAB
        rw [hAB] at hlen
        omega
    obtain ⟨k, v⟩ := x
    refine ⟨hmid, fun t' e => ?_⟩
    obtain ⟨t1, e1, h1⟩ := h.insert junk (by omega) hN k v hmid
    rw [e] at e1
    have := Res.ok.inj e1
    subst this
    refine ih (pre ++ [(k, v)]) t' (by simpa using he) ?_
    have : last (pre ++ [(k, v)]) = fun k' => if k' = k then some v else last pre k' := by
      funext k'; exact last_snoc pre (k, v) k'
    rw [this]
    exact h1

/-- The histories of `C45_general_partial` and `C86_general_partial` contain all sequences whose keys are new
minima, new maxima or repeated. -/
theorem AtEnds.noMiddle (junk : Option Nat) (hM : 2 < M) (hN : 1 < N) {xs : List (K × V)} (h : AtEnds xs) :
    NoMiddle junk xs (empty N M junk : Tree K V N M) :=
  noMiddle_ends junk hM hN xs [] _ h (gInv_empty junk)

/-- C45 and C86 for keys inserted at the ends of the key range, without any condition on the tree: lookups never
answer a wrong value, and the scan lists an end of the stored entries. -/
theorem C45_ends_partial (hN : 4 ≤ N) (hM : 2 < M) (junk : Option Nat) (xs : List (K × V)) (h : AtEnds xs) :
    ∃ t E pre ys, insertAll junk xs (empty N M junk : Tree K V N M) = .ok t ∧
      (∀ k r, lookup t k = .ok r → r = none ∨ r = last xs k) ∧
      (E.map Prod.fst).Pairwise (· < ·) ∧ (∀ k v, (k, v) ∈ E ↔ last xs k = some v) ∧ E = pre ++ ys ∧
      scan t = .ok ys ∧ (E ≠ [] → ys ≠ []) := by
  have hn := h.noMiddle (N := N) junk hM (by omega)
  obtain ⟨t, e, h1, _⟩ := C45_general_partial (by omega) (by omega) junk xs hn
  obtain ⟨t', E, pre, ys, e', h2, h3, h4, h5, _, h6⟩ := C86_general_partial hN (by omega) junk xs hn
  rw [e] at e'
  have := Res.ok.inj e'
  subst this
  exact ⟨t, E, pre, ys, e, h1, h2, h3, h4, h5, fun hne => (h6 hne).1⟩

/-- Non-triviality: twenty keys from both ends make a tree with two levels of branch nodes.  The scan misses
the four smallest keys; the lookup of `93` is right, that of `99` reads a slot left from before a split and
finds nothing, that of `118` reads an unwritten slot. -/
def endsExample : List (Nat × Nat) := (List.range 20).map fun i => if i % 2 = 0 then (100 + i, i) else (100 - i, i)

theorem endsExample_atEnds : AtEnds endsExample := by
  intro pre x post h
  have hi : endsExample[pre.length]? = some x := by rw [h]; simp
  have hp : ∀ y ∈ pre, ∃ j < pre.length, endsExample[j]? = some y := by
    intro y hy
    obtain ⟨j, hj, rfl⟩ := List.getElem_of_mem hy
    exact ⟨j, hj, by rw [h, List.getElem?_append_left hj]; simp⟩
  have hval : ∀ j y, endsExample[j]? = some y → y = if j % 2 = 0 then (100 + j, j) else (100 - j, j) := by
    intro j y hy
    unfold endsExample at hy
    rw [List.getElem?_map] at hy
    obtain ⟨i, hi, hiy⟩ := Option.map_eq_some_iff.1 hy
    obtain ⟨h1, h2⟩ := List.getElem?_eq_some_iff.1 hi
    rw [List.getElem_range] at h2
    subst h2
    exact hiy.symm
  have hlen : pre.length < 20 := by
    have := (List.getElem?_eq_some_iff.1 hi).1
    simpa [endsExample] using this
  have hx := hval _ _ hi
  by_cases hpar : pre.length % 2 = 0
  · rw [if_pos hpar] at hx
    refine Or.inr (Or.inr fun y hy => ?_)
    obtain ⟨j, hj, hjy⟩ := hp y hy
    rw [hval j y hjy, hx]
    split <;> simp only [] <;> omega
  · rw [if_neg hpar] at hx
    refine Or.inr (Or.inl fun y hy => ?_)
    obtain ⟨j, hj, hjy⟩ := hp y hy
    rw [hval j y hjy, hx]
    split <;> simp only [] <;> omega

set_option maxRecDepth 100000 in
example :
    (insertAll none endsExample (empty 4 4 none : Tree Nat Nat 4 4) >>= fun t =>
      pure (t.leaves.length, t.branches.length, t.depth)) = .ok (8, 3, 2) ∧
    (insertAll none endsExample (empty 4 4 none : Tree Nat Nat 4 4) >>= fun t => lookup t 93) = .ok (some 7) ∧
    (insertAll none endsExample (empty 4 4 none : Tree Nat Nat 4 4) >>= fun t => lookup t 99) = .ok none ∧
    (insertAll none endsExample (empty 4 4 none : Tree Nat Nat 4 4) >>= fun t => lookup t 118) = .ub ∧
    (insertAll none endsExample (empty 4 4 none : Tree Nat Nat 4 4) >>= fun t => scan t >>= fun ys =>
      pure (ys.map Prod.fst)) = .ok [89, 91, 93, 95, 97, 99, 100, 102, 104, 106, 108, 110, 112, 114, 116, 118] := by
  decide +kernel

end Verif.WBTree
