import Verif.BitTree.Underflow

/-!
# C63: erases that reach the handling of an underflow

The two cases of `underflowAtLeafLevel` that work, for trees of depth 1 and all states: the merge with the left
neighbour, and taking entries from the right neighbour if the slots 0 of the leaves are in the right order.
The other two cases are refuted by `C63_refuted` and the examples below.
-/

set_option linter.unusedSectionVars false

namespace Verif.BitTree

open Verif Search FPTree BTree

variable {K V : Type} {M : Nat} [LinearOrder K] [Inhabited K] {c : Cfg K V} {adm : K → Prop}

/-- As `findLeaf_law`, with the leaf among those of the tree. -/
theorem findLeaf_fp (F : Laws c adm) {h : Heap M K V} : ∀ (d : Nat) (t : Tree c.N K d) (R : K → Prop) (k : K) (id : Nat),
    (∀ k, R k → adm k) → Ok h d t R → R k → findLeaf c d t k = .ok id → id ∈ fp d t
  | 0, i, R, k, id, hR, ho, hk, e => by
    cases e
    rfl
  | d + 1, b, R, k, id, hR, ho, hk, e => by
    obtain ⟨p, ep, hp, hr⟩ := pos_law (lim := c.lim) (sep_max F hR ho) hk
    obtain ⟨x, hx, hox⟩ := ho.kid p hp
    rw [findLeaf, ep, Res.ok_bind, kid_ok (live_lt hp) hx, Res.ok_bind] at e
    exact ⟨x, ⟨p, hp, hx⟩, findLeaf_fp F d x _ k id (fun k hk => hR k hk.1) hox hr e⟩

/-- The invariant of a tree with deleted leaves: no leaf of the tree is among them. -/
structure EOk (adm : K → Prop) (t : EStore c M) : Prop where
  tok : TOk adm t.st
  dead : ∀ i ∈ t.dead, i < t.st.heap.length ∧ i ∉ fp t.st.depth t.st.root

theorem eok_lookup (F : Laws c adm) {t : EStore c M} (ht : EOk adm t) {k : K} (hk : adm k) :
    ∃ r, t.lookup k = .ok r ∧ ∀ v, r = some v ↔ t.st.Has k v := by
  obtain ⟨id, x, e1, e2, e3, e4⟩ := findLeaf_law F t.st.depth t.st.root adm k (fun _ h => h) ht.tok.ok hk
  obtain ⟨r, e5, e6⟩ := lookup_law e3 k
  refine ⟨r, ?_, fun v => (e6 v).trans (e4 v)⟩
  have hid := findLeaf_fp F t.st.depth t.st.root adm k id (fun _ h => h) ht.tok.ok hk e1
  unfold EStore.lookup
  rw [e1, Res.ok_bind, deref_live e2 fun h => (ht.dead id h).2 hid, Res.ok_bind]
  exact e5

theorem eok_insert (F : Laws c adm) (hM : 2 ≤ M) (hm : c.move = false → M % 64 ≠ 0) (hN : 2 ≤ c.N)
    (hN64 : c.N % 64 ≠ 0) {t : EStore c M} (ht : EOk adm t) {k : K} (hk : adm k) (v : V) :
    ∃ t', t.insert k v = .ok t' ∧ EOk adm t' ∧ ∀ x y, t'.st.Has x y ↔ Ups t.st.Has k v x y := by
  obtain ⟨id, x, e1, e2, _⟩ := findLeaf_law F t.st.depth t.st.root adm k (fun _ h => h) ht.tok.ok hk
  obtain ⟨t', e, ⟨h1, h2⟩, h3, h4⟩ := store_insert_full F hM hm hN hN64 ht.tok hk v
  have hid := findLeaf_fp F t.st.depth t.st.root adm k id (fun _ h => h) ht.tok.ok hk e1
  refine ⟨⟨t', t.dead⟩, ?_, ⟨h1, fun i hi => ?_⟩, h2⟩
  · unfold EStore.insert
    rw [e1, Res.ok_bind, deref_live e2 fun h => (ht.dead id h).2 hid, Res.ok_bind, e]
    rfl
  · obtain ⟨g1, g2⟩ := ht.dead i hi
    refine ⟨lt_of_lt_of_le g1 h3, fun h => ?_⟩
    rcases h4 i h with h | h
    · exact g2 h
    · omega

/-- With no leaf of the tree deleted, the erase goes as if there were none. -/
theorem eraseAt_dead (F : Laws c adm) {h : Heap M K V} {dead : List Nat} : ∀ (d : Nat) (t : Tree c.N K d) (R : K → Prop) (k : K),
    (∀ k, R k → adm k) → Ok h d t R → R k → (∀ i ∈ dead, i ∉ fp d t) → eraseAt c d h dead t k = eraseAt c d h [] t k
  | 0, id, R, k, hR, ho, hk, hd => by
    obtain ⟨l, e, _⟩ := ok_zero.1 ho
    obtain ⟨x, hx, _⟩ := core_some.1 e
    rw [eraseAt, eraseAt, deref_nil hx, deref_live hx fun h => hd id h rfl]
  | d + 1, b, R, k, hR, ho, hk, hd => by
    obtain ⟨p, ep, hp, hr⟩ := pos_law (lim := c.lim) (sep_max F hR ho) hk
    obtain ⟨x, hx, hox⟩ := ho.kid p hp
    rw [eraseAt, eraseAt, ep, Res.ok_bind, Res.ok_bind, kid_ok (live_lt hp) hx, Res.ok_bind, Res.ok_bind,
      eraseAt_dead F d x _ k (fun k hk => hR k hk.1) hox hr fun i hi h => hd i hi ⟨x, ⟨p, hp, hx⟩, h⟩]

theorem LeftOf.ne {N : Nat} {C : Type} {b : Branch N K C} {pos pp : Nat} (h : LeftOf b pos pp) : pos ≠ pp := by
  rintro rfl
  exact lt_irrefl _ (h.key h.lt)

theorem LeftOf.unique {N : Nat} {C : Type} {b : Branch N K C} {pos pp q : Nat} (h : LeftOf b pos pp) (hi : LeftOf b pos q)
    (inj : ∀ i j, i < N → j < N → Bitmap.bit b.bits i = true → Bitmap.bit b.bits j = true → b.keys i = b.keys j → i = j) :
    pp = q :=
  inj pp q h.lt hi.lt h.bit hi.bit (le_antisymm (hi.max pp h.lt h.bit h.key) (h.max q hi.lt hi.bit hi.key))

/-- What `underflowAtLeafLevel` leaves: the tree or, if the root is given up, its only leaf. -/
def Under.store (c : Cfg K V) (u : Under c.N M K V) (first : Nat) : EStore c M :=
  match u.root with
  | none => ⟨⟨1, u.node, u.heap, first⟩, u.dead⟩
  | some i => ⟨⟨0, i, u.heap, first⟩, u.dead⟩

/-- The leaves of a node, or of the subtree left of it. -/
def fpS {N : Nat} (d : Nat) : Branch N K (Tree N K d) ⊕ Tree N K d → Set Nat
  | .inl b => fp (N := N) (d + 1) b
  | .inr t => fp d t

/-- `Ok` for a node or the subtree left of it. -/
def OkS {N : Nat} (h : Heap M K V) (d : Nat) : Branch N K (Tree N K d) ⊕ Tree N K d → (K → Prop) → Prop
  | .inl b, R => Ok (N := N) h (d + 1) b R
  | .inr t, R => Ok h d t R

/-- `hasT` for a node or the subtree left of it. -/
def hasS {N : Nat} (h : Heap M K V) (d : Nat) : Branch N K (Tree N K d) ⊕ Tree N K d → K → V → Prop
  | .inl b => hasT (N := N) h (d + 1) b
  | .inr t => hasT h d t

/-- A change of the subtree below the node `b`: nothing else is changed, and the leaves deleted are of this subtree. -/
structure Post {N : Nat} (h : Heap M K V) (dead : List Nat) (d : Nat) (b : Branch N K (Tree N K d)) (R : K → Prop) (h' : Heap M K V)
    (dead' : List Nat) (o : Branch N K (Tree N K d) ⊕ Tree N K d) (S : K → V → Prop) : Prop where
  link : LinkOk h'
  len : h'.length = h.length
  frame : ∀ i, i ∉ fp (N := N) (d + 1) b → core h' i = core h i
  ok : OkS h' d o R
  sub : ∀ i ∈ fpS d o, i ∈ fp (N := N) (d + 1) b
  dead : ∀ i ∈ dead', i ∈ dead ∨ (i ∈ fp (N := N) (d + 1) b ∧ i ∉ fpS d o)
  has : ∀ x y, hasS h' d o x y ↔ S x y

/-- The node left, or the leaf if the node is given up. -/
def Under.out {N : Nat} (u : Under N M K V) : Branch N K (Tree N K 0) ⊕ Tree N K 0 :=
  match u.root with
  | none => .inl u.node
  | some i => .inr i

/-- The handling of the underflow keeps the invariant and the entries. -/
def Good (c : Cfg K V) (adm : K → Prop) (first : Nat) (u : Under c.N M K V) (S : K → V → Prop) : Prop :=
  EOk adm (u.store c first) ∧ ∀ x y, (u.store c first).st.Has x y ↔ S x y

theorem good_of_post {h : Heap M K V} {dead : List Nat} {b : Branch c.N K Nat} (first : Nat) {u : Under c.N M K V} {S : K → V → Prop}
    (hdead : ∀ i ∈ dead, i < h.length ∧ i ∉ fp (N := c.N) 1 b) (ho : Ok (N := c.N) h 1 b adm)
    (hp : Post h dead 0 b adm u.heap u.dead u.out S) : Good c adm first u S := by
  have hd : ∀ i ∈ u.dead, i < u.heap.length ∧ i ∉ fpS 0 u.out := by
    intro i hi
    rw [hp.len]
    rcases hp.dead i hi with h1 | ⟨h1, h2⟩
    · exact ⟨(hdead i h1).1, fun h => (hdead i h1).2 (hp.sub i h)⟩
    · exact ⟨fp_lt 1 b adm ho i h1, h2⟩
  have h1 := hp.ok
  have h2 := hp.has
  have h3 := hp.link
  unfold Good Under.store
  unfold Under.out at h1 h2 hd
  revert h1 h2 hd
  cases u.root with
  | none => exact fun hd h1 h2 => ⟨⟨⟨h1, h3⟩, hd⟩, h2⟩
  | some i => exact fun hd h1 h2 => ⟨⟨⟨h1, h3⟩, hd⟩, h2⟩

theorem underLeaf_left (F : Laws c adm) {R : K → Prop} (hR : ∀ a, R a → adm a) {h : Heap M K V} {dead : List Nat} {b : Branch c.N K Nat}
    (hdead : ∀ i ∈ dead, i < h.length ∧ i ∉ fp (N := c.N) 1 b) (hlink : LinkOk h) (ho : Ok (N := c.N) h 1 b R) {pos pp id s : Nat} (hpos : live b pos) (hl : LeftOf b pos pp)
    (hid : b.kids pos = some id) (hs : b.kids pp = some s) {x y : Cell M K V} (ex : h[id]? = some x) (ey : h[s]? = some y)
    (hprev : x.prev = some s) (cx : x.leaf.bits.count < middle M)
    (cy : (0 < pos → y.leaf.bits.count ≤ middle M) ∧ y.leaf.bits.count + middle M ≤ M + 1)
    (hn : pos < c.N → ∃ j z, x.next = some j ∧ h[j]? = some z ∧ z.leaf.bits.count ≤ middle M)
    (hnd : ∀ j, x.next = some j → j ∉ dead) :
    ∃ u, underLeaf c h dead b pos id = .ok u ∧ Post h dead 0 b R u.heap u.dead u.out (hasT (N := c.N) h 1 b) ∧
      (2 ≤ b.bits.count → u.root = none) := by
  have ho' : BOk (Ok (N := c.N) h 0) (fp (N := c.N) (K := K) 0) b R := ho
  have hlp : live b pp := Or.inl ⟨hl.lt, hl.bit⟩
  have okx : LOk x.leaf ∧ ∀ k v, Has x.leaf k v → rng b R pos k := by
    obtain ⟨z, e, hz⟩ := ho'.kid pos hpos
    rw [hid] at e
    cases Option.some.inj e
    obtain ⟨l0, e0, h1, h2⟩ := ok_zero.1 hz
    rw [core_some.2 ⟨x, ex, rfl⟩] at e0
    cases Option.some.inj e0
    exact ⟨h1, h2⟩
  have oky : LOk y.leaf ∧ ∀ k v, Has y.leaf k v → rng b R pp k := by
    obtain ⟨z, e, hz⟩ := ho'.kid pp hlp
    rw [hs] at e
    cases Option.some.inj e
    obtain ⟨l0, e0, h1, h2⟩ := ok_zero.1 hz
    rw [core_some.2 ⟨y, ey, rfl⟩] at e0
    cases Option.some.inj e0
    exact ⟨h1, h2⟩
  have dI : id ∉ dead := fun h => (hdead id h).2 ⟨id, ⟨pos, hpos, hid⟩, rfl⟩
  have dS : s ∉ dead := fun h => (hdead s h).2 ⟨s, ⟨pp, hlp, hs⟩, rfl⟩
  have hdis : ∀ k v w, Has y.leaf k v → ¬ Has x.leaf k w := fun k v w h1 h2 =>
    absurd ((oky.2 k v h1).2.1 hl.lt) (not_lt.2 ((okx.2 k w h2).2.2 pp hl.lt hl.bit hl.key))
  have hcap : used y.leaf + used x.leaf ≤ M := by
    rw [← count_used okx.1, ← count_used oky.1]
    omega
  obtain ⟨h1, l, em, el, okl, hasl, hfr, hlk1, hlen1⟩ := mergeLeaves_law hlink ey ex dS dI hnd oky.1 okx.1 hdis hcap
  obtain ⟨bits, eb, g1, g2, g3, g4⟩ := dropLeft_law ho hpos hl hid hs (core_some.2 ⟨x, ex, rfl⟩) (core_some.2 ⟨y, ey, rfl⟩)
    el okl hasl hfr
  have hsid : id ≠ s := by
    rintro rfl
    exact Set.disjoint_left.1 (ho'.disj pos pp id id hpos hlp hl.ne hid hs) rfl rfl
  refine ⟨settle h1 (id :: dead) { b with bits := bits, kids := upd b.kids pos (some s) } s, ?_, ?_, fun h2 => if_neg ?_⟩
  · unfold underLeaf
    have hple : pos ≤ c.N := by have := live_lt hpos; omega
    rw [Res.assert_pos hple, Res.ok_bind, deref_live ex dI, Res.ok_bind]
    dsimp only
    have e1 : (if 0 < pos then (do let y ← deref h dead x.prev; pure y.2.leaf.bits.count : Res Nat) else pure 0) =
        .ok (if 0 < pos then y.leaf.bits.count else 0) := by
      split
      · rw [hprev, deref_live ey dS, Res.ok_bind]; rfl
      · rfl
    rw [e1, Res.ok_bind, if_neg (by
      split
      · rename_i h0
        exact not_lt.2 (cy.1 h0)
      · omega)]
    have e2 : ∃ n, (if pos < c.N then (do let y ← deref h dead x.next; pure y.2.leaf.bits.count : Res Nat) else pure 0) =
        .ok n ∧ n ≤ middle M := by
      split
      · obtain ⟨j, z, a1, a2, a3⟩ := hn (by assumption)
        exact ⟨_, by rw [a1, deref_live a2 (hnd j a1), Res.ok_bind]; rfl, a3⟩
      · exact ⟨0, rfl, Nat.zero_le _⟩
    obtain ⟨n, e2, hnle⟩ := e2
    rw [e2, Res.ok_bind, if_neg (by omega)]
    obtain ⟨q, eq, hq1, hq2, hq3⟩ := minOf (lim := c.lim) (keys := b.keys) (bits := b.bits) hl.lt hl.bit
      (sep_max F hR ho' pp hl.lt hl.bit)
    have hqpos : q ≠ pos := by
      rintro rfl
      exact absurd (hl.key hq1) (not_lt.2 (hq3 pp hl.lt hl.bit))
    rw [eq, Res.ok_bind, if_pos hqpos, hprev, em, Res.ok_bind, Res.ofOption_some, Res.ok_bind]
    have hmin : c.lim.min < b.keys pp := (F.lim _ (hR _ (ho'.sep pp hl.lt hl.bit).1)).1
    have e3 : (if pos = c.N then findMaxKeyPosBits c.lim (fun i : Fin c.N => b.keys i) b.bits
          else (do
            let k ← rdA c.N b.keys pos
            findMaxKeyPosSmallerThan c.lim (fun i : Fin c.N => b.keys i) b.bits k)) = .ok pp := by
      by_cases hpN : pos = c.N
      · rw [if_pos hpN]
        obtain ⟨p, ep, a1, a2, a3⟩ := maxOf (lim := c.lim) (keys := b.keys) (bits := b.bits) hl.lt hl.bit hmin
        rw [ep]
        congr 1
        exact (hl.unique ⟨a1, a2, fun h => absurd h (by omega), fun j hj hb _ => a3 j hj hb⟩ ho'.inj).symm
      · have hpl : pos < c.N := by omega
        rw [if_neg hpN, rdA_ok hpl, Res.ok_bind]
        obtain ⟨p, ep, a1, a2, a3, a4⟩ := maxBelow (lim := c.lim) (keys := b.keys) (bits := b.bits) hl.lt hl.bit hmin
          (hl.key hpl)
        rw [ep]
        congr 1
        exact (hl.unique ⟨a1, a2, fun _ => a3, fun j hj hb h => a4 j hj hb (h hpl)⟩ ho'.inj).symm
    rw [e3, Res.ok_bind, rdA_ok (by have := hl.lt; omega), Res.ok_bind, eb, Res.ok_bind, hs]
    rfl
  · have hsub : s ∈ fp (N := c.N) 1 b := ⟨s, ⟨pp, hlp, hs⟩, rfl⟩
    have hidb : id ∈ fp (N := c.N) 1 b := ⟨id, ⟨pos, hpos, hid⟩, rfl⟩
    have hfr' : ∀ i, i ∉ fp (N := c.N) 1 b → core h1 i = core h i := fun i hi => hfr i (by rintro rfl; exact hi hsub)
    unfold settle
    by_cases h0 : bits.count = 0
    · simp only [h0, if_true]
      have hk := g4 h0
      have oks : Ok (N := c.N) h1 0 s R := by
        refine ok_zero.2 ⟨l, el, okl, fun k v hkv => ?_⟩
        rcases (hasl k v).1 hkv with hkv | hkv
        · exact (oky.2 k v hkv).1
        · exact (okx.2 k v hkv).1
      refine ⟨hlk1, hlen1, hfr', oks, ?_, fun j hj => ?_, fun k v => ?_⟩
      · rintro i (rfl : i = s)
        exact hsub
      · rcases List.mem_cons.1 hj with rfl | hj
        · exact Or.inr ⟨hidb, fun (he : j = s) => hsid he⟩
        · exact Or.inl hj
      · rw [← g3]
        constructor
        · intro hv
          exact ⟨s, (hk s).2 rfl, hv⟩
        · rintro ⟨z, hz, hv⟩
          have hz : z = s := (hk z).1 hz
          rw [hz] at hv
          exact hv
    · simp only [h0, if_false]
      refine ⟨hlk1, hlen1, hfr', g1, fun i hi => (g2 i hi).1, fun j hj => ?_, g3⟩
      rcases List.mem_cons.1 hj with rfl | hj
      · exact Or.inr ⟨hidb, fun he => (g2 j he).2 rfl⟩
      · exact Or.inl hj
  · have hlok : LOk (⟨b.bits, b.keys, fun _ => ()⟩ : Leaf c.N K Unit) := ⟨ho'.clean, ho'.inj⟩
    obtain ⟨bits', eb', j1, _, j3⟩ := reset_law hlok hl.lt hl.bit
    have : bits = bits' := Res.ok.inj (eb.symm.trans eb')
    subst this
    have c1 := count_used hlok
    have c2 := count_used j1
    dsimp only at c1 c2 j3 ⊢
    omega

/-! ## Erases -/

/-- Erasing leaves the keys where they are. -/
theorem erase_keys {l l' : Leaf M K V} {k : K} {r : Bool} (e : l.erase k = .ok (l', r)) : l'.keys = l.keys := by
  unfold Leaf.erase at e
  obtain ⟨p, _, e⟩ := Res.bind_eq_ok.1 e
  split at e
  · obtain ⟨b, _, e⟩ := Res.bind_eq_ok.1 e
    cases e
    rfl
  · cases e
    rfl

/-- What an erase is to do. -/
def ErasesTo (adm : K → Prop) (t : EStore c M) (k : K) : Prop :=
  ∃ t' r, t.erase k = .ok (some (t', r)) ∧ EOk adm t' ∧ (r = true ↔ ∃ v, t.st.Has k v) ∧
    ∀ x y, t'.st.Has x y ↔ Del t.st.Has k x y

theorem erase_quiet_law (F : Laws c adm) {t : EStore c M} (ht : EOk adm t) {k : K} (hk : adm k) (hq : quiet t k = true) :
    ErasesTo adm t k := by
  obtain ⟨h', r, u, e, g1, g2, g3⟩ := store_erase_law F ht.tok hk
  have hl : h'.length = t.st.heap.length := by
    obtain ⟨h'', r'', u'', e'', _, _, g3'', _⟩ := eraseAt_law F t.st.depth t.st.root adm k (fun _ h => h) ht.tok.ok hk
    rw [e] at e''
    cases e''
    exact g3''
  have e' : eraseAt c t.st.depth t.st.heap t.dead t.st.root k = .ok (h', r, u) := by
    rw [eraseAt_dead F t.st.depth t.st.root adm k (fun _ h => h) ht.tok.ok hk fun i hi => (ht.dead i hi).2, e]
  refine ⟨_, r, erase_quiet e' hq, ⟨g1, fun i hi => ?_⟩, g2, g3⟩
  exact ⟨by show i < h'.length; rw [hl]; exact (ht.dead i hi).1, (ht.dead i hi).2⟩

/-- The leaf of `k` underflows: the erase comes down to the handling of that. -/
theorem erase_under_law (F : Laws c adm) {h : Heap M K V} {b : Branch c.N K Nat} {first : Nat} {dead : List Nat}
    (ht : EOk adm (⟨⟨1, b, h, first⟩, dead⟩ : EStore c M)) {k : K} (hk : adm k) (hq : quiet (⟨⟨1, b, h, first⟩, dead⟩ : EStore c M) k = false)
    {pos id : Nat} (hpos : b.pos c.lim k = .ok pos)
    (hid : b.kids pos = some id) {x : Cell M K V} (hx : h[id]? = some x)
    (hu : ∀ l', LOk l' → l'.bits.count < middle M → l'.keys = x.leaf.keys →
      Ok (N := c.N) (h.set id { x with leaf := l' }) 1 b adm → LinkOk (h.set id { x with leaf := l' }) →
      ∃ u, underLeaf c (h.set id { x with leaf := l' }) dead b pos id = .ok u ∧
        Good c adm first u (hasT (N := c.N) (h.set id { x with leaf := l' }) 1 b)) :
    ErasesTo adm (⟨⟨1, b, h, first⟩, dead⟩ : EStore c M) k := by
  have ho : BOk (Ok (N := c.N) h 0) (fp (N := c.N) (K := K) 0) b adm := ht.tok.ok
  obtain ⟨pos', ep, hlive, _⟩ := pos_law (lim := c.lim) (sep_max F (fun _ h => h) ho) hk
  obtain rfl : pos = pos' := Res.ok.inj (hpos.symm.trans ep)
  have okx : LOk x.leaf := by
    obtain ⟨z, e, hz⟩ := ho.kid pos hlive
    rw [hid] at e
    cases Option.some.inj e
    obtain ⟨l0, e0, h1, _⟩ := ok_zero.1 hz
    rw [core_some.2 ⟨x, hx, rfl⟩] at e0
    cases Option.some.inj e0
    exact h1
  have dI : id ∉ dead := fun h => (ht.dead id h).2 ⟨id, ⟨pos, hlive, hid⟩, rfl⟩
  obtain ⟨l', r, el, okl, hr, hl'⟩ := leaf_erase_law okx k
  have e1 : eraseAt c 1 h dead b k = .ok (h.set id { x with leaf := l' }, r, decide (l'.bits.count < middle M)) := by
    show (b.pos c.lim k >>= fun p => b.kid p >>= fun ch => eraseAt c 0 h dead ch k >>= fun r =>
      Res.ok (r.1, r.2.1, r.2.2 || thin c 0 ch)) = _
    rw [hpos, Res.ok_bind, kid_ok (live_lt hlive) hid, Res.ok_bind]
    have : eraseAt c 0 h dead id k = .ok (h.set id { x with leaf := l' }, r, decide (l'.bits.count < middle M)) := by
      show (deref h dead (some id) >>= fun z => z.2.leaf.erase k >>= fun w =>
        Res.ok (h.set z.1 { z.2 with leaf := w.1 }, w.2, decide (w.1.bits.count < middle M))) = _
      rw [deref_live hx dI, Res.ok_bind]
      dsimp only
      rw [el, Res.ok_bind]
    rw [this, Res.ok_bind]
    show Res.ok (_, _, _ || false) = _
    rw [Bool.or_false]
  have hcnt : l'.bits.count < middle M := by
    unfold quiet at hq
    have hq : ((1 : Nat) == 0 || match eraseAt c 1 h dead b k with
      | .ok r => !r.2.2
      | _ => true) = false := hq
    rw [e1] at hq
    simpa using hq
  rw [decide_eq_true hcnt] at e1
  obtain ⟨h', r', u', e2, tok, g2, g3⟩ := store_erase_law F ht.tok hk
  have e2 : eraseAt c 1 h [] b k = .ok (h', r', u') := e2
  have e4 : eraseAt c 1 h dead b k = eraseAt c 1 h [] b k :=
    eraseAt_dead F 1 b adm k (fun _ h => h) ht.tok.ok hk fun i hi => (ht.dead i hi).2
  rw [← e4, e1] at e2
  cases e2
  obtain ⟨u, eu, hg⟩ := hu l' okl hcnt (erase_keys el) tok.ok tok.link
  refine ⟨u.store c first, r, ?_, hg.1, g2, fun a v => (hg.2 a v).trans (g3 a v)⟩
  show (eraseAt c 1 h dead b k >>= fun r => if r.2.2 then (b.pos c.lim k >>= fun p => b.kid p >>= fun id =>
      underLeaf c r.1 dead b p id >>= fun u => (match u.root with
      | none => Res.ok (some ((⟨⟨1, u.node, u.heap, first⟩, u.dead⟩ : EStore c M), r.2.1))
      | some i => Res.ok (some (⟨⟨0, i, u.heap, first⟩, u.dead⟩, r.2.1))))
    else Res.ok (some (⟨⟨1, b, r.1, first⟩, dead⟩, r.2.1))) = _
  rw [e1, Res.ok_bind]
  dsimp only
  rw [if_pos rfl, hpos, Res.ok_bind, kid_ok (live_lt hlive) hid, Res.ok_bind, eu, Res.ok_bind]
  unfold Under.store
  cases u.root <;> rfl

/-- Merges with the left neighbour: the leaf before the leaf of `k` is its left neighbour in the branch node, neither
that one nor the next leaf has more than half of the slots filled (for the leaf in slot 0 the first of these is not
tested; there must be room), and the next leaf is not a deleted one.  (If the merge empties the branch node, the merged
leaf becomes the root.) -/
structure LeftCase (b : Branch c.N K Nat) (h : Heap M K V) (dead : List Nat) (pos pp id s : Nat) (x y : Cell M K V) : Prop where
  left : LeftOf b pos pp
  kid : b.kids pos = some id
  pkid : b.kids pp = some s
  cell : h[id]? = some x
  pcell : h[s]? = some y
  prev : x.prev = some s
  few : 0 < pos → y.leaf.bits.count ≤ middle M
  room : y.leaf.bits.count + middle M ≤ M + 1
  next : pos < c.N → ∃ j z, x.next = some j ∧ h[j]? = some z ∧ z.leaf.bits.count ≤ middle M
  alive : ∀ j, x.next = some j → j ∉ dead

theorem erase_left_law (F : Laws c adm) {h : Heap M K V} {b : Branch c.N K Nat} {first : Nat} {dead : List Nat}
    (ht : EOk adm (⟨⟨1, b, h, first⟩, dead⟩ : EStore c M)) {k : K} (hk : adm k) (hq : quiet (⟨⟨1, b, h, first⟩, dead⟩ : EStore c M) k = false)
    {pos pp id s : Nat} {x y : Cell M K V} (hpos : b.pos c.lim k = .ok pos) (hc : LeftCase b h dead pos pp id s x y) :
    ErasesTo adm (⟨⟨1, b, h, first⟩, dead⟩ : EStore c M) k := by
  have ho : BOk (Ok (N := c.N) h 0) (fp (N := c.N) (K := K) 0) b adm := ht.tok.ok
  obtain ⟨pos', ep, hlive, _⟩ := pos_law (lim := c.lim) (sep_max F (fun _ h => h) ho) hk
  obtain rfl : pos = pos' := Res.ok.inj (hpos.symm.trans ep)
  have hl := hc.left
  have hsid : s ≠ id := by
    rintro rfl
    exact Set.disjoint_left.1 (ho.disj pos pp s s hlive (Or.inl ⟨hl.lt, hl.bit⟩) hl.ne hc.kid hc.pkid) rfl rfl
  have hidl : id < h.length := (List.getElem?_eq_some_iff.1 hc.cell).1
  refine erase_under_law F ht hk hq hpos hc.kid hc.cell fun l' okl hcnt _ hok hlink => ?_
  have hdd : ∀ i ∈ dead, i < (h.set id { x with leaf := l' }).length ∧ i ∉ fp (N := c.N) 1 b := fun i hi => by
    rw [List.length_set]; exact ht.dead i hi
  refine (underLeaf_left F (fun _ h => h) hdd hlink hok hlive hl hc.kid hc.pkid
    (x := { x with leaf := l' }) (y := y)
    (List.getElem?_set_self hidl) (by rw [List.getElem?_set_ne (Ne.symm hsid)]; exact hc.pcell) hc.prev
    hcnt ⟨hc.few, hc.room⟩ (fun hp => by
      obtain ⟨j, z, a1, a2, a3⟩ := hc.next hp
      by_cases hj : j = id
      · subst hj
        exact ⟨j, _, a1, List.getElem?_set_self hidl, hcnt.le⟩
      · exact ⟨j, z, a1, by rw [List.getElem?_set_ne (Ne.symm hj)]; exact a2, a3⟩) hc.alive).imp fun u hu => ⟨hu.1, good_of_post first hdd hok hu.2.1⟩

/-! ## Entries from the right neighbour -/

/-- `np` is the position to the right of `pos`. -/
structure RightOf {N : Nat} {C : Type} (b : Branch N K C) (pos np : Nat) : Prop where
  live : live b np
  key : np < N → b.keys pos < b.keys np
  min : ∀ q, q < N → Bitmap.bit b.bits q = true → b.keys pos < b.keys q → np < N ∧ b.keys np ≤ b.keys q

theorem shift_law {h h' : Heap M K V} {b : Branch c.N K Nat} {R : K → Prop}
    (ho : Ok (N := c.N) h 1 b R) {pos np id j : Nat} (hpN : pos < c.N) (hpos : live b pos) (hr : RightOf b pos np) (hne : pos ≠ np)
    (hid : b.kids pos = some id) (hj : b.kids np = some j) {lx ly r d : Leaf M K V} (ex : core h id = some lx)
    (ey : core h j = some ly) (er : core h' id = some r) (ed : core h' j = some d) (okr : LOk r) (okd : LOk d)
    (hu : ∀ x y, Has ly x y ∨ Has lx x y ↔ Has d x y ∨ Has r x y) (hrr : ∀ x y, Has lx x y → Has r x y)
    (hord : ∀ x y z w, Has d x y → Has r z w → z < x)
    (hfr : ∀ i, i ≠ id → i ≠ j → core h' i = core h i) {m : K} (hm : ∃ v, Has d m v) (hmin : ∀ x y, Has d x y → m ≤ x) :
    Ok (N := c.N) h' 1 ({ b with keys := upd b.keys pos m } : Branch c.N K Nat) R ∧
      ∀ x y, hasT (N := c.N) h' 1 ({ b with keys := upd b.keys pos m } : Branch c.N K Nat) x y ↔ hasT (N := c.N) h 1 b x y := by
  have ho' : BOk (Ok (N := c.N) h 0) (fp (N := c.N) (K := K) 0) b R := ho
  have hposb : Bitmap.bit b.bits pos = true := live_bit hpos hpN
  have hrx : ∀ x y, Has lx x y → rng b R pos x := by
    intro x y hxy
    obtain ⟨z, e, hz⟩ := ho'.kid pos hpos
    rw [hid] at e
    cases Option.some.inj e
    obtain ⟨l0, e0, _, h0⟩ := ok_zero.1 hz
    rw [ex] at e0
    cases Option.some.inj e0
    exact h0 x y hxy
  have hry : ∀ x y, Has ly x y → rng b R np x := by
    intro x y hxy
    obtain ⟨z, e, hz⟩ := ho'.kid np hr.live
    rw [hj] at e
    cases Option.some.inj e
    obtain ⟨l0, e0, _, h0⟩ := ok_zero.1 hz
    rw [ey] at e0
    cases Option.some.inj e0
    exact h0 x y hxy
  have hd : ∀ x y, Has d x y → Has ly x y := by
    intro x y hxy
    rcases (hu x y).2 (Or.inl hxy) with h | h
    · exact h
    · exact absurd (hord x y x y hxy (hrr x y h)) (lt_irrefl _)
  obtain ⟨mv, hmv⟩ := hm
  have hm' := hry m mv (hd m mv hmv)
  have hpm : b.keys pos ≤ m := hm'.2.2 pos hpN hposb hr.key
  have hcmp : ∀ q, q < c.N → Bitmap.bit b.bits q = true → q ≠ pos →
      (b.keys q < b.keys pos ∧ b.keys q < m) ∨ (b.keys pos < b.keys q ∧ m < b.keys q) := by
    intro q hq hbq hqp
    rcases lt_trichotomy (b.keys q) (b.keys pos) with h | h | h
    · exact Or.inl ⟨h, lt_of_lt_of_le h hpm⟩
    · exact absurd (ho'.inj q pos hq hpN hbq hposb h) hqp
    · obtain ⟨h1, h2⟩ := hr.min q hq hbq h
      exact Or.inr ⟨h, lt_of_lt_of_le (hm'.2.1 h1) h2⟩
  have hidj : id ≠ j := by
    rintro rfl
    exact Set.disjoint_left.1 (ho'.disj pos np id id hpos hr.live hne hid hj) rfl rfl
  set b' : Branch c.N K Nat := { b with keys := upd b.keys pos m } with hb'
  have kp : b'.keys pos = m := upd_same ..
  have kq : ∀ q, q ≠ pos → b'.keys q = b.keys q := fun q hq => upd_ne hq
  have hother : ∀ q z, live b q → q ≠ pos → q ≠ np → b.kids q = some z → z ≠ id ∧ z ≠ j := by
    intro q z hq h1 h2 hz
    refine ⟨?_, ?_⟩
    · rintro rfl
      exact Set.disjoint_left.1 (ho'.disj q pos z z hq hpos h1 hz hid) rfl rfl
    · rintro rfl
      exact Set.disjoint_left.1 (ho'.disj q np z z hq hr.live h2 hz hj) rfl rfl
  refine ⟨⟨ho'.clean, fun i k hi hk h1 h2 he => ?_, fun p hp hbp => ?_, fun p hp => ?_, ho'.disj⟩, fun x y => ⟨?_, ?_⟩⟩
  · by_cases hip : i = pos <;> by_cases hkp : k = pos
    · exact hip.trans hkp.symm
    · rw [hip, kp, kq k hkp] at he
      rcases hcmp k hk h2 hkp with h | h
      · exact absurd he (ne_of_gt h.2)
      · exact absurd he (ne_of_lt h.2)
    · rw [hkp, kp, kq i hip] at he
      rcases hcmp i hi h1 hip with h | h
      · exact absurd he (ne_of_lt h.2)
      · exact absurd he (ne_of_gt h.2)
    · rw [kq i hip, kq k hkp] at he
      exact ho'.inj i k hi hk h1 h2 he
  · by_cases hpp : p = pos
    · rw [hpp, kp]
      obtain ⟨k, h1, h2⟩ := (ho'.sep pos hpN hposb).2
      exact ⟨hm'.1, k, h1, lt_of_lt_of_le h2 hpm⟩
    · rw [kq p hpp]
      exact ho'.sep p hp hbp
  · have hp : live b p := hp
    by_cases hpp : p = pos
    · subst hpp
      refine ⟨id, hid, ok_zero.2 ⟨r, er, okr, fun x y hxy => ?_⟩⟩
      have hx : R x ∧ ∀ q, q < c.N → Bitmap.bit b.bits q = true → b.keys q < b.keys p → b.keys q ≤ x := by
        rcases (hu x y).2 (Or.inr hxy) with h | h
        · have := hry x y h
          have h2 : b.keys p ≤ x := this.2.2 p hpN hposb hr.key
          exact ⟨this.1, fun q _ _ hlt => le_trans hlt.le h2⟩
        · have := hrx x y h
          exact ⟨this.1, fun q h1 h2 hlt => this.2.2 q h1 h2 fun _ => hlt⟩
      refine ⟨hx.1, fun _ => ?_, fun q hq hbq hlt => ?_⟩
      · rw [kp]
        exact hord m mv x y hmv hxy
      · have hlt := hlt hpN
        by_cases hqp : q = p
        · rw [hqp] at hlt
          exact absurd hlt (lt_irrefl _)
        · rw [kp, kq q hqp] at hlt
          rw [kq q hqp]
          rcases hcmp q hq hbq hqp with h | h
          · exact hx.2 q hq hbq h.1
          · exact absurd hlt (not_lt.2 h.2.le)
    · by_cases hpn : p = np
      · subst hpn
        refine ⟨j, hj, ok_zero.2 ⟨d, ed, okd, fun x y hxy => ?_⟩⟩
        have := hry x y (hd x y hxy)
        refine ⟨this.1, fun h => ?_, fun q hq hbq hlt => ?_⟩
        · rw [kq p hpp]
          exact this.2.1 h
        · by_cases hqp : q = pos
          · rw [hqp, kp]
            exact hmin x y hxy
          · rw [kq q hqp, kq p hpp] at hlt
            rw [kq q hqp]
            exact this.2.2 q hq hbq hlt
      · obtain ⟨z, e, hz⟩ := ho'.kid p hp
        obtain ⟨l0, e0, k1, k2⟩ := ok_zero.1 hz
        obtain ⟨n1, n2⟩ := hother p z hp hpp hpn e
        refine ⟨z, e, ok_zero.2 ⟨l0, by rw [hfr z n1 n2, e0], k1, fun x y hxy => ?_⟩⟩
        obtain ⟨r1, r2, r3⟩ := k2 x y hxy
        refine ⟨r1, fun h => ?_, fun q hq hbq hlt => ?_⟩
        · rw [kq p hpp]
          exact r2 h
        · by_cases hqp : q = pos
          · rw [hqp, kp]
            rw [hqp, kp, kq p hpp] at hlt
            by_cases hpl : p < c.N
            · rcases hcmp p hpl (live_bit hp hpl) hpp with h | h
              · exact absurd (hlt hpl) (not_lt.2 h.2.le)
              · obtain ⟨a1, a2⟩ := hr.min p hpl (live_bit hp hpl) h.1
                have a3 : b.keys np < b.keys p := lt_of_le_of_ne a2 fun he =>
                  hpn (ho'.inj np p a1 hpl (live_bit hr.live a1) (live_bit hp hpl) he).symm
                exact le_trans (hm'.2.1 a1).le (r3 np a1 (live_bit hr.live a1) fun _ => a3)
            · have hnl : np < c.N := by
                rcases hr.live with h | h
                · exact h.1
                · rcases hp with h' | h'
                  · exact absurd h'.1 hpl
                  · exact absurd (h'.trans h.symm) hpn
              exact le_trans (hm'.2.1 hnl).le (r3 np hnl (live_bit hr.live hnl) fun h => absurd h hpl)
          · rw [kq q hqp, kq p hpp] at hlt
            rw [kq q hqp]
            exact r3 q hq hbq hlt
  · rintro ⟨z, ⟨q, hq, hz⟩, hv⟩
    obtain ⟨l0, e0, hv⟩ := hasT_zero.1 hv
    have hq : live b q := hq
    have hz : b.kids q = some z := hz
    have hboth : Has d x y ∨ Has r x y → hasT (N := c.N) h 1 b x y := by
      intro h
      rcases (hu x y).2 h with h | h
      · exact ⟨j, ⟨np, hr.live, hj⟩, hasT_zero.2 ⟨ly, ey, h⟩⟩
      · exact ⟨id, ⟨pos, hpos, hid⟩, hasT_zero.2 ⟨lx, ex, h⟩⟩
    by_cases h1 : z = id
    · rw [h1, er] at e0
      cases Option.some.inj e0
      exact hboth (Or.inr hv)
    · by_cases h2 : z = j
      · rw [h2, ed] at e0
        cases Option.some.inj e0
        exact hboth (Or.inl hv)
      · rw [hfr z h1 h2] at e0
        exact ⟨z, ⟨q, hq, hz⟩, hasT_zero.2 ⟨l0, e0, hv⟩⟩
  · rintro ⟨z, ⟨q, hq, hz⟩, hv⟩
    obtain ⟨l0, e0, hv⟩ := hasT_zero.1 hv
    have hboth : Has ly x y ∨ Has lx x y → hasT (N := c.N) h' 1 b' x y := by
      intro h
      rcases (hu x y).1 h with h | h
      · exact ⟨j, ⟨np, hr.live, hj⟩, hasT_zero.2 ⟨d, ed, h⟩⟩
      · exact ⟨id, ⟨pos, hpos, hid⟩, hasT_zero.2 ⟨r, er, h⟩⟩
    by_cases h1 : z = id
    · rw [h1, ex] at e0
      cases Option.some.inj e0
      exact hboth (Or.inr hv)
    · by_cases h2 : z = j
      · rw [h2, ey] at e0
        cases Option.some.inj e0
        exact hboth (Or.inl hv)
      · exact ⟨z, ⟨q, hq, hz⟩, hasT_zero.2 ⟨l0, by rw [hfr z h1 h2, e0], hv⟩⟩

theorem RightOf.ne {N : Nat} {C : Type} {b : Branch N K C} {pos np : Nat} (h : RightOf b pos np) (hp : pos < N) : pos ≠ np := by
  rintro rfl
  exact lt_irrefl _ (h.key hp)

theorem underLeaf_right (F : Laws c adm) {R : K → Prop} (hR : ∀ a, R a → adm a) {h : Heap M K V} {dead : List Nat} {b : Branch c.N K Nat}
    (hdead : ∀ i ∈ dead, i < h.length ∧ i ∉ fp (N := c.N) 1 b) (hlink : LinkOk h) (ho : Ok (N := c.N) h 1 b R) {pos np id j : Nat} (hpN : pos < c.N) (hpos : live b pos) (hr : RightOf b pos np)
    (hid : b.kids pos = some id) (hj : b.kids np = some j) {x y : Cell M K V} (ex : h[id]? = some x) (ey : h[j]? = some y)
    (hnext : x.next = some j) (cx : x.leaf.bits.count < middle M) (cy : middle M < y.leaf.bits.count)
    (hslot : x.leaf.keys 0 ≤ y.leaf.keys 0)
    (hp : 0 < pos → ∃ s z, x.prev = some s ∧ h[s]? = some z ∧ s ∉ dead ∧ z.leaf.bits.count ≤ middle M) :
    ∃ u, underLeaf c h dead b pos id = .ok u ∧ Post h dead 0 b R u.heap u.dead u.out (hasT (N := c.N) h 1 b) ∧
      u.root = none := by
  have ho' : BOk (Ok (N := c.N) h 0) (fp (N := c.N) (K := K) 0) b R := ho
  have okx : LOk x.leaf ∧ ∀ k v, Has x.leaf k v → rng b R pos k := by
    obtain ⟨z, e, hz⟩ := ho'.kid pos hpos
    rw [hid] at e
    cases Option.some.inj e
    obtain ⟨l0, e0, h1, h2⟩ := ok_zero.1 hz
    rw [core_some.2 ⟨x, ex, rfl⟩] at e0
    cases Option.some.inj e0
    exact ⟨h1, h2⟩
  have oky : LOk y.leaf ∧ ∀ k v, Has y.leaf k v → rng b R np k := by
    obtain ⟨z, e, hz⟩ := ho'.kid np hr.live
    rw [hj] at e
    cases Option.some.inj e
    obtain ⟨l0, e0, h1, h2⟩ := ok_zero.1 hz
    rw [core_some.2 ⟨y, ey, rfl⟩] at e0
    cases Option.some.inj e0
    exact ⟨h1, h2⟩
  have hidj : id ≠ j := by
    rintro rfl
    exact Set.disjoint_left.1 (ho'.disj pos np id id hpos hr.live (hr.ne hpN) hid hj) rfl rfl
  have dI : id ∉ dead := fun h => (hdead id h).2 ⟨id, ⟨pos, hpos, hid⟩, rfl⟩
  have dJ : j ∉ dead := fun h => (hdead j h).2 ⟨j, ⟨np, hr.live, hj⟩, rfl⟩
  have hdec : decide (y.leaf.keys 0 < x.leaf.keys 0) = false := decide_eq_false (not_lt.2 hslot)
  have cx' := cx
  have cy' := cy
  rw [count_used okx.1] at cx'
  rw [count_used oky.1] at cy'
  have hcap : used y.leaf ≤ M := by
    have : BitmapSpec.members y.leaf.bits ⊆ Finset.range M := fun p hp => Finset.mem_range.2 (Bitmap.mem_members.1 hp).1
    unfold used
    simpa using Finset.card_le_card this
  obtain ⟨d, r, eb, okd, okr, hu, hrr, hord, hn1, hn2⟩ := balance_law F oky.1 okx.1 (fun a v hv => hR a (oky.2 a v hv).1) (by omega)
    (fun a v z w h1 h2 => by
      rw [hdec]
      show z < a
      exact lt_of_lt_of_le ((okx.2 z w h2).2.1 hpN)
        ((oky.2 a v h1).2.2 pos hpN (live_bit hpos hpN) hr.key)) (by omega)
  rw [hdec] at hord
  have hd1 : 0 < used d := by omega
  obtain ⟨q, hq⟩ := Finset.card_pos.1 hd1
  obtain ⟨hq1, hq2⟩ := Bitmap.mem_members.1 hq
  have hadm : ∀ a v, Has d a v → adm a := by
    intro a v hv
    rcases (hu a v).2 (Or.inl hv) with h | h
    · exact hR a (oky.2 a v h).1
    · exact hR a (okx.2 a v h).1
  obtain ⟨m, em, hm1, hm2, hm3⟩ := minOf (lim := c.lim) (keys := d.keys) (bits := d.bits) hq1 hq2
    (F.lim _ (hadm _ _ ⟨q, hq1, hq2, rfl, rfl⟩)).2
  have hidl : id < h.length := (List.getElem?_eq_some_iff.1 ex).1
  have hjl : j < h.length := (List.getElem?_eq_some_iff.1 ey).1
  set h' := (h.set j { y with leaf := d }).set id { x with leaf := r } with hh'
  have c1 : core h' id = some r := core_some.2 ⟨_, List.getElem?_set_self (by simpa using hidl), rfl⟩
  have c2 : core h' j = some d := core_some.2 ⟨_, by
    rw [hh', List.getElem?_set_ne hidj]; exact List.getElem?_set_self hjl, rfl⟩
  obtain ⟨g1, g2⟩ := shift_law (h' := h') ho hpN hpos hr (hr.ne hpN) hid hj (core_some.2 ⟨x, ex, rfl⟩) (core_some.2 ⟨y, ey, rfl⟩)
    c1 c2 okr okd hu hrr (fun a v z w h1 h2 => hord a v z w h1 h2) (fun i h1 h2 => by
      unfold core
      rw [hh', List.getElem?_set_ne (Ne.symm h1), List.getElem?_set_ne (Ne.symm h2)]) (m := d.keys m)
    ⟨_, m, hm1, hm2, rfl, rfl⟩ (by
      rintro a v ⟨p, h1, h2, rfl, _⟩
      exact hm3 p h1 h2)
  refine ⟨⟨h', dead, { b with keys := upd b.keys pos (d.keys m) }, none⟩, ?_, ?_, rfl⟩
  · unfold underLeaf
    rw [Res.assert_pos hpN.le, Res.ok_bind, deref_live ex dI, Res.ok_bind]
    dsimp only
    have e1 : ∃ n, (if 0 < pos then (do let y ← deref h dead x.prev; pure y.2.leaf.bits.count : Res Nat) else pure 0) =
        .ok n ∧ n ≤ middle M := by
      split
      · obtain ⟨s, z, a1, a2, a4, a3⟩ := hp (by assumption)
        exact ⟨_, by rw [a1, deref_live a2 a4, Res.ok_bind]; rfl, a3⟩
      · exact ⟨0, rfl, Nat.zero_le _⟩
    obtain ⟨n, e1, hn⟩ := e1
    rw [e1, Res.ok_bind, if_neg (by omega), if_pos hpN, hnext, deref_live ey dJ, Res.ok_bind]
    show (if pos < c.N ∧ middle M < y.leaf.bits.count then _ else _) = _
    rw [if_pos ⟨hpN, cy⟩, Res.ok_bind, eb, Res.ok_bind]
    dsimp only
    rw [show d.minPos c = .ok m from em, Res.ok_bind, rdA_ok hm1, Res.ok_bind]
    simp only [hh', hnext]
    rfl
  · have hlen : h'.length = h.length := by rw [hh', List.length_set, List.length_set]
    refine ⟨?_, hlen, fun i hi => ?_, g1, fun i hi => hi, fun i hi => Or.inl hi, g2⟩
    · intro i z hz n hn
      have hz : h'[i]? = some z := hz
      show n < h'.length
      rw [hlen]
      by_cases h1 : i = id
      · rw [h1, hh', List.getElem?_set_self (by simpa using hidl)] at hz
        cases hz
        exact hlink id x ex n hn
      · by_cases h2 : i = j
        · rw [h2, hh', List.getElem?_set_ne hidj, List.getElem?_set_self hjl] at hz
          cases hz
          exact hlink j y ey n hn
        · rw [hh', List.getElem?_set_ne (Ne.symm h1), List.getElem?_set_ne (Ne.symm h2)] at hz
          exact hlink i z hz n hn
    · have h1 : i ≠ id := by rintro rfl; exact hi ⟨i, ⟨pos, hpos, hid⟩, rfl⟩
      have h2 : i ≠ j := by rintro rfl; exact hi ⟨i, ⟨np, hr.live, hj⟩, rfl⟩
      unfold core
      rw [hh', List.getElem?_set_ne (Ne.symm h1), List.getElem?_set_ne (Ne.symm h2)]

/-- Taking entries from the right neighbour: the leaf after the leaf of `k` is its right neighbour in the branch node
and has more than half of its slots filled, the leaf before it has not, and the *slots 0* of the two leaves are in the
right order (whether used or not). -/
structure RightCase (b : Branch c.N K Nat) (h : Heap M K V) (dead : List Nat) (pos np id j : Nat) (x y : Cell M K V) : Prop where
  lt : pos < c.N
  right : RightOf b pos np
  kid : b.kids pos = some id
  nkid : b.kids np = some j
  cell : h[id]? = some x
  ncell : h[j]? = some y
  next : x.next = some j
  many : middle M < y.leaf.bits.count
  slot : x.leaf.keys 0 ≤ y.leaf.keys 0
  prev : 0 < pos → ∃ s z, x.prev = some s ∧ h[s]? = some z ∧ s ∉ dead ∧ z.leaf.bits.count ≤ middle M

theorem erase_right_law (F : Laws c adm) {h : Heap M K V} {b : Branch c.N K Nat} {first : Nat} {dead : List Nat}
    (ht : EOk adm (⟨⟨1, b, h, first⟩, dead⟩ : EStore c M)) {k : K} (hk : adm k) (hq : quiet (⟨⟨1, b, h, first⟩, dead⟩ : EStore c M) k = false)
    {pos np id j : Nat} {x y : Cell M K V} (hpos : b.pos c.lim k = .ok pos) (hc : RightCase b h dead pos np id j x y) :
    ErasesTo adm (⟨⟨1, b, h, first⟩, dead⟩ : EStore c M) k := by
  have ho : BOk (Ok (N := c.N) h 0) (fp (N := c.N) (K := K) 0) b adm := ht.tok.ok
  obtain ⟨pos', ep, hlive, _⟩ := pos_law (lim := c.lim) (sep_max F (fun _ h => h) ho) hk
  obtain rfl : pos = pos' := Res.ok.inj (hpos.symm.trans ep)
  have hjid : j ≠ id := by
    rintro rfl
    exact Set.disjoint_left.1 (ho.disj pos np j j hlive hc.right.live (hc.right.ne hc.lt) hc.kid hc.nkid) rfl rfl
  have hidl : id < h.length := (List.getElem?_eq_some_iff.1 hc.cell).1
  refine erase_under_law F ht hk hq hpos hc.kid hc.cell fun l' okl hcnt hkeys hok hlink => ?_
  have hdd : ∀ i ∈ dead, i < (h.set id { x with leaf := l' }).length ∧ i ∉ fp (N := c.N) 1 b := fun i hi => by
    rw [List.length_set]; exact ht.dead i hi
  refine (underLeaf_right F (fun _ h => h) hdd hlink hok hc.lt hlive hc.right hc.kid
    hc.nkid (x := { x with leaf := l' }) (y := y)
    (List.getElem?_set_self hidl) (by rw [List.getElem?_set_ne (Ne.symm hjid)]; exact hc.ncell) hc.next
    hcnt hc.many (by show l'.keys 0 ≤ _; rw [hkeys]; exact hc.slot) (fun hp0 => by
      obtain ⟨s, z, a1, a2, a4, a3⟩ := hc.prev hp0
      by_cases hs : s = id
      · subst hs
        exact ⟨s, _, a1, List.getElem?_set_self hidl, a4, hcnt.le⟩
      · exact ⟨s, z, a1, by rw [List.getElem?_set_ne (Ne.symm hs)]; exact a2, a4, a3⟩)).imp fun u hu => ⟨hu.1, good_of_post first hdd hok hu.2.1⟩

/-! ## Histories -/

/-- The leaf is there and has at most half of its slots filled. -/
def light (h : Heap M K V) : Option Nat → Bool
  | none => false
  | some j => match h[j]? with
    | none => false
    | some z => decide (z.leaf.bits.count ≤ middle M)

/-- The pointer is null or leads to a leaf not deleted. -/
def alive (dead : List Nat) : Option Nat → Bool
  | none => true
  | some j => !dead.contains j

/-- `LeftCase`, decided. -/
def leftAt (c : Cfg K V) (b : Branch c.N K Nat) (h : Heap M K V) (dead : List Nat) (pos pp id s : Nat) : Bool :=
  match h[id]?, h[s]? with
  | some x, some y =>
    decide (Bitmap.bit b.bits pp = true ∧ (pos < c.N → b.keys pp < b.keys pos) ∧
      ∀ q, q < c.N → Bitmap.bit b.bits q = true → (pos < c.N → b.keys q < b.keys pos) → b.keys q ≤ b.keys pp) &&
    (decide (x.prev = some s) && (decide ((0 < pos → y.leaf.bits.count ≤ middle M) ∧ y.leaf.bits.count + middle M ≤ M + 1) &&
    ((decide (c.N ≤ pos) || light h x.next) && alive dead x.next)))
  | _, _ => false

/-- `RightCase`, decided. -/
def rightAt (c : Cfg K V) (b : Branch c.N K Nat) (h : Heap M K V) (dead : List Nat) (pos np id j : Nat) : Bool :=
  match h[id]?, h[j]? with
  | some x, some y =>
    decide (pos < c.N ∧ (np < c.N ∧ Bitmap.bit b.bits np = true ∨ np = c.N) ∧ (np < c.N → b.keys pos < b.keys np) ∧
      ∀ q, q < c.N → Bitmap.bit b.bits q = true → b.keys pos < b.keys q → np < c.N ∧ b.keys np ≤ b.keys q) &&
    (decide (x.next = some j) && (decide (middle M < y.leaf.bits.count) && (decide (x.leaf.keys 0 ≤ y.leaf.keys 0) &&
    (decide (pos = 0) || light h x.prev && alive dead x.prev))))
  | _, _ => false

/-- The underflow is handled by a merge with the left neighbour or with entries of the right one, as described. -/
def handled : EStore c M → K → Bool
  | ⟨⟨1, root, h, _⟩, dead⟩, k =>
    let b : Branch c.N K Nat := root
    match b.pos c.lim k with
    | .ok pos => match b.kids pos with
      | some id => (List.range (c.N + 1)).any fun p => match b.kids p with
        | some s => (decide (p < c.N) && leftAt c b h dead pos p id s) || rightAt c b h dead pos p id s
        | none => false
      | none => false
    | _ => false
  | _, _ => false

theorem light_spec {h : Heap M K V} {o : Option Nat} (e : light h o = true) :
    ∃ j z, o = some j ∧ h[j]? = some z ∧ z.leaf.bits.count ≤ middle M := by
  unfold light at e
  split at e
  · cases e
  · split at e
    · cases e
    · exact ⟨_, _, rfl, by assumption, of_decide_eq_true e⟩

theorem alive_spec {dead : List Nat} {o : Option Nat} (e : alive dead o = true) : ∀ j, o = some j → j ∉ dead := by
  rintro j rfl
  simpa [alive] using e

theorem leftAt_spec {b : Branch c.N K Nat} {h : Heap M K V} {dead : List Nat} {pos pp id s : Nat} (hp : pp < c.N)
    (hid : b.kids pos = some id) (hs : b.kids pp = some s) (e : leftAt c b h dead pos pp id s = true) :
    ∃ x y, LeftCase b h dead pos pp id s x y := by
  unfold leftAt at e
  split at e
  · rename_i x y hx hy
    simp only [Bool.and_eq_true, Bool.or_eq_true, decide_eq_true_eq] at e
    obtain ⟨⟨e1, e2, e3⟩, e4, e5, e6, e7⟩ := e
    refine ⟨x, y, ⟨⟨hp, e1, e2, e3⟩, hid, hs, hx, hy, e4, e5.1, e5.2, fun hlt => ?_, alive_spec e7⟩⟩
    rcases e6 with e6 | e6
    · omega
    · exact light_spec e6
  · cases e

theorem rightAt_spec {b : Branch c.N K Nat} {h : Heap M K V} {dead : List Nat} {pos np id j : Nat}
    (hid : b.kids pos = some id) (hj : b.kids np = some j) (e : rightAt c b h dead pos np id j = true) :
    ∃ x y, RightCase b h dead pos np id j x y := by
  unfold rightAt at e
  split at e
  · rename_i x y hx hy
    simp only [Bool.and_eq_true, Bool.or_eq_true, decide_eq_true_eq] at e
    obtain ⟨⟨e0, e1, e2, e3⟩, e4, e5, e6, e7⟩ := e
    refine ⟨x, y, ⟨e0, ⟨e1, e2, e3⟩, hid, hj, hx, hy, e4, e5, e6, fun hlt => ?_⟩⟩
    rcases e7 with e7 | e7
    · omega
    · obtain ⟨s, z, a1, a2, a3⟩ := light_spec e7.1
      exact ⟨s, z, a1, a2, alive_spec e7.2 s a1, a3⟩
  · cases e

theorem erase_handled_law (F : Laws c adm) {t : EStore c M} (ht : EOk adm t) {k : K} (hk : adm k)
    (hc : (quiet t k || handled t k) = true) : ErasesTo adm t k := by
  cases hq : quiet t k with
  | true => exact erase_quiet_law F ht hk hq
  | false =>
    rw [hq, Bool.false_or] at hc
    obtain ⟨⟨d, root, heap, first⟩, dead⟩ := t
    match d, root, ht, hq, hc with
    | 0, root, ht, hq, hc => cases hc
    | d + 2, root, ht, hq, hc => cases hc
    | 1, root, ht, hq, hc =>
      have hc : (match Branch.pos (C := Nat) c.lim root k with
        | .ok pos => match Branch.kids (C := Nat) root pos with
          | some id => (List.range (c.N + 1)).any fun p => match Branch.kids (C := Nat) root p with
            | some s => (decide (p < c.N) && leftAt c root heap dead pos p id s) || rightAt c root heap dead pos p id s
            | none => false
          | none => false
        | _ => false) = true := hc
      split at hc
      · rename_i pos hpos
        split at hc
        · rename_i id hid
          obtain ⟨p, hp, hc⟩ := List.any_eq_true.1 hc
          split at hc
          · rename_i s hs
            rw [Bool.or_eq_true, Bool.and_eq_true, decide_eq_true_eq] at hc
            rcases hc with ⟨h1, h2⟩ | h2
            · obtain ⟨x, y, hcase⟩ := leftAt_spec h1 hid hs h2
              exact erase_left_law F ht hk hq hpos hcase
            · obtain ⟨x, y, hcase⟩ := rightAt_spec hid hs h2
              exact erase_right_law F ht hk hq hpos hcase
          · cases hc
        · cases hc
      · cases hc

/-- Every erase of the history comes without an underflow or with one that is handled rightly. -/
def tame : List (Op K V) → EStore c M → Bool
  | [], _ => true
  | .ins k v :: ops, t =>
    match t.insert k v with
    | .ok t => tame ops t
    | _ => true
  | .del k :: ops, t =>
    (quiet t k || handled t k) &&
      match t.erase k with
      | .ok (some (t, _)) => tame ops t
      | _ => true

theorem run_tame (F : Laws c adm) (hM : 2 ≤ M) (hm : c.move = false → M % 64 ≠ 0) (hN : 2 ≤ c.N) (hN64 : c.N % 64 ≠ 0) :
    ∀ (ops : List (Op K V)) (t : EStore c M) (m : K → Option V), EOk adm t → (∀ k v, t.st.Has k v ↔ m k = some v) →
      (∀ o ∈ ops, adm o.key) → tame ops t = true → Agrees adm m ops (run ops t)
  | [], t, m, ht, hh, _, _ => by
    refine ⟨_, rfl, fun k hk => ?_⟩
    obtain ⟨r, e, hr⟩ := eok_lookup F ht hk
    rw [e]
    congr 1
    show r = m k
    apply Option.ext
    intro v
    rw [hr, hh]
  | .ins k v :: ops, t, m, ht, hh, ha, hc => by
    have hk : adm k := ha (.ins k v) (by simp)
    obtain ⟨t', e', g1, g2⟩ := eok_insert F hM hm hN hN64 ht hk v
    rw [tame, e'] at hc
    rw [run, e', Res.ok_bind]
    refine run_tame F hM hm hN hN64 ops t' (fun x => if x = k then some v else m x) g1 (fun x w => ?_)
      (fun o ho => ha o (List.mem_cons_of_mem _ ho)) hc
    rw [g2]
    unfold Ups
    by_cases hx : x = k
    · simp [hx, eq_comm]
    · simp [hx, hh]
  | .del k :: ops, t, m, ht, hh, ha, hc => by
    have hk : adm k := ha (.del k) (by simp)
    rw [tame, Bool.and_eq_true] at hc
    obtain ⟨t1, r, e1, g1, g2, g3⟩ := erase_handled_law F ht hk hc.1
    have hc2 := hc.2
    rw [e1] at hc2
    obtain ⟨t', er, hl⟩ := run_tame F hM hm hN hN64 ops t1 (fun x => if x = k then none else m x) g1
      (fun x w => by
        rw [g3]
        unfold Del
        by_cases hx : x = k
        · simp [hx]
        · simp [hx, hh])
      (fun o ho => ha o (List.mem_cons_of_mem _ ho)) hc2
    refine ⟨t', ?_, hl⟩
    rw [run, e1, Res.ok_bind]
    simp only
    rw [er]
    show Res.ok (some (t', r :: _)) = _
    have : r = (m k).isSome := by
      rw [Bool.eq_iff_iff, g2, Option.isSome_iff_exists]
      exact exists_congr fun v => hh k v
    rw [this]
    rfl

/-- C63 for both files, all orders (see `C61_partial`) and all histories in which every erase comes without an
underflow, or with one in a tree of depth 1 that is handled by a merge with the left neighbour (`LeftCase`) or with
entries of the right neighbour whose slot 0 is in order (`RightCase`).  Stronger than `C63_partial`.
Missing: the other cases, which are wrong (`C63_refuted`, `C63_stale_slot`, `C63_left_entries`, `C63_slot_zero`), and
underflows in deeper trees. -/
theorem C63_underflow_partial (F : Laws c adm) (hM : 2 ≤ M) (hm : c.move = false → M % 64 ≠ 0) (hN : 2 ≤ c.N) (hN64 : c.N % 64 ≠ 0)
    (ops : List (Op K V)) (ha : ∀ o ∈ ops, adm o.key) (hc : tame ops (EStore.empty c M) = true) :
    Agrees adm (fun _ => none) ops (run ops (EStore.empty c M)) :=
  run_tame F hM hm hN hN64 ops _ _ ⟨tok_empty c M, fun i hi => by cases hi⟩
    (fun k v => ⟨fun h => absurd h (has_empty k v), fun h => by cases h⟩) ha hc


/-- A history with entries from the right neighbour, a split, a merge with the left neighbour, and one that gives up
the root; it is not calm. -/
example (mv : Bool) : let ops : List (Op Int Int) := [.ins 10 1, .ins 20 2, .ins 40 3, .ins 60 4, .ins 50 5, .del 10, .ins 30 6,
      .ins 35 7, .ins 25 8, .del 40, .del 20, .del 25, .del 50, .ins 70 1, .ins 80 1, .del 30]
    tame ops (EStore.empty (cfgInt 3 mv (fun _ => 0) (fun _ => (0 : Int))) 4) = true ∧
    calm ops (EStore.empty (cfgInt 3 mv (fun _ => 0) (fun _ => (0 : Int))) 4) = false := by
  cases mv <;> decide +kernel

/-! ## The cases handled wrongly -/

/-- The lookup of `k` after a history. -/
def after {c : Cfg K V} (ops : List (Op K V)) (t : EStore c M) (k : K) : Res (Option V) :=
  match run ops t with
  | .ok (some (t, _)) => t.lookup k
  | _ => .ub

/-- 640-681/585-630 `balanceLeafNodes` decides by the slots 0, used or not, which leaf is the left one: here slot 0 of
the left leaf still holds the erased 50, the right one has 45 there; the largest key of the right leaf goes to the
left one, and 60 is not found. -/
theorem C63_stale_slot (mv : Bool) : after [.ins 50 1, .ins 10 2, .ins 20 3, .ins 40 4, .ins 60 5, .del 50, .ins 45 6, .del 10]
    (EStore.empty (cfgInt 3 mv (fun _ => 0) (fun _ => (0 : Int))) 4) 60 = .ok none := by
  cases mv <;> decide +kernel

/-- 552-554/488-490: with entries from the left neighbour the slot of the separator is looked up among the keys of the
*leaf*; here a wrong slot gets the new separator, and 20 is not found. -/
theorem C63_left_entries : after [.ins 10 1, .ins 20 2, .ins 40 3, .ins 60 4, .ins 15 5, .ins 50 6, .del 60, .del 40]
    (EStore.empty (cfgInt 3 true (fun _ => 0) (fun _ => (0 : Int))) 4) 20 = .ok none := by
  decide +kernel

/-- 547/483: `pos > 0` takes the leaf in slot 0 for the leftmost one; here it is not, its left neighbour is full, and
the merge fails in the assertion. -/
theorem C63_slot_zero (mv : Bool) : run [.ins 10 1, .ins 20 1, .ins 30 1, .ins 40 1, .ins 50 1, .ins 60 1, .ins 65 1, .ins 5 1, .ins 6 1,
      .ins 7 1, .ins 8 1, .ins 3 1, .ins 4 1, .del 7, .del 8, .del 10]
    (EStore.empty (cfgInt 3 mv (fun _ => 0) (fun _ => (0 : Int))) 4) = .assertFail := by
  have eq_fail : ∀ {r : Res (Option (EStore (cfgInt 3 mv (fun _ => 0) (fun _ => (0 : Int))) 4 × List Bool))},
      (match r with | .assertFail => true | _ => false) = true → r = .assertFail := by
    intro r h
    cases r <;> first | rfl | cases h
  refine eq_fail ?_
  cases mv <;> decide +kernel


end Verif.BitTree
