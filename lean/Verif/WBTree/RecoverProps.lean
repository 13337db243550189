import Verif.WBTree.RecoverLookup

/-!
# wHBPTree.hpp: C98, lookups after a restart
-/

namespace Verif.WBTree

variable {K V : Type} [LinearOrder K] {N M : Nat}

/-- C98: after any inserts and a restart, every key that lookup found before is found again, with the same value. -/
def C98_statement (N M : Nat) (dbg : Bool) (junk : Option Nat) : Prop :=
  ∀ (xs : List (Nat × Nat)) (t t' : Tree Nat Nat N M), insertAll junk xs (empty N M junk) = .ok t →
    recover dbg junk t = .ok t' → ∀ k v, lookup t k = .ok (some v) → lookup t' k = .ok (some v)

/-! ## Recovery of a tree built by inserts -/

theorem zero_start (junk : Option Nat) (hM : 1 < M) (hN : 1 < N) : ∀ (xs : List (K × V)) (t t' : Tree K V N M) (m : K → Option V),
    GInv t m → (∀ a, t.next a ≠ some 0) → NoMiddle junk xs t → insertAll junk xs t = .ok t' → ∀ a, t'.next a ≠ some 0 := by
  intro xs
  induction xs with
  | nil =>
    intro t t' m _ h0 _ e
    rw [← Res.ok.inj e]
    exact h0
  | cons x xs ih =>
    intro t t' m h h0 hn e
    obtain ⟨k, v⟩ := x
    obtain ⟨t1, e1, h1⟩ := h.insert junk hM hN k v hn.1
    rw [WBTree.insertAll, e1, Res.ok_bind] at e
    refine ih t1 t' _ h1 ?_ (hn.2 t1 e1) e
    obtain ⟨T, g1, g2, g3, _, _, _, _, _⟩ := h
    obtain ⟨a1, l, es, ea, el, _⟩ := insLeaf_gen k t.depth T g2 (g3.imp id And.left)
    rw [g1] at ea
    have hlt := leaf_lt el
    rcases insert_next e1 ea with hh | hh
    · rw [hh]; exact h0
    · rw [hh]
      intro a
      unfold linkAfter
      split
      · intro h2
        have := Option.some.inj h2
        omega
      · split
        · exact h0 a1
        · exact h0 a

theorem flat_ne : ∀ (d : Nat) (T : VT K V d), flat d T ≠ [] := by
  intro d
  induction d with
  | zero => intro T; simp [flat]
  | succ d ih =>
    rintro ⟨a, xs, z⟩ h
    exact ih z (List.append_eq_nil_iff.1 h).2

/-- The list of leaves starts at the leaf to which nothing points. -/
theorem Linked.start {next : Nat → Option Nat} {L : List Nat} (h : Linked next L) (h0 : ∀ a, next a ≠ some 0) (hm : 0 ∈ L) :
    L.head? = some 0 := by
  obtain ⟨pre, post, rfl⟩ := List.append_of_mem hm
  rcases List.eq_nil_or_concat pre with rfl | ⟨pre, b, rfl⟩
  · rfl
  · exact absurd (h pre b (0 :: post) (by simp)) (h0 b)

/-- What recovery makes of a tree; `F` are its leaves from left to right. -/
theorem GInv.recover (dbg : Bool) (junk : Option Nat) (hN : 0 < N) {t : Tree K V N M} {m : K → Option V} (h : GInv t m)
    (h0 : ∀ a, t.next a ≠ some 0) :
    ∃ F : List (Nat × List (Nat × K × V)), F.length = t.leaves.length ∧ 0 < F.length ∧ (F.map (·.1)).head? = some 0 ∧
      Linked t.next (F.map (·.1)) ∧ (F.map (·.1)).Nodup ∧ (∀ x ∈ F, ∃ l, t.leaves[x.1]? = some l ∧ LeafOK l x.2) ∧
      (flatEnts F).Pairwise (fun a b => a.1 < b.1) ∧ (∀ k v, (k, v) ∈ flatEnts F ↔ m k = some v) ∧
      (dbg = true → (N + 1) ^ Nat.log (N + 1) t.leaves.length ≠ t.leaves.length → WBTree.recover dbg junk t = .assertFail) ∧
      (dbg = false ∨ (N + 1) ^ Nat.log (N + 1) t.leaves.length = t.leaves.length →
        ∃ t', WBTree.recover dbg junk t = .ok t' ∧ TLev t' ∧ t'.leaves = t.leaves ∧ t'.next = t.next ∧
          (F.length = 1 → t'.depth = 0 ∧ t'.root = 0) ∧ (1 < F.length → RInv junk t' F) ∧
          (BitTree.ZeroFree N t.leaves.length → GInv t' m)) := by
  obtain ⟨T, h1, h2, h3, h4, h5, h6, h7, h8⟩ := h
  have hflt := Rep.flat t.depth T h2
  have hne := flat_ne t.depth T
  have hlt := h2.leaf_lt t.depth T
  have hs : (flatEnts (flat t.depth T)).Pairwise (fun a b => a.1 < b.1) := by
    rw [← ents_flat]
    rcases h3 with h3 | ⟨_, h3⟩
    · exact h3.sorted
    · rw [h3]; exact List.Pairwise.nil
  have hone : t.depth = 0 → (flat t.depth T).length = 1 := by
    clear * -
    generalize t.depth = d at T
    rintro rfl
    rfl
  have hnee : (flat t.depth T).length ≠ 1 → ∀ x ∈ flat t.depth T, x.2 ≠ [] := by
    intro hl x hx
    rcases h3 with h3 | ⟨h3, _⟩
    · exact (hflt x hx).2 h3
    · exact absurd (hone h3) hl
  rw [leafs_flat] at h4 h6 h7 hlt
  rw [ents_flat] at h8
  have hlen : (flat t.depth T).length = t.leaves.length := by
    apply le_antisymm
    · have := nodup_length_le h4 hlt
      rwa [List.length_map] at this
    · have : (List.range t.leaves.length).Subperm ((flat t.depth T).map (·.1)) :=
        List.subperm_of_subset List.nodup_range (fun j hj => h6 j (List.mem_range.1 hj))
      have := this.length_le
      rwa [List.length_range, List.length_map] at this
  have hpos : 0 < t.leaves.length := by rw [← hlen]; exact List.length_pos_iff.2 hne
  have hhead := h7.start h0 (h6 0 hpos)
  generalize flat t.depth T = F at *
  obtain ⟨⟨a, es0⟩, F, rfl⟩ := List.exists_cons_of_ne_nil hne
  have ha : a = 0 := by simpa using hhead
  subst ha
  refine ⟨(0, es0) :: F, hlen, by simp, hhead, h7, h4, fun x hx => (hflt x hx).1, hs, h8, ?_⟩
  have hFlen : F.length + 1 = t.leaves.length := hlen
  obtain ⟨r1, r2⟩ := recover_law dbg junk hN h7 (by omega)
    (fun x hx => ⟨(hflt x hx).1, fun hF => hnee (by simpa using hF) x hx⟩) hs
  rw [hFlen] at r1 r2
  refine ⟨r1, fun hd => ?_⟩
  obtain ⟨t', e, g1, g2, g3, g4⟩ := r2 hd
  refine ⟨t', e, recover_lev hpos e, g1, g2, ?_, ?_, ?_⟩
  · intro hl
    have : F = [] := by simpa using hl
    rw [g3 this]
    exact ⟨rfl, rfl⟩
  · intro hl
    exact g4 (by intro hh; subst hh; simp at hl)
  · intro hz
    by_cases hF : F = []
    · have := g3 hF
      subst hF
      subst this
      obtain ⟨l, hl, hok⟩ := (hflt (0, es0) (by simp)).1
      refine GInv.mk' (d := 0) rfl (0, es0) rfl ⟨l, hl, hok⟩ ?_ (by simp [leafs]) (by simp [nodes]) ?_ ?_ ?_
      · by_cases he : es0 = []
        · right; exact ⟨rfl, by simp [ents, he]⟩
        · left; exact ⟨hok.sorted, he⟩
      · intro j hj
        have := h6 j hj
        simpa [leafs] using this
      · simpa [leafs] using h7
      · intro k v
        rw [← h8 k v]
        simp [ents, flatEnts]
    · obtain ⟨d, T', k1, k2, k3, k4, k5, k6, k7, k8, k9⟩ := g4 hF
      have hl := k3.length (d + 1) T'
      have hle : (leafs (d + 1) T').length = t.leaves.length := by rw [k6, List.length_map, hlen]
      have h1F : 1 < ((0, es0) :: F).length := by
        rw [List.length_cons]
        have := List.length_pos_iff.2 hF
        omega
      have hdense : BitTree.Dense N (leafs (d + 1) T').length (d + 1) := by
        rw [hle]
        refine (BitTree.dense_zeroFree hN ?_ (by rw [← hle]; exact hl.2)).2 hz
        rw [← hlen]
        exact k8 h1F
      refine GInv.mk' k1 T' k2 (k3.rep hN (d + 1) T' hdense) (Or.inl k4) (by rw [k6]; exact h4) k5 ?_ ?_ ?_
      · rw [g1, k6]; exact h6
      · rw [g2, k6]; exact h7
      · intro k v
        rw [k7, h8]

/-- The starting point of the theorems below: a tree built by inserts. -/
theorem built (hN : 1 < N) (hM : 1 < M) (junk : Option Nat) (xs : List (K × V))
    (h : NoMiddle junk xs (empty N M junk : Tree K V N M)) :
    ∃ t, insertAll junk xs (empty N M junk : Tree K V N M) = .ok t ∧ GInv t (last xs) ∧ ∀ a, t.next a ≠ some 0 := by
  obtain ⟨t, e, _, h2⟩ := gInv_insertAll junk hM hN xs h
  exact ⟨t, e, h2, zero_start junk hM hN xs _ t _ (gInv_empty junk) (fun a => by simp [empty]) h e⟩

theorem isPow_iff {N L : Nat} (hN : 0 < N) : (N + 1) ^ Nat.log (N + 1) L = L ↔ ∃ n, L = (N + 1) ^ n := by
  constructor
  · exact fun h => ⟨_, h.symm⟩
  · rintro ⟨n, rfl⟩
    rw [Nat.log_pow (by omega)]

/-! ## When recovery runs through -/

/-- With assertions, recovery succeeds exactly if the number of leaves is a power of `N + 1`; without, always. -/
theorem C98_asserts (hN : 1 < N) (hM : 1 < M) (junk : Option Nat) (xs : List (K × V))
    (h : NoMiddle junk xs (empty N M junk : Tree K V N M)) :
    ∃ t, insertAll junk xs (empty N M junk : Tree K V N M) = .ok t ∧ (∃ t', recover false junk t = .ok t') ∧
      ((∃ t', recover true junk t = .ok t') ↔ ∃ n, t.leaves.length = (N + 1) ^ n) ∧
      (recover true junk t = .assertFail ↔ ¬ ∃ n, t.leaves.length = (N + 1) ^ n) := by
  obtain ⟨t, e, hg, h0⟩ := built hN hM junk xs h
  obtain ⟨F, _, _, _, _, _, _, _, _, r1, r2⟩ := hg.recover true junk (by omega) h0
  obtain ⟨F', _, _, _, _, _, _, _, _, _, q2⟩ := hg.recover false junk (by omega) h0
  obtain ⟨t1, e1, _⟩ := q2 (Or.inl rfl)
  refine ⟨t, e, ⟨t1, e1⟩, ?_, ?_⟩ <;> rw [← isPow_iff (by omega : 0 < N)]
  · constructor
    · rintro ⟨t', e'⟩
      by_contra hh
      rw [r1 rfl hh] at e'
      exact absurd e' (by simp)
    · intro hh
      obtain ⟨t', e', _⟩ := r2 (Or.inr hh)
      exact ⟨t', e'⟩
  · constructor
    · intro ha hh
      obtain ⟨t', e', _⟩ := r2 (Or.inr hh)
      rw [ha] at e'
      exact absurd e' (by simp)
    · exact r1 rfl

/-! ## What lookups answer -/

theorem LeafOK.mem_of_lookup {l : Leaf K V M} {es : List (Nat × K × V)} (h : LeafOK l es) {k : K} {v : V}
    (e : l.lookup k = .ok (some v)) : ∃ x ∈ es, x.2 = (k, v) := by
  obtain ⟨r, e1, hr⟩ := h.lookup_iff k
  rw [e1] at e
  obtain ⟨x, hx, hxe⟩ := List.mem_map.1 ((hr v).2 (Res.ok.inj e))
  exact ⟨x, hx, hxe⟩

theorem digits_iff {N i d : Nat} (hN : 0 < N) (hi : i < (N + 1) ^ d) :
    N ∉ Nat.digits (N + 1) i ↔ ∀ j < d, i / (N + 1) ^ j % (N + 1) ≠ N := by
  have hlen : (Nat.digits (N + 1) i).length ≤ d := (Nat.digits_length_le_iff (by omega) i).2 hi
  constructor
  · intro h j hj hh
    rw [← Nat.getD_digits i j (by omega), List.getD_eq_getElem?_getD] at hh
    apply h
    cases hjl : (Nat.digits (N + 1) i)[j]? with
    | none =>
      rw [hjl, Option.getD_none] at hh
      omega
    | some x =>
      rw [hjl, Option.getD_some] at hh
      subst hh
      exact List.mem_of_getElem? hjl
  · intro h hm
    obtain ⟨j, hj, hh⟩ := List.getElem_of_mem hm
    apply h j (by omega)
    rw [← Nat.getD_digits i j (by omega), List.getD_eq_getElem?_getD,
      List.getElem?_eq_getElem hj, Option.getD_some, hh]

/-- A recovery that passes the assertion: `L` is the list of leaves.  A key in the leaf with index `i` is found exactly
if no digit of `i` in base `N + 1` is `N`; for the other keys the lookup reads behind the array of slots. -/
theorem C98_exact (hN : 1 < N) (hM : 1 < M) (junk : Option Nat) (xs : List (K × V))
    (h : NoMiddle junk xs (empty N M junk : Tree K V N M)) {t t' : Tree K V N M}
    (e : insertAll junk xs (empty N M junk : Tree K V N M) = .ok t) (e' : recover true junk t = .ok t') :
    ∃ L : List Nat, L.head? = some 0 ∧ Linked t.next L ∧ L.Nodup ∧ L.length = t.leaves.length ∧
      (∀ k v, last xs k = some v → ∃ (i a : Nat) (l : Leaf K V M), L[i]? = some a ∧ t.leaf a = .ok l ∧ l.lookup k = .ok (some v)) ∧
      ∀ (i a : Nat) (l : Leaf K V M) (k : K) (v : V), L[i]? = some a → t.leaf a = .ok l → l.lookup k = .ok (some v) →
        lookup t' k = if N ∈ Nat.digits (N + 1) i then .ub else .ok (some v) := by
  obtain ⟨t0, e0, hg, h0⟩ := built hN hM junk xs h
  rw [e] at e0
  obtain rfl := Res.ok.inj e0
  obtain ⟨F, f1, f2, f3, f4, f5, f6, f7, f8, r1, r2⟩ := hg.recover true junk (by omega) h0
  have hpow : (N + 1) ^ Nat.log (N + 1) t.leaves.length = t.leaves.length := by
    by_contra hh
    rw [r1 rfl hh] at e'
    exact absurd e' (by simp)
  obtain ⟨t1, e1, _, g1, g2, g3, g4, _⟩ := r2 (Or.inr hpow)
  rw [e'] at e1
  obtain rfl := Res.ok.inj e1
  refine ⟨F.map (·.1), f3, f4, f5, by rw [List.length_map, f1], ?_, ?_⟩
  · intro k v hv
    obtain ⟨x, hx, hxe⟩ := List.mem_flatMap.1 ((f8 k v).2 hv)
    obtain ⟨i, hi, rfl⟩ := List.getElem_of_mem hx
    obtain ⟨l, hl, hok⟩ := f6 _ hx
    refine ⟨i, F[i].1, l, by simp [hi], by unfold Tree.leaf; rw [hl, Res.ofOption_some], ?_⟩
    obtain ⟨r, e3, hr⟩ := hok.lookup_iff k
    rw [e3, (hr v).1 hxe]
  · intro i a l k v hi hl hk
    rw [List.getElem?_map] at hi
    obtain ⟨x, hx, rfl⟩ := Option.map_eq_some_iff.1 hi
    have hxm : x ∈ F := List.mem_of_getElem? hx
    obtain ⟨l', hl', hok⟩ := f6 x hxm
    have hll : l' = l := by
      unfold Tree.leaf at hl
      rw [hl', Res.ofOption_some] at hl
      exact Res.ok.inj hl
    subst hll
    have hiF : i < F.length := (List.getElem?_eq_some_iff.1 hx).1
    obtain ⟨u, hu, hue⟩ := hok.mem_of_lookup hk
    have huk : u.2.1 = k := by rw [hue]
    have hlk : ∀ a', findLeaf t' k t'.depth t'.root = .ok a' → a' = x.1 → lookup t' k = .ok (some v) := by
      rintro a' ea rfl
      rw [lookup_leaf ea (by rw [g1]; exact hl'), hk]
    by_cases hF : F.length = 1
    · have hi0 : i = 0 := by omega
      subst hi0
      obtain ⟨k1, k2⟩ := g3 hF
      rw [if_neg (by simp)]
      refine hlk 0 (by rw [k1, k2]; rfl) ?_
      rw [List.head?_map, List.head?_eq_getElem?, hx] at f3
      exact (Option.some.inj f3).symm
    · obtain ⟨d, T, k1, k2, k3, k4, k5, k6, k7, k8, k9⟩ := g4 (by omega)
      have hlen := k3.length (d + 1) T
      have hl2 : (leafs (d + 1) T).length = F.length := by rw [k6, List.length_map]
      have hfull : (leafs (d + 1) T).length = (N + 1) ^ (d + 1) := by
        have h1 := k8 (by omega)
        rw [hl2] at hlen ⊢
        rw [f1] at h1 hlen ⊢
        rw [← hpow] at h1 hlen ⊢
        have a1 := (Nat.pow_lt_pow_iff_right (by omega : 1 < N + 1)).1 h1
        have a2 := (Nat.pow_le_pow_iff_right (by omega : 1 < N + 1)).1 hlen.2
        congr 1
        omega
      have hfx : ∃ y, (flat (d + 1) T)[i]? = some y ∧ y.1 = x.1 ∧ ∃ u' ∈ y.2, u'.2.1 = k := by
        have hm : ((flat (d + 1) T).map (·.1))[i]? = some x.1 := by
          rw [← leafs_flat, k6, List.getElem?_map, hx]
          rfl
        rw [List.getElem?_map] at hm
        obtain ⟨y, hy, hyx⟩ := Option.map_eq_some_iff.1 hm
        obtain ⟨l2, hl2, hok2⟩ := RSpine.flat (d + 1) T k3 y (List.mem_of_getElem? hy)
        rw [hyx, g1, hl'] at hl2
        obtain rfl := Option.some.inj hl2
        obtain ⟨u', hu', hue'⟩ := hok2.mem_of_lookup hk
        exact ⟨y, hy, hyx, u', hu', by rw [hue']⟩
      obtain ⟨y, hy, hyx, u', hu', rfl⟩ := hfx
      obtain ⟨m1, m2⟩ := findLeaf_full (by omega : 0 < N) (d + 1) T k3 k4 hfull i y hy u' hu'
      have hd := digits_iff (N := N) (i := i) (d := d + 1) (by omega) (by rw [← hfull, hl2]; exact hiF)
      rw [k2] at m1 m2
      by_cases hh : N ∈ Nat.digits (N + 1) i
      · rw [if_pos hh]
        unfold lookup
        rw [k1, m2 (fun h2 => (hd.2 h2) hh)]
        rfl
      · rw [if_neg hh]
        exact hlk y.1 (by rw [k1]; exact m1 (hd.1 hh)) hyx

/-- A recovered tree with at least two leaves: the largest key is not found. -/
theorem C98_lost (hN : 1 < N) (hM : 1 < M) {junk : Option Nat} (hj : junk = none ∨ junk = some 0) (dbg : Bool) (xs : List (K × V))
    (h : NoMiddle junk xs (empty N M junk : Tree K V N M)) {t t' : Tree K V N M}
    (e : insertAll junk xs (empty N M junk : Tree K V N M) = .ok t) (e' : recover dbg junk t = .ok t') (hl : 1 < t.leaves.length)
    {k : K} (hk : ∀ x ∈ xs, x.1 ≤ k) : lookup t' k = .ub ∨ lookup t' k = .ok none := by
  obtain ⟨t0, e0, hg, h0⟩ := built hN hM junk xs h
  rw [e] at e0
  obtain rfl := Res.ok.inj e0
  obtain ⟨F, f1, f2, f3, f4, f5, f6, f7, f8, r1, r2⟩ := hg.recover dbg junk (by omega) h0
  have hpow : dbg = false ∨ (N + 1) ^ Nat.log (N + 1) t.leaves.length = t.leaves.length := by
    cases dbg with
    | false => exact Or.inl rfl
    | true =>
      right
      by_contra hh
      rw [r1 rfl hh] at e'
      exact absurd e' (by simp)
  obtain ⟨t1, e1, _, g1, g2, g3, g4, _⟩ := r2 hpow
  rw [e'] at e1
  obtain rfl := Res.ok.inj e1
  obtain ⟨d, ⟨a, ys, z⟩, k1, k2, k3, k4, k5, k6, k7, k8, k9⟩ := g4 (by omega)
  have hmax : ∀ y ∈ flatEnts F, y.1 ≤ k := by
    rintro ⟨k', v⟩ hy
    have := (f8 k' v).1 hy
    obtain ⟨x, hx, hxk⟩ := (last_some_iff xs k').1 ⟨v, this⟩
    have := hk x hx
    rwa [hxk] at this
  refine lookup_lost hj k1 k2.symm k3 k4 ?_ ?_
  · rintro rfl
    have h1 := k8 (by omega)
    have h2 := RSpine.length d z k3.2.2
    have h3 := k3.num
    rw [k6, List.length_map] at h3
    simp at h3
    omega
  · intro x hx
    obtain ⟨y, hy⟩ := List.exists_mem_of_ne_nil _ (Ord.ne_nil d z k4.ordz)
    refine le_trans ((k4.last x hx).ents d z y hy) (hmax y ?_)
    rw [← k7]
    exact List.mem_append_right _ hy

/-! ## What still holds after a restart -/

theorem zeroFree_pow {N : Nat} (hN : 0 < N) (n : Nat) : BitTree.ZeroFree N ((N + 1) ^ n) := by
  cases n with
  | zero => simp [BitTree.ZeroFree]
  | succ n =>
    rw [← BitTree.dense_zeroFree (d := n) hN (Nat.pow_lt_pow_right (by omega) (by omega)) le_rfl]
    exact BitTree.dense_full hN (n + 1)

/-- Recovery of a tree built by inserts, whatever the number of leaves:
* a lookup finds the right value, nothing, or reads undefined data; it never answers a wrong value;
* `scan` calls the function once for every entry;
* if no digit of (number of leaves − 1) in base `N + 1` is 0, in particular if the assertion holds, then lookups that do
  not leave a node behind its last separator are right, and so they are after further inserts;
* otherwise an insert of a key that is larger than all keys follows an uninitialised pointer. -/
theorem C98_partial (hN : 1 < N) (hM : 1 < M) (dbg : Bool) (junk : Option Nat) (xs : List (K × V))
    (h : NoMiddle junk xs (empty N M junk : Tree K V N M)) {t t' : Tree K V N M}
    (e : insertAll junk xs (empty N M junk : Tree K V N M) = .ok t) (e' : recover dbg junk t = .ok t') :
    (∀ k r, lookup t' k = .ok r → r = none ∨ r = last xs k) ∧
    (∃ ys, scanH t' = .ok ys ∧ (ys.map Prod.fst).Nodup ∧ ∀ k v, (k, v) ∈ ys ↔ last xs k = some v) ∧
    (BitTree.ZeroFree N t.leaves.length → ∀ ys, NoMiddle junk ys t' → ∃ t2, insertAll junk ys t' = .ok t2 ∧
      (∀ k r, lookup t2 k = .ok r → r = none ∨ r = last (xs ++ ys) k) ∧
      ∀ k, Inner t2 k t2.depth t2.root → lookup t2 k = .ok (last (xs ++ ys) k)) ∧
    (dbg = true → BitTree.ZeroFree N t.leaves.length) ∧
    (¬ BitTree.ZeroFree N t.leaves.length → ∀ k v, (∀ x ∈ xs, x.1 < k) → insert junk t' k v = .ub) := by
  obtain ⟨t0, e0, hg, h0⟩ := built hN hM junk xs h
  rw [e] at e0
  obtain rfl := Res.ok.inj e0
  obtain ⟨F, f1, f2, f3, f4, f5, f6, f7, f8, r1, r2⟩ := hg.recover dbg junk (by omega) h0
  have hpow : dbg = false ∨ (N + 1) ^ Nat.log (N + 1) t.leaves.length = t.leaves.length := by
    cases dbg with
    | false => exact Or.inl rfl
    | true =>
      right
      by_contra hh
      rw [r1 rfl hh] at e'
      exact absurd e' (by simp)
  obtain ⟨t1, e1, glev, g1, g2, g3, g4, g5⟩ := r2 hpow
  rw [e'] at e1
  obtain rfl := Res.ok.inj e1
  have hall : ∀ j < t.leaves.length, j ∈ F.map (·.1) := by
    obtain ⟨T, _, k2, _, k4, _, k6, k7, _⟩ := hg
    intro j hj
    have hsub : (F.map (·.1)).Subperm (leafs t.depth T) := by
      refine List.subperm_of_subset f5 (fun a ha => k6 a ?_)
      obtain ⟨x, hx, rfl⟩ := List.mem_map.1 ha
      obtain ⟨l, hl, _⟩ := f6 x hx
      exact (List.getElem?_eq_some_iff.1 hl).1
    have hlen := nodup_length_le k4 (k2.leaf_lt t.depth T)
    have hp := hsub.perm_of_length_le (by rw [List.length_map, f1]; exact hlen)
    exact hp.mem_iff.2 (k6 j hj)
  refine ⟨?_, ?_, ?_, ?_, ?_⟩
  · intro k r er
    unfold lookup at er
    obtain ⟨a, ea, er⟩ := Res.bind_eq_ok.1 er
    obtain ⟨l, hl, er⟩ := Res.bind_eq_ok.1 er
    obtain ⟨lev, hlev, hroot⟩ := glev
    have halt := findLeaf_lt hlev k _ _ _ hroot ea
    rw [g1] at halt
    obtain ⟨x, hx, rfl⟩ := List.mem_map.1 (hall a halt)
    obtain ⟨l', hl', hok⟩ := f6 x hx
    unfold Tree.leaf at hl
    rw [g1, hl', Res.ofOption_some] at hl
    obtain rfl := Res.ok.inj hl
    cases r with
    | none => exact Or.inl rfl
    | some v =>
      right
      obtain ⟨u, hu, hue⟩ := hok.mem_of_lookup er
      refine ((f8 k v).1 ?_).symm
      rw [← hue]
      exact List.mem_flatMap.2 ⟨x, hx, List.mem_map_of_mem hu⟩
  · have hleft : leftmost t' t'.depth t'.root = .ok 0 := by
      by_cases hF : F.length = 1
      · obtain ⟨k1, k2⟩ := g3 hF
        rw [k1, k2]; rfl
      · obtain ⟨d, T, k1, k2, k3, k4, k5, k6, k7, k8, k9⟩ := g4 (by omega)
        obtain ⟨a, e3, e4⟩ := leftmost_first (d + 1) T k3
        rw [k6, f3] at e4
        rw [k1, ← k2, e3, ← Option.some.inj e4]
    have hokL : ∀ a ∈ F.map (·.1), ∃ l es, t'.leaves[a]? = some l ∧ LeafOK l es := by
      intro a ha
      obtain ⟨x, hx, rfl⟩ := List.mem_map.1 ha
      obtain ⟨l, hl, hok⟩ := f6 x hx
      exact ⟨l, x.2, by rw [g1]; exact hl, hok⟩
    have hw := Linked.walk (t := t') (L := F.map (·.1)) (by rw [g2]; exact f4) hokL Leaf.scanBits (fun l => l.posList 0 M)
      (fun l es hok => hok.scanBits) (F.map (·.1)) [] t'.leaves.length rfl (by rw [List.length_map, g1, f1])
    have hperm : ((F.map (·.1)).flatMap (onLeaf t' (fun l => l.posList 0 M))).Perm (flatEnts F) := by
      rw [List.flatMap_map]
      refine List.Perm.flatMap_left F (fun x hx => ?_)
      obtain ⟨l, hl, hok⟩ := f6 x hx
      unfold onLeaf
      rw [g1, hl]
      exact hok.posList_perm
    refine ⟨(F.map (·.1)).flatMap (onLeaf t' (fun l => l.posList 0 M)), ?_, ?_, ?_⟩
    · unfold scanH
      rw [hleft, Res.ok_bind, ← f3, hw]
    · rw [(hperm.map Prod.fst).nodup_iff]
      have : ((flatEnts F).map Prod.fst).Pairwise (· < ·) := List.pairwise_map.2 f7
      exact this.imp ne_of_lt
    · intro k v
      rw [hperm.mem_iff, f8]
  · intro hz ys hn
    obtain ⟨t2, e2, hlev, hg2⟩ := (g5 hz).insertAll junk hM hN ys t' _ glev hn
    have hm : (fun k => ys.foldl (fun o x => if x.1 = k then some x.2 else o) (last xs k)) = last (xs ++ ys) := by
      funext k
      unfold last
      rw [List.foldl_append]
    rw [hm] at hg2
    exact ⟨t2, e2, fun k r er => hg2.lookup_sound hlev er, fun k hi => hg2.lookup_inner hi⟩
  · intro hd
    rcases hpow with hp | hp
    · rw [hd] at hp; exact absurd hp (by simp)
    · rw [← hp]
      exact zeroFree_pow (by omega) _
  · intro hz k v hk
    rw [← f1] at hz
    have hF : 1 < F.length := by
      by_contra hh
      apply hz
      have : F.length = 1 := by omega
      rw [this]
      exact zeroFree_pow (by omega : 0 < N) 0
    refine insert_thin (by omega) (g4 hF) hF hz ?_ v
    rintro ⟨k', v'⟩ hy
    obtain ⟨x, hx, hxk⟩ := (last_some_iff xs k').1 ⟨v', (f8 k' v').1 hy⟩
    have := hk x hx
    rwa [hxk] at this

/-! ## Where the claim is false -/

/-- The keys `0, …, n - 1`, in ascending order. -/
def ascending (n : Nat) : List (Nat × Nat) := (List.range n).map fun k => (k, k + 100)

set_option maxRecDepth 100000 in
/-- 52 ascending keys give 25 leaves, so the assertion holds; key 8 is found before the restart, not after it. -/
theorem C98_example : ∀ junk ∈ [none, some 0],
    (insertAll junk (ascending 52) (empty 4 4 junk) >>= fun t => pure (t.leaves.length, lookup t 8)) = .ok (25, .ok (some 108)) ∧
    (insertAll junk (ascending 52) (empty 4 4 junk) >>= fun t => recover true junk t >>= fun t' =>
      pure (lookup t' 8, lookup t' 10)) = .ok (.ub, .ok (some 110)) := by
  decide +kernel

theorem C98_refuted : ¬ C98_statement 4 4 true none := by
  intro h
  obtain ⟨h1, h2⟩ := C98_example none (by simp)
  obtain ⟨t, e, h1⟩ := Res.bind_eq_ok.1 h1
  rw [e, Res.ok_bind] at h2
  obtain ⟨t', e', h2⟩ := Res.bind_eq_ok.1 h2
  have h3 := h _ t t' e e' 8 108 (congrArg Prod.snd (Res.ok.inj h1))
  have h4 : lookup t' 8 = .ub := congrArg Prod.fst (Res.ok.inj h2)
  rw [h4] at h3
  exact absurd h3 (by simp)

/-! ## Concrete runs -/

theorem ascending_noMiddle (junk : Option Nat) (hM : 2 < M) (hN : 1 < N) (n : Nat) :
    NoMiddle junk (ascending n) (empty N M junk : Tree Nat Nat N M) := by
  apply AtEnds.noMiddle junk hM hN
  intro pre x post h
  refine Or.inr (Or.inr fun y hy => ?_)
  have h1 : (ascending n).Pairwise (fun a b => a.1 < b.1) :=
    List.pairwise_map.2 (List.pairwise_lt_range.imp fun h => h)
  rw [h] at h1
  exact (List.pairwise_append.1 h1).2.2 y hy x (by simp)

set_option maxRecDepth 100000 in
/-- Non-triviality of `C98_partial`, `C98_exact` and `C98_lost`: ascending keys; with 25 leaves recovery passes the
assertion, with 26 it does not and makes a tree in which the next insert is undefined. -/
example : NoMiddle none (ascending 52) (empty 4 4 none : Tree Nat Nat 4 4) ∧
    (insertAll none (ascending 52) (empty 4 4 none) >>= fun t => recover true none t >>= fun t' =>
      pure (t'.depth, ((ascending 52).filter fun x => lookup t' x.1 = .ok (some x.2)).length, lookup t' 51)) =
      .ok (2, 32, .ub) ∧
    NoMiddle none (ascending 54) (empty 4 4 none : Tree Nat Nat 4 4) ∧
    (insertAll none (ascending 54) (empty 4 4 none) >>= fun t => pure (t.leaves.length, recover true none t >>= fun t' => pure t'.depth)) =
      .ok (26, .assertFail) ∧
    (insertAll none (ascending 54) (empty 4 4 none) >>= fun t => recover false none t >>= fun t' =>
      pure (t'.depth, insert none t' 54 154 >>= fun t2 => pure t2.depth)) = .ok (3, .ub) := by
  refine ⟨ascending_noMiddle _ (by omega) (by omega) _, ?_, ascending_noMiddle _ (by omega) (by omega) _, ?_, ?_⟩ <;>
    decide +kernel

end Verif.WBTree
