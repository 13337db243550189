import Verif.BTree.MergeCrashLost

/-!
# Crashes inside an erase of HPBPTree and PBPTree: what lookups give
-/

set_option linter.unusedSectionVars false

namespace Verif.BTree

open Verif Search Assoc MapSpec

variable {K V : Type} [LinearOrder K] {c : SCfg K V}

/-- Lookups after `t` assignments of the removal of `k` from a leaf with `r` larger keys, if all keys had the values of `m`. -/
def ShiftPoint (lk : K → Res (Option V)) (m : K → Option V) (k : K) (r t : Nat) : Prop :=
  (t = 0 → ∀ x, lk x = .ok (m x)) ∧ (1 ≤ t → lk k = .ok none) ∧
    ∃ x0, ∀ x, x ≠ k → lk x = .ok (m x) ∨
      (t % 2 = 1 ∧ t < 2 * r ∧ x = x0 ∧ ∃ y, y < x0 ∧ m y ≠ none ∧ lk x = .ok (m y))

/-- A key of a leaf is found in it. -/
theorem home_of {L : Type} {o : Ops K V L} {W : Laws o} {lm bm rm : Nat} {s : State K L} (g : Good W lm bm rm s) {b : Nat} {lb : L}
    (hb : b ∈ ids s.depth s.root) (hd : s.heap.data b = some lb) {x : K} (hx : find x (W.abs lb) ≠ none) :
    findLeaf o s.depth s.root x = .ok b := by
  obtain ⟨id, l, pre, post, p, p', ef, hi, hl, ok, _, _, hk, _, _, h1, h2⟩ :=
    findLeaf_spec x s.depth (rootMin rm s.depth) s.root ⊥ ⊤ g.bt (inR_univ x)
  obtain ⟨v, hv⟩ := Option.ne_none_iff_exists'.1 hx
  have hv := find_some_mem hv
  have hin : ∀ is : List Nat, b ∈ is → (x, v) ∈ content W s.heap is := by
    intro is hbi
    obtain ⟨u, w, rfl⟩ := List.append_of_mem hbi
    rw [content_append, content_cons]
    simp [ent, hd, hv]
  rw [hi] at hb
  rcases List.mem_append.1 hb with hb | hb
  · exact absurd (lt_of_lt_of_le (h1 _ (hin pre hb)) hk.1) (lt_irrefl _)
  · rcases List.mem_cons.1 hb with hb | hb
    · rw [ef, hb]
    · exact absurd (lt_of_lt_of_le hk.2 (h2 _ (hin post hb))) (lt_irrefl _)

/-- A key of a leaf of the tree is stored. -/
theorem stored_of {L : Type} {o : Ops K V L} {W : Laws o} {lm bm rm : Nat} {s : State K L} {m : K → Option V} (g : Good W lm bm rm s)
    (hst : Stores W s m) {b : Nat} {lb : L} (hb : b ∈ ids s.depth s.root) (hd : s.heap.data b = some lb) {x : K}
    (hx : find x (W.abs lb) ≠ none) : m x ≠ none := by
  obtain ⟨v, hv⟩ := Option.ne_none_iff_exists'.1 hx
  obtain ⟨u, w, hi⟩ := List.append_of_mem hb
  have hmem : (x, v) ∈ content W s.heap (ids s.depth s.root) := by
    rw [hi, content_append, content_cons]
    simp [ent, hd, find_some_mem hv]
  rw [← hst x, (mem_iff_find g.sorted).1 hmem]
  simp

/-- Keys of neighbours. -/
theorem keys_lt {L : Type} {o : Ops K V L} {W : Laws o} {h : Heap L} {pre post : List Nat} {a b : Nat} {la lb : L}
    (hs : Sorted (content W h (pre ++ a :: b :: post))) (ha : h.data a = some la) (hb : h.data b = some lb) {x y : K × V}
    (hx : x ∈ W.abs la) (hy : y ∈ W.abs lb) : x.1 < y.1 := by
  rw [content_append, content_cons, content_cons] at hs
  refine (sorted_append.1 (sorted_append.1 hs).2.1).2.2 x (by simp only [ent, ha]; exact hx) y ?_
  simp only [ent, hb]
  exact List.mem_append_left _ hy

/-- The donor gives entries away. -/
theorem balance_num {d r : SLeaf K V} {q : SLeaf K V × SLeaf K V} (e : SLeaf.balance c d r = .ok q) (hlt : r.num < d.num)
    (h0 : 1 ≤ r.num) : q.1.num < d.num := by
  unfold SLeaf.balance at e
  rw [Res.assert_pos hlt, Res.ok_bind] at e
  dsimp only at e
  rw [if_neg (by omega)] at e
  obtain ⟨_, _, e⟩ := Res.bind_eq_ok.1 e
  obtain ⟨_, _, e⟩ := Res.bind_eq_ok.1 e
  split at e
  · obtain ⟨_, _, e⟩ := Res.bind_eq_ok.1 e
    obtain ⟨_, _, e⟩ := Res.bind_eq_ok.1 e
    obtain ⟨_, _, e⟩ := Res.bind_eq_ok.1 e
    obtain ⟨_, _, e⟩ := Res.bind_eq_ok.1 e
    cases Res.ok.inj e
    dsimp only
    omega
  · obtain ⟨_, _, e⟩ := Res.bind_eq_ok.1 e
    obtain ⟨_, _, e⟩ := Res.bind_eq_ok.1 e
    obtain ⟨_, _, e⟩ := Res.bind_eq_ok.1 e
    obtain ⟨_, _, e⟩ := Res.bind_eq_ok.1 e
    cases Res.ok.inj e
    dsimp only
    omega

/-- An erase of `k` from the leaf `id` that frees no leaf, with the assignments `ws`, of which the first `2 * r + 1` remove the entry:
it changes no other leaf, or entries move from the right neighbour, or entries move from the left neighbour. -/
def MoveCases (c : SCfg K V) (s s' : State K (SLeaf K V)) (m : K → Option V) (k : K) (id r first : Nat) (l1 : SLeaf K V)
    (ws : List (SWrite K V)) : Prop :=
  (ws.length = 2 * r + 1 ∧ s'.heap = s.heap.set id l1) ∨
  ((∃ y p, k < y ∧ m y ≠ none ∧ findLeaf (sortedOps c) s.depth s.root y = .ok p ∧ p ≠ id ∧ s'.heap.data p ≠ s.heap.data p) ∧
    (∀ y p, y < k → m y ≠ none → findLeaf (sortedOps c) s.depth s.root y = .ok p → p ≠ id → s'.heap.data p = s.heap.data p) ∧
    ∃ T, 1 ≤ T ∧ 2 * r + 1 + 3 * T < ws.length ∧
      (∀ t, 2 * r + 1 ≤ t → ∃ h' s2, applyW c.M s.heap (ws.take t) = .ok h' ∧ recoverH (sortedOps c) h' first = .ok s2 ∧
        TornAt (lookup (sortedOps c) s2) (fun x => if x = k then none else m x) (2 * r + 1 + 3 * T < t ∧ (t - T) % 2 = 0 ∧ t + 1 < ws.length) ∧
        (t ≤ 2 * r + 1 + 3 * T → ∀ x, lookup (sortedOps c) (s.withHeap h') x = .ok (if x = k then none else m x)) ∧
        (ws.length ≤ t → h' = s'.heap)) ∧
      ∃ x h', x ≠ k ∧ m x ≠ none ∧ applyW c.M s.heap (ws.take (2 * r + 1 + 3 * T + 1)) = .ok h' ∧
        lookup (sortedOps c) (s.withHeap h') x = .ok none) ∨
  ((∃ y p, y < k ∧ m y ≠ none ∧ findLeaf (sortedOps c) s.depth s.root y = .ok p ∧ p ≠ id ∧ s'.heap.data p ≠ s.heap.data p) ∧
    ∃ t x h' s2, 2 * r + 1 < t ∧ t < ws.length ∧ x ≠ k ∧ m x ≠ none ∧ applyW c.M s.heap (ws.take t) = .ok h' ∧
      recoverH (sortedOps c) h' first = .ok s2 ∧ lookup (sortedOps c) s2 x = .ok none ∧
      lookup (sortedOps c) (s.withHeap h') x = .ok none)

/-- A crash inside the erase of a stored key. -/
theorem erase_crash (C : CfgLaws c) (hw : WSearch c) (hu : USearch c) (hN : 2 ≤ c.N) (h4 : 4 ≤ c.M) (zero : Bool) {bm : Nat} (hbm : 1 ≤ bm)
    {s : State K (SLeaf K V)} {m : K → Option V} (g : Good (sortedLaws C) (c.M / 2) bm 1 s) (hst : Stores (sortedLaws C) s m)
    {first : Nat} (hf : (ids s.depth s.root).head? = some first) {k : K} (hk : m k ≠ none) :
    ∃ (ws : List (SWrite K V)) (id r : Nat) (l l1 : SLeaf K V), findLeaf (sortedOps c) s.depth s.root k = .ok id ∧
      s.heap.data id = some l ∧ l.erase c k = .ok (true, l1) ∧ eraseW c zero s k = .ok ws ∧ 2 * r + 1 ≤ ws.length ∧
      (∀ t, t ≤ 2 * r + 1 → ∃ l', applyW c.M s.heap (ws.take t) = .ok (s.heap.set id l') ∧
        ShiftPoint (lookup (sortedOps c) (withLeaf s id l')) m k r t ∧
        ∃ s', recoverH (sortedOps c) (s.heap.set id l') first = .ok s' ∧ ShiftPoint (lookup (sortedOps c) s') m k r t) ∧
      applyW c.M s.heap (ws.take (2 * r + 1)) = .ok (s.heap.set id l1) ∧
      (∀ b' s', erase (sortedOps c) s k = .ok (b', s') → ∀ f, (s.heap.data f).isSome → s'.heap.data f = none →
        2 * r + 1 < ws.length ∧ (∃ x, x ≠ k ∧ m x ≠ none ∧ findLeaf (sortedOps c) s.depth s.root x = .ok f) ∧
        ∀ t, 2 * r + 1 ≤ t → ∃ h', applyW c.M s.heap (ws.take t) = .ok h' ∧
          (∃ s2, recoverH (sortedOps c) h' first = .ok s2 ∧ ∀ x, lookup (sortedOps c) s2 x = .ok (if x = k then none else m x)) ∧
          (zero = false → ∀ x, lookup (sortedOps c) (s.withHeap h') x =
            if ws.length ≤ t ∧ findLeaf (sortedOps c) s.depth s.root x = .ok f then .ub else .ok (if x = k then none else m x)) ∧
          (ws.length ≤ t → h' = s'.heap)) ∧
      ∀ b' s', erase (sortedOps c) s k = .ok (b', s') → (∀ f, (s.heap.data f).isSome → s'.heap.data f ≠ none) →
        MoveCases c s s' m k id r first l1 ws := by
  obtain ⟨hp0, id, l, l1, es, p, A, rl, r1, hp, hrl, hmi, ew, ea, ee, hne, hp1, hl1, P⟩ := erase_leaf_sorted C hw h4 g hst hk
  obtain ⟨ws0, hws0⟩ : ∃ ws0 : List (SWrite K V), ws0 = (eraseInstrs es.length p).map (.leaf id) := ⟨_, rfl⟩
  have hilen : (eraseInstrs es.length p : List (SInstr K V)).length = 2 * (es.length - 1 - p) + 1 := by
    simp [eraseInstrs, List.length_flatMap]; omega
  have hlen0 : ws0.length = 2 * (es.length - 1 - p) + 1 := by rw [hws0, List.length_map, hilen]
  have ea' : applyW c.M s.heap ws0 = .ok (s.heap.set id l1) := by rw [hws0]; exact applyW_leaf _ _ _ _ A.data ea
  rw [← hws0] at ew
  have hminok : MinOk (sortedLaws C) := (sortedErase C).minKey
  -- the first phase
  have phase1 : ∀ us t, t ≤ 2 * (es.length - 1 - p) + 1 → ∃ l', applyW c.M s.heap ((ws0 ++ us).take t) = .ok (s.heap.set id l') ∧
      ShiftPoint (lookup (sortedOps c) (withLeaf s id l')) m k (es.length - 1 - p) t ∧
      ∃ s', recoverH (sortedOps c) (s.heap.set id l') first = .ok s' ∧ ShiftPoint (lookup (sortedOps c) s') m k (es.length - 1 - p) t := by
    intro us t ht
    obtain ⟨l', e, c0, c1, x0, c2⟩ := P t
    refine ⟨l', ?_, ⟨fun h0 x => ?_, fun h0 => ?_, x0, fun x hx => ?_⟩, ?_⟩
    · rw [List.take_append_of_le_length (by omega), hws0, ← List.map_take]
      exact applyW_leaf _ _ _ _ A.data e
    · rw [c0 h0, A.lookup_same g (fun q => (sortedLaws C).lookup l q A.ok) x, hst x]
    · rw [lookup_in A.find]; exact (c1 h0).2
    · by_cases hx' : findLeaf (sortedOps c) s.depth s.root x = .ok id
      · rw [lookup_in hx']
        rcases c2 x hx with hd | hd
        · left
          show l'.lookup c x = _
          rw [hd, ← hst x, A.look x hx', show (sortedLaws C).abs l = es from rl.abs]
        · exact .inr hd
      · left; rw [lookup_out hx', hst.lookup g]
    · obtain ⟨rest, hrest⟩ := head_cons hf
      by_cases h0 : t = 0
      · rw [c0 h0, Heap.set_self A.data]
        have hp0' := hp0
        rw [hrest] at hp0'
        obtain ⟨s', e1, _, e3⟩ := hp0'.look hN hminok
        exact ⟨s', e1, fun _ => e3, fun h => by omega, k, fun x _ => .inl (e3 x)⟩
      · have hp1' := hp1
        rw [hrest] at hp1'
        obtain ⟨s', e1, e2, e3⟩ := hp1'.look hN hminok
        refine ⟨s'.withHeap (s.heap.set id l'), ?_, fun h => absurd h h0, ?_⟩
        · rw [recoverH_congr (h := s.heap.set id l') (h0 := s.heap.set id l1) rfl rfl (fun i => ?_), e1, Res.ok_bind]
          by_cases hi : i = id
          · subst hi
            rw [Heap.set_data, Heap.set_data, Option.map_some, Option.map_some]
            congr 1
            show Slots.rd c.M l'.keys 0 = Slots.rd c.M l1.keys 0
            unfold Slots.rd
            rw [(c1 (by omega)).1]
          · rw [Heap.set_data_ne _ hi, Heap.set_data_ne _ hi]
        · -- lookups in the recovered tree
          have look : ∀ x, (lookup (sortedOps c) (s'.withHeap (s.heap.set id l')) x = .ok (if x = k then none else m x)) ∨
              (lookup (sortedOps c) (s'.withHeap (s.heap.set id l')) x = l'.lookup c x ∧ find x (remove k es) = if x = k then none else m x) := by
            intro x
            have hx := e3 x
            unfold lookup at hx ⊢
            obtain ⟨i, ei, hx⟩ := Res.bind_eq_ok.1 hx
            change (findLeaf (sortedOps c) s'.depth s'.root x >>= _) = _ ∨ (findLeaf (sortedOps c) s'.depth s'.root x >>= _) = _ ∧ _
            rw [ei, Res.ok_bind]
            rw [e2] at hx
            change ((s.heap.set id l').get i >>= _) = _ ∨ ((s.heap.set id l').get i >>= _) = _ ∧ _
            by_cases hi : i = id
            · subst hi
              right
              rw [Heap.get_of (Heap.set_data _ _ _), Res.ok_bind] at hx ⊢
              refine ⟨rfl, ?_⟩
              rw [show (sortedOps c).lookup l1 x = _ from lookup_ok C r1 x] at hx
              exact Res.ok.inj hx
            · left
              rw [← hx]
              unfold Heap.get
              rw [Heap.set_data_ne _ hi, Heap.set_data_ne _ hi]
          refine ⟨fun _ => ?_, x0, fun x hx => ?_⟩
          · rcases look k with h1 | ⟨h1, _⟩
            · rw [h1, if_pos rfl]
            · rw [h1]; exact (c1 (by omega)).2
          · rcases look x with h1 | ⟨h1, h2⟩
            · left; rw [h1, if_neg hx]
            · rw [find_remove, if_neg hx, if_neg hx] at h2
              rw [h1, ← h2]
              exact c2 x hx
  have phase2 : ∀ us, applyW c.M s.heap ((ws0 ++ us).take (2 * (es.length - 1 - p) + 1)) = .ok (s.heap.set id l1) := by
    intro us
    rw [← hlen0, List.take_left, ea']
  obtain ⟨d, root, h⟩ := s
  have hd := A.data
  have hfl := A.find
  dsimp only at hd hfl hmi hp1 hp0 hl1 ea' hne hf phase1 phase2
  suffices hsuf : ∃ us, eraseW c zero ⟨d, root, h⟩ k = .ok (ws0 ++ us) ∧
      (∀ b' s', erase (sortedOps c) ⟨d, root, h⟩ k = .ok (b', s') → ∀ f, (h.data f).isSome → s'.heap.data f = none →
        1 ≤ us.length ∧ (∃ x, x ≠ k ∧ m x ≠ none ∧ findLeaf (sortedOps c) d root x = .ok f) ∧
        ∀ t, 2 * (es.length - 1 - p) + 1 ≤ t → ∃ h', applyW c.M h ((ws0 ++ us).take t) = .ok h' ∧
          (∃ s2, recoverH (sortedOps c) h' first = .ok s2 ∧ ∀ x, lookup (sortedOps c) s2 x = .ok (if x = k then none else m x)) ∧
          (zero = false → ∀ x, lookup (sortedOps c) (State.withHeap ⟨d, root, h⟩ h') x =
            if (ws0 ++ us).length ≤ t ∧ findLeaf (sortedOps c) d root x = .ok f then .ub else .ok (if x = k then none else m x)) ∧
          ((ws0 ++ us).length ≤ t → h' = s'.heap)) ∧
      ∀ b' s', erase (sortedOps c) ⟨d, root, h⟩ k = .ok (b', s') → (∀ f, (h.data f).isSome → s'.heap.data f ≠ none) →
        MoveCases c ⟨d, root, h⟩ s' m k id (es.length - 1 - p) first l1 (ws0 ++ us) by
    obtain ⟨us, hu, hs, hmv⟩ := hsuf
    refine ⟨ws0 ++ us, id, es.length - 1 - p, l, l1, hfl, hd, ee, hu, by rw [List.length_append]; omega, phase1 us, phase2 us,
      fun b' s' e f h1 h2 => ?_, hmv⟩
    obtain ⟨q1, q2⟩ := hs b' s' e f h1 h2
    exact ⟨by rw [List.length_append]; omega, q2⟩
  have hset : ∀ f, (h.data f).isSome → ((h.set id l1).data f).isSome := by
    intro f hf
    by_cases hfi : f = id
    · rw [hfi, Heap.set_data]; rfl
    · rw [Heap.set_data_ne _ hfi]; exact hf
  cases d with
  | zero =>
    have hheap : ∀ b' s', erase (sortedOps c) ⟨0, root, h⟩ k = .ok (b', s') → s'.heap = h.set id l1 := by
      intro b' s' e
      unfold erase at e
      dsimp only at e
      rw [findLeaf] at hfl
      cases Res.ok.inj hfl
      rw [eraseT, eraseLeaf, Heap.get_of hd, Res.ok_bind, show (sortedOps c).erase l k = .ok (true, l1) from ee, Res.ok_bind] at e
      cases Res.ok.inj e
      rfl
    refine ⟨[], ?_, fun b' s' e f h1 h2 => absurd h2 ?_, fun b' s' e _ => .inl ⟨by rw [List.append_nil, hlen0], hheap b' s' e⟩⟩
    rotate_left
    · rw [hheap b' s' e]
      exact Option.isSome_iff_ne_none.1 (hset f h1)
    · rw [eraseW, hfl, Res.ok_bind, Heap.get_of hd, Res.ok_bind, ew, Res.ok_bind, ee, Res.ok_bind, List.append_nil]
      rfl
  | succ d =>
    have hne' := hne (by omega)
    by_cases hun : l1.num < (c.M + 1) / 2
    · have hun' := hun
      rw [r1.num] at hun'
      obtain ⟨pn, pos, a, b, pre, post, la, lb, eaa, eb, f1, f2, f3, f4, f5, f6, f7, fi, f8⟩ :=
        underflow_cases C zero hbm g hfl r1 hun'
      have hw1 : ∀ us, underflowW c zero (h.set id l1) pn pos id = .ok us → eraseW c zero ⟨d + 1, root, h⟩ k = .ok (ws0 ++ us) := by
        intro us hus
        rw [eraseW, hfl, Res.ok_bind, Heap.get_of hd, Res.ok_bind, ew, Res.ok_bind, ee, Res.ok_bind]
        dsimp only
        rw [if_pos hun, f1, Res.ok_bind, f2, Res.ok_bind, hus, Res.ok_bind]
        rfl
      have last : ∀ b' s', erase (sortedOps c) ⟨d + 1, root, h⟩ k = .ok (b', s') → ∃ u,
          underflowLeaf (sortedOps c) (h.set id l1) pn pos id = .ok u ∧ u.heap = s'.heap := by
        intro b' s' e
        obtain ⟨pn', pos', q1, q2, q3⟩ := erase_heap_inv hfl hd ee e
        rw [f1] at q1
        cases Res.ok.inj q1
        rw [f2] at q2
        cases Res.ok.inj q2
        rwa [if_pos hun] at q3
      rw [f3] at hp1 hf
      have nonempty : ∀ i l' e', i ∈ pre ++ a :: b :: post → (h.set id l1).data i = some l' → LRep c.M l' e' → e' ≠ [] := by
        intro i l' e' hi hl' r'
        obtain ⟨l2, q1, _, q2⟩ := hp1.leaf i hi
        rw [hl'] at q1
        cases Option.some.inj q1
        have := q2 (by simp; omega)
        rwa [show (sortedLaws C).abs l' = e' from r'.abs] at this
      have bal : ∀ {x y : Nat} {lx ly : SLeaf K V}, (h.set id l1).data x = some lx → (h.set id l1).data y = some ly →
          (∀ u, underflowLeaf (sortedOps c) (h.set id l1) pn pos id = .ok u →
            balanceLeaf (sortedOps c) (h.set id l1) x y = .ok u.heap) →
          ∀ b' s', erase (sortedOps c) ⟨d + 1, root, h⟩ k = .ok (b', s') → ∀ f, (h.data f).isSome → s'.heap.data f ≠ none := by
        intro x y lx ly hx hy hb b' s' e f h1
        obtain ⟨u, q1, q2⟩ := last b' s' e
        have q3 := hb u q1
        unfold balanceLeaf at q3
        rw [Heap.get_of hx, Res.ok_bind, Heap.get_of hy, Res.ok_bind] at q3
        obtain ⟨r, _, q3⟩ := Res.bind_eq_ok.1 q3
        rw [← q2, ← Res.ok.inj q3]
        have h2 := Option.isSome_iff_ne_none.1 (hset f h1)
        simp only [Heap.set, upd] at h2 ⊢
        split
        · simp
        · split
          · simp
          · exact h2
      have hab : a ≠ b := by
        have hnd := hp1.nodup
        rw [List.nodup_append, List.nodup_cons] at hnd
        rintro rfl
        exact hnd.2.1.1 (by simp)
      have hina : a ∈ ids (d + 1) root := by rw [f3]; simp
      have hinb : b ∈ ids (d + 1) root := by rw [f3]; simp
      have hsc : Sorted (content (sortedLaws C) h (ids (d + 1) root)) := g.sorted
      rw [f3] at hsc
      have hkes : ∃ v, (k, v) ∈ (sortedLaws C).abs l := by
        have h1 := A.look k hfl
        rw [hst k] at h1
        obtain ⟨v, hv⟩ := Option.ne_none_iff_exists'.1 hk
        rw [hv] at h1
        exact ⟨v, find_some_mem h1.symm⟩
      cases f8 with
      | merge hcap hW hL =>
        obtain ⟨us, eu, hus⟩ := merge_crash C hN zero hp1 hf f4 f5 f6 f7 hcap
        rw [eu] at hW
        have hulen : 1 ≤ us.length := by
          cases us with
          | nil =>
            exfalso
            obtain ⟨h', q0, _, _, q3⟩ := hus 0
            have := (q3 (by simp)).2.1
            rw [← Res.ok.inj q0, f5] at this
            cases this
          | cons => simp
        refine ⟨us, hw1 us hW, fun b' s' e f h1 h2 => ?_, fun b' s' e hfr => ?_⟩
        rotate_left
        · exfalso
          obtain ⟨u, q1, q2⟩ := last b' s' e
          have hL := hL u q1
          rw [q2] at hL
          obtain ⟨h', _, _, _, q3⟩ := hus us.length
          obtain ⟨q4, q5, _⟩ := q3 le_rfl
          rw [hL] at q4
          cases Res.ok.inj q4
          refine hfr b ?_ q5
          by_cases hbi : b = id
          · rw [hbi, hd]; rfl
          · rw [Heap.set_data_ne _ hbi] at f5; rw [f5]; rfl
        obtain ⟨u, q1, q2⟩ := last b' s' e
        have hL := hL u q1
        rw [q2] at hL
        have hfb : f = b := by
          obtain ⟨h', _, _, _, q3⟩ := hus us.length
          obtain ⟨q4, q5, q6⟩ := q3 le_rfl
          rw [hL] at q4
          cases Res.ok.inj q4
          by_contra hfb
          have := q6 f hfb (hset f h1)
          rw [h2] at this
          cases this
        subst hfb
        refine ⟨hulen, ?_, fun t ht => ?_⟩
        · -- a key of the deleted leaf
          cases heb : eb with
          | nil => exact absurd heb (nonempty f lb eb (by simp) f5 f7)
          | cons e eb' =>
            have hx : find e.1 eb ≠ none := by
              rw [(mem_iff_find f7.sorted).1 (show (e.1, e.2) ∈ eb by rw [heb]; simp)]; simp
            have hin : f ∈ ids (d + 1) root := by rw [f3]; simp
            by_cases hfi : f = id
            · subst hfi
              rw [Heap.set_data] at f5
              cases Option.some.inj f5
              have hebr : eb = remove k es := by rw [← f7.abs, ← r1.abs]
              rw [hebr, find_remove] at hx
              have hxk : e.1 ≠ k := fun hc => by rw [if_pos hc] at hx; exact hx rfl
              rw [if_neg hxk] at hx
              have hx2 : find e.1 ((sortedLaws C).abs l) ≠ none := by rw [show (sortedLaws C).abs l = es from rl.abs]; exact hx
              have hh := A.home e.1 hx2
              refine ⟨e.1, hxk, ?_, hh⟩
              rw [← hst e.1, A.look e.1 hh]; exact hx2
            · rw [Heap.set_data_ne _ hfi] at f5
              have hx2 : find e.1 ((sortedLaws C).abs lb) ≠ none := by rw [show (sortedLaws C).abs lb = eb from f7.abs]; exact hx
              have hh := home_of g hin f5 hx2
              have hxk : e.1 ≠ k := by
                intro hc
                rw [hc] at hh
                have := hfl.symm.trans hh
                exact hfi (Res.ok.inj this).symm
              refine ⟨e.1, hxk, ?_, hh⟩
              obtain ⟨i2, l2, A2⟩ := leafOf g e.1
              have q := A2.find
              dsimp only at q
              rw [hh] at q
              cases Res.ok.inj q
              have q' := A2.data
              dsimp only at q'
              rw [f5] at q'
              cases Option.some.inj q'
              rw [← hst e.1, A2.look e.1 hh]
              exact hx2
        · obtain ⟨h', q, q3, q4, q5⟩ := hus (t - ws0.length)
          refine ⟨h', ?_, q3, fun hz x => ?_, fun hl => ?_⟩
          · rw [List.take_append, List.take_of_length_le (by omega), applyW_append, ea', Res.ok_bind, q]
          · have := q4 hz (withLeaf ⟨d + 1, root, h⟩ id l1) rfl hl1 x
            refine Eq.trans this ?_
            rw [List.length_append]
            refine if_congr (and_congr ?_ Iff.rfl) rfl rfl
            omega
          · rw [List.length_append] at hl
            have := (q5 (by omega)).1
            rw [hL] at this
            exact (Res.ok.inj this).symm
      | right hid hlt hW hL =>
        subst hid
        obtain ⟨us, x, h', s2, eu, u1, u2, u3, u4, u5, u6, u7⟩ := moveR_crash C hu hN hp1 hf f4 f5 f6 f7 hlt
        rw [eu] at hW
        refine ⟨us, hw1 us hW, fun b' s' e f h1 h2 => absurd h2 (bal f4 f5 hL b' s' e f h1), fun b' s' e hfr => .inr (.inr ⟨?_, ?_⟩)⟩
        · -- the left neighbour
          have hne2 := nonempty a la eaa (by simp) f4 f6
          have hda : h.data a = some la := by rwa [Heap.set_data_ne _ hab] at f4
          obtain ⟨e0, he0⟩ := List.exists_mem_of_ne_nil _ hne2
          have hx : find e0.1 ((sortedLaws C).abs la) ≠ none := by
            rw [show (sortedLaws C).abs la = eaa from f6.abs, (mem_iff_find f6.sorted).1 (show (e0.1, e0.2) ∈ eaa from he0)]; simp
          refine ⟨e0.1, a, ?_, stored_of g hst hina hda hx, home_of g hina hda hx, hab, ?_⟩
          · obtain ⟨v, hv⟩ := hkes
            exact keys_lt hsc hda hd (by rw [show (sortedLaws C).abs la = eaa from f6.abs]; exact he0) hv
          · obtain ⟨u, q1, q2⟩ := last b' s' e
            have q3 := hL u q1
            unfold balanceLeaf at q3
            rw [Heap.get_of f4, Res.ok_bind, Heap.get_of f5, Res.ok_bind] at q3
            obtain ⟨rr, q4, q3⟩ := Res.bind_eq_ok.1 q3
            rw [← q2, ← Res.ok.inj q3, Heap.set_data_ne _ hab, Heap.set_data, hda]
            intro hc
            have hc := Option.some.inj hc
            have hn4 := balance_num (c := c) q4 (by rw [f6.num, f7.num]; exact hlt) (by
              rw [f7.num]; exact List.length_pos_iff.2 (nonempty b lb eb (by simp) f5 f7))
            rw [hc] at hn4
            exact lt_irrefl _ hn4
        · have hx1 : x ≠ k ∧ m x ≠ none := by
            by_cases hxk : x = k
            · exact absurd (if_pos hxk) u3
            · rw [if_neg hxk] at u3; exact ⟨hxk, u3⟩
          have hx2 : findLeaf (sortedOps c) (d + 1) root x = .ok b := by
            have h1 : eb = remove k es := by
              rw [Heap.set_data] at f5
              cases Option.some.inj f5
              rw [← f7.abs, ← r1.abs]
            refine A.home x ?_
            rw [h1, find_remove, if_neg hx1.1] at u2
            rw [show (sortedLaws C).abs l = es from rl.abs]; exact u2
          refine ⟨2 * (es.length - 1 - p) + 1 + (2 * eb.length + 1), x, h', s2, by omega, by rw [List.length_append, hlen0]; omega, hx1.1, hx1.2,
            ?_, u5, u6, u7 _ hx2⟩
          rw [List.take_append, List.take_of_length_le (by omega), applyW_append, ea', Res.ok_bind, hlen0, Nat.add_sub_cancel_left]
          exact u4
      | left hid hlt hW hL =>
        subst hid
        obtain ⟨us, T, eu, u1, u2, u3, ⟨x, h', u4, u5, u6⟩, u7⟩ := move_crash C hu hN hp1 hf f4 f5 f6 f7 hlt
        rw [eu] at hW
        have hdb : h.data b = some lb := by rwa [Heap.set_data_ne _ (Ne.symm hab)] at f5
        have habsb : (sortedLaws C).abs lb = eb := f7.abs
        have hbk : ∀ e ∈ eb, k < e.1 := by
          intro e he
          obtain ⟨v, hv⟩ := hkes
          exact keys_lt hsc hd hdb hv (by rw [habsb]; exact he)
        have hheap : ∀ b' s', erase (sortedOps c) ⟨d + 1, root, h⟩ k = .ok (b', s') → balanceLeaf (sortedOps c) (h.set a l1) b a = .ok s'.heap := by
          intro b' s' e
          obtain ⟨u, q1, q2⟩ := last b' s' e
          rw [← q2]
          exact hL u q1
        refine ⟨us, hw1 us hW, fun b' s' e f h1 h2 => absurd h2 (bal f5 f4 hL b' s' e f h1), fun b' s' e hfr => ?_⟩
        have q3 := hheap b' s' e
        have hbl := q3
        unfold balanceLeaf at q3
        rw [Heap.get_of f5, Res.ok_bind, Heap.get_of f4, Res.ok_bind] at q3
        obtain ⟨rr, q4, q3⟩ := Res.bind_eq_ok.1 q3
        have q3 := (Res.ok.inj q3).symm
        have htk : ∀ t, 2 * (es.length - 1 - p) + 1 ≤ t → applyW c.M h ((ws0 ++ us).take t) = applyW c.M (h.set a l1) (us.take (t - ws0.length)) := by
          intro t ht
          rw [List.take_append, List.take_of_length_le (by omega), applyW_append, ea', Res.ok_bind]
        refine .inr (.inl ⟨?_, ?_, T, u1, ?_, fun t ht => ?_, ?_⟩)
        · have hne2 := nonempty b lb eb (by simp) f5 f7
          obtain ⟨e0, he0⟩ := List.exists_mem_of_ne_nil _ hne2
          have hx : find e0.1 ((sortedLaws C).abs lb) ≠ none := by
            rw [habsb, (mem_iff_find f7.sorted).1 (show (e0.1, e0.2) ∈ eb from he0)]; simp
          refine ⟨e0.1, b, hbk e0 he0, stored_of g hst hinb hdb hx, home_of g hinb hdb hx, Ne.symm hab, ?_⟩
          rw [q3, Heap.set_data_ne _ (Ne.symm hab), Heap.set_data]
          dsimp only
          rw [hdb]
          intro hc
          have hc := Option.some.inj hc
          have hn4 := balance_num (c := c) q4 (by rw [f6.num, f7.num]; exact hlt) (by
            rw [f6.num]; exact List.length_pos_iff.2 (nonempty a la eaa (by simp) f4 f6))
          rw [hc] at hn4
          exact lt_irrefl _ hn4
        · intro y p' hy hm' hf' hpa
          have hpb : p' ≠ b := by
            rintro rfl
            obtain ⟨i2, l2, A2⟩ := leafOf g y
            have q := A2.find
            dsimp only at q hf'
            rw [hf'] at q
            cases Res.ok.inj q
            have q' := A2.data
            dsimp only at q'
            rw [hdb] at q'
            cases Option.some.inj q'
            have h1 := A2.look y hf'
            rw [hst y, habsb] at h1
            obtain ⟨v, hv⟩ := Option.ne_none_iff_exists'.1 hm'
            rw [hv] at h1
            exact absurd (hbk _ (find_some_mem h1.symm)) (not_lt.2 hy.le)
          rw [q3, Heap.set_data_ne _ hpa, Heap.set_data_ne _ hpb, Heap.set_data_ne _ hpa]
        · rw [List.length_append, hlen0, u3]; omega
        · obtain ⟨h2, s2, v1, v2, ⟨x0, v3⟩, v4, v5⟩ := u7 (t - ws0.length)
          refine ⟨h2, s2, (htk t ht).trans v1, v2, ⟨x0, fun y => ?_⟩, fun ht2 y => ?_, fun ht2 => ?_⟩
          · rcases v3 y with hv | ⟨hv1, hv2⟩
            · exact .inl hv
            · refine .inr ⟨?_, hv2⟩
              rw [List.length_append]
              omega
          · exact v4 (by omega) (withLeaf ⟨d + 1, root, h⟩ a l1) rfl hl1 y
          · rw [List.length_append] at ht2
            have h3 := v5 (by omega)
            rw [hbl] at h3
            exact (Res.ok.inj h3).symm
        · have hx : find x ((sortedLaws C).abs lb) ≠ none := by rw [habsb]; exact u4
          refine ⟨x, h', ?_, stored_of g hst hinb hdb hx, ?_, u6 _ (home_of g hinb hdb hx)⟩
          · rintro rfl
            obtain ⟨v, hv⟩ := Option.ne_none_iff_exists'.1 u4
            exact lt_irrefl _ (hbk _ (find_some_mem hv))
          · refine (htk _ (by omega)).trans ?_
            rw [hlen0, show 2 * (es.length - 1 - p) + 1 + 3 * T + 1 - (2 * (es.length - 1 - p) + 1) = 3 * T + 1 by omega]
            exact u5
    · have hheap : ∀ b' s', erase (sortedOps c) ⟨d + 1, root, h⟩ k = .ok (b', s') → s'.heap = h.set id l1 := by
        intro b' s' e
        obtain ⟨pn', pos', q1, q2, q3⟩ := erase_heap_inv hfl hd ee e
        rwa [if_neg hun] at q3
      refine ⟨[], ?_, fun b' s' e f h1 h2 => absurd h2 ?_, fun b' s' e _ => .inl ⟨by rw [List.append_nil, hlen0], hheap b' s' e⟩⟩
      rotate_left
      · rw [hheap b' s' e]
        exact Option.isSome_iff_ne_none.1 (hset f h1)
      · rw [eraseW, hfl, Res.ok_bind, Heap.get_of hd, Res.ok_bind, ew, Res.ok_bind, ee, Res.ok_bind, List.append_nil]
        dsimp only
        rw [if_neg hun]
        rfl

end Verif.BTree
