import Verif.BTree.MergeCrashTree

/-!
# Crashes inside an erase of HPBPTree and PBPTree: the removal of the entry and the merge
-/

set_option linter.unusedSectionVars false

namespace Verif.BTree

open Verif Search Assoc MapSpec

variable {K V : Type} [LinearOrder K] {c : SCfg K V}

/-! ## Merge -/

theorem PersL.next_alive {L : Type} {o : Ops K V L} {W : Laws o} {h : Heap L} {pre post : List Nat} {a b : Nat} {m : K → Option V}
    (hp : PersL W h (pre ++ a :: b :: post) m) : ∀ x, h.next b = some x → (h.data x).isSome := by
  intro x hx
  obtain ⟨p, w⟩ := hp.wf
  cases post with
  | nil =>
    have := w.chain.2 b (by simp)
    rw [show ({ h with prev := p } : Heap L).next b = h.next b from rfl, hx] at this
    cases this
  | cons q post =>
    have h1 := (chain_pair (h := { h with prev := p }) (pre := pre ++ [a]) (a := b) (b := q) (post := post) (by simpa using w.chain)).1
    rw [show ({ h with prev := p } : Heap L).next b = h.next b from rfl, hx] at h1
    cases Option.some.inj h1
    exact w.alive x (by simp)

theorem head_skip {pre post : List Nat} {a b first : Nat} (h : (pre ++ a :: b :: post).head? = some first) :
    ∃ rest, pre ++ a :: post = first :: rest := by
  cases pre with
  | nil => simp at h; exact ⟨post, by rw [h]; rfl⟩
  | cons x pre => simp at h; exact ⟨pre ++ a :: post, by rw [h]; rfl⟩

theorem head_cons {is : List Nat} {first : Nat} (h : is.head? = some first) : ∃ rest, is = first :: rest := by
  cases is with
  | nil => simp at h
  | cons x xs => simp at h; exact ⟨xs, by rw [h]⟩

/-- All crash points of a merge of two neighbours. -/
theorem merge_crash (C : CfgLaws c) (hN : 2 ≤ c.N) (zero : Bool) {h : Heap (SLeaf K V)} {pre post : List Nat} {a b first : Nat}
    {m : K → Option V} (hp : PersL (sortedLaws C) h (pre ++ a :: b :: post) m)
    (hf : (pre ++ a :: b :: post).head? = some first) {la lb : SLeaf K V} {ea eb : List (K × V)} (ha : h.data a = some la)
    (hb : h.data b = some lb) (ra : LRep c.M la ea) (rb : LRep c.M lb eb) (hcap : ea.length + eb.length ≤ c.M) :
    ∃ us, mergeW c zero h a b = .ok us ∧ ∀ t, ∃ h', applyW c.M h (us.take t) = .ok h' ∧
      (∃ s', recoverH (sortedOps c) h' first = .ok s' ∧ ∀ x, lookup (sortedOps c) s' x = .ok (m x)) ∧
      (zero = false → ∀ s : State K (SLeaf K V), s.heap = h → (∀ x, lookup (sortedOps c) s x = .ok (m x)) → ∀ x,
        lookup (sortedOps c) (s.withHeap h') x =
          if us.length ≤ t ∧ findLeaf (sortedOps c) s.depth s.root x = .ok b then .ub else .ok (m x)) ∧
      (us.length ≤ t → mergeLeaf (sortedOps c) h a b = .ok h' ∧ h'.data b = none ∧
        ∀ i, i ≠ b → (h.data i).isSome → (h'.data i).isSome) := by
  have hnd := hp.nodup
  have hab : a ≠ b := by
    rw [List.nodup_append, List.nodup_cons] at hnd
    rintro rfl
    exact hnd.2.1.1 (by simp)
  have hent : ent (sortedLaws C) h a = ea := by simp only [ent, ha]; exact ra.abs
  have hentb : ent (sortedLaws C) h b = eb := by simp only [ent, hb]; exact rb.abs
  have hsort := hp.sorted
  rw [content_append, content_cons, content_cons, hent, hentb] at hsort
  have hlt : ∀ x ∈ ea, ∀ y ∈ eb, x.1 < y.1 := by
    intro x hx y hy
    exact (sorted_append.1 (sorted_append.1 hsort).2.1).2.2 x hx y (by simp [hy])
  have hne : ea ≠ [] := by
    obtain ⟨l, hl, _, h1⟩ := hp.leaf a (by simp)
    rw [ha] at hl
    cases Option.some.inj hl
    have h1 := h1 (by simp; omega)
    rwa [show (sortedLaws C).abs la = ea from ra.abs] at h1
  have hm : ∀ x, find x eb ≠ none → m x ≠ none := by
    intro x hx
    rw [← hp.find x, content_append, content_cons, content_cons, hentb]
    obtain ⟨v, hv⟩ := Option.ne_none_iff_exists'.1 hx
    have hmem : (x, v) ∈ content (sortedLaws C) h pre ++ (ent (sortedLaws C) h a ++ (eb ++ content (sortedLaws C) h post)) := by
      simp [find_some_mem hv]
    rw [hent] at hmem ⊢
    rw [(mem_iff_find hsort).1 hmem]
    simp
  have hminok : MinOk (sortedLaws C) := (sortedErase C).minKey
  obtain ⟨us, lm, eu, rm, hlen, P1, P2, P3⟩ := merge_points zero hab ha hb ra rb hlt hcap hp.next_alive
  -- the same smallest key
  have hmk : ∀ {l l' : SLeaf K V} {es es' : List (K × V)}, LRep c.M l (ea ++ es) → LRep c.M l' (ea ++ es') →
      (sortedOps c).minKey l = (sortedOps c).minKey l' := by
    intro l l' es es' r r'
    cases hea : ea with
    | nil => exact absurd hea hne
    | cons e ea' =>
      rw [hea] at r r'
      rw [hminok l e (ea' ++ es) ⟨_, r⟩ r.abs, hminok l' e (ea' ++ es') ⟨_, r'⟩ r'.abs]
  have shadow : ∀ {la' : SLeaf K V} {es : List (K × V)}, LRep c.M la' (ea ++ es) → (∀ x, find x es ≠ none → m x ≠ none) →
      ∀ {s : State K (SLeaf K V)}, s.heap = h → (∀ x, lookup (sortedOps c) s x = .ok (m x)) → ∀ {h' : Heap (SLeaf K V)},
      h'.data a = some la' → (∀ i, i ≠ a → h'.data i = h.data i) → ∀ x, lookup (sortedOps c) (s.withHeap h') x = .ok (m x) := by
    intro la' es r hes s hs hl h' h1 h2
    refine lookup_shadow (W := sortedLaws C) hl (a := a) (la := la) (la' := la') (es := es) (by rw [hs, ha]) ⟨_, ra⟩ h1 ⟨_, r⟩
      (fun i hi => by rw [hs]; exact h2 i hi) ?_ hes
    rw [show (sortedLaws C).abs la' = _ from r.abs, show (sortedLaws C).abs la = _ from ra.abs]
  have early : ∀ {la' : SLeaf K V} {es : List (K × V)}, LRep c.M la' (ea ++ es) → (∀ x, find x es ≠ none → m x ≠ none) →
      (∃ s', recoverH (sortedOps c) (h.set a la') first = .ok s' ∧ ∀ x, lookup (sortedOps c) s' x = .ok (m x)) ∧
      (∀ s : State K (SLeaf K V), s.heap = h → (∀ x, lookup (sortedOps c) s x = .ok (m x)) → ∀ x,
        lookup (sortedOps c) (s.withHeap (h.set a la')) x = .ok (m x)) := by
    intro la' es r hes
    constructor
    · obtain ⟨rest, hrest⟩ : ∃ rest, pre ++ a :: b :: post = first :: rest := by
        cases hi : pre ++ a :: b :: post with
        | nil => simp at hi
        | cons x xs => rw [hi] at hf; simp at hf; exact ⟨xs, by rw [hf]⟩
      rw [hrest] at hp
      obtain ⟨s, e1, e2, e3⟩ := hp.look hN hminok
      refine ⟨s.withHeap (h.set a la'), ?_, shadow r hes e2 e3 (Heap.set_data _ _ _) (fun i hi => Heap.set_data_ne _ hi _)⟩
      rw [recoverH_congr (h := h.set a la') (h0 := h) rfl rfl (fun i => ?_), e1, Res.ok_bind]
      by_cases hi : i = a
      · subst hi
        rw [Heap.set_data, ha, Option.map_some, Option.map_some, hmk r (es' := []) (by simpa using ra)]
      · rw [Heap.set_data_ne _ hi]
    · intro s hs hl
      exact shadow r hes hs hl (Heap.set_data _ _ _) (fun i hi => Heap.set_data_ne _ hi _)
  refine ⟨us, eu, fun t => ?_⟩
  rcases Nat.lt_or_ge (2 * eb.length) t with h1 | h1
  · rcases Nat.lt_or_ge (2 * eb.length + 1) t with h2 | h2
    · obtain ⟨h', q, q1, q2, q3, q4, q5, q6⟩ := P3 t (by omega)
      refine ⟨h', q, ?_, fun hz s hs hl => ?_, fun ht => ⟨(q6 ht).2, (q6 ht).1, fun i h1 h2 => ?_⟩⟩
      · have hp' := hp.unlink ha hb q1 q2 q3 q4 ⟨_, rm⟩ (by
          rw [show (sortedLaws C).abs lm = _ from rm.abs]; simp [hne]) (by
          rw [show (sortedLaws C).abs lm = _ from rm.abs, show (sortedLaws C).abs la = _ from ra.abs,
            show (sortedLaws C).abs lb = _ from rb.abs])
        obtain ⟨rest, hrest⟩ := head_skip hf
        rw [hrest] at hp'
        obtain ⟨s, e1, _, e3⟩ := hp'.look hN hminok
        exact ⟨s, e1, e3⟩
      · intro x
        have hx := shadow rm hm hs hl (h' := h'.set b lb) (by rw [Heap.set_data_ne _ hab, q1]) (fun i hi => by
          by_cases hi2 : i = b
          · subst hi2; rw [Heap.set_data, hb]
          · rw [Heap.set_data_ne _ hi2, q2 i hi hi2]) x
        have hfl : ∃ i, findLeaf (sortedOps c) s.depth s.root x = .ok i := by
          obtain ⟨i, e, _⟩ := Res.bind_eq_ok.1 (hl x)
          exact ⟨i, e⟩
        obtain ⟨i, ei⟩ := hfl
        unfold lookup at hx ⊢
        change (findLeaf (sortedOps c) s.depth s.root x >>= _) = _ at hx
        change (findLeaf (sortedOps c) s.depth s.root x >>= _) = _
        rw [ei, Res.ok_bind] at hx ⊢
        change ((h'.set b lb).get i >>= _) = _ at hx
        change (h'.get i >>= _) = _
        by_cases hib : i = b
        · subst hib
          rw [Heap.get_of (Heap.set_data _ _ _), Res.ok_bind] at hx
          by_cases ht : us.length ≤ t
          · rw [if_pos ⟨ht, rfl⟩, Heap.get, (q6 ht).1]; rfl
          · rw [if_neg (fun hc => ht hc.1), Heap.get_of (q5 hz (by omega)), Res.ok_bind, hx]
        · rw [if_neg (fun hc => hib (Res.ok.inj hc.2)), ← hx]
          unfold Heap.get
          rw [Heap.set_data_ne _ hib]
      · by_cases hi : i = a
        · rw [hi, q1]; rfl
        · rw [q2 i hi h1]; exact h2
    · have : t = 2 * eb.length + 1 := by omega
      subst this
      refine ⟨_, P2, (early rm hm).1, fun _ s hs hl x => ?_, fun ht => by omega⟩
      rw [if_neg (fun hc => by omega)]
      exact (early rm hm).2 s hs hl x
  · obtain ⟨la', q, r⟩ := P1 t h1
    have r' : LRep c.M la' (ea ++ []) := by simpa using r
    refine ⟨_, q, (early r' (by simp [find])).1, fun _ s hs hl x => ?_, fun ht => by omega⟩
    rw [if_neg (fun hc => by omega)]
    exact (early r' (by simp [find])).2 s hs hl x

end Verif.BTree
