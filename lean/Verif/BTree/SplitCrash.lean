import Verif.BTree.Crash
import Verif.BTree.Recover

/-!
# Crashes inside leaf splits: the part common to the trees

A split writes to the old leaf and to a new leaf that is not yet in the list of leaves, and then sets the links.  The
trees with volatile branch nodes are recovered from the list of leaves.  Proofs about lookups after a crash and a
recovery.
-/

set_option linter.unusedSectionVars false

namespace Verif.BTree

open Verif Assoc

variable {K V L : Type} [LinearOrder K] {o : Ops K V L}

/-! ## Recovery does not read the `prevLeaf` pointers -/

theorem recIns_prev (fp : Bool) (h : Heap L) (p : Nat → Option Nat) (id : Nat) : ∀ (d : Nat) (n : BNode K (Tree K d)),
    recIns o fp { h with prev := p } id d n = recIns o fp h id d n
  | 0, _ => rfl
  | d + 1, n => by
    simp only [recIns]
    congr 1
    funext ch
    rw [recIns_prev fp h p id d ch]

/-- The tree with other `prevLeaf` pointers. -/
def State.withPrev (p : Nat → Option Nat) (s : State K L) : State K L := ⟨s.depth, s.root, { s.heap with prev := p }⟩

theorem recoveryInsert_prev (fp : Bool) (p : Nat → Option Nat) (id : Nat) : ∀ s : State K L,
    recoveryInsert o fp (s.withPrev p) id = recoveryInsert o fp s id >>= fun s => .ok (s.withPrev p)
  | ⟨0, _, _⟩ => rfl
  | ⟨d + 1, n, h⟩ => by
    show recoveryInsert o fp ⟨d + 1, n, { h with prev := p }⟩ id = _
    simp only [recoveryInsert]
    rw [recIns_prev, Res.bind_assoc']
    congr 1
    funext r
    rcases r.2 with _ | s
    · rfl
    · dsimp only
      rw [Res.bind_assoc']
      rfl

theorem recLoop_prev (fp : Bool) (p : Nat → Option Nat) : ∀ (fuel : Nat) (s : State K L) (cur : Option Nat),
    recLoop o fp fuel (s.withPrev p) cur = recLoop o fp fuel s cur >>= fun s => .ok (s.withPrev p)
  | 0, _, none => rfl
  | 0, _, some _ => rfl
  | _ + 1, _, none => rfl
  | fuel + 1, s, some id => by
    simp only [recLoop]
    rw [recoveryInsert_prev]
    simp only [Res.bind_assoc', Res.ok_bind]
    have e : (s.withPrev p).heap.get id = s.heap.get id := rfl
    rw [e]
    congr 1
    funext _
    congr 1
    funext s'
    exact recLoop_prev fp p fuel s' _

theorem recoverF_prev (h : Heap L) (p : Nat → Option Nat) (first : Nat) :
    recoverF o { h with prev := p } first = recoverF o h first >>= fun s => .ok (s.withPrev p) := by
  unfold recoverF
  rw [Res.bind_assoc']
  have e : ({ h with prev := p } : Heap L).get first = h.get first := rfl
  rw [e]
  congr 1
  funext _
  show (match h.next first with | none => _ | some x => _) = _
  rcases h.next first with _ | x
  · rfl
  · dsimp only
    rw [Res.bind_assoc']
    congr 1
    funext r
    exact recLoop_prev true p h.fresh ⟨1, r, h⟩ (some x)

theorem recoverH_prev (h : Heap L) (p : Nat → Option Nat) (first : Nat) :
    recoverH o { h with prev := p } first = recoverH o h first >>= fun s => .ok (s.withPrev p) := by
  unfold recoverH
  rw [Res.bind_assoc']
  have e : ({ h with prev := p } : Heap L).get first = h.get first := rfl
  rw [e]
  congr 1
  funext _
  show (match h.next first with | none => _ | some x => _) = _
  rcases h.next first with _ | x
  · rfl
  · dsimp only
    rw [Res.bind_assoc']
    congr 1
    funext r
    exact recLoop_prev false p h.fresh ⟨1, r, h⟩ (some first)

/-! ## Updates of the heap -/

theorem Heap.ext' {h h' : Heap L} (h1 : h.data = h'.data) (h2 : h.next = h'.next) (h3 : h.prev = h'.prev)
    (h4 : h.fresh = h'.fresh) : h = h' := by
  cases h; cases h'; simp only at *; subst h1 h2 h3 h4; rfl

theorem Heap.set_same (h : Heap L) (i : Nat) (a b : L) : (h.set i a).set i b = h.set i b := by
  refine Heap.ext' ?_ rfl rfl rfl
  funext j
  simp only [Heap.set, upd]
  split <;> rfl

theorem Heap.set_comm (h : Heap L) {i j : Nat} (hij : i ≠ j) (a b : L) : (h.set i a).set j b = (h.set j b).set i a := by
  refine Heap.ext' ?_ rfl rfl rfl
  funext q
  simp only [Heap.set, upd]
  by_cases h1 : q = i
  · by_cases h2 : q = j
    · omega
    · simp [h1, hij]
  · simp [h1]

theorem Heap.set_self {h : Heap L} {i : Nat} {l : L} (hl : h.data i = some l) : h.set i l = h := by
  refine Heap.ext' ?_ rfl rfl rfl
  funext q
  simp only [Heap.set, upd]
  split
  · rename_i e; rw [e, hl]
  · rfl

theorem Heap.get_of {h : Heap L} {i : Nat} {l : L} (hl : h.data i = some l) : h.get i = .ok l := by
  rw [Heap.get, hl]; rfl

theorem Heap.set_data (h : Heap L) (i : Nat) (l : L) : (h.set i l).data i = some l := by simp [Heap.set, upd]

theorem Heap.set_data_ne (h : Heap L) {i j : Nat} (hij : j ≠ i) (l : L) : (h.set i l).data j = h.data j := by
  simp [Heap.set, upd, hij]

/-- The leaf found for a key, with its place in the list of leaves. -/
theorem LeafOf.ids {W : Laws o} {lm bm rm : Nat} {s : State K L} (g : Good W lm bm rm s) {k : K} {id : Nat} {l : L}
    (a : LeafOf W s k id l) : ∃ pre post, BTree.ids s.depth s.root = pre ++ id :: post := by
  obtain ⟨id', l', pre, post, m, m', e, hids, _⟩ :=
    findLeaf_spec k s.depth (rootMin rm s.depth) s.root ⊥ ⊤ g.bt (inR_univ k)
  rw [a.find] at e
  cases Res.ok.inj e
  exact ⟨pre, post, hids⟩


/-! ## Assignments to persistent memory -/

/-- An assignment: `w` to the leaf `i`, or to a link. -/
inductive GW (I : Type) where
  | leaf (i : Nat) (w : I)
  | next (i x : Nat)
  | prev (i x : Nat)

/-- The effect of an assignment; `f` is the effect of an assignment to a leaf. -/
def GW.apply {I : Type} (f : L → I → Res L) (h : Heap L) : GW I → Res (Heap L)
  | .leaf i w => do
    let l ← h.get i
    let l ← f l w
    pure (h.set i l)
  | .next i x => do
    let _ ← h.get i
    pure { h with next := upd h.next i (some x) }
  | .prev i x => do
    let _ ← h.get i
    pure { h with prev := upd h.prev i (some x) }

/-- A sequence of assignments. -/
def applyG {I : Type} (f : L → I → Res L) (h : Heap L) : List (GW I) → Res (Heap L)
  | [] => .ok h
  | w :: ws => do
    let h ← w.apply f h
    applyG f h ws

/-- The assignments to the links in `splitLeafNode` (PBPTree.hpp:964-970, HPBPTree.hpp:498-503): `n` is put behind `id`,
`nx` is `nodeRef.nextLeaf`. -/
def linkGW {I : Type} (id n : Nat) : Option Nat → List (GW I)
  | none => [.next id n, .prev n id]
  | some x => [.next n x, .prev x n, .next id n, .prev n id]

theorem applyG_append {I : Type} (f : L → I → Res L) (ws ws' : List (GW I)) : ∀ h : Heap L,
    applyG f h (ws ++ ws') = applyG f h ws >>= fun h => applyG f h ws' := by
  induction ws with
  | nil => intro h; rfl
  | cons w ws ih =>
    intro h
    rw [List.cons_append, applyG, applyG, Res.bind_assoc']
    congr 1
    funext h
    exact ih h

theorem GW.leaf_ok {I : Type} {f : L → I → Res L} {h : Heap L} {i : Nat} {l l' : L} (hl : h.data i = some l) {w : I}
    (hw : f l w = .ok l') : (GW.leaf i w).apply f h = .ok (h.set i l') := by
  simp only [GW.apply, Heap.get_of hl, Res.ok_bind, hw]; rfl

theorem GW.next_ok {I : Type} {f : L → I → Res L} {h : Heap L} {i x : Nat} {l : L} (hl : h.data i = some l) :
    (GW.next i x : GW I).apply f h = .ok { h with next := upd h.next i (some x) } := by
  simp only [GW.apply, Heap.get_of hl, Res.ok_bind]; rfl

theorem GW.prev_ok {I : Type} {f : L → I → Res L} {h : Heap L} {i x : Nat} {l : L} (hl : h.data i = some l) :
    (GW.prev i x : GW I).apply f h = .ok { h with prev := upd h.prev i (some x) } := by
  simp only [GW.apply, Heap.get_of hl, Res.ok_bind]; rfl

/-! ## Recovery after a crash in a split -/

/-- `R` rebuilds a tree from well-formed leaf lists and does not read the `prevLeaf` pointers. -/
structure Recovers (W : Laws o) (lm : Nat) (R : Heap L → Nat → Res (State K L)) : Prop where
  good : ∀ (h : Heap L) (first : Nat) (rest : List Nat), Wf h (first :: rest) → Sorted (content W h (first :: rest)) →
    (∃ l, h.data first = some l ∧ W.ok l) → (rest ≠ [] → ∀ x ∈ first :: rest, LeafReady W lm h x) →
    ∃ s, R h first = .ok s ∧ ∀ x, lookup o s x = .ok (find x (content W h (first :: rest)))
  prev : ∀ (h : Heap L) (p : Nat → Option Nat) (first : Nat), R { h with prev := p } first = R h first >>= fun s => .ok (s.withPrev p)

theorem recoverH_recovers (W : Laws o) (lm : Nat) (hN : 2 ≤ o.N) : Recovers W lm (recoverH o) where
  good h first rest w hs hf hr := by
    obtain ⟨s, e, _, hl⟩ := recoverH_lookup hN w hs hf hr
    exact ⟨s, e, hl⟩
  prev h p first := recoverH_prev h p first

variable {W : Laws o} {lm bm rm : Nat} {R : Heap L → Nat → Res (State K L)}

/-- Setting of the theorems below: the leaf `l` of `k`, stored at `id`, in a good tree with the map `m`. -/
structure AtSplit (W : Laws o) (lm bm rm : Nat) (s : State K L) (first : Nat) (m : K → Option V) (k : K) (id : Nat) (l : L) : Prop where
  pos : 1 ≤ lm
  min : ∀ l e es, W.ok l → W.abs l = e :: es → lm ≤ (W.abs l).length → o.minKey l = .ok e.1
  good : Good W lm bm rm s
  head : (ids s.depth s.root).head? = some first
  stores : Stores W s m
  leaf : LeafOf W s k id l

theorem AtSplit.list {s : State K L} {first : Nat} {m : K → Option V} {k : K} {id : Nat} {l : L}
    (a : AtSplit W lm bm rm s first m k id l) : ∃ rest pre post, ids s.depth s.root = first :: rest ∧
      ids s.depth s.root = pre ++ id :: post := by
  obtain ⟨pre, post, hids⟩ := LeafOf.ids a.good a.leaf
  obtain ⟨rest, hrest⟩ : ∃ rest, ids s.depth s.root = first :: rest := by
    have hfirst := a.head
    cases hi : ids s.depth s.root with
    | nil => rw [hi] at hfirst; simp at hfirst
    | cons x xs => rw [hi] at hfirst; simp at hfirst; exact ⟨xs, by rw [hfirst]⟩
  exact ⟨rest, pre, post, hrest, hids⟩

theorem content_put {h h' : Heap L} {pre post : List Nat} {id : Nat}
    {l' : L} (hnd : (pre ++ id :: post).Nodup) (hd : h'.data id = some l')
    (ho : ∀ i ∈ pre ++ id :: post, i ≠ id → h'.data i = h.data i) :
    content W h' (pre ++ id :: post) = content W h pre ++ (W.abs l' ++ content W h post) := by
  rw [List.nodup_append, List.nodup_cons] at hnd
  rw [content_append, content_cons]
  congr 1
  · refine content_congr _ (fun i hi => ho i (by simp [hi]) (hnd.2.2 i hi id (by simp)))
  · congr 1
    · simp [ent, hd]
    · refine content_congr _ (fun i hi => ho i (by simp [hi]) ?_)
      rintro rfl; exact hnd.2.1.1 hi

/-- Before the sibling is linked: the entries that are no longer in the old leaf are lost. -/
theorem AtSplit.before (hR : Recovers W lm R) {s : State K L} {first : Nat} {m : K → Option V} {k : K} {id : Nat} {l : L}
    (a : AtSplit W lm bm rm s first m k id l) {l' : L} (ok' : W.ok l') (lost : List K)
    (habs : W.abs l' = (W.abs l).filter (fun e => decide (e.1 ∉ lost))) (hlost : ∀ x ∈ lost, find x (W.abs l) ≠ none)
    (hlen : lm ≤ (W.abs l').length) (s1 : L) (nx pv : Nat → Option Nat)
    (hnx : ∀ i ∈ ids s.depth s.root, nx i = s.heap.next i) :
    ∃ s', R { ((s.heap.set id l').alloc s1).1 with next := nx, prev := pv } first = .ok s' ∧
      ∀ x, lookup o s' x = .ok (if x ∈ lost then none else m x) := by
  obtain ⟨rest, pre, post, hrest, hids⟩ := a.list
  have wf := a.good.wf
  have hsort := a.good.sorted
  unfold cont at hsort
  rw [hids] at wf hsort hnx
  have hidf : id < s.heap.fresh := wf.fresh id (by simp)
  have hne : id ≠ s.heap.fresh := by omega
  have hnd := wf.nodup
  set h' : Heap L := { ((s.heap.set id l').alloc s1).1 with next := nx } with hh'
  have hdata' : h'.data id = some l' := by simp [hh', Heap.alloc, Heap.set, upd, hne]
  have hother : ∀ i ∈ pre ++ id :: post, i ≠ id → h'.data i = s.heap.data i := by
    intro i hi h1
    have : i ≠ s.heap.fresh := by have := wf.fresh i hi; omega
    simp [hh', Heap.alloc, Heap.set, upd, h1, this]
  have hcont := content_put (W := W) (h := s.heap) (h' := h') hnd hdata' hother
  have hcont0 := content_put (W := W) (h := s.heap) (h' := s.heap) hnd a.leaf.data (fun i _ _ => rfl)
  have hsort' : Sorted (content W h' (pre ++ id :: post)) := by
    rw [hcont]
    rw [hcont0] at hsort
    refine hsort.sublist ?_
    refine List.Sublist.append (List.Sublist.refl _) (List.Sublist.append ?_ (List.Sublist.refl _))
    rw [habs]; exact List.filter_sublist
  have wf' : Wf h' (pre ++ id :: post) := by
    refine ⟨wf.nodup, fun i hi => Nat.lt_succ_of_lt (wf.fresh i hi), fun i hi => ?_, ?_, ?_⟩
    · by_cases h1 : i = id
      · rw [h1, hdata']; rfl
      · rw [hother i hi h1]; exact wf.alive i hi
    · refine chain_congr (h := s.heap) (fun i hi => hnx i hi) (fun i hi => ?_) wf.chain.1
      have : i ≠ s.heap.fresh := by have := wf.fresh i hi; omega
      simp [hh', Heap.alloc, Heap.set, upd, this]
    · intro x hx
      show nx x = none
      rw [hnx x (List.mem_of_mem_getLast? hx)]
      exact wf.chain.2 x hx
  obtain ⟨⟨l0, hl0, hok0⟩, hready⟩ := a.good.leaves a.pos a.min hrest
  have hfirst_mem : first ∈ pre ++ id :: post := by rw [← hids, hrest]; simp
  obtain ⟨s', er, hl'⟩ := hR.good h' first rest (by rw [← hrest, hids]; exact wf') (by rw [← hrest, hids]; exact hsort')
    (by
      by_cases h1 : first = id
      · exact ⟨l', by rw [h1]; exact hdata', ok'⟩
      · exact ⟨l0, by rw [hother _ hfirst_mem h1]; exact hl0, hok0⟩)
    (fun hne i hi => by
      by_cases h1 : i = id
      · cases hab : W.abs l' with
        | nil => rw [hab] at hlen; have := a.pos; simp at hlen; omega
        | cons e es => exact ⟨l', e, es, by rw [h1]; exact hdata', ok', hlen, hab, a.min l' e es ok' hab hlen⟩
      · obtain ⟨l1, e, es, k1, k2, k3, k4, k5⟩ := hready hne i hi
        exact ⟨l1, e, es, by rw [hother _ (by rw [← hids, hrest]; exact hi) h1]; exact k1, k2, k3, k4, k5⟩)
  refine ⟨s'.withPrev pv, by rw [show ({ ((s.heap.set id l').alloc s1).1 with next := nx, prev := pv } : Heap L) =
    { h' with prev := pv } from rfl, hR.prev, er]; rfl, fun x => ?_⟩
  refine (hl' x).trans ?_
  congr 1
  rw [← a.stores x]
  unfold cont
  rw [← hrest, hids]
  have hmem' : ∀ e, e ∈ content W h' (pre ++ id :: post) ↔
      e ∈ content W s.heap (pre ++ id :: post) ∧ e.1 ∉ lost := by
    intro e
    rw [hcont, hcont0]
    rw [hcont0] at hsort
    rw [sorted_append, sorted_append] at hsort
    simp only [List.mem_append, habs, List.mem_filter, decide_eq_true_eq]
    have hin : ∀ y, y ∈ lost → ∃ v, (y, v) ∈ W.abs l := by
      intro y hy
      obtain ⟨v, hv⟩ := Option.ne_none_iff_exists'.1 (hlost y hy)
      exact ⟨v, (mem_iff_find hsort.2.1.1).2 hv⟩
    constructor
    · rintro (h1 | ⟨h1, h2⟩ | h1)
      · refine ⟨Or.inl h1, fun hc => ?_⟩
        obtain ⟨v, hv⟩ := hin _ hc
        exact absurd (hsort.2.2 e h1 (e.1, v) (List.mem_append_left _ hv)) (lt_irrefl _)
      · exact ⟨Or.inr (Or.inl h1), h2⟩
      · refine ⟨Or.inr (Or.inr h1), fun hc => ?_⟩
        obtain ⟨v, hv⟩ := hin _ hc
        exact absurd (hsort.2.1.2.2 (e.1, v) hv e h1) (lt_irrefl _)
    · rintro ⟨h1 | h1 | h1, h2⟩
      · exact Or.inl h1
      · exact Or.inr (Or.inl ⟨h1, h2⟩)
      · exact Or.inr (Or.inr h1)
  apply Option.ext
  intro v
  rw [← mem_iff_find hsort', hmem']
  by_cases hx : x ∈ lost
  · simp [hx]
  · simp only [hx, not_false_eq_true, and_true, if_false]
    exact mem_iff_find hsort

/-- After the sibling is linked: nothing is lost, whatever the `prevLeaf` pointers are. -/
theorem AtSplit.after (hR : Recovers W lm R) {s : State K L} {first : Nat} {m : K → Option V} {k : K} {id : Nat} {l : L}
    (a : AtSplit W lm bm rm s first m k id l) {A B : L} (okA : W.ok A) (okB : W.ok B) (hAB : W.abs A ++ W.abs B = W.abs l)
    (lenA : lm ≤ (W.abs A).length) (lenB : lm ≤ (W.abs B).length) :
    ∃ hF, linkAfter ((s.heap.set id A).alloc B).1 id s.heap.fresh = .ok hF ∧
      ∀ p, ∃ s', R { hF with prev := p } first = .ok s' ∧ ∀ x, lookup o s' x = .ok (m x) := by
  obtain ⟨rest, pre, post, hrest, hids⟩ := a.list
  have wf := a.good.wf
  rw [hids] at wf
  have hnd := wf.nodup
  have hidf : id < s.heap.fresh := wf.fresh id (by simp)
  have hne : id ≠ s.heap.fresh := by omega
  obtain ⟨hF, eF, wfF, dataF, freshF⟩ := link_wf wf A B
  refine ⟨hF, eF, fun p => ?_⟩
  have hdF : hF.data id = some A := by rw [dataF]; simp [upd, hne]
  have hnF : hF.data s.heap.fresh = some B := by rw [dataF]; simp [upd]
  have hoF : ∀ i ∈ pre ++ id :: post, i ≠ id → hF.data i = s.heap.data i := by
    intro i hi h1
    have : i ≠ s.heap.fresh := by have := wf.fresh i hi; omega
    rw [dataF]; simp [upd, h1, this]
  have hpre : ∀ i ∈ pre, hF.data i = s.heap.data i := fun i hi => hoF i (by simp [hi]) (by
    rw [List.nodup_append] at hnd; exact hnd.2.2 i hi id (by simp))
  have hpost : ∀ i ∈ post, hF.data i = s.heap.data i := fun i hi => hoF i (by simp [hi]) (by
    rw [List.nodup_append, List.nodup_cons] at hnd
    rintro rfl; exact hnd.2.1.1 hi)
  have hcF : content W hF (pre ++ id :: s.heap.fresh :: post) = cont W s := by
    unfold cont
    rw [hids, content_put (W := W) (h := s.heap) (h' := s.heap) hnd a.leaf.data (fun i _ _ => rfl),
      content_append, content_cons, content_cons, content_congr _ hpre, content_congr _ hpost]
    have e1 : ent W hF id = W.abs A := by simp [ent, hdF]
    have e2 : ent W hF s.heap.fresh = W.abs B := by simp [ent, hnF]
    rw [e1, e2, ← List.append_assoc (W.abs A), hAB]
  obtain ⟨rest', hrest'⟩ : ∃ rest', pre ++ id :: s.heap.fresh :: post = first :: rest' := by
    cases pre with
    | nil =>
      rw [hids] at hrest
      simp at hrest
      exact ⟨s.heap.fresh :: post, by rw [hrest.1]; rfl⟩
    | cons y ys =>
      rw [hids] at hrest
      simp at hrest
      exact ⟨ys ++ id :: s.heap.fresh :: post, by rw [hrest.1]; rfl⟩
  obtain ⟨⟨l0, hl0, hok0⟩, hready⟩ := a.good.leaves a.pos a.min hrest
  have rdy : ∀ (x : Nat) (X : L), hF.data x = some X → W.ok X → lm ≤ (W.abs X).length → LeafReady W lm hF x := by
    intro x X hx hok hlen
    cases hab : W.abs X with
    | nil => rw [hab] at hlen; have := a.pos; simp at hlen; omega
    | cons e es => exact ⟨X, e, es, hx, hok, hlen, hab, a.min X e es hok hab hlen⟩
  have hall : ∀ i ∈ pre ++ id :: s.heap.fresh :: post, LeafReady W lm hF i := by
    intro i hi
    by_cases h1 : i = id
    · rw [h1]; exact rdy id A hdF okA lenA
    · by_cases h2 : i = s.heap.fresh
      · rw [h2]; exact rdy _ B hnF okB lenB
      · have hi' : i ∈ pre ++ id :: post := by
          simp only [List.mem_append, List.mem_cons] at hi ⊢; tauto
        have hrn : rest ≠ [] := by
          rintro rfl
          rw [← hids, hrest] at hi'
          have hid' : id ∈ ids s.depth s.root := by rw [hids]; simp
          rw [hrest] at hid'
          rw [List.mem_singleton] at hi' hid'
          exact h1 (hi'.trans hid'.symm)
        obtain ⟨l1, e, es, k1, k2, k3, k4, k5⟩ := hready hrn i (by rw [← hrest, hids]; exact hi')
        exact ⟨l1, e, es, by rw [hoF i hi' h1]; exact k1, k2, k3, k4, k5⟩
  rw [hrest'] at wfF hcF hall
  obtain ⟨s', er, hl'⟩ := hR.good hF first rest' wfF (by rw [hcF]; exact a.good.sorted)
    (by
      obtain ⟨X, _, _, h1, h2, _⟩ := hall first (by simp)
      exact ⟨X, h1, h2⟩) (fun _ => hall)
  refine ⟨s'.withPrev p, by rw [hR.prev, er]; rfl, fun x => ?_⟩
  refine (hl' x).trans ?_
  rw [hcF, a.stores x]

/-- The assignments to the links: until the pointer to the sibling is set the entries of the sibling are lost. -/
theorem AtSplit.links (hR : Recovers W lm R) {I : Type} (f : L → I → Res L) {s : State K L} {first : Nat} {m : K → Option V}
    {k : K} {id : Nat} {l : L} (a : AtSplit W lm bm rm s first m k id l) {A B : L} (okA : W.ok A) (okB : W.ok B)
    (hAB : W.abs A ++ W.abs B = W.abs l) (lenA : lm ≤ (W.abs A).length) (lenB : lm ≤ (W.abs B).length) :
    ∃ hF, linkAfter ((s.heap.set id A).alloc B).1 id s.heap.fresh = .ok hF ∧
      ∀ d, ∃ h s', applyG f ((s.heap.set id A).alloc B).1 ((linkGW id s.heap.fresh (s.heap.next id)).take d) = .ok h ∧
        R h first = .ok s' ∧
        (∀ x, lookup o s' x = .ok (if d < (if s.heap.next id = none then 1 else 3) ∧ find x (W.abs B) ≠ none then none else m x)) ∧
        (4 ≤ d → h = hF) := by
  obtain ⟨hF, eF, after⟩ := a.after hR okA okB hAB lenA lenB
  refine ⟨hF, eF, fun d => ?_⟩
  obtain ⟨rest, pre, post, hrest, hids⟩ := a.list
  have wf := a.good.wf
  have hsort := a.good.sorted
  unfold cont at hsort
  rw [hids] at wf hsort
  have hidf : id < s.heap.fresh := wf.fresh id (by simp)
  have hne : id ≠ s.heap.fresh := by omega
  have hfr : ∀ i ∈ ids s.depth s.root, i ≠ s.heap.fresh := fun i hi => by
    rw [hids] at hi
    have := wf.fresh i hi; omega
  have hsl : Sorted (W.abs l) := by
    rw [content_put (W := W) (h := s.heap) (h' := s.heap) wf.nodup a.leaf.data (fun i _ _ => rfl), sorted_append, sorted_append] at hsort
    exact hsort.2.1.1
  have hsl' := hsl
  rw [← hAB, sorted_append] at hsl'
  have hlostB : ∀ x, x ∈ (W.abs B).map Prod.fst ↔ find x (W.abs B) ≠ none := by
    intro x
    rw [List.mem_map]
    constructor
    · rintro ⟨e, he, rfl⟩
      rw [(mem_iff_find hsl'.2.1).1 (show (e.1, e.2) ∈ _ from he)]; simp
    · intro hx
      obtain ⟨v, hv⟩ := Option.ne_none_iff_exists'.1 hx
      exact ⟨(x, v), (mem_iff_find hsl'.2.1).2 hv, rfl⟩
  set h5 : Heap L := ((s.heap.set id A).alloc B).1 with hh5
  have hlost : ∀ nx pv : Nat → Option Nat, (∀ i ∈ ids s.depth s.root, nx i = s.heap.next i) →
      ∃ s', R { h5 with next := nx, prev := pv } first = .ok s' ∧
        ∀ x, lookup o s' x = .ok (if find x (W.abs B) ≠ none then none else m x) := by
    intro nx pv hnx
    obtain ⟨s', e, hl⟩ := a.before hR okA ((W.abs B).map Prod.fst) (by
      rw [← hAB, List.filter_append]
      have h1 : (W.abs A).filter (fun e => decide (e.1 ∉ (W.abs B).map Prod.fst)) = W.abs A := by
        rw [List.filter_eq_self]
        intro e he
        simp only [decide_eq_true_eq, List.mem_map, not_exists, not_and]
        intro e' he' hee
        exact absurd (hsl'.2.2 e he e' he') (by rw [hee]; exact lt_irrefl _)
      have h2 : (W.abs B).filter (fun e => decide (e.1 ∉ (W.abs B).map Prod.fst)) = [] := by
        rw [List.filter_eq_nil_iff]
        intro e he
        simp only [decide_eq_true_eq, not_not, List.mem_map]
        exact ⟨e, he, rfl⟩
      rw [h1, h2, List.append_nil]) (by
      intro x hx
      obtain ⟨e, he, rfl⟩ := List.mem_map.1 hx
      rw [(mem_iff_find hsl).1 (show (e.1, e.2) ∈ W.abs l by rw [← hAB]; exact List.mem_append_right _ he)]; simp) lenA B nx pv hnx
    refine ⟨s', e, fun x => ?_⟩
    rw [hl x]
    by_cases hx : find x (W.abs B) = none
    · rw [if_neg (fun h => ((hlostB x).1 h) hx), if_neg (by simp [hx])]
    · rw [if_pos ((hlostB x).2 hx), if_pos hx]
  have hd5 : h5.data id = some A := by simp [hh5, Heap.alloc, Heap.set, upd, hne]
  have hn5 : h5.data s.heap.fresh = some B := by simp [hh5, Heap.alloc, Heap.set, upd]
  have hnext5 : h5.next id = s.heap.next id := by simp [hh5, Heap.alloc, Heap.set, upd, hne]
  have hnx5 : ∀ i ∈ ids s.depth s.root, h5.next i = s.heap.next i := fun i hi => by
    simp [hh5, Heap.alloc, Heap.set, upd, hfr i hi]
  unfold linkAfter at eF
  cases hnx : s.heap.next id with
  | none =>
    rw [hnext5, hnx] at eF
    have eF' := Res.ok.inj eF
    have s1 : (GW.next id s.heap.fresh : GW I).apply f h5 = .ok { hF with prev := h5.prev } := by
      rw [GW.next_ok hd5, ← eF']
    have s2 : (GW.prev s.heap.fresh id : GW I).apply f { hF with prev := h5.prev } = .ok hF := by
      rw [GW.prev_ok (l := B) (by rw [← eF']; exact hn5), ← eF']
    match d with
    | 0 =>
      obtain ⟨s', er, hl'⟩ := hlost h5.next h5.prev hnx5
      exact ⟨h5, s', rfl, er, fun x => by rw [hl' x]; simp, fun h => by omega⟩
    | 1 =>
      obtain ⟨s', er, hl'⟩ := after h5.prev
      exact ⟨_, s', by simp only [linkGW, List.take_succ_cons, List.take_zero, applyG, s1, Res.ok_bind], er,
        fun x => by rw [hl' x]; simp, fun h => by omega⟩
    | d + 2 =>
      obtain ⟨s', er, hl'⟩ := after hF.prev
      exact ⟨hF, s', by simp only [linkGW, List.take_succ_cons, List.take_nil, applyG, s1, s2, Res.ok_bind], er,
        fun x => by rw [hl' x]; simp, fun _ => rfl⟩
  | some y =>
    rw [hnext5, hnx] at eF
    dsimp only at eF
    obtain ⟨ly, e, eF⟩ := Res.bind_eq_ok.1 eF
    have hly : h5.data y = some ly := by
      rw [Heap.get] at e
      cases hq : h5.data y with
      | none => rw [hq] at e; cases e
      | some z => rw [hq] at e; exact congrArg some (Res.ok.inj e)
    have eF' := Res.ok.inj eF
    set h6 : Heap L := { h5 with next := upd h5.next s.heap.fresh (some y) } with hh6
    have s1 : (GW.next s.heap.fresh y : GW I).apply f h5 = .ok h6 := by rw [GW.next_ok hn5]
    have s2 : (GW.prev y s.heap.fresh : GW I).apply f h6 =
        .ok { h6 with prev := upd h5.prev y (some s.heap.fresh) } := GW.prev_ok (h := h6) hly
    have s3 : (GW.next id s.heap.fresh : GW I).apply f { h6 with prev := upd h5.prev y (some s.heap.fresh) } =
        .ok { hF with prev := upd h5.prev y (some s.heap.fresh) } := by
      rw [GW.next_ok (h := { h6 with prev := upd h5.prev y (some s.heap.fresh) }) hd5, ← eF']
    have s4 : (GW.prev s.heap.fresh id : GW I).apply f { hF with prev := upd h5.prev y (some s.heap.fresh) } =
        .ok hF := by
      rw [GW.prev_ok (l := B) (by rw [← eF']; exact hn5), ← eF']
    have hnx6 : ∀ i ∈ ids s.depth s.root, h6.next i = s.heap.next i := fun i hi => by
      simp [hh6, hh5, Heap.alloc, Heap.set, upd, hfr i hi]
    match d with
    | 0 =>
      obtain ⟨s', er, hl'⟩ := hlost h5.next h5.prev hnx5
      exact ⟨h5, s', rfl, er, fun x => by rw [hl' x]; simp, fun h => by omega⟩
    | 1 =>
      obtain ⟨s', er, hl'⟩ := hlost h6.next h6.prev hnx6
      exact ⟨h6, s', by simp only [linkGW, List.take_succ_cons, List.take_zero, applyG, s1, Res.ok_bind], er,
        fun x => by rw [hl' x]; simp, fun h => by omega⟩
    | 2 =>
      obtain ⟨s', er, hl'⟩ := hlost h6.next (upd h5.prev y (some s.heap.fresh)) hnx6
      exact ⟨{ h6 with prev := upd h5.prev y (some s.heap.fresh) }, s',
        by simp only [linkGW, List.take_succ_cons, List.take_zero, applyG, s1, s2, Res.ok_bind], er,
        fun x => by rw [hl' x]; simp, fun h => by omega⟩
    | 3 =>
      obtain ⟨s', er, hl'⟩ := after (upd h5.prev y (some s.heap.fresh))
      exact ⟨_, s', by simp only [linkGW, List.take_succ_cons, List.take_zero, applyG, s1, s2, s3, Res.ok_bind], er,
        fun x => by rw [hl' x]; simp, fun h => by omega⟩
    | d + 4 =>
      obtain ⟨s', er, hl'⟩ := after hF.prev
      exact ⟨hF, s', by simp only [linkGW, List.take_succ_cons, List.take_nil, applyG, s1, s2, s3, s4, Res.ok_bind], er,
        fun x => by rw [hl' x]; simp, fun _ => rfl⟩

/-! ## Trees without a recovery -/

theorem applyG_data {I : Type} {f : L → I → Res L} : ∀ {ws : List (GW I)} {h h' : Heap L}, (∀ i w, GW.leaf i w ∉ ws) →
    applyG f h ws = .ok h' → h'.data = h.data
  | [], h, h', _, e => by cases Res.ok.inj e; rfl
  | .leaf i w :: ws, h, h', hw, e => absurd (List.mem_cons_self ..) (hw i w)
  | .next i x :: ws, h, h', hw, e => by
    rw [applyG] at e
    obtain ⟨h1, e1, e⟩ := Res.bind_eq_ok.1 e
    rw [applyG_data (fun i w hm => hw i w (List.mem_cons_of_mem _ hm)) e]
    simp only [GW.apply] at e1
    obtain ⟨_, _, e1⟩ := Res.bind_eq_ok.1 e1
    cases Res.ok.inj e1; rfl
  | .prev i x :: ws, h, h', hw, e => by
    rw [applyG] at e
    obtain ⟨h1, e1, e⟩ := Res.bind_eq_ok.1 e
    rw [applyG_data (fun i w hm => hw i w (List.mem_cons_of_mem _ hm)) e]
    simp only [GW.apply] at e1
    obtain ⟨_, _, e1⟩ := Res.bind_eq_ok.1 e1
    cases Res.ok.inj e1; rfl

/-- With the branch nodes of the tree before the split, the moved entries are not found: the lookups depend on the data of the
leaves of the old tree only. -/
theorem AtSplit.norec {s : State K L} {first : Nat} {m : K → Option V} {k : K} {id : Nat} {l : L}
    (a : AtSplit W lm bm rm s first m k id l) {A B : L} (okA : W.ok A) (hAB : W.abs A ++ W.abs B = W.abs l)
    {h : Heap L} (hd : ∀ i, i ≠ s.heap.fresh → h.data i = (s.heap.set id A).data i) (x : K) :
    lookup o ⟨s.depth, s.root, h⟩ x = .ok (if find x (W.abs B) ≠ none then none else m x) := by
  obtain ⟨ix, lx, ax⟩ := leafOf a.good x
  obtain ⟨pre, post, hids⟩ := LeafOf.ids a.good ax
  have hfr : ix ≠ s.heap.fresh := by have := a.good.wf.fresh ix (by rw [hids]; simp); omega
  have hm : m x = find x (W.abs lx) := by rw [← a.stores x]; exact ax.look x ax.find
  have hsort := W.sorted l a.leaf.ok
  rw [← hAB] at hsort
  simp only [lookup, ax.find, Res.ok_bind, Heap.get, hd ix hfr, Heap.set, upd]
  by_cases hi : ix = id
  · subst hi
    have e := ax.data
    rw [a.leaf.data] at e
    cases Option.some.inj e
    rw [if_pos rfl, Res.ofOption_some, Res.ok_bind, W.lookup A x okA, hm]
    split
    · next hB =>
      obtain ⟨v, hv⟩ := Option.ne_none_iff_exists'.1 hB
      have := Assoc.find_some_mem hv
      congr 1
      rw [find_eq_none]
      intro e he hc
      have := (List.pairwise_append.1 hsort).2.2 e he _ this
      rw [hc] at this
      exact lt_irrefl _ this
    · next hB =>
      rw [← hAB, find_append, not_not.1 hB, Option.or_none]
  · rw [if_neg hi, ax.data, Res.ofOption_some, Res.ok_bind, W.lookup lx x ax.ok, hm, if_neg]
    intro hB
    refine hi ?_
    have : find x (W.abs l) ≠ none := by
      rw [← hAB, find_append]
      intro hc
      exact hB (Option.or_eq_none_iff.1 hc).2
    have := a.leaf.home x this
    rw [ax.find] at this
    exact Res.ok.inj this

end Verif.BTree
