import Verif.FPTree.SplitCrash
import Verif.BTree.Crash

/-!
# Crashes anywhere inside an insert into the FPTree, with recovery

`insert` (FPTree.hpp:228-254) changes persistent memory in `insertInLeafNode` (492-530) only: one value (506), or the four
assignments of `insertInLeafNodeAtPosition` (611-624), or the assignments of `splitLeafNode` (539-597) followed by those four.
The branch nodes are volatile.  After a crash `recover` (374-405) builds a new tree from the list of leaves.  As in `Crash.lean`
and `SplitCrash.lean` the assignments become persistent in program order.
-/

set_option linter.unusedSectionVars false

namespace Verif.FPTree

open Verif Search BTree Assoc MapSpec

variable {K V : Type} {M : Nat} [LinearOrder K] [Inhabited K] {c : FCfg K V} {adm : K → Prop}

/-! ## Model -/

/-- 513-523: whether the new entry goes into the sibling; `x` is the old leaf after the moves. -/
def goesRight (c : FCfg K V) (x : FLeaf M K V) (sk k : K) : Res Bool :=
  if sk < k then pure true
  else do
    let mp ← x.maxPos c
    let mx ← rdA M x.keys mp
    pure (decide (mx < k))

/-- 492-530: persistent memory after a crash that follows the first `t` assignments of an insert of `k`; the allocation of the
sibling (559) belongs to the first assignment of a split. -/
def crashInsert (c : FCfg K V) (s : State K (FLeaf M K V)) (k : K) (v : V) (t : Nat) : Res (Heap (FLeaf M K V)) := do
  let id ← findLeaf (fpOps c M) s.depth s.root k
  let l ← s.heap.get id
  let p ← l.pos c k
  if p < M then applyHeap s.heap (([.leaf id (.val p v)] : List (HWrite K V)).take t)
  else if l.bits.getFreeZero = M then do
    let r ← findSplitKey c.cv M ⟨M, l.keys⟩
    let sk ← rdA M l.keys r.2
    let a := s.heap.alloc (FLeaf.new c M)
    let ws : List (HWrite K V) := moveWrites l sk id a.2 0 0 M ++ linkWrites id a.2 (s.heap.next id)
    let h ← applyHeap a.1 (ws.take t)
    if t ≤ ws.length then pure h
    else do
      let x ← h.get id
      let right ← goesRight c x sk k
      let i := if right then a.2 else id
      let z ← h.get i
      applyHeap h (((insertWrites c z.bits.getFreeZero k v).map (HWrite.leaf i)).take (t - ws.length))
  else applyHeap s.heap (((insertWrites c l.bits.getFreeZero k v).map (HWrite.leaf id)).take t)

/-- The crash and the recovery. -/
def crashRecover (c : FCfg K V) (s : State K (FLeaf M K V)) (k : K) (v : V) (t : Nat) : Res (State K (FLeaf M K V)) := do
  let h ← crashInsert c s k v t
  recoverF (fpOps c M) h 0

/-! ## `prevLeaf` is not read -/

/-- The `prevLeaf` pointers after an assignment. -/
def prevW (p : Nat → Option Nat) : HWrite K V → Nat → Option Nat
  | .prev i x => upd p i (some x)
  | _ => p

theorem applyHeap_prev : ∀ (ws : List (HWrite K V)) (h : Heap (FLeaf M K V)) (p : Nat → Option Nat),
    applyHeap { h with prev := p } ws = applyHeap h ws >>= fun h' => .ok { h' with prev := ws.foldl prevW p }
  | [], h, p => rfl
  | w :: ws, h, p => by
    have e : w.apply ({ h with prev := p } : Heap (FLeaf M K V)) = w.apply h >>= fun h' => .ok { h' with prev := prevW p w } := by
      cases w with
      | leaf i w =>
        simp only [HWrite.apply, Res.bind_assoc']
        rfl
      | reset i q =>
        simp only [HWrite.apply, Res.bind_assoc']
        rfl
      | next i x =>
        simp only [HWrite.apply, Res.bind_assoc']
        rfl
      | prev i x =>
        simp only [HWrite.apply, Res.bind_assoc']
        rfl
    rw [applyHeap, applyHeap, e]
    simp only [Res.bind_assoc', Res.ok_bind]
    congr 1
    funext h'
    rw [applyHeap_prev ws h' (prevW p w)]
    rfl

theorem bind_prev {α : Type} (x : Res α) (f g : α → Res (Heap (FLeaf M K V))) (h : ∀ a, x = .ok a → ∃ p', f a = g a >>= fun h' => .ok { h' with prev := p' }) :
    ∃ p', (x >>= f) = (x >>= g) >>= fun h' => .ok { h' with prev := p' } := by
  cases x with
  | ok a => exact h a rfl
  | _ => exact ⟨fun _ => none, rfl⟩

theorem crashInsert_prev (s : State K (FLeaf M K V)) (p : Nat → Option Nat) (k : K) (v : V) (t : Nat) :
    ∃ p', crashInsert c (s.withPrev p) k v t = crashInsert c s k v t >>= fun h => .ok { h with prev := p' } := by
  unfold crashInsert
  refine bind_prev _ _ _ (fun id _ => ?_)
  refine bind_prev _ _ _ (fun l _ => ?_)
  refine bind_prev _ _ _ (fun q _ => ?_)
  by_cases h1 : q < M
  · simp only [if_pos h1]
    exact ⟨_, applyHeap_prev _ s.heap p⟩
  · simp only [if_neg h1]
    by_cases h2 : l.bits.getFreeZero = M
    · simp only [if_pos h2]
      refine bind_prev _ _ _ (fun r _ => bind_prev _ _ _ (fun sk _ => ?_))
      have ea : ((s.withPrev p).heap.alloc (FLeaf.new c M)).1 = { (s.heap.alloc (FLeaf.new c M)).1 with prev := upd p s.heap.fresh none } := rfl
      have e2 : ((s.withPrev p).heap.alloc (FLeaf.new c M)).2 = (s.heap.alloc (FLeaf.new c M)).2 := rfl
      have e3 : (s.withPrev p).heap.next id = s.heap.next id := rfl
      rw [ea, e2, e3, applyHeap_prev]
      generalize applyHeap (s.heap.alloc (FLeaf.new c M)).1 _ = X
      cases X with
      | ok h =>
        simp only [Res.ok_bind]
        split
        · exact ⟨_, rfl⟩
        · refine bind_prev _ _ _ (fun x _ => ?_)
          refine bind_prev (goesRight c x sk k) _ _ (fun b _ => ?_)
          refine bind_prev _ _ _ (fun z _ => ?_)
          exact ⟨_, applyHeap_prev _ h _⟩
      | _ => exact ⟨fun _ => none, rfl⟩
    · simp only [if_neg h2]
      exact ⟨_, applyHeap_prev _ s.heap p⟩

end Verif.FPTree

namespace Verif.BTree

variable {K V L : Type} [LinearOrder K] {o : Ops K V L}

theorem linkAfter_prev (h : Heap L) (p : Nat → Option Nat) (id n : Nat) :
    ∃ p', linkAfter { h with prev := p } id n = linkAfter h id n >>= fun h' => .ok { h' with prev := p' } := by
  unfold linkAfter
  rcases h.next id with _ | x
  · exact ⟨_, rfl⟩
  · refine ⟨upd (upd p x (some n)) n (some id), ?_⟩
    simp only [Res.bind_assoc']
    rfl

theorem insertLeaf_prev (h : Heap L) (p : Nat → Option Nat) (id : Nat) (k : K) (v : V) :
    ∃ p', insertLeaf o { h with prev := p } id k v = insertLeaf o h id k v >>= fun r => .ok ({ r.1 with prev := p' }, r.2) := by
  unfold insertLeaf
  have e : ({ h with prev := p } : Heap L).get id = h.get id := rfl
  rw [e]
  cases h.get id with
  | ok l =>
    simp only [Res.ok_bind]
    cases o.insert l k v with
    | ok r =>
      simp only [Res.ok_bind]
      cases r with
      | done l' => exact ⟨p, rfl⟩
      | split a b s =>
        dsimp only
        obtain ⟨p', e'⟩ := linkAfter_prev ((h.set id a).alloc b).1 (upd p h.fresh none) id h.fresh
        refine ⟨p', ?_⟩
        have e1 : ((({ h with prev := p } : Heap L).set id a).alloc b).1 = { ((h.set id a).alloc b).1 with prev := upd p h.fresh none } := rfl
        have e2 : ((({ h with prev := p } : Heap L).set id a).alloc b).2 = h.fresh := rfl
        have e3 : ((h.set id a).alloc b).2 = h.fresh := rfl
        rw [e1, e2, e3, e']
        simp only [Res.bind_assoc', Res.ok_bind]
        rfl
    | _ => exact ⟨p, rfl⟩
  | _ => exact ⟨p, rfl⟩

/-- What an insert into a subtree does to the leaves is what it does to the leaf of the key. -/
theorem insertT_heap {k : K} {v : V} : ∀ {d : Nat} {h : Heap L} {t : Tree K d} {r : InsOut K L (Tree K d)}, insertT o d h t k v = .ok r →
    ∃ id sp, findLeaf o d t k = .ok id ∧ insertLeaf o h id k v = .ok (r.heap, sp)
  | 0, h, id, r, e => by
    rw [insertT] at e
    obtain ⟨q, e1, e⟩ := Res.bind_eq_ok.1 e
    cases Res.ok.inj e
    exact ⟨id, q.2, rfl, e1⟩
  | d + 1, h, n, r, e => by
    rw [insertT] at e
    obtain ⟨pos, e1, e⟩ := Res.bind_eq_ok.1 e
    obtain ⟨c, e2, e⟩ := Res.bind_eq_ok.1 e
    obtain ⟨q, e3, e⟩ := Res.bind_eq_ok.1 e
    obtain ⟨kids, e4, e⟩ := Res.bind_eq_ok.1 e
    obtain ⟨id, sp, f1, f2⟩ := insertT_heap e3
    have hh : r.heap = q.heap := by
      cases hs : q.split with
      | none => rw [hs] at e; cases Res.ok.inj e; rfl
      | some sr =>
        rw [hs] at e
        dsimp only at e
        unfold insertEntry at e
        split at e
        · obtain ⟨sp, _, e⟩ := Res.bind_eq_ok.1 e
          split at e
          · obtain ⟨_, _, e⟩ := Res.bind_eq_ok.1 e
            obtain ⟨_, _, e⟩ := Res.bind_eq_ok.1 e
            cases Res.ok.inj e; rfl
          · obtain ⟨_, _, e⟩ := Res.bind_eq_ok.1 e
            obtain ⟨_, _, e⟩ := Res.bind_eq_ok.1 e
            cases Res.ok.inj e; rfl
        · obtain ⟨_, _, e⟩ := Res.bind_eq_ok.1 e
          cases Res.ok.inj e; rfl
    refine ⟨id, sp, ?_, by rw [hh]; exact f2⟩
    rw [findLeaf, e1, Res.ok_bind, e2, Res.ok_bind, f1]

theorem insert_heap {k : K} {v : V} {s s' : State K L} (e : insert o s k v = .ok s') :
    ∃ id sp, findLeaf o s.depth s.root k = .ok id ∧ insertLeaf o s.heap id k v = .ok (s'.heap, sp) := by
  rw [insert] at e
  obtain ⟨r, e1, e⟩ := Res.bind_eq_ok.1 e
  obtain ⟨id, sp, f1, f2⟩ := insertT_heap e1
  refine ⟨id, sp, f1, ?_⟩
  cases hs : r.split with
  | none => rw [hs] at e; cases Res.ok.inj e; exact f2
  | some sr =>
    rw [hs] at e
    dsimp only at e
    obtain ⟨_, _, e⟩ := Res.bind_eq_ok.1 e
    cases Res.ok.inj e; exact f2

theorem insertT_prev (p : Nat → Option Nat) (k : K) (v : V) : ∀ (d : Nat) (h : Heap L) (t : Tree K d),
    ∃ p', insertT o d { h with prev := p } t k v = insertT o d h t k v >>= fun r => .ok { r with heap := { r.heap with prev := p' } }
  | 0, h, id => by
    obtain ⟨p', e⟩ := insertLeaf_prev (o := o) h p id k v
    refine ⟨p', ?_⟩
    rw [insertT, insertT, e]
    simp only [Res.bind_assoc', Res.ok_bind]
    rfl
  | d + 1, h, n => by
    rw [insertT, insertT]
    cases lookupPos o n k with
    | ok pos =>
      simp only [Res.ok_bind]
      cases Slots.rd (o.N + 1) n.kids pos with
      | ok c =>
        simp only [Res.ok_bind]
        obtain ⟨p', e⟩ := insertT_prev p k v d h c
        refine ⟨p', ?_⟩
        rw [e]
        simp only [Res.bind_assoc', Res.ok_bind]
        congr 1
        funext r
        congr 1
        funext kids
        cases r.split with
        | none => rfl
        | some sr =>
          dsimp only
          unfold insertEntry
          split
          · rw [Res.bind_assoc']
            congr 1
            funext sp
            split
            · simp only [Res.bind_assoc']
              rfl
            · simp only [Res.bind_assoc']
              rfl
          · rw [Res.bind_assoc']
            rfl
      | _ => exact ⟨p, rfl⟩
    | _ => exact ⟨p, rfl⟩

theorem insert_prev (p : Nat → Option Nat) (k : K) (v : V) (s : State K L) :
    ∃ p', insert o (s.withPrev p) k v = insert o s k v >>= fun s' => .ok (s'.withPrev p') := by
  obtain ⟨p', e⟩ := insertT_prev (o := o) p k v s.depth s.heap s.root
  refine ⟨p', ?_⟩
  rw [insert, insert]
  have e' : insertT o (s.withPrev p).depth (s.withPrev p).heap (s.withPrev p).root k v = _ := e
  rw [e']
  cases insertT o s.depth s.heap s.root k v with
  | ok r =>
    simp only [Res.ok_bind]
    cases r.split with
    | none => rfl
    | some sr =>
      simp only [Res.bind_assoc']
      rfl
  | _ => rfl

end Verif.BTree

namespace Verif.FPTree

open Verif Search BTree Assoc MapSpec

variable {K V : Type} {M : Nat} [LinearOrder K] [Inhabited K] {c : FCfg K V} {adm : K → Prop}

/-! ## Crash points -/

/-- The crash falls between the assignment of the bit (621) and that of the fingerprint (622) of a new entry. -/
def TornPoint (c : FCfg K V) (s : State K (FLeaf M K V)) (k : K) (t : Nat) : Prop :=
  ∃ id l, findLeaf (fpOps c M) s.depth s.root k = .ok id ∧ s.heap.data id = some l ∧ l.pos c k = .ok M ∧
    (l.bits.getFreeZero ≠ M ∧ t = 3 ∨
     l.bits.getFreeZero = M ∧ t = 5 * (M / 2) + (if s.heap.next id = none then 2 else 4) + 3)

/-- The crash falls into a split, after the first entry has been moved and before the new leaf is linked. -/
def LossPoint (c : FCfg K V) (s : State K (FLeaf M K V)) (k : K) (t : Nat) : Prop :=
  ∃ id l, findLeaf (fpOps c M) s.depth s.root k = .ok id ∧ s.heap.data id = some l ∧ l.pos c k = .ok M ∧
    l.bits.getFreeZero = M ∧ 5 ≤ t ∧ t < 5 * (M / 2) + (if s.heap.next id = none then 1 else 3)

theorem applyHeap_leaf {i : Nat} : ∀ {ws : List (LWrite K V)} {h : Heap (FLeaf M K V)} {l l' : FLeaf M K V}, h.data i = some l →
    applyAll l ws = .ok l' → applyHeap h (ws.map (HWrite.leaf i)) = .ok (h.set i l')
  | [], h, l, l', hd, e => by
    cases Res.ok.inj e
    rw [List.map_nil, applyHeap, Heap.set_self hd]
  | w :: ws, h, l, l', hd, e => by
    rw [applyAll] at e
    obtain ⟨l1, e1, e⟩ := Res.bind_eq_ok.1 e
    rw [List.map_cons, applyHeap, leafW_ok hd e1, Res.ok_bind, applyHeap_leaf (Heap.set_data _ _ _) e, Heap.set_same]

/-- Persistent memory of a tree. -/
theorem Pers.of_good {F : FLaws c adm} {hM : 2 ≤ M}
    (hmin : ∀ (l : FLeaf M K V) e es, FOk c.hash adm l → l.abs = e :: es → M / 2 ≤ l.abs.length → l.minKey c = .ok e.1)
    {bm rm : Nat} {s : State K (FLeaf M K V)} (g : Good (fpLaws F hM) (M / 2) bm rm s) {first : Nat}
    (hfirst : (ids s.depth s.root).head? = some first) {m : K → Option V} (hm : Stores (fpLaws F hM) s m) :
    Pers F hM s.heap first m := by
  obtain ⟨rest, hrest⟩ : ∃ rest, ids s.depth s.root = first :: rest := by
    cases hi : ids s.depth s.root with
    | nil => rw [hi] at hfirst; simp at hfirst
    | cons x xs => rw [hi] at hfirst; simp at hfirst; exact ⟨xs, by rw [hfirst]⟩
  have wf := g.wf
  have hsort := g.sorted
  unfold cont at hsort
  rw [hrest] at wf hsort
  obtain ⟨⟨l0, hl0, hok0⟩, hready⟩ := g.leaves (by omega) (fun l e es h1 h2 h3 => hmin l e es h1 h2 h3) hrest
  refine ⟨s.heap.prev, rest, wf, hsort, fun i hi => ?_, fun x => ?_⟩
  · by_cases hr : rest = []
    · subst hr
      rw [List.mem_singleton] at hi
      subst hi
      exact ⟨l0, hl0, hok0, fun h => absurd rfl h⟩
    · obtain ⟨l1, _, _, h1, h2, h3, _⟩ := hready hr i hi
      exact ⟨l1, h1, h2, fun _ => h3⟩
  · have := hm x
    unfold cont at this
    rw [hrest] at this
    exact this

/-- A leaf is replaced by one with the same entries. -/
theorem Pers.set {F : FLaws c adm} {hM : 2 ≤ M} {h : Heap (FLeaf M K V)} {first : Nat} {m : K → Option V}
    (hp : Pers F hM h first m) {i : Nat} {z z' : FLeaf M K V} (hz : h.data i = some z) (hok : FOk c.hash adm z')
    (habs : z'.abs = z.abs) : Pers F hM (h.set i z') first m := by
  obtain ⟨p, rest, w, hs, hl, hm⟩ := hp
  have hent : ∀ j, ent (fpLaws F hM) (h.set i z') j = ent (fpLaws F hM) h j := by
    intro j
    by_cases hj : j = i
    · subst hj
      simp only [ent, Heap.set_data, hz]
      exact habs
    · simp only [ent, Heap.set_data_ne _ hj]
  have hc : content (fpLaws F hM) (h.set i z') (first :: rest) = content (fpLaws F hM) h (first :: rest) := by
    unfold content
    congr 1
    funext j
    exact hent j
  refine ⟨p, rest, ⟨w.nodup, w.fresh, fun j hj => ?_, w.chain⟩, by rw [hc]; exact hs, fun j hj => ?_, fun x => by rw [hc]; exact hm x⟩
  · by_cases hji : j = i
    · subst hji
      show ((h.set j z').data j).isSome
      rw [Heap.set_data]; rfl
    · show ((h.set i z').data j).isSome
      rw [Heap.set_data_ne _ hji]
      exact w.alive j hj
  · by_cases hji : j = i
    · subst hji
      obtain ⟨l, h1, h2, h3⟩ := hl j hj
      rw [hz] at h1
      cases Option.some.inj h1
      exact ⟨z', Heap.set_data _ _ _, hok, by rw [habs]; exact h3⟩
    · rw [Heap.set_data_ne _ hji]
      exact hl j hj

theorem linkAfter_data {h hF : Heap (FLeaf M K V)} {id n : Nat} {a b a' b' : FLeaf M K V}
    (e : linkAfter ((h.set id a).alloc b).1 id n = .ok hF) :
    linkAfter ((h.set id a').alloc b').1 id n = .ok { hF with data := upd (upd h.data id (some a')) h.fresh (some b') } := by
  unfold linkAfter at e ⊢
  have e1 : ((h.set id a').alloc b').1.next = ((h.set id a).alloc b).1.next := rfl
  have e2 : ((h.set id a').alloc b').1.prev = ((h.set id a).alloc b).1.prev := rfl
  rw [e1, e2]
  cases hx : ((h.set id a).alloc b).1.next id with
  | none =>
    rw [hx] at e
    cases Res.ok.inj e
    rfl
  | some x =>
    rw [hx] at e
    dsimp only at e ⊢
    obtain ⟨y, e3, e⟩ := Res.bind_eq_ok.1 e
    cases Res.ok.inj e
    have : ∃ y', ((h.set id a').alloc b').1.get x = .ok y' := by
      unfold Heap.get at e3 ⊢
      simp only [Heap.alloc, Heap.set, upd] at e3 ⊢
      by_cases h1 : x = h.fresh
      · rw [if_pos h1]; exact ⟨b', rfl⟩
      · rw [if_neg h1] at e3 ⊢
        by_cases h2 : x = id
        · rw [if_pos h2]; exact ⟨a', rfl⟩
        · rw [if_neg h2] at e3 ⊢
          exact ⟨y, e3⟩
    obtain ⟨y', e4⟩ := this
    rw [e4, Res.ok_bind]
    rfl

theorem goesRight_ok (x : FLeaf M K V) (hM : 2 ≤ M) (sk k : K) : ∃ b, goesRight c x sk k = .ok b := by
  unfold goesRight
  split
  · exact ⟨true, rfl⟩
  · obtain ⟨mp, e, h⟩ := maxPos_spec (c := c) (l := x)
    have hmp : mp < M := by rcases h with h | h <;> omega
    rw [e, Res.ok_bind, rdA_ok hmp, Res.ok_bind]
    exact ⟨_, rfl⟩

/-- The insert into a full leaf, with the choice of the leaf separated. -/
theorem insert_full {l A B : FLeaf M K V} {sk k : K} {v : V} (hp : l.pos c k = .ok M) (hf : l.bits.getFreeZero = M)
    (hs : l.split c = .ok (A, B, sk)) {b : Bool} (hb : goesRight c A sk k = .ok b) {z' : FLeaf M K V}
    (hz : (if b then B else A).insertAt c (if b then B else A).bits.getFreeZero k v = .ok z') :
    ∃ sk', l.insert c k v = .ok (.split (if b then A else z') (if b then z' else B) sk') := by
  unfold FLeaf.insert
  rw [hp, Res.ok_bind, if_neg (lt_irrefl _), if_pos hf, hs, Res.ok_bind]
  dsimp only
  unfold goesRight at hb
  by_cases h1 : sk < k
  · rw [if_pos h1] at hb ⊢
    cases Res.ok.inj hb
    simp only [if_true] at hz ⊢
    rw [hz, Res.ok_bind]
    exact ⟨_, rfl⟩
  · rw [if_neg h1] at hb ⊢
    obtain ⟨mp, e1, hb⟩ := Res.bind_eq_ok.1 hb
    obtain ⟨mx, e2, hb⟩ := Res.bind_eq_ok.1 hb
    cases Res.ok.inj hb
    rw [e1, Res.ok_bind, e2, Res.ok_bind]
    by_cases h2 : mx < k
    · simp only [h2, decide_true, if_true] at hz ⊢
      rw [hz, Res.ok_bind]
      exact ⟨_, rfl⟩
    · simp only [h2, decide_false, if_false, Bool.false_eq_true] at hz ⊢
      rw [hz, Res.ok_bind]
      exact ⟨_, rfl⟩

/-- A crash at any point of an insert other than `TornPoint`: the map from which `recover` starts. -/
theorem crashInsert_spec (F : FLaws c adm) (hM : 2 ≤ M) (hN : 2 ≤ c.N)
    (hmin : ∀ (l : FLeaf M K V) e es, FOk c.hash adm l → l.abs = e :: es → M / 2 ≤ l.abs.length → l.minKey c = .ok e.1)
    {s : State K (FLeaf M K V)} (g : Good (fpLaws F hM) (M / 2) 0 0 s) {first : Nat}
    (hfirst : (ids s.depth s.root).head? = some first) {m : K → Option V} (hm : Stores (fpLaws F hM) s m)
    {k : K} (ha : adm k) (v : V) (t : Nat) (ht : ¬ TornPoint c s k t) :
    ∃ h m', crashInsert c s k v t = .ok h ∧ Pers F hM h first m' ∧
      ((∀ x, m' x = m x) ∨ (∀ x, m' x = if x = k then some v else m x) ∨
       LossPoint c s k t ∧ ∃ lost : List K, lost.Nodup ∧ lost.length ≤ M / 2 ∧ (∀ x ∈ lost, m x ≠ none) ∧
         ∀ x, m' x = if x ∈ lost then none else m x) := by
  have pers0 : Pers F hM s.heap first m := Pers.of_good hmin g hfirst hm
  obtain ⟨s1, ei, g1, hc1, hh1⟩ := insert_good_head (W := fpLaws F hM) (show M / 2 ≤ M / 2 from le_rfl) (Nat.zero_le _)
    (show 2 ≤ (fpOps c M).N from hN) (by omega) g k v ha
  have pers1 : Pers F hM s1.heap first (fun x => if x = k then some v else m x) := by
    refine Pers.of_good hmin g1 (hh1.trans hfirst) (fun x => ?_)
    rw [hc1, find_upsert, hm x]
  obtain ⟨id, l, a⟩ := leafOf g k
  obtain ⟨id', sp, ef, el⟩ := insert_heap ei
  rw [a.find] at ef
  cases Res.ok.inj ef
  have hok : FOk c.hash adm l := a.ok
  obtain ⟨p, ep, hp⟩ := pos_spec hok k
  unfold insertLeaf at el
  rw [Heap.get_of a.data, Res.ok_bind] at el
  have eins : (fpOps c M).insert l k v = l.insert c k v := rfl
  rw [eins] at el
  unfold crashInsert
  rw [a.find, Res.ok_bind, Heap.get_of a.data, Res.ok_bind, ep, Res.ok_bind]
  rcases hp with ⟨hpM, hb, hkey⟩ | ⟨rfl, hne⟩
  · -- overwritten
    rw [if_pos hpM]
    have e1 : l.insert c k v = .ok (.done { l with vals := upd l.vals p v }) := by
      unfold FLeaf.insert
      rw [ep, Res.ok_bind, if_pos hpM]; rfl
    rw [e1, Res.ok_bind] at el
    have hh : s1.heap = s.heap.set id { l with vals := upd l.vals p v } := (congrArg Prod.fst (Res.ok.inj el)).symm
    cases t with
    | zero => exact ⟨s.heap, m, rfl, pers0, Or.inl fun _ => rfl⟩
    | succ t =>
      refine ⟨s1.heap, _, ?_, pers1, Or.inr (Or.inl fun _ => rfl)⟩
      have hw : (LWrite.val p v : LWrite K V).apply l = .ok { l with vals := upd l.vals p v } := if_pos hpM
      rw [List.take_succ_cons, List.take_nil, applyHeap, leafW_ok a.data hw, Res.ok_bind, hh]
      rfl
  · rw [if_neg (lt_irrefl _)]
    by_cases hfz : l.bits.getFreeZero = p
    · -- split
      rw [if_pos hfz]
      have hbit : ∀ q, q < p → Bitmap.bit l.bits q = true := by
        rcases Bitmap.getFreeZero_spec l.bits with ⟨h4, _⟩ | ⟨_, h4⟩
        · omega
        · exact h4
      have hfull : p ≤ l.abs.length := by
        rw [abs_length]
        have : Finset.range p ⊆ BitmapSpec.members l.bits := fun q hq =>
          Bitmap.mem_members.2 ⟨Finset.mem_range.1 hq, hbit q (Finset.mem_range.1 hq)⟩
        simpa using Finset.card_le_card this
      obtain ⟨sk, moved, k1, k2, k3, k4, hlenI, A, B, hF, es, eF, k5⟩ := crashSplit_spec F hM hmin g hfirst hm a hfull
      obtain ⟨A', B', sk', es2, okA, okB, absA, absB, lenA, lenB, _, _⟩ := split_law F hM hok hbit
      rw [es] at es2
      obtain ⟨rfl, rfl, rfl⟩ : A = A' ∧ B = B' ∧ sk = sk' := by
        have := Res.ok.inj es2
        simp only [Prod.mk.injEq] at this
        exact ⟨this.1, this.2.1, this.2.2⟩
      have es' := es
      unfold FLeaf.split at es'
      obtain ⟨r, e1, es'⟩ := Res.bind_eq_ok.1 es'
      obtain ⟨sk', e2, es'⟩ := Res.bind_eq_ok.1 es'
      obtain ⟨⟨A', B'⟩, e3, es'⟩ := Res.bind_eq_ok.1 es'
      obtain ⟨rfl, rfl, rfl⟩ : A' = A ∧ B' = B ∧ sk' = sk := by
        have := Res.ok.inj es'
        simp only [Prod.mk.injEq] at this
        exact ⟨this.1, this.2.1, this.2.2⟩
      rw [e1, Res.ok_bind, e2, Res.ok_bind]
      dsimp only
      have hprog : ∀ t, crashSplit c s k t = applyHeap (s.heap.alloc (FLeaf.new c p)).1
          ((moveWrites l sk' id (s.heap.alloc (FLeaf.new c p)).2 0 0 p ++ linkWrites id (s.heap.alloc (FLeaf.new c p)).2 (s.heap.next id)).take t) := by
        intro t
        unfold crashSplit
        rw [a.find, Res.ok_bind, Heap.get_of a.data, Res.ok_bind, e1, Res.ok_bind, e2, Res.ok_bind]
      have hlen : (moveWrites l sk' id (s.heap.alloc (FLeaf.new c p)).2 0 0 p ++ linkWrites id (s.heap.alloc (FLeaf.new c p)).2 (s.heap.next id)).length =
          5 * (p / 2) + (if s.heap.next id = none then 2 else 4) := by
        rw [List.length_append, moveWrites_length, hlenI]
        cases s.heap.next id <;> rfl
      generalize (moveWrites l sk' id (s.heap.alloc (FLeaf.new c p)).2 0 0 p ++ linkWrites id (s.heap.alloc (FLeaf.new c p)).2 (s.heap.next id)) = ws at hprog hlen ⊢
      by_cases hW : t ≤ ws.length
      · obtain ⟨h, e4, hp4⟩ := k4 t
        rw [← hprog, e4, Res.ok_bind, if_pos hW]
        refine ⟨h, _, rfl, hp4, ?_⟩
        by_cases hL : 5 ≤ t ∧ t < 5 * (p / 2) + (if s.heap.next id = none then 1 else 3)
        · refine Or.inr (Or.inr ⟨⟨id, l, a.find, a.data, ep, hfz, hL⟩, moved.take (t / 5), k1.sublist (List.take_sublist _ _),
            by rw [List.length_take]; omega, fun x hx => ?_, fun x => ?_⟩)
          · have := ((k3 x).1 (List.mem_of_mem_take hx)).2
            rw [← hm x, a.look x (a.home x this)]
            exact this
          · simp only [hL.2, true_and]
        · left
          intro x
          have : ¬ (t < 5 * (p / 2) + (if s.heap.next id = none then 1 else 3) ∧ x ∈ moved.take (t / 5)) := by
            rintro ⟨h1, h2⟩
            have : t < 5 := by
              by_contra hc
              exact hL ⟨by omega, h1⟩
            rw [show t / 5 = 0 by omega] at h2
            simp at h2
          exact if_neg this
      · have hall : crashSplit c s k t = .ok hF := by
          rw [hprog, List.take_of_length_le (by omega)]
          have := k5 (t + 5 * (p / 2) + 4) (by omega)
          rw [hprog, List.take_of_length_le (by omega)] at this
          exact this
        have persF : Pers F hM hF first m := by
          obtain ⟨h, e4, hp4⟩ := k4 t
          rw [hall] at e4
          cases Res.ok.inj e4
          refine hp4.congr (fun x => if_neg ?_)
          rintro ⟨h1, _⟩
          split at h1 <;> rename_i hn <;> simp [hn] at hlen <;> omega
        rw [← hprog, hall, Res.ok_bind, if_neg hW]
        -- the leaves after the split
        obtain ⟨pre, post, hids⟩ := LeafOf.ids g a
        have wf := g.wf
        rw [hids] at wf
        have hidf : id < s.heap.fresh := wf.fresh id (by simp)
        obtain ⟨hF', eF', _, dataF, _⟩ := link_wf wf A' B'
        have eF2 : linkAfter ((s.heap.set id A').alloc B').1 id s.heap.fresh = .ok hF := eF
        rw [eF2] at eF'
        cases Res.ok.inj eF'
        have hdA : hF.data id = some A' := by rw [dataF]; simp [upd, Nat.ne_of_lt hidf]
        have hdB : hF.data s.heap.fresh = some B' := by rw [dataF]; simp [upd]
        obtain ⟨b, eb⟩ := goesRight_ok (c := c) A' hM sk' k
        rw [Heap.get_of hdA, Res.ok_bind, eb, Res.ok_bind]
        have hdz : hF.data (if b then (s.heap.alloc (FLeaf.new c p)).2 else id) = some (if b then B' else A') := by
          cases b
          · exact hdA
          · exact hdB
        rw [Heap.get_of hdz, Res.ok_bind]
        have hzok : FOk c.hash adm (if b then B' else A') := by cases b; exacts [okA, okB]
        have hzne : ∀ e ∈ (if b then B' else A').abs, e.1 ≠ k := by
          intro e he
          refine hne e ?_
          cases b
          · have he : e ∈ A'.abs := he
            rw [absA] at he; exact (List.mem_filter.1 he).1
          · have he : e ∈ B'.abs := he
            rw [absB] at he; exact (List.mem_filter.1 he).1
        have hzlen : (if b then B' else A').abs.length < p := by
          cases b
          · show A'.abs.length < p
            omega
          · show B'.abs.length < p
            omega
        obtain ⟨z', ez, hz⟩ := crash_points hzok hzlen hzne ha v (t - ws.length)
        have eh := applyHeap_leaf hdz ez
        rw [List.map_take] at eh
        rcases hz with ⟨_, h2, h3⟩ | ⟨h1, _⟩ | ⟨h1, _⟩
        · refine ⟨_, m, eh, persF.set hdz h2 ?_, Or.inl fun _ => rfl⟩
          unfold FLeaf.abs
          rw [h3]
        · exact absurd ⟨id, l, a.find, a.data, ep, Or.inr ⟨hfz, by omega⟩⟩ ht
        · have ez2 : (if b then B' else A').insertAt c (if b then B' else A').bits.getFreeZero k v = .ok z' := by
            rw [← insertAt_writes _ (free_slot hzlen).1, ← ez, List.take_of_length_le (by simp only [insertWrites, List.length_cons, List.length_nil]; omega)]
          obtain ⟨sk2, ei2⟩ := insert_full ep hfz es eb ez2
          rw [ei2, Res.ok_bind] at el
          dsimp only at el
          have el2 := linkAfter_data (a' := if b then A' else z') (b' := if b then z' else B') eF2
          have el3 : linkAfter ((s.heap.set id (if b then A' else z')).alloc (if b then z' else B')).1 id
              ((s.heap.set id (if b then A' else z')).alloc (if b then z' else B')).2 = _ := el2
          rw [el3, Res.ok_bind] at el
          have hh := congrArg Prod.fst (Res.ok.inj el)
          dsimp only at hh
          refine ⟨_, _, eh, ?_, Or.inr (Or.inl fun _ => rfl)⟩
          have : hF.set (if b then (s.heap.alloc (FLeaf.new c p)).2 else id) z' = s1.heap := by
            rw [← hh]
            refine Heap.ext' ?_ rfl rfl rfl
            simp only [Heap.set, dataF, Heap.alloc]
            funext q
            cases b
            · simp only [upd, Bool.false_eq_true, if_false]
              by_cases h1 : q = id
              · have : q ≠ s.heap.fresh := by omega
                simp [h1, Nat.ne_of_lt hidf]
              · simp [h1]
            · simp only [upd, if_true]
              by_cases h1 : q = s.heap.fresh
              · simp [h1]
              · simp [h1]
          rw [this]
          exact pers1
    · -- a free slot
      rw [if_neg hfz]
      have hfree : l.abs.length < p := by
        by_contra hc
        exact hfz (free_full hok.clean (full_of_length (not_lt.1 hc)))
      obtain ⟨l', e1, hl'⟩ := crash_points hok hfree hne ha v t
      have eh := applyHeap_leaf a.data e1
      rw [List.map_take] at eh
      rcases hl' with ⟨_, h2, h3⟩ | ⟨h1, _⟩ | ⟨h1, _⟩
      · refine ⟨_, m, eh, pers0.set a.data h2 ?_, Or.inl fun _ => rfl⟩
        unfold FLeaf.abs
        rw [h3]
      · exact absurd ⟨id, l, a.find, a.data, ep, Or.inl ⟨hfz, h1⟩⟩ ht
      · have e2 : l.insertAt c l.bits.getFreeZero k v = .ok l' := by
          rw [← insertAt_writes _ (free_slot hfree).1, ← e1, List.take_of_length_le (by simp only [insertWrites, List.length_cons, List.length_nil]; omega)]
        have e3 : l.insert c k v = .ok (.done l') := by
          unfold FLeaf.insert
          rw [ep, Res.ok_bind, if_neg (lt_irrefl _), if_neg hfz, e2, Res.ok_bind]; rfl
        rw [e3, Res.ok_bind] at el
        have hh : s1.heap = s.heap.set id l' := (congrArg Prod.fst (Res.ok.inj el)).symm
        exact ⟨_, _, eh, by rw [← hh]; exact pers1, Or.inr (Or.inl fun _ => rfl)⟩

end Verif.FPTree
