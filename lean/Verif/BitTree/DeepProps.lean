import Verif.BitTree.DeepErase

/-!
# C91, C92: erases in BitHPBPTree and BitPBPTree of any depth

`eraseFull` models the whole erase; C63 and its theorems are about trees of depth at most 1.  Handling an underflow of a branch
node works in one case, entries from the right neighbour, and if the root with its last two children is given up; the
other cases are shown to go wrong for all states that reach them.
-/

set_option linter.unusedSectionVars false

namespace Verif.BitTree

open Verif Search FPTree BTree

variable {K V : Type} {M N : Nat} {C : Type} [LinearOrder K] [Inhabited K] {c : Cfg K V} {adm : K → Prop} {R : K → Prop}

/-- A history answers like the map. -/
def FullAgrees (adm : K → Prop) (m : K → Option V) (ops : List (Op K V)) (r : Res (EStore c M × List Bool)) : Prop :=
  ∃ t, r = .ok (t, (spec ops m).2) ∧ ∀ k, adm k → t.lookup k = .ok ((spec ops m).1 k)

/-- C91. A history of inserts and erases answers like the map. -/
def C91_statement (N M : Nat) (mv : Bool) : Prop :=
  ∀ (jk jv : Nat → Int) (ops : List (Op Int Int)), (∀ o ∈ ops, 0 ≤ o.key ∧ o.key < 2 ^ 31 - 1) →
    FullAgrees (fun k => 0 ≤ k ∧ k < 2 ^ 31 - 1) (fun _ => none) ops (runFull ops (EStore.empty (cfgInt N mv jk jv) M))

/-! ## The same model -/

theorem upd_id {β : Type} {f : Nat → β} {i : Nat} {v : β} (h : f i = v) : upd f i v = f := by
  funext j
  by_cases hj : j = i
  · rw [hj, upd_same, h]
  · exact upd_ne hj

theorem kid_eq {b : Branch N K C} {p : Nat} {x : C} (e : b.kid p = .ok x) : b.kids p = some x := by
  unfold Branch.kid at e
  obtain ⟨o, e1, e2⟩ := Res.bind_eq_ok.1 e
  unfold rdA at e1
  split at e1
  · cases e1
    cases h : b.kids p with
    | none => rw [h] at e2; cases e2
    | some y => rw [h] at e2; cases e2; rfl
  · cases e1

theorem eraseFull_inl {d : Nat} {root : Branch c.N K (Tree c.N K d)} {heap h' : Heap M K V} {first : Nat} {dead dead' : List Nat} {k : K}
    {b : Branch c.N K (Tree c.N K d)} {r : Bool} (e : eraseNode c d true heap dead root k = .ok (h', dead', .inl b, r)) :
    EStore.eraseFull (⟨⟨d + 1, root, heap, first⟩, dead⟩ : EStore c M) k = .ok (⟨⟨d + 1, b, h', first⟩, dead'⟩, r) := by
  show (eraseNode c d true heap dead root k >>= _) = _
  rw [e]
  rfl

theorem eraseFull_inr {d : Nat} {root : Branch c.N K (Tree c.N K d)} {heap h' : Heap M K V} {first : Nat} {dead dead' : List Nat} {k : K}
    {t : Tree c.N K d} {r : Bool} (e : eraseNode c d true heap dead root k = .ok (h', dead', .inr t, r)) :
    EStore.eraseFull (⟨⟨d + 1, root, heap, first⟩, dead⟩ : EStore c M) k = .ok (⟨⟨d, t, h', first⟩, dead'⟩, r) := by
  show (eraseNode c d true heap dead root k >>= _) = _
  rw [e]
  rfl

theorem eraseAt_zero_ok {h : Heap M K V} {dead : List Nat} {id : Nat} {k : K} {z : Heap M K V × Bool × Bool}
    (e : eraseAt c 0 h dead id k = .ok z) : ∃ x l, deref h dead (some id) = .ok (id, x) ∧ x.leaf.erase k = .ok (l, z.2.1) ∧
      z.1 = h.set id { x with leaf := l } ∧ z.2.2 = decide (l.bits.count < middle M) := by
  have e : (deref h dead (some id) >>= fun z => z.2.leaf.erase k >>= fun w =>
    Res.ok (h.set z.1 { z.2 with leaf := w.1 }, w.2, decide (w.1.bits.count < middle M))) = .ok z := e
  obtain ⟨⟨id', x⟩, e1, e⟩ := Res.bind_eq_ok.1 e
  obtain ⟨⟨l, r⟩, e2, e⟩ := Res.bind_eq_ok.1 e
  cases e
  obtain rfl : id = id' := by
    unfold deref at e1
    rw [Res.ofOption_some, Res.ok_bind] at e1
    split at e1
    · cases e1
    · obtain ⟨y, _, e1⟩ := Res.bind_eq_ok.1 e1
      cases e1
      rfl
  exact ⟨x, l, e1, e2, rfl, rfl⟩

theorem eraseAt_succ_ok {d : Nat} {h h' : Heap M K V} {dead : List Nat} {b : Branch c.N K (Tree c.N K d)} {k : K} {r u : Bool}
    (e : eraseAt c (d + 1) h dead b k = .ok (h', r, u)) : ∃ p ch u', b.pos c.lim k = .ok p ∧ b.kid p = .ok ch ∧
      eraseAt c d h dead ch k = .ok (h', r, u') ∧ u = (u' || thin c d ch) := by
  have e : (b.pos c.lim k >>= fun p => b.kid p >>= fun ch => eraseAt c d h dead ch k >>= fun r =>
    Res.ok (r.1, r.2.1, r.2.2 || thin c d ch)) = .ok (h', r, u) := e
  obtain ⟨p, e1, f1⟩ := Res.bind_eq_ok.1 e
  obtain ⟨ch, e2, f2⟩ := Res.bind_eq_ok.1 f1
  obtain ⟨⟨h1, r1, u1⟩, e3, f3⟩ := Res.bind_eq_ok.1 f2
  injection f3 with f3
  obtain ⟨rfl, f4⟩ := Prod.mk.inj f3
  obtain ⟨rfl, f5⟩ := Prod.mk.inj f4
  exact ⟨p, ch, u1, e1, e2, e3, f5.symm⟩

theorem eraseNode_quiet {root : Bool} {h h' : Heap M K V} {dead : List Nat} {k : K} {r : Bool} : ∀ (d : Nat) (b : Branch c.N K (Tree c.N K d)),
    eraseAt c (d + 1) h dead b k = .ok (h', r, false) → eraseNode c d root h dead b k = .ok (h', dead, .inl b, r)
  | 0, b, e => by
    obtain ⟨p, ch', u, e1, e2, e3, hu⟩ := eraseAt_succ_ok e
    obtain ⟨ch, rfl⟩ : ∃ z : Nat, z = ch' := ⟨ch', rfl⟩
    obtain ⟨x, l, e4, e5, e6, e7⟩ := eraseAt_zero_ok e3
    have hu : false = (u || false) := hu
    rw [Bool.or_false] at hu
    have e7 : u = decide (l.bits.count < middle M) := e7
    have hf : ¬ l.bits.count < middle M := by rw [← hu] at e7; exact of_decide_eq_false e7.symm
    have e5 : x.leaf.erase k = .ok (l, r) := e5
    have e6 : h' = h.set ch { x with leaf := l } := e6
    refine (eraseNode_zero_eq root h dead b k).trans ?_
    have e1 : Branch.pos (C := Nat) c.lim b k = .ok p := e1
    have e2 : Branch.kid (C := Nat) b p = .ok ch := e2
    rw [e1, Res.ok_bind, e2, Res.ok_bind, e4, Res.ok_bind]
    dsimp only
    rw [e5, Res.ok_bind, if_neg hf, e6]
  | d + 1, b, e => by
    obtain ⟨p, ch, u, e1, e2, e3, hu⟩ := eraseAt_succ_ok e
    obtain ⟨ch, rfl⟩ : ∃ z : Branch c.N K (Tree c.N K d), z = ch := ⟨ch, rfl⟩
    have hu : false = (u || decide (ch.bits.count < (c.N + 1) / 2)) := hu
    obtain ⟨rfl, hf⟩ := Bool.or_eq_false_iff.1 hu.symm
    have hf := of_decide_eq_false hf
    refine (eraseNode_succ_eq root h dead b k).trans ?_
    have e1 : Branch.pos (C := Branch c.N K (Tree c.N K d)) c.lim b k = .ok p := e1
    have e2 : Branch.kid (C := Branch c.N K (Tree c.N K d)) b p = .ok ch := e2
    rw [e1, Res.ok_bind, e2, Res.ok_bind, eraseNode_quiet d ch e3, Res.ok_bind]
    dsimp only
    rw [if_neg hf]
    exact congrArg (fun kids => Res.ok (h', dead, Sum.inl (⟨Branch.bits b, Branch.keys b, kids⟩ : Branch c.N K (Branch c.N K (Tree c.N K d))), r))
      (upd_id (kid_eq e2))

/-- Where the erase of `Verif/BitTree/Erase.lean` says anything, `eraseFull` is the same. -/
theorem C91_same_model {t : EStore c M} {k : K} {t' : EStore c M} {r : Bool} (e : t.erase k = .ok (some (t', r))) :
    t.eraseFull k = .ok (t', r) := by
  obtain ⟨⟨d, root, heap, first⟩, dead⟩ := t
  match d, root, e with
  | 0, root, e =>
    have e : (eraseAt c 0 heap dead root k >>= fun r => Res.ok (some ((⟨⟨0, root, r.1, first⟩, dead⟩ : EStore c M), r.2.1))) = .ok (some (t', r)) := e
    obtain ⟨z, e1, e2⟩ := Res.bind_eq_ok.1 e
    obtain ⟨x, l, e4, e5, e6, _⟩ := eraseAt_zero_ok e1
    cases e2
    show (deref heap dead (some root) >>= fun z => z.2.leaf.erase k >>= fun w =>
      Res.ok ((⟨⟨0, root, heap.set z.1 { z.2 with leaf := w.1 }, first⟩, dead⟩ : EStore c M), w.2)) = _
    rw [e4, Res.ok_bind]
    dsimp only
    rw [e5, Res.ok_bind, e6]
  | 1, root, e =>
    have e : (eraseAt c 1 heap dead root k >>= fun r => if r.2.2 then (Branch.pos (C := Nat) c.lim root k >>= fun p => Branch.kid (C := Nat) root p >>= fun id =>
        underLeaf c r.1 dead root p id >>= fun u => (match u.root with
        | none => Res.ok (some ((⟨⟨1, u.node, u.heap, first⟩, u.dead⟩ : EStore c M), r.2.1))
        | some i => Res.ok (some (⟨⟨0, i, u.heap, first⟩, u.dead⟩, r.2.1))))
      else Res.ok (some (⟨⟨1, root, r.1, first⟩, dead⟩, r.2.1))) = .ok (some (t', r)) := e
    obtain ⟨⟨h1, r1, u1⟩, e1, e2⟩ := Res.bind_eq_ok.1 e
    cases u1 with
    | false =>
      simp only [Bool.false_eq_true, if_false] at e2
      cases e2
      exact eraseFull_inl (eraseNode_quiet 0 root e1)
    | true =>
      simp only [if_true] at e2
      obtain ⟨p, a1, e3⟩ := Res.bind_eq_ok.1 e2
      obtain ⟨id, a2, e4⟩ := Res.bind_eq_ok.1 e3
      obtain ⟨u, a3, e5⟩ := Res.bind_eq_ok.1 e4
      obtain ⟨p', ch, u', f1, f2, f3, hu⟩ := eraseAt_succ_ok e1
      obtain rfl : p = p' := by
        have f1 : Branch.pos (C := Nat) c.lim root k = .ok p' := f1
        rw [a1] at f1; injection f1
      obtain rfl : id = ch := by
        have f2 : Branch.kid (C := Nat) root p = .ok ch := f2
        rw [a2] at f2; injection f2
      obtain ⟨x, l, g4, g5, g6, g7⟩ := eraseAt_zero_ok f3
      have hu : true = (u' || false) := hu
      rw [Bool.or_false] at hu
      have g7 : u' = decide (l.bits.count < middle M) := g7
      have hf : l.bits.count < middle M := by rw [← hu] at g7; exact of_decide_eq_true g7.symm
      have g5 : x.leaf.erase k = .ok (l, r1) := g5
      have g6 : h1 = heap.set id { x with leaf := l } := g6
      have key : eraseNode c 0 true heap dead root k = (match u.root with
          | none => Res.ok (u.heap, u.dead, .inl u.node, r1)
          | some i => Res.ok (u.heap, u.dead, .inr i, r1)) := by
        refine (eraseNode_zero_eq true heap dead root k).trans ?_
        rw [a1, Res.ok_bind, a2, Res.ok_bind, g4, Res.ok_bind]
        dsimp only
        rw [g5, Res.ok_bind, if_pos hf]
        dsimp only
        rw [← g6, a3, Res.ok_bind]
        rfl
      cases hr : u.root with
      | none =>
        rw [hr] at key e5
        cases e5
        exact eraseFull_inl key
      | some i =>
        rw [hr] at key e5
        cases e5
        exact eraseFull_inr key
  | d + 2, root, e =>
    have e : (eraseAt c (d + 2) heap dead root k >>= fun r => if r.2.2 then Res.ok none
      else Res.ok (some ((⟨⟨d + 2, root, r.1, first⟩, dead⟩ : EStore c M), r.2.1))) = .ok (some (t', r)) := e
    obtain ⟨⟨h1, r1, u1⟩, e1, e2⟩ := Res.bind_eq_ok.1 e
    cases u1 with
    | true => simp at e2
    | false =>
      simp only [Bool.false_eq_true, if_false] at e2
      cases e2
      exact eraseFull_inl (eraseNode_quiet (d + 1) root e1)

/-! ## Histories -/

/-- The underflows of an erase, if there are any, are handled rightly. -/
def gentle : EStore c M → K → Bool
  | ⟨⟨0, _, _, _⟩, _⟩, _ => true
  | ⟨⟨d + 1, root, heap, _⟩, dead⟩, k => tameNode c d true heap dead root k

theorem eraseFull_law (F : Laws c adm) {t : EStore c M} (ht : EOk adm t) {k : K} (hk : adm k) (hg : gentle t k = true) :
    ∃ t' r, t.eraseFull k = .ok (t', r) ∧ EOk adm t' ∧ (r = true ↔ ∃ v, t.st.Has k v) ∧
      ∀ x y, t'.st.Has x y ↔ Del t.st.Has k x y := by
  obtain ⟨⟨d, root, heap, first⟩, dead⟩ := t
  match d, root, ht, hg with
  | 0, root, ht, hg =>
    obtain ⟨t', r, e, g⟩ := erase_quiet_law F ht hk rfl
    exact ⟨t', r, C91_same_model e, g⟩
  | d + 1, root, ht, hg =>
    obtain ⟨h', dead', o, r, e, post, hr, _⟩ := eraseNode_law F d adm true heap dead root k (fun _ h => h) ht.tok.ok ht.tok.link ht.dead hk hg
    have hd : ∀ i ∈ dead', i < h'.length ∧ i ∉ fpS d o := by
      intro i hi
      rw [post.len]
      rcases post.dead i hi with h1 | ⟨h1, h2⟩
      · exact ⟨(ht.dead i h1).1, fun h => (ht.dead i h1).2 (post.sub i h)⟩
      · exact ⟨fp_lt (d + 1) root adm ht.tok.ok i h1, h2⟩
    cases o with
    | inl b => exact ⟨_, r, eraseFull_inl e, ⟨⟨post.ok, post.link⟩, hd⟩, hr, post.has⟩
    | inr t => exact ⟨_, r, eraseFull_inr e, ⟨⟨post.ok, post.link⟩, hd⟩, hr, post.has⟩

/-- Every erase of the history comes without an underflow or with ones that are handled rightly. -/
def tameFull : List (Op K V) → EStore c M → Bool
  | [], _ => true
  | .ins k v :: ops, t =>
    match t.insert k v with
    | .ok t => tameFull ops t
    | _ => true
  | .del k :: ops, t =>
    gentle t k &&
      match t.eraseFull k with
      | .ok (t, _) => tameFull ops t
      | _ => true

theorem runFull_tame (F : Laws c adm) (hM : 2 ≤ M) (hm : c.move = false → M % 64 ≠ 0) (hN : 2 ≤ c.N) (hN64 : c.N % 64 ≠ 0) :
    ∀ (ops : List (Op K V)) (t : EStore c M) (m : K → Option V), EOk adm t → (∀ k v, t.st.Has k v ↔ m k = some v) →
      (∀ o ∈ ops, adm o.key) → tameFull ops t = true → FullAgrees adm m ops (runFull ops t)
  | [], t, m, ht, hh, _, _ => by
    refine ⟨_, rfl, fun k hk => ?_⟩
    obtain ⟨r, e, hr⟩ := eok_lookup F ht hk
    rw [e]
    congr 1
    show r = m k
    apply Option.ext
    intro v
    rw [hr, hh]
  | .ins k v :: ops, t, m, ht, hh, ha, hc => by
    have hk : adm k := ha (.ins k v) (by simp)
    obtain ⟨t', e', g1, g2⟩ := eok_insert F hM hm hN hN64 ht hk v
    rw [tameFull, e'] at hc
    rw [runFull, e', Res.ok_bind]
    refine runFull_tame F hM hm hN hN64 ops t' (fun x => if x = k then some v else m x) g1 (fun x w => ?_)
      (fun o ho => ha o (List.mem_cons_of_mem _ ho)) hc
    rw [g2]
    unfold Ups
    by_cases hx : x = k
    · simp [hx, eq_comm]
    · simp [hx, hh]
  | .del k :: ops, t, m, ht, hh, ha, hc => by
    have hk : adm k := ha (.del k) (by simp)
    rw [tameFull, Bool.and_eq_true] at hc
    obtain ⟨t1, r, e1, g1, g2, g3⟩ := eraseFull_law F ht hk hc.1
    have hc2 := hc.2
    rw [e1] at hc2
    obtain ⟨t', er, hl⟩ := runFull_tame F hM hm hN hN64 ops t1 (fun x => if x = k then none else m x) g1
      (fun x w => by
        rw [g3]
        unfold Del
        by_cases hx : x = k
        · simp [hx]
        · simp [hx, hh])
      (fun o ho => ha o (List.mem_cons_of_mem _ ho)) hc2
    refine ⟨t', ?_, hl⟩
    rw [runFull, e1, Res.ok_bind]
    simp only
    rw [er]
    show Res.ok (t', r :: _) = _
    have : r = (m k).isSome := by
      rw [Bool.eq_iff_iff, g2, Option.isSome_iff_exists]
      exact exists_congr fun v => hh k v
    rw [this]
    rfl

end Verif.BitTree
