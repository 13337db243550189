import Verif.WoSkip.CrashInsert
import Verif.WoSkip.Props
import Verif.CrashSpec

/-!
# Properties of woPSkiplist under crashes (C100, C101)
-/

set_option linter.unusedSectionVars false

namespace Verif.WoSkipProps

open Verif Search FPTree WoSkip MapSpec CrashSpec
open Verif.SkipListProps (Ins ops news InRange)

variable {K V : Type} [LinearOrder K] [Inhabited K] {N M : Nat}

/-- The map without the keys `ks`. -/
def without (m : K → Option V) (ks : List K) : K → Option V := fun x => if x ∈ ks then none else m x

theorem run_snoc (m : K → Option V) (is : List (Ins K V)) (i : Ins K V) :
    run m (ops (is ++ [i])) = ins (run m (ops is)) i.key i.val := by
  unfold ops
  rw [List.map_append, run_append]
  rfl

/-- All assignments together are the insert. -/
theorem writes_all {c : WCfg K V} {adm : K → Prop} (F : FLaws c.f adm) (hN : 2 ≤ N) (hM : 2 ≤ M) {r0 : Nat} (h0 : r0 < M)
    {is : List (Ins K V)} (hr : InRange M is) (ha : ∀ i ∈ is, adm i.key) {i : Ins K V} (hir : i.rnd < M) (hia : adm i.key)
    {bs : List Bool} {s : WL N K V} (e : build c N M r0 is = .ok (bs, s)) :
    ∃ b ws, insertWrites c M s i.key i.val i.rnd = .ok (b, ws) ∧
      WoSkip.insert c M s i.key i.val i.rnd = .ok (b, applyAll s ws) := by
  obtain ⟨s', lst, D, e', I, h⟩ := build_ok F hN hM h0 is hr ha
  rw [e] at e'
  obtain ⟨rfl, rfl⟩ := Prod.mk.inj (Res.ok.inj e')
  obtain ⟨ws, e1, e2, _⟩ := I.insert_along F hN hM h hia i.val hir
  exact ⟨_, ws, e1, e2⟩

/-! ## C100 -/

/-- C100 in full: a crash at any point inside `insert` leaves the lookups as before or as after the insert. -/
def C100_statement (N M : Nat) : Prop :=
  ∀ (r0 : Nat) (is : List (Ins Int Nat)) (i : Ins Int Nat) (q : Nat) (bs : List Bool) (s : WL N Int Nat), r0 < M →
    InRange M is → i.rnd < M → (∀ j ∈ is, 0 ≤ j.key ∧ j.key < 2 ^ 31) → 0 ≤ i.key ∧ i.key < 2 ^ 31 →
    build (woInt (fun _ => 0) (fun _ => 0)) N M r0 is = .ok (bs, s) →
    ∃ s', crashInsert (woInt (fun _ => 0) (fun _ => 0)) M s i.key i.val i.rnd q = .ok s' ∧
      BeforeOrAfter (search M s') (run empty (ops is)) (run empty (ops (is ++ [i])))

/-- C100 for every key type whose conversion to `size_t` and back preserves the admitted keys and their order: the
lookups after a crash are those before or those after the insert; or else the insert splits a node, and some, but fewer
than `N`, stored keys are missing.  Missing: atomicity of inserts that split a node (false, `C100_refuted`). -/
theorem C100_insert_gen {c : WCfg K V} {adm : K → Prop} (F : FLaws c.f adm) (N M : Nat) (hN : 2 ≤ N) (hM : 2 ≤ M)
    (r0 : Nat) (h0 : r0 < M) (is : List (Ins K V)) (hr : InRange M is) (ha : ∀ i ∈ is, adm i.key)
    (i : Ins K V) (hir : i.rnd < M) (hia : adm i.key) (bs : List Bool) (s : WL N K V) (e : build c N M r0 is = .ok (bs, s))
    (q : Nat) :
    ∃ s', crashInsert c M s i.key i.val i.rnd q = .ok s' ∧
      (BeforeOrAfter (search M s') (run empty (ops is)) (run empty (ops (is ++ [i]))) ∨
        (∃ b s2, WoSkip.insert c M s i.key i.val i.rnd = .ok (b, s2) ∧ s2.nodeCount = s.nodeCount + 1) ∧
        ∃ ks : List K, 0 < ks.length ∧ ks.length < N ∧ ks.Nodup ∧ (∀ x ∈ ks, (run empty (ops is) x).isSome) ∧
          Reads (search M s') (without (run empty (ops is)) ks)) := by
  obtain ⟨s1, lst, D, e', I, h⟩ := build_ok F hN hM h0 is hr ha
  rw [e] at e'
  obtain ⟨rfl, rfl⟩ := Prod.mk.inj (Res.ok.inj e')
  obtain ⟨ws, e1, e2, hcase⟩ := I.insert_along F hN hM h hia i.val hir
  refine ⟨applyAll s (ws.take q), by unfold crashInsert; rw [e1]; rfl, ?_⟩
  rw [run_snoc]
  have hmid : ∀ (X : Prop) (s' : WL N K V), Mid adm M (run empty (ops is)) i.key i.val X s' →
      BeforeOrAfter (search M s') (run empty (ops is)) (ins (run empty (ops is)) i.key i.val) := by
    rintro X s' (⟨_, _, _, J, hs⟩ | ⟨_, _, _, J, hs⟩ | ⟨_, _, _, _, _, _, W, _⟩)
    · exact Or.inl fun k => J.search hs k
    · exact Or.inr fun k => J.search hs k
    · exact Or.inl fun k => W.search k
  rcases hcase with ⟨_, hal⟩ | ⟨hc, ks, h1, h2, h3, h4, hal, _⟩
  · exact Or.inl (hmid _ _ (hal q))
  · rcases hal q with hm | ⟨_, _, _, J, hs⟩
    · exact Or.inl (hmid _ _ hm)
    · exact Or.inr ⟨⟨_, _, e2, hc⟩, ks, h1, h2, h3, h4, fun k => J.search hs k⟩

/-- C100 for non-negative keys. -/
theorem C100_insert_partial (N M : Nat) (hN : 2 ≤ N) (hM : 2 ≤ M) (jk : Nat → Int) (jv : Nat → V)
    (r0 : Nat) (h0 : r0 < M) (is : List (Ins Int V)) (hr : InRange M is) (ha : ∀ i ∈ is, 0 ≤ i.key ∧ i.key < 2 ^ 31)
    (i : Ins Int V) (hir : i.rnd < M) (hia : 0 ≤ i.key ∧ i.key < 2 ^ 31) (bs : List Bool) (s : WL N Int V)
    (e : build (woInt jk jv) N M r0 is = .ok (bs, s)) (q : Nat) :
    ∃ s', crashInsert (woInt jk jv) M s i.key i.val i.rnd q = .ok s' ∧
      (BeforeOrAfter (search M s') (run empty (ops is)) (run empty (ops (is ++ [i]))) ∨
        (∃ b s2, WoSkip.insert (woInt jk jv) M s i.key i.val i.rnd = .ok (b, s2) ∧ s2.nodeCount = s.nodeCount + 1) ∧
        ∃ ks : List Int, 0 < ks.length ∧ ks.length < N ∧ ks.Nodup ∧ (∀ x ∈ ks, (run empty (ops is) x).isSome) ∧
          Reads (search M s') (without (run empty (ops is)) ks)) :=
  C100_insert_gen (flaws jk jv) N M hN hM r0 h0 is hr ha i hir hia bs s e q

/-- Every insert that splits a node has a crash point at which stored keys are lost. -/
theorem C100_lost {c : WCfg K V} {adm : K → Prop} (F : FLaws c.f adm) (N M : Nat) (hN : 2 ≤ N) (hM : 2 ≤ M)
    (r0 : Nat) (h0 : r0 < M) (is : List (Ins K V)) (hr : InRange M is) (ha : ∀ i ∈ is, adm i.key)
    (i : Ins K V) (hir : i.rnd < M) (hia : adm i.key) (bs : List Bool) (s : WL N K V) (e : build c N M r0 is = .ok (bs, s))
    {b : Bool} {s2 : WL N K V} (e2 : WoSkip.insert c M s i.key i.val i.rnd = .ok (b, s2)) (hc : s2.nodeCount ≠ s.nodeCount) :
    ∃ q s' x, crashInsert c M s i.key i.val i.rnd q = .ok s' ∧ (run empty (ops is) x).isSome ∧ search M s' x = .ok none := by
  obtain ⟨s1, lst, D, e', I, h⟩ := build_ok F hN hM h0 is hr ha
  rw [e] at e'
  obtain ⟨rfl, rfl⟩ := Prod.mk.inj (Res.ok.inj e')
  obtain ⟨ws, e1, e3, hcase⟩ := I.insert_along F hN hM h hia i.val hir
  rw [e3] at e2
  obtain ⟨_, rfl⟩ := Prod.mk.inj (Res.ok.inj e2)
  rcases hcase with ⟨h1, _⟩ | ⟨_, ks, h1, _, _, h4, _, q, _, _, _, J, hs⟩
  · exact absurd h1 hc
  · obtain ⟨x, hx⟩ := List.exists_mem_of_length_pos h1
    refine ⟨q, _, x, by unfold crashInsert; rw [e1]; rfl, h4 x hx, ?_⟩
    rw [J.search hs x, cut, if_pos hx]

/-- Four inserts fill the node. -/
def fullOps : List (Ins Int Nat) := [⟨10, 1, 0⟩, ⟨20, 2, 0⟩, ⟨30, 3, 0⟩, ⟨40, 4, 0⟩]

/-- The keys found after a crash behind `q` assignments of the insert of key 25 that splits the node. -/
def fullCrash (q : Nat) : Res (List (Option Nat)) := do
  let r ← build (woInt (fun _ => 0) (fun _ => 0)) 4 4 0 fullOps
  let s ← crashInsert (woInt (fun _ => 0) (fun _ => 0)) 4 r.2 25 5 2 q
  [10, 20, 25, 30, 40].mapM fun k => search 4 s k

/-- Before the insert; 30 and 40 are lost; before the insert; after the insert. -/
def fullStates : List (Res (List (Option Nat))) :=
  List.replicate 11 (.ok [some 1, some 2, none, some 3, some 4]) ++ List.replicate 4 (.ok [some 1, some 2, none, none, none]) ++
  List.replicate 4 (.ok [some 1, some 2, none, some 3, some 4]) ++ List.replicate 7 (.ok [some 1, some 2, some 5, some 3, some 4])

set_option maxRecDepth 100000 in
theorem fullCrash_eq : (List.range 26).map fullCrash = fullStates := by decide +kernel

set_option maxRecDepth 100000 in
theorem full_lost : (do
    let r ← build (woInt (fun _ => 0) (fun _ => 0)) 4 4 0 fullOps
    let s ← crashInsert (woInt (fun _ => 0) (fun _ => 0)) 4 r.2 25 5 2 11
    search 4 s 30) = .ok none := by decide +kernel

/-- C100 is false: the upper half of a node that is being split is lost until the new node is linked. -/
theorem C100_refuted : ¬ C100_statement 4 4 := by
  intro h
  obtain ⟨s, e, _⟩ := C29_insert_search_partial 4 4 (by omega) (by omega) (fun _ => 0) (fun _ => 0) 0 (by omega) fullOps
    (by simp [InRange, fullOps]) (by simp [fullOps])
  obtain ⟨s', e', hs⟩ := h 0 fullOps ⟨25, 5, 2⟩ 11 _ s (by omega) (by simp [InRange, fullOps]) (by decide)
    (by simp [fullOps]) (by decide) e
  have h1 := full_lost
  rw [e, Res.ok_bind, e', Res.ok_bind] at h1
  rcases hs with h2 | h2
  · rw [h2 30] at h1; exact absurd h1 (by decide)
  · rw [h2 30] at h1; exact absurd h1 (by decide)

/-! ## C101 -/

/-- C101 in full: after a crash at any point inside `insert`, the list behaves in every further history as a map whose
contents are those found by lookups after the crash. -/
def C101_statement (N M : Nat) : Prop :=
  ∀ (r0 : Nat) (is : List (Ins Int Nat)) (i : Ins Int Nat) (q : Nat) (bs : List Bool) (s s' : WL N Int Nat)
    (is' : List (Ins Int Nat)) (m : Int → Option Nat), r0 < M → InRange M is → i.rnd < M → InRange M is' →
    (∀ j ∈ is, 0 ≤ j.key ∧ j.key < 2 ^ 31) → 0 ≤ i.key ∧ i.key < 2 ^ 31 → (∀ j ∈ is', 0 ≤ j.key ∧ j.key < 2 ^ 31) →
    build (woInt (fun _ => 0) (fun _ => 0)) N M r0 is = .ok (bs, s) →
    crashInsert (woInt (fun _ => 0) (fun _ => 0)) M s i.key i.val i.rnd q = .ok s' → Reads (search M s') m →
    ∃ s2, execAll (woInt (fun _ => 0) (fun _ => 0)) M s' is' = .ok (news m is', s2) ∧ Reads (search M s2) (run m (ops is'))

/-- `printList` shows only entries within the bounds of their nodes. -/
def Bounded (M : Nat) (s : WL N K V) : Prop :=
  ∃ l, levelList M s 0 = .ok l ∧ ∀ n ∈ l, ∀ e ∈ n.2.2, n.1 ≤ e.1 ∧ e.1 ≤ n.2.1

/-- C101 for every key type as above, if `printList` shows after the crash only entries within the bounds of their
nodes.  Missing: crashes between the bit of the new entry and the bounds (false, `C101_refuted`). -/
theorem C101_usable_gen {c : WCfg K V} {adm : K → Prop} (F : FLaws c.f adm) (N M : Nat) (hN : 2 ≤ N) (hM : 2 ≤ M)
    (r0 : Nat) (h0 : r0 < M) (is : List (Ins K V)) (hr : InRange M is) (ha : ∀ i ∈ is, adm i.key)
    (i : Ins K V) (hir : i.rnd < M) (hia : adm i.key) (bs : List Bool) (s s' : WL N K V) (e : build c N M r0 is = .ok (bs, s))
    (q : Nat) (ec : crashInsert c M s i.key i.val i.rnd q = .ok s') (hb : Bounded M s') (m : K → Option V)
    (hm : Reads (search M s') m) (is' : List (Ins K V)) (hr' : InRange M is') (ha' : ∀ i ∈ is', adm i.key) :
    ∃ s2, execAll c M s' is' = .ok (news m is', s2) ∧ Reads (search M s2) (run m (ops is')) := by
  obtain ⟨s1, lst, D, e', I, h⟩ := build_ok F hN hM h0 is hr ha
  rw [e] at e'
  obtain ⟨rfl, rfl⟩ := Prod.mk.inj (Res.ok.inj e')
  obtain ⟨ws, e1, e2, hcase⟩ := I.insert_along F hN hM h hia i.val hir
  unfold crashInsert at ec
  rw [e1, Res.ok_bind] at ec
  have ec : applyAll s (ws.take q) = s' := Res.ok.inj ec
  have hok : ∀ m', OkS adm M m' s' →
      ∃ s2, execAll c M s' is' = .ok (news m is', s2) ∧ Reads (search M s2) (run m (ops is')) := by
    rintro m' ⟨_, lst', D', J, hs⟩
    have : m' = m := funext fun k => Res.ok.inj ((J.search hs k).symm.trans (hm k))
    subst this
    obtain ⟨s2, _, _, e3, J2, hs2⟩ := execAll_ok F hN hM is' s' _ lst' D' J hs hr' ha'
    exact ⟨s2, e3, fun k => J2.search hs2 k⟩
  have hmid : ∀ (X : Prop), Mid adm M (run empty (ops is)) i.key i.val X s' →
      ∃ s2, execAll c M s' is' = .ok (news m is', s2) ∧ Reads (search M s2) (run m (ops is')) := by
    rintro X (h | h | ⟨_, lst', D', t, A, B, W, _⟩)
    · exact hok _ h
    · exact hok _ h
    · exfalso
      obtain ⟨l, hl, hb⟩ := hb
      rw [W.inv.levelList (by omega)] at hl
      have := hb _ (by rw [← Res.ok.inj hl]; exact List.mem_map_of_mem W.tgt.mem) (i.key, i.val)
        ((abs_perm _).mem_iff.1 W.mem)
      exact W.out this
  rcases hcase with ⟨_, hal⟩ | ⟨hc, ks, h1, h2, h3, h4, hal, _⟩
  · have := hal q; rw [ec] at this; exact hmid _ this
  · have := hal q
    rw [ec] at this
    rcases this with hm | hm
    · exact hmid _ hm
    · exact hok _ hm

/-- C101 for non-negative keys, if `printList` shows after the crash only entries within the bounds of their nodes. -/
theorem C101_usable_partial (N M : Nat) (hN : 2 ≤ N) (hM : 2 ≤ M) (jk : Nat → Int) (jv : Nat → V)
    (r0 : Nat) (h0 : r0 < M) (is : List (Ins Int V)) (hr : InRange M is) (ha : ∀ i ∈ is, 0 ≤ i.key ∧ i.key < 2 ^ 31)
    (i : Ins Int V) (hir : i.rnd < M) (hia : 0 ≤ i.key ∧ i.key < 2 ^ 31) (bs : List Bool) (s s' : WL N Int V)
    (e : build (woInt jk jv) N M r0 is = .ok (bs, s)) (q : Nat)
    (ec : crashInsert (woInt jk jv) M s i.key i.val i.rnd q = .ok s') (hb : Bounded M s') (m : Int → Option V)
    (hm : Reads (search M s') m) (is' : List (Ins Int V)) (hr' : InRange M is') (ha' : ∀ i ∈ is', 0 ≤ i.key ∧ i.key < 2 ^ 31) :
    ∃ s2, execAll (woInt jk jv) M s' is' = .ok (news m is', s2) ∧ Reads (search M s2) (run m (ops is')) :=
  C101_usable_gen (flaws jk jv) N M hN hM r0 h0 is hr ha i hir hia bs s s' e q ec hb m hm is' hr' ha'

/-- If a crash inside an insert that splits no node leaves an entry outside the bounds of its node, all further attempts to
insert the key report an update, and the key is never found. -/
theorem C101_stuck {c : WCfg K V} {adm : K → Prop} (F : FLaws c.f adm) (N M : Nat) (hN : 2 ≤ N) (hM : 2 ≤ M)
    (r0 : Nat) (h0 : r0 < M) (is : List (Ins K V)) (hr : InRange M is) (ha : ∀ i ∈ is, adm i.key)
    (i : Ins K V) (hir : i.rnd < M) (hia : adm i.key) (bs : List Bool) (s s' : WL N K V) (e : build c N M r0 is = .ok (bs, s))
    {b : Bool} {s2 : WL N K V} (e2 : WoSkip.insert c M s i.key i.val i.rnd = .ok (b, s2)) (hc : s2.nodeCount = s.nodeCount)
    (q : Nat) (ec : crashInsert c M s i.key i.val i.rnd q = .ok s') (hb : ¬ Bounded M s')
    (is' : List (Ins K V)) (hk : ∀ j ∈ is', j.key = i.key) :
    ∃ s3, execAll c M s' is' = .ok (is'.map fun _ => false, s3) ∧ Reads (search M s3) (run empty (ops is)) ∧
      run empty (ops is) i.key = none := by
  obtain ⟨s1, lst, D, e', I, h⟩ := build_ok F hN hM h0 is hr ha
  rw [e] at e'
  obtain ⟨rfl, rfl⟩ := Prod.mk.inj (Res.ok.inj e')
  obtain ⟨ws, e1, e3, hcase⟩ := I.insert_along F hN hM h hia i.val hir
  rw [e3] at e2
  obtain ⟨_, rfl⟩ := Prod.mk.inj (Res.ok.inj e2)
  unfold crashInsert at ec
  rw [e1, Res.ok_bind] at ec
  have ec : applyAll s (ws.take q) = s' := Res.ok.inj ec
  rcases hcase with ⟨_, hal⟩ | ⟨h1, _⟩
  swap
  · omega
  have := hal q
  rw [ec] at this
  have hno : ∀ m', OkS adm M m' s' → False := by
    rintro m' ⟨_, lst', D', J, hs⟩
    refine hb ⟨_, J.levelList (by omega), ?_⟩
    intro n hn e he
    obtain ⟨a, ha, rfl⟩ := List.mem_map.1 hn
    exact (J.nodes a ha).2.bnd e ((abs_perm _).mem_iff.2 he)
  rcases this with h1 | h1 | W
  · exact (hno _ h1).elim
  · exact (hno _ h1).elim
  · have : ∀ (is' : List (Ins K V)) (s' : WL N K V) (v : V), (∀ j ∈ is', j.key = i.key) →
        Weak adm M (run empty (ops is)) i.key v True s' → ∃ s3 v', execAll c M s' is' = .ok (is'.map fun _ => false, s3) ∧
          Weak adm M (run empty (ops is)) i.key v' True s3 := by
      intro is'
      induction is' with
      | nil => exact fun s' v _ W => ⟨s', v, rfl, W⟩
      | cons j js ih =>
        intro s' v hk W
        obtain ⟨s4, e4, W4⟩ := W.retry (c := c) trivial j.val j.rnd
        obtain ⟨s5, v', e5, W5⟩ := ih s4 _ (fun x hx => hk x (List.mem_cons_of_mem _ hx)) W4
        refine ⟨s5, v', ?_, W5⟩
        rw [execAll, hk j (by simp), e4, Res.ok_bind]
        dsimp only
        rw [show execAll c M s4 js = _ from e5, Res.ok_bind]
        rfl
    obtain ⟨s3, v', e4, _, _, _, _, _, _, W3, _⟩ := this is' s' _ hk W
    exact ⟨s3, e4, fun k => W3.search k, W3.new⟩

/-- A crash between the bit and the bounds; the insert is repeated twice. -/
def stuckRun : Res (Option Nat × List Bool × Option Nat × List (Int × Int × List (Int × Nat))) := do
  let r ← build (woInt (fun _ => 0) (fun _ => 0)) 4 4 0 [⟨10, 1, 0⟩, ⟨20, 2, 0⟩]
  let s ← crashInsert (woInt (fun _ => 0) (fun _ => 0)) 4 r.2 30 3 0 3
  let v ← search 4 s 30
  let r ← execAll (woInt (fun _ => 0) (fun _ => 0)) 4 s [⟨30, 3, 0⟩, ⟨30, 4, 0⟩]
  let v' ← search 4 r.2 30
  let l ← levelList 4 r.2 0
  pure (v, r.1, v', l)

set_option synthInstance.maxHeartbeats 400000 in
set_option synthInstance.maxSize 2000 in
set_option maxRecDepth 100000 in
theorem stuckRun_eq : stuckRun = .ok (none, [false, false], none, [(10, 20, [(10, 1), (20, 2), (30, 4)])]) := by decide +kernel

/-- A crash between the bit and the bounds in an insert that splits a node.  The insert of 25 is repeated with another value
and is successful; then a split brings the old value back. -/
def staleRun : Res (Option Nat × List Bool × Option Nat × Option Nat) := do
  let r ← build (woInt (fun _ => 0) (fun _ => 0)) 4 4 0 fullOps
  let s ← crashInsert (woInt (fun _ => 0) (fun _ => 0)) 4 r.2 25 5 2 18
  let v0 ← search 4 s 25
  let r ← execAll (woInt (fun _ => 0) (fun _ => 0)) 4 s [⟨25, 7, 2⟩, ⟨5, 8, 2⟩]
  let v1 ← search 4 r.2 25
  let r2 ← execAll (woInt (fun _ => 0) (fun _ => 0)) 4 r.2 [⟨6, 9, 2⟩]
  let v2 ← search 4 r2.2 25
  pure (v0, r.1 ++ r2.1, v1, v2)

set_option maxRecDepth 100000 in
theorem staleRun_eq : staleRun = .ok (none, [true, true, true], some 7, some 5) := by decide +kernel

set_option maxRecDepth 100000 in
theorem retry_false : (do
    let r ← build (woInt (fun _ => 0) (fun _ => 0)) 4 4 0 [⟨10, 1, 0⟩, ⟨20, 2, 0⟩]
    let s ← crashInsert (woInt (fun _ => 0) (fun _ => 0)) 4 r.2 30 3 0 3
    let v ← search 4 s 30
    let r ← execAll (woInt (fun _ => 0) (fun _ => 0)) 4 s [⟨30, 3, 0⟩]
    pure (v, r.1)) = .ok (none, [false]) := by decide +kernel

/-- C101 is false: after a crash between the bit of the new entry and the bounds, repeating the insert has no effect. -/
theorem C101_refuted : ¬ C101_statement 4 4 := by
  intro h
  have hin : InRange 4 ([⟨10, 1, 0⟩, ⟨20, 2, 0⟩] : List (Ins Int Nat)) := by simp [InRange]
  have hadm : ∀ j ∈ ([⟨10, 1, 0⟩, ⟨20, 2, 0⟩] : List (Ins Int Nat)), 0 ≤ j.key ∧ j.key < 2 ^ 31 := by simp
  obtain ⟨s, e, _⟩ := C29_insert_search_partial 4 4 (by omega) (by omega) (fun _ => 0) (fun _ => 0) 0 (by omega) _ hin hadm
  obtain ⟨s', e', hs⟩ := C100_insert_partial 4 4 (by omega) (by omega) (fun _ => 0) (fun _ => 0) 0 (by omega) _ hin hadm
    ⟨30, 3, 0⟩ (by decide) (by decide) _ s e 3
  have h1 := retry_false
  rw [e, Res.ok_bind, e', Res.ok_bind] at h1
  have hm : ∃ m, Reads (search 4 s') m := by
    rcases hs with (h2 | h2) | ⟨_, ks, _, _, _, _, h2⟩
    · exact ⟨_, h2⟩
    · exact ⟨_, h2⟩
    · exact ⟨_, h2⟩
  obtain ⟨m, hm⟩ := hm
  obtain ⟨s2, e2, _⟩ := h 0 _ ⟨30, 3, 0⟩ 3 _ s s' [⟨30, 3, 0⟩] m (by omega) hin (by decide) (by simp [InRange]) hadm (by decide)
    (by simp) e e' hm
  rw [hm 30, Res.ok_bind, e2, Res.ok_bind] at h1
  have h3 := Prod.mk.inj (Res.ok.inj h1)
  have h4 := h3.2
  simp only [news, h3.1] at h4
  exact absurd h4 (by simp)

/-- The further history of the example: a crash in the middle of the split (30 and 40 are lost), after which the list shows
only entries within bounds and takes further inserts. -/
def usableRun : Res (List Bool × List (Option Nat) × List (Int × Int × List (Int × Nat))) := do
  let r ← build (woInt (fun _ => 0) (fun _ => 0)) 4 4 0 fullOps
  let s ← crashInsert (woInt (fun _ => 0) (fun _ => 0)) 4 r.2 25 5 2 13
  let l ← levelList 4 s 0
  let r ← execAll (woInt (fun _ => 0) (fun _ => 0)) 4 s [⟨25, 7, 2⟩, ⟨30, 8, 2⟩, ⟨5, 9, 3⟩, ⟨10, 11, 0⟩]
  let vs ← [5, 10, 20, 25, 30, 40].mapM fun k => search 4 r.2 k
  pure (r.1, vs, l)

set_option synthInstance.maxHeartbeats 400000 in
set_option synthInstance.maxSize 2000 in
set_option maxRecDepth 100000 in
theorem usableRun_eq : usableRun = .ok ([true, true, true, false], [some 9, some 11, some 2, some 7, some 8, none],
    [(10, 20, [(10, 1), (20, 2)])]) := by decide +kernel

end Verif.WoSkipProps
