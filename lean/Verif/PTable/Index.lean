import Verif.PTable.TableProps
import Verif.BTree.Props

/-!
# The table over its index

PTable.hpp:207 `IndexType` is `PBPTree<KeyType, PTuple, BRANCHKEYS, LEAFKEYS>`.  `Table.lean` has a finite map in its place.
Here the functions of the table call the model of the tree.
-/

namespace Verif.PTable

open Verif.BTree (State SLeaf Iter PB pbCfg execAll)
open Verif.MapSpec (empty ErasesPresent outs)

/-- The index. -/
abbrev Ix := State Int (SLeaf Int Handle)

/-- PTable.hpp:66: keys of a branch node of the index. -/
def branchKeys : Nat := (4096 - 16) / (4 + 8) / 2 * 2

/-- PTable.hpp:67: keys of a leaf of the index; `sz` is the size of a `PTuple`. -/
def leafKeys (sz : Nat) : Nat := (4096 - 24) / (4 + sz)

/-- A table and its index; the field `index` of `Tbl` is not used. -/
structure XTbl where
  tbl : Tbl
  ix : Ix

variable (c : Cfg) (N M : Nat)

/-- PTable.hpp:732-739 `init`. -/
def initX : Res XTbl := do
  let t ← init c
  pure ⟨t, BTree.init (PB N M)⟩

/-- PTable.hpp:834-963 `insertTuple`; 945: `index->insert`. -/
def insertTupleX (s : XTbl) (key : Int) (vs : List Val) (id : Nat) : Res XTbl := do
  let nd ← s.tbl.get id
  let r ← insertBlk c.sch.length vs nd.blk
  let x ← BTree.insert (PB N M) s.ix key (id, r.2)
  pure ⟨s.tbl.put id { nd with blk := r.1, sum := nd.sum + c.xtr vs }, x⟩

/-- PTable.hpp:991-1062; 1052: `index->erase`. -/
def splitLoopX (b : Blk) (deleted : List Nat) (cnt sv hi i1 i2 : Nat) : Nat → Nat → XTbl → Res XTbl
  | 0, _, s => .ok s
  | n + 1, pos, s =>
    if pos ∈ deleted then splitLoopX b deleted cnt sv hi i1 i2 n (pos + 1) s else do
      let os ← offsetsFrom b pos 0 c.sch
      let key ← keyAt c b pos
      let r ← BTree.erase (PB N M) s.ix key
      let vs ← createTuple b c.sch os
      let s ← insertTupleX c N M ⟨s.tbl, r.2⟩ key vs
        (if sv = hi then (if pos < cnt / 2 then i1 else i2) else (if c.xtr vs ≤ sv then i1 else i2))
      splitLoopX b deleted cnt sv hi i1 i2 n (pos + 1) s

/-- PTable.hpp:965-1079 `splitBlock`. -/
def splitBlockX (s : XTbl) (id : Nat) : Res XTbl := do
  let nd ← s.tbl.get id
  let r ← range nd.blk
  let cnt ← count nd.blk
  if cnt = 0 then .ub else do
    let sv := (nd.sum / cnt) % 2 ^ 32
    let b1 ← initBlock c.sch r.1 sv
    let b2 ← (if sv = r.2 then initBlock c.sch r.2 r.2 else initBlock c.sch (sv + 1) r.2)
    let i1 := s.tbl.fresh
    let i2 := s.tbl.fresh + 1
    let t := ({ s.tbl with fresh := s.tbl.fresh + 2 }.put i1 ⟨b1, none, [], 0⟩).put i2 ⟨b2, none, [], 0⟩
    let s ← splitLoopX c N M nd.blk nd.deleted (cnt % 65536) sv r.2 i1 i2 (cnt % 65536) 0 ⟨t, s.ix⟩
    let t ← (if s.tbl.head = id then pure { s.tbl with head := i1 } else do
      let p ← findPrev s.tbl id s.tbl.fresh s.tbl.head
      let q ← s.tbl.get p
      pure (s.tbl.put p { q with next := some i1 }))
    let n1 ← t.get i1
    let t := t.put i1 { n1 with next := some i2 }
    let n2 ← t.get i2
    pure ⟨t.put i2 { n2 with next := nd.next }, s.ix⟩

/-- PTable.hpp:345-396 `insert`. -/
def insertX : Nat → XTbl → Int → List Val → Res XTbl
  | 0, _, _, _ => .ub
  | f + 1, s, key, vs => do
    let tg ← findTarget s.tbl (c.xtr vs) s.tbl.fresh (some s.tbl.head)
    match tg with
    | none => .ub
    | some id => do
      let r ← findInsertNodeOrSplit c s.tbl vs id
      if r.2 then do
        let s ← splitBlockX c N M s r.1
        insertX f s key vs
      else insertTupleX c N M s key vs r.1

/-- PTable.hpp:495-502 `getByKey`. -/
def getByKeyX (s : XTbl) (key : Int) : Res Handle := do
  let r ← BTree.lookup (PB N M) s.ix key
  match r with
  | some h => .ok h
  | none => .throws

/-- PTable.hpp:450-482 `deleteByKey`; the result is the one of `index->erase`. -/
def deleteByKeyX (s : XTbl) (key : Int) : Res (Bool × XTbl) := do
  let h ← getByKeyX N M s key
  let nd ← s.tbl.get h.1
  let data ← dataPos nd.blk 0
  let o ← Res.ofOption h.2[0]?
  let ty ← Res.ofOption c.sch[0]?
  let pos := (sub64 o data / ty.dataSize) % 65536
  let t := s.tbl.put h.1 { nd with deleted := nd.deleted ++ [pos] }
  let r ← BTree.erase (PB N M) s.ix key
  pure (r.1, ⟨t, r.2⟩)

/-- PTable.hpp:431-437 `updateComplete`. -/
def updateCompleteX (f : Nat) (s : XTbl) (key : Int) (vs : List Val) : Res XTbl := do
  let r ← deleteByKeyX c N M s key
  if r.1 then insertX c N M f r.2 key vs else .throws

def stepX (f : Nat) (s : XTbl) : Op → Res XTbl
  | .ins k vs => insertX c N M f s k vs
  | .del k => do
    let r ← deleteByKeyX c N M s k
    pure r.2
  | .upd k vs => updateCompleteX c N M f s k vs

/-- Calls one after the other; a call that throws (`getByKey` of an absent key, before any change) leaves the table as it is. -/
def runX (f : Nat) : XTbl → List Op → Res XTbl
  | s, [] => .ok s
  | s, op :: ops =>
    match stepX c N M f s op with
    | .ok s' => runX f s' ops
    | .throws => runX f s ops
    | .ub => .ub
    | .assertFail => .assertFail

/-! ## Iterators over the index -/

/-- PTable.hpp:221-223, 228-229: the loop that skips records; `p` is the predicate. -/
def skip (x : Ix) (p : Handle → Res Bool) : Nat → Iter → Res Iter
  | 0, _ => .ub
  | f + 1, it =>
    if it = Iter.end then .ok it else do
      let e ← it.deref (pbCfg N M) x.heap
      let b ← p e.2
      if b then .ok it else do
        let it ← it.next x.heap
        skip x p f it

/-- PTable.hpp:226-231 `operator++`, 254-256 `operator*`: the loop over the results. -/
def collect (x : Ix) (p : Handle → Res Bool) (fuel : Nat) : Nat → Iter → Res (List Handle)
  | 0, _ => .ub
  | f + 1, it =>
    if it = Iter.end then .ok [] else do
      let e ← it.deref (pbCfg N M) x.heap
      let it ← it.next x.heap
      let it ← skip N M x p fuel it
      let hs ← collect x p fuel f it
      pure (e.2 :: hs)

/-- PTable.hpp:332-334 `select`, 219-224, and a loop over all results. -/
def select (s : XTbl) (p : Handle → Res Bool) (fuel : Nat) : Res (List Handle) := do
  let it ← Iter.begin (pbCfg N M) s.ix
  let it ← skip N M s.ix p fuel it
  collect N M s.ix p fuel fuel it

/-- PTable.hpp:519-521 `rangeScan2`: the keys and tuples passed to `func`. -/
def rangeScan2 (s : XTbl) (lo hi : Int) : Res (List (Int × Handle)) := BTree.rangeScan (PB N M) s.ix lo hi

/-! ## The index holds the map of the model -/

variable {c N M}

/-- The index is a tree reached by updates that leave it with the entries of `ix`. -/
def Has (N M : Nat) (x : Ix) (ix : Int → Option Handle) : Prop :=
  ∃ tr, ErasesPresent empty tr ∧ execAll (PB N M) (BTree.init (PB N M)) tr = .ok (outs empty tr, x) ∧ MapSpec.run empty tr = ix

theorem run_append {K V : Type} [DecidableEq K] : ∀ (a b : List (MapSpec.Op K V)) (m : K → Option V), MapSpec.run m (a ++ b) = MapSpec.run (MapSpec.run m a) b
  | [], _, _ => rfl
  | op :: a, b, m => run_append a b (MapSpec.step m op)

theorem outs_append {K V : Type} [DecidableEq K] : ∀ (a b : List (MapSpec.Op K V)) (m : K → Option V), outs m (a ++ b) = outs m a ++ outs (MapSpec.run m a) b
  | [], _, _ => rfl
  | op :: a, b, m => congrArg (MapSpec.out m op :: ·) (outs_append a b (MapSpec.step m op))

theorem erases_append {K V : Type} [DecidableEq K] : ∀ (a b : List (MapSpec.Op K V)) (m : K → Option V), ErasesPresent m (a ++ b) ↔
    ErasesPresent m a ∧ ErasesPresent (MapSpec.run m a) b
  | [], _, _ => by simp [ErasesPresent, MapSpec.run]
  | .insert k v :: a, b, m => erases_append a b (MapSpec.step m (.insert k v))
  | .erase k :: a, b, m => by
    have := erases_append a b (MapSpec.step m (.erase k))
    simp only [List.cons_append, ErasesPresent, MapSpec.run]
    rw [this, and_assoc]

theorem execAll_append {K V L : Type} [LinearOrder K] (o : BTree.Ops K V L) : ∀ (a b : List (MapSpec.Op K V)) (s : State K L),
    execAll o s (a ++ b) = (execAll o s a >>= fun r => execAll o r.2 b >>= fun q => .ok (r.1 ++ q.1, q.2))
  | [], b, s => by
    rw [execAll, Res.ok_bind]
    cases h : execAll o s b with
    | ok r => rw [List.nil_append, h]; rfl
    | _ => rw [List.nil_append, h]; rfl
  | op :: a, b, s => by
    rw [List.cons_append, execAll, execAll]
    cases BTree.exec o s op with
    | ok r =>
      rw [Res.ok_bind, Res.ok_bind, execAll_append o a b]
      cases execAll o r.2 a with
      | ok q =>
        simp only [Res.ok_bind, Res.pure_eq]
        cases execAll o q.2 b with
        | ok u => rfl
        | _ => rfl
      | _ => rfl
    | _ => rfl

theorem Has.step {q : Nat} (hN : N = 2 * q) (hq : 3 ≤ q) (hM : 2 ≤ M) {x : Ix} {ix : Int → Option Handle} (h : Has N M x ix) (op : MapSpec.Op Int Handle)
    (ho : ErasesPresent ix [op]) : ∃ x', BTree.exec (PB N M) x op = .ok (MapSpec.out ix op, x') ∧ Has N M x' (MapSpec.step ix op) := by
  obtain ⟨tr, h1, h2, rfl⟩ := h
  have h3 : ErasesPresent empty (tr ++ [op]) := (erases_append _ _ _).2 ⟨h1, ho⟩
  obtain ⟨s, e, -⟩ := BTreeProps.C38_map N M q hN hq hM (tr ++ [op]) h3
  have e' := e
  rw [execAll_append, h2, Res.ok_bind] at e'
  dsimp only at e'
  rw [execAll] at e'
  obtain ⟨r, e1, e2⟩ := Res.bind_eq_ok.1 e'
  obtain ⟨y, e3, e4⟩ := Res.bind_eq_ok.1 e1
  rw [execAll, Res.ok_bind] at e4
  cases e4
  rw [outs_append] at e2
  injection e2 with e2
  injection e2 with e5 e6
  have e7 : [y.1] = outs (MapSpec.run empty tr) [op] := List.append_cancel_left e5
  injection e7 with e7 _
  dsimp only at e6
  subst e6
  refine ⟨y.2, ?_, tr ++ [op], h3, e, run_append _ _ _⟩
  rw [e3, ← e7]

theorem Has.insert {q : Nat} (hN : N = 2 * q) (hq : 3 ≤ q) (hM : 2 ≤ M) {x : Ix} {ix : Int → Option Handle} (h : Has N M x ix) (k : Int) (v : Handle) :
    ∃ x', BTree.insert (PB N M) x k v = .ok x' ∧ Has N M x' (setIx ix k (some v)) := by
  obtain ⟨x', e, h'⟩ := h.step hN hq hM (.insert k v) trivial
  rw [BTree.exec] at e
  obtain ⟨y, e1, e2⟩ := Res.bind_eq_ok.1 e
  cases e2
  exact ⟨_, e1, h'⟩

theorem Has.erase {q : Nat} (hN : N = 2 * q) (hq : 3 ≤ q) (hM : 2 ≤ M) {x : Ix} {ix : Int → Option Handle} (h : Has N M x ix) {k : Int} (hk : ix k ≠ none) :
    ∃ x', BTree.erase (PB N M) x k = .ok (true, x') ∧ Has N M x' (setIx ix k none) := by
  obtain ⟨x', e, h'⟩ := h.step hN hq hM (.erase k) ⟨hk, trivial⟩
  have : (ix k).isSome = true := Option.isSome_iff_ne_none.2 hk
  rw [BTree.exec, MapSpec.out, this] at e
  exact ⟨x', e, h'⟩

theorem Has.lookup {q : Nat} (hN : N = 2 * q) (hq : 3 ≤ q) (hM : 2 ≤ M) {x : Ix} {ix : Int → Option Handle} (h : Has N M x ix) (k : Int) :
    BTree.lookup (PB N M) x k = .ok (ix k) := by
  obtain ⟨tr, h1, h2, rfl⟩ := h
  obtain ⟨s, e, e1, -⟩ := BTreeProps.C38_map N M q hN hq hM tr h1
  rw [h2] at e
  cases e
  exact e1 k

theorem Has.init (N M : Nat) : Has N M (BTree.init (PB N M)) (fun _ => none) := ⟨[], trivial, rfl, rfl⟩

/-! ## The functions of the table do not read the field `index` -/

/-- The table without the field `index`. -/
def Tbl.bare (t : Tbl) : Tbl := { t with index := fun _ => none }

theorem findTarget_bare (t : Tbl) (x : Nat) : ∀ (f : Nat) (o : Option Nat), findTarget t.bare x f o = findTarget t x f o
  | 0, none => rfl
  | _ + 1, none => rfl
  | 0, some _ => rfl
  | f + 1, some id => by
    rw [findTarget, findTarget]
    congr 1; funext nd; congr 1; funext r
    rw [findTarget_bare t x f]

theorem walkSame_bare (t : Tbl) (vs : List Val) : ∀ (f id : Nat) (nd : Node), walkSame c t.bare vs f id nd = walkSame c t vs f id nd
  | 0, _, _ => rfl
  | f + 1, id, nd => by
    rw [walkSame, walkSame]
    congr 1; funext r; congr 1; funext e
    cases nd.next with
    | none => rfl
    | some id' =>
      dsimp only
      split
      · congr 1; funext nd'
        exact walkSame_bare t vs f id' nd'
      · rfl

theorem findInsert_bare (t : Tbl) (vs : List Val) (id : Nat) : findInsertNodeOrSplit c t.bare vs id = findInsertNodeOrSplit c t vs id := by
  unfold findInsertNodeOrSplit
  congr 1; funext nd
  rw [walkSame_bare]; rfl

theorem findPrev_bare (t : Tbl) (id : Nat) : ∀ (f p : Nat), findPrev t.bare id f p = findPrev t id f p
  | 0, _ => rfl
  | f + 1, p => by
    rw [findPrev, findPrev]
    congr 1; funext nd
    cases nd.next with
    | none => rfl
    | some q => dsimp only; rw [findPrev_bare t id f q]

theorem countFrom_bare (t : Tbl) : ∀ (f : Nat) (o : Option Nat), countFrom t.bare f o = countFrom t f o
  | 0, none => rfl
  | _ + 1, none => rfl
  | 0, some _ => rfl
  | f + 1, some id => by
    rw [countFrom, countFrom]
    congr 1; funext nd; congr 1; funext cnt
    rw [countFrom_bare t f]

theorem tableCount_bare (t : Tbl) : tableCount t.bare = tableCount t := countFrom_bare t _ _

theorem readHandle_bare (t : Tbl) (h : Handle) : readHandle c t.bare h = readHandle c t h := rfl

/-! ## Simulation -/

theorem insertTuple_sim {q : Nat} (hN : N = 2 * q) (hq : 3 ≤ q) (hM : 2 ≤ M) {t t' : Tbl} {x : Ix} (h : Has N M x t.index) {key : Int} {vs : List Val} {id : Nat}
    (e : insertTuple c t key vs id = .ok t') : (∃ x', insertTupleX c N M ⟨t.bare, x⟩ key vs id = .ok ⟨t'.bare, x'⟩ ∧ Has N M x' t'.index) ∧
      ∃ h, t'.index = setIx t.index key (some h) := by
  unfold insertTuple at e
  obtain ⟨nd, e1, e⟩ := Res.bind_eq_ok.1 e
  obtain ⟨r, e2, e⟩ := Res.bind_eq_ok.1 e
  cases e
  obtain ⟨x', e3, h'⟩ := h.insert hN hq hM key (id, r.2)
  refine ⟨⟨x', ?_, h'⟩, _, rfl⟩
  unfold insertTupleX
  rw [show (XTbl.mk t.bare x).tbl.get id = t.get id from rfl, e1, Res.ok_bind, e2, Res.ok_bind, e3, Res.ok_bind]; rfl

/-- The keys of the records at the positions are in the index. -/
def Pres (c : Cfg) (b : Blk) (dels : List Nat) (pos n : Nat) (ix : Int → Option Handle) : Prop :=
  ∀ p, pos ≤ p → p < pos + n → p ∉ dels → ∀ key : Nat, keyAt c b p = .ok key → ix key ≠ none

theorem splitLoop_sim {q : Nat} (hN : N = 2 * q) (hq : 3 ≤ q) (hM : 2 ≤ M) {b : Blk} {dels : List Nat} {cnt sv hi i1 i2 : Nat} {t' : Tbl} :
    ∀ (n pos : Nat) (t : Tbl) (x : Ix), Has N M x t.index → Pres c b dels pos n t.index → splitLoop c b dels cnt sv hi i1 i2 n pos t = .ok t' →
    ∃ x', splitLoopX c N M b dels cnt sv hi i1 i2 n pos ⟨t.bare, x⟩ = .ok ⟨t'.bare, x'⟩ ∧ Has N M x' t'.index
  | 0, pos, t, x, h, _, e => by cases e; exact ⟨x, rfl, h⟩
  | n + 1, pos, t, x, h, hp, e => by
    rw [splitLoop] at e
    rw [splitLoopX]
    by_cases hd : pos ∈ dels
    · rw [if_pos hd] at e ⊢
      exact splitLoop_sim hN hq hM n (pos + 1) t x h (fun p h1 h2 => hp p (by omega) (by omega)) e
    · rw [if_neg hd] at e ⊢
      obtain ⟨os, e1, e⟩ := Res.bind_eq_ok.1 e
      obtain ⟨key, e2, e⟩ := Res.bind_eq_ok.1 e
      obtain ⟨vs, e3, e⟩ := Res.bind_eq_ok.1 e
      obtain ⟨t1, e4, e⟩ := Res.bind_eq_ok.1 e
      obtain ⟨x1, f1, h1⟩ := h.erase hN hq hM (hp pos (by omega) (by omega) hd key e2)
      obtain ⟨⟨x2, f2, h2⟩, hdl, hix⟩ := insertTuple_sim hN hq hM (t := { t with index := setIx t.index key none }) h1 e4
      obtain ⟨x', f3, h3⟩ := splitLoop_sim hN hq hM n (pos + 1) t1 x2 h2 (fun p p1 p2 p3 k hk => by
        rw [hix]
        have := hp p (by omega) (by omega) p3 k hk
        unfold setIx
        dsimp only
        split
        · simp
        · exact this) e
      refine ⟨x', ?_, h3⟩
      rw [e1, Res.ok_bind, e2, Res.ok_bind, f1, Res.ok_bind, e3, Res.ok_bind]
      show (insertTupleX c N M ⟨t.bare, x1⟩ _ _ _ >>= _) = _
      have f2' : insertTupleX c N M ⟨t.bare, x1⟩ key vs
        (if sv = hi then (if pos < cnt / 2 then i1 else i2) else (if c.xtr vs ≤ sv then i1 else i2)) = _ := f2
      rw [f2', Res.ok_bind]
      exact f3

theorem splitBlock_sim {q : Nat} (hN : N = 2 * q) (hq : 3 ≤ q) (hM : 2 ≤ M) {t t' : Tbl} {x : Ix} (h : Has N M x t.index) {id : Nat} {nd : Node}
    (hnd : t.nodes id = some nd) (hp : ∀ cnt, count nd.blk = .ok cnt → Pres c nd.blk nd.deleted 0 (cnt % 65536) t.index)
    (e : splitBlock c t id = .ok t') : ∃ x', splitBlockX c N M ⟨t.bare, x⟩ id = .ok ⟨t'.bare, x'⟩ ∧ Has N M x' t'.index := by
  unfold splitBlock at e
  unfold splitBlockX
  rw [Tbl.get_ok hnd, Res.ok_bind] at e
  obtain ⟨r, e1, e⟩ := Res.bind_eq_ok.1 e
  obtain ⟨cnt, e2, e⟩ := Res.bind_eq_ok.1 e
  rw [show (XTbl.mk t.bare x).tbl.get id = t.get id from rfl, Tbl.get_ok hnd, Res.ok_bind, e1, Res.ok_bind, e2, Res.ok_bind]
  by_cases hc : cnt = 0
  · rw [if_pos hc] at e; cases e
  · rw [if_neg hc] at e ⊢
    dsimp only at e ⊢
    obtain ⟨b1, e3, e⟩ := Res.bind_eq_ok.1 e
    obtain ⟨b2, e4, e⟩ := Res.bind_eq_ok.1 e
    obtain ⟨t1, e5, e⟩ := Res.bind_eq_ok.1 e
    obtain ⟨t2, e6, e⟩ := Res.bind_eq_ok.1 e
    obtain ⟨n1, e7, e⟩ := Res.bind_eq_ok.1 e
    obtain ⟨n2, e8, e⟩ := Res.bind_eq_ok.1 e
    cases e
    obtain ⟨x', f1, h1⟩ := splitLoop_sim hN hq hM _ _ _ x
      (show Has N M x (((({ t with fresh := t.fresh + 2 } : Tbl).put t.fresh ⟨b1, none, [], 0⟩).put (t.fresh + 1) ⟨b2, none, [], 0⟩).index) from h)
      (hp cnt e2) e5
    have hix : t2.index = t1.index := by
      split at e6
      · cases e6; rfl
      · obtain ⟨p, -, e6⟩ := Res.bind_eq_ok.1 e6
        obtain ⟨q, -, e6⟩ := Res.bind_eq_ok.1 e6
        cases e6; rfl
    refine ⟨x', ?_, show Has N M x' t2.index by rw [hix]; exact h1⟩
    rw [e3, Res.ok_bind, e4, Res.ok_bind]
    refine Eq.trans (congrArg (· >>= _) f1) ?_
    rw [Res.ok_bind]
    dsimp only
    have g : (if t1.bare.head = id then (pure { t1.bare with head := t.fresh } : Res Tbl) else do
        let p ← findPrev t1.bare id t1.bare.fresh t1.bare.head
        let q ← t1.bare.get p
        pure (t1.bare.put p { q with next := some t.fresh })) = .ok t2.bare := by
      rw [findPrev_bare]
      by_cases hh : t1.head = id
      · rw [if_pos hh] at e6
        rw [if_pos (show t1.bare.head = id from hh)]
        cases e6; rfl
      · rw [if_neg hh] at e6
        rw [if_neg (show ¬ t1.bare.head = id from hh)]
        obtain ⟨p, e6a, e6⟩ := Res.bind_eq_ok.1 e6
        obtain ⟨q, e6b, e6⟩ := Res.bind_eq_ok.1 e6
        cases e6
        show (findPrev t1 id t1.fresh t1.head >>= _) = _
        rw [e6a, Res.ok_bind]
        show (t1.get p >>= _) = _
        rw [e6b, Res.ok_bind]; rfl
    refine Eq.trans (congrArg (· >>= _) g) ?_
    rw [Res.ok_bind]
    show (t2.get t.fresh >>= _) = _
    rw [e7, Res.ok_bind]
    show ((t2.put t.fresh { n1 with next := some (t.fresh + 1) }).get (t.fresh + 1) >>= _) = _
    rw [e8, Res.ok_bind]; rfl

/-- In a table with an exact index the keys of the records of a node are in the index. -/
theorem LiveOK.pres (hg : c.Good) {t : Tbl} {R : Nat → Rows} {l : List Nat} (h : Inv c t R l) (hl : LiveOK c t R l) {id : Nat} (hid : id ∈ l) {nd : Node}
    (hnd : t.nodes id = some nd) (cnt : Nat) (hc : count nd.blk = .ok cnt) : Pres c nd.blk nd.deleted 0 (cnt % 65536) t.index := by
  intro p _ hp hd key hk
  have ok := h.ok id nd hnd
  have h1 := ok.rep.count
  rw [hc] at h1
  cases h1
  have hlt : p < (R id).reverse.length := by
    rw [List.length_reverse]
    have := Nat.mod_le (R id).length 65536
    omega
  have hr : (R id).reverse[p]? = some (R id).reverse[p] := List.getElem?_eq_getElem hlt
  obtain ⟨y, e1, e2⟩ := ok.rep.key hg.key hr
  rw [hk] at e2
  cases e2
  have mem : ∀ (rs : Rows) (p0 i : Nat) (r : List Val × List Nat), rs[i]? = some r → p0 + i ∉ nd.deleted → (p0 + i, r) ∈ liveFrom nd.deleted p0 rs := by
    intro rs
    induction rs with
    | nil => intro p0 i r hr; simp at hr
    | cons a rs ih =>
      intro p0 i r hr hni
      rw [liveFrom]
      cases i with
      | zero =>
        simp only [List.getElem?_cons_zero, Option.some.injEq] at hr
        rw [if_neg (by simpa using hni), hr]
        exact List.mem_cons_self ..
      | succ i =>
        have := ih (p0 + 1) i r (by simpa using hr) (by rw [show p0 + 1 + i = p0 + (i + 1) by omega]; exact hni)
        rw [show p0 + 1 + i = p0 + (i + 1) by omega] at this
        split
        · exact this
        · exact List.mem_cons_of_mem _ this
  have hm := mem _ 0 p _ hr (by simpa using hd)
  have hlive : (id, (R id).reverse[p]) ∈ live t R l := by
    refine List.mem_flatMap.2 ⟨id, hid, ?_⟩
    unfold liveAt delsAt
    rw [hnd]
    exact List.mem_map.2 ⟨_, hm, rfl⟩
  have hkey : mkey c (id, (R id).reverse[p]) = ((y.toNat % 65536 : Nat) : Int) := by
    unfold mkey key16
    rw [e1]
  have := (hl.idx _ _).2 ⟨_, hlive, hkey, rfl⟩
  rw [this]
  simp

theorem insert_sim (hg : c.Good) {q : Nat} (hN : N = 2 * q) (hq : 3 ≤ q) (hM : 2 ≤ M) {vs : List Val} (hv : c.Rec vs) {key : Int} {t' : Tbl} :
    ∀ (f : Nat) {t : Tbl} {x : Ix} {R : Nat → Rows} {l : List Nat}, Inv c t R l → LiveOK c t R l → Has N M x t.index → insert c f t key vs = .ok t' →
    ∃ x', insertX c N M f ⟨t.bare, x⟩ key vs = .ok ⟨t'.bare, x'⟩ ∧ Has N M x' t'.index
  | 0, _, _, _, _, _, _, _, e => by cases e
  | f + 1, t, x, R, l, h, hl, hx, e => by
    obtain ⟨id, nd, ns, hp, hid, hnd, hlo, hhi, hns⟩ := h.pick vs (hg.xtr vs)
    obtain ⟨tg, c1, c2⟩ := insert_choice h hv.typed hp
    rw [insert_eq h hv.typed (f := f) (key := key) hp] at e
    rw [entOf_id] at e c2
    rw [insertX]
    dsimp only
    rw [findTarget_bare, show t.bare.fresh = t.fresh from rfl, show t.bare.head = t.head from rfl, c1, Res.ok_bind]
    dsimp only
    rw [findInsert_bare, c2, Res.ok_bind]
    cases ns with
    | false =>
      obtain ⟨⟨x', f1, f2⟩, -⟩ := insertTuple_sim hN hq hM hx e
      exact ⟨x', f1, f2⟩
    | true =>
      rw [if_pos rfl] at e ⊢
      by_cases hne : R id = []
      · have hcnt := (h.ok id nd hnd).rep.count
        rw [hne] at hcnt
        have : splitBlock c t id = .ub := by
          unfold splitBlock
          rw [Tbl.get_ok hnd, Res.ok_bind, range_ok, Res.ok_bind, hcnt, Res.ok_bind]
          rfl
        rw [this] at e
        cases e
      · obtain ⟨pre, post, rfl⟩ := List.append_of_mem hid
        obtain ⟨t1, sv, mv, nd1, nd2, es, hs, hi1⟩ := splitBlock_ok hg h hnd hne
        obtain ⟨x1, f1, h1⟩ := splitBlock_sim hN hq hM hx hnd (hl.pres hg h hid hnd) es
        rw [es, Res.ok_bind] at e
        have hl1 := (Splits.step h hnd hne hs hi1 (Splits.refl _ _ _)).liveOK hl |>.1
        obtain ⟨x', f2, h2⟩ := insert_sim hg hN hq hM hv f hi1 hl1 h1 e
        exact ⟨x', by rw [f1, Res.ok_bind, f2], h2⟩

theorem delete_sim {q : Nat} (hN : N = 2 * q) (hq : 3 ≤ q) (hM : 2 ≤ M) {t t' : Tbl} {x : Ix} (h : Has N M x t.index) {key : Int}
    (e : deleteByKey c t key = .ok t') : ∃ x', deleteByKeyX c N M ⟨t.bare, x⟩ key = .ok (true, ⟨t'.bare, x'⟩) ∧ Has N M x' t'.index := by
  unfold deleteByKey at e
  obtain ⟨hd, e1, e⟩ := Res.bind_eq_ok.1 e
  obtain ⟨nd, e2, e⟩ := Res.bind_eq_ok.1 e
  obtain ⟨data, e3, e⟩ := Res.bind_eq_ok.1 e
  obtain ⟨o, e4, e⟩ := Res.bind_eq_ok.1 e
  obtain ⟨ty, e5, e⟩ := Res.bind_eq_ok.1 e
  cases e
  unfold getByKey at e1
  cases hk : t.index key with
  | none => rw [hk] at e1; cases e1
  | some hd' =>
    rw [hk] at e1
    injection e1 with e1
    subst e1
    obtain ⟨x', f1, h1⟩ := h.erase hN hq hM (k := key) (by rw [hk]; simp)
    refine ⟨x', ?_, h1⟩
    unfold deleteByKeyX getByKeyX
    dsimp only
    rw [h.lookup hN hq hM, Res.ok_bind, hk]
    dsimp only
    rw [Res.ok_bind, show t.bare.get hd'.1 = t.get hd'.1 from rfl, e2, Res.ok_bind, e3, Res.ok_bind, e4, Res.ok_bind, e5, Res.ok_bind, f1, Res.ok_bind]; rfl

theorem getByKey_sim {q : Nat} (hN : N = 2 * q) (hq : 3 ≤ q) (hM : 2 ≤ M) {t : Tbl} {x : Ix} (h : Has N M x t.index) (key : Int) :
    getByKeyX N M ⟨t.bare, x⟩ key = getByKey t key := by
  unfold getByKeyX getByKey
  dsimp only
  rw [h.lookup hN hq hM, Res.ok_bind]
  rfl

theorem delete_throws_sim {q : Nat} (hN : N = 2 * q) (hq : 3 ≤ q) (hM : 2 ≤ M) {t : Tbl} {x : Ix} (h : Has N M x t.index) {key : Int} (hk : t.index key = none) :
    deleteByKeyX c N M ⟨t.bare, x⟩ key = .throws := by
  unfold deleteByKeyX
  rw [getByKey_sim hN hq hM h]
  unfold getByKey
  rw [hk]; rfl

/-- The table after a call. -/
def afterX (c : Cfg) (N M : Nat) (f : Nat) (s : XTbl) (op : Op) : Res XTbl :=
  match stepX c N M f s op with
  | .throws => .ok s
  | r => r

theorem runX_cons (f : Nat) (s : XTbl) (op : Op) (ops : List Op) : runX c N M f s (op :: ops) = (afterX c N M f s op >>= fun s => runX c N M f s ops) := by
  rw [runX]
  unfold afterX
  cases stepX c N M f s op <;> rfl

theorem after_sim (hg : c.Good) (h0 : c.sch[0]? ≠ some .str) {q : Nat} (hN : N = 2 * q) (hq : 3 ≤ q) (hM : 2 ≤ M) {t t' : Tbl} {R : Nat → Rows} {l : List Nat} {x : Ix}
    (h : Inv c t R l) (hl : LiveOK c t R l) (hx : Has N M x t.index) {op : Op} (hr : ∀ vs ∈ op.recs, c.Rec vs) {f : Nat}
    (e : after c f t op = .ok t') : ∃ x', afterX c N M f ⟨t.bare, x⟩ op = .ok ⟨t'.bare, x'⟩ ∧ Has N M x' t'.index := by
  unfold after at e
  unfold afterX
  cases op with
  | ins key vs =>
    have hv := hr vs (by simp [Op.recs])
    simp only [step] at e
    simp only [stepX]
    cases hi : insert c f t key vs with
    | ok t'' =>
      rw [hi] at e
      cases e
      obtain ⟨x', f1, h1⟩ := insert_sim hg hN hq hM hv f h hl hx hi
      exact ⟨x', by rw [f1], h1⟩
    | ub => rw [hi] at e; cases e
    | assertFail => rw [hi] at e; cases e
    | throws => exact absurd hi (insert_not_throws hg hv f h)
  | del key =>
    simp only [step] at e
    simp only [stepX]
    cases hk : t.index key with
    | none =>
      rw [delete_throws hk] at e
      cases e
      exact ⟨x, by rw [delete_throws_sim hN hq hM hx hk]; rfl, hx⟩
    | some hd =>
      obtain ⟨id, os⟩ := hd
      obtain ⟨nd, hnd, hd⟩ := delete_ok hg h hk
      obtain ⟨x', f1, h1⟩ := delete_sim hN hq hM hx hd
      rw [hd] at e
      cases e
      exact ⟨x', by rw [f1]; rfl, h1⟩
  | upd key vs =>
    have hv := hr vs (by simp [Op.recs])
    simp only [step, updateComplete] at e
    simp only [stepX, updateCompleteX]
    cases hk : t.index key with
    | none =>
      rw [delete_throws hk] at e
      cases e
      exact ⟨x, by rw [delete_throws_sim hN hq hM hx hk]; rfl, hx⟩
    | some hd =>
      obtain ⟨id, os⟩ := hd
      obtain ⟨nd, hnd, hd⟩ := delete_ok hg h hk
      obtain ⟨x1, f1, h1⟩ := delete_sim hN hq hM hx hd
      rw [hd, Res.ok_bind] at e
      have h' := h.delete key hnd (nd.deleted ++ [delPos c os])
      have hl' := (hl.delete hg h0 h hk hnd).1
      rw [f1, Res.ok_bind]
      dsimp only
      rw [if_pos rfl]
      cases hi : insert c f { t.put id { nd with deleted := nd.deleted ++ [delPos c os] } with index := setIx t.index key none } key vs with
      | ok t'' =>
        rw [hi] at e
        cases e
        obtain ⟨x', f2, h2⟩ := insert_sim hg hN hq hM hv f h' hl' h1 hi
        exact ⟨x', by rw [f2], h2⟩
      | ub => rw [hi] at e; cases e
      | assertFail => rw [hi] at e; cases e
      | throws => exact absurd hi (insert_not_throws hg hv f h')

end Verif.PTable
