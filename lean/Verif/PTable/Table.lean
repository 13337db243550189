import Verif.PTable.Block

/-!
# Model of the table operations of `PTable` (src/ptable/PTable.hpp)

`KeyType` is `int`.  Simplifications:

* the index (`PBPTree`) is a map from keys to handles (its own properties are C30 ff.);
* the BDCC value of a record is an arbitrary function (`getBDCCFromTuple` is the subject of C18);
* data nodes live in a heap addressed by ids; `splitBlock` does not free the old node (PTable.hpp:1076), and neither
  does the model;
* the key column of `PTableInfo` is never initialised (PTableInfo.hpp:65-88); it is an arbitrary parameter.
-/

namespace Verif.PTable

/-- DataNode.hpp:84-106 `DataNode`. -/
structure Node where
  blk : Blk
  next : Option Nat
  deleted : List Nat
  sum : Nat

/-- A handle of a record (`PTuple`): node and offsets. -/
abbrev Handle := Nat × List Nat

/-- PTable.hpp:619-628: the root object, and the heap of data nodes. -/
structure Tbl where
  nodes : Nat → Option Node
  fresh : Nat
  head : Nat
  index : Int → Option Handle

/-- Schema, key column, number of BDCC bins and BDCC value of a record. -/
structure Cfg where
  sch : Schema
  kc : Nat
  bins : Nat
  xtr : List Val → Nat

variable (c : Cfg)

def Tbl.get (t : Tbl) (id : Nat) : Res Node := Res.ofOption (t.nodes id)

def Tbl.put (t : Tbl) (id : Nat) (nd : Node) : Tbl := { t with nodes := fun j => if j = id then some nd else t.nodes j }

/-- Index update. -/
def setIx (ix : Int → Option Handle) (k : Int) (h : Option Handle) : Int → Option Handle := fun j => if j = k then h else ix j

/-- PTable.hpp:732-739 `init`. -/
def init : Res Tbl := do
  let b ← initBlock c.sch 0 (2 ^ c.bins - 1)
  pure ⟨fun j => if j = 0 then some ⟨b, none, [], 0⟩ else none, 1, 0, fun _ => none⟩

/-- BDCC range of a block. -/
def range (b : Blk) : Res (Nat × Nat) := do
  let lo ← rd b 0 4
  let hi ← rd b 4 4
  pure (lo, hi)

/-- PTable.hpp:363-372: the first block whose range contains `x` (null when there is none). -/
def findTarget (t : Tbl) (x : Nat) : Nat → Option Nat → Res (Option Nat)
  | _, none => .ok none
  | 0, some _ => .ub
  | f + 1, some id => do
    let nd ← t.get id
    let r ← range nd.blk
    if r.1 ≤ x ∧ x ≤ r.2 then .ok (some id) else findTarget t x f nd.next

/-- PTable.hpp:1251-1256: the loop over nodes that share a BDCC value.  The result is the last node visited, its
lower bound and whether it has no space. -/
def walkSame (t : Tbl) (vs : List Val) : Nat → Nat → Node → Res (Nat × Nat × Bool)
  | 0, _, _ => .ub
  | f + 1, id, nd => do
    let r ← range nd.blk
    let e ← hasEnoughSpace c.sch.length vs nd.blk
    match nd.next with
    | some id' =>
      if r.1 = r.2 ∧ e = false then do
        let nd' ← t.get id'
        walkSame t vs f id' nd'
      else pure (id, r.1, !e)
    | none => pure (id, r.1, !e)

/-- PTable.hpp:1244-1268 `findInsertNodeOrSplit`: the node and `needsSplit`. -/
def findInsertNodeOrSplit (t : Tbl) (vs : List Val) (id : Nat) : Res (Nat × Bool) := do
  let nd ← t.get id
  let w ← walkSame c t vs t.fresh id nd
  if c.xtr vs < w.2.1 then pure (id, true) else pure (w.1, w.2.2)

/-- PTable.hpp:834-963 `insertTuple`. -/
def insertTuple (t : Tbl) (key : Int) (vs : List Val) (id : Nat) : Res Tbl := do
  let nd ← t.get id
  let r ← insertBlk c.sch.length vs nd.blk
  let t := t.put id { nd with blk := r.1, sum := nd.sum + c.xtr vs }
  pure { t with index := setIx t.index key (some (id, r.2)) }

/-- PTable.hpp:1010-1027 and 178-196: offset of column `idx` of the record at position `pos`, a `uint16_t`. -/
def offsetAt (b : Blk) (pos idx : Nat) (ty : Ty) : Res Nat := do
  let data ← dataPos b idx
  match ty with
  | .int => pure ((data + pos * 4) % 65536)
  | .dbl => pure ((data + pos * 8) % 65536)
  | .str => rd b (data + pos * 2) 2

def offsetsFrom (b : Blk) (pos : Nat) : Nat → Schema → Res (List Nat)
  | _, [] => .ok []
  | idx, ty :: sch => do
    let o ← offsetAt b pos idx ty
    let os ← offsetsFrom b pos (idx + 1) sch
    pure (o :: os)

/-- PTuple.hpp:329-336 `createTuple`: all attributes. -/
def createTuple (b : Blk) : Schema → List Nat → Res (List Val)
  | ty :: sch, o :: os => do
    let v ← readAttr b ty o
    let vs ← createTuple b sch os
    pure (v :: vs)
  | [], [] => .ok []
  | _, _ => .ub

/-- PTable.hpp:1033-1050: the key of the record at a position, read as a `uint16_t`. -/
def keyAt (b : Blk) (pos : Nat) : Res Nat := do
  let data ← dataPos b c.kc
  rd b ((data + pos * 4) % 65536) 2

/-- PTable.hpp:991-1062: the loop of `splitBlock` over the records from position `pos`; `n` records are left. -/
def splitLoop (b : Blk) (deleted : List Nat) (cnt sv hi i1 i2 : Nat) : Nat → Nat → Tbl → Res Tbl
  | 0, _, t => .ok t
  | n + 1, pos, t =>
    if pos ∈ deleted then splitLoop b deleted cnt sv hi i1 i2 n (pos + 1) t else do
      let os ← offsetsFrom b pos 0 c.sch
      let key ← keyAt c b pos
      let t := { t with index := setIx t.index key none }
      let vs ← createTuple b c.sch os
      let t ← insertTuple c t key vs
        (if sv = hi then (if pos < cnt / 2 then i1 else i2) else (if c.xtr vs ≤ sv then i1 else i2))
      splitLoop b deleted cnt sv hi i1 i2 n (pos + 1) t

/-- PTable.hpp:1065-1072: the predecessor of a node in the list. -/
def findPrev (t : Tbl) (id : Nat) : Nat → Nat → Res Nat
  | 0, _ => .ub
  | f + 1, p => do
    let nd ← t.get p
    match nd.next with
    | none => .ub
    | some q => if q = id then .ok p else findPrev t id f q

/-- PTable.hpp:965-1079 `splitBlock`; DataNode.hpp:99-105 `calcAverageBDCC` (a division by zero for an empty block). -/
def splitBlock (t : Tbl) (id : Nat) : Res Tbl := do
  let nd ← t.get id
  let r ← range nd.blk
  let cnt ← count nd.blk
  if cnt = 0 then .ub else do
    let sv := (nd.sum / cnt) % 2 ^ 32
    let b1 ← initBlock c.sch r.1 sv
    let b2 ← (if sv = r.2 then initBlock c.sch r.2 r.2 else initBlock c.sch (sv + 1) r.2)
    let i1 := t.fresh
    let i2 := t.fresh + 1
    let t := ({ t with fresh := t.fresh + 2 }.put i1 ⟨b1, none, [], 0⟩).put i2 ⟨b2, none, [], 0⟩
    let t ← splitLoop c nd.blk nd.deleted (cnt % 65536) sv r.2 i1 i2 (cnt % 65536) 0 t
    let t ← (if t.head = id then pure { t with head := i1 } else do
      let p ← findPrev t id t.fresh t.head
      let q ← t.get p
      pure (t.put p { q with next := some i1 }))
    let n1 ← t.get i1
    let t := t.put i1 { n1 with next := some i2 }
    let n2 ← t.get i2
    pure (t.put i2 { n2 with next := nd.next })

/-- PTable.hpp:345-396 `insert`; `fuel` bounds the depth of the recursion. -/
def insert : Nat → Tbl → Int → List Val → Res Tbl
  | 0, _, _, _ => .ub
  | f + 1, t, key, vs => do
    let tg ← findTarget t (c.xtr vs) t.fresh (some t.head)
    match tg with
    | none => .ub
    | some id => do
      let r ← findInsertNodeOrSplit c t vs id
      if r.2 then do
        let t ← splitBlock c t r.1
        insert f t key vs
      else insertTuple c t key vs r.1

/-- PTable.hpp:495-502 `getByKey`. -/
def getByKey (t : Tbl) (key : Int) : Res Handle :=
  match t.index key with
  | some h => .ok h
  | none => .throws

/-- VTableInfo.hpp:50-150 `dataSize`. -/
def Ty.dataSize : Ty → Nat
  | .int => 4
  | .dbl => 8
  | .str => 2

/-- PTable.hpp:450-482 `deleteByKey`. -/
def deleteByKey (t : Tbl) (key : Int) : Res Tbl := do
  let h ← getByKey t key
  let nd ← t.get h.1
  let data ← dataPos nd.blk 0
  let o ← Res.ofOption h.2[0]?
  let ty ← Res.ofOption c.sch[0]?
  let pos := (sub64 o data / ty.dataSize) % 65536
  let t := t.put h.1 { nd with deleted := nd.deleted ++ [pos] }
  pure { t with index := setIx t.index key none }

/-- PTable.hpp:431-437 `updateComplete`. -/
def updateComplete (f : Nat) (t : Tbl) (key : Int) (vs : List Val) : Res Tbl := do
  let t ← deleteByKey c t key
  insert c f t key vs

/-- PTable.hpp:528-537 `count`, an `unsigned long`. -/
def countFrom (t : Tbl) : Nat → Option Nat → Res Nat
  | _, none => .ok 0
  | 0, some _ => .ub
  | f + 1, some id => do
    let nd ← t.get id
    let cnt ← count nd.blk
    let rest ← countFrom t f nd.next
    pure ((sub64 cnt nd.deleted.length + rest) % 2 ^ 64)

def tableCount (t : Tbl) : Res Nat := countFrom t t.fresh (some t.head)

/-- Read the record of a handle. -/
def readHandle (t : Tbl) (h : Handle) : Res (List Val) := do
  let nd ← t.get h.1
  createTuple nd.blk c.sch h.2

/-! ## Range scans -/

/-- `<` of two values of the same type. -/
def Val.lt : Val → Val → Bool
  | .int x, .int y => decide (x.toInt < y.toInt)
  | .dbl x, .dbl y => dblLt x y
  | .str s, .str t => ltStr s t
  | _, _ => false

/-- A predicate: column, lower and upper bound. -/
structure Pred where
  col : Nat
  lo : Val
  hi : Val

/-- PTable.hpp:1140-1175: the SMA test for the predicates; a bound of the wrong type and an unknown column throw. -/
def blockInRange (b : Blk) : List Pred → Res Bool
  | [] => .ok true
  | p :: ps =>
    match c.sch[p.col]? with
    | none => .throws
    | some ty =>
      if p.lo.ty = ty ∧ p.hi.ty = ty then do
        let m ← readSma b p.col ty
        if p.hi.lt m.1 || m.2.lt p.lo then .ok false else blockInRange b ps
      else .throws

/-- PTable.hpp:1112-1190 `getCandidateBlocks`. -/
def candidates (t : Tbl) (ps : List Pred) : Nat → Option Nat → Res (List Nat)
  | _, none => .ok []
  | 0, some _ => .ub
  | f + 1, some id => do
    let nd ← t.get id
    let e ← blockInRange c nd.blk ps
    let rest ← candidates t ps f nd.next
    pure (if e then id :: rest else rest)

/-- PTable.hpp:1192-1242 `isPTupleinRange`. -/
def tupleInRange (b : Blk) (os : List Nat) : List Pred → Res Bool
  | [] => .ok true
  | p :: ps =>
    match c.sch[p.col]?, os[p.col]? with
    | some ty, some o =>
      if p.lo.ty = ty ∧ p.hi.ty = ty then do
        let v ← readAttr b ty o
        if p.hi.lt v || v.lt p.lo then .ok false else tupleInRange b os ps
      else .throws
    | _, _ => .throws

/-- PTable.hpp:78-90 `BlockIterator`: the candidates from `currentNode` on, `currentCnt` and `currentPos`. -/
structure It where
  rest : List Nat
  cnt : Nat
  pos : Nat

/-- PTable.hpp:160-204: the handle at the position of the iterator. -/
def It.deref (t : Tbl) (it : It) : Res Handle :=
  match it.rest with
  | [] => .ub
  | id :: _ => do
    let nd ← t.get id
    let os ← offsetsFrom nd.blk (it.pos - 1) 0 c.sch
    pure (id, os)

/-- PTable.hpp:110-130 `operator++`.  Behind the last candidate the code reads `*candidates.end()`, which is undefined
behaviour (`strict`); with `strict = false` this read gives a null pointer. -/
def It.next (strict : Bool) (t : Tbl) (ps : List Pred) : Nat → It → Res It
  | 0, _ => .ub
  | f + 1, it => do
    let it' ← (if it.cnt < it.pos + 1 then
        match it.rest.tail with
        | [] => if strict then .ub else .ok none
        | id :: r => do
          let nd ← t.get id
          let cnt ← count nd.blk
          pure (some ⟨id :: r, cnt % 65536, 1⟩)
      else .ok (some { it with pos := it.pos + 1 }))
    match it' with
    | none => pure ⟨[], 0, 1⟩
    | some it' => do
      let h ← it'.deref c t
      let nd ← t.get h.1
      let e ← tupleInRange c nd.blk h.2 ps
      if e then .ok it' else It.next strict t ps f it'

/-- The loop over a scan: until the iterator equals `end()` (PTable.hpp:146-151, 91-92). -/
def It.collect (strict : Bool) (t : Tbl) (ps : List Pred) (fuel : Nat) : Nat → It → Res (List Handle)
  | 0, _ => .ub
  | f + 1, it =>
    if it.pos = 1 ∧ it.cnt = 0 then .ok [] else do
      let h ← it.deref c t
      let it ← It.next c strict t ps fuel it
      let hs ← It.collect strict t ps fuel f it
      pure (h :: hs)

/-- PTable.hpp:514-516 `rangeScan`, 94-108, and a loop over all results. -/
def rangeScan (strict : Bool) (t : Tbl) (ps : List Pred) (fuel : Nat) : Res (List Handle) := do
  let cs ← candidates c t ps t.fresh (some t.head)
  match cs with
  | [] => .ok []
  | id :: _ => do
    let nd ← t.get id
    let cnt ← count nd.blk
    let it ← It.next c strict t ps fuel ⟨cs, cnt % 65536, 0⟩
    It.collect c strict t ps fuel fuel it

end Verif.PTable
