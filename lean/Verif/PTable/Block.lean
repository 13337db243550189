import Verif.PTable.Bytes

/-!
# Model of the data blocks of `PTable` (src/ptable/PTable.hpp, core/DataNode.hpp, core/PTuple.hpp)

A record is a list of column values; its serialised form (`serialize`, `deserialize`, C14) is only used for its
size.  `int` has 4 bytes, `double` 8 bytes in IEEE 754 format, offsets have 2 bytes.
Conversions to `uint16_t` and unsigned wrap-around are explicit.
-/

namespace Verif.PTable

/-- VTableInfo.hpp:37-41 `ColumnType` (without `VoidType`). -/
inductive Ty where
  | int
  | dbl
  | str
  deriving DecidableEq, Repr

/-- A column value; a `double` is its bit pattern, a string its bytes. -/
inductive Val where
  | int (x : BitVec 32)
  | dbl (x : BitVec 64)
  | str (s : List UInt8)
  deriving DecidableEq

def Val.ty : Val → Ty
  | .int _ => .int
  | .dbl _ => .dbl
  | .str _ => .str

/-- The column types. -/
abbrev Schema := List Ty

/-- `a - b` converted to `uint16_t`. -/
def sub16 (a b : Nat) : Nat := (((a : Int) - b) % 65536).toNat

/-- `a - b` in `size_t`. -/
def sub64 (a b : Nat) : Nat := (((a : Int) - b) % (2 ^ 64)).toNat

/-- PTable.hpp:663-669: the weight of a column. -/
def Ty.portion : Ty → Nat
  | .int => 1
  | .dbl => 2
  | .str => 4

/-- PTable.hpp:786-800: bytes for minimum and maximum (a string column stores two offsets). -/
def Ty.smaSize : Ty → Nat
  | .int => 2 * 4
  | .dbl => 2 * 8
  | .str => 4

/-- PTable.hpp:658-674: the sum of the weights. -/
def portions (sch : Schema) : Nat := (sch.map Ty.portion).sum

/-- PTable.hpp:686-700: minipage size of a column, a `uint16_t` (no customizations). -/
def pageSize (total p : Nat) (t : Ty) : Nat := (t.portion * total / p) % 65536

/-- PTable.hpp:756: size of the block header for `n` columns. -/
def header (n : Nat) : Nat := 14 + n * 4

/-- PTable.hpp:780-809: the loop of `initBlock` over the columns; the result has the sum of the SMA sizes. -/
def initCols (total p : Nat) : Nat → Nat → Nat → Schema → Blk → Res (Blk × Nat)
  | _, _, smaSize, [], b => .ok (b, smaSize)
  | idx, off, smaSize, t :: sch, b => do
    let smaOff := off % 65536
    let dataOff := (smaOff + t.smaSize) % 65536
    let b ← put b (14 + idx * 4) (enc 2 smaOff)
    let b ← put b (16 + idx * 4) (enc 2 dataOff)
    initCols total p (idx + 1) (off + pageSize total p t) (smaSize + t.smaSize) sch b

/-- PTable.hpp:747-817 `initBlock`. -/
def initBlock (sch : Schema) (lo hi : Nat) : Res Blk := do
  let b ← put (fun _ => 0) 0 (enc 4 lo)
  let b ← put b 4 (enc 4 hi)
  let total := sub16 blockSize (header sch.length)
  let r ← initCols total (portions sch) 0 (header sch.length) 0 sch b
  put r.1 12 (enc 2 (sub16 blockSize (header sch.length + r.2)))

/-- The count field, a `uint32_t`. -/
def count (b : Blk) : Res Nat := rd b 8 4

/-- SMA and data offset of a column. -/
def smaPos (b : Blk) (idx : Nat) : Res Nat := rd b (14 + idx * 4) 2
def dataPos (b : Blk) (idx : Nat) : Res Nat := rd b (16 + idx * 4) 2

/-- PTable.hpp:889-891, 1304-1306: the end of a minipage in a table with `n` columns. -/
def pageEnd (b : Blk) (n idx : Nat) : Res Nat := if n ≤ idx + 1 then .ok blockSize else smaPos b (idx + 1)

/-- `<` of `int`, on bit patterns. -/
def ltInt (x y : Nat) : Bool := decide ((BitVec.ofNat 32 x).toInt < (BitVec.ofNat 32 y).toInt)

/-- IEEE 754: not a number. -/
def isNaN (d : BitVec 64) : Bool := decide (0x7FF0000000000000 < d.toNat % 2 ^ 63)

/-- IEEE 754: sign and magnitude as an integer (both zeros are 0). -/
def dblKey (d : BitVec 64) : Int := if d.msb then -((d.toNat % 2 ^ 63 : Nat) : Int) else ((d.toNat % 2 ^ 63 : Nat) : Int)

/-- `<` of `double`. -/
def dblLt (x y : BitVec 64) : Bool := !isNaN x && !isNaN y && decide (dblKey x < dblKey y)

/-- `<` of `double`, on bit patterns. -/
def ltDbl (x y : Nat) : Bool := dblLt (BitVec.ofNat 64 x) (BitVec.ofNat 64 y)

/-- `<` of `std::string`: lexicographic by unsigned bytes. -/
def ltStr : List UInt8 → List UInt8 → Bool
  | _, [] => false
  | [], _ :: _ => true
  | a :: s, b :: t => decide (a.toNat < b.toNat) || (a == b && ltStr s t)

/-- PTable.hpp:852-857, 876-881: a new minimum and maximum of a column of `w`-byte values. -/
def smaScalar (w : Nat) (lt : Nat → Nat → Bool) (sma cnt x : Nat) (b : Blk) : Res Blk := do
  let mn ← rd b sma w
  let b ← (if lt x mn || cnt = 0 then put b sma (enc w x) else .ok b)
  let mx ← rd b (sma + w) w
  (if lt mx x || cnt = 0 then put b (sma + w) (enc w x) else .ok b)

/-- PTable.hpp:842-864 (`w = 4`), 866-886 (`w = 8`): store a value in its column; the result has its offset. -/
def insertScalar (w : Nat) (lt : Nat → Nat → Bool) (sma data cnt x : Nat) (b : Blk) : Res (Blk × Nat) := do
  let off := data + cnt * w
  let b ← put b off (enc w x)
  let b ← smaScalar w lt sma cnt x b
  pure (b, off % 65536)

/-- PTable.hpp:913-926: minimum and maximum of a string column are offsets of strings. -/
def smaString (sma cnt pos : Nat) (s : List UInt8) (b : Blk) : Res Blk :=
  if cnt ≠ 0 then do
    let mnPos ← rd b sma 2
    let mxPos ← rd b (sma + 2) 2
    let mn ← cstr b mnPos
    let mx ← cstr b mxPos
    if ltStr s mn then put b sma (enc 2 pos)
    else if ltStr mx s then put b (sma + 2) (enc 2 pos)
    else .ok b
  else do
    let b ← put b sma (enc 2 pos)
    put b (sma + 2) (enc 2 pos)

/-- PTable.hpp:888-932: store a string from the end of the minipage and its offset in the offset vector. -/
def insertString (n idx sma data cnt : Nat) (s : List UInt8) (b : Blk) : Res (Blk × Nat) := do
  let slot := data + cnt * 2
  let pos ← (if cnt = 0 then do
      let e ← pageEnd b n idx
      pure (sub16 e (s.length + 1))
    else do
      let last ← rd b (slot - 2) 2
      pure (sub16 last (s.length + 1)))
  let b ← put b slot (enc 2 pos)
  let b ← put b pos (s ++ [0])
  let b ← smaString sma cnt pos s b
  pure (b, pos)

/-- PTable.hpp:838-938: one column. -/
def insertCol (n cnt idx : Nat) (v : Val) (b : Blk) : Res (Blk × Nat) := do
  let sma ← smaPos b idx
  let data ← dataPos b idx
  match v with
  | .int x => insertScalar 4 ltInt sma data cnt x.toNat b
  | .dbl x => insertScalar 8 ltDbl sma data cnt x.toNat b
  | .str s => insertString n idx sma data cnt s b

/-- PTable.hpp:859, 883, 929: contribution of a value to `recordSize`. -/
def Val.recSize : Val → Nat
  | .int _ => 4
  | .dbl _ => 8
  | .str s => s.length + 1 + 2

/-- PTable.hpp:838-938: the loop over the columns; the result has the offsets of the `PTuple`. -/
def insertCols (n cnt : Nat) : Nat → List Val → Blk → Res (Blk × List Nat)
  | _, [], b => .ok (b, [])
  | idx, v :: vs, b => do
    let r ← insertCol n cnt idx v b
    let r' ← insertCols n cnt (idx + 1) vs r.1
    pure (r'.1, r.2 :: r'.2)

/-- PTable.hpp:828-941: the changes of `insertTuple` in the block of a table with `n` columns. -/
def insertBlk (n : Nat) (vs : List Val) (b : Blk) : Res (Blk × List Nat) := do
  let cnt ← count b
  let r ← insertCols n cnt 0 vs b
  let b ← put r.1 8 (enc 4 (cnt + 1))
  let free ← rd b 12 2
  let b ← put b 12 (enc 2 (sub16 free (vs.map Val.recSize).sum))
  pure (b, r.2)

/-- serialize.hpp `get_size`: the size of a serialised value. -/
def Val.serSize : Val → Nat
  | .int _ => 4
  | .dbl _ => 8
  | .str s => 8 + s.length

/-- PTable.hpp:1303-1345: is there space for the value in the minipage? -/
def colSpace (n cnt idx : Nat) (v : Val) (b : Blk) : Res Bool := do
  let data ← dataPos b idx
  match v with
  | .int _ => do
    let e ← pageEnd b n idx
    pure (decide (4 ≤ sub64 e (data + cnt * 4)))
  | .dbl _ => do
    let e ← pageEnd b n idx
    pure (decide (8 ≤ sub64 e (data + cnt * 8)))
  | .str s => do
    let free ← (if cnt ≠ 0 then do
        let cur ← rd b (data + cnt * 2 - 2) 2
        pure (sub16 cur (data + cnt * 2))
      else do
        let e ← pageEnd b n idx
        pure (sub16 e data))
    pure (decide (s.length + 1 + 2 ≤ free))

/-- PTable.hpp:1300-1348: the loop over the columns. -/
def colsSpace (n cnt : Nat) : Nat → List Val → Blk → Res Bool
  | _, [], _ => .ok true
  | idx, v :: vs, b => do
    let e ← colSpace n cnt idx v b
    if e then colsSpace n cnt (idx + 1) vs b else .ok false

/-- PTable.hpp:1270-1350 `hasEnoughSpace`. -/
def hasEnoughSpace (n : Nat) (vs : List Val) (b : Blk) : Res Bool := do
  let free ← rd b 12 2
  if free < (vs.map Val.serSize).sum then .ok false else do
    let cnt ← count b
    colsSpace n cnt 0 vs b

/-- PTuple.hpp:53-103 `get_helper`: the attribute of type `t` at an offset. -/
def readAttr (b : Blk) (t : Ty) (off : Nat) : Res Val :=
  match t with
  | .int => do
    let x ← rd b off 4
    pure (.int (BitVec.ofNat 32 x))
  | .dbl => do
    let x ← rd b off 8
    pure (.dbl (BitVec.ofNat 64 x))
  | .str => do
    let s ← cstr b off
    pure (.str s)

/-- PTable.hpp:1140-1172: minimum and maximum of a column as read by `getCandidateBlocks`. -/
def readSma (b : Blk) (idx : Nat) (t : Ty) : Res (Val × Val) := do
  let sma ← smaPos b idx
  match t with
  | .int => do
    let mn ← rd b sma 4
    let mx ← rd b (sma + 4) 4
    pure (.int (BitVec.ofNat 32 mn), .int (BitVec.ofNat 32 mx))
  | .dbl => do
    let mn ← rd b sma 8
    let mx ← rd b (sma + 8) 8
    pure (.dbl (BitVec.ofNat 64 mn), .dbl (BitVec.ofNat 64 mx))
  | .str => do
    let p ← rd b sma 2
    let q ← rd b (sma + 2) 2
    let mn ← cstr b p
    let mx ← cstr b q
    pure (.str mn, .str mx)

/-- Offer records to a block one after the other: a record for which `hasEnoughSpace` answers yes is inserted.
The result has the inserted records with the offsets returned for them (oldest first). -/
def fill (n : Nat) : List (List Val) → Blk → Res (Blk × List (List Val × List Nat))
  | [], b => .ok (b, [])
  | vs :: rest, b => do
    let e ← hasEnoughSpace n vs b
    if e then do
      let r ← insertBlk n vs b
      let q ← fill n rest r.1
      pure (q.1, (vs, r.2) :: q.2)
    else fill n rest b

end Verif.PTable
