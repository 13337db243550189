import Verif.Res

/-!
# Model of src/ptable/core/serialize.hpp

Types are described by `Ty`, values by `Val`.  A scalar type is any trivially copyable type of a given
size; its value is its object representation (`sizeof(T)` bytes).  `size_t` has 8 bytes, little
endian.  Sums of sizes are natural numbers (no overflow of `size_t`; the data is in memory).
-/

namespace Verif.Ser

abbrev Byte := UInt8
abbrev Stream := List Byte

/-- Serializable types: trivially copyable of `n` bytes, `std::string`, `std::vector<t>`, and
non-empty tuples, written as `tupLast t` (last component) and `tupCons t r` (component followed by the
remaining components); this is the recursion `int_<0>` / `int_<pos>` of the code. -/
inductive Ty where
  | scalar (n : Nat)
  | str
  | vec (t : Ty)
  | tupLast (t : Ty)
  | tupCons (t : Ty) (r : Ty)
deriving DecidableEq, Repr

/-- Values. -/
def Val : Ty → Type
  | .scalar n => { l : List Byte // l.length = n }
  | .str => List Byte
  | .vec t => List (Val t)
  | .tupLast t => Val t
  | .tupCons t r => Val t × Val r

/-- serialize.hpp:41-101 `get_size`. -/
def getSize : (t : Ty) → Val t → Nat
  | .scalar n, _ => n
  | .str, s => 8 + List.length (α := Byte) s * 1
  | .vec t, v => List.foldl (fun acc cur => acc + getSize t cur) 8 (show List (Val t) from v)
  | .tupLast t, v => getSize t v
  | .tupCons t r, v => getSize t v.1 + getSize r v.2

/-- Object representation of a `size_t`. -/
def encSize (n : Nat) : List Byte :=
  (List.range 8).map (fun i => UInt8.ofNat (n / 256 ^ i))

/-- Value of an 8-byte object representation of a `size_t`. -/
def decSize (l : List Byte) : Nat :=
  l.foldr (fun b acc => b.toNat + 256 * acc) 0

/-- serialize.hpp:161-170: copy the bytes of a scalar to the iterator position; writing past the end of
the vector is undefined behaviour. The state is the stream and the iterator. -/
def writeBytes (bs : List Byte) (st : Stream × Nat) : Res (Stream × Nat) :=
  if st.2 + bs.length ≤ st.1.length then
    .ok (st.1.take st.2 ++ bs ++ st.1.drop (st.2 + bs.length), st.2 + bs.length)
  else .ub

/-- serialize.hpp:139-148, `std::string`: the length, then the characters. -/
def serStr (s : List Byte) (st : Stream × Nat) : Res (Stream × Nat) := do
  let st ← writeBytes (encSize s.length) st
  s.foldlM (fun st c => writeBytes [c] st) st

/-- serialize.hpp:103-177 `serializer`. -/
def serializer : (t : Ty) → Val t → Stream × Nat → Res (Stream × Nat)
  | .scalar _, v, st => writeBytes v.1 st
  | .str, s, st => serStr s st
  | .vec t, v, st => do
    let st ← writeBytes (encSize (List.length (α := Val t) v)) st
    List.foldlM (fun st c => serializer t c st) st (show List (Val t) from v)
  | .tupLast t, v, st => serializer t v st
  | .tupCons t r, v, st => do
    let st ← serializer t v.1 st
    serializer r v.2 st

/-- serialize.hpp:181-191 `serialize(obj, res)`. -/
def serialize (t : Ty) (v : Val t) (res : Stream) : Res Stream := do
  let size := getSize t v
  let st ← serializer t v (res ++ List.replicate size 0, res.length)
  if res.length + size = st.2 then pure st.1 else .assertFail

/-- serialize.hpp:198-211: read `n` bytes; the assert fails if fewer remain. -/
def readBytes (n : Nat) (s : Stream) (pos : Nat) : Res (List Byte × Nat) :=
  if pos + n ≤ s.length then .ok ((s.drop pos).take n, pos + n) else .assertFail

/-- Run a reader `n` times (the loops at serialize.hpp:223-225 and 242-244). -/
def readMany {α : Type} (f : Nat → Res (α × Nat)) : Nat → Nat → Res (List α × Nat)
  | 0, pos => .ok ([], pos)
  | n + 1, pos => do
    let (x, pos) ← f pos
    let (xs, pos) ← readMany f n pos
    pure (x :: xs, pos)

/-- serialize.hpp:243: one character. -/
def readChar (s : Stream) (pos : Nat) : Res (Byte × Nat) := do
  let r ← readBytes 1 s pos
  pure (r.1.headD 0, r.2)

/-- serialize.hpp:230-247, `std::string`. -/
def deserStr (s : Stream) (pos : Nat) : Res (List Byte × Nat) := do
  let r ← readBytes 8 s pos
  if decSize r.1 = 0 then pure ([], r.2)
  else readMany (readChar s) (decSize r.1) r.2

/-- serialize.hpp:195-286 `deserialize_helper<T>::apply(begin, end)`; `pos` is the iterator, `end` is the
end of `s`. -/
def deserializer : (t : Ty) → Stream → Nat → Res (Val t × Nat)
  | .scalar n, s, pos => do
    let r ← readBytes n s pos
    if h : r.1.length = n then pure (⟨r.1, h⟩, r.2) else .ub
  | .str, s, pos => deserStr s pos
  | .vec t, s, pos => do
    let r ← readBytes 8 s pos
    readMany (deserializer t s) (decSize r.1) r.2
  | .tupLast t, s, pos => deserializer t s pos
  | .tupCons t r, s, pos => do
    let a ← deserializer t s pos
    let b ← deserializer r s a.2
    pure ((a.1, b.1), b.2)

/-- serialize.hpp:296-301 `deserialize(res)`. -/
def deserialize (t : Ty) (s : Stream) : Res (Val t) := do
  let r ← deserializer t s 0
  pure r.1

end Verif.Ser
