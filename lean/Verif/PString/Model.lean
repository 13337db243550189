import Verif.Res

/-!
# Model of `PString` (ptable/core/PString.hpp)

A string of at most 15 characters is stored in the object, a longer one in persistent memory of its own.  The heap
maps the numbers of allocated arrays to their bytes; an access through a pointer to an array that has been freed, or
behind the end of an array, is undefined behaviour.  A freed number is not used again.  Snapshots for the transaction
(`pmemobj_tx_add_range_direct`) are not modelled.
-/

namespace Verif.PString

open Verif

/-- The allocated arrays. -/
structure Heap where
  block : Nat → Option (List UInt8)
  next : Nat

/-- PString.hpp:44-45: the members of `PString`. -/
structure Str where
  sso : List UInt8
  str : Option Nat

/-- PString.hpp:31 `SSO_CHARS`. -/
def ssoChars : Nat := 15

/-- Reading a C string: the bytes up to the first NUL, which must lie inside the array. -/
def cstr (a : List UInt8) : Res (List UInt8) := if 0 ∈ a then .ok (a.takeWhile (· ≠ 0)) else .ub

/-- `strcpy(dst, src.c_str())`: copies up to and including the first NUL. -/
def strcpy (dst src : List UInt8) : Res (List UInt8) :=
  let s := src.takeWhile (· ≠ 0) ++ [0]
  if s.length ≤ dst.length then .ok (s ++ dst.drop s.length) else .ub

/-- Access to an array. -/
def Heap.get (h : Heap) (p : Nat) : Res (List UInt8) := Res.ofOption (h.block p)

/-- `make_persistent<char[]>(n)`: the elements are value-initialised. -/
def Heap.alloc (h : Heap) (n : Nat) : Heap × Nat := (⟨fun q => if q = h.next then some (List.replicate n 0) else h.block q, h.next + 1⟩, h.next)

/-- `delete_persistent<char[]>(str, strlen(str.get()) + 1)`. -/
def Heap.delete (h : Heap) (p : Nat) : Res Heap := do
  let a ← h.get p
  let _ ← cstr a
  pure { h with block := fun q => if q = p then none else h.block q }

/-- PString.hpp:37 `data`: the C string at the returned address. -/
def data (h : Heap) (s : Str) : Res (List UInt8) :=
  match s.str with
  | some p => do
    let a ← h.get p
    cstr a
  | none => cstr s.sso

/-- PString.hpp:57-60, 64: `if (str) delete_persistent<char[]>(str, strlen(str.get()) + 1)`. -/
def release (h : Heap) (s : Str) : Res Heap :=
  match s.str with
  | some p => h.delete p
  | none => .ok h

/-- PString.hpp:48-52 `reset`. -/
def reset (h : Heap) (s : Str) : Res (Heap × Str) := do
  let h' ← release h s
  pure (h', { s with sso := s.sso.set 0 0 })

/-- PString.hpp:54-69 `set`. -/
def set (h : Heap) (s : Str) (value : List UInt8) : Res (Heap × Str) :=
  if value.length ≤ ssoChars then do
    let h' ← release h s
    let a ← strcpy s.sso value
    pure (h', ⟨a, none⟩)
  else do
    let h1 ← release h s
    let (h2, p) := h1.alloc (value.length + 1)
    let a ← h2.get p
    let a' ← strcpy a value
    pure ({ h2 with block := fun q => if q = p then some a' else h2.block q }, { s with str := some p })

end Verif.PString
