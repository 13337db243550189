/-!
# Model of `BaseTrieNode` (src/ptries/BaseTrie.hpp)

Every node is owned by exactly one child pointer, so a trie is a value.  Transactions, printing and the pool
are not modelled.  A deleted child and everything below it (destructor, 41-53) disappears with the pointer.
`int` overflow of `subNodes` (more than `2 ^ 31` nodes) is not modelled.
-/

namespace Verif.BaseTrie

/-- One byte of a key. -/
abbrev Byte := Fin 256

/-- 66-70: `null` is a null child pointer; a node has `mIsValue`, `mValue` (`none`: not yet written),
`mSize` (`uint16_t`) and `mChildren`. -/
inductive Trie (V : Type) where
  | null
  | node (isValue : Bool) (value : Option V) (size : Nat) (kids : Byte → Trie V)

variable {V : Type}

namespace Trie

def isNull : Trie V → Bool
  | null => true
  | node .. => false

/-- 66-70: the state of a new node. -/
def new : Trie V := node false none 0 fun _ => null

/-- `uint16_t` arithmetic. -/
def u16 (n : Nat) : Nat := n % 65536

/-- Assignment to one child pointer. -/
def setKid (kids : Byte → Trie V) (b : Byte) (t : Trie V) : Byte → Trie V :=
  fun x => if x = b then t else kids x

/-- 75-104 `insert`: walks down, creates missing nodes, writes the value; `true` for a new key.  The loop is
modelled as a recursion that rebuilds the path (on `null` it is never called). -/
def insert : Trie V → List Byte → V → Bool × Trie V
  | null, _, _ => (false, null)
  | node iv _ s kids, [], v => (!iv, node true (some v) s kids)
  | node iv w s kids, b :: k, v =>
    match kids b with
    | null =>
      let r := insert new k v
      (r.1, node iv w (u16 (s + 1)) (setKid kids b r.2))
    | child =>
      let r := insert child k v
      (r.1, node iv w s (setKid kids b r.2))

/-- 107-127 `lookup`: the loop counter is a `uint8_t`, so it wraps around at 256.  The value is the content
of `mValue` (`some none` would be an unwritten value). -/
def lookupFrom (key : List Byte) : Trie V → Nat → Option (Option V)
  | null, _ => none
  | node iv v _ kids, i =>
    if h : i < key.length then lookupFrom key (kids key[i]) ((i + 1) % 256)
    else if iv then some v else none

def lookup (t : Trie V) (key : List Byte) : Option (Option V) := lookupFrom key t 0

def size : Trie V → Nat
  | null => 0
  | node _ _ s _ => s

/-- 130-160 `remove`. -/
def remove : Trie V → List Byte → Bool × Trie V
  | null, _ => (false, null)
  | node iv v s kids, [] => (iv, node false v s kids)
  | node iv v s kids, b :: k =>
    match kids b with
    | null => (false, node iv v s kids)
    | child =>
      let r := remove child k
      if r.1 && r.2.size == 0 then (true, node iv v (u16 (s + 65535)) (setKid kids b null))
      else (r.1, node iv v s (setKid kids b r.2))

/-- 167-178: the loop of `subNodes` over the children in order, `c` of the `size` children found, `f` the
recursive call. -/
def subLoop (f : Byte → Nat) (nn : Byte → Bool) (size : Nat) : List Byte → Nat → Nat → Nat
  | [], _, count => count
  | b :: bs, c, count =>
    if c = size then count
    else if nn b then subLoop f nn size bs (c + 1) (count + f b)
    else subLoop f nn size bs c count

/-- 163-180 `subNodes`. -/
def subNodes : Trie V → Nat
  | null => 0
  | node _ _ s kids =>
    subLoop (fun b => subNodes (kids b)) (fun b => !(kids b).isNull) s (List.finRange 256) 0 0 + 1

end Trie

end Verif.BaseTrie
