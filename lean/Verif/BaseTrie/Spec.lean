import Verif.MapSpec

/-!
# Specification of the trie: maps from byte strings

`Verif.MapSpec` is the map everybody expects.  `lossyStep` describes what `remove` really does.
-/

namespace Verif.TrieSpec

open Verif.MapSpec

variable {B V : Type} [DecidableEq B]

/-- `x` disappears when `k` is removed: `x` is `k`, or a non-empty prefix of `k` such that every stored key
that continues `x` is itself a prefix of `k`. -/
def Lost (m : List B → Option V) (k x : List B) : Prop :=
  x = k ∨ x ≠ [] ∧ x <+: k ∧ ∀ y, m y ≠ none → x <+: y → y <+: k

open Classical in
/-- One operation; the removal of an absent key changes nothing. -/
noncomputable def lossyStep (m : List B → Option V) : Op (List B) V → List B → Option V
  | .insert k v => step m (.insert k v)
  | .erase k => fun x => if m k ≠ none ∧ Lost m k x then none else m x

/-- The map after a history. -/
noncomputable def lossyRun : (List B → Option V) → List (Op (List B) V) → List B → Option V
  | m, [] => m
  | m, op :: ops => lossyRun (lossyStep m op) ops

/-- The result of one operation: `insert` reports a new key, `remove` a stored key. -/
def result (m : List B → Option V) : Op (List B) V → Bool
  | .insert k _ => (m k).isNone
  | .erase k => (m k).isSome

/-- The results of a history. -/
noncomputable def lossyResults : (List B → Option V) → List (Op (List B) V) → List Bool
  | _, [] => []
  | m, op :: ops => result m op :: lossyResults (lossyStep m op) ops

/-- No removed key has a non-empty stored proper prefix at the time of its removal. -/
def PrefixFree : (List B → Option V) → List (Op (List B) V) → Prop
  | _, [] => True
  | m, .insert k v :: ops => PrefixFree (step m (.insert k v)) ops
  | m, .erase k :: ops => (∀ x, x ≠ [] → x ≠ k → x <+: k → m x = none) ∧ PrefixFree (step m (.erase k)) ops

end Verif.TrieSpec
