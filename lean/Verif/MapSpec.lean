import Mathlib.Order.Defs.LinearOrder

/-!
# Specification of an ordered map

Used to state the properties of the trees, tries and skip lists.  It does not refer to any model.
-/

namespace Verif.MapSpec

variable {K V : Type}

/-- An update of a map. -/
inductive Op (K V : Type) where
  | insert (k : K) (v : V)
  | erase (k : K)

section
variable [DecidableEq K]

/-- The map without entries. -/
def empty : K → Option V := fun _ => none

/-- Effect of an update. -/
def step (m : K → Option V) : Op K V → K → Option V
  | .insert k v => fun x => if x = k then some v else m x
  | .erase k => fun x => if x = k then none else m x

/-- What an update returns: `erase` tells whether the key was there. -/
def out (m : K → Option V) : Op K V → Bool
  | .insert _ _ => true
  | .erase k => (m k).isSome

/-- The map after a history. -/
def run : (K → Option V) → List (Op K V) → K → Option V
  | m, [] => m
  | m, op :: ops => run (step m op) ops

/-- The results of a history. -/
def outs : (K → Option V) → List (Op K V) → List Bool
  | _, [] => []
  | m, op :: ops => out m op :: outs (step m op) ops

/-- Every `erase` of the history is called for a key that is present. -/
def ErasesPresent : (K → Option V) → List (Op K V) → Prop
  | _, [] => True
  | m, .insert k v :: ops => ErasesPresent (step m (.insert k v)) ops
  | m, .erase k :: ops => m k ≠ none ∧ ErasesPresent (step m (.erase k)) ops

/-- The history consists of inserts. -/
def InsertsOnly (ops : List (Op K V)) : Prop := ∀ op ∈ ops, ∃ k v, op = .insert k v

end

/-- A history in two parts. -/
theorem run_append [DecidableEq K] : ∀ (a b : List (Op K V)) (m : K → Option V), run m (a ++ b) = run (run m a) b
  | [], _, _ => rfl
  | op :: a, b, m => run_append a b (step m op)

/-- `es` lists every entry of the map exactly once, in any order. -/
def ListsOnce (m : K → Option V) (es : List (K × V)) : Prop :=
  (es.map Prod.fst).Nodup ∧ ∀ k v, (k, v) ∈ es ↔ m k = some v

variable [LinearOrder K]

/-- `es` lists every entry of the map with `lo ≤ key ≤ hi` exactly once, in any order. -/
def ListsRangeOnce (m : K → Option V) (lo hi : K) (es : List (K × V)) : Prop :=
  (es.map Prod.fst).Nodup ∧ ∀ k v, (k, v) ∈ es ↔ lo ≤ k ∧ k ≤ hi ∧ m k = some v

/-- `es` lists every entry of the map exactly once, in strictly increasing key order. -/
def Lists (m : K → Option V) (es : List (K × V)) : Prop :=
  es.Pairwise (fun a b => a.1 < b.1) ∧ ∀ k v, (k, v) ∈ es ↔ m k = some v

/-- `es` lists every entry of the map with `lo ≤ key ≤ hi` exactly once, in strictly increasing key
order. -/
def ListsRange (m : K → Option V) (lo hi : K) (es : List (K × V)) : Prop :=
  es.Pairwise (fun a b => a.1 < b.1) ∧ ∀ k v, (k, v) ∈ es ↔ lo ≤ k ∧ k ≤ hi ∧ m k = some v

end Verif.MapSpec
