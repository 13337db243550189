import Mathlib.Order.Defs.LinearOrder

/-!
# Specification of histories with crashes

A history consists of completed inserts and of inserts that a crash interrupts; after every crash the data structure is
recovered.  It does not refer to any model.
-/

namespace Verif.CrashHistSpec

variable {K V : Type} [DecidableEq K]

/-- An event: a completed insert, or an insert interrupted after `t` assignments to persistent memory and the recovery. -/
inductive Ev (K V : Type) where
  | insert (k : K) (v : V)
  | crash (k : K) (v : V) (t : Nat)

/-- The key of an event. -/
def Ev.key : Ev K V → K
  | .insert k _ => k
  | .crash k _ _ => k

/-- What a lookup of `x` may give after a history: the value of the last completed insert of `x`, or that of an interrupted
insert of `x` after it; `P` is what it may give before. -/
def May (x : K) : (Option V → Prop) → List (Ev K V) → Option V → Prop
  | P, [] => P
  | P, .insert k v :: es => May x (fun r => if x = k then r = some v else P r) es
  | P, .crash k v _ :: es => May x (fun r => P r ∨ x = k ∧ r = some v) es

/-- The same if a crash may remove any key. -/
def MayLose (x : K) : (Option V → Prop) → List (Ev K V) → Option V → Prop
  | P, [] => P
  | P, .insert k v :: es => MayLose x (fun r => if x = k then r = some v else P r) es
  | P, .crash k v _ :: es => MayLose x (fun r => P r ∨ x = k ∧ r = some v ∨ r = none) es

end Verif.CrashHistSpec
