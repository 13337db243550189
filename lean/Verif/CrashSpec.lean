import Verif.Res

/-!
# Specification of crash atomicity

An operation that is interrupted by a crash is atomic if, after the restart, all lookups together are those
of the map before the operation, or all lookups together are those of the map after the operation.
-/

namespace Verif.CrashSpec

/-- The lookups `look` are those of the map `m`. -/
def Reads {K V : Type} (look : K → Res (Option V)) (m : K → Option V) : Prop := ∀ k, look k = .ok (m k)

/-- The lookups are those of the map `m` before or those of the map `m'` after the operation. -/
def BeforeOrAfter {K V : Type} (look : K → Res (Option V)) (m m' : K → Option V) : Prop :=
  Reads look m ∨ Reads look m'

/-- The same for the keys in `A` only. -/
def ReadsOn {K V : Type} (A : K → Prop) (look : K → Res (Option V)) (m : K → Option V) : Prop :=
  ∀ k, A k → look k = .ok (m k)

/-- The same for the keys in `A` only. -/
def BeforeOrAfterOn {K V : Type} (A : K → Prop) (look : K → Res (Option V)) (m m' : K → Option V) : Prop :=
  ReadsOn A look m ∨ ReadsOn A look m'

end Verif.CrashSpec
