import Verif.Bitmap.Model
import Mathlib.Data.Finset.Card
import Mathlib.Data.Finset.Filter

/-! # Specification of bitmaps: a history of point and whole-bitmap updates

The specification does not mention words; it is a function from positions to Booleans. -/

namespace Verif.BitmapSpec

/-- A call on a bitmap. -/
inductive Op where
  | set (pos : Nat) (value : Bool)
  | reset (pos : Nat)
  | flip
  | setAll
deriving DecidableEq, Repr

/-- Point updates only. -/
def Op.isPoint : Op → Bool
  | .set _ _ => true
  | .reset _ => true
  | _ => false

/-- Abstract effect of a point update on a bitmap of `NB` positions: out-of-range positions are
ignored. -/
def pointStep (NB : Nat) (s : Nat → Bool) : Op → (Nat → Bool)
  | .set p v => fun j => if j = p ∧ p < NB then v else s j
  | .reset p => fun j => if j = p ∧ p < NB then false else s j
  | _ => s

/-- Running a call on the model; a call that throws leaves the object unchanged. The second
component tells whether the call threw. -/
def apply {NB : Nat} (b : Bitmap NB) (o : Op) : Bitmap NB × Bool :=
  match o with
  | .set p v => match b.set p v with
    | .ok b' => (b', false)
    | _ => (b, true)
  | .reset p => match b.reset p with
    | .ok b' => (b', false)
    | _ => (b, true)
  | .flip => (b.flip, false)
  | .setAll => (b.setAll, false)

/-- State after a history of calls on a fresh bitmap. -/
def run (NB : Nat) (ops : List Op) : Bitmap NB :=
  ops.foldl (fun b o => (apply b o).1) (Bitmap.fresh NB)

/-- The positions below `NB` that test true. -/
def members {NB : Nat} (b : Bitmap NB) : Finset Nat :=
  (Finset.range NB).filter (fun p => b.test p = .ok true)

end Verif.BitmapSpec
