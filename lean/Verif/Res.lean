/-!
# Outcomes of C++ operations

Undefined behaviour, thrown exceptions and failed assertions are outcomes of their own; a theorem
that says `= .ok x` therefore also says that none of them happens.
-/

namespace Verif

/-- Result of running a piece of C++ code.
* `ok a` : normal result;
* `ub` : undefined behaviour (out-of-bounds access, null dereference, use after free, ...);
* `throws` : a C++ exception is thrown;
* `assertFail` : an `assert` fails (debug builds). -/
inductive Res (α : Type _) where
  | ok (a : α)
  | ub
  | throws
  | assertFail
deriving DecidableEq, Repr

namespace Res

variable {α β γ : Type _}

/-- Sequencing: a non-`ok` outcome ends the computation. -/
def bind (x : Res α) (f : α → Res β) : Res β :=
  match x with
  | ok a => f a
  | ub => ub
  | throws => throws
  | assertFail => assertFail

instance : Monad Res where
  pure := Res.ok
  bind := Res.bind

@[simp] theorem ok_bind (a : α) (f : α → Res β) : (Res.ok a >>= f) = f a := rfl
@[simp] theorem pure_eq (a : α) : (pure a : Res α) = .ok a := rfl
@[simp] theorem ub_bind (f : α → Res β) : ((Res.ub : Res α) >>= f) = .ub := rfl
@[simp] theorem throws_bind (f : α → Res β) : ((Res.throws : Res α) >>= f) = .throws := rfl
@[simp] theorem assertFail_bind (f : α → Res β) : ((Res.assertFail : Res α) >>= f) = .assertFail := rfl

theorem bind_eq_ok {x : Res α} {f : α → Res β} {b : β} :
    (x >>= f) = .ok b ↔ ∃ a, x = .ok a ∧ f a = .ok b := by
  cases x <;> simp [Bind.bind, Res.bind]

theorem bind_assoc' {γ : Type _} (x : Res α) (f : α → Res β) (g : β → Res γ) :
    ((x >>= f) >>= g) = x >>= fun a => f a >>= g := by
  cases x <;> rfl

/-- C++ `assert(c)`. -/
def assert (c : Prop) [Decidable c] : Res Unit := if c then .ok () else .assertFail

/-- Memory access that is undefined behaviour unless `c` holds. -/
def guardUB (c : Prop) [Decidable c] : Res Unit := if c then .ok () else .ub

@[simp] theorem guardUB_pos {c : Prop} [Decidable c] (h : c) : guardUB c = .ok () := if_pos h
@[simp] theorem guardUB_neg {c : Prop} [Decidable c] (h : ¬ c) : guardUB c = .ub := if_neg h
@[simp] theorem assert_pos {c : Prop} [Decidable c] (h : c) : Res.assert c = .ok () := if_pos h
@[simp] theorem assert_neg {c : Prop} [Decidable c] (h : ¬ c) : Res.assert c = .assertFail := if_neg h

/-- Dereference of a possibly-null or dangling pointer. -/
def ofOption : Option α → Res α
  | some a => .ok a
  | none => .ub

@[simp] theorem ofOption_some (a : α) : ofOption (some a) = .ok a := rfl
@[simp] theorem ofOption_none : ofOption (none : Option α) = .ub := rfl

end Res
end Verif
