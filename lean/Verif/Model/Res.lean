import Mathlib.Algebra.Field.Basic
import Mathlib.Order.Defs.LinearOrder

/-!
# Outcomes of a C++ evaluation

`numeric/functional.hpp:249-259` (`fdiv`) and the general convention of the model: undefined
behaviour, exceptions, non-termination and non-finite floating point values are outcomes of their
own, never silently totalised.
-/

namespace Acc

universe u v

/-- Outcome of evaluating a C++ expression of value type `α`. -/
inductive Res (α : Type u) where
  /-- an ordinary (finite) value -/
  | val (a : α)
  /-- NaN or infinity: division by zero in floating point, or a deliberately returned quiet NaN.
      Simplification: all non-finite values are identified and absorb every operation. -/
  | nonfinite
  /-- an exception was thrown -/
  | thrown
  /-- undefined behaviour (out-of-range access, past-the-end dereference, failed precondition) -/
  | ub
  /-- the evaluation never terminates -/
  | diverges
  deriving Repr, DecidableEq

namespace Res

variable {α : Type u} {β : Type v}

/-- Sequencing: the first abnormal outcome wins. -/
def bind (r : Res α) (f : α → Res β) : Res β :=
  match r with
  | val a => f a
  | nonfinite => nonfinite
  | thrown => thrown
  | ub => ub
  | diverges => diverges

instance : Monad Res where
  pure := val
  bind r f := Res.bind r f

@[simp] theorem pure_eq (a : α) : (pure a : Res α) = val a := rfl
@[simp] theorem val_bind {β : Type u} (a : α) (f : α → Res β) : (val a >>= f) = f a := rfl
@[simp] theorem nonfinite_bind {β : Type u} (f : α → Res β) :
    ((nonfinite : Res α) >>= f) = nonfinite := rfl
@[simp] theorem ub_bind {β : Type u} (f : α → Res β) : ((ub : Res α) >>= f) = ub := rfl
@[simp] theorem thrown_bind {β : Type u} (f : α → Res β) :
    ((thrown : Res α) >>= f) = thrown := rfl
@[simp] theorem diverges_bind {β : Type u} (f : α → Res β) :
    ((diverges : Res α) >>= f) = diverges := rfl
@[simp] theorem map_val {β : Type u} (a : α) (f : α → β) : f <$> (val a) = val (f a) := rfl

end Res

/-- The arithmetic operations of a number type, without any laws: the code is modelled once, for every such type.
The theorems on exact results instantiate it with a field, those on rounding with a type of rounded numbers. -/
class Arith (K : Type u) extends Add K, Sub K, Mul K, Div K, Neg K, Zero K, One K, NatCast K

/-- Exact arithmetic. -/
instance (priority := 100) {K : Type u} [Field K] : Arith K where

/-- `std::ceil` for a number type: the result is a whole number, which a binary floating point type represents exactly. -/
class Ceil (K : Type) where
  ceilZ : K → ℤ

export Ceil (ceilZ)

section
variable {K : Type u}

/-- Floating point division: `numeric/functional.hpp:249-259` (`fdiv`, integral operands are first
converted to `double`, so the quotient is exact here) and plain `/` on floating operands.
Dividing by zero yields infinity or NaN. -/
def fdiv [Arith K] [DecidableEq K] (a b : K) : Res K := if b = 0 then .nonfinite else .val (a / b)

variable [Field K] [DecidableEq K]

theorem fdiv_ne {a b : K} (h : b ≠ 0) : fdiv a b = .val (a / b) := by simp [fdiv, h]
@[simp] theorem fdiv_zero (a : K) : fdiv a 0 = .nonfinite := by simp [fdiv]
@[simp] theorem fdiv_one (a : K) : fdiv a 1 = .val a := by simp [fdiv]

end

end Acc
