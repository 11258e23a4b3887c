import Mathlib.Data.List.Sort
import Mathlib.Order.Defs.LinearOrder

/-! # Specification: the most extreme elements of a stream -/

namespace Acc

/-- Which tail: `statistics_fwd.hpp` tag types `left` and `right`. -/
inductive Side where
  | left
  | right
  deriving Repr, DecidableEq

namespace Spec

variable {α : Type*} [LinearOrder α]

/-- `a` is at least as extreme as `b`: at least as large (right tail), at most as large (left). -/
def geExt : Side → α → α → Prop
  | .right, a, b => b ≤ a
  | .left, a, b => a ≤ b

/-- `a` is strictly more extreme than `b`. -/
def gtExt : Side → α → α → Prop
  | .right, a, b => b < a
  | .left, a, b => a < b

instance (s : Side) : DecidableRel (geExt (α := α) s) := fun a b => by
  cases s <;> (unfold geExt; infer_instance)
instance (s : Side) : DecidableRel (gtExt (α := α) s) := fun a b => by
  cases s <;> (unfold gtExt; infer_instance)

/-- The whole stream ordered from the most extreme to the least extreme value. -/
def byExtremity (s : Side) (xs : List α) : List α := xs.insertionSort (geExt s)

/-- The `k` most extreme values of a stream, most extreme first. -/
def extremes (s : Side) (k : ℕ) (xs : List α) : List α := (byExtremity s xs).take k

end Spec
end Acc
