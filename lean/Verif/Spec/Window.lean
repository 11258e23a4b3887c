import Mathlib.Data.List.Basic

/-! # Specification: the last `N` elements of a stream -/

namespace Acc.Spec

/-- The last `min n N` elements of a stream of length `n`, in order of arrival. -/
def lastN {X : Type*} (N : ℕ) (xs : List X) : List X := xs.drop (xs.length - N)

end Acc.Spec
