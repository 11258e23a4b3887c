import Mathlib.Algebra.Field.Basic

/-! # Specification: interpolating polynomials -/

namespace Acc.Spec

variable {K : Type} [Field K]

/-- The straight line through `(p0, h0)` and `(p1, h1)`. -/
def line (p0 p1 h0 h1 p : K) : K := h0 + (p - p0) / (p1 - p0) * (h1 - h0)

/-- The parabola through three points (Lagrange's formula). -/
def parabola (p0 p1 p2 h0 h1 h2 p : K) : K :=
  h0 * ((p - p1) * (p - p2) / ((p0 - p1) * (p0 - p2)))
    + h1 * ((p - p0) * (p - p2) / ((p1 - p0) * (p1 - p2)))
    + h2 * ((p - p0) * (p - p1) / ((p2 - p0) * (p2 - p1)))

end Acc.Spec
