import Mathlib.Algebra.Order.Field.Basic
import Mathlib.Data.List.Basic

/-!
# Specification: equidistant histograms

The range from `a` to `b` is cut into `B` half-open intervals of equal length; bin `0` takes
everything below `a`, bin `B + 1` everything from `b` on.
-/

namespace Acc.Spec

variable {K : Type*} [Field K] [LinearOrder K]

/-- Lower edge of bin `i` (`i = 1` is `a`, `i = B + 1` is `b`; bin `0` is drawn one width below). -/
def edge (a b : K) (B i : ℕ) : K := a + ((i : K) - 1) * ((b - a) / (B : K))

/-- `x` belongs to bin `i`. -/
def inBin (a b : K) (B i : ℕ) (x : K) : Prop :=
  if i = 0 then x < a
  else if i = B + 1 then b ≤ x
  else edge a b B i ≤ x ∧ x < edge a b B (i + 1)

instance (a b : K) (B i : ℕ) (x : K) : Decidable (inBin a b B i x) := by
  unfold inBin; infer_instance

/-- Number of samples in bin `i`. -/
def binCount (a b : K) (B i : ℕ) (xs : List K) : ℕ := xs.countP (fun x => decide (inBin a b B i x))

/-- Total weight in bin `i`. -/
def binWeight (a b : K) (B i : ℕ) (ps : List (K × K)) : K :=
  ((ps.filter (fun p => decide (inBin a b B i p.1))).map Prod.snd).sum

/-- Number of samples in the bins below bin `k`. -/
def cumCount (a b : K) (B k : ℕ) (xs : List K) : ℕ :=
  ((List.range k).map (fun i => binCount a b B i xs)).sum

/-- Fraction of the total weight in the bins below bin `k`. -/
def cumWeight (a b : K) (B k : ℕ) (ps : List (K × K)) : K :=
  ((List.range k).map (fun i => binWeight a b B i ps / (ps.map Prod.snd).sum)).sum

end Acc.Spec
