import Verif.Spec.Stats
import Verif.Spec.Order
import Mathlib.Analysis.SpecialFunctions.Pow.Real

/-! # Specification: exceedances over a threshold and the generalized Pareto tail -/

namespace Acc.Spec

variable {K : Type*} [Field K] [LinearOrder K]

/-- The samples beyond the threshold; on the left mirrored, so that the exceedances are always the values
above the (mirrored) threshold. -/
def exceedances (side : Side) (thr : K) (xs : List K) : List K :=
  match side with
  | .right => xs.filter (fun x => decide (thr < x))
  | .left => (xs.filter (fun x => decide (x < thr))).map (fun x => -x)

/-- The same for weighted samples. -/
def wexceedances (side : Side) (thr : K) (ps : List (K × K)) : List (K × K) :=
  match side with
  | .right => ps.filter (fun p => decide (thr < p.1))
  | .left => (ps.filter (fun p => decide (p.1 < thr))).map (fun p => (-p.1, p.2))

/-- A value, mirrored on the left. -/
def mirrored (side : Side) (x : K) : K :=
  match side with
  | .right => x
  | .left => -x

/-- The share of the distribution beyond the `p`-quantile: `1 - p` to the right, `p` to the left. -/
def share (side : Side) (p : K) : K :=
  match side with
  | .right => 1 - p
  | .left => p

/-- Method-of-moments estimate of the shape (Hosking and Wallis), from mean and variance of the
exceedances over `u`. -/
def momentXi (u mean variance : K) : K := (1 - (mean - u) ^ 2 / variance) / 2

/-- Method-of-moments estimate of the scale. -/
def momentBeta (u mean variance : K) : K := (mean - u) / 2 * (1 + (mean - u) ^ 2 / variance)

/-- Survival function of the generalized Pareto distribution with location `u`, scale `beta`, shape `xi`. -/
noncomputable def paretoTail (u beta xi x : ℝ) : ℝ := (1 + xi * (x - u) / beta) ^ (-1 / xi)

end Acc.Spec
