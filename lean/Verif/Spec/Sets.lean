import Verif.Spec.Stats
import Verif.Model.StatSet
import Mathlib.Order.Bounds.Basic
import Mathlib.Analysis.SpecialFunctions.Pow.Real

/-! # Specification: the elementary statistics of a stream of (sample, weight, covariates)

`w` says whether the set has weights; `v` is the covariate. -/

namespace Acc.Spec

open StdF

section
variable {K : Type} [Field K] [LinearOrder K]

/-- `r` is what the abstract feature `k` stands for, computed from scratch from the whole stream. -/
def IsStat (w : Bool) (v : ℕ) (as : List (Args K)) : StdF → Res K → Prop
  | count, r => r = .val (as.length : K)
  | StdF.min, r => ∃ m, r = .val m ∧ IsLeast {x | ∃ a ∈ as, a.x = x} m
  | StdF.max, r => ∃ m, r = .val m ∧ IsGreatest {x | ∃ a ∈ as, a.x = x} m
  | StdF.sum, r => r = .val (if w then (as.map fun a => a.w * a.x).sum else (as.map fun a => a.x).sum)
  | sumOfWeights, r => r = .val (as.map fun a => a.w).sum
  | abstractSumOfVariates, r => r = .val (as.map fun a => a.v v).sum
  | abstractWeightedSumOfVariates, r => r = .val (as.map fun a => a.w * a.v v).sum
  | StdF.mean, r =>
    r = .val (if w then Spec.wmean (as.map fun a => (a.x, a.w)) else Spec.mean (as.map fun a => a.x))
  | meanOfWeights, r => r = .val (Spec.mean (as.map fun a => a.w))
  | meanOfVariates v', r =>
    r = .val (if w then Spec.wmean (as.map fun a => (a.v v', a.w)) else Spec.mean (as.map fun a => a.v v'))
  | moment n, r =>
    r = .val (if w then Spec.wrawMoment n (as.map fun a => (a.x, a.w)) else Spec.rawMoment n (as.map fun a => a.x))
  | StdF.variance, r =>
    r = .val (if w then Spec.wvariance (as.map fun a => (a.x, a.w)) else Spec.variance (as.map fun a => a.x))
  | abstractCovariance, r =>
    r = .val (if w then Spec.wcovariance (as.map fun a => ((a.x, a.v v), a.w))
      else Spec.covariance (as.map fun a => (a.x, a.v v)))
  | kurtosis, r =>
    let m := fun n => if w then Spec.wcentralMoment n (as.map fun a => (a.x, a.w))
      else Spec.centralMoment n (as.map fun a => a.x)
    if m 2 = 0 then r = .nonfinite else r = .val (m 4 / m 2 ^ 2 - 3)
  | _, _ => False

end

/-- The same over the reals, with skewness and the error of the mean. -/
def IsStatReal (w : Bool) (v : ℕ) (as : List (Args ℝ)) : StdF → Res ℝ → Prop
  | skewness, r =>
    let m := fun n => if w then Spec.wcentralMoment n (as.map fun a => (a.x, a.w))
      else Spec.centralMoment n (as.map fun a => a.x)
    if m 2 = 0 then r = .nonfinite else r = .val (m 3 / m 2 ^ (3 / 2 : ℝ))
  | errorOfMean, r =>
    if as.length = 1 then r = .nonfinite
    else ∃ e, r = .val e ∧ 0 ≤ e ∧ e ^ 2 = Spec.variance (as.map fun a => a.x) / ((as.length : ℝ) - 1)
  | k, r => IsStat w v as k r

end Acc.Spec
