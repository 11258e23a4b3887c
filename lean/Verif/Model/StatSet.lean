import Verif.Model.StdLib
import Verif.Model.AccSet
import Verif.Model.Weighted

/-!
# The elementary statistics as accumulators of a set

The step functions of `Model/Basic` and `Model/Weighted` used as an `Impl`: every accumulator fetches what it needs
from the set, through whichever accumulator provides the feature, as the code does with `mean(args)`,
`count(args)` and so on (`framework/extractor.hpp:85-91`, `framework/accumulator_set.hpp:398-422`).  Paths below are
relative to `/repo/include/boost/accumulators/statistics/`.

Simplifications: the set is constructed without an initial sample, count does not wrap around (C01 describes the
wrapping), samples, weights and covariates have the same number type.  Features other than the elementary statistics do
nothing here.
-/

namespace Acc

variable {K : Type}

/-- The argument pack of a push: the sample, the weight, and the value of every covariate. -/
structure Args (K : Type) where
  x : K
  w : K
  v : ℕ → K

/-- State of one accumulator. -/
inductive StatCell (K : Type) where
  | none
  | nat (n : ℕ)
  | num (a : K)
  | kahan (k : Kahan K)
  | res (r : Res K)

namespace StatCell

variable [Arith K] [LinearOrder K]

/-- The sum of a cell holding a number, plainly or with compensation. -/
def asNum : StatCell K → Res K
  | .num a => .val a
  | .kahan k => .val k.sum
  | _ => .ub

/-- `count(args)`. -/
def countOf (env : Env StdF (StatCell K)) : ℕ :=
  match env .count with
  | some (_, .nat n) => n
  | _ => 0

/-- `result(args)` of the accumulator of feature `f`, in a set with `n` samples, from its own state and what it
extracts from the set (`rd`).  `irr` stands for the results involving a square root (`skewness`, `error_of`). -/
def result (irr : StdF → ℕ → (StdF → Res K) → Res K) (n : ℕ) (rd : StdF → Res K) :
    StdF → StatCell K → Res K
  -- count.hpp, min.hpp:46-49, max.hpp:46-49, sum.hpp:49-52, sum_kahan.hpp:64-67, weighted_sum.hpp:53-56
  | .count, _ => .val (n : K)
  | .min, c | .max, c => c.asNum
  | .sum, c | .sumKahan, c | .weightedSum, c | .weightedSumKahan, c => c.asNum
  | .sumOfWeights, c | .sumOfWeightsKahan, c => c.asNum
  | .sumOfVariates _, c | .sumOfVariatesKahan _, c => c.asNum
  | .weightedSumOfVariates _, c | .weightedSumOfVariatesKahan _, c => c.asNum
  -- mean.hpp:38-43, weighted_mean.hpp:43-57
  | .mean, _ => (rd .sum).bind fun s => fdiv s (n : K)
  | .meanOfWeights, _ => (rd .sumOfWeights).bind fun s => fdiv s (n : K)
  | .meanOfVariates _, _ => (rd .abstractSumOfVariates).bind fun s => fdiv s (n : K)
  | .weightedMean, _ => (rd .sum).bind fun s => (rd .sumOfWeights).bind fun w => fdiv s w
  | .weightedMeanOfVariates _, _ =>
    (rd .abstractWeightedSumOfVariates).bind fun s => (rd .sumOfWeights).bind fun w => fdiv s w
  -- moment.hpp:72-76, weighted_moment.hpp:57-61
  | .moment _, c => c.asNum.bind fun s => fdiv s (n : K)
  | .weightedMoment _, c => c.asNum.bind fun s => (rd .sumOfWeights).bind fun w => fdiv s w
  -- variance.hpp:49-55, weighted_variance.hpp:48-54
  | .lazyVariance, _ | .lazyWeightedVariance, _ => lazyVarianceResult (rd (.moment 2)) (rd .mean)
  -- kurtosis.hpp:54-65, weighted_kurtosis.hpp:61-72
  | .kurtosis, _ | .weightedKurtosis, _ =>
    kurtosisResult (rd (.moment 2)) (rd (.moment 3)) (rd (.moment 4)) (rd .mean)
  -- skewness.hpp:57-67, weighted_skewness.hpp:58-68, error_of_mean.hpp:36-42
  | .skewness, _ => irr .skewness n rd
  | .weightedSkewness, _ => irr .skewness n rd
  | .errorOfMean, _ | .errorOfImmediateMean, _ => irr .errorOfMean n rd
  -- mean.hpp:73-76, weighted_mean.hpp:95-98, variance.hpp:115-118, weighted_variance.hpp:101-104,
  -- covariance.hpp:150-153, weighted_covariance.hpp:95-98
  | .immediateMean, .res r | .immediateMeanOfWeights, .res r | .immediateMeanOfVariates _, .res r => r
  | .immediateWeightedMean, .res r | .immediateWeightedMeanOfVariates _, .res r => r
  | .variance, .res r | .weightedVariance, .res r | .covariance _, .res r | .weightedCovariance _, .res r => r
  | _, _ => .ub

/-- Extract a feature from the set: find the accumulator providing it and ask for its result, which may extract other
features.  The first argument bounds the recursion. -/
def readN (irr : StdF → ℕ → (StdF → Res K) → Res K) (env : Env StdF (StatCell K)) : ℕ → StdF → Res K
  | 0, _ => .ub
  | n + 1, k =>
    match env k with
    | some (f, c) => result irr (countOf env) (readN irr env n) f c
    | Option.none => .ub

/-- `extract_result<Feature>(acc)` for the abstract feature `k`. -/
def read (irr : StdF → ℕ → (StdF → Res K) → Res K) (env : Env StdF (StatCell K)) (k : StdF) : Res K :=
  readN irr env (StdF.rank k + 1) k

/-- The own state of an accumulator holding a number. -/
def numAt (env : Env StdF (StatCell K)) (k : StdF) (g : K → K) : StatCell K :=
  match env k with
  | some (_, .num a) => .num (g a)
  | _ => .none

/-- The own state of an accumulator with Kahan's compensation. -/
def kahanAt (env : Env StdF (StatCell K)) (k : StdF) (g : Kahan K → Kahan K) : StatCell K :=
  match env k with
  | some (_, .kahan a) => .kahan (g a)
  | _ => .none

/-- The own state of an accumulator holding a result. -/
def resAt (env : Env StdF (StatCell K)) (k : StdF) (g : Res K → Res K) : StatCell K :=
  match env k with
  | some (_, .res a) => .res (g a)
  | _ => .none

end StatCell

open StatCell in
/-- The accumulators.  `lo`, `hi` are the limits of the number type (start values of `max` and `min`). -/
def statImpl [Arith K] [LinearOrder K] (irr : StdF → ℕ → (StdF → Res K) → Res K) (lo hi : K) :
    Impl StdF (StatCell K) (Args K) where
  init
    | .count => .nat 0
    | .min => .num (asMax hi)
    | .max => .num lo
    | .sum | .sumOfWeights | .sumOfVariates _ => .num 0
    | .weightedSum | .weightedSumOfVariates _ => .num (0 * 1)
    | .sumKahan | .sumOfWeightsKahan | .sumOfVariatesKahan _ => .kahan (Kahan.init 0)
    | .weightedSumKahan | .weightedSumOfVariatesKahan _ => .kahan ⟨0 * 1, 0⟩
    | .moment _ => .num 0
    | .weightedMoment _ => .num (0 * 1)
    | .immediateMean | .immediateMeanOfWeights | .immediateMeanOfVariates _ => .res (fdiv 0 1)
    | .immediateWeightedMean | .immediateWeightedMeanOfVariates _ => .res (fdiv (0 * 1) 1)
    | .variance | .weightedVariance => .res (fdiv 0 1)
    | .covariance _ => .res (do let a ← fdiv 0 1; let b ← fdiv 0 1; return a * b)
    | .weightedCovariance _ => .res (.val 0)
    | _ => .none
  upd f env a :=
    let n := countOf env
    let rd := read irr env
    match f with
    | .count => .nat (n + 1)
    | .min => numAt env .min fun m => minAssign ltb m a.x
    | .max => numAt env .max fun m => maxAssign ltb m a.x
    | .sum => numAt env .sum fun s => sumStep s a.x
    | .sumOfWeights => numAt env .sumOfWeights fun s => sumStep s a.w
    | .sumOfVariates v => numAt env .abstractSumOfVariates fun s => sumStep s (a.v v)
    | .weightedSum => numAt env .sum fun s => weightedSumStep s (a.x, a.w)
    | .weightedSumOfVariates v => numAt env .abstractWeightedSumOfVariates fun s => weightedSumStep s (a.v v, a.w)
    | .sumKahan => kahanAt env .sum fun s => s.step a.x
    | .sumOfWeightsKahan => kahanAt env .sumOfWeights fun s => s.step a.w
    | .sumOfVariatesKahan v => kahanAt env .abstractSumOfVariates fun s => s.step (a.v v)
    | .weightedSumKahan => kahanAt env .sum fun s => weightedKahanStep s (a.x, a.w)
    | .weightedSumOfVariatesKahan v =>
      kahanAt env .abstractWeightedSumOfVariates fun s => weightedKahanStep s (a.v v, a.w)
    | .moment k => numAt env (.moment k) fun s => s + mpow a.x k
    | .weightedMoment k => numAt env (.moment k) fun s => s + a.w * mpow a.x k
    | .immediateMean => resAt env .mean fun m => immMeanStep n m a.x
    | .immediateMeanOfWeights => resAt env .meanOfWeights fun m => immMeanStep n m a.w
    | .immediateMeanOfVariates v => resAt env (.meanOfVariates v) fun m => immMeanStep n m (a.v v)
    | .immediateWeightedMean => resAt env .mean fun m =>
      (rd .sumOfWeights).bind fun w => immWMeanStep w m (a.x, a.w)
    | .immediateWeightedMeanOfVariates v => resAt env (.meanOfVariates v) fun m =>
      (rd .sumOfWeights).bind fun w => immWMeanStep w m (a.v v, a.w)
    | .variance => resAt env .variance fun s => varianceStep n (rd .mean) s a.x
    | .weightedVariance => resAt env .variance fun s =>
      (rd .sumOfWeights).bind fun w => weightedVarianceStep n w (rd .mean) s (a.x, a.w)
    | .covariance v => resAt env .abstractCovariance fun s =>
      covarianceStep n (rd .mean) (rd (.meanOfVariates v)) s a.x (a.v v)
    | .weightedCovariance v => resAt env .abstractCovariance fun s =>
      (rd .sumOfWeights).bind fun w =>
        weightedCovarianceStep n w (rd .mean) (rd (.meanOfVariates v)) s a.x (a.v v) a.w
    | _ => .none

/-- `skewness.hpp:57-67` and `error_of_mean.hpp:36-42`; the unsigned `count` has `w` bits. -/
noncomputable def irrational (w : ℕ) : StdF → ℕ → (StdF → Res ℝ) → Res ℝ
  | .skewness, _, rd => skewnessResult (rd (.moment 2)) (rd (.moment 3)) (rd .mean)
  | .errorOfMean, n, rd => errorOfMeanResult w (rd .variance) (BitVec.ofNat w n)
  | _, _, _ => .ub

end Acc
