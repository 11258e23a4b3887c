import Verif.Model.Res
import Mathlib.Data.BitVec
import Mathlib.Analysis.Real.Sqrt

/-!
# Model of the basic statistics

count, sum, sum_kahan, mean, moment, variance, skewness, kurtosis, covariance, min, max,
error_of<mean>.  Paths are relative to `/repo/include/boost/accumulators/statistics/`.

Every accumulator is given by its data members (`init`), its `operator()` (`step`, the values it
reads from other accumulators through `args` are explicit parameters) and its `result`.
A "set" steps its accumulators in the order in which the framework does: dependencies first.
`std::size_t` counters read by other accumulators are natural numbers (no wrap-around).
-/

namespace Acc

universe u v

/-! ## count -/

/-- `count.hpp:31-34`: `cnt(0)`, a `w`-bit unsigned word. -/
def countInit (w : ℕ) : BitVec w := 0#w

/-- `count.hpp:36-39`: `++cnt` with unsigned wrap-around. -/
def countStep {w : ℕ} (cnt : BitVec w) : BitVec w := cnt + 1#w

/-- `count.hpp:41-44`: the result is the counter. -/
def countResult {w : ℕ} (cnt : BitVec w) : ℕ := cnt.toNat

/-! ## sum -/

/-- `sum.hpp:42-47`: `sum += args[Tag]` (Tag = sample, weight or a variate). -/
def sumStep {M : Type u} [Add M] (s x : M) : M := s + x

/-- A set holding `sum` / `sum_of_weights` / `sum_of_variates` (`sum.hpp:71-103`): `tag` selects the
named argument (sample, weight, variate) out of the argument pack.  Constructed with initial value
`x0` (`sum.hpp:36-40`) and fed the argument packs `args`; `sum.hpp:49-52` returns the member. -/
def sumRun {A : Type v} {M : Type u} [Add M] (tag : A → M) (x0 : M) (args : List A) : M :=
  args.foldl (fun s a => sumStep s (tag a)) x0

/-! ## sum_kahan -/

/-- Data members of `sum_kahan_impl` (`sum_kahan.hpp:77-79`). -/
structure Kahan (M : Type u) where
  sum : M
  compensation : M
  deriving Repr, DecidableEq

/-- `sum_kahan.hpp:44-49`. -/
def Kahan.init {M : Type u} [Zero M] (x0 : M) : Kahan M := ⟨x0, 0⟩

/-- `sum_kahan.hpp:56-62`. -/
def Kahan.step {M : Type u} [Add M] [Sub M] (s : Kahan M) (x : M) : Kahan M :=
  let t1 := x - s.compensation
  let t2 := s.sum + t1
  { sum := t2, compensation := (t2 - s.sum) - t1 }

/-- State of `sum_kahan` / `sum_of_weights_kahan` / `sum_of_variates_kahan` after the argument packs
`args`; `sum_kahan.hpp:64-67` returns the member `sum`. -/
def kahanRun {A : Type v} {M : Type u} [Add M] [Sub M] [Zero M] (tag : A → M) (x0 : M)
    (args : List A) : Kahan M :=
  args.foldl (fun s a => s.step (tag a)) (Kahan.init x0)

/-! ## Means

A *mean provider* is a set of accumulators from which `mean(args)` can be extracted; the variance
and covariance accumulators do not know which of the two providers is installed. -/

/-- A set providing the feature `mean` for samples of type `X` (values in `K`).  `push` is the
`operator()` of the whole set, `read` the extraction of the mean. -/
structure MeanProvider (X : Type u) (K : Type u) where
  St : Type u
  init : St
  push : St → X → St
  read : St → Res K

/-- State of a provider after a stream. -/
def MeanProvider.run {X K : Type u} (P : MeanProvider X K) (xs : List X) : P.St :=
  xs.foldl P.push P.init

variable {K : Type u} [Arith K] [DecidableEq K]

/-- Members of the set `{count, sum}`. -/
structure CountSum (K : Type u) where
  cnt : ℕ
  sum : K

/-- `features<tag::mean>`: `count`, `sum`, `mean`.  `mean.hpp:38-43` computes
`fdiv(sum(args), count(args))`; `x0` is the constructor's initial sample (default 0). -/
def lazyMean (x0 : K) : MeanProvider K K where
  St := CountSum K
  init := ⟨0, x0⟩
  push s x := ⟨s.cnt + 1, sumStep s.sum x⟩
  read s := fdiv s.sum (s.cnt : K)

/-- `mean.hpp:63-71`: `mean = fdiv(mean * (cnt - 1) + x, cnt)`, `cnt` already counts the current
sample. -/
def immMeanStep (cnt : ℕ) (m : Res K) (x : K) : Res K := do
  let m ← m
  fdiv (m * ((cnt : K) - 1) + x) (cnt : K)

/-- Members of the set `{count, immediate_mean}`. -/
structure CountMean (K : Type u) where
  cnt : ℕ
  mean : Res K

/-- `features<tag::immediate_mean>`: `count`, then `immediate_mean`
(`mean.hpp:57-61`: initialised with `fdiv(sample|0, 1)`). -/
def immMean (x0 : K) : MeanProvider K K where
  St := CountMean K
  init := ⟨0, fdiv x0 1⟩
  push s x := ⟨s.cnt + 1, immMeanStep (s.cnt + 1) s.mean x⟩
  read s := s.mean

/-! ## moment -/

/-- `moment.hpp:27-42`: `pow(x, int_<1>) = x`; otherwise `y = pow(x, N/2)`, `z = y*y`,
`N % 2 ? z * x : z`.  `N = 0` is excluded by a static assertion (`moment.hpp:56`); here it is
given the (never used) value 1. -/
def mpow (x : K) (n : ℕ) : K :=
  if _h0 : n = 0 then 1
  else if _h1 : n = 1 then x
  else
    let y := mpow x (n / 2)
    let z := y * y
    if n % 2 = 1 then z * x else z
  termination_by n
  decreasing_by omega

/-- Members of the set `{count, moment<N>}`. -/
structure MomentSt (K : Type u) where
  cnt : ℕ
  sum : K

/-- `moment.hpp:60-64`. -/
def MomentSt.init (x0 : K) : MomentSt K := ⟨0, x0⟩

/-- `count`, then `moment.hpp:66-70`: `sum += pow(x, N)`. -/
def MomentSt.push (N : ℕ) (s : MomentSt K) (x : K) : MomentSt K := ⟨s.cnt + 1, s.sum + mpow x N⟩

/-- `moment.hpp:72-76`: `fdiv(sum, count)`. -/
def MomentSt.result (s : MomentSt K) : Res K := fdiv s.sum (s.cnt : K)

/-- `moment<N>(acc)` after pushing `xs` into a set constructed with initial sample `x0`. -/
def momentRun (N : ℕ) (x0 : K) (xs : List K) : Res K :=
  (xs.foldl (MomentSt.push N) (MomentSt.init x0)).result

/-! ## variance -/

/-- `variance.hpp:49-55`: `moment<2>(args) - tmp * tmp`, `tmp = mean(args)`. -/
def lazyVarianceResult (m2 mean : Res K) : Res K := do
  let tmp ← mean
  let m2 ← m2
  return m2 - tmp * tmp

/-- `lazy_variance(acc)`: set `{mean provider, count, moment<2>, lazy_variance}`. -/
def lazyVarianceRun (P : MeanProvider K K) (x0 : K) (xs : List K) : Res K :=
  lazyVarianceResult (momentRun 2 x0 xs) (P.read (P.run xs))

/-- `variance.hpp:100-113`: the recursive update, `mean` is the mean including the current
sample. -/
def varianceStep (cnt : ℕ) (mean : Res K) (v : Res K) (x : K) : Res K :=
  if cnt > 1 then do
    let m ← mean
    let tmp := x - m
    let v ← v
    let a ← fdiv (v * ((cnt : K) - 1)) (cnt : K)
    let b ← fdiv (tmp * tmp) ((cnt : K) - 1)
    return a + b
  else v

/-- Members of the set `{mean provider, count, variance}`. -/
structure VarianceSt (S : Type u) (K : Type u) where
  m : S
  cnt : ℕ
  var : Res K

/-- `variance.hpp:94-98`: initialised with `fdiv(sample|0, 1)`. -/
def VarianceSt.init (P : MeanProvider K K) (x0 : K) : VarianceSt P.St K := ⟨P.init, 0, fdiv x0 1⟩

/-- The provider and `count` are updated first, then `variance` reads them. -/
def VarianceSt.push (P : MeanProvider K K) (s : VarianceSt P.St K) (x : K) : VarianceSt P.St K :=
  let m' := P.push s.m x
  { m := m', cnt := s.cnt + 1, var := varianceStep (s.cnt + 1) (P.read m') s.var x }

/-- `variance(acc)` (`variance.hpp:115-118`) after pushing `xs`. -/
def varianceRun (P : MeanProvider K K) (x0 : K) (xs : List K) : Res K :=
  (xs.foldl (VarianceSt.push P) (VarianceSt.init P x0)).var

/-! ## covariance (scalar sample, scalar covariate) -/

/-- `covariance.hpp:133-148`: `cov*(cnt-1)/cnt + (mean_of_variates - variate)*(mean - sample)/(cnt-1)`
if `cnt > 1`. -/
def covarianceStep (cnt : ℕ) (mx my : Res K) (c : Res K) (x y : K) : Res K :=
  if cnt > 1 then do
    let c ← c
    let a ← fdiv (c * ((cnt : K) - 1)) (cnt : K)
    let my ← my
    let mx ← mx
    let b ← fdiv ((my - y) * (mx - x)) ((cnt : K) - 1)
    return a + b
  else c

/-- Members of the set `{mean, mean_of_variates, count, covariance}`. -/
structure CovSt (S T : Type u) (K : Type u) where
  mx : S
  my : T
  cnt : ℕ
  cov : Res K

/-- `covariance.hpp:122-131`: initialised with the product of the initial sample and covariate. -/
def CovSt.init (P Q : MeanProvider K K) (x0 y0 : K) : CovSt P.St Q.St K :=
  ⟨P.init, Q.init, 0, do let a ← fdiv x0 1; let b ← fdiv y0 1; return a * b⟩

/-- One `operator()` of the set with `(sample, covariate) = p`. -/
def CovSt.push (P Q : MeanProvider K K) (s : CovSt P.St Q.St K) (p : K × K) : CovSt P.St Q.St K :=
  let mx := P.push s.mx p.1
  let my := Q.push s.my p.2
  { mx := mx, my := my, cnt := s.cnt + 1,
    cov := covarianceStep (s.cnt + 1) (P.read mx) (Q.read my) s.cov p.1 p.2 }

/-- `covariance(acc)` (`covariance.hpp:150-153`). -/
def covarianceRun (P Q : MeanProvider K K) (x0 y0 : K) (ps : List (K × K)) : Res K :=
  (ps.foldl (CovSt.push P Q) (CovSt.init P Q x0 y0)).cov

/-! ## kurtosis -/

/-- `kurtosis.hpp:54-65`, from the extracted moments and mean. -/
def kurtosisResult (m2 m3 m4 mean : Res K) : Res K := do
  let m4 ← m4
  let m3 ← m3
  let m2 ← m2
  let m ← mean
  let q ← fdiv (m4 - 4 * m3 * m + 6 * m2 * m * m - 3 * m * m * m * m)
    ((m2 - m * m) * (m2 - m * m))
  return q - 3

/-- `kurtosis(acc)`. -/
def kurtosisRun (P : MeanProvider K K) (xs : List K) : Res K :=
  kurtosisResult (momentRun 2 0 xs) (momentRun 3 0 xs) (momentRun 4 0 xs) (P.read (P.run xs))

/-! ## min and max -/

/-- `numeric/functional.hpp:193` (`less`): `<` of a totally ordered type as a Boolean comparison. -/
def ltb {α : Type u} [LT α] [DecidableLT α] (a b : α) : Bool := decide (a < b)

/-- `numeric/functional.hpp:217-231`: `if (less(right, left)) left = right`. -/
def minAssign {α : Type u} (less : α → α → Bool) (left right : α) : α :=
  if less right left then right else left

/-- `numeric/functional.hpp:233-247`: `if (greater(right, left)) left = right`
(`greater(a,b)` is `a > b`, i.e. `less b a`). -/
def maxAssign {α : Type u} (less : α → α → Bool) (left right : α) : α :=
  if less left right then right else left

/-- `min.hpp:34-44`: starts at `as_max(sample)` (`hi`), then `min_assign`. -/
def minRun {α : Type u} (less : α → α → Bool) (hi : α) (xs : List α) : α :=
  xs.foldl (minAssign less) hi

/-- `max.hpp:34-44`: starts at `as_min(sample)` (`lo`), then `max_assign`. -/
def maxRun {α : Type u} (less : α → α → Bool) (lo : α) (xs : List α) : α :=
  xs.foldl (maxAssign less) lo

/-- `numeric/functional.hpp:285-311`: `as_min` is `numeric_limits<T>::min()` for non-floating types,
`-numeric_limits<T>::max()` for `is_floating_point` types.  `limitMin`, `limitMax` stand for the two
members of `numeric_limits<T>`. -/
def asMin {α : Type u} [Neg α] (isFloatingPoint : Bool) (limitMin limitMax : α) : α :=
  if isFloatingPoint then -limitMax else limitMin

/-- `numeric/functional.hpp:313-325`: `as_max` is `numeric_limits<T>::max()`. -/
def asMax {α : Type u} (limitMax : α) : α := limitMax

/-! ## Over the reals: skewness, error_of<mean> -/

/-- `skewness.hpp:57-67`.  `std::sqrt` of a negative number is a NaN. -/
noncomputable def skewnessResult (m2 m3 mean : Res ℝ) : Res ℝ := do
  let m3 ← m3
  let m2 ← m2
  let m ← mean
  if m2 - m * m < 0 then .nonfinite
  else
    fdiv (m3 - 3 * m2 * m + 2 * m * m * m) ((m2 - m * m) * Real.sqrt (m2 - m * m))

/-- `skewness(acc)`. -/
noncomputable def skewnessRun (P : MeanProvider ℝ ℝ) (xs : List ℝ) : Res ℝ :=
  skewnessResult (momentRun 2 0 xs) (momentRun 3 0 xs) (P.read (P.run xs))

/-- `error_of_mean.hpp:36-42`: `sqrt(fdiv(variance(args), count(args) - 1))`; the subtraction is
unsigned, so with no samples the divisor is `2^w - 1`. -/
noncomputable def errorOfMeanResult (w : ℕ) (var : Res ℝ) (cnt : BitVec w) : Res ℝ := do
  let v ← var
  let q ← fdiv v (((cnt - 1#w).toNat : ℕ) : ℝ)
  if q < 0 then .nonfinite else return Real.sqrt q

/-- `error_of<tag::mean>`: reads `lazy_variance` (`error_of_mean.hpp:53-59`). -/
noncomputable def errorOfMeanRun (w : ℕ) (P : MeanProvider ℝ ℝ) (xs : List ℝ) : Res ℝ :=
  errorOfMeanResult w (lazyVarianceRun P 0 xs) (xs.foldl (fun c _ => countStep c) (countInit w))

/-- `error_of<tag::immediate_mean>`: reads `variance` (`error_of_mean.hpp:61-68`). -/
noncomputable def errorOfImmMeanRun (w : ℕ) (P : MeanProvider ℝ ℝ) (xs : List ℝ) : Res ℝ :=
  errorOfMeanResult w (varianceRun P 0 xs) (xs.foldl (fun c _ => countStep c) (countInit w))

end Acc
