import Verif.Model.Basic

/-!
# Model of the weighted statistics (sums, means, moments, variance, covariance)

Paths are relative to `/repo/include/boost/accumulators/statistics/`.  A push carries a sample and a
weight, `(x, w)`.  Sample and weight have the same number type here (`numeric::one<Weight>` is 1).
-/

namespace Acc

universe u
variable {K : Type u} [Arith K] [DecidableEq K]

/-! ## Sums -/

/-- `weighted_sum.hpp:46-51`: `weighted_sum += args[Tag] * args[weight]`. -/
def weightedSumStep (s : K) (p : K × K) : K := s + p.1 * p.2

/-- `weighted_sum(acc)` / `weighted_sum_of_variates(acc)` on a set constructed with initial value `x0`
(`weighted_sum.hpp:37-44`) and fed the pairs (value, weight). -/
def weightedSumRun (x0 : K) (ps : List (K × K)) : K := ps.foldl weightedSumStep (x0 * 1)

/-- `weighted_sum_kahan.hpp:57-64`. -/
def weightedKahanStep {M : Type u} [Add M] [Sub M] [Mul M] (s : Kahan M) (p : M × M) : Kahan M :=
  let t1 := p.1 * p.2 - s.compensation
  let t2 := s.sum + t1
  { sum := t2, compensation := (t2 - s.sum) - t1 }

/-- `weighted_sum_kahan(acc)` (`weighted_sum_kahan.hpp:44-50`, `66-69`). -/
def weightedKahanRun {M : Type u} [Add M] [Sub M] [Mul M] [Zero M] [One M] (x0 : M) (ps : List (M × M)) :
    Kahan M :=
  ps.foldl weightedKahanStep ⟨x0 * 1, 0⟩

/-! ## Means -/

/-- Members of the set `{sum_of_weights, weighted_sum}`. -/
structure WSums (K : Type u) where
  sumW : K
  wsum : K

/-- `features<tag::weighted_mean>`: `sum_of_weights` (`sum.hpp:42-47`), `weighted_sum`, and
`weighted_mean.hpp:43-57`: `fdiv(weighted_sum(args), sum_of_weights(args))`. -/
def lazyWMean (x0 : K) : MeanProvider (K × K) K where
  St := WSums K
  init := ⟨0, x0 * 1⟩
  push s p := ⟨sumStep s.sumW p.2, weightedSumStep s.wsum p⟩
  read s := fdiv s.wsum s.sumW

/-- Members of the set `{sum_of_weights, immediate_weighted_mean}`. -/
structure WMean (K : Type u) where
  sumW : K
  mean : Res K

/-- `weighted_mean.hpp:83-93`: `mean = fdiv(mean * (w_sum - w) + x*w, w_sum)`; `w_sum` already
contains the current weight. -/
def immWMeanStep (wSum : K) (m : Res K) (p : K × K) : Res K := do
  let m ← m
  fdiv (m * (wSum - p.2) + p.1 * p.2) wSum

/-- `features<tag::immediate_weighted_mean>` (`weighted_mean.hpp:71-81` for the initial value). -/
def immWMean (x0 : K) : MeanProvider (K × K) K where
  St := WMean K
  init := ⟨0, fdiv (x0 * 1) 1⟩
  push s p := let W := sumStep s.sumW p.2
    ⟨W, immWMeanStep W s.mean p⟩
  read s := s.mean

/-! ## Moments -/

/-- Members of the set `{sum_of_weights, weighted_moment<N>}` (`count` is a dependency too but not
read). -/
structure WMomentSt (K : Type u) where
  sumW : K
  sum : K

/-- `weighted_moment.hpp:51-55`: `sum += args[weight] * pow(args[sample], N)`. -/
def WMomentSt.push (N : ℕ) (s : WMomentSt K) (p : K × K) : WMomentSt K :=
  ⟨sumStep s.sumW p.2, s.sum + p.2 * mpow p.1 N⟩

/-- `weighted_moment<N>(acc)` (`weighted_moment.hpp:45-49`, `57-61`). -/
def weightedMomentRun (N : ℕ) (x0 : K) (ps : List (K × K)) : Res K :=
  let s := ps.foldl (WMomentSt.push N) ⟨0, x0 * 1⟩
  fdiv s.sum s.sumW

/-! ## Variance -/

/-- `weighted_variance.hpp:48-54`. -/
def lazyWeightedVarianceRun (P : MeanProvider (K × K) K) (ps : List (K × K)) : Res K :=
  lazyVarianceResult (weightedMomentRun 2 0 ps) (P.read (P.run ps))

/-- `weighted_variance.hpp:84-99`; `W = sum_of_weights(args)` and `mean` include the current
sample. -/
def weightedVarianceStep (cnt : ℕ) (W : K) (mean : Res K) (v : Res K) (p : K × K) : Res K :=
  if cnt > 1 then do
    let m ← mean
    let tmp := p.1 - m
    let v ← v
    let a ← fdiv (v * (W - p.2)) W
    let b ← fdiv (tmp * tmp * p.2) (W - p.2)
    return a + b
  else v

/-- Members of the set `{mean provider, sum_of_weights, count, weighted_variance}`. -/
structure WVarianceSt (S : Type u) (K : Type u) where
  m : S
  sumW : K
  cnt : ℕ
  var : Res K

/-- Dependencies first, then `weighted_variance`. -/
def WVarianceSt.push (P : MeanProvider (K × K) K) (s : WVarianceSt P.St K) (p : K × K) :
    WVarianceSt P.St K :=
  let m' := P.push s.m p
  let W := sumStep s.sumW p.2
  { m := m', sumW := W, cnt := s.cnt + 1,
    var := weightedVarianceStep (s.cnt + 1) W (P.read m') s.var p }

/-- `weighted_variance(acc)` (`weighted_variance.hpp:78-82` initial value `fdiv(sample|0, 1)`,
`101-104` result). -/
def weightedVarianceRun (P : MeanProvider (K × K) K) (x0 : K) (ps : List (K × K)) : Res K :=
  (ps.foldl (WVarianceSt.push P) ⟨P.init, 0, 0, fdiv x0 1⟩).var

/-! ## Kurtosis -/

/-- `weighted_kurtosis.hpp:61-72`: the same expression as the unweighted kurtosis, read from the
weighted moments and mean. -/
def weightedKurtosisRun (P : MeanProvider (K × K) K) (ps : List (K × K)) : Res K :=
  kurtosisResult (weightedMomentRun 2 0 ps) (weightedMomentRun 3 0 ps) (weightedMomentRun 4 0 ps)
    (P.read (P.run ps))

/-! ## Covariance (scalar sample and covariate) -/

/-- `weighted_covariance.hpp:78-93`. -/
def weightedCovarianceStep (cnt : ℕ) (W : K) (mx my : Res K) (c : Res K) (x y w : K) : Res K :=
  if cnt > 1 then do
    let c ← c
    let a ← fdiv (c * (W - w)) W
    let my ← my
    let mx ← mx
    let b ← fdiv ((my - y) * (mx - x) * w) (W - w)
    return a + b
  else c

/-- Members of the set `{weighted_mean, weighted_mean_of_variates, sum_of_weights, count,
weighted_covariance}`. -/
structure WCovSt (S T : Type u) (K : Type u) where
  mx : S
  my : T
  sumW : K
  cnt : ℕ
  cov : Res K

/-- One push of `((sample, covariate), weight)`. -/
def WCovSt.push (P Q : MeanProvider (K × K) K) (s : WCovSt P.St Q.St K) (p : (K × K) × K) :
    WCovSt P.St Q.St K :=
  let mx := P.push s.mx (p.1.1, p.2)
  let my := Q.push s.my (p.1.2, p.2)
  let W := sumStep s.sumW p.2
  { mx := mx, my := my, sumW := W, cnt := s.cnt + 1,
    cov := weightedCovarianceStep (s.cnt + 1) W (P.read mx) (Q.read my) s.cov p.1.1 p.1.2 p.2 }

/-- `weighted_covariance(acc)` (`weighted_covariance.hpp:65-76`, `95-98`). -/
def weightedCovarianceRun (P Q : MeanProvider (K × K) K) (ps : List ((K × K) × K)) : Res K :=
  (ps.foldl (WCovSt.push P Q) ⟨P.init, Q.init, 0, 0, .val 0⟩).cov

/-- `weighted_skewness.hpp:58-68`: the same expression as the unweighted skewness. -/
noncomputable def weightedSkewnessRun (P : MeanProvider (ℝ × ℝ) ℝ) (ps : List (ℝ × ℝ)) : Res ℝ :=
  skewnessResult (weightedMomentRun 2 0 ps) (weightedMomentRun 3 0 ps) (P.read (P.run ps))

end Acc
