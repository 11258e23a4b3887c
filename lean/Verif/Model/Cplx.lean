import Verif.Model.Weighted

/-!
# Statistics of complex samples

Model of `numeric/functional/complex.hpp` and of the accumulators instantiated with `Sample = std::complex<T>`.  Paths
are relative to `/repo/include/boost/accumulators/`, those without directory to its subdirectory `statistics/`.

`T` is a floating point type (with an integral `T` the behaviour of `std::complex<T>` is unspecified by the standard).
A complex number one of whose parts is NaN or infinite counts as `nonfinite`.
-/

namespace Acc

universe u

/-- `std::complex<T>`. -/
structure Cx (K : Type u) where
  re : K
  im : K
  deriving Repr, DecidableEq

namespace Cx

variable {K : Type u} [Arith K] [DecidableEq K]

/-- `operator+` and `+=` of `std::complex<T>`. -/
instance : Add (Cx K) := ⟨fun z w => ⟨z.re + w.re, z.im + w.im⟩⟩

/-- `operator-` of `std::complex<T>`. -/
instance : Sub (Cx K) := ⟨fun z w => ⟨z.re - w.re, z.im - w.im⟩⟩

/-- Unary `operator-`. -/
instance : Neg (Cx K) := ⟨fun z => ⟨-z.re, -z.im⟩⟩

/-- `operator*` of two `std::complex<T>`. -/
instance : Mul (Cx K) := ⟨fun z w => ⟨z.re * w.re - z.im * w.im, z.re * w.im + z.im * w.re⟩⟩

/-- `operator/` of two `std::complex<T>`, for a divisor that is not zero; see `fdiv`. -/
instance : Div (Cx K) := ⟨fun z w =>
  let d := w.re * w.re + w.im * w.im
  ⟨(z.re * w.re + z.im * w.im) / d, (z.im * w.re - z.re * w.im) / d⟩⟩

/-- `std::complex<T>()`, the default `Sample()`. -/
instance : Zero (Cx K) := ⟨⟨0, 0⟩⟩

/-- `numeric::one<std::complex<T> >::value` (`numeric/functional/complex.hpp:52-78`): both parts are one. -/
instance : One (Cx K) := ⟨⟨1, 1⟩⟩

/-- A number converted to `std::complex<T>`. -/
instance : NatCast (Cx K) := ⟨fun n => ⟨n, 0⟩⟩

/-- The operations together, for accumulators whose sample and weight types are both complex. -/
instance : Arith (Cx K) where

/-- `complex * scalar` (`numeric/functional/complex.hpp:25-35`: `ri *= static_cast<T>(u)`) and the operators
`complex<T> * T`, `T * complex<T>` of the standard. -/
def scale (z : Cx K) (u : K) : Cx K := ⟨z.re * u, z.im * u⟩

/-- `complex / scalar` (`numeric/functional/complex.hpp:37-47`: `ri /= static_cast<T>(u)`), to which `fdiv` of a complex
number and a scalar reduces (`numeric/functional.hpp:249-259`, a complex type is not integral). -/
def divS (z : Cx K) (u : K) : Res (Cx K) := do
  let a ← fdiv z.re u
  let b ← fdiv z.im u
  return ⟨a, b⟩

/-- `numeric::pow` (`moment.hpp:27-42`); `N = 0` is excluded as in `mpow`. -/
def mpow (z : Cx K) (n : ℕ) : Cx K :=
  if _h0 : n = 0 then ⟨1, 0⟩
  else if _h1 : n = 1 then z
  else
    let y := mpow z (n / 2)
    let q := y * y
    if n % 2 = 1 then q * z else q
  termination_by n
  decreasing_by omega

/-! ## Means and moments -/

/-- Members of the set `{count, sum}`. -/
structure CountSum (K : Type u) where
  cnt : ℕ
  sum : Cx K

/-- `features<tag::mean>` (`mean.hpp:38-43`). -/
def lazyMean (x0 : Cx K) : MeanProvider (Cx K) (Cx K) where
  St := CountSum K
  init := ⟨0, x0⟩
  push s z := ⟨s.cnt + 1, sumStep s.sum z⟩
  read s := divS s.sum (s.cnt : K)

/-- Members of the set `{count, immediate_mean}`. -/
structure CountMean (K : Type u) where
  cnt : ℕ
  mean : Res (Cx K)

/-- `mean.hpp:63-71`. -/
def immMeanStep (cnt : ℕ) (m : Res (Cx K)) (z : Cx K) : Res (Cx K) := do
  let m ← m
  divS (scale m ((cnt : K) - 1) + z) (cnt : K)

/-- `features<tag::immediate_mean>` (`mean.hpp:57-71`). -/
def immMean (x0 : Cx K) : MeanProvider (Cx K) (Cx K) where
  St := CountMean K
  init := ⟨0, divS x0 1⟩
  push s z := ⟨s.cnt + 1, immMeanStep (s.cnt + 1) s.mean z⟩
  read s := s.mean

/-- `moment<N>(acc)` (`moment.hpp:60-76`). -/
def momentRun (N : ℕ) (x0 : Cx K) (zs : List (Cx K)) : Res (Cx K) :=
  let s := zs.foldl (fun (s : CountSum K) z => ⟨s.cnt + 1, s.sum + mpow z N⟩) ⟨0, x0⟩
  divS s.sum (s.cnt : K)

/-! ## Variance and covariance -/

/-- `variance.hpp:49-55`. -/
def lazyVarianceRun (P : MeanProvider (Cx K) (Cx K)) (zs : List (Cx K)) : Res (Cx K) := do
  let tmp ← P.read (P.run zs)
  let m2 ← momentRun 2 0 zs
  return m2 - tmp * tmp

/-- `variance.hpp:100-113`. -/
def varianceStep (cnt : ℕ) (mean v : Res (Cx K)) (z : Cx K) : Res (Cx K) :=
  if cnt > 1 then do
    let m ← mean
    let tmp := z - m
    let v ← v
    let a ← divS (scale v ((cnt : K) - 1)) (cnt : K)
    let b ← divS (tmp * tmp) ((cnt : K) - 1)
    return a + b
  else v

/-- Members of the set `{mean provider, count, variance}`. -/
structure VarianceSt (S : Type u) (K : Type u) where
  m : S
  cnt : ℕ
  var : Res (Cx K)

/-- The provider and `count` are updated first, then `variance` reads them. -/
def VarianceSt.push (P : MeanProvider (Cx K) (Cx K)) (s : VarianceSt P.St K) (z : Cx K) : VarianceSt P.St K :=
  let m' := P.push s.m z
  { m := m', cnt := s.cnt + 1, var := varianceStep (s.cnt + 1) (P.read m') s.var z }

/-- `variance(acc)` (`variance.hpp:94-118`). -/
def varianceRun (P : MeanProvider (Cx K) (Cx K)) (zs : List (Cx K)) : Res (Cx K) :=
  (zs.foldl (VarianceSt.push P) ⟨P.init, 0, divS 0 1⟩).var

/-- `covariance.hpp:133-148` with a complex covariate; the `outer_product` of two numbers is their product
(`covariance.hpp:40-48`). -/
def covarianceStep (cnt : ℕ) (mx my c : Res (Cx K)) (x y : Cx K) : Res (Cx K) :=
  if cnt > 1 then do
    let c ← c
    let a ← divS (scale c ((cnt : K) - 1)) (cnt : K)
    let my ← my
    let mx ← mx
    let b ← divS ((my - y) * (mx - x)) ((cnt : K) - 1)
    return a + b
  else c

/-- Members of the set `{mean, mean_of_variates, count, covariance}`. -/
structure CovSt (S T : Type u) (K : Type u) where
  mx : S
  my : T
  cnt : ℕ
  cov : Res (Cx K)

/-- One `operator()` of the set with `(sample, covariate) = p`. -/
def CovSt.push (P Q : MeanProvider (Cx K) (Cx K)) (s : CovSt P.St Q.St K) (p : Cx K × Cx K) : CovSt P.St Q.St K :=
  let mx := P.push s.mx p.1
  let my := Q.push s.my p.2
  { mx := mx, my := my, cnt := s.cnt + 1,
    cov := covarianceStep (s.cnt + 1) (P.read mx) (Q.read my) s.cov p.1 p.2 }

/-- `covariance(acc)` (`covariance.hpp:122-153`). -/
def covarianceRun (P Q : MeanProvider (Cx K) (Cx K)) (ps : List (Cx K × Cx K)) : Res (Cx K) :=
  (ps.foldl (CovSt.push P Q) ⟨P.init, Q.init, 0, do let a ← divS 0 1; let b ← divS 0 1; return a * b⟩).cov

/-! ## Real weights -/

/-- Members of the set `{sum_of_weights, weighted_sum}` (or `weighted_moment<N>`). -/
structure WSums (K : Type u) where
  sumW : K
  wsum : Cx K

/-- `weighted_sum.hpp:46-51`. -/
def weightedSumStep (s : Cx K) (p : Cx K × K) : Cx K := s + scale p.1 p.2

/-- `weighted_sum(acc)` (`weighted_sum.hpp:37-56`). -/
def weightedSumRun (x0 : Cx K) (ps : List (Cx K × K)) : Cx K := ps.foldl weightedSumStep (scale x0 1)

/-- `features<tag::weighted_mean>` (`weighted_mean.hpp:43-57`). -/
def lazyWMean (x0 : Cx K) : MeanProvider (Cx K × K) (Cx K) where
  St := WSums K
  init := ⟨0, scale x0 1⟩
  push s p := ⟨sumStep s.sumW p.2, weightedSumStep s.wsum p⟩
  read s := divS s.wsum s.sumW

/-- Members of the set `{sum_of_weights, immediate_weighted_mean}`. -/
structure WMean (K : Type u) where
  sumW : K
  mean : Res (Cx K)

/-- `weighted_mean.hpp:83-93`. -/
def immWMeanStep (wSum : K) (m : Res (Cx K)) (p : Cx K × K) : Res (Cx K) := do
  let m ← m
  divS (scale m (wSum - p.2) + scale p.1 p.2) wSum

/-- `features<tag::immediate_weighted_mean>` (`weighted_mean.hpp:71-93`). -/
def immWMean (x0 : Cx K) : MeanProvider (Cx K × K) (Cx K) where
  St := WMean K
  init := ⟨0, divS (scale x0 1) 1⟩
  push s p := let W := sumStep s.sumW p.2
    ⟨W, immWMeanStep W s.mean p⟩
  read s := s.mean

/-- `weighted_moment<N>(acc)` (`weighted_moment.hpp:45-61`). -/
def weightedMomentRun (N : ℕ) (x0 : Cx K) (ps : List (Cx K × K)) : Res (Cx K) :=
  let s := ps.foldl (fun (s : WSums K) p => ⟨sumStep s.sumW p.2, s.wsum + scale (mpow p.1 N) p.2⟩) ⟨0, scale x0 1⟩
  divS s.wsum s.sumW

/-- `weighted_variance.hpp:48-54`. -/
def lazyWeightedVarianceRun (P : MeanProvider (Cx K × K) (Cx K)) (ps : List (Cx K × K)) : Res (Cx K) := do
  let tmp ← P.read (P.run ps)
  let m2 ← weightedMomentRun 2 0 ps
  return m2 - tmp * tmp

/-- `weighted_variance.hpp:84-99`. -/
def weightedVarianceStep (cnt : ℕ) (W : K) (mean v : Res (Cx K)) (p : Cx K × K) : Res (Cx K) :=
  if cnt > 1 then do
    let m ← mean
    let tmp := p.1 - m
    let v ← v
    let a ← divS (scale v (W - p.2)) W
    let b ← divS (scale (tmp * tmp) p.2) (W - p.2)
    return a + b
  else v

/-- Members of the set `{mean provider, sum_of_weights, count, weighted_variance}`. -/
structure WVarianceSt (S : Type u) (K : Type u) where
  m : S
  sumW : K
  cnt : ℕ
  var : Res (Cx K)

/-- Dependencies first, then `weighted_variance`. -/
def WVarianceSt.push (P : MeanProvider (Cx K × K) (Cx K)) (s : WVarianceSt P.St K) (p : Cx K × K) :
    WVarianceSt P.St K :=
  let m' := P.push s.m p
  let W := sumStep s.sumW p.2
  { m := m', sumW := W, cnt := s.cnt + 1, var := weightedVarianceStep (s.cnt + 1) W (P.read m') s.var p }

/-- `weighted_variance(acc)` (`weighted_variance.hpp:78-104`). -/
def weightedVarianceRun (P : MeanProvider (Cx K × K) (Cx K)) (ps : List (Cx K × K)) : Res (Cx K) :=
  (ps.foldl (WVarianceSt.push P) ⟨P.init, 0, 0, divS 0 1⟩).var

end Cx

end Acc
