import Verif.Model.VecStats

/-!
# Weighted covariances of vectors

`weighted_covariance` instantiated with `std::vector` samples, covariates or both; paths are relative to
`/repo/include/boost/accumulators/statistics/`.  Conventions as in `Model/VecStats`.
-/

namespace Acc

variable {K : Type} [Arith K] [DecidableEq K]

/-- Members of the set `{weighted_mean, weighted_mean_of_variates, sum_of_weights, count, weighted_covariance}`; `C` is
the type of `cov_`. -/
structure VWCovSt (S T C K : Type) where
  mx : S
  my : T
  sumW : K
  cnt : ℕ
  cov : C

/-- `cov_ * (sum_of_weights - weight) / sum_of_weights` and `... * weight / (sum_of_weights - weight)` of a vector or of
one row of a matrix (`weighted_covariance.hpp:87-91`). -/
def vscale (v : RVec K) (a b : K) : RVec K := vdivS (vmulS v a) b

/-- Vector samples, scalar covariate (`weighted_covariance.hpp:78-93`; `outer_product` of a scalar and a vector is their
product, `covariance.hpp:44-54`).  One push of `((sample, covariate), weight)`. -/
def wcovVSPush [Container] (V : VMeanProvider (List K × K) K) (Q : MeanProvider (K × K) K)
    (s : VWCovSt V.St Q.St (RVec K) K) (p : (List K × K) × K) : Res (VWCovSt V.St Q.St (RVec K) K) := do
  let mx ← V.push s.mx (p.1.1, p.2)
  let my := Q.push s.my (p.1.2, p.2)
  let W := sumStep s.sumW p.2
  let cnt := s.cnt + 1
  if cnt > 1 then
    let dy := lift2 (· - ·) (Q.read my) (.val p.1.2)
    let dx ← vzip (· - ·) (V.read mx) (vec p.1.1)
    let prod := dx.map fun a => lift2 (· * ·) dy a
    let cov ← vzip (· + ·) (vscale s.cov (W - p.2) W) (vscale prod p.2 (W - p.2))
    return ⟨mx, my, W, cnt, cov⟩
  else return ⟨mx, my, W, cnt, s.cov⟩

/-- `weighted_covariance(acc)`; the constructor (`65-76`) starts with the product of the initial sample and covariate. -/
def wcovVSRun [Container] (V : VMeanProvider (List K × K) K) (Q : MeanProvider (K × K) K) (x0 : List K) (y0 : K)
    (ps : List ((List K × K) × K)) : Res (RVec K) := do
  let s ← foldRes (wcovVSPush V Q)
    ⟨V.init, Q.init, 0, 0, (vmulS (vdivS (vec x0) 1) 1).map fun a =>
      lift2 (· * ·) a (do let b ← fdiv y0 1; return b * 1)⟩ ps
  return s.cov

/-- Scalar samples, vector covariate. -/
def wcovSVPush [Container] (P : MeanProvider (K × K) K) (V : VMeanProvider (List K × K) K)
    (s : VWCovSt P.St V.St (RVec K) K) (p : (K × List K) × K) : Res (VWCovSt P.St V.St (RVec K) K) := do
  let mx := P.push s.mx (p.1.1, p.2)
  let my ← V.push s.my (p.1.2, p.2)
  let W := sumStep s.sumW p.2
  let cnt := s.cnt + 1
  if cnt > 1 then
    let dy ← vzip (· - ·) (V.read my) (vec p.1.2)
    let dx := lift2 (· - ·) (P.read mx) (.val p.1.1)
    let prod := dy.map fun a => lift2 (· * ·) a dx
    let cov ← vzip (· + ·) (vscale s.cov (W - p.2) W) (vscale prod p.2 (W - p.2))
    return ⟨mx, my, W, cnt, cov⟩
  else return ⟨mx, my, W, cnt, s.cov⟩

/-- `weighted_covariance(acc)`. -/
def wcovSVRun [Container] (P : MeanProvider (K × K) K) (V : VMeanProvider (List K × K) K) (x0 : K) (y0 : List K)
    (ps : List ((K × List K) × K)) : Res (RVec K) := do
  let s ← foldRes (wcovSVPush P V)
    ⟨P.init, V.init, 0, 0, (vmulS (vdivS (vec y0) 1) 1).map fun a =>
      lift2 (· * ·) (do let b ← fdiv x0 1; return b * 1) a⟩ ps
  return s.cov

/-- Vector samples, vector covariate: as for the unweighted covariance the update has the covariate as the first factor,
the constructor the sample. -/
def wcovVVPush [Container] (V W : VMeanProvider (List K × K) K) (s : VWCovSt V.St W.St (List (RVec K)) K)
    (p : (List K × List K) × K) : Res (VWCovSt V.St W.St (List (RVec K)) K) := do
  let mx ← V.push s.mx (p.1.1, p.2)
  let my ← W.push s.my (p.1.2, p.2)
  let sumW := sumStep s.sumW p.2
  let cnt := s.cnt + 1
  if cnt > 1 then
    let dy ← vzip (· - ·) (W.read my) (vec p.1.2)
    let dx ← vzip (· - ·) (V.read mx) (vec p.1.1)
    let cov ← mplus (s.cov.map fun row => vscale row (sumW - p.2) sumW)
      ((outer dy dx).map fun row => vscale row p.2 (sumW - p.2))
    return ⟨mx, my, sumW, cnt, cov⟩
  else return ⟨mx, my, sumW, cnt, s.cov⟩

/-- `weighted_covariance(acc)`. -/
def wcovVVRun [Container] (V W : VMeanProvider (List K × K) K) (x0 y0 : List K) (ps : List ((List K × List K) × K)) :
    Res (List (RVec K)) := do
  let s ← foldRes (wcovVVPush V W)
    ⟨V.init, W.init, 0, 0, outer (vmulS (vdivS (vec x0) 1) 1) (vmulS (vdivS (vec y0) 1) 1)⟩ ps
  return s.cov

end Acc
