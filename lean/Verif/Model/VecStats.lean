import Verif.Model.Weighted
import Verif.Model.Vec

/-!
# Statistics of vector samples

Model of `numeric/functional/vector.hpp` and `numeric/functional/valarray.hpp` and of the accumulators instantiated
with `Sample = std::vector<T>` or `Sample = std::valarray<T>` (class `Container`).  Paths are relative to
`/repo/include/boost/accumulators/`, those without directory to its subdirectory `statistics/`.

A vector computed by an accumulator is a list whose components may be NaN or infinite one by one (`Res K`); a sample
is a list of numbers.  The operators do not check sizes except by `BOOST_ASSERT`; reading past the end of the right
operand, a failed assertion, a size mismatch in a `ublas` matrix sum, and a size mismatch of two `std::valarray`s are
undefined behaviour.
-/

namespace Acc

variable {K : Type} [Arith K] [DecidableEq K]

/-- Which container the samples are: `std::vector` or `std::valarray`. -/
class Container where
  /-- The operators are those of `std::valarray`. -/
  valarray : Bool

/-- `Sample = std::vector<T>`. -/
abbrev Container.vector : Container := ⟨false⟩

/-- `Sample = std::valarray<T>`. -/
abbrev Container.valArray : Container := ⟨true⟩

/-- The sizes for which an elementwise binary operator is defined.  The operators on vectors
(`numeric/functional/vector.hpp:111-152`) read `right[i]` for all positions of the left operand; those of the library
for `std::valarray` (`numeric/functional/valarray.hpp:118-177`) apply the operators of the standard, which require equal
sizes ([valarray.binary]).  The operator the library adds for `valarray<Left> + valarray<Right>` with different element
types (`77-93`) reads like that of vectors; it is counted as undefined for different sizes here as well. -/
def Container.Fits [Container] (l r : ℕ) : Prop := if Container.valarray = true then l = r else l ≤ r

instance [Container] (l r : ℕ) : Decidable (Container.Fits l r) := by
  unfold Container.Fits; infer_instance

theorem Container.fits_self [Container] (n : ℕ) : Container.Fits n n := by
  unfold Container.Fits; split <;> simp

/-- A vector of results. -/
abbrev RVec (K : Type) := List (Res K)

/-- A sample as a vector of results. -/
def vec {α : Type} (x : List α) : RVec α := x.map .val

/-- A binary operation on components. -/
def lift2 (f : K → K → K) (a b : Res K) : Res K := do
  let a ← a
  let b ← b
  return f a b

/-- The elementwise operators `+`, `-`, `*` of two vectors (`numeric/functional/vector.hpp:111-152`,
`numeric/functional/valarray.hpp:118-177`): the result has the size of the left operand. -/
def vzip [Container] (f : K → K → K) (l r : RVec K) : Res (RVec K) :=
  if Container.Fits l.length r.length then .val (List.zipWith (lift2 f) l r) else .ub

/-- `vector * scalar` and `scalar * vector` (`numeric/functional/vector.hpp:75-107`,
`numeric/functional/valarray.hpp:59-75`, `138-171`). -/
def vmulS (l : RVec K) (c : K) : RVec K := l.map fun a => do let a ← a; return a * c

/-- `vector / scalar` (`numeric/functional/vector.hpp:40-56`, `numeric/functional/valarray.hpp:41-57`) and `fdiv`
(`239-246`; `225-233`). -/
def vdivS (l : RVec K) (c : K) : RVec K := l.map fun a => do let a ← a; fdiv a c

/-- `vector += vector` (`numeric/functional/vector.hpp:156-166`), with its assertion; the operator of the standard for
`std::valarray` requires equal sizes too. -/
def vplusAssign (l r : RVec K) : Res (RVec K) :=
  if l.length = r.length then .val (List.zipWith (lift2 (· + ·)) l r) else .ub

/-- `min_assign` and `max_assign` of vectors (`numeric/functional/vector.hpp:196-236`,
`numeric/functional/valarray.hpp:181-223`), with their assertion; `pick` is the choice for one component. -/
def vassign {α : Type} (pick : α → α → α) (l r : List α) : Res (List α) :=
  if l.length = r.length then .val (List.zipWith pick l r) else .ub

/-- `as_min`, `as_max` (`numeric/functional/vector.hpp:280-308`, `numeric/functional/valarray.hpp:293-323`): an empty
vector stays empty, otherwise the limit of the component type in every position. -/
def vlimit {α : Type} (x : List α) (limit : α) : List α :=
  if x.length = 0 then [] else List.replicate x.length limit

/-! ## sum, min, max, moment -/

/-- `sum(acc)` (`sum.hpp:36-52`) for vectors, constructed with `sample = x0`. -/
def vsumRun (x0 : List K) (xs : List (List K)) : Res (RVec K) :=
  foldRes (fun s x => vplusAssign s (vec x)) (vec x0) xs

/-- `min(acc)` (`min.hpp:34-49`). -/
def vminRun {α : Type} (less : α → α → Bool) (hi : α) (x0 : List α) (xs : List (List α)) : Res (List α) :=
  foldRes (vassign (minAssign less)) (vlimit x0 hi) xs

/-- `max(acc)` (`max.hpp:34-49`). -/
def vmaxRun {α : Type} (less : α → α → Bool) (lo : α) (x0 : List α) (xs : List (List α)) : Res (List α) :=
  foldRes (vassign (maxAssign less)) (vlimit x0 lo) xs

/-- `numeric::pow` (`moment.hpp:27-42`) with the vector operators; `N = 0` is excluded as in `mpow`. -/
def vpow [Container] (x : RVec K) (n : ℕ) : Res (RVec K) :=
  if _h0 : n = 0 then .ub
  else if _h1 : n = 1 then .val x
  else do
    let y ← vpow x (n / 2)
    let z ← vzip (· * ·) y y
    if n % 2 = 1 then vzip (· * ·) z x else return z
  termination_by n
  decreasing_by omega

/-- Members of the set `{count, moment<N>}`. -/
structure VMomentSt (K : Type) where
  cnt : ℕ
  sum : RVec K

/-- `moment.hpp:66-70`. -/
def VMomentSt.push [Container] (N : ℕ) (s : VMomentSt K) (x : List K) : Res (VMomentSt K) := do
  let p ← vpow (vec x) N
  let sum ← vplusAssign s.sum p
  return ⟨s.cnt + 1, sum⟩

/-- `moment<N>(acc)` (`moment.hpp:60-76`). -/
def vmomentRun [Container] (N : ℕ) (x0 : List K) (xs : List (List K)) : Res (RVec K) := do
  let s ← foldRes (VMomentSt.push N) ⟨0, vec x0⟩ xs
  return vdivS s.sum (s.cnt : K)

/-! ## Means -/

/-- A set providing `mean` for vector samples. -/
structure VMeanProvider (X K : Type) where
  St : Type
  init : St
  push : St → X → Res St
  read : St → RVec K

/-- Members of the set `{count, sum}`, or of `{count, immediate_mean}`. -/
structure VCount (K : Type) where
  cnt : ℕ
  v : RVec K

/-- `features<tag::mean>` (`mean.hpp:38-43`). -/
def lazyVMean (x0 : List K) : VMeanProvider (List K) K where
  St := VCount K
  init := ⟨0, vec x0⟩
  push s x := do
    let v ← vplusAssign s.v (vec x)
    return ⟨s.cnt + 1, v⟩
  read s := vdivS s.v (s.cnt : K)

/-- `features<tag::immediate_mean>` (`mean.hpp:57-71`). -/
def immVMean [Container] (x0 : List K) : VMeanProvider (List K) K where
  St := VCount K
  init := ⟨0, vdivS (vec x0) 1⟩
  push s x := do
    let v ← vzip (· + ·) (vmulS s.v (((s.cnt + 1 : ℕ) : K) - 1)) (vec x)
    return ⟨s.cnt + 1, vdivS v ((s.cnt + 1 : ℕ) : K)⟩
  read s := s.v

/-- Members of the set `{sum_of_weights, weighted_sum}`, or of `{sum_of_weights, immediate_weighted_mean}`. -/
structure VWeight (K : Type) where
  sumW : K
  v : RVec K

/-- `features<tag::weighted_mean>` (`weighted_sum.hpp:37-51`, `weighted_mean.hpp:43-57`). -/
def lazyVWMean (x0 : List K) : VMeanProvider (List K × K) K where
  St := VWeight K
  init := ⟨0, vmulS (vec x0) 1⟩
  push s p := do
    let v ← vplusAssign s.v (vmulS (vec p.1) p.2)
    return ⟨sumStep s.sumW p.2, v⟩
  read s := vdivS s.v s.sumW

/-- `features<tag::immediate_weighted_mean>` (`weighted_mean.hpp:71-93`). -/
def immVWMean [Container] (x0 : List K) : VMeanProvider (List K × K) K where
  St := VWeight K
  init := ⟨0, vdivS (vmulS (vec x0) 1) 1⟩
  push s p := do
    let W := sumStep s.sumW p.2
    let v ← vzip (· + ·) (vmulS s.v (W - p.2)) (vmulS (vec p.1) p.2)
    return ⟨W, vdivS v W⟩
  read s := s.v

/-! ## Variances -/

/-- `lazy_variance(acc)` (`variance.hpp:49-55`). -/
def vlazyVarianceRun [Container] (V : VMeanProvider (List K) K) (x0 : List K) (xs : List (List K)) : Res (RVec K) := do
  let s ← foldRes V.push V.init xs
  let m2 ← vmomentRun 2 x0 xs
  let t ← vzip (· * ·) (V.read s) (V.read s)
  vzip (· - ·) m2 t

/-- Members of the set `{mean provider, count, variance}`. -/
structure VVarianceSt (S K : Type) where
  m : S
  cnt : ℕ
  var : RVec K

/-- The provider and `count`, then `variance.hpp:100-113`. -/
def VVarianceSt.push [Container] (V : VMeanProvider (List K) K) (s : VVarianceSt V.St K) (x : List K) :
    Res (VVarianceSt V.St K) := do
  let m ← V.push s.m x
  let cnt := s.cnt + 1
  if cnt > 1 then
    let tmp ← vzip (· - ·) (vec x) (V.read m)
    let sq ← vzip (· * ·) tmp tmp
    let var ← vzip (· + ·) (vdivS (vmulS s.var ((cnt : K) - 1)) (cnt : K)) (vdivS sq ((cnt : K) - 1))
    return ⟨m, cnt, var⟩
  else return ⟨m, cnt, s.var⟩

/-- `variance(acc)` (`variance.hpp:94-98`, `115-118`). -/
def vvarianceRun [Container] (V : VMeanProvider (List K) K) (x0 : List K) (xs : List (List K)) : Res (RVec K) := do
  let s ← foldRes (VVarianceSt.push V) ⟨V.init, 0, vdivS (vec x0) 1⟩ xs
  return s.var

/-! ## Covariances -/

/-- Members of the set `{mean, mean_of_variates, count, covariance}`; `C` is the type of `cov_`. -/
structure VCovSt (S T C : Type) where
  mx : S
  my : T
  cnt : ℕ
  cov : C

/-- Vector samples, scalar covariate (`covariance.hpp:122-148`): `outer_product` of a scalar and a vector is their
product (`44-54`). -/
def covVSPush [Container] (V : VMeanProvider (List K) K) (Q : MeanProvider K K) (s : VCovSt V.St Q.St (RVec K))
    (p : List K × K) : Res (VCovSt V.St Q.St (RVec K)) := do
  let mx ← V.push s.mx p.1
  let my := Q.push s.my p.2
  let cnt := s.cnt + 1
  if cnt > 1 then
    let dy := lift2 (· - ·) (Q.read my) (.val p.2)
    let dx ← vzip (· - ·) (V.read mx) (vec p.1)
    let prod := dx.map fun a => lift2 (· * ·) dy a
    let cov ← vzip (· + ·) (vdivS (vmulS s.cov ((cnt : K) - 1)) (cnt : K)) (vdivS prod ((cnt : K) - 1))
    return ⟨mx, my, cnt, cov⟩
  else return ⟨mx, my, cnt, s.cov⟩

/-- `covariance(acc)`; the initial value is the product of the initial sample and covariate. -/
def covVSRun [Container] (V : VMeanProvider (List K) K) (Q : MeanProvider K K) (x0 : List K) (y0 : K)
    (ps : List (List K × K)) : Res (RVec K) := do
  let s ← foldRes (covVSPush V Q)
    ⟨V.init, Q.init, 0, (vdivS (vec x0) 1).map fun a => lift2 (· * ·) a (fdiv y0 1)⟩ ps
  return s.cov

/-- Scalar samples, vector covariate. -/
def covSVPush [Container] (P : MeanProvider K K) (V : VMeanProvider (List K) K) (s : VCovSt P.St V.St (RVec K))
    (p : K × List K) : Res (VCovSt P.St V.St (RVec K)) := do
  let mx := P.push s.mx p.1
  let my ← V.push s.my p.2
  let cnt := s.cnt + 1
  if cnt > 1 then
    let dy ← vzip (· - ·) (V.read my) (vec p.2)
    let dx := lift2 (· - ·) (P.read mx) (.val p.1)
    let prod := dy.map fun a => lift2 (· * ·) a dx
    let cov ← vzip (· + ·) (vdivS (vmulS s.cov ((cnt : K) - 1)) (cnt : K)) (vdivS prod ((cnt : K) - 1))
    return ⟨mx, my, cnt, cov⟩
  else return ⟨mx, my, cnt, s.cov⟩

/-- `covariance(acc)`. -/
def covSVRun [Container] (P : MeanProvider K K) (V : VMeanProvider (List K) K) (x0 : K) (y0 : List K)
    (ps : List (K × List K)) : Res (RVec K) := do
  let s ← foldRes (covSVPush P V)
    ⟨P.init, V.init, 0, (vdivS (vec y0) 1).map fun a => lift2 (· * ·) (fdiv x0 1) a⟩ ps
  return s.cov

/-- `outer_product` of two vectors (`covariance.hpp:51-76`), a `ublas::matrix` by rows.  There is none for
`std::valarray`: the overload of line 45 multiplies them elementwise, which is not modelled. -/
def outer (l r : RVec K) : List (RVec K) := l.map fun a => r.map fun b => lift2 (· * ·) a b

/-- `matrix + matrix` of `ublas` (not part of this repository): the sizes have to agree. -/
def mplus (l r : List (RVec K)) : Res (List (RVec K)) :=
  if l.map List.length = r.map List.length then
    .val (List.zipWith (List.zipWith (lift2 (· + ·))) l r)
  else .ub

/-- Vector samples, vector covariate: note the order of the factors in the update, covariate first, against the
order sample, covariate in the constructor. -/
def covVVPush [Container] (V W : VMeanProvider (List K) K) (s : VCovSt V.St W.St (List (RVec K)))
    (p : List K × List K) : Res (VCovSt V.St W.St (List (RVec K))) := do
  let mx ← V.push s.mx p.1
  let my ← W.push s.my p.2
  let cnt := s.cnt + 1
  if cnt > 1 then
    let dy ← vzip (· - ·) (W.read my) (vec p.2)
    let dx ← vzip (· - ·) (V.read mx) (vec p.1)
    let cov ← mplus (s.cov.map fun row => vdivS (vmulS row ((cnt : K) - 1)) (cnt : K))
      ((outer dy dx).map fun row => vdivS row ((cnt : K) - 1))
    return ⟨mx, my, cnt, cov⟩
  else return ⟨mx, my, cnt, s.cov⟩

/-- `covariance(acc)`. -/
def covVVRun [Container] (V W : VMeanProvider (List K) K) (x0 y0 : List K) (ps : List (List K × List K)) :
    Res (List (RVec K)) := do
  let s ← foldRes (covVVPush V W)
    ⟨V.init, W.init, 0, outer (vdivS (vec x0) 1) (vdivS (vec y0) 1)⟩ ps
  return s.cov

/-! ## Weighted sum, moment and variance -/

/-- `weighted_sum(acc)` (`weighted_sum.hpp:37-56`). -/
def vweightedSumRun (x0 : List K) (ps : List (List K × K)) : Res (RVec K) :=
  foldRes (fun s p => vplusAssign s (vmulS (vec p.1) p.2)) (vmulS (vec x0) 1) ps

/-- `weighted_moment<N>(acc)` (`weighted_moment.hpp:45-61`): the weight is the left factor. -/
def vweightedMomentRun [Container] (N : ℕ) (x0 : List K) (ps : List (List K × K)) : Res (RVec K) := do
  let s ← foldRes (fun (s : VWeight K) p => do
      let q ← vpow (vec p.1) N
      let v ← vplusAssign s.v (q.map fun a => lift2 (· * ·) (.val p.2) a)
      return (⟨sumStep s.sumW p.2, v⟩ : VWeight K)) ⟨0, vmulS (vec x0) 1⟩ ps
  return vdivS s.v s.sumW

/-- Members of the set `{mean provider, sum_of_weights, count, weighted_variance}`. -/
structure VWVarianceSt (S K : Type) where
  m : S
  sumW : K
  cnt : ℕ
  var : RVec K

/-- `weighted_variance.hpp:84-99`. -/
def VWVarianceSt.push [Container] (V : VMeanProvider (List K × K) K) (s : VWVarianceSt V.St K) (p : List K × K) :
    Res (VWVarianceSt V.St K) := do
  let m ← V.push s.m p
  let W := sumStep s.sumW p.2
  let cnt := s.cnt + 1
  if cnt > 1 then
    let tmp ← vzip (· - ·) (vec p.1) (V.read m)
    let sq ← vzip (· * ·) tmp tmp
    let var ← vzip (· + ·) (vdivS (vmulS s.var (W - p.2)) W) (vdivS (vmulS sq p.2) (W - p.2))
    return ⟨m, W, cnt, var⟩
  else return ⟨m, W, cnt, s.var⟩

/-- `weighted_variance(acc)` (`weighted_variance.hpp:78-104`). -/
def vweightedVarianceRun [Container] (V : VMeanProvider (List K × K) K) (x0 : List K) (ps : List (List K × K)) :
    Res (RVec K) := do
  let s ← foldRes (VWVarianceSt.push V) ⟨V.init, 0, 0, vdivS (vec x0) 1⟩ ps
  return s.var

end Acc
