import Verif.Model.Basic
import Verif.Model.Weighted

/-!
# skewness and error_of<mean> over any number type

`Model/Basic.lean` has `skewness` and `error_of<mean>` over the reals.  Here the number type is any, and `std::sqrt` is an
operation `root` of it.
-/

namespace Acc

universe u
variable {K : Type u} [Arith K] [DecidableEq K]

/-- `skewness.hpp:57-67`, `weighted_skewness.hpp:58-68`. -/
def skewnessWith (root : K → Res K) (m2 m3 mean : Res K) : Res K := do
  let m3 ← m3
  let m2 ← m2
  let m ← mean
  let s ← root (m2 - m * m)
  fdiv (m3 - 3 * m2 * m + 2 * m * m * m) ((m2 - m * m) * s)

/-- `skewness(acc)`. -/
def skewnessRunWith (root : K → Res K) (P : MeanProvider K K) (xs : List K) : Res K :=
  skewnessWith root (momentRun 2 0 xs) (momentRun 3 0 xs) (P.read (P.run xs))

/-- `weighted_skewness(acc)`. -/
def weightedSkewnessRunWith (root : K → Res K) (P : MeanProvider (K × K) K) (ps : List (K × K)) : Res K :=
  skewnessWith root (weightedMomentRun 2 0 ps) (weightedMomentRun 3 0 ps) (P.read (P.run ps))

/-- `error_of_mean.hpp:36-42`: `sqrt(fdiv(variance(args), count(args) - 1))`. -/
def errorOfMeanWith (root : K → Res K) (w : ℕ) (var : Res K) (cnt : BitVec w) : Res K := do
  let v ← var
  let q ← fdiv v (((cnt - 1#w).toNat : ℕ) : K)
  root q

/-- `error_of<tag::mean>`: reads `lazy_variance` (`error_of_mean.hpp:53-59`). -/
def errorOfMeanRunWith (root : K → Res K) (w : ℕ) (P : MeanProvider K K) (xs : List K) : Res K :=
  errorOfMeanWith root w (lazyVarianceRun P 0 xs) (xs.foldl (fun c _ => countStep c) (countInit w))

/-- `error_of<tag::immediate_mean>`: reads `variance` (`error_of_mean.hpp:61-68`). -/
def errorOfImmMeanRunWith (root : K → Res K) (w : ℕ) (P : MeanProvider K K) (xs : List K) : Res K :=
  errorOfMeanWith root w (varianceRun P 0 xs) (xs.foldl (fun c _ => countStep c) (countInit w))

/-- `std::sqrt` of a real number; of a negative one it is a NaN. -/
noncomputable def realRoot (x : ℝ) : Res ℝ := if x < 0 then .nonfinite else .val (Real.sqrt x)

/-- Over the reals these are the definitions of `Model/Basic.lean` and `Model/Weighted.lean`. -/
theorem skewnessWith_real (m2 m3 m : Res ℝ) : skewnessWith realRoot m2 m3 m = skewnessResult m2 m3 m := by
  rw [skewnessWith, skewnessResult]
  cases m3 <;> try rfl
  cases m2 <;> try rfl
  cases m <;> try rfl
  simp only [Res.val_bind, realRoot]
  split_ifs <;> rfl

theorem errorOfMeanWith_real (w : ℕ) (v : Res ℝ) (c : BitVec w) :
    errorOfMeanWith realRoot w v c = errorOfMeanResult w v c := by
  rw [errorOfMeanWith, errorOfMeanResult]
  cases v <;> rfl

end Acc
