import Verif.Model.Density
import Verif.Model.PSquare

/-!
# Model of the medians built on a histogram

`median.hpp`, `weighted_median.hpp` under `/repo/include/boost/accumulators/statistics/`.
`median_impl` itself just returns the P-square quantile for 1/2 and is modelled with it.
-/

namespace Acc

variable {K : Type} [Arith K] [LinearOrder K]

/-- `median.hpp:99-103`, `weighted_median.hpp:96-100`: the loop
`while (sum < 0.5 * cnt) { sum += it->second * cnt; ++it; }` starting at the given rest of the histogram;
`i` counts the increments of `it`.  Reading past the end is undefined.
Simplification: a NaN entry ends the evaluation. -/
def densityMedianLoop (cnt : K) (sum : K) (i : ℕ) : List (K × Res K) → Res (K × ℕ)
  | [] => if sum < 1 / 2 * cnt then .ub else .val (sum, i)
  | r :: rs =>
    if sum < 1 / 2 * cnt then do
      let f ← r.2
      densityMedianLoop cnt (sum + f * cnt) (i + 1) rs
    else .val (sum, i)

/-- `median.hpp:96-106`, `weighted_median.hpp:93-103`: the body of `if (is_dirty)`.  Returns the new
`sum` and the median.  `--it` on `begin()` and dereferencing `it + 1 == end()` are undefined. -/
def densityMedianBody (cnt : K) (sum : K) (hist : List (K × Res K)) : Res (K × K) := do
  let r ← densityMedianLoop cnt sum 0 hist
  match r.2 with
  | 0 => .ub
  | i + 1 => do
    let it ← getAt hist i
    let f ← it.2
    let over ← fdiv (r.1 - 1 / 2 * cnt) (f * cnt)
    let next ← getAt hist (i + 1)
    pure (r.1, it.1 * over + next.1 * (1 - over))

/-- Members of the set `{count, min, max, density, with_density_median}` (`median.hpp:123-125`);
`median` is uninitialised until the first extraction. -/
structure DMedianSt (K : Type) where
  dens : DensitySt K
  sum : K
  dirty : Bool
  median : K

/-- `accumulator_set<Sample, features<tag::with_density_median>>`: constructor `median.hpp:76-81`
(`sum` starts at the constructor's sample), `operator()` 83-86, `result` 89-110. -/
def dmedianSet (lo hi : K) (cacheSize numBins : ℕ) (x0 : K) :
    RMachine K Unit (DMedianSt K) K where
  init := ⟨densityInit lo hi cacheSize numBins x0, x0, true, 0⟩
  push s x := do
    let d ← densityPush s.dens x
    pure { s with dens := d, dirty := true }
  query s _ :=
    if s.dirty then do
      let r ← densityQuery s.dens
      let m ← densityMedianBody (s.dens.cnt : K) s.sum r.2
      pure (⟨r.1, m.1, false, m.2⟩, m.2)
    else pure (s, s.median)

/-- Members of the set for `with_density_weighted_median` (`weighted_median.hpp:119-121`). -/
structure WDMedianSt (K : Type) where
  dens : WDensitySt K
  sum : K
  dirty : Bool
  median : K

/-- `accumulator_set<Sample, features<tag::with_density_median>, Weight>`:
`weighted_median.hpp:74-107`.  Note that the *number* of samples is used as scale, with the
*weight* fractions of the histogram. -/
def wdmedianSet (lo hi : K) (cacheSize numBins : ℕ) (x0 : K) :
    RMachine (K × K) Unit (WDMedianSt K) K where
  init := ⟨wdensityInit lo hi cacheSize numBins x0, x0, true, 0⟩
  push s p := do
    let d ← wdensityPush s.dens p
    pure { s with dens := d, dirty := true }
  query s _ :=
    if s.dirty then do
      let r ← wdensityQuery s.dens
      let m ← densityMedianBody (s.dens.cnt : K) s.sum r.2
      pure (⟨r.1, m.1, false, m.2⟩, m.2)
    else pure (s, s.median)

/-! ## Median from the cumulative distribution -/

/-- `median.hpp:167-170`, `weighted_median.hpp:164-167`: `while (it->second < 0.5) ++it;`.  A comparison
with NaN is false. -/
def cumulMedianLoop (i : ℕ) : List (K × Res K) → Res ℕ
  | [] => .ub
  | r :: rs =>
    match r.2 with
    | .val f => if f < 1 / 2 then cumulMedianLoop (i + 1) rs else .val i
    | _ => .val i

/-- `median.hpp:165-172`, `weighted_median.hpp:162-169`: dereferencing `it - 1` for `it == begin()` or
`it + 1 == end()` is undefined. -/
def cumulMedianBody (hist : List (K × Res K)) : Res K := do
  let i ← cumulMedianLoop 0 hist
  let it ← getAt hist i
  match i with
  | 0 => .ub
  | j + 1 => do
    let prev ← getAt hist j
    let next ← getAt hist (i + 1)
    let f ← it.2
    let g ← prev.2
    let over ← fdiv (f - 1 / 2) (f - g)
    pure (it.1 * over + next.1 * (1 - over))

/-- Members of the set `{count, p_square_cumulative_distribution, with_p_square_..._median}`
(`median.hpp:186-189`); `median` is uninitialised until the first extraction. -/
structure CMedianSt (K : Type) where
  dist : PsqCumulSt K
  dirty : Bool
  median : K

/-- `accumulator_set<Sample, features<tag::with_p_square_cumulative_distribution_median>>`
(`median.hpp:138-190`), for `b` cells. -/
def cmedianSet (b : ℕ) : RMachine K Unit (CMedianSt K) K where
  init := ⟨(psqCumulSet b).init, true, 0⟩
  push s x := do
    let d ← (psqCumulSet b).push s.dist x
    pure { s with dist := d, dirty := true }
  query s _ :=
    if s.dirty then do
      let r ← (psqCumulSet b).query s.dist ()
      let m ← cumulMedianBody r.2
      pure (⟨r.1, false, m⟩, m)
    else pure (s, s.median)

/-- Members of the weighted set (`weighted_median.hpp:183-185`). -/
structure WCMedianSt (K : Type) where
  dist : WPsqCumulSt K
  dirty : Bool
  median : K

/-- `accumulator_set<Sample, features<tag::with_p_square_cumulative_distribution_weighted_median>, Weight>`
(`weighted_median.hpp:135-186`), for `b` cells. -/
def wcmedianSet (b : ℕ) : RMachine (K × K) Unit (WCMedianSt K) K where
  init := ⟨(wpsqCumulSet b).init, true, 0⟩
  push s x := do
    let d ← (wpsqCumulSet b).push s.dist x
    pure { s with dist := d, dirty := true }
  query s _ :=
    if s.dirty then do
      let r ← (wpsqCumulSet b).query s.dist ()
      let m ← cumulMedianBody r.2
      pure (⟨r.1, false, m⟩, m)
    else pure (s, s.median)

end Acc
