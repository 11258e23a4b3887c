import Verif.Model.Vec
import Verif.Model.History
import Verif.Model.Basic
import Mathlib.Algebra.Order.Field.Basic

/-!
# Model of the histogram density estimators

`density.hpp` and `weighted_density.hpp` under `/repo/include/boost/accumulators/statistics/`.  The
modelled sets are the whole dependency closures: `count`, `min`, `max`, `density` and
`count`, `sum_of_weights`, `min`, `max`, `weighted_density`; the framework calls the density
accumulator last.

Simplifications: `num_bins = 0` makes the bin size a floating point division by zero; the model then
gives up with `nonfinite` for the whole push.
-/

namespace Acc

variable {K : Type} [Arith K] [DecidableEq K] [LE K] [LT K] [DecidableLE K] [DecidableLT K]

/-- `density.hpp:113-116`, `weighted_density.hpp:102-105`: `minimum + (i - 1.) * bin_size`. -/
def binPositions (numBins : ℕ) (minimum binSize : K) : List K :=
  (List.range (numBins + 2)).map (fun i : ℕ => minimum + ((i : K) - 1) * binSize)

/-- `density.hpp:120-138` (and the identical `144-163`), `weighted_density.hpp:109-127`, `133-152`:
add `inc` to the bin into which `x` falls.  `samples_in_bin[d - 1]` with `d = 0` would wrap around
and be out of range. -/
def binAdd (numBins : ℕ) (pos : List K) (bins : List K) (x inc : K) : Res (List K) := do
  let first ← getAt pos 1
  if x < first then modifyAt bins 0 (· + inc)
  else do
    let last ← getAt pos (numBins + 1)
    if last ≤ x then modifyAt bins (numBins + 1) (· + inc)
    else do
      let d ← upperBound pos x
      match d with
      | 0 => .ub
      | d' + 1 => modifyAt bins d' (· + inc)

/-! ## density -/

/-- Members of the set `{count, min, max, density}` (`density.hpp:203-210`). -/
structure DensitySt (K : Type) where
  cnt : ℕ
  mn : K
  mx : K
  cacheSize : ℕ
  cache : List K
  numBins : ℕ
  bins : List K
  pos : List K
  hist : List (K × Res K)
  dirty : Bool

/-- `density.hpp:72-88`; `lo`, `hi` are the limits of the sample type from which `max` and `min`
start (`max.hpp:34-38`, `min.hpp:34-38`), `x0` the constructor's sample. -/
def densityInit (lo hi : K) (cacheSize numBins : ℕ) (x0 : K) : DensitySt K where
  cnt := 0
  mn := hi
  mx := lo
  cacheSize := cacheSize
  cache := List.replicate cacheSize 0
  numBins := numBins
  bins := List.replicate (numBins + 2) 0
  pos := List.replicate (numBins + 2) 0
  hist := List.replicate (numBins + 2) (x0, .val x0)
  dirty := true

/-- `density.hpp:90-164` (`operator()`): `cnt`, `mn`, `mx` are what `count(args)`, `min(args)`, `max(args)` return,
after these have been stepped. -/
def densityStep (cnt : ℕ) (mn mx : K) (s : DensitySt K) (x : K) : Res (DensitySt K) := do
  let cache ← if cnt ≤ s.cacheSize then setAt s.cache (cnt - 1) x else .val s.cache
  let s := { s with cnt := cnt, mn := mn, mx := mx, cache := cache, dirty := true }
  if cnt = s.cacheSize then do
    let minimum ← fdiv mn 1
    let maximum ← fdiv mx 1
    let binSize ← fdiv (maximum - minimum) (s.numBins : K)
    let pos := binPositions s.numBins minimum binSize
    let bins ← foldRes (fun bins y => binAdd s.numBins pos bins y 1) s.bins cache
    pure { s with pos := pos, bins := bins }
  else if s.cacheSize < cnt then do
    let bins ← binAdd s.numBins s.pos s.bins x 1
    pure { s with bins := bins }
  else .val s

/-- A push into the whole set: `count`, `min` and `max` first. -/
def densityPush (s : DensitySt K) (x : K) : Res (DensitySt K) :=
  densityStep (s.cnt + 1) (minAssign ltb s.mn x) (maxAssign ltb s.mx x) s x

/-- `density.hpp:169-187`: rebuild the histogram if dirty. -/
def densityQuery (s : DensitySt K) : Res (DensitySt K × List (K × Res K)) := do
  if s.dirty then do
    let hist ← mapRes (fun i => do
      let p ← getAt s.pos i
      let b ← getAt s.bins i
      pure (p, fdiv b (s.cnt : K))) (List.range (s.numBins + 2))
    pure ({ s with dirty := false, hist := hist }, hist)
  else pure (s, s.hist)

/-- `accumulator_set<Sample, features<tag::density>>`. -/
def densitySet (lo hi : K) (cacheSize numBins : ℕ) (x0 : K) :
    RMachine K Unit (DensitySt K) (List (K × Res K)) where
  init := densityInit lo hi cacheSize numBins x0
  push := densityPush
  query s _ := densityQuery s

/-! ## weighted_density -/

/-- Members of the set `{count, sum_of_weights, min, max, weighted_density}`
(`weighted_density.hpp:190-197`). -/
structure WDensitySt (K : Type) where
  cnt : ℕ
  wsum : K
  mn : K
  mx : K
  cacheSize : ℕ
  cache : List (K × K)
  numBins : ℕ
  bins : List K
  pos : List K
  hist : List (K × Res K)
  dirty : Bool

/-- `weighted_density.hpp:61-77`. -/
def wdensityInit (lo hi : K) (cacheSize numBins : ℕ) (x0 : K) : WDensitySt K where
  cnt := 0
  wsum := 0
  mn := hi
  mx := lo
  cacheSize := cacheSize
  cache := List.replicate cacheSize (0, 0)
  numBins := numBins
  bins := List.replicate (numBins + 2) 0
  pos := List.replicate (numBins + 2) 0
  hist := List.replicate (numBins + 2) (x0, .val x0)
  dirty := true

/-- `weighted_density.hpp:79-153` (`operator()`): `cnt`, `wsum`, `mn`, `mx` are what `count(args)`,
`sum_of_weights(args)`, `min(args)`, `max(args)` return, after these have been stepped (`operator()` does not read the sum
of the weights; it is kept for `result`). -/
def wdensityStep (cnt : ℕ) (wsum mn mx : K) (s : WDensitySt K) (p : K × K) : Res (WDensitySt K) := do
  let cache ← if cnt ≤ s.cacheSize then setAt s.cache (cnt - 1) p else .val s.cache
  let s := { s with cnt := cnt, wsum := wsum, mn := mn, mx := mx, cache := cache,
                    dirty := true }
  if cnt = s.cacheSize then do
    let minimum ← fdiv mn 1
    let maximum ← fdiv mx 1
    let binSize ← fdiv (maximum - minimum) (s.numBins : K)
    let pos := binPositions s.numBins minimum binSize
    let bins ← foldRes (fun bins q => binAdd s.numBins pos bins q.1 q.2) s.bins cache
    pure { s with pos := pos, bins := bins }
  else if s.cacheSize < cnt then do
    let bins ← binAdd s.numBins s.pos s.bins p.1 p.2
    pure { s with bins := bins }
  else .val s

/-- A push into the whole set. -/
def wdensityPush (s : WDensitySt K) (p : K × K) : Res (WDensitySt K) :=
  wdensityStep (s.cnt + 1) (sumStep s.wsum p.2) (minAssign ltb s.mn p.1) (maxAssign ltb s.mx p.1) s p

/-- `weighted_density.hpp:155-174`. -/
def wdensityQuery (s : WDensitySt K) : Res (WDensitySt K × List (K × Res K)) := do
  if s.dirty then do
    let hist ← mapRes (fun i => do
      let p ← getAt s.pos i
      let b ← getAt s.bins i
      pure (p, fdiv b s.wsum)) (List.range (s.numBins + 2))
    pure ({ s with dirty := false, hist := hist }, hist)
  else pure (s, s.hist)

/-- `accumulator_set<Sample, features<tag::weighted_density>, Weight>`. -/
def wdensitySet (lo hi : K) (cacheSize numBins : ℕ) (x0 : K) :
    RMachine (K × K) Unit (WDensitySt K) (List (K × Res K)) where
  init := wdensityInit lo hi cacheSize numBins x0
  push := wdensityPush
  query s _ := wdensityQuery s

end Acc
