import Verif.Model.StdLib

/-!
# Features with modifiers

`tag::mean(immediate)`, `tag::median(with_density)`, `tag::error_of<tag::mean(lazy)>`,
`tag::droppable<tag::sum(kahan)>`: what a user may write in a list of features, and the feature that `as_feature`
makes of it (paths relative to `/repo/include/boost/accumulators/`).
-/

namespace Acc

/-- The modifiers (`statistics_fwd.hpp:391-428`; `left`, `right` are parameters of
features here, `fast`, `weighted`, `regular` and the like occur in no specialisation of `as_feature`). -/
inductive Mod where
  | lazy | immediate | kahan
  | withDensity | withPSquareQuantile | withCumul
  | withThresholdValue | withThresholdProbability
  | linear | quadratic
  | absolute | relative
deriving DecidableEq, Repr

/-- Names that take a modifier: the features, and `tail_variate_means`, `weighted_tail_variate_means`, which are no
features without one (declared only, `statistics_fwd.hpp:133`, `:181`). -/
inductive ModName where
  | std (f : StdF)
  | tailVariateMeans (s : Side) (v : ℕ)
  | weightedTailVariateMeans (s : Side) (v : ℕ)
deriving DecidableEq, Repr

open StdF in
/-- The specialisations of `as_feature` for a name with a modifier; `none`: there is none, and the set does not
compile (`framework/depends_on.hpp:51-55` leaves the function type as it is; it has no `impl`). -/
def asFeature : ModName → Mod → Option StdF
  -- statistics/mean.hpp:169-207
  | .std mean, .lazy => some mean
  | .std mean, .immediate => some immediateMean
  | .std meanOfWeights, .lazy => some meanOfWeights
  | .std meanOfWeights, .immediate => some immediateMeanOfWeights
  | .std (meanOfVariates v), .lazy => some (meanOfVariates v)
  | .std (meanOfVariates v), .immediate => some (immediateMeanOfVariates v)
  -- statistics/weighted_mean.hpp:168-192
  | .std weightedMean, .lazy => some weightedMean
  | .std weightedMean, .immediate => some immediateWeightedMean
  | .std (weightedMeanOfVariates v), .lazy => some (weightedMeanOfVariates v)
  | .std (weightedMeanOfVariates v), .immediate => some (immediateWeightedMeanOfVariates v)
  -- statistics/sum_kahan.hpp:146-156, statistics/weighted_sum_kahan.hpp:133-136
  | .std sum, .kahan => some sumKahan
  | .std sumOfWeights, .kahan => some sumOfWeightsKahan
  | .std weightedSum, .kahan => some weightedSumKahan
  -- statistics/variance.hpp:174-184, statistics/weighted_variance.hpp:160-170
  | .std variance, .lazy => some lazyVariance
  | .std variance, .immediate => some variance
  | .std weightedVariance, .lazy => some lazyWeightedVariance
  | .std weightedVariance, .immediate => some weightedVariance
  -- statistics/rolling_mean.hpp:167-177, statistics/rolling_variance.hpp:230-240
  | .std rollingMean, .lazy => some lazyRollingMean
  | .std rollingMean, .immediate => some immediateRollingMean
  | .std rollingVariance, .lazy => some lazyRollingVariance
  | .std rollingVariance, .immediate => some immediateRollingVariance
  -- statistics/median.hpp:246-263, statistics/weighted_median.hpp:234-251
  | .std median, .withPSquareQuantile => some median
  | .std median, .withDensity => some withDensityMedian
  | .std median, .withCumul => some withCumulMedian
  | .std weightedMedian, .withPSquareQuantile => some weightedMedian
  | .std weightedMedian, .withDensity => some withDensityWeightedMedian
  | .std weightedMedian, .withCumul => some withCumulWeightedMedian
  -- statistics/extended_p_square_quantile.hpp:260-284
  | .std extendedPSquareQuantile, .linear => some extendedPSquareQuantile
  | .std extendedPSquareQuantile, .quadratic => some extendedPSquareQuantileQuadratic
  | .std weightedExtendedPSquareQuantile, .linear => some weightedExtendedPSquareQuantile
  | .std weightedExtendedPSquareQuantile, .quadratic => some weightedExtendedPSquareQuantileQuadratic
  -- statistics/tail_variate_means.hpp:210-220, statistics/weighted_tail_variate_means.hpp:235-245
  | .tailVariateMeans s v, .absolute => some (absoluteTailVariateMeans s v)
  | .tailVariateMeans s v, .relative => some (relativeTailVariateMeans s v)
  | .weightedTailVariateMeans s v, .absolute => some (absoluteWeightedTailVariateMeans s v)
  | .weightedTailVariateMeans s v, .relative => some (relativeWeightedTailVariateMeans s v)
  -- statistics/peaks_over_threshold.hpp:378-388, statistics/weighted_peaks_over_threshold.hpp:284-294
  | .std (peaksOverThreshold s), .withThresholdValue => some (peaksOverThreshold s)
  | .std (peaksOverThreshold s), .withThresholdProbability => some (peaksOverThresholdProb s)
  | .std (weightedPeaksOverThreshold s), .withThresholdValue => some (weightedPeaksOverThreshold s)
  | .std (weightedPeaksOverThreshold s), .withThresholdProbability => some (weightedPeaksOverThresholdProb s)
  -- statistics/pot_quantile.hpp:141-165
  | .std (potQuantile s), .withThresholdValue => some (potQuantile s)
  | .std (potQuantile s), .withThresholdProbability => some (potQuantileProb s)
  | .std (weightedPotQuantile s), .withThresholdValue => some (weightedPotQuantile s)
  | .std (weightedPotQuantile s), .withThresholdProbability => some (weightedPotQuantileProb s)
  -- statistics/pot_tail_mean.hpp:148-172
  | .std (potTailMean s), .withThresholdValue => some (potTailMean s)
  | .std (potTailMean s), .withThresholdProbability => some (potTailMeanProb s)
  | .std (weightedPotTailMean s), .withThresholdValue => some (weightedPotTailMean s)
  | .std (weightedPotTailMean s), .withThresholdProbability => some (weightedPotTailMeanProb s)
  | _, _ => none

/-- What a user may write in a list of features. -/
inductive Request where
  | plain (f : StdF)
  | modified (n : ModName) (m : Mod)
  | errorOf (r : Request)
  | droppable (r : Request)
deriving DecidableEq, Repr

/-- `as_feature` of a request: `framework/depends_on.hpp:51-55`, the table above, `statistics/error_of.hpp:84-87` (only
`error_of<mean>` and `error_of<immediate_mean>` have an implementation, `statistics/error_of_mean.hpp`),
`framework/accumulators/droppable_accumulator.hpp:304-307`.  `none`: does not compile.  `droppable<droppable<F>>` is
left out of the model. -/
def Request.resolve : Request → Option (Tag StdF)
  | .plain f => some ⟨f, false⟩
  | .modified n m => (asFeature n m).map (⟨·, false⟩)
  | .errorOf r =>
    match r.resolve with
    | some ⟨.mean, false⟩ => some ⟨.errorOfMean, false⟩
    | some ⟨.immediateMean, false⟩ => some ⟨.errorOfImmediateMean, false⟩
    | _ => none
  | .droppable r =>
    match r.resolve with
    | some ⟨f, false⟩ => some ⟨f, true⟩
    | _ => none

/-- `with_error<rs...>` (`statistics/with_error.hpp:33-40`). -/
def withError (rs : List Request) : List Request := rs.map .errorOf

/-- `as_feature_list` applies `as_feature` to every element (`framework/depends_on.hpp:299-309`). -/
def resolveAll (rs : List Request) : Option (List (Tag StdF)) := rs.mapM Request.resolve

/-- The accumulators of `accumulator_set<Sample, features<rs>, Weight>` (`w`: with weights). -/
def setOf (w : Bool) (ord : List (Tag StdF) → List (Tag StdF)) (rs : List Request) : Option (List (Tag StdF)) :=
  (resolveAll rs).map (stdLib.accumulators w ord)

/-- The accumulator that `extract_result<R>` reads, `find_accumulator<R>` returns and `drop<R>` drops: they, too, put
what they are given through `as_feature` (`framework/extractor.hpp:39-91`, `framework/depends_on.hpp:176-186`,
`framework/accumulator_set.hpp:398-445`). -/
def findIn (S : List (Tag StdF)) (r : Request) : Option (Tag StdF) := r.resolve.bind (stdLib.find S)

end Acc
