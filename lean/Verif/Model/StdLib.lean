import Verif.Model.Framework
import Verif.Spec.Order

/-!
# The features of the statistics library

One constructor per feature of `/repo/include/boost/accumulators/statistics/` (paths below are relative to that
directory), with the dependencies, abstract features and weighted flavours declared there.

`ℕ` parameters: `moment n` is `tag::moment<n>`; in features over covariates `v` stands for the pair
`VariateType, VariateTag`.  `errorOf f` is `tag::error_of<f>`; only the arguments `mean` and `immediate_mean` have
an implementation, so only these two are listed.
-/

namespace Acc

/-- The tags of the library.  Those starting with `abstract`, and `quantile`, `tailMean`, have no implementation
of their own; they only name what others provide. -/
inductive StdF where
  | count | min | max | sum | sumKahan | weightedSum | weightedSumKahan
  | sumOfWeights | sumOfWeightsKahan
  | sumOfVariates (v : ℕ) | sumOfVariatesKahan (v : ℕ) | abstractSumOfVariates
  | weightedSumOfVariates (v : ℕ) | weightedSumOfVariatesKahan (v : ℕ) | abstractWeightedSumOfVariates
  | mean | immediateMean | weightedMean | immediateWeightedMean
  | meanOfWeights | immediateMeanOfWeights
  | meanOfVariates (v : ℕ) | immediateMeanOfVariates (v : ℕ)
  | weightedMeanOfVariates (v : ℕ) | immediateWeightedMeanOfVariates (v : ℕ)
  | moment (n : ℕ) | weightedMoment (n : ℕ)
  | variance | lazyVariance | weightedVariance | lazyWeightedVariance
  | skewness | weightedSkewness | kurtosis | weightedKurtosis
  | covariance (v : ℕ) | weightedCovariance (v : ℕ) | abstractCovariance
  | errorOfMean | errorOfImmediateMean
  | density | weightedDensity
  | pSquareQuantile | pSquareQuantileForMedian | weightedPSquareQuantile | weightedPSquareQuantileForMedian
  | pSquareCumul | weightedPSquareCumul
  | extendedPSquare | weightedExtendedPSquare
  | extendedPSquareQuantile | extendedPSquareQuantileQuadratic
  | weightedExtendedPSquareQuantile | weightedExtendedPSquareQuantileQuadratic
  | median | withDensityMedian | withCumulMedian
  | weightedMedian | withDensityWeightedMedian | withCumulWeightedMedian
  | tail (s : Side) | abstractTail
  | tailVariate (v : ℕ) (s : Side) | abstractTailVariate
  | tailWeights (s : Side) | abstractTailWeights
  | quantile | tailQuantile (s : Side) | weightedTailQuantile (s : Side)
  | tailMean | coherentTailMean (s : Side)
  | nonCoherentTailMean (s : Side) | nonCoherentWeightedTailMean (s : Side) | abstractNonCoherentTailMean
  | absoluteTailVariateMeans (s : Side) (v : ℕ) | relativeTailVariateMeans (s : Side) (v : ℕ)
  | absoluteWeightedTailVariateMeans (s : Side) (v : ℕ) | relativeWeightedTailVariateMeans (s : Side) (v : ℕ)
  | abstractAbsoluteTailVariateMeans | abstractRelativeTailVariateMeans
  | peaksOverThreshold (s : Side) | peaksOverThresholdProb (s : Side)
  | weightedPeaksOverThreshold (s : Side) | weightedPeaksOverThresholdProb (s : Side)
  | abstractPeaksOverThreshold
  | potQuantile (s : Side) | potQuantileProb (s : Side)
  | weightedPotQuantile (s : Side) | weightedPotQuantileProb (s : Side)
  | potTailMean (s : Side) | potTailMeanProb (s : Side)
  | weightedPotTailMean (s : Side) | weightedPotTailMeanProb (s : Side)
  | rollingWindowPlus1 | rollingWindow | rollingCount | rollingSum | rollingMoment (n : ℕ)
  | rollingMean | lazyRollingMean | immediateRollingMean
  | rollingVariance | lazyRollingVariance | immediateRollingVariance
deriving DecidableEq, Repr

namespace StdF

/-- `feature_of` (the specialisations at the end of each header; features not mentioned provide themselves,
`framework/depends_on.hpp:67-71`): `mean.hpp:211-285` (also for `weighted_mean.hpp`),
`sum.hpp`, `sum_kahan.hpp`, `weighted_sum.hpp`, `weighted_sum_kahan.hpp`, `variance.hpp`, `moment.hpp`,
`weighted_moment.hpp`, `skewness.hpp`, `kurtosis.hpp`, `covariance.hpp`, `weighted_covariance.hpp`,
`density.hpp`, `weighted_density.hpp`, `median.hpp`, `weighted_median.hpp`, `p_square_*.hpp`,
`weighted_p_square_*.hpp`, `*extended_p_square*.hpp`, `tail.hpp`, `tail_variate.hpp:136-146`, `*tail_quantile.hpp`,
`tail_mean.hpp`, `weighted_tail_mean.hpp`, `*tail_variate_means.hpp`, `*peaks_over_threshold.hpp`,
`pot_quantile.hpp`, `pot_tail_mean.hpp`, `rolling_mean.hpp:181-193`, `rolling_variance.hpp:244-256`. -/
def key : StdF → StdF
  | sumKahan | weightedSum | weightedSumKahan => sum
  | sumOfWeightsKahan => sumOfWeights
  | sumOfVariates _ | sumOfVariatesKahan _ => abstractSumOfVariates
  | weightedSumOfVariates _ | weightedSumOfVariatesKahan _ => abstractWeightedSumOfVariates
  | immediateMean | weightedMean | immediateWeightedMean => mean
  | immediateMeanOfWeights => meanOfWeights
  | immediateMeanOfVariates v | weightedMeanOfVariates v | immediateWeightedMeanOfVariates v =>
    meanOfVariates v
  | weightedMoment n => moment n
  | lazyVariance | weightedVariance | lazyWeightedVariance => variance
  | weightedSkewness => skewness
  | weightedKurtosis => kurtosis
  | covariance _ | weightedCovariance _ => abstractCovariance
  | weightedDensity => density
  | weightedPSquareQuantile => pSquareQuantile
  | weightedPSquareCumul => pSquareCumul
  | weightedExtendedPSquare => extendedPSquare
  | extendedPSquareQuantile | extendedPSquareQuantileQuadratic | weightedExtendedPSquareQuantile
  | weightedExtendedPSquareQuantileQuadratic | tailQuantile _ | weightedTailQuantile _ | potQuantile _
  | potQuantileProb _ | weightedPotQuantile _ | weightedPotQuantileProb _ => quantile
  | withDensityMedian | withCumulMedian | weightedMedian | withDensityWeightedMedian
  | withCumulWeightedMedian => median
  | tail _ => abstractTail
  | tailVariate _ _ => abstractTailVariate
  | tailWeights _ => abstractTailWeights
  | coherentTailMean _ | potTailMean _ | potTailMeanProb _ | weightedPotTailMean _
  | weightedPotTailMeanProb _ => tailMean
  | nonCoherentTailMean _ | nonCoherentWeightedTailMean _ => abstractNonCoherentTailMean
  | absoluteTailVariateMeans _ _ | absoluteWeightedTailVariateMeans _ _ => abstractAbsoluteTailVariateMeans
  | relativeTailVariateMeans _ _ | relativeWeightedTailVariateMeans _ _ => abstractRelativeTailVariateMeans
  | peaksOverThreshold _ | peaksOverThresholdProb _ | weightedPeaksOverThreshold _
  | weightedPeaksOverThresholdProb _ => abstractPeaksOverThreshold
  | lazyRollingMean | immediateRollingMean => rollingMean
  | lazyRollingVariance | immediateRollingVariance => rollingVariance
  | f => f

/-- The argument list of `depends_on<...>` in the definition of each tag. -/
def depBases : StdF → List StdF
  -- mean.hpp:98-146, weighted_mean.hpp:117-149
  | mean => [count, sum]
  | immediateMean => [count]
  | meanOfWeights => [count, sumOfWeights]
  | immediateMeanOfWeights => [count]
  | meanOfVariates v => [count, sumOfVariates v]
  | immediateMeanOfVariates _ => [count]
  | weightedMean => [sumOfWeights, weightedSum]
  | immediateWeightedMean => [sumOfWeights]
  | weightedMeanOfVariates v => [sumOfWeights, weightedSumOfVariates v]
  | immediateWeightedMeanOfVariates _ => [sumOfWeights]
  -- moment.hpp, weighted_moment.hpp
  | moment _ => [count]
  | weightedMoment _ => [count, sumOfWeights]
  -- variance.hpp, weighted_variance.hpp
  | variance => [count, immediateMean]
  | lazyVariance => [moment 2, mean]
  | weightedVariance => [count, immediateWeightedMean]
  | lazyWeightedVariance => [weightedMoment 2, weightedMean]
  -- skewness.hpp, kurtosis.hpp, weighted_skewness.hpp, weighted_kurtosis.hpp
  | skewness => [mean, moment 2, moment 3]
  | kurtosis => [mean, moment 2, moment 3, moment 4]
  | weightedSkewness => [weightedMean, weightedMoment 2, weightedMoment 3]
  | weightedKurtosis => [weightedMean, weightedMoment 2, weightedMoment 3, weightedMoment 4]
  -- covariance.hpp, weighted_covariance.hpp
  | covariance v => [count, mean, meanOfVariates v]
  | weightedCovariance v => [count, sumOfWeights, weightedMean, weightedMeanOfVariates v]
  -- error_of_mean.hpp
  | errorOfMean => [lazyVariance, count]
  | errorOfImmediateMean => [variance, count]
  -- density.hpp, weighted_density.hpp
  | density => [count, min, max]
  | weightedDensity => [count, sumOfWeights, min, max]
  -- p_square_quantile.hpp, p_square_cumul_dist.hpp, extended_p_square.hpp and weighted versions
  | pSquareQuantile | pSquareQuantileForMedian | pSquareCumul | extendedPSquare => [count]
  | weightedPSquareQuantile | weightedPSquareQuantileForMedian | weightedPSquareCumul
  | weightedExtendedPSquare => [count, sumOfWeights]
  | extendedPSquareQuantile | extendedPSquareQuantileQuadratic => [extendedPSquare]
  | weightedExtendedPSquareQuantile | weightedExtendedPSquareQuantileQuadratic => [weightedExtendedPSquare]
  -- median.hpp, weighted_median.hpp
  | median => [pSquareQuantileForMedian]
  | withDensityMedian => [count, density]
  | withCumulMedian => [pSquareCumul]
  | weightedMedian => [weightedPSquareQuantileForMedian]
  | withDensityWeightedMedian => [count, weightedDensity]
  | withCumulWeightedMedian => [weightedPSquareCumul]
  -- tail_variate.hpp:89-118
  | tailVariate _ s => [tail s]
  | tailWeights s => [tail s]
  -- tail_quantile.hpp, weighted_tail_quantile.hpp
  | tailQuantile s => [count, tail s]
  | weightedTailQuantile s => [sumOfWeights, tailWeights s]
  -- tail_mean.hpp, weighted_tail_mean.hpp
  | nonCoherentTailMean s => [count, tail s]
  | coherentTailMean s => [count, quantile, nonCoherentTailMean s]
  | nonCoherentWeightedTailMean s => [sumOfWeights, tailWeights s]
  -- tail_variate_means.hpp, weighted_tail_variate_means.hpp
  | absoluteTailVariateMeans s v | relativeTailVariateMeans s v =>
    [count, nonCoherentTailMean s, tailVariate v s]
  | absoluteWeightedTailVariateMeans s v | relativeWeightedTailVariateMeans s v =>
    [nonCoherentWeightedTailMean s, tailVariate v s, tailWeights s]
  -- peaks_over_threshold.hpp, weighted_peaks_over_threshold.hpp
  | peaksOverThreshold _ => [count]
  | peaksOverThresholdProb s => [count, tail s]
  | weightedPeaksOverThreshold _ => [sumOfWeights]
  | weightedPeaksOverThresholdProb s => [sumOfWeights, tailWeights s]
  -- pot_quantile.hpp, pot_tail_mean.hpp
  | potQuantile s => [peaksOverThreshold s]
  | potQuantileProb s => [peaksOverThresholdProb s]
  | weightedPotQuantile s => [weightedPeaksOverThreshold s]
  | weightedPotQuantileProb s => [weightedPeaksOverThresholdProb s]
  | potTailMean s => [peaksOverThreshold s, potQuantile s]
  | potTailMeanProb s => [peaksOverThresholdProb s, potQuantileProb s]
  | weightedPotTailMean s => [weightedPeaksOverThreshold s, weightedPotQuantile s]
  | weightedPotTailMeanProb s => [weightedPeaksOverThresholdProb s, weightedPotQuantileProb s]
  -- rolling_window.hpp, rolling_count.hpp, rolling_sum.hpp, rolling_moment.hpp
  | rollingWindow | rollingCount | rollingSum => [rollingWindowPlus1]
  | rollingMoment _ => [rollingWindowPlus1, rollingCount]
  -- rolling_mean.hpp:113-142
  | lazyRollingMean => [rollingSum, rollingCount]
  | immediateRollingMean | rollingMean => [rollingWindowPlus1, rollingCount]
  -- rolling_variance.hpp:176-206
  | lazyRollingVariance => [rollingCount, rollingMean, rollingMoment 2]
  | immediateRollingVariance | rollingVariance => [rollingWindowPlus1, rollingCount, immediateRollingMean]
  -- no dependencies: count, min, max, sums, tail, rolling_window_plus1, abstract features
  | _ => []

/-- `as_weighted_feature`.  Features without a specialisation stay as they are
(`framework/depends_on.hpp:58-63`).  (`error_of<F>` has a specialisation that violates the assertion of
`depends_on.hpp:288-294`: in a set with weights it does not compile.) -/
def weighted : StdF → StdF
  | sum => weightedSum
  | sumKahan => weightedSumKahan
  | mean => weightedMean
  | immediateMean => immediateWeightedMean
  | meanOfVariates v => weightedMeanOfVariates v
  | immediateMeanOfVariates v => immediateWeightedMeanOfVariates v
  | moment n => weightedMoment n
  | variance => weightedVariance
  | lazyVariance => lazyWeightedVariance
  | skewness => weightedSkewness
  | kurtosis => weightedKurtosis
  | covariance v => weightedCovariance v
  | density => weightedDensity
  | pSquareQuantile => weightedPSquareQuantile
  | pSquareCumul => weightedPSquareCumul
  | extendedPSquare => weightedExtendedPSquare
  | extendedPSquareQuantile => weightedExtendedPSquareQuantile
  | extendedPSquareQuantileQuadratic => weightedExtendedPSquareQuantileQuadratic
  | median => weightedMedian
  | withDensityMedian => withDensityWeightedMedian
  | withCumulMedian => withCumulWeightedMedian
  | tailQuantile s => weightedTailQuantile s
  | nonCoherentTailMean s => nonCoherentWeightedTailMean s
  | absoluteTailVariateMeans s v => absoluteWeightedTailVariateMeans s v
  | relativeTailVariateMeans s v => relativeWeightedTailVariateMeans s v
  | peaksOverThreshold s => weightedPeaksOverThreshold s
  | peaksOverThresholdProb s => weightedPeaksOverThresholdProb s
  | potQuantile s => weightedPotQuantile s
  | potQuantileProb s => weightedPotQuantileProb s
  | potTailMean s => weightedPotTailMean s
  | potTailMeanProb s => weightedPotTailMeanProb s
  | f => f

/-- Depth of the dependencies of an abstract feature, whoever provides it (not in the code). -/
def rank : StdF → ℕ
  | mean | meanOfWeights | meanOfVariates _ | moment _ | density | pSquareQuantile | pSquareQuantileForMedian
  | weightedPSquareQuantileForMedian | pSquareCumul | extendedPSquare | abstractTailVariate
  | abstractTailWeights | rollingCount | rollingSum | rollingWindow => 1
  | variance | skewness | kurtosis | abstractCovariance | abstractPeaksOverThreshold
  | abstractNonCoherentTailMean | median | rollingMean | rollingMoment _ => 2
  | quantile | abstractAbsoluteTailVariateMeans | abstractRelativeTailVariateMeans | rollingVariance
  | errorOfMean | errorOfImmediateMean => 3
  | tailMean => 4
  | _ => 0

end StdF

/-- The library. -/
def stdLib : Lib StdF where
  key := StdF.key
  deps f := f.depBases.map fun d => ⟨d, false⟩
  weighted := StdF.weighted
  rank := StdF.rank

/-- Dependencies have a smaller rank (checked by computation, the ranks do not depend on the parameters). -/
theorem StdF.depBases_rank (f : StdF) :
    (f.depBases.all fun d => decide (StdF.rank (StdF.key d) < StdF.rank (StdF.key f))) = true := by
  cases f <;> rfl

theorem stdLib_ok : stdLib.Ok where
  idem f := by cases f <;> rfl
  down f d hd := by
    obtain ⟨d0, h0, rfl⟩ := List.mem_map.1 hd
    exact of_decide_eq_true (List.all_eq_true.1 (StdF.depBases_rank f) d0 h0)
  weighted_key f := by cases f <;> rfl

end Acc
