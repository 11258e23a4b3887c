import Verif.Props.AccSet

/-!
# Which features of the library can be combined so that the update order is right
-/

set_option linter.unusedSectionVars false

namespace Acc

open StdF

/-- Where the quantile of the set comes from (a set has at most one accumulator providing `quantile`, C42). -/
inductive QFamily where
  | tail | pSquare | pot | potProb
deriving DecidableEq, Repr

namespace StdF

/-- Features that may be combined without weights.  Excluded: features with weights, `lazy_rolling_mean`
(see `C44_fails`), `error_of<immediate_mean>`, and tail means not matching the quantile. -/
def plain (q : QFamily) : StdF → Bool
  | count | min | max | sum | sumKahan | sumOfVariates _ | sumOfVariatesKahan _ | mean | immediateMean
  | meanOfVariates _ | immediateMeanOfVariates _ | moment _ | variance | lazyVariance | skewness | kurtosis
  | covariance _ | errorOfMean | density | pSquareQuantile | pSquareQuantileForMedian | pSquareCumul
  | extendedPSquare | median | withDensityMedian | withCumulMedian | StdF.tail _ | tailVariate _ _ | quantile
  | nonCoherentTailMean _ | absoluteTailVariateMeans _ _ | relativeTailVariateMeans _ _
  | rollingWindowPlus1 | rollingWindow | rollingCount | rollingSum | rollingMoment _ | rollingMean
  | immediateRollingMean | rollingVariance | lazyRollingVariance | immediateRollingVariance => true
  | extendedPSquareQuantile | extendedPSquareQuantileQuadratic => q = .pSquare
  | tailQuantile _ | coherentTailMean _ => q = .tail
  | peaksOverThreshold _ => q ≠ .potProb
  | potQuantile _ | potTailMean _ => q = .pot
  | peaksOverThresholdProb _ => q ≠ .pot
  | potQuantileProb _ | potTailMeanProb _ => q = .potProb
  | _ => false

/-- Features that may be combined in a set with weights.  Excluded: `coherent_tail_mean`,
`lazy_rolling_mean`, and tail means not matching the quantile. -/
def heavy (q : QFamily) : StdF → Bool
  | count | min | max | weightedSum | weightedSumKahan | sumOfWeights | sumOfWeightsKahan
  | weightedSumOfVariates _ | weightedSumOfVariatesKahan _ | weightedMean | immediateWeightedMean
  | meanOfWeights | immediateMeanOfWeights
  | weightedMeanOfVariates _ | immediateWeightedMeanOfVariates _ | weightedMoment _ | weightedVariance
  | lazyWeightedVariance | weightedSkewness | weightedKurtosis | weightedCovariance _ | weightedDensity
  | weightedPSquareQuantile | weightedPSquareQuantileForMedian | weightedPSquareCumul | weightedExtendedPSquare
  | weightedMedian | withDensityWeightedMedian | withCumulWeightedMedian | StdF.tail _ | tailVariate _ _
  | tailWeights _ | nonCoherentWeightedTailMean _
  | absoluteWeightedTailVariateMeans _ _ | relativeWeightedTailVariateMeans _ _
  | rollingWindowPlus1 | rollingWindow | rollingCount | rollingSum | rollingMoment _ | rollingMean
  | immediateRollingMean | rollingVariance | lazyRollingVariance | immediateRollingVariance => true
  | weightedExtendedPSquareQuantile | weightedExtendedPSquareQuantileQuadratic => q = .pSquare
  | weightedTailQuantile _ => q = .tail
  | weightedPeaksOverThreshold _ => q ≠ .potProb
  | weightedPotQuantile _ | weightedPotTailMean _ => q = .pot
  | weightedPeaksOverThresholdProb _ => q ≠ .pot
  | weightedPotQuantileProb _ | weightedPotTailMeanProb _ => q = .potProb
  | _ => false

def nice (w : Bool) (q : QFamily) (f : StdF) : Bool := if w then heavy q f else plain q f

/-- An upper bound of what the providers of an abstract feature depend on. -/
def upper : Bool → QFamily → StdF → List StdF
  | false, _, mean => [count, sum]
  | true, _, mean => [sumOfWeights, sum]
  | _, _, meanOfWeights => [count, sumOfWeights]
  | false, _, meanOfVariates _ => [count, abstractSumOfVariates]
  | true, _, meanOfVariates _ => [sumOfWeights, abstractWeightedSumOfVariates]
  | false, _, moment _ => [count]
  | true, _, moment _ => [count, sumOfWeights]
  | false, _, variance => [count, sum, mean, moment 2]
  | true, _, variance => [count, sum, sumOfWeights, mean, moment 2]
  | false, _, density => [count, min, max]
  | true, _, density => [count, sumOfWeights, min, max]
  | false, _, extendedPSquare | false, _, pSquareCumul | false, _, pSquareQuantile
  | false, _, pSquareQuantileForMedian => [count]
  | true, _, extendedPSquare | true, _, pSquareCumul | true, _, pSquareQuantile
  | true, _, weightedPSquareQuantileForMedian => [count, sumOfWeights]
  | _, _, abstractTailVariate | _, _, abstractTailWeights => [abstractTail]
  | false, .tail, quantile => [count, abstractTail]
  | false, .pSquare, quantile => [count, extendedPSquare]
  | false, .pot, quantile => [count, abstractPeaksOverThreshold]
  | false, .potProb, quantile => [count, abstractTail, abstractPeaksOverThreshold]
  | true, .tail, quantile => [sumOfWeights, abstractTail, abstractTailWeights]
  | true, .pSquare, quantile => [count, sumOfWeights, extendedPSquare]
  | true, .pot, quantile => [sumOfWeights, abstractPeaksOverThreshold]
  | true, .potProb, quantile => [sumOfWeights, abstractTail, abstractTailWeights, abstractPeaksOverThreshold]
  | false, .pot, abstractPeaksOverThreshold => [count]
  | false, _, abstractPeaksOverThreshold => [count, abstractTail]
  | true, .pot, abstractPeaksOverThreshold => [sumOfWeights]
  | true, _, abstractPeaksOverThreshold => [sumOfWeights, abstractTail, abstractTailWeights]
  | false, _, abstractNonCoherentTailMean => [count, abstractTail]
  | true, _, abstractNonCoherentTailMean => [sumOfWeights, abstractTail, abstractTailWeights]
  | _, _, rollingCount | _, _, rollingSum | _, _, rollingWindow => [rollingWindowPlus1]
  | _, _, rollingMean | _, _, rollingMoment _ => [rollingWindowPlus1, rollingCount]
  | _, _, rollingVariance => [rollingWindowPlus1, rollingCount, rollingMean, rollingMoment 2]
  | _, _, _ => []

/-- Features nothing depends on. -/
def isTop : StdF → Bool
  | skewness | kurtosis | abstractCovariance | errorOfMean | errorOfImmediateMean | median | tailMean
  | abstractAbsoluteTailVariateMeans | abstractRelativeTailVariateMeans | rollingVariance => true
  | _ => false

set_option maxHeartbeats 4000000 in
theorem upper_bounds (w : Bool) (q : QFamily) (a : StdF) :
    (!nice w q a || isTop (key a) || (stdLib.bases a).all fun g => (upper w q (key a)).contains g) = true := by
  cases w <;> cases q <;> cases a <;> rfl

set_option maxHeartbeats 4000000 in
theorem upper_known (w : Bool) (q : QFamily) (p : StdF) :
    (!nice w q p || (stdLib.bases p).all fun g =>
      !isTop g && (upper w q g).all fun h => (stdLib.bases p).contains h) = true := by
  cases w <;> cases q <;> cases p <;> rfl

set_option maxHeartbeats 4000000 in
theorem nice_deps (w : Bool) (q : QFamily) (p : StdF) :
    (!nice w q p || (depBases p).all fun d => nice w q (if w then weighted d else d)) = true := by
  cases w <;> cases q <;> cases p <;> rfl

end StdF

end Acc
